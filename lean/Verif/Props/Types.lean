import Verif.Model.Types
import Mathlib.Tactic.Linarith

/-!
# C24, C73: type checks and the write flag
-/

namespace Verif
open Types

/-- The numbers a value holds: a scalar holds one. -/
def numbersOf (h : Heap) : Val → Option (List ℚ)
  | .int n => some [(n : ℚ)]
  | .float q => some [q]
  | .seq l => some l
  | .arr r => (h[r]?).map (·.data)
  | _ => none

/-- An accepted input: an integer, a float, a numeric list or tuple, or an existing array. -/
def Accepted (h : Heap) : Val → Prop
  | .int _ | .float _ | .seq _ => True
  | .arr r => r < h.length
  | _ => False

/-- A value is floating: a float or an array of a floating type. -/
def IsFloating (h : Heap) : Val → Prop
  | .float _ => True
  | .arr r => ∃ a, h[r]? = some a ∧ a.dtype = .floating
  | _ => False

/-- A value is an integer or an integer array. -/
def IsInteger (h : Heap) : Val → Prop
  | .int _ => True
  | .arr r => ∃ a, h[r]? = some a ∧ a.dtype = .integer
  | _ => False

theorem alloc_get (h : Heap) (a : Arr) : (h ++ [a])[h.length]? = some a := by simp

/-! ## C73 -/

/-- C73: `check_float` accepts exactly integers, floats, lists, tuples and arrays; its result is floating
and holds the same numbers; existing arrays keep their content. -/
theorem C73_check_float (h : Heap) (v : Val) :
    (Accepted h v ↔ ∃ h' v', checkFloat h v = .ok (h', v')) ∧
    ∀ h' v', checkFloat h v = .ok (h', v') →
      IsFloating h' v' ∧ numbersOf h' v' = numbersOf h v ∧ ∀ (r : ℕ) a, h[r]? = some a → h'[r]? = some a := by
  cases v with
  | int n => simp [checkFloat, Accepted, IsFloating, numbersOf]
  | float q => simp [checkFloat, Accepted, IsFloating, numbersOf]
  | badSeq => simp [checkFloat, Accepted]
  | other => simp [checkFloat, Accepted]
  | seq l =>
    refine ⟨by simp [checkFloat, Accepted, alloc], ?_⟩
    rintro h' v' he
    simp only [checkFloat, alloc, Except.ok.injEq, Prod.mk.injEq] at he
    obtain ⟨rfl, rfl⟩ := he
    refine ⟨⟨_, alloc_get h _, rfl⟩, by simp [numbersOf], fun r a hr => ?_⟩
    rw [List.getElem?_append_left (List.getElem?_eq_some_iff.1 hr).1]; exact hr
  | arr r =>
    cases hr : h[r]? with
    | none =>
      have : ¬ r < h.length := by simpa using hr
      simp [checkFloat, Accepted, this]
    | some a =>
      have hlt : r < h.length := (List.getElem?_eq_some_iff.1 hr).1
      by_cases hd : a.dtype = .floating
      · simp only [checkFloat, hr, hd, ne_eq, not_true, if_false, Accepted, hlt, true_iff]
        refine ⟨⟨_, _, rfl⟩, fun h' v' he => ?_⟩
        simp only [Except.ok.injEq, Prod.mk.injEq] at he
        obtain ⟨rfl, rfl⟩ := he
        exact ⟨⟨a, hr, hd⟩, rfl, fun _ _ h => h⟩
      · simp only [checkFloat, hr, ne_eq, hd, not_false_eq_true, if_true, Accepted, hlt, true_iff]
        refine ⟨⟨_, _, rfl⟩, fun h' v' he => ?_⟩
        simp only [alloc, Except.ok.injEq, Prod.mk.injEq] at he
        obtain ⟨rfl, rfl⟩ := he
        refine ⟨⟨_, alloc_get h _, rfl⟩, by simp [numbersOf, hr], fun r a hr => ?_⟩
        rw [List.getElem?_append_left (List.getElem?_eq_some_iff.1 hr).1]; exact hr

/-- `t` is `q` rounded towards zero. -/
def TowardsZero (q : ℚ) (t : ℤ) : Prop :=
  (0 ≤ q → (t : ℚ) ≤ q ∧ q < t + 1) ∧ (q < 0 → q ≤ t ∧ (t : ℚ) - 1 < q)

/-- C73: `trunc`, used by `check_int`, rounds towards zero. -/
theorem C73_trunc (q : ℚ) : TowardsZero q (trunc q) := by
  unfold TowardsZero trunc
  constructor
  · intro h
    rw [if_pos h]
    exact ⟨Int.floor_le q, Int.lt_floor_add_one q⟩
  · intro h
    rw [if_neg (not_le.2 h)]
    refine ⟨Int.le_ceil q, ?_⟩
    have := Int.ceil_lt_add_one q
    linarith

theorem trunc_int (n : ℤ) : trunc n = n := by
  unfold trunc; split_ifs <;> simp

/-- C73: `check_int` accepts the same inputs; its result is an integer (array) and holds the numbers
truncated towards zero, unless the input is already an integer array. -/
theorem C73_check_int (h : Heap) (v : Val) :
    (Accepted h v ↔ ∃ h' v', checkInt h v = .ok (h', v')) ∧
    ∀ h' v', checkInt h v = .ok (h', v') →
      IsInteger h' v' ∧
      (IsInteger h v → h' = h ∧ v' = v) ∧
      (¬ IsInteger h v → ∃ l, numbersOf h v = some l ∧
        ∃ t : List ℤ, numbersOf h' v' = some (t.map fun z : ℤ => (z : ℚ)) ∧ List.Forall₂ TowardsZero l t) ∧
      ∀ (r : ℕ) a, h[r]? = some a → h'[r]? = some a := by
  have all : ∀ l : List ℚ, List.Forall₂ TowardsZero l (l.map trunc) := by
    intro l
    induction l with
    | nil => exact .nil
    | cons a l ih => exact .cons (C73_trunc a) ih
  cases v with
  | int n => simp [checkInt, Accepted, IsInteger]
  | float q =>
    simp only [checkInt, Accepted, IsInteger, numbersOf, true_iff]
    refine ⟨⟨_, _, rfl⟩, fun h' v' he => ?_⟩
    simp only [Except.ok.injEq, Prod.mk.injEq] at he
    obtain ⟨rfl, rfl⟩ := he
    exact ⟨trivial, fun h => h.elim, fun _ => ⟨[q], rfl, [trunc q], rfl, all [q]⟩, fun _ _ h => h⟩
  | badSeq => simp [checkInt, Accepted]
  | other => simp [checkInt, Accepted]
  | seq l =>
    refine ⟨by simp [checkInt, Accepted, alloc], ?_⟩
    rintro h' v' he
    simp only [checkInt, alloc, Except.ok.injEq, Prod.mk.injEq] at he
    obtain ⟨rfl, rfl⟩ := he
    refine ⟨⟨_, alloc_get h _, rfl⟩, fun h => h.elim, fun _ => ⟨l, rfl, l.map trunc, ?_, all l⟩,
      fun r a hr => ?_⟩
    · simp [numbersOf]
    · rw [List.getElem?_append_left (List.getElem?_eq_some_iff.1 hr).1]; exact hr
  | arr r =>
    cases hr : h[r]? with
    | none =>
      have : ¬ r < h.length := by simpa using hr
      simp [checkInt, Accepted, this]
    | some a =>
      have hlt : r < h.length := (List.getElem?_eq_some_iff.1 hr).1
      by_cases hd : a.dtype = .integer
      · simp only [checkInt, hr, hd, ne_eq, not_true, if_false, Accepted, hlt, true_iff]
        refine ⟨⟨_, _, rfl⟩, fun h' v' he => ?_⟩
        simp only [Except.ok.injEq, Prod.mk.injEq] at he
        obtain ⟨rfl, rfl⟩ := he
        exact ⟨⟨a, hr, hd⟩, fun _ => ⟨rfl, rfl⟩, fun hn => absurd ⟨a, hr, hd⟩ hn, fun _ _ h => h⟩
      · simp only [checkInt, hr, ne_eq, hd, not_false_eq_true, if_true, Accepted, hlt, true_iff]
        refine ⟨⟨_, _, rfl⟩, fun h' v' he => ?_⟩
        simp only [alloc, Except.ok.injEq, Prod.mk.injEq] at he
        obtain ⟨rfl, rfl⟩ := he
        refine ⟨⟨_, alloc_get h _, rfl⟩, ?_, fun _ => ⟨a.data, by simp [numbersOf, hr], a.data.map trunc,
          by simp [numbersOf], all _⟩, fun r a hr => ?_⟩
        · rintro ⟨b, hb, hbd⟩
          rw [hr] at hb
          exact absurd (Option.some.inj hb ▸ hbd) hd
        · rw [List.getElem?_append_left (List.getElem?_eq_some_iff.1 hr).1]; exact hr

/-- C73: values of other types are refused with `TypeError`, inconvertible sequences with `ValueError`,
by both functions. -/
theorem C73_errors (h : Heap) :
    checkFloat h .other = .error .typeError ∧ checkInt h .other = .error .typeError ∧
    checkFloat h .badSeq = .error .valueError ∧ checkInt h .badSeq = .error .valueError :=
  ⟨rfl, rfl, rfl, rfl⟩

/-- C73: a floating input comes back as the same object, so that caller and callee share it; a converted
one is a new object. -/
theorem C73_identity (h h' : Heap) (r : ℕ) (a : Arr) (v' : Val) (hr : h[r]? = some a)
    (he : checkFloat h (.arr r) = .ok (h', v')) :
    (a.dtype = .floating → v' = .arr r ∧ h' = h) ∧
    (a.dtype ≠ .floating → ∃ r', v' = .arr r' ∧ h[r']? = none ∧ r' ≠ r) := by
  have hlt : r < h.length := (List.getElem?_eq_some_iff.1 hr).1
  simp only [checkFloat, hr] at he
  constructor
  · intro hd
    simp only [hd, ne_eq, not_true, if_false, Except.ok.injEq, Prod.mk.injEq] at he
    exact ⟨he.2.symm, he.1.symm⟩
  · intro hd
    simp only [ne_eq, hd, not_false_eq_true, if_true, alloc, Except.ok.injEq, Prod.mk.injEq] at he
    exact ⟨h.length, he.2.symm, by simp, by omega⟩

/-- C73: `check_callable` returns its argument exactly if it is callable. -/
theorem C73_check_callable {A : Type} (c : Bool) (x y : A) :
    checkCallable c x = .ok y ↔ c = true ∧ x = y := by
  cases c <;> simp [checkCallable]

example : checkInt [⟨.floating, [3/2, -3/2, 2], true⟩] (.arr 0)
    = .ok ([⟨.floating, [3/2, -3/2, 2], true⟩, ⟨.integer, [1, -1, 2], true⟩], .arr 1) := by
  decide +kernel

/-! ## C24 -/

/-- C24: if the data passed to a gradient operator is an array of the requested type (or no type is
requested), construction succeeds and the operator shares the caller's object, unchanged except that it
is now read-only: every later write through the caller's reference raises. -/
theorem C24_caller_array_frozen (h : Heap) (r : ℕ) (a : Arr) (t : Option DType) (hr : h[r]? = some a)
    (ht : t = none ∨ t = some a.dtype) :
    ∃ h', setObsData h (.arr r) t false = .ok (h', .arr r) ∧
      (∃ a', h'[r]? = some a' ∧ a'.data = a.data ∧ a'.dtype = a.dtype) ∧
      (∀ s : ℕ, s ≠ r → h'[s]? = h[s]?) ∧
      ∀ i q, writeElem h' r i q = .error .valueError := by
  have hlt : r < h.length := (List.getElem?_eq_some_iff.1 hr).1
  have hcheck : ¬ (t ≠ none ∧ t ≠ some a.dtype) := by rintro ⟨h1, h2⟩; rcases ht with h | h <;> contradiction
  refine ⟨h.set r { a with writeable := false }, ?_,
    ⟨{ a with writeable := false }, by simp [hlt], rfl, rfl⟩, fun s hs => ?_,
    fun i q => ?_⟩
  · have hfl : (if t = some .floating then checkFloat h (.arr r) else .ok (h, .arr r) : Py (Heap × Val))
        = .ok (h, .arr r) := by
      split_ifs with hc
      · rcases ht with h0 | h0
        · rw [h0] at hc; cases hc
        · have : a.dtype = .floating := by rw [h0] at hc; exact Option.some.inj hc
          simp [checkFloat, hr, this]
      · rfl
    simp only [setObsData, hfl, bind, Except.bind, checkNpndarray, hr, if_neg hcheck]
  · rw [List.getElem?_set_ne (Ne.symm hs)]
  · simp [writeElem, hlt]

/-- C24: a float-typed operator given an array of another type freezes only its private copy: every array
of the caller stays as it was. -/
theorem C24_private_copy (h : Heap) (r : ℕ) (a : Arr) (hr : h[r]? = some a) (hd : a.dtype ≠ .floating) :
    ∃ h' r', setObsData h (.arr r) (some .floating) false = .ok (h', .arr r') ∧ r' ≠ r ∧
      (∀ (s : ℕ) b, h[s]? = some b → h'[s]? = some b) ∧
      (∃ b, h'[r']? = some b ∧ b.data = a.data ∧ b.writeable = false) := by
  have hlt : r < h.length := (List.getElem?_eq_some_iff.1 hr).1
  refine ⟨h ++ [⟨.floating, a.data, false⟩], h.length, ?_, by omega, fun s b hs => ?_, ⟨_, alloc_get h _, rfl, rfl⟩⟩
  · simp [setObsData, checkFloat, hr, hd, alloc, bind, Except.bind, checkNpndarray]
  · rw [List.getElem?_append_left (List.getElem?_eq_some_iff.1 hs).1]; exact hs

/-- C24: data that is not an array is refused with `TypeError` when no floating conversion is requested;
an array of another than the requested type as well. -/
theorem C24_wrong_type (h : Heap) (v : Val) (t : Option DType) (w : Bool) (ht : t ≠ some .floating) :
    ((∀ r, v ≠ .arr r) → setObsData h v t w = .error .typeError) ∧
    (∀ r a, v = .arr r → h[r]? = some a → t ≠ none → t ≠ some a.dtype →
      setObsData h v t w = .error .typeError) := by
  constructor
  · intro hv
    cases v with
    | arr r => exact absurd rfl (hv r)
    | _ => simp [setObsData, ht, bind, Except.bind, checkNpndarray]
  · rintro r a rfl hr h1 h2
    simp [setObsData, ht, bind, Except.bind, checkNpndarray, hr, h1, h2]

/-- C24: also with floating conversion, a scalar is refused: the conversion yields a Python float. -/
theorem C24_scalar_refused (h : Heap) (w : Bool) (n : ℤ) (q : ℚ) :
    setObsData h (.int n) (some .floating) w = .error .typeError ∧
    setObsData h (.float q) (some .floating) w = .error .typeError := by
  constructor <;> rfl

/-- C24: `input_data_writeable=True` leaves the caller able to write, and the write is seen by the
operator, which shares the object. -/
theorem C24_writeable_option_shares (h : Heap) (r i : ℕ) (q : ℚ) (a : Arr) (hr : h[r]? = some a) :
    ∃ h' h'', setObsData h (.arr r) (some a.dtype) true = .ok (h', .arr r) ∧
      writeElem h' r i q = .ok h'' ∧ ∃ b, h''[r]? = some b ∧ b.data = a.data.set i q := by
  have hlt : r < h.length := (List.getElem?_eq_some_iff.1 hr).1
  have hfl : (if some a.dtype = some DType.floating then checkFloat h (.arr r) else .ok (h, .arr r)
      : Py (Heap × Val)) = .ok (h, .arr r) := by
    split_ifs with hc
    · simp [checkFloat, hr, Option.some.inj hc]
    · rfl
  refine ⟨h.set r { a with writeable := true },
    h.set r { a with writeable := true, data := a.data.set i q }, ?_, ?_, _, by simp [hlt]; rfl, rfl⟩
  · simp only [setObsData, hfl, bind, Except.bind, checkNpndarray, hr]
    rw [if_neg (by simp)]
  · simp [writeElem, hlt]

example : setObsData [⟨.floating, [1, 2], true⟩] (.arr 0) (some .floating) false
    = .ok ([⟨.floating, [1, 2], false⟩], .arr 0) := rfl
example : setObsData [⟨.integer, [1, 2], true⟩] (.arr 0) (some .floating) false
    = .ok ([⟨.integer, [1, 2], true⟩, ⟨.floating, [1, 2], false⟩], .arr 1) := rfl
end Verif
