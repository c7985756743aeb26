import Verif.Model.Objects
import Verif.Props.Types
import Mathlib.Data.List.Induction

/-!
# C110–C113: construction and later assignment of operator objects
-/

namespace Verif
open Types Objects

variable {F G C : Type}

/-- `True` for the arguments Python can call. -/
def IsCallable : Arg F → Prop
  | .callable _ => True
  | .notCallable => False

/-! ## C110: a rejected construction and the caller's array -/

/-- **C110 refuted.**  Whenever the data is an accepted array and one of the operators is not callable, the
constructor raises `TypeError` and yet the caller's array has become read-only: the same assignment that worked
before the call raises `ValueError` after it. -/
theorem C110_rejected_operator_freezes_data (h : Heap) (r : ℕ) (a : Arr) (t : Option DType)
    (hr : h[r]? = some a) (hw : a.writeable = true) (ht : t = none ∨ t = some a.dtype)
    (op transOp : Arg F) (gg : Option (Arg G)) (c : Option (Arg C))
    (hbad : ¬ IsCallable op ∨ ¬ IsCallable transOp) :
    (parentInit h (.arr r) t false op transOp gg c).2 = .error .typeError ∧
    ∀ i q, (∃ h', writeElem h r i q = .ok h') ∧
      writeElem (parentInit h (.arr r) t false op transOp gg c).1 r i q = .error .valueError := by
  have hlt : r < h.length := (List.getElem?_eq_some_iff.1 hr).1
  have hset : setObsData h (.arr r) t false = .ok (h.set r { a with writeable := false }, .arr r) := by
    rcases ht with rfl | rfl
    · simp [setObsData, checkNpndarray, hr, bind, Except.bind]
    · by_cases hf : a.dtype = .floating
      · simp [setObsData, checkFloat, checkNpndarray, hr, hf, bind, Except.bind]
      · simp [setObsData, checkNpndarray, hr, hf, bind, Except.bind]
  simp only [parentInit, hset]
  refine ⟨?_, fun i q => ⟨⟨_, by simp [writeElem, hr, hw]; rfl⟩, ?_⟩⟩
  · cases op <;> cases transOp <;>
      simp_all [IsCallable, Arg.check, checkCallable, bind, Except.bind]
  · simp [writeElem, hlt]

/-- **C110, what holds.**  For every argument list, whether the construction succeeds or not, no array that
existed before changes its element type or its numbers, and an array other than the data argument is not touched at
all.  Missing: the write flag of the data argument. -/
theorem C110_values_untouched_partial (h : Heap) (v : Val) (t : Option DType) (w : Bool)
    (op transOp : Arg F) (gg : Option (Arg G)) (c : Option (Arg C)) (r : ℕ) (a : Arr) (hr : h[r]? = some a) :
    ∃ a', (parentInit h v t w op transOp gg c).1[r]? = some a' ∧ a'.dtype = a.dtype ∧ a'.data = a.data ∧
      (v ≠ .arr r → a' = a) := by
  have hlt : r < h.length := (List.getElem?_eq_some_iff.1 hr).1
  suffices H : ∀ h' v', setObsData h v t w = .ok (h', v') →
      ∃ a', h'[r]? = some a' ∧ a'.dtype = a.dtype ∧ a'.data = a.data ∧ (v ≠ .arr r → a' = a) by
    unfold parentInit
    cases hs : setObsData h v t w with
    | error e => exact ⟨a, hr, rfl, rfl, fun _ => rfl⟩
    | ok p => exact H p.1 p.2 hs
  -- the array check on any heap that extends the old one
  have key : ∀ (k : Heap) (u : Val) (h' : Heap), k[r]? = some a → checkNpndarray k u t w = .ok h' →
      ∃ a', h'[r]? = some a' ∧ a'.dtype = a.dtype ∧ a'.data = a.data ∧ (u ≠ .arr r → a' = a) := by
    intro k u h' hk hc
    have hklt : r < k.length := (List.getElem?_eq_some_iff.1 hk).1
    cases u with
    | arr s =>
      simp only [checkNpndarray] at hc
      cases hks : k[s]? with
      | none => rw [hks] at hc; cases hc
      | some b =>
        rw [hks] at hc
        by_cases hd : t ≠ none ∧ t ≠ some b.dtype
        · simp only [if_pos hd] at hc; cases hc
        · simp only [if_neg hd] at hc
          cases hc
          by_cases hsr : s = r
          · subst hsr
            rw [hk] at hks; cases hks
            exact ⟨{ a with writeable := w }, by simp [hklt], rfl, rfl, fun hne => absurd rfl hne⟩
          · exact ⟨a, by rw [List.getElem?_set_ne hsr]; exact hk, rfl, rfl, fun _ => rfl⟩
    | _ => simp [checkNpndarray] at hc
  have app : ∀ b : Arr, (h ++ [b])[r]? = some a := fun b => by
    rw [List.getElem?_append_left hlt]; exact hr
  intro h' v' hs
  by_cases hf : t = some .floating
  · simp only [setObsData, if_pos hf] at hs
    cases v with
    | other => simp [checkFloat, bind, Except.bind] at hs
    | badSeq => simp [checkFloat, bind, Except.bind] at hs
    | int n => simp [checkFloat, checkNpndarray, bind, Except.bind] at hs
    | float q => simp [checkFloat, checkNpndarray, bind, Except.bind] at hs
    | seq l =>
      simp only [checkFloat, alloc, bind, Except.bind] at hs
      cases hc : checkNpndarray (h ++ [⟨.floating, l, true⟩]) (.arr h.length) t w with
      | error e => rw [hc] at hs; cases hs
      | ok k =>
        rw [hc] at hs; cases hs
        obtain ⟨a', e1, e2, e3, e4⟩ := key _ _ _ (app _) hc
        exact ⟨a', e1, e2, e3, fun _ => e4 (by simp; omega)⟩
    | arr s =>
      simp only [checkFloat] at hs
      cases hss : h[s]? with
      | none => rw [hss] at hs; simp [bind, Except.bind] at hs
      | some b =>
        rw [hss] at hs
        by_cases hb : b.dtype ≠ .floating
        · simp only [if_pos hb, alloc, bind, Except.bind] at hs
          cases hc : checkNpndarray (h ++ [⟨.floating, b.data, true⟩]) (.arr h.length) t w with
          | error e => rw [hc] at hs; cases hs
          | ok k =>
            rw [hc] at hs; cases hs
            obtain ⟨a', e1, e2, e3, e4⟩ := key _ _ _ (app _) hc
            exact ⟨a', e1, e2, e3, fun _ => e4 (by simp; omega)⟩
        · simp only [if_neg hb, bind, Except.bind] at hs
          cases hc : checkNpndarray h (.arr s) t w with
          | error e => rw [hc] at hs; cases hs
          | ok k => rw [hc] at hs; cases hs; exact key _ _ _ hr hc
  · simp only [setObsData, if_neg hf, bind, Except.bind] at hs
    cases hc : checkNpndarray h v t w with
    | error e => rw [hc] at hs; cases hs
    | ok k => rw [hc] at hs; cases hs; exact key _ _ _ hr hc

/-- When the data argument itself is rejected nothing at all has changed. -/
theorem C110_rejected_data_changes_nothing (h : Heap) (v : Val) (t : Option DType) (w : Bool) (e : PyErr)
    (op transOp : Arg F) (gg : Option (Arg G)) (c : Option (Arg C)) (he : setObsData h v t w = .error e) :
    parentInit h v t w op transOp gg c = (h, .error e) := by
  simp [parentInit, he]

-- A writable float array and a transpose operator that is a number.
example : (parentInit (F := ℕ) (G := ℕ) (C := ℕ) [⟨.floating, [1, 2], true⟩] (.arr 0) none false
    (.callable 7) .notCallable none none).2.toOption.isNone = true ∧
    (parentInit (F := ℕ) (G := ℕ) (C := ℕ) [⟨.floating, [1, 2], true⟩] (.arr 0) none false
      (.callable 7) .notCallable none none).1 = [⟨.floating, [1, 2], false⟩] := by
  constructor <;> rfl

-- A list is not an accepted data argument unless it is converted.
example : setObsData [] (.seq [1, 2]) none false = .error .typeError := rfl

/-! ## C111: methods given by the user -/

/-- The general gradient class uses exactly the methods it was given, and has none it was not given. -/
theorem C111_parent_uses_given_methods (h : Heap) (v : Val) (t : Option DType) (w : Bool)
    (op transOp : Arg F) (gg : Option (Arg G)) (c : Option (Arg C)) (o : Grad F G C)
    (ho : (parentInit h v t w op transOp gg c).2 = .ok o) :
    op = .callable o.op ∧ transOp = .callable o.transOp ∧
    (∀ g, getAttr o.getGrad = .ok g ↔ gg = some (.callable g)) ∧
    (getAttr o.getGrad = .error .attributeError ↔ gg = none) ∧
    (∀ k, getAttr o.cost = .ok k ↔ c = some (.callable k)) ∧
    (getAttr o.cost = .error .attributeError ↔ c = none) := by
  unfold parentInit at ho
  cases hs : setObsData h v t w with
  | error e => rw [hs] at ho; cases ho
  | ok p =>
    rw [hs] at ho
    rcases op with f | _ <;> rcases transOp with f' | _ <;> rcases gg with _ | (g | _) <;>
      rcases c with _ | (k | _) <;>
      simp [Arg.check, checkCallable, checkOptional, Except.map, bind, Except.bind] at ho <;>
      subst ho <;> simp [getAttr, eq_comm]

/-- **C111 refuted.**  The basic gradient class accepts a gradient method and a cost and uses neither: two
constructions that differ only in these arguments give the same object. -/
theorem C111_basic_ignores_given_methods (og : G) (oc : C) (h : Heap) (v : Val) (t : Option DType) (w : Bool)
    (op transOp : Arg F) (g g' : G) (k k' : C) :
    basicInit og oc h v t w op transOp (some (.callable g)) (some (.callable k)) =
      basicInit og oc h v t w op transOp (some (.callable g')) (some (.callable k')) ∧
    ∀ o, (basicInit og oc h v t w op transOp (some (.callable g)) (some (.callable k))).2 = .ok o →
      getAttr o.getGrad = .ok og ∧ getAttr o.cost = .ok oc := by
  unfold basicInit parentInit
  cases hs : setObsData h v t w with
  | error e => exact ⟨rfl, fun o ho => by cases ho⟩
  | ok p =>
    rcases op with f | _ <;> rcases transOp with f' | _ <;>
      simp [Arg.check, checkCallable, checkOptional, Except.map, bind, Except.bind, getAttr]

/-- The ignored arguments are nevertheless checked: anything not callable is refused. -/
theorem C111_basic_checks_ignored_methods (og : G) (oc : C) (h : Heap) (v : Val) (t : Option DType) (w : Bool)
    (op transOp : Arg F) (gg : Option (Arg G)) (c : Option (Arg C))
    (hbad : gg = some .notCallable ∨ c = some .notCallable) :
    ∃ e, (basicInit og oc h v t w op transOp gg c).2 = .error e := by
  unfold basicInit parentInit
  cases hs : setObsData h v t w with
  | error e => exact ⟨e, rfl⟩
  | ok p =>
    rcases op with f | _ <;> rcases transOp with f' | _ <;> rcases gg with _ | (g | _) <;>
      rcases c with _ | (k | _) <;>
      simp_all [Arg.check, checkCallable, checkOptional, Except.map, bind, Except.bind]

/-- Construction succeeds exactly when the data is accepted and everything given is callable; leaving out a method is
allowed.  The data checks alone decide what is done to the caller's arrays, in both classes. -/
theorem C111_acceptance (og : G) (oc : C) (h : Heap) (v : Val) (t : Option DType) (w : Bool)
    (op transOp : Arg F) (gg : Option (Arg G)) (c : Option (Arg C)) :
    ((∃ o, (parentInit h v t w op transOp gg c).2 = .ok o) ↔
      (∃ p, setObsData h v t w = .ok p) ∧ IsCallable op ∧ IsCallable transOp ∧
        (∀ a, gg = some a → IsCallable a) ∧ ∀ a, c = some a → IsCallable a) ∧
    ((∃ o, (basicInit og oc h v t w op transOp gg c).2 = .ok o) ↔
      ∃ o, (parentInit h v t w op transOp gg c).2 = .ok o) ∧
    (basicInit og oc h v t w op transOp gg c).1 = (parentInit h v t w op transOp gg c).1 := by
  refine ⟨?_, ?_, rfl⟩
  · unfold parentInit
    cases hs : setObsData h v t w with
    | error e => simp
    | ok p =>
      rcases op with f | _ <;> rcases transOp with f' | _ <;> rcases gg with _ | (g | _) <;>
        rcases c with _ | (k | _) <;>
        simp [Arg.check, checkCallable, checkOptional, Except.map, bind, Except.bind, IsCallable]
  · simp only [basicInit]
    cases hp : (parentInit h v t w op transOp gg c).2 <;> simp [Except.map]

/-- The stored data of a constructed object is an array with the numbers of the argument, of the requested element
type, with the requested write flag, in both classes. -/
theorem C24_stored_data (og : G) (oc : C) (h : Heap) (r : ℕ) (a : Arr) (t : Option DType) (w : Bool)
    (hr : h[r]? = some a) (op transOp : Arg F) (gg : Option (Arg G)) (c : Option (Arg C)) (o o' : Grad F G C)
    (ho : (parentInit h (.arr r) t w op transOp gg c).2 = .ok o)
    (ho' : (basicInit og oc h (.arr r) t w op transOp gg c).2 = .ok o') :
    o'.obs = o.obs ∧ o'.op = o.op ∧ o'.transOp = o.transOp ∧
    ∃ s b, o.obs = .arr s ∧ (parentInit h (.arr r) t w op transOp gg c).1[s]? = some b ∧ b.data = a.data ∧
      (∀ d, t = some d → b.dtype = d) ∧ b.writeable = w := by
  have hlt : r < h.length := (List.getElem?_eq_some_iff.1 hr).1
  have hb : o' = { o with getGrad := some og, cost := some oc } := by
    simp only [basicInit, ho, Except.map] at ho'
    exact (Except.ok.inj ho').symm
  subst hb
  refine ⟨rfl, rfl, rfl, ?_⟩
  have hobs : ∀ p, setObsData h (.arr r) t w = .ok p →
      o.obs = p.2 ∧ (parentInit h (.arr r) t w op transOp gg c).1 = p.1 := by
    intro p hp
    simp only [parentInit, hp] at ho ⊢
    rcases op with f | _ <;> rcases transOp with f' | _ <;> rcases gg with _ | (g | _) <;>
      rcases c with _ | (k | _) <;>
      simp [Arg.check, checkCallable, checkOptional, Except.map, bind, Except.bind] at ho <;>
      subst ho <;> simp
  by_cases hconv : t = some .floating ∧ a.dtype ≠ .floating
  · obtain ⟨rfl, hd⟩ := hconv
    have hs : setObsData h (.arr r) (some .floating) w =
        .ok (List.set (h ++ [(⟨.floating, a.data, true⟩ : Arr)]) h.length (⟨.floating, a.data, w⟩ : Arr), .arr h.length) := by
      simp [setObsData, checkFloat, hr, hd, alloc, checkNpndarray, bind, Except.bind]
    obtain ⟨e1, e2⟩ := hobs _ hs
    refine ⟨h.length, ⟨.floating, a.data, w⟩, e1, ?_, rfl, ?_, rfl⟩
    · rw [e2]; simp
    · intro d hd'; cases hd'; rfl
  · by_cases hok : t = none ∨ t = some a.dtype
    · have hs : setObsData h (.arr r) t w = .ok (h.set r { a with writeable := w }, .arr r) := by
        rcases hok with rfl | rfl
        · simp [setObsData, checkNpndarray, hr, bind, Except.bind]
        · by_cases hf : a.dtype = .floating
          · simp [setObsData, checkFloat, checkNpndarray, hr, hf, bind, Except.bind]
          · simp [setObsData, checkNpndarray, hr, hf, bind, Except.bind]
      obtain ⟨e1, e2⟩ := hobs _ hs
      refine ⟨r, { a with writeable := w }, e1, ?_, rfl, ?_, rfl⟩
      · rw [e2]; simp [hlt]
      · intro d hd
        rcases hok with rfl | rfl
        · cases hd
        · cases hd; rfl
    · exfalso
      push Not at hok
      have hf : t ≠ some .floating := by
        intro hf
        subst hf
        by_cases hd : a.dtype = .floating
        · exact hok.2 (by rw [hd])
        · exact hconv ⟨rfl, hd⟩
      have hs : setObsData h (.arr r) t w = .error .typeError := by
        simp only [setObsData, if_neg hf, bind, Except.bind, checkNpndarray, hr, if_pos hok]
      simp [parentInit, hs] at ho

example : (basicInit (F := ℕ) 10 20 [⟨.floating, [1], true⟩] (.arr 0) none false (.callable 1) (.callable 2)
    (some (.callable 3)) (some (.callable 4))).2.toOption.map (fun o => (o.getGrad, o.cost)) =
    some (some 10, some 20) := rfl

example : (parentInit [⟨.floating, [1], true⟩] (.arr 0) none false (.callable 1) (.callable 2)
    (some (.callable 3)) (none : Option (Arg ℕ))).2.toOption.map (fun o => (o.getGrad, o.cost)) =
    some (some 3, none) := rfl

-- Integer data and a floating data type: both constructions succeed and store a converted copy.
example : (parentInit (G := ℕ) (C := ℕ) [⟨.integer, [1, 2], true⟩] (.arr 0) (some .floating) false (.callable 1)
    (.callable 2) none none).1 = [⟨.integer, [1, 2], true⟩, ⟨.floating, [1, 2], false⟩] := rfl

/-! ## C112: the stored gradient -/

variable {ι κ : Type}

/-- Reading `grad` before any gradient was computed raises; after any sequence of computations it is the
gradient at the last point, provided the data type is not a real one. -/
theorem C112_grad_is_last_gradient_partial (op : (ι → ℂ) → κ → ℂ) (transOp : (κ → ℂ) → ι → ℂ) (y : κ → ℂ)
    (xs : List (ι → ℂ)) (x : ι → ℂ) :
    getAttr (([] : List (ι → ℂ)).foldl (getGradBasic false op transOp y) none) = .error .attributeError ∧
    getAttr ((xs ++ [x]).foldl (getGradBasic false op transOp y) none) = .ok (transOp fun k => op x k - y k) := by
  constructor
  · rfl
  · simp [List.foldl_append, getGradBasic, setGrad, getAttr]

/-- **C112 refuted.**  With a real data type the stored value is the gradient exactly when the gradient is real;
otherwise its imaginary part is lost. -/
theorem C112_real_data_type_drops_imaginary (op : (ι → ℂ) → κ → ℂ) (transOp : (κ → ℂ) → ι → ℂ) (y : κ → ℂ)
    (xs : List (ι → ℂ)) (x : ι → ℂ) :
    ∃ g, getAttr ((xs ++ [x]).foldl (getGradBasic true op transOp y) none) = .ok g ∧
      (∀ i, (g i).re = (transOp (fun k => op x k - y k) i).re ∧ (g i).im = 0) ∧
      (g = (transOp fun k => op x k - y k) ↔ ∀ i, (transOp (fun k => op x k - y k) i).im = 0) := by
  refine ⟨setGrad true (transOp fun k => op x k - y k), ?_, ?_, ?_⟩
  · simp [List.foldl_append, getGradBasic, getAttr]
  · intro i; simp [setGrad]
  · constructor
    · intro h i
      rw [← h]; simp [setGrad]
    · intro h
      funext i
      apply Complex.ext
      · simp [setGrad]
      · simp [setGrad, h i]

-- The identity operator at an imaginary point.
example : ¬ ∀ i : Fin 2, ((fun k => (fun _ => Complex.I : Fin 2 → ℂ) k - (0 : Fin 2 → ℂ) k) i).im = 0 := by
  intro h; simpa using h 0

/-! ## C113: assigning operators later -/

/-- The last callable argument of a history, or the operator before it. -/
def lastCallable (f : F) : List (Arg F) → F
  | [] => f
  | .callable g :: l => lastCallable g l
  | .notCallable :: l => lastCallable f l

/-- Whatever the user assigns, in whatever order, catching the errors: a checked attribute always holds the last
callable it was given; an assignment is refused exactly when its value is not callable. -/
theorem C113_checked_attribute_always_callable_partial {X Y : Type} (f : X → Y) (hist : List (Arg (X → Y)))
    (x : X) :
    call (hist.foldl (fun s a => (assign s a).1) (.fn f)) x = .ok (lastCallable f hist x) ∧
    ∀ (s : Slot (X → Y)) (a : Arg (X → Y)),
      ((assign s a).2 = .ok () ↔ IsCallable a) ∧ ((assign s a).2 = .error .typeError ↔ ¬ IsCallable a) := by
  constructor
  · induction hist generalizing f with
    | nil => rfl
    | cons a l ih =>
      cases a with
      | callable g => simpa [assign, Arg.check, checkCallable, lastCallable] using ih g
      | notCallable => simpa [assign, Arg.check, lastCallable] using ih f
  · intro s a
    cases a <;> simp [assign, Arg.check, checkCallable, IsCallable]

/-- **C113 refuted for the positivity operator.**  Every assignment is accepted, and after a last assignment that is
not callable, every call raises, whatever happened before. -/
theorem C113_positivity_accepts_anything {X Y : Type} (f : X → Y) (hist : List (Arg (X → Y))) (x : X) :
    (∀ (s : Slot (X → Y)) (a : Arg (X → Y)), (assignPositivity s a).2 = .ok ()) ∧
    call ((hist ++ [Arg.notCallable]).foldl (fun s a => (assignPositivity s a).1) (.fn f)) x = .error .typeError := by
  constructor
  · intro s a; cases a <;> rfl
  · simp [List.foldl_append, assignPositivity, call]

/-- Construction accepts exactly two callables and then holds them. -/
theorem C113_construction (op : Arg F) (cost : Arg C) :
    (∀ f c, proxInit op cost = .ok (.fn f, .fn c) ↔ op = .callable f ∧ cost = .callable c) ∧
    (proxInit op cost = .error .typeError ↔ ¬ (IsCallable op ∧ IsCallable cost)) := by
  cases op <;> cases cost <;>
    simp [proxInit, Arg.check, checkCallable, IsCallable, bind, Except.bind]

example : lastCallable (· + 1) [.callable (· + 2), .notCallable, .callable (· * 3), .notCallable] 5 = 15 := rfl

end Verif
