import Verif.Model.Positivity
import Verif.Lemmas.Shrink
import Mathlib.Data.Rat.Lemmas
import Mathlib.Algebra.Order.Ring.Rat

/-!
# C25, C26: positivity
-/

set_option linter.unusedSectionVars false

namespace Verif
open Positivity Spec

/-! ## C25 -/

theorem positivityOp_eq {ι : Type*} (x : ι → ℝ) (i : ι) : positivityOp x i = max (x i) 0 := by
  unfold positivityOp posThresh Ext.gtZero
  by_cases h : 0 < x i
  · simp [h, Ext.mulBool, finVal, h.le]
  · simp [h, Ext.mulBool, finVal, not_lt.1 h]

/-- C25: `Positivity().op(x)` is the unique closest array to `x` with non-negative entries. -/
theorem C25_positivity_is_projection {ι : Type*} [Fintype ι] (x : ι → ℝ) :
    IsProjection {u : ι → ℝ | ∀ i, 0 ≤ u i} x (positivityOp x) := by
  have key : ∀ u : ι → ℝ, (∀ i, 0 ≤ u i) →
      halfSqDist x (positivityOp x) + 1 / 2 * ∑ i, (u i - positivityOp x i) ^ 2 ≤ halfSqDist x u := by
    intro u hu
    unfold halfSqDist
    rw [← mul_add, ← Finset.sum_add_distrib]
    refine mul_le_mul_of_nonneg_left (Finset.sum_le_sum fun i _ => ?_) (by norm_num)
    rw [positivityOp_eq, Real.norm_eq_abs, Real.norm_eq_abs, sq_abs, sq_abs]
    have := hu i
    rcases le_total (x i) 0 with h | h
    · rw [max_eq_right h]; nlinarith
    · rw [max_eq_left h]; nlinarith
  refine ⟨fun i => ?_, fun u hu => ⟨?_, fun h => ?_⟩⟩
  · rw [positivityOp_eq]; exact le_max_right _ _
  · have := key u hu
    have h2 : 0 ≤ 1 / 2 * ∑ i, (u i - positivityOp x i) ^ 2 := by positivity
    linarith
  · have := key u hu
    have h3 : ∑ i, (u i - positivityOp x i) ^ 2 ≤ 0 := by linarith
    have h4 := (Finset.sum_eq_zero_iff_of_nonneg (fun i _ => sq_nonneg (u i - positivityOp x i))).1
      (le_antisymm h3 (Finset.sum_nonneg fun i _ => sq_nonneg _))
    funext i
    have := h4 i (Finset.mem_univ i)
    rwa [sq_eq_zero_iff, sub_eq_zero] at this

/-- C25: the operator is idempotent. -/
theorem C25_positivity_idempotent {ι : Type*} (x : ι → ℝ) :
    positivityOp (positivityOp x) = positivityOp x := by
  funext i; rw [positivityOp_eq, positivityOp_eq]; simp

/-- C25: the operator is non-expansive. -/
theorem C25_positivity_nonexpansive {ι : Type*} [Fintype ι] (x y : ι → ℝ) :
    ∑ i, (positivityOp x i - positivityOp y i) ^ 2 ≤ ∑ i, (x i - y i) ^ 2 := by
  refine Finset.sum_le_sum fun i _ => ?_
  rw [positivityOp_eq, positivityOp_eq]
  exact sq_le_sq.2 (abs_max_sub_max_le_abs _ _ _)

/-- C25: positive entries are unchanged and the cost contribution is zero. -/
theorem C25_positive_entries_unchanged {ι : Type*} (x : ι → ℝ) :
    (∀ i, 0 ≤ x i → positivityOp x i = x i) ∧ (∀ i, x i ≤ 0 → positivityOp x i = 0) ∧
    positivityCost x = 0 :=
  ⟨fun i h => by rw [positivityOp_eq, max_eq_left h],
   fun i h => by rw [positivityOp_eq, max_eq_right h], rfl⟩

example : positivityOp (![-5, 0, 3] : Fin 3 → ℝ) = ![0, 0, 3] := by
  funext i; rw [positivityOp_eq]; fin_cases i <;> simp

/-! ## C26 -/

variable {K : Type} [Field K] [LinearOrder K] [IsStrictOrderedRing K]

/-- What the documentation says happens to one number: negative ones become zero, the others stay. -/
inductive ClampedTo : Ext K → Ext K → Prop
  | neg {a : K} (h : a < 0) : ClampedTo (.fin a) (.fin 0)
  | nonneg {a : K} (h : 0 ≤ a) : ClampedTo (.fin a) (.fin a)
  | posInf : ClampedTo .posInf .posInf
  | nan : ClampedTo .nan .nan

/-- `SameNesting R a b`: `a` and `b` have the same nesting and corresponding numbers are related
by `R`. -/
inductive SameNesting (R : Ext K → Ext K → Prop) : NV K → NV K → Prop
  | num {l m} (h : List.Forall₂ R l m) : SameNesting R (.num l) (.num m)
  | nil : SameNesting R (.obj []) (.obj [])
  | cons {v w vs ws} (h : SameNesting R v w) (t : SameNesting R (.obj vs) (.obj ws)) :
      SameNesting R (.obj (v :: vs)) (.obj (w :: ws))

/-- Every leaf is a numeric array all of whose entries satisfy `P`. -/
inductive AllNumbers (P : Ext K → Prop) : NV K → Prop
  | num {l} (h : ∀ v ∈ l, P v) : AllNumbers P (.num l)
  | nil : AllNumbers P (.obj [])
  | cons {v vs} (h : AllNumbers P v) (t : AllNumbers P (.obj vs)) : AllNumbers P (.obj (v :: vs))

theorem clampedTo_posThresh (v : Ext K) (h : v ≠ .negInf) : ClampedTo v (posThresh v) := by
  cases v with
  | fin a =>
    rcases lt_trichotomy a 0 with ha | ha | ha
    · have : posThresh (Ext.fin a) = .fin 0 := by
        simp [posThresh, Ext.gtZero, Ext.mulBool, not_lt.2 ha.le]
      rw [this]; exact .neg ha
    · subst ha
      have : posThresh (Ext.fin (0 : K)) = .fin 0 := by simp [posThresh, Ext.gtZero, Ext.mulBool]
      rw [this]; exact .nonneg le_rfl
    · have : posThresh (Ext.fin a) = .fin a := by simp [posThresh, Ext.gtZero, Ext.mulBool, ha]
      rw [this]; exact .nonneg ha.le
  | posInf => exact .posInf
  | negInf => exact absurd rfl h
  | nan => exact .nan

theorem posRecursive_ok {a : NV K} (h : AllNumbers (fun v => v ≠ .negInf) a) :
    ∃ b, posRecursive a = .ok b ∧ SameNesting ClampedTo a b := by
  induction h with
  | @num l h =>
    refine ⟨.num (l.map posThresh), by simp [posRecursive], .num ?_⟩
    rw [List.forall₂_map_right_iff, List.forall₂_same]
    exact fun v hv => clampedTo_posThresh v (h v hv)
  | nil => exact ⟨.obj [], by simp [posRecursive, posRecursiveList, bind, Except.bind], .nil⟩
  | cons h t ih1 ih2 =>
    obtain ⟨b, hb, hsb⟩ := ih1
    obtain ⟨c, hc, hsc⟩ := ih2
    rename_i v vs
    rw [posRecursive] at hc
    cases hl : posRecursiveList vs with
    | error e => rw [hl] at hc; simp [bind, Except.bind] at hc
    | ok ws =>
      rw [hl] at hc
      simp [bind, Except.bind] at hc
      subst hc
      exact ⟨.obj (b :: ws), by simp [posRecursive, posRecursiveList, hb, hl, bind, Except.bind],
        .cons hsb hsc⟩

/-- C26 (partial): on every nested array of numeric arrays, of any depth, in which no entry is `-∞`,
`positive` returns the same nesting with every negative number replaced by zero and every other one
(`+∞` and NaN included) unchanged.  Missing from the full claim: `-∞` entries and nested Python lists,
for which the claim is false (see the two theorems below). -/
theorem C26_nesting_and_clamping_partial (asArray asObject : NV K) (ragged : Bool)
    (h : AllNumbers (fun v => v ≠ .negInf) (if ragged then asObject else asArray)) :
    ∃ b, positive (.seq asArray asObject) ragged = .ok (.arr b) ∧
      SameNesting ClampedTo (if ragged then asObject else asArray) b := by
  obtain ⟨b, hb, hs⟩ := posRecursive_ok h
  exact ⟨b, by simp [positive, hb, bind, Except.bind], hs⟩

/-- C26: scalars are clamped in the same way, and anything that is neither a number nor a sequence
raises `TypeError`. -/
theorem C26_scalars_and_bad_types (ragged : Bool) :
    (∀ v : Ext K, v ≠ .negInf → ∃ w, positive (.scalar v) ragged = .ok (.scalar w) ∧ ClampedTo v w) ∧
    positive (.other : Input K) ragged = .error .typeError :=
  ⟨fun v h => ⟨posThresh v, rfl, clampedTo_posThresh v h⟩, rfl⟩

/-- C26, refuted part: `-∞` becomes NaN instead of zero, for scalars and array entries alike. -/
theorem C26_negative_infinity_becomes_nan (ragged : Bool) (o : NV K) :
    positive (.scalar (.negInf : Ext K)) ragged = .ok (.scalar .nan) ∧
    positive (.seq (.num [.negInf, .fin 1]) o) false = .ok (.arr (.num [.nan, .fin 1])) := by
  constructor
  · rfl
  · simp [positive, posRecursive, posThresh, Ext.gtZero, Ext.mulBool, bind, Except.bind]

/-- Some leaf is not an array. -/
inductive HasRaw : NV K → Prop
  | raw : HasRaw .raw
  | head {v vs} (h : HasRaw v) : HasRaw (.obj (v :: vs))
  | tail {v vs} (h : HasRaw (.obj vs)) : HasRaw (.obj (v :: vs))

mutual
theorem posRecursive_err_or : (a : NV K) →
    posRecursive a = .error .attributeError ∨ ∃ b, posRecursive a = .ok b
  | .num l => by right; exact ⟨_, by rw [posRecursive]⟩
  | .obj l => by
    rcases posRecursiveList_err_or l with h | ⟨b, h⟩
    · left; rw [posRecursive, h]; rfl
    · right; exact ⟨.obj b, by rw [posRecursive, h]; rfl⟩
  | .raw => by left; rw [posRecursive]
theorem posRecursiveList_err_or : (l : List (NV K)) →
    posRecursiveList l = .error .attributeError ∨ ∃ b, posRecursiveList l = .ok b
  | [] => by right; exact ⟨[], by rw [posRecursiveList]⟩
  | v :: vs => by
    rcases posRecursive_err_or v with h | ⟨b, h⟩
    · left; rw [posRecursiveList, h]; rfl
    · rcases posRecursiveList_err_or vs with h' | ⟨c, h'⟩
      · left; rw [posRecursiveList, h, h']; rfl
      · right; exact ⟨b :: c, by rw [posRecursiveList, h, h']; rfl⟩
end

theorem posRecursive_raw {a : NV K} (h : HasRaw a) : posRecursive a = .error .attributeError := by
  induction h with
  | raw => rw [posRecursive]
  | head h ih => simp [posRecursive, posRecursiveList, ih, bind, Except.bind]
  | @tail v vs h ih =>
    rw [posRecursive] at ih
    have hl : posRecursiveList vs = .error .attributeError := by
      cases hl : posRecursiveList vs with
      | error e => rw [hl] at ih; simpa [bind, Except.bind] using ih
      | ok w => rw [hl] at ih; simp [bind, Except.bind] at ih
    rcases posRecursive_err_or v with h1 | ⟨b, h1⟩
    · simp [posRecursive, posRecursiveList, h1, bind, Except.bind]
    · simp [posRecursive, posRecursiveList, h1, hl, bind, Except.bind]

/-- C26, refuted part: with `ragged=True`, a nested object array in which any leaf, at any depth, is a
Python object rather than an array (for instance `positive([[1, -2], [3]], ragged=True)`) raises
`AttributeError`. -/
theorem C26_python_leaves_raise (asArray asObject : NV K) (h : HasRaw asObject) :
    positive (.seq asArray asObject) true = .error .attributeError := by
  simp [positive, posRecursive_raw h, bind, Except.bind]

section Examples
example : AllNumbers (K := ℚ) (fun v => v ≠ .negInf)
    (.obj [.num [.fin (-1), .fin 2], .obj [.num [.posInf, .nan]]]) :=
  .cons (.num (by simp)) (.cons (.cons (.num (by simp)) .nil) .nil)
example : positive (K := ℚ) (.seq .raw (.obj [.num [.fin (-1), .fin 2], .obj [.num [.fin (-3)]]])) true
    = .ok (.arr (.obj [.num [.fin 0, .fin 2], .obj [.num [.fin 0]]])) := by
  simp [positive, posRecursive, posRecursiveList, posThresh, Ext.gtZero, Ext.mulBool, bind, Except.bind]
  decide
example : HasRaw (K := ℚ) (.obj [.num [.fin 1], .obj [.raw]]) := .tail (.head (.head .raw))
end Examples

end Verif
