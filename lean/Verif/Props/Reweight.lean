import Verif.Model.Reweight
import Mathlib.Algebra.BigOperators.Group.List.Basic
import Mathlib.Algebra.Order.BigOperators.Group.List
import Mathlib.Tactic.FieldSimp
import Mathlib.Tactic.Linarith
import Mathlib.Tactic.Positivity

/-!
# C58, C59: Candès–Wakin–Boyd reweighting
-/

namespace Verif
open Reweight

section
variable {ι 𝕜 : Type} [RCLike 𝕜]

theorem calls_fixed (l : List (Option (ι → 𝕜))) (s : Reweight.St ι) :
    (calls l s).original = s.original ∧ (calls l s).factor = s.factor ∧ (calls l s).supplied = s.supplied := by
  induction l generalizing s with
  | nil => exact ⟨rfl, rfl, rfl⟩
  | cons d l ih =>
    have h := ih (reweight d s).2
    cases d <;> exact h

/-- C58: after any sequence of calls, including calls with wrongly shaped data, weight `i` is the original
weight times the product of `1/(1+|xⱼ,ᵢ|/(n wᵢ))` over the well-shaped calls. -/
theorem C58_closed_form (w : ι → ℝ) (sup : Supplied) (n : ℝ) (l : List (Option (ι → 𝕜))) (i : ι) :
    (calls l (Reweight.init w sup n)).weights i =
      w i * ((l.filterMap id).map fun x => 1 / (1 + ‖x i‖ / (n * w i))).prod := by
  have key : ∀ (l : List (Option (ι → 𝕜))) (s : Reweight.St ι), (calls l s).weights i =
      s.weights i * ((l.filterMap id).map fun x => 1 / (1 + ‖x i‖ / (s.factor * s.original i))).prod := by
    intro l
    induction l with
    | nil => intro s; simp [calls]
    | cons d l ih =>
      intro s
      have h := ih (reweight d s).2
      cases d with
      | none => exact h
      | some x =>
        have h' : (calls (some x :: l) s).weights i = (calls l (reweight (some x) s).2).weights i := rfl
        rw [h', h]
        simp only [reweight, List.filterMap_cons, id, List.map_cons, List.prod_cons]
        ring
  exact key l _

/-- C58: with positive original weights and a positive factor every weight stays in `(0, wᵢ]`, and never grows
from one call to the next. -/
theorem C58_bounds (w : ι → ℝ) (sup : Supplied) (n : ℝ) (hw : ∀ i, 0 < w i) (hn : 0 < n)
    (l : List (Option (ι → 𝕜))) (d : Option (ι → 𝕜)) (i : ι) :
    0 < (calls l (Reweight.init w sup n)).weights i ∧
    (calls l (Reweight.init w sup n)).weights i ≤ w i ∧
    (calls (l ++ [d]) (Reweight.init w sup n)).weights i ≤ (calls l (Reweight.init w sup n)).weights i := by
  have f0 : ∀ x : ι → 𝕜, 0 < 1 / (1 + ‖x i‖ / (n * w i)) ∧ 1 / (1 + ‖x i‖ / (n * w i)) ≤ 1 := by
    intro x
    have : 0 ≤ ‖x i‖ / (n * w i) := div_nonneg (norm_nonneg _) (mul_pos hn (hw i)).le
    refine ⟨by positivity, ?_⟩
    rw [div_le_one (by linarith)]
    linarith
  have pos : ∀ l : List (ι → 𝕜), 0 < (l.map fun x => 1 / (1 + ‖x i‖ / (n * w i))).prod ∧
      (l.map fun x => 1 / (1 + ‖x i‖ / (n * w i))).prod ≤ 1 := by
    intro l
    induction l with
    | nil => simp
    | cons x l ih =>
      simp only [List.map_cons, List.prod_cons]
      exact ⟨mul_pos (f0 x).1 ih.1, mul_le_one₀ (f0 x).2 ih.1.le ih.2⟩
  simp only [C58_closed_form]
  have h := pos (l.filterMap id)
  refine ⟨mul_pos (hw i) h.1, mul_le_of_le_one_right (hw i).le h.2, ?_⟩
  rw [List.filterMap_append, List.map_append, List.prod_append, ← mul_assoc]
  exact mul_le_of_le_one_right (mul_pos (hw i) h.1).le (pos _).2

/-- C58: a weight is unchanged by a call exactly where the data vanish. -/
theorem C58_strict (w : ι → ℝ) (sup : Supplied) (n : ℝ) (hw : ∀ i, 0 < w i) (hn : 0 < n)
    (l : List (Option (ι → 𝕜))) (x : ι → 𝕜) (i : ι) :
    (calls (l ++ [some x]) (Reweight.init w sup n)).weights i = (calls l (Reweight.init w sup n)).weights i ↔
      x i = 0 := by
  have hpos := (C58_bounds w sup n hw hn l none i).1
  have e : (calls (l ++ [some x]) (Reweight.init w sup n)).weights i =
      (calls l (Reweight.init w sup n)).weights i * (1 / (1 + ‖x i‖ / (n * w i))) := by
    simp only [C58_closed_form, List.filterMap_append, List.map_append, List.prod_append]
    simp [mul_assoc]
  rw [e, mul_eq_left₀ hpos.ne']
  have hp : 0 < n * w i := mul_pos hn (hw i)
  have : 0 ≤ ‖x i‖ / (n * w i) := div_nonneg (norm_nonneg _) hp.le
  rw [div_eq_one_iff_eq (by linarith)]
  constructor
  · intro h
    have : ‖x i‖ / (n * w i) = 0 := by linarith
    rcases div_eq_zero_iff.1 this with h | h
    · exact norm_eq_zero.1 h
    · exact absurd h hp.ne'
  · intro h; simp [h]

/-- C58: wrongly shaped data raise `ValueError` in every reachable state and leave the weights unchanged. -/
theorem C58_wrong_shape (s : Reweight.St ι) :
    (reweight (none : Option (ι → 𝕜)) s).1 = .error .valueError ∧
    (reweight (none : Option (ι → 𝕜)) s).2.weights = s.weights ∧
    ∀ x : ι → 𝕜, (reweight (some x) s).1 = .ok () := ⟨rfl, rfl, fun _ => rfl⟩

/-- C58: the number of the next reweighting counts every call, including those that raised. -/
theorem C58_counter (w : ι → ℝ) (sup : Supplied) (n : ℝ) (l : List (Option (ι → 𝕜))) :
    (calls l (Reweight.init w sup n)).rwNum = l.length + 1 := by
  have key : ∀ (l : List (Option (ι → 𝕜))) (s : Reweight.St ι), (calls l s).rwNum = s.rwNum + l.length := by
    intro l
    induction l with
    | nil => intro s; rfl
    | cons d l ih =>
      intro s
      have h := ih (reweight d s).2
      have e : (reweight d s).2.rwNum = s.rwNum + 1 := by cases d <;> rfl
      rw [e] at h
      simp only [calls, List.foldl_cons, List.length_cons] at h ⊢
      rw [h]; omega
  rw [key]
  simp only [Reweight.init]
  omega

/-- C59, refuted: if the weights were given as a float array, the caller's array always holds the current weights;
with positive weights and factor it has changed as soon as one call had a non-zero entry. -/
theorem C59_caller_array_modified (w : ι → ℝ) (n : ℝ) (hw : ∀ i, 0 < w i) (hn : 0 < n)
    (l : List (Option (ι → 𝕜))) (x : ι → 𝕜) (i : ι) (hx : x i ≠ 0) :
    (calls (l ++ [some x]) (Reweight.init w .floatArray n)).caller =
      (calls (l ++ [some x]) (Reweight.init w .floatArray n)).weights ∧
    (calls (l ++ [some x]) (Reweight.init w .floatArray n)).caller i < w i := by
  have key : ∀ (l : List (Option (ι → 𝕜))) (s : Reweight.St ι), s.supplied = .floatArray → s.caller = s.weights →
      (calls l s).caller = (calls l s).weights := by
    intro l
    induction l with
    | nil => intro s _ h; exact h
    | cons d l ih =>
      intro s hs h
      have := ih (reweight d s).2 (by cases d <;> exact hs) (by
        cases d with
        | none => exact h
        | some x => simp only [reweight, hs])
      exact this
  have h1 := key (l ++ [some x]) (Reweight.init w .floatArray n) rfl rfl
  refine ⟨h1, ?_⟩
  rw [h1]
  have hb := C58_bounds w .floatArray n hw hn l (some x) i
  have hs := (C58_strict w .floatArray n hw hn l x i).not.2 hx
  exact lt_of_lt_of_le (lt_of_le_of_ne hb.2.2 hs) hb.2.1

/-- C59, partial: weights given as a list, a tuple or an integer array are converted to a new array, and the
caller's object is never changed. -/
theorem C59_converted_untouched_partial (w : ι → ℝ) (n : ℝ) (l : List (Option (ι → 𝕜))) :
    (calls l (Reweight.init w .converted n)).caller = w := by
  have key : ∀ (l : List (Option (ι → 𝕜))) (s : Reweight.St ι), s.supplied = .converted →
      (calls l s).caller = s.caller := by
    intro l
    induction l with
    | nil => intro s _; rfl
    | cons d l ih =>
      intro s hs
      have := ih (reweight d s).2 (by cases d <;> exact hs)
      refine this.trans ?_
      cases d with
      | none => rfl
      | some x => simp only [reweight, hs]
  exact key l _ rfl

end

/-- Non-vacuity: the documented example (weight 2, data 2 gives 1) and a failing call in between. -/
example : (calls [some fun _ => (2 : ℝ), none] (Reweight.init (fun _ : Unit => 2) .floatArray 1)).weights () = 1 := by
  rw [C58_closed_form]; simp; norm_num

end Verif
