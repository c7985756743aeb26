import Verif.Model.NonFinite
import Verif.Model.ComplexArrays

/-!
# Lemmas on arithmetic with infinities and NaN
-/

namespace Verif.NF
open Ext

@[simp] theorem nan_add (a : Ext ℝ) : (nan : Ext ℝ) + a = nan := by
  change Ext.add nan a = nan
  cases a <;> rfl

@[simp] theorem add_nan (a : Ext ℝ) : a + (nan : Ext ℝ) = nan := by
  rw [add_comm, nan_add]

@[simp] theorem nan_sub (a : Ext ℝ) : sub nan a = nan := by
  cases a <;> rfl

@[simp] theorem sub_nan (a : Ext ℝ) : sub a nan = nan := by
  cases a <;> rfl

@[simp] theorem nan_mul (a : Ext ℝ) : mul nan a = nan := by
  cases a <;> rfl

@[simp] theorem mul_nan (a : Ext ℝ) : mul a nan = nan := by
  cases a <;> rfl

@[simp] theorem nan_max (a : Ext ℝ) : maximum nan a = nan := by
  cases a <;> rfl

@[simp] theorem max_nan (a : Ext ℝ) : maximum a nan = nan := by
  cases a <;> rfl

@[simp] theorem nan_div (a : Ext ℝ) : div nan a = nan := by
  cases a <;> rfl

@[simp] theorem div_nan (a : Ext ℝ) : div a nan = nan := by
  cases a <;> rfl

@[simp] theorem nan_ge (a : Ext ℝ) : ge nan a = false := by
  cases a <;> rfl

@[simp] theorem ge_nan (a : Ext ℝ) : ge a nan = false := by
  cases a <;> rfl

theorem sum_nan {ι : Type} [Fintype ι] (f : ι → Ext ℝ) (i : ι) (h : f i = nan) : ∑ j, f j = nan := by
  classical
  rw [← Finset.add_sum_erase _ _ (Finset.mem_univ i), h, nan_add]

theorem norm_nan {ι : Type} [Fintype ι] (f : ι → Ext ℝ) (i : ι) (h : f i = nan) : norm f = nan := by
  unfold norm
  rw [sum_nan _ i (by rw [h]; rfl)]
  rfl

theorem list_sum_nan (l : List (Ext ℝ)) (h : nan ∈ l) : l.sum = nan := by
  induction l with
  | nil => cases h
  | cons a l ih =>
    rw [List.sum_cons]
    rcases List.mem_cons.mp h with h | h
    · rw [← h, nan_add]
    · rw [ih h, add_nan]

theorem mean_nan (l : List (Ext ℝ)) (h : nan ∈ l) : mean l = nan := by
  unfold mean
  rw [list_sum_nan l h]
  split <;> rfl

theorem add_nonfinite (a b : Ext ℝ) (h : (∀ r, a ≠ fin r) ∨ ∀ r, b ≠ fin r) (r : ℝ) : a + b ≠ fin r := by
  change Ext.add a b ≠ fin r
  cases a <;> cases b <;> simp_all [Ext.add]

theorem list_sum_nonfinite (l : List (Ext ℝ)) (c : Ext ℝ) (hc : ∀ r, c ≠ fin r) (h : c ∈ l) (r : ℝ) :
    l.sum ≠ fin r := by
  induction l generalizing r with
  | nil => cases h
  | cons a l ih =>
    rw [List.sum_cons]
    rcases List.mem_cons.mp h with h | h
    · subst h
      exact add_nonfinite _ _ (Or.inl hc) r
    · exact add_nonfinite _ _ (Or.inr (ih h)) r

theorem mean_nonfinite (l : List (Ext ℝ)) (c : Ext ℝ) (hc : ∀ r, c ≠ fin r) (h : c ∈ l) (r : ℝ) : mean l ≠ fin r := by
  have h0 := list_sum_nonfinite l c hc h
  unfold mean
  split
  · simp
  · cases hs : l.sum with
    | fin a => exact absurd hs (h0 a)
    | nan => simp
    | posInf =>
      simp only [div]
      split <;> simp
    | negInf =>
      simp only [div]
      split <;> simp

theorem checkCost_nonfinite (o : Cost.CostObj (Ext ℝ)) (hc : ∀ r, o.cost ≠ fin r) : (checkCost o).2 = false := by
  unfold checkCost
  simp only
  split
  · have hm : o.cost ∈ (o.testList ++ [o.cost]).drop ((o.testList ++ [o.cost]).length / 2) := by
      rw [List.drop_append_of_le_length]
      · simp
      · simp only [List.length_append, List.length_singleton]
        omega
    have h1 := mean_nonfinite _ _ hc hm
    generalize mean ((o.testList ++ [o.cost]).drop _) = t1 at h1
    generalize mean ((o.testList ++ [o.cost]).take _) = t2
    have : costDiff t1 t2 = nan := by
      cases t1 with
      | fin a => exact absurd rfl (h1 a)
      | nan => simp [costDiff, aroundX, truthy, Ext.abs]
      | posInf => cases t2 <;> simp [costDiff, aroundX, truthy, Ext.abs, sub, neg, Ext.add, div]
      | negInf => cases t2 <;> simp [costDiff, aroundX, truthy, Ext.abs, sub, neg, Ext.add, div]
    simp [this]
  · rfl

/-! ## Finite values -/

@[simp] theorem fin_add (a b : ℝ) : (fin a : Ext ℝ) + fin b = fin (a + b) := rfl

@[simp] theorem fin_sub (a b : ℝ) : sub (fin a) (fin b) = fin (a - b) := by
  simp [sub, neg, Ext.add, sub_eq_add_neg]

@[simp] theorem fin_mul (a b : ℝ) : mul (fin a) (fin b) = fin (a * b) := rfl

@[simp] theorem fin_max (a b : ℝ) : maximum (fin a) (fin b) = fin (max a b) := rfl

@[simp] theorem fin_abs (a : ℝ) : Ext.abs (fin a) = fin |a| := rfl

@[simp] theorem fin_around (d : ℕ) (a : ℝ) : aroundX d (fin a) = fin (around d a) := rfl

theorem fin_div (a b : ℝ) (h : b ≠ 0) : div (fin a) (fin b) = fin (a / b) := by
  simp [div, h]

theorem fin_ge (a b : ℝ) : ge (fin a) (fin b) = true ↔ b ≤ a := by
  simp [ge]

/-- `fin` as a homomorphism. -/
def finHom : ℝ →+ Ext ℝ where
  toFun := fin
  map_zero' := rfl
  map_add' _ _ := rfl

theorem sum_fin {ι : Type} [Fintype ι] (f : ι → ℝ) : ∑ i, (fin (f i) : Ext ℝ) = fin (∑ i, f i) :=
  (map_sum finHom f Finset.univ).symm

theorem list_sum_fin (l : List ℝ) : (l.map (fin : ℝ → Ext ℝ)).sum = fin l.sum :=
  (map_list_sum finHom l).symm

theorem norm_fin {ι : Type} [Fintype ι] (f : ι → ℝ) :
    norm (fun i => (fin (f i) : Ext ℝ)) = fin (Real.sqrt (∑ i, f i * f i)) := by
  unfold norm
  simp only [fin_mul, sum_fin]
  have h : 0 ≤ ∑ i, f i * f i := Finset.sum_nonneg fun i _ => mul_self_nonneg _
  simp [Ext.sqrt, h]

theorem mean_fin (l : List ℝ) (h : l ≠ []) : mean (l.map fin) = fin (l.sum / (l.length : ℝ)) := by
  unfold mean
  rw [if_neg (by simpa using h), list_sum_fin, List.length_map, fin_div]
  simpa using h

theorem truthy_fin (a : ℝ) : truthy (fin a) = true ↔ a ≠ 0 := by
  simp [truthy]

end Verif.NF
