import Verif.Spec.Owl
import Verif.Spec.Prox
import Mathlib.Algebra.Order.Rearrangement
import Mathlib.Analysis.InnerProductSpace.Projection.Minimal
import Mathlib.Analysis.InnerProductSpace.PiL2
import Mathlib.Tactic.Linarith

/-!
# Lemmas on decreasing rearrangements, the OWL norm and monotone regression
-/

namespace Verif
open Spec

variable {n : ℕ} {𝕜 : Type*} [RCLike 𝕜]

theorem decreasing_antitone (v : Fin n → ℝ) : Antitone (decreasing v) := by
  intro i j h
  exact Tuple.monotone_sort v (Fin.rev_le_rev.2 h)

/-- Reversal followed by a permutation, as a permutation. -/
def revPerm (σ : Equiv.Perm (Fin n)) : Equiv.Perm (Fin n) := Fin.revPerm.trans σ

theorem decreasing_eq (v : Fin n → ℝ) (σ : Equiv.Perm (Fin n)) (h : Antitone fun i => v (σ i)) :
    decreasing v = fun i => v (σ i) := by
  have hm : Monotone (v ∘ revPerm σ) := by
    intro i j hij
    exact h (Fin.rev_le_rev.2 hij)
  have := Tuple.unique_monotone hm (Tuple.monotone_sort v)
  funext i
  have e := congrFun this i.rev
  simp only [Function.comp, revPerm, Equiv.trans_apply, Fin.revPerm_apply, Fin.rev_rev] at e
  exact e.symm

theorem decreasing_perm (v : Fin n → ℝ) : ∃ σ : Equiv.Perm (Fin n), decreasing v = fun i => v (σ i) :=
  ⟨revPerm (Tuple.sort v), rfl⟩

/-- Rearrangement inequality. -/
theorem sum_mul_le_decreasing (a v : Fin n → ℝ) (ha : Antitone a) (π : Equiv.Perm (Fin n)) :
    ∑ i, a i * v (π i) ≤ ∑ i, a i * decreasing v i := by
  have hm : Monovary a (decreasing v) := by
    intro i j hij
    rcases le_total i j with h | h
    · exact absurd (decreasing_antitone v h) (not_le.2 hij)
    · exact ha h
  have e : (fun i => v (π i)) = decreasing v ∘ ((revPerm (Tuple.sort v)).symm * π : Equiv.Perm (Fin n)) := by
    funext i
    have h1 : ∀ j, decreasing v j = v (revPerm (Tuple.sort v) j) := fun j => rfl
    simp only [Function.comp, h1, Equiv.Perm.coe_mul]
    exact congrArg v ((revPerm (Tuple.sort v)).apply_symm_apply (π i)).symm
  have := hm.sum_mul_comp_perm_le_sum_mul (σ := (revPerm (Tuple.sort v)).symm * π)
  calc ∑ i, a i * v (π i) = ∑ i, a i * decreasing v (((revPerm (Tuple.sort v)).symm * π : Equiv.Perm (Fin n)) i) :=
        Finset.sum_congr rfl fun i _ => congrArg (a i * ·) (congrFun e i)
    _ ≤ _ := this

theorem decreasing_le_sum_mul (a v : Fin n → ℝ) (ha : Antitone a) (π : Equiv.Perm (Fin n)) :
    ∑ i, a i * decreasing v i.rev ≤ ∑ i, a i * v (π i) := by
  have h := sum_mul_le_decreasing (fun i => -a i.rev) v
    (fun i j hij => neg_le_neg (ha (Fin.rev_le_rev.2 hij))) (revPerm π)
  simp only [neg_mul, Finset.sum_neg_distrib, neg_le_neg_iff] at h
  rw [← Equiv.sum_comp Fin.revPerm] at h
  rw [← Equiv.sum_comp Fin.revPerm (fun i => a (Fin.rev i) * v _)] at h
  simpa [revPerm] using h

/-- Sorting both vectors does not increase their distance. -/
theorem sum_sq_decreasing_le (v : Fin n → ℝ) (y : Fin n → ℝ) (hy : Antitone y) (σ : Equiv.Perm (Fin n)) :
    ∑ i, (decreasing v i - y i) ^ 2 ≤ ∑ i, (v (σ i) - y i) ^ 2 := by
  have h := sum_mul_le_decreasing y v hy σ
  obtain ⟨τ, hτ⟩ := decreasing_perm v
  have e1 : ∑ i, decreasing v i ^ 2 = ∑ i, v i ^ 2 := by
    rw [hτ]; exact Equiv.sum_comp τ fun i => v i ^ 2
  have e2 : ∑ i, v (σ i) ^ 2 = ∑ i, v i ^ 2 := Equiv.sum_comp σ fun i => v i ^ 2
  simp only [sub_sq, Finset.sum_add_distrib, Finset.sum_sub_distrib, mul_assoc, ← Finset.mul_sum]
  rw [e1, e2]
  have c1 : ∑ i, decreasing v i * y i = ∑ i, y i * decreasing v i := Finset.sum_congr rfl fun i _ => mul_comm _ _
  have c2 : ∑ i, v (σ i) * y i = ∑ i, y i * v (σ i) := Finset.sum_congr rfl fun i _ => mul_comm _ _
  rw [c1, c2]
  linarith

theorem owl_eq (w : Fin n → ℝ) (x : Fin n → 𝕜) (σ : Equiv.Perm (Fin n)) (h : Antitone fun i => ‖x (σ i)‖) :
    owl w x = ∑ i, w i * ‖x (σ i)‖ := by
  unfold owl; rw [decreasing_eq (fun j => ‖x j‖) σ h]

theorem le_owl (w : Fin n → ℝ) (hw : Antitone w) (x : Fin n → 𝕜) (σ : Equiv.Perm (Fin n)) :
    ∑ i, w i * ‖x (σ i)‖ ≤ owl w x := sum_mul_le_decreasing w (fun j => ‖x j‖) hw σ

theorem owl_attained (w : Fin n → ℝ) (x : Fin n → 𝕜) : ∃ σ : Equiv.Perm (Fin n), owl w x = ∑ i, w i * ‖x (σ i)‖ := by
  obtain ⟨σ, h⟩ := decreasing_perm fun j => ‖x j‖
  exact ⟨σ, by unfold owl; rw [h]⟩

theorem owl_add_le (w : Fin n → ℝ) (hw : Antitone w) (h0 : ∀ i, 0 ≤ w i) (x y : Fin n → 𝕜) :
    owl w (fun i => x i + y i) ≤ owl w x + owl w y := by
  obtain ⟨σ, h⟩ := owl_attained w fun i => x i + y i
  rw [h]
  calc ∑ i, w i * ‖x (σ i) + y (σ i)‖ ≤ ∑ i, (w i * ‖x (σ i)‖ + w i * ‖y (σ i)‖) := by
        refine Finset.sum_le_sum fun i _ => ?_
        rw [← mul_add]
        exact mul_le_mul_of_nonneg_left (norm_add_le _ _) (h0 i)
    _ = _ := Finset.sum_add_distrib
    _ ≤ _ := add_le_add (le_owl w hw x σ) (le_owl w hw y σ)

theorem owl_smul (w : Fin n → ℝ) (a : 𝕜) (x : Fin n → 𝕜) :
    owl w (fun i => a * x i) = ‖a‖ * owl w x := by
  obtain ⟨σ, h⟩ := decreasing_perm fun j => ‖x j‖
  have hs : Antitone fun i => ‖x (σ i)‖ := by rw [← h]; exact decreasing_antitone _
  rw [owl_eq w x σ hs, owl_eq w _ σ, Finset.mul_sum]
  · exact Finset.sum_congr rfl fun i _ => by rw [norm_mul]; ring
  · intro i j hij
    simp only [norm_mul]
    exact mul_le_mul_of_nonneg_left (hs hij) (norm_nonneg _)

/-- A midpoint-convex function has at most one proximal point. -/
theorem isProx_unique_of_midpoint {ι : Type*} [Fintype ι] (g : (ι → 𝕜) → ℝ)
    (hg : ∀ u v, g (fun i => (u i + v i) / 2) ≤ (g u + g v) / 2) {x p q : ι → 𝕜} (hp : IsProx g x p)
    (hq : IsProx g x q) : q = p := by
  set m : ι → 𝕜 := fun i => (p i + q i) / 2 with hm
  have h1 := hp m
  have h2 := hq m
  have h3 := hg p q
  have key : halfSqDist x m = (halfSqDist x p + halfSqDist x q) / 2 - 1 / 8 * ∑ i, ‖p i - q i‖ ^ 2 := by
    have : ∀ i, ‖x i - m i‖ ^ 2 = (‖x i - p i‖ ^ 2 + ‖x i - q i‖ ^ 2) / 2 - 1 / 4 * ‖p i - q i‖ ^ 2 := by
      intro i
      have hpl := parallelogram_law_with_norm 𝕜 (x i - p i) (x i - q i)
      have e1 : x i - p i + (x i - q i) = 2 * (x i - m i) := by rw [hm]; ring
      have e2 : x i - p i - (x i - q i) = -(p i - q i) := by ring
      rw [e1, e2, norm_neg, norm_mul] at hpl
      have e3 : ‖(2 : 𝕜)‖ = 2 := by simp
      rw [e3] at hpl
      nlinarith
    unfold halfSqDist
    rw [Finset.sum_congr rfl fun i _ => this i, Finset.sum_sub_distrib, ← Finset.sum_div, Finset.sum_add_distrib,
      ← Finset.mul_sum]
    ring
  have hz : ∑ i, ‖p i - q i‖ ^ 2 ≤ 0 := by linarith
  funext i
  have := (Finset.sum_eq_zero_iff_of_nonneg fun i _ => sq_nonneg ‖p i - q i‖).1
    (le_antisymm hz (Finset.sum_nonneg fun i _ => sq_nonneg _)) i (Finset.mem_univ i)
  have h0 : ‖p i - q i‖ = 0 := pow_eq_zero_iff two_ne_zero |>.1 this
  exact (sub_eq_zero.1 (norm_eq_zero.1 h0)).symm

/-- Entries of the fit vanish from the first position after which all targets are non-positive. -/
theorem monotoneFit_tail_zero {y z : Fin n → ℝ} (h : IsMonotoneFit y z) (k : Fin n)
    (hy : ∀ i, k ≤ i → y i ≤ 0) : z k = 0 := by
  classical
  by_contra hne
  have hpos : 0 < z k := lt_of_le_of_ne (h.2.1 k) (Ne.symm hne)
  have := h.2.2 (fun i => if i < k then z i else 0) ?_ ?_
  · have hlt : ∑ i, ((if i < k then z i else 0) - y i) ^ 2 < ∑ i, (z i - y i) ^ 2 := by
      refine Finset.sum_lt_sum (fun i _ => ?_) ⟨k, Finset.mem_univ k, ?_⟩
      · split_ifs with hi
        · exact le_rfl
        · have := hy i (not_lt.1 hi); have := h.2.1 i; nlinarith
      · rw [if_neg (lt_irrefl k)]
        have := hy k le_rfl; nlinarith
    linarith
  · intro i j hij
    by_cases hj : j < k
    · simp only [if_pos hj, if_pos (lt_of_le_of_lt hij hj)]; exact h.1 hij
    · simp only [if_neg hj]; split_ifs
      · exact h.2.1 i
      · exact le_rfl
  · intro i
    split_ifs
    · exact h.2.1 i
    · exact le_rfl

/-- A monotone fit exists. -/
theorem exists_monotoneFit (n : ℕ) : ∃ iso : (Fin n → ℝ) → Fin n → ℝ, ∀ y, IsMonotoneFit y (iso y) := by
  have key : ∀ y : Fin n → ℝ, ∃ z, IsMonotoneFit y z := by
    intro y
    let K : Set (EuclideanSpace ℝ (Fin n)) := {v | (∀ i j, i ≤ j → v j ≤ v i) ∧ ∀ i, 0 ≤ v i}
    have hne : K.Nonempty := ⟨0, fun i j _ => by simp, fun i => by simp⟩
    have hcont : ∀ i, Continuous fun v : EuclideanSpace ℝ (Fin n) => v i := fun i =>
      (EuclideanSpace.proj i : EuclideanSpace ℝ (Fin n) →L[ℝ] ℝ).continuous
    have hcl : IsClosed K := by
      have e : K = (⋂ i, ⋂ j, ⋂ _ : i ≤ j, {v : EuclideanSpace ℝ (Fin n) | v j ≤ v i}) ∩
          ⋂ i, {v : EuclideanSpace ℝ (Fin n) | 0 ≤ v i} := by
        ext v; simp [K]
      rw [e]
      refine IsClosed.inter ?_ ?_
      · exact isClosed_iInter fun i => isClosed_iInter fun j => isClosed_iInter fun _ =>
          isClosed_le (hcont j) (hcont i)
      · exact isClosed_iInter fun i => isClosed_le continuous_const (hcont i)
    have hcv : Convex ℝ K := by
      intro u hu v hv a b ha hb hab
      refine ⟨fun i j hij => ?_, fun i => ?_⟩
      · have h1 := hu.1 i j hij; have h2 := hv.1 i j hij
        simp only [PiLp.add_apply, PiLp.smul_apply, smul_eq_mul]
        nlinarith
      · have h1 := hu.2 i; have h2 := hv.2 i
        simp only [PiLp.add_apply, PiLp.smul_apply, smul_eq_mul]
        positivity
    obtain ⟨v, hv, hmin⟩ := exists_norm_eq_iInf_of_complete_convex hne hcl.isComplete hcv (WithLp.toLp 2 y)
    refine ⟨fun i => v i, fun i j hij => hv.1 i j hij, hv.2, fun u hu hu0 => ?_⟩
    have hmem : WithLp.toLp 2 u ∈ K := ⟨fun i j hij => hu hij, hu0⟩
    have hle : ‖WithLp.toLp 2 y - v‖ ≤ ‖WithLp.toLp 2 y - WithLp.toLp 2 u‖ := by
      rw [hmin]
      exact ciInf_le ⟨0, by rintro _ ⟨w, rfl⟩; exact norm_nonneg _⟩ (⟨_, hmem⟩ : K)
    rw [← sq_le_sq₀ (norm_nonneg _) (norm_nonneg _), EuclideanSpace.norm_sq_eq, EuclideanSpace.norm_sq_eq] at hle
    simpa [← sq_abs (_ - y _), abs_sub_comm] using hle
  choose iso h using key
  exact ⟨iso, h⟩

end Verif
