import Verif.Lemmas.Convex
import Mathlib.Analysis.LocallyConvex.Separation
import Mathlib.Analysis.InnerProductSpace.Dual
import Mathlib.Analysis.Convex.Continuous

/-!
# Existence of multipliers

If `φ + h ∘ L` has a minimiser and `h` is finite everywhere, the minimiser is part of a saddle point.
-/

set_option linter.unusedSectionVars false

namespace Verif.Spec
open RealInnerProductSpace

variable {E H : Type*} [NormedAddCommGroup E] [InnerProductSpace ℝ E] [NormedAddCommGroup H]
  [InnerProductSpace ℝ H]

theorem AboveTangents.convexOn {F : E → ℝ} {G : E → E} (hF : AboveTangents F G) : ConvexOn ℝ Set.univ F := by
  refine ⟨convex_univ, fun x _ y _ a b ha hb hab => ?_⟩
  have h1 := hF (a • x + b • y) x
  have h2 := hF (a • x + b • y) y
  have e : a * ⟪G (a • x + b • y), x - (a • x + b • y)⟫ + b * ⟪G (a • x + b • y), y - (a • x + b • y)⟫ = 0 := by
    rw [← real_inner_smul_right, ← real_inner_smul_right, ← inner_add_right]
    have : a • (x - (a • x + b • y)) + b • (y - (a • x + b • y)) = (1 - (a + b)) • (a • x + b • y) := by module
    rw [this, hab, sub_self, zero_smul, inner_zero_right]
  have h3 := mul_le_mul_of_nonneg_left h1 ha
  have h4 := mul_le_mul_of_nonneg_left h2 hb
  have h5 : F (a • x + b • y) = a * F (a • x + b • y) + b * F (a • x + b • y) := by rw [← add_mul, hab, one_mul]
  simp only [smul_eq_mul]
  linarith

/-- The multiplier: Hahn-Banach separation of the epigraph of `h` from the hypograph of `m - φ`. -/
theorem exists_multiplier [CompleteSpace H] {C : Set E} {φ : E → ℝ} (hφ : ConvexOn ℝ C φ) {h : H → ℝ}
    (hh : ConvexOn ℝ Set.univ h) (hc : Continuous h) (L : E →ₗ[ℝ] H) {x : E}
    (hx : Minimises C (fun u => φ u + h (L u)) x) :
    ∃ y : H, Minimises C (fun u => φ u + ⟪L u, y⟫) x ∧ ∀ v, h (L x) + ⟪y, v - L x⟫ ≤ h v := by
  set m := φ x + h (L x) with hm
  set A : Set (H × ℝ) := {p | p.1 ∈ Set.univ ∧ h p.1 < p.2} with hA
  set B : Set (H × ℝ) := {p | ∃ u ∈ C, p.1 = L u ∧ p.2 ≤ m - φ u} with hB
  have hA1 : Convex ℝ A := hh.convex_strict_epigraph
  have hA2 : IsOpen A := by
    have : A = {p : H × ℝ | h p.1 < p.2} := by ext p; simp [hA]
    rw [this]
    exact isOpen_lt (hc.comp continuous_fst) continuous_snd
  have hB1 : Convex ℝ B := by
    rintro p ⟨u, hu, p1, p2⟩ q ⟨v, hv, q1, q2⟩ a b ha hb hab
    refine ⟨a • u + b • v, hφ.1 hu hv ha hb hab, ?_, ?_⟩
    · simp only [Prod.fst_add, Prod.smul_fst, p1, q1, map_add, map_smul]
    · have h1 := hφ.2 hu hv ha hb hab
      have h2 := mul_le_mul_of_nonneg_left p2 ha
      have h3 := mul_le_mul_of_nonneg_left q2 hb
      have h4 : m = a * m + b * m := by rw [← add_mul, hab, one_mul]
      simp only [Prod.snd_add, Prod.smul_snd, smul_eq_mul] at h1 ⊢
      linarith
  have hdis : Disjoint A B := by
    rw [Set.disjoint_left]
    rintro p ⟨-, p1⟩ ⟨u, hu, q1, q2⟩
    have := hx.2 u hu
    rw [q1] at p1
    simp only at this
    linarith
  obtain ⟨f, c, hfA, hfB⟩ := geometric_hahn_banach_open hA1 hA2 hB1 hdis
  set t := f (0, 1) with ht
  set k : StrongDual ℝ H := f.comp (ContinuousLinearMap.inl ℝ H ℝ) with hk
  have hf : ∀ v r, f (v, r) = k v + r * t := by
    intro v r
    have e : ((v, r) : H × ℝ) = (v, 0) + r • (0, 1) := by simp
    rw [e, map_add, map_smul, smul_eq_mul]
    rfl
  have hBx : c ≤ k (L x) + h (L x) * t := by
    have := hfB (L x, h (L x)) ⟨x, hx.1, rfl, by simp [hm]⟩
    rwa [hf] at this
  have ht0 : t < 0 := by
    have := hfA (L x, h (L x) + 1) ⟨Set.mem_univ _, by simp⟩
    rw [hf] at this
    linarith
  have hAv : ∀ v, k v + h v * t ≤ c := by
    intro v
    refine le_of_forall_pos_le_add fun ε hε => ?_
    have h1 : 0 < ε / (-t) := div_pos hε (by linarith)
    have := hfA (v, h v + ε / (-t)) ⟨Set.mem_univ _, by simpa using h1⟩
    rw [hf] at this
    have h2 : ε / (-t) * t = -ε := by have := ht0.ne; field_simp
    linarith
  have hcx : c = k (L x) + h (L x) * t := le_antisymm hBx (hAv _)
  set y : H := (InnerProductSpace.toDual ℝ H).symm ((1 / (-t)) • k) with hy
  have hyv : ∀ v, ⟪y, v⟫ = 1 / (-t) * k v := by
    intro v
    rw [hy, InnerProductSpace.toDual_symm_apply]
    rfl
  have hpos : 0 < 1 / (-t) := by apply one_div_pos.2; linarith
  have hcan : ∀ r, 1 / (-t) * (r * t) = -r := by intro r; have := ht0.ne; field_simp
  refine ⟨y, ⟨hx.1, fun u hu => ?_⟩, fun v => ?_⟩
  · have h1 := hfB (L u, m - φ u) ⟨u, hu, rfl, le_rfl⟩
    rw [hf, hcx] at h1
    have h2 := mul_le_mul_of_nonneg_left h1 hpos.le
    rw [mul_add, mul_add, hcan, hcan, ← hyv, ← hyv] at h2
    simp only
    rw [real_inner_comm y, real_inner_comm y]
    linarith
  · have h1 := hAv v
    rw [hcx] at h1
    have h2 := mul_le_mul_of_nonneg_left h1 hpos.le
    rw [mul_add, mul_add, hcan, hcan, ← hyv, ← hyv] at h2
    rw [inner_sub_right]
    linarith

end Verif.Spec
