import Verif.Model.KSupport
import Verif.Spec.KSupport
import Verif.Spec.Prox
import Verif.Lemmas.Owl
import Mathlib.Data.List.GetD
import Mathlib.Tactic.Linarith
import Mathlib.Tactic.FieldSimp
import Mathlib.Tactic.Positivity

/-!
# Lemmas on the squared k-support norm, its proximity operator and the search for `alpha`
-/

namespace Verif
open Spec KSupport

/-! ## The clipped ramp -/

/-- `x` clipped to `[0, 1]`. -/
noncomputable def clip01 (t : ℝ) : ℝ := max 0 (min 1 t)

theorem clip01_nonneg (t : ℝ) : 0 ≤ clip01 t := le_max_left _ _
theorem clip01_le_one (t : ℝ) : clip01 t ≤ 1 := max_le zero_le_one (min_le_left _ _)
theorem clip01_mono {s t : ℝ} (h : s ≤ t) : clip01 s ≤ clip01 t := max_le_max le_rfl (min_le_min le_rfl h)
theorem clip01_of_nonpos {t : ℝ} (h : t ≤ 0) : clip01 t = 0 := max_eq_left ((min_le_right _ _).trans h)
theorem clip01_of_one_le {t : ℝ} (h : 1 ≤ t) : clip01 t = 1 := by
  unfold clip01; rw [min_eq_left h, max_eq_right zero_le_one]
theorem clip01_of_mem {t : ℝ} (h0 : 0 ≤ t) (h1 : t ≤ 1) : clip01 t = t := by
  unfold clip01; rw [min_eq_right h1, max_eq_right h0]
theorem clip01_add_le {t e : ℝ} (he : 0 ≤ e) : clip01 (t + e) ≤ clip01 t + e := by
  unfold clip01
  refine max_le ?_ ?_
  · have := le_max_left (0 : ℝ) (min 1 t); linarith
  · have h1 : min 1 (t + e) ≤ min 1 t + e := by
      rcases le_total 1 t with h | h
      · rw [min_eq_left h]; exact (min_le_left _ _).trans (by linarith)
      · rw [min_eq_right h]; exact min_le_right _ _
    exact h1.trans (by gcongr; exact le_max_right _ _)

theorem theta_fin (b a r : ℝ) : theta b (.fin a) r = clip01 (a * r - b) := by
  simp only [theta]
  rcases lt_or_ge (a * r - b) 0 with h | h
  · rw [if_neg (by intro hc; linarith [hc.2]), if_neg (by linarith), clip01_of_nonpos h.le]; ring
  · rcases le_or_gt (a * r - b) 1 with h1 | h1
    · rw [if_pos ⟨h1, h⟩, if_neg (by linarith), clip01_of_mem h h1]; ring
    · rw [if_neg (by intro hc; linarith [hc.1]), if_pos (by linarith), clip01_of_one_le h1.le]; ring

theorem theta_mem (b : ℝ) (al : Alpha) (r : ℝ) : 0 ≤ theta b al r ∧ theta b al r ≤ 1 := by
  cases al with
  | fin a => rw [theta_fin]; exact ⟨clip01_nonneg _, clip01_le_one _⟩
  | inf =>
    simp only [theta]
    split_ifs <;> simp

section spec
variable {ι : Type*} [Fintype ι] {𝕜 : Type*} [RCLike 𝕜]

theorem ksupSq_bddBelow (k : ℝ) (u : ι → 𝕜) :
    BddBelow {c | ∃ θ : ι → ℝ, Budget k θ ∧ c = ∑ i, ‖u i‖ ^ 2 / θ i} := by
  refine ⟨0, ?_⟩
  rintro c ⟨θ, hθ, rfl⟩
  exact Finset.sum_nonneg fun i _ => div_nonneg (sq_nonneg _) (hθ.1 i).1.le

theorem exists_budget (ι : Type*) [Fintype ι] {k : ℝ} (hk : 0 < k) : ∃ θ : ι → ℝ, Budget k θ := by
  refine ⟨fun _ => min 1 (k / (Fintype.card ι + 1)), fun i => ⟨lt_min one_pos (by positivity), min_le_left _ _⟩, ?_⟩
  rw [Finset.sum_const, Finset.card_univ, nsmul_eq_mul]
  have h1 : min 1 (k / (Fintype.card ι + 1 : ℝ)) ≤ k / (Fintype.card ι + 1) := min_le_right _ _
  have h2 : (0 : ℝ) ≤ Fintype.card ι := Nat.cast_nonneg _
  calc (Fintype.card ι : ℝ) * min 1 (k / (Fintype.card ι + 1)) ≤ Fintype.card ι * (k / (Fintype.card ι + 1)) :=
        mul_le_mul_of_nonneg_left h1 h2
    _ ≤ (Fintype.card ι + 1) * (k / (Fintype.card ι + 1)) :=
        mul_le_mul_of_nonneg_right (by linarith) (by positivity)
    _ = k := by field_simp

theorem ksupSq_le {k : ℝ} {u : ι → 𝕜} {θ : ι → ℝ} (h : Budget k θ) : ksupSq k u ≤ ∑ i, ‖u i‖ ^ 2 / θ i :=
  csInf_le (ksupSq_bddBelow k u) ⟨θ, h, rfl⟩

theorem le_ksupSq {k : ℝ} (hk : 0 < k) {u : ι → 𝕜} {c : ℝ}
    (h : ∀ θ : ι → ℝ, Budget k θ → c ≤ ∑ i, ‖u i‖ ^ 2 / θ i) : c ≤ ksupSq k u := by
  obtain ⟨θ, hθ⟩ := exists_budget ι hk
  refine le_csInf ⟨_, θ, hθ, rfl⟩ ?_
  rintro _ ⟨θ', hθ', rfl⟩
  exact h θ' hθ'

theorem ksupSq_approx {k : ℝ} (hk : 0 < k) (u : ι → 𝕜) {ε : ℝ} (hε : 0 < ε) :
    ∃ θ : ι → ℝ, Budget k θ ∧ ∑ i, ‖u i‖ ^ 2 / θ i < ksupSq k u + ε := by
  obtain ⟨θ, hθ⟩ := exists_budget ι hk
  obtain ⟨c, ⟨θ', h1, rfl⟩, h2⟩ := exists_lt_of_csInf_lt
    (s := {c | ∃ θ : ι → ℝ, Budget k θ ∧ c = ∑ i, ‖u i‖ ^ 2 / θ i}) ⟨_, θ, hθ, rfl⟩
    (show ksupSq k u < ksupSq k u + ε by linarith)
  exact ⟨θ', h1, h2⟩

theorem sq_div_add_le {a b s t : ℝ} (hs : 0 < s) (ht : 0 < t) :
    (a + b) ^ 2 / (s + t) ≤ a ^ 2 / s + b ^ 2 / t := by
  rw [div_add_div _ _ hs.ne' ht.ne', div_le_div_iff₀ (by positivity) (by positivity)]
  nlinarith [sq_nonneg (a * t - b * s), mul_pos hs ht]

theorem ksupSq_midpoint {k : ℝ} (hk : 0 < k) (u v : ι → 𝕜) :
    ksupSq k (fun i => (u i + v i) / 2) ≤ (ksupSq k u + ksupSq k v) / 2 := by
  apply le_of_forall_pos_le_add
  intro ε hε
  obtain ⟨θ, h1, h2⟩ := ksupSq_approx hk u hε
  obtain ⟨θ', h1', h2'⟩ := ksupSq_approx hk v hε
  have hb : Budget k fun i => (θ i + θ' i) / 2 := by
    refine ⟨fun i => ⟨by have := (h1.1 i).1; have := (h1'.1 i).1; positivity, ?_⟩, ?_⟩
    · have := (h1.1 i).2; have := (h1'.1 i).2; linarith
    · rw [← Finset.sum_div, Finset.sum_add_distrib]
      have := h1.2; have := h1'.2; linarith
  refine (ksupSq_le hb).trans ?_
  have hterm : ∀ i, ‖(u i + v i) / 2‖ ^ 2 / ((θ i + θ' i) / 2) ≤ (‖u i‖ ^ 2 / θ i + ‖v i‖ ^ 2 / θ' i) / 2 := by
    intro i
    have ha := (h1.1 i).1; have hb := (h1'.1 i).1
    have h3 := sq_div_add_le (a := ‖u i‖) (b := ‖v i‖) ha hb
    have h4 : ‖(u i + v i) / 2‖ = ‖u i + v i‖ / 2 := by rw [norm_div]; simp
    have h5 : ‖u i + v i‖ ^ 2 ≤ (‖u i‖ + ‖v i‖) ^ 2 := pow_le_pow_left₀ (norm_nonneg _) (norm_add_le _ _) 2
    have h6 : (‖u i + v i‖ / 2) ^ 2 / ((θ i + θ' i) / 2) = ‖u i + v i‖ ^ 2 / (θ i + θ' i) / 2 := by
      field_simp
    rw [h4, h6]
    have h7 : ‖u i + v i‖ ^ 2 / (θ i + θ' i) ≤ (‖u i‖ + ‖v i‖) ^ 2 / (θ i + θ' i) := by gcongr
    linarith
  refine (Finset.sum_le_sum fun i _ => hterm i).trans ?_
  rw [← Finset.sum_div, Finset.sum_add_distrib]
  linarith

/-- The optimality conditions of the budget problem characterise the proximal point. -/
theorem box_prox {b k : ℝ} (hb : 0 < b) (hk : 0 < k) (x : ι → 𝕜) (θ : ι → ℝ) (h0 : ∀ i, 0 ≤ θ i)
    (h1 : ∀ i, θ i ≤ 1) (hsum : ∑ i, θ i ≤ k) (ν : ℝ) (hν0 : 0 ≤ ν) (hν : ν * (k - ∑ i, θ i) = 0)
    (kkt : ∀ i t, 0 ≤ t → t ≤ 1 → (b / 2 * (‖x i‖ ^ 2 / (θ i + b) ^ 2) - ν) * (t - θ i) ≤ 0) :
    IsUniqueProx (fun u => b / 2 * ksupSq k u) x fun i => x i * (θ i : 𝕜) / ((θ i + b : ℝ) : 𝕜) := by
  set p : ι → 𝕜 := fun i => x i * (θ i : 𝕜) / ((θ i + b : ℝ) : 𝕜) with hp
  have hpos : ∀ i, 0 < θ i + b := fun i => by have := h0 i; linarith
  have hpn : ∀ i, ‖p i‖ = ‖x i‖ * θ i / (θ i + b) := by
    intro i
    simp only [hp, norm_div, norm_mul, RCLike.norm_ofReal, abs_of_nonneg (h0 i), abs_of_pos (hpos i)]
  have hxp : ∀ i, ‖x i - p i‖ = ‖x i‖ * b / (θ i + b) := by
    intro i
    have e : x i - p i = x i * (b : 𝕜) / ((θ i + b : ℝ) : 𝕜) := by
      have hne : ((θ i + b : ℝ) : 𝕜) ≠ 0 := by exact_mod_cast (hpos i).ne'
      simp only [hp]
      rw [eq_div_iff hne, sub_mul, div_mul_cancel₀ _ hne]
      push_cast; ring
    rw [e, norm_div, norm_mul, RCLike.norm_ofReal, RCLike.norm_ofReal, abs_of_pos hb, abs_of_pos (hpos i)]
  -- value of the objective at p
  have hval : halfSqDist x p + b / 2 * ksupSq k p ≤ ∑ i, b / 2 * (‖x i‖ ^ 2 / (θ i + b)) := by
    obtain ⟨β, hβ⟩ := exists_budget ι hk
    set C : ℝ := ∑ i, ‖x i‖ ^ 2 * θ i / (θ i + b) ^ 2 with hC
    have hC0 : 0 ≤ C := Finset.sum_nonneg fun i _ => by have := h0 i; have := hpos i; positivity
    have hks : ksupSq k p ≤ C := by
      apply le_of_forall_pos_le_add
      intro ε hε
      -- perturb the weights
      set δ : ℝ := ε / (C + ε) with hδ
      have hδ0 : 0 < δ := by positivity
      have hδ1 : δ < 1 ∨ C = 0 := by
        rcases eq_or_lt_of_le hC0 with h | h
        · exact Or.inr h.symm
        · left; rw [hδ, div_lt_one (by linarith)]; linarith
      rcases hδ1 with hδ1 | hCz
      · have hbud : Budget k fun i => (1 - δ) * θ i + δ * β i := by
          refine ⟨fun i => ⟨?_, ?_⟩, ?_⟩
          · have h2 := mul_nonneg (by linarith : 0 ≤ 1 - δ) (h0 i)
            have h3 := mul_pos hδ0 (hβ.1 i).1
            linarith
          · have h2 := mul_le_mul_of_nonneg_left (h1 i) (by linarith : 0 ≤ 1 - δ)
            have h3 := mul_le_mul_of_nonneg_left (hβ.1 i).2 hδ0.le
            linarith
          · rw [Finset.sum_add_distrib, ← Finset.mul_sum, ← Finset.mul_sum]
            have h2 := mul_le_mul_of_nonneg_left hsum (by linarith : 0 ≤ 1 - δ)
            have h3 := mul_le_mul_of_nonneg_left hβ.2 hδ0.le
            linarith
        refine (ksupSq_le hbud).trans ?_
        have hterm : ∀ i, ‖p i‖ ^ 2 / ((1 - δ) * θ i + δ * β i) ≤ ‖x i‖ ^ 2 * θ i / (θ i + b) ^ 2 / (1 - δ) := by
          intro i
          rw [hpn]
          rcases eq_or_lt_of_le (h0 i) with hz | hz
          · rw [← hz]; simp
          · have h2 : (1 - δ) * θ i ≤ (1 - δ) * θ i + δ * β i := by
              have := mul_pos hδ0 (hβ.1 i).1; linarith
            have h3 : 0 < (1 - δ) * θ i := mul_pos (by linarith) hz
            calc (‖x i‖ * θ i / (θ i + b)) ^ 2 / ((1 - δ) * θ i + δ * β i)
                ≤ (‖x i‖ * θ i / (θ i + b)) ^ 2 / ((1 - δ) * θ i) := by
                  apply div_le_div_of_nonneg_left (sq_nonneg _) h3 h2
              _ = _ := by
                  have := hpos i
                  have : (1 - δ) ≠ 0 := by linarith
                  field_simp
        refine (Finset.sum_le_sum fun i _ => hterm i).trans ?_
        rw [← Finset.sum_div, ← hC, div_le_iff₀ (by linarith)]
        have e : (C + ε) * (1 - δ) = C := by rw [hδ]; field_simp; ring
        exact le_of_eq e.symm
      · have hall : ∀ i, p i = 0 := by
          intro i
          have := (Finset.sum_eq_zero_iff_of_nonneg fun i _ => by
            have := h0 i; have := hpos i; positivity).1 (hC ▸ hCz) i (Finset.mem_univ i)
          have h2 : ‖x i‖ ^ 2 * θ i = 0 := by
            have h3 := (hpos i).ne'
            rcases div_eq_zero_iff.1 this with h4 | h4
            · exact h4
            · exact absurd (pow_eq_zero_iff two_ne_zero |>.1 h4) h3
          rw [← norm_eq_zero, hpn]
          rcases mul_eq_zero.1 h2 with h4 | h4
          · rw [pow_eq_zero_iff two_ne_zero |>.1 h4]; simp
          · rw [h4]; simp
        refine (ksupSq_le hβ).trans ?_
        simp only [hall]
        simp; linarith
    have hhalf : halfSqDist x p = ∑ i, 1 / 2 * (‖x i‖ * b / (θ i + b)) ^ 2 := by
      unfold halfSqDist; rw [Finset.mul_sum]
      exact Finset.sum_congr rfl fun i _ => by rw [hxp]
    have h2 : b / 2 * ksupSq k p ≤ b / 2 * C := mul_le_mul_of_nonneg_left hks (by linarith)
    have h3 : ∑ i, 1 / 2 * (‖x i‖ * b / (θ i + b)) ^ 2 + b / 2 * C = ∑ i, b / 2 * (‖x i‖ ^ 2 / (θ i + b)) := by
      rw [hC, Finset.mul_sum, ← Finset.sum_add_distrib]
      refine Finset.sum_congr rfl fun i _ => ?_
      have := (hpos i).ne'
      field_simp
      ring
    rw [hhalf, ← h3]; linarith
  -- lower bound for every competitor and every budget
  have hlow : ∀ u : ι → 𝕜, ∑ i, b / 2 * (‖x i‖ ^ 2 / (θ i + b)) ≤ halfSqDist x u + b / 2 * ksupSq k u := by
    intro u
    have key : ∀ θ' : ι → ℝ, Budget k θ' →
        ∑ i, b / 2 * (‖x i‖ ^ 2 / (θ i + b)) ≤ halfSqDist x u + b / 2 * ∑ i, ‖u i‖ ^ 2 / θ' i := by
      intro θ' hθ'
      have s1 : ∀ i, b / 2 * (‖x i‖ ^ 2 / (θ' i + b)) ≤ 1 / 2 * ‖x i - u i‖ ^ 2 + b / 2 * (‖u i‖ ^ 2 / θ' i) := by
        intro i
        have ht := (hθ'.1 i).1
        have h2 : ‖x i‖ ^ 2 ≤ (‖x i - u i‖ + ‖u i‖) ^ 2 := by
          apply pow_le_pow_left₀ (norm_nonneg _)
          have := norm_add_le (x i - u i) (u i)
          simpa using this
        have h3 := sq_div_add_le (a := ‖x i - u i‖) (b := ‖u i‖) hb ht
        have h4 : ‖x i‖ ^ 2 / (θ' i + b) ≤ ‖x i - u i‖ ^ 2 / b + ‖u i‖ ^ 2 / θ' i := by
          rw [add_comm (θ' i) b]
          refine le_trans ?_ h3
          gcongr
        have h5 : b / 2 * (‖x i - u i‖ ^ 2 / b) = 1 / 2 * ‖x i - u i‖ ^ 2 := by field_simp
        have h6 := mul_le_mul_of_nonneg_left h4 (by linarith : 0 ≤ b / 2)
        rw [mul_add, h5] at h6
        exact h6
      have s2 : ∀ i, b / 2 * (‖x i‖ ^ 2 / (θ i + b)) - ν * (θ' i - θ i) ≤ b / 2 * (‖x i‖ ^ 2 / (θ' i + b)) := by
        intro i
        have ht := (hθ'.1 i).1
        have hq : 0 < θ' i + b := by linarith
        have h2 := kkt i (θ' i) ht.le (hθ'.1 i).2
        have h3 : b / 2 * (‖x i‖ ^ 2 / (θ i + b)) - b / 2 * (‖x i‖ ^ 2 / (θ i + b) ^ 2) * (θ' i - θ i)
            ≤ b / 2 * (‖x i‖ ^ 2 / (θ' i + b)) := by
          have e : b / 2 * (‖x i‖ ^ 2 / (θ' i + b)) - (b / 2 * (‖x i‖ ^ 2 / (θ i + b))
              - b / 2 * (‖x i‖ ^ 2 / (θ i + b) ^ 2) * (θ' i - θ i))
              = b / 2 * ‖x i‖ ^ 2 * (θ' i - θ i) ^ 2 / ((θ i + b) ^ 2 * (θ' i + b)) := by
            have h4 := (hpos i).ne'; have h5 := hq.ne'
            field_simp
            ring
          have h6 : 0 ≤ b / 2 * ‖x i‖ ^ 2 * (θ' i - θ i) ^ 2 / ((θ i + b) ^ 2 * (θ' i + b)) := by
            have := hpos i; positivity
          linarith
        linarith
      have s3 : 0 ≤ -(ν * ∑ i, (θ' i - θ i)) := by
        rw [Finset.sum_sub_distrib]
        have h2 : ν * (∑ i, θ' i) ≤ ν * k := mul_le_mul_of_nonneg_left hθ'.2 hν0
        nlinarith
      have s4 : ∑ i, (b / 2 * (‖x i‖ ^ 2 / (θ i + b)) - ν * (θ' i - θ i)) ≤
          ∑ i, (1 / 2 * ‖x i - u i‖ ^ 2 + b / 2 * (‖u i‖ ^ 2 / θ' i)) :=
        Finset.sum_le_sum fun i _ => (s2 i).trans (s1 i)
      rw [Finset.sum_sub_distrib, Finset.sum_add_distrib, ← Finset.mul_sum (f := fun i => θ' i - θ i),
        ← Finset.mul_sum (f := fun i => ‖x i - u i‖ ^ 2), ← Finset.mul_sum (f := fun i => ‖u i‖ ^ 2 / θ' i)] at s4
      unfold halfSqDist
      linarith
    apply le_of_forall_pos_le_add
    intro ε hε
    obtain ⟨θ', h2, h3⟩ := ksupSq_approx hk u (show 0 < ε / b by positivity)
    refine (key θ' h2).trans ?_
    have h4 : b / 2 * ∑ i, ‖u i‖ ^ 2 / θ' i ≤ b / 2 * (ksupSq k u + ε / b) :=
      mul_le_mul_of_nonneg_left h3.le (by linarith)
    have h5 : b / 2 * (ksupSq k u + ε / b) = b / 2 * ksupSq k u + ε / 2 := by field_simp
    linarith
  have hprox : IsProx (fun u => b / 2 * ksupSq k u) x p := fun u => hval.trans (hlow u)
  refine ⟨hprox, fun q hq => isProx_unique_of_midpoint _ (fun u v => ?_) hprox hq⟩
  have := mul_le_mul_of_nonneg_left (ksupSq_midpoint hk u v) (by linarith : 0 ≤ b / 2)
  linarith

end spec


/-! ## The binary search -/

theorem particular_mid (al : List ℝ) (S : ℝ → ℝ) (k first : ℕ) :
    (particular al S k first (first + 1) first).1 = first := by
  simp only [particular]
  split_ifs <;> simp

/-- Whatever the history of midpoints, the midpoint examined is the middle of the interval. -/
theorem search_mid (al : List ℝ) (S : ℝ → ℝ) (k first last prev : ℕ) (hlt : first < last)
    (hprev : prev = first ∨ prev = last) :
    (if prev = (first + last) / 2 then particular al S k first last ((first + last) / 2)
        else ((first + last) / 2, false)).1 = (first + last) / 2 := by
  by_cases h : prev = (first + last) / 2
  · rw [if_pos h]
    have h1 : last = first + 1 := by omega
    have h2 : (first + last) / 2 = first := by omega
    rw [h2, h1]
    exact particular_mid al S k first
  · rw [if_neg h]

theorem searchLoop_ok (al : List ℝ) (S : ℝ → ℝ) (k : ℕ)
    (hmono : ∀ i j, i ≤ j → j < al.length → S (al.getD i 0) ≤ S (al.getD j 0)) :
    ∀ n first last prev : ℕ, first < last → last < al.length → last - first ≤ n →
      S (al.getD first 0) < k → (k : ℝ) < S (al.getD last 0) → (prev = first ∨ prev = last) →
      ∃ m, m + 1 < al.length ∧ S (al.getD m 0) ≤ k ∧ (k : ℝ) ≤ S (al.getD (m + 1) 0) ∧
        searchLoop al S k n first last prev
          = .ok (al.getD m 0, al.getD (m + 1) 0, S (al.getD m 0), S (al.getD (m + 1) 0)) := by
  intro n
  induction n with
  | zero => intro first last prev h1 h2 h3; omega
  | succ n ih =>
    intro first last prev hlt hlast hn h0 h1 hprev
    rw [searchLoop]
    rw [if_neg (by omega)]
    have hm := search_mid al S k first last prev hlt hprev
    set m : ℕ × Bool := (if prev = (first + last) / 2 then particular al S k first last ((first + last) / 2)
        else ((first + last) / 2, false)) with hmdef
    have hm1 : first ≤ m.1 := by omega
    have hm2 : m.1 < last := by omega
    simp only []
    rw [if_neg (by omega)]
    by_cases hc : S (al.getD m.1 0) ≤ k ∧ (k : ℝ) ≤ S (al.getD (m.1 + 1) 0)
    · rw [if_pos hc]
      exact ⟨m.1, by omega, hc.1, hc.2, rfl⟩
    · rw [if_neg hc]
      have hwide : first + 1 < last := by
        by_contra hcon
        have h2 : m.1 = first := by omega
        have h3 : last = first + 1 := by omega
        exact hc ⟨by rw [h2]; exact h0.le, by rw [h2, ← h3]; exact h1.le⟩
      have hfalse : m.2 = false := by
        rw [hmdef]
        rw [if_neg (by omega)]
      rw [hfalse]
      simp only [Bool.false_eq_true, if_false]
      by_cases hs : S (al.getD (m.1 + 1) 0) < k
      · rw [if_pos hs]
        refine ih m.1 last m.1 hm2 hlast (by omega) ?_ h1 (Or.inl rfl)
        exact lt_of_le_of_lt (hmono m.1 (m.1 + 1) (by omega) (by omega)) hs
      · rw [if_neg hs]
        have hs' : S (al.getD m.1 0) > k := by
          by_contra hcon
          exact hc ⟨not_lt.1 hcon, not_lt.1 hs⟩
        rw [if_pos hs']
        refine ih first m.1 m.1 ?_ (by omega) (by omega) h0 hs' (Or.inr rfl)
        rcases Nat.lt_or_ge first m.1 with h | h
        · exact h
        · have : m.1 = first := by omega
          rw [this] at hs'
          exact absurd h0 (not_lt.2 hs'.le)

theorem binarySearch_cases (al : List ℝ) (S : ℝ → ℝ) (k : ℕ) (hlen : 2 ≤ al.length)
    (hmono : ∀ i j, i ≤ j → j < al.length → S (al.getD i 0) ≤ S (al.getD j 0))
    (h0 : S (al.getD 0 0) < k) :
    (S (al.getD (al.length - 1) 0) ≤ k ∧ binarySearch al S k = .ok (al.getD (al.length - 2) 0,
        al.getD (al.length - 1) 0, S (al.getD 0 0), S (al.getD (al.length - 1) 0))) ∨
    ((k : ℝ) < S (al.getD (al.length - 1) 0) ∧ ∃ m, m + 1 < al.length ∧ S (al.getD m 0) ≤ k ∧
        (k : ℝ) ≤ S (al.getD (m + 1) 0) ∧ binarySearch al S k
          = .ok (al.getD m 0, al.getD (m + 1) 0, S (al.getD m 0), S (al.getD (m + 1) 0))) := by
  have hne : al ≠ [] := by intro h; rw [h] at hlen; simp at hlen
  unfold binarySearch
  rw [if_neg hne]
  simp only []
  rw [if_neg (not_le.2 h0)]
  by_cases h1 : S (al.getD (al.length - 1) 0) ≤ k
  · left; rw [if_pos h1]; exact ⟨h1, rfl⟩
  · right
    rw [if_neg h1]
    refine ⟨not_le.1 h1, searchLoop_ok al S k hmono al.length 0 (al.length - 1) 0 (by omega) (by omega) (by omega)
      h0 (not_le.1 h1) (Or.inl rfl)⟩

/-! ## The candidate list -/

section cand
variable {d : ℕ} {𝕜 : Type} [RCLike 𝕜]

theorem mem_alphas {e b : ℝ} {x : Fin d → 𝕜} {a : ℝ} :
    a ∈ alphas e b x ↔ (∃ i, b / (‖x i‖ + e) = a) ∨ ∃ i, (b + 1) / (‖x i‖ + e) = a := by
  unfold alphas
  rw [Finset.mem_sort, Finset.mem_union, Finset.mem_image, Finset.mem_image]
  simp

theorem alphas_pairwise (e b : ℝ) (x : Fin d → 𝕜) : (alphas e b x).Pairwise (· < ·) := by
  unfold alphas
  exact (Finset.sortedLT_sort _).pairwise

theorem alphas_lt {e b : ℝ} {x : Fin d → 𝕜} {i j : ℕ} (hij : i < j) (hj : j < (alphas e b x).length) :
    (alphas e b x).getD i 0 < (alphas e b x).getD j 0 := by
  rw [List.getD_eq_getElem (alphas e b x) 0 (by omega), List.getD_eq_getElem (alphas e b x) 0 hj]
  exact List.pairwise_iff_getElem.1 (alphas_pairwise e b x) i j (by omega) hj hij

theorem alphas_le {e b : ℝ} {x : Fin d → 𝕜} {i j : ℕ} (hij : i ≤ j) (hj : j < (alphas e b x).length) :
    (alphas e b x).getD i 0 ≤ (alphas e b x).getD j 0 := by
  rcases Nat.eq_or_lt_of_le hij with h | h
  · rw [h]
  · exact (alphas_lt h hj).le

theorem getD_mem_alphas {e b : ℝ} {x : Fin d → 𝕜} {i : ℕ} (hi : i < (alphas e b x).length) :
    (alphas e b x).getD i 0 ∈ alphas e b x := by
  rw [List.getD_eq_getElem (alphas e b x) 0 hi]
  exact List.getElem_mem hi

/-- No candidate lies strictly between two neighbours. -/
theorem alphas_gap {e b : ℝ} {x : Fin d → 𝕜} {m : ℕ} (hm : m + 1 < (alphas e b x).length) {a : ℝ}
    (ha : a ∈ alphas e b x) : a ≤ (alphas e b x).getD m 0 ∨ (alphas e b x).getD (m + 1) 0 ≤ a := by
  obtain ⟨j, hj, rfl⟩ := List.mem_iff_getElem.1 ha
  rw [← List.getD_eq_getElem (alphas e b x) 0 hj]
  rcases Nat.lt_or_ge m j with h | h
  · right; exact alphas_le h hj
  · left; exact alphas_le h (by omega)

theorem alphas_first_le {e b : ℝ} {x : Fin d → 𝕜} {a : ℝ} (ha : a ∈ alphas e b x) :
    (alphas e b x).getD 0 0 ≤ a := by
  obtain ⟨j, hj, rfl⟩ := List.mem_iff_getElem.1 ha
  rw [← List.getD_eq_getElem (alphas e b x) 0 hj]
  exact alphas_le (Nat.zero_le j) hj

theorem le_alphas_last {e b : ℝ} {x : Fin d → 𝕜} {a : ℝ} (ha : a ∈ alphas e b x) :
    a ≤ (alphas e b x).getD ((alphas e b x).length - 1) 0 := by
  obtain ⟨j, hj, rfl⟩ := List.mem_iff_getElem.1 ha
  rw [← List.getD_eq_getElem (alphas e b x) 0 hj]
  exact alphas_le (by omega) (by omega)

theorem alphas_length {e b : ℝ} {x : Fin d → 𝕜} (hd : 0 < d) (he : ∀ i, 0 < ‖x i‖ + e) :
    2 ≤ (alphas e b x).length := by
  have h1 : b / (‖x ⟨0, hd⟩‖ + e) ∈ alphas e b x := mem_alphas.2 (Or.inl ⟨_, rfl⟩)
  have h2 : (b + 1) / (‖x ⟨0, hd⟩‖ + e) ∈ alphas e b x := mem_alphas.2 (Or.inr ⟨_, rfl⟩)
  have hlt : b / (‖x ⟨0, hd⟩‖ + e) < (b + 1) / (‖x ⟨0, hd⟩‖ + e) :=
    div_lt_div_of_pos_right (by linarith) (he _)
  by_contra hcon
  rcases h : alphas e b x with _ | ⟨a, _ | ⟨a', l⟩⟩
  · rw [h] at h1; simp at h1
  · rw [h] at h1 h2
    simp only [List.mem_singleton] at h1 h2
    rw [h1, h2] at hlt
    exact lt_irrefl _ hlt
  · rw [h] at hcon; simp at hcon

theorem sumTheta_eq (b a : ℝ) (x : Fin d → 𝕜) : sumTheta b a x = ∑ i, clip01 (a * ‖x i‖ - b) :=
  Finset.sum_congr rfl fun _ _ => theta_fin b a _

theorem sumTheta_mono {b a a' : ℝ} (x : Fin d → 𝕜) (h : a ≤ a') : sumTheta b a x ≤ sumTheta b a' x := by
  rw [sumTheta_eq, sumTheta_eq]
  exact Finset.sum_le_sum fun i _ => clip01_mono (by
    have := mul_le_mul_of_nonneg_right h (norm_nonneg (x i)); linarith)

theorem sumTheta_le_card (b a : ℝ) (x : Fin d → 𝕜) : sumTheta b a x ≤ d := by
  rw [sumTheta_eq]
  calc ∑ i, clip01 (a * ‖x i‖ - b) ≤ ∑ _i : Fin d, (1 : ℝ) := Finset.sum_le_sum fun i _ => clip01_le_one _
    _ = d := by simp

/-- At the smallest candidate every weight is zero. -/
theorem sumTheta_first {e b : ℝ} {x : Fin d → 𝕜} (he0 : 0 ≤ e) (he : ∀ i, 0 < ‖x i‖ + e) (hb : 0 ≤ b) :
    sumTheta b ((alphas e b x).getD 0 0) x = 0 := by
  rw [sumTheta_eq]
  refine Finset.sum_eq_zero fun i _ => clip01_of_nonpos ?_
  have h1 : (alphas e b x).getD 0 0 ≤ b / (‖x i‖ + e) := alphas_first_le (mem_alphas.2 (Or.inl ⟨i, rfl⟩))
  have h2 := mul_le_mul_of_nonneg_right h1 (norm_nonneg (x i))
  have h3 : b / (‖x i‖ + e) * ‖x i‖ ≤ b / (‖x i‖ + e) * (‖x i‖ + e) :=
    mul_le_mul_of_nonneg_left (by linarith) (div_nonneg hb (he i).le)
  rw [div_mul_cancel₀ _ (he i).ne'] at h3
  linarith

theorem alphas_nonneg {e b : ℝ} {x : Fin d → 𝕜} (he : ∀ i, 0 < ‖x i‖ + e) (hb : 0 ≤ b) {a : ℝ}
    (ha : a ∈ alphas e b x) : 0 ≤ a := by
  rcases mem_alphas.1 ha with ⟨i, rfl⟩ | ⟨i, rfl⟩
  · exact div_nonneg hb (he i).le
  · exact div_nonneg (by linarith) (he i).le

theorem alphas_pos {e b : ℝ} {x : Fin d → 𝕜} (he : ∀ i, 0 < ‖x i‖ + e) (hb : 0 < b) {a : ℝ}
    (ha : a ∈ alphas e b x) : 0 < a := by
  rcases mem_alphas.1 ha with ⟨i, rfl⟩ | ⟨i, rfl⟩
  · exact div_pos hb (he i)
  · exact div_pos (by linarith) (he i)

/-- The four-way outcome of the search for `alpha`. -/
theorem search_cases {e b : ℝ} {x : Fin d → 𝕜} {k : ℕ} (hd : 0 < d) (he0 : 0 ≤ e) (he : ∀ i, 0 < ‖x i‖ + e)
    (hb : 0 ≤ b) (hk : 1 ≤ k) :
    let al := alphas e b x
    let S := fun a => sumTheta b a x
    (S (al.getD (al.length - 1) 0) ≤ k ∧ binarySearch al S k = .ok (al.getD (al.length - 2) 0,
        al.getD (al.length - 1) 0, S (al.getD 0 0), S (al.getD (al.length - 1) 0))) ∨
    ((k : ℝ) < S (al.getD (al.length - 1) 0) ∧ ∃ m, m + 1 < al.length ∧ S (al.getD m 0) ≤ k ∧
        (k : ℝ) ≤ S (al.getD (m + 1) 0) ∧ binarySearch al S k
          = .ok (al.getD m 0, al.getD (m + 1) 0, S (al.getD m 0), S (al.getD (m + 1) 0))) := by
  intro al S
  refine binarySearch_cases al S k (alphas_length hd he) (fun i j hij hj => ?_) ?_
  · exact sumTheta_mono x (alphas_le hij hj)
  · have h : S (al.getD 0 0) = 0 := sumTheta_first he0 he hb
    rw [h]
    exact_mod_cast hk

/-- The search always succeeds. -/
theorem findAlpha_ok {e b : ℝ} {x : Fin d → 𝕜} {k : ℕ} (hd : 0 < d) (he0 : 0 ≤ e) (he : ∀ i, 0 < ‖x i‖ + e)
    (hb : 0 ≤ b) (hk : 1 ≤ k) : ∃ a, findAlpha e b k x = .ok a := by
  unfold findAlpha
  rcases search_cases hd he0 he hb hk with ⟨_, h⟩ | ⟨_, m, _, _, _, h⟩ <;>
  · rw [h]; exact ⟨_, rfl⟩

/-! ## The value found -/

/-- Between two neighbouring candidates the regularised ramp is affine. -/
theorem ramp_affine {b r a0 a1 t : ℝ} (hr : 0 < r) (h01 : a0 < a1) (hg0 : b / r ≤ a0 ∨ a1 ≤ b / r)
    (hg1 : (b + 1) / r ≤ a0 ∨ a1 ≤ (b + 1) / r) (ht0 : 0 ≤ t) (ht1 : t ≤ 1) :
    clip01 ((a0 + t * (a1 - a0)) * r - b) = clip01 (a0 * r - b) + t * (clip01 (a1 * r - b) - clip01 (a0 * r - b)) := by
  have hm0 : a0 ≤ a0 + t * (a1 - a0) := by nlinarith
  have hm1 : a0 + t * (a1 - a0) ≤ a1 := by nlinarith
  have hmul : ∀ {p q : ℝ}, p ≤ q → p * r ≤ q * r := fun h => mul_le_mul_of_nonneg_right h hr.le
  rcases hg0 with h0 | h0
  · rcases hg1 with h1 | h1
    · rw [div_le_iff₀ hr] at h1
      rw [clip01_of_one_le (by linarith [hmul hm0]), clip01_of_one_le (by linarith),
        clip01_of_one_le (by linarith [hmul h01.le])]
      ring
    · rw [div_le_iff₀ hr] at h0
      rw [le_div_iff₀ hr] at h1
      rw [clip01_of_mem (by linarith [hmul hm0]) (by linarith [hmul hm1]),
        clip01_of_mem (by linarith) (by linarith [hmul h01.le]),
        clip01_of_mem (by linarith [hmul h01.le]) (by linarith)]
      ring
  · rw [le_div_iff₀ hr] at h0
    rw [clip01_of_nonpos (by linarith [hmul hm1]), clip01_of_nonpos (by linarith [hmul h01.le]),
      clip01_of_nonpos (by linarith)]
    ring

/-- The sum of the weights with the moduli regularised by `e`. -/
noncomputable def sumReg (e b a : ℝ) (x : Fin d → 𝕜) : ℝ := ∑ i, clip01 (a * (‖x i‖ + e) - b)

theorem sumTheta_le_sumReg {e b a : ℝ} (he0 : 0 ≤ e) (ha : 0 ≤ a) (x : Fin d → 𝕜) :
    sumTheta b a x ≤ sumReg e b a x := by
  rw [sumTheta_eq]
  exact Finset.sum_le_sum fun i _ => clip01_mono (by nlinarith [mul_nonneg ha he0])

theorem sumReg_le_sumTheta {e b a : ℝ} (he0 : 0 ≤ e) (ha : 0 ≤ a) (x : Fin d → 𝕜) :
    sumReg e b a x ≤ sumTheta b a x + d * (a * e) := by
  rw [sumTheta_eq]
  have h : ∀ i, clip01 (a * (‖x i‖ + e) - b) ≤ clip01 (a * ‖x i‖ - b) + a * e := by
    intro i
    have := clip01_add_le (t := a * ‖x i‖ - b) (mul_nonneg ha he0)
    rw [show a * (‖x i‖ + e) - b = a * ‖x i‖ - b + a * e by ring]
    exact this
  refine (Finset.sum_le_sum fun i _ => h i).trans ?_
  rw [Finset.sum_add_distrib]
  simp

/-- The interpolated value hits `k` up to the regularisation. -/
theorem interpolate_close {e b : ℝ} {x : Fin d → 𝕜} {k : ℕ} (he0 : 0 ≤ e) (he : ∀ i, 0 < ‖x i‖ + e)
    (hb : 0 ≤ b) {m : ℕ} (hm : m + 1 < (alphas e b x).length)
    (h0 : sumTheta b ((alphas e b x).getD m 0) x ≤ k) (h1 : (k : ℝ) ≤ sumTheta b ((alphas e b x).getD (m + 1) 0) x) :
    ∃ a, interpolate k ((alphas e b x).getD m 0) ((alphas e b x).getD (m + 1) 0)
        (sumTheta b ((alphas e b x).getD m 0) x) (sumTheta b ((alphas e b x).getD (m + 1) 0) x) = .fin a ∧
      (alphas e b x).getD m 0 ≤ a ∧ a ≤ (alphas e b x).getD (m + 1) 0 ∧
      |sumTheta b a x - k| ≤ d * ((alphas e b x).getD (m + 1) 0 * e) := by
  set a0 := (alphas e b x).getD m 0 with ha0
  set a1 := (alphas e b x).getD (m + 1) 0 with ha1
  have h01 : a0 < a1 := alphas_lt (by omega) hm
  have ha0n : 0 ≤ a0 := alphas_nonneg he hb (getD_mem_alphas (by omega))
  have ha1n : 0 ≤ a1 := by linarith
  have hbound : (0 : ℝ) ≤ d * (a1 * e) := by positivity
  unfold interpolate
  by_cases hs0 : sumTheta b a0 x = k
  · rw [if_pos hs0]
    exact ⟨a0, rfl, le_rfl, h01.le, by rw [hs0]; simpa using hbound⟩
  rw [if_neg hs0]
  by_cases hs1 : sumTheta b a1 x = k
  · rw [if_pos hs1]
    exact ⟨a1, rfl, h01.le, le_rfl, by rw [hs1]; simpa using hbound⟩
  rw [if_neg hs1]
  have hk0 : sumTheta b a0 x < k := lt_of_le_of_ne h0 hs0
  have hk1 : (k : ℝ) < sumTheta b a1 x := lt_of_le_of_ne h1 (Ne.symm hs1)
  have hd : 0 < sumTheta b a1 x - sumTheta b a0 x := by linarith
  have hda : 0 < a1 - a0 := by linarith
  have hslope : (sumTheta b a1 x - sumTheta b a0 x) / (a1 - a0) ≠ 0 := (div_pos hd hda).ne'
  simp only []
  rw [if_neg hslope]
  set t : ℝ := (k - sumTheta b a0 x) / (sumTheta b a1 x - sumTheta b a0 x) with ht
  have ht0 : 0 ≤ t := div_nonneg (by linarith) hd.le
  have ht1 : t ≤ 1 := (div_le_one hd).2 (by linarith)
  have hval : ((k : ℝ) - (sumTheta b a0 x - (sumTheta b a1 x - sumTheta b a0 x) / (a1 - a0) * a0))
      / ((sumTheta b a1 x - sumTheta b a0 x) / (a1 - a0)) = a0 + t * (a1 - a0) := by
    rw [ht]
    have := hda.ne'; have := hd.ne'
    field_simp
    ring
  have htk : sumTheta b a0 x + t * (sumTheta b a1 x - sumTheta b a0 x) = k := by
    rw [ht, div_mul_cancel₀ _ hd.ne']; ring
  have hm0 : a0 ≤ a0 + t * (a1 - a0) := by nlinarith
  have hm1 : a0 + t * (a1 - a0) ≤ a1 := by nlinarith
  refine ⟨a0 + t * (a1 - a0), by rw [hval], hm0, hm1, ?_⟩
  have haff : sumReg e b (a0 + t * (a1 - a0)) x = sumReg e b a0 x + t * (sumReg e b a1 x - sumReg e b a0 x) := by
    unfold sumReg
    rw [← Finset.sum_sub_distrib, Finset.mul_sum, ← Finset.sum_add_distrib]
    refine Finset.sum_congr rfl fun i _ => ramp_affine (he i) h01 ?_ ?_ ht0 ht1
    · exact alphas_gap hm (mem_alphas.2 (Or.inl ⟨i, rfl⟩))
    · exact alphas_gap hm (mem_alphas.2 (Or.inr ⟨i, rfl⟩))
  have u0 := sumTheta_le_sumReg (b := b) he0 ha0n x
  have u1 := sumTheta_le_sumReg (b := b) he0 ha1n x
  have ut := sumTheta_le_sumReg (b := b) he0 (ha0n.trans hm0) x
  have v0 := sumReg_le_sumTheta (b := b) he0 ha0n x
  have v1 := sumReg_le_sumTheta (b := b) he0 ha1n x
  have vt := sumReg_le_sumTheta (b := b) he0 (ha0n.trans hm0) x
  have w0 : (d : ℝ) * (a0 * e) ≤ d * (a1 * e) := by gcongr
  have wt : (d : ℝ) * ((a0 + t * (a1 - a0)) * e) ≤ d * (a1 * e) := by gcongr
  have x0 := mul_le_mul_of_nonneg_left u0 (by linarith : 0 ≤ 1 - t)
  have x1 := mul_le_mul_of_nonneg_left u1 ht0
  have y0 := mul_le_mul_of_nonneg_left (v0.trans (add_le_add le_rfl w0)) (by linarith : 0 ≤ 1 - t)
  have y1 := mul_le_mul_of_nonneg_left v1 ht0
  rw [abs_le]
  constructor
  · nlinarith
  · nlinarith

/-! ## The result is a proximal point -/

theorem ramp_kkt {b a r t : ℝ} (hb : 0 < b) (ha : 0 < a) (hr : 0 ≤ r) (ht0 : 0 ≤ t) (ht1 : t ≤ 1) :
    (b / 2 * (r ^ 2 / (clip01 (a * r - b) + b) ^ 2) - b / (2 * a ^ 2)) * (t - clip01 (a * r - b)) ≤ 0 := by
  have e : ∀ q : ℝ, 0 < q → b / 2 * (r ^ 2 / q ^ 2) - b / (2 * a ^ 2) = b / (2 * (a * q) ^ 2) * ((a * r) ^ 2 - q ^ 2) := by
    intro q hq
    field_simp
  rcases le_total (a * r - b) 0 with h | h
  · rw [clip01_of_nonpos h, e _ (by linarith)]
    have h1 : (a * r) ^ 2 - (0 + b) ^ 2 ≤ 0 := by
      have := pow_le_pow_left₀ (mul_nonneg ha.le hr) (show a * r ≤ 0 + b by linarith) 2
      linarith
    have h2 : 0 ≤ b / (2 * (a * (0 + b)) ^ 2) := by positivity
    rw [sub_zero]
    exact mul_nonpos_of_nonpos_of_nonneg (mul_nonpos_of_nonneg_of_nonpos h2 h1) ht0
  · rcases le_total (a * r - b) 1 with h1 | h1
    · have hq : 0 < a * r - b + b := by linarith
      rw [clip01_of_mem h h1, e _ hq]
      rw [show (a * r) ^ 2 - (a * r - b + b) ^ 2 = 0 by ring]
      simp
    · rw [clip01_of_one_le h1, e _ (by linarith)]
      have h2 : 0 ≤ (a * r) ^ 2 - (1 + b) ^ 2 := by
        have := pow_le_pow_left₀ (by linarith) (show 1 + b ≤ a * r by linarith) 2
        linarith
      have h3 : 0 ≤ b / (2 * (a * (1 + b)) ^ 2) := by positivity
      exact mul_nonpos_of_nonneg_of_nonpos (mul_nonneg h3 h2) (by linarith)

/-- For a finite positive `alpha` the weights solve the budget problem for their own total. -/
theorem fin_prox {b a : ℝ} (hb : 0 < b) (ha : 0 < a) (x : Fin d → 𝕜) (hk : 0 < sumTheta b a x) :
    IsUniqueProx (fun u => b / 2 * ksupSq (sumTheta b a x) u) x
      (applyTheta b x fun i => theta b (.fin a) ‖x i‖) := by
  refine box_prox hb hk x (fun i => theta b (.fin a) ‖x i‖) (fun i => (theta_mem _ _ _).1)
    (fun i => (theta_mem _ _ _).2) (le_of_eq rfl) (b / (2 * a ^ 2)) (by positivity) ?_ ?_
  · unfold sumTheta; ring
  · intro i t h0 h1
    simp only [theta_fin]
    exact ramp_kkt hb ha (norm_nonneg _) h0 h1

/-- If every non-zero entry has weight one and zero entries weight zero, the budget is irrelevant. -/
theorem full_prox {b k : ℝ} (hb : 0 < b) (hk : 0 < k) (x : Fin d → 𝕜) (θ : Fin d → ℝ)
    (h1 : ∀ i, x i ≠ 0 → θ i = 1) (h0 : ∀ i, x i = 0 → θ i = 0) (hsum : ∑ i, θ i ≤ k) :
    IsUniqueProx (fun u => b / 2 * ksupSq k u) x (applyTheta b x θ) := by
  have hm : ∀ i, 0 ≤ θ i ∧ θ i ≤ 1 := by
    intro i
    by_cases h : x i = 0
    · rw [h0 i h]; simp
    · rw [h1 i h]; simp
  refine box_prox hb hk x θ (fun i => (hm i).1) (fun i => (hm i).2) hsum 0 le_rfl (by ring) ?_
  intro i t ht0 ht1
  by_cases h : x i = 0
  · simp [h]
  · rw [h1 i h, sub_zero]
    exact mul_nonpos_of_nonneg_of_nonpos (by positivity) (by linarith)

/-- The interpolation when even the largest candidate does not reach `k`. -/
theorem interpolate_beyond {e b : ℝ} {x : Fin d → 𝕜} {k : ℕ} (hd : 0 < d) (he0 : 0 ≤ e)
    (he : ∀ i, 0 < ‖x i‖ + e) (hb : 0 ≤ b) (hk : 1 ≤ k)
    (h1 : sumTheta b ((alphas e b x).getD ((alphas e b x).length - 1) 0) x ≤ k) :
    (interpolate k ((alphas e b x).getD ((alphas e b x).length - 2) 0)
        ((alphas e b x).getD ((alphas e b x).length - 1) 0) (sumTheta b ((alphas e b x).getD 0 0) x)
        (sumTheta b ((alphas e b x).getD ((alphas e b x).length - 1) 0) x) = .inf) ∨
    ∃ a, interpolate k ((alphas e b x).getD ((alphas e b x).length - 2) 0)
        ((alphas e b x).getD ((alphas e b x).length - 1) 0) (sumTheta b ((alphas e b x).getD 0 0) x)
        (sumTheta b ((alphas e b x).getD ((alphas e b x).length - 1) 0) x) = .fin a ∧
      (alphas e b x).getD ((alphas e b x).length - 1) 0 ≤ a := by
  have hlen := alphas_length (b := b) hd he
  have hlt : (alphas e b x).getD ((alphas e b x).length - 2) 0 < (alphas e b x).getD ((alphas e b x).length - 1) 0 :=
    alphas_lt (by omega) (by omega)
  have hk' : (1 : ℝ) ≤ k := by exact_mod_cast hk
  rw [sumTheta_first he0 he hb]
  set a0 := (alphas e b x).getD ((alphas e b x).length - 2) 0
  set a1 := (alphas e b x).getD ((alphas e b x).length - 1) 0
  set s := sumTheta b a1 x with hs
  have hs0 : 0 ≤ s := by rw [hs, sumTheta_eq]; exact Finset.sum_nonneg fun i _ => clip01_nonneg _
  unfold interpolate
  rw [if_neg (by linarith)]
  by_cases h : s = k
  · right; rw [if_pos h]; exact ⟨a1, rfl, le_rfl⟩
  rw [if_neg h]
  simp only [sub_zero]
  rcases eq_or_lt_of_le hs0 with hz | hz
  · left; rw [← hz]; simp
  · right
    have hda : 0 < a1 - a0 := by linarith
    rw [if_neg (div_pos hz hda).ne']
    refine ⟨_, rfl, ?_⟩
    rw [le_div_iff₀ (div_pos hz hda)]
    have e1 : a1 * (s / (a1 - a0)) = s + s / (a1 - a0) * a0 := by
      field_simp; ring
    rw [e1]; linarith

open Classical in
/-- The number of non-zero entries. -/
noncomputable def nnz (x : Fin d → 𝕜) : ℕ := (Finset.univ.filter fun i => x i ≠ 0).card

theorem nnz_le (x : Fin d → 𝕜) : nnz x ≤ d := by
  unfold nnz
  exact (Finset.card_filter_le _ _).trans (by simp)

open Classical in
theorem nnz_cast (x : Fin d → 𝕜) : (nnz x : ℝ) = ∑ i, if x i = 0 then (0 : ℝ) else 1 := by
  unfold nnz
  rw [Finset.card_eq_sum_ones, Finset.sum_filter]
  push_cast
  refine Finset.sum_congr rfl fun i _ => ?_
  by_cases h : x i = 0 <;> simp [h]

theorem sum_le_nnz (x : Fin d → 𝕜) (θ : Fin d → ℝ) (h0 : ∀ i, x i = 0 → θ i = 0) (h1 : ∀ i, θ i ≤ 1) :
    ∑ i, θ i ≤ nnz x := by
  classical
  rw [nnz_cast]
  refine Finset.sum_le_sum fun i _ => ?_
  by_cases h : x i = 0
  · simp [h, h0 i h]
  · simpa [h] using h1 i

theorem nnz_le_sum (x : Fin d → 𝕜) (θ : Fin d → ℝ) {δ : ℝ} (h0 : ∀ i, 0 ≤ θ i)
    (h1 : ∀ i, x i ≠ 0 → 1 - δ ≤ θ i) : nnz x * (1 - δ) ≤ ∑ i, θ i := by
  classical
  rw [nnz_cast, Finset.sum_mul]
  refine Finset.sum_le_sum fun i _ => ?_
  by_cases h : x i = 0
  · simpa [h] using h0 i
  · simpa [h] using h1 i h

theorem theta_zero {b : ℝ} (hb : 0 < b) (al : Alpha) : theta b al 0 = 0 := by
  cases al with
  | fin a => rw [theta_fin]; exact clip01_of_nonpos (by linarith)
  | inf => simp [theta]

theorem theta_near_one {b a e m r : ℝ} (hb : 0 < b) (he0 : 0 ≤ e) (hm : 0 < m) (hr : m ≤ r)
    (ha : (b + 1) / (r + e) ≤ a) : 1 - (b + 1) * e / m ≤ theta b (.fin a) r := by
  rw [theta_fin]
  have hre : 0 < r + e := by linarith
  have h1 : (b + 1) / (r + e) * r ≤ a * r := mul_le_mul_of_nonneg_right ha (by linarith)
  have h2 : (b + 1) / (r + e) * r = (b + 1) - (b + 1) * e / (r + e) := by field_simp; ring
  have h3 : (b + 1) * e / (r + e) ≤ (b + 1) * e / m :=
    div_le_div_of_nonneg_left (by positivity) hm (by linarith)
  have h4 : 0 ≤ (b + 1) * e / m := by positivity
  unfold clip01
  exact le_trans (le_min (by linarith) (by linarith)) (le_max_right _ _)

/-- **The result of `op` is the proximal point of half `beta` times the squared norm with a budget equal to `k`
up to the regularisation.** -/
theorem opReg_prox {e : ℝ} (he0 : 0 ≤ e) (o : Obj) (hβ : 0 < o.beta) (hk1 : 1 ≤ o.k) (hd : 0 < d)
    (x : Fin d → 𝕜) (he : ∀ i, 0 < ‖x i‖ + e) {m : ℝ} (hm : 0 < m) (hx : ∀ i, x i = 0 ∨ m ≤ ‖x i‖)
    (hsmall : d * ((o.beta + 1) * e) < m) :
    ∃ (p : Fin d → 𝕜) (k' : ℝ), (opReg e o x 1).1 = .ok p ∧ 0 < k' ∧
      |k' - (min o.k d : ℕ)| ≤ d * ((o.beta + 1) * e) / m ∧
      IsUniqueProx (fun u => o.beta / 2 * ksupSq k' u) x p ∧
      ∃ θ : Fin d → ℝ, (∀ i, 0 ≤ θ i ∧ θ i ≤ 1) ∧ p = applyTheta o.beta x θ ∧
        |∑ i, θ i - (min (min o.k d) (nnz x) : ℕ)| ≤ d * ((o.beta + 1) * e) / m := by
  set b := o.beta with hbdef
  set k := min o.k d with hkdef
  have hk : 1 ≤ k := by omega
  have hkr : (1 : ℝ) ≤ k := by exact_mod_cast hk
  have hkd : k ≤ d := by omega
  have hbe : 0 ≤ (b + 1) * e := by positivity
  set δ : ℝ := (b + 1) * e / m with hδ
  have hδ0 : 0 ≤ δ := by positivity
  have hbound : d * ((b + 1) * e) / m = d * δ := by rw [hδ]; ring
  have hdδ : d * δ < 1 := by rw [← hbound, div_lt_one hm]; exact hsmall
  have hNd : (nnz x : ℝ) ≤ d := by exact_mod_cast nnz_le x
  have hNδ : nnz x * δ ≤ d * δ := mul_le_mul_of_nonneg_right hNd hδ0
  have hop : ∀ al, findAlpha e b k x = .ok al →
      (opReg e o x 1).1 = .ok (applyTheta b x fun i => theta b al ‖x i‖) := by
    intro al hal
    have hkk : (if o.k > d then { o with k := d } else o : Obj).k = k := by
      split_ifs with h
      · simp only [hkdef]; omega
      · omega
    unfold opReg
    simp only [mul_one, hkk]
    rw [← hbdef, hal]
    rfl
  rw [hbound]
  have hfa : findAlpha e b k x = (binarySearch (alphas e b x) (fun a => sumTheta b a x) k >>= fun q =>
      .ok (interpolate k q.1 q.2.1 q.2.2.1 q.2.2.2)) := rfl
  rcases search_cases (x := x) hd he0 he hβ.le hk with ⟨hlast, hbs⟩ | ⟨hlast, j, hj, hj0, hj1, hbs⟩
  · -- the largest candidate does not exceed k
    set al := alphas e b x with hal
    set L := al.getD (al.length - 1) 0 with hL
    have hLge : ∀ i, (b + 1) / (‖x i‖ + e) ≤ L := fun i => le_alphas_last (mem_alphas.2 (Or.inr ⟨i, rfl⟩))
    have hnear : ∀ a, L ≤ a → ∀ i, x i ≠ 0 → 1 - δ ≤ theta b (.fin a) ‖x i‖ := by
      intro a ha i hi
      exact theta_near_one hβ he0 hm ((hx i).resolve_left hi) ((hLge i).trans ha)
    have hSlow : nnz x * (1 - δ) ≤ sumTheta b L x :=
      nnz_le_sum x _ (fun i => (theta_mem _ _ _).1) (hnear L le_rfl)
    have hNk : nnz x ≤ k := by
      by_contra hcon
      have h1 : (k : ℝ) + 1 ≤ nnz x := by exact_mod_cast (by omega : k + 1 ≤ nnz x)
      nlinarith
    have hzero : ∀ al' i, x i = 0 → theta b al' ‖x i‖ = 0 := by
      intro al' i hi; rw [hi, norm_zero]; exact theta_zero hβ al'
    -- a weight vector that is one on the support solves the problem for k
    have hfull : ∀ al', findAlpha e b k x = .ok al' → (∀ i, x i ≠ 0 → theta b al' ‖x i‖ = 1) →
        ∃ (p : Fin d → 𝕜) (k' : ℝ), (opReg e o x 1).1 = .ok p ∧ 0 < k' ∧ |k' - (k : ℝ)| ≤ d * δ ∧
          IsUniqueProx (fun u => b / 2 * ksupSq k' u) x p ∧
          ∃ θ : Fin d → ℝ, (∀ i, 0 ≤ θ i ∧ θ i ≤ 1) ∧ p = applyTheta b x θ ∧
            |∑ i, θ i - (min k (nnz x) : ℕ)| ≤ d * δ := by
      intro al' h1 h2
      refine ⟨_, k, hop al' h1, by linarith, by simpa using (by positivity : (0 : ℝ) ≤ d * δ), ?_,
        fun i => theta b al' ‖x i‖, fun i => theta_mem _ _ _, rfl, ?_⟩
      · refine full_prox hβ (by linarith) x _ h2 (hzero al') ?_
        exact (sum_le_nnz x _ (hzero al') fun i => (theta_mem _ _ _).2).trans (by exact_mod_cast hNk)
      · rw [min_eq_right hNk]
        have u1 := sum_le_nnz x _ (hzero al') fun i => (theta_mem b al' ‖x i‖).2
        have u2 := nnz_le_sum (δ := 0) x (fun i => theta b al' ‖x i‖) (fun i => (theta_mem _ _ _).1)
          fun i hi => by rw [h2 i hi]; simp
        rw [sub_zero, mul_one] at u2
        rw [le_antisymm u1 u2, sub_self, abs_zero]
        positivity
    rcases interpolate_beyond (k := k) hd he0 he hβ.le hk hlast with hi | ⟨a, hi, haL⟩
    · refine hfull .inf (by rw [hfa, hbs]; exact congrArg Except.ok hi) fun i hi => ?_
      simp [theta, norm_pos_iff.2 hi]
    · have hfind : findAlpha e b k x = .ok (.fin a) := by rw [hfa, hbs]; exact congrArg Except.ok hi
      rcases Nat.eq_or_lt_of_le hNk with hN | hN
      · -- every entry of the support counts
        have hSa : nnz x * (1 - δ) ≤ sumTheta b a x :=
          nnz_le_sum x _ (fun i => (theta_mem _ _ _).1) (hnear a haL)
        have hSb : sumTheta b a x ≤ nnz x := sum_le_nnz x _ (hzero _) fun i => (theta_mem _ _ _).2
        have hNr : (nnz x : ℝ) = k := by exact_mod_cast hN
        have hpos : 0 < sumTheta b a x := by nlinarith
        have hL0 : 0 < L := by
          have hlen : 2 ≤ al.length := alphas_length (b := b) hd he
          exact alphas_pos he hβ (getD_mem_alphas (by rw [← hal]; omega))
        have hcl : |sumTheta b a x - k| ≤ d * δ := by
          rw [abs_le]
          constructor <;> nlinarith
        refine ⟨_, _, hop _ hfind, hpos, hcl, fin_prox hβ (lt_of_lt_of_le hL0 haL) x hpos,
          _, fun i => theta_mem _ _ _, rfl, ?_⟩
        rw [hN, min_self]
        exact hcl
      · -- there is a zero entry, so the largest candidate is huge
        refine hfull (.fin a) hfind fun i hi => ?_
        have hz : ∃ j, x j = 0 := by
          by_contra hcon
          push Not at hcon
          have : nnz x = d := by
            unfold nnz
            rw [Finset.filter_true_of_mem (fun i _ => hcon i)]; simp
          omega
        obtain ⟨j, hj⟩ := hz
        have he1 : 0 < e := by have := he j; rwa [hj, norm_zero, zero_add] at this
        have h1 := (hLge j).trans haL
        rw [hj, norm_zero, zero_add, div_le_iff₀ he1] at h1
        have h2 : m ≤ ‖x i‖ := (hx i).resolve_left hi
        have hd1 : (1 : ℝ) ≤ d := by exact_mod_cast hd
        have h3 : e ≤ m := by nlinarith [mul_pos hβ he1, mul_nonneg (by linarith : (0:ℝ) ≤ d - 1) hbe]
        have ha0 : 0 ≤ a := by
          have : 0 ≤ (b + 1) / (‖x j‖ + e) := div_nonneg (by linarith) (he j).le
          exact this.trans ((hLge j).trans haL)
        have h4 : a * e ≤ a * ‖x i‖ := mul_le_mul_of_nonneg_left (h3.trans h2) ha0
        rw [theta_fin]
        exact clip01_of_one_le (by linarith)
  · -- interior
    set al := alphas e b x with hal
    obtain ⟨a, hi, ha0, ha1, hclose⟩ := interpolate_close (k := k) he0 he hβ.le hj hj0 hj1
    have hfind : findAlpha e b k x = .ok (.fin a) := by rw [hfa, hbs]; exact congrArg Except.ok hi
    have hzero : ∀ al' i, x i = 0 → theta b al' ‖x i‖ = 0 := by
      intro al' i hi; rw [hi, norm_zero]; exact theta_zero hβ al'
    have hkN : k + 1 ≤ nnz x := by
      have h1 : (k : ℝ) < nnz x := lt_of_lt_of_le hlast (sum_le_nnz x _ (hzero _) fun i => (theta_mem _ _ _).2)
      exact_mod_cast h1
    have hkN' : (k : ℝ) + 1 ≤ nnz x := by exact_mod_cast hkN
    -- the right end of the interval is a candidate of the support
    have haj : al.getD (j + 1) 0 ≤ (b + 1) / m := by
      by_contra hcon
      push Not at hcon
      have hgap : ∀ i, x i ≠ 0 → (b + 1) / (‖x i‖ + e) ≤ al.getD j 0 := by
        intro i hi
        rcases alphas_gap hj (mem_alphas.2 (Or.inr ⟨i, rfl⟩)) with h | h
        · exact h
        · exfalso
          have h2 : m ≤ ‖x i‖ := (hx i).resolve_left hi
          have : (b + 1) / (‖x i‖ + e) ≤ (b + 1) / m :=
            div_le_div_of_nonneg_left (by linarith) hm (by linarith)
          linarith
      have hS : nnz x * (1 - δ) ≤ sumTheta b (al.getD j 0) x :=
        nnz_le_sum x _ (fun i => (theta_mem _ _ _).1) fun i hi =>
          theta_near_one hβ he0 hm ((hx i).resolve_left hi) (hgap i hi)
      have hj0' : sumTheta b (al.getD j 0) x ≤ k := hj0
      nlinarith
    have hcl : |sumTheta b a x - k| ≤ d * δ := by
      refine hclose.trans ?_
      have h2 : al.getD (j + 1) 0 * e ≤ (b + 1) / m * e := mul_le_mul_of_nonneg_right haj he0
      have h3 : (b + 1) / m * e = δ := by rw [hδ]; ring
      rw [h3] at h2
      exact mul_le_mul_of_nonneg_left h2 (Nat.cast_nonneg d)
    have hpos : 0 < sumTheta b a x := by
      have := (abs_le.1 hcl).1
      linarith
    have hapos : 0 < a := lt_of_lt_of_le (alphas_pos he hβ (getD_mem_alphas (by rw [← hal]; omega))) ha0
    refine ⟨_, _, hop _ hfind, hpos, hcl, fin_prox hβ hapos x hpos, _, fun i => theta_mem _ _ _, rfl, ?_⟩
    rw [min_eq_left (by omega)]
    exact hcl

end cand

end Verif
