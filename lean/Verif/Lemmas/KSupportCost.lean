import Verif.Lemmas.KSupport

/-!
# Lemmas on the cost of the k-support norm
-/

namespace Verif
open Spec KSupport

variable {d : ℕ} {𝕜 : Type} [RCLike 𝕜]

theorem sortedAbs_of_lt (x : Fin d → 𝕜) {i : ℕ} (h : i < d) :
    sortedAbs x i = decreasing (fun j => ‖x j‖) ⟨i, h⟩ := by
  unfold sortedAbs
  rw [dif_pos h]
  rfl

theorem sortedAbs_nonneg (x : Fin d → 𝕜) (i : ℕ) : 0 ≤ sortedAbs x i := by
  unfold sortedAbs
  split_ifs
  · exact norm_nonneg _
  · exact le_rfl

theorem sortedAbs_antitone (x : Fin d → 𝕜) : Antitone (sortedAbs x) := by
  intro i j hij
  by_cases hj : j < d
  · rw [sortedAbs_of_lt x hj, sortedAbs_of_lt x (lt_of_le_of_lt hij hj)]
    exact decreasing_antitone _ (Fin.mk_le_mk.2 hij)
  · have : sortedAbs x j = 0 := by unfold sortedAbs; rw [dif_neg hj]
    rw [this]; exact sortedAbs_nonneg x i

theorem sum_sortedAbs (x : Fin d → 𝕜) (f : ℝ → ℝ) :
    ∑ j ∈ Finset.range d, f (sortedAbs x j) = ∑ i, f ‖x i‖ := by
  rw [Finset.sum_range]
  obtain ⟨σ, hσ⟩ := decreasing_perm fun j => ‖x j‖
  have : ∀ j : Fin d, f (sortedAbs x j) = f ‖x (σ j)‖ := by
    intro j; rw [sortedAbs_of_lt x j.2, hσ]
  rw [Finset.sum_congr rfl fun j _ => this j]
  exact Equiv.sum_comp σ fun i => f ‖x i‖

theorem tail_zero (x : Fin d → 𝕜) : tail d (sortedAbs x) 0 = ∑ i, ‖x i‖ := by
  unfold tail
  rw [← sum_sortedAbs x fun t => t, Finset.range_eq_Ico]

theorem tail_succ {s : ℕ → ℝ} {q : ℕ} (h : q < d) : tail d s q = s q + tail d s (q + 1) := by
  unfold tail
  exact Finset.sum_eq_sum_Ico_succ_bot h s

theorem tail_nonneg {s : ℕ → ℝ} (hs : ∀ i, 0 ≤ s i) (q : ℕ) : 0 ≤ tail d s q :=
  Finset.sum_nonneg fun i _ => hs i

theorem head_add_tail {s : ℕ → ℝ} {q : ℕ} (h : q ≤ d) :
    ∑ j ∈ Finset.range q, s j + tail d s q = tail d s 0 := by
  unfold tail
  rw [Finset.range_eq_Ico]
  exact Finset.sum_Ico_consecutive s (Nat.zero_le q) h

/-! ## The search for `q` -/

theorem findQLoop_ok {s : ℕ → ℝ} (hs : Antitone s) {k : ℕ} (hkd : k ≤ d) :
    ∀ n first last q : ℕ, first < last → last < k → last - first ≤ n →
      tail d s first / ((k : ℝ) - first) ≤ s first → s last < tail d s last / ((k : ℝ) - last) →
      ∃ m, m < k ∧ findQLoop d s k n first last q = .ok m ∧ tail d s m / ((k : ℝ) - m) ≤ s m := by
  intro n
  induction n with
  | zero => intro first last q h1 h2 h3; omega
  | succ n ih =>
    intro first last q hlt hlast hn h0 h1
    rw [findQLoop]
    rw [if_neg (by push Not; exact ⟨hlt.le, hlast⟩)]
    set m := (first + last) / 2 with hm
    have hm1 : first ≤ m := by omega
    have hm2 : m < last := by omega
    simp only []
    rw [if_neg (by omega)]
    by_cases hc : s (m + 1) ≤ tail d s m / ((k : ℝ) - m) ∧ tail d s m / ((k : ℝ) - m) ≤ s m
    · rw [if_pos hc]
      exact ⟨m, by omega, rfl, hc.2⟩
    · rw [if_neg hc]
      have hwide : first + 1 < last := by
        by_contra hcon
        have e1 : m = first := by omega
        have e2 : last = first + 1 := by omega
        apply hc
        rw [e1]
        refine ⟨?_, h0⟩
        have hf : (first : ℝ) + 1 < k := by exact_mod_cast (by omega : first + 1 < k)
        rw [e2] at h1
        push_cast at h1
        rw [lt_div_iff₀ (by linarith)] at h1
        rw [le_div_iff₀ (by linarith), tail_succ (show first < d by omega)]
        have := hs (Nat.le_succ first)
        simp only [Nat.succ_eq_add_one] at this
        nlinarith
      by_cases hP : tail d s m / ((k : ℝ) - m) ≤ s m
      · have hlt1 : tail d s m / ((k : ℝ) - m) < s (m + 1) := by
          by_contra hcon
          exact hc ⟨not_lt.1 hcon, hP⟩
        have hne : ¬ s m ≤ tail d s m / ((k : ℝ) - m) := by
          intro hcon
          have := hs (Nat.le_succ m)
          simp only [Nat.succ_eq_add_one] at this
          linarith
        rw [if_pos hlt1.le, if_neg hne]
        exact ih m last m hm2 hlast (by omega) hP h1
      · push Not at hP
        have hne : ¬ tail d s m / ((k : ℝ) - m) ≤ s (m + 1) := by
          intro hcon
          have := hs (Nat.le_succ m)
          simp only [Nat.succ_eq_add_one] at this
          linarith
        rw [if_neg hne, if_pos hP.le]
        have hfm : first < m := by
          rcases Nat.lt_or_ge first m with h | h
          · exact h
          · have e : m = first := by omega
            rw [e] at hP; linarith
        exact ih first m m hfm (by omega) (by omega) h0 hP

theorem findQ_ok {s : ℕ → ℝ} (hs : Antitone s) {k : ℕ} (hk : 1 ≤ k) (hkd : k ≤ d) :
    ∃ q, q < k ∧ findQ d s k = .ok q ∧ (q = 0 ∨ tail d s q / ((k : ℝ) - q) ≤ s q) := by
  unfold findQ
  rw [if_neg (by omega)]
  by_cases h0 : tail d s 0 / (k : ℝ) ≥ s 0
  · rw [if_pos h0]; exact ⟨0, by omega, rfl, Or.inl rfl⟩
  rw [if_neg h0, if_neg (by omega)]
  have hcast : ((k - 1 : ℕ) : ℝ) = (k : ℝ) - 1 := by rw [Nat.cast_sub hk]; simp
  by_cases h1 : tail d s (k - 1) ≤ s (k - 1)
  · rw [if_pos h1]
    refine ⟨k - 1, by omega, rfl, Or.inr ?_⟩
    rw [hcast]; simpa using h1
  rw [if_neg h1]
  push Not at h0 h1
  have hk2 : 0 < k - 1 := by
    by_contra hcon
    have e : k = 1 := by omega
    subst e
    simp at h0 h1
    linarith
  obtain ⟨m, hm1, hm2, hm3⟩ := findQLoop_ok (d := d) hs hkd k 0 (k - 1) ((k - 1) / 2) hk2 (by omega) (by omega)
    (by simpa using h0.le) (by rw [hcast]; simpa using h1)
  exact ⟨m, hm1, hm2, Or.inr hm3⟩

/-! ## Lower bound for the norm -/

/-- A dual certificate: the first `q` moduli and a common level for the rest. -/
theorem head_tail_le_ksupSq (x : Fin d → 𝕜) {k q : ℕ} (hqk : q < k) (hqd : q ≤ d)
    (hq : ∀ j < q, tail d (sortedAbs x) q / ((k : ℝ) - q) ≤ sortedAbs x j) :
    ∑ j ∈ Finset.range q, sortedAbs x j ^ 2 + tail d (sortedAbs x) q ^ 2 / ((k : ℝ) - q) ≤ ksupSq (k : ℝ) x := by
  have hk0 : (0 : ℝ) < k := by exact_mod_cast (by omega : 0 < k)
  have hkq : (0 : ℝ) < (k : ℝ) - q := by
    have : (q : ℝ) < k := by exact_mod_cast hqk
    linarith
  refine le_ksupSq hk0 fun θ hθ => ?_
  set s := sortedAbs x with hs
  set T := tail d s q with hT
  set τ := T / ((k : ℝ) - q) with hτ
  have hT0 : 0 ≤ T := tail_nonneg (sortedAbs_nonneg x) q
  have hτ0 : 0 ≤ τ := div_nonneg hT0 hkq.le
  obtain ⟨σ, hσ⟩ := decreasing_perm fun j => ‖x j‖
  set w : ℕ → ℝ := fun j => if h : j < d then θ (σ ⟨j, h⟩) else 1 with hw
  have hw0 : ∀ j, 0 < w j := by
    intro j; simp only [hw]; split_ifs
    · exact (hθ.1 _).1
    · exact one_pos
  have hw1 : ∀ j, w j ≤ 1 := by
    intro j; simp only [hw]; split_ifs
    · exact (hθ.1 _).2
    · exact le_rfl
  have hre : ∑ i, ‖x i‖ ^ 2 / θ i = ∑ j ∈ Finset.range d, s j ^ 2 / w j := by
    rw [Finset.sum_range, ← Equiv.sum_comp σ]
    refine Finset.sum_congr rfl fun j _ => ?_
    rw [hs, sortedAbs_of_lt x j.2, hσ]
    simp only [hw, j.2, dif_pos]
  have hws : ∑ j ∈ Finset.range d, w j ≤ k := by
    rw [Finset.sum_range]
    have : ∑ j : Fin d, w j = ∑ j : Fin d, θ (σ j) := Finset.sum_congr rfl fun j _ => by simp only [hw, j.2, dif_pos]
    rw [this, Equiv.sum_comp σ θ]
    exact hθ.2
  have hsplit : ∀ f : ℕ → ℝ, ∑ j ∈ Finset.range d, f j = ∑ j ∈ Finset.range q, f j + ∑ j ∈ Finset.Ico q d, f j := by
    intro f
    rw [Finset.range_eq_Ico, Finset.range_eq_Ico]
    exact (Finset.sum_Ico_consecutive f (Nat.zero_le q) hqd).symm
  rw [hre, hsplit]
  rw [hsplit] at hws
  have tang : ∀ j (z : ℝ), 2 * s j * z - z ^ 2 * w j ≤ s j ^ 2 / w j := by
    intro j z
    rw [le_div_iff₀ (hw0 j)]
    nlinarith [sq_nonneg (s j - z * w j)]
  have p1 : ∑ j ∈ Finset.range q, (s j ^ 2 + τ ^ 2 * (1 - w j)) ≤ ∑ j ∈ Finset.range q, s j ^ 2 / w j := by
    refine Finset.sum_le_sum fun j hj => ?_
    have h1 := tang j (s j)
    have h2 := hq j (Finset.mem_range.1 hj)
    have h3 : τ ^ 2 ≤ s j ^ 2 := pow_le_pow_left₀ hτ0 h2 2
    have h4 := mul_le_mul_of_nonneg_right h3 (by linarith [hw1 j] : 0 ≤ 1 - w j)
    nlinarith
  have p2 : ∑ j ∈ Finset.Ico q d, (2 * s j * τ - τ ^ 2 * w j) ≤ ∑ j ∈ Finset.Ico q d, s j ^ 2 / w j :=
    Finset.sum_le_sum fun j _ => tang j τ
  rw [Finset.sum_add_distrib, ← Finset.mul_sum, Finset.sum_sub_distrib] at p1
  rw [Finset.sum_sub_distrib, ← Finset.sum_mul, ← Finset.mul_sum, ← Finset.mul_sum] at p2
  have hTs : ∑ j ∈ Finset.Ico q d, s j = T := rfl
  rw [hTs] at p2
  have hcard : ∑ _j ∈ Finset.range q, (1 : ℝ) = q := by simp
  rw [hcard] at p1
  have e1 : T = τ * ((k : ℝ) - q) := by rw [hτ, div_mul_cancel₀ _ hkq.ne']
  have e2 : T ^ 2 / ((k : ℝ) - q) = τ * T := by rw [hτ]; ring
  rw [e2]
  have h5 := mul_le_mul_of_nonneg_left hws (sq_nonneg τ)
  nlinarith

/-- The l1 norm squared over `k` is a lower bound for the partial formula with any `q`. -/
theorem l1_le_head_tail (x : Fin d → 𝕜) {k q : ℕ} (hqk : q < k) (hqd : q ≤ d) :
    (∑ i, ‖x i‖) ^ 2 / k ≤
      ∑ j ∈ Finset.range q, sortedAbs x j ^ 2 + tail d (sortedAbs x) q ^ 2 / ((k : ℝ) - q) := by
  have hk0 : (0 : ℝ) < k := by exact_mod_cast (by omega : 0 < k)
  have hkq : (0 : ℝ) < (k : ℝ) - q := by
    have : (q : ℝ) < k := by exact_mod_cast hqk
    linarith
  rw [← tail_zero, ← head_add_tail (s := sortedAbs x) hqd]
  set H := ∑ j ∈ Finset.range q, sortedAbs x j
  set T := tail d (sortedAbs x) q
  set c := (H + T) / k with hc
  have h1 : ∑ j ∈ Finset.range q, (2 * c * sortedAbs x j - c ^ 2) ≤ ∑ j ∈ Finset.range q, sortedAbs x j ^ 2 :=
    Finset.sum_le_sum fun j _ => by nlinarith [sq_nonneg (sortedAbs x j - c)]
  rw [Finset.sum_sub_distrib, ← Finset.mul_sum] at h1
  simp only [Finset.sum_const, Finset.card_range, nsmul_eq_mul] at h1
  have h2 : 2 * c * T - c ^ 2 * ((k : ℝ) - q) ≤ T ^ 2 / ((k : ℝ) - q) := by
    rw [le_div_iff₀ hkq]
    nlinarith [sq_nonneg (T - c * ((k : ℝ) - q))]
  have h3 : (H + T) ^ 2 / k = 2 * c * (H + T) - c ^ 2 * k := by
    rw [hc]; field_simp; ring
  rw [h3]
  have h4 : (∑ j ∈ Finset.range q, sortedAbs x j) = H := rfl
  rw [h4] at h1
  nlinarith

/-! ## Flat data -/

theorem ksupSq_flat (x : Fin d → 𝕜) {k : ℝ} (hk : 0 < k) (hflat : ∀ i, k * ‖x i‖ ≤ ∑ j, ‖x j‖) :
    ksupSq k x ≤ (∑ i, ‖x i‖) ^ 2 / k := by
  set C := (∑ i, ‖x i‖) ^ 2 / k with hC
  set A := ∑ i, ‖x i‖ with hA
  have hA0 : 0 ≤ A := Finset.sum_nonneg fun i _ => norm_nonneg _
  obtain ⟨β, hβ⟩ := exists_budget (Fin d) hk
  rcases eq_or_lt_of_le hA0 with hz | hz
  · have hall : ∀ i, ‖x i‖ = 0 := fun i =>
      (Finset.sum_eq_zero_iff_of_nonneg fun i _ => norm_nonneg _).1 hz.symm i (Finset.mem_univ i)
    refine (ksupSq_le hβ).trans ?_
    simp only [hall]
    simp only [ne_eq, OfNat.ofNat_ne_zero, not_false_eq_true, zero_pow, zero_div, Finset.sum_const_zero]
    rw [hC]; positivity
  · have hC0 : 0 < C := by rw [hC]; positivity
    apply le_of_forall_pos_le_add
    intro ε hε
    set δ : ℝ := ε / (C + ε) with hδ
    have hδ0 : 0 < δ := by positivity
    have hδ1 : δ < 1 := by rw [hδ, div_lt_one (by linarith)]; linarith
    have hle : ∀ i, k * ‖x i‖ / A ≤ 1 := fun i => (div_le_one hz).2 (hflat i)
    have hsum : ∑ i, k * ‖x i‖ / A = k := by
      rw [← Finset.sum_div, ← Finset.mul_sum, ← hA, mul_div_assoc, div_self hz.ne', mul_one]
    have hbud : Budget k fun i => (1 - δ) * (k * ‖x i‖ / A) + δ * β i := by
      refine ⟨fun i => ⟨?_, ?_⟩, ?_⟩
      · have h2 : 0 ≤ (1 - δ) * (k * ‖x i‖ / A) := mul_nonneg (by linarith) (by positivity)
        have h3 := mul_pos hδ0 (hβ.1 i).1
        linarith
      · have h2 := mul_le_mul_of_nonneg_left (hle i) (by linarith : 0 ≤ 1 - δ)
        have h3 := mul_le_mul_of_nonneg_left (hβ.1 i).2 hδ0.le
        linarith
      · rw [Finset.sum_add_distrib, ← Finset.mul_sum, ← Finset.mul_sum, hsum]
        have h3 := mul_le_mul_of_nonneg_left hβ.2 hδ0.le
        linarith
    refine (ksupSq_le hbud).trans ?_
    have hterm : ∀ i, ‖x i‖ ^ 2 / ((1 - δ) * (k * ‖x i‖ / A) + δ * β i) ≤ ‖x i‖ * A / k / (1 - δ) := by
      intro i
      rcases eq_or_lt_of_le (norm_nonneg (x i)) with h0 | h0
      · rw [← h0]; simp
      · have h3 : 0 < (1 - δ) * (k * ‖x i‖ / A) := mul_pos (by linarith) (by positivity)
        have h2 : (1 - δ) * (k * ‖x i‖ / A) ≤ (1 - δ) * (k * ‖x i‖ / A) + δ * β i := by
          have := mul_pos hδ0 (hβ.1 i).1; linarith
        refine (div_le_div_of_nonneg_left (sq_nonneg _) h3 h2).trans (le_of_eq ?_)
        have : (1 - δ) ≠ 0 := by linarith
        field_simp
    refine (Finset.sum_le_sum fun i _ => hterm i).trans ?_
    rw [← Finset.sum_div, ← Finset.sum_div, ← Finset.sum_mul, ← hA, div_le_iff₀ (by linarith)]
    have e : (C + ε) * (1 - δ) = C := by rw [hδ]; field_simp; ring
    rw [e, hC, sq]

end Verif
