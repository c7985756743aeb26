import Verif.Props.Support

/-!
# C154: zero groups and active bounds are found after finitely many updates
-/

set_option linter.unusedSectionVars false

namespace Verif
open Spec FB
open Linear (gradBasic gradCost)
open Positivity (positivityOp)
open Prox (groupOp groupCost normAxis0 eps32)
open scoped RealInnerProductSpace

/-! ## Counting -/

open Classical in
/-- Events of which at most `B` happen in every initial segment happen finitely often, at most `B` times. -/
theorem finite_of_count (P : ℕ → Prop) (B : ℝ) (h : ∀ n : ℕ, (((Finset.range n).filter P).card : ℝ) ≤ B) :
    {k | P k}.Finite ∧ ({k | P k}.ncard : ℝ) ≤ B ∧ ∃ n, ∀ k, n ≤ k → ¬ P k := by
  obtain ⟨M, hM⟩ := exists_nat_ge B
  have hfin : {k | P k}.Finite := by
    by_contra hinf
    obtain ⟨s, hs, hc⟩ := Set.Infinite.exists_subset_card_eq hinf (M + 1)
    have h1 : s ⊆ (Finset.range (s.sup id + 1)).filter P := by
      intro k hk
      rw [Finset.mem_filter, Finset.mem_range]
      exact ⟨Nat.lt_succ_iff.2 (Finset.le_sup (f := id) hk), hs hk⟩
    have h2 := Finset.card_le_card h1
    have h3 : ((Finset.range (s.sup id + 1)).filter P).card ≤ M := by
      exact_mod_cast (h (s.sup id + 1)).trans hM
    omega
  refine ⟨hfin, ?_, hfin.toFinset.sup id + 1, fun k hk hP => ?_⟩
  · rw [Set.ncard_eq_toFinset_card _ hfin]
    refine le_trans ?_ (h (hfin.toFinset.sup id + 1))
    exact_mod_cast Finset.card_le_card (by
      intro k hk
      rw [Finset.mem_filter, Finset.mem_range]
      exact ⟨Nat.lt_succ_iff.2 (Finset.le_sup (f := id) hk), hfin.mem_toFinset.1 hk⟩)
  · have := Finset.le_sup (f := id) (hfin.mem_toFinset.2 hP)
    simp only [id] at this
    omega

section
variable {E : Type} [NormedAddCommGroup E] [InnerProductSpace ℝ E] {S : Type}

/-- An event that makes the proximity step gain `μ²` happens at most `(‖x₀ - u‖/μ)²` times. -/
theorem event_rate {C : Set E} {F g : E → ℝ} {G : E → E} {prox prox' : E → ℝ → E} {L : ℝ} (hg : ConvexOn ℝ C g)
    (hF : AboveTangents F G) (hS : Smooth F G L) (hL : 0 ≤ L) (hp : ExactProx C g prox) (x0 : E) (β : ℝ) (r : S)
    (hb : 0 < β) (hbL : β * L ≤ 2) (hsame : ∀ v, prox' v β = prox v β) {u : E}
    (hu : Minimises C (fun u => F u + g u) u) (bad : E → Prop) (μ : ℝ) (hμ : 0 < μ)
    (hgain : ∀ z, bad (prox z β) → ‖prox z β - u‖ ^ 2 + μ ^ 2 ≤ ‖z - (u - β • G u)‖ ^ 2) :
    let x := fun n => (afterSteps G prox' (userRules none none) ⟨x0, x0, none, none, β, 1, r⟩ n).xOld
    {k | bad (x (k + 1))}.Finite ∧ ({k | bad (x (k + 1))}.ncard : ℝ) ≤ (‖x0 - u‖ / μ) ^ 2 ∧
      ∃ n, ∀ k, n ≤ k → ¬ bad (x k) := by
  classical
  intro x
  have hx : ∀ n, x (n + 1) = prox (x n - β • G (x n)) β := by
    intro n
    have := plain_iterates G prox' x0 β r n
    rw [hsame] at this
    exact this
  have hfix : prox (u - β • G u) β = u := fb_fixed_of_minimises hg hF hS hp hb hu
  have hgrad : ∀ v, ‖(v - β • G v) - (u - β • G u)‖ ≤ ‖v - u‖ := by
    intro v
    have h := grad_step_lipschitz (strongly_zero hF) hS hL hb.le v u
    have h3 : max |1 - β * 0| |1 - β * L| = 1 := by
      rw [mul_zero, sub_zero, abs_one]
      apply max_eq_left
      rw [abs_le]
      have := mul_nonneg hb.le hL
      constructor <;> linarith
    rw [h3, one_mul] at h
    exact h
  have hstep : ∀ k, ‖x (k + 1) - u‖ ^ 2 + (if bad (x (k + 1)) then μ ^ 2 else 0) ≤ ‖x k - u‖ ^ 2 := by
    intro k
    split_ifs with h
    · have h1 := hgain (x k - β • G (x k)) (by rw [← hx]; exact h)
      rw [← hx] at h1
      exact h1.trans (pow_le_pow_left₀ (norm_nonneg _) (hgrad (x k)) 2)
    · have h1 := fb_map_nonexpansive hg hF hS hL hp hb hbL (x k) u
      rw [hfix, ← hx] at h1
      rw [add_zero]
      exact pow_le_pow_left₀ (norm_nonneg _) h1 2
  have hsum : ∀ n : ℕ, ‖x n - u‖ ^ 2 + ((Finset.range n).filter fun k => bad (x (k + 1))).card * μ ^ 2 ≤
      ‖x0 - u‖ ^ 2 := by
    intro n
    induction n with
    | zero =>
      rw [Finset.range_zero, Finset.filter_empty, Finset.card_empty, Nat.cast_zero, zero_mul, add_zero]
      exact le_rfl
    | succ n ih =>
      have h1 := hstep n
      rw [Finset.range_add_one, Finset.filter_insert]
      split_ifs at h1 ⊢ with h
      · rw [Finset.card_insert_of_notMem (by simp)]
        push_cast
        linarith
      · linarith
  obtain ⟨h1, h2, n, h3⟩ := finite_of_count (fun k => bad (x (k + 1))) ((‖x0 - u‖ / μ) ^ 2) (fun n => by
    rw [div_pow, le_div_iff₀ (by positivity)]
    have := hsum n
    have := sq_nonneg ‖x n - u‖
    linarith)
  refine ⟨h1, h2, n + 1, fun k hk => ?_⟩
  obtain ⟨j, rfl⟩ : ∃ j, k = j + 1 := ⟨k - 1, by omega⟩
  exact h3 j (by omega)

end

/-! ## Non-negative least squares -/

/-- C154 for `Positivity`: `ForwardBackward` without acceleration with `GradBasic` and `Positivity` on real arrays, step
`0 < β ≤ 2/‖op‖²`.  Let `xs` be a non-negative least squares solution.  An entry in which `xs` is zero and its gradient is
positive is positive in at most `(‖x₀ - xs‖/(β ∇ᵢ))²` of all iterates, and stays zero after the last of these. -/
theorem C154_positivity {E ι : Type} [NormedAddCommGroup E] [InnerProductSpace ℝ E] [Fintype ι]
    {Y : Type} [NormedAddCommGroup Y] [InnerProductSpace ℝ Y] {S : Type} (V : ArraySpace E ι ℝ) (op : E → Y)
    (adj : Y → E) (y : Y) (hadd : ∀ a b, op (a + b) = op a + op b) (hadj : ∀ a b, ⟪op a, b⟫ = ⟪a, adj b⟫) (N : ℝ)
    (hN : ∀ v, ‖op v‖ ≤ N * ‖v‖) (prox : E → ℝ → E) (hprox : ∀ v c, V.arr (prox v c) = positivityOp (V.arr v))
    (x0 : E) (β : ℝ) (r : S) (hb : 0 < β) (hbN : β * N ^ 2 ≤ 2) (xs : E)
    (hxs : Minimises {u | ∀ i, 0 ≤ V.arr u i} (gradCost op y) xs) (i : ι) (hi : V.arr xs i = 0)
    (hm : 0 < V.arr (gradBasic op adj y xs) i) :
    let x := fun n => (afterSteps (gradBasic op adj y) prox (userRules none none) ⟨x0, x0, none, none, β, 1, r⟩ n).xOld
    {k | V.arr (x (k + 1)) i ≠ 0}.Finite ∧
      ({k | V.arr (x (k + 1)) i ≠ 0}.ncard : ℝ) ≤ (‖x0 - xs‖ / (β * V.arr (gradBasic op adj y xs) i)) ^ 2 ∧
      ∃ n, ∀ k, n ≤ k → V.arr (x k) i = 0 := by
  intro x
  obtain ⟨hF, hS⟩ := gradBasic_models op adj y hadd hadj N hN
  obtain ⟨hC, hp⟩ := positivity_models V prox hprox
  have hmin : Minimises {u | ∀ i, 0 ≤ V.arr u i} (fun u => gradCost op y u + 0) xs := by simpa using hxs
  have hfix := fb_fixed_of_minimises (convexOn_const 0 hC) hF hS hp hb hmin
  obtain ⟨h1, h2, n, h3⟩ := event_rate (convexOn_const 0 hC) hF hS (sq_nonneg N) hp x0 β r hb hbN (fun _ => rfl) hmin
    (fun v => V.arr v i ≠ 0) (β * V.arr (gradBasic op adj y xs) i) (mul_pos hb hm) (fun z hz => by
      set zs := xs - β • gradBasic op adj y xs with hzs
      have hxi : ∀ j, V.arr xs j = max (V.arr zs j) 0 := by
        intro j
        have := congrArg (fun v => V.arr v j) hfix
        simp only [hprox, positivityOp_eq] at this
        rw [← this]
      have hzi : V.arr zs i = -(β * V.arr (gradBasic op adj y xs) i) := by
        rw [hzs, map_sub, Pi.sub_apply, hi, arr_real_smul, smul_eq_mul, zero_sub]
      have hother : ∀ j, ‖V.arr (prox z β - xs) j‖ ^ 2 ≤ ‖V.arr (z - zs) j‖ ^ 2 := by
        intro j
        refine pow_le_pow_left₀ (norm_nonneg _) ?_ 2
        rw [map_sub, map_sub, Pi.sub_apply, Pi.sub_apply, hxi, hprox, positivityOp_eq, Real.norm_eq_abs, Real.norm_eq_abs]
        exact abs_max_sub_max_le_abs _ _ _
      have hself : ‖V.arr (prox z β - xs) i‖ ^ 2 + (β * V.arr (gradBasic op adj y xs) i) ^ 2 ≤ ‖V.arr (z - zs) i‖ ^ 2 := by
        rw [hprox, positivityOp_eq] at hz
        have hpos : 0 < V.arr z i := by
          by_contra hcon
          exact hz (max_eq_right (not_lt.1 hcon))
        rw [map_sub, map_sub, Pi.sub_apply, Pi.sub_apply, hi, sub_zero, hprox, positivityOp_eq, max_eq_left hpos.le, hzi,
          Real.norm_eq_abs, Real.norm_eq_abs, sq_abs, sq_abs]
        nlinarith [mul_pos hpos (mul_pos hb hm)]
      classical
      rw [V.norm_sq, V.norm_sq, ← Finset.add_sum_erase _ _ (Finset.mem_univ i),
        ← Finset.add_sum_erase _ (fun j => ‖V.arr (z - zs) j‖ ^ 2) (Finset.mem_univ i)]
      have := Finset.sum_le_sum (s := Finset.univ.erase i) fun j _ => hother j
      linarith)
  exact ⟨h1, h2, n, fun k hk => not_not.1 (h3 k hk)⟩

/-! ## Groups -/

section
variable {E γ κ 𝕜 : Type} [NormedAddCommGroup E] [InnerProductSpace ℝ E] [Fintype γ] [Fintype κ] [RCLike 𝕜]
  {Y : Type} [NormedAddCommGroup Y] [InnerProductSpace ℝ Y] {S : Type}

theorem norm_shrink {H : Type} [NormedAddCommGroup H] [InnerProductSpace ℝ H] (t : ℝ) (ht : 0 ≤ t) (x : H) :
    ‖max (1 - t / ‖x‖) 0 • x‖ = max (‖x‖ - t) 0 := by
  rw [norm_smul, Real.norm_of_nonneg (le_max_right _ _), shrink_mul t _ ht (norm_nonneg x)]

theorem shrink_nonexpansive {H : Type} [NormedAddCommGroup H] [InnerProductSpace ℝ H] (t : ℝ) (ht : 0 ≤ t) (x y : H) :
    ‖max (1 - t / ‖x‖) 0 • x - max (1 - t / ‖y‖) 0 • y‖ ≤ ‖x - y‖ := by
  refine radial_nonexpansive (fun r => max (1 - t / r) 0) (fun r _ => le_max_right _ _) (fun r hr => ?_)
    (fun r s hr hs => ?_) x y
  · apply max_le _ zero_le_one
    rw [sub_le_self_iff]
    positivity
  · rw [shrink_mul t r ht hr, shrink_mul t s ht hs]
    refine (abs_max_sub_max_le_abs _ _ _).trans ?_
    rw [sub_sub_sub_cancel_right]

/-- The exact proximity operator of the group penalty: every group is shrunk. -/
noncomputable def groupExact (w : κ → ℝ) (x : γ × κ → 𝕜) (c : ℝ) (i : γ × κ) : 𝕜 :=
  (max (1 - w i.2 * c / normAxis0 x i.2) 0 : ℝ) • x i

theorem groupVec_exact (w : κ → ℝ) (x : γ × κ → 𝕜) (c : ℝ) (k : κ) :
    groupVec (groupExact w x c) k = max (1 - w k * c / ‖groupVec x k‖) 0 • groupVec x k := by
  rw [norm_groupVec]
  ext g
  simp only [groupVec, groupExact, PiLp.smul_apply]

theorem groupExact_unique_prox (w : κ → ℝ) (c : ℝ) (x : γ × κ → 𝕜) (hw : ∀ k, 0 ≤ w k) (hc : 0 ≤ c) :
    IsUniqueProx (fun u => c * groupCost w u) x (groupExact w x c) := by
  have e : (fun u : γ × κ → 𝕜 => c * groupCost w u)
      = fun u => (fun U : κ → PiLp 2 (fun _ : γ => 𝕜) => ∑ k, (w k * c) * ‖U k‖) (groupVec u) := by
    funext u
    simp only [norm_groupVec, groupCost]
    rw [Finset.mul_sum]
    exact Finset.sum_congr rfl fun k _ => by ring
  rw [e]
  refine isUniqueProx_group (fun U : κ → PiLp 2 (fun _ : γ => 𝕜) => ∑ k, (w k * c) * ‖U k‖) x _ ?_
  apply isUniqueProx_of_coord (fun k v => (w k * c) * ‖v‖)
  intro k v
  rw [groupVec_exact]
  exact strong_of_subgradient (fun v => (w k * c) * ‖v‖) _ _
    (shrink_subgradient _ (mul_nonneg (hw k) hc) _) v

theorem group_norm_sq (V : ArraySpace E (γ × κ) 𝕜) (a : E) : ‖a‖ ^ 2 = ∑ k, ‖groupVec (V.arr a) k‖ ^ 2 := by
  rw [V.norm_sq, Fintype.sum_prod_type_right]
  refine Finset.sum_congr rfl fun k _ => ?_
  rw [PiLp.norm_sq_eq_of_L2]
  rfl

theorem groupVec_sub (V : ArraySpace E (γ × κ) 𝕜) (a b : E) (k : κ) :
    groupVec (V.arr (a - b)) k = groupVec (V.arr a) k - groupVec (V.arr b) k := by
  ext g
  simp [groupVec]

/-- C154 for `GroupLASSO`: `ForwardBackward` without acceleration with `GradBasic` and `GroupLASSO` as the package computes it,
real or complex arrays, step `0 < β ≤ 2/‖op‖²`, and thresholds `wₖ β` that are zero or at least the guard `2⁻²³`.  Let `xs` be a
minimiser.  A group in which `xs` is zero and the norm of its gradient is below the weight is not zero in at most
`(‖x₀ - xs‖/(β (wₖ - ‖∇ₖ‖)))²` of all iterates, and stays zero after the last of these. -/
theorem C154_group_lasso (V : ArraySpace E (γ × κ) 𝕜) (op : E → Y) (adj : Y → E)
    (y : Y) (hadd : ∀ a b, op (a + b) = op a + op b) (hadj : ∀ a b, ⟪op a, b⟫ = ⟪a, adj b⟫) (N : ℝ)
    (hN : ∀ v, ‖op v‖ ≤ N * ‖v‖) (w : κ → ℝ) (hw : ∀ k, 0 ≤ w k)
    (prox : E → ℝ → E) (hprox : ∀ v c, groupOp w (V.arr v) c = V.arr (prox v c)) (x0 : E) (β : ℝ) (r : S)
    (hb : 0 < β) (hbN : β * N ^ 2 ≤ 2) (hguard : ∀ k, 2⁻¹ ^ 23 ≤ w k * β ∨ w k * β = 0) (xs : E)
    (hxs : Minimises Set.univ (fun u => gradCost op y u + groupCost w (V.arr u)) xs) (k : κ)
    (hk : ∀ g, V.arr xs (g, k) = 0)
    (hm : Real.sqrt (∑ g, ‖V.arr (gradBasic op adj y xs) (g, k)‖ ^ 2) < w k) :
    let x := fun n => (afterSteps (gradBasic op adj y) prox (userRules none none) ⟨x0, x0, none, none, β, 1, r⟩ n).xOld
    {n | ∃ g, V.arr (x (n + 1)) (g, k) ≠ 0}.Finite ∧
      ({n | ∃ g, V.arr (x (n + 1)) (g, k) ≠ 0}.ncard : ℝ) ≤
        (‖x0 - xs‖ / (β * (w k - Real.sqrt (∑ g, ‖V.arr (gradBasic op adj y xs) (g, k)‖ ^ 2)))) ^ 2 ∧
      ∃ n, ∀ m, n ≤ m → ∀ g, V.arr (x m) (g, k) = 0 := by
  intro x
  obtain ⟨hF, hS⟩ := gradBasic_models op adj y hadd hadj N hN
  set P : E → ℝ → E := fun v c => V.arr.symm (groupExact w (V.arr v) c) with hPdef
  have hParr : ∀ v c, V.arr (P v c) = groupExact w (V.arr v) c := fun v c => by
    rw [hPdef]
    exact AddEquiv.apply_symm_apply _ _
  have hP : ExactProx Set.univ (fun u => groupCost w (V.arr u)) P := by
    intro v c hc
    have h1 : IsProx (fun u => c * groupCost w u) (V.arr v) (V.arr (P v c)) := by
      rw [hParr]
      exact (groupExact_unique_prox w c (V.arr v) hw hc.le).1
    exact isProxOn_of_isProx V h1
  have e : (eps32 : ℝ) = 2⁻¹ ^ 23 := by unfold eps32; norm_num
  have hsame : ∀ v, prox v β = P v β := by
    intro v
    apply V.arr.injective
    rw [hParr, ← hprox]
    have h1 := (C31_group_lasso_is_prox w β (V.arr v) hw hb.le (fun j => by rw [e]; exact Or.inr (hguard j))).1
    exact (h1.2 _ (groupExact_unique_prox w β (V.arr v) hw hb.le).1).symm
  have hfix := fb_fixed_of_minimises (convex_groups V w hw) hF hS hP hb hxs
  have hsq : Real.sqrt (∑ g, ‖V.arr (gradBasic op adj y xs) (g, k)‖ ^ 2) =
      ‖groupVec (V.arr (gradBasic op adj y xs)) k‖ := by rw [norm_groupVec]; rfl
  rw [hsq] at hm ⊢
  have ht : ∀ j, 0 ≤ w j * β := fun j => mul_nonneg (hw j) hb.le
  have hzero : ∀ a : E, groupVec (V.arr a) k = 0 ↔ ∀ g, V.arr a (g, k) = 0 := by
    intro a
    constructor
    · intro h g
      exact congrFun (congrArg (fun v : PiLp 2 (fun _ : γ => 𝕜) => v.ofLp) h) g
    · intro h
      ext g
      exact h g
  obtain ⟨h1, h2, n, h3⟩ := event_rate (convex_groups V w hw) hF hS (sq_nonneg N) hP x0 β r hb hbN hsame hxs
    (fun v => ∃ g, V.arr v (g, k) ≠ 0) (β * (w k - ‖groupVec (V.arr (gradBasic op adj y xs)) k‖))
    (mul_pos hb (sub_pos.2 hm)) (fun z hz => by
      set zs := xs - β • gradBasic op adj y xs with hzs
      have hps : ∀ j, groupVec (V.arr xs) j =
          max (1 - w j * β / ‖groupVec (V.arr zs) j‖) 0 • groupVec (V.arr zs) j := by
        intro j
        rw [← groupVec_exact, ← hParr, hfix]
      have hpz : ∀ j, groupVec (V.arr (P z β)) j =
          max (1 - w j * β / ‖groupVec (V.arr z) j‖) 0 • groupVec (V.arr z) j := by
        intro j
        rw [← groupVec_exact, ← hParr]
      have hother : ∀ j, ‖groupVec (V.arr (P z β - xs)) j‖ ^ 2 ≤ ‖groupVec (V.arr (z - zs)) j‖ ^ 2 := by
        intro j
        refine pow_le_pow_left₀ (norm_nonneg _) ?_ 2
        rw [groupVec_sub, groupVec_sub, hps, hpz]
        exact shrink_nonexpansive _ (ht j) _ _
      have hself : ‖groupVec (V.arr (P z β - xs)) k‖ ^ 2 +
          (β * (w k - ‖groupVec (V.arr (gradBasic op adj y xs)) k‖)) ^ 2 ≤ ‖groupVec (V.arr (z - zs)) k‖ ^ 2 := by
        have a1 : groupVec (V.arr xs) k = 0 := (hzero xs).2 hk
        have a2 : ‖groupVec (V.arr zs) k‖ = β * ‖groupVec (V.arr (gradBasic op adj y xs)) k‖ := by
          rw [hzs, groupVec_sub, a1, zero_sub, norm_neg]
          have : groupVec (V.arr (β • gradBasic op adj y xs)) k = β • groupVec (V.arr (gradBasic op adj y xs)) k := by
            ext g
            simp only [groupVec, arr_real_smul, PiLp.smul_apply]
          rw [this, norm_smul, Real.norm_of_nonneg hb.le]
        have a3 : ‖groupVec (V.arr (P z β)) k‖ = max (‖groupVec (V.arr z) k‖ - w k * β) 0 := by
          rw [hpz, norm_shrink _ (ht k)]
        have a4 : groupVec (V.arr (P z β)) k ≠ 0 := by
          intro h
          obtain ⟨g, hg⟩ := hz
          exact hg ((hzero _).1 h g)
        have a5 : w k * β < ‖groupVec (V.arr z) k‖ := by
          by_contra hcon
          rw [max_eq_right (by linarith [not_lt.1 hcon])] at a3
          exact a4 (norm_eq_zero.1 a3)
        rw [max_eq_left (by linarith)] at a3
        have a6 := norm_sub_norm_le (groupVec (V.arr z) k) (groupVec (V.arr zs) k)
        rw [groupVec_sub, groupVec_sub, a1, sub_zero, a3]
        rw [a2] at a6
        have a7 : 0 < β * (w k - ‖groupVec (V.arr (gradBasic op adj y xs)) k‖) := mul_pos hb (sub_pos.2 hm)
        have a8 : (‖groupVec (V.arr z) k‖ - w k * β) + β * (w k - ‖groupVec (V.arr (gradBasic op adj y xs)) k‖) ≤
            ‖groupVec (V.arr z) k - groupVec (V.arr zs) k‖ := by linarith
        have a9 := pow_le_pow_left₀ (by linarith) a8 2
        have a10 := mul_pos (sub_pos.2 a5) a7
        nlinarith
      classical
      rw [group_norm_sq V, group_norm_sq V, ← Finset.add_sum_erase _ _ (Finset.mem_univ k),
        ← Finset.add_sum_erase _ (fun j => ‖groupVec (V.arr (z - zs)) j‖ ^ 2) (Finset.mem_univ k)]
      have := Finset.sum_le_sum (s := Finset.univ.erase k) fun j _ => hother j
      linarith)
  refine ⟨h1, h2, n, fun m hm' g => ?_⟩
  by_contra hcon
  exact h3 m hm' ⟨g, hcon⟩

/-- C154: the condition on the thresholds is needed.  Denoising with step one: a group of the data whose norm is below its
weight, the weight being below the guard `2⁻²³`, is zero in the solution with a positive margin, but none of its non-zero
entries ever becomes zero in an iterate. -/
theorem C154_guard_keeps_false_nonzeros (V : ArraySpace E (γ × κ) 𝕜) (w : κ → ℝ) (hw : ∀ k, 0 ≤ w k) (prox : E → ℝ → E)
    (hprox : ∀ v c, groupOp w (V.arr v) c = V.arr (prox v c)) (x0 y : E) (r : S) (k : κ)
    (hy : Real.sqrt (∑ g, ‖V.arr y (g, k)‖ ^ 2) < w k) (hguard : w k < 2⁻¹ ^ 23) (g : γ) (hg : V.arr y (g, k) ≠ 0) :
    ∃ xs, Minimises Set.univ (fun u => gradCost (fun v => v) y u + groupCost w (V.arr u)) xs ∧
      (∀ g, V.arr xs (g, k) = 0) ∧
      Real.sqrt (∑ g, ‖V.arr (gradBasic (fun v => v) (fun v => v) y xs) (g, k)‖ ^ 2) < w k ∧
      ∀ n, V.arr (afterSteps (gradBasic (fun v => v) (fun v => v) y) prox (userRules none none)
        ⟨x0, x0, none, none, 1, 1, r⟩ (n + 1)).xOld (g, k) ≠ 0 := by
  have e : (eps32 : ℝ) = 2⁻¹ ^ 23 := by unfold eps32; norm_num
  have hz : ∀ g, groupExact w (V.arr y) 1 (g, k) = 0 := by
    intro g
    have h0 : 0 ≤ normAxis0 (V.arr y) k := Real.sqrt_nonneg _
    have hy' : normAxis0 (V.arr y) k < w k := hy
    unfold groupExact
    rcases h0.eq_or_lt with h | h
    · have h1 : ‖groupVec (V.arr y) k‖ = 0 := by rw [norm_groupVec, ← h]
      have h2 := congrFun (congrArg (fun v : PiLp 2 (fun _ : γ => 𝕜) => v.ofLp) (norm_eq_zero.1 h1)) g
      have h3 : V.arr y (g, k) = 0 := h2
      rw [h3, smul_zero]
    · have : 1 - w k * 1 / normAxis0 (V.arr y) k ≤ 0 := by
        rw [sub_nonpos, le_div_iff₀ h]
        linarith
      show max (1 - w k * 1 / normAxis0 (V.arr y) k) 0 • _ = _
      rw [max_eq_right this, zero_smul]
  refine ⟨V.arr.symm (groupExact w (V.arr y) 1), ⟨Set.mem_univ _, fun u _ => ?_⟩, fun g => ?_, ?_, fun n => ?_⟩
  · have h1 := (groupExact_unique_prox w 1 (V.arr y) hw zero_le_one).1
    have h2 : IsProx (fun u => 1 * groupCost w u) (V.arr y) (V.arr (V.arr.symm (groupExact w (V.arr y) 1))) := by
      rw [AddEquiv.apply_symm_apply]
      exact h1
    have h3 := (isProxOn_of_isProx V h2).2 u (Set.mem_univ _)
    simp only [one_mul] at h3
    unfold gradCost
    norm_num at h3 ⊢
    linarith
  · rw [AddEquiv.apply_symm_apply]
    exact hz g
  · have h1 : ∀ g, ‖V.arr (gradBasic (fun v => v) (fun v => v) y (V.arr.symm (groupExact w (V.arr y) 1))) (g, k)‖ =
        ‖V.arr y (g, k)‖ := by
      intro g
      show ‖V.arr (V.arr.symm (groupExact w (V.arr y) 1) - y) (g, k)‖ = _
      rw [map_sub, Pi.sub_apply, AddEquiv.apply_symm_apply, hz, zero_sub, norm_neg]
    simp only [h1]
    exact hy
  · rw [plain_iterates, ← hprox]
    have h1 : ∀ v : E, v - (1 : ℝ) • gradBasic (fun v => v) (fun v => v) y v = y := by
      intro v
      show v - (1 : ℝ) • (v - y) = y
      rw [one_smul, sub_sub_cancel]
    rw [h1]
    unfold groupOp
    have hy' : normAxis0 (V.arr y) k < w k := hy
    have he : (0 : ℝ) < eps32 := by unfold eps32; positivity
    have h2 : max (normAxis0 (V.arr y) k) eps32 = eps32 := max_eq_right (by rw [e]; linarith)
    show V.arr y (g, k) * ((max 0 (1 - w k * 1 / max (normAxis0 (V.arr y) k) eps32) : ℝ) : 𝕜) ≠ 0
    rw [h2]
    have h3 : 0 < 1 - w k * 1 / eps32 := by
      rw [sub_pos, div_lt_one he, mul_one, e]
      exact hguard
    rw [max_eq_right h3.le]
    exact mul_ne_zero hg (by exact_mod_cast h3.ne')

end

/-! ## The hypotheses are met -/

/-- Denoising under a non-negativity constraint: the negative entries of the data. -/
example (y x0 : EuclideanSpace ℝ (Fin 3)) (i : Fin 3) (hi : (euclid (Fin 3) ℝ).arr y i < 0) :
    ∃ n, ∀ k, n ≤ k → (euclid (Fin 3) ℝ).arr (afterSteps (gradBasic (fun v => v) (fun v => v) y)
      (fun v _ => (euclid (Fin 3) ℝ).arr.symm (positivityOp ((euclid (Fin 3) ℝ).arr v))) (userRules none none)
        ⟨x0, x0, none, none, 1 / 2, 1, ()⟩ k).xOld i = 0 := by
  have hp := (positivity_models (euclid (Fin 3) ℝ)
    (fun v _ => (euclid (Fin 3) ℝ).arr.symm (positivityOp ((euclid (Fin 3) ℝ).arr v)))
    (fun v c => AddEquiv.apply_symm_apply _ _)).2 y 1 one_pos
  have hx : (euclid (Fin 3) ℝ).arr ((euclid (Fin 3) ℝ).arr.symm (positivityOp ((euclid (Fin 3) ℝ).arr y))) i = 0 := by
    rw [AddEquiv.apply_symm_apply, positivityOp_eq]
    exact max_eq_right hi.le
  refine (C154_positivity (euclid (Fin 3) ℝ) (fun v => v) (fun v => v) y (fun _ _ => rfl) (fun _ _ => rfl) 1
    (fun v => by simp) _ (fun v c => AddEquiv.apply_symm_apply _ _) x0 (1 / 2) () (by norm_num) (by norm_num)
    ((euclid (Fin 3) ℝ).arr.symm (positivityOp ((euclid (Fin 3) ℝ).arr y))) ⟨hp.1, fun u hu => ?_⟩ i hx ?_).2.2
  · have := hp.2 u hu
    unfold gradCost
    norm_num at this ⊢
    linarith
  · show 0 < (euclid (Fin 3) ℝ).arr ((euclid (Fin 3) ℝ).arr.symm (positivityOp ((euclid (Fin 3) ℝ).arr y)) - y) i
    rw [map_sub, Pi.sub_apply, hx]
    linarith

/-- Zero data in a group: every start, `GroupLASSO` with weights one. -/
example (x0 : EuclideanSpace ℂ (Fin 3 × Fin 2)) (k : Fin 2) :
    ∃ n, ∀ m, n ≤ m → ∀ g, (euclid (Fin 3 × Fin 2) ℂ).arr (afterSteps (gradBasic (fun v => v) (fun v => v) 0)
      (fun v c => (euclid (Fin 3 × Fin 2) ℂ).arr.symm (groupOp (fun _ => 1) ((euclid (Fin 3 × Fin 2) ℂ).arr v) c))
        (userRules none none) ⟨x0, x0, none, none, 1 / 2, 1, ()⟩ m).xOld (g, k) = 0 := by
  refine (C154_group_lasso (euclid (Fin 3 × Fin 2) ℂ) (fun v => v) (fun v => v) 0 (fun _ _ => rfl) (fun _ _ => rfl) 1
    (fun v => by simp) (fun _ => 1) (fun _ => zero_le_one) _ (fun v c => (AddEquiv.apply_symm_apply _ _).symm) x0 (1 / 2) ()
    (by norm_num) (by norm_num) (fun _ => Or.inl (by norm_num)) 0 ⟨Set.mem_univ _, fun u _ => ?_⟩ k (fun g => by simp)
    ?_).2.2
  · have h1 : groupCost (fun _ => 1) ((euclid (Fin 3 × Fin 2) ℂ).arr 0) = 0 := by simp [groupCost, normAxis0]
    have h2 : 0 ≤ groupCost (fun _ => 1) ((euclid (Fin 3 × Fin 2) ℂ).arr u) :=
      Finset.sum_nonneg fun j _ => mul_nonneg zero_le_one (Real.sqrt_nonneg _)
    have h3 : (0 : ℝ) ≤ gradCost (fun v => v) 0 u := by unfold gradCost; positivity
    have h4 : gradCost (fun v : EuclideanSpace ℂ (Fin 3 × Fin 2) => v) 0 0 = 0 := by simp [gradCost]
    show gradCost (fun v : EuclideanSpace ℂ (Fin 3 × Fin 2) => v) 0 0 + _ ≤ _
    rw [h1, h4]
    linarith
  · simp [gradBasic]

/-- The case of the guard: weight `2⁻²⁴`, data `2⁻²⁵`. -/
example (x0 : EuclideanSpace ℝ (Fin 1 × Fin 1)) (n : ℕ) :
    (euclid (Fin 1 × Fin 1) ℝ).arr (afterSteps (gradBasic (fun v => v) (fun v => v)
        ((euclid (Fin 1 × Fin 1) ℝ).arr.symm fun _ => 2⁻¹ ^ 25))
      (fun v c => (euclid (Fin 1 × Fin 1) ℝ).arr.symm (groupOp (fun _ => 2⁻¹ ^ 24) ((euclid (Fin 1 × Fin 1) ℝ).arr v) c))
        (userRules none none) ⟨x0, x0, none, none, 1, 1, ()⟩ (n + 1)).xOld (0, 0) ≠ 0 := by
  obtain ⟨xs, -, -, -, h⟩ := C154_guard_keeps_false_nonzeros (S := Unit) (euclid (Fin 1 × Fin 1) ℝ) (fun _ => 2⁻¹ ^ 24)
    (fun _ => by positivity) _ (fun v c => (AddEquiv.apply_symm_apply _ _).symm) x0
    ((euclid (Fin 1 × Fin 1) ℝ).arr.symm fun _ => 2⁻¹ ^ 25) () 0 (by
      rw [AddEquiv.apply_symm_apply]
      simp only [Finset.univ_unique, Finset.sum_singleton]
      rw [Real.sqrt_sq (norm_nonneg _)]
      norm_num) (by norm_num) 0 (by rw [AddEquiv.apply_symm_apply]; norm_num)
  exact h n

end Verif
