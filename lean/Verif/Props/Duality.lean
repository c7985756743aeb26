import Verif.Lemmas.Duality
import Verif.Props.Convergence
import Verif.Props.Pipeline

/-!
# C116, C118: the splitting algorithms converge to a minimiser whenever there is one

The saddle points and splittings assumed in `Props/Convergence` exist as soon as the problem has a solution and all
terms but one are finite everywhere.
-/

set_option linter.unusedSectionVars false

namespace Verif
open FB Spec RealInnerProductSpace Topology

section
open Condat
variable {E H : Type} [NormedAddCommGroup E] [InnerProductSpace ℝ E] [FiniteDimensional ℝ E]
  [NormedAddCommGroup H] [InnerProductSpace ℝ H] [FiniteDimensional ℝ H]

/-- The linear operator of a `Condat` object as a linear map. -/
theorem CondatOk.linear {C : Set E} {D : Set H} {F g : E → ℝ} {h : H → ℝ} {O : Ops E H} (ok : CondatOk C D F g h O) :
    ∃ L : E →ₗ[ℝ] H, ∀ x, L x = O.op x := by
  refine ⟨⟨⟨O.op, fun u v => ?_⟩, fun c u => ?_⟩, fun x => rfl⟩
  · apply ext_inner_right ℝ
    intro y
    rw [inner_add_left, ok.adjoint, ok.adjoint, ok.adjoint, inner_add_left]
  · apply ext_inner_right ℝ
    intro y
    simp only [RingHom.id_apply]
    rw [real_inner_smul_left, ok.adjoint, ok.adjoint, real_inner_smul_left]

/-- C118 without a hypothesis on multipliers: if the dual function `h` is finite everywhere (`SparseThreshold`,
`LowRankMatrix`, `Ridge`, `GroupLASSO`, ...) and `F + (1/τ)·g + h ∘ L` has a minimiser over the domain of `g`, the
primal iterates of `Condat` converge to a minimiser, from every starting point. -/
theorem C118_condat_solves {C : Set E} {F g : E → ℝ} {h : H → ℝ} {O : Ops E H} {Lf nL : ℝ}
    (ok : CondatOk C Set.univ F g h O) (hS : Smooth F O.grad Lf) (hLf : 0 < Lf) (hn : ∀ x, ‖O.op x‖ ≤ nL * ‖x‖)
    (s : Condat.St E H) (hs : 0 < s.sigma) (ht : 0 < s.tau) (hr0 : 0 < s.rho) (hr2 : s.rho < 2)
    (hc : Lf / 2 < (2 - s.rho) * (1 / s.tau - s.sigma * nL ^ 2))
    (hex : ∃ x, Minimises C (fun u => F u + 1 / s.tau * g u + h (O.op u)) x) :
    ∃ x, Minimises C (fun u => F u + 1 / s.tau * g u + h (O.op u)) x ∧
      Filter.Tendsto (fun n => (condatAfter O ⟨none, none, none⟩ s n).x) Filter.atTop (𝓝 x) := by
  obtain ⟨L, hL⟩ := ok.linear
  obtain ⟨x, hx⟩ := hex
  have hφ : ConvexOn ℝ C fun u => F u + 1 / s.tau * g u :=
    ((ok.tangents.convexOn).subset (Set.subset_univ _) ok.convexG.1).add (ok.convexG.smul (by positivity))
  have hcont : Continuous h := by
    rw [← continuousOn_univ]
    exact ok.convexH.continuousOn isOpen_univ
  obtain ⟨y, hy1, hy2⟩ := exists_multiplier hφ ok.convexH hcont L (x := x) (by simpa only [hL] using hx)
  simp only [hL] at hy1 hy2
  obtain ⟨x', y', h1, h2, h3, -⟩ := C118_condat_converges ok hS hLf hn s hs ht hr0 hr2 hc
    ⟨x, y, hy1, Set.mem_univ _, fun v _ => hy2 v⟩
  refine ⟨x', ?_, h3⟩
  simpa only [Set.mem_univ, and_true, Set.ofPred_mem_eq] using h2

end

section
variable {E : Type} [NormedAddCommGroup E] [InnerProductSpace ℝ E] [FiniteDimensional ℝ E] {S : Type}

theorem sumG_append (a b : List (Term E)) (u : E) : sumG (a ++ b) u = sumG a u + sumG b u := by
  simp [sumG]

theorem sumG_cons (t : Term E) (b : List (Term E)) (u : E) : sumG (t :: b) u = t.g u + sumG b u := by
  simp [sumG]

theorem convex_sumG {C : Set E} (hC : Convex ℝ C) : ∀ ts : List (Term E),
    (∀ t ∈ ts, t.C = Set.univ ∧ ConvexOn ℝ t.C t.g) → ConvexOn ℝ C (sumG ts)
  | [], _ => by
    have : sumG ([] : List (Term E)) = fun _ => 0 := by funext u; simp [sumG]
    rw [this]
    exact convexOn_const 0 hC
  | t :: ts, h => by
    have e : sumG (t :: ts) = fun u => t.g u + sumG ts u := funext fun u => sumG_cons t ts u
    rw [e]
    have h1 := (h t List.mem_cons_self)
    have h2 := h1.2
    rw [h1.1] at h2
    exact (h2.subset (Set.subset_univ _) hC).add (convex_sumG hC ts fun t' ht' => h t' (List.mem_cons_of_mem _ ht'))

/-- Finite terms are replaced, one after the other, by subgradients. -/
theorem split_terms : ∀ (ts : List (Term E)), (∀ t ∈ ts, t.C = Set.univ ∧ ConvexOn ℝ t.C t.g) → ∀ {C : Set E} {φ : E → ℝ},
    ConvexOn ℝ C φ → ∀ {x : E}, Minimises C (fun u => φ u + sumG ts u) x →
    ∃ vs : List E, vs.length = ts.length ∧ (∀ p ∈ ts.zip vs, ∀ u, p.1.g x + ⟪p.2, u - x⟫ ≤ p.1.g u) ∧
      Minimises C (fun u => φ u + ⟪u, vs.sum⟫) x
  | [], _, C, φ, _, x, hx => by
    refine ⟨[], rfl, by simp, ?_⟩
    simpa [sumG] using hx
  | t :: ts, h, C, φ, hφ, x, hx => by
    have h1 := h t List.mem_cons_self
    have hcv := h1.2
    rw [h1.1] at hcv
    have hts : ∀ t' ∈ ts, t'.C = Set.univ ∧ ConvexOn ℝ t'.C t'.g := fun t' ht' => h t' (List.mem_cons_of_mem _ ht')
    have hcont : Continuous t.g := by
      rw [← continuousOn_univ]
      exact hcv.continuousOn isOpen_univ
    obtain ⟨y, hy1, hy2⟩ := exists_multiplier (hφ.add (convex_sumG hφ.1 ts hts)) hcv hcont LinearMap.id (x := x) (by
      refine ⟨hx.1, fun u hu => ?_⟩
      have := hx.2 u hu
      simp only [sumG_cons, Pi.add_apply, LinearMap.id_apply] at this ⊢
      linarith)
    simp only [LinearMap.id_apply] at hy1 hy2
    have hlin : ConvexOn ℝ C fun u => φ u + ⟪u, y⟫ := by
      refine hφ.add ⟨hφ.1, fun a _ b _ s r _ _ _ => ?_⟩
      simp only [smul_eq_mul]
      rw [inner_add_left, real_inner_smul_left, real_inner_smul_left]
    obtain ⟨vs, hv1, hv2, hv3⟩ := split_terms ts hts hlin (x := x) (by
      refine ⟨hx.1, fun u hu => ?_⟩
      have := hy1.2 u hu
      simp only [Pi.add_apply] at this
      linarith)
    refine ⟨y :: vs, by simp [hv1], ?_, ?_⟩
    · intro p hp
      rw [List.zip_cons_cons, List.mem_cons] at hp
      rcases hp with rfl | hp
      · exact hy2
      · exact hv2 p hp
    · refine ⟨hx.1, fun u hu => ?_⟩
      have := hv3.2 u hu
      simp only [List.sum_cons, inner_add_right]
      linarith

/-- A minimiser of a sum in which at most one term is constrained has a splitting. -/
theorem split_of_minimiser {F : E → ℝ} {G : E → E} {L : ℝ} (hF : AboveTangents F G) (hS : Smooth F G L) (hL : 0 < L)
    (pre post : List (Term E)) (t : Term E) (ht : ConvexOn ℝ t.C t.g)
    (hpre : ∀ t' ∈ pre, t'.C = Set.univ ∧ ConvexOn ℝ t'.C t'.g) (hpost : ∀ t' ∈ post, t'.C = Set.univ ∧ ConvexOn ℝ t'.C t'.g)
    {x : E} (hx : Minimises t.C (fun u => F u + sumG (pre ++ t :: post) u) x) : SplitOptimal G (pre ++ t :: post) x := by
  have hφ : ConvexOn ℝ t.C fun u => F u + t.g u := (hF.convexOn.subset (Set.subset_univ _) ht.1).add ht
  have hall : ∀ t' ∈ pre ++ post, t'.C = Set.univ ∧ ConvexOn ℝ t'.C t'.g := by
    intro t' h'
    rcases List.mem_append.1 h' with h' | h'
    exacts [hpre t' h', hpost t' h']
  obtain ⟨vs, hv1, hv2, hv3⟩ := split_terms (pre ++ post) hall hφ (x := x) (by
    refine ⟨hx.1, fun u hu => ?_⟩
    have := hx.2 u hu
    simp only [sumG_append, sumG_cons] at this ⊢
    linarith)
  obtain ⟨v1, v2, rfl, hl1⟩ : ∃ v1 v2, vs = v1 ++ v2 ∧ v1.length = pre.length :=
    ⟨vs.take pre.length, vs.drop pre.length, (List.take_append_drop _ _).symm, by simp [hv1]⟩
  have hl2 : v2.length = post.length := by
    rw [List.length_append, List.length_append] at hv1; omega
  rw [List.zip_append hl1.symm] at hv2
  set w : E := -G x - (v1.sum + v2.sum) with hw
  refine ⟨v1 ++ w :: v2, by simp [hl1, hl2], ?_, ?_⟩
  · rw [List.sum_append, List.sum_cons, hw]; abel
  · rw [List.zip_append hl1.symm, List.zip_cons_cons]
    intro p hp
    rcases List.mem_append.1 hp with hp | hp
    · have hm := hpre p.1 (List.of_mem_zip (a := p.1) (b := p.2) hp).1
      rw [hm.1]
      exact ⟨Set.mem_univ _, fun u _ => hv2 p (List.mem_append_left _ hp) u⟩
    · rcases List.mem_cons.1 hp with rfl | hp
      · refine ⟨hx.1, fun u hu => ?_⟩
        -- first-order optimality with the linear terms moved to the constrained one
        have hlin : ConvexOn ℝ t.C fun u => t.g u + ⟪u, v1.sum + v2.sum⟫ := by
          refine ht.add ⟨ht.1, fun a _ b _ s r _ _ _ => ?_⟩
          simp only [smul_eq_mul]
          rw [inner_add_left, real_inner_smul_left, real_inner_smul_left]
        have hmin : Minimises t.C (fun u => F u + (t.g u + ⟪u, v1.sum + v2.sum⟫)) x := by
          refine ⟨hx.1, fun u hu => ?_⟩
          have := hv3.2 u hu
          simp only [List.sum_append] at this ⊢
          linarith
        have h1 := hmin.first_order hlin (hasFDerivAt_of_models hF hS hL x) hu
        simp only at h1 ⊢
        rw [hw, inner_sub_left, inner_neg_left]
        have e : ⟪v1.sum + v2.sum, u - x⟫ = ⟪u, v1.sum + v2.sum⟫ - ⟪x, v1.sum + v2.sum⟫ := by
          rw [real_inner_comm, inner_sub_left]
        rw [e]
        linarith
      · have hm := hpost p.1 (List.of_mem_zip (a := p.1) (b := p.2) hp).1
        rw [hm.1]
        exact ⟨Set.mem_univ _, fun u _ => hv2 p (List.mem_append_right _ hp) u⟩

/-- C116 without a hypothesis on splittings: if at most one of the proximity operators is a constraint (`t`, at any
position in the list) and `F + ∑ gᵢ` has a minimiser, `GenForwardBackward` converges to a minimiser. -/
theorem C116_genforwardbackward_solves {F : E → ℝ} {G : E → E} {L : ℝ} (hF : AboveTangents F G)
    (hS : Smooth F G L) (hL : 0 < L) (pre post : List (Term E)) (t : Term E) (ts : List (Term E))
    (hts : ts = pre ++ t :: post) (hok : ∀ t ∈ ts, t.Ok) (hfin : ∀ t' ∈ pre ++ post, t'.C = Set.univ)
    (hw : (ts.map (·.w)).sum = 1) (hex : ∃ x, Minimises t.C (fun u => F u + sumG ts u) x) (x0 : E) (gamma lam : ℝ) (r : S)
    (hg : 0 < gamma) (hl : 0 < lam) (hc : lam < 2 - gamma * L / 2) :
    ∃ x, Minimises t.C (fun u => F u + sumG ts u) x ∧
      Filter.Tendsto (fun n => (genAfter G (ts.map (·.prox)) (ts.map (·.w)) none none
        (genInit x0 ts.length gamma lam r) n).xOld) Filter.atTop (𝓝 x) := by
  subst hts
  have hfeas : feasible (pre ++ t :: post) = t.C := by
    ext u
    constructor
    · intro h
      exact h t (by simp)
    · intro h t' ht'
      rcases List.mem_append.1 ht' with h1 | h1
      · rw [hfin t' (List.mem_append_left _ h1)]; exact Set.mem_univ _
      · rcases List.mem_cons.1 h1 with rfl | h1
        · exact h
        · rw [hfin t' (List.mem_append_right _ h1)]; exact Set.mem_univ _
  obtain ⟨x, hx⟩ := hex
  have hsplit := split_of_minimiser hF hS hL pre post t (hok t (by simp)).convex
    (fun t' h' => ⟨hfin t' (List.mem_append_left _ h'), (hok t' (List.mem_append_left _ h')).convex⟩)
    (fun t' h' => ⟨hfin t' (List.mem_append_right _ h'),
      (hok t' (List.mem_append_right _ (List.mem_cons_of_mem _ h'))).convex⟩) hx
  obtain ⟨z, hz1, hz2⟩ := C116_genforwardbackward_converges hF hS hL _ hok hw ⟨x, hsplit⟩ x0 gamma lam r hg hl hc
  rw [hfeas] at hz1
  exact ⟨z, hz1, hz2⟩

end

/-- `½(x-3)² + |x|` over `x ≥ 0`, minimised by 2. -/
example := C118_condat_solves condat_example_ok sq_smooth one_pos (nL := 1) (fun x => by simp)
  ⟨0, 0, 3 / 2, 1 / 2, 1 / 2⟩ (by norm_num) (by norm_num) (by norm_num) (by norm_num) (by norm_num)
  ⟨2, show (0 : ℝ) ≤ 2 by norm_num, fun u _ => by
    have h1 := le_abs_self u
    simp only [id]
    rw [abs_of_pos (by norm_num : (0 : ℝ) < 2)]
    nlinarith [sq_nonneg (u - 2)]⟩

/-- `½(x-3)² + |x|` over `x ≥ 0`, as two operators with weights `1/4` and `3/4`. -/
example := C116_genforwardbackward_solves (S := Unit) sq_above sq_smooth one_pos [⟨Set.univ, fun x => |x|, softR, 1/4⟩] []
  (⟨{x : ℝ | 0 ≤ x}, fun _ => 0, fun y _ => max y 0, 3/4⟩ : Term ℝ) _ rfl
  (by
    intro t ht
    simp only [List.cons_append, List.nil_append, List.mem_cons, List.not_mem_nil, or_false] at ht
    rcases ht with rfl | rfl
    · exact ⟨abs_convex, softR_exact, by norm_num⟩
    · exact ⟨condat_example_ok.convexG, condat_example_ok.prox, by norm_num⟩)
  (by simp) (by norm_num)
  ⟨2, show (0 : ℝ) ≤ 2 by norm_num, fun u _ => by
    have h1 := le_abs_self u
    simp only [sumG, List.cons_append, List.nil_append, List.map_cons, List.map_nil, List.sum_cons, List.sum_nil]
    rw [abs_of_pos (by norm_num : (0 : ℝ) < 2)]
    nlinarith [sq_nonneg (u - 2)]⟩
  7 1 1 () one_pos one_pos (by norm_num)

end Verif
