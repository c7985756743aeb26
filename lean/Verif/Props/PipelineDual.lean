import Verif.Props.Duality
import Verif.Props.Stability

/-!
# C135: the package's operators with the splitting algorithms

`Condat` and `GenForwardBackward` with `GradBasic`, `Positivity` and `SparseThreshold` against the minimiser of the
objective computed by the package's cost functions.
-/

set_option linter.unusedSectionVars false

namespace Verif
open FB Spec
open Positivity (positivityOp)
open Linear (gradBasic gradCost)
open Prox (sparseOp sparseCost)
open scoped RealInnerProductSpace Topology

section
variable {E ι 𝕜 : Type} [NormedAddCommGroup E] [InnerProductSpace ℝ E] [Fintype ι] [RCLike 𝕜]

/-- An operator that is entrywise within `e` of a proximity operator is near an exact one. -/
theorem exact_near (V : ArraySpace E ι 𝕜) (g : (ι → 𝕜) → ℝ) (prox : E → ℝ → E) (e : ℝ) (he : 0 ≤ e)
    (hprox : ∀ v c, 0 < c → ∃ p : ι → 𝕜, IsProx (fun u => c * g u) (V.arr v) p ∧ ∀ i, ‖V.arr (prox v c) i - p i‖ ≤ e) :
    ∃ P : E → ℝ → E, ExactProx Set.univ (fun u => g (V.arr u)) P ∧
      ∀ v c, 0 < c → ‖prox v c - P v c‖ ≤ Real.sqrt (Fintype.card ι) * e := by
  have hex : ∀ (v : E) (c : ℝ), ∃ p : ι → 𝕜, 0 < c →
      IsProx (fun u => c * g u) (V.arr v) p ∧ ∀ i, ‖V.arr (prox v c) i - p i‖ ≤ e := by
    intro v c
    by_cases hc : 0 < c
    · obtain ⟨p, hp⟩ := hprox v c hc
      exact ⟨p, fun _ => hp⟩
    · exact ⟨0, fun h => absurd h hc⟩
  choose p hp using hex
  refine ⟨fun v c => V.arr.symm (p v c), fun v c hc => ?_, fun v c hc => ?_⟩
  · have h1 : IsProx (fun u => c * g u) (V.arr v) (V.arr (V.arr.symm (p v c))) := by
      rw [AddEquiv.apply_symm_apply]; exact (hp v c hc).1
    exact isProxOn_of_isProx V h1
  · refine norm_le_of_entries V _ _ he fun i => ?_
    rw [map_sub, AddEquiv.apply_symm_apply]
    exact (hp v c hc).2 i

/-- `SparseThreshold` (soft) is near an exact proximity operator of its cost. -/
theorem sparse_near (V : ArraySpace E ι 𝕜) (w : ι → ℝ) (hw : ∀ i, 0 ≤ w i) (prox : E → ℝ → E)
    (hprox : ∀ v c, sparseOp w "soft" (V.arr v) c = .ok (V.arr (prox v c))) :
    ConvexOn ℝ Set.univ (fun u => sparseCost (fun v => v) w (V.arr u)) ∧
    ∃ P : E → ℝ → E, ExactProx Set.univ (fun u => sparseCost (fun v => v) w (V.arr u)) P ∧
      ∀ v c, 0 < c → ‖prox v c - P v c‖ ≤ Real.sqrt (Fintype.card ι) * (2⁻¹ ^ 52 + 1 / 10 ^ 15) := by
  have hcost : ∀ u : ι → 𝕜, sparseCost (fun v => v) w u = ∑ i, w i * ‖u i‖ := by
    intro u
    refine Finset.sum_congr rfl fun i _ => ?_
    rw [norm_mul, RCLike.norm_ofReal, abs_of_nonneg (hw i)]
  constructor
  · have hconv := convex_moduli V (fun _ : ι => 0) w (fun _ => le_rfl) hw
    simp only [hcost]
    simpa only [zero_mul, zero_add] using hconv
  refine exact_near V (fun u => sparseCost (fun v => v) w u) prox _ (by positivity) fun v c hc => ?_
  obtain ⟨out, p, h1, h2, h3⟩ := C27_returned_value_close_to_prox (V.arr v) (fun i => w i * c)
    (fun i => mul_nonneg (hw i) hc.le)
  have h4 := hprox v c
  simp only [sparseOp] at h4
  rw [h4] at h1
  have h5 := Except.ok.inj h1
  refine ⟨p, ?_, fun i => by rw [h5]; exact h3 i⟩
  have e : (fun u : ι → 𝕜 => c * sparseCost (fun v => v) w u) = fun u => ∑ i, w i * c * ‖u i‖ := by
    funext u
    rw [hcost, Finset.mul_sum]
    exact Finset.sum_congr rfl fun i _ => by ring
  rw [e]
  exact h2.1

end

section
open Condat
variable {E H : Type} [NormedAddCommGroup E] [InnerProductSpace ℝ E] [FiniteDimensional ℝ E]
  [NormedAddCommGroup H] [InnerProductSpace ℝ H] [FiniteDimensional ℝ H]

/-- `Condat` with an approximate dual proximity operator stays near a run that converges to a minimiser. -/
theorem condat_near {C : Set E} {F g : E → ℝ} {h : H → ℝ} {O : Ops E H} {Lf nL : ℝ}
    (ok : CondatOk C Set.univ F g h O) (hS : Smooth F O.grad Lf) (hLf : 0 < Lf) (hn : ∀ x, ‖O.op x‖ ≤ nL * ‖x‖)
    (s : Condat.St E H) (hs : 0 < s.sigma) (ht : 0 < s.tau) (hr0 : 0 < s.rho) (hr2 : s.rho < 2)
    (hc : Lf / 2 < (2 - s.rho) * (1 / s.tau - s.sigma * nL ^ 2))
    (hex : ∃ x, Minimises C (fun u => F u + 1 / s.tau * g u + h (O.op u)) x) (proxDual : H → ℝ → H) (δ : ℝ)
    (hδ : ∀ v c, 0 < c → ‖proxDual v c - O.proxDual v c‖ ≤ δ) :
    ∃ (x : ℕ → E) (best : E), Minimises C (fun u => F u + 1 / s.tau * g u + h (O.op u)) best ∧
      Filter.Tendsto x Filter.atTop (𝓝 best) ∧
      ∀ n, ‖(condatAfter ⟨O.grad, O.prox, proxDual, O.op, O.adj⟩ ⟨none, none, none⟩ s n).x - x n‖
        ≤ n * (s.rho * Real.sqrt (s.sigma / (1 / s.tau - s.sigma * nL ^ 2)) * δ) := by
  obtain ⟨best, h1, h2⟩ := C118_condat_solves ok hS hLf hn s hs ht hr0 hr2 hc hex
  refine ⟨_, best, h1, h2, fun n => ?_⟩
  have hδ0 : 0 ≤ δ := (norm_nonneg _).trans (hδ 0 1 one_pos)
  set O' : Ops E H := ⟨O.grad, O.prox, proxDual, O.op, O.adj⟩ with hO'
  set t := fun k => condatAfter O' ⟨none, none, none⟩ s k with htd
  have hpar : ∀ k, (t k).rho = s.rho ∧ (t k).sigma = s.sigma ∧ (t k).tau = s.tau := by
    intro k
    induction k with
    | zero => exact ⟨rfl, rfl, rfl⟩
    | succ k ih => exact ih
  have hop0 : O.op 0 = 0 := by
    have := ok.op_sub 0 0
    rw [sub_self] at this
    rw [this]; exact sub_self _
  have key := C127_condat_partial ok hS hLf hn s hs ht hr0.le hr2 hc.le (fun k => (t k).x) (fun k => (t k).y)
    (fun _ => s.rho * Real.sqrt s.sigma * δ) n (fun k _ => by
      have est : t (k + 1) = Condat.step O' ⟨none, none, none⟩ (t k) := rfl
      have ek : t k = ⟨(t k).x, (t k).y, s.rho, s.sigma, s.tau⟩ := by
        obtain ⟨a, b, c⟩ := hpar k
        rw [← a, ← b, ← c]
      rw [est]
      have e1 : (Condat.step O' ⟨none, none, none⟩ (t k)).x
          = (Condat.step O ⟨none, none, none⟩ ⟨(t k).x, (t k).y, s.rho, s.sigma, s.tau⟩).x := by
        rw [ek]; rfl
      rw [e1, sub_self]
      set st : Condat.St E H := ⟨(t k).x, (t k).y, s.rho, s.sigma, s.tau⟩ with hst
      rw [ek]
      set yt := st.y + st.sigma • O.op ((2 : ℝ) • O.prox (st.x - st.tau • O.grad st.x - st.tau • O.adj st.y) 1 - st.x) with hyt
      have e2 : (Condat.step O' ⟨none, none, none⟩ st).y - (Condat.step O ⟨none, none, none⟩ st).y
          = -((s.rho * s.sigma) • (proxDual ((1 / s.sigma) • yt) (1 / s.sigma) - O.proxDual ((1 / s.sigma) • yt) (1 / s.sigma))) := by
        show (s.rho • (yt - s.sigma • proxDual ((1 / s.sigma) • yt) (1 / s.sigma)) + (1 - s.rho) • st.y)
          - (s.rho • (yt - s.sigma • O.proxDual ((1 / s.sigma) • yt) (1 / s.sigma)) + (1 - s.rho) • st.y) = _
        module
      rw [e2]
      set d := proxDual ((1 / s.sigma) • yt) (1 / s.sigma) - O.proxDual ((1 / s.sigma) • yt) (1 / s.sigma) with hd
      have hdn : ‖d‖ ≤ δ := hδ _ _ (by positivity)
      have e3 : condatNorm O s.sigma s.tau 0 (-((s.rho * s.sigma) • d)) = (s.rho * Real.sqrt s.sigma * ‖d‖) ^ 2 := by
        simp only [condatNorm, hop0, norm_neg, norm_smul, norm_zero, inner_zero_left]
        rw [Real.norm_of_nonneg (by positivity : 0 ≤ s.rho * s.sigma), mul_pow, mul_pow, mul_pow, mul_pow,
          Real.sq_sqrt hs.le]
        field_simp
        ring
      rw [e3, Real.sqrt_sq (by positivity)]
      exact mul_le_mul_of_nonneg_left hdn (by positivity))
  have e0 : condatNorm O s.sigma s.tau ((t 0).x - s.x) ((t 0).y - s.y) = 0 := by
    have : (t 0).x - s.x = 0 ∧ (t 0).y - s.y = 0 := ⟨sub_self _, sub_self _⟩
    rw [this.1, this.2]
    simp [condatNorm, hop0]
  rw [e0, Real.sqrt_zero, zero_add, Finset.sum_const, Finset.card_range, nsmul_eq_mul] at key
  set a := (t n).x - (condatAfter O ⟨none, none, none⟩ s n).x with ha
  set b := (t n).y - (condatAfter O ⟨none, none, none⟩ s n).y
  set κ := 1 / s.tau - s.sigma * nL ^ 2 with hκ
  have hκ0 : 0 < κ := pos_of_mul_pos_right (lt_trans (by positivity) hc) (by linarith)
  have hm := condatNorm_lower O s.sigma s.tau (2 * κ) nL hs hn (by rw [← hκ]; linarith) a b
  rw [show 2 * κ / 2 = κ by ring] at hm
  have k1 : Real.sqrt κ * ‖a‖ ≤ n * (s.rho * Real.sqrt s.sigma * δ) := by
    refine le_trans ?_ key
    rw [← Real.sqrt_sq (norm_nonneg a), ← Real.sqrt_mul (by positivity)]
    exact Real.sqrt_le_sqrt hm
  have hq : 0 < Real.sqrt κ := Real.sqrt_pos.2 hκ0
  rw [Real.sqrt_div hs.le]
  have e6 : n * (s.rho * (Real.sqrt s.sigma / Real.sqrt κ) * δ)
      = n * (s.rho * Real.sqrt s.sigma * δ) / Real.sqrt κ := by ring
  rw [e6, le_div_iff₀ hq, mul_comm]
  exact k1

variable {ι κ 𝕜 : Type} [Fintype ι] [Fintype κ] [RCLike 𝕜] {Y : Type} [NormedAddCommGroup Y] [InnerProductSpace ℝ Y]

/-- C135, analysis regularisation: `Condat` with `GradBasic` for an operator `M` of norm at most `N` and data `y`,
`Positivity`, and soft `SparseThreshold` with non-negative weights on the coefficients `L x` of a linear operator of norm
at most `nL`, `κ := 1/τ - σ nL²`, `0 < ρ < 2` and `(2 - ρ) κ > N²/2`.  Its iterates stay within
`n ρ √(σ/κ) √d (2⁻⁵² + 10⁻¹⁵)` of a sequence that converges to a minimiser of `½‖y - M x‖² + ∑ wᵢ |(L x)ᵢ|` over the non-negative arrays, if there is one. -/
theorem C135_condat_analysis (V : ArraySpace E ι ℝ) (W : ArraySpace H κ 𝕜) (M : E → Y) (Mt : Y → E) (y : Y)
    (hadd : ∀ a b, M (a + b) = M a + M b) (hadj : ∀ a b, ⟪M a, b⟫ = ⟪a, Mt b⟫) (N : ℝ) (hN0 : 0 < N)
    (hN : ∀ v, ‖M v‖ ≤ N * ‖v‖) (L : E → H) (Lt : H → E) (hL : ∀ a b, ⟪L a, b⟫ = ⟪a, Lt b⟫) (nL : ℝ)
    (hnL : ∀ a, ‖L a‖ ≤ nL * ‖a‖) (w : κ → ℝ) (hw : ∀ i, 0 ≤ w i) (prox : E → ℝ → E)
    (hprox : ∀ v c, V.arr (prox v c) = positivityOp (V.arr v)) (proxDual : H → ℝ → H)
    (hdual : ∀ v c, sparseOp w "soft" (W.arr v) c = .ok (W.arr (proxDual v c)))
    (s : Condat.St E H) (hs : 0 < s.sigma) (ht : 0 < s.tau) (hr0 : 0 < s.rho) (hr2 : s.rho < 2)
    (hc : N ^ 2 / 2 < (2 - s.rho) * (1 / s.tau - s.sigma * nL ^ 2)) (cost : E → ℝ)
    (hcost : ∀ u, cost u = gradCost M y u + sparseCost (fun v => v) w (W.arr (L u)))
    (hex : ∃ u, Minimises {u | ∀ i, 0 ≤ V.arr u i} cost u) :
    ∃ (x : ℕ → E) (best : E), Minimises {u | ∀ i, 0 ≤ V.arr u i} cost best ∧ Filter.Tendsto x Filter.atTop (𝓝 best) ∧
      ∀ n, ‖(condatAfter ⟨gradBasic M Mt y, prox, proxDual, L, Lt⟩ ⟨none, none, none⟩ s n).x - x n‖
        ≤ n * (s.rho * Real.sqrt (s.sigma / (1 / s.tau - s.sigma * nL ^ 2)) * (Real.sqrt (Fintype.card κ) * (2⁻¹ ^ 52 + 1 / 10 ^ 15))) := by
  obtain ⟨hF, hS⟩ := gradBasic_models M Mt y hadd hadj N hN
  obtain ⟨hC, hp⟩ := positivity_models V prox hprox
  obtain ⟨hcv, P, hP, hPd⟩ := sparse_near W w hw proxDual hdual
  have hN2 : 0 < N ^ 2 := by positivity
  have ok : CondatOk {u : E | ∀ i, 0 ≤ V.arr u i} Set.univ (gradCost M y) (fun _ => 0)
      (fun v => sparseCost (fun v => v) w (W.arr v)) ⟨gradBasic M Mt y, prox, P, L, Lt⟩ :=
    ⟨convexOn_const 0 hC, hcv, hF, hasFDerivAt_of_models hF hS hN2, hp, hP, hL⟩
  have hcost' : (fun u => gradCost M y u + 1 / s.tau * 0 + sparseCost (fun v => v) w (W.arr (L u))) = cost := by
    funext u
    rw [hcost, mul_zero, add_zero]
  have h := condat_near ok hS hN2 hnL s hs ht hr0 hr2 hc (by simpa only [hcost'] using hex) proxDual _ hPd
  simpa only [hcost'] using h

end

section
variable {E : Type} [NormedAddCommGroup E] [InnerProductSpace ℝ E] [FiniteDimensional ℝ E] {S : Type}

/-- `GenForwardBackward` with approximate proximity operators stays near a run that converges to a minimiser. -/
theorem gen_near {F : E → ℝ} {G : E → E} {L : ℝ} (hF : AboveTangents F G)
    (hS : Smooth F G L) (hL : 0 < L) (pre post : List (Term E)) (t : Term E) (ts : List (Term E))
    (hts : ts = pre ++ t :: post) (hok : ∀ t ∈ ts, t.Ok) (hfin : ∀ t' ∈ pre ++ post, t'.C = Set.univ)
    (hw : (ts.map (·.w)).sum = 1) (hex : ∃ x, Minimises t.C (fun u => F u + sumG ts u) x) (x0 : E) (gamma lam : ℝ) (r : S)
    (hg : 0 < gamma) (hl : 0 < lam) (hc : lam < 2 - gamma * L / 2) (ts' : List (Term E)) (hlen : ts'.length = ts.length)
    (hw' : ts'.map (·.w) = ts.map (·.w)) (δ : ℝ)
    (hδ : ∀ (i : ℕ) (h : i < ts.length) (h' : i < ts'.length) v c, 0 < c → ‖ts'[i].prox v c - ts[i].prox v c‖ ≤ δ) :
    ∃ (x : ℕ → E) (best : E), Minimises t.C (fun u => F u + sumG ts u) best ∧ Filter.Tendsto x Filter.atTop (𝓝 best) ∧
      ∀ n, ‖(genAfter G (ts'.map (·.prox)) (ts'.map (·.w)) none none (genInit x0 ts'.length gamma lam r) n).xOld - x n‖
        ≤ n * (lam * δ) := by
  obtain ⟨best, h1, h2⟩ := C116_genforwardbackward_solves hF hS hL pre post t ts hts hok hfin hw hex x0 gamma lam r hg hl hc
  refine ⟨_, best, h1, h2, fun n => ?_⟩
  obtain ⟨z, hz0, hzx, hz⟩ := gen_form G ts' (by rw [hw']; exact hw) x0 gamma lam r
  have hwi : ∀ i : Fin ts.length, ts'[Fin.cast hlen.symm i].w = ts[i].w := by
    intro i
    have e1 : (ts'.map (·.w))[i.1]'(by rw [List.length_map, hlen]; exact i.2) = (ts.map (·.w))[i.1]'(by simp) := by
      simp only [hw']
    simpa using e1
  have hmean : ∀ k, gMean ts' (z k) = ∑ i : Fin ts.length, ts[i].w • z k (Fin.cast hlen.symm i) := by
    intro k
    unfold gMean
    refine (Fintype.sum_equiv (finCongr hlen.symm) _ _ fun i => ?_).symm
    rw [← hwi i]
    rfl
  have hpos : ∀ i : Fin ts.length, 0 < ts[i].w := fun i => (hok _ (List.getElem_mem i.2)).pos
  have hw1 : ∑ i : Fin ts.length, ts[i].w = 1 := by rw [← weights_sum]; exact hw
  have hδ0 : 0 ≤ δ := by
    have hlt : pre.length < ts.length := by rw [hts]; simp
    exact (norm_nonneg _).trans (hδ pre.length hlt (hlen ▸ hlt) 0 1 one_pos)
  have key := C127_gen_forward_backward_partial hF hS hL ts hok hw x0 gamma lam r hg hl hc.le
    (fun k i => z k (Fin.cast hlen.symm i)) (fun _ => lam * δ) n (fun k _ => by
      refine ⟨fun i => z k (Fin.cast hlen.symm i) +
        lam • (gProx G gamma ts (fun i => z k (Fin.cast hlen.symm i)) i - gMean ts (fun i => z k (Fin.cast hlen.symm i))),
        ?_, ?_⟩
      · show genZ _ _ _ _ _ _ _ = _
        rw [genZ_ofFn]
        rfl
      · apply Real.sqrt_le_iff.2
        refine ⟨by positivity, ?_⟩
        have hi : ∀ i : Fin ts.length, ts[i].w * ‖z (k + 1) (Fin.cast hlen.symm i) - (z k (Fin.cast hlen.symm i) +
            lam • (gProx G gamma ts (fun i => z k (Fin.cast hlen.symm i)) i - gMean ts (fun i => z k (Fin.cast hlen.symm i))))‖ ^ 2
            ≤ ts[i].w * (lam * δ) ^ 2 := by
          intro i
          have em : gMean ts (fun i => z k (Fin.cast hlen.symm i)) = gMean ts' (z k) := (hmean k).symm
          rw [hz k]
          simp only
          have e2 : z k (Fin.cast hlen.symm i) + lam • (gProx G gamma ts' (z k) (Fin.cast hlen.symm i) - gMean ts' (z k))
              - (z k (Fin.cast hlen.symm i) + lam • (gProx G gamma ts (fun i => z k (Fin.cast hlen.symm i)) i
                - gMean ts' (z k))) = lam • (gProx G gamma ts' (z k) (Fin.cast hlen.symm i)
                  - gProx G gamma ts (fun i => z k (Fin.cast hlen.symm i)) i) := by
            module
          rw [em, e2, norm_smul, Real.norm_of_nonneg hl.le]
          refine mul_le_mul_of_nonneg_left ?_ (hpos i).le
          refine pow_le_pow_left₀ (by positivity) (mul_le_mul_of_nonneg_left ?_ hl.le) 2
          simp only [gProx, em, hwi]
          exact hδ i.1 i.2 (by rw [hlen]; exact i.2) _ _ (div_pos hg (hpos i))
        refine (Finset.sum_le_sum fun i _ => hi i).trans ?_
        rw [← Finset.sum_mul, hw1, one_mul])
  have e0 : ∑ i : Fin ts.length, ts[i].w * ‖z 0 (Fin.cast hlen.symm i) - x0‖ ^ 2 = 0 :=
    Finset.sum_eq_zero fun i _ => by rw [hz0]; simp
  rw [e0, Real.sqrt_zero, zero_add, Finset.sum_const, Finset.card_range, nsmul_eq_mul, ← hmean n, ← hzx n] at key
  exact key

variable {ι : Type} [Fintype ι] {Y : Type} [NormedAddCommGroup Y] [InnerProductSpace ℝ Y]

/-- C135, non-negative sparse regression: `GenForwardBackward` with `GradBasic` for an operator `M` of norm at most `N`
and data `y`, the operators `[Positivity, SparseThreshold]` in either order with positive weights of sum 1, `γ > 0` and
`0 < λ < 2 - γN²/2`.  Its iterates stay within `n λ √d (2⁻⁵² + 10⁻¹⁵)` of a sequence that converges to a minimiser of
`½‖y - M x‖² + ∑ wᵢ |xᵢ|` over the non-negative arrays, if there is one. -/
theorem C135_genforwardbackward_sparse (V : ArraySpace E ι ℝ) (M : E → Y) (Mt : Y → E) (y : Y)
    (hadd : ∀ a b, M (a + b) = M a + M b) (hadj : ∀ a b, ⟪M a, b⟫ = ⟪a, Mt b⟫) (N : ℝ) (hN0 : 0 < N)
    (hN : ∀ v, ‖M v‖ ≤ N * ‖v‖) (w : ι → ℝ) (hw : ∀ i, 0 ≤ w i) (pos soft : E → ℝ → E)
    (hpos : ∀ v c, V.arr (pos v c) = positivityOp (V.arr v))
    (hsoft : ∀ v c, sparseOp w "soft" (V.arr v) c = .ok (V.arr (soft v c)))
    (w1 w2 : ℝ) (hw1 : 0 < w1) (hw2 : 0 < w2) (hw12 : w1 + w2 = 1) (x0 : E) (gamma lam : ℝ) (r : S)
    (hg : 0 < gamma) (hl : 0 < lam) (hc : lam < 2 - gamma * N ^ 2 / 2) (cost : E → ℝ)
    (hcost : ∀ u, cost u = gradCost M y u + sparseCost (fun v => v) w (V.arr u))
    (hex : ∃ u, Minimises {u | ∀ i, 0 ≤ V.arr u i} cost u)
    (ops : List (E → ℝ → E)) (hops : ops = [pos, soft] ∨ ops = [soft, pos]) :
    ∃ (x : ℕ → E) (best : E), Minimises {u | ∀ i, 0 ≤ V.arr u i} cost best ∧ Filter.Tendsto x Filter.atTop (𝓝 best) ∧
      ∀ n, ‖(genAfter (gradBasic M Mt y) ops [w1, w2] none none (genInit x0 2 gamma lam r) n).xOld - x n‖
        ≤ n * (lam * (Real.sqrt (Fintype.card ι) * (2⁻¹ ^ 52 + 1 / 10 ^ 15))) := by
  obtain ⟨hF, hS⟩ := gradBasic_models M Mt y hadd hadj N hN
  obtain ⟨hC, hp⟩ := positivity_models V pos hpos
  obtain ⟨hcv, P, hP, hPd⟩ := sparse_near V w hw soft hsoft
  have hN2 : 0 < N ^ 2 := by positivity
  generalize (2⁻¹ ^ 52 + 1 / 10 ^ 15 : ℝ) = e at *
  have he : 0 ≤ Real.sqrt (Fintype.card ι) * e := (norm_nonneg _).trans (hPd 0 1 one_pos)
  generalize Real.sqrt (Fintype.card ι) * e = δ at *
  set C := {u : E | ∀ i, 0 ≤ V.arr u i} with hCdef
  set h : E → ℝ := fun u => sparseCost (fun v => v) w (V.arr u) with hh
  have okP : ∀ v, 0 < v → (⟨C, fun _ => 0, pos, v⟩ : Term E).Ok := fun v hv => ⟨convexOn_const 0 hC, hp, hv⟩
  have okS : ∀ v, 0 < v → (⟨Set.univ, h, P, v⟩ : Term E).Ok := fun v hv => ⟨hcv, hP, hv⟩
  have hsum1 : ∀ u, gradCost M y u + sumG [⟨C, fun _ => 0, pos, w1⟩, ⟨Set.univ, h, P, w2⟩] u = cost u := by
    intro u
    rw [hcost]
    simp [sumG, hh]
  have hsum2 : ∀ u, gradCost M y u + sumG [⟨Set.univ, h, P, w1⟩, ⟨C, fun _ => 0, pos, w2⟩] u = cost u := by
    intro u
    rw [hcost]
    simp [sumG, hh]
  rcases hops with rfl | rfl
  · have k := gen_near hF hS hN2 [] [⟨Set.univ, h, P, w2⟩] ⟨C, fun _ => 0, pos, w1⟩ [⟨C, fun _ => 0, pos, w1⟩, ⟨Set.univ, h, P, w2⟩]
      rfl (by simpa using ⟨okP w1 hw1, okS w2 hw2⟩) (by simp) (by simpa using hw12)
      (by simpa only [hsum1] using hex) x0 gamma lam r hg hl hc [⟨C, fun _ => 0, pos, w1⟩, ⟨Set.univ, h, soft, w2⟩] rfl rfl δ
      (fun i h1 _ v c hc => by
        match i, h1 with
        | 0, _ => simpa using he
        | 1, _ => exact hPd v c hc)
    simpa only [hsum1, List.map_cons, List.map_nil, List.length_cons, List.length_nil] using k
  · have k := gen_near hF hS hN2 [⟨Set.univ, h, P, w1⟩] [] ⟨C, fun _ => 0, pos, w2⟩ [⟨Set.univ, h, P, w1⟩, ⟨C, fun _ => 0, pos, w2⟩]
      rfl (by simpa using ⟨okS w1 hw1, okP w2 hw2⟩) (by simp) (by simpa using hw12)
      (by simpa only [hsum2] using hex) x0 gamma lam r hg hl hc [⟨Set.univ, h, soft, w1⟩, ⟨C, fun _ => 0, pos, w2⟩] rfl rfl δ
      (fun i h1 _ v c hc => by
        match i, h1 with
        | 0, _ => exact hPd v c hc
        | 1, _ => simpa using he)
    simpa only [hsum2, List.map_cons, List.map_nil, List.length_cons, List.length_nil] using k

end

/-! ## Existence of a minimiser -/

section
variable {E ι : Type} [NormedAddCommGroup E] [InnerProductSpace ℝ E] [FiniteDimensional ℝ E] [Fintype ι]

/-- With data of full rank there is a minimiser. -/
theorem exists_minimiser {Y : Type} [NormedAddCommGroup Y] [InnerProductSpace ℝ Y] (V : ArraySpace E ι ℝ) (M : E →ₗ[ℝ] Y) (y : Y)
    (m : ℝ) (hm : 0 < m) (hM : ∀ u, m * ‖u‖ ≤ ‖M u‖) (g : E → ℝ) (hg : Continuous g) (hg0 : ∀ u, 0 ≤ g u) (cost : E → ℝ)
    (hcost : ∀ u, cost u = gradCost M y u + g u) : ∃ u, Minimises {u | ∀ i, 0 ≤ V.arr u i} cost u := by
  have hMc : Continuous M := M.continuous_of_finiteDimensional
  have hc : Continuous cost := by
    have : cost = fun u => 0.5 * ‖y - M u‖ ^ 2 + g u := funext fun u => by rw [hcost]; rfl
    rw [this]
    fun_prop
  have harr : Continuous fun u => V.arr u := by
    refine AddMonoidHomClass.continuous_of_bound V.arr 1 fun x => ?_
    rw [one_mul]
    refine (pi_norm_le_iff_of_nonneg (norm_nonneg _)).2 fun i => ?_
    refine le_of_sq_le_sq ?_ (norm_nonneg _)
    rw [V.norm_sq]
    exact Finset.single_le_sum (f := fun i => ‖V.arr x i‖ ^ 2) (fun i _ => sq_nonneg _) (Finset.mem_univ i)
  have hclosed : IsClosed {u : E | ∀ i, 0 ≤ V.arr u i} := by
    rw [Set.ofPred_forall]
    exact isClosed_iInter fun i => isClosed_le continuous_const ((continuous_apply i).comp harr)
  have h0 : (0 : E) ∈ {u : E | ∀ i, 0 ≤ V.arr u i} := by
    intro i; rw [map_zero]; rfl
  obtain ⟨x, hx, hmin⟩ := hc.continuousOn.exists_isMinOn' hclosed h0 (by
    refine Filter.Eventually.filter_mono inf_le_left ?_
    have : Filter.Tendsto (fun u : E => ‖u‖) (Filter.cocompact E) Filter.atTop := tendsto_norm_cocompact_atTop
    filter_upwards [this.eventually_ge_atTop ((‖y‖ + (cost 0 + 1) * 2) / m)] with u hu
    rw [div_le_iff₀ hm] at hu
    have h1 := hM u
    have h2 : ‖M u‖ - ‖y‖ ≤ ‖y - M u‖ := by
      rw [norm_sub_rev]; exact norm_sub_norm_le _ _
    have h3 : 0 ≤ cost 0 := by
      rw [hcost]
      have : (0 : ℝ) ≤ 0.5 * ‖y - M 0‖ ^ 2 := by positivity
      exact add_nonneg this (hg0 0)
    have h4 : (cost 0 + 1) * 2 ≤ ‖y - M u‖ := by nlinarith
    have h5 : cost u = 0.5 * ‖y - M u‖ ^ 2 + g u := hcost u
    rw [h5]
    nlinarith [hg0 u])
  exact ⟨x, hx, fun u hu => hmin hu⟩

end

/-- Identity data in three dimensions, weights 1, the coefficients `L x = 2x`: all hypotheses hold, whatever `y` is. -/
example (y : EuclideanSpace ℝ (Fin 3)) : ∃ (prox proxDual : EuclideanSpace ℝ (Fin 3) → ℝ → EuclideanSpace ℝ (Fin 3))
    (x : ℕ → EuclideanSpace ℝ (Fin 3)) (best : EuclideanSpace ℝ (Fin 3)),
    Minimises {u | ∀ i, 0 ≤ (euclid (Fin 3) ℝ).arr u i} (fun u => gradCost (fun v => v) y u +
      sparseCost (fun v => v) (fun _ => 1) ((euclid (Fin 3) ℝ).arr ((2 : ℝ) • u))) best ∧
    Filter.Tendsto x Filter.atTop (𝓝 best) ∧
    ∀ n, ‖(condatAfter ⟨gradBasic (fun v => v) (fun v => v) y, prox, proxDual, fun v => (2 : ℝ) • v, fun v => (2 : ℝ) • v⟩
        ⟨none, none, none⟩ ⟨0, 0, 1 / 2, 1 / 8, 1 / 2⟩ n).x - x n‖
      ≤ n * (1 / 2 * Real.sqrt (1 / 8 / (1 / (1 / 2) - 1 / 8 * 2 ^ 2)) * (Real.sqrt (Fintype.card (Fin 3)) * (2⁻¹ ^ 52 + 1 / 10 ^ 15))) := by
  obtain ⟨prox, hp⟩ := exists_prox (𝕜 := ℝ) (fun _ : Fin 3 => 1)
  have hsp : ConvexOn ℝ Set.univ fun u => sparseCost (fun v => v) (fun _ => 1) ((euclid (Fin 3) ℝ).arr u) :=
    (sparse_near (euclid (Fin 3) ℝ) (fun _ => 1) (fun _ => zero_le_one) prox hp).1
  have hcont := hsp.continuousOn isOpen_univ
  rw [continuousOn_univ] at hcont
  have hex := exists_minimiser (euclid (Fin 3) ℝ) LinearMap.id y 1 one_pos (fun u => by simp)
    (fun u => sparseCost (fun v => v) (fun _ => 1) ((euclid (Fin 3) ℝ).arr ((2 : ℝ) • u)))
    (hcont.comp (continuous_const_smul (2 : ℝ))) (fun u => Finset.sum_nonneg fun i _ => norm_nonneg _) _ (fun _ => rfl)
  refine ⟨fun v _ => (euclid (Fin 3) ℝ).arr.symm (positivityOp ((euclid (Fin 3) ℝ).arr v)), prox, ?_⟩
  exact C135_condat_analysis (euclid (Fin 3) ℝ) (euclid (Fin 3) ℝ) (fun v => v) (fun v => v) y (fun _ _ => rfl)
    (fun _ _ => rfl) 1 one_pos (fun v => by simp) (fun v => (2 : ℝ) • v) (fun v => (2 : ℝ) • v)
    (fun a b => by rw [real_inner_smul_left, real_inner_smul_right]) 2 (fun a => by rw [norm_smul]; simp)
    (fun _ => 1) (fun _ => zero_le_one) _ (fun v c => by rw [AddEquiv.apply_symm_apply]) prox hp
    ⟨0, 0, 1 / 2, 1 / 8, 1 / 2⟩ (by norm_num) (by norm_num) (by norm_num) (by norm_num) (by norm_num) _ (fun _ => rfl) hex

/-- The same for `GenForwardBackward`. -/
example (y : EuclideanSpace ℝ (Fin 3)) : ∃ (pos soft : EuclideanSpace ℝ (Fin 3) → ℝ → EuclideanSpace ℝ (Fin 3))
    (x : ℕ → EuclideanSpace ℝ (Fin 3)) (best : EuclideanSpace ℝ (Fin 3)),
    Minimises {u | ∀ i, 0 ≤ (euclid (Fin 3) ℝ).arr u i} (fun u => gradCost (fun v => v) y u +
      sparseCost (fun v => v) (fun _ => 1) ((euclid (Fin 3) ℝ).arr u)) best ∧
    Filter.Tendsto x Filter.atTop (𝓝 best) ∧
    ∀ n, ‖(genAfter (gradBasic (fun v => v) (fun v => v) y) [pos, soft] [1 / 3, 2 / 3] none none
        (genInit 0 2 1 1 ()) n).xOld - x n‖ ≤ n * (1 * (Real.sqrt (Fintype.card (Fin 3)) * (2⁻¹ ^ 52 + 1 / 10 ^ 15))) := by
  obtain ⟨prox, hp⟩ := exists_prox (𝕜 := ℝ) (fun _ : Fin 3 => 1)
  have hsp : ConvexOn ℝ Set.univ fun u => sparseCost (fun v => v) (fun _ => 1) ((euclid (Fin 3) ℝ).arr u) :=
    (sparse_near (euclid (Fin 3) ℝ) (fun _ => 1) (fun _ => zero_le_one) prox hp).1
  have hcont := hsp.continuousOn isOpen_univ
  rw [continuousOn_univ] at hcont
  have hex := exists_minimiser (euclid (Fin 3) ℝ) LinearMap.id y 1 one_pos (fun u => by simp)
    _ hcont (fun u => Finset.sum_nonneg fun i _ => norm_nonneg _) _ (fun _ => rfl)
  refine ⟨fun v _ => (euclid (Fin 3) ℝ).arr.symm (positivityOp ((euclid (Fin 3) ℝ).arr v)), prox, ?_⟩
  exact C135_genforwardbackward_sparse (euclid (Fin 3) ℝ) (fun v => v) (fun v => v) y (fun _ _ => rfl)
    (fun _ _ => rfl) 1 one_pos (fun v => by simp) (fun _ => 1) (fun _ => zero_le_one) _ prox
    (fun v c => by rw [AddEquiv.apply_symm_apply]) hp (1 / 3) (2 / 3) (by norm_num) (by norm_num) (by norm_num) 0 1 1 ()
    one_pos one_pos (by norm_num) _ (fun _ => rfl) hex _ (Or.inl rfl)

end Verif
