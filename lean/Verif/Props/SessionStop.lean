import Verif.Props.SessionAlgs

/-!
# C16, C104, C105, C108, C109: further theorems about sessions
-/

set_option linter.unusedSectionVars false

namespace Verif
open Session Observable FB Crash Cost

section
variable {X K V : Type} [Field K] [LinearOrder K] [IsStrictOrderedRing K] [FloorRing K]

/-! ## C105: construction -/

/-- C105: an object can be constructed exactly when every metric dictionary has its four keys (otherwise
`KeyError`), and then observer `j` is the `j`-th metric of the dictionary with all its arguments. -/
theorem C105_construction (eps : K) (specs : List (String × Session.Spec K V)) (x : X)
    (cost : Option (CostObj K)) :
    ((∃ o, construct eps (some specs) x cost = .ok o) ↔
      ∀ p ∈ specs, p.2.metric ≠ none ∧ p.2.mapping ≠ none ∧ p.2.cst ≠ none ∧ p.2.early ≠ none) ∧
    (∀ e, construct eps (some specs) x cost = .error e → e = .keyError) ∧
    ∀ o, construct eps (some specs) x cost = .ok o → List.Forall₂ (fun p b => b.name = p.1 ∧
      p.2.metric = some b.metric ∧ p.2.mapping = some b.mapping ∧ p.2.cst = some b.cst ∧
      p.2.early = some b.hist.earlyStopping ∧ b.hist.wind = 6 ∧ b.hist.eps = eps) specs o.observers := by
  have key : ∀ l : List (String × Session.Spec K V),
      (∃ obs, makeObservers eps l = .ok obs ∧ (∀ p ∈ l, p.2.metric ≠ none ∧ p.2.mapping ≠ none ∧ p.2.cst ≠ none ∧
        p.2.early ≠ none) ∧ List.Forall₂ (fun p b => b.name = p.1 ∧
        p.2.metric = some b.metric ∧ p.2.mapping = some b.mapping ∧ p.2.cst = some b.cst ∧
        p.2.early = some b.hist.earlyStopping ∧ b.hist.wind = 6 ∧ b.hist.eps = eps) l obs) ∨
      (makeObservers eps l = .error .keyError ∧ ¬ ∀ p ∈ l, p.2.metric ≠ none ∧ p.2.mapping ≠ none ∧
        p.2.cst ≠ none ∧ p.2.early ≠ none) := by
    intro l
    induction l with
    | nil => left; exact ⟨[], rfl, by simp, .nil⟩
    | cons a r ih =>
      obtain ⟨name, d⟩ := a
      simp only [makeObservers, bind, Except.bind]
      cases h1 : d.metric with
      | none => right; exact ⟨rfl, fun h => (h (name, d) (by simp)).1 h1⟩
      | some w1 =>
        cases h2 : d.mapping with
        | none => right; exact ⟨rfl, fun h => (h (name, d) (by simp)).2.1 h2⟩
        | some w2 =>
          cases h3 : d.cst with
          | none => right; exact ⟨rfl, fun h => (h (name, d) (by simp)).2.2.1 h3⟩
          | some w3 =>
            cases h4 : d.early with
            | none => right; exact ⟨rfl, fun h => (h (name, d) (by simp)).2.2.2 h4⟩
            | some w4 =>
              rcases ih with ⟨obs, e1, e2, e3⟩ | ⟨e1, e2⟩
              · left
                simp only [getKey, e1]
                refine ⟨_, rfl, ?_, .cons ⟨rfl, h1, h2, h3, h4, rfl, rfl⟩ e3⟩
                intro p hp
                rcases List.mem_cons.mp hp with rfl | hp
                · simp [h1, h2, h3, h4]
                · exact e2 p hp
              · right
                simp only [getKey, e1]
                exact ⟨trivial, fun h => e2 fun p hp => h p (List.mem_cons_of_mem _ hp)⟩
  have hc : ∀ r, makeObservers eps specs = r → construct eps (some specs) x cost =
      r.bind fun obs => .ok ⟨x, 0, false, obs, false, .specs (!specs.isEmpty), cost, 0⟩ := by
    rintro r rfl; rfl
  rcases key specs with ⟨obs, e1, e2, e3⟩ | ⟨e1, e2⟩
  · rw [hc _ e1]
    refine ⟨⟨fun _ => e2, fun _ => ⟨_, rfl⟩⟩, (fun e h => by cases h), fun o h => ?_⟩
    cases h; exact e3
  · rw [hc _ e1]
    refine ⟨⟨?_, fun h => absurd h e2⟩, (fun e h => by cases h; rfl), (fun o h => by cases h)⟩
    rintro ⟨o, h⟩; cases h

/-! ## C108: the failure is silent -/

/-- C108: after the failure the missing metrics are not even reported: on a locked object whose updates, cost
function and notification arguments do not raise, `iterate` returns normally and records nothing. -/
theorem C108_silent_afterwards (A : Alg X K V) (o : Obj X K V) (m p : ℕ) (hp : A.period = some p) (hp0 : p ≠ 0)
    (hu : ∀ i x, (A.update i x).2 = none) (hk : ∀ i x, ∃ kw, A.kwargs (A.update i x).1 = .ok kw)
    (hI : ∀ c, o.cost = some c → c.interval ≠ some 0)
    (hf : o.cost ≠ none → ∀ i x, ∃ v, A.calcCost (A.update i x).1 = .ok v) (hl : o.locked = true) :
    (iterate A m o).exc = none ∧ (iterate A m o).obj.observers = o.observers := by
  have key : ∀ (l : List ℕ) (o : Obj X K V), (∀ c, o.cost = some c → c.interval ≠ some 0) →
      (o.cost ≠ none → ∀ i x, ∃ v, A.calcCost (A.update i x).1 = .ok v) → o.locked = true →
      (loop A m l o).exc = none := by
    intro l
    induction l with
    | nil => intro o _ _ _; rfl
    | cons i r ih =>
      intro o hI hf hl
      have h1 : (update1 A i o).2 = none ∧ (update1 A i o).1.locked = true ∧ Quiet o (update1 A i o).1 ∧
          (update1 A i o).1.x = (A.update i o.x).1 := by
        unfold update1
        have h := hu i o.x
        cases hx : A.update i o.x with
        | mk y e =>
          rw [hx] at h
          simp only at h
          subst h
          obtain ⟨t1, t2, t3, t4, t5⟩ := testConvergence_spec A { o with idx := i, x := y }
          refine ⟨testConvergence_ok hI (fun hn => ?_), t5.1.trans hl,
            Quiet.trans ⟨rfl, rfl, Iff.rfl, fun c h => ⟨c, h, rfl⟩⟩ t5, t1⟩
          obtain ⟨v, hv⟩ := hf hn i o.x
          rw [hx] at hv; exact ⟨v, hv⟩
      cases e1 : update1 A i o with
      | mk o1 x1 =>
        rw [e1] at h1
        obtain ⟨h1, h2, h3, h4⟩ := h1
        simp only at h1 h2 h3 h4
        subst h1
        have hm : metricsStep A m o1 = (o1, none) := by
          by_cases ht : o1.metrics.truthy = true
          · rw [metricsStep_eq A m hp hp0 ht]
            obtain ⟨kw, hkw⟩ := hk i o.x
            unfold computeMetrics
            rw [h4, hkw]
            simp only [h2, if_true]
          · simp only [metricsStep, if_neg ht]
        simp only [loop, e1, hm]
        split
        · rfl
        · refine ih o1 (fun c hc => ?_) (fun hn => hf fun h0 => hn (h3.2.2.1.mpr h0)) h2
          obtain ⟨c0, g1, g2⟩ := h3.2.2.2 c hc
          rw [g2]; exact hI c0 g1
  have he := key (List.range m) o hI hf hl
  rw [iterate_of_no_exc he]
  exact ⟨he, (loop_locked A m (List.range m) o hl).1⟩

/-! ## C104: a failing update ends the run and leaves what it had assigned -/

/-- C104: when the first update of a call raises, `iterate` raises the same exception after that single update;
the algorithm state is what the update left behind, nothing is recorded, `metrics` keeps its value. -/
theorem C104_failed_update_ends_run (A : Alg X K V) (o : Obj X K V) (m : ℕ) (hm : 0 < m) (x : X) (e : PyErr)
    (h : A.update 0 o.x = (x, some e)) :
    (iterate A m o).exc = some e ∧ (iterate A m o).started = [0] ∧
    (iterate A m o).obj = { o with idx := 0, x := x } := by
  obtain ⟨m, rfl⟩ : ∃ k, m = k + 1 := ⟨m - 1, by omega⟩
  unfold iterate
  rw [List.range_succ_eq_map]
  have h1 : update1 A 0 o = ({ o with idx := 0, x := x }, some e) := by
    unfold update1; rw [h]
  simp only [loop, h1]
  exact ⟨trivial, trivial, trivial⟩

/-! ## C16: early-stopping flags on whole objects -/

/-- What an update leaves in `converge`, for an object with a cost object `c` whose evaluation gives `b`. -/
theorem update1_converge (A : Alg X K V) (i : ℕ) (o : Obj X K V) (c c' : CostObj K) (b : Bool)
    (hu : (A.update i o.x).2 = none) (hc : o.cost = some c)
    (hg : getCost A.calcCost c (A.update i o.x).1 = (c', .ok b)) :
    (update1 A i o).2 = none ∧ (update1 A i o).1.converge =
      (match A.rule with
        | .costOnly => b
        | _ => anyFlag o || b) := by
  unfold update1
  cases hx : A.update i o.x with
  | mk y e =>
    rw [hx] at hu hg
    simp only at hu hg
    subst hu
    simp only [testConvergence, hc]
    have ha : anyFlag { o with idx := i, x := y, cost := some c } = anyFlag o := rfl
    by_cases h : A.rule = .flagsOrCost ∧ anyFlag o = true
    · rw [if_pos (by rw [ha]; exact h)]
      simp [h.1, h.2]
    · rw [if_neg (by rw [ha]; exact h), hg]
      refine ⟨rfl, ?_⟩
      cases hr : A.rule with
      | flagsOrCost =>
        have : anyFlag o = false := by
          cases hf : anyFlag o with
          | false => rfl
          | true => exact absurd ⟨hr, hf⟩ h
        simp [this]
      | costOnly => simp
      | flagsThenCost => simp [ha]

/-- C16: on an object with a cost function, if a metric's early-stopping flag is up when `iterate` performs an
update, the run ends with that update. -/
theorem C16_object_flag_stops (A : Alg X K V) (hA : A.rule ≠ .costOnly) (o : Obj X K V) (m p : ℕ) (hm : 0 < m)
    (hp : A.period = some p) (hp0 : p ≠ 0) (hr : Reliable A o) (ht : o.metrics.truthy = true)
    (hl : o.locked = false) (hcost : o.cost ≠ none) (b : Obs K V) (hb : b ∈ o.observers) (hf : b.hist.flag = true) :
    (iterate A m o).exc = none ∧ (iterate A m o).started = [0] ∧ (iterate A m o).obj.converge = true ∧
    (iterate A m o).obj.x = (A.update 0 o.x).1 := by
  have hne : o.observers ≠ [] := List.ne_nil_of_mem hb
  obtain ⟨m, rfl⟩ : ∃ k, m = k + 1 := ⟨m - 1, by omega⟩
  obtain ⟨c, hc⟩ := Option.ne_none_iff_exists'.mp hcost
  obtain ⟨b', hb'⟩ := getCost_ok (f := A.calcCost) (c := c) (hr.cost c hc) (A.update 0 o.x).1
    (hr.costFun hcost 0 o.x)
  obtain ⟨u1, u2⟩ := update1_converge A 0 o c _ b' (hr.update 0 o.x) hc (Prod.ext rfl hb')
  obtain ⟨w1, w2, w3, w4, w5, w6⟩ := update1_ok hr 0
  have hfl : anyFlag o = true := List.any_eq_true.mpr ⟨b, hb, hf⟩
  have hcv : (update1 A 0 o).1.converge = true := by
    rw [u2]
    cases hh : A.rule with
    | flagsOrCost => simp [hfl]
    | costOnly => exact absurd hh hA
    | flagsThenCost => simp [hfl]
  cases e1 : update1 A 0 o with
  | mk o1 x1 =>
    rw [e1] at u1 hcv w2 w3 w4 w5 w6
    simp only at u1 hcv w2 w3 w4 w5 w6
    subst u1
    obtain ⟨c1, c2, c3, c4, c5, c6⟩ := computeMetrics_ok (A := A) (o := o1) (by rw [w4]; exact hne)
      (by rw [w4, w2, w3]; exact fun b hb => hr.metrics b hb 0 o.x) (by rw [w6.1]; exact hl)
    rw [← metricsStep_eq A (m + 1) hp hp0 (by rw [w6.2.1]; exact ht)] at c1 c2 c3
    cases f1 : metricsStep A (m + 1) o1 with
    | mk o2 y =>
      rw [f1] at c1 c2 c3
      simp only at c1 c2 c3
      subst c1
      have hlp : loop A (m + 1) (List.range (m + 1)) o = ⟨o2, none, [0]⟩ := by
        rw [List.range_succ_eq_map]
        simp only [loop, e1, f1]
        rw [if_pos (c3.trans hcv)]
      rw [iterate_of_no_exc (by rw [hlp])]
      rw [hlp]
      exact ⟨rfl, rfl, c3.trans hcv, c2.trans w2⟩

/-- C16, refutation for classes that only look at the cost (`GenForwardBackward`): whatever the flags of the
metrics, a run in which the cost never signals convergence performs all `m` updates. -/
theorem C16_object_flag_ignored (A : Alg X K V) (hA : A.rule = .costOnly) (o : Obj X K V) (m p : ℕ)
    (hp : A.period = some p) (hp0 : p ≠ 0) (hr : Reliable A o) (hne : o.observers ≠ [])
    (ht : o.metrics.truthy = true) (hl : o.locked = false) (c : CostObj K) (hc : o.cost = some c)
    (hi : c.interval = none) (hcv : o.converge = false) :
    (iterate A m o).started = List.range m ∧ (iterate A m o).obj.x = traj A o.x m := by
  have key : ∀ (l : List ℕ) (o : Obj X K V) (c : CostObj K), o.cost = some c → c.interval = none →
      o.converge = false → (loop A m l o).obj.converge = false := by
    intro l
    induction l with
    | nil => intro o c _ _ h; exact h
    | cons i r ih =>
      intro o c hc hi hcv
      have h1 : (update1 A i o).1.converge = false ∧ ∃ c', (update1 A i o).1.cost = some c' ∧ c'.interval = none := by
        unfold update1
        cases hx : A.update i o.x with
        | mk y e =>
          cases e with
          | some e => exact ⟨hcv, c, hc, hi⟩
          | none =>
            simp only [testConvergence, hc, hA]
            simp [getCost, hi]
      have hms : ∀ o1 : Obj X K V, (metricsStep A m o1).1.converge = o1.converge ∧
          (metricsStep A m o1).1.cost = o1.cost := by
        intro o1
        unfold metricsStep
        split
        · split
          · exact ⟨rfl, rfl⟩
          · split
            · exact ⟨rfl, rfl⟩
            · split
              · unfold computeMetrics
                split
                · exact ⟨rfl, rfl⟩
                · split
                  · exact ⟨rfl, rfl⟩
                  · simp only
                    split <;> exact ⟨rfl, rfl⟩
              · exact ⟨rfl, rfl⟩
        · exact ⟨rfl, rfl⟩
      cases e1 : update1 A i o with
      | mk o1 x1 =>
        rw [e1] at h1
        obtain ⟨g1, c', g2, g3⟩ := h1
        cases x1 with
        | some e => simp only [loop, e1]; exact g1
        | none =>
          have h2 := hms o1
          cases f1 : metricsStep A m o1 with
          | mk o2 y =>
            rw [f1] at h2
            simp only at h2 g1 g2
            cases y with
            | some e => simp only [loop, e1, f1]; exact h2.1.trans g1
            | none =>
              simp only [loop, e1, f1]
              rw [if_neg (by rw [h2.1, g1]; simp)]
              exact ih o2 c' (h2.2.trans g2) g3 (h2.1.trans g1)
  obtain ⟨N, h1, -, h3, h4, h5, h6, -⟩ := C105_metrics_record_every_update A o m p hp hp0 hr hne ht hl
  obtain ⟨-, k2, -⟩ := loop_ok hp hp0 m (List.range m) o hr hne ht hl |>.choose_spec
  have hconv : (iterate A m o).obj.converge = false := by
    rw [iterate_of_no_exc k2]
    exact key (List.range m) o c hc hi hcv
  have hN : N = m := by
    by_contra hcon
    have := h3 (by omega)
    rw [hconv] at this; cases this
  subst hN
  exact ⟨h5, h6⟩

end

/-- C16: which classes stop on a flag: all but `GenForwardBackward`. -/
theorem C16_rule_of_each_class {P E H S W : Type} [NormedAddCommGroup E] [InnerProductSpace ℝ E]
    [NormedAddCommGroup H] [InnerProductSpace ℝ H] (grad : E → Py E) (prox : E × ℝ → Py E) (R : Rules S E)
    (proxs : List (E × ℝ → Py E)) (w : List ℝ) (gu lu : Option (S → ℝ → ℝ × S)) (beta sigmaBar : ℝ)
    (adj : E → Py P) (cost : E → Py ℝ) (O : CondatOps E H) (U : Condat.Upd) (cost2 : E → H → Py ℝ)
    (M : AdmmOps H W) (cost3 : H → W → Py ℝ) (period : Option ℕ) (clock : ℕ → ℝ) {ι 𝕜 : Type} [RCLike 𝕜]
    (c : GD.Conf ι 𝕜) (g : (ι → 𝕜) → Py (ι → 𝕜)) (pr : (ι → 𝕜) × (ι → ℝ) → Py (ι → 𝕜))
    (cost4 : (ι → 𝕜) → Py ℝ) :
    (fbAlg grad prox R adj cost period clock).rule ≠ .costOnly ∧
    (pogmAlg grad prox beta sigmaBar adj cost period clock).rule ≠ .costOnly ∧
    (condatAlg O U cost2 period clock).rule ≠ .costOnly ∧ (admmAlg M cost3 period clock).rule ≠ .costOnly ∧
    (gdAlg c g pr cost4 period clock).rule ≠ .costOnly ∧
    (genAlg grad proxs w gu lu adj cost period clock).rule = .costOnly := by
  refine ⟨?_, ?_, ?_, ?_, ?_, rfl⟩ <;> simp [fbAlg, pogmAlg, condatAlg, admmAlg, gdAlg]

/-- C17: the cost that is recorded is the cost of the solution that `iterate` would return at that moment (with every
class; `AttributeError` when there is none yet). -/
theorem C17_cost_of_the_solution {P E H S W : Type} [NormedAddCommGroup E] [InnerProductSpace ℝ E]
    [NormedAddCommGroup H] [InnerProductSpace ℝ H] (grad : E → Py E) (prox : E × ℝ → Py E) (R : Rules S E)
    (proxs : List (E × ℝ → Py E)) (w : List ℝ) (gu lu : Option (S → ℝ → ℝ × S)) (beta sigmaBar : ℝ)
    (adj : E → Py P) (cost : E → Py ℝ) (O : CondatOps E H) (U : Condat.Upd) (cost2 : E → H → Py ℝ)
    (M : AdmmOps H W) (cost3 : H → W → Py ℝ) (period : Option ℕ) (clock : ℕ → ℝ) {ι 𝕜 : Type} [RCLike 𝕜]
    (c : GD.Conf ι 𝕜) (g : (ι → 𝕜) → Py (ι → 𝕜)) (pr : (ι → 𝕜) × (ι → ℝ) → Py (ι → 𝕜))
    (cost4 : (ι → 𝕜) → Py ℝ) (s1 : St S E) (s2 : GenSt S E × Option E) (s3 : Pogm E × Bool) (s4 : Condat.St E H × Bool)
    (s5 : AdmmSt H W) (s6 : GD.St ι 𝕜) :
    (∀ x, s1.xNew = some x → (fbAlg grad prox R adj cost period clock).calcCost s1 = cost x) ∧
    (s1.xNew = none → (fbAlg grad prox R adj cost period clock).calcCost s1 = .error .attributeError) ∧
    (genAlg grad proxs w gu lu adj cost period clock).calcCost s2 = genFinal s2 >>= cost ∧
    (pogmAlg grad prox beta sigmaBar adj cost period clock).calcCost s3 = pogmFinal s3 >>= cost ∧
    (condatAlg O U cost2 period clock).calcCost s4 = (condatFinal s4 >>= fun p => cost2 p.1 p.2) ∧
    (admmAlg M cost3 period clock).calcCost s5 = (admmFinal s5 >>= fun p => cost3 p.1 p.2) ∧
    (gdAlg c g pr cost4 period clock).calcCost s6 = gdFinal s6 >>= cost4 := by
  refine ⟨fun x h => by simp [fbAlg, h], fun h => by simp [fbAlg, h], ?_, ?_, ?_, rfl, rfl⟩
  · simp only [genAlg, genFinal]
    cases s2.2 <;> rfl
  · simp only [pogmAlg, pogmFinal]
    cases s3.2 <;> rfl
  · simp only [condatAlg, condatFinal]
    cases s4.2 <;> rfl

/-! ## C109 for `ADMM` -/

/-- C109 for `ADMM`: after `max_iter > 0` iterations that do not raise, the final attributes are the current
`u` and `v`, that is, those the next update would start from. -/
theorem C109_admm_final {H W : Type} [NormedAddCommGroup H] [InnerProductSpace ℝ H] (M : AdmmOps H W)
    (cost : H → W → Py ℝ) (period : Option ℕ) (clock : ℕ → ℝ) (m : ℕ) (hm : 0 < m)
    (o : Obj (AdmmSt H W) ℝ (Val H W Unit)) (he : (iterate (admmAlg M cost period clock) m o).exc = none) :
    (iterateFinal (admmAlg M cost period clock) admmFinal m o).2 =
      .ok ((iterate (admmAlg M cost period clock) m o).obj.x.old.u,
        (iterate (admmAlg M cost period clock) m o).obj.x.old.v) := by
  obtain ⟨i, y, h⟩ := iterate_last _ m hm o he
  rw [iterateFinal_ok he]
  have hs : ∀ (y t : AdmmSt H W), tryAdmm M y = (t, none) → t.uNew = t.old.u ∧ t.vNew = t.old.v := by
    intro y t h
    unfold tryAdmm at h
    cases h1 : M.B y.old.v with
    | error e => rw [h1] at h; simp at h
    | ok bv =>
      rw [h1] at h
      simp only at h
      cases h2 : M.optH (y.old.u, bv + y.old.u - M.b) with
      | error e => rw [h2] at h; simp at h
      | ok u =>
        rw [h2] at h
        simp only at h
        cases h3 : M.A u with
        | error e => rw [h3] at h; simp at h
        | ok tmp =>
          rw [h3] at h
          simp only at h
          cases h4 : M.optG (y.old.v, tmp + y.old.u - M.b) with
          | error e => rw [h4] at h; simp at h
          | ok v =>
            rw [h4] at h
            simp only at h
            cases h5 : M.B v with
            | error e => rw [h5] at h; simp at h
            | ok bv' =>
              rw [h5] at h
              simp only [Prod.mk.injEq, and_true] at h
              rw [← h]
              exact ⟨rfl, rfl⟩
  obtain ⟨g1, g2⟩ := hs y _ h
  simp only [admmFinal, g1, g2]

/-! ## The hypotheses are met -/

example : ∃ o : Obj (FB.St Unit ℝ) ℝ (Val ℝ ℝ Unit),
    construct (1 / 10) (some [("m", demoSpec)]) ⟨4, 4, none, none, 1 / 2, 1, ()⟩ none = .ok o :=
  (C105_construction _ _ _ _).1.mpr (by simp [demoSpec])

/-- The demonstration object with a cost object and the flag of its metric up. -/
example : (iterate demoAlg 7 { demoObj with cost := some (CostObj.init 0 0 none 4)
                                            observers := demoObj.observers.map fun b =>
                                              { b with hist := { b.hist with flag := true } } }).started = [0] := by
  refine (C16_object_flag_stops demoAlg (by simp [demoAlg, fbAlg]) _ 7 5 (by norm_num) rfl (by norm_num) ?_ rfl rfl
    (by simp) _ (List.mem_map_of_mem (List.mem_singleton.mpr rfl)) rfl).2.1
  refine ⟨fun _ _ => rfl, ?_, fun _ _ _ => ⟨1, rfl⟩, ?_⟩
  · intro c h; cases h; simp [CostObj.init]
  · intro b hb i x
    obtain ⟨b0, h0, rfl⟩ := List.mem_map.mp hb
    obtain ⟨v, hv⟩ := demo_reliable.metrics b0 h0 i x
    exact ⟨v, hv⟩

end Verif
