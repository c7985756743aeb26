import Verif.Props.Session
import Verif.Lemmas.Resume
import Verif.Model.SessionAlgs
import Mathlib.Data.Complex.Basic

/-!
# C105, C107, C109 for the five algorithm families
-/

set_option linter.unusedSectionVars false

namespace Verif
open Session Observable FB Crash

/-! ## C105: what the metrics of each class see -/

/-- A metric with the single mapped attribute `attr`. -/
theorem sees_single {X K V : Type} {A : Alg X K V} {x : X} {kw : List (String × V)} {i : ℕ} {b : Obs K V}
    {attr n : String} {w : V} (hk : A.kwargs x = .ok kw) (hb : b.mapping = [(attr, some n)])
    (hw : signalAttr A kw i attr = some w) (v : K) :
    Sees A b x i v ↔ b.metric (toDict ([(n, w)] ++ b.cst)) = .ok v := by
  have hm : metricKwargs (signalAttr A kw i) b.mapping = .ok [(n, w)] := by
    rw [hb]; simp only [metricKwargs, hw, bind, Except.bind, pure, Except.pure]
  constructor
  · rintro ⟨kw', args, h1, h2, h3⟩
    rw [hk] at h1; cases h1
    rw [hm] at h2; cases h2
    exact h3
  · exact fun h => ⟨kw, _, hk, hm, h⟩

section
variable {P E S : Type} [NormedAddCommGroup E] [InnerProductSpace ℝ E]

theorem tryFB_ok {grad : E → Py E} {prox : E × ℝ → Py E} {R : Rules S E} {s t : FB.St S E}
    (h : tryFB grad prox R s = (t, none)) : t.xNew = some t.xOld ∧ t.zNew = some t.zOld := by
  unfold tryFB at h
  cases hg : grad s.zOld with
  | error e => rw [hg] at h; simp at h
  | ok g =>
    rw [hg] at h
    simp only at h
    cases hp : prox (s.zOld - s.beta • g, s.beta) with
    | error e => rw [hp] at h; simp at h
    | ok x => rw [hp] at h; simp only [Prod.mk.injEq] at h; rw [← h.1]; exact ⟨rfl, rfl⟩

/-- C105 for `ForwardBackward`: after an update, a metric mapped on `x_new` gets the adjoint linear operator
applied to the new coefficients, one mapped on `z_new` gets the coefficients `z` themselves. -/
theorem C105_forward_backward_sees (grad : E → Py E) (prox : E × ℝ → Py E) (R : Rules S E) (adj : E → Py P)
    (cost : E → Py ℝ) (period : Option ℕ) (clock : ℕ → ℝ) (s t : FB.St S E) (i : ℕ)
    (h : tryFB grad prox R s = (t, none)) (a : P) (ha : adj t.xOld = .ok a) (b : Obs ℝ (Val P E Unit))
    (n : String) (v : ℝ) :
    (b.mapping = [("x_new", some n)] → (Sees (fbAlg grad prox R adj cost period clock) b t i v ↔
      b.metric (toDict ([(n, .primal a)] ++ b.cst)) = .ok v)) ∧
    (b.mapping = [("z_new", some n)] → (Sees (fbAlg grad prox R adj cost period clock) b t i v ↔
      b.metric (toDict ([(n, .coef t.zOld)] ++ b.cst)) = .ok v)) := by
  obtain ⟨hx, hz⟩ := tryFB_ok h
  have hk : (fbAlg grad prox R adj cost period clock).kwargs t =
      .ok [("x_new", .primal a), ("z_new", .coef t.zOld)] := by
    simp only [fbAlg, hx, hz, bind, Except.bind, pure, Except.pure, ha]
  exact ⟨fun hb => sees_single hk hb (by simp [signalAttr, toDict]) v,
    fun hb => sees_single hk hb (by simp [signalAttr, toDict]) v⟩

/-- C105 for `GenForwardBackward`: `x_new` is the adjoint operator applied to the new iterate. -/
theorem C105_gen_forward_backward_sees (grad : E → Py E) (prox : List (E × ℝ → Py E)) (w : List ℝ)
    (gu lu : Option (S → ℝ → ℝ × S)) (adj : E → Py P) (cost : E → Py ℝ) (period : Option ℕ) (clock : ℕ → ℝ)
    (s t : GenSt S E × Option E) (i : ℕ)
    (h : (genAlg grad prox w gu lu adj cost period clock).update i s = (t, none)) (a : P)
    (ha : adj t.1.xOld = .ok a) (b : Obs ℝ (Val P E Unit)) (n : String) (v : ℝ)
    (hb : b.mapping = [("x_new", some n)]) :
    Sees (genAlg grad prox w gu lu adj cost period clock) b t i v ↔
      b.metric (toDict ([(n, .primal a)] ++ b.cst)) = .ok v := by
  have h2 : t.2 = some t.1.xOld := by
    simp only [genAlg] at h
    cases hg : tryGen grad prox w gu lu s.1 with
    | mk u e =>
      rw [hg] at h
      cases e with
      | some e => simp at h
      | none => simp only [Prod.mk.injEq] at h; rw [← h.1]
  have hk : (genAlg grad prox w gu lu adj cost period clock).kwargs t =
      .ok [("x_new", .primal a), ("z_new", .coefs t.1.z)] := by
    simp only [genAlg, h2, bind, Except.bind, pure, Except.pure, ha]
  exact sees_single hk hb (by simp [signalAttr, toDict]) v

/-- C105 for `POGM`: `x_new` is the adjoint operator applied to the new iterate. -/
theorem C105_pogm_sees (grad : E → Py E) (prox : E × ℝ → Py E) (beta sigmaBar : ℝ) (adj : E → Py P)
    (cost : E → Py ℝ) (period : Option ℕ) (clock : ℕ → ℝ) (s t : Pogm E × Bool) (i : ℕ)
    (h : (pogmAlg grad prox beta sigmaBar adj cost period clock).update i s = (t, none)) (a : P)
    (ha : adj t.1.xOld = .ok a) (b : Obs ℝ (Val P E Unit)) (n : String) (v : ℝ)
    (hb : b.mapping = [("x_new", some n)]) :
    Sees (pogmAlg grad prox beta sigmaBar adj cost period clock) b t i v ↔
      b.metric (toDict ([(n, .primal a)] ++ b.cst)) = .ok v := by
  have h2 : t.2 = true := by
    simp only [pogmAlg] at h
    cases hg : tryPogm grad prox beta sigmaBar s.1 with
    | mk u e =>
      rw [hg] at h
      cases e with
      | some e => simp at h
      | none => simp only [Prod.mk.injEq] at h; rw [← h.1]
  have hk : (pogmAlg grad prox beta sigmaBar adj cost period clock).kwargs t =
      .ok [("u_new", .coef t.1.uOld), ("x_new", .primal a), ("y_new", .coef t.1.yOld), ("z_new", .coef t.1.z),
        ("xi", .num t.1.xi), ("sigma", .num t.1.sigma), ("t", .num t.1.t)] := by
    simp only [pogmAlg, h2, if_true, bind, Except.bind, pure, Except.pure, ha]
  exact sees_single hk hb (by simp [signalAttr, toDict]) v

end

/-- C105 for `Condat`: `x_new` and `y_new` are the new primal and dual iterates, with no operator applied. -/
theorem C105_condat_sees {E H : Type} [NormedAddCommGroup E] [InnerProductSpace ℝ E] [NormedAddCommGroup H]
    [InnerProductSpace ℝ H] (O : CondatOps E H) (U : Condat.Upd) (cost : E → H → Py ℝ) (period : Option ℕ)
    (clock : ℕ → ℝ) (s t : Condat.St E H × Bool) (i : ℕ)
    (h : (condatAlg O U cost period clock).update i s = (t, none)) (b : Obs ℝ (Val E H Unit)) (n : String) (v : ℝ) :
    (b.mapping = [("x_new", some n)] → (Sees (condatAlg O U cost period clock) b t i v ↔
      b.metric (toDict ([(n, .primal t.1.x)] ++ b.cst)) = .ok v)) ∧
    (b.mapping = [("y_new", some n)] → (Sees (condatAlg O U cost period clock) b t i v ↔
      b.metric (toDict ([(n, .coef t.1.y)] ++ b.cst)) = .ok v)) := by
  have h2 : t.2 = true := by
    simp only [condatAlg] at h
    cases hg : tryCondat O U s.1 with
    | mk u e =>
      rw [hg] at h
      cases e with
      | some e => simp at h
      | none => simp only [Prod.mk.injEq] at h; rw [← h.1]
  have hk : (condatAlg O U cost period clock).kwargs t = .ok [("x_new", .primal t.1.x), ("y_new", .coef t.1.y)] := by
    simp only [condatAlg, h2, if_true]
  exact ⟨fun hb => sees_single hk hb (by simp [signalAttr, toDict]) v,
    fun hb => sees_single hk hb (by simp [signalAttr, toDict]) v⟩

/-- C105 for `ADMM`: `x_new` is the new `u`, `v_new` the new `v`; `u_new` is not available. -/
theorem C105_admm_sees {H W : Type} [NormedAddCommGroup H] [InnerProductSpace ℝ H] (O : AdmmOps H W)
    (cost : H → W → Py ℝ) (period : Option ℕ) (clock : ℕ → ℝ) (t : AdmmSt H W) (i : ℕ)
    (b : Obs ℝ (Val H W Unit)) (n : String) (v : ℝ) :
    (b.mapping = [("x_new", some n)] → (Sees (admmAlg O cost period clock) b t i v ↔
      b.metric (toDict ([(n, .primal t.uNew)] ++ b.cst)) = .ok v)) ∧
    (b.mapping = [("v_new", some n)] → (Sees (admmAlg O cost period clock) b t i v ↔
      b.metric (toDict ([(n, .coef t.vNew)] ++ b.cst)) = .ok v)) ∧
    (b.mapping = [("u_new", some n)] → ¬ Sees (admmAlg O cost period clock) b t i v) := by
  have hk : (admmAlg O cost period clock).kwargs t = .ok [("x_new", .primal t.uNew), ("v_new", .coef t.vNew)] := rfl
  refine ⟨fun hb => sees_single hk hb (by simp [signalAttr, toDict]) v,
    fun hb => sees_single hk hb (by simp [signalAttr, toDict]) v, ?_⟩
  rintro hb ⟨kw, args, h1, h2, h3⟩
  rw [hk] at h1; cases h1
  rw [hb] at h2
  simp [metricKwargs, signalAttr, toDict] at h2

/-- C105 for the gradient-descent classes: `x_new` is the new iterate. -/
theorem C105_gradient_descent_sees {ι 𝕜 : Type} [RCLike 𝕜] (c : GD.Conf ι 𝕜) (grad : (ι → 𝕜) → Py (ι → 𝕜))
    (prox : (ι → 𝕜) × (ι → ℝ) → Py (ι → 𝕜)) (cost : (ι → 𝕜) → Py ℝ) (period : Option ℕ) (clock : ℕ → ℝ)
    (t : GD.St ι 𝕜) (i : ℕ) (b : Obs ℝ (Val (ι → 𝕜) (ι → 𝕜) (ι → ℝ))) (n : String) (v : ℝ)
    (hb : b.mapping = [("x_new", some n)]) :
    Sees (gdAlg c grad prox cost period clock) b t i v ↔
      b.metric (toDict ([(n, .primal t.xNew)] ++ b.cst)) = .ok v :=
  sees_single (kw := [("x_new", .primal t.xNew), ("dir_grad", .coef t.dir), ("speed_grad", .reals t.speed)])
    rfl hb (by simp [signalAttr, toDict]) v

/-- The metric functions of the examples: `metric(test)` returns a fixed function of the argument `test`. -/
example : ∃ b : Obs ℝ (Val ℝ ℝ Unit), b.mapping = [("x_new", some "test")] ∧
    b.metric (toDict ([("test", .primal 3)] ++ b.cst)) = .ok 4 :=
  ⟨⟨"m", fun d => match d "test" with
      | some (.primal x) => .ok (x + 1)
      | _ => .error .typeError, [("x_new", some "test")], [("ref", .primal 0)], Metric.init 6 1 false⟩, rfl, by
    simp [toDict]; norm_num⟩

/-! ## C107 -/

section
variable {X K V : Type} [Field K] [LinearOrder K] [IsStrictOrderedRing K] [FloorRing K]

/-- C107: when neither the updates nor the metrics use the iteration index, `iterate(m)` that neither raises nor
converges, followed by `iterate(n)`, has the same effect as `iterate(m + n)`: same outcome, same number of
updates, same iterate, same convergence flag, same cost object, and every metric has recorded the same values
and dates and has the same early-stopping flag. -/
theorem C107_resume (A : Alg X K V) (hA : ∀ i j x, A.update i x = A.update j x) (o : Obj X K V)
    (hm : o.metrics.truthy = !o.observers.isEmpty) (hi : ∀ b ∈ o.observers, ∀ p ∈ b.mapping, p.1 ≠ "idx") (m n : ℕ)
    (he : (iterate A m o).exc = none) (hc : (iterate A m o).obj.converge = false) :
    let once := iterate A (m + n) o
    let twice := iterate A n (iterate A m o).obj
    twice.exc = once.exc ∧ m + twice.started.length = once.started.length ∧ twice.obj.x = once.obj.x ∧
    twice.obj.converge = once.obj.converge ∧ twice.obj.cost = once.obj.cost ∧
    twice.obj.locked = once.obj.locked ∧
    List.Forall₂ (fun b b' => SameMetric b b' ∧ b'.hist.vals = b.hist.vals ∧ b'.hist.dates = b.hist.dates ∧
      b'.hist.flag = b.hist.flag) once.obj.observers twice.obj.observers := by
  intro once twice
  have hex : (loop A m (List.range m) o).exc = none := by
    by_contra hcon
    obtain ⟨e, he'⟩ := Option.ne_none_iff_exists'.mp hcon
    have : (iterate A m o).exc = some e := by unfold iterate; simp only [he']
    rw [he] at this; cases this
  have hq := iterate_of_no_exc hex
  have hc' : (loop A m (List.range m) o).obj.converge = false := by rw [hq] at hc; exact hc
  set o1 := (loop A m (List.range m) o).obj with ho1
  obtain ⟨g1, g2⟩ := loop_metrics A m (List.range m) o
  have hsame : Sim o1 (iterate A m o).obj := by
    rw [hq]
    refine ⟨rfl, rfl, rfl, ?_, rfl, rfl, ?_⟩
    · change (!(List.mapIdx entryOf o1.observers).isEmpty) = o1.metrics.truthy
      rw [g1, hm]
      congr 1
      have hl : o1.observers.length = o.observers.length := by simpa using congrArg List.length g2
      rw [Bool.eq_iff_iff, List.isEmpty_iff_length_eq_zero, List.isEmpty_iff_length_eq_zero, List.length_mapIdx, hl]
    · exact List.forall₂_same.mpr fun b _ => SameRecord.refl b
  -- the loop bound does not matter
  have hbound := loop_sim hA m (m + n) (List.range m) (List.range m) o o rfl
    ⟨rfl, rfl, rfl, rfl, rfl, rfl, List.forall₂_same.mpr fun b _ => SameRecord.refl b⟩ hi
  obtain ⟨b1, b2, b3⟩ := hbound
  obtain ⟨a1, a2, a3, a4⟩ := loop_append (A := A) (m + n) (List.range' m n) (List.range m) o (b1.trans hex)
    (b3.converge.trans hc')
  have hr : List.range m ++ List.range' m n = List.range (m + n) := by
    rw [List.range_eq_range', List.range_eq_range']
    have := List.range'_append (s := 0) (m := m) (n := n) (step := 1)
    simpa using this
  rw [hr] at a1 a2 a3
  -- the second part, started from the two objects
  have hs : Sim (loop A (m + n) (List.range m) o).obj (iterate A m o).obj := by
    refine ⟨hsame.x.trans b3.x.symm, hsame.converge.trans b3.converge.symm, hsame.locked.trans b3.locked.symm,
      hsame.truthy.trans b3.truthy.symm, hsame.cost.trans b3.cost.symm, hsame.ticks.trans b3.ticks.symm, ?_⟩
    rw [hq]
    exact b3.observers.flip.imp fun a b h => by
      obtain ⟨⟨e1, e2, e3, e4, e5, e6, e7⟩, f1, f2, f3⟩ := h
      exact ⟨⟨e1.symm, e2.symm, e3.symm, e4.symm, e5.symm, e6.symm, e7.symm⟩, f1.symm, f2.symm, f3.symm⟩
  obtain ⟨c1, c2, c3⟩ := loop_sim hA (m + n) n (List.range' m n) (List.range n)
    (loop A (m + n) (List.range m) o).obj (iterate A m o).obj (by simp) hs
    (IgnoresIdx.of_mapping hi (loop_metrics A (m + n) (List.range m) o).2)
  rw [← a1] at c3
  rw [← a2] at c1
  have hfin : ∀ k (p : Obj X K V), (iterate A k p).exc = (loop A k (List.range k) p).exc ∧
      (iterate A k p).started = (loop A k (List.range k) p).started ∧
      (iterate A k p).obj.x = (loop A k (List.range k) p).obj.x ∧
      (iterate A k p).obj.converge = (loop A k (List.range k) p).obj.converge ∧
      (iterate A k p).obj.cost = (loop A k (List.range k) p).obj.cost ∧
      (iterate A k p).obj.locked = (loop A k (List.range k) p).obj.locked ∧
      (iterate A k p).obj.observers = (loop A k (List.range k) p).obj.observers := by
    intro k p
    unfold iterate
    cases hx : (loop A k (List.range k) p).exc with
    | none => simp only [hx]; refine ⟨trivial, ?_, ?_, ?_, ?_, ?_, ?_⟩ <;> first | rfl | trivial
    | some e => simp only [hx]; exact ⟨trivial, trivial, trivial, trivial, trivial, trivial, trivial⟩
  obtain ⟨p1, p2, p3, p4, p5, p6, p7⟩ := hfin (m + n) o
  obtain ⟨r1, r2, r3, r4, r5, r6, r7⟩ := hfin n (iterate A m o).obj
  refine ⟨?_, ?_, ?_, ?_, ?_, ?_, ?_⟩
  · exact r1.trans (c1.trans p1.symm)
  · change m + (iterate A n _).started.length = (iterate A _ _).started.length
    rw [r2, p2, a3, List.length_append, List.length_range, c2]
  · exact r3.trans (c3.x.trans p3.symm)
  · exact r4.trans (c3.converge.trans p4.symm)
  · exact r5.trans (c3.cost.trans p5.symm)
  · exact r6.trans (c3.locked.trans p6.symm)
  · change List.Forall₂ _ (iterate A _ _).obj.observers (iterate A n _).obj.observers
    rw [p7, r7]
    exact c3.observers

/-- C107, what does differ: the iterations recorded by a metric restart at zero with every call, so after
`iterate(m)` (not converged) and `iterate(n)` they read `0, …, m-1, 0, …` instead of `0, …, m+n-1`. -/
theorem C107_indices_restart (A : Alg X K V) (o : Obj X K V) (m n p : ℕ) (hp : A.period = some p) (hp0 : p ≠ 0)
    (hr : Reliable A o) (hne : o.observers ≠ []) (ht : o.metrics.truthy = true) (hl : o.locked = false)
    (hc : (iterate A m o).obj.converge = false) (hn : 0 < n) :
    ∃ N ≤ n, 0 < N ∧ ∀ (j : ℕ) (b b' : Obs K V), o.observers[j]? = some b →
      (iterate A n (iterate A m o).obj).obj.observers[j]? = some b' →
      b'.hist.iters = b.hist.iters ++ (List.range m ++ List.range N) := by
  obtain ⟨M, h1, h2, h3, h4, h5, h6, h7, h8, h9⟩ := C105_metrics_record_every_update A o m p hp hp0 hr hne ht hl
  have hM : M = m := by
    by_contra hcon
    have := h3 (by omega)
    rw [hc] at this; cases this
  subst hM
  obtain ⟨_, k1, k2, k3, k4, k5, k6, k7, k8⟩ := loop_ok hp hp0 M (List.range M) o hr hne ht hl
  have hq := iterate_of_no_exc (A := A) (m := M) (o := o) k2
  have hobs : (iterate A M o).obj.observers = (loop A M (List.range M) o).obj.observers := by rw [hq]; rfl
  have hne' : (iterate A M o).obj.observers ≠ [] := by
    intro h0
    have := congrArg List.length h0
    rw [h8] at this
    exact hne (List.length_eq_zero_iff.mp this)
  have hrel : Reliable A (iterate A M o).obj := by
    have := hr.of_quiet k5 k8
    exact ⟨this.update, by rw [hq]; exact this.cost, by rw [hq]; exact this.costFun,
      by rw [hq]; exact this.metrics⟩
  have htr : (iterate A M o).obj.metrics.truthy = true := by
    have h0 := hne'
    rw [hobs] at h0
    rw [hq]
    simp only [retrieveOutputs, MetricsAttr.truthy, Bool.not_eq_true']
    simpa using h0
  obtain ⟨N, q1, q2, q3, q4, q5, q6, q7, q8, q9⟩ :=
    C105_metrics_record_every_update A (iterate A M o).obj n p hp hp0 hrel hne' htr h7
  refine ⟨N, q1, q2 hn, fun j b b' hb hb' => ?_⟩
  have hj := (List.getElem?_eq_some_iff.mp hb).1
  have hm : (iterate A M o).obj.observers[j]? = some ((iterate A M o).obj.observers[j]'(by omega)) :=
    List.getElem?_eq_getElem _
  rw [(q9 j _ b' hm hb').2.1, (h9 j b _ hb hm).2.1, List.append_assoc]

end

/-- C107: the updates of `ForwardBackward`, `GenForwardBackward`, `POGM`, `Condat` and `ADMM` never use the
iteration index, so `C107_resume` applies to them. -/
theorem C107_classes_ignore_index {P E H S W : Type} [NormedAddCommGroup E] [InnerProductSpace ℝ E]
    [NormedAddCommGroup H] [InnerProductSpace ℝ H] (grad : E → Py E) (prox : E × ℝ → Py E) (R : Rules S E)
    (proxs : List (E × ℝ → Py E)) (w : List ℝ) (gu lu : Option (S → ℝ → ℝ × S)) (beta sigmaBar : ℝ)
    (adj : E → Py P) (cost : E → Py ℝ) (O : CondatOps E H) (U : Condat.Upd) (cost2 : E → H → Py ℝ)
    (M : AdmmOps H W) (cost3 : H → W → Py ℝ) (period : Option ℕ) (clock : ℕ → ℝ) (i j : ℕ) :
    (∀ x, (fbAlg grad prox R adj cost period clock).update i x =
      (fbAlg grad prox R adj cost period clock).update j x) ∧
    (∀ x, (genAlg grad proxs w gu lu adj cost period clock).update i x =
      (genAlg grad proxs w gu lu adj cost period clock).update j x) ∧
    (∀ x, (pogmAlg grad prox beta sigmaBar adj cost period clock).update i x =
      (pogmAlg grad prox beta sigmaBar adj cost period clock).update j x) ∧
    (∀ x, (condatAlg O U cost2 period clock).update i x = (condatAlg O U cost2 period clock).update j x) ∧
    (∀ x, (admmAlg M cost3 period clock).update i x = (admmAlg M cost3 period clock).update j x) :=
  ⟨fun _ => rfl, fun _ => rfl, fun _ => rfl, fun _ => rfl, fun _ => rfl⟩

section
variable {ι 𝕜 : Type} [RCLike 𝕜]

/-- C107 for gradient descent with the default `epoch_size = 1` and a step-size rule that does not use the
index: the updates do not depend on the index (missing: other epoch sizes, for which it is false). -/
theorem C107_gradient_descent_epoch_one_partial (c : GD.Conf ι 𝕜) (grad : (ι → 𝕜) → Py (ι → 𝕜))
    (prox : (ι → 𝕜) × (ι → ℝ) → Py (ι → 𝕜)) (cost : (ι → 𝕜) → Py ℝ) (period : Option ℕ) (clock : ℕ → ℝ)
    (hc : c.epochSize = 1) (hu : ∀ f, c.etaUpdate = some f → ∀ e a b, f e a = f e b) (i j : ℕ) (x : GD.St ι 𝕜) :
    (gdAlg c grad prox cost period clock).update i x = (gdAlg c grad prox cost period clock).update j x := by
  have hd : ∀ g s, GD.updateDir c i g s = GD.updateDir c j g s := by
    intro g s
    unfold GD.updateDir
    cases c.kind <;> simp [hc, Nat.mod_one]
  cases h : c.etaUpdate with
  | none => simp only [gdAlg, tryGD, hd, hc, Nat.mod_one, h]
  | some f =>
    have he := fun e => hu f h e i j
    simp only [gdAlg, tryGD, hd, hc, Nat.mod_one, h, he]

end

/-- The gradient descent of the refutation: one variable, gradient 1, positivity constraint applied every second
iteration. -/
noncomputable def epochTwo : Alg (GD.St Unit ℝ) ℝ (Val (Unit → ℝ) (Unit → ℝ) (Unit → ℝ)) :=
  gdAlg ⟨.vanilla, 2, 0, none, fun x _ i => max (x i) 0⟩ (fun _ => .ok fun _ => 1)
    (fun p => .ok fun i => max (p.1 i) 0) (fun _ => .ok 0) (some 1) (fun _ => 0)

/-- C107, refutation: for gradient descent with `epoch_size = 2` two calls of `iterate(1)` end at a different
point than `iterate(2)`: the first applies the proximity operator at both updates. -/
theorem C107_gradient_descent_differs :
    ∃ o : Obj (GD.St Unit ℝ) ℝ (Val (Unit → ℝ) (Unit → ℝ) (Unit → ℝ)),
      construct 0 none ⟨fun _ => 0, fun _ => 0, fun _ => 0, fun _ => 1, 1, 1, 1, fun _ _ => 0⟩ none = .ok o ∧
      (iterate epochTwo 1 o).exc = none ∧ (iterate epochTwo 1 o).obj.converge = false ∧
      (iterateFinal epochTwo gdFinal 2 o).2 = .ok (fun _ => -1) ∧
      (iterateFinal epochTwo gdFinal 1 (iterateFinal epochTwo gdFinal 1 o).1).2 = .ok (fun _ => 0) := by
  refine ⟨_, rfl, ?_, ?_, ?_, ?_⟩ <;>
    simp [iterateFinal, iterate, loop, update1, metricsStep, testConvergence, epochTwo, gdAlg, tryGD, GD.updateDir,
      GD.updateSpeed, GD.stepOf, GD.reset, retrieveOutputs, MetricsAttr.truthy, gdFinal, List.range_succ]

/-! ## C109 -/

section
variable {X K V : Type} [Field K] [LinearOrder K] [IsStrictOrderedRing K] [FloorRing K]

/-- After a loop over at least one index that did not raise, the state is the result of a successful update. -/
theorem loop_last (A : Alg X K V) (m : ℕ) : ∀ (l : List ℕ) (o : Obj X K V), l ≠ [] →
    (loop A m l o).exc = none → ∃ i y, A.update i y = ((loop A m l o).obj.x, none) := by
  have hstep : ∀ o : Obj X K V, (metricsStep A m o).1.x = o.x := by
    intro o
    unfold metricsStep
    split
    · split
      · rfl
      · split
        · rfl
        · split
          · unfold computeMetrics
            split
            · rfl
            · split
              · rfl
              · simp only
                split <;> rfl
          · rfl
    · rfl
  intro l
  induction l with
  | nil => intro o h _; exact absurd rfl h
  | cons i r ih =>
    intro o _ he
    have hup : (update1 A i o).2 = none → A.update i o.x = ((update1 A i o).1.x, none) := by
      unfold update1
      cases hu : A.update i o.x with
      | mk x e =>
        cases e with
        | some e => intro h; simp at h
        | none =>
          intro _
          simp only
          rw [(testConvergence_spec A { o with idx := i, x := x }).1]
    simp only [loop] at he ⊢
    cases e1 : update1 A i o with
    | mk o1 x1 =>
      rw [e1] at he hup
      cases x1 with
      | some e => simp at he
      | none =>
        simp only at he hup ⊢
        have h3 := hstep o1
        cases f1 : metricsStep A m o1 with
        | mk o2 y =>
          rw [f1] at he h3
          cases y with
          | some e => simp at he
          | none =>
            simp only at he h3 ⊢
            by_cases h2 : o2.converge = true
            · rw [if_pos h2]
              exact ⟨i, o.x, by rw [hup trivial, h3]⟩
            · rw [if_neg h2] at he ⊢
              by_cases hr : r = []
              · subst hr
                exact ⟨i, o.x, by rw [hup trivial]; simp only [loop, h3]⟩
              · exact ih o2 hr he

theorem iterateFinal_ok {F : Type} {A : Alg X K V} {fin : X → Py F} {m : ℕ} {o : Obj X K V}
    (he : (iterate A m o).exc = none) : (iterateFinal A fin m o).2 = fin (iterate A m o).obj.x := by
  simp only [iterateFinal, he]

theorem iterate_last (A : Alg X K V) (m : ℕ) (hm : 0 < m) (o : Obj X K V) (he : (iterate A m o).exc = none) :
    ∃ i y, A.update i y = ((iterate A m o).obj.x, none) := by
  have hex : (loop A m (List.range m) o).exc = none := by
    by_contra hcon
    obtain ⟨e, he'⟩ := Option.ne_none_iff_exists'.mp hcon
    have : (iterate A m o).exc = some e := by unfold iterate; simp only [he']
    rw [he] at this; cases this
  have hr : List.range m ≠ [] := by simp; omega
  obtain ⟨i, y, h⟩ := loop_last A m (List.range m) o hr hex
  exact ⟨i, y, by rw [iterate_of_no_exc hex]; exact h⟩

end

section
variable {P E H S W : Type} [NormedAddCommGroup E] [InnerProductSpace ℝ E] [NormedAddCommGroup H]
  [InnerProductSpace ℝ H]

/-- C109, refutation: on a new `ForwardBackward`, `GenForwardBackward`, `POGM` or `Condat` object, `iterate(0)`
raises `AttributeError` instead of returning the starting point, whatever the operators and metrics. -/
theorem C109_zero_iterations_raise (grad : E → Py E) (prox : E × ℝ → Py E) (R : Rules S E)
    (proxs : List (E × ℝ → Py E)) (w : List ℝ) (gu lu : Option (S → ℝ → ℝ × S)) (beta sigmaBar : ℝ)
    (adj : E → Py P) (cost : E → Py ℝ) (O : CondatOps E H) (U : Condat.Upd) (cost2 : E → H → Py ℝ)
    (period : Option ℕ) (clock : ℕ → ℝ) :
    (∀ o : Obj (FB.St S E) ℝ (Val P E Unit), o.x.zNew = none →
      (iterateFinal (fbAlg grad prox R adj cost period clock) FB.xFinal 0 o).2 = .error .attributeError) ∧
    (∀ o : Obj (GenSt S E × Option E) ℝ (Val P E Unit), o.x.2 = none →
      (iterateFinal (genAlg grad proxs w gu lu adj cost period clock) genFinal 0 o).2 = .error .attributeError) ∧
    (∀ o : Obj (Pogm E × Bool) ℝ (Val P E Unit), o.x.2 = false →
      (iterateFinal (pogmAlg grad prox beta sigmaBar adj cost period clock) pogmFinal 0 o).2 =
        .error .attributeError) ∧
    (∀ o : Obj (Condat.St E H × Bool) ℝ (Val E H Unit), o.x.2 = false →
      (iterateFinal (condatAlg O U cost2 period clock) condatFinal 0 o).2 = .error .attributeError) := by
  refine ⟨fun o h => ?_, fun o h => ?_, fun o h => ?_, fun o h => ?_⟩
  · simp [iterateFinal, iterate, loop, retrieveOutputs, FB.xFinal, h]
  · simp [iterateFinal, iterate, loop, retrieveOutputs, genFinal, h]
  · simp [iterateFinal, iterate, loop, retrieveOutputs, pogmFinal, h]
  · simp [iterateFinal, iterate, loop, retrieveOutputs, condatFinal, h]

/-- C109: `ADMM` and the gradient-descent classes return the starting point for `max_iter = 0`. -/
theorem C109_zero_iterations_admm_gd (M : AdmmOps H W) (cost3 : H → W → Py ℝ) (period : Option ℕ) (clock : ℕ → ℝ)
    (u mu : H) (v : W) {ι 𝕜 : Type} [RCLike 𝕜] (c : GD.Conf ι 𝕜) (grad : (ι → 𝕜) → Py (ι → 𝕜))
    (prox : (ι → 𝕜) × (ι → ℝ) → Py (ι → 𝕜)) (cost : (ι → 𝕜) → Py ℝ) (s : GD.St ι 𝕜) :
    (∀ o : Obj (AdmmSt H W) ℝ (Val H W Unit), o.x = admmInit u v mu →
      (iterateFinal (admmAlg M cost3 period clock) admmFinal 0 o).2 = .ok (u, v)) ∧
    (∀ o : Obj (GD.St ι 𝕜) ℝ (Val (ι → 𝕜) (ι → 𝕜) (ι → ℝ)), o.x = s →
      (iterateFinal (gdAlg c grad prox cost period clock) gdFinal 0 o).2 = .ok s.xNew) := by
  refine ⟨fun o h => ?_, fun o h => ?_⟩
  · simp [iterateFinal, iterate, loop, retrieveOutputs, admmFinal, h, admmInit]
  · simp [iterateFinal, iterate, loop, retrieveOutputs, gdFinal, h]

/-- C109, the part that holds: for `max_iter > 0`, whenever the iterations end without an exception the final
attribute is set, to the result of the last update (missing: `max_iter = 0`). -/
theorem C109_final_is_set_partial (grad : E → Py E) (prox : E × ℝ → Py E) (R : Rules S E)
    (proxs : List (E × ℝ → Py E)) (w : List ℝ) (gu lu : Option (S → ℝ → ℝ × S)) (beta sigmaBar : ℝ)
    (adj : E → Py P) (cost : E → Py ℝ) (O : CondatOps E H) (U : Condat.Upd) (cost2 : E → H → Py ℝ)
    (period : Option ℕ) (clock : ℕ → ℝ) (m : ℕ) (hm : 0 < m) :
    (∀ o : Obj (FB.St S E) ℝ (Val P E Unit),
      let q := iterate (fbAlg grad prox R adj cost period clock) m o
      q.exc = none → (iterateFinal (fbAlg grad prox R adj cost period clock) FB.xFinal m o).2 = .ok q.obj.x.zOld) ∧
    (∀ o : Obj (GenSt S E × Option E) ℝ (Val P E Unit),
      let q := iterate (genAlg grad proxs w gu lu adj cost period clock) m o
      q.exc = none → (iterateFinal (genAlg grad proxs w gu lu adj cost period clock) genFinal m o).2 =
        .ok q.obj.x.1.xOld) ∧
    (∀ o : Obj (Pogm E × Bool) ℝ (Val P E Unit),
      let q := iterate (pogmAlg grad prox beta sigmaBar adj cost period clock) m o
      q.exc = none → (iterateFinal (pogmAlg grad prox beta sigmaBar adj cost period clock) pogmFinal m o).2 =
        .ok q.obj.x.1.xOld) ∧
    (∀ o : Obj (Condat.St E H × Bool) ℝ (Val E H Unit),
      let q := iterate (condatAlg O U cost2 period clock) m o
      q.exc = none → (iterateFinal (condatAlg O U cost2 period clock) condatFinal m o).2 =
        .ok (q.obj.x.1.x, q.obj.x.1.y)) := by
  refine ⟨fun o => ?_, fun o => ?_, fun o => ?_, fun o => ?_⟩
  · intro q he
    obtain ⟨i, y, h⟩ := iterate_last _ m hm o he
    have := (tryFB_ok (show tryFB grad prox R y = _ from h)).2
    have hf : (iterateFinal _ FB.xFinal m o).2 = FB.xFinal q.obj.x := iterateFinal_ok he
    rw [hf]
    unfold FB.xFinal
    rw [this]
  · intro q he
    obtain ⟨i, y, h⟩ := iterate_last _ m hm o he
    have h2 : q.obj.x.2 = some q.obj.x.1.xOld := by
      simp only [genAlg] at h
      cases hg : tryGen grad proxs w gu lu y.1 with
      | mk u e =>
        rw [hg] at h
        cases e with
        | some e => simp at h
        | none =>
          simp only [Prod.mk.injEq] at h
          change (_, _) = q.obj.x ∧ _ at h
          rw [← h.1]
    have hf : (iterateFinal _ genFinal m o).2 = genFinal q.obj.x := iterateFinal_ok he
    rw [hf]
    unfold genFinal
    rw [h2]
  · intro q he
    obtain ⟨i, y, h⟩ := iterate_last _ m hm o he
    have h2 : q.obj.x.2 = true := by
      simp only [pogmAlg] at h
      cases hg : tryPogm grad prox beta sigmaBar y.1 with
      | mk u e =>
        rw [hg] at h
        cases e with
        | some e => simp at h
        | none =>
          simp only [Prod.mk.injEq] at h
          change (_, _) = q.obj.x ∧ _ at h
          rw [← h.1]
    have hf : (iterateFinal _ pogmFinal m o).2 = pogmFinal q.obj.x := iterateFinal_ok he
    rw [hf]
    unfold pogmFinal
    rw [h2]; rfl
  · intro q he
    obtain ⟨i, y, h⟩ := iterate_last _ m hm o he
    have h2 : q.obj.x.2 = true := by
      simp only [condatAlg] at h
      cases hg : tryCondat O U y.1 with
      | mk u e =>
        rw [hg] at h
        cases e with
        | some e => simp at h
        | none =>
          simp only [Prod.mk.injEq] at h
          change (_, _) = q.obj.x ∧ _ at h
          rw [← h.1]
    have hf : (iterateFinal _ condatFinal m o).2 = condatFinal q.obj.x := iterateFinal_ok he
    rw [hf]
    unfold condatFinal
    rw [h2]; rfl

end

/-! ## The hypotheses are met: one variable, gradient steps on `x²/2`, one metric -/

/-- A `ForwardBackward` object with gradient `x`, identity proximity operator, step 1/2 and a metric returning
twice the iterate. -/
noncomputable def demoAlg : Alg (FB.St Unit ℝ) ℝ (Val ℝ ℝ Unit) :=
  fbAlg (fun x => .ok x) (fun p => .ok p.1) (userRules none none) (fun x => .ok x) (fun _ => .ok 1) (some 5)
    (fun n => n)

/-- The metric of the demonstration. -/
noncomputable def demoSpec : Session.Spec ℝ (Val ℝ ℝ Unit) :=
  ⟨some fun d => match d "test" with
      | some (.primal x) => .ok (2 * x)
      | _ => .ok 0, some [("x_new", some "test")], some [], some true⟩

/-- The object built from it. -/
noncomputable def demoObj : Obj (FB.St Unit ℝ) ℝ (Val ℝ ℝ Unit) :=
  ⟨⟨4, 4, none, none, 1 / 2, 1, ()⟩, 0, false,
    [⟨"m", fun d => match d "test" with
      | some (.primal x) => .ok (2 * x)
      | _ => .ok 0, [("x_new", some "test")], [], Metric.init 6 (1 / 10) true⟩], false, .specs true, none, 0⟩

theorem demo_construct : construct (1 / 10) (some [("m", demoSpec)])
    (⟨4, 4, none, none, 1 / 2, 1, ()⟩ : FB.St Unit ℝ) none = .ok demoObj := rfl

theorem demo_reliable : Reliable demoAlg demoObj where
  update := by intro i x; rfl
  cost := by intro c h; cases h
  costFun := by intro h; exact absurd rfl h
  metrics := by
    intro b hb i x
    simp only [demoObj, List.mem_singleton] at hb
    subst hb
    refine ⟨2 * (demoAlg.update i x).1.xOld, ?_⟩
    exact ((C105_forward_backward_sees (fun x => .ok x) (fun p => .ok p.1) (userRules none none) (fun x => .ok x)
      (fun _ => .ok 1) (some 5) (fun n => n) x _ i rfl _ rfl _ "test" _).1 rfl).mpr (by simp [toDict]; rfl)

/-- The hypotheses of the C105 theorems are met by the demonstration object. -/
example : ∃ N ≤ 3, ∃ es, 0 < N ∧ (iterate demoAlg 3 demoObj).obj.metrics = .results es ∧
    es.map (·.name) = ["m"] := by
  obtain ⟨N, h1, es, h2, -, -, -, h3, h4, -⟩ := C105_published_results demoAlg (1 / 10) [("m", demoSpec)] _ none demoObj
    demo_construct (by simp) 3 5 rfl (by norm_num) demo_reliable
  exact ⟨N, h1, es, h2 (by norm_num), h3, h4⟩

/-- And so are those of `C106_results_change_later`: an entry for the first observer. -/
example : ∃ N vs', 0 < N ∧ vs'.length = N ∧
    readEntry (iterate demoAlg 2 demoObj).obj ⟨"m", [], 0⟩ = some ([], [] ++ List.range N, [] ++ vs') :=
  C106_results_change_later demoAlg demoObj 2 5 rfl (by norm_num) demo_reliable rfl rfl (by norm_num)
    ⟨"m", [], 0⟩ [] [] [] rfl

/-- And those of C107: neither the updates nor the metric use the index. -/
example : (iterate demoAlg 3 demoObj).obj.x = (iterate demoAlg 2 (iterate demoAlg 1 demoObj).obj).obj.x := by
  refine (C107_resume demoAlg (fun _ _ _ => rfl) demoObj rfl ?_ 1 2 ?_ ?_).2.2.1.symm
  · intro b hb p hp
    simp only [demoObj, List.mem_singleton] at hb
    subst hb
    simp only [List.mem_singleton] at hp
    subst hp
    simp
  · obtain ⟨N, -, -, -, h, -⟩ := C105_metrics_record_every_update demoAlg demoObj 1 5 rfl (by norm_num) demo_reliable
      (by simp [demoObj]) rfl rfl
    exact h
  · rfl

/-- A metric that always raises: the hypotheses of C108 are met. -/
example : ∃ o : Obj (FB.St Unit ℝ) ℝ (Val ℝ ℝ Unit), (iterate demoAlg 3 o).exc = some .valueError ∧
    ∀ ms, (session demoAlg ms (iterate demoAlg 3 o).obj).observers = (iterate demoAlg 3 o).obj.observers := by
  refine ⟨{ demoObj with observers := [⟨"bad", fun _ => .error .valueError, [("x_new", some "test")], [],
    Metric.init 6 (1 / 10) true⟩] }, C108_metrics_dead_after_failure demoAlg _ 3 5 rfl (by norm_num) rfl rfl rfl rfl
      (by norm_num) _ [] rfl _ [("test", .primal 2)] _ rfl ?_ rfl⟩
  · simp [metricKwargs, signalAttr, toDict, bind, Except.bind, pure, Except.pure, tryFB, demoAlg, demoObj, fbAlg]
    norm_num

end Verif
