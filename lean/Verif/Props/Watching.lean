import Verif.Props.SessionStop

/-!
# C151: watching a run does not change it
-/

set_option linter.unusedSectionVars false

namespace Verif
open Session Observable

variable {X K V : Type} [Field K] [LinearOrder K] [IsStrictOrderedRing K] [FloorRing K]

theorem testConvergence_x (A : Alg X K V) (o : Obj X K V) : (testConvergence A o).1.x = o.x := by
  unfold testConvergence
  cases o.cost with
  | none => rfl
  | some c =>
    simp only
    split
    · rfl
    · split <;> rfl

theorem computeMetrics_x (A : Alg X K V) (o : Obj X K V) : (computeMetrics A o).1.x = o.x := by
  unfold computeMetrics
  cases A.kwargs o.x with
  | error e => rfl
  | ok kw =>
    simp only
    split
    · rfl
    · split <;> rfl

theorem metricsStep_x (A : Alg X K V) (m : ℕ) (o : Obj X K V) : (metricsStep A m o).1.x = o.x := by
  unfold metricsStep
  split
  · cases A.period with
    | none => rfl
    | some p =>
      simp only
      split
      · rfl
      · split
        · exact computeMetrics_x A o
        · rfl
  · rfl

theorem update1_x (A : Alg X K V) (i : ℕ) (o : Obj X K V) : (update1 A i o).1.x = (A.update i o.x).1 := by
  unfold update1
  cases A.update i o.x with
  | mk x e =>
    cases e with
    | some e => rfl
    | none => exact testConvergence_x A _

theorem loop_x (A : Alg X K V) (m : ℕ) (l : List ℕ) (o : Obj X K V) :
    (loop A m l o).obj.x = (loop A m l o).started.foldl (fun x i => (A.update i x).1) o.x := by
  induction l generalizing o with
  | nil => rfl
  | cons i l ih =>
    have h1 := update1_x A i o
    simp only [loop]
    cases hu : update1 A i o with
    | mk o1 e1 =>
      rw [hu] at h1
      cases e1 with
      | some e => exact h1
      | none =>
        have h2 := metricsStep_x A m o1
        simp only
        cases hm : metricsStep A m o1 with
        | mk o2 e2 =>
          rw [hm] at h2
          simp only at h1 h2
          cases e2 with
          | some e => simp only [List.foldl_cons, List.foldl_nil]; rw [h2, h1]
          | none =>
            simp only
            split
            · simp only [List.foldl_cons, List.foldl_nil]; rw [h2, h1]
            · simp only [List.foldl_cons]
              rw [ih o2, h2, h1]

theorem iterate_x (A : Alg X K V) (m : ℕ) (o : Obj X K V) :
    (iterate A m o).obj.x = (loop A m (List.range m) o).obj.x ∧
      (iterate A m o).started = (loop A m (List.range m) o).started ∧
      (iterate A m o).exc = (loop A m (List.range m) o).exc := by
  unfold iterate
  simp only
  cases h : (loop A m (List.range m) o).exc with
  | some e => exact ⟨rfl, rfl, h⟩
  | none => exact ⟨rfl, rfl, rfl⟩

/-- C151: the state of the algorithm after `iterate` is determined by the updates that were started: two objects with the same
update and the same state, but different metrics, observers, cost objects and histories, which start the same updates,
end in the same state, also when a run ends with an exception. -/
theorem C151_state_from_updates (A B : Alg X K V) (hAB : A.update = B.update) (m m' : ℕ) (o p : Obj X K V) (hx : o.x = p.x)
    (hs : (iterate A m o).started = (iterate B m' p).started) :
    (iterate A m o).obj.x = (iterate B m' p).obj.x := by
  obtain ⟨a1, a2, -⟩ := iterate_x A m o
  obtain ⟨b1, b2, -⟩ := iterate_x B m' p
  rw [a1, b1, loop_x, loop_x, ← a2, ← b2, hs, hx, hAB]

/-- The metrics of the observers `l` succeed after every successful update. -/
def MetricsSucceed (A : Alg X K V) (l : List (Obs K V)) : Prop :=
  ∀ i x x', A.update i x = (x', none) → ∃ kw, A.kwargs x' = .ok kw ∧ ∀ b ∈ l, ∀ idx, ∃ args v,
    metricKwargs (signalAttr A kw idx) b.mapping = .ok args ∧ b.metric (toDict (args ++ b.cst)) = .ok v

/-- Same configuration, and an observer without early stopping whose flag is down. -/
def Quiet (l : List (Obs K V)) : Prop := ∀ b ∈ l, b.hist.earlyStopping = false ∧ b.hist.flag = false

/-- The configurations of two lists of observers agree. -/
def SameConfig (l l' : List (Obs K V)) : Prop :=
  l.map (fun b => (b.metric, b.mapping, b.cst)) = l'.map fun b => (b.metric, b.mapping, b.cst)

theorem callObservers_quiet (A : Alg X K V) (kw : List (String × V)) (idx : ℕ) (l : List (Obs K V)) (t : ℕ)
    (hs : ∀ b ∈ l, ∃ args v, metricKwargs (signalAttr A kw idx) b.mapping = .ok args ∧
      b.metric (toDict (args ++ b.cst)) = .ok v) :
    (callObservers A kw idx t l).2 = none ∧ (Quiet l → Quiet (callObservers A kw idx t l).1) ∧
      SameConfig (callObservers A kw idx t l).1 l := by
  induction l generalizing t with
  | nil => exact ⟨rfl, fun h => h, rfl⟩
  | cons b l ih =>
    obtain ⟨args, v, h1, h2⟩ := hs b List.mem_cons_self
    have hc : ∃ h, b.hist.call (signalAttr A kw idx) b.mapping b.cst b.metric idx (A.clock t) = (h, none) ∧
        (b.hist.earlyStopping = false → h.earlyStopping = false ∧ h.flag = b.hist.flag) := by
      obtain ⟨h, hh⟩ : ∃ h, b.hist.call (signalAttr A kw idx) b.mapping b.cst b.metric idx (A.clock t) = (h, none) := by
        simp only [Metric.call, h1, h2]
        exact ⟨_, rfl⟩
      refine ⟨h, hh, fun q => ?_⟩
      simp only [Metric.call, h1, h2, q] at hh
      cases hh
      exact ⟨rfl, rfl⟩
    obtain ⟨h, hc, hf⟩ := hc
    obtain ⟨i1, i2, i3⟩ := ih (t + 1) (fun b hb => hs b (List.mem_cons_of_mem _ hb))
    simp only [callObservers, hc]
    refine ⟨i1, ?_, ?_⟩
    · intro hq c hm
      obtain ⟨q1, q2⟩ := hq b List.mem_cons_self
      rcases List.mem_cons.1 hm with rfl | hm
      · exact ⟨(hf q1).1, (hf q1).2.trans q2⟩
      · exact i2 (fun b hb => hq b (List.mem_cons_of_mem _ hb)) c hm
    · simp only [SameConfig, List.map_cons] at i3 ⊢
      rw [i3]

theorem MetricsSucceed.of_same {A : Alg X K V} {l l' : List (Obs K V)} (h : MetricsSucceed A l) (e : SameConfig l' l) :
    MetricsSucceed A l' := by
  intro i x x' hu
  obtain ⟨kw, h1, h2⟩ := h i x x' hu
  refine ⟨kw, h1, fun b hb idx => ?_⟩
  have hm : (b.metric, b.mapping, b.cst) ∈ l.map fun b => (b.metric, b.mapping, b.cst) := by
    rw [← show l'.map _ = l.map _ from e]
    exact List.mem_map.2 ⟨b, hb, rfl⟩
  obtain ⟨c, hc, he⟩ := List.mem_map.1 hm
  obtain ⟨args, v, g1, g2⟩ := h2 c hc idx
  simp only [Prod.mk.injEq] at he
  exact ⟨args, v, by rw [← he.2.1]; exact g1, by rw [← he.1, ← he.2.2]; exact g2⟩

/-- What the two objects have in common: everything but the metrics. -/
structure Twin (A : Alg X K V) (o p : Obj X K V) : Prop where
  x : o.x = p.x
  cost : o.cost = p.cost
  converge : o.converge = p.converge
  quiet : Quiet o.observers ∨ o.cost = none ∨ A.rule = .costOnly
  ok : MetricsSucceed A o.observers
  bare : p.observers = []
  empty : p.metrics.truthy = false

theorem Twin.test {A : Alg X K V} {o p : Obj X K V} (h : Twin A o p) :
    Twin A (testConvergence A o).1 (testConvergence A p).1 ∧ (testConvergence A o).2 = (testConvergence A p).2 := by
  have hp : anyFlag p = false := by rw [anyFlag, h.bare]; rfl
  obtain ⟨hx, hc, hv, hq, hk, hn, he⟩ := h
  cases hpc : p.cost with
  | none =>
    rw [hpc] at hc
    simp only [testConvergence, hpc, hc]
    exact ⟨⟨hx, hc.trans hpc.symm, hv, hq, hk, hn, he⟩, trivial⟩
  | some c =>
    rw [hpc] at hc
    have ho : anyFlag o = false ∨ A.rule = .costOnly := by
      rcases hq with hq | hq | hq
      · left
        rw [anyFlag, List.any_eq_false]
        intro b hb
        rw [(hq b hb).2]
        exact Bool.false_ne_true
      · rw [hc] at hq; cases hq
      · exact Or.inr hq
    have hq' : ∀ d : Cost.CostObj K, Quiet o.observers ∨ some d = none ∨ A.rule = .costOnly := by
      intro d
      rcases hq with hq | hq | hq
      · exact Or.inl hq
      · rw [hc] at hq; cases hq
      · exact Or.inr (Or.inr hq)
    rcases ho with ho | ho
    · simp only [testConvergence, hpc, hc, ho, hp, Bool.false_eq_true, and_false, if_false, hx]
      cases Cost.getCost A.calcCost c p.x with
      | mk c' q =>
        cases q with
        | error e => exact ⟨⟨rfl, rfl, by simp only [hv], hq' c', hk, hn, he⟩, rfl⟩
        | ok b => exact ⟨⟨rfl, rfl, rfl, hq' c', hk, hn, he⟩, rfl⟩
    · simp only [testConvergence, hpc, hc, ho, reduceCtorEq, false_and, if_false, hx]
      cases Cost.getCost A.calcCost c p.x with
      | mk c' q =>
        cases q with
        | error e => exact ⟨⟨rfl, rfl, by simp only [hv], hq' c', hk, hn, he⟩, rfl⟩
        | ok b => exact ⟨⟨rfl, rfl, rfl, hq' c', hk, hn, he⟩, rfl⟩

theorem Twin.update {A : Alg X K V} {o p : Obj X K V} (h : Twin A o p) (i : ℕ) :
    Twin A (update1 A i o).1 (update1 A i p).1 ∧ (update1 A i o).2 = (update1 A i p).2 := by
  unfold update1
  rw [h.x]
  cases A.update i p.x with
  | mk x e =>
    cases e with
    | some e => exact ⟨⟨rfl, h.cost, h.converge, h.quiet, h.ok, h.bare, h.empty⟩, rfl⟩
    | none =>
      exact Twin.test (o := { o with idx := i, x := x }) (p := { p with idx := i, x := x })
        ⟨rfl, h.cost, h.converge, h.quiet, h.ok, h.bare, h.empty⟩

theorem Twin.metricsStep {A : Alg X K V} (hp0 : A.period ≠ some 0) {o p : Obj X K V} (h : Twin A o p) (m : ℕ)
    (hr : ∃ i x, A.update i x = (o.x, none)) :
    Twin A (metricsStep A m o).1 (metricsStep A m p).1 ∧ (metricsStep A m o).2 = none ∧ (metricsStep A m p).2 = none := by
  have e : Session.metricsStep A m p = (p, none) := by
    unfold Session.metricsStep
    rw [h.empty]
    rfl
  rw [e]
  unfold Session.metricsStep
  split
  · cases hq : A.period with
    | none => exact ⟨h, rfl, rfl⟩
    | some q =>
      simp only
      have hq0 : q ≠ 0 := fun h0 => hp0 (by rw [hq, h0])
      rw [if_neg hq0]
      split
      on_goal 2 => exact ⟨h, rfl, trivial⟩
      · obtain ⟨i, x, hu⟩ := hr
        obtain ⟨kw, h1, h2⟩ := h.ok i x o.x hu
        unfold computeMetrics
        simp only [h1]
        split
        · exact ⟨h, rfl, trivial⟩
        · obtain ⟨c1, c2, c3⟩ := callObservers_quiet A kw o.idx o.observers o.ticks (fun b hb => h2 b hb o.idx)
          simp only [c1]
          exact ⟨⟨h.x, h.cost, h.converge, h.quiet.imp_left c2, h.ok.of_same c3, h.bare, h.empty⟩, trivial, trivial⟩
  · exact ⟨h, rfl, rfl⟩

theorem Twin.loop {A : Alg X K V} (hp0 : A.period ≠ some 0) (m : ℕ) (l : List ℕ) {o p : Obj X K V} (h : Twin A o p) :
    Twin A (loop A m l o).obj (loop A m l p).obj ∧ (loop A m l o).exc = (loop A m l p).exc ∧
      (loop A m l o).started = (loop A m l p).started := by
  induction l generalizing o p with
  | nil => exact ⟨h, rfl, rfl⟩
  | cons i l ih =>
    obtain ⟨u1, u2⟩ := h.update i
    have hx := update1_x A i o
    simp only [Session.loop]
    cases ho : update1 A i o with
    | mk o1 e1 =>
      cases hp : update1 A i p with
      | mk p1 e2 =>
        rw [ho, hp] at u1 u2
        rw [ho] at hx
        simp only at u1 u2 hx
        subst u2
        cases e1 with
        | some e => exact ⟨u1, rfl, rfl⟩
        | none =>
          have hr : ∃ i x, A.update i x = (o1.x, none) := by
            refine ⟨i, o.x, ?_⟩
            rw [hx]
            cases hA : A.update i o.x with
            | mk y e =>
              cases e with
              | none => rfl
              | some e => simp [update1, hA] at ho
          obtain ⟨m1, m2, m3⟩ := u1.metricsStep hp0 m hr
          simp only
          cases ho2 : Session.metricsStep A m o1 with
          | mk o2 e2 =>
            cases hp2 : Session.metricsStep A m p1 with
            | mk p2 e3 =>
              rw [ho2, hp2] at m1
              rw [ho2] at m2
              rw [hp2] at m3
              simp only at m1 m2 m3
              subst m2 m3
              simp only [m1.converge]
              cases p2.converge with
              | true => exact ⟨m1, rfl, rfl⟩
              | false =>
                obtain ⟨l1, l2, l3⟩ := ih m1
                exact ⟨l1, l2, by simp only [Bool.false_eq_true, if_false, l3]⟩

theorem Twin.iterate {A : Alg X K V} (hp0 : A.period ≠ some 0) (m : ℕ) {o p : Obj X K V} (h : Twin A o p) :
    Twin A (iterate A m o).obj (iterate A m p).obj ∧ (iterate A m o).exc = (iterate A m p).exc ∧
      (iterate A m o).started = (iterate A m p).started := by
  obtain ⟨h1, h2, h3⟩ := h.loop hp0 m (List.range m)
  unfold Session.iterate
  simp only
  cases he : (Session.loop A m (List.range m) p).exc with
  | some e =>
    rw [he] at h2
    simp only [h2]
    exact ⟨h1, he.symm, h3⟩
  | none =>
    rw [he] at h2
    simp only [h2]
    refine ⟨⟨h1.x, h1.cost, h1.converge, h1.quiet, h1.ok, h1.bare, ?_⟩, trivial, h3⟩
    show (MetricsAttr.results ((Session.loop A m (List.range m) p).obj.observers.mapIdx entryOf)).truthy = false
    rw [h1.bare]
    rfl

theorem Twin.session {A : Alg X K V} (hp0 : A.period ≠ some 0) (ms : List ℕ) {o p : Obj X K V} (h : Twin A o p) :
    Twin A (session A ms o) (session A ms p) := by
  induction ms generalizing o p with
  | nil => exact h
  | cons m ms ih => exact ih (h.iterate hp0 m).1

/-- The requested metrics succeed on every state left by a successful update: the algorithm can produce what it hands to the observers,
every argument the metric asks for is there, and the metric returns a number. -/
def SpecsSucceed (A : Alg X K V) (specs : List (String × Spec K V)) : Prop :=
  ∀ i x x', A.update i x = (x', none) → ∃ kw, A.kwargs x' = .ok kw ∧
    ∀ name d f mapping cst, (name, d) ∈ specs → d.metric = some f → d.mapping = some mapping → d.cst = some cst →
      ∀ idx, ∃ args v, metricKwargs (signalAttr A kw idx) mapping = .ok args ∧ f (toDict (args ++ cst)) = .ok v

theorem makeObservers_mem {eps : K} {l : List (String × Spec K V)} {obs : List (Obs K V)}
    (h : makeObservers eps l = .ok obs) :
    ∀ b ∈ obs, b.hist.flag = false ∧ ∃ d, (b.name, d) ∈ l ∧ d.metric = some b.metric ∧ d.mapping = some b.mapping ∧
      d.cst = some b.cst ∧ d.early = some b.hist.earlyStopping := by
  induction l generalizing obs with
  | nil => cases h; intro b hb; cases hb
  | cons a r ih =>
    obtain ⟨name, d⟩ := a
    rcases d with ⟨_ | f, mp, cs, ea⟩
    · cases h
    rcases mp with _ | mp
    · cases h
    rcases cs with _ | cs
    · cases h
    rcases ea with _ | ea
    · cases h
    simp only [makeObservers, bind, Except.bind, getKey] at h
    cases h5 : makeObservers eps r with
    | error e => rw [h5] at h; cases h
    | ok w =>
      rw [h5] at h
      cases h
      intro b hb
      rcases List.mem_cons.1 hb with rfl | hb
      · exact ⟨rfl, _, List.mem_cons_self, rfl, rfl, rfl, rfl⟩
      · obtain ⟨g1, d, g2, g3⟩ := ih h5 b hb
        exact ⟨g1, d, List.mem_cons_of_mem _ g2, g3⟩

/-- C151: an algorithm built with metrics and the same algorithm built without them behave identically over every session of
`iterate` calls: each call starts the same updates, ends with the same exception or none, and leaves the same state, cost history and
convergence flag.  This holds when the metrics succeed, the period is not zero, and either no metric asks for early stopping,
or there is no cost object, or the algorithm is one that only tests the cost. -/
theorem C151_metrics_do_not_change_the_run (A : Alg X K V) (eps eps' : K) (specs : List (String × Spec K V)) (x : X)
    (cost : Option (Cost.CostObj K)) (o p : Obj X K V) (ho : construct eps (some specs) x cost = .ok o)
    (hp : construct eps' none x cost = .ok p) (hp0 : A.period ≠ some 0) (hs : SpecsSucceed A specs)
    (he : (∀ name d, (name, d) ∈ specs → d.early = some false) ∨ cost = none ∨ A.rule = .costOnly)
    (ms : List ℕ) (m : ℕ) :
    let q := iterate A m (session A ms o)
    let r := iterate A m (session A ms p)
    q.started = r.started ∧ q.exc = r.exc ∧ q.obj.x = r.obj.x ∧ q.obj.cost = r.obj.cost ∧
      q.obj.converge = r.obj.converge := by
  have ht : Twin A o p := by
    obtain ⟨a1, a2, -, a4, -⟩ := construct_ok ho
    obtain ⟨b1, b2, -, b4, b5, b6, -⟩ := construct_ok hp
    have hm : ∀ b ∈ o.observers, b.hist.flag = false ∧ ∃ d, (b.name, d) ∈ specs ∧ d.metric = some b.metric ∧
        d.mapping = some b.mapping ∧ d.cst = some b.cst ∧ d.early = some b.hist.earlyStopping := by
      simp only [construct, bind, Except.bind] at ho
      cases hmk : makeObservers eps ((some specs).getD []) with
      | error e => rw [hmk] at ho; cases ho
      | ok obs =>
        rw [hmk] at ho
        cases ho
        exact makeObservers_mem hmk
    refine ⟨a1.trans b1.symm, a4.trans b4.symm, a2.trans b2.symm, ?_, ?_, ?_, by rw [b5]; rfl⟩
    · rcases he with he | he | he
      · left
        intro b hb
        obtain ⟨g1, d, g2, -, -, -, g6⟩ := hm b hb
        rw [he _ _ g2] at g6
        exact ⟨(Option.some.inj g6).symm, g1⟩
      · exact Or.inr (Or.inl (a4.trans he))
      · exact Or.inr (Or.inr he)
    · intro i y y' hu
      obtain ⟨kw, g1, g2⟩ := hs i y y' hu
      refine ⟨kw, g1, fun b hb idx => ?_⟩
      obtain ⟨-, d, h2, h3, h4, h5, -⟩ := hm b hb
      exact g2 _ d _ _ _ h2 h3 h4 h5 idx
    · exact List.map_eq_nil_iff.1 b6
  obtain ⟨t1, t2, t3⟩ := (ht.session hp0 ms).iterate hp0 m
  exact ⟨t3, t2, t1.x, t1.cost, t1.converge⟩

/-- Halving a number, with a cost object, a metric that returns the iterate, and no early stopping: the hypotheses are met. -/
example : ∃ (A : Alg ℚ ℚ ℚ) (o p : Obj ℚ ℚ ℚ), (iterate A 3 o).started ≠ [] ∧ o.observers ≠ [] ∧
    ∀ ms m, (iterate A m (session A ms o)).started = (iterate A m (session A ms p)).started := by
  let A : Alg ℚ ℚ ℚ := ⟨fun _ x => (x / 2, none), fun x => .ok [("x_new", x)], fun i => i, fun x => .ok x, .flagsOrCost,
    some 5, fun t => t⟩
  let d : Spec ℚ ℚ := ⟨some fun k => match k "test" with
    | some v => .ok v
    | none => .error .typeError, some [("x_new", some "test")], some [], some false⟩
  let o : Obj ℚ ℚ ℚ := ⟨4, 0, false, [⟨"m", fun k => match k "test" with
    | some v => .ok v
    | none => .error .typeError, [("x_new", some "test")], [], Metric.init 6 1 false⟩], false, .specs true,
    some (Cost.CostObj.init 0 0 none 4), 0⟩
  let p : Obj ℚ ℚ ℚ := ⟨4, 0, false, [], false, .specs false, some (Cost.CostObj.init 0 0 none 4), 0⟩
  have ho : construct 1 (some [("m", d)]) 4 (some (Cost.CostObj.init 0 0 none 4)) = .ok o := rfl
  have hp : construct 1 none 4 (some (Cost.CostObj.init 0 0 none 4)) = .ok p := rfl
  have key := C151_metrics_do_not_change_the_run A 1 1 [("m", d)] 4 _ o p ho hp (by simp [A]) ?_
    (Or.inl (by simp [d]))
  · refine ⟨A, o, p, ?_, by simp [o], fun ms m => (key ms m).1⟩
    obtain ⟨-, h2, -⟩ := iterate_x A 3 o
    rw [h2]
    simp only [List.range, List.range.loop, Session.loop]
    split
    · simp
    · split
      · simp
      · split <;> simp
  · intro i x x' _
    refine ⟨_, rfl, ?_⟩
    intro name e f mapping cst hm h1 h2 h3 idx
    simp only [List.mem_singleton, Prod.mk.injEq] at hm
    obtain ⟨-, rfl⟩ := hm
    cases h1; cases h2; cases h3
    refine ⟨[("test", x')], x', ?_, ?_⟩
    · simp [metricKwargs, signalAttr, toDict, bind, Except.bind, pure, Except.pure]
    · simp [toDict]

end Verif
