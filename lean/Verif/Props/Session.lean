import Verif.Lemmas.Session
import Mathlib.Data.List.GetD
import Mathlib.Data.Rat.Floor
import Mathlib.Algebra.Order.Ring.Rat

/-!
# C105–C108: a session of `iterate` calls on one algorithm object
-/

set_option linter.unusedSectionVars false

namespace Verif
open Session Observable

variable {X K V : Type} [Field K] [LinearOrder K] [IsStrictOrderedRing K] [FloorRing K]

theorem visit_range (A : Alg X K V) (x : X) : ∀ n lo,
    visit A (List.range' lo n) (traj A x lo) = (List.range' lo n).map fun k => (k, traj A x (k + 1)) := by
  intro n
  induction n with
  | zero => intro lo; rfl
  | succ n ih =>
    intro lo
    rw [List.range'_succ, visit, List.map_cons]
    have : (A.update lo (traj A x lo)).1 = traj A x (lo + 1) := rfl
    rw [this, ih (lo + 1)]

theorem finish_range (A : Alg X K V) (x : X) : ∀ n lo,
    finish A (List.range' lo n) (traj A x lo) = traj A x (lo + n) := by
  intro n
  induction n with
  | zero => intro lo; rfl
  | succ n ih =>
    intro lo
    rw [List.range'_succ, finish, List.foldl_cons]
    have : (A.update lo (traj A x lo)).1 = traj A x (lo + 1) := rfl
    rw [this]
    have := ih (lo + 1)
    unfold finish at this
    rw [this]; congr 1; omega

theorem iterate_of_no_exc {A : Alg X K V} {m : ℕ} {o : Obj X K V}
    (h : (loop A m (List.range m) o).exc = none) :
    iterate A m o = { loop A m (List.range m) o with obj := retrieveOutputs (loop A m (List.range m) o).obj } := by
  unfold iterate
  simp only [h]

/-! ## C105 -/

/-- C105: on an object with metrics (period not zero, nothing raises, not locked) `iterate(m)` performs some
number `N ≤ m` of updates, smaller than `m` only on convergence, and every metric records each of them: the
index, a date, and its value on the state reached by that update. -/
theorem C105_metrics_record_every_update (A : Alg X K V) (o : Obj X K V) (m p : ℕ) (hp : A.period = some p)
    (hp0 : p ≠ 0) (hr : Reliable A o) (hne : o.observers ≠ []) (ht : o.metrics.truthy = true)
    (hl : o.locked = false) :
    let q := iterate A m o
    ∃ N ≤ m, (0 < m → 0 < N) ∧ (N < m → q.obj.converge = true) ∧ q.exc = none ∧ q.started = List.range N ∧
      q.obj.x = traj A o.x N ∧ q.obj.locked = false ∧ q.obj.observers.length = o.observers.length ∧
      ∀ (j : ℕ) (b b' : Obs K V), o.observers[j]? = some b → q.obj.observers[j]? = some b' →
        SameMetric b b' ∧ b'.hist.iters = b.hist.iters ++ List.range N ∧
        b'.hist.dates.length = b.hist.dates.length + N ∧
        ∃ vs : List K, b'.hist.vals = b.hist.vals ++ vs ∧ vs.length = N ∧
          ∀ k (hk : k < vs.length), Sees A b (traj A o.x (k + 1)) k vs[k] := by
  intro q
  obtain ⟨N, h1, h2, h3, h4, h5, h6, h7, h8⟩ := loop_ok hp hp0 m (List.range m) o hr hne ht hl
  have hq : q = { loop A m (List.range m) o with obj := retrieveOutputs (loop A m (List.range m) o).obj } :=
    iterate_of_no_exc h2
  rw [List.length_range] at h1 h6 h7
  have htake : (List.range m).take N = List.range N := by
    rw [List.take_range, Nat.min_eq_left h1]
  have hvis : (visit A (List.range m) o.x).take N = (List.range N).map fun k => (k, traj A o.x (k + 1)) := by
    have := visit_range A o.x m 0
    rw [← List.range_eq_range'] at this
    rw [show visit A (List.range m) o.x = _ from this, ← List.map_take, htake]
  have hfin : finish A (List.range N) o.x = traj A o.x N := by
    have := finish_range A o.x N 0
    rw [← List.range_eq_range', Nat.zero_add] at this
    exact this
  rw [htake] at h3 h4
  rw [hvis] at h8
  refine ⟨N, h1, h6, ?_, ?_, ?_, ?_, ?_, ?_, ?_⟩
  · rw [hq]; exact h7
  · rw [hq]; exact h2
  · rw [hq]; exact h3
  · rw [hq]; exact h4.trans hfin
  · rw [hq]; exact h5.1.trans hl
  · rw [hq]; exact h8.length_eq.symm
  · intro j b b' hb hb'
    have hb'' : (loop A m (List.range m) o).obj.observers[j]? = some b' := by rw [hq] at hb'; exact hb'
    obtain ⟨hj, rfl⟩ := List.getElem?_eq_some_iff.mp hb
    obtain ⟨hj', rfl⟩ := List.getElem?_eq_some_iff.mp hb''
    obtain ⟨g1, g2, ⟨ds, g3, g4⟩, vs, g5, g6⟩ := (List.forall₂_iff_get.mp h8).2 j hj hj'
    simp only [List.get_eq_getElem] at g1 g2 g3 g5 g6
    refine ⟨g1, ?_, ?_, vs, g5, ?_, ?_⟩
    · rw [g2]; simp [Function.comp_def]
    · rw [g3]; simpa using g4
    · have := g6.length_eq; simpa using this.symm
    · intro k hk
      have hk' : k < ((List.range N).map fun k => (k, traj A o.x (k + 1))).length := by
        rw [g6.length_eq]; exact hk
      have := (List.forall₂_iff_get.mp g6).2 k hk' hk
      simpa using this

/-- A freshly constructed object: one observer per metric in dictionary order, with empty history; unlocked, not
converged. -/
theorem construct_ok {eps : K} {specs : Option (List (String × Spec K V))} {x : X} {cost : Option (Cost.CostObj K)}
    {o : Obj X K V} (h : construct eps specs x cost = .ok o) :
    o.x = x ∧ o.converge = false ∧ o.locked = false ∧ o.cost = cost ∧
    o.metrics.truthy = !(specs.getD []).isEmpty ∧ o.observers.map (·.name) = (specs.getD []).map Prod.fst ∧
    ∀ b ∈ o.observers, b.hist.iters = [] ∧ b.hist.dates = [] ∧ b.hist.vals = [] ∧ b.hist.flag = false := by
  have key : ∀ (l : List (String × Spec K V)) (obs : List (Obs K V)), makeObservers eps l = .ok obs →
      obs.map (·.name) = l.map Prod.fst ∧
      ∀ b ∈ obs, b.hist.iters = [] ∧ b.hist.dates = [] ∧ b.hist.vals = [] ∧ b.hist.flag = false := by
    intro l
    induction l with
    | nil => intro obs h; cases h; simp
    | cons a r ih =>
      intro obs h
      obtain ⟨name, d⟩ := a
      simp only [makeObservers, bind, Except.bind] at h
      cases h1 : getKey d.metric with
      | error e => rw [h1] at h; cases h
      | ok w1 =>
        cases h2 : getKey d.mapping with
        | error e => rw [h1, h2] at h; cases h
        | ok w2 =>
          cases h3 : getKey d.cst with
          | error e => rw [h1, h2, h3] at h; cases h
          | ok w3 =>
            cases h4 : getKey d.early with
            | error e => rw [h1, h2, h3, h4] at h; cases h
            | ok w4 =>
              cases h5 : makeObservers eps r with
              | error e => rw [h1, h2, h3, h4, h5] at h; cases h
              | ok w5 =>
                rw [h1, h2, h3, h4, h5] at h
                cases h
                obtain ⟨k1, k2⟩ := ih w5 h5
                refine ⟨by simp [k1], ?_⟩
                intro b hb
                rcases List.mem_cons.mp hb with rfl | hb
                · exact ⟨rfl, rfl, rfl, rfl⟩
                · exact k2 b hb
  simp only [construct, bind, Except.bind] at h
  cases hm : makeObservers eps (specs.getD []) with
  | error e => rw [hm] at h; cases h
  | ok obs =>
    rw [hm] at h
    cases h
    obtain ⟨k1, k2⟩ := key _ _ hm
    exact ⟨rfl, rfl, rfl, rfl, rfl, k1, k2⟩

/-- C105: after the first `iterate(m)` on a new object, `alg.metrics` has one entry per requested metric, in
order and under its name; reading an entry gives the iterations `0, …, N-1`, the metric's values on the
states reached by these updates, and `N` times starting at zero. -/
theorem C105_published_results (A : Alg X K V) (eps : K) (specs : List (String × Spec K V)) (x : X)
    (cost : Option (Cost.CostObj K)) (o : Obj X K V) (hc : construct eps (some specs) x cost = .ok o)
    (hs : specs ≠ []) (m p : ℕ) (hp : A.period = some p) (hp0 : p ≠ 0) (hr : Reliable A o) :
    let q := iterate A m o
    ∃ N ≤ m, ∃ es : List (Entry K), (0 < m → 0 < N) ∧ q.exc = none ∧ q.started = List.range N ∧ q.obj.x = traj A x N ∧
      q.obj.metrics = .results es ∧ es.map (·.name) = specs.map Prod.fst ∧
      ∀ (j : ℕ) (e : Entry K) (b : Obs K V), es[j]? = some e → o.observers[j]? = some b → ∃ time vs,
        readEntry q.obj e = some (time, List.range N, vs) ∧ time.length = N ∧ (0 < N → time[0]? = some 0) ∧
        vs.length = N ∧ ∀ k (hk : k < vs.length), Sees A b (traj A x (k + 1)) k vs[k] := by
  intro q
  obtain ⟨c1, c2, c3, c4, c5, c6, c7⟩ := construct_ok hc
  have hne : o.observers ≠ [] := by
    intro h; rw [h] at c6; simp at c6; exact hs c6
  obtain ⟨N, h1, h2, h3, h4, h5, h6, h7, h8, h9⟩ := C105_metrics_record_every_update A o m p hp hp0 hr hne
    (by rw [c5]; simpa using hs) c3
  have hex : (loop A m (List.range m) o).exc = none := by
    by_contra hcon
    obtain ⟨e, he⟩ := Option.ne_none_iff_exists'.mp hcon
    have : (iterate A m o).exc = some e := by unfold iterate; simp only [he]
    rw [h4] at this; cases this
  have hq : q = { loop A m (List.range m) o with obj := retrieveOutputs (loop A m (List.range m) o).obj } :=
    iterate_of_no_exc hex
  have hobs : q.obj.observers = (loop A m (List.range m) o).obj.observers := by rw [hq]; rfl
  have hnames : ∀ (j : ℕ) (b b' : Obs K V), o.observers[j]? = some b → q.obj.observers[j]? = some b' → b'.name = b.name :=
    fun j b b' hb hb' => (h9 j b b' hb hb').1.1
  rw [c1] at h6
  replace h8 : q.obj.observers.length = o.observers.length := h8
  refine ⟨N, h1, _, h2, h4, h5, h6, by rw [hq]; rfl, ?_, ?_⟩
  · rw [← hobs]
    change _ = List.map Prod.fst ((some specs).getD [])
    rw [← c6]
    apply List.ext_getElem?
    intro j
    simp only [List.getElem?_map, List.getElem?_mapIdx]
    rcases hb : o.observers[j]? with _ | b
    · have : q.obj.observers[j]? = none := by
        rw [List.getElem?_eq_none_iff] at hb ⊢; omega
      simp [this]
    · have hj := (List.getElem?_eq_some_iff.mp hb).1
      have hb' : q.obj.observers[j]? = some (q.obj.observers[j]'(by omega)) := List.getElem?_eq_getElem _
      rw [hb']
      simp [entryOf, hnames j b _ hb hb']
  · intro j e b he hb
    rw [← hobs, List.getElem?_mapIdx] at he
    have hj := (List.getElem?_eq_some_iff.mp hb).1
    have hb' : q.obj.observers[j]? = some (q.obj.observers[j]'(by omega)) := List.getElem?_eq_getElem _
    rw [hb'] at he
    simp only [Option.map_some, Option.some.injEq] at he
    subst he
    obtain ⟨k1, k2, k3, vs, k4, k5, k6⟩ := h9 j b _ hb hb'
    obtain ⟨z1, z2, z3, -⟩ := c7 b (List.mem_of_getElem? hb)
    rw [z1, List.nil_append] at k2
    rw [z2] at k3
    rw [z3, List.nil_append] at k4
    rw [c1] at k6
    refine ⟨(q.obj.observers[j]'(by omega)).hist.retrieve.1, vs, ?_, ?_, ?_, k5, k6⟩
    · simp only [readEntry, entryOf, hb', Option.map_some, k2, k4]
    · simp [Metric.retrieve, k3]
    · intro hN
      simp only [Metric.retrieve, List.getElem?_map]
      cases hd : (q.obj.observers[j]'(by omega)).hist.dates with
      | nil => rw [hd] at k3; simp at k3; omega
      | cons d ds => simp

/-! ## C106 -/

/-- C106, refutation: the entries of `alg.metrics` obtained after one `iterate` are not a snapshot.  For every
object, a later `iterate(m)` with `m > 0` in which nothing raises extends the `"index"` and `"values"` lists of
an entry obtained before, restarting the indices at zero, while its `"time"` array stays as it was. -/
theorem C106_results_change_later (A : Alg X K V) (o : Obj X K V) (m p : ℕ) (hp : A.period = some p)
    (hp0 : p ≠ 0) (hr : Reliable A o) (ht : o.metrics.truthy = true) (hl : o.locked = false) (hm : 0 < m)
    (e : Entry K) (time : List K) (is : List ℕ) (vs : List K) (he : readEntry o e = some (time, is, vs)) :
    ∃ N vs', 0 < N ∧ vs'.length = N ∧
      readEntry (iterate A m o).obj e = some (time, is ++ List.range N, vs ++ vs') := by
  unfold readEntry at he
  cases hb : o.observers[e.obs]? with
  | none => rw [hb] at he; cases he
  | some b =>
    rw [hb] at he
    simp only [Option.map_some, Option.some.injEq, Prod.mk.injEq] at he
    obtain ⟨rfl, rfl, rfl⟩ := he
    have hne : o.observers ≠ [] := List.ne_nil_of_mem (List.mem_of_getElem? hb)
    obtain ⟨N, h1, h2, h3, h4, h5, h6, h7, h8, h9⟩ := C105_metrics_record_every_update A o m p hp hp0 hr hne ht hl
    have hj := (List.getElem?_eq_some_iff.mp hb).1
    have hb' : (iterate A m o).obj.observers[e.obs]? = some ((iterate A m o).obj.observers[e.obs]'(by omega)) :=
      List.getElem?_eq_getElem _
    obtain ⟨k1, k2, k3, vs', k4, k5, k6⟩ := h9 e.obs b _ hb hb'
    exact ⟨N, vs', h2 hm, k5, by simp only [readEntry, hb', Option.map_some, k2, k4]⟩

/-- C106, the part that holds: what an entry shows does not change as long as `iterate` is not called (or called
with `max_iter = 0`), and its time array never changes (missing: later runs). -/
theorem C106_time_is_kept_partial (A : Alg X K V) (o : Obj X K V) (ms : List ℕ) (e : Entry K)
    (time : List K) (is : List ℕ) (vs : List K) (he : readEntry (session A ms o) e = some (time, is, vs)) :
    time = e.time ∧ readEntry (iterate A 0 o).obj e = readEntry o e := by
  constructor
  · unfold readEntry at he
    cases hb : (session A ms o).observers[e.obs]? with
    | none => rw [hb] at he; cases he
    | some b => rw [hb] at he; cases he; rfl
  · rfl

/-! ## C108 -/

/-- The observers are left alone while the lock is set. -/
theorem loop_locked (A : Alg X K V) (m : ℕ) : ∀ (l : List ℕ) (o : Obj X K V), o.locked = true →
    (loop A m l o).obj.observers = o.observers ∧ (loop A m l o).obj.locked = true := by
  intro l
  induction l with
  | nil => intro o h; exact ⟨rfl, h⟩
  | cons i r ih =>
    intro o h
    have hu : (update1 A i o).1.observers = o.observers ∧ (update1 A i o).1.locked = true := by
      unfold update1
      split
      · exact ⟨rfl, h⟩
      · rename_i x hx
        obtain ⟨h1, h2, h3, h4, h5⟩ := testConvergence_spec A { o with idx := i, x := x }
        exact ⟨h3, h5.1.trans h⟩
    cases hu1 : update1 A i o with
    | mk o1 e1 =>
      rw [hu1] at hu
      cases e1 with
      | some e => simp only [loop, hu1]; exact hu
      | none =>
        have hm : (metricsStep A m o1).1.observers = o1.observers ∧ (metricsStep A m o1).1.locked = true := by
          have hcm : (computeMetrics A o1).1 = o1 := by
            unfold computeMetrics
            split
            · rfl
            · rw [hu.2]; rfl
          unfold metricsStep
          split
          · split
            · exact ⟨rfl, hu.2⟩
            · split
              · exact ⟨rfl, hu.2⟩
              · split
                · rw [hcm]; exact ⟨rfl, hu.2⟩
                · exact ⟨rfl, hu.2⟩
          · exact ⟨rfl, hu.2⟩
        cases hm1 : metricsStep A m o1 with
        | mk o2 e2 =>
          rw [hm1] at hm
          cases e2 with
          | some e => simp only [loop, hu1, hm1]; exact ⟨hm.1.trans hu.1, hm.2⟩
          | none =>
            simp only [loop, hu1, hm1]
            split
            · exact ⟨hm.1.trans hu.1, hm.2⟩
            · obtain ⟨i1, i2⟩ := ih o2 hm.2
              exact ⟨i1.trans (hm.1.trans hu.1), i2⟩

/-- C108, refutation: once a metric has raised during `iterate`, no later `iterate` ever evaluates a metric
again.  For every object, if the updates and the cost function do not raise and the first metric raises on the
state after the first update, then `iterate` raises, and in every later session all histories (and with them
the early-stopping flags) stay exactly as they were left. -/
theorem C108_metrics_dead_after_failure (A : Alg X K V) (o : Obj X K V) (m p : ℕ) (hp : A.period = some p)
    (hp0 : p ≠ 0) (hu : (A.update 0 o.x).2 = none) (hcost : o.cost = none) (ht : o.metrics.truthy = true)
    (hl : o.locked = false) (hm : 0 < m) (b : Obs K V) (r : List (Obs K V)) (hobs : o.observers = b :: r)
    (kw : List (String × V)) (args : List (String × V)) (e : PyErr)
    (hk : A.kwargs (A.update 0 o.x).1 = .ok kw)
    (ha : metricKwargs (signalAttr A kw 0) b.mapping = .ok args)
    (hf : b.metric (toDict (args ++ b.cst)) = .error e) :
    (iterate A m o).exc = some e ∧
    ∀ ms, (session A ms (iterate A m o).obj).observers = (iterate A m o).obj.observers := by
  obtain ⟨m, rfl⟩ : ∃ k, m = k + 1 := ⟨m - 1, by omega⟩
  have hloop : (loop A (m + 1) (List.range (m + 1)) o).exc = some e ∧
      (loop A (m + 1) (List.range (m + 1)) o).obj.locked = true := by
    rw [List.range_succ_eq_map]
    have h1 : update1 A 0 o = ({ o with idx := 0, x := (A.update 0 o.x).1 }, none) := by
      unfold update1
      cases hx : A.update 0 o.x with
      | mk x e' =>
        rw [hx] at hu
        simp only at hu
        subst hu
        simp [testConvergence, hcost]
    simp only [loop, h1]
    rw [metricsStep_eq A (m + 1) hp hp0 (o := { o with idx := 0, x := (A.update 0 o.x).1 }) ht]
    have h2 : callObservers A kw 0 o.ticks o.observers =
        ({ b with hist := { b.hist with iters := b.hist.iters ++ [0], dates := b.hist.dates ++ [A.clock o.ticks] } }
          :: r, some e) := by
      simp only [hobs, callObservers, Metric.call, ha, hf]
    simp only [computeMetrics, hk, hl, Bool.false_eq_true, if_false, h2]
    exact ⟨trivial, trivial⟩
  have hit : iterate A (m + 1) o = loop A (m + 1) (List.range (m + 1)) o := by
    unfold iterate; simp only [hloop.1]
  rw [hit]
  refine ⟨hloop.1, ?_⟩
  have hses : ∀ (ms : List ℕ) (o : Obj X K V), o.locked = true → (session A ms o).observers = o.observers := by
    intro ms
    induction ms with
    | nil => intro o _; rfl
    | cons k ms ih =>
      intro o ho
      obtain ⟨i1, i2⟩ := loop_locked A k (List.range k) o ho
      have hk : (iterate A k o).obj.observers = o.observers ∧ (iterate A k o).obj.locked = true := by
        unfold iterate
        cases hx : (loop A k (List.range k) o).exc with
        | none => simp only [hx]; exact ⟨i1, i2⟩
        | some e => simp only [hx]; exact ⟨i1, i2⟩
      rw [session, ih _ hk.2, hk.1]
  exact fun ms => hses ms _ hloop.2

/-- C108, the part that holds: as long as nothing raises, the lock is free after every `iterate` of a session
(missing: metrics that raise). -/
theorem C108_unlocked_without_failures_partial (A : Alg X K V) (o : Obj X K V) (p : ℕ) (hp : A.period = some p)
    (hp0 : p ≠ 0) (hr : Reliable A o) (hne : o.observers ≠ []) (ht : o.metrics.truthy = true)
    (hl : o.locked = false) (ms : List ℕ) : (session A ms o).locked = false := by
  induction ms generalizing o with
  | nil => exact hl
  | cons m ms ih =>
    obtain ⟨N, h1, h2, h3, h4, h5, h6, h7, h8⟩ := loop_ok hp hp0 m (List.range m) o hr hne ht hl
    have hq := iterate_of_no_exc (A := A) (m := m) (o := o) h2
    have hobs : (iterate A m o).obj.observers = (loop A m (List.range m) o).obj.observers := by rw [hq]; rfl
    have hne' : (loop A m (List.range m) o).obj.observers ≠ [] := by
      intro h0; rw [h0] at h8; exact hne (List.forall₂_nil_right_iff.mp h8)
    rw [session]
    refine ih _ ?_ (by rw [hobs]; exact hne') ?_ ?_
    · have := hr.of_quiet h5 h8
      exact ⟨this.update, by rw [hq]; exact this.cost, by rw [hq]; exact this.costFun,
        by rw [hq]; exact this.metrics⟩
    · rw [hq]
      simp only [retrieveOutputs, MetricsAttr.truthy, Bool.not_eq_true']
      simpa using hne'
    · rw [hq]; exact h5.1.trans hl

end Verif
