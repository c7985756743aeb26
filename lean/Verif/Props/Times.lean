import Verif.Props.SessionAlgs

/-!
# C145: the times recorded with the metrics
-/

set_option linter.unusedSectionVars false

namespace Verif
open Session Observable Cost

variable {X K V : Type} [Field K] [LinearOrder K] [IsStrictOrderedRing K] [FloorRing K]

/-- The dates of every observer are in order, and none lies after a later reading of the clock. -/
def TimesOk (A : Alg X K V) (l : List (Obs K V)) (ticks : ℕ) : Prop :=
  ∀ b ∈ l, b.hist.dates.Pairwise (· ≤ ·) ∧ ∀ d ∈ b.hist.dates, ∀ t, ticks ≤ t → d ≤ A.clock t

theorem TimesOk.mono {A : Alg X K V} {l : List (Obs K V)} {t t' : ℕ} (h : TimesOk A l t) (ht : t ≤ t') : TimesOk A l t' :=
  fun b hb => ⟨(h b hb).1, fun d hd u hu => (h b hb).2 d hd u (ht.trans hu)⟩

/-- Dates after a call of an observer. -/
theorem call_dates (m : Metric K) (attr : String → Option V) (mapping : List (String × Option String))
    (cst : List (String × V)) (metric : (String → Option V) → Py K) (idx : ℕ) (date : K) :
    (m.call attr mapping cst metric idx date).1.dates = m.dates ∨
    (m.call attr mapping cst metric idx date).1.dates = m.dates ++ [date] := by
  unfold Metric.call
  cases metricKwargs attr mapping with
  | error e => exact Or.inl rfl
  | ok kw =>
    right
    simp only
    cases metric (toDict (kw ++ cst)) with
    | error e => rfl
    | ok v =>
      simp only
      split
      · unfold Metric.isConverge
        split <;> rfl
      · rfl

theorem one_call_times {A : Alg X K V} (hc : Monotone A.clock) {b : Obs K V} {t : ℕ} (h : TimesOk A [b] t)
    (attr : String → Option V) (idx : ℕ) :
    TimesOk A [{ b with hist := (b.hist.call attr b.mapping b.cst b.metric idx (A.clock t)).1 }] (t + 1) := by
  intro a ha
  rw [List.mem_singleton] at ha
  subst ha
  obtain ⟨h1, h2⟩ := h b List.mem_cons_self
  rcases call_dates b.hist attr b.mapping b.cst b.metric idx (A.clock t) with e | e
  · simp only [e]
    exact ⟨h1, fun d hd u hu => h2 d hd u (by omega)⟩
  · simp only [e]
    refine ⟨List.pairwise_append.2 ⟨h1, List.pairwise_singleton _ _, fun d hd y hy => ?_⟩, fun d hd u hu => ?_⟩
    · rw [List.mem_singleton] at hy
      subst hy
      exact h2 d hd t le_rfl
    · rcases List.mem_append.1 hd with hd | hd
      · exact h2 d hd u (by omega)
      · rw [List.mem_singleton] at hd
        subst hd
        exact hc (by omega)

theorem callObservers_times {A : Alg X K V} (hc : Monotone A.clock) (kw : List (String × V)) (idx : ℕ) :
    ∀ (l : List (Obs K V)) (t : ℕ), TimesOk A l t → TimesOk A (callObservers A kw idx t l).1 (t + l.length) ∧
      (callObservers A kw idx t l).1.length = l.length
  | [], t, _ => ⟨fun b hb => absurd hb (by simp [callObservers]), rfl⟩
  | b :: r, t, h => by
    have hb : TimesOk A [b] t := fun a ha => h a (by rw [List.mem_singleton] at ha; subst ha; exact List.mem_cons_self)
    have hr : TimesOk A r t := fun a ha => h a (List.mem_cons_of_mem _ ha)
    have h1 := one_call_times hc hb (signalAttr A kw idx) idx
    have cons : ∀ (a : Obs K V) (l : List (Obs K V)) (u : ℕ), TimesOk A [a] u → TimesOk A l u → TimesOk A (a :: l) u := by
      intro a l u ha hl c hcm
      rcases List.mem_cons.1 hcm with rfl | hcm
      · exact ha c List.mem_cons_self
      · exact hl c hcm
    simp only [callObservers]
    cases hq : b.hist.call (signalAttr A kw idx) b.mapping b.cst b.metric idx (A.clock t) with
    | mk m e =>
      rw [hq] at h1
      cases e with
      | some e =>
        refine ⟨cons _ _ _ (h1.mono ?_) (hr.mono ?_), by simp⟩ <;> simp only [List.length_cons] <;> omega
      | none =>
        obtain ⟨h2, h3⟩ := callObservers_times hc kw idx r (t + 1) (hr.mono (by omega))
        refine ⟨cons _ _ _ (h1.mono ?_) (h2.mono ?_), by simp [h3]⟩ <;> simp only [List.length_cons] <;> omega

/-- The part of the object that the recorded times depend on. -/
def TimesGood (A : Alg X K V) (o : Obj X K V) : Prop := TimesOk A o.observers o.ticks

theorem testConvergence_times (A : Alg X K V) (o : Obj X K V) (h : TimesGood A o) : TimesGood A (testConvergence A o).1 := by
  unfold testConvergence
  split
  · exact h
  · simp only
    split
    · exact h
    · split <;> exact h

theorem update1_times (A : Alg X K V) (i : ℕ) (o : Obj X K V) (h : TimesGood A o) : TimesGood A (update1 A i o).1 := by
  unfold update1
  split
  · exact h
  · exact testConvergence_times A _ h

theorem metricsStep_times {A : Alg X K V} (hc : Monotone A.clock) (m : ℕ) (o : Obj X K V) (h : TimesGood A o) :
    TimesGood A (metricsStep A m o).1 := by
  have hm : TimesGood A (computeMetrics A o).1 := by
    unfold computeMetrics
    split
    · exact h
    · rename_i kw _
      split
      · exact h
      · have := (callObservers_times hc kw o.idx o.observers o.ticks h).1
        simp only
        split <;> exact this
  unfold metricsStep
  split
  · split
    · exact h
    · split
      · exact h
      · split
        · exact hm
        · exact h
  · exact h

theorem loop_times {A : Alg X K V} (hc : Monotone A.clock) (m : ℕ) : ∀ (l : List ℕ) (o : Obj X K V), TimesGood A o →
    TimesGood A (loop A m l o).obj
  | [], _, h => h
  | i :: r, o, h => by
    have h1 := update1_times A i o h
    simp only [loop]
    cases hu : update1 A i o with
    | mk o1 e =>
      rw [hu] at h1
      cases e with
      | some e => exact h1
      | none =>
        have h2 := metricsStep_times hc m o1 h1
        simp only
        cases hs : metricsStep A m o1 with
        | mk o2 e =>
          rw [hs] at h2
          cases e with
          | some e => exact h2
          | none =>
            simp only
            split
            · exact h2
            · exact loop_times hc m r o2 h2

theorem iterate_times {A : Alg X K V} (hc : Monotone A.clock) (m : ℕ) (o : Obj X K V) (h : TimesGood A o) :
    TimesGood A (iterate A m o).obj := by
  have := loop_times hc m (List.range m) o h
  unfold iterate
  simp only
  split <;> exact this

theorem session_times {A : Alg X K V} (hc : Monotone A.clock) : ∀ (ms : List ℕ) (o : Obj X K V), TimesGood A o →
    TimesGood A (session A ms o)
  | [], _, h => h
  | m :: r, o, h => session_times hc r _ (iterate_times hc m o h)

theorem makeObservers_fresh {eps : K} : ∀ {l : List (String × Session.Spec K V)} {obs : List (Obs K V)},
    makeObservers eps l = .ok obs → ∀ b ∈ obs, b.hist.dates = []
  | [], obs, h => by cases h; simp
  | (name, d) :: r, obs, h => by
    simp only [makeObservers] at h
    rcases d with ⟨_ | metric, _ | mapping, _ | cst, _ | early⟩ <;>
      simp only [getKey, bind, Except.bind, reduceCtorEq] at h
    cases hr : makeObservers eps r with
    | error e => rw [hr] at h; cases h
    | ok rest =>
      rw [hr] at h
      cases h
      intro b hb
      rcases List.mem_cons.1 hb with rfl | hb
      · rfl
      · exact makeObservers_fresh hr b hb

/-- C145: if the clock never runs backwards, then in every session of `iterate` calls on an object from the constructor,
whatever raises, the times published with the metrics start at zero and never decrease. -/
theorem C145_times_nondecreasing (A : Alg X K V) (hc : Monotone A.clock) (eps : K)
    (specs : Option (List (String × Session.Spec K V))) (x : X) (cost : Option (CostObj K)) (o : Obj X K V)
    (ho : construct eps specs x cost = .ok o) (ms : List ℕ) (m : ℕ) (l : List (Entry K))
    (hl : (iterate A m (session A ms o)).obj.metrics = .results l)
    (hexc : (iterate A m (session A ms o)).exc = none) :
    ∀ e ∈ l, e.time.Pairwise (· ≤ ·) ∧ (∀ d ∈ e.time, 0 ≤ d) ∧ e.time.headD 0 = 0 := by
  have h0 : TimesGood A o := by
    unfold construct at ho
    simp only at ho
    cases hm : makeObservers eps (specs.getD []) with
    | error e => rw [hm] at ho; cases ho
    | ok obs =>
      rw [hm] at ho
      cases ho
      intro b hb
      rw [makeObservers_fresh hm b hb]
      exact ⟨List.Pairwise.nil, by simp⟩
  have h1 := session_times hc ms o h0
  have h2 := loop_times hc m (List.range m) _ h1
  have hloop : (loop A m (List.range m) (session A ms o)).exc = none := by
    unfold iterate at hexc
    simp only at hexc
    split at hexc
    · rename_i e he; rw [he] at hexc; cases hexc
    · assumption
  rw [iterate_of_no_exc hloop] at hl
  simp only [retrieveOutputs, MetricsAttr.results.injEq] at hl
  subst hl
  intro e he
  obtain ⟨i, hi, rfl⟩ := List.mem_mapIdx.1 he
  obtain ⟨g1, -⟩ := h2 _ (List.getElem_mem hi)
  simp only [entryOf, Metric.retrieve]
  generalize ((loop A m (List.range m) (session A ms o)).obj.observers[i]).hist.dates = ds at g1
  refine ⟨?_, ?_, ?_⟩
  · rw [List.pairwise_map]
    exact g1.imp fun h => sub_le_sub_right h _
  · intro d hd
    obtain ⟨a, ha, rfl⟩ := List.mem_map.1 hd
    rw [sub_nonneg]
    cases ds with
    | nil => cases ha
    | cons b r =>
      rcases List.mem_cons.1 ha with rfl | ha
      · exact le_rfl
      · exact List.rel_of_pairwise_cons g1 ha
  · cases ds <;> simp

/-- C145: the times are differences of readings of a clock that may be set back: if it is set back between two records, the
published times decrease, and can be negative. -/
theorem C145_clock_set_back (m : Metric K) (hm : m.dates = []) (attr : String → Option V) (metric : (String → Option V) → Py K)
    (v : K) (hv : ∀ k, metric k = .ok v) (i j : ℕ) (d d' : K) (hd : d' < d) :
    ((((m.call attr [] [] metric i d).1).call attr [] [] metric j d').1.retrieve).1 = [0, d' - d] ∧ d' - d < 0 := by
  refine ⟨?_, by linarith⟩
  have key : ∀ (m : Metric K) (i : ℕ) (d : K), (m.call attr [] [] metric i d).1.dates = m.dates ++ [d] := by
    intro m i d
    unfold Metric.call
    simp only [metricKwargs, hv]
    split
    · unfold Metric.isConverge
      split <;> rfl
    · rfl
  simp only [Metric.retrieve, key, hm]
  simp

/-- The demonstration object: its metric is published with times. -/
example : ∃ es, (iterate demoAlg 3 demoObj).obj.metrics = .results es ∧ es.map (·.name) = ["m"] ∧
    ∀ e ∈ es, e.time.Pairwise (· ≤ ·) ∧ (∀ d ∈ e.time, 0 ≤ d) ∧ e.time.headD 0 = 0 := by
  obtain ⟨N, -, es, -, -, -, -, h3, h4, -⟩ := C105_published_results demoAlg (1 / 10) [("m", demoSpec)] _ none demoObj
    demo_construct (by simp) 3 5 rfl (by norm_num) demo_reliable
  obtain ⟨N', -, -, -, h5, -⟩ := C105_metrics_record_every_update demoAlg demoObj 3 5 rfl (by norm_num) demo_reliable
    (by simp [demoObj]) rfl rfl
  exact ⟨es, h3, h4, C145_times_nondecreasing demoAlg (fun a b h => by simpa [demoAlg, fbAlg] using h) (1 / 10) _ _ none demoObj
    demo_construct [] 3 es h3 h5⟩

end Verif
