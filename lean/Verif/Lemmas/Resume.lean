import Verif.Lemmas.Session

/-!
# Simulation between objects that differ only in iteration indices
-/

set_option linter.unusedSectionVars false

namespace Verif.Session
open Observable Cost

variable {X K V : Type}

/-- Two observers that agree on everything except the recorded indices. -/
def SameRecord (b b' : Obs K V) : Prop :=
  SameMetric b b' ∧ b'.hist.vals = b.hist.vals ∧ b'.hist.dates = b.hist.dates ∧ b'.hist.flag = b.hist.flag

theorem SameRecord.refl (b : Obs K V) : SameRecord b b := ⟨SameMetric.refl b, rfl, rfl, rfl⟩

/-- No metric looks at the iteration index. -/
def IgnoresIdx (l : List (Obs K V)) : Prop := ∀ b ∈ l, ∀ p ∈ b.mapping, p.1 ≠ "idx"

/-- Objects that differ only in iteration indices and in the content of `metrics`. -/
structure Sim (o o' : Obj X K V) : Prop where
  x : o'.x = o.x
  converge : o'.converge = o.converge
  locked : o'.locked = o.locked
  truthy : o'.metrics.truthy = o.metrics.truthy
  cost : o'.cost = o.cost
  ticks : o'.ticks = o.ticks
  observers : List.Forall₂ SameRecord o.observers o'.observers

theorem toDict_append_idx (kw : List (String × V)) (v w : V) (key : String) (h : key ≠ "idx") :
    toDict (kw ++ [("idx", v)]) key = toDict (kw ++ [("idx", w)]) key := by
  have : ("idx" == key) = false := by simpa using fun h' => h h'.symm
  simp [toDict, this]

theorem metricKwargs_idx (A : Alg X K V) (kw : List (String × V)) (i j : ℕ) :
    ∀ (l : List (String × Option String)), (∀ p ∈ l, p.1 ≠ "idx") →
    metricKwargs (signalAttr A kw i) l = metricKwargs (signalAttr A kw j) l := by
  intro l
  induction l with
  | nil => intro _; rfl
  | cons a r ih =>
    intro h
    obtain ⟨key, name⟩ := a
    have hr := ih (fun p hp => h p (by simp [hp]))
    cases name with
    | none => simpa [metricKwargs] using hr
    | some n =>
      have hk : signalAttr A kw i key = signalAttr A kw j key :=
        toDict_append_idx kw _ _ key (h (key, some n) (by simp))
      simp only [metricKwargs, hk, hr]

variable [Field K] [LinearOrder K]

theorem call_sim {A : Alg X K V} {kw : List (String × V)} {i j : ℕ} {b b' : Obs K V} (h : SameRecord b b')
    (hi : ∀ p ∈ b.mapping, p.1 ≠ "idx") (d : K) :
    (b'.hist.call (signalAttr A kw j) b'.mapping b'.cst b'.metric j d).2 =
      (b.hist.call (signalAttr A kw i) b.mapping b.cst b.metric i d).2 ∧
    SameRecord { b with hist := (b.hist.call (signalAttr A kw i) b.mapping b.cst b.metric i d).1 }
      { b' with hist := (b'.hist.call (signalAttr A kw j) b'.mapping b'.cst b'.metric j d).1 } := by
  obtain ⟨⟨h1, h2, h3, h4, h5, h6, h7⟩, h8, h9, h10⟩ := h
  rw [h3, h4, h2]
  unfold Metric.call
  rw [metricKwargs_idx A kw j i _ hi]
  cases ha : metricKwargs (signalAttr A kw i) b.mapping with
  | error e => exact ⟨rfl, ⟨h1, rfl, rfl, rfl, h5, h6, h7⟩, h8, h9, h10⟩
  | ok args =>
    simp only
    cases hm : b.metric (toDict (args ++ b.cst)) with
    | error e => exact ⟨rfl, ⟨h1, rfl, rfl, rfl, h5, h6, h7⟩, h8, by simp [h9], h10⟩
    | ok v =>
      simp only [h7]
      refine ⟨trivial, ?_⟩
      cases he : b.hist.earlyStopping with
      | false =>
        refine ⟨⟨h1, rfl, rfl, rfl, ?_, ?_, ?_⟩, ?_, ?_, ?_⟩ <;>
          simp only [h5, h6, h8, h9, h10, Bool.false_eq_true, if_false]
      | true =>
        simp only [if_true, Metric.isConverge, h5, h8, h6]
        by_cases hl : (b.hist.vals ++ [v]).length < b.hist.wind
        · refine ⟨⟨h1, rfl, rfl, rfl, ?_, ?_, ?_⟩, ?_, ?_, ?_⟩ <;> simp only [hl, if_true, h9, h10]
        · refine ⟨⟨h1, rfl, rfl, rfl, ?_, ?_, ?_⟩, ?_, ?_, ?_⟩ <;> simp only [hl, if_false, h9, h10]

theorem callObservers_sim {A : Alg X K V} {kw : List (String × V)} {i j : ℕ} {l l' : List (Obs K V)}
    (h : List.Forall₂ SameRecord l l') (hi : IgnoresIdx l) : ∀ t,
    (callObservers A kw j t l').2 = (callObservers A kw i t l).2 ∧
    List.Forall₂ SameRecord (callObservers A kw i t l).1 (callObservers A kw j t l').1 := by
  induction h with
  | nil => intro t; exact ⟨rfl, .nil⟩
  | @cons b b' r r' hb hr ih =>
    intro t
    obtain ⟨c1, c2⟩ := call_sim (A := A) (kw := kw) (i := i) (j := j) hb (hi b (by simp)) (A.clock t)
    obtain ⟨d1, d2⟩ := ih (fun b hb => hi b (by simp [hb])) (t + 1)
    simp only [callObservers]
    cases e1 : b.hist.call (signalAttr A kw i) b.mapping b.cst b.metric i (A.clock t) with
    | mk m e =>
      cases e2 : b'.hist.call (signalAttr A kw j) b'.mapping b'.cst b'.metric j (A.clock t) with
      | mk m' e' =>
        rw [e1, e2] at c1 c2
        simp only at c1 c2
        subst c1
        cases e' with
        | some x => exact ⟨rfl, .cons c2 hr⟩
        | none => exact ⟨d1, .cons c2 d2⟩

theorem callObservers_mapping (A : Alg X K V) (kw : List (String × V)) (i : ℕ) : ∀ (l : List (Obs K V)) (t : ℕ),
    (callObservers A kw i t l).1.map (·.mapping) = l.map (·.mapping) := by
  intro l
  induction l with
  | nil => intro t; rfl
  | cons b r ih =>
    intro t
    simp only [callObservers]
    split
    · rfl
    · simp [ih]

theorem IgnoresIdx.of_mapping {l l' : List (Obs K V)} (h : IgnoresIdx l)
    (he : l'.map (·.mapping) = l.map (·.mapping)) : IgnoresIdx l' := by
  intro b hb
  have : b.mapping ∈ l.map (·.mapping) := he ▸ List.mem_map_of_mem hb
  obtain ⟨c, hc, hm⟩ := List.mem_map.mp this
  rw [← hm]; exact h c hc

variable [IsStrictOrderedRing K] [FloorRing K]

theorem anyFlag_sim {o o' : Obj X K V} (h : List.Forall₂ SameRecord o.observers o'.observers) :
    anyFlag o' = anyFlag o := by
  unfold anyFlag
  generalize o.observers = l at h
  generalize o'.observers = l' at h
  induction h with
  | nil => rfl
  | cons hb _ ih => simp only [List.any_cons, ih, hb.2.2.2]

theorem testConvergence_sim (A : Alg X K V) {o o' : Obj X K V} (h : Sim o o') :
    (testConvergence A o').2 = (testConvergence A o).2 ∧ Sim (testConvergence A o).1 (testConvergence A o').1 := by
  have hf := anyFlag_sim h.observers
  unfold testConvergence
  rw [h.cost]
  cases hc : o.cost with
  | none => exact ⟨rfl, h⟩
  | some c =>
    simp only [hf, h.x]
    by_cases hh : A.rule = .flagsOrCost ∧ anyFlag o = true
    · rw [if_pos hh, if_pos hh]
      exact ⟨rfl, ⟨by first | exact h.x | rfl, rfl, h.locked, h.truthy, by first | exact h.cost | rfl, h.ticks, h.observers⟩⟩
    · rw [if_neg hh, if_neg hh]
      cases hg : getCost A.calcCost c o.x with
      | mk c' r =>
        cases r with
        | error e => exact ⟨rfl, ⟨rfl, by simp only [h.converge], h.locked, h.truthy, rfl, h.ticks, h.observers⟩⟩
        | ok b => exact ⟨rfl, ⟨rfl, rfl, h.locked, h.truthy, rfl, h.ticks, h.observers⟩⟩

theorem update1_sim {A : Alg X K V} (hA : ∀ i j x, A.update i x = A.update j x) {o o' : Obj X K V} (h : Sim o o')
    (i j : ℕ) : (update1 A j o').2 = (update1 A i o).2 ∧ Sim (update1 A i o).1 (update1 A j o').1 := by
  unfold update1
  rw [h.x, hA j i]
  cases hu : A.update i o.x with
  | mk x e =>
    cases e with
    | some e => exact ⟨rfl, ⟨rfl, h.converge, h.locked, h.truthy, h.cost, h.ticks, h.observers⟩⟩
    | none =>
      exact testConvergence_sim A ⟨rfl, h.converge, h.locked, h.truthy, h.cost, h.ticks, h.observers⟩

theorem update1_observers (A : Alg X K V) (i : ℕ) (o : Obj X K V) : (update1 A i o).1.observers = o.observers := by
  unfold update1
  split
  · rfl
  · rename_i x hx
    exact (testConvergence_spec A { o with idx := i, x := x }).2.2.1

theorem metricsStep_mapping (A : Alg X K V) (m : ℕ) (o : Obj X K V) :
    (metricsStep A m o).1.observers.map (·.mapping) = o.observers.map (·.mapping) := by
  have hc : (computeMetrics A o).1.observers.map (·.mapping) = o.observers.map (·.mapping) := by
    unfold computeMetrics
    split
    · rfl
    · rename_i kw hkw
      by_cases hl : o.locked = true
      · rw [if_pos hl]
      · rw [if_neg hl]
        simp only
        split <;> exact callObservers_mapping A kw o.idx o.observers o.ticks
  unfold metricsStep
  by_cases h : o.metrics.truthy = true
  · rw [if_pos h]
    cases A.period with
    | none => rfl
    | some p =>
      simp only
      by_cases hp : p = 0
      · rw [if_pos hp]
      · rw [if_neg hp]
        split
        · exact hc
        · rfl
  · rw [if_neg h]

theorem metricsStep_sim {A : Alg X K V} {o o' : Obj X K V} (h : Sim o o') (hi : IgnoresIdx o.observers)
    (m m' : ℕ) : (metricsStep A m' o').2 = (metricsStep A m o).2 ∧
      Sim (metricsStep A m o).1 (metricsStep A m' o').1 := by
  by_cases ht : o.metrics.truthy = true
  · cases hp : A.period with
    | none =>
      simp only [metricsStep, h.truthy, ht, if_true, hp]; exact ⟨trivial, h⟩
    | some p =>
      by_cases hp0 : p = 0
      · simp only [metricsStep, h.truthy, ht, if_true, hp, hp0]; exact ⟨trivial, h⟩
      · rw [metricsStep_eq A m hp hp0 ht, metricsStep_eq A m' hp hp0 (h.truthy.trans ht)]
        unfold computeMetrics
        rw [h.x]
        cases hk : A.kwargs o.x with
        | error e => exact ⟨rfl, h⟩
        | ok kw =>
          simp only
          by_cases hl : o.locked = true
          · rw [if_pos hl, if_pos (h.locked.trans hl)]; exact ⟨rfl, h⟩
          · have hl' : ¬ o'.locked = true := by rw [h.locked]; exact hl
            rw [if_neg hl, if_neg hl', h.ticks]
            obtain ⟨c1, c2⟩ := callObservers_sim (A := A) (kw := kw) (i := o.idx) (j := o'.idx) h.observers hi
              o.ticks
            simp only [c1]
            have hlen := h.observers.length_eq
            cases hq : (callObservers A kw o.idx o.ticks o.observers).2 with
            | some e => exact ⟨rfl, ⟨rfl, h.converge, rfl, h.truthy, h.cost, by simp only [hlen], c2⟩⟩
            | none => exact ⟨rfl, ⟨rfl, h.converge, rfl, h.truthy, h.cost, by simp only [hlen], c2⟩⟩
  · have ht' : ¬ o'.metrics.truthy = true := by rw [h.truthy]; exact ht
    simp only [metricsStep, if_neg ht, if_neg ht']; exact ⟨trivial, h⟩

theorem loop_sim {A : Alg X K V} (hA : ∀ i j x, A.update i x = A.update j x) (m m' : ℕ) :
    ∀ (l l' : List ℕ) (o o' : Obj X K V), l.length = l'.length → Sim o o' → IgnoresIdx o.observers →
    (loop A m' l' o').exc = (loop A m l o).exc ∧
    (loop A m' l' o').started.length = (loop A m l o).started.length ∧
    Sim (loop A m l o).obj (loop A m' l' o').obj := by
  intro l
  induction l with
  | nil =>
    intro l' o o' hl h _
    cases l' with
    | nil => exact ⟨rfl, rfl, h⟩
    | cons _ _ => simp at hl
  | cons i r ih =>
    intro l' o o' hl h hi
    cases l' with
    | nil => simp at hl
    | cons j r' =>
      obtain ⟨u1, u2⟩ := update1_sim hA h i j
      have hobs := update1_observers A i o
      cases e1 : update1 A i o with
      | mk o1 x1 =>
        cases e2 : update1 A j o' with
        | mk o1' x1' =>
          rw [e1, e2] at u1 u2
          rw [e1] at hobs
          simp only at u1 u2 hobs
          subst u1
          cases x1' with
          | some e => simp only [loop, e1, e2]; exact ⟨trivial, rfl, u2⟩
          | none =>
            obtain ⟨m1, m2⟩ := metricsStep_sim (A := A) u2 (by rw [hobs]; exact hi) m m'
            have hmap := metricsStep_mapping A m o1
            cases f1 : metricsStep A m o1 with
            | mk o2 y =>
              cases f2 : metricsStep A m' o1' with
              | mk o2' y' =>
                rw [f1, f2] at m1 m2
                rw [f1] at hmap
                simp only at m1 m2 hmap
                subst m1
                cases y' with
                | some e => simp only [loop, e1, e2, f1, f2]; exact ⟨trivial, rfl, m2⟩
                | none =>
                  simp only [loop, e1, e2, f1, f2]
                  by_cases hc : o2.converge = true
                  · rw [if_pos hc, if_pos (m2.converge.trans hc)]; exact ⟨rfl, rfl, m2⟩
                  · have hc' : ¬ o2'.converge = true := by rw [m2.converge]; exact hc
                    rw [if_neg hc, if_neg hc']
                    obtain ⟨i1, i2, i3⟩ := ih r' o2 o2' (by simpa using hl) m2
                      ((hobs ▸ hi : IgnoresIdx o1.observers).of_mapping hmap)
                    exact ⟨i1, by simpa using i2, i3⟩

/-- The loop over `l ++ l'` when the part over `l` neither raised nor converged. -/
theorem loop_append {A : Alg X K V} (m : ℕ) (l' : List ℕ) : ∀ (l : List ℕ) (o : Obj X K V),
    (loop A m l o).exc = none → (loop A m l o).obj.converge = false →
    (loop A m (l ++ l') o).obj = (loop A m l' (loop A m l o).obj).obj ∧
    (loop A m (l ++ l') o).exc = (loop A m l' (loop A m l o).obj).exc ∧
    (loop A m (l ++ l') o).started = l ++ (loop A m l' (loop A m l o).obj).started ∧
    (loop A m l o).started = l := by
  intro l
  induction l with
  | nil => intro o _ _; exact ⟨rfl, rfl, rfl, rfl⟩
  | cons i r ih =>
    intro o he hc
    simp only [loop, List.cons_append] at he hc ⊢
    cases e1 : update1 A i o with
    | mk o1 x1 =>
      rw [e1] at he hc
      cases x1 with
      | some e => simp at he
      | none =>
        simp only at he hc ⊢
        cases f1 : metricsStep A m o1 with
        | mk o2 y =>
          rw [f1] at he hc
          cases y with
          | some e => simp at he
          | none =>
            simp only at he hc ⊢
            by_cases h2 : o2.converge = true
            · rw [if_pos h2] at hc; rw [h2] at hc; cases hc
            · rw [if_neg h2] at he hc ⊢
              obtain ⟨i1, i2, i3, i4⟩ := ih o2 he hc
              rw [if_neg h2]
              exact ⟨i1, i2, by simp [i3], by simp [i4]⟩

theorem loop_metrics (A : Alg X K V) (m : ℕ) : ∀ (l : List ℕ) (o : Obj X K V),
    (loop A m l o).obj.metrics = o.metrics ∧
    (loop A m l o).obj.observers.map (·.mapping) = o.observers.map (·.mapping) := by
  have hstep : ∀ o : Obj X K V, (metricsStep A m o).1.metrics = o.metrics := by
    intro o
    unfold metricsStep
    split
    · split
      · rfl
      · split
        · rfl
        · split
          · unfold computeMetrics
            split
            · rfl
            · split
              · rfl
              · simp only
                split <;> rfl
          · rfl
    · rfl
  have hup : ∀ i (o : Obj X K V), (update1 A i o).1.metrics = o.metrics := by
    intro i o
    unfold update1
    split
    · rfl
    · rename_i x hx
      exact (testConvergence_spec A { o with idx := i, x := x }).2.2.2.2.2.1
  intro l
  induction l with
  | nil => intro o; exact ⟨rfl, rfl⟩
  | cons i r ih =>
    intro o
    have h1 := hup i o
    have h2 := update1_observers A i o
    cases e1 : update1 A i o with
    | mk o1 x1 =>
      rw [e1] at h1 h2
      simp only at h1 h2
      cases x1 with
      | some e => simp only [loop, e1, h1, h2, and_self]
      | none =>
        have h3 := hstep o1
        have h4 := metricsStep_mapping A m o1
        cases f1 : metricsStep A m o1 with
        | mk o2 y =>
          rw [f1] at h3 h4
          simp only at h3 h4
          rw [h1] at h3
          rw [h2] at h4
          cases y with
          | some e => simp only [loop, e1, f1, h3, h4, and_self]
          | none =>
            simp only [loop, e1, f1]
            split
            · exact ⟨h3, h4⟩
            · obtain ⟨i1, i2⟩ := ih o2
              exact ⟨i1.trans h3, i2.trans h4⟩

end Verif.Session
