import Verif.Lemmas.Loop

/-!
# C14–C16, C50: the iteration driver
-/

set_option linter.unusedSectionVars false

namespace Verif
open Loop
variable {σ : Type _}

/-! ## C14 -/

/-- C14: along the trajectory `s, traj 1, traj 2, ...` of successive iterations, a run with
`max_iter = m` performs the updates `0, 1, ..., n-1` in order and ends in `traj n`, where `n ≤ m`, no
iterate before the last is converged, and `n < m` only if the last one is. -/
theorem C14_stops_at_first_convergence (A : Alg σ) (m : ℕ) (traj : ℕ → σ)
    (hp : A.period ≠ some 0) (hstep : ∀ k < m, Iteration A k (traj k) (traj (k + 1))) :
    ∃ n ≤ m, (runAlg A m (traj 0)).result = .ok (traj n) ∧
      updates (runAlg A m (traj 0)).trace = List.range n ∧
      (∀ k, 1 ≤ k → k < n → A.converge (traj k) = false) ∧
      (n < m → 1 ≤ n ∧ A.converge (traj n) = true) := by
  obtain ⟨j, h1, h2, h3, h4, h5⟩ := iterLoop_spec A m traj m 0
    (fun k _ hk => fullStep_of_iteration hp (hstep k (by omega)))
  refine ⟨j, h1, ?_, ?_, ?_, ?_⟩
  · unfold runAlg; rw [List.range_eq_range', h2]; simp
  · unfold runAlg; rw [List.range_eq_range', h3, List.range_eq_range']
  · intro k hk hkj
    have := h4 (k - 1) (by omega)
    rwa [show 0 + (k - 1) + 1 = k by omega] at this
  · intro hj
    have := h5 hj
    rw [Nat.zero_add] at this; exact this

/-- C14, the number of updates made explicit: if iterate `c + 1` is the first converged one, exactly
`min max_iter (c + 1)` updates happen. -/
theorem C14_number_of_updates (A : Alg σ) (m c : ℕ) (traj : ℕ → σ)
    (hp : A.period ≠ some 0) (hstep : ∀ k < m, Iteration A k (traj k) (traj (k + 1)))
    (hfirst : ∀ k < c, A.converge (traj (k + 1)) = false) (hc : A.converge (traj (c + 1)) = true) :
    updates (runAlg A m (traj 0)).trace = List.range (min m (c + 1)) ∧
      (runAlg A m (traj 0)).result = .ok (traj (min m (c + 1))) := by
  obtain ⟨n, h1, h2, h3, h4, h5⟩ := C14_stops_at_first_convergence A m traj hp hstep
  have hn : n = min m (c + 1) := by
    rcases Nat.lt_or_ge (c + 1) n with h | h
    · have := h4 (c + 1) (by omega) h
      rw [hc] at this; cases this
    · rcases Nat.lt_or_ge n m with h' | h'
      · obtain ⟨h6, h7⟩ := h5 h'
        rcases Nat.lt_or_ge n (c + 1) with h8 | h8
        · have := hfirst (n - 1) (by omega)
          rw [show n - 1 + 1 = n by omega, h7] at this; cases this
        · omega
      · omega
  rw [← hn]; exact ⟨h3, h2⟩

/-- C14: a run that never converges performs exactly `max_iter` updates. -/
theorem C14_runs_to_max_iter (A : Alg σ) (m : ℕ) (traj : ℕ → σ)
    (hp : A.period ≠ some 0) (hstep : ∀ k < m, Iteration A k (traj k) (traj (k + 1)))
    (hnever : ∀ k < m, A.converge (traj (k + 1)) = false) :
    updates (runAlg A m (traj 0)).trace = List.range m ∧
      (runAlg A m (traj 0)).result = .ok (traj m) := by
  obtain ⟨n, h1, h2, h3, h4, h5⟩ := C14_stops_at_first_convergence A m traj hp hstep
  have hn : n = m := by
    rcases Nat.lt_or_ge n m with h | h
    · obtain ⟨h6, h7⟩ := h5 h
      have := hnever (n - 1) (by omega)
      rw [show n - 1 + 1 = n by omega, h7] at this; cases this
    · omega
  subst hn
  exact ⟨h3, h2⟩

/-- C14: whatever happens, including exceptions, at most `max_iter` updates are performed. -/
theorem C14_never_exceeds_max_iter (A : Alg σ) (m : ℕ) (s : σ) :
    (updates (runAlg A m s).trace).length ≤ m := by
  have := iterLoop_updates_length A m (List.range m) s
  rwa [List.length_range] at this

section Examples
/-- Counts down; converged at 0. -/
def exAlg : Alg ℕ := ⟨fun _ s => .ok (s - 1), fun _ s => .ok s, fun s => s == 0, false, some 5⟩
example : updates (runAlg exAlg 10 3).trace = [0, 1, 2] := by decide
example : updates (runAlg exAlg 10 3).trace = List.range (min 10 (2 + 1)) :=
  (C14_number_of_updates exAlg 10 2 (fun k => 3 - k) (by simp [exAlg])
    (fun k _ => ⟨3 - (k + 1), by simp [exAlg, Nat.sub_sub], by simp [exAlg]⟩)
    (by decide) (by decide)).1
end Examples

/-! ## C15 -/

/-- C15, what happens: with metrics configured and a non-zero period the metrics are evaluated after
every update, whatever the period. -/
theorem C15_metrics_evaluated_every_iteration (A : Alg σ) (m p : ℕ) (s s' : σ)
    (hm : A.hasMetrics = true) (hp : A.period = some p) (h0 : p ≠ 0)
    (hok : (runAlg A m s).result = .ok s') :
    metricCalls (runAlg A m s).trace = updates (runAlg A m s).trace :=
  metricCalls_iterLoop A m _ s p hm hp h0 ⟨s', hok⟩

/-- C15, refutation: for every period of at least two there is a run of three iterations that
evaluates the metrics after iteration 1, although the period does not divide 1, it is not the last
iteration and nothing has converged. -/
theorem C15_period_respected_refuted (p : ℕ) (hp : 2 ≤ p) :
    ∃ A : Alg ℕ, A.hasMetrics = true ∧ A.period = some p ∧ (∀ s, A.converge s = false) ∧
      ¬ p ∣ 1 ∧ 1 ∈ metricCalls (runAlg A 3 0).trace := by
  refine ⟨⟨fun _ s => .ok (s + 1), fun _ s => .ok s, fun _ => false, true, some p⟩, rfl, rfl,
    fun _ => rfl, ?_, ?_⟩
  · intro h; have := Nat.le_of_dvd (by omega) h; omega
  · rw [C15_metrics_evaluated_every_iteration _ 3 p 0 3 rfl rfl (by omega)]
    · simp [runAlg, List.range, List.range.loop, iterLoop, metricsStep, truthyTuple,
        show p ≠ 0 by omega, updates]
    · simp [runAlg, List.range, List.range.loop, iterLoop, metricsStep, truthyTuple,
        show p ≠ 0 by omega]

/-- C15, the part that holds: with period 1 the metrics are evaluated exactly after the documented
iterations, namely all of them (missing: larger periods, for which the claim is false). -/
theorem C15_period_one_partial (A : Alg σ) (m : ℕ) (s s' : σ)
    (hm : A.hasMetrics = true) (hp : A.period = some 1) (hok : (runAlg A m s).result = .ok s') :
    metricCalls (runAlg A m s).trace = (updates (runAlg A m s).trace).filter (fun i => i % 1 = 0) := by
  rw [C15_metrics_evaluated_every_iteration A m 1 s s' hm hp (by omega) hok]
  simp [Nat.mod_one]

/-- C15: without metrics, or with period `None`, metrics are never evaluated. -/
theorem C15_never_without_period (A : Alg σ) (m : ℕ) (s : σ)
    (h : A.hasMetrics = false ∨ A.period = none) : metricCalls (runAlg A m s).trace = [] :=
  metricCalls_none A m _ s h

/-- C15: period zero raises `ZeroDivisionError` after the first update. -/
theorem C15_period_zero_raises (A : Alg σ) (m : ℕ) (s s1 : σ) (hm : A.hasMetrics = true)
    (hp : A.period = some 0) (hu : A.update 0 s = .ok s1) (hpos : 0 < m) :
    (runAlg A m s).result = .error .zeroDivisionError ∧ updates (runAlg A m s).trace = [0] := by
  obtain ⟨n, rfl⟩ : ∃ n, m = n + 1 := ⟨m - 1, by omega⟩
  unfold runAlg
  rw [List.range_succ_eq_map]
  simp [iterLoop, hu, metricsStep, hm, hp]

/-! ## C16 -/

variable {X M C : Type}

/-- One successful iteration of an object whose iterate is computed without exceptions. -/
theorem objIteration_converge {P : Parts X M C} {r : Rule} {hm : Bool} {p : Option ℕ} {k : ℕ}
    {o o' : Obj X M C} (h : Iteration (objAlg P r hm p) k o o') :
    ∃ o1, objUpdate P r k o = .ok o1 ∧ o'.converge = o1.converge := by
  obtain ⟨o1, h1, h2⟩ := h
  refine ⟨o1, h1, ?_⟩
  split at h2
  · simp only [objAlg] at h2
    cases hn : P.notify k o1.x o1.obs with
    | error e => rw [hn] at h2; cases h2
    | ok m => rw [hn] at h2; cases h2; rfl
  · rw [h2]

/-- An update made while some observer's flag is up, in an algorithm with a cost object, sets
`converge`. -/
theorem objUpdate_flag {P : Parts X M C} {k : ℕ} {o o1 : Obj X M C} (hc : P.hasCost = true)
    (hf : P.flag o.obs = true) (h : objUpdate P .flagsOrCost k o = .ok o1) : o1.converge = true := by
  unfold objUpdate at h
  cases hs : P.step k o.x with
  | error e => rw [hs] at h; cases h
  | ok x => rw [hs] at h; simp [hc, hf, bind, Except.bind, pure, Except.pure] at h; rw [← h]

/-- C16: in the algorithms with the rule `any_convergence_flag() or get_cost(..)` and a cost object,
if an early-stopping flag is up after iteration `i`, then at most one more update happens; if nothing
converged before, it is update `i+1` and the run stops there. -/
theorem C16_flag_stops_next_iteration (P : Parts X M C) (hm : Bool) (p : Option ℕ) (m i : ℕ)
    (traj : ℕ → Obj X M C) (hc : P.hasCost = true) (hp : p ≠ some 0)
    (hstep : ∀ k < m, Iteration (objAlg P .flagsOrCost hm p) k (traj k) (traj (k + 1)))
    (hflag : P.flag (traj (i + 1)).obs = true) (hi : i + 1 < m) :
    (updates (runAlg (objAlg P .flagsOrCost hm p) m (traj 0)).trace).length ≤ i + 2 ∧
    ((∀ k ≤ i, (traj (k + 1)).converge = false) →
      updates (runAlg (objAlg P .flagsOrCost hm p) m (traj 0)).trace = List.range (i + 2)) := by
  obtain ⟨o1, h1, h2⟩ := objIteration_converge (hstep (i + 1) hi)
  have hconv : (traj (i + 2)).converge = true := by
    rw [h2]; exact objUpdate_flag hc hflag h1
  obtain ⟨n, k1, k2, k3, k4, k5⟩ := C14_stops_at_first_convergence _ m traj hp hstep
  constructor
  · rw [k3, List.length_range]
    by_contra hcon
    have := k4 (i + 2) (by omega) (by omega)
    simp only [objAlg] at this
    rw [hconv] at this; cases this
  · intro hno
    have := C14_number_of_updates _ m (i + 1) traj hp hstep
      (fun k hk => hno k (by omega)) hconv
    rw [this.1]; congr 1; omega

/-- C16: the flags are never lowered by the driver, so a second call of `iterate` on an object whose
flag is already up performs a single update. -/
theorem C16_restarted_run_single_update (P : Parts X M C) (hm : Bool) (p : Option ℕ) (m : ℕ)
    (traj : ℕ → Obj X M C) (hc : P.hasCost = true) (hp : p ≠ some 0)
    (hstep : ∀ k < m, Iteration (objAlg P .flagsOrCost hm p) k (traj k) (traj (k + 1)))
    (hflag : P.flag (traj 0).obs = true) (hpos : 0 < m) :
    updates (runAlg (objAlg P .flagsOrCost hm p) m (traj 0)).trace = [0] := by
  obtain ⟨o1, h1, h2⟩ := objIteration_converge (hstep 0 hpos)
  have hconv : (traj 1).converge = true := by
    rw [h2]; exact objUpdate_flag hc hflag h1
  have := (C14_number_of_updates _ m 0 traj hp hstep (by simp) hconv).1
  rw [this, show min m (0 + 1) = 1 by omega]; rfl

/-- C16, refutation: without a cost object (`cost=None`) the flags are never looked at; the run
always performs `max_iter` updates. -/
theorem C16_flag_ignored_without_cost (P : Parts X M C) (r : Rule) (hm : Bool) (p : Option ℕ) (m : ℕ)
    (traj : ℕ → Obj X M C) (hc : P.hasCost = false) (hp : p ≠ some 0)
    (h0 : (traj 0).converge = false)
    (hstep : ∀ k < m, Iteration (objAlg P r hm p) k (traj k) (traj (k + 1))) :
    updates (runAlg (objAlg P r hm p) m (traj 0)).trace = List.range m := by
  have hno : ∀ k ≤ m, (traj k).converge = false := by
    intro k
    induction k with
    | zero => intro _; exact h0
    | succ k ih =>
      intro hk
      obtain ⟨o1, h1, h2⟩ := objIteration_converge (hstep k (by omega))
      rw [h2]
      unfold objUpdate at h1
      cases hs : P.step k (traj k).x with
      | error e => rw [hs] at h1; cases h1
      | ok x =>
        rw [hs] at h1
        simp [hc, bind, Except.bind, pure, Except.pure] at h1
        rw [← h1]; exact ih (by omega)
  exact (C14_runs_to_max_iter _ m traj hp hstep (fun k hk => hno (k + 1) (by omega))).1

/-- C16, refutation: in the generalised forward-backward algorithm (rule `costOnly`) the flags are
never looked at either: if the cost test never succeeds, the run performs `max_iter` updates. -/
theorem C16_flag_ignored_by_costOnly (P : Parts X M C) (hm : Bool) (p : Option ℕ) (m : ℕ)
    (traj : ℕ → Obj X M C) (hc : P.hasCost = true) (hp : p ≠ some 0)
    (hcost : ∀ x c b c', P.getCost x c = .ok (b, c') → b = false)
    (hstep : ∀ k < m, Iteration (objAlg P .costOnly hm p) k (traj k) (traj (k + 1))) :
    updates (runAlg (objAlg P .costOnly hm p) m (traj 0)).trace = List.range m := by
  refine (C14_runs_to_max_iter _ m traj hp hstep (fun k hk => ?_)).1
  obtain ⟨o1, h1, h2⟩ := objIteration_converge (hstep k hk)
  show (traj (k + 1)).converge = false
  rw [h2]
  unfold objUpdate at h1
  cases hs : P.step k (traj k).x with
  | error e => rw [hs] at h1; cases h1
  | ok x =>
    rw [hs] at h1
    cases hg : P.getCost x (traj k).cost with
    | error e => simp [hc, hg, bind, Except.bind] at h1
    | ok bc =>
      obtain ⟨b, c⟩ := bc
      simp [hc, hg, bind, Except.bind, pure, Except.pure] at h1
      rw [← h1]; exact hcost _ _ _ _ hg

/-- C16: when a flag is up the cost object is not consulted, so the cost of that iterate is missing
from the recorded history. -/
theorem C16_flag_skips_cost (P : Parts X M C) (k : ℕ) (o o1 : Obj X M C) (hc : P.hasCost = true)
    (hf : P.flag o.obs = true) (h : objUpdate P .flagsOrCost k o = .ok o1) : o1.cost = o.cost := by
  unfold objUpdate at h
  cases hs : P.step k o.x with
  | error e => rw [hs] at h; cases h
  | ok x => rw [hs] at h; simp [hc, hf, bind, Except.bind, pure, Except.pure] at h; rw [← h]

section Examples
/-- The iterate counts up, the (single) metric raises its flag when it sees 2. -/
def exParts (hasCost : Bool) : Parts ℕ Bool Unit :=
  ⟨fun _ x => .ok (x + 1), fun _ x _ => .ok (x == 2), id, fun _ c => .ok (false, c), hasCost⟩
def exObj : Obj ℕ Bool Unit := ⟨0, false, (), false⟩
example : updates (runAlg (objAlg (exParts true) .flagsOrCost true (some 1)) 10 exObj).trace
    = [0, 1, 2] := by decide
example : updates (runAlg (objAlg (exParts false) .flagsOrCost true (some 1)) 10 exObj).trace
    = List.range 10 := by decide
example : updates (runAlg (objAlg (exParts true) .costOnly true (some 1)) 10 exObj).trace
    = List.range 10 := by decide
/-- Hypotheses of `C16_flag_stops_next_iteration` met with `i = 1`. -/
example : let traj : ℕ → Obj ℕ Bool Unit := fun k =>
      ⟨k, k == 2, (), decide (2 < k)⟩
    updates (runAlg (objAlg (exParts true) .flagsOrCost true (some 1)) 3 (traj 0)).trace
      = List.range 3 := by
  intro traj
  refine (C16_flag_stops_next_iteration (exParts true) true (some 1) 3 1 traj rfl (by simp) ?_ rfl
    (by omega)).2 (by decide)
  intro k hk
  have : k = 0 ∨ k = 1 ∨ k = 2 := by omega
  rcases this with rfl | rfl | rfl <;> exact ⟨_, rfl, rfl⟩
end Examples

/-! ## C50 -/

/-- C50: `iterate(max_iter, n_rewightings)` of the Condat algorithm never performs more than
`(1 + n_rewightings) * max_iter` updates, reweights at most `n_rewightings` times, exactly that many
times when it completes, and never without a reweighting object. -/
theorem C50_condat_counts (A : Alg σ) (rw : Option (σ → Py σ)) (m n : ℕ) (s : σ) :
    (updates (condatIterate A rw m n s).trace).length ≤ (1 + n) * m ∧
    reweights (condatIterate A rw m n s).trace ≤ n ∧
    (∀ s', rw.isSome → (condatIterate A rw m n s).result = .ok s' →
      reweights (condatIterate A rw m n s).trace = n) ∧
    (rw = none → reweights (condatIterate A rw m n s).trace = 0 ∧
      (updates (condatIterate A rw m n s).trace).length ≤ m) := by
  have hl := iterLoop_updates_length A m (List.range m) s
  have hr := iterLoop_reweights A m (List.range m) s
  rw [List.length_range] at hl
  have e : (1 + n) * m = m + n * m := by rw [Nat.add_mul]; omega
  unfold condatIterate
  cases hrun : runAlg A m s with
  | mk t r =>
    unfold runAlg at hrun
    rw [hrun] at hl hr
    simp only at hl hr
    cases r with
    | error e' => exact ⟨by simp only; omega, by simp only; omega, by simp, fun _ => ⟨hr, hl⟩⟩
    | ok s1 =>
      cases rw with
      | none => exact ⟨by simp only; omega, by simp only; omega, by simp, fun _ => ⟨hr, hl⟩⟩
      | some f =>
        obtain ⟨h1, h2, h3⟩ := reweightLoop_spec A f m n s1
        refine ⟨by simp; omega, by simp [hr]; omega, ?_, by simp⟩
        intro s' _ h
        have := h3 ⟨s', h⟩
        simp [hr, this]

/-- C50: with no convergence and no exceptions each of the `1 + n_rewightings` runs performs exactly
`max_iter` updates, so the total is exactly `(1 + n_rewightings) * max_iter`. -/
theorem C50_condat_counts_exact (A : Alg σ) (f : σ → Py σ) (m n : ℕ) (s : σ)
    (hp : A.hasMetrics = false) (hu : ∀ k s, ∃ s', A.update k s = .ok s' ∧ A.converge s' = false)
    (hf : ∀ s, ∃ s', f s = .ok s') :
    (updates (condatIterate A (some f) m n s).trace).length = (1 + n) * m := by
  have hrun : ∀ (l : List ℕ) s, ∃ s', (iterLoop A m l s).result = .ok s' ∧
      updates (iterLoop A m l s).trace = l := by
    intro l
    induction l with
    | nil => intro s; exact ⟨s, rfl, rfl⟩
    | cons i l ih =>
      intro s
      obtain ⟨s1, h1, h2⟩ := hu i s
      obtain ⟨s2, h3, h4⟩ := ih s1
      refine ⟨s2, ?_, ?_⟩
      · simp [iterLoop, h1, metricsStep, hp, h2, h3]
      · simp [iterLoop, h1, metricsStep, hp, h2, h4]
  have hre : ∀ n s, (updates (reweightLoop A f m n s).trace).length = n * m := by
    intro n
    induction n with
    | zero => intro s; simp [reweightLoop]
    | succ n ih =>
      intro s
      obtain ⟨s1, h1⟩ := hf s
      obtain ⟨s2, h3, h4⟩ := hrun (List.range m) s1
      cases hc : iterLoop A m (List.range m) s1 with
      | mk t r =>
        rw [hc] at h3 h4
        simp only at h3 h4
        subst h3
        simp [reweightLoop, h1, runAlg, hc, h4, ih, Nat.add_mul]; omega
  obtain ⟨s2, h3, h4⟩ := hrun (List.range m) s
  cases hc : iterLoop A m (List.range m) s with
  | mk t r =>
    rw [hc] at h3 h4
    simp only at h3 h4
    subst h3
    simp [condatIterate, runAlg, hc, h4, hre, Nat.add_mul]

example : (updates (condatIterate (⟨fun _ s => .ok (s + 1), fun _ s => .ok s, fun _ => false, false,
    none⟩ : Alg ℕ) (some fun s => .ok s) 4 2 0).trace).length = (1 + 2) * 4 :=
  C50_condat_counts_exact _ _ 4 2 0 rfl (fun _ s => ⟨s + 1, rfl, rfl⟩) (fun s => ⟨s, rfl⟩)

end Verif
