import Verif.Model.Loop

/-!
# Specification vocabulary for runs: projections of a trace
-/

namespace Verif.Loop

/-- Indices of the updates of a trace. -/
def updates (t : List Ev) : List ℕ := t.filterMap fun | .update i => some i | _ => none
/-- Indices of the metric evaluations of a trace. -/
def metricCalls (t : List Ev) : List ℕ := t.filterMap fun | .metrics i => some i | _ => none
/-- Number of reweightings of a trace. -/
def reweights (t : List Ev) : ℕ := t.countP fun e => decide (e = .reweight)

/-- One complete, successful iteration with index `k`: the update, followed by a metric evaluation
when metrics are configured. -/
def Iteration {σ : Type _} (A : Alg σ) (k : ℕ) (s s' : σ) : Prop :=
  ∃ s1, A.update k s = .ok s1 ∧
    if A.hasMetrics = true ∧ A.period.isSome then A.computeMetrics k s1 = .ok s' else s' = s1

end Verif.Loop
