import Verif.Model.Session

/-!
# Specification vocabulary for sessions
-/

namespace Verif.Session
open Observable

variable {X K V : Type}

/-- Metric `b` evaluates to `v` on the algorithm state `x` at iteration `i`: the arguments are the mapped
attributes of the notification and the constant arguments. -/
def Sees (A : Alg X K V) (b : Obs K V) (x : X) (i : ℕ) (v : K) : Prop :=
  ∃ kw args, A.kwargs x = .ok kw ∧ metricKwargs (signalAttr A kw i) b.mapping = .ok args ∧
    b.metric (toDict (args ++ b.cst)) = .ok v

/-- The state after `k` updates with indices `0, 1, …` started from `x`. -/
def traj (A : Alg X K V) (x : X) : ℕ → X
  | 0 => x
  | k + 1 => (A.update k (traj A x k)).1

/-- Same metric, same configuration. -/
def SameMetric (b b' : Obs K V) : Prop :=
  b'.name = b.name ∧ b'.metric = b.metric ∧ b'.mapping = b.mapping ∧ b'.cst = b.cst ∧
    b'.hist.wind = b.hist.wind ∧ b'.hist.eps = b.hist.eps ∧ b'.hist.earlyStopping = b.hist.earlyStopping

/-- Nothing raises: neither the updates, nor the cost function, nor a metric, on states reached by an
update. -/
structure Reliable (A : Alg X K V) (o : Obj X K V) : Prop where
  update : ∀ i x, (A.update i x).2 = none
  cost : ∀ c, o.cost = some c → c.interval ≠ some 0
  costFun : o.cost ≠ none → ∀ i x, ∃ v, A.calcCost (A.update i x).1 = .ok v
  metrics : ∀ b ∈ o.observers, ∀ i x, ∃ v, Sees A b (A.update i x).1 i v

end Verif.Session
