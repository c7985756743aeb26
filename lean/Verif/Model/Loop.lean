import Verif.Core.Py
import Mathlib.Data.List.Basic
import Mathlib.Data.Nat.Init

/-!
# Model of the iteration driver (`src/modopt/opt/algorithms/base.py`)

The algorithm object is a state `σ`; `_update` and `_compute_metrics` are arbitrary operations on it
that may raise.  A run records the sequence of updates and metric evaluations.
Not modelled: the progress bar and verbose printing.
-/

namespace Verif.Loop

/-- What the driver does, in order. -/
inductive Ev
  | update (idx : ℕ)
  | metrics (idx : ℕ)
  | reweight
  deriving DecidableEq, Repr

/-- An algorithm built on `SetUp` (base.py:13-330): its `_update` with `self.idx = idx`
(base.py:265-266), its `_compute_metrics` (base.py:242-250), the attribute `self.converge`, whether
`self.metrics` is truthy, and `metric_call_period`. -/
structure Alg (σ : Type _) where
  update : ℕ → σ → Py σ
  computeMetrics : ℕ → σ → Py σ
  converge : σ → Bool
  hasMetrics : Bool
  period : Option ℕ

/-- The trace of a run and its outcome. -/
structure Run (σ : Type _) where
  trace : List Ev
  result : Py σ

/-- Truth value of a Python tuple: non-empty. -/
def truthyTuple (t : List Bool) : Bool := !t.isEmpty

/-- Lines base.py:272-280: metric evaluation after an update.  The condition is wrapped in a
one-element tuple (the trailing comma at base.py:276). -/
def metricsStep {σ : Type _} (A : Alg σ) (maxIter idx : ℕ) (s : σ) : List Ev × Py σ :=
  if A.hasMetrics then
    match A.period with
    | none => ([], .ok s)
    | some p =>
      if p = 0 then ([], .error .zeroDivisionError)
      else
        let cond : List Bool :=
          [decide (idx % p = 0) || decide (idx + 1 = maxIter) || A.converge s]
        if truthyTuple cond then ([.metrics idx], A.computeMetrics idx s) else ([], .ok s)
  else ([], .ok s)

/-- `_iterations` (base.py:252-288) over the remaining indices. -/
def iterLoop {σ : Type _} (A : Alg σ) (maxIter : ℕ) : List ℕ → σ → Run σ
  | [], s => ⟨[], .ok s⟩
  | idx :: rest, s =>
    match A.update idx s with
    | .error e => ⟨[.update idx], .error e⟩
    | .ok s1 =>
      match metricsStep A maxIter idx s1 with
      | (ev, .error e) => ⟨.update idx :: ev, .error e⟩
      | (ev, .ok s2) =>
        if A.converge s2 then ⟨.update idx :: ev, .ok s2⟩
        else
          let r := iterLoop A maxIter rest s2
          ⟨.update idx :: ev ++ r.trace, r.result⟩

/-- `_run_alg(max_iter)` (base.py:290-314): `for idx in range(max_iter)`. -/
def runAlg {σ : Type _} (A : Alg σ) (maxIter : ℕ) (s : σ) : Run σ :=
  iterLoop A maxIter (List.range maxIter) s

/-- The reweighting loop of `Condat.iterate` (primal_dual.py:238-243). -/
def reweightLoop {σ : Type _} (A : Alg σ) (reweight : σ → Py σ) (maxIter : ℕ) : ℕ → σ → Run σ
  | 0, s => ⟨[], .ok s⟩
  | n + 1, s =>
    match reweight s with
    | .error e => ⟨[.reweight], .error e⟩
    | .ok s1 =>
      match runAlg A maxIter s1 with
      | ⟨t, .error e⟩ => ⟨.reweight :: t, .error e⟩
      | ⟨t, .ok s2⟩ =>
        let r := reweightLoop A reweight maxIter n s2
        ⟨.reweight :: t ++ r.trace, r.result⟩

/-- `Condat.iterate(max_iter, n_rewightings)` (primal_dual.py:222-250); `rw = none` when no
reweighting object was given. -/
def condatIterate {σ : Type _} (A : Alg σ) (rw : Option (σ → Py σ)) (maxIter nRw : ℕ) (s : σ) :
    Run σ :=
  match runAlg A maxIter s with
  | ⟨t, .error e⟩ => ⟨t, .error e⟩
  | ⟨t, .ok s1⟩ =>
    match rw with
    | none => ⟨t, .ok s1⟩
    | some f =>
      let r := reweightLoop A f maxIter nRw s1
      ⟨t ++ r.trace, r.result⟩

/-! ## How the algorithms set `self.converge` -/

/-- The part of an algorithm object the stopping logic reads: iterate, observers, cost object,
`self.converge`. -/
structure Obj (X M C : Type) where
  x : X
  obs : M
  cost : C
  converge : Bool

/-- The user-supplied parts: the iterate update, the observers' reaction to a notification, whether
some observer has its flag up (`any_convergence_flag`, base.py:122-133), the cost object's `get_cost`
and whether there is a cost object at all. -/
structure Parts (X M C : Type) where
  step : ℕ → X → Py X
  notify : ℕ → X → M → Py M
  flag : M → Bool
  getCost : X → C → Py (Bool × C)
  hasCost : Bool

/-- The two ways the algorithms use `any_convergence_flag`. -/
inductive Rule
  /-- `self.any_convergence_flag() or self._cost_func.get_cost(x)`: ForwardBackward
  (forward_backward.py:462-465), POGM (990-993), Condat (primal_dual.py:217-220), gradient descent
  (gradient_descent.py:158-161). -/
  | flagsOrCost
  /-- `self._cost_func.get_cost(x)`: GenForwardBackward (forward_backward.py:743-744). -/
  | costOnly
  deriving DecidableEq

/-- `_update`: new iterate, then the convergence test, which is skipped when there is no cost
object; `or` does not evaluate its right operand when the left one is true. -/
def objUpdate {X M C : Type} (P : Parts X M C) (rule : Rule) (idx : ℕ) (o : Obj X M C) :
    Py (Obj X M C) := do
  let x ← P.step idx o.x
  if P.hasCost then
    match rule with
    | .flagsOrCost =>
      if P.flag o.obs then return { o with x := x, converge := true }
      else
        let (b, c) ← P.getCost x o.cost
        return { o with x := x, cost := c, converge := b }
    | .costOnly =>
      let (b, c) ← P.getCost x o.cost
      return { o with x := x, cost := c, converge := b }
  else return { o with x := x }

/-- The algorithm object as an `Alg`. -/
def objAlg {X M C : Type} (P : Parts X M C) (rule : Rule) (hasMetrics : Bool)
    (period : Option ℕ) : Alg (Obj X M C) where
  update := objUpdate P rule
  computeMetrics := fun idx o => do
    let m ← P.notify idx o.x o.obs
    return { o with obs := m }
  converge := (·.converge)
  hasMetrics := hasMetrics
  period := period

end Verif.Loop
