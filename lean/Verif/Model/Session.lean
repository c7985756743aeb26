import Verif.Model.Loop
import Verif.Model.Observable
import Verif.Model.Cost

/-!
# The whole algorithm object over a session of `iterate` calls

`Verif.Model.Loop` treats observers and cost object as parameters.  Here they are the real ones
(`Verif.Model.Observable`, `Verif.Model.Cost`), exceptions keep the object as it was left, and the results that
`iterate` publishes share the observers' lists, as in the code.  The algorithm itself is an update of a state
`X` that may raise.  `time.time()` is an arbitrary sequence of readings, one per observer call.
-/

namespace Verif.Session
open Observable Cost

variable {X K V : Type}

/-- A metric passed by the user: the dictionary `{"metric", "mapping", "cst_kwargs", "early_stopping"}`
(base.py:89-97); `none` means that the key is missing. -/
structure Spec (K V : Type) where
  metric : Option ((String → Option V) → Py K)
  mapping : Option (List (String × Option String))
  cst : Option (List (String × V))
  early : Option Bool

/-- A `MetricObserver` with its configuration (observable.py:205-225). -/
structure Obs (K V : Type) where
  name : String
  metric : (String → Option V) → Py K
  mapping : List (String × Option String)
  cst : List (String × V)
  hist : Metric K

/-- One entry of the dictionary built by `retrieve_metrics` (observable.py:266-287): `"time"` is a new array,
`"index"` and `"values"` are the observer's own lists, so the entry only refers to the observer. -/
structure Entry (K : Type) where
  name : String
  time : List K
  obs : ℕ

/-- The attribute `metrics`: the user's dictionary, of which only emptiness matters after construction, or the
results published by `retrieve_outputs`. -/
inductive MetricsAttr (K : Type)
  | specs (nonempty : Bool)
  | results (l : List (Entry K))

/-- Truth value of the attribute `metrics`. -/
def MetricsAttr.truthy : MetricsAttr K → Bool
  | .specs b => b
  | .results l => !l.isEmpty

/-- How `_update` combines the observers' flags and the cost test. -/
inductive Rule
  /-- `any_convergence_flag() or get_cost(..)`: ForwardBackward (forward_backward.py:462-465), POGM (990-993),
  Condat (primal_dual.py:217-220), gradient descent (gradient_descent.py:158-161) -/
  | flagsOrCost
  /-- `get_cost(..)`: GenForwardBackward (forward_backward.py:743-744) -/
  | costOnly
  /-- `converge = any_convergence_flag(); converge |= get_cost(..)`: ADMM (admm.py:172-174) -/
  | flagsThenCost
  deriving DecidableEq

/-- What stays fixed: the update with `self.idx = idx`, the dictionary of `get_notify_observers_kwargs` (without
its entry `"idx"`), the value stored under `"idx"`, the cost function, the convergence rule, the metric
period and the clock. -/
structure Alg (X K V : Type) where
  update : ℕ → X → X × Option PyErr
  kwargs : X → Py (List (String × V))
  idxVal : ℕ → V
  calcCost : X → Py K
  rule : Rule
  period : Option ℕ
  clock : ℕ → K

/-- The mutable attributes of an algorithm object. -/
structure Obj (X K V : Type) where
  x : X
  idx : ℕ
  converge : Bool
  observers : List (Obs K V)
  locked : Bool
  metrics : MetricsAttr K
  cost : Option (CostObj K)
  ticks : ℕ

/-- `dic[key]`. -/
def getKey {α : Type} : Option α → Py α
  | some a => .ok a
  | none => .error .keyError

/-- The loop over the user's dictionary in `SetUp.__init__` (base.py:89-97).  `wind` and `eps` keep the defaults
of `MetricObserver` (observable.py:211-212). -/
def makeObservers (eps : K) : List (String × Spec K V) → Py (List (Obs K V))
  | [] => .ok []
  | (name, d) :: r => do
    let metric ← getKey d.metric
    let mapping ← getKey d.mapping
    let cst ← getKey d.cst
    let early ← getKey d.early
    let rest ← makeObservers eps r
    return ⟨name, metric, mapping, cst, Metric.init 6 eps early⟩ :: rest

/-- `SetUp.__init__` (base.py:63-101) followed by the assignment of the initial state and of the cost
object. -/
def construct (eps : K) (specs : Option (List (String × Spec K V))) (x : X) (cost : Option (CostObj K)) :
    Py (Obj X K V) := do
  let l := specs.getD []
  let obs ← makeObservers eps l
  return ⟨x, 0, false, obs, false, .specs (!l.isEmpty), cost, 0⟩

/-- The signal object as seen by an observer: attributes set by `notify_observers` (observable.py:99-105). -/
def signalAttr (A : Alg X K V) (kw : List (String × V)) (idx : ℕ) (key : String) : Option V :=
  toDict (kw ++ [("idx", A.idxVal idx)]) key

variable [Field K] [LinearOrder K]

/-- `any_convergence_flag` (base.py:122-133). -/
def anyFlag (o : Obj X K V) : Bool := o.observers.any (·.hist.flag)

/-- The loop over the observers (observable.py:107-109); an exception leaves the remaining ones alone. -/
def callObservers (A : Alg X K V) (kw : List (String × V)) (idx : ℕ) :
    ℕ → List (Obs K V) → List (Obs K V) × Option PyErr
  | _, [] => ([], none)
  | t, b :: r =>
    match b.hist.call (signalAttr A kw idx) b.mapping b.cst b.metric idx (A.clock t) with
    | (m, some e) => ({ b with hist := m } :: r, some e)
    | (m, none) =>
      let q := callObservers A kw idx (t + 1) r
      ({ b with hist := m } :: q.1, q.2)

/-- `_compute_metrics` (base.py:242-250) and `notify_observers` (observable.py:78-111): the lock is released
only after the last observer. -/
def computeMetrics (A : Alg X K V) (o : Obj X K V) : Obj X K V × Option PyErr :=
  match A.kwargs o.x with
  | .error e => (o, some e)
  | .ok kw =>
    if o.locked then (o, none)
    else
      let q := callObservers A kw o.idx o.ticks o.observers
      let o' := { o with observers := q.1, ticks := o.ticks + o.observers.length }
      match q.2 with
      | some e => ({ o' with locked := true }, some e)
      | none => ({ o' with locked := false }, none)

variable [IsStrictOrderedRing K] [FloorRing K]

/-- The convergence test at the end of `_update` (lines in `Rule`), skipped without a cost object.  `or` does not
evaluate its right operand when the left one is true; an exception in the cost function leaves the flag
assigned before it. -/
def testConvergence (A : Alg X K V) (o : Obj X K V) : Obj X K V × Option PyErr :=
  match o.cost with
  | none => (o, none)
  | some c =>
    let f := anyFlag o
    if A.rule = .flagsOrCost ∧ f = true then ({ o with converge := true }, none)
    else
      match getCost A.calcCost c o.x with
      | (c', .error e) =>
        ({ o with cost := some c', converge := if A.rule = .flagsThenCost then f else o.converge }, some e)
      | (c', .ok b) =>
        ({ o with cost := some c', converge := if A.rule = .flagsThenCost then f || b else b }, none)

/-- `self.idx = idx; self._update()` (base.py:265-266). -/
def update1 (A : Alg X K V) (idx : ℕ) (o : Obj X K V) : Obj X K V × Option PyErr :=
  match A.update idx o.x with
  | (x, some e) => ({ o with idx := idx, x := x }, some e)
  | (x, none) => testConvergence A { o with idx := idx, x := x }

/-- Lines base.py:272-280, with the one-element tuple as condition. -/
def metricsStep (A : Alg X K V) (maxIter : ℕ) (o : Obj X K V) : Obj X K V × Option PyErr :=
  if o.metrics.truthy then
    match A.period with
    | none => (o, none)
    | some p =>
      if p = 0 then (o, some .zeroDivisionError)
      else if Loop.truthyTuple [decide (o.idx % p = 0) || decide (o.idx + 1 = maxIter) || o.converge] then
        computeMetrics A o
      else (o, none)
  else (o, none)

/-- The result of a call: the object, the exception if any, and the indices of the updates that were started. -/
structure Outcome (X K V : Type) where
  obj : Obj X K V
  exc : Option PyErr
  started : List ℕ

/-- `_iterations` (base.py:252-288). -/
def loop (A : Alg X K V) (maxIter : ℕ) : List ℕ → Obj X K V → Outcome X K V
  | [], o => ⟨o, none, []⟩
  | i :: r, o =>
    match update1 A i o with
    | (o1, some e) => ⟨o1, some e, [i]⟩
    | (o1, none) =>
      match metricsStep A maxIter o1 with
      | (o2, some e) => ⟨o2, some e, [i]⟩
      | (o2, none) =>
        if o2.converge then ⟨o2, none, [i]⟩
        else
          let q := loop A maxIter r o2
          ⟨q.obj, q.exc, i :: q.started⟩

/-- `retrieve_metrics` (observable.py:279-282) for the observer at position `i`. -/
def entryOf (i : ℕ) (b : Obs K V) : Entry K := ⟨b.name, b.hist.retrieve.1, i⟩

/-- `retrieve_outputs` (forward_backward.py:505-515 and, identical, forward_backward.py:784-794, forward_backward.py:1038-1048,
primal_dual.py:266-276, admm.py:212-222, gradient_descent.py:214-225).  Names are unique because metrics come from a
dictionary, so the dictionary of results is the list of entries. -/
def retrieveOutputs (o : Obj X K V) : Obj X K V :=
  { o with metrics := .results (o.observers.mapIdx entryOf) }

/-- `iterate(max_iter)` (forward_backward.py:467-485 and the other classes) without the assignment of
`x_final`: an exception skips `retrieve_outputs`. -/
def iterate (A : Alg X K V) (maxIter : ℕ) (o : Obj X K V) : Outcome X K V :=
  let q := loop A maxIter (List.range maxIter) o
  match q.exc with
  | some _ => q
  | none => { q with obj := retrieveOutputs q.obj }

/-- What a caller holding an entry of `alg.metrics` reads from it while the object is in state `o`: the time
array of the entry and the current content of the observer's lists. -/
def readEntry (o : Obj X K V) (e : Entry K) : Option (List K × List ℕ × List K) :=
  (o.observers[e.obs]?).map fun b => (e.time, b.hist.iters, b.hist.vals)

/-- A session: a sequence of `iterate` calls, exceptions being caught by the caller. -/
def session (A : Alg X K V) : List ℕ → Obj X K V → Obj X K V
  | [], o => o
  | m :: r, o => session A r (iterate A m o).obj

end Verif.Session
