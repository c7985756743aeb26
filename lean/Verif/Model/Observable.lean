import Verif.Core.Py
import Mathlib.Data.List.Basic
import Mathlib.Algebra.Order.Field.Basic
import Mathlib.Algebra.BigOperators.Group.List.Basic
import Mathlib.Logic.Function.Basic

/-!
# Model of `src/modopt/base/observable.py`

Observers are opaque identities; what an observer does when called is a program over the same
observable (it may issue nested notifications, register observers, or raise).  Since such programs
may call back into `notify_observers`, the interpreter takes a fuel argument and returns `none` when
it runs out; the theorems show that enough fuel always exists.
-/

namespace Verif.Observable

variable {S O : Type _} [DecidableEq S] [DecidableEq O]

/-- The attributes of `Observable` (observable.py:20-174); none of the
subclasses in the package adds an attribute called `_is_allowed_event`. -/
def observableAttrs : List String :=
  ["__init__", "add_observer", "remove_observer", "notify_observers", "_get_allowed_signals",
   "allowed_signals", "_is_allowed_signal", "_add_observer", "_remove_observer",
   "_allowed_signals", "_observers", "_locked"]

/-- `self.<name>`: `AttributeError` when the name does not exist. -/
def lookupAttr (name : String) : Py Unit :=
  if name ∈ observableAttrs then .ok () else .error .attributeError

/-- An `Observable` object: `_allowed_signals`, `_observers` (a dict) and `_locked`. -/
structure State (S O : Type _) where
  allowed : List S
  observers : S → Option (List O)
  locked : Bool

/-- `Observable.__init__` (observable.py:33-44). -/
def init (signals : List S) : State S O where
  allowed := signals
  observers := fun s => if s ∈ signals then some [] else none
  locked := false

/-- `_is_allowed_signal` (observable.py:128-146). -/
def isAllowedSignal (st : State S O) (s : S) : Py Unit :=
  if s ∈ st.allowed then .ok () else .error .valueError

/-- `_add_observer` (observable.py:148-160). -/
def addObserverRaw (st : State S O) (s : S) (o : O) : Py (State S O) :=
  match st.observers s with
  | none => .error .keyError
  | some l =>
    if o ∈ l then .ok st
    else .ok { st with observers := Function.update st.observers s (some (l ++ [o])) }

/-- `add_observer` (observable.py:46-60). -/
def addObserver (st : State S O) (s : S) (o : O) : Py (State S O) := do
  isAllowedSignal st s
  addObserverRaw st s o

/-- `_remove_observer` (observable.py:162-174): `list.remove` drops the first occurrence. -/
def removeObserverRaw (st : State S O) (s : S) (o : O) : Py (State S O) :=
  match st.observers s with
  | none => .error .keyError
  | some l =>
    if o ∈ l then .ok { st with observers := Function.update st.observers s (some (l.erase o)) }
    else .ok st

/-- `remove_observer` (observable.py:62-76): looks up `self._is_allowed_event` first. -/
def removeObserver (st : State S O) (s : S) (o : O) : Py (State S O) := do
  lookupAttr "_is_allowed_event"
  isAllowedSignal st s
  removeObserverRaw st s o

/-- What an observer may do with the observable when it is called. -/
inductive Cmd (S O : Type _)
  | notify (s : S)
  | add (s : S) (o : O)
  | raise (e : PyErr)

/-- Observable effects, in order: an observer is called for a signal; a nested `notify_observers`
returns a value. -/
inductive Event (S O : Type _)
  | called (o : O) (s : S)
  | returned (s : S) (v : Option Bool)
  deriving DecidableEq

/-- Outcome of a call: the returned value (`None` is `none`) or exception, the new object, the
events. -/
structure Res (S O : Type _) where
  value : Py (Option Bool)
  state : State S O
  events : List (Event S O)

mutual

/-- `notify_observers` (observable.py:78-111). -/
def notify (beh : O → List (Cmd S O)) : ℕ → State S O → S → Option (Res S O)
  | 0, _, _ => none
  | f + 1, st, s =>
    if st.locked then some ⟨.ok (some false), st, []⟩
    else
      let st1 := { st with locked := true }
      match st1.observers s with
      | none => some ⟨.error .keyError, st1, []⟩
      | some _ => notifyLoop beh f st1 s 0

/-- The `for observer in self._observers[signal]` loop (observable.py:107-111), which reads the live
list, followed by the unlock and the implicit `return None`. -/
def notifyLoop (beh : O → List (Cmd S O)) : ℕ → State S O → S → ℕ → Option (Res S O)
  | 0, _, _, _ => none
  | f + 1, st, s, i =>
    match ((st.observers s).getD [])[i]? with
    | none => some ⟨.ok none, { st with locked := false }, []⟩
    | some o =>
      match runProg beh f st (beh o) with
      | none => none
      | some ⟨.error e, st', ev⟩ => some ⟨.error e, st', .called o s :: ev⟩
      | some ⟨.ok _, st', ev⟩ =>
        match notifyLoop beh f st' s (i + 1) with
        | none => none
        | some r => some { r with events := .called o s :: ev ++ r.events }

/-- The body of an observer. -/
def runProg (beh : O → List (Cmd S O)) : ℕ → State S O → List (Cmd S O) → Option (Res S O)
  | 0, _, _ => none
  | _ + 1, st, [] => some ⟨.ok none, st, []⟩
  | f + 1, st, .notify s :: cs =>
    match notify beh f st s with
    | none => none
    | some ⟨.error e, st', ev⟩ => some ⟨.error e, st', ev⟩
    | some ⟨.ok v, st', ev⟩ =>
      match runProg beh f st' cs with
      | none => none
      | some r => some { r with events := ev ++ .returned s v :: r.events }
  | f + 1, st, .add s o :: cs =>
    match addObserver st s o with
    | .error e => some ⟨.error e, st, []⟩
    | .ok st' => runProg beh f st' cs
  | _ + 1, st, .raise e :: _ => some ⟨.error e, st, []⟩

end

/-- Calls a client can make on an observable. -/
inductive Op (S O : Type _)
  | notify (s : S)
  | add (s : S) (o : O)
  | remove (s : S) (o : O)

/-- One client call; an exception is caught by the client and leaves the object as the call left
it. -/
def runOp (beh : O → List (Cmd S O)) (fuel : ℕ) (st : State S O) : Op S O → Option (Res S O)
  | .notify s => notify beh fuel st s
  | .add s o =>
    match addObserver st s o with
    | .ok st' => some ⟨.ok none, st', []⟩
    | .error e => some ⟨.error e, st, []⟩
  | .remove s o =>
    match removeObserver st s o with
    | .ok st' => some ⟨.ok none, st', []⟩
    | .error e => some ⟨.error e, st, []⟩

/-- A client history: the list of outcomes and the final object. -/
def runOps (beh : O → List (Cmd S O)) (fuel : ℕ) :
    State S O → List (Op S O) → Option (List (Py (Option Bool) × List (Event S O)) × State S O)
  | st, [] => some ([], st)
  | st, op :: ops =>
    match runOp beh fuel st op with
    | none => none
    | some r =>
      match runOps beh fuel r.state ops with
      | none => none
      | some (rs, st') => some ((r.value, r.events) :: rs, st')

/-! ## MetricObserver -/

variable {K : Type _}

/-- A `MetricObserver` (observable.py:205-225): configuration and the recorded lists. -/
structure Metric (K : Type _) where
  wind : ℕ := 6
  eps : K
  earlyStopping : Bool
  iters : List ℕ
  dates : List K
  vals : List K
  flag : Bool

/-- `MetricObserver.__init__`: empty histories, flag down. -/
def Metric.init (wind : ℕ) (eps : K) (early : Bool) : Metric K :=
  ⟨wind, eps, early, [], [], [], false⟩

/-- NumPy mean of a list; `none` is `nan` (empty list). -/
def npMean [Field K] (l : List K) : Option K :=
  if l = [] then none else some (l.sum / (l.length : K))

/-- Python slice with a negative start: `l[-n:]` for `n > 0`; `l[-0:]` is the whole list. -/
def lastN {α : Type _} (l : List α) (n : ℕ) : List α :=
  if n = 0 then l else l.drop (l.length - n)

/-- Python slice `l[-a:-b]`, where `-0` is position `0`. -/
def sliceNeg {α : Type _} (l : List α) (a b : ℕ) : List α :=
  let lo := if a = 0 then 0 else l.length - a
  let hi := if b = 0 then 0 else l.length - b
  (l.drop lo).take (hi - lo)

/-- `abs(old - cur) / abs(old) < eps` with NumPy semantics: a `nan` operand or a zero denominator
makes the comparison false. -/
def relChangeBelow [Field K] [LinearOrder K] (old cur : Option K) (eps : K) : Bool :=
  match old, cur with
  | some o, some c => if o = 0 then false else decide (|o - c| / |o| < eps)
  | _, _ => false

/-- `is_converge` (observable.py:251-264). -/
def Metric.isConverge [Field K] [LinearOrder K] (m : Metric K) : Metric K :=
  if m.vals.length < m.wind then m
  else
    let old := npMean (sliceNeg m.vals m.wind (m.wind / 2))
    let cur := npMean (lastN m.vals (m.wind / 2))
    { m with flag := relChangeBelow old cur m.eps }

/-- Keyword arguments of the metric (observable.py:239-243): the mapping (entries mapped to `None` are
skipped, a missing attribute of the signal raises `AttributeError`), then `cst_kwargs` on top.
See `toDict` for how repeated keys are resolved. -/
def metricKwargs {V : Type _} (attr : String → Option V) :
    List (String × Option String) → Py (List (String × V))
  | [] => .ok []
  | (_, none) :: r => metricKwargs attr r
  | (key, some name) :: r =>
    match attr key with
    | none => .error .attributeError
    | some v => do
      let rest ← metricKwargs attr r
      return (name, v) :: rest

/-- A Python dict built by successive assignments: the last value assigned to a key wins. -/
def toDict {V : Type _} (l : List (String × V)) (name : String) : Option V :=
  (l.reverse.find? (fun p => p.1 == name)).map (·.2)

/-- `__call__` (observable.py:227-249).  The iteration and the date are appended before the metric is
evaluated, so an exception in the metric leaves them recorded without a value.  Returns the object
and the exception, if any. -/
def Metric.call [Field K] [LinearOrder K] {V : Type _} (m : Metric K)
    (attr : String → Option V) (mapping : List (String × Option String)) (cst : List (String × V))
    (metric : (String → Option V) → Py K) (idx : ℕ) (date : K) : Metric K × Option PyErr :=
  match metricKwargs attr mapping with
  | .error e => (m, some e)
  | .ok kw =>
    let m1 := { m with iters := m.iters ++ [idx], dates := m.dates ++ [date] }
    match metric (toDict (kw ++ cst)) with
    | .error e => (m1, some e)
    | .ok v =>
      let m2 := { m1 with vals := m1.vals ++ [v] }
      (if m2.earlyStopping then m2.isConverge else m2, none)

/-- `retrieve_metrics` (observable.py:266-287): times relative to the first date. -/
def Metric.retrieve [Field K] (m : Metric K) : List K × List ℕ × List K :=
  (m.dates.map (fun d => d - m.dates.headD 0), m.iters, m.vals)

end Verif.Observable
