import Verif.Lemmas.Observable
import Mathlib.Tactic.Linarith
import Mathlib.Tactic.FieldSimp
import Mathlib.Tactic.NormNum
import Mathlib.Algebra.Order.Ring.Rat

/-!
# C09–C13: observers and metric observers
-/

set_option linter.unusedSectionVars false

namespace Verif
open Observable
variable {S O : Type} [DecidableEq S] [DecidableEq O]

/-! ## C09 -/

/-- C09: an unlocked notification calls every registered observer exactly once, in registration
order; the notifications those observers issue themselves (any number, any signal) are dropped and
return `False`; afterwards the observable is as before, unlocked.  `nested o` lists the signals that
observer `o` notifies while being called. -/
theorem C09_notify_calls_each_once (beh : O → List (Cmd S O)) (st : State S O) (s : S) (l : List O)
    (hun : st.locked = false) (hs : st.observers s = some l) (nested : O → List S)
    (hb : ∀ o ∈ l, beh o = (nested o).map .notify) :
    ∃ F, ∀ fuel ≥ F, ∃ r, notify beh fuel st s = some r ∧ r.value = .ok none ∧ r.state = st ∧
      r.events = l.flatMap fun o =>
        .called o s :: (nested o).map fun s' => .returned s' (some false) := by
  obtain ⟨B, hB⟩ : ∃ B, ∀ o ∈ l, (nested o).length ≤ B := by
    clear hb hs
    induction l with
    | nil => exact ⟨0, by simp⟩
    | cons o l ih =>
      obtain ⟨B, hB⟩ := ih
      refine ⟨max B (nested o).length, ?_⟩
      intro p hp
      rcases List.mem_cons.1 hp with rfl | hp
      · exact le_max_right _ _
      · exact (hB p hp).trans (le_max_left _ _)
  refine ⟨l.length + B + 4, fun fuel hf => ?_⟩
  obtain ⟨f, rfl⟩ : ∃ f, fuel = f + 1 := ⟨fuel - 1, by omega⟩
  have h := notifyLoop_quiet beh { st with locked := true } rfl s l hs nested hb B hB l.length 0
    (by omega) f (by omega)
  refine ⟨⟨.ok none, st, l.flatMap fun o =>
        .called o s :: (nested o).map fun s' => .returned s' (some false)⟩, ?_, rfl, rfl, rfl⟩
  · rw [notify]
    simp only [hun, Bool.false_eq_true, if_false, hs]
    rw [h]; simp
    cases st; simp at hun; simp [hun]

/-- C09: the observers called are exactly the registered ones in order. -/
theorem C09_notify_order (beh : O → List (Cmd S O)) (st : State S O) (s : S) (l : List O)
    (hun : st.locked = false) (hs : st.observers s = some l) (nested : O → List S)
    (hb : ∀ o ∈ l, beh o = (nested o).map .notify) :
    ∃ F, ∀ fuel ≥ F, ∃ r, notify beh fuel st s = some r ∧
      r.events.filterMap (fun e => match e with
        | .called o s' => some (o, s') | .returned _ _ => none) = l.map fun o => (o, s) := by
  obtain ⟨F, hF⟩ := C09_notify_calls_each_once beh st s l hun hs nested hb
  refine ⟨F, fun fuel hf => ?_⟩
  obtain ⟨r, h1, _, _, h4⟩ := hF fuel hf
  refine ⟨r, h1, ?_⟩
  rw [h4]
  clear h4 h1 hF hb hs
  induction l with
  | nil => rfl
  | cons o l ih =>
    simp only [List.flatMap_cons, List.cons_append, List.filterMap_cons, List.filterMap_append,
      List.map_cons]
    rw [ih]
    have : List.filterMap (fun e : Event S O => match e with
        | .called o s' => some (o, s') | .returned _ _ => none)
        ((nested o).map fun s' => .returned s' (some false)) = [] := by
      induction nested o with
      | nil => rfl
      | cons a t ih2 => simp
    rw [this]; rfl

/-- C09: a notification arriving while another is in progress returns `False` and does nothing. -/
theorem C09_nested_notification_dropped (beh : O → List (Cmd S O)) (st : State S O) (s : S)
    (hl : st.locked = true) (fuel : ℕ) :
    ∃ r, notify beh (fuel + 1) st s = some r ∧ r.value = .ok (some false) ∧ r.state = st ∧
      r.events = [] :=
  ⟨_, by rw [notify]; simp [hl]; rfl, rfl, rfl, rfl⟩

/-- The documented return value `True` of a completed notification never occurs: it is `None`
(first theorem) or `False`. -/
theorem C09_never_returns_True (beh : O → List (Cmd S O)) (fuel : ℕ) (st : State S O) (s : S)
    (r : Res S O) (h : notify beh fuel st s = some r) : r.value ≠ .ok (some true) := by
  have key : ∀ fuel (st : State S O) s i r, notifyLoop beh fuel st s i = some r →
      r.value ≠ .ok (some true) := by
    intro fuel
    induction fuel with
    | zero => simp [notifyLoop]
    | succ f ih =>
      intro st s i r h
      rw [notifyLoop] at h
      split at h
      · cases h; simp
      · split at h
        · cases h
        · cases h; simp
        · split at h
          · cases h
          · rename_i r' hr'
            cases h
            exact ih _ _ _ r' hr'
  cases fuel with
  | zero => simp [notify] at h
  | succ f =>
    rw [notify] at h
    split at h
    · cases h; simp
    · simp only at h
      split at h
      · cases h; simp
      · exact key _ _ _ _ _ h

section Examples
/-- Two observers; the first notifies the same signal again while it runs. -/
def exBeh : ℕ → List (Cmd String ℕ) := fun o => if o = 1 then [.notify "cv"] else []
def exState : State String ℕ := ⟨["cv"], fun s => if s = "cv" then some [1, 2] else none, false⟩

example : (notify exBeh 20 exState "cv").map (·.events)
    = some [.called 1 "cv", .returned "cv" (some false), .called 2 "cv"] := by decide
example : ∃ F, ∀ fuel ≥ F, ∃ r, notify exBeh fuel exState "cv" = some r ∧ r.value = .ok none ∧
    r.state = exState ∧ r.events = [1, 2].flatMap fun o =>
      .called o "cv" :: ((fun o => if o = 1 then ["cv"] else []) o).map fun s' => .returned s' (some false) :=
  C09_notify_calls_each_once exBeh exState "cv" [1, 2] rfl rfl (fun o => if o = 1 then ["cv"] else [])
    (by intro o ho; simp at ho; rcases ho with rfl | rfl <;> rfl)
end Examples

/-! ## C10 -/

/-- C10, exact behaviour: when observer `o` raises, the observers before it have been called, those
after it are not, the exception propagates, and the observable stays locked. -/
theorem C10_exception_leaves_lock (beh : O → List (Cmd S O)) (st : State S O) (s : S)
    (pre post : List O) (o : O) (hun : st.locked = false)
    (hs : st.observers s = some (pre ++ o :: post)) (nested : O → List S)
    (hb : ∀ p ∈ pre, beh p = (nested p).map .notify) (e : PyErr) (rest : List (Cmd S O))
    (ho : beh o = (nested o).map .notify ++ .raise e :: rest) :
    ∃ F, ∀ fuel ≥ F, ∃ r, notify beh fuel st s = some r ∧ r.value = .error e ∧
      r.state = { st with locked := true } ∧
      r.events = (pre ++ [o]).flatMap fun o =>
        .called o s :: (nested o).map fun s' => .returned s' (some false) := by
  obtain ⟨B, hB⟩ : ∃ B, ∀ p ∈ o :: pre, (nested p).length ≤ B := by
    clear hb hs
    induction o :: pre with
    | nil => exact ⟨0, by simp⟩
    | cons o l ih =>
      obtain ⟨B, hB⟩ := ih
      refine ⟨max B (nested o).length, ?_⟩
      intro p hp
      rcases List.mem_cons.1 hp with rfl | hp
      · exact le_max_right _ _
      · exact (hB p hp).trans (le_max_left _ _)
  refine ⟨pre.length + B + 4, fun fuel hf => ?_⟩
  obtain ⟨f, rfl⟩ : ∃ f, fuel = f + 1 := ⟨fuel - 1, by omega⟩
  have h := notifyLoop_raise beh { st with locked := true } rfl s pre post o hs nested hb e rest ho B
    hB pre.length 0 (by omega) f (by omega)
  refine ⟨⟨.error e, { st with locked := true }, (pre ++ [o]).flatMap fun o =>
        .called o s :: (nested o).map fun s' => .returned s' (some false)⟩, ?_, rfl, rfl, rfl⟩
  rw [notify]
  simp only [hun, Bool.false_eq_true, if_false, hs]
  rw [h]; simp

/-- C10, a notification for a signal that does not exist raises `KeyError` and also leaves the
observable locked. -/
theorem C10_unknown_signal_locks (beh : O → List (Cmd S O)) (st : State S O) (s : S)
    (hun : st.locked = false) (hs : st.observers s = none) (fuel : ℕ) :
    ∃ r, notify beh (fuel + 1) st s = some r ∧ r.value = .error .keyError ∧ r.events = [] ∧
      r.state = { st with locked := true } :=
  ⟨_, by rw [notify]; simp [hun, hs]; rfl, rfl, rfl, rfl⟩

/-- C10, refutation: once an exception has left the lock set, every later notification, after any
further history of calls, returns `False` and calls nobody. -/
theorem C10_silenced_forever (beh : O → List (Cmd S O)) (fuel : ℕ) (st : State S O)
    (hl : st.locked = true) (ops : List (Op S O)) :
    ∃ rs st', runOps beh (fuel + 1) st ops = some (rs, st') ∧ st'.locked = true ∧
      rs.length = ops.length ∧ (∀ p ∈ rs, p.2 = []) ∧
      ∀ i (h : i < rs.length) (h' : i < ops.length) s, ops[i] = .notify s →
        rs[i].1 = .ok (some false) := by
  induction ops generalizing st with
  | nil => exact ⟨[], st, rfl, hl, rfl, by simp, by simp⟩
  | cons op ops ih =>
    have hstep : ∃ r, runOp beh (fuel + 1) st op = some r ∧ r.state.locked = true ∧ r.events = [] ∧
        ∀ s, op = .notify s → r.value = .ok (some false) := by
      cases op with
      | notify s =>
        refine ⟨⟨.ok (some false), st, []⟩, ?_, hl, rfl, fun _ _ => rfl⟩
        simp [runOp, notify, hl]
      | add s o =>
        simp only [runOp]
        cases h : addObserver st s o with
        | ok st' => exact ⟨_, rfl, by rw [(addObserver_grows h).2, hl], rfl, by simp⟩
        | error e => exact ⟨_, rfl, hl, rfl, by simp⟩
      | remove s o => exact ⟨⟨.error .attributeError, st, []⟩, by simp only [runOp, removeObserver_error], hl, rfl, by simp⟩
    obtain ⟨r, h1, h2, h3, h4⟩ := hstep
    obtain ⟨rs, st', k1, k2, k3, k4, k5⟩ := ih r.state h2
    refine ⟨(r.value, r.events) :: rs, st', by simp [runOps, h1, k1], k2, by simp [k3], ?_, ?_⟩
    · intro p hp
      rcases List.mem_cons.1 hp with rfl | hp
      · exact h3
      · exact k4 p hp
    · intro i hi hi' s hs
      cases i with
      | zero => exact h4 s hs
      | succ i =>
        simp only [List.getElem_cons_succ] at hs ⊢
        exact k5 i (by simpa using hi) (by simpa using hi') s hs

/-- C10, refutation of the claim on a concrete observable: the second notification does not reach the
healthy observer. -/
theorem C10_later_notifications_reach_observers_refuted :
    ∃ (beh : ℕ → List (Cmd String ℕ)) (st : State String ℕ), st.locked = false ∧
      st.observers "cv" = some [1, 2] ∧ beh 2 = [] ∧
      (∃ r, notify beh 20 st "cv" = some r ∧ r.value = .error .runtimeError ∧
        ∃ r', notify beh 20 r.state "cv" = some r' ∧ r'.value = .ok (some false) ∧ r'.events = []) := by
  refine ⟨fun o => if o = 1 then [.raise .runtimeError] else [], exState, rfl, rfl, rfl,
    ⟨_, _, _⟩, rfl, rfl, ⟨_, _, _⟩, rfl, rfl, rfl⟩

/-- C10, the part that holds: if no observer raises, the next notification reaches every observer
again (missing: the same when an observer raises, which is false, see above). -/
theorem C10_reached_again_partial (beh : O → List (Cmd S O)) (st : State S O) (s : S) (l : List O)
    (hun : st.locked = false) (hs : st.observers s = some l) (nested : O → List S)
    (hb : ∀ o ∈ l, beh o = (nested o).map .notify) :
    ∃ F, ∀ fuel ≥ F, ∃ r r', notify beh fuel st s = some r ∧ notify beh fuel r.state s = some r' ∧
      r'.value = .ok none ∧ r'.events = r.events ∧ ∀ o ∈ l, .called o s ∈ r'.events := by
  obtain ⟨F, hF⟩ := C09_notify_calls_each_once beh st s l hun hs nested hb
  refine ⟨F, fun fuel hf => ?_⟩
  obtain ⟨r, h1, h2, h3, h4⟩ := hF fuel hf
  refine ⟨r, r, h1, by rw [h3]; exact h1, h2, rfl, ?_⟩
  intro o ho
  rw [h4, List.mem_flatMap]
  exact ⟨o, ho, by simp⟩

example : ∃ F, ∀ fuel ≥ F, ∃ r, notify (fun o => if o = 1 then [.raise .valueError] else []) fuel exState "cv"
    = some r ∧ r.value = .error .valueError ∧ r.state = { exState with locked := true } ∧
      r.events = ([] ++ [1]).flatMap fun o => .called o "cv" :: ([] : List String).map fun s' => .returned s' (some false) :=
  C10_exception_leaves_lock _ exState "cv" [] [2] 1 rfl rfl (fun _ => []) (by simp) .valueError [] rfl

/-! ## C11 -/

/-- C11: adding an observer that is already registered changes nothing. -/
theorem C11_add_idempotent (st st1 : State S O) (s : S) (o : O) (h : addObserver st s o = .ok st1) :
    addObserver st1 s o = .ok st1 := by
  unfold addObserver isAllowedSignal at h
  by_cases hs : s ∈ st.allowed
  · simp only [hs, if_true] at h
    change addObserverRaw st s o = _ at h
    unfold addObserverRaw at h
    split at h
    · cases h
    · rename_i l hl
      split at h
      · rename_i hm
        cases h
        show (do isAllowedSignal st s; addObserverRaw st s o) = _
        simp only [isAllowedSignal, hs, if_true]
        show addObserverRaw st s o = _
        simp [addObserverRaw, hl, hm]
      · cases h
        show (do isAllowedSignal _ s; addObserverRaw _ s o) = _
        simp only [isAllowedSignal, hs, if_true]
        show addObserverRaw _ s o = _
        simp [addObserverRaw]
  · simp only [hs, if_false] at h
    cases h

/-- C11: an allowed observer is appended after the ones already there, and only to that signal. -/
theorem C11_add_appends (st : State S O) (s : S) (o : O) (l : List O) (ha : s ∈ st.allowed)
    (hl : st.observers s = some l) (ho : o ∉ l) :
    ∃ st1, addObserver st s o = .ok st1 ∧ st1.observers s = some (l ++ [o]) ∧
      st1.locked = st.locked ∧ ∀ s' ≠ s, st1.observers s' = st.observers s' := by
  refine ⟨{ st with observers := Function.update st.observers s (some (l ++ [o])) }, ?_, by simp, rfl, ?_⟩
  · unfold addObserver isAllowedSignal
    simp only [ha, if_true]
    show addObserverRaw st s o = _
    simp [addObserverRaw, hl, ho]
  · intro s' hs'
    simp [Function.update_of_ne hs']

/-- C11: a signal that is not allowed is rejected with `ValueError` (and the object, being returned
only on success, is unchanged). -/
theorem C11_add_rejects (st : State S O) (s : S) (o : O) (h : s ∉ st.allowed) :
    addObserver st s o = .error .valueError := by
  unfold addObserver isAllowedSignal; simp only [h, if_false]; rfl

/-- C11, invariant over every history on a fresh observable, including observers that register
others or raise while being notified: registrations exist exactly for the allowed signals and never
contain duplicates. -/
theorem C11_no_duplicates_ever (beh : O → List (Cmd S O)) (fuel : ℕ) (signals : List S)
    (ops : List (Op S O)) (rs) (st' : State S O)
    (h : runOps beh fuel (init signals) ops = some (rs, st')) :
    (∀ s l, st'.observers s = some l → l.Nodup) ∧
    (∀ s, (st'.observers s).isSome ↔ s ∈ signals) ∧ st'.allowed = signals := by
  obtain ⟨h1, h2, h3⟩ := runOps_grows h
  refine ⟨?_, ?_, h1⟩
  · intro s l hl
    by_cases hs : s ∈ signals
    · obtain ⟨l', e, hn⟩ := h3 s [] (by simp [init, hs])
      rw [hl] at e; cases e; exact hn List.nodup_nil
    · have := h2 s (by simp [init, hs])
      rw [hl] at this; cases this
  · intro s
    by_cases hs : s ∈ signals
    · obtain ⟨l', e, _⟩ := h3 s [] (by simp [init, hs])
      simp [e, hs]
    · have := h2 s (by simp [init, hs])
      simp [this, hs]

/-- C11: over any history an observer, once registered, stays registered at the same position. -/
theorem C11_registrations_persist (beh : O → List (Cmd S O)) (fuel : ℕ) (st st' : State S O)
    (ops : List (Op S O)) (rs) (h : runOps beh fuel st ops = some (rs, st')) (s : S) (l : List O)
    (hl : st.observers s = some l) : ∃ l', st'.observers s = some (l ++ l') := by
  obtain ⟨l', e, _⟩ := (runOps_grows h).2.2 s l hl
  exact ⟨l', e⟩

example : ∃ rs st', runOps (fun _ : ℕ => ([] : List (Cmd String ℕ))) 9 (init ["cv"])
    [.add "cv" 1, .add "cv" 1, .add "x" 2, .add "cv" 3] = some (rs, st') ∧
      st'.observers "cv" = some [1, 3] :=
  ⟨_, _, rfl, rfl⟩

/-! ## C12 -/

/-- C12, refutation for every observable, signal and observer: `remove_observer` raises
`AttributeError`, so nothing is ever removed. -/
theorem C12_remove_always_fails (st : State S O) (s : S) (o : O) :
    removeObserver st s o = .error .attributeError := removeObserver_error st s o

/-- C12, what the private removal would do: the observer is gone, the order of the others and the
other signals are unchanged. -/
theorem C12_private_remove_partial (st : State S O) (s : S) (o : O) (l : List O)
    (hl : st.observers s = some l) (hn : l.Nodup) :
    ∃ st1, removeObserverRaw st s o = .ok st1 ∧
      st1.observers s = some (l.filter (fun p => p ≠ o)) ∧
      ∀ s' ≠ s, st1.observers s' = st.observers s' := by
  by_cases ho : o ∈ l
  · refine ⟨{ st with observers := Function.update st.observers s (some (l.erase o)) }, ?_, ?_, ?_⟩
    · simp [removeObserverRaw, hl, ho]
    · have : l.erase o = l.filter (fun p => p ≠ o) := by
        rw [hn.erase_eq_filter]; congr 1; funext p; simp [bne, BEq.beq]
      simp [this]
    · intro s' hs'; simp [Function.update_of_ne hs']
  · refine ⟨st, by simp [removeObserverRaw, hl, ho], ?_, fun _ _ => rfl⟩
    rw [hl]
    congr 1
    symm
    rw [List.filter_eq_self]
    intro p hp
    simp only [ne_eq, decide_eq_true_eq]
    rintro rfl; exact ho hp

example : removeObserver exState "cv" 1 = .error .attributeError := C12_remove_always_fails _ _ _
example : ∃ st1, removeObserverRaw exState "cv" 1 = .ok st1 ∧ st1.observers "cv" = some [2] :=
  ⟨_, rfl, rfl⟩

/-! ## C13 -/

variable {K : Type _} [Field K] [LinearOrder K] {V : Type _}

/-- A history of notifications received by a metric observer: the signal's attributes, the iteration
index and the date of each. -/
abbrev Notes (V K : Type _) := List ((String → Option V) × ℕ × K)

/-- The observer after a history; the exceptions, if any, are dropped by the client. -/
def runNotes (mapping : List (String × Option String)) (cst : List (String × V))
    (metric : (String → Option V) → Py K) (m : Metric K) (notes : Notes V K) : Metric K :=
  notes.foldl (fun m n => (m.call n.1 mapping cst metric n.2.1 n.2.2).1) m

/-- C13: the three recorded lists stay aligned over every history in which the metric does not raise:
entry `i` of each belongs to notification `i`. -/
theorem C13_histories_aligned (mapping : List (String × Option String)) (cst : List (String × V))
    (metric : (String → Option V) → Py K) (m : Metric K) (notes : Notes V K) (vals : List K)
    (hv : List.Forall₂ (fun n v => ∃ kw, metricKwargs n.1 mapping = .ok kw ∧
      metric (toDict (kw ++ cst)) = .ok v) notes vals) :
    (runNotes mapping cst metric m notes).iters = m.iters ++ notes.map (·.2.1) ∧
    (runNotes mapping cst metric m notes).dates = m.dates ++ notes.map (·.2.2) ∧
    (runNotes mapping cst metric m notes).vals = m.vals ++ vals := by
  induction hv generalizing m with
  | nil => simp [runNotes]
  | @cons n v ns vs h hv ih =>
    obtain ⟨kw, h1, h2⟩ := h
    have hc : ∃ m', (m.call n.1 mapping cst metric n.2.1 n.2.2).1 = m' ∧
        m'.iters = m.iters ++ [n.2.1] ∧ m'.dates = m.dates ++ [n.2.2] ∧ m'.vals = m.vals ++ [v] := by
      refine ⟨_, rfl, ?_⟩
      simp only [Metric.call, h1, h2]
      by_cases he : m.earlyStopping
      · simp only [he, if_true]
        unfold Metric.isConverge
        split <;> simp
      · simp [he]
    obtain ⟨m', e, c1, c2, c3⟩ := hc
    have := ih m'
    simp only [runNotes, List.foldl_cons] at this ⊢
    rw [e]
    rw [this.1, this.2.1, this.2.2, c1, c2, c3]
    simp

/-- C13, crash points: each notification whose metric raises leaves one index and one date without a
value, so after such a history the lists are no longer aligned. -/
theorem C13_metric_exception_misaligns (mapping : List (String × Option String))
    (cst : List (String × V)) (metric : (String → Option V) → Py K) (m : Metric K)
    (attr : String → Option V) (idx : ℕ) (date : K) (kw) (e : PyErr)
    (h1 : metricKwargs attr mapping = .ok kw) (h2 : metric (toDict (kw ++ cst)) = .error e) :
    m.call attr mapping cst metric idx date =
      ({ m with iters := m.iters ++ [idx], dates := m.dates ++ [date] }, some e) := by
  simp [Metric.call, h1, h2]

/-- C13: the times returned by `retrieve_metrics` start at zero and keep the recorded differences;
indices and values are returned as recorded. -/
theorem C13_retrieve_times (m : Metric K) :
    m.retrieve.2 = (m.iters, m.vals) ∧ m.retrieve.1.length = m.dates.length ∧
    (∀ d ds, m.dates = d :: ds → m.retrieve.1.headD 1 = 0) ∧
    ∀ i j (hi : i < m.dates.length) (hj : j < m.dates.length) (hi' : i < m.retrieve.1.length)
      (hj' : j < m.retrieve.1.length),
      m.retrieve.1[i] - m.retrieve.1[j] = m.dates[i] - m.dates[j] := by
  refine ⟨rfl, by simp [Metric.retrieve], ?_, ?_⟩
  · intro d ds h; simp [Metric.retrieve, h]
  · intro i j hi hj hi' hj'; simp [Metric.retrieve]

/-- Arithmetic mean of a list (specification). -/
def listMean (l : List K) : K := l.sum / (l.length : K)

/-- C13, early stopping: when the values end with a window `a ++ b` of length `wind ≥ 2`, `b` being
the last `wind // 2` of them, the flag after the check is up exactly when the mean of `a` is non-zero
and the relative difference of the means is below `eps`. -/
theorem C13_flag_iff_window_stable (m : Metric K) (pre a b : List K) (hv : m.vals = pre ++ (a ++ b))
    (hw : 2 ≤ m.wind) (ha : a.length = m.wind - m.wind / 2) (hb : b.length = m.wind / 2) :
    m.isConverge.flag = true ↔
      listMean a ≠ 0 ∧ |listMean a - listMean b| / |listMean a| < m.eps := by
  have hlen : m.vals.length = pre.length + m.wind := by
    rw [hv]; simp [ha, hb]; omega
  have hh : m.wind / 2 ≠ 0 := by omega
  have hlast : lastN m.vals (m.wind / 2) = b := by
    unfold lastN
    rw [if_neg hh, hlen, hv, ← List.append_assoc]
    have : pre.length + m.wind - m.wind / 2 = (pre ++ a).length := by simp [ha]; omega
    rw [this, List.drop_left]
  have hslice : sliceNeg m.vals m.wind (m.wind / 2) = a := by
    unfold sliceNeg
    have h0 : m.wind ≠ 0 := by omega
    simp only [h0, if_false, hh, hlen]
    have e1 : pre.length + m.wind - m.wind = pre.length := by omega
    have e2 : pre.length + m.wind - m.wind / 2 - pre.length = a.length := by omega
    rw [e1, e2, hv, List.drop_left, List.take_left]
  have ma : npMean a = some (listMean a) := by
    unfold npMean listMean
    rw [if_neg]
    intro h; rw [h] at ha; simp at ha; omega
  have mb : npMean b = some (listMean b) := by
    unfold npMean listMean
    rw [if_neg]
    intro h; rw [h] at hb; simp at hb; omega
  unfold Metric.isConverge
  rw [if_neg (by omega)]
  simp only [hslice, hlast, ma, mb, relChangeBelow]
  split
  · rename_i h; simp [h]
  · rename_i h; simp [h]

/-- C13: before a full window has been seen the check changes nothing. -/
theorem C13_flag_unchanged_before_window (m : Metric K) (h : m.vals.length < m.wind) :
    m.isConverge = m := by unfold Metric.isConverge; rw [if_pos h]

/-- C13: a degenerate window (`wind < 2`) can never raise the flag. -/
theorem C13_degenerate_window_never_converges (m : Metric K) (hw : m.wind < 2)
    (hf : m.flag = false) : m.isConverge.flag = false := by
  have h : sliceNeg m.vals m.wind (m.wind / 2) = [] := by
    unfold sliceNeg
    have : m.wind / 2 = 0 := by omega
    simp [this]
  unfold Metric.isConverge
  split
  · exact hf
  · simp only [h, npMean, if_true, relChangeBelow]

/-- C13: without `early_stopping` the flag of a metric never moves, whatever its values. -/
theorem C13_no_early_stopping_no_flag (mapping : List (String × Option String))
    (cst : List (String × V)) (metric : (String → Option V) → Py K) (m : Metric K)
    (he : m.earlyStopping = false) (notes : Notes V K) :
    (runNotes mapping cst metric m notes).flag = m.flag := by
  have : ∀ m : Metric K, m.earlyStopping = false →
      (runNotes mapping cst metric m notes).flag = m.flag := by
    induction notes with
    | nil => intro m _; rfl
    | cons n ns ih =>
      intro m he
      simp only [runNotes, List.foldl_cons] at *
      have hc : (m.call n.1 mapping cst metric n.2.1 n.2.2).1.earlyStopping = false ∧
          (m.call n.1 mapping cst metric n.2.1 n.2.2).1.flag = m.flag := by
        unfold Metric.call
        split
        · exact ⟨he, rfl⟩
        · split
          · exact ⟨he, rfl⟩
          · simp [he]
      rw [ih _ hc.1, hc.2]
  exact this m he

/-- C13: constant keyword arguments win over mapped ones, and a mapped argument is the signal's
attribute. -/
theorem C13_constant_kwargs_win (kw cst : List (String × V)) (name : String) :
    toDict (kw ++ cst) name = (toDict cst name).or (toDict kw name) := by
  simp [toDict, List.find?_append]
  cases List.find? (fun p => p.1 == name) cst.reverse <;> simp

example : (Metric.isConverge (⟨4, 1 / 10, true, [0, 1, 2, 3, 4], [0, 1, 2, 3, 4],
    [9, 10, 10, 10, 11], false⟩ : Metric ℚ)).flag = true := by
  rw [C13_flag_iff_window_stable _ [9] [10, 10] [10, 11] rfl (by decide) rfl rfl]
  simp only [listMean]
  norm_num [abs_lt]

example : (runNotes [("x", some "test")] [] (fun d => match d "test" with
      | some v => .ok v | none => .error .typeError) (Metric.init 6 (1 / 100) true : Metric ℚ)
    [(fun _ => some 3, 0, 7), (fun _ => some 4, 1, 9)]).vals = [3, 4] :=
  (C13_histories_aligned _ _ _ _ [(fun _ => some (3 : ℚ), 0, 7), (fun _ => some 4, 1, 9)] [3, 4]
    (.cons ⟨[("test", 3)], rfl, rfl⟩ (.cons ⟨[("test", 4)], rfl, rfl⟩ .nil))).2.2

end Verif
