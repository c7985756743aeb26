import Verif.Model.Log
import Verif.Spec.Log
import Mathlib.Tactic.Linarith
import Mathlib.Data.List.Induction

/-!
# C72: closing a log; C91: each message is recorded once
-/

namespace Verif
open Log Spec

theorem closeLoop_append (p l : List ℕ) (h : (p ++ l).Nodup) : closeLoop (p ++ l) p.length = p ++ everyOther l := by
  induction l using everyOther.induct generalizing p with
  | case1 => rw [closeLoop]; simp [everyOther]
  | case2 a =>
    rw [closeLoop, dif_pos (by simp)]
    have e : (p ++ [a]).erase ((p ++ [a])[p.length]'(by simp)) = p := by
      have hm : a ∉ p := by
        intro hm
        rw [List.nodup_append] at h
        exact h.2.2 a hm a (by simp) rfl
      simp [List.erase_append_right _ hm]
    rw [e, closeLoop, dif_neg (by omega)]
    simp [everyOther]
  | case3 a b l ih =>
    rw [closeLoop, dif_pos (by simp)]
    have hm : a ∉ p := by
      intro hm
      rw [List.nodup_append] at h
      exact h.2.2 a hm a (by simp) rfl
    have e : (p ++ a :: b :: l).erase ((p ++ a :: b :: l)[p.length]'(by simp)) = (p ++ [b]) ++ l := by
      simp [List.erase_append_right _ hm]
    rw [e]
    have := ih (p ++ [b]) (by
      rw [← e]
      exact h.erase _)
    rw [List.length_append, List.length_singleton] at this
    rw [this]
    simp [everyOther]

theorem closeLoop_eq {l : List ℕ} (h : l.Nodup) : closeLoop l 0 = everyOther l := by
  simpa using closeLoop_append [] l (by simpa using h)

theorem length_everyOther (l : List ℕ) : (everyOther l).length = l.length / 2 := by
  induction l using everyOther.induct with
  | case1 => rfl
  | case2 a => simp [everyOther]
  | case3 a b l ih => simp only [everyOther, List.length_cons, ih]; omega

theorem everyOther_sublist (l : List ℕ) : (everyOther l).Sublist l := by
  induction l using everyOther.induct with
  | case1 => exact .refl _
  | case2 a => exact List.nil_sublist _
  | case3 a b l ih => exact (ih.cons_cons b).cons a

/-- What holds in every reachable state: handlers of a logger are distinct, have been created, write to
that logger's file and are open. -/
structure LogInv (s : State) : Prop where
  nodup : ∀ n, (s.handlers n).Nodup
  made : ∀ n, ∀ h ∈ s.handlers n, h < s.next ∧ s.file h = n
  open_ : ∀ h, h < s.next → s.isOpen h = true

theorem logInv_info {s : State} (hs : LogInv s) (n m : PyStr) : LogInv (info n m s) :=
  ⟨hs.nodup, hs.made, hs.open_⟩

theorem logInv_step {s : State} (hs : LogInv s) (op : Op) : LogInv (step s op) := by
  cases op with
  | info n m => exact logInv_info hs n m
  | close n =>
    have e := closeLoop_eq (hs.nodup n)
    refine ⟨fun m => ?_, fun m h hh => ?_, fun h hh => hs.open_ h hh⟩
    · simp only [step, closeLog, info]
      by_cases hm : m = n
      · rw [if_pos hm, e]
        exact (hs.nodup n).sublist (everyOther_sublist _)
      · rw [if_neg hm]
        exact hs.nodup m
    · simp only [step, closeLog, info] at hh ⊢
      by_cases hm : m = n
      · rw [if_pos hm, e] at hh
        subst hm
        exact hs.made m h ((everyOther_sublist _).subset hh)
      · rw [if_neg hm] at hh
        exact hs.made m h hh
  | setUp f =>
    refine ⟨fun m => ?_, fun m h hh => ?_, fun h hh => ?_⟩
    · simp only [step, setUpLog, info]
      by_cases hm : m = logName f
      · rw [if_pos hm]
        rw [List.nodup_append]
        refine ⟨hs.nodup _, by simp, fun a ha b hb => ?_⟩
        rw [List.mem_singleton] at hb
        have := (hs.made _ a ha).1
        omega
      · rw [if_neg hm]; exact hs.nodup m
    · simp only [step, setUpLog, info] at hh ⊢
      by_cases hm : m = logName f
      · rw [if_pos hm, List.mem_append, List.mem_singleton] at hh
        rcases hh with hh | hh
        · have := hs.made _ h hh
          rw [if_neg (by omega), hm]
          exact ⟨by omega, this.2⟩
        · rw [if_pos hh, hm]
          exact ⟨by omega, rfl⟩
      · rw [if_neg hm] at hh
        have := hs.made _ h hh
        rw [if_neg (by omega)]
        exact ⟨by omega, this.2⟩
    · simp only [step, setUpLog, info] at hh ⊢
      by_cases hn : h = s.next
      · simp [hn]
      · rw [if_neg hn]
        exact hs.open_ h (by omega)

theorem foldl_concat_run (ops : List Op) (op : Op) : Log.run (ops ++ [op]) = step (Log.run ops) op := by
  simp [Log.run]

theorem logInv_run (ops : List Op) : LogInv (Log.run ops) := by
  induction ops using List.reverseRecOn with
  | nil =>
    refine ⟨fun n => List.nodup_nil, fun n h hh => ?_, fun h hh => ?_⟩
    · simp [Log.run, init] at hh
    · simp [Log.run, init] at hh
  | append_singleton ops op ih => rw [foldl_concat_run]; exact logInv_step ih op

/-- After any history, closing a log keeps exactly every other one of its handlers attached (the second,
fourth, …), so all are detached if and only if there was at most one; other logs are not affected and the
kept handlers still receive messages. -/
theorem C72_survivors (ops : List Op) (n : PyStr) :
    let s := Log.run ops
    let s' := closeLog n s
    s'.handlers n = everyOther (s.handlers n) ∧ (s'.handlers n).length = (s.handlers n).length / 2 ∧
    (s'.handlers n = [] ↔ (s.handlers n).length ≤ 1) ∧
    (∀ m, m ≠ n → s'.handlers m = s.handlers m) ∧
    ∀ h ∈ s'.handlers n, ∀ msg, (info n msg s').received h = s'.received h ++ [msg] := by
  intro s s'
  have e : s'.handlers n = everyOther (s.handlers n) := by
    simp only [s', closeLog, info, if_true]
    exact closeLoop_eq ((logInv_run ops).nodup n)
  have el : (s'.handlers n).length = (s.handlers n).length / 2 := by rw [e, length_everyOther]
  refine ⟨e, el, ?_, fun m hm => ?_, fun h hh msg => ?_⟩
  · rw [← List.length_eq_zero_iff, el]
    omega
  · simp [s', closeLog, info, hm]
  · simp only [info]
    rw [if_pos]
    rw [List.any_eq_true]
    exact ⟨n, by simp [chain], by simpa using hh⟩

/-- The number of handlers of the log `f` after a history: one more per set-up, halved (rounding down) by
each close. -/
def handlerCount (f : PyStr) : List Op → ℕ
  | [] => 0
  | op :: ops => match op with
    | .setUp g => if g = f then handlerCount f ops + 1 else handlerCount f ops
    | .close n => if n = logName f then handlerCount f ops / 2 else handlerCount f ops
    | .info _ _ => handlerCount f ops

theorem logName_inj {f g : PyStr} : logName f = logName g ↔ f = g := by
  simp [logName]

/-- Number of attached handlers after any history (most recent operation first in `handlerCount`). -/
theorem C72_handler_count (ops : List Op) (f : PyStr) :
    ((Log.run ops).handlers (logName f)).length = handlerCount f ops.reverse := by
  induction ops using List.reverseRecOn with
  | nil => rfl
  | append_singleton ops op ih =>
    rw [foldl_concat_run, List.reverse_append]
    simp only [List.reverse_cons, List.reverse_nil, List.nil_append, List.cons_append]
    cases op with
    | info n m => simp only [step, info, handlerCount]; exact ih
    | setUp g =>
      simp only [step, setUpLog, info, handlerCount]
      by_cases h : g = f
      · subst h; simp [ih]
      · have : logName f ≠ logName g := fun e => h (logName_inj.1 e).symm
        rw [if_neg this, if_neg h, ih]
    | close n =>
      simp only [handlerCount]
      by_cases h : n = logName f
      · subst h
        rw [if_pos rfl, ← ih]
        exact (C72_survivors ops (logName f)).2.1
      · rw [if_neg h, ← ih]
        exact congrArg List.length ((C72_survivors ops n).2.2.2.1 _ (Ne.symm h))

/-- No handler is ever closed: whatever the history, every file that was opened is still open. -/
theorem C72_files_never_closed (ops : List Op) : ∀ h, h < (Log.run ops).next → (Log.run ops).isOpen h = true :=
  (logInv_run ops).open_

/-- Two set-ups and a close leave a handler attached; even one set-up and a close leave the file open. -/
theorem C72_close_keeps_handlers (f : PyStr) :
    (Log.run [.setUp f, .setUp f, .close (logName f)]).handlers (logName f) = [1] ∧
    (Log.run [.setUp f, .close (logName f)]).isOpen 0 = true := by
  constructor
  · have h := (C72_survivors [.setUp f, .setUp f] (logName f)).1
    have e : (Log.run [.setUp f, .setUp f]).handlers (logName f) = [0, 1] := by
      simp [Log.run, step, setUpLog, info, init]
    rw [e] at h
    exact h
  · exact C72_files_never_closed _ 0 (by simp [Log.run, step, setUpLog, closeLog, info, init])

/-- What does hold: a log that was set up once since it last had no handlers is fully detached by one
close. -/
theorem C72_single_set_up_partial (ops : List Op) (f : PyStr) (h : (Log.run ops).handlers (logName f) = []) :
    (Log.run (ops ++ [.setUp f, .close (logName f)])).handlers (logName f) = [] := by
  have e : ops ++ [.setUp f, .close (logName f)] = (ops ++ [.setUp f]) ++ [.close (logName f)] := by simp
  rw [e, foldl_concat_run]
  refine ((C72_survivors (ops ++ [Op.setUp f]) (logName f)).2.2.1).2 ?_
  rw [foldl_concat_run]
  simp [step, setUpLog, info, h]

example : (Log.run []).handlers (logName ['a']) = [] := rfl

/-! ## Duplicated messages (C91) -/

/-- A log set up `k` times has `k` handlers, all writing to its one file, and every message is sent to
all of them. -/
theorem C91_messages_repeated (f msg : PyStr) (k : ℕ) :
    let s := Log.run (List.replicate k (.setUp f))
    s.handlers (logName f) = List.range k ∧
    ∀ h < k, s.file h = logName f ∧ (info (logName f) msg s).received h = s.received h ++ [msg] := by
  intro s
  have key : s.handlers (logName f) = List.range k ∧ s.next = k := by
    simp only [s]
    induction k with
    | zero => exact ⟨rfl, rfl⟩
    | succ k ih =>
      rw [List.replicate_succ', foldl_concat_run]
      simp only [step, setUpLog, info, if_true, ih.1, ih.2, List.range_succ, and_self]
  refine ⟨key.1, fun h hh => ⟨?_, ?_⟩⟩
  · exact ((logInv_run _).made (logName f) h (by
      show h ∈ s.handlers (logName f)
      rw [key.1]; simpa using hh)).2
  · simp only [info]
    rw [if_pos]
    rw [List.any_eq_true]
    refine ⟨logName f, by simp [chain], ?_⟩
    rw [key.1]
    simpa using hh

/-- C72: closing is recorded: every handler attached to the logger when it is closed is sent the closing message,
also those that stay attached. -/
theorem C72_close_is_recorded (ops : List Op) (n : PyStr) (h : ℕ) (hh : h ∈ (Log.run ops).handlers n) :
    (closeLog n (Log.run ops)).received h =
      (Log.run ops).received h ++ ["The log file has been closed.".toList] := by
  have hc : ((chain n).any fun m => ((Log.run ops).handlers m).contains h) = true :=
    List.any_eq_true.2 ⟨n, by simp [chain], by simpa using hh⟩
  simp only [closeLog, info, hc, if_true]
  rfl

/-- C72: a log that has just been set up has exactly one new handler, whose only message is the opening one. -/
theorem C72_set_up_is_recorded (ops : List Op) (f : PyStr) :
    ∃ h, h ∉ (Log.run ops).handlers (logName f) ∧
      (setUpLog f (Log.run ops)).handlers (logName f) = (Log.run ops).handlers (logName f) ++ [h] ∧
      (setUpLog f (Log.run ops)).received h = ["The log file has been set-up.".toList] ∧
      (setUpLog f (Log.run ops)).file h = logName f ∧ (setUpLog f (Log.run ops)).isOpen h = true := by
  have fresh : ∀ k, (Log.run ops).next ≤ k → (Log.run ops).received k = [] := by
    induction ops using List.reverseRecOn with
    | nil => intro k _; rfl
    | append_singleton ops op ih =>
      have hin : ∀ (s : State) (n m : PyStr) (k : ℕ), LogInv s → s.next ≤ k → s.received k = [] →
          (info n m s).received k = [] := by
        intro s n m k hs hk h0
        simp only [info]
        rw [if_neg, h0]
        rw [List.any_eq_true]
        rintro ⟨m', -, hm'⟩
        exact absurd (hs.made m' k (by simpa using hm')) (by omega)
      rw [foldl_concat_run]
      intro k hk
      cases op with
      | info n m => exact hin _ _ _ _ (logInv_run ops) hk (ih k hk)
      | close n => exact hin _ _ _ _ (logInv_run ops) hk (ih k hk)
      | setUp g =>
        have hk' : (Log.run ops).next + 1 ≤ k := hk
        have h0 := ih k (by omega)
        have hnot : ∀ m, k ∉ (Log.run ops).handlers m := fun m hm => by
          have := (logInv_run ops).made m k hm; omega
        simp only [step, setUpLog, info]
        rw [if_neg, h0]
        rw [List.any_eq_true]
        rintro ⟨m', -, hm'⟩
        have hne : k ≠ (Log.run ops).next := by omega
        by_cases e : m' = logName g
        · subst e; simp [hnot, hne] at hm'
        · simp [e, hnot] at hm'
  refine ⟨(Log.run ops).next, fun hm => ?_, ?_, ?_, ?_, ?_⟩
  · have := (logInv_run ops).made _ _ hm; omega
  · simp [setUpLog, info]
  · simp only [setUpLog, info]
    rw [if_pos, fresh _ le_rfl]
    · rfl
    · exact List.any_eq_true.2 ⟨logName f, by simp [chain], by simp⟩
  · simp [setUpLog, info]
  · simp [setUpLog, info]

example (f : PyStr) : 0 ∈ (Log.run [.setUp f]).handlers (logName f) := by
  simp [Log.run, step, setUpLog, info, init]

/-- What does hold: if the log has one handler and no log whose name is a dotted prefix of it has any,
a message is sent to that handler, once, and to no other. -/
theorem C91_once_partial (ops : List Op) (f msg : PyStr) (h : ℕ)
    (h1 : (Log.run ops).handlers (logName f) = [h])
    (h2 : ∀ m, m ++ ['.'] <+: logName f → (Log.run ops).handlers m = []) :
    ∀ k, (info (logName f) msg (Log.run ops)).received k =
      if k = h then (Log.run ops).received k ++ [msg] else (Log.run ops).received k := by
  intro k
  simp only [info]
  have : ((chain (logName f)).any fun m => ((Log.run ops).handlers m).contains k) = decide (k = h) := by
    rw [Bool.eq_iff_iff, List.any_eq_true, decide_eq_true_eq]
    constructor
    · rintro ⟨m, hm, hk⟩
      rw [chain, List.mem_cons] at hm
      rcases hm with rfl | hm
      · rw [h1] at hk
        simpa using hk
      · obtain ⟨i, hi, rfl⟩ := List.mem_map.1 hm
        rw [List.mem_filter, List.mem_range] at hi
        rw [h2] at hk
        · simp at hk
        · obtain ⟨h3, h4⟩ := hi
          have e : (logName f)[i]'h3 = '.' := by simpa [h3] using h4
          rw [← e, List.take_append_getElem]
          exact List.take_prefix _ _
    · rintro rfl
      exact ⟨logName f, by simp [chain], by simp [h1]⟩
  rw [this]
  simp

/-- Non-trivial instance: one set-up of a plain name. -/
example : (Log.run [.setUp ['a']]).handlers (logName ['a']) = [0] := by
  simp [Log.run, step, setUpLog, info, init]

/-- Logs whose names are dotted extensions of each other share messages: what is sent to the log
`run.log.x` is also sent to the handler of the log `run`. -/
theorem C91_dotted_names_share :
    let s := Log.run [.setUp "run".toList, .setUp "run.log.x".toList]
    s.file 0 = "run.log".toList ∧
    (info (logName "run.log.x".toList) "m".toList s).received 0 = s.received 0 ++ ["m".toList] := by
  decide

end Verif
