import Verif.Model.Errors
import Mathlib.Data.List.Induction
import Mathlib.Data.List.Basic

/-!
# C114: reported warnings and errors; C115: files written by cost plots
-/

namespace Verif
open Errors

/-- A session: each report is an error (`true`) or a warning, with its text and the log it was given. -/
def reports (paint : PyStr → PyStr) (l : List (Bool × PyStr × Option ℕ)) (s : Screen) : Screen :=
  l.foldl (fun s r => if r.1 then catchError paint r.2.1 r.2.2 s else warn paint r.2.1 r.2.2 s) s

/-- The line expected on the terminal. -/
def line (paint : PyStr → PyStr) (isError : Bool) (msg : PyStr) : PyStr :=
  paint (if isError then "ERROR".toList else "WARNING".toList) ++ ": ".toList ++ msg ++ "\n".toList

/-- Over any session, every report appears on the terminal exactly once and in order; a log holds exactly the errors
reported with it, in order; earlier output stays. -/
theorem C114_reports_partial (paint : PyStr → PyStr) (l : List (Bool × PyStr × Option ℕ)) (s : Screen) :
    (reports paint l s).stderr = s.stderr ++ l.map (fun r => line paint r.1 r.2.1) ∧
    ∀ n, (reports paint l s).logs n = s.logs n ++
      (l.filter fun r => r.1 && decide (r.2.2 = some n)).map fun r => "ERROR: ".toList ++ r.2.1 ++ "\n".toList := by
  induction l generalizing s with
  | nil => simp [reports]
  | cons r l ih =>
    obtain ⟨b, msg, log⟩ := r
    have e : reports paint ((b, msg, log) :: l) s =
      reports paint l (if b then catchError paint msg log s else warn paint msg log s) := rfl
    rw [e]
    obtain ⟨h1, h2⟩ := ih (if b then catchError paint msg log s else warn paint msg log s)
    rw [h1]
    refine ⟨?_, fun n => ?_⟩
    · cases b <;> cases log <;>
        simp only [warn, catchError, line, List.map_cons, List.append_assoc, List.singleton_append, if_true, if_false,
          Bool.false_eq_true]
    · rw [h2 n]
      cases b with
      | false =>
        cases log <;> simp only [warn, Bool.false_eq_true, if_false, Bool.false_and, not_false_eq_true, List.filter_cons_of_neg]
      | true =>
        cases log with
        | none =>
          rw [List.filter_cons_of_neg (by simp)]
          simp only [catchError, if_true]
        | some m =>
          by_cases hm : n = m
          · subst hm
            rw [List.filter_cons_of_pos (by simp)]
            simp only [catchError, if_true, List.map_cons, List.append_assoc, List.singleton_append]
          · have hm' : ¬ m = n := fun h => hm h.symm
            rw [List.filter_cons_of_neg (by simp [hm'])]
            simp only [catchError, if_true, if_neg hm]

/-- **C114 refuted.**  No sequence of warnings, whatever logs they are given, writes anything into any log. -/
theorem C114_warnings_never_logged (paint : PyStr → PyStr) (l : List (PyStr × Option ℕ)) (s : Screen) :
    (reports paint (l.map fun r => (false, r)) s).logs = s.logs := by
  funext n
  rw [(C114_reports_partial paint _ s).2 n, List.filter_map]
  have e : l.filter ((fun r : Bool × PyStr × Option ℕ => r.1 && decide (r.2.2 = some n)) ∘ fun r => (false, r)) = [] := by
    rw [List.filter_eq_nil_iff]; intro r _; simp
  rw [e]
  simp only [List.map_nil, List.append_nil]

/-- What passing a log to a warning does instead: it is also issued as a Python warning, once. -/
theorem C114_log_triggers_python_warning (paint : PyStr → PyStr) (msg : PyStr) (log : Option ℕ) (s : Screen) :
    (warn paint msg log s).warned = s.warned ++ (if log.isSome then [msg] else []) ∧
    (catchError paint msg log s).warned = s.warned := by
  cases log <;> simp only [warn, catchError, Option.isSome, if_true, if_false, List.append_nil, and_self,
    Bool.false_eq_true]

example : (reports id [(true, "a".toList, some 1), (false, "b".toList, some 1), (true, "c".toList, some 2)]
    ⟨[], [], fun _ => []⟩).logs 1 = ["ERROR: a\n".toList] := by decide

/-! ## C115 -/

/-- Different output names, or a name and none, give different files. -/
theorem C115_names_distinct (o o' : Option PyStr) : plotName o = plotName o' ↔ o = o' := by
  have key : ∀ suffix bare : PyStr, bare.length < suffix.length →
      ((match o with | none => bare | some p => p ++ suffix) = (match o' with | none => bare | some p => p ++ suffix) ↔
        o = o') := by
    intro suffix bare hlt
    constructor
    · intro h
      rcases o with _ | p <;> rcases o' with _ | q
      · rfl
      · have hl := congrArg List.length h
        simp only [List.length_append] at hl; omega
      · have hl := congrArg List.length h
        simp only [List.length_append] at hl; omega
      · rw [List.append_cancel_right h]
    · rintro rfl; rfl
  have hlt : "cost_function.png".toList.length < "_cost_function.png".toList.length := by
    rw [String.length_toList, String.length_toList]; decide
  unfold plotName
  exact key _ _ hlt

/-- All plots made in a session, each with its costs and output name. -/
def plots {C Fig : Type} (draw : List C → Fig) (l : List (List C × Option PyStr)) (files : PyStr → Option Fig) :
    Py (PyStr → Option Fig) :=
  l.foldlM (fun fs p => plotCost true draw p.1 p.2 fs) files

/-- After any session the file of an output name shows the costs of the last plot made under that name, and files no
plot was made under are untouched.  Without Matplotlib nothing is written. -/
theorem C115_last_plot_kept {C Fig : Type} (draw : List C → Fig) (l : List (List C × Option PyStr))
    (files : PyStr → Option Fig) :
    (∃ fs, plots draw l files = .ok fs ∧
      (∀ o, fs (plotName o) = match (l.filter fun p => decide (p.2 = o)).getLast? with
        | some p => some (draw p.1)
        | none => files (plotName o)) ∧
      ∀ n, (∀ p ∈ l, n ≠ plotName p.2) → fs n = files n) ∧
    ∀ costs o, plotCost false draw costs o files = .error .importError := by
  refine ⟨?_, fun _ _ => rfl⟩
  induction l using List.reverseRecOn with
  | nil => exact ⟨files, rfl, fun o => rfl, fun n _ => rfl⟩
  | append_singleton l p ih =>
    obtain ⟨fs, h1, h2, h3⟩ := ih
    refine ⟨fun n => if n = plotName p.2 then some (draw p.1) else fs n, ?_, ?_, ?_⟩
    · unfold plots at h1 ⊢
      rw [List.foldlM_append, h1]
      simp [plotCost, bind, Except.bind, pure, Except.pure]
    · intro o
      by_cases ho : p.2 = o
      · subst ho; simp [List.filter_append]
      · have hn : plotName o ≠ plotName p.2 := fun h => ho ((C115_names_distinct _ _).1 h).symm
        simp only [if_neg hn, h2 o]
        simp [List.filter_append, ho]
    · intro n hn
      have a := hn p (by simp)
      simp only [if_neg a]
      exact h3 n fun q hq => hn q (by simp [hq])

example : plotName (some "run1".toList) = "run1_cost_function.png".toList ∧ plotName none ≠ plotName (some []) := by
  decide

end Verif
