import Verif.Core.Str
import Mathlib.Tactic.Common

/-!
# `split` and `join`
-/

namespace Verif

/-- A word: non-empty and free of whitespace. -/
def IsWord (t : PyStr) : Prop := t ≠ [] ∧ ∀ c ∈ t, pyWs c = false

theorem splitGo_words (s cur : PyStr) (hc : ∀ c ∈ cur, pyWs c = false) : ∀ t ∈ splitGo s cur, IsWord t := by
  induction s generalizing cur with
  | nil =>
    intro t ht
    unfold splitGo at ht
    by_cases h : cur = []
    · simp [h] at ht
    · simp only [h, if_false, List.mem_singleton] at ht
      subst ht
      exact ⟨h, hc⟩
  | cons c cs ih =>
    intro t ht
    unfold splitGo at ht
    cases hw : pyWs c with
    | true =>
      simp only [hw, if_true] at ht
      by_cases h : cur = []
      · simp only [h, if_true] at ht
        exact ih [] (by simp) t ht
      · simp only [h, if_false, List.mem_cons] at ht
        rcases ht with rfl | ht
        · exact ⟨h, hc⟩
        · exact ih [] (by simp) t ht
    | false =>
      simp only [hw] at ht
      refine ih (cur ++ [c]) (fun d hd => ?_) t ht
      rw [List.mem_append, List.mem_singleton] at hd
      rcases hd with hd | rfl
      · exact hc d hd
      · exact hw

theorem splitGo_word (w rest cur : PyStr) (hw : ∀ c ∈ w, pyWs c = false) :
    splitGo (w ++ rest) cur = splitGo rest (cur ++ w) := by
  induction w generalizing cur with
  | nil => simp
  | cons c w ih =>
    rw [List.cons_append, splitGo, hw c (by simp)]
    simp only [Bool.false_eq_true, if_false]
    rw [ih _ (fun d hd => hw d (List.mem_cons_of_mem _ hd))]
    simp

theorem pySplit_join {l : List PyStr} (h : ∀ t ∈ l, IsWord t) : pySplit (pyJoin l) = l := by
  unfold pySplit pyJoin
  induction l with
  | nil => simp [List.intercalate, splitGo]
  | cons t l ih =>
    have ht := h t (by simp)
    cases l with
    | nil =>
      have := splitGo_word t [] [] ht.2
      simp only [List.append_nil, List.nil_append] at this
      simp only [List.intercalate, List.intersperse_singleton, List.flatten_cons, List.flatten_nil,
        List.append_nil]
      rw [this, splitGo, if_neg ht.1]
    | cons u l =>
      have e : List.intercalate [' '] (t :: u :: l) = t ++ (' ' :: List.intercalate [' '] (u :: l)) := by
        simp [List.intercalate]
      rw [e, splitGo_word _ _ _ ht.2, splitGo]
      have : pyWs ' ' = true := by decide
      rw [this]
      simp only [if_true, List.nil_append, ht.1, if_false]
      rw [ih (fun w hw => h w (List.mem_cons_of_mem _ hw))]

/-- Joining with blanks and splitting gives the same list back exactly for lists of words. -/
theorem pySplit_join_iff (l : List PyStr) : pySplit (pyJoin l) = l ↔ ∀ t ∈ l, IsWord t := by
  refine ⟨fun h t ht => ?_, pySplit_join⟩
  rw [← h] at ht
  exact splitGo_words _ [] (by simp) t ht

end Verif
