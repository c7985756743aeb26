import Verif.Model.Interface
import Mathlib.Data.List.Basic
import Mathlib.Data.List.TakeWhile
import Mathlib.Tactic.Common

/-!
# C75: executable lookup and file name checks
-/

namespace Verif
open Interface

/-- `e` is one of the colon-separated entries of `p`. -/
def IsEntry (p e : PyStr) : Prop :=
  ':' ∉ e ∧ ∃ a b, p = a ++ e ++ b ∧ (a = [] ∨ ∃ a', a = a' ++ [':']) ∧ (b = [] ∨ ∃ b', b = ':' :: b')

theorem splitOnGo_mem (p cur e : PyStr) (hc : ':' ∉ cur) :
    e ∈ splitOnGo ':' p cur ↔ (∃ x b, e = cur ++ x ∧ ':' ∉ x ∧ p = x ++ b ∧ (b = [] ∨ ∃ b', b = ':' :: b')) ∨
      ∃ a b, p = a ++ ':' :: (e ++ b) ∧ ':' ∉ e ∧ (b = [] ∨ ∃ b', b = ':' :: b') := by
  induction p generalizing cur with
  | nil =>
    simp only [splitOnGo, List.mem_singleton]
    constructor
    · rintro rfl
      exact .inl ⟨[], [], by simp, by simp, rfl, .inl rfl⟩
    · rintro (⟨x, b, rfl, -, h, -⟩ | ⟨a, b, h, -⟩)
      · have := List.append_eq_nil_iff.1 h.symm
        simp [this.1]
      · simp at h
  | cons c cs ih =>
    rw [splitOnGo]
    by_cases h : c = ':'
    · subst h
      rw [if_pos rfl, List.mem_cons, ih [] (by simp)]
      constructor
      · rintro (rfl | ⟨x, b, rfl, hx, rfl, hb⟩ | ⟨a, b, rfl, he, hb⟩)
        · exact .inl ⟨[], ':' :: cs, by simp, by simp, rfl, .inr ⟨_, rfl⟩⟩
        · exact .inr ⟨[], b, by simp, by simpa using hx, hb⟩
        · exact .inr ⟨':' :: a, b, by simp, he, hb⟩
      · rintro (⟨x, b, rfl, hx, hp, hb⟩ | ⟨a, b, hp, he, hb⟩)
        · cases x with
          | nil => exact .inl (by simp)
          | cons d x =>
            simp only [List.cons_append, List.cons.injEq] at hp
            rw [List.mem_cons, not_or] at hx
            exact absurd hp.1 hx.1
        · cases a with
          | nil =>
            simp only [List.nil_append, List.cons.injEq, true_and] at hp
            exact .inr (.inl ⟨e, b, by simp, he, hp, hb⟩)
          | cons d a =>
            simp only [List.cons_append, List.cons.injEq] at hp
            exact .inr (.inr ⟨a, b, hp.2, he, hb⟩)
    · rw [if_neg h, ih (cur ++ [c]) (by simp [hc, Ne.symm h])]
      constructor
      · rintro (⟨x, b, rfl, hx, rfl, hb⟩ | ⟨a, b, rfl, he, hb⟩)
        · exact .inl ⟨c :: x, b, by simp, by simp [hx, Ne.symm h], by simp, hb⟩
        · exact .inr ⟨c :: a, b, by simp, he, hb⟩
      · rintro (⟨x, b, rfl, hx, hp, hb⟩ | ⟨a, b, hp, he, hb⟩)
        · cases x with
          | nil =>
            rcases hb with rfl | ⟨b', rfl⟩
            · simp at hp
            · simp only [List.nil_append, List.cons.injEq] at hp
              exact absurd hp.1 h
          | cons d x =>
            simp only [List.cons_append, List.cons.injEq] at hp
            obtain ⟨rfl, rfl⟩ := hp
            exact .inl ⟨x, b, by simp, fun hm => hx (List.mem_cons_of_mem _ hm), rfl, hb⟩
        · cases a with
          | nil =>
            simp only [List.nil_append, List.cons.injEq] at hp
            exact absurd hp.1 h
          | cons d a =>
            simp only [List.cons_append, List.cons.injEq] at hp
            exact .inr ⟨a, b, hp.2, he, hb⟩

theorem mem_split_iff (p e : PyStr) : e ∈ splitOnGo ':' p [] ↔ IsEntry p e := by
  rw [splitOnGo_mem p [] e (by simp)]
  constructor
  · rintro (⟨x, b, rfl, hx, rfl, hb⟩ | ⟨a, b, rfl, he, hb⟩)
    · exact ⟨by simpa using hx, [], b, by simp, .inl rfl, hb⟩
    · exact ⟨he, a ++ [':'], b, by simp, .inr ⟨a, rfl⟩, hb⟩
  · rintro ⟨he, a, b, rfl, rfl | ⟨a', rfl⟩, hb⟩
    · exact .inl ⟨e, b, by simp, he, by simp, hb⟩
    · exact .inr ⟨a', b, by simp, he, hb⟩

theorem takeWhile_length_lt {p : Char → Bool} {l : PyStr} (h : ∃ c ∈ l, p c = false) :
    (l.takeWhile p).length < l.length := by
  induction l with
  | nil => simp at h
  | cons d l ih =>
    cases hd : p d with
    | false => simp [hd]
    | true =>
      rw [List.takeWhile_cons, hd]
      simp only [if_true, List.length_cons]
      obtain ⟨c, hc, hp⟩ := h
      rw [List.mem_cons] at hc
      rcases hc with rfl | hc
      · rw [hd] at hp; cases hp
      · have := ih ⟨c, hc, hp⟩
        omega

/-- The directory part of a name is empty exactly when the name has no slash. -/
theorem pathSplit_head (p : PyStr) : (pathSplit p).1 = [] ↔ '/' ∉ p := by
  by_cases hs : '/' ∈ p
  · simp only [hs, not_true_eq_false, iff_false]
    have hlt : (p.reverse.takeWhile (· != '/')).length < p.length := by
      have := takeWhile_length_lt (p := (· != '/')) (l := p.reverse) ⟨'/', by simpa using hs, by decide⟩
      simpa using this
    have hne : p.take (p.length - (p.reverse.takeWhile (· != '/')).length) ≠ [] := by
      rw [Ne, List.take_eq_nil_iff]
      rintro (h | h)
      · omega
      · subst h; simp at hs
    simp only [pathSplit, List.length_reverse]
    generalize p.take (p.length - (p.reverse.takeWhile (· != '/')).length) = head at hne
    by_cases hr : head = List.replicate head.length '/'
    · rw [if_neg (by simp [← hr])]
      exact hne
    · rw [if_pos (by simp [hne, hr])]
      intro h
      apply hr
      rw [List.reverse_eq_nil_iff, List.dropWhile_eq_nil_iff] at h
      rw [List.eq_replicate_iff]
      exact ⟨rfl, fun c hc => by simpa using h c (by simpa using hc)⟩
  · simp only [hs, not_false_eq_true, iff_true]
    have : p.reverse.takeWhile (· != '/') = p.reverse := by
      rw [List.takeWhile_eq_self_iff]
      intro c hc
      simp only [bne_iff_ne, ne_eq]
      rintro rfl
      exact hs (by simpa using hc)
    simp [pathSplit, this]

/-- The file a bare command name denotes in a directory: the name itself for the empty entry. -/
def inDir (dir name : PyStr) : PyStr :=
  if dir = [] then name else if dir.getLast? = some '/' then dir ++ name else dir ++ ['/'] ++ name

/-- `is_executable` succeeds exactly when the name contains a slash and is an executable file, or
contains none and some entry of `PATH` holds an executable file of that name; every other string raises
`OSError` (or `KeyError` when `PATH` is needed and missing), every other value `TypeError`. -/
theorem C75_is_executable (os : Os) :
    isExecutable os none = .error .typeError ∧
    (∀ name, '/' ∈ name → isExecutable os (some name) =
      if os.isFile name = true ∧ os.canExec name = true then .ok () else .error .ioError) ∧
    (∀ name, '/' ∉ name → os.path = none → isExecutable os (some name) = .error .keyError) ∧
    ∀ name p, '/' ∉ name → os.path = some p →
      (isExecutable os (some name) = .ok () ∨ isExecutable os (some name) = .error .ioError) ∧
      (isExecutable os (some name) = .ok () ↔
        ∃ dir, IsEntry p dir ∧ os.isFile (inDir dir name) = true ∧ os.canExec (inDir dir name) = true) := by
  refine ⟨rfl, fun name h => ?_, fun name h hp => ?_, fun name p h hp => ?_⟩
  · have : (pathSplit name).1 ≠ [] := fun e => (pathSplit_head name).1 e h
    simp only [isExecutable, bind, Except.bind]
    rw [if_pos (by simpa using this)]
    simp only [isExe]
    by_cases h1 : os.isFile name = true <;> by_cases h2 : os.canExec name = true <;> simp [h1, h2]
  · have : (pathSplit name).1 = [] := (pathSplit_head name).2 h
    simp only [isExecutable, bind, Except.bind, this, hp]
    rfl
  · have : (pathSplit name).1 = [] := (pathSplit_head name).2 h
    have hj : ∀ dir, pathJoin dir name = inDir dir name := by
      intro dir
      have h0 : name.head? ≠ some '/' := fun e => h (List.mem_of_head? e)
      unfold pathJoin inDir
      rw [if_neg h0]
      by_cases hd : dir = []
      · simp [hd]
      · by_cases hl : dir.getLast? = some '/'
        · simp [hd, hl]
        · simp [hd, hl]
    have e : isExecutable os (some name) =
        if ((splitOnGo ':' p []).any fun dir => isExe os (inDir dir name)) = true then .ok () else .error .ioError := by
      simp only [isExecutable, bind, Except.bind, this, hp, hj]
      cases ((splitOnGo ':' p []).any fun dir => isExe os (inDir dir name)) <;> rfl
    rw [e]
    cases hany : ((splitOnGo ':' p []).any fun dir => isExe os (inDir dir name)) with
    | true =>
      simp only [if_true, true_or, true_iff, true_and]
      rw [List.any_eq_true] at hany
      obtain ⟨dir, h1, h2⟩ := hany
      exact ⟨dir, (mem_split_iff p dir).1 h1, by simpa [isExe] using h2⟩
    | false =>
      simp only [Bool.false_eq_true, if_false, or_true, true_and, reduceCtorEq, false_iff]
      rintro ⟨dir, h1, h2, h3⟩
      rw [List.any_eq_false] at hany
      exact hany dir ((mem_split_iff p dir).2 h1) (by simp [isExe, h2, h3])

/-- `file_name_error` accepts exactly the names of existing files that are not empty and do not begin with
a dash, and raises `OSError` for all others. -/
theorem C75_file_name (os : Os) (name : PyStr) :
    (fileNameError os name = .ok () ∨ fileNameError os name = .error .ioError) ∧
    (fileNameError os name = .ok () ↔ name ≠ [] ∧ (∀ rest, name ≠ '-' :: rest) ∧ os.isFile name = true) := by
  cases name with
  | nil => simp [fileNameError]
  | cons c cs =>
    by_cases hc : c = '-'
    · subst hc
      simp [fileNameError]
    · have hn : ∀ rest, c :: cs ≠ '-' :: rest := fun rest e => hc (List.cons.inj e).1
      cases hf : os.isFile (c :: cs) <;> simp [fileNameError, hc, hf]

/-- A system with `mr_transform` in the second of two directories. -/
def demoOs : Os := ⟨fun p => p == "/opt/bin/mr_transform".toList, fun _ => true, some "/bin:/opt/bin".toList⟩

/-- Non-trivial instances: found through `PATH`, found by its full name, not found. -/
example : isExecutable demoOs (some "mr_transform".toList) = .ok () ∧
    isExecutable demoOs (some "/opt/bin/mr_transform".toList) = .ok () ∧
    isExecutable demoOs (some "./mr_transform".toList) = .error .ioError ∧
    fileNameError demoOs "/opt/bin/mr_transform".toList = .ok () := by decide

end Verif
