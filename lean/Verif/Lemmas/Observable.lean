import Verif.Model.Observable

set_option linter.unusedSectionVars false

namespace Verif.Observable
variable {S O : Type _} [DecidableEq S] [DecidableEq O]

theorem runProg_quiet (beh : O → List (Cmd S O)) (st : State S O) (hl : st.locked = true)
    (sigs : List S) (fuel : ℕ) (hf : sigs.length + 2 ≤ fuel) :
    runProg beh fuel st (sigs.map .notify)
      = some ⟨.ok none, st, sigs.map fun s => .returned s (some false)⟩ := by
  induction sigs generalizing fuel with
  | nil =>
    obtain ⟨f, rfl⟩ : ∃ f, fuel = f + 1 := ⟨fuel - 1, by simp at hf; omega⟩
    simp [runProg]
  | cons s sigs ih =>
    simp only [List.length_cons] at hf
    obtain ⟨f, rfl⟩ : ∃ f, fuel = f + 1 + 1 := ⟨fuel - 2, by omega⟩
    have h := ih (f + 1) (by omega)
    have hn : notify beh (f + 1) st s = some ⟨.ok (some false), st, []⟩ := by
      rw [notify]; simp [hl]
    simp only [List.map_cons]
    rw [runProg, hn]
    simp only [h, List.nil_append]

theorem runProg_raise (beh : O → List (Cmd S O)) (st : State S O) (hl : st.locked = true)
    (sigs : List S) (e : PyErr) (rest : List (Cmd S O)) (fuel : ℕ) (hf : sigs.length + 2 ≤ fuel) :
    runProg beh fuel st (sigs.map .notify ++ .raise e :: rest)
      = some ⟨.error e, st, sigs.map fun s => .returned s (some false)⟩ := by
  induction sigs generalizing fuel with
  | nil =>
    obtain ⟨f, rfl⟩ : ∃ f, fuel = f + 1 := ⟨fuel - 1, by simp at hf; omega⟩
    simp [runProg]
  | cons s sigs ih =>
    simp only [List.length_cons] at hf
    obtain ⟨f, rfl⟩ : ∃ f, fuel = f + 1 + 1 := ⟨fuel - 2, by omega⟩
    have h := ih (f + 1) (by omega)
    have hn : notify beh (f + 1) st s = some ⟨.ok (some false), st, []⟩ := by
      rw [notify]; simp [hl]
    simp only [List.map_cons, List.cons_append]
    rw [runProg, hn]
    simp only [h, List.nil_append]

/-- The loop over well-behaved observers. -/
theorem notifyLoop_quiet (beh : O → List (Cmd S O)) (st : State S O) (hl : st.locked = true) (s : S)
    (l : List O) (hs : st.observers s = some l) (nested : O → List S)
    (hb : ∀ o ∈ l, beh o = (nested o).map .notify) (B : ℕ) (hB : ∀ o ∈ l, (nested o).length ≤ B)
    (n i : ℕ) (hi : n + i = l.length) (fuel : ℕ) (hf : n + B + 3 ≤ fuel) :
    notifyLoop beh fuel st s i
      = some ⟨.ok none, { st with locked := false },
          (l.drop i).flatMap fun o => .called o s :: (nested o).map fun s' => .returned s' (some false)⟩ := by
  induction n generalizing i fuel with
  | zero =>
    obtain ⟨f, rfl⟩ : ∃ f, fuel = f + 1 := ⟨fuel - 1, by omega⟩
    have : l[i]? = none := List.getElem?_eq_none (by omega)
    rw [notifyLoop]
    simp only [hs, Option.getD_some, this]
    rw [List.drop_eq_nil_of_le (by omega)]; rfl
  | succ n ih =>
    obtain ⟨f, rfl⟩ : ∃ f, fuel = f + 1 := ⟨fuel - 1, by omega⟩
    have hlt : i < l.length := by omega
    have hget : l[i]? = some l[i] := List.getElem?_eq_getElem hlt
    have hm : l[i] ∈ l := List.getElem_mem hlt
    have hp := runProg_quiet beh st hl (nested l[i]) f (by have := hB _ hm; omega)
    rw [← hb _ hm] at hp
    rw [notifyLoop]
    simp only [hs, Option.getD_some, hget, hp]
    rw [ih (i + 1) (by omega) f (by omega)]
    have hd : l.drop i = l[i] :: l.drop (i + 1) := List.drop_eq_getElem_cons hlt
    rw [hd]
    simp only [List.flatMap_cons, List.cons_append]

/-- The loop when observer `o` raises after the observers of `pre` returned normally. -/
theorem notifyLoop_raise (beh : O → List (Cmd S O)) (st : State S O) (hl : st.locked = true) (s : S)
    (pre post : List O) (o : O) (hs : st.observers s = some (pre ++ o :: post)) (nested : O → List S)
    (hb : ∀ p ∈ pre, beh p = (nested p).map .notify) (e : PyErr) (rest : List (Cmd S O))
    (ho : beh o = (nested o).map .notify ++ .raise e :: rest)
    (B : ℕ) (hB : ∀ p ∈ o :: pre, (nested p).length ≤ B)
    (n i : ℕ) (hi : n + i = pre.length) (fuel : ℕ) (hf : n + B + 3 ≤ fuel) :
    notifyLoop beh fuel st s i
      = some ⟨.error e, st,
          ((pre ++ [o]).drop i).flatMap fun o => .called o s ::
            (nested o).map fun s' => .returned s' (some false)⟩ := by
  induction n generalizing i fuel with
  | zero =>
    obtain ⟨f, rfl⟩ : ∃ f, fuel = f + 1 := ⟨fuel - 1, by omega⟩
    have hget : (pre ++ o :: post)[i]? = some o := by
      rw [List.getElem?_append_right (by omega), show i - pre.length = 0 by omega]; rfl
    have hp := runProg_raise beh st hl (nested o) e rest f (by have := hB o (by simp); omega)
    rw [← ho] at hp
    rw [notifyLoop]
    simp only [hs, Option.getD_some, hget, hp]
    rw [show i = pre.length by omega, List.drop_left]
    simp
  | succ n ih =>
    obtain ⟨f, rfl⟩ : ∃ f, fuel = f + 1 := ⟨fuel - 1, by omega⟩
    have hlt : i < pre.length := by omega
    have hget : (pre ++ o :: post)[i]? = some pre[i] := by
      rw [List.getElem?_append_left hlt]; exact List.getElem?_eq_getElem hlt
    have hm : pre[i] ∈ pre := List.getElem_mem hlt
    have hp := runProg_quiet beh st hl (nested pre[i]) f
      (by have := hB _ (List.mem_cons_of_mem o hm); omega)
    rw [← hb _ hm] at hp
    rw [notifyLoop]
    simp only [hs, Option.getD_some, hget, hp]
    rw [ih (i + 1) (by omega) f (by omega)]
    rw [List.drop_eq_getElem_cons (i := i) (by simp; omega)]
    simp [List.getElem_append_left hlt]

/-- What any sequence of calls may do to the registrations: nothing is forgotten, nothing is
duplicated, the allowed signals do not change. -/
def Grows (st st' : State S O) : Prop :=
  st'.allowed = st.allowed ∧
  (∀ s, st.observers s = none → st'.observers s = none) ∧
  (∀ s l, st.observers s = some l → ∃ l', st'.observers s = some (l ++ l') ∧
    (l.Nodup → (l ++ l').Nodup))

theorem Grows.refl (st : State S O) : Grows st st :=
  ⟨rfl, fun _ h => h, fun s l h => ⟨[], by simpa using h, by simp⟩⟩

theorem Grows.trans {a b c : State S O} (h1 : Grows a b) (h2 : Grows b c) : Grows a c := by
  refine ⟨h2.1.trans h1.1, fun s h => h2.2.1 s (h1.2.1 s h), ?_⟩
  intro s l h
  obtain ⟨l1, hl1, hn1⟩ := h1.2.2 s l h
  obtain ⟨l2, hl2, hn2⟩ := h2.2.2 s _ hl1
  refine ⟨l1 ++ l2, by rw [hl2, List.append_assoc], fun hn => ?_⟩
  rw [← List.append_assoc]; exact hn2 (hn1 hn)

theorem Grows.lock (st : State S O) (b : Bool) : Grows st { st with locked := b } :=
  ⟨rfl, fun _ h => h, fun s l h => ⟨[], by simpa using h, by simp⟩⟩

theorem addObserver_grows {st st' : State S O} {s : S} {o : O} (h : addObserver st s o = .ok st') :
    Grows st st' ∧ st'.locked = st.locked := by
  unfold addObserver isAllowedSignal at h
  split at h
  · change addObserverRaw st s o = _ at h
    unfold addObserverRaw at h
    split at h
    · cases h
    · rename_i l hl
      split at h
      · cases h; exact ⟨Grows.refl _, rfl⟩
      · rename_i hno
        cases h
        refine ⟨⟨rfl, ?_, ?_⟩, rfl⟩
        · intro s' h'
          have : s' ≠ s := by rintro rfl; rw [hl] at h'; cases h'
          simpa [Function.update_of_ne this] using h'
        · intro s' l' h'
          by_cases hss : s' = s
          · subst hss
            rw [hl] at h'; cases h'
            refine ⟨[o], by simp, fun hn => ?_⟩
            rw [List.nodup_append]
            refine ⟨hn, by simp, ?_⟩
            intro a ha b hb
            have : b = o := by simpa using hb
            subst this
            rintro rfl
            exact hno ha
          · exact ⟨[], by simpa [Function.update_of_ne hss] using h', by simp⟩
  · cases h

theorem interp_grows (beh : O → List (Cmd S O)) (fuel : ℕ) :
    (∀ st s r, notify beh fuel st s = some r → Grows st r.state) ∧
    (∀ st s i r, notifyLoop beh fuel st s i = some r → Grows st r.state) ∧
    (∀ st p r, runProg beh fuel st p = some r → Grows st r.state) := by
  induction fuel with
  | zero => simp [notify, notifyLoop, runProg]
  | succ f ih =>
    obtain ⟨ih1, ih2, ih3⟩ := ih
    refine ⟨?_, ?_, ?_⟩
    · intro st s r h
      rw [notify] at h
      split at h
      · cases h; exact Grows.refl _
      · simp only at h
        split at h
        · cases h; exact Grows.lock st true
        · exact (Grows.lock st true).trans (ih2 _ _ _ _ h)
    · intro st s i r h
      rw [notifyLoop] at h
      split at h
      · cases h; exact Grows.lock st false
      · rename_i o ho
        split at h
        · cases h
        · rename_i e st' ev hr
          cases h
          have h1 : Grows st st' := ih3 _ _ _ hr
          exact h1
        · rename_i v st' ev hr
          split at h
          · cases h
          · rename_i r' hr'
            cases h
            have h1 : Grows st st' := ih3 _ _ _ hr
            have h2 : Grows st' r'.state := ih2 _ _ _ _ hr'
            exact h1.trans h2
    · intro st p r h
      match p, h with
      | [], h => rw [runProg] at h; cases h; exact Grows.refl _
      | .notify s :: cs, h =>
        rw [runProg] at h
        split at h
        · cases h
        · rename_i e st' ev hr
          cases h
          exact ih1 _ _ _ hr
        · rename_i v st' ev hr
          split at h
          · cases h
          · rename_i r' hr'
            cases h
            have h1 : Grows st st' := ih1 _ _ _ hr
            have h2 : Grows st' r'.state := ih3 _ _ _ hr'
            exact h1.trans h2
      | .add s o :: cs, h =>
        rw [runProg] at h
        split at h
        · cases h; exact Grows.refl _
        · rename_i st' hst
          exact (addObserver_grows hst).1.trans (ih3 _ _ _ h)
      | .raise e :: cs, h => rw [runProg] at h; cases h; exact Grows.refl _

theorem removeObserver_error (st : State S O) (s : S) (o : O) :
    removeObserver st s o = .error .attributeError := by
  have h : lookupAttr "_is_allowed_event" = .error .attributeError := by decide
  unfold removeObserver; rw [h]; rfl

theorem runOp_grows {beh : O → List (Cmd S O)} {fuel : ℕ} {st : State S O} {op : Op S O} {r : Res S O}
    (h : runOp beh fuel st op = some r) : Grows st r.state := by
  cases op with
  | notify s => exact (interp_grows beh fuel).1 _ _ _ h
  | add s o =>
    simp only [runOp] at h
    split at h
    · rename_i st' hst; cases h; exact (addObserver_grows hst).1
    · cases h; exact Grows.refl _
  | remove s o =>
    simp only [runOp, removeObserver_error] at h
    cases h; exact Grows.refl _

theorem runOps_grows {beh : O → List (Cmd S O)} {fuel : ℕ} {st st' : State S O} {ops : List (Op S O)}
    {rs} (h : runOps beh fuel st ops = some (rs, st')) : Grows st st' := by
  induction ops generalizing st rs with
  | nil => simp only [runOps] at h; cases h; exact Grows.refl _
  | cons op ops ih =>
    simp only [runOps] at h
    split at h
    · cases h
    · rename_i r hr
      split at h
      · cases h
      · rename_i rs' st'' hrs
        cases h
        exact (runOp_grows hr).trans (ih hrs)

end Verif.Observable
