import Verif.Model.Broadcast
import Verif.Spec.Shapes

/-! # Lemmas on broadcasting -/

set_option linter.unusedSectionVars false

namespace Verif.Nd
open Spec

theorem fits_nil (t : Shape) : Fits [] t := ⟨Nat.zero_le _, fun k => Or.inl (by simp)⟩

theorem fits_cons {a b : ℕ} {s t : Shape} : Fits (a :: s) (b :: t) ↔ (a = 1 ∨ a = b) ∧ Fits s t := by
  constructor
  · rintro ⟨h1, h2⟩
    refine ⟨by simpa using h2 0, by simpa using h1, fun k => by simpa using h2 (k + 1)⟩
  · rintro ⟨h1, h2, h3⟩
    refine ⟨by simpa using h2, fun k => ?_⟩
    cases k with
    | zero => simpa using h1
    | succ k => simpa using h3 k

theorem not_fits_cons_nil {a : ℕ} {s : Shape} : ¬ Fits (a :: s) [] := fun h => by simpa using h.1

theorem fits_refl (s : Shape) : Fits s s := ⟨le_rfl, fun _ => Or.inr rfl⟩

theorem fits_trans {s t u : Shape} (h : Fits s t) (h' : Fits t u) : Fits s u := by
  refine ⟨h.1.trans h'.1, fun k => ?_⟩
  rcases h.2 k with e | e
  · exact Or.inl e
  · rw [e]; exact h'.2 k

theorem fits_antisymm : ∀ {s t : Shape}, Fits s t → Fits t s → s = t
  | [], [], _, _ => rfl
  | [], _ :: _, _, h => absurd h not_fits_cons_nil
  | _ :: _, [], h, _ => absurd h not_fits_cons_nil
  | a :: s, b :: t, h, h' => by
    rw [fits_cons] at h h'
    rw [fits_antisymm h.2 h'.2]
    have : a = b := by rcases h.1 with e | e <;> rcases h'.1 with e' | e' <;> omega
    rw [this]

theorem fits_nil_right : ∀ {s : Shape}, Fits s [] → s = []
  | [], _ => rfl
  | _ :: _, h => absurd h not_fits_cons_nil

/-- The shape of an expression is the least shape to which both operands can be repeated. -/
theorem join_some : ∀ {s t u : Shape}, join s t = some u →
    Fits s u ∧ Fits t u ∧ ∀ v, Fits s v → Fits t v → Fits u v
  | [], t, u, h => by
    have : t = u := by simpa [join] using h
    subst this
    exact ⟨fits_nil _, fits_refl _, fun v _ h => h⟩
  | a :: s, [], u, h => by
    have : a :: s = u := by simpa [join] using h
    subst this
    exact ⟨fits_refl _, fits_nil _, fun v h _ => h⟩
  | a :: s, b :: t, u, h => by
    rw [join] at h
    cases hj : join s t with
    | none => simp [hj] at h
    | some u' =>
      obtain ⟨h1, h2, h3⟩ := join_some hj
      simp only [hj] at h
      have key : ∀ c, (a = 1 ∨ a = c) → (b = 1 ∨ b = c) → (∀ d, (a = 1 ∨ a = d) → (b = 1 ∨ b = d) → c = 1 ∨ c = d) →
          Fits (a :: s) (c :: u') ∧ Fits (b :: t) (c :: u') ∧ ∀ v, Fits (a :: s) v → Fits (b :: t) v → Fits (c :: u') v := by
        intro c ha hb hl
        refine ⟨fits_cons.2 ⟨ha, h1⟩, fits_cons.2 ⟨hb, h2⟩, fun v hv hv' => ?_⟩
        cases v with
        | nil => exact absurd hv not_fits_cons_nil
        | cons d v =>
          rw [fits_cons] at hv hv' ⊢
          exact ⟨hl d hv.1 hv'.1, h3 v hv.2 hv'.2⟩
      split at h
      · next e =>
        cases h
        exact key _ (Or.inr rfl) (Or.inr e.symm) fun d h _ => h
      · split at h
        · next e =>
          cases h
          exact key _ (Or.inl e) (Or.inr rfl) fun d _ h => h
        · split at h
          · next e =>
            cases h
            exact key _ (Or.inr rfl) (Or.inl e) fun d h _ => h
          · exact absurd h (by simp)

/-- An expression is possible if both operands can be repeated to some shape. -/
theorem join_exists : ∀ {s t v : Shape}, Fits s v → Fits t v → ∃ u, join s t = some u
  | [], t, v, _, _ => ⟨t, by simp [join]⟩
  | a :: s, [], v, _, _ => ⟨a :: s, by simp [join]⟩
  | a :: s, b :: t, [], h, _ => absurd h not_fits_cons_nil
  | a :: s, b :: t, c :: v, h, h' => by
    rw [fits_cons] at h h'
    obtain ⟨u, hu⟩ := join_exists h.2 h'.2
    rw [join, hu]
    simp only
    split
    · exact ⟨_, rfl⟩
    · split
      · exact ⟨_, rfl⟩
      · split
        · exact ⟨_, rfl⟩
        · exfalso
          rcases h.1 with e | e <;> rcases h'.1 with e' | e' <;> omega

theorem join_fits {s t : Shape} : join s t = some t ↔ Fits s t := by
  constructor
  · intro h; exact (join_some h).1
  · intro h
    obtain ⟨u, hu⟩ := join_exists h (fits_refl t)
    obtain ⟨h1, h2, h3⟩ := join_some hu
    rw [hu, fits_antisymm (h3 t h (fits_refl t)) h2]

theorem join_fits' {s t : Shape} : join s t = some s ↔ Fits t s := by
  constructor
  · intro h; exact (join_some h).2.1
  · intro h
    obtain ⟨u, hu⟩ := join_exists (fits_refl s) h
    obtain ⟨h1, h2, h3⟩ := join_some hu
    rw [hu, fits_antisymm (h3 s (fits_refl s) h) h1]

theorem join_none {s t : Shape} : join s t = none ↔ ¬ ∃ v, Fits s v ∧ Fits t v := by
  constructor
  · rintro h ⟨v, h1, h2⟩
    obtain ⟨u, hu⟩ := join_exists h1 h2
    rw [h] at hu; cases hu
  · intro h
    cases hj : join s t with
    | none => rfl
    | some u => exact absurd ⟨u, (join_some hj).1, (join_some hj).2.1⟩ h

theorem clip_clip {s u : Shape} (h : Fits s u) (i : ℕ → ℕ) : clip s (clip u i) = clip s i := by
  funext k
  simp only [clip]
  split
  · rfl
  · next e =>
    rcases h.2 k with e' | e'
    · exact absurd e' e
    · rw [← e', if_neg e]

/-- A shape that contains `s` and can be copied into an array of shape `s`. -/
theorem sameUpToOnes {s t : Shape} (h : Fits s t) (h' : Fits (strip s.length t) s) : SameUpToOnes s t := by
  unfold strip at h'
  split at h'
  · next e =>
    have h1 : Fits s (t.take s.length) := by
      refine ⟨by rw [List.length_take]; exact le_min le_rfl h.1, fun k => ?_⟩
      rcases lt_or_ge k s.length with hk | hk
      · have e1 : (t.take s.length).getD k 1 = t.getD k 1 := by simp [List.getD, List.getElem?_take_of_lt hk]
        rw [e1]
        exact h.2 k
      · left
        simp [List.getD, hk]
    refine ⟨(t.drop s.length).length, ?_⟩
    have h2 : t.drop s.length = List.replicate (t.drop s.length).length 1 :=
      List.eq_replicate_iff.2 ⟨rfl, fun b hb => by simpa using List.all_eq_true.1 e b hb⟩
    rw [← h2]
    conv_lhs => rw [← List.take_append_drop s.length t]
    rw [← fits_antisymm h1 h']
  · exact ⟨0, by simpa using (fits_antisymm h h').symm⟩

/-! ## Outcomes -/

theorem bind_eq_ok {α β : Type} {m : Py α} {f : α → Py β} {b : β} :
    (m >>= f) = .ok b ↔ ∃ a, m = .ok a ∧ f a = .ok b := by
  cases m with
  | error e => simp [bind, Except.bind]
  | ok a => simp [bind, Except.bind]

variable {α β γ : Type} {𝕜 : Type} [RCLike 𝕜]

theorem binop_ok {f : α → β → γ} {a : Arr α} {b : Arr β} {c : Arr γ} (h : binop f a b = .ok c) :
    join a.shape b.shape = some c.shape := by
  unfold binop at h
  cases hj : join a.shape b.shape with
  | none => simp [hj] at h
  | some u =>
    simp only [hj, Except.ok.injEq] at h
    rw [← h]

theorem binop_of_join {f : α → β → γ} {a : Arr α} {b : Arr β} {u : Shape} (h : join a.shape b.shape = some u) :
    binop f a b = .ok ⟨u, fun i => f (a.val (clip a.shape i)) (b.val (clip b.shape i))⟩ := by
  simp only [binop, h]

theorem binop_error {f : α → β → γ} {a : Arr α} {b : Arr β} (h : ¬ ∃ v, Fits a.shape v ∧ Fits b.shape v) :
    binop f a b = .error .valueError := by
  simp only [binop, join_none.2 h]

theorem iadd_ok {a b c : Arr 𝕜} (h : iadd a b = .ok c) : c.shape = a.shape ∧ Fits b.shape a.shape := by
  unfold iadd at h
  split at h
  · next e =>
    cases h
    exact ⟨rfl, join_fits'.1 e⟩
  · cases h

theorem iadd_error {a b : Arr 𝕜} (h : ¬ Fits b.shape a.shape) : iadd a b = .error .valueError :=
  if_neg fun e => h (join_fits'.1 e)

theorem copyto_ok {a b c : Arr 𝕜} (h : copyto a b = .ok c) :
    c.shape = a.shape ∧ Fits (strip a.shape.length b.shape) a.shape := by
  unfold copyto at h
  split at h
  · next e =>
    cases h
    exact ⟨rfl, join_fits.1 e⟩
  · cases h

theorem copyto_same {a b : Arr 𝕜} (h : b.shape = a.shape) : copyto a b = .ok ⟨a.shape, fun i => b.val (clip a.shape i)⟩ := by
  unfold copyto
  have e : strip a.shape.length b.shape = a.shape := by
    rw [h]; simp [strip]
  rw [if_pos (by rw [e]; exact join_fits.2 (fits_refl _)), h]

end Verif.Nd
