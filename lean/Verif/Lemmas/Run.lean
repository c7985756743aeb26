import Verif.Model.Loop
import Verif.Spec.Loop
import Verif.Lemmas.Loop

/-!
# The iterate reached by a run of the driver
-/

namespace Verif.Loop

/-- The iterates produced by the updates `f 0, f 1, ...`. -/
def orbit {X : Type} (f : ℕ → X → X) (x : X) : ℕ → X
  | 0 => x
  | n + 1 => f n (orbit f x n)

theorem orbit_shift {X : Type} (f : ℕ → X → X) (x : X) (n : ℕ) :
    orbit f x (n + 1) = orbit (fun k => f (k + 1)) (f 0 x) n := by
  induction n with
  | zero => rfl
  | succ n ih => rw [orbit, ih]; rfl

variable {X M C : Type}

theorem objUpdate_x {P : Parts X M C} {rule : Rule} {k : ℕ} {o o1 : Obj X M C} {x : X}
    (hs : P.step k o.x = .ok x) (h : objUpdate P rule k o = .ok o1) : o1.x = x := by
  unfold objUpdate at h
  rw [hs] at h
  simp only [bind, Except.bind] at h
  cases hc : P.hasCost with
  | false => simp only [hc] at h; cases h; rfl
  | true =>
    simp only [hc, if_true] at h
    cases rule with
    | flagsOrCost =>
      simp only at h
      cases hf : P.flag o.obs with
      | true => simp only [hf] at h; cases h; rfl
      | false =>
        simp only [hf] at h
        cases hg : P.getCost x o.cost with
        | error e => rw [hg] at h; cases h
        | ok r => rw [hg] at h; cases h; rfl
    | costOnly =>
      simp only at h
      cases hg : P.getCost x o.cost with
      | error e => rw [hg] at h; cases h
      | ok r => rw [hg] at h; cases h; rfl

theorem metricsStep_x {P : Parts X M C} {rule : Rule} {hm : Bool} {p : Option ℕ} {m idx : ℕ}
    {o o' : Obj X M C} {ev : List Ev}
    (h : metricsStep (objAlg P rule hm p) m idx o = (ev, .ok o')) : o'.x = o.x ∧ updates ev = [] := by
  have ht := metricsStep_trace (objAlg P rule hm p) m idx o
  rw [h] at ht
  refine ⟨?_, ht⟩
  unfold metricsStep at h
  split_ifs at h
  · cases hp : (objAlg P rule hm p).period with
    | none => simp [hp] at h; rw [h.2]
    | some q =>
      simp only [hp] at h
      split_ifs at h
      · simp at h
      · obtain ⟨-, h⟩ := Prod.mk.inj h
        simp only [objAlg] at h
        cases hn : P.notify idx o.x o.obs with
        | error e => rw [hn] at h; cases h
        | ok v => rw [hn] at h; cases h; rfl
      · obtain ⟨-, h⟩ := Prod.mk.inj h
        cases h; rfl
  · simp at h; rw [h.2]

theorem iterLoop_orbit {P : Parts X M C} {rule : Rule} {hm : Bool} {p : Option ℕ} {m : ℕ}
    {f : ℕ → X → X} (hs : ∀ k x, P.step k x = .ok (f k x)) (n lo : ℕ) (o o' : Obj X M C)
    (h : (iterLoop (objAlg P rule hm p) m (List.range' lo n) o).result = .ok o') :
    ∃ j ≤ n, (updates (iterLoop (objAlg P rule hm p) m (List.range' lo n) o).trace).length = j ∧
      o'.x = orbit (fun k => f (lo + k)) o.x j ∧ (0 < n → 0 < j) := by
  induction n generalizing lo o with
  | zero =>
    simp only [List.range', iterLoop] at h ⊢
    cases h
    exact ⟨0, Nat.le_refl _, rfl, rfl, by simp⟩
  | succ n ih =>
    rw [List.range'_succ] at h ⊢
    simp only [iterLoop] at h ⊢
    cases hu : (objAlg P rule hm p).update lo o with
    | error e => rw [hu] at h; cases h
    | ok o1 =>
      have hx1 : o1.x = f lo o.x := objUpdate_x (hs lo o.x) hu
      simp only [hu] at h ⊢
      cases hms : metricsStep (objAlg P rule hm p) m lo o1 with
      | mk ev r =>
        cases r with
        | error e => simp only [hms] at h; cases h
        | ok o2 =>
          obtain ⟨hx2, hev⟩ := metricsStep_x hms
          simp only [hms] at h ⊢
          split_ifs at h ⊢ with hc
          · cases h
            refine ⟨1, by omega, ?_, ?_, fun _ => Nat.one_pos⟩
            · simp only [updates] at hev
              simp [updates, hev]
            · rw [hx2, hx1]; rfl
          · obtain ⟨j, h1, h2, h3, h4⟩ := ih (lo + 1) o2 h
            refine ⟨j + 1, by omega, ?_, ?_, fun _ => by omega⟩
            · simp only [updates] at hev h2 ⊢
              rw [List.cons_append, List.filterMap_cons]
              simp [List.filterMap_append, hev, h2]
            · rw [h3, hx2, hx1, orbit_shift]
              congr 1
              funext k
              rw [show lo + 1 + k = lo + (k + 1) by omega]

/-- A run that returns normally ends at the iterate reached by its updates; it performs at most
`max_iter` of them and, if `max_iter` is positive, at least one. -/
theorem runAlg_orbit {P : Parts X M C} {rule : Rule} {hm : Bool} {p : Option ℕ} {m : ℕ}
    {f : ℕ → X → X} (hs : ∀ k x, P.step k x = .ok (f k x)) (o o' : Obj X M C)
    (h : (runAlg (objAlg P rule hm p) m o).result = .ok o') :
    (updates (runAlg (objAlg P rule hm p) m o).trace).length ≤ m ∧
    (0 < m → 0 < (updates (runAlg (objAlg P rule hm p) m o).trace).length) ∧
    o'.x = orbit f o.x (updates (runAlg (objAlg P rule hm p) m o).trace).length := by
  unfold runAlg at h ⊢
  rw [List.range_eq_range'] at h ⊢
  obtain ⟨j, h1, h2, h3, h4⟩ := iterLoop_orbit hs m 0 o o' h
  rw [h2]
  refine ⟨h1, h4, ?_⟩
  simpa using h3

end Verif.Loop
