import Verif.Spec.Loop
import Mathlib.Tactic.Common

namespace Verif.Loop
variable {σ : Type _}

@[simp] theorem updates_nil : updates [] = [] := rfl
@[simp] theorem updates_append (a b) : updates (a ++ b) = updates a ++ updates b := by
  simp [updates]
@[simp] theorem updates_cons_update (i t) : updates (.update i :: t) = i :: updates t := rfl
@[simp] theorem updates_cons_metrics (i t) : updates (.metrics i :: t) = updates t := rfl
@[simp] theorem updates_cons_reweight (t) : updates (.reweight :: t) = updates t := rfl
@[simp] theorem metricCalls_nil : metricCalls [] = [] := rfl
@[simp] theorem metricCalls_append (a b) : metricCalls (a ++ b) = metricCalls a ++ metricCalls b := by
  simp [metricCalls]
@[simp] theorem metricCalls_cons_update (i t) : metricCalls (.update i :: t) = metricCalls t := rfl
@[simp] theorem metricCalls_cons_metrics (i t) : metricCalls (.metrics i :: t) = i :: metricCalls t := rfl
@[simp] theorem metricCalls_cons_reweight (t) : metricCalls (.reweight :: t) = metricCalls t := rfl

/-- One full iteration: update, then metrics. -/
def fullStep (A : Alg σ) (maxIter idx : ℕ) (s : σ) : Py σ :=
  match A.update idx s with
  | .error e => .error e
  | .ok s1 => (metricsStep A maxIter idx s1).2

theorem metricsStep_trace (A : Alg σ) (m idx : ℕ) (s : σ) :
    updates (metricsStep A m idx s).1 = [] := by
  unfold metricsStep
  split
  · split
    · rfl
    · split
      · rfl
      · simp only [truthyTuple]; rfl
  · rfl

/-- Invariant of the loop: starting from a consecutive block of indices, the run executes a prefix of
it. -/
theorem iterLoop_spec (A : Alg σ) (m : ℕ) (traj : ℕ → σ) (n lo : ℕ)
    (hstep : ∀ k, lo ≤ k → k < lo + n → fullStep A m k (traj k) = .ok (traj (k + 1))) :
    ∃ j, j ≤ n ∧ (iterLoop A m (List.range' lo n) (traj lo)).result = .ok (traj (lo + j)) ∧
      updates (iterLoop A m (List.range' lo n) (traj lo)).trace = List.range' lo j ∧
      (∀ k, k + 1 < j → A.converge (traj (lo + k + 1)) = false) ∧
      (j < n → 0 < j ∧ A.converge (traj (lo + j)) = true) := by
  induction n generalizing lo with
  | zero => exact ⟨0, Nat.le_refl _, rfl, rfl, by simp, by simp⟩
  | succ n ih =>
    have h0 := hstep lo (Nat.le_refl _) (by omega)
    unfold fullStep at h0
    rw [List.range'_succ]
    simp only [iterLoop]
    cases hu : A.update lo (traj lo) with
    | error e => rw [hu] at h0; cases h0
    | ok s1 =>
      rw [hu] at h0
      simp only at h0 ⊢
      have hm := metricsStep_trace A m lo s1
      cases hms : metricsStep A m lo s1 with
      | mk ev r =>
        rw [hms] at h0 hm
        simp only at h0 hm
        subst h0
        simp only
        by_cases hc : A.converge (traj (lo + 1)) = true
        · refine ⟨1, by omega, by simp [hc], by simp [hc, hm], by omega, fun _ => ⟨by omega, hc⟩⟩
        · obtain ⟨j, h1, h2, h3, h4, h5⟩ := ih (lo + 1) (fun k h h' => hstep k (by omega) (by omega))
          refine ⟨j + 1, by omega, ?_, ?_, ?_, ?_⟩
          · simp only [hc, if_false, Bool.false_eq_true]
            rw [h2]; congr 2; omega
          · simp only [hc, if_false, Bool.false_eq_true]
            simp only [List.cons_append, updates_cons_update, updates_append, hm, h3,
              List.range'_succ, List.nil_append]
          · intro k hk
            rcases k with _ | k
            · simpa using hc
            · have := h4 k (by omega)
              rwa [show lo + (k + 1) + 1 = lo + 1 + k + 1 by omega]
          · intro hj
            obtain ⟨a, b⟩ := h5 (by omega)
            exact ⟨by omega, by rwa [show lo + (j + 1) = lo + 1 + j by omega]⟩

theorem metricCalls_iterLoop (A : Alg σ) (m : ℕ) (l : List ℕ) (s : σ) (p : ℕ)
    (hm : A.hasMetrics = true) (hp : A.period = some p) (h0 : p ≠ 0)
    (hok : ∃ s', (iterLoop A m l s).result = .ok s') :
    metricCalls (iterLoop A m l s).trace = updates (iterLoop A m l s).trace := by
  induction l generalizing s with
  | nil => rfl
  | cons idx rest ih =>
    simp only [iterLoop] at hok ⊢
    cases hu : A.update idx s with
    | error e => simp [hu] at hok
    | ok s1 =>
      simp only [hu] at hok ⊢
      simp only [metricsStep, hm, if_true, hp, h0, if_false, truthyTuple, List.isEmpty_cons,
        Bool.not_false] at hok ⊢
      cases hc : A.computeMetrics idx s1 with
      | error e => simp [hc] at hok
      | ok s2 =>
        simp only [hc] at hok ⊢
        split
        · rfl
        · rename_i hcv
          simp only [hcv] at hok
          simp only [List.cons_append, metricCalls_cons_update, metricCalls_cons_metrics,
            updates_cons_update, updates_cons_metrics]
          rw [List.nil_append, ih s2 hok]

theorem metricCalls_none (A : Alg σ) (m : ℕ) (l : List ℕ) (s : σ)
    (h : A.hasMetrics = false ∨ A.period = none) :
    metricCalls (iterLoop A m l s).trace = [] := by
  have hstep : ∀ idx s1, metricsStep A m idx s1 = ([], .ok s1) := by
    intro idx s1
    unfold metricsStep
    rcases h with h | h
    · simp [h]
    · simp [h]
  induction l generalizing s with
  | nil => rfl
  | cons idx rest ih =>
    simp only [iterLoop]
    cases hu : A.update idx s with
    | error e => rfl
    | ok s1 =>
      simp only [hstep]
      split
      · rfl
      · simp [ih]

theorem fullStep_of_iteration {A : Alg σ} {m k : ℕ} {s s' : σ} (h0 : A.period ≠ some 0)
    (h : Iteration A k s s') : fullStep A m k s = .ok s' := by
  obtain ⟨s1, h1, h2⟩ := h
  unfold fullStep
  rw [h1]
  simp only [metricsStep]
  by_cases hm : A.hasMetrics = true
  · cases hp : A.period with
    | none => simp [hm, hp] at h2 ⊢; exact h2.symm
    | some p =>
      have : p ≠ 0 := by rintro rfl; exact h0 hp
      simp only [hm, hp, Option.isSome_some, and_self, if_true] at h2
      simp [hm, this, truthyTuple, h2]
  · simp [hm] at h2 ⊢; exact h2.symm

theorem iterLoop_updates_length (A : Alg σ) (m : ℕ) (l : List ℕ) (s : σ) :
    (updates (iterLoop A m l s).trace).length ≤ l.length := by
  induction l generalizing s with
  | nil => simp [iterLoop]
  | cons idx rest ih =>
    simp only [iterLoop]
    cases hu : A.update idx s with
    | error e => simp
    | ok s1 =>
      have hm := metricsStep_trace A m idx s1
      cases hms : metricsStep A m idx s1 with
      | mk ev r =>
        rw [hms] at hm
        simp only at hm
        cases r with
        | error e => simp [hms, hm]
        | ok s2 =>
          simp only [hms]
          split
          · simp [hm]
          · have := ih s2
            simp [hm]; omega

@[simp] theorem reweights_nil : reweights [] = 0 := rfl
@[simp] theorem reweights_append (a b) : reweights (a ++ b) = reweights a + reweights b := by
  simp [reweights]
@[simp] theorem reweights_cons_reweight (t) : reweights (.reweight :: t) = reweights t + 1 := by
  simp [reweights]
@[simp] theorem reweights_cons_update (i t) : reweights (.update i :: t) = reweights t := by
  simp [reweights]

theorem metricsStep_reweights (A : Alg σ) (m idx : ℕ) (s : σ) :
    reweights (metricsStep A m idx s).1 = 0 := by
  unfold metricsStep
  split
  · split
    · rfl
    · split
      · rfl
      · simp only [truthyTuple]; rfl
  · rfl

theorem iterLoop_reweights (A : Alg σ) (m : ℕ) (l : List ℕ) (s : σ) :
    reweights (iterLoop A m l s).trace = 0 := by
  induction l generalizing s with
  | nil => rfl
  | cons idx rest ih =>
    simp only [iterLoop]
    cases hu : A.update idx s with
    | error e => rfl
    | ok s1 =>
      have hm := metricsStep_reweights A m idx s1
      cases hms : metricsStep A m idx s1 with
      | mk ev r =>
        rw [hms] at hm
        simp only at hm
        cases r with
        | error e => simp [hms, hm]
        | ok s2 =>
          simp only [hms]
          split
          · simp [hm]
          · simp [hm, ih s2]

theorem reweightLoop_spec (A : Alg σ) (f : σ → Py σ) (m n : ℕ) (s : σ) :
    (updates (reweightLoop A f m n s).trace).length ≤ n * m ∧
    reweights (reweightLoop A f m n s).trace ≤ n ∧
    ((∃ s', (reweightLoop A f m n s).result = .ok s') →
      reweights (reweightLoop A f m n s).trace = n) := by
  induction n generalizing s with
  | zero => simp [reweightLoop]
  | succ n ih =>
    simp only [reweightLoop]
    cases hf : f s with
    | error e => simp
    | ok s1 =>
      have hl := iterLoop_updates_length A m (List.range m) s1
      have hr := iterLoop_reweights A m (List.range m) s1
      rw [List.length_range] at hl
      simp only
      cases hrun : runAlg A m s1 with
      | mk t r =>
        unfold runAlg at hrun
        rw [hrun] at hl hr
        simp only at hl hr
        have e : (n + 1) * m = m + n * m := by rw [Nat.add_mul]; omega
        cases r with
        | error e' => simp [hr]; rw [e]; omega
        | ok s2 =>
          obtain ⟨h1, h2, h3⟩ := ih s2
          refine ⟨?_, ?_, ?_⟩
          · simp; rw [e]; omega
          · simp [hr]; omega
          · intro h
            have := h3 h
            simp [hr, this]

end Verif.Loop
