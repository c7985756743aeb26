import Verif.Model.ReweightedCondat
import Verif.Props.PrimalDual
import Verif.Props.Reweight

/-!
# C150: reweighting changes the problem that is being solved
-/

namespace Verif
open Loop RwCondat

variable {σ κ 𝕜 : Type} [RCLike 𝕜]

theorem live_metrics (A : WAlg σ κ) (p : ProxHolds) (m i : ℕ) (s : σ) (r : Reweight.St κ) :
    metricsStep (A.live p) m i (s, r)
      = ((metricsStep (A.fixed (seen p r)) m i s).1, (metricsStep (A.fixed (seen p r)) m i s).2.map fun t => (t, r)) := by
  rcases A with ⟨u, c, v, hm, q⟩
  unfold metricsStep
  cases hm with
  | false => rfl
  | true =>
    cases q with
    | none => rfl
    | some q =>
      by_cases h0 : q = 0
      · subst h0
        rfl
      · simp [h0, truthyTuple, WAlg.live, WAlg.fixed]

/-- While no reweighting takes place the run is that of the algorithm with the weights it sees. -/
theorem live_loop (A : WAlg σ κ) (p : ProxHolds) (m : ℕ) (l : List ℕ) (s : σ) (r : Reweight.St κ) :
    iterLoop (A.live p) m l (s, r) = ⟨(iterLoop (A.fixed (seen p r)) m l s).trace,
      (iterLoop (A.fixed (seen p r)) m l s).result.map fun t => (t, r)⟩ := by
  induction l generalizing s with
  | nil => rfl
  | cons i l ih =>
    have e : (A.live p).update i (s, r) = ((A.fixed (seen p r)).update i s).map fun t => (t, r) := rfl
    simp only [iterLoop, e]
    cases (A.fixed (seen p r)).update i s with
    | error e => rfl
    | ok s1 =>
      simp only [Except.map, live_metrics]
      cases metricsStep (A.fixed (seen p r)) m i s1 with
      | mk ev q =>
        cases q with
        | error e => rfl
        | ok s2 =>
          simp only [ih]
          have e2 : (A.live p).converge (s2, r) = (A.fixed (seen p r)).converge s2 := rfl
          rw [e2]
          split <;> rfl

theorem live_run (A : WAlg σ κ) (p : ProxHolds) (m : ℕ) (s : σ) (r : Reweight.St κ) :
    runAlg (A.live p) m (s, r) = ⟨(runAlg (A.fixed (seen p r)) m s).trace,
      (runAlg (A.fixed (seen p r)) m s).result.map fun t => (t, r)⟩ := live_loop A p m _ s r

/-- Block after block: what a run with `n` reweightings amounts to, from a reweighting object `r` and the state `s` after the
first block. -/
theorem reweightLoop_blocks (A : WAlg σ κ) (p : ProxHolds) (data : σ → Py (Option (κ → 𝕜))) (m n : ℕ) (s : σ)
    (r : Reweight.St κ) (s' : σ) (r' : Reweight.St κ)
    (h : (reweightLoop (A.live p) (reweightCall data) m n (s, r)).result = .ok (s', r')) :
    ∃ (S : ℕ → σ) (R : ℕ → Reweight.St κ) (D : ℕ → κ → 𝕜), S 0 = s ∧ R 0 = r ∧ S n = s' ∧ R n = r' ∧
      ∀ j < n, data (S j) = .ok (some (D j)) ∧ R (j + 1) = (Reweight.reweight (some (D j)) (R j)).2 ∧
        (runAlg (A.fixed (seen p (R (j + 1)))) m (S j)).result = .ok (S (j + 1)) := by
  induction n generalizing s r with
  | zero =>
    simp only [reweightLoop, Except.ok.injEq, Prod.mk.injEq] at h
    exact ⟨fun _ => s, fun _ => r, fun _ _ => 0, rfl, rfl, h.1, h.2, fun j hj => absurd hj (Nat.not_lt_zero j)⟩
  | succ n ih =>
    simp only [reweightLoop] at h
    cases hd : data s with
    | error e => simp [reweightCall, hd] at h
    | ok d =>
      cases d with
      | none => simp [reweightCall, hd, Reweight.reweight] at h
      | some x =>
        obtain ⟨r1, hr1⟩ : ∃ r1, (Reweight.reweight (some x) r).2 = r1 := ⟨_, rfl⟩
        have hc : reweightCall data (s, r) = .ok (s, r1) := by
          simp only [reweightCall, hd]
          rw [← hr1]
          rfl
        simp only [hc, live_run] at h
        cases hq : (runAlg (A.fixed (seen p r1)) m s).result with
        | error e => simp [hq, Except.map] at h
        | ok s1 =>
          simp only [hq, Except.map] at h
          obtain ⟨S, R, D, a1, a2, a3, a4, a5⟩ := ih s1 r1 h
          refine ⟨fun j => Nat.casesOn j s S, fun j => Nat.casesOn j r R, fun j => Nat.casesOn j x D, rfl, rfl, a3, a4, ?_⟩
          intro j hj
          cases j with
          | zero =>
            refine ⟨hd, ?_, ?_⟩
            · show R 0 = (Reweight.reweight (some x) r).2
              rw [a2, ← hr1]
            · show (runAlg (A.fixed (seen p (R 0))) m s).result = .ok (S 0)
              rw [a1, a2]
              exact hq
          | succ j => exact a5 j (by omega)

theorem run_blocks (A : WAlg σ κ) (p : ProxHolds) (data : σ → Py (Option (κ → 𝕜))) (m n : ℕ) (s : σ) (r : Reweight.St κ)
    (s' : σ) (r' : Reweight.St κ) (h : (RwCondat.run A p data m n s r).result = .ok (s', r')) :
    ∃ s1, (runAlg (A.fixed (seen p r)) m s).result = .ok s1 ∧
      (reweightLoop (A.live p) (reweightCall data) m n (s1, r)).result = .ok (s', r') := by
  simp only [RwCondat.run, condatIterate, live_run] at h
  cases hq : (runAlg (A.fixed (seen p r)) m s).result with
  | error e => simp [hq, Except.map] at h
  | ok s1 =>
    simp only [hq, Except.map] at h
    exact ⟨s1, rfl, h⟩

/-- C150 refuted: integer weights.  `cwbReweight` and `SparseThreshold` are both built from the same array `w` of integers, of
which `cwbReweight` makes a floating-point copy.  Then a run with `n` reweightings ends in the state of `n + 1` runs of the
algorithm with the weights `w` throughout: the reweightings have no effect. -/
theorem C150_integer_weights_no_effect (A : WAlg σ κ) (data : σ → Py (Option (κ → 𝕜))) (w : κ → ℝ) (f : ℝ) (m n : ℕ) (s s' : σ)
    (r' : Reweight.St κ)
    (h : (RwCondat.run A .callerArray data m n s (Reweight.init w .converted f)).result = .ok (s', r')) :
    ∃ S : ℕ → σ, S 0 = s ∧ S (n + 1) = s' ∧ ∀ j ≤ n, (runAlg (A.fixed w) m (S j)).result = .ok (S (j + 1)) := by
  obtain ⟨s1, h1, h2⟩ := run_blocks A _ data m n s _ s' r' h
  obtain ⟨S, R, D, a1, a2, a3, -, a5⟩ := reweightLoop_blocks A _ data m n s1 _ s' r' h2
  have hR : ∀ j ≤ n, (R j).supplied = .converted ∧ (R j).caller = w := by
    intro j
    induction j with
    | zero => intro _; rw [a2]; exact ⟨rfl, rfl⟩
    | succ j ih =>
      intro hj
      obtain ⟨i1, i2⟩ := ih (by omega)
      rw [(a5 j (by omega)).2.1]
      simp only [Reweight.reweight, i1]
      exact ⟨trivial, i2⟩
  refine ⟨fun j => Nat.casesOn j s S, rfl, a3, fun j hj => ?_⟩
  cases j with
  | zero =>
    show (runAlg (A.fixed w) m s).result = .ok (S 0)
    rw [a1]
    exact h1
  | succ j =>
    have := (a5 j (by omega)).2.2
    rwa [show seen .callerArray (R (j + 1)) = w from (hR (j + 1) (by omega)).2] at this

/-- C150, what holds: when `SparseThreshold` was given the attribute `weights` of the reweighting object, or the caller's array of
floats from which that object was built, then every block of a run with `n` reweightings uses the weights of the block
before times `1/(1 + |dᵢ|/(f wᵢ))`, `d` being the coefficients of the solution of the block before.  Missing: arrays of integers, by
`C150_integer_weights_no_effect`. -/
theorem C150_shared_weights_partial (A : WAlg σ κ) (p : ProxHolds) (sup : Reweight.Supplied)
    (hp : p = .reweightAttribute ∨ sup = .floatArray) (data : σ → Py (Option (κ → 𝕜))) (w : κ → ℝ) (f : ℝ) (m n : ℕ)
    (s s' : σ) (r' : Reweight.St κ)
    (h : (RwCondat.run A p data m n s (Reweight.init w sup f)).result = .ok (s', r')) :
    ∃ (S : ℕ → σ) (W : ℕ → κ → ℝ) (D : ℕ → κ → 𝕜), S 0 = s ∧ W 0 = w ∧ S (n + 1) = s' ∧
      (∀ j ≤ n, (runAlg (A.fixed (W j)) m (S j)).result = .ok (S (j + 1))) ∧
      ∀ j < n, data (S (j + 1)) = .ok (some (D j)) ∧ ∀ i, W (j + 1) i = W j i * (1 / (1 + ‖D j i‖ / (f * w i))) := by
  obtain ⟨s1, h1, h2⟩ := run_blocks A _ data m n s _ s' r' h
  obtain ⟨S, R, D, a1, a2, a3, -, a5⟩ := reweightLoop_blocks A _ data m n s1 _ s' r' h2
  have hR : ∀ j ≤ n, (R j).supplied = sup ∧ (R j).original = w ∧ (R j).factor = f ∧
      (sup = .floatArray → (R j).caller = (R j).weights) := by
    intro j
    induction j with
    | zero => intro _; rw [a2]; exact ⟨rfl, rfl, rfl, fun _ => rfl⟩
    | succ j ih =>
      intro hj
      obtain ⟨i1, i2, i3, i4⟩ := ih (by omega)
      rw [(a5 j (by omega)).2.1]
      simp only [Reweight.reweight, i1, i2, i3]
      refine ⟨trivial, trivial, trivial, fun e => ?_⟩
      rw [e]
  have hseen : ∀ j ≤ n, seen p (R j) = (R j).weights := by
    intro j hj
    rcases hp with hp | hp
    · rw [hp]; rfl
    · cases p with
      | callerArray => exact (hR j hj).2.2.2 hp
      | reweightAttribute => rfl
  refine ⟨fun j => Nat.casesOn j s S, fun j => (R j).weights, D, rfl, by show (R 0).weights = w; rw [a2]; rfl, a3, fun j hj => ?_, fun j hj => ?_⟩
  · cases j with
    | zero =>
      show (runAlg (A.fixed (R 0).weights) m s).result = .ok (S 0)
      rw [a1, ← hseen 0 (by omega), a2]
      exact h1
    | succ j =>
      have := (a5 j (by omega)).2.2
      rwa [hseen (j + 1) hj] at this
  · obtain ⟨b1, b2, -⟩ := a5 j hj
    obtain ⟨i1, i2, i3, -⟩ := hR j (by omega)
    refine ⟨b1, fun i => ?_⟩
    show (R (j + 1)).weights i = _
    rw [b2]
    simp only [Reweight.reweight, i2, i3]

section
variable {E H : Type} [NormedAddCommGroup E] [InnerProductSpace ℝ E] [NormedAddCommGroup H] [InnerProductSpace ℝ H]

theorem condat_block (O : (κ → ℝ) → Condat.Ops E H) (U : Condat.Upd) (w : κ → ℝ) (m : ℕ) (l : List ℕ) (s : Condat.St E H)
    (k : ℕ) : (iterLoop ((RwCondat.condat O U).fixed w) m l (condatAfter (O w) U s k)).result
      = .ok (condatAfter (O w) U s (k + l.length)) := by
  induction l generalizing k with
  | nil => rfl
  | cons i l ih =>
    have := ih (k + 1)
    rw [List.length_cons, show k + (l.length + 1) = k + 1 + l.length by omega, ← this]
    rfl

/-- C150 refuted, in terms of the updates: `Condat` with a reweighting object built, like the dual operator, from an array of
integers.  However many reweightings are asked for, the result is that of `(n + 1) max_iter` updates with the original
weights, as if there were no reweighting object. -/
theorem C150_integer_weights_plain_run (O : (κ → ℝ) → Condat.Ops E H) (U : Condat.Upd) (data : Condat.St E H → κ → 𝕜)
    (w : κ → ℝ) (f : ℝ) (m n : ℕ) (s : Condat.St E H) :
    ∃ r', (RwCondat.run (RwCondat.condat O U) .callerArray (fun t => .ok (some (data t))) m n s
      (Reweight.init w .converted f)).result = .ok (condatAfter (O w) U s ((n + 1) * m), r') := by
  have hblock : ∀ k, (runAlg ((RwCondat.condat O U).fixed w) m (condatAfter (O w) U s k)).result
      = .ok (condatAfter (O w) U s (k + m)) := fun k => by
    have := condat_block O U w m (List.range m) s k
    rwa [List.length_range] at this
  have hloop : ∀ n k (r : Reweight.St κ), r.supplied = .converted → r.caller = w →
      ∃ r', (reweightLoop ((RwCondat.condat O U).live .callerArray) (reweightCall fun t => .ok (some (data t))) m n
        (condatAfter (O w) U s k, r)).result = .ok (condatAfter (O w) U s (k + n * m), r') := by
    intro n
    induction n with
    | zero => intro k r _ _; exact ⟨r, by simp [reweightLoop]⟩
    | succ n ih =>
      intro k r h1 h2
      obtain ⟨r1, hr1⟩ : ∃ r1, (Reweight.reweight (some (data (condatAfter (O w) U s k))) r).2 = r1 := ⟨_, rfl⟩
      have hc : reweightCall (fun t => .ok (some (data t))) (condatAfter (O w) U s k, r)
          = .ok (condatAfter (O w) U s k, r1) := by
        simp only [reweightCall]
        rw [← hr1]
        rfl
      have g1 : r1.supplied = .converted ∧ r1.caller = w := by
        rw [← hr1]
        simp only [Reweight.reweight, h1]
        exact ⟨trivial, h2⟩
      obtain ⟨r', hr'⟩ := ih (k + m) r1 g1.1 g1.2
      refine ⟨r', ?_⟩
      simp only [reweightLoop, hc, live_run]
      rw [show seen .callerArray r1 = w from g1.2, hblock k]
      simp only [Except.map]
      rw [hr', show k + m + n * m = k + (n + 1) * m by ring]
  obtain ⟨r', hr'⟩ := hloop n m (Reweight.init w .converted f) rfl rfl
  refine ⟨r', ?_⟩
  have h0 := hblock 0
  rw [Nat.zero_add] at h0
  simp only [RwCondat.run, condatIterate, live_run]
  rw [show seen .callerArray (Reweight.init w .converted f) = w from rfl,
    show (runAlg ((RwCondat.condat O U).fixed w) m s).result = .ok (condatAfter (O w) U s m) from h0]
  simp only [Except.map]
  rw [hr', show m + n * m = (n + 1) * m by ring]

end

/-- A toy algorithm that records the weight it sees: with a shared array of floats the second block sees the weight 1/2. -/
example : ((RwCondat.run (⟨fun w _ _ => .ok (w ()), fun _ _ s => .ok s, fun _ => false, false, none⟩ : WAlg ℝ Unit) .callerArray
      (fun _ => .ok (some fun _ => (1 : ℝ))) 1 1 0 (Reweight.init (fun _ => 1) .floatArray 1)).result).map Prod.fst
    = .ok (1 / 2) := by
  simp [RwCondat.run, condatIterate, reweightLoop, reweightCall, runAlg, iterLoop, metricsStep, WAlg.live, Except.map, Reweight.reweight, Reweight.init, seen, List.range_succ]
  norm_num

/-- With an array of integers it sees the weight 1 for ever. -/
example : ((RwCondat.run (⟨fun w _ _ => .ok (w ()), fun _ _ s => .ok s, fun _ => false, false, none⟩ : WAlg ℝ Unit) .callerArray
      (fun _ => .ok (some fun _ => (1 : ℝ))) 1 1 0 (Reweight.init (fun _ => 1) .converted 1)).result).map Prod.fst
    = .ok 1 := by
  simp [RwCondat.run, condatIterate, reweightLoop, reweightCall, runAlg, iterLoop, metricsStep, WAlg.live, Except.map, Reweight.reweight, Reweight.init, seen, List.range_succ]

end Verif
