import Verif.Props.Cost
import Verif.Props.SessionStop
import Verif.Props.Convergence
import Mathlib.Topology.Order.MonotoneConvergence

/-!
# C125, C126: termination and quality of runs with a cost test
-/

set_option linter.unusedSectionVars false

namespace Verif
open Session Observable FB Crash Cost Spec Topology

/-! ## The cost object on a converging sequence -/

theorem avg_near {l : List ℝ} (hl : l ≠ []) {a e : ℝ} (h : ∀ v ∈ l, |v - a| ≤ e) : |avg l - a| ≤ e := by
  have key : ∀ l : List ℝ, (∀ v ∈ l, |v - a| ≤ e) → |l.sum - l.length * a| ≤ l.length * e := by
    intro l
    induction l with
    | nil => intro _; simp
    | cons v r ih =>
      intro h
      have h1 := ih fun w hw => h w (List.mem_cons_of_mem _ hw)
      have h2 := h v List.mem_cons_self
      rw [List.sum_cons, List.length_cons]
      push_cast
      have e1 : v + r.sum - ((r.length : ℝ) + 1) * a = (v - a) + (r.sum - r.length * a) := by ring
      rw [e1]
      calc _ ≤ |v - a| + |r.sum - r.length * a| := abs_add_le _ _
        _ ≤ e + r.length * e := add_le_add h2 h1
        _ = _ := by ring
  have hpos : (0 : ℝ) < l.length := by exact_mod_cast List.length_pos_iff.2 hl
  have h1 := key l h
  have e1 : avg l - a = (l.sum - l.length * a) / l.length := by
    unfold avg; field_simp
  rw [e1, abs_div, abs_of_pos hpos, div_le_iff₀ hpos]
  linarith

/-- C125: whatever the initial cost, tolerance `> 0`, cost interval `I ≥ 1` and test range `T ≥ 2`: if the costs
of the successive arguments converge, the cost object signals convergence again and again. -/
theorem C125_converging_cost_is_detected {X : Type} (c : X → ℝ) (x : ℕ → X) (lim init tol : ℝ)
    (hc : Filter.Tendsto (fun n => c (x n)) Filter.atTop (𝓝 lim)) (htol : 0 < tol) (I : ℕ) (hI : 1 ≤ I) (T : ℕ)
    (hT : 2 ≤ T) (N : ℕ) :
    ∃ n, N ≤ n ∧ 1 ≤ n ∧ costResult (fun x => .ok (c x)) (CostObj.init init tol (some I) T) x n = .ok true := by
  obtain ⟨e, he, hwin⟩ : ∃ e > 0, ∀ older newer : List ℝ, |avg older - lim| ≤ e → |avg newer - lim| ≤ e →
      WindowConverged tol older newer := by
    by_cases h0 : lim = 0
    · refine ⟨1 / 2 / 10 ^ 16, by positivity, fun older newer _ h2 => Or.inl ⟨?_, htol.le⟩⟩
      rw [h0, sub_zero, le_div_iff₀ (by positivity)] at h2
      exact h2
    · have hl : 0 < |lim| := abs_pos.2 h0
      refine ⟨tol * |lim| / (2 + tol), by positivity, fun older newer h1 h2 => ?_⟩
      set e := tol * |lim| / (2 + tol) with hedef
      have hee : 2 * e = tol * (|lim| - e) := by rw [hedef]; field_simp; ring
      by_cases hs : |avg newer| * 10 ^ 16 ≤ 1 / 2
      · exact Or.inl ⟨hs, htol.le⟩
      · refine Or.inr ⟨lt_of_not_ge hs, ?_⟩
        have h3 : |avg newer - avg older| ≤ 2 * e := by
          have e1 : avg newer - avg older = (avg newer - lim) - (avg older - lim) := by ring
          rw [e1]
          calc _ ≤ |avg newer - lim| + |avg older - lim| := abs_sub _ _
            _ ≤ _ := by linarith
        have h4 : |lim| - e ≤ |avg newer| := by
          have := abs_sub_abs_le_abs_sub lim (avg newer)
          rw [abs_sub_comm] at this
          linarith
        calc _ ≤ 2 * e := h3
          _ = tol * (|lim| - e) := hee
          _ ≤ _ := mul_le_mul_of_nonneg_left h4 htol.le
  obtain ⟨M, hM⟩ := Filter.eventually_atTop.1 (Metric.tendsto_nhds.1 hc e he)
  have hnear : ∀ n, M ≤ n → |c (x n) - lim| ≤ e := fun n hn => by
    have := hM n hn
    rw [Real.dist_eq] at this
    exact this.le
  set j := M + N with hj
  have hbig : ∀ i, M ≤ (j * T + i + 1) * I := by
    intro i
    have h1 : j ≤ j * T := Nat.le_mul_of_pos_right j (by omega)
    have h2 : j * T + i + 1 ≤ (j * T + i + 1) * I := Nat.le_mul_of_pos_right _ (by omega)
    omega
  have hn1 : j + 1 ≤ (j + 1) * T * I := by
    have h1 : j + 1 ≤ (j + 1) * T := Nat.le_mul_of_pos_right _ (by omega)
    exact h1.trans (Nat.le_mul_of_pos_right _ (by omega))
  refine ⟨(j + 1) * T * I, by omega, by omega, ?_⟩
  rw [C18_true_iff_full_window_passes c init tol I hI T hT x _ (by omega)]
  refine ⟨j, rfl, hwin _ _ (avg_near ?_ ?_) (avg_near ?_ ?_)⟩
  · intro h; have := congrArg List.length h; simp at this; omega
  · intro v hv
    obtain ⟨i, -, rfl⟩ := List.mem_map.1 hv
    exact hnear _ (hbig i)
  · intro h; have := congrArg List.length h; simp at this; omega
  · intro v hv
    obtain ⟨i, -, rfl⟩ := List.mem_map.1 hv
    rw [show j * T + T / 2 + i + 1 = j * T + (T / 2 + i) + 1 by omega]
    exact hnear _ (hbig _)

/-! ## Sessions -/

section
variable {X K V : Type} [Field K] [LinearOrder K] [IsStrictOrderedRing K] [FloorRing K]

theorem metricsStep_keeps (A : Alg X K V) (m : ℕ) (o : Obj X K V) :
    (metricsStep A m o).1.converge = o.converge ∧ (metricsStep A m o).1.cost = o.cost ∧
    (metricsStep A m o).1.x = o.x := by
  unfold metricsStep
  split
  · split
    · exact ⟨rfl, rfl, rfl⟩
    · split
      · exact ⟨rfl, rfl, rfl⟩
      · split
        · unfold computeMetrics
          split
          · exact ⟨rfl, rfl, rfl⟩
          · split
            · exact ⟨rfl, rfl, rfl⟩
            · simp only
              split <;> exact ⟨rfl, rfl, rfl⟩
        · exact ⟨rfl, rfl, rfl⟩
  · exact ⟨rfl, rfl, rfl⟩

/-- A loop that does not raise, on any object: it stops at the latest where the cost object signals
convergence. -/
theorem loop_stops_by (A : Alg X K V) (m : ℕ) (x0 : X) (c0 : CostObj K) : ∀ (j k : ℕ) (o : Obj X K V),
    o.x = traj A x0 k → o.cost = some (costAfter A.calcCost c0 (traj A x0) k) →
    (loop A m (List.range' k j) o).exc = none →
    ∀ n, k < n → costResult A.calcCost c0 (traj A x0) n = .ok true →
      (loop A m (List.range' k j) o).started.length ≤ n - k := by
  intro j
  induction j with
  | zero => intro k o _ _ _ n _ _; simp [loop]
  | succ j ih =>
    intro k o hx hc he n hn hr
    rw [List.range'_succ] at he ⊢
    simp only [loop] at he ⊢
    have ht : (A.update k o.x).1 = traj A x0 (k + 1) := by rw [hx]; rfl
    cases e1 : update1 A k o with
    | mk o1 y1 =>
      rw [e1] at he
      cases y1 with
      | some e => simp at he
      | none =>
        simp only at he ⊢
        obtain ⟨k1, k2, k3⟩ := metricsStep_keeps A m o1
        cases e2 : metricsStep A m o1 with
        | mk o2 y2 =>
          rw [e2] at he k1 k2 k3
          simp only at he k1 k2 k3 ⊢
          cases y2 with
          | some e => simp at he
          | none =>
            simp only at he ⊢
            by_cases hcv : o2.converge = true
            · rw [if_pos hcv]; simp; omega
            · rw [if_neg hcv] at he ⊢
              simp only at he
              -- the cost was evaluated and said no
              have hstep : o1.x = traj A x0 (k + 1) ∧
                  o1.cost = some (costAfter A.calcCost c0 (traj A x0) (k + 1)) ∧
                  costResult A.calcCost c0 (traj A x0) (k + 1) ≠ .ok true := by
                unfold update1 at e1
                cases hu : A.update k o.x with
                | mk y e =>
                  rw [hu] at e1 ht
                  simp only at ht
                  subst ht
                  cases e with
                  | some e => simp at e1
                  | none =>
                    simp only [testConvergence, hc] at e1
                    split at e1
                    · cases e1
                      exact absurd k1 hcv
                    · have hcr : costResult A.calcCost c0 (traj A x0) (k + 1) =
                        (getCost A.calcCost (costAfter A.calcCost c0 (traj A x0) k) (traj A x0 (k + 1))).2 := rfl
                      have hca : costAfter A.calcCost c0 (traj A x0) (k + 1) =
                        (getCost A.calcCost (costAfter A.calcCost c0 (traj A x0) k) (traj A x0 (k + 1))).1 := rfl
                      rw [hcr, hca]
                      cases hg : getCost A.calcCost (costAfter A.calcCost c0 (traj A x0) k) (traj A x0 (k + 1)) with
                      | mk c' res =>
                        rw [hg] at e1
                        cases res with
                        | error e => simp at e1
                        | ok b =>
                          simp only [Prod.mk.injEq, and_true] at e1
                          subst e1
                          refine ⟨rfl, rfl, ?_⟩
                          intro hb
                          cases hb
                          apply hcv
                          rw [k1]
                          simp
              have hnk : n ≠ k + 1 := by rintro rfl; exact hstep.2.2 hr
              have := ih (k + 1) o2 (k3.trans hstep.1) (k2.trans hstep.2.1) he n (by omega) hr
              simp only [List.length_cons]
              omega

/-- A loop without metrics, when the cost function does not raise: what it does is determined by the answers
of the cost object. -/
theorem loop_plain (A : Alg X K V) (m : ℕ) (x0 : X) (c0 : CostObj K)
    (hu : ∀ i, (A.update i (traj A x0 i)).2 = none)
    (hcf : ∀ n, ∃ b, costResult A.calcCost c0 (traj A x0) (n + 1) = .ok b) : ∀ (j k : ℕ) (o : Obj X K V),
    o.x = traj A x0 k → o.cost = some (costAfter A.calcCost c0 (traj A x0) k) → o.observers = [] →
    o.metrics.truthy = false →
    ∃ r ≤ j, (loop A m (List.range' k j) o).exc = none ∧
      (loop A m (List.range' k j) o).started = List.range' k r ∧
      (loop A m (List.range' k j) o).obj.x = traj A x0 (k + r) ∧
      (∀ n, k < n → n < k + r → costResult A.calcCost c0 (traj A x0) n = .ok false) ∧
      (0 < r → costResult A.calcCost c0 (traj A x0) (k + r) = .ok (loop A m (List.range' k j) o).obj.converge) ∧
      (r < j → 0 < r ∧ (loop A m (List.range' k j) o).obj.converge = true) := by
  intro j
  induction j with
  | zero =>
    intro k o hx _ _ _
    exact ⟨0, le_rfl, rfl, rfl, hx, fun n h1 h2 => by omega, fun h => absurd h (lt_irrefl _),
      fun h => absurd h (lt_irrefl _)⟩
  | succ j ih =>
    intro k o hx hc ho hm
    rw [List.range'_succ]
    obtain ⟨b, hb⟩ := hcf k
    have hcr : (getCost A.calcCost (costAfter A.calcCost c0 (traj A x0) k) (traj A x0 (k + 1))).2 = .ok b := hb
    have ht : (A.update k o.x).1 = traj A x0 (k + 1) := by rw [hx]; rfl
    have hune : (A.update k o.x).2 = none := by rw [hx]; exact hu k
    have hfl : ∀ o' : Obj X K V, o'.observers = [] → anyFlag o' = false := by
      intro o' h; simp [anyFlag, h]
    obtain ⟨o1, e1, hx1, hc1, ho1, hm1, hb1⟩ : ∃ o1, update1 A k o = (o1, none) ∧ o1.x = traj A x0 (k + 1) ∧
        o1.cost = some (costAfter A.calcCost c0 (traj A x0) (k + 1)) ∧ o1.observers = [] ∧
        o1.metrics.truthy = false ∧ o1.converge = b := by
      unfold update1
      cases hux : A.update k o.x with
      | mk y e =>
        rw [hux] at hune ht
        simp only at hune ht
        subst hune ht
        simp only [testConvergence, hc]
        have hff' : anyFlag (⟨traj A x0 (k + 1), k, o.converge, o.observers, o.locked, o.metrics,
            some (costAfter A.calcCost c0 (traj A x0) k), o.ticks⟩ : Obj X K V) = false := hfl _ ho
        simp only [hff', Bool.false_eq_true, and_false, if_false, Bool.false_or, ite_self]
        cases hg : getCost A.calcCost (costAfter A.calcCost c0 (traj A x0) k) (traj A x0 (k + 1)) with
        | mk c' res =>
          rw [hg] at hcr
          simp only at hcr
          subst hcr
          refine ⟨_, rfl, rfl, ?_, ho, hm, rfl⟩
          show some c' = some (getCost A.calcCost (costAfter A.calcCost c0 (traj A x0) k) (traj A x0 (k + 1))).1
          rw [hg]
    have e2 : metricsStep A m o1 = (o1, none) := by
      simp only [metricsStep, hm1, Bool.false_eq_true, if_false]
    simp only [loop, e1, e2]
    by_cases hcv : o1.converge = true
    · rw [if_pos hcv]
      refine ⟨1, by omega, rfl, rfl, hx1, fun n h1 h2 => by omega, fun _ => ?_, fun _ => ⟨one_pos, hcv⟩⟩
      rw [hb, hb1]
    · rw [if_neg hcv]
      obtain ⟨r, r1, r2, r3, r4, r5, r6, r7⟩ := ih (k + 1) o1 hx1 hc1 ho1 hm1
      have hbf : b = false := by rw [← hb1]; simpa using hcv
      refine ⟨r + 1, by omega, r2, ?_, ?_, ?_, ?_, ?_⟩
      · show k :: (loop A m (List.range' (k + 1) j) o1).started = _
        rw [r3, List.range'_succ]
      · show (loop A m (List.range' (k + 1) j) o1).obj.x = _
        rw [r4]; congr 1; omega
      · intro n h1 h2
        by_cases hn : n = k + 1
        · rw [hn, hb, hbf]
        · exact r5 n (by omega) (by omega)
      · intro _
        show _ = Except.ok (loop A m (List.range' (k + 1) j) o1).obj.converge
        by_cases hr0 : 0 < r
        · rw [← r6 hr0]; congr 1; omega
        · have hr0' : r = 0 := by omega
          subst hr0'
          by_cases hj : j = 0
          · subst hj
            simp only [List.range'_zero, loop]
            rw [hb, hb1]
          · exact absurd (r7 (by omega)).1 (lt_irrefl _)
      · intro h
        exact ⟨Nat.succ_pos _, (r7 (by omega)).2⟩

/-- The cost object only looks at the costs of its arguments. -/
theorem costAfter_congr {Y : Type} (f : X → Py K) (x : ℕ → X) (f' : Y → Py K) (y : ℕ → Y) (c0 : CostObj K)
    (h : ∀ n, f (x (n + 1)) = f' (y (n + 1))) :
    (∀ n, costAfter f c0 x n = costAfter f' c0 y n) ∧ ∀ n, costResult f c0 x (n + 1) = costResult f' c0 y (n + 1) := by
  have hg : ∀ c n, getCost f c (x (n + 1)) = getCost f' c (y (n + 1)) := by
    intro c n; unfold getCost; rw [h n]
  have h1 : ∀ n, costAfter f c0 x n = costAfter f' c0 y n := by
    intro n
    induction n with
    | zero => rfl
    | succ n ih => simp only [costAfter]; rw [ih, hg]
  refine ⟨h1, fun n => ?_⟩
  unfold costResult
  rw [Nat.add_sub_cancel, h1 n, hg]

end

section
variable {X V : Type}

/-- A newly built object without metrics, with a cost object. -/
theorem construct_plain (eps : ℝ) (x0 : X) (c0 : CostObj ℝ) (o : Obj X ℝ V)
    (ho : construct eps none x0 (some c0) = .ok o) :
    o.x = x0 ∧ o.cost = some c0 ∧ o.observers = [] ∧ o.metrics.truthy = false ∧ o.converge = false := by
  simp only [construct, Option.getD_none, makeObservers, bind, Except.bind, pure, Except.pure] at ho
  cases ho
  exact ⟨rfl, rfl, rfl, rfl, rfl⟩

/-- What a call `iterate(m)` does on an object without metrics. -/
theorem iterate_plain (A : Alg X ℝ V) (eps : ℝ) (x0 : X) (init tol : ℝ) (I : ℕ) (hI : 1 ≤ I) (T : ℕ) (hT : 1 ≤ T)
    (o : Obj X ℝ V) (ho : construct eps none x0 (some (CostObj.init init tol (some I) T)) = .ok o)
    (hu : ∀ i, (A.update i (traj A x0 i)).2 = none) (c : ℕ → ℝ)
    (hcost : ∀ k, A.calcCost (traj A x0 (k + 1)) = .ok (c (k + 1))) (m : ℕ) :
    ∃ r ≤ m, (iterate A m o).exc = none ∧ (iterate A m o).started = List.range r ∧
      (iterate A m o).obj.x = traj A x0 r ∧
      (∀ n, 1 ≤ n → n < r →
        costResult (fun n : ℕ => .ok (c n)) (CostObj.init init tol (some I) T) id n = .ok false) ∧
      (0 < r → costResult (fun n : ℕ => .ok (c n)) (CostObj.init init tol (some I) T) id r =
        .ok (iterate A m o).obj.converge) ∧
      (r < m → 0 < r ∧ (iterate A m o).obj.converge = true) ∧
      (r = 0 → (iterate A m o).obj.converge = false) := by
  obtain ⟨h1, h2, h3, h4, h5⟩ := construct_plain eps x0 _ o ho
  set c0 := CostObj.init init tol (some (I : ℤ)) T
  have hcong := (costAfter_congr A.calcCost (traj A x0) (fun n : ℕ => .ok (c n)) id c0 hcost).2
  have hcong' : ∀ n, 1 ≤ n → costResult A.calcCost c0 (traj A x0) n =
      costResult (fun n : ℕ => .ok (c n)) c0 id n := by
    intro n hn
    obtain ⟨k, rfl⟩ : ∃ k, n = k + 1 := ⟨n - 1, by omega⟩
    exact hcong k
  have hcf : ∀ n, ∃ b, costResult A.calcCost c0 (traj A x0) (n + 1) = .ok b := by
    intro n
    rw [hcong n]
    obtain ⟨i1, -, -, -, -, -⟩ := costAfter_inv c init tol I hI T hT id n
    unfold costResult
    rw [Nat.add_sub_cancel]
    exact getCost_ok (f := fun n : ℕ => .ok (c n)) (c := costAfter _ c0 id n)
      (by rw [i1]; intro h; have := Option.some.inj h; omega) (id (n + 1)) ⟨_, rfl⟩
  obtain ⟨r, r1, r2, r3, r4, r5, r6, r7⟩ := loop_plain A m x0 c0 hu hcf m 0 o h1 h2 h3 h4
  rw [← List.range_eq_range'] at r2 r3 r4 r6 r7
  rw [iterate_of_no_exc r2]
  refine ⟨r, r1, r2, ?_, ?_, ?_, ?_, r7, ?_⟩
  · show (loop A m (List.range m) o).started = _
    rw [r3, List.range_eq_range']
  · show (loop A m (List.range m) o).obj.x = _
    rw [r4, Nat.zero_add]
  · intro n hn hr
    rw [← hcong' n hn]
    exact r5 n (by omega) (by omega)
  · intro h
    rw [← hcong' r h]
    have := r6 h
    rw [Nat.zero_add] at this
    exact this
  · rintro rfl
    show (loop A m (List.range m) o).obj.converge = false
    by_cases hm : m = 0
    · subst hm; exact h5
    · exact absurd (r7 (by omega)).1 (lt_irrefl _)

/-- Where `iterate` stops, given the first positive answer of the cost object. -/
theorem session_stops_at (A : Alg X ℝ V) (eps : ℝ) (x0 : X) (init tol : ℝ) (I : ℕ) (hI : 1 ≤ I)
    (T : ℕ) (hT : 1 ≤ T) (o : Obj X ℝ V)
    (ho : construct eps none x0 (some (CostObj.init init tol (some I) T)) = .ok o)
    (hu : ∀ i, (A.update i (traj A x0 i)).2 = none) (c : ℕ → ℝ)
    (hcost : ∀ k, A.calcCost (traj A x0 (k + 1)) = .ok (c (k + 1))) (N : ℕ) (hN : 1 ≤ N)
    (hyes : costResult (fun n : ℕ => .ok (c n)) (CostObj.init init tol (some I) T) id N = .ok true)
    (hno : ∀ n, 1 ≤ n → n < N →
      costResult (fun n : ℕ => .ok (c n)) (CostObj.init init tol (some I) T) id n ≠ .ok true) (m : ℕ) (hm : N ≤ m) :
    (iterate A m o).exc = none ∧ (iterate A m o).started = List.range N ∧
      (iterate A m o).obj.converge = true ∧ (iterate A m o).obj.x = traj A x0 N := by
  obtain ⟨r, r1, r2, r3, r4, r5, r6, r7, r8⟩ := iterate_plain A eps x0 init tol I hI T hT o ho hu c hcost m
  have hrN : r = N := by
    rcases lt_trichotomy r N with h | h | h
    · obtain ⟨hr0, hcv⟩ := r7 (by omega)
      have := r6 hr0
      rw [hcv] at this
      exact absurd this (hno r hr0 h)
    · exact h
    · have := r5 N hN h
      rw [this] at hyes
      cases hyes
  subst hrN
  refine ⟨r2, r3, ?_, r4⟩
  have := r6 hN
  rw [hyes] at this
  exact (Except.ok.inj this).symm

/-- C125: an algorithm object of any of the classes, built without metrics and with a cost object of tolerance
`> 0`, interval `I ≥ 1` and test range `T ≥ 2`.  If along the (non-raising) iterates the cost converges, there is
a number `N` of updates, a multiple of `T·I`, at which every call `iterate(m)` with `m ≥ N` stops by itself, with
`converge` set, however large `m` is. -/
theorem C125_session_stops (A : Alg X ℝ V) (eps : ℝ) (x0 : X) (init tol : ℝ) (htol : 0 < tol) (I : ℕ) (hI : 1 ≤ I)
    (T : ℕ) (hT : 2 ≤ T) (o : Obj X ℝ V)
    (ho : construct eps none x0 (some (CostObj.init init tol (some I) T)) = .ok o)
    (hu : ∀ i, (A.update i (traj A x0 i)).2 = none) (c : ℕ → ℝ)
    (hcost : ∀ k, A.calcCost (traj A x0 (k + 1)) = .ok (c (k + 1))) (lim : ℝ)
    (hc : Filter.Tendsto c Filter.atTop (𝓝 lim)) :
    ∃ N, 1 ≤ N ∧ T * I ∣ N ∧ ∀ m, N ≤ m → (iterate A m o).exc = none ∧ (iterate A m o).started = List.range N ∧
      (iterate A m o).obj.converge = true ∧ (iterate A m o).obj.x = traj A x0 N := by
  have hex : ∃ n, 1 ≤ n ∧
      costResult (fun n : ℕ => .ok (c n)) (CostObj.init init tol (some (I : ℤ)) T) id n = .ok true := by
    obtain ⟨n, -, hn, h⟩ := C125_converging_cost_is_detected c id lim init tol hc htol I hI T hT 0
    exact ⟨n, hn, h⟩
  classical
  set N := Nat.find hex with hN
  obtain ⟨hN1, hN2⟩ := Nat.find_spec hex
  have hmin : ∀ n, n < N → ¬ (1 ≤ n ∧ _) := fun n h => Nat.find_min hex h
  rw [← hN] at hN1 hN2
  refine ⟨N, hN1, ?_, fun m hm => session_stops_at A eps x0 init tol I hI T (by omega) o ho hu c hcost N hN1 hN2
    (fun n h1 h2 h3 => hmin n h2 ⟨h1, h3⟩) m hm⟩
  obtain ⟨j, hj, -⟩ := (C18_true_iff_full_window_passes c init tol I hI T hT id N hN1).1 hN2
  rw [hj, Nat.mul_assoc]
  exact Dvd.intro_left _ rfl

/-- C125 with metrics: whatever the metrics and their flags, a call of `iterate` that does not raise performs at
most `N` updates, where `N` depends on the iterates and the cost object only. -/
theorem C125_session_stops_with_metrics (A : Alg X ℝ V) (x0 : X) (init tol : ℝ) (htol : 0 < tol) (I : ℕ)
    (hI : 1 ≤ I) (T : ℕ) (hT : 2 ≤ T) (c : ℕ → ℝ)
    (hcost : ∀ k, A.calcCost (traj A x0 (k + 1)) = .ok (c (k + 1))) (lim : ℝ)
    (hc : Filter.Tendsto c Filter.atTop (𝓝 lim)) :
    ∃ N, ∀ (eps : ℝ) (specs : Option (List (String × Session.Spec ℝ V))) (o : Obj X ℝ V) (m : ℕ),
      construct eps specs x0 (some (CostObj.init init tol (some I) T)) = .ok o → (iterate A m o).exc = none →
      (iterate A m o).started.length ≤ N := by
  set c0 := CostObj.init init tol (some (I : ℤ)) T
  have hcong := (costAfter_congr A.calcCost (traj A x0) (fun n : ℕ => .ok (c n)) id c0 hcost).2
  obtain ⟨n, -, hn, h⟩ := C125_converging_cost_is_detected c id lim init tol hc htol I hI T hT 0
  obtain ⟨k, rfl⟩ : ∃ k, n = k + 1 := ⟨n - 1, by omega⟩
  refine ⟨k + 1, fun eps specs o m ho he => ?_⟩
  have hobj : o.x = x0 ∧ o.cost = some c0 := by
    simp only [construct, bind, Except.bind, pure, Except.pure] at ho
    split at ho
    · cases ho
    · cases ho; exact ⟨rfl, rfl⟩
  have hex : (loop A m (List.range m) o).exc = none := by
    by_contra hcon
    obtain ⟨e, he'⟩ := Option.ne_none_iff_exists'.mp hcon
    simp [iterate, he'] at he
  have := loop_stops_by A m x0 c0 m 0 o hobj.1 hobj.2 (by rw [← List.range_eq_range']; exact hex) (k + 1)
    (Nat.succ_pos _) (by rw [hcong k]; exact h)
  rw [← List.range_eq_range'] at this
  rw [iterate_of_no_exc hex]
  exact this

end

/-! ## Forward-backward -/

section
variable {P E S U V : Type} [NormedAddCommGroup E] [InnerProductSpace ℝ E]

/-- `ForwardBackward` with operators that do not raise and cost `Φ`. -/
noncomputable def fbPlain (P : Type) (G : E → E) (prox : E → ℝ → E) (R : Rules S E) (adj : E → Py P) (Φ : E → ℝ)
    (period : Option ℕ) (clock : ℕ → ℝ) : Alg (FB.St S E) ℝ (Val P E Unit) :=
  fbAlg (fun z => .ok (G z)) (fun p => .ok (prox p.1 p.2)) R adj (fun x => .ok (Φ x)) period clock

theorem fbPlain_update (G : E → E) (prox : E → ℝ → E) (R : Rules S E) (adj : E → Py P) (Φ : E → ℝ)
    (period : Option ℕ) (clock : ℕ → ℝ) (i : ℕ) (s : FB.St S E) :
    (fbPlain P G prox R adj Φ period clock).update i s = (FB.step G prox R s, none) := rfl

theorem fbPlain_traj (G : E → E) (prox : E → ℝ → E) (R : Rules S E) (adj : E → Py P) (Φ : E → ℝ)
    (period : Option ℕ) (clock : ℕ → ℝ) (s : FB.St S E) (k : ℕ) :
    traj (fbPlain P G prox R adj Φ period clock) s k = afterSteps G prox R s k := by
  induction k with
  | zero => rfl
  | succ k ih => simp only [traj, afterSteps, ih, fbPlain_update]

theorem fbPlain_cost (G : E → E) (prox : E → ℝ → E) (R : Rules S E) (adj : E → Py P) (Φ : E → ℝ)
    (period : Option ℕ) (clock : ℕ → ℝ) (s : FB.St S E) (k : ℕ) :
    (fbPlain P G prox R adj Φ period clock).calcCost
      (traj (fbPlain P G prox R adj Φ period clock) s (k + 1)) = .ok (Φ (afterSteps G prox R s (k + 1)).xOld) := by
  rw [fbPlain_traj]
  simp only [fbPlain, fbAlg, afterSteps, (step_xNew G prox R _).1]

/-- The iterates without acceleration: each is the proximity operator's value, and `x_final` is the last. -/
theorem ista_iterates {C : Set E} {g : E → ℝ} {G : E → E} {prox : E → ℝ → E} (hp : ExactProx C g prox) (x0 : E)
    (β : ℝ) (r : S) (hb : 0 < β) (k : ℕ) :
    (afterSteps G prox (userRules none none) ⟨x0, x0, none, none, β, 1, r⟩ (k + 1)).xOld =
      prox ((afterSteps G prox (userRules none none) ⟨x0, x0, none, none, β, 1, r⟩ k).xOld -
        β • G (afterSteps G prox (userRules none none) ⟨x0, x0, none, none, β, 1, r⟩ k).xOld) β ∧
    IsProxOn C (fun u => β * g u)
      ((afterSteps G prox (userRules none none) ⟨x0, x0, none, none, β, 1, r⟩ k).xOld -
        β • G (afterSteps G prox (userRules none none) ⟨x0, x0, none, none, β, 1, r⟩ k).xOld)
      (afterSteps G prox (userRules none none) ⟨x0, x0, none, none, β, 1, r⟩ (k + 1)).xOld ∧
    xFinal (afterSteps G prox (userRules none none) ⟨x0, x0, none, none, β, 1, r⟩ (k + 1)) =
      .ok (afterSteps G prox (userRules none none) ⟨x0, x0, none, none, β, 1, r⟩ (k + 1)).xOld := by
  have inv : ∀ k, (afterSteps G prox (userRules none none) ⟨x0, x0, none, none, β, 1, r⟩ k).zOld
        = (afterSteps G prox (userRules none none) ⟨x0, x0, none, none, β, 1, r⟩ k).xOld ∧
      (afterSteps G prox (userRules none none) ⟨x0, x0, none, none, β, 1, r⟩ k).beta = β ∧
      (afterSteps G prox (userRules none none) ⟨x0, x0, none, none, β, 1, r⟩ k).lam = 1 := by
    intro k
    induction k with
    | zero => exact ⟨rfl, rfl, rfl⟩
    | succ k ih =>
      obtain ⟨i1, i2, i3⟩ := ih
      simp only [afterSteps]
      generalize afterSteps G prox (userRules none none) ⟨x0, x0, none, none, β, 1, r⟩ k = s at *
      refine ⟨?_, ?_, ?_⟩
      · simp [FB.step, userRules, i3]
      · simp [FB.step, userRules, applyUpd, i2]
      · simp [FB.step, userRules, applyUpd, i3]
  obtain ⟨i1, i2, i3⟩ := inv k
  simp only [afterSteps]
  generalize afterSteps G prox (userRules none none) ⟨x0, x0, none, none, β, 1, r⟩ k = s at *
  have e : (FB.step G prox (userRules none none) s).xOld = prox (s.xOld - β • G s.xOld) β := by
    simp [FB.step, i1, i2]
  refine ⟨e, ?_, ?_⟩
  · rw [e]; exact hp _ _ hb
  · simp [xFinal, FB.step, userRules, i3]

theorem ista_descent {C : Set E} {F g : E → ℝ} {G : E → E} {prox : E → ℝ → E} {L : ℝ}
    (hg : ConvexOn ℝ C g) (hF : AboveTangents F G) (hS : Smooth F G L) (hp : ExactProx C g prox) (x0 : E) (β : ℝ)
    (r : S) (hb : 0 < β) (hL : β * L ≤ 1) {X : ℕ → E}
    (hX : X = fun k => (afterSteps G prox (userRules none none) ⟨x0, x0, none, none, β, 1, r⟩ k).xOld) :
    (∀ k u, u ∈ C → 2 * β * ((F (X (k + 1)) + g (X (k + 1))) - (F u + g u)) ≤ ‖X k - u‖ ^ 2 - ‖X (k + 1) - u‖ ^ 2) ∧
    (∀ k, X (k + 1) ∈ C) ∧
    ∀ a b, 1 ≤ a → a ≤ b → F (X b) + g (X b) ≤ F (X a) + g (X a) := by
  have h1 : ∀ k, IsProxOn C (fun u => β * g u) (X k - β • G (X k)) (X (k + 1)) := by
    intro k; rw [hX]; exact (ista_iterates (G := G) hp x0 β r hb k).2.1
  have h2 : ∀ k u, u ∈ C → 2 * β * ((F (X (k + 1)) + g (X (k + 1))) - (F u + g u)) ≤
      ‖X k - u‖ ^ 2 - ‖X (k + 1) - u‖ ^ 2 := fun k u hu => prox_grad_descent hg hF hS hb hL (h1 k) hu
  refine ⟨h2, fun k => (h1 k).1, fun a b ha hab => ?_⟩
  induction b, hab using Nat.le_induction with
  | base => exact le_rfl
  | succ b hab ih =>
    obtain ⟨k, rfl⟩ : ∃ k, b = k + 1 := ⟨b - 1, by omega⟩
    have h3 := h2 (k + 1) (X (k + 1)) (h1 k).1
    rw [sub_self, norm_zero] at h3
    have h4 : F (X (k + 1 + 1)) + g (X (k + 1 + 1)) - (F (X (k + 1)) + g (X (k + 1))) ≤ 0 := by
      by_contra hc
      push Not at hc
      have := mul_pos (mul_pos two_pos hb) hc
      nlinarith [sq_nonneg ‖X (k + 1 + 1) - X (k + 1)‖]
    linarith

/-- C125 for `ForwardBackward` without acceleration (`β L ≤ 1`): if the objective is bounded below on the feasible
set, a run with a cost object stops by itself (even when no minimiser exists). -/
theorem C125_forward_backward {C : Set E} {F g : E → ℝ} {G : E → E} {prox : E → ℝ → E} {L : ℝ}
    (hg : ConvexOn ℝ C g) (hF : AboveTangents F G) (hS : Smooth F G L) (hp : ExactProx C g prox) (x0 : E) (β : ℝ)
    (s : S) (hb : 0 < β) (hL : β * L ≤ 1) (B : ℝ) (hB : ∀ u ∈ C, B ≤ F u + g u) (adj : E → Py P)
    (period : Option ℕ) (clock : ℕ → ℝ) (eps init tol : ℝ) (htol : 0 < tol) (I : ℕ) (hI : 1 ≤ I) (T : ℕ) (hT : 2 ≤ T)
    (o : Obj (FB.St S E) ℝ (Val P E Unit))
    (ho : construct eps none ⟨x0, x0, none, none, β, 1, s⟩ (some (CostObj.init init tol (some I) T)) = .ok o) :
    ∃ N, 1 ≤ N ∧ T * I ∣ N ∧ ∀ m, N ≤ m →
      (iterate (fbPlain P G prox (userRules none none) adj (fun x => F x + g x) period clock) m o).exc = none ∧
      (iterate (fbPlain P G prox (userRules none none) adj (fun x => F x + g x) period clock) m o).started
        = List.range N ∧
      (iterate (fbPlain P G prox (userRules none none) adj (fun x => F x + g x) period clock) m o).obj.converge
        = true := by
  set X : ℕ → E := fun k => (afterSteps G prox (userRules none none) ⟨x0, x0, none, none, β, 1, s⟩ k).xOld with hX
  obtain ⟨-, hC, hanti⟩ := ista_descent hg hF hS hp x0 β s hb hL hX
  have hlim : ∃ l, Filter.Tendsto (fun k => F (X (k + 1)) + g (X (k + 1))) Filter.atTop (𝓝 l) := by
    refine ⟨_, tendsto_atTop_ciInf (fun a b hab => hanti (a + 1) (b + 1) (by omega) (by omega)) ⟨B, ?_⟩⟩
    rintro _ ⟨k, rfl⟩
    exact hB _ (hC k)
  obtain ⟨l, hl⟩ := hlim
  have hl' : Filter.Tendsto (fun k => F (X k) + g (X k)) Filter.atTop (𝓝 l) :=
    (Filter.tendsto_add_atTop_iff_nat (f := fun k => F (X k) + g (X k)) 1).1 hl
  obtain ⟨N, h1, h2, h3⟩ := C125_session_stops
    (fbPlain P G prox (userRules none none) adj (fun x => F x + g x) period clock) eps _ init tol htol I hI T hT o ho
    (fun i => rfl) (fun k => F (X k) + g (X k)) (fun k => fbPlain_cost _ _ _ _ _ _ _ _ k) l hl'
  exact ⟨N, h1, h2, fun m hm => ⟨(h3 m hm).1, (h3 m hm).2.1, (h3 m hm).2.2.1⟩⟩

/-- Surroundings that never stop a run. -/
def freeSurroundings : Surroundings S E Unit Unit where
  notify _ _ m := .ok m
  flag _ := false
  getCost _ k := .ok (false, k)
  hasCost := false
  hasMetrics := false
  period := none
  obs := ()
  cost := ()

theorem free_run (G : E → E) (prox : E → ℝ → E) (R : Rules S E) (m : ℕ) (s : FB.St S E) :
    ∃ o, (fbRun G prox R freeSurroundings m s).result = .ok o ∧
      (Loop.updates (fbRun G prox R freeSurroundings m s).trace).length = m := by
  have key : ∀ (l : List ℕ) (s : FB.St S E),
      ∃ o', (Loop.iterLoop (Loop.objAlg (parts G prox R (freeSurroundings (S := S) (E := E)).notify
        (freeSurroundings (S := S) (E := E)).flag freeSurroundings.getCost false) .flagsOrCost false none) m l
          ⟨s, (), (), false⟩).result = .ok o' ∧
        (Loop.updates (Loop.iterLoop (Loop.objAlg (parts G prox R (freeSurroundings (S := S) (E := E)).notify
        (freeSurroundings (S := S) (E := E)).flag freeSurroundings.getCost false) .flagsOrCost false none) m l
          ⟨s, (), (), false⟩).trace).length = l.length := by
    intro l
    induction l with
    | nil => intro s; exact ⟨_, rfl, rfl⟩
    | cons i r ih =>
      intro s
      obtain ⟨o', h1, h2⟩ := ih (FB.step G prox R s)
      exact ⟨o', h1, congrArg (· + 1) h2⟩
  obtain ⟨o, h1, h2⟩ := key (List.range m) s
  exact ⟨o, h1, h2.trans List.length_range⟩

/-- C125 for FISTA with `0 < p_lazy ≤ 1/2`, `q_lazy ≤ (2 - 2 p_lazy)²`, `r_lazy = 4`, no restarting: if a minimiser
exists, a run with a cost object stops by itself. -/
theorem C125_fista {C : Set E} {F g : E → ℝ} {G : E → E} {prox : E → ℝ → E} {L : ℝ}
    (hg : ConvexOn ℝ C g) (hF : AboveTangents F G) (hS : Smooth F G L) (hp : ExactProx C g prox) (p q : ℝ)
    (hp0 : 0 < p) (hpp : p ≤ 1 / 2) (hq : 0 ≤ q) (hq' : q ≤ (2 - 2 * p) ^ 2) (x0 : E) (β lam : ℝ)
    (v : U) (hb : 0 < β) (hL : β * L ≤ 1) (hl0 : 0 ≤ lam) (hl1 : lam ≤ 1)
    (hu : ∃ u, Minimises C (fun u => F u + g u) u) (adj : E → Py P)
    (period : Option ℕ) (clock : ℕ → ℝ) (eps init tol : ℝ) (htol : 0 < tol) (I : ℕ) (hI : 1 ≤ I) (T : ℕ) (hT : 2 ≤ T)
    (o : Obj (FB.St (Fista.Obj × U) E) ℝ (Val P E Unit))
    (ho : construct eps none ⟨x0, x0, none, none, β, lam, (regularObj p q 4, v)⟩
      (some (CostObj.init init tol (some I) T)) = .ok o) :
    ∃ N, 1 ≤ N ∧ T * I ∣ N ∧ ∀ m, N ≤ m →
      (iterate (fbPlain P G prox fistaRules adj (fun x => F x + g x) period clock) m o).exc = none ∧
      (iterate (fbPlain P G prox fistaRules adj (fun x => F x + g x) period clock) m o).started = List.range N ∧
      (iterate (fbPlain P G prox fistaRules adj (fun x => F x + g x) period clock) m o).obj.converge = true := by
  obtain ⟨u, hu⟩ := hu
  set X : ℕ → E := fun k => (afterSteps G prox (fistaRules (U := U))
    ⟨x0, x0, none, none, β, lam, (regularObj p q 4, v)⟩ k).xOld with hX
  have h1 : 1 ≤ p + Real.sqrt (4 + q) / 2 := by
    have : (2 : ℝ) ≤ Real.sqrt (4 + q) := by
      apply Real.le_sqrt_of_sq_le; linarith
    linarith
  have hrate : ∀ k : ℕ, X (k + 2) ∈ C ∧ (F (X (k + 2)) + g (X (k + 2))) - (F u + g u) ≤
      ‖x0 - u‖ ^ 2 / (2 * β) * (1 / ((k : ℝ) * p + 1)) := by
    intro k
    obtain ⟨o', h2, h3⟩ := free_run G prox (fistaRules (U := U)) (k + 2)
      ⟨x0, x0, none, none, β, lam, (regularObj p q 4, v)⟩
    obtain ⟨x, h4, h5, h6⟩ := C43_rate_regular hg hF hS hp p q 4 hpp hq hq' (by norm_num) le_rfl h1 freeSurroundings
      (k + 2) x0 β lam v hb hL hl0 hl1 o' h2 k h3 u hu
    have h7 := (fbRun_state h2).2.2
    rw [h3] at h7
    have hx : x = X (k + 2) := by
      rw [h7] at h4
      simp only [afterSteps, (step_xNew G prox _ _).1, Option.some.injEq] at h4
      exact h4.symm
    subst hx
    refine ⟨h5, h6.trans ?_⟩
    have ht := (C37_unbounded p q 4 hp0 hq le_rfl k).1
    have hkp : 0 ≤ (k : ℝ) * p := mul_nonneg (Nat.cast_nonneg k) hp0.le
    have ht1 : (k : ℝ) * p + 1 ≤ tSeq (regularObj p q 4) k ^ 2 := by
      have h8 : (k : ℝ) * p + 1 ≤ tSeq (regularObj p q 4) k := by linarith
      nlinarith
    rw [div_mul_div_comm, mul_one]
    exact div_le_div_of_nonneg_left (sq_nonneg _) (by positivity) (mul_le_mul_of_nonneg_left ht1 (by positivity))
  have hlim : Filter.Tendsto (fun k => F (X k) + g (X k)) Filter.atTop (𝓝 (F u + g u)) := by
    rw [← Filter.tendsto_add_atTop_iff_nat 2]
    have h0 : Filter.Tendsto (fun k : ℕ => 1 / ((k : ℝ) * p + 1)) Filter.atTop (𝓝 0) := by
      have h9 : Filter.Tendsto (fun k : ℕ => (k : ℝ) * p + 1) Filter.atTop Filter.atTop :=
        Filter.tendsto_atTop_add_const_right _ _ (tendsto_natCast_atTop_atTop.atTop_mul_const hp0)
      refine h9.inv_tendsto_atTop.congr fun k => ?_
      rw [Pi.inv_apply, one_div]
    have h10 := (h0.const_mul (‖x0 - u‖ ^ 2 / (2 * β))).const_add (F u + g u)
    rw [mul_zero, add_zero] at h10
    refine tendsto_of_tendsto_of_tendsto_of_le_of_le tendsto_const_nhds h10 (fun k => hu.2 _ (hrate k).1) (fun k => ?_)
    have := (hrate k).2
    simp only
    linarith
  obtain ⟨N, k1, k2, k3⟩ := C125_session_stops
    (fbPlain P G prox (fistaRules (U := U)) adj (fun x => F x + g x) period clock) eps _ init tol htol I hI T hT o ho
    (fun i => rfl) (fun k => F (X k) + g (X k)) (fun k => fbPlain_cost _ _ _ _ _ _ _ _ k) _ hlim
  exact ⟨N, k1, k2, fun m hm => ⟨(k3 m hm).1, (k3 m hm).2.1, (k3 m hm).2.2.1⟩⟩

end

/-! ## Condat and generalised forward-backward -/

section
variable {X V W : Type} [TopologicalSpace W]

/-- C125, general form for continuous costs: if the part of the state that the cost function reads converges and
the cost is continuous at the limit, the run stops by itself. -/
theorem C125_continuous_cost (A : Alg X ℝ V) (eps : ℝ) (x0 : X) (init tol : ℝ) (htol : 0 < tol) (I : ℕ)
    (hI : 1 ≤ I) (T : ℕ) (hT : 2 ≤ T) (o : Obj X ℝ V)
    (ho : construct eps none x0 (some (CostObj.init init tol (some I) T)) = .ok o)
    (hu : ∀ i, (A.update i (traj A x0 i)).2 = none) (w : ℕ → W) (cost : W → ℝ)
    (hcost : ∀ k, A.calcCost (traj A x0 (k + 1)) = .ok (cost (w (k + 1)))) (lim : W)
    (hw : Filter.Tendsto w Filter.atTop (𝓝 lim)) (hcont : ContinuousAt cost lim) :
    ∃ N, 1 ≤ N ∧ T * I ∣ N ∧ ∀ m, N ≤ m → (iterate A m o).exc = none ∧ (iterate A m o).started = List.range N ∧
      (iterate A m o).obj.converge = true ∧ (iterate A m o).obj.x = traj A x0 N :=
  C125_session_stops A eps x0 init tol htol I hI T hT o ho hu (fun k => cost (w k)) hcost _ (hcont.tendsto.comp hw)

end

section
open Condat
variable {E H : Type} [NormedAddCommGroup E] [InnerProductSpace ℝ E] [FiniteDimensional ℝ E]
  [NormedAddCommGroup H] [InnerProductSpace ℝ H] [FiniteDimensional ℝ H]

/-- Operators that do not raise. -/
def safeOps (O : Ops E H) : CondatOps E H where
  grad x := .ok (O.grad x)
  prox p := .ok (O.prox p.1 p.2)
  proxDual p := .ok (O.proxDual p.1 p.2)
  op x := .ok (O.op x)
  adj y := .ok (O.adj y)

theorem condat_traj (O : Ops E H) (U : Upd) (cost : E → H → ℝ) (period : Option ℕ) (clock : ℕ → ℝ)
    (s : Condat.St E H) (b : Bool) (k : ℕ) :
    traj (condatAlg (safeOps O) U (fun x y => .ok (cost x y)) period clock) (s, b) (k + 1) =
      (condatAfter O U s (k + 1), true) := by
  induction k with
  | zero => rfl
  | succ k ih => rw [traj, ih]; rfl

/-- C125 for `Condat`, under the conditions of its convergence theorem (C118): with a cost function continuous at
the saddle points, a run with a cost object stops by itself. -/
theorem C125_condat {C : Set E} {D : Set H} {F g : E → ℝ} {h : H → ℝ} {O : Ops E H} {Lf nL : ℝ}
    (ok : CondatOk C D F g h O) (hS : Smooth F O.grad Lf) (hLf : 0 < Lf) (hn : ∀ x, ‖O.op x‖ ≤ nL * ‖x‖)
    (s : Condat.St E H) (hs : 0 < s.sigma) (ht : 0 < s.tau) (hr0 : 0 < s.rho) (hr2 : s.rho < 2)
    (hc : Lf / 2 < (2 - s.rho) * (1 / s.tau - s.sigma * nL ^ 2))
    (hex : ∃ x y, IsSaddle C D F (fun u => 1 / s.tau * g u) h O.op x y) (cost : E → H → ℝ)
    (hcont : ∀ x y, IsSaddle C D F (fun u => 1 / s.tau * g u) h O.op x y →
      ContinuousAt (fun p : E × H => cost p.1 p.2) (x, y))
    (period : Option ℕ) (clock : ℕ → ℝ) (eps init tol : ℝ) (htol : 0 < tol) (I : ℕ) (hI : 1 ≤ I) (T : ℕ) (hT : 2 ≤ T)
    (o : Obj (Condat.St E H × Bool) ℝ (Val E H Unit))
    (ho : construct eps none (s, false) (some (CostObj.init init tol (some I) T)) = .ok o) :
    ∃ N, 1 ≤ N ∧ T * I ∣ N ∧ ∀ m, N ≤ m →
      (iterate (condatAlg (safeOps O) ⟨none, none, none⟩ (fun x y => .ok (cost x y)) period clock) m o).exc = none ∧
      (iterate (condatAlg (safeOps O) ⟨none, none, none⟩ (fun x y => .ok (cost x y)) period clock) m o).started =
        List.range N ∧
      (iterate (condatAlg (safeOps O) ⟨none, none, none⟩ (fun x y => .ok (cost x y)) period clock) m o).obj.converge =
        true := by
  obtain ⟨x, y, hsad, -, hx, hy⟩ := C118_condat_converges ok hS hLf hn s hs ht hr0 hr2 hc hex
  obtain ⟨N, h1, h2, h3⟩ := C125_continuous_cost
    (condatAlg (safeOps O) ⟨none, none, none⟩ (fun x y => .ok (cost x y)) period clock) eps (s, false) init tol htol
    I hI T hT o ho (fun i => rfl)
    (fun n => ((condatAfter O ⟨none, none, none⟩ s n).x, (condatAfter O ⟨none, none, none⟩ s n).y))
    (fun p => cost p.1 p.2) (fun k => by rw [condat_traj]; rfl) (x, y) (hx.prodMk_nhds hy) (hcont x y hsad)
  exact ⟨N, h1, h2, fun m hm => ⟨(h3 m hm).1, (h3 m hm).2.1, (h3 m hm).2.2.1⟩⟩

end

section
variable {P E S : Type} [NormedAddCommGroup E] [InnerProductSpace ℝ E]

theorem tryGenZ_safe (x g : E) (gamma lam : ℝ) : ∀ (ps : List (E → ℝ → E)) (zs : List E) (ws : List ℝ),
    tryGenZ x g gamma lam (ps.map fun p q => .ok (p q.1 q.2)) zs ws = (genZ x g gamma lam ps zs ws, none)
  | [], _, _ => by simp [tryGenZ, genZ]
  | _ :: _, [], _ => by simp [tryGenZ, genZ]
  | _ :: _, _ :: _, [] => by simp [tryGenZ, genZ]
  | p :: ps, z :: zs, w :: ws => by
    simp only [List.map_cons, tryGenZ, genZ, tryGenZ_safe x g gamma lam ps zs ws]

theorem gen_traj (G : E → E) (ps : List (E → ℝ → E)) (w : List ℝ) (gu lu : Option (S → ℝ → ℝ × S))
    (adj : E → Py P) (cost : E → ℝ) (period : Option ℕ) (clock : ℕ → ℝ) (s : GenSt S E) (x : Option E) (k : ℕ) :
    traj (genAlg (fun z => .ok (G z)) (ps.map fun p q => .ok (p q.1 q.2)) w gu lu adj (fun x => .ok (cost x)) period
        clock) (s, x) k =
      (genAfter G ps w gu lu s k, if k = 0 then x else some (genAfter G ps w gu lu s k).xOld) := by
  induction k with
  | zero => rfl
  | succ k ih =>
    rw [traj, ih]
    simp only [genAlg, tryGen, tryGenZ_safe]
    rfl

/-- C125 for `GenForwardBackward`, under the conditions of its convergence theorem (C116). -/
theorem C125_gen_forward_backward [FiniteDimensional ℝ E] {F : E → ℝ} {G : E → E} {L : ℝ} (hF : AboveTangents F G)
    (hS : Smooth F G L) (hL : 0 < L) (ts : List (Term E)) (hok : ∀ t ∈ ts, t.Ok)
    (hw : (ts.map (·.w)).sum = 1) (hopt : ∃ x, SplitOptimal G ts x) (x0 : E) (gamma lam : ℝ) (r : S)
    (hg : 0 < gamma) (hl : 0 < lam) (hc : lam < 2 - gamma * L / 2) (cost : E → ℝ)
    (hcont : ∀ x, Minimises (feasible ts) (fun u => F u + sumG ts u) x → ContinuousAt cost x) (adj : E → Py P)
    (period : Option ℕ) (clock : ℕ → ℝ) (eps init tol : ℝ) (htol : 0 < tol) (I : ℕ) (hI : 1 ≤ I) (T : ℕ) (hT : 2 ≤ T)
    (o : Obj (GenSt S E × Option E) ℝ (Val P E Unit))
    (ho : construct eps none (genInit x0 ts.length gamma lam r, none)
      (some (CostObj.init init tol (some I) T)) = .ok o) :
    ∃ N, 1 ≤ N ∧ T * I ∣ N ∧ ∀ m, N ≤ m →
      (iterate (genAlg (fun z => .ok (G z)) ((ts.map (·.prox)).map fun p q => .ok (p q.1 q.2)) (ts.map (·.w)) none none
        adj (fun x => .ok (cost x)) period clock) m o).exc = none ∧
      (iterate (genAlg (fun z => .ok (G z)) ((ts.map (·.prox)).map fun p q => .ok (p q.1 q.2)) (ts.map (·.w)) none none
        adj (fun x => .ok (cost x)) period clock) m o).started = List.range N ∧
      (iterate (genAlg (fun z => .ok (G z)) ((ts.map (·.prox)).map fun p q => .ok (p q.1 q.2)) (ts.map (·.w)) none none
        adj (fun x => .ok (cost x)) period clock) m o).obj.converge = true := by
  obtain ⟨x, hx, hlim⟩ := C116_genforwardbackward_converges hF hS hL ts hok hw hopt x0 gamma lam r hg hl hc
  obtain ⟨N, h1, h2, h3⟩ := C125_continuous_cost
    (genAlg (fun z => .ok (G z)) ((ts.map (·.prox)).map fun p q => .ok (p q.1 q.2)) (ts.map (·.w)) none none
        adj (fun x => .ok (cost x)) period clock) eps _ init tol htol I hI T hT o ho
    (fun i => by rw [gen_traj]; simp only [genAlg, tryGen, tryGenZ_safe])
    (fun n => (genAfter G (ts.map (·.prox)) (ts.map (·.w)) none none (genInit x0 ts.length gamma lam r) n).xOld)
    cost (fun k => by rw [gen_traj]; rfl) x hlim (hcont x hx)
  exact ⟨N, h1, h2, fun m hm => ⟨(h3 m hm).1, (h3 m hm).2.1, (h3 m hm).2.2.1⟩⟩

end

/-! ## When nothing stops the run -/

theorem avg_lower {l : List ℝ} (hl : l ≠ []) {a : ℝ} (h : ∀ v ∈ l, a ≤ v) : a ≤ avg l := by
  have hpos : (0 : ℝ) < l.length := by exact_mod_cast List.length_pos_iff.2 hl
  have := List.card_nsmul_le_sum l a h
  rw [nsmul_eq_mul] at this
  unfold avg
  rw [le_div_iff₀ hpos]
  linarith

theorem avg_upper {l : List ℝ} (hl : l ≠ []) {a : ℝ} (h : ∀ v ∈ l, v ≤ a) : avg l ≤ a := by
  have hpos : (0 : ℝ) < l.length := by exact_mod_cast List.length_pos_iff.2 hl
  have := List.sum_le_card_nsmul l a h
  rw [nsmul_eq_mul] at this
  unfold avg
  rw [div_le_iff₀ hpos]
  linarith

/-- C125: the positive tolerance is needed.  With tolerance `0` a run whose costs strictly decrease and stay above
`10⁻¹⁶` is never stopped by its cost object: `iterate(m)` performs all `m` updates, for every `m`, although the
costs converge. -/
theorem C125_zero_tolerance_never_stops {X V : Type} (A : Alg X ℝ V) (eps : ℝ) (x0 : X) (init : ℝ) (I : ℕ)
    (hI : 1 ≤ I) (T : ℕ) (hT : 2 ≤ T) (o : Obj X ℝ V)
    (ho : construct eps none x0 (some (CostObj.init init 0 (some I) T)) = .ok o)
    (hu : ∀ i, (A.update i (traj A x0 i)).2 = none) (c : ℕ → ℝ)
    (hcost : ∀ k, A.calcCost (traj A x0 (k + 1)) = .ok (c (k + 1)))
    (hdec : ∀ a b, a < b → c b < c a) (hpos : ∀ k, 1 / 10 ^ 16 ≤ c k) (m : ℕ) :
    (iterate A m o).exc = none ∧ (iterate A m o).started = List.range m ∧ (iterate A m o).obj.x = traj A x0 m ∧
    (iterate A m o).obj.converge = false := by
  have hno : ∀ n, 1 ≤ n →
      costResult (fun n : ℕ => .ok (c n)) (CostObj.init init 0 (some (I : ℤ)) T) id n ≠ .ok true := by
    intro n hn h
    obtain ⟨j, -, hw⟩ := (C18_true_iff_full_window_passes c init 0 I hI T hT id n hn).1 h
    set older := (List.range (T / 2)).map fun i => c (id ((j * T + i + 1) * I))
    set newer := (List.range (T - T / 2)).map fun i => c (id ((j * T + T / 2 + i + 1) * I)) with hnew
    have hne1 : older ≠ [] := by intro h; have := congrArg List.length h; simp [older] at this; omega
    have hne2 : newer ≠ [] := by intro h; have := congrArg List.length h; simp [newer] at this; omega
    have h1 : c ((j * T + T / 2) * I) ≤ avg older := by
      refine avg_lower hne1 fun v hv => ?_
      obtain ⟨i, hi, rfl⟩ := List.mem_map.1 hv
      rw [List.mem_range] at hi
      have : (j * T + i + 1) * I ≤ (j * T + T / 2) * I := Nat.mul_le_mul_right _ (by omega)
      rcases this.eq_or_lt with he | hl
      · rw [id, he]
      · exact (hdec _ _ hl).le
    have h2 : avg newer ≤ c ((j * T + T / 2 + 1) * I) := by
      refine avg_upper hne2 fun v hv => ?_
      obtain ⟨i, hi, rfl⟩ := List.mem_map.1 hv
      have : (j * T + T / 2 + 1) * I ≤ (j * T + T / 2 + i + 1) * I := Nat.mul_le_mul_right _ (by omega)
      rcases this.eq_or_lt with he | hl
      · rw [id, he]
      · exact (hdec _ _ hl).le
    have h3 : c ((j * T + T / 2 + 1) * I) < c ((j * T + T / 2) * I) :=
      hdec _ _ (Nat.mul_lt_mul_of_pos_right (by omega) (by omega))
    have h4 : 1 / 10 ^ 16 ≤ avg newer := by
      refine avg_lower hne2 fun v hv => ?_
      obtain ⟨i, hi, rfl⟩ := List.mem_map.1 hv
      exact hpos _
    rcases hw with ⟨h5, -⟩ | ⟨-, h5⟩
    · rw [abs_of_pos (lt_of_lt_of_le (by norm_num) h4)] at h5
      rw [div_le_iff₀ (by positivity)] at h4
      linarith
    · rw [zero_mul] at h5
      have := abs_nonpos_iff.1 h5
      linarith
  obtain ⟨r, r1, r2, r3, r4, r5, r6, r7, r8⟩ := iterate_plain A eps x0 init 0 I hI T (by omega) o ho hu c hcost m
  have hcv : (iterate A m o).obj.converge = false := by
    rcases Nat.eq_zero_or_pos r with h | h
    · exact r8 h
    · have := r6 h
      cases hb : (iterate A m o).obj.converge with
      | false => rfl
      | true => rw [hb] at this; exact absurd this (hno r h)
  have hr : r = m := by
    by_contra hne
    have := (r7 (by omega)).2
    rw [hcv] at this
    cases this
  subst hr
  exact ⟨r2, r3, r4, hcv⟩

/-! ## C126 -/

section
variable {P E S : Type} [NormedAddCommGroup E] [InnerProductSpace ℝ E]

/-- C126, what a stop does guarantee for `ForwardBackward` without acceleration (`βL ≤ 1`) and a non-negative
objective `Φ`: when the cost test has stopped the run, the solution exceeds the minimum by at most `½·10⁻¹⁶` or
`‖x₀ - u‖ √(2·tol·Φ(x₁)/β)`, whichever is larger.  The square root of the tolerance and the step size in the
denominator are what is missing from the full property. -/
theorem C126_quality_partial {C : Set E} {F g : E → ℝ} {G : E → E} {prox : E → ℝ → E} {L : ℝ}
    (hg : ConvexOn ℝ C g) (hF : AboveTangents F G) (hS : Smooth F G L) (hp : ExactProx C g prox) (x0 : E) (β : ℝ)
    (s : S) (hb : 0 < β) (hL : β * L ≤ 1) (hpos : ∀ u ∈ C, 0 ≤ F u + g u) (u : E)
    (hu : Minimises C (fun u => F u + g u) u) (adj : E → Py P)
    (period : Option ℕ) (clock : ℕ → ℝ) (eps init tol : ℝ) (htol : 0 ≤ tol) (I : ℕ) (hI : 1 ≤ I) (T : ℕ) (hT : 2 ≤ T)
    (o : Obj (FB.St S E) ℝ (Val P E Unit))
    (ho : construct eps none ⟨x0, x0, none, none, β, 1, s⟩ (some (CostObj.init init tol (some I) T)) = .ok o) (m : ℕ)
    (hconv : (iterate (fbPlain P G prox (userRules none none) adj (fun x => F x + g x) period clock)
      m o).obj.converge = true) :
    ∃ x, iterateFinal (fbPlain P G prox (userRules none none) adj (fun x => F x + g x) period clock) xFinal m o =
        ((iterate (fbPlain P G prox (userRules none none) adj (fun x => F x + g x) period clock) m o).obj, .ok x) ∧
      x ∈ C ∧ (F x + g x) - (F u + g u) ≤ max (1 / 2 / 10 ^ 16) (‖x0 - u‖ *
        Real.sqrt (2 * tol * (F (prox (x0 - β • G x0) β) + g (prox (x0 - β • G x0) β)) / β)) := by
  set X : ℕ → E := fun k => (afterSteps G prox (userRules none none) ⟨x0, x0, none, none, β, 1, s⟩ k).xOld with hX
  obtain ⟨hdesc, hC, hanti⟩ := ista_descent hg hF hS hp x0 β s hb hL hX
  set A := fbPlain P G prox (userRules (U := S) none none) adj (fun x => F x + g x) period clock with hA
  obtain ⟨r, r1, r2, r3, r4, r5, r6, r7, r8⟩ := iterate_plain A eps _ init tol I hI T (by omega) o ho (fun i => rfl)
    (fun k => F (X k) + g (X k)) (fun k => fbPlain_cost _ _ _ _ _ _ _ _ k) m
  have hr : 1 ≤ r := by
    by_contra h
    have h0 : r = 0 := by omega
    rw [r8 h0] at hconv
    cases hconv
  have hres := r6 hr
  rw [hconv] at hres
  obtain ⟨j, hj, hw⟩ := (C18_true_iff_full_window_passes (fun k => F (X k) + g (X k)) init tol I hI T hT id r hr).1 hres
  set Φ : ℕ → ℝ := fun k => F (X k) + g (X k) with hΦ
  obtain ⟨k, hk⟩ : ∃ k, r = k + 1 := ⟨r - 1, by omega⟩
  refine ⟨X r, ?_, ?_, ?_⟩
  · simp only [iterateFinal, r2]
    rw [r4, hA, fbPlain_traj, hk, (ista_iterates (G := G) hp x0 β s hb k).2.2]
  · rw [hk]; exact hC k
  set older := (List.range (T / 2)).map fun i => Φ (id ((j * T + i + 1) * I)) with hold
  set newer := (List.range (T - T / 2)).map fun i => Φ (id ((j * T + T / 2 + i + 1) * I)) with hnew
  have hne1 : older ≠ [] := by intro h; have := congrArg List.length h; simp [older] at this; omega
  have hne2 : newer ≠ [] := by intro h; have := congrArg List.length h; simp [newer] at this; omega
  have hΦanti : ∀ a b, 1 ≤ a → a ≤ b → Φ b ≤ Φ a := hanti
  have hΦ0 : ∀ k, 1 ≤ k → 0 ≤ Φ k := by
    intro k hk
    obtain ⟨l, rfl⟩ : ∃ l, k = l + 1 := ⟨k - 1, by omega⟩
    exact hpos _ (hC l)
  set a := (j * T + T / 2) * I with ha
  have ha1 : 1 ≤ a := Nat.mul_pos (by omega) (by omega)
  have h1 : Φ a ≤ avg older := by
    refine avg_lower hne1 fun v hv => ?_
    obtain ⟨i, hi, rfl⟩ := List.mem_map.1 hv
    rw [List.mem_range] at hi
    exact hΦanti _ _ (Nat.mul_pos (by omega) (by omega)) (Nat.mul_le_mul_right _ (by omega))
  have hb1 : (j * T + T / 2 + 1) * I = a + I := by rw [ha]; ring
  have h2 : avg newer ≤ Φ (a + 1) := by
    refine avg_upper hne2 fun v hv => ?_
    obtain ⟨i, hi, rfl⟩ := List.mem_map.1 hv
    refine hΦanti _ _ (by omega) ?_
    have : (j * T + T / 2 + 1) * I ≤ (j * T + T / 2 + i + 1) * I := Nat.mul_le_mul_right _ (by omega)
    rw [hb1] at this
    simp only [id]
    omega
  have h3 : Φ r ≤ avg newer := by
    refine avg_lower hne2 fun v hv => ?_
    obtain ⟨i, hi, rfl⟩ := List.mem_map.1 hv
    rw [List.mem_range] at hi
    refine hΦanti _ _ (Nat.mul_pos (by omega) (by omega)) ?_
    rw [hj]
    refine Nat.mul_le_mul_right _ ?_
    rw [Nat.add_mul, Nat.one_mul]
    omega
  have hn0 : 0 ≤ avg newer := (hΦ0 r hr).trans h3
  have hu0 : 0 ≤ F u + g u := hpos u hu.1
  rcases hw with ⟨h4, -⟩ | ⟨-, h4⟩
  · refine le_max_of_le_left ?_
    rw [abs_of_nonneg hn0] at h4
    rw [le_div_iff₀ (by positivity)]
    have h5 : Φ r - (F u + g u) ≤ avg newer := by linarith
    nlinarith
  · refine le_max_of_le_right ?_
    rw [abs_of_nonneg hn0] at h4
    have h5 : Φ a - Φ (a + 1) ≤ tol * Φ 1 := by
      have h6 := neg_abs_le (avg newer - avg older)
      have h7 : tol * avg newer ≤ tol * Φ 1 :=
        mul_le_mul_of_nonneg_left (h2.trans (hΦanti 1 (a + 1) le_rfl (by omega))) htol
      linarith
    obtain ⟨l, hl⟩ : ∃ l, a = l + 1 := ⟨a - 1, by omega⟩
    have h8 := hdesc a (X a) (by rw [hl]; exact hC l)
    rw [sub_self, norm_zero] at h8
    have h9 : ‖X (a + 1) - X a‖ ^ 2 ≤ 2 * β * (tol * Φ 1) := by
      have : 2 * β * (Φ a - Φ (a + 1)) ≤ 2 * β * (tol * Φ 1) := mul_le_mul_of_nonneg_left h5 (by positivity)
      simp only [hΦ] at this ⊢
      nlinarith
    have hfej : ∀ k, ‖X (k + 1) - u‖ ≤ ‖X k - u‖ := by
      intro k
      have h10 := hdesc k u hu.1
      have h11 : 0 ≤ F (X (k + 1)) + g (X (k + 1)) - (F u + g u) := sub_nonneg.2 (hu.2 _ (hC k))
      have h12 := mul_nonneg (mul_nonneg two_pos.le hb.le) h11
      exact abs_le_of_sq_le_sq' (by linarith) (norm_nonneg _) |>.2
    have hfej0 : ∀ k, ‖X k - u‖ ≤ ‖x0 - u‖ := by
      intro k
      induction k with
      | zero => exact le_rfl
      | succ k ih => exact (hfej k).trans ih
    have h13 := hdesc a u hu.1
    have h14 : 2 * β * (Φ (a + 1) - (F u + g u)) ≤ 2 * (‖X (a + 1) - X a‖ * ‖x0 - u‖) := by
      have e1 : ‖X a - u‖ - ‖X (a + 1) - u‖ ≤ ‖X (a + 1) - X a‖ := by
        have := norm_sub_norm_le (X a - u) (X (a + 1) - u)
        rw [show X a - u - (X (a + 1) - u) = -(X (a + 1) - X a) by abel, norm_neg] at this
        exact this
      have e2 := hfej a
      have e3 := hfej0 a
      have e4 := norm_nonneg (X (a + 1) - u)
      simp only [hΦ]
      have e5 : ‖X a - u‖ ^ 2 - ‖X (a + 1) - u‖ ^ 2 = (‖X a - u‖ - ‖X (a + 1) - u‖) * (‖X a - u‖ + ‖X (a + 1) - u‖) := by
        ring
      have e6 : (‖X a - u‖ - ‖X (a + 1) - u‖) * (‖X a - u‖ + ‖X (a + 1) - u‖) ≤
          ‖X (a + 1) - X a‖ * (‖x0 - u‖ + ‖x0 - u‖) :=
        mul_le_mul e1 (by linarith) (by linarith [norm_nonneg (X a - u)]) (norm_nonneg _)
      linarith
    have h15 : ‖X (a + 1) - X a‖ ≤ β * Real.sqrt (2 * tol * Φ 1 / β) := by
      have e1 : β * Real.sqrt (2 * tol * Φ 1 / β) = Real.sqrt (2 * β * (tol * Φ 1)) := by
        have : 2 * β * (tol * Φ 1) = β ^ 2 * (2 * tol * Φ 1 / β) := by field_simp
        rw [this, Real.sqrt_mul (sq_nonneg _), Real.sqrt_sq hb.le]
      rw [e1]
      exact Real.le_sqrt_of_sq_le h9
    have hX1 : X 1 = prox (x0 - β • G x0) β := (ista_iterates (G := G) hp x0 β s hb 0).1
    have hΦ1 : Φ 1 = F (prox (x0 - β • G x0) β) + g (prox (x0 - β • G x0) β) := by rw [← hX1]
    rw [← hΦ1]
    have h16 : Φ r ≤ Φ (a + 1) := h3.trans h2
    have h17 : β * (Φ (a + 1) - (F u + g u)) ≤ β * (‖x0 - u‖ * Real.sqrt (2 * tol * Φ 1 / β)) := by
      have := mul_le_mul_of_nonneg_right h15 (norm_nonneg (x0 - u))
      nlinarith
    have h18 := le_of_mul_le_mul_left h17 hb
    show Φ r - (F u + g u) ≤ _
    linarith

end

/-- C126, refutation: for every tolerance `> 0`, cost interval, test range and starting point `x₀ ≠ 0`, and every
fraction `δ < 1`, there is a step size within the convergent range for which minimising `½x²` (minimum `0` at `0`) is
stopped by the cost test at the end of the first window with a cost of at least `δ` times the initial cost. -/
theorem C126_stops_far_from_minimum {P S : Type} (tol : ℝ) (htol : 0 < tol) (I : ℕ) (hI : 1 ≤ I) (T : ℕ)
    (hT : 2 ≤ T) (x0 : ℝ) (hx0 : x0 ≠ 0) (δ : ℝ) (hδ : δ < 1) :
    ∃ β, 0 < β ∧ β ≤ 1 ∧ ∀ (adj : ℝ → Py P) (period : Option ℕ) (clock : ℕ → ℝ) (eps init : ℝ) (s : S)
      (o : Obj (FB.St S ℝ) ℝ (Val P ℝ Unit)) (m : ℕ), T * I ≤ m →
      construct eps none ⟨x0, x0, none, none, β, 1, s⟩ (some (CostObj.init init tol (some I) T)) = .ok o →
      (iterate (fbPlain P (fun x => x) (fun y _ => y) (userRules none none) adj (fun x => 1 / 2 * x ^ 2 + 0) period
        clock) m o).obj.converge = true ∧
      (iterate (fbPlain P (fun x => x) (fun y _ => y) (userRules none none) adj (fun x => 1 / 2 * x ^ 2 + 0) period
        clock) m o).started = List.range (T * I) ∧
      ∃ x, iterateFinal (fbPlain P (fun x => x) (fun y _ => y) (userRules none none) adj (fun x => 1 / 2 * x ^ 2 + 0)
          period clock) xFinal m o = ((iterate (fbPlain P (fun x => x) (fun y _ => y) (userRules none none) adj
          (fun x => 1 / 2 * x ^ 2 + 0) period clock) m o).obj, .ok x) ∧
        δ * (1 / 2 * x0 ^ 2) ≤ 1 / 2 * x ^ 2 := by
  set η := min (1 - δ) (tol / (1 + tol)) with hη
  have hη0 : 0 < η := lt_min (by linarith) (by positivity)
  have hη1 : η < 1 := lt_of_le_of_lt (min_le_right _ _) (by rw [div_lt_one (by linarith)]; linarith)
  have hTI : 1 ≤ T * I := Nat.mul_pos (by omega) (by omega)
  have hTIr : (1 : ℝ) ≤ (T * I : ℕ) := by exact_mod_cast hTI
  set β := η / (2 * (T * I : ℕ)) with hβ
  have hβ0 : 0 < β := by positivity
  have hβ1 : β ≤ 1 := by rw [hβ, div_le_one (by positivity)]; linarith
  refine ⟨β, hβ0, hβ1, fun adj period clock eps init s o m hm ho => ?_⟩
  set A := fbPlain P (fun x : ℝ => x) (fun y _ => y) (userRules (U := S) none none) adj (fun x => 1 / 2 * x ^ 2 + 0)
    period clock with hA
  have hprox : ExactProx Set.univ (fun _ : ℝ => (0 : ℝ)) (fun y _ => y) := by
    intro y b _
    refine ⟨trivial, fun u _ => ?_⟩
    simp only [sub_self, norm_zero, mul_zero, add_zero]
    nlinarith [sq_nonneg ‖y - u‖]
  set X : ℕ → ℝ := fun k => (afterSteps (fun x : ℝ => x) (fun y _ => y) (userRules (U := S) none none)
    ⟨x0, x0, none, none, β, 1, s⟩ k).xOld with hX
  have hXk : ∀ k, X k = (1 - β) ^ k * x0 := by
    intro k
    induction k with
    | zero => show x0 = _; simp
    | succ k ih =>
      have := (ista_iterates (G := fun x : ℝ => x) hprox x0 β s hβ0 k).1
      change X (k + 1) = X k - β • X k at this
      rw [this, ih, smul_eq_mul]; ring
  set Φ0 := 1 / 2 * x0 ^ 2 with hΦ0
  have hΦp : 0 < Φ0 := by positivity
  set c : ℕ → ℝ := fun k => 1 / 2 * X k ^ 2 + 0 with hcdef
  have hc : ∀ k, c k = (1 - β) ^ (2 * k) * Φ0 := by
    intro k
    simp only [hcdef, hXk, hΦ0]
    ring
  have hlow : ∀ k, k ≤ T * I → (1 - η) * Φ0 ≤ c k := by
    intro k hk
    rw [hc]
    refine mul_le_mul_of_nonneg_right ?_ hΦp.le
    have h1 := one_add_mul_le_pow (a := -β) (by linarith) (2 * k)
    have h2 : (k : ℝ) ≤ (T * I : ℕ) := by exact_mod_cast hk
    have h3 : ((2 * k : ℕ) : ℝ) * β ≤ η := by
      rw [hβ]
      push_cast at h2 hTIr ⊢
      rw [mul_div_assoc', div_le_iff₀ (by linarith)]
      nlinarith
    rw [← sub_eq_add_neg] at h1
    linarith
  have hupp : ∀ k, c k ≤ Φ0 := by
    intro k
    rw [hc]
    have : (1 - β) ^ (2 * k) ≤ 1 := pow_le_one₀ (by linarith) (by linarith)
    nlinarith
  have hyes : costResult (fun n : ℕ => .ok (c n)) (CostObj.init init tol (some (I : ℤ)) T) id (T * I) = .ok true := by
    rw [C18_true_iff_full_window_passes c init tol I hI T hT id _ hTI]
    refine ⟨0, by simp, ?_⟩
    set older := (List.range (T / 2)).map fun i => c (id ((0 * T + i + 1) * I)) with hold
    set newer := (List.range (T - T / 2)).map fun i => c (id ((0 * T + T / 2 + i + 1) * I)) with hnew
    have hne1 : older ≠ [] := by intro h; have := congrArg List.length h; simp [older] at this; omega
    have hne2 : newer ≠ [] := by intro h; have := congrArg List.length h; simp [newer] at this; omega
    have o1 : (1 - η) * Φ0 ≤ avg older := avg_lower hne1 fun v hv => by
      obtain ⟨i, hi, rfl⟩ := List.mem_map.1 hv
      rw [List.mem_range] at hi
      exact hlow _ (Nat.mul_le_mul_right _ (by omega))
    have o2 : avg older ≤ Φ0 := avg_upper hne1 fun v hv => by
      obtain ⟨i, hi, rfl⟩ := List.mem_map.1 hv
      exact hupp _
    have n1 : (1 - η) * Φ0 ≤ avg newer := avg_lower hne2 fun v hv => by
      obtain ⟨i, hi, rfl⟩ := List.mem_map.1 hv
      rw [List.mem_range] at hi
      exact hlow _ (Nat.mul_le_mul_right _ (by omega))
    have n2 : avg newer ≤ Φ0 := avg_upper hne2 fun v hv => by
      obtain ⟨i, hi, rfl⟩ := List.mem_map.1 hv
      exact hupp _
    by_cases hs : |avg newer| * 10 ^ 16 ≤ 1 / 2
    · exact Or.inl ⟨hs, htol.le⟩
    · refine Or.inr ⟨lt_of_not_ge hs, ?_⟩
      have h1 : |avg newer - avg older| ≤ η * Φ0 := by
        rw [abs_le]; constructor <;> linarith
      have h2 : 0 < avg newer := lt_of_lt_of_le (mul_pos (by linarith) hΦp) n1
      rw [abs_of_pos h2]
      have h3 : η ≤ tol * (1 - η) := by
        have h4 : η ≤ tol / (1 + tol) := min_le_right _ _
        rw [le_div_iff₀ (by linarith)] at h4
        linarith
      have h5 : η * Φ0 ≤ tol * ((1 - η) * Φ0) := by
        have := mul_le_mul_of_nonneg_right h3 hΦp.le
        linarith
      have h6 := mul_le_mul_of_nonneg_left n1 htol.le
      linarith
  obtain ⟨s1, s2, s3, s4⟩ := session_stops_at A eps _ init tol I hI T (by omega) o ho (fun i => rfl) c
    (fun k => fbPlain_cost _ _ _ _ _ _ _ _ k) (T * I) hTI hyes
    (fun n h1 h2 h3 => by
      obtain ⟨j, hj, -⟩ := (C18_true_iff_full_window_passes c init tol I hI T hT id n h1).1 h3
      rw [hj, Nat.mul_assoc] at h2
      exact absurd h2 (not_lt.2 (Nat.le_mul_of_pos_left _ (by omega)))) m hm
  refine ⟨s3, s2, X (T * I), ?_, ?_⟩
  · obtain ⟨k, hk⟩ : ∃ k, T * I = k + 1 := ⟨T * I - 1, by omega⟩
    simp only [iterateFinal, s1]
    rw [s4, hA, fbPlain_traj, hk, (ista_iterates (G := fun x : ℝ => x) hprox x0 β s hβ0 k).2.2, ← hk]
  · have h1 := hlow (T * I) le_rfl
    have h2 : η ≤ 1 - δ := min_le_left _ _
    have h3 : δ * Φ0 ≤ (1 - η) * Φ0 := mul_le_mul_of_nonneg_right (by linarith) hΦp.le
    simp only [hcdef, add_zero] at h1
    linarith

/-! ## Concrete cases -/

/-- `½(x-3)² + |x|` from `x₀ = 7` with step 1, relative tolerance `10⁻⁴`, the default window of 4 costs. -/
example (o : Obj (FB.St Unit ℝ) ℝ (Val ℝ ℝ Unit))
    (ho : construct 0 none ⟨7, 7, none, none, 1, 1, ()⟩ (some (CostObj.init 1000000 (1 / 10 ^ 4) (some 1) 4)) = .ok o) :=
  C125_forward_backward (L := 1) abs_convex sq_above sq_smooth softR_exact 7 1 () one_pos (by norm_num) 0
    (fun u _ => by positivity) (fun x => .ok x) (some 5) (fun _ => 0) 0 1000000 (1 / 10 ^ 4) (by norm_num) 1 le_rfl 4
    (by norm_num) o ho

example (o : Obj (FB.St Unit ℝ) ℝ (Val ℝ ℝ Unit)) (m : ℕ)
    (ho : construct 0 none ⟨7, 7, none, none, 1, 1, ()⟩ (some (CostObj.init 1000000 (1 / 10 ^ 4) (some 1) 4)) = .ok o) :=
  C126_quality_partial (L := 1) abs_convex sq_above sq_smooth softR_exact 7 1 () one_pos (by norm_num)
    (fun u _ => by positivity) 2 two_minimises (fun x => .ok x) (some 5) (fun _ => 0) 0 1000000 (1 / 10 ^ 4)
    (by norm_num) 1 le_rfl 4 (by norm_num) o ho m

/-- Such objects can be built. -/
example : ∃ o : Obj (FB.St Unit ℝ) ℝ (Val ℝ ℝ Unit), construct 0 none ⟨7, 7, none, none, 1, 1, ()⟩
    (some (CostObj.init 1000000 (1 / 10 ^ 4) (some 1) 4)) = .ok o := ⟨_, rfl⟩

example (o : Obj (FB.St (Fista.Obj × Unit) ℝ) ℝ (Val ℝ ℝ Unit))
    (ho : construct 0 none ⟨7, 7, none, none, 1, 1, (regularObj (1 / 2) 1 4, ())⟩
      (some (CostObj.init 1000000 (1 / 10 ^ 4) (some (3 : ℕ)) (4 : ℕ))) = .ok o) :=
  C125_fista (L := 1) abs_convex sq_above sq_smooth softR_exact (1 / 2) 1 (by norm_num) le_rfl zero_le_one
    (by norm_num) 7 1 1 () one_pos (by norm_num) zero_le_one le_rfl ⟨2, two_minimises⟩ (fun x => .ok x) (some 5)
    (fun _ => 0) 0 1000000 (1 / 10 ^ 4) (by norm_num) 3 (by norm_num) 4 (by norm_num) o ho

example (o : Obj (Condat.St ℝ ℝ × Bool) ℝ (Val ℝ ℝ Unit))
    (ho : construct 0 none (⟨0, 0, 1 / 2, 1 / 2, 1 / 2⟩, false)
      (some (CostObj.init 1000000 (1 / 10 ^ 4) (some (1 : ℕ)) (4 : ℕ))) = .ok o) :=
  C125_condat condat_example_ok sq_smooth one_pos (nL := 1) (fun x => by simp)
    ⟨0, 0, 1 / 2, 1 / 2, 1 / 2⟩ (by norm_num) (by norm_num) (by norm_num) (by norm_num) (by norm_num)
    ⟨2, 1, condat_example_saddle _⟩ (fun x _ => 1 / 2 * (x - 3) ^ 2 + |x|)
    (fun x y _ => by fun_prop) none (fun _ => 0) 0 1000000 (1 / 10 ^ 4) (by norm_num) 1 le_rfl 4 (by norm_num) o ho

/-- Costs `1 + 1/(k+1)` with tolerance 0: they converge and no call of `iterate` stops early. -/
example (m : ℕ) : ∃ o : Obj ℕ ℝ Unit, construct 0 none (0 : ℕ) (some (CostObj.init 1000000 0 (some (1 : ℕ)) (4 : ℕ))) = .ok o ∧
    (iterate (⟨fun _ n => (n + 1, none), fun _ => .ok [], fun _ => (), fun n => .ok (1 + 1 / ((n : ℝ) + 1)),
      .flagsOrCost, none, fun _ => 0⟩ : Alg ℕ ℝ Unit) m o).started = List.range m := by
  refine ⟨_, rfl, ?_⟩
  have ht : ∀ k, traj (⟨fun _ n => (n + 1, none), fun _ => .ok [], fun _ => (), fun n => .ok (1 + 1 / ((n : ℝ) + 1)),
      .flagsOrCost, none, fun _ => 0⟩ : Alg ℕ ℝ Unit) 0 k = k := by
    intro k
    induction k with
    | zero => rfl
    | succ k ih => rw [traj, ih]
  refine (C125_zero_tolerance_never_stops _ 0 0 1000000 1 le_rfl 4 (by norm_num) _ rfl (fun i => rfl)
    (fun k => 1 + 1 / ((k : ℝ) + 1)) (fun k => by rw [ht]) (fun a b h => ?_) (fun k => ?_) m).2.1
  · have h' : (a : ℝ) < b := by exact_mod_cast h
    have ha : (0 : ℝ) ≤ a := Nat.cast_nonneg a
    have := one_div_lt_one_div_of_lt (by linarith : (0 : ℝ) < a + 1) (by linarith : (a : ℝ) + 1 < b + 1)
    linarith
  · have h1 : (0 : ℝ) ≤ 1 / ((k : ℝ) + 1) := by positivity
    have h2 : (1 : ℝ) / 10 ^ 16 ≤ 1 := by norm_num
    linarith

end Verif
