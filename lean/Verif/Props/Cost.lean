import Verif.Model.Cost
import Verif.Spec.Cost
import Verif.Lemmas.Transform
import Mathlib.Data.Rat.Floor
import Mathlib.Tactic.NormNum

/-!
# C17–C19: the cost object
-/

set_option linter.unusedSectionVars false

namespace Verif
open Cost Spec
variable {K : Type} [Field K] [LinearOrder K] [IsStrictOrderedRing K] [FloorRing K] {X : Type}

/-- The cost object after the first `n` calls of `get_cost`, with arguments `x 1, x 2, ...`. -/
def costAfter (calcF : X → Py K) (o : CostObj K) (x : ℕ → X) : ℕ → CostObj K
  | 0 => o
  | n + 1 => (getCost calcF (costAfter calcF o x n) (x (n + 1))).1

/-- The value returned by call number `n` (from 1). -/
def costResult (calcF : X → Py K) (o : CostObj K) (x : ℕ → X) (n : ℕ) : Py Bool :=
  (getCost calcF (costAfter calcF o x (n - 1)) (x n)).2

/-- The `k`-th recorded cost (from 0) of a run with interval `I`. -/
def nthCost (c : X → K) (x : ℕ → X) (I k : ℕ) : K := c (x ((k + 1) * I))

theorem dvd_iff_emod (n I : ℕ) : (((n : ℤ) % (I : ℤ)) ≠ 0) ↔ ¬ I ∣ n := by
  rw [not_iff_not, ← Int.dvd_iff_emod_eq_zero, Int.natCast_dvd_natCast]

theorem succ_divmod (m T : ℕ) (hT : 1 ≤ T) (h : m % T + 1 ≠ T) :
    (m + 1) / T = m / T ∧ (m + 1) % T = m % T + 1 := by
  have h1 : m % T < T := Nat.mod_lt _ hT
  rw [Nat.div_mod_unique hT]
  have := Nat.mod_add_div m T
  constructor <;> omega

/-- State invariant after `n` calls. -/
theorem costAfter_inv (c : X → K) (init tol : K) (I : ℕ) (hI : 1 ≤ I) (T : ℕ) (hT : 1 ≤ T)
    (x : ℕ → X) (n : ℕ) :
    let o := costAfter (fun x => .ok (c x)) (CostObj.init init tol (some I) T) x n
    o.interval = some (I : ℤ) ∧ o.testRange = T ∧ o.tolerance = tol ∧ o.iteration = n + 1 ∧
    o.costList = (List.range (n / I)).map (nthCost c x I) ∧
    o.testList = (List.range (n / I % T)).map (fun i => nthCost c x I (n / I / T * T + i)) := by
  induction n with
  | zero => simp [costAfter, CostObj.init]
  | succ n ih =>
    obtain ⟨h1, h2, h3, h4, h5, h6⟩ := ih
    simp only [costAfter]
    generalize costAfter (fun x => .ok (c x)) (CostObj.init init tol (some I) T) x n = o at *
    have hI0 : ¬ ((I : ℤ) = 0) := by omega
    have hdv := dvd_iff_emod (n + 1) I
    unfold getCost
    simp only [h1, hI0, if_false]
    rw [h4]
    rw [Nat.succ_div]
    by_cases hd : I ∣ n + 1
    · have hq : (n + 1) / I = n / I + 1 := by rw [Nat.succ_div, if_pos hd]
      have hcn : nthCost c x I (n / I) = c (x (n + 1)) := by
        unfold nthCost; rw [← hq, Nat.div_mul_cancel hd]
      have hnd : ¬ (((n + 1 : ℕ) : ℤ) % (I : ℤ) ≠ 0) := by rw [hdv]; exact not_not.2 hd
      simp only [hnd, if_false, hd, if_true, checkCost]
      have hmod : n / I % T < T := Nat.mod_lt _ (by omega)
      have hdm : n / I / T * T + n / I % T = n / I := Nat.div_add_mod' _ _
      have hlen : (o.testList ++ [c (x (n + 1))]).length = n / I % T + 1 := by simp [h6]
      by_cases hfull : n / I % T + 1 = T
      · have hfull' : (((o.testList ++ [c (x (n + 1))]).length : ℕ) : ℤ) = o.testRange := by
          rw [hlen, h2, hfull]
        have hm : (n / I + 1) = T * (n / I / T + 1) := by
          rw [Nat.mul_add, Nat.mul_one, Nat.mul_comm]; omega
        have hm0 : (n / I + 1) % T = 0 := by rw [hm]; exact Nat.mul_mod_right _ _
        simp only [hfull', if_true]
        refine ⟨by first | exact h1 | trivial, h2, h3, by simp, ?_, ?_⟩
        · rw [h5, List.range_succ, List.map_append]; simp [hcn]
        · rw [hm0]; rfl
      · have hfull' : ¬ ((((o.testList ++ [c (x (n + 1))]).length : ℕ) : ℤ) = o.testRange) := by
          rw [hlen, h2]; exact_mod_cast hfull
        obtain ⟨hm1, hm0⟩ := succ_divmod (n / I) T hT hfull
        simp only [hfull', if_false]
        refine ⟨by first | exact h1 | trivial, h2, h3, by simp, ?_, ?_⟩
        · rw [h5, List.range_succ, List.map_append]; simp [hcn]
        · rw [hm0, hm1, List.range_succ, List.map_append, h6]
          simp [hdm, hcn]
    · have hnd : (((n + 1 : ℕ) : ℤ) % (I : ℤ) ≠ 0) := by rw [hdv]; exact hd
      rw [if_pos hnd]
      simp only [hd, if_false, Nat.add_zero]
      exact ⟨by first | exact h1 | trivial, h2, h3, by simp, h5, h6⟩

/-! ## C17 -/

/-- C17: with `cost_interval = I ≥ 1`, after `n` calls the recorded history is exactly the list of the
costs at calls `I, 2I, 3I, ..., ⌊n/I⌋ I`, in order. -/
theorem C17_recorded_history (c : X → K) (init tol : K) (I : ℕ) (hI : 1 ≤ I) (T : ℕ) (hT : 1 ≤ T)
    (x : ℕ → X) (n : ℕ) :
    (costAfter (fun x => .ok (c x)) (CostObj.init init tol (some I) T) x n).costList
      = ((List.range' 1 n).filter (fun k => decide (I ∣ k))).map (fun k => c (x k)) := by
  rw [(costAfter_inv c init tol I hI T hT x n).2.2.2.2.1]
  induction n with
  | zero => simp
  | succ n ih =>
    rw [List.range'_concat, List.filter_append, List.map_append, ← ih, Nat.succ_div, Nat.add_comm 1,
      Nat.mul_comm, Nat.mul_one]
    by_cases hd : I ∣ n + 1
    · have hq : (n + 1) / I = n / I + 1 := by rw [Nat.succ_div, if_pos hd]
      simp only [hd, if_true, List.range_succ, List.map_append]
      simp [hd, nthCost, ← hq, Nat.div_mul_cancel hd]
    · simp [hd]

/-- C17: with `cost_interval = None` the cost is never evaluated (even if evaluating would raise), the
history stays empty and every call returns `False`. -/
theorem C17_interval_none_never_evaluates (calcF : X → Py K) (init tol : K) (T : ℤ) (x : ℕ → X)
    (n : ℕ) :
    (costAfter calcF (CostObj.init init tol none T) x n).costList = [] ∧
    costResult calcF (CostObj.init init tol none T) x (n + 1) = .ok false := by
  have : ∀ n, (costAfter calcF (CostObj.init init tol none T) x n).costList = [] ∧
      (costAfter calcF (CostObj.init init tol none T) x n).interval = none := by
    intro n
    induction n with
    | zero => exact ⟨rfl, rfl⟩
    | succ n ih => simp only [costAfter, getCost, ih.2]; exact ⟨ih.1, trivial⟩
  refine ⟨(this n).1, ?_⟩
  simp [costResult, getCost, (this n).2]

/-- C17: on calls that are not a multiple of the interval `calcF` is not consulted: the result is
`False` and only the call counter changes, whatever `calcF` would do. -/
theorem C17_skipped_calls_do_not_evaluate (calcF : X → Py K) (o : CostObj K) (x : X) (I : ℕ)
    (hI : o.interval = some (I : ℤ)) (h0 : I ≠ 0) (hd : ¬ I ∣ o.iteration) :
    getCost calcF o x = ({ o with iteration := o.iteration + 1 }, .ok false) := by
  have h0' : ¬ ((I : ℤ) = 0) := by exact_mod_cast h0
  have := (dvd_iff_emod o.iteration I).2 hd
  simp [getCost, hI, h0, this]

/-- C17: every call that returns is counted, whatever the interval. -/
theorem C17_calls_are_counted (calcF : X → Py K) (o : CostObj K) (x : X) (b : Bool) (h : (getCost calcF o x).2 = .ok b) :
    (getCost calcF o x).1.iteration = o.iteration + 1 := by
  unfold getCost at *
  cases hi : o.interval with
  | none => rfl
  | some I =>
    simp only [hi] at h ⊢
    by_cases h0 : I = 0
    · simp [h0] at h
    · simp only [h0, if_false] at h ⊢
      by_cases h1 : (o.iteration : ℤ) % I ≠ 0
      · rw [if_pos h1]
      · rw [if_neg h1] at h ⊢
        cases hc : calcF x with
        | error e => simp [hc] at h
        | ok c =>
          simp only [checkCost]
          split <;> rfl

/-- C17, crash points: if evaluating the cost raises, the object is exactly as before the call (in
particular the call is not counted). -/
theorem C17_failed_evaluation_leaves_object (calcF : X → Py K) (o : CostObj K) (x : X) (e : PyErr)
    (h : (getCost calcF o x).2 = .error e) : (getCost calcF o x).1 = o := by
  unfold getCost at *
  split at h
  · cases h
  · split
    · rfl
    · rename_i h1
      simp only [h1, if_false] at h
      split
      · rename_i h2; rw [if_pos h2] at h; cases h
      · rename_i h2
        rw [if_neg h2] at h
        split
        · rfl
        · rename_i h3; rw [h3] at h; cases h

/-- C17: `cost_interval = 0` raises `ZeroDivisionError` on every call. -/
theorem C17_interval_zero_raises (calcF : X → Py K) (o : CostObj K) (x : X)
    (h : o.interval = some 0) : getCost calcF o x = (o, .error .zeroDivisionError) := by
  simp [getCost, h]

/-! ## C18 -/

theorem costDiff_spec (tol : K) (older newer : List K) (ho : older ≠ []) (hn : newer ≠ []) :
    (match costDiff (mean newer) (mean older) with
      | none => false
      | some d => decide (d ≤ tol)) = true ↔ WindowConverged tol older newer := by
  have h16 := around_eq_zero_iff 16 (avg newer)
  unfold costDiff mean
  simp only [ho, hn, if_false]
  show (match (if around 16 (avg newer) ≠ 0 then some (|avg newer - avg older| / |avg newer|)
    else some 0) with | none => false | some d => decide (d ≤ tol)) = true ↔ _
  unfold WindowConverged
  by_cases h : around 16 (avg newer) = 0
  · have h' := h16.1 h
    have h'' := not_lt.2 h'
    simp only [h, ne_eq, not_true_eq_false, if_false, decide_eq_true_eq]
    constructor
    · intro ht; exact Or.inl ⟨h', ht⟩
    · rintro (⟨_, ht⟩ | ⟨hc, _⟩)
      · exact ht
      · exact absurd hc h''
  · have h' : 1 / 2 < |avg newer| * 10 ^ 16 := by
      rw [← not_le]; intro hc; exact h (h16.2 hc)
    have hpos : 0 < |avg newer| := by
      rw [abs_pos]; intro hc; rw [hc] at h; exact h (around_zero 16)
    simp only [h, ne_eq, not_false_eq_true, if_true, decide_eq_true_eq]
    rw [div_le_iff₀ hpos]
    constructor
    · intro ht; exact Or.inr ⟨h', ht⟩
    · rintro (⟨hc, _⟩ | ⟨_, ht⟩)
      · exact absurd hc (not_le.2 h')
      · exact ht

/-- C18: with `cost_interval = I ≥ 1` and `test_range = T ≥ 2`, call number `n` returns `True` exactly
when `n = (j+1) T I` for some `j` and the window of the costs number `jT, ..., jT+T-1` passes the
relative change test between its first `T // 2` and its remaining entries.  Windows of different `j`
are disjoint. -/
theorem C18_true_iff_full_window_passes (c : X → K) (init tol : K) (I : ℕ) (hI : 1 ≤ I) (T : ℕ)
    (hT : 2 ≤ T) (x : ℕ → X) (n : ℕ) (hn : 1 ≤ n) :
    costResult (fun x => .ok (c x)) (CostObj.init init tol (some I) T) x n = .ok true ↔
    ∃ j, n = (j + 1) * T * I ∧
      WindowConverged tol
        ((List.range (T / 2)).map fun i => c (x ((j * T + i + 1) * I)))
        ((List.range (T - T / 2)).map fun i => c (x ((j * T + T / 2 + i + 1) * I))) := by
  obtain ⟨n, rfl⟩ : ∃ k, n = k + 1 := ⟨n - 1, by omega⟩
  obtain ⟨h1, h2, h3, h4, h5, h6⟩ := costAfter_inv c init tol I hI T (by omega) x n
  unfold costResult
  rw [Nat.add_sub_cancel]
  generalize costAfter (fun x => .ok (c x)) (CostObj.init init tol (some I) T) x n = o at *
  have hI0 : ¬ ((I : ℤ) = 0) := by omega
  have hdv := dvd_iff_emod (n + 1) I
  unfold getCost
  simp only [h1, hI0, if_false]
  rw [h4]
  by_cases hd : I ∣ n + 1
  · have hq : (n + 1) / I = n / I + 1 := by rw [Nat.succ_div, if_pos hd]
    have hcn : nthCost c x I (n / I) = c (x (n + 1)) := by
      unfold nthCost; rw [← hq, Nat.div_mul_cancel hd]
    have hnd : ¬ (((n + 1 : ℕ) : ℤ) % (I : ℤ) ≠ 0) := by rw [hdv]; exact not_not.2 hd
    have hnI : n + 1 = (n / I + 1) * I := by rw [← hq, Nat.div_mul_cancel hd]
    simp only [hnd, if_false, checkCost]
    have hmod : n / I % T < T := Nat.mod_lt _ (by omega)
    have hdm : n / I / T * T + n / I % T = n / I := Nat.div_add_mod' _ _
    have hlen : (o.testList ++ [c (x (n + 1))]).length = n / I % T + 1 := by simp [h6]
    by_cases hfull : n / I % T + 1 = T
    · have hfull' : (((o.testList ++ [c (x (n + 1))]).length : ℕ) : ℤ) = o.testRange := by
        rw [hlen, h2, hfull]
      have hTr : (T : ℤ) = o.testRange := h2.symm
      simp only [hlen, hfull, h3, hTr, if_true]
      have htl : o.testList ++ [c (x (n + 1))]
          = (List.range T).map (fun i => nthCost c x I (n / I / T * T + i)) := by
        have hr : List.range T = List.range (n / I % T) ++ [n / I % T] := by
          rw [← List.range_succ, Nat.succ_eq_add_one, hfull]
        rw [hr, List.map_append, h6, List.map_singleton, hdm, hcn]
      rw [htl]
      have e1 : ((List.range T).map (fun i => nthCost c x I (n / I / T * T + i))).take (T / 2)
          = (List.range (T / 2)).map fun i => c (x ((n / I / T * T + i + 1) * I)) := by
        rw [← List.map_take, List.take_range, Nat.min_eq_left (by omega)]; rfl
      have e2 : ((List.range T).map (fun i => nthCost c x I (n / I / T * T + i))).drop (T / 2)
          = (List.range (T - T / 2)).map fun i => c (x ((n / I / T * T + T / 2 + i + 1) * I)) := by
        apply List.ext_getElem
        · simp
        · intro i hi hi'
          simp [nthCost, Nat.add_assoc]
      rw [e1, e2]
      have hne1 : (List.range (T / 2)).map (fun i => c (x ((n / I / T * T + i + 1) * I))) ≠ [] := by
        intro h; have := congrArg List.length h; simp at this; omega
      have hne2 : (List.range (T - T / 2)).map
          (fun i => c (x ((n / I / T * T + T / 2 + i + 1) * I))) ≠ [] := by
        intro h; have := congrArg List.length h; simp at this; omega
      have key := costDiff_spec tol _ _ hne1 hne2
      have hj : n + 1 = (n / I / T + 1) * T * I := by
        rw [hnI]; congr 1; rw [Nat.add_mul, Nat.one_mul]; omega
      constructor
      · intro h
        refine ⟨n / I / T, hj, ?_⟩
        rw [← key]
        injection h
      · rintro ⟨j, hj', hw⟩
        have : j = n / I / T := by
          rw [hj] at hj'
          have h1 := Nat.eq_of_mul_eq_mul_right (by omega) hj'
          have h2 := Nat.eq_of_mul_eq_mul_right (by omega) h1
          omega
        subst this
        rw [← key] at hw
        exact congrArg Except.ok hw
    · have hfull' : ¬ ((((o.testList ++ [c (x (n + 1))]).length : ℕ) : ℤ) = o.testRange) := by
        rw [hlen, h2]; exact_mod_cast hfull
      simp only [hfull', if_false]
      constructor
      · intro h; cases h
      · rintro ⟨j, hj, _⟩
        exfalso
        rw [hnI] at hj
        have h1 := Nat.eq_of_mul_eq_mul_right (by omega) hj
        apply hfull
        have : n / I = j * T + (T - 1) := by rw [Nat.add_mul, Nat.one_mul] at h1; omega
        rw [this, Nat.mul_add_mod', Nat.mod_eq_of_lt (by omega)]; omega
  · have hnd : (((n + 1 : ℕ) : ℤ) % (I : ℤ) ≠ 0) := by rw [hdv]; exact hd
    simp only [hnd, ne_eq, not_false_eq_true, if_true]
    constructor
    · intro h; cases h
    · rintro ⟨j, hj, _⟩
      exact absurd ⟨_, by rw [hj, Nat.mul_comm]⟩ hd

/-- C18, degenerate `test_range = 1`: the older half is empty, so convergence is reported only when
the cost itself rounds to zero at 16 decimals (and the tolerance is non-negative). -/
theorem C18_test_range_one (c : X → K) (init tol : K) (I : ℕ) (hI : 1 ≤ I) (x : ℕ → X) (n : ℕ)
    (hn : 1 ≤ n) :
    costResult (fun x => .ok (c x)) (CostObj.init init tol (some I) 1) x n = .ok true ↔
      I ∣ n ∧ |c (x n)| * 10 ^ 16 ≤ 1 / 2 ∧ 0 ≤ tol := by
  obtain ⟨n, rfl⟩ : ∃ k, n = k + 1 := ⟨n - 1, by omega⟩
  obtain ⟨h1, h2, h3, h4, h5, h6⟩ := costAfter_inv c init tol I hI 1 (by omega) x n
  unfold costResult
  rw [Nat.add_sub_cancel]
  simp only [Nat.cast_one] at h1 h2 h3 h4 h5 h6
  generalize costAfter (fun x => .ok (c x)) (CostObj.init init tol (some I) 1) x n = o at *
  have hI0 : ¬ ((I : ℤ) = 0) := by omega
  have hdv := dvd_iff_emod (n + 1) I
  have hnil : o.testList = [] := by rw [h6, Nat.mod_one]; rfl
  unfold getCost
  simp only [h1, hI0, if_false]
  rw [h4]
  by_cases hd : I ∣ n + 1
  · have hnd : ¬ (((n + 1 : ℕ) : ℤ) % (I : ℤ) ≠ 0) := by rw [hdv]; exact not_not.2 hd
    have h16 := around_eq_zero_iff 16 (c (x (n + 1)))
    simp only [hnd, if_false, checkCost, hnil, h2, h3]
    simp only [List.nil_append, List.length_singleton, Nat.cast_one, if_true]
    simp only [mean, costDiff, Nat.reduceDiv, List.drop_zero, List.take_zero, hd, true_and]
    simp only [List.cons_ne_nil, if_false, if_true, List.sum_singleton, List.length_singleton,
      Nat.cast_one, div_one]
    by_cases h : around 16 (c (x (n + 1))) = 0
    · have := h16.1 h
      rw [one_div] at this
      simp [h, this]
    · have : ¬ (|c (x (n + 1))| * 10 ^ 16 ≤ 1 / 2) := fun hc => h (h16.2 hc)
      simp [h]
      intro hc; exact absurd (by simpa using hc) this
  · have hnd : (((n + 1 : ℕ) : ℤ) % (I : ℤ) ≠ 0) := by rw [hdv]; exact hd
    simp only [hnd, ne_eq, not_false_eq_true, if_true, hd, false_and, iff_false]
    intro h; cases h

/-- C18: with `test_range ≤ 0` convergence is never reported. -/
theorem C18_test_range_nonpos (calcF : X → Py K) (init tol : K) (I : Option ℤ) (T : ℤ) (hT : T ≤ 0)
    (x : ℕ → X) (n : ℕ) :
    costResult calcF (CostObj.init init tol I T) x n ≠ .ok true := by
  have hinv : ∀ n, (costAfter calcF (CostObj.init init tol I T) x n).testRange = T := by
    intro n
    induction n with
    | zero => rfl
    | succ n ih =>
      simp only [costAfter]
      generalize costAfter calcF (CostObj.init init tol I T) x n = o at *
      unfold getCost
      split
      · exact ih
      · split
        · exact ih
        · split
          · exact ih
          · split
            · exact ih
            · simp only [checkCost]; split <;> exact ih
  unfold costResult
  have h := hinv (n - 1)
  generalize costAfter calcF (CostObj.init init tol I T) x (n - 1) = o at *
  unfold getCost
  split
  · simp
  · split
    · simp
    · split
      · simp
      · split
        · simp
        · rename_i c _
          have : ¬ (((o.testList ++ [c]).length : ℤ) = o.testRange) := by
            rw [h]; simp; omega
          simp only [checkCost, this, if_false]
          intro h; cases h

/-! ## C19 -/

/-- C19: construction succeeds exactly when `operators` is `None` or a sequence whose elements all
have a callable `cost`. -/
theorem C19_construction (ops : OpsArg X K) :
    costObjInit ops = .ok () ↔
      ops = .none ∨ ∃ l, ops = .seq l ∧ ∀ o ∈ l, ∃ f, o = .callable f := by
  have hl : ∀ l : List (CostAttr X K), checkOps l = .ok () ↔ ∀ o ∈ l, ∃ f, o = .callable f := by
    intro l
    induction l with
    | nil => simp [checkOps]
    | cons o l ih => cases o <;> simp [checkOps, ih]
  cases ops with
  | none => simp [costObjInit]
  | notSequence => simp [costObjInit]
  | seq l => simp [costObjInit, hl]

/-- C19: the kind of failure: not a sequence raises `TypeError`; in a sequence the first operator
without a callable `cost` decides, `ValueError` when the attribute is missing and `TypeError` when it
is not callable. -/
theorem C19_construction_errors (pre post : List (CostAttr X K)) (hpre : ∀ o ∈ pre, ∃ f, o = .callable f) :
    costObjInit (.notSequence : OpsArg X K) = .error .typeError ∧
    costObjInit (.seq (pre ++ .missing :: post)) = .error .valueError ∧
    costObjInit (.seq (pre ++ .notCallable :: post)) = .error .typeError := by
  refine ⟨rfl, ?_, ?_⟩
  all_goals
    simp only [costObjInit]
    induction pre with
    | nil => rfl
    | cons o pre ih =>
      obtain ⟨f, rfl⟩ := hpre o (by simp)
      exact ih (fun o ho => hpre o (by simp [ho]))

/-- C19: the total cost is the sum of the operators' costs. -/
theorem C19_total_is_sum (fs : List (X → K)) (x : X) :
    calcCost (.seq (fs.map fun f => .callable fun x => .ok (f x))) x
      = .ok ((fs.map fun f => f x).sum) := by
  have : (fs.map fun f => (CostAttr.callable fun x => .ok (f x) : CostAttr X K)).mapM (callCost x)
      = .ok (fs.map fun f => f x) := by
    induction fs with
    | nil => rfl
    | cons f fs ih =>
      rw [List.map_cons, List.mapM_cons, ih]; rfl
  simp only [calcCost, this]
  rfl

/-- C19, crash points: if some operator's cost raises, the exception of the first such operator
propagates. -/
theorem C19_first_exception_propagates (pre : List (X → K)) (f : X → Py K) (post : List (CostAttr X K))
    (x : X) (e : PyErr) (he : f x = .error e) :
    calcCost (.seq (pre.map (fun f => .callable fun x => .ok (f x)) ++ .callable f :: post)) x
      = .error e := by
  have : (pre.map (fun f => (.callable fun x => .ok (f x) : CostAttr X K)) ++ .callable f :: post).mapM
      (callCost x) = .error e := by
    induction pre with
    | nil => simp only [List.map_nil, List.nil_append, List.mapM_cons, callCost, he]; rfl
    | cons g pre ih =>
      rw [List.map_cons, List.cons_append, List.mapM_cons, ih]; rfl
  simp only [calcCost, this]; rfl

/-- C19: with `operators=None` (which the constructor accepts) every evaluation that is due raises `TypeError`, and the
object stays as it was, so the cost is never recorded. -/
theorem C19_no_operators (ops : OpsArg X K) (hops : ∀ l, ops ≠ .seq l) (o : CostObj K) (I : ℤ) (hI : I ≠ 0)
    (ho : o.interval = some I) (hd : (o.iteration : ℤ) % I = 0) (x : X) :
    getCost (calcCost ops) o x = (o, .error .typeError) := by
  have : calcCost ops x = .error .typeError := by
    cases ops with
    | none => rfl
    | notSequence => rfl
    | seq l => exact absurd rfl (hops l)
  simp only [getCost, ho, if_neg hI, hd, ne_eq, not_true_eq_false, if_false, this]

example (x : ℚ) : getCost (calcCost (.none : OpsArg ℚ ℚ)) (CostObj.init 0 0 (some 1) 4) x
    = (CostObj.init 0 0 (some 1) 4, .error .typeError) :=
  C19_no_operators _ (by simp) _ 1 (by norm_num) rfl (by simp) x

section Examples
/-- Constant cost 8, as in the docstring: with the default `test_range = 4` the fourth call
converges. -/
example : costResult (fun x : ℚ => .ok (2 * x ^ 2)) (CostObj.init 1000000 (1 / 10000) (some 1) 4)
    (fun _ => 2) 4 = .ok true := by
  have := (C18_true_iff_full_window_passes (fun x : ℚ => 2 * x ^ 2) 1000000 (1 / 10000) 1 (by omega) 4
    (by omega) (fun _ => 2) 4 (by omega)).2 ⟨0, rfl, by
      right
      simp only [avg]
      norm_num [List.range, List.range.loop]⟩
  exact_mod_cast this
example : costResult (fun x : ℚ => .ok (2 * x ^ 2)) (CostObj.init 1000000 (1 / 10000) (some 1) 4)
    (fun _ => 2) 3 ≠ .ok true := by
  have := (C18_true_iff_full_window_passes (fun x : ℚ => 2 * x ^ 2) 1000000 (1 / 10000) 1 (by omega) 4
    (by omega) (fun _ => 2) 3 (by omega)).not.2 (by rintro ⟨j, hj, _⟩; omega)
  exact_mod_cast this
example : (costAfter (fun x : ℚ => .ok x) (CostObj.init 0 0 (some 2) 4) (fun n => n) 5).costList
    = [2, 4] := by
  have := C17_recorded_history (fun x : ℚ => x) 0 0 2 (by omega) 4 (by omega) (fun n => n) 5
  exact_mod_cast this
example : calcCost (.seq ([fun x : ℚ => x ^ 2, fun x => x].map fun f => .callable fun x => .ok (f x))) 3
    = .ok 12 := by
  rw [C19_total_is_sum]; norm_num
end Examples

end Verif
