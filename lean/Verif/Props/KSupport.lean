import Verif.Lemmas.KSupportCost
import Mathlib.Data.Fin.VecNotation
import Mathlib.Tactic.NormNum

/-!
# C33, C99, C100: the k-support norm operator
-/

set_option linter.unusedSectionVars false

namespace Verif
open Spec KSupport

variable {d : ℕ} {𝕜 : Type} [RCLike 𝕜]

theorem eps_pos : 0 < eps := by unfold eps; positivity

theorem eps_small : eps < 1 / 1000 := by unfold eps; norm_num

/-! ## C33: signs, shrinkage, configuration -/

/-- The constructor accepts exactly the integers from one on. -/
theorem C33_init_validates (beta : ℝ) (k : ℤ) :
    (1 ≤ k → KSupport.init beta k = .ok ⟨beta, k.toNat⟩) ∧ (k < 1 → KSupport.init beta k = .error .valueError) := by
  refine ⟨fun h => ?_, fun h => ?_⟩
  · unfold KSupport.init; rw [if_neg (by omega)]
  · unfold KSupport.init; rw [if_pos h]

/-- **The operator is total on non-empty data**: the search for `alpha` never fails. -/
theorem C33_op_never_raises_partial (o : Obj) (hβ : 0 ≤ o.beta) (hk : 1 ≤ o.k) (hd : 0 < d) (x : Fin d → 𝕜)
    (c : ℝ) (hc : 0 ≤ c) : ∃ p, (op o x c).1 = .ok p := by
  have hk' : 1 ≤ (if o.k > d then { o with k := d } else o : Obj).k := by
    split_ifs
    · exact hd
    · exact hk
  obtain ⟨a, ha⟩ := findAlpha_ok (e := eps) (b := o.beta * c) (x := x) hd eps_pos.le
    (fun i => by have := norm_nonneg (x i); have := eps_pos; linarith) (mul_nonneg hβ hc) hk'
  exact ⟨_, by unfold op opReg; simp only [ha]; rfl⟩

/-- **Signs are kept and magnitudes shrink**: every entry of the result is the entry of the input times a
factor between zero and one. -/
theorem C33_signs_and_shrinks_partial (o : Obj) (hβ : 0 ≤ o.beta) (x : Fin d → 𝕜) (c : ℝ) (hc : 0 ≤ c)
    (p : Fin d → 𝕜) (hp : (op o x c).1 = .ok p) (i : Fin d) :
    ∃ t : ℝ, 0 ≤ t ∧ t ≤ 1 ∧ p i = (t : 𝕜) * x i := by
  unfold op opReg at hp
  simp only [] at hp
  set o' : Obj := if o.k > d then { o with k := d } else o
  rcases ha : findAlpha eps (o.beta * c) o'.k x with err | a
  · rw [ha] at hp; cases hp
  · rw [ha] at hp
    have hp' : applyTheta (o.beta * c) x (fun i => theta (o.beta * 1) a ‖x i‖) = p := by
      injection hp
    have hm := theta_mem (o.beta * 1) a ‖x i‖
    set t := theta (o.beta * 1) a ‖x i‖ with ht
    have hb : 0 ≤ o.beta * c := mul_nonneg hβ hc
    refine ⟨t / (t + o.beta * c), div_nonneg hm.1 (by linarith [hm.1]), div_le_one_of_le₀ (by linarith)
      (by linarith [hm.1]), ?_⟩
    rw [← hp']
    unfold applyTheta
    rw [RCLike.ofReal_div]
    ring

example : ∃ (o : Obj) (x : Fin 2 → ℝ), 0 ≤ o.beta ∧ 1 ≤ o.k ∧ x 0 ≠ x 1 :=
  ⟨⟨1, 1⟩, ![1, 2], by norm_num, le_rfl, by simp⟩

/-- A history of calls of `op`, each with its own data. -/
noncomputable def runCalls (o : Obj) : List (Σ n : ℕ, (Fin n → 𝕜) × ℝ) → Obj
  | [] => o
  | c :: cs => runCalls (op o c.2.1 c.2.2).2 cs

theorem op_state (o : Obj) (x : Fin d → 𝕜) (c : ℝ) : (op o x c).2 = ⟨o.beta, min o.k d⟩ := by
  unfold op opReg
  simp only []
  split_ifs with h
  · rw [min_eq_right (by omega)]
  · rw [min_eq_left (by omega)]

/-- **What a history of calls does to the configuration**: the weight is untouched, and `k` becomes the minimum
of the configured `k` and of all data sizes seen. -/
theorem C33_k_after_history_partial (o : Obj) (h : List (Σ n : ℕ, (Fin n → 𝕜) × ℝ)) :
    (runCalls o h).beta = o.beta ∧ (runCalls o h).k = (h.map fun c => c.1).foldl min o.k := by
  induction h generalizing o with
  | nil => exact ⟨rfl, rfl⟩
  | cons c cs ih =>
    have h1 := ih (op o c.2.1 c.2.2).2
    rw [op_state] at h1
    simp only [runCalls, List.map_cons, List.foldl_cons]
    rw [op_state]
    exact h1

theorem foldl_min_eq_iff (l : List ℕ) (k : ℕ) : l.foldl min k = k ↔ ∀ n ∈ l, k ≤ n := by
  induction l generalizing k with
  | nil => simp
  | cons a l ih =>
    rw [List.foldl_cons]
    have hle : ∀ (l : List ℕ) (j : ℕ), l.foldl min j ≤ j := by
      intro l
      induction l with
      | nil => intro j; exact le_rfl
      | cons b l ih => intro j; exact (ih _).trans (min_le_left _ _)
    constructor
    · intro h n hn
      have h1 : min k a = k := le_antisymm (min_le_left _ _) (by have := hle l (min k a); omega)
      rw [h1] at h
      rcases List.mem_cons.1 hn with rfl | hn
      · exact min_eq_left_iff.1 h1
      · exact (ih k).1 h n hn
    · intro h
      rw [min_eq_left (h a (by simp))]
      exact (ih k).2 fun n hn => h n (by simp [hn])

/-- **The configuration survives exactly the histories without data smaller than `k`.** -/
theorem C33_configuration_kept_iff (o : Obj) (h : List (Σ n : ℕ, (Fin n → 𝕜) × ℝ)) :
    (runCalls o h).k = o.k ↔ ∀ c ∈ h, o.k ≤ c.1 := by
  rw [(C33_k_after_history_partial o h).2, foldl_min_eq_iff]
  exact List.forall_mem_map

/-- Both directions occur. -/
example : (runCalls ⟨1, 2⟩ [⟨3, (fun _ => 1, 1)⟩, ⟨2, (fun _ => (5 : ℝ), 1)⟩]).k = 2 ∧
    (runCalls ⟨1, 2⟩ [⟨1, (fun _ => (1 : ℝ), 1)⟩, ⟨2, (fun _ => (5 : ℝ), 1)⟩]).k = 1 := by
  constructor
  · rw [(C33_k_after_history_partial _ _).2]; rfl
  · rw [(C33_k_after_history_partial _ _).2]; rfl

/-- The result on `(1, 1)` with `beta = 1`: a common weight sum close to `min k 2`. -/
theorem op_ones (k : ℕ) (hk : 1 ≤ k) : ∃ θ : Fin 2 → ℝ, (∀ i, 0 ≤ θ i ∧ θ i ≤ 1) ∧
    (op ⟨1, k⟩ (fun _ : Fin 2 => (1 : ℝ)) 1).1 = .ok (applyTheta 1 (fun _ => 1) θ) ∧
    |∑ i, θ i - (min k 2 : ℕ)| ≤ 1 / 100 := by
  have hn : nnz (fun _ : Fin 2 => (1 : ℝ)) = 2 := by unfold nnz; simp
  obtain ⟨p, k', h1, -, -, -, θ, h2, h3, h4⟩ := opReg_prox (𝕜 := ℝ) eps_pos.le ⟨1, k⟩ one_pos hk (d := 2) (by norm_num)
    (fun _ => 1) (fun i => by have := eps_pos; simp; linarith) one_pos (fun i => Or.inr (by simp))
    (by have := eps_small; norm_num; linarith)
  refine ⟨θ, h2, by rw [← h3]; exact h1, ?_⟩
  rw [hn] at h4
  simp only [min_assoc, min_self] at h4
  refine h4.trans ?_
  have := eps_small
  norm_num
  linarith

/-- **A later call depends on an earlier one** (the property is false): with `k = 2`, a call on data with one
entry changes the result of a later call on `(1, 1)`. -/
theorem C33_earlier_call_changes_result (y : Fin 1 → ℝ) (c : ℝ) :
    (op (op ⟨1, 2⟩ y c).2 (fun _ : Fin 2 => (1 : ℝ)) 1).1 ≠ (op ⟨1, 2⟩ (fun _ : Fin 2 => (1 : ℝ)) 1).1 := by
  rw [op_state]
  obtain ⟨θ, h1, h2, h3⟩ := op_ones 2 (by norm_num)
  obtain ⟨η, g1, g2, g3⟩ := op_ones 1 le_rfl
  rw [show (⟨1, min 2 1⟩ : Obj) = ⟨1, 1⟩ from rfl, h2, g2]
  intro hcon
  have he : ∀ i, η i / (η i + 1) = θ i / (θ i + 1) := by
    intro i
    have := congrFun (Except.ok.inj hcon) i
    simpa [applyTheta] using this
  have heq : ∀ i, η i = θ i := by
    intro i
    have := he i
    have p1 := (g1 i).1; have p2 := (h1 i).1
    rw [div_eq_div_iff (by linarith) (by linarith)] at this
    linarith
  rw [Finset.sum_congr rfl fun i _ => heq i] at g3
  norm_num at h3 g3
  have := (abs_le.1 h3).1
  have := (abs_le.1 g3).2
  linarith

/-- **A call on empty data** raises `IndexError`, and leaves an object with `k = 0`, which the constructor
forbids. -/
theorem C33_empty_data_breaks_object (o : Obj) (y : Fin 0 → 𝕜) (c : ℝ) :
    (op o y c).1 = .error .indexError ∧ (op o y c).2.k = 0 := by
  refine ⟨?_, by rw [op_state]; simp⟩
  have he : alphas eps (o.beta * c) y = [] := by unfold alphas; simp
  unfold op opReg
  simp only []
  have : ∀ k, findAlpha eps (o.beta * c) k y = .error .indexError := by
    intro k
    unfold findAlpha
    rw [he]
    unfold binarySearch
    rw [if_pos rfl]
    rfl
  rw [this]
  rfl

/-- **After such a call every later result is zero.** -/
theorem C33_after_empty_call_results_vanish (o : Obj) (hβ : 0 < o.beta) (y : Fin 0 → 𝕜) (c : ℝ)
    (hd : 0 < d) (x : Fin d → 𝕜) : (op (op o y c).2 x 1).1 = .ok fun _ => 0 := by
  rw [op_state]
  have he : ∀ i, 0 < ‖x i‖ + eps := fun i => by have := norm_nonneg (x i); have := eps_pos; linarith
  have h0 := sumTheta_first (x := x) eps_pos.le he hβ.le
  have hlen := alphas_length (b := o.beta) (x := x) hd he
  have hfind : findAlpha eps o.beta 0 x = .ok (.fin ((alphas eps o.beta x).getD 0 0)) := by
    unfold findAlpha binarySearch
    have hne : alphas eps o.beta x ≠ [] := by intro h; rw [h] at hlen; simp at hlen
    rw [if_neg hne]
    simp only []
    rw [if_pos (by rw [h0]; simp), if_neg (by omega)]
    change Except.ok (interpolate _ _ _ _ _) = _
    unfold interpolate
    simp only [h0]
    rw [if_pos (by simp)]
  unfold op opReg
  simp only [mul_one]
  have hk : (if min o.k 0 > d then { beta := o.beta, k := d } else { beta := o.beta, k := min o.k 0 } : Obj).k = 0 := by
    rw [if_neg (by omega)]; simp
  rw [hk]
  have hb : (if min o.k 0 > d then { beta := o.beta, k := d } else { beta := o.beta, k := min o.k 0 } : Obj).beta
      = o.beta := by split_ifs <;> rfl
  rw [hfind]
  change Except.ok _ = _
  congr 1
  funext i
  unfold applyTheta
  have ht : theta o.beta (.fin ((alphas eps o.beta x).getD 0 0)) ‖x i‖ = 0 := by
    have := (Finset.sum_eq_zero_iff_of_nonneg fun i _ => (theta_mem o.beta
      (.fin ((alphas eps o.beta x).getD 0 0)) ‖x i‖).1).1 h0 i (Finset.mem_univ i)
    exact this
  simp only [ht]
  simp

example : ∃ o : Obj, 0 < o.beta ∧ 1 ≤ o.k := ⟨⟨3, 1⟩, by norm_num, le_rfl⟩

/-! ## C99: `op` is the proximity operator of the squared k-support norm -/

/-- The specification for `k = 1`: the square of the l1 norm. -/
theorem C99_norm_for_k_one (u : Fin d → 𝕜) : ksupSq 1 u = (∑ i, ‖u i‖) ^ 2 := by
  refine le_antisymm ?_ ?_
  · have h := ksupSq_flat u one_pos fun i => by
      rw [one_mul]; exact Finset.single_le_sum (fun j _ => norm_nonneg (u j)) (Finset.mem_univ i)
    simpa using h
  · have h := head_tail_le_ksupSq u (k := 1) (q := 0) (by norm_num) (by omega) (by intro j hj; omega)
    simpa [tail_zero] using h

/-- The specification for `k` at least the number of entries: the square of the l2 norm. -/
theorem C99_norm_for_large_k (u : Fin d → 𝕜) (k : ℝ) (hk : (d : ℝ) ≤ k) (hk0 : 0 < k) :
    ksupSq k u = ∑ i, ‖u i‖ ^ 2 := by
  refine le_antisymm ?_ ?_
  · have h := ksupSq_le (u := u) (k := k) (θ := fun _ => 1) ⟨fun _ => ⟨one_pos, le_rfl⟩, by simpa using hk⟩
    simpa using h
  · refine le_ksupSq hk0 fun θ hθ => Finset.sum_le_sum fun i _ => ?_
    rw [le_div_iff₀ (hθ.1 i).1]
    exact mul_le_of_le_one_right (sq_nonneg _) (hθ.1 i).2

/-- **`op` is the proximity operator of `beta / 2` times the squared k-support norm, up to rounding of `k`.**
For every non-empty data array whose non-zero entries have modulus at least `m`, the call `op(x)` returns the
unique minimiser of `½ |x - u|² + (beta / 2) |u|²` for the squared norm with a budget `k'` that differs from
`min k d` by at most `d (beta + 1) eps / m`, where `eps` is the machine epsilon the code adds to the moduli. -/
theorem C99_op_is_prox_partial (o : Obj) (hβ : 0 < o.beta) (hk : 1 ≤ o.k) (hd : 0 < d) (x : Fin d → 𝕜) (m : ℝ)
    (hm : 0 < m) (hx : ∀ i, x i = 0 ∨ m ≤ ‖x i‖) (hsmall : d * ((o.beta + 1) * eps) < m) :
    ∃ (p : Fin d → 𝕜) (k' : ℝ), (op o x 1).1 = .ok p ∧ 0 < k' ∧
      |k' - (min o.k d : ℕ)| ≤ d * ((o.beta + 1) * eps) / m ∧
      IsUniqueProx (fun u => o.beta / 2 * ksupSq k' u) x p := by
  obtain ⟨p, k', h1, h2, h3, h4, -⟩ := opReg_prox eps_pos.le o hβ hk hd x
    (fun i => by have := norm_nonneg (x i); have := eps_pos; linarith) hm hx hsmall
  exact ⟨p, k', h1, h2, h3, h4⟩

/-- The hypotheses are met by the documented example. -/
example : ∃ (p : Fin 5 → ℝ) (k' : ℝ), (op ⟨3, 1⟩ ![0, 5, 10, 15, 20] 1).1 = .ok p ∧ 0 < k' ∧
    |k' - 1| ≤ 1 / 200 ∧ IsUniqueProx (fun u => 3 / 2 * ksupSq k' u) ![0, 5, 10, 15, 20] p := by
  have he := eps_small
  have hx : ∀ i, (![0, 5, 10, 15, 20] : Fin 5 → ℝ) i = 0 ∨ 5 ≤ ‖(![0, 5, 10, 15, 20] : Fin 5 → ℝ) i‖ := by
    intro i
    fin_cases i
    · left; rfl
    · right; simp
    · right; simp; norm_num
    · right; simp; norm_num
    · right; simp; norm_num
  obtain ⟨p, k', h1, h2, h3, h4⟩ := C99_op_is_prox_partial (d := 5) ⟨3, 1⟩ (by norm_num) le_rfl (by norm_num)
    ![0, 5, 10, 15, 20] 5 (by norm_num) hx (by norm_num; linarith)
  refine ⟨p, k', h1, h2, ?_, h4⟩
  norm_num at h3
  refine h3.trans ?_
  linarith

/-- **Without the machine epsilon the result is exact**: the algorithm of `op` with the regularisation set to
zero returns, for every array without zero entries, the proximal point for `k` itself. -/
theorem C99_unregularised_op_is_prox_partial (o : Obj) (hβ : 0 < o.beta) (hk : 1 ≤ o.k) (hd : 0 < d)
    (x : Fin d → 𝕜) (hx : ∀ i, x i ≠ 0) :
    ∃ p : Fin d → 𝕜, (opReg 0 o x 1).1 = .ok p ∧
      IsUniqueProx (fun u => o.beta / 2 * ksupSq ((min o.k d : ℕ) : ℝ) u) x p := by
  have : Nonempty (Fin d) := ⟨⟨0, hd⟩⟩
  obtain ⟨j, -, hj⟩ := Finset.exists_min_image Finset.univ (fun i => ‖x i‖) Finset.univ_nonempty
  obtain ⟨p, k', h1, h2, h3, h4, -⟩ := opReg_prox le_rfl o hβ hk hd x
    (fun i => by simpa using hx i) (norm_pos_iff.2 (hx j))
    (fun i => Or.inr (hj i (Finset.mem_univ i))) (by simpa using hx j)
  refine ⟨p, h1, ?_⟩
  have h5 : k' = (min o.k d : ℕ) := by
    have : |k' - (min o.k d : ℕ)| ≤ 0 := by simpa using h3
    linarith [abs_nonpos_iff.1 this]
  rwa [h5] at h4

example : ∃ p : Fin 3 → ℝ, (opReg 0 ⟨3, 2⟩ ![3, -1, 7] 1).1 = .ok p ∧
    IsUniqueProx (fun u => 3 / 2 * ksupSq 2 u) ![3, -1, 7] p := by
  have h := C99_unregularised_op_is_prox_partial (d := 3) (𝕜 := ℝ) ⟨3, 2⟩ (by norm_num) (by norm_num) (by norm_num)
    ![3, -1, 7] (by intro i; fin_cases i <;> simp)
  simpa using h

/-- **`extra_factor` is not honoured** (the property is false for a factor other than one): with `beta = 1`,
`k = 1`, the datum `1` and the factor `1/2` the result is not the proximal point of half the factor times
`beta` times the squared norm. -/
theorem C99_extra_factor_not_honoured : ∃ p : Fin 1 → ℝ, (op ⟨1, 1⟩ (fun _ : Fin 1 => (1 : ℝ)) (1 / 2)).1 = .ok p ∧
    ¬ IsProx (fun u => (1 * (1 / 2)) / 2 * ksupSq 1 u) (fun _ => 1) p := by
  set x : Fin 1 → ℝ := fun _ => 1 with hx
  have he0 := eps_pos
  have he1 := eps_small
  have he : ∀ i, 0 < ‖x i‖ + eps := fun i => by simp [hx]; linarith
  have hnorm : ∀ i, ‖x i‖ = 1 := fun i => by simp [hx]
  -- the candidates
  have hlen := alphas_length (b := (1 / 2 : ℝ)) (x := x) (by norm_num) he
  have hmem : ∀ a ∈ alphas eps (1 / 2) x, a = (1 / 2) / (1 + eps) ∨ a = (3 / 2) / (1 + eps) := by
    intro a ha
    rcases mem_alphas.1 ha with ⟨i, rfl⟩ | ⟨i, rfl⟩
    · left; rw [hnorm i]
    · right; rw [hnorm i]; norm_num
  set al := alphas eps (1 / 2) x with hal
  have hlt : (1 / 2 : ℝ) / (1 + eps) < (3 / 2) / (1 + eps) :=
    div_lt_div_of_pos_right (by norm_num) (by linarith)
  have hlast : al.getD (al.length - 1) 0 = (3 / 2) / (1 + eps) := by
    rcases hmem _ (getD_mem_alphas (show al.length - 1 < _ by rw [← hal]; omega)) with h | h
    · exfalso
      have h2 : al.getD (al.length - 2) 0 < al.getD (al.length - 1) 0 := alphas_lt (by omega) (by rw [← hal]; omega)
      have hcon := hmem _ (getD_mem_alphas (show al.length - 2 < _ by rw [← hal]; omega))
      rw [← hal, h] at *
      rcases hcon with h3 | h3 <;> rw [h3] at h2 <;> linarith
    · exact h
  have hprev : al.getD (al.length - 2) 0 = (1 / 2) / (1 + eps) := by
    have h2 : al.getD (al.length - 2) 0 < al.getD (al.length - 1) 0 := alphas_lt (by omega) (by rw [← hal]; omega)
    rcases hmem _ (getD_mem_alphas (show al.length - 2 < _ by rw [← hal]; omega)) with h | h
    · exact h
    · rw [← hal] at h; rw [hlast, h] at h2; exact absurd h2 (lt_irrefl _)
  -- the sum at the largest candidate
  have hS : sumTheta (1 / 2) (al.getD (al.length - 1) 0) x = (1 - eps / 2) / (1 + eps) := by
    rw [hlast, sumTheta_eq]
    simp only [hnorm, mul_one, Finset.univ_unique, Finset.sum_const, Finset.card_singleton, one_smul]
    have e : (3 / 2 : ℝ) / (1 + eps) - 1 / 2 = (1 - eps / 2) / (1 + eps) := by
      have : (1 + eps) ≠ 0 := by linarith
      field_simp; ring
    rw [e]
    refine clip01_of_mem (div_nonneg (by linarith) (by linarith)) ?_
    rw [div_le_one (by linarith)]; linarith
  have hS1 : (1 - eps / 2) / (1 + eps) < 1 := by rw [div_lt_one (by linarith)]; linarith
  have hfind : findAlpha eps (1 / 2) 1 x = .ok (.fin ((1 / 2) / (1 + eps) + 1 / (1 - eps / 2))) := by
    have hfa : findAlpha eps (1 / 2) 1 x = (binarySearch al (fun a => sumTheta (1 / 2) a x) 1 >>= fun q =>
      .ok (interpolate 1 q.1 q.2.1 q.2.2.1 q.2.2.2)) := rfl
    rw [hfa]
    rcases search_cases (x := x) (b := 1 / 2) (k := 1) (by norm_num) he0.le he (by norm_num) le_rfl with
      ⟨-, h⟩ | ⟨h, -⟩
    · rw [h]
      change Except.ok (interpolate _ _ _ _ _) = _
      rw [← hal]
      simp only [hS]
      simp only [hprev, hlast]
      have hz : sumTheta (1 / 2) (al.getD 0 0) x = 0 := sumTheta_first he0.le he (by norm_num)
      rw [hz]
      unfold interpolate
      rw [if_neg (by norm_num), if_neg (by rw [Nat.cast_one]; exact hS1.ne)]
      simp only []
      have h1 : (1 + eps) ≠ 0 := by linarith
      have h2 : (1 - eps / 2) ≠ 0 := by linarith
      have hsl : ((1 - eps / 2) / (1 + eps) - 0) / (3 / 2 / (1 + eps) - 1 / 2 / (1 + eps)) = 1 - eps / 2 := by
        have : (3 / 2 / (1 + eps) - 1 / 2 / (1 + eps)) = 1 / (1 + eps) := by field_simp; ring
        rw [this, sub_zero]; field_simp
      rw [hsl, if_neg h2]
      congr 2
      push_cast
      rw [zero_sub, sub_neg_eq_add, add_div, mul_div_cancel_left₀ _ h2, add_comm]
    · exfalso
      rw [← hal] at h
      simp only [hS, Nat.cast_one] at h
      linarith
  refine ⟨applyTheta (1 / 2) x fun i => theta 1 (.fin ((1 / 2) / (1 + eps) + 1 / (1 - eps / 2))) ‖x i‖, ?_, ?_⟩
  · unfold op opReg
    simp only [one_mul, mul_one]
    rw [if_neg (by norm_num)]
    simp only [hfind]
    rfl
  · intro hcon
    have hu := full_prox (b := 1 / 2) (k := 1) (by norm_num) one_pos x (fun _ => 1) (fun _ _ => rfl)
      (fun i hi => by simp [hx] at hi) (by simp)
    rw [one_mul] at hcon
    have heq := congrFun (hu.2 _ hcon) 0
    simp only [applyTheta, hx] at heq
    have ht : theta 1 (.fin ((1 / 2) / (1 + eps) + 1 / (1 - eps / 2))) ‖(1 : ℝ)‖ ≤ 6 / 10 := by
      rw [theta_fin]
      have h1 : (1 / 2 : ℝ) / (1 + eps) ≤ 1 / 2 := div_le_self (by norm_num) (by linarith)
      have h2 : 1 / (1 - eps / 2) ≤ 11 / 10 := by
        rw [div_le_iff₀ (by linarith)]; linarith
      unfold clip01
      refine max_le (by norm_num) ((min_le_right _ _).trans ?_)
      rw [norm_one, mul_one]; linarith
    have ht0 := (theta_mem 1 (.fin ((1 / 2) / (1 + eps) + 1 / (1 - eps / 2))) ‖(1 : ℝ)‖).1
    set t := theta 1 (.fin ((1 / 2) / (1 + eps) + 1 / (1 - eps / 2))) ‖(1 : ℝ)‖
    simp only [RCLike.ofReal_real_eq_id, id, one_mul] at heq
    rw [div_eq_div_iff (by linarith) (by norm_num)] at heq
    linarith

/-! ## C100: the cost -/

/-- **The cost always exists for `1 ≤ k ≤ d` and lies between the scaled l1 norm and twice the documented
value**: `beta/2 · |x|₁² / k ≤ cost(x) ≤ beta · |x|²` (the documented value is `beta/2 · |x|²`). -/
theorem C100_cost_bounds_partial (o : Obj) (hβ : 0 ≤ o.beta) (hk : 1 ≤ o.k) (hkd : o.k ≤ d) (x : Fin d → 𝕜) :
    ∃ v, cost o x = .ok v ∧ o.beta / 2 * ((∑ i, ‖x i‖) ^ 2 / o.k) ≤ v ∧ v ≤ o.beta * ksupSq (o.k : ℝ) x := by
  obtain ⟨q, hq, hfind, hcond⟩ := findQ_ok (d := d) (sortedAbs_antitone x) hk hkd
  have hqd : q ≤ d := by omega
  have hkq : (0 : ℝ) < (o.k : ℝ) - q := by
    have : (q : ℝ) < o.k := by exact_mod_cast hq
    linarith
  have hup := head_tail_le_ksupSq x hq hqd (by
    intro j hj
    rcases hcond with h | h
    · omega
    · exact h.trans (sortedAbs_antitone x hj.le))
  have hlow := l1_le_head_tail x hq hqd
  have hA : 0 ≤ ∑ j ∈ Finset.range q, sortedAbs x j ^ 2 := Finset.sum_nonneg fun j _ => sq_nonneg _
  have hT : 0 ≤ tail d (sortedAbs x) q ^ 2 / ((o.k : ℝ) - q) := div_nonneg (sq_nonneg _) hkq.le
  refine ⟨_, by unfold cost; rw [hfind]; rfl, ?_, ?_⟩
  · rw [min_eq_left hqd]
    have := mul_le_mul_of_nonneg_left hlow (by linarith : 0 ≤ o.beta / 2)
    nlinarith
  · rw [min_eq_left hqd]
    have := mul_le_mul_of_nonneg_left hup hβ
    nlinarith

example : ∃ v, cost (d := 3) ⟨1, 2⟩ (![10, 1, 1] : Fin 3 → ℝ) = .ok v ∧ 36 ≤ v := by
  obtain ⟨v, h1, h2, -⟩ := C100_cost_bounds_partial (d := 3) (𝕜 := ℝ) ⟨1, 2⟩ (by norm_num) (by norm_num) (by norm_num)
    ![10, 1, 1]
  refine ⟨v, h1, ?_⟩
  simp [Fin.sum_univ_succ] at h2
  norm_num at h2
  linarith

/-- If no entry exceeds the mean over `k`, the cost is `beta` times the squared norm: twice the documented
value. -/
theorem C100_cost_on_flat_data (o : Obj) (hk : 1 ≤ o.k) (hd : 0 < d) (x : Fin d → 𝕜)
    (hflat : ∀ i, o.k * ‖x i‖ ≤ ∑ j, ‖x j‖) : cost o x = .ok (o.beta * ksupSq (o.k : ℝ) x) := by
  have hk0 : (0 : ℝ) < o.k := by exact_mod_cast hk
  have hq : findQ d (sortedAbs x) o.k = .ok 0 := by
    unfold findQ
    rw [if_neg (by omega), if_pos]
    rw [tail_zero, ge_iff_le, le_div_iff₀ hk0, mul_comm, sortedAbs_of_lt x hd]
    exact hflat _
  have hval : ksupSq (o.k : ℝ) x = (∑ i, ‖x i‖) ^ 2 / o.k := by
    refine le_antisymm (ksupSq_flat x hk0 hflat) ?_
    have h := head_tail_le_ksupSq x (k := o.k) (q := 0) hk (by omega) (by intro j hj; omega)
    simpa [tail_zero] using h
  unfold cost
  rw [hq, hval]
  change Except.ok _ = _
  congr 1
  simp [tail_zero]
  ring

example : ∀ i, (2 : ℕ) * ‖(fun _ : Fin 3 => (1 : ℝ)) i‖ ≤ ∑ j, ‖(fun _ : Fin 3 => (1 : ℝ)) j‖ := by
  intro i; simp; norm_num

/-- **For `k = 1` the cost is twice the documented value** `beta / 2 · |x|₁²`, for all data. -/
theorem C100_cost_for_k_one_is_doubled (beta : ℝ) (hd : 0 < d) (x : Fin d → 𝕜) :
    cost ⟨beta, 1⟩ x = .ok (2 * (beta / 2 * ksupSq 1 x)) := by
  have h := C100_cost_on_flat_data ⟨beta, 1⟩ le_rfl hd x fun i => by
    simp only [Nat.cast_one, one_mul]
    exact Finset.single_le_sum (fun j _ => norm_nonneg (x j)) (Finset.mem_univ i)
  rw [h]
  simp only [Nat.cast_one]
  congr 1; ring

/-- **For `k` equal to the number of entries** the squared norm is the squared l2 norm, but (unless all moduli are
equal) the cost is `beta / 2` times the sum of that and the smallest squared modulus: `beta / 2` applies to the
leading entries and `beta` to the rest. -/
theorem C100_cost_for_full_k (beta : ℝ) (x : Fin d → 𝕜) (hi : ∃ i, ∑ j, ‖x j‖ < d * ‖x i‖) (m : Fin d)
    (hm : ∀ j, ‖x m‖ ≤ ‖x j‖) :
    cost ⟨beta, d⟩ x = .ok (beta / 2 * (ksupSq (d : ℝ) x + ‖x m‖ ^ 2)) := by
  obtain ⟨i, hi⟩ := hi
  have hd : 0 < d := lt_of_le_of_lt (Nat.zero_le _) i.2
  have hd0 : (0 : ℝ) < d := by exact_mod_cast hd
  obtain ⟨σ, hσ⟩ := decreasing_perm fun j => ‖x j‖
  have hs : ∀ j : Fin d, sortedAbs x j = ‖x (σ j)‖ := fun j => by rw [sortedAbs_of_lt x j.2, hσ]
  have h0 : ‖x i‖ ≤ sortedAbs x 0 := by
    have h := hs (σ.symm i)
    rw [σ.apply_symm_apply] at h
    rw [← h]
    exact sortedAbs_antitone x (Nat.zero_le _)
  have hlast : sortedAbs x (d - 1) = ‖x m‖ := by
    refine le_antisymm ?_ ?_
    · have h := hs (σ.symm m)
      rw [σ.apply_symm_apply] at h
      rw [← h]
      exact sortedAbs_antitone x (by have := (σ.symm m).2; omega)
    · have h := hs ⟨d - 1, by omega⟩
      simp only at h
      rw [h]
      exact hm _
  have ht : tail d (sortedAbs x) (d - 1) = ‖x m‖ := by
    have e : Finset.Ico (d - 1) d = {d - 1} := by ext; simp; omega
    unfold tail
    rw [e, Finset.sum_singleton, hlast]
  have hq : findQ d (sortedAbs x) d = .ok (d - 1) := by
    unfold findQ
    rw [if_neg (by omega), if_neg, if_neg (by omega), if_pos (by rw [ht, hlast])]
    rw [tail_zero, not_le, div_lt_iff₀ hd0, mul_comm]
    exact hi.trans_le (mul_le_mul_of_nonneg_left h0 hd0.le)
  rw [C99_norm_for_large_k x d le_rfl hd0, ← sum_sortedAbs x fun t => t ^ 2]
  unfold cost
  simp only [hq]
  change Except.ok _ = _
  congr 1
  have hsum : ∑ j ∈ Finset.range d, sortedAbs x j ^ 2
      = ∑ j ∈ Finset.range (d - 1), sortedAbs x j ^ 2 + ‖x m‖ ^ 2 := by
    have h := Finset.sum_range_succ (fun j => sortedAbs x j ^ 2) (d - 1)
    rw [Nat.sub_add_cancel hd, hlast] at h
    exact h
  have hcast : ((d - 1 : ℕ) : ℝ) = (d : ℝ) - 1 := by rw [Nat.cast_sub hd]; simp
  rw [hsum, ht, min_eq_left (by omega), hcast]
  ring

example : cost ⟨1, 2⟩ (![3, 1] : Fin 2 → ℝ) = .ok (11 / 2) := by
  have h := C100_cost_for_full_k (d := 2) 1 (![3, 1] : Fin 2 → ℝ) ⟨0, by simp; norm_num⟩ 1
    (by intro j; fin_cases j <;> simp)
  rw [h, C99_norm_for_large_k _ _ le_rfl (by norm_num)]
  congr 1
  simp
  norm_num

/-- **The cost is not a multiple of the squared norm** (the property is false, whatever the scaling): for `k = 2`
and three entries no constant relates the two. -/
theorem C100_cost_is_no_multiple_of_the_norm (c : ℝ) :
    ¬ ∀ x : Fin 3 → ℝ, cost ⟨1, 2⟩ x = .ok (c * ksupSq 2 x) := by
  intro h
  -- flat data fix the constant
  have h1 := h fun _ => 1
  have hflat := C100_cost_on_flat_data (d := 3) (𝕜 := ℝ) ⟨1, 2⟩ (by norm_num) (by norm_num) (fun _ => 1)
    (by intro i; simp; norm_num)
  rw [hflat] at h1
  have hval : (0 : ℝ) < ksupSq 2 (fun _ : Fin 3 => (1 : ℝ)) := by
    have := head_tail_le_ksupSq (fun _ : Fin 3 => (1 : ℝ)) (k := 2) (q := 0) (by norm_num) (by omega)
      (by intro j hj; omega)
    rw [tail_zero] at this
    simp at this
    norm_num at this
    linarith
  have hc : c = 1 := by
    have h2 := Except.ok.inj h1
    simp only [Nat.cast_ofNat, one_mul] at h2
    have h3 : (c - 1) * ksupSq 2 (fun _ : Fin 3 => (1 : ℝ)) = 0 := by linarith
    rcases mul_eq_zero.1 h3 with h4 | h4
    · linarith
    · linarith
  -- peaked data
  set y : Fin 3 → ℝ := ![10, 1, 1] with hy
  have hs : ∀ i : Fin 3, sortedAbs y i = y i := by
    intro i
    rw [sortedAbs_of_lt y i.2]
    have hnn : (fun j => ‖y j‖) = y := by
      funext j; fin_cases j <;> simp [hy]
    rw [hnn]
    have ha : Antitone fun i => y ((1 : Equiv.Perm (Fin 3)) i) := by
      intro i j hij
      fin_cases i <;> fin_cases j <;> simp [hy] at hij ⊢
    exact congrFun (decreasing_eq y 1 ha) i
  have s0 : sortedAbs y 0 = 10 := by have := hs 0; simpa [hy] using this
  have s1 : sortedAbs y 1 = 1 := by have := hs 1; simpa [hy] using this
  have s2 : sortedAbs y 2 = 1 := by have := hs 2; simpa [hy] using this
  have t0 : tail 3 (sortedAbs y) 0 = 12 := by
    rw [tail_zero]; simp [hy, Fin.sum_univ_succ]; norm_num
  have t1 : tail 3 (sortedAbs y) 1 = 2 := by
    have := tail_succ (d := 3) (s := sortedAbs y) (q := 0) (by norm_num)
    rw [t0, s0] at this; norm_num at this; linarith
  have hq : findQ 3 (sortedAbs y) 2 = .ok 0 := by
    unfold findQ
    rw [if_neg (by norm_num), if_neg (by rw [t0, s0]; norm_num), if_neg (by norm_num),
      if_neg (by rw [show 2 - 1 = 1 from rfl, t1, s1]; norm_num)]
    rw [findQLoop]
    rw [if_neg (by norm_num)]
    simp only [show (0 + (2 - 1)) / 2 = 0 from rfl, zero_add, t0, s0, s1]
    rw [if_neg (by norm_num), if_pos (by norm_num)]
  have hcost : cost ⟨1, 2⟩ y = .ok 72 := by
    unfold cost
    rw [hq]
    change Except.ok _ = _
    congr 1
    simp [t0]
    norm_num
  have hlow := head_tail_le_ksupSq y (k := 2) (q := 1) (by norm_num) (by norm_num) (by
    intro j hj
    have : j = 0 := by omega
    rw [this, t1, s0]; norm_num)
  simp only [Finset.sum_range_one, s0, t1] at hlow
  norm_num at hlow
  have h2 := h y
  rw [hcost, hc, one_mul] at h2
  have h3 := Except.ok.inj h2
  linarith

/-- **For `k` larger than the data the outcome depends on the call order**: `cost` raises `IndexError` on every
non-zero array, but succeeds on the same array after a call of `op`. -/
theorem C100_cost_depends_on_call_order (o : Obj) (hβ : 0 ≤ o.beta) (hd : 0 < d) (hk : d < o.k) (x : Fin d → 𝕜)
    (hx : x ≠ 0) (c : ℝ) : cost o x = .error .indexError ∧ ∃ v, cost (op o x c).2 x = .ok v := by
  constructor
  · have hpos : 0 < ∑ i, ‖x i‖ := by
      obtain ⟨i, hi⟩ := Function.ne_iff.1 hx
      exact Finset.sum_pos' (fun j _ => norm_nonneg _) ⟨i, Finset.mem_univ i, norm_pos_iff.2 hi⟩
    have hle : ∑ i, ‖x i‖ ≤ d * sortedAbs x 0 := by
      rw [← sum_sortedAbs x fun t => t]
      refine (Finset.sum_le_sum fun j _ => sortedAbs_antitone x (Nat.zero_le j)).trans ?_
      simp
    have hs0 : 0 < sortedAbs x 0 := by
      by_contra hcon
      have := le_antisymm (not_lt.1 hcon) (sortedAbs_nonneg x 0)
      rw [this] at hle; linarith
    have hkd : (d : ℝ) < o.k := by exact_mod_cast hk
    have hq : findQ d (sortedAbs x) o.k = .error .indexError := by
      unfold findQ
      rw [if_neg (by omega), if_neg, if_pos (by omega)]
      rw [tail_zero, not_le, div_lt_iff₀ (by have : (0:ℝ) ≤ d := Nat.cast_nonneg d; linarith)]
      nlinarith
    unfold cost
    rw [hq]
    rfl
  · rw [op_state]
    obtain ⟨v, hv, -⟩ := C100_cost_bounds_partial (d := d) ⟨o.beta, min o.k d⟩ hβ (by simp; omega) (by simp) x
    exact ⟨v, hv⟩

example : ∃ (o : Obj) (x : Fin 2 → ℝ), 0 ≤ o.beta ∧ 2 < o.k ∧ x ≠ 0 :=
  ⟨⟨1, 3⟩, fun _ => 1, by norm_num, by norm_num, fun h => by simpa using congrFun h 0⟩

end Verif
