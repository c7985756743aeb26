import Verif.Props.FloatRun

/-!
# C132 with `MatrixOperator`: computed matrix products in any order of accumulation
-/

set_option linter.unusedSectionVars false

namespace Verif
open Spec Linear Prox FloatOps RealInnerProductSpace

section
variable (R : Rounding) {u η : ℝ}

theorem pow_one_add_mono {u : ℝ} (hu : 0 ≤ u) {a b : ℕ} (h : a ≤ b) : (1 + u) ^ a ≤ (1 + u) ^ b :=
  pow_le_pow_right₀ (by linarith) h

/-- C132: the computed scalar product, in every order of accumulation, with or without fused multiply-add. -/
theorem C132_dot_accuracy (hu : 0 ≤ u) (hη : 0 ≤ η) (hacc : ∀ x, |R.fl x - x| ≤ u * |x| + η) {α : Type} (f g : α → ℝ)
    (o : SumOrder α) :
    |dotF R f g o - (o.terms.map fun a => f a * g a).sum|
      ≤ ((1 + u) ^ o.depth - 1) * (o.terms.map fun a => |f a| * |g a|).sum + (1 + u) ^ o.depth * (o.size * η) := by
  have habs : ∀ l : List α, |(l.map fun a => f a * g a).sum| ≤ (l.map fun a => |f a| * |g a|).sum := by
    intro l
    induction l with
    | nil => simp
    | cons a l ih =>
      simp only [List.map_cons, List.sum_cons]
      refine (abs_add_le _ _).trans (add_le_add (abs_mul _ _).le ih)
  have hnn : ∀ l : List α, 0 ≤ (l.map fun a => |f a| * |g a|).sum := fun l => (abs_nonneg _).trans (habs l)
  have h1 : ∀ n : ℕ, 1 ≤ (1 + u) ^ n := fun n => one_le_pow₀ (by linarith)
  induction o with
  | zero => simp [dotF, SumOrder.terms, SumOrder.depth, SumOrder.size]
  | leaf a =>
    simp only [dotF, SumOrder.terms, SumOrder.depth, SumOrder.size, List.map_cons, List.map_nil, List.sum_cons,
      List.sum_nil, add_zero, pow_one, Nat.cast_one, one_mul]
    have h := hacc (f a * g a)
    rw [abs_mul (f a)] at h
    nlinarith [mul_nonneg hu hη]
  | add l r ihl ihr =>
    simp only [dotF, SumOrder.terms, SumOrder.depth, SumOrder.size, List.map_append, List.sum_append, Nat.cast_add,
      Nat.cast_one]
    have hl := habs l.terms
    have hr := habs r.terms
    have nl := hnn l.terms
    have nr := hnn r.terms
    set Sl := (l.terms.map fun a => f a * g a).sum
    set Sr := (r.terms.map fun a => f a * g a).sum
    set Tl := (l.terms.map fun a => |f a| * |g a|).sum
    set Tr := (r.terms.map fun a => |f a| * |g a|).sum
    set q := (1 + u) ^ max l.depth r.depth with hq
    have hq1 : 1 ≤ q := h1 _
    have e : (1 + u) ^ (max l.depth r.depth + 1) = (1 + u) * q := pow_succ' _ _
    rw [e]
    have hsl : (0 : ℝ) ≤ l.size * η := by positivity
    have hsr : (0 : ℝ) ≤ r.size * η := by positivity
    have kl : |dotF R f g l - Sl| ≤ (q - 1) * Tl + q * (l.size * η) := by
      have := pow_one_add_mono hu (le_max_left l.depth r.depth)
      exact ihl.trans (add_le_add (mul_le_mul_of_nonneg_right (by linarith) nl) (mul_le_mul_of_nonneg_right this hsl))
    have kr : |dotF R f g r - Sr| ≤ (q - 1) * Tr + q * (r.size * η) := by
      have := pow_one_add_mono hu (le_max_right l.depth r.depth)
      exact ihr.trans (add_le_add (mul_le_mul_of_nonneg_right (by linarith) nr) (mul_le_mul_of_nonneg_right this hsr))
    have h := hacc (dotF R f g l + dotF R f g r)
    have k1 : |dotF R f g l + dotF R f g r - (Sl + Sr)| ≤ (q - 1) * (Tl + Tr) + q * ((l.size + r.size) * η) := by
      have := abs_add_le (dotF R f g l - Sl) (dotF R f g r - Sr)
      rw [show dotF R f g l - Sl + (dotF R f g r - Sr) = dotF R f g l + dotF R f g r - (Sl + Sr) by ring] at this
      linarith
    have k2 : |dotF R f g l + dotF R f g r| ≤ |dotF R f g l + dotF R f g r - (Sl + Sr)| + (Tl + Tr) := by
      have := abs_add_le (dotF R f g l + dotF R f g r - (Sl + Sr)) (Sl + Sr)
      rw [sub_add_cancel] at this
      linarith [abs_add_le Sl Sr]
    have k3 : |R.fl (dotF R f g l + dotF R f g r) - (Sl + Sr)|
        ≤ |R.fl (dotF R f g l + dotF R f g r) - (dotF R f g l + dotF R f g r)|
          + |dotF R f g l + dotF R f g r - (Sl + Sr)| := abs_sub_le _ _ _
    generalize dotF R f g l + dotF R f g r = s at *
    generalize |s - (Sl + Sr)| = d at *
    have k4 := mul_le_mul_of_nonneg_left k2 hu
    have k5 := mul_le_mul_of_nonneg_left k1 (by linarith : 0 ≤ 1 + u)
    have k6 : η ≤ (1 + u) * q * η := by
      have : 1 ≤ (1 + u) * q := by nlinarith
      nlinarith
    have e2 : ((1 + u) * q - 1) * (Tl + Tr) + (1 + u) * q * ((l.size + r.size + 1) * η)
        = (1 + u) * ((q - 1) * (Tl + Tr) + q * ((l.size + r.size) * η)) + u * (Tl + Tr) + (1 + u) * q * η := by ring
    rw [e2]
    linarith
  | fma l a ih =>
    simp only [dotF, SumOrder.terms, SumOrder.depth, SumOrder.size, List.map_append, List.sum_append, Nat.cast_add,
      Nat.cast_one, List.map_cons, List.map_nil, List.sum_cons, List.sum_nil, add_zero]
    have hl := habs l.terms
    have nl := hnn l.terms
    set Sl := (l.terms.map fun a => f a * g a).sum
    set Tl := (l.terms.map fun a => |f a| * |g a|).sum
    set q := (1 + u) ^ l.depth with hq
    have hq1 : 1 ≤ q := h1 _
    have e : (1 + u) ^ (l.depth + 1) = (1 + u) * q := pow_succ' _ _
    rw [e]
    have hb : |f a * g a| = |f a| * |g a| := abs_mul _ _
    have hb0 : 0 ≤ |f a| * |g a| := by positivity
    generalize |f a| * |g a| = b at *
    generalize f a * g a = p at *
    have h := hacc (dotF R f g l + p)
    have k2 : |dotF R f g l + p| ≤ |dotF R f g l - Sl| + (Tl + b) := by
      have := abs_add_le (dotF R f g l - Sl) (Sl + p)
      rw [show dotF R f g l - Sl + (Sl + p) = dotF R f g l + p by ring] at this
      linarith [abs_add_le Sl p]
    have k3 : |R.fl (dotF R f g l + p) - (Sl + p)|
        ≤ |R.fl (dotF R f g l + p) - (dotF R f g l + p)| + |dotF R f g l - Sl| := by
      have := abs_sub_le (R.fl (dotF R f g l + p)) (dotF R f g l + p) (Sl + p)
      rwa [show dotF R f g l + p - (Sl + p) = dotF R f g l - Sl by ring] at this
    generalize dotF R f g l + p = s at *
    generalize |dotF R f g l - Sl| = d at *
    have k4 := mul_le_mul_of_nonneg_left k2 hu
    have k5 := mul_le_mul_of_nonneg_left ih (by linarith : 0 ≤ 1 + u)
    have k6 : η ≤ (1 + u) * q * η := by
      have : 1 ≤ (1 + u) * q := by nlinarith
      nlinarith
    have k7 : 0 ≤ (1 + u) * (q - 1) * b := mul_nonneg (mul_nonneg (by linarith) (by linarith)) hb0
    have e2 : ((1 + u) * q - 1) * (Tl + b) + (1 + u) * q * ((l.size + 1) * η)
        = (1 + u) * ((q - 1) * Tl + q * (l.size * η)) + u * (Tl + b) + (1 + u) * (q - 1) * b + (1 + u) * q * η := by ring
    rw [e2]
    linarith

/-- The order of accumulation contains every index exactly once. -/
def Complete {α : Type} [Fintype α] (o : SumOrder α) : Prop := (o.terms : Multiset α) = Finset.univ.val

theorem Complete.sum {α : Type} [Fintype α] {o : SumOrder α} (h : Complete o) (f : α → ℝ) :
    (o.terms.map f).sum = ∑ a, f a := by
  rw [Finset.sum, ← h, Multiset.map_coe, Multiset.sum_coe]

variable {ι κ : Type} [Fintype ι] [Fintype κ]

/-- The linear operator of a matrix and its adjoint, on Euclidean spaces. -/
noncomputable def matrixMap (A : κ → ι → ℝ) (x : EuclideanSpace ℝ ι) : EuclideanSpace ℝ κ :=
  WithLp.toLp 2 fun k => ∑ i, A k i * x i

theorem matrixMap_add (A : κ → ι → ℝ) (a b : EuclideanSpace ℝ ι) : matrixMap A (a + b) = matrixMap A a + matrixMap A b := by
  refine PiLp.ext fun k => ?_
  simp only [matrixMap, PiLp.add_apply, mul_add, Finset.sum_add_distrib]

theorem matrixMap_adj (A : κ → ι → ℝ) (a : EuclideanSpace ℝ ι) (b : EuclideanSpace ℝ κ) :
    ⟪matrixMap A a, b⟫ = ⟪a, matrixMap (fun i k => A k i) b⟫ := by
  rw [PiLp.inner_apply, PiLp.inner_apply]
  simp only [matrixMap, RCLike.inner_apply, conj_trivial, Finset.mul_sum, Finset.sum_mul]
  rw [Finset.sum_comm]
  exact Finset.sum_congr rfl fun i _ => Finset.sum_congr rfl fun k _ => by ring

theorem matrixMap_norm (A : κ → ι → ℝ) {N : ℝ}
    (hN : ∀ x, ‖matrixMap (fun k i => |A k i|) x‖ ≤ N * ‖x‖) (x : EuclideanSpace ℝ ι) : ‖matrixMap A x‖ ≤ N * ‖x‖ := by
  have h := hN (WithLp.toLp 2 fun i => |x i|)
  have e : ‖(WithLp.toLp 2 fun i => |x i| : EuclideanSpace ℝ ι)‖ = ‖x‖ := by
    rw [EuclideanSpace.norm_eq, EuclideanSpace.norm_eq]; simp
  rw [e] at h
  refine le_trans ?_ h
  refine symm_norm_mono (euclid κ ℝ) (fun k => ∑ i, A k i * x i) (fun k => ∑ i, |A k i| * |x i|) fun k => ?_
  refine le_trans (Finset.abs_sum_le_sum_abs _ _) (le_trans (le_of_eq ?_) (le_abs_self _))
  exact Finset.sum_congr rfl fun i _ => abs_mul _ _

theorem matrixMap_transpose_norm (A : κ → ι → ℝ) {N : ℝ} (hN0 : 0 ≤ N) (hN : ∀ x, ‖matrixMap A x‖ ≤ N * ‖x‖)
    (b : EuclideanSpace ℝ κ) : ‖matrixMap (fun i k => A k i) b‖ ≤ N * ‖b‖ := by
  set w := matrixMap (fun i k => A k i) b
  have h : ‖w‖ * ‖w‖ ≤ (N * ‖b‖) * ‖w‖ := by
    rw [← real_inner_self_eq_norm_mul_norm, ← matrixMap_adj]
    calc _ ≤ ‖matrixMap A w‖ * ‖b‖ := real_inner_le_norm _ _
      _ ≤ N * ‖w‖ * ‖b‖ := mul_le_mul_of_nonneg_right (hN _) (norm_nonneg _)
      _ = _ := by ring
  rcases (norm_nonneg w).eq_or_lt with h0 | h0
  · rw [← h0]; positivity
  · exact le_of_mul_le_mul_right h h0

/-- The computed matrix product. -/
theorem matvec_error (hu : 0 ≤ u) (hη : 0 ≤ η) (hacc : ∀ x, |R.fl x - x| ≤ u * |x| + η) (A : κ → ι → ℝ) {N : ℝ}
    (hN : ∀ x, ‖matrixMap (fun k i => |A k i|) x‖ ≤ N * ‖x‖) (o : κ → SumOrder ι) (ho : ∀ k, Complete (o k))
    (H S : ℕ) (hH : ∀ k, (o k).depth ≤ H) (hS : ∀ k, (o k).size ≤ S) (x : ι → ℝ) :
    ‖(WithLp.toLp 2 (matvecF R A o x) : EuclideanSpace ℝ κ) - matrixMap A (WithLp.toLp 2 x)‖
      ≤ ((1 + u) ^ H - 1) * (N * ‖(WithLp.toLp 2 x : EuclideanSpace ℝ ι)‖)
        + Real.sqrt (Fintype.card κ) * ((1 + u) ^ H * (S * η)) := by
  have h1 : 1 ≤ (1 + u) ^ H := one_le_pow₀ (by linarith)
  have hent : ∀ k, |matvecF R A o x k - ∑ i, A k i * x i|
      ≤ ((1 + u) ^ H - 1) * abs (∑ i, |A k i| * |x i|) + 0 * |(0 : κ → ℝ) k| + (1 + u) ^ H * (S * η) := by
    intro k
    have h := C132_dot_accuracy R hu hη hacc (A k) x (o k)
    rw [(ho k).sum, (ho k).sum] at h
    have hT : 0 ≤ ∑ i, |A k i| * |x i| := Finset.sum_nonneg fun i _ => by positivity
    rw [abs_of_nonneg hT, zero_mul, add_zero]
    refine h.trans (add_le_add ?_ ?_)
    · refine mul_le_mul_of_nonneg_right ?_ hT
      linarith [pow_one_add_mono hu (hH k)]
    · refine mul_le_mul (pow_one_add_mono hu (hH k)) ?_ (by positivity) (by positivity)
      exact mul_le_mul_of_nonneg_right (by exact_mod_cast hS k) hη
  have h2 := symm_norm_le (euclid κ ℝ) (fun k => matvecF R A o x k - ∑ i, A k i * x i)
    (fun k => ∑ i, |A k i| * |x i|) 0 _ 0 _ (by linarith) le_rfl (by positivity) hent
  rw [zero_mul, add_zero] at h2
  have h3 := hN (WithLp.toLp 2 fun i => |x i|)
  have e : ‖(WithLp.toLp 2 fun i => |x i| : EuclideanSpace ℝ ι)‖ = ‖(WithLp.toLp 2 x : EuclideanSpace ℝ ι)‖ := by
    rw [EuclideanSpace.norm_eq, EuclideanSpace.norm_eq]; simp
  rw [e] at h3
  exact h2.trans (add_le_add (mul_le_mul_of_nonneg_left h3 (by linarith)) le_rfl)

/-- C132: the gradient of `GradBasic` with a `MatrixOperator`, computed in floating-point arithmetic in any order of
accumulation, is accurate: `N` bounds the matrix of moduli, no entry goes through more than `H` roundings in one product,
and no product takes more than `S` roundings. -/
theorem C132_matrix_gradient (hu : 0 ≤ u) (hη : 0 ≤ η) (hacc : ∀ x, |R.fl x - x| ≤ u * |x| + η) (A : κ → ι → ℝ) {N : ℝ}
    (hN0 : 0 ≤ N) (hN : ∀ x, ‖matrixMap (fun k i => |A k i|) x‖ ≤ N * ‖x‖) (o : κ → SumOrder ι) (o' : ι → SumOrder κ)
    (ho : ∀ k, Complete (o k)) (ho' : ∀ i, Complete (o' i)) (H S : ℕ) (hH : ∀ k, (o k).depth ≤ H)
    (hH' : ∀ i, (o' i).depth ≤ H) (hS : ∀ k, (o k).size ≤ S) (hS' : ∀ i, (o' i).size ≤ S) (y : κ → ℝ) (z : ι → ℝ) :
    ‖(WithLp.toLp 2 (gradMatrixF R A o o' y z) : EuclideanSpace ℝ ι)
        - gradBasic (matrixMap A) (matrixMap fun i k => A k i) (WithLp.toLp 2 y) (WithLp.toLp 2 z)‖
      ≤ ((1 + u) ^ (2 * H + 1) - 1) * (N * (N * ‖(WithLp.toLp 2 z : EuclideanSpace ℝ ι)‖
          + ‖(WithLp.toLp 2 y : EuclideanSpace ℝ κ)‖))
        + (N * (1 + u) ^ H * (Real.sqrt (Fintype.card κ) * ((1 + u) * ((1 + u) ^ H * (S * η)) + η))
          + Real.sqrt (Fintype.card ι) * ((1 + u) ^ H * (S * η))) := by
  set q := (1 + u) ^ H with hq
  have hq1 : 1 ≤ q := one_le_pow₀ (by linarith)
  set ω := q * (S * η) with hω
  have hω0 : 0 ≤ ω := by positivity
  set zE : EuclideanSpace ℝ ι := WithLp.toLp 2 z with hz
  set yE : EuclideanSpace ℝ κ := WithLp.toLp 2 y with hy
  have e1 := matvec_error R hu hη hacc A hN o ho H S hH hS z
  rw [← hq, ← hω, ← hz] at e1
  -- the residual
  set p : κ → ℝ := matvecF R A o z with hp
  set r' : κ → ℝ := fun k => R.fl (p k - y k) with hr'
  have e2 : ‖(WithLp.toLp 2 r' : EuclideanSpace ℝ κ) - (WithLp.toLp 2 p - yE)‖
      ≤ u * ‖(WithLp.toLp 2 p : EuclideanSpace ℝ κ) - yE‖ + Real.sqrt (Fintype.card κ) * η := by
    have h := symm_norm_le (euclid κ ℝ) (fun k => R.fl (p k - y k) - (p k - y k)) (fun k => p k - y k) 0 u 0 η hu le_rfl hη
      (fun k => by
        have := hacc (p k - y k)
        rw [zero_mul, add_zero]; exact this)
    rw [zero_mul, add_zero] at h
    exact h
  set r : EuclideanSpace ℝ κ := matrixMap A zE - yE with hr
  have hopz := matrixMap_norm A hN zE
  have hrn : ‖r‖ ≤ N * ‖zE‖ + ‖yE‖ := (norm_sub_le _ _).trans (add_le_add hopz le_rfl)
  set sm := Real.sqrt (Fintype.card κ) with hsm
  set sn := Real.sqrt (Fintype.card ι) with hsn
  have hsm0 : 0 ≤ sm := Real.sqrt_nonneg _
  have hsn0 : 0 ≤ sn := Real.sqrt_nonneg _
  set B := N * ‖zE‖ + ‖yE‖ with hB
  have hB0 : 0 ≤ B := by positivity
  have e3 : ‖(WithLp.toLp 2 p : EuclideanSpace ℝ κ) - yE - r‖ ≤ (q - 1) * B + sm * ω := by
    have : (WithLp.toLp 2 p : EuclideanSpace ℝ κ) - yE - r = WithLp.toLp 2 p - matrixMap A zE := by rw [hr]; abel
    rw [this]
    refine e1.trans (add_le_add (mul_le_mul_of_nonneg_left ?_ (by linarith)) le_rfl)
    rw [hB]; linarith [norm_nonneg yE]
  have e4 : ‖(WithLp.toLp 2 r' : EuclideanSpace ℝ κ) - r‖ ≤ ((1 + u) * q - 1) * B + sm * ((1 + u) * ω + η) := by
    have h1 : ‖(WithLp.toLp 2 p : EuclideanSpace ℝ κ) - yE‖ ≤ ‖(WithLp.toLp 2 p : EuclideanSpace ℝ κ) - yE - r‖ + ‖r‖ := by
      have := norm_add_le ((WithLp.toLp 2 p : EuclideanSpace ℝ κ) - yE - r) r
      rwa [sub_add_cancel] at this
    have h2 : ‖(WithLp.toLp 2 r' : EuclideanSpace ℝ κ) - r‖
        ≤ ‖(WithLp.toLp 2 r' : EuclideanSpace ℝ κ) - (WithLp.toLp 2 p - yE)‖
          + ‖(WithLp.toLp 2 p : EuclideanSpace ℝ κ) - yE - r‖ := norm_sub_le_norm_sub_add_norm_sub _ _ _
    have h3 := mul_le_mul_of_nonneg_left h1 hu
    have h4 := mul_le_mul_of_nonneg_left e3 (by linarith : 0 ≤ 1 + u)
    have h5 := mul_le_mul_of_nonneg_left hrn hu
    have e : ((1 + u) * q - 1) * B + sm * ((1 + u) * ω + η) = (1 + u) * ((q - 1) * B + sm * ω) + u * B + sm * η := by ring
    rw [e]
    linarith
  -- the second product
  have hNt : ∀ x, ‖matrixMap (fun i k => |A k i|) x‖ ≤ N * ‖x‖ :=
    matrixMap_transpose_norm (fun k i => |A k i|) hN0 hN
  have e5 := matvec_error R hu hη hacc (fun i k => A k i) hNt o' ho' H S hH' hS' r'
  rw [← hq, ← hω, ← hsn] at e5
  have e6 : ‖matrixMap (fun i k => A k i) (WithLp.toLp 2 r') - matrixMap (fun i k => A k i) r‖
      ≤ N * ‖(WithLp.toLp 2 r' : EuclideanSpace ℝ κ) - r‖ := by
    have h := matrixMap_norm (fun i k => A k i) hNt ((WithLp.toLp 2 r' : EuclideanSpace ℝ κ) - r)
    have hs : matrixMap (fun i k => A k i) ((WithLp.toLp 2 r' : EuclideanSpace ℝ κ) - r)
        = matrixMap (fun i k => A k i) (WithLp.toLp 2 r') - matrixMap (fun i k => A k i) r := by
      rw [eq_sub_iff_add_eq, ← matrixMap_add, sub_add_cancel]
    rwa [hs] at h
  have h7 : ‖(WithLp.toLp 2 r' : EuclideanSpace ℝ κ)‖ ≤ ‖(WithLp.toLp 2 r' : EuclideanSpace ℝ κ) - r‖ + B := by
    have := norm_add_le ((WithLp.toLp 2 r' : EuclideanSpace ℝ κ) - r) r
    rw [sub_add_cancel] at this
    linarith
  have h8 : ‖(WithLp.toLp 2 (gradMatrixF R A o o' y z) : EuclideanSpace ℝ ι)
        - gradBasic (matrixMap A) (matrixMap fun i k => A k i) yE zE‖
      ≤ ‖(WithLp.toLp 2 (matvecF R (fun i k => A k i) o' r') : EuclideanSpace ℝ ι)
          - matrixMap (fun i k => A k i) (WithLp.toLp 2 r')‖
        + ‖matrixMap (fun i k => A k i) (WithLp.toLp 2 r') - matrixMap (fun i k => A k i) r‖ :=
    norm_sub_le_norm_sub_add_norm_sub _ _ _
  have e9 : (1 + u) ^ (2 * H + 1) = q * ((1 + u) * q) := by rw [hq]; ring
  rw [e9]
  set d := ‖(WithLp.toLp 2 r' : EuclideanSpace ℝ κ) - r‖ with hd
  have h9 := mul_le_mul_of_nonneg_left (mul_le_mul_of_nonneg_left h7 hN0) (by linarith : 0 ≤ q - 1)
  have h10 := mul_le_mul_of_nonneg_left e4 (by positivity : 0 ≤ q * N)
  have e10 : (q * ((1 + u) * q) - 1) * (N * B) + (N * q * (sm * ((1 + u) * ω + η)) + sn * ω)
      = q * N * (((1 + u) * q - 1) * B + sm * ((1 + u) * ω + η)) + (q - 1) * (N * B) + sn * ω := by ring
  rw [e10]
  have e11 : (q - 1) * (N * (d + B)) + N * d = q * N * d + (q - 1) * (N * B) := by ring
  linarith

/-- The Frobenius norm bounds the matrix of moduli. -/
theorem frobenius_bound (A : κ → ι → ℝ) (x : EuclideanSpace ℝ ι) :
    ‖matrixMap (fun k i => |A k i|) x‖ ≤ Real.sqrt (∑ k, ∑ i, A k i ^ 2) * ‖x‖ := by
  rw [EuclideanSpace.norm_eq, EuclideanSpace.norm_eq, ← Real.sqrt_mul (Finset.sum_nonneg fun k _ =>
    Finset.sum_nonneg fun i _ => sq_nonneg _)]
  refine Real.sqrt_le_sqrt ?_
  rw [Finset.sum_mul]
  refine Finset.sum_le_sum fun k _ => ?_
  simp only [matrixMap, Real.norm_eq_abs, sq_abs]
  have := Finset.sum_mul_sq_le_sq_mul_sq Finset.univ (fun i => |A k i|) fun i => x i
  simpa only [sq_abs] using this

/-- The computed gradient meets the accuracy hypothesis of the run theorems. -/
theorem matrix_gradient_step (hu : 0 ≤ u) (hη : 0 ≤ η) (hacc : ∀ x, |R.fl x - x| ≤ u * |x| + η) (A : κ → ι → ℝ) {N : ℝ}
    (hN0 : 0 ≤ N) (hN : ∀ x, ‖matrixMap (fun k i => |A k i|) x‖ ≤ N * ‖x‖) (o : κ → SumOrder ι) (o' : ι → SumOrder κ)
    (ho : ∀ k, Complete (o k)) (ho' : ∀ i, Complete (o' i)) (H S : ℕ) (hH : ∀ k, (o k).depth ≤ H)
    (hH' : ∀ i, (o' i).depth ≤ H) (hS : ∀ k, (o k).size ≤ S) (hS' : ∀ i, (o' i).size ≤ S) (y : κ → ℝ) (ε β c : ℝ)
    (hb : 0 < β) (hbN : β * N ^ 2 ≤ 1) (hε0 : 0 < ε) (hε : (1 + u) ^ (2 * H + 1) - 1 ≤ ε)
    (hc : β * (N * ‖(WithLp.toLp 2 y : EuclideanSpace ℝ κ)‖)
      + β * (N * (1 + u) ^ H * (Real.sqrt (Fintype.card κ) * ((1 + u) * ((1 + u) ^ H * (S * η)) + η))
          + Real.sqrt (Fintype.card ι) * ((1 + u) ^ H * (S * η))) / ε ≤ c) (z : ι → ℝ) :
    β * ‖(WithLp.toLp 2 (gradMatrixF R A o o' y z) : EuclideanSpace ℝ ι)
        - gradBasic (matrixMap A) (matrixMap fun i k => A k i) (WithLp.toLp 2 y) (WithLp.toLp 2 z)‖
      ≤ ε * (‖(WithLp.toLp 2 z : EuclideanSpace ℝ ι)‖ + c) := by
  have h := C132_matrix_gradient R hu hη hacc A hN0 hN o o' ho ho' H S hH hH' hS hS' y z
  set Ω := N * (1 + u) ^ H * (Real.sqrt (Fintype.card κ) * ((1 + u) * ((1 + u) ^ H * (S * η)) + η))
          + Real.sqrt (Fintype.card ι) * ((1 + u) ^ H * (S * η))
  set a := ‖(WithLp.toLp 2 z : EuclideanSpace ℝ ι)‖
  set b := ‖(WithLp.toLp 2 y : EuclideanSpace ℝ κ)‖
  have ha : 0 ≤ a := norm_nonneg _
  have hb' : 0 ≤ b := norm_nonneg _
  refine (mul_le_mul_of_nonneg_left h hb.le).trans ?_
  have h1 : ((1 + u) ^ (2 * H + 1) - 1) * (N * (N * a + b)) ≤ ε * (N * (N * a + b)) :=
    mul_le_mul_of_nonneg_right hε (by positivity)
  have h2 : ε * (β * Ω / ε) = β * Ω := by field_simp
  have h3 := mul_le_mul_of_nonneg_left hc hε0.le
  have h4 := mul_le_mul_of_nonneg_left h1 hb.le
  have h5 : ε * (β * N ^ 2 * a) ≤ ε * (1 * a) := by gcongr
  rw [mul_add] at h3
  linarith

theorem gradCost_half {E Y : Type} [NormedAddCommGroup Y] (op : E → Y) (y : Y) (v : E) :
    gradCost op y v = 1 / 2 * ‖y - op v‖ ^ 2 := by rw [gradCost]; norm_num

/-- C132: nonnegative least squares with a matrix, the whole run in floating-point arithmetic.  `n` iterations of
`ForwardBackward` with `Positivity` and the gradient of `GradBasic` with a `MatrixOperator`, every operation rounded and
every product accumulated in any order, return nonnegative entries near a nonnegative point whose cost is that of the
exact method. -/
theorem C132_matrix_positivity (hu : 0 ≤ u) (hη : 0 ≤ η) (hacc : ∀ x, |R.fl x - x| ≤ u * |x| + η) (A : κ → ι → ℝ) {N : ℝ}
    (hN0 : 0 ≤ N) (hN : ∀ x, ‖matrixMap (fun k i => |A k i|) x‖ ≤ N * ‖x‖) (o : κ → SumOrder ι) (o' : ι → SumOrder κ)
    (ho : ∀ k, Complete (o k)) (ho' : ∀ i, Complete (o' i)) (H S : ℕ) (hH : ∀ k, (o k).depth ≤ H)
    (hH' : ∀ i, (o' i).depth ≤ H) (hS : ∀ k, (o k).size ≤ S) (hS' : ∀ i, (o' i).size ≤ S) (y : κ → ℝ) (ε β c : ℝ)
    (hb : 0 < β) (hbN : β * N ^ 2 ≤ 1) (hε0 : 0 < ε) (hε : (1 + u) ^ (2 * H + 1) - 1 ≤ ε) (hε8 : ε ≤ 1 / 8)
    (hc : β * (N * ‖(WithLp.toLp 2 y : EuclideanSpace ℝ κ)‖)
      + β * (N * (1 + u) ^ H * (Real.sqrt (Fintype.card κ) * ((1 + u) * ((1 + u) ^ H * (S * η)) + η))
          + Real.sqrt (Fintype.card ι) * ((1 + u) ^ H * (S * η))) / ε ≤ c) (x0 : ι → ℝ)
    (best : EuclideanSpace ℝ ι) (hbest : ∀ i, 0 ≤ best i)
    (hmin : ∀ v : EuclideanSpace ℝ ι, (∀ i, 0 ≤ v i) → ‖WithLp.toLp 2 y - matrixMap A best‖ ≤ ‖WithLp.toLp 2 y - matrixMap A v‖)
    (n : ℕ) (hn : 1 ≤ n) (xn : ι → ℝ)
    (hxn : xn = (FloatOps.fbRun R (gradMatrixF R A o o' y) (fun v _ i => FloatOps.pos R (v i)) (fun _ => β) (fun _ => 1)
      (x0, x0) n).1) :
    (∀ i, 0 ≤ xn i) ∧ ∃ x : EuclideanSpace ℝ ι, (∀ i, 0 ≤ x i) ∧
      1 / 2 * ‖WithLp.toLp 2 y - matrixMap A x‖ ^ 2 - 1 / 2 * ‖WithLp.toLp 2 y - matrixMap A best‖ ^ 2
        ≤ ‖WithLp.toLp 2 x0 - best‖ ^ 2 / (2 * β * n) ∧
      ‖WithLp.toLp 2 xn - x‖ ≤ n * (1 + 25 * ε) ^ n *
        (25 * ε * (‖best‖ + ‖WithLp.toLp 2 x0 - best‖ + c) + 11 * (Real.sqrt (Fintype.card ι) * η)) := by
  have hu1 : 0 ≤ 1 + u := by linarith
  have huε : u ≤ ε := by
    have h1 : (1 + u) ^ 1 ≤ (1 + u) ^ (2 * H + 1) := pow_one_add_mono hu (by omega)
    rw [pow_one] at h1
    linarith
  have hc' : β * (N * ‖(WithLp.toLp 2 y : EuclideanSpace ℝ κ)‖) ≤ c := by
    refine le_trans (le_add_of_nonneg_right ?_) hc
    positivity
  have hcost : ∀ v : EuclideanSpace ℝ ι, gradCost (matrixMap A) (WithLp.toLp 2 y) v
      = 1 / 2 * ‖WithLp.toLp 2 y - matrixMap A v‖ ^ 2 := fun v => gradCost_half _ _ v
  have h := C132_positivity (euclid ι ℝ) (matrixMap A) (matrixMap fun i k => A k i) (WithLp.toLp 2 y) (matrixMap_add A) (matrixMap_adj A) N
    hN0 (matrixMap_norm A hN) R ε η c β hε0.le hε8 hη hb hbN hc'
    (fun x => (hacc x).trans (add_le_add (mul_le_mul_of_nonneg_right huε (abs_nonneg _)) le_rfl)) (gradMatrixF R A o o' y)
    (matrix_gradient_step R hu hη hacc A hN0 hN o o' ho ho' H S hH hH' hS hS' y ε β c hb hbN hε0 hε hc) x0 best hbest
    (fun v hv => by
      rw [hcost, hcost]
      exact mul_le_mul_of_nonneg_left (pow_le_pow_left₀ (norm_nonneg _) (hmin v hv) 2) (by norm_num)) n hn xn hxn
  simp only [hcost] at h
  exact h

/-- C132: the same for the lasso, `SparseThreshold` with weights `w`. -/
theorem C132_matrix_lasso (hu : 0 ≤ u) (hu80 : u ≤ 1 / 80) (hη : 0 ≤ η) (hηu : η ≤ u)
    (hacc : ∀ x, |R.fl x - x| ≤ u * |x| + η) (A : κ → ι → ℝ) {N : ℝ}
    (hN0 : 0 ≤ N) (hN : ∀ x, ‖matrixMap (fun k i => |A k i|) x‖ ≤ N * ‖x‖) (o : κ → SumOrder ι) (o' : ι → SumOrder κ)
    (ho : ∀ k, Complete (o k)) (ho' : ∀ i, Complete (o' i)) (H S : ℕ) (hH : ∀ k, (o k).depth ≤ H)
    (hH' : ∀ i, (o' i).depth ≤ H) (hS : ∀ k, (o k).size ≤ S) (hS' : ∀ i, (o' i).size ≤ S) (y : κ → ℝ) (ε β c : ℝ)
    (hb : 0 < β) (hbN : β * N ^ 2 ≤ 1) (hε0 : 0 < ε) (hε : (1 + u) ^ (2 * H + 1) - 1 ≤ ε) (hεu : 10 * u ≤ ε)
    (hε8 : ε ≤ 1 / 8)
    (hc : β * (N * ‖(WithLp.toLp 2 y : EuclideanSpace ℝ κ)‖)
      + β * (N * (1 + u) ^ H * (Real.sqrt (Fintype.card κ) * ((1 + u) * ((1 + u) ^ H * (S * η)) + η))
          + Real.sqrt (Fintype.card ι) * ((1 + u) ^ H * (S * η))) / ε ≤ c) (w : ι → ℝ) (hw : ∀ i, 0 ≤ w i) (x0 : ι → ℝ)
    (cost : EuclideanSpace ℝ ι → ℝ)
    (hcost : ∀ v, cost v = 1 / 2 * ‖WithLp.toLp 2 y - matrixMap A v‖ ^ 2 + ∑ i, w i * |v i|)
    (best : EuclideanSpace ℝ ι) (hmin : ∀ v, cost best ≤ cost v)
    (n : ℕ) (hn : 1 ≤ n) (xn : ι → ℝ)
    (hxn : xn = (FloatOps.fbRun R (gradMatrixF R A o o' y) (fun a c i => FloatOps.soft R (R.fl (w i * c)) (a i))
      (fun _ => β) (fun _ => 1) (x0, x0) n).1) :
    ∃ x : EuclideanSpace ℝ ι, cost x - cost best ≤ ‖WithLp.toLp 2 x0 - best‖ ^ 2 / (2 * β * n) ∧
      ‖WithLp.toLp 2 xn - x‖ ≤ n * (1 + 25 * ε) ^ n *
        (25 * ε * (‖best‖ + ‖WithLp.toLp 2 x0 - best‖ + c) + 11 * (Real.sqrt (Fintype.card ι) * η) +
          2 * (u * β * ‖(WithLp.toLp 2 w : EuclideanSpace ℝ ι)‖
            + Real.sqrt (Fintype.card ι) * (1 / 10 ^ 15 + 5 * η))) := by
  have hu1 : 0 ≤ 1 + u := by linarith
  have hc' : β * (N * ‖(WithLp.toLp 2 y : EuclideanSpace ℝ κ)‖) ≤ c := by
    refine le_trans (le_add_of_nonneg_right ?_) hc
    positivity
  have hcost' : ∀ v : EuclideanSpace ℝ ι, gradCost (matrixMap A) (WithLp.toLp 2 y) v
      + sparseCost (fun a => a) w ((euclid ι ℝ).arr v) = cost v := by
    intro v
    rw [hcost]
    refine congrArg₂ (· + ·) (gradCost_half _ _ v) (Finset.sum_congr rfl fun i _ => ?_)
    rw [norm_mul, RCLike.norm_ofReal, abs_of_nonneg (hw i)]
    rfl
  have h := C132_sparse R u η hu hu80 hη hηu hacc
    (euclid ι ℝ) (matrixMap A) (matrixMap fun i k => A k i) (WithLp.toLp 2 y) (matrixMap_add A) (matrixMap_adj A) N
    hN0 (matrixMap_norm A hN) w hw ε c β hεu hε8 hb hbN hc' (gradMatrixF R A o o' y)
    (matrix_gradient_step R hu hη hacc A hN0 hN o o' ho ho' H S hH hH' hS hS' y ε β c hb hbN hε0 hε hc) x0 best
    (fun v => by rw [hcost', hcost']; exact hmin v) n hn xn hxn
  simp only [hcost'] at h
  exact h

/-! ### A concrete case: two measurements of two pixels, in double precision -/

/-- From left to right. -/
def inOrder : Fin 2 → SumOrder (Fin 2) := fun _ => .add (.leaf 0) (.leaf 1)

theorem inOrder_complete (k : Fin 2) : Complete (inOrder k) := rfl

theorem ones_bound (x : EuclideanSpace ℝ (Fin 2)) : ‖matrixMap (fun (_ _ : Fin 2) => |(1 : ℝ)|) x‖ ≤ 2 * ‖x‖ := by
  have h := frobenius_bound (fun (_ _ : Fin 2) => (1 : ℝ)) x
  have e : Real.sqrt (∑ _k : Fin 2, ∑ _i : Fin 2, (1 : ℝ) ^ 2) = 2 := by
    rw [show (∑ _k : Fin 2, ∑ _i : Fin 2, (1 : ℝ) ^ 2) = 2 ^ 2 by norm_num]
    exact Real.sqrt_sq (by norm_num)
  rwa [e] at h

theorem ones_budget : (1 + 2⁻¹ ^ 53 : ℝ) ^ (2 * 2 + 1) - 1 ≤ 10 * 2⁻¹ ^ 53 := by norm_num

theorem ones_solved : ‖(WithLp.toLp 2 (fun _ => 1) : EuclideanSpace ℝ (Fin 2))
    - matrixMap (fun (_ _ : Fin 2) => 1) (WithLp.toLp 2 fun _ => 1 / 2)‖ = 0 := by
  rw [norm_eq_zero, sub_eq_zero]
  refine PiLp.ext fun k => ?_
  simp only [matrixMap]
  norm_num

example := C132_dot_accuracy binary64 (by positivity) (by positivity) binary64_error (fun _ : Fin 2 => 1 / 3) (fun _ => 5)
  (inOrder 0)

example := C132_matrix_gradient binary64 (by positivity) (by positivity) binary64_error (fun (_ _ : Fin 2) => 1)
  zero_le_two ones_bound inOrder inOrder inOrder_complete inOrder_complete 2 3 (fun _ => le_rfl) (fun _ => le_rfl)
  (fun _ => le_rfl) (fun _ => le_rfl) (fun _ => 1) fun _ => 7

example := C132_matrix_positivity binary64 (by positivity) (by positivity) binary64_error (fun (_ _ : Fin 2) => 1)
  zero_le_two ones_bound inOrder inOrder inOrder_complete inOrder_complete 2 3 (fun _ => le_rfl) (fun _ => le_rfl)
  (fun _ => le_rfl) (fun _ => le_rfl) (fun _ => 1) (10 * 2⁻¹ ^ 53) (1 / 4) _ (by norm_num) (by norm_num) (by positivity)
  ones_budget (by norm_num) le_rfl (fun _ => 7) (WithLp.toLp 2 fun _ => 1 / 2) (fun _ => by norm_num)
  (fun v _ => by rw [ones_solved]; exact norm_nonneg _) 1000 (by norm_num) _ rfl

example := C132_matrix_lasso binary64 (by positivity) (by norm_num) (by positivity) tiny_le binary64_error
  (fun (_ _ : Fin 2) => 1)
  zero_le_two ones_bound inOrder inOrder inOrder_complete inOrder_complete 2 3 (fun _ => le_rfl) (fun _ => le_rfl)
  (fun _ => le_rfl) (fun _ => le_rfl) (fun _ => 0) (10 * 2⁻¹ ^ 53) (1 / 4) _ (by norm_num) (by norm_num) (by positivity)
  ones_budget le_rfl (by norm_num) le_rfl (fun _ => 3) (fun _ => by norm_num) (fun _ => 7) _ (fun _ => rfl) 0
  (fun v => by
    have h : matrixMap (fun (_ _ : Fin 2) => (1 : ℝ)) 0 = 0 := by
      refine PiLp.ext fun k => ?_
      simp [matrixMap]
    have h' : (WithLp.toLp 2 (fun _ => 0) : EuclideanSpace ℝ (Fin 2)) = 0 := rfl
    rw [h, h', sub_zero, norm_zero]
    simp only [PiLp.zero_apply, abs_zero, mul_zero, Finset.sum_const_zero]
    norm_num
    positivity) 1000 (by norm_num) _ rfl

end
end Verif
