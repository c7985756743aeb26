import Verif.Model.Linear
import Mathlib.Analysis.InnerProductSpace.Basic
import Mathlib.Analysis.InnerProductSpace.PiL2
import Mathlib.Tactic.LinearCombination

/-!
# C20, C21, C23: linear operators and the least-squares gradient
-/

set_option linter.unusedSectionVars false

namespace Verif
open Linear RealInnerProductSpace
open Prox (LinObj)

/-! ## C20 -/

/-- C20: `⟨A x, y⟩ = ⟨x, A* y⟩` for every real or complex matrix (the inner product conjugates its first
argument). -/
theorem C20_matrix_adjoint {m n : Type*} [Fintype m] [Fintype n] {𝕜 : Type*} [RCLike 𝕜]
    (a : m → n → 𝕜) (x : n → 𝕜) (y : m → 𝕜) :
    ∑ i, starRingEnd 𝕜 (matOp a x i) * y i = ∑ j, starRingEnd 𝕜 (x j) * matAdjOp a y j := by
  have h : ∀ j, matAdjOp a y j = ∑ i, starRingEnd 𝕜 (a i j) * y i := by
    intro j
    unfold matAdjOp
    split_ifs with hc
    · rfl
    · push Not at hc
      refine Finset.sum_congr rfl fun i _ => ?_
      rw [RCLike.conj_eq_iff_im.2 (hc i j)]
  simp only [h, matOp, map_sum, map_mul, Finset.sum_mul, Finset.mul_sum]
  rw [Finset.sum_comm]
  exact Finset.sum_congr rfl fun j _ => Finset.sum_congr rfl fun i _ => by ring

/-- C20: `Identity` is its own adjoint. -/
theorem C20_identity_adjoint {E : Type} [NormedAddCommGroup E] [InnerProductSpace ℝ E] (x y : E) :
    ⟪identityLin.op x, y⟫ = ⟪x, identityLin.adjOp y⟫ := rfl

example : matAdjOp (fun (_ : Unit) (_ : Unit) => (Complex.I : ℂ)) (fun _ => 1) () = -Complex.I := by
  unfold matAdjOp
  rw [if_pos ⟨(), (), by simp⟩]
  simp

/-! ## C21 -/

section Combo
variable {E F : Type} [NormedAddCommGroup E] [InnerProductSpace ℝ E]

/-- The inner product of two lists of blocks, weighted by `w`; `dot` is the inner product of blocks. -/
def wDot (dot : F → F → ℝ) : List ℝ → List F → List F → ℝ
  | ω :: w, a :: l, b :: m => ω * dot a b + wDot dot w l m
  | _, _, _ => 0

theorem weighted_adjoint_aux (dot : F → F → ℝ) (ops : List (LinObj E F)) (w : List ℝ) (x : E)
    (data : List F)
    (h : ∀ o ∈ ops, ∀ e ∈ data, dot (o.op x) e = ⟪x, o.adjOp e⟫) :
    wDot dot w (comboOp ops x) data = ⟪x, comboAdjOp ops (some w) data⟫ := by
  induction ops generalizing w data with
  | nil => cases w <;> cases data <;> simp [comboOp, comboAdjOp, wDot]
  | cons o ops ih =>
    cases w with
    | nil => simp [comboAdjOp, wDot]
    | cons ω w =>
      cases data with
      | nil => simp [comboOp, comboAdjOp, wDot]
      | cons e data =>
        have := ih w data (fun o ho e he => h o (by simp [ho]) e (by simp [he]))
        simp only [comboOp, comboAdjOp, List.map_cons, wDot, List.zipWith_cons_cons,
          List.sum_cons] at this ⊢
        rw [this, inner_add_right, inner_smul_right, h o (by simp) e (by simp)]

/-- C21: with weights `w`, `adj_op` is the adjoint of `op` for the inner product weighted by `w`:
`∑ wᵢ⟨Lᵢ x, yᵢ⟩ = ⟨x, adj_op(y)⟩`. -/
theorem C21_weighted_adjoint (dot : F → F → ℝ) (ops : List (LinObj E F)) (w : List ℝ) (x : E)
    (data : List F) (h : ∀ o ∈ ops, ∀ e ∈ data, dot (o.op x) e = ⟪x, o.adjOp e⟫) :
    wDot dot w (comboOp ops x) data = ⟪x, comboAdjOp ops (some w) data⟫ :=
  weighted_adjoint_aux dot ops w x data h

/-- C21: with all weights equal to one, `adj_op` is the adjoint of `op`. -/
theorem C21_unit_weights_adjoint (dot : F → F → ℝ) (ops : List (LinObj E F)) (x : E)
    (data : List F) (hlen : data.length = ops.length)
    (h : ∀ o ∈ ops, ∀ e ∈ data, dot (o.op x) e = ⟪x, o.adjOp e⟫) :
    (List.zipWith dot (comboOp ops x) data).sum
      = ⟪x, comboAdjOp ops (some (List.replicate ops.length 1)) data⟫ := by
  rw [← weighted_adjoint_aux dot ops _ x data h]
  clear h
  induction ops generalizing data with
  | nil => simp [comboOp, wDot]
  | cons o ops ih =>
    cases data with
    | nil => simp at hlen
    | cons e data =>
      have := ih data (by simpa using hlen)
      simp only [comboOp, List.map_cons, List.zipWith_cons_cons, List.sum_cons, List.length_cons,
        List.replicate_succ, wDot, one_mul] at this ⊢
      rw [this]

/-- C21: without weights, `adj_op` is `1/n` times the adjoint. -/
theorem C21_mean_is_scaled_adjoint (dot : F → F → ℝ) (ops : List (LinObj E F)) (x : E)
    (data : List F) (hlen : data.length = ops.length)
    (h : ∀ o ∈ ops, ∀ e ∈ data, dot (o.op x) e = ⟪x, o.adjOp e⟫) :
    ⟪x, comboAdjOp ops none data⟫
      = (ops.length : ℝ)⁻¹ * (List.zipWith dot (comboOp ops x) data).sum := by
  rw [C21_unit_weights_adjoint dot ops x data hlen h]
  simp only [comboAdjOp]
  rw [inner_smul_right]
  have hl : (List.zipWith (fun (o : LinObj E F) e => o.adjOp e) ops data).length = ops.length := by
    simp [hlen]
  rw [hl]
  congr 2
  have : ∀ l : List E, (List.zipWith (fun (ω : ℝ) v => ω • v) (List.replicate l.length 1) l) = l := by
    intro l
    induction l with
    | nil => rfl
    | cons a l ih => simp [List.replicate_succ, ih]
  rw [← hl, this]

/-- C21, refuted without weights: with two or more operators, the mean is not the adjoint; the adjoint
identity fails at every pair `x, y` for which `⟨op(x), y⟩` is not zero. -/
theorem C21_mean_not_adjoint (dot : F → F → ℝ) (ops : List (LinObj E F)) (x : E)
    (data : List F) (hlen : data.length = ops.length) (h2 : 2 ≤ ops.length)
    (h : ∀ o ∈ ops, ∀ e ∈ data, dot (o.op x) e = ⟪x, o.adjOp e⟫)
    (hne : (List.zipWith dot (comboOp ops x) data).sum ≠ 0) :
    (List.zipWith dot (comboOp ops x) data).sum ≠ ⟪x, comboAdjOp ops none data⟫ := by
  rw [C21_mean_is_scaled_adjoint dot ops x data hlen h]
  intro he
  have hn : (2 : ℝ) ≤ ops.length := by exact_mod_cast h2
  have hpos : (0 : ℝ) < ops.length := by linarith
  set s := (List.zipWith dot (comboOp ops x) data).sum
  have : (ops.length : ℝ) * s = s := by
    conv_lhs => rw [he]
    rw [← mul_assoc, mul_inv_cancel₀ hpos.ne', one_mul]
  have h3 : ((ops.length : ℝ) - 1) * s = 0 := by linarith
  rcases mul_eq_zero.1 h3 with h4 | h4
  · linarith
  · exact hne h4

/-- C21: the constructor accepts exactly non-empty operator lists whose elements have callable `op` and
`adj_op`, with no weights or as many floating weights as operators. -/
theorem C21_constructor {A B : Type} [AddCommGroup A] [Module ℝ A] (l : List (Linear.Candidate A B))
    (w : Option (List ℝ)) (fl : Bool) :
    (∃ r, Linear.comboInit (.seq l) (w.map .seq) fl = .ok r) ↔
      (l ≠ [] ∧ (∀ a ∈ l, a.hasOp ∧ a.hasAdj ∧ a.opCallable ∧ a.adjCallable) ∧
        ∀ w', w = some w' → w'.length = l.length ∧ fl = true) := by
  have key : ∀ l : List (Linear.Candidate A B), (∃ ops, Linear.checkEach l = .ok ops) ↔
      (∀ a ∈ l, a.hasOp ∧ a.hasAdj ∧ a.opCallable ∧ a.adjCallable) := by
    intro l
    induction l with
    | nil => simp [Linear.checkEach]
    | cons a l ih =>
      rw [List.forall_mem_cons, ← ih, Linear.checkEach]
      cases a.hasOp <;> cases a.hasAdj <;> cases a.opCallable <;> cases a.adjCallable <;> simp
      constructor
      · rintro ⟨ops, h⟩
        cases hc : Linear.checkEach l with
        | error e => rw [hc] at h; simp [bind, Except.bind] at h
        | ok r => exact ⟨r, rfl⟩
      · rintro ⟨r, hr⟩
        exact ⟨a.obj :: r, by rw [hr]; rfl⟩
  rw [← key]
  unfold Linear.comboInit
  cases l with
  | nil => simp [Linear.checkType, bind, Except.bind]
  | cons a l =>
    simp only [Linear.checkType, List.length_cons, Nat.add_eq_zero_iff, one_ne_zero, and_false, if_false]
    cases hc : Linear.checkEach (a :: l) with
    | error e => simp [bind, Except.bind, hc]
    | ok r =>
      cases w with
      | none => simp [bind, Except.bind, hc]
      | some w =>
        cases w with
        | nil => simp [bind, Except.bind, hc]
        | cons b w =>
          cases fl <;> by_cases hh : w.length = l.length <;> simp [bind, Except.bind, hh, hc]

/-- C21: wrong kinds of arguments: not a sequence gives `TypeError`, an empty one `ValueError`; a wrong
number of weights gives `ValueError`, non-floating weights `TypeError`. -/
theorem C21_constructor_errors {A B : Type} [AddCommGroup A] [Module ℝ A]
    (l : List (Linear.Candidate A B)) (ops : List (LinObj A B)) (w : List ℝ)
    (hl : l ≠ []) (hops : Linear.checkEach l = .ok ops) :
    (∀ W fl, Linear.comboInit (.other : Linear.Arg (Linear.Candidate A B)) W fl = .error .typeError) ∧
    (∀ W fl, Linear.comboInit (.seq [] : Linear.Arg (Linear.Candidate A B)) W fl = .error .valueError) ∧
    (w.length ≠ l.length → ∀ fl, Linear.comboInit (.seq l) (some (.seq w)) fl = .error .valueError) ∧
    (w.length = l.length → Linear.comboInit (.seq l) (some (.seq w)) false = .error .typeError) := by
  have hl' : l.length ≠ 0 := fun h => hl (List.eq_nil_of_length_eq_zero h)
  refine ⟨fun W fl => rfl, fun W fl => rfl, fun h fl => ?_, fun h => ?_⟩
  · simp only [Linear.comboInit, Linear.checkType, if_neg hl', hops, bind, Except.bind]
    by_cases hw : w.length = 0
    · simp [hw]
    · simp [hw, h]
  · have hw : w.length ≠ 0 := h ▸ hl'
    simp only [Linear.comboInit, Linear.checkType, if_neg hl', hops, bind, Except.bind, if_neg hw]
    simp [h]

/-- The hypotheses are met by the operators `x ↦ 2x` and `x ↦ 4x` on `ℝ`, for which the mean differs. -/
example : (List.zipWith (fun a b : ℝ => a * b)
      (comboOp [⟨fun x : ℝ => 2 * x, fun y => 2 * y⟩, ⟨fun x => 4 * x, fun y => 4 * y⟩] 1) [1, 1]).sum
    ≠ ⟪(1 : ℝ), comboAdjOp [⟨fun x : ℝ => 2 * x, fun y => 2 * y⟩, ⟨fun x => 4 * x, fun y => 4 * y⟩] none
        [1, 1]⟫ := by
  apply C21_mean_not_adjoint (fun a b : ℝ => a * b)
  · rfl
  · simp
  · intro o ho e he
    simp at ho
    rcases ho with rfl | rfl <;> simp
  · simp [comboOp]; norm_num
end Combo

/-! ## C23 -/

section Grad
variable {E F : Type*} [NormedAddCommGroup E] [InnerProductSpace ℝ E] [NormedAddCommGroup F]
  [InnerProductSpace ℝ F]

/-- C23: exact second-order expansion: `cost(x+d) = cost(x) + ⟨grad(x), d⟩ + ½‖H d‖²`. -/
theorem C23_cost_expansion (op : E → F) (transOp : F → E) (y : F)
    (hadd : ∀ a b, op (a + b) = op a + op b) (hadj : ∀ a b, ⟪op a, b⟫ = ⟪a, transOp b⟫) (x d : E) :
    gradCost op y (x + d) = gradCost op y x + ⟪gradBasic op transOp y x, d⟫ + 1 / 2 * ‖op d‖ ^ 2 := by
  unfold gradCost gradBasic
  have e1 : y - op (x + d) = (y - op x) - op d := by rw [hadd]; abel
  have e2 := norm_sub_sq_real (y - op x) (op d)
  have e3 : ⟪transOp (op x - y), d⟫ = -⟪y - op x, op d⟫ := by
    rw [real_inner_comm, ← hadj, real_inner_comm, ← inner_neg_left]
    congr 1; abel
  rw [e1, e2, e3]
  norm_num
  ring

/-- C23: the cost is convex: it lies above all its tangents. -/
theorem C23_cost_above_tangents (op : E → F) (transOp : F → E) (y : F)
    (hadd : ∀ a b, op (a + b) = op a + op b) (hadj : ∀ a b, ⟪op a, b⟫ = ⟪a, transOp b⟫) (x u : E) :
    gradCost op y x + ⟪gradBasic op transOp y x, u - x⟫ ≤ gradCost op y u := by
  have := C23_cost_expansion op transOp y hadd hadj x (u - x)
  rw [add_sub_cancel] at this
  have h2 : 0 ≤ 1 / 2 * ‖op (u - x)‖ ^ 2 := by positivity
  linarith

/-- C23: `trans_op_op` is the linear part of the gradient: with an adjoint pair, `⟨trans_op_op(x), x⟩ = ‖op x‖²`, and
the gradient is `trans_op_op(x) - trans_op(y)`. -/
theorem C23_trans_op_op (op : E → F) (transOp : F → E) (y : F)
    (htsub : ∀ a b, transOp (a - b) = transOp a - transOp b) (hadj : ∀ a b, ⟪op a, b⟫ = ⟪a, transOp b⟫) (x u : E) :
    ⟪transOpOp op transOp x, u⟫ = ⟪op x, op u⟫ ∧
    gradBasic op transOp y x = transOpOp op transOp x - transOp y := by
  refine ⟨?_, htsub _ _⟩
  rw [real_inner_comm, transOpOp, ← hadj, real_inner_comm]

example (x y : ℝ) : gradBasic (fun a : ℝ => 2 * a) (fun b => 2 * b) y x = 4 * x - 2 * y := by
  rw [(C23_trans_op_op _ _ y (fun a b => by ring) (fun a b => by simp; ring) x 0).2]
  unfold transOpOp
  ring

/-- C23: the gradient vanishes exactly at the least-squares solutions. -/
theorem C23_stationary_iff_minimiser (op : E → F) (transOp : F → E) (y : F)
    (hadd : ∀ a b, op (a + b) = op a + op b) (hsmul : ∀ (t : ℝ) a, op (t • a) = t • op a)
    (hadj : ∀ a b, ⟪op a, b⟫ = ⟪a, transOp b⟫) (x : E) :
    gradBasic op transOp y x = 0 ↔ ∀ u, ‖y - op x‖ ≤ ‖y - op u‖ := by
  constructor
  · intro h u
    have := C23_cost_above_tangents op transOp y hadd hadj x u
    rw [h, inner_zero_left, add_zero] at this
    unfold gradCost at this
    have h2 : ‖y - op x‖ ^ 2 ≤ ‖y - op u‖ ^ 2 := by norm_num at this; linarith
    exact (sq_le_sq₀ (norm_nonneg _) (norm_nonneg _)).1 h2
  · intro h
    set g := gradBasic op transOp y x with hg
    by_contra hne
    have hgp : 0 < ‖g‖ ^ 2 := by have := norm_pos_iff.2 hne; positivity
    -- a small step against the gradient decreases the cost
    obtain ⟨t, ht0, ht⟩ : ∃ t : ℝ, 0 < t ∧ t * ‖op g‖ ^ 2 < 2 * ‖g‖ ^ 2 := by
      refine ⟨‖g‖ ^ 2 / (‖op g‖ ^ 2 + 1), by positivity, ?_⟩
      rw [div_mul_eq_mul_div, div_lt_iff₀ (by positivity)]
      nlinarith [sq_nonneg ‖op g‖]
    have e := C23_cost_expansion op transOp y hadd hadj x ((-t) • g)
    rw [← hg, inner_smul_right, real_inner_self_eq_norm_sq, hsmul, norm_smul] at e
    have h1 := h (x + (-t) • g)
    have h2 : gradCost op y x ≤ gradCost op y (x + (-t) • g) := by
      unfold gradCost
      have : ‖y - op x‖ ^ 2 ≤ ‖y - op (x + (-t) • g)‖ ^ 2 := by gcongr
      norm_num at this ⊢; linarith
    have h3 : ‖-t‖ = t := by rw [norm_neg, Real.norm_of_nonneg ht0.le]
    rw [h3] at e
    have h4 : 1 / 2 * (t * ‖op g‖) ^ 2 = t * (1 / 2 * (t * ‖op g‖ ^ 2)) := by ring
    have h5 : t * (1 / 2 * (t * ‖op g‖ ^ 2)) < t * ‖g‖ ^ 2 := by
      apply mul_lt_mul_of_pos_left _ ht0
      linarith
    rw [h4] at e
    linarith

/-- C23: the gradient step is Lipschitz: if `‖H v‖ ≤ M‖v‖` then `‖grad(x) - grad(u)‖ ≤ M²‖x - u‖`, so
`M²` (the spectral radius of `trans_op_op`) is a valid Lipschitz constant for step-size rules. -/
theorem C23_gradient_lipschitz (op : E → F) (transOp : F → E) (y : F) (M : ℝ) (hM : 0 ≤ M)
    (hsub : ∀ a b, op (a - b) = op a - op b) (htsub : ∀ a b, transOp (a - b) = transOp a - transOp b)
    (hadj : ∀ a b, ⟪op a, b⟫ = ⟪a, transOp b⟫) (hb : ∀ v, ‖op v‖ ≤ M * ‖v‖) (x u : E) :
    ‖gradBasic op transOp y x - gradBasic op transOp y u‖ ≤ M ^ 2 * ‖x - u‖ := by
  have htb : ∀ b, ‖transOp b‖ ≤ M * ‖b‖ := by
    intro b
    by_contra hc
    push Not at hc
    have hpos : 0 < ‖transOp b‖ := lt_of_le_of_lt (by positivity) hc
    have h1 : ‖transOp b‖ ^ 2 ≤ M * ‖transOp b‖ * ‖b‖ := by
      rw [← real_inner_self_eq_norm_sq, ← hadj]
      exact (real_inner_le_norm _ _).trans (mul_le_mul_of_nonneg_right (hb _) (norm_nonneg _))
    nlinarith
  have e : gradBasic op transOp y x - gradBasic op transOp y u = transOp (op (x - u)) := by
    unfold gradBasic
    rw [← htsub, hsub]; congr 1; abel
  rw [e]
  calc ‖transOp (op (x - u))‖ ≤ M * ‖op (x - u)‖ := htb _
    _ ≤ M * (M * ‖x - u‖) := mul_le_mul_of_nonneg_left (hb _) hM
    _ = M ^ 2 * ‖x - u‖ := by ring

/-- The hypotheses hold for `H = 3·id` on `ℝ`; its gradient at `x = 2` with `y = 1` is `15`. -/
example : gradBasic (fun x : ℝ => 3 * x) (fun y : ℝ => 3 * y) 1 2 = 15 := by norm_num [gradBasic]
example (x d : ℝ) : gradCost (fun x : ℝ => 3 * x) (1 : ℝ) (x + d) = gradCost (fun x : ℝ => 3 * x) 1 x
    + ⟪gradBasic (fun x : ℝ => 3 * x) (fun y : ℝ => 3 * y) 1 x, d⟫ + 1 / 2 * ‖3 * d‖ ^ 2 :=
  C23_cost_expansion _ _ 1 (fun a b => by ring) (fun a b => by simp; ring) x d
end Grad

end Verif
