import Verif.Props.Relaxation
import Verif.Props.Convergence
import Verif.Props.PrimalDual
import Verif.Props.GenForwardBackward

/-!
# C155: the algorithms agree where their problems overlap
-/

set_option linter.unusedSectionVars false

namespace Verif
open Spec FB

section
variable {E : Type} [NormedAddCommGroup E] [InnerProductSpace ℝ E] {S : Type}

/-- One proximity operator with weight one: the auxiliary variable is the solution. -/
theorem gen_single_step (G : E → E) (prox : E → ℝ → E) (gu lu : Option (S → ℝ → ℝ × S)) (x : E) (γ l : ℝ) (r : S) :
    let s := genStep G [prox] [1] gu lu ⟨x, [x], γ, l, r⟩
    s.xOld = x + l • (prox (x - γ • G x) γ - x) ∧ s.z = [s.xOld] ∧
      s.gamma = (applyUpd gu r γ).1 ∧ s.lam = (applyUpd lu (applyUpd gu r γ).2 l).1 ∧
      s.rules = (applyUpd lu (applyUpd gu r γ).2 l).2 := by
  have e : (2 : ℝ) • x - x - γ • G x = x - γ • G x := by rw [two_smul]; abel
  simp [genStep, genZ, e]

/-- C155: `GenForwardBackward` with one proximity operator of weight one and `ForwardBackward`, both without relaxation and with
the same rule for updating the step size, compute the same solutions, step sizes and rule states at every update. -/
theorem C155_gen_forward_backward (G : E → E) (prox : E → ℝ → E) (bu : Option (S → ℝ → ℝ × S)) (x0 : E) (β : ℝ) (r : S)
    (n : ℕ) :
    let f := afterSteps G prox (userRules bu none) ⟨x0, x0, none, none, β, 1, r⟩ n
    let g := genAfter G [prox] [1] bu none (genInit x0 1 β 1 r) n
    g.xOld = f.xOld ∧ g.gamma = f.beta ∧ g.rules = f.rules := by
  have key : let f := afterSteps G prox (userRules bu none) ⟨x0, x0, none, none, β, 1, r⟩ n
      genAfter G [prox] [1] bu none (genInit x0 1 β 1 r) n = ⟨f.xOld, [f.xOld], f.beta, 1, f.rules⟩ ∧
        f.zOld = f.xOld ∧ f.lam = 1 := by
    induction n with
    | zero => exact ⟨rfl, rfl, rfl⟩
    | succ n ih =>
      simp only [genAfter, afterSteps] at ih ⊢
      obtain ⟨h1, h2, h3⟩ := ih
      rw [h1]
      generalize afterSteps G prox (userRules bu none) ⟨x0, x0, none, none, β, 1, r⟩ n = f at h2 h3
      obtain ⟨w, x, xn, zn, b, l, q⟩ := f
      simp only at h2 h3
      subst h2 h3
      obtain ⟨g1, g2, g3, g4, g5⟩ := gen_single_step G prox bu none x b 1 q
      refine ⟨?_, ?_, ?_⟩
      · generalize genStep G [prox] [1] bu none ⟨x, [x], b, 1, q⟩ = s at g1 g2 g3 g4 g5
        obtain ⟨a1, a2, a3, a4, a5⟩ := s
        simp only at g1 g2 g3 g4 g5
        subst g1 g2 g3 g4 g5
        simp [FB.step, userRules, applyUpd]
      · simp [FB.step, userRules]
      · simp [FB.step, userRules, applyUpd]
  intro f g
  obtain ⟨h1, -, -⟩ := key
  simp only [g, h1]
  exact ⟨rfl, rfl, rfl⟩

/-- The solutions of `GenForwardBackward` with one operator and constant parameters. -/
theorem gen_single_iterates (G : E → E) (prox : E → ℝ → E) (x0 : E) (γ l : ℝ) (r : S) (n : ℕ) :
    genAfter G [prox] [1] none none (genInit x0 1 γ l r) n =
      ⟨(fun x => x + l • (prox (x - γ • G x) γ - x))^[n] x0, [(fun x => x + l • (prox (x - γ • G x) γ - x))^[n] x0], γ, l,
        r⟩ := by
  induction n with
  | zero => rfl
  | succ n ih =>
    rw [genAfter, ih, Function.iterate_succ_apply']
    generalize (fun x => x + l • (prox (x - γ • G x) γ - x))^[n] x0 = x
    obtain ⟨g1, g2, g3, g4, g5⟩ := gen_single_step G prox none none x γ l r
    generalize genStep G [prox] [1] none none ⟨x, [x], γ, l, r⟩ = s at g1 g2 g3 g4 g5
    obtain ⟨a1, a2, a3, a4, a5⟩ := s
    simp only [applyUpd] at g1 g2 g3 g4 g5
    subst g1 g2 g3 g4 g5
    rfl

/-- C155: with relaxation, `Condat` on a problem without a dual term (the adjoint of its linear operator vanishes) and
`GenForwardBackward` with one operator agree at every update, whatever the dual operators, the dual starting point and `σ`.
`Condat` does not pass its step size to the primal proximity operator, so its operator has to contain it. -/
theorem C155_condat {H : Type} [NormedAddCommGroup H] [InnerProductSpace ℝ H] (G : E → E) (prox : E → ℝ → E)
    (O : Condat.Ops E H) (x0 : E) (y0 : H) (ρ σ τ : ℝ) (r : S) (hG : O.grad = G) (hp : ∀ v, O.prox v 1 = prox v τ)
    (hadj : ∀ h, O.adj h = 0) (n : ℕ) :
    (condatAfter O ⟨none, none, none⟩ ⟨x0, y0, ρ, σ, τ⟩ n).x =
      (genAfter G [prox] [1] none none (genInit x0 1 τ ρ r) n).xOld := by
  rw [gen_single_iterates]
  have key : (condatAfter O ⟨none, none, none⟩ ⟨x0, y0, ρ, σ, τ⟩ n).x =
        (fun x => x + ρ • (prox (x - τ • G x) τ - x))^[n] x0 ∧
      (condatAfter O ⟨none, none, none⟩ ⟨x0, y0, ρ, σ, τ⟩ n).rho = ρ ∧
      (condatAfter O ⟨none, none, none⟩ ⟨x0, y0, ρ, σ, τ⟩ n).tau = τ := by
    induction n with
    | zero => exact ⟨rfl, rfl, rfl⟩
    | succ n ih =>
      obtain ⟨h1, h2, h3⟩ := ih
      rw [Function.iterate_succ_apply', ← h1]
      simp only [condatAfter]
      generalize condatAfter O ⟨none, none, none⟩ ⟨x0, y0, ρ, σ, τ⟩ n = s at h1 h2 h3
      obtain ⟨x, y, a, b, c⟩ := s
      simp only at h2 h3
      subst h2 h3
      refine ⟨?_, rfl, rfl⟩
      simp only [Condat.step, Condat.half, hadj, smul_zero, sub_zero, hp, hG]
      module
  exact key.1

/-- C155: without relaxation `Condat` on a problem without a dual term and `ForwardBackward` agree at every update. -/
theorem C155_condat_forward_backward {H : Type} [NormedAddCommGroup H] [InnerProductSpace ℝ H] (G : E → E)
    (prox : E → ℝ → E) (O : Condat.Ops E H) (x0 : E) (y0 : H) (σ τ : ℝ) (r : S) (hG : O.grad = G)
    (hp : ∀ v, O.prox v 1 = prox v τ) (hadj : ∀ h, O.adj h = 0) (n : ℕ) :
    (condatAfter O ⟨none, none, none⟩ ⟨x0, y0, 1, σ, τ⟩ n).x =
      (afterSteps G prox (userRules none none) ⟨x0, x0, none, none, τ, 1, r⟩ n).xOld := by
  rw [C155_condat G prox O x0 y0 1 σ τ r hG hp hadj n]
  exact (C155_gen_forward_backward G prox none x0 τ r n).1

/-- C155: the relaxation parameters of `ForwardBackward` and of `GenForwardBackward` mean different things.  With the same
`λ`, the results after two updates differ by `(1 - λ)²` times the first change: they agree only for `λ = 1` or when the
starting point is already a fixed point. -/
theorem C155_relaxations_differ (G : E → E) (prox : E → ℝ → E) (x0 : E) (β l : ℝ) (r : S) :
    ∃ x, xFinal (afterSteps G prox (userRules none none) ⟨x0, x0, none, none, β, l, r⟩ 2) = .ok x ∧
      x - (genAfter G [prox] [1] none none (genInit x0 1 β l r) 2).xOld =
        (1 - l) ^ 2 • (prox (x0 - β • G x0) β - x0) := by
  have h0 := relaxed_steps G prox x0 β l r 0
  have h1 := relaxed_steps G prox x0 β l r 1
  simp only [Nat.zero_add, Nat.reduceAdd] at h0 h1
  obtain ⟨a1, a2, -⟩ := h0
  obtain ⟨b1, b2, b3⟩ := h1
  refine ⟨_, b3, ?_⟩
  rw [gen_single_iterates, b2, b1, a2]
  have e0 : (afterSteps G prox (userRules none none) ⟨x0, x0, none, none, β, l, r⟩ 0).xOld = x0 := rfl
  have e0' : (afterSteps G prox (userRules none none) ⟨x0, x0, none, none, β, l, r⟩ 0).zOld = x0 := rfl
  rw [a1, e0, e0']
  simp only [Function.iterate_succ_apply', Function.iterate_zero, id]
  generalize prox (x0 - β • G x0) β = p
  generalize prox (x0 + l • (p - x0) - β • G (x0 + l • (p - x0))) β = q
  module

end

/-- C155: on real arrays, with one function (`epoch_size = 1`) and a constant step, `VanillaGenericGradOpt` and
`ForwardBackward` agree after every number of updates, whatever the update indices. -/
theorem C155_vanilla {ι : Type} [Fintype ι] (prox : (ι → ℝ) → (ι → ℝ) → (ι → ℝ))
    (G : EuclideanSpace ℝ ι → EuclideanSpace ℝ ι) (x0 : ι → ℝ) (eta eps : ℝ) (st : Option ℝ) (idxs : List ℕ) :
    ∃ c s t, GD.init .vanilla x0 prox (.float eta) (.float eps) none 1 st = .ok (c, s) ∧
      GD.run c (idxs.map fun k => (k, fun x i => (G (WithLp.toLp 2 x)).ofLp i)) s = .ok t ∧
      WithLp.toLp 2 t.xNew = (afterSteps G (fun y b => WithLp.toLp 2 (prox y.ofLp fun _ => b)) (userRules none none)
        ⟨WithLp.toLp 2 x0, WithLp.toLp 2 x0, none, none, eta, 1, ()⟩ idxs.length).xOld :=
  vanilla_run_eq_fb prox G x0 eta eps st idxs

/-- A concrete case: one real unknown, the gradient of `½(x - 3)²`, step ½, penalty `|x|`; the operators of `Condat` contain
the step. -/
example (n : ℕ) :
    (condatAfter (⟨fun x => x - 3, fun v _ => softR v (1 / 2), fun v _ => v, fun v => v, fun _ => 0⟩ : Condat.Ops ℝ ℝ)
      ⟨none, none, none⟩ ⟨1, 5, 1, 1 / 7, 1 / 2⟩ n).x =
    (afterSteps (fun x : ℝ => x - 3) softR (userRules none none) ⟨1, 1, none, none, 1 / 2, 1, ()⟩ n).xOld :=
  C155_condat_forward_backward _ softR _ 1 5 (1 / 7) (1 / 2) () rfl (fun _ => rfl) (fun _ => rfl) n

/-- With `λ = 3/2` the results differ already after two updates. -/
example : ∃ x, xFinal (afterSteps (fun x : ℝ => x - 3) (fun v _ => v) (userRules none none)
      ⟨1, 1, none, none, 1 / 2, 3 / 2, ()⟩ 2) = .ok x ∧
    x ≠ (genAfter (fun x : ℝ => x - 3) [fun v _ => v] [1] none none (genInit 1 1 (1 / 2) (3 / 2) ()) 2).xOld := by
  obtain ⟨x, h1, h2⟩ := C155_relaxations_differ (fun x : ℝ => x - 3) (fun v _ => v) 1 (1 / 2) (3 / 2) ()
  refine ⟨x, h1, fun h => ?_⟩
  rw [h, sub_self] at h2
  norm_num at h2

end Verif
