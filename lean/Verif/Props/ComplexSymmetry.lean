import Verif.Props.ComplexArrays
import Verif.Props.Noise

/-!
# C138, C139: symmetries of complex data, and positivity of complex data
-/

namespace Verif
open Linear Prox Noise
open Cx (toComplex rotate conjArr Carries CarriesProx)

set_option linter.unusedSectionVars false

/-! ## C138: a global phase -/

section Phase
variable {ι : Type} [Fintype ι]

/-- C138: multiplying the starting point by a phase, with operators that carry the phase, multiplies every iterate of
`ForwardBackward` by it, for any FISTA object; step sizes, relaxations and restarts are the same. -/
theorem C138_phase_forwardbackward (u : ℂ) (hu : ‖u‖ = 1) (G G' : (ι → ℂ) → ι → ℂ)
    (hG : Carries (rotate u) (rotate u) G G') (P P' : (ι → ℂ) → ℝ → ι → ℂ) (hP : CarriesProx (rotate u) P P')
    (o : Fista.Obj) (beta lam : ℝ) (x : ι → ℂ) (n : ℕ) :
    (Cx.fistaAfter G' P' o beta lam (rotate u x) n).xNew = (Cx.fistaAfter G P o beta lam x n).xNew.map (rotate u) ∧
    (Cx.fistaAfter G' P' o beta lam (rotate u x) n).zNew = (Cx.fistaAfter G P o beta lam x n).zNew.map (rotate u) ∧
    (Cx.fistaAfter G' P' o beta lam (rotate u x) n).beta = (Cx.fistaAfter G P o beta lam x n).beta ∧
    (Cx.fistaAfter G' P' o beta lam (rotate u x) n).lam = (Cx.fistaAfter G P o beta lam x n).lam ∧
    (Cx.fistaAfter G' P' o beta lam (rotate u x) n).rules = (Cx.fistaAfter G P o beta lam x n).rules := by
  have e : Cx.fistaAfter G' P' o beta lam (rotate u x) n = Cx.mapSt (rotate u) (Cx.fistaAfter G P o beta lam x n) :=
    Cx.fistaAfter_map (Cx.rotateL u) (fun a => by rw [Cx.rotateL, LinearMap.mulLeft_apply, norm_mul, hu, one_mul])
      (fun a b => by rw [Cx.entrywise_rotateL, Cx.entrywise_rotateL, Cx.vdot_rotate hu])
      hG hP o beta lam x n
  rw [e]
  exact ⟨rfl, rfl, rfl, rfl, rfl⟩

/-- C138 for a phase and the other proximal algorithms: `POGM`, `GenForwardBackward` and `Condat`. -/
theorem C138_phase_other_algorithms {κ : Type} [Fintype κ] (u : ℂ) (hu : ‖u‖ = 1) (G G' : (ι → ℂ) → ι → ℂ)
    (hG : Carries (rotate u) (rotate u) G G') (P P' : (ι → ℂ) → ℝ → ι → ℂ) (hP : CarriesProx (rotate u) P P')
    (Ps Ps' : List ((ι → ℂ) → ℝ → ι → ℂ)) (hPs : List.Forall₂ (CarriesProx (rotate u)) Ps Ps')
    (D D' : (κ → ℂ) → ℝ → κ → ℂ) (hD : CarriesProx (rotate u) D D') (L L' : (ι → ℂ) → κ → ℂ)
    (hL : Carries (rotate u) (rotate u) L L') (A A' : (κ → ℂ) → ι → ℂ) (hA : Carries (rotate u) (rotate u) A A')
    (U : Condat.Upd) (w : List ℝ) (a b c : ℝ) (x0 x y z : ι → ℂ) (v : κ → ℂ) (n : ℕ) :
    (Cx.pogmAfter G' P' a b (rotate u x0) (rotate u x) (rotate u y) (rotate u z) n).xOld
      = rotate u (Cx.pogmAfter G P a b x0 x y z n).xOld ∧
    (Cx.genAfter G' Ps' w a b (rotate u x) n).xOld = rotate u (Cx.genAfter G Ps w a b x n).xOld ∧
    (Cx.condatAfter ⟨G', P', D', L', A'⟩ U a b c (rotate u x) (rotate u v) n).x
      = rotate u (Cx.condatAfter ⟨G, P, D, L, A⟩ U a b c x v n).x ∧
    (Cx.condatAfter ⟨G', P', D', L', A'⟩ U a b c (rotate u x) (rotate u v) n).y
      = rotate u (Cx.condatAfter ⟨G, P, D, L, A⟩ U a b c x v n).y := by
  have e1 : Cx.pogmAfter G' P' a b (rotate u x0) (rotate u x) (rotate u y) (rotate u z) n
      = Cx.mapPogm (rotate u) (Cx.pogmAfter G P a b x0 x y z n) :=
    Cx.pogmAfter_map (Cx.rotateL u) (fun a b => by rw [Cx.entrywise_rotateL, Cx.entrywise_rotateL, Cx.vdot_rotate hu])
      hG hP a b x0 x y z n
  have e2 : Cx.genAfter G' Ps' w a b (rotate u x) n = Cx.mapGen (rotate u) (Cx.genAfter G Ps w a b x n) :=
    Cx.genAfter_map (Cx.rotateL u) hG hPs w a b x n
  have e3 : Cx.condatAfter ⟨G', P', D', L', A'⟩ U a b c (rotate u x) (rotate u v) n
      = Cx.mapCondat (rotate u) (rotate u) (Cx.condatAfter ⟨G, P, D, L, A⟩ U a b c x v n) :=
    Cx.condatAfter_map (Cx.rotateL u) ⟨G, P, D, L, A⟩ ⟨G', P', D', L', A'⟩ hG hP hD hL hA U a b c x v n
  rw [e1, e2, e3]
  exact ⟨rfl, rfl, rfl, rfl⟩

end Phase

/-- The maps of complex numbers considered here: multiplication by a phase, and conjugation. -/
theorem gd_run_symmetry {ι : Type} (f : ℂ →ₗ[ℝ] ℂ) (hf : ∀ a, ‖f a‖ = ‖a‖) (φ : (ι → ℂ) → ι → ℂ)
    (hφ : ∀ x i, φ x i = f (x i)) (k : GD.Kind) (x : ι → ℂ)
    (P P' : (ι → ℂ) → (ι → ℝ) → ι → ℂ) (hP : CarriesProx φ P P') (eta eps : ℝ)
    (eu : Option (ℝ → ℕ → ℝ)) (epoch : ℕ) (st : Option ℝ) (h h' : GD.History ι ℂ)
    (hh : List.Forall₂ (fun p q => q.1 = p.1 ∧ Carries φ φ p.2 q.2) h h') :
    (do let (c, s) ← GD.init k (φ x) P' (.float eta) (.float eps) eu epoch st
        let t ← GD.run c h' s
        return t.xNew)
      = (do let (c, s) ← GD.init k x P (.float eta) (.float eps) eu epoch st
            let t ← GD.run c h s
            return φ t.xNew) := by
  have hφ' : φ = fun x i => f (x i) := by funext x i; exact hφ x i
  subst hφ'
  have e := Cx.gd_run_map f hf
    (⟨k, epoch, GD.initEps k eps, eu, P⟩ : GD.Conf ι ℂ) (⟨k, epoch, GD.initEps k eps, eu, P'⟩ : GD.Conf ι ℂ)
    rfl rfl rfl rfl hP h h' hh ⟨x, x, fun _ => 0, GD.initSpeed k, eta, 1, 1, fun _ _ => 0⟩
  have e0 : Cx.mapGD f (⟨x, x, fun _ => 0, GD.initSpeed k, eta, 1, 1, fun _ _ => 0⟩ : GD.St ι ℂ)
      = ⟨fun i => f (x i), fun i => f (x i), fun _ => 0, GD.initSpeed k, eta, 1, 1, fun _ _ => 0⟩ := by
    simp only [Cx.mapGD, map_zero]
  rw [e0] at e
  simp only [GD.init, GD.checkParam, bind, Except.bind, e, pure, Except.pure]
  cases GD.run (⟨k, epoch, GD.initEps k eps, eu, P⟩ : GD.Conf ι ℂ) h
    ⟨x, x, fun _ => 0, GD.initSpeed k, eta, 1, 1, fun _ _ => 0⟩ <;> rfl

/-- C138 for the gradient-descent classes, over any history of updates: a phase carries over, and so does
conjugation. -/
theorem C138_gradient_descent {ι : Type} (φ : (ι → ℂ) → ι → ℂ) (hφ : (∃ u : ℂ, ‖u‖ = 1 ∧ φ = rotate u) ∨ φ = conjArr)
    (k : GD.Kind) (x : ι → ℂ) (P P' : (ι → ℂ) → (ι → ℝ) → ι → ℂ) (hP : CarriesProx φ P P') (eta eps : ℝ)
    (eu : Option (ℝ → ℕ → ℝ)) (epoch : ℕ) (st : Option ℝ) (h h' : GD.History ι ℂ)
    (hh : List.Forall₂ (fun p q => q.1 = p.1 ∧ Carries φ φ p.2 q.2) h h') :
    (do let (c, s) ← GD.init k (φ x) P' (.float eta) (.float eps) eu epoch st
        let t ← GD.run c h' s
        return t.xNew)
      = (do let (c, s) ← GD.init k x P (.float eta) (.float eps) eu epoch st
            let t ← GD.run c h s
            return φ t.xNew) := by
  rcases hφ with ⟨u, hu, rfl⟩ | rfl
  · exact gd_run_symmetry (Cx.rotateL u) (fun a => by rw [Cx.rotateL, LinearMap.mulLeft_apply, norm_mul, hu, one_mul]) _
      (fun _ _ => rfl) k x P P' hP eta eps eu epoch st h h' hh
  · exact gd_run_symmetry Cx.conjL (fun a => RCLike.norm_conj (K := ℂ) a) _
      (fun _ _ => rfl) k x P P' hP eta eps eu epoch st h h' hh

/-- C138: operators that carry a phase exactly: `MatrixOperator` and its adjoint, the gradient of `GradBasic` (with
the data multiplied by the phase), hard thresholding, `Ridge` and `GroupLASSO`. -/
theorem C138_phase_operators {m ι γ κ : Type} [Fintype m] [Fintype ι] [Fintype γ] (u : ℂ) (hu : ‖u‖ = 1) :
    (∀ a : m → ι → ℂ, Carries (rotate u) (rotate u) (matOp a) (matOp a)) ∧
    (∀ a : m → ι → ℂ, Carries (rotate u) (rotate u) (matAdjOp a) (matAdjOp a)) ∧
    (∀ (a : m → ι → ℂ) (y : m → ℂ), Carries (rotate u) (rotate u) (gradBasic (matOp a) (matAdjOp a) y)
      (gradBasic (matOp a) (matAdjOp a) (rotate u y))) ∧
    (∀ (w : ι → ℝ) (x : ι → ℂ) (c : ℝ),
      sparseOp w "hard" (rotate u x) c = (sparseOp w "hard" x c).map (rotate u)) ∧
    (∀ w : ι → ℝ, CarriesProx (rotate u) (ridgeOp (fun v => v) w) (ridgeOp (fun v => v) w)) ∧
    (∀ w : κ → ℝ, CarriesProx (rotate (ι := γ × κ) u) (groupOp w) (groupOp w)) := by
  have h1 : ∀ a : m → ι → ℂ, Carries (rotate u) (rotate u) (matOp a) (matOp a) := by
    intro a x
    funext i
    simp only [matOp, rotate, Finset.mul_sum]
    exact Finset.sum_congr rfl fun j _ => by ring
  have h2 : ∀ a : m → ι → ℂ, Carries (rotate u) (rotate u) (matAdjOp a) (matAdjOp a) := by
    intro a x
    funext i
    simp only [matAdjOp, rotate]
    split_ifs <;> (rw [Finset.mul_sum]; exact Finset.sum_congr rfl fun j _ => by ring)
  refine ⟨h1, h2, ?_, ?_, ?_, ?_⟩
  · intro a y x
    unfold gradBasic
    rw [h1, ← h2]
    congr 1
    funext i
    simp [rotate, mul_sub]
  · intro w x c
    simp only [sparseOp, thresh]
    simp only [List.mem_cons, String.reduceEq, List.not_mem_nil, or_false, not_true_eq_false, if_false, Except.map]
    congr 1
    funext i
    simp only [hardThresh, rotate, norm_mul, hu, one_mul]
    ring
  · intro w x c
    funext i
    simp only [ridgeOp, rotate]
    ring
  · intro w x c
    funext i
    simp only [groupOp, rotate, normAxis0, norm_mul, hu, one_mul]
    ring

/-- C138: soft thresholding does not carry a phase exactly, because of its final rounding to fifteen decimals of the
real and the imaginary part: there are a phase, a datum and a threshold for which the two orders differ. -/
theorem C138_phase_fails_soft : ∃ (u : ℂ) (x : Unit → ℂ), ‖u‖ = 1 ∧
    thresh (rotate u x) (fun _ => 0) "soft" ≠ (thresh x (fun _ => 0) "soft").map (rotate u) := by
  refine ⟨⟨3 / 5, 4 / 5⟩, fun _ => ((6 / 10 ^ 16 : ℝ) : ℂ), ?_, ?_⟩
  · rw [Complex.norm_def, Complex.normSq_mk]
    norm_num
  · intro h
    simp only [thresh] at h
    simp only [List.mem_cons, List.not_mem_nil, or_false, not_true_eq_false, if_false, Except.map,
      or_true, if_true] at h
    have h := congrFun (Except.ok.inj h) ()
    have hs : ∀ r : ℝ, softFactor 0 r = 1 := fun r => by simp [softFactor]
    simp only [softRaw, rotate, hs] at h
    have e1 : around 15 (18 / 5 / 10 ^ 16 : ℝ) = 0 := by
      rw [around_eq_zero_iff, abs_of_nonneg (by positivity)]; norm_num
    have e2 : around 15 (6 / 10 ^ 16 : ℝ) ≠ 0 := by
      rw [Ne, around_eq_zero_iff, abs_of_nonneg (by positivity)]; norm_num
    simp only [RCLike.ofReal_one, one_mul] at h
    rw [aroundK_ofReal] at h
    have h := congrArg Complex.re h
    have e3 : (aroundK 15 ((⟨3 / 5, 4 / 5⟩ : ℂ) * ((6 / 10 ^ 16 : ℝ) : ℂ))).re = 0 := by
      have e4 : ((⟨3 / 5, 4 / 5⟩ : ℂ) * ((6 / 10 ^ 16 : ℝ) : ℂ)).re = 18 / 5 / 10 ^ 16 := by
        rw [Complex.re_mul_ofReal]; norm_num
      simp only [aroundK, RCLike.re_to_complex, e4, e1]
      simp
    rw [e3, Complex.re_mul_ofReal] at h
    have e5 : aroundK 15 (6 / 10 ^ 16 : ℝ) = around 15 (6 / 10 ^ 16 : ℝ) := by simp [aroundK]
    rw [e5] at h
    have h : (3 / 5 : ℝ) * around 15 (6 / 10 ^ 16 : ℝ) = 0 := h.symm
    rcases mul_eq_zero.mp h with h | h
    · norm_num at h
    · exact e2 h

/-- C138 (partial): soft thresholding carries a phase up to `2e-15` in every entry, and exactly for quarter turns.
Missing: exact equality for every phase, which `C138_phase_fails_soft` refutes. -/
theorem C138_phase_soft_partial {ι : Type} (u : ℂ) (hu : ‖u‖ = 1) (x : ι → ℂ) (t : ι → ℝ) :
    ∃ a b, thresh (rotate u x) t "soft" = .ok a ∧ thresh x t "soft" = .ok b ∧
      (∀ i, ‖a i - rotate u b i‖ ≤ 2 / 10 ^ 15) ∧
      (u = 1 ∨ u = -1 ∨ u = Complex.I ∨ u = -Complex.I → a = rotate u b) := by
  refine ⟨fun i => aroundK 15 (softRaw (rotate u x) t i), fun i => aroundK 15 (softRaw x t i), by simp [thresh],
    by simp [thresh], fun i => ?_, fun h => ?_⟩
  · have e : softRaw (rotate u x) t i = u * softRaw x t i := by
      simp only [softRaw, rotate, norm_mul, hu, one_mul]; ring
    have h1 := norm_aroundK_sub_le (𝕜 := ℂ) (softRaw (rotate u x) t i)
    have h2 := norm_aroundK_sub_le (𝕜 := ℂ) (softRaw x t i)
    have h3 : ‖u * (softRaw x t i - aroundK 15 (softRaw x t i))‖ ≤ 1 / 10 ^ 15 := by
      rw [norm_mul, hu, one_mul, norm_sub_rev]; exact h2
    have h4 : aroundK 15 (softRaw (rotate u x) t i) - rotate u (fun i => aroundK 15 (softRaw x t i)) i
        = (aroundK 15 (softRaw (rotate u x) t i) - softRaw (rotate u x) t i)
          + u * (softRaw x t i - aroundK 15 (softRaw x t i)) := by
      rw [e]; simp only [rotate]; ring
    rw [h4]
    calc _ ≤ _ := norm_add_le _ _
      _ ≤ 1 / 10 ^ 15 + 1 / 10 ^ 15 := add_le_add h1 h3
      _ = 2 / 10 ^ 15 := by ring
  · funext i
    have e : softRaw (rotate u x) t i = u * softRaw x t i := by
      simp only [softRaw, rotate, norm_mul, hu, one_mul]; ring
    simp only [e, rotate]
    generalize softRaw x t i = z
    rcases h with rfl | rfl | rfl | rfl <;> apply Complex.ext <;> simp [aroundK, around_neg]

/-! ## C138: conjugation -/

section Conj
variable {ι : Type} [Fintype ι]

/-- C138: conjugation carries over for `GenForwardBackward` and `Condat`, which compare nothing. -/
theorem C138_conj_gen_condat {κ : Type} [Fintype κ] (G G' : (ι → ℂ) → ι → ℂ)
    (hG : Carries conjArr conjArr G G') (P P' : (ι → ℂ) → ℝ → ι → ℂ) (hP : CarriesProx conjArr P P')
    (Ps Ps' : List ((ι → ℂ) → ℝ → ι → ℂ)) (hPs : List.Forall₂ (CarriesProx conjArr) Ps Ps')
    (D D' : (κ → ℂ) → ℝ → κ → ℂ) (hD : CarriesProx conjArr D D') (L L' : (ι → ℂ) → κ → ℂ)
    (hL : Carries conjArr conjArr L L') (A A' : (κ → ℂ) → ι → ℂ) (hA : Carries conjArr conjArr A A')
    (U : Condat.Upd) (w : List ℝ) (a b c : ℝ) (x : ι → ℂ) (v : κ → ℂ) (n : ℕ) :
    (Cx.genAfter G' Ps' w a b (conjArr x) n).xOld = conjArr (Cx.genAfter G Ps w a b x n).xOld ∧
    (Cx.condatAfter ⟨G', P', D', L', A'⟩ U a b c (conjArr x) (conjArr v) n).x
      = conjArr (Cx.condatAfter ⟨G, P, D, L, A⟩ U a b c x v n).x ∧
    (Cx.condatAfter ⟨G', P', D', L', A'⟩ U a b c (conjArr x) (conjArr v) n).y
      = conjArr (Cx.condatAfter ⟨G, P, D, L, A⟩ U a b c x v n).y := by
  have e2 : Cx.genAfter G' Ps' w a b (conjArr x) n = Cx.mapGen conjArr (Cx.genAfter G Ps w a b x n) :=
    Cx.genAfter_map Cx.conjL hG hPs w a b x n
  have e3 : Cx.condatAfter ⟨G', P', D', L', A'⟩ U a b c (conjArr x) (conjArr v) n
      = Cx.mapCondat conjArr conjArr (Cx.condatAfter ⟨G, P, D, L, A⟩ U a b c x v n) :=
    Cx.condatAfter_map Cx.conjL ⟨G, P, D, L, A⟩ ⟨G', P', D', L', A'⟩ hG hP hD hL hA U a b c x v n
  rw [e2, e3]
  exact ⟨rfl, rfl, rfl⟩

/-- C138 (partial): conjugation carries over for `ForwardBackward` when there is no restart strategy, or when at no
update so far the restart product is a non-zero imaginary number.  Missing: the runs with such a product, where
`C138_conj_fails` shows a different result. -/
theorem C138_conj_forwardbackward_partial (G G' : (ι → ℂ) → ι → ℂ) (hG : Carries conjArr conjArr G G')
    (P P' : (ι → ℂ) → ℝ → ι → ℂ) (hP : CarriesProx conjArr P P') (o : Fista.Obj) (beta lam : ℝ) (x : ι → ℂ) (n : ℕ)
    (h : o.restart = .none ∨ ∀ k < n, ∀ c : ℂ,
      c = Cx.vdot ((Cx.fistaAfter G P o beta lam x k).zOld - (Cx.fistaAfter G P o beta lam x (k + 1)).xOld)
        ((Cx.fistaAfter G P o beta lam x (k + 1)).xOld - (Cx.fistaAfter G P o beta lam x k).xOld) →
        c.re = 0 → c.im = 0) :
    (Cx.fistaAfter G' P' o beta lam (conjArr x) n).xNew = (Cx.fistaAfter G P o beta lam x n).xNew.map conjArr ∧
    (Cx.fistaAfter G' P' o beta lam (conjArr x) n).zNew = (Cx.fistaAfter G P o beta lam x n).zNew.map conjArr ∧
    (Cx.fistaAfter G' P' o beta lam (conjArr x) n).beta = (Cx.fistaAfter G P o beta lam x n).beta := by
  rw [Cx.fistaAfter_conj hG hP o beta lam x n h]
  exact ⟨rfl, rfl, rfl⟩

/-- C138 (partial): the same for `POGM` and its two products. -/
theorem C138_conj_pogm_partial (G G' : (ι → ℂ) → ι → ℂ) (hG : Carries conjArr conjArr G G')
    (P P' : (ι → ℂ) → ℝ → ι → ℂ) (hP : CarriesProx conjArr P P') (beta sb : ℝ) (u x y z : ι → ℂ) (n : ℕ)
    (h : ∀ k < n, ∀ s t : FB.Pogm (ι → ℂ), s = Cx.pogmAfter G P beta sb u x y z k →
      t = Cx.pogmAfter G P beta sb u x y z (k + 1) →
      ((Cx.vdot (-t.gOld) (t.yOld - s.yOld)).re = 0 → (Cx.vdot (-t.gOld) (t.yOld - s.yOld)).im = 0) ∧
      ((Cx.vdot t.gOld s.gOld).re = 0 → (Cx.vdot t.gOld s.gOld).im = 0)) :
    (Cx.pogmAfter G' P' beta sb (conjArr u) (conjArr x) (conjArr y) (conjArr z) n).xOld
      = conjArr (Cx.pogmAfter G P beta sb u x y z n).xOld := by
  rw [Cx.pogmAfter_conj hG hP beta sb u x y z n h]
  rfl

/-- C138: whenever the restart product is a non-zero imaginary number, exactly one of the run and the conjugated run
restarts, whatever the strategy. -/
theorem C138_conj_decision (f : Fista.Obj) (hf : f.restart ≠ .none) (zOld xNew xOld : ι → ℂ)
    (h0 : (Cx.vdot (zOld - xNew) (xNew - xOld)).re = 0) (h1 : (Cx.vdot (zOld - xNew) (xNew - xOld)).im ≠ 0) :
    ((Cx.fistaRules (U := Unit)).isRestart (f, ()) (conjArr zOld) (conjArr xNew) (conjArr xOld)).1
      = !((Cx.fistaRules (U := Unit)).isRestart (f, ()) zOld xNew xOld).1 := by
  have hc : Cx.geZero (Cx.vdot (conjArr zOld - conjArr xNew) (conjArr xNew - conjArr xOld)) ↔
      ¬ Cx.geZero (Cx.vdot (zOld - xNew) (xNew - xOld)) := by
    have e : Cx.vdot (conjArr zOld - conjArr xNew) (conjArr xNew - conjArr xOld)
        = starRingEnd ℂ (Cx.vdot (zOld - xNew) (xNew - xOld)) := by
      rw [← Cx.vdot_conj]
      congr 1 <;> (funext i; simp [conjArr])
    rw [e]
    generalize Cx.vdot (zOld - xNew) (xNew - xOld) = c at h0 h1
    simp only [Cx.geZero, RCLike.re_to_complex, RCLike.im_to_complex, Complex.conj_re, Complex.conj_im, h0,
      gt_iff_lt, lt_self_iff_false, true_and, false_or, ge_iff_le, not_le, Left.nonneg_neg_iff]
    exact ⟨fun h => lt_of_le_of_ne h h1, le_of_lt⟩
  classical
  simp only [Cx.fistaRules, Cx.fistaRulesWith, Cx.restartWith]
  cases hr : f.restart with
  | none => exact absurd hr hf
  | adaptive b xi =>
    by_cases c : Cx.geZero (Cx.vdot (zOld - xNew) (xNew - xOld))
    · simp only [if_pos c, if_neg (fun h => hc.mp h c)]; rfl
    · simp only [if_neg c, if_pos (hc.mpr c)]; rfl
  | greedy m s xi =>
    by_cases c : Cx.geZero (Cx.vdot (zOld - xNew) (xNew - xOld))
    · have c' : ¬ _ := fun h => hc.mp h c
      cases f.delta0 <;> simp [c, c']
    · have c' := hc.mpr c
      cases f.delta0 <;> simp [c, c']

end Conj

/-- Such products do occur: the run of `C138_conj_fails` meets one. -/
example : (Cx.vdot (fun _ : Unit => (-1 - 2 * Complex.I : ℂ)) (fun _ => -4 + 2 * Complex.I)).re = 0 ∧
    (Cx.vdot (fun _ : Unit => (-1 - 2 * Complex.I : ℂ)) (fun _ => -4 + 2 * Complex.I)).im ≠ 0 := by
  constructor <;> simp [Cx.vdot] <;> norm_num

/-- C138: the package's operators carry conjugation: `MatrixOperator` and its adjoint with the conjugated matrix, the
gradient of `GradBasic` with the conjugated data, soft and hard thresholding, `Ridge` and `GroupLASSO`. -/
theorem C138_conj_operators {m ι γ κ : Type} [Fintype m] [Fintype ι] [Fintype γ] :
    (∀ a : m → ι → ℂ, Carries conjArr conjArr (matOp a) (matOp fun i => conjArr (a i))) ∧
    (∀ a : m → ι → ℂ, Carries conjArr conjArr (matAdjOp a) (matAdjOp fun i => conjArr (a i))) ∧
    (∀ (a : m → ι → ℂ) (y : m → ℂ), Carries conjArr conjArr (gradBasic (matOp a) (matAdjOp a) y)
      (gradBasic (matOp fun i => conjArr (a i)) (matAdjOp fun i => conjArr (a i)) (conjArr y))) ∧
    (∀ (w : ι → ℝ) (s : String) (x : ι → ℂ) (c : ℝ),
      sparseOp w s (conjArr x) c = (sparseOp w s x c).map conjArr) ∧
    (∀ w : ι → ℝ, CarriesProx conjArr (ridgeOp (fun v => v) w) (ridgeOp (fun v => v) w)) ∧
    (∀ w : κ → ℝ, CarriesProx (conjArr (ι := γ × κ)) (groupOp w) (groupOp w)) := by
  have h1 : ∀ a : m → ι → ℂ, Carries conjArr conjArr (matOp a) (matOp fun i => conjArr (a i)) := by
    intro a x
    funext i
    simp [matOp, conjArr]
  have h2 : ∀ a : m → ι → ℂ, Carries conjArr conjArr (matAdjOp a) (matAdjOp fun i => conjArr (a i)) := by
    intro a x
    funext i
    simp only [matAdjOp, conjArr, RCLike.im_to_complex, Complex.conj_im, neg_ne_zero]
    split_ifs <;> simp
  refine ⟨h1, h2, ?_, ?_, ?_, ?_⟩
  · intro a y x
    unfold gradBasic
    rw [h1, ← h2]
    congr 1
    funext i
    simp [conjArr]
  · intro w s x c
    unfold sparseOp thresh
    split_ifs
    · simp only [Except.map]
      congr 1
      funext i
      simp only [softRaw, conjArr, RCLike.norm_conj]
      apply Complex.ext <;> simp [aroundK, around_neg]
    · simp only [Except.map]
      congr 1
      funext i
      simp only [hardThresh, conjArr, RCLike.norm_conj]
      split_ifs <;> simp
    · rfl
  · intro w x c
    funext i
    have h2 : (starRingEnd ℂ) (2 : ℂ) = 2 := Complex.conj_ofNat 2
    simp [ridgeOp, conjArr, h2]
  · intro w x c
    funext i
    simp [groupOp, conjArr, normAxis0]

/-! The run of `C138_conj_fails`: one complex entry, `x = 5`, data `-3 + 4i` or its conjugate, `Identity`,
`SparseThreshold(weights=6, thresh_type="hard")`, `beta_param=0.5`, `lambda_param=2`, greedy restarts. -/

noncomputable def conjObs (s : ℝ) : Unit → ℂ := fun _ => ⟨-3, 4 * s⟩

noncomputable def conjRun (s : ℝ) (n : ℕ) : FB.St (Fista.Obj × Unit) (Unit → ℂ) :=
  Cx.fistaAfter (gradBasic (fun v => v) (fun v => v) (conjObs s))
    (fun v c => hardThresh v fun _ => 6 * c) ⟨.regular 1 1 4, .greedy 0.1 1.1 0.96, 1, 1, none, false⟩ 0.5 2
    (fun _ => 5) n

theorem conjRun_one (s : ℝ) (hs : s ^ 2 = 1) :
    (conjRun s 1).xOld = (fun _ => 0) ∧ (conjRun s 1).zOld = (fun _ => -5) ∧ (conjRun s 1).beta = 0.5 ∧
    (conjRun s 1).lam = 2 ∧ (conjRun s 1).rules.1.restart = .greedy 0.1 1.1 0.96 := by
  classical
  have hy : ((fun _ => 5) - (0.5 : ℝ) • gradBasic (fun v => v) (fun v => v) (conjObs s) (fun _ => 5) : Unit → ℂ)
      = fun _ => ⟨1, 2 * s⟩ := by
    funext i
    apply Complex.ext <;> simp [gradBasic, conjObs] <;> ring
  have hn : ¬ ‖(⟨1, 2 * s⟩ : ℂ)‖ ≥ 6 * (0.5 : ℝ) := by
    rw [not_le, Complex.norm_def, Complex.normSq_mk, Real.sqrt_lt' (by norm_num)]
    nlinarith
  have hx : hardThresh ((fun _ => 5) - (0.5 : ℝ) • gradBasic (fun v => v) (fun v => v) (conjObs s) (fun _ => 5) : Unit → ℂ)
      (fun _ => 6 * (0.5 : ℝ)) = fun _ => 0 := by
    rw [hy]; funext i; simp only [hardThresh, if_neg hn, mul_zero]
  have hc : ¬ Cx.geZero (Cx.vdot ((fun _ => 5) - (fun _ => 0) : Unit → ℂ) ((fun _ => 0) - fun _ => 5)) := by
    simp [Cx.geZero, Cx.vdot]
  have e : conjRun s 1 = Cx.fbStep (gradBasic (fun v => v) (fun v => v) (conjObs s))
    (fun v c => hardThresh v fun _ => 6 * c) Cx.fistaRules
    ⟨fun _ => 5, fun _ => 5, none, none, 0.5, 2, (⟨.regular 1 1 4, .greedy 0.1 1.1 0.96, 1, 1, none, false⟩, ())⟩ := rfl
  rw [e]
  simp only [Cx.fbStep, hx, Cx.fistaRules, Cx.fistaRulesWith, Cx.restartWith, decide_eq_false hc, FB.applyUpd,
    Fista.updateBeta, Fista.updateLambda]
  refine ⟨trivial, ?_, by simp, trivial, trivial⟩
  funext i
  simp
  norm_num

theorem conjRun_two (s : ℝ) (hs : s ^ 2 = 1) :
    FB.xFinal (conjRun s 2) = .ok (fun _ => if s > 0 then (⟨-8, 4⟩ : ℂ) else ⟨-4, -2⟩) := by
  classical
  obtain ⟨h1, h2, h3, h4, h5⟩ := conjRun_one s hs
  have e : conjRun s 2 = Cx.fbStep (gradBasic (fun v => v) (fun v => v) (conjObs s))
    (fun v c => hardThresh v fun _ => 6 * c) Cx.fistaRules (conjRun s 1) := rfl
  have hy : ((fun _ => -5) - (0.5 : ℝ) • gradBasic (fun v => v) (fun v => v) (conjObs s) (fun _ => -5) : Unit → ℂ)
      = fun _ => ⟨-4, 2 * s⟩ := by
    funext i
    apply Complex.ext <;> simp [gradBasic, conjObs] <;> ring
  have hn : ‖(⟨-4, 2 * s⟩ : ℂ)‖ ≥ 6 * (0.5 : ℝ) := by
    rw [ge_iff_le, Complex.norm_def, Complex.normSq_mk]
    apply Real.le_sqrt_of_sq_le
    nlinarith
  have hx : hardThresh ((fun _ => -5) - (0.5 : ℝ) • gradBasic (fun v => v) (fun v => v) (conjObs s) (fun _ => -5) : Unit → ℂ)
      (fun _ => 6 * (0.5 : ℝ)) = fun _ => ⟨-4, 2 * s⟩ := by
    rw [hy]; funext i; simp only [hardThresh, if_pos hn, mul_one]
  have hc : Cx.geZero (Cx.vdot ((fun _ => -5) - (fun _ => ⟨-4, 2 * s⟩) : Unit → ℂ) ((fun _ => ⟨-4, 2 * s⟩) - fun _ => 0))
      ↔ s < 0 := by
    simp [Cx.geZero, Cx.vdot]
    constructor
    · rintro (h | ⟨_, h⟩) <;> nlinarith
    · intro h
      right
      constructor <;> nlinarith
  have hcase : s = 1 ∨ s = -1 := sq_eq_one_iff.mp hs
  rw [e]
  simp only [Cx.fbStep, h1, h2, h3, h4, hx, Cx.fistaRules, Cx.fistaRulesWith, Cx.restartWith, h5, FB.xFinal]
  cases (conjRun s 1).rules.1.delta0 <;> rcases hcase with rfl | rfl
  all_goals
    simp only [hc]
    norm_num
    try (funext i; apply Complex.ext <;> simp <;> norm_num)

/-- C138: with a restart strategy the conjugate of the data does not in general give the conjugate of the result.
One complex entry, `ForwardBackward` with `GradBasic`, `Identity`, `SparseThreshold(weights=6, thresh_type="hard")`,
`beta_param=0.5`, `lambda_param=2`, `restart_strategy="greedy"` and `x = 5`: after two updates the data `-3 + 4i`
give `-8 + 4i` and the data `-3 - 4i` give `-4 - 2i`. -/
theorem C138_conj_fails (P : (Unit → ℂ) → ℝ → Unit → ℂ) (hP : ∀ v c, sparseOp (fun _ => 6) "hard" v c = .ok (P v c))
    (o : Fista.Obj) (ho : Fista.init (some "greedy") (some 0.1) (some 1.1) (some 0.96) none 1 1 4 = .ok o) :
    FB.xFinal (Cx.fistaAfter (gradBasic (fun v => v) (fun v => v) fun _ => ⟨-3, 4⟩) P o 0.5 2 (fun _ => 5) 2)
      = .ok (fun _ => ⟨-8, 4⟩) ∧
    FB.xFinal (Cx.fistaAfter (gradBasic (fun v => v) (fun v => v) fun _ => ⟨-3, -4⟩) P o 0.5 2 (fun _ => 5) 2)
      = .ok (fun _ => ⟨-4, -2⟩) ∧
    conjArr (fun _ : Unit => (⟨-3, 4⟩ : ℂ)) = (fun _ => ⟨-3, -4⟩) ∧
    conjArr (fun _ : Unit => (⟨-8, 4⟩ : ℂ)) ≠ fun _ => ⟨-4, -2⟩ := by
  have hP' : P = fun v c => hardThresh v fun _ => 6 * c := by
    funext v c
    have h := hP v c
    simp only [sparseOp, thresh] at h
    simp only [List.mem_cons, String.reduceEq, List.not_mem_nil, or_false, not_true_eq_false, if_false] at h
    exact (Except.ok.inj h).symm
  have ho' : o = ⟨.regular 1 1 4, .greedy 0.1 1.1 0.96, 1, 1, none, false⟩ := by
    simp [Fista.init, Fista.initMode, Fista.strategies, Fista.checkRestart, bind, Except.bind] at ho
    norm_num at ho
    rw [← ho]
    norm_num
  subst hP' ho'
  have h1 := conjRun_two 1 (by norm_num)
  have h2 := conjRun_two (-1) (by norm_num)
  have e1 : conjObs 1 = fun _ => ⟨-3, 4⟩ := by funext i; simp [conjObs]
  have e2 : conjObs (-1) = fun _ => ⟨-3, -4⟩ := by funext i; simp [conjObs]
  unfold conjRun at h1 h2
  rw [e1] at h1
  rw [e2] at h2
  refine ⟨?_, ?_, ?_, ?_⟩
  · rw [h1]; norm_num
  · rw [h2]; norm_num
  · funext i; apply Complex.ext <;> simp [conjArr]
  · intro h
    have h := congrArg Complex.re (congrFun h ())
    norm_num [conjArr] at h

/-- The hypotheses can be met: the operator and the FISTA object exist. -/
example : (∃ P : (Unit → ℂ) → ℝ → Unit → ℂ, ∀ v c, sparseOp (fun _ => 6) "hard" v c = .ok (P v c)) ∧
    ∃ o, Fista.init (some "greedy") (some 0.1) (some 1.1) (some 0.96) none 1 1 4 = .ok o := by
  refine ⟨⟨fun v c => hardThresh v fun _ => 6 * c, fun v c => by simp [sparseOp, thresh]⟩,
    ⟨.regular 1 1 4, .greedy 0.1 1.1 0.96, 1, 1, none, false⟩, ?_⟩
  simp [Fista.init, Fista.initMode, Fista.strategies, Fista.checkRestart, bind, Except.bind]
  norm_num

/-! ## C139: positivity of complex data -/

/-- C139: on complex data `Positivity` does not return non-negative real numbers: an entry with positive real part is
returned unchanged with its imaginary part, whatever the latter, and so is a positive imaginary number. -/
theorem C139_imaginary_part_survives {ι : Type} [Fintype ι] (x : ι → ℂ) (i : ι)
    (h : 0 < (x i).re ∨ (x i).re = 0 ∧ 0 < (x i).im) : Cx.posThresh x i = x i := by
  have h' : Cx.gtZero (x i) := by simpa [Cx.gtZero] using h
  simp only [Cx.posThresh, if_pos h', mul_one]

/-- C139: every other entry is set to zero; in particular the conjugate of an imaginary entry that is kept. -/
theorem C139_other_entries_zero {ι : Type} [Fintype ι] (x : ι → ℂ) (i : ι)
    (h : (x i).re < 0 ∨ (x i).re = 0 ∧ (x i).im ≤ 0) : Cx.posThresh x i = 0 := by
  have h' : ¬ Cx.gtZero (x i) := by
    simp only [Cx.gtZero, RCLike.re_to_complex, RCLike.im_to_complex]
    rintro (h1 | ⟨h1, h2⟩) <;> rcases h with h | ⟨h, h3⟩ <;> linarith
  simp only [Cx.posThresh, if_neg h', mul_zero]

/-- C139 (partial): the real parts of the result are non-negative, the operator is idempotent, and it is the
projection on the non-negative arrays exactly on the arrays whose kept entries are real: the result is an array of
non-negative real numbers if and only if no entry with a non-zero imaginary part is kept.  Missing: arrays with such
entries. -/
theorem C139_nonneg_partial {ι : Type} [Fintype ι] (x : ι → ℂ) :
    (∀ i, 0 ≤ (Cx.posThresh x i).re) ∧ Cx.posThresh (Cx.posThresh x) = Cx.posThresh x ∧
    ((∃ r : ι → ℝ, (∀ i, 0 ≤ r i) ∧ Cx.posThresh x = toComplex r) ↔
      ∀ i, (x i).im ≠ 0 → (x i).re < 0 ∨ (x i).re = 0 ∧ (x i).im < 0) := by
  have key : ∀ i, (0 < (x i).re ∨ (x i).re = 0 ∧ 0 < (x i).im) ∨ ((x i).re < 0 ∨ (x i).re = 0 ∧ (x i).im ≤ 0) := by
    intro i
    rcases lt_trichotomy (x i).re 0 with h | h | h
    · exact .inr (.inl h)
    · rcases lt_or_ge 0 (x i).im with h2 | h2
      · exact .inl (.inr ⟨h, h2⟩)
      · exact .inr (.inr ⟨h, h2⟩)
    · exact .inl (.inl h)
  refine ⟨fun i => ?_, ?_, ?_, ?_⟩
  · rcases key i with h | h
    · rw [C139_imaginary_part_survives x i h]
      rcases h with h | ⟨h, _⟩
      · exact h.le
      · exact h.ge
    · rw [C139_other_entries_zero x i h]; simp
  · funext i
    rcases key i with h | h
    · have e := C139_imaginary_part_survives x i h
      rw [C139_imaginary_part_survives (Cx.posThresh x) i (by rw [e]; exact h)]
    · have e := C139_other_entries_zero x i h
      rw [C139_other_entries_zero (Cx.posThresh x) i (by rw [e]; simp), e]
  · rintro ⟨r, _, hr⟩ i hi
    rcases key i with h | h
    · exfalso
      have e := C139_imaginary_part_survives x i h
      rw [hr] at e
      exact hi (by rw [← e]; simp [toComplex])
    · rcases h with h | ⟨h, h2⟩
      · exact .inl h
      · exact .inr ⟨h, lt_of_le_of_ne h2 hi⟩
  · intro h
    refine ⟨fun i => max (x i).re 0, fun i => le_max_right _ _, ?_⟩
    funext i
    rcases key i with hk | hk
    · rw [C139_imaginary_part_survives x i hk]
      have him : (x i).im = 0 := by
        by_contra hne
        rcases h i hne with h' | ⟨h', h''⟩ <;> rcases hk with hk | ⟨hk, hk'⟩ <;> linarith
      have hre : 0 ≤ (x i).re := by rcases hk with hk | ⟨hk, _⟩ <;> linarith
      apply Complex.ext <;> simp [toComplex, him, hre]
    · rw [C139_other_entries_zero x i hk]
      have hre : (x i).re ≤ 0 := by rcases hk with hk | ⟨hk, _⟩ <;> linarith
      simp [toComplex, hre]

/-- Both sides occur. -/
example : Cx.posThresh (fun _ : Unit => (⟨1, 5⟩ : ℂ)) = (fun _ => ⟨1, 5⟩) ∧
    Cx.posThresh (fun _ : Unit => (⟨-1, 5⟩ : ℂ)) = (fun _ => 0) := by
  refine ⟨?_, ?_⟩ <;> funext i
  · exact C139_imaginary_part_survives _ i (.inl (by norm_num))
  · exact C139_other_entries_zero _ i (.inl (by norm_num))

end Verif
