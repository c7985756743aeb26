import Verif.Model.NonFiniteAlgs
import Verif.Props.NonFinite
import Verif.Props.GradDescent

/-!
# C146 for the other algorithms, and C147: runs on finite data stay finite
-/

set_option linter.unusedSectionVars false

namespace Verif
open Ext NF

variable {ι κ : Type} [Fintype ι] [Fintype κ]

/-! ## C146: NaN in the other algorithms -/

theorem genZ_nan (i : ι) (x g : ι → Ext ℝ) (gamma lam : ℝ) (hg : g i = nan) :
    ∀ (prox : List ((ι → Ext ℝ) → ℝ → ι → Ext ℝ)) (zs : List (ι → Ext ℝ)) (ws : List ℝ), (∀ p ∈ prox, KeepsNaN p) →
      ∀ z ∈ NF.genZ x g gamma lam prox zs ws, z i = nan
  | p :: ps, z :: zs, w :: ws, h, v, hv => by
    rw [NF.genZ] at hv
    rcases List.mem_cons.mp hv with rfl | hv
    · have : p (asub (asub (ascale 2 x) z) (ascale gamma g)) (gamma / w) i = nan :=
        h p List.mem_cons_self _ _ _ (by simp [asub, ascale, hg])
      simp [ascale, asub, this]
    · exact genZ_nan i x g gamma lam hg ps zs ws (fun q hq => h q (List.mem_cons_of_mem _ hq)) v hv
  | [], _, _, _, v, hv => by simp [NF.genZ] at hv
  | _ :: _, [], _, _, v, hv => by simp [NF.genZ] at hv
  | _ :: _, _ :: _, [], _, v, hv => by simp [NF.genZ] at hv

theorem genZ_length (x g : ι → Ext ℝ) (gamma lam : ℝ) :
    ∀ (prox : List ((ι → Ext ℝ) → ℝ → ι → Ext ℝ)) (zs : List (ι → Ext ℝ)) (ws : List ℝ), zs.length = prox.length →
      ws.length = prox.length → (NF.genZ x g gamma lam prox zs ws).length = prox.length
  | p :: ps, z :: zs, w :: ws, h1, h2 => by
    simp [NF.genZ, genZ_length x g gamma lam ps zs ws (by simpa using h1) (by simpa using h2)]
  | [], _, _, _, _ => by simp [NF.genZ]
  | _ :: _, [], _, h, _ => by simp at h
  | _ :: _, _ :: _, [], _, h => by simp at h

theorem sum_pi_nan (i : ι) : ∀ (l : List (ι → Ext ℝ)), (∃ v ∈ l, v i = nan) → l.sum i = nan
  | [], h => by simp at h
  | a :: l, h => by
    rw [List.sum_cons, Pi.add_apply]
    obtain ⟨v, hv, hn⟩ := h
    rcases List.mem_cons.mp hv with rfl | hv
    · rw [hn, nan_add]
    · rw [sum_pi_nan i l ⟨v, hv, hn⟩, add_nan]

/-- `GenForwardBackward`, denoising: a NaN pixel stays NaN after every update, for all weights,
operators, parameters and update rules. -/
theorem C146_genforwardbackward_nan {S : Type} (y : ι → Ext ℝ) (prox : List ((ι → Ext ℝ) → ℝ → ι → Ext ℝ))
    (hp : ∀ p ∈ prox, KeepsNaN p) (hne : prox ≠ []) (w : List ℝ) (hw : w.length = prox.length)
    (gu lu : Option (S → ℝ → ℝ × S)) (s : FB.GenSt S (ι → Ext ℝ)) (hz : s.z.length = prox.length) (i : ι)
    (h : y i = nan ∨ s.xOld i = nan) (n : ℕ) :
    ((NF.genStep (idGrad y) prox w gu lu)^[n + 1] s).xOld i = nan := by
  have step : ∀ s : FB.GenSt S (ι → Ext ℝ), s.z.length = prox.length → (y i = nan ∨ s.xOld i = nan) →
      (NF.genStep (idGrad y) prox w gu lu s).xOld i = nan ∧
      (NF.genStep (idGrad y) prox w gu lu s).z.length = prox.length := by
    intro s hz h
    have hg : idGrad y s.xOld i = nan := by rcases h with h | h <;> simp [idGrad, h]
    refine ⟨?_, genZ_length _ _ _ _ _ _ _ hz hw⟩
    have h1 := genZ_nan i s.xOld (idGrad y s.xOld) s.gamma s.lam hg prox s.z w hp
    have h2 := genZ_length s.xOld (idGrad y s.xOld) s.gamma s.lam prox s.z w hz hw
    change (List.zipWith (fun z w => ascale w z) (NF.genZ s.xOld (idGrad y s.xOld) s.gamma s.lam prox s.z w) w).sum i = nan
    generalize NF.genZ s.xOld (idGrad y s.xOld) s.gamma s.lam prox s.z w = z at h1 h2
    apply sum_pi_nan
    cases z with
    | nil => exact absurd (List.length_eq_zero_iff.mp h2.symm) hne
    | cons z0 zs =>
      cases w with
      | nil => exact absurd (List.length_eq_zero_iff.mp hw.symm) hne
      | cons w0 ws =>
        exact ⟨ascale w0 z0, by simp, by simp [ascale, h1 z0 List.mem_cons_self]⟩
  have run : ∀ n, ((NF.genStep (idGrad y) prox w gu lu)^[n + 1] s).xOld i = nan ∧
      ((NF.genStep (idGrad y) prox w gu lu)^[n + 1] s).z.length = prox.length := by
    intro n
    induction n with
    | zero => exact step s hz h
    | succ n ih =>
      rw [Function.iterate_succ_apply']
      exact step _ ih.2 (Or.inr ih.1)
  exact (run n).1

/-- `POGM`, denoising: a NaN pixel stays NaN after every update; no update restarts (`t` never returns to 1) and the
damping `sigma` never changes. -/
theorem C146_pogm_nan (y : ι → Ext ℝ) (prox : (ι → Ext ℝ) → ℝ → ι → Ext ℝ) (hp : KeepsNaN prox) (beta sigmaBar : ℝ)
    (s : FB.Pogm (ι → Ext ℝ)) (i : ι) (h : y i = nan) (n : ℕ) :
    let r := fun n => (NF.pogmStep (idGrad y) prox beta sigmaBar)^[n] s
    (r (n + 1)).xOld i = nan ∧ (r (n + 1)).sigma = s.sigma ∧
      (r (n + 1)).t = 0.5 * (1 + Real.sqrt (1 + 4 * (r n).t ^ 2)) := by
  have step : ∀ s : FB.Pogm (ι → Ext ℝ),
      let s' := NF.pogmStep (idGrad y) prox beta sigmaBar s
      s'.xOld i = nan ∧ s'.sigma = s.sigma ∧ s'.t = 0.5 * (1 + Real.sqrt (1 + 4 * s.t ^ 2)) := by
    intro s
    have hg : idGrad y s.xOld i = nan := by simp [idGrad, h]
    have vd : ∀ a b : ι → Ext ℝ, (a i = nan ∨ b i = nan) → vdotNeg a b = false := by
      intro a b hab
      have : (∑ i, mul (a i) (b i)) = nan := sum_nan _ i (by rcases hab with hab | hab <;> simp [hab])
      simp [vdotNeg, this]
    have hz : ∀ a b c d e : ℝ, ∀ u v w : ι → Ext ℝ,
        (ascale a u + (ascale b (idGrad y s.xOld) + s.xOld) + ascale c v + ascale d w) i = nan := by
      intros
      simp [ascale, hg]
    have hx : ∀ c : ℝ, ∀ v : ι → Ext ℝ, v i = nan → prox v c i = nan := fun c v hv => hp v c i hv
    simp only [NF.pogmStep]
    rw [if_neg, if_neg]
    · exact ⟨hx _ _ (hz _ _ _ _ 0 _ _ _), rfl, rfl⟩
    · rw [vd _ _ (Or.inl (by simp [hg]))]
      simp
    · rw [vd _ _ (Or.inl (by simp [aneg, hg, neg]))]
      simp
  intro r
  have hr : ∀ n, (r n).sigma = s.sigma := by
    intro n
    induction n with
    | zero => rfl
    | succ n ih =>
      simp only [r, Function.iterate_succ_apply'] at ih ⊢
      rw [(step _).2.1, ih]
  refine ⟨?_, hr (n + 1), ?_⟩
  · simp only [r, Function.iterate_succ_apply']
    exact (step _).1
  · simp only [r, Function.iterate_succ_apply']
    exact (step _).2.2

/-- `Condat`, denoising with a dense linear operator with at least one row: a NaN pixel makes the whole dual variable
NaN at the first update and the whole image NaN from the second update on. -/
theorem C146_condat_nan (y : ι → Ext ℝ) (M : κ → ι → ℝ) (prox : (ι → Ext ℝ) → ℝ → ι → Ext ℝ)
    (proxDual : (κ → Ext ℝ) → ℝ → κ → Ext ℝ) (hp : KeepsNaN prox) (U : Condat.Upd)
    (s : Condat.St (ι → Ext ℝ) (κ → Ext ℝ)) (i : ι) (h : y i = nan) (k : κ) (n : ℕ) (j : ι) :
    let O : Condat.Ops (ι → Ext ℝ) (κ → Ext ℝ) := ⟨idGrad y, prox, proxDual, matMul M, matMul fun j k => M k j⟩
    ((NF.condatStep O U)^[n + 1] s).x i = nan ∧ ((NF.condatStep O U)^[n + 1] s).y k = nan ∧
      ((NF.condatStep O U)^[n + 2] s).x j = nan := by
  intro O
  have xi : ∀ s, (NF.condatHalf O s).1 i = nan := by
    intro s
    apply hp
    simp [asub, ascale, O, idGrad, h]
  have yi : ∀ s k, (NF.condatHalf O s).2 k = nan := by
    intro s k
    have h1 : O.op (asub (ascale 2 (NF.condatHalf O s).1) s.x) k = nan := sum_nan _ i (by simp [asub, ascale, xi s])
    change asub (s.y + ascale s.sigma (O.op (asub (ascale 2 (NF.condatHalf O s).1) s.x))) _ k = nan
    simp [asub, ascale, h1]
  have step : ∀ s, (NF.condatStep O U s).x i = nan ∧ ∀ k, (NF.condatStep O U s).y k = nan := by
    intro s
    constructor
    · change (ascale s.rho (NF.condatHalf O s).1 + ascale (1 - s.rho) s.x) i = nan
      simp [ascale, xi s]
    · intro k
      change (ascale s.rho (NF.condatHalf O s).2 + ascale (1 - s.rho) s.y) k = nan
      simp [ascale, yi s k]
  have step2 : ∀ s, s.y k = nan → (NF.condatStep O U s).x j = nan := by
    intro s hs
    have h1 : O.adj s.y j = nan := sum_nan _ k (by simp [hs])
    have h2 : (NF.condatHalf O s).1 j = nan := by
      apply hp
      simp [asub, ascale, h1]
    change (ascale s.rho (NF.condatHalf O s).1 + ascale (1 - s.rho) s.x) j = nan
    simp [ascale, h2]
  refine ⟨?_, ?_, ?_⟩
  · rw [Function.iterate_succ_apply']
    exact (step _).1
  · rw [Function.iterate_succ_apply']
    exact (step _).2 k
  · rw [Function.iterate_succ_apply']
    apply step2
    rw [Function.iterate_succ_apply']
    exact (step _).2 k

/-! ### Gradient descent -/

/-- A proximity operator called with an array of factors keeps NaN in place. -/
def KeepsNaN' (prox : (ι → Ext ℝ) → (ι → Ext ℝ) → ι → Ext ℝ) : Prop :=
  ∀ x f i, x i = nan → prox x f i = nan

theorem gd_step_nan (c : GDConf ι) (hp : KeepsNaN' c.prox) (idx : ℕ) (grad : (ι → Ext ℝ) → ι → Ext ℝ) (s : GDSt ι)
    (i : ι) (hg : grad s.xOld i = nan) : (gdUpdate c idx grad s).xOld i = nan := by
  have hd : (gdSpeed c (grad s.xOld) (gdDir c idx (grad s.xOld) s)).dir i = nan := by
    rcases c with ⟨k, e, ep, eu, pr⟩
    cases k <;> simp [gdSpeed, gdDir, hg]
  unfold gdUpdate
  simp only
  split
  · refine hp _ _ _ ?_
    rcases c with ⟨k, e, ep, eu, pr⟩
    cases k <;> simp only [gdReset] <;> (simp only [hd]; simp)
  · simp only [hd]
    simp

/-- Every gradient descent class: once the gradient is NaN at a pixel (a NaN datum or starting value), the pixel is NaN
after every update, whatever the history of indices and data, as long as the gradient of an array that is NaN there
is NaN there. -/
theorem C146_gradient_descent_nan (c : GDConf ι) (hp : KeepsNaN' c.prox) (i : ι) (s : GDSt ι) (idx : ℕ)
    (g : (ι → Ext ℝ) → ι → Ext ℝ) (hg : g s.xOld i = nan) (h : List (ℕ × ((ι → Ext ℝ) → ι → Ext ℝ)))
    (hh : ∀ p ∈ h, ∀ x, x i = nan → p.2 x i = nan) : (NF.gdRun c ((idx, g) :: h) s).xOld i = nan := by
  rw [NF.gdRun]
  have h0 := gd_step_nan c hp idx g s i hg
  simp only
  generalize gdUpdate c idx g s = t at h0
  induction h generalizing t with
  | nil => exact h0
  | cons p h ih =>
    rw [NF.gdRun]
    exact ih (fun q hq => hh q (List.mem_cons_of_mem _ hq)) _
      (gd_step_nan c hp _ _ _ i (hh p List.mem_cons_self _ h0))

/-! ## C147: finite data -/

/-- `GenForwardBackward` on finite data is the real model: every iterate is finite. -/
theorem C147_genforwardbackward_finite {S : Type} (grad : (ι → ℝ) → ι → ℝ) (gradX : (ι → Ext ℝ) → ι → Ext ℝ)
    (hg : ∀ x, gradX (finArr x) = finArr (grad x))
    (ops : List (((ι → ℝ) → ℝ → ι → ℝ) × ((ι → Ext ℝ) → ℝ → ι → Ext ℝ)))
    (hp : ∀ p ∈ ops, ∀ x c, p.2 (finArr x) c = finArr (p.1 x c)) (w : List ℝ) (gu lu : Option (S → ℝ → ℝ × S))
    (s : FB.GenSt S (ι → ℝ)) :
    let emb := fun s : FB.GenSt S (ι → ℝ) =>
      (⟨finArr s.xOld, s.z.map finArr, s.gamma, s.lam, s.rules⟩ : FB.GenSt S (ι → Ext ℝ))
    NF.genStep gradX (ops.map Prod.snd) w gu lu (emb s) = emb (Cx.genStep grad (ops.map Prod.fst) w gu lu s) := by
  intro emb
  have hz : ∀ (ops : List (((ι → ℝ) → ℝ → ι → ℝ) × ((ι → Ext ℝ) → ℝ → ι → Ext ℝ)))
      (_ : ∀ p ∈ ops, ∀ x c, p.2 (finArr x) c = finArr (p.1 x c)) (zs : List (ι → ℝ)) (ws : List ℝ) (x g : ι → ℝ)
      (gamma lam : ℝ),
      NF.genZ (finArr x) (finArr g) gamma lam (ops.map Prod.snd) (zs.map finArr) ws =
        (Cx.genZ x g gamma lam (ops.map Prod.fst) zs ws).map finArr := by
    intro ops
    induction ops with
    | nil => intro _ zs ws x g gamma lam; simp [NF.genZ, Cx.genZ]
    | cons p ps ih =>
      intro hp zs ws x g gamma lam
      cases zs with
      | nil => simp [NF.genZ, Cx.genZ]
      | cons z zs =>
        cases ws with
        | nil => simp [NF.genZ, Cx.genZ]
        | cons w ws =>
          simp only [List.map_cons, NF.genZ, Cx.genZ]
          rw [ih (fun q hq => hp q (List.mem_cons_of_mem _ hq))]
          congr 1
          have e : asub (asub (ascale 2 (finArr x)) (finArr z)) (ascale gamma (finArr g)) =
              finArr ((2 : ℝ) • x - z - gamma • g) := by
            funext i
            simp [asub, ascale, finArr]
          rw [e, hp p List.mem_cons_self]
          funext i
          simp [asub, ascale, finArr]
  have hsum : ∀ l : List (ι → ℝ), (l.map finArr).sum = finArr l.sum := by
    intro l
    induction l with
    | nil => rfl
    | cons a l ih =>
      rw [List.map_cons, List.sum_cons, ih, List.sum_cons]
      rfl
  have hzip : ∀ (zs : List (ι → ℝ)) (ws : List ℝ), List.zipWith (fun z w => ascale w z) (zs.map finArr) ws =
      (List.zipWith (fun (z : ι → ℝ) (w : ℝ) => w • z) zs ws).map finArr := by
    intro zs
    induction zs with
    | nil => intro ws; simp
    | cons z zs ih =>
      intro ws
      cases ws with
      | nil => simp
      | cons w ws =>
        simp only [List.map_cons, List.zipWith_cons_cons, ih]
        rfl
  simp only [NF.genStep, Cx.genStep, emb, hg, hz ops hp, hzip, hsum]

/-- `Condat` on finite data with `sigma ≠ 0` is the real model: every iterate is finite. -/
theorem C147_condat_finite (O : Condat.Ops (ι → ℝ) (κ → ℝ)) (OX : Condat.Ops (ι → Ext ℝ) (κ → Ext ℝ))
    (hg : ∀ x, OX.grad (finArr x) = finArr (O.grad x)) (hp : ∀ x c, OX.prox (finArr x) c = finArr (O.prox x c))
    (hd : ∀ x c, OX.proxDual (finArr x) c = finArr (O.proxDual x c)) (ho : ∀ x, OX.op (finArr x) = finArr (O.op x))
    (ha : ∀ x, OX.adj (finArr x) = finArr (O.adj x)) (U : Condat.Upd) (hU : ∀ v, v ≠ 0 → Condat.app U.sigma v ≠ 0)
    (s : Condat.St (ι → ℝ) (κ → ℝ)) (hs : s.sigma ≠ 0) (n : ℕ) :
    let emb := fun s : Condat.St (ι → ℝ) (κ → ℝ) =>
      (⟨finArr s.x, finArr s.y, s.rho, s.sigma, s.tau⟩ : Condat.St (ι → Ext ℝ) (κ → Ext ℝ))
    (NF.condatStep OX U)^[n] (emb s) = emb ((Cx.condatStep O U)^[n] s) := by
  intro emb
  have step : ∀ s : Condat.St (ι → ℝ) (κ → ℝ), s.sigma ≠ 0 →
      NF.condatStep OX U (emb s) = emb (Cx.condatStep O U s) := by
    intro s hs
    have e1 : asub (asub (finArr s.x) (ascale s.tau (finArr (O.grad s.x)))) (ascale s.tau (finArr (O.adj s.y))) =
        finArr (s.x - s.tau • O.grad s.x - s.tau • O.adj s.y) := by
      funext i
      simp [asub, ascale, finArr]
    have e2 : ∀ a : ι → ℝ, asub (ascale 2 (finArr a)) (finArr s.x) = finArr ((2 : ℝ) • a - s.x) := by
      intro a
      funext i
      simp [asub, ascale, finArr]
    have e3 : ∀ a : κ → ℝ, finArr s.y + ascale s.sigma (finArr a) = finArr (s.y + s.sigma • a) := by
      intro a
      funext i
      simp [ascale, finArr]
    have e4 : ∀ a : κ → ℝ, adiv (finArr a) s.sigma = finArr ((1 / s.sigma) • a) := by
      intro a
      funext i
      simp only [adiv, finArr, fin_div _ _ hs, Pi.smul_apply, smul_eq_mul]
      congr 1
      field_simp
    have e5 : ∀ a b : κ → ℝ, asub (finArr a) (ascale s.sigma (finArr b)) = finArr (a - s.sigma • b) := by
      intro a b
      funext i
      simp [asub, ascale, finArr]
    have e6 : ∀ {ι : Type} (a b : ι → ℝ), ascale s.rho (finArr a) + ascale (1 - s.rho) (finArr b) =
        finArr (s.rho • a + (1 - s.rho) • b) := by
      intro ι a b
      funext i
      simp [ascale, finArr]
    simp only [NF.condatStep, NF.condatHalf, Cx.condatStep, Cx.condatHalf, emb, hg, ha, e1, hp, e2, ho, e3, e4, hd, e5, e6]
  have hσ : ∀ n, ((Cx.condatStep O U)^[n] s).sigma ≠ 0 := by
    intro n
    induction n with
    | zero => exact hs
    | succ n ih =>
      rw [Function.iterate_succ_apply']
      exact hU _ ih
  induction n with
  | zero => rfl
  | succ n ih => rw [Function.iterate_succ_apply', Function.iterate_succ_apply', ih, step _ (hσ n)]

/-- `POGM` on finite data, with `beta > 0` and `sigma_bar ≥ 0` (as its constructor asks), is the real model: every
iterate is finite. -/
theorem C147_pogm_finite (grad : (ι → ℝ) → ι → ℝ) (prox : (ι → ℝ) → ℝ → ι → ℝ) (gradX : (ι → Ext ℝ) → ι → Ext ℝ)
    (proxX : (ι → Ext ℝ) → ℝ → ι → Ext ℝ) (hg : ∀ x, gradX (finArr x) = finArr (grad x))
    (hp : ∀ x c, proxX (finArr x) c = finArr (prox x c)) (beta sigmaBar : ℝ) (hβ : 0 < beta) (hσ : 0 ≤ sigmaBar)
    (s : FB.Pogm (ι → ℝ)) (hs : 0 ≤ s.sigma) (ht : 1 ≤ s.t) (n : ℕ) :
    let emb := fun s : FB.Pogm (ι → ℝ) => (⟨finArr s.uOld, finArr s.xOld, finArr s.yOld, finArr s.z, finArr s.gOld, s.xi,
      s.sigma, s.t⟩ : FB.Pogm (ι → Ext ℝ))
    (NF.pogmStep gradX proxX beta sigmaBar)^[n] (emb s) =
      emb ((Cx.pogmStep (fun a b => ∑ i, a i * b i < 0) grad prox beta sigmaBar)^[n] s) := by
  classical
  intro emb
  have vd : ∀ a b : ι → ℝ, vdotNeg (finArr a) (finArr b) = true ↔ ∑ i, a i * b i < 0 := by
    intro a b
    have : (∑ i, mul (finArr a i) (finArr b i)) = fin (∑ i, a i * b i) := by
      simp only [finArr, fin_mul, sum_fin]
    simp only [vdotNeg, this]
    rw [Bool.not_eq_true', Bool.eq_false_iff, ne_eq, fin_ge, not_le]
  have hs1 : ∀ t : ℝ, 1 ≤ t → 1 ≤ 0.5 * (1 + Real.sqrt (1 + 4 * t ^ 2)) := by
    intro t ht
    have : (1 : ℝ) ≤ Real.sqrt (1 + 4 * t ^ 2) := Real.one_le_sqrt.mpr (by nlinarith)
    norm_num
    linarith
  have step : ∀ s : FB.Pogm (ι → ℝ), 0 ≤ s.sigma → 1 ≤ s.t →
      NF.pogmStep gradX proxX beta sigmaBar (emb s) =
        emb (Cx.pogmStep (fun a b => ∑ i, a i * b i < 0) grad prox beta sigmaBar s) ∧
      0 ≤ (Cx.pogmStep (fun a b => ∑ i, a i * b i < 0) grad prox beta sigmaBar s).sigma ∧
      1 ≤ (Cx.pogmStep (fun a b => ∑ i, a i * b i < 0) grad prox beta sigmaBar s).t := by
    intro s hs ht
    have htn := hs1 s.t ht
    simp only [NF.pogmStep, Cx.pogmStep, emb, hg]
    set tN : ℝ := 0.5 * (1 + Real.sqrt (1 + 4 * s.t ^ 2)) with htN
    set tR := (s.t - 1) / tN with htR
    set sR := s.sigma * s.t / tN with hsR
    have h1 : 0 ≤ tR := div_nonneg (by linarith) (by linarith)
    have h2 : 0 ≤ sR := div_nonneg (mul_nonneg hs (by linarith)) (by linarith)
    have hxi : beta * (1 + tR + sR) ≠ 0 := (mul_pos hβ (by linarith)).ne'
    set xi := beta * (1 + tR + sR) with hxidef
    clear_value tN tR sR xi
    have a1 : ∀ a b : ι → ℝ, ascale (-beta) (finArr a) + finArr b = finArr (-(beta • a) + b) := by
      intro a b
      funext i
      simp [ascale, finArr]
    have a2 : ∀ (r : ℝ) (u v : ι → ℝ), ascale (-r) (asub (finArr s.xOld) (finArr s.z)) + finArr u +
        ascale tR (asub (finArr u) (finArr v)) + ascale sR (asub (finArr u) (finArr s.xOld)) =
        finArr (-(r • (s.xOld - s.z)) + u + tR • (u - v) + sR • (u - s.xOld)) := by
      intro r u v
      funext i
      simp [ascale, asub, finArr]
    have a3 : ∀ a b c : ι → ℝ, adiv (asub (finArr a) (finArr b)) xi + finArr c = finArr ((1 / xi) • (a - b) + c) := by
      intro a b c
      funext i
      simp only [adiv, asub, finArr, fin_sub, fin_div _ _ hxi, Pi.add_apply, Pi.smul_apply, smul_eq_mul, Pi.sub_apply,
        fin_add]
      congr 2
      field_simp
    have a4 : ∀ a : ι → ℝ, aneg (finArr a) = finArr (-a) := by
      intro a
      funext i
      simp [aneg, finArr, neg]
    have a5 : ∀ a b : ι → ℝ, asub (finArr a) (finArr b) = finArr (a - b) := by
      intro a b
      funext i
      simp [asub, finArr]
    simp only [a1, a2, hp, a3, a4]
    rw [a5]
    simp only [vd]
    refine ⟨?_, ?_, ?_⟩
    · split
      · rfl
      · split <;> rfl
    · split
      · exact zero_le_one
      · split
        · exact mul_nonneg hs hσ
        · exact hs
    · split
      · exact le_refl _
      · split <;> exact htn
  have inv : ∀ n, let t := (Cx.pogmStep (fun a b => ∑ i, a i * b i < 0) grad prox beta sigmaBar)^[n] s
      0 ≤ t.sigma ∧ 1 ≤ t.t := by
    intro n
    induction n with
    | zero => exact ⟨hs, ht⟩
    | succ n ih =>
      simp only [Function.iterate_succ_apply'] at ih ⊢
      exact (step _ ih.1 ih.2).2
  induction n with
  | zero => rfl
  | succ n ih => rw [Function.iterate_succ_apply', Function.iterate_succ_apply', ih, (step _ (inv n).1 (inv n).2).1]

/-! ### Gradient descent on finite data -/

/-- The state of a run on real arrays, seen in the extended numbers. -/
def finGD (s : GD.St ι ℝ) : GDSt ι :=
  ⟨finArr s.xOld, finArr s.xNew, finArr s.dir, finArr s.speed, s.eta, s.betaPow, s.gammaPow,
    fun j => finArr (s.memory j)⟩

/-- The parameters accepted by the constructors, with `epsilon > 0` for the classes that use it. -/
def ValidGD (k : GD.Kind) (eps : ℝ) : Prop :=
  match k with
  | .vanilla => eps = 0
  | .momentum _ => eps = 0
  | .rmsprop gamma => 0 ≤ gamma ∧ gamma ≤ 1 ∧ 0 < eps
  | .adam gamma _ => 0 ≤ gamma ∧ gamma < 1 ∧ 0 < eps
  | _ => 0 < eps

/-- What keeps the divisions defined: the speed is one for the classes without scaling and non-negative otherwise. -/
def GDInv (k : GD.Kind) (s : GD.St ι ℝ) : Prop :=
  (match k with
    | .vanilla => ∀ i, s.speed i = 1
    | .momentum _ => ∀ i, s.speed i = 1
    | _ => ∀ i, 0 ≤ s.speed i) ∧ 0 ≤ s.gammaPow ∧ s.gammaPow ≤ 1

theorem gd_prepare_inv (c : GD.Conf ι ℝ) (hc : ValidGD c.kind c.eps) (idx : ℕ) (grad : (ι → ℝ) → ι → ℝ) (s : GD.St ι ℝ)
    (hs : GDInv c.kind s) : GDInv c.kind (GD.prepare c idx grad s) ∧
      (∀ i, 0 ≤ (GD.prepare c idx grad s).speed i) ∧
      ∀ i, Real.sqrt ((GD.prepare c idx grad s).speed i) + c.eps ≠ 0 := by
  rcases c with ⟨k, e, ep, eu, pr⟩
  have pos : ∀ v : ℝ, 0 < ep → Real.sqrt v + ep ≠ 0 := fun v h => by
    have := Real.sqrt_nonneg v
    linarith
  obtain ⟨h1, h2, h3⟩ := hs
  cases k with
  | generic => exact ⟨⟨h1, h2, h3⟩, h1, fun i => pos _ hc⟩
  | saga => exact ⟨⟨h1, h2, h3⟩, h1, fun i => pos _ hc⟩
  | vanilla =>
    have hc : ep = 0 := hc
    have h1 : ∀ i, s.speed i = 1 := h1
    refine ⟨⟨h1, h2, h3⟩, fun i => ?_, fun i => ?_⟩
    · change 0 ≤ s.speed i
      rw [h1]
      exact zero_le_one
    · change Real.sqrt (s.speed i) + ep ≠ 0
      rw [h1, hc]
      simp
  | momentum b =>
    have hc : ep = 0 := hc
    have h1 : ∀ i, s.speed i = 1 := h1
    refine ⟨⟨h1, h2, h3⟩, fun i => ?_, fun i => ?_⟩
    · change 0 ≤ s.speed i
      rw [h1]
      exact zero_le_one
    · change Real.sqrt (s.speed i) + ep ≠ 0
      rw [h1, hc]
      simp
  | ada =>
    have h1 : ∀ i, 0 ≤ s.speed i := h1
    have : ∀ i, 0 ≤ s.speed i + ‖grad s.xOld i‖ ^ 2 := fun i => add_nonneg (h1 i) (sq_nonneg _)
    exact ⟨⟨this, h2, h3⟩, this, fun i => pos _ hc⟩
  | rmsprop g =>
    have h1 : ∀ i, 0 ≤ s.speed i := h1
    obtain ⟨c1, c2, c3⟩ : 0 ≤ g ∧ g ≤ 1 ∧ 0 < ep := hc
    have : ∀ i, 0 ≤ g * s.speed i + (1 - g) * ‖grad s.xOld i‖ ^ 2 := fun i =>
      add_nonneg (mul_nonneg c1 (h1 i)) (mul_nonneg (by linarith) (sq_nonneg _))
    exact ⟨⟨this, h2, h3⟩, this, fun i => pos _ c3⟩
  | adam g b =>
    have h1 : ∀ i, 0 ≤ s.speed i := h1
    obtain ⟨c1, c2, c3⟩ : 0 ≤ g ∧ g < 1 ∧ 0 < ep := hc
    have hg : s.gammaPow * g < 1 := by nlinarith
    have : ∀ i, 0 ≤ 1 / (1 - s.gammaPow * g) * (g * s.speed i + (1 - g) * ‖grad s.xOld i‖ ^ 2) := fun i =>
      mul_nonneg (div_nonneg zero_le_one (by linarith))
        (add_nonneg (mul_nonneg c1 (h1 i)) (mul_nonneg (by linarith) (sq_nonneg _)))
    exact ⟨⟨this, mul_nonneg h2 c1, hg.le⟩, this, fun i => pos _ c3⟩

theorem gd_prepare_fin (c : GD.Conf ι ℝ) (cX : GDConf ι) (hk : cX.kind = c.kind) (he : cX.epochSize = c.epochSize)
    (idx : ℕ) (g : ι → ℝ) (s : GD.St ι ℝ) :
    gdSpeed cX (finArr g) (gdDir cX idx (finArr g) (finGD s)) = finGD (GD.updateSpeed c g (GD.updateDir c idx g s)) := by
  rcases c with ⟨k, e, ep, eu, pr⟩
  rcases cX with ⟨k', e', ep', eu', pr'⟩
  simp only at hk he
  subst hk he
  have hm : ∀ cy : ℕ, (fun j => if j = cy then finArr g else finArr (s.memory j)) =
      fun j => finArr (if j = cy then g else s.memory j) := by
    intro cy
    funext j
    split <;> rfl
  have sqa : ∀ r : ℝ, sqAbs (fin r) = fin (‖r‖ ^ 2) := by
    intro r
    simp [sqAbs, sq]
  have mem : ∀ j, (finGD s).memory j = finArr (s.memory j) := fun _ => rfl
  cases k' with
  | generic => rfl
  | vanilla => rfl
  | ada =>
    simp only [gdSpeed, gdDir, GD.updateSpeed, GD.updateDir, finGD, GDSt.mk.injEq, and_true, true_and]
    funext i
    simp only [finArr, sqa, fin_add]
  | rmsprop ga =>
    simp only [gdSpeed, gdDir, GD.updateSpeed, GD.updateDir, finGD, GDSt.mk.injEq, and_true, true_and]
    funext i
    simp only [finArr, sqa, fin_add, fin_mul]
  | momentum b =>
    simp only [gdSpeed, gdDir, GD.updateSpeed, GD.updateDir, finGD, GDSt.mk.injEq, and_true, true_and]
    funext i
    simp only [finArr, fin_add, fin_mul]
    rfl
  | adam ga b =>
    simp only [gdSpeed, gdDir, GD.updateSpeed, GD.updateDir, finGD, GDSt.mk.injEq, and_true, true_and]
    constructor
    · funext i
      simp only [finArr, fin_add, fin_mul]
      rfl
    · funext i
      simp only [finArr, sqa, fin_add, fin_mul]
  | saga =>
    simp only [gdSpeed, gdDir, GD.updateSpeed, GD.updateDir, finGD, GDSt.mk.injEq, true_and]
    constructor
    · funext i
      simp only [finArr, fin_add, fin_sub]
    · exact hm _

theorem gd_step_fin (c : GD.Conf ι ℝ) (cX : GDConf ι) (hk : cX.kind = c.kind) (he : cX.epochSize = c.epochSize)
    (hep : cX.eps = c.eps) (heu : cX.etaUpdate = c.etaUpdate)
    (hp : ∀ x t, cX.prox (finArr x) (finArr t) = finArr (c.prox x t)) (hc : ValidGD c.kind c.eps) (idx : ℕ)
    (grad : (ι → ℝ) → ι → ℝ) (gradX : (ι → Ext ℝ) → ι → Ext ℝ) (hg : ∀ x, gradX (finArr x) = finArr (grad x))
    (s : GD.St ι ℝ) (hs : GDInv c.kind s) :
    gdUpdate cX idx gradX (finGD s) = finGD (gdNext c idx grad s) ∧ GDInv c.kind (gdNext c idx grad s) := by
  obtain ⟨i1, i2, i3⟩ := gd_prepare_inv c hc idx grad s hs
  have e1 : gdSpeed cX (gradX (finGD s).xOld) (gdDir cX idx (gradX (finGD s).xOld) (finGD s)) =
      finGD (GD.prepare c idx grad s) := by
    change gdSpeed cX (gradX (finArr s.xOld)) (gdDir cX idx (gradX (finArr s.xOld)) (finGD s)) = _
    rw [hg]
    exact gd_prepare_fin c cX hk he idx _ s
  constructor
  · unfold gdUpdate gdNext
    simp only [e1]
    generalize GD.prepare c idx grad s = t at i1 i2 i3
    have e2 : gdStepOf cX (finGD t) = finArr (GD.stepOf c t) := by
      funext i
      have hq : (finGD t).speed i = fin (t.speed i) := rfl
      have hsq : Ext.sqrt (fin (t.speed i)) = fin (Real.sqrt (t.speed i)) := by
        simp [Ext.sqrt, not_lt.mpr (i2 i)]
      simp only [gdStepOf, hq, hsq, hep, fin_add]
      rw [fin_div _ _ (i3 i)]
      rfl
    rw [e2, he, heu]
    have e3 : (fun i => sub ((finGD t).xOld i) (mul (finArr (GD.stepOf c t) i) ((finGD t).dir i))) =
        finArr (fun i => t.xOld i - RCLike.ofReal (K := ℝ) (GD.stepOf c t i) * t.dir i) := by
      funext i
      simp [finGD, finArr]
    rw [e3]
    rcases c with ⟨k, e, ep, eu, pr⟩
    rcases cX with ⟨k', e', ep', eu', pr'⟩
    simp only at hk he hep heu hp
    subst hk he hep heu
    split
    · cases k' <;> simp only [gdReset, GD.reset, hp, finGD] <;> rfl
    · rfl
  · unfold gdNext
    simp only
    generalize GD.prepare c idx grad s = t at i1
    rcases c with ⟨k, e, ep, eu, pr⟩
    simp only at i1
    split <;> cases k <;> exact i1

/-- Every gradient descent class on finite data, with `epsilon > 0` where it is used, over every history of indices and
gradients: the run is the run of the real model, so every iterate, direction and speed is finite. -/
theorem C147_gradient_descent_finite_partial (c : GD.Conf ι ℝ) (cX : GDConf ι) (hk : cX.kind = c.kind)
    (he : cX.epochSize = c.epochSize) (hep : cX.eps = c.eps) (heu : cX.etaUpdate = c.etaUpdate)
    (hp : ∀ x t, cX.prox (finArr x) (finArr t) = finArr (c.prox x t)) (hc : ValidGD c.kind c.eps)
    (lift : ((ι → ℝ) → ι → ℝ) → (ι → Ext ℝ) → ι → Ext ℝ) (h : GD.History ι ℝ)
    (hg : ∀ p ∈ h, ∀ x, lift p.2 (finArr x) = finArr (p.2 x)) (s : GD.St ι ℝ) (hs : GDInv c.kind s) :
    NF.gdRun cX (h.map fun p => (p.1, lift p.2)) (finGD s) = finGD (gdRun c h s) := by
  induction h generalizing s with
  | nil => rfl
  | cons p h ih =>
    obtain ⟨h1, h2⟩ := gd_step_fin c cX hk he hep heu hp hc p.1 p.2 (lift p.2) (hg p List.mem_cons_self) s hs
    rw [List.map_cons, NF.gdRun, h1]
    exact ih (fun q hq => hg q (List.mem_cons_of_mem _ hq)) _ h2

/-- A freshly constructed object meets the invariant. -/
theorem gd_init_inv (k : GD.Kind) (x : ι → ℝ) (eta : ℝ) :
    GDInv k (⟨x, x, fun _ => 0, GD.initSpeed k, eta, 1, 1, fun _ _ => 0⟩ : GD.St ι ℝ) := by
  cases k <;> exact ⟨fun _ => by simp [GD.initSpeed], zero_le_one, le_refl _⟩

/-- False with `epsilon = 0`: AdaGrad, RMSprop and ADAM turn every pixel at which the first gradient vanishes into NaN,
for every learning rate; a pixel that starts at its optimum is destroyed. -/
theorem C147_zero_epsilon_refuted (c : GDConf ι) (hp : KeepsNaN' c.prox)
    (hk : c.kind = .ada ∨ (∃ g, c.kind = .rmsprop g) ∨ ∃ g b, c.kind = .adam g b) (he : c.eps = 0) (idx : ℕ)
    (grad : (ι → Ext ℝ) → ι → Ext ℝ) (s : GDSt ι) (i : ι) (hs : s.speed i = fin 0) (hd : s.dir i = fin 0)
    (x : ℝ) (_hx : s.xOld i = fin x) (hg : grad s.xOld i = fin 0) : (gdUpdate c idx grad s).xOld i = nan := by
  have key : (gdSpeed c (grad s.xOld) (gdDir c idx (grad s.xOld) s)).dir i = fin 0 ∧
      (gdSpeed c (grad s.xOld) (gdDir c idx (grad s.xOld) s)).speed i = fin 0 := by
    rcases c with ⟨k, e, ep, eu, pr⟩
    simp only at hk
    rcases hk with rfl | ⟨g, rfl⟩ | ⟨g, b, rfl⟩ <;> simp [gdSpeed, gdDir, hg, hs, hd, sqAbs]
  have hst : mul (gdStepOf c (gdSpeed c (grad s.xOld) (gdDir c idx (grad s.xOld) s)) i) (fin 0) = nan := by
    simp only [gdStepOf, key.2, he, Ext.sqrt, lt_irrefl, if_false, Real.sqrt_zero, fin_add, add_zero, div, if_true]
    unfold infOf
    split_ifs <;> simp [mul, infOf, neg]
  unfold gdUpdate
  simp only
  split
  · refine hp _ _ _ ?_
    rcases c with ⟨k, e, ep, eu, pr⟩
    simp only at hk
    rcases hk with rfl | ⟨g, rfl⟩ | ⟨g, b, rfl⟩ <;> simp only [gdReset] <;> rw [key.1, hst] <;> simp
  · simp only [key.1, hst]
    simp

/-- With `epsilon = 0` the generic class and SAGA, whose speed stays zero, lose every pixel at the first update that
does not apply the proximity operator: no entry is finite. -/
theorem C147_zero_epsilon_generic (c : GDConf ι) (hk : c.kind = .generic ∨ c.kind = .saga) (he : c.eps = 0) (idx : ℕ)
    (hidx : idx % c.epochSize ≠ 0) (grad : (ι → Ext ℝ) → ι → Ext ℝ) (s : GDSt ι) (i : ι) (hs : s.speed i = fin 0)
    (hη : s.eta ≠ 0) (r : ℝ) : (gdUpdate c idx grad s).xOld i ≠ fin r := by
  have key : (gdSpeed c (grad s.xOld) (gdDir c idx (grad s.xOld) s)).speed i = fin 0 := by
    rcases c with ⟨k, e, ep, eu, pr⟩
    simp only at hk
    rcases hk with rfl | rfl <;> simp [gdSpeed, gdDir, hs]
  have heta : (gdSpeed c (grad s.xOld) (gdDir c idx (grad s.xOld) s)).eta = s.eta := by
    rcases c with ⟨k, e, ep, eu, pr⟩
    simp only at hk
    rcases hk with rfl | rfl <;> simp [gdSpeed, gdDir]
  unfold gdUpdate
  simp only [if_neg hidx]
  generalize gdSpeed c (grad s.xOld) (gdDir c idx (grad s.xOld) s) = t at key heta
  have hst : gdStepOf c t i = posInf ∨ gdStepOf c t i = negInf := by
    simp only [gdStepOf, key, heta, he, Ext.sqrt, lt_irrefl, if_false, Real.sqrt_zero, fin_add, add_zero, div, if_true,
      infOf, if_neg hη]
    split_ifs <;> simp
  have hm : ∀ v : Ext ℝ, ∀ r, mul (gdStepOf c t i) v ≠ fin r := by
    intro v r
    rcases hst with h | h <;> rw [h] <;> cases v <;> simp [mul, infOf, neg] <;> split_ifs <;> simp
  unfold sub
  apply add_nonfinite
  right
  intro r h
  have hm' := hm (t.dir i)
  generalize mul (gdStepOf c t i) (t.dir i) = v at h hm'
  cases v with
  | fin a => exact hm' a rfl
  | _ => simp [neg] at h

/-! ## Concrete cases -/

example (n : ℕ) : ((NF.genStep (S := Unit) (idGrad ![nan, fin 3]) [softOp fun _ => 1, posOp] [0.5, 0.5] none none)^[n + 1]
    ⟨fun _ => fin 0, [fun _ => fin 0, fun _ => fin 0], 1, 1, ()⟩).xOld 0 = nan :=
  C146_genforwardbackward_nan _ _ (by
    intro p hp
    rcases List.mem_cons.mp hp with rfl | hp
    · exact (C146_thresholds_keep_nan _).1
    · rcases List.mem_cons.mp hp with rfl | hp
      · exact (C146_thresholds_keep_nan fun _ => 0).2.2.2.1
      · simp at hp) (by simp) _ rfl _ _ _ rfl 0 (Or.inl rfl) n

example (n : ℕ) : ((NF.pogmStep (idGrad ![nan, fin 3]) posOp 1 0.96)^[n + 1]
    ⟨fun _ => fin 0, fun _ => fin 0, fun _ => fin 0, fun _ => fin 0, fun _ => fin 0, 1, 1, 1⟩).xOld 0 = nan :=
  (C146_pogm_nan _ _ (C146_thresholds_keep_nan fun _ => 0).2.2.2.1 1 0.96 _ 0 rfl n).1

/-- Condat on two pixels and two coefficients: pixel 1, whose datum is finite, is NaN after two updates. -/
example : ((NF.condatStep ⟨idGrad ![nan, fin 3], posOp, softOp fun _ => 1, matMul fun _ _ : Fin 2 => 0,
    matMul fun _ _ : Fin 2 => 0⟩ ⟨none, none, none⟩)^[2] ⟨fun _ => fin 0, fun _ => fin 0, 0.5, 1, 1⟩).x 1 = nan :=
  (C146_condat_nan _ (fun _ _ => 0) _ _ (C146_thresholds_keep_nan fun _ => 0).2.2.2.1 _ _ 0 rfl 0 0 1).2.2

/-- AdaGrad without regularisation, three updates with three different data. -/
example : (NF.gdRun ⟨.ada, 1, 1e-6, none, fun x _ => x⟩ [(0, idGrad ![nan, fin 3]), (1, idGrad ![fin 1, fin 3]),
    (2, idGrad ![fin 5, nan])] ⟨fun _ => fin 0, fun _ => fin 0, fun _ => fin 0, fun _ => fin 0, 1, 1, 1,
      fun _ _ => fin 0⟩).xOld 0 = nan :=
  C146_gradient_descent_nan _ (fun _ _ _ h => h) 0 _ 0 _ (by simp [idGrad]) _ (by
    intro p hp x hx
    rcases List.mem_cons.mp hp with rfl | hp
    · simp [idGrad, hx]
    · rcases List.mem_cons.mp hp with rfl | hp
      · simp [idGrad, hx]
      · simp at hp)

/-- ADAM with `epsilon = 1e-8` on finite data: the hypotheses hold from construction on. -/
example (h : GD.History (Fin 2) ℝ) (lift : ((Fin 2 → ℝ) → Fin 2 → ℝ) → (Fin 2 → Ext ℝ) → Fin 2 → Ext ℝ)
    (hl : ∀ p ∈ h, ∀ x, lift p.2 (finArr x) = finArr (p.2 x)) (i : Fin 2) :
    ∃ r, (NF.gdRun ⟨.adam 0.9 0.9, 1, 1e-8, none, fun x _ => x⟩ (h.map fun p => (p.1, lift p.2))
      (finGD ⟨![1, 2], ![1, 2], fun _ => 0, GD.initSpeed (.adam 0.9 0.9), 1, 1, 1, fun _ _ => 0⟩)).xOld i = fin r :=
  ⟨_, by
    rw [C147_gradient_descent_finite_partial ⟨.adam 0.9 0.9, 1, 1e-8, none, fun x _ => x⟩ _ rfl rfl rfl rfl
      (fun _ _ => rfl) ⟨by norm_num, by norm_num, by norm_num⟩ lift h hl _ (gd_init_inv _ _ _)]
    rfl⟩

/-- AdaGrad started at the optimum of pixel 0 with `epsilon = 0.0`. -/
example : (gdUpdate ⟨.ada, 1, 0, none, fun x _ => x⟩ 0 (idGrad ![fin 5, fin 3])
    ⟨![fin 5, fin 0], ![fin 5, fin 0], fun _ => fin 0, fun _ => fin 0, 1, 1, 1, fun _ _ => fin 0⟩).xOld 0 = nan :=
  C147_zero_epsilon_refuted _ (fun _ _ _ h => h) (Or.inl rfl) rfl 0 _ _ 0 rfl rfl 5 rfl (by simp [idGrad])

example (r : ℝ) : (gdUpdate ⟨.saga, 2, 0, none, fun x _ => x⟩ 1 (idGrad ![fin 5, fin 3])
    ⟨![fin 5, fin 0], ![fin 5, fin 0], fun _ => fin 0, fun _ => fin 0, 1, 1, 1, fun _ _ => fin 0⟩).xOld 1 ≠ fin r :=
  C147_zero_epsilon_generic _ (Or.inr rfl) rfl 1 (by norm_num) _ _ 1 rfl one_ne_zero r

/-- POGM on finite data with the identity gradient and the positivity constraint. -/
example (n : ℕ) (i : Fin 2) : ∃ r, ((NF.pogmStep (idGrad (finArr ![1, 3])) posOp 1 0.96)^[n]
    ⟨finArr 0, finArr 0, finArr 0, finArr 0, finArr 0, 1, 1, 1⟩).xOld i = fin r :=
  ⟨_, congrFun (congrArg FB.Pogm.xOld (C147_pogm_finite (fun x => x - ![1, 3]) (fun x _ i => if 0 < x i then x i else 0) _ _
    (fun x => (C146_finite_gradients_agree (fun _ _ => 0) (fun _ : Fin 1 => 0) _ x 0 0 (by simp)).2.1)
    (fun x c => funext fun i => (C146_finite_entries_agree 0 x c i).2.2) 1 0.96 one_pos (by norm_num)
    ⟨0, 0, 0, 0, 0, 1, 1, 1⟩ zero_le_one le_rfl n)) i⟩

end Verif
