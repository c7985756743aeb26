import Verif.Props.Pogm
import Verif.Props.PrimalDual

/-!
# C40, C45, C48, C79: what a restart does, parameters of the other algorithms
-/

set_option linter.unusedSectionVars false

namespace Verif
open FB Spec Fista RealInnerProductSpace

section
variable {E : Type} [NormedAddCommGroup E] [InnerProductSpace ℝ E]

/-- C40: after any history of calls on a constructed object with an adaptive strategy: `is_restart` reports a
restart exactly when `⟨z_old - x_new, x_new - x_old⟩ ≥ 0`.  A restart resets `t` to one for the strategies
`adaptive-ii` and `adaptive-2` and keeps it for `adaptive`, `adaptive-i` and `adaptive-1`; without a restart
nothing changes. -/
theorem C40_adaptive_restart_effect (name : String)
    (hn : name ∈ ["adaptive", "adaptive-i", "adaptive-1", "adaptive-ii", "adaptive-2"])
    (mb s xi aCd : Option ℝ) (p q r : ℝ) (f : Fista.Obj) (hf : Fista.init (some name) mb s xi aCd p q r = .ok f)
    (beta : ℝ) (h : List (FistaCall E)) (z xn xo : E) :
    let g := (callRun f beta h).1
    ((Fista.isRestart g z xn xo).1 = true ↔ 0 ≤ ⟪z - xn, xn - xo⟫) ∧
    (0 ≤ ⟪z - xn, xn - xo⟫ → (Fista.isRestart g z xn xo).2.tNow =
      if name = "adaptive-ii" ∨ name = "adaptive-2" then 1 else g.tNow) ∧
    (⟪z - xn, xn - xo⟫ < 0 → (Fista.isRestart g z xn xo).2 = g) := by
  intro g
  have hr : ∃ ξ, f.restart = .adaptive (decide (name = "adaptive-ii" ∨ name = "adaptive-2")) ξ := by
    have hg : name ≠ "greedy" := by rintro rfl; simp at hn
    have hs : name ∈ strategies := by
      simp only [strategies, List.mem_cons, List.not_mem_nil, or_false] at hn ⊢
      tauto
    unfold Fista.init at hf
    have key : ∀ rg R, checkRestart rg name mb s xi = .ok R →
        ∃ ξ, R = .adaptive (decide (name = "adaptive-ii" ∨ name = "adaptive-2")) ξ := by
      intro rg R hc
      unfold checkRestart at hc
      cases hx : xi with
      | none => simp [hx, hg] at hc
      | some ξ =>
        simp only [hx, hg, false_and, if_false] at hc
        split_ifs at hc
        simp only [Except.ok.injEq] at hc
        exact ⟨ξ, hc.symm⟩
    rcases hm : initMode aCd p q r with e | mode
    · rw [hm] at hf; cases hf
    · rw [hm] at hf
      simp only [bind, Except.bind, hs, if_true] at hf
      split at hf
      · cases hf
      · rename_i R hc
        obtain ⟨ξ, rfl⟩ := key _ _ hc
        simp only [Except.ok.injEq] at hf
        subst hf
        exact ⟨ξ, rfl⟩
  obtain ⟨ξ, hr⟩ := hr
  have hg : g.restart = .adaptive (decide (name = "adaptive-ii" ∨ name = "adaptive-2")) ξ := by
    rw [← hr]; exact callRun_restart f beta h
  simp only [Fista.isRestart, hg]
  by_cases hc : ⟪z - xn, xn - xo⟫ ≥ 0
  · simp only [hc, if_true]
    refine ⟨by simp, fun _ => ?_, fun h => absurd h (not_lt.2 hc)⟩
    by_cases h2 : name = "adaptive-ii" ∨ name = "adaptive-2" <;> simp [h2]
  · rw [if_neg hc]
    exact ⟨by simpa using hc, fun h => absurd h hc, fun _ => rfl⟩

/-- The pairs `(x_new, x_old)` of the calls of `is_restart` in a history. -/
def restartCalls (h : List (FistaCall E)) : List (E × E) :=
  h.filterMap fun c => match c with
    | .isRestart _ xn xo => some (xn, xo)
    | _ => none

/-- C40: with the greedy strategy, after any history the safeguard is on exactly when the last step examined by
`is_restart` is at least `s_greedy` times as long as the first one (and is not itself the first one); that is
when `update_beta` shrinks the step size. -/
theorem C40_greedy_safeguard (f : Fista.Obj) (mb s xi beta : ℝ) (hf : f.restart = .greedy mb s xi)
    (h0 : f.delta0 = none) (hs : f.safeguard = false) (h : List (FistaCall E)) (b : ℝ) :
    (∀ first rest, restartCalls h = first :: rest →
      ((callRun f beta h).1.safeguard = true ↔
        ∃ last, rest.getLast? = some last ∧ s * ‖first.1 - first.2‖ ≤ ‖last.1 - last.2‖)) ∧
    (restartCalls h = [] → (callRun f beta h).1.safeguard = false) ∧
    updateBeta (callRun f beta h).1 b =
      if (callRun f beta h).1.safeguard then max (b * xi) mb else b := by
  have inv : (restartCalls h = [] → (callRun f beta h).1.delta0 = none ∧ (callRun f beta h).1.safeguard = false) ∧
      ∀ first rest, restartCalls h = first :: rest →
        (callRun f beta h).1.delta0 = some (s * ‖first.1 - first.2‖) ∧
        ((callRun f beta h).1.safeguard = true ↔
          ∃ last, rest.getLast? = some last ∧ s * ‖first.1 - first.2‖ ≤ ‖last.1 - last.2‖) := by
    induction h using List.reverseRecOn with
    | nil => exact ⟨fun _ => ⟨h0, hs⟩, fun _ _ hh => by simp [restartCalls] at hh⟩
    | append_singleton h c ih =>
      have hr : (callRun f beta h).1.restart = .greedy mb s xi := by rw [callRun_restart, hf]
      have e : callRun f beta (h ++ [c]) = callStep (callRun f beta h) c := by
        simp [callRun, List.foldl_append]
      have ea : restartCalls (h ++ [c]) = restartCalls h ++ restartCalls [c] := by
        simp [restartCalls, List.filterMap_append]
      rw [e, ea]
      cases c with
      | updateBeta => simpa [restartCalls, callStep] using ih
      | updateLambda => simpa [restartCalls, callStep, updateLambda, hr] using ih
      | isRestart z xn xo =>
        have ec : restartCalls [FistaCall.isRestart z xn xo] = [(xn, xo)] := rfl
        rw [ec]
        refine ⟨fun hh => by simp at hh, fun first rest hh => ?_⟩
        simp only [callStep, Fista.isRestart, hr]
        rcases hl : restartCalls h with _ | ⟨a, l⟩
        · rw [hl, List.nil_append, List.cons.injEq] at hh
          obtain ⟨rfl, rfl⟩ := hh
          obtain ⟨i1, i2⟩ := ih.1 hl
          simp only [i1]
          exact ⟨trivial, by simp [i2]⟩
        · rw [hl, List.cons_append, List.cons.injEq] at hh
          obtain ⟨rfl, rfl⟩ := hh
          obtain ⟨i1, i2⟩ := ih.2 _ _ hl
          simp only [i1]
          exact ⟨trivial, by simp⟩
  refine ⟨fun first rest hh => (inv.2 first rest hh).2, fun hh => (inv.1 hh).2, ?_⟩
  have hr : (callRun f beta h).1.restart = .greedy mb s xi := by rw [callRun_restart, hf]
  simp only [updateBeta, hr]

/-- Both outcomes occur: a second step as long as `s_greedy` times the first raises the safeguard. -/
example : (callRun ⟨.regular 1 1 4, .greedy 1 (3 / 2) (1 / 2), 1, 1, none, false⟩ 2
      [.isRestart (0 : ℝ) 2 0, .isRestart (0 : ℝ) 3 0]).1.safeguard = true ∧
    (callRun ⟨.regular 1 1 4, .greedy 1 (3 / 2) (1 / 2), 1, 1, none, false⟩ 2
      [.isRestart (0 : ℝ) 2 0, .isRestart (0 : ℝ) 1 0]).1.safeguard = false := by
  constructor
  · rw [(C40_greedy_safeguard _ 1 (3 / 2) (1 / 2) 2 rfl rfl rfl _ 0).1 (2, 0) [(3, 0)] rfl]
    exact ⟨(3, 0), rfl, by norm_num⟩
  · rw [← Bool.not_eq_true, (C40_greedy_safeguard _ 1 (3 / 2) (1 / 2) 2 rfl rfl rfl _ 0).1 (2, 0) [(1, 0)] rfl]
    rintro ⟨l, hl, hle⟩
    simp only [List.getLast?_singleton, Option.some.injEq] at hl
    subst hl
    norm_num at hle

/-- C40: the effect of a restart on the iterates of `ForwardBackward`: the extrapolated point is dropped and the
next gradient is taken at the new iterate; without a restart it is the relaxed point
`x_old + λ (x_new - x_old)`. -/
theorem C40_restart_drops_momentum {S : Type} (G : E → E) (prox : E → ℝ → E) (R : Rules S E) (s : FB.St S E) :
    let x := prox (s.zOld - s.beta • G s.zOld) s.beta
    let t := FB.step G prox R s
    t.xOld = x ∧ t.xNew = some x ∧ t.zNew = some t.zOld ∧
    ((R.isRestart s.rules s.zOld x s.xOld).1 = true → t.zOld = x) ∧
    ((R.isRestart s.rules s.zOld x s.xOld).1 = false → t.zOld = s.xOld + s.lam • (x - s.xOld)) := by
  intro x t
  refine ⟨rfl, rfl, rfl, fun h => ?_, fun h => ?_⟩
  · change (if (R.isRestart s.rules s.zOld x s.xOld).1 = true then x else s.xOld + s.lam • (x - s.xOld)) = x
    rw [if_pos h]
  · change (if (R.isRestart s.rules s.zOld x s.xOld).1 = true then x else s.xOld + s.lam • (x - s.xOld)) = _
    rw [if_neg (by simp [h])]

/-- C45: with valid arguments construction succeeds exactly unless metrics are given without a linear operator. -/
theorem C45_metrics_need_linear {U : Type} (a : Args U E) (x : E) (hx : a.x = some x) (m : Bool)
    (hm : a.metrics = .dict m) (b l : ℝ) (hb : a.betaParam = .float b) (hl : a.lambdaParam = .float l)
    (hbu : a.betaUpdate = .none) (hlu : a.lambdaUpdate = .none) :
    (∃ o, FB.init a = .ok o) ↔ (m = true → a.hasLinear = true) := by
  simp only [FB.init, hm, hx, hb, hl, hbu, hlu, setMetrics, checkParam, checkParamUpdate, bind, Except.bind]
  by_cases hc : m = true ∧ a.hasLinear = false
  · simp only [hc, and_self, if_true]
    simp
  · simp only [hc, if_false]
    refine ⟨fun _ hm => ?_, fun _ => ⟨_, rfl⟩⟩
    by_contra h
    exact hc ⟨hm, by simpa using h⟩

/-- Both sides occur. -/
example (a : Args Unit ℝ) : ∃ o, FB.init { a with
    x := some (1 : ℝ), metrics := .dict true, hasLinear := true, betaParam := .float 1, lambdaParam := .float 1,
    betaUpdate := .none, lambdaUpdate := .none } = .ok o :=
  (C45_metrics_need_linear _ (1 : ℝ) rfl true rfl 1 1 rfl rfl rfl rfl).2 fun _ => rfl

/-- C48: the vector that POGM tests for its restarts is a composite gradient: along any run of a constructed
object, after an update from `x` it is `∇F(x)` plus a subgradient of `g` (on `C`) at the new iterate, and the
auxiliary variable `y` is the step `x - β` times it. -/
theorem C48_composite_gradient {C : Set E} {g : E → ℝ} {G : E → E} {prox : E → ℝ → E}
    (hg : ConvexOn ℝ C g) (hp : ExactProx C g prox) (u x y z : Option E) (bp sbp : ParamArg)
    (st : Option ℝ) (beta sb : ℝ) (s : Pogm E) (h : pogmInit G u x y z bp sbp st = .ok (beta, sb, s))
    (hb : 0 < beta) (n : ℕ) :
    let xn := (pogmAfter G prox beta sb s n).xOld
    let t := pogmAfter G prox beta sb s (n + 1)
    t.xOld ∈ C ∧ t.yOld = xn - beta • t.gOld ∧
    ∀ u ∈ C, g t.xOld + ⟪t.gOld - G xn, u - t.xOld⟫ ≤ g u := by
  intro xn t
  have hxi : 0 < t.xi := (C48_parameters G prox u x y z bp sbp st beta sb s h hb (n + 1)).2.1
  have hx : t.xOld = prox t.z t.xi := C48_solution_is_prox_value G prox beta sb s n
  have hgr : t.gOld = (1 / t.xi) • (t.z - t.xOld) + G xn := by
    simp only [t, pogmAfter, pogmStep]
    split_ifs <;> rfl
  have hpr := hp t.z t.xi hxi
  rw [← hx] at hpr
  refine ⟨hpr.1, ?_, fun u hu => ?_⟩
  · simp only [t, pogmAfter, pogmStep]
    split_ifs <;> simp only [xn] <;> abel
  · have hv : ⟪t.z - t.xOld, u - t.xOld⟫ ≤ t.xi * (g u - g t.xOld) := hpr.variational hg hxi.le hu
    rw [hgr, add_sub_cancel_right, inner_smul_left]
    simp only [conj_trivial]
    have h2 := mul_le_mul_of_nonneg_left hv (one_div_nonneg.2 hxi.le)
    have h1 : 1 / t.xi * (t.xi * (g u - g t.xOld)) = g u - g t.xOld := by
      rw [← mul_assoc, one_div_mul_cancel (ne_of_gt hxi), one_mul]
    linarith

/-- Non-vacuity: `1/2 (x - 3)² + |x|` with soft thresholding. -/
example (n : ℕ) (u : ℝ) :
    let s : Pogm ℝ := ⟨0, 2, 5, 7, -1, 1, 1, 1⟩
    let xn := (pogmAfter (fun x : ℝ => x - 3) softR 1 1 s n).xOld
    let t := pogmAfter (fun x : ℝ => x - 3) softR 1 1 s (n + 1)
    |t.xOld| + ⟪t.gOld - (xn - 3), u - t.xOld⟫ ≤ |u| := by
  intro s xn t
  refine (C48_composite_gradient abs_convex softR_exact (some 0) (some 2) (some 5) (some 7) (.float 1)
    (.float 1) none 1 1 s ?_ one_pos n).2.2 u (Set.mem_univ u)
  norm_num [pogmInit, checkParam, orParam, s, bind, Except.bind]

/-- Non-vacuity of the adaptive restart: the default parameters construct an object. -/
example (h : List (FistaCall ℝ)) : ∃ f, Fista.init (some "adaptive-2") none none (some 0.96) none 1 1 4 = .ok f ∧
    (Fista.isRestart (callRun f 1 h).1 (5 : ℝ) 3 1).2.tNow = 1 := by
  refine ⟨_, by norm_num [Fista.init, initMode, strategies, checkRestart, bind, Except.bind]; rfl, ?_⟩
  have := (C40_adaptive_restart_effect (E := ℝ) "adaptive-2" (by simp) none none (some 0.96) none 1 1 4 _
    (by norm_num [Fista.init, initMode, strategies, checkRestart, bind, Except.bind]; rfl) 1 h 5 3 1).2.1
    (by norm_num)
  simpa using this

end

section
variable {E H : Type} [NormedAddCommGroup E] [InnerProductSpace ℝ E] [NormedAddCommGroup H]
  [InnerProductSpace ℝ H]
open Condat

/-- C45, for `Condat`: construction succeeds exactly when both variables are arrays and `rho`, `sigma`, `tau` are
floats (otherwise `TypeError`).  A given, non-zero `step_size` replaces `tau`; the other parameters and the
variables are taken as given. -/
theorem C45_condat_construction (x : Option E) (y : Option H) (rho sigma tau : ParamArg) (st : Option ℝ) :
    (∀ s, Condat.init x y rho sigma tau st = .ok s ↔
      ∃ t, x = some s.x ∧ y = some s.y ∧ rho = .float s.rho ∧ sigma = .float s.sigma ∧ tau = .float t ∧
        (∀ v, st = some v → v ≠ 0 → s.tau = v) ∧ ((st = none ∨ st = some 0) → s.tau = t)) ∧
    (∀ e, Condat.init x y rho sigma tau st = .error e → e = .typeError) := by
  constructor
  · intro s
    cases x <;> cases y <;> cases rho <;> cases sigma <;> cases tau <;>
      simp [Condat.init, checkParam, bind, Except.bind]
    rename_i x y r si t
    constructor
    · rintro rfl
      refine ⟨rfl, rfl, rfl, rfl, fun v hv h0 => ?_, fun h => ?_⟩
      · simp [hv, orParam, h0]
      · rcases h with h | h <;> simp [h, orParam]
    · rintro ⟨rfl, rfl, rfl, rfl, h1, h2⟩
      have : orParam st t = s.tau := by
        cases st with
        | none => simpa [orParam] using (h2 (Or.inl rfl)).symm
        | some v =>
          by_cases h0 : v = 0
          · subst h0; simpa [orParam] using (h2 (Or.inr rfl)).symm
          · simpa [orParam, h0] using (h1 v rfl h0).symm
      rw [this]
  · intro e
    cases x <;> cases y <;> cases rho <;> cases sigma <;> cases tau <;>
      simp [Condat.init, checkParam, bind, Except.bind] <;> rintro rfl <;> rfl

/-- C45, for `Condat`: each of `rho_update`, `sigma_update`, `tau_update` is applied to its own parameter, once
per update; parameters without an update rule never change. -/
theorem C45_condat_updates (O : Ops E H) (U : Upd) (s : Condat.St E H) (n : ℕ) :
    (∀ f, U.rho = some f → (condatAfter O U s n).rho = f^[n] s.rho) ∧
    (∀ f, U.sigma = some f → (condatAfter O U s n).sigma = f^[n] s.sigma) ∧
    (∀ f, U.tau = some f → (condatAfter O U s n).tau = f^[n] s.tau) ∧
    (U.rho = none → (condatAfter O U s n).rho = s.rho) ∧
    (U.sigma = none → (condatAfter O U s n).sigma = s.sigma) ∧
    (U.tau = none → (condatAfter O U s n).tau = s.tau) := by
  induction n with
  | zero => simp [condatAfter]
  | succ n ih =>
    obtain ⟨i1, i2, i3, i4, i5, i6⟩ := ih
    refine ⟨fun f hf => ?_, fun f hf => ?_, fun f hf => ?_, fun hf => ?_, fun hf => ?_, fun hf => ?_⟩
    · rw [Function.iterate_succ_apply', ← i1 f hf]; simp [condatAfter, Condat.step, app, hf]
    · rw [Function.iterate_succ_apply', ← i2 f hf]; simp [condatAfter, Condat.step, app, hf]
    · rw [Function.iterate_succ_apply', ← i3 f hf]; simp [condatAfter, Condat.step, app, hf]
    · rw [← i4 hf]; simp [condatAfter, Condat.step, app, hf]
    · rw [← i5 hf]; simp [condatAfter, Condat.step, app, hf]
    · rw [← i6 hf]; simp [condatAfter, Condat.step, app, hf]

example : Condat.init (some (1 : ℝ)) (some (2 : ℝ)) (.float 0.5) (.float 1) (.float 3) (some 2)
    = .ok ⟨1, 2, 0.5, 1, 2⟩ :=
  ((C45_condat_construction _ _ _ _ _ _).1 ⟨1, 2, 0.5, 1, 2⟩).2
    ⟨3, rfl, rfl, rfl, rfl, rfl, fun v hv _ => by simpa using hv, fun h => by simp at h⟩

end

end Verif
