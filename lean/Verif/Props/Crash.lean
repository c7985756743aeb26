import Verif.Model.Crash
import Verif.Spec.Crash
import Verif.Props.GenForwardBackward
import Verif.Props.Pogm
import Verif.Props.PrimalDual

/-!
# C104: transient operator failures
-/

set_option linter.unusedSectionVars false

namespace Verif
open FB Spec Crash

/-- If an attempt that raises leaves the part `π` of the object unchanged and one that returns performs
`step` on it, then after any history `π` is where as many steps as attempts that returned lead. -/
theorem attempts_track {σ τ A : Type} (try_ : A → σ → σ × Option PyErr) (π : σ → τ) (run : ℕ → τ)
    (step : τ → τ) (hrun : ∀ n, run (n + 1) = step (run n)) (good : A → Prop)
    (herr : ∀ a s e, good a → (try_ a s).2 = some e → π (try_ a s).1 = π s)
    (hok : ∀ a s, good a → (try_ a s).2 = none → π (try_ a s).1 = step (π s)) :
    ∀ (h : List A) (s : σ) (k : ℕ), (∀ a ∈ h, good a) → π s = run k →
      π (attempts try_ h s).1 = run (k + succeeded (attempts try_ h s).2) := by
  intro h
  induction h with
  | nil => intro s k _ hs; simpa [attempts, succeeded] using hs
  | cons a h ih =>
    intro s k hg hs
    have hga := hg a (by simp)
    have hgh : ∀ b ∈ h, good b := fun b hb => hg b (by simp [hb])
    cases he : (try_ a s).2 with
    | some e =>
      have := ih (try_ a s).1 k hgh ((herr a s e hga he).trans hs)
      simp only [attempts, succeeded, he, List.countP_cons, Option.isNone] at this ⊢
      simpa using this
    | none =>
      have := ih (try_ a s).1 (k + 1) hgh (by rw [hok a s hga he, hs, hrun])
      simp only [attempts, succeeded, he, List.countP_cons, Option.isNone] at this ⊢
      rw [this]; congr 1; simp; omega

section
variable {E : Type} [NormedAddCommGroup E] [InnerProductSpace ℝ E] {S : Type}

/-- C104 for `ForwardBackward`: operators that fail on some calls do no harm.  After any history of attempted
updates, the object is exactly in the state of a failure-free run with as many updates as attempts that did
not raise. -/
theorem C104_forward_backward_resumes (G : E → E) (prox : E → ℝ → E) (R : Rules S E) (s : St S E)
    (h : List ((E → Py E) × (E × ℝ → Py E)))
    (hfl : ∀ a ∈ h, Flaky G a.1 ∧ Flaky (fun p : E × ℝ => prox p.1 p.2) a.2) :
    let r := attempts (fun a s => tryFB a.1 a.2 R s) h s
    r.1 = afterSteps G prox R s (succeeded r.2) := by
  intro r
  have := attempts_track (fun a s => tryFB a.1 a.2 R s) id (afterSteps G prox R s) (step G prox R)
    (fun _ => rfl) (fun a => Flaky G a.1 ∧ Flaky (fun p : E × ℝ => prox p.1 p.2) a.2) ?_ ?_ h s 0 hfl rfl
  · simpa using this
  · rintro ⟨g, p⟩ t e ⟨h1, h2⟩ he
    simp only [tryFB] at he ⊢
    cases hg : g t.zOld with
    | error e' => simp
    | ok v =>
      simp only [hg] at he ⊢
      cases hp : p (t.zOld - t.beta • v, t.beta) with
      | error e' => simp
      | ok x => rw [hp] at he; cases he
  · rintro ⟨g, p⟩ t ⟨h1, h2⟩ he
    change Flaky G g at h1
    change Flaky (fun p : E × ℝ => prox p.1 p.2) p at h2
    simp only [tryFB] at he ⊢
    rcases h1 t.zOld with hg | ⟨e', hg⟩
    · simp only [hg] at he ⊢
      rcases h2 (t.zOld - t.beta • G t.zOld, t.beta) with hp | ⟨e', hp⟩
      · simp only [hp] at he ⊢; rfl
      · rw [hp] at he; cases he
    · rw [hg] at he; cases he

/-- C104 for `GenForwardBackward`, the part that holds: a failing gradient or first proximity operator changes
nothing (missing: failures of the other operators, for which the claim is false). -/
theorem C104_gen_first_operator_partial (grad : E → Py E) (p : E × ℝ → Py E) (ps : List (E × ℝ → Py E))
    (w : List ℝ) (gu lu : Option (S → ℝ → ℝ × S)) (s : GenSt S E)
    (hfail : (∃ e, grad s.xOld = .error e) ∨ (∀ y, ∃ e, p y = .error e)) (hz : s.z ≠ []) (hw : w ≠ []) :
    (tryGen grad (p :: ps) w gu lu s).1 = s ∧ (tryGen grad (p :: ps) w gu lu s).2.isSome := by
  unfold tryGen
  cases hg : grad s.xOld with
  | error e => simp
  | ok g =>
    rcases hfail with ⟨e, he⟩ | hp
    · rw [hg] at he; cases he
    · cases hz' : s.z with
      | nil => exact absurd hz' hz
      | cons z zs =>
        cases w with
        | nil => exact absurd rfl hw
        | cons w ws =>
          obtain ⟨e, he⟩ := hp ((2 : ℝ) • s.xOld - z - s.gamma • g, s.gamma / w)
          simp only [tryGenZ, he]
          refine ⟨?_, rfl⟩
          rw [← hz']

/-- C104, refutation for `GenForwardBackward`: two operators, the second fails once.  The solution is kept
but the first auxiliary variable has moved, and repeating the update leads to `3/8` where the failure-free
run has `1/2`. -/
theorem C104_gen_forward_backward_derailed :
    let G : ℝ → ℝ := id
    let P : ℝ → ℝ → ℝ := fun x _ => x
    let s0 : GenSt Unit ℝ := genInit 1 2 1 (1 / 2) ()
    let ok : List (ℝ × ℝ → Py ℝ) := [reliable fun p => P p.1 p.2, reliable fun p => P p.1 p.2]
    let bad : List (ℝ × ℝ → Py ℝ) := [reliable fun p => P p.1 p.2, failing .runtimeError]
    let w : List ℝ := [1 / 2, 1 / 2]
    let s1 := tryGen (reliable G) bad w none none s0
    let s2 := tryGen (reliable G) ok w none none s1.1
    s1.2 = some .runtimeError ∧ s1.1.xOld = s0.xOld ∧ s1.1.z ≠ s0.z ∧
    s2.2 = none ∧ s2.1.xOld = 3 / 8 ∧ (genAfter G [P, P] w none none s0 1).xOld = 1 / 2 := by
  intro G P s0 ok bad w s1 s2
  refine ⟨rfl, rfl, ?_, rfl, ?_, ?_⟩
  · simp only [s1, s0, bad, w, tryGen, tryGenZ, genInit, reliable, failing, List.replicate, G, P]
    norm_num
  · simp only [s2, s1, s0, ok, bad, w, tryGen, tryGenZ, genInit, reliable, failing, List.replicate, G, P]
    norm_num
  · simp only [genAfter, genStep, genZ, s0, w, genInit, List.replicate, G, P]
    norm_num

/-- C104, what a failure leaves behind in `GenForwardBackward`: if operator `i` is the first to raise, the
auxiliary variables before it have their new values, the others their old ones, and nothing else changed. -/
theorem C104_gen_failure_state (G : E → E) (prox : List (E → ℝ → E)) (w : List ℝ)
    (gu lu : Option (S → ℝ → ℝ × S)) (s : GenSt S E) (i : ℕ) (e : PyErr) (hi : i < prox.length)
    (hz : s.z.length = prox.length) (hw : w.length = prox.length) :
    tryGen (reliable G)
        ((prox.take i).map (fun p => reliable fun y : E × ℝ => p y.1 y.2) ++ failing e ::
          (prox.drop (i + 1)).map (fun p => reliable fun y : E × ℝ => p y.1 y.2)) w gu lu s =
      ({ s with z := (genStep G prox w gu lu s).z.take i ++ s.z.drop i }, some e) := by
  have key : ∀ (i : ℕ) (ps : List (E → ℝ → E)) (zs : List E) (ws : List ℝ) (rest : List (E × ℝ → Py E)),
      i < ps.length → zs.length = ps.length → ws.length = ps.length →
      tryGenZ s.xOld (G s.xOld) s.gamma s.lam
        ((ps.take i).map (fun p => reliable fun y : E × ℝ => p y.1 y.2) ++ failing e :: rest) zs ws =
      ((genZ s.xOld (G s.xOld) s.gamma s.lam ps zs ws).take i ++ zs.drop i, some e) := by
    intro i
    induction i with
    | zero =>
      intro ps zs ws rest h1 h2 h3
      cases zs with
      | nil => simp at h2; omega
      | cons z zs =>
        cases ws with
        | nil => simp at h3; omega
        | cons w ws => simp [tryGenZ, failing]
    | succ i ih =>
      intro ps zs ws rest h1 h2 h3
      cases ps with
      | nil => simp at h1
      | cons p ps =>
        cases zs with
        | nil => simp at h2
        | cons z zs =>
          cases ws with
          | nil => simp at h3
          | cons w ws =>
            simp only [List.length_cons, Nat.add_lt_add_iff_right, Nat.add_right_cancel_iff] at h1 h2 h3
            have := ih ps zs ws rest h1 h2 h3
            simp [tryGenZ, genZ, reliable] at this ⊢
            rw [this]
            simp
  unfold tryGen
  have hG : reliable G s.xOld = .ok (G s.xOld) := rfl
  rw [hG]
  have := key i prox s.z w ((prox.drop (i + 1)).map (fun p => reliable fun y : E × ℝ => p y.1 y.2)) hi hz hw
  simp only [this]
  rfl

end

section
variable {E H : Type} [NormedAddCommGroup E] [InnerProductSpace ℝ E] [NormedAddCommGroup H]
  [InnerProductSpace ℝ H]

/-- C104 for `Condat`: after any history of attempted updates with operators that fail on some calls, the
object is in the state of a failure-free run with as many updates as attempts that did not raise. -/
theorem C104_condat_resumes (O : Condat.Ops E H) (U : Condat.Upd) (s : Condat.St E H)
    (h : List (CondatOps E H))
    (hfl : ∀ a ∈ h, Flaky O.grad a.grad ∧ Flaky (fun p : E × ℝ => O.prox p.1 p.2) a.prox ∧
      Flaky (fun p : H × ℝ => O.proxDual p.1 p.2) a.proxDual ∧ Flaky O.op a.op ∧ Flaky O.adj a.adj) :
    let r := attempts (fun a s => tryCondat a U s) h s
    r.1 = condatAfter O U s (succeeded r.2) := by
  intro r
  have := attempts_track (fun a s => tryCondat a U s) id (condatAfter O U s) (Condat.step O U)
    (fun _ => rfl) (fun a => Flaky O.grad a.grad ∧ Flaky (fun p : E × ℝ => O.prox p.1 p.2) a.prox ∧
      Flaky (fun p : H × ℝ => O.proxDual p.1 p.2) a.proxDual ∧ Flaky O.op a.op ∧ Flaky O.adj a.adj)
    ?_ ?_ h s 0 hfl rfl
  · simpa using this
  · rintro a t e - he
    simp only [tryCondat] at he ⊢
    cases h1 : a.grad t.x with
    | error e' => simp
    | ok g =>
      simp only [h1] at he ⊢
      cases h2 : a.adj t.y with
      | error e' => simp
      | ok b =>
        simp only [h2] at he ⊢
        cases h3 : a.prox (t.x - t.tau • g - t.tau • b, 1) with
        | error e' => simp
        | ok xp =>
          simp only [h3] at he ⊢
          cases h4 : a.op ((2 : ℝ) • xp - t.x) with
          | error e' => simp
          | ok l =>
            simp only [h4] at he ⊢
            cases h5 : a.proxDual ((1 / t.sigma) • (t.y + t.sigma • l), 1 / t.sigma) with
            | error e' => simp
            | ok d => rw [h5] at he; cases he
  · rintro a t ⟨f1, f2, f3, f4, f5⟩ he
    simp only [tryCondat] at he ⊢
    rcases f1 t.x with h1 | ⟨e', h1⟩
    swap
    · rw [h1] at he; cases he
    simp only [h1] at he ⊢
    rcases f5 t.y with h2 | ⟨e', h2⟩
    swap
    · rw [h2] at he; cases he
    simp only [h2] at he ⊢
    rcases f2 (t.x - t.tau • O.grad t.x - t.tau • O.adj t.y, 1) with h3 | ⟨e', h3⟩
    swap
    · rw [h3] at he; cases he
    simp only [h3] at he ⊢
    rcases f4 ((2 : ℝ) • O.prox (t.x - t.tau • O.grad t.x - t.tau • O.adj t.y) 1 - t.x) with h4 | ⟨e', h4⟩
    swap
    · rw [h4] at he; cases he
    simp only [h4] at he ⊢
    rcases f3 ((1 / t.sigma) • (t.y + t.sigma •
        O.op ((2 : ℝ) • O.prox (t.x - t.tau • O.grad t.x - t.tau • O.adj t.y) 1 - t.x)), 1 / t.sigma)
      with h5 | ⟨e', h5⟩
    swap
    · rw [h5] at he; cases he
    simp only [h5] at he ⊢
    rfl

end

section
variable {H V : Type} [NormedAddCommGroup H] [InnerProductSpace ℝ H]

/-- C104 for `ADMM`: the variables the next update starts from are those of a failure-free run with as many
updates as attempts that did not raise. -/
theorem C104_admm_resumes (P : Admm.Problem H V) (s : AdmmSt H V) (h : List (AdmmOps H V))
    (hfl : ∀ a ∈ h, Flaky (fun p : H × H => P.optH p.1 p.2) a.optH ∧
      Flaky (fun p : V × H => P.optG p.1 p.2) a.optG ∧ Flaky P.A a.A ∧ Flaky P.B a.B ∧ a.b = P.b) :
    let r := attempts tryAdmm h s
    r.1.old = Admm.after P s.old (succeeded r.2) := by
  intro r
  have := attempts_track (fun a s => tryAdmm a s) (·.old) (Admm.after P s.old) (Admm.step P)
    (fun _ => rfl) (fun a => Flaky (fun p : H × H => P.optH p.1 p.2) a.optH ∧
      Flaky (fun p : V × H => P.optG p.1 p.2) a.optG ∧ Flaky P.A a.A ∧ Flaky P.B a.B ∧ a.b = P.b)
    ?_ ?_ h s 0 hfl rfl
  · simpa using this
  · rintro a t e - he
    simp only [tryAdmm] at he ⊢
    cases h1 : a.B t.old.v with
    | error e' => simp
    | ok bv =>
      simp only [h1] at he ⊢
      cases h2 : a.optH (t.old.u, bv + t.old.u - a.b) with
      | error e' => simp
      | ok u =>
        simp only [h2] at he ⊢
        cases h3 : a.A u with
        | error e' => simp
        | ok tmp =>
          simp only [h3] at he ⊢
          cases h4 : a.optG (t.old.v, tmp + t.old.u - a.b) with
          | error e' => simp
          | ok v =>
            simp only [h4] at he ⊢
            cases h5 : a.B v with
            | error e' => simp
            | ok d => rw [h5] at he; cases he
  · rintro a t ⟨f1, f2, f3, f4, f5⟩ he
    simp only [tryAdmm, f5] at he ⊢
    rcases f4 t.old.v with h1 | ⟨e', h1⟩
    swap
    · rw [h1] at he; cases he
    simp only [h1] at he ⊢
    rcases f1 (t.old.u, P.B t.old.v + t.old.u - P.b) with h2 | ⟨e', h2⟩
    swap
    · rw [h2] at he; cases he
    simp only [h2] at he ⊢
    rcases f3 (P.optH t.old.u (P.B t.old.v + t.old.u - P.b)) with h3 | ⟨e', h3⟩
    swap
    · rw [h3] at he; cases he
    simp only [h3] at he ⊢
    rcases f2 (t.old.v, P.A (P.optH t.old.u (P.B t.old.v + t.old.u - P.b)) + t.old.u - P.b) with h4 | ⟨e', h4⟩
    swap
    · rw [h4] at he; cases he
    simp only [h4] at he ⊢
    rcases f4 (P.optG t.old.v (P.A (P.optH t.old.u (P.B t.old.v + t.old.u - P.b)) + t.old.u - P.b))
      with h5 | ⟨e', h5⟩
    swap
    · rw [h5] at he; cases he
    simp only [h5] at he ⊢
    rfl

end

/-! ## POGM -/

section
variable {E : Type} [NormedAddCommGroup E] [InnerProductSpace ℝ E]

/-- C104 for `POGM`, the part that holds: a failing gradient changes nothing; and while `t = 1` (before the
first update, and after a restart) a failing proximity operator does no harm either, because the spoilt
variable is multiplied by `t - 1` when the update is repeated (missing: later updates, for which the claim is
false). -/
theorem C104_pogm_first_update_partial (G : E → E) (prox : E → ℝ → E) (beta sb : ℝ) (s : Pogm E) (e : PyErr) :
    (∀ p, (tryPogm (failing e) p beta sb s).1 = s) ∧
    (s.t = 1 →
      (tryPogm (reliable G) (failing e) beta sb s).2 = some e ∧
      tryPogm (reliable G) (reliable fun p => prox p.1 p.2) beta sb
        (tryPogm (reliable G) (failing e) beta sb s).1 = (pogmStep G prox beta sb s, none)) := by
  refine ⟨fun p => rfl, fun ht => ⟨rfl, ?_⟩⟩
  simp only [tryPogm, reliable, failing, pogmStep, ht]
  norm_num

/-- C104, refutation for `POGM`: on a smooth one-dimensional problem (no regularisation) the proximity operator
fails once during the second update; repeating the update gives a different solution than the failure-free
run. -/
theorem C104_pogm_derailed :
    let G : ℝ → ℝ := id
    let P : ℝ → ℝ → ℝ := fun z _ => z
    let s0 : Pogm ℝ := ⟨1, 1, 1, 1, 1, 1, 1, 1⟩
    pogmInit G (some 1) (some 1) (some 1) (some 1) (.float 1) (.float 1) none = .ok (1, 1, s0) ∧
    let s1 := pogmAfter G P 1 1 s0 1
    let bad := tryPogm (reliable G) (failing .runtimeError) 1 1 s1
    let again := tryPogm (reliable G) (reliable fun p => P p.1 p.2) 1 1 bad.1
    bad.2 = some .runtimeError ∧ again.2 = none ∧ again.1.xOld ≠ (pogmAfter G P 1 1 s0 2).xOld := by
  intro G P s0
  refine ⟨?_, ?_⟩
  · simp [pogmInit, checkParam, orParam, s0, G, bind, Except.bind]
  intro s1 bad again
  refine ⟨rfl, rfl, ?_⟩
  -- the state after the first update
  have h5 : (0 : ℝ) < Real.sqrt 5 := Real.sqrt_pos.mpr (by norm_num)
  have h51 : (1 : ℝ) < Real.sqrt 5 := by
    rw [show (1 : ℝ) = Real.sqrt 1 by simp]; exact Real.sqrt_lt_sqrt (by norm_num) (by norm_num)
  set φ : ℝ := 0.5 * (1 + Real.sqrt 5) with hφ
  have hφ1 : 1 < φ := by rw [hφ]; linarith
  have hs1 : s1 = ⟨0, -(1 / φ), 0, -(1 / φ), 1, 1 + 1 / φ, 1, φ⟩ := by
    have e1 : Real.sqrt (1 + 4 * (1 : ℝ) ^ 2) = Real.sqrt 5 := by norm_num
    simp only [s1, pogmAfter, pogmStep, s0, G, P, e1, id, ← hφ]
    norm_num
  set T : ℝ := 0.5 * (1 + Real.sqrt (1 + 4 * φ ^ 2)) with hT
  have hT0 : 0 < T := by have := Real.sqrt_nonneg (1 + 4 * φ ^ 2); rw [hT]; linarith
  have htr : 0 < (φ - 1) / T := div_pos (by linarith) hT0
  have hsr : 0 < φ / T := div_pos (by linarith) hT0
  have h0 : (0 : ℝ) < 1 / φ := by positivity
  -- the solution of the failure-free run
  have hfree : (pogmAfter G P 1 1 s0 2).xOld = φ / T * (1 / φ) := by
    have : pogmAfter G P 1 1 s0 2 = pogmStep G P 1 1 s1 := rfl
    rw [this, hs1]
    simp only [pogmStep, G, P, id, ← hT]
    split_ifs <;> simp
  have hbad : bad.1 = ⟨0, -(1 / φ), 0, φ / T * (1 / φ), 1, 1 + (φ - 1) / T + φ / T, 1, φ⟩ := by
    simp only [bad, hs1, tryPogm, reliable, failing, G, id, ← hT]
    simp
  have hagain : again.1.xOld = (φ - 1) / T / (1 + (φ - 1) / T + φ / T) * (1 / φ + φ / T * (1 / φ))
      + φ / T * (1 / φ) := by
    simp only [again, hbad, tryPogm, reliable, G, P, id, ← hT]
    split_ifs <;> simp <;> ring
  rw [hagain, hfree]
  have : 0 < (φ - 1) / T / (1 + (φ - 1) / T + φ / T) * (1 / φ + φ / T * (1 / φ)) := by positivity
  linarith [this]

end

/-! ## Gradient descent -/

section
variable {ι 𝕜 : Type} [RCLike 𝕜]

/-- C104 for vanilla gradient descent (default epoch size, no step update): after any history of attempted
updates with operators that fail on some calls, the iterate is that of the failure-free recursion
`x ← prox (x - η ∇F x) η` with as many updates as attempts that did not raise. -/
theorem C104_vanilla_resumes (G : (ι → 𝕜) → ι → 𝕜) (prox : (ι → 𝕜) → (ι → ℝ) → ι → 𝕜) (x : ι → 𝕜)
    (eta eps : ℝ) (st : Option ℝ) (c : GD.Conf ι 𝕜) (s : GD.St ι 𝕜)
    (hinit : GD.init .vanilla x prox (.float eta) (.float eps) none 1 st = .ok (c, s))
    (h : List (((ι → 𝕜) → Py (ι → 𝕜)) × ((ι → 𝕜) × (ι → ℝ) → Py (ι → 𝕜)) × ℕ))
    (hfl : ∀ a ∈ h, Flaky G a.1 ∧ Flaky (fun p : (ι → 𝕜) × (ι → ℝ) => prox p.1 p.2) a.2.1) :
    let r := attempts (fun a s => tryGD c a.1 a.2.1 a.2.2 s) h s
    r.1.xOld = (fun y : ι → 𝕜 => prox (fun i => y i - (eta : 𝕜) * G y i) (fun _ => eta))^[succeeded r.2] x := by
  simp only [GD.init, GD.checkParam, Except.ok.injEq, Prod.mk.injEq] at hinit
  obtain ⟨rfl, rfl⟩ := hinit
  intro r
  set c : GD.Conf ι 𝕜 := ⟨.vanilla, 1, GD.initEps .vanilla eps, none, prox⟩ with hc
  set F : (ι → 𝕜) → ι → 𝕜 := fun y => prox (fun i => y i - (eta : 𝕜) * G y i) (fun _ => eta) with hF
  have := attempts_track (fun a s => tryGD c a.1 a.2.1 a.2.2 s)
    (fun s => (s.xOld, s.speed, s.eta)) (fun n => (F^[n] x, (fun _ => (1 : ℝ)), eta))
    (fun t => (prox (fun i => t.1 i - ((t.2.2 / (Real.sqrt (t.2.1 i) + 0) : ℝ) : 𝕜) * G t.1 i)
      (fun i => t.2.2 / (Real.sqrt (t.2.1 i) + 0)), t.2)) ?_
    (fun a => Flaky G a.1 ∧ Flaky (fun p : (ι → 𝕜) × (ι → ℝ) => prox p.1 p.2) a.2.1) ?_ ?_ h
    ⟨x, x, fun _ => 0, GD.initSpeed .vanilla, eta, 1, 1, fun _ _ => 0⟩ 0 hfl rfl
  · have h1 := congrArg Prod.fst this
    simpa using h1
  · intro n
    rw [Function.iterate_succ_apply']
    simp [hF]
  · rintro ⟨g, p, idx⟩ t e - he
    simp only [tryGD, hc, Nat.mod_one, if_true, GD.updateDir, GD.updateSpeed, GD.reset] at he ⊢
    cases hg : g t.xOld with
    | error e' => simp
    | ok v =>
      simp only [hg, one_ne_zero, if_false] at he ⊢
      split at he
      · rename_i e' hp
        simp only
      · cases he
  · rintro ⟨g, p, idx⟩ t ⟨h1, h2⟩ he
    change Flaky G g at h1
    change Flaky (fun p : (ι → 𝕜) × (ι → ℝ) => prox p.1 p.2) p at h2
    simp only [tryGD, hc, Nat.mod_one, if_true, GD.updateDir, GD.updateSpeed, GD.reset] at he ⊢
    rcases h1 t.xOld with hg | ⟨e', hg⟩
    swap
    · rw [hg] at he; cases he
    simp only [hg, one_ne_zero, if_false] at he ⊢
    split at he
    · cases he
    · rename_i y hp
      simp only
      rcases h2 (_, _) with hp' | ⟨e', hp'⟩
      · rw [hp'] at hp
        cases hp
        rfl
      · rw [hp'] at hp; cases hp

/-- C104, refutation for the adaptive classes: AdaGrad on `F(x) = x²/2` in dimension one.  When the proximity
operator fails once, the squared gradient is counted twice and the repeated update makes a shorter step. -/
theorem C104_ada_grad_derailed :
    let G : (Unit → ℝ) → Unit → ℝ := id
    let P : (Unit → ℝ) → (Unit → ℝ) → Unit → ℝ := fun x _ => x
    ∃ (c : GD.Conf Unit ℝ) (s0 : GD.St Unit ℝ),
      GD.init .ada (fun _ => 1) P (.float 1) (.float 1) none 1 none = .ok (c, s0) ∧
      let bad := tryGD c (reliable G) (failing .runtimeError) 0 s0
      let again := tryGD c (reliable G) (reliable fun p => P p.1 p.2) 0 bad.1
      let free := tryGD c (reliable G) (reliable fun p => P p.1 p.2) 0 s0
      bad.2 = some .runtimeError ∧ again.2 = none ∧ free.2 = none ∧
      free.1.xOld () = 1 / 2 ∧ again.1.xOld () = 1 - 1 / (Real.sqrt 2 + 1) ∧ again.1.xOld () ≠ free.1.xOld () := by
  intro G P
  refine ⟨_, _, rfl, ?_⟩
  intro bad again free
  have hf : free.1.xOld () = 1 / 2 := by
    simp [free, tryGD, reliable, GD.updateSpeed, GD.updateDir, GD.stepOf, GD.reset, GD.initSpeed, GD.initEps, G, P]
    norm_num
  have ha : again.1.xOld () = 1 - 1 / (Real.sqrt 2 + 1) := by
    simp [again, bad, tryGD, reliable, failing, GD.updateSpeed, GD.updateDir, GD.stepOf, GD.reset, GD.initSpeed,
      GD.initEps, G, P]
    norm_num
  refine ⟨?_, ?_, ?_, hf, ha, ?_⟩
  · simp [bad, tryGD, reliable, failing]
  · simp [again, tryGD, reliable]
  · simp [free, tryGD, reliable]
  · rw [hf, ha]
    have h2 : (1 : ℝ) < Real.sqrt 2 := by
      rw [show (1 : ℝ) = Real.sqrt 1 by simp]; exact Real.sqrt_lt_sqrt (by norm_num) (by norm_num)
    have : 1 / (Real.sqrt 2 + 1) < 1 / 2 := by
      apply one_div_lt_one_div_of_lt <;> linarith
    linarith

end

/-! ## Concrete failing runs -/

section Examples

/-- Forward-backward on `x²/2 + |x|`-like data with a gradient that fails on every other attempt. -/
example :
    let s0 : St Unit ℝ := ⟨4, 4, none, none, 1 / 2, 1, ()⟩
    let R : Rules Unit ℝ := userRules none none
    let P : ℝ → ℝ → ℝ := fun x t => x - t
    let good : (ℝ → Py ℝ) × (ℝ × ℝ → Py ℝ) := (reliable id, reliable fun p => P p.1 p.2)
    let bad1 : (ℝ → Py ℝ) × (ℝ × ℝ → Py ℝ) := (failing .ioError, reliable fun p => P p.1 p.2)
    let bad2 : (ℝ → Py ℝ) × (ℝ × ℝ → Py ℝ) := (reliable id, failing .runtimeError)
    (attempts (fun a s => tryFB a.1 a.2 R s) [good, bad1, bad2, good] s0).1 = afterSteps id P R s0 2 := by
  intro s0 R P good bad1 bad2
  exact C104_forward_backward_resumes id P R s0 [good, bad1, bad2, good] (by
    intro a ha
    simp only [List.mem_cons, List.not_mem_nil, or_false] at ha
    rcases ha with rfl | rfl | rfl | rfl
    · exact ⟨flaky_reliable _, flaky_reliable _⟩
    · exact ⟨flaky_failing _ _, flaky_reliable _⟩
    · exact ⟨flaky_reliable _, flaky_failing _ _⟩
    · exact ⟨flaky_reliable _, flaky_reliable _⟩)

/-- A failing linear operator in `Condat`. -/
example (O : Condat.Ops ℝ ℝ) (U : Condat.Upd) (s : Condat.St ℝ ℝ) :
    let good : CondatOps ℝ ℝ := ⟨reliable O.grad, reliable fun p => O.prox p.1 p.2,
      reliable fun p => O.proxDual p.1 p.2, reliable O.op, reliable O.adj⟩
    let bad : CondatOps ℝ ℝ := { good with op := failing .runtimeError }
    (attempts (fun a s => tryCondat a U s) [bad, good] s).1 = condatAfter O U s 1 := by
  intro good bad
  exact C104_condat_resumes O U s [bad, good] (by
    intro a ha
    simp only [List.mem_cons, List.not_mem_nil, or_false] at ha
    rcases ha with rfl | rfl
    · exact ⟨flaky_reliable _, flaky_reliable _, flaky_reliable _, flaky_failing _ _, flaky_reliable _⟩
    · exact ⟨flaky_reliable _, flaky_reliable _, flaky_reliable _, flaky_reliable _, flaky_reliable _⟩)

/-- A failing second optimizer in `ADMM`. -/
example (P : Admm.Problem ℝ ℝ) (s : AdmmSt ℝ ℝ) :
    let good : AdmmOps ℝ ℝ := ⟨reliable fun p => P.optH p.1 p.2, reliable fun p => P.optG p.1 p.2,
      reliable P.A, reliable P.B, P.b⟩
    let bad : AdmmOps ℝ ℝ := { good with optG := failing .runtimeError }
    (attempts tryAdmm [bad, good, good] s).1.old = Admm.after P s.old 2 := by
  intro good bad
  exact C104_admm_resumes P s [bad, good, good] (by
    intro a ha
    simp only [List.mem_cons, List.not_mem_nil, or_false] at ha
    rcases ha with rfl | rfl | rfl
    · exact ⟨flaky_reliable _, flaky_failing _ _, flaky_reliable _, flaky_reliable _, rfl⟩
    · exact ⟨flaky_reliable _, flaky_reliable _, flaky_reliable _, flaky_reliable _, rfl⟩
    · exact ⟨flaky_reliable _, flaky_reliable _, flaky_reliable _, flaky_reliable _, rfl⟩)

/-- The hypotheses of `C104_vanilla_resumes`. -/
example : ∃ c s, GD.init (ι := Unit) (𝕜 := ℝ) .vanilla (fun _ => 1) (fun x _ => x) (.float 1) (.float 1) none 1
    none = .ok (c, s) := ⟨_, _, rfl⟩

/-- The hypotheses of `C104_gen_failure_state`: three operators, the last fails. -/
example (P : ℝ → ℝ → ℝ) (G : ℝ → ℝ) :
    (tryGen (S := Unit) (reliable G) [reliable fun y => P y.1 y.2, reliable fun y => P y.1 y.2,
      failing .ioError] [1 / 2, 1 / 4, 1 / 4] none none (genInit 1 3 1 1 ())).2 = some .ioError :=
  congrArg Prod.snd (C104_gen_failure_state G [P, P, P] [1 / 2, 1 / 4, 1 / 4] none none (genInit 1 3 1 1 ()) 2
    .ioError (by simp) rfl rfl)

end Examples

end Verif
