import Verif.Props.Shapes

/-!
# C136: what `POGM` rejects
-/

set_option linter.unusedSectionVars false

namespace Verif
open Nd Spec

variable {𝕜 : Type} [RCLike 𝕜]

/-- Constructing a `POGM` object without running it (forward_backward.py:857-921: the gradient at `x` is evaluated), and `n`
updates. -/
noncomputable def pogmBuildRun (grad : Arr 𝕜 → Py (Arr 𝕜)) (prox : Arr 𝕜 → ℝ → Py (Arr 𝕜)) (vdot : Arr 𝕜 → Arr 𝕜 → Py Bool)
    (beta sigmaBar : ℝ) (u x y z : Arr 𝕜) (n : ℕ) : Py (PogmSt 𝕜) := do
  let g ← grad x
  pogmShapeRun grad prox vdot beta sigmaBar ⟨u, x, y, z, g, x, 1, 1, 1⟩ n

/-- C136, what the in-place updates of `POGM` reject: denoising with `SparseThreshold`, starting arrays of one shape, weights with no
more axes than these.  If data and weights can be repeated to the shape of the starting arrays every run succeeds and keeps the
shape, and otherwise the construction or the first update raises `ValueError`.  `vdot` is any test that raises nothing but
`ValueError` and accepts arrays of equal shapes. -/
theorem C136_pogm_rejects (u x y z d : Arr 𝕜) (w : Arr ℝ) (soft : Bool) (hu : u.shape = x.shape) (hy : y.shape = x.shape)
    (hz : z.shape = x.shape) (hl : w.shape.length ≤ x.shape.length) (vdot : Arr 𝕜 → Arr 𝕜 → Py Bool)
    (hv : ∀ a b, a.shape = b.shape → ∃ r, vdot a b = .ok r)
    (hv' : ∀ a b, (∃ r, vdot a b = .ok r) ∨ vdot a b = .error .valueError) (beta sigmaBar : ℝ) (n : ℕ) :
    let run := pogmBuildRun (denoiseGrad d) (sparseOp w soft) vdot beta sigmaBar u x y z
    ((Fits d.shape x.shape ∧ Fits w.shape x.shape) →
      ∃ t, run n = .ok t ∧ t.xOld.shape = x.shape ∧ (0 < n → t.xNew.shape = x.shape)) ∧
    (¬ (Fits d.shape x.shape ∧ Fits w.shape x.shape) → run (n + 1) = .error .valueError) := by
  intro run
  have bop : ∀ {α β γ : Type} {f : α → β → γ} (a : Arr α) (b : Arr β) (u : Shape), join a.shape b.shape = some u →
      ∃ c, binop f a b = .ok c ∧ c.shape = u := fun a b u h => ⟨_, binop_of_join h, rfl⟩
  have iop : ∀ (a b : Arr 𝕜), Fits b.shape a.shape → ∃ c, iadd a b = .ok c ∧ c.shape = a.shape := by
    intro a b h
    unfold iadd
    rw [if_pos (join_fits'.2 h)]
    exact ⟨_, rfl, rfl⟩
  -- the step up to the proximity operator, for data that can be repeated
  have core : Fits d.shape x.shape → ∀ (r : PogmSt 𝕜) (b : Shape), r.uOld.shape = x.shape → r.xOld.shape = x.shape →
      r.yOld.shape = x.shape → r.z.shape = x.shape → r.gOld.shape = x.shape → join x.shape w.shape = some b →
      ∃ (un xn yn zn gn : Arr 𝕜) (k t : ℝ) (rs : Bool), un.shape = x.shape ∧ xn.shape = b ∧
        yn.shape = b ∧ zn.shape = x.shape ∧ gn.shape = b ∧
        pogmStep (denoiseGrad d) (sparseOp w soft) vdot beta sigmaBar r =
        (do let damp ← pogmDamp vdot rs gn r.gOld
            let uo ← copyto r.uOld un
            let xo ← copyto r.xOld xn
            let go ← copyto r.gOld gn
            let yo ← copyto r.yOld yn
            .ok ⟨uo, xo, yo, zn, go, xn, k, if rs then 1 else if damp then r.sigma * sigmaBar else r.sigma,
              if rs then 1 else t⟩) := by
    intro hd r b h1 h2 h3 h4 h5 hb
    have hxb : Fits x.shape b := (join_some hb).1
    have hss : ∀ s : Shape, join s s = some s := fun s => join_fits.2 (fits_refl s)
    obtain ⟨g, eg, sg⟩ := bop (f := (· - ·)) r.xOld d x.shape (by rw [h2]; exact join_fits'.2 hd)
    obtain ⟨un, e1, s1⟩ := iop (scale (-beta) g) r.xOld (by show Fits _ g.shape; rw [h2, sg]; exact fits_refl _)
    have s1 : un.shape = x.shape := s1.trans sg
    obtain ⟨d1, e2, s2⟩ := bop (f := (· - ·)) r.xOld r.z x.shape (by rw [h2, h4, hss])
    set tn := 0.5 * (1 + Real.sqrt (1 + 4 * r.t ^ 2)) with htn
    obtain ⟨z1, e3, s3⟩ := iop (scale (-((r.t - 1) / tn * beta / r.xi)) d1) un (by
      show Fits _ d1.shape; rw [s1, s2]; exact fits_refl _)
    have s3 : z1.shape = x.shape := s3.trans s2
    obtain ⟨d2, e4, s4⟩ := bop (f := (· - ·)) un r.uOld x.shape (by rw [s1, h1, hss])
    obtain ⟨z2, e5, s5⟩ := iop z1 (scale ((r.t - 1) / tn) d2) (by show Fits d2.shape _; rw [s3, s4]; exact fits_refl _)
    obtain ⟨d3, e6, s6⟩ := bop (f := (· - ·)) un r.xOld x.shape (by rw [s1, h2, hss])
    obtain ⟨z3, e7, s7⟩ := iop z2 (scale (r.sigma * r.t / tn) d3) (by
      show Fits d3.shape _; rw [s5, s3, s6]; exact fits_refl _)
    have s7 : z3.shape = x.shape := s7.trans (s5.trans s3)
    set k := beta * (1 + (r.t - 1) / tn + r.sigma * r.t / tn) with hk
    have e8 : ∃ xn, sparseOp w soft z3 k = .ok xn ∧ xn.shape = b := ⟨_, binop_of_join (by rw [s7, hb]), rfl⟩
    obtain ⟨xn, e8, s8⟩ := e8
    obtain ⟨g1, e9, s9⟩ := bop (f := (· - ·)) z3 xn b (by rw [s7, s8, join_fits.2 hxb])
    obtain ⟨gn, e10, s10⟩ := iop (scale (1 / k) g1) g (by show Fits _ g1.shape; rw [sg, s9]; exact hxb)
    have s10 : gn.shape = b := s10.trans s9
    obtain ⟨yn, e11, s11⟩ := iop (scale (-beta) gn) r.xOld (by show Fits _ gn.shape; rw [h2, s10]; exact hxb)
    have s11 : yn.shape = b := s11.trans s10
    obtain ⟨d4, e12, s12⟩ := bop (f := (· - ·)) yn r.yOld b (by rw [s11, h3, join_fits'.2 hxb])
    obtain ⟨rs, e13⟩ := hv (scale (-1) gn) d4 (by show gn.shape = _; rw [s10, s12])
    refine ⟨un, xn, yn, z3, gn, k, tn, rs, s1, s8, s11, s7, s10, ?_⟩
    simp only [pogmStep, denoiseGrad_eq, bind, Except.bind]
    rw [show sub r.xOld d = .ok g from eg]; simp only
    rw [e1]; simp only
    rw [show sub r.xOld r.z = .ok d1 from e2]; simp only
    rw [← htn, e3]; simp only
    rw [show sub un r.uOld = .ok d2 from e4]; simp only
    rw [e5]; simp only
    rw [show sub un r.xOld = .ok d3 from e6]; simp only
    rw [e7]; simp only
    rw [← hk, e8]; simp only
    rw [show sub z3 xn = .ok g1 from e9]; simp only
    rw [e10]; simp only
    rw [e11]; simp only
    rw [show sub yn r.yOld = .ok d4 from e12]; simp only
    rw [e13]
  constructor
  · rintro ⟨hd, hw⟩
    obtain ⟨g0, eg0, sg0⟩ := bop (f := (· - ·)) x d x.shape (join_fits'.2 hd)
    have hrun : ∀ n, run n = pogmShapeRun (denoiseGrad d) (sparseOp w soft) vdot beta sigmaBar
        ⟨u, x, y, z, g0, x, 1, 1, 1⟩ n := by
      intro n
      simp only [run, pogmBuildRun, denoiseGrad_eq, bind, Except.bind]
      rw [show sub x d = .ok g0 from eg0]
    rw [hrun]
    suffices h : ∃ t, pogmShapeRun (denoiseGrad d) (sparseOp w soft) vdot beta sigmaBar ⟨u, x, y, z, g0, x, 1, 1, 1⟩ n = .ok t ∧
        t.xOld.shape = x.shape ∧ t.xNew.shape = x.shape ∧ t.uOld.shape = x.shape ∧ t.yOld.shape = x.shape ∧
        t.z.shape = x.shape ∧ t.gOld.shape = x.shape by
      obtain ⟨t, h1, h2, h3, -⟩ := h
      exact ⟨t, h1, h2, fun _ => h3⟩
    clear hrun
    induction n with
    | zero => exact ⟨_, rfl, rfl, rfl, hu, hy, hz, sg0⟩
    | succ n ih =>
      obtain ⟨r, hr, h2, -, h1, h3, h4, h5⟩ := ih
      obtain ⟨un, xn, yn, zn, gn, k, t, rs, s1, s2, s3, s4, s5, e⟩ :=
        core hd r x.shape h1 h2 h3 h4 h5 (join_fits'.2 hw)
      rw [pogmShapeRun, hr]
      show ∃ t, pogmStep _ _ _ _ _ r = _ ∧ _
      have hdamp : ∃ q, pogmDamp vdot rs gn r.gOld = .ok q := by
        unfold pogmDamp
        split
        · exact ⟨_, rfl⟩
        · exact hv _ _ (by rw [s5, h5])
      obtain ⟨q, hq⟩ := hdamp
      rw [e, hq, copyto_same (by rw [s1, h1]), copyto_same (by rw [s2, h2]), copyto_same (by rw [s5, h5]),
        copyto_same (by rw [s3, h3])]
      exact ⟨_, rfl, h2, s2, h1, h3, s4, h5⟩
  · intro hno
    have first : run 1 = .error .valueError := by
      simp only [run, pogmBuildRun, denoiseGrad_eq]
      by_cases h : ∃ v, Fits x.shape v ∧ Fits d.shape v
      · obtain ⟨v, h1, h2⟩ := h
        obtain ⟨a, ha⟩ := join_exists h1 h2
        obtain ⟨g0, eg0, sg0⟩ := bop (f := (· - ·)) x d a ha
        rw [show sub x d = .ok g0 from eg0]
        show pogmStep _ _ _ _ _ ⟨u, x, y, z, g0, x, 1, 1, 1⟩ = _
        by_cases hd : Fits d.shape x.shape
        · have hax : a = x.shape := by
            rw [join_fits'.2 hd] at ha
            exact (Option.some.inj ha).symm
          have hw : ¬ Fits w.shape x.shape := fun h => hno ⟨hd, h⟩
          by_cases hb : ∃ v, Fits x.shape v ∧ Fits w.shape v
          · obtain ⟨v, h3, h4⟩ := hb
            obtain ⟨b, hb⟩ := join_exists h3 h4
            obtain ⟨un, xn, yn, zn, gn, k, t, rs, s1, s2, s3, s4, s5, e⟩ :=
              core hd ⟨u, x, y, z, g0, x, 1, 1, 1⟩ b hu rfl hy hz (sg0.trans hax) hb
            rw [e]
            have hc : copyto x xn = .error .valueError := by
              refine copyto_error ?_ ?_
              · rw [s2]
                exact fun hf => hw (fits_trans (join_some hb).2.1 hf)
              · rw [s2, join_length hb, max_eq_left hl]
            have hdamp : (∃ q, pogmDamp vdot rs gn g0 = .ok q) ∨ pogmDamp vdot rs gn g0 = .error .valueError := by
              unfold pogmDamp
              split
              · exact Or.inl ⟨_, rfl⟩
              · exact hv' _ _
            rcases hdamp with ⟨q, hq⟩ | hq
            · simp only [hq, bind, Except.bind]
              rw [copyto_same (by rw [s1, hu])]
              simp only
              rw [hc]
            · simp only [hq, bind, Except.bind]
          · -- the proximity operator raises
            have hss : join x.shape x.shape = some x.shape := join_fits.2 (fits_refl _)
            have hg : g0.shape = x.shape := sg0.trans hax
            obtain ⟨un, e1, s1⟩ := iop (scale (-beta) g0) x (by show Fits _ g0.shape; rw [hg]; exact fits_refl _)
            have s1 : un.shape = x.shape := s1.trans hg
            obtain ⟨d1, e2, s2⟩ := bop (f := (· - ·)) x z x.shape (by rw [hz, hss])
            set tn : ℝ := 0.5 * (1 + Real.sqrt (1 + 4 * 1 ^ 2)) with htn
            obtain ⟨z1, e3, s3⟩ := iop (scale (-((1 - 1) / tn * beta / 1)) d1) un (by
              show Fits _ d1.shape; rw [s1, s2]; exact fits_refl _)
            have s3 : z1.shape = x.shape := s3.trans s2
            obtain ⟨d2, e4, s4⟩ := bop (f := (· - ·)) un u x.shape (by rw [s1, hu, hss])
            obtain ⟨z2, e5, s5⟩ := iop z1 (scale ((1 - 1) / tn) d2) (by
              show Fits d2.shape _; rw [s3, s4]; exact fits_refl _)
            obtain ⟨d3, e6, s6⟩ := bop (f := (· - ·)) un x x.shape (by rw [s1, hss])
            obtain ⟨z3, e7, s7⟩ := iop z2 (scale (1 * 1 / tn) d3) (by
              show Fits d3.shape _; rw [s5, s3, s6]; exact fits_refl _)
            have s7 : z3.shape = x.shape := s7.trans (s5.trans s3)
            simp only [pogmStep, denoiseGrad_eq, bind, Except.bind]
            rw [show sub x d = .ok g0 from eg0]; simp only
            rw [e1]; simp only
            rw [show sub x z = .ok d1 from e2]; simp only
            rw [← htn, e3]; simp only
            rw [show sub un u = .ok d2 from e4]; simp only
            rw [e5]; simp only
            rw [show sub un x = .ok d3 from e6]; simp only
            rw [e7]; simp only
            rw [sparseOp, binop_error (by rw [s7]; exact hb)]
        · -- the momentum expression raises
          have hxa : Fits x.shape a := (join_some ha).1
          obtain ⟨un, e1, s1⟩ := iop (scale (-beta) g0) x (by show Fits _ g0.shape; rw [sg0]; exact hxa)
          have s1 : un.shape = a := s1.trans sg0
          obtain ⟨d1, e2, s2⟩ := bop (f := (· - ·)) x z x.shape (by rw [hz]; exact join_fits.2 (fits_refl _))
          simp only [pogmStep, denoiseGrad_eq, bind, Except.bind]
          rw [show sub x d = .ok g0 from eg0]; simp only
          rw [e1]; simp only
          rw [show sub x z = .ok d1 from e2]; simp only
          rw [iadd_error]
          show ¬ Fits un.shape d1.shape
          rw [s1, s2]
          exact fun hf => hd (fits_trans (join_some ha).2.1 hf)
      · rw [show sub x d = .error .valueError from binop_error h]
        rfl
    induction n with
    | zero => exact first
    | succ n ih =>
      simp only [run, pogmBuildRun] at ih ⊢
      cases hg : denoiseGrad d x with
      | error e =>
        rw [hg] at ih
        exact ih
      | ok g =>
        rw [hg] at ih
        simp only [bind, Except.bind] at ih ⊢
        rw [pogmShapeRun, ih]
        rfl

/-- Weights of shape `(4,)` and arrays of shape `(3,)`. -/
example (f : (ℕ → ℕ) → ℝ) : pogmBuildRun (denoiseGrad ⟨[3], f⟩) (sparseOp ⟨[4], f⟩ true) (fun _ _ => .ok true) 1 1
    (⟨[3], f⟩ : Arr ℝ) ⟨[3], f⟩ ⟨[3], f⟩ ⟨[3], f⟩ 1 = .error .valueError :=
  (C136_pogm_rejects (⟨[3], f⟩ : Arr ℝ) ⟨[3], f⟩ ⟨[3], f⟩ ⟨[3], f⟩ ⟨[3], f⟩ ⟨[4], f⟩ true rfl rfl rfl le_rfl
    (fun _ _ => .ok true) (fun _ _ _ => ⟨_, rfl⟩) (fun _ _ => Or.inl ⟨_, rfl⟩) 1 1 0).2
    (fun h => by simp [fits_cons] at h)

/-- A single weight. -/
example (f : (ℕ → ℕ) → ℝ) (n : ℕ) : ∃ t, pogmBuildRun (denoiseGrad ⟨[3], f⟩) (sparseOp ⟨[1], f⟩ true) (fun _ _ => .ok true) 1 1
    (⟨[3], f⟩ : Arr ℝ) ⟨[3], f⟩ ⟨[3], f⟩ ⟨[3], f⟩ n = .ok t ∧ t.xOld.shape = [3] := by
  obtain ⟨t, h1, h2, -⟩ := (C136_pogm_rejects (⟨[3], f⟩ : Arr ℝ) ⟨[3], f⟩ ⟨[3], f⟩ ⟨[3], f⟩ ⟨[3], f⟩ ⟨[1], f⟩ true rfl rfl rfl
    le_rfl (fun _ _ => .ok true) (fun _ _ _ => ⟨_, rfl⟩) (fun _ _ => Or.inl ⟨_, rfl⟩) 1 1 n).1
    ⟨fits_refl _, fits_cons.2 ⟨Or.inl rfl, fits_refl _⟩⟩
  exact ⟨t, h1, h2⟩

end Verif
