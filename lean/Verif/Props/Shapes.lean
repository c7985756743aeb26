import Verif.Lemmas.Shapes
import Verif.Props.ForwardBackward
import Mathlib.Analysis.InnerProductSpace.PiL2

/-!
# C136: the solution has the shape of the starting array

With NumPy's broadcasting, weights or data of another shape can change the shape of the solution.
-/

set_option linter.unusedSectionVars false

namespace Verif
open Nd Spec

/-- The array `a` repeated to shape `u`. -/
def repeated {α : Type} (u : Shape) (a : Arr α) : Arr α := ⟨u, fun i => a.val (clip a.shape i)⟩

variable {𝕜 : Type} [RCLike 𝕜]

theorem binop_repeated {α β γ : Type} (f : α → β → γ) {a : Arr α} {b : Arr β} {u : Shape} (ha : Fits a.shape u)
    (hb : Fits b.shape u) : ∃ c, binop f a b = .ok c ∧ binop f (repeated u a) (repeated u b) = .ok (repeated u c) ∧
      Fits c.shape u ∧ Fits a.shape c.shape ∧ Fits b.shape c.shape ∧ (c.shape = u → repeated u c = c) := by
  obtain ⟨v, hv⟩ := join_exists ha hb
  obtain ⟨h1, h2, h3⟩ := join_some hv
  refine ⟨_, binop_of_join hv, ?_, h3 u ha hb, h1, h2, ?_⟩
  · rw [binop_of_join (u := u) (by exact join_fits.2 (fits_refl u))]
    simp only [repeated]
    congr 2
    funext i
    rw [clip_clip ha, clip_clip hb, clip_clip h1, clip_clip h2]
  · intro e
    simp only at e
    subst e
    simp only [repeated]
    congr 1
    funext i
    rw [clip_clip h1, clip_clip h2]

theorem repeated_scale (u : Shape) (c : ℝ) (a : Arr 𝕜) : scale c (repeated u a) = repeated u (scale c a) := rfl

/-- `GradBasic` with the identity operator. -/
def denoiseGrad (y : Arr 𝕜) : Arr 𝕜 → Py (Arr 𝕜) := gradBasic (fun v => .ok v) (fun v => .ok v) y

theorem denoiseGrad_eq (y x : Arr 𝕜) : denoiseGrad y x = sub x y := by
  simp only [denoiseGrad, gradBasic, bind, Except.bind]
  cases sub x y <;> rfl

/-- No restarts. -/
def noRestart (_ _ _ : Arr 𝕜) : Py Bool := .ok false

theorem fbStep_repeated {u : Shape} (y : Arr 𝕜) (w : Arr ℝ) (soft : Bool) (beta lam : ℝ) (s : FBSt 𝕜)
    (hx : Fits s.xOld.shape u) (hz : Fits s.zOld.shape u) (hy : Fits y.shape u) (hw : Fits w.shape u)
    (hu : ∀ v, Fits s.zOld.shape v → Fits y.shape v → Fits w.shape v → Fits u v) :
    ∃ t, fbStep (denoiseGrad y) (sparseOp w soft) noRestart beta lam s = .ok t ∧
      fbStep (denoiseGrad (repeated u y)) (sparseOp (repeated u w) soft) noRestart beta lam
        ⟨repeated u s.xOld, repeated u s.zOld⟩ = .ok t ∧
      t.xOld.shape = u ∧ t.zOld.shape = u ∧ repeated u t.xOld = t.xOld ∧ repeated u t.zOld = t.zOld := by
  obtain ⟨g, g1, g2, g3, g4, g5, -⟩ := binop_repeated (fun a b : 𝕜 => a - b) hz hy
  obtain ⟨v, v1, v2, v3, v4, v5, -⟩ := binop_repeated (fun a b : 𝕜 => a - b) hz (b := scale beta g) g3
  obtain ⟨p, p1, p2, p3, p4, p5, p6⟩ := binop_repeated (fun (x : 𝕜) (t : ℝ) =>
    if soft then Noise.aroundK 15 ((Noise.softFactor (t * beta) ‖x‖ : 𝕜) * x)
    else x * (if ‖x‖ ≥ t * beta then 1 else 0)) v3 hw
  obtain ⟨d, d1, d2, d3, d4, d5, -⟩ := binop_repeated (fun a b : 𝕜 => a - b) p3 hx
  obtain ⟨z, z1, z2, z3, z4, z5, z6⟩ := binop_repeated (fun a b : 𝕜 => a + b) hx (b := scale lam d) d3
  have hp : p.shape = u := by
    refine fits_antisymm p3 (hu _ (fits_trans v4 p4) ?_ p5)
    exact fits_trans g5 (fits_trans v5 p4)
  have hz' : z.shape = u := by
    refine fits_antisymm z3 ?_
    rw [← hp]
    exact fits_trans d4 z5
  have hpe := p6 hp
  have hze := z6 hz'
  refine ⟨⟨p, z⟩, ?_, ?_, hp, hz', hpe, hze⟩
  · simp only [fbStep, denoiseGrad_eq, sub, add, sparseOp, noRestart, bind, Except.bind]
    rw [g1]; simp only
    rw [v1]; simp only
    rw [p1]; simp only
    rw [d1]; simp only
    rw [z1]; simp
  · simp only [fbStep, denoiseGrad_eq, sub, add, sparseOp, noRestart, bind, Except.bind]
    rw [g2]; simp only
    rw [repeated_scale, v2]; simp only
    rw [p2]; simp only
    rw [d2]; simp only
    rw [repeated_scale, z2]; simp [hpe, hze]

/-- C136 for `ForwardBackward` with `GradBasic` (identity operator), `SparseThreshold` and arrays of any shapes, exactly:
if `u` is the least shape to which starting array, data and weights can be repeated, every run of at least one update
succeeds, its solution has shape `u` and is the one computed from the repeated arrays; if there is no common shape, the
first update raises `ValueError`. -/
theorem C136_forwardbackward_shape (x y : Arr 𝕜) (w : Arr ℝ) (soft : Bool) (beta lam : ℕ → ℝ) (n : ℕ) :
    (∀ u, (∀ v, Fits u v ↔ Fits x.shape v ∧ Fits y.shape v ∧ Fits w.shape v) →
      ∃ t, fbShapeRun (denoiseGrad y) (sparseOp w soft) noRestart beta lam x (n + 1) = .ok t ∧
        fbShapeRun (denoiseGrad (repeated u y)) (sparseOp (repeated u w) soft) noRestart beta lam (repeated u x) (n + 1) = .ok t ∧
        t.xOld.shape = u ∧ t.zOld.shape = u) ∧
    ((¬ ∃ v, Fits x.shape v ∧ Fits y.shape v ∧ Fits w.shape v) →
      fbShapeRun (denoiseGrad y) (sparseOp w soft) noRestart beta lam x (n + 1) = .error .valueError) := by
  constructor
  · intro u hu
    obtain ⟨hx, hy, hw⟩ := (hu u).1 (fits_refl u)
    have key : ∀ n, ∃ t, fbShapeRun (denoiseGrad y) (sparseOp w soft) noRestart beta lam x (n + 1) = .ok t ∧
        fbShapeRun (denoiseGrad (repeated u y)) (sparseOp (repeated u w) soft) noRestart beta lam (repeated u x) (n + 1) = .ok t ∧
        t.xOld.shape = u ∧ t.zOld.shape = u ∧ repeated u t.xOld = t.xOld ∧ repeated u t.zOld = t.zOld := by
      intro n
      induction n with
      | zero =>
        obtain ⟨t, h1, h2, h3⟩ := fbStep_repeated y w soft (beta 0) (lam 0) ⟨x, x⟩ hx hx hy hw
          (fun v a b c => (hu v).2 ⟨a, b, c⟩)
        exact ⟨t, h1, h2, h3⟩
      | succ n ih =>
        obtain ⟨s, e1, e2, s1, s2, s3, s4⟩ := ih
        obtain ⟨t, h1, h2, h3⟩ := fbStep_repeated y w soft (beta (n + 1)) (lam (n + 1)) s (by rw [s1]; exact fits_refl u)
          (by rw [s2]; exact fits_refl u) hy hw (fun v a _ _ => by rw [s2] at a; exact a)
        rw [s3, s4] at h2
        refine ⟨t, ?_, ?_, h3⟩
        · rw [fbShapeRun, e1]; exact h1
        · rw [fbShapeRun, e2]; exact h2
    obtain ⟨t, h1, h2, h3, h4, -⟩ := key n
    exact ⟨t, h1, h2, h3, h4⟩
  · intro hno
    induction n with
    | zero =>
      show fbStep (denoiseGrad y) (sparseOp w soft) noRestart (beta 0) (lam 0) ⟨x, x⟩ = _
      simp only [fbStep, denoiseGrad_eq, sub, sparseOp, bind, Except.bind]
      by_cases h : ∃ v, Fits x.shape v ∧ Fits y.shape v
      · obtain ⟨v, hv1, hv2⟩ := h
        obtain ⟨a, ha⟩ := join_exists hv1 hv2
        obtain ⟨a1, a2, a3⟩ := join_some ha
        rw [binop_of_join ha]
        simp only
        rw [binop_of_join (u := a) (by exact join_fits.2 a1)]
        simp only
        rw [binop_error]
        rintro ⟨v, h1, h2⟩
        exact hno ⟨v, fits_trans a1 h1, fits_trans a2 h1, h2⟩
      · rw [binop_error h]
    | succ n ih => rw [fbShapeRun, ih]; rfl

/-- C136, the criterion: a run of `ForwardBackward` keeps the shape of its starting array exactly when data and weights
can be repeated to that shape; otherwise it either raises or returns an array of another shape. -/
theorem C136_forwardbackward_keeps_shape_iff (x y : Arr 𝕜) (w : Arr ℝ) (soft : Bool) (beta lam : ℕ → ℝ) (n : ℕ) :
    (∃ t, fbShapeRun (denoiseGrad y) (sparseOp w soft) noRestart beta lam x (n + 1) = .ok t ∧ t.zOld.shape = x.shape) ↔
      Fits y.shape x.shape ∧ Fits w.shape x.shape := by
  obtain ⟨h1, h2⟩ := C136_forwardbackward_shape x y w soft beta lam n
  constructor
  · rintro ⟨t, ht, hs⟩
    by_cases h : ∃ v, Fits x.shape v ∧ Fits y.shape v ∧ Fits w.shape v
    · obtain ⟨v, hx, hy, hw⟩ := h
      obtain ⟨a, ha⟩ := join_exists hx hy
      obtain ⟨a1, a2, a3⟩ := join_some ha
      obtain ⟨b, hb⟩ := join_exists (a3 v hx hy) hw
      obtain ⟨b1, b2, b3⟩ := join_some hb
      obtain ⟨t', ht', -, -, hz⟩ := h1 b fun v => ⟨fun hv => ⟨fits_trans a1 (fits_trans b1 hv),
        fits_trans a2 (fits_trans b1 hv), fits_trans b2 hv⟩, fun hv => b3 v (a3 v hv.1 hv.2.1) hv.2.2⟩
      rw [ht] at ht'
      cases ht'
      rw [hz] at hs
      rw [← hs]
      exact ⟨fits_trans a2 b1, b2⟩
    · rw [h2 h] at ht; cases ht
  · rintro ⟨hy, hw⟩
    obtain ⟨t, ht, -, -, hz⟩ := h1 x.shape fun v => ⟨fun hv => ⟨hv, fits_trans hy hv, fits_trans hw hv⟩, fun hv => hv.1⟩
    exact ⟨t, ht, hz⟩

/-- C136 refuted for `ForwardBackward`: starting array and data of shape `(n,)` and weights of shape `(n, 1)`:
the run does not raise, and the solution has shape `(n, n)`, after any number of updates. -/
theorem C136_forwardbackward_silent_growth (n : ℕ) (x y : Arr 𝕜) (w : Arr ℝ) (hx : x.shape = [n])
    (hy : y.shape = [n]) (hw : w.shape = [1, n]) (soft : Bool) (beta lam : ℕ → ℝ) (m : ℕ) :
    ∃ t, fbShapeRun (denoiseGrad y) (sparseOp w soft) noRestart beta lam x (m + 1) = .ok t ∧
      t.xOld.shape = [n, n] ∧ t.zOld.shape = [n, n] ∧ t.zOld.shape ≠ x.shape := by
  obtain ⟨t, h1, -, h3, h4⟩ := (C136_forwardbackward_shape x y w soft beta lam m).1 [n, n] (fun v => by
    rw [hx, hy, hw]
    cases v with
    | nil => exact ⟨fun h => absurd h not_fits_cons_nil, fun h => absurd h.1 not_fits_cons_nil⟩
    | cons a v =>
      cases v with
      | nil =>
        refine ⟨fun h => absurd (fits_cons.1 h).2 not_fits_cons_nil, fun h => absurd (fits_cons.1 h.2.2).2 not_fits_cons_nil⟩
      | cons b v =>
        simp only [fits_cons]
        have := fits_nil v
        have := fits_nil (b :: v)
        constructor
        · rintro ⟨h1, h2, -⟩
          exact ⟨⟨h1, by assumption⟩, ⟨h1, by assumption⟩, by simp, h2, by assumption⟩
        · rintro ⟨⟨h1, -⟩, -, -, h2, -⟩
          exact ⟨h1, h2, by assumption⟩)
  exact ⟨t, h1, h3, h4, by rw [h4, hx]; simp⟩

/-- C136 for `ForwardBackward`, partial: with operators that return arrays of the shape `s` they are given, and any
restart rule that does not raise, all iterates have the shape of the starting array. -/
theorem C136_forwardbackward_shape_partial (grad : Arr 𝕜 → Py (Arr 𝕜)) (prox : Arr 𝕜 → ℝ → Py (Arr 𝕜))
    (restart : Arr 𝕜 → Arr 𝕜 → Arr 𝕜 → Py Bool) (beta lam : ℕ → ℝ) (x : Arr 𝕜)
    (hg : ∀ v, v.shape = x.shape → ∃ g, grad v = .ok g ∧ g.shape = x.shape)
    (hp : ∀ v c, v.shape = x.shape → ∃ g, prox v c = .ok g ∧ g.shape = x.shape)
    (hr : ∀ a b c, ∃ r, restart a b c = .ok r) (n : ℕ) :
    ∃ t, fbShapeRun grad prox restart beta lam x n = .ok t ∧ t.xOld.shape = x.shape ∧ t.zOld.shape = x.shape := by
  have same : ∀ (f : 𝕜 → 𝕜 → 𝕜) {a b : Arr 𝕜}, a.shape = x.shape → b.shape = x.shape →
      ∃ c, binop f a b = .ok c ∧ c.shape = x.shape := by
    intro f a b ha hb
    exact ⟨_, binop_of_join (u := x.shape) (by rw [ha, hb]; exact join_fits.2 (fits_refl _)), rfl⟩
  induction n with
  | zero => exact ⟨_, rfl, rfl, rfl⟩
  | succ n ih =>
    obtain ⟨s, hs, s1, s2⟩ := ih
    obtain ⟨g, g1, g2⟩ := hg _ s2
    obtain ⟨v, v1, v2⟩ := same (· - ·) s2 (b := scale (beta n) g) g2
    obtain ⟨p, p1, p2⟩ := hp v (beta n) v2
    obtain ⟨d, d1, d2⟩ := same (· - ·) p2 s1
    obtain ⟨z, z1, z2⟩ := same (· + ·) s1 (b := scale (lam n) d) d2
    obtain ⟨r, hr⟩ := hr s.zOld p s.xOld
    refine ⟨if r then ⟨p, p⟩ else ⟨p, z⟩, ?_, ?_, ?_⟩
    · rw [fbShapeRun, hs]
      show fbStep _ _ _ _ _ _ = _
      simp only [fbStep, bind, Except.bind, g1, sub, add]
      rw [v1]; simp only
      rw [p1]; simp only
      rw [d1]; simp only
      rw [z1]; simp only
      rw [hr]
    · cases r <;> exact p2
    · cases r
      · exact z2
      · exact p2

/-! ## Gradient descent -/

/-- C136 refuted for gradient descent in the same setting: no exception, another shape. -/
theorem C136_vanilla_silent_growth (n : ℕ) (hn : 2 ≤ n) (x y : Arr 𝕜) (hx : x.shape = [n]) (hy : y.shape = [1, n])
    (prox : Arr 𝕜 → ℝ → Py (Arr 𝕜)) (hp : ∀ v c, prox v c = .ok v) (eta : ℕ → ℝ) (ep : ℕ → Bool) (m : ℕ) :
    ∃ t, vanillaShapeRun (denoiseGrad y) prox eta ep x (m + 1) = .ok t ∧ t.shape = [n, n] := by
  have step : ∀ (v : Arr 𝕜) (e : ℝ) (b : Bool), v.shape = [n] ∨ v.shape = [n, n] →
      ∃ t, vanillaStep (denoiseGrad y) prox e b v = .ok t ∧ t.shape = [n, n] := by
    intro v e b hv
    have hj : join v.shape y.shape = some [n, n] := by
      rw [hy]
      have hn1 : n ≠ 1 := by omega
      rcases hv with hv | hv <;> rw [hv] <;> simp [join, hn1]
    have hj2 : join v.shape [n, n] = some [n, n] := by
      rcases hv with hv | hv <;> rw [hv] <;> simp [join]
    simp only [vanillaStep, denoiseGrad_eq, sub, bind, Except.bind]
    rw [binop_of_join hj]
    simp only
    rw [binop_of_join (u := [n, n]) (by exact hj2)]
    simp only [hp]
    cases b <;> exact ⟨_, rfl, rfl⟩
  induction m with
  | zero =>
    show ∃ t, vanillaStep _ _ _ _ x = _ ∧ _
    exact step x _ _ (Or.inl hx)
  | succ m ih =>
    obtain ⟨t, h1, h2⟩ := ih
    obtain ⟨t', h3, h4⟩ := step t (eta (m + 1)) (ep (m + 1)) (Or.inr h2)
    exact ⟨t', by rw [vanillaShapeRun, h1]; exact h3, h4⟩

/-! ## The algorithms with in-place updates -/

theorem genLoop_shapes (x g : Arr 𝕜) (gamma lam : ℝ) (s : Shape) : ∀ (ps : List (Arr 𝕜 → ℝ → Py (Arr 𝕜))) (zs : List (Arr 𝕜))
    (ws : List ℝ) (out : List (Arr 𝕜)), (∀ z ∈ zs, z.shape = s) → genLoop x g gamma lam ps zs ws = .ok out →
    ∀ z ∈ out, z.shape = s
  | p :: ps, z :: zs, w :: ws, out, hz, h => by
    simp only [genLoop, bind_eq_ok] at h
    obtain ⟨t, -, t', -, v, -, d, -, z', h1, zs', h2, h3⟩ := h
    cases h3
    intro a ha
    rcases List.mem_cons.1 ha with rfl | ha
    · rw [(iadd_ok h1).1]; exact hz z List.mem_cons_self
    · exact genLoop_shapes x g gamma lam s ps zs ws zs' (fun b hb => hz b (List.mem_cons_of_mem _ hb)) h2 a ha
  | [], _, _, out, _, h => by cases h; simp
  | _ :: _, [], _, out, _, h => by cases h; simp
  | _ :: _, _ :: _, [], out, _, h => by cases h; simp

/-- C136 for `GenForwardBackward`: whatever shapes the operators return, after every run that does not raise the solution
and the auxiliary variables have the shape of the starting array. -/
theorem C136_genforwardbackward_keeps_shape (grad : Arr 𝕜 → Py (Arr 𝕜)) (prox : List (Arr 𝕜 → ℝ → Py (Arr 𝕜))) (w : List ℝ)
    (gamma lam : ℕ → ℝ) (x : Arr 𝕜) (n : ℕ) (t : GenSt 𝕜) (h : genShapeRun grad prox w gamma lam x n = .ok t) :
    t.xOld.shape = x.shape ∧ ∀ z ∈ t.z, z.shape = x.shape := by
  induction n generalizing t with
  | zero =>
    cases h
    exact ⟨rfl, fun z hz => by rw [(List.mem_replicate.1 hz).2]⟩
  | succ n ih =>
    rw [genShapeRun, bind_eq_ok] at h
    obtain ⟨s, hs, h⟩ := h
    obtain ⟨i1, i2⟩ := ih s hs
    simp only [genStep, bind_eq_ok] at h
    obtain ⟨g, -, z, hz, x', hx, h⟩ := h
    cases h
    exact ⟨(copyto_ok hx).1.trans i1, genLoop_shapes _ _ _ _ _ _ _ _ _ i2 hz⟩

/-- C136 for `Condat`: whatever shapes the operators return, after every run of at least one update that does not raise,
the primal and dual variables have the shapes they started with; the solution too, up to additional leading axes of length
one. -/
theorem C136_condat_keeps_shape {𝕜' : Type} [RCLike 𝕜'] (grad : Arr 𝕜 → Py (Arr 𝕜)) (prox : Arr 𝕜 → ℝ → Py (Arr 𝕜))
    (proxDual : Arr 𝕜' → ℝ → Py (Arr 𝕜')) (op : Arr 𝕜 → Py (Arr 𝕜')) (adj : Arr 𝕜' → Py (Arr 𝕜)) (rho sigma tau : ℕ → ℝ)
    (s : CondatSt 𝕜 𝕜') (n : ℕ) (t : CondatSt 𝕜 𝕜')
    (h : condatShapeRun grad prox proxDual op adj rho sigma tau s (n + 1) = .ok t) :
    t.xOld.shape = s.xOld.shape ∧ t.yOld.shape = s.yOld.shape ∧ SameUpToOnes s.xOld.shape t.xNew.shape := by
  have step : ∀ (r : CondatSt 𝕜 𝕜') (k : ℕ) (t : CondatSt 𝕜 𝕜'),
      condatStep grad prox proxDual op adj (rho k) (sigma k) (tau k) r = .ok t →
      t.xOld.shape = r.xOld.shape ∧ t.yOld.shape = r.yOld.shape ∧ SameUpToOnes r.xOld.shape t.xNew.shape := by
    intro r k t h
    simp only [condatStep, bind_eq_ok] at h
    obtain ⟨g, -, t1, -, a, -, t2, -, xp, -, d, -, v, -, yt, -, p, -, yp, -, xn, hxn, yn, -, xo, hxo, yo, hyo, h⟩ := h
    cases h
    refine ⟨(copyto_ok hxo).1, (copyto_ok hyo).1, sameUpToOnes ?_ (copyto_ok hxo).2⟩
    exact (join_some (binop_ok hxn)).2.1
  induction n generalizing t with
  | zero =>
    rw [condatShapeRun, bind_eq_ok] at h
    obtain ⟨r, hr, h⟩ := h
    cases hr
    exact step _ _ _ h
  | succ n ih =>
    rw [condatShapeRun, bind_eq_ok] at h
    obtain ⟨r, hr, h⟩ := h
    obtain ⟨i1, i2, -⟩ := ih r hr
    obtain ⟨h1, h2, h3⟩ := step _ _ _ h
    rw [i1] at h1 h3
    exact ⟨h1, h2.trans i2, h3⟩

/-- C136 for `POGM`: if the proximity operator never returns fewer or shorter axes than it is given, after every run of at
least one update that does not raise the iterate has the shape it started with; the solution too, up to additional leading
axes of length one. -/
theorem C136_pogm_keeps_shape (grad : Arr 𝕜 → Py (Arr 𝕜)) (prox : Arr 𝕜 → ℝ → Py (Arr 𝕜))
    (hp : ∀ v c r, prox v c = .ok r → Fits v.shape r.shape)
    (vdot : Arr 𝕜 → Arr 𝕜 → Py Bool) (beta sigmaBar : ℝ) (s : PogmSt 𝕜) (n : ℕ) (t : PogmSt 𝕜)
    (h : pogmShapeRun grad prox vdot beta sigmaBar s (n + 1) = .ok t) :
    t.xOld.shape = s.xOld.shape ∧ SameUpToOnes s.xOld.shape t.xNew.shape := by
  have step : ∀ (r t : PogmSt 𝕜), pogmStep grad prox vdot beta sigmaBar r = .ok t →
      t.xOld.shape = r.xOld.shape ∧ SameUpToOnes r.xOld.shape t.xNew.shape := by
    intro r t h
    simp only [pogmStep, bind_eq_ok] at h
    obtain ⟨g, -, u, -, d1, e1, z1, e2, d2, -, z2, e3, d3, -, z3, e4, xn, e5, g1, -, g2, -, y, -, d4, -, b, -, b', -, uo, -,
      xo, e6, go, -, yo, -, h⟩ := h
    cases h
    refine ⟨(copyto_ok e6).1, sameUpToOnes ?_ (copyto_ok e6).2⟩
    have h1 : Fits r.xOld.shape d1.shape := (join_some (binop_ok e1)).1
    have h2 : z1.shape = d1.shape := (iadd_ok e2).1
    have h3 := (iadd_ok e3).1
    have h4 := (iadd_ok e4).1
    have h5 := hp _ _ _ e5
    rw [h4, h3, h2] at h5
    exact fits_trans h1 h5
  induction n generalizing t with
  | zero =>
    rw [pogmShapeRun, bind_eq_ok] at h
    obtain ⟨r, hr, h⟩ := h
    cases hr
    exact step _ _ h
  | succ n ih =>
    rw [pogmShapeRun, bind_eq_ok] at h
    obtain ⟨r, hr, h⟩ := h
    obtain ⟨i1, -⟩ := ih r hr
    obtain ⟨h1, h2⟩ := step _ _ h
    rw [i1] at h1 h2
    exact ⟨h1, h2⟩

/-- The four arrays POGM updates in place keep the shapes of `u`, `x`, `y` and of the gradient at construction,
whatever shapes the operators return. -/
theorem C136_pogm_buffers_keep_shape (grad : Arr 𝕜 → Py (Arr 𝕜)) (prox : Arr 𝕜 → ℝ → Py (Arr 𝕜))
    (vdot : Arr 𝕜 → Arr 𝕜 → Py Bool) (beta sigmaBar : ℝ) (s : PogmSt 𝕜) (n : ℕ) (t : PogmSt 𝕜)
    (h : pogmShapeRun grad prox vdot beta sigmaBar s n = .ok t) :
    t.uOld.shape = s.uOld.shape ∧ t.xOld.shape = s.xOld.shape ∧ t.yOld.shape = s.yOld.shape ∧
      t.gOld.shape = s.gOld.shape := by
  have step : ∀ (r t : PogmSt 𝕜), pogmStep grad prox vdot beta sigmaBar r = .ok t →
      t.uOld.shape = r.uOld.shape ∧ t.xOld.shape = r.xOld.shape ∧ t.yOld.shape = r.yOld.shape ∧
      t.gOld.shape = r.gOld.shape := by
    intro r t h
    simp only [pogmStep, bind_eq_ok] at h
    obtain ⟨g, -, u, -, d1, -, z1, -, d2, -, z2, -, d3, -, z3, -, xn, -, g1, -, g2, -, y, -, d4, -, b, -, b', -, uo, e1,
      xo, e2, go, e3, yo, e4, h⟩ := h
    cases h
    exact ⟨(copyto_ok e1).1, (copyto_ok e2).1, (copyto_ok e4).1, (copyto_ok e3).1⟩
  induction n generalizing t with
  | zero =>
    cases h
    exact ⟨rfl, rfl, rfl, rfl⟩
  | succ n ih =>
    rw [pogmShapeRun, bind_eq_ok] at h
    obtain ⟨r, hr, h⟩ := h
    obtain ⟨i1, i2, i3, i4⟩ := ih r hr
    obtain ⟨h1, h2, h3, h4⟩ := step _ _ h
    exact ⟨h1.trans i1, h2.trans i2, h3.trans i3, h4.trans i4⟩

/-! ### Weights of the wrong shape are rejected -/

theorem genLoop_sparse (x g : Arr 𝕜) (gamma lam : ℝ) (soft : Bool) (hg : Fits x.shape g.shape) :
    ∀ (ws : List (Arr ℝ)) (zs : List (Arr 𝕜)) (cs : List ℝ), zs.length = ws.length → cs.length = ws.length →
    (∀ z ∈ zs, z.shape = x.shape) →
    ((Fits g.shape x.shape ∧ ∀ w ∈ ws, Fits w.shape x.shape) →
      ∃ out, genLoop x g gamma lam (ws.map fun w => sparseOp w soft) zs cs = .ok out) ∧
    (¬ (Fits g.shape x.shape ∧ ∀ w ∈ ws, Fits w.shape x.shape) → ws ≠ [] →
      genLoop x g gamma lam (ws.map fun w => sparseOp w soft) zs cs = .error .valueError)
  | [], [], [], _, _, _ => ⟨fun _ => ⟨[], by simp [genLoop]⟩, fun _ h => absurd rfl h⟩
  | w :: ws, z :: zs, c :: cs, h1, h2, hz => by
    obtain ⟨ih1, ih2⟩ := genLoop_sparse x g gamma lam soft hg ws zs cs (by simpa using h1) (by simpa using h2)
      (fun a ha => hz a (List.mem_cons_of_mem _ ha))
    have hz0 : z.shape = x.shape := hz z List.mem_cons_self
    -- the first two expressions have the shape of the gradient
    have e1 : sub (scale 2 x) z = .ok ⟨x.shape, fun i => (scale 2 x).val (clip x.shape i) - z.val (clip z.shape i)⟩ :=
      binop_of_join (u := x.shape) (by rw [hz0]; exact join_fits.2 (fits_refl x.shape))
    set t1 : Arr 𝕜 := ⟨x.shape, fun i => (scale 2 x).val (clip x.shape i) - z.val (clip z.shape i)⟩
    have e2 : ∃ t2 : Arr 𝕜, sub t1 (scale gamma g) = .ok t2 ∧ t2.shape = g.shape :=
      ⟨_, binop_of_join (u := g.shape) (by exact join_fits.2 hg), rfl⟩
    obtain ⟨t2, e2, hs2⟩ := e2
    simp only [List.map_cons, genLoop]
    rw [e1]
    simp only [bind, Except.bind]
    rw [e2]
    simp only
    constructor
    · rintro ⟨hgx, hw⟩
      have hgs : g.shape = x.shape := fits_antisymm hgx hg
      have hw0 := hw w List.mem_cons_self
      have e3 : ∃ v, sparseOp w soft t2 (gamma / c) = .ok v ∧ v.shape = x.shape :=
        ⟨_, binop_of_join (u := x.shape) (by rw [hs2, hgs]; exact join_fits'.2 hw0), rfl⟩
      obtain ⟨v, e3, hv⟩ := e3
      have e4 : ∃ d, sub v x = .ok d ∧ d.shape = x.shape :=
        ⟨_, binop_of_join (u := x.shape) (by rw [hv]; exact join_fits.2 (fits_refl _)), rfl⟩
      obtain ⟨d, e4, hd⟩ := e4
      have e5 : ∃ z', iadd z (scale lam d) = .ok z' := by
        unfold iadd
        rw [if_pos (by rw [hz0]; exact join_fits'.2 (by show Fits d.shape _; rw [hd]; exact fits_refl _))]
        exact ⟨_, rfl⟩
      obtain ⟨z', e5⟩ := e5
      obtain ⟨out, ho⟩ := ih1 ⟨hgx, fun w' h' => hw w' (List.mem_cons_of_mem _ h')⟩
      rw [e3]; simp only
      rw [e4]; simp only
      rw [e5]; simp only
      rw [ho]
      exact ⟨_, rfl⟩
    · intro hno _
      by_cases hc : ∃ v, Fits t2.shape v ∧ Fits w.shape v
      · obtain ⟨v0, hv1, hv2⟩ := hc
        obtain ⟨b, hb⟩ := join_exists hv1 hv2
        obtain ⟨b1, b2, b3⟩ := join_some hb
        rw [hs2] at b1
        have e3 : ∃ v, sparseOp w soft t2 (gamma / c) = .ok v ∧ v.shape = b := ⟨_, binop_of_join hb, rfl⟩
        obtain ⟨v, e3, hv⟩ := e3
        have e4 : ∃ d, sub v x = .ok d ∧ d.shape = b :=
          ⟨_, binop_of_join (u := b) (by rw [hv]; exact join_fits'.2 (fits_trans hg b1)), rfl⟩
        obtain ⟨d, e4, hd⟩ := e4
        rw [e3]; simp only
        rw [e4]; simp only
        by_cases hbx : Fits b x.shape
        · have e5 : ∃ z', iadd z (scale lam d) = .ok z' := by
            unfold iadd
            rw [if_pos (by rw [hz0]; exact join_fits'.2 (by show Fits d.shape _; rw [hd]; exact hbx))]
            exact ⟨_, rfl⟩
          obtain ⟨z', e5⟩ := e5
          rw [e5]; simp only
          have hgx : Fits g.shape x.shape := fits_trans b1 hbx
          have hwx : Fits w.shape x.shape := fits_trans b2 hbx
          have hno' : ¬ (Fits g.shape x.shape ∧ ∀ w ∈ ws, Fits w.shape x.shape) := fun h => hno ⟨hgx, fun w' hw' => by
            rcases List.mem_cons.1 hw' with rfl | hw'
            · exact hwx
            · exact h.2 w' hw'⟩
          rw [ih2 hno' (fun h => hno' ⟨hgx, by simp [h]⟩)]
        · rw [iadd_error (by show ¬ Fits d.shape z.shape; rw [hd, hz0]; exact hbx)]
      · rw [sparseOp, binop_error hc]

/-- C136, what the in-place update of `GenForwardBackward` rejects: with `GradBasic` (identity operator) and
`SparseThreshold` operators, every run succeeds when data and all weights can be repeated to the shape of the starting
array, and otherwise the first update raises `ValueError`. -/
theorem C136_genforwardbackward_rejects (x y : Arr 𝕜) (ws : List (Arr ℝ)) (hne : ws ≠ []) (soft : Bool) (cs : List ℝ)
    (hc : cs.length = ws.length) (gamma lam : ℕ → ℝ) (n : ℕ) :
    ((Fits y.shape x.shape ∧ ∀ w ∈ ws, Fits w.shape x.shape) →
      ∃ t, genShapeRun (denoiseGrad y) (ws.map fun w => sparseOp w soft) cs gamma lam x n = .ok t ∧ t.xOld.shape = x.shape) ∧
    (¬ (Fits y.shape x.shape ∧ ∀ w ∈ ws, Fits w.shape x.shape) →
      genShapeRun (denoiseGrad y) (ws.map fun w => sparseOp w soft) cs gamma lam x (n + 1) = .error .valueError) := by
  constructor
  · rintro ⟨hy, hw⟩
    have len : ∀ (a g : Arr 𝕜) (c d : ℝ) (ps : List (Arr 𝕜 → ℝ → Py (Arr 𝕜))) (zs : List (Arr 𝕜)) (cs : List ℝ) out,
        zs.length = ps.length → cs.length = ps.length → genLoop a g c d ps zs cs = .ok out → out.length = ps.length := by
      intro a g c d ps
      induction ps with
      | nil => intro zs cs out _ _ h; cases h; rfl
      | cons p ps ih =>
        intro zs cs out h1 h2 h
        match zs, cs, h1, h2, h with
        | z :: zs, c' :: cs, h1, h2, h =>
          simp only [genLoop, bind_eq_ok] at h
          obtain ⟨-, -, -, -, -, -, -, -, z', -, zs', h3, h4⟩ := h
          cases h4
          simpa using ih zs cs zs' (by simpa using h1) (by simpa using h2) h3
    suffices h : ∃ t, genShapeRun (denoiseGrad y) (ws.map fun w => sparseOp w soft) cs gamma lam x n = .ok t ∧
        t.xOld.shape = x.shape ∧ (∀ z ∈ t.z, z.shape = x.shape) ∧ t.z.length = ws.length by
      obtain ⟨t, h1, h2, -⟩ := h
      exact ⟨t, h1, h2⟩
    induction n with
    | zero =>
      refine ⟨_, rfl, rfl, fun z hz => ?_, ?_⟩
      · rw [(List.mem_replicate.1 hz).2]
      · simp
    | succ n ih =>
      obtain ⟨s, hs, s1, s2, s3⟩ := ih
      have eg : ∃ g, denoiseGrad y s.xOld = .ok g ∧ g.shape = s.xOld.shape := by
        rw [denoiseGrad_eq]
        exact ⟨_, binop_of_join (u := s.xOld.shape) (join_fits'.2 (by rw [s1]; exact hy)), rfl⟩
      obtain ⟨g, eg, hg⟩ := eg
      obtain ⟨out, ho⟩ := (genLoop_sparse s.xOld g (gamma n) (lam n) soft (by rw [hg]; exact fits_refl _) ws s.z cs s3 hc
        (fun z hz => by rw [s2 z hz, s1])).1 ⟨by rw [hg]; exact fits_refl _, fun w' h' => by rw [s1]; exact hw w' h'⟩
      have hout := genLoop_shapes _ _ _ _ _ _ _ _ _ s2 ho
      have hlen := len _ _ _ _ _ _ _ _ (by rw [s3, List.length_map]) (by rw [hc, List.length_map]) ho
      rw [genShapeRun, hs]
      show ∃ t, genStep _ _ _ _ _ s = _ ∧ _
      simp only [genStep, bind, Except.bind]
      rw [eg]; simp only
      rw [ho]; simp only
      rw [copyto_same (by rfl)]
      exact ⟨_, rfl, s1, hout, by rw [hlen, List.length_map]⟩
  · intro hno
    induction n with
    | zero =>
      show genStep _ _ _ _ _ ⟨x, List.replicate _ x⟩ = _
      simp only [genStep, bind, Except.bind, denoiseGrad_eq]
      by_cases h : ∃ v, Fits x.shape v ∧ Fits y.shape v
      · obtain ⟨v, h1, h2⟩ := h
        obtain ⟨a, ha⟩ := join_exists h1 h2
        obtain ⟨a1, a2, -⟩ := join_some ha
        have eg : ∃ g, sub x y = .ok g ∧ g.shape = a := ⟨_, binop_of_join ha, rfl⟩
        obtain ⟨g, eg, hg⟩ := eg
        rw [eg]; simp only
        rw [(genLoop_sparse x g (gamma 0) (lam 0) soft (by rw [hg]; exact a1) ws _ cs (by simp) hc
          (fun z hz => by rw [(List.mem_replicate.1 hz).2])).2 (fun hh => hno ⟨?_, hh.2⟩) hne]
        rw [hg] at hh
        exact fits_trans a2 hh.1
      · rw [show sub x y = .error .valueError from binop_error h]
    | succ n ih => rw [genShapeRun, ih]; rfl

theorem join_length : ∀ {s t u : Shape}, join s t = some u → u.length = max s.length t.length
  | [], t, u, h => by simp only [join, Option.some.injEq] at h; subst h; simp
  | a :: s, [], u, h => by simp only [join, Option.some.injEq] at h; subst h; simp
  | a :: s, b :: t, u, h => by
    rw [join] at h
    cases hj : join s t with
    | none => simp [hj] at h
    | some v =>
      have := join_length hj
      simp only [hj] at h
      split_ifs at h <;> (simp only [Option.some.injEq] at h; subst h; simp [this])

theorem copyto_error {a b : Arr 𝕜} (h : ¬ Fits b.shape a.shape) (hl : b.shape.length ≤ a.shape.length) :
    copyto a b = .error .valueError := by
  unfold copyto
  have e : strip a.shape.length b.shape = b.shape := by
    simp [strip, List.drop_eq_nil_of_le hl, List.take_of_length_le hl]
  rw [if_neg]
  rw [e]
  exact fun hj => h (join_some hj).1

/-- C136, what the in-place update of `Condat` rejects: denoising with the identity as linear operator and proximity
operators that keep shapes, data with no more axes than the starting array.  If the data can be repeated to the shape of
the starting array every run succeeds, and otherwise the first update raises `ValueError`. -/
theorem C136_condat_rejects (x d y : Arr 𝕜) (hd : d.shape = x.shape) (p q : Arr 𝕜 → ℝ → Arr 𝕜)
    (hp : ∀ a c, (p a c).shape = a.shape) (hq : ∀ a c, (q a c).shape = a.shape)
    (hl : y.shape.length ≤ x.shape.length) (rho sigma tau : ℕ → ℝ) (n : ℕ) :
    let run := condatShapeRun (denoiseGrad y) (fun a c => .ok (p a c)) (fun a c => .ok (q a c)) (fun v => .ok v)
      (fun v => .ok v) rho sigma tau ⟨x, d, x⟩
    (Fits y.shape x.shape → ∃ t, run n = .ok t ∧ t.xOld.shape = x.shape) ∧
    (¬ Fits y.shape x.shape → run (n + 1) = .error .valueError) := by
  intro run
  have bop : ∀ {f : 𝕜 → 𝕜 → 𝕜} (a b : Arr 𝕜) (u : Shape), join a.shape b.shape = some u →
      ∃ c, binop f a b = .ok c ∧ c.shape = u := fun a b u h => ⟨_, binop_of_join h, rfl⟩
  have core : ∀ (k : ℕ) (r : CondatSt 𝕜 𝕜) (a : Shape), r.xOld.shape = x.shape → r.yOld.shape = x.shape →
      join x.shape y.shape = some a → ∃ xn yn : Arr 𝕜, xn.shape = a ∧ yn.shape = a ∧
        condatStep (denoiseGrad y) (fun a c => .ok (p a c)) (fun a c => .ok (q a c)) (fun v => .ok v)
          (fun v => .ok v) (rho k) (sigma k) (tau k) r =
        (do let xo ← copyto r.xOld xn
            let yo ← copyto r.yOld yn
            .ok ⟨xo, yo, xn⟩) := by
    intro k r a h1 h2 ha
    have hsa : Fits x.shape a := (join_some ha).1
    have haa : join a a = some a := join_fits.2 (fits_refl a)
    obtain ⟨g, eg, sg⟩ := bop (f := (· - ·)) r.xOld y a (by rw [h1, ha])
    obtain ⟨t1, e1, s1⟩ := bop (f := (· - ·)) r.xOld (scale (tau k) g) a (by
      show join _ g.shape = _
      rw [h1, sg, join_fits.2 hsa])
    obtain ⟨t2, e2, s2⟩ := bop (f := (· - ·)) t1 (scale (tau k) r.yOld) a (by
      show join _ r.yOld.shape = _
      rw [s1, h2, join_fits'.2 hsa])
    have sp : (p t2 1).shape = a := by rw [hp, s2]
    obtain ⟨dd, e3, s3⟩ := bop (f := (· - ·)) (scale 2 (p t2 1)) r.xOld a (by
      show join (p t2 1).shape _ = _
      rw [sp, h1, join_fits'.2 hsa])
    obtain ⟨yt, e4, s4⟩ := bop (f := (· + ·)) r.yOld (scale (sigma k) dd) a (by
      show join _ dd.shape = _
      rw [h2, s3, join_fits.2 hsa])
    have sq : (q (scale (1 / sigma k) yt) (1 / sigma k)).shape = a := by rw [hq]; exact s4
    obtain ⟨yp, e5, s5⟩ := bop (f := (· - ·)) yt (scale (sigma k) (q (scale (1 / sigma k) yt) (1 / sigma k))) a (by
      show join _ (q _ _).shape = _
      rw [s4, sq, haa])
    obtain ⟨xn, e6, s6⟩ := bop (f := (· + ·)) (scale (rho k) (p t2 1)) (scale (1 - rho k) r.xOld) a (by
      show join (p t2 1).shape r.xOld.shape = _
      rw [sp, h1, join_fits'.2 hsa])
    obtain ⟨yn, e7, s7⟩ := bop (f := (· + ·)) (scale (rho k) yp) (scale (1 - rho k) r.yOld) a (by
      show join yp.shape r.yOld.shape = _
      rw [s5, h2, join_fits'.2 hsa])
    refine ⟨xn, yn, s6, s7, ?_⟩
    simp only [condatStep, denoiseGrad_eq, bind, Except.bind]
    rw [show sub r.xOld y = .ok g from eg]; simp only
    rw [show sub r.xOld (scale (tau k) g) = .ok t1 from e1]; simp only
    rw [show sub t1 (scale (tau k) r.yOld) = .ok t2 from e2]; simp only
    rw [show sub (scale 2 (p t2 1)) r.xOld = .ok dd from e3]; simp only
    rw [show add r.yOld (scale (sigma k) dd) = .ok yt from e4]; simp only
    rw [show sub yt (scale (sigma k) (q (scale (1 / sigma k) yt) (1 / sigma k))) = .ok yp from e5]; simp only
    rw [show add (scale (rho k) (p t2 1)) (scale (1 - rho k) r.xOld) = .ok xn from e6]; simp only
    rw [show add (scale (rho k) yp) (scale (1 - rho k) r.yOld) = .ok yn from e7]
  constructor
  · intro hy
    suffices h : ∃ t, run n = .ok t ∧ t.xOld.shape = x.shape ∧ t.yOld.shape = x.shape by
      obtain ⟨t, h1, h2, -⟩ := h
      exact ⟨t, h1, h2⟩
    induction n with
    | zero => exact ⟨_, rfl, rfl, hd⟩
    | succ n ih =>
      obtain ⟨r, hr, h1, h2⟩ := ih
      obtain ⟨xn, yn, s1, s2, e⟩ := core n r x.shape h1 h2 (join_fits'.2 hy)
      have : run (n + 1) = condatStep (denoiseGrad y) (fun a c => .ok (p a c)) (fun a c => .ok (q a c)) (fun v => .ok v)
          (fun v => .ok v) (rho n) (sigma n) (tau n) r := by
        simp only [run] at hr ⊢
        rw [condatShapeRun, hr]
        rfl
      rw [this, e, copyto_same (by rw [s1, h1]), copyto_same (by rw [s2, h2])]
      exact ⟨_, rfl, h1, h2⟩
  · intro hy
    induction n with
    | zero =>
      have h0 : run (0 + 1) = condatStep (denoiseGrad y) (fun a c => .ok (p a c)) (fun a c => .ok (q a c)) (fun v => .ok v)
          (fun v => .ok v) (rho 0) (sigma 0) (tau 0) ⟨x, d, x⟩ := rfl
      rw [h0]
      by_cases h : ∃ v, Fits x.shape v ∧ Fits y.shape v
      · obtain ⟨v, h1, h2⟩ := h
        obtain ⟨a, ha⟩ := join_exists h1 h2
        obtain ⟨xn, yn, s1, s2, e⟩ := core 0 ⟨x, d, x⟩ a rfl hd ha
        rw [e, copyto_error (a := x) (b := xn)]
        · rfl
        · rw [s1]
          exact fun hf => hy (fits_trans (join_some ha).2.1 hf)
        · rw [s1, join_length ha, max_eq_left hl]
      · simp only [condatStep, bind, Except.bind, denoiseGrad_eq]
        rw [show sub x y = .error .valueError from binop_error h]
    | succ n ih =>
      simp only [run] at ih ⊢
      rw [condatShapeRun, ih]
      rfl

/-- Ten data for a single unknown, and one datum for ten unknowns. -/
example (f : (ℕ → ℕ) → ℝ) : condatShapeRun (denoiseGrad ⟨[10], f⟩) (fun a _ => .ok a) (fun a _ => .ok a) (fun v => .ok v)
    (fun v => .ok v) (fun _ => 0.5) (fun _ => 1) (fun _ => 1) ⟨⟨[1], f⟩, ⟨[1], f⟩, ⟨[1], f⟩⟩ 1 = .error .valueError :=
  (C136_condat_rejects (⟨[1], f⟩ : Arr ℝ) ⟨[1], f⟩ ⟨[10], f⟩ rfl (fun a _ => a) (fun a _ => a) (fun _ _ => rfl)
    (fun _ _ => rfl) le_rfl _ _ _ 0).2 (fun h => by simp [fits_cons] at h)

example (f : (ℕ → ℕ) → ℝ) (n : ℕ) : ∃ t, condatShapeRun (denoiseGrad ⟨[1], f⟩) (fun a _ => .ok a) (fun a _ => .ok a)
    (fun v => .ok v) (fun v => .ok v) (fun _ => 0.5) (fun _ => 1) (fun _ => 1) ⟨⟨[10], f⟩, ⟨[10], f⟩, ⟨[10], f⟩⟩ n = .ok t ∧
    t.xOld.shape = [10] :=
  (C136_condat_rejects (⟨[10], f⟩ : Arr ℝ) ⟨[10], f⟩ ⟨[1], f⟩ rfl (fun a _ => a) (fun a _ => a) (fun _ _ => rfl)
    (fun _ _ => rfl) le_rfl _ _ _ n).1 (fits_cons.2 ⟨Or.inl rfl, fits_refl _⟩)

/-! ### Arrays of one shape: the value models -/

/-- When all arrays have the shape `s`, the run with broadcasting computes what the model on vectors
(`Verif.Model.ForwardBackward`) computes.  `arr` gives the entries of a vector; they do not depend on positions on axes of
length one. -/
theorem C136_same_shape_agrees {E : Type} [NormedAddCommGroup E] [InnerProductSpace ℝ E] (s : Shape)
    (arr : E → (ℕ → ℕ) → 𝕜) (hsub : ∀ a b i, arr (a - b) i = arr a i - arr b i) (hadd : ∀ a b i, arr (a + b) i = arr a i + arr b i)
    (hsmul : ∀ (c : ℝ) a i, arr (c • a) i = (c : 𝕜) * arr a i) (hclip : ∀ a i, arr a (clip s i) = arr a i)
    (grad : E → E) (prox : E → ℝ → E) (grad' : Arr 𝕜 → Py (Arr 𝕜)) (prox' : Arr 𝕜 → ℝ → Py (Arr 𝕜))
    (hg : ∀ v, grad' ⟨s, arr v⟩ = .ok ⟨s, arr (grad v)⟩) (hp : ∀ v c, prox' ⟨s, arr v⟩ c = .ok ⟨s, arr (prox v c)⟩)
    (x : E) (beta lam : ℝ) (n : ℕ) :
    fbShapeRun grad' prox' noRestart (fun _ => beta) (fun _ => lam) ⟨s, arr x⟩ n =
      .ok ⟨⟨s, arr (afterSteps grad prox (FB.userRules none none) ⟨x, x, none, none, beta, lam, ()⟩ n).xOld⟩,
        ⟨s, arr (afterSteps grad prox (FB.userRules none none) ⟨x, x, none, none, beta, lam, ()⟩ n).zOld⟩⟩ := by
  have hs : ∀ a b : E, sub (⟨s, arr a⟩ : Arr 𝕜) ⟨s, arr b⟩ = .ok ⟨s, arr (a - b)⟩ := by
    intro a b
    rw [sub, binop_of_join (u := s) (by exact join_fits.2 (fits_refl s))]
    simp only
    congr 2
    funext i
    rw [hclip, hclip, hsub]
  have ha : ∀ a b : E, add (⟨s, arr a⟩ : Arr 𝕜) ⟨s, arr b⟩ = .ok ⟨s, arr (a + b)⟩ := by
    intro a b
    rw [add, binop_of_join (u := s) (by exact join_fits.2 (fits_refl s))]
    simp only
    congr 2
    funext i
    rw [hclip, hclip, hadd]
  have hc : ∀ (c : ℝ) (a : E), scale c (⟨s, arr a⟩ : Arr 𝕜) = ⟨s, arr (c • a)⟩ := by
    intro c a
    simp only [scale]
    congr 1
    funext i
    rw [hsmul]
  have hpar : ∀ n, (afterSteps grad prox (FB.userRules none none) ⟨x, x, none, none, beta, lam, ()⟩ n).beta = beta ∧
      (afterSteps grad prox (FB.userRules none none) ⟨x, x, none, none, beta, lam, ()⟩ n).lam = lam := by
    intro n
    induction n with
    | zero => exact ⟨rfl, rfl⟩
    | succ n ih => exact ih
  induction n with
  | zero => rfl
  | succ n ih =>
    rw [fbShapeRun, ih]
    obtain ⟨h1, h2⟩ := hpar n
    show fbStep _ _ _ _ _ _ = _
    simp only [afterSteps]
    generalize afterSteps grad prox (FB.userRules none none) ⟨x, x, none, none, beta, lam, ()⟩ n = t at *
    simp only [fbStep, noRestart, bind, Except.bind, hg, hc, hs, hp, ha, FB.step, FB.userRules, FB.applyUpd, h1, h2]
    rfl

/-! ### Examples -/

/-- `(3,)`, `(3,)` and `(3, 1)`: the solution of `ForwardBackward` has shape `(3, 3)`, `GenForwardBackward` raises. -/
example (x y : (ℕ → ℕ) → ℝ) (w : (ℕ → ℕ) → ℝ) :
    (∃ t, fbShapeRun (denoiseGrad ⟨[3], y⟩) (sparseOp ⟨[1, 3], w⟩ true) noRestart (fun _ => 1) (fun _ => 1) ⟨[3], x⟩ 10 = .ok t ∧
      t.zOld.shape = [3, 3]) ∧
    genShapeRun (denoiseGrad ⟨[3], y⟩) [sparseOp ⟨[1, 3], w⟩ true] [1] (fun _ => 1) (fun _ => 1) ⟨[3], x⟩ 10 = .error .valueError := by
  constructor
  · obtain ⟨t, h1, -, h2, -⟩ := C136_forwardbackward_silent_growth 3 (⟨[3], x⟩ : Arr ℝ) ⟨[3], y⟩ ⟨[1, 3], w⟩ rfl rfl rfl true
      (fun _ => 1) (fun _ => 1) 9
    exact ⟨t, h1, h2⟩
  · exact (C136_genforwardbackward_rejects (⟨[3], x⟩ : Arr ℝ) ⟨[3], y⟩ [⟨[1, 3], w⟩] (by simp) true [1] rfl (fun _ => 1)
      (fun _ => 1) 9).2 (fun h => by
        have := h.2 ⟨[1, 3], w⟩ (by simp)
        simp [fits_cons] at this
        exact not_fits_cons_nil this)

/-- Weights of shape `(1,)` keep the shape. -/
example (x y : (ℕ → ℕ) → ℝ) (w : (ℕ → ℕ) → ℝ) :=
  (C136_forwardbackward_keeps_shape_iff (⟨[3], x⟩ : Arr ℝ) ⟨[3], y⟩ ⟨[1], w⟩ true (fun _ => 1) (fun _ => 1) 9).2
    ⟨fits_refl _, fits_cons.2 ⟨Or.inl rfl, fits_nil _⟩⟩

/-- Vectors with three entries. -/
example (y x : EuclideanSpace ℝ (Fin 3)) (n : ℕ) := C136_same_shape_agrees (𝕜 := ℝ) [3]
  (fun (v : EuclideanSpace ℝ (Fin 3)) i => v (Fin.ofNat 3 (i 0))) (fun _ _ _ => rfl) (fun _ _ _ => rfl) (fun _ _ _ => rfl)
  (fun a i => by simp [clip]) (fun v => v - y) (fun v _ => v)
  (denoiseGrad ⟨[3], fun i => y (Fin.ofNat 3 (i 0))⟩) (fun v _ => .ok v)
  (fun v => by rw [denoiseGrad_eq]; simp [sub, binop, join, clip]) (fun _ _ => rfl) x 1 1 n

/-- A run of `Condat` and one of `POGM` that do not raise, with weights of shape `(1,)` and `(1, 3)`. -/
example (x y w : (ℕ → ℕ) → ℝ) : ∃ t, condatShapeRun (denoiseGrad ⟨[3], y⟩) (fun v _ => .ok v) (sparseOp ⟨[1], w⟩ true)
    (fun v => .ok v) (fun v => .ok v) (fun _ => 1) (fun _ => 1) (fun _ => 1) ⟨⟨[3], x⟩, ⟨[3], x⟩, ⟨[3], x⟩⟩ 1 = .ok t ∧
    t.xNew.shape = [3] := ⟨_, rfl, rfl⟩

/-- With weights of shape `(1, 3)` the solution of `POGM` has an additional axis. -/
example (x y w : (ℕ → ℕ) → ℝ) : ∃ t, pogmShapeRun (denoiseGrad ⟨[3], y⟩) (sparseOp ⟨[3, 1], w⟩ true) (fun _ _ => .ok true) 1 1
    ⟨⟨[3], x⟩, ⟨[3], x⟩, ⟨[3], x⟩, ⟨[3], x⟩, ⟨[3], x⟩, ⟨[3], x⟩, 1, 1, 1⟩ 1 = .ok t ∧ t.xNew.shape = [3, 1] := ⟨_, rfl, rfl⟩

/-- `SparseThreshold` never returns fewer or shorter axes. -/
example (w : Arr ℝ) (soft : Bool) (v : Arr 𝕜) (c : ℝ) (r : Arr 𝕜) (h : sparseOp w soft v c = .ok r) : Fits v.shape r.shape :=
  (join_some (binop_ok h)).1

end Verif
