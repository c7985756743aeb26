import Verif.Props.Shapes
import Verif.Model.BroadcastMore
import Mathlib.Data.List.GetD

/-!
# C136: the shape of the solution of the gradient descent classes and of ADMM

`AdaGenericGradOpt` and `SAGAOptGradOpt` store the gradients in arrays of the shape of the starting array and therefore
reject gradients of another shape; the other gradient descent classes do not.  `FastADMM` copies into its old arrays, `ADMM`
replaces them.
-/

set_option linter.unusedSectionVars false

namespace Verif
open Nd Spec
variable {𝕜 : Type} [RCLike 𝕜]

theorem fits_length_append (s : Shape) (m k : ℕ) (h : m ≤ k) :
    Fits (s ++ List.replicate m 1) (s ++ List.replicate k 1) := by
  refine ⟨by simp; omega, fun j => ?_⟩
  by_cases hj : j < s.length
  · right
    rw [List.getD_append _ _ _ _ hj, List.getD_append _ _ _ _ hj]
  · left
    rw [List.getD_append_right _ _ _ _ (by omega)]
    by_cases hm : j - s.length < m
    · rw [List.getD_eq_getElem _ _ (by simpa using hm)]; simp
    · rw [List.getD_eq_default _ _ (by simpa using hm)]

theorem fits_append_ones (s : Shape) (k : ℕ) : Fits s (s ++ List.replicate k 1) := by
  simpa using fits_length_append s 0 k (Nat.zero_le _)

theorem sameUpToOnes_of_fits : ∀ {s r : Shape} {m : ℕ}, Fits s r → Fits r (s ++ List.replicate m 1) → SameUpToOnes s r
  | [], r, m, _, h => by
    refine ⟨r.length, ?_⟩
    refine List.ext_getElem (by simp) fun j h1 h2 => ?_
    have := h.2 j
    rw [List.getD_eq_getElem _ _ h1] at this
    simp only [List.nil_append, List.getElem_replicate] at this ⊢
    rcases this with h' | h'
    · exact h'
    · rw [h', List.getD_eq_getElem _ _ (by have := h.1; simp at this ⊢; omega)]
      simp
  | a :: s, [], m, h, _ => absurd h not_fits_cons_nil
  | a :: s, b :: r, m, h, h' => by
    rw [fits_cons] at h
    rw [List.cons_append, fits_cons] at h'
    obtain ⟨k, hk⟩ := sameUpToOnes_of_fits h.2 h'.2
    have : b = a := by
      rcases h'.1 with h1 | h1
      · rcases h.1 with h2 | h2
        · rw [h1, h2]
        · exact h2.symm
      · exact h1
    exact ⟨k, by rw [hk, this]; rfl⟩

/-- `s` fits the shape `t` with some additional leading axes of length one. -/
def FitsOnes (s t : Shape) : Prop := ∃ m, Fits s (t ++ List.replicate m 1)

theorem FitsOnes.of_fits {s t : Shape} (h : Fits s t) : FitsOnes s t := ⟨0, by simpa using h⟩

theorem FitsOnes.of_same {s t : Shape} (h : SameUpToOnes s t) : FitsOnes t s := by
  obtain ⟨k, hk⟩ := h
  exact ⟨k, hk ▸ fits_refl _⟩

theorem FitsOnes.join {s t u v : Shape} (h : Nd.join s t = some v) (hs : FitsOnes s u) (ht : FitsOnes t u) :
    FitsOnes v u := by
  obtain ⟨m, hm⟩ := hs
  obtain ⟨k, hk⟩ := ht
  exact ⟨max m k, (join_some h).2.2 _ (fits_trans hm (fits_length_append u m _ (le_max_left _ _)))
    (fits_trans hk (fits_length_append u k _ (le_max_right _ _)))⟩

theorem FitsOnes.same {s r : Shape} (h : Fits s r) (h' : FitsOnes r s) : SameUpToOnes s r := by
  obtain ⟨m, hm⟩ := h'
  exact sameUpToOnes_of_fits h hm

theorem FitsOnes.trans {s t u : Shape} (h : FitsOnes s t) (h' : SameUpToOnes u t) : FitsOnes s u := by
  obtain ⟨m, hm⟩ := h
  obtain ⟨k, hk⟩ := h'
  refine ⟨k + m, ?_⟩
  rw [List.replicate_add, ← List.append_assoc, ← hk]
  exact hm

theorem fitsOnes_of_strip {s t : Shape} (h : Fits (strip t.length s) t) : FitsOnes s t := by
  unfold strip at h
  split at h
  · rename_i hall
    refine ⟨(s.drop t.length).length, ?_⟩
    have hd : s.drop t.length = List.replicate (s.drop t.length).length 1 :=
      List.eq_replicate_of_mem fun b hb => by simpa using List.all_eq_true.1 hall b hb
    by_cases hl : t.length ≤ s.length
    · have hlen : (s.take t.length).length = t.length := by simp [hl]
      have e : s = s.take t.length ++ List.replicate (s.drop t.length).length 1 := by
        conv_lhs => rw [← List.take_append_drop t.length s, hd]
      conv_lhs => rw [e]
      refine ⟨by simp [hl], fun j => ?_⟩
      by_cases hj : j < t.length
      · rw [List.getD_append _ _ _ _ (by omega), List.getD_append _ _ _ _ hj]
        exact h.2 j
      · right
        rw [List.getD_append_right _ _ _ _ (by omega), List.getD_append_right _ _ _ _ (by omega), hlen]
    · have : s.drop t.length = [] := List.drop_eq_nil_of_le (by omega)
      rw [List.take_of_length_le (by omega)] at h
      simpa [this] using h
  · exact FitsOnes.of_fits h

/-! ## Gradient descent -/

/-- The classes that keep the gradients in arrays of the shape of the starting array. -/
def StoresGradients : GD.Kind → Prop
  | .ada => True
  | .saga => True
  | _ => False

/-- What holds along a run of `AdaGenericGradOpt` or `SAGAOptGradOpt`. -/
structure GdShapes (s : Shape) (t : GdSt 𝕜) : Prop where
  x : SameUpToOnes s t.x.shape
  dir : FitsOnes t.dir.shape s
  speed : t.speed.shape = s
  memory : ∀ j, (t.memory j).shape = s

theorem SameUpToOnes.fits {s t : Shape} (h : SameUpToOnes s t) : Fits s t := by
  obtain ⟨k, hk⟩ := h
  exact hk ▸ fits_append_ones s k

theorem gdShapeStep_shapes {k : GD.Kind} (hk : StoresGradients k) (grad : Arr 𝕜 → Py (Arr 𝕜))
    (prox : Arr 𝕜 → Arr ℝ → Py (Arr 𝕜)) (hp : ∀ v c r, prox v c = .ok r → r.shape = v.shape) (eps eta : ℝ) (cycle : ℕ)
    (ep : Bool) (s : Shape) (r t : GdSt 𝕜) (hr : GdShapes s r)
    (h : gdShapeStep k grad prox eps eta cycle ep r = .ok t) : GdShapes s t := by
  simp only [gdShapeStep, bind_eq_ok] at h
  obtain ⟨g, -, r1, h1, r2, h2, d, hd, xn, hxn, h⟩ := h
  have hr2 : GdShapes s r2 ∧ (∀ (a : Arr 𝕜) y, gdReset k a y = y) := by
    cases k with
    | ada =>
      cases h1
      simp only [gdSpeed, bind_eq_ok] at h2
      obtain ⟨v, hv, h2⟩ := h2
      cases h2
      obtain ⟨v1, v2⟩ := iadd_ok hv
      refine ⟨⟨hr.x, ?_, v1.trans hr.speed, hr.memory⟩, fun _ _ => rfl⟩
      have v3 : Fits g.shape r.speed.shape := v2
      rw [hr.speed] at v3
      exact FitsOnes.of_fits v3
    | saga =>
      cases h2
      simp only [gdDir, bind_eq_ok] at h1
      obtain ⟨d1, e1, d2, e2, m, e3, h1⟩ := h1
      cases h1
      obtain ⟨m1, m2⟩ := copyto_ok e3
      refine ⟨⟨hr.x, ?_, hr.speed, fun j => ?_⟩, fun _ _ => rfl⟩
      · refine FitsOnes.join (binop_ok e2) (FitsOnes.join (binop_ok e1) hr.dir ?_) ?_
        · rw [hr.memory]; exact FitsOnes.of_fits (fits_refl _)
        · rw [hr.memory] at m2
          exact fitsOnes_of_strip m2
      · show (if j = cycle then m else r.memory j).shape = s
        split
        · exact m1.trans (hr.memory _)
        · exact hr.memory _
    | generic => exact hk.elim
    | vanilla => exact hk.elim
    | rmsprop _ => exact hk.elim
    | momentum _ => exact hk.elim
    | adam _ _ => exact hk.elim
  obtain ⟨hr2, hreset⟩ := hr2
  have hdf : FitsOnes d.shape s := by
    refine FitsOnes.join (binop_ok hd) ?_ hr2.dir
    show FitsOnes r2.speed.shape s
    rw [hr2.speed]
    exact FitsOnes.of_fits (fits_refl _)
  have hx : SameUpToOnes s xn.shape :=
    FitsOnes.same (fits_trans (SameUpToOnes.fits hr2.x) (join_some (binop_ok hxn)).1)
      (FitsOnes.join (binop_ok hxn) (FitsOnes.of_same hr2.x) hdf)
  unfold gdEpoch at h
  split at h
  · rw [bind_eq_ok] at h
    obtain ⟨p, hp', h⟩ := h
    cases h
    rw [hreset]
    refine ⟨?_, hr2.dir, hr2.speed, hr2.memory⟩
    show SameUpToOnes s p.shape
    rw [hp _ _ _ hp']
    exact hx
  · cases h
    exact ⟨hx, hr2.dir, hr2.speed, hr2.memory⟩

/-- C136 for `AdaGenericGradOpt` and `SAGAOptGradOpt`: whatever shapes the gradients have, with a proximity operator that
keeps shapes every run that does not raise ends with the shape of the starting array, up to additional leading axes of length
one. -/
theorem C136_adagrad_saga_keep_shape (k : GD.Kind) (hk : k = .ada ∨ k = .saga) (grad : Arr 𝕜 → Py (Arr 𝕜))
    (prox : Arr 𝕜 → Arr ℝ → Py (Arr 𝕜)) (hp : ∀ v c r, prox v c = .ok r → r.shape = v.shape) (eps : ℝ) (eta : ℕ → ℝ)
    (cycle : ℕ → ℕ) (epochEnd : ℕ → Bool) (x : Arr 𝕜) (n : ℕ) (t : GdSt 𝕜)
    (h : gdShapeRun k grad prox eps eta cycle epochEnd x n = .ok t) : SameUpToOnes x.shape t.x.shape := by
  have hk' : StoresGradients k := by rcases hk with rfl | rfl <;> trivial
  suffices H : GdShapes x.shape t from H.x
  induction n generalizing t with
  | zero =>
    cases h
    refine ⟨⟨0, by simp [gdInit]⟩, FitsOnes.of_fits (fits_refl _), ?_, fun _ => rfl⟩
    rcases hk with rfl | rfl <;> rfl
  | succ n ih =>
    rw [gdShapeRun, bind_eq_ok] at h
    obtain ⟨r, hr, h⟩ := h
    exact gdShapeStep_shapes hk' grad prox hp _ _ _ _ _ _ _ (ih r hr) h

/-- For `AdaGenericGradOpt` the shape is exactly the one of the starting array. -/
theorem C136_adagrad_keeps_shape (grad : Arr 𝕜 → Py (Arr 𝕜)) (prox : Arr 𝕜 → Arr ℝ → Py (Arr 𝕜))
    (hp : ∀ v c r, prox v c = .ok r → r.shape = v.shape) (eps : ℝ) (eta : ℕ → ℝ) (cycle : ℕ → ℕ) (epochEnd : ℕ → Bool)
    (x : Arr 𝕜) (n : ℕ) (t : GdSt 𝕜) (h : gdShapeRun .ada grad prox eps eta cycle epochEnd x n = .ok t) :
    t.x.shape = x.shape := by
  suffices H : t.x.shape = x.shape ∧ t.speed.shape = x.shape from H.1
  induction n generalizing t with
  | zero => cases h; exact ⟨rfl, rfl⟩
  | succ n ih =>
    rw [gdShapeRun, bind_eq_ok] at h
    obtain ⟨r, hr, h⟩ := h
    obtain ⟨i1, i2⟩ := ih r hr
    simp only [gdShapeStep, bind_eq_ok] at h
    obtain ⟨g, -, r1, h1, r2, h2, d, hd, xn, hxn, h⟩ := h
    cases h1
    simp only [gdSpeed, bind_eq_ok] at h2
    obtain ⟨v, hv, h2⟩ := h2
    cases h2
    obtain ⟨v1, v2⟩ := iadd_ok hv
    have v3 : Fits g.shape x.shape := by rw [← i2]; exact v2
    have v4 : v.shape = x.shape := v1.trans i2
    have hd' : d.shape = x.shape := by
      have e := binop_ok hd
      have e' : join v.shape g.shape = some d.shape := e
      rw [v4, join_fits'.2 v3] at e'
      exact (Option.some.inj e').symm
    have hx' : xn.shape = x.shape := by
      have e : join r.x.shape d.shape = some xn.shape := binop_ok hxn
      rw [i1, hd', join_fits.2 (fits_refl _)] at e
      exact (Option.some.inj e).symm
    unfold gdEpoch at h
    split at h
    · rw [bind_eq_ok] at h
      obtain ⟨p, hp', h⟩ := h
      cases h
      exact ⟨(hp _ _ _ hp').trans hx', v4⟩
    · cases h
      exact ⟨hx', v4⟩

/-- A run that does not raise: denoising with data of the shape of the starting array. -/
example : ∃ (x : Arr ℝ) (t : GdSt ℝ), gdShapeRun .ada (denoiseGrad ⟨[2], fun _ => 1⟩) (fun v _ => .ok v) 1 (fun _ => 1)
    (fun _ => 0) (fun _ => true) x 1 = .ok t ∧ t.x.shape = [2] := by
  refine ⟨⟨[2], fun _ => 0⟩, ?_⟩
  simp [gdShapeRun, gdShapeStep, gdInit, gdDir, gdSpeed, gdEpoch, gdStepSize, absSq, denoiseGrad_eq, bind, Except.bind, sub,
    binop, iadd, join]

/-- C136, what is rejected: if the gradient at the starting array does not fit the starting array, not even after removing
leading axes of length one, `AdaGenericGradOpt` and `SAGAOptGradOpt` raise `ValueError` in the first update, whatever the
other operators do. -/
theorem C136_adagrad_saga_reject (k : GD.Kind) (hk : k = .ada ∨ k = .saga) (grad : Arr 𝕜 → Py (Arr 𝕜))
    (prox : Arr 𝕜 → Arr ℝ → Py (Arr 𝕜)) (eps : ℝ) (eta : ℕ → ℝ) (cycle : ℕ → ℕ) (epochEnd : ℕ → Bool) (x g : Arr 𝕜)
    (hg : grad x = .ok g) (hl : g.shape.length ≤ x.shape.length) (hf : ¬ Fits g.shape x.shape) (n : ℕ) :
    gdShapeRun k grad prox eps eta cycle epochEnd x (n + 1) = .error .valueError := by
  have h0 : ∀ cy ep et, gdShapeStep k grad prox eps et cy ep (gdInit k x) = .error .valueError := by
    intro cy ep et
    have e : grad (gdInit k x).x = .ok g := hg
    simp only [gdShapeStep, bind, Except.bind, e]
    rcases hk with rfl | rfl
    · simp only [gdDir, gdSpeed, bind, Except.bind]
      rw [iadd_error (by exact hf)]
    · simp only [gdDir, bind, Except.bind]
      have e1 : sub (gdInit .saga x).dir ((gdInit .saga x).memory cy) = .ok _ :=
        binop_of_join (u := x.shape) (join_fits.2 (fits_refl _))
      rw [e1]
      by_cases hj : ∃ v, Fits x.shape v ∧ Fits g.shape v
      · obtain ⟨v, hv1, hv2⟩ := hj
        obtain ⟨u, hu⟩ := join_exists hv1 hv2
        simp only [add]
        rw [binop_of_join (u := u) (by exact hu)]
        simp only
        rw [copyto_error (a := (gdInit .saga x).memory cy) hf hl]
      · simp only [add]
        rw [binop_error (by exact hj)]
  induction n with
  | zero => exact h0 _ _ _
  | succ n ih => rw [gdShapeRun, ih]; rfl

/-- The hypotheses are met by a gradient of shape `(3,)` for a starting array of shape `(2,)`. -/
example : ¬ Fits [3] [2] ∧ ([3] : Shape).length ≤ ([2] : Shape).length := by
  refine ⟨fun h => ?_, le_rfl⟩
  have := (fits_cons.1 h).1
  omega

/-- C136 refuted for the other gradient descent classes: denoising with data of shape `(n, 1)` turns a starting array of shape
`(n,)` into a solution of shape `(n, n)` without an exception. -/
theorem C136_gradient_descent_silent_growth (k : GD.Kind) (hk : k ≠ .ada ∧ k ≠ .saga) (n : ℕ) (hn : 2 ≤ n) (x y : Arr 𝕜)
    (hx : x.shape = [n]) (hy : y.shape = [1, n]) (prox : Arr 𝕜 → Arr ℝ → Py (Arr 𝕜)) (hp : ∀ v c, prox v c = .ok v) (eps : ℝ)
    (eta : ℕ → ℝ) (cycle : ℕ → ℕ) (epochEnd : ℕ → Bool) (m : ℕ) :
    ∃ t, gdShapeRun k (denoiseGrad y) prox eps eta cycle epochEnd x (m + 1) = .ok t ∧ t.x.shape = [n, n] := by
  have step : ∀ (s : GdSt 𝕜) (e : ℝ) (cy : ℕ) (ep : Bool), (s.x.shape = [n] ∨ s.x.shape = [n, n]) → Fits s.dir.shape [n, n] →
      Fits s.speed.shape [n, n] → ∃ t, gdShapeStep k (denoiseGrad y) prox eps e cy ep s = .ok t ∧ t.x.shape = [n, n] ∧
        Fits t.dir.shape [n, n] ∧ Fits t.speed.shape [n, n] := by
    intro s e cy ep h1 h2 h3
    have hj : join s.x.shape y.shape = some [n, n] := by
      rw [hy]
      have hn1 : n ≠ 1 := by omega
      rcases h1 with h1 | h1 <;> rw [h1] <;> simp [join, hn1]
    have hxf : Fits s.x.shape [n, n] := (join_some hj).1
    have hg : ∃ g, denoiseGrad y s.x = .ok g ∧ g.shape = [n, n] :=
      ⟨_, (denoiseGrad_eq y s.x).trans (binop_of_join hj), rfl⟩
    obtain ⟨g, hg1, hg2⟩ := hg
    have hadd : ∀ {α : Type} [RCLike α] (a b : Arr α), Fits a.shape [n, n] → b.shape = [n, n] →
        ∃ c, add a b = .ok c ∧ c.shape = [n, n] := fun a b ha hb =>
      ⟨_, binop_of_join (by rw [hb]; exact join_fits.2 ha), rfl⟩
    obtain ⟨r1, e1, f1, f2, f3⟩ : ∃ r, gdDir k cy g s = .ok r ∧ r.x = s.x ∧ r.dir.shape = [n, n] ∧ r.speed = s.speed := by
      cases k with
      | ada => exact absurd rfl hk.1
      | saga => exact absurd rfl hk.2
      | generic => exact ⟨_, rfl, rfl, hg2, rfl⟩
      | vanilla => exact ⟨_, rfl, rfl, hg2, rfl⟩
      | rmsprop _ => exact ⟨_, rfl, rfl, hg2, rfl⟩
      | momentum b =>
        obtain ⟨c, c1, c2⟩ := hadd (scale b s.dir) g h2 hg2
        have q : gdDir (.momentum b) cy g s = .ok { s with dir := c } := by
          simp only [gdDir, bind, Except.bind, c1]
        exact ⟨_, q, rfl, c2, rfl⟩
      | adam a b =>
        obtain ⟨c, c1, c2⟩ := hadd (scale b s.dir) (scale (1 - b) g) h2 hg2
        have q : gdDir (.adam a b) cy g s
            = .ok { s with betaPow := s.betaPow * b, dir := scale (1 / (1 - s.betaPow * b)) c } := by
          simp only [gdDir, bind, Except.bind, c1]
        exact ⟨_, q, rfl, c2, rfl⟩
    obtain ⟨r2, e2, q1, q2, q3⟩ : ∃ r, gdSpeed k g r1 = .ok r ∧ r.x = r1.x ∧ r.dir = r1.dir ∧ Fits r.speed.shape [n, n] := by
      cases k with
      | ada => exact absurd rfl hk.1
      | saga => exact absurd rfl hk.2
      | generic => exact ⟨_, rfl, rfl, rfl, f3 ▸ h3⟩
      | vanilla => exact ⟨_, rfl, rfl, rfl, f3 ▸ h3⟩
      | momentum b => exact ⟨_, rfl, rfl, rfl, f3 ▸ h3⟩
      | rmsprop b =>
        obtain ⟨c, c1, c2⟩ := hadd (scale b r1.speed) (scale (1 - b) (absSq g)) (f3 ▸ h3) hg2
        have q : gdSpeed (.rmsprop b) g r1 = .ok { r1 with speed := c } := by
          simp only [gdSpeed, bind, Except.bind, c1]
        exact ⟨_, q, rfl, rfl, (by rw [c2]; exact fits_refl _ : Fits c.shape [n, n])⟩
      | adam a b =>
        obtain ⟨c, c1, c2⟩ := hadd (scale a r1.speed) (scale (1 - a) (absSq g)) (f3 ▸ h3) hg2
        have q : gdSpeed (.adam a b) g r1
            = .ok { r1 with gammaPow := r1.gammaPow * a, speed := scale (1 / (1 - r1.gammaPow * a)) c } := by
          simp only [gdSpeed, bind, Except.bind, c1]
        exact ⟨_, q, rfl, rfl, (by rw [c2]; exact fits_refl _ : Fits c.shape [n, n])⟩
    have hd : ∃ d, binop (fun (a : ℝ) (b : 𝕜) => (a : 𝕜) * b) (gdStepSize e eps r2) r2.dir = .ok d ∧ d.shape = [n, n] :=
      ⟨_, binop_of_join (u := [n, n]) (by rw [q2, f2]; exact join_fits.2 q3), rfl⟩
    obtain ⟨d, d1, d2⟩ := hd
    have hxn : ∃ v, sub r2.x d = .ok v ∧ v.shape = [n, n] :=
      ⟨_, binop_of_join (u := [n, n]) (by rw [q1, f1, d2]; exact join_fits.2 hxf), rfl⟩
    obtain ⟨v, v1, v2⟩ := hxn
    simp only [gdShapeStep, bind, Except.bind, hg1, e1, e2, d1, v1, gdEpoch, hp]
    cases ep
    · exact ⟨_, rfl, v2, by show Fits r2.dir.shape _; rw [q2, f2]; exact fits_refl _, q3⟩
    · refine ⟨_, rfl, v2, ?_, ?_⟩
      · have : Fits r2.dir.shape [n, n] := by rw [q2, f2]; exact fits_refl _
        cases k <;> first | exact this | exact (v2 ▸ fits_refl _ : Fits v.shape [n, n])
      · cases k <;> exact q3
  suffices H : ∃ t, gdShapeRun k (denoiseGrad y) prox eps eta cycle epochEnd x (m + 1) = .ok t ∧ t.x.shape = [n, n] ∧
      Fits t.dir.shape [n, n] ∧ Fits t.speed.shape [n, n] from by
    obtain ⟨t, h1, h2, -⟩ := H
    exact ⟨t, h1, h2⟩
  induction m with
  | zero =>
    have hf : Fits x.shape [n, n] := by rw [hx]; exact fits_cons.2 ⟨Or.inr rfl, fits_nil _⟩
    have hs : Fits (gdInit k x).speed.shape [n, n] := by
      cases k <;> first | exact hf | exact fits_nil _
    exact step (gdInit k x) _ _ _ (Or.inl hx) hf hs
  | succ m ih =>
    obtain ⟨t, h1, h2, h3, h4⟩ := ih
    obtain ⟨t', k1, k2⟩ := step t (eta (m + 1)) (cycle (m + 1)) (epochEnd (m + 1)) (Or.inr h2) h3 h4
    exact ⟨t', by rw [gdShapeRun, h1]; exact k1, k2⟩

/-! ## ADMM -/

/-- C136 refuted for `ADMM`: with identity operators, optimisers that return their data, and a constraint of shape `(n, 1)`,
starting arrays of shape `(n,)` turn into solutions of shape `(n, n)` without an exception. -/
theorem C136_admm_silent_growth (n : ℕ) (hn : 2 ≤ n) (b u v mu : Arr 𝕜) (hb : b.shape = [1, n]) (hu : u.shape = [n])
    (hv : v.shape = [n]) (hm : mu.shape = [n]) (m : ℕ) :
    ∃ t, admmShapeRun ⟨fun a => .ok a, fun a => .ok a, b, fun _ o => .ok o, fun _ o => .ok o⟩ ⟨u, v, mu⟩ (m + 1) = .ok t ∧
      t.u.shape = [n, n] ∧ t.v.shape = [n, n] ∧ t.mu.shape = [n, n] := by
  have hn1 : n ≠ 1 := by omega
  have step : ∀ s : AdmmSt 𝕜, (s.u.shape = [n] ∧ s.v.shape = [n] ∧ s.mu.shape = [n]) ∨
      (s.u.shape = [n, n] ∧ s.v.shape = [n, n] ∧ s.mu.shape = [n, n]) →
      ∃ t, admmHalf ⟨fun a => .ok a, fun a => .ok a, b, fun _ o => .ok o, fun _ o => .ok o⟩ s.u s.v s.mu = .ok t ∧
      t.u.shape = [n, n] ∧ t.v.shape = [n, n] ∧ t.mu.shape = [n, n] := by
    intro s hs
    have o : ∀ (f : 𝕜 → 𝕜 → 𝕜) (p q : Arr 𝕜) (w : Shape), join p.shape q.shape = some w → ∃ c, binop f p q = .ok c ∧ c.shape = w :=
      fun f p q w h => ⟨_, binop_of_join h, rfl⟩
    obtain ⟨a1, h1, k1⟩ := o (· + ·) s.v s.u s.u.shape (by
      rcases hs with ⟨i, j, -⟩ | ⟨i, j, -⟩ <;> rw [i, j] <;> exact join_fits.2 (fits_refl _))
    obtain ⟨a2, h2, k2⟩ := o (· - ·) a1 b [n, n] (by
      rw [k1, hb]
      rcases hs with ⟨i, -⟩ | ⟨i, -⟩ <;> rw [i] <;> simp [join, hn1])
    obtain ⟨a3, h3, k3⟩ := o (· + ·) a2 s.u [n, n] (by
      rw [k2]
      rcases hs with ⟨i, -⟩ | ⟨i, -⟩ <;> rw [i] <;> simp [join])
    obtain ⟨a4, h4, k4⟩ := o (· - ·) a3 b [n, n] (by rw [k3, hb]; simp [join, hn1])
    obtain ⟨a5, h5, k5⟩ := o (· + ·) a2 a4 [n, n] (by rw [k2, k4]; simp [join])
    obtain ⟨a6, h6, k6⟩ := o (· - ·) a5 b [n, n] (by rw [k5, hb]; simp [join, hn1])
    obtain ⟨a7, h7, k7⟩ := o (· + ·) s.mu a6 [n, n] (by
      rw [k6]
      rcases hs with ⟨-, -, i⟩ | ⟨-, -, i⟩ <;> rw [i] <;> simp [join])
    exact ⟨⟨a2, a4, a7⟩, by simp only [admmHalf, bind, Except.bind, add, sub, h1, h2, h3, h4, h5, h6, h7], k2, k4, k7⟩
  induction m with
  | zero => exact step ⟨u, v, mu⟩ (Or.inl ⟨hu, hv, hm⟩)
  | succ m ih =>
    obtain ⟨t, h1, h2⟩ := ih
    obtain ⟨t', h3, h4⟩ := step t (Or.inr h2)
    exact ⟨t', by rw [admmShapeRun, h1]; exact h3, h4⟩

/-- C136 for `FastADMM`: whatever shapes the operators and optimisers return, after every run that does not raise `u` and the
multiplier have the shapes they started with, and the second variable has the shape of the constraint vector, whatever shape
the starting array `v` had; the solution `u_final` too, up to additional leading axes of length one, if the optimiser never
returns fewer or shorter axes than its initial estimate has. -/
theorem C136_fastadmm_keeps_shape (O : AdmmOps 𝕜) (norm : Arr 𝕜 → ℝ) (eta tau alpha : ℝ) (u v mu : Arr 𝕜) (n : ℕ) (t : FastSt 𝕜)
    (h : fastShapeRun O norm eta tau (fastInit O u v mu alpha) n = .ok t) :
    t.u.shape = u.shape ∧ t.v.shape = O.b.shape ∧ t.mu.shape = mu.shape ∧
      ((∀ a o r, O.optH a o = .ok r → Fits a.shape r.shape) → SameUpToOnes u.shape t.uNew.shape) := by
  induction n generalizing t with
  | zero =>
    cases h
    exact ⟨rfl, rfl, rfl, fun _ => ⟨0, by simp [fastInit]⟩⟩
  | succ n ih =>
    rw [fastShapeRun, bind_eq_ok] at h
    obtain ⟨r, hr, h⟩ := h
    obtain ⟨i1, i2, i3, -⟩ := ih r hr
    simp only [fastShapeStep, bind_eq_ok] at h
    obtain ⟨s, hs, d, -, e, -, e', -, hats, -, u', hu, v', hv, m', hm, h⟩ := h
    cases h
    refine ⟨(copyto_ok hu).1.trans i1, (copyto_ok hv).1.trans i2, (copyto_ok hm).1.trans i3, fun hH => ?_⟩
    simp only [admmHalf, bind_eq_ok] at hs
    obtain ⟨w1, -, w2, -, w3, -, un, hun, tmp, -, w4, -, w5, -, vn, -, w6, -, w7, -, w8, -, mn, -, hs⟩ := hs
    cases hs
    rw [← i1]
    exact sameUpToOnes (hH _ _ _ hun) (copyto_ok hu).2

/-- A run that does not raise. -/
example : ∃ t : FastSt ℝ, fastShapeRun ⟨fun a => .ok a, fun a => .ok a, ⟨[2], fun _ => 1⟩, fun _ o => .ok o, fun _ o => .ok o⟩
    (fun _ => 0) 1 1 (fastInit ⟨fun a => .ok a, fun a => .ok a, ⟨[2], fun _ => 1⟩, fun _ o => .ok o, fun _ o => .ok o⟩
      ⟨[2], fun _ => 0⟩ ⟨[3], fun _ => 0⟩ ⟨[2], fun _ => 0⟩ 1) 1 = .ok t ∧ t.v.shape = [2] := by
  simp [fastShapeRun, fastShapeStep, fastInit, admmHalf, fastHats, extrapolate, Admm.below, bind, Except.bind, add, sub, binop,
    scale, copyto, strip, join]

/-- In the setting of `C136_admm_silent_growth`, `FastADMM` raises `ValueError` in the first update. -/
theorem C136_fastadmm_rejects (n : ℕ) (hn : 2 ≤ n) (b u v mu : Arr 𝕜) (hb : b.shape = [1, n]) (hu : u.shape = [n])
    (hm : mu.shape = [n]) (norm : Arr 𝕜 → ℝ) (eta tau alpha : ℝ) (m : ℕ) :
    fastShapeRun ⟨fun a => .ok a, fun a => .ok a, b, fun _ o => .ok o, fun _ o => .ok o⟩ norm eta tau
      (fastInit ⟨fun a => .ok a, fun a => .ok a, b, fun _ o => .ok o, fun _ o => .ok o⟩ u v mu alpha) (m + 1)
        = .error .valueError := by
  have hn1 : n ≠ 1 := by omega
  have o : ∀ (f : 𝕜 → 𝕜 → 𝕜) (p q : Arr 𝕜) (w : Shape), join p.shape q.shape = some w → ∃ c, binop f p q = .ok c ∧ c.shape = w :=
    fun f p q w h => ⟨_, binop_of_join h, rfl⟩
  obtain ⟨a1, h1, k1⟩ := o (· + ·) b u [n, n] (by rw [hb, hu]; simp [join, Ne.symm hn1])
  obtain ⟨a2, h2, k2⟩ := o (· - ·) a1 b [n, n] (by rw [k1, hb]; simp [join, hn1])
  obtain ⟨a3, h3, k3⟩ := o (· + ·) a2 u [n, n] (by rw [k2, hu]; simp [join])
  obtain ⟨a4, h4, k4⟩ := o (· - ·) a3 b [n, n] (by rw [k3, hb]; simp [join, hn1])
  obtain ⟨a5, h5, k5⟩ := o (· + ·) a2 a4 [n, n] (by rw [k2, k4]; simp [join])
  obtain ⟨a6, h6, k6⟩ := o (· - ·) a5 b [n, n] (by rw [k5, hb]; simp [join, hn1])
  obtain ⟨a7, h7, k7⟩ := o (· + ·) mu a6 [n, n] (by rw [k6, hm]; simp [join])
  obtain ⟨a8, h8, k8⟩ := o (· - ·) a7 mu [n, n] (by rw [k7, hm]; simp [join])
  obtain ⟨a9, h9, k9⟩ := o (· - ·) a4 b [n, n] (by rw [k4, hb]; simp [join, hn1])
  obtain ⟨b2, l2, -⟩ := o (· + ·) a4 (scale (Real.sqrt (1 + 4 * alpha ^ 2) / alpha) a9) [n, n] (by
    show join a4.shape a9.shape = _
    rw [k4, k9]; simp [join])
  obtain ⟨b4, l4, -⟩ := o (· + ·) a7 (scale (Real.sqrt (1 + 4 * alpha ^ 2) / alpha) a8) [n, n] (by
    show join a7.shape a8.shape = _
    rw [k7, k8]; simp [join])
  have hc : copyto u a2 = .error .valueError := by
    unfold copyto
    have e1 : strip u.shape.length a2.shape = [n, n] := by
      rw [k2, hu]
      simp [strip, hn1]
    rw [e1, hu, if_neg]
    simp [join]
  have first : fastShapeStep ⟨fun a => .ok a, fun a => .ok a, b, fun _ o => .ok o, fun _ o => .ok o⟩ norm eta tau
      (fastInit ⟨fun a => .ok a, fun a => .ok a, b, fun _ o => .ok o, fun _ o => .ok o⟩ u v mu alpha)
        = .error .valueError := by
    cases hbel : Admm.below (norm a8 + tau * norm a9) eta none <;>
    simp [fastShapeStep, fastInit, admmHalf, fastHats, extrapolate, bind, Except.bind, add, sub, h1, h2, h3, h4, h5, h6, h7,
      h8, h9, hbel, hc, l2, l4]
  induction m with
  | zero => exact first
  | succ m ih => rw [fastShapeRun, ih]; rfl

/-! ## Arrays of one shape: the value models -/

/-- The array of shape `s` whose entries are those of `v`; `pos` is the entry an index refers to. -/
def asArr {ι α : Type} (s : Shape) (pos : (ℕ → ℕ) → ι) (v : ι → α) : Arr α := ⟨s, fun i => v (pos i)⟩

theorem binop_asArr {ι α β γ : Type} {s t u : Shape} {pos : (ℕ → ℕ) → ι} (f : α → β → γ) (a : ι → α) (b : ι → β)
    (hj : join s t = some u) (ha : ∀ i, a (pos (clip s i)) = a (pos i)) (hb : ∀ i, b (pos (clip t i)) = b (pos i)) :
    binop f (asArr s pos a) (asArr t pos b) = .ok (asArr u pos fun j => f (a j) (b j)) := by
  rw [binop_of_join (u := u) (by exact hj)]
  simp only [asArr]
  congr 2
  funext i
  rw [ha, hb]

/-- The two models of a gradient descent object describe the same arrays. -/
structure GdSame {ι : Type} (s : Shape) (pos : (ℕ → ℕ) → ι) (k : GD.Kind) (t : GdSt 𝕜) (S : GD.St ι 𝕜) : Prop where
  x : t.x = asArr s pos S.xOld
  dir : t.dir = asArr s pos S.dir
  speed : t.speed = asArr s pos S.speed ∨ ((k = .vanilla ∨ ∃ b, k = .momentum b) ∧ t.speed = asArr [] pos S.speed ∧ S.speed = fun _ => 1)
  memory : ∀ j, t.memory j = asArr s pos (S.memory j)
  betaPow : t.betaPow = S.betaPow
  gammaPow : t.gammaPow = S.gammaPow

theorem gdShapeStep_same {ι : Type} (s : Shape) (pos : (ℕ → ℕ) → ι) (hpos : ∀ i, pos (clip s i) = pos i) (k : GD.Kind)
    (grad : (ι → 𝕜) → ι → 𝕜) (prox : (ι → 𝕜) → (ι → ℝ) → ι → 𝕜) (grad' : Arr 𝕜 → Py (Arr 𝕜))
    (prox' : Arr 𝕜 → Arr ℝ → Py (Arr 𝕜)) (hg : ∀ v, grad' (asArr s pos v) = .ok (asArr s pos (grad v)))
    (hp : ∀ v c u, (u = s ∨ u = [] ∧ ∃ a, c = fun _ => a) → prox' (asArr s pos v) (asArr u pos c) = .ok (asArr s pos (prox v c)))
    (E : ℕ) (hE : 0 < E) (eps : ℝ) (idx : ℕ) (t : GdSt 𝕜) (S : GD.St ι 𝕜) (h : GdSame s pos k t S) :
    ∃ t' S', gdShapeStep k grad' prox' eps S.eta (idx % E) (decide (idx % E = 0)) t = .ok t' ∧
      GD.update ⟨k, E, eps, none, prox⟩ idx grad S = .ok S' ∧ GdSame s pos k t' S' ∧ S'.eta = S.eta := by
  rcases t with ⟨tx, td, ts, tm, tb, tg⟩
  rcases S with ⟨Sx, Sn, Sd, Ss, Se, Sb, Sg, Sm⟩
  rcases h with ⟨h1, h2, h3, h4, h5, h6⟩
  simp only at h1 h2 h3 h4 h5 h6
  subst h1 h2 h5 h6
  have hss : ∀ {α β γ : Type} (f : α → β → γ) (a : ι → α) (b : ι → β),
      binop f (asArr s pos a) (asArr s pos b) = .ok (asArr s pos fun j => f (a j) (b j)) := fun f a b =>
    binop_asArr f a b (join_fits.2 (fits_refl s)) (fun i => by rw [hpos]) (fun i => by rw [hpos])
  have hsc : ∀ {α : Type} [RCLike α] (u : Shape) (c : ℝ) (a : ι → α), scale c (asArr u pos a) = asArr u pos fun j => (c : α) * a j :=
    fun u c a => rfl
  have hd : ∃ t1, gdDir k (idx % E) (asArr s pos (grad Sx)) ⟨asArr s pos Sx, asArr s pos Sd, ts, tm, tb, tg⟩ = .ok t1 ∧
      GdSame s pos k t1 (GD.updateDir ⟨k, E, eps, none, prox⟩ idx (grad Sx) ⟨Sx, Sn, Sd, Ss, Se, tb, tg, Sm⟩) := by
    cases k with
    | generic => exact ⟨_, rfl, rfl, rfl, h3, h4, rfl, rfl⟩
    | vanilla => exact ⟨_, rfl, rfl, rfl, h3, h4, rfl, rfl⟩
    | ada => exact ⟨_, rfl, rfl, rfl, h3, h4, rfl, rfl⟩
    | rmsprop _ => exact ⟨_, rfl, rfl, rfl, h3, h4, rfl, rfl⟩
    | momentum b =>
      simp only [gdDir, hsc, add, hss, bind, Except.bind]
      exact ⟨_, rfl, rfl, rfl, h3, h4, rfl, rfl⟩
    | adam a b =>
      simp only [gdDir, hsc, add, hss, bind, Except.bind]
      exact ⟨_, rfl, rfl, rfl, h3, h4, rfl, rfl⟩
    | saga =>
      have hc : copyto (asArr s pos (Sm (idx % E))) (asArr s pos (grad Sx)) = .ok (asArr s pos (grad Sx)) := by
        rw [copyto_same (a := asArr s pos (Sm (idx % E))) (b := asArr s pos (grad Sx)) rfl]
        simp only [asArr, hpos]
      simp only [gdDir, sub, add, h4, hss, hc, bind, Except.bind]
      refine ⟨_, rfl, rfl, rfl, h3, fun j => ?_, rfl, rfl⟩
      simp only [GD.updateDir]
      split
      · rfl
      · rfl
  obtain ⟨t1, e1, s1⟩ := hd
  have hx1 : (GD.updateDir ⟨k, E, eps, none, prox⟩ idx (grad Sx) ⟨Sx, Sn, Sd, Ss, Se, tb, tg, Sm⟩).xOld = Sx := by
    cases k <;> rfl
  have hη1 : (GD.updateDir ⟨k, E, eps, none, prox⟩ idx (grad Sx) ⟨Sx, Sn, Sd, Ss, Se, tb, tg, Sm⟩).eta = Se := by
    cases k <;> rfl
  obtain ⟨S1, hS1⟩ : ∃ q, GD.updateDir ⟨k, E, eps, none, prox⟩ idx (grad Sx) ⟨Sx, Sn, Sd, Ss, Se, tb, tg, Sm⟩ = q := ⟨_, rfl⟩
  rw [hS1] at s1 hx1 hη1
  have hsp : ∃ t2, gdSpeed k (asArr s pos (grad Sx)) t1 = .ok t2 ∧
      GdSame s pos k t2 (GD.updateSpeed ⟨k, E, eps, none, prox⟩ (grad Sx) S1) := by
    rcases t1 with ⟨tx, td, ts, tm, tb, tg⟩
    rcases S1 with ⟨Tx, Tn, Td, Ts, Te, Tb, Tg, Tm⟩
    rcases s1 with ⟨g1, g2, g3, g4, g5, g6⟩
    simp only at g1 g2 g3 g4 g5 g6
    subst g1 g2 g5 g6
    have habs : absSq (asArr s pos (grad Sx)) = asArr s pos fun j => ‖grad Sx j‖ ^ 2 := rfl
    have hia : ∀ a b : ι → ℝ, iadd (asArr s pos a) (asArr s pos b) = .ok (asArr s pos fun j => a j + b j) := by
      intro a b
      simp only [iadd]
      rw [if_pos (by exact join_fits.2 (fits_refl s))]
      simp only [asArr, hpos]
    cases k with
    | generic => exact ⟨_, rfl, rfl, rfl, g3, g4, rfl, rfl⟩
    | vanilla => exact ⟨_, rfl, rfl, rfl, g3, g4, rfl, rfl⟩
    | momentum _ => exact ⟨_, rfl, rfl, rfl, g3, g4, rfl, rfl⟩
    | saga => exact ⟨_, rfl, rfl, rfl, g3, g4, rfl, rfl⟩
    | ada =>
      have g3' : ts = asArr s pos Ts := by simpa using g3
      subst g3'
      simp only [gdSpeed, habs, hia, bind, Except.bind]
      exact ⟨_, rfl, rfl, rfl, Or.inl rfl, g4, rfl, rfl⟩
    | rmsprop a =>
      have g3' : ts = asArr s pos Ts := by simpa using g3
      subst g3'
      simp only [gdSpeed, habs, hsc, add, hss, bind, Except.bind]
      exact ⟨_, rfl, rfl, rfl, Or.inl rfl, g4, rfl, rfl⟩
    | adam a b =>
      have g3' : ts = asArr s pos Ts := by simpa using g3
      subst g3'
      simp only [gdSpeed, habs, hsc, add, hss, bind, Except.bind]
      exact ⟨_, rfl, rfl, rfl, Or.inl rfl, g4, rfl, rfl⟩
  obtain ⟨t2, e2, s2⟩ := hsp
  have hx2 : (GD.updateSpeed ⟨k, E, eps, none, prox⟩ (grad Sx) S1).xOld = Sx := by
    rw [← hx1]; cases k <;> rfl
  have hη2 : (GD.updateSpeed ⟨k, E, eps, none, prox⟩ (grad Sx) S1).eta = Se := by
    rw [← hη1]; cases k <;> rfl
  obtain ⟨S2, hS2⟩ : ∃ q, GD.updateSpeed ⟨k, E, eps, none, prox⟩ (grad Sx) S1 = q := ⟨_, rfl⟩
  rw [hS2] at s2 hx2 hη2
  obtain ⟨u, hu, hstep⟩ : ∃ u, (u = s ∨ u = [] ∧ ∃ a, GD.stepOf ⟨k, E, eps, none, prox⟩ S2 = fun _ => a) ∧
      gdStepSize Se eps t2 = asArr u pos (GD.stepOf ⟨k, E, eps, none, prox⟩ S2) := by
    rcases s2.speed with h | ⟨-, h, hc⟩
    · refine ⟨s, Or.inl rfl, ?_⟩
      simp only [gdStepSize, h, asArr, GD.stepOf, hη2]
    · refine ⟨[], Or.inr ⟨rfl, Se / (Real.sqrt 1 + eps), ?_⟩, ?_⟩
      · funext j
        simp only [GD.stepOf, hη2, hc]
      · simp only [gdStepSize, h, asArr, GD.stepOf, hη2]
  obtain ⟨st, hst⟩ : ∃ q, GD.stepOf ⟨k, E, eps, none, prox⟩ S2 = q := ⟨_, rfl⟩
  rw [hst] at hu hstep
  have hmul : binop (fun (a : ℝ) (b : 𝕜) => (a : 𝕜) * b) (asArr u pos st) t2.dir = .ok (asArr s pos fun j => (st j : 𝕜) * S2.dir j) := by
    rw [s2.dir]
    rcases hu with rfl | ⟨rfl, a, rfl⟩
    · exact hss _ _ _
    · exact binop_asArr _ _ _ (join_fits.2 (fits_nil s)) (fun _ => rfl) (fun i => by rw [hpos])
  have hsub : sub t2.x (asArr s pos fun j => (st j : 𝕜) * S2.dir j)
      = .ok (asArr s pos fun j => S2.xOld j - (st j : 𝕜) * S2.dir j) := by
    rw [s2.x]
    exact hss _ _ _
  have hstep0 : gdShapeStep k grad' prox' eps Se (idx % E) (decide (idx % E = 0)) ⟨asArr s pos Sx, asArr s pos Sd, ts, tm, tb, tg⟩
      = gdEpoch k prox' (decide (idx % E = 0)) (asArr u pos st) (asArr s pos fun j => S2.xOld j - (st j : 𝕜) * S2.dir j) t2 := by
    simp only [gdShapeStep, bind, Except.bind, hg, e1, e2, hstep, hmul, hsub]
  have hupd : GD.update ⟨k, E, eps, none, prox⟩ idx grad ⟨Sx, Sn, Sd, Ss, Se, tb, tg, Sm⟩
      = .ok (if idx % E = 0 then
          { GD.reset ⟨k, E, eps, none, prox⟩ { S2 with xNew := fun j => S2.xOld j - (st j : 𝕜) * S2.dir j } with
            xNew := prox (fun j => S2.xOld j - (st j : 𝕜) * S2.dir j) st, xOld := prox (fun j => S2.xOld j - (st j : 𝕜) * S2.dir j) st }
        else { S2 with xNew := fun j => S2.xOld j - (st j : 𝕜) * S2.dir j, xOld := fun j => S2.xOld j - (st j : 𝕜) * S2.dir j }) := by
    have hprep : GD.prepare ⟨k, E, eps, none, prox⟩ idx grad ⟨Sx, Sn, Sd, Ss, Se, tb, tg, Sm⟩ = S2 := by
      simp only [GD.prepare, hS1, hS2]
    unfold GD.update
    rw [if_neg (by simp; omega)]
    simp only [hprep, hst]
    by_cases hi : idx % E = 0
    · rw [if_pos hi, if_pos hi]
      cases k <;> rfl
    · rw [if_neg hi, if_neg hi]
  show ∃ t' S', gdShapeStep k grad' prox' eps Se (idx % E) (decide (idx % E = 0)) ⟨asArr s pos Sx, asArr s pos Sd, ts, tm, tb, tg⟩ = .ok t' ∧ _
  rw [hstep0, hupd]
  by_cases hi : idx % E = 0
  · simp only [hi, decide_true, if_true, gdEpoch, bind, Except.bind, hp _ _ _ hu]
    refine ⟨_, _, rfl, rfl, ?_, ?_⟩
    · refine ⟨rfl, ?_, ?_, ?_, ?_, ?_⟩
      · cases k <;> first | exact s2.dir | rfl
      · cases k <;> exact s2.speed
      · cases k <;> exact s2.memory
      · cases k <;> exact s2.betaPow
      · cases k <;> exact s2.gammaPow
    · cases k <;> exact hη2
  · simp only [hi, decide_false, if_false, gdEpoch]
    exact ⟨_, _, rfl, rfl, ⟨rfl, s2.dir, s2.speed, s2.memory, s2.betaPow, s2.gammaPow⟩, hη2⟩

theorem gd_run_snoc {ι : Type} (c : GD.Conf ι 𝕜) (h : GD.History ι 𝕜) (a : ℕ × ((ι → 𝕜) → ι → 𝕜)) (S : GD.St ι 𝕜) :
    GD.run c (h ++ [a]) S = match GD.run c h S with
      | .error e => .error e
      | .ok T => GD.update c a.1 a.2 T := by
  induction h generalizing S with
  | nil =>
    obtain ⟨i, g⟩ := a
    simp only [List.nil_append, GD.run]
    cases GD.update c i g S <;> rfl
  | cons b h ih =>
    obtain ⟨i, g⟩ := b
    simp only [List.cons_append, GD.run]
    cases GD.update c i g S with
    | error e => rfl
    | ok T => exact ih T

/-- When all arrays have the shape `s`, a run of a gradient descent class with broadcasting computes what the model on vectors
(`Verif.Model.GradDescent`) computes, for every history of update indices.  `pos` is the entry an index refers to; it does not
depend on positions on axes of length one. -/
theorem C136_gradient_descent_same_shape {ι : Type} (s : Shape) (pos : (ℕ → ℕ) → ι) (hpos : ∀ i, pos (clip s i) = pos i)
    (k : GD.Kind) (grad : (ι → 𝕜) → ι → 𝕜) (prox : (ι → 𝕜) → (ι → ℝ) → ι → 𝕜) (grad' : Arr 𝕜 → Py (Arr 𝕜))
    (prox' : Arr 𝕜 → Arr ℝ → Py (Arr 𝕜)) (hg : ∀ v, grad' (asArr s pos v) = .ok (asArr s pos (grad v)))
    (hp : ∀ v c u, (u = s ∨ u = [] ∧ ∃ a, c = fun _ => a) → prox' (asArr s pos v) (asArr u pos c) = .ok (asArr s pos (prox v c)))
    (E : ℕ) (hE : 0 < E) (eta eps : ℝ) (idx : ℕ → ℕ) (x : ι → 𝕜) (n : ℕ) :
    ∃ t S, gdShapeRun k grad' prox' (GD.initEps k eps) (fun _ => eta) (fun i => idx i % E) (fun i => decide (idx i % E = 0))
        (asArr s pos x) n = .ok t ∧
      (GD.init k x prox (.float eta) (.float eps) none E none).bind (fun o =>
        GD.run o.1 ((List.range n).map fun i => (idx i, grad)) o.2) = .ok S ∧ t.x = asArr s pos S.xOld := by
  suffices H : ∃ t S, gdShapeRun k grad' prox' (GD.initEps k eps) (fun _ => eta) (fun i => idx i % E)
      (fun i => decide (idx i % E = 0)) (asArr s pos x) n = .ok t ∧
      GD.run ⟨k, E, GD.initEps k eps, none, prox⟩ ((List.range n).map fun i => (idx i, grad))
        ⟨x, x, fun _ => 0, GD.initSpeed k, eta, 1, 1, fun _ _ => 0⟩ = .ok S ∧ GdSame s pos k t S ∧ S.eta = eta from by
    obtain ⟨t, S, h1, h2, h3, -⟩ := H
    exact ⟨t, S, h1, h2, h3.x⟩
  induction n with
  | zero =>
    refine ⟨_, _, rfl, rfl, ⟨rfl, rfl, ?_, fun _ => rfl, rfl, rfl⟩, rfl⟩
    cases k with
    | vanilla => exact Or.inr ⟨Or.inl rfl, rfl, rfl⟩
    | momentum b => exact Or.inr ⟨Or.inr ⟨b, rfl⟩, rfl, rfl⟩
    | _ => exact Or.inl rfl
  | succ n ih =>
    obtain ⟨t, S, h1, h2, h3, h4⟩ := ih
    obtain ⟨t', S', e1, e2, e3, e4⟩ := gdShapeStep_same s pos hpos k grad prox grad' prox' hg hp E hE (GD.initEps k eps) (idx n)
      t S h3
    rw [h4] at e1 e4
    refine ⟨t', S', by rw [gdShapeRun, h1]; exact e1, ?_, e3, e4⟩
    rw [List.range_succ, List.map_append, List.map_singleton, gd_run_snoc, h2]
    exact e2

/-- Vectors with three entries. -/
example (y x : Fin 3 → ℝ) (n : ℕ) := C136_gradient_descent_same_shape (𝕜 := ℝ) [3] (fun i => Fin.ofNat 3 (i 0))
  (fun i => by simp [clip]) (.adam 0.9 0.9) (fun v j => v j - y j) (fun v _ => v)
  (denoiseGrad (asArr [3] (fun i => Fin.ofNat 3 (i 0)) y)) (fun v _ => .ok v)
  (fun v => by rw [denoiseGrad_eq]; simp [sub, binop, join, clip, asArr]) (fun _ _ _ _ => rfl) 1 one_pos 1 1 id x n

/-- When all arrays have the shape `s`, `ADMM` with broadcasting computes what the model on vectors (`Verif.Model.Admm`)
computes, and so does `FastADMM`. -/
theorem C136_admm_same_shape {H : Type} [NormedAddCommGroup H] [InnerProductSpace ℝ H] (s : Shape)
    (arr : H → (ℕ → ℕ) → 𝕜) (hsub : ∀ a b i, arr (a - b) i = arr a i - arr b i) (hadd : ∀ a b i, arr (a + b) i = arr a i + arr b i)
    (hsmul : ∀ (c : ℝ) a i, arr (c • a) i = (c : 𝕜) * arr a i) (hclip : ∀ a i, arr a (clip s i) = arr a i)
    (P : Admm.Problem H H) (O : AdmmOps 𝕜) (hA : ∀ v, O.A ⟨s, arr v⟩ = .ok ⟨s, arr (P.A v)⟩)
    (hB : ∀ v, O.B ⟨s, arr v⟩ = .ok ⟨s, arr (P.B v)⟩) (hb : O.b = ⟨s, arr P.b⟩)
    (hH : ∀ a o, O.optH ⟨s, arr a⟩ ⟨s, arr o⟩ = .ok ⟨s, arr (P.optH a o)⟩)
    (hG : ∀ a o, O.optG ⟨s, arr a⟩ ⟨s, arr o⟩ = .ok ⟨s, arr (P.optG a o)⟩) (norm : Arr 𝕜 → ℝ) (hn : ∀ v, norm ⟨s, arr v⟩ = ‖v‖)
    (u v mu : H) (alpha eta tau : ℝ) (heta : eta ≠ 0) (n : ℕ) :
    admmShapeRun O ⟨⟨s, arr u⟩, ⟨s, arr v⟩, ⟨s, arr mu⟩⟩ n = .ok ⟨⟨s, arr (Admm.after P ⟨u, v, mu⟩ n).u⟩,
      ⟨s, arr (Admm.after P ⟨u, v, mu⟩ n).v⟩, ⟨s, arr (Admm.after P ⟨u, v, mu⟩ n).mu⟩⟩ ∧
    ∃ t S, fastShapeRun O norm eta 1 (fastInit O ⟨s, arr u⟩ ⟨s, arr v⟩ ⟨s, arr mu⟩ alpha) n = .ok t ∧
      Admm.fastAfter P false (Admm.fastInit P u v mu alpha eta tau) n = .ok S ∧
      t.u = ⟨s, arr S.u⟩ ∧ t.v = ⟨s, arr S.v⟩ ∧ t.mu = ⟨s, arr S.mu⟩ ∧
      t.vHat = S.vHat.map (fun a => ⟨s, arr a⟩) ∧ t.muHat = S.muHat.map (fun a => ⟨s, arr a⟩) ∧ t.uNew = ⟨s, arr S.u⟩ ∧
      t.vNew = ⟨s, arr S.v⟩ := by
  have hs : ∀ a b : H, sub (⟨s, arr a⟩ : Arr 𝕜) ⟨s, arr b⟩ = .ok ⟨s, arr (a - b)⟩ := by
    intro a b
    rw [sub, binop_of_join (u := s) (by exact join_fits.2 (fits_refl s))]
    simp only
    congr 2
    funext i
    rw [hclip, hclip, hsub]
  have ha : ∀ a b : H, add (⟨s, arr a⟩ : Arr 𝕜) ⟨s, arr b⟩ = .ok ⟨s, arr (a + b)⟩ := by
    intro a b
    rw [add, binop_of_join (u := s) (by exact join_fits.2 (fits_refl s))]
    simp only
    congr 2
    funext i
    rw [hclip, hclip, hadd]
  have hc : ∀ (c : ℝ) (a : H), scale c (⟨s, arr a⟩ : Arr 𝕜) = ⟨s, arr (c • a)⟩ := by
    intro c a
    simp only [scale]
    congr 1
    funext i
    rw [hsmul]
  have hcp : ∀ a b : H, copyto (⟨s, arr a⟩ : Arr 𝕜) ⟨s, arr b⟩ = .ok ⟨s, arr b⟩ := by
    intro a b
    rw [copyto_same (a := ⟨s, arr a⟩) (b := ⟨s, arr b⟩) rfl]
    simp only [hclip]
  have half : ∀ a b c : H, admmHalf O ⟨s, arr a⟩ ⟨s, arr b⟩ ⟨s, arr c⟩ = .ok ⟨⟨s, arr (Admm.step P ⟨a, b, c⟩).u⟩,
      ⟨s, arr (Admm.step P ⟨a, b, c⟩).v⟩, ⟨s, arr (Admm.step P ⟨a, b, c⟩).mu⟩⟩ := by
    intro a b c
    simp only [admmHalf, bind, Except.bind, hA, hB, hb, hH, hG, hs, ha, Admm.step]
  constructor
  · induction n with
    | zero => rfl
    | succ n ih =>
      rw [admmShapeRun, ih]
      exact half _ _ _
  · suffices Q : ∃ t S, fastShapeRun O norm eta 1 (fastInit O ⟨s, arr u⟩ ⟨s, arr v⟩ ⟨s, arr mu⟩ alpha) n = .ok t ∧
        Admm.fastAfter P false (Admm.fastInit P u v mu alpha eta tau) n = .ok S ∧
        (t.u = ⟨s, arr S.u⟩ ∧ t.v = ⟨s, arr S.v⟩ ∧ t.mu = ⟨s, arr S.mu⟩ ∧
        t.vHat = S.vHat.map (fun a => ⟨s, arr a⟩) ∧ t.muHat = S.muHat.map (fun a => ⟨s, arr a⟩) ∧ t.uNew = ⟨s, arr S.u⟩ ∧
        t.vNew = ⟨s, arr S.v⟩) ∧ t.cOld = S.cOld ∧ t.alphaOld = S.alphaOld ∧ S.tau = 1 ∧ S.eta = eta from by
      obtain ⟨t, S, h1, h2, h3, -⟩ := Q
      exact ⟨t, S, h1, h2, h3⟩
    induction n with
    | zero => exact ⟨_, _, rfl, rfl, ⟨rfl, hb, rfl, by simp [fastInit, Admm.fastInit, hb], rfl, rfl, hb⟩, rfl, rfl, rfl, rfl⟩
    | succ n ih =>
      obtain ⟨t, S, h1, h2, ⟨k1, k2, k3, k4, k5, -, -⟩, k8, k9, k10, k11⟩ := ih
      rw [fastShapeRun, h1, Admm.fastAfter, h2]
      clear h1 h2
      rcases t with ⟨tu, tv, tm, tvh, tmh, tun, tvn, tc, ta⟩
      rcases S with ⟨Su, Sv, Sm, Svh, Smh, Sc, Scn, Sa, San, Seta, Stau⟩
      simp only at k1 k2 k3 k4 k5 k8 k9 k10 k11
      subst k1 k2 k3 k4 k5 k8 k9 k10 k11
      have g1 : (Svh.map fun a => (⟨s, arr a⟩ : Arr 𝕜)).getD ⟨s, arr Sv⟩ = ⟨s, arr (Svh.getD Sv)⟩ := by cases Svh <;> rfl
      have g2 : (Smh.map fun a => (⟨s, arr a⟩ : Arr 𝕜)).getD ⟨s, arr Sm⟩ = ⟨s, arr (Smh.getD Sm)⟩ := by cases Smh <;> rfl
      show ∃ t' S', fastShapeStep O norm Seta 1 ⟨⟨s, arr Su⟩, ⟨s, arr Sv⟩, ⟨s, arr Sm⟩, Svh.map fun a => ⟨s, arr a⟩,
        Smh.map fun a => ⟨s, arr a⟩, tun, tvn, tc, ta⟩ = .ok t' ∧
        Admm.fastStep P false ⟨Su, Sv, Sm, Svh, Smh, tc, Scn, ta, San, Seta, 1⟩ = .ok S' ∧ _
      cases hbel : Admm.below (‖(Admm.step P ⟨Su, Svh.getD Sv, Smh.getD Sm⟩).mu - Smh.getD Sm‖ +
          1 * ‖P.B ((Admm.step P ⟨Su, Svh.getD Sv, Smh.getD Sm⟩).v - Svh.getD Sv)‖) Seta tc with
      | true =>
        simp only [fastShapeStep, bind, Except.bind, g1, g2, half, hs, hB, hn, hbel, fastHats, if_true, extrapolate, ha, hc, hcp]
        simp only [Admm.step] at hbel
        simp only [Admm.fastStep, hbel, if_true, Bool.false_eq_true, if_false]
        exact ⟨_, _, rfl, rfl, ⟨rfl, rfl, rfl, rfl, rfl, rfl, rfl⟩, rfl, rfl, rfl, rfl⟩
      | false =>
        simp only [fastShapeStep, bind, Except.bind, g1, g2, half, hs, hB, hn, hbel, fastHats, Bool.false_eq_true, if_false, hcp]
        simp only [Admm.step] at hbel
        simp only [Admm.fastStep, hbel, heta, Bool.false_eq_true, if_false]
        exact ⟨_, _, rfl, rfl, ⟨rfl, rfl, rfl, rfl, rfl, rfl, rfl⟩, rfl, rfl, rfl, rfl⟩

/-- Vectors with three entries; the optimisers return their data. -/
example (b u v mu : EuclideanSpace ℝ (Fin 3)) (n : ℕ) := C136_admm_same_shape (𝕜 := ℝ) [3]
  (fun (v : EuclideanSpace ℝ (Fin 3)) i => v (Fin.ofNat 3 (i 0))) (fun _ _ _ => rfl) (fun _ _ _ => rfl) (fun _ _ _ => rfl)
  (fun a i => by simp [clip]) ⟨fun _ o => o, fun _ o => o, id, id, b⟩
  ⟨fun a => .ok a, fun a => .ok a, ⟨[3], fun i => b (Fin.ofNat 3 (i 0))⟩, fun _ o => .ok o, fun _ o => .ok o⟩
  (fun _ => rfl) (fun _ => rfl) rfl (fun _ _ => rfl) (fun _ _ => rfl)
  (fun a => ‖(WithLp.toLp 2 fun j => a.val fun _ => j.val : EuclideanSpace ℝ (Fin 3))‖)
  (fun v => by congr 1; ext j; fin_cases j <;> rfl) u v mu 1 0.999 1 (by norm_num) n

end Verif
