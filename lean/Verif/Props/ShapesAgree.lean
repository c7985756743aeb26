import Verif.Props.Shapes
import Verif.Props.GenForwardBackward
import Verif.Model.PrimalDual

/-!
# C136: on arrays of one shape, broadcasting changes nothing

The runs with broadcasting of `GenForwardBackward`, `POGM`, `Condat` and gradient descent compute what the models on vectors
compute.
-/

set_option linter.unusedSectionVars false

namespace Verif
open Nd RealInnerProductSpace

variable {𝕜 : Type} [RCLike 𝕜]

/-- `arr v i` is the entry at index `i` of the array of shape `s` that represents the vector `v`; entries do not depend on
positions on axes of length one. -/
structure Entries (E : Type) [NormedAddCommGroup E] [InnerProductSpace ℝ E] (s : Shape) (arr : E → (ℕ → ℕ) → 𝕜) : Prop where
  add : ∀ a b i, arr (a + b) i = arr a i + arr b i
  smul : ∀ (c : ℝ) a i, arr (c • a) i = (c : 𝕜) * arr a i
  clip : ∀ a i, arr a (Nd.clip s i) = arr a i

namespace Entries
variable {E : Type} [NormedAddCommGroup E] [InnerProductSpace ℝ E] {s : Shape} {arr : E → (ℕ → ℕ) → 𝕜}

theorem zero (h : Entries E s arr) (i : ℕ → ℕ) : arr 0 i = 0 := by
  have := h.smul 0 0 i
  simpa using this

theorem sub (h : Entries E s arr) (a b : E) (i : ℕ → ℕ) : arr (a - b) i = arr a i - arr b i := by
  have e : a - b = a + (-1 : ℝ) • b := by rw [neg_one_smul, sub_eq_add_neg]
  rw [e, h.add, h.smul]
  push_cast
  ring

theorem subA (h : Entries E s arr) (a b : E) : Nd.sub (⟨s, arr a⟩ : Arr 𝕜) ⟨s, arr b⟩ = .ok ⟨s, arr (a - b)⟩ := by
  rw [Nd.sub, binop_of_join (u := s) (by exact join_fits.2 (fits_refl s))]
  simp only
  congr 2
  funext i
  rw [h.clip, h.clip, h.sub]

theorem addA (h : Entries E s arr) (a b : E) : Nd.add (⟨s, arr a⟩ : Arr 𝕜) ⟨s, arr b⟩ = .ok ⟨s, arr (a + b)⟩ := by
  rw [Nd.add, binop_of_join (u := s) (by exact join_fits.2 (fits_refl s))]
  simp only
  congr 2
  funext i
  rw [h.clip, h.clip, h.add]

theorem iaddA (h : Entries E s arr) (a b : E) : Nd.iadd (⟨s, arr a⟩ : Arr 𝕜) ⟨s, arr b⟩ = .ok ⟨s, arr (a + b)⟩ := by
  rw [Nd.iadd, if_pos (by exact join_fits.2 (fits_refl s))]
  simp only
  congr 2
  funext i
  rw [h.clip, h.clip, h.add]

theorem scaleA (h : Entries E s arr) (c : ℝ) (a : E) : Nd.scale c (⟨s, arr a⟩ : Arr 𝕜) = ⟨s, arr (c • a)⟩ := by
  simp only [Nd.scale]
  congr 1
  funext i
  rw [h.smul]

theorem copyA (h : Entries E s arr) (a b : E) : Nd.copyto (⟨s, arr a⟩ : Arr 𝕜) ⟨s, arr b⟩ = .ok ⟨s, arr b⟩ := by
  rw [copyto_same (by rfl)]
  congr 2
  funext i
  exact h.clip b i

theorem genLoopA (h : Entries E s arr) (x g : E) (gamma lam : ℝ) {prox : List (E → ℝ → E)}
    {prox' : List (Arr 𝕜 → ℝ → Py (Arr 𝕜))}
    (hp : List.Forall₂ (fun p p' => ∀ v c, p' ⟨s, arr v⟩ c = .ok ⟨s, arr (p v c)⟩) prox prox') :
    ∀ (zs : List E) (ws : List ℝ), genLoop (⟨s, arr x⟩ : Arr 𝕜) ⟨s, arr g⟩ gamma lam prox' (zs.map fun v => ⟨s, arr v⟩) ws
      = .ok ((FB.genZ x g gamma lam prox zs ws).map fun v => ⟨s, arr v⟩) := by
  induction hp with
  | nil => intro zs ws; rfl
  | @cons p p' ps ps' h1 _ ih =>
    intro zs ws
    match zs, ws with
    | [], _ => rfl
    | _ :: _, [] => rfl
    | z :: zs, w :: ws =>
      simp only [List.map_cons, genLoop, bind, Except.bind, h.scaleA, h.subA, h1, h.iaddA, ih, FB.genZ]

theorem sumA (h : Entries E s arr) (i : ℕ → ℕ) : ∀ (zs : List E) (ws : List ℝ),
    (List.zipWith (fun (z : Arr 𝕜) (w : ℝ) => (w : 𝕜) * z.val i) (zs.map fun v => ⟨s, arr v⟩) ws).sum
      = arr (List.zipWith (fun z w => (w : ℝ) • z) zs ws).sum i
  | [], _ => by simp [h.zero]
  | _ :: _, [] => by simp [h.zero]
  | z :: zs, w :: ws => by
    simp only [List.map_cons, List.zipWith_cons_cons, List.sum_cons, h.add, h.smul, h.sumA i zs ws]

end Entries

section
variable {E : Type} [NormedAddCommGroup E] [InnerProductSpace ℝ E] {s : Shape} {arr : E → (ℕ → ℕ) → 𝕜}

/-- C136 for `GenForwardBackward` on arrays of one shape. -/
theorem C136_genforwardbackward_same_shape (h : Entries E s arr) (grad : E → E) (prox : List (E → ℝ → E))
    (grad' : Arr 𝕜 → Py (Arr 𝕜)) (prox' : List (Arr 𝕜 → ℝ → Py (Arr 𝕜)))
    (hg : ∀ v, grad' ⟨s, arr v⟩ = .ok ⟨s, arr (grad v)⟩)
    (hp : List.Forall₂ (fun p p' => ∀ v c, p' ⟨s, arr v⟩ c = .ok ⟨s, arr (p v c)⟩) prox prox') (w : List ℝ)
    (x : E) (gamma lam : ℝ) (n : ℕ) :
    let t := genAfter grad prox w none none (FB.genInit x prox.length gamma lam ()) n
    genShapeRun grad' prox' w (fun _ => gamma) (fun _ => lam) ⟨s, arr x⟩ n
      = .ok ⟨⟨s, arr t.xOld⟩, t.z.map fun v => ⟨s, arr v⟩⟩ := by
  have hpar : ∀ n, (genAfter grad prox w none none (FB.genInit x prox.length gamma lam ()) n).gamma = gamma ∧
      (genAfter grad prox w none none (FB.genInit x prox.length gamma lam ()) n).lam = lam := by
    intro n
    induction n with
    | zero => exact ⟨rfl, rfl⟩
    | succ n ih => exact ih
  induction n with
  | zero =>
    simp only [genShapeRun, genAfter, FB.genInit, List.map_replicate, hp.length_eq]
  | succ n ih =>
    simp only [genShapeRun, genAfter] at ih ⊢
    rw [ih]
    obtain ⟨h1, h2⟩ := hpar n
    generalize genAfter grad prox w none none (FB.genInit x prox.length gamma lam ()) n = t at h1 h2
    simp only [bind, Except.bind, Nd.genStep, hg, h.genLoopA _ _ _ _ hp, FB.genStep, FB.applyUpd, h1, h2, h.sumA, h.copyA]

/-- C136 for `POGM` on arrays of one shape. -/
theorem C136_pogm_same_shape (h : Entries E s arr) (grad : E → E) (prox : E → ℝ → E) (grad' : Arr 𝕜 → Py (Arr 𝕜))
    (prox' : Arr 𝕜 → ℝ → Py (Arr 𝕜)) (vdot : Arr 𝕜 → Arr 𝕜 → Py Bool)
    (hg : ∀ v, grad' ⟨s, arr v⟩ = .ok ⟨s, arr (grad v)⟩) (hp : ∀ v c, prox' ⟨s, arr v⟩ c = .ok ⟨s, arr (prox v c)⟩)
    (hv : ∀ a b, ∃ r, vdot ⟨s, arr a⟩ ⟨s, arr b⟩ = .ok r ∧ (r = true ↔ ⟪a, b⟫ < 0))
    (beta sigmaBar : ℝ) (a : FB.Pogm E) (x0 : Arr 𝕜) (n : ℕ) :
    let t := (FB.pogmStep grad prox beta sigmaBar)^[n] a
    ∃ x', pogmShapeRun grad' prox' vdot beta sigmaBar
        ⟨⟨s, arr a.uOld⟩, ⟨s, arr a.xOld⟩, ⟨s, arr a.yOld⟩, ⟨s, arr a.z⟩, ⟨s, arr a.gOld⟩, x0, a.xi, a.sigma, a.t⟩ n
      = .ok ⟨⟨s, arr t.uOld⟩, ⟨s, arr t.xOld⟩, ⟨s, arr t.yOld⟩, ⟨s, arr t.z⟩, ⟨s, arr t.gOld⟩, x', t.xi, t.sigma, t.t⟩ ∧
      (0 < n → x' = ⟨s, arr t.xOld⟩) := by
  induction n with
  | zero => exact ⟨x0, rfl, fun h => absurd h (lt_irrefl 0)⟩
  | succ n ih =>
    simp only [Function.iterate_succ_apply'] at ih ⊢
    obtain ⟨x', ih, -⟩ := ih
    simp only [pogmShapeRun]
    rw [ih]
    generalize (FB.pogmStep grad prox beta sigmaBar)^[n] a = t
    simp only [bind, Except.bind, Nd.pogmStep, hg, h.scaleA, h.iaddA, h.subA, hp, neg_smul, one_smul]
    set tN : ℝ := 0.5 * (1 + Real.sqrt (1 + 4 * t.t ^ 2)) with htN
    set tR := (t.t - 1) / tN with htR
    set sR := t.sigma * t.t / tN with hsR
    set u := -(beta • grad t.xOld) + t.xOld with hu
    set z := -((tR * beta / t.xi) • (t.xOld - t.z)) + u + tR • (u - t.uOld) + sR • (u - t.xOld) with hz
    set g := (1 / (beta * (1 + tR + sR))) • (z - prox z (beta * (1 + tR + sR))) + grad t.xOld with hgn
    set y := -(beta • g) + t.xOld with hy
    obtain ⟨r1, e1, i1⟩ := hv (-g) (y - t.yOld)
    obtain ⟨r2, e2, i2⟩ := hv g t.gOld
    have estep : FB.pogmStep grad prox beta sigmaBar t =
        if ⟪-g, y - t.yOld⟫ < 0 then ⟨u, prox z (beta * (1 + tR + sR)), y, z, g, beta * (1 + tR + sR), 1, 1⟩
        else if ⟪g, t.gOld⟫ < 0 then ⟨u, prox z (beta * (1 + tR + sR)), y, z, g, beta * (1 + tR + sR), t.sigma * sigmaBar, tN⟩
        else ⟨u, prox z (beta * (1 + tR + sR)), y, z, g, beta * (1 + tR + sR), t.sigma, tN⟩ := by
      unfold FB.pogmStep
      simp only
      rfl
    clear_value z g y u tN tR sR
    cases r1 with
    | true =>
      have e3 := estep.trans (if_pos (i1.1 rfl))
      rw [e3]
      simp only [e1, pogmDamp, if_true, h.copyA]
      exact ⟨_, rfl, fun _ => rfl⟩
    | false =>
      have e3 := estep.trans (if_neg (fun hh => by simpa using i1.2 hh))
      cases r2 with
      | true =>
        rw [e3.trans (if_pos (i2.1 rfl))]
        simp only [e1, pogmDamp, Bool.false_eq_true, if_false, e2, h.copyA, if_true]
        exact ⟨_, rfl, fun _ => rfl⟩
      | false =>
        rw [e3.trans (if_neg (fun hh => by simpa using i2.2 hh))]
        simp only [e1, pogmDamp, Bool.false_eq_true, if_false, e2, h.copyA]
        exact ⟨_, rfl, fun _ => rfl⟩

/-- C136 for `Condat` on arrays of one shape, the dual variable having its own. -/
theorem C136_condat_same_shape {𝕜' : Type} [RCLike 𝕜'] {H : Type} [NormedAddCommGroup H] [InnerProductSpace ℝ H]
    {s' : Shape} {arr' : H → (ℕ → ℕ) → 𝕜'} (h : Entries E s arr) (h' : Entries H s' arr') (O : Condat.Ops E H)
    (grad' : Arr 𝕜 → Py (Arr 𝕜)) (prox' : Arr 𝕜 → ℝ → Py (Arr 𝕜)) (proxDual' : Arr 𝕜' → ℝ → Py (Arr 𝕜'))
    (op' : Arr 𝕜 → Py (Arr 𝕜')) (adj' : Arr 𝕜' → Py (Arr 𝕜))
    (hg : ∀ v, grad' ⟨s, arr v⟩ = .ok ⟨s, arr (O.grad v)⟩) (hp : ∀ v c, prox' ⟨s, arr v⟩ c = .ok ⟨s, arr (O.prox v c)⟩)
    (hd : ∀ v c, proxDual' ⟨s', arr' v⟩ c = .ok ⟨s', arr' (O.proxDual v c)⟩)
    (ho : ∀ v, op' ⟨s, arr v⟩ = .ok ⟨s', arr' (O.op v)⟩) (ha : ∀ v, adj' ⟨s', arr' v⟩ = .ok ⟨s, arr (O.adj v)⟩)
    (a : Condat.St E H) (x0 : Arr 𝕜) (n : ℕ) :
    let t := (Condat.step O ⟨none, none, none⟩)^[n] a
    ∃ x', condatShapeRun grad' prox' proxDual' op' adj' (fun _ => a.rho) (fun _ => a.sigma) (fun _ => a.tau)
        ⟨⟨s, arr a.x⟩, ⟨s', arr' a.y⟩, x0⟩ n = .ok ⟨⟨s, arr t.x⟩, ⟨s', arr' t.y⟩, x'⟩ ∧ (0 < n → x' = ⟨s, arr t.x⟩) := by
  have hpar : ∀ n, ((Condat.step O ⟨none, none, none⟩)^[n] a).rho = a.rho ∧
      ((Condat.step O ⟨none, none, none⟩)^[n] a).sigma = a.sigma ∧ ((Condat.step O ⟨none, none, none⟩)^[n] a).tau = a.tau := by
    intro n
    induction n with
    | zero => exact ⟨rfl, rfl, rfl⟩
    | succ n ih => rw [Function.iterate_succ_apply']; exact ih
  induction n with
  | zero => exact ⟨x0, rfl, fun h => absurd h (lt_irrefl 0)⟩
  | succ n ih =>
    simp only [Function.iterate_succ_apply'] at ih ⊢
    obtain ⟨x', ih, -⟩ := ih
    obtain ⟨p1, p2, p3⟩ := hpar n
    simp only [condatShapeRun]
    rw [ih]
    generalize (Condat.step O ⟨none, none, none⟩)^[n] a = t at p1 p2 p3
    simp only [bind, Except.bind, Nd.condatStep, hg, hp, hd, ho, ha, h.scaleA, h.subA, h.addA, h.copyA, h'.scaleA, h'.subA,
      h'.addA, h'.copyA, Condat.step, Condat.half, p1, p2, p3]
    exact ⟨_, rfl, fun _ => rfl⟩

/-- C136 for gradient descent on arrays of one shape: every update is a gradient step, followed by the regularisation at the
end of an epoch. -/
theorem C136_vanilla_same_shape (h : Entries E s arr) (grad : E → E) (prox : E → ℝ → E) (grad' : Arr 𝕜 → Py (Arr 𝕜))
    (prox' : Arr 𝕜 → ℝ → Py (Arr 𝕜)) (hg : ∀ v, grad' ⟨s, arr v⟩ = .ok ⟨s, arr (grad v)⟩)
    (hp : ∀ v c, prox' ⟨s, arr v⟩ c = .ok ⟨s, arr (prox v c)⟩) (eta : ℕ → ℝ) (ep : ℕ → Bool) (x : ℕ → E)
    (hx : ∀ n, x (n + 1) = if ep n then prox (x n - eta n • grad (x n)) (eta n) else x n - eta n • grad (x n)) (n : ℕ) :
    vanillaShapeRun grad' prox' eta ep ⟨s, arr (x 0)⟩ n = .ok ⟨s, arr (x n)⟩ := by
  induction n with
  | zero => rfl
  | succ n ih =>
    rw [vanillaShapeRun, ih]
    simp only [bind, Except.bind, vanillaStep, hg, h.scaleA, h.subA, hx n]
    split
    · exact hp _ _
    · rfl

end

/-! ### Examples -/

/-- Vectors with three entries. -/
theorem entries_fin3 : Entries (𝕜 := ℝ) (EuclideanSpace ℝ (Fin 3)) [3] fun v i => v (Fin.ofNat 3 (i 0)) :=
  ⟨fun _ _ _ => rfl, fun _ _ _ => rfl, fun a i => by simp [clip]⟩

example (y x : EuclideanSpace ℝ (Fin 3)) (n : ℕ) := C136_genforwardbackward_same_shape entries_fin3 (fun v => v - y)
  [fun v _ => v, fun v _ => v] (denoiseGrad ⟨[3], fun i => y (Fin.ofNat 3 (i 0))⟩) [fun v _ => .ok v, fun v _ => .ok v]
  (fun v => by rw [denoiseGrad_eq]; simp [sub, binop, join, clip]) (.cons (fun _ _ => rfl) (.cons (fun _ _ => rfl) .nil))
  [1 / 2, 1 / 2] x 1 1 n

example (y x : EuclideanSpace ℝ (Fin 3)) (n : ℕ) := C136_condat_same_shape entries_fin3 entries_fin3
  ⟨fun v => v - y, fun v _ => v, fun v _ => v, id, id⟩
  (denoiseGrad ⟨[3], fun i => y (Fin.ofNat 3 (i 0))⟩) (fun v _ => .ok v) (fun v _ => .ok v) .ok .ok
  (fun v => by rw [denoiseGrad_eq]; simp [sub, binop, join, clip]) (fun _ _ => rfl) (fun _ _ => rfl) (fun _ => rfl)
  (fun _ => rfl) ⟨x, x, 1, 1, 1⟩ ⟨[3], fun _ => 0⟩ n

end Verif
