import Verif.Model.ComplexArrays
import Verif.Model.GradDescent
import Verif.Spec.ComplexArrays
import Mathlib.Analysis.InnerProductSpace.PiL2

/-!
# Maps of arrays that commute with the algorithms
-/

namespace Verif.Cx

section Generic
variable {E F : Type} [AddCommGroup E] [Module ℝ E] [AddCommGroup F] [Module ℝ F]

/-- The image of a `ForwardBackward` state. -/
def mapSt {S : Type} (φ : E → F) (s : FB.St S E) : FB.St S F :=
  ⟨φ s.xOld, φ s.zOld, s.xNew.map φ, s.zNew.map φ, s.beta, s.lam, s.rules⟩

/-- The image of a `POGM` state. -/
def mapPogm (φ : E → F) (s : FB.Pogm E) : FB.Pogm F :=
  ⟨φ s.uOld, φ s.xOld, φ s.yOld, φ s.z, φ s.gOld, s.xi, s.sigma, s.t⟩

/-- The image of a `GenForwardBackward` state. -/
def mapGen {S : Type} (φ : E → F) (s : FB.GenSt S E) : FB.GenSt S F :=
  ⟨φ s.xOld, s.z.map φ, s.gamma, s.lam, s.rules⟩

theorem restartWith_map (φ : E →ₗ[ℝ] F) {ge : E → E → Prop} {ge' : F → F → Prop} {nE : E → ℝ} {nF : F → ℝ}
    (hn : ∀ a, nF (φ a) = nE a) (f : Fista.Obj) (z xn xo : E)
    (hge : f.restart = .none ∨ (ge' (φ (z - xn)) (φ (xn - xo)) ↔ ge (z - xn) (xn - xo))) :
    restartWith ge' nF f (φ z) (φ xn) (φ xo) = restartWith ge nE f z xn xo := by
  classical
  unfold restartWith
  rcases hge with h | h
  · rw [h]
  · have hd : nF (φ xn - φ xo) = nE (xn - xo) := by rw [← map_sub, hn]
    have h' : ge' (φ z - φ xn) (φ xn - φ xo) = ge (z - xn) (xn - xo) := by
      rw [map_sub, map_sub] at h; exact propext h
    cases f.restart with
    | none => rfl
    | adaptive b xi => simp only [h']
    | greedy a b c => simp only [h', hd]

theorem fbStep_map {U : Type} (φ : E →ₗ[ℝ] F) {ge : E → E → Prop} {ge' : F → F → Prop} {nE : E → ℝ} {nF : F → ℝ}
    (hn : ∀ a, nF (φ a) = nE a) {G : E → E} {G' : F → F} (hG : Carries φ φ G G') {P : E → ℝ → E}
    {P' : F → ℝ → F} (hP : CarriesProx φ P P') (s : FB.St (Fista.Obj × U) E)
    (hge : s.rules.1.restart = .none ∨
      (ge' (φ (s.zOld - P (s.zOld - s.beta • G s.zOld) s.beta)) (φ (P (s.zOld - s.beta • G s.zOld) s.beta - s.xOld)) ↔
        ge (s.zOld - P (s.zOld - s.beta • G s.zOld) s.beta) (P (s.zOld - s.beta • G s.zOld) s.beta - s.xOld))) :
    fbStep G' P' (fistaRulesWith ge' nF) (mapSt φ s) = mapSt φ (fbStep G P (fistaRulesWith ge nE) s) := by
  have hx : P' (φ s.zOld - s.beta • G' (φ s.zOld)) s.beta = φ (P (s.zOld - s.beta • G s.zOld) s.beta) := by
    rw [hG, ← map_smul, ← map_sub, hP]
  have hr := restartWith_map φ hn s.rules.1 s.zOld (P (s.zOld - s.beta • G s.zOld) s.beta) s.xOld hge
  simp only [fbStep, mapSt, fistaRulesWith, FB.applyUpd, hx, hr, Option.map_some]
  rcases Bool.eq_false_or_eq_true
    (restartWith ge nE s.rules.1 s.zOld (P (s.zOld - s.beta • G s.zOld) s.beta) s.xOld).1 with hb | hb <;>
    simp [hb]

theorem pogmStep_map (φ : E →ₗ[ℝ] F) {lt : E → E → Prop} {lt' : F → F → Prop}
    (hlt : ∀ a b, lt' (φ a) (φ b) ↔ lt a b) {G : E → E} {G' : F → F} (hG : Carries φ φ G G') {P : E → ℝ → E}
    {P' : F → ℝ → F} (hP : CarriesProx φ P P') (beta sb : ℝ) (s : FB.Pogm E) :
    pogmStep lt' G' P' beta sb (mapPogm φ s) = mapPogm φ (pogmStep lt G P beta sb s) := by
  have hG' : ∀ x, G' (φ x) = φ (G x) := hG
  have hP' : ∀ x c, P' (φ x) c = φ (P x c) := hP
  classical
  simp only [pogmStep, mapPogm, hG', ← map_smul, ← map_sub, ← map_neg, ← map_add, hP', hlt]
  split_ifs <;> rfl

theorem pogmStep_map_at (φ : E →ₗ[ℝ] F) {lt : E → E → Prop} {lt' : F → F → Prop}
    {G : E → E} {G' : F → F} (hG : Carries φ φ G G') {P : E → ℝ → E}
    {P' : F → ℝ → F} (hP : CarriesProx φ P P') (beta sb : ℝ) (s : FB.Pogm E)
    (h1 : lt' (φ (-(pogmStep lt G P beta sb s).gOld)) (φ ((pogmStep lt G P beta sb s).yOld - s.yOld)) ↔
      lt (-(pogmStep lt G P beta sb s).gOld) ((pogmStep lt G P beta sb s).yOld - s.yOld))
    (h2 : lt' (φ (pogmStep lt G P beta sb s).gOld) (φ s.gOld) ↔ lt (pogmStep lt G P beta sb s).gOld s.gOld) :
    pogmStep lt' G' P' beta sb (mapPogm φ s) = mapPogm φ (pogmStep lt G P beta sb s) := by
  have hG' : ∀ x, G' (φ x) = φ (G x) := hG
  have hP' : ∀ x c, P' (φ x) c = φ (P x c) := hP
  classical
  revert h1 h2
  simp only [pogmStep, mapPogm]
  simp only [hG', hP', ← map_smul, ← map_neg, ← map_add, ← map_sub]
  intro h1 h2
  split_ifs at h1 h2 ⊢ <;> first | rfl | (exfalso; simp_all)

theorem genZ_map (φ : E →ₗ[ℝ] F) (x g : E) (gamma lam : ℝ) : ∀ (P : List (E → ℝ → E)) (P' : List (F → ℝ → F))
    (_ : List.Forall₂ (CarriesProx φ) P P') (z : List E) (w : List ℝ),
    genZ (φ x) (φ g) gamma lam P' (z.map φ) w = (genZ x g gamma lam P z w).map φ
  | _, _, .nil, z, w => by simp [genZ]
  | _, _, .cons _ _, [], w => by simp [genZ]
  | _, _, .cons _ _, _ :: _, [] => by simp [genZ]
  | _, _, .cons (l₁ := ps) (l₂ := ps') hp h, z :: zs, w :: ws => by
    simp only [genZ, List.map_cons]
    rw [genZ_map φ x g gamma lam ps ps' h zs ws, ← map_smul, ← map_smul, ← map_sub, ← map_sub, hp, ← map_sub,
      ← map_smul, ← map_add]

theorem zip_sum_map (φ : E →ₗ[ℝ] F) : ∀ (z : List E) (w : List ℝ),
    (List.zipWith (fun z w => (w : ℝ) • z) (z.map φ) w).sum = φ (List.zipWith (fun z w => (w : ℝ) • z) z w).sum
  | [], w => by simp
  | _ :: _, [] => by simp
  | z :: zs, w :: ws => by
    simp only [List.map_cons, List.zipWith_cons_cons, List.sum_cons, zip_sum_map φ zs ws, map_add, map_smul]

theorem genStep_map {S : Type} (φ : E →ₗ[ℝ] F) {G : E → E} {G' : F → F} (hG : Carries φ φ G G')
    {P : List (E → ℝ → E)} {P' : List (F → ℝ → F)} (hP : List.Forall₂ (CarriesProx φ) P P') (w : List ℝ)
    (gu lu : Option (S → ℝ → ℝ × S)) (s : FB.GenSt S E) :
    genStep G' P' w gu lu (mapGen φ s) = mapGen φ (genStep G P w gu lu s) := by
  have hG' : ∀ x, G' (φ x) = φ (G x) := hG
  simp only [genStep, mapGen, hG', genZ_map φ _ _ _ _ P P' hP, zip_sum_map]

variable {H K : Type} [AddCommGroup H] [Module ℝ H] [AddCommGroup K] [Module ℝ K]

/-- The image of a `Condat` state. -/
def mapCondat (φ : E → F) (ψ : H → K) (s : Condat.St E H) : Condat.St F K :=
  ⟨φ s.x, ψ s.y, s.rho, s.sigma, s.tau⟩

theorem condatStep_map (φ : E →ₗ[ℝ] F) (ψ : H →ₗ[ℝ] K) (O : Condat.Ops E H) (O' : Condat.Ops F K)
    (hG : Carries φ φ O.grad O'.grad) (hP : CarriesProx φ O.prox O'.prox)
    (hD : CarriesProx ψ O.proxDual O'.proxDual) (hop : Carries φ ψ O.op O'.op) (hadj : Carries ψ φ O.adj O'.adj)
    (U : Condat.Upd) (s : Condat.St E H) :
    condatStep O' U (mapCondat φ ψ s) = mapCondat φ ψ (condatStep O U s) := by
  have hG' : ∀ x, O'.grad (φ x) = φ (O.grad x) := hG
  have hP' : ∀ x c, O'.prox (φ x) c = φ (O.prox x c) := hP
  have hD' : ∀ x c, O'.proxDual (ψ x) c = ψ (O.proxDual x c) := hD
  have ho' : ∀ x, O'.op (φ x) = ψ (O.op x) := hop
  have ha' : ∀ x, O'.adj (ψ x) = φ (O.adj x) := hadj
  simp only [condatStep, condatHalf, mapCondat, hG', ha', ← map_smul, ← map_sub, ← map_add, hP', ho', hD']

end Generic

/-! ## Arrays -/

set_option linter.unusedSectionVars false

section Arrays
variable {ι : Type} [Fintype ι]

theorem ltZero_iff {𝕜 : Type} [RCLike 𝕜] (c : 𝕜) : ltZero c ↔ ¬ geZero c := by
  unfold ltZero geZero
  constructor
  · rintro (h | ⟨h1, h2⟩) (h' | ⟨h3, h4⟩) <;> linarith
  · intro h
    push Not at h
    obtain ⟨h1, h2⟩ := h
    rcases h1.lt_or_eq with h3 | h3
    · exact .inl h3
    · exact .inr ⟨h3, h2 h3⟩

/-- An entrywise real-linear map. -/
noncomputable def entrywise {𝕜 𝕜' : Type} [RCLike 𝕜] [RCLike 𝕜'] (f : 𝕜 →ₗ[ℝ] 𝕜') : (ι → 𝕜) →ₗ[ℝ] (ι → 𝕜') := f.compLeft ι

theorem norm2_entrywise {𝕜 𝕜' : Type} [RCLike 𝕜] [RCLike 𝕜'] (f : 𝕜 →ₗ[ℝ] 𝕜') (hf : ∀ a, ‖f a‖ = ‖a‖)
    (x : ι → 𝕜) : norm2 (entrywise f x) = norm2 x := by
  have h : ∀ i, ‖entrywise f x i‖ = ‖x i‖ := fun i => hf (x i)
  simp only [norm2, h]

/-- `toComplex` as a linear map. -/
noncomputable def toComplexL : ℝ →ₗ[ℝ] ℂ := Complex.ofRealCLM.toLinearMap

theorem toComplexL_apply (a : ℝ) : toComplexL a = (a : ℂ) := rfl

theorem entrywise_toComplexL (x : ι → ℝ) : entrywise toComplexL x = toComplex x := rfl

theorem vdot_toComplex (a b : ι → ℝ) : vdot (toComplex a) (toComplex b) = ((vdot a b : ℝ) : ℂ) := by
  simp [vdot, toComplex]

theorem geZero_ofReal (r : ℝ) : geZero (r : ℂ) ↔ geZero r := by simp [geZero]

/-- `rotate` as a linear map. -/
noncomputable def rotateL (u : ℂ) : ℂ →ₗ[ℝ] ℂ := LinearMap.mulLeft ℝ u

theorem entrywise_rotateL (u : ℂ) (x : ι → ℂ) : entrywise (rotateL u) x = rotate u x := rfl

theorem vdot_rotate {u : ℂ} (hu : ‖u‖ = 1) (a b : ι → ℂ) : vdot (rotate u a) (rotate u b) = vdot a b := by
  have h : (starRingEnd ℂ) u * u = 1 := by
    rw [mul_comm, Complex.mul_conj, Complex.normSq_eq_norm_sq, hu]; simp
  unfold vdot rotate
  refine Finset.sum_congr rfl fun i _ => ?_
  rw [map_mul]
  linear_combination (starRingEnd ℂ (a i) * b i) * h

/-- `conjArr` as a linear map. -/
noncomputable def conjL : ℂ →ₗ[ℝ] ℂ := Complex.conjAe.toLinearMap

theorem entrywise_conjL (x : ι → ℂ) : entrywise conjL x = conjArr x := rfl

theorem vdot_conj (a b : ι → ℂ) : vdot (conjArr a) (conjArr b) = starRingEnd ℂ (vdot a b) := by
  simp [vdot, conjArr]

theorem geZero_conj {c : ℂ} (h : c.re = 0 → c.im = 0) : geZero (starRingEnd ℂ c) ↔ geZero c := by
  unfold geZero
  simp only [RCLike.re_to_complex, RCLike.im_to_complex, Complex.conj_re, Complex.conj_im]
  constructor
  · rintro (h1 | ⟨h1, h2⟩)
    · exact .inl h1
    · exact .inr ⟨h1, by rw [h h1]⟩
  · rintro (h1 | ⟨h1, h2⟩)
    · exact .inl h1
    · exact .inr ⟨h1, by rw [h h1]; simp⟩

/-- Iterating commutes with a map that commutes with the step. -/
theorem iterate_map {A B : Type} {φ : A → B} {f : A → A} {g : B → B} (h : ∀ s, g (φ s) = φ (f s)) (s : A) (n : ℕ) :
    g^[n] (φ s) = φ (f^[n] s) :=
  ((show Function.Semiconj φ f g from fun s => (h s).symm).iterate_right n s).symm

theorem fistaAfter_map {𝕜 𝕜' : Type} [RCLike 𝕜] [RCLike 𝕜'] (f : 𝕜 →ₗ[ℝ] 𝕜') (hf : ∀ a, ‖f a‖ = ‖a‖)
    (hge : ∀ a b : ι → 𝕜, geZero (vdot (entrywise f a) (entrywise f b)) ↔ geZero (vdot a b))
    {G : (ι → 𝕜) → ι → 𝕜} {G' : (ι → 𝕜') → ι → 𝕜'} (hG : Carries (entrywise f) (entrywise f) G G')
    {P : (ι → 𝕜) → ℝ → ι → 𝕜} {P' : (ι → 𝕜') → ℝ → ι → 𝕜'} (hP : CarriesProx (entrywise f) P P')
    (o : Fista.Obj) (beta lam : ℝ) (x : ι → 𝕜) (n : ℕ) :
    fistaAfter G' P' o beta lam (entrywise f x) n = mapSt (entrywise f) (fistaAfter G P o beta lam x n) := by
  unfold fistaAfter fistaRules
  exact iterate_map (φ := mapSt (entrywise f)) (fun s => fbStep_map (entrywise f) (norm2_entrywise f hf) hG hP s
    (.inr (hge _ _))) ⟨x, x, none, none, beta, lam, (o, ())⟩ n

theorem pogmAfter_map {𝕜 𝕜' : Type} [RCLike 𝕜] [RCLike 𝕜'] (f : 𝕜 →ₗ[ℝ] 𝕜')
    (hge : ∀ a b : ι → 𝕜, geZero (vdot (entrywise f a) (entrywise f b)) ↔ geZero (vdot a b))
    {G : (ι → 𝕜) → ι → 𝕜} {G' : (ι → 𝕜') → ι → 𝕜'} (hG : Carries (entrywise f) (entrywise f) G G')
    {P : (ι → 𝕜) → ℝ → ι → 𝕜} {P' : (ι → 𝕜') → ℝ → ι → 𝕜'} (hP : CarriesProx (entrywise f) P P')
    (beta sb : ℝ) (u x y z : ι → 𝕜) (n : ℕ) :
    pogmAfter G' P' beta sb (entrywise f u) (entrywise f x) (entrywise f y) (entrywise f z) n
      = mapPogm (entrywise f) (pogmAfter G P beta sb u x y z n) := by
  unfold pogmAfter
  rw [hG]
  exact iterate_map (φ := mapPogm (entrywise f)) (fun s => pogmStep_map (entrywise f)
    (fun a b => by rw [ltZero_iff, ltZero_iff, hge]) hG hP beta sb s) ⟨u, x, y, z, G x, 1, 1, 1⟩ n

/-! Runs along which no criterion is a tie -/

theorem restart_kept' {E : Type} [AddCommGroup E] [Module ℝ E] (ge : E → E → Prop) (nE : E → ℝ) (f : Fista.Obj)
    (z xn xo : E) :
    (Fista.updateLambda (restartWith ge nE f z xn xo).2).2.restart = f.restart := by
  classical
  have h1 : ∀ g : Fista.Obj, (Fista.updateLambda g).2.restart = g.restart := by
    intro g
    unfold Fista.updateLambda
    split <;> try rfl
    split <;> rfl
  rw [h1]
  unfold restartWith
  split
  · rfl
  · split_ifs <;> rfl
  · cases f.delta0 <;> rfl

theorem fistaAfter_restart (G : (ι → ℂ) → ι → ℂ) (P : (ι → ℂ) → ℝ → ι → ℂ) (o : Fista.Obj) (beta lam : ℝ)
    (x : ι → ℂ) (n : ℕ) : (fistaAfter G P o beta lam x n).rules.1.restart = o.restart := by
  induction n with
  | zero => rfl
  | succ n ih =>
    unfold fistaAfter at ih ⊢
    rw [Function.iterate_succ_apply', ← ih]
    exact restart_kept' _ _ _ _ _ _

theorem fistaAfter_conj {G G' : (ι → ℂ) → ι → ℂ} (hG : Carries conjArr conjArr G G')
    {P P' : (ι → ℂ) → ℝ → ι → ℂ} (hP : CarriesProx conjArr P P') (o : Fista.Obj) (beta lam : ℝ) (x : ι → ℂ) (n : ℕ)
    (h : o.restart = .none ∨ ∀ k < n, ∀ c : ℂ,
      c = vdot ((fistaAfter G P o beta lam x k).zOld - (fistaAfter G P o beta lam x (k + 1)).xOld)
        ((fistaAfter G P o beta lam x (k + 1)).xOld - (fistaAfter G P o beta lam x k).xOld) → c.re = 0 → c.im = 0) :
    fistaAfter G' P' o beta lam (conjArr x) n = mapSt conjArr (fistaAfter G P o beta lam x n) := by
  induction n with
  | zero => rfl
  | succ n ih =>
    have ih := ih (h.imp_right fun h k hk => h k (by omega))
    have e : ∀ (G : (ι → ℂ) → ι → ℂ) (P : (ι → ℂ) → ℝ → ι → ℂ) (x : ι → ℂ), fistaAfter G P o beta lam x (n + 1)
        = fbStep G P fistaRules (fistaAfter G P o beta lam x n) := fun G P x => by
      unfold fistaAfter; rw [Function.iterate_succ_apply']
    rw [e, e, ih]
    refine fbStep_map (entrywise conjL) (norm2_entrywise conjL fun a => ?_) hG hP (fistaAfter G P o beta lam x n) ?_
    · exact RCLike.norm_conj (K := ℂ) a
    · rw [fistaAfter_restart]
      refine h.imp_right fun h => ?_
      have h := h n (by omega) _ rfl
      rw [e] at h
      rw [entrywise_conjL, entrywise_conjL, vdot_conj]
      exact geZero_conj h

theorem pogmAfter_conj {G G' : (ι → ℂ) → ι → ℂ} (hG : Carries conjArr conjArr G G')
    {P P' : (ι → ℂ) → ℝ → ι → ℂ} (hP : CarriesProx conjArr P P') (beta sb : ℝ) (u x y z : ι → ℂ) (n : ℕ)
    (h : ∀ k < n, ∀ s t : FB.Pogm (ι → ℂ), s = pogmAfter G P beta sb u x y z k → t = pogmAfter G P beta sb u x y z (k + 1) →
      ((vdot (-t.gOld) (t.yOld - s.yOld)).re = 0 → (vdot (-t.gOld) (t.yOld - s.yOld)).im = 0) ∧
      ((vdot t.gOld s.gOld).re = 0 → (vdot t.gOld s.gOld).im = 0)) :
    pogmAfter G' P' beta sb (conjArr u) (conjArr x) (conjArr y) (conjArr z) n
      = mapPogm conjArr (pogmAfter G P beta sb u x y z n) := by
  induction n with
  | zero =>
    have hG' : ∀ x, G' (conjArr x) = conjArr (G x) := hG
    show (⟨conjArr u, conjArr x, conjArr y, conjArr z, G' (conjArr x), 1, 1, 1⟩ : FB.Pogm (ι → ℂ)) = _
    rw [hG']
    rfl
  | succ n ih =>
    have ih := ih fun k hk => h k (by omega)
    have e : ∀ (G : (ι → ℂ) → ι → ℂ) (P : (ι → ℂ) → ℝ → ι → ℂ) (u x y z : ι → ℂ),
        pogmAfter G P beta sb u x y z (n + 1)
        = pogmStep (fun a b => ltZero (vdot a b)) G P beta sb (pogmAfter G P beta sb u x y z n) := fun G P u x y z => by
      unfold pogmAfter; rw [Function.iterate_succ_apply']
    have h := h n (by omega) _ _ rfl rfl
    rw [e] at h
    rw [e, e, ih]
    refine pogmStep_map_at (entrywise conjL) hG hP beta sb (pogmAfter G P beta sb u x y z n) ?_ ?_
    · rw [entrywise_conjL, entrywise_conjL, vdot_conj, ltZero_iff, ltZero_iff, geZero_conj h.1]
    · rw [entrywise_conjL, entrywise_conjL, vdot_conj, ltZero_iff, ltZero_iff, geZero_conj h.2]

theorem genAfter_map {𝕜 𝕜' : Type} [RCLike 𝕜] [RCLike 𝕜'] (f : 𝕜 →ₗ[ℝ] 𝕜')
    {G : (ι → 𝕜) → ι → 𝕜} {G' : (ι → 𝕜') → ι → 𝕜'} (hG : Carries (entrywise f) (entrywise f) G G')
    {P : List ((ι → 𝕜) → ℝ → ι → 𝕜)} {P' : List ((ι → 𝕜') → ℝ → ι → 𝕜')}
    (hP : List.Forall₂ (CarriesProx (entrywise f)) P P') (w : List ℝ) (gamma lam : ℝ) (x : ι → 𝕜) (n : ℕ) :
    genAfter G' P' w gamma lam (entrywise f x) n = mapGen (entrywise f) (genAfter G P w gamma lam x n) := by
  unfold genAfter
  have e := iterate_map (φ := mapGen (S := Unit) (entrywise f)) (fun s => genStep_map (entrywise f) hG hP w none none s)
    ⟨x, List.replicate P.length x, gamma, lam, ()⟩ n
  have e0 : mapGen (S := Unit) (entrywise f) ⟨x, List.replicate P.length x, gamma, lam, ()⟩
      = ⟨entrywise f x, List.replicate P'.length (entrywise f x), gamma, lam, ()⟩ := by
    simp only [mapGen, List.map_replicate, hP.length_eq]
  rw [e0] at e
  exact e

theorem condatAfter_map {κ 𝕜 𝕜' : Type} [Fintype κ] [RCLike 𝕜] [RCLike 𝕜'] (f : 𝕜 →ₗ[ℝ] 𝕜')
    (O : Condat.Ops (ι → 𝕜) (κ → 𝕜)) (O' : Condat.Ops (ι → 𝕜') (κ → 𝕜'))
    (hG : Carries (entrywise f) (entrywise f) O.grad O'.grad) (hP : CarriesProx (entrywise f) O.prox O'.prox)
    (hD : CarriesProx (entrywise f) O.proxDual O'.proxDual) (hop : Carries (entrywise f) (entrywise f) O.op O'.op)
    (hadj : Carries (entrywise f) (entrywise f) O.adj O'.adj) (U : Condat.Upd) (rho sigma tau : ℝ)
    (x : ι → 𝕜) (y : κ → 𝕜) (n : ℕ) :
    condatAfter O' U rho sigma tau (entrywise f x) (entrywise f y) n
      = mapCondat (entrywise f) (entrywise f) (condatAfter O U rho sigma tau x y n) := by
  unfold condatAfter
  exact iterate_map (φ := mapCondat (entrywise f) (entrywise f))
    (fun s => condatStep_map (entrywise f) (entrywise f) O O' hG hP hD hop hadj U s) ⟨x, y, rho, sigma, tau⟩ n

end Arrays

/-! ## Gradient descent -/

section GD
open GD
variable {ι 𝕜 𝕜' : Type} [RCLike 𝕜] [RCLike 𝕜']

/-- The image of a gradient-descent state. -/
def mapGD (f : 𝕜 → 𝕜') (s : GD.St ι 𝕜) : GD.St ι 𝕜' :=
  ⟨fun i => f (s.xOld i), fun i => f (s.xNew i), fun i => f (s.dir i), s.speed, s.eta, s.betaPow, s.gammaPow,
    fun j i => f (s.memory j i)⟩

theorem real_mul_map (f : 𝕜 →ₗ[ℝ] 𝕜') (r : ℝ) (a : 𝕜) : f ((r : 𝕜) * a) = (r : 𝕜') * f a := by
  rw [← RCLike.real_smul_eq_coe_mul, map_smul, RCLike.real_smul_eq_coe_mul]

theorem prepare_map (f : 𝕜 →ₗ[ℝ] 𝕜') (hf : ∀ a, ‖f a‖ = ‖a‖) (c : Conf ι 𝕜) (c' : Conf ι 𝕜')
    (h1 : c'.kind = c.kind) (h2 : c'.epochSize = c.epochSize) {G : (ι → 𝕜) → ι → 𝕜} {G' : (ι → 𝕜') → ι → 𝕜'}
    (hG : ∀ x, G' (fun i => f (x i)) = fun i => f (G x i)) (idx : ℕ) (s : GD.St ι 𝕜) :
    prepare c' idx G' (mapGD f s) = mapGD f (prepare c idx G s) := by
  have e : G' (mapGD f s).xOld = fun i => f (G s.xOld i) := hG s.xOld
  unfold prepare
  rw [e]
  unfold updateDir updateSpeed
  rw [h1, h2]
  cases c.kind with
  | saga =>
    simp only [mapGD, map_add, map_sub]
    congr 1
    funext j
    split_ifs <;> rfl
  | adam a b => simp only [mapGD, map_add, real_mul_map, hf]
  | _ => simp [mapGD, map_add, real_mul_map, hf]

theorem gd_update_map (f : 𝕜 →ₗ[ℝ] 𝕜') (hf : ∀ a, ‖f a‖ = ‖a‖) (c : Conf ι 𝕜) (c' : Conf ι 𝕜')
    (h1 : c'.kind = c.kind) (h2 : c'.epochSize = c.epochSize) (h3 : c'.eps = c.eps)
    (h4 : c'.etaUpdate = c.etaUpdate) (h5 : ∀ x s, c'.prox (fun i => f (x i)) s = fun i => f (c.prox x s i))
    {G : (ι → 𝕜) → ι → 𝕜} {G' : (ι → 𝕜') → ι → 𝕜'} (hG : ∀ x, G' (fun i => f (x i)) = fun i => f (G x i))
    (idx : ℕ) (s : GD.St ι 𝕜) :
    GD.update c' idx G' (mapGD f s) = (GD.update c idx G s).map (mapGD f) := by
  unfold GD.update
  rw [h2]
  by_cases h0 : c.epochSize = 0
  · simp only [if_pos h0]; rfl
  simp only [if_neg h0, prepare_map f hf c c' h1 h2 hG, Except.map]
  have hstep : stepOf c' (mapGD f (prepare c idx G s)) = stepOf c (prepare c idx G s) := by
    funext i; simp [stepOf, mapGD, h3]
  rw [hstep, h4]
  have hnew : (fun i => (mapGD f (prepare c idx G s)).xOld i - ((stepOf c (prepare c idx G s) i : ℝ) : 𝕜')
        * (mapGD f (prepare c idx G s)).dir i)
      = fun i => f ((prepare c idx G s).xOld i - ((stepOf c (prepare c idx G s) i : ℝ) : 𝕜) * (prepare c idx G s).dir i) := by
    funext i; simp [mapGD, real_mul_map]
  congr 1
  by_cases hm : idx % c.epochSize = 0
  · simp only [if_pos hm, hnew]
    unfold reset
    rw [h1]
    cases c.kind <;> simp only [mapGD, h5, map_zero]
  · simp only [if_neg hm, hnew]
    rfl

theorem gd_run_map (f : 𝕜 →ₗ[ℝ] 𝕜') (hf : ∀ a, ‖f a‖ = ‖a‖) (c : Conf ι 𝕜) (c' : Conf ι 𝕜')
    (h1 : c'.kind = c.kind) (h2 : c'.epochSize = c.epochSize) (h3 : c'.eps = c.eps)
    (h4 : c'.etaUpdate = c.etaUpdate) (h5 : ∀ x s, c'.prox (fun i => f (x i)) s = fun i => f (c.prox x s i)) :
    ∀ (h : History ι 𝕜) (h' : History ι 𝕜'), List.Forall₂ (fun p q => q.1 = p.1 ∧
      ∀ x, q.2 (fun i => f (x i)) = fun i => f (p.2 x i)) h h' → ∀ s : GD.St ι 𝕜,
    GD.run c' h' (mapGD f s) = (GD.run c h s).map (mapGD f)
  | _, _, .nil, s => rfl
  | _, _, .cons (a := p) (b := q) (l₁ := l) (l₂ := l') hp hl, s => by
    obtain ⟨i, G⟩ := p
    obtain ⟨j, G'⟩ := q
    obtain ⟨hi, hG⟩ := hp
    simp only at hi hG
    subst hi
    simp only [GD.run, gd_update_map f hf c c' h1 h2 h3 h4 h5 hG]
    cases GD.update c j G s with
    | error e => rfl
    | ok t => exact gd_run_map f hf c c' h1 h2 h3 h4 h5 l l' hl t

end GD

end Verif.Cx
