import Verif.Lemmas.Alias
import Verif.Props.ForwardBackward
import Verif.Props.GenForwardBackward
import Verif.Props.Pogm
import Verif.Props.PrimalDual
import Verif.Props.Admm

/-!
# C121, C122: arrays as objects

C121: running an algorithm never changes an array that the caller can see: neither the arrays passed to the
constructor, nor those kept by the operators, nor the results returned by earlier calls of `iterate`.

C122: the results are those of the value models, whatever the operators share with the algorithm.
-/

set_option linter.unusedSectionVars false

namespace Verif
open Spec Alias
open FB (Rules)

section
variable {E : Type} [NormedAddCommGroup E] [InnerProductSpace ℝ E]

/-! ## `ForwardBackward` -/

/-- The values of the attributes. -/
def fbValue {S : Type} (q : FbSt S × Heap E) : FB.St S E :=
  ⟨rd q.2 q.1.xOld, rd q.2 q.1.zOld, q.1.xNew.map (rd q.2), q.1.zNew.map (rd q.2), q.1.beta, q.1.lam, q.1.rules⟩

/-- Construction and `n` updates. -/
noncomputable def fbHeapRun {S : Type} (G : HOp E) (P : HProx E ℝ) (R : Rules S E) (x : Ref) (beta lam : ℝ) (r : S)
    (h₀ : Heap E) (n : ℕ) : FbSt S × Heap E :=
  (fbStep G P R)^[n] (fbInit x beta lam r h₀)

theorem fb_heap_step {S : Type} {K : List (Ref × E)} {G : HOp E} {P : HProx E ℝ} {grad : E → E}
    {prox : E → ℝ → E} (hG : Implements K G grad) (hP : ImplementsProx K P prox) (R : Rules S E) (s : FbSt S)
    (h : Heap E) (hK : Holds K h) (hx : s.xOld < h.length) (hz : s.zOld < h.length) :
    Unchanged h (fbStep G P R (s, h)).2 ∧ (fbStep G P R (s, h)).1.xOld < (fbStep G P R (s, h)).2.length ∧
    (fbStep G P R (s, h)).1.zOld < (fbStep G P R (s, h)).2.length ∧
    fbValue (fbStep G P R (s, h)) = FB.step grad prox R (fbValue (s, h)) ∧
    (∀ r, (fbStep G P R (s, h)).1.zNew = some r → r < (fbStep G P R (s, h)).2.length) := by
  rcases e1 : G s.zOld h with ⟨g, h1⟩
  obtain ⟨U1, hg, vg, K1, -⟩ := hG.call hK hz e1
  rcases e2 : alloc h1 (rd h1 s.zOld - s.beta • rd h1 g) with ⟨y, h2⟩
  obtain ⟨U2, hy, vy, K2, -⟩ := alloc_call K1 _ e2
  rcases e3 : P y s.beta h2 with ⟨xn, h3⟩
  obtain ⟨U3, hxn, vxn, K3, -⟩ := (hP s.beta).call K2 hy e3
  rcases e4 : alloc h3 (rd h3 s.xOld + s.lam • (rd h3 xn - rd h3 s.xOld)) with ⟨z, h4⟩
  obtain ⟨U4, hzz, vz, K4, -⟩ := alloc_call K3 _ e4
  rcases e5 : R.isRestart s.rules (rd h4 s.zOld) (rd h4 xn) (rd h4 s.xOld) with ⟨b, r⟩
  rcases e6 : alloc h4 (rd h4 xn) with ⟨xo, h5⟩
  obtain ⟨U5, hxo, vxo, K5, -⟩ := alloc_call K4 _ e6
  rcases e7 : alloc h5 (rd h5 (if b then xn else z)) with ⟨zo, h6⟩
  obtain ⟨U6, hzo, vzo, K6, -⟩ := alloc_call K5 _ e7
  have U01 := U1
  have U02 := U01.trans U2
  have U03 := U02.trans U3
  have U04 := U03.trans U4
  have U06 := (U04.trans U5).trans U6
  have rz1 : rd h1 s.zOld = rd h s.zOld := U01.rd hz
  have rx3 : rd h3 s.xOld = rd h s.xOld := U03.rd hx
  have rx4 : rd h4 s.xOld = rd h s.xOld := U04.rd hx
  have rz4 : rd h4 s.zOld = rd h s.zOld := U04.rd hz
  have rn4 : rd h4 xn = rd h3 xn := U4.rd hxn
  have hxn4 := U4.lt hxn
  have hif : (if b = true then xn else z) < h4.length := by split <;> assumption
  have rn6 : rd h6 xn = rd h3 xn := by rw [U6.rd (U5.lt hxn4), U5.rd hxn4, rn4]
  have ry : rd h2 y = rd h s.zOld - s.beta • grad (rd h s.zOld) := by rw [vy, rz1, vg]
  have rxn : rd h3 xn = prox (rd h s.zOld - s.beta • grad (rd h s.zOld)) s.beta := by rw [vxn, ry]
  have rzz : rd h4 z = rd h s.xOld + s.lam • (rd h3 xn - rd h s.xOld) := by rw [vz, rx3]
  have hstep : fbStep G P R (s, h) =
      (⟨xo, zo, some xn, some (if b then xn else z), (FB.applyUpd R.betaUpdate r s.beta).1,
        (FB.applyUpd R.lambdaUpdate (FB.applyUpd R.betaUpdate r s.beta).2 s.lam).1,
        (FB.applyUpd R.lambdaUpdate (FB.applyUpd R.betaUpdate r s.beta).2 s.lam).2⟩, h6) := by
    simp only [fbStep, e1, e2, e3, e4, e5, e6, e7]
  rw [hstep]
  refine ⟨U06, U6.lt hxo, hzo, ?_, ?_⟩
  · have e5' : R.isRestart s.rules (rd h s.zOld) (prox (rd h s.zOld - s.beta • grad (rd h s.zOld)) s.beta)
        (rd h s.xOld) = (b, r) := by rw [← e5, rz4, rn4, rx4, rxn]
    have v1 : rd h6 xo = prox (rd h s.zOld - s.beta • grad (rd h s.zOld)) s.beta := by
      rw [U6.rd hxo, vxo, rn4, rxn]
    have v2 : rd h6 (if b = true then xn else z) =
        if b = true then prox (rd h s.zOld - s.beta • grad (rd h s.zOld)) s.beta
        else rd h s.xOld + s.lam • (prox (rd h s.zOld - s.beta • grad (rd h s.zOld)) s.beta - rd h s.xOld) := by
      rw [U6.rd (U5.lt hif), U5.rd hif]
      split
      · rw [rn4, rxn]
      · rw [rzz, rxn]
    have v3 : rd h6 zo = rd h6 (if b = true then xn else z) := by rw [vzo, U6.rd (U5.lt hif)]
    simp only [fbValue, FB.step, e5', Option.map_some, v1, v2, v3, rn6, rxn]
  · intro r' e
    cases e
    exact U6.lt (U5.lt hif)

theorem fb_heap_inv {S : Type} {K : List (Ref × E)} {G : HOp E} {P : HProx E ℝ} {grad : E → E}
    {prox : E → ℝ → E} (hG : Implements K G grad) (hP : ImplementsProx K P prox) (R : Rules S E) (x : Ref)
    (beta lam : ℝ) (r : S) (h₀ : Heap E) (hK : Holds K h₀) (hx : x < h₀.length) (n : ℕ) :
    Unchanged h₀ (fbHeapRun G P R x beta lam r h₀ n).2 ∧
    (fbHeapRun G P R x beta lam r h₀ n).1.xOld < (fbHeapRun G P R x beta lam r h₀ n).2.length ∧
    (fbHeapRun G P R x beta lam r h₀ n).1.zOld < (fbHeapRun G P R x beta lam r h₀ n).2.length ∧
    fbValue (fbHeapRun G P R x beta lam r h₀ n) =
      afterSteps grad prox R ⟨rd h₀ x, rd h₀ x, none, none, beta, lam, r⟩ n ∧
    (∀ q, (fbHeapRun G P R x beta lam r h₀ n).1.zNew = some q → q < (fbHeapRun G P R x beta lam r h₀ n).2.length) := by
  induction n with
  | zero =>
    rcases e1 : alloc h₀ (rd h₀ x) with ⟨xo, h1⟩
    obtain ⟨U1, hxo, vxo, K1, -⟩ := alloc_call hK _ e1
    rcases e2 : alloc h1 (rd h1 x) with ⟨zo, h2⟩
    obtain ⟨U2, hzo, vzo, K2, -⟩ := alloc_call K1 _ e2
    have hi : fbHeapRun G P R x beta lam r h₀ 0 = (⟨xo, zo, none, none, beta, lam, r⟩, h2) := by
      simp only [fbHeapRun, Function.iterate_zero, id, fbInit, e1, e2]
    rw [hi]
    refine ⟨U1.trans U2, U2.lt hxo, hzo, ?_, fun q e => by cases e⟩
    simp only [fbValue, afterSteps, Option.map_none, U2.rd hxo, vxo, vzo, U1.rd hx]
  | succ n ih =>
    obtain ⟨U, a, b, v, -⟩ := ih
    have hs : fbHeapRun G P R x beta lam r h₀ (n + 1) = fbStep G P R (fbHeapRun G P R x beta lam r h₀ n) := by
      simp only [fbHeapRun, Function.iterate_succ_apply']
    obtain ⟨U', a', b', v', c'⟩ := fb_heap_step hG hP R (fbHeapRun G P R x beta lam r h₀ n).1
      (fbHeapRun G P R x beta lam r h₀ n).2 (hK.mono U) a b
    rw [hs]
    exact ⟨U.trans U', a', b', by rw [v', v]; rfl, c'⟩

/-- C121: `ForwardBackward` never writes to an array that already exists: after any number of updates every array of
the caller and of the operators has its contents, and so has every array that existed after any earlier number of
updates, in particular any earlier result. -/
theorem C121_forward_backward {S : Type} {K : List (Ref × E)} {G : HOp E} {P : HProx E ℝ} {grad : E → E}
    {prox : E → ℝ → E} (hG : Implements K G grad) (hP : ImplementsProx K P prox) (R : Rules S E) (x : Ref)
    (beta lam : ℝ) (r : S) (h₀ : Heap E) (hK : Holds K h₀) (hx : x < h₀.length) (m k : ℕ) :
    Unchanged h₀ (fbHeapRun G P R x beta lam r h₀ m).2 ∧
    Unchanged (fbHeapRun G P R x beta lam r h₀ m).2 (fbHeapRun G P R x beta lam r h₀ (m + k)).2 := by
  refine ⟨(fb_heap_inv hG hP R x beta lam r h₀ hK hx m).1, ?_⟩
  induction k with
  | zero => exact Unchanged.rfl' _
  | succ k ih =>
    obtain ⟨U, a, b, -, -⟩ := fb_heap_inv hG hP R x beta lam r h₀ hK hx (m + k)
    have := (fb_heap_step hG hP R (fbHeapRun G P R x beta lam r h₀ (m + k)).1
      (fbHeapRun G P R x beta lam r h₀ (m + k)).2 (hK.mono U) a b).1
    refine ih.trans ?_
    have hs : fbHeapRun G P R x beta lam r h₀ (m + (k + 1)) = fbStep G P R (fbHeapRun G P R x beta lam r h₀ (m + k)) := by
      simp only [fbHeapRun, ← add_assoc, Function.iterate_succ_apply']
    rw [hs]
    exact this

/-- C122: the iterates of `ForwardBackward` are those of the value model, whatever arrays the operators share. -/
theorem C122_forward_backward {S : Type} {K : List (Ref × E)} {G : HOp E} {P : HProx E ℝ} {grad : E → E}
    {prox : E → ℝ → E} (hG : Implements K G grad) (hP : ImplementsProx K P prox) (R : Rules S E) (x : Ref)
    (beta lam : ℝ) (r : S) (h₀ : Heap E) (hK : Holds K h₀) (hx : x < h₀.length) (n : ℕ) :
    fbValue (fbHeapRun G P R x beta lam r h₀ n) =
      afterSteps grad prox R ⟨rd h₀ x, rd h₀ x, none, none, beta, lam, r⟩ n :=
  (fb_heap_inv hG hP R x beta lam r h₀ hK hx n).2.2.2.1

/-! ## `Condat` -/

/-- The values of the attributes. -/
def condatValue (q : CondatSt × Heap E) : Condat.St E E :=
  ⟨rd q.2 q.1.xOld, rd q.2 q.1.yOld, q.1.rho, q.1.sigma, q.1.tau⟩

/-- Construction and `n` updates. -/
noncomputable def condatHeapRun (O : CondatOps E) (U : Condat.Upd) (x y : Ref) (rho sigma tau : ℝ) (h₀ : Heap E)
    (n : ℕ) : CondatSt × Heap E :=
  (condatStep O U)^[n] (condatInit x y rho sigma tau h₀)

/-- The array programs of a `Condat` object compute the operators of the value model. -/
structure CondatImpl (K : List (Ref × E)) (O : CondatOps E) (o : Condat.Ops E E) : Prop where
  grad : Implements K O.grad o.grad
  prox : ImplementsProx K O.prox o.prox
  proxDual : ImplementsProx K O.proxDual o.proxDual
  op : Implements K O.op o.op
  adj : Implements K O.adj o.adj

theorem condat_heap_step {K : List (Ref × E)} {O : CondatOps E} {o : Condat.Ops E E} (hO : CondatImpl K O o)
    (U : Condat.Upd) (s : CondatSt) (h : Heap E) (hK : Holds K h) (hx : s.xOld < h.length) (hy : s.yOld < h.length)
    (hne : s.xOld ≠ s.yOld) :
    (condatStep O U (s, h)).1.xOld = s.xOld ∧ (condatStep O U (s, h)).1.yOld = s.yOld ∧
    h.length ≤ (condatStep O U (s, h)).2.length ∧
    UnchangedBut [s.xOld, s.yOld] h (condatStep O U (s, h)).2 ∧
    condatValue (condatStep O U (s, h)) = Condat.step o U (condatValue (s, h)) ∧
    (∃ a b, (condatStep O U (s, h)).1.xNew = some a ∧ (condatStep O U (s, h)).1.yNew = some b ∧
      h.length ≤ a ∧ a < (condatStep O U (s, h)).2.length ∧ h.length ≤ b ∧ b < (condatStep O U (s, h)).2.length ∧
      rd (condatStep O U (s, h)).2 a = (Condat.step o U (condatValue (s, h))).x ∧
      rd (condatStep O U (s, h)).2 b = (Condat.step o U (condatValue (s, h))).y) := by
  rcases e1 : O.grad s.xOld h with ⟨g, h1⟩
  obtain ⟨U1, hg, vg, K1, -⟩ := hO.grad.call hK hx e1
  have hy1 := U1.lt hy
  rcases e2 : O.adj s.yOld h1 with ⟨a, h2⟩
  obtain ⟨U2, ha, va, K2, -⟩ := hO.adj.call K1 hy1 e2
  rcases e3 : alloc h2 (rd h2 s.xOld - s.tau • rd h2 g - s.tau • rd h2 a) with ⟨t, h3⟩
  obtain ⟨U3, ht, vt, K3, -⟩ := alloc_call K2 _ e3
  rcases e4 : O.prox t 1 h3 with ⟨xp, h4⟩
  obtain ⟨U4, hxp, vxp, K4, -⟩ := (hO.prox 1).call K3 ht e4
  rcases e5 : alloc h4 ((2 : ℝ) • rd h4 xp - rd h4 s.xOld) with ⟨w, h5⟩
  obtain ⟨U5, hw, vw, K5, -⟩ := alloc_call K4 _ e5
  rcases e6 : O.op w h5 with ⟨l, h6⟩
  obtain ⟨U6, hl, vl, K6, -⟩ := hO.op.call K5 hw e6
  rcases e7 : alloc h6 (rd h6 s.yOld + s.sigma • rd h6 l) with ⟨yt, h7⟩
  obtain ⟨U7, hyt, vyt, K7, -⟩ := alloc_call K6 _ e7
  rcases e8 : alloc h7 ((1 / s.sigma) • rd h7 yt) with ⟨v, h8⟩
  obtain ⟨U8, hv, vv, K8, -⟩ := alloc_call K7 _ e8
  rcases e9 : O.proxDual v (1 / s.sigma) h8 with ⟨d, h9⟩
  obtain ⟨U9, hd, vd, K9, -⟩ := (hO.proxDual (1 / s.sigma)).call K8 hv e9
  rcases e10 : alloc h9 (rd h9 yt - s.sigma • rd h9 d) with ⟨yp, h10⟩
  obtain ⟨U10, hyp, vyp, K10, -⟩ := alloc_call K9 _ e10
  rcases e11 : alloc h10 (s.rho • rd h10 xp + (1 - s.rho) • rd h10 s.xOld) with ⟨xn, h11⟩
  obtain ⟨U11, hxn, vxn, K11, exn⟩ := alloc_call K10 _ e11
  rcases e12 : alloc h11 (s.rho • rd h11 yp + (1 - s.rho) • rd h11 s.yOld) with ⟨yn, h12⟩
  obtain ⟨U12, hyn, vyn, K12, eyn⟩ := alloc_call K11 _ e12
  have V2 := U1.trans U2
  have V4 := (V2.trans U3).trans U4
  have V6 := (V4.trans U5).trans U6
  have V10 := (((V6.trans U7).trans U8).trans U9).trans U10
  have V11 := V10.trans U11
  have V12 := V11.trans U12
  have hstep : condatStep O U (s, h) =
      (⟨s.xOld, s.yOld, some xn, some yn, Condat.app U.rho s.rho, Condat.app U.sigma s.sigma,
        Condat.app U.tau s.tau⟩,
        write (write h12 s.xOld (rd h12 xn)) s.yOld (rd (write h12 s.xOld (rd h12 xn)) yn)) := by
    simp only [condatStep, e1, e2, e3, e4, e5, e6, e7, e8, e9, e10, e11, e12]
  have lxn : h.length ≤ xn := by rw [exn]; exact V10.len
  have lyn : h.length ≤ yn := by rw [eyn]; exact V11.len
  have nyx : yn ≠ s.xOld := fun e => absurd (e ▸ lyn) (not_le.2 hx)
  have nyy : yn ≠ s.yOld := fun e => absurd (e ▸ lyn) (not_le.2 hy)
  have nxx : xn ≠ s.xOld := fun e => absurd (e ▸ lxn) (not_le.2 hx)
  have nxy : xn ≠ s.yOld := fun e => absurd (e ▸ lxn) (not_le.2 hy)
  -- values
  have rt : rd h3 t = rd h s.xOld - s.tau • o.grad (rd h s.xOld) - s.tau • o.adj (rd h s.yOld) := by
    rw [vt, V2.rd hx, U2.rd hg, vg, va, U1.rd hy]
  have rxp : rd h4 xp = (Condat.half o (condatValue (s, h))).1 := by
    rw [vxp, rt]; rfl
  have ryt : rd h7 yt = rd h s.yOld + s.sigma • o.op ((2 : ℝ) • rd h4 xp - rd h s.xOld) := by
    rw [vyt, V6.rd hy, vl, vw, V4.rd hx]
  have ryp : rd h10 yp = (Condat.half o (condatValue (s, h))).2 := by
    rw [vyp, (U8.trans U9).rd hyt, vd, vv, ryt, rxp]; rfl
  have rxn : rd h12 xn = (Condat.step o U (condatValue (s, h))).x := by
    have : rd h10 xp = rd h4 xp := by
      exact (((((U5.trans U6).trans U7).trans U8).trans U9).trans U10).rd hxp
    rw [U12.rd hxn, vxn, V10.rd hx, this, rxp]; rfl
  have ryn : rd h12 yn = (Condat.step o U (condatValue (s, h))).y := by
    rw [vyn, V11.rd hy, U11.rd hyp, ryp]; rfl
  have hx12 := V12.lt hx
  have hy12 := V12.lt hy
  rw [hstep]
  simp only [length_write]
  refine ⟨trivial, trivial, V12.len, ?_, ?_, xn, yn, rfl, rfl, lxn, U12.lt hxn, lyn, hyn, ?_, ?_⟩
  · exact ((UnchangedBut.of V12 _).write (by simp) _).write (by simp) _
  · simp only [condatValue]
    rw [rd_write_ne hne, rd_write_self hx12, rd_write_self (by rw [length_write]; exact hy12), rd_write_ne nyx, rxn, ryn]
    rfl
  · rw [rd_write_ne nxy, rd_write_ne nxx, rxn]
  · rw [rd_write_ne nyy, rd_write_ne nyx, ryn]

theorem condat_heap_inv {K : List (Ref × E)} {O : CondatOps E} {o : Condat.Ops E E} (hO : CondatImpl K O o)
    (U : Condat.Upd) (x y : Ref) (rho sigma tau : ℝ) (h₀ : Heap E) (hK : Holds K h₀) (_hx : x < h₀.length)
    (hy : y < h₀.length) (n : ℕ) :
    Unchanged h₀ (condatHeapRun O U x y rho sigma tau h₀ n).2 ∧
    (condatHeapRun O U x y rho sigma tau h₀ n).1.xOld = h₀.length ∧
    (condatHeapRun O U x y rho sigma tau h₀ n).1.yOld = h₀.length + 1 ∧
    h₀.length + 1 < (condatHeapRun O U x y rho sigma tau h₀ n).2.length ∧
    condatValue (condatHeapRun O U x y rho sigma tau h₀ n) =
      condatAfter o U ⟨rd h₀ x, rd h₀ y, rho, sigma, tau⟩ n := by
  induction n with
  | zero =>
    have U1 := unchanged_alloc h₀ (rd h₀ x)
    have U2 := unchanged_alloc (h₀ ++ [rd h₀ x]) (rd (h₀ ++ [rd h₀ x]) y)
    refine ⟨U1.trans U2, rfl, ?_, ?_, ?_⟩
    · simp [condatHeapRun, condatInit, alloc]
    · simp [condatHeapRun, condatInit, alloc]
    · simp only [condatHeapRun, Function.iterate_zero, id, condatInit, alloc, condatValue, condatAfter]
      rw [U2.rd (by simp), rd_alloc, rd_alloc, U1.rd hy]
  | succ n ih =>
    obtain ⟨V, ex, ey, hl, v⟩ := ih
    have hs : condatHeapRun O U x y rho sigma tau h₀ (n + 1) =
        condatStep O U (condatHeapRun O U x y rho sigma tau h₀ n) := by
      simp only [condatHeapRun, Function.iterate_succ_apply']
    obtain ⟨a, b, c, d, e, -⟩ := condat_heap_step hO U (condatHeapRun O U x y rho sigma tau h₀ n).1
      (condatHeapRun O U x y rho sigma tau h₀ n).2 (hK.mono V) (by omega) (by omega) (by omega)
    rw [hs]
    refine ⟨d.unchanged V ?_, a.trans ex, b.trans ey, hl.trans_le c, by rw [e, v]; rfl⟩
    rw [ex, ey]
    intro r hr
    simp only [List.mem_cons, List.not_mem_nil, or_false] at hr
    omega

theorem condat_heap_later {K : List (Ref × E)} {O : CondatOps E} {o : Condat.Ops E E} (hO : CondatImpl K O o)
    (U : Condat.Upd) (x y : Ref) (rho sigma tau : ℝ) (h₀ : Heap E) (hK : Holds K h₀) (hx : x < h₀.length)
    (hy : y < h₀.length) (m k : ℕ) :
    (condatHeapRun O U x y rho sigma tau h₀ m).2.length ≤ (condatHeapRun O U x y rho sigma tau h₀ (m + k)).2.length ∧
    UnchangedBut [h₀.length, h₀.length + 1] (condatHeapRun O U x y rho sigma tau h₀ m).2
      (condatHeapRun O U x y rho sigma tau h₀ (m + k)).2 := by
  induction k with
  | zero => exact ⟨le_rfl, UnchangedBut.refl _ _⟩
  | succ k ih =>
    obtain ⟨V, ex, ey, hl, -⟩ := condat_heap_inv hO U x y rho sigma tau h₀ hK hx hy (m + k)
    obtain ⟨-, -, c, d, -, -⟩ := condat_heap_step hO U (condatHeapRun O U x y rho sigma tau h₀ (m + k)).1
      (condatHeapRun O U x y rho sigma tau h₀ (m + k)).2 (hK.mono V) (by omega) (by omega) (by omega)
    have hs : condatHeapRun O U x y rho sigma tau h₀ (m + (k + 1)) =
        condatStep O U (condatHeapRun O U x y rho sigma tau h₀ (m + k)) := by
      simp only [condatHeapRun, ← add_assoc, Function.iterate_succ_apply']
    rw [ex, ey] at d
    rw [hs]
    exact ⟨ih.1.trans c, ih.2.then ih.1 d⟩

/-- C121: `Condat` updates two arrays of its own in place.  All arrays that existed before its construction keep
their contents, and the arrays it returned as `x_final` and `y_final` after `m` updates still have the same contents
after any further updates. -/
theorem C121_condat {K : List (Ref × E)} {O : CondatOps E} {o : Condat.Ops E E} (hO : CondatImpl K O o)
    (U : Condat.Upd) (x y : Ref) (rho sigma tau : ℝ) (h₀ : Heap E) (hK : Holds K h₀) (hx : x < h₀.length)
    (hy : y < h₀.length) (m k : ℕ) :
    Unchanged h₀ (condatHeapRun O U x y rho sigma tau h₀ m).2 ∧
    (∀ r, (condatHeapRun O U x y rho sigma tau h₀ m).1.xNew = some r ∨
        (condatHeapRun O U x y rho sigma tau h₀ m).1.yNew = some r →
      rd (condatHeapRun O U x y rho sigma tau h₀ (m + k)).2 r = rd (condatHeapRun O U x y rho sigma tau h₀ m).2 r) := by
  refine ⟨(condat_heap_inv hO U x y rho sigma tau h₀ hK hx hy m).1, fun r hr => ?_⟩
  cases m with
  | zero => rcases hr with hr | hr <;> cases hr
  | succ m =>
    obtain ⟨V, ex, ey, hl, -⟩ := condat_heap_inv hO U x y rho sigma tau h₀ hK hx hy m
    obtain ⟨-, -, -, -, -, a, b, ha, hb, l1, l2, l3, l4, -, -⟩ := condat_heap_step hO U
      (condatHeapRun O U x y rho sigma tau h₀ m).1
      (condatHeapRun O U x y rho sigma tau h₀ m).2 (hK.mono V) (by omega) (by omega) (by omega)
    have hs : condatHeapRun O U x y rho sigma tau h₀ (m + 1) =
        condatStep O U (condatHeapRun O U x y rho sigma tau h₀ m) := by
      simp only [condatHeapRun, Function.iterate_succ_apply']
    have L := (condat_heap_later hO U x y rho sigma tau h₀ hK hx hy (m + 1) k).2
    have hlt : r < (condatHeapRun O U x y rho sigma tau h₀ (m + 1)).2.length ∧ h₀.length + 1 < r := by
      rw [hs] at hr ⊢
      rcases hr with hr | hr
      · have : a = r := Option.some.inj (ha.symm.trans hr)
        exact ⟨this ▸ l2, by omega⟩
      · have : b = r := Option.some.inj (hb.symm.trans hr)
        exact ⟨this ▸ l4, by omega⟩
    refine L.rd hlt.1 ?_
    have := hlt.2
    simp only [List.mem_cons, List.not_mem_nil, or_false]
    omega

/-- C122: the iterates and the results of `Condat` are those of the value model, whatever arrays the operators
share. -/
theorem C122_condat {K : List (Ref × E)} {O : CondatOps E} {o : Condat.Ops E E} (hO : CondatImpl K O o)
    (U : Condat.Upd) (x y : Ref) (rho sigma tau : ℝ) (h₀ : Heap E) (hK : Holds K h₀) (hx : x < h₀.length)
    (hy : y < h₀.length) (n : ℕ) :
    condatValue (condatHeapRun O U x y rho sigma tau h₀ n) =
      condatAfter o U ⟨rd h₀ x, rd h₀ y, rho, sigma, tau⟩ n ∧
    (0 < n → ∃ a b, (condatHeapRun O U x y rho sigma tau h₀ n).1.xNew = some a ∧
      (condatHeapRun O U x y rho sigma tau h₀ n).1.yNew = some b ∧
      rd (condatHeapRun O U x y rho sigma tau h₀ n).2 a = (condatAfter o U ⟨rd h₀ x, rd h₀ y, rho, sigma, tau⟩ n).x ∧
      rd (condatHeapRun O U x y rho sigma tau h₀ n).2 b = (condatAfter o U ⟨rd h₀ x, rd h₀ y, rho, sigma, tau⟩ n).y) := by
  refine ⟨(condat_heap_inv hO U x y rho sigma tau h₀ hK hx hy n).2.2.2.2, fun hn => ?_⟩
  obtain ⟨m, rfl⟩ : ∃ m, n = m + 1 := ⟨n - 1, by omega⟩
  obtain ⟨V, ex, ey, hl, v⟩ := condat_heap_inv hO U x y rho sigma tau h₀ hK hx hy m
  obtain ⟨-, -, -, -, -, a, b, ha, hb, -, -, -, -, va, vb⟩ := condat_heap_step hO U
    (condatHeapRun O U x y rho sigma tau h₀ m).1
    (condatHeapRun O U x y rho sigma tau h₀ m).2 (hK.mono V) (by omega) (by omega) (by omega)
  have hs : condatHeapRun O U x y rho sigma tau h₀ (m + 1) =
      condatStep O U (condatHeapRun O U x y rho sigma tau h₀ m) := by
    simp only [condatHeapRun, Function.iterate_succ_apply']
  rw [hs]
  refine ⟨a, b, ha, hb, ?_, ?_⟩
  · rw [va]; exact congrArg (fun t => (Condat.step o U t).x) v
  · rw [vb]; exact congrArg (fun t => (Condat.step o U t).y) v

/-! ## `ADMM` -/

/-- The values of the attributes. -/
def admmValue (q : AdmmSt × Heap E) : Admm.St E E := ⟨rd q.2 q.1.uOld, rd q.2 q.1.vOld, rd q.2 q.1.muOld⟩

/-- Construction and `n` updates. -/
noncomputable def admmHeapRun (O : AdmmOps E) (u v mu : Ref) (h₀ : Heap E) (n : ℕ) : AdmmSt × Heap E :=
  (admmStep O)^[n] (admmInit u v mu h₀)

/-- The array programs compute the problem of the value model, and `b` is an allocated array. -/
structure AdmmImpl (K : List (Ref × E)) (O : AdmmOps E) (p : Admm.Problem E E) (h₀ : Heap E) : Prop where
  optH : Implements2 K O.optH p.optH
  optG : Implements2 K O.optG p.optG
  A : Implements K O.A p.A
  B : Implements K O.B p.B
  b_lt : O.b < h₀.length
  b : rd h₀ O.b = p.b

theorem admm_heap_step {K : List (Ref × E)} {O : AdmmOps E} {p : Admm.Problem E E} {h₀ : Heap E}
    (hO : AdmmImpl K O p h₀) (s : AdmmSt) (h : Heap E) (hK : Holds K h) (V : Unchanged h₀ h)
    (hu : s.uOld < h.length) (hv : s.vOld < h.length) (hm : s.muOld < h.length) :
    Unchanged h (admmStep O (s, h)).2 ∧
    (admmStep O (s, h)).1.uOld < (admmStep O (s, h)).2.length ∧
    (admmStep O (s, h)).1.vOld < (admmStep O (s, h)).2.length ∧
    (admmStep O (s, h)).1.muOld < (admmStep O (s, h)).2.length ∧
    admmValue (admmStep O (s, h)) = Admm.step p (admmValue (s, h)) ∧
    (admmStep O (s, h)).1.uNew < (admmStep O (s, h)).2.length ∧
    (admmStep O (s, h)).1.vNew < (admmStep O (s, h)).2.length ∧
    rd (admmStep O (s, h)).2 (admmStep O (s, h)).1.uNew = (Admm.step p (admmValue (s, h))).u ∧
    rd (admmStep O (s, h)).2 (admmStep O (s, h)).1.vNew = (Admm.step p (admmValue (s, h))).v := by
  have hb := V.lt hO.b_lt
  have vb : rd h O.b = p.b := by rw [V.rd hO.b_lt, hO.b]
  rcases e1 : O.B s.vOld h with ⟨bv, h1⟩
  obtain ⟨U1, hbv, vbv, K1, -⟩ := hO.B.call hK hv e1
  rcases e2 : alloc h1 (rd h1 bv + rd h1 s.uOld - rd h1 O.b) with ⟨ob, h2⟩
  obtain ⟨U2, hob, vob, K2, -⟩ := alloc_call K1 _ e2
  have V2 := U1.trans U2
  rcases e3 : O.optH s.uOld ob h2 with ⟨u, h3⟩
  obtain ⟨U3, hun, vun, K3, -⟩ := hO.optH.call K2 (V2.lt hu) hob e3
  rcases e4 : O.A u h3 with ⟨tmp, h4⟩
  obtain ⟨U4, ht, vt, K4, -⟩ := hO.A.call K3 hun e4
  rcases e5 : alloc h4 (rd h4 tmp + rd h4 s.uOld - rd h4 O.b) with ⟨ob', h5⟩
  obtain ⟨U5, hob', vob', K5, -⟩ := alloc_call K4 _ e5
  have V4 := (V2.trans U3).trans U4
  have V5 := V4.trans U5
  rcases e6 : O.optG s.vOld ob' h5 with ⟨v, h6⟩
  obtain ⟨U6, hvn, vvn, K6, -⟩ := hO.optG.call K5 (V5.lt hv) hob' e6
  rcases e7 : O.B v h6 with ⟨bv', h7⟩
  obtain ⟨U7, hbv', vbv', K7, -⟩ := hO.B.call K6 hvn e7
  have V7 := (V5.trans U6).trans U7
  rcases e8 : alloc h7 (rd h7 s.muOld + (rd h7 tmp + rd h7 bv' - rd h7 O.b)) with ⟨mu, h8⟩
  obtain ⟨U8, hmu, vmu, K8, -⟩ := alloc_call K7 _ e8
  rcases e9 : alloc h8 (rd h8 u) with ⟨uo, h9⟩
  obtain ⟨U9, huo, vuo, K9, -⟩ := alloc_call K8 _ e9
  rcases e10 : alloc h9 (rd h9 v) with ⟨vo, h10⟩
  obtain ⟨U10, hvo, vvo, K10, -⟩ := alloc_call K9 _ e10
  rcases e11 : alloc h10 (rd h10 mu) with ⟨mo, h11⟩
  obtain ⟨U11, hmo, vmo, K11, -⟩ := alloc_call K10 _ e11
  have V11 := (((V7.trans U8).trans U9).trans U10).trans U11
  have W3 := ((((U4.trans U5).trans U6).trans U7).trans U8)
  have ru : rd h3 u = (Admm.step p (admmValue (s, h))).u := by
    rw [vun, V2.rd hu, vob, vbv, U1.rd hu, U1.rd hb, vb]; rfl
  have rt : rd h4 tmp = p.A (Admm.step p (admmValue (s, h))).u := by rw [vt, ru]
  have rv : rd h6 v = (Admm.step p (admmValue (s, h))).v := by
    rw [vvn, V5.rd hv, vob', V4.rd hu, V4.rd hb, vb, rt]; rfl
  have rm : rd h8 mu = (Admm.step p (admmValue (s, h))).mu := by
    rw [vmu, V7.rd hm, V7.rd hb, vb, vbv', rv, ((U5.trans U6).trans U7).rd ht, rt]; rfl
  have ru11 : rd h11 u = (Admm.step p (admmValue (s, h))).u := by
    rw [(((W3.trans U9).trans U10).trans U11).rd hun, ru]
  have rv11 : rd h11 v = (Admm.step p (admmValue (s, h))).v := by
    rw [((((U7.trans U8).trans U9).trans U10).trans U11).rd hvn, rv]
  have hstep : admmStep O (s, h) = (⟨uo, u, vo, v, mo, mu⟩, h11) := by
    simp only [admmStep, e1, e2, e3, e4, e5, e6, e7, e8, e9, e10, e11]
  rw [hstep]
  refine ⟨V11, (U10.trans U11).lt huo, U11.lt hvo, hmo, ?_,
    (((W3.trans U9).trans U10).trans U11).lt hun, ((((U7.trans U8).trans U9).trans U10).trans U11).lt hvn, ru11, rv11⟩
  simp only [admmValue]
  rw [(U10.trans U11).rd huo, vuo, W3.rd hun, ru, U11.rd hvo, vvo, ((U7.trans U8).trans U9).rd hvn, rv, vmo,
    (U9.trans U10).rd hmu, rm]
  rfl

theorem admm_heap_inv {K : List (Ref × E)} {O : AdmmOps E} {p : Admm.Problem E E} {h₀ : Heap E}
    (hO : AdmmImpl K O p h₀) (u v mu : Ref) (hK : Holds K h₀) (hu : u < h₀.length) (hv : v < h₀.length)
    (hm : mu < h₀.length) (n : ℕ) :
    Unchanged h₀ (admmHeapRun O u v mu h₀ n).2 ∧
    (admmHeapRun O u v mu h₀ n).1.uOld < (admmHeapRun O u v mu h₀ n).2.length ∧
    (admmHeapRun O u v mu h₀ n).1.vOld < (admmHeapRun O u v mu h₀ n).2.length ∧
    (admmHeapRun O u v mu h₀ n).1.muOld < (admmHeapRun O u v mu h₀ n).2.length ∧
    admmValue (admmHeapRun O u v mu h₀ n) = Admm.after p ⟨rd h₀ u, rd h₀ v, rd h₀ mu⟩ n ∧
    rd (admmHeapRun O u v mu h₀ n).2 (admmHeapRun O u v mu h₀ n).1.uNew =
      (Admm.after p ⟨rd h₀ u, rd h₀ v, rd h₀ mu⟩ n).u ∧
    rd (admmHeapRun O u v mu h₀ n).2 (admmHeapRun O u v mu h₀ n).1.vNew =
      (Admm.after p ⟨rd h₀ u, rd h₀ v, rd h₀ mu⟩ n).v := by
  induction n with
  | zero =>
    rcases e1 : alloc h₀ (rd h₀ u) with ⟨uo, h1⟩
    obtain ⟨U1, huo, vuo, K1, -⟩ := alloc_call hK _ e1
    rcases e2 : alloc h1 (rd h1 u) with ⟨un, h2⟩
    obtain ⟨U2, hun, vun, K2, -⟩ := alloc_call K1 _ e2
    rcases e3 : alloc h2 (rd h2 v) with ⟨vo, h3⟩
    obtain ⟨U3, hvo, vvo, K3, -⟩ := alloc_call K2 _ e3
    rcases e4 : alloc h3 (rd h3 v) with ⟨vn, h4⟩
    obtain ⟨U4, hvn, vvn, K4, -⟩ := alloc_call K3 _ e4
    rcases e5 : alloc h4 (rd h4 mu) with ⟨mn, h5⟩
    obtain ⟨U5, hmn, vmn, K5, -⟩ := alloc_call K4 _ e5
    rcases e6 : alloc h5 (rd h5 mu) with ⟨mo, h6⟩
    obtain ⟨U6, hmo, vmo, K6, -⟩ := alloc_call K5 _ e6
    have hi : admmHeapRun O u v mu h₀ 0 = (⟨uo, un, vo, vn, mo, mn⟩, h6) := by
      simp only [admmHeapRun, Function.iterate_zero, id, admmInit, e1, e2, e3, e4, e5, e6]
    have W2 := U1.trans U2
    have W5 := ((W2.trans U3).trans U4).trans U5
    have X3 := (U4.trans U5).trans U6
    have X2 := U3.trans X3
    have X1 := U2.trans X2
    rw [hi]
    simp only [admmValue, Admm.after]
    refine ⟨W5.trans U6, X1.lt huo, X3.lt hvo, hmo, ?_, ?_, ?_⟩
    · rw [X1.rd huo, vuo, X3.rd hvo, vvo, W2.rd hv, vmo, W5.rd hm]
    · rw [X2.rd hun, vun, U1.rd hu]
    · rw [(U5.trans U6).rd hvn, vvn, (W2.trans U3).rd hv]
  | succ n ih =>
    obtain ⟨V, a, b, c, e, -, -⟩ := ih
    have hs : admmHeapRun O u v mu h₀ (n + 1) = admmStep O (admmHeapRun O u v mu h₀ n) := by
      simp only [admmHeapRun, Function.iterate_succ_apply']
    obtain ⟨V', a', b', c', e', -, -, f', g'⟩ := admm_heap_step hO (admmHeapRun O u v mu h₀ n).1
      (admmHeapRun O u v mu h₀ n).2 (hK.mono V) V a b c
    rw [hs]
    refine ⟨V.trans V', a', b', c', by rw [e', e]; rfl, ?_, ?_⟩
    · rw [f', e]; rfl
    · rw [g', e]; rfl

/-- C121: `ADMM` never writes to an existing array. -/
theorem C121_admm {K : List (Ref × E)} {O : AdmmOps E} {p : Admm.Problem E E} {h₀ : Heap E}
    (hO : AdmmImpl K O p h₀) (u v mu : Ref) (hK : Holds K h₀) (hu : u < h₀.length) (hv : v < h₀.length)
    (hm : mu < h₀.length) (m k : ℕ) :
    Unchanged h₀ (admmHeapRun O u v mu h₀ m).2 ∧
    Unchanged (admmHeapRun O u v mu h₀ m).2 (admmHeapRun O u v mu h₀ (m + k)).2 := by
  refine ⟨(admm_heap_inv hO u v mu hK hu hv hm m).1, ?_⟩
  induction k with
  | zero => exact Unchanged.rfl' _
  | succ k ih =>
    obtain ⟨V, a, b, c, -, -, -⟩ := admm_heap_inv hO u v mu hK hu hv hm (m + k)
    have hs : admmHeapRun O u v mu h₀ (m + (k + 1)) = admmStep O (admmHeapRun O u v mu h₀ (m + k)) := by
      simp only [admmHeapRun, ← add_assoc, Function.iterate_succ_apply']
    rw [hs]
    exact ih.trans (admm_heap_step hO (admmHeapRun O u v mu h₀ (m + k)).1
      (admmHeapRun O u v mu h₀ (m + k)).2 (hK.mono V) V a b c).1

/-- C122: the iterates and the results of `ADMM` are those of the value model. -/
theorem C122_admm {K : List (Ref × E)} {O : AdmmOps E} {p : Admm.Problem E E} {h₀ : Heap E}
    (hO : AdmmImpl K O p h₀) (u v mu : Ref) (hK : Holds K h₀) (hu : u < h₀.length) (hv : v < h₀.length)
    (hm : mu < h₀.length) (n : ℕ) :
    admmValue (admmHeapRun O u v mu h₀ n) = Admm.after p ⟨rd h₀ u, rd h₀ v, rd h₀ mu⟩ n ∧
    rd (admmHeapRun O u v mu h₀ n).2 (admmHeapRun O u v mu h₀ n).1.uNew =
      (Admm.after p ⟨rd h₀ u, rd h₀ v, rd h₀ mu⟩ n).u ∧
    rd (admmHeapRun O u v mu h₀ n).2 (admmHeapRun O u v mu h₀ n).1.vNew =
      (Admm.after p ⟨rd h₀ u, rd h₀ v, rd h₀ mu⟩ n).v :=
  (admm_heap_inv hO u v mu hK hu hv hm n).2.2.2.2

/-! ## `GenForwardBackward` -/

/-- The values of the attributes. -/
def genValue {S : Type} (q : GenSt S × Heap E) : FB.GenSt S E :=
  ⟨rd q.2 q.1.xOld, q.1.z.map (rd q.2), q.1.gamma, q.1.lam, q.1.rules⟩

/-- Construction and `n` updates. -/
noncomputable def genHeapRun {S : Type} (G : HOp E) (Ps : List (HProx E ℝ)) (w : List ℝ)
    (gu lu : Option (S → ℝ → ℝ × S)) (x : Ref) (gamma lam : ℝ) (r : S) (h₀ : Heap E) (n : ℕ) : GenSt S × Heap E :=
  (Alias.genStep G Ps w gu lu)^[n] (Alias.genInit x Ps.length gamma lam r h₀)

theorem genLoop_spec {K : List (Ref × E)} (xOld g : Ref) (gamma lam : ℝ) :
    ∀ (Ps : List (HProx E ℝ)) (ps : List (E → ℝ → E)) (zs : List Ref) (ws : List ℝ) (h : Heap E),
      List.Forall₂ (ImplementsProx K) Ps ps → Ps.length = zs.length → ws.length = zs.length → Holds K h →
      xOld < h.length → g < h.length → (∀ z ∈ zs, z < h.length) → zs.Nodup → xOld ∉ zs → g ∉ zs →
      (∀ z ∈ zs, z ∉ K.map Prod.fst) →
      h.length ≤ (genLoop xOld g gamma lam Ps zs ws h).length ∧
      UnchangedBut zs h (genLoop xOld g gamma lam Ps zs ws h) ∧
      zs.map (rd (genLoop xOld g gamma lam Ps zs ws h)) =
        FB.genZ (rd h xOld) (rd h g) gamma lam ps (zs.map (rd h)) ws := by
  intro Ps
  induction Ps with
  | nil =>
    intro ps zs ws h hP l1 l2 hK hx hg hz nd nx ng nK
    cases hP
    have : zs = [] := List.length_eq_zero_iff.1 l1.symm
    subst this
    exact ⟨le_rfl, UnchangedBut.refl _ _, by simp [FB.genZ]⟩
  | cons P Ps ih =>
    intro ps zs ws h hP l1 l2 hK hx hg hz nd nx ng nK
    cases hP with
    | cons hP hPs =>
    rename_i p ps
    obtain ⟨z, zs, rfl⟩ : ∃ z zs', zs = z :: zs' := by
      cases zs with
      | nil => simp at l1
      | cons z zs => exact ⟨z, zs, rfl⟩
    obtain ⟨w, ws, rfl⟩ : ∃ w ws', ws = w :: ws' := by
      cases ws with
      | nil => simp at l2
      | cons w ws => exact ⟨w, ws, rfl⟩
    have hz0 : z < h.length := hz z (by simp)
    rcases e1 : alloc h ((2 : ℝ) • rd h xOld - rd h z - gamma • rd h g) with ⟨t, h1⟩
    obtain ⟨U1, ht, vt, K1, -⟩ := alloc_call hK _ e1
    rcases e2 : P t (gamma / w) h1 with ⟨q, h2⟩
    obtain ⟨U2, hq, vq, K2, -⟩ := (hP (gamma / w)).call K1 ht e2
    have V2 := U1.trans U2
    have hz2 := V2.lt hz0
    have hloop : genLoop xOld g gamma lam (P :: Ps) (z :: zs) (w :: ws) h =
        genLoop xOld g gamma lam Ps zs ws (write h2 z (rd h2 z + lam • (rd h2 q - rd h2 xOld))) := by
      simp only [genLoop, e1, e2]
    rw [hloop]
    set h3 := write h2 z (rd h2 z + lam • (rd h2 q - rd h2 xOld)) with hh3
    have len3 : h3.length = h2.length := length_write _ _ _
    have nz : z ∉ zs := (List.nodup_cons.1 nd).1
    have B3 : UnchangedBut (z :: zs) h h3 := (UnchangedBut.of V2 _).write (by simp) _
    have ne_of : ∀ a ∈ zs, a ≠ z := fun a ha e => nz (e ▸ ha)
    have nxz : xOld ≠ z := fun e => nx (by simp [e])
    have ngz : g ≠ z := fun e => ng (by simp [e])
    obtain ⟨c1, c2, c3⟩ := ih ps zs ws h3 hPs (by simpa using l1) (by simpa using l2)
      (K2.write (nK z (by simp)) _) (by rw [len3]; exact V2.lt hx) (by rw [len3]; exact V2.lt hg)
      (fun a ha => by rw [len3]; exact V2.lt (hz a (by simp [ha]))) (List.nodup_cons.1 nd).2
      (fun hm => nx (by simp [hm])) (fun hm => ng (by simp [hm])) (fun a ha => nK a (by simp [ha]))
    have r3x : rd h3 xOld = rd h xOld := by rw [hh3, rd_write_ne nxz, V2.rd hx]
    have r3g : rd h3 g = rd h g := by rw [hh3, rd_write_ne ngz, V2.rd hg]
    have r3zs : zs.map (rd h3) = zs.map (rd h) := by
      apply List.map_congr_left
      intro a ha
      rw [hh3, rd_write_ne (ne_of a ha), V2.rd (hz a (by simp [ha]))]
    refine ⟨?_, ?_, ?_⟩
    · have := V2.len
      omega
    · refine UnchangedBut.then (by rw [len3]; exact V2.len) B3 ?_
      exact fun r hr hm => c2 r hr (fun hm' => hm (by simp [hm']))
    · have rz : rd (genLoop xOld g gamma lam Ps zs ws h3) z = rd h3 z :=
        c2.rd (by rw [len3]; exact hz2) nz
      have r3z : rd h3 z = rd h z + lam • (p ((2 : ℝ) • rd h xOld - rd h z - gamma • rd h g) (gamma / w) - rd h xOld) := by
        rw [hh3, rd_write_self hz2, V2.rd hz0, vq, vt, V2.rd hx]
      simp only [List.map_cons, FB.genZ]
      rw [rz, c3, r3z, r3x, r3g, r3zs]

/-- The conditions under which a `GenForwardBackward` object is in order: its own arrays are allocated after the
caller's, pairwise distinct, one row for every operator. -/
structure GenInv {S : Type} (h₀ : Heap E) (n : ℕ) (s : GenSt S) (h : Heap E) : Prop where
  unchanged : Unchanged h₀ h
  xOld : s.xOld = h₀.length
  z : s.z = List.range' (h₀.length + 1) n
  len : h₀.length + n < h.length

theorem gen_heap_step {S : Type} {K : List (Ref × E)} {G : HOp E} {grad : E → E} (hG : Implements K G grad)
    {Ps : List (HProx E ℝ)} {ps : List (E → ℝ → E)} (hP : List.Forall₂ (ImplementsProx K) Ps ps) (w : List ℝ)
    (hw : w.length = Ps.length) (gu lu : Option (S → ℝ → ℝ × S)) {h₀ : Heap E} (hK : Holds K h₀) (s : GenSt S)
    (h : Heap E) (I : GenInv h₀ Ps.length s h) :
    GenInv h₀ Ps.length (Alias.genStep G Ps w gu lu (s, h)).1 (Alias.genStep G Ps w gu lu (s, h)).2 ∧
    h.length ≤ (Alias.genStep G Ps w gu lu (s, h)).2.length ∧
    UnchangedBut (s.xOld :: s.z) h (Alias.genStep G Ps w gu lu (s, h)).2 ∧
    genValue (Alias.genStep G Ps w gu lu (s, h)) = FB.genStep grad ps w gu lu (genValue (s, h)) ∧
    (∃ a, (Alias.genStep G Ps w gu lu (s, h)).1.xNew = some a ∧ h.length ≤ a ∧
      a < (Alias.genStep G Ps w gu lu (s, h)).2.length ∧
      rd (Alias.genStep G Ps w gu lu (s, h)).2 a = (FB.genStep grad ps w gu lu (genValue (s, h))).xOld) := by
  obtain ⟨V, ex, ez, hl⟩ := I
  have Kh := hK.mono V
  have hx : s.xOld < h.length := by omega
  have zlt : ∀ z ∈ s.z, h₀.length < z ∧ z < h.length := by
    intro z hz
    rw [ez, List.mem_range'_1] at hz
    omega
  have kz : ∀ z ∈ s.z, z ∉ K.map Prod.fst := fun z hz hm => by
    have := hK.lt hm
    have := (zlt z hz).1
    omega
  have nx : s.xOld ∉ s.z := fun hm => by
    have := (zlt _ hm).1
    omega
  rcases e1 : G s.xOld h with ⟨g, h1⟩
  obtain ⟨U1, hg, vg, K1, src⟩ := hG.call Kh hx e1
  have ng : g ∉ s.z := fun hm => by
    have h1 := (zlt _ hm)
    rcases src with r | r | r
    · omega
    · omega
    · have := hK.lt r
      omega
  obtain ⟨l2, B2, v2⟩ := genLoop_spec (K := K) s.xOld g s.gamma s.lam Ps ps s.z w h1 hP (by rw [ez]; simp)
    (by rw [ez]; simpa using hw) K1 (U1.lt hx) hg (fun z hz => U1.lt (zlt z hz).2) (by rw [ez]; exact List.nodup_range' ..)
    nx ng kz
  set h2 := genLoop s.xOld g s.gamma s.lam Ps s.z w h1 with hh2
  rcases e3 : alloc h2 (List.zipWith (fun z w => (w : ℝ) • rd h2 z) s.z w).sum with ⟨xn, h3⟩
  obtain ⟨U3, hxn, vxn, -, exn⟩ := alloc_call (K := []) (fun p hp => by cases hp) _ e3
  have hstep : Alias.genStep G Ps w gu lu (s, h) =
      (⟨s.xOld, s.z, some xn, (FB.applyUpd gu s.rules s.gamma).1,
        (FB.applyUpd lu (FB.applyUpd gu s.rules s.gamma).2 s.lam).1,
        (FB.applyUpd lu (FB.applyUpd gu s.rules s.gamma).2 s.lam).2⟩, write h3 s.xOld (rd h3 xn)) := by
    simp only [Alias.genStep, e1, ← hh2, e3]
  have l1 := U1.len
  have l3 := U3.len
  have hx3 : s.xOld < h3.length := by omega
  have nxn : xn ≠ s.xOld := by omega
  have r1x : rd h1 s.xOld = rd h s.xOld := U1.rd hx
  have r1z : s.z.map (rd h1) = s.z.map (rd h) := List.map_congr_left fun a ha => U1.rd (zlt a ha).2
  have v2' : s.z.map (rd h2) = FB.genZ (rd h s.xOld) (grad (rd h s.xOld)) s.gamma s.lam ps (s.z.map (rd h)) w := by
    rw [v2, vg, r1x, r1z]
  have hsum : (List.zipWith (fun z w => (w : ℝ) • rd h2 z) s.z w) =
      List.zipWith (fun z w => (w : ℝ) • z) (s.z.map (rd h2)) w := by
    rw [List.zipWith_map_left]
  have vx : rd h3 xn = (FB.genStep grad ps w gu lu (genValue (s, h))).xOld := by
    rw [vxn, hsum, v2']; rfl
  have B : UnchangedBut (s.xOld :: s.z) h (write h3 s.xOld (rd h3 xn)) := by
    refine UnchangedBut.write ?_ (by simp) _
    refine UnchangedBut.then (l1.trans l2) ?_ (UnchangedBut.of U3 _)
    refine UnchangedBut.then l1 (UnchangedBut.of U1 _) ?_
    exact fun r hr hm => B2 r hr (fun hm' => hm (by simp [hm']))
  rw [hstep]
  refine ⟨⟨B.unchanged V ?_, ex, ez, by simp only [length_write]; omega⟩, by simp only [length_write]; omega, B, ?_,
    xn, rfl, by omega, by simp only [length_write]; omega, ?_⟩
  · intro r hr
    rcases List.mem_cons.1 hr with rfl | hr
    · omega
    · exact (zlt r hr).1.le
  · have rz : s.z.map (rd (write h3 s.xOld (rd h3 xn))) = s.z.map (rd h2) := by
      apply List.map_congr_left
      intro a ha
      have h1 := zlt a ha
      rw [rd_write_ne (by omega), U3.rd (by omega)]
    simp only [genValue]
    rw [rd_write_self hx3, rz, v2', vx]
    rfl
  · rw [rd_write_ne nxn, vx]

theorem gen_heap_inv {S : Type} {K : List (Ref × E)} {G : HOp E} {grad : E → E} (hG : Implements K G grad)
    {Ps : List (HProx E ℝ)} {ps : List (E → ℝ → E)} (hP : List.Forall₂ (ImplementsProx K) Ps ps) (w : List ℝ)
    (hw : w.length = Ps.length) (gu lu : Option (S → ℝ → ℝ × S)) {h₀ : Heap E} (hK : Holds K h₀) (x : Ref)
    (gamma lam : ℝ) (r : S) (n : ℕ) :
    GenInv h₀ Ps.length (genHeapRun G Ps w gu lu x gamma lam r h₀ n).1 (genHeapRun G Ps w gu lu x gamma lam r h₀ n).2 ∧
    genValue (genHeapRun G Ps w gu lu x gamma lam r h₀ n) =
      genAfter grad ps w gu lu (FB.genInit (rd h₀ x) ps.length gamma lam r) n := by
  induction n with
  | zero =>
    have hlen : Ps.length = ps.length := hP.length_eq
    obtain ⟨a, b⟩ := allocRows_spec (rd (h₀ ++ [rd h₀ x]) h₀.length) Ps.length (h₀ ++ [rd h₀ x])
    rw [rd_alloc] at a b
    have hi : genHeapRun G Ps w gu lu x gamma lam r h₀ 0 =
        (⟨h₀.length, List.range' (h₀.length + 1) Ps.length, none, gamma, lam, r⟩,
          h₀ ++ [rd h₀ x] ++ List.replicate Ps.length (rd h₀ x)) := by
      simp only [genHeapRun, Function.iterate_zero, id, Alias.genInit, alloc, rd_alloc]
      refine Prod.ext ?_ b
      simp only [a, List.length_append, List.length_singleton]
    rw [hi]
    refine ⟨⟨?_, rfl, rfl, by simp⟩, ?_⟩
    · intro q hq
      simp [List.append_assoc, List.getElem?_append_left hq]
    · simp only [genValue, genAfter, FB.genInit]
      have e1 : rd (h₀ ++ [rd h₀ x] ++ List.replicate Ps.length (rd h₀ x)) h₀.length = rd h₀ x := by
        simp [rd, List.getD_eq_getElem?_getD]
      have e2 : (List.range' (h₀.length + 1) Ps.length).map
          (rd (h₀ ++ [rd h₀ x] ++ List.replicate Ps.length (rd h₀ x))) = List.replicate ps.length (rd h₀ x) := by
        rw [← hlen]
        apply List.eq_replicate_iff.2
        refine ⟨by simp, fun b hb => ?_⟩
        obtain ⟨q, hq, rfl⟩ := List.mem_map.1 hb
        rw [List.mem_range'_1] at hq
        have : (h₀ ++ [rd h₀ x] ++ List.replicate Ps.length (rd h₀ x))[q]? = some (rd h₀ x) := by
          rw [List.getElem?_append_right (by simp; omega)]
          rw [List.getElem?_replicate]
          simp
          omega
        exact (rd_of_getElem? this).2
      rw [e1, e2]
  | succ n ih =>
    have hs : genHeapRun G Ps w gu lu x gamma lam r h₀ (n + 1) =
        Alias.genStep G Ps w gu lu (genHeapRun G Ps w gu lu x gamma lam r h₀ n) := by
      simp only [genHeapRun, Function.iterate_succ_apply']
    obtain ⟨a, -, -, d, -⟩ := gen_heap_step hG hP w hw gu lu hK _ _ ih.1
    rw [hs]
    exact ⟨a, by rw [d, ih.2]; rfl⟩

theorem gen_heap_later {S : Type} {K : List (Ref × E)} {G : HOp E} {grad : E → E} (hG : Implements K G grad)
    {Ps : List (HProx E ℝ)} {ps : List (E → ℝ → E)} (hP : List.Forall₂ (ImplementsProx K) Ps ps) (w : List ℝ)
    (hw : w.length = Ps.length) (gu lu : Option (S → ℝ → ℝ × S)) {h₀ : Heap E} (hK : Holds K h₀) (x : Ref)
    (gamma lam : ℝ) (r : S) (m k : ℕ) :
    (genHeapRun G Ps w gu lu x gamma lam r h₀ m).2.length ≤
      (genHeapRun G Ps w gu lu x gamma lam r h₀ (m + k)).2.length ∧
    UnchangedBut (h₀.length :: List.range' (h₀.length + 1) Ps.length)
      (genHeapRun G Ps w gu lu x gamma lam r h₀ m).2 (genHeapRun G Ps w gu lu x gamma lam r h₀ (m + k)).2 := by
  induction k with
  | zero => exact ⟨le_rfl, UnchangedBut.refl _ _⟩
  | succ k ih =>
    have I := (gen_heap_inv hG hP w hw gu lu hK x gamma lam r (m + k)).1
    obtain ⟨-, b, c, -, -⟩ := gen_heap_step hG hP w hw gu lu hK _ _ I
    have hs : genHeapRun G Ps w gu lu x gamma lam r h₀ (m + (k + 1)) =
        Alias.genStep G Ps w gu lu (genHeapRun G Ps w gu lu x gamma lam r h₀ (m + k)) := by
      simp only [genHeapRun, ← add_assoc, Function.iterate_succ_apply']
    rw [I.xOld, I.z] at c
    rw [hs]
    exact ⟨ih.1.trans b, ih.2.then ih.1 c⟩

/-- C121: `GenForwardBackward` updates its own arrays in place.  All arrays that existed before its construction keep
their contents, and the array it returned as `x_final` after `m` updates still has the same contents after any
further updates. -/
theorem C121_gen_forward_backward {S : Type} {K : List (Ref × E)} {G : HOp E} {grad : E → E}
    (hG : Implements K G grad) {Ps : List (HProx E ℝ)} {ps : List (E → ℝ → E)}
    (hP : List.Forall₂ (ImplementsProx K) Ps ps) (w : List ℝ) (hw : w.length = Ps.length)
    (gu lu : Option (S → ℝ → ℝ × S)) {h₀ : Heap E} (hK : Holds K h₀) (x : Ref) (gamma lam : ℝ) (r : S) (m k : ℕ) :
    Unchanged h₀ (genHeapRun G Ps w gu lu x gamma lam r h₀ m).2 ∧
    (∀ q, (genHeapRun G Ps w gu lu x gamma lam r h₀ m).1.xNew = some q →
      rd (genHeapRun G Ps w gu lu x gamma lam r h₀ (m + k)).2 q = rd (genHeapRun G Ps w gu lu x gamma lam r h₀ m).2 q) := by
  refine ⟨(gen_heap_inv hG hP w hw gu lu hK x gamma lam r m).1.unchanged, fun q hq => ?_⟩
  cases m with
  | zero => simp [genHeapRun, Alias.genInit] at hq
  | succ m =>
    have I := (gen_heap_inv hG hP w hw gu lu hK x gamma lam r m).1
    obtain ⟨-, -, -, -, a, ha, la, la', -⟩ := gen_heap_step hG hP w hw gu lu hK _ _ I
    have hs : genHeapRun G Ps w gu lu x gamma lam r h₀ (m + 1) =
        Alias.genStep G Ps w gu lu (genHeapRun G Ps w gu lu x gamma lam r h₀ m) := by
      simp only [genHeapRun, Function.iterate_succ_apply']
    have L := (gen_heap_later hG hP w hw gu lu hK x gamma lam r (m + 1) k).2
    have : a = q := Option.some.inj (ha.symm.trans (by rw [← hq, hs]))
    subst this
    refine L.rd (by rw [hs]; exact la') ?_
    have := I.len
    rw [List.mem_cons, List.mem_range'_1]
    omega

/-- C122: the iterates and the results of `GenForwardBackward` are those of the value model. -/
theorem C122_gen_forward_backward {S : Type} {K : List (Ref × E)} {G : HOp E} {grad : E → E}
    (hG : Implements K G grad) {Ps : List (HProx E ℝ)} {ps : List (E → ℝ → E)}
    (hP : List.Forall₂ (ImplementsProx K) Ps ps) (w : List ℝ) (hw : w.length = Ps.length)
    (gu lu : Option (S → ℝ → ℝ × S)) {h₀ : Heap E} (hK : Holds K h₀) (x : Ref) (gamma lam : ℝ) (r : S) (n : ℕ) :
    genValue (genHeapRun G Ps w gu lu x gamma lam r h₀ n) =
      genAfter grad ps w gu lu (FB.genInit (rd h₀ x) ps.length gamma lam r) n ∧
    (0 < n → ∃ a, (genHeapRun G Ps w gu lu x gamma lam r h₀ n).1.xNew = some a ∧
      rd (genHeapRun G Ps w gu lu x gamma lam r h₀ n).2 a =
        (genAfter grad ps w gu lu (FB.genInit (rd h₀ x) ps.length gamma lam r) n).xOld) := by
  refine ⟨(gen_heap_inv hG hP w hw gu lu hK x gamma lam r n).2, fun hn => ?_⟩
  obtain ⟨m, rfl⟩ : ∃ m, n = m + 1 := ⟨n - 1, by omega⟩
  obtain ⟨I, v⟩ := gen_heap_inv hG hP w hw gu lu hK x gamma lam r m
  obtain ⟨-, -, -, -, a, ha, -, -, va⟩ := gen_heap_step hG hP w hw gu lu hK _ _ I
  have hs : genHeapRun G Ps w gu lu x gamma lam r h₀ (m + 1) =
      Alias.genStep G Ps w gu lu (genHeapRun G Ps w gu lu x gamma lam r h₀ m) := by
    simp only [genHeapRun, Function.iterate_succ_apply']
  rw [hs]
  refine ⟨a, ha, ?_⟩
  rw [va, v]
  rfl

/-! ## `POGM` -/

/-- The values of the attributes. -/
def pogmValue (q : PogmSt × Heap E) : FB.Pogm E :=
  ⟨rd q.2 q.1.uOld, rd q.2 q.1.xOld, rd q.2 q.1.yOld, rd q.2 q.1.z, rd q.2 q.1.gOld, q.1.xi, q.1.sigma, q.1.t⟩

/-- Construction and `n` updates. -/
noncomputable def pogmHeapRun (G : HOp E) (P : HProx E ℝ) (beta sb : ℝ) (u x y z : Ref) (h₀ : Heap E) (n : ℕ) :
    PogmSt × Heap E :=
  (Alias.pogmStep G P beta sb)^[n] (Alias.pogmInit G u x y z h₀)

theorem pogm_heap_step {K : List (Ref × E)} {G : HOp E} {grad : E → E} (hG : Implements K G grad)
    {P : HProx E ℝ} {prox : E → ℝ → E} (hP : ImplementsProx K P prox) (beta sb : ℝ) (s : PogmSt) (h : Heap E)
    (hK : Holds K h) (hu : s.uOld < h.length) (hx : s.xOld < h.length) (hy : s.yOld < h.length)
    (hz : s.z < h.length) (hg : s.gOld < h.length) (hux : s.uOld ≠ s.xOld) (huy : s.uOld ≠ s.yOld)
    (hxy : s.xOld ≠ s.yOld) (hug : s.uOld ≠ s.gOld) (hxg : s.xOld ≠ s.gOld) (hyg : s.yOld ≠ s.gOld)
    (hKu : s.uOld ∉ K.map Prod.fst) (hKx : s.xOld ∉ K.map Prod.fst) (hKy : s.yOld ∉ K.map Prod.fst) :
    (Alias.pogmStep G P beta sb (s, h)).1.uOld = s.uOld ∧ (Alias.pogmStep G P beta sb (s, h)).1.xOld = s.xOld ∧
    (Alias.pogmStep G P beta sb (s, h)).1.yOld = s.yOld ∧ (Alias.pogmStep G P beta sb (s, h)).1.gOld = s.gOld ∧
    h.length ≤ (Alias.pogmStep G P beta sb (s, h)).1.z ∧
    (Alias.pogmStep G P beta sb (s, h)).1.z < (Alias.pogmStep G P beta sb (s, h)).2.length ∧
    UnchangedBut [s.uOld, s.xOld, s.gOld, s.yOld] h (Alias.pogmStep G P beta sb (s, h)).2 ∧
    pogmValue (Alias.pogmStep G P beta sb (s, h)) = FB.pogmStep grad prox beta sb (pogmValue (s, h)) ∧
    (∃ a, (Alias.pogmStep G P beta sb (s, h)).1.xNew = some a ∧ a < (Alias.pogmStep G P beta sb (s, h)).2.length ∧
      (h.length ≤ a ∨ a ∈ K.map Prod.fst) ∧
      (a ≠ s.gOld → rd (Alias.pogmStep G P beta sb (s, h)).2 a =
        (FB.pogmStep grad prox beta sb (pogmValue (s, h))).xOld)) := by
  rcases e1 : G s.xOld h with ⟨g, h1⟩
  obtain ⟨U1, hgn, vg, K1, -⟩ := hG.call hK hx e1
  rcases e2 : alloc h1 (-(beta • rd h1 g) + rd h1 s.xOld) with ⟨u, h2⟩
  obtain ⟨U2, hun, vu, K2, eu⟩ := alloc_call K1 _ e2
  have V2 := U1.trans U2
  have ru : rd h2 u = -(beta • grad (rd h s.xOld)) + rd h s.xOld := by rw [vu, vg, U1.rd hx]
  obtain ⟨tNew, htn⟩ : ∃ t : ℝ, t = 0.5 * (1 + Real.sqrt (1 + 4 * s.t ^ 2)) := ⟨_, rfl⟩
  obtain ⟨tR, htR⟩ : ∃ t : ℝ, t = (s.t - 1) / tNew := ⟨_, rfl⟩
  obtain ⟨sR, hsR⟩ : ∃ t : ℝ, t = s.sigma * s.t / tNew := ⟨_, rfl⟩
  obtain ⟨xi, hxi⟩ : ∃ t : ℝ, t = beta * (1 + tR + sR) := ⟨_, rfl⟩
  rcases e3 : alloc h2 (-((tR * beta / s.xi) • (rd h2 s.xOld - rd h2 s.z)) + rd h2 u + tR • (rd h2 u - rd h2 s.uOld) +
    sR • (rd h2 u - rd h2 s.xOld)) with ⟨z, h3⟩
  obtain ⟨U3, hzn, vz, K3, ez⟩ := alloc_call K2 _ e3
  have V3 := V2.trans U3
  rcases e4 : P z xi h3 with ⟨x, h4⟩
  obtain ⟨U4, hxn, vx, K4, src⟩ := (hP xi).call K3 hzn e4
  have V4 := V3.trans U4
  rcases e5 : alloc h4 ((1 / xi) • (rd h4 z - rd h4 x) + rd h4 g) with ⟨gn, h5⟩
  obtain ⟨U5, hgg, vgg, K5, eg⟩ := alloc_call K4 _ e5
  have V5 := V4.trans U5
  rcases e6 : alloc h5 (-(beta • rd h5 gn) + rd h5 s.xOld) with ⟨y, h6⟩
  obtain ⟨U6, hyn, vy, K6, ey⟩ := alloc_call K5 _ e6
  have V6 := V5.trans U6
  have l2 := V2.len
  have l3 := V3.len
  have l4 := V4.len
  have l5 := V5.len
  have l1 := U1.len
  -- freshness
  have fu : h.length ≤ u := by omega
  have fz : h.length ≤ z := by omega
  have fg : h.length ≤ gn := by omega
  have fy : h.length ≤ y := by omega
  have fx : h.length ≤ x ∨ x ∈ K.map Prod.fst := by
    rcases src with r | r | r
    · left; omega
    · left; omega
    · right; exact r
  have xne : ∀ r, r < h.length → r ∉ K.map Prod.fst → x ≠ r := by
    intro r hr hn e
    rcases fx with f | f
    · omega
    · exact hn (e ▸ f)
  -- values at the end
  have wu : rd h6 u = -(beta • grad (rd h s.xOld)) + rd h s.xOld := by
    rw [(((U3.trans U4).trans U5).trans U6).rd hun, ru]
  have rz3 : rd h3 z = -((tR * beta / s.xi) • (rd h s.xOld - rd h s.z)) +
      (-(beta • grad (rd h s.xOld)) + rd h s.xOld) + tR • ((-(beta • grad (rd h s.xOld)) + rd h s.xOld) - rd h s.uOld) +
      sR • ((-(beta • grad (rd h s.xOld)) + rd h s.xOld) - rd h s.xOld) := by
    rw [vz, ru, V2.rd hx, V2.rd hz, V2.rd hu]
  obtain ⟨zv, hzv⟩ : ∃ t : E, t = rd h3 z := ⟨_, rfl⟩
  have wz : rd h6 z = zv := by rw [((U4.trans U5).trans U6).rd hzn, hzv]
  have rx4 : rd h4 x = prox zv xi := by rw [vx, hzv]
  have wx : rd h6 x = prox zv xi := by rw [(U5.trans U6).rd hxn, rx4]
  have rg5 : rd h5 gn = (1 / xi) • (zv - prox zv xi) + grad (rd h s.xOld) := by
    rw [vgg, U4.rd hzn, ← hzv, rx4, ((U2.trans U3).trans U4).rd hgn, vg]
  obtain ⟨gv, hgv⟩ : ∃ t : E, t = (1 / xi) • (zv - prox zv xi) + grad (rd h s.xOld) := ⟨_, rfl⟩
  have wg : rd h6 gn = gv := by rw [U6.rd hgg, rg5, hgv]
  have wy : rd h6 y = -(beta • gv) + rd h s.xOld := by rw [vy, rg5, V5.rd hx, hgv]
  have hval : FB.pogmStep grad prox beta sb (pogmValue (s, h)) =
      (if inner ℝ (-gv) ((-(beta • gv) + rd h s.xOld) - rd h s.yOld) < 0 then
        ⟨-(beta • grad (rd h s.xOld)) + rd h s.xOld, prox zv xi, -(beta • gv) + rd h s.xOld, zv, gv, xi, 1, 1⟩
      else if inner ℝ gv (rd h s.gOld) < 0 then
        ⟨-(beta • grad (rd h s.xOld)) + rd h s.xOld, prox zv xi, -(beta • gv) + rd h s.xOld, zv, gv, xi, s.sigma * sb, tNew⟩
      else ⟨-(beta • grad (rd h s.xOld)) + rd h s.xOld, prox zv xi, -(beta • gv) + rd h s.xOld, zv, gv, xi, s.sigma, tNew⟩) := by
    rw [hgv, hzv, rz3, hxi, hsR, htR, htn]
    rfl
  -- the final heap
  obtain ⟨p, hp⟩ : ∃ p : ℝ × ℝ, p = (if inner ℝ (-rd h6 gn) (rd h6 y - rd h6 s.yOld) < 0 then ((1 : ℝ), (1 : ℝ))
    else if inner ℝ (rd h6 gn) (rd h6 s.gOld) < 0 then (s.sigma * sb, tNew) else (s.sigma, tNew)) := ⟨_, rfl⟩
  obtain ⟨h7, e7⟩ : ∃ t, t = write h6 s.uOld (rd h6 u) := ⟨_, rfl⟩
  obtain ⟨h8, e8⟩ : ∃ t, t = write h7 s.xOld (rd h7 x) := ⟨_, rfl⟩
  obtain ⟨h9, e9⟩ : ∃ t, t = write h8 s.gOld (rd h8 gn) := ⟨_, rfl⟩
  obtain ⟨h10, e10⟩ : ∃ t, t = write h9 s.yOld (rd h9 y) := ⟨_, rfl⟩
  have hstep : Alias.pogmStep G P beta sb (s, h) =
      (⟨s.uOld, s.xOld, s.yOld, z, s.gOld, some x, xi, p.1, p.2⟩, h10) := by
    rw [e10, e9, e8, e7, hp]
    simp only [Alias.pogmStep, e1, e2, ← htn, ← htR, ← hsR, ← hxi, e3, e4, e5, e6]
  have len7 : h7.length = h6.length := by rw [e7, length_write]
  have len8 : h8.length = h6.length := by rw [e8, length_write, len7]
  have len9 : h9.length = h6.length := by rw [e9, length_write, len8]
  have len10 : h10.length = h6.length := by rw [e10, length_write, len9]
  have l6 := V6.len
  have r7 : ∀ r, r ≠ s.uOld → rd h7 r = rd h6 r := fun r hr => by rw [e7, rd_write_ne hr]
  have r8 : ∀ r, r ≠ s.xOld → rd h8 r = rd h7 r := fun r hr => by rw [e8, rd_write_ne hr]
  have r9 : ∀ r, r ≠ s.gOld → rd h9 r = rd h8 r := fun r hr => by rw [e9, rd_write_ne hr]
  have r10 : ∀ r, r ≠ s.yOld → rd h10 r = rd h9 r := fun r hr => by rw [e10, rd_write_ne hr]
  have fu' : rd h10 s.uOld = rd h6 u := by
    rw [r10 _ huy, r9 _ hug, r8 _ hux, e7, rd_write_self (by omega)]
  have fx' : rd h10 s.xOld = rd h6 x := by
    rw [r10 _ hxy, r9 _ hxg, e8, rd_write_self (by omega), r7 _ (xne _ hu hKu)]
  have fg' : rd h10 s.gOld = rd h6 gn := by
    rw [r10 _ (Ne.symm hyg), e9, rd_write_self (by omega), r8 _ (by omega), r7 _ (by omega)]
  have fy' : rd h10 s.yOld = rd h6 y := by
    have : rd h9 y = rd h6 y := by rw [r9 _ (by omega), r8 _ (by omega), r7 _ (by omega)]
    rw [e10, rd_write_self (by omega), this]
  have fz' : rd h10 z = rd h6 z := by
    rw [r10 _ (by omega), r9 _ (by omega), r8 _ (by omega), r7 _ (by omega)]
  have fxn : x ≠ s.gOld → rd h10 x = rd h6 x := fun hn => by
    rw [r10 _ (xne _ hy hKy), r9 _ hn, r8 _ (xne _ hx hKx), r7 _ (xne _ hu hKu)]
  have hpv : p = (if inner ℝ (-gv) ((-(beta • gv) + rd h s.xOld) - rd h s.yOld) < 0 then ((1 : ℝ), (1 : ℝ))
    else if inner ℝ gv (rd h s.gOld) < 0 then (s.sigma * sb, tNew) else (s.sigma, tNew)) := by
    rw [hp, wg, wy, V6.rd hy, V6.rd hg]
  have xval : (FB.pogmStep grad prox beta sb (pogmValue (s, h))).xOld = prox zv xi := by
    rw [hval]
    split
    · rfl
    · split <;> rfl
  rw [hstep]
  refine ⟨rfl, rfl, rfl, rfl, fz, ?_, ?_, ?_, x, rfl, ?_, fx, ?_⟩
  · have := U3.len
    have := (((U4.trans U5).trans U6)).lt hzn
    rw [len10]
    exact this
  · rw [e10, e9, e8, e7]
    exact ((((UnchangedBut.of V6 _).write (by simp) _).write (by simp) _).write (by simp) _).write (by simp) _
  · rw [hval]
    simp only [pogmValue]
    rw [fu', fx', fg', fy', fz', wu, wx, wg, wy, wz, hpv]
    split
    · rfl
    · split <;> rfl
  · rw [len10]
    exact (U5.trans U6).lt hxn
  · intro hn
    rw [xval]
    simp only
    rw [fxn hn, wx]

/-- The own arrays of a `POGM` object whose gradient operator made a new array during construction. -/
structure PogmInv (h₀ : Heap E) (g : Ref) (s : PogmSt) (h : Heap E) : Prop where
  unchanged : Unchanged h₀ h
  uOld : s.uOld = h₀.length
  xOld : s.xOld = h₀.length + 1
  yOld : s.yOld = h₀.length + 2
  gOld : s.gOld = g
  fresh : h₀.length + 4 ≤ g
  g_lt : g < h.length
  z_lt : s.z < h.length

theorem pogm_heap_next {K : List (Ref × E)} {G : HOp E} {grad : E → E} (hG : Implements K G grad)
    {P : HProx E ℝ} {prox : E → ℝ → E} (hP : ImplementsProx K P prox) (beta sb : ℝ) {h₀ : Heap E} (hK : Holds K h₀)
    {g : Ref} {s : PogmSt} {h : Heap E} (I : PogmInv h₀ g s h) :
    PogmInv h₀ g (Alias.pogmStep G P beta sb (s, h)).1 (Alias.pogmStep G P beta sb (s, h)).2 ∧
    h.length ≤ (Alias.pogmStep G P beta sb (s, h)).2.length ∧
    UnchangedBut [h₀.length, h₀.length + 1, g, h₀.length + 2] h (Alias.pogmStep G P beta sb (s, h)).2 ∧
    pogmValue (Alias.pogmStep G P beta sb (s, h)) = FB.pogmStep grad prox beta sb (pogmValue (s, h)) ∧
    (∃ a, (Alias.pogmStep G P beta sb (s, h)).1.xNew = some a ∧ a < (Alias.pogmStep G P beta sb (s, h)).2.length ∧
      (h.length ≤ a ∨ a < h₀.length) ∧
      rd (Alias.pogmStep G P beta sb (s, h)).2 a = (FB.pogmStep grad prox beta sb (pogmValue (s, h))).xOld) := by
  obtain ⟨V, eu, ex, ey, eg, fr, gl, zl⟩ := I
  have kout : ∀ r, h₀.length ≤ r → r ∉ K.map Prod.fst := fun r hr hm => absurd (hK.lt hm) (not_lt.2 hr)
  obtain ⟨a1, a2, a3, a4, a5, a6, a7, a8, x, b1, b2, b3, b4⟩ := pogm_heap_step hG hP beta sb s h (hK.mono V)
    (by omega) (by omega) (by omega) zl (by omega) (by omega) (by omega) (by omega) (by omega) (by omega) (by omega)
    (kout _ (by omega)) (kout _ (by omega)) (kout _ (by omega))
  have b3' : h.length ≤ x ∨ x < h₀.length := b3.imp_right fun hm => hK.lt hm
  rw [eu, ex, ey, eg] at a7
  have hl : h.length ≤ (Alias.pogmStep G P beta sb (s, h)).2.length := by omega
  refine ⟨⟨a7.unchanged V ?_, a1.trans eu, a2.trans ex, a3.trans ey, a4.trans eg, fr, gl.trans_le hl, a6⟩, hl, a7, a8,
    x, b1, b2, b3', b4 (by omega)⟩
  intro r hr
  simp only [List.mem_cons, List.not_mem_nil, or_false] at hr
  omega

/-- The array `_g_old`: what the gradient operator returned during construction. -/
def pogmG (G : HOp E) (u x y z : Ref) (h₀ : Heap E) : Ref := (Alias.pogmInit G u x y z h₀).1.gOld

theorem pogm_heap_init {K : List (Ref × E)} {G : HOp E} {grad : E → E} (hG : Implements K G grad) {h₀ : Heap E}
    (hK : Holds K h₀) (u x y z : Ref) (hx : x < h₀.length) (hy : y < h₀.length) (hz : z < h₀.length) :
    Unchanged h₀ (Alias.pogmInit G u x y z h₀).2 ∧
    (Alias.pogmInit G u x y z h₀).1.uOld = h₀.length ∧ (Alias.pogmInit G u x y z h₀).1.xOld = h₀.length + 1 ∧
    (Alias.pogmInit G u x y z h₀).1.yOld = h₀.length + 2 ∧ (Alias.pogmInit G u x y z h₀).1.z = h₀.length + 3 ∧
    h₀.length + 3 < (Alias.pogmInit G u x y z h₀).2.length ∧
    pogmG G u x y z h₀ < (Alias.pogmInit G u x y z h₀).2.length ∧
    (pogmG G u x y z h₀ = h₀.length + 1 ∨ h₀.length + 4 ≤ pogmG G u x y z h₀ ∨ pogmG G u x y z h₀ ∈ K.map Prod.fst) ∧
    pogmValue (Alias.pogmInit G u x y z h₀) =
      ⟨rd h₀ u, rd h₀ x, rd h₀ y, rd h₀ z, grad (rd h₀ x), 1, 1, 1⟩ := by
  rcases e1 : alloc h₀ (rd h₀ u) with ⟨uo, h1⟩
  obtain ⟨U1, huo, vuo, K1, q1⟩ := alloc_call hK _ e1
  rcases e2 : alloc h1 (rd h1 x) with ⟨xo, h2⟩
  obtain ⟨U2, hxo, vxo, K2, q2⟩ := alloc_call K1 _ e2
  rcases e3 : alloc h2 (rd h2 y) with ⟨yo, h3⟩
  obtain ⟨U3, hyo, vyo, K3, q3⟩ := alloc_call K2 _ e3
  rcases e4 : alloc h3 (rd h3 z) with ⟨zo, h4⟩
  obtain ⟨U4, hzo, vzo, K4, q4⟩ := alloc_call K3 _ e4
  have hxo4 := (U3.trans U4).lt hxo
  rcases e5 : G xo h4 with ⟨g, h5⟩
  obtain ⟨U5, hg, vg, K5, src⟩ := hG.call K4 hxo4 e5
  have s1 : h1.length = h₀.length + 1 := by
    simp only [alloc, Prod.mk.injEq] at e1; rw [← e1.2]; simp
  have s2 : h2.length = h₀.length + 2 := by
    simp only [alloc, Prod.mk.injEq] at e2; rw [← e2.2]; simp [s1]
  have s3 : h3.length = h₀.length + 3 := by
    simp only [alloc, Prod.mk.injEq] at e3; rw [← e3.2]; simp [s2]
  have s4 : h4.length = h₀.length + 4 := by
    simp only [alloc, Prod.mk.injEq] at e4; rw [← e4.2]; simp [s3]
  have hi : Alias.pogmInit G u x y z h₀ = (⟨uo, xo, yo, zo, g, none, 1, 1, 1⟩, h5) := by
    simp only [Alias.pogmInit, e1, e2, e3, e4, e5]
  have s5 := U5.len
  have W2 := U1.trans U2
  have W3 := W2.trans U3
  have X4 := U4.trans U5
  have X3 := U3.trans X4
  have X2 := U2.trans X3
  simp only [pogmG, hi]
  refine ⟨(W3.trans U4).trans U5, q1, by omega, by omega, by omega, by omega, hg, ?_, ?_⟩
  · rcases src with r | r | r
    · left; omega
    · right; left; omega
    · right; right; exact r
  · simp only [pogmValue]
    rw [X2.rd huo, vuo, X3.rd hxo, vxo, U1.rd hx, X4.rd hyo, vyo, W2.rd hy, U5.rd hzo, vzo, W3.rd hz, vg,
      (U3.trans U4).rd hxo, vxo, U1.rd hx]

theorem pogm_heap_inv {K : List (Ref × E)} {G : HOp E} {grad : E → E} (hG : Implements K G grad)
    {P : HProx E ℝ} {prox : E → ℝ → E} (hP : ImplementsProx K P prox) (beta sb : ℝ) {h₀ : Heap E} (hK : Holds K h₀)
    (u x y z : Ref) (hx : x < h₀.length) (hy : y < h₀.length) (hz : z < h₀.length)
    (fresh : h₀.length + 4 ≤ pogmG G u x y z h₀) (n : ℕ) :
    PogmInv h₀ (pogmG G u x y z h₀) (pogmHeapRun G P beta sb u x y z h₀ n).1 (pogmHeapRun G P beta sb u x y z h₀ n).2 ∧
    pogmValue (pogmHeapRun G P beta sb u x y z h₀ n) =
      pogmAfter grad prox beta sb ⟨rd h₀ u, rd h₀ x, rd h₀ y, rd h₀ z, grad (rd h₀ x), 1, 1, 1⟩ n := by
  induction n with
  | zero =>
    obtain ⟨a, b, c, d, e, f, g, -, v⟩ := pogm_heap_init hG hK u x y z hx hy hz
    exact ⟨⟨a, b, c, d, rfl, fresh, g, by show (Alias.pogmInit G u x y z h₀).1.z < _; rw [e]; exact f⟩, v⟩
  | succ n ih =>
    have hs : pogmHeapRun G P beta sb u x y z h₀ (n + 1) =
        Alias.pogmStep G P beta sb (pogmHeapRun G P beta sb u x y z h₀ n) := by
      simp only [pogmHeapRun, Function.iterate_succ_apply']
    obtain ⟨I, -, -, v, -⟩ := pogm_heap_next hG hP beta sb hK ih.1
    rw [hs]
    exact ⟨I, by rw [v, ih.2]; rfl⟩

theorem pogm_heap_later {K : List (Ref × E)} {G : HOp E} {grad : E → E} (hG : Implements K G grad)
    {P : HProx E ℝ} {prox : E → ℝ → E} (hP : ImplementsProx K P prox) (beta sb : ℝ) {h₀ : Heap E} (hK : Holds K h₀)
    (u x y z : Ref) (hx : x < h₀.length) (hy : y < h₀.length) (hz : z < h₀.length)
    (fresh : h₀.length + 4 ≤ pogmG G u x y z h₀) (m k : ℕ) :
    (pogmHeapRun G P beta sb u x y z h₀ m).2.length ≤ (pogmHeapRun G P beta sb u x y z h₀ (m + k)).2.length ∧
    UnchangedBut [h₀.length, h₀.length + 1, pogmG G u x y z h₀, h₀.length + 2]
      (pogmHeapRun G P beta sb u x y z h₀ m).2 (pogmHeapRun G P beta sb u x y z h₀ (m + k)).2 := by
  induction k with
  | zero => exact ⟨le_rfl, UnchangedBut.refl _ _⟩
  | succ k ih =>
    have I := (pogm_heap_inv hG hP beta sb hK u x y z hx hy hz fresh (m + k)).1
    obtain ⟨-, b, c, -, -⟩ := pogm_heap_next hG hP beta sb hK I
    have hs : pogmHeapRun G P beta sb u x y z h₀ (m + (k + 1)) =
        Alias.pogmStep G P beta sb (pogmHeapRun G P beta sb u x y z h₀ (m + k)) := by
      simp only [pogmHeapRun, ← add_assoc, Function.iterate_succ_apply']
    rw [hs]
    exact ⟨ih.1.trans b, ih.2.then ih.1 c⟩

/-- C121 for `POGM`, under the condition that the gradient operator returned a new array during construction
(`GradBasic` always does): all arrays that existed before construction keep their contents, and the array returned
as `x_final` after `m` updates still has the same contents after any further updates.  Missing: gradient operators
that return an array they keep, or their argument; see `C121_pogm_overwrites_gradient`. -/
theorem C121_pogm_partial {K : List (Ref × E)} {G : HOp E} {grad : E → E} (hG : Implements K G grad)
    {P : HProx E ℝ} {prox : E → ℝ → E} (hP : ImplementsProx K P prox) (beta sb : ℝ) {h₀ : Heap E} (hK : Holds K h₀)
    (u x y z : Ref) (hx : x < h₀.length) (hy : y < h₀.length) (hz : z < h₀.length)
    (fresh : h₀.length + 4 ≤ (Alias.pogmInit G u x y z h₀).1.gOld) (m k : ℕ) :
    Unchanged h₀ (pogmHeapRun G P beta sb u x y z h₀ m).2 ∧
    (∀ q, (pogmHeapRun G P beta sb u x y z h₀ m).1.xNew = some q →
      rd (pogmHeapRun G P beta sb u x y z h₀ (m + k)).2 q = rd (pogmHeapRun G P beta sb u x y z h₀ m).2 q) := by
  refine ⟨(pogm_heap_inv hG hP beta sb hK u x y z hx hy hz fresh m).1.unchanged, fun q hq => ?_⟩
  cases m with
  | zero => simp [pogmHeapRun, Alias.pogmInit] at hq
  | succ m =>
    have I := (pogm_heap_inv hG hP beta sb hK u x y z hx hy hz fresh m).1
    obtain ⟨-, -, -, -, a, ha, la, la', -⟩ := pogm_heap_next hG hP beta sb hK I
    have hs : pogmHeapRun G P beta sb u x y z h₀ (m + 1) =
        Alias.pogmStep G P beta sb (pogmHeapRun G P beta sb u x y z h₀ m) := by
      simp only [pogmHeapRun, Function.iterate_succ_apply']
    have L := (pogm_heap_later hG hP beta sb hK u x y z hx hy hz fresh (m + 1) k).2
    have : a = q := Option.some.inj (ha.symm.trans (by rw [← hq, hs]))
    subst this
    refine L.rd (by rw [hs]; exact la) ?_
    have h1 := I.g_lt
    have h2 := I.fresh
    simp only [List.mem_cons, List.not_mem_nil, or_false]
    omega

/-- C122 for `POGM`, under the same condition: the iterates and the results are those of the value model. -/
theorem C122_pogm_partial {K : List (Ref × E)} {G : HOp E} {grad : E → E} (hG : Implements K G grad)
    {P : HProx E ℝ} {prox : E → ℝ → E} (hP : ImplementsProx K P prox) (beta sb : ℝ) {h₀ : Heap E} (hK : Holds K h₀)
    (u x y z : Ref) (hx : x < h₀.length) (hy : y < h₀.length) (hz : z < h₀.length)
    (fresh : h₀.length + 4 ≤ (Alias.pogmInit G u x y z h₀).1.gOld) (n : ℕ) :
    pogmValue (pogmHeapRun G P beta sb u x y z h₀ n) =
      pogmAfter grad prox beta sb ⟨rd h₀ u, rd h₀ x, rd h₀ y, rd h₀ z, grad (rd h₀ x), 1, 1, 1⟩ n ∧
    (0 < n → ∃ a, (pogmHeapRun G P beta sb u x y z h₀ n).1.xNew = some a ∧
      rd (pogmHeapRun G P beta sb u x y z h₀ n).2 a =
        (pogmAfter grad prox beta sb ⟨rd h₀ u, rd h₀ x, rd h₀ y, rd h₀ z, grad (rd h₀ x), 1, 1, 1⟩ n).xOld) := by
  refine ⟨(pogm_heap_inv hG hP beta sb hK u x y z hx hy hz fresh n).2, fun hn => ?_⟩
  obtain ⟨m, rfl⟩ : ∃ m, n = m + 1 := ⟨n - 1, by omega⟩
  obtain ⟨I, v⟩ := pogm_heap_inv hG hP beta sb hK u x y z hx hy hz fresh m
  obtain ⟨-, -, -, -, a, ha, -, -, va⟩ := pogm_heap_next hG hP beta sb hK I
  have hs : pogmHeapRun G P beta sb u x y z h₀ (m + 1) =
      Alias.pogmStep G P beta sb (pogmHeapRun G P beta sb u x y z h₀ m) := by
    simp only [pogmHeapRun, Function.iterate_succ_apply']
  rw [hs]
  refine ⟨a, ha, ?_⟩
  rw [va, v]
  rfl

/-- C121, refuted for `POGM`: if the gradient operator returns an array it keeps (for example the constant gradient
of a linear function), the first update overwrites that array with the composite gradient: its contents change
whenever the composite gradient differs from the gradient. -/
theorem C121_pogm_overwrites_gradient {K : List (Ref × E)} {G : HOp E} {grad : E → E} (hG : Implements K G grad)
    {P : HProx E ℝ} {prox : E → ℝ → E} (hP : ImplementsProx K P prox) (beta sb : ℝ) {h₀ : Heap E} (hK : Holds K h₀)
    (u x y z : Ref) (hx : x < h₀.length) (hy : y < h₀.length) (hz : z < h₀.length)
    (kept : (Alias.pogmInit G u x y z h₀).1.gOld ∈ K.map Prod.fst) :
    rd h₀ (Alias.pogmInit G u x y z h₀).1.gOld = grad (rd h₀ x) ∧
    rd (pogmHeapRun G P beta sb u x y z h₀ 1).2 (Alias.pogmInit G u x y z h₀).1.gOld =
      (FB.pogmStep grad prox beta sb ⟨rd h₀ u, rd h₀ x, rd h₀ y, rd h₀ z, grad (rd h₀ x), 1, 1, 1⟩).gOld := by
  obtain ⟨V, b, c, d, e, f, g, -, v⟩ := pogm_heap_init hG hK u x y z hx hy hz
  have hk := hK.lt kept
  have kout : ∀ r, h₀.length ≤ r → r ∉ K.map Prod.fst := fun r hr hm => absurd (hK.lt hm) (not_lt.2 hr)
  have hg0 : rd (Alias.pogmInit G u x y z h₀).2 (Alias.pogmInit G u x y z h₀).1.gOld = grad (rd h₀ x) :=
    congrArg FB.Pogm.gOld v
  constructor
  · rw [← hg0, V.rd hk]
  · obtain ⟨a1, a2, a3, a4, -, -, -, a8, -⟩ := pogm_heap_step hG hP beta sb (Alias.pogmInit G u x y z h₀).1
      (Alias.pogmInit G u x y z h₀).2 (hK.mono V) (by omega) (by omega) (by omega) (by omega) (by omega) (by omega)
      (by omega) (by omega) (by omega) (by omega) (by omega) (kout _ (by omega)) (kout _ (by omega)) (kout _ (by omega))
    have := congrArg FB.Pogm.gOld a8
    rw [v] at this
    rw [← this]
    simp only [pogmValue]
    rw [a4]
    rfl

/-- The operator's array really changes whenever the first proximity step does something. -/
theorem C121_pogm_changes_kept_gradient {K : List (Ref × E)} {G : HOp E} {grad : E → E} (hG : Implements K G grad)
    {P : HProx E ℝ} {prox : E → ℝ → E} (hP : ImplementsProx K P prox) (beta sb : ℝ) {h₀ : Heap E} (hK : Holds K h₀)
    (u x y z : Ref) (hx : x < h₀.length) (hy : y < h₀.length) (hz : z < h₀.length)
    (kept : (Alias.pogmInit G u x y z h₀).1.gOld ∈ K.map Prod.fst) (hb : 0 < beta)
    (hmove : ∀ w xi, 0 < xi → prox w xi ≠ w) :
    rd (pogmHeapRun G P beta sb u x y z h₀ 1).2 (Alias.pogmInit G u x y z h₀).1.gOld ≠
      rd h₀ (Alias.pogmInit G u x y z h₀).1.gOld := by
  obtain ⟨a, b⟩ := C121_pogm_overwrites_gradient hG hP beta sb hK u x y z hx hy hz kept
  rw [a, b]
  have key : ∀ s : FB.Pogm E, s.t = 1 → s.sigma = 1 → s.gOld = grad s.xOld →
      (FB.pogmStep grad prox beta sb s).gOld ≠ s.gOld := by
    intro s ht hs hg
    have hpos : 0 < beta * (1 + (s.t - 1) / (0.5 * (1 + Real.sqrt (1 + 4 * s.t ^ 2))) +
        s.sigma * s.t / (0.5 * (1 + Real.sqrt (1 + 4 * s.t ^ 2)))) := by
      rw [ht, hs]
      have : 0 < Real.sqrt (1 + 4 * 1 ^ 2) := Real.sqrt_pos.2 (by norm_num)
      have : (0 : ℝ) < 1 * 1 / (0.5 * (1 + Real.sqrt (1 + 4 * 1 ^ 2))) := by positivity
      rw [sub_self, zero_div]
      apply mul_pos hb
      linarith
    have hval : (FB.pogmStep grad prox beta sb s).gOld = (1 / (beta * (1 + (s.t - 1) / (0.5 * (1 + Real.sqrt (1 + 4 * s.t ^ 2))) +
        s.sigma * s.t / (0.5 * (1 + Real.sqrt (1 + 4 * s.t ^ 2)))))) • ((FB.pogmStep grad prox beta sb s).z -
          prox (FB.pogmStep grad prox beta sb s).z (beta * (1 + (s.t - 1) / (0.5 * (1 + Real.sqrt (1 + 4 * s.t ^ 2))) +
        s.sigma * s.t / (0.5 * (1 + Real.sqrt (1 + 4 * s.t ^ 2)))))) + grad s.xOld := by
      unfold FB.pogmStep
      dsimp only
      split_ifs <;> rfl
    rw [hval, hg]
    intro hc
    have h1 := add_eq_right.1 hc
    rcases smul_eq_zero.1 h1 with h2 | h2
    · exact (one_div_pos.2 hpos).ne' h2
    · exact hmove _ _ hpos (sub_eq_zero.1 h2).symm
  exact key _ rfl rfl rfl

/-- The array program that returns its argument. -/
def sameArray : HOp E := fun r h => (r, h)

/-- The proximity operator that returns its argument (`IdentityProx`, proximity.py:81-98). -/
def sameProx : HProx E ℝ := fun r _ h => (r, h)

theorem sameArray_implements (K : List (Ref × E)) : Implements K sameArray (fun x : E => x) where
  value _ _ _ hr := getElem?_of_lt hr
  source _ _ _ _ := Or.inl rfl
  keeps h _ _ _ := Unchanged.rfl' h

theorem sameProx_implements (K : List (Ref × E)) : ImplementsProx K sameProx (fun (x : E) (_ : ℝ) => x) :=
  fun _ => sameArray_implements K

theorem pogm_stuck_inv (beta sb : ℝ) (h₀ : Heap E) (u x y z : Ref) (hx : x < h₀.length) (hy : y < h₀.length)
    (hz : z < h₀.length) (n : ℕ) :
    (pogmHeapRun sameArray sameProx beta sb u x y z h₀ n).1.uOld = h₀.length ∧
    (pogmHeapRun sameArray sameProx beta sb u x y z h₀ n).1.xOld = h₀.length + 1 ∧
    (pogmHeapRun sameArray sameProx beta sb u x y z h₀ n).1.yOld = h₀.length + 2 ∧
    (pogmHeapRun sameArray sameProx beta sb u x y z h₀ n).1.gOld = h₀.length + 1 ∧
    h₀.length + 2 < (pogmHeapRun sameArray sameProx beta sb u x y z h₀ n).2.length ∧
    rd (pogmHeapRun sameArray sameProx beta sb u x y z h₀ n).2
      (pogmHeapRun sameArray sameProx beta sb u x y z h₀ n).1.xOld = rd h₀ x := by
  induction n with
  | zero =>
    obtain ⟨V, b, c, d, e, f, g, -, v⟩ := pogm_heap_init (sameArray_implements []) (h₀ := h₀)
      (fun p hp => by cases hp) u x y z hx hy hz
    exact ⟨b, c, d, c, by show h₀.length + 2 < (Alias.pogmInit sameArray u x y z h₀).2.length; omega,
      congrArg FB.Pogm.xOld v⟩
  | succ n ih =>
    have hs : pogmHeapRun sameArray sameProx beta sb u x y z h₀ (n + 1) =
        Alias.pogmStep sameArray sameProx beta sb (pogmHeapRun sameArray sameProx beta sb u x y z h₀ n) := by
      simp only [pogmHeapRun, Function.iterate_succ_apply']
    rw [hs]
    generalize pogmHeapRun sameArray sameProx beta sb u x y z h₀ n = q at ih ⊢
    obtain ⟨s, h⟩ := q
    obtain ⟨i1, i2, i3, i4, i5, i6⟩ := ih
    simp only at i1 i2 i3 i4 i5 i6
    simp only [Alias.pogmStep, sameArray, sameProx, alloc, sub_self, smul_zero, zero_add]
    refine ⟨i1, i2, i3, i4, ?_, ?_⟩
    · simp only [length_write, List.length_append, List.length_singleton]; omega
    · have hne : s.xOld ≠ s.yOld := by omega
      rw [rd_write_ne hne]
      have hgx : s.gOld = s.xOld := by rw [i4, i2]
      rw [hgx, rd_write_self (by simp only [length_write, List.length_append, List.length_singleton]; omega),
        rd_write_ne (by simp only [List.length_append, List.length_singleton]; omega),
        rd_write_ne (by simp only [List.length_append, List.length_singleton]; omega)]
      have rb : ∀ (h' : Heap E) (v w : E), rd (h' ++ [v] ++ [w]) h'.length = v := by
        intro h' v w
        rw [(unchanged_alloc (h' ++ [v]) w).rd (by simp), rd_alloc]
      have ra : ∀ (h' : Heap E) (v : E), h.length ≤ h'.length → rd h' s.xOld = rd h₀ x → rd (h' ++ [v]) s.xOld = rd h₀ x := by
        intro h' v hl hv
        rw [(unchanged_alloc h' v).rd (by omega), hv]
      rw [rb]
      exact ra _ _ (by simp only [List.length_append, List.length_singleton]; omega) (ra _ _ le_rfl i6)

/-- C122, refuted for `POGM`: with a gradient operator that returns its argument (the gradient of `½‖x‖²`) and no
regulariser, the arrays `_x_old` and `_g_old` are one object, and the iterate stays at the initial array for ever,
while the algorithm should already have left it after one update. -/
theorem C122_pogm_stuck (beta sb : ℝ) (hb : 0 < beta) (h₀ : Heap E) (u x y z : Ref) (hx : x < h₀.length)
    (hy : y < h₀.length) (hz : z < h₀.length) (h0 : rd h₀ x ≠ 0) :
    (∀ n, rd (pogmHeapRun sameArray sameProx beta sb u x y z h₀ n).2
      (pogmHeapRun sameArray sameProx beta sb u x y z h₀ n).1.xOld = rd h₀ x) ∧
    (pogmAfter (fun x : E => x) (fun x _ => x) beta sb
      ⟨rd h₀ u, rd h₀ x, rd h₀ y, rd h₀ z, rd h₀ x, 1, 1, 1⟩ 1).xOld ≠ rd h₀ x := by
  refine ⟨fun n => (pogm_stuck_inv beta sb h₀ u x y z hx hy hz n).2.2.2.2.2, ?_⟩
  have key : ∀ a b c d : E, ∃ r : ℝ, 0 < r ∧ (FB.pogmStep (fun x : E => x) (fun x _ => x) beta sb
      ⟨a, b, c, d, b, 1, 1, 1⟩).xOld = b - (beta + r * beta) • b := by
    intro a b c d
    refine ⟨1 * 1 / (0.5 * (1 + Real.sqrt (1 + 4 * 1 ^ 2))), by positivity, ?_⟩
    have : (FB.pogmStep (fun x : E => x) (fun x _ => x) beta sb ⟨a, b, c, d, b, 1, 1, 1⟩).xOld =
        -(((1 - 1) / (0.5 * (1 + Real.sqrt (1 + 4 * 1 ^ 2))) * beta / 1) • (b - d)) + (-(beta • b) + b) +
        ((1 - 1) / (0.5 * (1 + Real.sqrt (1 + 4 * 1 ^ 2)))) • ((-(beta • b) + b) - a) +
        (1 * 1 / (0.5 * (1 + Real.sqrt (1 + 4 * 1 ^ 2)))) • ((-(beta • b) + b) - b) := by
      simp only [FB.pogmStep]
      split
      · rfl
      · split <;> rfl
    rw [this]
    generalize (1 * 1 / (0.5 * (1 + Real.sqrt (1 + 4 * 1 ^ 2))) : ℝ) = t
    simp only [sub_self, zero_div, zero_mul, zero_smul, neg_zero, zero_add]
    module
  obtain ⟨r, hr, e⟩ := key (rd h₀ u) (rd h₀ x) (rd h₀ y) (rd h₀ z)
  simp only [pogmAfter]
  rw [e]
  intro hc
  have : (beta + r * beta) • rd h₀ x = 0 := by
    rw [sub_eq_self] at hc; exact hc
  rcases smul_eq_zero.1 this with h | h
  · have : 0 < beta + r * beta := by positivity
    linarith
  · exact h0 h

/-! ## `FastADMM` -/

/-- The values of the attributes; in the value model `none` stands for an extrapolated variable that is the same
object as the current one. -/
def fastValue (q : FastSt × Heap E) : Admm.Fast E :=
  ⟨rd q.2 q.1.uOld, rd q.2 q.1.vOld, rd q.2 q.1.muOld,
    if q.1.vHat = q.1.vOld then none else some (rd q.2 q.1.vHat),
    if q.1.muHat = q.1.muOld then none else some (rd q.2 q.1.muHat),
    q.1.cOld, q.1.cNew, q.1.alphaOld, q.1.alphaNew, q.1.eta, q.1.tau⟩

/-- Construction and `n` updates. -/
noncomputable def fastHeapRun (O : AdmmOps E) (u v mu : Ref) (alpha eta tau : ℝ) (h₀ : Heap E) : ℕ → Py (FastSt × Heap E)
  | 0 => .ok (Alias.fastInit O u v mu alpha eta tau h₀)
  | n + 1 =>
    match fastHeapRun O u v mu alpha eta tau h₀ n with
    | .error e => .error e
    | .ok q => Alias.fastStep O q

/-- The own arrays of a `FastADMM` object. -/
structure FastInv (h₀ : Heap E) (s : FastSt) (h : Heap E) : Prop where
  unchanged : Unchanged h₀ h
  uOld : s.uOld = h₀.length
  vOld : s.vOld = h₀.length + 2
  muOld : s.muOld = h₀.length + 5
  vHat : s.vHat = s.vOld ∨ h₀.length + 6 ≤ s.vHat
  muHat : s.muHat = s.muOld ∨ h₀.length + 6 ≤ s.muHat
  vHat_lt : s.vHat < h.length
  muHat_lt : s.muHat < h.length
  len : h₀.length + 5 < h.length

/-- What an update that does not raise gives. -/
structure FastNext (K : List (Ref × E)) (O : AdmmOps E) (p : Admm.Problem E E) (h₀ : Heap E) (s : FastSt) (h : Heap E) (t : FastSt)
    (h' : Heap E) (w : Admm.Fast E) : Prop where
  inv : FastInv h₀ t h'
  len : h.length ≤ h'.length
  but : UnchangedBut [h₀.length, h₀.length + 2, h₀.length + 5] h h'
  value : fastValue (t, h') = w
  u : rd h' t.uNew = w.u
  v : rd h' t.vNew = w.v
  u_lt : t.uNew < h'.length
  v_lt : t.vNew < h'.length
  u_src : t.uNew = s.uOld ∨ h.length ≤ t.uNew ∨ t.uNew ∈ K.map Prod.fst
  v_src : t.vNew = s.vHat ∨ h.length ≤ t.vNew ∨ t.vNew ∈ K.map Prod.fst
  u_own : NotFirst O.optH → t.uNew ≠ s.uOld
  v_own : NotFirst O.optG → t.vNew ≠ s.vHat
  opt : ∃ ob g, t.uNew = (O.optH s.uOld ob g).1 ∧ rd g s.uOld = rd h s.uOld ∧
    rd g ob = p.B (rd h s.vHat) + rd h s.uOld - p.b

theorem fast_heap_step {K : List (Ref × E)} {O : AdmmOps E} {p : Admm.Problem E E} {h₀ : Heap E}
    (hO : AdmmImpl K O p h₀) (hK : Holds K h₀) (s : FastSt) (h : Heap E) (I : FastInv h₀ s h) :
    (∀ e, Alias.fastStep O (s, h) = .error e → Admm.fastStep p false (fastValue (s, h)) = .error e) ∧
    (∀ t h', Alias.fastStep O (s, h) = .ok (t, h') → ∃ w, Admm.fastStep p false (fastValue (s, h)) = .ok w ∧
      FastNext K O p h₀ s h t h' w) := by
  obtain ⟨V, eu, ev, em, evh, emh, vhl, mhl, hl⟩ := I
  have Kh := hK.mono V
  have kout : ∀ r, r ∈ K.map Prod.fst → r < h₀.length := fun r hm => hK.lt hm
  have hb := V.lt hO.b_lt
  have vb : rd h O.b = p.b := by rw [V.rd hO.b_lt, hO.b]
  have hu : s.uOld < h.length := by omega
  have hv : s.vOld < h.length := by omega
  have hm : s.muOld < h.length := by omega
  rcases e1 : O.B s.vHat h with ⟨bv, h1⟩
  obtain ⟨U1, hbv, vbv, K1, -⟩ := hO.B.call Kh vhl e1
  rcases e2 : alloc h1 (rd h1 bv + rd h1 s.uOld - rd h1 O.b) with ⟨ob, h2⟩
  obtain ⟨U2, hob, vob, K2, eob⟩ := alloc_call K1 _ e2
  have V2 := U1.trans U2
  rcases e3 : O.optH s.uOld ob h2 with ⟨u, h3⟩
  obtain ⟨U3, hun, vun, K3, src3⟩ := hO.optH.call K2 (V2.lt hu) hob e3
  rcases e4 : O.A u h3 with ⟨tmp, h4⟩
  obtain ⟨U4, ht, vt, K4, -⟩ := hO.A.call K3 hun e4
  rcases e5 : alloc h4 (rd h4 tmp + rd h4 s.uOld - rd h4 O.b) with ⟨ob', h5⟩
  obtain ⟨U5, hob', vob', K5, eob'⟩ := alloc_call K4 _ e5
  have V4 := (V2.trans U3).trans U4
  have V5 := V4.trans U5
  rcases e6 : O.optG s.vHat ob' h5 with ⟨v, h6⟩
  obtain ⟨U6, hvn, vvn, K6, src6⟩ := hO.optG.call K5 (V5.lt vhl) hob' e6
  rcases e7 : O.B v h6 with ⟨bv', h7⟩
  obtain ⟨U7, hbv', vbv', K7, -⟩ := hO.B.call K6 hvn e7
  have V6 := V5.trans U6
  have V7 := V6.trans U7
  rcases e8 : alloc h7 (rd h7 s.muHat + (rd h7 tmp + rd h7 bv' - rd h7 O.b)) with ⟨mu, h8⟩
  obtain ⟨U8, hmu, vmu, K8, emu⟩ := alloc_call K7 _ e8
  have V8 := V7.trans U8
  rcases e9 : alloc h8 (rd h8 v - rd h8 s.vHat) with ⟨dv, h9⟩
  obtain ⟨U9, hdv, vdv, K9, -⟩ := alloc_call K8 _ e9
  rcases e10 : O.B dv h9 with ⟨bd, h10⟩
  obtain ⟨U10, hbd, vbd, K10, -⟩ := hO.B.call K9 hdv e10
  have V10 := (V8.trans U9).trans U10
  have X6 := ((U7.trans U8).trans U9).trans U10
  have X3 := ((U4.trans U5).trans U6).trans X6
  have X8 := U9.trans U10
  -- lengths
  have l1 := U1.len
  have l2 := V2.len
  have l4 := V4.len
  have l7 := V7.len
  have l10 := V10.len
  -- values of the value model
  have gv : (fastValue (s, h)).vHat.getD (rd h s.vOld) = rd h s.vHat := by
    simp only [fastValue]
    split
    · rename_i e; rw [e]; rfl
    · rfl
  have gm : (fastValue (s, h)).muHat.getD (rd h s.muOld) = rd h s.muHat := by
    simp only [fastValue]
    split
    · rename_i e; rw [e]; rfl
    · rfl
  obtain ⟨uu, huu⟩ : ∃ t, t = p.optH (rd h s.uOld) (p.B (rd h s.vHat) + rd h s.uOld - p.b) := ⟨_, rfl⟩
  obtain ⟨vv, hvv⟩ : ∃ t, t = p.optG (rd h s.vHat) (p.A uu + rd h s.uOld - p.b) := ⟨_, rfl⟩
  obtain ⟨mm, hmm⟩ : ∃ t, t = rd h s.muHat + (p.A uu + p.B vv - p.b) := ⟨_, rfl⟩
  obtain ⟨cc, hcc⟩ : ∃ t, t = ‖mm - rd h s.muHat‖ + s.tau * ‖p.B (vv - rd h s.vHat)‖ := ⟨_, rfl⟩
  have ru : rd h3 u = uu := by rw [vun, V2.rd hu, vob, vbv, U1.rd hu, U1.rd hb, vb, huu]
  have rt : rd h4 tmp = p.A uu := by rw [vt, ru]
  have rv : rd h6 v = vv := by rw [vvn, V5.rd vhl, vob', V4.rd hu, V4.rd hb, vb, rt, hvv]
  have rm : rd h8 mu = mm := by
    rw [vmu, V7.rd mhl, V7.rd hb, vb, vbv', rv, ((U5.trans U6).trans U7).rd ht, rt, hmm]
  have ru10 : rd h10 u = uu := by rw [X3.rd hun, ru]
  have rv10 : rd h10 v = vv := by rw [X6.rd hvn, rv]
  have rm10 : rd h10 mu = mm := by rw [X8.rd hmu, rm]
  have rb10 : rd h10 bd = p.B (vv - rd h s.vHat) := by
    rw [vbd, vdv, (U7.trans U8).rd hvn, rv, V8.rd vhl]
  have rc : ‖rd h10 mu - rd h10 s.muHat‖ + s.tau * ‖rd h10 bd‖ = cc := by
    rw [rm10, V10.rd mhl, rb10, hcc]
  have hval : Admm.fastStep p false (fastValue (s, h)) =
      (if Admm.below cc s.eta s.cOld then
        .ok { fastValue (s, h) with
          u := uu, v := vv, mu := mm
          vHat := some (vv + ((1 + Real.sqrt (1 + 4 * s.alphaOld ^ 2) - 1) / s.alphaOld) • (vv - rd h s.vOld))
          muHat := some (mm + ((1 + Real.sqrt (1 + 4 * s.alphaOld ^ 2) - 1) / s.alphaOld) • (mm - rd h s.muOld))
          cNew := some cc, alphaNew := 1 + Real.sqrt (1 + 4 * s.alphaOld ^ 2) }
      else if s.eta = 0 then .error .zeroDivisionError
      else .ok { fastValue (s, h) with
          u := uu, v := vv, mu := mm, vHat := none, muHat := none
          cNew := s.cOld.map (· / s.eta), alphaNew := 1 }) := by
    have h1 : (fastValue (s, h)).vHat.getD (fastValue (s, h)).v = rd h s.vHat := gv
    have h2 : (fastValue (s, h)).muHat.getD (fastValue (s, h)).mu = rd h s.muHat := gm
    simp only [Admm.fastStep, h1, h2]
    have q1 : (fastValue (s, h)).u = rd h s.uOld := rfl
    have q2 : (fastValue (s, h)).tau = s.tau := rfl
    have q3 : (fastValue (s, h)).eta = s.eta := rfl
    have q4 : (fastValue (s, h)).cOld = s.cOld := rfl
    have q5 : (fastValue (s, h)).alphaOld = s.alphaOld := rfl
    have q6 : (fastValue (s, h)).v = rd h s.vOld := rfl
    have q7 : (fastValue (s, h)).mu = rd h s.muOld := rfl
    rw [q1, q2, q3, q4, q5, q6, q7, ← huu, ← hvv, ← hmm, ← hcc]
    by_cases c1 : Admm.below cc s.eta s.cOld = true
    · simp [c1]
    · by_cases c2 : s.eta = 0
      · simp only [if_neg c1, if_pos c2]
      · simp [c1, c2]
  -- sources
  have su : u = s.uOld ∨ h.length ≤ u ∨ u ∈ K.map Prod.fst := by
    rcases src3 with r | r | r | r
    · exact Or.inl r
    · right; left; omega
    · right; left; omega
    · exact Or.inr (Or.inr r)
  have sv : v = s.vHat ∨ h.length ≤ v ∨ v ∈ K.map Prod.fst := by
    have l5 := V5.len
    rcases src6 with r | r | r | r
    · exact Or.inl r
    · right; left; omega
    · right; left; omega
    · exact Or.inr (Or.inr r)
  have nvu : v ≠ s.uOld := by
    rcases sv with r | r | r
    · rcases evh with q | q <;> omega
    · omega
    · have := kout _ r; omega
  have nvm : v ≠ s.muOld := by
    rcases sv with r | r | r
    · rcases evh with q | q <;> omega
    · omega
    · have := kout _ r; omega
  have nuv : u ≠ s.vOld := by
    rcases su with r | r | r
    · omega
    · omega
    · have := kout _ r; omega
  have num : u ≠ s.muOld := by
    rcases su with r | r | r
    · omega
    · omega
    · have := kout _ r; omega
  have ou : NotFirst O.optH → u ≠ s.uOld := fun hn => by
    have := hn h2 s.uOld ob (V2.lt hu) hob (by omega)
    rwa [e3] at this
  have ov : NotFirst O.optG → v ≠ s.vHat := fun hn => by
    have := hn h5 s.vHat ob' (V5.lt vhl) hob' (by omega)
    rwa [e6] at this
  have oo : ∃ ob g, u = (O.optH s.uOld ob g).1 ∧ rd g s.uOld = rd h s.uOld ∧
      rd g ob = p.B (rd h s.vHat) + rd h s.uOld - p.b :=
    ⟨ob, h2, by rw [e3], V2.rd hu, by rw [vob, vbv, U1.rd hu, U1.rd hb, vb]⟩
  -- the three writes
  have fin : ∀ H : Heap E, Unchanged h10 H →
      (write (write (write H s.uOld (rd H u)) s.vOld (rd (write H s.uOld (rd H u)) v)) s.muOld
        (rd (write (write H s.uOld (rd H u)) s.vOld (rd (write H s.uOld (rd H u)) v)) mu)).length = H.length ∧
      UnchangedBut [h₀.length, h₀.length + 2, h₀.length + 5] h
        (write (write (write H s.uOld (rd H u)) s.vOld (rd (write H s.uOld (rd H u)) v)) s.muOld
        (rd (write (write H s.uOld (rd H u)) s.vOld (rd (write H s.uOld (rd H u)) v)) mu)) ∧
      rd (write (write (write H s.uOld (rd H u)) s.vOld (rd (write H s.uOld (rd H u)) v)) s.muOld
        (rd (write (write H s.uOld (rd H u)) s.vOld (rd (write H s.uOld (rd H u)) v)) mu)) s.uOld = uu ∧
      rd (write (write (write H s.uOld (rd H u)) s.vOld (rd (write H s.uOld (rd H u)) v)) s.muOld
        (rd (write (write H s.uOld (rd H u)) s.vOld (rd (write H s.uOld (rd H u)) v)) mu)) s.vOld = vv ∧
      rd (write (write (write H s.uOld (rd H u)) s.vOld (rd (write H s.uOld (rd H u)) v)) s.muOld
        (rd (write (write H s.uOld (rd H u)) s.vOld (rd (write H s.uOld (rd H u)) v)) mu)) s.muOld = mm ∧
      rd (write (write (write H s.uOld (rd H u)) s.vOld (rd (write H s.uOld (rd H u)) v)) s.muOld
        (rd (write (write H s.uOld (rd H u)) s.vOld (rd (write H s.uOld (rd H u)) v)) mu)) u = uu ∧
      rd (write (write (write H s.uOld (rd H u)) s.vOld (rd (write H s.uOld (rd H u)) v)) s.muOld
        (rd (write (write H s.uOld (rd H u)) s.vOld (rd (write H s.uOld (rd H u)) v)) mu)) v = vv ∧
      (∀ r, r ≠ s.uOld → r ≠ s.vOld → r ≠ s.muOld →
        rd (write (write (write H s.uOld (rd H u)) s.vOld (rd (write H s.uOld (rd H u)) v)) s.muOld
        (rd (write (write H s.uOld (rd H u)) s.vOld (rd (write H s.uOld (rd H u)) v)) mu)) r = rd H r) := by
    intro H hH
    have lH := hH.len
    have huH : s.uOld < H.length := by omega
    have hvH : s.vOld < H.length := by omega
    have hmH : s.muOld < H.length := by omega
    have a1 : rd H u = uu := by rw [hH.rd (X3.lt hun), ru10]
    have a2 : rd (write H s.uOld (rd H u)) v = vv := by rw [rd_write_ne nvu, hH.rd (X6.lt hvn), rv10]
    have nmu : mu ≠ s.uOld := by omega
    have nmv : mu ≠ s.vOld := by omega
    have a3 : rd (write (write H s.uOld (rd H u)) s.vOld (rd (write H s.uOld (rd H u)) v)) mu = mm := by
      rw [rd_write_ne nmv, rd_write_ne nmu, hH.rd (X8.lt hmu), rm10]
    rw [a3, a2, a1]
    refine ⟨by simp only [length_write], ?_, ?_, ?_, ?_, ?_, ?_, ?_⟩
    · refine UnchangedBut.write (UnchangedBut.write (UnchangedBut.write ?_ ?_ _) ?_ _) ?_ _
      · exact UnchangedBut.of (V10.trans hH) _
      · simp [eu]
      · simp [ev]
      · simp [em]
    · rw [rd_write_ne (by omega), rd_write_ne (by omega), rd_write_self huH]
    · rw [rd_write_ne (by omega), rd_write_self (by rw [length_write]; exact hvH)]
    · rw [rd_write_self (by simp only [length_write]; exact hmH)]
    · rw [rd_write_ne num, rd_write_ne nuv]
      by_cases c : u = s.uOld
      · rw [c, rd_write_self huH]
      · rw [rd_write_ne c, a1]
    · rw [rd_write_ne nvm]
      by_cases c : v = s.vOld
      · rw [c, rd_write_self (by rw [length_write]; exact hvH)]
      · rw [rd_write_ne c, rd_write_ne nvu, hH.rd (X6.lt hvn), rv10]
    · intro r r1 r2 r3
      rw [rd_write_ne r3, rd_write_ne r2, rd_write_ne r1]
  by_cases c1 : Admm.below cc s.eta s.cOld = true
  · -- accepted
    rcases e11 : alloc h10 (rd h10 v + ((1 + Real.sqrt (1 + 4 * s.alphaOld ^ 2) - 1) / s.alphaOld) •
      (rd h10 v - rd h10 s.vOld)) with ⟨vh, h11⟩
    obtain ⟨U11, hvh, vvh, K11, evh'⟩ := alloc_call K10 _ e11
    rcases e12 : alloc h11 (rd h11 mu + ((1 + Real.sqrt (1 + 4 * s.alphaOld ^ 2) - 1) / s.alphaOld) •
      (rd h11 mu - rd h11 s.muOld)) with ⟨mh, h12⟩
    obtain ⟨U12, hmh, vmh, K12, emh'⟩ := alloc_call K11 _ e12
    obtain ⟨f0, f1, f2, f3, f4, f5, f6, f7⟩ := fin h12 (U11.trans U12)
    have hstep : Alias.fastStep O (s, h) = .ok
        (⟨s.uOld, u, s.vOld, v, s.muOld, mu, vh, mh, s.cOld, some cc, s.alphaOld,
          1 + Real.sqrt (1 + 4 * s.alphaOld ^ 2), s.eta, s.tau⟩,
          write (write (write h12 s.uOld (rd h12 u)) s.vOld (rd (write h12 s.uOld (rd h12 u)) v)) s.muOld
            (rd (write (write h12 s.uOld (rd h12 u)) s.vOld (rd (write h12 s.uOld (rd h12 u)) v)) mu)) := by
      simp only [Alias.fastStep, e1, e2, e3, e4, e5, e6, e7, e8, e9, e10, rc, c1, if_true, e11, e12]
    have l11 := U11.len
    have l12 := U12.len
    rw [hstep, hval, if_pos c1]
    refine ⟨fun e he => (by cases he), fun t h' he => ?_⟩
    cases he
    have nvv : vh ≠ s.vOld := by omega
    have nmm : mh ≠ s.muOld := by omega
    refine ⟨_, rfl, ⟨f1.unchanged V ?_, eu, ev, em, Or.inr (by show _ ≤ vh; omega), Or.inr (by show _ ≤ mh; omega),
      by rw [f0]; show vh < _; omega, by rw [f0]; exact hmh, by rw [f0]; omega⟩, by rw [f0]; omega, f1, ?_, f5, f6,
      by rw [f0]; exact (X3.trans (U11.trans U12)).lt hun, by rw [f0]; exact (X6.trans (U11.trans U12)).lt hvn,
      su, sv, ou, ov, oo⟩
    · intro r hr
      simp only [List.mem_cons, List.not_mem_nil, or_false] at hr
      omega
    · simp only [fastValue]
      rw [f2, f3, f4, if_neg nvv, if_neg nmm, f7 vh (by omega) nvv (by omega), f7 mh (by omega) (by omega) nmm,
        U12.rd hvh, vvh, rv10, V10.rd hv, vmh, U11.rd (X8.lt hmu), rm10, (V10.trans U11).rd hm]
  · by_cases c2 : s.eta = 0
    · have hstep : Alias.fastStep O (s, h) = .error .zeroDivisionError := by
        simp only [Alias.fastStep, e1, e2, e3, e4, e5, e6, e7, e8, e9, e10, rc, if_neg c1, if_pos c2]
      rw [hstep, hval, if_neg c1, if_pos c2]
      exact ⟨fun e he => (by cases he; rfl), fun t h' he => (by cases he)⟩
    · obtain ⟨f0, f1, f2, f3, f4, f5, f6, f7⟩ := fin h10 (Unchanged.rfl' h10)
      have hstep : Alias.fastStep O (s, h) = .ok
          (⟨s.uOld, u, s.vOld, v, s.muOld, mu, s.vOld, s.muOld, s.cOld, s.cOld.map (· / s.eta), s.alphaOld,
            1, s.eta, s.tau⟩,
            write (write (write h10 s.uOld (rd h10 u)) s.vOld (rd (write h10 s.uOld (rd h10 u)) v)) s.muOld
              (rd (write (write h10 s.uOld (rd h10 u)) s.vOld (rd (write h10 s.uOld (rd h10 u)) v)) mu)) := by
        simp only [Alias.fastStep, e1, e2, e3, e4, e5, e6, e7, e8, e9, e10, rc, c1, c2, if_false]
        rfl
      rw [hstep, hval, if_neg c1, if_neg c2]
      refine ⟨fun e he => (by cases he), fun t h' he => ?_⟩
      cases he
      refine ⟨_, rfl, ⟨f1.unchanged V ?_, eu, ev, em, Or.inl rfl, Or.inl rfl,
        by rw [f0]; show s.vOld < _; omega, by rw [f0]; show s.muOld < _; omega, by rw [f0]; omega⟩, by rw [f0]; omega, f1, ?_, f5, f6,
        by rw [f0]; exact X3.lt hun, by rw [f0]; exact X6.lt hvn, su, sv, ou, ov, oo⟩
      · intro r hr
        simp only [List.mem_cons, List.not_mem_nil, or_false] at hr
        omega
      · simp only [fastValue, if_true]
        rw [f2, f3, f4]

theorem fast_heap_init {K : List (Ref × E)} {O : AdmmOps E} {p : Admm.Problem E E} {h₀ : Heap E}
    (hO : AdmmImpl K O p h₀) (hK : Holds K h₀) (u v mu : Ref) (alpha eta tau : ℝ) (hu : u < h₀.length)
    (hm : mu < h₀.length) :
    FastInv h₀ (Alias.fastInit O u v mu alpha eta tau h₀).1 (Alias.fastInit O u v mu alpha eta tau h₀).2 ∧
    fastValue (Alias.fastInit O u v mu alpha eta tau h₀) =
      Admm.fastInit p (rd h₀ u) (rd h₀ v) (rd h₀ mu) alpha eta tau ∧
    (Alias.fastInit O u v mu alpha eta tau h₀).1.uNew = h₀.length + 1 ∧
    (Alias.fastInit O u v mu alpha eta tau h₀).1.vNew = h₀.length + 3 ∧
    rd (Alias.fastInit O u v mu alpha eta tau h₀).2 (h₀.length + 1) = rd h₀ u ∧
    rd (Alias.fastInit O u v mu alpha eta tau h₀).2 (h₀.length + 3) = p.b := by
  rcases e1 : alloc h₀ (rd h₀ u) with ⟨uo, h1⟩
  obtain ⟨U1, huo, vuo, K1, i1⟩ := alloc_call hK _ e1
  rcases e2 : alloc h1 (rd h1 u) with ⟨un, h2⟩
  obtain ⟨U2, hun, vun, K2, i2⟩ := alloc_call K1 _ e2
  rcases e3 : alloc h2 (rd h2 O.b) with ⟨vo, h3⟩
  obtain ⟨U3, hvo, vvo, K3, i3⟩ := alloc_call K2 _ e3
  rcases e4 : alloc h3 (rd h3 O.b) with ⟨vn, h4⟩
  obtain ⟨U4, hvn, vvn, K4, i4⟩ := alloc_call K3 _ e4
  rcases e5 : alloc h4 (rd h4 mu) with ⟨mn, h5⟩
  obtain ⟨U5, hmn, vmn, K5, i5⟩ := alloc_call K4 _ e5
  rcases e6 : alloc h5 (rd h5 mu) with ⟨mo, h6⟩
  obtain ⟨U6, hmo, vmo, K6, i6⟩ := alloc_call K5 _ e6
  rcases e7 : alloc h6 (rd h6 vn) with ⟨vh, h7⟩
  obtain ⟨U7, hvh, vvh, K7, i7⟩ := alloc_call K6 _ e7
  rcases e8 : alloc h7 (rd h7 mn) with ⟨mh, h8⟩
  obtain ⟨U8, hmh, vmh, K8, i8⟩ := alloc_call K7 _ e8
  have L : ∀ (h : Heap E) v a h', alloc h v = (a, h') → h'.length = h.length + 1 := by
    intro h v a h' e
    simp only [alloc, Prod.mk.injEq] at e
    obtain ⟨-, rfl⟩ := e
    simp
  have l1 := L _ _ _ _ e1
  have l2 := L _ _ _ _ e2
  have l3 := L _ _ _ _ e3
  have l4 := L _ _ _ _ e4
  have l5 := L _ _ _ _ e5
  have l6 := L _ _ _ _ e6
  have l7 := L _ _ _ _ e7
  have l8 := L _ _ _ _ e8
  have hi : Alias.fastInit O u v mu alpha eta tau h₀ =
      (⟨uo, un, vo, vn, mo, mn, vh, mh, none, some 0, alpha, alpha, eta, 1⟩, h8) := by
    simp only [Alias.fastInit, admmInit, e1, e2, e3, e4, e5, e6, e7, e8]
  have W2 := U1.trans U2
  have W3 := W2.trans U3
  have W4 := W3.trans U4
  have W5 := W4.trans U5
  have X7 := U8
  have X6 := U7.trans U8
  have X5 := U6.trans X6
  have X4 := U5.trans X5
  have X3 := U4.trans X4
  have X2 := U3.trans X3
  have X1 := U2.trans X2
  have hb := hO.b_lt
  have r1 : rd h8 uo = rd h₀ u := by rw [X1.rd huo, vuo]
  have r2 : rd h8 un = rd h₀ u := by rw [X2.rd hun, vun, U1.rd hu]
  have r3 : rd h8 vo = p.b := by rw [X3.rd hvo, vvo, W2.rd hb, hO.b]
  have r4' : rd h4 vn = p.b := by rw [vvn, W3.rd hb, hO.b]
  have r4 : rd h8 vn = p.b := by rw [X4.rd hvn, r4']
  have r5' : rd h5 mn = rd h₀ mu := by rw [vmn, W4.rd hm]
  have r6 : rd h8 mo = rd h₀ mu := by rw [X6.rd hmo, vmo, W5.rd hm]
  have r7 : rd h8 vh = p.b := by rw [X7.rd hvh, vvh, (U5.trans U6).rd hvn, r4']
  have r8 : rd h8 mh = rd h₀ mu := by rw [vmh, (U6.trans U7).rd hmn, r5']
  rw [hi]
  refine ⟨⟨(W5.trans X5), ?_, ?_, ?_, Or.inr ?_, Or.inr ?_, ?_, ?_, ?_⟩, ?_, ?_, ?_, ?_, ?_⟩
  · exact i1
  · show vo = _; omega
  · show mo = _; omega
  · show _ ≤ vh; omega
  · show _ ≤ mh; omega
  · show vh < h8.length; omega
  · exact hmh
  · show _ < h8.length; omega
  · have n1 : vh ≠ vo := by omega
    have n2 : mh ≠ mo := by omega
    simp only [fastValue, if_neg n1, if_neg n2, r1, r3, r6, r7, r8]
    rfl
  · show un = _; omega
  · show vn = _; omega
  · rw [← r2]; congr 1; omega
  · rw [← r4]; congr 1; omega

theorem fast_heap_inv {K : List (Ref × E)} {O : AdmmOps E} {p : Admm.Problem E E} {h₀ : Heap E}
    (hO : AdmmImpl K O p h₀) (hK : Holds K h₀) (u v mu : Ref) (alpha eta tau : ℝ) (hu : u < h₀.length)
    (hm : mu < h₀.length) (n : ℕ) :
    (∀ e, fastHeapRun O u v mu alpha eta tau h₀ n = .error e →
      Admm.fastAfter p false (Admm.fastInit p (rd h₀ u) (rd h₀ v) (rd h₀ mu) alpha eta tau) n = .error e) ∧
    (∀ q, fastHeapRun O u v mu alpha eta tau h₀ n = .ok q →
      Admm.fastAfter p false (Admm.fastInit p (rd h₀ u) (rd h₀ v) (rd h₀ mu) alpha eta tau) n = .ok (fastValue q) ∧
      FastInv h₀ q.1 q.2 ∧ rd q.2 q.1.uNew = (fastValue q).u ∧ rd q.2 q.1.vNew = (fastValue q).v ∧
      q.1.uNew < q.2.length ∧ q.1.vNew < q.2.length ∧
      (NotFirst O.optH → q.1.uNew ∉ [h₀.length, h₀.length + 2, h₀.length + 5]) ∧
      (NotFirst O.optG → q.1.vNew ∉ [h₀.length, h₀.length + 2, h₀.length + 5])) := by
  induction n with
  | zero =>
    refine ⟨fun e he => (by cases he), fun q hq => ?_⟩
    obtain ⟨I, v0, n1, n2, w1, w2⟩ := fast_heap_init hO hK u v mu alpha eta tau hu hm
    cases hq
    have hl := I.len
    refine ⟨by rw [v0]; rfl, I, ?_, ?_, by omega, by omega, fun _ => ?_, fun _ => ?_⟩
    · rw [n1, v0, w1]; rfl
    · rw [n2, v0, w2]; rfl
    · rw [n1]; simp
    · rw [n2]; simp
  | succ n ih =>
    cases hr : fastHeapRun O u v mu alpha eta tau h₀ n with
    | error e =>
      have := ih.1 e hr
      simp only [fastHeapRun, hr, Admm.fastAfter, this]
      exact ⟨fun e he => by cases he; rfl, fun q hq => by cases hq⟩
    | ok q =>
      obtain ⟨a, I, -⟩ := ih.2 q hr
      obtain ⟨s, h⟩ := q
      simp only [fastHeapRun, hr, Admm.fastAfter, a]
      obtain ⟨E1, E2⟩ := fast_heap_step hO hK s h I
      refine ⟨E1, fun q hq => ?_⟩
      obtain ⟨t, h'⟩ := q
      obtain ⟨w, hw, N⟩ := E2 t h' hq
      refine ⟨by rw [hw, N.value], N.inv, by rw [N.value]; exact N.u, by rw [N.value]; exact N.v, N.u_lt, N.v_lt,
        fun hn => ?_, fun hn => ?_⟩
      · have hl : h₀.length + 5 < h.length := I.len
        have no := N.u_own hn
        simp only [List.mem_cons, List.not_mem_nil, or_false, not_or]
        rcases N.u_src with r | r | r
        · exact absurd r no
        · refine ⟨?_, ?_, ?_⟩ <;> show t.uNew ≠ _ <;> omega
        · have := hK.lt r
          refine ⟨?_, ?_, ?_⟩ <;> show t.uNew ≠ _ <;> omega
      · have hl : h₀.length + 5 < h.length := I.len
        have no := N.v_own hn
        simp only [List.mem_cons, List.not_mem_nil, or_false, not_or]
        rcases N.v_src with r | r | r
        · exact absurd r no
        · refine ⟨?_, ?_, ?_⟩ <;> show t.vNew ≠ _ <;> omega
        · have := hK.lt r
          refine ⟨?_, ?_, ?_⟩ <;> show t.vNew ≠ _ <;> omega

/-- Partial: nothing that existed before construction is ever written; results handed out earlier keep their
contents provided the user's optimisers never return their initial-estimate argument (see
`C121_fast_admm_overwrites_result` for what happens otherwise). -/
theorem C121_fast_admm_partial {K : List (Ref × E)} {O : AdmmOps E} {p : Admm.Problem E E} {h₀ : Heap E}
    (hO : AdmmImpl K O p h₀) (hK : Holds K h₀) (u v mu : Ref) (alpha eta tau : ℝ) (hu : u < h₀.length)
    (hm : mu < h₀.length) (m k : ℕ) (q q' : FastSt × Heap E)
    (hq : fastHeapRun O u v mu alpha eta tau h₀ m = .ok q)
    (hq' : fastHeapRun O u v mu alpha eta tau h₀ (m + k) = .ok q') :
    Unchanged h₀ q'.2 ∧
    (NotFirst O.optH → rd q'.2 q.1.uNew = rd q.2 q.1.uNew) ∧
    (NotFirst O.optG → rd q'.2 q.1.vNew = rd q.2 q.1.vNew) := by
  have key : q.2.length ≤ q'.2.length ∧
      UnchangedBut [h₀.length, h₀.length + 2, h₀.length + 5] q.2 q'.2 := by
    induction k generalizing q' with
    | zero =>
      rw [add_zero, hq] at hq'
      cases hq'
      exact ⟨le_rfl, UnchangedBut.refl _ _⟩
    | succ k ih =>
      cases hr : fastHeapRun O u v mu alpha eta tau h₀ (m + k) with
      | error e =>
        rw [← add_assoc] at hq'
        simp only [fastHeapRun, hr] at hq'
        cases hq'
      | ok r =>
        obtain ⟨i1, i2⟩ := ih r hr
        rw [← add_assoc] at hq'
        simp only [fastHeapRun, hr] at hq'
        obtain ⟨s, h⟩ := r
        obtain ⟨t, h'⟩ := q'
        obtain ⟨w, hw, N⟩ := (fast_heap_step hO hK s h
          ((fast_heap_inv hO hK u v mu alpha eta tau hu hm (m + k)).2 _ hr).2.1).2 t h' hq'
        exact ⟨i1.trans N.len, i2.then i1 N.but⟩
  obtain ⟨-, I, -, -, lu, lv, nu, nv⟩ := (fast_heap_inv hO hK u v mu alpha eta tau hu hm m).2 q hq
  obtain ⟨-, I', -⟩ := (fast_heap_inv hO hK u v mu alpha eta tau hu hm (m + k)).2 q' hq'
  exact ⟨I'.unchanged, fun hn => key.2.rd lu (nu hn), fun hn => key.2.rd lv (nv hn)⟩

/-- `FastADMM` computes the updates of the value model, errors included, whatever arrays the operators and the
optimisers share; the arrays handed out as results hold the current variables. -/
theorem C122_fast_admm {K : List (Ref × E)} {O : AdmmOps E} {p : Admm.Problem E E} {h₀ : Heap E}
    (hO : AdmmImpl K O p h₀) (hK : Holds K h₀) (u v mu : Ref) (alpha eta tau : ℝ) (hu : u < h₀.length)
    (hm : mu < h₀.length) (n : ℕ) :
    (fastHeapRun O u v mu alpha eta tau h₀ n).map fastValue =
      Admm.fastAfter p false (Admm.fastInit p (rd h₀ u) (rd h₀ v) (rd h₀ mu) alpha eta tau) n ∧
    (∀ q, fastHeapRun O u v mu alpha eta tau h₀ n = .ok q →
      rd q.2 q.1.uNew = (fastValue q).u ∧ rd q.2 q.1.vNew = (fastValue q).v) := by
  obtain ⟨a, b⟩ := fast_heap_inv hO hK u v mu alpha eta tau hu hm n
  cases hr : fastHeapRun O u v mu alpha eta tau h₀ n with
  | error e => exact ⟨by rw [a e hr]; rfl, fun q hq => by cases hq⟩
  | ok q =>
    obtain ⟨c, -, d, e, -⟩ := b q hr
    exact ⟨by rw [c]; rfl, fun q hq => by cases hq; exact ⟨d, e⟩⟩

open Classical in
/-- An optimiser whose solution is the observation, and which returns its initial estimate when that already is the
solution. -/
noncomputable def keepIfSolved : HOpt E := fun r q h => if rd h r = rd h q then (r, h) else (q, h)

theorem keepIfSolved_implements (K : List (Ref × E)) : Implements2 K keepIfSolved (fun _ y : E => y) where
  value h r q _ hr hq := by
    by_cases c : rd h r = rd h q
    · simp only [keepIfSolved, if_pos c]
      rw [← c]
      exact getElem?_of_lt hr
    · simp only [keepIfSolved, if_neg c]
      exact getElem?_of_lt hq
  source h r q _ _ _ := by
    by_cases c : rd h r = rd h q
    · exact Or.inl (by simp only [keepIfSolved, if_pos c])
    · exact Or.inr (Or.inl (by simp only [keepIfSolved, if_neg c]))
  keeps h r q _ _ _ := by
    by_cases c : rd h r = rd h q
    · simp only [keepIfSolved, if_pos c]; exact Unchanged.rfl' h
    · simp only [keepIfSolved, if_neg c]; exact Unchanged.rfl' h

/-- A `FastADMM` result can be overwritten: with optimisers that return their initial estimate when it already is the
solution, and identity operators, the array handed out as `u_final` after the first update is the live buffer, and
the second update changes its contents. -/
theorem C121_fast_admm_overwrites_result (h₀ : Heap E) (u v mu b : Ref) (alpha eta tau : ℝ)
    (hu : u < h₀.length) (hb : b < h₀.length) (hm : mu < h₀.length) (hne : rd h₀ u ≠ rd h₀ b)
    (ha : 0 < alpha) (he : 0 < eta) :
    ∃ q q', fastHeapRun ⟨keepIfSolved, keepIfSolved, sameArray, sameArray, b⟩ u v mu alpha eta tau h₀ 1 = .ok q ∧
      fastHeapRun ⟨keepIfSolved, keepIfSolved, sameArray, sameArray, b⟩ u v mu alpha eta tau h₀ 2 = .ok q' ∧
      rd q'.2 q.1.uNew ≠ rd q.2 q.1.uNew := by
  obtain ⟨O, hOd⟩ : ∃ O : AdmmOps E, O = ⟨keepIfSolved, keepIfSolved, sameArray, sameArray, b⟩ := ⟨_, rfl⟩
  obtain ⟨p, hp⟩ : ∃ p : Admm.Problem E E, p = ⟨fun _ y => y, fun _ y => y, fun x => x, fun x => x, rd h₀ b⟩ := ⟨_, rfl⟩
  have hO : AdmmImpl [] O p h₀ := by
    rw [hOd, hp]
    exact ⟨keepIfSolved_implements [], keepIfSolved_implements [], sameArray_implements [], sameArray_implements [],
      hb, rfl⟩
  have hK : Holds ([] : List (Ref × E)) h₀ := fun p hp => by cases hp
  rw [← hOd]
  obtain ⟨I, v0, -, -, -, -⟩ := fast_heap_init hO hK u v mu alpha eta tau hu hm
  obtain ⟨β, hβ⟩ : ∃ β, β = (1 + Real.sqrt (1 + 4 * alpha ^ 2) - 1) / alpha := ⟨_, rfl⟩
  have hβ0 : 0 < β := by
    rw [hβ]
    apply div_pos _ ha
    have : 0 < Real.sqrt (1 + 4 * alpha ^ 2) := Real.sqrt_pos.2 (by positivity)
    linarith
  have hbel : ∀ c, Admm.below c eta none = true := fun c => by simp [Admm.below, he]
  -- the value model
  obtain ⟨w1, hw1, u1, v1, al1, et1, co1, vh1⟩ : ∃ w1 : Admm.Fast E,
      Admm.fastAfter p false (Admm.fastInit p (rd h₀ u) (rd h₀ v) (rd h₀ mu) alpha eta tau) 1 = .ok w1 ∧
      w1.u = rd h₀ u ∧ w1.v = rd h₀ u + rd h₀ u - rd h₀ b ∧ w1.alphaOld = alpha ∧ w1.eta = eta ∧ w1.cOld = none ∧
      w1.vHat = some (rd h₀ u + rd h₀ u - rd h₀ b + β • (rd h₀ u + rd h₀ u - rd h₀ b - rd h₀ b)) := by
    simp only [Admm.fastAfter, Admm.fastInit, Admm.fastStep, Option.getD_some, hbel, if_true, hp]
    refine ⟨_, rfl, ?_, ?_, rfl, rfl, rfl, ?_⟩
    · simp
    · simp
    · simp [hβ]
  obtain ⟨w2, hw2, u2⟩ : ∃ w2 : Admm.Fast E,
      Admm.fastAfter p false (Admm.fastInit p (rd h₀ u) (rd h₀ v) (rd h₀ mu) alpha eta tau) 2 = .ok w2 ∧
      w2.u = rd h₀ u + rd h₀ u - rd h₀ b + β • (rd h₀ u + rd h₀ u - rd h₀ b - rd h₀ b) + rd h₀ u - rd h₀ b := by
    have : Admm.fastAfter p false (Admm.fastInit p (rd h₀ u) (rd h₀ v) (rd h₀ mu) alpha eta tau) 2 =
        Admm.fastStep p false w1 := by
      rw [show (2 : ℕ) = 1 + 1 from rfl, Admm.fastAfter, hw1]
    rw [this]
    simp only [Admm.fastStep, vh1, u1, et1, co1, hbel, if_true, Option.getD_some]
    refine ⟨_, rfl, ?_⟩
    simp [hp]
  obtain ⟨-, R1⟩ := fast_heap_inv hO hK u v mu alpha eta tau hu hm 1
  obtain ⟨R1e, -⟩ := fast_heap_inv hO hK u v mu alpha eta tau hu hm 1
  obtain ⟨R2e, R2⟩ := fast_heap_inv hO hK u v mu alpha eta tau hu hm 2
  cases hr1 : fastHeapRun O u v mu alpha eta tau h₀ 1 with
  | error e => rw [R1e e hr1] at hw1; cases hw1
  | ok q =>
    cases hr2 : fastHeapRun O u v mu alpha eta tau h₀ 2 with
    | error e => rw [R2e e hr2] at hw2; cases hw2
    | ok q' =>
      obtain ⟨a1, I1, b1, -⟩ := R1 q hr1
      obtain ⟨a2, I2, -⟩ := R2 q' hr2
      obtain ⟨t, h'⟩ := q
      have hst : Alias.fastStep O ((Alias.fastInit O u v mu alpha eta tau h₀).1,
          (Alias.fastInit O u v mu alpha eta tau h₀).2) = .ok (t, h') := hr1
      obtain ⟨w, -, N⟩ := (fast_heap_step hO hK _ _ I).2 t h' hst
      obtain ⟨ob, g, n1, n2, n3⟩ := N.opt
      have huo : rd (Alias.fastInit O u v mu alpha eta tau h₀).2 (Alias.fastInit O u v mu alpha eta tau h₀).1.uOld =
          rd h₀ u := congrArg Admm.Fast.u v0
      have hvh : rd (Alias.fastInit O u v mu alpha eta tau h₀).2 (Alias.fastInit O u v mu alpha eta tau h₀).1.vHat =
          rd h₀ b := by
        have hh := congrArg Admm.Fast.vHat v0
        have hn : (Alias.fastInit O u v mu alpha eta tau h₀).1.vHat ≠
            (Alias.fastInit O u v mu alpha eta tau h₀).1.vOld := by
          intro hc
          simp [fastValue, hc, Admm.fastInit] at hh
        simp only [fastValue, if_neg hn, Admm.fastInit, Option.some.injEq] at hh
        rw [hh, hp]
      have heq : rd g (Alias.fastInit O u v mu alpha eta tau h₀).1.uOld = rd g ob := by
        rw [n2, n3, huo, hvh, hp]; simp
      have hun : t.uNew = h₀.length := by
        rw [n1, hOd]
        simp only [keepIfSolved]
        rw [← hOd, if_pos heq]
        exact I.uOld
      refine ⟨(t, h'), q', rfl, rfl, ?_⟩
      have c1 : rd h' t.uNew = rd h₀ u := by
        rw [hw1] at a1
        have := Except.ok.inj a1
        rw [show rd h' t.uNew = (fastValue (t, h')).u from b1, ← this, u1]
      have c2 : rd q'.2 t.uNew = w2.u := by
        rw [hw2] at a2
        have := Except.ok.inj a2
        rw [this, hun, ← I2.uOld]
        rfl
      show rd q'.2 t.uNew ≠ rd h' t.uNew
      rw [c1, c2, u2]
      intro hc
      have : (2 + 2 * β) • (rd h₀ u - rd h₀ b) = 0 := by
        have h2 := sub_eq_zero.2 hc
        rw [← h2]
        module
      rcases smul_eq_zero.1 this with h3 | h3
      · linarith
      · exact hne (sub_eq_zero.1 h3)

end

/-! ## The gradient descent family -/

section
variable {ι 𝕜 : Type} [RCLike 𝕜]

/-- Run a history of updates, each with its own gradient program. -/
noncomputable def gdHeapRun (c : GD.Conf ι 𝕜) (P : HProx (ι → 𝕜) (ι → ℝ)) :
    List (ℕ × HOp (ι → 𝕜)) → GdSt ι 𝕜 × Heap (ι → 𝕜) → Py (GdSt ι 𝕜 × Heap (ι → 𝕜))
  | [], q => .ok q
  | (idx, G) :: t, q =>
    match gdStep c P idx G q with
    | .error e => .error e
    | .ok r => gdHeapRun c P t r

/-- The arrays of the object exist. -/
def GdLive (q : GdSt ι 𝕜 × Heap (ι → 𝕜)) : Prop :=
  q.1.xOld < q.2.length ∧ q.1.xNew < q.2.length ∧ q.1.dir < q.2.length

theorem gd_heap_step {K : List (Ref × (ι → 𝕜))} {c : GD.Conf ι 𝕜} {P : HProx (ι → 𝕜) (ι → ℝ)}
    (hP : ImplementsProx K P c.prox) {G : HOp (ι → 𝕜)} {grad : (ι → 𝕜) → ι → 𝕜} (hG : Implements K G grad)
    (idx : ℕ) (q : GdSt ι 𝕜 × Heap (ι → 𝕜)) (hK : Holds K q.2) (hq : GdLive q) :
    (∀ e, gdStep c P idx G q = .error e → GD.update c idx grad (gdValue q) = .error e) ∧
    (∀ r, gdStep c P idx G q = .ok r → Unchanged q.2 r.2 ∧ GdLive r ∧
      GD.update c idx grad (gdValue q) = .ok (gdValue r)) := by
  obtain ⟨s, h⟩ := q
  obtain ⟨ho, hn, hd⟩ := hq
  simp only at ho hn hd hK
  by_cases c0 : c.epochSize = 0
  · simp only [gdStep, GD.update, if_pos c0]
    exact ⟨fun e he => (by cases he; rfl), fun r hr => (by cases hr)⟩
  rcases e1 : G s.xOld h with ⟨g, h1⟩
  obtain ⟨U1, hg, vg, K1, -⟩ := hG.call hK ho e1
  have hval : gdValue (s, h1) = gdValue (s, h) := by
    simp only [gdValue, U1.rd ho, U1.rd hn, U1.rd hd]
  obtain ⟨m, hm⟩ : ∃ m, m = GD.updateDir c idx (grad (rd h s.xOld)) (gdValue (s, h)) := ⟨_, rfl⟩
  obtain ⟨m', hm'⟩ : ∃ m', m' = GD.updateSpeed c (grad (rd h s.xOld)) m := ⟨_, rfl⟩
  rcases e2 : gdDir c.kind g m.dir h1 with ⟨d, h2⟩
  have D : Unchanged h1 h2 ∧ d < h2.length ∧ rd h2 d = m.dir := by
    have alo : gdDir c.kind g m.dir h1 = alloc h1 m.dir → Unchanged h1 h2 ∧ d < h2.length ∧ rd h2 d = m.dir := by
      intro e
      rw [e2] at e
      obtain ⟨a, b, c, -⟩ := alloc_call K1 _ e.symm
      exact ⟨a, b, c⟩
    have non : gdDir c.kind g m.dir h1 = (g, h1) → m.dir = grad (rd h s.xOld) →
        Unchanged h1 h2 ∧ d < h2.length ∧ rd h2 d = m.dir := by
      intro e hmd
      rw [e2] at e
      obtain ⟨rfl, rfl⟩ := Prod.mk.inj e
      exact ⟨Unchanged.rfl' _, hg, by rw [vg, hmd]⟩
    cases ck : c.kind with
    | momentum => exact alo (by simp only [ck, gdDir])
    | adam => exact alo (by simp only [ck, gdDir])
    | saga => exact alo (by simp only [ck, gdDir])
    | generic => exact non (by simp only [ck, gdDir]) (by rw [hm]; simp only [GD.updateDir, ck])
    | vanilla => exact non (by simp only [ck, gdDir]) (by rw [hm]; simp only [GD.updateDir, ck])
    | ada => exact non (by simp only [ck, gdDir]) (by rw [hm]; simp only [GD.updateDir, ck])
    | rmsprop => exact non (by simp only [ck, gdDir]) (by rw [hm]; simp only [GD.updateDir, ck])
  obtain ⟨U2, hd2, vd2⟩ := D
  have K2 := K1.mono U2
  have V2 := U1.trans U2
  have md : m'.dir = m.dir := by
    rw [hm']; cases ck : c.kind <;> simp only [GD.updateSpeed, ck]
  have mx : m'.xOld = rd h s.xOld := by
    rw [hm', hm]; cases ck : c.kind <;> simp only [GD.updateSpeed, GD.updateDir, ck] <;> rfl
  have rg : rd h2 g = grad (rd h s.xOld) := by rw [U2.rd hg, vg]
  rcases e3 : alloc h2 (fun i => rd h2 s.xOld i - (GD.stepOf c m' i : 𝕜) * rd h2 d i) with ⟨xn, h3⟩
  obtain ⟨U3, hxn, vxn, K3, -⟩ := alloc_call K2 _ e3
  have vx : rd h3 xn = fun i => m'.xOld i - (GD.stepOf c m' i : 𝕜) * m'.dir i := by
    rw [vxn, V2.rd ho, vd2, mx, md]
  by_cases c1 : idx % c.epochSize = 0
  · rcases e4 : gdReset c.kind d h3 with ⟨d', h4⟩
    have R : Unchanged h3 h4 ∧ d' < h4.length ∧
        rd h4 d' = (GD.reset c { m' with xNew := fun i => m'.xOld i - (GD.stepOf c m' i : 𝕜) * m'.dir i }).dir := by
      have non : gdReset c.kind d h3 = (d, h3) → (GD.reset c { m' with
          xNew := fun i => m'.xOld i - (GD.stepOf c m' i : 𝕜) * m'.dir i }).dir = m'.dir →
          Unchanged h3 h4 ∧ d' < h4.length ∧ rd h4 d' = (GD.reset c { m' with
            xNew := fun i => m'.xOld i - (GD.stepOf c m' i : 𝕜) * m'.dir i }).dir := by
        intro e hr
        rw [e4] at e
        obtain ⟨rfl, rfl⟩ := Prod.mk.inj e
        exact ⟨Unchanged.rfl' _, U3.lt hd2, by rw [hr, U3.rd hd2, vd2, md]⟩
      cases ck : c.kind with
      | momentum =>
        have e : gdReset c.kind d h3 = alloc h3 (fun _ => 0) := by simp only [ck, gdReset]
        rw [e4] at e
        obtain ⟨a, b, c', -⟩ := alloc_call K3 _ e.symm
        exact ⟨a, b, by rw [c']; simp only [GD.reset, ck]⟩
      | adam => exact non (by simp only [ck, gdReset]) (by simp only [GD.reset, ck])
      | saga => exact non (by simp only [ck, gdReset]) (by simp only [GD.reset, ck])
      | generic => exact non (by simp only [ck, gdReset]) (by simp only [GD.reset, ck])
      | vanilla => exact non (by simp only [ck, gdReset]) (by simp only [GD.reset, ck])
      | ada => exact non (by simp only [ck, gdReset]) (by simp only [GD.reset, ck])
      | rmsprop => exact non (by simp only [ck, gdReset]) (by simp only [GD.reset, ck])
    obtain ⟨U4, hd', vd'⟩ := R
    have K4 := K3.mono U4
    rcases e5 : P xn (GD.stepOf c m') h4 with ⟨xp, h5⟩
    obtain ⟨U5, hxp, vxp, K5, -⟩ := (hP (GD.stepOf c m')).call K4 (U4.lt hxn) e5
    rcases e6 : alloc h5 (rd h5 xp) with ⟨xo, h6⟩
    obtain ⟨U6, hxo, vxo, K6, -⟩ := alloc_call K5 _ e6
    have hstep : gdStep c P idx G (s, h) = .ok (⟨xo, xp, d', m'.speed, (match c.etaUpdate with
        | none => m'.eta
        | some f => f m'.eta idx), m'.betaPow, m'.gammaPow, m'.memory⟩, h6) := by
      simp only [gdStep, if_neg c0, e1, hval, vg, ← hm, e2, rg, ← hm', e3, if_pos c1, e4, e5, e6]
      cases c.etaUpdate <;> rfl
    rw [hstep]
    refine ⟨fun e he => (by cases he), fun r hr => ?_⟩
    cases hr
    refine ⟨((((U1.trans U2).trans U3).trans U4).trans U5).trans U6, ⟨hxo, U6.lt hxp, (U5.trans U6).lt hd'⟩, ?_⟩
    have hp1 : GD.prepare c idx grad (gdValue (s, h)) = m' := by
      rw [hm', hm]; rfl
    have pv : rd h5 xp = c.prox (fun i => m'.xOld i - (GD.stepOf c m' i : 𝕜) * m'.dir i) (GD.stepOf c m') := by
      rw [vxp, U4.rd hxn, vx]
    simp only [GD.update, if_neg c0, hp1, if_pos c1]
    simp only [gdValue]
    rw [vxo, U6.rd hxp, (U5.trans U6).rd hd', vd', pv]
    cases ck : c.kind <;> simp only [GD.reset, ck] <;> cases c.etaUpdate <;> rfl
  · rcases e6 : alloc h3 (rd h3 xn) with ⟨xo, h6⟩
    obtain ⟨U6, hxo, vxo, K6, -⟩ := alloc_call K3 _ e6
    have hstep : gdStep c P idx G (s, h) = .ok (⟨xo, xn, d, m'.speed, (match c.etaUpdate with
        | none => m'.eta
        | some f => f m'.eta idx), m'.betaPow, m'.gammaPow, m'.memory⟩, h6) := by
      simp only [gdStep, if_neg c0, e1, hval, vg, ← hm, e2, rg, ← hm', e3, if_neg c1, e6]
      cases c.etaUpdate <;> rfl
    rw [hstep]
    refine ⟨fun e he => (by cases he), fun r hr => ?_⟩
    cases hr
    refine ⟨((U1.trans U2).trans U3).trans U6, ⟨hxo, U6.lt hxn, (U3.trans U6).lt hd2⟩, ?_⟩
    have hp1 : GD.prepare c idx grad (gdValue (s, h)) = m' := by
      rw [hm', hm]; rfl
    simp only [GD.update, if_neg c0, hp1, if_neg c1]
    simp only [gdValue]
    rw [vxo, U6.rd hxn, (U3.trans U6).rd hd2, vd2, vx, ← md]
    cases c.etaUpdate <;> rfl

theorem gd_heap_run {K : List (Ref × (ι → 𝕜))} {c : GD.Conf ι 𝕜} {P : HProx (ι → 𝕜) (ι → ℝ)}
    (hP : ImplementsProx K P c.prox) (Gs : List (ℕ × HOp (ι → 𝕜))) (gs : GD.History ι 𝕜)
    (hG : List.Forall₂ (fun a b => a.1 = b.1 ∧ Implements K a.2 b.2) Gs gs)
    (q : GdSt ι 𝕜 × Heap (ι → 𝕜)) (hK : Holds K q.2) (hq : GdLive q) :
    (gdHeapRun c P Gs q).map gdValue = GD.run c gs (gdValue q) ∧
    (∀ r, gdHeapRun c P Gs q = .ok r → Unchanged q.2 r.2 ∧ GdLive r) := by
  induction hG generalizing q with
  | nil => exact ⟨rfl, fun r hr => (by cases hr; exact ⟨Unchanged.rfl' _, hq⟩)⟩
  | @cons a b Gt gt hab _ ih =>
    obtain ⟨i, G⟩ := a
    obtain ⟨j, g⟩ := b
    obtain ⟨hij, hi⟩ := hab
    simp only at hij hi
    subst hij
    obtain ⟨E1, E2⟩ := gd_heap_step hP hi i q hK hq
    cases hr : gdStep c P i G q with
    | error e =>
      simp only [gdHeapRun, hr, GD.run, E1 e hr]
      exact ⟨rfl, fun r hr => (by cases hr)⟩
    | ok r =>
      obtain ⟨U, L, v⟩ := E2 r hr
      obtain ⟨a, b⟩ := ih r (hK.mono U) L
      simp only [gdHeapRun, hr, GD.run, v]
      exact ⟨a, fun r' hr' => ⟨U.trans (b r' hr').1, (b r' hr').2⟩⟩

theorem gd_heap_init (k : GD.Kind) (x : Ref) (eta : ℝ) (h₀ : Heap (ι → 𝕜)) (hx : x < h₀.length) :
    Unchanged h₀ (gdInit k x eta h₀).2 ∧ GdLive (gdInit k x eta h₀) ∧
    gdValue (gdInit k x eta h₀) =
      ⟨rd h₀ x, rd h₀ x, fun _ => 0, GD.initSpeed k, eta, 1, 1, fun _ _ => 0⟩ := by
  have hK : Holds ([] : List (Ref × (ι → 𝕜))) h₀ := fun p hp => by cases hp
  rcases e1 : alloc h₀ (rd h₀ x) with ⟨xo, h1⟩
  obtain ⟨U1, l1, v1, K1, -⟩ := alloc_call hK _ e1
  rcases e2 : alloc h1 (rd h1 x) with ⟨xn, h2⟩
  obtain ⟨U2, l2, v2, K2, -⟩ := alloc_call K1 _ e2
  rcases e3 : alloc h2 (fun _ => (0 : 𝕜)) with ⟨d, h3⟩
  obtain ⟨U3, l3, v3, K3, -⟩ := alloc_call K2 _ e3
  have hi : gdInit k x eta h₀ = (⟨xo, xn, d, GD.initSpeed k, eta, 1, 1, fun _ _ => 0⟩, h3) := by
    simp only [gdInit, e1, e2, e3]
  rw [hi]
  refine ⟨(U1.trans U2).trans U3, ⟨(U2.trans U3).lt l1, U3.lt l2, l3⟩, ?_⟩
  simp only [gdValue, (U2.trans U3).rd l1, U3.rd l2, v1, v2, v3, U1.rd hx]

/-- No gradient descent class ever writes to an array that existed before: not to the caller's arrays, not to the
gradient operator's, and not to results handed out after an earlier part of the history. -/
theorem C121_gradient_descent {K : List (Ref × (ι → 𝕜))} {c : GD.Conf ι 𝕜} {P : HProx (ι → 𝕜) (ι → ℝ)}
    (hP : ImplementsProx K P c.prox) (x : Ref) (eta : ℝ) (h₀ : Heap (ι → 𝕜)) (hK : Holds K h₀) (hx : x < h₀.length)
    (Gs Gs' : List (ℕ × HOp (ι → 𝕜))) (gs gs' : GD.History ι 𝕜)
    (hG : List.Forall₂ (fun a b => a.1 = b.1 ∧ Implements K a.2 b.2) Gs gs)
    (hG' : List.Forall₂ (fun a b => a.1 = b.1 ∧ Implements K a.2 b.2) Gs' gs')
    (q q' : GdSt ι 𝕜 × Heap (ι → 𝕜)) (hq : gdHeapRun c P Gs (gdInit c.kind x eta h₀) = .ok q)
    (hq' : gdHeapRun c P Gs' q = .ok q') :
    Unchanged h₀ q.2 ∧ Unchanged q.2 q'.2 ∧ rd q'.2 q.1.xNew = rd q.2 q.1.xNew := by
  obtain ⟨V, L, -⟩ := gd_heap_init c.kind x eta h₀ hx
  obtain ⟨-, b⟩ := gd_heap_run hP Gs gs hG (gdInit c.kind x eta h₀) (hK.mono V) L
  obtain ⟨U, L'⟩ := b q hq
  obtain ⟨-, b'⟩ := gd_heap_run hP Gs' gs' hG' q (hK.mono (V.trans U)) L'
  obtain ⟨U', -⟩ := b' q' hq'
  exact ⟨V.trans U, U', U'.rd L'.2.1⟩

/-- Every gradient descent class computes the updates of the value model, errors included, whatever arrays the
gradient and the proximity operator share, and even if the gradient program changes between updates. -/
theorem C122_gradient_descent {K : List (Ref × (ι → 𝕜))} {c : GD.Conf ι 𝕜} {P : HProx (ι → 𝕜) (ι → ℝ)}
    (hP : ImplementsProx K P c.prox) (x : Ref) (eta : ℝ) (h₀ : Heap (ι → 𝕜)) (hK : Holds K h₀) (hx : x < h₀.length)
    (Gs : List (ℕ × HOp (ι → 𝕜))) (gs : GD.History ι 𝕜)
    (hG : List.Forall₂ (fun a b => a.1 = b.1 ∧ Implements K a.2 b.2) Gs gs) :
    (gdHeapRun c P Gs (gdInit c.kind x eta h₀)).map gdValue =
      GD.run c gs ⟨rd h₀ x, rd h₀ x, fun _ => 0, GD.initSpeed c.kind, eta, 1, 1, fun _ _ => 0⟩ := by
  obtain ⟨V, L, v⟩ := gd_heap_init c.kind x eta h₀ hx
  rw [← v]
  exact (gd_heap_run hP Gs gs hG (gdInit c.kind x eta h₀) (hK.mono V) L).1

end

/-! ## Concrete programs meeting the hypotheses -/

section
variable {E : Type} [NormedAddCommGroup E] [InnerProductSpace ℝ E]

/-- An operator that computes its result into a new array, as `GradBasic` and the shipped proximity operators do. -/
def newArray (f : E → E) : HOp E := fun r h => alloc h (f (rd h r))

theorem newArray_implements (K : List (Ref × E)) (f : E → E) : Implements K (newArray f) f where
  value h r _ _ := by simp [newArray, alloc]
  source h r _ _ := Or.inr (Or.inl (le_refl h.length))
  keeps h r _ _ := unchanged_alloc h _

/-- An operator that returns an array it keeps. -/
def keptArray (r₀ : Ref) : HOp E := fun _ h => (r₀, h)

theorem keptArray_implements (r₀ : Ref) (v : E) : Implements [(r₀, v)] (keptArray r₀) (fun _ => v) where
  value h r hK _ := hK (r₀, v) (by simp)
  source h r _ _ := Or.inr (Or.inr (by simp [keptArray]))
  keeps h r _ _ := Unchanged.rfl' h

/-- A proximity operator that computes its result into a new array. -/
def newProx (f : E → ℝ → E) : HProx E ℝ := fun r a h => alloc h (f (rd h r) a)

theorem newProx_implements (K : List (Ref × E)) (f : E → ℝ → E) : ImplementsProx K (newProx f) f :=
  fun a => newArray_implements K (fun x => f x a)

/-- An optimiser that computes its result into a new array. -/
def newOpt (f : E → E → E) : HOpt E := fun r q h => alloc h (f (rd h r) (rd h q))

theorem newOpt_implements (K : List (Ref × E)) (f : E → E → E) : Implements2 K (newOpt f) f where
  value h r q _ _ _ := by simp [newOpt, alloc]
  source h r q _ _ _ := Or.inr (Or.inr (Or.inl (le_refl h.length)))
  keeps h r q _ _ _ := unchanged_alloc h _

theorem newOpt_notFirst (f : E → E → E) : NotFirst (newOpt f) := fun h r q hr _ _ => by
  show h.length ≠ r
  omega

end

/-- `C121_forward_backward`, `C122_forward_backward`: a gradient operator returning the array `10` it keeps and a
proximity operator returning its argument. -/
example : Implements [(1, (10 : ℝ))] (keptArray 1) (fun _ => 10) ∧
    ImplementsProx [(1, (10 : ℝ))] sameProx (fun x _ => x) ∧ Holds [(1, (10 : ℝ))] [2, 10] ∧
    (0 : ℕ) < ([2, 10] : Heap ℝ).length ∧
    (afterSteps (fun _ : ℝ => 10) (fun x _ => x) (FB.userRules none none)
      ⟨rd [2, 10] 0, rd [2, 10] 0, none, none, 1, 1, ()⟩ 1).xOld = -8 := by
  refine ⟨keptArray_implements 1 10, sameProx_implements _, fun p hp => ?_, by simp, ?_⟩
  · simp only [List.mem_singleton] at hp; subst hp; rfl
  · simp [afterSteps, FB.step, FB.userRules, FB.applyUpd, rd]
    norm_num

/-- `C121_condat`, `C122_condat`: gradient in a new array, everything else shared. -/
example : CondatImpl [] ⟨newArray (fun x : ℝ => x - 3), sameProx, newProx (fun y _ => y - y), sameArray, sameArray⟩
    ⟨fun x => x - 3, fun x _ => x, fun y _ => y - y, fun x => x, fun x => x⟩ :=
  ⟨newArray_implements [] (fun x => x - 3), sameProx_implements _, newProx_implements [] (fun y _ => y - y), sameArray_implements _,
    sameArray_implements _⟩

/-- `C121_admm`, `C122_admm`, `C121_fast_admm_partial`, `C122_fast_admm`: allocating optimisers, shared operators. -/
example : AdmmImpl [] ⟨newOpt (fun x y : ℝ => (x + y) / 2), newOpt (fun _ y => y / 2), sameArray, sameArray, 3⟩
      ⟨fun x y => (x + y) / 2, fun _ y => y / 2, fun x => x, fun x => x, 4⟩ [1, 2, 3, 4] ∧
    NotFirst (newOpt (fun x y : ℝ => (x + y) / 2)) ∧ NotFirst (newOpt (fun _ y : ℝ => y / 2)) ∧
    (∃ q, fastHeapRun ⟨newOpt (fun x y : ℝ => (x + y) / 2), newOpt (fun _ y => y / 2), sameArray, sameArray, 3⟩
      0 1 2 1 1 1 [1, 2, 3, 4] 1 = .ok q) := by
  refine ⟨⟨newOpt_implements [] (fun x y => (x + y) / 2), newOpt_implements [] (fun _ y => y / 2), sameArray_implements _, sameArray_implements _, by simp, rfl⟩,
    newOpt_notFirst _, newOpt_notFirst _, ?_⟩
  simp [fastHeapRun, Alias.fastInit, Alias.fastStep, admmInit, Admm.below]

/-- `C121_gen_forward_backward`, `C122_gen_forward_backward`: two proximity operators, one shared and one not. -/
example : List.Forall₂ (ImplementsProx ([] : List (Ref × ℝ))) [sameProx, newProx (fun y a => y - a)]
    [fun x _ => x, fun y a => y - a] :=
  .cons (sameProx_implements _) (.cons (newProx_implements _ _) .nil)

/-- `C121_pogm_partial`, `C122_pogm_partial`: an allocating gradient gives a new gradient array at construction. -/
example : ([0, 1, 2, 3] : Heap ℝ).length + 4 ≤
    (Alias.pogmInit (newArray (fun x : ℝ => x - 3)) 0 1 2 3 [0, 1, 2, 3]).1.gOld := by
  simp [Alias.pogmInit, newArray, alloc]

/-- `C121_pogm_overwrites_gradient`, `C121_pogm_changes_kept_gradient`: the linear cost with gradient `10`, kept in an
array by the gradient operator, with a proximity operator that moves every point. -/
example : (Alias.pogmInit (keptArray 4) 0 1 2 3 ([0, 1, 2, 3, 10] : Heap ℝ)).1.gOld ∈
    ([(4, (10 : ℝ))] : List (Ref × ℝ)).map Prod.fst ∧
    rd (pogmHeapRun (keptArray 4) (newProx fun x a => x + a) 1 1 0 1 2 3 ([0, 1, 2, 3, 10] : Heap ℝ) 1).2 4 ≠ 10 := by
  have hm : (Alias.pogmInit (keptArray 4) 0 1 2 3 ([0, 1, 2, 3, 10] : Heap ℝ)).1.gOld ∈
      ([(4, (10 : ℝ))] : List (Ref × ℝ)).map Prod.fst := by simp [Alias.pogmInit, keptArray]
  exact ⟨hm, C121_pogm_changes_kept_gradient (keptArray_implements 4 (10 : ℝ)) (newProx_implements _ fun x a => x + a)
    1 1 (fun p hp => by simp only [List.mem_singleton] at hp; subst hp; rfl) 0 1 2 3 (by simp) (by simp) (by simp)
    hm one_pos (fun w xi h => by linarith)⟩

/-- `C121_gradient_descent`, `C122_gradient_descent`: a history whose gradient programs change, one returning its
argument and one allocating. -/
example : List.Forall₂ (fun (a : ℕ × HOp (Fin 2 → ℝ)) (b : ℕ × ((Fin 2 → ℝ) → Fin 2 → ℝ)) =>
      a.1 = b.1 ∧ Implements [] a.2 b.2)
    [(0, fun r h => (r, h)), (1, fun r h => alloc h (fun i => 2 * rd h r i))] [(0, fun x => x), (1, fun x i => 2 * x i)] := by
  refine .cons ⟨rfl, ⟨fun h r _ hr => getElem?_of_lt hr, fun _ _ _ _ => Or.inl rfl, fun h _ _ _ => Unchanged.rfl' h⟩⟩
    (.cons ⟨rfl, ⟨fun h r _ hr => by simp [alloc], fun h _ _ _ => Or.inr (Or.inl (le_refl h.length)),
      fun h _ _ _ => unchanged_alloc h _⟩⟩ .nil)

end Verif
