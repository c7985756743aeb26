import Verif.Model.DType
import Verif.Props.ForwardBackward
import Verif.Props.GenForwardBackward
import Verif.Props.Pogm
import Verif.Props.PrimalDual
import Verif.Props.Admm

/-!
# C123, C124: data types

C123: an algorithm started from a numeric array of any data type computes the update it is documented to compute, or
raises; and it raises for no array of the kind the operators work with.

C124: the gradient table of SAGA holds the gradients.
-/

set_option linter.unusedSectionVars false

namespace Verif
open DType
open scoped RealInnerProductSpace

section
variable {E : Type} [NormedAddCommGroup E] [InnerProductSpace ℝ E]

/-- A typed operator computes `f`, whatever the kinds. -/
def Computes (F : TArr E → TArr E) (f : E → E) : Prop := ∀ a, (F a).val = f a.val

/-- A typed proximity operator computes `p`. -/
def ComputesProx (P : TArr E → ℝ → TArr E) (p : E → ℝ → E) : Prop := ∀ a r, (P a r).val = p a.val r

/-- An operator that does not leave the arrays of kind at most `k`. -/
def Stays (k : Kind) (F : TArr E → TArr E) : Prop := ∀ a, a.kind.rank ≤ k.rank → (F a).kind.rank ≤ k.rank

theorem rank_join (a b : Kind) : (a.join b).rank = max a.rank b.rank := by
  cases a <;> cases b <;> rfl

theorem add_rank (a b : TArr E) : (add a b).kind.rank = max a.kind.rank b.kind.rank := rank_join _ _
theorem sub_rank (a b : TArr E) : (sub a b).kind.rank = max a.kind.rank b.kind.rank := rank_join _ _
theorem scale_rank (r : ℝ) (a : TArr E) : (scale r a).kind.rank = max Kind.float.rank a.kind.rank := rank_join _ _
theorem twice_rank (a : TArr E) : (twice a).kind.rank = a.kind.rank := rfl
theorem int_rank : Kind.int.rank = 0 := rfl
theorem float_rank : Kind.float.rank = 1 := rfl

theorem rank_inj {a b : Kind} (h : a.rank = b.rank) : a = b := by
  cases a <;> cases b <;> first | rfl | cases h

theorem copyto_ok {d s a : TArr E} (h : copyto d s = .ok a) : a.kind = d.kind ∧ a.val = s.val := by
  unfold copyto at h
  split at h
  · cases h; exact ⟨rfl, rfl⟩
  · cases h

theorem copyto_le {d s : TArr E} (h : s.kind.rank ≤ d.kind.rank) : copyto d s = .ok ⟨d.kind, s.val⟩ := if_pos h

theorem copyto_gt {d s : TArr E} (h : d.kind.rank < s.kind.rank) : copyto d s = .error .typeError :=
  if_neg (not_le.2 h)

theorem iadd_ok {d s a : TArr E} (h : iadd d s = .ok a) : a.kind = d.kind ∧ a.val = d.val + s.val := by
  unfold iadd at h
  split at h
  · cases h; exact ⟨rfl, rfl⟩
  · cases h

theorem iadd_le {d s : TArr E} (h : s.kind.rank ≤ d.kind.rank) : iadd d s = .ok ⟨d.kind, d.val + s.val⟩ := if_pos h

theorem iadd_gt {d s : TArr E} (h : d.kind.rank < s.kind.rank) : iadd d s = .error .typeError :=
  if_neg (not_le.2 h)

theorem copyto_err {d s : TArr E} {e : PyErr} (h : copyto d s = .error e) : e = .typeError := by
  unfold copyto at h
  split at h
  · cases h
  · cases h; rfl

theorem iadd_err {d s : TArr E} {e : PyErr} (h : iadd d s = .error e) : e = .typeError := by
  unfold iadd at h
  split at h
  · cases h
  · cases h; rfl

theorem idiv_ok {d a : TArr E} {r : ℝ} (h : idiv d r = .ok a) : a.kind = d.kind ∧ a.val = (1 / r) • d.val := by
  unfold idiv at h
  split at h
  · cases h; exact ⟨rfl, rfl⟩
  · cases h

theorem idiv_err {d : TArr E} {r : ℝ} {e : PyErr} (h : idiv d r = .error e) : e = .typeError := by
  unfold idiv at h
  split at h
  · cases h
  · cases h; rfl

/-! ## `Condat` -/

/-- `n` updates. -/
noncomputable def condatTyped (O : CondatOps E) (U : Condat.Upd) (s : DType.CondatSt E) : ℕ → Py (DType.CondatSt E)
  | 0 => .ok s
  | n + 1 => match condatTyped O U s n with
    | .error e => .error e
    | .ok t => DType.condatStep O U t

/-- The values. -/
def condatVal (s : DType.CondatSt E) : Condat.St E E := ⟨s.x.val, s.y.val, s.rho, s.sigma, s.tau⟩

/-- The typed operators compute the given ones. -/
structure CondatComputes (O : CondatOps E) (o : Condat.Ops E E) : Prop where
  grad : Computes O.grad o.grad
  prox : ComputesProx O.prox o.prox
  proxDual : ComputesProx O.proxDual o.proxDual
  op : Computes O.op o.op
  adj : Computes O.adj o.adj

/-- An update of `Condat` that does not raise computes the update of the value model: nothing is rounded away. -/
theorem C123_condat_exact {O : CondatOps E} {o : Condat.Ops E E} (hO : CondatComputes O o) (U : Condat.Upd)
    (s : DType.CondatSt E) (n : ℕ) (t : DType.CondatSt E) (h : condatTyped O U s n = .ok t) :
    condatVal t = condatAfter o U (condatVal s) n := by
  induction n generalizing t with
  | zero => cases h; rfl
  | succ n ih =>
    cases hr : condatTyped O U s n with
    | error e => simp only [condatTyped, hr] at h; cases h
    | ok r =>
      simp only [condatTyped, hr] at h
      simp only [condatAfter, ← ih r hr]
      simp only [DType.condatStep] at h
      cases h1 : copyto r.x (add (scale r.rho (O.prox (sub (sub r.x (scale r.tau (O.grad r.x)))
          (scale r.tau (O.adj r.y))) 1)) (scale (1 - r.rho) r.x)) with
      | error e => rw [h1] at h; cases h
      | ok x =>
        rw [h1] at h
        simp only at h
        split at h
        · cases h
        · rename_i y hy
          cases h
          obtain ⟨-, v1⟩ := copyto_ok h1
          obtain ⟨-, v2⟩ := copyto_ok hy
          simp only [condatVal, v1, v2, add, sub, scale, twice, hO.prox _ _, hO.grad _, hO.adj _, hO.op _,
            hO.proxDual _ _, Condat.step, Condat.half]

/-- Starting `Condat` from an integer array always raises `TypeError` at the first update, whatever the operators. -/
theorem C123_condat_integer_start (O : CondatOps E) (U : Condat.Upd) (s : DType.CondatSt E)
    (hs : s.x.kind = .int ∨ s.y.kind = .int) (n : ℕ) : condatTyped O U s (n + 1) = .error .typeError := by
  have h1 : DType.condatStep O U s = .error .typeError := by
    unfold DType.condatStep
    dsimp only
    rcases hs with hs | hs
    · rw [copyto_gt (by rw [hs, int_rank, add_rank, scale_rank, float_rank]; omega)]
    · split
      · rename_i e he; rw [copyto_err he]
      · rw [copyto_gt (by rw [hs, int_rank, add_rank, scale_rank, float_rank]; omega)]
  induction n with
  | zero => exact h1
  | succ n ih => rw [condatTyped, ih]

/-- Partial: real or complex starting arrays of the kind `k` the operators work in are accepted by every update. -/
theorem C123_condat_accepts_partial (O : CondatOps E) (U : Condat.Upd) (s : DType.CondatSt E) (k : Kind)
    (hk : k ≠ .int) (hx : s.x.kind = k) (hy : s.y.kind = k) (h1 : Stays k O.grad) (h2 : ∀ r, Stays k (O.prox · r))
    (h3 : ∀ r, Stays k (O.proxDual · r)) (h4 : Stays k O.op) (h5 : Stays k O.adj) (n : ℕ) :
    ∃ t, condatTyped O U s n = .ok t ∧ t.x.kind = k ∧ t.y.kind = k := by
  have hf : Kind.float.rank ≤ k.rank := by cases k <;> simp_all [Kind.rank]
  induction n with
  | zero => exact ⟨s, rfl, hx, hy⟩
  | succ n ih =>
    obtain ⟨t, ht, tx, ty⟩ := ih
    simp only [condatTyped, ht, DType.condatStep]
    have g := h1 t.x (by rw [tx])
    have a := h5 t.y (by rw [ty])
    have xp := h2 1 (sub (sub t.x (scale t.tau (O.grad t.x))) (scale t.tau (O.adj t.y)))
      (by simp only [sub_rank, scale_rank, tx]; omega)
    dsimp only at xp
    have lp := h4 (sub (twice (O.prox (sub (sub t.x (scale t.tau (O.grad t.x))) (scale t.tau (O.adj t.y))) 1)) t.x)
      (by simp only [sub_rank, twice_rank, tx]; omega)
    have dp := h3 (1 / t.sigma) (scale (1 / t.sigma) (add t.y (scale t.sigma (O.op (sub (twice (O.prox (sub (sub t.x
      (scale t.tau (O.grad t.x))) (scale t.tau (O.adj t.y))) 1)) t.x)))))
      (by simp only [scale_rank, add_rank, ty]; omega)
    dsimp only at dp
    rw [copyto_le (by simp only [add_rank, scale_rank, tx]; omega)]
    dsimp only
    rw [copyto_le (by simp only [add_rank, sub_rank, scale_rank, ty]; omega)]
    exact ⟨_, rfl, tx, ty⟩

/-! ## `ForwardBackward` -/

/-- `n` updates. -/
noncomputable def fbTyped {S : Type} (grad : TArr E → TArr E) (prox : TArr E → ℝ → TArr E) (R : FB.Rules S E)
    (s : DType.FbSt S E) : ℕ → Py (DType.FbSt S E)
  | 0 => .ok s
  | n + 1 => match fbTyped grad prox R s n with
    | .error e => .error e
    | .ok t => DType.fbStep grad prox R t

/-- `ForwardBackward` accepts a starting array of any kind, integers included, and computes the updates of the value
model. -/
theorem C123_forward_backward {S : Type} {G : TArr E → TArr E} {grad : E → E} (hG : Computes G grad)
    {P : TArr E → ℝ → TArr E} {prox : E → ℝ → E} (hP : ComputesProx P prox) (R : FB.Rules S E) (x : TArr E)
    (beta lam : ℝ) (r : S) (n : ℕ) :
    ∃ t, fbTyped G P R ⟨x, x, beta, lam, r⟩ n = .ok t ∧
      (afterSteps grad prox R ⟨x.val, x.val, none, none, beta, lam, r⟩ n).xOld = t.xOld.val ∧
      (afterSteps grad prox R ⟨x.val, x.val, none, none, beta, lam, r⟩ n).zOld = t.zOld.val ∧
      (afterSteps grad prox R ⟨x.val, x.val, none, none, beta, lam, r⟩ n).beta = t.beta ∧
      (afterSteps grad prox R ⟨x.val, x.val, none, none, beta, lam, r⟩ n).lam = t.lam ∧
      (afterSteps grad prox R ⟨x.val, x.val, none, none, beta, lam, r⟩ n).rules = t.rules := by
  induction n with
  | zero => exact ⟨_, rfl, rfl, rfl, rfl, rfl, rfl⟩
  | succ n ih =>
    obtain ⟨t, ht, a, b, c, d, e⟩ := ih
    simp only [fbTyped, ht, DType.fbStep, afterSteps, FB.step, a, b, c, d, e]
    refine ⟨_, rfl, ?_, ?_, ?_, ?_, ?_⟩
    · simp only [hP _ _, sub, scale, hG _]
    · simp only [hP _ _, sub, scale, hG _, add]
      split <;> simp [hP _ _]
    · simp only [hP _ _, sub, scale, hG _]
    · simp only [hP _ _, sub, scale, hG _]
    · simp only [hP _ _, sub, scale, hG _]

/-! ## `GenForwardBackward` -/

/-- `n` updates. -/
noncomputable def genTyped {S : Type} (grad : TArr E → TArr E) (prox : List (TArr E → ℝ → TArr E)) (w : List ℝ)
    (gu lu : Option (S → ℝ → ℝ × S)) (s : DType.GenSt S E) : ℕ → Py (DType.GenSt S E)
  | 0 => .ok s
  | n + 1 => match genTyped grad prox w gu lu s n with
    | .error e => .error e
    | .ok t => DType.genStep grad prox w gu lu t

/-- The values. -/
def genVal {S : Type} (s : DType.GenSt S E) : FB.GenSt S E := ⟨s.xOld.val, s.z, s.gamma, s.lam, s.rules⟩

theorem genLoop_exact {x g : TArr E} {k : Kind} {gamma lam : ℝ} {Ps : List (TArr E → ℝ → TArr E)}
    {ps : List (E → ℝ → E)} (hP : List.Forall₂ ComputesProx Ps ps) (zs : List E) (ws : List ℝ) (out : List E)
    (h : DType.genLoop x g k gamma lam Ps zs ws = .ok out) : out = FB.genZ x.val g.val gamma lam ps zs ws := by
  induction hP generalizing zs ws out with
  | nil => simp only [DType.genLoop] at h; cases h; simp [FB.genZ]
  | @cons P p Ps ps hp _ ih =>
    cases zs with
    | nil => simp only [DType.genLoop] at h; cases h; simp [FB.genZ]
    | cons z zs =>
      cases ws with
      | nil => simp only [DType.genLoop] at h; cases h; simp [FB.genZ]
      | cons w ws =>
        simp only [DType.genLoop] at h
        split at h
        · cases h
        · rename_i z' hz
          split at h
          · cases h
          · rename_i zs' hzs
            cases h
            obtain ⟨-, v⟩ := iadd_ok hz
            rw [FB.genZ, ih zs ws zs' hzs, v]
            simp only [scale, sub, twice, hp _ _]

/-- An update of `GenForwardBackward` that does not raise computes the update of the value model. -/
theorem C123_gen_forward_backward_exact {S : Type} {G : TArr E → TArr E} {grad : E → E} (hG : Computes G grad)
    {Ps : List (TArr E → ℝ → TArr E)} {ps : List (E → ℝ → E)} (hP : List.Forall₂ ComputesProx Ps ps) (w : List ℝ)
    (gu lu : Option (S → ℝ → ℝ × S)) (s : DType.GenSt S E) (n : ℕ) (t : DType.GenSt S E)
    (h : genTyped G Ps w gu lu s n = .ok t) : genVal t = genAfter grad ps w gu lu (genVal s) n := by
  induction n generalizing t with
  | zero => cases h; rfl
  | succ n ih =>
    cases hr : genTyped G Ps w gu lu s n with
    | error e => simp only [genTyped, hr] at h; cases h
    | ok r =>
      simp only [genTyped, hr, DType.genStep] at h
      simp only [genAfter, ← ih r hr]
      split at h
      · cases h
      · rename_i z hz
        split at h
        · cases h
        · rename_i x hx
          cases h
          have e1 := genLoop_exact hP _ _ _ hz
          obtain ⟨-, v⟩ := copyto_ok hx
          rw [hG] at e1
          simp only [genVal, v, FB.genStep, e1]

/-- Starting `GenForwardBackward` from an integer array always raises `TypeError` at the first update. -/
theorem C123_gen_forward_backward_integer_start {S : Type} (G : TArr E → TArr E)
    (Ps : List (TArr E → ℝ → TArr E)) (hne : Ps ≠ []) (w : List ℝ) (hw : w.length = Ps.length)
    (gu lu : Option (S → ℝ → ℝ × S)) (x : TArr E) (hx : x.kind = .int) (gamma lam : ℝ) (r : S) (n : ℕ) :
    genTyped G Ps w gu lu (DType.genInit x Ps.length gamma lam r) (n + 1) = .error .typeError := by
  have h1 : DType.genStep G Ps w gu lu (DType.genInit x Ps.length gamma lam r) = .error .typeError := by
    cases Ps with
    | nil => exact absurd rfl hne
    | cons P Ps =>
      cases w with
      | nil => simp at hw
      | cons w ws =>
        simp only [DType.genStep, DType.genInit, List.length_cons, List.replicate_succ, DType.genLoop]
        rw [iadd_gt (by rw [scale_rank, hx, int_rank, float_rank]; omega)]
  induction n with
  | zero => exact h1
  | succ n ih => rw [genTyped, ih]

theorem genLoop_accepts {x g : TArr E} {k : Kind} (hf : Kind.float.rank ≤ k.rank) (hx : x.kind.rank ≤ k.rank)
    (hg : g.kind.rank ≤ k.rank) (gamma lam : ℝ) (Ps : List (TArr E → ℝ → TArr E))
    (hP : ∀ P ∈ Ps, ∀ r, Stays k (P · r)) (zs : List E) (ws : List ℝ) :
    ∃ out, DType.genLoop x g k gamma lam Ps zs ws = .ok out := by
  induction Ps generalizing zs ws with
  | nil => exact ⟨[], by simp [DType.genLoop]⟩
  | cons P Ps ih =>
    cases zs with
    | nil => exact ⟨[], by simp [DType.genLoop]⟩
    | cons z zs =>
      cases ws with
      | nil => exact ⟨[], by simp [DType.genLoop]⟩
      | cons w ws =>
        obtain ⟨out, ho⟩ := ih (fun P hP' => hP P (List.mem_cons_of_mem _ hP')) zs ws
        have hp := hP P List.mem_cons_self (gamma / w) (sub (sub (twice x) ⟨k, z⟩) (scale gamma g))
          (by simp only [sub_rank, twice_rank, scale_rank]; omega)
        dsimp only at hp
        simp only [DType.genLoop, ho]
        rw [iadd_le (by simp only [scale_rank, sub_rank]; omega)]
        exact ⟨_, rfl⟩

/-- Partial: a real or complex starting array of the kind `k` the operators work in is accepted by every update. -/
theorem C123_gen_forward_backward_accepts_partial {S : Type} (G : TArr E → TArr E)
    (Ps : List (TArr E → ℝ → TArr E)) (w : List ℝ) (gu lu : Option (S → ℝ → ℝ × S)) (x : TArr E) (k : Kind)
    (hk : k ≠ .int) (hx : x.kind = k) (hG : Stays k G) (hP : ∀ P ∈ Ps, ∀ r, Stays k (P · r)) (m : ℕ) (gamma lam : ℝ)
    (r : S) (n : ℕ) :
    ∃ t, genTyped G Ps w gu lu (DType.genInit x m gamma lam r) n = .ok t ∧ t.xOld.kind = k ∧ t.zKind = k := by
  have hf : Kind.float.rank ≤ k.rank := by cases k <;> simp_all [Kind.rank]
  induction n with
  | zero => exact ⟨_, rfl, hx, hx⟩
  | succ n ih =>
    obtain ⟨t, ht, tx, tz⟩ := ih
    obtain ⟨out, ho⟩ := genLoop_accepts hf (by rw [tx]) (hG t.xOld (by rw [tx])) t.gamma t.lam Ps hP t.z w
    simp only [genTyped, ht, DType.genStep, tz, ho]
    rw [copyto_le (by rw [tx]; show (Kind.join _ _).rank ≤ _; rw [rank_join]; omega)]
    exact ⟨_, rfl, tx, rfl⟩

/-! ## `POGM` -/

/-- `n` updates. -/
noncomputable def pogmTyped (grad : TArr E → TArr E) (prox : TArr E → ℝ → TArr E) (beta sb : ℝ) (s : DType.PogmSt E) :
    ℕ → Py (DType.PogmSt E)
  | 0 => .ok s
  | n + 1 => match pogmTyped grad prox beta sb s n with
    | .error e => .error e
    | .ok t => DType.pogmStep grad prox beta sb t

/-- The values. -/
def pogmVal (s : DType.PogmSt E) : FB.Pogm E :=
  ⟨s.uOld.val, s.xOld.val, s.yOld.val, s.z.val, s.gOld.val, s.xi, s.sigma, s.t⟩

theorem bind_ok {α β : Type} {m : Py α} {f : α → Py β} {b : β} (h : (m >>= f) = .ok b) : ∃ a, m = .ok a ∧ f a = .ok b := by
  cases m with
  | error e => cases h
  | ok a => exact ⟨a, rfl, h⟩

theorem bind_error {α β : Type} {m : Py α} {f : α → Py β} {e : PyErr} (h : (m >>= f) = .error e) :
    m = .error e ∨ ∃ a, m = .ok a ∧ f a = .error e := by
  cases m with
  | error e' => left; cases h; rfl
  | ok a => exact Or.inr ⟨a, rfl, h⟩

/-- An update of `POGM` that does not raise computes the update of the value model. -/
theorem C123_pogm_exact {G : TArr E → TArr E} {grad : E → E} (hG : Computes G grad)
    {P : TArr E → ℝ → TArr E} {prox : E → ℝ → E} (hP : ComputesProx P prox) (beta sb : ℝ) (s : DType.PogmSt E)
    (n : ℕ) (t : DType.PogmSt E) (h : pogmTyped G P beta sb s n = .ok t) :
    pogmVal t = pogmAfter grad prox beta sb (pogmVal s) n := by
  induction n generalizing t with
  | zero => cases h; rfl
  | succ n ih =>
    cases hr : pogmTyped G P beta sb s n with
    | error e => simp only [pogmTyped, hr] at h; cases h
    | ok r =>
      simp only [pogmTyped, hr, DType.pogmStep] at h
      simp only [pogmAfter, ← ih r hr]
      obtain ⟨u, h1, h⟩ := bind_ok h
      obtain ⟨z1, h2, h⟩ := bind_ok h
      obtain ⟨z2, h3, h⟩ := bind_ok h
      obtain ⟨z, h4, h⟩ := bind_ok h
      obtain ⟨g1, h5, h⟩ := bind_ok h
      obtain ⟨g, h6, h⟩ := bind_ok h
      obtain ⟨y, h7, h⟩ := bind_ok h
      obtain ⟨u', h8, h⟩ := bind_ok h
      obtain ⟨x', h9, h⟩ := bind_ok h
      obtain ⟨g', h10, h⟩ := bind_ok h
      obtain ⟨y', h11, h⟩ := bind_ok h
      have v1 := (iadd_ok h1).2
      have v2 := (iadd_ok h2).2
      have v3 := (iadd_ok h3).2
      have v4 := (iadd_ok h4).2
      have v5 := (idiv_ok h5).2
      have v6 := (iadd_ok h6).2
      have v7 := (iadd_ok h7).2
      have v8 := (copyto_ok h8).2
      have v9 := (copyto_ok h9).2
      have v10 := (copyto_ok h10).2
      have v11 := (copyto_ok h11).2
      cases h
      simp only [scale, sub, hG _, neg_smul] at v1 v2 v3 v4 v5 v6 v7
      rw [hP] at v5 v9
      rw [v2] at v3
      rw [v3] at v4
      rw [v5] at v6
      simp only [pogmVal, FB.pogmStep, v8, v9, v10, v11]
      simp only [← v1]
      simp only [← v4]
      simp only [← v6]
      simp only [← v7]
      by_cases a1 : ⟪-g.val, y.val - r.yOld.val⟫ < 0
      · simp only [if_pos a1]
      · by_cases a2 : ⟪g.val, r.gOld.val⟫ < 0
        · simp only [if_neg a1, if_pos a2]
        · simp only [if_neg a1, if_neg a2]

/-- Starting `POGM` from an integer array `u` always raises `TypeError` at the first update. -/
theorem C123_pogm_integer_start (G : TArr E → TArr E) (P : TArr E → ℝ → TArr E) (beta sb : ℝ) (s : DType.PogmSt E)
    (hs : s.uOld.kind = .int ∨ s.yOld.kind = .int) (n : ℕ) :
    pogmTyped G P beta sb s (n + 1) = .error .typeError := by
  have key : ∀ e, DType.pogmStep G P beta sb s = .error e → e = .typeError := by
    intro e h
    simp only [DType.pogmStep] at h
    rcases bind_error h with h | ⟨u, h1, h⟩
    · exact iadd_err h
    rcases bind_error h with h | ⟨_, h2, h⟩
    · exact iadd_err h
    rcases bind_error h with h | ⟨_, h3, h⟩
    · exact iadd_err h
    rcases bind_error h with h | ⟨_, h4, h⟩
    · exact iadd_err h
    rcases bind_error h with h | ⟨_, h5, h⟩
    · exact idiv_err h
    rcases bind_error h with h | ⟨_, h6, h⟩
    · exact iadd_err h
    rcases bind_error h with h | ⟨_, h7, h⟩
    · exact iadd_err h
    rcases bind_error h with h | ⟨_, h8, h⟩
    · exact copyto_err h
    rcases bind_error h with h | ⟨_, h9, h⟩
    · exact copyto_err h
    rcases bind_error h with h | ⟨_, h10, h⟩
    · exact copyto_err h
    rcases bind_error h with h | ⟨_, h11, h⟩
    · exact copyto_err h
    cases h
  have h1 : DType.pogmStep G P beta sb s = .error .typeError := by
    cases hr : DType.pogmStep G P beta sb s with
    | error e => rw [key e hr]
    | ok t =>
      exfalso
      simp only [DType.pogmStep] at hr
      obtain ⟨u, h1, h⟩ := bind_ok hr
      obtain ⟨z1, h2, h⟩ := bind_ok h
      obtain ⟨z2, h3, h⟩ := bind_ok h
      obtain ⟨z, h4, h⟩ := bind_ok h
      obtain ⟨g1, h5, h⟩ := bind_ok h
      obtain ⟨g, h6, h⟩ := bind_ok h
      obtain ⟨y, h7, h⟩ := bind_ok h
      obtain ⟨u', h8, h⟩ := bind_ok h
      obtain ⟨x', h9, h⟩ := bind_ok h
      obtain ⟨g', h10, h⟩ := bind_ok h
      obtain ⟨y', h11, h⟩ := bind_ok h
      rcases hs with hs | hs
      · rw [copyto_gt (by rw [hs, (iadd_ok h1).1, scale_rank, int_rank, float_rank]; omega)] at h8
        cases h8
      · rw [copyto_gt (by rw [hs, (iadd_ok h7).1, scale_rank, int_rank, float_rank]; omega)] at h11
        cases h11
  induction n with
  | zero => exact h1
  | succ n ih => rw [pogmTyped, ih]

/-- `POGM` with a complex starting array `x` and a real gradient raises `TypeError` too. -/
theorem C123_pogm_real_gradient (G : TArr E → TArr E) (P : TArr E → ℝ → TArr E) (beta sb : ℝ) (s : DType.PogmSt E)
    (hx : s.xOld.kind = .complex) (hg : (G s.xOld).kind ≠ .complex) (n : ℕ) :
    pogmTyped G P beta sb s (n + 1) = .error .typeError := by
  have h1 : DType.pogmStep G P beta sb s = .error .typeError := by
    simp only [DType.pogmStep]
    rw [iadd_gt (by
      rw [scale_rank, hx]
      cases hk : (G s.xOld).kind with
      | int => simp [Kind.rank]
      | float => simp [Kind.rank]
      | complex => exact absurd hk hg)]
    rfl
  induction n with
  | zero => exact h1
  | succ n ih => rw [pogmTyped, ih]

/-- Partial: real or complex starting arrays of one kind `k` are accepted by every update, provided the gradient
always has that kind. -/
theorem C123_pogm_accepts_partial (G : TArr E → TArr E) (P : TArr E → ℝ → TArr E) (beta sb : ℝ) (s : DType.PogmSt E)
    (k : Kind) (hk : k ≠ .int) (hu : s.uOld.kind = k) (hx : s.xOld.kind = k) (hy : s.yOld.kind = k)
    (hz : s.z.kind = k) (hg : s.gOld.kind = k) (hG : ∀ a, a.kind = k → (G a).kind = k)
    (hP : ∀ r, Stays k (P · r)) (n : ℕ) :
    ∃ t, pogmTyped G P beta sb s n = .ok t ∧ t.uOld.kind = k ∧ t.xOld.kind = k ∧ t.yOld.kind = k ∧ t.z.kind = k ∧
      t.gOld.kind = k := by
  have hf : Kind.float.rank ≤ k.rank := by cases k <;> simp_all [Kind.rank]
  have hj : Kind.float.join k = k := by cases k <;> simp_all [Kind.rank, Kind.join]
  induction n with
  | zero => exact ⟨s, rfl, hu, hx, hy, hz, hg⟩
  | succ n ih =>
    obtain ⟨t, ht, tu, tx, ty, tz, tg⟩ := ih
    have g := hG t.xOld tx
    simp only [pogmTyped, ht, DType.pogmStep]
    have sk : ∀ (r : ℝ) (a : TArr E), a.kind = k → (scale r a).kind = k := fun r a ha => by
      show Kind.join _ _ = k; rw [ha, hj]
    have bk : ∀ a b : TArr E, a.kind = k → b.kind = k → (sub a b).kind = k := fun a b ha hb => by
      apply rank_inj; rw [sub_rank, ha, hb, max_self]
    have ia : ∀ a b : TArr E, a.kind = k → b.kind = k → ∃ c, iadd a b = .ok c ∧ c.kind = k := fun a b ha hb =>
      ⟨_, iadd_le (by rw [ha, hb]), ha⟩
    have ib : ∀ a b : TArr E, a.kind = k → b.kind.rank ≤ k.rank → ∃ c, copyto a b = .ok c ∧ c.kind = k :=
      fun a b ha hb => ⟨_, copyto_le (by rw [ha]; exact hb), ha⟩
    obtain ⟨u, h1, ku⟩ := ia _ _ (sk (-beta) _ g) tx
    rw [h1]; simp only [bind, Except.bind]
    obtain ⟨z1, h2, kz1⟩ := ia _ _ (sk (-((t.t - 1) / (0.5 * (1 + Real.sqrt (1 + 4 * t.t ^ 2))) * beta / t.xi)) _
      (bk _ _ tx tz)) ku
    rw [h2]; simp only
    obtain ⟨z2, h3, kz2⟩ := ia z1 _ kz1 (sk ((t.t - 1) / (0.5 * (1 + Real.sqrt (1 + 4 * t.t ^ 2)))) _ (bk _ _ ku tu))
    rw [h3]; simp only
    obtain ⟨z, h4, kz⟩ := ia z2 _ kz2 (sk (t.sigma * t.t / (0.5 * (1 + Real.sqrt (1 + 4 * t.t ^ 2)))) _ (bk _ _ ku tx))
    rw [h4]; simp only
    generalize beta * (1 + (t.t - 1) / (0.5 * (1 + Real.sqrt (1 + 4 * t.t ^ 2))) +
      t.sigma * t.t / (0.5 * (1 + Real.sqrt (1 + 4 * t.t ^ 2)))) = xi
    have px := hP xi z (by rw [kz])
    dsimp only at px
    have ks : (sub z (P z xi)).kind = k := by
      apply rank_inj; rw [sub_rank, kz]; omega
    have h5 : idiv (sub z (P z xi)) xi = .ok ⟨(sub z (P z xi)).kind, (1 / xi) • (sub z (P z xi)).val⟩ :=
      if_pos (by rw [ks]; exact hf)
    rw [h5]; simp only
    obtain ⟨gn, h6, kg⟩ := ia ⟨(sub z (P z xi)).kind, (1 / xi) • (sub z (P z xi)).val⟩ _ ks g
    rw [h6]; simp only
    obtain ⟨y, h7, ky⟩ := ia _ _ (sk (-beta) gn kg) tx
    rw [h7]; simp only
    obtain ⟨a1, h8, k1⟩ := ib _ u tu (by rw [ku])
    rw [h8]; simp only
    obtain ⟨a2, h9, k2⟩ := ib _ (P z xi) tx px
    rw [h9]; simp only
    obtain ⟨a3, h10, k3⟩ := ib _ gn tg (by rw [kg])
    rw [h10]; simp only
    obtain ⟨a4, h11, k4⟩ := ib _ y ty (by rw [ky])
    rw [h11]; simp only
    exact ⟨_, rfl, k1, k2, k4, kz, k3⟩

/-! ## `FastADMM` -/

/-- `n` updates. -/
noncomputable def fastTyped (O : AdmmOps E) (s : DType.FastSt E) : ℕ → Py (DType.FastSt E)
  | 0 => .ok s
  | n + 1 => match fastTyped O s n with
    | .error e => .error e
    | .ok t => DType.fastStep O t

/-- The values. -/
def fastVal (s : DType.FastSt E) : Admm.Fast E :=
  ⟨s.u.val, s.v.val, s.mu.val, s.vHat.map (·.val), s.muHat.map (·.val), s.cOld, s.cNew, s.alphaOld, s.alphaNew, s.eta,
    s.tau⟩

/-- The typed operators compute the given ones. -/
structure AdmmComputes (O : AdmmOps E) (p : Admm.Problem E E) : Prop where
  optH : ∀ a o, (O.optH a o).val = p.optH a.val o.val
  optG : ∀ a o, (O.optG a o).val = p.optG a.val o.val
  A : Computes O.A p.A
  B : Computes O.B p.B
  b : O.b.val = p.b

theorem getD_val (o : Option (TArr E)) (a : TArr E) : (o.getD a).val = (o.map (·.val)).getD a.val := by
  cases o <;> rfl

/-- An update of `FastADMM` that does not raise computes the update of the value model. -/
theorem C123_fast_admm_exact {O : AdmmOps E} {p : Admm.Problem E E} (hO : AdmmComputes O p) (s : DType.FastSt E)
    (n : ℕ) (t : DType.FastSt E) (h : fastTyped O s n = .ok t) :
    Admm.fastAfter p false (fastVal s) n = .ok (fastVal t) := by
  induction n generalizing t with
  | zero => cases h; rfl
  | succ n ih =>
    cases hr : fastTyped O s n with
    | error e => simp only [fastTyped, hr] at h; cases h
    | ok r =>
      simp only [fastTyped, hr, DType.fastStep] at h
      simp only [Admm.fastAfter, ih r hr, Admm.fastStep]
      have e1 : (r.vHat.getD r.v).val = (fastVal r).vHat.getD (fastVal r).v := getD_val _ _
      have e2 : (r.muHat.getD r.mu).val = (fastVal r).muHat.getD (fastVal r).mu := getD_val _ _
      rw [← e1, ← e2]
      generalize r.vHat.getD r.v = vh at h ⊢
      generalize r.muHat.getD r.mu = mh at h ⊢
      have d1 : (fastVal r).u = r.u.val := rfl
      have d2 : (fastVal r).v = r.v.val := rfl
      have d3 : (fastVal r).mu = r.mu.val := rfl
      have d4 : (fastVal r).cOld = r.cOld := rfl
      have d5 : (fastVal r).eta = r.eta := rfl
      have d6 : (fastVal r).tau = r.tau := rfl
      have d7 : (fastVal r).alphaOld = r.alphaOld := rfl
      have v1 : (O.optH r.u (sub (add (O.B vh) r.u) O.b)).val = p.optH r.u.val (p.B vh.val + r.u.val - p.b) := by
        simp only [hO.optH, sub, add, hO.B _, hO.b]
      generalize O.optH r.u (sub (add (O.B vh) r.u) O.b) = u at h v1
      have v2 : (O.optG vh (sub (add (O.A u) r.u) O.b)).val = p.optG vh.val (p.A u.val + r.u.val - p.b) := by
        simp only [hO.optG, sub, add, hO.A _, hO.b]
      generalize O.optG vh (sub (add (O.A u) r.u) O.b) = v at h v2
      have v3 : (add mh (sub (add (O.A u) (O.B v)) O.b)).val = mh.val + (p.A u.val + p.B v.val - p.b) := by
        simp only [sub, add, hO.A _, hO.B _, hO.b]
      generalize add mh (sub (add (O.A u) (O.B v)) O.b) = mu at h v3
      have v4 : (O.B (sub v vh)).val = p.B (v.val - vh.val) := hO.B _
      rw [v4] at h
      rw [d1, d2, d3, d4, d5, d6, d7, ← v1, ← v2, ← v3]
      generalize ‖mu.val - mh.val‖ + r.tau * ‖p.B (v.val - vh.val)‖ = c at h ⊢
      by_cases hb : Admm.below c r.eta r.cOld
      · rw [if_pos hb] at h ⊢
        split at h
        · cases h
        · rename_i u' hu
          split at h
          · cases h
          · rename_i v' hv
            split at h
            · cases h
            · rename_i m' hm
              cases h
              simp only [fastVal, (copyto_ok hu).2, (copyto_ok hv).2, (copyto_ok hm).2, Option.map, add, scale, sub]
              rfl
      · rw [if_neg hb] at h ⊢
        by_cases h0 : r.eta = 0
        · rw [if_pos h0] at h; cases h
        · rw [if_neg h0] at h ⊢
          split at h
          · cases h
          · rename_i u' hu
            split at h
            · cases h
            · rename_i v' hv
              split at h
              · cases h
              · rename_i m' hm
                cases h
                simp only [fastVal, (copyto_ok hu).2, (copyto_ok hv).2, (copyto_ok hm).2, Option.map]
                rfl

theorem ite_same {α : Type} {p : Prop} [Decidable p] {a b c : α} (h1 : a = c) (h2 : b = c) :
    (if p then a else b) = c := by split <;> assumption

/-- Whatever kind the starting arrays `u`, `v` and `mu` have: when `b` is an integer array and the optimiser of `G`
returns real or complex arrays, every run of `FastADMM` raises `TypeError` at the first update. -/
theorem C123_fast_admm_integer_b (O : AdmmOps E) (u v mu : TArr E) (alpha eta tau : ℝ) (heta : eta ≠ 0)
    (hb : O.b.kind = .int) (hG : ∀ a o, (O.optG a o).kind ≠ .int) (n : ℕ) :
    fastTyped O (DType.fastInit O u v mu alpha eta tau) (n + 1) = .error .typeError := by
  have hr : ∀ a o, O.b.kind.rank < (O.optG a o).kind.rank := fun a o => by
    rw [hb]
    cases hk : (O.optG a o).kind with
    | int => exact absurd hk (hG a o)
    | float => simp [Kind.rank]
    | complex => simp [Kind.rank]
  have h1 : DType.fastStep O (DType.fastInit O u v mu alpha eta tau) = .error .typeError := by
    simp only [DType.fastStep, DType.fastInit, if_neg heta]
    refine ite_same ?_ ?_
    · split
      · rename_i e he; rw [copyto_err he]
      · rw [copyto_gt (hr _ _)]
    · refine (if_neg heta).trans ?_
      split
      · rename_i e he; rw [copyto_err he]
      · rw [copyto_gt (hr _ _)]
  induction n with
  | zero => exact h1
  | succ n ih => rw [fastTyped, ih]

/-- The same for an integer starting array `u` and an optimiser of `H` that returns real or complex arrays. -/
theorem C123_fast_admm_integer_start (O : AdmmOps E) (u v mu : TArr E) (alpha eta tau : ℝ) (heta : eta ≠ 0)
    (hu : u.kind = .int) (hH : ∀ a o, (O.optH a o).kind ≠ .int) (n : ℕ) :
    fastTyped O (DType.fastInit O u v mu alpha eta tau) (n + 1) = .error .typeError := by
  have hr : ∀ a o, u.kind.rank < (O.optH a o).kind.rank := fun a o => by
    rw [hu]
    cases hk : (O.optH a o).kind with
    | int => exact absurd hk (hH a o)
    | float => simp [Kind.rank]
    | complex => simp [Kind.rank]
  have h1 : DType.fastStep O (DType.fastInit O u v mu alpha eta tau) = .error .typeError := by
    simp only [DType.fastStep, DType.fastInit, if_neg heta]
    rw [copyto_gt (hr _ _)]
    exact ite_same rfl (if_neg heta)
  induction n with
  | zero => exact h1
  | succ n ih => rw [fastTyped, ih]

/-- Partial: when `u`, `b` and `mu` have the kind `k`, real or complex, that the operators work in, every update is
accepted; the kind of `v` does not matter. -/
theorem C123_fast_admm_accepts_partial (O : AdmmOps E) (u v mu : TArr E) (alpha eta tau : ℝ) (heta : eta ≠ 0)
    (k : Kind) (hk : k ≠ .int) (hu : u.kind = k) (hb : O.b.kind = k) (hmu : mu.kind = k)
    (hH : ∀ a o, a.kind.rank ≤ k.rank → o.kind.rank ≤ k.rank → (O.optH a o).kind.rank ≤ k.rank)
    (hG : ∀ a o, a.kind.rank ≤ k.rank → o.kind.rank ≤ k.rank → (O.optG a o).kind.rank ≤ k.rank)
    (hA : Stays k O.A) (hB : Stays k O.B) (n : ℕ) :
    ∃ t, fastTyped O (DType.fastInit O u v mu alpha eta tau) n = .ok t ∧ t.u.kind = k ∧ t.v.kind = k ∧
      t.mu.kind = k := by
  have hf : Kind.float.rank ≤ k.rank := by cases k <;> simp_all [Kind.rank]
  have key : ∃ t, fastTyped O (DType.fastInit O u v mu alpha eta tau) n = .ok t ∧ t.u.kind = k ∧ t.v.kind = k ∧
      t.mu.kind = k ∧ t.eta = eta ∧ (t.vHat.getD t.v).kind.rank ≤ k.rank ∧ (t.muHat.getD t.mu).kind.rank ≤ k.rank := by
    induction n with
    | zero =>
      refine ⟨_, rfl, hu, hb, hmu, rfl, ?_, ?_⟩
      · show O.b.kind.rank ≤ _; rw [hb]
      · show mu.kind.rank ≤ _; rw [hmu]
    | succ n ih =>
      obtain ⟨t, ht, tu, tv, tm, te, th, tn⟩ := ih
      simp only [fastTyped, ht, DType.fastStep]
      generalize t.vHat.getD t.v = vh at th ⊢
      generalize t.muHat.getD t.mu = mh at tn ⊢
      have b1 := hB vh th
      have a1 := hH t.u (sub (add (O.B vh) t.u) O.b) (by rw [tu]) (by simp only [sub_rank, add_rank, tu, hb]; omega)
      generalize O.optH t.u (sub (add (O.B vh) t.u) O.b) = u' at a1 ⊢
      have b2 := hA u' a1
      have a2 := hG vh (sub (add (O.A u') t.u) O.b) th (by simp only [sub_rank, add_rank, tu, hb]; omega)
      generalize O.optG vh (sub (add (O.A u') t.u) O.b) = v' at a2 ⊢
      have b3 := hB v' a2
      have a3 : (add mh (sub (add (O.A u') (O.B v')) O.b)).kind.rank ≤ k.rank := by
        simp only [sub_rank, add_rank, hb]; omega
      generalize add mh (sub (add (O.A u') (O.B v')) O.b) = m' at a3 ⊢
      rw [te, if_neg heta, copyto_le (by rw [tu]; exact a1), copyto_le (by rw [tv]; exact a2),
        copyto_le (by rw [tm]; exact a3)]
      split
      · refine ⟨_, rfl, tu, tv, tm, rfl, ?_, ?_⟩
        · simp only [Option.getD, add_rank, scale_rank, sub_rank, tv]; omega
        · simp only [Option.getD, add_rank, scale_rank, sub_rank, tm]; omega
      · refine ⟨_, rfl, tu, tv, tm, rfl, ?_, ?_⟩
        · simp only [Option.getD, tv]; omega
        · simp only [Option.getD, tm]; omega
  obtain ⟨t, ht, h1, h2, h3, -⟩ := key
  exact ⟨t, ht, h1, h2, h3⟩

end

/-! ## `PowerMethod` -/

section
variable {E : Type} [NormedAddCommGroup E] [NormedSpace ℝ E]

theorem powLoop_exact (op : E → E) (k ok : Kind) (tol : ℝ) (n : ℕ) (s t : Mat.PowSt E)
    (h : DType.powLoop op k ok tol n s = .ok t) : Mat.powLoop op tol n s = t := by
  induction n generalizing s with
  | zero => cases h; rfl
  | succ n ih =>
    obtain ⟨xo, o, nn⟩ := s
    unfold DType.powLoop at h
    unfold Mat.powLoop
    split at h
    · cases h
    cases xo with
    | none =>
      dsimp only at h ⊢
      split at h
      · exact ih _ h
      · cases h
    | some x =>
      cases o with
      | none =>
        dsimp only at h ⊢
        split at h
        · exact ih _ h
        · cases h
      | some o =>
        dsimp only at h ⊢
        by_cases hc : |‖op x‖ - o| < tol
        · rw [if_pos hc] at h ⊢; cases h; rfl
        · rw [if_neg hc] at h ⊢
          split at h
          · exact ih _ h
          · cases h

theorem powLoop_accepts (op : E → E) (k ok : Kind) (h1 : Kind.float.rank ≤ ok.rank) (h2 : ok.rank ≤ k.rank) (tol : ℝ)
    (n : ℕ) (s : Mat.PowSt E) : DType.powLoop op k ok tol n s = .ok (Mat.powLoop op tol n s) := by
  induction n generalizing s with
  | zero => rfl
  | succ n ih =>
    obtain ⟨xo, o, nn⟩ := s
    unfold DType.powLoop Mat.powLoop
    rw [if_neg (not_lt.2 h1)]
    cases xo with
    | none => dsimp only; rw [if_pos h2, ih]
    | some x =>
      cases o with
      | none => dsimp only; rw [if_pos h2, ih]
      | some o =>
        dsimp only
        rw [if_pos h2, ih]
        split <;> rfl

/-- A result of `PowerMethod`, for whatever data types, is the result of the value model. -/
theorem C123_power_method_exact (op : E → E) (k ok : Kind) (x0 : E) (tol : ℝ) (m : ℕ) (extra : ℝ)
    (r : Option (ℝ × ℝ)) (h : DType.specRad op k ok x0 tol m extra = .ok r) :
    Mat.specRad op x0 tol m extra = .ok r := by
  unfold DType.specRad at h
  unfold Mat.specRad
  split at h
  · cases h
  by_cases hm : m = 0
  · rw [if_pos hm] at h; cases h
  · rw [if_neg hm] at h ⊢
    dsimp only at h ⊢
    split at h
    · cases h
    · rename_i s hs
      rw [powLoop_exact _ _ _ _ _ _ _ hs]
      exact h

/-- `PowerMethod(op, shape, data_type=int)` always raises `TypeError`. -/
theorem C123_power_method_integer_data_type (op : E → E) (ok : Kind) (x0 : E) (tol : ℝ) (m : ℕ) (extra : ℝ) :
    DType.specRad op .int ok x0 tol m extra = .error .typeError := if_pos (by simp [Kind.rank])

/-- An operator whose results are integer arrays makes it raise `TypeError` too. -/
theorem C123_power_method_integer_operator (op : E → E) (k : Kind) (x0 : E) (tol : ℝ) (m : ℕ) (extra : ℝ) :
    DType.specRad op k .int x0 tol (m + 1) extra = .error .typeError := by
  unfold DType.specRad
  split
  · rfl
  · rw [if_neg (by omega)]
    dsimp only
    unfold DType.powLoop
    rw [if_pos (by simp [Kind.rank])]

/-- With the default `data_type=float`, an operator with complex results makes it raise `TypeError`, unless the first
pass already meets the tolerance. -/
theorem C123_power_method_complex_operator (op : E → E) (x0 : E) (hx : x0 ≠ 0) (tol : ℝ)
    (ht : tol ≤ |‖op (‖x0‖⁻¹ • x0)‖ - ‖x0‖|) (m : ℕ) (extra : ℝ) :
    DType.specRad op .float .complex x0 tol (m + 1) extra = .error .typeError := by
  unfold DType.specRad
  rw [if_neg (by simp [Kind.rank]), if_neg (by omega), if_neg (norm_ne_zero_iff.2 hx)]
  dsimp only
  unfold DType.powLoop
  rw [if_neg (by simp [Kind.rank])]
  dsimp only
  rw [if_neg (not_lt.2 ht), if_neg (by simp [Kind.rank])]

/-- Partial: with a real or complex `data_type` of at least the kind of the operator's results, the method gives what the
value model gives. -/
theorem C123_power_method_accepts_partial (op : E → E) (k ok : Kind) (h1 : ok ≠ .int) (h2 : ok.rank ≤ k.rank) (x0 : E)
    (tol : ℝ) (m : ℕ) (extra : ℝ) :
    DType.specRad op k ok x0 tol m extra = Mat.specRad op x0 tol m extra := by
  have h : Kind.float.rank ≤ ok.rank := by cases ok <;> simp_all [Kind.rank]
  unfold DType.specRad Mat.specRad
  rw [if_neg (by omega)]
  split
  · rfl
  · dsimp only
    rw [powLoop_accepts op k ok h h2]

end

/-! ## C124: `SAGAOptGradOpt` -/

section
variable {ι : Type}

/-- A complex table holds the gradients. -/
theorem castTo_complex (z : ℂ) : castTo .complex z = z := rfl

/-- A real table holds exactly the real gradients. -/
theorem castTo_float_iff (z : ℂ) : castTo .float z = z ↔ z.im = 0 := by
  constructor
  · intro h
    have := congrArg Complex.im h
    simpa [castTo] using this.symm
  · intro h
    apply Complex.ext <;> simp [castTo, h]

/-- An integer table holds exactly the integer gradients. -/
theorem castTo_int_iff (z : ℂ) : castTo .int z = z ↔ ∃ m : ℤ, z = m := by
  constructor
  · intro h
    by_cases h0 : 0 ≤ z.re
    · rw [castTo, if_pos h0] at h; exact ⟨_, h.symm⟩
    · rw [castTo, if_neg h0] at h; exact ⟨_, h.symm⟩
  · rintro ⟨m, rfl⟩
    by_cases h0 : 0 ≤ ((m : ℂ)).re
    · rw [castTo, if_pos h0]; simp
    · rw [castTo, if_neg h0]; simp

/-- A gradient below one in size is stored as zero. -/
theorem castTo_int_small (r : ℝ) (h : |r| < 1) : castTo .int r = 0 := by
  obtain ⟨h1, h2⟩ := abs_lt.1 h
  simp only [castTo, Complex.ofReal_re]
  split
  · rename_i h0
    rw [Int.floor_eq_zero_iff.2 ⟨h0, h2⟩]; simp
  · rename_i h0
    have : ⌈r⌉ = 0 := Int.ceil_eq_zero_iff.2 ⟨h1, by linarith⟩
    rw [this]; simp

theorem sagaUpdate_eq (k : Kind) (c : GD.Conf ι ℂ) (hc : c.kind = .saga) (idx : ℕ) (g : (ι → ℂ) → ι → ℂ)
    (s : GD.St ι ℂ) (hg : ∀ i, castTo k (g s.xOld i) = g s.xOld i) : sagaUpdate k c idx g s = GD.update c idx g s := by
  unfold sagaUpdate GD.update
  split
  · rename_i e he; exact he.symm
  · rename_i t ht
    by_cases h0 : c.epochSize = 0
    · rw [if_pos h0] at ht; cases ht
    · rw [if_neg h0] at ht ⊢
      rw [ht]
      cases ht
      simp only [hg]
      congr 1
      split <;> simp only [GD.reset, GD.prepare, GD.updateSpeed, GD.updateDir, hc]

/-- C124, partial: a run in which every gradient is a number of the kind of the starting array (always, for a complex
one) is the run of the value model, for which C57 proves that the table holds the latest gradients. -/
theorem C124_saga_exact_partial (k : Kind) (c : GD.Conf ι ℂ) (hc : c.kind = .saga) (h : GD.History ι ℂ)
    (hg : ∀ p ∈ h, ∀ y i, castTo k (p.2 y i) = p.2 y i) (s : GD.St ι ℂ) : sagaRun k c h s = GD.run c h s := by
  induction h generalizing s with
  | nil => rfl
  | cons p h ih =>
    obtain ⟨idx, g⟩ := p
    unfold sagaRun GD.run
    rw [sagaUpdate_eq k c hc idx g s (hg (idx, g) List.mem_cons_self s.xOld)]
    cases GD.update c idx g s with
    | error e => rfl
    | ok t => exact ih (fun p hp => hg p (List.mem_cons_of_mem _ hp)) t

/-- C124: a complex starting array needs no condition. -/
theorem C124_saga_complex_start_partial (c : GD.Conf ι ℂ) (hc : c.kind = .saga) (h : GD.History ι ℂ) (s : GD.St ι ℂ) :
    sagaRun .complex c h s = GD.run c h s :=
  C124_saga_exact_partial .complex c hc h (fun _ _ _ _ => rfl) s

theorem sagaUpdate_dir (k : Kind) (c : GD.Conf ι ℂ) (hc : c.kind = .saga) (h1 : c.epochSize = 1) (idx : ℕ)
    (g : (ι → ℂ) → ι → ℂ) (s : GD.St ι ℂ) :
    ∃ t, sagaUpdate k c idx g s = .ok t ∧ (∀ i, t.dir i = s.dir i - s.memory 0 i + g s.xOld i) ∧
      ∀ i, t.memory 0 i = castTo k (g s.xOld i) := by
  unfold sagaUpdate GD.update
  rw [if_neg (by omega)]
  refine ⟨_, rfl, fun i => ?_, fun i => ?_⟩
  · dsimp only
    split <;> simp [GD.reset, GD.prepare, GD.updateSpeed, GD.updateDir, hc, h1, Nat.mod_one]
  · simp [h1, Nat.mod_one]

/-- C124, refuted: with a constant gradient `γ` and one slot in the table, the direction should be `γ` at every update.
After `n + 1` updates it is `γ` plus `n` times the part of `γ` that the table cannot store. -/
theorem C124_saga_direction_drifts (k : Kind) (x : ι → ℂ) (prox : (ι → ℂ) → (ι → ℝ) → ι → ℂ) (eta eps : ℝ)
    (f : Option (ℝ → ℕ → ℝ)) (st : Option ℝ) (γ : ι → ℂ) (idx : ℕ) (idxs : List ℕ) :
    ∃ c s t, GD.init .saga x prox (.float eta) (.float eps) f 1 st = .ok (c, s) ∧
      sagaRun k c ((idx :: idxs).map fun j => (j, fun _ => γ)) s = .ok t ∧
      ∀ i, t.dir i = γ i + idxs.length * (γ i - castTo k (γ i)) := by
  refine ⟨⟨.saga, 1, GD.initEps .saga eps, f, prox⟩,
    ⟨x, x, fun _ => 0, GD.initSpeed .saga, eta, 1, 1, fun _ _ => 0⟩, ?_⟩
  generalize hc : (⟨.saga, 1, GD.initEps .saga eps, f, prox⟩ : GD.Conf ι ℂ) = c
  have key : ∀ (l : List ℕ) (s : GD.St ι ℂ) (m : ℕ), (∀ i, s.dir i = γ i + m * (γ i - castTo k (γ i))) →
      (∀ i, s.memory 0 i = castTo k (γ i)) → ∃ t, sagaRun k c (l.map fun j => (j, fun _ => γ)) s = .ok t ∧
      ∀ i, t.dir i = γ i + (m + l.length : ℕ) * (γ i - castTo k (γ i)) := by
    intro l
    induction l with
    | nil => intro s m h1 _; exact ⟨s, rfl, h1⟩
    | cons j l ih =>
      intro s m h1 h2
      obtain ⟨t, ht, d1, d2⟩ := sagaUpdate_dir k c (by rw [← hc]) (by rw [← hc]) j (fun _ => γ) s
      obtain ⟨w, hw, hd⟩ := ih t (m + 1) (fun i => by
        rw [d1, h1, h2]; push_cast; ring) d2
      refine ⟨w, ?_, fun i => ?_⟩
      · simp only [List.map_cons, sagaRun, ht]; exact hw
      · rw [hd, List.length_cons]; congr 2; push_cast; ring
  obtain ⟨t, ht, d1, d2⟩ := sagaUpdate_dir k c (by rw [← hc]) (by rw [← hc]) idx (fun _ => γ)
    ⟨x, x, fun _ => 0, GD.initSpeed .saga, eta, 1, 1, fun _ _ => 0⟩
  obtain ⟨w, hw, hd⟩ := key idxs t 0 (fun i => by rw [d1]; simp) d2
  refine ⟨w, ?_, ?_, fun i => ?_⟩
  · rw [← hc]; rfl
  · simp only [List.map_cons, sagaRun, ht]; exact hw
  · rw [hd, Nat.zero_add]

/-- C124, refuted, for an integer starting array (`np.zeros(n, dtype=int)`, say): a real gradient with entries below one
in size is never stored, so the direction after `n + 1` updates is `n + 1` times the gradient. -/
theorem C124_saga_integer_start (x : ι → ℂ) (prox : (ι → ℂ) → (ι → ℝ) → ι → ℂ) (eta eps : ℝ)
    (f : Option (ℝ → ℕ → ℝ)) (st : Option ℝ) (γ : ι → ℝ) (hγ : ∀ i, |γ i| < 1) (idx : ℕ) (idxs : List ℕ) :
    ∃ c s t, GD.init .saga x prox (.float eta) (.float eps) f 1 st = .ok (c, s) ∧
      sagaRun .int c ((idx :: idxs).map fun j => (j, fun _ i => (γ i : ℂ))) s = .ok t ∧
      ∀ i, t.dir i = (idxs.length + 1) * γ i := by
  obtain ⟨c, s, t, h1, h2, h3⟩ := C124_saga_direction_drifts .int x prox eta eps f st (fun i => (γ i : ℂ)) idx idxs
  refine ⟨c, s, t, h1, h2, fun i => ?_⟩
  rw [h3, castTo_int_small _ (hγ i)]
  ring

/-- C124, refuted, for a real starting array and a complex gradient: the imaginary part accumulates. -/
theorem C124_saga_real_start (x : ι → ℂ) (prox : (ι → ℂ) → (ι → ℝ) → ι → ℂ) (eta eps : ℝ)
    (f : Option (ℝ → ℕ → ℝ)) (st : Option ℝ) (γ : ι → ℂ) (idx : ℕ) (idxs : List ℕ) :
    ∃ c s t, GD.init .saga x prox (.float eta) (.float eps) f 1 st = .ok (c, s) ∧
      sagaRun .float c ((idx :: idxs).map fun j => (j, fun _ => γ)) s = .ok t ∧
      ∀ i, (t.dir i).re = (γ i).re ∧ (t.dir i).im = (idxs.length + 1) * (γ i).im := by
  obtain ⟨c, s, t, h1, h2, h3⟩ := C124_saga_direction_drifts .float x prox eta eps f st γ idx idxs
  refine ⟨c, s, t, h1, h2, fun i => ?_⟩
  rw [h3]
  constructor
  · simp [castTo]
  · simp [castTo]; ring

end

/-! ## Concrete cases -/

/-- A typed halving operator on numbers: real for integer and real arrays, complex for complex ones. -/
noncomputable def halve : TArr ℝ → TArr ℝ := scale (1 / 2)

theorem halve_computes : Computes halve (fun x : ℝ => x / 2) := fun a => by
  show (1 / 2 : ℝ) • a.val = a.val / 2
  rw [smul_eq_mul]; ring

theorem halve_stays (k : Kind) (hk : k ≠ .int) : Stays k halve := fun a ha => by
  have : Kind.float.rank ≤ k.rank := by cases k <;> simp_all [Kind.rank]
  simp only [halve, scale_rank]; omega

theorem id_stays (k : Kind) : ∀ r : ℝ, Stays k (fun a : TArr ℝ => (fun (b : TArr ℝ) (_ : ℝ) => b) a r) :=
  fun _ _ ha => ha

/-- `Condat` on numbers with the gradient `x / 2`, no regularisation and the identity as linear operator. -/
noncomputable def halveOps : CondatOps ℝ := ⟨halve, fun a _ => a, fun a _ => a, id, id⟩

example : CondatComputes halveOps ⟨fun x => x / 2, fun a _ => a, fun a _ => a, id, id⟩ :=
  ⟨halve_computes, fun _ _ => rfl, fun _ _ => rfl, fun _ => rfl, fun _ => rfl⟩

example (U : Condat.Upd) (n : ℕ) :
    ∃ t, condatTyped halveOps U ⟨⟨.float, 3⟩, ⟨.float, 0⟩, 1, 1, 1⟩ n = .ok t ∧ t.x.kind = .float ∧ t.y.kind = .float :=
  C123_condat_accepts_partial halveOps U _ .float (by decide) rfl rfl (halve_stays _ (by decide)) (id_stays _)
    (id_stays _) (fun _ h => h) (fun _ h => h) n

example (U : Condat.Upd) : condatTyped halveOps U ⟨⟨.int, 3⟩, ⟨.float, 0⟩, 1, 1, 1⟩ 1 = .error .typeError :=
  C123_condat_integer_start _ U _ (.inl rfl) 0

example (n : ℕ) : ∃ t, pogmTyped halve (fun a _ => a) 1 1 ⟨⟨.complex, 3⟩, ⟨.complex, 3⟩, ⟨.complex, 3⟩, ⟨.complex, 3⟩,
    ⟨.complex, 0⟩, 1, 1, 1⟩ n = .ok t ∧ t.uOld.kind = .complex ∧ t.xOld.kind = .complex ∧ t.yOld.kind = .complex ∧
    t.z.kind = .complex ∧ t.gOld.kind = .complex :=
  C123_pogm_accepts_partial halve (fun a _ => a) 1 1 _ .complex (by decide) rfl rfl rfl rfl rfl
    (fun a ha => by show Kind.join _ a.kind = _; rw [ha]; rfl) (id_stays _) n

/-- `FastADMM` with two optimisers that return half the observations. -/
noncomputable def halveAdmm (k : Kind) : AdmmOps ℝ := ⟨fun _ o => halve o, fun _ o => halve o, id, id, ⟨k, 4⟩⟩

example (k : Kind) : AdmmComputes (halveAdmm k) ⟨fun _ o => o / 2, fun _ o => o / 2, id, id, 4⟩ :=
  ⟨fun _ o => halve_computes o, fun _ o => halve_computes o, fun _ => rfl, fun _ => rfl, rfl⟩

example (n : ℕ) : ∃ t, fastTyped (halveAdmm .float) (DType.fastInit (halveAdmm .float) ⟨.float, 1⟩ ⟨.int, 1⟩ ⟨.float, 0⟩
    1 1 1) n = .ok t ∧ t.u.kind = .float ∧ t.v.kind = .float ∧ t.mu.kind = .float :=
  C123_fast_admm_accepts_partial _ _ _ _ 1 1 1 one_ne_zero .float (by decide) rfl rfl rfl
    (fun _ o _ h => halve_stays .float (by decide) o h) (fun _ o _ h => halve_stays .float (by decide) o h)
    (fun _ h => h) (fun _ h => h) n

example : fastTyped (halveAdmm .int) (DType.fastInit (halveAdmm .int) ⟨.float, 1⟩ ⟨.float, 1⟩ ⟨.float, 0⟩ 1 1 1) 1 =
    .error .typeError :=
  C123_fast_admm_integer_b _ _ _ _ 1 1 1 one_ne_zero rfl
    (fun _ o => by show Kind.join _ o.kind ≠ _; cases o.kind <;> decide) 0

example : DType.specRad (fun x : ℝ => 2 * x) .float .complex 1 (1 / 10) 20 1 = .error .typeError :=
  C123_power_method_complex_operator _ 1 one_ne_zero _ (by norm_num) 19 1

example : ∃ c s t, GD.init .saga (fun _ : Fin 2 => (0 : ℂ)) (fun x _ => x) (.float 1) (.float 1) none 1 none =
      .ok (c, s) ∧
    sagaRun .int c ([0, 1, 2].map fun j => (j, fun _ _ => ((1 / 2 : ℝ) : ℂ))) s = .ok t ∧
    ∀ i, t.dir i = (([1, 2] : List ℕ).length + 1) * ((1 / 2 : ℝ) : ℂ) :=
  C124_saga_integer_start _ _ 1 1 none none (fun _ => 1 / 2) (fun _ => by rw [abs_lt]; constructor <;> norm_num) 0 [1, 2]

end Verif
