import Verif.Props.ForwardBackward
import Verif.Core.F64

/-!
# C46, C47: `GenForwardBackward`
-/

set_option linter.unusedSectionVars false

namespace Verif
open FB Spec RealInnerProductSpace

/-! ## C46 -/

/-- C46 in exact arithmetic: the default weights are accepted for every positive number of operators and are
all `1/n`.  (Missing for the full claim: rounding, see the refutation below.) -/
theorem C46_default_weights_partial (n : ℕ) (hn : 0 < n) :
    setWeights (K := ℚ) (fun n => 1 / (n : ℚ)) List.sum n .none = .ok (List.replicate n (1 / (n : ℚ))) := by
  have hn' : (n : ℚ) ≠ 0 := by exact_mod_cast hn.ne'
  simp [setWeights, bind, Except.bind, hn.ne', List.sum_replicate, hn']

/-- C46, refuted in binary64: six proximity operators with default weights are refused with `ValueError`. -/
theorem C46_default_weights_refused_in_binary64 :
    setWeights (fun n => F64.rn (1 / (n : ℚ))) F64.fsum 6 .none = .error .valueError := by
  have r1 : F64.rn (1 / 6) = 6004799503160661 / 2 ^ 55 := by
    rw [F64.rn_eq (-55) (by norm_num) (by norm_num)]
    have : ⌊(1 / 6 / 2 ^ (-55 : ℤ) : ℚ)⌋ = 6004799503160661 := by rw [Int.floor_eq_iff]; norm_num
    simp only [F64.roundEven, this]
    norm_num
  have a1 : F64.rn (0 + 6004799503160661 / 2 ^ 55) = 6004799503160661 / 2 ^ 55 := by
    rw [F64.rn_eq (-55) (by norm_num) (by norm_num)]
    have : ⌊((0 + 6004799503160661 / 2 ^ 55) / 2 ^ (-55 : ℤ) : ℚ)⌋ = 6004799503160661 := by
      rw [Int.floor_eq_iff]; norm_num
    simp only [F64.roundEven, this]
    norm_num
  have a2 : F64.rn (6004799503160661 / 2 ^ 55 + 6004799503160661 / 2 ^ 55) = 6004799503160661 / 2 ^ 54 := by
    rw [F64.rn_eq (-54) (by norm_num) (by norm_num)]
    have : ⌊((6004799503160661 / 2 ^ 55 + 6004799503160661 / 2 ^ 55) / 2 ^ (-54 : ℤ) : ℚ)⌋
        = 6004799503160661 := by
      rw [Int.floor_eq_iff]; norm_num
    simp only [F64.roundEven, this]
    norm_num
  have a3 : F64.rn (6004799503160661 / 2 ^ 54 + 6004799503160661 / 2 ^ 55) = 1 / 2 := by
    rw [F64.rn_eq (-54) (by norm_num) (by norm_num)]
    have : ⌊((6004799503160661 / 2 ^ 54 + 6004799503160661 / 2 ^ 55) / 2 ^ (-54 : ℤ) : ℚ)⌋
        = 9007199254740991 := by
      rw [Int.floor_eq_iff]; norm_num
    simp only [F64.roundEven, this]
    norm_num
  have a4 : F64.rn (1 / 2 + 6004799503160661 / 2 ^ 55) = 6004799503160661 / 2 ^ 53 := by
    rw [F64.rn_eq (-53) (by norm_num) (by norm_num)]
    have : ⌊((1 / 2 + 6004799503160661 / 2 ^ 55) / 2 ^ (-53 : ℤ) : ℚ)⌋ = 6004799503160661 := by
      rw [Int.floor_eq_iff]; norm_num
    simp only [F64.roundEven, this]
    norm_num
  have a5 : F64.rn (6004799503160661 / 2 ^ 53 + 6004799503160661 / 2 ^ 55) = 7505999378950826 / 2 ^ 53 := by
    rw [F64.rn_eq (-53) (by norm_num) (by norm_num)]
    have : ⌊((6004799503160661 / 2 ^ 53 + 6004799503160661 / 2 ^ 55) / 2 ^ (-53 : ℤ) : ℚ)⌋
        = 7505999378950826 := by
      rw [Int.floor_eq_iff]; norm_num
    simp only [F64.roundEven, this]
    norm_num
  have a6 : F64.rn (7505999378950826 / 2 ^ 53 + 6004799503160661 / 2 ^ 55) = 9007199254740991 / 2 ^ 53 := by
    rw [F64.rn_eq (-53) (by norm_num) (by norm_num)]
    have : ⌊((7505999378950826 / 2 ^ 53 + 6004799503160661 / 2 ^ 55) / 2 ^ (-53 : ℤ) : ℚ)⌋
        = 9007199254740991 := by
      rw [Int.floor_eq_iff]; norm_num
    simp only [F64.roundEven, this]
    norm_num
  have hs : F64.fsum (List.replicate 6 (F64.rn (1 / 6))) = 9007199254740991 / 2 ^ 53 := by
    rw [r1]
    simp only [F64.fsum, List.replicate, List.foldl, a1, a2, a3, a4, a5, a6]
  have e : ((6 : ℕ) : ℚ) = 6 := by norm_num
  simp only [setWeights, bind, Except.bind, e]
  norm_num
  intro h
  rw [hs] at h
  norm_num at h

/-- C46: user weights are accepted exactly when they are floats, as many as there are operators, and their
sum as computed is exactly 1; everything else is refused with `ValueError`, or `TypeError` when it is not a
sequence. -/
theorem C46_user_weights {K : Type} [DecidableEq K] [One K] (inv : ℕ → K) (fsum : List K → K) (n : ℕ) :
    (∀ (l : List K) (fl : Bool), setWeights inv fsum n (.seq l fl) = .ok l ↔
      fl = true ∧ l.length = n ∧ fsum l = 1) ∧
    (∀ (l : List K) (fl : Bool), ¬(fl = true ∧ l.length = n ∧ fsum l = 1) →
      setWeights inv fsum n (.seq l fl) = .error .valueError) ∧
    setWeights inv fsum n .other = .error .typeError := by
  refine ⟨fun l fl => ?_, fun l fl h => ?_, rfl⟩
  · cases fl <;> by_cases h1 : l.length = n <;> by_cases h2 : fsum l = 1 <;>
      simp [setWeights, bind, Except.bind, h1, h2]
  · cases fl <;> by_cases h1 : l.length = n <;> by_cases h2 : fsum l = 1 <;>
      simp_all [setWeights, bind, Except.bind]

example : setWeights (K := ℚ) (fun n => 1 / n) List.sum 2 (.seq [1/4, 3/4] true) = .ok [1/4, 3/4] :=
  ((C46_user_weights _ _ 2).1 _ _).2 ⟨rfl, rfl, by norm_num⟩
example : setWeights (K := ℚ) (fun n => 1 / n) List.sum 2 (.seq [1/4, 1/4] true) = .error .valueError :=
  (C46_user_weights _ _ 2).2.1 _ _ (by norm_num)

/-! ## C47 -/

section
variable {E : Type} [NormedAddCommGroup E] [InnerProductSpace ℝ E] {S : Type}

/-- One non-smooth term: its domain, the function, its proximity operator, its weight. -/
structure Term (E : Type) where
  C : Set E
  g : E → ℝ
  prox : E → ℝ → E
  w : ℝ

/-- A well-formed term: convex, with an exact proximity operator and a positive weight. -/
structure Term.Ok (t : Term E) : Prop where
  convex : ConvexOn ℝ t.C t.g
  exact : ExactProx t.C t.g t.prox
  pos : 0 < t.w

/-- The points in all the domains. -/
def feasible (ts : List (Term E)) : Set E := {x | ∀ t ∈ ts, x ∈ t.C}

/-- `∑ gᵢ(x)`. -/
def sumG (ts : List (Term E)) (x : E) : ℝ := (ts.map fun t => t.g x).sum

theorem genZ_fixed {x G : E} {gamma lam : ℝ} (hl : lam ≠ 0) :
    ∀ (ts : List (Term E)) (zs : List E), zs.length = ts.length →
    (genZ x G gamma lam (ts.map (·.prox)) zs (ts.map (·.w)) = zs ↔
      ∀ p ∈ ts.zip zs, p.1.prox ((2 : ℝ) • x - p.2 - gamma • G) (gamma / p.1.w) = x)
  | [], [], _ => by simp [genZ]
  | t :: ts, z :: zs, h => by
    have ih := genZ_fixed (x := x) (G := G) (gamma := gamma) hl ts zs (by simpa using h)
    simp only [List.map_cons, genZ, List.cons.injEq, ih, List.zip_cons_cons, List.mem_cons, forall_eq_or_imp]
    have : z + lam • (t.prox ((2 : ℝ) • x - z - gamma • G) (gamma / t.w) - x) = z ↔
        t.prox ((2 : ℝ) • x - z - gamma • G) (gamma / t.w) = x := by
      rw [add_eq_left, smul_eq_zero, sub_eq_zero]
      simp [hl]
    rw [this]

theorem gen_sum {x G u : E} {gamma : ℝ} (hg : 0 < gamma) :
    ∀ (ts : List (Term E)) (zs : List E), zs.length = ts.length → (∀ t ∈ ts, t.Ok) → u ∈ feasible ts →
    (∀ p ∈ ts.zip zs, p.1.prox ((2 : ℝ) • x - p.2 - gamma • G) (gamma / p.1.w) = x) →
    (ts.map (·.w)).sum * ⟪x - gamma • G, u - x⟫
      - ⟪(List.zipWith (fun z w => (w : ℝ) • z) zs (ts.map (·.w))).sum, u - x⟫
      ≤ gamma * (sumG ts u - sumG ts x) ∧ x ∈ feasible ts
  | [], [], _, _, _, _ => by simp [sumG, feasible]
  | t :: ts, z :: zs, h, hok, hu, hp => by
    have hu2 : u ∈ feasible ts := fun s hs => hu s (List.mem_cons_of_mem _ hs)
    obtain ⟨ih, ihx⟩ := gen_sum (x := x) (G := G) (u := u) hg ts zs (by simpa using h)
      (fun s hs => hok s (List.mem_cons_of_mem _ hs)) hu2
      (fun p hpm => hp p (by rw [List.zip_cons_cons]; exact List.mem_cons_of_mem _ hpm))
    have ht := hok t List.mem_cons_self
    have hpt := hp (t, z) (by rw [List.zip_cons_cons]; exact List.mem_cons_self)
    simp only at hpt
    have hb : 0 < gamma / t.w := div_pos hg ht.pos
    have hx := ht.exact ((2 : ℝ) • x - z - gamma • G) (gamma / t.w) hb
    rw [hpt] at hx
    have hv := hx.variational ht.convex hb.le (hu t List.mem_cons_self)
    have e : (2 : ℝ) • x - z - gamma • G - x = (x - gamma • G) - z := by module
    rw [e, inner_sub_left (x - gamma • G)] at hv
    have hv2 := mul_le_mul_of_nonneg_left hv ht.pos.le
    have e2 : t.w * (gamma / t.w * (t.g u - t.g x)) = gamma * (t.g u - t.g x) := by
      field_simp [ht.pos.ne']
    constructor
    · simp only [List.map_cons, List.sum_cons, List.zipWith_cons_cons, sumG] at ih ⊢
      rw [inner_add_left, real_inner_smul_left]
      nlinarith
    · intro s hs
      rcases List.mem_cons.1 hs with rfl | hs
      · exact hx.1
      · exact ihx s hs

/-- C47: if an update with `λ ≠ 0` leaves all auxiliary variables unchanged and the current solution is
their weighted mean (as it is after any update), then the solution minimises `F + ∑ gᵢ`. -/
theorem C47_fixed_points_minimise {F : E → ℝ} {G : E → E} (hF : AboveTangents F G) (ts : List (Term E))
    (hok : ∀ t ∈ ts, t.Ok) (hw : (ts.map (·.w)).sum = 1) (gu lu : Option (S → ℝ → ℝ × S)) (s : GenSt S E)
    (hg : 0 < s.gamma) (hl : s.lam ≠ 0) (hlen : s.z.length = ts.length)
    (hmean : s.xOld = (List.zipWith (fun z w => (w : ℝ) • z) s.z (ts.map (·.w))).sum)
    (hfix : (genStep G (ts.map (·.prox)) (ts.map (·.w)) gu lu s).z = s.z) :
    Minimises (feasible ts) (fun x => F x + sumG ts x) s.xOld := by
  have h1 := (genZ_fixed hl ts s.z hlen).1 hfix
  have hx : ∀ u ∈ feasible ts, s.xOld ∈ feasible ts ∧ sumG ts s.xOld - sumG ts u ≤ ⟪G s.xOld, u - s.xOld⟫ := by
    intro u hu
    obtain ⟨h2, h3⟩ := gen_sum hg ts s.z hlen hok hu h1
    refine ⟨h3, ?_⟩
    rw [hw, ← hmean, one_mul, inner_sub_left s.xOld, real_inner_smul_left] at h2
    have : s.gamma * (sumG ts s.xOld - sumG ts u) ≤ s.gamma * ⟪G s.xOld, u - s.xOld⟫ := by linarith
    exact le_of_mul_le_mul_left this hg
  have hxf : s.xOld ∈ feasible ts := by
    intro t ht
    obtain ⟨z, hz⟩ : ∃ z, (t, z) ∈ ts.zip s.z := by
      obtain ⟨i, hi, rfl⟩ := List.getElem_of_mem ht
      exact ⟨s.z[i]'(by omega), by
        rw [List.mem_iff_getElem]
        exact ⟨i, by simp [hlen, hi], by simp⟩⟩
    have h := h1 _ hz
    have hb : 0 < s.gamma / t.w := div_pos hg (hok t ht).pos
    have := ((hok t ht).exact ((2 : ℝ) • s.xOld - z - s.gamma • G s.xOld) _ hb).1
    simp only at h
    rwa [h] at this
  exact minimises_of_first_order hF hxf fun u hu => (hx u hu).2

/-- C47, converse: a minimiser certified by a splitting of the optimality condition (`vᵢ` a subgradient of
`gᵢ` at `x`, `∇F(x) + ∑ vᵢ = 0`) is a fixed point, with explicit auxiliary variables. -/
theorem C47_minimisers_are_fixed {G : E → E} (ts : List (Term E × E)) (hok : ∀ t ∈ ts, t.1.Ok)
    (hw : (ts.map (·.1.w)).sum = 1) (x : E) (hx : ∀ t ∈ ts, x ∈ t.1.C)
    (hv : ∀ t ∈ ts, ∀ u ∈ t.1.C, t.1.g x + ⟪t.2, u - x⟫ ≤ t.1.g u) (hsum : G x + (ts.map (·.2)).sum = 0)
    (gamma lam : ℝ) (hg : 0 < gamma) (hl : lam ≠ 0) (r : S) :
    let s : GenSt S E := ⟨x, ts.map fun t => x - gamma • G x - (gamma / t.1.w) • t.2, gamma, lam, r⟩
    genStep G (ts.map (·.1.prox)) (ts.map (·.1.w)) none none s = s := by
  intro s
  have hz : genZ x (G x) gamma lam (ts.map (·.1.prox)) s.z (ts.map (·.1.w)) = s.z := by
    have := (genZ_fixed (x := x) (G := G x) (gamma := gamma) hl (ts.map (·.1)) s.z (by simp [s])).2 ?_
    · simpa [Function.comp_def] using this
    · intro p hp
      have hp' : p ∈ (ts.map fun t => (t.1, x - gamma • G x - (gamma / t.1.w) • t.2)) := by
        have e : (ts.map (·.1)).zip s.z = ts.map fun t => (t.1, x - gamma • G x - (gamma / t.1.w) • t.2) := by
          simp [s, List.zip_map']
        rwa [← e]
      obtain ⟨t, ht, rfl⟩ := List.mem_map.1 hp'
      have hpos := (hok t ht).pos
      have hb : 0 < gamma / t.1.w := div_pos hg hpos
      have hex := (hok t ht).exact ((2 : ℝ) • x - (x - gamma • G x - (gamma / t.1.w) • t.2) - gamma • G x)
        (gamma / t.1.w) hb
      refine hex.unique (hok t ht).convex hb.le (isProxOn_of_variational (hx t ht) fun u hu => ?_)
      have e : (2 : ℝ) • x - (x - gamma • G x - (gamma / t.1.w) • t.2) - gamma • G x - x
          = (gamma / t.1.w) • t.2 := by module
      rw [e, real_inner_smul_left]
      have := mul_le_mul_of_nonneg_left (hv t ht u hu) hb.le
      linarith
  have hm : (List.zipWith (fun z w => (w : ℝ) • z) s.z (ts.map (·.1.w))).sum = x := by
    have key : ∀ l : List (Term E × E), (∀ t ∈ l, t.1.Ok) →
        (List.zipWith (fun z w => (w : ℝ) • z) (l.map fun t => x - gamma • G x - (gamma / t.1.w) • t.2)
          (l.map (·.1.w))).sum = (l.map (·.1.w)).sum • (x - gamma • G x) - gamma • (l.map (·.2)).sum := by
      intro l hl
      induction l with
      | nil => simp
      | cons t l ih =>
        have ht := (hl t List.mem_cons_self).pos
        simp only [List.map_cons, List.zipWith_cons_cons, List.sum_cons,
          ih fun s hs => hl s (List.mem_cons_of_mem _ hs)]
        have : t.1.w • (x - gamma • G x - (gamma / t.1.w) • t.2)
            = t.1.w • (x - gamma • G x) - (t.1.w * (gamma / t.1.w)) • t.2 := by module
        rw [this, mul_div_cancel₀ _ ht.ne']
        module
    rw [key ts hok, hw]
    have e : (ts.map (·.2)).sum = -G x := by rw [eq_neg_iff_add_eq_zero, add_comm]; exact hsum
    rw [e]
    module
  simp only [genStep, applyUpd]
  rw [hz, hm]

/-- State after `n` updates. -/
noncomputable def genAfter (G : E → E) (prox : List (E → ℝ → E)) (w : List ℝ)
    (gu lu : Option (S → ℝ → ℝ × S)) (s : GenSt S E) : ℕ → GenSt S E
  | 0 => s
  | n + 1 => genStep G prox w gu lu (genAfter G prox w gu lu s n)

/-- C47: from the constructor's state the current solution is always the weighted mean of the auxiliary
variables: the hypothesis of `C47_fixed_points_minimise` holds in every reachable state. -/
theorem C47_mean_invariant (G : E → E) (ts : List (Term E)) (hw : (ts.map (·.w)).sum = 1)
    (gu lu : Option (S → ℝ → ℝ × S)) (x0 : E) (gamma lam : ℝ) (r : S) (n : ℕ) :
    let s := genAfter G (ts.map (·.prox)) (ts.map (·.w)) gu lu (genInit x0 ts.length gamma lam r) n
    s.z.length = ts.length ∧
    s.xOld = (List.zipWith (fun z w => (w : ℝ) • z) s.z (ts.map (·.w))).sum := by
  have hlen : ∀ (x g : E) (gm lm : ℝ) (ts : List (Term E)) (zs : List E), zs.length = ts.length →
      (genZ x g gm lm (ts.map (·.prox)) zs (ts.map (·.w))).length = ts.length := by
    intro x g gm lm ts
    induction ts with
    | nil => intro zs h; simp [genZ]
    | cons t ts ih =>
      intro zs h
      cases zs with
      | nil => simp at h
      | cons z zs => simp only [List.map_cons, genZ, List.length_cons]; rw [ih zs (by simpa using h)]
  induction n with
  | zero =>
    refine ⟨by simp [genAfter, genInit], ?_⟩
    have key : ∀ l : List ℝ, (List.zipWith (fun (z : E) w => (w : ℝ) • z) (List.replicate l.length x0) l).sum
        = l.sum • x0 := by
      intro l
      induction l with
      | nil => simp
      | cons a l ih => simp only [List.length_cons, List.replicate_succ, List.zipWith_cons_cons, List.sum_cons, ih,
          add_smul]
    have := key (ts.map (·.w))
    rw [hw, one_smul, List.length_map] at this
    exact this.symm
  | succ n ih =>
    simp only at ih ⊢
    exact ⟨hlen _ _ _ _ _ _ ih.1, rfl⟩

/-- C47: with a single operator and `λ = 1`, GenForwardBackward and ForwardBackward (without acceleration)
produce the same iterates. -/
theorem C47_single_operator (G : E → E) (prox : E → ℝ → E) (x0 : E) (gamma : ℝ) (r : S) (n : ℕ) :
    (genAfter G [prox] [1] none none (genInit x0 1 gamma 1 r) n).xOld =
      (afterSteps G prox (userRules none none) ⟨x0, x0, none, none, gamma, 1, r⟩ n).xOld := by
  have inv : ∀ n, let s := genAfter G [prox] [1] none none (genInit x0 1 gamma 1 r) n
      let f := afterSteps G prox (userRules none none) ⟨x0, x0, none, none, gamma, 1, r⟩ n
      s.z = [s.xOld] ∧ s.gamma = gamma ∧ s.lam = 1 ∧ f.xOld = s.xOld ∧ f.zOld = s.xOld ∧ f.beta = gamma ∧
      f.lam = 1 := by
    intro n
    induction n with
    | zero => exact ⟨rfl, rfl, rfl, rfl, rfl, rfl, rfl⟩
    | succ n ih =>
      simp only at ih
      simp only [genAfter, afterSteps]
      generalize genAfter G [prox] [1] none none (genInit x0 1 gamma 1 r) n = s at *
      generalize afterSteps G prox (userRules none none) ⟨x0, x0, none, none, gamma, 1, r⟩ n = f at *
      obtain ⟨h1, h2, h3, h4, h5, h6, h7⟩ := ih
      have e : (2 : ℝ) • s.xOld - s.xOld - gamma • G s.xOld = s.xOld - gamma • G s.xOld := by module
      refine ⟨?_, ?_, ?_, ?_, ?_, ?_, ?_⟩ <;>
        simp [genStep, genZ, step, userRules, applyUpd, h1, h2, h3, h4, h5, h6, h7, e]
  exact (inv n).2.2.2.1.symm

end

/-- Non-vacuity of C47: `½(x-3)² + |x| + |x|` with weights `1/4, 3/4`; the minimiser `1` is a fixed point
(subgradients `1` and `1`). -/
example : let s : GenSt Unit ℝ := ⟨1, [1 + 2 - 4, 1 + 2 - 4 / 3], 1, 1, ()⟩
    genStep (fun x : ℝ => x - 3) [softR, softR] [1/4, 3/4] none none s = s := by
  have := C47_minimisers_are_fixed (S := Unit) (G := fun x : ℝ => x - 3)
    [((⟨Set.univ, fun x => |x|, softR, 1/4⟩ : Term ℝ), (1 : ℝ)), (⟨Set.univ, fun x => |x|, softR, 3/4⟩, 1)]
    (by
      intro t ht
      simp only [List.mem_cons, List.not_mem_nil, or_false] at ht
      rcases ht with rfl | rfl
      · exact ⟨abs_convex, softR_exact, by norm_num⟩
      · exact ⟨abs_convex, softR_exact, by norm_num⟩)
    (by norm_num) 1
    (by
      intro t ht
      simp only [List.mem_cons, List.not_mem_nil, or_false] at ht
      rcases ht with rfl | rfl <;> exact Set.mem_univ _)
    (by
      intro t ht u _
      simp only [List.mem_cons, List.not_mem_nil, or_false] at ht
      have := le_abs_self u
      rcases ht with rfl | rfl <;> simp <;> linarith)
    (by norm_num) 1 1 one_pos one_ne_zero ()
  norm_num at this ⊢
  exact this

end Verif
