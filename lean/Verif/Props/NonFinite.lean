import Verif.Lemmas.NonFinite

/-!
# C146: NaN and infinite data are never silently replaced
-/

set_option linter.unusedSectionVars false

namespace Verif
open Ext NF

variable {ι κ : Type} [Fintype ι] [Fintype κ]

/-! ## Specification -/

/-- An operator keeps NaN in place: whatever the other entries and the extra factor, an entry that is NaN in the
input is NaN in the output. -/
def KeepsNaN (prox : (ι → Ext ℝ) → ℝ → ι → Ext ℝ) : Prop :=
  ∀ x c i, x i = nan → prox x c i = nan

/-- An operator turns an entry `+∞` into `+∞` or NaN. -/
def KeepsInf (prox : (ι → Ext ℝ) → ℝ → ι → Ext ℝ) : Prop :=
  ∀ x c i, x i = posInf → prox x c i = posInf ∨ prox x c i = nan

/-- The state after `n` updates. -/
noncomputable def nfRun {S : Type} (grad : (ι → Ext ℝ) → ι → Ext ℝ) (prox : (ι → Ext ℝ) → ℝ → ι → Ext ℝ)
    (R : FB.Rules S (ι → Ext ℝ)) (s : FB.St S (ι → Ext ℝ)) : ℕ → FB.St S (ι → Ext ℝ)
  | 0 => s
  | n + 1 => fbStep grad prox R (nfRun grad prox R s n)

/-! ## Operators -/

omit [Fintype ι] in
/-- Soft and hard thresholding, ridge, positivity and the identity keep NaN in place. -/
theorem C146_thresholds_keep_nan (w : ι → ℝ) :
    KeepsNaN (softOp w) ∧ KeepsNaN (hardOp w) ∧ KeepsNaN (NF.ridgeOp w) ∧ KeepsNaN (posOp (ι := ι)) ∧
      KeepsNaN (idOp (ι := ι)) := by
  refine ⟨?_, ?_, ?_, ?_, ?_⟩ <;> intro x c i h
  · simp [softOp, soft, h, Ext.abs, aroundX]
  · simp [hardOp, hard, h, mulBool]
  · simp [NF.ridgeOp, ridge, h]
  · simp [posOp, Positivity.posThresh, h, mulBool]
  · exact h

/-- One NaN in a group makes the whole group NaN, and only it: groups are the columns along the first axis. -/
theorem C146_group_nan (w : κ → ℝ) (x : ι × κ → Ext ℝ) (c : ℝ) (g : ι) (k : κ) (h : x (g, k) = nan) (g' : ι) :
    NF.groupOp w x c (g', k) = nan := by
  simp only [NF.groupOp]
  rw [norm_nan (fun g => x (g, k)) g h]
  simp

/-- Infinite entries: soft and hard thresholding and the identity keep them; a non-negative-weight ridge keeps them;
positivity keeps `+∞` but returns NaN, not zero, for `-∞`. -/
theorem C146_infinite_entries (t : ℝ) (w c : ℝ) (h : 0 ≤ w * c) :
    soft t posInf = posInf ∧ soft t negInf = negInf ∧ hard t posInf = posInf ∧ hard t negInf = negInf ∧
      ridge w c posInf = posInf ∧ ridge w c negInf = negInf ∧ Positivity.posThresh (posInf : Ext ℝ) = posInf ∧
      Positivity.posThresh (negInf : Ext ℝ) = nan := by
  have h2 : ¬ (1 + w * c * 2 < 0) := by linarith
  refine ⟨?_, ?_, ?_, ?_, ?_, ?_, ?_, ?_⟩ <;>
    simp [soft, hard, ridge, Positivity.posThresh, Ext.abs, maximum, div, aroundX, mul, ge, mulBool, gtZero, infOf,
      neg, h2]

/-- On finite entries these operators compute what the models on real arrays compute. -/
theorem C146_finite_entries_agree (w : ι → ℝ) (x : ι → ℝ) (c : ℝ) (i : ι) :
    softOp w (fun i => fin (x i)) c i = fin (around 15 (Noise.softFactor (w i * c) |x i| * x i)) ∧
      hardOp w (fun i => fin (x i)) c i = fin (if w i * c ≤ |x i| then x i else 0) ∧
      posOp (fun i => fin (x i)) c i = fin (if 0 < x i then x i else 0) := by
  refine ⟨?_, ?_, ?_⟩
  · have : max Noise.eps64 |x i| ≠ 0 := by
      have : 0 < Noise.eps64 := by unfold Noise.eps64; positivity
      exact (lt_max_of_lt_left this).ne'
    simp [softOp, soft, fin_div _ _ this, Noise.softFactor]
  · by_cases h : w i * c ≤ |x i|
    · simp [hardOp, hard, ge, mulBool, h]
    · simp [hardOp, hard, ge, mulBool, h]
  · by_cases h : 0 < x i
    · simp [posOp, Positivity.posThresh, gtZero, mulBool, h]
    · simp [posOp, Positivity.posThresh, gtZero, mulBool, h]

/-- The same for group thresholding. -/
theorem C146_finite_group_agrees (w : κ → ℝ) (x : ι × κ → ℝ) (c : ℝ) (i : ι × κ) :
    NF.groupOp w (fun i => fin (x i)) c i = fin (Prox.groupOp w x c i) := by
  have e : Real.sqrt (∑ g, x (g, i.2) * x (g, i.2)) = Prox.normAxis0 x i.2 := by
    simp [Prox.normAxis0, sq]
  have : max (Prox.normAxis0 x i.2) Prox.eps32 ≠ 0 := by
    have : 0 < Prox.eps32 := by unfold Prox.eps32; positivity
    exact (lt_max_of_lt_right this).ne'
  simp only [NF.groupOp, norm_fin, e, fin_max, fin_div _ _ this, fin_sub, fin_mul, Prox.groupOp]
  simp

/-! ## ForwardBackward -/

section Runs
variable {S : Type}

omit [Fintype ι] in
theorem nf_step_nan (grad : (ι → Ext ℝ) → ι → Ext ℝ) (prox : (ι → Ext ℝ) → ℝ → ι → Ext ℝ) (hp : KeepsNaN prox)
    (R : FB.Rules S (ι → Ext ℝ)) (s : FB.St S (ι → Ext ℝ)) (i : ι) (hg : grad s.zOld i = nan) :
    (fbStep grad prox R s).xOld i = nan ∧ (fbStep grad prox R s).zOld i = nan := by
  have h1 : prox (fun i => sub (s.zOld i) (mul (fin s.beta) (grad s.zOld i))) s.beta i = nan := by
    apply hp
    simp [hg]
  refine ⟨h1, ?_⟩
  change (if _ then _ else _ : ι → Ext ℝ) i = nan
  split
  · exact h1
  · change s.xOld i + mul (fin s.lam) (sub (prox _ s.beta i) (s.xOld i)) = nan
    rw [h1]
    simp

/-- Denoising with `ForwardBackward`, whatever the parameters, their update rules, the restart strategy and the other
pixels: a pixel whose datum or starting value is NaN is NaN after every update; it is never replaced by a number. -/
theorem C146_nan_pixel_stays_nan (y : ι → Ext ℝ) (prox : (ι → Ext ℝ) → ℝ → ι → Ext ℝ) (hp : KeepsNaN prox)
    (R : FB.Rules S (ι → Ext ℝ)) (s : FB.St S (ι → Ext ℝ)) (i : ι) (h : y i = nan ∨ s.zOld i = nan) (n : ℕ) :
    (nfRun (idGrad y) prox R s (n + 1)).xOld i = nan ∧ (nfRun (idGrad y) prox R s (n + 1)).zOld i = nan := by
  induction n with
  | zero =>
    apply nf_step_nan _ _ hp
    rcases h with h | h <;> simp [nfRun, idGrad, h]
  | succ n ih =>
    apply nf_step_nan _ _ hp
    simp [idGrad, ih.2]

/-- Any linear operator given by a dense matrix: one NaN observation, or one NaN pixel, makes every pixel NaN from the
first update on, also the pixels on which the observation does not depend (`0 * NaN` is NaN). -/
theorem C146_dense_operator_spreads_nan (M : κ → ι → ℝ) (y : κ → Ext ℝ) (prox : (ι → Ext ℝ) → ℝ → ι → Ext ℝ)
    (hp : KeepsNaN prox) (R : FB.Rules S (ι → Ext ℝ)) (s : FB.St S (ι → Ext ℝ)) (k : κ)
    (h : y k = nan ∨ ∃ j, s.zOld j = nan) (n : ℕ) (i : ι) :
    (nfRun (matGrad M y) prox R s (n + 1)).xOld i = nan ∧ (nfRun (matGrad M y) prox R s (n + 1)).zOld i = nan := by
  have hM : ∀ z : ι → Ext ℝ, (y k = nan ∨ ∃ j, z j = nan) → ∀ i, matGrad M y z i = nan := by
    intro z hz i
    apply sum_nan _ k
    rcases hz with hz | ⟨j, hz⟩
    · simp [hz]
    · have : matMul M z k = nan := sum_nan _ j (by simp [hz])
      simp [this]
  induction n generalizing i with
  | zero => exact nf_step_nan _ _ hp R _ i (hM _ h i)
  | succ n ih => exact nf_step_nan _ _ hp R _ i (hM _ (Or.inr ⟨i, (ih i).2⟩) i)

omit [Fintype ι] in
/-- Denoising with an infinite datum `+∞` and positive initial step and relaxation: the pixel is `+∞` or NaN after the
first update and NaN after every later one. -/
theorem C146_infinite_datum (y : ι → Ext ℝ) (prox : (ι → Ext ℝ) → ℝ → ι → Ext ℝ) (hp : KeepsNaN prox)
    (hi : KeepsInf prox) (R : FB.Rules S (ι → Ext ℝ)) (s : FB.St S (ι → Ext ℝ)) (i : ι) (h : y i = posInf) (a b : ℝ)
    (hz : s.zOld i = fin a) (hx : s.xOld i = fin b) (hβ : 0 < s.beta) (hl : 0 < s.lam) (n : ℕ) :
    ((nfRun (idGrad y) prox R s 1).xOld i = posInf ∨ (nfRun (idGrad y) prox R s 1).xOld i = nan) ∧
      (nfRun (idGrad y) prox R s (n + 2)).xOld i = nan ∧ (nfRun (idGrad y) prox R s (n + 2)).zOld i = nan := by
  have h1 : (fbStep (idGrad y) prox R s).xOld i = posInf ∨ (fbStep (idGrad y) prox R s).xOld i = nan := by
    apply hi
    simp [idGrad, hz, h, sub, neg, Ext.add, mul, infOf, hβ, hβ.ne']
  have h2 : (fbStep (idGrad y) prox R s).zOld i = posInf ∨ (fbStep (idGrad y) prox R s).zOld i = nan := by
    change (if _ then _ else _ : ι → Ext ℝ) i = posInf ∨ (if _ then _ else _ : ι → Ext ℝ) i = nan
    split
    · exact h1
    · change s.xOld i + mul (fin s.lam) (sub ((fbStep (idGrad y) prox R s).xOld i) (s.xOld i)) = posInf ∨
        s.xOld i + mul (fin s.lam) (sub ((fbStep (idGrad y) prox R s).xOld i) (s.xOld i)) = nan
      rcases h1 with h1 | h1
      · left
        rw [h1, hx]
        change Ext.add _ _ = _
        simp [sub, neg, Ext.add, mul, infOf, hl, hl.ne']
      · right
        rw [h1]
        simp
  refine ⟨h1, ?_⟩
  induction n with
  | zero =>
    apply nf_step_nan _ _ hp
    change idGrad y (fbStep (idGrad y) prox R s).zOld i = nan
    rcases h2 with h2 | h2 <;> simp [idGrad, h2, h, sub, neg, Ext.add]
  | succ n ih =>
    apply nf_step_nan _ _ hp
    simp [idGrad, ih.2]

/-- A dense matrix applied to an array with one infinite entry `j`: row `k` gives an infinity of the sign of the
coefficient, and NaN when the coefficient is zero. -/
theorem C146_matrix_infinite_entry (M : κ → ι → ℝ) (x : ι → Ext ℝ) (j : ι) (hj : x j = posInf)
    (hx : ∀ i, i ≠ j → ∃ a, x i = fin a) (k : κ) :
    (0 < M k j → matMul M x k = posInf) ∧ (M k j < 0 → matMul M x k = negInf) ∧ (M k j = 0 → matMul M x k = nan) := by
  classical
  have h1 : ∃ a, (∑ i ∈ Finset.univ.erase j, mul (fin (M k i)) (x i)) = fin a := by
    have : ∀ s : Finset ι, j ∉ s → ∃ a, (∑ i ∈ s, mul (fin (M k i)) (x i)) = fin a := by
      intro s
      induction s using Finset.induction_on with
      | empty => exact fun _ => ⟨0, rfl⟩
      | insert b s hb ih =>
        intro hs
        rw [Finset.mem_insert, not_or] at hs
        obtain ⟨a, ha⟩ := ih hs.2
        obtain ⟨c, hc⟩ := hx b (Ne.symm hs.1)
        exact ⟨M k b * c + a, by rw [Finset.sum_insert hb, ha, hc]; rfl⟩
    exact this _ (by simp)
  obtain ⟨a, ha⟩ := h1
  have h2 : matMul M x k = infOf (M k j) + fin a := by
    unfold matMul
    rw [← Finset.add_sum_erase _ _ (Finset.mem_univ j), ha, hj]
    rfl
  rw [h2]
  refine ⟨fun h => ?_, fun h => ?_, fun h => ?_⟩
  · simp only [infOf, if_neg h.ne', if_pos h]
    rfl
  · simp only [infOf, if_neg h.ne, if_neg h.le.not_gt]
    rfl
  · simp [infOf, h]

/-- An infinite observation: with a dense matrix the pixels it does not depend on are NaN after the first update. -/
theorem C146_infinite_observation (M : κ → ι → ℝ) (y : κ → Ext ℝ) (prox : (ι → Ext ℝ) → ℝ → ι → Ext ℝ)
    (hp : KeepsNaN prox) (R : FB.Rules S (ι → Ext ℝ)) (s : FB.St S (ι → Ext ℝ)) (k : κ)
    (h : y k = posInf ∨ y k = negInf) (hz : ∀ j, ∃ a, s.zOld j = fin a) (i : ι) (hi : M k i = 0) :
    (nfRun (matGrad M y) prox R s 1).xOld i = nan := by
  refine (nf_step_nan _ _ hp R s i ?_).1
  choose a ha using hz
  have h1 : matMul M s.zOld k = fin (∑ j, M k j * a j) := by
    simp only [matMul, ha, fin_mul, sum_fin]
  apply sum_nan _ k
  rcases h with h | h <;> simp [h1, h, sub, neg, Ext.add, mul, infOf, hi]

omit [Fintype ι] in
/-- Without a restart strategy a bad pixel does not contaminate its neighbours: two denoising runs with an entry-wise
operator whose data and starting points agree at pixel `j` agree at pixel `j` after every update. -/
theorem C146_identity_operator_is_local (y y' : ι → Ext ℝ) (f : ι → ℝ → Ext ℝ → Ext ℝ)
    (bu lu : Option (S → ℝ → ℝ × S)) (x x' : ι → Ext ℝ) (xn : Option (ι → Ext ℝ)) (β l : ℝ) (u : S) (j : ι)
    (hy : y j = y' j) (hx : x j = x' j) (n : ℕ) :
    let prox := fun (x : ι → Ext ℝ) c i => f i c (x i)
    let R : FB.Rules S (ι → Ext ℝ) := ⟨bu, lu, fun s _ _ _ => (false, s)⟩
    (nfRun (idGrad y) prox R ⟨x, x, xn, xn, β, l, u⟩ n).xOld j =
      (nfRun (idGrad y') prox R ⟨x', x', xn, xn, β, l, u⟩ n).xOld j := by
  intro prox R
  suffices h : ∀ n, let s := nfRun (idGrad y) prox R ⟨x, x, xn, xn, β, l, u⟩ n
      let s' := nfRun (idGrad y') prox R ⟨x', x', xn, xn, β, l, u⟩ n
      s.xOld j = s'.xOld j ∧ s.zOld j = s'.zOld j ∧ s.beta = s'.beta ∧ s.lam = s'.lam ∧ s.rules = s'.rules from
    (h n).1
  intro n
  induction n with
  | zero => exact ⟨hx, hx, rfl, rfl, rfl⟩
  | succ n ih =>
    obtain ⟨h1, h2, h3, h4, h5⟩ := ih
    have hxn : (nfRun (idGrad y) prox R ⟨x, x, xn, xn, β, l, u⟩ (n + 1)).xOld j =
        (nfRun (idGrad y') prox R ⟨x', x', xn, xn, β, l, u⟩ (n + 1)).xOld j := by
      change f j _ (sub _ (mul (fin _) (sub _ _))) = f j _ (sub _ (mul (fin _) (sub _ _)))
      rw [h2, h3, hy]
    refine ⟨hxn, ?_, ?_, ?_, ?_⟩
    · change Ext.add _ (mul (fin _) (sub ((nfRun (idGrad y) prox R ⟨x, x, xn, xn, β, l, u⟩ (n + 1)).xOld j) _)) =
        Ext.add _ (mul (fin _) (sub ((nfRun (idGrad y') prox R ⟨x', x', xn, xn, β, l, u⟩ (n + 1)).xOld j) _))
      rw [hxn, h1, h4]
    · change (FB.applyUpd bu _ _).1 = (FB.applyUpd bu _ _).1
      rw [h3, h5]
    · change (FB.applyUpd lu (FB.applyUpd bu _ _).2 _).1 = (FB.applyUpd lu (FB.applyUpd bu _ _).2 _).1
      rw [h3, h4, h5]
    · change (FB.applyUpd lu (FB.applyUpd bu _ _).2 _).2 = (FB.applyUpd lu (FB.applyUpd bu _ _).2 _).2
      rw [h3, h4, h5]

end Runs

/-! ## FISTA restarts -/

theorem nf_isRestart_nan (s : Fista.Obj × Option (Ext ℝ)) (z x x' : ι → Ext ℝ) (i : ι) (h : x i = nan) :
    isRestart s z x x' = match s.1.restart with
      | .greedy _ _ _ => (match s.2 with
        | none => (false, s.1, some nan)
        | some _ => (false, { s.1 with safeguard := false }, s.2))
      | _ => (false, s) := by
  have h1 : (∑ i, mul (sub (z i) (x i)) (sub (x i) (x' i))) = nan := sum_nan _ i (by simp [h])
  have h2 : norm (fun i => sub (x i) (x' i)) = nan := norm_nan _ i (by simp [h])
  unfold isRestart
  simp only [h1, h2, nan_ge, mul_nan]
  cases s.1.restart <;> simp
  cases s.2 <;> simp

/-- One NaN pixel switches every restart strategy off for the whole image.  Adaptive strategies: the run is the run
without a restart strategy, for all pixels and parameters. -/
theorem C146_nan_disables_adaptive_restart (y : ι → Ext ℝ) (prox : (ι → Ext ℝ) → ℝ → ι → Ext ℝ) (hp : KeepsNaN prox)
    (f : Fista.Obj) (reset : Bool) (xi : ℝ) (hf : f.restart = .adaptive reset xi) (x : ι → Ext ℝ)
    (xn : Option (ι → Ext ℝ)) (β l : ℝ) (hs : f.safeguard = false) (i : ι) (h : y i = nan) (n : ℕ) :
    let s := nfRun (idGrad y) prox fistaRules ⟨x, x, xn, xn, β, l, (f, none)⟩ n
    let s' := nfRun (idGrad y) prox fistaRules ⟨x, x, xn, xn, β, l, ({ f with restart := .none }, none)⟩ n
    s.xOld = s'.xOld ∧ s.zOld = s'.zOld ∧ s.beta = s'.beta ∧ s.lam = s'.lam := by
  suffices H : ∀ n, let s := nfRun (idGrad y) prox fistaRules ⟨x, x, xn, xn, β, l, (f, none)⟩ n
      let s' := nfRun (idGrad y) prox fistaRules ⟨x, x, xn, xn, β, l, ({ f with restart := .none }, none)⟩ n
      s.xOld = s'.xOld ∧ s.zOld = s'.zOld ∧ s.beta = s'.beta ∧ s.lam = s'.lam ∧
        s'.rules = ({ s.rules.1 with restart := .none }, s.rules.2) ∧ s.rules.1.restart = .adaptive reset xi ∧
        s.rules.1.safeguard = false by
    obtain ⟨h1, h2, h3, h4, -⟩ := H n
    exact ⟨h1, h2, h3, h4⟩
  intro n
  induction n with
  | zero => exact ⟨rfl, rfl, rfl, rfl, rfl, hf, hs⟩
  | succ n ih =>
    intro s s'
    set t := nfRun (idGrad y) prox fistaRules ⟨x, x, xn, xn, β, l, (f, none)⟩ n with ht
    set t' := nfRun (idGrad y) prox fistaRules ⟨x, x, xn, xn, β, l, ({ f with restart := .none }, none)⟩ n with ht'
    have es : s = fbStep (idGrad y) prox fistaRules t := rfl
    have es' : s' = fbStep (idGrad y) prox fistaRules t' := rfl
    clear_value s s' t t'
    obtain ⟨tx, tz, txn, tzn, tb, tl, tr⟩ := t
    obtain ⟨tx', tz', txn', tzn', tb', tl', tr'⟩ := t'
    obtain ⟨h1, h2, h3, h4, h5, h6, h7⟩ := ih
    simp only at h1 h2 h3 h4 h5 h6 h7
    subst h1 h2 h3 h4 h5
    have hn : ∀ g : ι → Ext ℝ, ∀ c, prox (fun k => sub (tz k) (mul (fin c) (idGrad y tz k))) c i = nan := by
      intro g c
      apply hp
      simp [idGrad, h]
    obtain ⟨⟨m, r, tn, tp, d, sg⟩, d0⟩ := tr
    simp only at h6 h7
    subst h6 h7
    have r1 : ∀ a b, isRestart ((⟨m, .adaptive reset xi, tn, tp, d, false⟩ : Fista.Obj), d0) a
        (prox (fun k => sub (tz k) (mul (fin tb) (idGrad y tz k))) tb) b =
        (false, ⟨m, .adaptive reset xi, tn, tp, d, false⟩, d0) := fun a b =>
      nf_isRestart_nan _ _ _ _ i (hn tz tb)
    have r2 : ∀ a b, isRestart ((⟨m, .none, tn, tp, d, false⟩ : Fista.Obj), d0) a
        (prox (fun k => sub (tz k) (mul (fin tb) (idGrad y tz k))) tb) b =
        (false, ⟨m, .none, tn, tp, d, false⟩, d0) := fun a b =>
      nf_isRestart_nan _ _ _ _ i (hn tz tb)
    rw [es, es']
    cases m <;>
    simp [fbStep, fistaRules, r1, r2, FB.applyUpd, Fista.updateBeta, Fista.updateLambda]

/-- The greedy strategy: the momentum is never reset and the step is never reduced by the safeguard, however far the
iterates move. -/
theorem C146_nan_disables_greedy_restart (y : ι → Ext ℝ) (prox : (ι → Ext ℝ) → ℝ → ι → Ext ℝ) (hp : KeepsNaN prox)
    (f : Fista.Obj) (mb sg xi : ℝ) (hf : f.restart = .greedy mb sg xi) (x : ι → Ext ℝ)
    (xn : Option (ι → Ext ℝ)) (β l : ℝ) (hs : f.safeguard = false) (i : ι) (h : y i = nan) (n : ℕ) :
    let s := fun n => nfRun (idGrad y) prox fistaRules ⟨x, x, xn, xn, β, l, (f, none)⟩ n
    (s (n + 1)).beta = β ∧ (s (n + 1)).lam = 2 ∧
      (s (n + 1)).zOld = fun k => (s n).xOld k + mul (fin (s n).lam) (sub ((s (n + 1)).xOld k) ((s n).xOld k)) := by
  suffices H : ∀ n, let s := fun n => nfRun (idGrad y) prox fistaRules ⟨x, x, xn, xn, β, l, (f, none)⟩ n
      (s n).beta = β ∧ (s n).rules.1.restart = .greedy mb sg xi ∧ (s n).rules.1.safeguard = false ∧
      (s (n + 1)).beta = β ∧ (s (n + 1)).lam = 2 ∧
      (s (n + 1)).zOld = fun k => (s n).xOld k + mul (fin (s n).lam) (sub ((s (n + 1)).xOld k) ((s n).xOld k)) by
    exact (H n).2.2.2
  have key : ∀ t : FB.St (Fista.Obj × Option (Ext ℝ)) (ι → Ext ℝ), t.beta = β →
      t.rules.1.restart = .greedy mb sg xi → t.rules.1.safeguard = false →
      let s := fbStep (idGrad y) prox fistaRules t
      s.beta = β ∧ s.rules.1.restart = .greedy mb sg xi ∧ s.rules.1.safeguard = false ∧ s.lam = 2 ∧
        s.zOld = fun k => t.xOld k + mul (fin t.lam) (sub (s.xOld k) (t.xOld k)) := by
    rintro ⟨tx, tz, txn, tzn, tb, tl, ⟨⟨m, r, tn, tp, d, sf⟩, d0⟩⟩ h1 h2 h3
    simp only at h1 h2 h3
    subst h1 h2 h3
    have hn : prox (fun k => sub (tz k) (mul (fin tb) (idGrad y tz k))) tb i = nan := by
      apply hp
      simp [idGrad, h]
    have r1 := fun a b => nf_isRestart_nan ((⟨m, .greedy mb sg xi, tn, tp, d, false⟩ : Fista.Obj), d0) a
        (prox (fun k => sub (tz k) (mul (fin tb) (idGrad y tz k))) tb) b i hn
    cases d0 <;> simp [fbStep, fistaRules, r1, FB.applyUpd, Fista.updateBeta, Fista.updateLambda]
  intro n
  induction n with
  | zero =>
    obtain ⟨h1, -, -, h4, h5⟩ := key ⟨x, x, xn, xn, β, l, (f, none)⟩ rfl hf hs
    exact ⟨rfl, hf, hs, h1, h4, h5⟩
  | succ n ih =>
    obtain ⟨h1, h2, h3, -⟩ := ih
    obtain ⟨k1, k2, k3, -⟩ := key _ h1 h2 h3
    obtain ⟨l1, -, -, l4, l5⟩ := key _ k1 k2 k3
    exact ⟨k1, k2, k3, l1, l4, l5⟩

/-! ## Finite data -/

/-- The finite array seen as an array that could hold infinities. -/
def finArr (x : ι → ℝ) : ι → Ext ℝ := fun i => fin (x i)

/-- The state of a run on real arrays, seen in the extended numbers. -/
def finState (s : FB.St (Fista.Obj × Unit) (ι → ℝ)) : FB.St (Fista.Obj × Option (Ext ℝ)) (ι → Ext ℝ) where
  xOld := finArr s.xOld
  zOld := finArr s.zOld
  xNew := s.xNew.map finArr
  zNew := s.zNew.map finArr
  beta := s.beta
  lam := s.lam
  rules := ({ s.rules.1 with delta0 := none }, s.rules.1.delta0.map fin)

/-- On finite data nothing changes: if the operators return the finite values of the real model, every update of the
extended model with FISTA and any restart strategy is the update of the real model. -/
theorem C146_finite_runs_agree (grad : (ι → ℝ) → ι → ℝ) (prox : (ι → ℝ) → ℝ → ι → ℝ)
    (gradX : (ι → Ext ℝ) → ι → Ext ℝ) (proxX : (ι → Ext ℝ) → ℝ → ι → Ext ℝ)
    (hg : ∀ x, gradX (finArr x) = finArr (grad x)) (hp : ∀ x c, proxX (finArr x) c = finArr (prox x c))
    (s : FB.St (Fista.Obj × Unit) (ι → ℝ)) :
    fbStep gradX proxX fistaRules (finState s) =
      finState (Cx.fbStep grad prox
        (Cx.fistaRulesWith (fun a b => 0 ≤ ∑ i, a i * b i) fun a => Real.sqrt (∑ i, a i * a i)) s) := by
  classical
  obtain ⟨x, z, xn, zn, β, l, ⟨m, r, tn, tp, d, sg⟩, u⟩ := s
  have e1 : (fun i => sub (finArr z i) (mul (fin β) (gradX (finArr z) i))) = finArr (z - β • grad z) := by
    rw [hg]
    funext i
    simp [finArr]
  have e2 : ∀ a : ι → ℝ, (fun i => finArr x i + mul (fin l) (sub (finArr a i) (finArr x i))) =
      finArr (x + l • (a - x)) := by
    intro a
    funext i
    simp [finArr]
  have e3 : ∀ a b c : ι → ℝ, (∑ i, mul (sub (finArr a i) (finArr b i)) (sub (finArr b i) (finArr c i))) =
      fin (∑ i, (a - b) i * (b - c) i) := by
    intro a b c
    simp only [finArr, fin_sub, fin_mul, sum_fin, Pi.sub_apply]
  have e4 : ∀ a b : ι → ℝ, norm (fun i => sub (finArr a i) (finArr b i)) =
      fin (Real.sqrt (∑ i, (a - b) i * (a - b) i)) := by
    intro a b
    simp only [finArr, fin_sub]
    exact norm_fin _
  have e5 : ∀ (m : Fista.Mode) (r : Fista.Restart) (tn tp : ℝ) (d : Option ℝ) (sg : Bool) (a b c : ι → ℝ),
      isRestart ((⟨m, r, tn, tp, none, sg⟩ : Fista.Obj), d.map fin) (finArr a) (finArr b) (finArr c) =
      (let q := Cx.restartWith (fun a b => 0 ≤ ∑ i, a i * b i) (fun a => Real.sqrt (∑ i, a i * a i))
          ⟨m, r, tn, tp, d, sg⟩ a b c
       (q.1, ({ q.2 with delta0 := none }, q.2.delta0.map fin))) := by
    intro m r tn tp d sg a b c
    unfold isRestart Cx.restartWith
    simp only [e3, e4]
    cases r with
    | none => rfl
    | adaptive reset xi =>
      by_cases hc : 0 ≤ ∑ i, (a - b) i * (b - c) i
      · simp only [(fin_ge _ _).mpr hc, if_pos hc, if_true]
        cases m <;> rfl
      · have : ge (fin (∑ i, (a - b) i * (b - c) i)) (fin 0) = false := by
          rw [Bool.eq_false_iff]
          exact fun h => hc ((fin_ge _ _).mp h)
        simp only [this, if_neg hc]
        rfl
    | greedy mb s xi =>
      have hd : ∀ a b : ℝ, ge (fin a) (fin b) = decide (a ≥ b) := fun a b => by simp [ge]
      cases d with
      | none => simp [hd]
      | some d0 => simp [hd]
  have e6 : ∀ (m : Fista.Mode) (r : Fista.Restart) (tn tp : ℝ) (d : Option ℝ) (sg : Bool),
      Fista.updateLambda ⟨m, r, tn, tp, none, sg⟩ =
        ((Fista.updateLambda ⟨m, r, tn, tp, d, sg⟩).1,
          { (Fista.updateLambda ⟨m, r, tn, tp, d, sg⟩).2 with delta0 := none }) ∧
      (Fista.updateLambda ⟨m, r, tn, tp, d, sg⟩).2.delta0 = d := by
    intro m r tn tp d sg
    cases r <;> cases m <;> exact ⟨rfl, rfl⟩
  simp only [fbStep, finState, Cx.fbStep, fistaRules, Cx.fistaRulesWith, FB.applyUpd, e1, e2, hp, e5]
  obtain ⟨q, hq⟩ : ∃ q, Cx.restartWith (fun a b : ι → ℝ => 0 ≤ ∑ i, a i * b i) (fun a => Real.sqrt (∑ i, a i * a i))
    ⟨m, r, tn, tp, d, sg⟩ z (prox (z - β • grad z) β) x = q := ⟨_, rfl⟩
  simp only [hq]
  obtain ⟨b, m, r, tn, tp, d, sg⟩ := q
  obtain ⟨k1, k2⟩ := e6 m r tn tp d sg
  simp only [k1, k2]
  cases b <;> simp [Fista.updateBeta]

/-- The gradients, the data fidelity and ridge on finite data. -/
theorem C146_finite_gradients_agree (M : κ → ι → ℝ) (y : κ → ℝ) (y' x w : ι → ℝ) (c : ℝ) (hw : ∀ i, 0 ≤ w i * c) :
    matGrad M (finArr y) (finArr x) = finArr (fun i => ∑ k, M k i * ((∑ j, M k j * x j) - y k)) ∧
      idGrad (finArr y') (finArr x) = finArr (x - y') ∧
      fidelity (finArr y) (matMul M (finArr x)) = fin (1 / 2 * ∑ k, (y k - ∑ j, M k j * x j) ^ 2) ∧
      NF.ridgeOp w (finArr x) c = finArr (fun i => x i / (1 + 2 * w i * c)) := by
  have e : ∀ k, matMul M (finArr x) k = fin (∑ j, M k j * x j) := fun k => by
    simp only [matMul, finArr, fin_mul, sum_fin]
  refine ⟨?_, ?_, ?_, ?_⟩
  · funext i
    simp only [matGrad, e]
    simp only [matMul, finArr, fin_sub, fin_mul, sum_fin]
  · funext i
    simp [idGrad, finArr]
  · have h0 : 0 ≤ ∑ k, (y k - ∑ j, M k j * x j) * (y k - ∑ j, M k j * x j) :=
      Finset.sum_nonneg fun _ _ => mul_self_nonneg _
    simp only [fidelity, e, finArr, fin_sub, norm_fin, fin_mul, Real.mul_self_sqrt h0]
    simp only [sq]
    norm_num
  · funext i
    have h1 : 1 + w i * c * 2 ≠ 0 := by nlinarith [hw i]
    simp only [NF.ridgeOp, ridge, finArr, fin_div _ _ h1]
    congr 2
    ring

/-! ## The convergence test -/

/-- A cost that is NaN or infinite is never taken for convergence: whatever was recorded before, the interval, the
test range and the tolerance, the call returns `False` or raises. -/
theorem C146_nonfinite_cost_never_converges {X : Type} (calcF : X → Py (Ext ℝ)) (o : Cost.CostObj (Ext ℝ)) (x : X)
    (c : Ext ℝ) (hc : ∀ a, c ≠ fin a) (h : calcF x = .ok c) (hi : ∃ I, o.interval = some I ∧ (o.iteration : ℤ) % I = 0) :
    (NF.getCost calcF o x).2 ≠ .ok true := by
  obtain ⟨I, hi, hm⟩ := hi
  unfold NF.getCost
  rw [hi]
  by_cases h1 : I = 0
  · simp [h1]
  · simp only [if_neg h1, hm, ne_eq, not_true_eq_false, if_false, h]
    have := checkCost_nonfinite { o with cost := c, costList := o.costList ++ [c] } hc
    rw [hi] at this
    simp [this]

/-- The same on finite costs as in the exact model: the test of `Verif.Model.Cost`. -/
theorem C146_finite_cost_agrees (o : Cost.CostObj ℝ) :
    (NF.checkCost ⟨fin o.cost, o.costList.map fin, o.interval, o.iteration, o.testList.map fin, o.testRange,
      fin o.tolerance⟩).2 = (Cost.checkCost o).2 := by
  classical
  unfold NF.checkCost Cost.checkCost
  have e : o.testList.map (fin : ℝ → Ext ℝ) ++ [fin o.cost] = (o.testList ++ [o.cost]).map fin := by simp
  simp only [e, List.length_map, ← List.map_drop, ← List.map_take]
  split
  · simp only
    generalize (o.testList ++ [o.cost]).drop _ = l1
    generalize (o.testList ++ [o.cost]).take _ = l2
    by_cases h1 : l1 = []
    · subst h1
      simp [Cost.costDiff, Cost.mean, NF.mean, NF.costDiff, truthy, aroundX, Ext.abs]
    · simp only [mean_fin l1 h1, Cost.mean, if_neg h1, Cost.costDiff, NF.costDiff, fin_around]
      by_cases h2 : around 16 (l1.sum / (l1.length : ℝ)) = 0
      · simp [h2, truthy, ge]
      · have h3 : |l1.sum / (l1.length : ℝ)| ≠ 0 := by
          intro h
          rw [abs_eq_zero] at h
          apply h2
          rw [around_eq_zero_iff, h]
          norm_num
        rw [if_pos ((truthy_fin _).mpr h2)]
        simp only [ne_eq, h2, not_false_eq_true, if_true]
        by_cases h4 : l2 = []
        · subst h4
          simp [NF.mean, Ext.abs]
        · simp only [mean_fin l2 h4, if_neg h4, fin_sub, fin_abs, fin_div _ _ h3, ge]
  · rfl

/-- NaN data make the data fidelity NaN at every point, so such a run is never declared converged. -/
theorem C146_nan_data_nan_cost (y hx : κ → Ext ℝ) (k : κ) (h : y k = nan ∨ hx k = nan) : fidelity y hx = nan := by
  have : norm (fun k => sub (y k) (hx k)) = nan := norm_nan _ k (by rcases h with h | h <;> simp [h])
  simp [fidelity, this]

omit [Fintype ι] in
theorem nfRun_succ' {S : Type} (grad : (ι → Ext ℝ) → ι → Ext ℝ) (prox : (ι → Ext ℝ) → ℝ → ι → Ext ℝ)
    (R : FB.Rules S (ι → Ext ℝ)) (s : FB.St S (ι → Ext ℝ)) (n : ℕ) :
    nfRun grad prox R (fbStep grad prox R s) n = nfRun grad prox R s (n + 1) := by
  induction n with
  | zero => rfl
  | succ n ih =>
    change fbStep grad prox R _ = fbStep grad prox R _
    rw [ih]

/-- A run on data containing a NaN never stops early, whatever the operator `op`, the regularisation cost `reg`, the
gradient, the proximity operator, the update rules and the cost object's settings: `iterate(max_iter)` performs
exactly `max_iter` updates. -/
theorem C146_nan_data_runs_all_iterations {S : Type} (grad : (ι → Ext ℝ) → ι → Ext ℝ)
    (prox : (ι → Ext ℝ) → ℝ → ι → Ext ℝ) (R : FB.Rules S (ι → Ext ℝ)) (op : (ι → Ext ℝ) → κ → Ext ℝ) (y : κ → Ext ℝ)
    (k : κ) (h : y k = nan) (reg : (ι → Ext ℝ) → Ext ℝ) (s : FB.St S (ι → Ext ℝ)) (o : Cost.CostObj (Ext ℝ))
    (ho : o.interval ≠ some 0) (maxIter : ℕ) :
    let r := Loop.runAlg (fbAlg grad prox R fun x => .ok (fidelity y (op x) + reg x)) maxIter (s, o, false)
    r.trace = (List.range maxIter).map Loop.Ev.update ∧
      ∃ o', r.result = .ok (nfRun grad prox R s maxIter, o', false) := by
  intro r
  set calcF : (ι → Ext ℝ) → Py (Ext ℝ) := fun x => .ok (fidelity y (op x) + reg x) with hcalc
  have hc : ∀ x, calcF x = .ok nan := by
    intro x
    rw [hcalc]
    simp only [C146_nan_data_nan_cost y (op x) k (Or.inl h), nan_add]
  have hget : ∀ (o : Cost.CostObj (Ext ℝ)) x, o.interval ≠ some 0 →
      ∃ o', NF.getCost calcF o x = (o', .ok false) ∧ o'.interval ≠ some 0 := by
    intro o x ho
    unfold NF.getCost
    cases hi : o.interval with
    | none => exact ⟨_, rfl, by simp⟩
    | some I =>
      have hI : I ≠ 0 := by
        rintro rfl
        exact ho hi
      simp only [if_neg hI]
      split
      · exact ⟨_, rfl, by simpa [hi] using hI⟩
      · rw [hc]
        have := checkCost_nonfinite { o with cost := nan, costList := o.costList ++ [nan] } (by simp)
        rw [hi] at this
        refine ⟨_, by simp only [this]; rfl, ?_⟩
        simp only [NF.checkCost]
        split <;> simpa using hI
  suffices H : ∀ (l : List ℕ) (s : FB.St S (ι → Ext ℝ)) (o : Cost.CostObj (Ext ℝ)), o.interval ≠ some 0 →
      (Loop.iterLoop (fbAlg grad prox R calcF) maxIter l (s, o, false)).trace = l.map Loop.Ev.update ∧
      ∃ o', (Loop.iterLoop (fbAlg grad prox R calcF) maxIter l (s, o, false)).result =
        .ok (nfRun grad prox R s l.length, o', false) by
    have := H (List.range maxIter) s o ho
    rw [List.length_range] at this
    exact this
  intro l
  induction l with
  | nil => exact fun s o _ => ⟨rfl, o, rfl⟩
  | cons a l ih =>
    intro s o ho
    obtain ⟨o1, h1, h2⟩ := hget o (fbStep grad prox R s).xOld ho
    obtain ⟨i1, o2, i2⟩ := ih (fbStep grad prox R s) o1 h2
    have e : (fbAlg grad prox R calcF).update a (s, o, false) = .ok (fbStep grad prox R s, o1, false) := by
      simp only [fbAlg, h1]
    have e2 : Loop.iterLoop (fbAlg grad prox R calcF) maxIter (a :: l) (s, o, false) =
        ⟨Loop.Ev.update a :: (Loop.iterLoop (fbAlg grad prox R calcF) maxIter l
          (fbStep grad prox R s, o1, false)).trace, (Loop.iterLoop (fbAlg grad prox R calcF) maxIter l
          (fbStep grad prox R s, o1, false)).result⟩ := by
      rw [Loop.iterLoop, e]
      rfl
    rw [e2]
    refine ⟨by rw [List.map_cons, ← i1], o2, ?_⟩
    rw [List.length_cons, ← nfRun_succ']
    exact i2

/-! ## Non-vacuity -/

/-- A two-pixel image with one NaN, denoised by soft thresholding with FISTA. -/
example : (nfRun (idGrad ![nan, fin 3]) (softOp fun _ => 1) fistaRules
    ⟨fun _ => fin 0, fun _ => fin 0, none, none, 1, 1, (⟨.regular 1 1 4, .adaptive true 0.5, 1, 1, none, false⟩, none)⟩
    5).xOld 0 = nan :=
  (C146_nan_pixel_stays_nan _ _ (C146_thresholds_keep_nan _).1 _ _ 0 (Or.inl rfl) 4).1

example : (nfRun (matGrad (fun _ _ => (0 : ℝ)) (![nan, fin 3] : Fin 2 → Ext ℝ)) (hardOp fun _ : Fin 3 => 1) fistaRules
    ⟨fun _ => fin 0, fun _ => fin 0, none, none, 1, 1, (⟨.regular 1 1 4, .none, 1, 1, none, false⟩, none)⟩
    1).xOld 2 = nan :=
  (C146_dense_operator_spreads_nan _ _ _ (C146_thresholds_keep_nan _).2.1 _ _ 0 (Or.inl rfl) 0 2).1

/-- Soft and hard thresholding keep `+∞`. -/
theorem C146_thresholds_keep_inf (w : ι → ℝ) : KeepsInf (softOp w) ∧ KeepsInf (hardOp w) ∧ KeepsInf (idOp (ι := ι)) := by
  refine ⟨?_, ?_, ?_⟩ <;> intro x c i h <;> left
  · rw [softOp, h]
    exact (C146_infinite_entries _ 0 0 (by norm_num)).1
  · rw [hardOp, h]
    exact (C146_infinite_entries _ 0 0 (by norm_num)).2.2.1
  · exact h

example : (nfRun (idGrad ![posInf, fin 3]) (softOp fun _ => 1) fistaRules
    ⟨fun _ => fin 0, fun _ => fin 0, none, none, 1, 1, (⟨.regular 1 1 4, .none, 1, 1, none, false⟩, none)⟩
    2).xOld 0 = nan :=
  (C146_infinite_datum _ _ (C146_thresholds_keep_nan _).1 (C146_thresholds_keep_inf _).1 _ _ 0 rfl 0 0 rfl rfl
    one_pos one_pos 0).2.1

/-- Restarts switched off, greedy: the hypotheses hold for a fresh FISTA object and a three-pixel image. -/
example (n : ℕ) : (nfRun (idGrad ![nan, fin 3, fin (-1)]) posOp fistaRules
    ⟨fun _ => fin 0, fun _ => fin 0, none, none, 1, 1, (⟨.regular 1 1 4, .greedy 0.1 1.5 0.5, 1, 1, none, false⟩, none)⟩
    (n + 1)).beta = 1 :=
  (C146_nan_disables_greedy_restart _ _ (C146_thresholds_keep_nan fun _ => 0).2.2.2.1 _ 0.1 1.5 0.5 rfl _ none 1 1 rfl
    0 rfl n).1

/-- A cost object with default settings meets the hypotheses of the theorem on the convergence test. -/
example : (NF.getCost (fun _ : Unit => .ok posInf)
    ⟨fin 1, [], some 1, 1, [fin 1, fin 1, fin 1], 4, fin 0.001⟩ ()).2 ≠ .ok true :=
  C146_nonfinite_cost_never_converges _ _ _ posInf (by simp) rfl ⟨1, rfl, by simp⟩

end Verif
