import Verif.Model.Convolve
import Verif.Spec.Convolve
import Verif.Lemmas.Transform
import Verif.Props.NpAdjust
import Mathlib.Algebra.BigOperators.Ring.Finset
import Mathlib.Algebra.BigOperators.Group.Finset.Sigma

/-!
# Lemmas on convolutions
-/

set_option linter.unusedSectionVars false

namespace Verif
open NDArray Convolve NpAdjust Spec

variable {K : Type} [CommRing K] [Inhabited K]

theorem sum_allIdx_cons (n : ℕ) (s : List ℕ) (f : List ℕ → K) :
    ((allIdx (n :: s)).map f).sum
      = ∑ i ∈ Finset.range n, ((allIdx s).map fun idx => f (i :: idx)).sum := by
  simp only [allIdx]
  induction n with
  | zero => simp
  | succ n ih =>
    rw [List.range_succ, List.flatMap_append, List.map_append, List.sum_append, ih,
      Finset.sum_range_succ]
    simp [Function.comp_def]

theorem sum_allIdx_two (r c : ℕ) (f : List ℕ → K) :
    ((allIdx [r, c]).map f).sum = ∑ i ∈ Finset.range r, ∑ j ∈ Finset.range c, f [i, j] := by
  rw [sum_allIdx_cons]
  refine Finset.sum_congr rfl fun i _ => ?_
  rw [sum_allIdx_cons]
  refine Finset.sum_congr rfl fun j _ => ?_
  simp [allIdx]

theorem sum_allIdx_three (n r c : ℕ) (f : List ℕ → K) :
    ((allIdx [n, r, c]).map f).sum
      = ∑ k ∈ Finset.range n, ∑ i ∈ Finset.range r, ∑ j ∈ Finset.range c, f [k, i, j] := by
  rw [sum_allIdx_cons]
  exact Finset.sum_congr rfl fun i _ => sum_allIdx_two _ _ _

theorem sum_allIdx_four (n m r c : ℕ) (f : List ℕ → K) :
    ((allIdx [n, m, r, c]).map f).sum
      = ∑ l ∈ Finset.range n, ∑ k ∈ Finset.range m, ∑ i ∈ Finset.range r, ∑ j ∈ Finset.range c,
          f [l, k, i, j] := by
  rw [sum_allIdx_cons]
  exact Finset.sum_congr rfl fun i _ => sum_allIdx_three _ _ _ _

theorem dot_eq_sum {a b : NDArray K} (ha : a.WF) (hb : b.WF) (hs : a.shape = b.shape) :
    dot a b = ((allIdx a.shape).map fun idx => a.get idx * b.get idx).sum := by
  unfold dot
  rw [data_eq_map_get ha, data_eq_map_get hb, hs, List.zipWith_map, List.zipWith_self]

theorem conv2_congr {x x' k k' : ℕ → ℕ → K} {r c kh kw i j : ℕ}
    (hx : ∀ a b, a < r → b < c → x a b = x' a b) (hk : ∀ a b, a < kh → b < kw → k a b = k' a b) :
    conv2 x r c k kh kw i j = conv2 x' r c k' kh kw i j := by
  unfold conv2
  refine Finset.sum_congr rfl fun a ha => Finset.sum_congr rfl fun b hb => ?_
  rw [Finset.mem_range] at ha hb
  rw [hx a b ha hb]
  congr 1
  unfold kernelValue
  split_ifs with h
  · exact hk _ _ (by omega) (by omega)
  · rfl

theorem kerAt_two {k : NDArray K} {kh kw : ℕ} (hs : k.shape = [kh, kw]) (u v : ℤ) :
    kerAt k [u, v] = kernelValue (fun a b => k.get [a, b]) kh kw u v := by
  unfold kerAt kernelValue
  rw [hs]
  simp [and_assoc]

theorem fftSame_two {x k : NDArray K} {r c kh kw : ℕ} (hx : x.shape = [r, c]) (hk : k.shape = [kh, kw])
    (hr : 0 < r) (hc : 0 < c) (hkh : 0 < kh) (hkw : 0 < kw) :
    (fftSame x k).WF ∧ (fftSame x k).shape = [r, c] ∧ ∀ i j, i < r → j < c →
      (fftSame x k).get [i, j]
        = conv2 (fun a b => x.get [a, b]) r c (fun a b => k.get [a, b]) kh kw i j := by
  have h0 : ¬ (x.shape.prod = 0 ∨ k.shape.prod = 0) := by
    rw [hx, hk]; simp; omega
  have e : fftSame x k = ofFn x.shape fun idx =>
    ((allIdx x.shape).map fun p => x.get p * kerAt k (kerPos idx p k.shape)).sum := by
    unfold fftSame; rw [if_neg h0]
  refine ⟨by rw [e]; exact wf_ofFn _ _, by rw [e, shape_ofFn, hx], fun i j hi hj => ?_⟩
  rw [e, get_ofFn _ (by rw [hx, inB_two]; exact ⟨_, _, rfl, hi, hj⟩), hx, hk, sum_allIdx_two]
  unfold conv2
  refine Finset.sum_congr rfl fun a _ => Finset.sum_congr rfl fun b _ => ?_
  simp only [kerPos]
  rw [kerAt_two hk]

theorem convolve_two (astropy : NDArray K → NDArray K → NDArray K) (ha : Bool) {x k : NDArray K}
    {r c kh kw : ℕ} (hx : x.shape = [r, c]) (hk : k.shape = [kh, kw])
    (hr : 0 < r) (hc : 0 < c) (hkh : 0 < kh) (hkw : 0 < kw) :
    ∃ y, convolve astropy ha x k "scipy" = .ok y ∧ y.WF ∧ y.shape = [r, c] ∧ ∀ i j, i < r → j < c →
      y.get [i, j] = conv2 (fun a b => x.get [a, b]) r c (fun a b => k.get [a, b]) kh kw i j := by
  obtain ⟨h1, h2, h3⟩ := fftSame_two hx hk hr hc hkh hkw
  refine ⟨_, ?_, h1, h2, h3⟩
  simp [convolve, ndim, hx, hk]

/-- `np.array([f(x) for x in l])` when all results have the same shape. -/
theorem stack_ok {β : Type} {f : β → Py (NDArray K)} {l : List β} {s : List ℕ} (hne : l ≠ [])
    (g : ℕ → List ℕ → K)
    (h : ∀ k (hk : k < l.length), ∃ y, f l[k] = .ok y ∧ y.shape = s ∧
      ∀ idx, InB idx s → y.get idx = g k idx) :
    ∃ ys, l.mapM f = .ok ys ∧ ys.length = l.length ∧
      ∃ m, npArray ys = .ok m ∧ m.WF ∧ m.shape = l.length :: s ∧
      ∀ k idx, k < l.length → InB idx s → m.get (k :: idx) = g k idx := by
  have hex : ∃ ys : List (NDArray K), l.mapM f = .ok ys ∧ ys.length = l.length ∧
      ∀ k (hk : k < ys.length), ys[k].shape = s ∧ ∀ idx, InB idx s → ys[k].get idx = g k idx := by
    clear hne
    induction l generalizing g with
    | nil => exact ⟨[], rfl, rfl, fun k hk => absurd hk (by simp)⟩
    | cons a l ih =>
      obtain ⟨y, hy, hys, hyg⟩ := h 0 (by simp)
      obtain ⟨ys, h1, h2, h3⟩ := ih (fun k => g (k + 1)) (fun k hk => h (k + 1) (by simpa using hk))
      refine ⟨y :: ys, ?_, by simp [h2], ?_⟩
      · rw [List.mapM_cons]; simp only [List.getElem_cons_zero] at hy; rw [hy, h1]; rfl
      · intro k hk
        cases k with
        | zero => exact ⟨hys, hyg⟩
        | succ k => exact h3 k (by simpa using hk)
  obtain ⟨ys, h1, h2, h3⟩ := hex
  refine ⟨ys, h1, h2, ?_⟩
  obtain ⟨m, m1, m2, m3, m4⟩ := npArray_const (l := ys) (s := s)
    (by intro h0; rw [h0] at h2; exact hne (List.eq_nil_of_length_eq_zero h2.symm))
    (by intro b hb; obtain ⟨k, hk, rfl⟩ := List.mem_iff_getElem.1 hb; exact (h3 k hk).1)
  refine ⟨m, m1, m2, by rw [m3, h2], fun k idx hk hi => ?_⟩
  rw [m4 k idx (by omega) hi]
  exact (h3 k (by omega)).2 idx hi

theorem slices_eq {a : NDArray K} {n : ℕ} {s : List ℕ} (h : a.shape = n :: s) :
    slices a = .ok ((List.range n).map a.index0) := by
  simp [slices, h]

theorem ok_bind' {α β : Type} (a : α) (f : α → Py β) : (Except.ok a >>= f) = f a := rfl

/-- The adjointness of one convolution with an odd kernel and the rotated kernel. -/
theorem conv2_adjoint (x c k : ℕ → ℕ → K) (r w kh kw : ℕ) (hh : kh % 2 = 1) (hw : kw % 2 = 1) :
    ∑ i ∈ Finset.range r, ∑ j ∈ Finset.range w, conv2 x r w k kh kw i j * c i j
      = ∑ a ∈ Finset.range r, ∑ b ∈ Finset.range w,
          x a b * conv2 c r w (fun u v => k (kh - 1 - u) (kw - 1 - v)) kh kw a b := by
  have hk : ∀ i j a b : ℕ,
      kernelValue k kh kw (i + ((kh - 1) / 2 : ℕ) - a) (j + ((kw - 1) / 2 : ℕ) - b)
      = kernelValue (fun u v => k (kh - 1 - u) (kw - 1 - v)) kh kw
          (a + ((kh - 1) / 2 : ℕ) - i) (b + ((kw - 1) / 2 : ℕ) - j) := by
    intro i j a b
    unfold kernelValue
    by_cases h : 0 ≤ (i + ((kh - 1) / 2 : ℕ) - a : ℤ) ∧ (i + ((kh - 1) / 2 : ℕ) - a : ℤ) < kh ∧
        0 ≤ (j + ((kw - 1) / 2 : ℕ) - b : ℤ) ∧ (j + ((kw - 1) / 2 : ℕ) - b : ℤ) < kw
    · rw [if_pos h, if_pos (by omega)]
      congr 1 <;> omega
    · rw [if_neg h, if_neg (by omega)]
  unfold conv2
  simp only [Finset.sum_mul, Finset.mul_sum]
  -- both sides are the same quadruple sum
  have e1 : ∀ F : ℕ → ℕ → ℕ → ℕ → K,
      ∑ i ∈ Finset.range r, ∑ j ∈ Finset.range w, ∑ a ∈ Finset.range r, ∑ b ∈ Finset.range w, F i j a b
      = ∑ a ∈ Finset.range r, ∑ b ∈ Finset.range w, ∑ i ∈ Finset.range r, ∑ j ∈ Finset.range w,
          F i j a b := by
    intro F
    have s1 : ∀ i, ∑ j ∈ Finset.range w, ∑ a ∈ Finset.range r, ∑ b ∈ Finset.range w, F i j a b
        = ∑ a ∈ Finset.range r, ∑ b ∈ Finset.range w, ∑ j ∈ Finset.range w, F i j a b := by
      intro i
      rw [Finset.sum_comm]
      exact Finset.sum_congr rfl fun a _ => Finset.sum_comm
    simp only [s1]
    rw [Finset.sum_comm]
    exact Finset.sum_congr rfl fun a _ => Finset.sum_comm
  rw [e1]
  refine Finset.sum_congr rfl fun a _ => Finset.sum_congr rfl fun b _ =>
    Finset.sum_congr rfl fun i _ => Finset.sum_congr rfl fun j _ => ?_
  rw [hk i j a b]
  ring

end Verif
