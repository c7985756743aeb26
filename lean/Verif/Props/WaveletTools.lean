import Verif.Model.WaveletTools
import Verif.Lemmas.Str
import Verif.Lemmas.Convolve

/-!
# C69, C87: trimming filters; C88, C89: running `mr_transform`; C90: the filters of `get_mr_filters`
-/

set_option linter.unusedSectionVars false

namespace Verif
open NDArray Wav

variable {K : Type} [DecidableEq K] [Zero K] [Inhabited K]

theorem npMin_spec {l : List ℕ} (h : l ≠ []) : ∃ m, npMin l = .ok m ∧ m ∈ l ∧ ∀ x ∈ l, m ≤ x := by
  cases l with
  | nil => exact absurd rfl h
  | cons a l =>
    refine ⟨_, rfl, ?_⟩
    clear h
    induction l generalizing a with
    | nil => simp
    | cons b l ih =>
      obtain ⟨h1, h2⟩ := ih (min a b)
      simp only [List.foldl_cons]
      refine ⟨?_, fun x hx => ?_⟩
      · rcases List.mem_cons.1 h1 with h | h
        · rw [h]
          rcases min_choice a b with h | h <;> rw [h] <;> simp
        · simp [h]
      · have := h2 (min a b) (by simp)
        rcases List.mem_cons.1 hx with rfl | hx
        · omega
        · rcases List.mem_cons.1 hx with rfl | hx
          · omega
          · exact h2 x (by simp [hx])

theorem npMax_spec {l : List ℕ} (h : l ≠ []) : ∃ m, npMax l = .ok m ∧ m ∈ l ∧ ∀ x ∈ l, x ≤ m := by
  cases l with
  | nil => exact absurd rfl h
  | cons a l =>
    refine ⟨_, rfl, ?_⟩
    clear h
    induction l generalizing a with
    | nil => simp
    | cons b l ih =>
      obtain ⟨h1, h2⟩ := ih (max a b)
      simp only [List.foldl_cons]
      refine ⟨?_, fun x hx => ?_⟩
      · rcases List.mem_cons.1 h1 with h | h
        · rw [h]
          rcases max_choice a b with h | h <;> rw [h] <;> simp
        · simp [h]
      · have := h2 (max a b) (by simp)
        rcases List.mem_cons.1 hx with rfl | hx
        · omega
        · rcases List.mem_cons.1 hx with rfl | hx
          · omega
          · exact h2 x (by simp [hx])

/-- The block of `rows × cols` entries starting at `(a, b)` contains every non-zero entry of `f`. -/
def Covers (f : NDArray K) (h w a b rows cols : ℕ) : Prop :=
  ∀ i j, i < h → j < w → f.get [i, j] ≠ 0 → a ≤ i ∧ i < a + rows ∧ b ≤ j ∧ j < b + cols

/-- `trim_filter` returns the smallest block of the filter that contains all its non-zero entries: it
lies within the filter, its entries are the filter's, nothing outside it is non-zero, and every other
block with that property contains it. -/
theorem C69_trim (f : NDArray K) (h w : ℕ) (hf : f.shape = [h, w]) (i₀ j₀ : ℕ) (hi : i₀ < h) (hj : j₀ < w)
    (hne : f.get [i₀, j₀] ≠ 0) :
    ∃ t a b rows cols, trimFilter f = .ok t ∧ t.WF ∧ t.shape = [rows, cols] ∧ a + rows ≤ h ∧
      b + cols ≤ w ∧ 0 < rows ∧ 0 < cols ∧
      (∀ i j, i < rows → j < cols → t.get [i, j] = f.get [a + i, b + j]) ∧
      Covers f h w a b rows cols ∧
      ∀ a' b' rows' cols', Covers f h w a' b' rows' cols' →
        a' ≤ a ∧ a + rows ≤ a' + rows' ∧ b' ≤ b ∧ b + cols ≤ b' + cols' := by
  set nz := (allIdx f.shape).filter fun idx => decide (f.get idx ≠ 0) with hnz
  have mem_nz : ∀ i j, [i, j] ∈ nz ↔ i < h ∧ j < w ∧ f.get [i, j] ≠ 0 := by
    intro i j
    rw [hnz, List.mem_filter, mem_allIdx, hf, inB_two, decide_eq_true_eq]
    constructor
    · rintro ⟨⟨a, b, e, h1, h2⟩, h3⟩
      simp only [List.cons.injEq, and_true] at e
      obtain ⟨rfl, rfl⟩ := e
      exact ⟨h1, h2, h3⟩
    · rintro ⟨h1, h2, h3⟩
      exact ⟨⟨i, j, rfl, h1, h2⟩, h3⟩
  have all_nz : ∀ idx ∈ nz, ∃ i j, idx = [i, j] ∧ i < h ∧ j < w ∧ f.get [i, j] ≠ 0 := by
    intro idx hidx
    have := (List.mem_filter.1 hidx).1
    rw [mem_allIdx, hf, inB_two] at this
    obtain ⟨i, j, rfl, -, -⟩ := this
    exact ⟨i, j, rfl, (mem_nz i j).1 hidx⟩
  have ne0 : nz.map (fun idx => idx.getD 0 0) ≠ [] := by
    simpa using List.ne_nil_of_mem ((mem_nz i₀ j₀).2 ⟨hi, hj, hne⟩)
  have ne1 : nz.map (fun idx => idx.getD 1 0) ≠ [] := by
    simpa using List.ne_nil_of_mem ((mem_nz i₀ j₀).2 ⟨hi, hj, hne⟩)
  obtain ⟨a, ha, ha1, ha2⟩ := npMin_spec ne0
  obtain ⟨b, hb, hb1, hb2⟩ := npMin_spec ne1
  obtain ⟨c, hc, hc1, hc2⟩ := npMax_spec ne0
  obtain ⟨d, hd, hd1, hd2⟩ := npMax_spec ne1
  have wit : ∀ (k m : ℕ), m ∈ nz.map (fun idx => idx.getD k 0) → ∃ i j, m = [i, j].getD k 0 ∧ i < h ∧
      j < w ∧ f.get [i, j] ≠ 0 := by
    intro k m hm
    obtain ⟨idx, h1, rfl⟩ := List.mem_map.1 hm
    obtain ⟨i, j, rfl, h2⟩ := all_nz idx h1
    exact ⟨i, j, rfl, h2⟩
  obtain ⟨ia, ja, ea, pa⟩ := wit 0 a ha1
  obtain ⟨ib, jb, eb, pb⟩ := wit 1 b hb1
  obtain ⟨ic, jc, ec, pc⟩ := wit 0 c hc1
  obtain ⟨id, jd, ed, pd⟩ := wit 1 d hd1
  simp only [List.getD_cons_zero, List.getD_cons_succ] at ea eb ec ed
  subst ea eb ec ed
  have inr : ∀ i j, i < h → j < w → f.get [i, j] ≠ 0 → a ≤ i ∧ i ≤ c ∧ b ≤ j ∧ j ≤ d := by
    intro i j h1 h2 h3
    have hm := (mem_nz i j).2 ⟨h1, h2, h3⟩
    have m0 : i ∈ nz.map (fun idx => idx.getD 0 0) := List.mem_map.2 ⟨_, hm, rfl⟩
    have m1 : j ∈ nz.map (fun idx => idx.getD 1 0) := List.mem_map.2 ⟨_, hm, rfl⟩
    exact ⟨ha2 i m0, hc2 i m0, hb2 j m1, hd2 j m1⟩
  have hlac := (inr _ _ hi hj hne)
  refine ⟨block2 f a (c + 1) b (d + 1) [], a, b, c + 1 - a, d + 1 - b, ?_, wf_ofFn _ _, rfl, by omega,
    by omega, by omega, by omega, fun i j h1 h2 => ?_, fun i j h1 h2 h3 => ?_, fun a' b' r' c' hcov => ?_⟩
  · simp only [trimFilter]
    rw [← hnz, hf]
    simp only [ha, hb, hc, hd]
    rfl
  · rw [block2, get_ofFn _ (by rw [inB_two]; exact ⟨i, j, rfl, h1, h2⟩)]
  · have := inr i j h1 h2 h3
    omega
  · have h1 := hcov _ _ pa.1 pa.2.1 pa.2.2
    have h2 := hcov _ _ pb.1 pb.2.1 pb.2.2
    have h3 := hcov _ _ pc.1 pc.2.1 pc.2.2
    have h4 := hcov _ _ pd.1 pd.2.1 pd.2.2
    omega

/-- Filters that cannot be trimmed: an all-zero filter raises `ValueError`, whatever its shape; a
one-dimensional filter with a non-zero entry raises `IndexError`. -/
theorem C69_trim_errors (f : NDArray K) :
    ((∀ idx, InB idx f.shape → f.get idx = 0) → trimFilter f = .error .valueError) ∧
    (f.shape.length < 2 → (∃ idx, InB idx f.shape ∧ f.get idx ≠ 0) → trimFilter f = .error .indexError) := by
  constructor
  · intro hz
    have : ((allIdx f.shape).filter fun idx => decide (f.get idx ≠ 0)) = [] := by
      rw [List.filter_eq_nil_iff]
      intro idx hidx
      simpa using hz idx (mem_allIdx.1 hidx)
    simp only [trimFilter]
    rw [this]
    rcases f.shape with _ | ⟨m, _ | ⟨n, s⟩⟩ <;> rfl
  · rintro hs ⟨idx, h1, h2⟩
    have : ((allIdx f.shape).filter fun idx => decide (f.get idx ≠ 0)) ≠ [] := by
      rw [Ne, List.filter_eq_nil_iff]
      push Not
      exact ⟨idx, mem_allIdx.2 h1, by simpa using h2⟩
    simp only [trimFilter]
    revert this
    generalize ((allIdx f.shape).filter fun idx => decide (f.get idx ≠ 0)) = nz
    intro this
    revert hs
    rcases f.shape with _ | ⟨m, _ | ⟨n, s⟩⟩ <;> intro hs
    · exact if_neg this
    · exact if_neg this
    · simp only [List.length_cons] at hs
      omega

/-- Trimming twice is trimming once. -/
theorem C69_trim_idempotent (f t : NDArray K) (h w : ℕ) (hf : f.shape = [h, w]) (ht : trimFilter f = .ok t) :
    trimFilter t = .ok t := by
  by_cases hz : ∀ idx, InB idx f.shape → f.get idx = 0
  · rw [(C69_trim_errors f).1 hz] at ht
    cases ht
  push Not at hz
  obtain ⟨idx, h1, h2⟩ := hz
  rw [hf, inB_two] at h1
  obtain ⟨i₀, j₀, rfl, hi, hj⟩ := h1
  obtain ⟨t', a, b, r, c, e, wt, st, b1, b2, p1, p2, vals, cov, minim⟩ := C69_trim f h w hf i₀ j₀ hi hj h2
  rw [ht] at e
  cases e
  have c0 := cov _ _ hi hj h2
  obtain ⟨t', a', b', r', c', e, wt', st', d1, d2, q1, q2, vals', cov', -⟩ :=
    C69_trim t r c st (i₀ - a) (j₀ - b) (by omega) (by omega) (by
      rw [vals _ _ (by omega) (by omega)]
      rwa [show a + (i₀ - a) = i₀ by omega, show b + (j₀ - b) = j₀ by omega])
  have := minim (a + a') (b + b') r' c' (fun i j h1 h2 h3 => by
    have g := cov i j h1 h2 h3
    have := cov' (i - a) (j - b) (by omega) (by omega) (by
      rw [vals _ _ (by omega) (by omega)]
      rwa [show a + (i - a) = i by omega, show b + (j - b) = j by omega])
    omega)
  have ea : a' = 0 := by omega
  have eb : b' = 0 := by omega
  have er : r' = r := by omega
  have ec : c' = c := by omega
  subst ea eb er ec
  rw [e]
  congr 1
  refine ext_get wt' wt (by rw [st, st']) fun idx hidx => ?_
  rw [st', inB_two] at hidx
  obtain ⟨i, j, rfl, h1, h2⟩ := hidx
  rw [vals' i j h1 h2]
  simp

/-- Non-trivial instance: a 3×4 filter with two non-zero entries trims to 2×2. -/
example : trimFilter (⟨[3, 4], [0, 0, 0, 0, 0, 5, 0, 0, 0, 0, 7, 0]⟩ : NDArray ℤ) =
    .ok ⟨[2, 2], [5, 0, 0, 7]⟩ := by decide

/-! ## Convolving with a trimmed filter (C87) -/

section Conv
variable {R : Type} [CommRing R] [DecidableEq R] [Inhabited R]
open Convolve Spec

/-- Trimming moves the centre of a filter: the convolution with the trimmed filter is the convolution
with the original one, shifted by the distance between the two centres. -/
theorem C87_trimmed_convolution_is_shifted (astropy : NDArray R → NDArray R → NDArray R) (ha : Bool)
    (x f t : NDArray R) (r c h w : ℕ) (hx : x.shape = [r, c]) (hr : 0 < r) (hc : 0 < c)
    (hf : f.shape = [h, w]) (ht : trimFilter f = .ok t) :
    ∃ a b rows cols y z, t.shape = [rows, cols] ∧ a + rows ≤ h ∧ b + cols ≤ w ∧
      (∀ i j, i < rows → j < cols → t.get [i, j] = f.get [a + i, b + j]) ∧
      convolve astropy ha x t "scipy" = .ok y ∧ convolve astropy ha x f "scipy" = .ok z ∧
      y.shape = [r, c] ∧ z.shape = [r, c] ∧ y.WF ∧ z.WF ∧
      ∀ i j i' j', i < r → j < c → i' < r → j' < c →
        i' + (h - 1) / 2 = i + (a + (rows - 1) / 2) → j' + (w - 1) / 2 = j + (b + (cols - 1) / 2) →
        y.get [i, j] = z.get [i', j'] := by
  by_cases hz : ∀ idx, InB idx f.shape → f.get idx = 0
  · rw [(C69_trim_errors f).1 hz] at ht
    cases ht
  push Not at hz
  obtain ⟨idx, h1, h2⟩ := hz
  rw [hf, inB_two] at h1
  obtain ⟨i₀, j₀, rfl, hi, hj⟩ := h1
  obtain ⟨t', a, b, rows, cols, e, wt, st, b1, b2, p1, p2, vals, cov, -⟩ :=
    C69_trim f h w hf i₀ j₀ hi hj h2
  rw [ht] at e
  cases e
  obtain ⟨y, ey, wy, sy, vy⟩ := convolve_two astropy ha hx st hr hc p1 p2
  obtain ⟨z, ez, wz, sz, vz⟩ := convolve_two astropy ha hx hf hr hc (by omega) (by omega)
  refine ⟨a, b, rows, cols, y, z, st, b1, b2, vals, ey, ez, sy, sz, wy, wz, ?_⟩
  intro i j i' j' k1 k2 k3 k4 ei ej
  rw [vy i j k1 k2, vz i' j' k3 k4]
  unfold conv2
  refine Finset.sum_congr rfl fun p _ => Finset.sum_congr rfl fun q _ => ?_
  congr 1
  set u : ℤ := (i : ℤ) + ((rows - 1) / 2 : ℕ) - p with hu
  set v : ℤ := (j : ℤ) + ((cols - 1) / 2 : ℕ) - q with hv
  have eu : (i' : ℤ) + ((h - 1) / 2 : ℕ) - p = u + a := by
    have : ((i' + (h - 1) / 2 : ℕ) : ℤ) = ((i + (a + (rows - 1) / 2) : ℕ) : ℤ) := by rw [ei]
    push_cast at this
    rw [hu]
    push_cast
    linarith
  have ev : (j' : ℤ) + ((w - 1) / 2 : ℕ) - q = v + b := by
    have : ((j' + (w - 1) / 2 : ℕ) : ℤ) = ((j + (b + (cols - 1) / 2) : ℕ) : ℤ) := by rw [ej]
    push_cast at this
    rw [hv]
    push_cast
    linarith
  rw [eu, ev]
  clear_value u v
  unfold kernelValue
  by_cases hin : 0 ≤ u ∧ u < rows ∧ 0 ≤ v ∧ v < cols
  · rw [if_pos hin, if_pos (by omega)]
    beta_reduce
    rw [vals _ _ (by omega) (by omega)]
    congr 2
    · omega
    · congr 1; omega
  · rw [if_neg hin]
    by_cases hin' : 0 ≤ u + a ∧ u + a < h ∧ 0 ≤ v + b ∧ v + b < w
    · rw [if_pos hin']
      by_contra hne
      have := cov (u + a).toNat (v + b).toNat (by omega) (by omega) (Ne.symm hne)
      omega
    · rw [if_neg hin']

/-- A filter whose non-zero entries lie symmetrically about its centre can be trimmed without changing
the convolution. -/
theorem C87_symmetric_support_partial (astropy : NDArray R → NDArray R → NDArray R) (ha : Bool)
    (x f t : NDArray R) (r c h w : ℕ) (hx : x.shape = [r, c]) (hr : 0 < r) (hc : 0 < c)
    (hf : f.shape = [h, w]) (ht : trimFilter f = .ok t)
    (hsym : ∀ i j, i < h → j < w → f.get [i, j] ≠ 0 → f.get [h - 1 - i, w - 1 - j] ≠ 0) :
    ∃ y, convolve astropy ha x t "scipy" = .ok y ∧ convolve astropy ha x f "scipy" = .ok y := by
  by_cases hz : ∀ idx, InB idx f.shape → f.get idx = 0
  · rw [(C69_trim_errors f).1 hz] at ht
    cases ht
  push Not at hz
  obtain ⟨idx, h1, h2⟩ := hz
  rw [hf, inB_two] at h1
  obtain ⟨i₀, j₀, rfl, hi, hj⟩ := h1
  obtain ⟨t', a, b, rows, cols, e, wt, st, b1, b2, p1, p2, vals, cov, minim⟩ :=
    C69_trim f h w hf i₀ j₀ hi hj h2
  rw [ht] at e
  cases e
  -- the mirrored block covers too
  have hm := minim (h - (a + rows)) (w - (b + cols)) rows cols (fun i j k1 k2 k3 => by
    have := cov (h - 1 - i) (w - 1 - j) (by omega) (by omega) (hsym i j k1 k2 k3)
    omega)
  obtain ⟨y, ey, wy, sy, vy⟩ := convolve_two astropy ha hx st hr hc p1 p2
  obtain ⟨z, ez, wz, sz, vz⟩ := convolve_two astropy ha hx hf hr hc (by omega) (by omega)
  refine ⟨y, ey, ?_⟩
  rw [ez]
  congr 1
  refine ext_get wz wy (by rw [sy, sz]) fun idx hidx => ?_
  rw [sz, inB_two] at hidx
  obtain ⟨i, j, rfl, k1, k2⟩ := hidx
  rw [vy i j k1 k2, vz i j k1 k2]
  unfold conv2
  refine Finset.sum_congr rfl fun p _ => Finset.sum_congr rfl fun q _ => ?_
  congr 1
  have e1 : (h - 1) / 2 = a + (rows - 1) / 2 := by omega
  have e2 : (w - 1) / 2 = b + (cols - 1) / 2 := by omega
  set u : ℤ := (i : ℤ) + ((rows - 1) / 2 : ℕ) - p with hu
  set v : ℤ := (j : ℤ) + ((cols - 1) / 2 : ℕ) - q with hv
  have eu : (i : ℤ) + ((h - 1) / 2 : ℕ) - p = u + a := by rw [hu, e1]; push_cast; ring
  have ev : (j : ℤ) + ((w - 1) / 2 : ℕ) - q = v + b := by rw [hv, e2]; push_cast; ring
  rw [eu, ev]
  clear_value u v
  unfold kernelValue
  by_cases hin : 0 ≤ u ∧ u < rows ∧ 0 ≤ v ∧ v < cols
  · rw [if_pos hin, if_pos (by omega)]
    beta_reduce
    rw [vals _ _ (by omega) (by omega)]
    congr 2
    · omega
    · congr 1; omega
  · rw [if_neg hin]
    by_cases hin' : 0 ≤ u + a ∧ u + a < h ∧ 0 ≤ v + b ∧ v + b < w
    · rw [if_pos hin']
      by_contra hne
      have := cov (u + a).toNat (v + b).toNat (by omega) (by omega) hne
      omega
    · rw [if_neg hin']

end Conv

/-- Without symmetry the trimmed filter gives another image: a filter whose only entry is left of its
centre shifts the image, its trimmed version does not. -/
theorem C87_trimming_changes_convolution (astropy : NDArray ℤ → NDArray ℤ → NDArray ℤ) (ha : Bool) :
    ∃ x f t : NDArray ℤ, trimFilter f = .ok t ∧
      Convolve.convolve astropy ha x t "scipy" ≠ Convolve.convolve astropy ha x f "scipy" := by
  refine ⟨⟨[1, 3], [1, 2, 3]⟩, ⟨[1, 3], [1, 0, 0]⟩, ⟨[1, 1], [1]⟩, by decide, ?_⟩
  have e1 : Convolve.convolve astropy ha ⟨[1, 3], [1, 2, 3]⟩ ⟨[1, 1], [1]⟩ "scipy" =
      .ok ⟨[1, 3], [1, 2, 3]⟩ := by
    simp only [Convolve.convolve]
    rw [if_neg (by decide), if_neg (by decide)]
    rw [if_neg (by cases ha <;> decide)]
    decide
  have e2 : Convolve.convolve astropy ha ⟨[1, 3], [1, 2, 3]⟩ ⟨[1, 3], [1, 0, 0]⟩ "scipy" =
      .ok ⟨[1, 3], [2, 3, 0]⟩ := by
    simp only [Convolve.convolve]
    rw [if_neg (by decide), if_neg (by decide)]
    rw [if_neg (by cases ha <;> decide)]
    decide
  rw [e1, e2]
  decide

/-- The hypotheses of the symmetric case are met by a 3×3 cross padded to 5×5. -/
example : trimFilter (⟨[3, 5], [0, 0, 1, 0, 0, 0, 2, 3, 4, 0, 0, 0, 5, 0, 0]⟩ : NDArray ℤ) =
    .ok ⟨[3, 3], [0, 1, 0, 2, 3, 4, 0, 5, 0]⟩ := by decide

/-! ## Running `mr_transform` (C88, C89) -/

/-- An `mr_transform` that works: called as `mr_transform opts… in out` it reads the image `in` and writes
its transform to `out`; anything else is an error message. -/
def workingMr (T : List PyStr → NDArray K → NDArray K) : Program K := fun argv fs =>
  match argv.tail.reverse with
  | out :: inp :: ropts =>
    match fs inp with
    | none => ("Error: cannot open input".toList, fs)
    | some d => ([], fun n => if n = out then some (T ropts.reverse d) else fs n)
  | _ => ("Error: usage".toList, fs)

/-- The name of a temporary file. -/
def tempName (path uniq : PyStr) (ext : String) : PyStr := path ++ "mr_temp_".toList ++ uniq ++ ext.toList

theorem isWord_append {a b : PyStr} (ha : ∀ c ∈ a, pyWs c = false) (hb : IsWord b) : IsWord (a ++ b) := by
  refine ⟨by simp [hb.1], fun c hc => ?_⟩
  rcases List.mem_append.1 hc with h | h
  · exact ha c h
  · exact hb.2 c h

theorem tempName_ne (path uniq : PyStr) : tempName path uniq ".fits" ≠ tempName path uniq ".mr" := by
  intro h
  have := congrArg List.length h
  simp [tempName] at this

theorem execute_words (run : Program K) (fs : FileSys K) {w : PyStr} {l : List PyStr}
    (h : ∀ t ∈ w :: l, IsWord t) : execute run (some (pyJoin (w :: l))) fs = .ok (run (w :: l) fs) := by
  simp only [execute, pySplit_join h]

/-- A command line that is not a string raises `TypeError`; a command line put together from a list of
words reaches the program as that list, and a list that is not made of words never does. -/
theorem C88_execute (run : Program K) (fs : FileSys K) :
    execute run none fs = .error .typeError ∧
    (∀ w l, (∀ t ∈ w :: l, IsWord t) → execute run (some (pyJoin (w :: l))) fs = .ok (run (w :: l) fs)) ∧
    ∀ l, (¬ ∀ t ∈ l, IsWord t) →
      execute (fun argv fs => (if argv = l then ['y'] else ['n'], fs)) (some (pyJoin l)) fs ≠ .ok (['y'], fs) := by
  refine ⟨rfl, fun w l h => execute_words run fs h, fun l h => ?_⟩
  have hne : pySplit (pyJoin l) ≠ l := fun e => h ((pySplit_join_iff l).1 e)
  simp only [execute]
  intro hc
  revert hne hc
  generalize pySplit (pyJoin l) = argv
  intro hne hc
  cases argv with
  | nil => cases hc
  | cons a b =>
    simp only [hne, if_false, Except.ok.injEq, Prod.mk.injEq] at hc
    exact absurd hc.1 (by decide)

/-- With a working `mr_transform`, a path and unique string without whitespace, options that are words
(always so for a string of options) and fresh temporary names, the call returns the transform of the
image with the caller's options; with `remove_files` no file is left behind, without it exactly the two
temporary files are. -/
theorem C88_arguments_arrive_partial (T : List PyStr → NDArray K → NDArray K) (d : NDArray K) (opt : Opt)
    (path uniq : PyStr) (fs : FileSys K) (hd : d.ndim = 2) (hp : ∀ c ∈ path, pyWs c = false)
    (hu : ∀ c ∈ uniq, pyWs c = false) (ho : ∀ t ∈ opt.words, IsWord t)
    (h1 : fs (tempName path uniq ".fits") = none) (h2 : fs (tempName path uniq ".mr") = none) :
    callMr ⟨true, true, workingMr T⟩ (some d) opt path uniq true fs = (fs, .ok (T opt.words d)) ∧
    ∃ fs', callMr ⟨true, true, workingMr T⟩ (some d) opt path uniq false fs = (fs', .ok (T opt.words d)) ∧
      fs' (tempName path uniq ".fits") = some d ∧
      fs' (tempName path uniq ".mr") = some (T opt.words d) ∧
      ∀ n, n ≠ tempName path uniq ".fits" → n ≠ tempName path uniq ".mr" → fs' n = fs n := by
  set F := tempName path uniq ".fits" with hF
  set R := tempName path uniq ".mr" with hR
  have hFR : F ≠ R := tempName_ne path uniq
  have pre : ∀ c ∈ path ++ "mr_temp_".toList ++ uniq, pyWs c = false := by
    intro c hc
    rw [List.mem_append, List.mem_append] at hc
    rcases hc with (hc | hc) | hc
    · exact hp c hc
    · revert c
      decide
    · exact hu c hc
  have wF : IsWord F := isWord_append pre (by unfold IsWord; decide)
  have wR : IsWord R := isWord_append pre (by unfold IsWord; decide)
  have eF : path ++ "mr_temp_".toList ++ uniq ++ ".fits".toList = F := rfl
  have eR : path ++ "mr_temp_".toList ++ uniq ++ ".mr".toList = R := rfl
  have ex : ∀ fs1 : FileSys K, execute (workingMr T)
      (some (pyJoin (("mr_transform".toList :: opt.words) ++ [F, R]))) fs1 =
      .ok (workingMr T ("mr_transform".toList :: (opt.words ++ [F, R])) fs1) := by
    intro fs1
    rw [List.cons_append]
    apply execute_words
    intro t ht
    simp only [List.mem_cons, List.mem_append, List.not_mem_nil, or_false] at ht
    rcases ht with rfl | ht | rfl | rfl
    · unfold IsWord; decide
    · exact ho t ht
    · exact wF
    · exact wR
  have er : ∀ fs1 : FileSys K, fs1 F = some d → workingMr T ("mr_transform".toList :: (opt.words ++ [F, R])) fs1 =
      ([], fun n => if n = R then some (T opt.words d) else fs1 n) := by
    intro fs1 h
    simp [workingMr, h]
  have bad : (badWords.any fun w => pyIn w []) = false := by decide
  constructor
  · unfold callMr
    simp only [hd, writeFits, eF, eR, h1, ex, Bool.not_true, Bool.false_eq_true, if_false, ne_eq,
      not_true_eq_false]
    rw [er _ (by simp)]
    simp only [bad, Bool.false_eq_true, if_false, rm, hFR, hFR.symm, if_true]
    congr 1
    funext n
    by_cases hn : n = R
    · simp [hn, h2]
    · by_cases hn' : n = F
      · simp [hn', h1]
      · simp [hn, hn']
  · refine ⟨fun n => if n = R then some (T opt.words d) else if n = F then some d else fs n, ?_, ?_⟩
    · unfold callMr
      simp only [hd, writeFits, eF, eR, h1, ex, Bool.not_true, Bool.false_eq_true, if_false, ne_eq,
        not_true_eq_false]
      rw [er _ (by simp)]
      simp only [bad, Bool.false_eq_true, if_false, if_true]
    · refine ⟨by simp [hFR], by simp, fun n k1 k2 => by simp [k1, k2]⟩

/-- Options given as one string always are words. -/
theorem C88_string_options_are_words (s : PyStr) : ∀ t ∈ (Opt.str s).words, IsWord t :=
  splitGo_words s [] (by simp)

/-- Non-trivial instance of the hypotheses: two options, the default path. -/
example : (∀ c ∈ "./".toList, pyWs c = false) ∧ (∀ t ∈ (Opt.str "-t 2".toList).words, IsWord t) ∧
    (Opt.str "-t 2".toList).words = ["-t".toList, "2".toList] :=
  ⟨by decide, C88_string_options_are_words _, by decide⟩

/-- A blank in the path breaks the call even with a working `mr_transform`: the path is split into two
arguments and the call fails, whatever the image and the unique string. -/
theorem C88_path_with_blank_fails (T : List PyStr → NDArray K → NDArray K) (d : NDArray K) (uniq : PyStr)
    (hd : d.ndim = 2) (hu : ∀ c ∈ uniq, pyWs c = false) :
    ∃ fs', callMr ⟨true, true, workingMr T⟩ (some d) (.str []) "my data/".toList uniq true (fun _ => none) =
      (fs', .error .runtimeError) := by
  set tF : PyStr := "data/".toList ++ "mr_temp_".toList ++ uniq ++ ".fits".toList with hF
  set tR : PyStr := "data/".toList ++ "mr_temp_".toList ++ uniq ++ ".mr".toList with hR
  have pre : ∀ c ∈ "data/".toList ++ "mr_temp_".toList ++ uniq, pyWs c = false := by
    intro c hc
    rw [List.mem_append] at hc
    rcases hc with hc | hc
    · revert c
      decide
    · exact hu c hc
  have wF : IsWord tF := isWord_append pre (by unfold IsWord; decide)
  have wR : IsWord tR := isWord_append pre (by unfold IsWord; decide)
  set l : List PyStr := ["mr_transform".toList, "my".toList, tF, "my".toList, tR] with hl
  have ex : ∀ fs1 : FileSys K, execute (workingMr T) (some (pyJoin (("mr_transform".toList :: []) ++
      ["my data/".toList ++ "mr_temp_".toList ++ uniq ++ ".fits".toList,
       "my data/".toList ++ "mr_temp_".toList ++ uniq ++ ".mr".toList]))) fs1 = .ok (workingMr T l fs1) := by
    intro fs1
    have ej : pyJoin (("mr_transform".toList :: []) ++
      ["my data/".toList ++ "mr_temp_".toList ++ uniq ++ ".fits".toList,
       "my data/".toList ++ "mr_temp_".toList ++ uniq ++ ".mr".toList]) = pyJoin l := by
      simp [pyJoin, List.intercalate, hl, hF, hR]
    rw [ej, hl]
    apply execute_words
    intro t ht
    simp only [List.mem_cons, List.not_mem_nil, or_false] at ht
    rcases ht with rfl | rfl | rfl | rfl | rfl
    · unfold IsWord; decide
    · unfold IsWord; decide
    · exact wF
    · unfold IsWord; decide
    · exact wR
  have hmy : "my".toList ≠ "my data/".toList ++ "mr_temp_".toList ++ uniq ++ ".fits".toList := by
    intro h
    have := congrArg List.length h
    simp at this
  have bad : (badWords.any fun w => pyIn w "Error: cannot open input".toList) = true := by decide
  unfold callMr
  simp only [hd, writeFits, Bool.not_true, Bool.false_eq_true, if_false, ne_eq, not_true_eq_false]
  rw [show (Opt.str []).words = [] from rfl, ex]
  simp only [workingMr, hl, List.tail_cons, List.reverse_cons, List.reverse_nil, List.nil_append,
    List.cons_append, hmy, if_false, bad, if_true, rm]
  exact ⟨_, rfl⟩

/-- Calls that are refused: no astropy, data that are not a two-dimensional array, program not found, each with its
exception and in this order.  No file is touched. -/
theorem C89_refused_calls (env : Env K) (data : Option (NDArray K)) (opt : Opt) (path uniq : PyStr) (rem : Bool)
    (fs : FileSys K) :
    (env.hasAstropy = false → callMr env data opt path uniq rem fs = (fs, .error .importError)) ∧
    (env.hasAstropy = true → (∀ d, data = some d → d.ndim ≠ 2) →
      callMr env data opt path uniq rem fs = (fs, .error .valueError)) ∧
    (∀ d, env.hasAstropy = true → data = some d → d.ndim = 2 → env.installed = false →
      callMr env data opt path uniq rem fs = (fs, .error .ioError)) := by
  refine ⟨fun h => by simp [callMr, h], fun h hd => ?_, fun d h hd h2 hi => by simp [callMr, h, hd, h2, hi]⟩
  cases data with
  | none => simp [callMr, h]
  | some d => simp [callMr, h, hd d rfl]

/-- Programs that write no file but the named one. -/
def WritesOnly (run : Program K) (out : PyStr) : Prop := ∀ argv fs n, n ≠ out → (run argv fs).2 n = fs n

/-- Whatever `mr_transform` does to its output file, a call that returns a result with `remove_files` set
leaves the file system as it was, and so does every call that fails before the input file is written. -/
theorem C89_success_leaves_nothing_partial (env : Env K) (data : Option (NDArray K)) (opt : Opt)
    (path uniq : PyStr) (fs fs' : FileSys K) (t : NDArray K)
    (hrun : WritesOnly env.run (tempName path uniq ".mr")) (hmr : fs (tempName path uniq ".mr") = none)
    (h : callMr env data opt path uniq true fs = (fs', .ok t)) : fs' = fs := by
  have hFR := tempName_ne path uniq
  have eF : path ++ "mr_temp_".toList ++ uniq ++ ".fits".toList = tempName path uniq ".fits" := rfl
  have eR : path ++ "mr_temp_".toList ++ uniq ++ ".mr".toList = tempName path uniq ".mr" := rfl
  revert hFR eF eR hrun hmr
  generalize tempName path uniq ".fits" = F
  generalize tempName path uniq ".mr" = R
  intro hrun hmr hFR eF eR
  unfold callMr at h
  simp only [eF, eR] at h
  cases ha : env.hasAstropy with
  | false => simp [ha] at h
  | true =>
  simp only [ha, Bool.not_true, Bool.false_eq_true, if_false] at h
  cases data with
  | none => simp at h
  | some d =>
  simp only at h
  by_cases hd : d.ndim ≠ 2
  · simp [hd] at h
  rw [if_neg hd] at h
  cases hi : env.installed with
  | false => simp [hi] at h
  | true =>
  simp only [hi, Bool.not_true, Bool.false_eq_true, if_false] at h
  cases hf : fs F with
  | some _ => simp [writeFits, hf] at h
  | none =>
  simp only [writeFits, hf] at h
  set fs1 : FileSys K := fun n => if n = F then some d else fs n with hfs1
  generalize (pyJoin _ : PyStr) = line at h
  cases hex : execute env.run (some line) fs1 with
  | error e => simp [hex] at h
  | ok p =>
  obtain ⟨out, fs2⟩ := p
  simp only [hex] at h
  have h2 : ∀ n, n ≠ R → fs2 n = fs1 n := by
    intro n hn
    simp only [execute] at hex
    revert hex
    generalize pySplit line = argv
    intro hex
    cases argv with
    | nil => simp at hex
    | cons a l =>
      simp only [Except.ok.injEq] at hex
      have := hrun (a :: l) fs1 n hn
      rwa [hex] at this
  cases hb : (badWords.any fun w => pyIn w out) with
  | true =>
    rw [hb] at h
    simp only [if_true] at h
    cases hr : rm fs2 F with
    | error e => simp [hr] at h
    | ok fs3 => simp [hr] at h
  | false =>
    rw [hb] at h
    simp only [Bool.false_eq_true, if_false] at h
    cases hm : fs2 R with
    | none => simp [hm] at h
    | some u =>
      have hF2 : fs2 F = some d := by rw [h2 F hFR, hfs1]; simp
      simp only [hm, if_true, rm, hF2, hFR.symm, if_false] at h
      injection h with h _
      rw [← h]
      funext n
      by_cases hn : n = R
      · simp [hn, hmr]
      · by_cases hn' : n = F
        · simp [hn', hf, hFR]
        · simp [hn, hn', h2 n hn, hfs1]

/-- A run that writes its output and then reports a problem leaves the output file behind; a run that
dies silently leaves the input file behind. -/
theorem C89_failure_leaks_files (d : NDArray K) (uniq : PyStr) (hd : d.ndim = 2)
    (hu : ∀ c ∈ uniq, pyWs c = false) :
    (∃ env fs', WritesOnly env.run (tempName "./".toList uniq ".mr") ∧
      callMr env (some d) (.str []) "./".toList uniq true (fun _ => none) = (fs', .error .runtimeError) ∧
      fs' (tempName "./".toList uniq ".mr") = some d) ∧
    (∃ env fs', WritesOnly env.run (tempName "./".toList uniq ".mr") ∧
      callMr env (some d) (.str []) "./".toList uniq true (fun _ => none) = (fs', .error .ioError) ∧
      fs' (tempName "./".toList uniq ".fits") = some d) := by
  have hFR := tempName_ne "./".toList uniq
  have eF : "./".toList ++ "mr_temp_".toList ++ uniq ++ ".fits".toList = tempName "./".toList uniq ".fits" := rfl
  have eR : "./".toList ++ "mr_temp_".toList ++ uniq ++ ".mr".toList = tempName "./".toList uniq ".mr" := rfl
  have pre : ∀ c ∈ "./".toList ++ "mr_temp_".toList ++ uniq, pyWs c = false := by
    intro c hc
    rw [List.mem_append] at hc
    rcases hc with hc | hc
    · revert c
      decide
    · exact hu c hc
  have wF : IsWord (tempName "./".toList uniq ".fits") := isWord_append pre (by unfold IsWord; decide)
  have wR : IsWord (tempName "./".toList uniq ".mr") := isWord_append pre (by unfold IsWord; decide)
  revert hFR eF eR wF wR
  generalize tempName "./".toList uniq ".fits" = F
  generalize tempName "./".toList uniq ".mr" = R
  intro hFR eF eR wF wR
  have ex : ∀ (run : Program K) fs1, execute run (some (pyJoin (("mr_transform".toList :: []) ++ [F, R]))) fs1 =
      .ok (run ["mr_transform".toList, F, R] fs1) := by
    intro run fs1
    rw [List.cons_append]
    apply execute_words
    intro t ht
    simp only [List.mem_cons, List.not_mem_nil, or_false, List.nil_append] at ht
    rcases ht with rfl | rfl | rfl
    · unfold IsWord; decide
    · exact wF
    · exact wR
  have bad : (badWords.any fun w => pyIn w "Sorry".toList) = true := by decide
  have good : (badWords.any fun w => pyIn w []) = false := by decide
  constructor
  · refine ⟨⟨true, true, fun _ fs => ("Sorry".toList, fun n => if n = R then some d else fs n)⟩, ?_⟩
    refine ⟨fun n => if n = F then none else if n = R then some d else if n = F then some d else none,
      fun argv fs n hn => by simp [hn], ?_, ?_⟩
    · unfold callMr
      simp only [hd, writeFits, Bool.not_true, Bool.false_eq_true, if_false, ne_eq, not_true_eq_false, eF,
        eR]
      rw [show (Opt.str []).words = [] from rfl, ex]
      simp only [bad, if_true, rm, hFR, if_false]
    · simp [hFR.symm]
  · refine ⟨⟨true, true, fun _ fs => ([], fs)⟩, ?_⟩
    refine ⟨fun n => if n = F then some d else none, fun argv fs n hn => rfl, ?_, ?_⟩
    · unfold callMr
      simp only [hd, writeFits, Bool.not_true, Bool.false_eq_true, if_false, ne_eq, not_true_eq_false, eF,
        eR]
      rw [show (Opt.str []).words = [] from rfl, ex]
      simp only [good, Bool.false_eq_true, if_false, hFR.symm]
    · simp

/-! ## The filters returned by `get_mr_filters` (C90) -/

section Mr
variable {R : Type} [CommRing R] [DecidableEq R] [Inhabited R]
open Spec

/-- Convolving the impulse with a kernel of the same odd size returns the kernel. -/
theorem conv2_impulse (H W : ℕ) (hH : H % 2 = 1) (hW : W % 2 = 1) (k : ℕ → ℕ → R) (i j : ℕ) (hi : i < H)
    (hj : j < W) :
    conv2 (fun a b => (impulse H W : NDArray R).get [a, b]) H W k H W i j = k i j := by
  unfold conv2
  have hget : ∀ a b, a < H → b < W →
      (impulse H W : NDArray R).get [a, b] = if a = H / 2 ∧ b = W / 2 then 1 else 0 := by
    intro a b ha hb
    rw [impulse, get_ofFn _ (by rw [inB_two]; exact ⟨a, b, rfl, ha, hb⟩)]
    simp
  rw [Finset.sum_eq_single (H / 2), Finset.sum_eq_single (W / 2)]
  · beta_reduce
    rw [hget _ _ (by omega) (by omega), if_pos ⟨rfl, rfl⟩, one_mul]
    unfold kernelValue
    have e1 : (i : ℤ) + ((H - 1) / 2 : ℕ) - (H / 2 : ℕ) = i := by omega
    have e2 : (j : ℤ) + ((W - 1) / 2 : ℕ) - (W / 2 : ℕ) = j := by omega
    rw [e1, e2, if_pos (by omega)]
    simp
  · intro b hb hne
    rw [Finset.mem_range] at hb
    beta_reduce
    rw [hget _ _ (by omega) hb, if_neg (by simp [hne]), zero_mul]
  · intro h
    exact absurd (Finset.mem_range.2 (by omega)) h
  · intro a ha hne
    rw [Finset.mem_range] at ha
    refine Finset.sum_eq_zero fun b hb => ?_
    rw [Finset.mem_range] at hb
    beta_reduce
    rw [hget _ _ ha hb, if_neg (by simp [hne]), zero_mul]
  · intro h
    exact absurd (Finset.mem_range.2 (by omega)) h

/-- If the transform convolves its input with the filters of a bank (one scale per filter), then
`get_mr_filters` returns that bank, for every requested shape: the working shape is the requested one with
even sides reduced by one, and without `coarse` the last (coarse) filter is dropped. -/
theorem C90_returns_the_filter_bank (h w : ℕ) (hh : 0 < h) (hw : 0 < w) :
    ∃ H W, H % 2 = 1 ∧ W % 2 = 1 ∧ H ≤ h ∧ h ≤ H + 1 ∧ W ≤ w ∧ w ≤ W + 1 ∧
      ∀ (N : ℕ) (bank : ℕ → ℕ → ℕ → R) (transform : NDArray R → Py (NDArray R)),
        (∀ x : NDArray R, x.shape = [H, W] → ∃ t, transform x = .ok t ∧ t.shape = [N, H, W] ∧ t.WF ∧
          ∀ k i j, k < N → i < H → j < W →
            t.get [k, i, j] = conv2 (fun a b => x.get [a, b]) H W (bank k) H W i j) →
        ∀ coarse, ∃ m, getMrFilters transform (h, w) coarse false = .ok m ∧
          m.shape = [if coarse then N else N - 1, H, W] ∧
          ∀ k i j, k < (if coarse then N else N - 1) → i < H → j < W → m.get [k, i, j] = bank k i j := by
  refine ⟨(oddSide h).toNat, (oddSide w).toNat, by unfold oddSide; omega, by unfold oddSide; omega,
    by unfold oddSide; omega, by unfold oddSide; omega, by unfold oddSide; omega, by unfold oddSide; omega,
    fun N bank transform ht coarse => ?_⟩
  have hH : (oddSide h).toNat % 2 = 1 := by unfold oddSide; omega
  have hW : (oddSide w).toNat % 2 = 1 := by unfold oddSide; omega
  have hneg : ¬ (oddSide h < 0 ∨ oddSide w < 0) := by unfold oddSide; omega
  obtain ⟨t, e, st, wt, vt⟩ := ht (impulse (oddSide h).toNat (oddSide w).toNat) rfl
  unfold getMrFilters
  simp only [if_neg hneg, e, Bool.false_eq_true, if_false]
  cases coarse with
  | true =>
    refine ⟨t, rfl, by simpa using st, fun k i j hk hi hj => ?_⟩
    rw [vt k i j (by simpa using hk) hi hj, conv2_impulse _ _ hH hW _ _ _ hi hj]
  | false =>
    refine ⟨ofFn [N - 1, (oddSide h).toNat, (oddSide w).toNat] t.get, ?_, by simp, fun k i j hk hi hj => ?_⟩
    · simp only [bind, Except.bind, Bool.false_eq_true, if_false, st]
    · simp only [Bool.false_eq_true, if_false] at hk
      rw [get_ofFn _ (by rw [inB_three]; exact ⟨k, i, j, rfl, hk, hi, hj⟩),
        vt k i j (by omega) hi hj, conv2_impulse _ _ hH hW _ _ _ hi hj]

/-- Non-trivial instance: transforms that convolve with a given bank exist. -/
example (N H W : ℕ) (bank : ℕ → ℕ → ℕ → R) : ∃ transform : NDArray R → Py (NDArray R),
    ∀ x : NDArray R, x.shape = [H, W] → ∃ t, transform x = .ok t ∧ t.shape = [N, H, W] ∧ t.WF ∧
      ∀ k i j, k < N → i < H → j < W →
        t.get [k, i, j] = conv2 (fun a b => x.get [a, b]) H W (bank k) H W i j :=
  ⟨fun x => .ok (ofFn [N, H, W] fun idx =>
      conv2 (fun a b => x.get [a, b]) H W (bank (idx.getD 0 0)) H W (idx.getD 1 0) (idx.getD 2 0)),
    fun x _ => ⟨_, rfl, rfl, wf_ofFn _ _, fun k i j hk hi hj => by
      rw [get_ofFn _ (by rw [inB_three]; exact ⟨k, i, j, rfl, hk, hi, hj⟩)]
      rfl⟩⟩

/-- An empty side raises `ValueError`. -/
theorem C90_empty_shape (transform : NDArray R → Py (NDArray R)) (h w : ℕ) (h0 : h = 0 ∨ w = 0)
    (coarse trim : Bool) : getMrFilters transform (h, w) coarse trim = .error .valueError := by
  unfold getMrFilters
  rw [if_pos]
  unfold oddSide
  rcases h0 with rfl | rfl
  · left; norm_num
  · right; norm_num

/-- With `trim` the call fails whenever two trimmed filters differ in size, instead of returning the
documented array of arrays. -/
theorem C90_trim_fails_on_different_sizes :
    ∃ transform : NDArray ℤ → Py (NDArray ℤ), (∃ t, transform (impulse 3 3) = .ok t ∧ t.shape = [2, 3, 3]) ∧
      getMrFilters transform (3, 3) true true = .error .valueError ∧
      getMrFilters transform (3, 3) true false ≠ .error .valueError :=
  ⟨fun _ => .ok ⟨[2, 3, 3], [0, 0, 0, 0, 1, 0, 0, 0, 0, 1, 1, 1, 1, 1, 1, 1, 1, 1]⟩, ⟨_, rfl, rfl⟩,
    by decide, by decide⟩

end Mr

end Verif
