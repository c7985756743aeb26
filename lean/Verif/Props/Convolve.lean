import Verif.Lemmas.Convolve
import Mathlib.Data.Int.Basic
import Mathlib.Algebra.Ring.Int.Defs

/-!
# C22, C70: filter-bank and stack convolution
-/

set_option linter.unusedSectionVars false

namespace Verif
open NDArray Convolve NpAdjust Spec

variable {K : Type} [CommRing K] [Inhabited K]

/-! ## C70 -/

/-- C70: `convolve_stack` pairs image `n` with kernel `n` (the shorter stack decides how many), convolves
them, and keeps the image size; with `rot_kernel` each kernel is rotated by 180 degrees first. -/
theorem C70_convolve_stack_entries (astropy : NDArray K → NDArray K → NDArray K) (ha : Bool)
    {x k : NDArray K} {n m r c kh kw : ℕ} (hx : x.shape = [n, r, c]) (hk : k.shape = [m, kh, kw])
    (hn : 0 < n) (hm : 0 < m) (hr : 0 < r) (hc : 0 < c) (hkh : 0 < kh) (hkw : 0 < kw) (rot : Bool) :
    ∃ y, convolveStack astropy ha x k rot "scipy" = .ok y ∧ y.WF ∧ y.shape = [min n m, r, c] ∧
      ∀ l i j, l < n → l < m → i < r → j < c →
        y.get [l, i, j] = conv2 (fun a b => x.get [l, a, b]) r c
          (fun a b => if rot then k.get [l, kh - 1 - a, kw - 1 - b] else k.get [l, a, b]) kh kw i j := by
  -- the kernels actually used
  have hker : ∃ k', (if rot then rotateStack k else .ok k) = (.ok k' : Py (NDArray K)) ∧
      k'.shape = [m, kh, kw] ∧ ∀ l a b, l < m → a < kh → b < kw →
        k'.get [l, a, b] = if rot then k.get [l, kh - 1 - a, kw - 1 - b] else k.get [l, a, b] := by
    cases rot with
    | false => exact ⟨k, rfl, hk, fun _ _ _ _ _ _ => rfl⟩
    | true =>
      obtain ⟨k', h1, _, h3, h4⟩ := C06_rotate_stack_entries hm hk
      exact ⟨k', h1, h3, fun l a b hl h h' => h4 l a b hl h h'⟩
  obtain ⟨k', hk1, hk2, hk3⟩ := hker
  set zl := ((List.range n).map x.index0).zip ((List.range m).map k'.index0) with hzl
  have hlen : zl.length = min n m := by simp [hzl]
  obtain ⟨ys, h1, h2, y, h3, h4, h5, h6⟩ := stack_ok (s := [r, c])
    (f := fun p : NDArray K × NDArray K => convolve astropy ha p.1 p.2 "scipy") (l := zl)
    (by intro h0; rw [h0] at hlen; simp at hlen; omega)
    (fun l idx => conv2 (fun a b => x.get [l, a, b]) r c
          (fun a b => if rot then k.get [l, kh - 1 - a, kw - 1 - b] else k.get [l, a, b]) kh kw
          (idx.getD 0 0) (idx.getD 1 0))
    (by
      intro l hl
      have hl1 : l < n := by omega
      have hl2 : l < m := by omega
      have he : zl[l] = (x.index0 l, k'.index0 l) := by simp [hzl]
      rw [he]
      obtain ⟨y, h1, _, h3, h4⟩ := convolve_two astropy ha (x := x.index0 l) (k := k'.index0 l)
        (by simp [hx]) (by simp [hk2]) hr hc hkh hkw
      refine ⟨y, h1, h3, fun idx hi => ?_⟩
      rw [inB_two] at hi
      obtain ⟨i, j, rfl, hi, hj⟩ := hi
      rw [h4 i j hi hj]
      simp only [List.getD_cons_zero, List.getD_cons_succ]
      exact conv2_congr (fun a b ha hb => get_index0 (by simp [hx, InB, ha, hb]))
        (fun a b ha hb => (get_index0 (by simp [hk2, InB, ha, hb])).trans (hk3 l a b hl2 ha hb)))
  refine ⟨y, ?_, h4, by rw [h5, hlen], ?_⟩
  · unfold convolveStack
    rw [hk1, ok_bind', slices_eq hx, ok_bind', slices_eq hk2, ok_bind', h1, ok_bind', h3]
  · intro l i j hl1 hl2 hi hj
    rw [h6 l [i, j] (by omega) (by simp [InB, hi, hj])]
    rfl

/-- C70: `convolve` rejects arrays of different dimension and unknown methods with `ValueError`, and
falls back to the SciPy convolution when `astropy` cannot be imported. -/
theorem C70_convolve_dispatch (astropy : NDArray K → NDArray K → NDArray K) (ha : Bool)
    (x k : NDArray K) (method : String) :
    (x.ndim ≠ k.ndim → convolve astropy ha x k method = .error .valueError) ∧
    (method ≠ "astropy" → method ≠ "scipy" → convolve astropy ha x k method = .error .valueError) ∧
    (x.ndim = k.ndim → convolve astropy false x k "astropy" = convolve astropy false x k "scipy") ∧
    (x.ndim = k.ndim → convolve astropy true x k "astropy" = .ok (astropy x k)) := by
  refine ⟨fun h => by simp [convolve, h], fun h1 h2 => ?_, fun h => by simp [convolve, h],
    fun h => by simp [convolve, h]⟩
  have h4 : method ∉ ["astropy", "scipy"] := by simp [h1, h2]
  unfold convolve
  rw [if_pos h4]
  split_ifs <;> rfl

/-! ## C22 -/

/-- C70: convolution is linear in the data: if the entries of `x` are `a·x₁ + b·x₂`, so are the results. -/
theorem C70_linear_in_data (astropy : NDArray K → NDArray K → NDArray K) (ha : Bool)
    {x x₁ x₂ k : NDArray K} {r c kh kw : ℕ} (a b : K) (hx : x.shape = [r, c]) (hx₁ : x₁.shape = [r, c])
    (hx₂ : x₂.shape = [r, c]) (hk : k.shape = [kh, kw])
    (hr : 0 < r) (hc : 0 < c) (hkh : 0 < kh) (hkw : 0 < kw)
    (h : ∀ i j, i < r → j < c → x.get [i, j] = a * x₁.get [i, j] + b * x₂.get [i, j]) :
    ∃ y y₁ y₂, convolve astropy ha x k "scipy" = .ok y ∧ convolve astropy ha x₁ k "scipy" = .ok y₁ ∧
      convolve astropy ha x₂ k "scipy" = .ok y₂ ∧
      ∀ i j, i < r → j < c → y.get [i, j] = a * y₁.get [i, j] + b * y₂.get [i, j] := by
  obtain ⟨y, e, -, -, g⟩ := convolve_two astropy ha hx hk hr hc hkh hkw
  obtain ⟨y₁, e₁, -, -, g₁⟩ := convolve_two astropy ha hx₁ hk hr hc hkh hkw
  obtain ⟨y₂, e₂, -, -, g₂⟩ := convolve_two astropy ha hx₂ hk hr hc hkh hkw
  refine ⟨y, y₁, y₂, e, e₁, e₂, fun i j hi hj => ?_⟩
  rw [g i j hi hj, g₁ i j hi hj, g₂ i j hi hj]
  simp only [conv2, Finset.mul_sum, ← Finset.sum_add_distrib]
  refine Finset.sum_congr rfl fun u hu => Finset.sum_congr rfl fun v hv => ?_
  rw [Finset.mem_range] at hu hv
  rw [h u v hu hv]; ring

/-- C70: convolution is linear in the kernel. -/
theorem C70_linear_in_kernel (astropy : NDArray K → NDArray K → NDArray K) (ha : Bool)
    {x k k₁ k₂ : NDArray K} {r c kh kw : ℕ} (a b : K) (hx : x.shape = [r, c]) (hk : k.shape = [kh, kw])
    (hk₁ : k₁.shape = [kh, kw]) (hk₂ : k₂.shape = [kh, kw])
    (hr : 0 < r) (hc : 0 < c) (hkh : 0 < kh) (hkw : 0 < kw)
    (h : ∀ i j, i < kh → j < kw → k.get [i, j] = a * k₁.get [i, j] + b * k₂.get [i, j]) :
    ∃ y y₁ y₂, convolve astropy ha x k "scipy" = .ok y ∧ convolve astropy ha x k₁ "scipy" = .ok y₁ ∧
      convolve astropy ha x k₂ "scipy" = .ok y₂ ∧
      ∀ i j, i < r → j < c → y.get [i, j] = a * y₁.get [i, j] + b * y₂.get [i, j] := by
  obtain ⟨y, e, -, -, g⟩ := convolve_two astropy ha hx hk hr hc hkh hkw
  obtain ⟨y₁, e₁, -, -, g₁⟩ := convolve_two astropy ha hx hk₁ hr hc hkh hkw
  obtain ⟨y₂, e₂, -, -, g₂⟩ := convolve_two astropy ha hx hk₂ hr hc hkh hkw
  refine ⟨y, y₁, y₂, e, e₁, e₂, fun i j hi hj => ?_⟩
  rw [g i j hi hj, g₁ i j hi hj, g₂ i j hi hj]
  simp only [conv2, Finset.mul_sum, ← Finset.sum_add_distrib]
  refine Finset.sum_congr rfl fun u _ => Finset.sum_congr rfl fun v _ => ?_
  have hkv : ∀ p q : ℤ, kernelValue (fun a b => k.get [a, b]) kh kw p q
      = a * kernelValue (fun a b => k₁.get [a, b]) kh kw p q
        + b * kernelValue (fun a b => k₂.get [a, b]) kh kw p q := by
    intro p q
    unfold kernelValue
    split_ifs with hp
    · exact h _ _ (by omega) (by omega)
    · ring
  rw [hkv]; ring

theorem waveletOp_entries (astropy : NDArray K → NDArray K → NDArray K) (ha : Bool)
    {x k : NDArray K} {n m r c kh kw : ℕ} (hx : x.shape = [n, r, c]) (hk : k.shape = [m, kh, kw])
    (hn : 0 < n) (hm : 0 < m) (hr : 0 < r) (hc : 0 < c) (hkh : 0 < kh) (hkw : 0 < kw) :
    ∃ y, waveletOp astropy ha k "scipy" x = .ok y ∧ y.WF ∧ y.shape = [n, m, r, c] ∧
      ∀ l f i j, l < n → f < m → i < r → j < c →
        y.get [l, f, i, j] = conv2 (fun a b => x.get [l, a, b]) r c (fun a b => k.get [f, a, b])
          kh kw i j := by
  have inner : ∀ l, l < n → ∃ y, filterConvolve astropy ha (x.index0 l) k false "scipy" = .ok y ∧
      y.shape = [m, r, c] ∧ ∀ idx, InB idx [m, r, c] → y.get idx
        = conv2 (fun a b => x.get [l, a, b]) r c (fun a b => k.get [idx.getD 0 0, a, b]) kh kw
          (idx.getD 1 0) (idx.getD 2 0) := by
    intro l hl
    obtain ⟨ys, h1, h2, y, h3, h4, h5, h6⟩ := stack_ok (s := [r, c])
      (f := fun f : NDArray K => convolve astropy ha (x.index0 l) f "scipy")
      (l := (List.range m).map k.index0) (by simp; omega)
      (fun f idx => conv2 (fun a b => x.get [l, a, b]) r c (fun a b => k.get [f, a, b]) kh kw
          (idx.getD 0 0) (idx.getD 1 0))
      (by
        intro f hf
        have hf' : f < m := by simpa using hf
        simp only [List.getElem_map, List.getElem_range]
        obtain ⟨y, h1, _, h3, h4⟩ := convolve_two astropy ha (x := x.index0 l) (k := k.index0 f)
          (by simp [hx]) (by simp [hk]) hr hc hkh hkw
        refine ⟨y, h1, h3, fun idx hi => ?_⟩
        rw [inB_two] at hi
        obtain ⟨i, j, rfl, hi, hj⟩ := hi
        rw [h4 i j hi hj]
        simp only [List.getD_cons_zero, List.getD_cons_succ]
        exact conv2_congr (fun a b ha hb => get_index0 (by simp [hx, InB, ha, hb]))
          (fun a b ha hb => get_index0 (by simp [hk, InB, ha, hb])))
    refine ⟨y, ?_, by rw [h5]; simp, ?_⟩
    · simp only [filterConvolve, Bool.false_eq_true, if_false]
      rw [slices_eq hk, ok_bind', h1, ok_bind', h3]
    · intro idx hi
      rw [inB_three] at hi
      obtain ⟨f, i, j, rfl, hf, hi, hj⟩ := hi
      rw [h6 f [i, j] (by simpa using hf) (by simp [InB, hi, hj])]
      rfl
  obtain ⟨ys, h1, h2, y, h3, h4, h5, h6⟩ := stack_ok (s := [m, r, c])
    (f := fun elem : NDArray K => filterConvolve astropy ha elem k false "scipy")
    (l := (List.range n).map x.index0) (by simp; omega)
    (fun l idx => conv2 (fun a b => x.get [l, a, b]) r c (fun a b => k.get [idx.getD 0 0, a, b]) kh kw
          (idx.getD 1 0) (idx.getD 2 0))
    (by
      intro l hl
      simp only [List.getElem_map, List.getElem_range]
      exact inner l (by simpa using hl))
  refine ⟨y, ?_, h4, by rw [h5]; simp, fun l f i j hl hf hi hj => ?_⟩
  · simp only [waveletOp, filterConvolveStack]
    rw [slices_eq hx, ok_bind', h1, ok_bind', h3]
  · rw [h6 l [f, i, j] (by simpa using hl) (by simp [InB, hf, hi, hj])]
    rfl

theorem waveletAdjOp_entries (astropy : NDArray K → NDArray K → NDArray K) (ha : Bool)
    {d k : NDArray K} {n m r c kh kw : ℕ} (hd : d.shape = [n, m, r, c]) (hk : k.shape = [m, kh, kw])
    (hn : 0 < n) (hm : 0 < m) (hr : 0 < r) (hc : 0 < c) (hkh : 0 < kh) (hkw : 0 < kw) :
    ∃ z, waveletAdjOp astropy ha k "scipy" d = .ok z ∧ z.WF ∧ z.shape = [n, r, c] ∧
      ∀ l i j, l < n → i < r → j < c →
        z.get [l, i, j] = ∑ f ∈ Finset.range m, conv2 (fun a b => d.get [l, f, a, b]) r c
          (fun a b => k.get [f, kh - 1 - a, kw - 1 - b]) kh kw i j := by
  obtain ⟨k', hk1, _, hk2, hk3⟩ := C06_rotate_stack_entries hm hk
  have inner : ∀ l, l < n → ∃ y, filterConvolve astropy ha (d.index0 l) k true "scipy" = .ok y ∧
      y.shape = [r, c] ∧ ∀ idx, InB idx [r, c] → y.get idx
        = ∑ f ∈ Finset.range m, conv2 (fun a b => d.get [l, f, a, b]) r c
          (fun a b => k.get [f, kh - 1 - a, kw - 1 - b]) kh kw (idx.getD 0 0) (idx.getD 1 0) := by
    intro l hl
    have hdl : (d.index0 l).shape = [m, r, c] := by simp [hd]
    set zl := ((List.range m).map (d.index0 l).index0).zip ((List.range m).map k'.index0) with hzl
    have hlen : zl.length = m := by simp [hzl]
    obtain ⟨ys, h1, h2, y, h3, h4, h5, h6⟩ := stack_ok (s := [r, c])
      (f := fun p : NDArray K × NDArray K => convolve astropy ha p.1 p.2 "scipy") (l := zl)
      (by intro h0; rw [h0] at hlen; simp at hlen; omega)
      (fun f idx => conv2 (fun a b => d.get [l, f, a, b]) r c
            (fun a b => k.get [f, kh - 1 - a, kw - 1 - b]) kh kw (idx.getD 0 0) (idx.getD 1 0))
      (by
        intro f hf
        have hf' : f < m := by omega
        have he : zl[f] = ((d.index0 l).index0 f, k'.index0 f) := by simp [hzl]
        rw [he]
        obtain ⟨y, h1, _, h3, h4⟩ := convolve_two astropy ha (x := (d.index0 l).index0 f)
          (k := k'.index0 f) (by simp [hd]) (by simp [hk2]) hr hc hkh hkw
        refine ⟨y, h1, h3, fun idx hi => ?_⟩
        rw [inB_two] at hi
        obtain ⟨i, j, rfl, hi, hj⟩ := hi
        rw [h4 i j hi hj]
        simp only [List.getD_cons_zero, List.getD_cons_succ]
        exact conv2_congr
          (fun a b ha hb => (get_index0 (by simp [hd, InB, ha, hb])).trans
            (get_index0 (by simp [hd, InB, hf', ha, hb])))
          (fun a b ha hb => (get_index0 (by simp [hk2, InB, ha, hb])).trans (hk3 f a b hf' ha hb)))
    refine ⟨ofFn y.shape.tail fun idx => ((List.range ys.length).map fun k => y.get (k :: idx)).sum,
      ?_, by rw [shape_ofFn, h5]; rfl, ?_⟩
    · simp only [filterConvolve, if_true]
      rw [hk1, ok_bind', slices_eq hdl, ok_bind', slices_eq hk2, ok_bind', h1, ok_bind', npSum0, h3]
      rfl
    · intro idx hi
      rw [get_ofFn _ (by rw [h5]; exact hi), h2, hlen]
      have : ∀ g : ℕ → K, ((List.range m).map g).sum = ∑ f ∈ Finset.range m, g f := by
        intro g
        clear * -
        induction m with
        | zero => simp
        | succ m ih => rw [List.range_succ, List.map_append, List.sum_append, ih, Finset.sum_range_succ]; simp
      rw [this]
      refine Finset.sum_congr rfl fun f hf => ?_
      rw [Finset.mem_range] at hf
      exact h6 f idx (by omega) hi
  obtain ⟨ys, h1, h2, y, h3, h4, h5, h6⟩ := stack_ok (s := [r, c])
    (f := fun elem : NDArray K => filterConvolve astropy ha elem k true "scipy")
    (l := (List.range n).map d.index0) (by simp; omega)
    (fun l idx => ∑ f ∈ Finset.range m, conv2 (fun a b => d.get [l, f, a, b]) r c
          (fun a b => k.get [f, kh - 1 - a, kw - 1 - b]) kh kw (idx.getD 0 0) (idx.getD 1 0))
    (by
      intro l hl
      simp only [List.getElem_map, List.getElem_range]
      exact inner l (by simpa using hl))
  refine ⟨y, ?_, h4, by rw [h5]; simp, fun l i j hl hi hj => ?_⟩
  · simp only [waveletAdjOp, filterConvolveStack]
    rw [slices_eq hd, ok_bind', h1, ok_bind', h3]
  · rw [h6 l [i, j] (by simpa using hl) (by simp [InB, hi, hj])]
    rfl

/-- C22: for filters with odd sizes, `WaveletConvolve.adj_op` is the adjoint of `WaveletConvolve.op`, for
every stack of images and every stack of coefficients. -/
theorem C22_wavelet_convolve_adjoint (astropy : NDArray K → NDArray K → NDArray K) (ha : Bool)
    {x d k : NDArray K} {n m r c kh kw : ℕ} (wx : x.WF) (wd : d.WF) (hx : x.shape = [n, r, c])
    (hd : d.shape = [n, m, r, c]) (hk : k.shape = [m, kh, kw]) (hn : 0 < n) (hm : 0 < m) (hr : 0 < r)
    (hc : 0 < c) (oh : kh % 2 = 1) (ow : kw % 2 = 1) :
    ∃ y z, waveletOp astropy ha k "scipy" x = .ok y ∧ waveletAdjOp astropy ha k "scipy" d = .ok z ∧
      y.shape = d.shape ∧ z.shape = x.shape ∧ dot y d = dot x z := by
  obtain ⟨y, y1, y2, y3, y4⟩ := waveletOp_entries astropy ha hx hk hn hm hr hc (by omega) (by omega)
  obtain ⟨z, z1, z2, z3, z4⟩ := waveletAdjOp_entries astropy ha hd hk hn hm hr hc (by omega) (by omega)
  refine ⟨y, z, y1, z1, by rw [y3, hd], by rw [z3, hx], ?_⟩
  rw [dot_eq_sum y2 wd (by rw [y3, hd]), dot_eq_sum wx z2 (by rw [z3, hx]), y3, hx, sum_allIdx_four,
    sum_allIdx_three]
  refine Finset.sum_congr rfl fun l hl => ?_
  rw [Finset.mem_range] at hl
  have e1 : ∀ f ∈ Finset.range m, (∑ i ∈ Finset.range r, ∑ j ∈ Finset.range c,
      y.get [l, f, i, j] * d.get [l, f, i, j])
      = ∑ i ∈ Finset.range r, ∑ j ∈ Finset.range c,
        x.get [l, i, j] * conv2 (fun a b => d.get [l, f, a, b]) r c
          (fun a b => k.get [f, kh - 1 - a, kw - 1 - b]) kh kw i j := by
    intro f hf
    rw [Finset.mem_range] at hf
    rw [← conv2_adjoint (fun a b => x.get [l, a, b]) (fun a b => d.get [l, f, a, b])
      (fun a b => k.get [f, a, b]) r c kh kw oh ow]
    refine Finset.sum_congr rfl fun i hi => Finset.sum_congr rfl fun j hj => ?_
    rw [Finset.mem_range] at hi hj
    rw [y4 l f i j hl hf hi hj]
  rw [Finset.sum_congr rfl e1, Finset.sum_comm]
  refine Finset.sum_congr rfl fun i hi => ?_
  rw [Finset.sum_comm]
  refine Finset.sum_congr rfl fun j hj => ?_
  rw [Finset.mem_range] at hi hj
  rw [z4 l i j hl hi hj, Finset.mul_sum]

/-- C22, refuted for even sizes: for every image size and every filter size with an even number of rows,
there is a filter bank, an image and coefficients for which `adj_op` is not the adjoint of `op`. -/
theorem C22_even_filters_not_adjoint [Nontrivial K] (astropy : NDArray K → NDArray K → NDArray K)
    (ha : Bool) (r c kh kw : ℕ) (hr : 0 < r) (hc : 0 < c) (eh : kh % 2 = 0) (hkh : 0 < kh)
    (hkw : 0 < kw) :
    ∃ x d k y z : NDArray K, x.WF ∧ d.WF ∧ k.WF ∧ x.shape = [1, r, c] ∧ d.shape = [1, 1, r, c] ∧
      k.shape = [1, kh, kw] ∧ waveletOp astropy ha k "scipy" x = .ok y ∧
      waveletAdjOp astropy ha k "scipy" d = .ok z ∧ dot y d ≠ dot x z := by
  set x : NDArray K := ofFn [1, r, c] fun idx => if idx.getD 1 0 = 0 ∧ idx.getD 2 0 = 0 then 1 else 0
    with hx
  set d : NDArray K := ofFn [1, 1, r, c] fun idx => if idx.getD 2 0 = 0 ∧ idx.getD 3 0 = 0 then 1 else 0
    with hd
  set k : NDArray K := ofFn [1, kh, kw] fun idx =>
    if idx.getD 1 0 = (kh - 1) / 2 ∧ idx.getD 2 0 = (kw - 1) / 2 then 1 else 0 with hk
  obtain ⟨y, y1, y2, y3, y4⟩ := waveletOp_entries astropy ha (x := x) (k := k) rfl rfl one_pos one_pos hr
    hc hkh hkw
  obtain ⟨z, z1, z2, z3, z4⟩ := waveletAdjOp_entries astropy ha (d := d) (k := k) rfl rfl one_pos one_pos
    hr hc hkh hkw
  have xg : ∀ i j, i < r → j < c → x.get [0, i, j] = if i = 0 ∧ j = 0 then 1 else 0 := by
    intro i j hi hj; rw [hx, get_ofFn _ (by simp [InB, hi, hj])]; simp
  have dg : ∀ i j, i < r → j < c → d.get [0, 0, i, j] = if i = 0 ∧ j = 0 then 1 else 0 := by
    intro i j hi hj; rw [hd, get_ofFn _ (by simp [InB, hi, hj])]; simp
  have kg : ∀ i j, i < kh → j < kw → k.get [0, i, j]
      = if i = (kh - 1) / 2 ∧ j = (kw - 1) / 2 then 1 else 0 := by
    intro i j hi hj; rw [hk, get_ofFn _ (by simp [InB, hi, hj])]; simp
  -- sums against the indicator of the corner
  have corner : ∀ F : ℕ → ℕ → K, ∑ i ∈ Finset.range r, ∑ j ∈ Finset.range c,
      (if i = 0 ∧ j = 0 then F i j else 0) = F 0 0 := by
    intro F
    rw [Finset.sum_eq_single 0, Finset.sum_eq_single 0]
    · simp
    · intro j _ hj; simp [hj]
    · intro h; exact absurd (Finset.mem_range.2 hc) h
    · intro i _ hi; simp [hi]
    · intro h; exact absurd (Finset.mem_range.2 hr) h
  refine ⟨x, d, k, y, z, wf_ofFn _ _, wf_ofFn _ _, wf_ofFn _ _, rfl, rfl, rfl, y1, z1, ?_⟩
  rw [dot_eq_sum y2 (wf_ofFn _ _) (by rw [y3]; rfl), dot_eq_sum (wf_ofFn _ _) z2 (by rw [z3]; rfl), y3,
    show x.shape = [1, r, c] from rfl, sum_allIdx_four, sum_allIdx_three]
  simp only [Finset.range_one, Finset.sum_singleton]
  have lhs : ∑ i ∈ Finset.range r, ∑ j ∈ Finset.range c, y.get [0, 0, i, j] * d.get [0, 0, i, j] = 1 := by
    have : ∀ i ∈ Finset.range r, ∀ j ∈ Finset.range c, y.get [0, 0, i, j] * d.get [0, 0, i, j]
        = if i = 0 ∧ j = 0 then y.get [0, 0, i, j] else 0 := by
      intro i hi j hj
      rw [Finset.mem_range] at hi hj
      rw [dg i j hi hj]; split_ifs <;> simp
    rw [Finset.sum_congr rfl fun i hi => Finset.sum_congr rfl (this i hi),
      corner (fun i j => y.get [0, 0, i, j]), y4 0 0 0 0 one_pos one_pos hr hc]
    unfold conv2
    have : ∀ a ∈ Finset.range r, ∀ b ∈ Finset.range c, x.get [0, a, b]
        * kernelValue (fun a b => k.get [0, a, b]) kh kw ((0 : ℕ) + ((kh - 1) / 2 : ℕ) - a)
          ((0 : ℕ) + ((kw - 1) / 2 : ℕ) - b)
        = if a = 0 ∧ b = 0 then kernelValue (fun a b => k.get [0, a, b]) kh kw
          ((0 : ℕ) + ((kh - 1) / 2 : ℕ) - a) ((0 : ℕ) + ((kw - 1) / 2 : ℕ) - b) else 0 := by
      intro a ha b hb
      rw [Finset.mem_range] at ha hb
      rw [xg a b ha hb]; split_ifs <;> simp
    rw [Finset.sum_congr rfl fun i hi => Finset.sum_congr rfl (this i hi),
      corner (fun a b => kernelValue (fun a b => k.get [0, a, b]) kh kw
          ((0 : ℕ) + ((kh - 1) / 2 : ℕ) - a) ((0 : ℕ) + ((kw - 1) / 2 : ℕ) - b))]
    unfold kernelValue
    rw [if_pos (by omega)]
    refine (kg _ _ (by omega) (by omega)).trans (if_pos (by omega))
  have rhs : ∑ i ∈ Finset.range r, ∑ j ∈ Finset.range c, x.get [0, i, j] * z.get [0, i, j] = 0 := by
    have : ∀ i ∈ Finset.range r, ∀ j ∈ Finset.range c, x.get [0, i, j] * z.get [0, i, j]
        = if i = 0 ∧ j = 0 then z.get [0, i, j] else 0 := by
      intro i hi j hj
      rw [Finset.mem_range] at hi hj
      rw [xg i j hi hj]; split_ifs <;> simp
    rw [Finset.sum_congr rfl fun i hi => Finset.sum_congr rfl (this i hi),
      corner (fun i j => z.get [0, i, j]), z4 0 0 0 one_pos hr hc, Finset.range_one,
      Finset.sum_singleton]
    unfold conv2
    have : ∀ a ∈ Finset.range r, ∀ b ∈ Finset.range c, d.get [0, 0, a, b]
        * kernelValue (fun a b => k.get [0, kh - 1 - a, kw - 1 - b]) kh kw
          ((0 : ℕ) + ((kh - 1) / 2 : ℕ) - a) ((0 : ℕ) + ((kw - 1) / 2 : ℕ) - b)
        = if a = 0 ∧ b = 0 then kernelValue (fun a b => k.get [0, kh - 1 - a, kw - 1 - b]) kh kw
          ((0 : ℕ) + ((kh - 1) / 2 : ℕ) - a) ((0 : ℕ) + ((kw - 1) / 2 : ℕ) - b) else 0 := by
      intro a ha b hb
      rw [Finset.mem_range] at ha hb
      rw [dg a b ha hb]; split_ifs <;> simp
    rw [Finset.sum_congr rfl fun i hi => Finset.sum_congr rfl (this i hi),
      corner (fun a b => kernelValue (fun a b => k.get [0, kh - 1 - a, kw - 1 - b]) kh kw
          ((0 : ℕ) + ((kh - 1) / 2 : ℕ) - a) ((0 : ℕ) + ((kw - 1) / 2 : ℕ) - b))]
    unfold kernelValue
    rw [if_pos (by omega)]
    refine (kg _ _ (by omega) (by omega)).trans (if_neg (by omega))
  rw [lhs, rhs]
  exact one_ne_zero

section Examples
/-- The documented SciPy example of `convolve` (values as in the docstring). -/
example : convolve (fun a _ => a) true (⟨[3, 3], [0, 1, 2, 3, 4, 5, 6, 7, 8]⟩ : NDArray ℤ)
    ⟨[3, 3], [10, 11, 12, 13, 14, 15, 16, 17, 18]⟩ "scipy"
    = .ok ⟨[3, 3], [86, 170, 146, 246, 444, 354, 290, 494, 374]⟩ := by decide +kernel
/-- The hypotheses of the adjointness theorem are met by a 3×3 filter bank. -/
example : ∃ y z, waveletOp (fun a _ => a) true (⟨[1, 1, 3], [1, 2, 3]⟩ : NDArray ℤ) "scipy"
      ⟨[1, 2, 2], [1, 2, 3, 4]⟩ = .ok y ∧
    waveletAdjOp (fun a _ => a) true ⟨[1, 1, 3], [1, 2, 3]⟩ "scipy" ⟨[1, 1, 2, 2], [5, 6, 7, 8]⟩ = .ok z ∧
    y.shape = [1, 1, 2, 2] ∧ z.shape = [1, 2, 2] ∧
    dot y ⟨[1, 1, 2, 2], [5, 6, 7, 8]⟩ = dot ⟨[1, 2, 2], [1, 2, 3, 4]⟩ z :=
  C22_wavelet_convolve_adjoint (fun a _ => a) true (x := ⟨[1, 2, 2], [1, 2, 3, 4]⟩)
    (d := ⟨[1, 1, 2, 2], [5, 6, 7, 8]⟩) (k := ⟨[1, 1, 3], [1, 2, 3]⟩) (by decide) (by decide) rfl rfl rfl
    (by decide) (by decide) (by decide) (by decide) (by decide) (by decide)
end Examples

end Verif
