import Verif.Lemmas.Transform
import Mathlib.Data.Rat.Floor
import Mathlib.Tactic.Push

/-!
# C01–C05: cubes, maps and matrices

All statements are about the entry points of `modopt.base.transform` (as modelled in
`Verif.Model.Transform`) and use only array shapes and entries.
-/

namespace Verif
open NDArray Transform
variable {α : Type _} [Inhabited α]

/-! ## C01 -/

/-- C01, pixel positions: pixel `(r, s)` of slice `i*b + j` of the cube is at `(i*h + r, j*w + s)` of
the map, whose shape is `(a*h, b*w)`. -/
theorem C01_cube2map_pixels {cube : NDArray α} {a b h w : ℕ} (hs : cube.shape = [a * b, h, w])
    (ha : 0 < a) (hb : 0 < b) :
    ∃ m, cube2map cube (a, b) = .ok m ∧ m.WF ∧ m.shape = [a * h, b * w] ∧
      ∀ i j r s, i < a → j < b → r < h → s < w →
        m.get [i * h + r, j * w + s] = cube.get [i * b + j, r, s] :=
  cube2map_spec hs ha hb

/-- C01, round trip: `map2cube(cube2map(cube, layout), layout)` is the original cube. -/
theorem C01_map2cube_cube2map {cube : NDArray α} {a b h w : ℕ} (hwf : cube.WF)
    (hs : cube.shape = [a * b, h, w]) (ha : 0 < a) (hb : 0 < b) :
    (do let m ← cube2map cube (a, b); map2cube m (a, b)) = .ok cube := by
  obtain ⟨m, h1, _, h2, h3⟩ := cube2map_spec hs ha hb
  obtain ⟨c, h4, h5, h6, h7⟩ := map2cube_spec h2 ha hb (Or.inl (Nat.dvd_mul_right a h))
  rw [h1, ok_bind, h4]
  have e1 : a * h / a = h := Nat.mul_div_cancel_left h ha
  have e2 : b * w / b = w := Nat.mul_div_cancel_left w hb
  rw [e1, e2] at h6 h7
  congr 1
  refine ext_get h5 hwf (by rw [h6, hs]) ?_
  intro idx hi
  rw [h6, inB_three] at hi
  obtain ⟨k, x, y, rfl, hk, hx, hy⟩ := hi
  have hkb : k % b < b := Nat.mod_lt _ hb
  have hka : k / b < a := div_lt_of_lt_mul' hk
  have := h7 (k / b) (k % b) x y hka hkb hx hy
  rw [split_idx] at this
  rw [this, h3 _ _ _ _ hka hkb hx hy, split_idx]

/-- C01, rejection: a cube that is not 3D, or whose number of slices differs from the product of the
layout, raises `ValueError`; so does a layout with a zero entry (nothing to stack). -/
theorem C01_cube2map_rejects (cube : NDArray α) (a b : ℕ)
    (h : cube.shape.length ≠ 3 ∨ cube.shape.headD 0 ≠ a * b ∨ a = 0 ∨ b = 0) :
    cube2map cube (a, b) = .error .valueError := by
  simp only [cube2map, ndim]
  by_cases h3 : cube.shape.length ≠ 3
  · rw [if_pos h3]
  · rw [if_neg h3]
    by_cases hl : cube.shape.headD 0 ≠ a * b
    · rw [if_pos hl]
    · rw [if_neg hl]
      rcases h with h | h | h | h
      · exact absurd h h3
      · exact absurd h hl
      · subst h; rfl
      · subst h
        cases a with
        | zero => rfl
        | succ a =>
          rw [List.range_succ_eq_map, List.mapM_cons]
          simp [slice0, hstack]; rfl

/-- A 2×3 layout of six 1×2 images. -/
example : ∃ m, cube2map (⟨[2 * 3, 1, 2], List.range 12⟩ : NDArray ℕ) (2, 3) = .ok m ∧
    m = ⟨[2, 6], [0, 1, 2, 3, 4, 5, 6, 7, 8, 9, 10, 11]⟩ := by
  refine ⟨_, rfl, by decide⟩

example : (do let m ← cube2map (⟨[2 * 3, 2, 2], List.range 24⟩ : NDArray ℕ) (2, 3)
              map2cube m (2, 3)) = .ok ⟨[6, 2, 2], List.range 24⟩ :=
  C01_map2cube_cube2map (by decide) rfl (by decide) (by decide)

example : cube2map (⟨[3, 1, 1], [1, 2, 3]⟩ : NDArray ℕ) (2, 2) = .error .valueError :=
  C01_cube2map_rejects _ _ _ (by decide)

/-! ## C02 -/

/-- C02, lossless direction: when the layout divides both axes, `cube2map(map2cube(map, layout),
layout)` is the original map. -/
theorem C02_cube2map_map2cube {m : NDArray α} {a b r c : ℕ} (hwf : m.WF) (hs : m.shape = [r, c])
    (ha : 0 < a) (hb : 0 < b) (hr : a ∣ r) (hc : b ∣ c) :
    (do let q ← map2cube m (a, b); cube2map q (a, b)) = .ok m := by
  obtain ⟨q, h1, _, h2, h3⟩ := map2cube_spec hs ha hb (Or.inl hr)
  obtain ⟨m', h4, h5, h6, h7⟩ := cube2map_spec h2 ha hb
  rw [h1, ok_bind, h4]
  have e1 : a * (r / a) = r := Nat.mul_div_cancel' hr
  have e2 : b * (c / b) = c := Nat.mul_div_cancel' hc
  rw [e1, e2] at h6
  congr 1
  refine ext_get h5 hwf (by rw [h6, hs]) ?_
  intro idx hi
  rw [h6, inB_two] at hi
  obtain ⟨x, y, rfl, hx, hy⟩ := hi
  have hx' : x < a * (r / a) := e1.symm ▸ hx
  have hy' : y < b * (c / b) := e2.symm ▸ hy
  have p1 := pos_of_lt_mul hx'
  have p2 := pos_of_lt_mul hy'
  have := h7 (x / (r / a)) (y / (c / b)) (x % (r / a)) (y % (c / b)) (div_lt_of_lt_mul' hx')
    (div_lt_of_lt_mul' hy') (Nat.mod_lt _ p1) (Nat.mod_lt _ p2)
  rw [split_idx, split_idx] at this
  rw [this, h3 _ _ _ _ (div_lt_of_lt_mul' hx') (div_lt_of_lt_mul' hy') (Nat.mod_lt _ p1)
    (Nat.mod_lt _ p2), split_idx, split_idx]

/-- C02, the guard as implemented: `map2cube` raises exactly when the layout fails to divide *both*
axes. -/
theorem C02_guard_as_implemented {m : NDArray α} {a b r c : ℕ} (hs : m.shape = [r, c])
    (ha : 0 < a) (hb : 0 < b) :
    map2cube m (a, b) = .error .valueError ↔ ¬ a ∣ r ∧ ¬ b ∣ c := by
  constructor
  · intro h
    by_contra hc
    have hd : a ∣ r ∨ b ∣ c := by
      by_contra h'; push Not at h'; exact hc h'
    obtain ⟨q, h1, _⟩ := map2cube_spec hs ha hb hd
    rw [h1] at h; cases h
  · rintro ⟨h1, h2⟩
    simp only [map2cube, hs]
    rw [if_pos]
    simp only [npMod, ha.ne', hb.ne', if_false]
    exact ⟨fun h => h1 (Nat.dvd_of_mod_eq_zero h), fun h => h2 (Nat.dvd_of_mod_eq_zero h)⟩

/-- C02, refutation of the documented guard: for *every* map size and layout that divides exactly one
axis, the map is accepted, and the cube has strictly fewer pixels than the map (data are silently
dropped). -/
theorem C02_documented_guard_refuted {m : NDArray α} {a b r c : ℕ} (hs : m.shape = [r, c])
    (ha : 0 < a) (hb : 0 < b) (h : (¬ a ∣ r ∧ b ∣ c ∧ 0 < c) ∨ (a ∣ r ∧ ¬ b ∣ c ∧ 0 < r)) :
    ∃ q, map2cube m (a, b) = .ok q ∧ q.WF ∧ q.data.length < r * c := by
  have hd : a ∣ r ∨ b ∣ c := by rcases h with h | h; exacts [Or.inr h.2.1, Or.inl h.1]
  obtain ⟨q, h1, h2, h3, _⟩ := map2cube_spec hs ha hb hd
  refine ⟨q, h1, h2, ?_⟩
  rw [h2, h3]
  have e : ([a * b, r / a, c / b] : List ℕ).prod = (a * (r / a)) * (b * (c / b)) := by
    simp; ring
  rw [e]
  rcases h with ⟨h1, h2, h3⟩ | ⟨h1, h2, h3⟩
  · rw [Nat.mul_div_cancel' h2]
    have : a * (r / a) < r := lt_of_le_of_ne (Nat.mul_div_le r a) (fun e => h1 ⟨_, e.symm⟩)
    exact Nat.mul_lt_mul_of_pos_right this h3
  · rw [Nat.mul_div_cancel' h1]
    have : b * (c / b) < c := lt_of_le_of_ne (Nat.mul_div_le c b) (fun e => h2 ⟨_, e.symm⟩)
    exact Nat.mul_lt_mul_of_pos_left this h3

/-- C02, what an accepted non-dividing layout does: `cube2map(map2cube(map))` is the top-left
`a*(r//a) × b*(c//b)` corner of the map, nothing else is kept. -/
theorem C02_accepted_layout_crops {m : NDArray α} {a b r c : ℕ} (hs : m.shape = [r, c])
    (ha : 0 < a) (hb : 0 < b) (hd : a ∣ r ∨ b ∣ c) :
    ∃ m', (do let q ← map2cube m (a, b); cube2map q (a, b)) = .ok m' ∧
      m'.shape = [a * (r / a), b * (c / b)] ∧
      ∀ x y, x < a * (r / a) → y < b * (c / b) → m'.get [x, y] = m.get [x, y] := by
  obtain ⟨q, h1, _, h2, h3⟩ := map2cube_spec hs ha hb hd
  obtain ⟨m', h4, h5, h6, h7⟩ := cube2map_spec h2 ha hb
  refine ⟨m', by rw [h1, ok_bind, h4], h6, ?_⟩
  intro x y hx hy
  have p1 := pos_of_lt_mul hx
  have p2 := pos_of_lt_mul hy
  have := h7 (x / (r / a)) (y / (c / b)) (x % (r / a)) (y % (c / b)) (div_lt_of_lt_mul' hx)
    (div_lt_of_lt_mul' hy) (Nat.mod_lt _ p1) (Nat.mod_lt _ p2)
  rw [split_idx, split_idx] at this
  rw [this, h3 _ _ _ _ (div_lt_of_lt_mul' hx) (div_lt_of_lt_mul' hy) (Nat.mod_lt _ p1)
    (Nat.mod_lt _ p2), split_idx, split_idx]

/-- C02, data that are not a map: any other number of axes is rejected, with `ValueError`, or with `IndexError` for a
vector whose length one of the layout's entries divides. -/
theorem C02_other_ranks_rejected {m : NDArray α} {a b : ℕ} (hs : m.shape.length ≠ 2) (ha : 0 < a) (hb : 0 < b) :
    map2cube m (a, b) =
      .error (if m.shape.length = 1 ∧ (a ∣ m.shape.prod ∨ b ∣ m.shape.prod) then .indexError else .valueError) := by
  unfold map2cube
  rcases h : m.shape with _ | ⟨r, _ | ⟨c, _ | ⟨d, t⟩⟩⟩
  · simp
  · simp only [npMod, ha.ne', hb.ne', if_false, List.length_singleton, List.prod_singleton, true_and,
      Nat.mul_eq_zero, or_self]
    by_cases h1 : a ∣ r
    · simp [h1, Nat.mod_eq_zero_of_dvd h1]
    · by_cases h2 : b ∣ r
      · simp [h1, h2, Nat.mod_eq_zero_of_dvd h2]
      · have h1' : r % a ≠ 0 := fun h => h1 (Nat.dvd_of_mod_eq_zero h)
        have h2' : r % b ≠ 0 := fun h => h2 (Nat.dvd_of_mod_eq_zero h)
        simp [h1, h2, h1', h2']
  · rw [h] at hs; simp at hs
  · simp

/-- C02: a layout with a zero is not rejected: the result is an empty array, whatever the data. -/
theorem C02_empty_layout_accepted {m : NDArray α} {a b : ℕ} (hs : m.shape.length = 1 ∨ m.shape.length = 2)
    (h0 : a = 0 ∨ b = 0) : map2cube m (a, b) = .ok ⟨[0], []⟩ := by
  unfold map2cube
  rcases h : m.shape with _ | ⟨r, _ | ⟨c, _ | ⟨d, t⟩⟩⟩
  · rw [h] at hs; simp at hs
  · rcases h0 with rfl | rfl <;> simp [npMod, npArray]
  · rcases h0 with rfl | rfl
    · simp [npMod, npArray]
    · have e : (List.range a).flatMap (fun i => (List.range 0).map fun j =>
          m.slice2 (i * (r / a)) ((i + 1) * (r / a)) (j * (c / 0)) ((j + 1) * (c / 0))) = [] := by
        rw [List.flatMap_eq_nil_iff]; simp
      simp only [e]
      simp [npMod, npArray]
  · rw [h] at hs; simp at hs

example : map2cube (⟨[4], [0, 1, 2, 3]⟩ : NDArray ℕ) (2, 3) = .error .indexError ∧
    map2cube (⟨[5], [0, 1, 2, 3, 4]⟩ : NDArray ℕ) (2, 3) = .error .valueError := by
  decide

example : (do let q ← map2cube (⟨[4, 6], List.range 24⟩ : NDArray ℕ) (2, 3)
              cube2map q (2, 3)) = .ok ⟨[4, 6], List.range 24⟩ :=
  C02_cube2map_map2cube (r := 4) (c := 6) (by decide) rfl (by decide) (by decide) (by decide) (by decide)

/-- A 3×2 map cut in a (2, 2) layout loses its last row without an error. -/
example : map2cube (⟨[3, 2], [0, 1, 2, 3, 4, 5]⟩ : NDArray ℕ) (2, 2) = .ok ⟨[4, 1, 1], [0, 1, 2, 3]⟩ := by
  decide

example : ∃ q, map2cube (⟨[3, 2], [0, 1, 2, 3, 4, 5]⟩ : NDArray ℕ) (2, 2) = .ok q ∧ q.WF ∧
    q.data.length < 3 * 2 :=
  C02_documented_guard_refuted rfl (by decide) (by decide) (by decide)

example : map2cube (⟨[3, 3], List.range 9⟩ : NDArray ℕ) (2, 2) = .error .valueError :=
  (C02_guard_as_implemented (r := 3) (c := 3) rfl (by decide) (by decide)).2 (by decide)

/-! ## C03 -/

/-- C03, columns are images: entry `x*s + y` of column `i*b + j` of `map2matrix(map, (a, b))` is pixel
`(x, y)` of the `s × s` image at position `(i, j)` of the map. -/
theorem C03_map2matrix_columns {m : NDArray α} {a b s : ℕ} (hs : m.shape = [a * s, b * s])
    (ha : 0 < a) (hb : 0 < b) :
    ∃ mat, map2matrix m (a, b) = .ok mat ∧ mat.WF ∧ mat.shape = [s ^ 2, a * b] ∧
      ∀ i j x y, i < a → j < b → x < s → y < s →
        mat.get [x * s + y, i * b + j] = m.get [i * s + x, j * s + y] :=
  map2matrix_spec hs ha hb (by rw [Nat.mul_div_cancel_left s ha]) le_rfl

/-- C03, round trip: `matrix2map(map2matrix(map, layout), map.shape)` is the map with every pixel
truncated to an integer. -/
theorem C03_matrix2map_map2matrix {K : Type _} [Ring K] [LinearOrder K] [FloorRing K] [Inhabited K]
    {m : NDArray K} {a b s : ℕ} (hwf : m.WF) (hs : m.shape = [a * s, b * s])
    (ha : 0 < a) (hb : 0 < b) (hs0 : 0 < s) :
    (do let mat ← map2matrix m (a, b); matrix2map mat (a * s, b * s)) = .ok (m.map truncZ) := by
  obtain ⟨mat, h1, _, h2, h3⟩ := C03_map2matrix_columns hs ha hb
  obtain ⟨m', h4, h5, h6, h7⟩ := matrix2map_spec (a := a) (b := b) hs0 hb h2
  rw [h1, ok_bind, h4]
  congr 1
  have hw : (m.map (truncZ : K → ℤ)).WF := by
    simp only [WF, NDArray.map, List.length_map] at *; exact hwf
  refine ext_get h5 hw (by rw [h6]; simp [NDArray.map, hs]) ?_
  intro idx hi
  rw [h6, inB_two] at hi
  obtain ⟨x, y, rfl, hx, hy⟩ := hi
  have := h7 (x / s) (y / s) (x % s) (y % s) (div_lt_of_lt_mul' hx)
    (div_lt_of_lt_mul' hy) (Nat.mod_lt _ hs0) (Nat.mod_lt _ hs0)
  rw [split_idx, split_idx] at this
  rw [this, h3 _ _ _ _ (div_lt_of_lt_mul' hx) (div_lt_of_lt_mul' hy) (Nat.mod_lt _ hs0)
    (Nat.mod_lt _ hs0), split_idx, split_idx]
  rw [get_map hwf _ (by rw [hs]; simp [InB, hx, hy])]

/-- C03, each pixel of the round trip is the pixel's truncation towards zero: the integer whose
magnitude is the largest not exceeding that of the pixel, with the pixel's sign. -/
theorem C03_roundtrip_pixels {K : Type _} [Ring K] [LinearOrder K] [IsStrictOrderedRing K] [FloorRing K]
    [Inhabited K] {m : NDArray K} {a b s : ℕ} (hwf : m.WF) (hs : m.shape = [a * s, b * s])
    (ha : 0 < a) (hb : 0 < b) (hs0 : 0 < s) :
    ∃ m', (do let mat ← map2matrix m (a, b); matrix2map mat (a * s, b * s)) = .ok m' ∧
      m'.shape = m.shape ∧ ∀ i j, i < a * s → j < b * s →
        (0 ≤ m.get [i, j] → 0 ≤ m'.get [i, j] ∧ (m'.get [i, j] : K) ≤ m.get [i, j] ∧
          m.get [i, j] < m'.get [i, j] + 1) ∧
        (m.get [i, j] ≤ 0 → m'.get [i, j] ≤ 0 ∧ m.get [i, j] ≤ (m'.get [i, j] : K) ∧
          (m'.get [i, j] : K) - 1 < m.get [i, j]) := by
  refine ⟨_, C03_matrix2map_map2matrix hwf hs ha hb hs0, rfl, ?_⟩
  intro i j hi hj
  rw [get_map hwf _ (by rw [hs]; simp [InB, hi, hj])]
  generalize m.get [i, j] = x
  unfold truncZ
  constructor
  · intro h
    rw [if_pos h]
    exact ⟨Int.floor_nonneg.2 h, Int.floor_le x, Int.lt_floor_add_one x⟩
  · intro h
    split
    · rename_i h'
      have : x = 0 := le_antisymm h h'
      subst this; simp
    · refine ⟨?_, Int.le_ceil x, ?_⟩
      · rw [← Int.cast_le (R := K)]
        have := Int.ceil_le.2 (show x ≤ ((0 : ℤ) : K) by simpa using h)
        exact_mod_cast this
      · rw [sub_lt_iff_lt_add]; exact Int.ceil_lt_add_one x

/-- C03, integer pixels survive: for a map of integers the round trip is exact. -/
theorem C03_roundtrip_integers {m : NDArray ℤ} {a b s : ℕ} (hwf : m.WF)
    (hs : m.shape = [a * s, b * s]) (ha : 0 < a) (hb : 0 < b) (hs0 : 0 < s) :
    (do let mat ← map2matrix m (a, b); matrix2map mat (a * s, b * s)) = .ok m := by
  rw [C03_matrix2map_map2matrix hwf hs ha hb hs0]
  congr 1
  have : (truncZ : ℤ → ℤ) = id := by funext z; simp [truncZ]
  cases m; simp [NDArray.map, this]

/-- C03, the other direction: `map2matrix(matrix2map(mat, shape), layout)` is `mat` for integers. -/
theorem C03_map2matrix_matrix2map {mat : NDArray ℤ} {a b s : ℕ} (hwf : mat.WF)
    (hs : mat.shape = [s ^ 2, a * b]) (ha : 0 < a) (hb : 0 < b) (hs0 : 0 < s) :
    (do let m ← matrix2map mat (a * s, b * s); map2matrix m (a, b)) = .ok mat := by
  obtain ⟨m', h4, h5, h6, h7⟩ := matrix2map_spec (a := a) (b := b) hs0 hb hs
  obtain ⟨mat', h1, h0, h2, h3⟩ := C03_map2matrix_columns h6 ha hb
  rw [h4, ok_bind, h1]
  congr 1
  refine ext_get h0 hwf (by rw [h2, hs]) ?_
  intro idx hi
  rw [h2, inB_two] at hi
  obtain ⟨p, k, rfl, hp, hk⟩ := hi
  rw [pow_two] at hp
  have := h3 (k / b) (k % b) (p / s) (p % s) (div_lt_of_lt_mul' hk) (Nat.mod_lt _ hb)
    (div_lt_of_lt_mul' hp) (Nat.mod_lt _ hs0)
  rw [split_idx, split_idx] at this
  rw [this, h7 _ _ _ _ (div_lt_of_lt_mul' hk) (Nat.mod_lt _ hb)
    (div_lt_of_lt_mul' hp) (Nat.mod_lt _ hs0), split_idx, split_idx]
  simp [truncZ]

/-- C03, refutation of losslessness for non-integer data: whenever some pixel is not an integer the
round trip does not return the map. -/
theorem C03_lossless_refuted_for_fractions {m : NDArray ℚ} {a b s : ℕ} (hwf : m.WF)
    (hs : m.shape = [a * s, b * s]) (ha : 0 < a) (hb : 0 < b) (hs0 : 0 < s)
    (hfrac : ∃ x ∈ m.data, ∀ z : ℤ, x ≠ z) :
    ∃ m', (do let mat ← map2matrix m (a, b); matrix2map mat (a * s, b * s)) = .ok m' ∧
      m'.map (fun z : ℤ => (z : ℚ)) ≠ m := by
  refine ⟨_, C03_matrix2map_map2matrix hwf hs ha hb hs0, ?_⟩
  intro h
  obtain ⟨x, hx, hz⟩ := hfrac
  rw [← h] at hx
  simp only [NDArray.map, List.map_map, List.mem_map] at hx
  obtain ⟨y, _, rfl⟩ := hx
  exact hz _ rfl

/-- C03, data of other ranks: `map2matrix` rejects everything that is not a map, and `matrix2map` everything with fewer
than two axes. -/
theorem C03_other_ranks_rejected {m : NDArray ℤ} {a b : ℕ} (ha : 0 < a) (hb : 0 < b) :
    (m.shape.length ≠ 2 → map2matrix m (a, b) =
      .error (if m.shape.length = 1 then .indexError else .valueError)) ∧
    (m.shape.length < 2 → matrix2map m (a, b) = .error .indexError) := by
  unfold map2matrix matrix2map
  rcases h : m.shape with _ | ⟨r, _ | ⟨c, _ | ⟨d, t⟩⟩⟩
  · simp
  · simp [ha.ne', hb.ne']
  · simp
  · simp

/-- C03, `matrix2map` does not check the number of axes from above: further axes of length one are accepted and
ignored. -/
theorem C03_matrix2map_ignores_unit_axes {m : NDArray ℤ} {r n a b : ℕ} (k : ℕ)
    (hs : m.shape = r :: n :: List.replicate k 1) :
    matrix2map m (a, b) = matrix2map ⟨[r, n], m.data⟩ (a, b) := by
  unfold matrix2map
  simp [hs, reshape]

example : (do let mat ← map2matrix (⟨[2 * 2, 1 * 2], [0, 1, 2, 3, 4, 5, 6, -7]⟩ : NDArray ℤ) (2, 1)
              matrix2map mat (2 * 2, 1 * 2)) = .ok ⟨[4, 2], [0, 1, 2, 3, 4, 5, 6, -7]⟩ :=
  C03_roundtrip_integers (by decide) rfl (by decide) (by decide) (by decide)

example : (do let m ← matrix2map (⟨[2 ^ 2, 1 * 2], [0, 1, 2, 3, 4, 5, 6, -7]⟩ : NDArray ℤ) (1 * 2, 2 * 2)
              map2matrix m (1, 2)) = .ok ⟨[2 ^ 2, 1 * 2], [0, 1, 2, 3, 4, 5, 6, -7]⟩ :=
  C03_map2matrix_matrix2map (a := 1) (b := 2) (by decide) rfl (by decide) (by decide) (by decide)

example : ∃ m', (do let mat ← map2matrix (⟨[1 * 1, 2 * 1], [1, 5 / 2]⟩ : NDArray ℚ) (1, 2)
                    matrix2map mat (1 * 1, 2 * 1)) = .ok m' ∧
    m'.map (fun z : ℤ => (z : ℚ)) ≠ ⟨[1 * 1, 2 * 1], [1, 5 / 2]⟩ := by
  refine C03_lossless_refuted_for_fractions (a := 1) (b := 2) (s := 1) (by decide) rfl (by decide) (by decide)
    (by decide) ⟨5 / 2, by simp, ?_⟩
  intro z hz
  have h2 : (5 : ℚ) = ((2 * z : ℤ) : ℚ) := by push_cast; linarith
  have h3 : (5 : ℤ) = 2 * z := by exact_mod_cast h2
  omega

/-! ## C04 -/

/-- C04, columns are images: column `k` of `cube2matrix(cube)` is image `k` in row-major order. -/
theorem C04_cube2matrix_columns {cube : NDArray α} {n : ℕ} {s : List ℕ} (hs : cube.shape = n :: s) :
    ∃ mat, cube2matrix cube = .ok mat ∧ mat.WF ∧ mat.shape = [s.prod, n] ∧
      ∀ k idx, k < n → InB idx s → mat.get [ravel s idx, k] = cube.get (k :: idx) :=
  cube2matrix_spec hs

/-- C04: `matrix2cube(cube2matrix(cube), image_shape)` is the cube, for images of any rank. -/
theorem C04_matrix2cube_cube2matrix {cube : NDArray α} {n : ℕ} {s : List ℕ} (hwf : cube.WF)
    (hs : cube.shape = n :: s) :
    (do let mat ← cube2matrix cube; matrix2cube mat s) = .ok cube := by
  obtain ⟨mat, h1, _, h2, h3⟩ := cube2matrix_spec hs
  obtain ⟨c, h4, h5, h6, h7⟩ := matrix2cube_spec h2 rfl
  rw [h1, ok_bind, h4]
  congr 1
  refine ext_get h5 hwf (by rw [h6, hs]) ?_
  intro idx hi
  rw [h6] at hi
  cases idx with
  | nil => simp [InB] at hi
  | cons k idx =>
    rw [inB_cons] at hi
    rw [h7 k idx hi.1 hi.2, h3 k idx hi.1 hi.2]

/-- C04: `cube2matrix(matrix2cube(mat, image_shape))` is the matrix. -/
theorem C04_cube2matrix_matrix2cube {mat : NDArray α} {p n : ℕ} {s : List ℕ} (hwf : mat.WF)
    (hs : mat.shape = [p, n]) (hp : s.prod = p) :
    (do let cube ← matrix2cube mat s; cube2matrix cube) = .ok mat := by
  obtain ⟨c, h4, h5, h6, h7⟩ := matrix2cube_spec hs hp
  obtain ⟨mat', h1, h0, h2, h3⟩ := cube2matrix_spec h6
  rw [h4, ok_bind, h1]
  congr 1
  refine ext_get h0 hwf (by rw [h2, hs, hp]) ?_
  intro idx hi
  rw [h2, inB_two] at hi
  obtain ⟨q, k, rfl, hq, hk⟩ := hi
  have hl : q < (allIdx s).length := by rw [length_allIdx]; exact hq
  have hb : InB ((allIdx s)[q]) s := mem_allIdx.1 (List.getElem_mem hl)
  have h8 := h3 k _ hk hb
  have h9 := h7 k _ hk hb
  rw [ravel_getElem_allIdx hl] at h8 h9
  rw [h8, h9]

/-- C04, rejection: a matrix whose number of entries does not match raises `ValueError`. -/
theorem C04_matrix2cube_rejects {mat : NDArray α} {p n : ℕ} {s : List ℕ} (hs : mat.shape = [p, n])
    (hp : n * p ≠ n * s.prod) : matrix2cube mat s = .error .valueError := by
  simp only [matrix2cube, hs, reshape, transposeAll, shape_ofFn]
  rw [if_neg (by simpa using hp)]

example : (do let mat ← cube2matrix (⟨[2, 3, 2], List.range 12⟩ : NDArray ℕ); matrix2cube mat [3, 2])
    = .ok ⟨[2, 3, 2], List.range 12⟩ := C04_matrix2cube_cube2matrix (by decide) rfl

example : (do let c ← matrix2cube (⟨[6, 2], List.range 12⟩ : NDArray ℕ) [3, 2]; cube2matrix c)
    = .ok ⟨[6, 2], List.range 12⟩ := C04_cube2matrix_matrix2cube (by decide) rfl (by decide)

example : cube2matrix (⟨[2, 1, 2], [0, 1, 2, 3]⟩ : NDArray ℕ) = .ok ⟨[2, 2], [0, 2, 1, 3]⟩ := by decide

/-! ## C05 -/

/-- C05: on maps of square images the direct route and the route through a cube give the same
matrix. -/
theorem C05_routes_agree {m : NDArray α} {a b s : ℕ} (hs : m.shape = [a * s, b * s])
    (ha : 0 < a) (hb : 0 < b) :
    map2matrix m (a, b) = (do let q ← map2cube m (a, b); cube2matrix q) := by
  obtain ⟨mat, h1, h2, h3, h4⟩ := C03_map2matrix_columns hs ha hb
  obtain ⟨q, k1, _, k2, k3⟩ := map2cube_spec hs ha hb (Or.inl (Nat.dvd_mul_right a s))
  rw [Nat.mul_div_cancel_left s ha, Nat.mul_div_cancel_left s hb] at k2 k3
  obtain ⟨mat', c1, c2, c3, c4⟩ := cube2matrix_spec k2
  rw [h1, k1, ok_bind, c1]
  congr 1
  refine ext_get h2 c2 (by rw [h3, c3]; simp [pow_two]) ?_
  intro idx hi
  rw [h3, inB_two] at hi
  obtain ⟨p, k, rfl, hp, hk⟩ := hi
  rw [pow_two] at hp
  have hs0 := pos_of_lt_mul hp
  have x1 := h4 (k / b) (k % b) (p / s) (p % s) (div_lt_of_lt_mul' hk) (Nat.mod_lt _ hb)
    (div_lt_of_lt_mul' hp) (Nat.mod_lt _ hs0)
  have x2 := k3 (k / b) (k % b) (p / s) (p % s) (div_lt_of_lt_mul' hk) (Nat.mod_lt _ hb)
    (div_lt_of_lt_mul' hp) (Nat.mod_lt _ hs0)
  have x3 := c4 k [p / s, p % s] hk (by simp [InB, div_lt_of_lt_mul' hp, Nat.mod_lt _ hs0])
  have e : ravel [s, s] [p / s, p % s] = p := by simp [ravel, split_idx]
  rw [split_idx, split_idx] at x1
  rw [split_idx] at x2
  rw [e] at x3
  rw [x1, x3, x2]

/-- The two routes differ, or fail, on non-square images: `map2matrix` raises where the cube route
succeeds. -/
theorem C05_nonsquare_differs :
    ∃ (m : NDArray ℕ) (l : ℕ × ℕ), map2matrix m l = .error .valueError ∧
      ∃ mat, (do let q ← map2cube m l; cube2matrix q) = .ok mat :=
  ⟨⟨[4, 2], List.range 8⟩, (2, 2), by decide, ⟨[2, 4], [0, 1, 4, 5, 2, 3, 6, 7]⟩, by decide⟩

example : map2matrix (⟨[2 * 2, 2 * 2], List.range 16⟩ : NDArray ℕ) (2, 2)
    = (do let q ← map2cube ⟨[2 * 2, 2 * 2], List.range 16⟩ (2, 2); cube2matrix q) :=
  C05_routes_agree rfl (by decide) (by decide)

/-- The docstring example of `map2matrix` (transform.py:158-165). -/
example : map2matrix (⟨[4, 4], [0, 1, 4, 5, 2, 3, 6, 7, 8, 9, 12, 13, 10, 11, 14, 15]⟩ : NDArray ℕ) (2, 2)
    = .ok ⟨[4, 4], [0, 4, 8, 12, 1, 5, 9, 13, 2, 6, 10, 14, 3, 7, 11, 15]⟩ := by decide

end Verif
