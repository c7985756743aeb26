import Verif.Model.Transform

namespace Verif.Transform
open NDArray
variable {α : Type _} [Inhabited α]

/-- `mapM` in `Except` over a list on which the function always succeeds. -/
theorem mapM_ok {β γ : Type _} {f : β → Py γ} {g : β → γ} {l : List β}
    (h : ∀ x ∈ l, f x = .ok (g x)) : l.mapM f = .ok (l.map g) := by
  induction l with
  | nil => rfl
  | cons x xs ih =>
    rw [List.mapM_cons, h x (by simp), ih (fun y hy => h y (by simp [hy]))]
    rfl

theorem ok_bind {β γ : Type _} (x : β) (f : β → Py γ) : ((.ok x : Py β) >>= f) = f x := rfl

/-- A list of successful results chosen pointwise. -/
theorem mapM_exists {β γ : Type _} {f : β → Py γ} {l : List β} {P : β → γ → Prop}
    (h : ∀ x ∈ l, ∃ y, f x = .ok y ∧ P x y) :
    ∃ r, l.mapM f = .ok r ∧ List.Forall₂ P l r := by
  induction l with
  | nil => exact ⟨[], rfl, by simp⟩
  | cons x xs ih =>
    obtain ⟨y, hy, hp⟩ := h x (by simp)
    obtain ⟨r, hr, hf⟩ := ih (fun z hz => h z (by simp [hz]))
    exact ⟨y :: r, by rw [List.mapM_cons, hy, hr]; rfl, by simp [hp, hf]⟩

theorem cube2map_spec {cube : NDArray α} {a b h w : ℕ} (hs : cube.shape = [a * b, h, w])
    (ha : 0 < a) (hb : 0 < b) :
    ∃ m, cube2map cube (a, b) = .ok m ∧ m.WF ∧ m.shape = [a * h, b * w] ∧
      ∀ i j r s, i < a → j < b → r < h → s < w →
        m.get [i * h + r, j * w + s] = cube.get [i * b + j, r, s] := by
  have hrow : ∀ e ∈ List.range a, ∃ y, hstack (cube.slice0 (b * e) (b * (e + 1))) = .ok y ∧
      (y.shape = [h, b * w] ∧ ∀ j r s, j < b → r < h → s < w →
        y.get [r, j * w + s] = cube.get [e * b + j, r, s]) := by
    intro e he
    have he : e < a := by simpa using he
    have hle : b * (e + 1) ≤ a * b := by
      rw [Nat.mul_comm]; exact Nat.mul_le_mul_right _ he
    have hsub : b * (e + 1) - b * e = b := by
      rw [Nat.mul_succ]; omega
    have hsl := slice0_in hs (Nat.mul_le_mul_left b (Nat.le_succ e)) hle
    rw [hsub] at hsl
    have hne : cube.slice0 (b * e) (b * (e + 1)) ≠ [] := by
      rw [hsl]; simp; omega
    have hshape : ∀ x ∈ cube.slice0 (b * e) (b * (e + 1)), x.shape = [h, w] := by
      rw [hsl]; intro x hx
      obtain ⟨k, _, rfl⟩ := List.mem_map.1 hx
      simp [hs]
    obtain ⟨m, h1, _, h2, h3⟩ := hstack_const hne hshape
    have hlen : (cube.slice0 (b * e) (b * (e + 1))).length = b := by rw [hsl]; simp
    refine ⟨m, h1, by rw [h2, hlen], ?_⟩
    intro j r s hj hr hs'
    rw [h3 j r s (by rw [hlen]; exact hj) hr hs']
    have : (cube.slice0 (b * e) (b * (e + 1)))[j]'(by rw [hlen]; exact hj)
        = cube.index0 (b * e + j) := by
      simp only [hsl, List.getElem_map, List.getElem_range]
    rw [this, get_index0 (by rw [hs]; simp [InB, hr, hs']), Nat.mul_comm]
  obtain ⟨rows, hrows, hf⟩ := mapM_exists hrow
  have hlen : rows.length = a := by simpa using hf.length_eq.symm
  have hget : ∀ e (he : e < rows.length), (rows[e]).shape = [h, b * w] ∧
      ∀ j r s, j < b → r < h → s < w → (rows[e]).get [r, j * w + s] = cube.get [e * b + j, r, s] := by
    intro e he
    have := List.Forall₂.get hf (i := e) (by simpa [hlen] using he) he
    simpa using this
  have hne : rows ≠ [] := by
    intro h0; rw [h0] at hlen; simp at hlen; omega
  have hshape : ∀ x ∈ rows, x.shape = [h, b * w] := by
    intro x hx
    obtain ⟨k, hk, rfl⟩ := List.mem_iff_getElem.1 hx
    exact (hget k hk).1
  obtain ⟨m, h1, h2, h3, h4⟩ := vstack_const hne hshape
  refine ⟨m, ?_, h2, by rw [h3, hlen], ?_⟩
  · simp only [cube2map, ndim, hs]
    simp only [List.length_cons, List.length_nil, List.headD_cons, ne_eq, not_true, if_false]
    simp only [hrows, ok_bind, h1]
  · intro i j r s hi hj hr hs'
    have hjw : j * w + s < b * w := by
      calc j * w + s < j * w + w := by omega
        _ = (j + 1) * w := by ring
        _ ≤ _ := Nat.mul_le_mul_right _ hj
    rw [h4 i r (j * w + s) (by omega) hr hjw]
    exact (hget i (by omega)).2 j r s hj hr hs'

/-- Tiles of an `a × b` layout, row-major. -/
theorem tiles_getElem {β : Type _} (a b : ℕ) (f : ℕ → ℕ → β) (k : ℕ) (hk : k < a * b)
    (hl : k < ((List.range a).flatMap fun i => (List.range b).map fun j => f i j).length) :
    ((List.range a).flatMap fun i => (List.range b).map fun j => f i j)[k]'hl
      = f (k / b) (k % b) := by
  have hb : 0 < b := by
    rcases Nat.eq_zero_or_pos b with h | h
    · simp [h] at hk
    · exact h
  have h1 : ((List.range a).flatMap fun i => (List.range b).map fun j => f i j)
      = (List.range (a * b)).map fun k => f (k / b) (k % b) := by
    rw [← range_flatMap_affine, List.map_flatMap]
    congr 1
    funext i
    rw [List.map_map]
    apply List.map_congr_left
    intro j hj
    have hj : j < b := by simpa using hj
    simp only [Function.comp]
    rw [Nat.mul_comm i b, Nat.mul_add_div hb, Nat.div_eq_of_lt hj, Nat.mul_add_mod,
      Nat.mod_eq_of_lt hj]
    simp
  simp [h1]

theorem length_tiles {β : Type _} (a b : ℕ) (f : ℕ → ℕ → β) :
    ((List.range a).flatMap fun i => (List.range b).map fun j => f i j).length = a * b := by
  simp [List.length_flatMap]

theorem map2cube_spec {m : NDArray α} {a b r c : ℕ} (hs : m.shape = [r, c])
    (ha : 0 < a) (hb : 0 < b) (hd : a ∣ r ∨ b ∣ c) :
    ∃ cube, map2cube m (a, b) = .ok cube ∧ cube.WF ∧ cube.shape = [a * b, r / a, c / b] ∧
      ∀ i j x y, i < a → j < b → x < r / a → y < c / b →
        cube.get [i * b + j, x, y] = m.get [i * (r / a) + x, j * (c / b) + y] := by
  have hguard : ¬ (npMod r a ≠ 0 ∧ npMod c b ≠ 0) := by
    have h1 : npMod r a = r % a := by simp [npMod, ha.ne']
    have h2 : npMod c b = c % b := by simp [npMod, hb.ne']
    rw [h1, h2]
    rcases hd with hd | hd
    · simp [Nat.mod_eq_zero_of_dvd hd]
    · simp [Nat.mod_eq_zero_of_dvd hd]
  set d0 := r / a with hd0
  set d1 := c / b with hd1
  have hr : ∀ i, i < a → (i + 1) * d0 ≤ r := fun i hi =>
    (Nat.mul_le_mul_right _ hi).trans (Nat.mul_div_le r a)
  have hc : ∀ j, j < b → (j + 1) * d1 ≤ c := fun j hj =>
    (Nat.mul_le_mul_right _ hj).trans (Nat.mul_div_le c b)
  have e0 : ∀ i d : ℕ, (i + 1) * d - i * d = d := fun i d => by
    rw [Nat.succ_mul]; omega
  set tiles := (List.range a).flatMap fun i => (List.range b).map fun j =>
    m.slice2 (i * d0) ((i + 1) * d0) (j * d1) ((j + 1) * d1) with ht
  have hlen : tiles.length = a * b := length_tiles _ _ _
  have hne : tiles ≠ [] := by
    intro h0; rw [h0] at hlen; simp at hlen; omega
  have hshape : ∀ t ∈ tiles, t.shape = [d0, d1] := by
    intro t htm
    rw [ht] at htm
    simp only [List.mem_flatMap, List.mem_range, List.mem_map] at htm
    obtain ⟨i, hi, j, hj, rfl⟩ := htm
    rw [slice2_shape hs (hr i hi) (hc j hj) (Nat.mul_le_mul_right _ (by omega))
      (Nat.mul_le_mul_right _ (by omega)), e0, e0]
  obtain ⟨cube, h1, h2, h3, h4⟩ := npArray_const hne hshape
  refine ⟨cube, ?_, h2, by rw [h3, hlen], ?_⟩
  · simp only [map2cube, hs]
    rw [if_neg hguard]
    exact h1
  · intro i j x y hi hj hx hy
    have hk : i * b + j < a * b := by
      calc i * b + j < i * b + b := by omega
        _ = (i + 1) * b := by ring
        _ ≤ _ := Nat.mul_le_mul_right _ hi
    rw [h4 (i * b + j) [x, y] (by omega) (by simp [InB, hx, hy])]
    have : tiles[i * b + j]'(by omega)
        = m.slice2 (i * d0) ((i + 1) * d0) (j * d1) ((j + 1) * d1) := by
      have h5 := tiles_getElem a b (fun i j => m.slice2 (i * d0) ((i + 1) * d0) (j * d1) ((j + 1) * d1))
        (i * b + j) hk (by rw [length_tiles]; exact hk)
      have q1 : (i * b + j) / b = i := by
        rw [Nat.mul_comm, Nat.mul_add_div hb, Nat.div_eq_of_lt hj]; simp
      have q2 : (i * b + j) % b = j := by
        rw [Nat.mul_comm, Nat.mul_add_mod, Nat.mod_eq_of_lt hj]
      rw [q1, q2] at h5
      exact h5
    rw [this, slice2_get hs (hr i hi) (hc j hj) (by rw [e0]; exact hx) (by rw [e0]; exact hy)]

/-! ### maps and matrices -/

theorem div_lt_of_lt_mul' {x a s : ℕ} (h : x < a * s) : x / s < a :=
  Nat.div_lt_of_lt_mul (by rwa [Nat.mul_comm])

theorem pos_of_lt_mul {x a s : ℕ} (h : x < a * s) : 0 < s := by
  rcases Nat.eq_zero_or_pos s with h0 | h0
  · simp [h0] at h
  · exact h0

theorem split_idx {x s : ℕ} : x / s * s + x % s = x := by
  rw [Nat.mul_comm]; exact Nat.div_add_mod x s

theorem mul_add_lt {i a h r : ℕ} (hi : i < a) (hr : r < h) : i * h + r < a * h := by
  calc i * h + r < i * h + h := by omega
    _ = (i + 1) * h := by ring
    _ ≤ _ := Nat.mul_le_mul_right _ hi

theorem mul_add_div_eq {i h r : ℕ} (hr : r < h) : (i * h + r) / h = i := by
  rw [Nat.mul_comm, Nat.mul_add_div (by omega), Nat.div_eq_of_lt hr]; simp

theorem mul_add_mod_eq {i h r : ℕ} (hr : r < h) : (i * h + r) % h = r := by
  rw [Nat.mul_comm, Nat.mul_add_mod, Nat.mod_eq_of_lt hr]

theorem map2matrix_spec {m : NDArray α} {a b r c s : ℕ} (hs : m.shape = [r, c])
    (ha : 0 < a) (hb : 0 < b) (hsr : s = r / a) (hsc : b * s ≤ c) :
    ∃ mat, map2matrix m (a, b) = .ok mat ∧ mat.WF ∧ mat.shape = [s ^ 2, a * b] ∧
      ∀ i j x y, i < a → j < b → x < s → y < s →
        mat.get [x * s + y, i * b + j] = m.get [i * s + x, j * s + y] := by
  have hr : ∀ i, i < a → s * (i + 1) ≤ r := fun i hi => by
    rw [hsr, Nat.mul_comm]
    exact (Nat.mul_le_mul_right _ hi).trans (Nat.mul_div_le r a)
  have hc : ∀ j, j < b → s * (j + 1) ≤ c := fun j hj => by
    rw [Nat.mul_comm]
    exact (Nat.mul_le_mul_right _ hj).trans hsc
  have e0 : ∀ i : ℕ, s * (i + 1) - s * i = s := fun i => by
    rw [Nat.mul_succ]; omega
  set blk : ℕ → NDArray α := fun i => m.slice2 (s * (i / b)) (s * (i / b + 1))
        (s * (npMod i b)) (s * (npMod i b + 1)) with hblk
  have hmod : ∀ i, npMod i b = i % b := fun i => by simp [npMod, hb.ne']
  have hbs : ∀ i, i < a * b → (blk i).shape = [s, s] := by
    intro i hi
    have h1 := hr _ (div_lt_of_lt_mul' hi)
    have h2 := hc _ (Nat.mod_lt i hb)
    rw [hblk]
    simp only [hmod]
    rw [slice2_shape hs h1 h2 (Nat.mul_le_mul_left _ (by omega)) (Nat.mul_le_mul_left _ (by omega)),
      e0, e0]
  have hrows : (List.range (a * b)).mapM (fun i => (blk i).reshape [s ^ 2])
      = .ok ((List.range (a * b)).map fun i => (⟨[s ^ 2], (blk i).data⟩ : NDArray α)) := by
    apply mapM_ok
    intro i hi
    rw [reshape_ok]
    rw [hbs i (by simpa using hi)]; simp [pow_two]
  obtain ⟨m0, h1, h2, h3, h4⟩ := npArray_const (s := [s ^ 2])
    (l := (List.range (a * b)).map fun i => (⟨[s ^ 2], (blk i).data⟩ : NDArray α))
    (by simp; omega) (by intro x hx; obtain ⟨k, _, rfl⟩ := List.mem_map.1 hx; rfl)
  have hsh : m0.shape = [a * b, s ^ 2] := by rw [h3]; simp
  refine ⟨m0.transposeAll, ?_, wf_transposeAll _, by simp [transposeAll, hsh], ?_⟩
  · simp only [map2matrix, hs]
    simp only [← hsr]
    simp only [hblk] at hrows h1
    rw [hrows, ok_bind, h1, ok_bind]; rfl
  · intro i j x y hi hj hx hy
    have hk := mul_add_lt hi hj
    have hp : x * s + y < s ^ 2 := by rw [pow_two]; exact mul_add_lt hx hy
    rw [get_transposeAll (by rw [hsh]; simp [InB, hk, hp])]
    simp only [List.reverse_cons, List.reverse_nil, List.nil_append, List.singleton_append]
    rw [h4 (i * b + j) [x * s + y] (by simpa using hk) (by simpa [InB] using hp)]
    simp only [List.getElem_map, List.getElem_range]
    rw [get_flat (blk (i * b + j)) [s, s] [s ^ 2] [x, y] [x * s + y] (hbs _ hk)
      (by simp [ravel])]
    have q1 : (i * b + j) / b = i := mul_add_div_eq hj
    have q2 : (i * b + j) % b = j := mul_add_mod_eq hj
    simp only [hblk, hmod, q1, q2]
    rw [slice2_get hs (hr i hi) (hc j hj) (by rw [e0]; exact hx) (by rw [e0]; exact hy),
      Nat.mul_comm s i, Nat.mul_comm s j]

theorem writeBlocks_spec {temp dm : NDArray α} {a b s : ℕ} (hs : 0 < s) (hb : 0 < b)
    (hw : dm.WF) (hd : dm.shape = [a * s, b * s]) (l : List ℕ) (hl : ∀ i ∈ l, i < a * b) :
    ∃ dm', writeBlocks temp s b dm l = .ok dm' ∧ dm'.WF ∧ dm'.shape = [a * s, b * s] ∧
      ∀ x y, x < a * s → y < b * s → dm'.get [x, y] =
        if x / s * b + y / s ∈ l then temp.get [x % s, y % s, x / s * b + y / s]
        else dm.get [x, y] := by
  induction l generalizing dm with
  | nil => exact ⟨dm, rfl, hw, hd, by simp⟩
  | cons i l ih =>
    have hi : i < a * b := hl i (by simp)
    have hmod : npMod i b = i % b := by simp [npMod, hb.ne']
    have h1 : s * (i / b + 1) ≤ a * s := by
      rw [Nat.mul_comm]; exact Nat.mul_le_mul_right _ (div_lt_of_lt_mul' hi)
    have h2 : s * (i % b + 1) ≤ b * s := by
      rw [Nat.mul_comm]; exact Nat.mul_le_mul_right _ (Nat.mod_lt i hb)
    have e0 : ∀ i : ℕ, s * (i + 1) = s * i + s := fun i => Nat.mul_succ _ _
    set src : NDArray α := ofFn [s, s] fun idx => temp.get [idx.getD 0 0, idx.getD 1 0, i] with hsrc
    set dm1 : NDArray α := ofFn dm.shape fun idx =>
      let x := idx.getD 0 0
      let y := idx.getD 1 0
      if s * (i / b) ≤ x ∧ x < s * (i / b + 1) ∧ s * (i % b) ≤ y ∧ y < s * (i % b + 1) then
        src.get [if s = 1 then 0 else x - s * (i / b), if s = 1 then 0 else y - s * (i % b)]
      else dm.get idx with hdm1
    have hset : dm.setSlice2 (s * (i / b)) (s * (i / b + 1)) (s * npMod i b) (s * (npMod i b + 1)) src
        = .ok dm1 := by
      rw [hmod]
      simp only [setSlice2, hd, List.getD_cons_zero, List.getD_cons_succ]
      have g1 : min (s * (i / b + 1)) (a * s) - min (s * (i / b)) (a * s) = s := by
        rw [e0] at *; omega
      have g2 : min (s * (i % b + 1)) (b * s) - min (s * (i % b)) (b * s) = s := by
        rw [e0] at *; omega
      rw [g1, g2]
      rw [if_pos (by simp [hsrc])]
      simp only [hdm1, hd, hsrc, shape_ofFn, List.getD_cons_zero, List.getD_cons_succ]
    obtain ⟨dm', hr, hw', hd', hg⟩ := ih (dm := dm1) (wf_ofFn _ _) (by rw [hdm1]; simpa using hd)
      (fun k hk => hl k (by simp [hk]))
    refine ⟨dm', ?_, hw', hd', ?_⟩
    · rw [writeBlocks, hset, ok_bind, hr]
    · intro x y hx hy
      rw [hg x y hx hy]
      have hxq : x / s * s + x % s = x := split_idx
      have hyq : y / s * s + y % s = y := split_idx
      have hxm := Nat.mod_lt x hs
      have hym := Nat.mod_lt y hs
      by_cases hmem : x / s * b + y / s ∈ l
      · simp [hmem]
      · have hget1 : dm1.get [x, y] =
            if x / s * b + y / s = i then temp.get [x % s, y % s, i] else dm.get [x, y] := by
          rw [hdm1, get_ofFn _ (by rw [hd]; simp [InB, hx, hy])]
          simp only [List.getD_cons_zero, List.getD_cons_succ]
          have hyb : y / s < b := div_lt_of_lt_mul' hy
          by_cases hxi : x / s * b + y / s = i
          · have q1 : i / b = x / s := by rw [← hxi]; exact mul_add_div_eq hyb
            have q2 : i % b = y / s := by rw [← hxi]; exact mul_add_mod_eq hyb
            rw [if_pos hxi, q1, q2]
            have c1 : s * (x / s) ≤ x := Nat.mul_div_le x s
            have c2 : x < s * (x / s + 1) := by rw [e0, Nat.mul_comm]; omega
            have c3 : s * (y / s) ≤ y := Nat.mul_div_le y s
            have c4 : y < s * (y / s + 1) := by rw [e0, Nat.mul_comm]; omega
            rw [if_pos ⟨c1, c2, c3, c4⟩]
            have d1 : (if s = 1 then 0 else x - s * (x / s)) = x % s := by
              split
              · rename_i h; subst h; omega
              · rw [Nat.mul_comm]; omega
            have d2 : (if s = 1 then 0 else y - s * (y / s)) = y % s := by
              split
              · rename_i h; subst h; omega
              · rw [Nat.mul_comm]; omega
            rw [d1, d2, hsrc, get_ofFn _ (by simp [InB, hxm, hym])]
            simp
          · rw [if_neg hxi, if_neg]
            rintro ⟨c1, c2, c3, c4⟩
            apply hxi
            have q1 : x / s = i / b := by
              apply Nat.div_eq_of_lt_le
              · rw [Nat.mul_comm]; exact c1
              · rw [Nat.mul_comm]; exact c2
            have q2 : y / s = i % b := by
              apply Nat.div_eq_of_lt_le
              · rw [Nat.mul_comm]; exact c3
              · rw [Nat.mul_comm]; exact c4
            rw [q1, q2]; exact split_idx
        by_cases hxi : x / s * b + y / s = i
        · simp [hget1, hxi]
        · simp [hget1, hxi, hmem]

theorem matrix2map_spec {K : Type _} [Ring K] [LinearOrder K] [FloorRing K] [Inhabited K]
    {mat : NDArray K} {a b s : ℕ} (hs : 0 < s) (hb : 0 < b)
    (hd : mat.shape = [s ^ 2, a * b]) :
    ∃ m, matrix2map mat (a * s, b * s) = .ok m ∧ m.WF ∧ m.shape = [a * s, b * s] ∧
      ∀ i j x y, i < a → j < b → x < s → y < s →
        m.get [i * s + x, j * s + y] = truncZ (mat.get [x * s + y, i * b + j]) := by
  set zeros : NDArray K := ofFn [a * s, b * s] fun _ => 0 with hz
  set temp : NDArray K := ⟨[s, s, a * b], mat.data⟩ with ht
  obtain ⟨dm, h1, h2, h3, h4⟩ := writeBlocks_spec (temp := temp) (dm := zeros) (a := a) hs hb
    (wf_ofFn _ _) rfl (List.range (a * b)) (by simp)
  have hsq : Nat.sqrt (s ^ 2) = s := by rw [pow_two]; exact Nat.sqrt_eq s
  have hdiv : b * s / s = b := Nat.mul_div_cancel b hs
  refine ⟨dm.map truncZ, ?_, ?_, ?_, ?_⟩
  · simp only [matrix2map, hd, hsq, hdiv]
    rw [reshape_ok _ (by rw [hd]; simp [pow_two]; ring), ok_bind, h1, ok_bind]; rfl
  · have := h2
    simp only [WF, NDArray.map, List.length_map] at *; exact this
  · simpa [NDArray.map] using h3
  · intro i j x y hi hj hx hy
    have hxs := mul_add_lt hi hx
    have hys := mul_add_lt hj hy
    have hlt : ravel dm.shape [i * s + x, j * s + y] < dm.data.length := by
      have := ravel_lt (s := dm.shape) (idx := [i * s + x, j * s + y])
        (by rw [h3]; simp [InB, hxs, hys])
      rw [h2]; exact this
    have hmap : (dm.map truncZ).get [i * s + x, j * s + y]
        = truncZ (dm.get [i * s + x, j * s + y]) := by
      simp only [NDArray.get, NDArray.map]
      rw [List.getD_eq_getElem _ _ (by simpa using hlt), List.getD_eq_getElem _ _ hlt,
        List.getElem_map]
    rw [hmap, h4 _ _ hxs hys]
    rw [mul_add_div_eq hx, mul_add_div_eq hy, mul_add_mod_eq hx, mul_add_mod_eq hy,
      if_pos (by simpa using mul_add_lt hi hj)]
    congr 1
    rw [ht]
    apply get_flat mat [s ^ 2, a * b] _ [x * s + y, i * b + j] _ hd
    simp [ravel]; ring

/-! ### cubes and matrices -/

theorem cube2matrix_eq {cube : NDArray α} {n : ℕ} {s : List ℕ} (hs : cube.shape = n :: s) :
    cube2matrix cube = .ok (transposeAll ⟨[n, s.prod], cube.data⟩) := by
  simp only [cube2matrix, hs]
  rw [reshape_ok _ (by rw [hs]; simp), ok_bind]; rfl

theorem cube2matrix_spec {cube : NDArray α} {n : ℕ} {s : List ℕ} (hs : cube.shape = n :: s) :
    ∃ mat, cube2matrix cube = .ok mat ∧ mat.WF ∧ mat.shape = [s.prod, n] ∧
      ∀ k idx, k < n → InB idx s → mat.get [ravel s idx, k] = cube.get (k :: idx) := by
  refine ⟨_, cube2matrix_eq hs, wf_transposeAll _, by simp [transposeAll], ?_⟩
  intro k idx hk hi
  rw [get_transposeAll (by simp [InB, hk, ravel_lt hi])]
  simp only [List.reverse_cons, List.reverse_nil, List.nil_append, List.singleton_append]
  apply get_flat cube (n :: s) _ (k :: idx) _ hs
  simp [ravel]

theorem matrix2cube_spec {mat : NDArray α} {n p : ℕ} {s : List ℕ} (hs : mat.shape = [p, n])
    (hp : s.prod = p) :
    ∃ cube, matrix2cube mat s = .ok cube ∧ cube.WF ∧ cube.shape = n :: s ∧
      ∀ k idx, k < n → InB idx s → cube.get (k :: idx) = mat.get [ravel s idx, k] := by
  have hsh : mat.transposeAll.shape = [n, p] := by simp [transposeAll, hs]
  have hwf := wf_transposeAll mat
  refine ⟨⟨n :: s, mat.transposeAll.data⟩, ?_, ?_, rfl, ?_⟩
  · simp only [matrix2cube, hs]
    rw [reshape_ok _ (by rw [hsh]; simp [hp])]
  · simp only [WF, hsh] at *; simpa [hp] using hwf
  · intro k idx hk hi
    have hr : ravel s idx < p := hp ▸ ravel_lt hi
    rw [get_flat mat.transposeAll [n, p] _ [k, ravel s idx] _ hsh (by simp [ravel, hp]),
      get_transposeAll (by rw [hs]; simp [InB, hk, hr])]
    simp

end Verif.Transform
