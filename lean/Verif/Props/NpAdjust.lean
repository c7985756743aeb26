import Verif.Lemmas.NpAdjust

/-!
# C06–C08: half-turn rotation, zero padding, axis rolling
-/

namespace Verif
open NDArray NpAdjust Transform
variable {α : Type _} [Inhabited α]

/-! ## C06 -/

/-- C06: `rotate` turns every image by half a turn: entry `(i, j)` of the result is entry
`(R-1-i, C-1-j)` of the input.  Further axes, if any, are carried along. -/
theorem C06_rotate_entries {a : NDArray α} {r c : ℕ} {s : List ℕ} (hs : a.shape = r :: c :: s) :
    ∃ b, rotate a = .ok b ∧ b.WF ∧ b.shape = r :: c :: s ∧
      ∀ i j idx, i < r → j < c → InB idx s →
        b.get (i :: j :: idx) = a.get ((r - 1 - i) :: (c - 1 - j) :: idx) := rot180_spec hs

/-- C06: rotating twice gives the array back. -/
theorem C06_rotate_involution {a : NDArray α} {r c : ℕ} {s : List ℕ} (hwf : a.WF)
    (hs : a.shape = r :: c :: s) : (do let b ← rotate a; rotate b) = .ok a := by
  obtain ⟨b, h1, h2, h3, h4⟩ := C06_rotate_entries hs
  obtain ⟨b', k1, k2, k3, k4⟩ := C06_rotate_entries h3
  rw [h1, ok_bind, k1]
  congr 1
  refine ext_get k2 hwf (by rw [k3, hs]) ?_
  intro idx hi
  rw [k3] at hi
  match idx, hi with
  | i :: j :: idx, hi =>
    rw [inB_cons, inB_cons] at hi
    obtain ⟨hi, hj, hidx⟩ := hi
    rw [k4 i j idx hi hj hidx, h4 _ _ idx (by omega) (by omega) hidx]
    rw [show r - 1 - (r - 1 - i) = i by omega, show c - 1 - (c - 1 - j) = j by omega]
  | [], hi => simp [InB] at hi
  | [_], hi => simp [InB] at hi

/-- C06: below two dimensions there is nothing to rotate: `ValueError`. -/
theorem C06_rotate_rejects {a : NDArray α} (h : a.shape.length < 2) :
    rotate a = .error .valueError := by
  unfold rotate rot180
  match hs : a.shape with
  | [] => rfl
  | [_] => rfl
  | _ :: _ :: _ => rw [hs] at h; simp at h; omega

/-- C06: `rotate_stack` rotates every slice independently and keeps their order. -/
theorem C06_rotate_stack_entries {a : NDArray α} {n r c : ℕ} (hn : 0 < n)
    (hs : a.shape = [n, r, c]) :
    ∃ b, rotateStack a = .ok b ∧ b.WF ∧ b.shape = [n, r, c] ∧
      ∀ k i j, k < n → i < r → j < c → b.get [k, i, j] = a.get [k, r - 1 - i, c - 1 - j] := by
  have h := mapM_exists (l := List.range n) (f := fun k => rotate (a.index0 k))
    (P := fun k b => b.shape = [r, c] ∧ ∀ i j, i < r → j < c → b.get [i, j] = a.get [k, r - 1 - i, c - 1 - j]) (by
      intro k _
      obtain ⟨b, h1, _, h3, h4⟩ := C06_rotate_entries (a := a.index0 k) (r := r) (c := c) (s := [])
        (by simp [hs])
      refine ⟨b, h1, h3, fun i j hi hj => ?_⟩
      rw [h4 i j [] hi hj inB_nil, get_index0 (by simp [hs, InB]; omega)])
  obtain ⟨l, hl, hf⟩ := h
  have hlen : l.length = n := by simpa using hf.length_eq.symm
  have hget : ∀ k (hk : k < l.length), l[k].shape = [r, c] ∧ ∀ i j, i < r → j < c →
      l[k].get [i, j] = a.get [k, r - 1 - i, c - 1 - j] := by
    intro k hk
    have := List.Forall₂.get hf (i := k) (by simpa [hlen] using hk) hk
    simpa using this
  obtain ⟨b, h1, h2, h3, h4⟩ := npArray_const (l := l) (s := [r, c])
    (by intro h0; rw [h0] at hlen; simp at hlen; omega)
    (by intro x hx; obtain ⟨k, hk, rfl⟩ := List.mem_iff_getElem.1 hx; exact (hget k hk).1)
  refine ⟨b, ?_, h2, by rw [h3, hlen], ?_⟩
  · simp only [rotateStack, hs, hl, ok_bind, h1]
  · intro k i j hk hi hj
    rw [h4 k [i, j] (by omega) (by simp [InB, hi, hj]), (hget k (by omega)).2 i j hi hj]

/-- C06: rotating a non-empty stack twice gives it back. -/
theorem C06_rotate_stack_involution {a : NDArray α} {n r c : ℕ} (hwf : a.WF) (hn : 0 < n)
    (hs : a.shape = [n, r, c]) : (do let b ← rotateStack a; rotateStack b) = .ok a := by
  obtain ⟨b, h1, _, h3, h4⟩ := C06_rotate_stack_entries hn hs
  obtain ⟨b', k1, k2, k3, k4⟩ := C06_rotate_stack_entries hn h3
  rw [h1, ok_bind, k1]
  congr 1
  refine ext_get k2 hwf (by rw [k3, hs]) ?_
  intro idx hi
  rw [k3, inB_three] at hi
  obtain ⟨k, i, j, rfl, hk, hi, hj⟩ := hi
  rw [k4 k i j hk hi hj, h4 k _ _ hk (by omega) (by omega)]
  rw [show r - 1 - (r - 1 - i) = i by omega, show c - 1 - (c - 1 - j) = j by omega]

/-- C06: an empty stack loses its image shape (`np.array([])`), the one case in which
`rotate_stack` is not shape preserving. -/
theorem C06_rotate_stack_empty {a : NDArray α} {s : List ℕ} (hs : a.shape = 0 :: s) :
    rotateStack a = .ok ⟨[0], []⟩ := by
  simp only [rotateStack, hs]; rfl

example : rotate (⟨[2, 3], [0, 1, 2, 3, 4, 5]⟩ : NDArray ℕ) = .ok ⟨[2, 3], [5, 4, 3, 2, 1, 0]⟩ := by decide
example : (do let b ← rotate (⟨[2, 3], [0, 1, 2, 3, 4, 5]⟩ : NDArray ℕ); rotate b)
    = .ok ⟨[2, 3], [0, 1, 2, 3, 4, 5]⟩ := C06_rotate_involution (by decide) rfl
example : rotateStack (⟨[2, 1, 3], [0, 1, 2, 3, 4, 5]⟩ : NDArray ℕ)
    = .ok ⟨[2, 1, 3], [2, 1, 0, 5, 4, 3]⟩ := by decide
example : (do let b ← rotateStack (⟨[2, 1, 3], [0, 1, 2, 3, 4, 5]⟩ : NDArray ℕ); rotateStack b)
    = .ok ⟨[2, 1, 3], [0, 1, 2, 3, 4, 5]⟩ := C06_rotate_stack_involution (by decide) (by decide) rfl

/-! ## C07 -/

/-- C07: `pad2d(x, (p, q))` has shape `(R+2p, C+2q)`, contains `x` unchanged in its centre and zero
everywhere else. -/
theorem C07_pad2d_entries [Zero α] {a : NDArray α} {r c : ℕ} (hs : a.shape = [r, c]) (p q : ℕ) :
    ∃ b, pad2d a (.tuple [p, q]) = .ok b ∧ b.WF ∧ b.shape = [r + 2 * p, c + 2 * q] ∧
      (∀ i j, i < r → j < c → b.get [p + i, q + j] = a.get [i, j]) ∧
      (∀ i j, i < r + 2 * p → j < c + 2 * q →
        (i < p ∨ p + r ≤ i ∨ j < q ∨ q + c ≤ j) → b.get [i, j] = 0) := by
  have hnp : npPad2 a (p : ℤ) (q : ℤ) = .ok (ofFn [r + 2 * p, c + 2 * q] fun idx =>
      if p ≤ idx.getD 0 0 ∧ idx.getD 0 0 < p + r ∧ q ≤ idx.getD 1 0 ∧ idx.getD 1 0 < q + c
      then a.get [idx.getD 0 0 - p, idx.getD 1 0 - q] else 0) := by
    simp only [npPad2, hs]
    rw [if_neg (by omega)]
    simp
  refine ⟨_, by simp only [pad2d, PadArg.toArray, ok_bind]; simp only [List.length_cons, List.length_nil]; exact hnp, wf_ofFn _ _, rfl, ?_, ?_⟩
  · intro i j hi hj
    rw [get_ofFn _ (by rw [inB_two]; exact ⟨_, _, rfl, by omega, by omega⟩)]
    simp [hi, hj]
  · intro i j hi hj h
    rw [get_ofFn _ (by rw [inB_two]; exact ⟨_, _, rfl, by omega, by omega⟩)]
    simp only [List.getD_cons_zero, List.getD_cons_succ]
    rw [if_neg (by omega)]

/-- C07: an integer padding, and a one-element sequence, behave exactly as the pair `(p, p)`; tuples,
lists and arrays with the same entries behave identically. -/
theorem C07_pad2d_scalar_is_pair [Zero α] (a : NDArray α) (p q : ℤ) :
    pad2d a (.int p) = pad2d a (.tuple [p, p]) ∧ pad2d a (.tuple [p]) = pad2d a (.tuple [p, p]) ∧
    pad2d a (.list [p, q]) = pad2d a (.tuple [p, q]) ∧
    pad2d a (.ndarray [p, q]) = pad2d a (.tuple [p, q]) := ⟨rfl, rfl, rfl, rfl⟩

/-- C07: cropping the padded array gives the input back, so padding loses nothing. -/
theorem C07_pad2d_crop [Zero α] {a : NDArray α} {r c : ℕ} (hwf : a.WF) (hs : a.shape = [r, c])
    (p q : ℕ) : ∃ b, pad2d a (.tuple [p, q]) = .ok b ∧ b.slice2 p (p + r) q (q + c) = a := by
  obtain ⟨b, h1, _, h3, h4, _⟩ := C07_pad2d_entries hs p q
  refine ⟨b, h1, ?_⟩
  have hsh := slice2_shape (r0 := p) (r1 := p + r) (c0 := q) (c1 := q + c) h3 (by omega) (by omega)
    (by omega) (by omega)
  refine ext_get (wf_ofFn _ _) hwf (by rw [hsh, hs]; simp) ?_
  intro idx hi
  rw [hsh, inB_two] at hi
  obtain ⟨i, j, rfl, hi, hj⟩ := hi
  rw [slice2_get h3 (by omega) (by omega) hi hj, h4 i j (by omega) (by omega)]

/-- C07: arguments of another type, and negative widths, raise `ValueError`. -/
theorem C07_pad2d_rejects [Zero α] (a : NDArray α) (p q : ℤ) (h : p < 0 ∨ q < 0) :
    pad2d a .other = .error .valueError ∧ pad2d a (.tuple [p, q]) = .error .valueError := by
  refine ⟨rfl, ?_⟩
  show npPad2 a p q = _
  unfold npPad2
  split
  · rw [if_pos h]
  · rfl

/-- C07, an empty padding sequence is not rejected with the documented `ValueError` but fails with
`IndexError`; a sequence with more than two entries is accepted and its tail ignored. -/
theorem C07_pad2d_other_lengths [Zero α] (a : NDArray α) (p q : ℤ) (l : List ℤ) :
    pad2d a (.tuple []) = .error .indexError ∧
    pad2d a (.tuple (p :: q :: l)) = pad2d a (.tuple [p, q]) := by
  refine ⟨rfl, ?_⟩
  show (do let p ← PadArg.toArray (.tuple (p :: q :: l)); _) = npPad2 a p q
  simp only [PadArg.toArray, ok_bind]
  rw [if_neg (by simp)]

example : pad2d (⟨[1, 2], [7, 8]⟩ : NDArray ℤ) (.int 1)
    = .ok ⟨[3, 4], [0, 0, 0, 0, 0, 7, 8, 0, 0, 0, 0, 0]⟩ := by decide
example : ∃ b, pad2d (⟨[1, 2], [7, 8]⟩ : NDArray ℤ) (.tuple [1, 2]) = .ok b ∧ b.shape = [1 + 2 * 1, 2 + 2 * 2] :=
  let ⟨b, h1, _, h2, _⟩ := C07_pad2d_entries (a := (⟨[1, 2], [7, 8]⟩ : NDArray ℤ)) rfl 1 2
  ⟨b, h1, h2⟩

/-! ## C08 -/

/-- C08: `fancy_transpose(x, roll)` moves axis `j` to axis `(j + roll) mod ndim`: sizes and indices
move together and entries are unchanged. -/
theorem C08_fancy_transpose_moves_axes (a : NDArray α) (roll : ℤ) :
    (fancyTranspose a roll).WF ∧ (fancyTranspose a roll).ndim = a.ndim ∧
    (∀ j, j < a.ndim →
      (fancyTranspose a roll).shape.getD (((j : ℤ) + roll) % a.ndim).toNat 0 = a.shape.getD j 0) ∧
    (∀ idx idx', InB idx a.shape → idx'.length = a.ndim →
      (∀ j, j < a.ndim → idx'.getD (((j : ℤ) + roll) % a.ndim).toNat 0 = idx.getD j 0) →
      InB idx' (fancyTranspose a roll).shape ∧ (fancyTranspose a roll).get idx' = a.get idx) :=
  fancyTranspose_spec a roll

/-- C08: rolls compose additively. -/
theorem C08_fancy_transpose_compose (a : NDArray α) (r s : ℤ) :
    fancyTranspose (fancyTranspose a r) s = fancyTranspose a (r + s) := by
  obtain ⟨h1, h2, h3, h4⟩ := fancyTranspose_spec a r
  obtain ⟨k1, k2, k3, k4⟩ := fancyTranspose_spec (fancyTranspose a r) s
  rw [h2] at k2 k3 k4
  refine fancyTranspose_unique k1 k2 ?_ ?_
  · intro j hj
    have := k3 (modN ((j : ℤ) + r) a.shape.length) (modN_lt (by omega))
    rw [modN_modN_add (by omega), h3 j hj] at this
    rwa [← add_assoc]
  · intro idx idx' hi hl hrel
    set mid := (List.range a.shape.length).map fun i : ℕ => idx.getD (modN ((i : ℤ) - r) a.shape.length) 0
      with hmid
    have hmidrel : ∀ j, j < a.shape.length →
        mid.getD (modN ((j : ℤ) + r) a.shape.length) 0 = idx.getD j 0 := by
      intro j hj
      rw [hmid, List.getD_eq_getElem (List.map _ _) _ (by simpa using modN_lt (by omega))]
      simp only [List.getElem_map, List.getElem_range]
      rw [modN_shift_cancel hj]
    obtain ⟨m1, m2⟩ := h4 idx mid hi (by simp [hmid]) hmidrel
    have := k4 mid idx' m1 hl (by
      intro j hj
      have q := modN_lt (z := (j : ℤ) - r) (n := a.shape.length) (by omega)
      have e1 := hrel _ q
      have e2 := hmidrel _ q
      rw [modN_shift_cancel' hj] at e2
      have e3 : modN ((modN ((j : ℤ) - r) a.shape.length : ℤ) + (r + s)) a.shape.length
          = modN ((j : ℤ) + s) a.shape.length := by
        rw [modN_modN_add (by omega)]; congr 1; ring
      rw [e3] at e1
      rw [e1, e2])
    rw [this.2, m2]

/-- C08: rolling by a multiple of the number of dimensions is the identity. -/
theorem C08_fancy_transpose_full_turn {a : NDArray α} (hwf : a.WF) (k : ℤ) :
    fancyTranspose a (k * a.ndim) = a := by
  have hm : ∀ j, j < a.shape.length → modN ((j : ℤ) + k * a.ndim) a.shape.length = j := by
    intro j hj
    have : ((j : ℤ) + k * a.ndim) % (a.shape.length : ℤ) = j := by
      simp only [ndim]
      rw [Int.add_mul_emod_self_right, Int.emod_eq_of_lt (by omega) (by omega)]
    simp [modN, this]
  symm
  refine fancyTranspose_unique hwf rfl (fun j hj => by rw [hm j hj]) ?_
  intro idx idx' hi hl hrel
  congr 1
  have hl' := hi.length_eq
  apply List.ext_getElem
  · omega
  · intro i h1 h2
    have := hrel i (by omega)
    rw [hm i (by omega), List.getD_eq_getElem _ _ h1, List.getD_eq_getElem _ _ h2] at this
    exact this

/-- C08: `ftr` and `ftl` are mutually inverse. -/
theorem C08_ftr_ftl_inverse {a : NDArray α} (hwf : a.WF) : ftl (ftr a) = a ∧ ftr (ftl a) = a := by
  have h0 := C08_fancy_transpose_full_turn hwf 0
  simp only [zero_mul] at h0
  unfold ftl ftr
  rw [C08_fancy_transpose_compose, C08_fancy_transpose_compose]
  exact ⟨h0, h0⟩

/-- The docstring example of `fancy_transpose` (np_adjust.py:238-265), one slice. -/
example : fancyTranspose (⟨[2, 1, 3], [0, 1, 2, 3, 4, 5]⟩ : NDArray ℕ) 1
    = ⟨[3, 2, 1], [0, 3, 1, 4, 2, 5]⟩ := by decide
example : ftl (ftr (⟨[2, 1, 3], [0, 1, 2, 3, 4, 5]⟩ : NDArray ℕ)) = ⟨[2, 1, 3], [0, 1, 2, 3, 4, 5]⟩ :=
  (C08_ftr_ftl_inverse (by decide)).1

end Verif
