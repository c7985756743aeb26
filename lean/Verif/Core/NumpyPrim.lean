import Verif.Core.Py
import Verif.Core.ND

/-!
# NumPy primitives used by the index-manipulating code

Each primitive states the shape of its result and its entries by index, and raises where NumPy
raises.
-/

namespace Verif
namespace NDArray
variable {α β : Type _}

/-- NumPy's integer `%`: a zero divisor gives `0` (with a runtime warning). -/
def npMod (a b : ℕ) : ℕ := if b = 0 then 0 else a % b

/-- `a.reshape(s)`: same row-major data, `ValueError` when the sizes differ. -/
def reshape (a : NDArray α) (s : List ℕ) : Py (NDArray α) :=
  if a.shape.prod = s.prod then .ok ⟨s, a.data⟩ else .error .valueError

/-- `a.T`: all axes reversed. -/
def transposeAll [Inhabited α] (a : NDArray α) : NDArray α :=
  ofFn a.shape.reverse fun idx => a.get idx.reverse

/-- `a[k]`: the `k`-th sub-array along the first axis (caller guarantees `k` in range). -/
def index0 [Inhabited α] (a : NDArray α) (k : ℕ) : NDArray α :=
  ofFn a.shape.tail fun idx => a.get (k :: idx)

/-- The sub-arrays `a[lo:hi]`, in order, as iterating over that slice yields them.  Slice bounds are
clamped to the length of the axis, as in Python. -/
def slice0 [Inhabited α] (a : NDArray α) (lo hi : ℕ) : List (NDArray α) :=
  let n := a.shape.headD 0
  (List.range (min hi n - min lo n)).map fun k => a.index0 (min lo n + k)

/-- `a[r0:r1, c0:c1]` for a 2D array of shape `(r, c)`, with clamping. -/
def slice2 [Inhabited α] (a : NDArray α) (r0 r1 c0 c1 : ℕ) : NDArray α :=
  let r := a.shape.getD 0 0
  let c := a.shape.getD 1 0
  ofFn [min r1 r - min r0 r, min c1 c - min c0 c] fun idx =>
    a.get [min r0 r + idx.getD 0 0, min c0 c + idx.getD 1 0]

/-- `np.array([a₀, a₁, …])`: a new leading axis.  Arrays of different shapes raise `ValueError`
(inhomogeneous shape); the empty list gives an empty 1D array. -/
def npArray [Inhabited α] (l : List (NDArray α)) : Py (NDArray α) :=
  match l with
  | [] => .ok ⟨[0], []⟩
  | a :: _ =>
    if l.all (fun b => b.shape == a.shape) then
      .ok (ofFn (l.length :: a.shape) fun idx => (l.getD (idx.headD 0) a).get idx.tail)
    else .error .valueError

/-- Which block of a concatenation, and where in it, position `j` falls. -/
def locate : List ℕ → ℕ → ℕ × ℕ
  | [], j => (0, j)
  | w :: ws, j => if j < w then (0, j) else
      let p := locate ws (j - w)
      (p.1 + 1, p.2)

/-- `np.hstack` of 2D arrays: concatenation along the columns.  `ValueError` on an empty list or
when the row counts differ. -/
def hstack [Inhabited α] (l : List (NDArray α)) : Py (NDArray α) :=
  match l with
  | [] => .error .valueError
  | a :: _ =>
    let r := a.shape.getD 0 0
    if l.all (fun b => b.shape.length == 2 && b.shape.getD 0 0 == r) then
      let ws := l.map fun b => b.shape.getD 1 0
      .ok (ofFn [r, ws.sum] fun idx =>
        let p := locate ws (idx.getD 1 0)
        (l.getD p.1 a).get [idx.getD 0 0, p.2])
    else .error .valueError

/-- `np.vstack` of 2D arrays: concatenation along the rows.  `ValueError` on an empty list or when
the column counts differ. -/
def vstack [Inhabited α] (l : List (NDArray α)) : Py (NDArray α) :=
  match l with
  | [] => .error .valueError
  | a :: _ =>
    let c := a.shape.getD 1 0
    if l.all (fun b => b.shape.length == 2 && b.shape.getD 1 0 == c) then
      let hs := l.map fun b => b.shape.getD 0 0
      .ok (ofFn [hs.sum, c] fun idx =>
        let p := locate hs (idx.getD 0 0)
        (l.getD p.1 a).get [p.2, idx.getD 1 0])
    else .error .valueError

/-- `a[r0:r1, c0:c1] = b` for 2D `a` and `b`: NumPy broadcasting (an axis of length one of `b` is
repeated), `ValueError` when the shapes do not broadcast. -/
def setSlice2 [Inhabited α] (a : NDArray α) (r0 r1 c0 c1 : ℕ) (b : NDArray α) : Py (NDArray α) :=
  let r := a.shape.getD 0 0
  let c := a.shape.getD 1 0
  let h := min r1 r - min r0 r
  let w := min c1 c - min c0 c
  let bh := b.shape.getD 0 0
  let bw := b.shape.getD 1 0
  if (bh = h ∨ bh = 1) ∧ (bw = w ∨ bw = 1) then
    .ok (ofFn a.shape fun idx =>
      let i := idx.getD 0 0
      let j := idx.getD 1 0
      if r0 ≤ i ∧ i < r1 ∧ c0 ≤ j ∧ j < c1 then
        b.get [if bh = 1 then 0 else i - r0, if bw = 1 then 0 else j - c0]
      else a.get idx)
  else .error .valueError

/-! ## Lemmas -/

@[simp] theorem shape_index0 [Inhabited α] (a : NDArray α) (k : ℕ) :
    (a.index0 k).shape = a.shape.tail := rfl

theorem get_index0 [Inhabited α] {a : NDArray α} {k : ℕ} {idx : List ℕ}
    (h : InB idx a.shape.tail) : (a.index0 k).get idx = a.get (k :: idx) := get_ofFn _ h

theorem wf_transposeAll [Inhabited α] (a : NDArray α) : a.transposeAll.WF := wf_ofFn _ _

theorem inB_reverse {idx s : List ℕ} (h : InB idx s) : InB idx.reverse s.reverse :=
  List.rel_reverse h

theorem get_transposeAll [Inhabited α] {a : NDArray α} {idx : List ℕ}
    (h : InB idx a.shape.reverse) : a.transposeAll.get idx = a.get idx.reverse := get_ofFn _ h

theorem transposeAll_transposeAll [Inhabited α] {a : NDArray α} (h : a.WF) :
    a.transposeAll.transposeAll = a := by
  refine ext_get (wf_ofFn _ _) h (by simp [transposeAll]) ?_
  intro idx hi
  have h1 : InB idx a.transposeAll.shape.reverse := by simpa [transposeAll] using hi
  rw [get_transposeAll h1]
  have h2 : InB idx.reverse a.shape.reverse := by simpa [transposeAll] using inB_reverse h1
  rw [get_transposeAll h2]; simp

theorem locate_const (n w j : ℕ) (h : j < n * w) :
    locate (List.replicate n w) j = (j / w, j % w) := by
  induction n generalizing j with
  | zero => simp at h
  | succ n ih =>
    simp only [List.replicate_succ, locate]
    split
    · rename_i hlt
      rw [Nat.div_eq_of_lt hlt, Nat.mod_eq_of_lt hlt]
    · rename_i hge
      have hge : w ≤ j := Nat.le_of_not_lt hge
      have hw : 0 < w := by
        rcases Nat.eq_zero_or_pos w with h0 | h0
        · simp [h0] at h
        · exact h0
      have hj : j - w < n * w := by
        have : (n + 1) * w = n * w + w := by ring
        omega
      rw [ih _ hj]
      have h3 : j / w = (j - w) / w + 1 := by
        conv_lhs => rw [← Nat.sub_add_cancel hge]
        rw [Nat.add_div_right _ hw]
      have h4 : j % w = (j - w) % w := by
        conv_lhs => rw [← Nat.sub_add_cancel hge]
        rw [Nat.add_mod_right]
      simp [h3, h4]

/-- `hstack` of `n` arrays of one common shape. -/
theorem hstack_const [Inhabited α] {l : List (NDArray α)} {r w : ℕ} (hne : l ≠ [])
    (hs : ∀ b ∈ l, b.shape = [r, w]) :
    ∃ m, hstack l = .ok m ∧ m.WF ∧ m.shape = [r, l.length * w] ∧
      ∀ k i j (hk : k < l.length), i < r → j < w → m.get [i, k * w + j] = (l[k]).get [i, j] := by
  obtain ⟨a, l', rfl⟩ := List.exists_cons_of_ne_nil hne
  have ha : a.shape = [r, w] := hs a (by simp)
  have hall : ((a :: l').all fun b => b.shape.length == 2 && b.shape.getD 0 0 == a.shape.getD 0 0)
      = true := by
    rw [List.all_eq_true]; intro b hb; simp [hs b hb, ha]
  have hws : ((a :: l').map fun b => b.shape.getD 1 0) = List.replicate (a :: l').length w := by
    rw [List.eq_replicate_iff]; refine ⟨by simp, ?_⟩
    intro x hx
    obtain ⟨b, hb, rfl⟩ := List.mem_map.1 hx
    simp [hs b hb]
  refine ⟨_, by rw [hstack]; simp only [hall, if_true, hws]; rfl, wf_ofFn _ _, ?_, ?_⟩
  · simp [ha, List.sum_replicate]
  · intro k i j hk hi hj
    have hlt : k * w + j < (a :: l').length * w := by
      calc k * w + j < k * w + w := by omega
        _ = (k + 1) * w := by ring
        _ ≤ _ := Nat.mul_le_mul_right _ hk
    rw [get_ofFn]
    · have hw : 0 < w := by omega
      have h1 : (k * w + j) / w = k := by
        rw [Nat.mul_comm, Nat.mul_add_div hw, Nat.div_eq_of_lt hj]; simp
      have h2 : (k * w + j) % w = j := by
        rw [Nat.mul_comm, Nat.mul_add_mod, Nat.mod_eq_of_lt hj]
      simp only [List.getD_cons_succ, List.getD_cons_zero, locate_const _ _ _ hlt, h1, h2]
      rw [List.getD_eq_getElem _ _ hk]
    · rw [inB_two]; exact ⟨_, _, rfl, by simpa [ha] using hi, by simpa [List.sum_replicate] using hlt⟩

/-- `vstack` of `n` arrays of one common shape. -/
theorem vstack_const [Inhabited α] {l : List (NDArray α)} {h w : ℕ} (hne : l ≠ [])
    (hs : ∀ b ∈ l, b.shape = [h, w]) :
    ∃ m, vstack l = .ok m ∧ m.WF ∧ m.shape = [l.length * h, w] ∧
      ∀ k i j (hk : k < l.length), i < h → j < w → m.get [k * h + i, j] = (l[k]).get [i, j] := by
  obtain ⟨a, l', rfl⟩ := List.exists_cons_of_ne_nil hne
  have ha : a.shape = [h, w] := hs a (by simp)
  have hall : ((a :: l').all fun b => b.shape.length == 2 && b.shape.getD 1 0 == a.shape.getD 1 0)
      = true := by
    rw [List.all_eq_true]; intro b hb; simp [hs b hb, ha]
  have hws : ((a :: l').map fun b => b.shape.getD 0 0) = List.replicate (a :: l').length h := by
    rw [List.eq_replicate_iff]; refine ⟨by simp, ?_⟩
    intro x hx
    obtain ⟨b, hb, rfl⟩ := List.mem_map.1 hx
    simp [hs b hb]
  refine ⟨_, by rw [vstack]; simp only [hall, if_true, hws]; rfl, wf_ofFn _ _, ?_, ?_⟩
  · simp [ha, List.sum_replicate]
  · intro k i j hk hi hj
    have hlt : k * h + i < (a :: l').length * h := by
      calc k * h + i < k * h + h := by omega
        _ = (k + 1) * h := by ring
        _ ≤ _ := Nat.mul_le_mul_right _ hk
    rw [get_ofFn]
    · have hw : 0 < h := by omega
      have h1 : (k * h + i) / h = k := by
        rw [Nat.mul_comm, Nat.mul_add_div hw, Nat.div_eq_of_lt hi]; simp
      have h2 : (k * h + i) % h = i := by
        rw [Nat.mul_comm, Nat.mul_add_mod, Nat.mod_eq_of_lt hi]
      simp only [List.getD_cons_succ, List.getD_cons_zero, locate_const _ _ _ hlt, h1, h2]
      rw [List.getD_eq_getElem _ _ hk]
    · rw [inB_two]; exact ⟨_, _, rfl, by simpa [List.sum_replicate] using hlt, by simpa [ha] using hj⟩

/-- `np.array` of arrays of one common shape. -/
theorem npArray_const [Inhabited α] {l : List (NDArray α)} {s : List ℕ} (hne : l ≠ [])
    (hs : ∀ b ∈ l, b.shape = s) :
    ∃ m, npArray l = .ok m ∧ m.WF ∧ m.shape = l.length :: s ∧
      ∀ k idx (hk : k < l.length), InB idx s → m.get (k :: idx) = (l[k]).get idx := by
  obtain ⟨a, l', rfl⟩ := List.exists_cons_of_ne_nil hne
  have ha : a.shape = s := hs a (by simp)
  have hall : ((a :: l').all fun b => b.shape == a.shape) = true := by
    rw [List.all_eq_true]; intro b hb; simp [hs b hb, ha]
  refine ⟨_, by rw [npArray]; simp only [hall, if_true]; rfl, wf_ofFn _ _, by simp [ha], ?_⟩
  intro k idx hk hi
  rw [get_ofFn _ (by rw [inB_cons]; exact ⟨hk, ha ▸ hi⟩)]
  simp only [List.headD_cons, List.tail_cons]
  rw [List.getD_eq_getElem _ _ hk]

/-- Slice of a 2D array inside its bounds. -/
theorem slice2_shape [Inhabited α] {a : NDArray α} {r c r0 r1 c0 c1 : ℕ} (ha : a.shape = [r, c])
    (hr : r1 ≤ r) (hc : c1 ≤ c) (hr0 : r0 ≤ r1) (hc0 : c0 ≤ c1) :
    (a.slice2 r0 r1 c0 c1).shape = [r1 - r0, c1 - c0] := by
  simp [slice2, ha]; omega

theorem slice2_get [Inhabited α] {a : NDArray α} {r c r0 r1 c0 c1 i j : ℕ} (ha : a.shape = [r, c])
    (hr : r1 ≤ r) (hc : c1 ≤ c) (hi : i < r1 - r0) (hj : j < c1 - c0) :
    (a.slice2 r0 r1 c0 c1).get [i, j] = a.get [r0 + i, c0 + j] := by
  have h1 : min r0 r = r0 := by omega
  have h2 : min c0 c = c0 := by omega
  have h3 : min r1 r = r1 := by omega
  have h4 : min c1 c = c1 := by omega
  rw [slice2, get_ofFn]
  · simp [ha, h1, h2]
  · rw [inB_two]; exact ⟨i, j, rfl, by simp [ha, h1, h3]; omega, by simp [ha, h2, h4]; omega⟩

theorem slice0_in [Inhabited α] {a : NDArray α} {n lo hi : ℕ} {s : List ℕ}
    (ha : a.shape = n :: s) (h1 : lo ≤ hi) (h2 : hi ≤ n) :
    a.slice0 lo hi = (List.range (hi - lo)).map fun k => a.index0 (lo + k) := by
  have h3 : min hi n = hi := by omega
  have h4 : min lo n = lo := by omega
  simp [slice0, ha, h3, h4]

/-- `reshape` when the sizes agree. -/
theorem reshape_ok (a : NDArray α) {s : List ℕ} (h : a.shape.prod = s.prod) :
    a.reshape s = .ok ⟨s, a.data⟩ := by simp [reshape, h]

/-- Entries of a reshape to 1D. -/
theorem get_flat [Inhabited α] (a : NDArray α) (s t : List ℕ) (i j : List ℕ) (hs : a.shape = s)
    (h : ravel s i = ravel t j) : NDArray.get (⟨t, a.data⟩ : NDArray α) j = a.get i := by
  simp [get, hs, h]

end NDArray
end Verif
