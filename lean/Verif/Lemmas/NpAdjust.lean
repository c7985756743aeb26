import Verif.Model.NpAdjust
import Verif.Lemmas.Transform
import Mathlib.Data.List.Nodup

namespace Verif.NpAdjust
open NDArray Transform
variable {α : Type _} [Inhabited α]

theorem rot180_spec {a : NDArray α} {r c : ℕ} {s : List ℕ} (hs : a.shape = r :: c :: s) :
    ∃ b, rot180 a = .ok b ∧ b.WF ∧ b.shape = r :: c :: s ∧
      ∀ i j idx, i < r → j < c → InB idx s →
        b.get (i :: j :: idx) = a.get ((r - 1 - i) :: (c - 1 - j) :: idx) := by
  refine ⟨_, by simp only [rot180, hs]; rfl, wf_ofFn _ _, rfl, ?_⟩
  intro i j idx hi hj hidx
  rw [get_ofFn _ (by rw [inB_cons, inB_cons]; exact ⟨hi, hj, hidx⟩)]
  simp

theorem modN_lt {z : ℤ} {n : ℕ} (hn : 0 < n) : modN z n < n := by
  unfold modN
  have h1 := Int.emod_nonneg z (b := (n : ℤ)) (by omega)
  have h2 := Int.emod_lt_of_pos z (b := (n : ℤ)) (by omega)
  omega

theorem cast_modN {z : ℤ} {n : ℕ} (hn : 0 < n) : (modN z n : ℤ) = z % (n : ℤ) := by
  unfold modN
  exact Int.toNat_of_nonneg (Int.emod_nonneg z (by omega))

theorem modN_modN_add {z w : ℤ} {n : ℕ} (hn : 0 < n) : modN ((modN z n : ℤ) + w) n = modN (z + w) n := by
  have : ((modN z n : ℤ) + w) % (n : ℤ) = (z + w) % n := by
    rw [cast_modN hn, Int.emod_add_emod]
  unfold modN at *
  rw [this]

theorem modN_of_lt {j n : ℕ} (h : j < n) : modN (j : ℤ) n = j := by
  unfold modN
  rw [Int.emod_eq_of_lt (by omega) (by omega)]; simp

theorem modN_shift_cancel {j n : ℕ} (h : j < n) (r : ℤ) :
    modN ((modN ((j : ℤ) + r) n : ℤ) - r) n = j := by
  rw [sub_eq_add_neg, modN_modN_add (by omega)]
  rw [show (j : ℤ) + r + -r = j by ring, modN_of_lt h]

theorem modN_shift_cancel' {j n : ℕ} (h : j < n) (r : ℤ) :
    modN ((modN ((j : ℤ) - r) n : ℤ) + r) n = j := by
  rw [modN_modN_add (by omega)]
  rw [show (j : ℤ) - r + r = j by ring, modN_of_lt h]

@[simp] theorem length_rollAxes (n : ℕ) (r : ℤ) : (rollAxes n r).length = n := by simp [rollAxes]

theorem nodup_rollAxes (n : ℕ) (r : ℤ) : (rollAxes n r).Nodup := by
  unfold rollAxes
  refine List.Nodup.map_on ?_ List.nodup_range
  intro x hx y hy h
  have hx : x < n := by simpa using hx
  have hy : y < n := by simpa using hy
  rw [← modN_shift_cancel' hx r, h, modN_shift_cancel' hy r]

theorem idxOf_rollAxes {n j : ℕ} (r : ℤ) (h : j < n) : (rollAxes n r).idxOf j = modN ((j : ℤ) + r) n := by
  have hlt : modN ((j : ℤ) + r) n < (rollAxes n r).length := by simpa using modN_lt (by omega)
  have hget : (rollAxes n r)[modN ((j : ℤ) + r) n] = j := by
    simp only [rollAxes, List.getElem_map, List.getElem_range]
    exact modN_shift_cancel h r
  conv_lhs => rw [← hget]
  exact (nodup_rollAxes n r).idxOf_getElem _ hlt

/-- A list of length `n` indexed as a function. -/
theorem map_range_getD (l : List ℕ) : (List.range l.length).map (fun j => l.getD j 0) = l := by
  apply List.ext_getElem
  · simp
  · intro i h1 h2
    simp [h2]

theorem inB_iff_getD {idx s : List ℕ} :
    InB idx s ↔ idx.length = s.length ∧ ∀ j, j < s.length → idx.getD j 0 < s.getD j 0 := by
  unfold InB
  rw [List.forall₂_iff_get]
  constructor
  · rintro ⟨h1, h2⟩
    refine ⟨h1, fun j hj => ?_⟩
    have := h2 j (by omega) hj
    simpa [hj, h1] using this
  · rintro ⟨h1, h2⟩
    refine ⟨h1, fun j hj hj' => ?_⟩
    have := h2 j hj'
    simpa [hj', hj] using this

/-- Shape and entries of `fancy_transpose`: axis `j` becomes axis `(j + roll) mod ndim`. -/
theorem fancyTranspose_spec (a : NDArray α) (r : ℤ) :
    (fancyTranspose a r).WF ∧ (fancyTranspose a r).shape.length = a.shape.length ∧
    (∀ j, j < a.shape.length →
      (fancyTranspose a r).shape.getD (modN ((j : ℤ) + r) a.shape.length) 0 = a.shape.getD j 0) ∧
    (∀ idx idx', InB idx a.shape → idx'.length = a.shape.length →
      (∀ j, j < a.shape.length → idx'.getD (modN ((j : ℤ) + r) a.shape.length) 0 = idx.getD j 0) →
      InB idx' (fancyTranspose a r).shape ∧ (fancyTranspose a r).get idx' = a.get idx) := by
  have hsh : ∀ j, j < a.shape.length →
      (fancyTranspose a r).shape.getD (modN ((j : ℤ) + r) a.shape.length) 0 = a.shape.getD j 0 := by
    intro j hj
    have hlt := modN_lt (z := (j : ℤ) + r) (n := a.shape.length) (by omega)
    simp only [fancyTranspose, transposeAxes, shape_ofFn, ndim]
    rw [List.getD_eq_getElem _ _ (by simpa using hlt)]
    simp only [List.getElem_map, rollAxes, List.getElem_range]
    rw [modN_shift_cancel hj]
  have hlen : (fancyTranspose a r).shape.length = a.shape.length := by
    simp [fancyTranspose, transposeAxes, ndim]
  refine ⟨wf_ofFn _ _, hlen, hsh, ?_⟩
  intro idx idx' hi hl hrel
  have hin : InB idx' (fancyTranspose a r).shape := by
    rw [inB_iff_getD]
    refine ⟨by rw [hl, hlen], ?_⟩
    intro j hj
    rw [hlen] at hj
    have h1 := modN_shift_cancel' hj r
    have h2 := modN_lt (z := (j : ℤ) - r) (n := a.shape.length) (by omega)
    have h3 := hrel _ h2
    have h4 := hsh _ h2
    rw [h1] at h3 h4
    rw [h3, h4]
    exact (inB_iff_getD.1 hi).2 _ h2
  refine ⟨hin, ?_⟩
  have : (fancyTranspose a r).get idx' = a.get ((List.range a.ndim).map fun j =>
      idx'.getD ((rollAxes a.ndim r).idxOf j) 0) := get_ofFn _ hin
  rw [this]
  congr 1
  have hil := hi.length_eq
  conv_rhs => rw [← map_range_getD idx]
  rw [hil]
  apply List.map_congr_left
  intro j hj
  have hj : j < a.shape.length := by simpa [ndim] using hj
  have : a.ndim = a.shape.length := rfl
  rw [this, idxOf_rollAxes r hj, hrel j hj]

/-- The array described by the specification of `fancy_transpose` is unique. -/
theorem fancyTranspose_unique {a b : NDArray α} {r : ℤ} (hb : b.WF)
    (hl : b.shape.length = a.shape.length)
    (hs : ∀ j, j < a.shape.length → b.shape.getD (modN ((j : ℤ) + r) a.shape.length) 0 = a.shape.getD j 0)
    (hg : ∀ idx idx', InB idx a.shape → idx'.length = a.shape.length →
      (∀ j, j < a.shape.length → idx'.getD (modN ((j : ℤ) + r) a.shape.length) 0 = idx.getD j 0) →
      b.get idx' = a.get idx) : b = fancyTranspose a r := by
  obtain ⟨h1, h2, h3, h4⟩ := fancyTranspose_spec a r
  have hshape : b.shape = (fancyTranspose a r).shape := by
    apply List.ext_getElem
    · rw [hl, h2]
    · intro i hi hi'
      rw [hl] at hi
      have q1 := modN_shift_cancel' hi r
      have q2 := modN_lt (z := (i : ℤ) - r) (n := a.shape.length) (by omega)
      have e1 := hs _ q2
      have e2 := h3 _ q2
      rw [q1] at e1 e2
      rw [← e2, List.getD_eq_getElem _ _ (by omega), List.getD_eq_getElem _ _ hi'] at e1
      exact e1
  refine ext_get hb h1 hshape ?_
  intro idx' hi'
  rw [hshape] at hi'
  have hl' : idx'.length = a.shape.length := by rw [hi'.length_eq, h2]
  set idx := (List.range a.shape.length).map fun j : ℕ => idx'.getD (modN ((j : ℤ) + r) a.shape.length) 0
    with hidx
  have hrel : ∀ j, j < a.shape.length →
      idx'.getD (modN ((j : ℤ) + r) a.shape.length) 0 = idx.getD j 0 := by
    intro j hj
    rw [hidx, List.getD_eq_getElem (List.map _ _) _ (by simpa using hj)]
    simp only [List.getElem_map, List.getElem_range]
  have hin : InB idx a.shape := by
    rw [inB_iff_getD]
    refine ⟨by simp [hidx], ?_⟩
    intro j hj
    rw [← hrel j hj, ← h3 j hj]
    exact (inB_iff_getD.1 hi').2 _ (by rw [h2]; exact modN_lt (by omega))
  rw [hg idx idx' hin hl' hrel, (h4 idx idx' hin hl' hrel).2]

end Verif.NpAdjust
