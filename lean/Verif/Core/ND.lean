import Mathlib.Data.List.Basic
import Mathlib.Algebra.BigOperators.Group.List.Basic
import Mathlib.Data.List.Forall2
import Mathlib.Data.List.GetD
import Mathlib.Tactic.Ring
import Mathlib.Tactic.Linarith

/-!
# N-dimensional arrays

A NumPy array is modelled by its shape and its row-major flat data, as NumPy stores a
C-contiguous array.  Strides, views and dtypes are not part of this structure; where a property
depends on them (aliasing, write flags) the model in question adds them explicitly.
-/

namespace Verif

/-- A NumPy array: shape and row-major data. -/
structure NDArray (α : Type _) where
  shape : List ℕ
  data : List α
  deriving DecidableEq, Repr

/-- All multi-indices of a shape, in row-major order. -/
def allIdx : List ℕ → List (List ℕ)
  | [] => [[]]
  | n :: s => (List.range n).flatMap fun i => (allIdx s).map (i :: ·)

/-- `idx` is a valid multi-index for `shape`. -/
def InB (idx shape : List ℕ) : Prop := List.Forall₂ (· < ·) idx shape

/-- Row-major flat position of a multi-index. -/
def ravel : List ℕ → List ℕ → ℕ
  | _ :: s, i :: is => i * s.prod + ravel s is
  | _, _ => 0

namespace NDArray
variable {α β : Type _}

/-- The data has as many entries as the shape requires. -/
def WF (a : NDArray α) : Prop := a.data.length = a.shape.prod

instance (a : NDArray α) : Decidable a.WF := by unfold WF; infer_instance

/-- Array built from its entries, `np.fromfunction`-like. -/
def ofFn (shape : List ℕ) (f : List ℕ → α) : NDArray α := ⟨shape, (allIdx shape).map f⟩

/-- Entry at a multi-index (only meaningful when `InB idx a.shape`). -/
def get [Inhabited α] (a : NDArray α) (idx : List ℕ) : α :=
  a.data.getD (ravel a.shape idx) default

/-- Number of dimensions. -/
def ndim (a : NDArray α) : ℕ := a.shape.length

/-- Entrywise map. -/
def map (f : α → β) (a : NDArray α) : NDArray β := ⟨a.shape, a.data.map f⟩

end NDArray

/-! ## Lemmas -/

theorem length_allIdx (s : List ℕ) : (allIdx s).length = s.prod := by
  induction s with
  | nil => simp [allIdx]
  | cons n s ih => simp [allIdx, List.length_flatMap, ih]

theorem mem_allIdx {s idx : List ℕ} : idx ∈ allIdx s ↔ InB idx s := by
  induction s generalizing idx with
  | nil => simp [allIdx, InB]
  | cons n s ih =>
    cases idx with
    | nil => simp [allIdx, InB]
    | cons i is => simp only [InB] at ih; simp [allIdx, InB, ih]

theorem range_flatMap_affine (n p : ℕ) :
    ((List.range n).flatMap fun i => (List.range p).map (i * p + ·)) = List.range (n * p) := by
  induction n with
  | zero => simp
  | succ n ih =>
    rw [List.range_succ, List.flatMap_append, ih, Nat.succ_mul, List.range_add]
    simp

theorem allIdx_map_ravel (s : List ℕ) : (allIdx s).map (ravel s) = List.range s.prod := by
  induction s with
  | nil => simp [allIdx, ravel]
  | cons n s ih =>
    simp only [allIdx, List.map_flatMap, List.map_map, List.prod_cons]
    rw [← range_flatMap_affine, ← ih]
    congr 1
    funext i
    simp [Function.comp_def, ravel]

theorem ravel_getElem_allIdx {s : List ℕ} {k : ℕ} (h : k < (allIdx s).length) :
    ravel s ((allIdx s)[k]) = k := by
  have h2 := allIdx_map_ravel s
  have h1 : ((allIdx s).map (ravel s))[k]'(by simpa using h) = k := by
    simp only [h2, List.getElem_range]
  simpa using h1

theorem getElem?_allIdx {s idx : List ℕ} (h : InB idx s) : (allIdx s)[ravel s idx]? = some idx := by
  obtain ⟨k, hk, rfl⟩ := List.mem_iff_getElem.1 (mem_allIdx.2 h)
  rw [ravel_getElem_allIdx hk]
  simp [hk]

theorem ravel_lt {s idx : List ℕ} (h : InB idx s) : ravel s idx < s.prod := by
  have := getElem?_allIdx h
  rw [← length_allIdx]
  by_contra hc
  rw [List.getElem?_eq_none (by omega)] at this
  cases this

namespace NDArray
variable {α β : Type _}

theorem wf_ofFn (s : List ℕ) (f : List ℕ → α) : (ofFn s f).WF := by
  simp [WF, ofFn, length_allIdx]

@[simp] theorem shape_ofFn (s : List ℕ) (f : List ℕ → α) : (ofFn s f).shape = s := rfl

theorem get_ofFn [Inhabited α] {s idx : List ℕ} (f : List ℕ → α) (h : InB idx s) :
    (ofFn s f).get idx = f idx := by
  simp [get, ofFn, getElem?_allIdx h]

theorem data_eq_map_get [Inhabited α] {a : NDArray α} (h : a.WF) :
    a.data = (allIdx a.shape).map a.get := by
  apply List.ext_getElem
  · simp [length_allIdx]; exact h
  · intro k h1 h2
    have hk : k < (allIdx a.shape).length := by simpa using h2
    simp only [List.getElem_map, get, ravel_getElem_allIdx hk]
    simp [h1]

theorem eq_ofFn_get [Inhabited α] {a : NDArray α} (h : a.WF) : a = ofFn a.shape a.get := by
  cases a with
  | mk s d => simp only [ofFn, mk.injEq, true_and]; exact data_eq_map_get h

/-- Two well-formed arrays with the same shape and the same entries are equal. -/
theorem ext_get [Inhabited α] {a b : NDArray α} (ha : a.WF) (hb : b.WF) (hs : a.shape = b.shape)
    (hg : ∀ idx, InB idx a.shape → a.get idx = b.get idx) : a = b := by
  have h1 := data_eq_map_get ha
  have h2 := data_eq_map_get hb
  cases a with
  | mk s d =>
    cases b with
    | mk s' d' =>
      simp only at hs
      subst hs
      simp only [mk.injEq, true_and]
      exact h1.trans ((List.map_congr_left (fun idx hi => hg idx (mem_allIdx.1 hi))).trans h2.symm)

theorem get_map [Inhabited α] [Inhabited β] {a : NDArray α} (h : a.WF) (f : α → β) {idx : List ℕ}
    (hi : InB idx a.shape) : (a.map f).get idx = f (a.get idx) := by
  have hlt : ravel a.shape idx < a.data.length := by rw [h]; exact ravel_lt hi
  simp only [get, map]
  rw [List.getD_eq_getElem _ _ (by simpa using hlt), List.getD_eq_getElem _ _ hlt,
    List.getElem_map]

theorem ofFn_congr {s : List ℕ} {f g : List ℕ → α} (h : ∀ idx, InB idx s → f idx = g idx) :
    ofFn s f = ofFn s g := by
  simp only [ofFn, mk.injEq, true_and]
  exact List.map_congr_left (fun idx hi => h idx (mem_allIdx.1 hi))

end NDArray

/-! ### Small-dimensional index lemmas -/

theorem inB_two {idx : List ℕ} {r c : ℕ} :
    InB idx [r, c] ↔ ∃ i j, idx = [i, j] ∧ i < r ∧ j < c := by
  constructor
  · intro h
    match idx, h with
    | [i, j], h => simp [InB] at h; exact ⟨i, j, rfl, h⟩
    | [], h => simp [InB] at h
    | [_], h => simp [InB] at h
    | _ :: _ :: _ :: _, h => simp [InB] at h
  · rintro ⟨i, j, rfl, h1, h2⟩
    simp [InB, h1, h2]

theorem inB_three {idx : List ℕ} {n r c : ℕ} :
    InB idx [n, r, c] ↔ ∃ k i j, idx = [k, i, j] ∧ k < n ∧ i < r ∧ j < c := by
  constructor
  · intro h
    match idx, h with
    | [k, i, j], h => simp [InB] at h; exact ⟨k, i, j, rfl, h⟩
    | [], h => simp [InB] at h
    | [_], h => simp [InB] at h
    | [_, _], h => simp [InB] at h
    | _ :: _ :: _ :: _ :: _, h => simp [InB] at h
  · rintro ⟨k, i, j, rfl, h1, h2, h3⟩
    simp [InB, h1, h2, h3]

theorem inB_cons {i n : ℕ} {is s : List ℕ} : InB (i :: is) (n :: s) ↔ i < n ∧ InB is s := by
  simp [InB]

theorem inB_nil : InB [] [] := by simp [InB]

theorem InB.length_eq {idx s : List ℕ} (h : InB idx s) : idx.length = s.length :=
  List.Forall₂.length_eq h

end Verif
