import Verif.Model.Stats
import Verif.Spec.Stats
import Mathlib.Data.List.GetD

/-!
# The sorted middle is the counted median
-/

namespace Verif

open Spec Stats

theorem howMany_perm {l l' : List ℝ} (h : l.Perm l') (p : ℝ → Prop) : howMany l p = howMany l' p := by
  classical
  exact h.countP_eq _

theorem howMany_append (l l' : List ℝ) (p : ℝ → Prop) :
    howMany (l ++ l') p = howMany l p + howMany l' p := by
  classical
  exact List.countP_append

theorem howMany_all {l : List ℝ} {p : ℝ → Prop} (h : ∀ x ∈ l, p x) : howMany l p = l.length := by
  classical
  unfold howMany
  rw [List.countP_eq_length]
  intro a ha
  simpa using h a ha

theorem howMany_none {l : List ℝ} {p : ℝ → Prop} (h : ∀ x ∈ l, ¬ p x) : howMany l p = 0 := by
  classical
  unfold howMany
  rw [List.countP_eq_zero]
  intro a ha
  simpa using h a ha

theorem howMany_le (l : List ℝ) (p : ℝ → Prop) : howMany l p ≤ l.length := by
  classical
  exact List.countP_le_length

theorem howMany_mono {l : List ℝ} {p q : ℝ → Prop} (h : ∀ x ∈ l, p x → q x) :
    howMany l p ≤ howMany l q := by
  classical
  unfold howMany
  apply List.countP_mono_left
  intro x hx hp
  simpa using h x hx (by simpa using hp)

theorem howMany_map (f : ℝ → ℝ) (l : List ℝ) (p : ℝ → Prop) :
    howMany (l.map f) p = howMany l fun x => p (f x) := by
  classical
  unfold howMany
  rw [List.countP_map]
  rfl

/-- Two conditions that exclude each other. -/
theorem howMany_disjoint {l : List ℝ} {p q : ℝ → Prop} (h : ∀ x ∈ l, p x → ¬ q x) :
    howMany l p + howMany l q ≤ l.length := by
  induction l with
  | nil => simp [howMany]
  | cons a t ih =>
    have ih := ih fun x hx => h x (by simp [hx])
    have ha := h a (by simp)
    have e1 : ∀ r : ℝ → Prop, howMany (a :: t) r = howMany [a] r + howMany t r := fun r =>
      howMany_append [a] t r
    rw [e1 p, e1 q]
    have : howMany [a] p + howMany [a] q ≤ 1 := by
      by_cases hp : p a
      · rw [howMany_none (p := q) (by simpa using ha hp)]
        exact howMany_le [a] p
      · rw [howMany_none (p := p) (by simpa using hp)]
        simpa using howMany_le [a] q
    simp only [List.length_cons]
    omega

section Sorted
variable {s : List ℝ} (hs : s.Pairwise (· ≤ ·)) {k : ℕ} (hk : k < s.length)
include hs hk

theorem take_le_getElem : ∀ x ∈ s.take (k + 1), x ≤ s[k] := by
  intro x hx
  obtain ⟨i, hi, rfl⟩ := List.mem_iff_getElem.1 hx
  rw [List.getElem_take]
  rw [List.length_take] at hi
  rcases Nat.lt_or_ge i k with h | h
  · exact List.pairwise_iff_getElem.1 hs i k _ hk h
  · have : i = k := by omega
    subst this; exact le_rfl

theorem getElem_le_drop : ∀ x ∈ s.drop k, s[k] ≤ x := by
  intro x hx
  obtain ⟨i, hi, rfl⟩ := List.mem_iff_getElem.1 hx
  rw [List.getElem_drop]
  rw [List.length_drop] at hi
  rcases Nat.eq_zero_or_pos i with h | h
  · subst h; simp
  · exact List.pairwise_iff_getElem.1 hs k (k + i) hk _ (by omega)

theorem count_le_getElem : k + 1 ≤ howMany s (· ≤ s[k]) := by
  have h := howMany_append (s.take (k + 1)) (s.drop (k + 1)) (· ≤ s[k])
  rw [List.take_append_drop] at h
  rw [h, howMany_all (take_le_getElem hs hk), List.length_take]
  omega

theorem count_lt_getElem {v : ℝ} (hv : v < s[k]) : howMany s (· ≤ v) ≤ k := by
  have h := howMany_append (s.take k) (s.drop k) (· ≤ v)
  rw [List.take_append_drop] at h
  rw [h, howMany_none (l := s.drop k) fun x hx => not_le.2 (hv.trans_le (getElem_le_drop hs hk x hx))]
  have := howMany_le (s.take k) (· ≤ v)
  rw [List.length_take] at this
  omega

theorem count_ge_getElem : s.length - k ≤ howMany s (s[k] ≤ ·) := by
  have h := howMany_append (s.take k) (s.drop k) (s[k] ≤ ·)
  rw [List.take_append_drop] at h
  rw [h, howMany_all (getElem_le_drop hs hk), List.length_drop]
  omega

theorem count_gt_getElem {v : ℝ} (hv : s[k] < v) : howMany s (v ≤ ·) ≤ s.length - (k + 1) := by
  have h := howMany_append (s.take (k + 1)) (s.drop (k + 1)) (v ≤ ·)
  rw [List.take_append_drop] at h
  rw [h, howMany_none (l := s.take (k + 1)) fun x hx =>
    not_le.2 ((take_le_getElem hs hk x hx).trans_lt hv)]
  have := howMany_le (s.drop (k + 1)) (v ≤ ·)
  rw [List.length_drop] at this
  omega

end Sorted

theorem isLowerMedian_sorted {s : List ℝ} (hs : s.Pairwise (· ≤ ·)) (h : (s.length - 1) / 2 < s.length) :
    IsLowerMedian s s[(s.length - 1) / 2] := by
  refine ⟨⟨List.getElem_mem _, ?_⟩, ?_⟩
  · have := count_le_getElem hs h
    omega
  · rintro v ⟨-, hv⟩
    by_contra hc
    have := count_lt_getElem hs h (not_le.1 hc)
    omega

theorem isUpperMedian_sorted {s : List ℝ} (hs : s.Pairwise (· ≤ ·)) (h : s.length / 2 < s.length) :
    IsUpperMedian s s[s.length / 2] := by
  refine ⟨⟨List.getElem_mem _, ?_⟩, ?_⟩
  · have := count_ge_getElem hs h
    omega
  · rintro v ⟨-, hv⟩
    by_contra hc
    have := count_gt_getElem hs h (not_le.1 hc)
    omega

theorem isLowerMedian_perm {l l' : List ℝ} (h : l.Perm l') (v : ℝ) :
    IsLowerMedian l v ↔ IsLowerMedian l' v := by
  unfold IsLowerMedian
  rw [h.length_eq]
  simp only [h.mem_iff, howMany_perm h]

theorem isUpperMedian_perm {l l' : List ℝ} (h : l.Perm l') (v : ℝ) :
    IsUpperMedian l v ↔ IsUpperMedian l' v := by
  unfold IsUpperMedian
  rw [h.length_eq]
  simp only [h.mem_iff, howMany_perm h]

theorem Spec.IsMedian.unique {l : List ℝ} {a b : ℝ} (ha : IsMedian l a) (hb : IsMedian l b) : a = b := by
  obtain ⟨lo, hi, h1, h2, rfl⟩ := ha
  obtain ⟨lo', hi', h1', h2', rfl⟩ := hb
  rw [h1.unique h1', h2.unique h2']

/-- The model's median is the counted one. -/
theorem median_isMedian {l : List ℝ} (hl : l ≠ []) :
    ∃ m, median l = .fin m ∧ IsMedian l m := by
  have hn : 0 < l.length := List.length_pos_iff.2 hl
  set s := l.insertionSort (· ≤ ·) with hs
  have hp : s.Perm l := List.perm_insertionSort _ _
  have hlen : s.length = l.length := hp.length_eq
  have hsort : s.Pairwise (· ≤ ·) := List.pairwise_insertionSort (· ≤ ·) l
  have k1 : (s.length - 1) / 2 < s.length := by omega
  have k2 : s.length / 2 < s.length := by omega
  have a1 := (isLowerMedian_perm hp _).1 (isLowerMedian_sorted hsort k1)
  have a2 := (isUpperMedian_perm hp _).1 (isUpperMedian_sorted hsort k2)
  refine ⟨_, ?_, _, _, a1, a2, rfl⟩
  unfold median
  simp only [← hs]
  rw [if_neg (by omega)]
  by_cases ho : l.length % 2 = 1
  · rw [if_pos ho]
    congr 1
    have e : (s.length - 1) / 2 = s.length / 2 := by omega
    simp only [e]
    rw [List.getD_eq_getElem _ _ (by omega)]
    simp only [← hlen]
    ring
  · rw [if_neg ho]
    congr 1
    rw [List.getD_eq_getElem _ _ (by omega), List.getD_eq_getElem _ _ (by omega)]
    have e : (s.length - 1) / 2 = s.length / 2 - 1 := by omega
    simp only [e, ← hlen]

theorem median_eq_iff (l : List ℝ) (m : ℝ) : median l = .fin m ↔ IsMedian l m := by
  constructor
  · intro h
    by_cases hl : l = []
    · subst hl; simp [median] at h
    · obtain ⟨m', h1, h2⟩ := median_isMedian hl
      rw [h1] at h
      cases h; exact h2
  · intro h
    have hl : l ≠ [] := by
      rintro rfl
      obtain ⟨lo, hi, h1, -⟩ := h
      simpa using h1.1.1
    obtain ⟨m', h1, h2⟩ := median_isMedian hl
    rw [h1, h.unique h2]

/-- Strictly increasing transformations carry lower medians to lower medians. -/
theorem Spec.IsLowerMedian.map {f : ℝ → ℝ} (hf : StrictMono f) {l : List ℝ} {v : ℝ}
    (h : IsLowerMedian l v) : IsLowerMedian (l.map f) (f v) := by
  refine ⟨⟨List.mem_map_of_mem h.1.1, ?_⟩, ?_⟩
  · rw [howMany_map]; simpa [hf.le_iff_le] using h.1.2
  · rintro w ⟨hw, hc⟩
    obtain ⟨u, hu, rfl⟩ := List.mem_map.1 hw
    rw [howMany_map] at hc
    exact hf.monotone (h.2 ⟨hu, by simpa [hf.le_iff_le] using hc⟩)

theorem Spec.IsUpperMedian.map {f : ℝ → ℝ} (hf : StrictMono f) {l : List ℝ} {v : ℝ}
    (h : IsUpperMedian l v) : IsUpperMedian (l.map f) (f v) := by
  refine ⟨⟨List.mem_map_of_mem h.1.1, ?_⟩, ?_⟩
  · rw [howMany_map]; simpa [hf.le_iff_le] using h.1.2
  · rintro w ⟨hw, hc⟩
    obtain ⟨u, hu, rfl⟩ := List.mem_map.1 hw
    rw [howMany_map] at hc
    exact hf.monotone (h.2 ⟨hu, by simpa [hf.le_iff_le] using hc⟩)

theorem Spec.IsLowerMedian.map_anti {f : ℝ → ℝ} (hf : StrictAnti f) {l : List ℝ} {v : ℝ}
    (h : IsLowerMedian l v) : IsUpperMedian (l.map f) (f v) := by
  refine ⟨⟨List.mem_map_of_mem h.1.1, ?_⟩, ?_⟩
  · rw [howMany_map]; simpa [hf.le_iff_ge] using h.1.2
  · rintro w ⟨hw, hc⟩
    obtain ⟨u, hu, rfl⟩ := List.mem_map.1 hw
    rw [howMany_map] at hc
    exact hf.antitone (h.2 ⟨hu, by simpa [hf.le_iff_ge] using hc⟩)

theorem Spec.IsUpperMedian.map_anti {f : ℝ → ℝ} (hf : StrictAnti f) {l : List ℝ} {v : ℝ}
    (h : IsUpperMedian l v) : IsLowerMedian (l.map f) (f v) := by
  refine ⟨⟨List.mem_map_of_mem h.1.1, ?_⟩, ?_⟩
  · rw [howMany_map]; simpa [hf.le_iff_ge] using h.1.2
  · rintro w ⟨hw, hc⟩
    obtain ⟨u, hu, rfl⟩ := List.mem_map.1 hw
    rw [howMany_map] at hc
    exact hf.antitone (h.2 ⟨hu, by simpa [hf.le_iff_ge] using hc⟩)

theorem isMedian_affine (a b : ℝ) (ha : a ≠ 0) {l : List ℝ} {m : ℝ} (h : IsMedian l m) :
    IsMedian (l.map fun x => a * x + b) (a * m + b) := by
  obtain ⟨lo, hi, h1, h2, rfl⟩ := h
  rcases lt_or_gt_of_ne ha with hneg | hpos
  · have hf : StrictAnti fun x : ℝ => a * x + b := fun x y hxy => by
      have := mul_lt_mul_of_neg_left hxy hneg
      simp only; linarith
    exact ⟨_, _, h2.map_anti hf, h1.map_anti hf, by ring⟩
  · have hf : StrictMono fun x : ℝ => a * x + b := fun x y hxy => by
      have := mul_lt_mul_of_pos_left hxy hpos
      simp only; linarith
    exact ⟨_, _, h1.map hf, h2.map hf, by ring⟩

/-- A value shared by all entries is the median. -/
theorem isMedian_const (l : List ℝ) (hl : l ≠ []) (c : ℝ) (h : ∀ x ∈ l, x = c) : IsMedian l c := by
  obtain ⟨m, -, hm⟩ := median_isMedian hl
  obtain ⟨lo, hi, h1, h2, rfl⟩ := id hm
  have e1 := h lo h1.1.1
  have e2 := h hi h2.1.1
  have : (lo + hi) / 2 = c := by rw [e1, e2]; ring
  rwa [this] at hm

/-- The lower median is at most the upper one, and both lie in every interval holding a strict
majority of the entries. -/
theorem isMedian_majority {l : List ℝ} {m a b : ℝ} (hm : IsMedian l m)
    (h : l.length < 2 * howMany l fun x => a ≤ x ∧ x ≤ b) : a ≤ m ∧ m ≤ b := by
  obtain ⟨lo, hi, h1, h2, rfl⟩ := hm
  have e1 : a ≤ lo := by
    by_contra hc
    have := howMany_disjoint (l := l) (p := (· ≤ lo)) (q := fun x => a ≤ x ∧ x ≤ b)
      fun x _ hx hq => hc (hq.1.trans hx)
    have := h1.1.2
    omega
  have e2 : hi ≤ b := by
    by_contra hc
    have := howMany_disjoint (l := l) (p := (hi ≤ ·)) (q := fun x => a ≤ x ∧ x ≤ b)
      fun x _ hx hq => hc (hx.trans hq.2)
    have := h2.1.2
    omega
  have e3 : lo ≤ b := by
    by_contra hc
    obtain ⟨x, hx, hxb⟩ : ∃ v ∈ l, v ≤ b ∧ l.length ≤ 2 * howMany l (· ≤ v) := by
      classical
      -- the largest entry not above `b`
      have hne : (l.toFinset.filter (· ≤ b)).Nonempty := by
        by_contra he
        rw [Finset.not_nonempty_iff_eq_empty] at he
        have : howMany l (fun x => a ≤ x ∧ x ≤ b) = 0 := howMany_none fun x hx hq => by
          have : x ∈ l.toFinset.filter (· ≤ b) := by simp [hx, hq.2]
          rw [he] at this; simp at this
        omega
      obtain ⟨v, hv, hmax⟩ := Finset.exists_max_image _ id hne
      simp only [Finset.mem_filter, List.mem_toFinset, id] at hv hmax
      refine ⟨v, hv.1, hv.2, ?_⟩
      have : howMany l (fun x => a ≤ x ∧ x ≤ b) ≤ howMany l (· ≤ v) :=
        howMany_mono fun x hx hq => hmax x ⟨hx, hq.2⟩
      omega
    exact hc ((h1.2 ⟨hx, hxb.2⟩).trans hxb.1)
  have e4 : a ≤ hi := by
    by_contra hc
    obtain ⟨x, hx, hxb⟩ : ∃ v ∈ l, a ≤ v ∧ l.length ≤ 2 * howMany l (v ≤ ·) := by
      classical
      have hne : (l.toFinset.filter (a ≤ ·)).Nonempty := by
        by_contra he
        rw [Finset.not_nonempty_iff_eq_empty] at he
        have : howMany l (fun x => a ≤ x ∧ x ≤ b) = 0 := howMany_none fun x hx hq => by
          have : x ∈ l.toFinset.filter (a ≤ ·) := by simp [hx, hq.1]
          rw [he] at this; simp at this
        omega
      obtain ⟨v, hv, hmin⟩ := Finset.exists_min_image _ id hne
      simp only [Finset.mem_filter, List.mem_toFinset, id] at hv hmin
      refine ⟨v, hv.1, hv.2, ?_⟩
      have : howMany l (fun x => a ≤ x ∧ x ≤ b) ≤ howMany l (v ≤ ·) :=
        howMany_mono fun x hx hq => hmin x ⟨hx, hq.1⟩
      omega
    exact hc (hxb.1.trans (h2.2 ⟨hx, hxb.2⟩))
  constructor <;> linarith

end Verif
