import Verif.Model.WaveletTransform
import Mathlib.Tactic.Linarith
import Mathlib.Data.List.Basic
import Mathlib.Tactic.IntervalCases
import Mathlib.Tactic.FinCases

/-!
# C71, C101, C102, C103: the wavelet transform operators
-/

set_option linter.unusedSectionVars false

namespace Verif
open WT

variable {α A : Type}

/-! ## Ranges and grouping -/

theorem pyRange1_two (L : ℕ) : pyRange1 (1 + 3 * L - 2) 3 = (List.range L).map fun j => 1 + 3 * j := by
  unfold pyRange1
  congr 2
  omega

theorem pyRange1_six (L : ℕ) : pyRange1 (1 + 7 * L - 6) 7 = (List.range L).map fun j => 1 + 7 * j := by
  unfold pyRange1
  congr 2
  omega

theorem pyGet_ok {l : List A} {i : ℕ} {a : A} (h : l[i]? = some a) : pyGet l i = .ok a := by
  unfold pyGet; rw [h]

theorem getElem?_flatMap_triple (l : List (A × A × A)) (j k : ℕ) (hk : k < 3) (hj : j < l.length) :
    (l.flatMap fun t => [t.1, t.2.1, t.2.2])[3 * j + k]? = [l[j].1, l[j].2.1, l[j].2.2][k]? := by
  induction l generalizing j with
  | nil => simp at hj
  | cons a l ih =>
    cases j with
    | zero =>
      simp only [List.flatMap_cons, Nat.mul_zero, Nat.zero_add, List.getElem_cons_zero]
      rw [List.getElem?_append_left (by simpa using hk)]
    | succ j =>
      simp only [List.flatMap_cons, List.getElem_cons_succ]
      rw [List.getElem?_append_right (by simp; omega)]
      have e : 3 * (j + 1) + k - [a.1, a.2.1, a.2.2].length = 3 * j + k := by simp; omega
      rw [e]
      exact ih j (by simpa using hj)

theorem mapM_ok_of_forall {B C : Type} (l : List B) (f : B → Py C) (g : B → C) (h : ∀ b ∈ l, f b = .ok (g b)) :
    l.mapM f = .ok (l.map g) := by
  induction l with
  | nil => rfl
  | cons b l ih =>
    rw [List.mapM_cons, h b (by simp), ih fun c hc => h c (by simp [hc])]
    rfl

theorem range_map_getElem {l : List A} : ((List.range l.length).attach.map fun j => l[j.1]'(List.mem_range.1 j.2)) = l := by
  apply List.ext_getElem
  · simp
  · intro i h1 h2
    simp

theorem mapM_range_getElem {B : Type} (l : List B) (f : ℕ → Py B) (h : ∀ j (hj : j < l.length), f j = .ok l[j]) :
    (List.range l.length).mapM f = .ok l := by
  induction l generalizing f with
  | nil => rfl
  | cons b l ih =>
    rw [List.length_cons, List.range_succ_eq_map, List.mapM_cons, h 0 (by simp)]
    have e : (List.map Nat.succ (List.range l.length)).mapM f = (List.range l.length).mapM fun j => f (j + 1) := by
      rw [List.mapM_map]
      rfl
    rw [e, ih (fun j => f (j + 1)) fun j hj => by
      have := h (j + 1) (by simpa using hj)
      simpa using this]
    rfl

theorem length_flatten2 (c : A × List (A × A × A)) : (flatten2 c).length = 1 + 3 * c.2.length := by
  unfold flatten2
  rw [List.length_cons, List.length_flatMap]
  simp
  omega

/-- **C71, two dimensions**: flattening the decomposition and regrouping it recovers the structure, for every
number of levels. -/
theorem C71_regroup_2d (c : A × List (A × A × A)) : group2 (flatten2 c) = .ok c := by
  have hlen := length_flatten2 c
  have h0 : pyGet (flatten2 c) 0 = .ok c.1 := pyGet_ok rfl
  unfold group2
  rw [h0, hlen, pyRange1_two, List.mapM_map]
  have hg : ∀ j (hj : j < c.2.length) k (hk : k < 3),
      (flatten2 c)[1 + 3 * j + k]? = [c.2[j].1, c.2[j].2.1, c.2[j].2.2][k]? := by
    intro j hj k hk
    rw [show 1 + 3 * j + k = (3 * j + k) + 1 by omega]
    unfold flatten2
    rw [List.getElem?_cons_succ]
    exact getElem?_flatMap_triple c.2 j k hk hj
  rw [mapM_range_getElem c.2 _ fun j hj => by
    have g0 := hg j hj 0 (by omega)
    have g1 := hg j hj 1 (by omega)
    have g2 := hg j hj 2 (by omega)
    simp only [Function.comp]
    rw [pyGet_ok (a := c.2[j].1) (by simpa using g0), pyGet_ok (a := c.2[j].2.1) (by simpa using g1),
      pyGet_ok (a := c.2[j].2.2) (by simpa using g2)]
    rfl]
  rfl

/-- C71: subbands beyond the last complete group of three are silently ignored by the reconstruction, and a list without
subbands raises `IndexError`. -/
theorem C71_incomplete_group_ignored (c : A × List (A × A × A)) (e : List A) (he : e.length < 3) :
    group2 (flatten2 c ++ e) = .ok c ∧ group2 ([] : List A) = .error .indexError := by
  refine ⟨?_, rfl⟩
  have hlen := length_flatten2 c
  have h0 : pyGet (flatten2 c ++ e) 0 = .ok c.1 := pyGet_ok rfl
  have hr : pyRange1 ((flatten2 c ++ e).length - 2) 3 = (List.range c.2.length).map fun j => 1 + 3 * j := by
    unfold pyRange1
    rw [List.length_append, hlen]
    congr 2
    omega
  unfold group2
  rw [h0, hr, List.mapM_map]
  have hg : ∀ j (hj : j < c.2.length) k (hk : k < 3),
      (flatten2 c ++ e)[1 + 3 * j + k]? = [c.2[j].1, c.2[j].2.1, c.2[j].2.2][k]? := by
    intro j hj k hk
    rw [List.getElem?_append_left (by rw [hlen]; omega), show 1 + 3 * j + k = (3 * j + k) + 1 by omega]
    unfold flatten2
    rw [List.getElem?_cons_succ]
    exact getElem?_flatMap_triple c.2 j k hk hj
  rw [mapM_range_getElem c.2 _ fun j hj => by
    have g0 := hg j hj 0 (by omega)
    have g1 := hg j hj 1 (by omega)
    have g2 := hg j hj 2 (by omega)
    simp only [Function.comp]
    rw [pyGet_ok (a := c.2[j].1) (by simpa using g0), pyGet_ok (a := c.2[j].2.1) (by simpa using g1),
      pyGet_ok (a := c.2[j].2.2) (by simpa using g2)]
    rfl]
  rfl

example : group2 [0, 1, 2, 3, 9, 9] = .ok (0, [(1, 2, 3)]) :=
  (C71_incomplete_group_ignored (0, [(1, 2, 3)]) [9, 9] (by simp)).1

/-- A decomposition with two levels. -/
example : group2 (flatten2 (0, [(1, 2, 3), (4, 5, 6)])) = .ok (0, [(1, 2, 3), (4, 5, 6)]) := C71_regroup_2d _

theorem getElem?_flatMap_dict (l : List (List (String × A))) (h7 : ∀ d ∈ l, d.length = 7) (j k : ℕ) (hk : k < 7)
    (hj : j < l.length) : (l.flatMap fun d => d.map (·.2))[7 * j + k]? = (l[j].map (·.2))[k]? := by
  induction l generalizing j with
  | nil => simp at hj
  | cons a l ih =>
    have ha : a.length = 7 := h7 a (by simp)
    cases j with
    | zero =>
      simp only [List.flatMap_cons, Nat.mul_zero, Nat.zero_add, List.getElem_cons_zero]
      rw [List.getElem?_append_left (by simp [ha, hk])]
    | succ j =>
      simp only [List.flatMap_cons, List.getElem_cons_succ]
      rw [List.getElem?_append_right (by simp [ha]; omega)]
      have e : 7 * (j + 1) + k - (a.map (·.2)).length = 7 * j + k := by simp [ha]; omega
      rw [e]
      exact ih (fun d hd => h7 d (by simp [hd])) j (by simpa using hj)

theorem length_flatten3 (c : A × List (List (String × A))) (h7 : ∀ d ∈ c.2, d.length = 7) :
    (flatten3 c).length = 1 + 7 * c.2.length := by
  unfold flatten3
  rw [List.length_cons, List.length_flatMap]
  have : (c.2.map fun d => (d.map (·.2)).length) = c.2.map fun _ => 7 :=
    List.map_congr_left fun d hd => by simp [h7 d hd]
  rw [this]
  simp
  omega

/-- The order of the seven detail subbands in the dictionaries of the external three-dimensional transform. -/
def ptwtKeys : List String := ["aad", "ada", "add", "daa", "dad", "dda", "ddd"]

/-- The keys of the regrouped dictionaries. -/
def rekey (d : List (String × A)) : List (String × A) := ptwtKeys.zip (d.map (·.2))

theorem group3_flatten3 (c : A × List (List (String × A))) (h7 : ∀ d ∈ c.2, d.length = 7) :
    group3 (flatten3 c) = .ok (c.1, c.2.map rekey) := by
  have hlen := length_flatten3 c h7
  have h0 : pyGet (flatten3 c) 0 = .ok c.1 := pyGet_ok rfl
  unfold group3
  rw [h0, hlen, pyRange1_six, List.mapM_map]
  have hg : ∀ j (hj : j < c.2.length) k (hk : k < 7),
      (flatten3 c)[1 + 7 * j + k]? = (c.2[j].map (·.2))[k]? := by
    intro j hj k hk
    rw [show 1 + 7 * j + k = (7 * j + k) + 1 by omega]
    unfold flatten3
    rw [List.getElem?_cons_succ]
    exact getElem?_flatMap_dict c.2 h7 j k hk hj
  have key : ∀ j (hj : j < c.2.length), (wavedec3Keys.zipIdx.mapM fun kv => do
      let x ← pyGet (flatten3 c) (1 + 7 * j + kv.2)
      (.ok (kv.1, x) : Py (String × A))) = .ok (rekey c.2[j]) := by
    intro j hj
    have hl : c.2[j].length = 7 := h7 _ (List.getElem_mem hj)
    have e : ∀ k, k < 7 → ∃ y, (c.2[j].map (·.2))[k]? = some y ∧ pyGet (flatten3 c) (1 + 7 * j + k) = .ok y := by
      intro k hk
      have hk' : k < (c.2[j].map (·.2)).length := by simp [hl, hk]
      refine ⟨(c.2[j].map (·.2))[k], List.getElem?_eq_getElem hk', pyGet_ok ?_⟩
      rw [hg j hj k hk]
      exact List.getElem?_eq_getElem hk'
    obtain ⟨y0, a0, b0⟩ := e 0 (by omega)
    obtain ⟨y1, a1, b1⟩ := e 1 (by omega)
    obtain ⟨y2, a2, b2⟩ := e 2 (by omega)
    obtain ⟨y3, a3, b3⟩ := e 3 (by omega)
    obtain ⟨y4, a4, b4⟩ := e 4 (by omega)
    obtain ⟨y5, a5, b5⟩ := e 5 (by omega)
    obtain ⟨y6, a6, b6⟩ := e 6 (by omega)
    have hlist : c.2[j].map (·.2) = [y0, y1, y2, y3, y4, y5, y6] := by
      apply List.ext_getElem?
      intro k
      rcases Nat.lt_or_ge k 7 with h | h
      · interval_cases k <;> simp only [a0, a1, a2, a3, a4, a5, a6] <;> rfl
      · rw [List.getElem?_eq_none (by simp [hl]; omega), List.getElem?_eq_none (by simp; omega)]
    unfold rekey
    rw [hlist]
    simp only [wavedec3Keys, List.zipIdx_cons, List.zipIdx_nil, List.mapM_cons, List.mapM_nil, zero_add, b0, b1, b2, b3,
      b4, b5, b6, Nat.reduceAdd]
    rfl
  have hm := mapM_range_getElem (c.2.map rekey) ((fun i => wavedec3Keys.zipIdx.mapM fun kv => do
      let x ← pyGet (flatten3 c) (i + kv.2)
      (.ok (kv.1, x) : Py (String × A))) ∘ fun j => 1 + 7 * j) fun j hj => by
    have hj' : j < c.2.length := by simpa using hj
    simp only [Function.comp, List.getElem_map]
    exact key j hj'
  rw [List.length_map] at hm
  rw [hm]
  rfl

theorem rekey_eq_iff (d : List (String × A)) (h7 : d.length = 7) : rekey d = d ↔ d.map (·.1) = ptwtKeys := by
  have hl : ptwtKeys.length = 7 := rfl
  constructor
  · intro h
    rw [← h]
    unfold rekey
    exact List.map_fst_zip (by simp [hl, h7])
  · intro h
    unfold rekey
    rw [← h]
    clear h h7 hl
    induction d with
    | nil => rfl
    | cons a d ih => simp [ih]

/-- **C71, three dimensions**: flattening and regrouping recovers the structure exactly if every dictionary lists
its seven subbands in the order of `wavedec3_keys`. -/
theorem C71_regroup_3d (c : A × List (List (String × A))) (h7 : ∀ d ∈ c.2, d.length = 7) :
    group3 (flatten3 c) = .ok c ↔ ∀ d ∈ c.2, d.map (·.1) = ptwtKeys := by
  rw [group3_flatten3 c h7]
  constructor
  · intro h d hd
    have h1 : c.2.map rekey = c.2 := congrArg Prod.snd (Except.ok.inj h)
    have h2 : rekey d = d := List.map_inj_left.1 (h1.trans (List.map_id c.2).symm) d hd
    exact (rekey_eq_iff d (h7 d hd)).1 h2
  · intro h
    have h1 : c.2.map rekey = c.2 := (List.map_inj_left.2 fun d hd =>
      ((rekey_eq_iff d (h7 d hd)).2 (h d hd)).trans (id_eq (a := d)).symm).trans (List.map_id c.2)
    rw [h1]

/-- A two-level decomposition with the documented order. -/
example : ∀ d ∈ [ptwtKeys.zip [1, 2, 3, 4, 5, 6, 7], ptwtKeys.zip [8, 9, 10, 11, 12, 13, 14]],
    d.length = 7 ∧ d.map (·.1) = ptwtKeys := by decide

/-! ## Complex views -/

theorem pairs_flatMap (l : List (α × α)) : pairs (l.flatMap fun z => [z.1, z.2]) = l := by
  induction l with
  | nil => rfl
  | cons a l ih => simp only [List.flatMap_cons, List.cons_append, List.nil_append, pairs, ih]

theorem viewAsComplex_viewAsReal (a : NDArray (α × α)) : viewAsComplex (viewAsReal a) = .ok a := by
  unfold viewAsComplex viewAsReal
  rw [if_pos (by simp)]
  simp [pairs_flatMap]

/-- An array whose last axis has length two, with the right number of entries. -/
def PairedWF (a : NDArray α) : Prop := a.shape.getLast? = some 2 ∧ a.data.length = a.shape.prod

theorem flatMap_pairs (l : List α) (n : ℕ) (h : l.length = 2 * n) : (pairs l).flatMap (fun z => [z.1, z.2]) = l := by
  induction n generalizing l with
  | zero => have : l = [] := List.length_eq_zero_iff.1 (by omega); rw [this]; rfl
  | succ n ih =>
    match l with
    | [] => simp at h
    | [a] => simp at h; omega
    | a :: b :: l =>
      simp only [List.length_cons] at h
      simp only [pairs, List.flatMap_cons, ih l (by omega), List.cons_append, List.nil_append]

theorem viewAsReal_of_viewAsComplex {a : NDArray α} (h : PairedWF a) :
    ∃ z, viewAsComplex a = .ok z ∧ viewAsReal z = a := by
  obtain ⟨h1, h2⟩ := h
  refine ⟨⟨a.shape.dropLast, pairs a.data⟩, by unfold viewAsComplex; rw [if_pos h1], ?_⟩
  have hs : a.shape.dropLast ++ [2] = a.shape := List.dropLast_append_getLast? 2 h1
  have hd : (pairs a.data).flatMap (fun z => [z.1, z.2]) = a.data := by
    refine flatMap_pairs a.data a.shape.dropLast.prod ?_
    rw [h2]
    conv_lhs => rw [← hs]
    simp [Nat.mul_comm]
  unfold viewAsReal
  simp only [hs, hd]

/-! ## The Torch operator -/

/-- What the external transforms are trusted for: perfect reconstruction, subbands of the real view of complex data
keep the last axis of length two, and the three-dimensional transform names its seven subbands in the order of
`wavedec3_keys`. -/
structure PtwtContract (P : Ptwt α) : Prop where
  rec2 : ∀ a, P.waverec2 (P.wavedec2 a) = a
  rec2c : ∀ a, P.waverec2c (P.wavedec2c a) = a
  rec3 : ∀ a, P.waverec3 (P.wavedec3 a) = a
  rec3c : ∀ a, P.waverec3c (P.wavedec3c a) = a
  pair2 : ∀ (a : NDArray (α × α)), a.WF → ∀ c ∈ flatten2 (P.wavedec2c (viewAsReal a)), PairedWF c
  pair3 : ∀ (a : NDArray (α × α)), a.WF → ∀ c ∈ flatten3 (P.wavedec3c (viewAsReal a)), PairedWF c
  keys3 : ∀ a, ∀ d ∈ (P.wavedec3 a).2, d.map (·.1) = ptwtKeys
  keys3c : ∀ a, ∀ d ∈ (P.wavedec3c a).2, d.map (·.1) = ptwtKeys

theorem seven_of_keys {l : List (List (String × A))} (h : ∀ d ∈ l, d.map (·.1) = ptwtKeys) :
    ∀ d ∈ l, d.length = 7 := by
  intro d hd
  have := congrArg List.length (h d hd)
  rw [List.length_map] at this
  exact this

theorem mapM_complex {l : List (NDArray α)} (h : ∀ c ∈ l, PairedWF c) :
    ∃ zs : List (NDArray (α × α)), (l.mapM fun c => do
        let z ← viewAsComplex c
        (.ok (.cplx z) : Py (Tensor α))) = .ok (zs.map .cplx) ∧ zs.map viewAsReal = l := by
  induction l with
  | nil => exact ⟨[], rfl, rfl⟩
  | cons a l ih =>
    obtain ⟨zs, h1, h2⟩ := ih fun c hc => h c (by simp [hc])
    obtain ⟨z, h3, h4⟩ := viewAsReal_of_viewAsComplex (h a (by simp))
    refine ⟨z :: zs, ?_, by simp [h2, h4]⟩
    rw [List.mapM_cons, h3, h1]
    rfl

theorem mapM_asRealView (zs : List (NDArray (α × α))) : (zs.map Tensor.cplx).mapM asRealView = .ok (zs.map viewAsReal) := by
  rw [List.mapM_map]
  exact mapM_ok_of_forall zs _ _ fun b _ => rfl

theorem mapM_asReal (zs : List (NDArray α)) : (zs.map Tensor.real).mapM asReal = .ok zs := by
  rw [List.mapM_map]
  have := mapM_ok_of_forall zs (asReal ∘ Tensor.real) id fun b _ => rfl
  simpa using this

/-- Reconstruction from complex subbands whose real views are the decomposition of `a`. -/
theorem torchAdjOp_cplx (P : Ptwt α) (hP : PtwtContract P) (shape : List ℕ) (a : NDArray (α × α))
    (zs : List (NDArray (α × α)))
    (hz : zs.map viewAsReal = if shape.length = 2 then flatten2 (P.wavedec2c (viewAsReal a))
      else flatten3 (P.wavedec3c (viewAsReal a))) :
    torchAdjOp P shape (zs.map .cplx) = .ok (.cplx a) := by
  have hne : ∃ z zs', zs = z :: zs' := by
    cases zs with
    | nil => split_ifs at hz <;> simp [flatten2, flatten3] at hz
    | cons z zs' => exact ⟨z, zs', rfl⟩
  obtain ⟨z, zs', rfl⟩ := hne
  unfold torchAdjOp
  have h0 : pyGet ((z :: zs').map Tensor.cplx) 0 = .ok (.cplx z) := rfl
  rw [h0]
  change (do
    let cs ← ((z :: zs').map Tensor.cplx).mapM asRealView
    let d ← if shape.length = 2 then (do let g ← group2 cs; .ok (P.waverec2c g))
      else (do let g ← group3 cs; .ok (P.waverec3c g))
    let z ← viewAsComplex d
    .ok (Tensor.cplx z)) = _
  rw [mapM_asRealView, hz]
  by_cases h2 : shape.length = 2
  · simp only [h2, if_true]
    change (do
      let d ← (do let g ← group2 (flatten2 (P.wavedec2c (viewAsReal a))); .ok (P.waverec2c g))
      let z ← viewAsComplex d
      .ok (Tensor.cplx z)) = _
    rw [C71_regroup_2d]
    change (do
      let z ← viewAsComplex (P.waverec2c (P.wavedec2c (viewAsReal a)))
      .ok (Tensor.cplx z)) = _
    rw [hP.rec2c, viewAsComplex_viewAsReal]
    rfl
  · simp only [h2, if_false]
    change (do
      let d ← (do let g ← group3 (flatten3 (P.wavedec3c (viewAsReal a))); .ok (P.waverec3c g))
      let z ← viewAsComplex d
      .ok (Tensor.cplx z)) = _
    rw [(C71_regroup_3d _ (seven_of_keys (hP.keys3c _))).2 (hP.keys3c _)]
    change (do
      let z ← viewAsComplex (P.waverec3c (P.wavedec3c (viewAsReal a)))
      .ok (Tensor.cplx z)) = _
    rw [hP.rec3c, viewAsComplex_viewAsReal]
    rfl

/-- The subbands of a complex tensor. -/
theorem torchOpB_cplx (P : Ptwt α) (hP : PtwtContract P) (shape : List ℕ) (a : NDArray (α × α)) (ha : a.WF) :
    ∃ zs : List (NDArray (α × α)), torchOpB P shape (.cplx a) = .ok (zs.map .cplx) ∧
      (zs.map viewAsReal = if shape.length = 2 then flatten2 (P.wavedec2c (viewAsReal a))
        else flatten3 (P.wavedec3c (viewAsReal a))) ∧ ∀ z ∈ zs, z.WF := by
  have hwf : ∀ (l : List (NDArray α)) (zs : List (NDArray (α × α))), (∀ c ∈ l, PairedWF c) → zs.map viewAsReal = l →
      ∀ z ∈ zs, z.WF := by
    intro l zs h1 h2 z hz
    have h3 := (h1 (viewAsReal z) (h2 ▸ List.mem_map_of_mem hz)).2
    unfold viewAsReal at h3
    simp only [List.length_flatMap, List.prod_append] at h3
    simp at h3
    unfold NDArray.WF
    omega
  unfold torchOpB
  by_cases h2 : shape.length = 2
  · simp only [h2, if_true]
    obtain ⟨zs, h3, h4⟩ := mapM_complex (hP.pair2 a ha)
    exact ⟨zs, h3, h4, hwf _ zs (hP.pair2 a ha) h4⟩
  · simp only [h2, if_false]
    obtain ⟨zs, h3, h4⟩ := mapM_complex (hP.pair3 a ha)
    exact ⟨zs, h3, h4, hwf _ zs (hP.pair3 a ha) h4⟩

/-- A tensor with as many entries as its shape requires. -/
def TensorWF : Tensor α → Prop
  | .real a => a.WF
  | .cplx a => a.WF

theorem tensorWF_batched (shape : List ℕ) (x : Tensor α) (h : TensorWF x) : TensorWF (batched shape x) := by
  unfold batched
  split_ifs
  · cases x with
    | real a => simpa [Tensor.addAxis, TensorWF, NDArray.WF] using h
    | cplx a => simpa [Tensor.addAxis, TensorWF, NDArray.WF] using h
  · exact h

theorem torch_roundtripB (P : Ptwt α) (hP : PtwtContract P) (shape : List ℕ) (x : Tensor α) (hx : TensorWF x) :
    (torchOpB P shape x >>= torchAdjOp P shape) = .ok x := by
  cases x with
  | cplx a =>
    obtain ⟨zs, h1, h2, -⟩ := torchOpB_cplx P hP shape a hx
    rw [h1]
    exact torchAdjOp_cplx P hP shape a zs h2
  | real a =>
    by_cases h2 : shape.length = 2
    · have h1 : torchOpB P shape (.real a) = .ok ((flatten2 (P.wavedec2 a)).map .real) := by
        unfold torchOpB; rw [if_pos h2]
      rw [h1]
      change torchAdjOp P shape ((flatten2 (P.wavedec2 a)).map .real) = _
      unfold torchAdjOp
      have h0 : pyGet ((flatten2 (P.wavedec2 a)).map Tensor.real) 0 = .ok (.real (P.wavedec2 a).1) := rfl
      rw [h0]
      change (do
        let cs ← ((flatten2 (P.wavedec2 a)).map Tensor.real).mapM asReal
        let d ← if shape.length = 2 then (do let g ← group2 cs; .ok (P.waverec2 g))
          else (do let g ← group3 cs; .ok (P.waverec3 g))
        .ok (Tensor.real d)) = _
      rw [mapM_asReal]
      simp only [h2, if_true]
      change (do
        let d ← (do let g ← group2 (flatten2 (P.wavedec2 a)); .ok (P.waverec2 g))
        .ok (Tensor.real d)) = _
      rw [C71_regroup_2d]
      change Except.ok (Tensor.real (P.waverec2 (P.wavedec2 a))) = _
      rw [hP.rec2]
    · have h1 : torchOpB P shape (.real a) = .ok ((flatten3 (P.wavedec3 a)).map .real) := by
        unfold torchOpB; rw [if_neg h2]
      rw [h1]
      change torchAdjOp P shape ((flatten3 (P.wavedec3 a)).map .real) = _
      unfold torchAdjOp
      have h0 : pyGet ((flatten3 (P.wavedec3 a)).map Tensor.real) 0 = .ok (.real (P.wavedec3 a).1) := rfl
      rw [h0]
      change (do
        let cs ← ((flatten3 (P.wavedec3 a)).map Tensor.real).mapM asReal
        let d ← if shape.length = 2 then (do let g ← group2 cs; .ok (P.waverec2 g))
          else (do let g ← group3 cs; .ok (P.waverec3 g))
        .ok (Tensor.real d)) = _
      rw [mapM_asReal]
      simp only [h2, if_false]
      change (do
        let d ← (do let g ← group3 (flatten3 (P.wavedec3 a)); .ok (P.waverec3 g))
        .ok (Tensor.real d)) = _
      rw [(C71_regroup_3d _ (seven_of_keys (hP.keys3 _))).2 (hP.keys3 _)]
      change Except.ok (Tensor.real (P.waverec3 (P.wavedec3 a))) = _
      rw [hP.rec3]

/-- **C71: the Torch operator's round trip.**  If ptwt reconstructs perfectly, `adj_op(op(x))` is `x` for real and
complex data in two and three dimensions, up to the batch axis that `op` adds to unbatched data. -/
theorem C71_torch_roundtrip (P : Ptwt α) (hP : PtwtContract P) (shape : List ℕ) (x : Tensor α) (hx : TensorWF x) :
    (torchOp P shape x >>= torchAdjOp P shape) = .ok (batched shape x) :=
  torch_roundtripB P hP shape _ (tensorWF_batched shape x hx)

/-- **The shape of unbatched data is not restored**: the result has an extra leading axis of length one. -/
theorem C71_roundtrip_adds_axis (P : Ptwt α) (hP : PtwtContract P) (x : Tensor α) (hx : TensorWF x) :
    ∃ y, (torchOp P x.shape x >>= torchAdjOp P x.shape) = .ok y ∧ y.shape = 1 :: x.shape ∧ y.shape ≠ x.shape := by
  refine ⟨batched x.shape x, C71_torch_roundtrip P hP _ x hx, ?_, ?_⟩
  · unfold batched; rw [if_pos rfl]; cases x <;> rfl
  · unfold batched; rw [if_pos rfl]
    cases x <;> exact fun h => by simpa [Tensor.addAxis, Tensor.shape] using congrArg List.length h

/-- A transform with one level that meets the contract: the detail subbands are copies of the data. -/
def copyPtwt (α : Type) : Ptwt α where
  wavedec2 a := (a, [(a, a, a)])
  waverec2 c := c.1
  wavedec2c a := (a, [(a, a, a)])
  waverec2c c := c.1
  wavedec3 a := (a, [ptwtKeys.map fun k => (k, a)])
  waverec3 c := c.1
  wavedec3c a := (a, [ptwtKeys.map fun k => (k, a)])
  waverec3c c := c.1

theorem copyPtwt_contract (α : Type) : PtwtContract (copyPtwt α) where
  rec2 _ := rfl
  rec2c _ := rfl
  rec3 _ := rfl
  rec3c _ := rfl
  pair2 a ha c hc := by
    have hc' : c = viewAsReal a := by simpa [flatten2, copyPtwt] using hc
    subst hc'
    refine ⟨by simp [viewAsReal], ?_⟩
    unfold viewAsReal
    simp only [List.length_flatMap, List.prod_append]
    unfold NDArray.WF at ha
    simp [ha]
  pair3 a ha c hc := by
    have hc' : c = viewAsReal a := by simpa [flatten3, copyPtwt, ptwtKeys] using hc
    subst hc'
    refine ⟨by simp [viewAsReal], ?_⟩
    unfold viewAsReal
    simp only [List.length_flatMap, List.prod_append]
    unfold NDArray.WF at ha
    simp [ha]
  keys3 a d hd := by
    have : d = ptwtKeys.map fun k => (k, a) := by simpa [copyPtwt] using hd
    rw [this]; rfl
  keys3c a d hd := by
    have : d = ptwtKeys.map fun k => (k, a) := by simpa [copyPtwt] using hd
    rw [this]; rfl

/-! ## Flattening into one vector -/

/-- **C71: splitting the concatenation gives back the list of subbands**, whatever their number and shapes. -/
theorem C71_split_concat (l : List (NDArray A)) (hwf : ∀ a ∈ l, a.WF) :
    split (concat l).2 (concat l).1 = .ok l := by
  induction l with
  | nil => rfl
  | cons a l ih =>
    have ha : a.data.length = a.shape.prod := hwf a (by simp)
    have ih' := ih fun b hb => hwf b (by simp [hb])
    simp only [concat, List.flatMap_cons, List.map_cons] at ih' ⊢
    rw [split]
    have e1 : (a.data ++ l.flatMap NDArray.data).take a.shape.prod = a.data := by rw [← ha]; simp
    have e2 : (a.data ++ l.flatMap NDArray.data).drop a.shape.prod = l.flatMap NDArray.data := by rw [← ha]; simp
    rw [e1, e2, if_neg (by simpa using ha), ih']
    rfl

example : split (concat [(⟨[2], [1, 2]⟩ : NDArray ℕ), ⟨[1, 3], [3, 4, 5]⟩]).2
    (concat [(⟨[2], [1, 2]⟩ : NDArray ℕ), ⟨[1, 3], [3, 4, 5]⟩]).1 = .ok [⟨[2], [1, 2]⟩, ⟨[1, 3], [3, 4, 5]⟩] :=
  C71_split_concat _ (by intro a ha; fin_cases ha <;> rfl)

/-- **When splitting fails**: exactly if the vector is shorter than the stored layout requires; then `ValueError` is
raised.  A longer vector is truncated silently. -/
theorem C71_split_outcome (ss : List (List ℕ)) (l : List A) :
    ((ss.map List.prod).sum ≤ l.length → ∃ r, split ss l = .ok r ∧ r.map NDArray.shape = ss ∧ (∀ a ∈ r, a.WF) ∧
      r.flatMap NDArray.data = l.take (ss.map List.prod).sum) ∧
    (l.length < (ss.map List.prod).sum → split ss l = .error .valueError) := by
  induction ss generalizing l with
  | nil => exact ⟨fun _ => ⟨[], rfl, rfl, by simp, by simp⟩, fun h => by simp at h⟩
  | cons s ss ih =>
    simp only [List.map_cons, List.sum_cons]
    constructor
    · intro h
      obtain ⟨r, h1, h2, h3, h4⟩ := (ih (l.drop s.prod)).1 (by simp; omega)
      have hlen : (l.take s.prod).length = s.prod := by simp; omega
      refine ⟨⟨s, l.take s.prod⟩ :: r, ?_, by simp [h2], ?_, ?_⟩
      · rw [split, if_neg (by simpa using hlen), h1]; rfl
      · intro a ha
        rcases List.mem_cons.1 ha with rfl | ha
        · exact hlen
        · exact h3 a ha
      · simp only [List.flatMap_cons, h4]
        rw [List.take_add]
    · intro h
      rw [split]
      by_cases hs : (l.take s.prod).length ≠ s.prod
      · rw [if_pos hs]
      · rw [if_neg hs, (ih (l.drop s.prod)).2 (by
          have : s.prod ≤ l.length := by simp at hs; omega
          simp; omega)]
        rfl

/-! ## The CuPy operator -/

/-- **C71: the CuPy operator's round trip** for complex data: with the layout stored by the same call of `op`,
`adj_op` returns the data up to the batch axis. -/
theorem C71_cupy_roundtrip_partial [Zero α] (P : Ptwt α) (hP : PtwtContract P) (shape : List ℕ) (a : NDArray (α × α))
    (ha : a.WF) :
    (cupyOp P shape (.cplx a) >>= fun r => cupyAdjOp P shape (some r.2) r.1) = .ok (batched shape (.cplx a)) := by
  have hb : ∃ b, batched shape (Tensor.cplx a) = .cplx b := by
    unfold batched; split_ifs
    · exact ⟨_, rfl⟩
    · exact ⟨_, rfl⟩
  obtain ⟨b, hb⟩ := hb
  have hbwf := tensorWF_batched shape (.cplx a) ha
  rw [hb] at hbwf
  obtain ⟨zs, h1, h2, hwf⟩ := torchOpB_cplx P hP shape b hbwf
  have ht : torchOp P shape (.cplx a) = .ok (zs.map .cplx) := by unfold torchOp; rw [hb]; exact h1
  unfold cupyOp
  rw [ht]
  have e : (zs.map Tensor.cplx).map Tensor.toComplex = zs := by
    rw [List.map_map]
    exact List.map_id' zs
  change cupyAdjOp P shape (some (concat ((zs.map Tensor.cplx).map Tensor.toComplex)).2) _ = _
  unfold cupyAdjOp
  simp only []
  rw [e, C71_split_concat zs hwf, hb]
  exact torchAdjOp_cplx P hP shape b zs h2

/-- **Real data do not come back real**: whatever the subbands, `adj_op` of the CuPy operator never returns a real
array, because `op` stores the coefficients as complex numbers. -/
theorem C71_cupy_never_real (P : Ptwt α) (shape : List ℕ) (layout : Option (List (List ℕ))) (data : List (α × α))
    (a : NDArray α) : cupyAdjOp P shape layout data ≠ .ok (.real a) := by
  intro h
  unfold cupyAdjOp at h
  cases layout with
  | none => cases h
  | some ss =>
    simp only [] at h
    rcases hs : split ss data with e | ts
    · rw [hs] at h; cases h
    · rw [hs] at h
      change torchAdjOp P shape (ts.map .cplx) = _ at h
      unfold torchAdjOp at h
      cases ts with
      | nil => cases h
      | cons t ts =>
        change (do
          let cs ← ((t :: ts).map Tensor.cplx).mapM asRealView
          let d ← if shape.length = 2 then (do let g ← group2 cs; .ok (P.waverec2c g))
            else (do let g ← group3 cs; .ok (P.waverec3c g))
          let z ← viewAsComplex d
          .ok (Tensor.cplx z)) = _ at h
        rw [mapM_asRealView] at h
        have key : ∀ y : Py (NDArray α), (y >>= fun d => viewAsComplex d >>= fun z => .ok (Tensor.cplx z))
            ≠ .ok (.real a) := by
          intro y hy
          cases y with
          | error e => cases hy
          | ok d =>
            change (viewAsComplex d >>= fun z => .ok (Tensor.cplx z)) = _ at hy
            rcases hv : viewAsComplex d with e | z
            · rw [hv] at hy; cases hy
            · rw [hv] at hy; cases hy
        by_cases h2 : shape.length = 2
        · simp only [h2, if_true] at h
          exact key _ h
        · simp only [h2, if_false] at h
          exact key _ h

/-- Levels with genuine detail subbands are grouped as well. -/
example : (torchOp (copyPtwt ℤ) [1, 2] (.cplx ⟨[3, 1, 2], [(1, 2), (3, 4), (5, 6), (7, 8), (9, 1), (2, 3)]⟩) >>=
    torchAdjOp (copyPtwt ℤ) [1, 2]) = .ok (.cplx ⟨[3, 1, 2], [(1, 2), (3, 4), (5, 6), (7, 8), (9, 1), (2, 3)]⟩) := rfl

/-! ## C101: the configuration reaches the backend -/

/-- **The boundary mode is ignored by the NumPy backend** (the property is false): for every requested mode the
operator built works with `"symmetric"`. -/
theorem C101_mode_ignored (pt vn : Bool) (level : ℕ) (mode : String) (kw : Kwargs) (o : Cpu)
    (h : build true pt vn level mode "numpy" kw = .ok (.cpu o)) : o.mode = "symmetric" := by
  unfold build at h
  rw [if_neg (by simp), if_pos (by decide)] at h
  by_cases hu : kw.unknown = true
  · rw [if_pos hu] at h; cases h
  · rw [if_neg hu] at h
    unfold cpuInit at h
    rw [if_neg (by decide)] at h
    by_cases hv : ¬ vn = true
    · rw [if_pos hv] at h; cases h
    · rw [if_neg hv] at h
      by_cases hd : ¬ kw.decimated = true
      · rw [if_pos hd] at h; cases h
      · rw [if_neg hd] at h
        have := Built.cpu.inj (Except.ok.inj h)
        rw [← this]

/-- In particular a request for another mode is accepted and not honoured. -/
theorem C101_requested_mode_not_used (mode : String) (hm : mode ≠ "symmetric") :
    ∃ o, build true true true 4 mode "numpy" {} = .ok (.cpu o) ∧ o.mode ≠ mode := by
  refine ⟨⟨4, 1, 1, "symmetric", "threading"⟩, by rfl, fun h => hm h.symm⟩

example : ("zero" : String) ≠ "symmetric" := by decide

/-- **What does reach the backend**: level always, the mode for CuPy, the batch and job counts for NumPy; the CuPy
operator ignores every extra keyword, even unknown ones. -/
theorem C101_configuration_partial (level : ℕ) (mode : String) (kw : Kwargs) :
    (∀ pw vn, build pw true vn level mode "cupy" kw = .ok (.cupy level mode)) ∧
    (∀ pt o, build true pt true level mode "numpy" kw = .ok (.cpu o) →
      o.level = level ∧ o.nBatch = kw.nBatch ∧ o.backend = kw.backend ∧
        o.nJobs = if kw.nBatch = 1 then 1 else kw.nJobs) := by
  refine ⟨fun pw vn => by unfold build; rw [if_pos ⟨rfl, rfl⟩], fun pt o h => ?_⟩
  unfold build at h
  rw [if_neg (by simp), if_pos (by decide)] at h
  by_cases hu : kw.unknown = true
  · rw [if_pos hu] at h; cases h
  · rw [if_neg hu] at h
    unfold cpuInit at h
    rw [if_neg (by decide), if_neg (by decide)] at h
    by_cases hd : ¬ kw.decimated = true
    · rw [if_pos hd] at h; cases h
    · rw [if_neg hd] at h
      have := Built.cpu.inj (Except.ok.inj h)
      subst this
      refine ⟨rfl, rfl, rfl, ?_⟩
      simp only []
      by_cases h1 : kw.nBatch = 1
      · by_cases h2 : kw.nJobs = 1
        · simp [h1, h2]
        · simp [h1, h2]
      · simp [h1]

/-- An unavailable or unknown backend is refused with `ValueError`. -/
theorem C101_unknown_backend_rejected (pw pt vn : Bool) (level : ℕ) (mode cb : String) (kw : Kwargs)
    (h1 : ¬ (cb = "cupy" ∧ pt = true)) (h2 : ¬ (cb = "numpy" ∧ pw = true)) :
    build pw pt vn level mode cb kw = .error .valueError := by
  unfold build
  rw [if_neg h1, if_neg h2]

/-- A keyword that the CPU operator does not know is refused with `TypeError` on the NumPy backend and ignored on the CuPy
backend. -/
theorem C101_unknown_keyword (pw pt vn : Bool) (level : ℕ) (mode : String) (kw : Kwargs) (h : kw.unknown = true) :
    (pw = true → build pw pt vn level mode "numpy" kw = .error .typeError) ∧
    (pt = true → build pw pt vn level mode "cupy" kw = .ok (.cupy level mode)) := by
  constructor
  · rintro rfl
    simp [build, h]
  · rintro rfl
    simp [build]

example : build true false true 3 "periodic" "numpy" { unknown := true } = .error .typeError :=
  (C101_unknown_keyword true false true 3 "periodic" { unknown := true } rfl).1 rfl

/-! ## C102: batches on the CPU -/

/-- **Batches are not supported** (the property is false): with more than one batch, `op` and `adj_op` raise
`AttributeError` for every input and every history, because the attribute `verbose` is missing. -/
theorem C102_batches_always_raise {D : Type} (dwt : String → D → List (NDArray A)) (idwt : String → List (NDArray A) → D)
    (o : Cpu) (h : 1 < o.nBatch) (x : D) (layout : Option (List (List ℕ))) (c : List A) :
    cpuOp dwt o x = .error .attributeError ∧ cpuAdjOp idwt o layout c = .error .attributeError :=
  ⟨if_pos h, if_pos h⟩

/-- The constructor accepts such a configuration. -/
theorem C102_constructor_accepts_batches (level : ℕ) (nBatch nJobs : ℤ) (backend mode : String) (h : 1 < nBatch) :
    ∃ o, cpuInit true true level nBatch nJobs true backend mode = .ok o ∧ 1 < o.nBatch :=
  ⟨⟨level, nBatch, if nBatch = 1 ∧ nJobs ≠ 1 then 1 else nJobs, mode, backend⟩, rfl, h⟩

/-- **A single batch works**: `adj_op` after `op` is the inverse transform of the transform, so the data come back
whenever PyWavelets reconstructs perfectly. -/
theorem C102_single_batch_roundtrip_partial {D : Type} (dwt : String → D → List (NDArray A))
    (idwt : String → List (NDArray A) → D) (hwf : ∀ m x, ∀ a ∈ dwt m x, a.WF) (o : Cpu) (h : o.nBatch ≤ 1) (x : D)
    (hrec : idwt o.mode (dwt o.mode x) = x) :
    (cpuOp dwt o x >>= fun r => cpuAdjOp idwt o (some r.2) r.1) = .ok x := by
  unfold cpuOp
  rw [if_neg (by omega)]
  change cpuAdjOp idwt o (some (concat (dwt o.mode x)).2) (concat (dwt o.mode x)).1 = _
  unfold cpuAdjOp
  rw [if_neg (by omega)]
  simp only []
  rw [C71_split_concat _ (hwf _ _)]
  change Except.ok (idwt o.mode (dwt o.mode x)) = _
  rw [hrec]

/-! ## C103: `adj_op` depends on the last `op` -/

/-- The layout stored after a sequence of calls of `op`. -/
def layoutAfter {D : Type} (dwt : String → D → List (NDArray A)) (o : Cpu) :
    Option (List (List ℕ)) → List D → Option (List (List ℕ))
  | l, [] => l
  | l, x :: xs => layoutAfter dwt o (match cpuOp dwt o x with | .ok r => some r.2 | .error _ => l) xs

/-- **`adj_op` before any `op` raises.** -/
theorem C103_adjoint_needs_a_call {D : Type} (dwt : String → D → List (NDArray A)) (idwt : String → List (NDArray A) → D)
    (o : Cpu) (P : Ptwt α) (shape : List ℕ) (c : List A) (c' : List (α × α)) :
    cpuAdjOp idwt o (layoutAfter dwt o none []) c = .error .attributeError ∧
    cupyAdjOp P shape none c' = .error .typeError := by
  refine ⟨?_, rfl⟩
  unfold cpuAdjOp layoutAfter
  split_ifs <;> rfl

theorem layoutAfter_same {D : Type} (dwt : String → D → List (NDArray A)) (o : Cpu) (h : o.nBatch ≤ 1)
    (s : List (List ℕ)) (xs : List D) (hx : ∀ y ∈ xs, (dwt o.mode y).map NDArray.shape = s) :
    layoutAfter dwt o (some s) xs = some s := by
  induction xs with
  | nil => rfl
  | cons y ys ih =>
    rw [layoutAfter]
    have : cpuOp dwt o y = .ok (concat (dwt o.mode y)) := by unfold cpuOp; rw [if_neg (by omega)]
    rw [this]
    simp only [concat]
    rw [hx y (by simp)]
    exact ih fun z hz => hx z (by simp [hz])

/-- **Histories with one data layout are harmless**: the coefficients of an earlier call are inverted correctly after
any number of further calls whose subbands have the same shapes. -/
theorem C103_same_layout_histories_partial {D : Type} (dwt : String → D → List (NDArray A))
    (idwt : String → List (NDArray A) → D) (hwf : ∀ m x, ∀ a ∈ dwt m x, a.WF) (o : Cpu) (h : o.nBatch ≤ 1)
    (before : List D) (x : D) (after : List D)
    (hsame : ∀ y ∈ after, (dwt o.mode y).map NDArray.shape = (dwt o.mode x).map NDArray.shape) :
    ∃ c, cpuOp dwt o x = .ok c ∧
      cpuAdjOp idwt o (layoutAfter dwt o (layoutAfter dwt o none before) (x :: after)) c.1
        = .ok (idwt o.mode (dwt o.mode x)) := by
  have hop : cpuOp dwt o x = .ok (concat (dwt o.mode x)) := by unfold cpuOp; rw [if_neg (by omega)]
  refine ⟨_, hop, ?_⟩
  rw [layoutAfter, hop]
  simp only [concat]
  rw [layoutAfter_same dwt o h _ after hsame]
  unfold cpuAdjOp
  rw [if_neg (by omega)]
  simp only []
  have := C71_split_concat (dwt o.mode x) (hwf _ _)
  simp only [concat] at this
  rw [this]
  rfl

/-- A transform with two subbands of the size of the data: the data and their negatives. -/
def toyDwt (_ : String) (x : List ℤ) : List (NDArray ℤ) := [⟨[x.length], x⟩, ⟨[x.length], x.map fun t => -t⟩]

/-- Its inverse. -/
def toyIdwt (_ : String) (c : List (NDArray ℤ)) : List ℤ := (c.headD ⟨[0], []⟩).data

example : (∀ m x, ∀ a ∈ toyDwt m x, a.WF) ∧ ∀ m x, toyIdwt m (toyDwt m x) = x := by
  refine ⟨fun m x a ha => ?_, fun m x => rfl⟩
  simp only [toyDwt, List.mem_cons, List.not_mem_nil, or_false] at ha
  rcases ha with rfl | rfl <;> simp [NDArray.WF]

/-- **A call on data of another size changes what `adj_op` does** (the property is false): after `op` on shorter data
the coefficients of the first call are inverted to something else, silently; after `op` on longer data
`ValueError` is raised. -/
theorem C103_later_call_changes_adjoint (o : Cpu) (h : o.nBatch ≤ 1) :
    ∃ c, cpuOp toyDwt o [1, 2] = .ok c ∧
      cpuAdjOp toyIdwt o (layoutAfter toyDwt o none [[1, 2]]) c.1 = .ok [1, 2] ∧
      cpuAdjOp toyIdwt o (layoutAfter toyDwt o none [[1, 2], [7]]) c.1 = .ok [1] ∧
      cpuAdjOp toyIdwt o (layoutAfter toyDwt o none [[1, 2], [7, 8, 9]]) c.1 = .error .valueError := by
  have hop : ∀ x, cpuOp toyDwt o x = .ok (concat (toyDwt o.mode x)) := by
    intro x; unfold cpuOp; rw [if_neg (by omega)]
  have hadj : ∀ ss c, cpuAdjOp toyIdwt o (some ss) c = (split ss c >>= fun cs => .ok (toyIdwt o.mode cs)) := by
    intro ss c; unfold cpuAdjOp; rw [if_neg (by omega)]
  refine ⟨_, hop _, ?_, ?_, ?_⟩
  · simp only [layoutAfter, hop]
    rw [hadj]; rfl
  · simp only [layoutAfter, hop]
    rw [hadj]; rfl
  · simp only [layoutAfter, hop]
    rw [hadj]; rfl

end Verif
