import Verif.Spec.Alias

/-!
# Heaps: reading through allocations, writes and operators
-/

set_option linter.unusedSectionVars false

namespace Verif.Spec
open Alias

variable {E : Type} [Zero E]

theorem Unchanged.len {h h' : Heap E} (U : Unchanged h h') : h.length ≤ h'.length := by
  by_contra hlt
  push Not at hlt
  have := U h'.length hlt
  rw [List.getElem?_eq_none le_rfl, List.getElem?_eq_getElem hlt] at this
  cases this

theorem Unchanged.rfl' (h : Heap E) : Unchanged h h := fun _ _ => rfl

theorem Unchanged.trans {h h' h'' : Heap E} (U : Unchanged h h') (V : Unchanged h' h'') : Unchanged h h'' :=
  fun r hr => (V r (hr.trans_le U.len)).trans (U r hr)

theorem Unchanged.lt {h h' : Heap E} (U : Unchanged h h') {r : Ref} (hr : r < h.length) : r < h'.length :=
  hr.trans_le U.len

theorem Unchanged.rd {h h' : Heap E} (U : Unchanged h h') {r : Ref} (hr : r < h.length) :
    rd h' r = rd h r := by
  simp only [Alias.rd, List.getD_eq_getElem?_getD, U r hr]

theorem unchanged_alloc (h : Heap E) (v : E) : Unchanged h (h ++ [v]) := fun r hr => by
  rw [List.getElem?_append_left hr]

theorem rd_alloc (h : Heap E) (v : E) : rd (h ++ [v]) h.length = v := by
  simp [Alias.rd, List.getD_eq_getElem?_getD]

theorem rd_of_getElem? {h : Heap E} {r : Ref} {v : E} (e : h[r]? = some v) : r < h.length ∧ rd h r = v := by
  refine ⟨?_, by simp [Alias.rd, List.getD_eq_getElem?_getD, e]⟩
  by_contra hlt
  rw [List.getElem?_eq_none (not_lt.1 hlt)] at e
  cases e

theorem getElem?_of_lt {h : Heap E} {r : Ref} (hr : r < h.length) : h[r]? = some (rd h r) := by
  simp [Alias.rd, List.getD_eq_getElem?_getD, List.getElem?_eq_getElem hr]

theorem Holds.mono {K : List (Ref × E)} {h h' : Heap E} (hK : Holds K h) (U : Unchanged h h') : Holds K h' :=
  fun p hp => (U p.1 (rd_of_getElem? (hK p hp)).1).trans (hK p hp)

theorem Holds.lt {K : List (Ref × E)} {h : Heap E} (hK : Holds K h) {r : Ref} (hr : r ∈ K.map Prod.fst) :
    r < h.length := by
  obtain ⟨p, hp, rfl⟩ := List.mem_map.1 hr
  exact (rd_of_getElem? (hK p hp)).1

/-- What one operator call gives. -/
theorem Implements.call {K : List (Ref × E)} {F : HOp E} {f : E → E} (hF : Implements K F f) {h : Heap E}
    (hK : Holds K h) {r : Ref} (hr : r < h.length) {a : Ref} {h' : Heap E} (e : F r h = (a, h')) :
    Unchanged h h' ∧ a < h'.length ∧ rd h' a = f (rd h r) ∧ Holds K h' ∧
      (a = r ∨ h.length ≤ a ∨ a ∈ K.map Prod.fst) := by
  have U := hF.keeps h r hK hr
  have V := hF.value h r hK hr
  have S := hF.source h r hK hr
  rw [e] at U V S
  exact ⟨U, (rd_of_getElem? V).1, (rd_of_getElem? V).2, hK.mono U, S⟩

theorem Implements2.call {K : List (Ref × E)} {F : HOpt E} {f : E → E → E} (hF : Implements2 K F f) {h : Heap E}
    (hK : Holds K h) {r q : Ref} (hr : r < h.length) (hq : q < h.length) {a : Ref} {h' : Heap E}
    (e : F r q h = (a, h')) :
    Unchanged h h' ∧ a < h'.length ∧ rd h' a = f (rd h r) (rd h q) ∧ Holds K h' ∧
      (a = r ∨ a = q ∨ h.length ≤ a ∨ a ∈ K.map Prod.fst) := by
  have U := hF.keeps h r q hK hr hq
  have V := hF.value h r q hK hr hq
  have S := hF.source h r q hK hr hq
  rw [e] at U V S
  exact ⟨U, (rd_of_getElem? V).1, (rd_of_getElem? V).2, hK.mono U, S⟩

/-- What one allocation gives. -/
theorem alloc_call {K : List (Ref × E)} {h : Heap E} (hK : Holds K h) (v : E) {a : Ref} {h' : Heap E}
    (e : alloc h v = (a, h')) :
    Unchanged h h' ∧ a < h'.length ∧ rd h' a = v ∧ Holds K h' ∧ a = h.length := by
  simp only [alloc, Prod.mk.injEq] at e
  obtain ⟨rfl, rfl⟩ := e
  exact ⟨unchanged_alloc h v, by simp, rd_alloc h v, hK.mono (unchanged_alloc h v), rfl⟩

theorem rd_write_self {h : Heap E} {r : Ref} (hr : r < h.length) (v : E) : rd (write h r v) r = v := by
  simp [Alias.rd, write, List.getD_eq_getElem?_getD, hr]

theorem rd_write_ne {h : Heap E} {r q : Ref} (hne : q ≠ r) (v : E) : rd (write h r v) q = rd h q := by
  simp [Alias.rd, write, List.getD_eq_getElem?_getD, List.getElem?_set_ne hne.symm]

theorem length_write (h : Heap E) (r : Ref) (v : E) : (write h r v).length = h.length := by
  simp [write]

theorem UnchangedBut.refl (W : List Ref) (h : Heap E) : UnchangedBut W h h := fun _ _ _ => rfl

theorem UnchangedBut.of {h h' : Heap E} (U : Unchanged h h') (W : List Ref) : UnchangedBut W h h' :=
  fun r hr _ => U r hr

theorem UnchangedBut.write {W : List Ref} {h h' : Heap E} (U : UnchangedBut W h h') {r : Ref} (hr : r ∈ W) (v : E) :
    UnchangedBut W h (write h' r v) := fun q hq hW => by
  have hne : q ≠ r := fun e => hW (e ▸ hr)
  rw [Alias.write, List.getElem?_set_ne hne.symm]
  exact U q hq hW

theorem UnchangedBut.then {W : List Ref} {h h' h'' : Heap E} (hl : h.length ≤ h'.length) (U : UnchangedBut W h h')
    (V : UnchangedBut W h' h'') : UnchangedBut W h h'' :=
  fun r hr hW => (V r (hr.trans_le hl) hW).trans (U r hr hW)

theorem UnchangedBut.rd {W : List Ref} {h h' : Heap E} (U : UnchangedBut W h h') {r : Ref} (hr : r < h.length)
    (hW : r ∉ W) : Alias.rd h' r = Alias.rd h r := by
  simp only [Alias.rd, List.getD_eq_getElem?_getD, U r hr hW]

/-- Writes to buffers allocated later leave the earlier heap alone. -/
theorem UnchangedBut.unchanged {W : List Ref} {h₀ h h' : Heap E} (U₀ : Unchanged h₀ h) (U : UnchangedBut W h h')
    (hW : ∀ r ∈ W, h₀.length ≤ r) : Unchanged h₀ h' := fun r hr =>
  (U r (U₀.lt hr) (fun hm => absurd (hW r hm) (not_le.2 hr))).trans (U₀ r hr)

theorem Holds.keep {K : List (Ref × E)} {h₀ h : Heap E} (hK : Holds K h₀) (U : Unchanged h₀ h) : Holds K h :=
  hK.mono U

theorem Holds.write {K : List (Ref × E)} {h : Heap E} (hK : Holds K h) {r : Ref} (hr : r ∉ K.map Prod.fst) (v : E) :
    Holds K (Alias.write h r v) := fun p hp => by
  have hne : p.1 ≠ r := fun e => hr (e ▸ List.mem_map_of_mem hp)
  rw [Alias.write, List.getElem?_set_ne hne.symm]
  exact hK p hp

theorem allocRows_spec (v : E) (n : ℕ) (h : Heap E) :
    (allocRows v n h).1 = List.range' h.length n ∧ (allocRows v n h).2 = h ++ List.replicate n v := by
  induction n generalizing h with
  | zero => simp [allocRows]
  | succ n ih =>
    have := ih (h ++ [v])
    simp only [allocRows, alloc]
    constructor
    · rw [this.1]; simp [List.range'_succ]
    · rw [this.2]; simp [List.replicate_succ]

end Verif.Spec
