import Verif.Model.Matrix
import Mathlib.LinearAlgebra.LinearIndependent.Lemmas
import Mathlib.Analysis.Complex.Basic
import Mathlib.LinearAlgebra.Span.Basic
import Mathlib.Data.List.OfFn
import Mathlib.Tactic.FieldSimp
import Mathlib.Tactic.LinearCombination
import Mathlib.Tactic.Module

/-!
# C60: Gram–Schmidt
-/

set_option linter.unusedSectionVars false

namespace Verif
open Mat

section
variable {ι 𝕜 : Type} [Fintype ι] [RCLike 𝕜]

theorem gramU_append (l : List (ι → 𝕜)) (v : ι → 𝕜) :
    gramU (l ++ [v]) = gramU l ++ [v - ((gramU l).map fun u => project u v).sum] := by
  simp only [gramU, List.foldl_append, List.foldl_cons, List.foldl_nil, gramStep]
  split
  · rename_i h; simp [h]
  · rfl

theorem gramU_length (l : List (ι → 𝕜)) : (gramU l).length = l.length := by
  induction l using List.reverseRecOn with
  | nil => rfl
  | append_singleton l v ih => rw [gramU_append]; simp [ih]

theorem gramU_take (l : List (ι → 𝕜)) (k : ℕ) : (gramU l).take k = gramU (l.take k) := by
  induction l using List.reverseRecOn with
  | nil => simp [gramU]
  | append_singleton l v ih =>
    by_cases h : k ≤ l.length
    · rw [gramU_append, List.take_append_of_le_length (by rw [gramU_length]; exact h),
        List.take_append_of_le_length h, ih]
    · have h1 : (l ++ [v]).length ≤ k := by simp; omega
      rw [List.take_of_length_le h1, List.take_of_length_le (by rw [gramU_length]; exact h1)]

theorem sum_project_mem (us : List (ι → 𝕜)) (v : ι → 𝕜) :
    (us.map fun u => project u v).sum ∈ Submodule.span 𝕜 {x | x ∈ us} := by
  apply list_sum_mem
  intro x hx
  obtain ⟨u, hu, rfl⟩ := List.mem_map.1 hx
  exact Submodule.smul_mem _ _ (Submodule.subset_span hu)

theorem gramU_span (l : List (ι → 𝕜)) :
    Submodule.span 𝕜 {x | x ∈ gramU l} = Submodule.span 𝕜 {x | x ∈ l} := by
  induction l using List.reverseRecOn with
  | nil => simp [gramU]
  | append_singleton l v ih =>
    rw [gramU_append]
    have hs := sum_project_mem (gramU l) v
    set p := ((gramU l).map fun u => project u v).sum
    have e1 : {x | x ∈ gramU l ++ [v - p]} = {x | x ∈ gramU l} ∪ {v - p} := by ext; simp [or_comm]
    have e2 : {x | x ∈ l ++ [v]} = {x | x ∈ l} ∪ {v} := by ext; simp [or_comm]
    rw [e1, e2, Submodule.span_union, Submodule.span_union, ih]
    rw [ih] at hs
    apply le_antisymm
    · refine sup_le le_sup_left ((Submodule.span_singleton_le_iff_mem _ _).2 ?_)
      exact Submodule.sub_mem _ (Submodule.mem_sup_right (Submodule.mem_span_singleton_self v))
        (Submodule.mem_sup_left hs)
    · refine sup_le le_sup_left ((Submodule.span_singleton_le_iff_mem _ _).2 ?_)
      have := Submodule.add_mem _ (Submodule.mem_sup_right (Submodule.mem_span_singleton_self (v - p)))
        (Submodule.mem_sup_left hs)
      simpa using this

theorem gramU_mem_ne_zero (m : ℕ) (rows : Fin m → ι → 𝕜) (h : LinearIndependent 𝕜 rows) :
    ∀ u ∈ gramU (List.ofFn rows), u ≠ 0 := by
  induction m with
  | zero => simp [gramU]
  | succ m ih =>
    have hsplit : List.ofFn rows = List.ofFn (fun i : Fin m => rows i.castSucc) ++ [rows (Fin.last m)] := by
      rw [List.ofFn_succ', List.concat_eq_append]
    have hsn : rows = Fin.snoc (fun i : Fin m => rows i.castSucc) (rows (Fin.last m)) := by
      funext i
      refine Fin.lastCases ?_ (fun j => ?_) i <;> simp
    rw [hsn, linearIndependent_finSnoc] at h
    rw [hsplit, gramU_append]
    intro u hu
    rcases List.mem_append.1 hu with hu | hu
    · exact ih _ h.1 u hu
    · rw [List.mem_singleton] at hu
      subst hu
      intro h0
      apply h.2
      have hs := sum_project_mem (gramU (List.ofFn fun i : Fin m => rows i.castSucc)) (rows (Fin.last m))
      rw [← sub_eq_zero.1 h0, gramU_span] at hs
      have : {x | x ∈ List.ofFn fun i : Fin m => rows i.castSucc} = Set.range fun i : Fin m => rows i.castSucc := by
        ext x; simp [List.mem_ofFn, Set.mem_range]
      rwa [this] at hs

end

section
variable {ι : Type} [Fintype ι]

theorem inner_comm' (u v : ι → ℝ) : Mat.inner u v = Mat.inner v u :=
  Finset.sum_congr rfl fun _ _ => mul_comm _ _
theorem inner_sub_left' (u v w : ι → ℝ) : Mat.inner (u - v) w = Mat.inner u w - Mat.inner v w := by
  simp only [Mat.inner, Pi.sub_apply, sub_mul, Finset.sum_sub_distrib]
theorem inner_smul_left' (a : ℝ) (u v : ι → ℝ) : Mat.inner (a • u) v = a * Mat.inner u v := by
  simp only [Mat.inner, Pi.smul_apply, smul_eq_mul, mul_assoc, Finset.mul_sum]
theorem inner_zero_left' (v : ι → ℝ) : Mat.inner 0 v = 0 := by simp [Mat.inner]
theorem inner_add_left' (u v w : ι → ℝ) : Mat.inner (u + v) w = Mat.inner u w + Mat.inner v w := by
  simp only [Mat.inner, Pi.add_apply, add_mul, Finset.sum_add_distrib]
theorem inner_self_eq_zero' (u : ι → ℝ) : Mat.inner u u = 0 ↔ u = 0 := by
  constructor
  · intro h
    funext i
    have := (Finset.sum_eq_zero_iff_of_nonneg (fun i _ => mul_self_nonneg (u i))).1 h i (Finset.mem_univ i)
    exact mul_self_eq_zero.1 this
  · rintro rfl; simp [Mat.inner]
theorem inner_self_nonneg' (u : ι → ℝ) : 0 ≤ Mat.inner u u := Finset.sum_nonneg fun i _ => mul_self_nonneg (u i)

theorem inner_sum_project (us : List (ι → ℝ)) (hp : us.Pairwise fun a b => Mat.inner a b = 0)
    (hnd : ∀ u ∈ us, u ≠ 0) (v w : ι → ℝ) (hw : w ∈ us) :
    Mat.inner ((us.map fun u => project u v).sum) w = Mat.inner v w := by
  induction us with
  | nil => simp at hw
  | cons u us ih =>
    rw [List.pairwise_cons] at hp
    simp only [List.map_cons, List.sum_cons, inner_add_left', project, inner_smul_left']
    by_cases hwu : w ∈ us
    · have h1 := ih hp.2 (fun x hx => hnd x (List.mem_cons_of_mem _ hx)) hwu
      simp only [project] at h1
      rw [h1, hp.1 w hwu]; simp
    · have e : w = u := by
        rcases List.mem_cons.1 hw with h | h
        · exact h
        · exact absurd h hwu
      subst e
      have hz : Mat.inner ((us.map fun u => (Mat.inner v u / Mat.inner u u) • u).sum) w = 0 := by
        have : ∀ l : List (ι → ℝ), (∀ x ∈ l, Mat.inner w x = 0) →
            Mat.inner ((l.map fun u => (Mat.inner v u / Mat.inner u u) • u).sum) w = 0 := by
          intro l
          induction l with
          | nil => intro _; simp [inner_zero_left']
          | cons y l ihl =>
            intro hl
            simp only [List.map_cons, List.sum_cons, inner_add_left', inner_smul_left']
            rw [ihl fun x hx => hl x (List.mem_cons_of_mem _ hx), inner_comm' y w, hl y (List.mem_cons_self ..)]
            simp
        exact this us hp.1
      have hne : Mat.inner w w ≠ 0 := (inner_self_eq_zero' w).not.2 (hnd w (List.mem_cons_self ..))
      rw [hz, add_zero, div_mul_cancel₀ _ hne]

theorem gramU_orth (m : ℕ) (rows : Fin m → ι → ℝ) (h : LinearIndependent ℝ rows) :
    (gramU (List.ofFn rows)).Pairwise fun a b => Mat.inner a b = 0 := by
  induction m with
  | zero => simp [gramU]
  | succ m ih =>
    have hsplit : List.ofFn rows = List.ofFn (fun i : Fin m => rows i.castSucc) ++ [rows (Fin.last m)] := by
      rw [List.ofFn_succ', List.concat_eq_append]
    have h' : LinearIndependent ℝ fun i : Fin m => rows i.castSucc :=
      h.comp _ (Fin.castSucc_injective m)
    have ihm := ih _ h'
    have hnz := gramU_mem_ne_zero m _ h'
    rw [hsplit, gramU_append]
    rw [List.pairwise_append]
    refine ⟨ihm, List.pairwise_singleton _ _, fun a ha b hb => ?_⟩
    rw [List.mem_singleton] at hb
    subst hb
    rw [inner_comm', inner_sub_left', inner_sum_project _ ihm hnz _ _ ha, sub_self]

theorem norm2_sq (u : ι → ℝ) : norm2 u ^ 2 = Mat.inner u u := by
  rw [norm2, Real.sq_sqrt (Finset.sum_nonneg fun i _ => by positivity)]
  exact Finset.sum_congr rfl fun i _ => by rw [Real.norm_eq_abs, sq_abs, sq]

/-- C60: for linearly independent real rows, `gram_schmidt(..., "both")` returns as many vectors as rows;
different vectors are orthogonal, the normalised ones have norm 1, and for every `k` the first `k` of either list
span the same space as the first `k` rows. -/
theorem C60_gram_schmidt (m : ℕ) (rows : Fin m → ι → ℝ) (h : LinearIndependent ℝ rows) :
    ∃ us es, gramSchmidt (List.ofFn rows) "both" = .ok (.both us es) ∧
      gramSchmidt (List.ofFn rows) "orthogonal" = .ok (.one us) ∧
      gramSchmidt (List.ofFn rows) "orthonormal" = .ok (.one es) ∧
      us.length = m ∧ es.length = m ∧
      (us.Pairwise fun a b => ∑ i, a i * b i = 0) ∧ (es.Pairwise fun a b => ∑ i, a i * b i = 0) ∧
      (∀ e ∈ es, ∑ i, e i ^ 2 = 1) ∧
      ∀ k, Submodule.span ℝ {x | x ∈ us.take k} = Submodule.span ℝ {x | x ∈ (List.ofFn rows).take k} ∧
        Submodule.span ℝ {x | x ∈ es.take k} = Submodule.span ℝ {x | x ∈ (List.ofFn rows).take k} := by
  have hnz := gramU_mem_ne_zero m rows h
  have horth := gramU_orth m rows h
  refine ⟨gramU (List.ofFn rows), gramE (List.ofFn rows), by simp [gramSchmidt], by simp [gramSchmidt],
    by simp [gramSchmidt], by simp [gramU_length], by simp [gramE, gramU_length], horth, ?_, ?_, fun k => ⟨?_, ?_⟩⟩
  · rw [gramE, List.pairwise_map]
    refine horth.imp fun {a b} hab => ?_
    change Mat.inner _ _ = 0
    rw [inner_smul_left', inner_comm', inner_smul_left', inner_comm', hab]
    simp
  · intro e he
    obtain ⟨u, hu, rfl⟩ := List.mem_map.1 he
    have hs : norm2 u ^ 2 = Mat.inner u u := norm2_sq u
    have hne : Mat.inner u u ≠ 0 := (inner_self_eq_zero' u).not.2 (hnz u hu)
    have h1 : ∑ i, (((norm2 u : ℝ)⁻¹) • u) i ^ 2 = (norm2 u ^ 2)⁻¹ * Mat.inner u u := by
      simp only [Pi.smul_apply, smul_eq_mul, mul_pow, ← Finset.mul_sum, inv_pow]
      congr 1
      exact Finset.sum_congr rfl fun i _ => sq _
    simp only [RCLike.ofReal_real_eq_id, id]
    rw [h1, hs, inv_mul_cancel₀ hne]
  · rw [gramU_take, gramU_span]
  · rw [gramE, ← List.map_take, gramU_take, ← gramU_span (List.take k _)]
    have hsub : ∀ u ∈ gramU (List.take k (List.ofFn rows)), u ≠ 0 := by
      intro u hu
      rw [← gramU_take] at hu
      exact hnz u (List.mem_of_mem_take hu)
    apply le_antisymm
    · rw [Submodule.span_le]
      intro x hx
      obtain ⟨u, hu, rfl⟩ := List.mem_map.1 hx
      exact Submodule.smul_mem _ _ (Submodule.subset_span hu)
    · rw [Submodule.span_le]
      intro u hu
      have hn : norm2 u ≠ 0 := by
        intro h0
        have := norm2_sq u
        rw [h0] at this
        exact hsub u hu ((inner_self_eq_zero' u).1 (by rw [← this]; simp))
      have hm : ((norm2 u : ℝ)⁻¹) • u ∈
          {x | x ∈ List.map (fun u : ι → ℝ => ((norm2 u : ℝ)⁻¹) • u) (gramU (List.take k (List.ofFn rows)))} :=
        List.mem_map.2 ⟨u, hu, rfl⟩
      have := Submodule.smul_mem _ (norm2 u) (Submodule.subset_span (R := ℝ) hm)
      rwa [smul_smul, mul_inv_cancel₀ hn, one_smul] at this

/-- C60: dependent rows are exactly the case in which some orthogonal vector is zero, so that the code divides
zero by zero. -/
theorem C60_dependent_rows (m : ℕ) (rows : Fin m → ι → ℝ) :
    LinearIndependent ℝ rows ↔ ∀ u ∈ gramU (List.ofFn rows), norm2 u ≠ 0 := by
  have n0 : ∀ u : ι → ℝ, norm2 u = 0 ↔ u = 0 := by
    intro u
    rw [← inner_self_eq_zero' u, ← norm2_sq u]
    simp
  constructor
  · intro h u hu
    exact (n0 u).not.2 (gramU_mem_ne_zero m rows h u hu)
  · induction m with
    | zero => intro _; exact linearIndependent_empty_type
    | succ m ih =>
      intro h
      have hsplit : List.ofFn rows = List.ofFn (fun i : Fin m => rows i.castSucc) ++ [rows (Fin.last m)] := by
        rw [List.ofFn_succ', List.concat_eq_append]
      have hsn : rows = Fin.snoc (fun i : Fin m => rows i.castSucc) (rows (Fin.last m)) := by
        funext i
        refine Fin.lastCases ?_ (fun j => ?_) i <;> simp
      rw [hsplit, gramU_append] at h
      have hind := ih (fun i : Fin m => rows i.castSucc) fun u hu => h u (List.mem_append_left _ hu)
      rw [hsn, linearIndependent_finSnoc]
      refine ⟨hind, fun hmem => ?_⟩
      set us := gramU (List.ofFn fun i : Fin m => rows i.castSucc) with hus
      set v := rows (Fin.last m)
      have hlast := h _ (List.mem_append_right us (List.mem_singleton_self _))
      have hr : Set.range (fun i : Fin m => rows i.castSucc) = {x | x ∈ List.ofFn fun i : Fin m => rows i.castSucc} := by
        ext x; simp [List.mem_ofFn, Set.mem_range]
      rw [hr, ← gramU_span] at hmem
      set w := v - (us.map fun u => project u v).sum with hw
      have horth := gramU_orth m _ hind
      have hnz := gramU_mem_ne_zero m _ hind
      have hwm : w ∈ Submodule.span ℝ {x | x ∈ us} := Submodule.sub_mem _ hmem (sum_project_mem us v)
      have hwo : ∀ x ∈ Submodule.span ℝ {x | x ∈ us}, Mat.inner x w = 0 := by
        intro x hx
        induction hx using Submodule.span_induction with
        | mem x hx => rw [inner_comm', hw, inner_sub_left', inner_sum_project us horth hnz v x hx, sub_self]
        | zero => exact inner_zero_left' _
        | add x y _ _ hx hy => rw [inner_add_left', hx, hy, add_zero]
        | smul a x _ hx => rw [inner_smul_left', hx, mul_zero]
      exact hlast ((n0 _).2 ((inner_self_eq_zero' _).1 (hwo w hwm)))

/-- C60: any other `return_opt` raises `ValueError`. -/
theorem C60_options (rows : List (ι → ℝ)) (opt : String) :
    gramSchmidt rows opt = .error .valueError ↔ opt ∉ ["orthonormal", "orthogonal", "both"] := by
  simp only [gramSchmidt, List.mem_cons, List.not_mem_nil, or_false, not_or]
  by_cases h : opt ≠ "orthonormal" ∧ opt ≠ "orthogonal" ∧ opt ≠ "both"
  · simp [h]
  · simp only [h, if_false]
    constructor
    · intro h'; split_ifs at h'
    · intro h'; exact h'.elim

/-- C60, refuted for complex rows: `np.inner` does not conjugate, and the linearly independent rows `(2, i)`, `(1, 0)`
give vectors that are not orthogonal. -/
theorem C60_complex_not_orthogonal :
    LinearIndependent ℂ (![![2, Complex.I], ![1, 0]] : Fin 2 → Fin 2 → ℂ) ∧
    ∃ u v, gramU (List.ofFn (![![2, Complex.I], ![1, 0]] : Fin 2 → Fin 2 → ℂ)) = [u, v] ∧
      ∑ i, (starRingEnd ℂ) (u i) * v i = -4 / 3 := by
  constructor
  · rw [linearIndependent_fin2]
    refine ⟨fun h => ?_, fun a h => ?_⟩
    · have := congrFun h 0; simp at this
    · have h1 := congrFun h 1; simp at h1
      exact Complex.I_ne_zero h1.symm
  · refine ⟨![2, Complex.I], ![-1 / 3, -2 / 3 * Complex.I], ?_, ?_⟩
    · have e0 : List.ofFn (![![2, Complex.I], ![1, 0]] : Fin 2 → Fin 2 → ℂ) = [] ++ [![2, Complex.I]] ++ [![1, 0]] := by
        simp [List.ofFn_succ]
      rw [e0, gramU_append, gramU_append]
      simp only [gramU, List.foldl_nil, List.map_nil, List.sum_nil, sub_zero, List.nil_append, List.map_cons,
        List.sum_cons, add_zero, List.singleton_append, List.cons.injEq, and_true, true_and]
      have hd : Mat.inner (![2, Complex.I] : Fin 2 → ℂ) ![2, Complex.I] = 3 := by
        simp [Mat.inner, Fin.sum_univ_two]; norm_num
      have hn : Mat.inner (![1, 0] : Fin 2 → ℂ) ![2, Complex.I] = 2 := by
        simp [Mat.inner, Fin.sum_univ_two]
      rw [project, hd, hn]
      funext i
      fin_cases i <;> simp <;> ring
    · simp [Fin.sum_univ_two]
      have hI : Complex.I * Complex.I = -1 := Complex.I_mul_I
      have h2 : (starRingEnd ℂ) 2 = 2 := Complex.conj_ofNat 2
      rw [h2]
      linear_combination (2 / 3 : ℂ) * hI

end

/-- Non-vacuity: independent rows. -/
example : LinearIndependent ℝ (![![3, 4], ![1, 0]] : Fin 2 → Fin 2 → ℝ) := by
  rw [linearIndependent_fin2]
  refine ⟨fun h => ?_, fun a h => ?_⟩
  · have := congrFun h 0; simp at this
  · have h1 := congrFun h 1; simp at h1

end Verif
