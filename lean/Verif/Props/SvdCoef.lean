import Verif.Props.SvdFast

/-!
# Thresholding of singular coefficients with an operator (C97)
-/

set_option linter.unusedSectionVars false

namespace Verif
open Matrix Noise Spec Svd

variable {M N : ℕ} {𝕜 : Type} [RCLike 𝕜]

/-- The Euclidean norm of an array given by its entries. -/
noncomputable def arrayNorm (e : List 𝕜) : ℝ := Real.sqrt ((e.map fun z => ‖z‖ ^ 2).sum)

theorem hardThresh_keep {ι : Type*} {x : ι → 𝕜} {t : ι → ℝ} {i : ι} (h : t i ≤ ‖x i‖) :
    hardThresh x t i = x i := by
  unfold hardThresh; rw [if_pos h, mul_one]

theorem hardThresh_kill {ι : Type*} {x : ι → 𝕜} {t : ι → ℝ} {i : ι} (h : ‖x i‖ < t i) :
    hardThresh x t i = 0 := by
  unfold hardThresh; rw [if_neg (not_le.2 h), mul_zero]

/-- C97: a non-callable operator, a non-matrix, a number of rows that is not a perfect square and an operator that does not
give one array per singular value are rejected, and the threshold object of the caller is left alone. -/
theorem C97_rejections (svd : Matrix (Fin M) (Fin N) 𝕜 → Dec M N 𝕜) (x : Arg M N 𝕜)
    (op : Matrix (Fin (min M N)) (Fin M) 𝕜 → List (List 𝕜)) (t : CoefThreshold M N) (ty : String)
    (A : Matrix (Fin M) (Fin N) 𝕜) :
    svdThreshCoef svd x none t ty = (.error .typeError, t) ∧
    svdThreshCoef svd .other (some op) t ty = (.error .typeError, t) ∧
    ((¬ ∃ n, n * n = M) → svdThreshCoef svd (.mat A) (some op) t ty = (.error .valueError, t)) ∧
    (0 < N → (op (svd A).uᵀ).length ≠ min M N → svdThreshCoef svd (.mat A) (some op) t ty = (.error .valueError, t)) := by
  refine ⟨rfl, rfl, fun h => ?_, fun hN h => ?_⟩
  · simp only [svdThreshCoef, calculateSvd]
    rw [if_pos fun hc => h ⟨_, hc⟩]
  · simp only [svdThreshCoef, calculateSvd]
    by_cases h1 : Nat.sqrt M * Nat.sqrt M ≠ M
    · rw [if_pos h1]
    · rw [if_neg h1, if_pos]
      rw [coefNorms, List.length_map]
      exact fun hc => h (Nat.eq_of_mul_eq_mul_right hN hc)

theorem svdThreshCoef_run (svd : Matrix (Fin M) (Fin N) 𝕜 → Dec M N 𝕜)
    (op : Matrix (Fin (min M N)) (Fin M) 𝕜 → List (List 𝕜)) (t : CoefThreshold M N) (ty : String)
    (A : Matrix (Fin M) (Fin N) 𝕜) (hM : ∃ n, n * n = M)
    (hop : (op (svd A).uᵀ).length = min M N) :
    svdThreshCoef svd (.mat A) (some op) t ty = (coefApply (svd A) (coefNorms op (svd A).u) t ty,
      t.imul fun i => (coefNorms op (svd A).u).getD i 0) := by
  obtain ⟨n, rfl⟩ := hM
  simp only [svdThreshCoef, calculateSvd]
  rw [if_neg (by rw [Nat.sqrt_eq]; simp), if_neg]
  rw [coefNorms, List.length_map, hop]; simp

theorem coefNorms_getD (op : Matrix (Fin (min M N)) (Fin M) 𝕜 → List (List 𝕜))
    (u : Matrix (Fin M) (Fin (min M N)) 𝕜) (hop : (op uᵀ).length = min M N) (i : Fin (min M N)) :
    (coefNorms op u).getD i 0 = arrayNorm ((op uᵀ)[(i : ℕ)]'(by rw [hop]; exact i.2)) := by
  unfold coefNorms
  rw [List.getD_eq_getElem _ _ (by rw [List.length_map, hop]; exact i.2), List.getElem_map]
  rfl

theorem coef_eq {svd : Matrix (Fin M) (Fin N) 𝕜 → Dec M N 𝕜} (hs : CorrectSvd svd)
    (A : Matrix (Fin M) (Fin N) 𝕜) :
    diagonal (fun i => ((svd A).s i : 𝕜)) * (svd A).v = (svd A).uᴴ * A := by
  have h := congrArg ((svd A).uᴴ * ·) (hs A).factor
  simp only [← Matrix.mul_assoc, (hs A).left, Matrix.one_mul] at h
  exact h.symm

/-- C97: with hard thresholding the result is `U Z`, where `U` holds the left singular vectors and each entry
of `Z` is the coefficient `(Uᴴ A) i j` if its modulus reaches the threshold times the norm of the image of the
`i`-th singular vector under the operator, and zero otherwise. -/
theorem C97_hard_value {svd : Matrix (Fin M) (Fin N) 𝕜 → Dec M N 𝕜} (hs : CorrectSvd svd)
    (op : Matrix (Fin (min M N)) (Fin M) 𝕜 → List (List 𝕜)) (t : CoefThreshold M N)
    (A : Matrix (Fin M) (Fin N) 𝕜) (hM : ∃ n, n * n = M)
    (hop : (op (svd A).uᵀ).length = min M N) :
    ∃ U s V Z, IsSVD A U s V ∧ (op Uᵀ).length = min M N ∧
      (svdThreshCoef svd (.mat A) (some op) t "hard").1 = .ok (U * Z) ∧
      ∀ (i : Fin (min M N)) (j : Fin N), ∀ e, (op Uᵀ)[(i : ℕ)]? = some e →
        (t.at i j * arrayNorm e ≤ ‖(Uᴴ * A) i j‖ → Z i j = (Uᴴ * A) i j) ∧
        (‖(Uᴴ * A) i j‖ < t.at i j * arrayNorm e → Z i j = 0) := by
  have ht : ∀ (x : Fin (min M N) × Fin N → 𝕜) t, thresh x t "hard" = .ok (hardThresh x t) := by
    intro x t; simp [thresh]
  refine ⟨(svd A).u, (svd A).s, (svd A).v, Matrix.of fun i j => hardThresh (fun p : Fin (min M N) × Fin N =>
    (diagonal (fun i => ((svd A).s i : 𝕜)) * (svd A).v) p.1 p.2)
    (fun p => t.at p.1 p.2 * (coefNorms op (svd A).u).getD p.1 0) (i, j), hs A, hop, ?_, ?_⟩
  · rw [svdThreshCoef_run svd op t "hard" A hM hop]
    simp only [coefApply, ht, bind, Except.bind]
  · intro i j e he
    have he' : (coefNorms op (svd A).u).getD i 0 = arrayNorm e := by
      rw [coefNorms_getD op _ hop i]
      congr 1
      rw [List.getElem?_eq_getElem (by rw [hop]; exact i.2)] at he
      exact Option.some.inj he
    rw [← coef_eq hs A, Matrix.of_apply, ← he']
    exact ⟨fun h => hardThresh_keep h, fun h => hardThresh_kill h⟩

/-- C97: `LowRankMatrix` of type `ngole` with hard thresholding, as seen by the caller: with the images as columns
of `A`, the result is the stack of images of `U Z`, where `Z` keeps the coefficients whose modulus reaches
`thresh * extra_factor` times the operator norms, and the object is unchanged. -/
theorem C97_low_rank_ngole_value {svd : Matrix (Fin M) (Fin N) 𝕜 → Dec M N 𝕜} (hs : CorrectSvd svd)
    (auto : Matrix (Fin M) (Fin (min M N)) 𝕜 → Py ℕ)
    (svds : Matrix (Fin M) (Fin N) 𝕜 → ℕ → PartialDec M N 𝕜) (fuel : ℕ)
    (op : Matrix (Fin (min M N)) (Fin M) 𝕜 → List (List 𝕜)) (o : LowRank M N 𝕜) (ho : o.lowrType = "ngole")
    (hh : o.threshType = "hard") (hoo : o.operator = some op) (x : Fin N → Fin M → 𝕜) (c : ℝ) (rank : Option ℤ)
    (hM : ∃ n, n * n = M) (hop : (op (svd (Matrix.of fun i k => x k i)).uᵀ).length = min M N) :
    ∃ (U : Matrix (Fin M) (Fin (min M N)) 𝕜) (s : Fin (min M N) → ℝ) (V : Matrix (Fin (min M N)) (Fin N) 𝕜)
      (Z : Matrix (Fin (min M N)) (Fin N) 𝕜), IsSVD (Matrix.of fun i k => x k i) U s V ∧ (op Uᵀ).length = min M N ∧
      lowRankOp svd auto svds fuel o x c rank = (some (.ok fun k i => (U * Z) i k), o) ∧
      ∀ (i : Fin (min M N)) (j : Fin N), ∀ e, (op Uᵀ)[(i : ℕ)]? = some e →
        (o.thresh * c * arrayNorm e ≤ ‖(Uᴴ * Matrix.of fun i k => x k i) i j‖ →
          Z i j = (Uᴴ * Matrix.of fun i k => x k i) i j) ∧
        (‖(Uᴴ * Matrix.of fun i k => x k i) i j‖ < o.thresh * c * arrayNorm e → Z i j = 0) := by
  obtain ⟨U, s, V, Z, h1, h2, h3, h4⟩ := C97_hard_value hs op (.scalar (o.thresh * c)) (Matrix.of fun i k => x k i) hM hop
  refine ⟨U, s, V, Z, h1, h2, ?_, h4⟩
  have h3' : (svdThreshCoef svd (.mat (toMatrix x)) (some op) (.scalar (o.thresh * c)) "hard").1 = .ok (U * Z) := h3
  simp only [lowRankOp, ho, hh, hoo, h3']
  rfl

/-- C97: with a zero threshold and hard thresholding the data come back unchanged. -/
theorem C97_zero_threshold_identity {svd : Matrix (Fin M) (Fin N) 𝕜 → Dec M N 𝕜} (hs : CorrectSvd svd)
    (op : Matrix (Fin (min M N)) (Fin M) 𝕜 → List (List 𝕜))
    (A : Matrix (Fin M) (Fin N) 𝕜) (hM : ∃ n, n * n = M)
    (hop : (op (svd A).uᵀ).length = min M N) :
    (svdThreshCoef svd (.mat A) (some op) (.scalar 0) "hard").1 = .ok A := by
  rw [svdThreshCoef_run svd op _ "hard" A hM hop]
  have hid : hardThresh (fun p : Fin (min M N) × Fin N =>
      (diagonal (fun i => ((svd A).s i : 𝕜)) * (svd A).v) p.1 p.2)
      (fun p => (CoefThreshold.scalar (M := M) (N := N) 0).at p.1 p.2 * (coefNorms op (svd A).u).getD p.1 0)
      = fun p => (diagonal (fun i => ((svd A).s i : 𝕜)) * (svd A).v) p.1 p.2 := by
    funext p
    refine hardThresh_keep (le_of_eq_of_le ?_ (norm_nonneg _))
    simp only [CoefThreshold.at, zero_mul]
  have ht : ∀ (x : Fin (min M N) × Fin N → 𝕜) t, thresh x t "hard" = .ok (hardThresh x t) := by
    intro x t; simp [thresh]
  simp only [coefApply, ht, hid, bind, Except.bind]
  congr 1
  conv_rhs => rw [(hs A).factor, Matrix.mul_assoc]
  rfl

/-- C97: a scalar threshold of the caller is unchanged by the call. -/
theorem C97_scalar_threshold_kept (svd : Matrix (Fin M) (Fin N) 𝕜 → Dec M N 𝕜) (x : Arg M N 𝕜)
    (op : Option (Matrix (Fin (min M N)) (Fin M) 𝕜 → List (List 𝕜))) (t : ℝ) (ty : String) :
    (svdThreshCoef svd x op (.scalar t) ty).2 = .scalar t := by
  cases op with
  | none => rfl
  | some op =>
    cases x with
    | other => rfl
    | mat A =>
      simp only [svdThreshCoef, calculateSvd]
      split_ifs <;> rfl

/-- C97 (refutation): an array threshold of the caller is overwritten with its product by the norms. -/
theorem C97_array_threshold_overwritten (svd : Matrix (Fin M) (Fin N) 𝕜 → Dec M N 𝕜)
    (op : Matrix (Fin (min M N)) (Fin M) 𝕜 → List (List 𝕜)) (t : Matrix (Fin (min M N)) (Fin N) ℝ) (ty : String)
    (A : Matrix (Fin M) (Fin N) 𝕜) (hM : ∃ n, n * n = M)
    (hop : (op (svd A).uᵀ).length = min M N) :
    ∃ t', (svdThreshCoef svd (.mat A) (some op) (.array t) ty).2 = .array t' ∧
      ∀ (i : Fin (min M N)) (j : Fin N), t' i j =
        t i j * arrayNorm ((op (svd A).uᵀ)[(i : ℕ)]'(by rw [hop]; exact i.2)) := by
  refine ⟨_, by rw [svdThreshCoef_run svd op _ ty A hM hop]; rfl, fun i j => ?_⟩
  exact congrArg (t i j * ·) (coefNorms_getD op _ hop i)

/-- C97 (refutation): consequently two identical consecutive calls can return different results.  Here the
data are the 1×1 matrix `[3]`, the operator doubles its input and the threshold array is `[1]`: the first call
returns the data, the second returns zero, for every correct decomposition routine. -/
theorem C97_second_call_differs {svd : Matrix (Fin 1) (Fin 1) ℝ → Dec 1 1 ℝ} (hs : CorrectSvd svd) :
    let op : Matrix (Fin (min 1 1)) (Fin 1) ℝ → List (List ℝ) := fun m =>
      List.ofFn fun i => List.ofFn fun j => 2 * m i j
    let A : Matrix (Fin 1) (Fin 1) ℝ := Matrix.of fun _ _ => 3
    let t : CoefThreshold 1 1 := .array (Matrix.of fun _ _ => 1)
    let first := svdThreshCoef svd (.mat A) (some op) t "hard"
    let second := svdThreshCoef svd (.mat A) (some op) first.2 "hard"
    first.1 = .ok A ∧ second.1 = .ok 0 := by
  intro op A t first second
  have hop : ∀ m, (op m).length = min 1 1 := fun m => by simp [op]
  have hM : ∃ n, n * n = 1 := ⟨1, rfl⟩
  -- the left singular vector has modulus one
  have hu : ∀ i : Fin (min 1 1), (svd A).u 0 i ^ 2 = 1 := by
    intro i
    have := congrFun (congrFun (hs A).left i) i
    rw [Matrix.mul_apply, Matrix.one_apply_eq] at this
    simpa [sq] using this
  have habs : ∀ i : Fin (min 1 1), |(svd A).u 0 i| = 1 := fun i => by
    rcases sq_eq_one_iff.1 (hu i) with h | h <;> rw [h] <;> norm_num
  have hnorm : ∀ i : Fin (min 1 1), (coefNorms op (svd A).u).getD i 0 = 2 := by
    intro i
    rw [coefNorms_getD op _ (hop _) i]
    have : arrayNorm ((op (svd A).uᵀ)[(i : ℕ)]'(by rw [hop]; exact i.2)) = Real.sqrt ((2 * (svd A).u 0 i) ^ 2) := by
      obtain rfl : i = (0 : Fin 1) := Subsingleton.elim (α := Fin 1) i 0
      simp [op, arrayNorm]
    rw [this, Real.sqrt_sq_eq_abs, abs_mul, habs]; norm_num
  have hcoef : ∀ p : Fin (min 1 1) × Fin 1,
      ‖(diagonal (fun i => (((svd A).s i : ℝ) : ℝ)) * (svd A).v) p.1 p.2‖ = 3 := by
    intro p
    have e := congrFun (congrFun (coef_eq hs A) p.1) p.2
    have e' : ‖((svd A).uᴴ * A) p.1 p.2‖ = 3 := by
      rw [Matrix.mul_apply]
      simp [A, habs]
    rw [← e'] 
    exact congrArg _ e
  have ht : ∀ (x : Fin (min 1 1) × Fin 1 → ℝ) t, thresh x t "hard" = .ok (hardThresh x t) := by
    intro x t; simp [thresh]
  have hfirst : first = (coefApply (svd A) (coefNorms op (svd A).u) t "hard",
      t.imul fun i => (coefNorms op (svd A).u).getD i 0) := svdThreshCoef_run svd op t "hard" A hM (hop _)
  have hsecond : second = (coefApply (svd A) (coefNorms op (svd A).u) first.2 "hard",
      first.2.imul fun i => (coefNorms op (svd A).u).getD i 0) :=
    svdThreshCoef_run svd op first.2 "hard" A hM (hop _)
  constructor
  · rw [hfirst]
    have hid : hardThresh (fun p : Fin (min 1 1) × Fin 1 =>
        (diagonal (fun i => (((svd A).s i : ℝ) : ℝ)) * (svd A).v) p.1 p.2)
        (fun p => t.at p.1 p.2 * (coefNorms op (svd A).u).getD p.1 0)
        = fun p => (diagonal (fun i => (((svd A).s i : ℝ) : ℝ)) * (svd A).v) p.1 p.2 := by
      funext p
      refine hardThresh_keep (le_of_le_of_eq ?_ (hcoef p).symm)
      rw [hnorm]
      simp [t, CoefThreshold.at]; norm_num
    simp only [coefApply, ht, bind, Except.bind]
    refine congrArg Except.ok ?_
    refine (congrArg (fun f => (svd A).u * Matrix.of fun i j => f (i, j)) hid).trans ?_
    conv_rhs => rw [(hs A).factor, Matrix.mul_assoc]
    rfl
  · rw [hsecond]
    have hid : hardThresh (fun p : Fin (min 1 1) × Fin 1 =>
        (diagonal (fun i => (((svd A).s i : ℝ) : ℝ)) * (svd A).v) p.1 p.2)
        (fun p => first.2.at p.1 p.2 * (coefNorms op (svd A).u).getD p.1 0)
        = fun _ => 0 := by
      funext p
      refine hardThresh_kill (lt_of_eq_of_lt (hcoef p) ?_)
      rw [hnorm]
      have : first.2.at p.1 p.2 = 2 := by
        rw [hfirst]
        simp only [t, CoefThreshold.imul, CoefThreshold.at, Matrix.of_apply]
        rw [hnorm]; norm_num
      rw [this]; norm_num
    simp only [coefApply, ht, bind, Except.bind]
    refine congrArg Except.ok ?_
    refine (congrArg (fun f => (svd A).u * Matrix.of fun i j => f (i, j)) hid).trans ?_
    ext i j
    rw [Matrix.mul_apply]
    simp

/-- An operator that returns each image unchanged meets the length hypothesis, for four-pixel images. -/
example (svd : Matrix (Fin 4) (Fin 3) ℝ → Dec 4 3 ℝ) (A : Matrix (Fin 4) (Fin 3) ℝ) :
    (∃ n, n * n = 4) ∧
    ((fun m : Matrix (Fin (min 4 3)) (Fin 4) ℝ => List.ofFn fun i => List.ofFn fun j => m i j)
      (svd A).uᵀ).length = min 4 3 := ⟨⟨2, rfl⟩, by simp⟩

end Verif
