import Verif.Props.Owl
import Verif.Props.KSupport
import Verif.Props.LowRank

/-!
# C140 for the operators built on sorting and on singular values: OWL, k-support norm, low rank
-/

namespace Verif
open Spec

/-- A proximity operator of a function that does not depend on the order of the entries. -/
theorem prox_reorder {ι : Type} [Fintype ι] {V : Type} [NormedAddCommGroup V] (g : (ι → V) → ℝ) (e : Equiv.Perm ι)
    (hg : ∀ u, g (u ∘ e) = g u) {x p : ι → V} (h : IsUniqueProx g x p) : IsUniqueProx g (x ∘ e) (p ∘ e) := by
  have hd : ∀ a b : ι → V, halfSqDist (a ∘ e) (b ∘ e) = halfSqDist a b := by
    intro a b
    unfold halfSqDist
    congr 1
    exact Equiv.sum_comp e fun i => ‖a i - b i‖ ^ 2
  have key : ∀ u, halfSqDist (x ∘ e) u + g u = halfSqDist x (u ∘ e.symm) + g (u ∘ e.symm) := by
    intro u
    have : u = (u ∘ e.symm) ∘ e := by
      funext i
      simp
    conv_lhs => rw [this, hd, hg]
  refine ⟨fun u => ?_, fun q hq => ?_⟩
  · rw [hd, hg, key]
    exact h.1 _
  · have : q ∘ e.symm = p := h.2 _ fun u => by
      have := hq (u ∘ e)
      rw [key] at this
      rwa [hd, hg] at this
    rw [← this]
    funext i
    simp

section Ksup
open KSupport
variable {d : ℕ} {𝕜 : Type} [RCLike 𝕜]

/-- C140 for `KSupportNorm.op`: reordering the data reorders the result, for every object, data and factor; failures and
the effect on the object are the same. -/
theorem C140_ksupport (o : KSupport.Obj) (x : Fin d → 𝕜) (c : ℝ) (e : Equiv.Perm (Fin d)) :
    (KSupport.op o (x ∘ e) c).1 = (KSupport.op o x c).1.map (fun p => p ∘ e) ∧
      (KSupport.op o (x ∘ e) c).2 = (KSupport.op o x c).2 := by
  classical
  have him : ∀ f : Fin d → ℝ, Finset.univ.image (fun i => f (e i)) = Finset.univ.image f := by
    intro f
    ext v
    simp only [Finset.mem_image, Finset.mem_univ, true_and]
    exact ⟨fun ⟨i, h⟩ => ⟨e i, h⟩, fun ⟨i, h⟩ => ⟨e.symm i, by simpa using h⟩⟩
  have ha : ∀ r b : ℝ, alphas r b (x ∘ e) = alphas r b x := by
    intro r b
    unfold alphas
    rw [← him fun i => b / (‖x i‖ + r), ← him fun i => (b + 1) / (‖x i‖ + r)]
    rfl
  have hs : ∀ b a : ℝ, sumTheta b a (x ∘ e) = sumTheta b a x := fun b a =>
    Equiv.sum_comp e fun i => theta b (.fin a) ‖x i‖
  have hf : ∀ r b k, findAlpha r b k (x ∘ e) = findAlpha r b k x := by
    intro r b k
    unfold findAlpha
    rw [ha]
    simp only [hs]
  refine ⟨?_, rfl⟩
  unfold KSupport.op opReg
  simp only [hf]
  cases findAlpha eps (o.beta * c) (if o.k > d then { o with k := d } else o : KSupport.Obj).k x <;> rfl

/-- C140 for `KSupportNorm.cost`: the order of the data is irrelevant. -/
theorem C140_ksupport_cost (o : KSupport.Obj) (x : Fin d → 𝕜) (e : Equiv.Perm (Fin d)) :
    KSupport.cost o (x ∘ e) = KSupport.cost o x := by
  have h : sortedAbs (x ∘ e) = sortedAbs x := by
    funext i
    unfold sortedAbs
    split
    · next hi =>
      have h1 := Tuple.monotone_sort fun j => ‖(x ∘ e) j‖
      have h2 : Monotone ((fun j => ‖x j‖) ∘ ((Tuple.sort fun j => ‖(x ∘ e) j‖).trans e : Equiv.Perm (Fin d))) := h1
      have h3 := Tuple.unique_monotone h2 (Tuple.monotone_sort fun j => ‖x j‖)
      exact congrFun h3 (Fin.rev ⟨i, hi⟩)
    · rfl
  unfold KSupport.cost
  rw [h]

end Ksup

section OwlSec
variable {n : ℕ} {𝕜 : Type} [RCLike 𝕜]

/-- C140 for `OrderedWeightedL1Norm`: the weights belong to ranks, not to positions, so reordering the data reorders the
result and leaves the cost as it was, whatever order the two calls of `argsort` give to ties. -/
theorem C140_owl {argsort : (Fin n → ℝ) → Equiv.Perm (Fin n)} (ha : CorrectArgsort argsort)
    {iso : (Fin n → ℝ) → Fin n → ℝ} (hiso : ∀ y, IsMonotoneFit y (iso y)) (w : List ℝ)
    (hdec : w.Pairwise (· ≥ ·)) (hnn : ∀ a ∈ w, 0 ≤ a) (x : Fin n → 𝕜) (c : ℝ) (hc : 0 ≤ c) (e : Equiv.Perm (Fin n)) :
    Owl.op argsort iso w (x ∘ e) c = (Owl.op argsort iso w x c).map (fun p => p ∘ e) ∧
      Owl.cost w (x ∘ e) = Owl.cost w x := by
  by_cases hl : w.length = n
  · have hinv : ∀ u : Fin n → 𝕜, owl (weightVec n w) (u ∘ e) = owl (weightVec n w) u := by
      intro u
      unfold owl
      have h := decreasing_eq (fun j => ‖u j‖) ((revPerm (Tuple.sort fun j => ‖(u ∘ e) j‖)).trans e)
        (decreasing_antitone fun j => ‖(u ∘ e) j‖)
      rw [h]
      rfl
    obtain ⟨p, h1, h2⟩ := C32_op_is_prox_of_owl_norm ha hiso w hl hdec hnn x c hc
    obtain ⟨q, h3, h4⟩ := C32_op_is_prox_of_owl_norm ha hiso w hl hdec hnn (x ∘ e) c hc
    have h5 := prox_reorder (fun u => c * owl (weightVec n w) u) e (fun u => by rw [hinv]) h2
    constructor
    · rw [h1, h3, h5.2 q h4.1]
      rfl
    · have h6 := Tuple.monotone_sort fun j => ‖(x ∘ e) j‖
      rw [C32_cost_value w hl (x ∘ e) _ h6, C32_cost_value w hl x ((Tuple.sort fun j => ‖(x ∘ e) j‖).trans e) h6]
      rfl
  · obtain ⟨h1, h2⟩ := C32_length_mismatch_rejected argsort iso w x c hl
    obtain ⟨h3, h4⟩ := C32_length_mismatch_rejected argsort iso w (x ∘ e) c hl
    rw [h1, h2, h3, h4]
    exact ⟨rfl, rfl⟩

end OwlSec

section LowRankSec
open Matrix Noise Svd
variable {M N : ℕ} {𝕜 : Type} [RCLike 𝕜]

/-- The nuclear norm does not depend on the order of rows and columns. -/
theorem nuclearNorm_reorder (A : Matrix (Fin M) (Fin N) 𝕜) (r : Equiv.Perm (Fin M)) (s : Equiv.Perm (Fin N)) :
    Spec.nuclearNorm (A.submatrix r s) = Spec.nuclearNorm A := by
  have hc : ∀ (G : Matrix (Fin M) (Fin N) 𝕜) (r : Equiv.Perm (Fin M)) (s : Equiv.Perm (Fin N)), IsContraction G →
      IsContraction (G.submatrix r s) := by
    intro G r s h x y
    have h1 := h (x ∘ r.symm) (y ∘ s.symm)
    have e1 : ∑ i, ∑ j, star ((x ∘ r.symm) i) * G i j * (y ∘ s.symm) j =
        ∑ i, ∑ j, star (x i) * (G.submatrix r s) i j * y j := by
      rw [← Equiv.sum_comp r]
      refine Finset.sum_congr rfl fun i _ => ?_
      rw [← Equiv.sum_comp s]
      simp
    have e2 : ∑ i, ‖(x ∘ r.symm) i‖ ^ 2 = ∑ i, ‖x i‖ ^ 2 := Equiv.sum_comp r.symm fun i => ‖x i‖ ^ 2
    have e3 : ∑ i, ‖(y ∘ s.symm) i‖ ^ 2 = ∑ i, ‖y i‖ ^ 2 := Equiv.sum_comp s.symm fun i => ‖y i‖ ^ 2
    rwa [e1, e2, e3] at h1
  have hf : ∀ (G B : Matrix (Fin M) (Fin N) 𝕜) (r : Equiv.Perm (Fin M)) (s : Equiv.Perm (Fin N)),
      frobInner (G.submatrix r s) (B.submatrix r s) = frobInner G B := by
    intro G B r s
    unfold frobInner
    simp only [Matrix.submatrix_apply]
    rw [Equiv.sum_comp r fun i => ∑ j, RCLike.re (star (G i (s j)) * B i (s j))]
    exact Finset.sum_congr rfl fun i _ => Equiv.sum_comp s fun j => RCLike.re (star (G i j) * B i j)
  unfold Spec.nuclearNorm
  congr 1
  ext c
  constructor
  · rintro ⟨G, hG, rfl⟩
    refine ⟨G.submatrix r.symm s.symm, hc G _ _ hG, ?_⟩
    rw [← hf _ A r s]
    simp
  · rintro ⟨G, hG, rfl⟩
    exact ⟨G.submatrix r s, hc G r s hG, (hf G A r s).symm⟩

/-- C140 for `LowRankMatrix` (standard, soft, no rank estimate): reordering the images of the stack and the pixels of the
images reorders the result, up to the rounding inside the soft thresholding of the singular values, and leaves the cost
exactly as it was; the three singular value decompositions may differ. -/
theorem C140_low_rank {svd svd' : Matrix (Fin M) (Fin N) 𝕜 → Dec M N 𝕜} (hs : CorrectSvd svd) (hs' : CorrectSvd svd')
    (auto : Matrix (Fin M) (Fin (min M N)) 𝕜 → Py ℕ) (svds : Matrix (Fin M) (Fin N) 𝕜 → ℕ → PartialDec M N 𝕜) (fuel : ℕ)
    (o : LowRank M N 𝕜) (ho : o.lowrType = "standard") (hr : o.rank = none) (ht : o.threshType = "soft")
    (hthr : 0 ≤ o.thresh) (c : ℝ) (hc : 0 ≤ c) (x : Fin N → Fin M → 𝕜) (r : Equiv.Perm (Fin M))
    (s : Equiv.Perm (Fin N)) :
    (∃ y y' : Fin N → Fin M → 𝕜,
      lowRankOp svd auto svds fuel o x c none = (some (.ok y), o) ∧
      lowRankOp svd auto svds fuel o (fun k i => x (s k) (r i)) c none = (some (.ok y'), o) ∧
      ∑ k, ∑ i, ‖y' k i - y (s k) (r i)‖ ^ 2 ≤ 4 * ((min M N : ℕ) * (2⁻¹ ^ 52 + 1 / 10 ^ 15) ^ 2)) ∧
    lowRankCost svd' o (fun k i => x (s k) (r i)) = lowRankCost svd' o x := by
  have hcost : ∀ x : Fin N → Fin M → 𝕜, lowRankCost svd' o (fun k i => x (s k) (r i)) = lowRankCost svd' o x := by
    intro x
    rw [C94_cost_is_weighted_nuclear_norm hs', C94_cost_is_weighted_nuclear_norm hs',
      ← nuclearNorm_reorder (Matrix.of fun i k => x k i) r s]
    rfl
  refine ⟨?_, hcost x⟩
  obtain ⟨y, p, h1, h2, h3⟩ := C94_low_rank_op_is_prox_of_its_cost hs hs' auto svds fuel o ho hr ht hthr c hc x
  obtain ⟨y', p', h1', h2', h3'⟩ := C94_low_rank_op_is_prox_of_its_cost hs hs' auto svds fuel o ho hr ht hthr c hc
    (fun k i => x (s k) (r i))
  refine ⟨y, y', h1, h1', ?_⟩
  have h4 := prox_reorder (fun u : Fin N × Fin M → 𝕜 => c * lowRankCost svd' o fun k i => u (k, i)) (Equiv.prodCongr s r)
    (fun u => by
      show c * lowRankCost svd' o (fun k i => u (s k, r i)) = _
      rw [hcost fun k i => u (k, i)]) h2
  have h5 : ∀ k i, p' k i = p (s k) (r i) := fun k i => congrFun (h4.2 _ h2'.1) (k, i)
  have h6 : ∑ k, ∑ i, ‖y (s k) (r i) - p (s k) (r i)‖ ^ 2 = ∑ k, ∑ i, ‖y k i - p k i‖ ^ 2 := by
    rw [Equiv.sum_comp s fun k => ∑ i, ‖y k (r i) - p k (r i)‖ ^ 2]
    exact Finset.sum_congr rfl fun k _ => Equiv.sum_comp r fun i => ‖y k i - p k i‖ ^ 2
  have h7 : ∑ k, ∑ i, ‖y' k i - y (s k) (r i)‖ ^ 2 ≤
      2 * (∑ k, ∑ i, ‖y' k i - p' k i‖ ^ 2) + 2 * ∑ k, ∑ i, ‖y (s k) (r i) - p (s k) (r i)‖ ^ 2 := by
    simp only [Finset.mul_sum]
    rw [← Finset.sum_add_distrib]
    refine Finset.sum_le_sum fun k _ => ?_
    rw [← Finset.sum_add_distrib]
    refine Finset.sum_le_sum fun i _ => ?_
    have e : y' k i - y (s k) (r i) = (y' k i - p' k i) - (y (s k) (r i) - p (s k) (r i)) := by rw [h5]; ring
    have h8 : ‖y' k i - y (s k) (r i)‖ ≤ ‖y' k i - p' k i‖ + ‖y (s k) (r i) - p (s k) (r i)‖ := by
      rw [e]
      exact norm_sub_le _ _
    nlinarith [norm_nonneg (y' k i - y (s k) (r i)), sq_nonneg (‖y' k i - p' k i‖ - ‖y (s k) (r i) - p (s k) (r i)‖)]
  rw [h6] at h7
  linarith

end LowRankSec

/-- The hypotheses are met: weights 3, 2, 1, the argsort and isotonic regression that exist, swapped data. -/
example : ∃ (argsort : (Fin 3 → ℝ) → Equiv.Perm (Fin 3)) (iso : (Fin 3 → ℝ) → Fin 3 → ℝ), CorrectArgsort argsort ∧
    Owl.op argsort iso [3, 2, 1] (![5, -7, 1] ∘ Equiv.swap 0 1) 1 =
      (Owl.op argsort iso [3, 2, 1] ![5, -7, (1 : ℝ)] 1).map (fun p => p ∘ Equiv.swap 0 1) := by
  obtain ⟨iso, hiso⟩ : ∃ iso : (Fin 3 → ℝ) → Fin 3 → ℝ, ∀ y, IsMonotoneFit y (iso y) := exists_monotoneFit 3
  exact ⟨Tuple.sort, iso, Tuple.monotone_sort, (C140_owl Tuple.monotone_sort hiso _ (by simp; norm_num) (by simp)
    _ 1 zero_le_one _).1⟩

/-- A stack of four images of nine pixels: the hypotheses of the low-rank theorem hold for the default object. -/
example : ∃ (svd : Matrix (Fin 9) (Fin 4) ℝ → Svd.Dec 9 4 ℝ) (o : Svd.LowRank 9 4 ℝ), CorrectSvd svd ∧
    o.lowrType = "standard" ∧ o.rank = none ∧ o.threshType = "soft" ∧ 0 ≤ o.thresh := by
  obtain ⟨svd, h⟩ := exists_correctSvd 9 4 ℝ
  exact ⟨svd, ⟨10, "soft", "standard", none, none⟩, h, rfl, rfl, rfl, by norm_num⟩

end Verif
