import Verif.Model.Stats
import Mathlib.Analysis.Normed.Group.Basic

/-!
# Model of `src/modopt/math/metrics.py`

Images are functions on a finite index type `ι` (all pixels).  An image whose entries are all NaN is
`none`: the only way NaN enters is the division `0 / 0` of a constant image, which makes every pixel
NaN, and every later operation keeps it that way.  Test and reference images have the same shape
(broadcasting is not modelled); arithmetic is exact.
-/

open scoped BigOperators

namespace Verif.Metrics

variable {ι : Type} [Fintype ι]

/-- An image, or an image that is NaN everywhere. -/
abbrev Img (ι : Type) (𝕜 : Type) := Option (ι → 𝕜)

/-- The `mask` argument: absent, an array, or anything else. -/
inductive Mask (ι : Type)
  | absent
  | arr (m : ι → ℝ)
  | other

/-- `min_max_normalize` (metrics.py:21-40): an empty image raises, a constant image is `0 / 0`. -/
noncomputable def minMaxNormalize (img : Img ι ℝ) : Py (Img ι ℝ) :=
  match img with
  | none => if Fintype.card ι = 0 then .error .valueError else .ok none
  | some x => do
    let lo ← Stats.arrMin x
    let hi ← Stats.arrMax x
    .ok (if hi - lo = 0 then none else some fun i => (x i - lo) / (hi - lo))

/-- `np.abs(np.copy(img)).astype("float64")` (metrics.py:70-71). -/
noncomputable def magnitude {𝕜 : Type} [Norm 𝕜] (img : Img ι 𝕜) : Img ι ℝ :=
  img.map fun x i => ‖x i‖

/-- `_preprocess_input` (metrics.py:43-84). -/
noncomputable def preprocess {𝕜 : Type} [Norm 𝕜] (test ref : Img ι 𝕜) (mask : Mask ι) :
    Py (Img ι ℝ × Img ι ℝ × Option (ι → ℝ)) := do
  let test ← minMaxNormalize (magnitude test)
  let ref ← minMaxNormalize (magnitude ref)
  match mask with
  | .other => .error .valueError
  | .absent => .ok (test, ref, none)
  | .arr m => .ok (test, ref, some m)

/-- `mask * img`, or `img` without a mask. -/
def applyMask (m : Option (ι → ℝ)) (img : Img ι ℝ) : Img ι ℝ :=
  match m with
  | none => img
  | some m => img.map fun x i => m i * x i

/-- `np.mean(np.square(img))`. -/
noncomputable def meanSquare (img : Img ι ℝ) : Ext ℝ :=
  match img with
  | none => .nan
  | some x => Stats.mean fun i => x i ^ 2

/-- `a - b` of two images. -/
def imgSub (a b : Img ι ℝ) : Img ι ℝ :=
  match a, b with
  | some x, some y => some fun i => x i - y i
  | _, _ => none

/-- `np.max(np.abs(img))`. -/
noncomputable def maxAbs (img : Img ι ℝ) : Py (Ext ℝ) :=
  match img with
  | none => .ok .nan
  | some x => do
    let v ← Stats.arrMax fun i => |x i|
    .ok (.fin v)

/-- `mse` (metrics.py:204-237). -/
noncomputable def mse {𝕜 : Type} [Norm 𝕜] (test ref : Img ι 𝕜) (mask : Mask ι) : Py (Ext ℝ) := do
  let (test, ref, m) ← preprocess test ref mask
  .ok (meanSquare (imgSub (applyMask m test) (applyMask m ref)))

/-- `snr` (metrics.py:133-165): only the test image is masked, and `mse` normalises again. -/
noncomputable def snr {𝕜 : Type} [Norm 𝕜] (test ref : Img ι 𝕜) (mask : Mask ι) : Py (Ext ℝ) := do
  let (test, ref, m) ← preprocess test ref mask
  let test := applyMask m test
  let deno ← mse test ref .absent
  .ok (Ext.scalePos 10 (Ext.log10 (Ext.div (meanSquare test) deno)))

/-- `psnr` (metrics.py:168-201): `mse` normalises the masked images again. -/
noncomputable def psnr {𝕜 : Type} [Norm 𝕜] (test ref : Img ι 𝕜) (mask : Mask ι) : Py (Ext ℝ) := do
  let (test, ref, m) ← preprocess test ref mask
  let test := applyMask m test
  let ref := applyMask m ref
  let num ← maxAbs test
  let deno ← mse test ref .absent
  .ok (Ext.scalePos 10 (Ext.log10 (Ext.div num deno)))

/-- `nrmse` (metrics.py:240-271). -/
noncomputable def nrmse {𝕜 : Type} [Norm 𝕜] (test ref : Img ι 𝕜) (mask : Mask ι) : Py (Ext ℝ) := do
  let (test, ref, m) ← preprocess test ref mask
  let test := applyMask m test
  let ref := applyMask m ref
  let num ← mse test ref .absent
  .ok (Ext.div (Ext.sqrt num) (Ext.sqrt (meanSquare test)))

/-- `ssim` (metrics.py:87-130) with scikit-image's `structural_similarity` as a parameter returning the
mean value and the map; its results on NaN images are left to that parameter.  The missing
scikit-image package (ImportError) is not modelled. -/
noncomputable def ssim {𝕜 : Type} [Norm 𝕜]
    (compareSsim : Img ι ℝ → Img ι ℝ → Ext ℝ × Img ι ℝ)
    (test ref : Img ι 𝕜) (mask : Mask ι) : Py (Ext ℝ) := do
  let (test, ref, m) ← preprocess test ref mask
  let (assim, map) := compareSsim test ref
  match m with
  | none => .ok assim
  | some m =>
    match map with
    | none => .ok .nan
    | some v => .ok (Ext.div (.fin (∑ i, m i * v i)) (.fin (∑ i, m i)))

end Verif.Metrics
