import Verif.Core.Py
import Verif.Core.ND

/-!
# Model of the wavelet transform operators (`src/modopt/opt/linear/wavelet.py:63-487`)

PyWavelets and ptwt are external: their decomposition and reconstruction functions are parameters.
`pywt.ravel_coeffs` / `pywt.unravel_coeffs` and the flattening loops of the CuPy operator are modelled as
concatenation and splitting of the subbands.  Arithmetic is exact (the cast to `complex64` only adds a zero
imaginary part); devices, joblib scheduling and warnings are not modelled.
-/

namespace Verif.WT

variable {α A : Type}

/-- `range(1, stop, step)`; a non-positive `stop` is zero here. -/
def pyRange1 (stop step : ℕ) : List ℕ := (List.range ((stop - 1 + (step - 1)) / step)).map fun j => 1 + step * j

/-- `l[i]` for a non-negative index. -/
def pyGet (l : List A) (i : ℕ) : Py A :=
  match l[i]? with
  | some a => .ok a
  | none => .error .indexError

/-! ## TorchWaveletTransform -/

/-- Real or complex tensors; a complex number is the pair of its parts. -/
inductive Tensor (α : Type)
  | real (a : NDArray α)
  | cplx (a : NDArray (α × α))

/-- `torch.view_as_real`. -/
def viewAsReal (a : NDArray (α × α)) : NDArray α := ⟨a.shape ++ [2], a.data.flatMap fun z => [z.1, z.2]⟩

/-- Pairs of neighbours. -/
def pairs : List α → List (α × α)
  | a :: b :: l => (a, b) :: pairs l
  | _ => []

/-- `torch.view_as_complex`: the last axis must have length two (`RuntimeError` otherwise). -/
def viewAsComplex (a : NDArray α) : Py (NDArray (α × α)) :=
  if a.shape.getLast? = some 2 then .ok ⟨a.shape.dropLast, pairs a.data⟩ else .error .runtimeError

/-- `TorchWaveletTransform.wavedec3_keys` (wavelet.py:284). -/
def wavedec3Keys : List String := ["aad", "ada", "add", "daa", "dad", "dda", "ddd"]

/-- The external transforms for two and three axes, for real data (last axes) and for the real view of complex
data (the axes before the last). -/
structure Ptwt (α : Type) where
  wavedec2 : NDArray α → NDArray α × List (NDArray α × NDArray α × NDArray α)
  waverec2 : NDArray α × List (NDArray α × NDArray α × NDArray α) → NDArray α
  wavedec2c : NDArray α → NDArray α × List (NDArray α × NDArray α × NDArray α)
  waverec2c : NDArray α × List (NDArray α × NDArray α × NDArray α) → NDArray α
  wavedec3 : NDArray α → NDArray α × List (List (String × NDArray α))
  waverec3 : NDArray α × List (List (String × NDArray α)) → NDArray α
  wavedec3c : NDArray α → NDArray α × List (List (String × NDArray α))
  waverec3c : NDArray α × List (List (String × NDArray α)) → NDArray α

/-- `[coeffs_[0]] + [cc for c in coeffs_[1:] for cc in c]` for triples (wavelet.py:323-335). -/
def flatten2 (c : A × List (A × A × A)) : List A := c.1 :: c.2.flatMap fun t => [t.1, t.2.1, t.2.2]

/-- `[coeffs_[0]] + [cc for c in coeffs_[1:] for cc in c.values()]` (wavelet.py:347-359). -/
def flatten3 (c : A × List (List (String × A))) : List A := c.1 :: c.2.flatMap fun d => d.map (·.2)

/-- The regrouping by three of `adj_op` (wavelet.py:379-391). -/
def group2 (l : List A) : Py (A × List (A × A × A)) := do
  let a ← pyGet l 0
  let ts ← (pyRange1 (l.length - 2) 3).mapM fun i => do
    let x ← pyGet l i
    let y ← pyGet l (i + 1)
    let z ← pyGet l (i + 2)
    .ok (x, y, z)
  .ok (a, ts)

/-- The regrouping by seven of `adj_op` (wavelet.py:396-411). -/
def group3 (l : List A) : Py (A × List (List (String × A))) := do
  let a ← pyGet l 0
  let ds ← (pyRange1 (l.length - 6) 7).mapM fun i =>
    wavedec3Keys.zipIdx.mapM fun kv => do
      let x ← pyGet l (i + kv.2)
      .ok (kv.1, x)
  .ok (a, ds)

/-- The shape of a tensor. -/
def Tensor.shape : Tensor α → List ℕ
  | .real a => a.shape
  | .cplx a => a.shape

/-- `data[None, ...]`. -/
def Tensor.addAxis : Tensor α → Tensor α
  | .real a => .real ⟨1 :: a.shape, a.data⟩
  | .cplx a => .cplx ⟨1 :: a.shape, a.data⟩

/-- The batch dimension added by `op` (wavelet.py:313-314). -/
def batched (shape : List ℕ) (x : Tensor α) : Tensor α := if x.shape = shape then x.addAxis else x

/-- `TorchWaveletTransform.op` (wavelet.py:299-359) on data of which the batch dimension has been fixed. -/
def torchOpB (P : Ptwt α) (shape : List ℕ) (x : Tensor α) : Py (List (Tensor α)) :=
  if shape.length = 2 then
    match x with
    | .cplx a => (flatten2 (P.wavedec2c (viewAsReal a))).mapM fun c => do
        let z ← viewAsComplex c
        .ok (.cplx z)
    | .real a => .ok ((flatten2 (P.wavedec2 a)).map .real)
  else
    match x with
    | .cplx a => (flatten3 (P.wavedec3c (viewAsReal a))).mapM fun c => do
        let z ← viewAsComplex c
        .ok (.cplx z)
    | .real a => .ok ((flatten3 (P.wavedec3 a)).map .real)

/-- `TorchWaveletTransform.op`. -/
def torchOp (P : Ptwt α) (shape : List ℕ) (x : Tensor α) : Py (List (Tensor α)) := torchOpB P shape (batched shape x)

/-- `torch.view_as_real` of a tensor that must be complex (`RuntimeError` otherwise; mixtures of real and complex
subbands beyond the last complete group, which the code ignores, are outside the model). -/
def asRealView : Tensor α → Py (NDArray α)
  | .cplx a => .ok (viewAsReal a)
  | .real _ => .error .runtimeError

/-- A real tensor; mixtures of real and complex subbands are outside the model (`TypeError`). -/
def asReal : Tensor α → Py (NDArray α)
  | .real a => .ok a
  | .cplx _ => .error .typeError

/-- `TorchWaveletTransform.adj_op` (wavelet.py:361-412). -/
def torchAdjOp (P : Ptwt α) (shape : List ℕ) (coeffs : List (Tensor α)) : Py (Tensor α) := do
  let c0 ← pyGet coeffs 0
  match c0 with
  | .cplx _ => do
    let cs ← coeffs.mapM asRealView
    let d ← if shape.length = 2 then (do let g ← group2 cs; .ok (P.waverec2c g))
      else (do let g ← group3 cs; .ok (P.waverec3c g))
    let z ← viewAsComplex d
    .ok (.cplx z)
  | .real _ => do
    let cs ← coeffs.mapM asReal
    let d ← if shape.length = 2 then (do let g ← group2 cs; .ok (P.waverec2 g))
      else (do let g ← group3 cs; .ok (P.waverec3 g))
    .ok (.real d)

/-! ## Flattening a list of arrays into one vector -/

/-- The flat vector and the shapes: `CupyWaveletTransform.op` (wavelet.py:452-463) and `pywt.ravel_coeffs`. -/
def concat (l : List (NDArray A)) : List A × List (List ℕ) := (l.flatMap NDArray.data, l.map NDArray.shape)

/-- The inverse loop `data[start:stop].reshape(s)` (wavelet.py:480-485) and `pywt.unravel_coeffs`; a slice of the
wrong size makes `reshape` raise `ValueError`. -/
def split : List (List ℕ) → List A → Py (List (NDArray A))
  | [], _ => .ok []
  | s :: ss, l =>
    if (l.take s.prod).length ≠ s.prod then .error .valueError
    else do
      let r ← split ss (l.drop s.prod)
      .ok (⟨s, l.take s.prod⟩ :: r)

/-! ## CupyWaveletTransform -/

/-- The entries of a tensor as complex numbers: assignment into a `complex64` array. -/
def Tensor.toComplex [Zero α] : Tensor α → NDArray (α × α)
  | .cplx a => a
  | .real a => a.map fun r => (r, 0)

/-- `CupyWaveletTransform.op` (wavelet.py:435-463): the flat complex vector and the new `coeffs_shape`. -/
def cupyOp [Zero α] (P : Ptwt α) (shape : List ℕ) (x : Tensor α) : Py (List (α × α) × List (List ℕ)) := do
  let ts ← torchOp P shape x
  .ok (concat (ts.map Tensor.toComplex))

/-- `CupyWaveletTransform.adj_op` (wavelet.py:465-487); `coeffs_shape` is `None` before the first `op`. -/
def cupyAdjOp (P : Ptwt α) (shape : List ℕ) (coeffsShape : Option (List (List ℕ))) (data : List (α × α)) :
    Py (Tensor α) :=
  match coeffsShape with
  | none => .error .typeError
  | some ss => do
    let ts ← split ss data
    torchAdjOp P shape (ts.map .cplx)

/-! ## CPUWaveletTransform -/

/-- The configuration of a `CPUWaveletTransform`. -/
structure Cpu where
  level : ℕ
  nBatch : ℤ
  nJobs : ℤ
  mode : String
  backend : String
  deriving DecidableEq

/-- `CPUWaveletTransform.__init__` (wavelet.py:154-209).  The attribute `verbose` is never set. -/
def cpuInit (pywtAvailable validName : Bool) (level : ℕ) (nBatch nJobs : ℤ) (decimated : Bool) (backend mode : String) :
    Py Cpu :=
  if ¬ pywtAvailable then .error .importError
  else if ¬ validName then .error .valueError
  else if ¬ decimated then .error .notImplementedError
  else .ok ⟨level, nBatch, if nBatch = 1 ∧ nJobs ≠ 1 then 1 else nJobs, mode, backend⟩

/-- `CPUWaveletTransform.op` (wavelet.py:211-241): the coefficients and the stored layout, for the external
decomposition `dwt` (a list of subbands, given the mode).  With more than one batch the arguments of
`Parallel` are evaluated first, and `self.verbose` does not exist. -/
def cpuOp {D : Type} (dwt : String → D → List (NDArray A)) (o : Cpu) (x : D) : Py (List A × List (List ℕ)) :=
  if o.nBatch > 1 then .error .attributeError else .ok (concat (dwt o.mode x))

/-- `CPUWaveletTransform.adj_op` (wavelet.py:243-278).  The layout attributes exist only after a call of `op`. -/
def cpuAdjOp {D : Type} (idwt : String → List (NDArray A) → D) (o : Cpu) (layout : Option (List (List ℕ)))
    (coeffs : List A) : Py D :=
  if o.nBatch > 1 then .error .attributeError
  else
    match layout with
    | none => .error .attributeError
    | some ss => do
      let cs ← split ss coeffs
      .ok (idwt o.mode cs)

/-! ## WaveletTransform -/

/-- The operator built by `WaveletTransform`. -/
inductive Built
  | cupy (level : ℕ) (mode : String)
  | cpu (o : Cpu)
  deriving DecidableEq

/-- The extra keyword arguments of `WaveletTransform` with the defaults of `CPUWaveletTransform`; `unknown` says
that some other keyword was given. -/
structure Kwargs where
  nBatch : ℤ := 1
  nJobs : ℤ := 1
  decimated : Bool := true
  backend : String := "threading"
  unknown : Bool := false

/-- `WaveletTransform.__init__` (wavelet.py:87-108) with the constructors of the CuPy (wavelet.py:418-433) and the
underlying Torch operator (wavelet.py:286-297), which store their arguments.  The CPU operator is built without `mode`. -/
def build (pywtAvailable ptwtAvailable validName : Bool) (level : ℕ) (mode computeBackend : String) (kw : Kwargs) :
    Py Built :=
  if computeBackend = "cupy" ∧ ptwtAvailable then .ok (.cupy level mode)
  else if computeBackend = "numpy" ∧ pywtAvailable then
    if kw.unknown then .error .typeError
    else do
      let o ← cpuInit pywtAvailable validName level kw.nBatch kw.nJobs kw.decimated kw.backend "symmetric"
      .ok (.cpu o)
  else .error .valueError

end Verif.WT
