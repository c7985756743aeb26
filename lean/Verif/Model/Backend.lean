import Verif.Core.Py

/-!
# Model of `src/modopt/base/backend.py`

Modules are the three array libraries; which of the optional ones is installed is a parameter, and so
are the libraries' own conversion routines.  A value is an array of one of the libraries, a torch tensor,
or anything else; `id` stands for its identity.
-/

namespace Verif.Backend

/-- The array libraries. -/
inductive Lib
  | numpy
  | cupy
  | tensorflow
  deriving DecidableEq, Repr

/-- Which optional packages could be imported (backend.py:15-46). -/
structure Installed where
  cupy : Bool
  tensorflow : Bool
  torch : Bool

/-- `LIBRARIES[name] is not None`. -/
def Installed.has (inst : Installed) : Lib → Bool
  | .numpy => true
  | .cupy => inst.cupy
  | .tensorflow => inst.tensorflow

/-- Python values, as far as the backend distinguishes them. -/
inductive Val (D : Type)
  | arr (lib : Lib) (data : D) (id : Nat)
  | tensor (cuda : Bool) (data : D) (id : Nat)
  | other (id : Nat)
  deriving DecidableEq

/-- The keys of `LIBRARIES` (backend.py:26-30). -/
def libOf (name : String) : Option Lib :=
  if name = "cupy" then some .cupy
  else if name = "tensorflow" then some .tensorflow
  else if name = "numpy" then some .numpy
  else none

/-- The name of a library. -/
def Lib.name : Lib → String
  | .numpy => "numpy"
  | .cupy => "cupy"
  | .tensorflow => "tensorflow"

/-- `get_backend` (backend.py:49-75): the module, the name of the backend, and whether a warning was
issued. -/
def getBackend (inst : Installed) (backend : String) : Lib × String × Bool :=
  match libOf backend with
  | some l => if inst.has l then (l, backend, false) else (.numpy, "numpy", true)
  | none => (.numpy, "numpy", true)

variable {D : Type}

/-- `get_array_module` (backend.py:78-101). -/
def getArrayModule (inst : Installed) (v : Val D) : Lib :=
  match v with
  | .arr .tensorflow _ _ => if inst.tensorflow then .tensorflow else .numpy
  | .arr .cupy _ _ => if inst.cupy then .cupy else .numpy
  | _ => .numpy

/-- `change_backend` (backend.py:104-128); `mk l v` is `l.array(v)`. -/
def changeBackend (inst : Installed) (mk : Lib → Val D → Py (Val D)) (v : Val D) (backend : String) :
    Py (Val D) :=
  let xp := getArrayModule inst v
  let txp := (getBackend inst backend).1
  if xp = txp then .ok v else mk txp v

/-- `move_to_cpu` (backend.py:131-160); `get` is CuPy's and `tfNumpy` TensorFlow's transfer to the host.
`LIBRARIES[name]` is `None` when the library is missing, and a module never equals `None`. -/
def moveToCpu (inst : Installed) (get tfNumpy : Val D → Py (Val D)) (v : Val D) : Py (Val D) :=
  let xp := getArrayModule inst v
  if xp = .numpy then .ok v
  else if xp = .cupy ∧ inst.cupy = true then get v
  else if xp = .tensorflow ∧ inst.tensorflow = true then tfNumpy v
  else .error .valueError

/-- `convert_to_tensor` (backend.py:163-197); `mkTensor` is `torch.Tensor(·)` and `fromDl` the transfer
through DLPack, which only arrays with a `toDlpack` method offer. -/
def convertToTensor (inst : Installed) (mkTensor fromDl : Val D → Py (Val D)) (v : Val D) : Py (Val D) :=
  if !inst.torch then .error .importError
  else if getArrayModule inst v = .numpy then mkTensor v
  else match v with
    | .arr .cupy _ _ => fromDl v
    | _ => .error .attributeError

/-- `convert_to_cupy_array` (backend.py:200-231); `fromDl` is `cp.fromDlpack(torch_to_dlpack(·))` and
`toNumpy` is `.detach().numpy()`.  Without CuPy the name `cp` does not exist.  Only tensors have
`is_cuda`. -/
def convertToCupy (inst : Installed) (fromDl toNumpy : Val D → Py (Val D)) (v : Val D) : Py (Val D) :=
  if !inst.torch then .error .importError
  else match v with
    | .tensor true _ _ => if inst.cupy then fromDl v else .error .nameError
    | .tensor false _ _ => toNumpy v
    | _ => .error .attributeError

end Verif.Backend
