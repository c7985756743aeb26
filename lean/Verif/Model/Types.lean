import Verif.Core.Py
import Mathlib.Data.Rat.Floor
import Mathlib.Algebra.Order.Floor.Ring

/-!
# Model of `src/modopt/base/types.py` and of the construction of `GradParent`

Arrays live in a heap so that object identity and the shared write flag are visible.  Numbers are
rationals (binary64 values are rationals; rounding of conversions is not modelled).
-/

namespace Verif.Types

/-- Kinds of NumPy element types: sub-types of `np.floating`, of `np.integer`, and others. -/
inductive DType
  | floating | integer | complex | other
  deriving DecidableEq, Repr

/-- A NumPy array object. -/
structure Arr where
  dtype : DType
  data : List ℚ
  writeable : Bool
  deriving DecidableEq, Repr

/-- All array objects; an array is referred to by its position. -/
abbrev Heap := List Arr

/-- Python values, as far as the type checks tell them apart.  `seq` is a list or tuple of numbers,
`badSeq` one that NumPy cannot convert; NumPy integer scalars, strings, ... are `other`. -/
inductive Val
  | int (n : ℤ)
  | float (q : ℚ)
  | seq (l : List ℚ)
  | badSeq
  | arr (ref : ℕ)
  | other
  deriving DecidableEq, Repr

/-- Truncation towards zero: `int(q)` and `astype(int)`. -/
def trunc (q : ℚ) : ℤ := if 0 ≤ q then ⌊q⌋ else ⌈q⌉

/-- Allocation of a new array. -/
def alloc (h : Heap) (a : Arr) : Heap × Val := (h ++ [a], .arr h.length)

/-- `check_callable` (types.py:13-32). -/
def checkCallable {A : Type} (callable : Bool) (obj : A) : Py A :=
  if !callable then .error .typeError else .ok obj

/-- `check_float` (types.py:35-82). -/
def checkFloat (h : Heap) : Val → Py (Heap × Val)
  | .other => .error .typeError
  | .int n => .ok (h, .float n)
  | .float q => .ok (h, .float q)
  | .seq l => .ok (alloc h ⟨.floating, l, true⟩)
  | .badSeq => .error .valueError
  | .arr r =>
    match h[r]? with
    | none => .error .typeError
    | some a => if a.dtype ≠ .floating then .ok (alloc h ⟨.floating, a.data, true⟩) else .ok (h, .arr r)

/-- `check_int` (types.py:85-131). -/
def checkInt (h : Heap) : Val → Py (Heap × Val)
  | .other => .error .typeError
  | .float q => .ok (h, .int (trunc q))
  | .int n => .ok (h, .int n)
  | .seq l => .ok (alloc h ⟨.integer, l.map fun q => (trunc q : ℚ), true⟩)
  | .badSeq => .error .valueError
  | .arr r =>
    match h[r]? with
    | none => .error .typeError
    | some a =>
      if a.dtype ≠ .integer then .ok (alloc h ⟨.integer, a.data.map fun q => (trunc q : ℚ), true⟩)
      else .ok (h, .arr r)

/-- `check_npndarray` (types.py:134-173).  A wrong element type ends in `raise (TypeError(...),)`, a
tuple, which Python itself turns into a `TypeError`.  The write flag of the object itself is set. -/
def checkNpndarray (h : Heap) (v : Val) (dtype : Option DType) (writeable : Bool) : Py Heap :=
  match v with
  | .arr r =>
    match h[r]? with
    | none => .error .typeError
    | some a =>
      if dtype ≠ none ∧ dtype ≠ some a.dtype then .error .typeError
      else .ok (h.set r { a with writeable := writeable })
  | _ => .error .typeError

/-- The `obs_data` setter of `GradParent` (gradient.py:98-109), called by `GradParent.__init__`
(gradient.py:61-82) with the default options: `float`/`np.floating` data types first convert. -/
def setObsData (h : Heap) (v : Val) (dataType : Option DType) (writeable : Bool) : Py (Heap × Val) := do
  let (h, v) ← (if dataType = some .floating then checkFloat h v else .ok (h, v) : Py (Heap × Val))
  let h ← checkNpndarray h v dataType writeable
  .ok (h, v)

/-- A later element assignment through a reference: NumPy raises `ValueError` on a read-only array. -/
def writeElem (h : Heap) (r i : ℕ) (q : ℚ) : Py Heap :=
  match h[r]? with
  | none => .error .typeError
  | some a => if a.writeable then .ok (h.set r { a with data := a.data.set i q }) else .error .valueError

end Verif.Types
