import Verif.Core.Py
import Mathlib.Analysis.RCLike.Basic

/-!
# Model of `cwbReweight` (`src/modopt/opt/reweight.py`)

Weights are real arrays on an index type `ι`, data real or complex, in exact arithmetic.  Thresholds are
assumed non-zero by the theorems (NumPy would produce `inf` or `nan`, this model `0`).
-/

namespace Verif.Reweight

variable {ι 𝕜 : Type} [RCLike 𝕜]

/-- How the weights were supplied: `check_float` (base/types.py:52-82) returns a float array itself, and
converts lists, tuples and integer arrays to a new array. -/
inductive Supplied
  | floatArray
  | converted
  deriving DecidableEq

/-- The mutable state: the object's attributes and the caller's own array. -/
structure St (ι : Type) where
  weights : ι → ℝ
  original : ι → ℝ
  factor : ℝ
  rwNum : ℕ
  supplied : Supplied
  caller : ι → ℝ

/-- `cwbReweight.__init__` (reweight.py:45-50). -/
def init (w : ι → ℝ) (supplied : Supplied) (factor : ℝ) : St ι :=
  ⟨w, w, factor, 1, supplied, w⟩

/-- `reweight` (reweight.py:52-96).  `none` is data of another shape.  The multiplication is in place, so it also
changes the caller's array when that is the same object.  The outcome is paired with the state because the
counter has moved on even when `ValueError` is raised. -/
noncomputable def reweight (data : Option (ι → 𝕜)) (s : St ι) : Py Unit × St ι :=
  let s := { s with rwNum := s.rwNum + 1 }
  match data with
  | none => (.error .valueError, s)
  | some x =>
    let w := fun i => s.weights i * (1 / (1 + ‖x i‖ / (s.factor * s.original i)))
    (.ok (), { s with
      weights := w
      caller := match s.supplied with
        | .floatArray => w
        | .converted => s.caller })

/-- A sequence of calls; errors are caught by the caller. -/
noncomputable def calls (l : List (Option (ι → 𝕜))) (s : St ι) : St ι :=
  l.foldl (fun s d => (reweight d s).2) s

end Verif.Reweight
