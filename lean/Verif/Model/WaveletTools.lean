import Verif.Core.Str
import Verif.Model.NpAdjust
import Verif.Model.Convolve
import Mathlib.Data.List.MinMax

/-!
# Model of `src/modopt/signal/wavelet.py` (lines 1-251)

`trim_filter`, `execute`, `call_mr_transform` and `get_mr_filters`.  The outside world is explicit: a file
system maps names to contents, `mr_transform` is any program, and the random unique string is a parameter.
-/

namespace Verif.Wav
open NDArray NpAdjust

variable {K : Type} [DecidableEq K] [Zero K] [Inhabited K]

/-- `np.min` of a list of indices (empty: `ValueError`). -/
def npMin : List ℕ → Py ℕ
  | [] => .error .valueError
  | a :: l => .ok (l.foldl min a)

/-- `np.max` of a list of indices (empty: `ValueError`). -/
def npMax : List ℕ → Py ℕ
  | [] => .error .valueError
  | a :: l => .ok (l.foldl max a)

/-- `a[lo0:hi0, lo1:hi1]` for an array with at least two axes and bounds within it. -/
def block2 (a : NDArray K) (lo0 hi0 lo1 hi1 : ℕ) (rest : List ℕ) : NDArray K :=
  ofFn ((hi0 - lo0) :: (hi1 - lo1) :: rest) fun idx =>
    match idx with
    | i :: j :: r => a.get ((lo0 + i) :: (lo1 + j) :: r)
    | _ => default

/-- `trim_filter` (wavelet.py:176-196).  `np.min`/`np.max` are taken along the last axis of the array of
non-zero positions, that is, for every axis of the filter.  A filter with fewer than two axes fails when
`min_idx[1]` is read. -/
def trimFilter (f : NDArray K) : Py (NDArray K) := do
  let nz := (allIdx f.shape).filter fun idx => decide (f.get idx ≠ 0)
  match f.shape with
  | _ :: _ :: rest =>
    let min0 ← npMin (nz.map fun idx => idx.getD 0 0)
    let min1 ← npMin (nz.map fun idx => idx.getD 1 0)
    let max0 ← npMax (nz.map fun idx => idx.getD 0 0)
    let max1 ← npMax (nz.map fun idx => idx.getD 1 0)
    .ok (block2 f min0 (max0 + 1) min1 (max1 + 1) rest)
  | _ => if nz = [] then .error .valueError else .error .indexError

/-! ## Running `mr_transform` -/

/-- A file: FITS image data. -/
abbrev FileSys (K : Type) := PyStr → Option (NDArray K)

/-- The behaviour of an executable: from its argument vector and the file system to its standard output
and the new file system. -/
abbrev Program (K : Type) := List PyStr → FileSys K → PyStr × FileSys K

/-- `execute` (wavelet.py:37-66): the command line is split at whitespace.  `none` is a value that is not
a string.  Starting a command with no words fails with `IndexError` in `subprocess`. -/
def execute (run : Program K) (line : Option PyStr) (fs : FileSys K) : Py (PyStr × FileSys K) :=
  match line with
  | none => .error .typeError
  | some l =>
    match pySplit l with
    | [] => .error .indexError
    | argv => .ok (run argv fs)

/-- The `opt` argument: one string, or a list of strings. -/
inductive Opt
  | str (s : PyStr)
  | list (l : List PyStr)

/-- The list of options: a string is split at whitespace (wavelet.py:143-144). -/
def Opt.words : Opt → List PyStr
  | .str s => pySplit s
  | .list l => l

/-- Inputs of `call_mr_transform` that are not 2D arrays are `none`. -/
structure Env (K : Type) where
  /-- astropy could be imported -/
  hasAstropy : Bool
  /-- `is_executable("mr_transform")` succeeds -/
  installed : Bool
  /-- what `mr_transform` does -/
  run : Program K

/-- Removing a file (`os.remove`): `OSError` if it does not exist. -/
def rm (fs : FileSys K) (name : PyStr) : Py (FileSys K) :=
  match fs name with
  | none => .error .ioError
  | some _ => .ok fun n => if n = name then none else fs n

/-- `fits.writeto`: `OSError` if the file exists. -/
def writeFits (fs : FileSys K) (name : PyStr) (d : NDArray K) : Py (FileSys K) :=
  match fs name with
  | some _ => .error .ioError
  | none => .ok fun n => if n = name then some d else fs n

/-- The words that make the output an error message (wavelet.py:152). -/
def badWords : List PyStr := ["bad".toList, "Error".toList, "Sorry".toList]

/-- `call_mr_transform` (wavelet.py:69-173): the new file system and the outcome.  `uniq` is the unique
string.  The conversion of the result to the input dtype is not modelled. -/
def callMr (env : Env K) (data : Option (NDArray K)) (opt : Opt) (path uniq : PyStr) (removeFiles : Bool)
    (fs : FileSys K) : FileSys K × Py (NDArray K) :=
  if !env.hasAstropy then (fs, .error .importError) else
  match data with
  | none => (fs, .error .valueError)
  | some d =>
    if d.ndim ≠ 2 then (fs, .error .valueError) else
    if !env.installed then (fs, .error .ioError) else
    let name := path ++ "mr_temp_".toList ++ uniq
    let fits := name ++ ".fits".toList
    let mr := name ++ ".mr".toList
    match writeFits fs fits d with
    | .error e => (fs, .error e)
    | .ok fs1 =>
      match execute env.run (some (pyJoin (("mr_transform".toList :: opt.words) ++ [fits, mr]))) fs1 with
      | .error e => (fs1, .error e)
      | .ok (out, fs2) =>
        if badWords.any fun w => pyIn w out then
          match rm fs2 fits with
          | .error e => (fs2, .error e)
          | .ok fs3 => (fs3, .error .runtimeError)
        else
          match fs2 mr with
          | none => (fs2, .error .ioError)
          | some t =>
            if removeFiles then
              match rm fs2 fits with
              | .error e => (fs2, .error e)
              | .ok fs3 =>
                match rm fs3 mr with
                | .error e => (fs3, .error e)
                | .ok fs4 => (fs4, .ok t)
            else (fs2, .ok t)

/-! ## `get_mr_filters` -/

/-- The adjusted side length `n + n % 2 - 1` (wavelet.py:231-232). -/
def oddSide (n : ℕ) : ℤ := (n : ℤ) + (n : ℤ) % 2 - 1

variable [One K]

/-- The fake data: a single one in the middle (wavelet.py:234-236). -/
def impulse (h w : ℕ) : NDArray K :=
  ofFn [h, w] fun idx => if idx = [h / 2, w / 2] then 1 else 0

/-- `get_mr_filters` (wavelet.py:199-251); `transform` is `call_mr_transform` on the fake data with its
options.  A negative side makes `np.zeros` raise `ValueError`; a zero-sized side cannot occur. -/
def getMrFilters (transform : NDArray K → Py (NDArray K)) (shape : ℕ × ℕ) (coarse trim : Bool) :
    Py (NDArray K) :=
  if oddSide shape.1 < 0 ∨ oddSide shape.2 < 0 then .error .valueError else do
    let h := (oddSide shape.1).toNat
    let w := (oddSide shape.2).toNat
    let t ← transform (impulse h w)
    let t ← (if trim then do
        let l ← (match t.shape with
          | n :: _ => ((List.range n).map t.index0).mapM trimFilter
          | [] => .error .typeError : Py (List (NDArray K)))
        npArray l
      else .ok t : Py (NDArray K))
    if coarse then .ok t
    else match t.shape with
      | n :: s => .ok (ofFn ((n - 1) :: s) t.get)
      | [] => .error .indexError

end Verif.Wav
