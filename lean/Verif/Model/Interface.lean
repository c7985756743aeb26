import Verif.Core.Py
import Verif.Core.Str

/-!
# Model of `src/modopt/interface/errors.py`

The file system is a pair of predicates on path strings and the environment variable `PATH` may be
missing.  `os.path` is `posixpath`.
-/

namespace Verif.Interface

/-- The parts of the operating system that are consulted. -/
structure Os where
  /-- `os.path.isfile` -/
  isFile : PyStr → Bool
  /-- `os.access(·, os.X_OK)` -/
  canExec : PyStr → Bool
  /-- `os.environ["PATH"]`, if set -/
  path : Option PyStr

/-- `posixpath.split`: cut after the last slash; trailing slashes of the head are dropped unless it is
all slashes. -/
def pathSplit (p : PyStr) : PyStr × PyStr :=
  let tail := (p.reverse.takeWhile (· != '/')).reverse
  let head := p.take (p.length - tail.length)
  let head := if head != [] && head != List.replicate head.length '/' then
      (head.reverse.dropWhile (· == '/')).reverse else head
  (head, tail)

/-- `posixpath.join(a, b)`. -/
def pathJoin (a b : PyStr) : PyStr :=
  if b.head? = some '/' then b
  else if a = [] ∨ a.getLast? = some '/' then a ++ b
  else a ++ '/' :: b

/-- `s.split(sep)` for a one-character separator; `cur` is the field being read. -/
def splitOnGo (sep : Char) : PyStr → PyStr → List PyStr
  | [], cur => [cur]
  | c :: cs, cur => if c = sep then cur :: splitOnGo sep cs [] else splitOnGo sep cs (cur ++ [c])

/-- `is_exe` (errors.py:99-115). -/
def isExe (os : Os) (p : PyStr) : Bool := os.isFile p && os.canExec p

/-- `is_executable` (errors.py:118-152); `none` is an argument that is not a string. -/
def isExecutable (os : Os) (name : Option PyStr) : Py Unit :=
  match name with
  | none => .error .typeError
  | some name => do
    let (fpath, _) := pathSplit name
    let res ← (if fpath != [] then .ok (isExe os name)
      else match os.path with
        | none => .error .keyError
        | some p => .ok ((splitOnGo ':' p []).any fun dir => isExe os (pathJoin dir name)) : Py Bool)
    if !res then .error .ioError else .ok ()

/-- `file_name_error` (errors.py:76-96). -/
def fileNameError (os : Os) (name : PyStr) : Py Unit :=
  if name = [] ∨ name.head? = some '-' then .error .ioError
  else if !os.isFile name then .error .ioError
  else .ok ()

end Verif.Interface
