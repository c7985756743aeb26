import Mathlib.Data.List.Basic

/-!
# Python strings

A Python string is a list of characters.
-/

namespace Verif

/-- A Python `str`. -/
abbrev PyStr := List Char

/-- `str.isspace` for one character (the whitespace of `str.split()`). -/
def pyWs (c : Char) : Bool :=
  (0x09 ≤ c.toNat && c.toNat ≤ 0x0d) || (0x1c ≤ c.toNat && c.toNat ≤ 0x20) || c.toNat == 0x85
    || c.toNat == 0xa0 || c.toNat == 0x1680 || (0x2000 ≤ c.toNat && c.toNat ≤ 0x200a)
    || c.toNat == 0x2028 || c.toNat == 0x2029 || c.toNat == 0x202f || c.toNat == 0x205f
    || c.toNat == 0x3000

/-- The scan of `str.split()`: `cur` is the word being read. -/
def splitGo : PyStr → PyStr → List PyStr
  | [], cur => if cur = [] then [] else [cur]
  | c :: cs, cur =>
    if pyWs c then (if cur = [] then splitGo cs [] else cur :: splitGo cs []) else splitGo cs (cur ++ [c])

/-- `s.split()`: the maximal runs of non-whitespace characters. -/
def pySplit (s : PyStr) : List PyStr := splitGo s []

/-- `" ".join(l)`. -/
def pyJoin (l : List PyStr) : PyStr := List.intercalate [' '] l

/-- `w in s` for strings. -/
def pyIn (w s : PyStr) : Bool := (List.range (s.length + 1)).any fun i => w.isPrefixOf (s.drop i)

end Verif
