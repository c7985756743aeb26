import Mathlib.Data.List.Basic

/-!
# Specification: every other element
-/

namespace Verif.Spec

/-- The second, fourth, sixth, … elements of a list. -/
def everyOther {α : Type} : List α → List α
  | [] => []
  | [_] => []
  | _ :: b :: l => b :: everyOther l

end Verif.Spec
