/-!
# Python-level outcomes

Exceptions are values: every modelled function that can raise returns `Except PyErr`.
-/

namespace Verif

/-- The exception classes the modelled code can raise. -/
inductive PyErr
  | valueError
  | typeError
  | attributeError
  | indexError
  | zeroDivisionError
  | keyError
  | unboundLocalError
  | ioError
  | notImplementedError
  | runtimeError
  | importError
  | nameError
  deriving DecidableEq, Repr

/-- A result that may raise. -/
abbrev Py (α : Type _) := Except PyErr α

/-- Decidable equality of outcomes (used by the concrete examples). -/
instance {α} [DecidableEq α] : DecidableEq (Py α)
  | .ok a, .ok b => if h : a = b then isTrue (h ▸ rfl) else isFalse (fun e => h (by cases e; rfl))
  | .error a, .error b => if h : a = b then isTrue (h ▸ rfl) else isFalse (fun e => h (by cases e; rfl))
  | .ok _, .error _ => isFalse (fun e => by cases e)
  | .error _, .ok _ => isFalse (fun e => by cases e)

end Verif
