import Verif.Core.Py

/-!
# Specification vocabulary: operators that may fail on some calls
-/

namespace Verif.Spec

/-- `f'` behaves as `f` whenever it returns: on each input it either returns the value of `f` or raises. -/
def Flaky {α β : Type _} (f : α → β) (f' : α → Py β) : Prop :=
  ∀ a, f' a = .ok (f a) ∨ ∃ e, f' a = .error e

/-- The operator that never fails. -/
def reliable {α β : Type _} (f : α → β) : α → Py β := fun a => .ok (f a)

theorem flaky_reliable {α β : Type _} (f : α → β) : Flaky f (reliable f) := fun _ => .inl rfl

/-- The operator that always fails. -/
def failing {α β : Type _} (e : PyErr) : α → Py β := fun _ => .error e

theorem flaky_failing {α β : Type _} (f : α → β) (e : PyErr) : Flaky f (failing (β := β) e) :=
  fun _ => .inr ⟨e, rfl⟩

end Verif.Spec
