import Mathlib.Data.List.Basic

/-!
# Shapes that can be repeated to other shapes

Shapes are lists of axis lengths, last axis first.
-/

namespace Verif.Spec

/-- An array of shape `s` can be repeated to shape `t`: no more axes, and every axis has length one or the right length. -/
def Fits (s t : List ℕ) : Prop := s.length ≤ t.length ∧ ∀ k, s.getD k 1 = 1 ∨ s.getD k 1 = t.getD k 1

/-- The same shape up to additional leading axes of length one. -/
def SameUpToOnes (s t : List ℕ) : Prop := ∃ k, t = s ++ List.replicate k 1

end Verif.Spec
