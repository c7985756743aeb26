import Mathlib.Algebra.BigOperators.Group.Finset.Basic
import Mathlib.Analysis.RCLike.Basic

/-!
# Specification vocabulary for the gradient descent family

Nothing here mentions the model.
-/

namespace Verif.Spec

/-- `∑ⱼ γ^(number of later entries) aⱼ`: an exponentially weighted sum, the last entry with weight 1. -/
def decaySum {R : Type} [Semiring R] (γ : R) : List R → R
  | [] => 0
  | a :: l => γ ^ l.length * a + decaySum γ l

/-- The most recent value whose index is `j` modulo `n`; `0` if there is none. -/
def lastInSlot {α : Type} [Zero α] (n j : ℕ) : List (ℕ × α) → α
  | [] => 0
  | p :: l => if ∃ q ∈ l, q.1 % n = j then lastInSlot n j l else if p.1 % n = j then p.2 else 0

/-- The proximal gradient recursion: a gradient step, then the prox if the index is a multiple of `n`, then the
step-size rule. -/
def proxGrad {X : Type} (sub : X → ℝ → X → X) (prox : X → ℝ → X) (rule : ℝ → ℕ → ℝ) (n : ℕ) :
    List (ℕ × (X → X)) → X × ℝ → X × ℝ
  | [], s => s
  | (k, g) :: h, (x, eta) =>
    let y := sub x eta (g x)
    proxGrad sub prox rule n h (if k % n = 0 then prox y eta else y, rule eta k)

end Verif.Spec
