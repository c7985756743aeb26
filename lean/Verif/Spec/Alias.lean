import Verif.Model.Alias

/-!
# What it means for array programs to behave

`Unchanged h h'`: nothing that existed in `h` was written or freed on the way to `h'`.

`Implements K F f`: the array program `F` computes the function `f`, whatever it shares.  `K` lists the arrays the
operator keeps, with their contents; as long as those are intact, `F` returns an array with contents `f x` that is
new, or its own argument, or one of the arrays it keeps; and it writes to no existing array.
-/

namespace Verif.Spec
open Alias

variable {E : Type} [Zero E]

/-- Every array of `h` is still there with the same contents. -/
def Unchanged (h h' : Heap E) : Prop := ∀ r < h.length, h'[r]? = h[r]?

/-- Every array of `h` outside `W` is still there with the same contents. -/
def UnchangedBut (W : List Ref) (h h' : Heap E) : Prop := ∀ r < h.length, r ∉ W → h'[r]? = h[r]?

/-- The arrays kept by the operators are intact. -/
def Holds (K : List (Ref × E)) (h : Heap E) : Prop := ∀ p ∈ K, h[p.1]? = some p.2

/-- A unary array program computing `f`. -/
structure Implements (K : List (Ref × E)) (F : HOp E) (f : E → E) : Prop where
  value : ∀ h r, Holds K h → r < h.length → (F r h).2[(F r h).1]? = some (f (rd h r))
  source : ∀ h r, Holds K h → r < h.length →
    (F r h).1 = r ∨ h.length ≤ (F r h).1 ∨ (F r h).1 ∈ K.map Prod.fst
  keeps : ∀ h r, Holds K h → r < h.length → Unchanged h (F r h).2

/-- A binary array program computing `f`. -/
structure Implements2 (K : List (Ref × E)) (F : HOpt E) (f : E → E → E) : Prop where
  value : ∀ h r q, Holds K h → r < h.length → q < h.length →
    (F r q h).2[(F r q h).1]? = some (f (rd h r) (rd h q))
  source : ∀ h r q, Holds K h → r < h.length → q < h.length →
    (F r q h).1 = r ∨ (F r q h).1 = q ∨ h.length ≤ (F r q h).1 ∨ (F r q h).1 ∈ K.map Prod.fst
  keeps : ∀ h r q, Holds K h → r < h.length → q < h.length → Unchanged h (F r q h).2

/-- A proximity operator, for every extra factor. -/
def ImplementsProx {A : Type} (K : List (Ref × E)) (P : HProx E A) (p : E → A → E) : Prop :=
  ∀ a, Implements K (fun r => P r a) (fun x => p x a)

/-- A binary array program that does not return its first argument (unless both arguments are the same array). -/
def NotFirst (F : HOpt E) : Prop :=
  ∀ h r q, r < h.length → q < h.length → r ≠ q → (F r q h).1 ≠ r

end Verif.Spec
