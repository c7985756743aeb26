import Verif.Model.Noise

/-!
# Model of the elementary operators of `src/modopt/opt/proximity.py`

Arrays are functions on an index type; weights are arrays of the same shape (a scalar weight is the
constant array); `c` is the `extra_factor`.  Arithmetic is exact, except that the rounding performed by
`thresh` itself is modelled.
-/

namespace Verif.Prox
open Noise

variable {ι κ : Type*} {𝕜 : Type*} [RCLike 𝕜]

/-- `IdentityProx.op` (proximity.py:97). -/
def identityOp {A : Type*} (x : A) (_c : ℝ) : A := x

/-- `IdentityProx.cost` (proximity.py:98). -/
def identityCost {A : Type*} (_x : A) : ℝ := 0

/-- `SparseThreshold.op` (proximity.py:186-206) with the attributes of `__init__` (proximity.py:179-184); the linear operator is not used. -/
noncomputable def sparseOp (w : ι → ℝ) (threshType : String) (x : ι → 𝕜) (c : ℝ) : Py (ι → 𝕜) :=
  thresh x (fun i => w i * c) threshType

/-- `SparseThreshold.cost` (proximity.py:208-235). -/
noncomputable def sparseCost [Fintype κ] (linear : (ι → 𝕜) → κ → 𝕜) (w : κ → ℝ) (x : ι → 𝕜) : ℝ :=
  ∑ i, ‖(w i : 𝕜) * linear x i‖

/-- `Ridge.op` (proximity.py:753-773) with the attributes of `__init__` (proximity.py:747-751), which drops
`thresh_type`. -/
noncomputable def ridgeOp (linear : (ι → 𝕜) → κ → 𝕜) (w : κ → ℝ) (x : ι → 𝕜) (c : ℝ) (i : κ) : 𝕜 :=
  linear x i / ((1 + w i * c * 2 : ℝ) : 𝕜)

/-- `Ridge.cost` (proximity.py:775-801). -/
noncomputable def ridgeCost [Fintype κ] (linear : (ι → 𝕜) → κ → 𝕜) (w : κ → ℝ) (x : ι → 𝕜) : ℝ :=
  ∑ i, ‖(w i : 𝕜) * linear x i ^ 2‖

/-- `ElasticNet.op` (proximity.py:840-860) with the attributes of `__init__` (proximity.py:833-838); the linear
operator is not used. -/
noncomputable def elasticOp (alpha beta : ι → ℝ) (x : ι → 𝕜) (c : ℝ) : Py (ι → 𝕜) := do
  let y ← thresh x (fun i => beta i * c) "soft"
  .ok fun i => y i / ((alpha i * 2 * c + 1 : ℝ) : 𝕜)

/-- `ElasticNet.cost` (proximity.py:862-889). -/
noncomputable def elasticCost [Fintype κ] (linear : (ι → 𝕜) → κ → 𝕜) (alpha beta : κ → ℝ)
    (x : ι → 𝕜) : ℝ :=
  ∑ i, (‖(alpha i : 𝕜) * linear x i ^ 2‖ + ‖(beta i : 𝕜) * linear x i‖)

/-- `np.finfo(np.float32).eps`. -/
noncomputable def eps32 : ℝ := 2⁻¹ ^ 23

/-- `np.linalg.norm(input_data, axis=0)`: the array has a first axis `γ`. -/
noncomputable def normAxis0 {γ : Type*} [Fintype γ] (x : γ × κ → 𝕜) (k : κ) : ℝ :=
  Real.sqrt (∑ g, ‖x (g, k)‖ ^ 2)

/-- `GroupLASSO.op` (proximity.py:1383-1408) with the attribute of `__init__` (proximity.py:1378-1381), called with `extra_factor` by keyword. -/
noncomputable def groupOp {γ : Type*} [Fintype γ] (w : κ → ℝ) (x : γ × κ → 𝕜) (c : ℝ)
    (i : γ × κ) : 𝕜 :=
  x i * ((max 0 (1 - w i.2 * c / max (normAxis0 x i.2) eps32) : ℝ) : 𝕜)

/-- `GroupLASSO.cost` (proximity.py:1410-1428). -/
noncomputable def groupCost {γ : Type*} [Fintype γ] [Fintype κ] (w : κ → ℝ) (x : γ × κ → 𝕜) : ℝ :=
  ∑ k, w k * normAxis0 x k

/-! ## Composition and combination -/

/-- A proximity operator object: `op(x, extra_factor)` and `cost(x)` on arrays of type `A`. -/
structure ProxObj (A : Type*) where
  op : A → ℝ → A
  cost : A → ℝ

/-- A linear operator object. -/
structure LinObj (A B : Type*) where
  op : A → B
  adjOp : B → A

/-- `LinearCompositionProx` (proximity.py:381-449): `op` and `cost`. -/
def linearComposition {A B : Type*} (linear : LinObj A B) (prox : ProxObj B) : ProxObj A where
  op x c := linear.adjOp (prox.op (linear.op x) c)
  cost x := prox.cost (linear.op x)

/-- What the constructor of `ProximityCombo` can see of an element of the operator list. -/
structure Candidate (A : Type*) where
  hasOp : Bool
  hasCost : Bool
  opCallable : Bool
  costCallable : Bool
  obj : ProxObj A

/-- The constructor argument: a list, tuple or array of objects, or something else. -/
inductive ComboArg (A : Type*)
  | seq (l : List (Candidate A))
  | other

/-- The loop of `_check_operators` (proximity.py:524-530). -/
def checkEach {A : Type*} : List (Candidate A) → Py (List (ProxObj A))
  | [] => .ok []
  | a :: l =>
    if !a.hasOp then .error .valueError
    else if !a.hasCost then .error .valueError
    else if !a.opCallable then .error .typeError
    else if !a.costCallable then .error .typeError
    else do
      let r ← checkEach l
      .ok (a.obj :: r)

/-- `ProximityCombo.__init__` and `_check_operators` (proximity.py:479-532). -/
def comboInit {A : Type*} : ComboArg A → Py (List (ProxObj A))
  | .other => .error .typeError
  | .seq l => if l.length = 0 then .error .valueError else checkEach l

/-- The loop of `ProximityCombo.op` (proximity.py:555-559) from position `index`: `input_data[index]`
raises `IndexError` past the end of the data. -/
def comboOpFrom {A : Type*} (data : List A) (c : ℝ) : ℕ → List (ProxObj A) → Py (List A)
  | _, [] => .ok []
  | index, p :: ps =>
    match data[index]? with
    | none => .error .indexError
    | some x => do
      let rest ← comboOpFrom data c (index + 1) ps
      .ok (p.op x c :: rest)

/-- `ProximityCombo.op` (proximity.py:534-561). -/
def comboOp {A : Type*} (ops : List (ProxObj A)) (data : List A) (c : ℝ) : Py (List A) :=
  comboOpFrom data c 0 ops

/-- `ProximityCombo.cost` (proximity.py:563-587); `zip` stops at the shorter list. -/
def comboCost {A : Type*} (ops : List (ProxObj A)) (data : List A) : ℝ :=
  (List.zipWith (fun p x => p.cost x) ops data).sum

end Verif.Prox
