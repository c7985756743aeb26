import Verif.Model.Loop
import Verif.Model.PrimalDual
import Verif.Model.Reweight

/-!
# Model of `Condat.iterate` with a `cwbReweight` object and a `SparseThreshold` dual operator

`Condat` does not connect the two objects: the reweighting reaches the proximity operator only if both hold the same array.
The states are pairs of the algorithm object and the reweighting object.
-/

namespace Verif.RwCondat
open Loop

variable {σ κ 𝕜 : Type} [RCLike 𝕜]

/-- The array given to `SparseThreshold` (proximity.py:179-184, kept as it is): the caller's own array, from which the
reweighting object was built too, or the attribute `weights` of the reweighting object. -/
inductive ProxHolds
  | callerArray
  | reweightAttribute
  deriving DecidableEq

/-- The weights `SparseThreshold` multiplies by `extra_factor` at a call (proximity.py:204) and uses in its cost
(proximity.py:228): the present contents of that array. -/
def seen (p : ProxHolds) (r : Reweight.St κ) : κ → ℝ :=
  match p with
  | .callerArray => r.caller
  | .reweightAttribute => r.weights

/-- An algorithm object whose updates and metrics depend on the weights of its proximity operator: `Condat._update`
(primal_dual.py:174-220) with its cost object and observers. -/
structure WAlg (σ κ : Type) where
  update : (κ → ℝ) → ℕ → σ → Py σ
  computeMetrics : (κ → ℝ) → ℕ → σ → Py σ
  converge : σ → Bool
  hasMetrics : Bool
  period : Option ℕ

/-- The algorithm with fixed weights, as in `Verif.Model.Loop` (base.py:252-288). -/
def WAlg.fixed (A : WAlg σ κ) (w : κ → ℝ) : Alg σ :=
  ⟨A.update w, A.computeMetrics w, A.converge, A.hasMetrics, A.period⟩

/-- The algorithm next to a reweighting object: every call reads the present weights. -/
def WAlg.live (A : WAlg σ κ) (p : ProxHolds) : Alg (σ × Reweight.St κ) :=
  ⟨fun k s => (A.update (seen p s.2) k s.1).map fun t => (t, s.2),
    fun k s => (A.computeMetrics (seen p s.2) k s.1).map fun t => (t, s.2),
    fun s => A.converge s.1, A.hasMetrics, A.period⟩

/-- `self._reweight.reweight(self._linear.op(self._x_new))` (primal_dual.py:240).  `data` is the result of the linear operator:
an exception, an array of another shape (`none`) or an array of the shape of the weights. -/
noncomputable def reweightCall (data : σ → Py (Option (κ → 𝕜))) (s : σ × Reweight.St κ) : Py (σ × Reweight.St κ) :=
  match data s.1 with
  | .error e => .error e
  | .ok d =>
    match Reweight.reweight d s.2 with
    | (.error e, _) => .error e
    | (.ok (), r) => .ok (s.1, r)

/-- `iterate(max_iter, n_rewightings)` (primal_dual.py:222-250). -/
noncomputable def run (A : WAlg σ κ) (p : ProxHolds) (data : σ → Py (Option (κ → 𝕜))) (m n : ℕ) (s : σ)
    (r : Reweight.St κ) : Run (σ × Reweight.St κ) :=
  condatIterate (A.live p) (some (reweightCall data)) m n (s, r)

/-- `Condat` without cost object and observers (primal_dual.py:174-220), the dual operator depending on its weights. -/
noncomputable def condat {E H : Type} [NormedAddCommGroup E] [InnerProductSpace ℝ E] [NormedAddCommGroup H]
    [InnerProductSpace ℝ H] (O : (κ → ℝ) → Condat.Ops E H) (U : Condat.Upd) : WAlg (Condat.St E H) κ :=
  ⟨fun w _ s => .ok (Condat.step (O w) U s), fun _ _ s => .ok s, fun _ => false, false, none⟩

end Verif.RwCondat
