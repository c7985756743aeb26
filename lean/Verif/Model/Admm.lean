import Verif.Model.ForwardBackward
import Mathlib.Analysis.Real.Sqrt

/-!
# Model of `src/modopt/opt/algorithms/admm.py`

Exact real arithmetic.  The first variable `u` and the constraint vector live in the same space `H`,
because the code adds them; in `FastADMM` so does `v`, because it is initialised with `b`.
-/

namespace Verif.Admm

variable {H V : Type} [NormedAddCommGroup H] [InnerProductSpace ℝ H]

/-- The problem data: the two optimizers, called as `opti(init=…, obs=…)`, the operators and `b`. -/
structure Problem (H V : Type) where
  optH : H → H → H
  optG : V → H → V
  A : H → H
  B : V → H
  b : H

/-- `_u_old`, `_v_old`, `_mu_old`: equal to the `_new` values after each update (admm.py:167-169). -/
structure St (H V : Type) where
  u : H
  v : V
  mu : H

/-- `ADMM._update` (admm.py:153-169) without the convergence test. -/
def step (P : Problem H V) (s : St H V) : St H V :=
  let u := P.optH s.u (P.B s.v + s.u - P.b)
  let tmp := P.A u
  let v := P.optG s.v (tmp + s.u - P.b)
  ⟨u, v, s.mu + (tmp + P.B v - P.b)⟩

/-- State after `n` updates. -/
def after (P : Problem H V) (s : St H V) : ℕ → St H V
  | 0 => s
  | n + 1 => step P (after P s n)

/-- `ADMMcostObj._calc_cost` (admm.py:44-65). -/
noncomputable def cost (f : H → ℝ) (g : V → ℝ) (P : Problem H V) (tau : ℝ) (u : H) (v : V) : ℝ :=
  f u + g v + tau * ‖P.A u + P.B v - P.b‖

/-- A value passed to the parent constructor. -/
inductive Arg
  | default
  | str (s : String)
  deriving DecidableEq

/-- `super().__init__(*kwargs)` (admm.py:36-37): unpacking a dictionary with one star passes its *keys*
as positional arguments, here to the parameters of `CostParent.__init__` (cost.py:75-83) in order. -/
def costOptions (keys : List String) : List (String × Arg) :=
  ["initial_cost", "tolerance", "cost_interval", "test_range", "verbose", "plot_output"].zipIdx.map fun p =>
    (p.1, match keys[p.2]? with | some k => Arg.str k | none => Arg.default)

/-- The mutable attributes of a `FastADMM` object.  `vHat = none` (`muHat = none`) means that the attribute
is the same array object as `_v_old` (`_mu_old`).  `cOld = none` is `numpy.inf`. -/
structure Fast (H : Type) where
  u : H
  v : H
  mu : H
  vHat : Option H
  muHat : Option H
  cOld : Option ℝ
  cNew : Option ℝ
  alphaOld : ℝ
  alphaNew : ℝ
  eta : ℝ
  tau : ℝ

/-- `FastADMM.__init__` (admm.py:269-301): the parent is called with `v=b`, and `tau` is not forwarded, so
that it keeps its default 1. -/
def fastInit (P : Problem H H) (u _v mu : H) (alpha eta _tau : ℝ) : Fast H where
  u := u
  v := P.b
  mu := mu
  vHat := some P.b
  muHat := some mu
  cOld := none
  cNew := some 0
  alphaOld := alpha
  alphaNew := alpha
  eta := eta
  tau := 1

/-- `c_new < eta * c_old`: with `c_old = inf` the product is `inf`, `-inf` or `nan`. -/
noncomputable def below (c eta : ℝ) (cOld : Option ℝ) : Bool :=
  match cOld with
  | none => decide (0 < eta)
  | some r => decide (c < eta * r)

/-- `FastADMM._update` (admm.py:303-340); with cost functions the misspelt attribute in the convergence
test (admm.py:340) raises. -/
noncomputable def fastStep (P : Problem H H) (hasCost : Bool) (s : Fast H) : Py (Fast H) :=
  let vHat := s.vHat.getD s.v
  let muHat := s.muHat.getD s.mu
  let u := P.optH s.u (P.B vHat + s.u - P.b)
  let tmp := P.A u
  let v := P.optG vHat (tmp + s.u - P.b)
  let mu := muHat + (tmp + P.B v - P.b)
  let c := ‖mu - muHat‖ + s.tau * ‖P.B (v - vHat)‖
  let next : Py (Fast H) :=
    if below c s.eta s.cOld then
      let alphaNew := 1 + Real.sqrt (1 + 4 * s.alphaOld ^ 2)
      let beta := (alphaNew - 1) / s.alphaOld
      .ok { s with
        u := u, v := v, mu := mu
        vHat := some (v + beta • (v - s.v)), muHat := some (mu + beta • (mu - s.mu))
        cNew := some c, alphaNew := alphaNew }
    else if s.eta = 0 then .error .zeroDivisionError
    else
      .ok { s with
        u := u, v := v, mu := mu
        vHat := none, muHat := none
        cNew := s.cOld.map (· / s.eta), alphaNew := 1 }
  match next with
  | .error e => .error e
  | .ok t => if hasCost then .error .attributeError else .ok t

/-- `n` updates. -/
noncomputable def fastAfter (P : Problem H H) (hasCost : Bool) (s : Fast H) : ℕ → Py (Fast H)
  | 0 => .ok s
  | n + 1 =>
    match fastAfter P hasCost s n with
    | .error e => .error e
    | .ok t => fastStep P hasCost t

end Verif.Admm
