import Verif.Props.Predictions
import Verif.Props.Duality

/-!
# C157 for the splitting algorithms
-/

set_option linter.unusedSectionVars false

namespace Verif
open Spec FB
open Condat (Ops)
open Linear (gradBasic gradCost)
open scoped RealInnerProductSpace Topology

section
variable {E H Y S S' : Type} [NormedAddCommGroup E] [InnerProductSpace ℝ E] [FiniteDimensional ℝ E]
  [NormedAddCommGroup H] [InnerProductSpace ℝ H] [FiniteDimensional ℝ H] [NormedAddCommGroup Y] [InnerProductSpace ℝ Y]

/-- C157 for `Condat`: two runs on data `y` and `y'` with the same operators and the same `tau` (it scales the primal penalty,
see C49), but any starting points, `sigma` and relaxation within the convergent range: the limits exist and their fitted values
differ by at most `‖y - y'‖`; for the same data they are equal, and so are the values of the penalty. -/
theorem C157_condat (op : E → Y) (adj : Y → E) (y y' : Y) (hadd : ∀ a b, op (a + b) = op a + op b)
    (hadj : ∀ a b, ⟪op a, b⟫ = ⟪a, adj b⟫) (N : ℝ) (hN0 : 0 < N) (hN : ∀ v, ‖op v‖ ≤ N * ‖v‖) {C : Set E} {g : E → ℝ}
    {h : H → ℝ} {O O' : Ops E H} {nL : ℝ} (hO : O.grad = gradBasic op adj y) (hO' : O'.grad = gradBasic op adj y')
    (hop : O'.op = O.op) (ok : CondatOk C Set.univ (gradCost op y) g h O) (ok' : CondatOk C Set.univ (gradCost op y') g h O')
    (hn : ∀ x, ‖O.op x‖ ≤ nL * ‖x‖) (s s' : Condat.St E H) (hs : 0 < s.sigma) (hs' : 0 < s'.sigma) (ht : 0 < s.tau)
    (htt : s'.tau = s.tau) (hr0 : 0 < s.rho) (hr2 : s.rho < 2) (hr0' : 0 < s'.rho) (hr2' : s'.rho < 2)
    (hc : N ^ 2 / 2 < (2 - s.rho) * (1 / s.tau - s.sigma * nL ^ 2))
    (hc' : N ^ 2 / 2 < (2 - s'.rho) * (1 / s'.tau - s'.sigma * nL ^ 2))
    (hex : ∃ x, Minimises C (fun u => gradCost op y u + 1 / s.tau * g u + h (O.op u)) x)
    (hex' : ∃ x, Minimises C (fun u => gradCost op y' u + 1 / s.tau * g u + h (O.op u)) x) :
    ∃ x x', Filter.Tendsto (fun n => (condatAfter O ⟨none, none, none⟩ s n).x) Filter.atTop (𝓝 x) ∧
      Filter.Tendsto (fun n => (condatAfter O' ⟨none, none, none⟩ s' n).x) Filter.atTop (𝓝 x') ∧
      ‖op x - op x'‖ ≤ ‖y - y'‖ ∧
      (y = y' → op x = op x' ∧ 1 / s.tau * g x + h (O.op x) = 1 / s.tau * g x' + h (O.op x')) := by
  obtain ⟨-, hS⟩ := gradBasic_models op adj y hadd hadj N hN
  obtain ⟨-, hS'⟩ := gradBasic_models op adj y' hadd hadj N hN
  rw [← hO] at hS
  rw [← hO'] at hS'
  obtain ⟨x, h1, h2⟩ := C118_condat_solves ok hS (by positivity) hn s hs ht hr0 hr2 hc hex
  obtain ⟨x', k1, k2⟩ := C118_condat_solves ok' hS' (by positivity) (by rwa [hop]) s' hs' (htt ▸ ht) hr0' hr2' hc'
    (by rwa [hop, htt])
  rw [hop, htt] at k1
  obtain ⟨L, hL⟩ := ok.linear
  have hconv : ConvexOn ℝ C fun u => 1 / s.tau * g u + h (O.op u) := by
    have c1 : ConvexOn ℝ C fun u => 1 / s.tau * g u := by
      simpa only [smul_eq_mul] using ok.convexG.smul (by positivity : (0 : ℝ) ≤ 1 / s.tau)
    have c2 : ConvexOn ℝ C fun u => h (O.op u) := by
      have := (ok.convexH.comp_linearMap L).subset (Set.subset_univ _) ok.convexG.1
      simpa only [Function.comp_def, hL] using this
    exact c1.add c2
  simp only [add_assoc] at h1 k1
  obtain ⟨-, c1, -, c2⟩ := C157_fitted_values op adj hadd hadj hconv y y' x x' h1 k1
  exact ⟨x, x', h2, k2, c1, fun hy => ⟨(c2 hy).1, (c2 hy).2.2⟩⟩

end

section
variable {E Y S S' : Type} [NormedAddCommGroup E] [InnerProductSpace ℝ E] [FiniteDimensional ℝ E]
  [NormedAddCommGroup Y] [InnerProductSpace ℝ Y]

/-- C157 for `GenForwardBackward`: two runs with the same penalties, of which at most `t` is a constraint, on data `y` and `y'`,
from any starting points and with any convergent step sizes and relaxation. -/
theorem C157_gen_forward_backward (op : E → Y) (adj : Y → E) (y y' : Y) (hadd : ∀ a b, op (a + b) = op a + op b)
    (hadj : ∀ a b, ⟪op a, b⟫ = ⟪a, adj b⟫) (N : ℝ) (hN0 : 0 < N) (hN : ∀ v, ‖op v‖ ≤ N * ‖v‖)
    (pre post : List (Term E)) (t : Term E) (ts : List (Term E)) (hts : ts = pre ++ t :: post) (hok : ∀ t ∈ ts, t.Ok)
    (hfin : ∀ t' ∈ pre ++ post, t'.C = Set.univ) (hw : (ts.map (·.w)).sum = 1)
    (hex : ∃ x, Minimises t.C (fun u => gradCost op y u + sumG ts u) x)
    (hex' : ∃ x, Minimises t.C (fun u => gradCost op y' u + sumG ts u) x) (x0 x0' : E) (gamma gamma' lam lam' : ℝ) (r : S)
    (r' : S') (hg : 0 < gamma) (hg' : 0 < gamma') (hl : 0 < lam) (hl' : 0 < lam') (hc : lam < 2 - gamma * N ^ 2 / 2)
    (hc' : lam' < 2 - gamma' * N ^ 2 / 2) :
    ∃ x x', Filter.Tendsto (fun n => (genAfter (gradBasic op adj y) (ts.map (·.prox)) (ts.map (·.w)) none none
        (genInit x0 ts.length gamma lam r) n).xOld) Filter.atTop (𝓝 x) ∧
      Filter.Tendsto (fun n => (genAfter (gradBasic op adj y') (ts.map (·.prox)) (ts.map (·.w)) none none
        (genInit x0' ts.length gamma' lam' r') n).xOld) Filter.atTop (𝓝 x') ∧
      ‖op x - op x'‖ ≤ ‖y - y'‖ ∧ (y = y' → op x = op x' ∧ sumG ts x = sumG ts x') := by
  obtain ⟨hF, hS⟩ := gradBasic_models op adj y hadd hadj N hN
  obtain ⟨hF', hS'⟩ := gradBasic_models op adj y' hadd hadj N hN
  obtain ⟨x, h1, h2⟩ := C116_genforwardbackward_solves hF hS (by positivity) pre post t ts hts hok hfin hw hex x0 gamma lam r
    hg hl hc
  obtain ⟨x', k1, k2⟩ := C116_genforwardbackward_solves hF' hS' (by positivity) pre post t ts hts hok hfin hw hex' x0' gamma'
    lam' r' hg' hl' hc'
  have hconv : ConvexOn ℝ t.C (sumG ts) := by
    have hC : Convex ℝ t.C := (hok t (by simp [hts])).convex.1
    have e : sumG ts = fun u => sumG pre u + (t.g u + sumG post u) := by
      funext u
      rw [hts, sumG_append, sumG_cons]
    rw [e]
    exact (convex_sumG hC pre fun t' h => ⟨hfin t' (List.mem_append_left _ h), (hok t' (by simp [hts, h])).convex⟩).add
      ((hok t (by simp [hts])).convex.add
        (convex_sumG hC post fun t' h => ⟨hfin t' (List.mem_append_right _ h), (hok t' (by simp [hts, h])).convex⟩))
  obtain ⟨-, c1, -, c2⟩ := C157_fitted_values op adj hadd hadj hconv y y' x x' h1 k1
  exact ⟨x, x', h2, k2, c1, fun hy => ⟨(c2 hy).1, (c2 hy).2.2⟩⟩

end

/-- `½(x-3)² + |x|` over `x ≥ 0`, minimised by 2, with the package's data term. -/
theorem three_cost : gradCost (fun v : ℝ => v) 3 = fun x => 1 / 2 * (x - 3) ^ 2 := by
  funext x
  simp only [gradCost, Real.norm_eq_abs, sq_abs]
  norm_num
  ring

theorem three_solution : Minimises {x : ℝ | 0 ≤ x} (fun u => gradCost (fun v : ℝ => v) 3 u + |u|) 2 := by
  refine ⟨show (0 : ℝ) ≤ 2 by norm_num, fun u _ => ?_⟩
  have h1 := le_abs_self u
  simp only [three_cost]
  rw [abs_of_pos (by norm_num : (0 : ℝ) < 2)]
  nlinarith [sq_nonneg (u - 2)]

example := C157_condat (fun v : ℝ => v) (fun v => v) 3 3 (fun _ _ => rfl) (fun _ _ => rfl) 1 one_pos (fun _ => by simp) (nL := 1)
  (O := ⟨fun x => x - 3, fun y _ => max y 0, softR, id, id⟩) (O' := ⟨fun x => x - 3, fun y _ => max y 0, softR, id, id⟩)
  rfl rfl rfl (by rw [three_cost]; exact condat_example_ok) (by rw [three_cost]; exact condat_example_ok) (fun x => by simp)
  ⟨0, 0, 3 / 2, 1 / 2, 1 / 2⟩ ⟨7, -1, 1, 1 / 4, 1 / 2⟩ (by norm_num) (by norm_num) (by norm_num) rfl (by norm_num) (by norm_num)
  (by norm_num) (by norm_num) (by norm_num) (by norm_num) ⟨2, by simpa using three_solution⟩ ⟨2, by simpa using three_solution⟩

example := C157_gen_forward_backward (S := Unit) (S' := Unit) (fun v : ℝ => v) (fun v => v) 3 3 (fun _ _ => rfl) (fun _ _ => rfl) 1
  one_pos (fun _ => by simp) [⟨Set.univ, fun x => |x|, softR, 1/4⟩] []
  (⟨{x : ℝ | 0 ≤ x}, fun _ => 0, fun y _ => max y 0, 3/4⟩ : Term ℝ) _ rfl
  (by
    intro t ht
    simp only [List.cons_append, List.nil_append, List.mem_cons, List.not_mem_nil, or_false] at ht
    rcases ht with rfl | rfl
    · exact ⟨abs_convex, softR_exact, by norm_num⟩
    · exact ⟨condat_example_ok.convexG, condat_example_ok.prox, by norm_num⟩)
  (by simp) (by norm_num)
  ⟨2, by simpa [sumG] using three_solution⟩ ⟨2, by simpa [sumG] using three_solution⟩
  7 (-2) 1 (1 / 2) 1 (3 / 2) () () (by norm_num) (by norm_num) (by norm_num) (by norm_num) (by norm_num) (by norm_num)

end Verif
