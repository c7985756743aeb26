# Formal model of ModOpt in Lean 4 — design

## 1. What is modelled

The library is NumPy code: array index manipulation, validated constructors, small state machines
(observers, cost windows, iteration loops, per-algorithm update rules) and numerical kernels
(thresholds, proximity operators, statistics).  The model is a *shallow embedding*: every Python
function becomes a Lean function with the same branches in the same order; an exception is the
value `Except.error`; a mutable object is a structure and a method is a function from the old
object to the new one and the returned value.  Each definition cites the file and lines it models.

### Representation choices (all simplifications are repeated at the definition)

* **Arrays, index code** (`transform.py`, `np_adjust.py`, `trim_filter`, wavelet coefficient
  flattening): `NDArray α` = shape + row-major data list, of any number of dimensions and any
  size.  `reshape` keeps the data list; slices, stacks, transposes are defined by index.
* **Arrays, numerical code** (`thresh`, proximity operators, reweighting, metrics):
  a function `ι → K` from an arbitrary finite index type (an array of any shape), so element-wise
  code is literally element-wise; reductions are finite sums.
* **Arrays, algorithms**: a vector of an arbitrary real inner-product space (or module, when only
  linear structure is used); the operators (gradient, prox, linear, cost) are parameters, exactly as
  they are user-supplied objects in the code.
* **Numbers**: exact arithmetic (`ℝ`, or an arbitrary linearly ordered field).  IEEE rounding is not
  modelled, except where the property is about it: `np.around`, infinities/nan
  (`Verif.Core.Ext`), the exact float test in `GenForwardBackward._set_weights`
  (`Verif.Core.F64`), and the separate floating-point models of `Model/FloatOps`, in which every
  operation is followed by a rounding function (`Verif.Core.Rounding`: monotone, odd, idempotent;
  IEEE binary64 with gradual underflow is proved to be one).  C131 is about these.  Overflow and nan
  are not part of them.
* **Python values**: dynamic type tests are decision functions over an inductive type of the kinds
  of values the code distinguishes.
* **Aliasing**: modelled with an explicit heap where the property is about it (write flags,
  in-place reweighting, in-place threshold).  For the algorithms there are two models: the value
  models (`Model/ForwardBackward`, `PrimalDual`, `Admm`, `GradDescent`) and heap programs in which
  every array is a reference (`Model/Alias`); C122 proves that the second computes the first for
  every sharing pattern of the operators, and where it does not (POGM).
* **Data types**: the value models have one kind of number.  A third model of the algorithms
  (`Model/DType`) gives every array the kind of its `dtype` (integer, real, complex) and follows
  NumPy's same-kind rule for in-place operations; C123 relates it to the value models.  Widths
  inside one kind (single precision, overflow) are not modelled.
* **Shapes**: in the value models all operands of an expression have the same shape.  A fourth model
  (`Model/Broadcast`, `Model/BroadcastMore`) gives every array a shape and follows NumPy's broadcasting, in-place and
  `copyto` rules in the updates of the algorithms; C136 relates it to the value models.  Outside C136 broadcasting is not modelled.
* **Complex data**: the operators are modelled over real or complex numbers.  The value models of the
  algorithms are vector-space models in which the restart criteria use a real inner product, so they
  cover real data; `Model/ComplexArrays` has the updates on real or complex arrays with a complex
  `vdot` and NumPy's lexicographic comparison (C137–C139), and C137 relates the two.
* **NaN and infinities**: `Model/NonFinite` has thresholding, proximity operators, the gradient, the
  `ForwardBackward` update and the cost test on reals extended with two infinities and NaN, without
  rounding, overflow or signed zeros; `Model/NonFiniteAlgs` adds the other updates.  C146 and C147
  also relate them to the models on reals.
* **Library routines** (LAPACK SVD, FFT convolution, isotonic regression, SSIM, random numbers,
  tqdm, plotting, file system): not modelled; they are parameters, with their mathematical
  specification as an explicit hypothesis when a theorem needs it (e.g. `IsSVD`), and the theorem
  holds for every implementation meeting it.

## 2. Layout

* `Verif/Core` — Python outcomes, arrays, extended numbers, binary64 rounding.
* `Verif/Model` — the model of the code, one file per Python module.
* `Verif/Spec` — small independent specifications (prox, projection, adjoint, tiling, ...), which do
  not mention the model.
* `Verif/Lemmas` — helper lemmas.
* `Verif/Props` — the property theorems, each followed by `example`s instantiating its hypotheses.

## 3. Trusted base

Lean's kernel; the axioms `propext`, `Classical.choice`, `Quot.sound` (each theorem depends on a
subset of these; no axiom is added, no `sorry`, no `native_decide`); the reading of the Python code
recorded in the model's definitions (checked by hand and by the seeded-bug log), and the reading of
NumPy semantics recorded in the primitives used there.

## 4. Plan per property

| id | property | plan |
|---|---|---|
| C01 | Cube to map and back is lossless | Model `cube2map`,`map2cube` over `NDArray`; closed-form entry lemmas for both, then extensional equality. Induction-free index algebra (`Nat.div_add_mod`). |
| C02 | Map to cube and back is lossless exactly when the layout tiles the map | As C01; the guard `np.all(shape % layout)` is modelled literally; refutation by a 5x4 map with layout (2,2); partial theorem: lossless when both axes divide; exact crop otherwise. |
| C03 | Map to matrix and back is lossless for square images with integer pixels | Model `map2matrix`, `matrix2map` (loop of block writes as a fold); loop invariant over written blocks. |
| C04 | Cube to matrix and back is lossless | `reshape` keeps data, transpose by index. |
| C05 | Matrix route and cube route agree | Entry lemmas of C01/C03 compared. |
| C06 | Half-turn rotation is an exact involution | `rot90 k=2` by index; involution by extensionality. |
| C07 | Zero padding preserves the data and adds only zeros | `np.pad` by index; padding argument kinds as an inductive type. |
| C08 | Rolling the axes is invertible and composes | General-rank transpose by an axis permutation; modular arithmetic on integers for rolls. |
| C09 | Every registered observer is notified exactly once, in registration order | State machine; observers are functions from the observable state to (calls, state, raised?); induction over the observer list. |
| C10 | A failing observer does not silence later notifications | Same machine: refutation by witness plus a theorem that a locked observable stays locked and silent under any later history. |
| C11 | Observers are registered at most once and only for allowed signals | Invariant over all op sequences. |
| C12 | A registered observer can be removed | `remove_observer` always errors: theorem for all states. |
| C13 | Metric histories stay aligned and early stopping looks only at the last window | State machine of MetricObserver; invariants over call histories; flag = window specification. |
| C14 | Iteration stops at the first convergence and never exceeds max_iter | Generic loop with arbitrary update; induction on max_iter; spec via first index. |
| C15 | Metrics are evaluated once every metric_call_period iterations | Same loop with a trace of metric calls; refutation + real schedule theorem. |
| C16 | Early-stopping metrics stop the algorithm | Per-algorithm convergence expression over an abstract flag/cost; stop theorem with cost, non-stop theorem without. |
| C17 | The cost is evaluated exactly every cost_interval iterations | Fold over call sequences; induction. |
| C18 | Convergence is declared only on full windows that pass the relative-change test | Fold; characterise window content as chunk of recorded costs. |
| C19 | The total cost is the sum of the operators' costs | List sum and validation decision function. |
| C20 | MatrixOperator's adj_op is the adjoint of op | Finite sums, star. |
| C21 | LinearCombo's adj_op is the adjoint of op | Finite sums over operator lists. |
| C22 | Filter-bank convolution and its adjoint are adjoint | Same-mode convolution as explicit finite sum with zero padding; change of variables. |
| C23 | GradBasic.grad is the gradient of GradBasic.cost | Inner-product expansion. |
| C24 | Constructing a gradient operator does not change the caller's data except its write flag | Heap of arrays with write flags. |
| C25 | Positivity prox is the Euclidean projection on the non-negative orthant | `IsProj` spec; coordinatewise proof. |
| C26 | positive preserves nesting and raises on bad types | Nested inductive of ragged arrays; extended numbers for infinities. |
| C27 | Soft thresholding is the prox of the weighted l1 norm | `IsProx` spec; scalar soft-threshold lemma lifted to sums; rounding kept as an explicit outer function. |
| C28 | Hard thresholding keeps or kills and is a best l0-penalised approximation | Case analysis. |
| C29 | Ridge.op is the prox of the Ridge cost | Completing the square. |
| C30 | ElasticNet.op is the prox of the ElasticNet cost | Soft threshold composed with scaling. |
| C31 | GroupLASSO.op is the prox of the group norm | Group-wise norm shrinkage, Cauchy-Schwarz. |
| C32 | Ordered weighted l1 cost is the OWL norm | Sorting model; refutation by the docstring example; relation by reversal. |
| C33 | k-support prox shrinks, keeps signs, and does not change its own configuration | Model of the interpolation/search; theta in [0,1]; state history for k. |
| C34 | Composition with an orthonormal transform gives the prox of the composed function | Unitary change of variables in `IsProx`. |
| C35 | ProximityCombo acts independently on each block and is the prox of the sum | Sum separability. |
| C36 | FISTA restart parameters are accepted exactly when documented | Decision table over argument kinds. |
| C37 | Regular FISTA momentum sequence is well behaved | Recurrence with Real.sqrt; induction. |
| C38 | The FISTA momentum sequence satisfies the acceleration inequality | Same; witness for default parameters. |
| C39 | Chambolle-Dossal momentum has the published closed form | Induction on n. |
| C40 | Restart and greedy step updates stay in their safe range | State machine invariants. |
| C41 | Fixed points of forward-backward are exactly the minimisers | Convex first-order conditions in inner product spaces. |
| C42 | Forward-backward (ISTA) decreases the objective and converges at rate 1/n | Descent lemma, telescoping. |
| C43 | Accelerated forward-backward converges at rate 1/n^2 | Lyapunov function argument of Beck-Teboulle/Chambolle-Dossal with the code's own sequences. |
| C44 | The returned solution satisfies the constraint | Concrete rational run as counterexample; lambda=1 theorem. |
| C45 | Step size and update-rule precedence | Constructor model. |
| C46 | GenForwardBackward weights are a convex combination | Validation model; binary64 model for the float sum. |
| C47 | GenForwardBackward fixed points are minimisers | Fixed-point algebra. |
| C48 | POGM parameters are validated and its iterates are prox outputs | State machine invariants. |
| C49 | Condat fixed points are saddle points | Fixed-point algebra with Moreau decomposition. |
| C50 | Condat runs at most (1+n_rewightings)*max_iter updates | Loop counting. |
| C51 | The ADMM multiplier drives the primal updates | Two runs with different mu compared: non-interference by induction. |
| C52 | FastADMM uses its acceleration and restart parameters | State machine over extended numbers; invariants c_old=inf, alpha constant. |
| C53 | Vanilla gradient descent performs exactly the proximal gradient recursion | Recurrence equality by induction. |
| C54 | Adaptive step accumulators are monotone or bounded as documented | Closed forms by induction. |
| C55 | Momentum accumulates past gradients | Equality of trajectories by induction. |
| C56 | ADAM's moment estimates are bias corrected | Closed forms; witness. |
| C57 | SAGA's direction is the sum of stored gradients | Invariant by induction. |
| C58 | Candes-Wakin-Boyd weights stay positive, never grow, and follow the closed form | Closed form by induction on the history. |
| C59 | Reweighting does not modify the caller's weight array | Heap model. |
| C60 | Gram-Schmidt yields an orthonormal basis of the same span | Induction over rows in inner product space. |
| C61 | Image rotation by quarter turns is a bijection of pixels | Integer index model of quarter turns. |
| C62 | Power method never over-estimates the spectral norm in exact arithmetic | Operator norm bound by induction. |
| C63 | Robust statistics obey their transformation laws | Order statistics (median) lemmas. |
| C64 | Image metrics depend on magnitudes up to affine intensity changes | Field algebra. |
| C65 | SVD thresholding keeps the requested number of components | SVD as hypothesis; sorted singular values. |
| C66 | The fast SVD threshold loop terminates with enough singular values | Loop as partial/fuelled recursion; termination conditions and counterexample. |
| C67 | Filters are even and correctly normalised | Real analysis (Gaussian integral from Mathlib). |
| C68 | The transpose test accepts exactly adjoint pairs | Inner-product algebra; separation by choosing data. |
| C69 | Trimming a filter never loses coefficients | Min/max index lemmas. |
| C70 | Convolving a stack convolves each slice | List map. |
| C71 | Wavelet coefficient flattening is invertible | List chunking lemmas. |
| C72 | Closing a log detaches all its handlers | List-iterator-with-mutation model; survivor characterisation by induction. |
| C73 | Type checks convert or reject, never silently corrupt | Decision table. |
| C74 | Backend selection always yields a usable backend | Decision table. |
| C75 | Executable lookup is first-match | List search. |
| C76 | Noise injection has the requested scale and shape | Decision table + algebra. |
| C77 | POGM only rests at minimisers | Induction over updates from the initial state; the first update is a forward-backward step. |
| C78 | The ADMM cost object computes the documented objective and honours its options | Algebra; refuted (norm not squared, option names passed as values). |
| C79 | Condat iterates never move away from a solution | Fejér inequality in the metric of the algorithm, then induction and telescoping. |
| C80 | Gradient descent steps have the documented size | Algebra on square roots; refuted with an exact characterisation. |
| C81 | SAGA implements equation 7 of its reference | Invariant of the gradient memory over histories; refuted with an exact characterisation. |
| C82 | The power method stops early only when successive estimates agree | Invariant of the loop; refuted at the first iteration. |
| C83 | A seeded power method is reproducible | Random source as a state parameter; refuted. |
| C84 | The Gaussian kernel has the requested normalisation | Max/sum of a positive finite array; astropy's kernel is a parameter. |
| C85 | Masked metrics ignore the masked pixels | Congruence of preprocessing; refuted by concrete images. |
| C86 | The directional Mexican hat is a Gaussian times a Mexican hat | Refuted: exact value of the code's expression, zero at the centre, unbounded. |
| C87 | Trimming a filter does not change the convolution | Refuted; convolution re-indexed, symmetric support case proved. |
| C88 | mr_transform receives the caller's arguments | split/join round trip on strings; explicit file system and program. |
| C89 | No temporary files are left | Explicit file system; refuted on failure. |
| C90 | get_mr_filters returns the filter bank | Impulse response of odd-sized convolution. |
| C91 | A logged message is recorded once | Invariant over histories of the logging state; refuted. |
| C92 | move_to_cpu returns a NumPy array or raises | Case analysis; refuted. |
| C93 | Torch conversions end up in the target library | Case analysis; refuted. |
| C94 | LowRankMatrix.op is the proximity operator of its cost | Singular value thresholding via the dual characterisation of the nuclear norm. |
| C95 | nuclear_norm is the nuclear norm | Duality with the spectral norm; uniqueness of singular values. |
| C96 | A rank estimate keeps LowRankMatrix working | State machine over calls; refuted. |
| C97 | svd_thresh_coef thresholds singular coefficients and is repeatable | Value formula; explicit caller-side threshold state; repeatability refuted. |
| C98 | find_n_pc counts columns | Autocorrelation of same-size convolution, re-indexed. |
| C99 | k-support operator is the prox of the squared k-support norm | KKT conditions of the budget problem, Lagrange multiplier from alpha; loop invariant of the binary search; piecewise-affine interpolation. |
| C100 | k-support cost is the function op is the prox of | Dual certificates for lower bounds, perturbed weights for upper bounds, invariant of the q search; concrete refutations. |
| C101 | WaveletTransform configures the backend as requested | Case analysis of the constructor; universal refutation. |
| C102 | CPU wavelet transform handles batches | Case analysis; universal refutation for n_batch > 1, round trip for one batch. |
| C103 | Wavelet adjoint is independent of the call history | Induction over histories; refutation on a concrete two-band transform. |
| C104 | A transient operator failure does not corrupt the iteration | Updates as functions returning the object left behind and the exception; tracking invariant by induction over attempt histories; concrete refutations. |
| C105 | Metrics record every update of a run | Model of the whole object over a session; induction over the loop with a growth relation on observers. |
| C106 | Published metric results are a snapshot | Aliasing of the observers' lists modelled by index; universal refutation from C105. |
| C107 | Iterating in two calls equals iterating in one | Simulation relation ignoring indices; loop splitting; refutation for epoch_size 2. |
| C108 | A metric failure does not disable later metrics | Lock invariant over sessions; universal refutation. |
| C109 | iterate always sets x_final | Case analysis; induction over the loop for the positive part. |
| C110 | A rejected gradient construction leaves the caller's array usable | Constructor returning the heap also on failure; case analysis. |
| C111 | Gradient objects use the methods the user supplied | Attributes as optional values; case analysis; universal refutation for GradBasic. |
| C112 | grad holds the gradient at the last requested point | Fold over call histories; exact condition for the real data type. |
| C113 | An operator attribute always stays callable | Induction over assignment histories; universal refutation for Positivity. |
| C114 | Reported warnings and errors reach the terminal and the log given | Effects as lists; induction over sessions. |
| C115 | Cost plots with different output names never overwrite each other | Injectivity of the file name; induction over sessions. |
| C116 | GenForwardBackward converges to a minimiser | Fejér inequality in the weighted product space; convergence of Fejér-monotone sequences in proper spaces. |
| C117 | ForwardBackward without acceleration converges to a minimiser | Instance of C116 with one term; lifted to whole runs; sharpness by an oscillating example for every L. |
| C118 | Condat converges to a saddle point | C79's Fejér inequality, coercivity of the metric, convergence of Fejér-monotone sequences. |
| C119 | Chambolle-Dossal acceleration makes the iterates converge | Energy inequality with slack, summability of t·w and t·d, quasi-Fejér argument. |
| C120 | Vanilla gradient descent converges to a minimiser | C53's recursion turned into C117's. |
| C121 | Running an algorithm never changes arrays the caller can see | Second model in which arrays are references into a heap; frame invariants by induction; refutations for POGM and FastADMM. |
| C122 | Results do not depend on which arrays the operators share | Refinement of each heap program to the value model; this justifies treating arrays as values everywhere else. |
| C123 | Algorithms accept starting arrays of any numeric data type, without silent loss | Third model in which arrays carry the kind of their dtype and in-place operations follow NumPy's same-kind rule; refinement to the value models by induction; refutations for integer starts. |
| C124 | The gradient table of SAGA holds the gradients | Table entries converted to the kind of the starting array; closed form of the direction by induction. |
| C125 | A run whose cost settles is stopped by its cost object | Window averages of a converging sequence converge, so the relative test passes from some window on; induction over the session loop; convergence theorems C113, C116, C118, descent lemma. |
| C126 | Stopping by the cost test certifies a near-optimal solution | Refuted by small steps on x²/2; bound from the descent inequality and the proximal inequality at the stopping iterate. |
| C127 | Errors in the operators are not amplified | The update is nonexpansive (cocoercivity, averaged operators, metric of the algorithm), so a shadowing lemma sums the errors; refutation by the recursion of FISTA with F = g = 0. |
| C128 | Strongly convex problems are solved at a geometric rate | The update is a contraction with factor max(|1-bμ|,|1-bL|); Banach's fixed point theorem. |
| C129 | The package's operators and ForwardBackward together solve regularised least squares | Composition: the operator theorems C23, C25, C27, C29-C31 discharge the hypotheses of the convergence theorem C42; the error bound C127 carries the rounding of thresh through the run. |
| C130 | The inverse of the power method's estimate is a safe step size | Two-dimensional operator scaled to the iteration count, estimate by C62 and C82, iterates in closed form; positive part by the convergence of the estimates (C62) and C117. |
| C131 | Signs, ranges and exact zeros survive floating-point rounding | Monotone-rounding calculus: fl is monotone, odd and fixes 0, 1/2, 1, 2, so every inequality between representable bounds survives each operation; induction over runs; relative-error analysis for the momentum sequence. |
| C132 | ForwardBackward in floating-point arithmetic solves regularised least squares to rounding accuracy | One rounded update is within eps (|z| + c) of the exact update of the same arrays; the exact update is non-expansive and its iterates stay within |x0 - x*| of the minimiser; recursion for the accumulated error; rate of C42 for the exact iterates. |
| C133 | AdaGrad converges to a minimiser for every learning rate | Descent lemma with the excess of large steps bounded by a telescoping sum of min(S, (L eta)^2); hence the accumulated squared gradients S stay bounded; the distance to every minimiser weighted with the step denominators is quasi-monotone, so it converges; compactness. Projection: coordinatewise regret bound. |
| C134 | RMSprop and ADAM converge to a minimiser | Refuted: if the iterates tended to the minimiser the accumulator would vanish and the step would exceed twice the inverse curvature, so the distance would grow. Positive part by the descent lemma. |
| C135 | The package's operators and the splitting algorithms together solve constrained and analysis-regularised least squares | Exact dual proximity operator within the guard error (C27); convergence of the exact run (C116/C118 with multipliers from Hahn-Banach separation); stability of the run in the algorithm's metric (C127). |
| C136 | The solution has the shape of the starting array | Broadcasting as least upper bound in the order of shapes; induction over the updates; refinement to the vector models for equal shapes (C136_same_shape_agrees). |
| C137 | Storing real data as complex numbers does not change the result | Each step commutes with a real-linear map of arrays that keeps norms and decisions; iterate; operators of the package shown to commute. |
| C138 | A global phase, and conjugation, of complex data carry over to the result | The same lemmas with the phase map; for conjugation a hypothesis that no restart product is a non-zero imaginary number; refutations by computed runs. |
| C139 | Positivity returns non-negative real numbers for complex data | Case analysis of the lexicographic comparison; refutation for every entry that is kept. |
| C140 | Reordering or reshaping the data reorders the result | Each step commutes with the linear map that composes with a bijection of positions; inner products and norms are unchanged. |
| C141 | The units of the data do not matter | Each step commutes with scaling, the reference length of the greedy strategy being scaled along; refutations for every datum in small enough units. |
| C142 | The images of a stack are processed independently | Each step commutes with the restriction to one image when no decision is taken over the stack; refutation by a computed run. |
| C143 | ForwardBackward with a constant relaxation parameter converges | The relaxed update is an inertial forward-backward step; a Lyapunov function with the squared displacement decreases, the increases of the distance to a minimiser are summable, and a cluster point is a fixed point (Opial). Sharpness by an explicit recurrence with a double root. |
| C144 | Gradient descent with momentum converges | Energy F(x) + eta beta/2 |m|^2 decreases whether the momentum is kept or reset; the increases of the distance to a minimiser are summable; Opial. Refutation at a larger step by a closed form. |
| C145 | Recorded times never decrease | Invariant of the session: dates sorted and below every later reading. |
| C146 | NaN and infinite data are never silently replaced | Extended arithmetic (Model/NonFinite); induction over updates; agreement with the real model on finite data. |
| C147 | Runs on finite data stay finite | Extended arithmetic (Model/NonFiniteAlgs); simulation of the real models by the extended ones on finite states; invariant on speed and accumulated powers for gradient descent. |
| C148 | Reweighting recomputes the weights from the latest estimate | Refuted: exact condition for agreement from the closed form, geometric decay under repetition, an uphill step on the log-sum objective; the first reweighting majorises the log-sum penalty |
| C149 | The primal-dual algorithm closes the gap at rate 1/n | First-order conditions of both half steps give a gap inequality per update in the metric of the algorithm; telescoping and Jensen; bounded subgradients from a separation argument |
| C150 | Reweighting changes the problem that is being solved | Product of the iteration driver with the state of the reweighting object; the proximity operator reads the caller array or the attribute; induction over blocks, simulation of a run with fixed weights inside a block |
| C151 | Watching a run does not change it | Simulation between two objects that differ in their observers, preserved by the update, the metric step, the loop, iterate and sessions |
| C152 | Successive solutions approach each other at a guaranteed rate | Fejer inequality and non-expansiveness of each update, then the average bounds the last term of a decreasing sequence; descent inequality for the certificate |
| C153 | Zeros of the solution are found after finitely many updates | a false non-zero entry makes the proximity step gain the squared margin over non-expansiveness; the gains add up to at most the initial squared distance |
| C154 | Zero groups and active bounds are found after finitely many updates | the same counting argument as C153 for the projection and for the group shrinkage; uniqueness of the proximity operator identifies the package's operator with the exact one above the guard |
| C155 | Algorithms agree where their problems overlap | simulation between the states, by induction on the number of updates; the difference under relaxation is an algebraic identity |
| C156 | Weights above the correlations with the data give exactly zero | one proximity step from zero returns zero; induction on the updates; minimality by testing against every multiple of the proximity problem; the first update for the converse |
| C157 | Fitted values are determined by the data and never amplify a change of the data | the least squares term is quadratic in op(x): the objective exceeds its minimum by at least half the squared distance of the fitted values; add the inequality at two solutions; insert the rates of C42, C43 and C129 |
| C158 | More regularisation never gives a larger penalty | the shrinkage factor is antitone in the threshold and decimal rounding is monotone on each component; for problems, add the optimality inequalities of two solutions, or the rate of C42 at each other's result |

## 5. External contracts and what is not modelled

External code enters theorems as a parameter; a theorem that needs more says so in a hypothesis, which has to be
trusted when the theorem is applied to the program.  A witness that the hypothesis is satisfiable is given beside it.

| external code | how it enters |
|---|---|
| `scipy.linalg.svd`, `numpy.linalg.svd` | parameter; hypothesis `CorrectSvd` (an `IsSVD` of every matrix) |
| `scipy.sparse.linalg.svds` | parameter; hypothesis `CorrectSvds` (the leading triplets of an `IsSVD`, reversed) |
| `numpy.argsort` | parameter; hypothesis `CorrectArgsort` (sorts, ties in any order) |
| `isotonic_regression` of scikit-learn | parameter; hypothesis `IsMonotoneFit` |
| `ptwt` | parameter; hypothesis `PtwtContract` (perfect reconstruction, subband layout and names) |
| PyWavelets decompositions | parameters; `ravel_coeffs`/`unravel_coeffs` are modelled as concatenation and splitting |
| `scipy.signal.fftconvolve` | replaced by the exact zero-padded convolution; FFT rounding is not modelled |
| `astropy.convolution`, `Gaussian2DKernel` | arbitrary parameters |
| `mr_transform` | any function of argument vector and file system to output text and file system; exit status not modelled |
| scikit-image `structural_similarity` | arbitrary parameter |
| random numbers, `time.time()` | arbitrary arrays or readings |
| user operators, metrics, update rules, costs | arbitrary functions; may raise in the session and failure models |

Every non-abstract function of `/repo/src/modopt` has at least one line cited by a definition of the model; that is a
textual check of the citations, not a claim that each body is modelled in full.  Known to be left out: progress bars,
verbose printing, the drawing done by Matplotlib, the filters of the `warnings` module, GPU memory, and what the comment
of each definition lists as simplified.

## 6. Where the code disagrees with a property

A property that is false of the code keeps its English statement in `properties.jsonl`.  The manifest status is
`partial`, the theorems contain a refutation (for all inputs where possible, otherwise a concrete witness) and, with
suffix `_partial`, what does hold.

| id | property | finding |
|---|---|---|
| C02 | Map to cube and back is lossless exactly when the layout tiles the map | The documented guard is refuted for every layout dividing exactly one axis (C02_documented_guard_refuted); lossless round trip, exact guard and exact crop are proved. |
| C10 | A failing observer does not silence later notifications | The property is false of the code: the lock is not released when an observer raises (or the signal is unknown). Proved: the exact post-state, silence forever after (refutation), and the property for observers that do not raise (_partial). |
| C12 | A registered observer can be removed | The property is false of the code: remove_observer calls a method that does not exist and always raises AttributeError (refutation for all states). The private removal routine is correct (_partial). |
| C15 | Metrics are evaluated once every metric_call_period iterations | The property is false of the code for periods >= 2 (a trailing comma makes the condition a tuple, always true): refutation for every period >= 2 and the exact schedule are proved; the documented schedule is proved for period 1 and None. |
| C16 | Early-stopping metrics stop the algorithm | True for ForwardBackward, POGM, Condat and gradient descent with a cost object (proved); false with cost=None and in GenForwardBackward (proved refutations: the run always takes max_iter updates). |
| C26 | positive preserves nesting and raises on bad types | False of the code for -inf entries (become nan) and for ragged=True with Python-object leaves (AttributeError); both are proved. The partial theorem covers every nested array of numeric arrays without -inf. |
| C32 | Ordered weighted l1 cost is the OWL norm | False of the code: cost sorts in increasing order (C32_documented_example_is_not_the_norm, exact relation in C32_cost_is_smallest_owl_is_largest), so op is not the prox of cost (C32_op_is_not_prox_of_cost). Proved: op is the unique prox of the true OWL norm for all weights, data and tie-breaking; validation of one-dimensional weights. Two-dimensional weights escape validation (refutation). |
| C33 | k-support prox shrinks, keeps signs, and does not change its own configuration | False of the code: op overwrites k permanently when the data are smaller (C33_earlier_call_changes_result; exact law over histories in C33_k_after_history_partial and C33_configuration_kept_iff), and a call on empty data leaves k=0 so that all later results vanish. Signs/shrinkage and totality of the search proved for all data. |
| C36 | FISTA restart parameters are accepted exactly when documented | Acceptance is characterised exactly; the claim that all refusals are ValueError is false: an unknown strategy name raises TypeError (proved), the other refusals raise ValueError (_partial). |
| C38 | The FISTA momentum sequence satisfies the acceleration inequality | False of the code for the default parameters and over the documented range (proved: the recursion uses p where the reference has p/2). Proved for p<=1/2, q<=(2-2p)^2, r<=4 (_partial) and for Chambolle-Dossal mode. |
| C44 | The returned solution satisfies the constraint | False of the code for the default accelerated settings: x_final is the extrapolated point and can violate the constraint (proved on a run of three updates). The proximal iterate is always a prox value; x_final is feasible for constant relaxation in [0,1] (_partial). |
| C45 | Step size and update-rule precedence | step_size precedence and once-per-iteration proved for user rules; under the default lambda_update='fista' the user's beta_update is silently ignored (proved). Gradient descent classes accept step_size and ignore it (proved). |
| C46 | GenForwardBackward weights are a convex combination | User weights: exact acceptance proved. Default weights sum to one in exact arithmetic (_partial) but with binary64 rounding the construction with six operators raises ValueError (proved, kernel computation on the rounded sum). |
| C51 | The ADMM multiplier drives the primal updates | False of the code: the multiplier has no effect on u and v for any problem, and a concrete problem rests at an infeasible point (both proved). With exact optimizers, as documented, and operators with injective adjoints the iterates can converge to a solution only if it splits the constraint evenly, A u = B v = b/2 (C51_kept_solutions, C51_limits); with optimizers of the opposite sign only if its multiplier is tau u (C51_kept_solutions_plus, C51_limits_plus). Proved: the accumulation law (_partial). |
| C52 | FastADMM uses its acceleration and restart parameters | False of the code: eta>0, tau and the initial v have no effect; restart unreachable; eta=0 raises; cost functions unusable (all proved). The exact recursion is proved (_partial). |
| C55 | Momentum accumulates past gradients | False of the code: with the default epoch_size=1 momentum is reset at every update and the iterates equal vanilla descent (proved). Between resets the closed form holds (_partial). |
| C56 | ADAM's moment estimates are bias corrected | False of the code from the second update on, for every beta in (0,1) (proved). First update unbiased, divisors positive, bias vanishes asymptotically (_partial). |
| C59 | Reweighting does not modify the caller's weight array | False of the code for floating-point weights: the caller's array is modified in place (proved). Integer and list inputs are converted first and stay untouched (_partial). |
| C65 | SVD thresholding keeps the requested number of components | Exactly true only without ties and for hard thresholding (C65_hard_keeps_first_k_partial; optimality among rank-k matrices is C65_at_least_as_good_as_rank_k). Refuted for ties, for the default soft thresholding and when find_n_pc counts zero. The external SVD is assumed to return some decomposition; results are shown independent of which. |
| C66 | The fast SVD threshold loop terminates with enough singular values | False in general: the routine never returns a full-rank matrix, can overshoot into ValueError, can loop forever with extra_vals=0, and rejects vectors. Agreement with svd_thresh is proved when the smallest singular value is at most the threshold (_partial). Termination proved for extra_vals >= 1. |
| C71 | Wavelet coefficient flattening is invertible | Regrouping proved for every number of levels in 2D and, exactly under the key order wavedec3_keys, in 3D; splitting the concatenation proved for all layouts with the exact failure condition; full round trip of the Torch operator for real and complex data. Two defects recorded: unbatched data come back with an extra axis, and the CuPy operator turns real data into complex. |
| C72 | Closing a log detaches all its handlers | False of the code: C72_survivors gives the exact survivors for every history, C72_files_never_closed that no file is closed. Holds for a log set up once (C72_single_set_up_partial). |
| C78 | The ADMM cost object computes the documented objective and honours its options | False of the code: the norm is not squared and options are misrouted (proved). Agreement on feasible pairs proved (_partial). |
| C80 | Gradient descent steps have the documented size | False of the code: exact characterisation of when the two formulas agree; generic and SAGA classes step with eta/epsilon. |
| C81 | SAGA implements equation 7 of its reference | False of the code: the direction is n times the SAG direction; agreement with SAGA characterised exactly. |
| C82 | The power method stops early only when successive estimates agree | False of the code at the first iteration (proved); holds for every later stop (_partial). |
| C83 | A seeded power method is reproducible | False of the code: the seed is ignored (proved). |
| C85 | Masked metrics ignore the masked pixels | False of the code (three refutations proved). Proved for mse, psnr and nrmse when the hidden pixels do not change the range of magnitudes (_partial). |
| C86 | The directional Mexican hat is a Gaussian profile times a Mexican hat | False of the code: both refutations are proved for every positive scale. What holds is evenness (C67_mex_hat_dir_even) and the exact value in C86_dir_unbounded. |
| C87 | Trimming a filter does not change the convolution | False of the code: exact shift proved, witness given; equality proved for filters with symmetric support (_partial). |
| C88 | mr_transform receives the caller's arguments | False of the code for strings with whitespace (join/split round trip characterised exactly); proved for whitespace-free paths and word options (_partial). |
| C89 | call_mr_transform leaves no temporary files behind | Holds on success for every program that only writes its output file (_partial); two kinds of failure leak a file (refutation). |
| C90 | get_mr_filters returns the filter bank of the transform | Proved for trim=False; with trim=True and filters of different sizes the call raises ValueError (NumPy >= 1.24), refuting the documented object array. |
| C91 | A logged message is recorded once | False of the code (duplicates for k set-ups, dotted names); holds with a single handler and no ancestors (_partial). |
| C92 | move_to_cpu returns a NumPy array or raises ValueError | False of the code: C92_never_rejects. Holds for arrays (_partial). |
| C93 | Torch conversions end up in the target library | False of the code: C93_cpu_tensor_gives_numpy. The supported conversions are C93_conversions_partial. |
| C96 | A rank estimate keeps LowRankMatrix working over any history of calls | False of the code: C96_zero_estimate_is_a_trap and C96_trap_is_reachable. The state update itself is C96_estimate_is_updated; without an estimate no history changes the object. |
| C97 | svd_thresh_coef thresholds singular coefficients and is repeatable | The value theorem holds; repeatability is refuted for array thresholds (C97_array_threshold_overwritten, C97_second_call_differs). |
| C99 | k-support operator is the prox of the squared k-support norm | Proved for extra_factor 1: the result is the unique prox with a budget equal to k up to d(beta+1)eps/m, exactly k when the machine epsilon is replaced by zero. False for extra_factor other than 1 (C99_extra_factor_not_honoured: theta is computed without the factor). |
| C100 | k-support cost is the function op is the prox of | False of the code: the cost is twice the documented value for k=1 and is no multiple of the norm for k=2; raises IndexError for k larger than the data unless op ran first. Proved: cost exists for 1<=k<=d and lies between beta/2 \|x\|_1^2/k and beta times the squared norm, exact on flat data. |
| C101 | WaveletTransform configures the backend as requested | False of the code: the NumPy backend is built without mode, so every requested mode becomes symmetric (C101_mode_ignored). What does reach the backends is C101_configuration_partial. |
| C102 | CPU wavelet transform handles batches | False of the code for n_batch > 1: AttributeError on every call (verbose never set). The single-batch round trip is proved. |
| C103 | Wavelet adjoint is independent of the call history | False of the code: the layout of the last op is used. Proved for histories of one layout; the exact failure condition is C71_split_outcome. |
| C104 | A transient operator failure does not corrupt the iteration | Proved for ForwardBackward, Condat, ADMM and vanilla gradient descent; false of the code for GenForwardBackward (auxiliary variables already modified), POGM (z, xi already modified) and AdaGrad (accumulator already modified), each with a refutation; what holds for them is in the _partial theorems. |
| C106 | Published metric results are a snapshot | False of the code: index and values are the live lists of the observer while time is a copy; the refutation holds for every object and every later run. |
| C107 | Iterating in two calls equals iterating in one | Proved for updates and metrics that do not use the iteration index, which covers all classes except gradient descent with epoch_size other than 1 (refuted). Recorded indices restart at zero. |
| C108 | A metric failure does not disable later metrics | False of the code: the lock of the observable stays set; universal refutation. |
| C109 | iterate always sets x_final | False of the code for max_iter = 0 in four families (AttributeError); proved for max_iter > 0 and for ADMM and gradient descent. |
| C110 | A rejected gradient construction leaves the caller's array usable | False of the code: the write flag of the data is cleared before the operators are checked (universal refutation). Values and all other arrays are untouched (_partial). |
| C111 | Gradient objects use the methods the user supplied | Proved for GradParent; GradBasic checks both arguments and then ignores them (universal refutation). |
| C112 | grad holds the gradient at the last requested point | Proved for data types other than a real one; with a real data type exactly the real part is stored (refutation with exact condition). Gradients are arrays of complex numbers. |
| C113 | An operator attribute always stays callable | Proved for attributes with the checking setter; refuted for Positivity, whose op method hides the setter. |
| C114 | Reported warnings and errors reach the terminal and the log given | Terminal output and logged errors proved over all sessions; warnings never reach a log (universal refutation). Filters of the warnings module are not modelled. |
| C121 | Running an algorithm never changes arrays the caller can see | Proved for ForwardBackward, GenForwardBackward, Condat, ADMM and all gradient descent classes. False for POGM, whose in-place copy writes into the array its gradient operator returned at construction (proved: the array really changes), and for FastADMM results when an optimiser returns its initial estimate (proved); both hold under the stated extra hypothesis (_partial). |
| C122 | Results do not depend on which arrays the operators share | Proved for ForwardBackward, GenForwardBackward, Condat, ADMM, FastADMM and all gradient descent classes, by refinement of the value models. False for POGM when the gradient operator returns its argument (proved: the stored iterate never moves); holds when the first gradient is a new array (_partial). |
| C123 | Algorithms accept starting arrays of any numeric data type, without silent loss | Proved in full for ForwardBackward. For GenForwardBackward, POGM, Condat, FastADMM and PowerMethod every update that does not raise is proved exact, but integer starting arrays (and an integer b in FastADMM, a real gradient of a complex x in POGM, an integer data_type or operator, or a complex operator with the default data_type, in PowerMethod) are proved to raise TypeError; acceptance is proved for arrays of the kind the operators work in (_partial). |
| C124 | The gradient table of SAGA holds the gradients | False: the table has the data type of the starting array and conversion is silent. Proved: with a constant gradient the direction drifts by the lost part at every update (integer start: the direction grows without bound; real start, complex gradient: the imaginary part does). Holds when the starting array can hold every gradient, always for a complex one (_partial). |
| C126 | Stopping by the cost test certifies a near-optimal solution | False: for every tolerance, test range and starting point there is a step size in the convergent range at which the run on x²/2 stops at the end of the first window having reduced the cost by as little as one likes (C126_stops_far_from_minimum). Proved for ForwardBackward without acceleration and a non-negative objective: the excess is at most max(1e-16/2, \|x0-u\| sqrt(2 tol cost(x1)/beta)) (_partial). |
| C127 | Errors in the operators are not amplified | False with FISTA's acceleration: a constant error of the proximity operator moves the result of n updates by at least c n² times the error, c > 0 depending on the FISTA parameters only (C127_fista_amplifies). Proved without acceleration for ForwardBackward, GenForwardBackward (weighted norm), Condat (metric of the algorithm, relaxation below two) and VanillaGenericGradOpt (_partial); the linear bound is attained, and with strong convexity the errors do not even accumulate. |
| C130 | The inverse of the power method's estimate is a safe step size | False: for every extra_factor, tolerance and max_iter there are a self-adjoint operator and an open set of random starts for which the step makes gradient descent diverge from every starting point off one axis (C130_diverges). Proved (_partial) from some operator-dependent number of iterations on when early stopping is disabled: the step lies in [1/(e lam), 2/lam) and ForwardBackward converges for all data, convex regularisers and starting points. |
| C134 | RMSprop and ADAM converge to a minimiser | False: with eta > 2 epsilon (the defaults are 1.0 and 1e-6) RMSprop, and ADAM with beta = 0, do not tend to the minimiser of half the squared norm unless they land on it exactly, and a run that jumps between two arrays for ever is given. Proved instead: when eta times the Lipschitz constant is below 2 epsilon, RMSprop's squared gradients are summable with an explicit bound, for every cost with Lipschitz gradient bounded below. ADAM with beta > 0 is not covered. |
| C136 | The solution has the shape of the starting array | False for ForwardBackward, ADMM and gradient descent: weights, data or a constraint of a shape such as (n,1) silently turn a solution of shape (n,) into one of shape (n,n) (C136_forwardbackward_silent_growth, C136_admm_silent_growth, and C136_gradient_descent_silent_growth for all gradient descent classes except AdaGrad and SAGA); the exact outcome for all shapes, denoising with GradBasic and SparseThreshold, is C136_forwardbackward_shape. Proved for GenForwardBackward for all operators, with the exact rejection condition; for AdaGrad and SAGA with proximity operators that keep shapes; for Condat (all operators), POGM (operators that never lose axes) and FastADMM (optimisers that never lose axes; v has the shape of b) up to additional leading axes of length one. NumPy broadcasting, in-place addition and copyto are modelled for arrays with at least one axis. C136_pogm_rejects is the exact rejection condition of POGM for denoising with SparseThreshold and weights with no more axes than the starting arrays. |
| C138 | A global phase, and conjugation, of complex data carry over to the result | A phase carries over for all algorithms and for all operators considered except soft thresholding, whose componentwise rounding breaks it (C138_phase_fails_soft) by at most 2e-15 per entry (C138_phase_soft_partial). Conjugation carries over for GenForwardBackward, Condat and gradient descent, and for ForwardBackward and POGM unless a restart product is a non-zero imaginary number (_partial); then exactly one of the two runs restarts (C138_conj_decision) and the results differ (C138_conj_fails). |
| C139 | Positivity returns non-negative real numbers for complex data | False: entries with positive real part, and positive imaginary numbers, are returned with their imaginary part (C139_imaginary_part_survives). Proved: exact condition for a non-negative real result, non-negative real parts, idempotence. |
| C141 | The units of the data do not matter | True of every algorithm's updates, except that AdaGrad, RMSprop and ADAM need the learning rate and epsilon in the new units (C141_adagrad_fixed_rate_fails), and of MatrixOperator, GradBasic, hard thresholding, Ridge, Positivity. False of soft thresholding (C141_soft_vanishes, C141_sparse_regression_vanishes; within an absolute bound in C141_soft_partial), of GroupLASSO (C141_groupLASSO_keeps_all) and of the convergence test (C141_test_always_passes; exact above 5e-17 in C141_test_partial). |
| C142 | The images of a stack are processed independently | True of GenForwardBackward, Condat and gradient descent, of ForwardBackward without a restart strategy, and of POGM while the signs of its products agree (_partial). False with a restart strategy (C142_restart_couples_images), and of POGM for every step size and damping (C142_pogm_couples_images). |
| C147 | Runs on finite data stay finite | False as stated: the gradient descent constructors accept epsilon = 0.0, and then AdaGrad, RMSprop and ADAM turn a pixel whose first gradient vanishes into NaN (C147_zero_epsilon_refuted), and the generic class and SAGA make every pixel non-finite at an update without the proximity step (C147_zero_epsilon_generic). Proved for epsilon > 0 (C147_gradient_descent_finite_partial), for POGM with beta > 0, for Condat with sigma kept non-zero, and for GenForwardBackward. Exact arithmetic: overflow is not modelled. |
| C148 | Reweighting recomputes the weights from the latest estimate | False: reweight multiplies the current weights, as its own formula says, so they depend on all earlier data. C148_agrees_iff gives the exact condition (entry i of all earlier data is zero); C148_weights_vanish shows that weights of non-zero entries tend to zero under repetition; C148_second_reweighting_increases gives, for any x whose entries are zero or not small against the weights, a denoising problem whose second reweighted step increases the log-sum objective. Proved: the first reweighting is the step of the reference (C148_first_reweighting_partial). The weights of the reference are stated in Spec/LogSum.lean from the published method: the paper is not part of the repository. Exact arithmetic. |
| C150 | Reweighting changes the problem that is being solved | False when both objects are built from an array of integers: the reweighting object works on a floating-point copy, and a run with n reweightings ends in the state of n+1 plain runs with the original weights (C150_integer_weights_no_effect for every algorithm object; C150_integer_weights_plain_run for Condat itself). True when the proximity operator holds the attribute weights of the reweighting object or both were built from one array of floats: the exact weights of every block are given (C150_shared_weights_partial). The model assumes that nothing else writes to the weights. Exact arithmetic. |

## 7. Seeded bugs

`seeded/LOG.jsonl` has one line per attempt; an edit that survived and was killed after tightening appears twice.
Three edits were never killed.  They are believed equivalent in exact arithmetic; this was argued by hand, as follows,
and is not a Lean theorem.

* `Admm.fastInit`, `tau` forwarded: `tau` only enters the new residual, and the residual is only compared with
  `eta` times the old one, which stays infinite because the code never advances it.
* `Admm.fastStep`, old residual not divided by `eta` on restart: the old residual is infinite.
* `KSupport.particular`, tolerance 1/100 instead of 1/10000 at the first index: the branch runs with the midpoint equal
  to the first index and sums that bracket `k`, so the bracket test that follows accepts whatever the flag says.

Edits marked "fixes the code" repair a defect.  There the refutation fails, or a lemma or companion theorem stating the
defective behaviour does (a failing lemma hides the theorems after it); `tau` forwarded, above, is the exception.
