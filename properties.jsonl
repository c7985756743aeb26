{"id": "C01", "title": "Cube to map and back is lossless", "statement": "For every data cube and every two-entry layout whose product is the number of slices, map2cube(cube2map(cube, layout), layout) returns the original cube, and pixel (r,s) of slice i*b+j of the cube is found at map position (i*h+r, j*w+s).", "quantifier": "all cube shapes (n,h,w), all pixel values, all layouts (a,b) with a*b=n, a,b>0", "why_tests_cant": "The index arithmetic has to be right for every size and every pixel; tests use one 2x2 layout of 2x2 images.", "anchors": ["src/modopt/base/transform.py:cube2map", "src/modopt/base/transform.py:map2cube"]}
{"id": "C02", "title": "Map to cube and back is lossless exactly when the layout tiles the map", "statement": "If the layout divides the map shape in both axes, cube2map(map2cube(map, layout), layout) returns the original map. The documented guard is that any map whose shape is not a multiple of the layout is rejected.", "quantifier": "all 2D maps, all positive layouts, including layouts that divide only one axis", "why_tests_cant": "The guard's behaviour depends on which axes fail to divide; a test of a few shapes misses the one-axis case, in which rows or columns are silently dropped.", "anchors": ["src/modopt/base/transform.py:map2cube", "src/modopt/base/transform.py:cube2map"]}
{"id": "C03", "title": "Map to matrix and back is lossless for square images with integer pixels", "statement": "For a map made of square images, matrix2map(map2matrix(map, layout), map.shape) returns the map truncated to integers, which is the map itself when its pixels are integers; column k of the matrix is the row-major flattening of image k.", "quantifier": "all map sizes built from square images, all layouts, all pixel values (integer and non integer)", "why_tests_cant": "Exactness for all sizes is an index identity; truncation of non-integer data only shows on inputs the tests do not use.", "anchors": ["src/modopt/base/transform.py:map2matrix", "src/modopt/base/transform.py:matrix2map"]}
{"id": "C04", "title": "Cube to matrix and back is lossless", "statement": "matrix2cube(cube2matrix(cube), image_shape) returns the original cube, and cube2matrix(matrix2cube(m, image_shape)) returns m whenever the product of image_shape is the number of rows of m; column k of the matrix is image k flattened.", "quantifier": "all cubes of any number of dimensions >= 1, all matrices and matching image shapes", "why_tests_cant": "Must hold for every shape and value.", "anchors": ["src/modopt/base/transform.py:cube2matrix", "src/modopt/base/transform.py:matrix2cube"]}
{"id": "C05", "title": "Matrix route and cube route agree", "statement": "For maps of square images, map2matrix(map, layout) equals cube2matrix(map2cube(map, layout)); the two ways of flattening a map never order pixels differently.", "quantifier": "all maps of square images and layouts that tile them", "why_tests_cant": "Equality of two index computations on every input.", "anchors": ["src/modopt/base/transform.py:map2matrix", "src/modopt/base/transform.py:map2cube", "src/modopt/base/transform.py:cube2matrix"]}
{"id": "C06", "title": "Half-turn rotation is an exact involution", "statement": "rotate(rotate(m)) = m and entry (i,j) of rotate(m) is entry (R-1-i, C-1-j) of m; rotate_stack does this to every slice of a stack independently.", "quantifier": "all 2D arrays and all stacks, any size", "why_tests_cant": "For all sizes including non-square and odd/even.", "anchors": ["src/modopt/base/np_adjust.py:rotate", "src/modopt/base/np_adjust.py:rotate_stack"]}
{"id": "C07", "title": "Zero padding preserves the data and adds only zeros", "statement": "pad2d(x, p) has shape (R+2*p0, C+2*p1), contains x unchanged in its centre and zero elsewhere; an integer padding p behaves exactly as (p,p); paddings of any other type raise ValueError.", "quantifier": "all 2D arrays, all non-negative paddings given as int, tuple, list or array", "why_tests_cant": "Every cell of every size must be checked.", "anchors": ["src/modopt/base/np_adjust.py:pad2d"]}
{"id": "C08", "title": "Rolling the axes is invertible and composes", "statement": "fancy_transpose(x, r) moves axis i to axis (i + r) mod ndim; fancy_transpose by r then by s equals fancy_transpose by r+s; ftr and ftl are mutually inverse; rolling by ndim is the identity.", "quantifier": "arrays of every number of dimensions and shape, every integer roll, positive or negative", "why_tests_cant": "Unbounded number of dimensions and rolls.", "anchors": ["src/modopt/base/np_adjust.py:fancy_transpose", "src/modopt/base/np_adjust.py:ftr", "src/modopt/base/np_adjust.py:ftl"]}
{"id": "C09", "title": "Every registered observer is notified exactly once, in registration order", "statement": "An unlocked notify_observers(signal) calls each observer registered for that signal exactly once in the order they were added, calls no others, and leaves the observable unlocked; a nested notification issued by an observer during the call is dropped and returns False.", "quantifier": "all observable histories (adds, notifications, nested notifications) and all observer behaviours that do not raise", "why_tests_cant": "Holds over every history and every re-entrant behaviour.", "anchors": ["src/modopt/base/observable.py:Observable.notify_observers", "src/modopt/base/observable.py:Observable.add_observer"]}
{"id": "C10", "title": "A failing observer does not silence later notifications", "statement": "If an observer raises during a notification, later notifications on the same observable still reach the observers.", "quantifier": "all histories in which some observer call raises", "why_tests_cant": "Quantifies over crash points; the code leaves the lock set, so this is refuted and the exact behaviour (every later notification returns False and calls nobody) is proved.", "anchors": ["src/modopt/base/observable.py:Observable.notify_observers"]}
{"id": "C11", "title": "Observers are registered at most once and only for allowed signals", "statement": "Adding an observer twice has the same effect as adding it once; adding for a signal that is not allowed raises ValueError and changes nothing; over any history the observer lists contain no duplicates.", "quantifier": "all sequences of add_observer calls on any observable", "why_tests_cant": "An invariant over all histories.", "anchors": ["src/modopt/base/observable.py:Observable.add_observer", "src/modopt/base/observable.py:Observable._add_observer", "src/modopt/base/observable.py:Observable._is_allowed_signal"]}
{"id": "C12", "title": "A registered observer can be removed", "statement": "remove_observer(signal, observer) removes the observer so that later notifications do not call it.", "quantifier": "all observables, signals and observers", "why_tests_cant": "The public method is never exercised by tests; it fails for every input because it calls a method that does not exist, so this is refuted for every state.", "anchors": ["src/modopt/base/observable.py:Observable.remove_observer"]}
{"id": "C13", "title": "Metric histories stay aligned and early stopping looks only at the last window", "statement": "After k metric notifications retrieve_metrics returns three lists of length k whose i-th entries belong to the i-th notification, with times starting at 0 and indices the algorithm's; the convergence flag after a notification is true only if the mean of the most recent half window differs relatively by less than eps from the preceding half window.", "quantifier": "all sequences of metric notifications, windows and tolerances", "why_tests_cant": "Invariant over all call histories.", "anchors": ["src/modopt/base/observable.py:MetricObserver.__call__", "src/modopt/base/observable.py:MetricObserver.is_converge", "src/modopt/base/observable.py:MetricObserver.retrieve_metrics"]}
{"id": "C14", "title": "Iteration stops at the first convergence and never exceeds max_iter", "statement": "A run performs exactly min(max_iter, index of first converged update + 1) updates, with iteration indices 0,1,2,... in order, and nothing is updated after convergence.", "quantifier": "all algorithms (arbitrary update function), all max_iter", "why_tests_cant": "Quantifies over arbitrary update functions and run lengths.", "anchors": ["src/modopt/opt/algorithms/base.py:SetUp._iterations", "src/modopt/opt/algorithms/base.py:SetUp._run_alg"]}
{"id": "C15", "title": "Metrics are evaluated once every metric_call_period iterations", "statement": "With metrics configured and metric_call_period = p, metrics are evaluated after iteration idx exactly when p divides idx, idx is the last iteration or the algorithm has converged; with metric_call_period None never.", "quantifier": "all periods, run lengths and convergence histories", "why_tests_cant": "The documented schedule ranges over all histories; the code tests a one-element tuple, always true, so it is refuted for every p >= 2 and the real schedule (every iteration) is proved.", "anchors": ["src/modopt/opt/algorithms/base.py:SetUp._iterations"]}
{"id": "C16", "title": "Early-stopping metrics stop the algorithm", "statement": "If an early-stopping metric raises its convergence flag at iteration i, the run stops at iteration i+1.", "quantifier": "all runs of ForwardBackward, POGM, Condat, gradient descent and GenForwardBackward with and without a cost function", "why_tests_cant": "Quantifies over all runs; it is false without a cost object and in GenForwardBackward, and proved otherwise.", "anchors": ["src/modopt/opt/algorithms/forward_backward.py:ForwardBackward._update", "src/modopt/opt/algorithms/forward_backward.py:GenForwardBackward._update", "src/modopt/opt/algorithms/forward_backward.py:POGM._update", "src/modopt/opt/algorithms/primal_dual.py:Condat._update", "src/modopt/opt/algorithms/gradient_descent.py:GenericGradOpt._update", "src/modopt/opt/algorithms/base.py:SetUp.any_convergence_flag"]}
{"id": "C17", "title": "The cost is evaluated exactly every cost_interval iterations", "statement": "Over any sequence of get_cost calls the n-th call (n from 1) evaluates and records the cost iff cost_interval divides n; with cost_interval None the cost is never evaluated and get_cost always returns False; the recorded history is exactly the list of those costs.", "quantifier": "all call sequences, all positive intervals and None", "why_tests_cant": "Invariant over unbounded call histories.", "anchors": ["src/modopt/opt/cost.py:CostParent.get_cost", "src/modopt/opt/cost.py:CostParent.__init__"]}
{"id": "C18", "title": "Convergence is declared only on full windows that pass the relative-change test", "statement": "get_cost returns True at call n iff n = k*cost_interval with k a positive multiple of test_range and the mean of the newer half of the last test_range costs differs from the mean of the older half by at most tolerance relatively (or rounds to zero at 16 decimals). With test_range 1 (no older half) convergence is reported only when the cost itself rounds to zero, with test_range below 1 never; no cost is used in two windows.", "quantifier": "all cost sequences, intervals, windows and tolerances", "why_tests_cant": "Characterises the answer on every history.", "anchors": ["src/modopt/opt/cost.py:CostParent._check_cost", "src/modopt/opt/cost.py:CostParent.get_cost"]}
{"id": "C19", "title": "The total cost is the sum of the operators' costs", "statement": "costObj evaluates the cost as the sum of cost(x) over its operators; construction raises TypeError when operators is not a list, tuple or array and ValueError when some operator has no cost method, and otherwise succeeds.", "quantifier": "all lists of operators and all arguments", "why_tests_cant": "All operator lists.", "anchors": ["src/modopt/opt/cost.py:costObj._calc_cost", "src/modopt/opt/cost.py:costObj._check_operators"]}
{"id": "C20", "title": "MatrixOperator's adj_op is the adjoint of op", "statement": "<A x, y> = <x, A^* y> for every matrix (real or complex) and all vectors.", "quantifier": "all matrix sizes, real and complex entries, all vectors", "why_tests_cant": "Identity over all vectors and sizes.", "anchors": ["src/modopt/opt/linear/base.py:MatrixOperator", "src/modopt/opt/linear/base.py:Identity"]}
{"id": "C21", "title": "LinearCombo's adj_op is the adjoint of op", "statement": "The combined operator x -> [L_1 x, ..., L_n x] has adjoint sum_i L_i^* y_i. With weights all one adj_op is this adjoint; with weights w it is sum_i w_i L_i^* y_i; without weights the documented/implemented mean is 1/n of the adjoint, so the adjoint identity fails for n >= 2.", "quantifier": "all lists of operator pairs, all vectors, all weights", "why_tests_cant": "Identity over all inputs; the mean scaling is only visible with n >= 2.", "anchors": ["src/modopt/opt/linear/base.py:LinearCombo.op", "src/modopt/opt/linear/base.py:LinearCombo.adj_op"]}
{"id": "C22", "title": "Filter-bank convolution and its adjoint are adjoint", "statement": "For WaveletConvolve with odd-sized filters, <op(x), c> = <x, adj_op(c)> for all images x and coefficient stacks c (FFT/zero-padded 'same' convolution); for even-sized filters it fails.", "quantifier": "all image sizes, all filter banks with odd sizes, all values", "why_tests_cant": "Identity of double sums over every size.", "anchors": ["src/modopt/opt/linear/wavelet.py:WaveletConvolve", "src/modopt/signal/wavelet.py:filter_convolve", "src/modopt/math/convolve.py:convolve"]}
{"id": "C23", "title": "GradBasic.grad is the gradient of GradBasic.cost", "statement": "When trans_op is the adjoint of the linear op, cost(x+d) = cost(x) + <grad(x), d> + 1/2||H d||^2 for all x, d; hence cost is convex and grad(x)=0 iff x is a least-squares solution.", "quantifier": "all linear operators with true adjoint, all observed data, all points", "why_tests_cant": "First-order identity at every point.", "anchors": ["src/modopt/opt/gradient.py:GradBasic._get_grad_method", "src/modopt/opt/gradient.py:GradBasic._cost_method", "src/modopt/opt/gradient.py:GradParent.trans_op_op"]}
{"id": "C24", "title": "Constructing a gradient operator does not change the caller's data except its write flag", "statement": "After GradParent(y, ...) with input_data_writeable False, later writes through the caller's y raise; the values of y are unchanged; non-array data raise TypeError, data of the wrong type raise TypeError, and float-typed operators given integer data freeze only a private copy.", "quantifier": "all inputs and option combinations", "why_tests_cant": "Aliasing effect over all values and types.", "anchors": ["src/modopt/opt/gradient.py:GradParent.obs_data", "src/modopt/base/types.py:check_npndarray", "src/modopt/base/types.py:check_float"]}
{"id": "C25", "title": "Positivity prox is the Euclidean projection on the non-negative orthant", "statement": "Positivity().op(x) is non-negative, is the unique closest non-negative array to x, is idempotent and non-expansive.", "quantifier": "all arrays of any shape with finite entries", "why_tests_cant": "Optimality against every competitor.", "anchors": ["src/modopt/signal/positivity.py:positive", "src/modopt/signal/positivity.py:pos_thresh", "src/modopt/signal/positivity.py:pos_recursive", "src/modopt/opt/proximity.py:Positivity"]}
{"id": "C26", "title": "positive preserves nesting and raises on bad types", "statement": "positive applied to scalars, arrays and ragged (object) arrays returns the same nesting with every negative number replaced by 0 and others unchanged; non numeric inputs raise TypeError; infinite negative entries do not stay finite.", "quantifier": "all nested arrays of unbounded depth, all scalars including infinities and nan", "why_tests_cant": "Unbounded nesting depth.", "anchors": ["src/modopt/signal/positivity.py:positive", "src/modopt/signal/positivity.py:pos_recursive"]}
{"id": "C27", "title": "Soft thresholding is the prox of the weighted l1 norm", "statement": "Up to the final rounding at 15 decimals, thresh(x, t, 'soft') minimises 1/2||x-u||^2 + sum t_i|u_i| over all u, is odd, shrinks magnitudes and is non-expansive.", "quantifier": "all real arrays, all non-negative threshold arrays", "why_tests_cant": "Optimality against every competitor, for every input.", "anchors": ["src/modopt/signal/noise.py:thresh", "src/modopt/opt/proximity.py:SparseThreshold._op_method"]}
{"id": "C28", "title": "Hard thresholding keeps or kills and is a best l0-penalised approximation", "statement": "thresh(x,t,'hard') leaves every entry with |x_i| >= t_i unchanged and zeroes the others; it minimises 1/2||x-u||^2 + sum (t_i^2/2)[u_i != 0]; it is idempotent; other threshold types raise ValueError.", "quantifier": "all real arrays and thresholds", "why_tests_cant": "Optimality against every competitor.", "anchors": ["src/modopt/signal/noise.py:thresh"]}
{"id": "C29", "title": "Ridge.op is the prox of the Ridge cost", "statement": "With the identity linear operator and extra_factor c, Ridge.op(x) minimises 1/2||x-u||^2 + c*w*||u||^2 and its cost is w||u||^2.", "quantifier": "all arrays, positive weights and factors", "why_tests_cant": "Optimality against every competitor.", "anchors": ["src/modopt/opt/proximity.py:Ridge._op_method", "src/modopt/opt/proximity.py:Ridge._cost_method"]}
{"id": "C30", "title": "ElasticNet.op is the prox of the ElasticNet cost", "statement": "With the identity linear operator, ElasticNet.op(x) minimises 1/2||x-u||^2 + c(alpha||u||^2 + beta||u||_1).", "quantifier": "all arrays, non-negative parameters", "why_tests_cant": "Optimality against every competitor.", "anchors": ["src/modopt/opt/proximity.py:ElasticNet._op_method", "src/modopt/opt/proximity.py:ElasticNet._cost_method"]}
{"id": "C31", "title": "GroupLASSO.op is the prox of the group norm", "statement": "GroupLASSO.op(x) minimises 1/2||x-u||^2 + c*w*sum_g ||u_g||_2 where group g collects the entries of the same position across the first axis.", "quantifier": "all coefficient stacks, all positive weights", "why_tests_cant": "Optimality against every competitor.", "anchors": ["src/modopt/opt/proximity.py:GroupLASSO._op_method", "src/modopt/opt/proximity.py:GroupLASSO._cost_method"]}
{"id": "C32", "title": "Ordered weighted l1 cost is the OWL norm", "statement": "OrderedWeightedL1Norm.cost(x) = sum_i w_i |x|_(i) with |x| sorted in decreasing order, the norm whose prox op computes; weights must be non-increasing and non-negative or construction raises ValueError.", "quantifier": "all arrays and admissible weights", "why_tests_cant": "Holds or fails depending on order of data; the code sorts increasingly, so it is refuted and the exact relation proved.", "anchors": ["src/modopt/opt/proximity.py:OrderedWeightedL1Norm"]}
{"id": "C33", "title": "k-support prox shrinks, keeps signs, and does not change its own configuration", "statement": "KSupportNorm.op(x) has entries with the sign of x and magnitude at most |x|; op does not change the operator's k so later calls on larger data use the configured k.", "quantifier": "all arrays, all k, all call histories", "why_tests_cant": "History dependence is invisible to single-call tests.", "anchors": ["src/modopt/opt/proximity.py:KSupportNorm._op_method", "src/modopt/opt/proximity.py:KSupportNorm._compute_theta", "src/modopt/opt/proximity.py:KSupportNorm.k_value"]}
{"id": "C34", "title": "Composition with an orthonormal transform gives the prox of the composed function", "statement": "If linear_op is unitary (adj_op inverse and adjoint) and prox_op.op is the prox of g then LinearCompositionProx.op is the prox of g∘L, and its cost is g(Lx).", "quantifier": "all unitary operators, all prox operators, all inputs", "why_tests_cant": "All operators and points.", "anchors": ["src/modopt/opt/proximity.py:LinearCompositionProx"]}
{"id": "C35", "title": "ProximityCombo acts independently on each block and is the prox of the sum", "statement": "ProximityCombo.op applied to a list of n arrays applies the i-th operator to the i-th array; when each is a prox of g_i the result is the prox of sum g_i(x_i); cost is the sum of costs.", "quantifier": "all operator lists and data lists", "why_tests_cant": "All operator lists.", "anchors": ["src/modopt/opt/proximity.py:ProximityCombo._op_method", "src/modopt/opt/proximity.py:ProximityCombo._cost_method", "src/modopt/opt/proximity.py:ProximityCombo._check_operators"]}
{"id": "C36", "title": "FISTA restart parameters are accepted exactly when documented", "statement": "FISTA(...) succeeds iff the restart strategy is None or one of the four documented names, and then only in regular mode, with min_beta and s_greedy>1 for greedy and xi_restart<1 where needed; otherwise it raises ValueError.", "quantifier": "all combinations of the arguments", "why_tests_cant": "Full decision table; the invalid-name branch raises TypeError instead.", "anchors": ["src/modopt/opt/algorithms/forward_backward.py:FISTA.__init__", "src/modopt/opt/algorithms/forward_backward.py:FISTA._check_restart_params"]}
{"id": "C37", "title": "Regular FISTA momentum sequence is well behaved", "statement": "In regular mode with p >= 0, q >= 0, r >= 0 and p + sqrt(r+q)/2 >= 1 every t_n is at least 1 and the relaxation lambda_n is at least 1; with p > 0 and r >= 4 (in particular the defaults p=1, q=1, r=4) t_n is increasing, unbounded, and lambda_n lies in [1,2) for every n.", "quantifier": "all iteration numbers, parameter triples (p,q,r)", "why_tests_cant": "For every iteration, unbounded.", "anchors": ["src/modopt/opt/algorithms/forward_backward.py:FISTA.update_lambda"]}
{"id": "C38", "title": "The FISTA momentum sequence satisfies the acceleration inequality", "statement": "t_{n+1}^2 - t_{n+1} <= t_n^2 for every n, the condition the O(1/n^2) guarantee needs.", "quantifier": "all n, parameters (p,q,r), a_cd", "why_tests_cant": "For every n; false with the default parameters (refuted), proved for p=1/2, q<=1, r<=4 and for the Chambolle-Dossal mode.", "anchors": ["src/modopt/opt/algorithms/forward_backward.py:FISTA.update_lambda"]}
{"id": "C39", "title": "Chambolle-Dossal momentum has the published closed form", "statement": "In CD mode with a>2 the n-th t is (n+a-1)/a and lambda_n = 1 + (t_{n-1}-1)/t_n for every n.", "quantifier": "all n, all a>2", "why_tests_cant": "All n.", "anchors": ["src/modopt/opt/algorithms/forward_backward.py:FISTA.update_lambda"]}
{"id": "C40", "title": "Restart and greedy step updates stay in their safe range", "statement": "For xi_restart in [0,1] every value update_beta returns stays between min(beta_0, min_beta) and max(beta_0, min_beta) and is at least min_beta once safeguarding has acted; adaptive restarts multiply r_lazy by xi_restart and nothing else changes it; greedy returns lambda=2 always; without a strategy nothing restarts.", "quantifier": "all histories of calls", "why_tests_cant": "All histories.", "anchors": ["src/modopt/opt/algorithms/forward_backward.py:FISTA.is_restart", "src/modopt/opt/algorithms/forward_backward.py:FISTA.update_beta", "src/modopt/opt/algorithms/forward_backward.py:FISTA.update_lambda"]}
{"id": "C41", "title": "Fixed points of forward-backward are exactly the minimisers", "statement": "x is left unchanged by an un-accelerated forward-backward step iff x minimises F+g, for F convex differentiable and prox exact.", "quantifier": "all Hilbert spaces, convex F,g, steps beta>0", "why_tests_cant": "All functions and points.", "anchors": ["src/modopt/opt/algorithms/forward_backward.py:ForwardBackward._update"]}
{"id": "C42", "title": "Forward-backward (ISTA) decreases the objective and converges at rate 1/n", "statement": "With lambda_param=1, no parameter updates, beta<=1/L, the objective at successive iterates never increases and (F+g)(x_n) - (F+g)(x*) <= ||x_0-x*||^2/(2 beta n).", "quantifier": "all convex problems, all n", "why_tests_cant": "All problems, all iteration counts.", "anchors": ["src/modopt/opt/algorithms/forward_backward.py:ForwardBackward._update", "src/modopt/opt/algorithms/forward_backward.py:ForwardBackward.iterate"]}
{"id": "C43", "title": "Accelerated forward-backward converges at rate 1/n^2", "statement": "With lambda_update='fista', step beta<=1/L, no restart, and either Chambolle-Dossal mode (any a>2) or regular mode with p<=1/2, 0<=q<=(2-2p)^2, 0<=r<=4, the proximal iterates satisfy (F+g)(x_n)-(F+g)(x*) <= ||x_0-x*||^2/(2 beta t^2) with t the momentum number two steps earlier; in particular 2||x_0-x*||^2/(beta n^2) for p=1/2, q=1, r=4 and a^2||x_0-x*||^2/(2 beta (n+a-4)^2) in CD mode.", "quantifier": "all convex problems, all n", "why_tests_cant": "All problems, all n.", "anchors": ["src/modopt/opt/algorithms/forward_backward.py:ForwardBackward._update", "src/modopt/opt/algorithms/forward_backward.py:FISTA.update_lambda"]}
{"id": "C44", "title": "The returned solution satisfies the constraint", "statement": "x_final of ForwardBackward lies in the range of the proximity operator (e.g. is non-negative under Positivity).", "quantifier": "all runs", "why_tests_cant": "Must hold for every run; ForwardBackward returns the extrapolated point, so refuted; proved for lambda=1 and for POGM and GenForwardBackward variants as applicable.", "anchors": ["src/modopt/opt/algorithms/forward_backward.py:ForwardBackward.iterate", "src/modopt/opt/algorithms/forward_backward.py:POGM.iterate"]}
{"id": "C45", "title": "Step size and update-rule precedence", "statement": "step_size, when given and non-zero, replaces beta_param/gamma_param (and the gradient-descent eta); a user beta_update/lambda_update callable is applied once per iteration.", "quantifier": "all argument combinations and runs", "why_tests_cant": "All combinations; lambda_update='fista' silently replaces a user beta_update.", "anchors": ["src/modopt/opt/algorithms/forward_backward.py:ForwardBackward.__init__", "src/modopt/opt/algorithms/forward_backward.py:ForwardBackward._update_param"]}
{"id": "C46", "title": "GenForwardBackward weights are a convex combination", "statement": "Construction succeeds with default weights for every number of proximity operators and with user weights iff they have the right length and sum to one.", "quantifier": "all numbers of operators and weight vectors", "why_tests_cant": "All n; float summation makes n=6 fail (refuted in a binary64 model).", "anchors": ["src/modopt/opt/algorithms/forward_backward.py:GenForwardBackward._set_weights"]}
{"id": "C47", "title": "GenForwardBackward fixed points are minimisers", "statement": "If an iteration leaves all auxiliary variables unchanged then x minimises F + sum g_i; with one operator and lambda 1 the iterates coincide with forward-backward.", "quantifier": "all problems and states", "why_tests_cant": "All problems.", "anchors": ["src/modopt/opt/algorithms/forward_backward.py:GenForwardBackward._update"]}
{"id": "C48", "title": "POGM parameters are validated and its iterates are prox outputs", "statement": "sigma_bar outside [0,1] raises ValueError; x_final is always a value returned by the proximity operator; t_n>=1 and xi_n>0 for all n.", "quantifier": "all runs", "why_tests_cant": "All n.", "anchors": ["src/modopt/opt/algorithms/forward_backward.py:POGM.__init__", "src/modopt/opt/algorithms/forward_backward.py:POGM._update", "src/modopt/opt/algorithms/forward_backward.py:POGM.iterate"]}
{"id": "C49", "title": "Condat fixed points are saddle points", "statement": "If a Condat iteration with rho != 0 leaves (x,y) unchanged then x minimises F + g + h∘L (with the primal prox scaled as called) and y is a dual solution.", "quantifier": "all convex problems, tau, sigma>0", "why_tests_cant": "All problems.", "anchors": ["src/modopt/opt/algorithms/primal_dual.py:Condat._update"]}
{"id": "C50", "title": "Condat runs at most (1+n_rewightings)*max_iter updates", "statement": "iterate(max_iter, n_rewightings) runs the base loop once plus once per reweighting and reweights exactly n_rewightings times, with the linear-domain solution.", "quantifier": "all n, all convergence histories", "why_tests_cant": "All histories.", "anchors": ["src/modopt/opt/algorithms/primal_dual.py:Condat.iterate"]}
{"id": "C51", "title": "The ADMM multiplier drives the primal updates", "statement": "ADMM's u and v updates depend on the running multiplier mu so that the constraint A u + B v = b is enforced.", "quantifier": "all problems, all n", "why_tests_cant": "Dependence over all runs; the code never passes mu to the subproblems, refuted: u,v are independent of mu, tau.", "anchors": ["src/modopt/opt/algorithms/admm.py:ADMM._update"]}
{"id": "C52", "title": "FastADMM uses its acceleration and restart parameters", "statement": "eta, tau and the initial v influence the iterates as documented (restart when the combined residual grows).", "quantifier": "all problems, all n", "why_tests_cant": "All runs; c_old and alpha_old are never updated so restart is unreachable; refuted with exact description.", "anchors": ["src/modopt/opt/algorithms/admm.py:FastADMM.__init__", "src/modopt/opt/algorithms/admm.py:FastADMM._update"]}
{"id": "C53", "title": "Vanilla gradient descent performs exactly the proximal gradient recursion", "statement": "VanillaGenericGradOpt iterates x <- x - eta_k grad(x), followed by the prox with factor eta_k exactly when the iteration index is a multiple of epoch_size.", "quantifier": "all objectives, step schedules, epoch sizes, n", "why_tests_cant": "All runs.", "anchors": ["src/modopt/opt/algorithms/gradient_descent.py:GenericGradOpt._update", "src/modopt/opt/algorithms/gradient_descent.py:VanillaGenericGradOpt"]}
{"id": "C54", "title": "Adaptive step accumulators are monotone or bounded as documented", "statement": "AdaGrad's accumulator equals the sum of all squared gradients so effective steps never increase; RMSprop's accumulator is a convex combination bounded by the largest squared gradient.", "quantifier": "all gradient histories", "why_tests_cant": "All histories.", "anchors": ["src/modopt/opt/algorithms/gradient_descent.py:AdaGenericGradOpt", "src/modopt/opt/algorithms/gradient_descent.py:RMSpropGradOpt"]}
{"id": "C55", "title": "Momentum accumulates past gradients", "statement": "MomentumGradOpt's direction after k steps is sum_j beta^(k-j) g_j.", "quantifier": "all histories, beta, epoch_size", "why_tests_cant": "All histories; the direction is reset every epoch so for the default epoch_size 1 it is identical to vanilla.", "anchors": ["src/modopt/opt/algorithms/gradient_descent.py:MomentumGradOpt"]}
{"id": "C56", "title": "ADAM's moment estimates are bias corrected", "statement": "With a constant gradient g, ADAM's first moment estimate equals g at every iteration (the defining property of the bias correction); divisors never vanish.", "quantifier": "all gradient histories and parameters in [0,1)", "why_tests_cant": "All histories; the code compounds the correction so refuted with exact closed form.", "anchors": ["src/modopt/opt/algorithms/gradient_descent.py:ADAMGradOpt"]}
{"id": "C57", "title": "SAGA's direction is the sum of stored gradients", "statement": "After any number of steps the search direction equals the sum of the most recent gradient of each epoch slot.", "quantifier": "all histories", "why_tests_cant": "All histories.", "anchors": ["src/modopt/opt/algorithms/gradient_descent.py:SAGAOptGradOpt"]}
{"id": "C58", "title": "Candes-Wakin-Boyd weights stay positive, never grow, and follow the closed form", "statement": "After any sequence of reweight calls with data x_1..x_k, weight i equals w_i * prod_j 1/(1+|x_j,i|/(n w_i)); weights stay in (0, w_i]; a wrongly-shaped input raises ValueError and leaves the weights unchanged.", "quantifier": "all histories", "why_tests_cant": "All histories.", "anchors": ["src/modopt/opt/reweight.py:cwbReweight.reweight"]}
{"id": "C59", "title": "Reweighting does not modify the caller's weight array", "statement": "The array passed as weights is not modified by reweight.", "quantifier": "all histories", "why_tests_cant": "Aliasing; refuted for float arrays, proved for integer arrays, lists and tuples.", "anchors": ["src/modopt/opt/reweight.py:cwbReweight.__init__", "src/modopt/opt/reweight.py:cwbReweight.reweight", "src/modopt/base/types.py:check_float"]}
{"id": "C60", "title": "Gram-Schmidt yields an orthonormal basis of the same span", "statement": "For linearly independent rows gram_schmidt returns pairwise orthogonal (orthonormal) rows whose first k span the same space as the first k input rows, for every k.", "quantifier": "all numbers of rows, all dimensions", "why_tests_cant": "Induction over rows.", "anchors": ["src/modopt/math/matrix.py:gram_schmidt", "src/modopt/math/matrix.py:project"]}
{"id": "C61", "title": "Image rotation by quarter turns is a bijection of pixels", "statement": "rotate(m, k*pi/2) permutes the pixels of any square image, four quarter turns are the identity, and for odd sizes it is the geometric rotation; non-square input raises ValueError.", "quantifier": "all square sizes", "why_tests_cant": "All sizes; for even sizes it is not the geometric rotation (index -1 wraps).", "anchors": ["src/modopt/math/matrix.py:rotate", "src/modopt/math/matrix.py:rot_matrix"]}
{"id": "C62", "title": "Power method never over-estimates the spectral norm in exact arithmetic", "statement": "After any number of iterations from any starting vector the reported spectral radius is at most the operator norm, and iterations stop by max_iter.", "quantifier": "all operators, starts, iteration counts", "why_tests_cant": "All operators.", "anchors": ["src/modopt/math/matrix.py:PowerMethod"]}
{"id": "C63", "title": "Robust statistics obey their transformation laws", "statement": "mad(x+c)=mad(x), mad(c x)=|c| mad(x), sigma_mad = 1.4826 mad; mse is symmetric, non-negative and zero iff equal; psnr_stack is the mean of psnr.", "quantifier": "all arrays", "why_tests_cant": "All arrays.", "anchors": ["src/modopt/math/stats.py:mad", "src/modopt/math/stats.py:sigma_mad", "src/modopt/math/stats.py:mse", "src/modopt/math/stats.py:psnr", "src/modopt/math/stats.py:psnr_stack"]}
{"id": "C64", "title": "Image metrics depend on magnitudes up to affine intensity changes", "statement": "mse, psnr, snr, nrmse and ssim depend only on the magnitudes of the two images and do not change when the magnitudes of either image undergo m -> a m + b with a>0; normalised values lie in [0,1]; without a mask the metrics are mean((T-R)^2), -10 log10 mse, 10 log10(mean T^2/mse) and sqrt(mse/mean T^2) of the normalised magnitudes; constant images give NaN; masks that are neither None nor arrays raise ValueError.", "quantifier": "all images, masks and affine changes", "why_tests_cant": "All images and masks.", "anchors": ["src/modopt/math/metrics.py:min_max_normalize", "src/modopt/math/metrics.py:mse", "src/modopt/math/metrics.py:psnr", "src/modopt/math/metrics.py:snr", "src/modopt/math/metrics.py:nrmse", "src/modopt/math/metrics.py:ssim"]}
{"id": "C65", "title": "SVD thresholding keeps the requested number of components", "statement": "svd_thresh(x, n_pc=k) hard-thresholds at the k-th singular value so keeps the first k components (and ties), is the identity for k >= rank count; invalid n_pc raises ValueError.", "quantifier": "all matrices given any valid SVD", "why_tests_cant": "All matrices and k; soft thresholding keeps only k-1.", "anchors": ["src/modopt/signal/svd.py:svd_thresh"]}
{"id": "C66", "title": "The fast SVD threshold loop terminates with enough singular values", "statement": "svd_thresh_coef_fast returns after finitely many SVDs, having computed every singular value above the threshold.", "quantifier": "all matrices, thresholds, n_vals, extra_vals", "why_tests_cant": "Loop termination over all inputs; the bound can be jumped over.", "anchors": ["src/modopt/signal/svd.py:svd_thresh_coef_fast"]}
{"id": "C67", "title": "Filters are even and correctly normalised", "statement": "gaussian_filter is even, positive, maximal at 0 and with its default normalisation integrates to 1; mex_hat and mex_hat_dir are even; mex_hat integrates to 0.", "quantifier": "all real arguments, all sigma>0", "why_tests_cant": "All reals.", "anchors": ["src/modopt/signal/filter.py:gaussian_filter", "src/modopt/signal/filter.py:mex_hat", "src/modopt/signal/filter.py:mex_hat_dir"]}
{"id": "C68", "title": "The transpose test accepts exactly adjoint pairs", "statement": "transpose_test's difference is zero for all data iff the operators are adjoint.", "quantifier": "all operators and data", "why_tests_cant": "All operators.", "anchors": ["src/modopt/signal/validation.py:transpose_test"]}
{"id": "C69", "title": "Trimming a filter never loses coefficients", "statement": "trim_filter returns the smallest contiguous block containing all non-zero entries.", "quantifier": "all 2D arrays with a non-zero entry", "why_tests_cant": "All arrays.", "anchors": ["src/modopt/signal/wavelet.py:trim_filter"]}
{"id": "C70", "title": "Convolving a stack convolves each slice", "statement": "convolve_stack applies convolve slice-wise in order; rotating kernels is a half turn; convolution is linear in the data and in the kernel; invalid methods and mismatched dimensions raise ValueError.", "quantifier": "all stacks", "why_tests_cant": "All stacks.", "anchors": ["src/modopt/math/convolve.py:convolve", "src/modopt/math/convolve.py:convolve_stack", "src/modopt/signal/wavelet.py:filter_convolve_stack"]}
{"id": "C71", "title": "Wavelet coefficient flattening is invertible", "statement": "Flattening the coefficient structures of the Torch and CuPy wavelet transforms and regrouping them for the inverse transform recovers the original structure for every decomposition level.", "quantifier": "all levels, coefficient shapes", "why_tests_cant": "All levels.", "anchors": ["src/modopt/opt/linear/wavelet.py:TorchWaveletTransform", "src/modopt/opt/linear/wavelet.py:CupyWaveletTransform"]}
{"id": "C72", "title": "Closing a log detaches all its handlers", "statement": "After close_log every handler of the logger is closed and removed.", "quantifier": "all loggers with any number of handlers", "why_tests_cant": "All handler counts; list mutated during iteration, refuted for >= 2 handlers with exact survivor set.", "anchors": ["src/modopt/interface/log.py:close_log", "src/modopt/interface/log.py:set_up_log"]}
{"id": "C73", "title": "Type checks convert or reject, never silently corrupt", "statement": "check_float accepts exactly ints, floats, lists, tuples and arrays, and preserves values; check_int likewise truncates to integers; other types raise TypeError; already floating inputs are returned unchanged (same object).", "quantifier": "all Python values", "why_tests_cant": "All values.", "anchors": ["src/modopt/base/types.py:check_float", "src/modopt/base/types.py:check_int", "src/modopt/base/types.py:check_callable", "src/modopt/base/types.py:check_npndarray"]}
{"id": "C74", "title": "Backend selection always yields a usable backend", "statement": "get_backend(name) returns the named library when known and installed and otherwise warns and returns numpy; change_backend returns the same object when the array already belongs to the target.", "quantifier": "all names and installed-library sets", "why_tests_cant": "All environments.", "anchors": ["src/modopt/base/backend.py:get_backend", "src/modopt/base/backend.py:change_backend", "src/modopt/base/backend.py:get_array_module", "src/modopt/base/backend.py:move_to_cpu"]}
{"id": "C75", "title": "Executable lookup is first-match", "statement": "is_executable returns normally iff the name with a path is an executable file, or some PATH entry contains an executable file with that name; otherwise raises IOError.", "quantifier": "all file systems and PATHs", "why_tests_cant": "All environments.", "anchors": ["src/modopt/interface/errors.py:is_executable", "src/modopt/interface/errors.py:is_exe", "src/modopt/interface/errors.py:file_name_error"]}
{"id": "C76", "title": "Noise injection has the requested scale and shape", "statement": "add_noise returns data + sigma*noise slicewise; sigma must be scalar or match the first dimension; types other than gauss and poisson raise ValueError.", "quantifier": "all data, sigmas, noise realisations", "why_tests_cant": "All realisations.", "anchors": ["src/modopt/signal/noise.py:add_noise"]}
{"id": "C77", "title": "POGM only rests at minimisers", "statement": "A POGM run started at x keeps every iterate at x if x minimises F+g, and the first update moves the iterate away from every other point.", "quantifier": "all convex problems with exact prox, all step sizes, all numbers of iterations", "why_tests_cant": "All problems and run lengths.", "anchors": ["src/modopt/opt/algorithms/forward_backward.py:POGM"]}
{"id": "C78", "title": "The ADMM cost object computes the documented objective and honours its options", "statement": "ADMMcostObj reports f(u)+g(v)+tau*||Au+Bv-b||^2 and its keyword options (tolerance, cost_interval, ...) configure the cost object.", "quantifier": "all operators, points and options", "why_tests_cant": "All points; refuted: the norm is not squared and option names are passed positionally as values.", "anchors": ["src/modopt/opt/algorithms/admm.py:ADMMcostObj"]}
{"id": "C79", "title": "Condat iterates never move away from a solution", "statement": "With constant parameters, 0 <= rho < 2 and (2 - rho)(1/tau - sigma ||L||^2) >= L_F/2 (for rho <= 1 this follows from 1/tau - sigma ||L||^2 >= L_F/2), the distance (in the algorithm's metric) of the Condat iterates to any saddle point never increases and the squared residuals are summable.", "quantifier": "all convex problems, all starting points, all numbers of iterations", "why_tests_cant": "All runs of any length.", "anchors": ["src/modopt/opt/algorithms/primal_dual.py:Condat"]}
{"id": "C80", "title": "Gradient descent steps have the documented size", "statement": "Every gradient descent class moves by eta/sqrt(speed+epsilon) times the direction, as documented.", "quantifier": "all states, all eta, epsilon", "why_tests_cant": "All states; refuted: the code divides by sqrt(speed)+epsilon, so classes without speed step with eta/epsilon.", "anchors": ["src/modopt/opt/algorithms/gradient_descent.py:GenericGradOpt", "src/modopt/opt/algorithms/gradient_descent.py:SAGAOptGradOpt"]}
{"id": "C81", "title": "SAGA implements equation 7 of its reference", "statement": "SAGAOptGradOpt's direction is new gradient - stored gradient + average of the stored gradients.", "quantifier": "all histories of gradients and epoch sizes", "why_tests_cant": "All histories; refuted: the code computes n times the SAG direction (equation 8).", "anchors": ["src/modopt/opt/algorithms/gradient_descent.py:SAGAOptGradOpt"]}
{"id": "C82", "title": "The power method stops early only when successive estimates agree", "statement": "get_spec_rad leaves its loop before max_iter iterations only if the last two norm estimates differ by less than the tolerance.", "quantifier": "all operators, starting arrays, tolerances and max_iter", "why_tests_cant": "All operators and starting arrays; refuted: the first comparison is with the norm of the unnormalised random array.", "anchors": ["src/modopt/math/matrix.py:PowerMethod"]}
{"id": "C83", "title": "A seeded power method is reproducible", "statement": "Two PowerMethod objects built with the same rng seed compute the same spectral radius.", "quantifier": "all seeds, operators and states of the random source", "why_tests_cant": "All seeds; refuted: the rng argument is discarded.", "anchors": ["src/modopt/math/matrix.py:PowerMethod"]}
{"id": "C84", "title": "The Gaussian kernel has the requested normalisation", "statement": "gaussian_kernel(norm='max') has values in (0,1] with maximum exactly 1; norm='sum' sums to 1; other norms raise ValueError.", "quantifier": "all shapes, sigmas and kernels astropy can return", "why_tests_cant": "All kernels.", "anchors": ["src/modopt/math/stats.py:gaussian_kernel"]}
{"id": "C85", "title": "Masked metrics ignore the masked pixels", "statement": "Changing pixels where the mask is zero does not change a masked metric, and masked ratios are computed from the masked error.", "quantifier": "all images and masks", "why_tests_cant": "All images and masks; refuted: normalisation uses every pixel, snr does not mask the reference, nested calls normalise again.", "anchors": ["src/modopt/math/metrics.py:mse", "src/modopt/math/metrics.py:psnr", "src/modopt/math/metrics.py:snr", "src/modopt/math/metrics.py:nrmse"]}
{"id": "C86", "title": "The directional Mexican hat is a Gaussian profile times a Mexican hat", "statement": "mex_hat_dir(x_gauss, x_mex, sigma) equals the Gaussian profile of x_gauss multiplied by the Mexican hat of x_mex, so it is localised in both directions.", "quantifier": "all coordinates and positive scales", "why_tests_cant": "All reals; refuted: the exponential of the Gaussian is missing, so the filter vanishes at its centre and is unbounded.", "anchors": ["src/modopt/signal/filter.py:mex_hat_dir"]}
{"id": "C87", "title": "Trimming a filter does not change the convolution", "statement": "Convolving with trim_filter(f) gives the same image as convolving with f.", "quantifier": "all images and filters", "why_tests_cant": "All images and filters; refuted: trimming moves the centre, the result is shifted by the distance between the centres; holds for symmetric support.", "anchors": ["src/modopt/signal/wavelet.py:trim_filter"]}
{"id": "C88", "title": "mr_transform receives the caller's arguments", "statement": "call_mr_transform runs mr_transform with exactly the caller's options and the two temporary file names, so a working mr_transform yields the transform of the image for every path.", "quantifier": "all paths, options and images", "why_tests_cant": "All strings; refuted for paths or list options containing whitespace, since the command line is joined with blanks and split again.", "anchors": ["src/modopt/signal/wavelet.py:call_mr_transform", "src/modopt/signal/wavelet.py:execute"]}
{"id": "C89", "title": "call_mr_transform leaves no temporary files behind", "statement": "With remove_files=True the file system is the same after the call, whether it succeeds or raises.", "quantifier": "all behaviours of mr_transform", "why_tests_cant": "All behaviours of an external program; holds on success, refuted on failure.", "anchors": ["src/modopt/signal/wavelet.py:call_mr_transform"]}
{"id": "C90", "title": "get_mr_filters returns the filter bank of the transform", "statement": "If mr_transform convolves with a bank of filters then get_mr_filters returns that bank (without the coarse filter unless asked), for every data shape; with trim the filters come back at their own sizes.", "quantifier": "all shapes and banks", "why_tests_cant": "All shapes and banks; the trim option is refuted for filters of different sizes.", "anchors": ["src/modopt/signal/wavelet.py:get_mr_filters"]}
{"id": "C91", "title": "A logged message is recorded once", "statement": "Each message sent to a log set up with set_up_log is written exactly once to that log's file and to no other log's.", "quantifier": "all histories of set-ups, closes and messages", "why_tests_cant": "All histories; refuted: repeated set-ups of one name stack handlers, and dotted names share messages.", "anchors": ["src/modopt/interface/log.py:set_up_log", "src/modopt/interface/log.py:close_log"]}
{"id": "C92", "title": "move_to_cpu returns a NumPy array or raises ValueError", "statement": "move_to_cpu returns numpy arrays unchanged, transfers CuPy and TensorFlow arrays, and raises ValueError for values that are no arrays.", "quantifier": "all values and installed libraries", "why_tests_cant": "All values and environments; refuted: the ValueError is unreachable.", "anchors": ["src/modopt/base/backend.py:move_to_cpu", "src/modopt/base/backend.py:get_array_module"]}
{"id": "C93", "title": "Torch conversions end up in the target library", "statement": "convert_to_tensor returns a torch tensor for every array and convert_to_cupy_array a CuPy array for every tensor, or ImportError is raised.", "quantifier": "all arrays, tensors and installed libraries", "why_tests_cant": "All environments; refuted for CPU tensors and TensorFlow arrays.", "anchors": ["src/modopt/base/backend.py:convert_to_tensor", "src/modopt/base/backend.py:convert_to_cupy_array"]}
{"id": "C94", "title": "LowRankMatrix.op is the proximity operator of its cost", "statement": "With soft thresholding and no rank estimate, op(X, c) is the unique minimiser of 1/2 |Y - X|^2 + c * cost(Y), where cost is the weighted nuclear norm of the matrix of images; unknown lowr_type values are rejected.", "quantifier": "all image stacks, thresholds and factors", "why_tests_cant": "All matrices and an optimality claim over all competitors.", "anchors": ["src/modopt/opt/proximity.py:LowRankMatrix", "src/modopt/signal/svd.py:svd_thresh"]}
{"id": "C95", "title": "nuclear_norm is the nuclear norm", "statement": "nuclear_norm(A) equals the dual of the spectral norm, does not depend on the decomposition chosen by the library, is a norm, and is invariant under unitary changes of basis.", "quantifier": "all matrices and all valid decompositions", "why_tests_cant": "Universally quantified over matrices and over the non-unique output of the decomposition.", "anchors": ["src/modopt/math/matrix.py:nuclear_norm"]}
{"id": "C96", "title": "A rank estimate keeps LowRankMatrix working over any history of calls", "statement": "With a rank estimate, every call that returns stores the rank of its result and later calls keep working; without one the object never changes.", "quantifier": "all histories of op calls", "why_tests_cant": "All histories; refuted: a blank result stores rank 0 and every later default call raises ValueError.", "anchors": ["src/modopt/opt/proximity.py:LowRankMatrix", "src/modopt/signal/svd.py:svd_thresh_coef_fast"]}
{"id": "C97", "title": "svd_thresh_coef thresholds singular coefficients and is repeatable", "statement": "svd_thresh_coef(A, op, t) keeps exactly the coefficients of A on its left singular vectors whose modulus reaches t times the norm of op applied to that vector, rejects non-callable operators and non-matrices, and gives the same result when called again with the same arguments.", "quantifier": "all matrices, operators and thresholds", "why_tests_cant": "All matrices and operators; repeatability is refuted for array thresholds, which are overwritten in place.", "anchors": ["src/modopt/signal/svd.py:svd_thresh_coef"]}
{"id": "C98", "title": "find_n_pc counts the columns whose autocorrelation is not concentrated at lag zero", "statement": "find_n_pc(u, f) is the number of columns whose squared norm squared is at most f times the energy of their autocorrelation; it grows with f, is at most the number of columns, and raises ValueError when the column length is not a perfect square.", "quantifier": "all matrices and factors", "why_tests_cant": "Universally quantified over matrices and factors; the count can be zero.", "anchors": ["src/modopt/signal/svd.py:find_n_pc"]}
{"id": "C99", "title": "k-support operator is the prox of the squared k-support norm", "statement": "KSupportNorm(beta,k).op(x, extra_factor=c) is the unique minimiser of 1/2|x-u|^2 + (c beta/2) times the squared k-support norm of u.", "quantifier": "all non-empty arrays (real or complex), all beta>0, k>=1, factors c>0", "why_tests_cant": "Optimality over a continuum of competitors and over every branch of the binary search.", "anchors": ["src/modopt/opt/proximity.py:KSupportNorm._op_method", "src/modopt/opt/proximity.py:KSupportNorm._find_alpha", "src/modopt/opt/proximity.py:KSupportNorm._binary_search", "src/modopt/opt/proximity.py:KSupportNorm._interpolate"]}
{"id": "C100", "title": "k-support cost is the function op is the prox of", "statement": "KSupportNorm(beta,k).cost(x) returns beta/2 times the squared k-support norm of x for every k in 1..size, independently of earlier calls.", "quantifier": "all arrays, beta>=0, all k", "why_tests_cant": "Exactness over a continuum of inputs and all branches of the search for q.", "anchors": ["src/modopt/opt/proximity.py:KSupportNorm._cost_method", "src/modopt/opt/proximity.py:KSupportNorm._find_q"]}
{"id": "C101", "title": "WaveletTransform configures the backend as requested", "statement": "The boundary mode, level and extra keyword arguments given to WaveletTransform are those the backend operator uses.", "quantifier": "all modes, levels, backends, keyword arguments", "why_tests_cant": "All configurations.", "anchors": ["src/modopt/opt/linear/wavelet.py:WaveletTransform.__init__", "src/modopt/opt/linear/wavelet.py:CPUWaveletTransform.__init__"]}
{"id": "C102", "title": "CPU wavelet transform handles batches", "statement": "With n_batch > 1, CPUWaveletTransform.op(data)[i] is the transform of data[i] and adj_op inverts it; with one batch adj_op(op(x)) = x.", "quantifier": "all batch sizes, data, transforms with perfect reconstruction", "why_tests_cant": "All batch sizes and data.", "anchors": ["src/modopt/opt/linear/wavelet.py:CPUWaveletTransform.op", "src/modopt/opt/linear/wavelet.py:CPUWaveletTransform.adj_op"]}
{"id": "C103", "title": "Wavelet adjoint is independent of the call history", "statement": "adj_op(coeffs) of the wavelet operators depends only on coeffs, not on which op calls happened before.", "quantifier": "all call histories", "why_tests_cant": "Histories are unbounded.", "anchors": ["src/modopt/opt/linear/wavelet.py:CPUWaveletTransform.adj_op", "src/modopt/opt/linear/wavelet.py:CupyWaveletTransform.adj_op"]}
{"id": "C104", "title": "A transient operator failure does not corrupt the iteration", "statement": "If an operator raises during an update and the user calls iterate again, the sequence of iterates continues as if the failed update had not been started.", "quantifier": "all failure histories of the operators, all update counts", "why_tests_cant": "Crash points and histories are unbounded.", "anchors": ["src/modopt/opt/algorithms/forward_backward.py:ForwardBackward._update", "src/modopt/opt/algorithms/forward_backward.py:GenForwardBackward._update", "src/modopt/opt/algorithms/forward_backward.py:POGM._update", "src/modopt/opt/algorithms/primal_dual.py:Condat._update", "src/modopt/opt/algorithms/admm.py:ADMM._update", "src/modopt/opt/algorithms/gradient_descent.py:GenericGradOpt._update"]}
{"id": "C105", "title": "Metrics record every update of a run", "statement": "With metrics given, iterate records for every update its index, a date and the metric of the state reached by that update, and publishes them under the metric names.", "quantifier": "all algorithms, metrics, start states, iteration counts", "why_tests_cant": "All runs and all metrics.", "anchors": ["src/modopt/opt/algorithms/base.py:SetUp._iterations", "src/modopt/opt/algorithms/base.py:SetUp._compute_metrics", "src/modopt/base/observable.py:MetricObserver.__call__", "src/modopt/base/observable.py:MetricObserver.retrieve_metrics", "src/modopt/opt/algorithms/forward_backward.py:ForwardBackward.retrieve_outputs", "src/modopt/opt/algorithms/forward_backward.py:ForwardBackward.get_notify_observers_kwargs"]}
{"id": "C106", "title": "Published metric results are a snapshot", "statement": "The results found in alg.metrics after iterate do not change when the algorithm is iterated further; time, index and values keep equal lengths.", "quantifier": "all later call sequences", "why_tests_cant": "Sequences of later calls are unbounded.", "anchors": ["src/modopt/base/observable.py:MetricObserver.retrieve_metrics", "src/modopt/opt/algorithms/forward_backward.py:ForwardBackward.retrieve_outputs"]}
{"id": "C107", "title": "Iterating in two calls equals iterating in one", "statement": "iterate(m) followed by iterate(n) gives the same iterate, cost history, metric values and flags as iterate(m+n).", "quantifier": "all m, n, algorithms, metrics", "why_tests_cant": "All splits of all runs.", "anchors": ["src/modopt/opt/algorithms/base.py:SetUp._run_alg", "src/modopt/opt/algorithms/base.py:SetUp._iterations", "src/modopt/opt/algorithms/gradient_descent.py:GenericGradOpt._update"]}
{"id": "C108", "title": "A metric failure does not disable later metrics", "statement": "After a metric raised in one call of iterate, later calls evaluate the metrics again.", "quantifier": "all sessions after a failure", "why_tests_cant": "Sessions are unbounded.", "anchors": ["src/modopt/base/observable.py:Observable.notify_observers", "src/modopt/opt/algorithms/base.py:SetUp._compute_metrics"]}
{"id": "C109", "title": "iterate always sets x_final", "statement": "After iterate(max_iter) returns, x_final is the current iterate, also for max_iter = 0.", "quantifier": "all algorithms, max_iter, operators", "why_tests_cant": "All run lengths.", "anchors": ["src/modopt/opt/algorithms/forward_backward.py:ForwardBackward.iterate", "src/modopt/opt/algorithms/forward_backward.py:GenForwardBackward.iterate", "src/modopt/opt/algorithms/forward_backward.py:POGM.iterate", "src/modopt/opt/algorithms/primal_dual.py:Condat.iterate", "src/modopt/opt/algorithms/admm.py:ADMM.iterate", "src/modopt/opt/algorithms/gradient_descent.py:GenericGradOpt.iterate"]}
{"id": "C110", "title": "A rejected gradient construction leaves the caller's array usable", "statement": "If constructing a gradient object raises, the data array passed to it can still be used exactly as before the call.", "quantifier": "all data values, data types, operators and methods, callable or not", "why_tests_cant": "Every argument list and every failing check.", "anchors": ["src/modopt/opt/gradient.py:GradParent.__init__", "src/modopt/opt/gradient.py:GradParent.obs_data", "src/modopt/opt/gradient.py:GradParent.op", "src/modopt/opt/gradient.py:GradParent.trans_op"]}
{"id": "C111", "title": "Gradient objects use the methods the user supplied", "statement": "A get_grad or cost argument given to a gradient class is the method the object uses.", "quantifier": "all methods, data, data types and operators", "why_tests_cant": "Every method and argument list.", "anchors": ["src/modopt/opt/gradient.py:GradParent.__init__", "src/modopt/opt/gradient.py:GradBasic.__init__", "src/modopt/opt/gradient.py:GradParent.get_grad", "src/modopt/opt/gradient.py:GradParent.cost"]}
{"id": "C112", "title": "grad holds the gradient at the last requested point", "statement": "After any sequence of get_grad calls grad equals H^T(Hx - y) for the last x; before the first call reading it raises.", "quantifier": "all call histories, operators, complex data, data types", "why_tests_cant": "Histories are unbounded.", "anchors": ["src/modopt/opt/gradient.py:GradBasic._get_grad_method", "src/modopt/opt/gradient.py:GradParent.grad"]}
{"id": "C113", "title": "An operator attribute always stays callable", "statement": "Assigning something that is not callable to the op or cost of an operator object is refused and keeps the previous operator.", "quantifier": "all histories of assignments", "why_tests_cant": "Histories are unbounded.", "anchors": ["src/modopt/opt/proximity.py:ProximityParent.op", "src/modopt/opt/proximity.py:ProximityParent.cost", "src/modopt/opt/proximity.py:Positivity.op", "src/modopt/opt/gradient.py:GradParent.op"]}
{"id": "C114", "title": "Reported warnings and errors reach the terminal and the log given", "statement": "warn and catch_error write each message once, in order, to standard error, and to the log when one is given.", "quantifier": "all sequences of reports and logs", "why_tests_cant": "Sequences are unbounded.", "anchors": ["src/modopt/interface/errors.py:warn", "src/modopt/interface/errors.py:catch_error"]}
{"id": "C115", "title": "Cost plots with different output names never overwrite each other", "statement": "The file of an output name shows the costs of the last plot made with that name, whatever other plots are made.", "quantifier": "all sequences of plots, all names", "why_tests_cant": "All names and sequences.", "anchors": ["src/modopt/plot/cost_plot.py:plotCost", "src/modopt/opt/cost.py:CostParent.plot_cost"]}
{"id": "C116", "title": "GenForwardBackward converges to a minimiser", "statement": "With constant parameters gamma > 0 and 0 < lambda < 2 - gamma L/2, the successive solutions converge to a minimiser of F + sum g_i from every starting point, provided some point satisfies the optimality condition with a subgradient of each term.", "quantifier": "all finite-dimensional spaces, convex L-smooth F, finite families of convex terms with exact proximity operators and positive weights of sum 1, starting points and admissible parameters", "why_tests_cant": "A limit over unboundedly many iterations, for every problem.", "anchors": ["src/modopt/opt/algorithms/forward_backward.py:GenForwardBackward._update"]}
{"id": "C117", "title": "ForwardBackward without acceleration converges to a minimiser", "statement": "With relaxation 1, no parameter updates and a step 0 < beta < 2/L, the iterates converge to a minimiser of F + g whenever one exists, and every run that performs enough updates returns a solution as close to it as wanted.", "quantifier": "all finite-dimensional spaces, convex problems, starting points, steps, observers, metrics and cost objects", "why_tests_cant": "A limit over unboundedly many iterations, for every problem.", "anchors": ["src/modopt/opt/algorithms/forward_backward.py:ForwardBackward._update", "src/modopt/opt/algorithms/forward_backward.py:ForwardBackward.iterate", "src/modopt/opt/algorithms/forward_backward.py:ForwardBackward.retrieve_outputs"]}
{"id": "C118", "title": "Condat converges to a saddle point", "statement": "With constant parameters, 0 < rho < 2 and (2 - rho)(1/tau - sigma ||L||^2) > L_F/2 (for rho <= 1 this follows from 1/tau - sigma ||L||^2 > L_F/2), the primal and dual iterates converge to a saddle point of F + (1/tau) g + h(L .), which is the stated problem whenever the primal term is a constraint, provided a saddle point exists.", "quantifier": "all finite-dimensional spaces, convex problems, adjoint pairs, starting points and admissible parameters", "why_tests_cant": "A limit over unboundedly many iterations, for every problem.", "anchors": ["src/modopt/opt/algorithms/primal_dual.py:Condat._update"]}
{"id": "C119", "title": "Chambolle-Dossal acceleration makes the iterates converge", "statement": "With a_cd > 2, no restart strategy and a step 0 < beta <= 1/L, the iterates of the accelerated ForwardBackward (not only their costs) converge to a minimiser whenever one exists, and every run that performs enough updates returns a solution as close to it as wanted.", "quantifier": "all finite-dimensional spaces, convex problems, a > 2, starting points, initial relaxations, steps, observers, metrics and cost objects", "why_tests_cant": "A limit over unboundedly many iterations, for every problem.", "anchors": ["src/modopt/opt/algorithms/forward_backward.py:FISTA.update_lambda", "src/modopt/opt/algorithms/forward_backward.py:FISTA.__init__", "src/modopt/opt/algorithms/forward_backward.py:ForwardBackward._update"]}
{"id": "C120", "title": "Vanilla gradient descent converges to a minimiser", "statement": "VanillaGenericGradOpt with epoch_size 1, a constant step 0 < eta < 2/L and one convex L-smooth gradient converges to a minimiser of F + g from every starting point whenever one exists.", "quantifier": "all finite index sets, real data, convex problems, exact proximity operators, starting points, steps and update indices", "why_tests_cant": "A limit over unboundedly many iterations, for every problem.", "anchors": ["src/modopt/opt/algorithms/gradient_descent.py:VanillaGenericGradOpt", "src/modopt/opt/algorithms/gradient_descent.py:GenericGradOpt._update"]}
{"id": "C121", "title": "Running an algorithm never changes arrays the caller can see", "statement": "Neither the arrays passed to a constructor, nor arrays kept by the operators (observed data, a stored gradient), nor solutions returned by earlier calls of iterate are written to by later updates.", "quantifier": "all six algorithm families, all operators that may return new arrays, their own argument or arrays they keep, all starting heaps and numbers of updates", "why_tests_cant": "Whether two names denote the same array depends on the user's operators; a test fixes one sharing pattern.", "anchors": ["src/modopt/opt/algorithms/forward_backward.py:ForwardBackward._update", "src/modopt/opt/algorithms/forward_backward.py:GenForwardBackward._update", "src/modopt/opt/algorithms/forward_backward.py:POGM._update", "src/modopt/opt/algorithms/forward_backward.py:POGM.__init__", "src/modopt/opt/algorithms/primal_dual.py:Condat._update", "src/modopt/opt/algorithms/admm.py:ADMM._update", "src/modopt/opt/algorithms/admm.py:FastADMM._update", "src/modopt/opt/algorithms/gradient_descent.py:GenericGradOpt._update"]}
{"id": "C122", "title": "Results do not depend on which arrays the operators share", "statement": "The values computed by every algorithm are those of the mathematical recursion, whether the operators return new arrays, their argument, or arrays they keep.", "quantifier": "all six algorithm families, all operators computing given functions with any such sharing, all starting heaps and numbers of updates", "why_tests_cant": "Aliasing is a property of all possible operators, not of the ones in a test.", "anchors": ["src/modopt/opt/algorithms/forward_backward.py:ForwardBackward._update", "src/modopt/opt/algorithms/forward_backward.py:GenForwardBackward._update", "src/modopt/opt/algorithms/forward_backward.py:POGM._update", "src/modopt/opt/algorithms/primal_dual.py:Condat._update", "src/modopt/opt/algorithms/admm.py:ADMM._update", "src/modopt/opt/algorithms/admm.py:FastADMM._update", "src/modopt/opt/algorithms/gradient_descent.py:GenericGradOpt._update"]}
{"id": "C123", "title": "Algorithms accept starting arrays of any numeric data type, without silent loss", "statement": "An algorithm started from integer, real or complex arrays computes exactly the documented update in a kind of number that can hold it; it neither drops part of a number nor refuses a numeric array.", "quantifier": "all starting arrays and operators with any kinds of data type, all parameters and numbers of updates; all data types of PowerMethod and of the results of its operator", "why_tests_cant": "Tests use one data type, mostly float64.", "anchors": ["src/modopt/opt/algorithms/forward_backward.py:ForwardBackward._update", "src/modopt/opt/algorithms/forward_backward.py:GenForwardBackward._update", "src/modopt/opt/algorithms/forward_backward.py:POGM._update", "src/modopt/opt/algorithms/primal_dual.py:Condat._update", "src/modopt/opt/algorithms/admm.py:FastADMM._update", "src/modopt/opt/algorithms/admm.py:FastADMM.__init__", "src/modopt/math/matrix.py:PowerMethod.get_spec_rad"]}
{"id": "C124", "title": "The gradient table of SAGA holds the gradients", "statement": "Whatever the data type of the starting array, SAGAOptGradOpt stores each gradient in its table and later subtracts exactly that gradient.", "quantifier": "all starting arrays, epoch sizes and histories of gradients, of any kind of number", "why_tests_cant": "The loss only shows for gradients the data type of the starting array cannot hold, and grows with the number of updates.", "anchors": ["src/modopt/opt/algorithms/gradient_descent.py:SAGAOptGradOpt.__init__", "src/modopt/opt/algorithms/gradient_descent.py:SAGAOptGradOpt._update_grad_dir"]}
{"id": "C125", "title": "A run whose cost settles is stopped by its cost object", "statement": "When the cost along the iterates converges, an algorithm object with a cost object of positive tolerance stops by itself after a finite number of updates that does not depend on the number asked for, reports convergence and still delivers its solution.", "quantifier": "all algorithm objects, operators, starting points, initial costs, tolerances above zero, cost intervals and test ranges, metrics, and numbers of iterations", "why_tests_cant": "A test runs one problem whose cost settles within the iterations it asks for; that every such run stops is a limit statement.", "anchors": ["src/modopt/opt/cost.py:CostParent._check_cost", "src/modopt/opt/cost.py:CostParent.get_cost", "src/modopt/opt/cost.py:costObj", "src/modopt/opt/algorithms/base.py:SetUp._iterations", "src/modopt/opt/algorithms/forward_backward.py:ForwardBackward.iterate", "src/modopt/opt/algorithms/forward_backward.py:GenForwardBackward.iterate", "src/modopt/opt/algorithms/primal_dual.py:Condat.iterate"]}
{"id": "C126", "title": "Stopping by the cost test certifies a near-optimal solution", "statement": "When the cost object stops a run, the cost of the solution is close to the minimum, as measured by the tolerance.", "quantifier": "all convex problems, step sizes within the convergent range, tolerances, cost intervals, test ranges and starting points", "why_tests_cant": "A test compares one stopped run with a known solution; the distance depends on the step size.", "anchors": ["src/modopt/opt/cost.py:CostParent._check_cost", "src/modopt/opt/algorithms/base.py:SetUp._iterations", "src/modopt/opt/algorithms/forward_backward.py:ForwardBackward.iterate"]}
{"id": "C127", "title": "Errors in the operators are not amplified", "statement": "When the gradient or the proximity operators are computed with small errors at each update, the result differs from that of exact operators by at most the sum of those errors.", "quantifier": "all convex problems, operators with errors of any size, step sizes within the convergent range, starting points and numbers of updates", "why_tests_cant": "A test compares one perturbed run with one exact run; the amplification is a bound over all errors and all lengths.", "anchors": ["src/modopt/opt/algorithms/forward_backward.py:ForwardBackward", "src/modopt/opt/algorithms/forward_backward.py:FISTA", "src/modopt/opt/algorithms/forward_backward.py:GenForwardBackward", "src/modopt/opt/algorithms/primal_dual.py:Condat", "src/modopt/opt/algorithms/gradient_descent.py:VanillaGenericGradOpt"]}
{"id": "C128", "title": "Strongly convex problems are solved at a geometric rate", "statement": "With a smooth and strongly convex data term there is exactly one minimiser, and the distance to it falls by a constant factor below one at each update, from every starting point.", "quantifier": "all smooth and strongly convex data terms, all convex regularisers with exact proximity operators, steps below 2/L, starting points and numbers of updates", "why_tests_cant": "A rate is a bound over all problems and all lengths of run; a test measures one run.", "anchors": ["src/modopt/opt/algorithms/forward_backward.py:ForwardBackward._update", "src/modopt/opt/algorithms/forward_backward.py:ForwardBackward.iterate", "src/modopt/opt/algorithms/gradient_descent.py:VanillaGenericGradOpt", "src/modopt/opt/algorithms/gradient_descent.py:GenericGradOpt._update"]}
{"id": "C129", "title": "The package's operators and ForwardBackward together solve regularised least squares", "statement": "ForwardBackward with GradBasic and SparseThreshold, ElasticNet, Ridge, GroupLASSO or Positivity, with a step of at most the inverse of the squared operator norm, returns a solution whose objective (the sum of the costs these operators report) is within a bound that falls with the number of updates of that of every other array, up to the rounding of the thresholding.", "quantifier": "all real and complex arrays of every shape, data, operators with an adjoint, non-negative weights, starting points, cost functions, metrics and iteration limits", "why_tests_cant": "The unit tests check operators and algorithms separately and compare one run with stored numbers; the claim joins them for every problem.", "anchors": ["src/modopt/opt/algorithms/forward_backward.py:ForwardBackward", "src/modopt/opt/algorithms/forward_backward.py:ForwardBackward.iterate", "src/modopt/opt/gradient.py:GradBasic", "src/modopt/opt/proximity.py:SparseThreshold", "src/modopt/opt/proximity.py:ElasticNet", "src/modopt/opt/proximity.py:Ridge", "src/modopt/opt/proximity.py:GroupLASSO", "src/modopt/opt/proximity.py:Positivity", "src/modopt/signal/noise.py:thresh"]}
{"id": "C130", "title": "The inverse of the power method's estimate is a safe step size", "statement": "The step inv_spec_rad that PowerMethod computes for a gradient's trans_op_op makes ForwardBackward converge.", "quantifier": "all linear operators with an adjoint, random starting arrays, tolerances, iteration limits, extra factors, data, regularisers and starting points", "why_tests_cant": "A test uses one operator and one seed; the estimate approaches the norm from below, so the step is too long by an amount that depends on operator and seed.", "anchors": ["src/modopt/math/matrix.py:PowerMethod", "src/modopt/math/matrix.py:PowerMethod.get_spec_rad", "src/modopt/opt/gradient.py:GradParent.trans_op_op", "src/modopt/opt/gradient.py:GradBasic", "src/modopt/opt/algorithms/forward_backward.py:ForwardBackward"]}
{"id": "C131", "title": "Signs, ranges and exact zeros survive floating-point rounding", "statement": "In floating-point arithmetic: thresholding gives exactly zero up to the threshold and otherwise keeps the sign without growth; hard thresholding and positivity do not round; Ridge, ElasticNet and GroupLASSO never increase a magnitude; reweighting never increases a weight and keeps it bit for bit for a zero datum; normalised images lie in [0,1] and attain 0 and 1; AdaGrad accumulators never decrease; ForwardBackward with Positivity stays exactly non-negative; the FISTA relaxation parameters stay in [1,2].", "quantifier": "every rounding function that is monotone, odd, idempotent and keeps 1/2, 1 and 2 (IEEE double precision is one), all floating-point inputs, gradients, step sizes and numbers of iterations", "why_tests_cant": "Rounding acts differently on every input; a test samples a few of the 2^64 doubles, and boundary cases (entry equal to the threshold, entries below machine precision) are rarely among them.", "anchors": ["src/modopt/signal/noise.py:thresh", "src/modopt/signal/positivity.py:pos_thresh", "src/modopt/opt/proximity.py:Ridge.op", "src/modopt/opt/proximity.py:ElasticNet.op", "src/modopt/opt/proximity.py:GroupLASSO.op", "src/modopt/opt/reweight.py:cwbReweight.reweight", "src/modopt/math/metrics.py:min_max_normalize", "src/modopt/opt/algorithms/gradient_descent.py:AdaGenericGradOpt", "src/modopt/opt/algorithms/gradient_descent.py:RMSpropGradOpt", "src/modopt/opt/algorithms/forward_backward.py:ForwardBackward._update", "src/modopt/opt/algorithms/forward_backward.py:FISTA.update_lambda"]}
{"id": "C132", "title": "ForwardBackward in floating-point arithmetic solves regularised least squares to rounding accuracy", "statement": "With every array operation rounded, ForwardBackward without momentum and with GradBasic and Positivity, soft SparseThreshold or Ridge returns, after n updates, an array within an explicit multiple of n times the rounding error of a point whose objective exceeds the minimum by at most |x0 - x*|^2/(2 beta n); with Positivity the array is exactly non-negative.", "quantifier": "every rounding function with bounded relative and absolute error (IEEE double precision is one), all linear operators with adjoint and a computed gradient of bounded relative error, data, weights, starting arrays, steps up to 1/|op|^2 and numbers of updates", "why_tests_cant": "Rounding errors accumulate over a run in a way that depends on all data; a test compares a few runs with a tolerance chosen by hand and cannot show that errors never amplify.", "anchors": ["src/modopt/opt/algorithms/forward_backward.py:ForwardBackward._update", "src/modopt/opt/algorithms/forward_backward.py:ForwardBackward.iterate", "src/modopt/opt/gradient.py:GradBasic", "src/modopt/opt/proximity.py:Positivity", "src/modopt/opt/proximity.py:SparseThreshold", "src/modopt/opt/proximity.py:Ridge", "src/modopt/signal/noise.py:thresh"]}
{"id": "C133", "title": "AdaGrad converges to a minimiser for every learning rate", "statement": "AdaGenericGradOpt without a regulariser converges to a minimiser of every convex cost with Lipschitz gradient that has one, for every positive eta and epsilon; for non-convex costs bounded below the squared gradients add up to at most an explicit constant; with a projection, one of the first n iterates is within O(1/sqrt n) of the minimum as long as the run stays bounded.", "quantifier": "all such costs, starting arrays, eta > 0, epsilon > 0, epoch sizes, index sequences and numbers of updates", "why_tests_cant": "Convergence is a statement about infinitely many updates and all cost functions; a test runs a few problems for a fixed number of updates.", "anchors": ["src/modopt/opt/algorithms/gradient_descent.py:AdaGenericGradOpt._update_grad_speed", "src/modopt/opt/algorithms/gradient_descent.py:GenericGradOpt._update", "src/modopt/opt/algorithms/gradient_descent.py:GenericGradOpt.iterate", "src/modopt/opt/gradient.py:GradBasic"]}
{"id": "C134", "title": "RMSprop and ADAM converge to a minimiser", "statement": "RMSpropGradOpt and ADAMGradOpt converge to the minimiser of a strongly convex quadratic cost.", "quantifier": "all starting arrays, admissible gamma, eta, epsilon and numbers of updates", "why_tests_cant": "Failure to settle shows only in the limit; a test with a tolerance and few updates passes because the iterates come close to the minimiser before they are driven away.", "anchors": ["src/modopt/opt/algorithms/gradient_descent.py:RMSpropGradOpt._update_grad_speed", "src/modopt/opt/algorithms/gradient_descent.py:ADAMGradOpt._update_grad_speed", "src/modopt/opt/algorithms/gradient_descent.py:GenericGradOpt._update"]}
{"id": "C135", "title": "The package's operators and the splitting algorithms together solve constrained and analysis-regularised least squares", "statement": "Condat with GradBasic, Positivity and soft SparseThreshold on the coefficients of a linear operator, and GenForwardBackward with GradBasic and the operators Positivity and SparseThreshold in either order, stay within (number of updates) times an explicit rounding bound of a sequence that converges to a minimiser, over the non-negative arrays, of the sum of the costs these operators report, whenever there is one.", "quantifier": "all arrays, data, operators with adjoint, non-negative weights, starting points and admissible step sizes, relaxation parameters and weights", "why_tests_cant": "The limit and the interplay of three operators range over all problems; unit tests compare one run with stored numbers.", "anchors": ["src/modopt/opt/algorithms/primal_dual.py:Condat._update", "src/modopt/opt/algorithms/primal_dual.py:Condat.iterate", "src/modopt/opt/algorithms/forward_backward.py:GenForwardBackward._update", "src/modopt/opt/algorithms/forward_backward.py:GenForwardBackward.iterate", "src/modopt/opt/gradient.py:GradBasic", "src/modopt/opt/proximity.py:Positivity", "src/modopt/opt/proximity.py:SparseThreshold"]}
{"id": "C136", "title": "The solution has the shape of the starting array", "statement": "Running an algorithm returns a solution of the shape of the starting array, or raises when the shapes of data and weights do not allow it.", "quantifier": "all shapes of starting array, data and weights, operators, parameters and numbers of updates", "why_tests_cant": "Shapes range over an unbounded family, and unit tests use arrays of equal shapes only.", "anchors": ["src/modopt/opt/algorithms/forward_backward.py:ForwardBackward._update", "src/modopt/opt/algorithms/forward_backward.py:GenForwardBackward._update", "src/modopt/opt/algorithms/forward_backward.py:POGM._update", "src/modopt/opt/algorithms/primal_dual.py:Condat._update", "src/modopt/opt/algorithms/gradient_descent.py:GenericGradOpt._update", "src/modopt/opt/proximity.py:SparseThreshold", "src/modopt/signal/noise.py:thresh", "src/modopt/opt/gradient.py:GradBasic"]}
{"id": "C137", "title": "Storing real data as complex numbers does not change the result", "statement": "Running an algorithm on real data stored in complex arrays gives the result of the real run, with zero imaginary parts, and the same step sizes and restarts.", "quantifier": "all operators that agree on real arrays (in particular the operators of the package), parameters, momentum modes, restart strategies, histories and numbers of updates", "why_tests_cant": "The criteria of the algorithms compare complex numbers with zero, and unit tests run each algorithm on real data.", "anchors": ["src/modopt/opt/algorithms/forward_backward.py:FISTA.is_restart", "src/modopt/opt/algorithms/forward_backward.py:ForwardBackward._update", "src/modopt/opt/algorithms/forward_backward.py:GenForwardBackward._update", "src/modopt/opt/algorithms/forward_backward.py:POGM._update", "src/modopt/opt/algorithms/primal_dual.py:Condat._update", "src/modopt/opt/algorithms/gradient_descent.py:GenericGradOpt._update", "src/modopt/signal/noise.py:thresh", "src/modopt/opt/proximity.py:SparseThreshold"]}
{"id": "C138", "title": "A global phase, and conjugation, of complex data carry over to the result", "statement": "Multiplying all data and the starting point by a complex number of modulus one, or conjugating them, does the same to every iterate.", "quantifier": "all phases, data, operators, parameters, momentum modes, restart strategies, histories and numbers of updates", "why_tests_cant": "The symmetry relates two whole runs and can fail through one comparison at an exact tie.", "anchors": ["src/modopt/opt/algorithms/forward_backward.py:FISTA.is_restart", "src/modopt/opt/algorithms/forward_backward.py:ForwardBackward._update", "src/modopt/opt/algorithms/forward_backward.py:GenForwardBackward._update", "src/modopt/opt/algorithms/forward_backward.py:POGM._update", "src/modopt/opt/algorithms/primal_dual.py:Condat._update", "src/modopt/opt/algorithms/gradient_descent.py:GenericGradOpt._update", "src/modopt/signal/noise.py:thresh", "src/modopt/opt/proximity.py:SparseThreshold"]}
{"id": "C139", "title": "Positivity returns non-negative real numbers for complex data", "statement": "The positivity operator applied to a complex array returns an array of non-negative real numbers.", "quantifier": "all complex arrays", "why_tests_cant": "Complex numbers are compared lexicographically, and unit tests use real arrays.", "anchors": ["src/modopt/signal/positivity.py:pos_thresh", "src/modopt/signal/positivity.py:positive", "src/modopt/opt/proximity.py:Positivity"]}
{"id": "C140", "title": "Reordering or reshaping the data reorders the result", "statement": "Giving the data, the parameters and the starting point in another pixel order or array shape gives the result in that order, with the same step sizes and restarts.", "quantifier": "all bijections of positions, data, operators (in particular the operators of the package), parameters, momentum modes, restart strategies, histories and numbers of updates", "why_tests_cant": "It relates two whole runs for every permutation, and unit tests use one order.", "anchors": ["src/modopt/opt/algorithms/forward_backward.py:FISTA.is_restart", "src/modopt/opt/algorithms/forward_backward.py:ForwardBackward._update", "src/modopt/opt/algorithms/forward_backward.py:GenForwardBackward._update", "src/modopt/opt/algorithms/forward_backward.py:POGM._update", "src/modopt/opt/algorithms/primal_dual.py:Condat._update", "src/modopt/opt/algorithms/gradient_descent.py:GenericGradOpt._update", "src/modopt/signal/noise.py:thresh", "src/modopt/opt/proximity.py:SparseThreshold", "src/modopt/opt/proximity.py:GroupLASSO"]}
{"id": "C141", "title": "The units of the data do not matter", "statement": "Multiplying the data, the starting point and the weights by a positive number multiplies the result by it, and the run stops at the same iteration.", "quantifier": "all positive factors, data, operators, parameters, momentum modes, restart strategies, histories and numbers of updates", "why_tests_cant": "Unit tests use data of one magnitude.", "anchors": ["src/modopt/opt/algorithms/forward_backward.py:FISTA.is_restart", "src/modopt/opt/algorithms/forward_backward.py:ForwardBackward._update", "src/modopt/opt/algorithms/forward_backward.py:GenForwardBackward._update", "src/modopt/opt/algorithms/forward_backward.py:POGM._update", "src/modopt/opt/algorithms/primal_dual.py:Condat._update", "src/modopt/opt/algorithms/gradient_descent.py:GenericGradOpt._update", "src/modopt/opt/algorithms/gradient_descent.py:AdaGenericGradOpt", "src/modopt/signal/noise.py:thresh", "src/modopt/opt/proximity.py:SparseThreshold", "src/modopt/opt/proximity.py:GroupLASSO", "src/modopt/opt/cost.py:CostParent._check_cost"]}
{"id": "C142", "title": "The images of a stack are processed independently", "statement": "When the operators act image by image, running an algorithm on a stack of images gives for each image the result of running it on that image alone.", "quantifier": "all stacks, operators, parameters, momentum modes, restart strategies, histories and numbers of updates", "why_tests_cant": "Unit tests use single arrays; a coupling shows only when the criteria of two images disagree.", "anchors": ["src/modopt/opt/algorithms/forward_backward.py:FISTA.is_restart", "src/modopt/opt/algorithms/forward_backward.py:ForwardBackward._update", "src/modopt/opt/algorithms/forward_backward.py:GenForwardBackward._update", "src/modopt/opt/algorithms/forward_backward.py:POGM._update", "src/modopt/opt/algorithms/primal_dual.py:Condat._update", "src/modopt/opt/algorithms/gradient_descent.py:GenericGradOpt._update", "src/modopt/opt/proximity.py:SparseThreshold"]}
{"id": "C143", "title": "ForwardBackward with a constant relaxation parameter converges", "statement": "Running ForwardBackward with a constant relaxation parameter strictly between 0 and 2 and a constant step at most 1/L makes the iterates and the final result converge to a minimiser, with the excess of the objective bounded by a constant over the number of iterations; above 2 there are convex problems on which the iterates are unbounded.", "quantifier": "all convex problems with an L-smooth data term, proximity operators, starting points, relaxation parameters, steps and numbers of iterations", "why_tests_cant": "Convergence is a statement about infinitely many iterations and all problems; unit tests run a few iterations of one.", "anchors": ["src/modopt/opt/algorithms/forward_backward.py:ForwardBackward.__init__", "src/modopt/opt/algorithms/forward_backward.py:ForwardBackward._update", "src/modopt/opt/algorithms/forward_backward.py:ForwardBackward.iterate"]}
{"id": "C144", "title": "Gradient descent with momentum converges", "statement": "MomentumGradOpt without regulariser, with momentum beta in [0,1) and a constant learning rate below 2(1-beta)/L, never makes the cost larger than at the start, drives the gradient to zero on every smooth cost bounded below, and on convex costs converges to a minimiser with the excess of the cost bounded by a constant over the number of updates, whatever the epoch size and however often the momentum is reset.", "quantifier": "all costs with L-Lipschitz gradient, starting arrays, momenta, learning rates below the bound, epoch sizes, index sequences and numbers of updates", "why_tests_cant": "Convergence concerns infinitely many updates and every pattern of resets.", "anchors": ["src/modopt/opt/algorithms/gradient_descent.py:MomentumGradOpt", "src/modopt/opt/algorithms/gradient_descent.py:GenericGradOpt._update", "src/modopt/opt/algorithms/gradient_descent.py:MomentumGradOpt.reset"]}
{"id": "C145", "title": "Recorded times never decrease", "statement": "The times published with the metrics start at zero and never decrease over any sequence of iterate calls, also when something raised, as long as the clock never runs backwards.", "quantifier": "all algorithms, metrics, sequences of iterate calls, exceptions and non-decreasing clocks", "why_tests_cant": "It concerns every history of calls and failures.", "anchors": ["src/modopt/base/observable.py:MetricObserver.__call__", "src/modopt/base/observable.py:MetricObserver.retrieve_metrics", "src/modopt/opt/algorithms/base.py:SetUp._compute_metrics", "src/modopt/opt/algorithms/base.py:SetUp._iterations"]}
{"id": "C146", "title": "NaN and infinite data are never silently replaced", "statement": "An entry that is NaN in the data or in the starting point is never replaced by a number: the thresholding, ridge, positivity and group operators return NaN there, a denoising run keeps it NaN after every update whatever the parameters and restart strategy, a dense linear operator spreads it to every pixel at the first update, it switches restart strategies off for the whole image, and a NaN or infinite cost is never taken for convergence, so the run performs all the iterations asked for. An infinite datum becomes NaN from the second update on. On finite data nothing changes.", "quantifier": "all arrays with NaN and infinite entries, operators, parameters, update rules, restart strategies, numbers of updates and recorded costs", "why_tests_cant": "Tests use a few finite arrays; the property concerns every position of every non-finite value and every later update.", "anchors": ["src/modopt/opt/algorithms/forward_backward.py:ForwardBackward._update", "src/modopt/opt/algorithms/forward_backward.py:FISTA.is_restart", "src/modopt/opt/proximity.py:SparseThreshold._op_method", "src/modopt/opt/proximity.py:Positivity._op_method", "src/modopt/opt/proximity.py:Ridge._op_method", "src/modopt/opt/proximity.py:GroupLASSO._op_method", "src/modopt/signal/noise.py:thresh", "src/modopt/opt/cost.py:CostParent._check_cost", "src/modopt/opt/cost.py:CostParent.get_cost", "src/modopt/opt/linear/base.py:MatrixOperator"]}
{"id": "C147", "title": "Runs on finite data stay finite", "statement": "With finite data, finite starting arrays and parameters the constructor accepts, no update of the generalised forward-backward, POGM, Condat or gradient descent algorithms produces an infinity or a NaN: every iterate, gradient direction and accumulated speed is the number the algorithm prescribes in exact arithmetic.", "quantifier": "all finite data, operators that map finite arrays to finite arrays, parameters, update rules, histories of indices and gradients and numbers of updates", "why_tests_cant": "Tests run a few problems; a division by zero or an undefined product can appear at any update of any run.", "anchors": ["src/modopt/opt/algorithms/forward_backward.py:GenForwardBackward._update", "src/modopt/opt/algorithms/forward_backward.py:POGM._update", "src/modopt/opt/algorithms/primal_dual.py:Condat._update", "src/modopt/opt/algorithms/gradient_descent.py:GenericGradOpt._update", "src/modopt/opt/algorithms/gradient_descent.py:AdaGenericGradOpt._update_grad_speed", "src/modopt/opt/algorithms/gradient_descent.py:RMSpropGradOpt._update_grad_speed", "src/modopt/opt/algorithms/gradient_descent.py:ADAMGradOpt._update_grad_speed", "src/modopt/opt/algorithms/gradient_descent.py:SAGAOptGradOpt._update_grad_dir"]}
{"id": "C148", "title": "Reweighting recomputes the weights from the latest estimate", "statement": "As in the reference cited by reweight, the weights after a call depend on the initial weights and the data of that call only (w/(1+|x|/(n w))), so that minimising with them never increases the log-sum penalised objective.", "quantifier": "all positive weights, threshold factors and sequences of calls; real and complex data", "why_tests_cant": "The weights after one call are right; that they drift from the reference afterwards, and whether the objective can increase, depends on the whole history of calls.", "anchors": ["src/modopt/opt/reweight.py:cwbReweight.reweight", "src/modopt/opt/reweight.py:cwbReweight.__init__"]}
{"id": "C149", "title": "The primal-dual algorithm closes the gap at rate 1/n", "statement": "With constant parameters, relaxation between 0 and 2 and (2-rho)(1/tau - sigma |L|^2) at least the Lipschitz constant of the gradient, the averaged points of n updates of Condat close the gap of the Lagrangian at rate 1/n; with a Lipschitz dual term the objective at the averaged primal point exceeds the minimum by at most (|x0-u|^2/tau + (|y0|+M)^2/sigma)/(rho n), from every starting point.", "quantifier": "all convex problems, operators, starting points, parameters in the stated range and numbers of updates", "why_tests_cant": "A test sees a few problems for a few iterations; a rate is a bound for every problem and every number of updates.", "anchors": ["src/modopt/opt/algorithms/primal_dual.py:Condat._update", "src/modopt/opt/algorithms/primal_dual.py:Condat.__init__"]}
{"id": "C150", "title": "Reweighting changes the problem that is being solved", "statement": "When Condat.iterate runs with a reweighting object, every block of iterations after a reweighting uses the reweighted thresholds in its dual proximity operator.", "quantifier": "all weights, however supplied, all problems, cost objects, observers, numbers of iterations and reweightings", "why_tests_cant": "Whether two objects share one array is not visible in any result of either object alone; the claim is about complete runs for all problems.", "anchors": ["src/modopt/opt/algorithms/primal_dual.py:Condat.iterate", "src/modopt/opt/reweight.py:cwbReweight.reweight", "src/modopt/opt/reweight.py:cwbReweight.__init__", "src/modopt/opt/proximity.py:SparseThreshold.__init__", "src/modopt/opt/proximity.py:SparseThreshold._op_method"]}
{"id": "C151", "title": "Watching a run does not change it", "statement": "Requesting metrics (any number, any period other than zero) on an algorithm object changes nothing else: over every sequence of iterate calls, each call makes the same updates, raises the same exception or none and leaves the same iterates, cost history and convergence flag as the same object without metrics, provided the metrics succeed and either none of them asks for early stopping, or there is no cost object, or the algorithm tests the cost only. Without these provisos, two runs that make the same updates still end in the same state.", "quantifier": "all algorithms, updates, metrics, cost objects, clocks, periods and sequences of iterate calls", "why_tests_cant": "A test compares two runs of one algorithm; the claim is about all histories of calls, including those that end in exceptions.", "anchors": ["src/modopt/opt/algorithms/base.py:SetUp._iterations", "src/modopt/opt/algorithms/base.py:SetUp._compute_metrics", "src/modopt/opt/algorithms/base.py:SetUp.any_convergence_flag", "src/modopt/base/observable.py:Observable.notify_observers", "src/modopt/base/observable.py:MetricObserver.__call__"]}
{"id": "C152", "title": "Successive solutions approach each other at a guaranteed rate", "statement": "Without acceleration, on a convex problem with a solution and with constant parameters in the safe range, the change made by update n+1 of ForwardBackward, GenForwardBackward, Condat (in its own metric) and VanillaGenericGradOpt is at most an explicit constant, a multiple of the distance from the starting point to a solution, over the square root of n+1; for ForwardBackward and Condat the changes never increase; and for ForwardBackward with step at most 1/L a small change certifies a nearly optimal objective.", "quantifier": "all convex problems with exact proximity operators, all starting points, step sizes and relaxations in the safe range, all numbers of updates", "why_tests_cant": "A test sees the changes of one run; the bound is over all problems and numbers of updates.", "anchors": ["src/modopt/opt/algorithms/forward_backward.py:ForwardBackward._update", "src/modopt/opt/algorithms/forward_backward.py:GenForwardBackward._update", "src/modopt/opt/algorithms/primal_dual.py:Condat._update", "src/modopt/opt/algorithms/gradient_descent.py:GenericGradOpt._update"]}
{"id": "C153", "title": "Zeros of the solution are found after finitely many updates", "statement": "Least squares with an l1 penalty, solved by ForwardBackward without acceleration with GradBasic and SparseThreshold (soft) and a step size up to 2 over the squared operator norm: wherever the solution is zero its gradient is at most the weight, and if it is smaller by a margin, the number of iterates in which that entry is not zero is at most the squared distance from the starting point to the solution over the squared product of step size and margin, however long the run. The rounding in thresh never creates a non-zero entry, and adds at most n times its size to the distance.", "quantifier": "all linear operators with an adjoint, all data, weights, shapes, real or complex arrays, starting points, step sizes in the range, all minimisers and numbers of updates", "why_tests_cant": "A test sees the zeros of one run; the bound is on all iterates of all runs.", "anchors": ["src/modopt/opt/algorithms/forward_backward.py:ForwardBackward._update", "src/modopt/opt/proximity.py:SparseThreshold._op_method", "src/modopt/signal/noise.py:thresh", "src/modopt/opt/gradient.py:GradBasic._get_grad_method"]}
{"id": "C154", "title": "Zero groups and active bounds are found after finitely many updates", "statement": "ForwardBackward without acceleration with GradBasic and a step size up to 2 over the squared operator norm. With Positivity: an entry in which the non-negative least squares solution is zero and its gradient positive is positive in at most (distance from the start to the solution / (step * gradient))^2 of all iterates. With GroupLASSO, thresholds not below its guard 2^-23: a group that is zero in the solution with a gradient below the weight is non-zero in at most (distance / (step * margin))^2 of all iterates. Below the guard this fails: such a group can stay non-zero in every iterate.", "quantifier": "all linear operators with an adjoint, all data, weights, shapes, starting points, step sizes in the range, all minimisers and all iterates", "why_tests_cant": "A test sees one run; the bound is on all iterates of all runs.", "anchors": ["src/modopt/opt/algorithms/forward_backward.py:ForwardBackward._update", "src/modopt/opt/proximity.py:Positivity", "src/modopt/opt/proximity.py:GroupLASSO", "src/modopt/opt/gradient.py:GradBasic._get_grad_method"]}
{"id": "C155", "title": "Algorithms agree where their problems overlap", "statement": "On a problem with one smooth term and one proximity operator, started at the same point with the same step size and no relaxation, ForwardBackward, GenForwardBackward with one operator of weight one, Condat with a vanishing adjoint (its primal operator containing the step size, which Condat does not pass on) and VanillaGenericGradOpt with one function compute the same solution at every update. With relaxation GenForwardBackward and Condat still agree, but ForwardBackward does not: after two updates it differs from them by (1 - lambda)^2 times the first change.", "quantifier": "all gradients and proximity operators (no convexity or linearity assumed), starting points, step sizes, relaxation parameters, dual operators and numbers of updates; for GenForwardBackward also all step size update rules", "why_tests_cant": "Equality of the iterates for all operators and numbers of updates.", "anchors": ["src/modopt/opt/algorithms/forward_backward.py:ForwardBackward._update", "src/modopt/opt/algorithms/forward_backward.py:GenForwardBackward._update", "src/modopt/opt/algorithms/primal_dual.py:Condat._update", "src/modopt/opt/algorithms/gradient_descent.py:GenericGradOpt._update"]}
{"id": "C156", "title": "Weights above the correlations with the data give exactly zero", "statement": "If no weight is below the modulus of the correlation of the data with that entry, zero minimises the l1-regularised least squares cost, and ForwardBackward with GradBasic and soft SparseThreshold, started at zero, stays at zero exactly and returns it, for every acceleration mode, restart strategy and parameter update that keeps the step size non-negative; also in floating-point arithmetic. Conversely an entry whose correlation exceeds its weight by more than the threshold guard and rounding, relative to the step size, is non-zero after the first update.", "quantifier": "all data, linear operators with correct adjoint, weights, step sizes, relaxation, acceleration and restart settings, iteration numbers, real or complex arrays; for the floating-point part all roundings and computed gradients", "why_tests_cant": "Exact zeros for all data and all run lengths, under any acceleration; a test covers single problems.", "anchors": ["src/modopt/opt/algorithms/forward_backward.py:ForwardBackward._update", "src/modopt/opt/algorithms/forward_backward.py:FISTA.update_beta", "src/modopt/opt/proximity.py:SparseThreshold._op_method", "src/modopt/signal/noise.py:thresh", "src/modopt/opt/gradient.py:GradBasic._get_grad_method"]}
{"id": "C157", "title": "Fitted values are determined by the data and never amplify a change of the data", "statement": "For least squares with any convex penalty or constraint, the fitted values op(x) and the residuals at solutions for two data sets differ by at most the difference of the data; for the same data they are equal, and so are the data term and the penalty, whatever the starting point, step size or acceleration, although the solutions themselves may differ. The fitted values of ForwardBackward approach those of the solutions as 1/sqrt(n) without acceleration and as 1/n with the default FISTA parameters, also with the guard and rounding of SparseThreshold up to their accumulated size.", "quantifier": "all data, additive operators with correct adjoint, convex penalties on convex sets, starting points, admissible step sizes, numbers of updates, observers and cost objects; spaces of any dimension for the rates", "why_tests_cant": "Inequalities for all pairs of data and all runs; non-unique solutions make a test on the solution itself meaningless.", "anchors": ["src/modopt/opt/gradient.py:GradBasic._get_grad_method", "src/modopt/opt/gradient.py:GradBasic._cost_method", "src/modopt/opt/algorithms/forward_backward.py:ForwardBackward._update", "src/modopt/opt/algorithms/forward_backward.py:FISTA.update_lambda", "src/modopt/opt/proximity.py:SparseThreshold._op_method"]}
{"id": "C158", "title": "More regularisation never gives a larger penalty", "statement": "Raising the threshold of thresh (soft or hard), or the weights of SparseThreshold, Ridge, ElasticNet or GroupLASSO, never increases the modulus of any entry of the result and never revives an entry set to zero, guard and rounding included. Multiplying the penalty by a larger factor never increases the penalty at the solution and never decreases the data term there; the results of two ForwardBackward runs obey this up to an error of order one over the number of updates, and their limits obey it exactly.", "quantifier": "all real and complex arrays, thresholds of either sign, weights, non-negative factors; all smooth data terms and convex penalties, pairs of factors, starting points, admissible step sizes, numbers of updates, observers and cost objects", "why_tests_cant": "Order between two runs or two calls for every pair of parameters and all data.", "anchors": ["src/modopt/signal/noise.py:thresh", "src/modopt/opt/proximity.py:SparseThreshold._op_method", "src/modopt/opt/proximity.py:Ridge._op_method", "src/modopt/opt/proximity.py:ElasticNet._op_method", "src/modopt/opt/proximity.py:GroupLASSO._op_method", "src/modopt/opt/algorithms/forward_backward.py:ForwardBackward._update"]}
