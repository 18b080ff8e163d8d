{"id": "C01", "title": "change_config raises and lowers exactly the requested indices", "statement": "For a tensor of any rank whose parent metric is covariant and invertible, every component of change_config(newconfig) equals the sum over all multi-indices of the original components times one metric factor (lowered index) or one inverse-metric factor (raised index) per changed slot, unchanged slots being carried through; slots keep their order.", "quantifier": "all ranks, all dimensions, all 'u'/'l' configurations, all component values, all invertible metrics", "why_tests_cant": "rank, dimension and component expressions are unbounded; tests fix one rank-2/3/4 tensor in 4D", "anchors": ["src/einsteinpy/symbolic/tensor.py:_change_config", "src/einsteinpy/symbolic/tensor.py:_difference_list", "src/einsteinpy/symbolic/ricci.py:RicciTensor.change_config"]}
{"id": "C02", "title": "index moves compose and round-trip", "statement": "Changing a tensor to configuration b and then to c gives the same components as changing directly to c; in particular returning to the original configuration restores the original tensor.", "quantifier": "all ranks, dimensions, configurations a,b,c, components and invertible symmetric or non-symmetric metrics for which it holds", "why_tests_cant": "an algebraic law over unbounded ranks and histories of moves", "anchors": ["src/einsteinpy/symbolic/tensor.py:_change_config", "src/einsteinpy/symbolic/riemann.py:RiemannCurvatureTensor.change_config"]}
{"id": "C03", "title": "change_config rejects bad requests and labels good ones", "statement": "change_config raises when no parent metric is known, raises ValueError when the new configuration has the wrong length or other letters, raises when the metric is singular, and otherwise returns a tensor of the same order and symbols, with config=newconfig, parent metric=the metric used and the name suffixed by '__'+newconfig.", "quantifier": "all tensors of every tensor class, all strings passed as newconfig, optional metric given or not", "why_tests_cant": "every branch for every class and string", "anchors": ["src/einsteinpy/symbolic/tensor.py:_change_config", "src/einsteinpy/symbolic/christoffel.py:ChristoffelSymbols.change_config", "src/einsteinpy/symbolic/vector.py:GenericVector.change_config", "src/einsteinpy/symbolic/weyl.py:WeylTensor.change_config"]}
{"id": "C04", "title": "tensor_product is the outer product / single contraction, and refuses like-index sums", "statement": "Without indices, tensor_product(T1,T2) has components T1*T2 and the concatenated configuration; with indices i,j it has components sum_k T1[..k..]T2[..k..] with both slots removed from components and configuration; contracting two upper or two lower indices raises ValueError; supplying exactly one of i,j is an error, never a silently uncontracted product.", "quantifier": "all ranks, dimensions, components, all i, j (present or absent)", "why_tests_cant": "ranks and index positions are unbounded; the one-index-missing combinations are never tested", "anchors": ["src/einsteinpy/symbolic/tensor.py:tensor_product"]}
{"id": "C05", "title": "lorentz_transform applies the matrix to every slot, once each", "statement": "Components of lorentz_transform(L) are the sums over all old multi-indices of L[new,old] for each 'u' slot and L[old,new] for each 'l' slot times the old components; the identity matrix changes nothing; transforming by L and then by L' equals transforming an all-'u' tensor by L'L and an all-'l' tensor by LL'.", "quantifier": "all ranks, dimensions, configurations, matrices, components", "why_tests_cant": "unbounded rank and arbitrary matrices", "anchors": ["src/einsteinpy/symbolic/tensor.py:BaseRelativityTensor.lorentz_transform"]}
{"id": "C06", "title": "lorentz_transform preserves scalars built by contraction", "statement": "Contracting an upper with a lower index commutes with lorentz_transform by any invertible matrix, so that v^a w_a is the same before and after.", "quantifier": "all vectors, covectors and invertible transformation matrices", "why_tests_cant": "quantifies over every matrix; the tests only use symmetric boosts on a single tensor", "anchors": ["src/einsteinpy/symbolic/tensor.py:BaseRelativityTensor.lorentz_transform"]}
{"id": "C07", "title": "tensor constructors establish order = rank = len(config)", "statement": "Every tensor a constructor returns has order, array rank and len(config) equal, configuration letters only 'u'/'l', leading axis length equal to the number of symbols (unless it is a scalar), and each specialised class has its fixed order; every other argument raises TypeError or ValueError.", "quantifier": "all arrays, configurations and symbol lists, all tensor classes", "why_tests_cant": "all combinations of arguments", "anchors": ["src/einsteinpy/symbolic/tensor.py:Tensor.__init__", "src/einsteinpy/symbolic/tensor.py:BaseRelativityTensor.__init__", "src/einsteinpy/symbolic/metric.py:MetricTensor.__init__", "src/einsteinpy/symbolic/vector.py:GenericVector.__init__"]}
{"id": "C08", "title": "subs keeps the index configuration", "statement": "subs() replaces expressions in the components and returns a tensor with the same configuration, order and name, for tensors of every rank and configuration.", "quantifier": "all tensors of all ranks and configurations, all substitutions", "why_tests_cant": "tests only substitute in covariant rank-2 tensors", "anchors": ["src/einsteinpy/symbolic/tensor.py:Tensor.subs"]}
{"id": "C09", "title": "metric inverse and its cache are invisible", "statement": "For any sequence of change_config / inv / lower_config calls on a covariant or contravariant invertible metric and on metrics obtained from it, every returned object has the components, configuration and symbols the uncached definition gives (itself or the matrix inverse) or raises the same exception; existing objects never change value; for a metric constructed by the user inv().inv() is the very same object after any history; and change_config to the current configuration returns the same object.", "quantifier": "all metrics, all finite histories of calls on all reachable metric objects", "why_tests_cant": "the cache makes results history dependent; tests run only short fixed histories", "anchors": ["src/einsteinpy/symbolic/metric.py:MetricTensor.change_config", "src/einsteinpy/symbolic/metric.py:MetricTensor.inv", "src/einsteinpy/symbolic/metric.py:MetricTensor.lower_config"]}
{"id": "C10", "title": "lower_config returns the covariant metric", "statement": "lower_config() returns g_ab whatever configuration ('ll','uu','ul','lu') the metric object was constructed with.", "quantifier": "all metric configurations and components", "why_tests_cant": "mixed-configuration metrics are accepted by the constructor but never tested", "anchors": ["src/einsteinpy/symbolic/metric.py:MetricTensor.lower_config", "src/einsteinpy/symbolic/metric.py:MetricTensor.__init__"]}
{"id": "C11", "title": "simplification never moves or drops components", "statement": "simplify_sympy_array / Tensor.simplify returns an array of the same shape whose component at every multi-index is the simplification of the component that was there.", "quantifier": "all shapes (all ranks and axis lengths) and all entries", "why_tests_cant": "arbitrary nesting depth and sizes", "anchors": ["src/einsteinpy/symbolic/helpers.py:simplify_sympy_array", "src/einsteinpy/symbolic/helpers.py:_flatten_list"]}
{"id": "C12", "title": "declared variables are the free symbols and lambdify argument order is deterministic", "statement": "variables lists, sorted by name and without repetition, exactly the free symbols of the components that are not coordinates, for constructed tensors and for tensors returned by tensor_product; tensor_lambdify() with no arguments takes the coordinates followed by variables.", "quantifier": "all component expressions, coordinate lists, all pairs of tensors multiplied", "why_tests_cant": "unbounded expressions and symbol sets", "anchors": ["src/einsteinpy/symbolic/tensor.py:BaseRelativityTensor.__init__", "src/einsteinpy/symbolic/tensor.py:BaseRelativityTensor.tensor_lambdify", "src/einsteinpy/symbolic/tensor.py:tensor_product"]}
{"id": "C13", "title": "Christoffel symbols are the Levi-Civita formula and torsion free", "statement": "ChristoffelSymbols.from_metric(g)[i,j,k] = 1/2 sum_n g^{in}(d_k g_nj + d_j g_nk - d_n g_jk) for all i,j,k, and is symmetric in the last two indices; a singular metric raises.", "quantifier": "all dimensions, all symmetric invertible metrics with arbitrary component functions", "why_tests_cant": "unbounded dimension, arbitrary functions; half of the entries come from a mirror assignment", "anchors": ["src/einsteinpy/symbolic/christoffel.py:ChristoffelSymbols.from_metric"]}
{"id": "C14", "title": "the connection is metric compatible", "statement": "d_k g_ij = sum_m (Gamma^m_ki g_mj + Gamma^m_kj g_im) with Gamma = ChristoffelSymbols.from_metric(g).", "quantifier": "all dimensions, all symmetric invertible metrics", "why_tests_cant": "identity over all metrics", "anchors": ["src/einsteinpy/symbolic/christoffel.py:ChristoffelSymbols.from_metric"]}
{"id": "C15", "title": "Riemann tensor formula, antisymmetry and first Bianchi identity", "statement": "RiemannCurvatureTensor.from_metric(g)[t,s,r,n] is the documented expression in the Christoffel symbols; it is antisymmetric in r,n and its cyclic sum over s,r,n vanishes.", "quantifier": "all dimensions, all symmetric invertible metrics, all index values", "why_tests_cant": "unbounded dimension and arbitrary functions", "anchors": ["src/einsteinpy/symbolic/riemann.py:RiemannCurvatureTensor.from_christoffels", "src/einsteinpy/symbolic/riemann.py:RiemannCurvatureTensor.from_metric"]}
{"id": "C16", "title": "lowered Riemann tensor has all its algebraic symmetries", "statement": "change_config('llll') of the Riemann tensor is antisymmetric in each pair and symmetric under exchange of the pairs.", "quantifier": "all dimensions, all symmetric invertible metrics with commuting partial derivatives", "why_tests_cant": "identity over all metrics", "anchors": ["src/einsteinpy/symbolic/riemann.py:RiemannCurvatureTensor.change_config", "src/einsteinpy/symbolic/tensor.py:_change_config"]}
{"id": "C17", "title": "Ricci tensor is symmetric; all construction paths agree", "statement": "RicciTensor.from_metric, from_christoffels, from_riemann give the same components, sum_t R^t_atb, symmetric in a,b; RicciScalar is g^{ab}R_ab and agrees for its four constructors, also when the input Riemann/Ricci tensor is supplied in another configuration.", "quantifier": "all dimensions, all symmetric invertible metrics, all configurations of the supplied curvature tensor", "why_tests_cant": "identity over all metrics and configurations", "anchors": ["src/einsteinpy/symbolic/ricci.py:RicciTensor.from_riemann", "src/einsteinpy/symbolic/ricci.py:RicciTensor.from_metric", "src/einsteinpy/symbolic/ricci.py:RicciScalar.from_riccitensor", "src/einsteinpy/symbolic/ricci.py:RicciScalar.from_metric"]}
{"id": "C18", "title": "Einstein tensor is symmetric and divergence free", "statement": "EinsteinTensor.from_metric(g)_ab = R_ab - 1/2 R g_ab, is symmetric, and its covariant divergence vanishes identically (contracted second Bianchi identity).", "quantifier": "all dimensions, all symmetric invertible metrics", "why_tests_cant": "a differential identity over all metrics", "anchors": ["src/einsteinpy/symbolic/einstein.py:EinsteinTensor.from_metric"]}
{"id": "C19", "title": "Weyl tensor is trace free with Riemann symmetries; zero in 3D", "statement": "For dims>3, WeylTensor.from_metric(g) has the pair symmetries of Riemann and all its traces vanish; for dims=3 the returned zero array is the true value of the same formula; dims<3 raises ValueError.", "quantifier": "all dimensions, all symmetric invertible metrics", "why_tests_cant": "identity over all metrics and dimensions", "anchors": ["src/einsteinpy/symbolic/weyl.py:WeylTensor.from_metric"]}
{"id": "C20", "title": "Schouten tensor and the Ricci decomposition", "statement": "SchoutenTensor.from_metric(g) is (Ric - R g/(2(n-1)))/(n-2), symmetric, with trace R/(2(n-1)), and Riemann = Weyl + Kulkarni-Nomizu(Schouten, g); dims<3 raises ValueError.", "quantifier": "all dimensions, all symmetric invertible metrics", "why_tests_cant": "identity over all metrics and dimensions", "anchors": ["src/einsteinpy/symbolic/schouten.py:SchoutenTensor.from_metric"]}
{"id": "C21", "title": "stress-energy tensor solves the documented field equations and is conserved", "statement": "StressEnergyMomentumTensor.from_metric(g) satisfies R_ab - R g_ab/2 + Lambda g_ab = (8 pi G/c^4) T_ab as documented, is symmetric and has zero covariant divergence.", "quantifier": "all dimensions, all symmetric invertible metrics, all values of c, G, Lambda", "why_tests_cant": "identity over all metrics; no test inspects the sign of the cosmological term", "anchors": ["src/einsteinpy/symbolic/stress_energy_momentum.py:StressEnergyMomentumTensor.from_metric", "docs/source/gr_primer.rst"]}
{"id": "C22", "title": "curvature does not depend on how the metric was supplied", "statement": "Passing the contravariant metric ('uu') instead of the covariant one gives the same Christoffel symbols, Riemann, Ricci tensor, Ricci scalar, Einstein, Weyl and Schouten tensors.", "quantifier": "all dimensions, all symmetric invertible metrics", "why_tests_cant": "identity over all metrics", "anchors": ["src/einsteinpy/symbolic/christoffel.py:ChristoffelSymbols.from_metric", "src/einsteinpy/symbolic/einstein.py:EinsteinTensor.from_metric", "src/einsteinpy/symbolic/weyl.py:WeylTensor.from_metric"]}
{"id": "C23", "title": "change_config returns a tensor of its own class", "statement": "For each tensor class, change_config returns an object of that same class (documented return type).", "quantifier": "all tensor classes, all tensors and configurations", "why_tests_cant": "quantifies over classes and inputs", "anchors": ["src/einsteinpy/symbolic/stress_energy_momentum.py:StressEnergyMomentumTensor.change_config", "src/einsteinpy/symbolic/einstein.py:EinsteinTensor.change_config"]}
{"id": "C24", "title": "flattened index loops visit every component exactly once", "statement": "The single loops over dims**3 and dims**4 with digits computed through floating point int(t/dims**k) % dims enumerate every index tuple exactly once, as long as the loop counter is exactly representable; distinct counters never collide.", "quantifier": "all dimensions dims with dims**4 below the floating point exactness bound", "why_tests_cant": "quantifies over all dims; rounding of t/dims**k could in principle reach the next integer", "anchors": ["src/einsteinpy/symbolic/christoffel.py:ChristoffelSymbols.from_metric", "src/einsteinpy/symbolic/riemann.py:RiemannCurvatureTensor.from_christoffels", "src/einsteinpy/symbolic/weyl.py:WeylTensor.from_metric"]}
{"id": "C25", "title": "dual numbers form a commutative ring with the expected division", "statement": "Addition, subtraction, multiplication (with duals and with plain numbers on either side), negation and division of DualNumber satisfy the ring laws, and x/y*y = x whenever y.val is nonzero.", "quantifier": "all dual numbers and reals", "why_tests_cant": "laws over all operands; mixed operand orders have separate code paths", "anchors": ["src/einsteinpy/utils/dual.py:DualNumber.__add__", "src/einsteinpy/utils/dual.py:DualNumber.__mul__", "src/einsteinpy/utils/dual.py:DualNumber.__truediv__", "src/einsteinpy/utils/dual.py:DualNumber.__rtruediv__", "src/einsteinpy/utils/dual.py:DualNumber.__rsub__"]}
{"id": "C26", "title": "automatic differentiation computes exact derivatives", "statement": "For every expression built from + - * / ** (numeric exponent) sin cos tan log exp, evaluating it on DualNumber(x,1) yields (f(x), f'(x)) at every x where all sub-evaluations are regular.", "quantifier": "all expressions (by structural induction), all points of regularity", "why_tests_cant": "infinitely many programs; tests sample a few functions at a few points", "anchors": ["src/einsteinpy/utils/dual.py:DualNumber", "src/einsteinpy/utils/dual.py:_deriv"]}
{"id": "C27", "title": "dual division at 0/0 and other singular points", "statement": "Division by a dual number with zero value follows the l'Hopital rule when both values vanish and otherwise behaves like float division; reverse division and subtraction of a number by a dual are the derivatives of c/x and c-x.", "quantifier": "all operands including zero values", "why_tests_cant": "special branch reachable only at measure-zero inputs", "anchors": ["src/einsteinpy/utils/dual.py:DualNumber.__truediv__", "src/einsteinpy/utils/dual.py:DualNumber.__rtruediv__"]}
{"id": "C28", "title": "_jacobian_g is the symmetric matrix of partial derivatives of the metric", "statement": "_jacobian_g(g, coords, params, wrt) returns, for every metric function symmetric in its two indices, the 4x4 matrix with entries d g[i,j]/d x_wrt, exactly symmetric; wrt outside 0..3 raises ValueError.", "quantifier": "all symmetric metric functions given as programs over dual numbers, all points, all wrt", "why_tests_cant": "arbitrary user-supplied metrics", "anchors": ["src/einsteinpy/utils/dual.py:_jacobian_g", "src/einsteinpy/utils/dual.py:_diff_g"]}
{"id": "C29", "title": "the mixing sub-flow rotates the two copies and preserves their sum", "statement": "The omega-coupling step leaves q1+q2 and p1+p2 unchanged, rotates (q1-q2,p1-p2) by the angle 2*omega*dl in every component, is inverted by the step with -dl, and steps compose additively.", "quantifier": "all states of any dimension, all step sizes and omega", "why_tests_cant": "law over all reals and dimensions", "anchors": ["src/einsteinpy/integrators/utils.py:_flow_mixed"]}
{"id": "C30", "title": "integration steps are time reversible", "statement": "One step of order 2, 4, 6 or 8 followed by one step with the opposite step size returns exactly to the starting state, for every metric (Hamiltonian).", "quantifier": "all Hamiltonians, states, step sizes, omegas and the four supported orders", "why_tests_cant": "universally quantified over metrics and states", "anchors": ["src/einsteinpy/integrators/fantasy.py:GeodesicIntegrator._ord_2", "src/einsteinpy/integrators/fantasy.py:GeodesicIntegrator._ord_4", "src/einsteinpy/integrators/fantasy.py:GeodesicIntegrator._ord_6", "src/einsteinpy/integrators/fantasy.py:GeodesicIntegrator._ord_8"]}
{"id": "C31", "title": "integration steps are symplectic", "statement": "The derivative of every step (orders 2,4,6,8) preserves the canonical symplectic form on the doubled phase space.", "quantifier": "all twice differentiable Hamiltonians, all states, step sizes, orders", "why_tests_cant": "statement about the Jacobian of the step at every point", "anchors": ["src/einsteinpy/integrators/utils.py:_flow_A", "src/einsteinpy/integrators/utils.py:_flow_B", "src/einsteinpy/integrators/utils.py:_flow_mixed", "src/einsteinpy/integrators/fantasy.py:GeodesicIntegrator.step"]}
{"id": "C32", "title": "momenta of cyclic coordinates are conserved", "statement": "If the metric does not depend on coordinate k, then p1[k]+p2[k] is the same after any number of steps of any supported order, and if both copies start equal the conserved value is twice the initial momentum.", "quantifier": "all metrics with a cyclic coordinate, all states, step counts and orders", "why_tests_cant": "unbounded number of steps, all metrics", "anchors": ["src/einsteinpy/integrators/fantasy.py:GeodesicIntegrator", "src/einsteinpy/integrators/utils.py:_flow_A", "src/einsteinpy/integrators/utils.py:_flow_B"]}
{"id": "C33", "title": "Yoshida weights satisfy the order conditions", "statement": "The composition weights used by the order-4, 6 and 8 steps sum to one and satisfy the odd-power order condition sum w^{p+1}=0 needed for the advertised order.", "quantifier": "the weights of each supported order", "why_tests_cant": "finite-precision tests cannot see a missing order; statement over exact real weights", "anchors": ["src/einsteinpy/integrators/utils.py:_Z", "src/einsteinpy/integrators/fantasy.py:GeodesicIntegrator._ord_6", "src/einsteinpy/integrators/fantasy.py:GeodesicIntegrator._ord_8"]}
{"id": "C34", "title": "trajectory bookkeeping", "statement": "calculate_trajectory with N >= 1 steps returns step numbers 0..N-1 and N rows, row k showing the first copy of the state after k+1 applications of the step map to the initial doubled state (the initial state itself is not recorded); N <= 0 raises IndexError; an unsupported order raises NotImplementedError before any step is recorded; with an everywhere smooth metric every run completes.", "quantifier": "all N, all orders, all metrics and initial data", "why_tests_cant": "unbounded N", "anchors": ["src/einsteinpy/integrators/fantasy.py:GeodesicIntegrator.step", "src/einsteinpy/geodesic/geodesic.py:Geodesic.calculate_trajectory"]}
{"id": "C35", "title": "RK4naive stops at t_bound", "statement": "Stepping an RK4naive integrator repeatedly reaches and never passes t_bound.", "quantifier": "all intervals, step sizes and right-hand sides", "why_tests_cant": "quantifies over all step histories", "anchors": ["src/einsteinpy/integrators/runge_kutta.py:RK4naive"]}
{"id": "C36", "title": "RK4naive step is the classical fourth-order Runge-Kutta step", "statement": "For y'=f(t) with f a polynomial of degree at most 3 the step is exact; for the linear equation y'=a*y the step multiplies by the degree-4 Taylor polynomial of exp(a h).", "quantifier": "all cubic polynomials, all linear equations, all step sizes and states", "why_tests_cant": "universally quantified over right-hand sides", "anchors": ["src/einsteinpy/integrators/runge_kutta.py:RK4naive.step"]}
{"id": "C37", "title": "initial momentum is correctly normalised", "statement": "_P completes the three spatial momenta to a four-momentum with g^{ab}P_aP_b = -1 (massive) or 0 (massless), P_0 being the root for which the contravariant time component g^{0b}P_b is non-negative (future directed), for every metric function accepted, and the spatial components are kept.", "quantifier": "all metrics, positions, momenta for which the square root is real", "why_tests_cant": "universally quantified over metrics and momenta", "anchors": ["src/einsteinpy/geodesic/utils.py:_P"]}
{"id": "C38", "title": "shipped contravariant metrics are the inverses of the physical metrics", "statement": "_sch, _kerr and _kerrnewman return symmetric 4x4 matrices that are the inverses of the Boyer-Lindquist Schwarzschild, Kerr and Kerr-Newman covariant metrics, and reduce to each other at a=0 and Q=0.", "quantifier": "all coordinates and parameters away from the singularities", "why_tests_cant": "rational-trigonometric identity over all real arguments", "anchors": ["src/einsteinpy/geodesic/utils.py:_sch", "src/einsteinpy/geodesic/utils.py:_kerr", "src/einsteinpy/geodesic/utils.py:_kerrnewman"]}
{"id": "C39", "title": "Geodesic front end validates its inputs", "statement": "Geodesic rejects unknown metric names with NotImplementedError, ignores metric_params for Schwarzschild, and Timelike/Nulllike set the particle kind.", "quantifier": "all metric names, parameters", "why_tests_cant": "all strings", "anchors": ["src/einsteinpy/geodesic/geodesic.py:Geodesic"]}
{"id": "C40", "title": "Cartesian output is an isometric relabelling", "statement": "With return_cartesian=True time and momenta are untouched and positions are the Cartesian image of the spherical ones, so x^2+y^2+z^2=r^2 in every row.", "quantifier": "all trajectories of any length", "why_tests_cant": "all rows of all trajectories", "anchors": ["src/einsteinpy/geodesic/geodesic.py:Geodesic.calculate_trajectory"]}
{"id": "C41", "title": "spin parameter validation", "statement": "alpha(M,a) returns the length G M a/c^2 exactly when 0<=a<=1 and raises ValueError otherwise.", "quantifier": "all M, a", "why_tests_cant": "all reals including boundaries", "anchors": ["src/einsteinpy/metric/base_metric.py:BaseMetric.alpha"]}
{"id": "C42", "title": "Schwarzschild Christoffel symbols are those of the Schwarzschild metric", "statement": "_ch_sym of Schwarzschild equals 1/2 g^{im}(d_l g_mk + d_k g_ml - d_m g_kl) for its own covariant metric at every point.", "quantifier": "all r, theta, M off the singular set and all index triples", "why_tests_cant": "identity over all points", "anchors": ["src/einsteinpy/metric/schwarzschild.py:Schwarzschild._ch_sym_s", "src/einsteinpy/metric/schwarzschild.py:Schwarzschild._g_cov_s"]}
{"id": "C43", "title": "Kerr metric derivatives are derivatives", "statement": "_dg_dx of Kerr returns the partial derivatives with respect to r and theta of its covariant metric, all other derivatives being zero.", "quantifier": "all points, masses and spins off the singular set", "why_tests_cant": "identity over all points", "anchors": ["src/einsteinpy/metric/kerr.py:Kerr._dg_dx_bl", "src/einsteinpy/metric/kerr.py:Kerr._g_cov_bl"]}
{"id": "C44", "title": "Kerr Christoffel symbols are those of the Kerr metric", "statement": "christoffels of Kerr are symmetric in the lower indices and equal the Levi-Civita formula for its covariant metric; the advertised list of nonzero symbols contains every symbol that can be nonzero.", "quantifier": "all points, masses and spins off the singular set, all index triples", "why_tests_cant": "identity over all points", "anchors": ["src/einsteinpy/metric/kerr.py:Kerr._ch_sym_bl", "src/einsteinpy/metric/kerr.py:Kerr.nonzero_christoffels"]}
{"id": "C45", "title": "the geodesic right-hand side is -Gamma v v", "statement": "f_vec of Schwarzschild and Kerr returns (v, -sum Gamma^i_jk v^j v^k) with all index pairs included, hence g(v,v) is conserved along exact solutions.", "quantifier": "all states", "why_tests_cant": "hand-expanded sums over all states", "anchors": ["src/einsteinpy/metric/schwarzschild.py:Schwarzschild._f_vec_s", "src/einsteinpy/metric/kerr.py:Kerr._f_vec_bl"]}
{"id": "C46", "title": "the Kerr-Newman metric depends on the charge", "statement": "metric_covariant of KerrNewman is the Kerr-Newman line element, reducing to Kerr iff Q=0.", "quantifier": "all points, M, a, Q", "why_tests_cant": "no test compares with an independent formula", "anchors": ["src/einsteinpy/metric/kerrnewman.py:KerrNewman._g_cov_bl"]}
{"id": "C47", "title": "Maxwell tensor is antisymmetric and derived from the potential", "statement": "em_tensor_covariant is antisymmetric and equals d_a A_b - d_b A_a for the potential em_potential_covariant.", "quantifier": "all points, M, a, Q", "why_tests_cant": "identity over all points", "anchors": ["src/einsteinpy/metric/kerrnewman.py:KerrNewman.em_tensor_covariant", "src/einsteinpy/metric/kerrnewman.py:KerrNewman.em_potential_covariant"]}
{"id": "C48", "title": "horizons and ergospheres are the roots of Delta and g_tt", "statement": "singularities() returns r values with Delta=0 (horizons) and g_tt=0 (ergospheres), ordered inner ergosphere <= inner horizon <= outer horizon <= outer ergosphere, real whenever a^2+Q^2<=M^2 (geometric units).", "quantifier": "all masses, spins, charges, angles in range", "why_tests_cant": "all real parameters", "anchors": ["src/einsteinpy/metric/base_metric.py:BaseMetric.singularities"]}
{"id": "C49", "title": "metrics only accept their own coordinate system", "statement": "metric_covariant, christoffels etc. raise CoordinateError for any coordinate object whose system does not match the metric's.", "quantifier": "all coordinate systems and metrics", "why_tests_cant": "all combinations", "anchors": ["src/einsteinpy/metric/base_metric.py:BaseMetric.metric_covariant", "src/einsteinpy/metric/schwarzschild.py", "src/einsteinpy/metric/kerr.py", "src/einsteinpy/metric/kerrnewman.py"]}
{"id": "C50", "title": "initial time velocity normalises the four-velocity", "statement": "v0 returns the future-directed root of g_00 v0^2 + 2 g_0i v0 v^i + g_ij v^i v^j = c^2 (timelike) whenever the discriminant is non-negative and g_00 is nonzero.", "quantifier": "all metrics, velocities", "why_tests_cant": "all reals", "anchors": ["src/einsteinpy/coordinates/utils.py:v0"]}
{"id": "C51", "title": "Cartesian/spherical conversion round trips", "statement": "spherical_to_cartesian(cartesian_to_spherical(x)) = x for every position except the origin, and the reverse composition is the identity on r>0, 0<theta<pi, -pi<phi<=pi.", "quantifier": "all positions", "why_tests_cant": "all reals, including axes and branch cuts", "anchors": ["src/einsteinpy/coordinates/utils.py:cartesian_to_spherical_fast", "src/einsteinpy/coordinates/utils.py:spherical_to_cartesian_fast"]}
{"id": "C52", "title": "Cartesian/Boyer-Lindquist conversion round trips", "statement": "bl_to_cartesian(cartesian_to_bl(x)) = x for every spin parameter and every position where the BL radius is nonzero, and conversely.", "quantifier": "all positions, all spins", "why_tests_cant": "all reals; involves nested square roots", "anchors": ["src/einsteinpy/coordinates/utils.py:cartesian_to_bl_fast", "src/einsteinpy/coordinates/utils.py:bl_to_cartesian_fast"]}
{"id": "C53", "title": "converted velocities are time derivatives of converted positions", "statement": "For every differentiable curve the velocity returned by each conversion equals the derivative of the converted position, at every point where the target chart is regular.", "quantifier": "all differentiable curves, all four conversions", "why_tests_cant": "universally quantified over curves", "anchors": ["src/einsteinpy/coordinates/utils.py:cartesian_to_spherical_fast", "src/einsteinpy/coordinates/utils.py:cartesian_to_bl_fast", "src/einsteinpy/coordinates/utils.py:spherical_to_cartesian_fast", "src/einsteinpy/coordinates/utils.py:bl_to_cartesian_fast"]}
{"id": "C54", "title": "conversions preserve speed and the Lorentz factor", "statement": "The Cartesian speed equals the norm of the spherical velocity in the flat spherical metric; lorentz_factor depends only on speed, is >=1 and is defined exactly for speeds below c.", "quantifier": "all velocities below c", "why_tests_cant": "all reals", "anchors": ["src/einsteinpy/coordinates/utils.py:lorentz_factor", "src/einsteinpy/coordinates/utils.py:spherical_to_cartesian_fast"]}
{"id": "C55", "title": "scale factor derivative is the derivative of the scale factor", "statement": "scalar_factor_derivative(t) is d/dt scalar_factor(t) for each era, every t>0 and tuning parameter; unknown eras raise ValueError.", "quantifier": "all t>0, tuning parameters, eras (all strings)", "why_tests_cant": "all reals and strings", "anchors": ["src/einsteinpy/utils/scalar_factor.py:scalar_factor", "src/einsteinpy/utils/scalar_factor.py:scalar_factor_derivative"]}
{"id": "C56", "title": "embedding gradient makes the embedding isometric", "statement": "The surface of revolution described by SchwarzschildEmbedding carries the optical (Fermat) geometry of the Schwarzschild equatorial plane: radial_coord(r)^2 = r^2/(1-2M/r) and gradient(r)^2 + (d radial_coord/dr)^2 = 1/(1-2M/r)^2 for every r >= 9M/4, r != 3M; both are undefined exactly where no such surface exists.", "quantifier": "all masses and radii", "why_tests_cant": "all reals", "anchors": ["src/einsteinpy/hypersurface/schwarzschildembedding.py:SchwarzschildEmbedding.gradient", "src/einsteinpy/hypersurface/schwarzschildembedding.py:SchwarzschildEmbedding.radial_coord"]}
{"id": "C57", "title": "photon-sphere critical impact parameter", "statement": "The critical impact parameter used by Shadow is the minimum over r>2M of r/sqrt(1-2M/r), attained at r=3M.", "quantifier": "all masses and radii", "why_tests_cant": "optimality over all radii", "anchors": ["src/einsteinpy/rays/shadow.py:Shadow"]}
{"id": "C58", "title": "fractal values are normalised", "statement": "The escape loop always terminates within iter_max iterations with the escape time of the pixel's start value; the pixel value lies in [0,1], is 1 exactly for start values that do not escape, 0 exactly for those outside the disc, and a value below 1 implies that the orbit tends to infinity; iter_max = 0 raises ZeroDivisionError.", "quantifier": "all complex points, constants, radii and iteration limits", "why_tests_cant": "unbounded iteration limits, all points", "anchors": ["src/einsteinpy/plotting/fractal.py:_julia"]}
{"id": "C59", "title": "drawn black hole is the one the metric describes", "statement": "The horizon and the ergosphere drawn by the static and interactive geodesic plotters, in two and three dimensions, are the surfaces the Kerr metric object reports for the spin of the geodesic, in units of GM/c^2.", "quantifier": "all masses, spins and all points drawn", "why_tests_cant": "all reals", "anchors": ["src/einsteinpy/plotting/geodesic/static.py:StaticGeodesicPlotter._draw_bh", "src/einsteinpy/plotting/geodesic/interactive.py:InteractiveGeodesicPlotter._draw_bh", "src/einsteinpy/metric/base_metric.py:BaseMetric.singularities"]}
{"id": "C60", "title": "TransformationMatrix.inv is the inverse matrix", "statement": "inv() returns the matrix inverse, i.e. the product with the original is the identity; repeated calls return the same object.", "quantifier": "all invertible transformation matrices", "why_tests_cant": "tests compare with the elementwise reciprocal only", "anchors": ["src/einsteinpy/symbolic/helpers.py:TransformationMatrix.inv", "src/einsteinpy/symbolic/helpers.py:TransformationMatrix.from_new2old"]}
{"id": "C61", "title": "predefined vacuum solutions reduce to each other", "statement": "KerrNewman with Q=0 is Kerr, Kerr with a=0 is Schwarzschild, ReissnerNordstorm with Q=0 is Schwarzschild, KerrNewman with a=0 is ReissnerNordstorm, componentwise.", "quantifier": "all parameter values and coordinates", "why_tests_cant": "symbolic identity for all arguments", "anchors": ["src/einsteinpy/symbolic/predefined/vacuum_solutions.py"]}
{"id": "C62", "title": "Schwarzschild is a vacuum solution", "statement": "The Ricci tensor computed by the library for the predefined Schwarzschild metric vanishes identically.", "quantifier": "all coordinates and parameters (generic point)", "why_tests_cant": "symbolic identity", "anchors": ["src/einsteinpy/symbolic/predefined/vacuum_solutions.py:Schwarzschild", "src/einsteinpy/symbolic/ricci.py:RicciTensor.from_metric"]}
{"id": "C63", "title": "Minkowski is flat in all its charts", "statement": "The Riemann tensor computed by the library vanishes for Minkowski in Cartesian and in polar coordinates.", "quantifier": "all coordinates and parameters", "why_tests_cant": "symbolic identity", "anchors": ["src/einsteinpy/symbolic/predefined/minkowski.py", "src/einsteinpy/symbolic/riemann.py:RiemannCurvatureTensor.from_metric"]}
{"id": "C64", "title": "(anti-)de Sitter metrics are Einstein spaces", "statement": "Ricci = const * g for the predefined AntiDeSitter, AntiDeSitterStatic and DeSitter metrics.", "quantifier": "all coordinates and parameters", "why_tests_cant": "symbolic identity", "anchors": ["src/einsteinpy/symbolic/predefined/de_sitter.py"]}
{"id": "C65", "title": "JanisNewmanWinicour with gamma=1 is the Schwarzschild metric", "statement": "As documented, gamma=1 reproduces the predefined Schwarzschild metric for every value of the constants c and G.", "quantifier": "all constants and coordinates", "why_tests_cant": "tests use c=G=1 only or not at all", "anchors": ["src/einsteinpy/symbolic/predefined/janis_newman_winicour.py"]}
{"id": "C66", "title": "find() is a complete, sound filter of the predefined metrics", "statement": "find(s) returns exactly the names exported by the predefined module that contain s case-insensitively and are not all lower case (i.e. the metric constructors), in the order and multiplicity of dir(); the search is case-insensitive, and extending the search string can only shrink the result.", "quantifier": "all search strings", "why_tests_cant": "all strings", "anchors": ["src/einsteinpy/symbolic/predefined/find.py"]}
{"id": "C67", "title": "off-shell warnings are exact and do not influence the trajectory", "statement": "During N steps the integrator issues a warning for step k+1 exactly when warnings are not suppressed and the norm of the recorded state k is outside the tolerance; suppressing warnings does not change the recorded states.", "quantifier": "all metrics, initial data, tolerances, orders and numbers of steps", "why_tests_cant": "universally quantified over histories", "anchors": ["src/einsteinpy/integrators/fantasy.py:GeodesicIntegrator.step"]}
{"id": "C68", "title": "Kerr-Newman derivatives and Christoffel symbols are those of its own metric", "statement": "The derivative table of KerrNewman holds all partial derivatives of the covariant metric the object returns around the point, its Christoffel symbols are the Levi-Civita symbols of that metric, and they are computed at exactly the points where those of Kerr are.", "quantifier": "all points, masses, spins and charges off the singular set, all index triples", "why_tests_cant": "identity over all points", "anchors": ["src/einsteinpy/metric/kerrnewman.py:KerrNewman._dg_dx_bl", "src/einsteinpy/metric/kerrnewman.py:KerrNewman._ch_sym_bl"]}
{"id": "C69", "title": "Kerr and Kerr-Newman agree where their metrics agree", "statement": "At points where the Kerr and KerrNewman objects return the same covariant metric in a neighbourhood they return the same Christoffel symbols.", "quantifier": "all points, masses, spins and charges", "why_tests_cant": "identity over all points between two independent hand-written tables", "anchors": ["src/einsteinpy/metric/kerr.py:Kerr._ch_sym_bl", "src/einsteinpy/metric/kerrnewman.py:KerrNewman._ch_sym_bl"]}
{"id": "C70", "title": "charged test particles: the Lorentz force does no work", "statement": "f_vec of KerrNewman is the geodesic equation for a neutral test particle and conserves g(v,v) along exact solutions; for a charged test particle the added force is orthogonal to the velocity, so g(v,v) is still conserved.", "quantifier": "all states, all charges of body and particle", "why_tests_cant": "universally quantified over solutions of the equation of motion", "anchors": ["src/einsteinpy/metric/kerrnewman.py:KerrNewman._f_vec_bl"]}
{"id": "C71", "title": "user-defined metrics: perturbation is additive, contravariant form is the inverse", "statement": "metric_covariant of a user-defined BaseMetric is the user's metric plus the perturbation entry by entry (just the metric without one, TypeError if no metric was given), metric_contravariant is its two-sided matrix inverse and fails exactly where the determinant vanishes.", "quantifier": "all user functions and points", "why_tests_cant": "universally quantified over user-supplied callables", "anchors": ["src/einsteinpy/metric/base_metric.py:BaseMetric.metric_covariant", "src/einsteinpy/metric/base_metric.py:BaseMetric.metric_contravariant"]}
{"id": "C72", "title": "results do not depend on the units of the arguments", "statement": "Constructing a metric from the same physical mass, spin and charge expressed in different convertible units gives the same object; arguments of the wrong dimension are refused.", "quantifier": "all quantities, all units", "why_tests_cant": "all units", "anchors": ["src/einsteinpy/units.py:primitive", "src/einsteinpy/metric/base_metric.py:BaseMetric.__init__", "src/einsteinpy/metric/base_metric.py:BaseMetric.schwarzschild_radius"]}
{"id": "C73", "title": "numeric Schwarzschild and Kerr metrics are the textbook line elements", "statement": "The matrices returned by the numeric Schwarzschild and Kerr metrics give, on every pair of vectors, the textbook line element in the (+,-,-,-) signature; Kerr with a=0 coincides with Schwarzschild including the points where it fails; det g = -c^2 Sigma^2 sin^2 theta; asking a metric for its own coordinate system never raises CoordinateError.", "quantifier": "all masses, spins, positions and vectors", "why_tests_cant": "all reals", "anchors": ["src/einsteinpy/metric/schwarzschild.py:Schwarzschild.metric_covariant", "src/einsteinpy/metric/kerr.py:Kerr.metric_covariant"]}
{"id": "C74", "title": "dispatch, errors and composition of the conversion methods", "statement": "A conversion returns a 7-tuple exactly when all three velocities were given and otherwise behaves as if none were; the time is preserved; a missing M or a raises KeyError, a spin outside [0,1] ValueError; spherical -> Boyer-Lindquist -> spherical is the identity, and with zero spin Boyer-Lindquist and spherical conversion agree.", "quantifier": "all positions, optional velocities and keyword arguments", "why_tests_cant": "all combinations of present and missing arguments, all reals", "anchors": ["src/einsteinpy/coordinates/conversion.py:CartesianConversion", "src/einsteinpy/coordinates/conversion.py:SphericalConversion", "src/einsteinpy/coordinates/conversion.py:BoyerLindquistConversion"]}
{"id": "C75", "title": "all views of a coordinate object agree", "statement": "position(), values(), obj[i], obj[name] and the conversions of a Cartesian, Spherical or BoyerLindquist object always describe the same point, whatever units it was constructed with and whatever attributes have been assigned since; wrong dimensions are refused, wrong indices raise IndexError or KeyError; to_spherical().to_cartesian() is the same point.", "quantifier": "all quantities and units, all histories of attribute assignments, all indices", "why_tests_cant": "universally quantified over histories and units", "anchors": ["src/einsteinpy/coordinates/core.py:Cartesian", "src/einsteinpy/coordinates/core.py:Spherical", "src/einsteinpy/coordinates/core.py:BoyerLindquist"]}
{"id": "C76", "title": "velocity(metric) returns a normalised four-velocity independent of history", "statement": "velocity(metric) of a differential object raises CoordinateError for a metric in another coordinate system, leaving the object unchanged, and otherwise returns (v_t, v) with g(v,v)=c^2 at the object's position; the result does not depend on earlier calls, and v_t keeps the last computed value.", "quantifier": "all objects, metrics and histories of calls", "why_tests_cant": "universally quantified over histories", "anchors": ["src/einsteinpy/coordinates/differential.py:CartesianDifferential.velocity", "src/einsteinpy/coordinates/differential.py:SphericalDifferential.velocity", "src/einsteinpy/coordinates/differential.py:BoyerLindquistDifferential.velocity"]}
{"id": "C77", "title": "get_values terminates and samples the embedding", "statement": "For positive mass and scaling factor get_values terminates and returns two lists of equal length: the surface radii at r_init, r_init+h, ... below 9M and r_init, r_init-h, ... above 9M/4 with h = M/alpha, and the corresponding Euler sums of gradient; a negative scaling factor makes it loop forever.", "quantifier": "all masses and scaling factors, unbounded numbers of samples", "why_tests_cant": "unbounded loop, termination", "anchors": ["src/einsteinpy/hypersurface/schwarzschildembedding.py:SchwarzschildEmbedding.get_values"]}
{"id": "C78", "title": "get_values_surface returns three arrays of the same shape", "statement": "get_values_surface terminates and returns X, Y, Z of the same shape 60 x n where entry (i,j) is the point at angle 2 pi i/59 on the circle of radius R(r_j) at height z_j.", "quantifier": "all masses and scaling factors, unbounded numbers of samples", "why_tests_cant": "unbounded loop, all indices", "anchors": ["src/einsteinpy/hypersurface/schwarzschildembedding.py:SchwarzschildEmbedding.get_values_surface"]}
{"id": "C79", "title": "conversions of coordinate objects are the numeric conversions of their SI values", "statement": "Every to_* method of a coordinate or differential object returns the object of the target system whose SI values are those of the numeric conversion of the original's SI values, fails with the same error, and converting a differential to spherical and back is the identity off the axis. A differential object can be made exactly from arguments of the right dimensions (ValueError otherwise).", "quantifier": "all quantities in all units, all positions, velocities and keyword arguments", "why_tests_cant": "all reals and units", "anchors": ["src/einsteinpy/coordinates/core.py", "src/einsteinpy/coordinates/differential.py", "src/einsteinpy/coordinates/conversion.py"]}
{"id": "C80", "title": "the turning point of a ray in the shadow image solves the orbit equation", "statement": "The zeros of the equation handed to the root finder are exactly the turning points (radii outside the horizon at which the radial motion stops) of light rays with the given impact parameter around the given mass; for impact parameters not below the critical one all complex zeros are real and exactly one is a closest approach from outside, at or beyond the photon sphere.", "quantifier": "all masses, impact parameters and complex arguments", "why_tests_cant": "all complex numbers", "anchors": ["src/einsteinpy/rays/shadow.py:Shadow._root_equation"]}
{"id": "C81", "title": "shadow arrays are consistent and intensities positive", "statement": "fb1, fb2 and intensity of a Shadow have equal length, fb2 mirrors fb1, the rays kept are exactly those with a real turning point, all lie between the critical impact parameter and the field of view, and the intensity of every non-critical ray is a positive number.", "quantifier": "all masses, fields of view, numbers of rays, root-finder answers and quadrature rules", "why_tests_cant": "unbounded numbers of rays; universally quantified over the numerical library", "anchors": ["src/einsteinpy/rays/shadow.py:Shadow"]}
{"id": "C82", "title": "fractal image: every pixel filled, point symmetry", "statement": "The image has the requested size, every pixel (i,j) is the normalised escape time of its own grid point, independent of the other pixels, and for ranges symmetric about zero the pixels (i,j) and (w-i,h-j) are equal.", "quantifier": "all sizes, angles, radii and iteration limits", "why_tests_cant": "unbounded sizes", "anchors": ["src/einsteinpy/plotting/fractal.py:_fractal_img"]}
{"id": "C83", "title": "geodesic plotters: refused arguments leave the figure unchanged", "statement": "plot, plot2D and parametric_plot of the static and interactive plotters draw exactly the black hole and the requested columns of the trajectory, label the axes with what they show, keep (interactive) or replace (static) what was drawn before, are forgotten by clear(); they raise ValueError for an unknown aspect and IndexError for a coordinate number outside 1..3, and a call that raises leaves the figure as it was.", "quantifier": "all histories of calls", "why_tests_cant": "universally quantified over histories", "anchors": ["src/einsteinpy/plotting/geodesic/static.py", "src/einsteinpy/plotting/geodesic/interactive.py"]}
{"id": "C84", "title": "shadow plots show the shadow", "statement": "The line plot of a Shadow contains exactly the pairs (b, I) and (-b, I) of its rays; the contour plot gives every pixel at distance |b_j| and direction number i the intensity of ray j; show() before plot() raises AttributeError for a contour plot and draws no contour for a line plot.", "quantifier": "all shadows, all pixels", "why_tests_cant": "unbounded numbers of rays", "anchors": ["src/einsteinpy/plotting/rays/shadow.py:ShadowPlotter"]}
{"id": "C85", "title": "symbolic and numerical metrics describe the same spacetime", "statement": "For every position and mass, spin and charge, the covariant metric matrix of the numerical Schwarzschild, Kerr and KerrNewman classes is c^2 times the matrix of the predefined symbolic metric with the corresponding Schwarzschild radius, spin parameter and charge.", "quantifier": "all positions, masses, spins, charges and values of the constants", "why_tests_cant": "all reals", "anchors": ["src/einsteinpy/symbolic/predefined/vacuum_solutions.py", "src/einsteinpy/metric/schwarzschild.py", "src/einsteinpy/metric/kerr.py", "src/einsteinpy/metric/kerrnewman.py"]}
{"id": "C86", "title": "every predefined metric is symmetric with Lorentz signature", "statement": "Every predefined function returns a symmetric covariant rank-2 metric in four coordinates, and where its defining expressions are regular and outside the horizons the quadratic form has exactly one timelike direction.", "quantifier": "all parameters and coordinate values in the stated regions", "why_tests_cant": "all reals", "anchors": ["src/einsteinpy/symbolic/predefined/*.py"]}
{"id": "C87", "title": "AlcubierreWarp bubble is a ball", "statement": "The shape function of the AlcubierreWarp metric depends on the point (x, y, z) only through its Euclidean distance from the bubble centre (x_s, 0, 0).", "quantifier": "all parameters and points", "why_tests_cant": "all reals", "anchors": ["src/einsteinpy/symbolic/predefined/alcubierre_warp.py"]}
{"id": "C88", "title": "get_constant knows exactly its documented names", "statement": "get_constant(name) succeeds exactly for the documented names, returns different symbols for different names, and raises KeyError for every other string.", "quantifier": "all strings", "why_tests_cant": "all strings", "anchors": ["src/einsteinpy/symbolic/constants.py:get_constant", "src/einsteinpy/symbolic/constants.py:SymbolicConstant"]}
{"id": "C89", "title": "ReissnerNordstorm() is a Maxwell-type source: its Ricci tensor and zero Ricci scalar", "statement": "For every speed of light, gravitational constant, permittivity, Schwarzschild radius and charge, RicciTensor.from_metric(ReissnerNordstorm(...)) equals (r_Q^2 c^2/r^4) times diag(+,+,-,-) of the metric's own components, and the Ricci scalar is identically zero.", "quantifier": "all parameter values and all points of the chart", "why_tests_cant": "ranges over symbolic parameters; a test evaluates a few numbers", "anchors": ["src/einsteinpy/symbolic/predefined/vacuum_solutions.py:ReissnerNordstorm"]}
{"id": "C90", "title": "BertottiKasner() is an Einstein space with constant lambda*c^2", "statement": "For every speed of light, k and non-zero lambda the Ricci tensor of BertottiKasner(c, k, lambda) is exactly lambda c^2 times the metric; k does not enter.", "quantifier": "all parameter values and all points of the chart", "why_tests_cant": "ranges over symbolic parameters", "anchors": ["src/einsteinpy/symbolic/predefined/bertotti_kasner.py:BertottiKasner"]}
{"id": "C91", "title": "BarriolaVilekin() has exactly the global-monopole curvature", "statement": "For every c and k the Ricci tensor of BarriolaVilekin(c, k) is diag(0, 0, 1-k^2, (1-k^2) sin^2 theta), so it is Ricci flat if and only if k^2 = 1.", "quantifier": "all parameter values and all points of the chart", "why_tests_cant": "ranges over symbolic parameters", "anchors": ["src/einsteinpy/symbolic/predefined/barriola_vilenkin.py:BarriolaVilekin"]}
{"id": "C92", "title": "Godel() is rotating dust: Ricci = 2 omega^2 u u", "statement": "The Ricci tensor of Godel() is 2 omega^2 u_i u_j with u the covariant velocity of the observers at rest (u_i = g_i0, a unit time-like covector), and its Ricci scalar is the constant -2 omega^2.", "quantifier": "every value of omega and every point of the chart", "why_tests_cant": "ranges over symbolic parameters", "anchors": ["src/einsteinpy/symbolic/predefined/godel.py:Godel"]}
{"id": "C93", "title": "Ernst() has vanishing Ricci scalar and reduces to Schwarzschild without the field", "statement": "For every B and M the Ricci scalar of Ernst(B, M) is identically zero, and for B = 0 its components are minus those of Schwarzschild(c = 1, sch = 2M).", "quantifier": "all parameter values and all points of the chart", "why_tests_cant": "ranges over symbolic parameters", "anchors": ["src/einsteinpy/symbolic/predefined/ernst.py:Ernst", "src/einsteinpy/symbolic/predefined/vacuum_solutions.py:Schwarzschild"]}
{"id": "C94", "title": "Davidson() is a radiation perfect fluid", "statement": "The Ricci tensor of Davidson() is kappa times diag(-3,1,1,1) of the metric's own components, with one positive factor kappa = 4/(5 (1+r^2)^(12/5) t^(4/3)), so its Ricci scalar is identically zero.", "quantifier": "every point of the chart", "why_tests_cant": "an identity in the coordinates", "anchors": ["src/einsteinpy/symbolic/predefined/davidson.py:Davidson"]}
{"id": "C95", "title": "Kerr() is a vacuum solution", "statement": "For every c, r_s and a the Ricci tensor of Kerr(c, r_s, a) vanishes identically.", "quantifier": "all non-zero constants c, all constants r_s and a, and all points of the chart", "why_tests_cant": "an identity in symbolic parameters and coordinates; sympy's simplification does not finish on it in reasonable time", "anchors": ["src/einsteinpy/symbolic/predefined/vacuum_solutions.py:Kerr"]}
{"id": "C96", "title": "KerrNewman() is the electrovacuum field of a rotating charge", "statement": "The Ricci tensor of KerrNewman(c, G, eps_0, r_s, a, Q) is the trace-free one of the field of a rotating charge (q c^2/Sigma^2 times the metric with the signs of the principal frame, q = Q^2 G/(4 pi eps_0 c^4)), its Ricci scalar is zero, and it is a vacuum solution if and only if q = 0.", "quantifier": "all constants with c non-zero, and all points of the chart", "why_tests_cant": "an identity in symbolic parameters and coordinates", "anchors": ["src/einsteinpy/symbolic/predefined/vacuum_solutions.py:KerrNewman"]}
{"id": "C97", "title": "The animation of a static geodesic plot shows the whole trajectory inside the axes", "statement": "For every geodesic whose metric has a first parameter, StaticGeodesicPlotter.animate() succeeds, draws the black hole once, makes one frame per point of the trajectory, frame n showing the first n points in order; every point of the trajectory lies within the axis limits, and the last frame shows the whole trajectory.", "quantifier": "all geodesics of all lengths and all plotters", "why_tests_cant": "ranges over all trajectories", "anchors": ["src/einsteinpy/plotting/geodesic/static.py:StaticGeodesicPlotter.animate"]}
{"id": "C98", "title": "The curve a geodesic plot draws is the spatial path of the geodesic", "statement": "Whatever the geodesic's return_cartesian flag, the curve drawn by plot() runs through the points of space of the integrated trajectory.", "quantifier": "all geodesics and plotters", "why_tests_cant": "ranges over all trajectories and both kinds of output", "anchors": ["src/einsteinpy/plotting/geodesic/static.py:StaticGeodesicPlotter.plot", "src/einsteinpy/plotting/geodesic/interactive.py:InteractiveGeodesicPlotter.plot"]}
{"id": "C99", "title": "RK45 integrator: time stays within the interval, and only a finished solver turns step() into a warning", "statement": "For every right-hand side and every number of calls of step(), the time stays between t0 and t_bound and moves by at most eight step sizes per call; a constructor call succeeds only for a positive step size whose initial step fits the interval; on a finished solver step() warns and changes nothing; every exception of the right-hand side reaches the caller; the given or documented default tolerances are used.", "quantifier": "all right-hand sides, intervals (forward and backward), step sizes, tolerances and histories of calls", "why_tests_cant": "ranges over all histories of calls and right-hand sides", "anchors": ["src/einsteinpy/integrators/runge_kutta.py:RK45"]}
{"id": "C100", "title": "Body: unit checks, positions consistent with coordinates, well-founded parents", "statement": "Body(...) succeeds exactly if mass, charge and radius carry dimensions of mass, charge and length and raises ValueError otherwise; pos_vec and vel_vec are the spatial position and velocity of coords, also after coords is reassigned; the chain of parents built by constructor calls is finite and ends at a body without parent.", "quantifier": "all arguments, all nestings of bodies, all reassignments of coords", "why_tests_cant": "ranges over all histories and nestings", "anchors": ["src/einsteinpy/bodies.py:Body"]}
{"id": "C101", "title": "CMetric(): Ricci tensor for arbitrary f and h, and when it is vacuum", "statement": "For arbitrary functions f(x), h(y) the Ricci tensor of CMetric() is block-proportional to the metric with the factors -S^2 f''/2 + S(2f'+h') - 3(f+h) and -S^2 h''/2 + S(f'+2h') - 3(f+h), S = x+y; it is a vacuum solution if and only if f is a cubic polynomial in x and h(y) = -f(-y).", "quantifier": "all functions f and h and all points of the chart", "why_tests_cant": "ranges over all functions", "anchors": ["src/einsteinpy/symbolic/predefined/cmetric.py:CMetric"]}
{"id": "C102", "title": "BesselGravitationalWave() is a vacuum gravitational wave", "statement": "For every constant C the metric BesselGravitationalWave(C) depends on time and its Ricci tensor vanishes identically.", "quantifier": "all constants C and all points of the chart", "why_tests_cant": "an identity in the coordinates and Bessel functions", "anchors": ["src/einsteinpy/symbolic/predefined/bessel_gravitational_wave.py:BesselGravitationalWave"]}
{"id": "C103", "title": "JanisNewmanWinicour() is the field of a static massless scalar", "statement": "For every c, G, M and non-zero gamma the only non-zero component of the Ricci tensor of JanisNewmanWinicour(c, G, gam, M) is R_rr = (1-gamma^2) b^2/(2 r^2 (r-b)^2) with b = 2GM/(c^2 gamma).", "quantifier": "all parameter values and all points of the chart", "why_tests_cant": "ranges over symbolic parameters", "anchors": ["src/einsteinpy/symbolic/predefined/janis_newman_winicour.py:JanisNewmanWinicour"]}
{"id": "C104", "title": "Geodesic integrator: one step is accurate to the advertised order", "statement": "If q, p solve Hamilton's equations of H = 1/2 g^{ab} p_a p_b, then one step of size delta of the integrator of order n from (q(0), p(0)) succeeds for small delta and differs from (q(delta), p(delta)) by O(delta^(n+1)), for n = 2, 4, 6, 8 and every omega.", "quantifier": "all smooth symmetric metrics, solutions, omega and orders", "why_tests_cant": "an asymptotic statement about all small step sizes and all metrics", "anchors": ["src/einsteinpy/integrators/fantasy.py:GeodesicIntegrator", "src/einsteinpy/integrators/fantasy.py:_Z"]}
{"id": "C105", "title": "Geodesic trajectories converge to the exact solution as the step size goes to zero", "statement": "Over any fixed interval on which the exact solution of Hamilton's equations exists, the computed trajectory is returned without error for all sufficiently small step sizes (of either sign) and every row differs from the exact solution at the corresponding parameter by at most a constant times delta^2 (delta^4 for order 4).", "quantifier": "all smooth symmetric metrics, initial data, intervals, step sizes, numbers of steps, omega, orders and both kinds of output", "why_tests_cant": "a statement about all small step sizes and arbitrarily many steps", "anchors": ["src/einsteinpy/geodesic/geodesic.py:Geodesic.calculate_trajectory", "src/einsteinpy/integrators/fantasy.py:GeodesicIntegrator.step"]}
{"id": "C106", "title": "Geodesic trajectories converge to solutions of the geodesic equation", "statement": "If q solves the geodesic equation q'' + Gamma q' q' = 0 of a metric whose inverse is the metric function used by the integrator, the trajectory computed from q(0) and p_a = g_ab q'^b(0) converges to q and to g_ab q'^b, with an error of at most a constant times delta^2.", "quantifier": "all metrics, geodesics, intervals, step sizes and numbers of steps", "why_tests_cant": "a statement about all small step sizes and arbitrarily many steps", "anchors": ["src/einsteinpy/geodesic/geodesic.py:Geodesic.calculate_trajectory"]}
{"id": "C107", "title": "Geodesics of the named space-times are approximated end to end", "statement": "For metric = 'Schwarzschild', 'Kerr' or 'KerrNewman' with their parameters: given a future-directed unit time-like or null geodesic of that space-time (textbook line element, geodesic equation with its Christoffel symbols) that starts at coordinate time 0 and stays away from ring, horizons and axis, Geodesic(...) called with its initial position and the spatial covariant components of its initial velocity succeeds for all small step sizes, stores exactly the covariant initial velocity as momentum, and its rows converge to the geodesic, with error at most K*delta^2 (K*delta^4 for order=4).", "quantifier": "all three metrics, parameters, geodesics, intervals, kinds, output coordinates, orders, omegas, step sizes and numbers of steps", "why_tests_cant": "a statement about every geodesic, all small step sizes and arbitrarily many steps", "anchors": ["src/einsteinpy/geodesic/geodesic.py:Geodesic", "src/einsteinpy/geodesic/utils.py:_P"]}
{"id": "C108", "title": "RK4naive is accurate to fourth order and converges", "statement": "If y solves y' = f(t, y) on [a, b] with f smooth near the graph of y, one RK4naive step started on the solution is wrong by at most C*|h|^5, and n steps from (t0, y(t0)) end at time t0+n*h with an error of at most K*|h|^4, the constants not depending on h, n or t_bound.", "quantifier": "all smooth right-hand sides in any normed space, solutions, step sizes of either sign and numbers of steps", "why_tests_cant": "a statement about all small step sizes and arbitrarily many steps", "anchors": ["src/einsteinpy/integrators/runge_kutta.py:RK4naive"]}
{"id": "C109", "title": "Small enough steps keep a geodesic on its mass shell, without warnings", "statement": "If the starting momentum satisfies g^ij p_i p_j = -1 (time-like) or 0 (null), then over any fixed interval on which the exact solution exists every recorded state of the GeodesicIntegrator violates the constraint by at most K*delta^2 (K*delta^4 for order 4), K not depending on delta or the number of steps; hence for any positive tolerance there is a step size below which no 'numerical error has exceeded specified tolerance' warning is ever emitted, however many steps are taken in the interval.", "quantifier": "all smooth symmetric metrics, on-shell initial data, intervals, tolerances, orders, omegas, step sizes and numbers of steps", "why_tests_cant": "a statement about all small step sizes and arbitrarily many steps", "anchors": ["src/einsteinpy/integrators/fantasy.py:GeodesicIntegrator.step"]}
{"id": "C110", "title": "Curvature does not depend on the coordinates", "statement": "If a second metric object describes the same space in other coordinates (old coordinates are functions of the new ones with invertible Jacobian, components transformed by the tensor law), the Ricci scalar of the second is that of the first with the coordinates substituted; Riemann, Ricci, Einstein, Schouten, Weyl and stress-energy tensors transform as tensors and the Christoffel symbols as a connection. A space flat in one system is flat in the other.", "quantifier": "all dimensions, metrics and invertible changes of coordinates", "why_tests_cant": "a test can only try particular coordinate changes", "anchors": ["src/einsteinpy/symbolic/ricci.py:RicciScalar.from_metric", "src/einsteinpy/symbolic/riemann.py:RiemannCurvatureTensor.from_metric", "src/einsteinpy/symbolic/weyl.py:WeylTensor.from_metric", "src/einsteinpy/symbolic/christoffel.py:ChristoffelSymbols.from_metric"]}
{"id": "C111", "title": "Second Bianchi identity", "statement": "The covariant derivative of the lowered Riemann tensor, formed with the Christoffel symbols the library returns, summed cyclically over the derivative index and the last pair, is zero.", "quantifier": "all dimensions, invertible symmetric metrics and index choices", "why_tests_cant": "the identity must hold for every metric, not for the sampled ones", "anchors": ["src/einsteinpy/symbolic/riemann.py:RiemannCurvatureTensor.from_metric", "src/einsteinpy/symbolic/christoffel.py:ChristoffelSymbols.from_metric"]}
{"id": "C112", "title": "Two-dimensional spaces", "statement": "In two dimensions EinsteinTensor.from_metric is identically zero, the Ricci tensor is half the Ricci scalar times the metric, and the Ricci scalar times the determinant of the metric is twice R_0101.", "quantifier": "all invertible symmetric metrics in two dimensions", "why_tests_cant": "must hold for every metric", "anchors": ["src/einsteinpy/symbolic/einstein.py:EinsteinTensor.from_metric", "src/einsteinpy/symbolic/ricci.py:RicciTensor.from_metric"]}
{"id": "C113", "title": "Conformal rescaling", "statement": "Multiplying the metric by any invertible function u multiplies the covariant Weyl tensor by u and leaves the Weyl tensor with first index raised unchanged (dimension > 3). Multiplying by an invertible constant leaves Christoffel symbols, Riemann, Ricci and Einstein tensors unchanged and divides the Ricci scalar by it.", "quantifier": "all dimensions, metrics and conformal factors", "why_tests_cant": "must hold for every metric and every factor", "anchors": ["src/einsteinpy/symbolic/weyl.py:WeylTensor.from_metric", "src/einsteinpy/symbolic/weyl.py:WeylTensor.change_config"]}
{"id": "C114", "title": "energy and angular momentum of numeric geodesics", "statement": "Along every exact solution of the right-hand side f_vec of Schwarzschild, Kerr and KerrNewman (neutral test particle) the energy g_0j v^j and the axial angular momentum g_3j v^j, formed with the metric the object returns, are constant.", "quantifier": "all masses, spins, charges of the body and all solutions", "why_tests_cant": "universally quantified over solutions of the equation of motion", "anchors": ["src/einsteinpy/metric/schwarzschild.py:Schwarzschild._f_vec_s", "src/einsteinpy/metric/kerr.py:Kerr._f_vec_bl", "src/einsteinpy/metric/kerrnewman.py:KerrNewman._f_vec_bl"]}
{"id": "C115", "title": "RK4naive with f_vec follows geodesics", "statement": "Given a geodesic of the Schwarzschild (or Kerr) line element on [a, b] that avoids centre or ring, horizons and axis, RK4naive(metric.f_vec, ...) of a Schwarzschild (KerrNewman, neutral test particle) object started at its position and velocity succeeds for every small enough step size h, and after n steps is within K*|h|^4 of the position and velocity of the geodesic at t0 + n*h, K not depending on h, n or t_bound.", "quantifier": "all masses, spins, charges, geodesics, intervals, numbers of steps and step sizes below a threshold", "why_tests_cant": "a limit over step sizes, for all solutions", "anchors": ["src/einsteinpy/integrators/runge_kutta.py:RK4naive.step", "src/einsteinpy/metric/schwarzschild.py:Schwarzschild._f_vec", "src/einsteinpy/metric/kerrnewman.py:KerrNewman._f_vec"]}
{"id": "C116", "title": "Trajectories inherit the symmetries of the space-time", "statement": "Rotating the initial position of Geodesic('Schwarzschild' | 'Kerr' | 'KerrNewman', ...) about the axis by any angle, and/or reflecting position and momentum at the equatorial plane (for spin 0 also reversing the sense of rotation), rotates and reflects every row of the computed trajectory (polar or Cartesian output) and changes nothing else: not whether the constructor succeeds, not the number of rows, not p_t. In particular a trajectory that starts with theta = pi/2 and p_theta = 0 has theta = pi/2 (z = 0) and p_theta = 0 in every row.", "quantifier": "all three metric names, parameters, rotation angles, initial data, orders, step sizes, omega, tolerances and numbers of steps", "why_tests_cant": "for every step size and number of steps; tests can only compare two runs", "anchors": ["src/einsteinpy/geodesic/geodesic.py:Geodesic.calculate_trajectory", "src/einsteinpy/geodesic/utils.py:_sch, _kerr, _kerrnewman, _P", "src/einsteinpy/integrators/fantasy.py:GeodesicIntegrator.step"]}
{"id": "C117", "title": "Carter constant and total angular momentum are conserved by f_vec", "statement": "Along every exact solution of the right-hand side returned by f_vec: for Schwarzschild the squared total angular momentum p_theta^2 + p_phi^2/sin(theta)^2, and for KerrNewman (neutral test particle) and Kerr the Carter constant p_theta^2 + cos(theta)^2 (alpha^2 (g(v,v) - p_t^2/c^2) + p_phi^2/sin(theta)^2), both formed with the metric the object returns, have the same value at all times.", "quantifier": "all masses, spins, charges and exact solutions", "why_tests_cant": "a statement about all exact solutions of a differential equation", "anchors": ["src/einsteinpy/metric/schwarzschild.py:Schwarzschild._f_vec", "src/einsteinpy/metric/kerr.py:Kerr._f_vec", "src/einsteinpy/metric/kerrnewman.py:KerrNewman._f_vec"]}
{"id": "C118", "title": "Einstein spaces and constant curvature", "statement": "Outside two dimensions: if the Ricci tensor returned is lam*g, then lam is constant (all partial derivatives zero), the Ricci scalar is n*lam and the Einstein tensor (1-n/2)*lam*g; the Einstein tensor vanishes exactly when the Ricci tensor does. For n >= 3: if the lowered Riemann tensor is K*(g_il g_kq - g_iq g_kl) then Ricci = (n-1)K g, scalar = n(n-1)K, Schouten = K g/2, Weyl = 0 and K is constant; an Einstein space with zero Weyl tensor has constant curvature; in vacuum Weyl equals the lowered Riemann tensor; in three dimensions every Einstein space has constant curvature and every vacuum is flat. The predefined AntiDeSitter and AntiDeSitterStatic metrics have constant curvature -1 and zero Weyl tensor, and so (with positive curvature) has DeSitter.", "quantifier": "all dimensions, invertible symmetric metrics; all coordinates", "why_tests_cant": "must hold for every metric", "anchors": ["src/einsteinpy/symbolic/riemann.py:RiemannCurvatureTensor.from_metric", "src/einsteinpy/symbolic/ricci.py:RicciTensor.from_metric", "src/einsteinpy/symbolic/weyl.py:WeylTensor.from_metric", "src/einsteinpy/symbolic/schouten.py:SchoutenTensor.from_metric", "src/einsteinpy/symbolic/predefined/de_sitter.py:AntiDeSitter, AntiDeSitterStatic, DeSitter"]}
{"id": "C119", "title": "smoothen resamples the shadow without changing it", "statement": "smoothen(points) on a Shadow with at least four samples succeeds; afterwards fb1 is `points` equally spaced impact parameters from the least to the greatest old one, fb2 its mirror image, there is one intensity for each; if all old intensities are numbers, all new ones are, and wherever a new impact parameter is an old one the intensity is the old one; nothing else changes, and smoothing again with the same number of points changes nothing. With fewer samples it raises ValueError and leaves the object as it was.", "quantifier": "all shadows, all numbers of points, every cubic interpolation routine that reproduces its nodes", "why_tests_cant": "arbitrary data and arbitrary interpolation routine; the failing case needs a root finder that finds the critical ray", "anchors": ["src/einsteinpy/rays/shadow.py:Shadow.smoothen, Shadow.__init__"]}
{"id": "C120", "title": "Straight lines in flat space are exact", "statement": "If the contravariant metric function is regular and has the same value G at every point, a geodesic integration never fails and is exact for every supported order, step size, omega and number of steps: after k steps the position is q0 + k*delta*(G p0), the momentum p0, in both copies; on the mass shell no warning is issued.", "quantifier": "all constant metrics however they are written, all initial data, orders, step sizes, omega, tolerances, numbers of steps", "why_tests_cant": "must hold for every number of steps, step size and metric function with constant value", "anchors": ["src/einsteinpy/integrators/fantasy.py:GeodesicIntegrator.step", "src/einsteinpy/integrators/utils.py:_flow_A, _flow_B, _flow_mixed, _Z", "src/einsteinpy/geodesic/geodesic.py:Geodesic.calculate_trajectory"]}
{"id": "C121", "title": "Affine reparametrisation of numeric geodesics", "statement": "The right-hand side f_vec of the numeric metric classes is homogeneous: with the velocity multiplied by l (for KerrNewman also the charge per mass of the particle) it raises the same error or returns l times the velocity and l^2 times the acceleration. Consequently exact solutions may be run at any rate, and n steps of RK4naive from (x0, l v0) with step h/l end at the same position with l times the velocity as n steps from (x0, v0) with step h, or both raise the same error.", "quantifier": "all metric parameters, positions, velocities, nonzero factors l, step sizes and numbers of steps", "why_tests_cant": "must hold for every factor, initial condition and number of steps", "anchors": ["src/einsteinpy/metric/schwarzschild.py:Schwarzschild._f_vec_s", "src/einsteinpy/metric/kerr.py:Kerr._f_vec_bl", "src/einsteinpy/metric/kerrnewman.py:KerrNewman._f_vec_bl", "src/einsteinpy/integrators/runge_kutta.py:RK4naive.step"]}
{"id": "C122", "title": "Substituting parameters commutes with computing curvature", "statement": "Replacing parameters of a metric by other expressions (subs, or passing values to a metric constructor) and then computing Christoffel symbols, Riemann, Ricci, Ricci scalar, Einstein, Schouten or Weyl tensor gives the substituted components of the tensor computed for the general metric; renaming the coordinates does not matter; MetricTensor(m.subs(...).tensor(), syms) is such a metric.", "quantifier": "all metrics with invertible symmetric component matrix in every dimension, covariant or contravariant, all substitutions that keep the coordinates, all renamings of coordinates", "why_tests_cant": "quantifies over all metrics and all substitutions", "anchors": ["src/einsteinpy/symbolic/tensor.py:Tensor.subs", "src/einsteinpy/symbolic/christoffel.py:ChristoffelSymbols.from_metric", "src/einsteinpy/symbolic/riemann.py:RiemannCurvatureTensor.from_metric", "src/einsteinpy/symbolic/ricci.py:RicciTensor.from_metric, RicciScalar.from_metric", "src/einsteinpy/symbolic/einstein.py:EinsteinTensor.from_metric", "src/einsteinpy/symbolic/schouten.py:SchoutenTensor.from_metric", "src/einsteinpy/symbolic/weyl.py:WeylTensor.from_metric"]}
{"id": "C123", "title": "Curvature does not depend on symbols the metric does not depend on", "statement": "If no component of the metric depends on a symbol s (a cyclic coordinate such as the time of a static metric, or any other symbol), then no component of the Christoffel symbols, Riemann, Ricci, Ricci scalar, Einstein, Schouten or Weyl tensor computed from it depends on s.", "quantifier": "all metrics in every dimension, all symbols", "why_tests_cant": "quantifies over all metrics", "anchors": ["src/einsteinpy/symbolic/christoffel.py:ChristoffelSymbols.from_metric", "src/einsteinpy/symbolic/riemann.py:RiemannCurvatureTensor.from_metric", "src/einsteinpy/symbolic/ricci.py:RicciTensor.from_metric, RicciScalar.from_metric", "src/einsteinpy/symbolic/einstein.py:EinsteinTensor.from_metric", "src/einsteinpy/symbolic/schouten.py:SchoutenTensor.from_metric", "src/einsteinpy/symbolic/weyl.py:WeylTensor.from_metric"]}
{"id": "C124", "title": "Product metrics", "statement": "If the coordinates fall into groups such that metric components between groups vanish and components within a group depend only on that group, then Christoffel symbols, Riemann and Ricci components with indices in different groups vanish, those within a group equal the ones computed for the metric of that group alone, and the Ricci scalar of a product of two factors is the sum of their Ricci scalars.", "quantifier": "all product metrics in every dimension with any number of factors and any order of the coordinates", "why_tests_cant": "quantifies over all metrics and all divisions of the coordinates", "anchors": ["src/einsteinpy/symbolic/christoffel.py:ChristoffelSymbols.from_metric", "src/einsteinpy/symbolic/riemann.py:RiemannCurvatureTensor.from_metric", "src/einsteinpy/symbolic/ricci.py:RicciTensor.from_metric, RicciScalar.from_metric"]}
{"id": "C125", "title": "Complete curvature of the Schwarzschild and Reissner-Nordstrom metrics", "statement": "For the predefined Schwarzschild metric with Schwarzschild radius a: every component of change_config('llll') of the Riemann tensor and of the Weyl tensor is k_ik (g_il g_kq - g_iq g_kl) with k = -c^2 a/r^3 for the (t,r) and (theta,phi) planes and c^2 a/(2 r^3) for the four others, the contraction of the 'llll' and 'uuuu' Riemann tensors (Kretschmann scalar) is 12 c^4 a^2/r^6, and the Riemann tensor, as well as the Weyl tensor, vanishes if and only if a = 0. For Reissner-Nordstrom with q = Q^2 G/(4 pi eps0 c^4) the plane curvatures are c^2(3q/r^4 - a/r^3), c^2(q/r^4 - a/r^3), c^2(a/(2r^3) - q/r^4), those of the Weyl tensor are -2w, -2w, w with w = c^2(a/(2r^3) - q/r^4), and the Kretschmann scalar is c^4(12 a^2/r^6 - 48 a q/r^7 + 56 q^2/r^8).", "quantifier": "all values of the constants with c nonzero, all 256 components, all points", "why_tests_cant": "an identity in the parameters and coordinates, of all components", "anchors": ["src/einsteinpy/symbolic/predefined/vacuum_solutions.py:Schwarzschild, ReissnerNordstorm", "src/einsteinpy/symbolic/riemann.py:RiemannCurvatureTensor.from_metric, change_config", "src/einsteinpy/symbolic/weyl.py:WeylTensor.from_metric"]}
{"id": "C126", "title": "Alcubierre warp drive: free-falling observers and negative energy", "statement": "For AlcubierreWarp(x_s, sigma, R, v): the observers with four-velocity u = (1, -g_01, 0, 0) are normalised and move on geodesics of the computed Christoffel symbols, space at constant t is flat, the computed Einstein tensor contracted twice with u is -((dg_01/dy)^2 + (dg_01/dz)^2)/4 (so the energy density T_ab u^a u^b of StressEnergyMomentumTensor.from_metric without cosmological constant is nowhere positive), and for v = 0 the Riemann tensor vanishes.", "quantifier": "all parameters, all functions standing for sqrt and tanh, all points", "why_tests_cant": "identities in all parameters and coordinates", "anchors": ["src/einsteinpy/symbolic/predefined/alcubierre_warp.py:AlcubierreWarp", "src/einsteinpy/symbolic/christoffel.py:ChristoffelSymbols.from_metric", "src/einsteinpy/symbolic/einstein.py:EinsteinTensor.from_metric", "src/einsteinpy/symbolic/stress_energy_momentum.py:StressEnergyMomentumTensor.from_metric"]}
{"id": "C127", "title": "Comparing dual numbers", "statement": "== of two dual numbers is an equivalence relation: true exactly when values and derivatives both agree; != is its negation; neither raises. Comparison with a plain number raises AttributeError on either side, and dual numbers are not hashable.", "quantifier": "all pairs of dual numbers, all numbers", "why_tests_cant": "ranges over all pairs of numbers", "anchors": ["src/einsteinpy/utils/dual.py:DualNumber.__eq__, DualNumber.__ne__"]}
{"id": "C128", "title": "Contractions do not depend on which index is raised, nor on the order of the factors", "statement": "tensor_product(T, S, i, j) of an upper with a lower index has the same components and configuration as the product of T.change_config(..) and S.change_config(..) with both contracted slots moved by the same symmetric metric (T^a S_a = T_a S^a); tensor_product(S, T, j, i) has the components of tensor_product(T, S, i, j) with the slots of the two factors exchanged, and likewise without contraction.", "quantifier": "all ranks, dimensions, configurations, components, contracted slots and invertible symmetric metrics (given as 'll' or 'uu')", "why_tests_cant": "universally quantified over ranks, configurations and components", "anchors": ["src/einsteinpy/symbolic/tensor.py:tensor_product", "src/einsteinpy/symbolic/tensor.py:_change_config", "src/einsteinpy/symbolic/vector.py:GenericVector.change_config", "src/einsteinpy/symbolic/ricci.py:RicciTensor.change_config"]}
{"id": "C129", "title": "Moving indices commutes with Lorentz transformations that preserve the metric", "statement": "For every matrix L that preserves the metric g, T.change_config(c).lorentz_transform(L) and T.lorentz_transform(L).change_config(c, g) have the same components.", "quantifier": "all ranks, dimensions, configurations, components, metrics and matrices", "why_tests_cant": "universally quantified over ranks, configurations and components", "anchors": ["src/einsteinpy/symbolic/tensor.py:BaseRelativityTensor.lorentz_transform", "src/einsteinpy/symbolic/tensor.py:_change_config"]}
{"id": "C130", "title": "The right-hand sides have the symmetries of the space-time", "statement": "f_vec of Schwarzschild, Kerr and KerrNewman commutes with time shifts, rotations about the axis, reflection in the equatorial plane and simultaneous reversal of time and rotation (separate reversal only without spin; reversing time reverses the particle's charge): the moved event and velocity give the moved acceleration or the same error. So RK4naive runs from moved initial data are the moved runs step by step, exact solutions are moved to exact solutions, and motion started in the equatorial plane stays in it exactly for any number of steps.", "quantifier": "all masses, spins, charges, events, velocities, moves, steps and numbers of steps", "why_tests_cant": "universally quantified over real states and over the number of integration steps", "anchors": ["src/einsteinpy/metric/schwarzschild.py:Schwarzschild._f_vec", "src/einsteinpy/metric/kerr.py:Kerr._f_vec", "src/einsteinpy/metric/kerrnewman.py:KerrNewman._f_vec", "src/einsteinpy/integrators/runge_kutta.py:RK4naive.step"]}
{"id": "C131", "title": "Trajectories scale with the mass of the black hole", "statement": "For a hole l times as heavy (same dimensionless spin, l times the charge; neutral test particle), initial data with t and r multiplied by l and angular velocities divided by l, and l times the step, RK4naive on f_vec gives, step by step, the original run with the same rescaling, or the same error; exact solutions rescale in the same way.", "quantifier": "all masses, spins, charges, l > 0, events, velocities, steps and numbers of steps", "why_tests_cant": "universally quantified over real parameters and states and over the number of integration steps", "anchors": ["src/einsteinpy/metric/schwarzschild.py:Schwarzschild._f_vec", "src/einsteinpy/metric/kerr.py:Kerr._f_vec", "src/einsteinpy/metric/kerrnewman.py:KerrNewman._f_vec", "src/einsteinpy/integrators/runge_kutta.py:RK4naive.step"]}
{"id": "C132", "title": "Circular orbits obey Kepler's third law and are integrated exactly", "statement": "For equatorial motion with only dt and dphi nonzero, f_vec returns zero acceleration exactly when 2 r^3 dphi^2 = r_s (c dt - alpha dphi)^2 (alpha = 0 for Schwarzschild), and RK4naive then carries the particle along the circle exactly: after n steps of size h the radius, plane and velocity are unchanged and t, phi have advanced by n h dt, n h dphi.", "quantifier": "all masses, spins, radii off the horizons, velocities, steps and numbers of steps; neutral particles", "why_tests_cant": "universally quantified over real parameters and over the number of integration steps", "anchors": ["src/einsteinpy/metric/schwarzschild.py:Schwarzschild._f_vec", "src/einsteinpy/metric/kerr.py:Kerr._f_vec", "src/einsteinpy/metric/kerrnewman.py:KerrNewman._f_vec", "src/einsteinpy/integrators/runge_kutta.py:RK4naive.step"]}
{"id": "C133", "title": "Geodesic follows circular orbits exactly", "statement": "Geodesic with a named space-time, started on the equator at radius r with the momentum (0, 0, L) of a circular orbit (Kepler's law (r - Q^2)(ut - a w)^2 = r^4 w^2, unit speed or null), stores p_t = -E, and every row holds the exact position and momentum at parameter (k+1) delta, polar or Cartesian, for every order, step size, omega, tolerance and number of steps. The circles that are geodesics are exactly those with Kepler's law, and such orbits exist outside the photon sphere (time-like) and on it (null).", "quantifier": "all radii off the horizons, spins, charges, circular motions, orders, step sizes, omegas and numbers of steps", "why_tests_cant": "universally quantified over real parameters and over the number of steps of the integrator", "anchors": ["src/einsteinpy/geodesic/geodesic.py:Geodesic", "src/einsteinpy/integrators/fantasy.py:GeodesicIntegrator.step", "src/einsteinpy/geodesic/utils.py:_P"]}
{"id": "C134", "title": "A negative delta runs the time-reversed motion", "statement": "Geodesic for a named space-time with -delta, started at (r, theta, -phi) with momentum (-p_r, -p_theta, p_phi), succeeds exactly if the original run does, stores the same p_t, and each of its rows is the original row with t, phi (y in Cartesian output), p_r and p_theta negated. Without spin the same holds for time alone: same position, opposite momentum and -delta give the same places with t and the spatial momentum negated.", "quantifier": "all three metrics, parameters, positions, momenta, kinds, orders, omegas, step sizes and numbers of steps", "why_tests_cant": "universally quantified over real initial data and over the number of steps of the integrator", "anchors": ["src/einsteinpy/geodesic/geodesic.py:Geodesic", "src/einsteinpy/integrators/fantasy.py:GeodesicIntegrator.step", "src/einsteinpy/geodesic/utils.py:_P"]}
{"id": "C135", "title": "The path of a photon does not depend on its energy", "statement": "Nulllike with l times the momentum (l > 0) and the l-th part of delta gives the same positions and l times the momenta.", "quantifier": "all metrics, positions, momenta, factors l, orders, omegas, step sizes and numbers of steps", "why_tests_cant": "universally quantified over real initial data and over the number of steps of the integrator", "anchors": ["src/einsteinpy/geodesic/geodesic.py:Nulllike", "src/einsteinpy/integrators/fantasy.py:GeodesicIntegrator.step", "src/einsteinpy/integrators/utils.py:_flow_mixed", "src/einsteinpy/geodesic/utils.py:_P"]}
{"id": "C136", "title": "The two geodesic solvers of the package agree", "statement": "Along a geodesic of a black hole, the rows of Geodesic (c = G = M = 1, integrator of integrators/fantasy.py), converted to SI units, and the positions of RK4naive on the f_vec of Schwarzschild(M), or of KerrNewman(M, a, Q) for a neutral test particle, with the converted initial data and step, differ by at most K * delta^2, and K * delta^4 for order 4.", "quantifier": "all masses, spins 0 <= a <= 1, geodesics outside the horizon, kinds, orders, omegas, step sizes below a threshold and numbers of steps within the interval of the geodesic", "why_tests_cant": "universally quantified over real initial data, and a limit statement about step sizes", "anchors": ["src/einsteinpy/geodesic/geodesic.py:Geodesic", "src/einsteinpy/metric/schwarzschild.py:Schwarzschild._f_vec", "src/einsteinpy/metric/kerrnewman.py:KerrNewman._f_vec", "src/einsteinpy/integrators/runge_kutta.py:RK4naive.step"]}
{"id": "C137", "title": "Conserved quantities drift by no more than the order of the method", "statement": "Along a geodesic, every function of position and momentum that the exact motion conserves - in particular Carter's constant p_theta^2 + cos(theta)^2 (a^2 (mu - p_t^2) + p_phi^2/sin(theta)^2) of Schwarzschild, Kerr and Kerr-Newman - has in every row of Geodesic its initial value up to K * delta^2 (K * delta^4 for order 4), K not depending on delta or the number of steps; the same with K * h^4 for RK4naive on the f_vec of Schwarzschild and KerrNewman (neutral test particle).", "quantifier": "all three named metrics and two metric classes, geodesics off ring, horizons and axis, conserved functions, orders, omegas, step sizes below a threshold and numbers of steps", "why_tests_cant": "a limit statement quantified over geodesics and conserved functions", "anchors": ["src/einsteinpy/geodesic/geodesic.py:Geodesic", "src/einsteinpy/integrators/fantasy.py:GeodesicIntegrator.step", "src/einsteinpy/integrators/runge_kutta.py:RK4naive.step", "src/einsteinpy/metric/schwarzschild.py:Schwarzschild._f_vec", "src/einsteinpy/metric/kerrnewman.py:KerrNewman._f_vec"]}
{"id": "C138", "title": "Bound orbits stay between their turning points and never fail", "statement": "If a particle or photon starts between two radii and two polar angles at which the radial and polar potentials of its energy, angular momentum and Carter constant are negative, and no ring, horizon or axis lies between them, then for every duration T there is a step size below which Geodesic succeeds for every number of steps up to duration T, stores the four-momentum of these data, and all its rows lie strictly between the barriers; no exact solution has to be supplied, its existence for all times is part of the claim. The shipped example precession() is such an orbit (4.2M < r < 41M); whatever it returns, for any number and size of steps, has 'steps' rows, the energy and angular momentum of its data and lies in the equatorial plane.", "quantifier": "all three named metrics, time-like and null data on the mass shell, barriers, orders, omegas, durations, numbers of steps and step sizes below a threshold", "why_tests_cant": "existence of the exact motion for all times and confinement are not observable on any finite run", "anchors": ["src/einsteinpy/geodesic/geodesic.py:Geodesic", "src/einsteinpy/geodesic/geodesic.py:Timelike", "src/einsteinpy/geodesic/utils.py:_P", "src/einsteinpy/integrators/fantasy.py:GeodesicIntegrator.step", "src/einsteinpy/examples.py:precession"]}
{"id": "C139", "title": "The symbolic curvature modules compute real derivatives", "statement": "For a metric whose components are smooth functions on an open set of R^n (any n, given covariantly or contravariantly), the components of ChristoffelSymbols, RiemannCurvatureTensor, RicciTensor, RicciScalar, EinsteinTensor, SchoutenTensor and WeylTensor.from_metric have, at every point, the values of the textbook formulas with ordinary partial derivatives; and a curve that solves the geodesic equation written with the values of ChristoffelSymbols.from_metric of a named space-time is what Geodesic follows, up to the order of the method.", "quantifier": "all dimensions, open sets, smooth invertible symmetric metrics, points; all curves, orders, omegas and small enough step sizes", "why_tests_cant": "ranges over all smooth metrics; connects the symbolic and the numerical half of the package", "anchors": ["src/einsteinpy/symbolic/christoffel.py:ChristoffelSymbols.from_metric", "src/einsteinpy/symbolic/riemann.py:RiemannCurvatureTensor.from_metric", "src/einsteinpy/symbolic/ricci.py:RicciTensor.from_metric", "src/einsteinpy/symbolic/ricci.py:RicciScalar.from_metric", "src/einsteinpy/symbolic/einstein.py:EinsteinTensor.from_metric", "src/einsteinpy/symbolic/weyl.py:WeylTensor.from_metric", "src/einsteinpy/symbolic/schouten.py:SchoutenTensor.from_metric", "src/einsteinpy/geodesic/geodesic.py:Geodesic"]}
{"id": "C140", "title": "Symbolic and numerical Christoffel symbols agree", "statement": "Wherever the numerical classes Schwarzschild, Kerr and (uncharged) KerrNewman return Christoffel symbols, these are the values of ChristoffelSymbols.from_metric of the predefined symbolic metric with the corresponding Schwarzschild radius and spin.", "quantifier": "all masses, spins, physical constants, points, and all open sets and metric objects whose components are the functions the predefined metrics denote", "why_tests_cant": "ranges over all points and parameters of two independent implementations", "anchors": ["src/einsteinpy/symbolic/christoffel.py:ChristoffelSymbols.from_metric", "src/einsteinpy/symbolic/predefined/vacuum_solutions.py:Schwarzschild", "src/einsteinpy/symbolic/predefined/vacuum_solutions.py:Kerr", "src/einsteinpy/symbolic/predefined/vacuum_solutions.py:KerrNewman", "src/einsteinpy/metric/schwarzschild.py:Schwarzschild._christoffels", "src/einsteinpy/metric/kerr.py:Kerr._christoffels", "src/einsteinpy/metric/kerrnewman.py:KerrNewman._christoffels"]}
{"id": "C141", "title": "The Riemann tensor is the tidal field", "statement": "For every metric object whose components are smooth functions on an open set of R^n, the components returned by RiemannCurvatureTensor.from_metric are the curvature of the connection returned by ChristoffelSymbols.from_metric: for every smooth vector field along every smooth two-parameter surface the two covariant derivatives commute up to R^i_jkl V^j T^k S^l (Ricci identity), and the separation J of every smooth family of geodesics obeys the equation of geodesic deviation D^2 J^i/dt^2 = -R^i_jkl T^j J^k T^l.", "quantifier": "all dimensions, smooth metrics given covariantly or contravariantly, open domains, smooth surfaces, vector fields and families of geodesics, points", "why_tests_cant": "needs every metric, every family of geodesics and real derivatives", "anchors": ["src/einsteinpy/symbolic/christoffel.py:ChristoffelSymbols.from_metric", "src/einsteinpy/symbolic/riemann.py:RiemannCurvatureTensor.from_metric"]}
{"id": "C142", "title": "Parallel transport preserves products; symmetries give conserved quantities", "statement": "For every metric object whose components are smooth functions on an open set of R^n, parallel transport with the symbols returned by ChristoffelSymbols.from_metric along any differentiable curve preserves all scalar products; along every geodesic of these symbols the length of the velocity, its product with every Killing field of the metric, and in particular the covariant velocity component of every coordinate the metric does not depend on, are constant.", "quantifier": "all dimensions, smooth metrics given covariantly or contravariantly, open domains, differentiable curves, parallel vector fields, geodesics, Killing fields, times", "why_tests_cant": "needs every metric, every curve and real derivatives", "anchors": ["src/einsteinpy/symbolic/christoffel.py:ChristoffelSymbols.from_metric"]}
{"id": "C143", "title": "Rounding errors do not accumulate beyond epsilon/delta", "statement": "If the initial data and the state held after every step are wrong by up to epsilon (floating point rounding of whatever kind, epsilon small against the step size), the integrators still never fail near the exact solution, and every computed state differs from it by at most a constant times delta^2 + epsilon/|delta| (delta^4 for order 4 and for RK4naive).", "quantifier": "all sequences of computed states compatible with per-step errors up to epsilon; smooth symmetric metrics and right-hand sides, data, intervals, step sizes of either sign, numbers of steps, orders, omegas", "why_tests_cant": "the number of possible rounding histories is unbounded, and tests see one machine's rounding", "anchors": ["src/einsteinpy/integrators/fantasy.py:GeodesicIntegrator.step", "src/einsteinpy/integrators/runge_kutta.py:RK4naive.step"]}
{"id": "C144", "title": "Where the Riemann tensor vanishes, parallel transport does not depend on the path", "statement": "If all components returned by RiemannCurvatureTensor.from_metric vanish on an open set, vectors transported parallelly with the symbols of ChristoffelSymbols.from_metric along a smooth family of curves with common end points arrive equal: a vanishing Riemann tensor means that the space really is flat.", "quantifier": "all dimensions, smooth metrics, open sets, smooth families of curves with fixed end points, smooth parallel fields", "why_tests_cant": "needs every family of curves; no finite set of paths shows flatness", "anchors": ["src/einsteinpy/symbolic/christoffel.py:ChristoffelSymbols.from_metric", "src/einsteinpy/symbolic/riemann.py:RiemannCurvatureTensor.from_metric"]}
{"id": "C145", "title": "The Riemann tensor vanishes exactly for flat metrics", "statement": "All components returned by RiemannCurvatureTensor.from_metric vanish on an open set exactly when every point of it has a neighbourhood with smooth coordinates (one to one, invertible Jacobian) in which the metric is a diagonal matrix of signs +1 and -1. In such coordinates the fields parallel for ChristoffelSymbols.from_metric along any curve are those with constant components, and the geodesics are the straight lines.", "quantifier": "all dimensions, signatures, smooth metrics, open sets, curves, vector fields", "why_tests_cant": "no finite set of components or points shows that a coordinate system exists; the claim is about all metrics", "anchors": ["src/einsteinpy/symbolic/christoffel.py:ChristoffelSymbols.from_metric", "src/einsteinpy/symbolic/riemann.py:RiemannCurvatureTensor.from_metric"]}
{"id": "C146", "title": "The Weyl tensor vanishes exactly for conformally flat metrics", "statement": "In dimension four and more, all components returned by WeylTensor.from_metric vanish on an open set exactly when every point of it has a neighbourhood with a positive smooth function u and smooth coordinates (one to one, invertible Jacobian) in which u times the metric is a diagonal matrix of signs +1 and -1.", "quantifier": "all dimensions n >= 4, signatures, smooth metrics, open sets", "why_tests_cant": "no finite set of components or points shows that a rescaling and a coordinate system exist; the claim is about all metrics", "anchors": ["src/einsteinpy/symbolic/weyl.py:WeylTensor.from_metric"]}
{"id": "C147", "title": "Schur's lemma for the returned curvature", "statement": "In dimension three and more, on a connected open set: if the tensor returned by RicciTensor.from_metric is at each point some multiple f of the metric, then f is constant and RicciScalar.from_metric returns the constant n f; if the tensor returned by RiemannCurvatureTensor.from_metric is at each point that of a curvature K, then K is constant.", "quantifier": "all dimensions n >= 3, signatures, smooth metrics, connected open sets, all functions f and K (not assumed continuous)", "why_tests_cant": "the pointwise hypothesis at sampled points does not show that the factor is constant between them", "anchors": ["src/einsteinpy/symbolic/ricci.py:RicciTensor.from_metric", "src/einsteinpy/symbolic/ricci.py:RicciScalar.from_metric", "src/einsteinpy/symbolic/riemann.py:RiemannCurvatureTensor.from_metric"]}
{"id": "C148", "title": "Conformally flat in dimension three exactly when the Cotton tensor vanishes", "statement": "For a three-dimensional smooth metric, the covariant derivative D_k S_ij of the tensor returned by SchoutenTensor.from_metric (taken with the symbols returned by ChristoffelSymbols.from_metric) is symmetric in j and k on an open set exactly when every point of the set has a neighbourhood with a positive function u and coordinates in which u times the metric is diag(+-1). In every dimension from three on, conformal flatness implies this symmetry.", "quantifier": "all three-dimensional smooth metrics of every signature on every open set; for the implication all dimensions n >= 3", "why_tests_cant": "the existence of the factor and the coordinates is a statement about solutions of partial differential equations on open sets; no finite set of metrics or points settles it", "anchors": ["src/einsteinpy/symbolic/schouten.py:SchoutenTensor.from_metric", "src/einsteinpy/symbolic/christoffel.py:ChristoffelSymbols.from_metric"]}
{"id": "C149", "title": "Constant curvature exactly for spheres, hyperbolic spaces and (anti-)de Sitter space", "statement": "For K != 0 the tensor returned by RiemannCurvatureTensor.from_metric is R^i_jkl = K (delta^i_k g_jl - delta^i_l g_jk) on an open set exactly when every point of the set has a neighbourhood on which the metric is the one induced on the quadric sum_a s_a phi_a^2 = 1/K by the flat metric sum_a s_a dphi_a^2 (s_a = +-1) of one more dimension.", "quantifier": "all dimensions, signatures, smooth metrics, open sets and nonzero K", "why_tests_cant": "the existence of the embedding is a statement about solutions of partial differential equations on open sets; no finite set of metrics or points settles it", "anchors": ["src/einsteinpy/symbolic/riemann.py:RiemannCurvatureTensor.from_metric", "src/einsteinpy/symbolic/predefined/de_sitter.py:AntiDeSitter, AntiDeSitterStatic, DeSitter"]}
{"id": "C150", "title": "Calls on a tensor object do not influence each other", "statement": "After any history of simplify, tensor(), indexing, order, config and tensor_lambdify calls on a constructed tensor, failing calls included, the next call raises the same exception or returns a mathematically equal result (same shape, same value of every component, same lambdify arguments and numbers) as on the fresh object; simplify(set_self=False) leaves the object unchanged, simplify() stores exactly the array it returns; tensor_lambdify with explicit arguments that cover the symbols of the tensor returns these arguments and the values of the components, before and after any such history, and raises SyntaxError for repeated names, TypeError for a wrong number of values and NameError for a missing symbol; indexing with fewer indices than axes returns the sub-array of the components starting with these indices.", "quantifier": "all tensors of all shapes, all finite histories of calls, every value-preserving simplifier", "why_tests_cant": "a test runs one sequence of calls on one tensor; the claim is about every history", "anchors": ["src/einsteinpy/symbolic/tensor.py:Tensor.simplify, Tensor.__getitem__, Tensor.tensor, Tensor.order, Tensor.config, BaseRelativityTensor.tensor_lambdify"]}
{"id": "C151", "title": "Saving an interactive plot writes the requested file", "statement": "save(name) of an interactive geodesic plotter writes a picture of exactly the figure show() returns, to exactly the file name, if the extension of name is png, jpeg, svg or webp; raises ValueError for any other extension; and writes no picture if the name has none (in particular for dot files).", "quantifier": "all plotters after all histories of drawing, all file names", "why_tests_cant": "ranges over all strings with any number of dots and slashes; a test tries the default name", "anchors": ["src/einsteinpy/plotting/geodesic/interactive.py:InteractiveGeodesicPlotter.save, InteractiveGeodesicPlotter.show"]}
{"id": "C152", "title": "Birkhoff's theorem for the returned Ricci and Einstein tensors", "statement": "Let a metric object have the components A(t,r) dt^2 + B(t,r) dr^2 + r^2 (dtheta^2 + sin^2 theta dphi^2) on an interval of times and an interval of radii without zero. RicciTensor.from_metric returns Lambda g (equivalently, EinsteinTensor.from_metric returns -Lambda g) if and only if A = F(t) f(r) and B = 1/f(r) with f(r) = 1 - k/r - Lambda r^2/3 for some number k and some function F of time: the only spherically symmetric vacuum solutions the package can report are Schwarzschild-de Sitter metrics, which are static.", "quantifier": "all intervals, all smooth nonvanishing functions A, B of two variables, all Lambda", "why_tests_cant": "ranges over all functions A and B; a test evaluates the tensor of one metric", "anchors": ["src/einsteinpy/symbolic/ricci.py:RicciTensor.from_metric", "src/einsteinpy/symbolic/einstein.py:EinsteinTensor.from_metric"]}
