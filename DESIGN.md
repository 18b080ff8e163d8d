# Formal model of einsteinpy in Lean 4

## 1 Method
The code in `/repo` is read as text and modelled function by function in Lean 4 (+ Mathlib).
Every model definition cites the file and lines it models and states its simplifications.
Each area has model files (the code, branch by branch, exceptions as values), a specification
vocabulary that does not mention the model's helpers, lemma files, and property files
(`Props*.lean` or the last section of a file) with the theorems `Cnn_…` and, beside them,
`example`s showing that concrete non-trivial inputs meet the hypotheses.

* A property the code satisfies is a theorem `Cnn_…` over all inputs / states / histories.
* A property the code violates is kept at full strength in `properties.jsonl`; `Cnn_refuted…` proves the
  negation for the model with a concrete witness, and `Cnn_…_partial` proves the part that holds, where
  possible as an *iff* saying exactly for which inputs the code is right.
* Theorems are tested against wrong programs (`tools/mutate.py`, log in `seeded/LOG.jsonl`).

None of the listed properties is considered inexpressible.

## 2 Trusted base
* The Lean 4.33.0 kernel, and the Mathlib *definitions* that occur in statements (commutative rings and
  fields, derivations, matrices, ℝ, `HasDerivAt`, `fderiv`, `Real.sqrt/sin/cos/…`, `Complex.arg`).
* Axioms: every theorem depends on at most `propext`, `Classical.choice`, `Quot.sound`; the exact list for
  each theorem is in `AXIOMS.md` (generated by `tools/axioms.py` with `#print axioms`). No own axioms,
  no compiled-code tactics.
* The reading of the Python source into the model, and the idealisations of section 3. The code is not run.

## 3 Idealisations
* **sympy expressions**: elements of an arbitrary commutative ℚ-algebra (curvature, tensors) or field of
  characteristic 0 (predefined metrics). `sympy.simplify` is the identity on values; `sympy.diff(_, syms[k])`
  is a derivation `D k`; commuting of mixed partials is a hypothesis where it is needed. `Matrix.inv()` raises
  unless the determinant is invertible. Named functions (sin, exp, besselj, f(x), …) are a structure `Fns K`
  of uninterpreted functions; the rules of calculus a theorem uses (sin' = cos, sin²+cos² = 1, (xᵃ)' = a xᵃ/x, …)
  are hypotheses of the theorem, and a concrete field satisfying them is constructed beside it
  (`Predef/Instance.lean`, `Instance2.lean`).
* **sympy arrays**: a shape and an entry function on multi-indices (`NDArr`); only in-range indices are compared.
  Nested Python lists are modelled literally in `Arrays`.
* **floats**: exact reals, except where rounding is the subject (C24: any correctly rounded division; C143: arbitrary errors after every integration step).
  Division by zero, `sqrt` and `log` outside their domain are explicit outcomes of the model wherever numpy
  would give inf/nan or Python would raise; theorems state which.
* **exceptions**: `Py α = Except PyErr α`; a tag per Python exception class, no messages.
* **objects**: identity, caching and mutation are modelled with heaps/histories where a property depends on
  them (C09, C60, C75, C76, C83, C99, C100), otherwise objects are values.
* **units**: a unit is a dimension and a positive factor; `Quantity.to`, `.value` and `primitive` are modelled,
  the astropy registry is not.
* **scipy / matplotlib / plotly**: scipy's RK45 is an abstract base class with a stated contract (`Lawful`);
  figures are the list of drawing commands sent to the back end.

## 4 What is modelled, file by file (`/repo/src/einsteinpy`)
| file | model | not modelled |
|---|---|---|
| symbolic/tensor.py | Tensor/Model, Vars/Model, Arrays/Model | `__str__`, `__repr__`, the code `sympy.lambdify` generates (only its argument list) |
| symbolic/helpers.py | Arrays/Model, Tensor/Model, Misc/Transf | — |
| symbolic/vector.py | Tensor/Model | — |
| symbolic/metric.py | Metric/Model (heap), Tensor/Model | — |
| symbolic/christoffel, riemann, ricci, einstein, weyl, schouten, stress_energy_momentum .py | Curv/Model, FloatIndex; constructors and `change_config` in Tensor/Model | — |
| symbolic/constants.py | Predef/Find, Predef/Model, Curv/Model | descriptive names |
| symbolic/predefined/*.py | Predef/Model (all functions), Predef/Find | Ricci tensor of AlcubierreWarp, BesselGravitationalWave as shipped (only that it is not zero) |
| metric/base_metric.py, schwarzschild.py, kerr.py, kerrnewman.py | Num/Model, Exec, Units | `__str__`, deprecation text |
| coordinates/utils.py, conversion.py | Coord/Model | numba compilation |
| coordinates/core.py, differential.py | Coord/Objects | `__str__`, `__repr__` |
| bodies.py | Coord/Body | dataclass repr; numerical constants of the predefined bodies |
| geodesic/geodesic.py, utils.py | Geodesic/Model, Integ/Model | `__str__` |
| integrators/fantasy.py, utils.py | Integ/Model | IEEE arithmetic itself (C143 bounds the effect of any per-step error) |
| integrators/runge_kutta.py | Integ/Model (RK4naive), Integ/RK45 | scipy's step-size control (contract only) |
| utils/dual.py | Dual/Model | `__str__`, `__repr__` |
| utils/scalar_factor.py | Misc/Cosmo | — |
| utils/exceptions.py | Py/Basic (tag only) | message formatting |
| units.py | Num/Units, Num/Model | astrounits registry |
| constant.py | Num/Model, Misc/Cosmo (parameters) | digits of the constants |
| rays/shadow.py | Misc/Shadow | scipy `fsolve`/quadrature accuracy (abstract) |
| hypersurface/schwarzschildembedding.py | Misc/Embedding | — |
| plotting/geodesic/*.py | Misc/Plot, Misc/Anim | back-end rendering, colours, labels |
| plotting/rays/shadow.py, hypersurface/core.py, fractal.py | Misc/Plot, Misc/Fractal | rendering, labels |
| examples.py | Geodesic/Bound | — |
| ijit.py, `__init__.py` | — | optional numba decorator, re-exports |

Remarks on code read but outside any listed property: `bodies.py` gives the Earth a radius of 6731 km
(6371 km was meant).

## 5 Properties
<!-- generated below by tools/design.py -->

| id | property | modelled | proof | theorems in | status |
|---|---|---|---|---|---|
| C01 | change_config raises and lowers exactly the requested indices | `_difference_list`, `_change_config`, `change_config` of each class over `NDArr` | induction over the slots of the configuration; specification = explicit sum over all multi-indices | Tensor/Props.lean | proved |
| C02 | index moves compose and round-trip | same | composition of single-slot moves, g·g⁻¹ = 1 | Tensor/Props.lean | proved |
| C03 | change_config rejects bad requests and labels good ones | same, errors as values | case analysis on every branch, success iff | Tensor/Props.lean | proved |
| C04 | tensor_product is the outer product / single contraction, and refuses like-index sums | `tensor_product`, incl. the Python expression `(i or j) is None` | evaluation of the loops; counterexample i=0/j=None | Tensor/Props2.lean | partial |
| C05 | lorentz_transform applies the matrix to every slot, once each | `lorentz_transform` | induction over slots, associativity of matrix product | Tensor/Props2.lean | proved |
| C06 | lorentz_transform preserves scalars built by contraction | same | iff-characterisation by polarisation; counterexample boost | Tensor/Props2.lean | partial |
| C07 | tensor constructors establish order = rank = len(config) | every tensor constructor | case analysis; all-inputs iff | Tensor/Props3.lean | proved |
| C08 | subs keeps the index configuration | `subs` + constructors | unfold; refutation | Tensor/Props3.lean | partial |
| C09 | metric inverse and its cache are invisible | heap of metric objects with the `_invmetric` slot, all call histories | invariant over histories, refinement to the pure inverse | Metric/Props.lean | proved |
| C10 | lower_config returns the covariant metric | `lower_config` | case analysis on configurations | Tensor/Props3.lean | partial |
| C11 | simplification never moves or drops components | nested Python lists, `_flatten_list`, dense sympy arrays | structural induction | Arrays/Props.lean | proved |
| C12 | declared variables are the free symbols and lambdify argument order is deterministic | expression AST, `free_symbols`, sorting | induction; permutation + sortedness lemmas | Vars/Props.lean | partial |
| C13 | Christoffel symbols are the Levi-Civita formula and torsion free | the loop of `ChristoffelSymbols.from_metric` | loop invariant over the flattened counter | Curv/Props.lean | proved |
| C14 | the connection is metric compatible | same | linear algebra over derivations | Curv/Props.lean | proved |
| C15 | Riemann tensor formula, antisymmetry and first Bianchi identity | loop of `RiemannCurvatureTensor` | loop invariant; commuting derivations | Curv/Props.lean | proved |
| C16 | lowered Riemann tensor has all its algebraic symmetries | same + `change_config` | matrix calculus of the connection form | Curv/Props.lean | proved |
| C17 | Ricci tensor is symmetric; all construction paths agree | `RicciTensor`, `RicciScalar` and all their constructors | contraction lemmas, transport along `change_config` | Curv/Props.lean | proved |
| C18 | Einstein tensor is symmetric and divergence free | `EinsteinTensor` | second Bianchi identity proved from the definitions, then contracted | Curv/Props.lean | proved |
| C19 | Weyl tensor is trace free with Riemann symmetries; zero in 3D | `WeylTensor` | trace identities for every dimension; dims=3 by enumerating index patterns | Curv/Props.lean | proved |
| C20 | Schouten tensor and the Ricci decomposition | `SchoutenTensor` | trace identities | Curv/Props.lean | proved |
| C21 | stress-energy tensor solves the documented field equations and is conserved | `StressEnergyMomentumTensor` | from C18; sign of Λ refuted | Curv/Props2.lean | partial |
| C22 | curvature does not depend on how the metric was supplied | all `from_metric` with a 'uu' metric | inverse of the inverse | Curv/Props2.lean | proved |
| C23 | change_config returns a tensor of its own class | `change_config` of every class | case analysis | Tensor/Props.lean | partial |
| C24 | flattened index loops visit every component exactly once | `int(t/d**k) % d` with any correctly rounded division | monotonicity of rounding | Curv/FloatIndex.lean | proved |
| C25 | dual numbers form a commutative ring with the expected division | `DualNumber` arithmetic over ℝ | ring / field identities | Dual/Props.lean | proved |
| C26 | automatic differentiation computes exact derivatives | program AST evaluated on duals | structural induction with `HasDerivAt` | Dual/Props.lean | proved |
| C27 | dual division at 0/0 and other singular points | `__truediv__`, `__rtruediv__`, `__rsub__` | case analysis on the float branches | Dual/Props.lean | proved |
| C28 | _jacobian_g is the symmetric matrix of partial derivatives of the metric | `_jacobian_g` | symmetric filling loop + C26 | Dual/Props2.lean | proved |
| C29 | the mixing sub-flow rotates the two copies and preserves their sum | `_flow_mixed` | trigonometric identities | Integ/Props.lean | proved |
| C30 | integration steps are time reversible | `_Z`, `_ord_2..8`, `step` | composition algebra, palindromic words | Integ/Props.lean | proved |
| C31 | integration steps are symplectic | same | each sub-flow symplectic (Fréchet derivative), closure under composition | Integ/Symplectic.lean | proved |
| C32 | momenta of cyclic coordinates are conserved | same | invariant, induction over steps | Integ/Props.lean | proved |
| C33 | Yoshida weights satisfy the order conditions | `_Z` weights | real cube roots; inequality for orders 6, 8 | Integ/Props.lean | partial |
| C34 | trajectory bookkeeping | `calculate_trajectory` / `Geodesic` | induction over steps, totality from smoothness | Geodesic/Total.lean, Integ/Props2.lean | proved |
| C35 | RK4naive stops at t_bound | `RK4naive.step` | induction; refutation (direction is 0) | Integ/Props2.lean | partial |
| C36 | RK4naive step is the classical fourth-order Runge-Kutta step | `RK4naive.step` | ring identities | Integ/Props2.lean | proved |
| C37 | initial momentum is correctly normalised | `_P` | quadratic formula; sign of the root | Geodesic/Props.lean, Geodesic/Total.lean | partial |
| C38 | shipped contravariant metrics are the inverses of the physical metrics | `_sch`, `_kerr`, `_kerrnewman` | field identities | Geodesic/Props.lean | proved |
| C39 | Geodesic front end validates its inputs | `Geodesic.__init__`, `Timelike`, `Nulllike` | case analysis | Geodesic/Props.lean | proved |
| C40 | Cartesian output is an isometric relabelling | `_calculate_trajectory` Cartesian branch | trigonometric identities, induction over rows | Geodesic/Props.lean | proved |
| C41 | spin parameter validation | `alpha` | case analysis | Num/Props.lean | proved |
| C42 | Schwarzschild Christoffel symbols are those of the Schwarzschild metric | `Schwarzschild._ch_sym`, `_g_cov` | `HasDerivAt` of the metric entries, table of 64 entries | Num/Props.lean | proved |
| C43 | Kerr metric derivatives are derivatives | `Kerr._dg_dx` | `HasDerivAt`; exact error term | Num/Props.lean | partial |
| C44 | Kerr Christoffel symbols are those of the Kerr metric | `Kerr._christoffels` | table of 64 entries; error propagated exactly | Num/Props.lean | partial |
| C45 | the geodesic right-hand side is -Gamma v v | `_f_vec` | sum over all pairs; conservation by differentiating g(v,v) | Num/Props2.lean | partial |
| C46 | the Kerr-Newman metric depends on the charge | `KerrNewman._g_cov` | comparison with the line element; iff Q=0 | Num/Props2.lean | partial |
| C47 | Maxwell tensor is antisymmetric and derived from the potential | `em_potential_*`, `em_tensor_*` | `HasDerivAt`; iff | Num/Props3.lean | partial |
| C48 | horizons and ergospheres are the roots of Delta and g_tt | `singularities` | quadratic formula, ordering inequalities | Num/Props3.lean | partial |
| C49 | metrics only accept their own coordinate system | `coordinate_system` checks | case analysis on all methods × systems | Num/Props3.lean | partial |
| C50 | initial time velocity normalises the four-velocity | `v0` | quadratic formula, sign | Num/FourVel.lean, Num/Props3.lean | proved |
| C51 | Cartesian/spherical conversion round trips | `cartesian_to_spherical_fast` etc., `arctan2`, `arccos` | Complex.arg lemmas | Coord/Sph.lean | proved |
| C52 | Cartesian/Boyer-Lindquist conversion round trips | `cartesian_to_bl_fast` etc. | quadratic equation of the BL radius | Coord/Bl.lean | partial |
| C53 | converted velocities are time derivatives of converted positions | velocity parts of the conversions | `HasDerivAt` along every curve | Coord/Deriv.lean | partial |
| C54 | conversions preserve speed and the Lorentz factor | `lorentz_factor` and conversions | real inequalities | Coord/Props.lean | proved |
| C55 | scale factor derivative is the derivative of the scale factor | `scalar_factor*` | `HasDerivAt` of power and exp | Misc/Cosmo.lean | proved |
| C56 | embedding gradient makes the embedding isometric | `SchwarzschildEmbedding.gradient/radial_coord` | `HasDerivAt`, iff | Misc/Embedding.lean | partial |
| C57 | photon-sphere critical impact parameter | `Shadow` critical impact parameter | cubic inequality | Misc/Shadow.lean | proved |
| C58 | fractal values are normalised | escape loop of `plotting/fractal.py` | fuel-free while semantics; escape lemma for z²+c | Misc/Fractal.lean | proved |
| C59 | drawn black hole is the one the metric describes | `_draw_bh`, ergosphere drawing | comparison with the C48 surfaces | Misc/Plot.lean | partial |
| C60 | TransformationMatrix.inv is the inverse matrix | `TransformationMatrix.inv` with cache | refutation; heap | Misc/Transf.lean | partial |
| C61 | predefined vacuum solutions reduce to each other | predefined metrics over a differential field with named functions | field identities | Predef/Props.lean | proved |
| C62 | Schwarzschild is a vacuum solution | the curvature model evaluated on the model of `Schwarzschild()` | diagonal-metric Ricci formula | Predef/Vacuum.lean | proved |
| C63 | Minkowski is flat in all its charts | `Minkowski*` | same | Predef/Vacuum2.lean | proved |
| C64 | (anti-)de Sitter metrics are Einstein spaces | `AntiDeSitter*`, `DeSitter` | same; refutation | Predef/DeSitter.lean | partial |
| C65 | JanisNewmanWinicour with gamma=1 is the Schwarzschild metric | `JanisNewmanWinicour` | field identities; refutation | Predef/Props.lean | partial |
| C66 | find() is a complete, sound filter of the predefined metrics | `find`, `dir` of the predefined module | list lemmas | Predef/Find.lean | proved |
| C67 | off-shell warnings are exact and do not influence the trajectory | warning branch of `step` | induction over steps | Integ/Props2.lean | proved |
| C68 | Kerr-Newman derivatives and Christoffel symbols are those of its own metric | `KerrNewman._dg_dx`, `_christoffels` | `HasDerivAt`, table | Num/Props2.lean | proved |
| C69 | Kerr and Kerr-Newman agree where their metrics agree | Kerr vs KerrNewman | table comparison, iff | Num/Props2.lean | partial |
| C70 | charged test particles: the Lorentz force does no work | `KerrNewman._f_vec` | antisymmetry; counterexample | Num/Props4.lean | partial |
| C71 | user-defined metrics: perturbation is additive, contravariant form is the inverse | `BaseMetric.metric_covariant/contravariant` | matrix inverse, iff on the determinant | Num/Props4.lean | proved |
| C72 | results do not depend on the units of the arguments | unit handling of the constructors and of `units.primitive` | unit = (dimension, positive factor); iff | Num/Units.lean | partial |
| C73 | numeric Schwarzschild and Kerr metrics are the textbook line elements | `_g_cov` of Schwarzschild, Kerr | bilinear form vs line element | Num/Props5.lean | proved |
| C74 | dispatch, errors and composition of the conversion methods | `coordinates/conversion.py`, `utils.py` dispatch | case analysis on optional arguments | Coord/Props.lean | proved |
| C75 | all views of a coordinate object agree | coordinate objects with cached tuple and attributes | state invariants; refutation after assignment | Coord/ObjProps.lean | partial |
| C76 | velocity(metric) returns a normalised four-velocity independent of history | differential objects, `velocity`, `v_t` | induction over histories | Coord/ObjProps.lean | proved |
| C77 | get_values terminates and samples the embedding | two `while` loops of `get_values` | termination + closed form by induction; divergence proof | Misc/Embedding.lean | proved |
| C78 | get_values_surface returns three arrays of the same shape | `get_values_surface` | shape calculus of meshgrid; refutation | Misc/Embedding.lean, Misc/Plot.lean | partial |
| C79 | conversions of coordinate objects are the numeric conversions of their SI values | `to_*` methods of coordinate objects | unfold + C51, C52 | Coord/ObjProps2.lean | proved |
| C80 | the turning point of a ray in the shadow image solves the orbit equation | `Shadow._root_equation` | iff with orbit equation | Misc/Shadow.lean | partial |
| C81 | shadow arrays are consistent and intensities positive | `Shadow` arrays | list lemmas, positivity of the sampled integral | Misc/Shadow.lean | proved |
| C82 | fractal image: every pixel filled, point symmetry | image loops of `fractal` | loop invariant over pixels, z²+c symmetry | Misc/Fractal.lean | proved |
| C83 | geodesic plotters: refused arguments leave the figure unchanged | static / interactive plotters as figure state machines | case analysis + frame property | Misc/Plot.lean | partial |
| C84 | shadow plots show the shadow | `ShadowPlotter` | list lemmas | Misc/Plot.lean | proved |
| C85 | symbolic and numerical metrics describe the same spacetime | symbolic vs numerical metrics | evaluation homomorphism | Predef/Props2.lean | partial |
| C86 | every predefined metric is symmetric with Lorentz signature | every predefined metric | signature via congruence (explicit frames) | Predef/Signature.lean | proved |
| C87 | AlcubierreWarp bubble is a ball | `AlcubierreWarp` | refutation | Predef/Signature.lean | partial |
| C88 | get_constant knows exactly its documented names | `get_constant` | finite table lifted to all strings | Predef/Find.lean | proved |
| C89 | ReissnerNordstorm() is a Maxwell-type source: its Ricci tensor and zero Ricci scalar | `ReissnerNordstorm()` | spherical Ricci formula | Predef/Vacuum.lean, Predef/Vacuum2.lean | proved |
| C90 | BertottiKasner() is an Einstein space with constant lambda*c^2 | `BertottiKasner()` | diagonal Ricci formula | Predef/Sources.lean | proved |
| C91 | BarriolaVilekin() has exactly the global-monopole curvature | `BarriolaVilekin()` | same, iff | Predef/Sources.lean | proved |
| C92 | Godel() is rotating dust: Ricci = 2 omega^2 u u | `Godel()` | connection-form calculus of a stationary metric | Predef/Godel.lean | proved |
| C93 | Ernst() has vanishing Ricci scalar and reduces to Schwarzschild without the field | `Ernst()` | conformal diagonal metric | Predef/Ernst.lean | proved |
| C94 | Davidson() is a radiation perfect fluid | `Davidson()` | power-law calculus in a differential field | Predef/Davidson.lean | proved |
| C95 | Kerr() is a vacuum solution | `Kerr()` | Ricci of the t-φ block metric in rational form | Predef/Kerr.lean | proved |
| C96 | KerrNewman() is the electrovacuum field of a rotating charge | `KerrNewman()` | same, with the charge; iff | Predef/Kerr.lean | proved |
| C97 | The animation of a static geodesic plot shows the whole trajectory inside the axes | `animate`, axis limits, frames | list minimum/maximum lemmas; refutation of the last frame | Misc/Anim.lean | partial |
| C98 | The curve a geodesic plot draws is the spatial path of the geodesic | `plot` of a `Geodesic` | comparison with the Cartesian image; refutation | Misc/Anim.lean | partial |
| C99 | RK45 integrator: time stays within the interval, and only a finished solver turns step() into a warning | `RK45` wrapper over an abstract scipy base class `Lawful` | induction over calls; refutation for RuntimeError | Integ/RK45.lean | partial |
| C100 | Body: unit checks, positions consistent with coordinates, well-founded parents | `Body` | case analysis, well-foundedness of the parent chain; refutation after assignment | Coord/Body.lean | partial |
| C101 | CMetric(): Ricci tensor for arbitrary f and h, and when it is vacuum | `CMetric()` | diagonal Ricci formula, ODE separated in the differential field | Predef/CMetric.lean | proved |
| C102 | BesselGravitationalWave() is a vacuum gravitational wave | `BesselGravitationalWave()` | diagonal Ricci formula + Bessel equations | Predef/Bessel.lean | partial |
| C103 | JanisNewmanWinicour() is the field of a static massless scalar | `JanisNewmanWinicour()` | diagonal Ricci formula with powers | Predef/Jnw.lean | partial |
| C104 | Geodesic integrator: one step is accurate to the advertised order | `orderStep` on states with two equal copies; Hamilton's equations as a separate specification (HamiltonAt) | each sub-step is the flow of a vector field; f(Phi_delta(s)) is expanded in powers of delta with operator coefficients (Integ/Flow), composition multiplies the series, symmetry of the series gives the even order conditions, the Yoshida weights the third one; refutation by the exact leading coefficient on diag(-x^2,1,1,1) | Integ/Order.lean, Integ/Order2.lean | partial |
| C105 | Geodesic trajectories converge to the exact solution as the step size goes to zero | `calculateTrajectory` for all small step sizes | local error uniformly near the compact solution curve + Lipschitz constant 1+L\|delta\| of every sub-step + discrete Groenwall (Integ/Converge) | Integ/Order.lean | proved |
| C106 | Geodesic trajectories converge to solutions of the geodesic equation | as C105, with the geodesic equation written with Christoffel symbols (GeodesicAt) | p = g v solves Hamilton's equations (derivative of the inverse matrix), then C105 | Geodesic/Named.lean, Integ/Geod.lean | proved |
| C107 | Geodesics of the named space-times are approximated end to end | `Geodesic.new` with the three names; the space-time as `blCov` (textbook line element) and `IsGeodesicAt` (matrix inverse) | the metric functions are the inverse of blCov near the curve (C38), smooth there, the root chosen by `_P` is the future directed one, then C106 | Geodesic/Named.lean | proved |
| C108 | RK4naive is accurate to fourth order and converges | `RK4.new`, `RK4.step` over any normed space | time as an additional unknown; f(s+hu) expanded by the Lie series of the straight flow (Integ/RungeKutta), the three nested expansions give the fourth-order Taylor polynomial of the solution; discrete Groenwall as in C105 | Integ/RungeKutta2.lean | proved |
| C109 | Small enough steps keep a geodesic on its mass shell, without warnings | `Integ.new`, `runN`, the recorded states and the warnings list | g^ij p_i p_j is constant along solutions of Hamilton's equations and locally Lipschitz near the compact curve; C105 bounds the distance of every recorded state; C67 ties warnings to the constraint | Integ/Shell.lean | proved |
| C110 | Curvature does not depend on the coordinates | `*FromMetric` on two metric objects related by a substitution obeying the chain rule | uniqueness of the Levi-Civita connection gives the law of the connection matrices, the curvature matrices then conjugate (Curv/Covariance) | Curv/Props3.lean | proved |
| C111 | Second Bianchi identity | `christoffelFromMetric`, `riemannFromMetric`, `changeConfig` | gauge covariant derivative of the curvature matrices, Jacobi identity (Curv/Geo2) | Curv/Props4.lean | proved |
| C112 | Two-dimensional spaces | `einsteinFromMetric` etc. with two symbols | one independent component and the adjugate formula of the inverse (Curv/Props4) | Curv/Props4.lean | proved |
| C113 | Conformal rescaling | `weylFromMetric`, `changeConfig` on two metric objects u*g and g | connection of u*g by uniqueness, curvature difference is a Kulkarni-Nomizu product, whose trace-free part is zero (Curv/Conformal) | Curv/Props4.lean | proved |
| C114 | energy and angular momentum of numeric geodesics | `fVec` of the three classes | lowered Christoffel symbols contracted twice with the velocity leave only the derivative along the cyclic coordinate (Num/Conserved) | Num/Conserved.lean | partial |
| C115 | RK4naive with f_vec follows geodesics | `RK4Py` (RK4naive with a callback that may raise), `fVec` | C108 on the smooth region, a compact tube around the geodesic keeps the four stages inside it (Integ/RKPy, Num/Geodesics) | Num/Geodesics.lean | proved |
| C116 | Trajectories inherit the symmetries of the space-time | `Geodesic.new`, `calculateTrajectory`, `orderStep` | any move that multiplies coordinates by signs and shifts them, and transports the metric function, commutes with every sub-flow, step and run; the dual-number jacobian transforms by uniqueness of derivatives; mirror fixed points give equatorial motion (Geodesic/Symmetry) | Geodesic/Symmetry.lean | proved |
| C117 | Carter constant and total angular momentum are conserved by f_vec | `fVec`, `metricCovariant`, `alpha` | derivative of the constant along a curve with the acceleration of the code; the theta-derivative of the metric compensates by an algebraic identity (Num/Carter) | Num/Carter.lean | partial |
| C118 | Einstein spaces and constant curvature | `riemannFromMetric`, `ricciFromMetric`, `weylFromMetric`, `schoutenFromMetric`, `einsteinFromMetric`, `antiDeSitter`, `antiDeSitterStatic`, `deSitter` | contraction of the constant-curvature form; contracted Bianchi identity for Schur; Riemann tensor of a diagonal metric in logarithmic derivatives (Curv/Space, Predef/ConstCurv) | Curv/Space.lean, Predef/ConstCurv.lean | partial |
| C119 | smoothen resamples the shadow without changing it | `Shadow.smoothen` with the interpolation routine as a parameter | case analysis on the node list; the equally spaced grid has distinct members and reproduces itself; the lists b2 and bfin share the critical impact parameter (Misc/Smooth) | Misc/Smooth.lean | partial |
| C120 | Straight lines in flat space are exact | `orderStep`, `Integ.runN`, `calculateTrajectory` | the dual-number jacobian of a constant function is zero, mixing is the identity on equal copies, the weights sum to one; induction on the steps (Integ/Flat) | Integ/Flat.lean | proved |
| C121 | Affine reparametrisation of numeric geodesics | `fVec` of the three classes, `RK4Py` | bilinearity of the acceleration; a linear conjugation of right-hand sides commutes with every stage of the solver; induction on the steps (Num/Affine) | Num/Affine.lean | proved |
| C122 | Substituting parameters commutes with computing curvature | `christoffelFromMetric` … `weylFromMetric`, `Obj.subs`, `metricTensor` | a ring homomorphism that commutes with the coordinate derivatives maps the inverse matrix, hence every textbook formula; the constructors compute these formulas (Curv/Specialise) | Curv/Specialise.lean | proved |
| C123 | Curvature does not depend on symbols the metric does not depend on | `christoffelFromMetric` … `weylFromMetric` | the derivative along s commutes with the coordinate derivatives and kills the metric, hence its inverse and every formula (Curv/Indep) | Curv/Indep.lean | proved |
| C124 | Product metrics | `christoffelFromMetric`, `riemannFromMetric`, `ricciFromMetric`, `scalarFromMetric` | the inverse of a block matrix is the block matrix of the inverses; every term of the formulas has a factor between groups; sums over all indices restrict to the group (Curv/Product) | Curv/Product.lean | proved |
| C125 | Complete curvature of the Schwarzschild and Reissner-Nordstrom metrics | `schwarzschild`, `reissnerNordstorm`, `riemannFromMetric`, `Obj.changeConfig`, `weylFromMetric` | for a diagonal metric the independent components are evaluated once and extended by the symmetries; Ricci, scalar, Weyl and the full contraction follow for any metric of this pair form; the static spherical case is solved from f, f', f'' (Predef/Tidal) | Predef/Tidal.lean | proved |
| C126 | Alcubierre warp drive: free-falling observers and negative energy | `alcubierreWarp`, `christoffelFromMetric`, `einsteinFromMetric`, `stressEnergyFromMetric` | explicit inverse and Christoffel table for an arbitrary shift function, then polynomial identities in its first and second derivatives (Predef/Warp) | Predef/Warp.lean | proved |
| C127 | Comparing dual numbers | `Val.eqPy`, `Val.nePy`, `Val.hashable` | case analysis (Dual/Compare) | Dual/Compare.lean | proved |
| C128 | Contractions do not depend on which index is raised, nor on the order of the factors | `tensorProduct`, `Obj.changeConfig` | one changed slot as a matrix acting on that slot; the two slot matrices are inverse to each other and symmetric (Tensor/Moves) | Tensor/Moves.lean | proved |
| C129 | Moving indices commutes with Lorentz transformations that preserve the metric | `Obj.lorentzTransform`, `Obj.changeConfig` | both orders as products of slot matrices; test vectors for the converse (Tensor/Moves) | Tensor/Moves.lean | partial |
| C130 | The right-hand sides have the symmetries of the space-time | `Schwarzschild.fVec`, `Kerr.fVec`, `KerrNewman.fVec`, `RK4Py` | metric, derivative table and Maxwell tensor under an affine substitution; the loops of `_ch_sym_bl`, the inverse and the acceleration lines are covariant; RK4 commutes with affine maps (Num/Scale, Num/ScaleTab, Num/Symmetry) | Num/Circular.lean, Num/Symmetry.lean | proved |
| C131 | Trajectories scale with the mass of the black hole | as C130 | the same substitution with lengths multiplied by l (Num/Symmetry) | Num/Symmetry.lean | proved |
| C132 | Circular orbits obey Kepler's third law and are integrated exactly | as C130 | components of the geodesic acceleration at the equator from the loops; a right-hand side constant on a circle is integrated exactly, by induction on the steps (Num/Circular) | Num/Circular.lean | partial |
| C133 | Geodesic follows circular orbits exactly | `Geodesic.new`, `Integ.step`, `fourMomentum` | on a motion uniform in the coordinates both copies of the integrator stay together, so every flow is exact: induction over the substeps and steps; the equatorial circles solve Hamilton's equations iff Kepler's law (Geodesic/Circular) | Geodesic/Circular.lean | proved |
| C134 | A negative delta runs the time-reversed motion | `Geodesic.new`, `Integ.step`, `fourMomentum` | every elementary flow commutes with (p, delta) -> (-p, -delta); combined with the symmetry t, phi -> -t, -phi of the metric functions (Geodesic/Reversal) | Geodesic/Reversal.lean | proved |
| C135 | The path of a photon does not depend on its energy | as C134 | every flow except the mixing commutes with (p, delta) -> (l p, delta / l); explicit counterexample with one step; C107 applied to the geodesic and its rescaling for the limit (Geodesic/Photon) | Geodesic/Photon.lean | partial |
| C136 | The two geodesic solvers of the package agree | `Geodesic.new`, `Schwarzschild.fVec`, `KerrNewman.fVec`, `RK4Py.step` | change-of-units lemma for Christoffel symbols (`lc_units`, `geodesic_units`), C107 and C115 combined (Num/Agree) | Num/Agree.lean | proved |
| C137 | Conserved quantities drift by no more than the order of the method | as C107 and C115 | Lipschitz tube around the geodesic, C107 and C115; Carter's constant of the exact motion by separating the Hamiltonian (Num/FirstIntegral) | Num/FirstIntegral.lean | proved |
| C138 | Bound orbits stay between their turning points and never fail | as C105, C107; `precession` (examples.py) | global solution of a cut-off Hamiltonian system (Geodesic/Trap), confined by the potentials computed from the conserved norm, energy, angular momentum and Carter constant; convergence C105 with compact margin (Geodesic/Bound) | Geodesic/Bound.lean | proved |
| C139 | The symbolic curvature modules compute real derivatives | the curvature constructors over the ring of smooth functions on an open set | that ring with its partial derivatives is an instance of the abstract model (Curv/Functions); evaluation at a point; C107 (Num/Symbolic) | Curv/Functions.lean, Num/Symbolic.lean | proved |
| C140 | Symbolic and numerical Christoffel symbols agree | as C139 and C42, C44, C68, C85 | Christoffel symbols do not change under a constant factor c^2; pointwise agreement of the metrics C85 (Num/Symbolic) | Num/Symbolic.lean | partial |
| C141 | The Riemann tensor is the tidal field | as C139 | smooth functions on the parameter domain are pulled back along the surface, chain rule; Ricci identity for derivations along a map of rings (Curv/Deviation) | Curv/Deviation.lean | proved |
| C142 | Parallel transport preserves products; symmetries give conserved quantities | as C139 | metric compatibility of the returned symbols evaluated at the points of the curve, chain rule, mean value theorem (Curv/Transport) | Curv/Transport.lean | proved |
| C143 | Rounding errors do not accumulate beyond epsilon/delta | as C105, C108, with an arbitrary perturbation of at most epsilon after every step | discrete Gronwall inequality with an additional error per step (Integ/Rounding) | Integ/Rounding.lean | proved |
| C144 | Where the Riemann tensor vanishes, parallel transport does not depend on the path | as C139 | Ricci identity C141, Gronwall uniqueness for the linear transport equation (Curv/FlatPaths) | Curv/FlatPaths.lean | proved |
| C145 | The Riemann tensor vanishes exactly for flat metrics | as C139 | linear Frobenius theorem by transport along rays and Gronwall (Curv/Frobenius), parallel coframe with primitives, Sylvester normal form, inverse function theorem; converse by C119-type covariance (Curv/Flat) | Curv/Flat.lean | proved |
| C146 | The Weyl tensor vanishes exactly for conformally flat metrics | as C139 | vanishing Cotton tensor from the second Bianchi identity (Curv/Cotton), flat tractor connection on R x covectors x R (Curv/Tractor), parallel sections by the Frobenius theorem (Curv/Parallel), null section rescales to a flat metric, then C145 (Curv/ConfFlat) | Curv/ConfFlat.lean | proved |
| C147 | Schur's lemma for the returned curvature | as C139 | contracted Bianchi identity, a function with vanishing derivatives on a connected open set is constant (Curv/Schur) | Curv/Schur.lean | proved |
| C148 | Conformally flat in dimension three exactly when the Cotton tensor vanishes | as C139 | C146's connection on R x covectors x R is flat exactly when Weyl and Cotton vanish; in dimension three Weyl is zero (Curv/Tractor, ConfFlat, Cotton3) | Curv/Cotton3.lean | proved |
| C149 | Constant curvature exactly for spheres, hyperbolic spaces and (anti-)de Sitter space | as C139 | connection on R x covectors that is flat exactly for curvature K; parallel frame orthonormal for K + g^-1; Gauss equation for the converse (Curv/Quadric, SpaceForm) | Curv/SpaceForm.lean | proved |
| C150 | Calls on a tensor object do not influence each other | dense arrays of C11, lambdify of C12, one mutable object | relation between the object after the history and the fresh one, kept by every call (Vars/History) | Vars/History.lean | proved |
| C151 | Saving an interactive plot writes the requested file | os.path.splitext on character lists, the plotter of C83 | characterisation of the last dot and slash by list decomposition (Misc/Save) | Misc/Save.lean | proved |
| C152 | Birkhoff's theorem for the returned Ricci and Einstein tensors | smooth functions of C139, diagonal metrics | the Ricci tensor of diagonal metrics over a ring (Curv/DiagFn), then three first-order equations solved by the mean value theorem (Curv/Birkhoff) | Curv/Birkhoff.lean | proved |

## Findings: what the code does not satisfy

Each entry is a property kept at full strength whose negation is proved for the model with a witness (theorem suffix `_refuted…`), next to the part that does hold.

* **C04** tensor_product is the outer product / single contraction, and refuses like-index sums. Outer product, contraction and like-index refusal proved. The last clause of the property (exactly one of i,j is an error) is FALSE of the code when the missing one is None and the given one is falsy/ignored: C04_one_index_refuted gives the counterexample, C04_one_index_raises_partial the cases in which the code does raise. (`C04_one_index_refuted`)
* **C06** lorentz_transform preserves scalars built by contraction. FALSE of the code unless L*L = 1: lower slots are transformed with L itself (transposed), not with the inverse. C06_contraction_invariant_iff_partial characterises exactly the matrices for which it holds; C06_boost_refuted is a genuine Lorentz boost violating it. (`C06_boost_refuted`)
* **C08** subs keeps the index configuration. FALSE of the code for configurations other than 'll': C08_subs_refuted; C08_subs_ll_partial proves it for the others. (`C08_subs_refuted`)
* **C10** lower_config returns the covariant metric. FALSE of the code for mixed metrics: C10_lower_config_refuted; C10_lower_config_partial covers ll and uu. (`C10_lower_config_refuted`)
* **C12** declared variables are the free symbols and lambdify argument order is deterministic. Proved for constructed tensors, determinism and lambdify; FALSE of the code for tensor_product (C12_tensor_product_refuted: union list is not sorted / may contain coordinates) and for two different symbols with the same name (C12_same_name_order_refuted). (`C12_tensor_product_refuted`, `C12_same_name_order_refuted`)
* **C21** stress-energy tensor solves the documented field equations and is conserved. Symmetry and conservation proved. The documented field equation is FALSE of the code: the cosmological term has the opposite sign; C21_documented_iff shows it holds exactly when Lambda = 0, C21_documented_refuted is an instance where it fails. (`C21_documented_refuted`)
* **C23** change_config returns a tensor of its own class. FALSE of the code for the stress-energy tensor: C23_change_config_class_refuted; proved for the other classes. (`C23_change_config_class_refuted`)
* **C33** Yoshida weights satisfy the order conditions. Order 4 proved. FALSE of the code for orders 6 and 8: the inner compositions reuse the weights of the outermost order (C33_order6_8_refuted). (`C33_order6_8_refuted`)
* **C35** RK4naive stops at t_bound. FALSE of the code: direction is always 0, so the bound is never consulted (C35_refuted); C35_time_after_n_steps says what happens instead. (`C35_refuted`)
* **C37** initial momentum is correctly normalised. Proved for the three named metrics (C37_builtin, C37_object) and every metric of their shape; FALSE of the code for callables with other off-diagonal entries (C37_general_refuted). (`C37_general_refuted`)
* **C43** Kerr metric derivatives are derivatives. All entries but one proved to be the derivative (C43_kerr_derivatives_partial); FALSE of the code for d_r g_phiphi, whose rotation term has the wrong sign (C43_refuted_error_term gives the exact error). (`C43_refuted_error_term`)
* **C44** Kerr Christoffel symbols are those of the Kerr metric. Symmetry, totality and the list of nonzero symbols proved; 59 of 64 symbols proved correct; FALSE of the code for the five symbols that use d_r g_phiphi (C44_refuted_iff: correct only if a=0, M=0 or r^2 = alpha^2 cos^2). (`C44_refuted_iff`)
* **C45** the geodesic right-hand side is -Gamma v v. Right-hand sides proved for both classes, conservation proved for Schwarzschild; FALSE of the code for Kerr (C45_refuted_kerr_drift, C45_refuted_kerr_not_conserved). (`C45_refuted_kerr_drift`, `C45_refuted_kerr_not_conserved`)
* **C46** the Kerr-Newman metric depends on the charge. FALSE of the code: delta is called without the charge (C46_refuted_ignores_charge, C46_refuted_iff: right exactly when Q=0); proved for Q=0. (`C46_refuted_ignores_charge`, `C46_refuted_iff`)
* **C47** Maxwell tensor is antisymmetric and derived from the potential. Antisymmetry proved; electric components and F_r_theta proved; FALSE of the code for the two magnetic components, whose sign is reversed (C47_refuted_iff). (`C47_refuted_iff`)
* **C48** horizons and ergospheres are the roots of Delta and g_tt. Horizons, ergospheres of the line element, ordering and reality proved. For a charged KerrNewman object the ergospheres are not zeros of g_tt of the metric the object itself returns (C48_refuted_charged). (`C48_refuted_charged`)
* **C49** metrics only accept their own coordinate system. Proved for metric, inverse, Christoffel symbols, right-hand side, singularities and contravariant EM quantities; FALSE of the code for the covariant EM potential and tensor, which never look at the coordinate system (C49_refuted_em_unchecked). (`C49_refuted_em_unchecked`)
* **C52** Cartesian/Boyer-Lindquist conversion round trips. Positions: proved for every spin and every point of nonzero radius. Velocities: proved for x != 0; FALSE of the code at x = 0 (C52_refuted_velocity). (`C52_refuted_velocity`)
* **C53** converted velocities are time derivatives of converted positions. Three of the four conversions proved without exception; Cartesian to Boyer-Lindquist proved for x != 0 and FALSE of the code at x = 0 (C53_refuted_bl). (`C53_refuted_bl`)
* **C56** embedding gradient makes the embedding isometric. radial_coord and the domain of definition proved. FALSE of the code for gradient: its square has an extra factor radial_coord(r) (C56_gradient_partial gives the exact identity that does hold, C56_isometric_iff characterises when it is isometric, C56_refuted). (`C56_refuted`)
* **C59** drawn black hole is the one the metric describes. Horizon proved. FALSE of the code for the ergosphere: a instead of a^2 (2D: right exactly for a=0, a=1 or on the equator, C59_ergosphere_2D_partial), azimuth and polar angle confused in 3D (C59_ergosphere_3D_partial, C59_refuted_3D), and the section through the axis is drawn in the equatorial plane (C59_refuted_equatorial). (`C59_refuted_2D`, `C59_refuted_3D`, `C59_refuted_equatorial`)
* **C60** TransformationMatrix.inv is the inverse matrix. FALSE of the code: inv() is the elementwise reciprocal (C60_refuted); right only for 1x1 matrices (C60_one_by_one_partial). Caching proved (C60_repeat). (`C60_refuted`, `C60_refuted_zero`, `C60_refuted_new2old`)
* **C64** (anti-)de Sitter metrics are Einstein spaces. Proved for AntiDeSitter() and AntiDeSitterStatic() (Ricci = -3 g). FALSE of DeSitter(): its time variable is bound to the second coordinate x, so Ricci = diag(0,0,-1/alpha^2,-1/alpha^2), which is no multiple of the metric (C64_refuted); C64_deSitter_intended_partial proves it for the metric with t in the exponent. (`C64_refuted`)
* **C65** JanisNewmanWinicour with gamma=1 is the Schwarzschild metric. FALSE of the code: gamma=1 gives minus the Schwarzschild metric for c=1 (C65_opposite_partial) and has no c^2 in the angular part (C65_refuted_units). (`C65_refuted`, `C65_refuted_units`)
* **C69** Kerr and Kerr-Newman agree where their metrics agree. 59 of 64 symbols proved equal; FALSE of the code for the others (C69_refuted_iff). (`C69_refuted_iff`)
* **C70** charged test particles: the Lorentz force does no work. Proved for neutral test particles; FALSE of the code for charged ones: the force contracts the wrong index of F (C70_refuted_work, C70_refuted_not_conserved). (`C70_refuted_work`, `C70_refuted_not_conserved`)
* **C72** results do not depend on the units of the arguments. Dimension checks proved, and correctness for SI units; FALSE of the code for other units: .value is read without conversion (C72_refuted_iff). (`C72_refuted_iff`)
* **C75** all views of a coordinate object agree. Proved for objects as constructed; FALSE of the code after an attribute assignment: only position() notices (C75_refuted). (`C75_refuted`)
* **C78** get_values_surface returns three arrays of the same shape. Everything but the shape of Z proved; FALSE of the code for the shape of Z, which stays flat (C78_refuted). (`C78_refuted`)
* **C80** the turning point of a ray in the shadow image solves the orbit equation. Proved for masses that are whole numbers; FALSE of the code for all others, the mass being truncated (C80_refuted). (`C80_refuted`)
* **C83** geodesic plotters: refused arguments leave the figure unchanged. All but atomicity of plot2D proved; FALSE of the code for plot2D with a refused coordinate number (C83_refuted). (`C83_refuted`)
* **C85** symbolic and numerical metrics describe the same spacetime. Proved for Schwarzschild, Kerr and uncharged KerrNewman; FALSE of the code for a charge (C85_refuted): the numerical class forgets it in Delta. (`C85_refuted`)
* **C87** AlcubierreWarp bubble is a ball. FALSE of the code: y+z instead of y^2+z^2 (C87_refuted); right on the axis y=z=0 (C87_axis_partial). (`C87_refuted`)
* **C97** The animation of a static geodesic plot shows the whole trajectory inside the axes. All but the last frame proved; FALSE of the code for the last point of the trajectory, which no frame ever shows (C97_refuted). (`C97_refuted`)
* **C98** The curve a geodesic plot draws is the spatial path of the geodesic. Proved for return_cartesian=True (C98_cartesian_partial); FALSE of the code for return_cartesian=False, where r, theta, phi are drawn as x, y, z (C98_refuted). (`C98_refuted`)
* **C99** RK45 integrator: time stays within the interval, and only a finished solver turns step() into a warning. Proved over any base class that keeps scipy's documented contract (structure Lawful, with an inhabitant); FALSE of the code for a RuntimeError of the user's right-hand side, which is turned into a warning (C99_refuted). (`C99_refuted`)
* **C100** Body: unit checks, positions consistent with coordinates, well-founded parents. Proved for freshly made bodies; FALSE of the code after coords is reassigned: pos_vec stays (C100_refuted). (`C100_refuted`)
* **C102** BesselGravitationalWave() is a vacuum gravitational wave. FALSE of the code: the arguments of besselj are swapped, so U = 0, the metric is static and not a vacuum solution (C102_refuted); C102_intended_partial proves the claim for the Bessel functions in the intended order. (`C102_refuted`)
* **C103** JanisNewmanWinicour() is the field of a static massless scalar. The whole Ricci tensor is computed (C103_ricci_partial); FALSE of the code for c^2 != 1, where angular components 1-c^2 remain because the angular part of the metric is not divided by c^2 (C103_refuted). (`C103_refuted`)
* **C104** Geodesic integrator: one step is accurate to the advertised order. Proved for orders 2 and 4 (C104_second_order, C104_fourth_order); orders 6 and 8 are only second-order accurate: FALSE of the code, with an explicit metric and solution (C104_order6_8_refuted). (`C104_order6_8_refuted`)
* **C114** energy and angular momentum of numeric geodesics. Proved for Schwarzschild, neutral Kerr-Newman and the energy in Kerr; FALSE of the code for the angular momentum in Kerr (C114_refuted_kerr_drift, C114_refuted_kerr_not_conserved): the wrong sign in d_r g_phiphi. (`C114_refuted_kerr_drift`, `C114_refuted_kerr_not_conserved`)
* **C117** Carter constant and total angular momentum are conserved by f_vec. Proved for Schwarzschild and neutral Kerr-Newman; FALSE of the code for Kerr (C117_refuted_kerr_drift, C117_refuted_kerr_not_conserved): the wrong sign in d_r g_phiphi. (`C117_refuted_kerr_drift`, `C117_refuted_kerr_not_conserved`)
* **C118** Einstein spaces and constant curvature. Proved for all metrics, dimensions and for both anti-de Sitter metrics; FALSE of DeSitter(), whose exponent contains x instead of t (C118_refuted_deSitter, C64_refuted). (`C118_refuted_deSitter`)
* **C119** smoothen resamples the shadow without changing it. Outcome, samples and idempotence proved for all shadows; FALSE of the code that every shadow with four samples can be smoothed: whenever the critical ray is kept its impact parameter occurs twice and smoothen raises ValueError (C119_refuted). (`C119_refuted`)
* **C129** Moving indices commutes with Lorentz transformations that preserve the metric. FALSE of the code for boosts (C129_boost_refuted): lower indices are transformed with the transpose of L instead of the inverse transpose. C129_commute_iff_partial and C129_isometry_partial characterise exactly the matrices for which it holds (g L = L^T g; among the matrices preserving the metric those with L^2 = 1). (`C129_boost_refuted`)
* **C132** Circular orbits obey Kepler's third law and are integrated exactly. Proved for Schwarzschild and for neutral particles in KerrNewman; FALSE of Kerr (C132_kerr_refuted): because of the wrong sign in its derivative table, every revolving circular orbit of a spinning hole gets a nonzero acceleration. C132_kerr_partial gives the exact condition that Kerr uses instead. (`C132_kerr_refuted`)
* **C135** The path of a photon does not depend on its energy. FALSE of the code for omega != 0 (C135_refuted): _flow_mixed mixes positions with momenta by an angle proportional to delta, so the computed radius of a radial photon depends on its energy. Proved: the stored 4-momentum always scales (C135_momentum), with omega = 0 the whole property holds exactly, for every metric argument and including errors (C135_uncoupled), and for every omega the two runs along a null geodesic of a named space-time agree up to K*delta^2, K*delta^4 for order 4 (C135_limit_partial). (`C135_refuted`)
* **C140** Symbolic and numerical Christoffel symbols agree. Proved for Schwarzschild, uncharged KerrNewman and 59 of the 64 symbols of Kerr; FALSE of the code for the other five: C140_kerr_refuted_iff says all 64 agree exactly if the hole does not spin, has no mass or r^2 = alpha^2 cos^2 theta (the wrong sign in d_r g_phiphi, C43). (`C140_kerr_refuted_iff`)
