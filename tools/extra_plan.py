EXTRA = {
"C104": ("`orderStep` on states with two equal copies; Hamilton's equations as a separate specification (HamiltonAt)",
  "each sub-step is the flow of a vector field; f(Phi_delta(s)) is expanded in powers of delta with operator coefficients (Integ/Flow), composition multiplies the series, symmetry of the series gives the even order conditions, the Yoshida weights the third one; refutation by the exact leading coefficient on diag(-x^2,1,1,1)"),
"C105": ("`calculateTrajectory` for all small step sizes",
  "local error uniformly near the compact solution curve + Lipschitz constant 1+L|delta| of every sub-step + discrete Groenwall (Integ/Converge)"),
"C106": ("as C105, with the geodesic equation written with Christoffel symbols (GeodesicAt)",
  "p = g v solves Hamilton's equations (derivative of the inverse matrix), then C105"),
"C107": ("`Geodesic.new` with the three names; the space-time as `blCov` (textbook line element) and `IsGeodesicAt` (matrix inverse)",
  "the metric functions are the inverse of blCov near the curve (C38), smooth there, the root chosen by `_P` is the future directed one, then C106"),
"C108": ("`RK4.new`, `RK4.step` over any normed space",
  "time as an additional unknown; f(s+hu) expanded by the Lie series of the straight flow (Integ/RungeKutta), the three nested expansions give the fourth-order Taylor polynomial of the solution; discrete Groenwall as in C105"),
"C109": ("`Integ.new`, `runN`, the recorded states and the warnings list",
  "g^ij p_i p_j is constant along solutions of Hamilton's equations and locally Lipschitz near the compact curve; C105 bounds the distance of every recorded state; C67 ties warnings to the constraint"),
"C110": ("`*FromMetric` on two metric objects related by a substitution obeying the chain rule",
  "uniqueness of the Levi-Civita connection gives the law of the connection matrices, the curvature matrices then conjugate (Curv/Covariance)"),
"C111": ("`christoffelFromMetric`, `riemannFromMetric`, `changeConfig`", "gauge covariant derivative of the curvature matrices, Jacobi identity (Curv/Geo2)"),
"C112": ("`einsteinFromMetric` etc. with two symbols", "one independent component and the adjugate formula of the inverse (Curv/Props4)"),
"C113": ("`weylFromMetric`, `changeConfig` on two metric objects u*g and g", "connection of u*g by uniqueness, curvature difference is a Kulkarni-Nomizu product, whose trace-free part is zero (Curv/Conformal)"),
"C114": ("`fVec` of the three classes", "lowered Christoffel symbols contracted twice with the velocity leave only the derivative along the cyclic coordinate (Num/Conserved)"),
"C115": ("`RK4Py` (RK4naive with a callback that may raise), `fVec`", "C108 on the smooth region, a compact tube around the geodesic keeps the four stages inside it (Integ/RKPy, Num/Geodesics)"),
"C116": ("`Geodesic.new`, `calculateTrajectory`, `orderStep`", "any move that multiplies coordinates by signs and shifts them, and transports the metric function, commutes with every sub-flow, step and run; the dual-number jacobian transforms by uniqueness of derivatives; mirror fixed points give equatorial motion (Geodesic/Symmetry)"),
"C117": ("`fVec`, `metricCovariant`, `alpha`", "derivative of the constant along a curve with the acceleration of the code; the theta-derivative of the metric compensates by an algebraic identity (Num/Carter)"),
"C118": ("`riemannFromMetric`, `ricciFromMetric`, `weylFromMetric`, `schoutenFromMetric`, `einsteinFromMetric`, `antiDeSitter`, `antiDeSitterStatic`, `deSitter`", "contraction of the constant-curvature form; contracted Bianchi identity for Schur; Riemann tensor of a diagonal metric in logarithmic derivatives (Curv/Space, Predef/ConstCurv)"),
"C119": ("`Shadow.smoothen` with the interpolation routine as a parameter", "case analysis on the node list; the equally spaced grid has distinct members and reproduces itself; the lists b2 and bfin share the critical impact parameter (Misc/Smooth)"),
"C120": ("`orderStep`, `Integ.runN`, `calculateTrajectory`", "the dual-number jacobian of a constant function is zero, mixing is the identity on equal copies, the weights sum to one; induction on the steps (Integ/Flat)"),
"C121": ("`fVec` of the three classes, `RK4Py`", "bilinearity of the acceleration; a linear conjugation of right-hand sides commutes with every stage of the solver; induction on the steps (Num/Affine)"),
"C122": ("`christoffelFromMetric` … `weylFromMetric`, `Obj.subs`, `metricTensor`", "a ring homomorphism that commutes with the coordinate derivatives maps the inverse matrix, hence every textbook formula; the constructors compute these formulas (Curv/Specialise)"),
"C123": ("`christoffelFromMetric` … `weylFromMetric`", "the derivative along s commutes with the coordinate derivatives and kills the metric, hence its inverse and every formula (Curv/Indep)"),
"C124": ("`christoffelFromMetric`, `riemannFromMetric`, `ricciFromMetric`, `scalarFromMetric`", "the inverse of a block matrix is the block matrix of the inverses; every term of the formulas has a factor between groups; sums over all indices restrict to the group (Curv/Product)"),
"C125": ("`schwarzschild`, `reissnerNordstorm`, `riemannFromMetric`, `Obj.changeConfig`, `weylFromMetric`", "for a diagonal metric the independent components are evaluated once and extended by the symmetries; Ricci, scalar, Weyl and the full contraction follow for any metric of this pair form; the static spherical case is solved from f, f', f'' (Predef/Tidal)"),
"C126": ("`alcubierreWarp`, `christoffelFromMetric`, `einsteinFromMetric`, `stressEnergyFromMetric`", "explicit inverse and Christoffel table for an arbitrary shift function, then polynomial identities in its first and second derivatives (Predef/Warp)"),
"C127": ("`Val.eqPy`, `Val.nePy`, `Val.hashable`", "case analysis (Dual/Compare)"),
"C128": ("`tensorProduct`, `Obj.changeConfig`", "one changed slot as a matrix acting on that slot; the two slot matrices are inverse to each other and symmetric (Tensor/Moves)"),
"C129": ("`Obj.lorentzTransform`, `Obj.changeConfig`", "both orders as products of slot matrices; test vectors for the converse (Tensor/Moves)"),
"C130": ("`Schwarzschild.fVec`, `Kerr.fVec`, `KerrNewman.fVec`, `RK4Py`", "metric, derivative table and Maxwell tensor under an affine substitution; the loops of `_ch_sym_bl`, the inverse and the acceleration lines are covariant; RK4 commutes with affine maps (Num/Scale, Num/ScaleTab, Num/Symmetry)"),
"C131": ("as C130", "the same substitution with lengths multiplied by l (Num/Symmetry)"),
"C132": ("as C130", "components of the geodesic acceleration at the equator from the loops; a right-hand side constant on a circle is integrated exactly, by induction on the steps (Num/Circular)"),
"C133": ("`Geodesic.new`, `Integ.step`, `fourMomentum`", "on a motion uniform in the coordinates both copies of the integrator stay together, so every flow is exact: induction over the substeps and steps; the equatorial circles solve Hamilton's equations iff Kepler's law (Geodesic/Circular)"),
"C134": ("`Geodesic.new`, `Integ.step`, `fourMomentum`", "every elementary flow commutes with (p, delta) -> (-p, -delta); combined with the symmetry t, phi -> -t, -phi of the metric functions (Geodesic/Reversal)"),
"C135": ("as C134", "every flow except the mixing commutes with (p, delta) -> (l p, delta / l); explicit counterexample with one step; C107 applied to the geodesic and its rescaling for the limit (Geodesic/Photon)"),
"C136": ("`Geodesic.new`, `Schwarzschild.fVec`, `KerrNewman.fVec`, `RK4Py.step`", "change-of-units lemma for Christoffel symbols (`lc_units`, `geodesic_units`), C107 and C115 combined (Num/Agree)"),
"C137": ("as C107 and C115", "Lipschitz tube around the geodesic, C107 and C115; Carter's constant of the exact motion by separating the Hamiltonian (Num/FirstIntegral)"),
"C138": ("as C105, C107; `precession` (examples.py)", "global solution of a cut-off Hamiltonian system (Geodesic/Trap), confined by the potentials computed from the conserved norm, energy, angular momentum and Carter constant; convergence C105 with compact margin (Geodesic/Bound)"),
"C139": ("the curvature constructors over the ring of smooth functions on an open set", "that ring with its partial derivatives is an instance of the abstract model (Curv/Functions); evaluation at a point; C107 (Num/Symbolic)"),
"C140": ("as C139 and C42, C44, C68, C85", "Christoffel symbols do not change under a constant factor c^2; pointwise agreement of the metrics C85 (Num/Symbolic)"),
"C141": ("as C139", "smooth functions on the parameter domain are pulled back along the surface, chain rule; Ricci identity for derivations along a map of rings (Curv/Deviation)"),
"C142": ("as C139", "metric compatibility of the returned symbols evaluated at the points of the curve, chain rule, mean value theorem (Curv/Transport)"),
"C143": ("as C105, C108, with an arbitrary perturbation of at most epsilon after every step", "discrete Gronwall inequality with an additional error per step (Integ/Rounding)"),
"C144": ("as C139", "Ricci identity C141, Gronwall uniqueness for the linear transport equation (Curv/FlatPaths)"),
"C145": ("as C139", "linear Frobenius theorem by transport along rays and Gronwall (Curv/Frobenius), parallel coframe with primitives, Sylvester normal form, inverse function theorem; converse by C119-type covariance (Curv/Flat)"),
"C146": ("as C139", "vanishing Cotton tensor from the second Bianchi identity (Curv/Cotton), flat tractor connection on R x covectors x R (Curv/Tractor), parallel sections by the Frobenius theorem (Curv/Parallel), null section rescales to a flat metric, then C145 (Curv/ConfFlat)"),
"C147": ("as C139", "contracted Bianchi identity, a function with vanishing derivatives on a connected open set is constant (Curv/Schur)"),
"C148": ("as C139", "C146's connection on R x covectors x R is flat exactly when Weyl and Cotton vanish; in dimension three Weyl is zero (Curv/Tractor, ConfFlat, Cotton3)"),
"C149": ("as C139", "connection on R x covectors that is flat exactly for curvature K; parallel frame orthonormal for K + g^-1; Gauss equation for the converse (Curv/Quadric, SpaceForm)"),
"C150": ("dense arrays of C11, lambdify of C12, one mutable object", "relation between the object after the history and the fresh one, kept by every call (Vars/History)"),
"C151": ("os.path.splitext on character lists, the plotter of C83", "characterisation of the last dot and slash by list decomposition (Misc/Save)"),
"C152": ("smooth functions of C139, diagonal metrics", "the Ricci tensor of diagonal metrics over a ring (Curv/DiagFn), then three first-order equations solved by the mean value theorem (Curv/Birkhoff)"),
}
