STATUS = {
"C01": ("proved", ""),
"C02": ("proved", ""),
"C03": ("proved", ""),
"C04": ("partial", "Outer product, contraction and like-index refusal proved. The last clause of the property (exactly one of i,j is an error) is FALSE of the code when the missing one is None and the given one is falsy/ignored: C04_one_index_refuted gives the counterexample, C04_one_index_raises_partial the cases in which the code does raise."),
"C05": ("proved", ""),
"C06": ("partial", "FALSE of the code unless L*L = 1: lower slots are transformed with L itself (transposed), not with the inverse. C06_contraction_invariant_iff_partial characterises exactly the matrices for which it holds; C06_boost_refuted is a genuine Lorentz boost violating it."),
"C07": ("proved", ""),
"C08": ("partial", "FALSE of the code for configurations other than 'll': C08_subs_refuted; C08_subs_ll_partial proves it for the others."),
"C09": ("proved", ""),
"C10": ("partial", "FALSE of the code for mixed metrics: C10_lower_config_refuted; C10_lower_config_partial covers ll and uu."),
"C23": ("partial", "FALSE of the code for the stress-energy tensor: C23_change_config_class_refuted; proved for the other classes."),
"C11": ("proved", ""),
"C12": ("partial", "Proved for constructed tensors, determinism and lambdify; FALSE of the code for tensor_product (C12_tensor_product_refuted: union list is not sorted / may contain coordinates) and for two different symbols with the same name (C12_same_name_order_refuted)."),
"C13": ("proved", ""),
"C14": ("proved", ""),
"C15": ("proved", ""),
"C16": ("proved", ""),
"C17": ("proved", ""),
"C18": ("proved", ""),
"C19": ("proved", ""),
"C20": ("proved", ""),
"C21": ("partial", "Symmetry and conservation proved. The documented field equation is FALSE of the code: the cosmological term has the opposite sign; C21_documented_iff shows it holds exactly when Lambda = 0, C21_documented_refuted is an instance where it fails."),
"C22": ("proved", ""),
"C24": ("proved", ""),
"C25": ("proved", ""),
"C26": ("proved", ""),
"C27": ("proved", ""),
"C28": ("proved", ""),
"C29": ("proved", ""),
"C30": ("proved", ""),
"C31": ("proved", "Stated at every state all of whose intermediate positions are smooth points of the metric; C31_symplectic_total is the unconditional form for everywhere smooth metrics."),
"C32": ("proved", ""),
"C33": ("partial", "Order 4 proved. FALSE of the code for orders 6 and 8: the inner compositions reuse the weights of the outermost order (C33_order6_8_refuted)."),
"C34": ("proved", ""),
"C35": ("partial", "FALSE of the code: direction is always 0, so the bound is never consulted (C35_refuted); C35_time_after_n_steps says what happens instead."),
"C36": ("proved", ""),
"C37": ("partial", "Proved for the three named metrics (C37_builtin, C37_object) and every metric of their shape; FALSE of the code for callables with other off-diagonal entries (C37_general_refuted)."),
"C38": ("proved", ""),
"C39": ("proved", ""),
"C40": ("proved", ""),
"C67": ("proved", ""),
"C41": ("proved", ""),
"C42": ("proved", ""),
"C43": ("partial", "All entries but one proved to be the derivative (C43_kerr_derivatives_partial); FALSE of the code for d_r g_phiphi, whose rotation term has the wrong sign (C43_refuted_error_term gives the exact error)."),
"C44": ("partial", "Symmetry, totality and the list of nonzero symbols proved; 59 of 64 symbols proved correct; FALSE of the code for the five symbols that use d_r g_phiphi (C44_refuted_iff: correct only if a=0, M=0 or r^2 = alpha^2 cos^2)."),
"C45": ("partial", "Right-hand sides proved for both classes, conservation proved for Schwarzschild; FALSE of the code for Kerr (C45_refuted_kerr_drift, C45_refuted_kerr_not_conserved)."),
"C46": ("partial", "FALSE of the code: delta is called without the charge (C46_refuted_ignores_charge, C46_refuted_iff: right exactly when Q=0); proved for Q=0."),
"C47": ("partial", "Antisymmetry proved; electric components and F_r_theta proved; FALSE of the code for the two magnetic components, whose sign is reversed (C47_refuted_iff)."),
"C48": ("partial", "Horizons, ergospheres of the line element, ordering and reality proved. For a charged KerrNewman object the ergospheres are not zeros of g_tt of the metric the object itself returns (C48_refuted_charged)."),
"C49": ("partial", "Proved for metric, inverse, Christoffel symbols, right-hand side, singularities and contravariant EM quantities; FALSE of the code for the covariant EM potential and tensor, which never look at the coordinate system (C49_refuted_em_unchecked)."),
"C50": ("proved", ""),
"C68": ("proved", ""),
"C69": ("partial", "59 of 64 symbols proved equal; FALSE of the code for the others (C69_refuted_iff)."),
"C70": ("partial", "Proved for neutral test particles; FALSE of the code for charged ones: the force contracts the wrong index of F (C70_refuted_work, C70_refuted_not_conserved)."),
"C71": ("proved", ""),
"C72": ("partial", "Dimension checks proved, and correctness for SI units; FALSE of the code for other units: .value is read without conversion (C72_refuted_iff)."),
"C73": ("proved", ""),
"C51": ("proved", "Also at the origin and on the axis for positions; velocities off the axis, where the code divides by zero (C51_axis_velocity)."),
"C52": ("partial", "Positions: proved for every spin and every point of nonzero radius. Velocities: proved for x != 0; FALSE of the code at x = 0 (C52_refuted_velocity)."),
"C53": ("partial", "Three of the four conversions proved without exception; Cartesian to Boyer-Lindquist proved for x != 0 and FALSE of the code at x = 0 (C53_refuted_bl)."),
"C54": ("proved", ""),
"C74": ("proved", ""),
"C75": ("partial", "Proved for objects as constructed; FALSE of the code after an attribute assignment: only position() notices (C75_refuted)."),
"C76": ("proved", ""),
"C55": ("proved", ""),
"C56": ("partial", "radial_coord and the domain of definition proved. FALSE of the code for gradient: its square has an extra factor radial_coord(r) (C56_gradient_partial gives the exact identity that does hold, C56_isometric_iff characterises when it is isometric, C56_refuted)."),
"C57": ("proved", ""),
"C77": ("proved", ""),
"C78": ("partial", "Everything but the shape of Z proved; FALSE of the code for the shape of Z, which stays flat (C78_refuted)."),
"C79": ("proved", ""),
"C80": ("partial", "Proved for masses that are whole numbers; FALSE of the code for all others, the mass being truncated (C80_refuted)."),
"C81": ("proved", ""),
"C58": ("proved", ""),
"C59": ("partial", "Horizon proved. FALSE of the code for the ergosphere: a instead of a^2 (2D: right exactly for a=0, a=1 or on the equator, C59_ergosphere_2D_partial), azimuth and polar angle confused in 3D (C59_ergosphere_3D_partial, C59_refuted_3D), and the section through the axis is drawn in the equatorial plane (C59_refuted_equatorial)."),
"C82": ("proved", ""),
"C83": ("partial", "All but atomicity of plot2D proved; FALSE of the code for plot2D with a refused coordinate number (C83_refuted)."),
"C84": ("proved", ""),
"C60": ("partial", "FALSE of the code: inv() is the elementwise reciprocal (C60_refuted); right only for 1x1 matrices (C60_one_by_one_partial). Caching proved (C60_repeat)."),
"C61": ("proved", ""),
"C65": ("partial", "FALSE of the code: gamma=1 gives minus the Schwarzschild metric for c=1 (C65_opposite_partial) and has no c^2 in the angular part (C65_refuted_units)."),
"C66": ("proved", ""),
"C85": ("partial", "Proved for Schwarzschild, Kerr and uncharged KerrNewman; FALSE of the code for a charge (C85_refuted): the numerical class forgets it in Delta."),
"C86": ("proved", ""),
"C87": ("partial", "FALSE of the code: y+z instead of y^2+z^2 (C87_refuted); right on the axis y=z=0 (C87_axis_partial)."),
"C88": ("proved", ""),
"C62": ("proved", ""),
"C63": ("proved", ""),
"C64": ("partial", "Proved for AntiDeSitter() and AntiDeSitterStatic() (Ricci = -3 g). FALSE of DeSitter(): its time variable is bound to the second coordinate x, so Ricci = diag(0,0,-1/alpha^2,-1/alpha^2), which is no multiple of the metric (C64_refuted); C64_deSitter_intended_partial proves it for the metric with t in the exponent."),
"C89": ("proved", ""),
"C90": ("proved", ""),
"C91": ("proved", ""),
"C92": ("proved", ""),
"C93": ("proved", ""),
"C94": ("proved", ""),
"C95": ("proved", ""),
"C96": ("proved", ""),
"C97": ("partial", "All but the last frame proved; FALSE of the code for the last point of the trajectory, which no frame ever shows (C97_refuted)."),
"C98": ("partial", "Proved for return_cartesian=True (C98_cartesian_partial); FALSE of the code for return_cartesian=False, where r, theta, phi are drawn as x, y, z (C98_refuted)."),
"C99": ("partial", "Proved over any base class that keeps scipy's documented contract (structure Lawful, with an inhabitant); FALSE of the code for a RuntimeError of the user's right-hand side, which is turned into a warning (C99_refuted)."),
"C100": ("partial", "Proved for freshly made bodies; FALSE of the code after coords is reassigned: pos_vec stays (C100_refuted)."),
"C101": ("proved", ""),
"C102": ("partial", "FALSE of the code: the arguments of besselj are swapped, so U = 0, the metric is static and not a vacuum solution (C102_refuted); C102_intended_partial proves the claim for the Bessel functions in the intended order."),
"C103": ("partial", "The whole Ricci tensor is computed (C103_ricci_partial); FALSE of the code for c^2 != 1, where angular components 1-c^2 remain because the angular part of the metric is not divided by c^2 (C103_refuted)."),
"C104": ("partial", "Proved for orders 2 and 4 (C104_second_order, C104_fourth_order); orders 6 and 8 are only second-order accurate: FALSE of the code, with an explicit metric and solution (C104_order6_8_refuted)."),
"C105": ("proved", ""),
"C106": ("proved", ""),
"C107": ("proved", ""),
"C108": ("proved", ""),
"C109": ("proved", ""),
"C110": ("proved", ""),
"C111": ("proved", ""),
"C112": ("proved", ""),
"C113": ("proved", ""),
"C114": ("partial", "Proved for Schwarzschild, neutral Kerr-Newman and the energy in Kerr; FALSE of the code for the angular momentum in Kerr (C114_refuted_kerr_drift, C114_refuted_kerr_not_conserved): the wrong sign in d_r g_phiphi."),
"C115": ("proved", ""),
"C116": ("proved", "Symmetries of the exact (real-number) computation; rounding is not modelled."),
"C117": ("partial", "Proved for Schwarzschild and neutral Kerr-Newman; FALSE of the code for Kerr (C117_refuted_kerr_drift, C117_refuted_kerr_not_conserved): the wrong sign in d_r g_phiphi."),
"C118": ("partial", "Proved for all metrics, dimensions and for both anti-de Sitter metrics; FALSE of DeSitter(), whose exponent contains x instead of t (C118_refuted_deSitter, C64_refuted)."),
"C119": ("partial", "Outcome, samples and idempotence proved for all shadows; FALSE of the code that every shadow with four samples can be smoothed: whenever the critical ray is kept its impact parameter occurs twice and smoothen raises ValueError (C119_refuted)."),
"C120": ("proved", ""),
"C121": ("proved", ""),
"C122": ("proved", ""),
"C123": ("proved", ""),
"C124": ("proved", ""),
"C125": ("proved", ""),
"C126": ("proved", "Sign of the energy: the identity shows minus a sum of squares; no order on the coefficient field is assumed."),
"C127": ("proved", ""),
"C128": ("proved", ""),
"C129": ("partial", "FALSE of the code for boosts (C129_boost_refuted): lower indices are transformed with the transpose of L instead of the inverse transpose. C129_commute_iff_partial and C129_isometry_partial characterise exactly the matrices for which it holds (g L = L^T g; among the matrices preserving the metric those with L^2 = 1)."),
"C130": ("proved", ""),
"C131": ("proved", ""),
"C132": ("partial", "Proved for Schwarzschild and for neutral particles in KerrNewman; FALSE of Kerr (C132_kerr_refuted): because of the wrong sign in its derivative table, every revolving circular orbit of a spinning hole gets a nonzero acceleration. C132_kerr_partial gives the exact condition that Kerr uses instead."),
"C133": ("proved", ""),
"C134": ("proved", ""),
"C135": ("partial", "FALSE of the code for omega != 0 (C135_refuted): _flow_mixed mixes positions with momenta by an angle proportional to delta, so the computed radius of a radial photon depends on its energy. Proved: the stored 4-momentum always scales (C135_momentum), with omega = 0 the whole property holds exactly, for every metric argument and including errors (C135_uncoupled), and for every omega the two runs along a null geodesic of a named space-time agree up to K*delta^2, K*delta^4 for order 4 (C135_limit_partial)."),
"C136": ("proved", "The comparison is with Schwarzschild and KerrNewman: the f_vec of Kerr does not solve the geodesic equation (see C45), so the rotating case is stated for KerrNewman with a neutral particle, whose f_vec uses the Christoffel symbols of the uncharged hole for every Q."),
"C137": ("proved", ""),
"C138": ("proved", ""),
"C139": ("proved", ""),
"C140": ("partial", "Proved for Schwarzschild, uncharged KerrNewman and 59 of the 64 symbols of Kerr; FALSE of the code for the other five: C140_kerr_refuted_iff says all 64 agree exactly if the hole does not spin, has no mass or r^2 = alpha^2 cos^2 theta (the wrong sign in d_r g_phiphi, C43)."),
"C141": ("proved", ""),
"C142": ("proved", ""),
"C143": ("proved", ""),
"C144": ("proved", ""),
"C145": ("proved", ""),
"C146": ("proved", ""),
"C147": ("proved", ""),
"C148": ("proved", ""),
"C149": ("proved", ""),
"C150": ("proved", "sympy.simplify is any function that keeps the value of an expression and adds no symbols. C150_variables_go_stale: the variables list is not recomputed by simplify()."),
"C151": ("proved", "plotly.offline.plot is modelled by its documented treatment of the image arguments; os.path.splitext is modelled in full (POSIX)."),
"C152": ("proved", "The components are smooth functions on an open set and sympy.diff is the partial derivative, as in C139."),
}
