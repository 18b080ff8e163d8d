{
 "claims": [
  {
   "property": "C01",
   "status": "proved",
   "theorems": [
    "Einpy.C01_change_config_components"
   ],
   "note": ""
  },
  {
   "property": "C02",
   "status": "proved",
   "theorems": [
    "Einpy.C02_change_config_compose",
    "Einpy.C02_change_config_round_trip"
   ],
   "note": ""
  },
  {
   "property": "C03",
   "status": "proved",
   "theorems": [
    "Einpy.C03_change_config_labels",
    "Einpy.C03_no_metric_raises",
    "Einpy.C03_bad_config_raises",
    "Einpy.C03_singular_metric_raises"
   ],
   "note": ""
  },
  {
   "property": "C04",
   "status": "partial",
   "theorems": [
    "Einpy.C04_outer_product",
    "Einpy.C04_contraction",
    "Einpy.C04_like_indices_raise",
    "Einpy.C04_one_index_raises_partial",
    "Einpy.C04_out_of_range",
    "Einpy.C04_one_index_refuted"
   ],
   "note": "Outer product, contraction and like-index refusal proved. The last clause of the property (exactly one of i,j is an error) is FALSE of the code when the missing one is None and the given one is falsy/ignored: C04_one_index_refuted gives the counterexample, C04_one_index_raises_partial the cases in which the code does raise."
  },
  {
   "property": "C05",
   "status": "proved",
   "theorems": [
    "Einpy.C05_lorentz_components",
    "Einpy.C05_lorentz_identity",
    "Einpy.C05_lorentz_composition"
   ],
   "note": ""
  },
  {
   "property": "C06",
   "status": "partial",
   "theorems": [
    "Einpy.C06_contraction_invariant_iff_partial",
    "Einpy.C06_boost_refuted"
   ],
   "note": "FALSE of the code unless L*L = 1: lower slots are transformed with L itself (transposed), not with the inverse. C06_contraction_invariant_iff_partial characterises exactly the matrices for which it holds; C06_boost_refuted is a genuine Lorentz boost violating it."
  },
  {
   "property": "C07",
   "status": "proved",
   "theorems": [
    "Einpy.C07_constructor_iff",
    "Einpy.C07_ricci_scalar_iff",
    "Einpy.C07_constructor_errors",
    "Einpy.C07_wrong_types_raise",
    "Einpy.C07_error_kind"
   ],
   "note": ""
  },
  {
   "property": "C08",
   "status": "partial",
   "theorems": [
    "Einpy.C08_subs_ll_partial",
    "Einpy.C08_subs_refuted"
   ],
   "note": "FALSE of the code for configurations other than 'll': C08_subs_refuted; C08_subs_ll_partial proves it for the others."
  },
  {
   "property": "C09",
   "status": "proved",
   "theorems": [
    "Einpy.C09_cache_invisible",
    "Einpy.C09_values_immutable",
    "Einpy.C09_change_config_self",
    "Einpy.C09_inv_inv_is_self",
    "Einpy.C09_change_config_copy_not_cached"
   ],
   "note": ""
  },
  {
   "property": "C10",
   "status": "partial",
   "theorems": [
    "Einpy.C10_lower_config_partial",
    "Einpy.C10_lower_config_refuted"
   ],
   "note": "FALSE of the code for mixed metrics: C10_lower_config_refuted; C10_lower_config_partial covers ll and uu."
  },
  {
   "property": "C11",
   "status": "proved",
   "theorems": [
    "Einpy.C11_tolist_components",
    "Einpy.C11_simplify_componentwise",
    "Einpy.C11_simplify_expr"
   ],
   "note": ""
  },
  {
   "property": "C12",
   "status": "partial",
   "theorems": [
    "Einpy.C12_constructed_variables",
    "Einpy.C12_deterministic",
    "Einpy.C12_lambdify",
    "Einpy.C12_tensor_product_partial",
    "Einpy.C12_tensor_product_refuted",
    "Einpy.C12_same_name_order_refuted"
   ],
   "note": "Proved for constructed tensors, determinism and lambdify; FALSE of the code for tensor_product (C12_tensor_product_refuted: union list is not sorted / may contain coordinates) and for two different symbols with the same name (C12_same_name_order_refuted)."
  },
  {
   "property": "C13",
   "status": "proved",
   "theorems": [
    "Einpy.C13_christoffel_formula",
    "Einpy.C13_christoffel_singular"
   ],
   "note": ""
  },
  {
   "property": "C14",
   "status": "proved",
   "theorems": [
    "Einpy.C14_metric_compatible"
   ],
   "note": ""
  },
  {
   "property": "C15",
   "status": "proved",
   "theorems": [
    "Einpy.C15_riemann_formula"
   ],
   "note": ""
  },
  {
   "property": "C16",
   "status": "proved",
   "theorems": [
    "Einpy.C16_lowered_riemann_symmetries"
   ],
   "note": ""
  },
  {
   "property": "C17",
   "status": "proved",
   "theorems": [
    "Einpy.C17_ricci_paths",
    "Einpy.C17_scalar_paths"
   ],
   "note": ""
  },
  {
   "property": "C18",
   "status": "proved",
   "theorems": [
    "Einpy.C18_einstein"
   ],
   "note": ""
  },
  {
   "property": "C19",
   "status": "proved",
   "theorems": [
    "Einpy.C19_weyl",
    "Einpy.C19_weyl_three",
    "Einpy.C19_weyl_low_dimension"
   ],
   "note": ""
  },
  {
   "property": "C20",
   "status": "proved",
   "theorems": [
    "Einpy.C20_schouten",
    "Einpy.C20_schouten_low_dimension"
   ],
   "note": ""
  },
  {
   "property": "C21",
   "status": "partial",
   "theorems": [
    "Einpy.C21_stress_energy_partial",
    "Einpy.C21_documented_iff",
    "Einpy.C21_documented_refuted"
   ],
   "note": "Symmetry and conservation proved. The documented field equation is FALSE of the code: the cosmological term has the opposite sign; C21_documented_iff shows it holds exactly when Lambda = 0, C21_documented_refuted is an instance where it fails."
  },
  {
   "property": "C22",
   "status": "proved",
   "theorems": [
    "Einpy.C22_metric_supply",
    "Einpy.C22_inverse_same_space"
   ],
   "note": ""
  },
  {
   "property": "C23",
   "status": "partial",
   "theorems": [
    "Einpy.C23_change_config_class_partial",
    "Einpy.C23_change_config_class_refuted"
   ],
   "note": "FALSE of the code for the stress-energy tensor: C23_change_config_class_refuted; proved for the other classes."
  },
  {
   "property": "C24",
   "status": "proved",
   "theorems": [
    "Einpy.C24_digits_exact",
    "Einpy.C24_loop3_bijective",
    "Einpy.C24_loop4_bijective",
    "Einpy.C24_no_collision"
   ],
   "note": ""
  },
  {
   "property": "C25",
   "status": "proved",
   "theorems": [
    "Einpy.C25_ring_laws",
    "Einpy.C25_epsilon_squared",
    "Einpy.C25_mixed",
    "Einpy.C25_division"
   ],
   "note": ""
  },
  {
   "property": "C26",
   "status": "proved",
   "theorems": [
    "Einpy.C26_automatic_differentiation",
    "Einpy.C26_directional"
   ],
   "note": ""
  },
  {
   "property": "C27",
   "status": "proved",
   "theorems": [
    "Einpy.C27_lhopital",
    "Einpy.C27_zero_denominator",
    "Einpy.C27_reverse",
    "Einpy.C27_removable_derivative_lost",
    "Einpy.C27_number_denominator",
    "Einpy.C27_domain_edges"
   ],
   "note": ""
  },
  {
   "property": "C28",
   "status": "proved",
   "theorems": [
    "Einpy.C28_jacobian",
    "Einpy.C28_bad_wrt",
    "Einpy.C28_bad_index"
   ],
   "note": ""
  },
  {
   "property": "C29",
   "status": "proved",
   "theorems": [
    "Einpy.C29_mixed_flow",
    "Einpy.C29_mixed_fixed"
   ],
   "note": ""
  },
  {
   "property": "C30",
   "status": "proved",
   "theorems": [
    "Einpy.C30_time_reversible"
   ],
   "note": ""
  },
  {
   "property": "C31",
   "status": "proved",
   "theorems": [
    "Einpy.C31_symplectic",
    "Einpy.C31_symplectic_total"
   ],
   "note": "Stated at every state all of whose intermediate positions are smooth points of the metric; C31_symplectic_total is the unconditional form for everywhere smooth metrics."
  },
  {
   "property": "C32",
   "status": "proved",
   "theorems": [
    "Einpy.C32_cyclic_momentum"
   ],
   "note": ""
  },
  {
   "property": "C33",
   "status": "partial",
   "theorems": [
    "Einpy.C33_order4",
    "Einpy.C33_weights_sum_to_one",
    "Einpy.C33_outermost",
    "Einpy.C33_order6_8_refuted"
   ],
   "note": "Order 4 proved. FALSE of the code for orders 6 and 8: the inner compositions reuse the weights of the outermost order (C33_order6_8_refuted)."
  },
  {
   "property": "C34",
   "status": "proved",
   "theorems": [
    "Einpy.C34_total",
    "Einpy.C34_rows",
    "Einpy.C34_unsupported_order",
    "Einpy.C34_trajectory",
    "Einpy.C34_no_steps"
   ],
   "note": ""
  },
  {
   "property": "C35",
   "status": "partial",
   "theorems": [
    "Einpy.C35_time_after_n_steps",
    "Einpy.C35_refuted"
   ],
   "note": "FALSE of the code: direction is always 0, so the bound is never consulted (C35_refuted); C35_time_after_n_steps says what happens instead."
  },
  {
   "property": "C36",
   "status": "proved",
   "theorems": [
    "Einpy.C36_cubic_exact",
    "Einpy.C36_linear"
   ],
   "note": ""
  },
  {
   "property": "C37",
   "status": "partial",
   "theorems": [
    "Einpy.C37_normalised",
    "Einpy.C37_domain",
    "Einpy.C37_builtin",
    "Einpy.C37_general_refuted",
    "Einpy.C37_object"
   ],
   "note": "Proved for the three named metrics (C37_builtin, C37_object) and every metric of their shape; FALSE of the code for callables with other off-diagonal entries (C37_general_refuted)."
  },
  {
   "property": "C38",
   "status": "proved",
   "theorems": [
    "Einpy.C38_kerrNewman",
    "Einpy.C38_kerr",
    "Einpy.C38_schwarzschild",
    "Einpy.C38_reductions"
   ],
   "note": ""
  },
  {
   "property": "C39",
   "status": "proved",
   "theorems": [
    "Einpy.C39_unknown_metric",
    "Einpy.C39_schwarzschild_params",
    "Einpy.C39_missing_params",
    "Einpy.C39_params_not_iterable",
    "Einpy.C39_kind"
   ],
   "note": ""
  },
  {
   "property": "C40",
   "status": "proved",
   "theorems": [
    "Einpy.C40_cartesian_rows",
    "Einpy.C40_radius"
   ],
   "note": ""
  },
  {
   "property": "C41",
   "status": "proved",
   "theorems": [
    "Einpy.Num.C41_alpha_ok",
    "Einpy.Num.C41_alpha_error"
   ],
   "note": ""
  },
  {
   "property": "C42",
   "status": "proved",
   "theorems": [
    "Einpy.Num.C42_schwarzschild_levi_civita",
    "Einpy.Num.C42_schwarzschild_total"
   ],
   "note": ""
  },
  {
   "property": "C43",
   "status": "partial",
   "theorems": [
    "Einpy.Num.C43_kerr_derivatives_partial",
    "Einpy.Num.C43_refuted_error_term"
   ],
   "note": "All entries but one proved to be the derivative (C43_kerr_derivatives_partial); FALSE of the code for d_r g_phiphi, whose rotation term has the wrong sign (C43_refuted_error_term gives the exact error)."
  },
  {
   "property": "C44",
   "status": "partial",
   "theorems": [
    "Einpy.Num.C44_kerr_symmetric",
    "Einpy.Num.C44_kerr_nonzero_listed",
    "Einpy.Num.C44_nonzero_christoffels_perm",
    "Einpy.Num.C44_kerr_levi_civita_partial",
    "Einpy.Num.C44_kerr_total",
    "Einpy.Num.C44_refuted_iff"
   ],
   "note": "Symmetry, totality and the list of nonzero symbols proved; 59 of 64 symbols proved correct; FALSE of the code for the five symbols that use d_r g_phiphi (C44_refuted_iff: correct only if a=0, M=0 or r^2 = alpha^2 cos^2)."
  },
  {
   "property": "C45",
   "status": "partial",
   "theorems": [
    "Einpy.Num.C45_kerr_rhs",
    "Einpy.Num.C45_kerr_rhs_error",
    "Einpy.Num.C45_schwarzschild_rhs",
    "Einpy.Num.C45_schwarzschild_rhs_error",
    "Einpy.Num.C45_schwarzschild_norm_conserved",
    "Einpy.Num.C45_refuted_kerr_drift",
    "Einpy.Num.C45_refuted_kerr_not_conserved"
   ],
   "note": "Right-hand sides proved for both classes, conservation proved for Schwarzschild; FALSE of the code for Kerr (C45_refuted_kerr_drift, C45_refuted_kerr_not_conserved)."
  },
  {
   "property": "C46",
   "status": "partial",
   "theorems": [
    "Einpy.Num.C46_refuted_ignores_charge",
    "Einpy.Num.C46_uncharged_partial",
    "Einpy.Num.C46_refuted_iff"
   ],
   "note": "FALSE of the code: delta is called without the charge (C46_refuted_ignores_charge, C46_refuted_iff: right exactly when Q=0); proved for Q=0."
  },
  {
   "property": "C47",
   "status": "partial",
   "theorems": [
    "Einpy.Num.C47_antisymmetric",
    "Einpy.Num.C47_contravariant_antisymmetric",
    "Einpy.Num.C47_curl_partial",
    "Einpy.Num.C47_refuted_iff"
   ],
   "note": "Antisymmetry proved; electric components and F_r_theta proved; FALSE of the code for the two magnetic components, whose sign is reversed (C47_refuted_iff)."
  },
  {
   "property": "C48",
   "status": "partial",
   "theorems": [
    "Einpy.Num.C48_horizons",
    "Einpy.Num.C48_ergospheres",
    "Einpy.Num.C48_ergospheres_own_metric",
    "Einpy.Num.C48_refuted_charged",
    "Einpy.Num.C48_order",
    "Einpy.Num.C48_real_iff",
    "Einpy.Num.C48_neutral_real",
    "Einpy.Num.C48_schwarzschild"
   ],
   "note": "Horizons, ergospheres of the line element, ordering and reality proved. For a charged KerrNewman object the ergospheres are not zeros of g_tt of the metric the object itself returns (C48_refuted_charged)."
  },
  {
   "property": "C49",
   "status": "partial",
   "theorems": [
    "Einpy.Num.C49_schwarzschild",
    "Einpy.Num.C49_kerr",
    "Einpy.Num.C49_kerr_newman",
    "Einpy.Num.C49_refuted_em_unchecked",
    "Einpy.Num.C49_own_system"
   ],
   "note": "Proved for metric, inverse, Christoffel symbols, right-hand side, singularities and contravariant EM quantities; FALSE of the code for the covariant EM potential and tensor, which never look at the coordinate system (C49_refuted_em_unchecked)."
  },
  {
   "property": "C50",
   "status": "proved",
   "theorems": [
    "Einpy.Num.C50_v0_future",
    "Einpy.Num.C50_v0_normalises",
    "Einpy.Num.C50_v0_domain",
    "Einpy.Num.C50_v0_static_future"
   ],
   "note": ""
  },
  {
   "property": "C51",
   "status": "proved",
   "theorems": [
    "Einpy.Coord.C51_cartesian_round_trip",
    "Einpy.Coord.C51_cartesian_round_trip_velocity",
    "Einpy.Coord.C51_spherical_round_trip",
    "Einpy.Coord.C51_spherical_round_trip_velocity",
    "Einpy.Coord.C51_range",
    "Einpy.Coord.C51_axis_velocity"
   ],
   "note": "Also at the origin and on the axis for positions; velocities off the axis, where the code divides by zero (C51_axis_velocity)."
  },
  {
   "property": "C52",
   "status": "partial",
   "theorems": [
    "Einpy.Coord.C52_cartesian_round_trip",
    "Einpy.Coord.C52_disk",
    "Einpy.Coord.C52_cartesian_round_trip_velocity_partial",
    "Einpy.Coord.C52_bl_round_trip",
    "Einpy.Coord.C52_bl_round_trip_velocity_partial",
    "Einpy.Coord.C52_refuted_velocity"
   ],
   "note": "Positions: proved for every spin and every point of nonzero radius. Velocities: proved for x != 0; FALSE of the code at x = 0 (C52_refuted_velocity)."
  },
  {
   "property": "C53",
   "status": "partial",
   "theorems": [
    "Einpy.Coord.C53_cartesian_to_spherical",
    "Einpy.Coord.C53_spherical_to_cartesian",
    "Einpy.Coord.C53_bl_to_cartesian",
    "Einpy.Coord.C53_cartesian_to_bl_partial",
    "Einpy.Coord.C53_refuted_bl"
   ],
   "note": "Three of the four conversions proved without exception; Cartesian to Boyer-Lindquist proved for x != 0 and FALSE of the code at x = 0 (C53_refuted_bl)."
  },
  {
   "property": "C54",
   "status": "proved",
   "theorems": [
    "Einpy.Coord.C54_spherical_speed",
    "Einpy.Coord.C54_cartesian_speed",
    "Einpy.Coord.C54_bl_speed",
    "Einpy.Coord.C54_lorentz_domain",
    "Einpy.Coord.C54_lorentz_value",
    "Einpy.Coord.C54_lorentz_monotone"
   ],
   "note": ""
  },
  {
   "property": "C55",
   "status": "proved",
   "theorems": [
    "Einpy.Misc.C55_derivative",
    "Einpy.Misc.C55_hubble_law",
    "Einpy.Misc.C55_unknown_era",
    "Einpy.Misc.C55_wrong_unit",
    "Einpy.Misc.C55_unit_independent",
    "Einpy.Misc.C55_before_bang"
   ],
   "note": ""
  },
  {
   "property": "C56",
   "status": "partial",
   "theorems": [
    "Einpy.Misc.C56_radial",
    "Einpy.Misc.C56_radial_none",
    "Einpy.Misc.C56_defined",
    "Einpy.Misc.C56_gradient_partial",
    "Einpy.Misc.C56_isometric_iff",
    "Einpy.Misc.C56_refuted"
   ],
   "note": "radial_coord and the domain of definition proved. FALSE of the code for gradient: its square has an extra factor radial_coord(r) (C56_gradient_partial gives the exact identity that does hold, C56_isometric_iff characterises when it is isometric, C56_refuted)."
  },
  {
   "property": "C57",
   "status": "proved",
   "theorems": [
    "Einpy.Misc.C57_critical",
    "Einpy.Misc.C57_turning_points"
   ],
   "note": ""
  },
  {
   "property": "C58",
   "status": "proved",
   "theorems": [
    "Einpy.Misc.C58_terminates",
    "Einpy.Misc.C58_pixel",
    "Einpy.Misc.C58_zero_limit",
    "Einpy.Misc.C58_sound"
   ],
   "note": ""
  },
  {
   "property": "C59",
   "status": "partial",
   "theorems": [
    "Einpy.Misc.C59_horizon",
    "Einpy.Misc.C59_ergosphere_2D_partial",
    "Einpy.Misc.C59_refuted_2D",
    "Einpy.Misc.C59_ergosphere_3D_partial",
    "Einpy.Misc.C59_refuted_3D",
    "Einpy.Misc.C59_refuted_equatorial",
    "Einpy.Misc.C59_horizon_covered"
   ],
   "note": "Horizon proved. FALSE of the code for the ergosphere: a instead of a^2 (2D: right exactly for a=0, a=1 or on the equator, C59_ergosphere_2D_partial), azimuth and polar angle confused in 3D (C59_ergosphere_3D_partial, C59_refuted_3D), and the section through the axis is drawn in the equatorial plane (C59_refuted_equatorial)."
  },
  {
   "property": "C60",
   "status": "partial",
   "theorems": [
    "Einpy.Misc.C60_rank",
    "Einpy.Misc.C60_repeat",
    "Einpy.Misc.C60_reciprocal",
    "Einpy.Misc.C60_one_by_one_partial",
    "Einpy.Misc.C60_refuted",
    "Einpy.Misc.C60_refuted_zero",
    "Einpy.Misc.C60_new2old",
    "Einpy.Misc.C60_refuted_new2old",
    "Einpy.Misc.C60_new2old_one_partial",
    "Einpy.Misc.C60_old2new"
   ],
   "note": "FALSE of the code: inv() is the elementwise reciprocal (C60_refuted); right only for 1x1 matrices (C60_one_by_one_partial). Caching proved (C60_repeat)."
  },
  {
   "property": "C61",
   "status": "proved",
   "theorems": [
    "Einpy.Predef.C61_kerr_schwarzschild",
    "Einpy.Predef.C61_rn_schwarzschild",
    "Einpy.Predef.C61_kerrNewman_kerr",
    "Einpy.Predef.C61_kerrNewman_rn"
   ],
   "note": ""
  },
  {
   "property": "C62",
   "status": "proved",
   "theorems": [
    "Einpy.Predef.C62_schwarzschild_vacuum"
   ],
   "note": ""
  },
  {
   "property": "C63",
   "status": "proved",
   "theorems": [
    "Einpy.Predef.C63_cartesian_flat",
    "Einpy.Predef.C63_polar_flat"
   ],
   "note": ""
  },
  {
   "property": "C64",
   "status": "partial",
   "theorems": [
    "Einpy.Predef.C64_antiDeSitterStatic",
    "Einpy.Predef.C64_antiDeSitter",
    "Einpy.Predef.C64_deSitter_ricci",
    "Einpy.Predef.C64_refuted",
    "Einpy.Predef.C64_deSitter_intended_partial"
   ],
   "note": "Proved for AntiDeSitter() and AntiDeSitterStatic() (Ricci = -3 g). FALSE of DeSitter(): its time variable is bound to the second coordinate x, so Ricci = diag(0,0,-1/alpha^2,-1/alpha^2), which is no multiple of the metric (C64_refuted); C64_deSitter_intended_partial proves it for the metric with t in the exponent."
  },
  {
   "property": "C65",
   "status": "partial",
   "theorems": [
    "Einpy.Predef.C65_opposite_partial",
    "Einpy.Predef.C65_refuted",
    "Einpy.Predef.C65_refuted_units"
   ],
   "note": "FALSE of the code: gamma=1 gives minus the Schwarzschild metric for c=1 (C65_opposite_partial) and has no c^2 in the angular part (C65_refuted_units)."
  },
  {
   "property": "C66",
   "status": "proved",
   "theorems": [
    "Einpy.Predef.C66_exact",
    "Einpy.Predef.C66_order",
    "Einpy.Predef.C66_constructors",
    "Einpy.Predef.C66_case",
    "Einpy.Predef.C66_case_ascii",
    "Einpy.Predef.C66_monotone"
   ],
   "note": ""
  },
  {
   "property": "C67",
   "status": "proved",
   "theorems": [
    "Einpy.C67_warnings"
   ],
   "note": ""
  },
  {
   "property": "C68",
   "status": "proved",
   "theorems": [
    "Einpy.Num.C68_kn_derivatives",
    "Einpy.Num.C68_kn_levi_civita",
    "Einpy.Num.C68_kn_total"
   ],
   "note": ""
  },
  {
   "property": "C69",
   "status": "partial",
   "theorems": [
    "Einpy.Num.C69_refuted_iff",
    "Einpy.Num.C69_kerr_kn_agree_partial"
   ],
   "note": "59 of 64 symbols proved equal; FALSE of the code for the others (C69_refuted_iff)."
  },
  {
   "property": "C70",
   "status": "partial",
   "theorems": [
    "Einpy.Num.C70_kn_rhs",
    "Einpy.Num.C70_kn_rhs_neutral",
    "Einpy.Num.C70_kn_norm_conserved_partial",
    "Einpy.Num.C70_refuted_work",
    "Einpy.Num.C70_refuted_not_conserved"
   ],
   "note": "Proved for neutral test particles; FALSE of the code for charged ones: the force contracts the wrong index of F (C70_refuted_work, C70_refuted_not_conserved)."
  },
  {
   "property": "C71",
   "status": "proved",
   "theorems": [
    "Einpy.Num.C71_perturbation_additive",
    "Einpy.Num.C71_no_perturbation",
    "Einpy.Num.C71_contravariant_inverse",
    "Einpy.Num.C71_contravariant_singular"
   ],
   "note": ""
  },
  {
   "property": "C72",
   "status": "partial",
   "theorems": [
    "Einpy.Num.C72_dimension_checked",
    "Einpy.Num.C72_si_partial",
    "Einpy.Num.C72_si_kerr_partial",
    "Einpy.Num.C72_refuted_iff"
   ],
   "note": "Dimension checks proved, and correctness for SI units; FALSE of the code for other units: .value is read without conversion (C72_refuted_iff)."
  },
  {
   "property": "C73",
   "status": "proved",
   "theorems": [
    "Einpy.Num.C73_schwarzschild_line_element",
    "Einpy.Num.C73_kerr_line_element",
    "Einpy.Num.C73_kerr_no_spin",
    "Einpy.Num.C73_kerr_determinant",
    "Einpy.Num.C73_own_system"
   ],
   "note": ""
  },
  {
   "property": "C74",
   "status": "proved",
   "theorems": [
    "Einpy.Coord.C74_values",
    "Einpy.Coord.C74_dispatch",
    "Einpy.Coord.C74_key_error",
    "Einpy.Coord.C74_value_error",
    "Einpy.Coord.C74_spherical_bl_round_trip",
    "Einpy.Coord.C74_zero_spin"
   ],
   "note": ""
  },
  {
   "property": "C75",
   "status": "partial",
   "theorems": [
    "Einpy.Coord.C75_constructor",
    "Einpy.Coord.C75_fresh_views",
    "Einpy.Coord.C75_bad_index",
    "Einpy.Coord.C75_units",
    "Einpy.Coord.C75_object_round_trip",
    "Einpy.Coord.C75_object_round_trip_bl",
    "Einpy.Coord.C75_after_assignments_partial",
    "Einpy.Coord.C75_refuted"
   ],
   "note": "Proved for objects as constructed; FALSE of the code after an attribute assignment: only position() notices (C75_refuted)."
  },
  {
   "property": "C76",
   "status": "proved",
   "theorems": [
    "Einpy.Coord.C76_coordinate_error",
    "Einpy.Coord.C76_normalised",
    "Einpy.Coord.C76_history_independent",
    "Einpy.Coord.C76_v_t_survives_refusal",
    "Einpy.Coord.C76_schwarzschild"
   ],
   "note": ""
  },
  {
   "property": "C77",
   "status": "proved",
   "theorems": [
    "Einpy.Misc.C77_new",
    "Einpy.Misc.C77_get_values",
    "Einpy.Misc.C77_samples",
    "Einpy.Misc.C77_negative_alpha",
    "Einpy.Misc.C77_inner_slope"
   ],
   "note": ""
  },
  {
   "property": "C78",
   "status": "partial",
   "theorems": [
    "Einpy.Misc.C78_surface_partial",
    "Einpy.Misc.C78_refuted",
    "Einpy.Misc.C78_plotter"
   ],
   "note": "Everything but the shape of Z proved; FALSE of the code for the shape of Z, which stays flat (C78_refuted)."
  },
  {
   "property": "C79",
   "status": "proved",
   "theorems": [
    "Einpy.Coord.C79_positions",
    "Einpy.Coord.C79_velocities",
    "Einpy.Coord.C79_differential_round_trip",
    "Einpy.Coord.C79_differential_position",
    "Einpy.Coord.C79_differential_constructor"
   ],
   "note": ""
  },
  {
   "property": "C80",
   "status": "partial",
   "theorems": [
    "Einpy.Misc.C80_turning_point_partial",
    "Einpy.Misc.C80_refuted"
   ],
   "note": "Proved for masses that are whole numbers; FALSE of the code for all others, the mass being truncated (C80_refuted)."
  },
  {
   "property": "C81",
   "status": "proved",
   "theorems": [
    "Einpy.Misc.C81_arrays",
    "Einpy.Misc.C81_integrands",
    "Einpy.Misc.C81_positive"
   ],
   "note": ""
  },
  {
   "property": "C82",
   "status": "proved",
   "theorems": [
    "Einpy.Misc.C82_image",
    "Einpy.Misc.C82_zero_limit",
    "Einpy.Misc.C82_symmetric",
    "Einpy.Misc.C82_slider"
   ],
   "note": ""
  },
  {
   "property": "C83",
   "status": "partial",
   "theorems": [
    "Einpy.Misc.C83_rows",
    "Einpy.Misc.C83_aspect",
    "Einpy.Misc.C83_plot",
    "Einpy.Misc.C83_plot2D",
    "Einpy.Misc.C83_parametric",
    "Einpy.Misc.C83_labels",
    "Einpy.Misc.C83_refuted",
    "Einpy.Misc.C83_clear",
    "Einpy.Misc.C83_accumulates",
    "Einpy.Misc.C83_ergosphere_flag",
    "Einpy.Misc.C83_static_last",
    "Einpy.Misc.C83_save_before_drawing",
    "Einpy.Misc.C83_static_clear",
    "Einpy.Misc.C83_save",
    "Einpy.Misc.C83_dispatch"
   ],
   "note": "All but atomicity of plot2D proved; FALSE of the code for plot2D with a refused coordinate number (C83_refuted)."
  },
  {
   "property": "C84",
   "status": "proved",
   "theorems": [
    "Einpy.Misc.C84_line",
    "Einpy.Misc.C84_contour",
    "Einpy.Misc.C84_show_first",
    "Einpy.Misc.C84_line_show"
   ],
   "note": ""
  },
  {
   "property": "C85",
   "status": "partial",
   "theorems": [
    "Einpy.Predef.C85_schwarzschild",
    "Einpy.Predef.C85_kerr",
    "Einpy.Predef.C85_kerrNewman_partial",
    "Einpy.Predef.C85_refuted"
   ],
   "note": "Proved for Schwarzschild, Kerr and uncharged KerrNewman; FALSE of the code for a charge (C85_refuted): the numerical class forgets it in Delta."
  },
  {
   "property": "C86",
   "status": "proved",
   "theorems": [
    "Einpy.Predef.C86_schwarzschild",
    "Einpy.Predef.C86_kerrNewman",
    "Einpy.Predef.C86_kerr",
    "Einpy.Predef.C86_rn",
    "Einpy.Predef.C86_minkowski",
    "Einpy.Predef.C86_deSitter",
    "Einpy.Predef.C86_jnw",
    "Einpy.Predef.C86_alcubierre",
    "Einpy.Predef.C86_others",
    "Einpy.Predef.C86_cMetric",
    "Einpy.Predef.C86_ernst"
   ],
   "note": ""
  },
  {
   "property": "C87",
   "status": "partial",
   "theorems": [
    "Einpy.Predef.C87_axis_partial",
    "Einpy.Predef.C87_refuted"
   ],
   "note": "FALSE of the code: y+z instead of y^2+z^2 (C87_refuted); right on the axis y=z=0 (C87_axis_partial)."
  },
  {
   "property": "C88",
   "status": "proved",
   "theorems": [
    "Einpy.Predef.C88_names",
    "Einpy.Predef.C88_injective",
    "Einpy.Predef.C88_values"
   ],
   "note": ""
  },
  {
   "property": "C89",
   "status": "proved",
   "theorems": [
    "Einpy.Predef.C89_rn_ricci",
    "Einpy.Predef.C89_rn_scalar"
   ],
   "note": ""
  },
  {
   "property": "C90",
   "status": "proved",
   "theorems": [
    "Einpy.Predef.C90_bertottiKasner"
   ],
   "note": ""
  },
  {
   "property": "C91",
   "status": "proved",
   "theorems": [
    "Einpy.Predef.C91_barriolaVilekin_ricci",
    "Einpy.Predef.C91_ricci_flat_iff"
   ],
   "note": ""
  },
  {
   "property": "C92",
   "status": "proved",
   "theorems": [
    "Einpy.Predef.C92_godel_ricci",
    "Einpy.Predef.C92_godel_scalar"
   ],
   "note": ""
  },
  {
   "property": "C93",
   "status": "proved",
   "theorems": [
    "Einpy.Predef.C93_ernst_scalar",
    "Einpy.Predef.C93_ernst_no_field"
   ],
   "note": ""
  },
  {
   "property": "C94",
   "status": "proved",
   "theorems": [
    "Einpy.Predef.C94_davidson_ricci",
    "Einpy.Predef.C94_davidson_scalar"
   ],
   "note": ""
  },
  {
   "property": "C95",
   "status": "proved",
   "theorems": [
    "Einpy.Predef.C95_kerr_vacuum"
   ],
   "note": ""
  },
  {
   "property": "C96",
   "status": "proved",
   "theorems": [
    "Einpy.Predef.C96_kerrNewman_ricci",
    "Einpy.Predef.C96_kerrNewman_scalar",
    "Einpy.Predef.C96_vacuum_iff"
   ],
   "note": ""
  },
  {
   "property": "C97",
   "status": "partial",
   "theorems": [
    "Einpy.Misc.C97_animate",
    "Einpy.Misc.C97_visible",
    "Einpy.Misc.C97_refuted"
   ],
   "note": "All but the last frame proved; FALSE of the code for the last point of the trajectory, which no frame ever shows (C97_refuted)."
  },
  {
   "property": "C98",
   "status": "partial",
   "theorems": [
    "Einpy.Misc.C98_cartesian_partial",
    "Einpy.Misc.C98_refuted"
   ],
   "note": "Proved for return_cartesian=True (C98_cartesian_partial); FALSE of the code for return_cartesian=False, where r, theta, phi are drawn as x, y, z (C98_refuted)."
  },
  {
   "property": "C99",
   "status": "partial",
   "theorems": [
    "Einpy.RK45.C99_bounded",
    "Einpy.RK45.C99_stepsize",
    "Einpy.RK45.C99_stopped",
    "Einpy.RK45.C99_errors",
    "Einpy.RK45.C99_refuted",
    "Einpy.RK45.C99_tolerances"
   ],
   "note": "Proved over any base class that keeps scipy's documented contract (structure Lawful, with an inhabitant); FALSE of the code for a RuntimeError of the user's right-hand side, which is turned into a warning (C99_refuted)."
  },
  {
   "property": "C100",
   "status": "partial",
   "theorems": [
    "Einpy.Coord.C100_construct",
    "Einpy.Coord.C100_consistent_partial",
    "Einpy.Coord.C100_refuted",
    "Einpy.Coord.C100_ancestors",
    "Einpy.Coord.C100_root"
   ],
   "note": "Proved for freshly made bodies; FALSE of the code after coords is reassigned: pos_vec stays (C100_refuted)."
  },
  {
   "property": "C101",
   "status": "proved",
   "theorems": [
    "Einpy.Predef.C101_ricci",
    "Einpy.Predef.C101_vacuum_iff"
   ],
   "note": ""
  },
  {
   "property": "C102",
   "status": "partial",
   "theorems": [
    "Einpy.Predef.C102_intended_partial",
    "Einpy.Predef.C102_refuted"
   ],
   "note": "FALSE of the code: the arguments of besselj are swapped, so U = 0, the metric is static and not a vacuum solution (C102_refuted); C102_intended_partial proves the claim for the Bessel functions in the intended order."
  },
  {
   "property": "C103",
   "status": "partial",
   "theorems": [
    "Einpy.Predef.C103_ricci_partial",
    "Einpy.Predef.C103_refuted"
   ],
   "note": "The whole Ricci tensor is computed (C103_ricci_partial); FALSE of the code for c^2 != 1, where angular components 1-c^2 remain because the angular part of the metric is not divided by c^2 (C103_refuted)."
  },
  {
   "property": "C104",
   "status": "partial",
   "theorems": [
    "Einpy.C104_second_order",
    "Einpy.C104_fourth_order",
    "Einpy.C104_order6_8_refuted"
   ],
   "note": "Proved for orders 2 and 4 (C104_second_order, C104_fourth_order); orders 6 and 8 are only second-order accurate: FALSE of the code, with an explicit metric and solution (C104_order6_8_refuted)."
  },
  {
   "property": "C105",
   "status": "proved",
   "theorems": [
    "Einpy.C105_converges",
    "Einpy.C105_converges_order4"
   ],
   "note": ""
  },
  {
   "property": "C106",
   "status": "proved",
   "theorems": [
    "Einpy.C106_geodesic_order4",
    "Einpy.C106_geodesic"
   ],
   "note": ""
  },
  {
   "property": "C107",
   "status": "proved",
   "theorems": [
    "Einpy.C107_named"
   ],
   "note": ""
  },
  {
   "property": "C108",
   "status": "proved",
   "theorems": [
    "Einpy.C108_rk4_fourth_order"
   ],
   "note": ""
  },
  {
   "property": "C109",
   "status": "proved",
   "theorems": [
    "Einpy.C109_on_shell",
    "Einpy.C109_on_shell_order4",
    "Einpy.C109_no_warnings"
   ],
   "note": ""
  },
  {
   "property": "C110",
   "status": "proved",
   "theorems": [
    "Einpy.C110_scalar_invariant",
    "Einpy.C110_rank_two",
    "Einpy.C110_stress_energy",
    "Einpy.C110_christoffel",
    "Einpy.C110_riemann",
    "Einpy.C110_weyl",
    "Einpy.C110_flat"
   ],
   "note": ""
  },
  {
   "property": "C111",
   "status": "proved",
   "theorems": [
    "Einpy.C111_second_bianchi"
   ],
   "note": ""
  },
  {
   "property": "C112",
   "status": "proved",
   "theorems": [
    "Einpy.C112_two_dimensions"
   ],
   "note": ""
  },
  {
   "property": "C113",
   "status": "proved",
   "theorems": [
    "Einpy.C113_conformal_weyl",
    "Einpy.C113_constant_factor"
   ],
   "note": ""
  },
  {
   "property": "C114",
   "status": "partial",
   "theorems": [
    "Einpy.Num.C114_schwarzschild_conserved",
    "Einpy.Num.C114_kn_neutral_conserved",
    "Einpy.Num.C114_kerr_energy_conserved",
    "Einpy.Num.C114_refuted_kerr_drift",
    "Einpy.Num.C114_refuted_kerr_not_conserved"
   ],
   "note": "Proved for Schwarzschild, neutral Kerr-Newman and the energy in Kerr; FALSE of the code for the angular momentum in Kerr (C114_refuted_kerr_drift, C114_refuted_kerr_not_conserved): the wrong sign in d_r g_phiphi."
  },
  {
   "property": "C115",
   "status": "proved",
   "theorems": [
    "Einpy.Num.C115_schwarzschild_geodesics",
    "Einpy.Num.C115_kn_neutral_geodesics"
   ],
   "note": ""
  },
  {
   "property": "C116",
   "status": "proved",
   "theorems": [
    "Einpy.C116_step_equivariant",
    "Einpy.C116_forward",
    "Einpy.C116_axial",
    "Einpy.C116_equatorial"
   ],
   "note": "Symmetries of the exact (real-number) computation; rounding is not modelled."
  },
  {
   "property": "C117",
   "status": "partial",
   "theorems": [
    "Einpy.Num.C117_kn_neutral_carter",
    "Einpy.Num.C117_refuted_kerr_drift",
    "Einpy.Num.C117_schwarzschild_total",
    "Einpy.Num.C117_refuted_kerr_not_conserved"
   ],
   "note": "Proved for Schwarzschild and neutral Kerr-Newman; FALSE of the code for Kerr (C117_refuted_kerr_drift, C117_refuted_kerr_not_conserved): the wrong sign in d_r g_phiphi."
  },
  {
   "property": "C118",
   "status": "partial",
   "theorems": [
    "Einpy.C118_einstein_space",
    "Einpy.C118_constant_curvature",
    "Einpy.C118_three_dimensions",
    "Einpy.Predef.C118_antiDeSitter",
    "Einpy.Predef.C118_antiDeSitterStatic",
    "Einpy.Predef.C118_deSitter_intended_partial",
    "Einpy.Predef.C118_refuted_deSitter"
   ],
   "note": "Proved for all metrics, dimensions and for both anti-de Sitter metrics; FALSE of DeSitter(), whose exponent contains x instead of t (C118_refuted_deSitter, C64_refuted)."
  },
  {
   "property": "C119",
   "status": "partial",
   "theorems": [
    "Einpy.Misc.C119_outcome",
    "Einpy.Misc.C119_samples",
    "Einpy.Misc.C119_idempotent",
    "Einpy.Misc.C119_succeeds_partial",
    "Einpy.Misc.C119_refuted"
   ],
   "note": "Outcome, samples and idempotence proved for all shadows; FALSE of the code that every shadow with four samples can be smoothed: whenever the critical ray is kept its impact parameter occurs twice and smoothen raises ValueError (C119_refuted)."
  },
  {
   "property": "C120",
   "status": "proved",
   "theorems": [
    "Einpy.C120_flat_exact",
    "Einpy.C120_trajectory"
   ],
   "note": ""
  },
  {
   "property": "C121",
   "status": "proved",
   "theorems": [
    "Einpy.Num.C121_homogeneous",
    "Einpy.Num.C121_reparametrise",
    "Einpy.Num.C121_solutions"
   ],
   "note": ""
  },
  {
   "property": "C122",
   "status": "proved",
   "theorems": [
    "Einpy.C122_specialise",
    "Einpy.C122_subs"
   ],
   "note": ""
  },
  {
   "property": "C123",
   "status": "proved",
   "theorems": [
    "Einpy.C123_cyclic"
   ],
   "note": ""
  },
  {
   "property": "C124",
   "status": "proved",
   "theorems": [
    "Einpy.C124_mixed",
    "Einpy.C124_factor",
    "Einpy.C124_scalar"
   ],
   "note": ""
  },
  {
   "property": "C125",
   "status": "proved",
   "theorems": [
    "Einpy.Predef.C125_reissnerNordstorm",
    "Einpy.Predef.C125_schwarzschild",
    "Einpy.Predef.C125_flat_iff"
   ],
   "note": ""
  },
  {
   "property": "C126",
   "status": "proved",
   "theorems": [
    "Einpy.Predef.C126_free_fall",
    "Einpy.Predef.C126_energy_density",
    "Einpy.Predef.C126_no_warp"
   ],
   "note": "Sign of the energy: the identity shows minus a sum of squares; no order on the coefficient field is assumed."
  },
  {
   "property": "C127",
   "status": "proved",
   "theorems": [
    "Einpy.C127_duals",
    "Einpy.C127_equivalence",
    "Einpy.C127_number"
   ],
   "note": ""
  },
  {
   "property": "C128",
   "status": "proved",
   "theorems": [
    "Einpy.C128_seesaw",
    "Einpy.C128_swap"
   ],
   "note": ""
  },
  {
   "property": "C129",
   "status": "partial",
   "theorems": [
    "Einpy.C129_commute_iff_partial",
    "Einpy.C129_isometry_partial",
    "Einpy.C129_boost_refuted"
   ],
   "note": "FALSE of the code for boosts (C129_boost_refuted): lower indices are transformed with the transpose of L instead of the inverse transpose. C129_commute_iff_partial and C129_isometry_partial characterise exactly the matrices for which it holds (g L = L^T g; among the matrices preserving the metric those with L^2 = 1)."
  },
  {
   "property": "C130",
   "status": "proved",
   "theorems": [
    "Einpy.Num.C130_spin_needed",
    "Einpy.Num.C130_rhs",
    "Einpy.Num.C130_trajectories",
    "Einpy.Num.C130_solutions",
    "Einpy.Num.C130_equatorial"
   ],
   "note": ""
  },
  {
   "property": "C131",
   "status": "proved",
   "theorems": [
    "Einpy.Num.C131_rhs",
    "Einpy.Num.C131_trajectories",
    "Einpy.Num.C131_solutions"
   ],
   "note": ""
  },
  {
   "property": "C132",
   "status": "partial",
   "theorems": [
    "Einpy.Num.C132_schwarzschild",
    "Einpy.Num.C132_kerr_newman_partial",
    "Einpy.Num.C132_kerr_partial",
    "Einpy.Num.C132_kerr_refuted",
    "Einpy.Num.C132_trajectories_partial"
   ],
   "note": "Proved for Schwarzschild and for neutral particles in KerrNewman; FALSE of Kerr (C132_kerr_refuted): because of the wrong sign in its derivative table, every revolving circular orbit of a spinning hole gets a nonzero acceleration. C132_kerr_partial gives the exact condition that Kerr uses instead."
  },
  {
   "property": "C133",
   "status": "proved",
   "theorems": [
    "Einpy.C133_uniform_exact",
    "Einpy.C133_uniform_trajectory",
    "Einpy.C133_kepler",
    "Einpy.C133_circular",
    "Einpy.C133_orbits"
   ],
   "note": ""
  },
  {
   "property": "C134",
   "status": "proved",
   "theorems": [
    "Einpy.C134_forward",
    "Einpy.C134_reversal",
    "Einpy.C134_static"
   ],
   "note": ""
  },
  {
   "property": "C135",
   "status": "partial",
   "theorems": [
    "Einpy.C135_momentum",
    "Einpy.C135_uncoupled",
    "Einpy.C135_refuted",
    "Einpy.C135_limit_partial"
   ],
   "note": "FALSE of the code for omega != 0 (C135_refuted): _flow_mixed mixes positions with momenta by an angle proportional to delta, so the computed radius of a radial photon depends on its energy. Proved: the stored 4-momentum always scales (C135_momentum), with omega = 0 the whole property holds exactly, for every metric argument and including errors (C135_uncoupled), and for every omega the two runs along a null geodesic of a named space-time agree up to K*delta^2, K*delta^4 for order 4 (C135_limit_partial)."
  },
  {
   "property": "C136",
   "status": "proved",
   "theorems": [
    "Einpy.Num.C136_schwarzschild",
    "Einpy.Num.C136_kerr"
   ],
   "note": "The comparison is with Schwarzschild and KerrNewman: the f_vec of Kerr does not solve the geodesic equation (see C45), so the rotating case is stated for KerrNewman with a neutral particle, whose f_vec uses the Christoffel symbols of the uncharged hole for every Q."
  },
  {
   "property": "C137",
   "status": "proved",
   "theorems": [
    "Einpy.C137_first_integral",
    "Einpy.C137_carter",
    "Einpy.Num.C137_rk_schwarzschild",
    "Einpy.Num.C137_rk_kn_neutral"
   ],
   "note": ""
  },
  {
   "property": "C138",
   "status": "proved",
   "theorems": [
    "Einpy.C138_bound",
    "Einpy.C138_precession_bound",
    "Einpy.C138_precession",
    "Einpy.C138_precession_shipped"
   ],
   "note": ""
  },
  {
   "property": "C139",
   "status": "proved",
   "theorems": [
    "Einpy.Fn.C139_functions",
    "Einpy.C139_geodesics"
   ],
   "note": ""
  },
  {
   "property": "C140",
   "status": "partial",
   "theorems": [
    "Einpy.C140_schwarzschild",
    "Einpy.C140_kerr_partial",
    "Einpy.C140_kerr_refuted_iff",
    "Einpy.C140_kerrNewman"
   ],
   "note": "Proved for Schwarzschild, uncharged KerrNewman and 59 of the 64 symbols of Kerr; FALSE of the code for the other five: C140_kerr_refuted_iff says all 64 agree exactly if the hole does not spin, has no mass or r^2 = alpha^2 cos^2 theta (the wrong sign in d_r g_phiphi, C43)."
  },
  {
   "property": "C141",
   "status": "proved",
   "theorems": [
    "Einpy.Fn.C141_deviation",
    "Einpy.Fn.C141_commutator"
   ],
   "note": ""
  },
  {
   "property": "C142",
   "status": "proved",
   "theorems": [
    "Einpy.Fn.C142_transport",
    "Einpy.Fn.C142_killing",
    "Einpy.Fn.C142_cyclic"
   ],
   "note": ""
  },
  {
   "property": "C143",
   "status": "proved",
   "theorems": [
    "Einpy.C143_rounding",
    "Einpy.C143_rounding_order4",
    "Einpy.C143_rk4"
   ],
   "note": ""
  },
  {
   "property": "C144",
   "status": "proved",
   "theorems": [
    "Einpy.Fn.C144_path_independent"
   ],
   "note": ""
  },
  {
   "property": "C145",
   "status": "proved",
   "theorems": [
    "Einpy.Fn.C145_flat_iff",
    "Einpy.Fn.C145_transport",
    "Einpy.Fn.C145_geodesics"
   ],
   "note": ""
  },
  {
   "property": "C146",
   "status": "proved",
   "theorems": [
    "Einpy.Fn.C146_conformally_flat_iff"
   ],
   "note": ""
  },
  {
   "property": "C147",
   "status": "proved",
   "theorems": [
    "Einpy.Fn.C147_schur_ricci",
    "Einpy.Fn.C147_schur_riemann"
   ],
   "note": ""
  },
  {
   "property": "C148",
   "status": "proved",
   "theorems": [
    "Einpy.Fn.C148_cotton_of_conformally_flat",
    "Einpy.Fn.C148_conformally_flat_iff"
   ],
   "note": ""
  },
  {
   "property": "C149",
   "status": "proved",
   "theorems": [
    "Einpy.Fn.C149_constant_curvature_iff"
   ],
   "note": ""
  },
  {
   "property": "C150",
   "status": "proved",
   "theorems": [
    "Einpy.C150_history",
    "Einpy.C150_lambdify_args",
    "Einpy.C150_lambdify_errors",
    "Einpy.C150_simplify_effect",
    "Einpy.C150_getitem",
    "Einpy.C150_variables_go_stale"
   ],
   "note": "sympy.simplify is any function that keeps the value of an expression and adds no symbols. C150_variables_go_stale: the variables list is not recomputed by simplify()."
  },
  {
   "property": "C151",
   "status": "proved",
   "theorems": [
    "Einpy.Misc.C151_save",
    "Einpy.Misc.C151_extension_unique"
   ],
   "note": "plotly.offline.plot is modelled by its documented treatment of the image arguments; os.path.splitext is modelled in full (POSIX)."
  },
  {
   "property": "C152",
   "status": "proved",
   "theorems": [
    "Einpy.Fn.C152_birkhoff"
   ],
   "note": "The components are smooth functions on an open set and sympy.diff is the partial derivative, as in C139."
  }
 ]
}