# Axioms of every theorem in MANIFEST.json

Generated by tools/axioms.py with `#print axioms`.

## (none): 4 theorems

`Einpy.Misc.C60_old2new`, `Einpy.Predef.C66_case`, `Einpy.Predef.C88_values`, `Einpy.RK45.C99_refuted`

## propext: 7 theorems

`Einpy.C07_constructor_errors`, `Einpy.C07_wrong_types_raise`, `Einpy.Predef.C66_case_ascii`, `Einpy.Misc.C82_slider`, `Einpy.Misc.C83_dispatch`, `Einpy.Predef.C88_names`, `Einpy.Predef.C88_injective`

## propext, Classical.choice, Quot.sound: 507 theorems

`Einpy.C01_change_config_components`, `Einpy.C02_change_config_compose`, `Einpy.C02_change_config_round_trip`, `Einpy.C03_change_config_labels`, `Einpy.C03_no_metric_raises`, `Einpy.C03_bad_config_raises`, `Einpy.C03_singular_metric_raises`, `Einpy.C04_outer_product`, `Einpy.C04_contraction`, `Einpy.C04_like_indices_raise`, `Einpy.C04_one_index_raises_partial`, `Einpy.C04_out_of_range`, `Einpy.C04_one_index_refuted`, `Einpy.C05_lorentz_components`, `Einpy.C05_lorentz_identity`, `Einpy.C05_lorentz_composition`, `Einpy.C06_contraction_invariant_iff_partial`, `Einpy.C06_boost_refuted`, `Einpy.C07_constructor_iff`, `Einpy.C07_ricci_scalar_iff`, `Einpy.C07_error_kind`, `Einpy.C08_subs_ll_partial`, `Einpy.C08_subs_refuted`, `Einpy.C09_cache_invisible`, `Einpy.C09_values_immutable`, `Einpy.C09_change_config_self`, `Einpy.C09_inv_inv_is_self`, `Einpy.C09_change_config_copy_not_cached`, `Einpy.C10_lower_config_partial`, `Einpy.C10_lower_config_refuted`, `Einpy.C11_simplify_componentwise`, `Einpy.C12_constructed_variables`, `Einpy.C12_deterministic`, `Einpy.C12_lambdify`, `Einpy.C12_tensor_product_partial`, `Einpy.C12_tensor_product_refuted`, `Einpy.C12_same_name_order_refuted`, `Einpy.C13_christoffel_formula`, `Einpy.C13_christoffel_singular`, `Einpy.C14_metric_compatible`, `Einpy.C15_riemann_formula`, `Einpy.C16_lowered_riemann_symmetries`, `Einpy.C17_ricci_paths`, `Einpy.C17_scalar_paths`, `Einpy.C18_einstein`, `Einpy.C19_weyl`, `Einpy.C19_weyl_three`, `Einpy.C19_weyl_low_dimension`, `Einpy.C20_schouten`, `Einpy.C20_schouten_low_dimension`, `Einpy.C21_stress_energy_partial`, `Einpy.C21_documented_iff`, `Einpy.C21_documented_refuted`, `Einpy.C22_metric_supply`, `Einpy.C22_inverse_same_space`, `Einpy.C23_change_config_class_partial`, `Einpy.C23_change_config_class_refuted`, `Einpy.C24_digits_exact`, `Einpy.C24_loop3_bijective`, `Einpy.C24_loop4_bijective`, `Einpy.C24_no_collision`, `Einpy.C25_ring_laws`, `Einpy.C25_epsilon_squared`, `Einpy.C25_mixed`, `Einpy.C25_division`, `Einpy.C26_automatic_differentiation`, `Einpy.C26_directional`, `Einpy.C27_lhopital`, `Einpy.C27_zero_denominator`, `Einpy.C27_reverse`, `Einpy.C27_removable_derivative_lost`, `Einpy.C27_number_denominator`, `Einpy.C27_domain_edges`, `Einpy.C28_jacobian`, `Einpy.C28_bad_wrt`, `Einpy.C28_bad_index`, `Einpy.C29_mixed_flow`, `Einpy.C29_mixed_fixed`, `Einpy.C30_time_reversible`, `Einpy.C31_symplectic`, `Einpy.C31_symplectic_total`, `Einpy.C32_cyclic_momentum`, `Einpy.C33_order4`, `Einpy.C33_weights_sum_to_one`, `Einpy.C33_outermost`, `Einpy.C33_order6_8_refuted`, `Einpy.C34_total`, `Einpy.C34_rows`, `Einpy.C34_unsupported_order`, `Einpy.C34_trajectory`, `Einpy.C34_no_steps`, `Einpy.C35_time_after_n_steps`, `Einpy.C35_refuted`, `Einpy.C36_cubic_exact`, `Einpy.C36_linear`, `Einpy.C37_normalised`, `Einpy.C37_domain`, `Einpy.C37_builtin`, `Einpy.C37_general_refuted`, `Einpy.C37_object`, `Einpy.C38_kerrNewman`, `Einpy.C38_kerr`, `Einpy.C38_schwarzschild`, `Einpy.C38_reductions`, `Einpy.C39_unknown_metric`, `Einpy.C39_schwarzschild_params`, `Einpy.C39_missing_params`, `Einpy.C39_params_not_iterable`, `Einpy.C39_kind`, `Einpy.C40_cartesian_rows`, `Einpy.C40_radius`, `Einpy.Num.C41_alpha_ok`, `Einpy.Num.C41_alpha_error`, `Einpy.Num.C42_schwarzschild_levi_civita`, `Einpy.Num.C42_schwarzschild_total`, `Einpy.Num.C43_kerr_derivatives_partial`, `Einpy.Num.C43_refuted_error_term`, `Einpy.Num.C44_kerr_symmetric`, `Einpy.Num.C44_kerr_nonzero_listed`, `Einpy.Num.C44_nonzero_christoffels_perm`, `Einpy.Num.C44_kerr_levi_civita_partial`, `Einpy.Num.C44_kerr_total`, `Einpy.Num.C44_refuted_iff`, `Einpy.Num.C45_kerr_rhs`, `Einpy.Num.C45_kerr_rhs_error`, `Einpy.Num.C45_schwarzschild_rhs`, `Einpy.Num.C45_schwarzschild_rhs_error`, `Einpy.Num.C45_schwarzschild_norm_conserved`, `Einpy.Num.C45_refuted_kerr_drift`, `Einpy.Num.C45_refuted_kerr_not_conserved`, `Einpy.Num.C46_refuted_ignores_charge`, `Einpy.Num.C46_uncharged_partial`, `Einpy.Num.C46_refuted_iff`, `Einpy.Num.C47_antisymmetric`, `Einpy.Num.C47_contravariant_antisymmetric`, `Einpy.Num.C47_curl_partial`, `Einpy.Num.C47_refuted_iff`, `Einpy.Num.C48_horizons`, `Einpy.Num.C48_ergospheres`, `Einpy.Num.C48_ergospheres_own_metric`, `Einpy.Num.C48_refuted_charged`, `Einpy.Num.C48_order`, `Einpy.Num.C48_real_iff`, `Einpy.Num.C48_neutral_real`, `Einpy.Num.C48_schwarzschild`, `Einpy.Num.C49_schwarzschild`, `Einpy.Num.C49_kerr`, `Einpy.Num.C49_kerr_newman`, `Einpy.Num.C49_refuted_em_unchecked`, `Einpy.Num.C49_own_system`, `Einpy.Num.C50_v0_future`, `Einpy.Num.C50_v0_normalises`, `Einpy.Num.C50_v0_domain`, `Einpy.Num.C50_v0_static_future`, `Einpy.Coord.C51_cartesian_round_trip`, `Einpy.Coord.C51_cartesian_round_trip_velocity`, `Einpy.Coord.C51_spherical_round_trip`, `Einpy.Coord.C51_spherical_round_trip_velocity`, `Einpy.Coord.C51_range`, `Einpy.Coord.C51_axis_velocity`, `Einpy.Coord.C52_cartesian_round_trip`, `Einpy.Coord.C52_disk`, `Einpy.Coord.C52_cartesian_round_trip_velocity_partial`, `Einpy.Coord.C52_bl_round_trip`, `Einpy.Coord.C52_bl_round_trip_velocity_partial`, `Einpy.Coord.C52_refuted_velocity`, `Einpy.Coord.C53_cartesian_to_spherical`, `Einpy.Coord.C53_spherical_to_cartesian`, `Einpy.Coord.C53_bl_to_cartesian`, `Einpy.Coord.C53_cartesian_to_bl_partial`, `Einpy.Coord.C53_refuted_bl`, `Einpy.Coord.C54_spherical_speed`, `Einpy.Coord.C54_cartesian_speed`, `Einpy.Coord.C54_bl_speed`, `Einpy.Coord.C54_lorentz_domain`, `Einpy.Coord.C54_lorentz_value`, `Einpy.Coord.C54_lorentz_monotone`, `Einpy.Misc.C55_derivative`, `Einpy.Misc.C55_hubble_law`, `Einpy.Misc.C55_unknown_era`, `Einpy.Misc.C55_wrong_unit`, `Einpy.Misc.C55_unit_independent`, `Einpy.Misc.C55_before_bang`, `Einpy.Misc.C56_radial`, `Einpy.Misc.C56_radial_none`, `Einpy.Misc.C56_defined`, `Einpy.Misc.C56_gradient_partial`, `Einpy.Misc.C56_isometric_iff`, `Einpy.Misc.C56_refuted`, `Einpy.Misc.C57_critical`, `Einpy.Misc.C57_turning_points`, `Einpy.Misc.C58_terminates`, `Einpy.Misc.C58_pixel`, `Einpy.Misc.C58_zero_limit`, `Einpy.Misc.C58_sound`, `Einpy.Misc.C59_horizon`, `Einpy.Misc.C59_ergosphere_2D_partial`, `Einpy.Misc.C59_refuted_2D`, `Einpy.Misc.C59_ergosphere_3D_partial`, `Einpy.Misc.C59_refuted_3D`, `Einpy.Misc.C59_refuted_equatorial`, `Einpy.Misc.C59_horizon_covered`, `Einpy.Misc.C60_rank`, `Einpy.Misc.C60_repeat`, `Einpy.Misc.C60_reciprocal`, `Einpy.Misc.C60_one_by_one_partial`, `Einpy.Misc.C60_refuted`, `Einpy.Misc.C60_refuted_zero`, `Einpy.Misc.C60_new2old`, `Einpy.Misc.C60_refuted_new2old`, `Einpy.Misc.C60_new2old_one_partial`, `Einpy.Predef.C61_kerr_schwarzschild`, `Einpy.Predef.C61_rn_schwarzschild`, `Einpy.Predef.C61_kerrNewman_kerr`, `Einpy.Predef.C61_kerrNewman_rn`, `Einpy.Predef.C62_schwarzschild_vacuum`, `Einpy.Predef.C63_cartesian_flat`, `Einpy.Predef.C63_polar_flat`, `Einpy.Predef.C64_antiDeSitterStatic`, `Einpy.Predef.C64_antiDeSitter`, `Einpy.Predef.C64_deSitter_ricci`, `Einpy.Predef.C64_refuted`, `Einpy.Predef.C64_deSitter_intended_partial`, `Einpy.Predef.C65_opposite_partial`, `Einpy.Predef.C65_refuted`, `Einpy.Predef.C65_refuted_units`, `Einpy.Predef.C66_exact`, `Einpy.Predef.C66_constructors`, `Einpy.Predef.C66_monotone`, `Einpy.C67_warnings`, `Einpy.Num.C68_kn_derivatives`, `Einpy.Num.C68_kn_levi_civita`, `Einpy.Num.C68_kn_total`, `Einpy.Num.C69_refuted_iff`, `Einpy.Num.C69_kerr_kn_agree_partial`, `Einpy.Num.C70_kn_rhs`, `Einpy.Num.C70_kn_rhs_neutral`, `Einpy.Num.C70_kn_norm_conserved_partial`, `Einpy.Num.C70_refuted_work`, `Einpy.Num.C70_refuted_not_conserved`, `Einpy.Num.C71_perturbation_additive`, `Einpy.Num.C71_no_perturbation`, `Einpy.Num.C71_contravariant_inverse`, `Einpy.Num.C71_contravariant_singular`, `Einpy.Num.C72_dimension_checked`, `Einpy.Num.C72_si_partial`, `Einpy.Num.C72_si_kerr_partial`, `Einpy.Num.C72_refuted_iff`, `Einpy.Num.C73_schwarzschild_line_element`, `Einpy.Num.C73_kerr_line_element`, `Einpy.Num.C73_kerr_no_spin`, `Einpy.Num.C73_kerr_determinant`, `Einpy.Num.C73_own_system`, `Einpy.Coord.C74_values`, `Einpy.Coord.C74_dispatch`, `Einpy.Coord.C74_key_error`, `Einpy.Coord.C74_value_error`, `Einpy.Coord.C74_spherical_bl_round_trip`, `Einpy.Coord.C74_zero_spin`, `Einpy.Coord.C75_constructor`, `Einpy.Coord.C75_fresh_views`, `Einpy.Coord.C75_bad_index`, `Einpy.Coord.C75_units`, `Einpy.Coord.C75_object_round_trip`, `Einpy.Coord.C75_object_round_trip_bl`, `Einpy.Coord.C75_after_assignments_partial`, `Einpy.Coord.C75_refuted`, `Einpy.Coord.C76_coordinate_error`, `Einpy.Coord.C76_normalised`, `Einpy.Coord.C76_history_independent`, `Einpy.Coord.C76_v_t_survives_refusal`, `Einpy.Coord.C76_schwarzschild`, `Einpy.Misc.C77_new`, `Einpy.Misc.C77_get_values`, `Einpy.Misc.C77_samples`, `Einpy.Misc.C77_negative_alpha`, `Einpy.Misc.C77_inner_slope`, `Einpy.Misc.C78_surface_partial`, `Einpy.Misc.C78_refuted`, `Einpy.Misc.C78_plotter`, `Einpy.Coord.C79_positions`, `Einpy.Coord.C79_velocities`, `Einpy.Coord.C79_differential_round_trip`, `Einpy.Coord.C79_differential_position`, `Einpy.Coord.C79_differential_constructor`, `Einpy.Misc.C80_turning_point_partial`, `Einpy.Misc.C80_refuted`, `Einpy.Misc.C81_arrays`, `Einpy.Misc.C81_integrands`, `Einpy.Misc.C81_positive`, `Einpy.Misc.C82_image`, `Einpy.Misc.C82_zero_limit`, `Einpy.Misc.C82_symmetric`, `Einpy.Misc.C83_rows`, `Einpy.Misc.C83_aspect`, `Einpy.Misc.C83_plot`, `Einpy.Misc.C83_plot2D`, `Einpy.Misc.C83_parametric`, `Einpy.Misc.C83_labels`, `Einpy.Misc.C83_refuted`, `Einpy.Misc.C83_clear`, `Einpy.Misc.C83_accumulates`, `Einpy.Misc.C83_ergosphere_flag`, `Einpy.Misc.C83_static_last`, `Einpy.Misc.C83_save_before_drawing`, `Einpy.Misc.C83_static_clear`, `Einpy.Misc.C83_save`, `Einpy.Misc.C84_line`, `Einpy.Misc.C84_contour`, `Einpy.Misc.C84_show_first`, `Einpy.Misc.C84_line_show`, `Einpy.Predef.C85_schwarzschild`, `Einpy.Predef.C85_kerr`, `Einpy.Predef.C85_kerrNewman_partial`, `Einpy.Predef.C85_refuted`, `Einpy.Predef.C86_schwarzschild`, `Einpy.Predef.C86_kerrNewman`, `Einpy.Predef.C86_kerr`, `Einpy.Predef.C86_rn`, `Einpy.Predef.C86_minkowski`, `Einpy.Predef.C86_deSitter`, `Einpy.Predef.C86_jnw`, `Einpy.Predef.C86_alcubierre`, `Einpy.Predef.C86_others`, `Einpy.Predef.C86_cMetric`, `Einpy.Predef.C86_ernst`, `Einpy.Predef.C87_axis_partial`, `Einpy.Predef.C87_refuted`, `Einpy.Predef.C89_rn_ricci`, `Einpy.Predef.C89_rn_scalar`, `Einpy.Predef.C90_bertottiKasner`, `Einpy.Predef.C91_barriolaVilekin_ricci`, `Einpy.Predef.C91_ricci_flat_iff`, `Einpy.Predef.C92_godel_ricci`, `Einpy.Predef.C92_godel_scalar`, `Einpy.Predef.C93_ernst_scalar`, `Einpy.Predef.C93_ernst_no_field`, `Einpy.Predef.C94_davidson_ricci`, `Einpy.Predef.C94_davidson_scalar`, `Einpy.Predef.C95_kerr_vacuum`, `Einpy.Predef.C96_kerrNewman_ricci`, `Einpy.Predef.C96_kerrNewman_scalar`, `Einpy.Predef.C96_vacuum_iff`, `Einpy.Misc.C97_animate`, `Einpy.Misc.C97_visible`, `Einpy.Misc.C97_refuted`, `Einpy.Misc.C98_cartesian_partial`, `Einpy.Misc.C98_refuted`, `Einpy.RK45.C99_bounded`, `Einpy.RK45.C99_stepsize`, `Einpy.RK45.C99_stopped`, `Einpy.RK45.C99_errors`, `Einpy.RK45.C99_tolerances`, `Einpy.Coord.C100_construct`, `Einpy.Coord.C100_consistent_partial`, `Einpy.Coord.C100_refuted`, `Einpy.Coord.C100_ancestors`, `Einpy.Coord.C100_root`, `Einpy.Predef.C101_ricci`, `Einpy.Predef.C101_vacuum_iff`, `Einpy.Predef.C102_intended_partial`, `Einpy.Predef.C102_refuted`, `Einpy.Predef.C103_ricci_partial`, `Einpy.Predef.C103_refuted`, `Einpy.C104_second_order`, `Einpy.C104_fourth_order`, `Einpy.C104_order6_8_refuted`, `Einpy.C105_converges`, `Einpy.C105_converges_order4`, `Einpy.C106_geodesic_order4`, `Einpy.C106_geodesic`, `Einpy.C107_named`, `Einpy.C108_rk4_fourth_order`, `Einpy.C109_on_shell`, `Einpy.C109_on_shell_order4`, `Einpy.C109_no_warnings`, `Einpy.C110_scalar_invariant`, `Einpy.C110_rank_two`, `Einpy.C110_stress_energy`, `Einpy.C110_christoffel`, `Einpy.C110_riemann`, `Einpy.C110_weyl`, `Einpy.C110_flat`, `Einpy.C111_second_bianchi`, `Einpy.C112_two_dimensions`, `Einpy.C113_conformal_weyl`, `Einpy.C113_constant_factor`, `Einpy.Num.C114_schwarzschild_conserved`, `Einpy.Num.C114_kn_neutral_conserved`, `Einpy.Num.C114_kerr_energy_conserved`, `Einpy.Num.C114_refuted_kerr_drift`, `Einpy.Num.C114_refuted_kerr_not_conserved`, `Einpy.Num.C115_schwarzschild_geodesics`, `Einpy.Num.C115_kn_neutral_geodesics`, `Einpy.C116_step_equivariant`, `Einpy.C116_forward`, `Einpy.C116_axial`, `Einpy.C116_equatorial`, `Einpy.Num.C117_kn_neutral_carter`, `Einpy.Num.C117_refuted_kerr_drift`, `Einpy.Num.C117_schwarzschild_total`, `Einpy.Num.C117_refuted_kerr_not_conserved`, `Einpy.C118_einstein_space`, `Einpy.C118_constant_curvature`, `Einpy.C118_three_dimensions`, `Einpy.Predef.C118_antiDeSitter`, `Einpy.Predef.C118_antiDeSitterStatic`, `Einpy.Predef.C118_deSitter_intended_partial`, `Einpy.Predef.C118_refuted_deSitter`, `Einpy.Misc.C119_outcome`, `Einpy.Misc.C119_samples`, `Einpy.Misc.C119_idempotent`, `Einpy.Misc.C119_succeeds_partial`, `Einpy.Misc.C119_refuted`, `Einpy.C120_flat_exact`, `Einpy.C120_trajectory`, `Einpy.Num.C121_homogeneous`, `Einpy.Num.C121_reparametrise`, `Einpy.Num.C121_solutions`, `Einpy.C122_specialise`, `Einpy.C122_subs`, `Einpy.C123_cyclic`, `Einpy.C124_mixed`, `Einpy.C124_factor`, `Einpy.C124_scalar`, `Einpy.Predef.C125_reissnerNordstorm`, `Einpy.Predef.C125_schwarzschild`, `Einpy.Predef.C125_flat_iff`, `Einpy.Predef.C126_free_fall`, `Einpy.Predef.C126_energy_density`, `Einpy.Predef.C126_no_warp`, `Einpy.C127_duals`, `Einpy.C127_equivalence`, `Einpy.C127_number`, `Einpy.C128_seesaw`, `Einpy.C128_swap`, `Einpy.C129_commute_iff_partial`, `Einpy.C129_isometry_partial`, `Einpy.C129_boost_refuted`, `Einpy.Num.C130_spin_needed`, `Einpy.Num.C130_rhs`, `Einpy.Num.C130_trajectories`, `Einpy.Num.C130_solutions`, `Einpy.Num.C130_equatorial`, `Einpy.Num.C131_rhs`, `Einpy.Num.C131_trajectories`, `Einpy.Num.C131_solutions`, `Einpy.Num.C132_schwarzschild`, `Einpy.Num.C132_kerr_newman_partial`, `Einpy.Num.C132_kerr_partial`, `Einpy.Num.C132_kerr_refuted`, `Einpy.Num.C132_trajectories_partial`, `Einpy.C133_uniform_exact`, `Einpy.C133_uniform_trajectory`, `Einpy.C133_kepler`, `Einpy.C133_circular`, `Einpy.C133_orbits`, `Einpy.C134_forward`, `Einpy.C134_reversal`, `Einpy.C134_static`, `Einpy.C135_momentum`, `Einpy.C135_uncoupled`, `Einpy.C135_refuted`, `Einpy.C135_limit_partial`, `Einpy.Num.C136_schwarzschild`, `Einpy.Num.C136_kerr`, `Einpy.C137_first_integral`, `Einpy.C137_carter`, `Einpy.Num.C137_rk_schwarzschild`, `Einpy.Num.C137_rk_kn_neutral`, `Einpy.C138_bound`, `Einpy.C138_precession_bound`, `Einpy.C138_precession`, `Einpy.C138_precession_shipped`, `Einpy.Fn.C139_functions`, `Einpy.C139_geodesics`, `Einpy.C140_schwarzschild`, `Einpy.C140_kerr_partial`, `Einpy.C140_kerr_refuted_iff`, `Einpy.C140_kerrNewman`, `Einpy.Fn.C141_deviation`, `Einpy.Fn.C141_commutator`, `Einpy.Fn.C142_transport`, `Einpy.Fn.C142_killing`, `Einpy.Fn.C142_cyclic`, `Einpy.C143_rounding`, `Einpy.C143_rounding_order4`, `Einpy.C143_rk4`, `Einpy.Fn.C144_path_independent`, `Einpy.Fn.C145_flat_iff`, `Einpy.Fn.C145_transport`, `Einpy.Fn.C145_geodesics`, `Einpy.Fn.C146_conformally_flat_iff`, `Einpy.Fn.C147_schur_ricci`, `Einpy.Fn.C147_schur_riemann`, `Einpy.Fn.C148_cotton_of_conformally_flat`, `Einpy.Fn.C148_conformally_flat_iff`, `Einpy.Fn.C149_constant_curvature_iff`, `Einpy.C150_history`, `Einpy.C150_lambdify_args`, `Einpy.C150_lambdify_errors`, `Einpy.C150_simplify_effect`, `Einpy.C150_getitem`, `Einpy.C150_variables_go_stale`, `Einpy.Misc.C151_save`, `Einpy.Misc.C151_extension_unique`, `Einpy.Fn.C152_birkhoff`

## propext, Quot.sound: 3 theorems

`Einpy.C11_tolist_components`, `Einpy.C11_simplify_expr`, `Einpy.Predef.C66_order`
