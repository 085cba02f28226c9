# Axioms used by each claimed theorem

Output of `#print axioms` for every theorem named in `MANIFEST.json`, grouped by result.
All other helper results they use are covered by the same check.

## propext, Classical.choice, Quot.sound (474 theorems)

`Props.C01_rotate_unit`, `Props.C02_rotate_flow`, `Props.C03_rotate_compose`, `Props.C03_rotate_inverse`, `Props.C04_rotate_finite_partial`, `Props.C04_zero_field_nan`, `Props.C04_negation`, `Props.C05_new_xyz`, `Props.C05_short_panics`, `Props.C05_long`, `Props.C06_angles`, `Props.C06_coordinates`, `Props.C07_angles_roundtrip_partial`, `Props.C07_x_zero_flips`, `Props.C07_pole_nan`, `Props.C07_negation`, `Props.C08_gram_schmidt`, `Props.C08_parallel_nan`, `Props.C09_rot_perp_turn`, `Props.C09_rot_perp_angle`, `Props.C10_eq_iff`, `Props.C10_eq_refl`, `Props.C10_eq_symm`, `Props.C10_not_transitive`, `Props.C10_nan_not_refl`, `Props.C11_new_wf`, `Props.C11_new_wf'`, `Props.C11_new_unit`, `Props.C11_degenerate_nan`, `Props.C12_couplings_fields`, `Props.C13_neighbour_overlap`, `Props.C13_overlap_law`, `Props.C13_beta_zero_nan`, `Props.C14_mean_overlap`, `Props.C14_mean_bond_energy`, `Props.C15_solve_beta`, `Props.C15_diverges_at_minus_one`, `Props.C16_total_energy2`, `Props.C16_empty_panics`, `Props.C17_total_energies_agree`, `Props.C17_oversized_subsystem`, `Props.C18_mc_total_energy`, `Props.C19_one_site_nan`, `Props.C19_system_energy_partial`, `Props.C19_negation`, `Props.C20_mc_system_energy`, `Props.C20_full_subsystem`, `Props.C20_bad_size_panics`, `Props.C21_magnetisation`, `Props.C21_magnetisation_bound`, `Props.C21_oversized_panics`, `Props.C22_updates_unit`, `Props.C22_strong_field`, `Props.C22_unit_or_nonfinite`, `Props.C23_energy_conserved`, `Props.C24_reversible`, `Props.C25_update_total`, `Props.C25_time`, `Props.C26_light_cone`, `Props.C27_odd_last_frozen`, `Props.C27_local_field_partial`, `Props.C27_negation`, `Props.C28_gradient`, `Props.C28_integrator_field`, `Props.C29_consistent`, `Props.C30_uncoupled`, `Props.C30_precess_is_flow`, `Props.C31_no_static_field`, `Props.C31_drive_stays`, `Props.C32_period`, `Props.C32_values`, `Props.C32_derivative`, `Props.C33_order_independent`, `Props.C34_unit`, `Props.C35_energy_difference`, `Props.C36_acceptance_probability`, `Props.C36_detailed_balance`, `Props.C37_uniform`, `Props.C37_proposal`, `Props.C37_area_preserving`, `Props.C37_onto`, `Props.C38_maglab_energy_partial`, `Props.C38_actual`, `Props.C38_negation`, `Props.C39_rot_energy_partial`, `Props.C39_actual`, `Props.C39_negation`, `Props.C40_magnus_energy_partial`, `Props.C40_outside`, `Props.C40_negation`, `Props.C41_one_function`, `Props.C41_antisymmetric`, `Props.C42_log_row`, `Props.C42_log_panics`, `Props.C43_even`, `Props.C43_odd`, `Props.C44_unit`, `Props.C44_strong_field`, `Props.C44_unit_or_nonfinite`, `Props.C44_negative_gamma_panics`, `Props.C45_damping`, `Props.C46_energy_conserved`, `Props.C46_logged_energy`, `Props.C47_open`, `Props.C48_metropolis_partial`, `Props.C48_no_static_field_partial`, `Props.C48_open_partial`, `Props.C48_negation_open`, `Props.C48_negation`, `Props.C49_search`, `Props.C49_find_beta2`, `Props.C49_find_beta_maglab`, `Props.C49_find_beta_rot`, `Props.C49_find_beta`, `Props.C49_panic_passed_on`, `Props.C50_accurate`, `Props.C51_split`, `Props.C51_release`, `Props.C52_order`, `Props.C52_mean`, `Props.C52_binary64_order`, `Props.C52_no_runs`, `Props.C52_waits`, `Props.C53_rows_can_be_lost`, `Props.C54_total`, `Props.C54_mean`, `Props.C54_order`, `Props.C55_panics`, `Props.C55_mean`, `Props.C56_run_langevin`, `Props.C56_run_ext`, `Props.C56_run_sim`, `Props.C56_never_ends`, `Props.C57_negation_binary64`, `Props.C57_run_langevin`, `Props.C57_run_ext`, `Props.C57_rows`, `Props.C57_strob_partial`, `Props.C57_floor`, `Props.C57_short_period_panics`, `Props.C57_negation_relaxation`, `Props.C57_negation_ratio`, `Props.C58_partial`, `Props.C58_monte_carlo_overwrites`, `Props.C58_tau_reuses`, `Props.C60_beta_early_ignored`, `Props.C60_override_saved`, `Props.C60_override_persists`, `Props.C61_at_most_once`, `Props.C61_exactly_once`, `Props.C61_missed`, `Props.C61_never_ends`, `Props.C62_accepts`, `Props.C62_readme`, `Props.C62_roundtrip`, `Props.C62_fields`, `Props.C62_missing`, `Props.C63_rotate`, `Props.C63_history`, `Props.C63_updates`, `Props.C63_underflow`, `Props.C63_overflow`, `Props.C64_neighbours`, `Props.C64_spreads`, `Props.C64_all_lost`, `Props.C64_binary64`, `Props.C65_samples`, `Props.C65_mean`, `Props.C65_short_period`, `Props.C65_nothing_received`, `Props.C66_resolved`, `Props.C66_run`, `Props.C66_exact`, `Props.C67_balanced_partial`, `Props.C67_negation_magnus`, `Props.C67_negation_mag_full`, `Props.C68_boundary_partial`, `Props.C68_noise_contribution`, `Props.C68_negation`, `Props.C69_row`, `Props.C70_noisy`, `Props.C70_find_beta2`, `Props.C71_estim_e2`, `Props.C71_estim_e`, `Props.C71_estim_e_maglab`, `Props.C71_estim_e_rot`, `Props.C71_get_obs`, `Props.C71_bounded`, `Props.C72_shell`, `Props.C72_shell_kept`, `Props.C72_nan_accepted`, `Props.C72_reachable`, `Props.C73_samples`, `Props.C73_exact`, `Props.C74_log_ext`, `Props.C74_edges_missing`, `Props.C74_panics`, `Props.C75_response`, `Props.C76_profile`, `Props.C77_run_mc`, `Props.C77_run_mc_magnus`, `Props.C77_run_mc_profile`, `Props.C78_rows`, `Props.C78_negation`, `Props.C78_exact_partial`, `Props.C79_rows`, `Props.C80_step`, `Props.C80_run`, `Props.C80_bound`, `Props.C81_period`, `Props.C81_recurrence`, `Props.C82_rotation`, `Props.C82_about_z`, `Props.C82_isotropic`, `Props.C83_translation`, `Props.C83_mirror`, `Props.C84_stationary`, `Props.C84_converse`, `Props.C85_local`, `Props.C85_global`, `Props.C85_exists`, `Props.C85_unique`, `Props.C85_converges`, `Props.C86_generic`, `Props.C86_volume`, `Props.C86_liouville`, `Props.C87_energy`, `Props.C87_sharp`, `Props.C88_stationary`, `Props.C88_maglab`, `Props.C88_rot`, `Props.C88_langevin`, `Props.C88_total`, `Props.C89_converges`, `Props.C89_rot`, `Props.C89_maglab`, `Props.C89_langevin`, `Props.C89_start`, `Props.C90_law`, `Props.C90_partition`, `Props.C90_mean_spin`, `Props.C90_correlation`, `Props.C90_degenerate_null`, `Props.C92_mean_square`, `Props.C92_maglab`, `Props.C92_rot`, `Props.C92_probability`, `Props.C93_decreasing`, `Props.C93_hot`, `Props.C93_cold`, `Props.C93_temperature`, `Props.C93_search`, `Props.C94_code`, `Props.C94_find_beta2`, `Props.C94_find_beta`, `Props.C94_find_beta_maglab`, `Props.C94_find_beta_rot`, `Props.C94_converges`, `Props.C95_updates`, `Props.C95_dominant`, `Props.C95_motion`, `Props.C96_generator`, `Props.C96_stationary`, `Props.C96_regular`, `Props.C96_thermostat`, `Props.C97_regular`, `Props.C97_regular_short`, `Props.C97_balance`, `Props.C97_temperature`, `Props.C97_thermometer`, `Props.C98_first_law`, `Props.C98_heat`, `Props.C99_period`, `Props.C99_recurrence`, `Props.C99_phase`, `Props.C99_average`, `Props.C99_trajectory`, `Props.C99_warm`, `Props.C99_thermalised`, `Props.C100_unnormalised`, `Props.C100_fields_partial`, `Props.C100_differ`, `Props.C102_thermal`, `Props.C102_direction`, `Props.C102_energy`, `Props.C102_average`, `Props.C103_updates`, `Props.C103_langevin_updates`, `Props.C103_energies`, `Props.C103_magnus_energies`, `Props.C103_magnetisation`, `Props.C103_boundary_term`, `Props.C103_log`, `Props.C103_log_ext`, `Props.C103_metropolis`, `Props.C103_samplers`, `Props.C103_langevin_reported`, `Props.C103_hamiltonian`, `Props.C104_spins`, `Props.C104_binary64`, `Props.C104_exact`, `Props.C105_mc_energies`, `Props.C105_total_energies`, `Props.C105_energies_agree`, `Props.C105_system_energy`, `Props.C105_magnetisation`, `Props.C105_log`, `Props.C105_run_log`, `Props.C106_update`, `Props.C106_always`, `Props.C106_fraction`, `Props.C106_mean`, `Props.C107_negation`, `Props.C107_magnus`, `Props.C107_mag_full`, `Props.C107_unique`, `Props.C107_maglab`, `Props.C107_rot`, `Props.C107_langevin`, `Props.C108_rows`, `Props.C108_averages_readable`, `Props.C108_header`, `Props.C108_message`, `Props.C108_average`, `Props.C108_two_point`, `Props.C108_cut`, `Props.C108_cut_keeps`, `Props.C108_cut_wrong`, `Props.C108_words_dropped`, `Props.C108_decimal`, `Props.C108_printable`, `Props.C109_continuity`, `Props.C109_torque`, `Props.C109_conserved`, `Props.C109_conserved_isotropic`, `Props.C109_program`, `Props.C109_negation`, `Props.C110_symmetry`, `Props.C110_odd`, `Props.C110_spins`, `Props.C110_isotropic`, `Props.C110_signs`, `Props.C110_antiferromagnet`, `Props.C110_sampled`, `Props.C110_field`, `Props.C110_uniform_field`, `Props.C111_law`, `Props.C111_variance`, `Props.C111_energy`, `Props.C111_langevin`, `Props.C111_default`, `Props.C112_documented`, `Props.C112_elliptic`, `Props.C112_ellipse`, `Props.C112_static_twice`, `Props.C113_emptied`, `Props.C113_kept`, `Props.C113_results`, `Props.C113_help`, `Props.C113_help_wrong`, `Props.C115_correlations`, `Props.C115_energy`, `Props.C115_long`, `Props.C115_solve_beta`, `Props.C115_new`, `Props.C115_sampled`, `Props.C116_solve_beta_partial`, `Props.C116_ring_partial`, `Props.C116_above_partial`, `Props.C116_bound_partial`, `Props.C116_inaccurate`, `Props.C117_exact`, `Props.C117_program`, `Props.C117_energy`, `Props.C117_rot`, `Props.C117_thermal`, `Props.C117_periods`, `Props.C117_static`, `Props.C117_undriven`, `Props.C117_fit`, `Props.C118_code`, `Props.C118_fit`, `Props.C118_maglab`, `Props.C118_rot_partial`, `Props.C118_effective_partial`, `Props.C118_target`, `Props.C118_width`, `Props.C118_negation_effective`, `Props.C118_negation_rot`, `Props.C118_fit_energy`, `Props.C119_ends`, `Props.C119_shell`, `Props.C119_never`, `Props.C119_thermal`, `Props.C119_dynamic`, `Props.C119_mc`, `Props.C119_ends_program`, `Props.C119_negation`, `Props.C119_means_partial`, `Props.C119_never_four`, `Props.C120_effective`, `Props.C120_fast`, `Props.C120_program`, `Props.C120_magnus_diverges`, `Props.C120_comment_sign`, `Props.C120_comment_half`, `Props.C120_mag_full`, `Props.C120_mean`, `Props.C120_maglab_partial`, `Props.C120_maglab_undriven`, `Props.C120_magnus_negation`, `Props.C120_sign_negation`, `Props.C120_maglab_negation`, `Props.C121_heats`, `Props.C121_slow`, `Props.C121_rises`, `Props.C121_work`, `Props.C121_heating`, `Props.C121_strict`, `Props.C121_fluctuations`, `Props.C121_sampled`, `Props.C122_spread`, `Props.C122_nearby`, `Props.C122_distant`, `Props.C123_waiting`, `Props.C123_response`, `Props.C123_run`, `Props.C123_static`, `Props.C123_decay`, `Props.C123_reciprocal`, `Props.C124_correlations`, `Props.C124_distance`, `Props.C124_fluctuations`, `Props.C124_energy`, `Props.C124_typical`, `Props.C124_sampled`, `Props.C125_bath`, `Props.C125_motion`, `Props.C126_forgets`, `Props.C126_autocorrelation`, `Props.C126_start`, `Props.C126_uniform`, `Props.C126_new`, `Props.C126_updates`, `Props.C127_mean_square`, `Props.C127_samples`, `Props.C127_energy`, `Props.C128_search`, `Props.C129_heat_capacity`, `Props.C129_derivative`, `Props.C129_slope`, `Props.C129_search`, `Props.C130_lab_update`, `Props.C130_rot_update`, `Props.C130_langevin_update`, `Props.C130_lab_updates`, `Props.C130_lab_samples`, `Props.C130_lab_search`, `Props.C130_rot_updates`, `Props.C130_rot_samples`, `Props.C130_rot_search`, `Props.C130_langevin_updates`, `Props.C131_energy`, `Props.C131_local`, `Props.C131_search`, `Props.C132_typical`, `Props.C132_normal`, `Props.C132_variance`, `Props.C132_search`, `Props.C133_run_mc`, `Props.C133_columns`, `Props.C133_profile`, `Props.C134_average`, `Props.C134_runs`

## propext, Quot.sound (31 theorems)

`Props.C11_new_panics`, `Props.C25_update_frame`, `Props.C25_short_panics`, `Props.C34_total`, `Props.C44_no_noise_panics`, `Props.C51_zero`, `Props.C51_debug_overflow`, `Props.C53_prefix`, `Props.C54_capacity`, `Props.C58_ext_reuses`, `Props.C59_order`, `Props.C59_default`, `Props.C60_tau_partial`, `Props.C60_beta_partial`, `Props.C60_ext_ignores_beta`, `Props.C60_tau_replaced`, `Props.C60_langevin_saves_size`, `Props.C60_histogram_saves_drive`, `Props.C62_numbers`, `Props.C62_drive_names`, `Props.C62_documented_drive_key_ignored`, `Props.C91_rows`, `Props.C91_files`, `Props.C100_even_omega`, `Props.C100_original`, `Props.C101_neighbours`, `Props.C104_energies`, `Props.C113_files`, `Props.C113_evt_lost`, `Props.C114_runs`, `Props.C114_estimates`

## propext (17 theorems)

`Props.C34_one_spin`, `Props.C34_frame`, `Props.C51_truncated`, `Props.C53_complete`, `Props.C53_torn_line`, `Props.C54_first_line_ignored`, `Props.C62_unknown_keys`, `Props.C62_valid`, `Props.C62_invalid`, `Props.C62_not_text_overwritten`, `Props.C62_other_name_overwrites`, `Props.C64_rotate`, `Props.C100_rotate`, `Props.C114_monte_carlo`, `Props.C114_histograms`, `Props.C114_langevin`, `Props.C114_method`
