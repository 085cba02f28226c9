{
 "claims": [
  {
   "property": "C01",
   "status": "proved",
   "theorems": [
    "Verif.Props.C01_rotate_unit"
   ],
   "note": "Exact real arithmetic; any non-zero spin and field, any dt."
  },
  {
   "property": "C02",
   "status": "proved",
   "theorems": [
    "Verif.Props.C02_rotate_flow"
   ],
   "note": "Derivative at every time, initial value and conserved projection; exact real arithmetic."
  },
  {
   "property": "C03",
   "status": "proved",
   "theorems": [
    "Verif.Props.C03_rotate_compose",
    "Verif.Props.C03_rotate_inverse"
   ],
   "note": "Exact real arithmetic, unit spin and non-zero field."
  },
  {
   "property": "C04",
   "status": "partial",
   "theorems": [
    "Verif.Props.C04_rotate_finite_partial",
    "Verif.Props.C04_zero_field_nan",
    "Verif.Props.C04_negation"
   ],
   "note": "The English claim is false: C04_negation gives a zero-field witness where every component is NaN (scalar type XF). C04_rotate_finite_partial covers every non-zero field; rounding, overflow and underflow are not exhibited by XF."
  },
  {
   "property": "C05",
   "status": "proved",
   "theorems": [
    "Verif.Props.C05_new_xyz",
    "Verif.Props.C05_short_panics",
    "Verif.Props.C05_long"
   ],
   "note": "Includes the panic for short slices and the behaviour on long slices."
  },
  {
   "property": "C06",
   "status": "proved",
   "theorems": [
    "Verif.Props.C06_angles",
    "Verif.Props.C06_coordinates"
   ],
   "note": "Exact real arithmetic."
  },
  {
   "property": "C07",
   "status": "partial",
   "theorems": [
    "Verif.Props.C07_angles_roundtrip_partial",
    "Verif.Props.C07_x_zero_flips",
    "Verif.Props.C07_pole_nan",
    "Verif.Props.C07_negation"
   ],
   "note": "The English claim is false on x = 0 (C07_negation, C07_x_zero_flips, C07_pole_nan). C07_angles_roundtrip_partial covers x ≠ 0."
  },
  {
   "property": "C08",
   "status": "proved",
   "theorems": [
    "Verif.Props.C08_gram_schmidt",
    "Verif.Props.C08_parallel_nan"
   ],
   "note": "Exact real arithmetic; parallel arguments give NaN (XF)."
  },
  {
   "property": "C09",
   "status": "proved",
   "theorems": [
    "Verif.Props.C09_rot_perp_turn",
    "Verif.Props.C09_rot_perp_angle"
   ],
   "note": "Exact real arithmetic."
  },
  {
   "property": "C10",
   "status": "proved",
   "theorems": [
    "Verif.Props.C10_eq_iff",
    "Verif.Props.C10_eq_refl",
    "Verif.Props.C10_eq_symm",
    "Verif.Props.C10_not_transitive",
    "Verif.Props.C10_nan_not_refl"
   ],
   "note": "Tolerance comparison; reflexive and symmetric on finite spins, not transitive, NaN not equal to itself."
  },
  {
   "property": "C11",
   "status": "proved",
   "theorems": [
    "Verif.Props.C11_new_wf",
    "Verif.Props.C11_new_wf'",
    "Verif.Props.C11_new_panics",
    "Verif.Props.C11_new_unit",
    "Verif.Props.C11_degenerate_nan"
   ],
   "note": "Totality, sizes and error branches for any scalar type; unit length in exact real arithmetic when no sampled direction is degenerate; C11_degenerate_nan shows the degenerate case giving NaN spins."
  },
  {
   "property": "C12",
   "status": "proved",
   "theorems": [
    "Verif.Props.C12_couplings_fields"
   ],
   "note": "Exact real arithmetic; draws z(3i), z(3i+1), z(3i+2) belong to site i only."
  },
  {
   "property": "C13",
   "status": "proved",
   "theorems": [
    "Verif.Props.C13_neighbour_overlap",
    "Verif.Props.C13_overlap_law",
    "Verif.Props.C13_beta_zero_nan"
   ],
   "note": "Non-degenerate draws (hypothesis NonDegenerate, a condition of measure zero on each draw); the law is stated as Lebesgue measure over the draw of the real generator; C13_beta_zero_nan: beta = 0 gives an all-NaN chain."
  },
  {
   "property": "C14",
   "status": "proved",
   "theorems": [
    "Verif.Props.C14_mean_overlap",
    "Verif.Props.C14_mean_bond_energy"
   ],
   "note": "Integral over the draw of the generator, other draws fixed."
  },
  {
   "property": "C15",
   "status": "proved",
   "theorems": [
    "Verif.Props.C15_solve_beta",
    "Verif.Props.C15_diverges_at_minus_one"
   ],
   "note": "Exact real arithmetic; C15_diverges_at_minus_one shows the bound sharp."
  },
  {
   "property": "C16",
   "status": "proved",
   "theorems": [
    "Verif.Props.C16_total_energy2",
    "Verif.Props.C16_empty_panics"
   ],
   "note": "Against the independent Hamiltonian of Verif/Spec/Chain.lean; empty chain panics."
  },
  {
   "property": "C17",
   "status": "proved",
   "theorems": [
    "Verif.Props.C17_total_energies_agree",
    "Verif.Props.C17_oversized_subsystem"
   ],
   "note": "Needs ssize ≤ hsize; otherwise total_energy panics (C17_oversized_subsystem)."
  },
  {
   "property": "C18",
   "status": "proved",
   "theorems": [
    "Verif.Props.C18_mc_total_energy"
   ],
   "note": "Any time and drive."
  },
  {
   "property": "C19",
   "status": "partial",
   "theorems": [
    "Verif.Props.C19_one_site_nan",
    "Verif.Props.C19_system_energy_partial",
    "Verif.Props.C19_negation"
   ],
   "note": "The English claim is false (C19_negation): the field term of the last subsystem spin is missing. C19_system_energy_partial states exactly what is computed for two or more sites; C19_one_site_nan: for one site the result is NaN."
  },
  {
   "property": "C20",
   "status": "proved",
   "theorems": [
    "Verif.Props.C20_mc_system_energy",
    "Verif.Props.C20_full_subsystem",
    "Verif.Props.C20_bad_size_panics"
   ],
   "note": "Includes the panicking sizes."
  },
  {
   "property": "C21",
   "status": "proved",
   "theorems": [
    "Verif.Props.C21_magnetisation",
    "Verif.Props.C21_magnetisation_bound",
    "Verif.Props.C21_oversized_panics"
   ],
   "note": "Includes the bound by the triangle inequality and the panic."
  },
  {
   "property": "C22",
   "status": "proved",
   "theorems": [
    "Verif.Props.C22_updates_unit",
    "Verif.Props.C22_strong_field",
    "Verif.Props.C22_unit_or_nonfinite"
   ],
   "note": "Exact real arithmetic under the regularity hypothesis (no vanishing local field met on the way, stated on the specification); C22_strong_field discharges it from the chain data alone; C22_unit_or_nonfinite needs no hypothesis, in arithmetic with NaN and infinities."
  },
  {
   "property": "C23",
   "status": "proved",
   "theorems": [
    "Verif.Props.C23_energy_conserved"
   ],
   "note": "Exact real arithmetic, even length, regular runs."
  },
  {
   "property": "C24",
   "status": "proved",
   "theorems": [
    "Verif.Props.C24_reversible"
   ],
   "note": "Exact real arithmetic, n steps forward and n steps back, any drive, any length."
  },
  {
   "property": "C25",
   "status": "proved",
   "theorems": [
    "Verif.Props.C25_update_frame",
    "Verif.Props.C25_update_total",
    "Verif.Props.C25_short_panics",
    "Verif.Props.C25_time"
   ],
   "note": "Frame and totality for any scalar type; time exactly t + n dt in exact real arithmetic; chains shorter than two spins always panic."
  },
  {
   "property": "C26",
   "status": "proved",
   "theorems": [
    "Verif.Props.C26_light_cone"
   ],
   "note": "Any scalar type, so in particular independent of rounding."
  },
  {
   "property": "C27",
   "status": "partial",
   "theorems": [
    "Verif.Props.C27_odd_last_frozen",
    "Verif.Props.C27_local_field_partial",
    "Verif.Props.C27_negation"
   ],
   "note": "False for odd length (C27_negation, C27_odd_last_frozen); C27_local_field_partial covers even length."
  },
  {
   "property": "C28",
   "status": "proved",
   "theorems": [
    "Verif.Props.C28_gradient",
    "Verif.Props.C28_integrator_field"
   ],
   "note": "Every length of at least two; the field is the one of C27."
  },
  {
   "property": "C29",
   "status": "proved",
   "theorems": [
    "Verif.Props.C29_consistent"
   ],
   "note": "Even length; no local field may vanish at the initial configuration (the code gives NaN there)."
  },
  {
   "property": "C30",
   "status": "proved",
   "theorems": [
    "Verif.Props.C30_uncoupled",
    "Verif.Props.C30_precess_is_flow"
   ],
   "note": "Sites that the integrator moves (all for even length)."
  },
  {
   "property": "C31",
   "status": "proved",
   "theorems": [
    "Verif.Props.C31_no_static_field",
    "Verif.Props.C31_drive_stays"
   ],
   "note": "All chains including panicking ones; C31_drive_stays gives the step explicitly."
  },
  {
   "property": "C32",
   "status": "proved",
   "theorems": [
    "Verif.Props.C32_period",
    "Verif.Props.C32_values",
    "Verif.Props.C32_derivative"
   ],
   "note": "Includes the panic of staticfield with fewer than three components."
  },
  {
   "property": "C33",
   "status": "proved",
   "theorems": [
    "Verif.Props.C33_order_independent"
   ],
   "note": "Any scalar type, any visiting order, including panics."
  },
  {
   "property": "C34",
   "status": "proved",
   "theorems": [
    "Verif.Props.C34_one_spin",
    "Verif.Props.C34_frame",
    "Verif.Props.C34_total",
    "Verif.Props.C34_unit"
   ],
   "note": "Frame and totality for any scalar type; unit length in exact real arithmetic."
  },
  {
   "property": "C35",
   "status": "proved",
   "theorems": [
    "Verif.Props.C35_energy_difference"
   ],
   "note": "Stated on the observable outcome: the update returns the Metropolis decision for hsize times the difference of the two returned energies."
  },
  {
   "property": "C36",
   "status": "proved",
   "theorems": [
    "Verif.Props.C36_acceptance_probability",
    "Verif.Props.C36_detailed_balance"
   ],
   "note": "Lebesgue measure of the acceptance draws; detailed balance with the Boltzmann weight of hsize*mc_total_energy."
  },
  {
   "property": "C37",
   "status": "proved",
   "theorems": [
    "Verif.Props.C37_uniform",
    "Verif.Props.C37_proposal",
    "Verif.Props.C37_area_preserving",
    "Verif.Props.C37_onto"
   ],
   "note": "Unit length, explicit form, constant area element 4 pi, surjectivity (the south pole excepted, a null set), and C37_uniform: the distribution of the proposed direction is invariant under all rotations and reflections."
  },
  {
   "property": "C38",
   "status": "partial",
   "theorems": [
    "Verif.Props.C38_maglab_energy_partial",
    "Verif.Props.C38_actual",
    "Verif.Props.C38_negation"
   ],
   "note": "False in general (C38_negation); partial theorem for couplings with equal x and y components; C38_actual states what both functions compute."
  },
  {
   "property": "C39",
   "status": "partial",
   "theorems": [
    "Verif.Props.C39_rot_energy_partial",
    "Verif.Props.C39_actual",
    "Verif.Props.C39_negation"
   ],
   "note": "False in general (C39_negation); partial theorem for couplings with equal x and y components; C39_actual states what both functions compute."
  },
  {
   "property": "C40",
   "status": "partial",
   "theorems": [
    "Verif.Props.C40_magnus_energy_partial",
    "Verif.Props.C40_outside",
    "Verif.Props.C40_negation"
   ],
   "note": "False (C40_negation): the S^z term is missing. Partial theorem: the decision is by the Magnus energy without the S^z term, for sites of the subsystem; C40_outside covers the other sites."
  },
  {
   "property": "C41",
   "status": "proved",
   "theorems": [
    "Verif.Props.C41_one_function",
    "Verif.Props.C41_antisymmetric"
   ],
   "note": "hsize at least 3."
  },
  {
   "property": "C42",
   "status": "proved",
   "theorems": [
    "Verif.Props.C42_log_row",
    "Verif.Props.C42_log_panics"
   ],
   "note": "Exact real arithmetic; C42_log_panics covers the other subsystem sizes."
  },
  {
   "property": "C43",
   "status": "proved",
   "theorems": [
    "Verif.Props.C43_even",
    "Verif.Props.C43_odd"
   ],
   "note": "rustfft is represented by its contract (the discrete Fourier sum); even and odd lengths."
  },
  {
   "property": "C44",
   "status": "proved",
   "theorems": [
    "Verif.Props.C44_unit",
    "Verif.Props.C44_strong_field",
    "Verif.Props.C44_unit_or_nonfinite",
    "Verif.Props.C44_no_noise_panics",
    "Verif.Props.C44_negative_gamma_panics"
   ],
   "note": "Any noise history. C44_strong_field: a checkable condition on fields, couplings and noise amplitude excludes vanishing fields; C44_unit_or_nonfinite: no hypothesis on fields, but components may be NaN or infinite; C44_no_noise_panics: the error branch."
  },
  {
   "property": "C45",
   "status": "proved",
   "theorems": [
    "Verif.Props.C45_damping"
   ],
   "note": "Derivative of the energy of the edge spin in the (frozen) local field at the start of the step."
  },
  {
   "property": "C46",
   "status": "proved",
   "theorems": [
    "Verif.Props.C46_energy_conserved",
    "Verif.Props.C46_logged_energy"
   ],
   "note": "Exact real arithmetic, even chains, time-independent drive; C46_logged_energy transfers it to the energy the program logs when no field acts on the last spin."
  },
  {
   "property": "C47",
   "status": "proved",
   "theorems": [
    "Verif.Props.C47_open"
   ],
   "note": "Any scalar type, any noise history, including panics."
  },
  {
   "property": "C48",
   "status": "partial",
   "theorems": [
    "Verif.Props.C48_metropolis_partial",
    "Verif.Props.C48_no_static_field_partial",
    "Verif.Props.C48_open_partial",
    "Verif.Props.C48_negation_open",
    "Verif.Props.C48_negation"
   ],
   "note": "False: the static field is ignored (C48_negation) and the end spins are coupled although the dynamics is that of an open chain (C48_negation_open). Partial theorems: the decision is that of the periodic ring without static field; it is the right one if there is neither a static field nor a closing coupling (C48_open_partial)."
  },
  {
   "property": "C49",
   "status": "proved",
   "theorems": [
    "Verif.Props.C49_search",
    "Verif.Props.C49_find_beta2",
    "Verif.Props.C49_find_beta_maglab",
    "Verif.Props.C49_find_beta_rot",
    "Verif.Props.C49_find_beta",
    "Verif.Props.C49_panic_passed_on"
   ],
   "note": "Any estimates including NaN and infinities (exact reals with IEEE exceptional values); linked to every search function for all valid configurations and random numbers. Panic branch covered."
  },
  {
   "property": "C50",
   "status": "proved",
   "theorems": [
    "Verif.Props.C50_accurate"
   ],
   "note": "Exact real arithmetic."
  },
  {
   "property": "C51",
   "status": "proved",
   "theorems": [
    "Verif.Props.C51_split",
    "Verif.Props.C51_zero",
    "Verif.Props.C51_debug_overflow",
    "Verif.Props.C51_truncated",
    "Verif.Props.C51_release"
   ],
   "note": "mc_points < 2^31, or < 2^32 in release builds; C51_release (any number of points, modulo 2^32), C51_debug_overflow and C51_truncated show what happens beyond, C51_zero the panics."
  },
  {
   "property": "C52",
   "status": "proved",
   "theorems": [
    "Verif.Props.C52_order",
    "Verif.Props.C52_mean",
    "Verif.Props.C52_binary64_order",
    "Verif.Props.C52_no_runs",
    "Verif.Props.C52_waits"
   ],
   "note": "Exact real arithmetic. C52_binary64_order: in binary64 the order of arrival can change the written mean; C52_no_runs: NaN without runs; C52_waits: a missing message blocks the writer."
  },
  {
   "property": "C53",
   "status": "proved",
   "theorems": [
    "Verif.Props.C53_prefix",
    "Verif.Props.C53_complete",
    "Verif.Props.C53_rows_can_be_lost",
    "Verif.Props.C53_torn_line"
   ],
   "note": "All schedules of workers and writer and all exit points. C53_rows_can_be_lost and C53_torn_line: rows may be missing or torn at exit, since nothing waits for the writer."
  },
  {
   "property": "C54",
   "status": "proved",
   "theorems": [
    "Verif.Props.C54_total",
    "Verif.Props.C54_capacity",
    "Verif.Props.C54_first_line_ignored",
    "Verif.Props.C54_mean",
    "Verif.Props.C54_order"
   ],
   "note": "Totality, capacity panic and ignored first line for any scalar type; means and order independence in exact real arithmetic."
  },
  {
   "property": "C55",
   "status": "proved",
   "theorems": [
    "Verif.Props.C55_panics",
    "Verif.Props.C55_mean"
   ],
   "note": "Panic branches for any scalar type; means in exact real arithmetic."
  },
  {
   "property": "C56",
   "status": "proved",
   "theorems": [
    "Verif.Props.C56_run_langevin",
    "Verif.Props.C56_run_ext",
    "Verif.Props.C56_run_sim",
    "Verif.Props.C56_never_ends"
   ],
   "note": "Exact real arithmetic, every valid configuration and all random numbers; C56_never_ends covers dt <= 0."
  },
  {
   "property": "C57",
   "status": "partial",
   "theorems": [
    "Verif.Props.C57_negation_binary64",
    "Verif.Props.C57_run_langevin",
    "Verif.Props.C57_run_ext",
    "Verif.Props.C57_rows",
    "Verif.Props.C57_strob_partial",
    "Verif.Props.C57_floor",
    "Verif.Props.C57_short_period_panics",
    "Verif.Props.C57_negation_relaxation",
    "Verif.Props.C57_negation_ratio"
   ],
   "note": "Proved when the period is a whole number of steps. False otherwise: C57_negation_relaxation (every step of a relaxation period is logged), C57_negation_ratio (period not a whole number of steps), C57_negation_binary64 (binary64 with the default dt = 0.02, tau = 10)."
  },
  {
   "property": "C58",
   "status": "partial",
   "theorems": [
    "Verif.Props.C58_partial",
    "Verif.Props.C58_monte_carlo_overwrites",
    "Verif.Props.C58_ext_reuses",
    "Verif.Props.C58_tau_reuses"
   ],
   "note": "Any scalar type, all histories of simulations whose numbers stay below 2^32, from any directory with a readable (or no) config.toml. False for other modes: C58_monte_carlo_overwrites, C58_ext_reuses, C58_tau_reuses."
  },
  {
   "property": "C59",
   "status": "proved",
   "theorems": [
    "Verif.Props.C59_order",
    "Verif.Props.C59_default"
   ],
   "note": "Any scalar type, all combinations of options; the called functions may return anything."
  },
  {
   "property": "C60",
   "status": "partial",
   "theorems": [
    "Verif.Props.C60_tau_partial",
    "Verif.Props.C60_beta_partial",
    "Verif.Props.C60_beta_early_ignored",
    "Verif.Props.C60_ext_ignores_beta",
    "Verif.Props.C60_tau_replaced",
    "Verif.Props.C60_override_saved",
    "Verif.Props.C60_override_persists",
    "Verif.Props.C60_langevin_saves_size",
    "Verif.Props.C60_histogram_saves_drive"
   ],
   "note": "Any scalar type. C60_tau_partial and C60_beta_partial say which modes get the overrides; the full claim is false: C60_tau_replaced, C60_beta_early_ignored (with C60_ext_ignores_beta), C60_override_saved and C60_override_persists, C60_langevin_saves_size, C60_histogram_saves_drive."
  },
  {
   "property": "C61",
   "status": "proved",
   "theorems": [
    "Verif.Props.C61_at_most_once",
    "Verif.Props.C61_exactly_once",
    "Verif.Props.C61_missed",
    "Verif.Props.C61_missing",
    "Verif.Props.C61_never_ends"
   ],
   "note": "Exact real arithmetic; at most once for every configuration, exactly once for a whole number of steps per period; C61_missing: one run without the checkpoint is enough for its writer to wait for ever. C61_missed: with dt = 0.3 and tau = 1 a checkpoint is missed, and C61_never_ends: the writer waiting for it never finishes."
  },
  {
   "property": "C62",
   "status": "proved",
   "theorems": [
    "Verif.Props.C62_accepts",
    "Verif.Props.C62_numbers",
    "Verif.Props.C62_drive_names",
    "Verif.Props.C62_documented_drive_key_ignored",
    "Verif.Props.C62_readme",
    "Verif.Props.C62_roundtrip",
    "Verif.Props.C62_fields",
    "Verif.Props.C62_unknown_keys",
    "Verif.Props.C62_valid",
    "Verif.Props.C62_invalid",
    "Verif.Props.C62_missing",
    "Verif.Props.C62_not_text_overwritten",
    "Verif.Props.C62_other_name_overwrites"
   ],
   "note": "Any scalar type; TOML text is represented by its table of keys and values (the parser and printer of the toml crate are not modelled). C62_not_text_overwritten, C62_other_name_overwrites, C62_documented_drive_key_ignored and C62_readme: findings."
  },
  {
   "property": "C63",
   "status": "proved",
   "theorems": [
    "Verif.Props.C63_rotate",
    "Verif.Props.C63_history",
    "Verif.Props.C63_updates",
    "Verif.Props.C63_underflow",
    "Verif.Props.C63_overflow"
   ],
   "note": "IEEE binary64 instance (round to nearest even, overflow, gradual underflow), library assumed accurate (Accurate; goodLibm_accurate shows such libraries exist). C63_updates needs no assumption about later states. C63_underflow and C63_overflow: what happens outside the range."
  },
  {
   "property": "C64",
   "status": "proved",
   "theorems": [
    "Verif.Props.C64_rotate",
    "Verif.Props.C64_neighbours",
    "Verif.Props.C64_spreads",
    "Verif.Props.C64_all_lost",
    "Verif.Props.C64_binary64"
   ],
   "note": "Any scalar type with an absorbing value; NaN is one in the XF and binary64 instances (any mathematics library). Covers update and update_no_field. The last spin of an odd chain is not part of the ring the dynamics uses and is excluded."
  },
  {
   "property": "C65",
   "status": "proved",
   "theorems": [
    "Verif.Props.C65_samples",
    "Verif.Props.C65_mean",
    "Verif.Props.C65_short_period",
    "Verif.Props.C65_nothing_received"
   ],
   "note": "Exact real arithmetic; the samples are taken one step after the period starts. Short periods panic (division by zero steps) or yield no sample and a NaN mean."
  },
  {
   "property": "C66",
   "status": "proved",
   "theorems": [
    "Verif.Props.C66_resolved",
    "Verif.Props.C66_run",
    "Verif.Props.C66_exact"
   ],
   "note": "Exact real arithmetic."
  },
  {
   "property": "C67",
   "status": "partial",
   "theorems": [
    "Verif.Props.C67_balanced_partial",
    "Verif.Props.C67_negation_magnus",
    "Verif.Props.C67_negation_mag_full"
   ],
   "note": "Proved for three samplers, disproved for two (C67_negation_magnus, C67_negation_mag_full)."
  },
  {
   "property": "C68",
   "status": "partial",
   "theorems": [
    "Verif.Props.C68_boundary_partial",
    "Verif.Props.C68_noise_contribution",
    "Verif.Props.C68_negation"
   ],
   "note": "Holds without static field on the edge spins; false with it (C68_negation: boundary_term leaves the static field out). C68_noise_contribution derives the noise part to second order."
  },
  {
   "property": "C69",
   "status": "proved",
   "theorems": [
    "Verif.Props.C69_row"
   ],
   "note": "Exact real arithmetic."
  },
  {
   "property": "C70",
   "status": "proved",
   "theorems": [
    "Verif.Props.C70_noisy",
    "Verif.Props.C70_find_beta2"
   ],
   "note": "Exact real arithmetic; instantiated for find_beta2/find_betah."
  },
  {
   "property": "C71",
   "status": "proved",
   "theorems": [
    "Verif.Props.C71_estim_e2",
    "Verif.Props.C71_estim_e",
    "Verif.Props.C71_estim_e_maglab",
    "Verif.Props.C71_estim_e_rot",
    "Verif.Props.C71_get_obs",
    "Verif.Props.C71_bounded"
   ],
   "note": "Exact real arithmetic; any random numbers."
  },
  {
   "property": "C72",
   "status": "proved",
   "theorems": [
    "Verif.Props.C72_shell",
    "Verif.Props.C72_shell_kept",
    "Verif.Props.C72_nan_accepted",
    "Verif.Props.C72_reachable"
   ],
   "note": "Exact real arithmetic; partial correctness of the search (it may never end), reachability by C72_reachable; C72_nan_accepted: a chain with NaN energy is accepted."
  },
  {
   "property": "C73",
   "status": "proved",
   "theorems": [
    "Verif.Props.C73_samples",
    "Verif.Props.C73_exact"
   ],
   "note": "Exact real arithmetic; C73_samples gives the number of samples for any relaxation of a whole number of steps (relaxation adds samples)."
  },
  {
   "property": "C74",
   "status": "proved",
   "theorems": [
    "Verif.Props.C74_log_ext",
    "Verif.Props.C74_edges_missing",
    "Verif.Props.C74_panics"
   ],
   "note": "Exact real arithmetic."
  },
  {
   "property": "C75",
   "status": "proved",
   "theorems": [
    "Verif.Props.C75_response"
   ],
   "note": "Exact real arithmetic. The first row carries the time before the clock is reset."
  },
  {
   "property": "C76",
   "status": "proved",
   "theorems": [
    "Verif.Props.C76_profile"
   ],
   "note": "Exact real arithmetic."
  },
  {
   "property": "C77",
   "status": "proved",
   "theorems": [
    "Verif.Props.C77_run_mc",
    "Verif.Props.C77_run_mc_magnus",
    "Verif.Props.C77_run_mc_profile"
   ],
   "note": "Exact real arithmetic; C52_mean gives the interleaving independence of the profile."
  },
  {
   "property": "C78",
   "status": "partial",
   "theorems": [
    "Verif.Props.C78_rows",
    "Verif.Props.C78_negation",
    "Verif.Props.C78_exact_partial"
   ],
   "note": "Exact real arithmetic. True without relaxation time (C78_exact_partial), false with it (C78_negation); C78_rows gives the time in general."
  },
  {
   "property": "C79",
   "status": "proved",
   "theorems": [
    "Verif.Props.C79_rows"
   ],
   "note": "Exact real arithmetic."
  },
  {
   "property": "C80",
   "status": "proved",
   "theorems": [
    "Verif.Props.C80_step",
    "Verif.Props.C80_run",
    "Verif.Props.C80_bound"
   ],
   "note": "Exact real arithmetic, even length, ssize <= hsize, regular runs; C80_bound limits the absorbed energy per step."
  },
  {
   "property": "C81",
   "status": "proved",
   "theorems": [
    "Verif.Props.C81_period",
    "Verif.Props.C81_recurrence"
   ],
   "note": "Exact real arithmetic; all chains including panicking ones."
  },
  {
   "property": "C82",
   "status": "proved",
   "theorems": [
    "Verif.Props.C82_rotation",
    "Verif.Props.C82_about_z",
    "Verif.Props.C82_isotropic"
   ],
   "note": "Exact real arithmetic, regular runs; C82_about_z and C82_isotropic are the cases the program makes."
  },
  {
   "property": "C83",
   "status": "proved",
   "theorems": [
    "Verif.Props.C83_translation",
    "Verif.Props.C83_mirror"
   ],
   "note": "Any scalar type for translations; for the mirror image addition must be commutative, which holds for exact reals and for binary64 (b64_add_comm)."
  },
  {
   "property": "C84",
   "status": "proved",
   "theorems": [
    "Verif.Props.C84_stationary",
    "Verif.Props.C84_converse"
   ],
   "note": "Exact real arithmetic; vanishing local fields excluded (they give NaN, C04)."
  },
  {
   "property": "C85",
   "status": "proved",
   "theorems": [
    "Verif.Props.C85_local",
    "Verif.Props.C85_global",
    "Verif.Props.C85_exists",
    "Verif.Props.C85_unique",
    "Verif.Props.C85_converges"
   ],
   "note": "Exact real arithmetic, even length, regular runs. The exact motion exists for all times and is unique (C85_exists, C85_unique); C85_converges: all runs from given spins approach it as dt goes to zero."
  },
  {
   "property": "C86",
   "status": "proved",
   "theorems": [
    "Verif.Props.C86_generic",
    "Verif.Props.C86_volume",
    "Verif.Props.C86_liouville"
   ],
   "note": "Exact real arithmetic. C86_generic: almost all spins; C86_volume under the hypothesis that almost no spins meet a vanishing field, C86_liouville without it for non-zero couplings and at least four sites."
  },
  {
   "property": "C87",
   "status": "proved",
   "theorems": [
    "Verif.Props.C87_energy",
    "Verif.Props.C87_sharp"
   ],
   "note": "Exact real arithmetic; C87_sharp: the lower bound is attained."
  },
  {
   "property": "C88",
   "status": "proved",
   "theorems": [
    "Verif.Props.C88_stationary",
    "Verif.Props.C88_maglab",
    "Verif.Props.C88_rot",
    "Verif.Props.C88_langevin",
    "Verif.Props.C88_total"
   ],
   "note": "Exact real arithmetic; draws independent and uniform (the generator itself is not modelled). The magnus and mag_full samplers have no stationary weight in detailed balance (C67). C88_total: the averages are proper averages; C88_langevin: the Langevin-mode sampler with its own energy."
  },
  {
   "property": "C89",
   "status": "proved",
   "theorems": [
    "Verif.Props.C89_converges",
    "Verif.Props.C89_rot",
    "Verif.Props.C89_maglab",
    "Verif.Props.C89_langevin",
    "Verif.Props.C89_start"
   ],
   "note": "Exact real arithmetic; draws independent and uniform. C89_start: every chain with unit spins is covered; C89_langevin: the Langevin-mode sampler."
  },
  {
   "property": "C90",
   "status": "proved",
   "theorems": [
    "Verif.Props.C90_law",
    "Verif.Props.C90_partition",
    "Verif.Props.C90_mean_spin",
    "Verif.Props.C90_correlation",
    "Verif.Props.C90_degenerate_null"
   ],
   "note": "Exact real arithmetic; draws independent and uniform (the generator itself is not modelled). beta = 0 gives NaN (C13)."
  },
  {
   "property": "C91",
   "status": "proved",
   "theorems": [
    "Verif.Props.C91_rows",
    "Verif.Props.C91_files"
   ],
   "note": "Any scalar type; the results of searches and measurements are arbitrary (they are modelled in Obs)."
  },
  {
   "property": "C92",
   "status": "proved",
   "theorems": [
    "Verif.Props.C92_mean_square",
    "Verif.Props.C92_maglab",
    "Verif.Props.C92_rot",
    "Verif.Props.C92_probability"
   ],
   "note": "Exact real arithmetic; draws independent and uniform. The constant K grows exponentially with the length and the inverse temperature; it is the same for all observables, starting spins and numbers of updates. The laboratory- and rotating-frame samplers converge to the means for the energy they sample, which is not the one they report (C38, C39)."
  },
  {
   "property": "C93",
   "status": "proved",
   "theorems": [
    "Verif.Props.C93_decreasing",
    "Verif.Props.C93_hot",
    "Verif.Props.C93_cold",
    "Verif.Props.C93_temperature",
    "Verif.Props.C93_search"
   ],
   "note": "Exact real arithmetic. Sampling errors are the subject of C92."
  },
  {
   "property": "C94",
   "status": "proved",
   "theorems": [
    "Verif.Props.C94_code",
    "Verif.Props.C94_find_beta2",
    "Verif.Props.C94_find_beta",
    "Verif.Props.C94_find_beta_maglab",
    "Verif.Props.C94_find_beta_rot",
    "Verif.Props.C94_converges"
   ],
   "note": "Exact real arithmetic; draws independent and uniform. The code is the case n = 1000 (C94_code); K is not computed and grows exponentially with the length. With disorder (jvar or hvar not zero) every estimate draws fresh couplings, which is outside the statement."
  },
  {
   "property": "C95",
   "status": "proved",
   "theorems": [
    "Verif.Props.C95_updates",
    "Verif.Props.C95_dominant",
    "Verif.Props.C95_motion"
   ],
   "note": "Binary64 arithmetic as in C63; of the library only accuracy is assumed (correctly rounded square root, sine and cosine within eps, 2^-52 <= eps <= 2^-30). A worst-case bound: it grows exponentially with the length of the run and is empty once it reaches the size of the local fields."
  },
  {
   "property": "C96",
   "status": "proved",
   "theorems": [
    "Verif.Props.C96_generator",
    "Verif.Props.C96_stationary",
    "Verif.Props.C96_regular",
    "Verif.Props.C96_thermostat"
   ],
   "note": "Real arithmetic; the six numbers of an update are independent standard normal variables (the distribution of rand_distr::Normal is assumed). C96_generator holds for any spins for which the noise almost surely meets no vanishing field; C96_regular proves this for almost all spins. Observables are functions of the spin components with three continuous derivatives."
  },
  {
   "property": "C97",
   "status": "proved",
   "theorems": [
    "Verif.Props.C97_regular",
    "Verif.Props.C97_regular_short",
    "Verif.Props.C97_balance",
    "Verif.Props.C97_temperature",
    "Verif.Props.C97_thermometer"
   ],
   "note": "Real arithmetic, independent standard normal noise as in C96. C97_balance and C97_temperature hold from any unit spins from which the run almost surely meets no vanishing field; C97_regular and C97_regular_short prove that for almost all spins, for all on two or three sites. Convergence of the distribution itself to the Boltzmann distribution is not claimed."
  },
  {
   "property": "C98",
   "status": "proved",
   "theorems": [
    "Verif.Props.C98_first_law",
    "Verif.Props.C98_heat"
   ],
   "note": "Real arithmetic, independent standard normal noise; runs that almost surely meet no vanishing field (C97_regular). Energy is that of the open chain of 2*(L/2) moving sites with the field used in the update."
  },
  {
   "property": "C99",
   "status": "proved",
   "theorems": [
    "Verif.Props.C99_period",
    "Verif.Props.C99_recurrence",
    "Verif.Props.C99_phase",
    "Verif.Props.C99_average",
    "Verif.Props.C99_trajectory",
    "Verif.Props.C99_warm",
    "Verif.Props.C99_thermalised"
   ],
   "note": "Real arithmetic; the drive must repeat after a whole number of updates. The limits may depend on the trajectory: equality of time averages and ensemble averages (ergodicity) is not claimed. No rate of convergence."
  },
  {
   "property": "C100",
   "status": "partial",
   "theorems": [
    "Verif.Props.C100_rotate",
    "Verif.Props.C100_even_omega",
    "Verif.Props.C100_original",
    "Verif.Props.C100_unnormalised",
    "Verif.Props.C100_fields_partial",
    "Verif.Props.C100_differ"
   ],
   "note": "The claim fails for the optimised even fields, which ignore the drive (C100_differ, C100_fields_partial: equal exactly on sites 10 and beyond); it holds for everything else: C100_rotate (any arithmetic), C100_even_omega and C100_original (any arithmetic, panics included), C100_unnormalised (exact arithmetic, up to the length of the spin)."
  },
  {
   "property": "C101",
   "status": "proved",
   "theorems": [
    "Verif.Props.C101_neighbours"
   ],
   "note": "Overflow of 2 * n in usize is not modelled."
  },
  {
   "property": "C102",
   "status": "proved",
   "theorems": [
    "Verif.Props.C102_thermal",
    "Verif.Props.C102_direction",
    "Verif.Props.C102_energy",
    "Verif.Props.C102_average"
   ],
   "note": "Real arithmetic, independent standard normal noise; Langevin runs that almost surely meet no vanishing field (C97_regular). The Langevin part is claimed for chains driven as a whole without static field at the ends, since the code leaves the static field out (C68)."
  },
  {
   "property": "C103",
   "status": "proved",
   "theorems": [
    "Verif.Props.C103_updates",
    "Verif.Props.C103_langevin_updates",
    "Verif.Props.C103_energies",
    "Verif.Props.C103_magnus_energies",
    "Verif.Props.C103_magnetisation",
    "Verif.Props.C103_boundary_term",
    "Verif.Props.C103_log",
    "Verif.Props.C103_log_ext",
    "Verif.Props.C103_metropolis",
    "Verif.Props.C103_samplers",
    "Verif.Props.C103_langevin_reported",
    "Verif.Props.C103_hamiltonian"
   ],
   "note": "Extended numbers without rounding (rounding is the subject of C63 and C95) compared with exact reals. SpinChain::new is not included: it divides 0 by 0 for degenerate draws and for beta = 0 (C11, C13)."
  },
  {
   "property": "C104",
   "status": "proved",
   "theorems": [
    "Verif.Props.C104_spins",
    "Verif.Props.C104_energies",
    "Verif.Props.C104_binary64",
    "Verif.Props.C104_exact"
   ],
   "note": "Binary64 and extended numbers; of the library only cos(NaN) = cos(+-inf) = NaN is assumed. Covers SpinChain; the Langevin chain uses the same drive."
  },
  {
   "property": "C105",
   "status": "proved",
   "theorems": [
    "Verif.Props.C105_mc_energies",
    "Verif.Props.C105_total_energies",
    "Verif.Props.C105_energies_agree",
    "Verif.Props.C105_system_energy",
    "Verif.Props.C105_magnetisation",
    "Verif.Props.C105_log",
    "Verif.Props.C105_run_log"
   ],
   "note": "IEEE binary64 with a library of stated accuracy (AccurateTo, as C95). The bound is linear in L per site energy; magnetisation sums are bounded by 2 n^2 / 2^52. system_energy is compared with what the code sums (without the field on the last site, C19). The energy spectrum is computed but not a number of the row and is not bounded."
  },
  {
   "property": "C106",
   "status": "proved",
   "theorems": [
    "Verif.Props.C106_update",
    "Verif.Props.C106_always",
    "Verif.Props.C106_fraction",
    "Verif.Props.C106_mean"
   ],
   "note": "IEEE binary64 with a library of stated accuracy (SamplesTo: AccurateTo plus acos and exp). The random numbers are those rand 0.8.5 returns for Uniform::from(0.0..1.0) (multiples of 2^-52) and gen_range (every site), all sequences counted equally; that the generator makes them equally likely is trusted. Only metropolis_update; the driven samplers are not bounded."
  },
  {
   "property": "C107",
   "status": "proved",
   "theorems": [
    "Verif.Props.C107_negation",
    "Verif.Props.C107_magnus",
    "Verif.Props.C107_mag_full",
    "Verif.Props.C107_unique",
    "Verif.Props.C107_maglab",
    "Verif.Props.C107_rot",
    "Verif.Props.C107_langevin"
   ],
   "note": "Exact real arithmetic; draws independent and uniform (the generator itself is not modelled). The constants grow exponentially with the length. C107_magnus and C107_mag_full: existence, uniqueness, convergence, error of averages for the samplers without detailed balance; C107_unique, _maglab, _rot, _langevin: the stationary distributions of the others; C107_negation: metropolis_update_magnus does not sample the Magnus thermal state. What the stationary state of mag_full is, is not claimed."
  },
  {
   "property": "C108",
   "status": "proved",
   "theorems": [
    "Verif.Props.C108_rows",
    "Verif.Props.C108_averages_readable",
    "Verif.Props.C108_header",
    "Verif.Props.C108_message",
    "Verif.Props.C108_average",
    "Verif.Props.C108_two_point",
    "Verif.Props.C108_cut",
    "Verif.Props.C108_cut_keeps",
    "Verif.Props.C108_cut_wrong",
    "Verif.Props.C108_words_dropped",
    "Verif.Props.C108_decimal",
    "Verif.Props.C108_printable"
   ],
   "note": "The digits chosen by {} are not modelled: the theorems hold for every way of printing that parsing undoes (Prints; C108_printable shows one). Texts are lists of characters; files that are not UTF-8 are not covered (lines() is unwrapped and panics). All NaN are one number. Index of a message below 2^64."
  },
  {
   "property": "C109",
   "status": "proved",
   "theorems": [
    "Verif.Props.C109_continuity",
    "Verif.Props.C109_torque",
    "Verif.Props.C109_conserved",
    "Verif.Props.C109_conserved_isotropic",
    "Verif.Props.C109_program",
    "Verif.Props.C109_negation"
   ],
   "note": "Exact real arithmetic. K depends on couplings, fields and T. C109_continuity and C109_torque: the balance of the magnetisation in the exact motion; C109_program: what the program reports; C109_negation: not conserved exactly."
  },
  {
   "property": "C110",
   "status": "proved",
   "theorems": [
    "Verif.Props.C110_symmetry",
    "Verif.Props.C110_odd",
    "Verif.Props.C110_spins",
    "Verif.Props.C110_isotropic",
    "Verif.Props.C110_signs",
    "Verif.Props.C110_antiferromagnet",
    "Verif.Props.C110_sampled",
    "Verif.Props.C110_field",
    "Verif.Props.C110_uniform_field"
   ],
   "note": "Exact real arithmetic; independent uniform draws. C110_symmetry is the general statement, C110_odd to C110_uniform_field its cases. The constant K of C110_sampled is that of C92."
  },
  {
   "property": "C111",
   "status": "proved",
   "theorems": [
    "Verif.Props.C111_law",
    "Verif.Props.C111_variance",
    "Verif.Props.C111_energy",
    "Verif.Props.C111_langevin",
    "Verif.Props.C111_default"
   ],
   "note": "That rand_distr delivers independent standard normal numbers is trusted; rounding is not modelled. C111_law: the distribution; C111_variance, C111_default: against the documentation; C111_energy: mean and variance of the reported energy density; C111_langevin: the Langevin mode uses the same couplings and fields."
  },
  {
   "property": "C112",
   "status": "proved",
   "theorems": [
    "Verif.Props.C112_documented",
    "Verif.Props.C112_elliptic",
    "Verif.Props.C112_ellipse",
    "Verif.Props.C112_static_twice"
   ],
   "note": "Exact real arithmetic. The documented functions are those of the comments in src/config.rs. C112_elliptic: the program deviates from them; C112_static_twice: hs counts twice."
  },
  {
   "property": "C113",
   "status": "proved",
   "theorems": [
    "Verif.Props.C113_files",
    "Verif.Props.C113_emptied",
    "Verif.Props.C113_kept",
    "Verif.Props.C113_results",
    "Verif.Props.C113_evt_lost",
    "Verif.Props.C113_help",
    "Verif.Props.C113_help_wrong"
   ],
   "note": "C113_files, C113_emptied, C113_kept and C113_results are the whole claim about files. C113_help and C113_help_wrong compare with the help text, which is wrong for two options. C113_evt_lost: why the files evt*.dat are not among those of C113_results. Runs that panic are cut there."
  },
  {
   "property": "C114",
   "status": "proved",
   "theorems": [
    "Verif.Props.C114_runs",
    "Verif.Props.C114_monte_carlo",
    "Verif.Props.C114_estimates",
    "Verif.Props.C114_histograms",
    "Verif.Props.C114_langevin",
    "Verif.Props.C114_method"
   ],
   "note": "C114_runs, C114_monte_carlo, C114_estimates, C114_histograms and C114_langevin are the whole claim; C114_method states the consequence for the integrator by itself. Random numbers are given, so the order in which threads draw them is not part of it."
  },
  {
   "property": "C115",
   "status": "proved",
   "theorems": [
    "Verif.Props.C115_correlations",
    "Verif.Props.C115_energy",
    "Verif.Props.C115_long",
    "Verif.Props.C115_solve_beta",
    "Verif.Props.C115_new",
    "Verif.Props.C115_sampled"
   ],
   "note": "C115_correlations, C115_energy, C115_long, C115_new and C115_sampled are the whole claim; C115_solve_beta joins it to C15. The corrections are upper bounds with explicit constants, not sharp ones."
  },
  {
   "property": "C116",
   "status": "partial",
   "theorems": [
    "Verif.Props.C116_solve_beta_partial",
    "Verif.Props.C116_ring_partial",
    "Verif.Props.C116_above_partial",
    "Verif.Props.C116_bound_partial",
    "Verif.Props.C116_inaccurate"
   ],
   "note": "The claim is false near zero: C116_inaccurate (e = -1/20, energy off by a factor of two or more whatever is returned). C116_solve_beta_partial and C116_ring_partial are the claim for -1 < e <= -1/2, with tolerance 0.005 in the energy. C116_above_partial and C116_bound_partial hold for all energy densities: never more than 0.005 above, and below by at most 1/(100 b^2) and 0.104; a small relative error near zero is false."
  },
  {
   "property": "C117",
   "status": "proved",
   "theorems": [
    "Verif.Props.C117_exact",
    "Verif.Props.C117_program",
    "Verif.Props.C117_energy",
    "Verif.Props.C117_rot",
    "Verif.Props.C117_thermal",
    "Verif.Props.C117_periods",
    "Verif.Props.C117_static",
    "Verif.Props.C117_undriven",
    "Verif.Props.C117_fit"
   ],
   "note": "C117_exact (exact motion), C117_program (updates), C117_energy and C117_rot (what the samplers report), C117_thermal, C117_periods and C117_fit (ensembles), C117_static and C117_undriven (no time-dependent drive). K depends on the chain and the total time only. Disorder in the couplings makes x and y differ and is not covered."
  },
  {
   "property": "C118",
   "status": "partial",
   "theorems": [
    "Verif.Props.C118_code",
    "Verif.Props.C118_fit",
    "Verif.Props.C118_maglab",
    "Verif.Props.C118_rot_partial",
    "Verif.Props.C118_effective_partial",
    "Verif.Props.C118_target",
    "Verif.Props.C118_width",
    "Verif.Props.C118_negation_effective",
    "Verif.Props.C118_negation_rot",
    "Verif.Props.C118_fit_energy"
   ],
   "note": "Exact real arithmetic, no disorder for the positive parts. C118_fit (with C118_target, C118_width, C118_fit_energy) is the claim for --fit and --adiabatic, C118_maglab for --maglab. It is false for --fit-effective and --rot when ssize < hsize: the search uses the driven part as configured while get_obsh and get_obs_rot set ssize = hsize, so all sites get the field of the drive (C118_negation_effective, C118_negation_rot, at every temperature, with disorder or without); C118_effective_partial and C118_rot_partial are the claim for ssize = hsize. C118_code relates the parameter of the number of samples to the code."
  },
  {
   "property": "C119",
   "status": "partial",
   "theorems": [
    "Verif.Props.C119_ends",
    "Verif.Props.C119_shell",
    "Verif.Props.C119_never",
    "Verif.Props.C119_thermal",
    "Verif.Props.C119_dynamic",
    "Verif.Props.C119_mc",
    "Verif.Props.C119_ends_program",
    "Verif.Props.C119_negation",
    "Verif.Props.C119_means_partial",
    "Verif.Props.C119_never_four"
   ],
   "note": "Exact real arithmetic. (a) is C119_ends, with C119_shell and C119_ends_program for the configurations of the program (the default one is an example); where no state fits, the search runs for ever (C119_never, C119_never_four). (b) is false in a field: C119_negation. C119_means_partial is the claim for the means on an isotropic ring without field; the distributions are missing (they need ergodicity of the motion), as are runs in which a local field vanishes."
  },
  {
   "property": "C120",
   "status": "partial",
   "theorems": [
    "Verif.Props.C120_effective",
    "Verif.Props.C120_fast",
    "Verif.Props.C120_program",
    "Verif.Props.C120_magnus_diverges",
    "Verif.Props.C120_comment_sign",
    "Verif.Props.C120_comment_half",
    "Verif.Props.C120_mag_full",
    "Verif.Props.C120_mean",
    "Verif.Props.C120_maglab_partial",
    "Verif.Props.C120_maglab_undriven",
    "Verif.Props.C120_magnus_negation",
    "Verif.Props.C120_sign_negation",
    "Verif.Props.C120_maglab_negation"
   ],
   "note": "Exact real arithmetic. (a) is C120_fast for exact motions and C120_program for the program's runs, (b) C120_effective, C120_program and, in the mean over a period, C120_mean. (c) is false: C120_magnus_negation (wrong prefactor), C120_sign_negation with C120_mag_full (sign of the torque term at whole periods), C120_maglab_negation (field on undriven spins); C120_comment_half says when the sign is right. C120_maglab_partial is what holds of (c): all spins driven, no static fields, means over a period. Missing besides: the second-order terms of metropolis_update_mag_full."
  },
  {
   "property": "C121",
   "status": "proved",
   "theorems": [
    "Verif.Props.C121_heats",
    "Verif.Props.C121_slow",
    "Verif.Props.C121_rises",
    "Verif.Props.C121_work",
    "Verif.Props.C121_heating",
    "Verif.Props.C121_strict",
    "Verif.Props.C121_fluctuations",
    "Verif.Props.C121_sampled"
   ],
   "note": "Exact real arithmetic. (a) C121_work, (b) C121_heating, (c) C121_strict, (d) C121_fluctuations, (e) C121_sampled, (f) C121_heats (even ring lengths and non-negative time-steps; C121_rises is a chain that heats), (g) C121_slow. thermalMean is the mean over the product of the uniform measures on the spheres with weight exp(-beta E)."
  },
  {
   "property": "C122",
   "status": "proved",
   "theorems": [
    "Verif.Props.C122_spread",
    "Verif.Props.C122_nearby",
    "Verif.Props.C122_distant"
   ],
   "note": "Exact real arithmetic. C122_spread is the general form with weights; (a) is C122_nearby, (b) C122_distant. Only the regular runs (C86: almost all) are compared."
  },
  {
   "property": "C123",
   "status": "proved",
   "theorems": [
    "Verif.Props.C123_waiting",
    "Verif.Props.C123_response",
    "Verif.Props.C123_run",
    "Verif.Props.C123_static",
    "Verif.Props.C123_decay",
    "Verif.Props.C123_reciprocal"
   ],
   "note": "Exact real arithmetic. (a) C123_waiting, (b) C123_response and, with the waiting, C123_run, (c) C123_static, (d) C123_decay, (e) C123_reciprocal. The thermal means are those that the Metropolis updates approach (C89)."
  },
  {
   "property": "C124",
   "status": "proved",
   "theorems": [
    "Verif.Props.C124_correlations",
    "Verif.Props.C124_distance",
    "Verif.Props.C124_fluctuations",
    "Verif.Props.C124_energy",
    "Verif.Props.C124_typical",
    "Verif.Props.C124_sampled"
   ],
   "note": "Exact real arithmetic. (a) C124_correlations, C124_distance, (b) C124_fluctuations, C124_energy, (c) C124_typical, (d) C124_sampled."
  },
  {
   "property": "C125",
   "status": "proved",
   "theorems": [
    "Verif.Props.C125_bath",
    "Verif.Props.C125_motion"
   ],
   "note": "Exact real arithmetic. (a) C125_bath, (b) C125_motion."
  },
  {
   "property": "C126",
   "status": "proved",
   "theorems": [
    "Verif.Props.C126_forgets",
    "Verif.Props.C126_autocorrelation",
    "Verif.Props.C126_start",
    "Verif.Props.C126_uniform",
    "Verif.Props.C126_new",
    "Verif.Props.C126_updates"
   ],
   "note": "Exact real arithmetic. (a) C126_forgets, (b) C126_autocorrelation, (c) C126_start and C126_uniform, (d) C126_new and C126_updates. The constants are not sharp. The constants grow like exp(26 beta K): for the default inverse temperature 2.88 the number of updates or samples asked for is astronomically large, far beyond what the program makes."
  },
  {
   "property": "C127",
   "status": "proved",
   "theorems": [
    "Verif.Props.C127_mean_square",
    "Verif.Props.C127_samples",
    "Verif.Props.C127_energy"
   ],
   "note": "Exact real arithmetic. (a) C127_mean_square, (b) C127_samples, (c) C127_energy. The constants are not sharp. The constants grow like exp(26 beta K): for the default inverse temperature 2.88 the number of updates or samples asked for is astronomically large, far beyond what the program makes."
  },
  {
   "property": "C128",
   "status": "proved",
   "theorems": [
    "Verif.Props.C128_search"
   ],
   "note": "Exact real arithmetic. C128_search; the constants are not sharp, and the number of samples of the program (1000) is below the bound. The number of samples asked for grows like exp(130 K) (inverse temperatures up to 5 are searched) and is far beyond the 1000 samples of the program: the theorem shows that and how the search converges with the number of samples, it does not certify the search as configured."
  },
  {
   "property": "C129",
   "status": "proved",
   "theorems": [
    "Verif.Props.C129_heat_capacity",
    "Verif.Props.C129_derivative",
    "Verif.Props.C129_slope",
    "Verif.Props.C129_search"
   ],
   "note": "Exact real arithmetic. C129_heat_capacity, C129_derivative, C129_slope, C129_search; the constants are not sharp. The number of samples asked for grows like exp(130 K) (inverse temperatures up to 5 are searched) and is far beyond the 1000 samples of the program: the theorem shows that and how the search converges with the number of samples, it does not certify the search as configured."
  },
  {
   "property": "C130",
   "status": "proved",
   "theorems": [
    "Verif.Props.C130_lab_update",
    "Verif.Props.C130_rot_update",
    "Verif.Props.C130_langevin_update",
    "Verif.Props.C130_lab_updates",
    "Verif.Props.C130_lab_samples",
    "Verif.Props.C130_lab_search",
    "Verif.Props.C130_rot_updates",
    "Verif.Props.C130_rot_samples",
    "Verif.Props.C130_rot_search",
    "Verif.Props.C130_langevin_updates"
   ],
   "note": "Exact real arithmetic. (a) C130_lab_update, C130_rot_update, C130_langevin_update; (b) C130_lab_updates, C130_rot_updates, C130_langevin_updates, C130_lab_samples, C130_rot_samples; (c) C130_lab_search, C130_rot_search. For a period of zero the real-number theorems use 1/0 = 0 and say nothing about the program. The number of samples asked for grows like exp(130 K) (inverse temperatures up to 5 are searched) and is far beyond the 1000 samples of the program: the theorem shows that and how the search converges with the number of samples, it does not certify the search as configured."
  },
  {
   "property": "C131",
   "status": "proved",
   "theorems": [
    "Verif.Props.C131_energy",
    "Verif.Props.C131_local",
    "Verif.Props.C131_search"
   ],
   "note": "Exact real arithmetic. (a) C131_energy, (b) C131_local, (c) C131_search. The draws are bounded by hypothesis; C131_search is for the plain sampler and both lower ends of the bracket. The number of samples asked for grows like exp(130 K) (inverse temperatures up to 5 are searched) and is far beyond the 1000 samples of the program: the theorem shows that and how the search converges with the number of samples, it does not certify the search as configured."
  },
  {
   "property": "C132",
   "status": "proved",
   "theorems": [
    "Verif.Props.C132_typical",
    "Verif.Props.C132_normal",
    "Verif.Props.C132_variance",
    "Verif.Props.C132_search"
   ],
   "note": "Exact real arithmetic, draws independent with the law as a parameter. (a) C132_normal, C132_typical, (b) C132_variance, (c) C132_search. The search is for the plain sampler; its probability is over the draws of spins and samples for fixed couplings, then over the couplings. The number of samples asked for grows like exp(130 K) (inverse temperatures up to 5 are searched) and is far beyond the 1000 samples of the program: the theorem shows that and how the search converges with the number of samples, it does not certify the search as configured."
  },
  {
   "property": "C133",
   "status": "proved",
   "theorems": [
    "Verif.Props.C133_run_mc",
    "Verif.Props.C133_columns",
    "Verif.Props.C133_profile"
   ],
   "note": "Exact real arithmetic, independent uniform draws, normal draws given. (a) C133_run_mc, (b) C133_columns, (c) C133_profile. run_mc_magnus is not included: its sampler has no thermal mean of the plain energy. The constants grow like exp(26 beta K): for the default inverse temperature 2.88 no number of points below 2^32 meets the hypothesis; it can be met at high temperature."
  },
  {
   "property": "C134",
   "status": "proved",
   "theorems": [
    "Verif.Props.C134_average",
    "Verif.Props.C134_runs"
   ],
   "note": "Exact real arithmetic, independent uniform draws, normal draws given. (a) C134_average, (b) C134_runs. The files that average reads are those of the runs; stroboscopic logs are not included. The constants grow like exp(26 beta K): for the default inverse temperature 2.88 the bound b on what the warm-up leaves of the start is larger than one, so that the accuracy (d + b) C says nothing there; at high temperature (see the example beside the theorem) b is small."
  },
  {
   "property": "C135",
   "status": "proved",
   "theorems": [
    "Verif.Props.C135_bins",
    "Verif.Props.C135_means",
    "Verif.Props.C135_rows"
   ],
   "note": "Exact real arithmetic, independent uniform draws, normal draws given. (a) C135_bins, (b) C135_means, (c) C135_rows."
  },
  {
   "property": "C136",
   "status": "proved",
   "theorems": [
    "Verif.Props.C136_energy",
    "Verif.Props.C136_runs"
   ],
   "note": "Exact real arithmetic, independent uniform draws, normal draws given. (a) C136_energy, (b) C136_runs. The period is a whole number of steps. The constants grow like exp(26 beta K): for the default inverse temperature 2.88 the bound b on what the warm-up leaves of the start is larger than one, so that the accuracy (d + b) C says nothing there; at high temperature (see the example beside the theorem) b is small."
  },
  {
   "property": "C137",
   "status": "proved",
   "theorems": [
    "Verif.Props.C137_correlations",
    "Verif.Props.C137_no_relaxation"
   ],
   "note": "Exact real arithmetic, independent uniform draws, normal draws given. (a) C137_correlations, (b) C137_no_relaxation. The files are those of the runs; in floating point the time of line M is zero only up to rounding, which the tolerance 1e-5 is there for and which is not treated. The constants grow like exp(26 beta K): for the default inverse temperature 2.88 the bound b on what the warm-up leaves of the start is larger than one, so that the accuracy (d + b) C says nothing there; at high temperature (see the example beside the theorem) b is small."
  },
  {
   "property": "C138",
   "status": "proved",
   "theorems": [
    "Verif.Props.C138_average",
    "Verif.Props.C138_runs",
    "Verif.Props.C138_waiting",
    "Verif.Props.C138_response"
   ],
   "note": "Exact real arithmetic, independent uniform draws, normal draws given. (a) C138_average, (b) C138_runs, (c) C138_waiting, (d) C138_response. The first line of each log, written before the clock is set back, is skipped by average and not part of the claim. The energy columns still count the static fields after time zero, as the code does. The constants grow like exp(26 beta K): for the default inverse temperature 2.88 the bound b on what the warm-up leaves of the start is larger than one, so that the accuracy (d + b) C says nothing there; at high temperature (see the example beside the theorem) b is small."
  },
  {
   "property": "C139",
   "status": "proved",
   "theorems": [
    "Verif.Props.C139_run_sim",
    "Verif.Props.C139_run_langevin",
    "Verif.Props.C139_run_ext"
   ],
   "note": "Exact real arithmetic. C139_run_sim, C139_run_langevin, C139_run_ext. In binary64 the clock is a rounded sum and the number of steps may differ."
  }
 ]
}