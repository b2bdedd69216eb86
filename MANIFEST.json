{
 "claims": [
  {
   "property": "C01",
   "status": "proved",
   "theorems": [
    "Hotbit.c01_identity",
    "Hotbit.c01_compose",
    "Hotbit.c01_inverse",
    "Hotbit.c01_commute",
    "Hotbit.c01_compose_slab",
    "Hotbit.c01_compose_twist"
   ],
   "note": "all commuting containers; Slab translations and TwistAndTurn as extra"
  },
  {
   "property": "C02",
   "status": "proved",
   "theorems": [
    "Hotbit.c02_rotation_orthogonal",
    "Hotbit.c02_rigid",
    "Hotbit.c02_rotation_hom"
   ],
   "note": "nine containers; TwistAndTurn rotation orthogonal"
  },
  {
   "property": "C03",
   "status": "proved",
   "theorems": [
    "Hotbit.c03_count",
    "Hotbit.c03_distinct",
    "Hotbit.c03_complete",
    "Hotbit.c03_closed"
   ],
   "note": ""
  },
  {
   "property": "C04",
   "status": "proved",
   "theorems": [
    "Hotbit.c04_double_chiral",
    "Hotbit.c04_double_chiral_zero",
    "Hotbit.c04_slab"
   ],
   "note": ""
  },
  {
   "property": "C05",
   "status": "proved",
   "theorems": [
    "Hotbit.c05_transform_guard",
    "Hotbit.c05_rotation_guard",
    "Hotbit.c05_raises_iff"
   ],
   "note": ""
  },
  {
   "property": "C06",
   "status": "partial",
   "theorems": [
    "Hotbit.c06_list",
    "Hotbit.c06_tuple",
    "Hotbit.c06_bad_count",
    "Hotbit.c06_full_count",
    "Hotbit.c06_count_legal",
    "Hotbit.c06_count_too_large",
    "Hotbit.c06_one_copy_partial",
    "Hotbit.c06_one_copy_fails"
   ],
   "note": "every clause proved except \"one copy is the original\", which the code violates for wedges with three or more operations (witness proved)"
  },
  {
   "property": "C07",
   "status": "proved",
   "theorems": [
    "Hotbit.c07_roundtrip",
    "Hotbit.c07_construct",
    "Hotbit.c07_bravais",
    "Hotbit.c07_fromAse"
   ],
   "note": "exact real arithmetic"
  },
  {
   "property": "C08",
   "status": "partial",
   "theorems": [
    "Hotbit.c08_get_set",
    "Hotbit.c08_other",
    "Hotbit.c08_marker",
    "Hotbit.c08_wedge_set_M",
    "Hotbit.c08_wedge_set_ok",
    "Hotbit.c08_atomic_fails",
    "Hotbit.c08_atomic_partial"
   ],
   "note": "read/write laws proved; the atomicity clause is false for Wedge.set (witness proved)"
  },
  {
   "property": "C09",
   "status": "partial",
   "theorems": [
    "Hotbit.c09_copy_eq",
    "Hotbit.c09_copy_partial",
    "Hotbit.c09_wedgeY_fails",
    "Hotbit.c09_wedgeY_operation",
    "Hotbit.c09_slab_fails"
   ],
   "note": "false for WedgeYAxis and Slab (witnesses proved), proved for the other eight types over all reachable objects"
  },
  {
   "property": "C10",
   "status": "proved",
   "theorems": [
    "Hotbit.c10_mesh",
    "Hotbit.c10_list"
   ],
   "note": "up to 10^10 points per direction (beyond, mesh points are closer than the merging tolerance)"
  },
  {
   "property": "C11",
   "status": "proved",
   "theorems": [
    "Hotbit.c11_line",
    "Hotbit.c11_count",
    "Hotbit.c11_inside",
    "Hotbit.c11_inversion",
    "Hotbit.c11_gamma",
    "Hotbit.c11_phase",
    "Hotbit.c11_equivalent_phase"
   ],
   "note": ""
  },
  {
   "property": "C12",
   "status": "partial",
   "theorems": [
    "Hotbit.c12_zero",
    "Hotbit.c12_width",
    "Hotbit.c12_divides",
    "Hotbit.c12_warning",
    "Hotbit.c12_nonperiodic_partial",
    "Hotbit.c12_nonperiodic_mesh",
    "Hotbit.c12_accepts",
    "Hotbit.c12_negative_fails",
    "Hotbit.c12_slab_fails"
   ],
   "note": "false for explicit lists with negative components and for Slab (witnesses proved); proved otherwise"
  },
  {
   "property": "C13",
   "status": "proved",
   "theorems": [
    "Hotbit.c13_range",
    "Hotbit.c13_monotone",
    "Hotbit.c13_symmetry"
   ],
   "note": "strict positivity holds below the overflow guard of the code, where the occupation is set to exactly 0"
  },
  {
   "property": "C14",
   "status": "partial",
   "theorems": [
    "Hotbit.c14_conserves",
    "Hotbit.c14_exists_unique",
    "Hotbit.c14_bracket_partial",
    "Hotbit.c14_guard_harmless",
    "Hotbit.c14_bracket_fails"
   ],
   "note": "conservation, existence and uniqueness proved; \"occupy succeeds for all electron numbers\" is false (witness proved), the moderate-filling part is proved"
  },
  {
   "property": "C15",
   "status": "partial",
   "theorems": [
    "Hotbit.c15_scc",
    "Hotbit.c15_anderson_converged",
    "Hotbit.c15_pulay_converged",
    "Hotbit.c15_out_of_iterations",
    "Hotbit.c15_nonscc",
    "Hotbit.c15_zero_fails"
   ],
   "note": "proved for maxiter at least one; false for maxiter=0 (the previous states are returned as converged)"
  },
  {
   "property": "C16",
   "status": "proved",
   "theorems": [
    "Hotbit.c16_anderson",
    "Hotbit.c16_pulay",
    "Hotbit.c16_loop"
   ],
   "note": "Pulay: when the entries of the computed inverse do not add up to zero (the code divides by their sum)"
  },
  {
   "property": "C17",
   "status": "proved",
   "theorems": [
    "Hotbit.c17_bound",
    "Hotbit.c17_direction",
    "Hotbit.c17_fixed"
   ],
   "note": ""
  },
  {
   "property": "C18",
   "status": "proved",
   "theorems": [
    "Hotbit.c18_anderson",
    "Hotbit.c18_pulay"
   ],
   "note": ""
  },
  {
   "property": "C19",
   "status": "proved",
   "theorems": [
    "Hotbit.c19_default",
    "Hotbit.c19_name",
    "Hotbit.c19_dict",
    "Hotbit.c19_bad_parameter",
    "Hotbit.c19_refused"
   ],
   "note": ""
  },
  {
   "property": "C20",
   "status": "proved",
   "theorems": [
    "Hotbit.c20_hermitian",
    "Hotbit.c20_posSemidef",
    "Hotbit.c20_trace"
   ],
   "note": ""
  },
  {
   "property": "C21",
   "status": "proved",
   "theorems": [
    "Hotbit.c21_total",
    "Hotbit.c21_guard",
    "Hotbit.c21_occupied",
    "Hotbit.c21_recharge_fails"
   ],
   "note": "c21_recharge_fails records the consequence of set(charge) after initialization"
  },
  {
   "property": "C22",
   "status": "proved",
   "theorems": [
    "Hotbit.c22_nonscc",
    "Hotbit.c22_scc",
    "Hotbit.c22_electrostatic_part"
   ],
   "note": "for eigenvectors normalized with respect to S that solve the generalized eigenproblem"
  },
  {
   "property": "C23",
   "status": "proved",
   "theorems": [
    "Hotbit.c23_blocks",
    "Hotbit.c23_orbital",
    "Hotbit.c23_indices"
   ],
   "note": "non-negative indices (Python negative indexing is not modelled)"
  },
  {
   "property": "C24",
   "status": "proved",
   "theorems": [
    "Hotbit.c24_range",
    "Hotbit.c24_sum"
   ],
   "note": ""
  },
  {
   "property": "C25",
   "status": "partial",
   "theorems": [
    "Hotbit.c25_partial",
    "Hotbit.c25_returns",
    "Hotbit.c25_first",
    "Hotbit.c25_moving_atoms_partial",
    "Hotbit.c25_set_atoms_stale",
    "Hotbit.c25_set_atoms_fails",
    "Hotbit.c25_pair_potential_fails",
    "Hotbit.c25_second_structure",
    "Hotbit.c25_ranges_fails",
    "Hotbit.c25_symbols_fails",
    "Hotbit.c25_uninitialized"
   ],
   "note": "proved for histories over structures with one set of symbols, operation ranges and k-points, with set_atoms only for the solved structure; false otherwise (witnesses)"
  },
  {
   "property": "C26",
   "status": "partial",
   "theorems": [
    "Hotbit.c26_early_failure_partial",
    "Hotbit.c26_mixture",
    "Hotbit.c26_fails",
    "Hotbit.c26_never_recovers"
   ],
   "note": "false after a successful calculation (witness); failures before the first success are harmless; after a failure inside the solver no new ground state is ever solved"
  },
  {
   "property": "C27",
   "status": "proved",
   "theorems": [
    "Hotbit.c27_set",
    "Hotbit.c27_get",
    "Hotbit.c27_frozen",
    "Hotbit.c27_charge_keeps_results"
   ],
   "note": ""
  },
  {
   "property": "C28",
   "status": "proved",
   "theorems": [
    "Hotbit.c28_element",
    "Hotbit.c28_symmetric",
    "Hotbit.c28_shift",
    "Hotbit.c28_energy",
    "Hotbit.c28_zero",
    "Hotbit.c28_force_gradient",
    "Hotbit.c28_single_atom_fails"
   ],
   "note": "c28_single_atom_fails: get_gamma raises TypeError for an isolated atom"
  },
  {
   "property": "C29",
   "status": "proved",
   "theorems": [
    "Hotbit.c29_elements",
    "Hotbit.c29_hermitian",
    "Hotbit.c29_images_closed",
    "Hotbit.c29_inverse_pairs",
    "Hotbit.c29_too_close",
    "Hotbit.c29_container",
    "Hotbit.c29_bravais"
   ],
   "note": "containers with commuting operations; orbital rotations as in C71 (half turns of the y-axis wedge with d orbitals excluded), table parity as in C73"
  },
  {
   "property": "C30",
   "status": "proved",
   "theorems": [
    "Hotbit.c30_textbook",
    "Hotbit.c30_other_sizes_refused",
    "Hotbit.c30_covariant",
    "Hotbit.c30_orbitals_rotate",
    "Hotbit.c30_parity",
    "Hotbit.c30_exchange",
    "Hotbit.c30_z_bond",
    "Hotbit.c30_gradient"
   ],
   "note": ""
  },
  {
   "property": "C31",
   "status": "partial",
   "theorems": [
    "Hotbit.c31_energy",
    "Hotbit.c31_succeeds",
    "Hotbit.c31_coincident",
    "Hotbit.c31_cutoff",
    "Hotbit.c31_pair_energies",
    "Hotbit.c31_relabel",
    "Hotbit.c31_forces",
    "Hotbit.c31_gradient",
    "Hotbit.c31_sum_zero",
    "Hotbit.c31_containers",
    "Hotbit.c31_images_complete",
    "Hotbit.c31_distances",
    "Hotbit.c31_relabel_fails",
    "Hotbit.c31_image_range_fails"
   ],
   "note": "proved for potentials that do not depend on the order of the elements and ranges within the matrix cutoff; without these it is false (witnesses)"
  },
  {
   "property": "C32",
   "status": "partial",
   "theorems": [
    "Hotbit.c32_history",
    "Hotbit.c32_range",
    "Hotbit.c32_symmetric",
    "Hotbit.c32_atoms",
    "Hotbit.c32_energy",
    "Hotbit.c32_pair_energies",
    "Hotbit.c32_gradient",
    "Hotbit.c32_atomic_units",
    "Hotbit.c32_shared_range",
    "Hotbit.c32_collision_fails",
    "Hotbit.c32_units_fails",
    "Hotbit.c32_derivative_fails",
    "Hotbit.c32_shared_range_fails"
   ],
   "note": "proved for up to 10000 atoms and atomic units; false for more atoms, for eV/Angstrom units and for potentials that do not vanish beyond their range (witnesses)"
  },
  {
   "property": "C33",
   "status": "partial",
   "theorems": [
    "Hotbit.c33_symmetric",
    "Hotbit.c33_equal_species",
    "Hotbit.c33_radius_between",
    "Hotbit.c33_c6_bound",
    "Hotbit.c33_conversions",
    "Hotbit.c33_derivative",
    "Hotbit.c33_attractive",
    "Hotbit.c33_setup",
    "Hotbit.c33_c6_between_fails",
    "Hotbit.c33_slater_kirkwood_fails",
    "Hotbit.c33_user_parameters_fails"
   ],
   "note": "symmetry, equal species, upper bounds, conversions and set-up proved; the mixed C6 can fall below both atomic ones and is not the Slater-Kirkwood value, user parameters raise TypeError (witnesses)"
  },
  {
   "property": "C34",
   "status": "proved",
   "theorems": [
    "Hotbit.c34_exact",
    "Hotbit.c34_periodic_needs_cutoff",
    "Hotbit.c34_unit",
    "Hotbit.c34_symmetric",
    "Hotbit.c34_symmetric_bravais"
   ],
   "note": ""
  },
  {
   "property": "C35",
   "status": "proved",
   "theorems": [
    "Hotbit.c35_errors",
    "Hotbit.c35_files",
    "Hotbit.c35_unspecified",
    "Hotbit.c35_no_environment",
    "Hotbit.c35_reverse_default"
   ],
   "note": ""
  },
  {
   "property": "C36",
   "status": "proved",
   "theorems": [
    "Hotbit.c36_splits",
    "Hotbit.c36_short"
   ],
   "note": ""
  },
  {
   "property": "C37",
   "status": "partial",
   "theorems": [
    "Hotbit.c37_hermitian_iff",
    "Hotbit.c37_upper",
    "Hotbit.c37_diagonal_fails",
    "Hotbit.c37_antihermitian",
    "Hotbit.c37_tests",
    "Hotbit.c37_hermitian_passes",
    "Hotbit.c37_rectangular_fails",
    "Hotbit.c37_unknown"
   ],
   "note": "make_hermitian is Hermitian iff the diagonal is real (witness otherwise); rectangular arrays can count as symmetric (witness)"
  },
  {
   "property": "C38",
   "status": "partial",
   "theorems": [
    "Hotbit.c38_gap",
    "Hotbit.c38_returns",
    "Hotbit.c38_probability",
    "Hotbit.c38_homo",
    "Hotbit.c38_lumo",
    "Hotbit.c38_half_filled_fails",
    "Hotbit.c38_state_homo",
    "Hotbit.c38_state_lumo",
    "Hotbit.c38_no_homo_fails",
    "Hotbit.c38_same_state_fails"
   ],
   "note": "gap and searches proved; frontier states coincide for half filled bands or levels at the Fermi level, and a missing HOMO is not reported (witnesses)"
  },
  {
   "property": "C39",
   "status": "partial",
   "theorems": [
    "Hotbit.c39_start_raises",
    "Hotbit.c39_stop_raises",
    "Hotbit.c39_accumulates",
    "Hotbit.c39_root_accumulates",
    "Hotbit.c39_nested",
    "Hotbit.c39_skipped_stop",
    "Hotbit.c39_summary_fails",
    "Hotbit.c39_children_partial",
    "Hotbit.c39_children_fails"
   ],
   "note": "Everything but containment holds for all call sequences. Children within parents holds only for hierarchical runs (c39_children_partial) and is refuted for restarted timers (c39_children_fails); summary() stops the top timer so later starts raise."
  },
  {
   "property": "C40",
   "status": "partial",
   "theorems": [
    "Hotbit.c40_equations",
    "Hotbit.c40_fast",
    "Hotbit.c40_multi",
    "Hotbit.c40_last_node_fails"
   ],
   "note": "everything but one point: FastSplineFunction returns zero at the last data point (witness); MultipleSplineFunction misses the first one (C41)"
  },
  {
   "property": "C41",
   "status": "partial",
   "theorems": [
    "Hotbit.c40_fast",
    "Hotbit.c40_multi",
    "Hotbit.c41_agree",
    "Hotbit.c41_left_end",
    "Hotbit.c41_left_end_fails",
    "Hotbit.c41_below_fails",
    "Hotbit.c41_lengths"
   ],
   "note": "derivatives, zero beyond the range and agreement inside proved; MultipleSplineFunction is wrong at and below the first grid point (witnesses)"
  },
  {
   "property": "C42",
   "status": "partial",
   "theorems": [
    "Hotbit.c42_value",
    "Hotbit.c42_bounded",
    "Hotbit.c42_nodes",
    "Hotbit.c42_outside",
    "Hotbit.c42_index",
    "Hotbit.c42_origin_fails"
   ],
   "note": "proved for grids that start at zero; false for other origins (witness)"
  },
  {
   "property": "C43",
   "status": "partial",
   "theorems": [
    "Hotbit.c43_potential",
    "Hotbit.c43_energy",
    "Hotbit.c43_gamma_symmetric",
    "Hotbit.c43_forces_sum",
    "Hotbit.c43_force_gradient",
    "Hotbit.c43_cache_partial",
    "Hotbit.c43_cell_change_fails",
    "Hotbit.c43_failed_update_fails"
   ],
   "note": "the algebra is proved; \"results correspond to the current cell\" is false (witness), also after a failed update; proved for histories with one container and no exception"
  },
  {
   "property": "C44",
   "status": "proved",
   "theorems": [
    "Hotbit.c44_bijection",
    "Hotbit.c44_size",
    "Hotbit.c44_size_value"
   ],
   "note": ""
  },
  {
   "property": "C45",
   "status": "partial",
   "theorems": [
    "Hotbit.c45_moments",
    "Hotbit.c45_potential",
    "Hotbit.c45_field",
    "Hotbit.c45_converges",
    "Hotbit.c45_energy",
    "Hotbit.c45_cover",
    "Hotbit.c45_bravais_centre",
    "Hotbit.c45_chiral_centre",
    "Hotbit.c45_chiralGeneral_centre",
    "Hotbit.c45_even_fails",
    "Hotbit.c45_unequal_fails",
    "Hotbit.c45_finite_fails",
    "Hotbit.c45_centre_fails"
   ],
   "note": "proved for odd n, one k for all periodic directions, only infinite or trivial directions and a centre on the axis; false otherwise (four witnesses)"
  },
  {
   "property": "C46",
   "status": "partial",
   "theorems": [
    "Hotbit.c46_atom",
    "Hotbit.c46_trace",
    "Hotbit.c46_angmom",
    "Hotbit.c46_total",
    "Hotbit.c46_state",
    "Hotbit.c46_state_angmom",
    "Hotbit.c46_pieces",
    "Hotbit.c46_atoms_partial",
    "Hotbit.c46_atoms_fails"
   ],
   "note": "sums proved; get_atom_mulliken(I) differs from get_atoms_mulliken()[I] by the valence electrons (witness)"
  },
  {
   "property": "C47",
   "status": "partial",
   "theorems": [
    "Hotbit.c47_transfer",
    "Hotbit.c47_pairs",
    "Hotbit.c47_matrix",
    "Hotbit.c47_stable",
    "Hotbit.c47_run",
    "Hotbit.c47_origin",
    "Hotbit.c47_errors",
    "Hotbit.c47_excitation",
    "Hotbit.c47_reread_fails"
   ],
   "note": "everything proved but the last clause: a spectrum read from a file has its energies multiplied with Hartree twice (witness)"
  },
  {
   "property": "C48",
   "status": "partial",
   "theorems": [
    "Hotbit.c48_words",
    "Hotbit.c48_expand",
    "Hotbit.c48_error",
    "Hotbit.c48_row_partial",
    "Hotbit.c48_row_zero",
    "Hotbit.c48_table",
    "Hotbit.c48_trailing_fails"
   ],
   "note": "reader proved for every record; writer and reader are inverse for rows that do not end in zero, a row of zeros is written with its count, other trailing zeros are lost (witness)"
  },
  {
   "property": "C49",
   "status": "partial",
   "theorems": [
    "Hotbit.c49_known_partial",
    "Hotbit.c49_other",
    "Hotbit.c49_spl_fails",
    "Hotbit.c49_dispatch"
   ],
   "note": "proved for the extensions elm, par and skf; spl and every other one raise AttributeError instead of being classified"
  },
  {
   "property": "C50",
   "status": "partial",
   "theorems": [
    "Hotbit.c50_partition",
    "Hotbit.c50_indices",
    "Hotbit.c50_too_many_cpus",
    "Hotbit.c50_balanced",
    "Hotbit.c50_idle_fails"
   ],
   "note": "partition proved; a cpu can stay idle although there are enough items (witness)"
  },
  {
   "property": "C51",
   "status": "partial",
   "theorems": [
    "Hotbit.c51_divisors",
    "Hotbit.c51_gcd",
    "Hotbit.c51_gcd_nonneg",
    "Hotbit.c51_gcd_negative_fails"
   ],
   "note": "gcd is the greatest common divisor for non-negative arguments, up to sign otherwise (witness)"
  },
  {
   "property": "C52",
   "status": "proved",
   "theorems": [
    "Hotbit.c52_returns",
    "Hotbit.c52_exact"
   ],
   "note": "exact up to the tolerance 1e-16 of the code"
  },
  {
   "property": "C53",
   "status": "proved",
   "theorems": [
    "Hotbit.c53_orthogonal",
    "Hotbit.c53_add",
    "Hotbit.c53_rodrigues",
    "Hotbit.c53_axis",
    "Hotbit.c53_sphere_axis"
   ],
   "note": ""
  },
  {
   "property": "C54",
   "status": "proved",
   "theorems": [
    "Hotbit.c54_derivative",
    "Hotbit.c54_symmetric",
    "Hotbit.c54_gaussian_limit",
    "Hotbit.c54_slater_limit",
    "Hotbit.c54_slater_limit_equal"
   ],
   "note": ""
  },
  {
   "property": "C55",
   "status": "proved",
   "theorems": [
    "Hotbit.c55_quadratic",
    "Hotbit.c55_full",
    "Hotbit.c55_cubic"
   ],
   "note": "the atom program is a parameter"
  },
  {
   "property": "C56",
   "status": "partial",
   "theorems": [
    "Hotbit.c56_result",
    "Hotbit.c56_smooth_partial",
    "Hotbit.c56_sign_error",
    "Hotbit.c56_unbound",
    "Hotbit.c56_smooth_fails",
    "Hotbit.c56_end_fails"
   ],
   "note": "smooth tail proved for tables that fall no faster than the third power of the distance from the end; steeper ones get a kink (witness); small tables keep a nonzero last value (witness)"
  },
  {
   "property": "C57",
   "status": "partial",
   "theorems": [
    "Hotbit.c57_shift",
    "Hotbit.c57_partial",
    "Hotbit.c57_error",
    "Hotbit.c57_polynomial",
    "Hotbit.c57_single_fails",
    "Hotbit.c57_knot_fails"
   ],
   "note": "the values returned are those of the spline with the interval chosen by the previous grid point (c57_shift), equal to the spline away from the knots, with an error bound next to them; spline with a single interval raises (witness)"
  },
  {
   "property": "C58",
   "status": "partial",
   "theorems": [
    "Hotbit.c58_total",
    "Hotbit.c58_sixty_seconds_fails",
    "Hotbit.c58_human_readable_fails",
    "Hotbit.c58_extension",
    "Hotbit.c58_extension_fails",
    "Hotbit.c58_appendix",
    "Hotbit.c58_appendix_directory_fails"
   ],
   "note": "totals and recombination proved; seconds can be 60, names without dot and directories with dots are handled wrongly, minutes and seconds of the timer are always 0 (witnesses)"
  },
  {
   "property": "C59",
   "status": "proved",
   "theorems": [
    "Hotbit.c59_total",
    "Hotbit.c59_nonscc"
   ],
   "note": ""
  },
  {
   "property": "C60",
   "status": "proved",
   "theorems": [
    "Hotbit.c60_regular",
    "Hotbit.c60_irregular",
    "Hotbit.c60_python",
    "Hotbit.c60_axis",
    "Hotbit.c60_origin",
    "Hotbit.c60_moments",
    "Hotbit.c60_monopole",
    "Hotbit.c60_dipole"
   ],
   "note": "real arithmetic; l_max >= 1 as the constructor demands"
  },
  {
   "property": "C61",
   "status": "partial",
   "theorems": [
    "Hotbit.c61_bravais",
    "Hotbit.c61_slab_iff",
    "Hotbit.c61_slab_fails"
   ],
   "note": "proved for Bravais; false for Slab"
  },
  {
   "property": "C62",
   "status": "partial",
   "theorems": [
    "Hotbit.c62_bravais_cell_fails",
    "Hotbit.c62_bravais_cell_misread",
    "Hotbit.c62_all_multiples",
    "Hotbit.c07_bravais"
   ],
   "note": "false for exact multiples of the marker; the Bravais clause of C07 is the true part"
  },
  {
   "property": "C63",
   "status": "proved",
   "theorems": [
    "Hotbit.c63_bravais",
    "Hotbit.c63_wedge",
    "Hotbit.c63_chiral",
    "Hotbit.c63_double_chiral",
    "Hotbit.c63_chiral_wedge",
    "Hotbit.c63_wedge_y",
    "Hotbit.c63_chiral_general",
    "Hotbit.c63_slab",
    "Hotbit.c63_twist_and_turn"
   ],
   "note": "Slab for in-plane lattice vectors; TwistAndTurn for points off the axis"
  },
  {
   "property": "C64",
   "status": "partial",
   "theorems": [
    "Hotbit.c64_linear_part",
    "Hotbit.c64_twist_fails"
   ],
   "note": "proved for nine containers; false for TwistAndTurn (witness for every bending angle)"
  },
  {
   "property": "C65",
   "status": "proved",
   "theorems": [
    "Hotbit.c65_total_force"
   ],
   "note": ""
  },
  {
   "property": "C66",
   "status": "partial",
   "theorems": [
    "Hotbit.c66_complete_partial",
    "Hotbit.c66_complete_fails",
    "Hotbit.c66_direction_fails",
    "Hotbit.c66_axis_fails"
   ],
   "note": "the documented behaviour is refuted; completeness proved for orthogonal Bravais cells and cutoffs of at most five periods"
  },
  {
   "property": "C67",
   "status": "partial",
   "theorems": [
    "Hotbit.c67_screening",
    "Hotbit.c67_cutoff_jump_fails"
   ],
   "note": "screening proved; the energy jumps at the cutoff (witness)"
  },
  {
   "property": "C68",
   "status": "partial",
   "theorems": [
    "Hotbit.c68_vector_mode_fails",
    "Hotbit.c68_vector_mode_partial",
    "Hotbit.c68_indentation_partial",
    "Hotbit.c68_indentation_fails",
    "Hotbit.c68_name"
   ],
   "note": "flat to list conversion always raises; one-character lines are lost"
  },
  {
   "property": "C69",
   "status": "proved",
   "theorems": [
    "Hotbit.c69_round_trip"
   ],
   "note": "for cosine and sine zero or larger than the tolerance of phival"
  },
  {
   "property": "C70",
   "status": "proved",
   "theorems": [
    "Hotbit.c70_phase",
    "Hotbit.c70_other"
   ],
   "note": ""
  },
  {
   "property": "C71",
   "status": "partial",
   "theorems": [
    "Hotbit.c71_from_angles",
    "Hotbit.c71_z_rotation",
    "Hotbit.c71_reflection",
    "Hotbit.c71_angles",
    "Hotbit.c71_orbitals_follow_partial",
    "Hotbit.c71_half_turn_fails"
   ],
   "note": "false for half turns about y (c71_half_turn_fails); Sphere and TwistAndTurn obtain their angles from rotation_from_matrix (C69)"
  },
  {
   "property": "C72",
   "status": "proved",
   "theorems": [
    "Hotbit.c72_pair",
    "Hotbit.c72_self",
    "Hotbit.c72_images_follow"
   ],
   "note": "the list of images is kept while the atom moves; distances at the ends of the table range are excluded (SmoothPair)"
  },
  {
   "property": "C73",
   "status": "partial",
   "theorems": [
    "Hotbit.c73_read",
    "Hotbit.c73_columns",
    "Hotbit.c73_parity",
    "Hotbit.c73_same_element",
    "Hotbit.c73_smooth",
    "Hotbit.c73_range",
    "Hotbit.c73_lengths",
    "Hotbit.c73_mixed_grids_fails",
    "Hotbit.c73_null_fails",
    "Hotbit.c73_null_typeError"
   ],
   "note": "parity and columns proved for equal distances in both orders; different distances are mixed up (witness) or raise; tables={..:None} always raises (refuted)"
  },
  {
   "property": "C74",
   "status": "partial",
   "theorems": [
    "Hotbit.c74_points_partial",
    "Hotbit.c74_missing_point_fails",
    "Hotbit.c74_fewer_points_fails"
   ],
   "note": "proved when all parts are longer than half the step; false otherwise (witness)"
  },
  {
   "property": "C75",
   "status": "proved",
   "theorems": [
    "Hotbit.c75_simple",
    "Hotbit.c75_anderson",
    "Hotbit.c75_affine",
    "Hotbit.c75_pulay"
   ],
   "note": "for linear solvers that solve; the linear algebra itself is scipy/numpy"
  },
  {
   "property": "C76",
   "status": "proved",
   "theorems": [
    "Hotbit.c76_check"
   ],
   "note": "real numbers; NaN passes the check in the code and is not modelled"
  },
  {
   "property": "C77",
   "status": "proved",
   "theorems": [
    "Hotbit.c77_shift",
    "Hotbit.c77_translate"
   ],
   "note": ""
  },
  {
   "property": "C78",
   "status": "proved",
   "theorems": [
    "Hotbit.c78_rotate",
    "Hotbit.c78_image"
   ],
   "note": ""
  },
  {
   "property": "C79",
   "status": "proved",
   "theorems": [
    "Hotbit.c79_shift",
    "Hotbit.c79_value",
    "Hotbit.c79_field"
   ],
   "note": ""
  },
  {
   "property": "C80",
   "status": "proved",
   "theorems": [
    "Hotbit.c80_taylor",
    "Hotbit.c80_value"
   ],
   "note": ""
  },
  {
   "property": "C81",
   "status": "proved",
   "theorems": [
    "Hotbit.c81_error",
    "Hotbit.c81_converges"
   ],
   "note": ""
  },
  {
   "property": "C82",
   "status": "proved",
   "theorems": [
    "Hotbit.c82_error",
    "Hotbit.c82_accumulates",
    "Hotbit.c82_converges"
   ],
   "note": ""
  },
  {
   "property": "C83",
   "status": "partial",
   "theorems": [
    "Hotbit.c83_history",
    "Hotbit.c83_cell_fails",
    "Hotbit.c83_error_fails"
   ],
   "note": "proved when only positions and charges change and no update raises; false otherwise (witnesses)"
  },
  {
   "property": "C84",
   "status": "proved",
   "theorems": [
    "Hotbit.c84_weight",
    "Hotbit.c84_values",
    "Hotbit.c84_limits",
    "Hotbit.c84_nonneg",
    "Hotbit.c84_errors",
    "Hotbit.c84_shape"
   ],
   "note": "real arithmetic"
  },
  {
   "property": "C85",
   "status": "partial",
   "theorems": [
    "Hotbit.c85_local",
    "Hotbit.c85_projected",
    "Hotbit.c85_total",
    "Hotbit.c85_sum_partial",
    "Hotbit.c85_window_differs",
    "Hotbit.c85_window_fails",
    "Hotbit.c85_plain"
   ],
   "note": "proved when no state is outside the window; otherwise the local densities miss its tail and the sums differ everywhere (c85_window_differs)"
  },
  {
   "property": "C86",
   "status": "partial",
   "theorems": [
    "Hotbit.c86_atom",
    "Hotbit.c86_bond",
    "Hotbit.c86_decomposition",
    "Hotbit.c86_mayer",
    "Hotbit.c86_mayer_sum",
    "Hotbit.c86_mayer_fails"
   ],
   "note": "decomposition proved for Hermitian matrices, the electrostatic energy being that of the DirectCoulomb potential made there; Mayer bond orders proved for real matrices, complex states raise AssertionError (witness)"
  },
  {
   "property": "C87",
   "status": "partial",
   "theorems": [
    "Hotbit.c87_state",
    "Hotbit.c87_sum",
    "Hotbit.c87_eigen",
    "Hotbit.c87_occupied",
    "Hotbit.c87_values",
    "Hotbit.c87_errors"
   ],
   "note": "everything proved when there are s, p and d orbitals; in mode angmom a missing one raises (c87_errors); the broadened curve carries one factor Hartree too many to integrate to the energies in eV (c87_values states it as it is)"
  },
  {
   "property": "C88",
   "status": "partial",
   "theorems": [
    "Hotbit.c88_read",
    "Hotbit.c88_convert_fails",
    "Hotbit.c88_unreadable_fails",
    "Hotbit.c88_second_reader_fails"
   ],
   "note": "reading proved; conversion and second reader refuted"
  },
  {
   "property": "C89",
   "status": "partial",
   "theorems": [
    "Hotbit.c89_skf",
    "Hotbit.c89_elm_partial",
    "Hotbit.c89_elm_fails",
    "Hotbit.c89_database"
   ],
   "note": "skf files proved; elm files proved for shells in the order s, p, d, refuted for Ti, Fe, Ni"
  },
  {
   "property": "C90",
   "status": "partial",
   "theorems": [
    "Hotbit.c90_line",
    "Hotbit.c90_missing",
    "Hotbit.c90_order",
    "Hotbit.c90_matrix",
    "Hotbit.c90_bool",
    "Hotbit.c90_strings",
    "Hotbit.c90_onestr",
    "Hotbit.c90_onestr_fails",
    "Hotbit.c90_equals_fails"
   ],
   "note": "a value with a second equals sign is cut off, and so is the last character of a text in a last line without end-of-line character (witnesses)"
  },
  {
   "property": "C91",
   "status": "partial",
   "theorems": [
    "Hotbit.c91_table",
    "Hotbit.c91_missing",
    "Hotbit.c91_element",
    "Hotbit.c91_skf_element",
    "Hotbit.c91_skf_element_errors",
    "Hotbit.c91_repulsion",
    "Hotbit.c91_general_fails",
    "Hotbit.c91_malformed_fails"
   ],
   "note": "reading proved; malformed repulsions become zero without report and X_X_table raises TypeError"
  },
  {
   "property": "C92",
   "status": "proved",
   "theorems": [
    "Hotbit.c92_database"
   ],
   "note": "finite table"
  },
  {
   "property": "C93",
   "status": "partial",
   "theorems": [
    "Hotbit.c93_energy",
    "Hotbit.c93_negative",
    "Hotbit.c93_potential",
    "Hotbit.c93_clip_fails"
   ],
   "note": "proved for every density but 1E-90, where the clipped energy jumps (witness)"
  },
  {
   "property": "C94",
   "status": "partial",
   "theorems": [
    "Hotbit.c94_equation",
    "Hotbit.c94_turning",
    "Hotbit.c94_nodes",
    "Hotbit.c94_start",
    "Hotbit.c94_outer_node_fails",
    "Hotbit.c94_state",
    "Hotbit.c94_nonrel",
    "Hotbit.c94_log"
   ],
   "note": "proved for the points between the ends; nodes are counted inside the turning point; the outermost start value always has the wrong sign and adds a sign change (c94_outer_node_fails)"
  },
  {
   "property": "C95",
   "status": "proved",
   "theorems": [
    "Hotbit.c95_volume",
    "Hotbit.c95_linear",
    "Hotbit.c95_exact",
    "Hotbit.c95_constant",
    "Hotbit.c95_grid",
    "Hotbit.c95_guess",
    "Hotbit.c95_density",
    "Hotbit.c95_refused",
    "Hotbit.c95_hartree",
    "Hotbit.c95_hartree_shape"
   ],
   "note": ""
  },
  {
   "property": "C96",
   "status": "partial",
   "theorems": [
    "Hotbit.c96_name",
    "Hotbit.c96_name_large_fails",
    "Hotbit.c96_name_refused",
    "Hotbit.c96_name_injective",
    "Hotbit.c96_states",
    "Hotbit.c96_electrons",
    "Hotbit.c96_confinement",
    "Hotbit.c96_confinement_refused",
    "Hotbit.c96_confinement_monotone",
    "Hotbit.c96_converged",
    "Hotbit.c96_few_turns_fail",
    "Hotbit.c96_not_converged",
    "Hotbit.c96_total"
   ],
   "note": "states with n >= 10 are neither listed nor readable (witness); one turn of the iteration is abstract"
  },
  {
   "property": "C97",
   "status": "proved",
   "theorems": [
    "Hotbit.c97_kind",
    "Hotbit.c97_other",
    "Hotbit.c97_names",
    "Hotbit.c97_normalised"
   ],
   "note": ""
  },
  {
   "property": "C98",
   "status": "partial",
   "theorems": [
    "Hotbit.c98_cell",
    "Hotbit.c98_cover",
    "Hotbit.c98_grid",
    "Hotbit.c98_centre_fails",
    "Hotbit.c98_empty_fails"
   ],
   "note": "areas, cover, symmetry proved; the centre of elements cut by the plane can lie outside them, and no points remain just below twice the range (witnesses)"
  },
  {
   "property": "C99",
   "status": "partial",
   "theorems": [
    "Hotbit.c99_select",
    "Hotbit.c99_mels",
    "Hotbit.c99_overlap_symmetric",
    "Hotbit.c99_hamiltonian",
    "Hotbit.c99_table",
    "Hotbit.c99_refused",
    "Hotbit.c99_range",
    "Hotbit.c99_wf_range",
    "Hotbit.c99_range_end_fails",
    "Hotbit.c99_timing_fails"
   ],
   "note": "the atoms are parameters; the failures at the end of the range and of the second timed run are witnesses"
  },
  {
   "property": "C100",
   "status": "proved",
   "theorems": [
    "Hotbit.c100_number",
    "Hotbit.c100_roundtrip",
    "Hotbit.c100_smoothed"
   ],
   "note": "comments that contain a line with the key of the table and the symbol X are excluded"
  },
  {
   "property": "C101",
   "status": "proved",
   "theorems": [
    "Hotbit.c101_ylm",
    "Hotbit.c101_other",
    "Hotbit.c101_orthonormal"
   ],
   "note": ""
  },
  {
   "property": "C102",
   "status": "partial",
   "theorems": [
    "Hotbit.c102_spherical",
    "Hotbit.c102_origin",
    "Hotbit.c102_angular",
    "Hotbit.c102_unknown",
    "Hotbit.c102_nucleus_fails"
   ],
   "note": "proved away from the nucleus, where the s orbital is returned as zero (witness)"
  },
  {
   "property": "C103",
   "status": "partial",
   "theorems": [
    "Hotbit.c103_cube",
    "Hotbit.c103_cube_fails",
    "Hotbit.c103_points",
    "Hotbit.c103_partial_grid",
    "Hotbit.c103_count",
    "Hotbit.c103_spacing_fails"
   ],
   "note": "points and counts proved; some skew cells are accepted and the spacing is taken in Bohr (witnesses)"
  },
  {
   "property": "C104",
   "status": "partial",
   "theorems": [
    "Hotbit.c104_basis",
    "Hotbit.c104_shift",
    "Hotbit.c104_box",
    "Hotbit.c104_bloch_fails"
   ],
   "note": "proved as coded with the real part of the phases; the missing imaginary part is a witness"
  },
  {
   "property": "C105",
   "status": "partial",
   "theorems": [
    "Hotbit.c105_clip",
    "Hotbit.c105_state",
    "Hotbit.c105_state_density",
    "Hotbit.c105_density_partial",
    "Hotbit.c105_density_fails",
    "Hotbit.c105_bias",
    "Hotbit.c105_window_partial",
    "Hotbit.c105_window_fails",
    "Hotbit.c105_neither"
   ],
   "note": "states, state densities and bias windows proved; occupations missing in the density and windows not relative to the Fermi level (witnesses)"
  },
  {
   "property": "C106",
   "status": "partial",
   "theorems": [
    "Hotbit.c106_chiral",
    "Hotbit.c106_doubleChiral",
    "Hotbit.c106_offset",
    "Hotbit.c106_chiralWedge",
    "Hotbit.c106_chiralWedge_M",
    "Hotbit.c106_chiralWedge_angle",
    "Hotbit.c106_wedgeY",
    "Hotbit.c106_wedgeY_M",
    "Hotbit.c106_chiralGeneral",
    "Hotbit.c106_twistAndTurn",
    "Hotbit.c106_sphere",
    "Hotbit.c106_copy_fails",
    "Hotbit.c106_slab_fails",
    "Hotbit.c106_type_fails",
    "Hotbit.c106_mode_fails",
    "Hotbit.c106_axes_fails"
   ],
   "note": "proved for all parameters except those that cannot be set; copying, slab offset, type, mode and axes of spheres are witnesses"
  },
  {
   "property": "C107",
   "status": "partial",
   "theorems": [
    "Hotbit.c107_chiral",
    "Hotbit.c107_chiral_images",
    "Hotbit.c107_doubleChiral",
    "Hotbit.c107_doubleChiral_images",
    "Hotbit.c107_chiralWedge_image",
    "Hotbit.c107_chiralWedge_angle",
    "Hotbit.c107_chiralWedge_images_partial",
    "Hotbit.c107_chiralWedge_images_fails",
    "Hotbit.c107_chiralWedge_height",
    "Hotbit.c107_wedgeY_angle",
    "Hotbit.c107_wedgeY_images",
    "Hotbit.c107_wedgeY_height",
    "Hotbit.c107_wedge",
    "Hotbit.c107_tube_bend",
    "Hotbit.c107_tube_radius",
    "Hotbit.c107_tube_twist",
    "Hotbit.c107_tube_order"
   ],
   "note": "proved for every container that scales; for chiral wedges when there is no twist, with a witness for a twist"
  },
  {
   "property": "C108",
   "status": "partial",
   "theorems": [
    "Hotbit.c108_laser",
    "Hotbit.c108_laser_period",
    "Hotbit.c108_phi",
    "Hotbit.c108_ext",
    "Hotbit.c108_constant",
    "Hotbit.c108_energy_fails",
    "Hotbit.c108_forces_fails",
    "Hotbit.c108_stale",
    "Hotbit.c108_stale_fails"
   ],
   "note": "potentials and their action on levels proved; energy and forces lack them and stored results are not invalidated (witnesses)"
  },
  {
   "property": "C109",
   "status": "partial",
   "theorems": [
    "Hotbit.c109_excitations",
    "Hotbit.c109_values",
    "Hotbit.c109_default_fails",
    "Hotbit.c109_again_fails",
    "Hotbit.c109_cutoff_fails"
   ],
   "note": "excitations and values proved; the default cutoff always fails, the timer then blocks all later calls, and excitations above the cutoff enter (witnesses)"
  },
  {
   "property": "C110",
   "status": "partial",
   "theorems": [
    "Hotbit.c110_points",
    "Hotbit.c110_saved",
    "Hotbit.c110_colors",
    "Hotbit.c110_scalable",
    "Hotbit.c110_dimer",
    "Hotbit.c110_append_dimer",
    "Hotbit.c110_bonds",
    "Hotbit.c110_curve",
    "Hotbit.c110_curve_refused",
    "Hotbit.c110_cluster_forces",
    "Hotbit.c110_cluster",
    "Hotbit.c110_slope",
    "Hotbit.c110_text_fails",
    "Hotbit.c110_color_fails",
    "Hotbit.c110_default_fails",
    "Hotbit.c110_no_bonds_fails",
    "Hotbit.c110_images_fails"
   ],
   "note": "data proved; ninth automatic colour, missing comment, text saving, structures without bonds and bonds to own images fail (witnesses)"
  },
  {
   "property": "C111",
   "status": "partial",
   "theorems": [
    "Hotbit.c111_points",
    "Hotbit.c111_potential",
    "Hotbit.c111_range",
    "Hotbit.c111_unfitted",
    "Hotbit.c111_close_fails",
    "Hotbit.c111_order_fails",
    "Hotbit.c111_refit_fails",
    "Hotbit.c111_beyond_fails"
   ],
   "note": "grouping, integration and errors proved with scipy as parameter; close data across a cell boundary, order with joined data, second fits and the derivative beyond the cutoff are witnesses"
  },
  {
   "property": "C112",
   "status": "partial",
   "theorems": [
    "Hotbit.c112_roundtrip",
    "Hotbit.c112_tables",
    "Hotbit.c112_existing_fails",
    "Hotbit.c112_unfitted_fails"
   ],
   "note": "proved for inputs without repulsion; an existing repulsion stays in use and a failed write leaves a file read as zero repulsion (witnesses)"
  },
  {
   "property": "C113",
   "status": "partial",
   "theorems": [
    "Hotbit.c113_graphene",
    "Hotbit.c113_armchair",
    "Hotbit.c113_zigzag",
    "Hotbit.c113_armchair_ribbon",
    "Hotbit.c113_zigzag_ribbon_partial",
    "Hotbit.c113_integer_fails",
    "Hotbit.c113_zigzag_ribbon_x_fails",
    "Hotbit.c113_zigzag_ribbon_z_fails"
   ],
   "note": "graphene, AGNR, ZGNR and armchair_ribbon proved for all sizes; zigzag_ribbon has a wrong cell except for one unit along x, and integer bond lengths raise (witnesses)"
  },
  {
   "property": "C114",
   "status": "proved",
   "theorems": [
    "Hotbit.c114_data",
    "Hotbit.c114_metallic",
    "Hotbit.c114_type",
    "Hotbit.c114_none"
   ],
   "note": "proved for all indices and bond lengths"
  },
  {
   "property": "C115",
   "status": "proved",
   "theorems": [
    "Hotbit.c115_chiral",
    "Hotbit.c115_none"
   ],
   "note": "proved for all indices and bond lengths"
  },
  {
   "property": "C116",
   "status": "partial",
   "theorems": [
    "Hotbit.c116_tube_partial",
    "Hotbit.c116_count",
    "Hotbit.c116_none",
    "Hotbit.c116_hole_fails",
    "Hotbit.c116_data_fails",
    "Hotbit.c116_list_fails"
   ],
   "note": "proved for n+m up to 33, which is sharp: the (33,1) tube lacks atoms; data ignore the bond length and CNT_list always raises TypeError (witnesses)"
  },
  {
   "property": "C117",
   "status": "partial",
   "theorems": [
    "Hotbit.c117_elm_partial",
    "Hotbit.c117_skf",
    "Hotbit.c117_nothing",
    "Hotbit.c117_mixed_fails",
    "Hotbit.c117_directories_fails",
    "Hotbit.c117_skf_directories_fails"
   ],
   "note": "one directory with symbols of the same length and skf files proved; tables of symbols of different lengths are never found, several directories fail (witnesses)"
  },
  {
   "property": "C118",
   "status": "partial",
   "theorems": [
    "Hotbit.c118_analysis_partial",
    "Hotbit.c118_after_energy",
    "Hotbit.c118_charges",
    "Hotbit.c118_first_grid",
    "Hotbit.c118_grid_kept",
    "Hotbit.c118_set_atoms_fails",
    "Hotbit.c118_cached_fails",
    "Hotbit.c118_charges_nonscc_fails",
    "Hotbit.c118_grid_fails"
   ],
   "note": "proved for histories without set_atoms to another structure than the solved one and without failures after a solution; set_atoms, stored energies, non-SCC charges and second grids are witnesses"
  },
  {
   "property": "C119",
   "status": "partial",
   "theorems": [
    "Hotbit.c119_accepts",
    "Hotbit.c119_unique",
    "Hotbit.c119_superposition",
    "Hotbit.c119_reciprocity",
    "Hotbit.c119_translation",
    "Hotbit.c119_converges",
    "Hotbit.c119_energy",
    "Hotbit.c119_images",
    "Hotbit.c119_cutoff_partial",
    "Hotbit.c119_skew_fails"
   ],
   "note": "superposition, symmetry and translation for all cells; convergence, independence of weight and images, and the direct limit for cells with orthogonal sides; skewed cells use a wrong reciprocal lattice (witness)"
  },
  {
   "property": "C120",
   "status": "partial",
   "theorems": [
    "Hotbit.c120_made",
    "Hotbit.c120_made_fails",
    "Hotbit.c120_set",
    "Hotbit.c120_unset",
    "Hotbit.c120_rigid",
    "Hotbit.c120_compose_partial",
    "Hotbit.c120_order_fails"
   ],
   "note": "rigid motions and rotation parts proved; composition only along one direction; three container classes cannot be made and saddle operations of different directions never commute (witnesses)"
  },
  {
   "property": "C121",
   "status": "partial",
   "theorems": [
    "Hotbit.c121_lapack",
    "Hotbit.c121_states_partial",
    "Hotbit.c121_unique",
    "Hotbit.c121_all",
    "Hotbit.c121_norm",
    "Hotbit.c121_single_fails",
    "Hotbit.c121_indefinite_fails"
   ],
   "note": "proved for two or more orbitals with the documented promises of LAPACK; one orbital overwrites the overlap and usually raises AssertionError, and an indefinite overlap can return junk energies (witnesses)"
  },
  {
   "property": "C122",
   "status": "partial",
   "theorems": [
    "Hotbit.c122_stored",
    "Hotbit.c122_states_partial",
    "Hotbit.c122_own_points",
    "Hotbit.c122_periodic",
    "Hotbit.c122_reversal",
    "Hotbit.c122_mesh",
    "Hotbit.c122_kpoints",
    "Hotbit.c122_refused",
    "Hotbit.c122_default_fails",
    "Hotbit.c122_nonscc_fails",
    "Hotbit.c122_drawing_fails"
   ],
   "note": "proved for two or more orbitals with h1 set as the calculation requires; the default h1=False with SCC, h1=True without SCC and the phases used for drawing afterwards are witnesses"
  },
  {
   "property": "C123",
   "status": "partial",
   "theorems": [
    "Hotbit.c123_symbol",
    "Hotbit.c123_bare",
    "Hotbit.c123_reader",
    "Hotbit.c123_choice",
    "Hotbit.c123_accepted",
    "Hotbit.c123_refused",
    "Hotbit.c123_own_partial",
    "Hotbit.c123_directory",
    "Hotbit.c123_own_directory_partial",
    "Hotbit.c123_wrong_element_fails",
    "Hotbit.c123_extension_fails",
    "Hotbit.c123_object_fails",
    "Hotbit.c123_directory_fails"
   ],
   "note": "choice of files and refusals proved for all file systems; the element of a named file is not compared with its key, the extension cannot be omitted, objects raise TypeError, and all calculators share the directory set last (witnesses)"
  },
  {
   "property": "C124",
   "status": "partial",
   "theorems": [
    "Hotbit.c124_energy_partial",
    "Hotbit.c124_free_energy",
    "Hotbit.c124_fixed_occupations",
    "Hotbit.c124_smearing_fails"
   ],
   "note": "proved: the forces are minus the gradient of the free energy, and of the reported energy when occupations are fixed; the reported energy lacks the entropy term, so with smearing the forces are not its gradient (witness). Assumes that states and chemical potential can be followed differentiably and that no distance is exactly at a cutoff; external potentials, pair potentials and van der Waals terms are treated in C108 and C32"
  },
  {
   "property": "C125",
   "status": "partial",
   "theorems": [
    "Hotbit.c125_energy",
    "Hotbit.c125_forces",
    "Hotbit.c125_states",
    "Hotbit.c125_bravais",
    "Hotbit.c125_axis",
    "Hotbit.c125_yaxis",
    "Hotbit.c125_slab",
    "Hotbit.c125_about_axis",
    "Hotbit.c125_about_yaxis",
    "Hotbit.c125_crystal"
   ],
   "note": "proved for molecules and crystals (any orthogonal matrix and shift), wedges, chiral and chiral-wedge containers (about and along the axis) and slabs, through the whole self-consistency loop; assumes equal energies within a shell (not met by the data files of Ti, Fe and Ni, C89), two or more orbitals and positive definite overlaps; the containers TwistAndTurn and Sphere are not covered"
  },
  {
   "property": "C126",
   "status": "partial",
   "theorems": [
    "Hotbit.c126_known",
    "Hotbit.c126_case",
    "Hotbit.c126_grid",
    "Hotbit.c126_exc_partial",
    "Hotbit.c126_potential",
    "Hotbit.c126_exc_fails"
   ],
   "note": "names, refusals and the potential as functional derivative proved on a grid without discretisation, given what pylibxc promises; the energy is a NameError for the 17 functionals given in two parts (witness for all of them)"
  },
  {
   "property": "C127",
   "status": "partial",
   "theorems": [
    "Hotbit.c127_extrapolation",
    "Hotbit.c127_whole",
    "Hotbit.c127_electrons",
    "Hotbit.c127_missing",
    "Hotbit.c127_arguments_fails",
    "Hotbit.c127_separate_fails"
   ],
   "note": "IP_EA proved for all energies; txt, configuration, restart and write cannot be passed on, and the separate functions always raise (witnesses)"
  },
  {
   "property": "C128",
   "status": "partial",
   "theorems": [
    "Hotbit.c128_check",
    "Hotbit.c128_accuracy",
    "Hotbit.c128_empty",
    "Hotbit.c128_stress",
    "Hotbit.c128_virial_fails"
   ],
   "note": "forces and fields proved with error bound and unchanged structure; the numerical stress proved; check_virial leaves every structure strained (witness for all of them)"
  },
  {
   "property": "C129",
   "status": "proved",
   "theorems": [
    "Hotbit.c129_net_force",
    "Hotbit.c129_crystal",
    "Hotbit.c129_axis",
    "Hotbit.c129_yaxis"
   ],
   "note": "for every calculation that returns forces; assumes that no distance lies exactly at a cutoff and tables of the right parity"
  },
  {
   "property": "C130",
   "status": "proved",
   "theorems": [
    "Hotbit.c130_torque",
    "Hotbit.c130_crystal",
    "Hotbit.c130_molecule",
    "Hotbit.c130_axis",
    "Hotbit.c130_yaxis"
   ],
   "note": "for every calculation that returns forces; assumes the conditions of C125 and that no distance lies exactly at a cutoff; not for slabs, spheres and TwistAndTurn"
  },
  {
   "property": "C131",
   "status": "partial",
   "theorems": [
    "Hotbit.c131_sound",
    "Hotbit.c131_slab",
    "Hotbit.c131_symmetric",
    "Hotbit.c131_self",
    "Hotbit.c131_bravais",
    "Hotbit.c131_bravais_fails",
    "Hotbit.c131_moved_fails",
    "Hotbit.c131_label_fails",
    "Hotbit.c131_transitive_fails"
   ],
   "note": "a positive answer is sound for labelled containers; Bravais lattices raise AttributeError, moved atoms give a negative answer, labels can be mistaken and slabs are not transitive (witnesses)"
  },
  {
   "property": "C132",
   "status": "partial",
   "theorems": [
    "Hotbit.c132_forces",
    "Hotbit.c132_shift",
    "Hotbit.c132_deviations",
    "Hotbit.c132_max",
    "Hotbit.c132_energy",
    "Hotbit.c132_interpolate",
    "Hotbit.c132_positions",
    "Hotbit.c132_locked",
    "Hotbit.c132_stale_fails",
    "Hotbit.c132_array_fails",
    "Hotbit.c132_unset_fails"
   ],
   "note": "forces, interpolation and positions proved; deviations only while no positions were given under a lock; arrays of multipliers and unset multipliers raise (witnesses)"
  },
  {
   "property": "C133",
   "status": "proved",
   "theorems": [
    "Hotbit.c133_cell",
    "Hotbit.c133_supercell"
   ],
   "note": "for Bravais, Wedge, WedgeYAxis, Chiral, ChiralWedge and ChiralGeneral along their infinite directions; assumes cells not so small that images within the cutoff are missed, and a cutoff for the Coulomb sum"
  },
  {
   "property": "C134",
   "status": "proved",
   "theorems": [
    "Hotbit.c134_cell",
    "Hotbit.c134_sector"
   ],
   "note": "for Wedge, WedgeYAxis and ChiralWedge with angle 2 pi/M; assumes that the scanned images include all within the cutoff"
  },
  {
   "property": "C135",
   "status": "proved",
   "theorems": [
    "Hotbit.c135_supercell",
    "Hotbit.c135_sector"
   ],
   "note": "for the containers of C133 and C134 under their assumptions; external potentials and van der Waals terms are not included"
  },
  {
   "property": "C136",
   "status": "proved",
   "theorems": [
    "Hotbit.c136_renumber",
    "Hotbit.c136_forces"
   ],
   "note": "permutations for all containers with commuting operations; images in directions without ends; assumes that both lists of images include all within the cutoffs"
  },
  {
   "property": "C137",
   "status": "proved",
   "theorems": [
    "Hotbit.c137_apart",
    "Hotbit.c137_forces"
   ],
   "note": "any number of structures in one container with commuting operations; assumes with SCC a cutoff of the Coulomb interaction, and a common chemical potential"
  },
  {
   "property": "C138",
   "status": "proved",
   "theorems": [
    "Hotbit.c138_bands",
    "Hotbit.c138_represent",
    "Hotbit.c138_mesh"
   ],
   "note": "the mesh theorem needs at most 10^10 points in each direction, for more the code confuses points (C10)"
  },
  {
   "property": "C139",
   "status": "proved",
   "theorems": [
    "Hotbit.c139_unique",
    "Hotbit.c139_gaussian",
    "Hotbit.c139_gaussian_sector",
    "Hotbit.c139_finite",
    "Hotbit.c139_sector",
    "Hotbit.c139_symmetric"
   ],
   "note": "Positive interaction energies are proved for Gaussian charges without cutoff in finite structures and their sectors, with widths at least sqrt(8 log 2/pi)/U; widths in parameter files that are rounded below this value, Slater charges, cutoffs and periodic structures are covered by c139_unique only if the interaction energies are known to be nonnegative."
  },
  {
   "property": "C140",
   "status": "proved",
   "theorems": [
    "Hotbit.c140_slow",
    "Hotbit.c140_ends",
    "Hotbit.c140_pulay",
    "Hotbit.c140_pass",
    "Hotbit.c140_converges"
   ],
   "note": "For the Anderson and Pulay mixers with a memory of at most one iteration and no chopping of steps. That LAPACK finds eigenstates and the root finder a chemical potential are hypotheses; without them the cycle can only end with the error of the iteration that fails."
  },
  {
   "property": "C141",
   "status": "proved",
   "theorems": [
    "Hotbit.c141_exists",
    "Hotbit.c141_unique",
    "Hotbit.c141_mixers",
    "Hotbit.c141_charges",
    "Hotbit.c141_runs",
    "Hotbit.c141_energy",
    "Hotbit.c141_forces"
   ],
   "note": "That LAPACK finds eigenstates and the root finder a chemical potential are hypotheses (Solvable). The bounds are explicit for the charges; the factors for energy and forces are explicit in the proofs only."
  }
 ]
}