{
 "claims": [
  {
   "property": "C01",
   "status": "proved",
   "theorems": [
    "PI.C01_stateOne_total_order"
   ],
   "note": ""
  },
  {
   "property": "C02",
   "status": "proved",
   "theorems": [
    "PI.C02_equal_states_hash_equal",
    "PI.C02_pair_hash"
   ],
   "note": ""
  },
  {
   "property": "C03",
   "status": "proved",
   "theorems": [
    "PI.C03_wildcard_matching"
   ],
   "note": ""
  },
  {
   "property": "C04",
   "status": "proved",
   "theorems": [
    "PI.C04_reflection"
   ],
   "note": ""
  },
  {
   "property": "C05",
   "status": "proved",
   "theorems": [
    "PI.C05_artificial_guard",
    "PI.C05_species_spin"
   ],
   "note": ""
  },
  {
   "property": "C06",
   "status": "proved",
   "theorems": [
    "PI.C06_stateTwo_order"
   ],
   "note": ""
  },
  {
   "property": "C07",
   "status": "proved",
   "theorems": [
    "PI.C07_legacy_order_canonical"
   ],
   "note": ""
  },
  {
   "property": "C08",
   "status": "proved",
   "theorems": [
    "PI.C08_write_once_cache"
   ],
   "note": ""
  },
  {
   "property": "C09",
   "status": "partial",
   "theorems": [
    "PI.C09_history_independence_partial",
    "PI.C09_history_independence_shipped",
    "PI.C09_history_independence_fails"
   ],
   "note": "Proved for all histories when each database file is self-contained (in particular for all files of the shipped shape); disproved in general: a mistyped file name silently uses the tables of the previously loaded file."
  },
  {
   "property": "C10",
   "status": "partial",
   "theorems": [
    "PI.C10_concurrent_values_partial",
    "PI.C10_no_spurious_failure_partial",
    "PI.C10_concurrent_construction_fails",
    "PI.C10_concurrent_values_fails"
   ],
   "note": "Values proved correct under every schedule when one database name is used; disproved in general: two threads missing the same key -> 'Cache smashing' throw; two database names -> wrong value. Data races on used_db_name / clear() are modelled as atomic steps."
  },
  {
   "property": "C11",
   "status": "proved",
   "theorems": [
    "PI.C11_energy_formula",
    "PI.C11_energy_strictMono",
    "PI.C11_depends_on_clipped"
   ],
   "note": "exact arithmetic in an ordered field instead of double"
  },
  {
   "property": "C12",
   "status": "proved",
   "theorems": [
    "PI.C12_statement_protocol",
    "PI.C12_reprepare_needs_reset",
    "PI.C12_while_loop",
    "PI.C12_unprepared"
   ],
   "note": "SQLite itself is a parameter (a query denotes a list of rows); SQLITE_BUSY is not modelled"
  },
  {
   "property": "C13",
   "status": "partial",
   "theorems": [
    "PI.C13_iteration_partial",
    "PI.C13_iteration_fails"
   ],
   "note": "The code violates the property: the loop is right if and only if the result has exactly two rows (operator++ has its flag inverted)."
  },
  {
   "property": "C14",
   "status": "partial",
   "theorems": [
    "PI.C14_json_round_trip_partial",
    "PI.C14_json_round_trip_fails"
   ],
   "note": "Exact characterisation: round trip iff all keys are non-empty and dot-free; disproved for dotted keys. Boost property tree modelled from its documentation."
  },
  {
   "property": "C15",
   "status": "proved",
   "theorems": [
    "PI.C15_merge"
   ],
   "note": ""
  },
  {
   "property": "C16",
   "status": "proved",
   "theorems": [
    "PI.C16_angular_order"
   ],
   "note": "Wigner 3j as a real number by Racah's formula; double rounding not modelled"
  },
  {
   "property": "C17",
   "status": "partial",
   "theorems": [
    "PI.C17_commutes_order_partial",
    "PI.C17_commutes_l_fails"
   ],
   "note": "Proved for spin-commuting elements and for orbital-commuting ones with equal l. The code violates the remaining case (l1 != l2): it stores a non-zero value where the operator has none."
  },
  {
   "property": "C18",
   "status": "proved",
   "theorems": [
    "PI.C18_multipole_order"
   ],
   "note": ""
  },
  {
   "property": "C19",
   "status": "proved",
   "theorems": [
    "PI.C19_radial_keys"
   ],
   "note": ""
  },
  {
   "property": "C20",
   "status": "proved",
   "theorems": [
    "PI.C20_selection_rules_sound"
   ],
   "note": ""
  },
  {
   "property": "C21",
   "status": "proved",
   "theorems": [
    "PI.C21_multipole_hermitian"
   ],
   "note": "radial integrals are an arbitrary function of the radial key (symmetric by C19)"
  },
  {
   "property": "C22",
   "status": "partial",
   "theorems": [
    "PI.C22_history_partial",
    "PI.C22_fresh_value",
    "PI.C22_pending_method_fails",
    "PI.C22_defect_db_fails",
    "PI.C22_serialization_fails",
    "PI.C22_get_radial_ub_fails"
   ],
   "note": "Proved for all histories in which the method is not changed while elements wait and the defect database is not changed once radial values are cached; the code violates the property for the others. Histories that load dipole elements are in C92."
  },
  {
   "property": "C23",
   "status": "partial",
   "theorems": [
    "PI.C23_crash_and_processes_partial",
    "PI.update_is_steps",
    "PI.C23_wrong_row_fails"
   ],
   "note": "All interleavings and crash points at row granularity. Excluded: method changed while elements wait (violated), and page-level damage that journal_mode=MEMORY permits (SQLite not modelled below rows)."
  },
  {
   "property": "C24",
   "status": "partial",
   "theorems": [
    "PI.C24_mismatch_partial",
    "PI.C24_failed_lookup_poisons",
    "PI.C24_failed_lookup_fails"
   ],
   "note": "The code violates the property: after a throwing computation every later lookup throws (proved for all histories). Only rejected species mismatches are harmless."
  },
  {
   "property": "C25",
   "status": "partial",
   "theorems": [
    "PI.C25_intervals_partial",
    "PI.C25_empty_interval_fails",
    "PI.C25_wrong_class_fails"
   ],
   "note": "The code violates the property: an interval with upper < lower bound restricts nothing, and j or m bounds of the wrong class (integer bounds for half-integer momenta) remove states inside the interval. Proved for all other intervals (no reflection symmetry, no user-defined states)."
  },
  {
   "property": "C26",
   "status": "partial",
   "theorems": [
    "PI.C26_one_atom_basis_partial",
    "PI.C26_build_succeeds",
    "PI.C26_unphysical_fails"
   ],
   "note": "The code violates the property: with a user range for j the check is |j-l| <= s, which admits unphysical j (3S0). Proved for all ranges that fit the species."
  },
  {
   "property": "C27",
   "status": "proved",
   "theorems": [
    "PI.C27_energy_window"
   ],
   "note": "for the build of the basis without reflection symmetry; energies are an arbitrary function"
  },
  {
   "property": "C28",
   "status": "proved",
   "theorems": [
    "PI.C28_conserved_momenta"
   ],
   "note": "for the build of the basis without reflection symmetry"
  },
  {
   "property": "C29",
   "status": "partial",
   "theorems": [
    "PI.C29_reflection_basis_partial",
    "PI.C29_build_succeeds",
    "PI.C29_integer_j_twice_fails",
    "PI.C29_integer_j_eigen_fails",
    "PI.C29_real_scalar_throws"
   ],
   "note": "The code violates the property for integer j (singlet/triplet species): m = 0 states are in both bases and the other vectors are not reflection eigenvectors. Proved for half-integer j, complex scalars."
  },
  {
   "property": "C30",
   "status": "proved",
   "theorems": [
    "PI.C30_remove_states"
   ],
   "note": ""
  },
  {
   "property": "C31",
   "status": "proved",
   "theorems": [
    "PI.C31_connections"
   ],
   "note": ""
  },
  {
   "property": "C32",
   "status": "partial",
   "theorems": [
    "PI.C32_single_partial",
    "PI.C32_lookup_injective_partial",
    "PI.C32_single_missing_fails",
    "PI.C32_too_many_states_fails"
   ],
   "note": "The code violates the property: for a state that no vector contains the single lookup returns size_t(-1), and a list longer than the number of basis vectors reads past the end. Proved otherwise."
  },
  {
   "property": "C33",
   "status": "partial",
   "theorems": [
    "PI.C33_constrain_partial",
    "PI.C33_huge_index_fails"
   ],
   "note": "The code violates the property: an index >= 2^63 passes the signed comparison. Proved for all smaller indices."
  },
  {
   "property": "C34",
   "status": "partial",
   "theorems": [
    "PI.C34_set_get_partial",
    "PI.C34_add_entry",
    "PI.C34_complex_fails",
    "PI.C34_incomplete_basis_fails"
   ],
   "note": "The code violates the property for complex scalars: getHamiltonianEntry returns the complex conjugate (Eigen's dot conjugates its first argument), so set and get do not agree. Proved for the real scalar type. For an incomplete basis a value cannot be written."
  },
  {
   "property": "C35",
   "status": "partial",
   "theorems": [
    "PI.C35_current_parameters_partial",
    "PI.C35_system_one",
    "PI.C35_system_two",
    "PI.C35_build_interaction_fails",
    "PI.C35_rotate_fails",
    "PI.C35_unitarize_fails",
    "PI.C35_constrain_fails"
   ],
   "note": "Proved for all histories of setters, builds and diagonalizations (any derived class). The code violates the property for buildInteraction after diagonalize and a parameter change, for rotate and constrainBasisvectors after diagonalize, and for unitarize of a system without interaction."
  },
  {
   "property": "C36",
   "status": "proved",
   "theorems": [
    "PI.C36_basis_changes"
   ],
   "note": "threshold 0; the eigensolver is any unitary matrix that diagonalizes H; hash collisions of unitarize not modelled"
  },
  {
   "property": "C37",
   "status": "proved",
   "theorems": [
    "PI.C37_hermitian",
    "PI.C37_operators",
    "PI.C37_physical_operator",
    "PI.C37_loop_break"
   ],
   "note": "Also shown: the operator is H0 - E.d - B.mu + diamagnetic + ion terms built from the full tensor operators (selection rules lose nothing). Exact arithmetic."
  },
  {
   "property": "C38",
   "status": "proved",
   "theorems": [
    "PI.C38_diamagnetic_identity"
   ],
   "note": ""
  },
  {
   "property": "C39",
   "status": "proved",
   "theorems": [
    "PI.C39_spherical_components"
   ],
   "note": "exact arithmetic"
  },
  {
   "property": "C40",
   "status": "partial",
   "theorems": [
    "PI.C40_components_partial",
    "PI.C40_rejected_field_fails"
   ],
   "note": "The components used by the Hamiltonian stay those of the last accepted field, but the code stores the rejected Cartesian field, which add() later compares, and marks the Hamiltonian for rebuilding."
  },
  {
   "property": "C41",
   "status": "proved",
   "theorems": [
    "PI.C41_permutation_basis",
    "PI.C41_exchange",
    "PI.C41_different_systems_fails",
    "PI.C41_restricted_basis_fails"
   ],
   "note": "For complete one-atom bases. Machine-checked failures outside that range: different systems for the two atoms (not checked by the code), and incomplete one-atom bases, whose pair vectors lose components when rarely occurring states are removed."
  },
  {
   "property": "C42",
   "status": "proved",
   "theorems": [
    "PI.C42_operators_initialised",
    "PI.C42_accepted_settings"
   ],
   "note": "the accepted settings are characterised as well"
  },
  {
   "property": "C43",
   "status": "proved",
   "theorems": [
    "PI.C43_angle_terms",
    "PI.C43_angular",
    "PI.C43_axis",
    "PI.C43_green",
    "PI.C43_exchange"
   ],
   "note": "Also: in all three branches the complete operator (both triangles) is k(d1.d2-3(d1.n)(d2.n))/R^3, if no factor lies in (0, 1e-16]."
  },
  {
   "property": "C44",
   "status": "proved",
   "theorems": [
    "PI.C44_hermitian",
    "PI.C44_total_m",
    "PI.C44_multipole_operator",
    "PI.C44_binomial_domain"
   ],
   "note": "Hermitian for all settings, not only along z."
  },
  {
   "property": "C45",
   "status": "proved",
   "theorems": [
    "PI.C45_vacuum_tensor"
   ],
   "note": "real arithmetic; dipole-quadrupole and quadrupole-dipole tensors are proved to be the derivatives of the dipole-dipole tensor and traceless/symmetric as stated"
  },
  {
   "property": "C46",
   "status": "partial",
   "theorems": [
    "PI.C46_surface_tensor_partial",
    "PI.C46_y_gradient_fails",
    "PI.C46_atom_inside_plate_fails"
   ],
   "note": "Proved: the dipole-dipole image tensor and its in-plane gradients. The code violates the rest: the gradient along y is missing and an atom inside the plate can be accepted."
  },
  {
   "property": "C47",
   "status": "partial",
   "theorems": [
    "PI.C47_history_partial",
    "PI.C47_failed_surface_fails"
   ],
   "note": "Proved for all histories in which no rejected addSurface has modified the heights; a rejected call changes the results of later getters (disproof)."
  },
  {
   "property": "C48",
   "status": "partial",
   "theorems": [
    "PI.C48_virtual_states_partial",
    "PI.C48_complete_partial",
    "PI.C48_triplet_fails",
    "PI.C48_impossible_state_fails",
    "PI.C48_fractional_deltaN_fails"
   ],
   "note": "Proved for spins 0 and 1/2. The code violates the property for triplet states (3D2 is missed from 3P1), visits impossible states (l >= n) for large deltaN and n outside a fractional deltaN."
  },
  {
   "property": "C49",
   "status": "partial",
   "theorems": [
    "PI.C49_diagonal_partial",
    "PI.C49_complete_partial",
    "PI.C49_delta_l_two_fails",
    "PI.C49_triplet_fails"
   ],
   "note": "Proved for states with equal l and spins 0, 1/2. The code violates the property for states whose l differ by two (S-D coupling through P is never visited) and for triplet states."
  },
  {
   "property": "C50",
   "status": "proved",
   "theorems": [
    "PI.C50_symmetric",
    "PI.C50_c3_both_triangles",
    "PI.C50_c6_elements"
   ],
   "note": "Symmetry for all lists; with dipole elements of a Hermitian operator both triangles of C3 are the interaction elements."
  },
  {
   "property": "C51",
   "status": "proved",
   "theorems": [
    "PI.C51_findidx",
    "PI.C51_default_two_passes",
    "PI.C51_zero_tolerance_diverges"
   ],
   "note": "exact real arithmetic; the loop ends for every positive tolerance and diverges for tolerance zero"
  },
  {
   "property": "C52",
   "status": "proved",
   "theorems": [
    "PI.C52_numerov_normalised",
    "PI.C52_radial_symmetric"
   ],
   "note": "exact real arithmetic; the GSL Whittaker function is a parameter; the recurrence is stated where its leading coefficient is non-zero"
  },
  {
   "property": "C53",
   "status": "proved",
   "theorems": [
    "PI.C53_serializer_round_trip"
   ],
   "note": ""
  },
  {
   "property": "C54",
   "status": "proved",
   "theorems": [
    "PI.C54_truncated_never_used",
    "PI.C54_right_matrix",
    "PI.C54_other_configuration"
   ],
   "note": "one writer at a time"
  },
  {
   "property": "C55",
   "status": "partial",
   "theorems": [
    "PI.C55_single_partial",
    "PI.C55_both_partial",
    "PI.C55_negative_m_fails",
    "PI.C55_index_is_not_position",
    "PI.C55_exchange"
   ],
   "note": "The code violates the property for a start state with negative m and an unrestricted m (negative delta): the substituted delta is too small. Proved otherwise, for one and two start states."
  },
  {
   "property": "C56",
   "status": "partial",
   "theorems": [
    "PI.C56_pair_basis",
    "PI.C56_initial",
    "PI.C56_remove",
    "PI.C56_remove_short_mask",
    "PI.C56_remove_reindexes",
    "PI.C56_initial_kept_partial",
    "PI.C56_initial_removed_fails",
    "PI.C56_remove_keep",
    "PI.C56_from_two"
   ],
   "note": "Everything proved except that the recorded index of the initial state names another state after the initial state itself was removed (fails-theorem)."
  },
  {
   "property": "C57",
   "status": "partial",
   "theorems": [
    "PI.C57_vector",
    "PI.C57_matrix",
    "PI.C57_copy_partial",
    "PI.C57_view_fails",
    "PI.C57_part_refused",
    "PI.C57_huge_product_fails"
   ],
   "note": "The overloads for vectors and matrices are proved for less than 2^31 elements. The code violates the property for views with explicit dimensions: the comparison of the size check is inverted, so dimensions larger than the buffer are accepted."
  },
  {
   "property": "C58",
   "status": "partial",
   "theorems": [
    "PI.C58_one_partial",
    "PI.C58_one_general",
    "PI.C58_two_partial",
    "PI.C58_leroy",
    "PI.C58_ion_fails",
    "PI.C58_green_fails",
    "PI.C58_pairs_fails",
    "PI.C58_defect_database_fails",
    "PI.C58_python_fails",
    "PI.C58_python_two_fails",
    "PI.C58_default_constructed_fails",
    "PI.C58_load_replaces_shared_cache"
   ],
   "note": "The code violates the property: ion settings, the Green tensor flag, the list of one-atom basis vectors and the defect database are not written, and in Python the cache of an unpickled system is destroyed. Proved: everything else survives (complete equality of the loaded system)."
  },
  {
   "property": "C59",
   "status": "proved",
   "theorems": [
    "PI.C59_symmetry_order"
   ],
   "note": ""
  },
  {
   "property": "C60",
   "status": "proved",
   "theorems": [
    "PI.C60_archive_round_trip"
   ],
   "note": "the Boost archive is a faithful sequence of values"
  },
  {
   "property": "C61",
   "status": "proved",
   "theorems": [
    "PI.C61_real",
    "PI.C61_right_angle",
    "PI.C61_zero",
    "PI.C61_group",
    "PI.C61_transpose",
    "PI.C61_orthogonal",
    "PI.C61_generator",
    "PI.C61_operator",
    "PI.C61_unitary"
   ],
   "note": "For j <= 85 (above, the factorial of the boost library throws an overflow error). Exact arithmetic."
  },
  {
   "property": "C62",
   "status": "partial",
   "theorems": [
    "PI.C62_norm",
    "PI.C62_set_distance",
    "PI.C62_set_vector",
    "PI.C62_set_angle",
    "PI.C62_commute",
    "PI.C62_zero_distance_fails",
    "PI.C62_leroy_partial",
    "PI.C62_leroy_estimate_fails",
    "PI.C62_leroy_add_fails"
   ],
   "note": "Vector part proved for all histories without a zero distance (after one the vector is NaN). Le Roy check proved if the estimate orders the states like their precise radii; it fails otherwise, and after add(), which keeps the stored radius."
  },
  {
   "property": "C63",
   "status": "partial",
   "theorems": [
    "PI.C63_magnetic_hermitian_partial",
    "PI.C63_magnetic_different_l_fails"
   ],
   "note": "Hermitian for equal l; the code violates the vanishing for different l."
  },
  {
   "property": "C64",
   "status": "partial",
   "theorems": [
    "PI.C64_matrix_file_partial",
    "PI.C64_last_column_fails",
    "PI.C64_scalar_type"
   ],
   "note": "The code violates the property: the final column pointer is not saved, so a matrix whose entries are all in its last column (e.g. every one-column matrix) loads as empty. Proved for all other matrices."
  },
  {
   "property": "C65",
   "status": "partial",
   "theorems": [
    "PI.C65_cache_key_partial",
    "PI.C65_key_collision_fails"
   ],
   "note": "The code violates the property: keys are printed with six significant digits. Proved for parameter values that survive printing."
  },
  {
   "property": "C66",
   "status": "proved",
   "theorems": [
    "PI.C66_restrict_built_system"
   ],
   "note": "unmixed systems (coefficient matrix is the identity)"
  },
  {
   "property": "C67",
   "status": "partial",
   "theorems": [
    "PI.C67_add",
    "PI.C67_failed_add_fails"
   ],
   "note": "Direct sum proved in full for the matrices and caches (settings and flag checks: C94). The code violates the last sentence: a refused call leaves the object broken."
  },
  {
   "property": "C68",
   "status": "partial",
   "theorems": [
    "PI.C68_overlap_partial",
    "PI.C68_repeated_state_fails"
   ],
   "note": "The code violates the property if a state is requested twice (plain and by wildcard): it is counted twice. Proved for all other requests (no rotation)."
  },
  {
   "property": "C69",
   "status": "partial",
   "theorems": [
    "PI.C69_main_state_partial",
    "PI.C69_empty_column_fails"
   ],
   "note": "The code violates the property for a column without stored entries (uninitialised row). Proved otherwise."
  },
  {
   "property": "C70",
   "status": "proved",
   "theorems": [
    "PI.C70_operators_initialised"
   ],
   "note": ""
  },
  {
   "property": "C71",
   "status": "partial",
   "theorems": [
    "PI.C71_green_order4",
    "PI.C71_agree_partial",
    "PI.C71_negative_z_fails"
   ],
   "note": "The code violates the property: for atoms along -z the multipole operators use 1/R^4 and give the dipole-quadrupole energy with the wrong sign. Proved: the Green tensor operator is the dipole-dipole plus dipole-quadrupole energy for every vector, and both agree along +z. Orders above 4 have no Green tensor."
  },
  {
   "property": "C72",
   "status": "partial",
   "theorems": [
    "PI.C72_history_partial",
    "PI.C72_surface_partial",
    "PI.C72_sticky_green_fails",
    "PI.C72_green_with_surface",
    "PI.C72_green_flag"
   ],
   "note": "The code violates the property: a vector with a y component enables the Green tensor for good. Proved for histories without explicit enableGreenTensor that never set a y component or surface, or end with one."
  },
  {
   "property": "C73",
   "status": "partial",
   "theorems": [
    "PI.C73_pair_basis_safe",
    "PI.C73_exchange_overflow_fails",
    "PI.C73_index_range_fails",
    "PI.C73_mixed_species_fails"
   ],
   "note": "Proved under explicit conditions on the systems (PairSafe); the code checks none of them, and each of the three fails-theorems shows undefined behaviour without one."
  },
  {
   "property": "C74",
   "status": "partial",
   "theorems": [
    "PI.C74_inversion",
    "PI.C74_inversion_basis",
    "PI.C74_reflection",
    "PI.C74_reflection_projection",
    "PI.C74_rotation",
    "PI.C74_reflection_basis_fails",
    "PI.C74_reflection_basis_partial",
    "PI.C74_rotation_basis"
   ],
   "note": "Quantum numbers proved for all systems; orthonormality and completeness for inversion and for conserved momenta. With reflection the vectors are projections that are neither normalised nor independent (C74_reflection_basis_fails) unless the one-atom vectors are symmetric already, when they are orthonormal and complete (C74_reflection_basis_partial, half-integer momenta)."
  },
  {
   "property": "C75",
   "status": "proved",
   "theorems": [
    "PI.C75_initialised",
    "PI.C75_dipole_dipole",
    "PI.C75_c3_initialised"
   ],
   "note": "exact arithmetic"
  },
  {
   "property": "C76",
   "status": "proved",
   "theorems": [
    "PI.C76_exchange",
    "PI.C76_mirror"
   ],
   "note": "mirror: for energies independent of m and dipole elements whose squares are, which the model of the matrix elements has"
  },
  {
   "property": "C77",
   "status": "partial",
   "theorems": [
    "PI.C77_matrix",
    "PI.C77_vector",
    "PI.C77_sparse_partial",
    "PI.C77_zero_matrix_fails",
    "PI.C77_from_python_partial",
    "PI.C77_wide_indices_fails",
    "PI.C77_zero_dim_fails",
    "PI.C77_complete"
   ],
   "note": "Proved for dense matrices and vectors and for sparse matrices with stored entries and 32 bit indices. The code violates it for sparse matrices without stored entries (throws), 64 bit indices (reinterpreted) and arrays without dimensions."
  },
  {
   "property": "C78",
   "status": "partial",
   "theorems": [
    "PI.C78_elements",
    "PI.C78_unitary",
    "PI.C78_pair_elements",
    "PI.C78_pair_unitary",
    "PI.C78_identity",
    "PI.C78_inverse",
    "PI.C78_real_rejects",
    "PI.C78_real_exact",
    "PI.C78_artificial",
    "PI.C78_overlap_zero",
    "PI.C78_overlap_levels",
    "PI.C78_incomplete_fails"
   ],
   "note": "Proved for one- and two-atom states with j <= 85 and complete Zeeman levels. For a basis that does not contain all m of a level the components outside of the basis are silently dropped (C78_incomplete_fails)."
  },
  {
   "property": "C79",
   "status": "partial",
   "theorems": [
    "PI.C79_euler_isometry",
    "PI.C79_euler_inverse",
    "PI.C79_axes",
    "PI.C79_axes_rejects",
    "PI.C79_axes_euler",
    "PI.C79_zero_axis_fails"
   ],
   "note": "Proved except that a vanishing axis is accepted and the field is lost (C79_zero_axis_fails)."
  },
  {
   "property": "C80",
   "status": "proved",
   "theorems": [
    "PI.C80_covariance",
    "PI.C80_spectrum",
    "PI.C80_rotate"
   ],
   "note": "For complete Zeeman levels with j <= 85, field components that are zero or above the tolerance, angles beta outside of the 1e-16 window around -pi/2 in which the code uses the table for exactly pi/2; exact arithmetic. With an ion along z only rotations about z are a symmetry."
  },
  {
   "property": "C81",
   "status": "partial",
   "theorems": [
    "PI.C81_dipole",
    "PI.C81_quadrupole",
    "PI.C81_axis",
    "PI.C81_spectrum",
    "PI.C81_rotate"
   ],
   "note": "Dipole-dipole (order 3, all three ways to calculate it) and dipole-quadrupole (order 4, Green tensor) for all distance vectors and angles; every order for rotations about the interatomic axis. Complete Zeeman levels with j <= 85, factors that are zero or above the tolerance. Missing: the code has no formula for orders above 4 off the axis, and for atoms along -z with order 4 the multipole expansion violates the property (C71)."
  },
  {
   "property": "C82",
   "status": "partial",
   "theorems": [
    "PI.C82_effective_hamiltonian",
    "PI.C82_unique",
    "PI.C82_no_mixing",
    "PI.C82_single",
    "PI.C82_rejects",
    "PI.C82_wrong_space_fails",
    "PI.C82_too_many_vectors_fails"
   ],
   "note": "Proved if no combination of the chosen eigenvectors is orthogonal to the unperturbed basis (always so for one unperturbed state), for a square root that finds the principal root. The code violates the property otherwise: the largest overlaps can belong to the wrong space, and the call then succeeds with a Hamiltonian whose entries are no energies; more unperturbed basis vectors than eigenvectors are undefined behaviour."
  },
  {
   "property": "C83",
   "status": "proved",
   "theorems": [
    "PI.C83_forget",
    "PI.C83_duplicate_fails"
   ],
   "note": "For orthonormal eigenvectors; the code does not check this, and without it two vectors can become the same state (fails-theorem)."
  },
  {
   "property": "C84",
   "status": "proved",
   "theorems": [
    "PI.C84_elements",
    "PI.C84_units",
    "PI.C84_constants"
   ],
   "note": "For spin 1/2 (the legacy program has no other), exact arithmetic and a database with exact rows; what printed rows do is C85. The overload for vectors of states, which nothing calls, is not modelled."
  },
  {
   "property": "C85",
   "status": "partial",
   "theorems": [
    "PI.C85_history_partial",
    "PI.C85_reload_fails",
    "PI.C85_concurrent_insert_fails"
   ],
   "note": "The code violates it: rows are printed with six digits and read back (C85_reload_fails; C85_history_partial bounds the deviation of each electric element by 2.1e-5 of its size for every history), and a run throws if another one inserts the same row first."
  },
  {
   "property": "C86",
   "status": "partial",
   "theorems": [
    "PI.C86_hamiltonian",
    "PI.C86_library",
    "PI.C86_scan_independent",
    "PI.C86_end_points",
    "PI.C86_window",
    "PI.C86_diamagnetism_fails"
   ],
   "note": "Proved without diamagnetism. With it the code violates the property: an element is put into one matrix only, so the quadrupole part between states with equal l, j and m is lost (C86_hamiltonian says exactly what is built, C86_diamagnetism_fails is a witness). For elements that are zero or above 1e-32, exact rows in the database of elements, exact arithmetic."
  },
  {
   "property": "C87",
   "status": "partial",
   "theorems": [
    "PI.C87_first_run",
    "PI.C87_any_history",
    "PI.C87_structure",
    "PI.C87_exchange_fails"
   ],
   "note": "Proved: the operator of the library up to the tolerance 1e-32 per order in a first run of two species, up to 4.3e-5 of the size of the terms after any history; the structure always. The code violates the rest: for equal species the second object reads the six-digit rows that the first one just printed, so the interaction does not commute with the exchange (C87_exchange_fails). Exact arithmetic."
  },
  {
   "property": "C88",
   "status": "proved",
   "theorems": [
    "PI.C88_block",
    "PI.C88_spectrum"
   ],
   "note": "The matrix handed to the eigensolver; the eigensolver itself is not modelled. Exact arithmetic; the loop over the steps that marks necessary states is taken as sequential."
  },
  {
   "property": "C89",
   "status": "proved",
   "theorems": [
    "PI.C89_spectrum",
    "PI.C89_second_run"
   ],
   "note": "Without reflection. In the very first run for a pair basis the two objects hold different (exact and printed) elements and the statement is violated (PI.C87_exchange_fails). Exact arithmetic; the eigensolver is not modelled."
  },
  {
   "property": "C90",
   "status": "proved",
   "theorems": [
    "PI.C90_initial",
    "PI.C90_same_block"
   ],
   "note": "Without reflection. A rotated initial state is any vector of the spaces of n, l, j, the same for both atoms if their states are the same. Exact arithmetic."
  },
  {
   "property": "C91",
   "status": "partial",
   "theorems": [
    "PI.C91_spectrum_partial",
    "PI.C91_second_run_partial",
    "PI.C91_one_atom",
    "PI.C91_inversion_fails",
    "PI.C91_permutation_fails",
    "PI.C91_open_basis_fails"
   ],
   "note": "Proved for the reflection with or without conservation of the momentum, for bases closed under m to -m. The full claim is false of the code: with inversion the blocks of non-zero momentum hold vectors twice, with permutation in a field along z vectors are not normalised, and for a basis without the reversed state a row outside of the matrix is written. Exact arithmetic."
  },
  {
   "property": "C92",
   "status": "partial",
   "theorems": [
    "PI.C92_row_value_partial",
    "PI.C92_loads",
    "PI.C92_database",
    "PI.C92_reversed_row_fails",
    "PI.C92_forbidden_row_fails"
   ],
   "note": "Proved for rows that name the lower level first or have an even difference of the total momenta. The full claim is false of the code: rows that name the higher level first, as 18 of the 71 of testsuite/dipole.csv do, give elements of the opposite sign if j differs by an odd number, because the angular factors are those of the exchanged levels; rows of forbidden transitions are divided by zero. Number syntax and tokenizing are not modelled. Exact arithmetic."
  },
  {
   "property": "C93",
   "status": "partial",
   "theorems": [
    "PI.C93_schedules_partial",
    "PI.C93_table_race_fails",
    "PI.C93_same_configuration_fails"
   ],
   "note": "Proved for configurations that differ within a run, for matrices that the file format stores faithfully (C64), for names that never repeat, and for the one-atom program if the table exists. The full claim is false of the code: the one-atom program clears the shared flag before the table is created, so that on a new database another thread can select from a missing table; two steps with the same printed configuration can both insert it and violate the UNIQUE constraint. Unsynchronised accesses to the flag and to the random generator, undefined in C++, are taken as atomic."
  },
  {
   "property": "C94",
   "status": "partial",
   "theorems": [
    "PI.C94_combined_partial",
    "PI.C94_after_setter",
    "PI.C94_accepts",
    "PI.C94_refused",
    "PI.C94_compared_settings_partial",
    "PI.C94_symmetries",
    "PI.C94_built_first_fails",
    "PI.C94_order_fails",
    "PI.C94_settings_fails"
   ],
   "note": "Proved if the Hamiltonians were not built before, or a setter is called afterwards, or the interaction does not couple the bases. The full claim is false of the code: the coupling between two bases whose Hamiltonians were built before is left out until a setter is called; the settings of the ion (one atom), of the Green tensor and of the surface (two atoms) are not compared."
  },
  {
   "property": "C95",
   "status": "proved",
   "theorems": [
    "PI.C95_options",
    "PI.C95_calculations",
    "PI.C95_program"
   ],
   "note": "option parser, dispatch and pointers; reading the file is a parameter"
  },
  {
   "property": "C96",
   "status": "partial",
   "theorems": [
    "PI.C96_steps",
    "PI.C96_no_steps_fails"
   ],
   "note": "Proved for at least one step. Missing: zero steps with changing fields read the last element of an empty vector."
  },
  {
   "property": "C97",
   "status": "partial",
   "theorems": [
    "PI.C97_restricted",
    "PI.C97_states",
    "PI.C97_common_partial",
    "PI.C97_unmixed_partial",
    "PI.C97_common_unmixed_partial",
    "PI.C97_spectrum_partial",
    "PI.C97_common_fails",
    "PI.C97_mixed_fails"
   ],
   "note": "The states are proved for separate atoms. The full claim is false of the code: with a common basis a state stays if each quantum number is near the one of some initial state; and if fields mix kept and removed states the block can have more vectors than pair states. Proved: without such mixing every block is the one of the restricted Hamiltonians."
  },
  {
   "property": "C98",
   "status": "partial",
   "theorems": [
    "PI.C98_first_get",
    "PI.C98_getter_ok",
    "PI.C98_kinds",
    "PI.C98_retry_partial",
    "PI.C98_rounds",
    "PI.C98_symmetries",
    "PI.C98_forgotten_fails",
    "PI.C98_real_scalar_fails",
    "PI.C98_refused_symmetry_fails",
    "PI.C98_add_after_build_fails"
   ],
   "note": "Proved for all histories: last setting counts, successful getters, the three kinds of objects; retry after failed getters without symmetries and user-defined states. The full claim is false of the code: a getter that finds no states forgets the restrictions, a conserved parity with real scalars and a state added to a built basis make all later getters throw, and a refused symmetry is stored. Failing energy lookups are not modelled."
  },
  {
   "property": "C99",
   "status": "partial",
   "theorems": [
    "PI.C99_input",
    "PI.C99_window_partial",
    "PI.C99_estimate_partial",
    "PI.C99_sum_estimate",
    "PI.C99_estimate_fails",
    "PI.C99_diagonal_fails",
    "PI.C99_failure_fails"
   ],
   "note": "Proved for Hamiltonians that are not diagonal and successful calls, for any FEAST that keeps its documented promise. The full claim is false of the code: a diagonal Hamiltonian is left with energies outside of the window, the reserved space is too small for states with several couplings (the largest coupling is used instead of the sum, for which it is proved), and after a failure every use of the Hamiltonian reads beyond its arrays."
  },
  {
   "property": "C100",
   "status": "partial",
   "theorems": [
    "PI.C100_products",
    "PI.C100_complete",
    "PI.C100_selection",
    "PI.C100_history",
    "PI.C100_restricted",
    "PI.C100_mixed_products",
    "PI.C100_mixed_selection",
    "PI.C100_mixed_selection_fails",
    "PI.C100_late_selection_fails",
    "PI.C100_forgotten_window_fails",
    "PI.C100_exchange_selection_fails",
    "PI.C100_renumbered_fails"
   ],
   "note": "Products, complete basis, the check of the selection and histories up to the first getter are proved in full. The full claim is false of the code: the numbers of a selection count the vectors left after the ranges of the pair system were applied, a selection after the first getter is ignored, an energy window without pairs is forgotten, with exchange symmetry only pairs with decreasing numbers are used, and a selection of strongly mixed vectors makes all getters throw."
  },
  {
   "property": "C101",
   "status": "partial",
   "theorems": [
    "PI.C101_unitarize",
    "PI.C101_labels",
    "PI.C101_collision_fails",
    "PI.C101_broken_fails",
    "PI.C101_stored_zero_fails",
    "PI.C101_order_fails"
   ],
   "note": "The successful call is characterised in full. The rest is false of the code: the label has 64 bits, so different vectors share labels for every hash function; a collision inside of a system throws and leaves new states with old basis vectors; stored zeros and the order of the states change the label of the same vector."
  },
  {
   "property": "C102",
   "status": "partial",
   "theorems": [
    "PI.C102_one",
    "PI.C102_pair_partial",
    "PI.C102_sametrafo_fails"
   ],
   "note": "One-atom matrices in full (for values that are printed differently; else C65). Pair matrices without reflection blocks and with symmetric blocks of a common basis only. The full claim is false of the code: sametrafo is not in the key, C102_sametrafo_fails."
  },
  {
   "property": "C103",
   "status": "partial",
   "theorems": [
    "PI.C103_state_index",
    "PI.C103_state_indices",
    "PI.C103_one_atom",
    "PI.C103_overlap_at",
    "PI.C103_overlap_of",
    "PI.C103_atom_states",
    "PI.C103_wildcards",
    "PI.C103_within",
    "PI.C103_half_wildcard_fails",
    "PI.C103_overlap_index_fails",
    "PI.C103_wildcard_fails"
   ],
   "note": "Proved for all well-formed systems (and every one-atom system reached by calls). The full claim is false of the code: addStates accepts a state with a wildcard quantum number, which getStates then lists but getStateIndex refuses (C103_wildcard_fails), a pair query with a wildcard in one atom only finds nothing (C103_half_wildcard_fails), and getOverlap does not check its indices (C103_overlap_index_fails)."
  },
  {
   "property": "C104",
   "status": "partial",
   "theorems": [
    "PI.C104_settings",
    "PI.C104_locked",
    "PI.C104_frozen",
    "PI.C104_mixed_momenta",
    "PI.C104_refusal",
    "PI.C104_basis",
    "PI.C104_refused_fails"
   ],
   "note": "Proved for all histories without an exception. The full claim is false of the code: the setters of the reflection parity and of the momenta store the refused value before they throw, and a later getter uses it (C104_refused_fails)."
  },
  {
   "property": "C105",
   "status": "partial",
   "theorems": [
    "PI.C105_multipole",
    "PI.C105_radial",
    "PI.C105_polarisation_partial",
    "PI.C105_all_polarisations",
    "PI.C105_order_fails",
    "PI.C105_two_species_fails"
   ],
   "note": "Proved for bases of one species; for a single polarisation q only pairs in the order of the basis. The full claim is false of the code: with a given q the pairs with the row behind the column are skipped (C105_order_fails), and the species of the first state is used for all (C105_two_species_fails)."
  },
  {
   "property": "C106",
   "status": "partial",
   "theorems": [
    "PI.C106_refused",
    "PI.C106_added",
    "PI.C106_reflection_fails",
    "PI.C106_removed_state_fails"
   ],
   "note": "Proved whenever the basis can be built without the added states. The full claim is false of the code in two cases: added states ignore the reflection symmetry (C106_reflection_fails; a warning is printed), and a state that is not in the basis because its weight is below the threshold is refused as already contained (C106_removed_state_fails)."
  },
  {
   "property": "C107",
   "status": "partial",
   "theorems": [
    "PI.C107_saved_is_current_partial",
    "PI.C107_matrices_untouched",
    "PI.C107_recomputed",
    "PI.C107_compressed",
    "PI.C107_compress_domain",
    "PI.C107_failed_load_fails",
    "PI.C107_compress_fails",
    "PI.C107_reference_fails"
   ],
   "note": "Proved for all histories that keep three rules (and matrices the format can hold, see C64). The full claim is false of the code: after a failed load the unreadable bytes are saved instead of the matrix (C107_failed_load_fails), compress (C107_compress_fails) and a write through a reference obtained earlier (C107_reference_fails) do not invalidate the cached bytes. The program itself keeps the rules (C107_recomputed)."
  },
  {
   "property": "C108",
   "status": "proved",
   "theorems": [
    "PI.C108_euler",
    "PI.C108_axes",
    "PI.C108_rejects",
    "PI.C108_fields",
    "PI.C108_rotate_one",
    "PI.C108_rotate_two",
    "PI.C108_align",
    "PI.C108_overlap_rotated_back",
    "PI.C108_zero_axis_fails",
    "PI.C108_real_half_plane_fails"
   ],
   "note": "Real arithmetic; Eigen's eulerAngles is written down from the library. Hypotheses: axes orthogonal and non-zero, the z component of the z axis zero or above 1e-16 of its length (otherwise the code replaces beta), pair interaction in dipole order (as C81), no ion. Two cases violate the claim: a zero axis is accepted and rotates nothing (C108_zero_axis_fails); the real type refuses axes in the half plane x < 0 although it accepts the same rotation given by angles (C108_real_half_plane_fails)."
  },
  {
   "property": "C109",
   "status": "partial",
   "theorems": [
    "PI.C109_permutation",
    "PI.C109_inversion",
    "PI.C109_permutation_orders",
    "PI.C109_permutation_order_fails",
    "PI.C109_momentum",
    "PI.C109_momentum_direction",
    "PI.C109_momentum_tilted_fails",
    "PI.C109_reflection",
    "PI.C109_reflection_direction",
    "PI.C109_reflection_plane_fails",
    "PI.C109_inversion_quadrupole",
    "PI.C109_permutation_quadrupole",
    "PI.C109_reflection_quadrupole"
   ],
   "note": "Eigenvalues with multiplicities are compared by characteristic polynomials. Proved for permutation with the dipole-dipole interaction (any distance vector, all three ways of calculation, any fields) and for inversion with any order along z or dipole-dipole in any direction. Along z the permutation sectors are right exactly if the interactions of even order in 1/R vanish between the pair states (C109_permutation_orders); the code accepts order 4 with permutation symmetry, and then the sectors have other eigenvalues (C109_permutation_order_fails). Conserved momenta: for atoms along z with any order and one or two species the systems of all total momenta together have the eigenvalues (C109_momentum); with dipole-dipole in another direction exactly if nothing couples the momenta (C109_momentum_direction), which the code does not check (C109_momentum_tilted_fails). Reflection: for half-integer momenta and one-atom vectors that are symmetric or antisymmetric, the two parities together have the eigenvalues along z with any order and in the xz-plane with dipole-dipole (C109_reflection); with dipole-dipole in another direction exactly if the energies are those of the mirrored position (C109_reflection_direction), which the code does not check (C109_reflection_plane_fails). With the dipole-quadrupole interaction of the Green tensor (order 4, any distance vector) the inversion sectors are right, the permutation sectors exactly if that interaction vanishes, the reflection sectors in the xz-plane and otherwise exactly if the interaction is the mirrored one (C109_*_quadrupole)."
  },
  {
   "property": "C110",
   "status": "proved",
   "theorems": [
    "PI.C110_equation",
    "PI.C110_exact",
    "PI.C110_local_error",
    "PI.C110_global_error",
    "PI.C110_potential_far",
    "PI.C110_potential_near",
    "PI.C110_spin_orbit",
    "PI.C110_grid",
    "PI.C110_weights",
    "PI.C110_whittaker",
    "PI.C110_whittaker_normalised",
    "PI.C110_same_phase"
   ],
   "note": "Over the reals. The error bounds hold relative to any exact solution and contain the error of the two starting values (0 and \u00b11e-10 before normalisation); that some solution matches them is not claimed. The GSL function U is a parameter that satisfies Kummer's equation (C110_whittaker) or is 1 for a = 0 (C110_whittaker_normalised). r V(r) at the nucleus for l \u2265 4, where the code has no spin-orbit term."
  },
  {
   "property": "C111",
   "status": "proved",
   "theorems": [
    "PI.C111_parity",
    "PI.C111_parity_spectrum",
    "PI.C111_conjugation",
    "PI.C111_conjugation_spectrum",
    "PI.C111_time_reversal",
    "PI.C111_time_reversal_spectrum",
    "PI.C111_kramers",
    "PI.C111_systems",
    "PI.C111_pair_opposite",
    "PI.C111_pair_conjugation",
    "PI.C111_pair_spectrum"
   ],
   "note": "The operators of the code are conjugated with the parity matrix, complex conjugation and the time reversal matrix term by term; no assumption on small field components is needed, since the code's threshold respects the symmetries. Kramers: an antisymmetric unitary matrix intertwines the Hamiltonian with its transpose. C111_systems states it for the Hamiltonians built after any two histories. The pair theorems assume settings without factors between zero and the tolerance, as in C81."
  },
  {
   "property": "C112",
   "status": "partial",
   "theorems": [
    "PI.C112_string_identifies",
    "PI.C112_string_defined",
    "PI.C112_string_iff_equal",
    "PI.C112_states",
    "PI.C112_negative_zero_fails",
    "PI.C112_artificial",
    "PI.C112_artificial_fails",
    "PI.C112_pair",
    "PI.C112_pair_fails",
    "PI.C112_legacy",
    "PI.C112_legacy_pair",
    "PI.C112_legacy_species_fails"
   ],
   "note": "Proved by parsing the string from its end. The claim is partial because the code violates it in corner cases, which are proved as _fails theorems: getReflected of a state with m = 0 gives -0.0, which compares equal but prints 'mj=-0'; the label of an artificial state can imitate a physical state; names that contain '|' make pair strings ambiguous; a negative l reads outside of the letter table. Numbers of 100000 and more are rounded by the stream (parameter big)."
  },
  {
   "property": "C113",
   "status": "proved",
   "theorems": [
    "PI.C113_succeeds_iff",
    "PI.C113_error_is_late",
    "PI.C113_released",
    "PI.C113_gives_up",
    "PI.C113_starvation_fails",
    "PI.C113_handles",
    "PI.C113_no_leak",
    "PI.C113_moved_from_fails"
   ],
   "note": "The use of the handler by SQLite is taken from its documentation. Histories: moves only from handles that still own a connection (moving from a moved-from handle passes a null connection to SQLite, C113_moved_from_fails). No fairness is claimed: C113_starvation_fails gives a lock that is free every millisecond but missed by all attempts. sqlite3_close is assumed to succeed."
  },
  {
   "property": "C114",
   "status": "proved",
   "theorems": [
    "PI.C114_larger_basis",
    "PI.C114_one_atom",
    "PI.C114_sorted",
    "PI.C114_two_atoms"
   ],
   "note": "Exact arithmetic; the eigensolver is represented by its specification (unitary eigenvectors, A U = U d). For SystemTwo the pair states of the smaller system must come in the same order as in the larger one, because only the lower triangle of each pair operator is computed. The pruning of small matrix elements and basis vectors is not part of this model (C30, C36)."
  },
  {
   "property": "C115",
   "status": "proved",
   "theorems": [
    "PI.C115_levels_move",
    "PI.C115_one_atom",
    "PI.C115_pair_settings",
    "PI.C115_distance",
    "PI.C115_far"
   ],
   "note": "Bounds of operators: any number b with |<x|A|x>| <= b |x|^2, e.g. the sum of the absolute values of the entries (bounded_entries). C115_pair_settings holds for all accepted geometries, with the factors that the code adds; C115_distance evaluates it for atoms on the z axis."
  },
  {
   "property": "C116",
   "status": "proved",
   "theorems": [
    "PI.C116_electric",
    "PI.C116_magnetic",
    "PI.C116_total",
    "PI.C116_symbols"
   ],
   "note": "The symbols are those of the Racah formula that the wignerSymbols library implements (exact arithmetic). The sum rule is derived from the formula (generating function, ladder relation, closed form at the maximal projection), not assumed. For the magnetic dipole S is stated to exist."
  },
  {
   "property": "C117",
   "status": "proved",
   "theorems": [
    "PI.C117_magnetic_moment",
    "PI.C117_factors",
    "PI.C117_zeeman"
   ],
   "note": "Exact arithmetic, symbols by the Racah formula. The radial overlap <nlj|nlj> stays as a factor; that it is close to one is a matter of the Numerov or Whittaker integration (C110). C117_zeeman assumes that no field component lies in (0, 1e-24]."
  },
  {
   "property": "C118",
   "status": "proved",
   "theorems": [
    "PI.C118_electric",
    "PI.C118_magnetic"
   ],
   "note": "Exact arithmetic, symbols by the Racah formula. All spins (singlets, alkali atoms, triplets). The radial integral stays as a factor."
  },
  {
   "property": "C119",
   "status": "proved",
   "theorems": [
    "PI.C119_orthonormal",
    "PI.C119_complete",
    "PI.C119_members",
    "PI.C119_sum_rule",
    "PI.C119_product",
    "PI.C119_paschen_back",
    "PI.C119_dipole"
   ],
   "note": "Exact arithmetic, symbols by the Racah formula. The radial integral stays as a factor and is assumed equal for the members of the multiplet."
  },
  {
   "property": "C120",
   "status": "proved",
   "theorems": [
    "PI.C120_sum",
    "PI.C120_one_atom",
    "PI.C120_electric_field",
    "PI.C120_two_atoms",
    "PI.C120_two_atoms_multiplets"
   ],
   "note": "Sums of the energies after any history. The diamagnetic factor is dropped by the code when |B^2| is at most 1e-24 (cut). The eigenvectors and energies are those of any unitary diagonalization."
  },
  {
   "property": "C121",
   "status": "proved",
   "theorems": [
    "PI.C121_spread",
    "PI.C121_squares",
    "PI.C121_electric_field",
    "PI.C121_ground_state_falls",
    "PI.C121_field_squared",
    "PI.C121_two_atoms",
    "PI.C121_distance"
   ],
   "note": "Exact arithmetic. The field along z is assumed above the tolerance 1e-24 of the code; the F/R^6 law is for order 3 along +z without Green tensor."
  },
  {
   "property": "C122",
   "status": "proved",
   "theorems": [
    "PI.C122_c6",
    "PI.C122_sum",
    "PI.C122_two_atoms",
    "PI.C122_sorted",
    "PI.C122_stark"
   ],
   "note": "Exact arithmetic. Atoms on the z axis (theta = 0 in getC6), order 3, spins 0/1/2 as the symbols support, deltaN an integer at most n - l of both states. C122_c6 is for a pair level without degenerate partners in the basis; C122_two_atoms covers degenerate levels through eigenvectors of the effective operator. The code divides by a vanishing energy difference of a virtual pair state (infinite or NaN); in the model such terms are 0, and hypothesis hn of C122_c6 excludes them when the state is in the basis. The quadratic shift in a field (C122_stark) is along z, with the field above the tolerance 1e-24 of the code."
  },
  {
   "property": "C123",
   "status": "proved",
   "theorems": [
    "PI.C123_c6_matrix",
    "PI.C123_matrix",
    "PI.C123_elem"
   ],
   "note": "Exact arithmetic. Atoms on the z axis (theta = 0 in getC6), order 3, spins 0 and 1/2, deltaN an integer at most n - l. The states of the level have for each atom the same species, spin, n and l (j and m differ); for orbital quantum numbers that differ by two the code visits wrong virtual states (C49_delta_l_two_fails), so the claim would be false there. The basis contains all virtual states of the sums (C6Basis)."
  },
  {
   "property": "C124",
   "status": "proved",
   "theorems": [
    "PI.C124_c6_matrix",
    "PI.C124_c6",
    "PI.C124_matrix",
    "PI.C124_elem",
    "PI.C124_sum"
   ],
   "note": "Exact arithmetic. Distance vector in the xz-plane, order 3, no Green tensor, positive distance; no angle factor lies between 0 and the tolerance 1e-16 of SystemTwo. Spins 0 and 1/2, deltaN an integer at most n - l; in the matrix version the states of the level have for each atom the same species, spin, n and l. The basis contains all virtual states of the sums with any total m (C6BasisTilt)."
  },
  {
   "property": "C125",
   "status": "proved",
   "theorems": [
    "PI.C125_c3_matrix",
    "PI.C125_resonance",
    "PI.C125_model_space",
    "PI.C125_matrix"
   ],
   "note": "Exact arithmetic. Distance vector in the xz-plane (or on the z axis), order 3, no Green tensor, positive distance; no angle factor lies between 0 and the tolerance 1e-16 of SystemTwo. The two classes use one cache of matrix elements. SystemTwo's basis is the given product basis (V = 1 at the start)."
  },
  {
   "property": "C126",
   "status": "proved",
   "theorems": [
    "PI.C126_weak_fields",
    "PI.C126_any_direction",
    "PI.C126_zeeman",
    "PI.C126_no_linear_stark"
   ],
   "note": "Exact arithmetic. Without ion (charge 0 or no distance). The states with the energy E0 are sublevels of one fine-structure level; SystemOne's basis is the given product basis (V = 1 at the start). 1e-23 covers field components the library ignores (below 1e-24)."
  },
  {
   "property": "C127",
   "status": "proved",
   "theorems": [
    "PI.C127_stark",
    "PI.C127_mirror",
    "PI.C127_lowered"
   ],
   "note": "Exact arithmetic. Without ion (charge 0 or no distance) and magnetic field. The states with the energy E0 are sublevels of one fine-structure level; SystemOne's basis is the given product basis (V = 1 at the start). 1e-23 covers field components the library ignores (below 1e-24). Polarizabilities are the sums over the states of the basis."
  },
  {
   "property": "C128",
   "status": "proved",
   "theorems": [
    "PI.C128_degenerate",
    "PI.C128_linear_stark"
   ],
   "note": "Exact arithmetic. Without ion (charge 0 or no distance). SystemOne's basis is the given product basis (V = 1 at the start). 1e-23 covers field components the library ignores (below 1e-24)."
  }
 ]
}