{
 "claims": [
  {
   "property": "C01",
   "status": "proved",
   "theorems": [
    "Verif.C01_conversions_agree",
    "Verif.C01_empty_system",
    "Verif.C01_encodings_exhaust",
    "Verif.C01_malformed",
    "Verif.C01_int_too_big"
   ],
   "note": "int format needs n>=1, as in Python"
  },
  {
   "property": "C02",
   "status": "proved",
   "theorems": [
    "Verif.C02_bytes_injective",
    "Verif.C02_bytes_order"
   ],
   "note": ""
  },
  {
   "property": "C03",
   "status": "proved",
   "theorems": [
    "Verif.C03_normalises"
   ],
   "note": ""
  },
  {
   "property": "C04",
   "status": "proved",
   "theorems": [
    "Verif.C04_create_empty",
    "Verif.C04_create_occupied",
    "Verif.C04_C05_index_too_big",
    "Verif.C04_C05_inverse",
    "Verif.create_ustr_negative_corrupts"
   ],
   "note": ""
  },
  {
   "property": "C05",
   "status": "proved",
   "theorems": [
    "Verif.C05_remove_occupied",
    "Verif.C05_remove_empty",
    "Verif.C04_C05_index_too_big",
    "Verif.C04_C05_inverse"
   ],
   "note": ""
  },
  {
   "property": "C06",
   "status": "proved",
   "theorems": [
    "Verif.C06_anticommutator_ac",
    "Verif.C06_anticommutator_aa",
    "Verif.C06_anticommutator_cc"
   ],
   "note": ""
  },
  {
   "property": "C07",
   "status": "proved",
   "theorems": [
    "Verif.C07_a_exact",
    "Verif.C07_c_exact",
    "Verif.C07_adjoint"
   ],
   "note": ""
  },
  {
   "property": "C08",
   "status": "proved",
   "theorems": [
    "Verif.C08_partition",
    "Verif.C08_balanced",
    "Verif.C08_positions"
   ],
   "note": ""
  },
  {
   "property": "C09",
   "status": "proved",
   "theorems": [
    "Verif.C09_bijection",
    "Verif.C09_positions"
   ],
   "note": ""
  },
  {
   "property": "C10",
   "status": "proved",
   "theorems": [
    "Verif.C10_rejects",
    "Verif.C10_negative_index"
   ],
   "note": "indices are natural numbers in the property; C10_negative_index says what happens for negative ones"
  },
  {
   "property": "C100",
   "status": "proved",
   "theorems": [
    "Verif.C100_table",
    "Verif.C100_averages",
    "Verif.C100_read",
    "Verif.C100_ascend",
    "Verif.C100_occupations",
    "Verif.C100_main",
    "Verif.C100_gaunt"
   ],
   "note": "numbers are exact: digits that change because a value was computed with rounding errors are left out"
  },
  {
   "property": "C101",
   "status": "proved",
   "theorems": [
    "Verif.C101_norm",
    "Verif.C101_overlap",
    "Verif.C101_occupation",
    "Verif.C101_orbital",
    "Verif.C101_spin",
    "Verif.C101_density",
    "Verif.C101_exact",
    "Verif.C101_double"
   ],
   "note": "overflow, underflow, fused multiply-add and compensated summation are left out; sums in the order of the dict"
  },
  {
   "property": "C102",
   "status": "proved",
   "theorems": [
    "Verif.C102_apply",
    "Verif.C102_matrix",
    "Verif.C102_energies",
    "Verif.C102_exact",
    "Verif.C102_double"
   ],
   "note": "without the cache of applyOp; the matrix in mode dense_serial, whose numbers the other modes store too; the solver is exact for the matrix it reads; overflow and underflow are left out"
  },
  {
   "property": "C103",
   "status": "proved",
   "theorems": [
    "Verif.C103_weights",
    "Verif.C103_operators",
    "Verif.C103_main"
   ],
   "note": "numbers are exact; DipoleTable is proved for the values of sympy.gaunt (sympyGaunt_table); circular polarisation is stated for the operators, since main stores x, y and z only"
  },
  {
   "property": "C104",
   "status": "proved",
   "theorems": [
    "Verif.C104_main",
    "Verif.C104_orbitals"
   ],
   "note": "numbers are exact; with the eigensolver of SolverCorrect; configurations with fewer d electrons than n0imps do lose their direct photoemission, as the theorem says"
  },
  {
   "property": "C105",
   "status": "proved",
   "theorems": [
    "Verif.C105_moments",
    "Verif.C105_fixed",
    "Verif.C105_main"
   ],
   "note": "numbers are exact"
  },
  {
   "property": "C106",
   "status": "proved",
   "theorems": [
    "Verif.C106_energies",
    "Verif.C106_tail",
    "Verif.C106_main"
   ],
   "note": "numbers are exact; NIXS needs that no matrix element of the transition operator is below the cutoff, as in C96"
  },
  {
   "property": "C107",
   "status": "proved",
   "theorems": [
    "Verif.C107_rixs",
    "Verif.C107_resonance",
    "Verif.C107_main",
    "Verif.C107_height",
    "Verif.C107_file"
   ],
   "note": "numbers are exact; numpy.linalg.solve is exact (ExactSolver); the moments, the area and the range of energy losses need that the normalised state after the emission has no amplitude below the cutoff slaterWeightMin (EmissionKept), as in C97; the sign, the height, the slope and the file need no such condition; the numbers of RIXS.bin are those before the rounding to single precision; main evaluates only the outgoing polarisation x (C44)"
  },
  {
   "property": "C108",
   "status": "proved",
   "theorems": [
    "Verif.C108_curve",
    "Verif.C108_main",
    "Verif.C108_holes"
   ],
   "note": "numbers are exact and before the rounding of the text files (C98); XAS needs that the Gaunt table has its dipole values (DipoleTable), as in C103"
  },
  {
   "property": "C109",
   "status": "proved",
   "theorems": [
    "Verif.C109_accepted",
    "Verif.C109_short",
    "Verif.C109_swallow"
   ],
   "note": "the converse of C99, with the same limits of the model of argparse"
  },
  {
   "property": "C11",
   "status": "proved",
   "theorems": [
    "Verif.C11_get_basis"
   ],
   "note": "integer keys; a tuple key makes get_basis raise a TypeError"
  },
  {
   "property": "C110",
   "status": "proved",
   "theorems": [
    "Verif.C110_printed",
    "Verif.C110_spectra"
   ],
   "note": "time reversal of bath states is a parameter; C78_crystal_field provides it for crystal-field files; spherical harmonics with the usual phases are a hypothesis for NIXS; RIXS is not covered"
  },
  {
   "property": "C111",
   "status": "proved",
   "theorems": [
    "Verif.C111_printed",
    "Verif.C111_spectra",
    "Verif.C111_crystal_field"
   ],
   "note": "the turn of the bath states is a parameter; C111_crystal_field provides it for crystal-field files; NIXS has a fixed momentum transfer that is not along x, so no claim is made for it"
  },
  {
   "property": "C112",
   "status": "proved",
   "theorems": [
    "Verif.C112_printed",
    "Verif.C112_spectra",
    "Verif.C112_crystal_field"
   ],
   "note": "the turn of the bath states is a parameter; C112_crystal_field provides it for crystal-field files; no claim is made for NIXS, whose momentum transfer is not along y"
  },
  {
   "property": "C12",
   "status": "proved",
   "theorems": [
    "Verif.C12_no_duplicates",
    "Verif.C12_raises_iff"
   ],
   "note": ""
  },
  {
   "property": "C13",
   "status": "partial",
   "theorems": [
    "Verif.C13_electron_number_partial",
    "Verif.C13_violated"
   ],
   "note": "False of the code when valBaths[l]=0 and dnValBaths[l]>0 (C13_violated); proved for all other parameters."
  },
  {
   "property": "C14",
   "status": "proved",
   "theorems": [
    "Verif.C14_applyOp_exact",
    "Verif.C14_applyOp_amplitudes"
   ],
   "note": ""
  },
  {
   "property": "C15",
   "status": "proved",
   "theorems": [
    "Verif.C15_applyOp_restricted",
    "Verif.C15_applyOp_restricted_amplitudes"
   ],
   "note": ""
  },
  {
   "property": "C16",
   "status": "partial",
   "theorems": [
    "Verif.C16_cache_transparent_partial",
    "Verif.C16_cache_transparent_step_partial",
    "Verif.C16_cache_transparent_fresh",
    "Verif.C16_cached_call",
    "Verif.C16_cache_not_transparent"
   ],
   "note": "False of the code in general (C16_cache_not_transparent); proved when no cached matrix element is below the cutoff, and always for product states not yet cached; C16_cached_call says exactly what is returned."
  },
  {
   "property": "C17",
   "status": "proved",
   "theorems": [
    "Verif.C17_cache_step",
    "Verif.C17_cache_history"
   ],
   "note": ""
  },
  {
   "property": "C18",
   "status": "proved",
   "theorems": [
    "Verif.C18_involution",
    "Verif.C18_processes",
    "Verif.C18_raises_iff",
    "Verif.C18_raw_agrees",
    "Verif.C18_adjoint"
   ],
   "note": ""
  },
  {
   "property": "C19",
   "status": "proved",
   "theorems": [
    "Verif.C19_matrix_hermitian"
   ],
   "note": ""
  },
  {
   "property": "C20",
   "status": "proved",
   "theorems": [
    "Verif.C20_modes_agree",
    "Verif.C50_dense_MPI",
    "Verif.C50_sparse_MPI"
   ],
   "note": ""
  },
  {
   "property": "C21",
   "status": "proved",
   "theorems": [
    "Verif.C21_matrix_elements"
   ],
   "note": ""
  },
  {
   "property": "C22",
   "status": "proved",
   "theorems": [
    "Verif.C22_expand_basis"
   ],
   "note": ""
  },
  {
   "property": "C23",
   "status": "proved",
   "theorems": [
    "Verif.C23_parallel_expand"
   ],
   "note": ""
  },
  {
   "property": "C24",
   "status": "proved",
   "theorems": [
    "Verif.C24_one_rank"
   ],
   "note": "the restrictions and the operator are the same in all calls of a history, as in the code"
  },
  {
   "property": "C25",
   "status": "proved",
   "theorems": [
    "Verif.C25_distributed_hamiltonian"
   ],
   "note": ""
  },
  {
   "property": "C26",
   "status": "proved",
   "theorems": [
    "Verif.C26_expanded_hermitian",
    "Verif.C26_not_hermitian_outside_restrictions"
   ],
   "note": ""
  },
  {
   "property": "C27",
   "status": "proved",
   "theorems": [
    "Verif.C27_add",
    "Verif.C27_addToFirst",
    "Verif.C27_inner",
    "Verif.C27_inner_symm",
    "Verif.C27_inner_linear",
    "Verif.C27_norm2",
    "Verif.C27_norm2_eq_inner"
   ],
   "note": ""
  },
  {
   "property": "C28",
   "status": "proved",
   "theorems": [
    "Verif.C28_addOps_sum",
    "Verif.C28_addOps_applyOp",
    "Verif.C28_addOps_strengths"
   ],
   "note": ""
  },
  {
   "property": "C29",
   "status": "proved",
   "theorems": [
    "Verif.C29_applyOp",
    "Verif.C29_expand_basis"
   ],
   "note": ""
  },
  {
   "property": "C30",
   "status": "proved",
   "theorems": [
    "Verif.C30_conserves",
    "Verif.C30_pauli",
    "Verif.C30_meaning",
    "Verif.C30_no_spin",
    "Verif.C30_spin_independent",
    "Verif.C30_adjoint",
    "Verif.C30_with_reverse_hermitian",
    "Verif.C30_slater_condon_hermitian",
    "Verif.C30_slater_condon_conserves",
    "Verif.C30_slater_condon_meaning"
   ],
   "note": "Gaunt coefficients are a parameter; hermiticity uses their exchange and sign symmetries."
  },
  {
   "property": "C31",
   "status": "proved",
   "theorems": [
    "Verif.C31_hermitian",
    "Verif.C31_conserves",
    "Verif.C31_meaning"
   ],
   "note": ""
  },
  {
   "property": "C32",
   "status": "proved",
   "theorems": [
    "Verif.C32_hermitian",
    "Verif.C32_meaning",
    "Verif.C32_processes"
   ],
   "note": ""
  },
  {
   "property": "C33",
   "status": "proved",
   "theorems": [
    "Verif.C33_elements",
    "Verif.C33_hermitian",
    "Verif.C33_diagonal",
    "Verif.C33_occupation_bounds"
   ],
   "note": ""
  },
  {
   "property": "C34",
   "status": "proved",
   "theorems": [
    "Verif.C34_expectation",
    "Verif.C34_mean"
   ],
   "note": ""
  },
  {
   "property": "C35",
   "status": "proved",
   "theorems": [
    "Verif.C35_meaning",
    "Verif.C35_adjoint",
    "Verif.C35_commutators",
    "Verif.C35_squares"
   ],
   "note": ""
  },
  {
   "property": "C36",
   "status": "proved",
   "theorems": [
    "Verif.C36_unitary",
    "Verif.C36_columns"
   ],
   "note": ""
  },
  {
   "property": "C37",
   "status": "proved",
   "theorems": [
    "Verif.C37_cubic_density",
    "Verif.C37_occupations"
   ],
   "note": ""
  },
  {
   "property": "C38",
   "status": "proved",
   "theorems": [
    "Verif.C38_boltzmann",
    "Verif.C38_raises",
    "Verif.C38_shift",
    "Verif.C38_convex",
    "Verif.C38_bounds",
    "Verif.C38_constant",
    "Verif.C38_order"
   ],
   "note": ""
  },
  {
   "property": "C39",
   "status": "proved",
   "theorems": [
    "Verif.C39_double_counting"
   ],
   "note": "for the argument tuples the docstring describes; the numbers are checked against the energy differences the docstring states"
  },
  {
   "property": "C40",
   "status": "proved",
   "theorems": [
    "Verif.C40_continued_fraction",
    "Verif.C40_zero_width"
   ],
   "note": "C40_zero_width: the broadening has to be different from zero"
  },
  {
   "property": "C41",
   "status": "proved",
   "theorems": [
    "Verif.C41_tridiagonal",
    "Verif.C41_raises",
    "Verif.C41_total",
    "Verif.C41_exact",
    "Verif.C41_moments"
   ],
   "note": "modes dense and sparse; exact arithmetic"
  },
  {
   "property": "C42",
   "status": "proved",
   "theorems": [
    "Verif.C42_distributed",
    "Verif.C42_error_hangs"
   ],
   "note": "every schedule; C42_error_hangs shows that the error case deadlocks all ranks but 0"
  },
  {
   "property": "C43",
   "status": "proved",
   "theorems": [
    "Verif.C43_green",
    "Verif.C43_spectra",
    "Verif.C43_rixs",
    "Verif.C43_simulate"
   ],
   "note": "every number of ranks, schedule, mode and iteration order; the linear solver of RIXS is arbitrary"
  },
  {
   "property": "C44",
   "status": "partial",
   "theorems": [
    "Verif.C44_first_operator_partial",
    "Verif.C44_all_rows_equal",
    "Verif.C44_violated"
   ],
   "note": "False of the code for all outgoing operators but the first (C44_violated): every row is that of the first operator (C44_all_rows_equal). Proved for the first operator."
  },
  {
   "property": "C45",
   "status": "proved",
   "theorems": [
    "Verif.C45_dipole",
    "Verif.C45_linear",
    "Verif.C45_daggered",
    "Verif.C45_rejects"
   ],
   "note": "Gaunt coefficients are a parameter"
  },
  {
   "property": "C46",
   "status": "partial",
   "theorems": [
    "Verif.C46_plane_wave_partial",
    "Verif.C46_operator",
    "Verif.C46_mirror",
    "Verif.C46_along_z",
    "Verif.C46_violated",
    "Verif.C46_violated_everywhere"
   ],
   "note": "Proved for q_y >= 0 and q not along z, up to the constant factor sqrt(4 pi); false of the code for q_y < 0 (C46_violated; C46_violated_everywhere with the actual Gaunt coefficients, for all shells and all such q outside the planes sin((li+lj) phi) = 0) and undefined along z (C46_along_z). Gaunt coefficients, spherical harmonics and Bessel functions are parameters."
  },
  {
   "property": "C47",
   "status": "proved",
   "theorems": [
    "Verif.C47_enumerate",
    "Verif.C47_sum_rules"
   ],
   "note": ""
  },
  {
   "property": "C48",
   "status": "proved",
   "theorems": [
    "Verif.C48_rixs_file"
   ],
   "note": "the number of in-coming energies is a natural number the float32 format represents exactly (below 2^24)"
  },
  {
   "property": "C49",
   "status": "proved",
   "theorems": [
    "Verif.C49_allgather",
    "Verif.C49_union",
    "Verif.C49_chunks"
   ],
   "note": "np.int is taken to exist (numpy < 1.24)"
  },
  {
   "property": "C50",
   "status": "proved",
   "theorems": [
    "Verif.C23_parallel_expand",
    "Verif.C25_distributed_hamiltonian",
    "Verif.C50_dense_MPI",
    "Verif.C50_sparse_MPI",
    "Verif.C49_allgather"
   ],
   "note": "every schedule of a rendezvous and of a buffered semantics"
  },
  {
   "property": "C51",
   "status": "proved",
   "theorems": [
    "Verif.C51_eigensystem",
    "Verif.C51_count",
    "Verif.C51_returns"
   ],
   "note": "scipy's eigensolvers are a parameter with a correctness specification (SolverCorrect), shown to be satisfiable"
  },
  {
   "property": "C52",
   "status": "proved",
   "theorems": [
    "Verif.C52_energy_cut",
    "Verif.C52_needs_order",
    "Verif.C52_after_eigensystem"
   ],
   "note": ""
  },
  {
   "property": "C53",
   "status": "proved",
   "theorems": [
    "Verif.C53_meaning",
    "Verif.C53_raises",
    "Verif.C53_file"
   ],
   "note": ""
  },
  {
   "property": "C54",
   "status": "proved",
   "theorems": [
    "Verif.C54_accepts",
    "Verif.C54_meaning"
   ],
   "note": "Gaunt coefficients are a parameter"
  },
  {
   "property": "C55",
   "status": "proved",
   "theorems": [
    "Verif.C55_meaning",
    "Verif.C55_admits"
   ],
   "note": "the property as stated holds exactly when the tolerance or dnCon is at most one; C55_admits is that equivalence"
  },
  {
   "property": "C56",
   "status": "partial",
   "theorems": [
    "Verif.C56_bath_numbering_partial",
    "Verif.C56_assembles",
    "Verif.C56_violated"
   ],
   "note": "false of the code unless nValBaths[2] = 10 (C56_violated)"
  },
  {
   "property": "C57",
   "status": "proved",
   "theorems": [
    "Verif.C57_exact",
    "Verif.C57_raises",
    "Verif.C57_exhausted",
    "Verif.C57_exact_operator"
   ],
   "note": "the matrices are in exact arithmetic; C57_exact_operator states it for the second-quantised operator itself"
  },
  {
   "property": "C58",
   "status": "proved",
   "theorems": [
    "Verif.C58_green",
    "Verif.C58_hBuild",
    "Verif.C58_eigenStates",
    "Verif.C58_modes_agree",
    "Verif.C58_other_ranks",
    "Verif.C58_only_root"
   ],
   "note": "C58_only_root: in mode H_build the array of rank 1 can differ from that of rank 0"
  },
  {
   "property": "C59",
   "status": "proved",
   "theorems": [
    "Verif.C59_eigenStates",
    "Verif.C59_hBuild"
   ],
   "note": "mode H_build: for transition operators without matrix elements below slaterWeightMin, since its cache drops them (C16)"
  },
  {
   "property": "C60",
   "status": "proved",
   "theorems": [
    "Verif.C60_ranks_and_modes",
    "Verif.C60_unknown_mode"
   ],
   "note": ""
  },
  {
   "property": "C61",
   "status": "proved",
   "theorems": [
    "Verif.C61_rixs"
   ],
   "note": "the linear solver is a parameter, assumed to solve systems with an invertible matrix; for incoming and first outgoing operators without matrix elements below slaterWeightMin (C16)"
  },
  {
   "property": "C62",
   "status": "proved",
   "theorems": [
    "Verif.C62_ranks"
   ],
   "note": ""
  },
  {
   "property": "C63",
   "status": "proved",
   "theorems": [
    "Verif.C63_tables",
    "Verif.C63_photoemission",
    "Verif.C63_xps",
    "Verif.C63_xas",
    "Verif.C63_nixs",
    "Verif.C63_rixs",
    "Verif.C63_rixs_file"
   ],
   "note": "transition operators without matrix elements below slaterWeightMin (C16); the azimuth of q enters NIXS as its absolute value (C46) and all outgoing polarisations of RIXS give the row of the first (C44); rounding in the text tables is left out"
  },
  {
   "property": "C64",
   "status": "proved",
   "theorems": [
    "Verif.C64_ranks",
    "Verif.C64_example"
   ],
   "note": "for Gaunt coefficients that are zero or give dipole matrix elements not below 1e-7 (GauntLarge), so that the caches are transparent (C16)"
  },
  {
   "property": "C65",
   "status": "proved",
   "theorems": [
    "Verif.C65_run",
    "Verif.C65_spectra",
    "Verif.C65_needs_temperature"
   ],
   "note": "the eigensolver is a parameter with a correctness specification, as are the Gaunt coefficients, spherical harmonics, Bessel functions and the linear solver"
  },
  {
   "property": "C66",
   "status": "proved",
   "theorems": [
    "Verif.C66_printed",
    "Verif.C66_temperature"
   ],
   "note": "the values refer to the pruned, not renormalised, eigenvectors; rounding in the printout is left out"
  },
  {
   "property": "C67",
   "status": "proved",
   "theorems": [
    "Verif.C66_printed",
    "Verif.C67_identifies"
   ],
   "note": "the density matrix is printed for tolPrintOccupation >= 0; numpy byte arrays drop trailing zero bytes"
  },
  {
   "property": "C68",
   "status": "proved",
   "theorems": [
    "Verif.C68_spin",
    "Verif.C68_orbital",
    "Verif.C68_spin_orbit",
    "Verif.C68_field",
    "Verif.C68_slater_condon",
    "Verif.C68_hamiltonian"
   ],
   "note": "bath electrons are not rotated"
  },
  {
   "property": "C69",
   "status": "proved",
   "theorems": [
    "Verif.C69_monopole"
   ],
   "note": "with the Gaunt coefficients of sympy's formula"
  },
  {
   "property": "C70",
   "status": "proved",
   "theorems": [
    "Verif.C70_gaunt"
   ],
   "note": "about sympy's formula, which is not part of the repository and is modelled from its documentation"
  },
  {
   "property": "C71",
   "status": "proved",
   "theorems": [
    "Verif.C71_raises",
    "Verif.C71_same",
    "Verif.C71_exact",
    "Verif.C71_too_large",
    "Verif.C71_refused"
   ],
   "note": "for slaterWeightMin <= 0, and no nonzero matrix element with a weight below the 1e-12 of expand_basis_and_hamiltonian"
  },
  {
   "property": "C72",
   "status": "proved",
   "theorems": [
    "Verif.C72_green",
    "Verif.C72_energies",
    "Verif.C72_eigenStates",
    "Verif.C72_hBuild",
    "Verif.C72_photoemission",
    "Verif.C72_sum_rule"
   ],
   "note": "mode H_build on rank 0 and for transition operators without matrix elements below slaterWeightMin (C16, C58); the areas are those of the functions of which the stored values are samples"
  },
  {
   "property": "C73",
   "status": "proved",
   "theorems": [
    "Verif.C73_checks",
    "Verif.C73_script",
    "Verif.C73_setup_iff",
    "Verif.C73_open_core_rejected",
    "Verif.C73_short_list_rejected",
    "Verif.C73_crystal_field",
    "Verif.C73_defaults"
   ],
   "note": "argparse itself is left out; numbers of bath states are not negative"
  },
  {
   "property": "C74",
   "status": "proved",
   "theorems": [
    "Verif.C74_figures",
    "Verif.C74_run",
    "Verif.C74_two_polarisations"
   ],
   "note": "rendering by matplotlib is left out: a figure is the data given to it; HDF5 stores and returns the arrays"
  },
  {
   "property": "C75",
   "status": "proved",
   "theorems": [
    "Verif.C75_eigensystem",
    "Verif.C75_eigensystem_unique",
    "Verif.C75_more_configurations",
    "Verif.C75_unique",
    "Verif.C75_variational"
   ],
   "note": "the eigensolver is a parameter with a correctness specification; the Hamiltonian is the stored matrix, without elements of weight below 1e-12"
  },
  {
   "property": "C76",
   "status": "proved",
   "theorems": [
    "Verif.C76_responses",
    "Verif.C76_main"
   ],
   "note": "the eigensolver is a parameter with a correctness specification; if nPsiMax cuts through a degenerate energy the states differ, so the theorem asks for a computed energy above the cut; if the Krylov spaces are not exhausted the spectra agree up to the error of 150 Lanczos vectors (Almost)"
  },
  {
   "property": "C77",
   "status": "proved",
   "theorems": [
    "Verif.C77_main",
    "Verif.C77_crystal_field"
   ],
   "note": "rotation of bath states is a parameter; the cutoffs have to be harmless because they break the symmetry of superpositions"
  },
  {
   "property": "C78",
   "status": "proved",
   "theorems": [
    "Verif.C78_printed",
    "Verif.C78_photoemission",
    "Verif.C78_crystal_field"
   ],
   "note": "time reversal of bath states is a parameter; the pruned eigenvectors have to be normalised, and for spectra the cutoffs harmless"
  },
  {
   "property": "C79",
   "status": "proved",
   "theorems": [
    "Verif.C79_eigensystem",
    "Verif.C79_main",
    "Verif.C79_crystal_field"
   ],
   "note": "time reversal of bath states is a parameter; electrons may only leave valence baths that exist, otherwise the electron number varies (C13)"
  },
  {
   "property": "C80",
   "status": "proved",
   "theorems": [
    "Verif.C80_two_runs",
    "Verif.C80_files",
    "Verif.C80_once",
    "Verif.C80_same_program"
   ],
   "note": "what h5py and the operating system have flushed when a run is killed is not modelled: the entries are completed calls; h0_filename is left out of data.npz"
  },
  {
   "property": "C81",
   "status": "proved",
   "theorems": [
    "Verif.C81_main",
    "Verif.C81_core_level",
    "Verif.C81_energy_zero",
    "Verif.C81_conserved",
    "Verif.C81_raised"
   ],
   "note": "the spectra are compared where the moved mesh points are again mesh points, and under the assumptions named in the statement; up to the error of 150 Lanczos vectors unless the Krylov spaces are exhausted"
  },
  {
   "property": "C82",
   "status": "proved",
   "theorems": [
    "Verif.C82_green",
    "Verif.C82_rate",
    "Verif.C82_eigenStates",
    "Verif.C82_hBuild",
    "Verif.C82_photoemission",
    "Verif.C82_xps",
    "Verif.C82_xas",
    "Verif.C82_nixs",
    "Verif.C82_rixs",
    "Verif.C82_thermal",
    "Verif.C82_always",
    "Verif.C82_main"
   ],
   "note": "exact arithmetic; XAS, NIXS and RIXS assume that no matrix element of the transition operators is dropped"
  },
  {
   "property": "C83",
   "status": "proved",
   "theorems": [
    "Verif.C83_fraction",
    "Verif.C83_green",
    "Verif.C83_truncated"
   ],
   "note": "the errors of the coefficients are given; how floating-point arithmetic produces them is not modelled"
  },
  {
   "property": "C84",
   "status": "proved",
   "theorems": [
    "Verif.C84_energies",
    "Verif.C84_eigensystem",
    "Verif.C84_response",
    "Verif.C84_rixs",
    "Verif.C84_states",
    "Verif.C84_main",
    "Verif.C84_bounded"
   ],
   "note": "exact real arithmetic; bounds of the transition operators are given or follow from their strengths (C84_bounded)"
  },
  {
   "property": "C85",
   "status": "proved",
   "theorems": [
    "Verif.C85_no_overflow",
    "Verif.C85_left_out",
    "Verif.C85_cold",
    "Verif.C85_hot",
    "Verif.C85_warmer",
    "Verif.C85_energy_cut",
    "Verif.C85_main"
   ],
   "note": "exact real arithmetic; the bound on the evaluated exponentials is what keeps floating-point arithmetic from overflowing"
  },
  {
   "property": "C86",
   "status": "proved",
   "theorems": [
    "Verif.C86_eigensystem",
    "Verif.C86_shifted",
    "Verif.C86_concave",
    "Verif.C86_main",
    "Verif.C86_monopoles",
    "Verif.C86_main_concave"
   ],
   "note": "exact real arithmetic and exact eigensolver; the spin-orbit bound uses the sum of magnitudes, not the sharp norm of l·s"
  },
  {
   "property": "C87",
   "status": "proved",
   "theorems": [
    "Verif.C87_basis_count",
    "Verif.C87_frozen_baths",
    "Verif.C87_nonempty"
   ],
   "note": "Follows the lists the code builds; the quirk for valBaths = 0 (see C13) is the factor 1."
  },
  {
   "property": "C88",
   "status": "proved",
   "theorems": [
    "Verif.C88_near_states",
    "Verif.C88_each_energy",
    "Verif.C88_each_state",
    "Verif.C88_energies",
    "Verif.C88_main"
   ],
   "note": "Exact arithmetic apart from the residual. The example runs main with a solver whose energies are all wrong by a given amount."
  },
  {
   "property": "C89",
   "status": "proved",
   "theorems": [
    "Verif.C89_matrix",
    "Verif.C89_carried",
    "Verif.C89_main"
   ],
   "note": "Exact solvers. The spectra are compared when the energy window ends before the list of energies does, as in C81, and agree up to the error of 150 Lanczos vectors unless the Krylov spaces are exhausted."
  },
  {
   "property": "C90",
   "status": "proved",
   "theorems": [
    "Verif.C90_main"
   ],
   "note": "Exact solvers, cutoffs drop nothing; up to the error of 150 Lanczos vectors unless the Krylov spaces are exhausted; GauntInvariant and GauntSymmetric are the identities of the exact Gaunt coefficients (proved rotation invariance of the interaction). The spectra are compared when the energy window ends before the list of energies does, as in C81."
  },
  {
   "property": "C91",
   "status": "proved",
   "theorems": [
    "Verif.C91_main"
   ],
   "note": "As C90. RIXS only for the out-going polarisation x, because main evaluates no other one (C44)."
  },
  {
   "property": "C92",
   "status": "proved",
   "theorems": [
    "Verif.C92_main"
   ],
   "note": "Exact solvers, cutoffs drop nothing; up to the error of 150 Lanczos vectors unless the Krylov spaces are exhausted; holds for any Gaunt coefficients with the selection rules."
  },
  {
   "property": "C93",
   "status": "proved",
   "theorems": [
    "Verif.C93_printed_sizes",
    "Verif.C93_serial"
   ],
   "note": "timings are left out"
  },
  {
   "property": "C94",
   "status": "proved",
   "theorems": [
    "Verif.C94_exact_fraction",
    "Verif.C94_exact_average",
    "Verif.C94_fraction",
    "Verif.C94_green",
    "Verif.C94_average"
   ],
   "note": "overflow, underflow and fused multiply-add are left out; rounding within the Lanczos recursion enters as the inexactness of the coefficients, as in C83"
  },
  {
   "property": "C95",
   "status": "proved",
   "theorems": [
    "Verif.C95_eigensystem",
    "Verif.C95_main"
   ],
   "note": "main: changes of the field along z and of the d levels; the accuracy adds 1e-6 for each process of the two Hamiltonians and 1e-7 of the largest change for each product state of the basis"
  },
  {
   "property": "C96",
   "status": "proved",
   "theorems": [
    "Verif.C96_green",
    "Verif.C96_unique",
    "Verif.C96_eigenStates",
    "Verif.C96_hBuild",
    "Verif.C96_photoemission",
    "Verif.C96_xps",
    "Verif.C96_xas",
    "Verif.C96_nixs",
    "Verif.C96_main"
   ],
   "note": "C96_hBuild and the simulate_spectra theorems need that no matrix element of the transition operator is below the cutoff; main meets this for all spectra except possibly NIXS; C97_rixs needs it for the absorption, and that no amplitude after the emission is dropped"
  },
  {
   "property": "C97",
   "status": "proved",
   "theorems": [
    "Verif.C97_eigenStates",
    "Verif.C97_hBuild",
    "Verif.C97_photoemission",
    "Verif.C97_xps",
    "Verif.C97_xas",
    "Verif.C97_nixs",
    "Verif.C97_main",
    "Verif.C97_rixs",
    "Verif.C97_thermal",
    "Verif.C97_averages",
    "Verif.C97_mainMore"
   ],
   "note": "C97_hBuild, C97_xas and C97_nixs need that no matrix element of the transition operators is below the cutoff; main meets this for all spectra except possibly NIXS; C97_rixs needs it for the absorption, and that no amplitude after the emission is dropped"
  },
  {
   "property": "C98",
   "status": "proved",
   "theorems": [
    "Verif.C98_word",
    "Verif.C98_file",
    "Verif.C98_radial",
    "Verif.C98_number",
    "Verif.C98_table",
    "Verif.C98_header",
    "Verif.C98_nearest",
    "Verif.C98_sum",
    "Verif.C98_simulate",
    "Verif.C98_main"
   ],
   "note": "numbers are exact: the binary rounding of a number that is read is left out; radial files with a single row or column, of which numpy makes a vector, are outside the model"
  },
  {
   "property": "C99",
   "status": "proved",
   "theorems": [
    "Verif.C99_parse",
    "Verif.C99_unknown",
    "Verif.C99_exponent"
   ],
   "note": "argparse before Python 3.14; outside the model: the word --, blanks and underscores in numbers, nan and inf, and negative values of ls, nBaths, nPsiMax and nPrintSlaterWeights"
  }
 ]
}