"""Write MANIFEST.json; every theorem name must exist in lean/Verif/Prop."""
import json, os, re, glob
here = os.path.dirname(os.path.abspath(__file__))
root = os.path.dirname(here)
names = {}
for f in glob.glob(os.path.join(root, "lean/Verif/Prop/*.lean")):
    for m in re.finditer(r"^(?:theorem|lemma)\s+([A-Za-z0-9_'.]+)", open(f).read(), re.M):
        names[m.group(1)] = os.path.basename(f)
C = []
def c(prop, status, theorems, note=""):
    for t in theorems.split():
        assert t in names, t
    C.append({"property": prop, "status": status,
              "theorems": ["Verif." + t for t in theorems.split()], "note": note})

c("C01", "proved", "C01_conversions_agree C01_empty_system C01_encodings_exhaust C01_malformed C01_int_too_big",
  "int format needs n>=1, as in Python")
c("C02", "proved", "C02_bytes_injective C02_bytes_order")
c("C03", "proved", "C03_normalises")
c("C04", "proved", "C04_create_empty C04_create_occupied C04_C05_index_too_big C04_C05_inverse create_ustr_negative_corrupts")
c("C05", "proved", "C05_remove_occupied C05_remove_empty C04_C05_index_too_big C04_C05_inverse")
c("C06", "proved", "C06_anticommutator_ac C06_anticommutator_aa C06_anticommutator_cc")
c("C07", "proved", "C07_a_exact C07_c_exact C07_adjoint")
c("C14", "proved", "C14_applyOp_exact C14_applyOp_amplitudes")
c("C15", "proved", "C15_applyOp_restricted C15_applyOp_restricted_amplitudes")
c("C16", "partial", "C16_cache_transparent_partial C16_cache_transparent_step_partial C16_cache_transparent_fresh C16_cached_call C16_cache_not_transparent",
  "False of the code in general (C16_cache_not_transparent); proved when no cached matrix element is below the cutoff, and always for product states not yet cached; C16_cached_call says exactly what is returned.")
c("C17", "proved", "C17_cache_step C17_cache_history")
c("C18", "proved", "C18_involution C18_processes C18_raises_iff C18_raw_agrees C18_adjoint")
c("C27", "proved", "C27_add C27_addToFirst C27_inner C27_inner_symm C27_inner_linear C27_norm2 C27_norm2_eq_inner")
c("C28", "proved", "C28_addOps_sum C28_addOps_applyOp C28_addOps_strengths")

c("C08", "proved", "C08_partition C08_balanced C08_positions")
c("C19", "proved", "C19_matrix_hermitian")
c("C20", "proved", "C20_modes_agree C50_dense_MPI C50_sparse_MPI")
c("C21", "proved", "C21_matrix_elements")

c("C22", "proved", "C22_expand_basis")
c("C23", "proved", "C23_parallel_expand")
c("C24", "proved", "C24_one_rank", "the restrictions and the operator are the same in all calls of a history, as in the code")
c("C25", "proved", "C25_distributed_hamiltonian")
c("C26", "proved", "C26_expanded_hermitian C26_not_hermitian_outside_restrictions")
c("C29", "proved", "C29_applyOp C29_expand_basis")
c("C49", "proved", "C49_allgather C49_union C49_chunks", "np.int is taken to exist (numpy < 1.24)")
c("C50", "proved", "C23_parallel_expand C25_distributed_hamiltonian C50_dense_MPI C50_sparse_MPI C49_allgather",
  "every schedule of a rendezvous and of a buffered semantics")

c("C09", "proved", "C09_bijection C09_positions")
c("C10", "proved", "C10_rejects C10_negative_index", "indices are natural numbers in the property; C10_negative_index says what happens for negative ones")
c("C11", "proved", "C11_get_basis", "integer keys; a tuple key makes get_basis raise a TypeError")
c("C12", "proved", "C12_no_duplicates C12_raises_iff")
c("C13", "partial", "C13_electron_number_partial C13_violated",
  "False of the code when valBaths[l]=0 and dnValBaths[l]>0 (C13_violated); proved for all other parameters.")

c("C30","proved","C30_conserves C30_pauli C30_meaning C30_no_spin C30_spin_independent C30_adjoint C30_with_reverse_hermitian C30_slater_condon_hermitian C30_slater_condon_conserves C30_slater_condon_meaning","Gaunt coefficients are a parameter; hermiticity uses their exchange and sign symmetries.")
c("C31","proved","C31_hermitian C31_conserves C31_meaning","")
c("C32","proved","C32_hermitian C32_meaning C32_processes","")
c("C33","proved","C33_elements C33_hermitian C33_diagonal C33_occupation_bounds","")
c("C34","proved","C34_expectation C34_mean","")
c("C35","proved","C35_meaning C35_adjoint C35_commutators C35_squares","")
c("C36","proved","C36_unitary C36_columns","")
c("C37","proved","C37_cubic_density C37_occupations","")
c("C38","proved","C38_boltzmann C38_raises C38_shift C38_convex C38_bounds C38_constant C38_order","")
c("C39","proved","C39_double_counting","for the argument tuples the docstring describes; the numbers are checked against the energy differences the docstring states")
c("C40","proved","C40_continued_fraction C40_zero_width","C40_zero_width: the broadening has to be different from zero")
c("C41","proved","C41_tridiagonal C41_raises C41_total C41_exact C41_moments","modes dense and sparse; exact arithmetic")
c("C42","proved","C42_distributed C42_error_hangs","every schedule; C42_error_hangs shows that the error case deadlocks all ranks but 0")
c("C43","proved","C43_green C43_spectra C43_rixs C43_simulate","every number of ranks, schedule, mode and iteration order; the linear solver of RIXS is arbitrary")
c("C48","proved","C48_rixs_file","the number of in-coming energies is a natural number the float32 format represents exactly (below 2^24)")
c("C51","proved","C51_eigensystem C51_count C51_returns","scipy's eigensolvers are a parameter with a correctness specification (SolverCorrect), shown to be satisfiable")
c("C52","proved","C52_energy_cut C52_needs_order C52_after_eigensystem","")
c("C45","proved","C45_dipole C45_linear C45_daggered C45_rejects","Gaunt coefficients are a parameter")
c("C46","partial","C46_plane_wave_partial C46_operator C46_mirror C46_along_z C46_violated C46_violated_everywhere","Proved for q_y >= 0 and q not along z, up to the constant factor sqrt(4 pi); false of the code for q_y < 0 (C46_violated; C46_violated_everywhere with the actual Gaunt coefficients, for all shells and all such q outside the planes sin((li+lj) phi) = 0) and undefined along z (C46_along_z). Gaunt coefficients, spherical harmonics and Bessel functions are parameters.")
c("C47","proved","C47_enumerate C47_sum_rules","")
c("C53","proved","C53_meaning C53_raises C53_file","")
c("C54","proved","C54_accepts C54_meaning","Gaunt coefficients are a parameter")
c("C55","proved","C55_meaning C55_admits","the property as stated holds exactly when the tolerance or dnCon is at most one; C55_admits is that equivalence")
c("C56","partial","C56_bath_numbering_partial C56_assembles C56_violated","false of the code unless nValBaths[2] = 10 (C56_violated)")
c("C57","proved","C57_exact C57_raises C57_exhausted C57_exact_operator","the matrices are in exact arithmetic; C57_exact_operator states it for the second-quantised operator itself")
c("C58","proved","C58_green C58_hBuild C58_eigenStates C58_modes_agree C58_other_ranks C58_only_root","C58_only_root: in mode H_build the array of rank 1 can differ from that of rank 0")
c("C59","proved","C59_eigenStates C59_hBuild","mode H_build: for transition operators without matrix elements below slaterWeightMin, since its cache drops them (C16)")
c("C44","partial","C44_first_operator_partial C44_all_rows_equal C44_violated","False of the code for all outgoing operators but the first (C44_violated): every row is that of the first operator (C44_all_rows_equal). Proved for the first operator.")
c("C60","proved","C60_ranks_and_modes C60_unknown_mode","")
c("C61","proved","C61_rixs","the linear solver is a parameter, assumed to solve systems with an invertible matrix; for incoming and first outgoing operators without matrix elements below slaterWeightMin (C16)")
c("C62","proved","C62_ranks","")
c("C63","proved","C63_tables C63_photoemission C63_xps C63_xas C63_nixs C63_rixs C63_rixs_file","transition operators without matrix elements below slaterWeightMin (C16); the azimuth of q enters NIXS as its absolute value (C46) and all outgoing polarisations of RIXS give the row of the first (C44); rounding in the text tables is left out")
c("C64","proved","C64_ranks C64_example","for Gaunt coefficients that are zero or give dipole matrix elements not below 1e-7 (GauntLarge), so that the caches are transparent (C16)")
c("C65","proved","C65_run C65_spectra C65_needs_temperature","the eigensolver is a parameter with a correctness specification, as are the Gaunt coefficients, spherical harmonics, Bessel functions and the linear solver")
c("C66","proved","C66_printed C66_temperature","the values refer to the pruned, not renormalised, eigenvectors; rounding in the printout is left out")
c("C67","proved","C66_printed C67_identifies","the density matrix is printed for tolPrintOccupation >= 0; numpy byte arrays drop trailing zero bytes")
c("C68","proved","C68_spin C68_orbital C68_spin_orbit C68_field C68_slater_condon C68_hamiltonian","bath electrons are not rotated")
c("C69","proved","C69_monopole","with the Gaunt coefficients of sympy's formula")
c("C70","proved","C70_gaunt","about sympy's formula, which is not part of the repository and is modelled from its documentation")
c("C71","proved","C71_raises C71_same C71_exact C71_too_large C71_refused","for slaterWeightMin <= 0, and no nonzero matrix element with a weight below the 1e-12 of expand_basis_and_hamiltonian")
c("C72","proved","C72_green C72_energies C72_eigenStates C72_hBuild C72_photoemission C72_sum_rule","mode H_build on rank 0 and for transition operators without matrix elements below slaterWeightMin (C16, C58); the areas are those of the functions of which the stored values are samples")
c("C73","proved","C73_checks C73_script C73_setup_iff C73_open_core_rejected C73_short_list_rejected C73_crystal_field C73_defaults","argparse itself is left out; numbers of bath states are not negative")
c("C74","proved","C74_figures C74_run C74_two_polarisations","rendering by matplotlib is left out: a figure is the data given to it; HDF5 stores and returns the arrays")
c("C75","proved","C75_eigensystem C75_eigensystem_unique C75_more_configurations C75_unique C75_variational","the eigensolver is a parameter with a correctness specification; the Hamiltonian is the stored matrix, without elements of weight below 1e-12")
c("C76","proved","C76_responses C76_main","the eigensolver is a parameter with a correctness specification; if nPsiMax cuts through a degenerate energy the states differ, so the theorem asks for a computed energy above the cut; if the Krylov spaces are not exhausted the spectra agree up to the error of 150 Lanczos vectors (Almost)")
c("C77","proved","C77_main C77_crystal_field","rotation of bath states is a parameter; the cutoffs have to be harmless because they break the symmetry of superpositions")
c("C78","proved","C78_printed C78_photoemission C78_crystal_field","time reversal of bath states is a parameter; the pruned eigenvectors have to be normalised, and for spectra the cutoffs harmless")
c("C79","proved","C79_eigensystem C79_main C79_crystal_field","time reversal of bath states is a parameter; electrons may only leave valence baths that exist, otherwise the electron number varies (C13)")
c("C80","proved","C80_two_runs C80_files C80_once C80_same_program","what h5py and the operating system have flushed when a run is killed is not modelled: the entries are completed calls; h0_filename is left out of data.npz")
c("C81","proved","C81_main C81_core_level C81_energy_zero C81_conserved C81_raised","the spectra are compared where the moved mesh points are again mesh points, and under the assumptions named in the statement; up to the error of 150 Lanczos vectors unless the Krylov spaces are exhausted")
c("C82","proved","C82_green C82_rate C82_eigenStates C82_hBuild C82_photoemission C82_xps C82_xas C82_nixs C82_rixs C82_thermal C82_always C82_main","exact arithmetic; XAS, NIXS and RIXS assume that no matrix element of the transition operators is dropped")
c("C83","proved","C83_fraction C83_green C83_truncated","the errors of the coefficients are given; how floating-point arithmetic produces them is not modelled")
c("C84","proved","C84_energies C84_eigensystem C84_response C84_rixs C84_states C84_main C84_bounded","exact real arithmetic; bounds of the transition operators are given or follow from their strengths (C84_bounded)")
c("C85","proved","C85_no_overflow C85_left_out C85_cold C85_hot C85_warmer C85_energy_cut C85_main","exact real arithmetic; the bound on the evaluated exponentials is what keeps floating-point arithmetic from overflowing")
c("C86","proved","C86_eigensystem C86_shifted C86_concave C86_main C86_monopoles C86_main_concave","exact real arithmetic and exact eigensolver; the spin-orbit bound uses the sum of magnitudes, not the sharp norm of l·s")
c("C87","proved","C87_basis_count C87_frozen_baths C87_nonempty","Follows the lists the code builds; the quirk for valBaths = 0 (see C13) is the factor 1.")
c("C88","proved","C88_near_states C88_each_energy C88_each_state C88_energies C88_main","Exact arithmetic apart from the residual. The example runs main with a solver whose energies are all wrong by a given amount.")
c("C89","proved","C89_matrix C89_carried C89_main","Exact solvers. The spectra are compared when the energy window ends before the list of energies does, as in C81, and agree up to the error of 150 Lanczos vectors unless the Krylov spaces are exhausted.")
c("C90","proved","C90_main","Exact solvers, cutoffs drop nothing; up to the error of 150 Lanczos vectors unless the Krylov spaces are exhausted; GauntInvariant and GauntSymmetric are the identities of the exact Gaunt coefficients (proved rotation invariance of the interaction). The spectra are compared when the energy window ends before the list of energies does, as in C81.")
c("C91","proved","C91_main","As C90. RIXS only for the out-going polarisation x, because main evaluates no other one (C44).")
c("C92","proved","C92_main","Exact solvers, cutoffs drop nothing; up to the error of 150 Lanczos vectors unless the Krylov spaces are exhausted; holds for any Gaunt coefficients with the selection rules.")
c("C93","proved","C93_printed_sizes C93_serial","timings are left out")
c("C94","proved","C94_exact_fraction C94_exact_average C94_fraction C94_green C94_average","overflow, underflow and fused multiply-add are left out; rounding within the Lanczos recursion enters as the inexactness of the coefficients, as in C83")
c("C95","proved","C95_eigensystem C95_main","main: changes of the field along z and of the d levels; the accuracy adds 1e-6 for each process of the two Hamiltonians and 1e-7 of the largest change for each product state of the basis")
c("C96","proved","C96_green C96_unique C96_eigenStates C96_hBuild C96_photoemission C96_xps C96_xas C96_nixs C96_main","C96_hBuild and the simulate_spectra theorems need that no matrix element of the transition operator is below the cutoff; main meets this for all spectra except possibly NIXS; C97_rixs needs it for the absorption, and that no amplitude after the emission is dropped")
c("C97","proved","C97_eigenStates C97_hBuild C97_photoemission C97_xps C97_xas C97_nixs C97_main C97_rixs C97_thermal C97_averages C97_mainMore","C97_hBuild, C97_xas and C97_nixs need that no matrix element of the transition operators is below the cutoff; main meets this for all spectra except possibly NIXS; C97_rixs needs it for the absorption, and that no amplitude after the emission is dropped")
c("C98","proved","C98_word C98_file C98_radial C98_number C98_table C98_header C98_nearest C98_sum C98_simulate C98_main","numbers are exact: the binary rounding of a number that is read is left out; radial files with a single row or column, of which numpy makes a vector, are outside the model")
c("C99","proved","C99_parse C99_unknown C99_exponent","argparse before Python 3.14; outside the model: the word --, blanks and underscores in numbers, nan and inf, and negative values of ls, nBaths, nPsiMax and nPrintSlaterWeights")
c("C100","proved","C100_table C100_averages C100_read C100_ascend C100_occupations C100_main C100_gaunt","numbers are exact: digits that change because a value was computed with rounding errors are left out")
c("C101","proved","C101_norm C101_overlap C101_occupation C101_orbital C101_spin C101_density C101_exact C101_double","overflow, underflow, fused multiply-add and compensated summation are left out; sums in the order of the dict")
c("C102","proved","C102_apply C102_matrix C102_energies C102_exact C102_double","without the cache of applyOp; the matrix in mode dense_serial, whose numbers the other modes store too; the solver is exact for the matrix it reads; overflow and underflow are left out")
c("C103","proved","C103_weights C103_operators C103_main","numbers are exact; DipoleTable is proved for the values of sympy.gaunt (sympyGaunt_table); circular polarisation is stated for the operators, since main stores x, y and z only")
c("C104","proved","C104_main C104_orbitals","numbers are exact; with the eigensolver of SolverCorrect; configurations with fewer d electrons than n0imps do lose their direct photoemission, as the theorem says")
c("C105","proved","C105_moments C105_fixed C105_main","numbers are exact")
c("C106","proved","C106_energies C106_tail C106_main","numbers are exact; NIXS needs that no matrix element of the transition operator is below the cutoff, as in C96")
c("C107","proved","C107_rixs C107_resonance C107_main C107_height C107_file","numbers are exact; numpy.linalg.solve is exact (ExactSolver); the moments, the area and the range of energy losses need that the normalised state after the emission has no amplitude below the cutoff slaterWeightMin (EmissionKept), as in C97; the sign, the height, the slope and the file need no such condition; the numbers of RIXS.bin are those before the rounding to single precision; main evaluates only the outgoing polarisation x (C44)")
c("C108","proved","C108_curve C108_main C108_holes","numbers are exact and before the rounding of the text files (C98); XAS needs that the Gaunt table has its dipole values (DipoleTable), as in C103")
c("C109","proved","C109_accepted C109_short C109_swallow","the converse of C99, with the same limits of the model of argparse")
c("C110","proved","C110_printed C110_spectra","time reversal of bath states is a parameter; C78_crystal_field provides it for crystal-field files; spherical harmonics with the usual phases are a hypothesis for NIXS; RIXS is not covered")
c("C111","proved","C111_printed C111_spectra C111_crystal_field","the turn of the bath states is a parameter; C111_crystal_field provides it for crystal-field files; NIXS has a fixed momentum transfer that is not along x, so no claim is made for it")
c("C112","proved","C112_printed C112_spectra C112_crystal_field","the turn of the bath states is a parameter; C112_crystal_field provides it for crystal-field files; no claim is made for NIXS, whose momentum transfer is not along y")
C.sort(key=lambda x: x["property"])
json.dump({"claims": C}, open(os.path.join(root, "MANIFEST.json"), "w"), indent=1, ensure_ascii=False)
print(len(C), "claims")
