{"id": "C01", "title": "The five product-state formats describe the same set of occupied spin-orbitals", "statement": "For a system of n spin-orbitals, every conversion function between tuple, str, int, bitarray and bytes maps the encoding of a set of occupied spin-orbitals to the encoding of the same set in the target format; hence every round trip is the identity. (n=0 with the int format is rejected by Python's int(); n>=1 there.) Strings with a character other than 0 and 1 raise a ValueError, and an int that is too big for n is not cut but gives a longer string.", "quantifier": "every n, every set of occupied spin-orbitals below n, all twenty conversion functions", "why_tests_cant": "There are 2^n states for every n and the byte format has padding that depends on n mod 8; a test only samples.", "anchors": ["impurityModel/ed/product_state_representation.py:str2int", "impurityModel/ed/product_state_representation.py:int2str", "impurityModel/ed/product_state_representation.py:str2tuple", "impurityModel/ed/product_state_representation.py:tuple2str", "impurityModel/ed/product_state_representation.py:tuple2int", "impurityModel/ed/product_state_representation.py:int2tuple", "impurityModel/ed/product_state_representation.py:bitarray2bytes", "impurityModel/ed/product_state_representation.py:bytes2bitarray", "impurityModel/ed/product_state_representation.py:int2bitarray", "impurityModel/ed/product_state_representation.py:bitarray2int", "impurityModel/ed/product_state_representation.py:bitarray2str", "impurityModel/ed/product_state_representation.py:str2bitarray", "impurityModel/ed/product_state_representation.py:tuple2bitarray", "impurityModel/ed/product_state_representation.py:bitarray2tuple", "impurityModel/ed/product_state_representation.py:tuple2bytes", "impurityModel/ed/product_state_representation.py:bytes2tuple", "impurityModel/ed/product_state_representation.py:str2bytes", "impurityModel/ed/product_state_representation.py:bytes2str", "impurityModel/ed/product_state_representation.py:int2bytes", "impurityModel/ed/product_state_representation.py:bytes2int"]}
{"id": "C02", "title": "Byte strings are faithful dictionary keys", "statement": "Two product states of the same system have the same bytes representation if and only if they occupy the same spin-orbitals; and sorting product states by their bytes representation sorts them by their integer representation.", "quantifier": "every n and every two sets of occupied spin-orbitals below n", "why_tests_cant": "Collision freedom and order agreement are statements about all pairs of states.", "anchors": ["impurityModel/ed/product_state_representation.py:tuple2bytes", "impurityModel/ed/product_state_representation.py:bytes2tuple", "impurityModel/ed/finite.py:expand_basis"]}
{"id": "C03", "title": "Conversions normalise any tuple", "statement": "Converting an arbitrary tuple of indices (unsorted, with repetitions, with indices outside the system) to str/bitarray/bytes and back gives the strictly increasing tuple of exactly those listed indices that lie inside the system.", "quantifier": "every tuple of natural numbers and every n", "why_tests_cant": "Arbitrary malformed tuples cannot be enumerated.", "anchors": ["impurityModel/ed/product_state_representation.py:tuple2str", "impurityModel/ed/product_state_representation.py:str2tuple", "impurityModel/ed/product_state_representation.py:tuple2bytes", "impurityModel/ed/product_state_representation.py:bytes2tuple"]}
{"id": "C04", "title": "Creating an electron: same result and sign in all five formats", "statement": "Creating an electron in spin-orbital i succeeds exactly when i is empty; the new state occupies additionally i; the amplitude is +1/-1 according to whether the number of electrons in spin-orbitals below i is even/odd. If i is occupied the amplitude is 0 (with the documented dummy states (), -1, '', or the unchanged bitarray/bytes).", "quantifier": "every n, every i<n, every product state, all five representations", "why_tests_cant": "The sign depends on the whole state; all formats must agree on all states.", "anchors": ["impurityModel/ed/create.py:utuple", "impurityModel/ed/create.py:uint", "impurityModel/ed/create.py:ustr", "impurityModel/ed/create.py:ubitarray", "impurityModel/ed/create.py:ubytes", "impurityModel/ed/create.py:binary_search_bigger"]}
{"id": "C05", "title": "Removing an electron: same result and sign in all five formats", "statement": "Removing an electron from spin-orbital i succeeds exactly when i is occupied; the new state occupies everything but i; the amplitude is the parity of the number of electrons below i. If i is empty the amplitude is 0 (with the documented dummy states).", "quantifier": "every n, every i<n, every product state, all five representations", "why_tests_cant": "The sign depends on the whole state; all formats must agree on all states.", "anchors": ["impurityModel/ed/remove.py:utuple", "impurityModel/ed/remove.py:uint", "impurityModel/ed/remove.py:ustr", "impurityModel/ed/remove.py:ubitarray", "impurityModel/ed/remove.py:ubytes", "impurityModel/ed/remove.py:binary_search"]}
{"id": "C06", "title": "Creation and annihilation on multi-configurational states obey the fermionic anticommutation relations", "statement": "For finite.a and finite.c acting on multi-configurational states: c_i c_j^dagger + c_j^dagger c_i = delta_ij, c_i c_j + c_j c_i = 0 and c_i^dagger c_j^dagger + c_j^dagger c_i^dagger = 0, as equalities of amplitudes for every product state.", "quantifier": "every n, all i,j<n, every multi-configurational state psi", "why_tests_cant": "Operator identities quantify over all vectors of a 2^n-dimensional space.", "anchors": ["impurityModel/ed/finite.py:a", "impurityModel/ed/finite.py:c", "impurityModel/ed/create.py:ubytes", "impurityModel/ed/remove.py:ubytes"]}
{"id": "C07", "title": "finite.a and finite.c lose no amplitude and are each other's adjoint", "statement": "finite.a/finite.c never let two input product states overwrite one output entry; the amplitude of each output product state is the signed amplitude of its unique preimage, and inner(phi, c_i^dagger psi) = inner(c_i phi, psi).", "quantifier": "every n, i<n, every pair of multi-configurational states", "why_tests_cant": "ret[state_new] = ... overwrites; absence of collisions must hold for all states.", "anchors": ["impurityModel/ed/finite.py:a", "impurityModel/ed/finite.py:c", "impurityModel/ed/finite.py:inner"]}
{"id": "C08", "title": "get_job_tasks is a balanced partition", "statement": "For any number of ranks, the tasks given to the ranks are pairwise disjoint (as positions), together they are exactly the list of tasks, and two ranks never differ by more than one task.", "quantifier": "every task list and every number of ranks >= 1", "why_tests_cant": "Needs all (number of tasks, number of ranks) pairs.", "anchors": ["impurityModel/ed/finite.py:get_job_tasks"]}
{"id": "C09", "title": "c2i and i2c are inverse bijections", "statement": "c2i maps the spin-orbitals and bath states of a system one-to-one onto 0..N-1 with N the number of spin-orbitals, impurity spin-orbitals first and bath states after; i2c is its inverse; also for shared-bath (tuple) keys.", "quantifier": "every ordered dict nBaths with distinct angular momenta (int keys and tuple keys), every label and every index", "why_tests_cant": "All systems cannot be enumerated.", "anchors": ["impurityModel/ed/finite.py:c2i", "impurityModel/ed/finite.py:i2c"]}
{"id": "C10", "title": "c2i and i2c reject exactly what is outside the system", "statement": "c2i raises exactly for labels that are not a spin-orbital or bath state of the system, and i2c raises exactly for indices >= N.", "quantifier": "every nBaths, every label, every natural index", "why_tests_cant": "Needs all labels and indices outside of the system.", "anchors": ["impurityModel/ed/finite.py:c2i", "impurityModel/ed/finite.py:i2c"]}
{"id": "C11", "title": "get_basis returns exactly the configurations allowed by the occupation parameters", "statement": "When get_basis returns, a set of occupied spin-orbitals is in the basis if and only if, for each angular momentum, for some number dnVal<=dnValBaths of electrons removed from the valence bath and some number dnCon<=dnConBaths put in the conduction bath with |dnVal-dnCon|<=dnTol, its impurity, valence bath and conduction bath occupations are n0imp+dnVal-dnCon, valBaths-dnVal and dnCon (valence clause vacuous when there is no valence bath).", "quantifier": "every system, every setting of the occupation parameters, every product state", "why_tests_cant": "The basis size is combinatorial; parameter space is unbounded.", "anchors": ["impurityModel/ed/finite.py:get_basis"]}
{"id": "C12", "title": "get_basis contains no product state twice and fails exactly on its assertions", "statement": "The returned basis never contains one product state twice, and get_basis raises exactly when valBaths>nBaths, an over-occupation assertion fails or a negative occupation is requested.", "quantifier": "every system and every setting of the occupation parameters", "why_tests_cant": "Duplicates would make the Hamiltonian matrix wrong; absence is a statement about all configurations.", "anchors": ["impurityModel/ed/finite.py:get_basis"]}
{"id": "C13", "title": "All states of the ground-state basis have the same number of electrons", "statement": "Every product state returned by get_basis has the same number of electrons, sum over l of n0imp+valBaths.", "quantifier": "every system and every setting of the occupation parameters for which get_basis returns", "why_tests_cant": "Must hold for every partition of every parameter setting. (The code violates it when an angular momentum without valence baths is given dnValBaths>0.)", "anchors": ["impurityModel/ed/finite.py:get_basis"]}
{"id": "C14", "title": "applyOp applies the second-quantised operator exactly", "statement": "Without restrictions, applyOp returns, for each product state, the amplitude <s|op|psi> of the second-quantised operator, dropping exactly the product states whose weight is below slaterWeightMin.", "quantifier": "every n, every operator (any number of processes of any length, indices<n), every state psi, every slaterWeightMin>0", "why_tests_cant": "Operators and states are unbounded; signs, cancellations and pruning interact.", "anchors": ["impurityModel/ed/finite.py:applyOp"]}
{"id": "C15", "title": "applyOp with restrictions keeps exactly the allowed product states", "statement": "With restrictions, applyOp returns the unrestricted amplitudes for the product states that fulfil all occupation restrictions and nothing else, although restrictions are only checked the first time a product state shows up.", "quantifier": "every n, operator, state, restrictions, slaterWeightMin", "why_tests_cant": "The short-circuit (skip the check if the state is already present) is only correct by an invariant over the loop.", "anchors": ["impurityModel/ed/finite.py:applyOp"]}
{"id": "C16", "title": "The opResult cache is transparent", "statement": "Calling applyOp with an opResult cache filled by earlier calls with the same operator gives the same state as without a cache. (False of the code when a matrix element is below the cutoff but its contribution to psi is not; true otherwise.)", "quantifier": "every history of applyOp calls sharing a cache", "why_tests_cant": "Depends on the history of calls; a sampled history cannot show it.", "anchors": ["impurityModel/ed/finite.py:applyOp", "impurityModel/ed/spectra.py:getSpectra", "impurityModel/ed/spectra.py:getRIXSmap"]}
{"id": "C17", "title": "The opResult cache stays correct", "statement": "After any sequence of applyOp calls with the same operator, cutoff and restrictions, each entry of opResult is the (pruned, restricted) result of the operator acting on its key product state, and every product state ever passed in has an entry.", "quantifier": "every history of applyOp calls sharing a cache", "why_tests_cant": "Invariant over unbounded histories.", "anchors": ["impurityModel/ed/finite.py:applyOp"]}
{"id": "C18", "title": "daggerOp is the adjoint", "statement": "daggerOp is an involution, raises exactly for unknown actions, and inner(phi, applyOp(op, psi)) = inner(applyOp(daggerOp(op), phi), psi) when no amplitudes are pruned.", "quantifier": "every operator and every pair of states", "why_tests_cant": "Adjointness is an identity over all vectors and operators.", "anchors": ["impurityModel/ed/finite.py:daggerOp", "impurityModel/ed/finite.py:applyOp", "impurityModel/ed/finite.py:inner"]}
{"id": "C19", "title": "assert_hermitian guarantees a Hermitian Hamiltonian matrix", "statement": "If assert_hermitian(op) passes, then the Hamiltonian matrix built from op in any basis of distinct product states is Hermitian, including the effect of amplitude pruning.", "quantifier": "every operator, every duplicate-free basis", "why_tests_cant": "All operators and bases.", "anchors": ["impurityModel/ed/finite.py:assert_hermitian", "impurityModel/ed/finite.py:get_hamiltonian_matrix", "impurityModel/ed/finite.py:applyOp"]}
{"id": "C20", "title": "All modes of get_hamiltonian_matrix give the same matrix on every rank", "statement": "dense_serial, dense_MPI, sparse_serial and sparse_MPI give the same matrix, for any number of MPI ranks and on each rank.", "quantifier": "every operator, duplicate-free basis, number of ranks, rank", "why_tests_cant": "Rank counts and bases are unbounded; tests run one rank.", "anchors": ["impurityModel/ed/finite.py:get_hamiltonian_matrix", "impurityModel/ed/finite.py:get_job_tasks"]}
{"id": "C21", "title": "Hamiltonian matrix elements are the operator's matrix elements", "statement": "Entry (i,j) of get_hamiltonian_matrix is <basis_i|op|basis_j> if its weight reaches the cutoff and 0 otherwise.", "quantifier": "every operator, duplicate-free basis, indices i,j", "why_tests_cant": "All operators and bases.", "anchors": ["impurityModel/ed/finite.py:get_hamiltonian_matrix"]}
{"id": "C22", "title": "expand_basis returns the smallest invariant set, and terminates", "statement": "expand_basis terminates; its result starts with basis0, has no repetitions if basis0 has none, and as a set is the smallest set of product states that contains basis0 and is closed under the (pruned, restricted) operator; the cache h_dict is extended by exactly the columns of the basis.", "quantifier": "every operator, restrictions, basis0, consistent h_dict", "why_tests_cant": "Termination and closure over unbounded expansion.", "anchors": ["impurityModel/ed/finite.py:expand_basis"]}
{"id": "C23", "title": "Parallel basis expansion equals the serial one", "statement": "In mode H_build every rank returns the same basis, in the same order, as the serial mode, for any number of ranks, any distribution of already known columns and any iteration order of Python sets.", "quantifier": "every number of ranks, initial distribution, set order, operator, basis0", "why_tests_cant": "Schedules, hash seeds and rank counts cannot be exhausted by tests.", "anchors": ["impurityModel/ed/finite.py:expand_basis", "impurityModel/ed/finite.py:get_job_tasks"]}
{"id": "C24", "title": "Every product state's column is stored on exactly one rank", "statement": "Starting from empty dictionaries, after any sequence of H_build expansions no product state is a key of the h_dict of two ranks, and each product state of the last basis is a key on exactly one rank.", "quantifier": "every history of expand_basis calls, every number of ranks", "why_tests_cant": "Invariant over unbounded histories and rank counts.", "anchors": ["impurityModel/ed/finite.py:expand_basis", "impurityModel/ed/finite.py:get_hamiltonian_matrix_from_h_dict"]}
{"id": "C25", "title": "Distributed Hamiltonians add up to the serial Hamiltonian", "statement": "The local Hamiltonians of the ranks sum to the Hamiltonian of the serial mode; no KeyError occurs for a basis made by expand_basis.", "quantifier": "every number of ranks, operator, restrictions, basis0, history", "why_tests_cant": "All distributions.", "anchors": ["impurityModel/ed/finite.py:get_hamiltonian_matrix_from_h_dict", "impurityModel/ed/finite.py:expand_basis_and_hamiltonian", "impurityModel/ed/finite.py:get_tridiagonal_krylov_vectors"]}
{"id": "C26", "title": "The expanded Hamiltonian is Hermitian", "statement": "For an operator that passes assert_hermitian and start states that fulfil the restrictions, the matrix of expand_basis_and_hamiltonian is Hermitian. (It need not be when a start state violates the restrictions.)", "quantifier": "every Hermitian operator, restrictions, basis0", "why_tests_cant": "All operators, restrictions and start states.", "anchors": ["impurityModel/ed/finite.py:expand_basis_and_hamiltonian", "impurityModel/ed/finite.py:applyOp"]}
{"id": "C27", "title": "Linear algebra on multi-configurational states", "statement": "add, addToFirst, inner and norm2 are vector addition, inner product and squared norm of the represented vectors: inner is conjugate-symmetric and linear in its second argument, norm2(psi)=inner(psi,psi), and norm2 = 0 only for the zero vector.", "quantifier": "all states and multipliers", "why_tests_cant": "Algebraic laws over all dictionaries.", "anchors": ["impurityModel/ed/finite.py:add", "impurityModel/ed/finite.py:addToFirst", "impurityModel/ed/finite.py:inner", "impurityModel/ed/finite.py:norm2"]}
{"id": "C28", "title": "addOps is the operator sum", "statement": "The operator returned by addOps acts as the sum of the operators, whatever their number and overlap; zero terms are skipped.", "quantifier": "every list of operators and every state", "why_tests_cant": "All operator lists.", "anchors": ["impurityModel/ed/finite.py:addOps"]}
{"id": "C29", "title": "Particle number conservation", "statement": "If every process of the operator has as many creations as annihilations, then applyOp on a state with N electrons gives only states with N electrons, and every product state found by expand_basis has the electron number of one of the start states.", "quantifier": "every number-conserving operator, state, basis0, restrictions", "why_tests_cant": "All operators.", "anchors": ["impurityModel/ed/finite.py:applyOp", "impurityModel/ed/finite.py:expand_basis"]}
{"id": "C30", "title": "Coulomb operator: conservation laws, Pauli principle, hermiticity", "statement": "Every process of getUop conserves the electron number, total m and spin; never creates or annihilates twice in the same spin-orbital; and for getUop(l1,l2,l3,l4) with its reverse included (as in get2p3dSlaterCondonUop) the operator is Hermitian, given the symmetries of the Gaunt coefficients. getNoSpinUop lists the same strengths without spin: half the Coulomb matrix element of four orbitals, wherever it is not zero.", "quantifier": "all angular momenta and Slater-Condon parameters", "why_tests_cant": "All l and real parameters.", "anchors": ["impurityModel/ed/finite.py:getUop", "impurityModel/ed/finite.py:getNoSpinUop", "impurityModel/ed/finite.py:getU", "impurityModel/ed/finite.py:gauntC", "impurityModel/ed/finite.py:get2p3dSlaterCondonUop"]}
{"id": "C31", "title": "Spin-orbit operator is Hermitian and conserves Jz", "statement": "getSOCop passes assert_hermitian for real xi, every process conserves m plus spin projection, and it equals xi times sum l.s.", "quantifier": "every l and every real xi", "why_tests_cant": "All l.", "anchors": ["impurityModel/ed/finite.py:getSOCop"]}
{"id": "C32", "title": "Magnetic field operator is h.S", "statement": "gethHfieldop passes assert_hermitian for real fields and acts as hx*Sx+hy*Sy+hz*Sz on the shell.", "quantifier": "every l and all real hx,hy,hz", "why_tests_cant": "All l and fields.", "anchors": ["impurityModel/ed/finite.py:gethHfieldop"]}
{"id": "C33", "title": "Density matrix is Hermitian, with trace equal to the occupation", "statement": "getDensityMatrix returns n_ij=<psi|c_j^dagger c_i|psi>, is Hermitian, has real diagonal between 0 and norm2(psi), and its diagonal sums to getTraceDensityMatrix.", "quantifier": "every system, l, state", "why_tests_cant": "All states.", "anchors": ["impurityModel/ed/finite.py:getDensityMatrix", "impurityModel/ed/finite.py:getTraceDensityMatrix"]}
{"id": "C34", "title": "Direct formulas for Lz and Sz agree with the operators", "statement": "getLz3d(psi)=inner(psi, applyLz3d(psi)) and getSz3d(psi)=inner(psi, applySz3d(psi)).", "quantifier": "every system containing a d shell, every state", "why_tests_cant": "All states.", "anchors": ["impurityModel/ed/finite.py:getLz3d", "impurityModel/ed/finite.py:getSz3d", "impurityModel/ed/finite.py:applyLz3d", "impurityModel/ed/finite.py:applySz3d"]}
{"id": "C35", "title": "Ladder operators obey the angular momentum algebra", "statement": "applySplus3d/applySminus3d and applyLplus3d/applyLminus3d are mutually adjoint; [S+,S-]=2Sz, [L+,L-]=2Lz, and getSsqr3d/getLsqr3d return <psi|S-S+ + Sz(Sz+1)|psi> and <psi|L-L+ + Lz(Lz+1)|psi>.", "quantifier": "every system containing a d shell, every state", "why_tests_cant": "Operator identities over all states.", "anchors": ["impurityModel/ed/finite.py:applySplus3d", "impurityModel/ed/finite.py:applySminus3d", "impurityModel/ed/finite.py:applyLplus3d", "impurityModel/ed/finite.py:applyLminus3d", "impurityModel/ed/finite.py:getSsqr3d", "impurityModel/ed/finite.py:getLsqr3d"]}
{"id": "C36", "title": "Spherical-to-cubic transformation is unitary", "statement": "get_spherical_2_cubic_matrix returns a unitary matrix for l=1,2 with and without spin.", "quantifier": "both l, both spinpol values, all matrix entries, exact arithmetic", "why_tests_cant": "Exact unitarity cannot be seen in floating point.", "anchors": ["impurityModel/ed/finite.py:get_spherical_2_cubic_matrix"]}
{"id": "C37", "title": "eg and t2g occupations add up to the d occupation", "statement": "The four numbers of getEgT2gOccupation are real, non-negative and sum to getTraceDensityMatrix; getDensityMatrixCubic is the unitarily rotated density matrix.", "quantifier": "every system containing a d shell, every state", "why_tests_cant": "All states.", "anchors": ["impurityModel/ed/finite.py:getEgT2gOccupation", "impurityModel/ed/finite.py:getDensityMatrixCubic"]}
{"id": "C38", "title": "Thermal average is a Boltzmann average", "statement": "thermal_average returns sum_i exp(-e_i/kT) o_i / sum_i exp(-e_i/kT); it is unaffected by a shift of all energies, lies between the smallest and largest observable, reproduces constants, and raises on mismatched lengths.", "quantifier": "every number of states, all energies, observables, T>0", "why_tests_cant": "All real inputs.", "anchors": ["impurityModel/ed/average.py:thermal_average"]}
{"id": "C39", "title": "Double counting accepts exactly the documented inputs", "statement": "dc_MLFT raises ValueError exactly when an occupation is not an integer or the 2p arguments are not all absent or (n2p_i=6 with Fpd and Gpd given); otherwise it returns the documented energies.", "quantifier": "all inputs", "why_tests_cant": "All argument combinations.", "anchors": ["impurityModel/ed/finite.py:dc_MLFT"]}
{"id": "C40", "title": "The continued fraction never divides by zero and has a positive spectral function", "statement": "For real alpha and beta and broadening delta>0, every denominator is non-zero, -Im g > 0 and |g|<=1/delta; g is the (0,0) element of the inverse of (omega+i delta+e - T) with T the tridiagonal matrix. Mirrored for delta<0.", "quantifier": "every Krylov size, all real alpha, beta, omega, e, delta", "why_tests_cant": "All sizes and reals.", "anchors": ["impurityModel/ed/spectra.py:getGreen"]}
{"id": "C41", "title": "Lanczos gives the exact Green's function when the Krylov space is exhausted", "statement": "In exact arithmetic, for a Hermitian matrix and a normalised start vector, if krylovSize is at least the dimension and no ValueError is raised, getGreen returns <psi|(omega+i delta+e-H)^{-1}|psi>; the generated Krylov vectors are orthonormal and alpha,beta are the tridiagonal form of H.", "quantifier": "every dimension, Hermitian H, start vector, energy, omega, delta", "why_tests_cant": "All matrices.", "anchors": ["impurityModel/ed/finite.py:get_tridiagonal_krylov_vectors", "impurityModel/ed/spectra.py:getGreen"]}
{"id": "C42", "title": "The distributed Lanczos equals the serial Lanczos on the root rank", "statement": "With H split as a sum over ranks, the root rank gets the same alpha, beta (and the same error) as the serial algorithm. (Other ranks return zeros; they do not get the spectrum, and when the root raises they are left waiting.)", "quantifier": "every number of ranks, every splitting, every start vector", "why_tests_cant": "All splittings and rank counts.", "anchors": ["impurityModel/ed/finite.py:get_tridiagonal_krylov_vectors"]}
{"id": "C43", "title": "Spectra are non-negative", "statement": "For delta>0 the PS, XPS, NIXS and XAS intensities that simulate_spectra stores (minus the imaginary part, with the sign conventions for photoemission) are >= 0 for every state, operator and energy.", "quantifier": "every state, transition operator, mesh point", "why_tests_cant": "All inputs.", "anchors": ["impurityModel/ed/spectra.py:getSpectra", "impurityModel/ed/spectra.py:simulate_spectra", "impurityModel/ed/spectra.py:getGreen"]}
{"id": "C44", "title": "RIXS for one outgoing polarisation depends only on that outgoing operator", "statement": "The RIXS map for outgoing operator number t is the map obtained with tOpsOut=[tOpsOut[t]] alone. (False of the code: the caches of all outgoing operators are one dictionary.)", "quantifier": "every list of outgoing operators and every state", "why_tests_cant": "Depends on aliasing across loop iterations and on all operators.", "anchors": ["impurityModel/ed/spectra.py:getRIXSmap"]}
{"id": "C45", "title": "Dipole operators obey the selection rules and daggering", "statement": "Every process of getDipoleOperator moves one electron from the first to the second shell, keeps the spin and changes m by at most one; the daggered operators are its adjoint; the operator is linear in the polarisation vector.", "quantifier": "every pair of shells, every polarisation vector", "why_tests_cant": "All l and vectors.", "anchors": ["impurityModel/ed/spectra.py:getDipoleOperator", "impurityModel/ed/spectra.py:getDaggeredDipoleOperators"]}
{"id": "C46", "title": "NIXS operator depends on the full direction of q", "statement": "getNIXSOperator conserves spin, moves electrons from lj to li and is the plane-wave operator for q. (False of the code: q and q with the sign of qy flipped give the same operator.)", "quantifier": "every q not along z, all shells, radial functions", "why_tests_cant": "All q.", "anchors": ["impurityModel/ed/spectra.py:getNIXSOperator"]}
{"id": "C47", "title": "Photoemission operators enumerate the shell", "statement": "getPhotoEmissionOperators/getInversePhotoEmissionOperators return one annihilation/creation operator with amplitude 1 for each spin-orbital of the shell, in index order, each exactly once; summing weights, the total removal weight is the occupation and the total addition weight is the number of holes.", "quantifier": "every system, every l in it, every state", "why_tests_cant": "All systems and states (sum rule).", "anchors": ["impurityModel/ed/spectra.py:getPhotoEmissionOperators", "impurityModel/ed/spectra.py:getInversePhotoEmissionOperators"]}
{"id": "C48", "title": "RIXS.bin can be read back", "statement": "The array that plotRIXS reconstructs from the flat binary file written by simulate_spectra has the written energy meshes and map, for all mesh sizes.", "quantifier": "every number of in-coming energies and losses, all map values", "why_tests_cant": "All sizes.", "anchors": ["impurityModel/ed/spectra.py:simulate_spectra", "impurityModel/plotScripts/plotRIXS.py:main"]}
{"id": "C49", "title": "allgather_dict gives every rank the union", "statement": "After allgather_dict every rank's total contains its former contents updated with the data of all ranks, whether or not the data is sent in chunks; chunks never exceed chunk_maxsize.", "quantifier": "every number of ranks, data, chunk size>=1", "why_tests_cant": "All sizes and rank counts.", "anchors": ["impurityModel/ed/mpi_comm.py:allgather_dict", "impurityModel/ed/mpi_comm.py:dict_chunks_from_one_MPI_rank"]}
{"id": "C50", "title": "MPI calls of all ranks match", "statement": "In expand_basis (H_build), get_hamiltonian_matrix (MPI modes) and allgather_dict all ranks perform the same sequence of collective operations and every message sent is received, so that no rank waits forever.", "quantifier": "every number of ranks, every input", "why_tests_cant": "Schedules and rank counts.", "anchors": ["impurityModel/ed/finite.py:expand_basis", "impurityModel/ed/finite.py:get_hamiltonian_matrix", "impurityModel/ed/mpi_comm.py:allgather_dict"]}
{"id": "C51", "title": "eigensystem returns the lowest states, paired with their energies", "statement": "The returned energies are in ascending order, each paired with its own eigenvector; they are the lowest ones, so that no state orthogonal to the returned ones has a lower energy; and dropping product states of weight below slaterWeightMin loses less than len(basis)*slaterWeightMin of the norm.", "quantifier": "every basis size, every eigenvector set returned by the diagonaliser", "why_tests_cant": "All inputs.", "anchors": ["impurityModel/ed/finite.py:eigensystem"]}
{"id": "C52", "title": "The energy cut keeps the matching eigenstates", "statement": "After the energy cut in main, the kept energies are exactly those less than energy_cut above the lowest and the kept states are their eigenstates.", "quantifier": "every ascending list of energies, every cut", "why_tests_cant": "All lists.", "anchors": ["impurityModel/ed/get_spectra.py:main", "impurityModel/ed/get_spectra_using_CF.py:main"]}
{"id": "C53", "title": "Crystal-field Hamiltonian is Hermitian with the requested levels", "statement": "get_CF_hamiltonian returns a Hermitian one-particle operator, diagonal in spin, whose impurity and bath blocks rotated to the cubic basis are diagonal with the eg/t2g parameters; conduction terms occur iff nBaths-nValBaths=10.", "quantifier": "all real crystal-field parameters, both bath bases", "why_tests_cant": "All real parameters.", "anchors": ["impurityModel/ed/get_spectra_using_CF.py:get_CF_hamiltonian"]}
{"id": "C54", "title": "Assembling the Hamiltonian loses no term", "statement": "Relabelling processes with c2i in get_hamiltonian_operator merges no two processes, and the final assert_hermitian passes if and only if the sum of the terms is Hermitian.", "quantifier": "every system and all operators", "why_tests_cant": "All systems.", "anchors": ["impurityModel/ed/get_spectra.py:get_hamiltonian_operator", "impurityModel/ed/finite.py:addOps", "impurityModel/ed/finite.py:assert_hermitian"]}
{"id": "C55", "title": "The restrictions of the excited states admit the ground-state basis", "statement": "Every product state of get_basis fulfils the occupation restrictions that main sets up for the excited states. (Holds exactly when the impurity cannot lose two electrons in the ground-state basis.)", "quantifier": "every system with a d shell and every setting of the occupation parameters", "why_tests_cant": "All parameter settings.", "anchors": ["impurityModel/ed/get_spectra.py:main", "impurityModel/ed/finite.py:get_basis"]}
{"id": "C56", "title": "The bath terms of the crystal-field Hamiltonian act on the right bath states", "statement": "In the operator of get_CF_hamiltonian the valence parameters act on the bath states below nValBaths[2] and the conduction parameters on the bath states from nValBaths[2] to nBaths[2], and the complete Hamiltonian built with it is accepted. (False unless nValBaths[2] is 10, which the code hard-wires.)", "quantifier": "all real crystal-field parameters, both bath bases, all numbers of bath states", "why_tests_cant": "All parameters and all systems.", "anchors": ["impurityModel/ed/get_spectra_using_CF.py:get_CF_hamiltonian", "impurityModel/ed/get_spectra_using_CF.py:get_hamiltonian_operator_using_CF"]}
{"id": "C57", "title": "getGreen computes the resolvent when the Krylov space is exhausted", "statement": "For a Hermitian Hamiltonian, a normalised state and delta!=0: if psi, H psi, ..., H^krylovSize psi are linearly dependent, the value getGreen returns at a mesh point w is <psi|(w+1j*delta+e-H)^-1|psi>, where H is the Hamiltonian between the product states the restrictions allow. getGreen raises exactly if krylovSize is 0 or the first min(krylovSize, number of reachable product states) Krylov vectors are linearly dependent, and otherwise returns one value per mesh point.", "quantifier": "every Hermitian operator, state, restriction, mesh, delta!=0, krylovSize and previously stored exact columns", "why_tests_cant": "A statement about all matrices and states; a numerical test fixes one matrix.", "anchors": ["impurityModel/ed/spectra.py:getGreen", "impurityModel/ed/spectra.py:get_tridiagonal_krylov_vectors", "impurityModel/ed/finite.py:expand_basis_and_hamiltonian"]}
{"id": "C58", "title": "Spectra do not depend on the number of MPI ranks", "statement": "getSpectra in mode eigen_states gives every rank the same array, which is the same for every number of ranks; in mode H_build rank 0 gets an array that does not depend on the number of ranks. If no matrix element of the transition operators is below slaterWeightMin the two modes agree, and they finish in the same cases. In mode H_build the other ranks hold <psi|psi>/(w+1j*delta+e) instead of the spectrum.", "quantifier": "every number of ranks, schedule, iteration order of sets, Hamiltonian, transition operators, states", "why_tests_cant": "Schedules and numbers of ranks are unbounded.", "anchors": ["impurityModel/ed/spectra.py:getSpectra", "impurityModel/ed/spectra.py:getGreen", "impurityModel/ed/finite.py:expand_basis_and_hamiltonian"]}
{"id": "C59", "title": "getSpectra computes the resolvent of the excited states", "statement": "If krylovSize exhausts the Krylov space of T|psi_i>, the entry gs[i,t,k] is <psi_i|T^+ (w_k+1j*delta+e_i-H)^-1 T|psi_i>, with T|psi_i> restricted to the product states that fulfil the restrictions and whose weight reaches slaterWeightMin.", "quantifier": "every Hermitian operator, list of transition operators and states, number of ranks and schedule", "why_tests_cant": "A statement about all operators, states and schedules.", "anchors": ["impurityModel/ed/spectra.py:getSpectra"]}
{"id": "C60", "title": "RIXS maps do not depend on the number of MPI ranks or on the mode", "statement": "If no matrix element of the first outgoing operator is below slaterWeightMin, there is one map that all ranks of getRIXSmap have in modes serial, wIn and H_build_wIn and that rank 0 has in mode H_build, for every number of ranks; or the ranks never all finish, in any of these modes. An unknown mode is not rejected: it returns zeros.", "quantifier": "every number of ranks, mode, schedule, iteration order of sets, stored columns, Hamiltonian, operators, states, energies and linear solver", "why_tests_cant": "Schedules and numbers of ranks are unbounded.", "anchors": ["impurityModel/ed/spectra.py:getRIXSmap", "impurityModel/ed/spectra.py:getGreen", "impurityModel/ed/finite.py:expand_basis_and_hamiltonian"]}
{"id": "C61", "title": "getRIXSmap computes the Kramers-Heisenberg expression for the first outgoing operator", "statement": "With an exact linear solver, delta1 and delta2 nonzero, and a krylovSize that exhausts the Krylov space of T'x, the entry gs[i,t,0,w_in,w_loss] is <x|T'^+ (w_loss+1j*delta2+e_i-H)^-1 T'|x> with x=(w_in+1j*delta1+e_i-H)^-1 T_t|psi_i>, T_t the incoming and T' the first outgoing operator, if normalising T'x does not push an amplitude below slaterWeightMin.", "quantifier": "every Hermitian operator, lists of operators and states, energies, number of ranks, mode and schedule", "why_tests_cant": "A statement about all operators, states and schedules.", "anchors": ["impurityModel/ed/spectra.py:getRIXSmap"]}
{"id": "C62", "title": "What simulate_spectra stores does not depend on the number of MPI ranks", "statement": "For every number of ranks rank 0 of simulate_spectra stores the same data sets, tables and RIXS.bin and the other ranks store nothing; or, for every number of ranks, the ranks never all finish. (The first outgoing RIXS operator has no matrix element below slaterWeightMin.)", "quantifier": "every number of ranks, schedule, iteration order of sets, Hamiltonian, states, meshes, polarisations and temperature", "why_tests_cant": "Schedules and numbers of ranks are unbounded.", "anchors": ["impurityModel/ed/spectra.py:simulate_spectra", "impurityModel/ed/spectra.py:getSpectra", "impurityModel/ed/spectra.py:getRIXSmap"]}
{"id": "C63", "title": "The stored spectra are the response functions of the transition operators", "statement": "Where krylovSize exhausts the Krylov spaces: the PS data of eigenstate i and d spin-orbital j is -Im of <c^+ (w+1j*delta+e_i-H)^-1 c^+> - <c (-(w+1j*delta)+e_i-H)^-1 c>; XPS is Im of the second term for the p spin-orbitals; XAS is -Im of the response of the dipole operator of the polarisation; NIXS that of exp(iq.r)/sqrt(4 pi) at the energy loss with deltaNIXS; RIXS that of the Kramers-Heisenberg expression of the incoming and the first outgoing polarisation. The thermal data sets are their Boltzmann averages, a table row is the mesh point, the sum over the operators and the value for each operator, and plotRIXS.py reads from RIXS.bin the energies and the sums over both polarisations.", "quantifier": "every Hermitian Hamiltonian, states, meshes, polarisations, momentum transfers, temperature, number of ranks and schedule", "why_tests_cant": "A statement about all Hamiltonians, states and schedules.", "anchors": ["impurityModel/ed/spectra.py:simulate_spectra", "impurityModel/ed/spectra.py:getSpectra", "impurityModel/ed/spectra.py:getRIXSmap", "impurityModel/plotScripts/plotRIXS.py"]}
{"id": "C64", "title": "What main prints and stores does not depend on the number of MPI ranks", "statement": "There is one set of printed values, stored energies and stored spectra that rank 0 of main has for every number of ranks, and the other ranks store nothing; or, for every number of ranks, the ranks never all finish.", "quantifier": "every number of ranks, schedule, iteration order of sets and arguments accepted by main, for any eigensolver, linear solver and tabulated functions", "why_tests_cant": "Schedules and numbers of ranks are unbounded.", "anchors": ["impurityModel/ed/get_spectra.py:main", "impurityModel/ed/get_spectra_using_CF.py:main"]}
{"id": "C65", "title": "main computes the documented spectra of the documented Hamiltonian", "statement": "If main finishes for a p and a d shell, then the p shell was full (n0imps); the Hamiltonian is the sum of H0, Coulomb repulsion within and between the shells, spin-orbit coupling, the magnetic field on the d spin and the double counting; the stored energies are the nPsiMax lowest energies of this Hamiltonian in the space of all product states that dnTols, dnValBaths and dnConBaths allow; the spectra are those of the eigenstates less than energy_cut*kB*T above the lowest, with the meshes, broadenings, polarisations x, y, z, the two momentum transfers along (1,1,1) and the occupation restrictions of main; and each stored spectrum is the response function of its operators. With energy_cut*kB*T <= 0 no eigenstate is kept and main never finishes.", "quantifier": "all arguments of main for a p and a d shell, pickled H0 or crystal field parameters, number of ranks and schedule", "why_tests_cant": "A statement about all Hamiltonians, occupations and schedules.", "anchors": ["impurityModel/ed/get_spectra.py:main", "impurityModel/ed/get_spectra_using_CF.py:main", "impurityModel/ed/spectra.py:simulate_spectra", "impurityModel/ed/finite.py:eigensystem"]}
{"id": "C66", "title": "The printed expectation values are those of the eigenstates, and the printed averages are at 300 K", "statement": "Each row of the table that main prints has the energy above the lowest and the expectation values, in the eigenstate, of the number of d electrons, the occupations of the e_g and t_2g orbitals for each spin, Lz, Sz, L^2 and S^2. The printed thermal values are the Boltzmann averages of these columns over the states less than 10*kB*300K above the lowest. They are for 300 K whatever temperature is given to main.", "quantifier": "all arguments of main for a p and a d shell, number of ranks and schedule", "why_tests_cant": "A statement about all eigenstates of all Hamiltonians.", "anchors": ["impurityModel/ed/get_spectra.py:main", "impurityModel/ed/finite.py:printThermalExpValues", "impurityModel/ed/finite.py:printExpValues"]}
{"id": "C67", "title": "The printed product states are those with the highest weights, and no large density matrix element is left out", "statement": "For every eigenstate main prints the nPrintSlaterWeights product states with the highest weights in descending order, and the printed byte strings identify the product states. Of the density matrix between the real d orbitals it prints exactly the elements whose modulus exceeds tolPrintOccupation, each once and with its value.", "quantifier": "all arguments of main for a p and a d shell with tolPrintOccupation >= 0, number of ranks and schedule", "why_tests_cant": "A statement about all eigenstates of all Hamiltonians.", "anchors": ["impurityModel/ed/get_spectra.py:main", "impurityModel/ed/finite.py:getDensityMatrixCubic"]}
{"id": "C68", "title": "The Coulomb and spin-orbit operators are rotationally invariant", "statement": "The Coulomb operator of any four shells, and the 2p-3d operator, commutes with the total orbital momentum and with every total spin operator. The spin-orbit operator commutes with the total angular momentum L+S, and the magnetic-field operator with the total orbital momentum. Hence the whole Hamiltonian without field commutes with L+S if the non-interacting operator does: an ion has multiplets.", "quantifier": "all systems of shells and baths, Slater integrals, spin-orbit parameters and fields, and all Gaunt coefficients that are symmetric and rotationally invariant, in particular those of sympy's formula", "why_tests_cant": "A statement about all many-electron states of all shells and all parameters.", "anchors": ["impurityModel/ed/finite.py:getUop", "impurityModel/ed/finite.py:get2p3dSlaterCondonUop", "impurityModel/ed/finite.py:getSOCop", "impurityModel/ed/finite.py:gethHfieldop", "impurityModel/ed/finite.py:gauntC", "impurityModel/ed/get_spectra.py:get_hamiltonian_operator"]}
{"id": "C69", "title": "F0 is the repulsion per pair of electrons", "statement": "With monopole Slater integrals only, every product state with n_d and n_p electrons is an eigenstate of the 2p-3d Coulomb operator with energy F0dd n_d(n_d-1)/2 + F0pp n_p(n_p-1)/2 + F0pd n_p n_d.", "quantifier": "all systems, Slater integrals, states and occupations", "why_tests_cant": "A statement about all occupations of all states.", "anchors": ["impurityModel/ed/finite.py:get2p3dSlaterCondonUop", "impurityModel/ed/finite.py:getUop", "impurityModel/ed/finite.py:gauntC"]}
{"id": "C70", "title": "The angular integrals have their symmetries and selection rules", "statement": "The Gaunt coefficients are symmetric under exchange of spherical harmonics and reversal of all m, vanish unless the triangle rule, the parity rule and m1+m2+m3=0 hold, are rotationally invariant, reduce to orthonormality for k=0, and the dipole elements between p and d orbitals are either zero or above the cutoff of the code.", "quantifier": "all angular momenta l and projections m", "why_tests_cant": "Infinitely many coefficients.", "anchors": ["impurityModel/ed/finite.py:gauntC", "impurityModel/ed/finite.py:getDipoleOperator"]}
{"id": "C71", "title": "getGreen on dictionaries agrees with getGreen on matrices", "statement": "For a Hermitian operator without tiny matrix elements, a normalised state and slaterWeightMin <= 0: if getGreen with mode='dict' returns, mode='sparse' returns the same values, and they are the exact Green's function if krylovSize exhausts the Krylov space. mode='dict' raises exactly if the first krylovSize Krylov vectors are linearly dependent, in particular if krylovSize exceeds the number of product states within reach, where mode='sparse' reduces krylovSize.", "quantifier": "all operators, states, restrictions, energies, meshes, Krylov sizes and stored columns", "why_tests_cant": "Agreement of two algorithms for infinitely many operators and states; the tests call neither mode with the other as reference.", "anchors": ["impurityModel/ed/spectra.py:getGreen", "impurityModel/ed/finite.py:applyOp", "impurityModel/ed/finite.py:add", "impurityModel/ed/finite.py:norm2", "impurityModel/ed/finite.py:inner"]}
{"id": "C72", "title": "Spectra are sums of Lorentzians with the right total weight", "statement": "The Green's function that getGreen returns is a sum of weight/(w + i delta + e - energy) over at most krylovSize energies, with non-negative weights that add up to one; energies and weights do not depend on the mesh, the broadening or e, and for a normalised state and a Hermitian operator the energies lie within the bounds of the expectation values of the Hamiltonian. The same holds for getSpectra in both modes, with weights that add up to <T psi|T psi>, and for the photoemission spectra that simulate_spectra stores. The area of a spectrum is pi times the sum of the weights; for photoemission plus inverse photoemission of one spin-orbital this is pi times the norm of the state, and the part from removing electrons gives the occupation, unless restrictions or the cutoff drop amplitudes.", "quantifier": "all operators, states, Krylov sizes, meshes, broadenings, numbers of ranks and schedules", "why_tests_cant": "An integral over the whole energy axis and a representation that must be the same for every mesh and broadening.", "anchors": ["impurityModel/ed/spectra.py:getGreen", "impurityModel/ed/spectra.py:getSpectra", "impurityModel/ed/spectra.py:simulate_spectra"]}
{"id": "C73", "title": "The command line checks accept the documented arguments, and the defaults work", "statement": "The scripts raise, on every rank and before any communication, exactly if the arguments lack the documented form. Accepted arguments for a p and a d shell pass the setup of main exactly if the nominal p occupation is six, all allowed occupations are possible, and the non-interacting operator is Hermitian and stays within the system; the crystal field script always gives such an operator. Without options the crystal field script gets through the setup for every file of parameters, with 190 product states.", "quantifier": "all arguments, crystal field parameters and radial files", "why_tests_cant": "Infinitely many arguments and parameter files, and an exact description of the accepted ones.", "anchors": ["impurityModel/ed/get_spectra.py:__main__", "impurityModel/ed/get_spectra_using_CF.py:__main__", "impurityModel/ed/get_spectra.py:main", "impurityModel/ed/get_spectra_using_CF.py:main"]}
{"id": "C74", "title": "The plot script shows the stored spectra", "statement": "For every file written by get_spectra the plot script finishes and shows seven figures: the photoemission, XPS and absorption spectra summed over the transition operators, the absorption with the total and the quasi-elastic fluorescence yield, the NIXS spectrum of each q, the RIXS spectra at the in-coming energies nearest to the chosen ones with the documented offsets, and the RIXS maps of the sum and of each pair of polarisations, in which only intensities below 1e-6 are left out. For a finished run the quasi-elastic yield lies between zero and the total one. Files with fewer than three in-coming polarisations, other than one in-coming and one out-going, cannot be plotted.", "quantifier": "all spectra files", "why_tests_cant": "Holds for every file, including the nearest mesh point and the pixel of every intensity.", "anchors": ["impurityModel/plotScripts/plotSpectra.py:plot_spectra_in_file", "impurityModel/ed/get_spectra.py:main", "impurityModel/ed/spectra.py:simulate_spectra"]}
{"id": "C75", "title": "Allowing more configurations never raises an energy", "statement": "For two calls of eigensystem with the same operator, or two finished runs of get_spectra with the same Hamiltonian, the second with at least the configurations of the first, the i-th energy of the second is not larger than that of the first. With the same configurations the energies are equal, whatever the solvers, modes, numbers of ranks, temperatures and numbers of energies asked for are. No superposition of allowed configurations has a lower energy than the lowest printed one.", "quantifier": "all Hermitian operators, nested sets of product states, tolerances, solvers and numbers of ranks", "why_tests_cant": "Min-max principle over all superpositions; compares two runs for every Hamiltonian.", "anchors": ["impurityModel/ed/finite.py:eigensystem", "impurityModel/ed/get_spectra.py:main", "impurityModel/ed/finite.py:get_basis"]}
{"id": "C76", "title": "Spectra do not depend on which eigenvectors of a degenerate energy the solver returns", "statement": "Replacing the eigenstates by any unitary superposition within each energy leaves every thermally averaged response unchanged, at all temperatures. For two finished runs of get_spectra with the same input but different eigensolvers, ranks and set orders, the energies agree, and the states used for the spectra of one run are such superpositions of those of the other, provided at least one computed energy lies above the energy cut and no eigenvector lost weight to the cutoff. If in addition no amplitude is dropped by the cutoffs, the stored thermal averages of all five spectra agree. The agreement is exact if 150 Lanczos vectors exhaust the Krylov spaces, and otherwise holds up to the explicit error of 150 Lanczos vectors.", "quantifier": "all Hamiltonians, degeneracies, eigensolvers, temperatures, numbers of ranks and schedules", "why_tests_cant": "Degenerate eigenvectors are arbitrary, and a test sees only the choice of one library version.", "anchors": ["impurityModel/ed/get_spectra.py:main", "impurityModel/ed/spectra.py:simulate_spectra", "impurityModel/ed/finite.py:eigensystem", "impurityModel/ed/average.py:thermal_average"]}
{"id": "C77", "title": "In a fourfold symmetric system x and y polarised light give the same absorption", "statement": "If the magnetic field points along z and the non-interacting operator is invariant under rotation by 90 degrees about z, the thermally averaged absorption spectra stored by get_spectra for x and for y polarised light are equal at every mesh point, whatever the Slater integrals, spin-orbit couplings, occupations and temperature are. This needs at least one computed energy above the energy cut, eigenvectors that lost no weight to the cutoff, and harmless cutoffs in the spectra. Every crystal-field file gives such an invariant operator.", "quantifier": "all Hamiltonians with this symmetry, crystal-field parameters, eigensolvers, temperatures, numbers of ranks and schedules", "why_tests_cant": "A relation between two spectra for every Hamiltonian of a symmetry class, including degenerate ground states.", "anchors": ["impurityModel/ed/get_spectra.py:main", "impurityModel/ed/get_spectra_using_CF.py:get_CF_hamiltonian", "impurityModel/ed/spectra.py:getDipoleOperators", "impurityModel/ed/spectra.py:simulate_spectra"]}
{"id": "C78", "title": "Without a magnetic field there is no net moment, and time-reversed spin-orbitals have the same photoemission", "statement": "If there is no magnetic field and the non-interacting operator is invariant under time reversal, the thermal averages printed by get_spectra have <Lz> = 0 and <Sz> = 0, and the printed eg and t2g occupations for spin down equal those for spin up, whatever the Slater integrals, spin-orbit couplings and occupations are. The stored photoemission, inverse photoemission and core photoemission spectra of the spin-orbitals (m, s) and (-m, 1-s) are equal. This needs at least one computed energy above the energies that are averaged over and eigenvectors that lost no weight to the cutoff; the spectra also need harmless cutoffs. Every crystal-field file gives an invariant operator.", "quantifier": "all time-reversal invariant Hamiltonians, crystal-field parameters, eigensolvers, temperatures, numbers of ranks and schedules", "why_tests_cant": "A relation between outputs for every Hamiltonian without a field; single eigenvectors of a degenerate level have a moment, only the average has none.", "anchors": ["impurityModel/ed/get_spectra.py:main", "impurityModel/ed/get_spectra_using_CF.py:get_CF_hamiltonian", "impurityModel/ed/finite.py:printThermalExpValues", "impurityModel/ed/spectra.py:getPhotoEmissionOperators", "impurityModel/ed/spectra.py:simulate_spectra"]}
{"id": "C79", "title": "Without a magnetic field the energies of an odd number of electrons come in pairs", "statement": "If there is no magnetic field, the number of electrons is odd and the non-interacting operator is invariant under time reversal of half-integer spin, the energies printed by get_spectra are equal two by two: the first and the second, the third and the fourth, and so on, whatever the Slater integrals, spin-orbit couplings, restrictions of the configurations and eigensolver are. For crystal-field files without p bath states no further condition is needed.", "quantifier": "all time-reversal invariant Hamiltonians, odd electron numbers, crystal-field parameters, eigensolvers, numbers of ranks and schedules", "why_tests_cant": "Kramers' theorem: holds for every Hamiltonian without a field, a test only sees some of them.", "anchors": ["impurityModel/ed/get_spectra.py:main", "impurityModel/ed/get_spectra_using_CF.py:get_CF_hamiltonian", "impurityModel/ed/finite.py:eigensystem", "impurityModel/ed/finite.py:get_basis"]}
{"id": "C80", "title": "A run that is killed or fails has stored the beginning of what a complete run stores", "statement": "At every moment of a run of get_spectra, what has been stored by then (data.npz, the data sets of spectra.h5, the .dat files and RIXS.bin) is the beginning of one fixed sequence, each entry with its final value; nothing is stored twice or changed later, and only rank 0 stores anything. The sequence depends on the input only: for any two runs with the same input, with any numbers of ranks and schedules, stopped at any moment by a crash, an exception or the end, what one has stored is the beginning of what the other has stored. If a run can finish, all runs end with the complete sequence: the input parameters, the energies and meshes, and for each spectrum the intensities, the thermal average and the table or map.", "quantifier": "all inputs, numbers of ranks, set orders, schedules (synchronous and buffered communication) and moments at which the run stops", "why_tests_cant": "A crash can come at any moment of any interleaving of the ranks; tests stop at a few of them at best.", "anchors": ["impurityModel/ed/get_spectra.py:main", "impurityModel/ed/spectra.py:simulate_spectra"]}
{"id": "C81", "title": "Raising the energies of the core level or of all levels only relabels the energy axes", "statement": "If the input operators of two finished runs of get_spectra differ by a constant c in the energies of some spin-orbitals, whose number of electrons m is conserved and is the same in all configurations, every printed energy of the second run is that of the first one plus c m, and the same number of states is used for the spectra. If these spin-orbitals are the p shell, the absorption spectra and the in-coming energies of RIXS move by -c, core photoemission by c, and the photoemission, NIXS and energy losses do not move. If they are all spin-orbitals, photoemission moves by c and absorption, NIXS and RIXS do not move. This needs that no diagonal matrix element is dropped by the cutoff; the spectra need at least one computed energy above the energy cut, eigenvectors that lost no weight to the cutoff, and harmless cutoffs.", "quantifier": "all Hamiltonians, constants, eigensolvers, temperatures, numbers of ranks and schedules", "why_tests_cant": "A relation between two runs for every Hamiltonian and shift, including which states the energy cut keeps.", "anchors": ["impurityModel/ed/get_spectra.py:main", "impurityModel/ed/spectra.py:simulate_spectra", "impurityModel/ed/finite.py:eigensystem", "impurityModel/ed/average.py:thermal_average"]}
{"id": "C82", "title": "Spectra from few Lanczos vectors are close to the exact ones, and the error falls exponentially with their number", "statement": "If all energies that can be reached from an excited state T|psi> lie within w of some energy, every value that getGreen, getSpectra, getRIXSmap and get_spectra compute for it from krylovSize Lanczos vectors differs from the exact response at that energy by at most |T psi|^2 2 / (delta sinh(2 krylovSize arsinh(delta/w))), whether or not the Krylov space is exhausted. The error decreases by the factor (delta/w + sqrt(1 + (delta/w)^2))^2 with each vector. The sum of the magnitudes of the strengths of the Hamiltonian can always be taken for w. Boltzmann averages have at most the largest of the errors.", "quantifier": "all Hermitian Hamiltonians, states, transition operators, restrictions, broadenings, meshes, krylovSize, numbers of ranks and schedules", "why_tests_cant": "A convergence bound for every Hamiltonian and every number of Lanczos vectors; a test compares single values, and has no exact value to compare with for systems that need a Krylov method.", "anchors": ["impurityModel/ed/spectra.py:getGreen", "impurityModel/ed/spectra.py:getSpectra", "impurityModel/ed/spectra.py:getRIXSmap", "impurityModel/ed/spectra.py:simulate_spectra", "impurityModel/ed/get_spectra.py:main"]}
{"id": "C83", "title": "Small errors of the Lanczos coefficients change a Green's function by little, also where the Lanczos chain should have ended", "statement": "If the coefficients alpha and beta that the Green's function is calculated from differ by at most eps from the exact ones, every value of it is within 3 eps / delta^2 of the exact Green's function. This also holds if the exact chain ends before krylovSize, where exact arithmetic would raise: then it is enough that the coefficients agree up to the end of the chain and that the coupling there is at most eps; the coefficients that follow do not matter. If the chain does not end, the errors of truncation (see the preceding property) and of the coefficients add.", "quantifier": "all Hermitian Hamiltonians, states, restrictions, broadenings, meshes, coefficient errors, and all numbers of coefficients computed after the end of the chain", "why_tests_cant": "A bound over all perturbations; tests see the rounding of one machine and one system, and garbage coefficients after a breakdown depend on both.", "anchors": ["impurityModel/ed/spectra.py:getGreen", "impurityModel/ed/finite.py:get_tridiagonal_krylov_vectors"]}
{"id": "C84", "title": "The cutoffs change energies and spectra by at most a known amount", "statement": "Matrix elements of the Hamiltonian with a squared magnitude of at most the slater-weight cutoff are dropped, and so are components of eigenvectors and of excited states. With m terms in the Hamiltonian, every printed energy of get_spectra is within m sqrt(cut) of the energy without the cutoff, and so for any number of computed states. Every photoemission, core photoemission, absorption, NIXS and RIXS intensity is within a stated bound of the exact response to the complete state, operator and Hamiltonian: the bound has a term of first order in the lost weight over delta, one of m sqrt(cut) over delta squared, and the error of the Krylov space. It tends to zero with the cutoffs and holds without assuming that nothing was dropped.", "quantifier": "all Hermitian Hamiltonians, cutoffs, states, transition operators, restrictions, broadenings, meshes, krylovSize, eigensolvers, numbers of ranks and schedules", "why_tests_cant": "A bound over all Hamiltonians and states on an effect that a test can only see by running twice, and that is below the tolerance of most comparisons.", "anchors": ["impurityModel/ed/finite.py:applyOp", "impurityModel/ed/finite.py:get_hamiltonian_matrix_from_h_dict", "impurityModel/ed/finite.py:eigensystem", "impurityModel/ed/spectra.py:getGreen", "impurityModel/ed/spectra.py:getRIXSmap", "impurityModel/ed/get_spectra.py:main"]}
{"id": "C85", "title": "Thermal averages are safe to evaluate, have the right limits, and hardly depend on states above the energy cut", "statement": "thermal_average evaluates only exponentials between zero and one, one of which is one, and divides by a sum between one and the number of states, whatever the energies are and for every temperature above zero. At low temperatures the average approaches the plain mean over the states of lowest energy, with an error of at most D exp(-gap/kT) for each other state; at high temperatures it approaches the plain mean over all states, with an error of at most (exp(width/kT) - 1) D, where D bounds the differences of the observable. The average energy never falls when the temperature rises. Leaving out states that are at least c kT above another one changes an average by at most D exp(-c) for each. So every average stored by get_spectra is within D exp(-energy_cut) per computed state above the cut of the average over all computed states.", "quantifier": "all energies, observables (numbers and arrays), temperatures above zero, energy cuts, and finished runs of get_spectra", "why_tests_cant": "Limits and error bounds over all temperatures and spectra; overflow occurs only for unusual energies.", "anchors": ["impurityModel/ed/average.py:thermal_average", "impurityModel/ed/get_spectra.py:main"]}
{"id": "C86", "title": "How far energies can move when parameters of the Hamiltonian change", "statement": "If the strengths of the terms of a Hamiltonian are changed, no energy returned by eigensystem changes by more than the sum of the magnitudes of the changes. If every product state gets an extra energy between lo and hi, every energy rises by at least lo and at most hi. The lowest energy is a concave function of the Hamiltonian. For get_spectra this means: changing the magnetic field by (dx, dy, dz) moves an energy by at most 5/2 (|dz| + sqrt(dx^2 + dy^2)), changing a spin-orbit coupling by at most its change times the sum of the magnitudes of the matrix elements of l.s, changing the non-interacting operator by at most the sum of its changes; changing F0 parameters, the charge-transfer correction and the shell levels moves all energies by an amount between the smallest and the largest of the costs of the allowed configurations; and the lowest energy is concave in all parameters together. The dropped matrix elements add at most sqrt(cut) per term.", "quantifier": "all Hermitian Hamiltonians and changes of them, product states, cutoffs, eigensolvers, and all pairs or triples of finished runs of get_spectra", "why_tests_cant": "Bounds over all pairs of inputs; a test compares two runs at a time, and a wrong dependence on a parameter stays within plausible values.", "anchors": ["impurityModel/ed/finite.py:eigensystem", "impurityModel/ed/finite.py:getUop", "impurityModel/ed/finite.py:getSOCop", "impurityModel/ed/finite.py:gethHfieldop", "impurityModel/ed/finite.py:dc_MLFT", "impurityModel/ed/get_spectra.py:main", "impurityModel/ed/get_spectra.py:get_hamiltonian_operator"]}
{"id": "C87", "title": "The ground-state basis has the number of states the combinatorics predicts", "statement": "When get_basis returns, the number of product states in it (all different) is the product over the angular momenta l of the sum, over the allowed numbers dv of electrons taken from the valence bath and dc put in the conduction bath (0 <= dv <= dnValBaths, 0 <= dc <= dnConBaths, |dv-dc| <= dnTol), of C(2(2l+1), n0imp+dv-dc) C(valBaths, valBaths-dv) C(nBaths-valBaths, dc), the middle factor being 1 without valence bath. With frozen baths this is the product of C(2(2l+1), n0imp). The basis is empty only if for some l no (dv, dc) is allowed.", "quantifier": "all systems and all occupation parameters for which get_basis returns", "why_tests_cant": "the number of states is combinatorial in the parameters; tests compare a few small cases", "anchors": ["impurityModel/ed/finite.py:get_basis"]}
{"id": "C88", "title": "An eigensolver that stops at a small residual still gives nearby energies, states and spectra", "statement": "Suppose numpy and scipy only return normalised vectors x and energies e with |H x - e x| <= delta(e); the vectors need not be orthogonal and need not belong to the lowest states. Then every energy eigensystem or main stores is within delta(e) plus 1e-6 per term of the Hamiltonian of an exact eigenvalue between the allowed product states (main has at most 1082 terms plus those of the non-interacting Hamiltonian). If the other eigenvalues are at least g away, the stored state is within sqrt(2) r/g, plus the effect of the dropped weights, of an exact eigenvector, r being this energy error; and the spectra main stores are, up to the stated errors, the responses of these exact eigenvectors for the Hamiltonian without cutoffs. If the Lanczos vectors are orthogonal and no lower state is missed, the i-th energy is within (2 sqrt(nPsiMax)+1) delta of the i-th exact one.", "quantifier": "all Hermitian operators, bases, residual bounds, numbers of ranks, schedules and inputs of main", "why_tests_cant": "scipy's eigsh is called with a finite tolerance; a test sees one matrix and one error, the bound is about every matrix and every answer within the residual", "anchors": ["impurityModel/ed/finite.py:eigensystem", "impurityModel/ed/get_spectra.py:main"]}
{"id": "C89", "title": "The spectra do not depend on the choice of the bath states", "statement": "The bath states are only a basis for the environment of the ion. If the non-interacting Hamiltonian in the second file is that in the first one for other bath states, so that its matrix is u h u+ with a unitary u that leaves the p and d shell alone and mixes valence bath states with valence bath states of the same shell and conduction bath states with conduction bath states of the same shell, then two finished runs of get_spectra print the same energies, keep the same number of states, and store the same thermally averaged spectra (also RIXS), provided the cutoffs drop nothing. For a mere renumbering of the bath states, with any phase factors, no condition on the matrix elements of the Hamiltonian is needed. The agreement is exact if 150 Lanczos vectors exhaust the Krylov spaces, and otherwise holds up to the explicit error of 150 Lanczos vectors.", "quantifier": "all numbers of bath states, non-interacting Hamiltonians, unitary transformations of the bath, eigensolvers, ranks and schedules of both runs", "why_tests_cant": "Invariance over a continuous group of inputs; a test compares two bases at most, and the runs do not even use the same product states.", "anchors": ["impurityModel/ed/get_spectra.py:main", "impurityModel/ed/get_spectra.py:get_hamiltonian_operator", "impurityModel/ed/finite.py:get_basis", "impurityModel/ed/finite.py:eigensystem"]}
{"id": "C90", "title": "Without a preferred direction only the strength of the magnetic field counts", "statement": "If the non-interacting Hamiltonian has no preferred direction in space (it commutes with an angular momentum that is l+s in the p and d shells and anything on the bath states that keeps valence and conduction bath apart), two finished runs of get_spectra whose magnetic fields have the same strength but different directions print the same energies and keep the same number of states, for all Slater integrals, spin-orbit couplings and occupations. Their thermally averaged spectra agree after summation: photoemission over the ten 3d spin-orbitals, core photoemission over the six 2p spin-orbitals, absorption over the three polarisations, provided the cutoffs drop nothing. The agreement is exact if 150 Lanczos vectors exhaust the Krylov spaces, and otherwise holds up to the explicit error of 150 Lanczos vectors.", "quantifier": "all fields of equal strength, spherically symmetric non-interacting Hamiltonians, Slater integrals, spin-orbit couplings, eigensolvers, ranks and schedules of both runs", "why_tests_cant": "Invariance under a continuous group of rotations; a test compares two directions, and a wrong sign in a field or spin-orbit matrix element keeps some directions equivalent.", "anchors": ["impurityModel/ed/get_spectra.py:main", "impurityModel/ed/finite.py:gethHfieldop", "impurityModel/ed/finite.py:getSOCop", "impurityModel/ed/finite.py:getUop", "impurityModel/ed/spectra.py:getDipoleOperator"]}
{"id": "C91", "title": "Without field and preferred direction, absorption does not depend on the polarisation", "statement": "In a finished run of get_spectra without magnetic field and with a non-interacting Hamiltonian that has no preferred direction in space, the thermally averaged x-ray absorption is the same for the three polarisations at every energy. The averaged resonant scattering is the same for the two in-coming polarisations perpendicular to the out-going polarisation that main evaluates, provided the cutoffs drop nothing. The agreement is exact if 150 Lanczos vectors exhaust the Krylov spaces, and otherwise holds up to the explicit error of 150 Lanczos vectors.", "quantifier": "all spherically symmetric non-interacting Hamiltonians, Slater integrals, spin-orbit couplings, occupations, eigensolvers, ranks and schedules", "why_tests_cant": "Holds only after averaging over all states of a degenerate energy, whose choice by the eigensolver is arbitrary; a test sees one choice.", "anchors": ["impurityModel/ed/get_spectra.py:main", "impurityModel/ed/spectra.py:getDipoleOperator", "impurityModel/ed/spectra.py:getSpectra", "impurityModel/ed/spectra.py:getRIXSmap"]}
{"id": "C92", "title": "Without spin-orbit coupling the direction of the magnetic field does not matter", "statement": "If both spin-orbit couplings are zero and the non-interacting Hamiltonian does not act on the spin, two finished runs of get_spectra whose magnetic fields have the same strength but different directions print the same energies and keep the same number of states, also when the crystal field has low symmetry. Their thermally averaged absorption, non-resonant and resonant scattering are the same for each polarisation and momentum transfer, and the photoemission and core photoemission are the same for each orbital after summation over the spin, provided the cutoffs drop nothing. The agreement is exact if 150 Lanczos vectors exhaust the Krylov spaces, and otherwise holds up to the explicit error of 150 Lanczos vectors.", "quantifier": "all fields of equal strength, spin-independent non-interacting Hamiltonians, Slater integrals, eigensolvers, ranks and schedules of both runs", "why_tests_cant": "Invariance under a continuous group of spin rotations that mixes all product states; a test compares two directions.", "anchors": ["impurityModel/ed/get_spectra.py:main", "impurityModel/ed/finite.py:gethHfieldop", "impurityModel/ed/finite.py:getUop", "impurityModel/ed/spectra.py:getDipoleOperator", "impurityModel/ed/spectra.py:getNIXSOperator"]}
{"id": "C93", "title": "The printed sizes of the Hamiltonian are true", "statement": "expand_basis_and_hamiltonian prints, on rank 0 only, the sizes of the basis and of the dictionary of known columns. For any number of ranks, any earlier calls and any schedule, len(basis_index) and np.shape(h)[0] are the number of product states of the basis, len(h_dict) is the number of columns known to rank 0, and len(h_dict_total) is the number of different product states that had a column on some rank before or are in the basis: no column is counted twice. Printing does not change what is returned.", "quantifier": "all operators, restrictions, start states, known columns, numbers of ranks, orders of sets and schedules, both modes", "why_tests_cant": "The total is a sum over ranks and counts a column twice as soon as two ranks store it for any order of sets and any history of calls.", "anchors": ["impurityModel/ed/finite.py:expand_basis_and_hamiltonian"]}
{"id": "C94", "title": "Rounding errors do not grow along the continued fraction or the thermal average", "statement": "If every floating-point operation is exact up to a relative error u, the Green's function that getGreen computes from given Lanczos coefficients differs from the exact value of the continued fraction by at most 150 u S / delta^2 at every energy, where S bounds the energies and coefficients and 200 u S <= delta; the bound does not depend on the number of coefficients. Together with coefficients that are themselves inexact by eps, the result is the exact Green's function of the state up to 3 eps / delta^2 + 150 u S / delta^2, and no division by zero occurs. thermal_average differs from the exact average by at most 4 u (n + 3 + 4 X) times the largest observable, for n energies that span X in units of k_B T.", "quantifier": "all rounding functions with relative error u, coefficients, numbers of Lanczos vectors, energies, broadenings, observables and temperatures", "why_tests_cant": "A test sees the rounding of one input; a bound that does not grow with the length needs the geometry of every step of the continued fraction.", "anchors": ["impurityModel/ed/spectra.py:getGreen", "impurityModel/ed/average.py:thermal_average"]}
{"id": "C95", "title": "The lowest energy and the printed expectation values respond to the field and the d level as they must", "statement": "Compare two finished runs of get_spectra that differ only in the z component of the magnetic field, by dhz, and in the level of the d orbitals, by ed. The lowest energy of the second run is at most every printed energy of the first plus dhz times the printed Sz of that state plus ed times its printed number of d electrons, up to a stated accuracy that comes from the cutoffs. The change of the lowest energy therefore lies between the changes predicted from the expectation values of either run. A larger field never raises the printed Sz of the lowest state and a higher d level never raises its number of d electrons, up to twice the accuracy. For eigensystem the same holds for any change of the energies of product states.", "quantifier": "all systems, Hamiltonians, fields, levels, eigensolvers (of either run), numbers of ranks and schedules, and finished runs of get_spectra", "why_tests_cant": "An inequality between the printed energies of one run and the expectation values of another, over all parameters and for eigenvectors that are not unique when energies coincide.", "anchors": ["impurityModel/ed/finite.py:eigensystem", "impurityModel/ed/finite.py:printExpValues", "impurityModel/ed/get_spectra.py:main", "impurityModel/ed/get_spectra.py:get_hamiltonian_operator"]}
{"id": "C96", "title": "The spectra have the exact moments up to twice the number of Lanczos vectors", "statement": "A Green's function from krylovSize Lanczos vectors is a sum of at most krylovSize Lorentzians with weights that are not negative, and for every m below 2 krylovSize the sum of weight times energy to the power m equals the expectation value of the m-th power of the Hamiltonian in the excited state. The total weight, the mean energy and the width of every spectrum are therefore exact, however few vectors are used, and together these moments determine the computed spectrum completely. So the photoemission, XPS, XAS and NIXS spectra stored by get_spectra have the first 300 moments of the exact ones.", "quantifier": "all Hermitian Hamiltonians, states, transition operators, restrictions, krylovSize, meshes, broadenings, numbers of ranks and schedules, and finished runs of get_spectra", "why_tests_cant": "A statement about exact expectation values of powers of the Hamiltonian for all inputs; a broadened spectrum on a mesh does not show its moments.", "anchors": ["impurityModel/ed/spectra.py:getGreen", "impurityModel/ed/finite.py:get_tridiagonal_krylov_vectors", "impurityModel/ed/spectra.py:getSpectra", "impurityModel/ed/spectra.py:simulate_spectra", "impurityModel/ed/get_spectra.py:main"]}
{"id": "C97", "title": "Spectra do not move further than their input", "statement": "Take two finished calculations of spectra on the same mesh with the same broadening delta and the same restrictions, whose Hamiltonians, energies, states, transition operators, cutoffs and numbers of Lanczos vectors may all differ. At every energy of the mesh the two values for an eigenstate differ by at most |v - v'| (|v| + |v'|) / delta plus c |v'|^2 / delta^2 plus the errors of the Lanczos vectors, where v and v' are the excited states and c adds up the changes of the strengths of the Hamiltonian, the change of the energy and the matrix elements dropped by the cutoff. This holds for getSpectra in both modes, for photoemission, XPS, XAS and NIXS in simulate_spectra, and for what two runs of get_spectra with the same system, occupations and broadenings store. A value of RIXS obeys the same bound with the states after the emission, and the intermediate states differ by at most |v - v'| / delta + c |v'| / delta^2. If the values of all eigenstates differ by at most eps, those of the second run by at most D among each other, and the energies in units of the temperature by the same amount up to eta, then the thermal averages differ by at most eps + (exp(2 eta) - 1) D.", "quantifier": "all pairs of Hermitian Hamiltonians, states, transition operators, cutoffs and krylovSize, numbers of ranks and schedules of both runs, and pairs of finished runs of get_spectra", "why_tests_cant": "A bound between two runs for all pairs of inputs; a test compares two inputs and the allowed difference depends on both.", "anchors": ["impurityModel/ed/spectra.py:getSpectra", "impurityModel/ed/spectra.py:getGreen", "impurityModel/ed/spectra.py:simulate_spectra", "impurityModel/ed/get_spectra.py:main"]}
{"id": "C98", "title": "The text files can be read back and show the spectra to four decimals", "statement": "numpy.loadtxt reads the files PS.dat, XPS.dat, NIXS.dat and XAS.dat of every finished run: they have one row for each point of the mesh, with the energy, the sum and one column per operator, and every number that is read is the multiple of 1e-4 nearest to the stored value (the even one of two). Columns are never merged, however large the numbers are. The energies in the files of get_spectra are strictly increasing, no intensity is negative if the broadenings are positive, the column sum differs from the sum of the columns by at most half of 1e-4 per column, and a value below half of 1e-4 is read as zero. The radial file may be any table of two or more pairs of decimal numbers, with comments, empty lines, signs and exponents: get_spectra uses exactly the pairs in the file, and a file with anything else is rejected.", "quantifier": "all real numbers, tables, headers, contents of radial files, and finished runs of simulate_spectra and get_spectra", "why_tests_cant": "A test reads back a few tables; that no magnitude merges columns, loses a row or reorders energies concerns all numbers, and what the reader accepts concerns all texts.", "anchors": ["impurityModel/ed/spectra.py:simulate_spectra", "impurityModel/ed/get_spectra.py:main"]}
{"id": "C99", "title": "The command line means what it says", "statement": "Every command line that names the two files and then any of the 23 documented options, in any order and with repetitions, is accepted if the values are numbers of the right kind: each value is written with an equals sign, or does not start with a minus sign, or is a negative number without exponent. Every parameter is then set by its own option and by no other, to the number that the decimal notation denotes, the last occurrence of an option counts, and a parameter whose option is missing is left at its default. A command line with a word that starts with a minus sign and is neither an option, nor short for one, nor such a number, is refused wherever the word stands; so a misspelt option never passes unnoticed, and negative numbers with an exponent like -1e-4 are refused unless they follow an equals sign.", "quantifier": "all command lines: file names, sequences of options, decimal words, and positions of a wrong word", "why_tests_cant": "A test parses a few command lines; that no option is confused with another, for all orders, repetitions and numbers, concerns all of them.", "anchors": ["impurityModel/ed/get_spectra.py:main", "impurityModel/ed/get_spectra_using_CF.py:main"]}
{"id": "C100", "title": "What is printed about the eigenstates can be read and is consistent", "statement": "printExpValues prints the lowest energy to four decimals, the titles of the columns, and for each eigenstate in order one line with exactly eleven words: its number and the energy above the lowest, the number of d electrons, the four occupations, Lz, Sz, L^2 and S^2 in the order of the titles, each the multiple of 0.001 or 0.01 nearest to the value (the even one of two), whatever the magnitude of the numbers; columns are never merged. In a finished run of get_spectra the printed energies are not negative and ascend from line to line, the printed occupations lie between zero and two (e_g) or three (t_2g) for each spin, the printed number of d electrons between zero and ten, and it differs from the sum of the four printed occupations by at most 0.007. printThermalExpValues prints each average behind the title of its column to three decimals. printGaunt prints for every k a table with a line for every m and a column for every m' with the coefficients to two decimals.", "quantifier": "all energies, states, expectation values, angular momenta, and finished runs of get_spectra", "why_tests_cant": "A test compares the output of one run with a stored text; that no magnitude merges columns, and that rounding never violates the order and the sum rules by more than the last digits, concerns all values.", "anchors": ["impurityModel/ed/finite.py:printExpValues", "impurityModel/ed/finite.py:printThermalExpValues", "impurityModel/ed/finite.py:printGaunt", "impurityModel/ed/get_spectra.py:main"]}
{"id": "C101", "title": "Rounding hardly changes norms, overlaps, occupations, moments and density matrices", "statement": "If every floating-point operation has a relative error of at most u, then for a state with K product states norm2 and getTraceDensityMatrix return the squared norm and the number of electrons in a shell up to a relative error of (1+u)^(K+3)-1 and (1+u)^(K+4)-1, with no loss from cancellation whatever the amplitudes are; inner returns the overlap up to 2((1+u)^(K+2)-1) times the lengths of the two states; getLz3d and getSz3d return the moments up to (1+u)^(K+4)-1 times 6 or 5/2 times the squared norm; and every element of getDensityMatrix is right up to 2((1+u)^(K+2)-1) times the squared norm, while no element outside of the shell appears. In double precision, with up to a million operations, these factors are below 1.2e-10. With exact operations the values are exact.", "quantifier": "all accurate floating-point operations, states, systems and shells", "why_tests_cant": "A test computes a few states with one processor; the error for all amplitudes, numbers of product states and rounding behaviours needs a proof.", "anchors": ["impurityModel/ed/finite.py:norm2", "impurityModel/ed/finite.py:inner", "impurityModel/ed/finite.py:getTraceDensityMatrix", "impurityModel/ed/finite.py:getLz3d", "impurityModel/ed/finite.py:getSz3d", "impurityModel/ed/finite.py:getDensityMatrix"]}
{"id": "C102", "title": "Rounding hardly changes the action of an operator, the Hamiltonian matrix and the energies", "statement": "If every floating-point operation has a relative error of at most u, then applyOp, called without a cache for any operator with N terms, any state and any restrictions, returns a state whose amplitude at every allowed product state is that of the operator applied to the state, up to 2((1+u)^(N+2)-1) times the sum of the absolute values of the terms that lead there, plus the amplitude that the cutoff slaterWeightMin may remove; the bound does not depend on the number of product states. Product states that no term leads to, or that break a restriction, get no amplitude at all. In the Hamiltonian matrix of get_hamiltonian_matrix the errors of each row and of each column add up to at most E = 2((1+u)^(N+2)-1) times the sum of the absolute values of the coefficients plus N times the cutoff amplitude, and the lowest eigenvalues of any Hermitian matrix read off from it, for instance from its lower triangle as numpy.linalg.eigh does, differ from those of the exact operator by at most 2E. With exact operations applyOp is the exact one.", "quantifier": "all accurate floating-point operations, operators, states, restrictions, cutoffs, sets of product states and numbers of energies", "why_tests_cant": "A test compares a few numbers on one processor with a tolerance; that errors do not grow with the number of product states and never move an energy by more than E holds for all inputs only by proof.", "anchors": ["impurityModel/ed/finite.py:applyOp", "impurityModel/ed/finite.py:get_hamiltonian_matrix", "impurityModel/ed/finite.py:eigensystem"]}
{"id": "C103", "title": "X-ray absorption obeys the sum rules for the number of d holes and the orbital moment", "statement": "Let the p shell be full in a state. Then what the dipole operators for light along x, y and z excite adds up to 2/5 times the number of d holes: ten times the squared norm minus the number of d electrons that getTraceDensityMatrix returns; whatever else the state is. The difference between the two circular polarisations around z is -1/5 times the orbital moment that getLz3d returns, and their sum is that of x and y. With a cutoff slaterWeightMin the total can only be smaller. In a finished run of get_spectra in which the p shell keeps its six electrons in all configurations, the stored XAS of each eigenstate and polarisation is a sum of Lorentzians with weights that are not negative; its area is pi times their sum, and the areas for x, y and z together are at most pi times 2/5 times the number of d holes of the eigenstate. If dnTols or dnConBaths lets the d shell lose at most two electrons, the restrictions on excited states lose nothing, and the total falls short by at most 1e-7 for each product state that is reached.", "quantifier": "all states with a full p shell, bath sizes, cutoffs, and finished runs of get_spectra with any number of ranks", "why_tests_cant": "A test integrates one spectrum on a finite mesh; the proportionality to the number of holes and to the moment for all states is a theorem about the operators.", "anchors": ["impurityModel/ed/finite.py:getDipoleOperator", "impurityModel/ed/finite.py:applyOp", "impurityModel/ed/finite.py:getTraceDensityMatrix", "impurityModel/ed/finite.py:getLz3d", "impurityModel/ed/spectra.py:simulate_spectra", "impurityModel/ed/get_spectra.py:main"]}
{"id": "C104", "title": "Photoemission counts the electrons and holes", "statement": "In a finished run of get_spectra the stored photoemission of each eigenstate and d spin-orbital is the sum of an inverse (adding an electron) and a direct part (removing one), and the stored XPS of each p spin-orbital is a direct part; each part is a sum of Lorentzians with weights that are not negative, and the areas are pi times the sums of the weights. Summed over the ten d spin-orbitals, the direct part weighs exactly as much as the d electrons in those configurations of the eigenstate that have at least the nominal number n0imps of d electrons, the inverse part as the d holes in those with at most two less, and XPS as the p electrons in those with at most one less; the cutoff loses nothing. So XPS and direct photoemission never exceed the numbers of p and d electrons of getTraceDensityMatrix, and if dnTols or dnConBaths allows the d shell to lose no electron (one for XPS, two for the inverse part) the weights are exactly these numbers, and ten times the squared norm minus the number of d electrons. The same holds for each spin-orbital alone: the direct part weighs its diagonal element of the density matrix of getDensityMatrix, and the inverse part the squared norm minus this element.", "quantifier": "all parameters, Hamiltonians and bath sizes, and finished runs of get_spectra with any number of ranks", "why_tests_cant": "A test integrates one spectrum on a finite mesh; which configurations the restrictions on the excited states lose, and that nothing else is lost, concerns all runs.", "anchors": ["impurityModel/ed/spectra.py:simulate_spectra", "impurityModel/ed/get_spectra.py:main", "impurityModel/ed/finite.py:getTraceDensityMatrix", "impurityModel/ed/finite.py:applyOp"]}
{"id": "C105", "title": "Spin and orbital moments stay within the limits of the d shell", "statement": "For every state, the values that getSz3d, getSsqr3d, getLz3d and getLsqr3d return are possible for the numbers of d electrons in the state: the z component is never longer than the vector, |z| (|z| + |psi|^2) <= sq |psi|^2; the square of the spin is at most the average of S (S + 1) with S = 0, 1/2, 1, 3/2, 2, 5/2, 2, 3/2, 1, 1/2, 0 for 0 to 10 d electrons, and that of the orbital momentum at most the average of L (L + 1) with L = 0, 2, 4, 5, 6, 6, 6, 5, 4, 2, 0; the z components are at most the averages of S and L. For a state with a fixed number of d electrons these are the limits of that number. In a finished run of get_spectra every printed row has |Sz| (|Sz| + 1) <= S^2 <= 35/4 and |Lz| (|Lz| + 1) <= L^2 <= 42, and so have the printed averages at 300 K.", "quantifier": "all states and bath sizes, and finished runs of get_spectra with any number of ranks", "why_tests_cant": "A test computes the moments of a few states; that no superposition, entangled with the baths or not, exceeds the limits is a theorem about the ladder operators.", "anchors": ["impurityModel/ed/finite.py:getSz3d", "impurityModel/ed/finite.py:getSsqr3d", "impurityModel/ed/finite.py:getLz3d", "impurityModel/ed/finite.py:getLsqr3d", "impurityModel/ed/finite.py:printExpValues", "impurityModel/ed/finite.py:printThermalExpValues"]}
{"id": "C106", "title": "A spectrum has intensity only where there are energies", "statement": "Let the number of electrons in a set of spin-orbitals (all of them, or the p shell) be conserved, and let the energies of the allowed states with k of these electrons lie between lo(k) and hi(k). In a finished run of get_spectra with positive broadenings, the stored photoemission, XPS, XAS and NIXS of every eigenstate are not negative anywhere, and at every energy of the mesh they are at most the weight of the excited state times the Lorentzian delta/(D^2+delta^2), where D is the distance of the final energy to the range for the number of electrons after the excitation: k = m plus one d electron or minus one for photoemission, minus one p electron for XPS, one electron moved from p to d for XAS, and m for NIXS. So there is no intensity below the threshold of absorption and in the gap of photoemission except for the tail of the broadening, although the Lanczos vectors are neither exact nor complete. For any Hermitian Hamiltonian and closed set of states, the energies of a spectrum with the first 2K moments lie between the extreme expectation values.", "quantifier": "all parameters, Hamiltonians, bath sizes, conserved numbers and energy ranges, and finished runs of get_spectra with any number of ranks", "why_tests_cant": "A test looks at one spectrum; that truncated Lanczos recursions never create intensity outside of the range of the energies holds for all Hamiltonians only by proof.", "anchors": ["impurityModel/ed/spectra.py:simulate_spectra", "impurityModel/ed/spectra.py:getGreen", "impurityModel/ed/spectra.py:getSpectra", "impurityModel/ed/get_spectra.py:main"]}
{"id": "C107", "title": "A RIXS map shows energies, weights and resonances of the right states", "statement": "In a finished run of get_spectra with positive broadenings, the stored RIXS map of an eigenstate, an incoming polarisation and an incoming energy belongs to the one intermediate state x that solves (w_in + i delta + e - H) x = T psi: as a function of the energy loss it is a sum of Lorentzians with the first 300 moments of the state U x after the emission, its area is pi times the squared length of U x, and it is not negative anywhere. The intermediate state is long only at resonances: its squared length is at most that of T psi divided by D^2 + delta^2, where D is the distance of the incoming energy to the energies of the states with one electron moved from p to d (so at most 1/delta^2 times that of T psi anywhere). The map has no intensity at energy losses outside of the range of the energies with the numbers of electrons of the eigenstate, except for the tail of the Lorentzian of width deltaRIXS. The map is the same for the three outgoing polarisations, because only the first one is used. If the p shell is full in all configurations and its number of electrons is conserved, the map is nowhere higher than 64/9/((D^2+delta^2) deltaRIXS), where D is the distance of the incoming energy to the energies of states with one p hole, and it changes by at most that divided by deltaRIXS per unit of energy loss. The numbers that plotRIXS reads from RIXS.bin, the thermal average summed over the polarisations, then lie between zero and 64/(delta^2 deltaRIXS), and change by at most 64/(delta^2 deltaRIXS^2) per unit of energy loss.", "quantifier": "all parameters, Hamiltonians, bath sizes, incoming energies and polarisations, conserved numbers and energy ranges, and finished runs of get_spectra with any number of ranks", "why_tests_cant": "A test compares one map with stored numbers; that the truncated Lanczos recursion keeps the total weight and creates no intensity elsewhere holds for all Hamiltonians only by proof.", "anchors": ["impurityModel/ed/spectra.py:getRIXSmap", "impurityModel/ed/spectra.py:getGreen", "impurityModel/ed/spectra.py:simulate_spectra", "impurityModel/ed/get_spectra.py:main"]}
{"id": "C108", "title": "The broadening limits how high and how steep a spectrum is", "statement": "In a finished run of get_spectra with positive broadening delta, every row of the text files of photoemission, XPS and XAS has an energy, the sum of the columns and ten, six or three columns. No column is negative; no column of photoemission or XPS is higher than 1/delta, and their sums are at most 10/delta and 6/delta. Between two rows whose energies differ by D, a column changes by at most D/delta^2 and the sums by at most 10 D/delta^2 and 6 D/delta^2, so that a mesh that is finer than delta misses no peak. If the p shell is full in all configurations the same holds for XAS with 4 for the columns and the sum, and the XAS of each eigenstate, summed over the polarisations, is at most 2/5 of its number of d holes divided by delta: a full d shell absorbs nothing.", "quantifier": "all parameters, Hamiltonians, temperatures and bath sizes, all rows and pairs of rows, and finished runs of get_spectra with any number of ranks", "why_tests_cant": "A test looks at the numbers of one run; a limit for all runs, truncated Lanczos recursions and thermal averages needs a proof.", "anchors": ["impurityModel/ed/spectra.py:simulate_spectra", "impurityModel/ed/spectra.py:getGreen", "impurityModel/ed/get_spectra.py:main", "impurityModel/ed/finite.py:thermal_average"]}
{"id": "C109", "title": "Nothing on an accepted command line is ignored", "statement": "If a command line is accepted, then its words, read one after the other, are exactly two file names, of which the first is the Hamiltonian and the second the radial mesh, and otherwise only documented options with numbers of the right kind: an option of one value with the next word, an option of several values with all words up to the next option, or an option with one value behind an equals sign. No word is left over, and every parameter is what its last option says, or is missing if there is none. The name of an option may be abbreviated if no other option, and not --help, begins like this, and the command line then means the same. An option of several values also takes the words that were meant as file names, and the command line is refused if one of them is not a number of the right kind; so file names never end up in a list of numbers.", "quantifier": "all sequences of words on the command line, all abbreviations, positions and values", "why_tests_cant": "A test tries a few command lines; that none of the infinitely many others is accepted with a word ignored or attached to the wrong option needs a proof.", "anchors": ["impurityModel/ed/get_spectra.py:main", "impurityModel/ed/get_spectra_using_CF.py:main"]}
{"id": "C110", "title": "The opposite magnetic field gives the same energies and the opposite moments", "statement": "Two finished runs of get_spectra that differ only in the sign of the magnetic field, with a non-interacting Hamiltonian that is invariant under time reversal (which the one of every crystal-field file is), give the same energies and use the same energies for the spectra. If the states in the averages do not reach the end of the list of states and are normalised, the printed averages of the energy, of the number of d electrons and of the squares of spin and orbital momentum are the same, those of Lz and Sz have the opposite sign, and the occupations of spin up and spin down are exchanged. If also the cutoffs and the number of Lanczos vectors are harmless, the averaged photoemission spectra of a p or d spin-orbital in one field are those of the spin-orbital with the opposite spin and orbital momentum in the other, and the averaged absorption spectra of each of the three linear polarisations and the averaged inelastic scattering spectra of both momentum transfers are the same in both fields.", "quantifier": "all magnetic fields, parameters, bath sizes, time-reversal partners of the bath states, correct solvers, temperatures, and pairs of finished runs with any numbers of ranks", "why_tests_cant": "A test compares two stored runs; a sign error in one component of the field or a matrix element that breaks the symmetry shows up for some fields and Hamiltonians only.", "anchors": ["impurityModel/ed/get_spectra.py:main", "impurityModel/ed/finite.py:gethHfieldop", "impurityModel/ed/finite.py:printThermalExpValues", "impurityModel/ed/spectra.py:simulate_spectra", "impurityModel/ed/spectra.py:getDipoleOperators"]}
{"id": "C111", "title": "A half turn of the magnetic field about x gives the turned results", "statement": "Two finished runs of get_spectra that differ only in the signs of the y and z components of the magnetic field, with a non-interacting Hamiltonian that is invariant under the half turn about the x axis (which the one of every crystal-field file is), give the same energies and use the same energies for the spectra. If the states in the averages do not reach the end of the list of states and are normalised, the printed averages of the energy, of the number of d electrons and of the squares of spin and orbital momentum are the same, those of Lz and Sz have the opposite sign, and the occupations of spin up and spin down are exchanged. If the energies used for the spectra do not reach the end of the list, the stored states are normalised, and the cutoffs and the number of Lanczos vectors are harmless, the averaged photoemission spectra of a p or d spin-orbital in one field are those of the spin-orbital with the opposite spin and orbital momentum in the other, and the averaged absorption spectra of each of the three linear polarisations and the averaged resonant scattering spectra of each incoming and outgoing polarisation at each pair of energies are the same for both fields. With too few Lanczos vectors they agree up to the error of 150 of them.", "quantifier": "all magnetic fields, parameters, bath sizes, exchanges of the bath states, correct solvers, temperatures, and pairs of finished runs with any numbers of ranks", "why_tests_cant": "A test compares two stored runs; a wrong phase or sign in one component of the field, of the Coulomb interaction or of a polarisation breaks the symmetry for some fields and parameters only.", "anchors": ["impurityModel/ed/get_spectra.py:main", "impurityModel/ed/finite.py:gethHfieldop", "impurityModel/ed/finite.py:getUop", "impurityModel/ed/spectra.py:simulate_spectra", "impurityModel/ed/spectra.py:getDipoleOperators"]}
{"id": "C112", "title": "A half turn of the magnetic field about y gives the turned results", "statement": "Two finished runs of get_spectra that differ only in the signs of the x and z components of the magnetic field, with a non-interacting Hamiltonian that is invariant under the half turn about the y axis (which the one of every crystal-field file is), give the same energies and use the same energies for the spectra. If the states in the averages do not reach the end of the list of states and are normalised, the printed averages of the energy, of the number of d electrons and of the squares of spin and orbital momentum are the same, those of Lz and Sz have the opposite sign, and the occupations of spin up and spin down are exchanged. If the energies used for the spectra do not reach the end of the list, the stored states are normalised, and the cutoffs and the number of Lanczos vectors are harmless, the averaged photoemission spectra of a p or d spin-orbital in one field are those of the spin-orbital with the opposite spin and orbital momentum in the other, and the averaged absorption spectra of each of the three linear polarisations and the averaged resonant scattering spectra of each incoming and outgoing polarisation at each pair of energies are the same for both fields. With too few Lanczos vectors they agree up to the error of 150 of them.", "quantifier": "all magnetic fields, parameters, bath sizes, exchanges of the bath states, correct solvers, temperatures, and pairs of finished runs with any numbers of ranks", "why_tests_cant": "A test compares two stored runs; a wrong phase or sign in one component of the field, of the Coulomb interaction or of a polarisation breaks the symmetry for some fields and parameters only.", "anchors": ["impurityModel/ed/get_spectra.py:main", "impurityModel/ed/finite.py:gethHfieldop", "impurityModel/ed/finite.py:getUop", "impurityModel/ed/spectra.py:simulate_spectra", "impurityModel/ed/spectra.py:getDipoleOperators"]}
