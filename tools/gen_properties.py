import json
P=[]
def p(title, statement, quantifier, why, anchors):
    P.append(dict(id="C%02d"%(len(P)+1), title=title, statement=statement, quantifier=quantifier, why_tests_cant=why, anchors=anchors))
ed="impurityModel/ed/"
psr=ed+"product_state_representation.py:"
fin=ed+"finite.py:"
spe=ed+"spectra.py:"
p("The five product-state formats describe the same set of occupied spin-orbitals",
  "For a system of n spin-orbitals, every conversion function between tuple, str, int, bitarray and bytes maps the encoding of a set of occupied spin-orbitals to the encoding of the same set in the target format; hence every round trip is the identity. (n=0 with the int format is rejected by Python's int(); n>=1 there.) Strings with a character other than 0 and 1 raise a ValueError, and an int that is too big for n is not cut but gives a longer string.",
  "every n, every set of occupied spin-orbitals below n, all twenty conversion functions",
  "There are 2^n states for every n and the byte format has padding that depends on n mod 8; a test only samples.",
  [psr+x for x in ["str2int","int2str","str2tuple","tuple2str","tuple2int","int2tuple","bitarray2bytes","bytes2bitarray","int2bitarray","bitarray2int","bitarray2str","str2bitarray","tuple2bitarray","bitarray2tuple","tuple2bytes","bytes2tuple","str2bytes","bytes2str","int2bytes","bytes2int"]])
p("Byte strings are faithful dictionary keys",
  "Two product states of the same system have the same bytes representation if and only if they occupy the same spin-orbitals; and sorting product states by their bytes representation sorts them by their integer representation.",
  "every n and every two sets of occupied spin-orbitals below n",
  "Collision freedom and order agreement are statements about all pairs of states.",
  [psr+"tuple2bytes", psr+"bytes2tuple", fin+"expand_basis"])
p("Conversions normalise any tuple",
  "Converting an arbitrary tuple of indices (unsorted, with repetitions, with indices outside the system) to str/bitarray/bytes and back gives the strictly increasing tuple of exactly those listed indices that lie inside the system.",
  "every tuple of natural numbers and every n",
  "Arbitrary malformed tuples cannot be enumerated.",
  [psr+"tuple2str", psr+"str2tuple", psr+"tuple2bytes", psr+"bytes2tuple"])
p("Creating an electron: same result and sign in all five formats",
  "Creating an electron in spin-orbital i succeeds exactly when i is empty; the new state occupies additionally i; the amplitude is +1/-1 according to whether the number of electrons in spin-orbitals below i is even/odd. If i is occupied the amplitude is 0 (with the documented dummy states (), -1, '', or the unchanged bitarray/bytes).",
  "every n, every i<n, every product state, all five representations",
  "The sign depends on the whole state; all formats must agree on all states.",
  [ed+"create.py:"+x for x in ["utuple","uint","ustr","ubitarray","ubytes","binary_search_bigger"]])
p("Removing an electron: same result and sign in all five formats",
  "Removing an electron from spin-orbital i succeeds exactly when i is occupied; the new state occupies everything but i; the amplitude is the parity of the number of electrons below i. If i is empty the amplitude is 0 (with the documented dummy states).",
  "every n, every i<n, every product state, all five representations",
  "The sign depends on the whole state; all formats must agree on all states.",
  [ed+"remove.py:"+x for x in ["utuple","uint","ustr","ubitarray","ubytes","binary_search"]])
p("Creation and annihilation on multi-configurational states obey the fermionic anticommutation relations",
  "For finite.a and finite.c acting on multi-configurational states: c_i c_j^dagger + c_j^dagger c_i = delta_ij, c_i c_j + c_j c_i = 0 and c_i^dagger c_j^dagger + c_j^dagger c_i^dagger = 0, as equalities of amplitudes for every product state.",
  "every n, all i,j<n, every multi-configurational state psi",
  "Operator identities quantify over all vectors of a 2^n-dimensional space.",
  [fin+"a", fin+"c", ed+"create.py:ubytes", ed+"remove.py:ubytes"])
p("finite.a and finite.c lose no amplitude and are each other's adjoint",
  "finite.a/finite.c never let two input product states overwrite one output entry; the amplitude of each output product state is the signed amplitude of its unique preimage, and inner(phi, c_i^dagger psi) = inner(c_i phi, psi).",
  "every n, i<n, every pair of multi-configurational states",
  "ret[state_new] = ... overwrites; absence of collisions must hold for all states.",
  [fin+"a", fin+"c", fin+"inner"])
p("get_job_tasks is a balanced partition",
  "For any number of ranks, the tasks given to the ranks are pairwise disjoint (as positions), together they are exactly the list of tasks, and two ranks never differ by more than one task.",
  "every task list and every number of ranks >= 1",
  "Needs all (number of tasks, number of ranks) pairs.",
  [fin+"get_job_tasks"])
p("c2i and i2c are inverse bijections",
  "c2i maps the spin-orbitals and bath states of a system one-to-one onto 0..N-1 with N the number of spin-orbitals, impurity spin-orbitals first and bath states after; i2c is its inverse; also for shared-bath (tuple) keys.",
  "every ordered dict nBaths with distinct angular momenta (int keys and tuple keys), every label and every index",
  "All systems cannot be enumerated.",
  [fin+"c2i", fin+"i2c"])
p("c2i and i2c reject exactly what is outside the system",
  "c2i raises exactly for labels that are not a spin-orbital or bath state of the system, and i2c raises exactly for indices >= N.",
  "every nBaths, every label, every natural index",
  "Needs all labels and indices outside of the system.",
  [fin+"c2i", fin+"i2c"])
p("get_basis returns exactly the configurations allowed by the occupation parameters",
  "When get_basis returns, a set of occupied spin-orbitals is in the basis if and only if, for each angular momentum, for some number dnVal<=dnValBaths of electrons removed from the valence bath and some number dnCon<=dnConBaths put in the conduction bath with |dnVal-dnCon|<=dnTol, its impurity, valence bath and conduction bath occupations are n0imp+dnVal-dnCon, valBaths-dnVal and dnCon (valence clause vacuous when there is no valence bath).",
  "every system, every setting of the occupation parameters, every product state",
  "The basis size is combinatorial; parameter space is unbounded.",
  [fin+"get_basis"])
p("get_basis contains no product state twice and fails exactly on its assertions",
  "The returned basis never contains one product state twice, and get_basis raises exactly when valBaths>nBaths, an over-occupation assertion fails or a negative occupation is requested.",
  "every system and every setting of the occupation parameters",
  "Duplicates would make the Hamiltonian matrix wrong; absence is a statement about all configurations.",
  [fin+"get_basis"])
p("All states of the ground-state basis have the same number of electrons",
  "Every product state returned by get_basis has the same number of electrons, sum over l of n0imp+valBaths.",
  "every system and every setting of the occupation parameters for which get_basis returns",
  "Must hold for every partition of every parameter setting. (The code violates it when an angular momentum without valence baths is given dnValBaths>0.)",
  [fin+"get_basis"])
p("applyOp applies the second-quantised operator exactly",
  "Without restrictions, applyOp returns, for each product state, the amplitude <s|op|psi> of the second-quantised operator, dropping exactly the product states whose weight is below slaterWeightMin.",
  "every n, every operator (any number of processes of any length, indices<n), every state psi, every slaterWeightMin>0",
  "Operators and states are unbounded; signs, cancellations and pruning interact.",
  [fin+"applyOp"])
p("applyOp with restrictions keeps exactly the allowed product states",
  "With restrictions, applyOp returns the unrestricted amplitudes for the product states that fulfil all occupation restrictions and nothing else, although restrictions are only checked the first time a product state shows up.",
  "every n, operator, state, restrictions, slaterWeightMin",
  "The short-circuit (skip the check if the state is already present) is only correct by an invariant over the loop.",
  [fin+"applyOp"])
p("The opResult cache is transparent",
  "Calling applyOp with an opResult cache filled by earlier calls with the same operator gives the same state as without a cache. (False of the code when a matrix element is below the cutoff but its contribution to psi is not; true otherwise.)",
  "every history of applyOp calls sharing a cache",
  "Depends on the history of calls; a sampled history cannot show it.",
  [fin+"applyOp", spe+"getSpectra", spe+"getRIXSmap"])
p("The opResult cache stays correct",
  "After any sequence of applyOp calls with the same operator, cutoff and restrictions, each entry of opResult is the (pruned, restricted) result of the operator acting on its key product state, and every product state ever passed in has an entry.",
  "every history of applyOp calls sharing a cache",
  "Invariant over unbounded histories.",
  [fin+"applyOp"])
p("daggerOp is the adjoint",
  "daggerOp is an involution, raises exactly for unknown actions, and inner(phi, applyOp(op, psi)) = inner(applyOp(daggerOp(op), phi), psi) when no amplitudes are pruned.",
  "every operator and every pair of states",
  "Adjointness is an identity over all vectors and operators.",
  [fin+"daggerOp", fin+"applyOp", fin+"inner"])
p("assert_hermitian guarantees a Hermitian Hamiltonian matrix",
  "If assert_hermitian(op) passes, then the Hamiltonian matrix built from op in any basis of distinct product states is Hermitian, including the effect of amplitude pruning.",
  "every operator, every duplicate-free basis",
  "All operators and bases.",
  [fin+"assert_hermitian", fin+"get_hamiltonian_matrix", fin+"applyOp"])
p("All modes of get_hamiltonian_matrix give the same matrix on every rank",
  "dense_serial, dense_MPI, sparse_serial and sparse_MPI give the same matrix, for any number of MPI ranks and on each rank.",
  "every operator, duplicate-free basis, number of ranks, rank",
  "Rank counts and bases are unbounded; tests run one rank.",
  [fin+"get_hamiltonian_matrix", fin+"get_job_tasks"])
p("Hamiltonian matrix elements are the operator's matrix elements",
  "Entry (i,j) of get_hamiltonian_matrix is <basis_i|op|basis_j> if its weight reaches the cutoff and 0 otherwise.",
  "every operator, duplicate-free basis, indices i,j",
  "All operators and bases.",
  [fin+"get_hamiltonian_matrix"])
p("expand_basis returns the smallest invariant set, and terminates",
  "expand_basis terminates; its result starts with basis0, has no repetitions if basis0 has none, and as a set is the smallest set of product states that contains basis0 and is closed under the (pruned, restricted) operator; the cache h_dict is extended by exactly the columns of the basis.",
  "every operator, restrictions, basis0, consistent h_dict",
  "Termination and closure over unbounded expansion.",
  [fin+"expand_basis"])
p("Parallel basis expansion equals the serial one",
  "In mode H_build every rank returns the same basis, in the same order, as the serial mode, for any number of ranks, any distribution of already known columns and any iteration order of Python sets.",
  "every number of ranks, initial distribution, set order, operator, basis0",
  "Schedules, hash seeds and rank counts cannot be exhausted by tests.",
  [fin+"expand_basis", fin+"get_job_tasks"])
p("Every product state's column is stored on exactly one rank",
  "Starting from empty dictionaries, after any sequence of H_build expansions no product state is a key of the h_dict of two ranks, and each product state of the last basis is a key on exactly one rank.",
  "every history of expand_basis calls, every number of ranks",
  "Invariant over unbounded histories and rank counts.",
  [fin+"expand_basis", fin+"get_hamiltonian_matrix_from_h_dict"])
p("Distributed Hamiltonians add up to the serial Hamiltonian",
  "The local Hamiltonians of the ranks sum to the Hamiltonian of the serial mode; no KeyError occurs for a basis made by expand_basis.",
  "every number of ranks, operator, restrictions, basis0, history",
  "All distributions.",
  [fin+"get_hamiltonian_matrix_from_h_dict", fin+"expand_basis_and_hamiltonian", fin+"get_tridiagonal_krylov_vectors"])
p("The expanded Hamiltonian is Hermitian",
  "For an operator that passes assert_hermitian and start states that fulfil the restrictions, the matrix of expand_basis_and_hamiltonian is Hermitian. (It need not be when a start state violates the restrictions.)",
  "every Hermitian operator, restrictions, basis0",
  "All operators, restrictions and start states.",
  [fin+"expand_basis_and_hamiltonian", fin+"applyOp"])
p("Linear algebra on multi-configurational states",
  "add, addToFirst, inner and norm2 are vector addition, inner product and squared norm of the represented vectors: inner is conjugate-symmetric and linear in its second argument, norm2(psi)=inner(psi,psi), and norm2 = 0 only for the zero vector.",
  "all states and multipliers",
  "Algebraic laws over all dictionaries.",
  [fin+"add", fin+"addToFirst", fin+"inner", fin+"norm2"])
p("addOps is the operator sum",
  "The operator returned by addOps acts as the sum of the operators, whatever their number and overlap; zero terms are skipped.",
  "every list of operators and every state",
  "All operator lists.",
  [fin+"addOps"])
p("Particle number conservation",
  "If every process of the operator has as many creations as annihilations, then applyOp on a state with N electrons gives only states with N electrons, and every product state found by expand_basis has the electron number of one of the start states.",
  "every number-conserving operator, state, basis0, restrictions",
  "All operators.",
  [fin+"applyOp", fin+"expand_basis"])
p("Coulomb operator: conservation laws, Pauli principle, hermiticity",
  "Every process of getUop conserves the electron number, total m and spin; never creates or annihilates twice in the same spin-orbital; and for getUop(l1,l2,l3,l4) with its reverse included (as in get2p3dSlaterCondonUop) the operator is Hermitian, given the symmetries of the Gaunt coefficients. getNoSpinUop lists the same strengths without spin: half the Coulomb matrix element of four orbitals, wherever it is not zero.",
  "all angular momenta and Slater-Condon parameters",
  "All l and real parameters.",
  [fin+"getUop", fin+"getNoSpinUop", fin+"getU", fin+"gauntC", fin+"get2p3dSlaterCondonUop"])
p("Spin-orbit operator is Hermitian and conserves Jz",
  "getSOCop passes assert_hermitian for real xi, every process conserves m plus spin projection, and it equals xi times sum l.s.",
  "every l and every real xi",
  "All l.",
  [fin+"getSOCop"])
p("Magnetic field operator is h.S",
  "gethHfieldop passes assert_hermitian for real fields and acts as hx*Sx+hy*Sy+hz*Sz on the shell.",
  "every l and all real hx,hy,hz",
  "All l and fields.",
  [fin+"gethHfieldop"])
p("Density matrix is Hermitian, with trace equal to the occupation",
  "getDensityMatrix returns n_ij=<psi|c_j^dagger c_i|psi>, is Hermitian, has real diagonal between 0 and norm2(psi), and its diagonal sums to getTraceDensityMatrix.",
  "every system, l, state",
  "All states.",
  [fin+"getDensityMatrix", fin+"getTraceDensityMatrix"])
p("Direct formulas for Lz and Sz agree with the operators",
  "getLz3d(psi)=inner(psi, applyLz3d(psi)) and getSz3d(psi)=inner(psi, applySz3d(psi)).",
  "every system containing a d shell, every state",
  "All states.",
  [fin+"getLz3d", fin+"getSz3d", fin+"applyLz3d", fin+"applySz3d"])
p("Ladder operators obey the angular momentum algebra",
  "applySplus3d/applySminus3d and applyLplus3d/applyLminus3d are mutually adjoint; [S+,S-]=2Sz, [L+,L-]=2Lz, and getSsqr3d/getLsqr3d return <psi|S-S+ + Sz(Sz+1)|psi> and <psi|L-L+ + Lz(Lz+1)|psi>.",
  "every system containing a d shell, every state",
  "Operator identities over all states.",
  [fin+x for x in ["applySplus3d","applySminus3d","applyLplus3d","applyLminus3d","getSsqr3d","getLsqr3d"]])
p("Spherical-to-cubic transformation is unitary",
  "get_spherical_2_cubic_matrix returns a unitary matrix for l=1,2 with and without spin.",
  "both l, both spinpol values, all matrix entries, exact arithmetic",
  "Exact unitarity cannot be seen in floating point.",
  [fin+"get_spherical_2_cubic_matrix"])
p("eg and t2g occupations add up to the d occupation",
  "The four numbers of getEgT2gOccupation are real, non-negative and sum to getTraceDensityMatrix; getDensityMatrixCubic is the unitarily rotated density matrix.",
  "every system containing a d shell, every state",
  "All states.",
  [fin+"getEgT2gOccupation", fin+"getDensityMatrixCubic"])
p("Thermal average is a Boltzmann average",
  "thermal_average returns sum_i exp(-e_i/kT) o_i / sum_i exp(-e_i/kT); it is unaffected by a shift of all energies, lies between the smallest and largest observable, reproduces constants, and raises on mismatched lengths.",
  "every number of states, all energies, observables, T>0",
  "All real inputs.",
  [ed+"average.py:thermal_average"])
p("Double counting accepts exactly the documented inputs",
  "dc_MLFT raises ValueError exactly when an occupation is not an integer or the 2p arguments are not all absent or (n2p_i=6 with Fpd and Gpd given); otherwise it returns the documented energies.",
  "all inputs",
  "All argument combinations.",
  [fin+"dc_MLFT"])
p("The continued fraction never divides by zero and has a positive spectral function",
  "For real alpha and beta and broadening delta>0, every denominator is non-zero, -Im g > 0 and |g|<=1/delta; g is the (0,0) element of the inverse of (omega+i delta+e - T) with T the tridiagonal matrix. Mirrored for delta<0.",
  "every Krylov size, all real alpha, beta, omega, e, delta",
  "All sizes and reals.",
  [spe+"getGreen"])
p("Lanczos gives the exact Green's function when the Krylov space is exhausted",
  "In exact arithmetic, for a Hermitian matrix and a normalised start vector, if krylovSize is at least the dimension and no ValueError is raised, getGreen returns <psi|(omega+i delta+e-H)^{-1}|psi>; the generated Krylov vectors are orthonormal and alpha,beta are the tridiagonal form of H.",
  "every dimension, Hermitian H, start vector, energy, omega, delta",
  "All matrices.",
  [fin+"get_tridiagonal_krylov_vectors", spe+"getGreen"])
p("The distributed Lanczos equals the serial Lanczos on the root rank",
  "With H split as a sum over ranks, the root rank gets the same alpha, beta (and the same error) as the serial algorithm. (Other ranks return zeros; they do not get the spectrum, and when the root raises they are left waiting.)",
  "every number of ranks, every splitting, every start vector",
  "All splittings and rank counts.",
  [fin+"get_tridiagonal_krylov_vectors"])
p("Spectra are non-negative",
  "For delta>0 the PS, XPS, NIXS and XAS intensities that simulate_spectra stores (minus the imaginary part, with the sign conventions for photoemission) are >= 0 for every state, operator and energy.",
  "every state, transition operator, mesh point",
  "All inputs.",
  [spe+"getSpectra", spe+"simulate_spectra", spe+"getGreen"])
p("RIXS for one outgoing polarisation depends only on that outgoing operator",
  "The RIXS map for outgoing operator number t is the map obtained with tOpsOut=[tOpsOut[t]] alone. (False of the code: the caches of all outgoing operators are one dictionary.)",
  "every list of outgoing operators and every state",
  "Depends on aliasing across loop iterations and on all operators.",
  [spe+"getRIXSmap"])
p("Dipole operators obey the selection rules and daggering",
  "Every process of getDipoleOperator moves one electron from the first to the second shell, keeps the spin and changes m by at most one; the daggered operators are its adjoint; the operator is linear in the polarisation vector.",
  "every pair of shells, every polarisation vector",
  "All l and vectors.",
  [spe+"getDipoleOperator", spe+"getDaggeredDipoleOperators"])
p("NIXS operator depends on the full direction of q",
  "getNIXSOperator conserves spin, moves electrons from lj to li and is the plane-wave operator for q. (False of the code: q and q with the sign of qy flipped give the same operator.)",
  "every q not along z, all shells, radial functions",
  "All q.",
  [spe+"getNIXSOperator"])
p("Photoemission operators enumerate the shell",
  "getPhotoEmissionOperators/getInversePhotoEmissionOperators return one annihilation/creation operator with amplitude 1 for each spin-orbital of the shell, in index order, each exactly once; summing weights, the total removal weight is the occupation and the total addition weight is the number of holes.",
  "every system, every l in it, every state",
  "All systems and states (sum rule).",
  [spe+"getPhotoEmissionOperators", spe+"getInversePhotoEmissionOperators"])
p("RIXS.bin can be read back",
  "The array that plotRIXS reconstructs from the flat binary file written by simulate_spectra has the written energy meshes and map, for all mesh sizes.",
  "every number of in-coming energies and losses, all map values",
  "All sizes.",
  [spe+"simulate_spectra", "impurityModel/plotScripts/plotRIXS.py:main"])
p("allgather_dict gives every rank the union",
  "After allgather_dict every rank's total contains its former contents updated with the data of all ranks, whether or not the data is sent in chunks; chunks never exceed chunk_maxsize.",
  "every number of ranks, data, chunk size>=1",
  "All sizes and rank counts.",
  [ed+"mpi_comm.py:allgather_dict", ed+"mpi_comm.py:dict_chunks_from_one_MPI_rank"])
p("MPI calls of all ranks match",
  "In expand_basis (H_build), get_hamiltonian_matrix (MPI modes) and allgather_dict all ranks perform the same sequence of collective operations and every message sent is received, so that no rank waits forever.",
  "every number of ranks, every input",
  "Schedules and rank counts.",
  [fin+"expand_basis", fin+"get_hamiltonian_matrix", ed+"mpi_comm.py:allgather_dict"])
p("eigensystem returns the lowest states, paired with their energies",
  "The returned energies are in ascending order, each paired with its own eigenvector; they are the lowest ones, so that no state orthogonal to the returned ones has a lower energy; and dropping product states of weight below slaterWeightMin loses less than len(basis)*slaterWeightMin of the norm.",
  "every basis size, every eigenvector set returned by the diagonaliser",
  "All inputs.",
  [fin+"eigensystem"])
p("The energy cut keeps the matching eigenstates",
  "After the energy cut in main, the kept energies are exactly those less than energy_cut above the lowest and the kept states are their eigenstates.",
  "every ascending list of energies, every cut",
  "All lists.",
  [ed+"get_spectra.py:main", ed+"get_spectra_using_CF.py:main"])
p("Crystal-field Hamiltonian is Hermitian with the requested levels",
  "get_CF_hamiltonian returns a Hermitian one-particle operator, diagonal in spin, whose impurity and bath blocks rotated to the cubic basis are diagonal with the eg/t2g parameters; conduction terms occur iff nBaths-nValBaths=10.",
  "all real crystal-field parameters, both bath bases",
  "All real parameters.",
  [ed+"get_spectra_using_CF.py:get_CF_hamiltonian"])
p("Assembling the Hamiltonian loses no term",
  "Relabelling processes with c2i in get_hamiltonian_operator merges no two processes, and the final assert_hermitian passes if and only if the sum of the terms is Hermitian.",
  "every system and all operators",
  "All systems.",
  [ed+"get_spectra.py:get_hamiltonian_operator", fin+"addOps", fin+"assert_hermitian"])
p("The restrictions of the excited states admit the ground-state basis",
  "Every product state of get_basis fulfils the occupation restrictions that main sets up for the excited states. (Holds exactly when the impurity cannot lose two electrons in the ground-state basis.)",
  "every system with a d shell and every setting of the occupation parameters",
  "All parameter settings.",
  [ed+"get_spectra.py:main", fin+"get_basis"])
p("The bath terms of the crystal-field Hamiltonian act on the right bath states",
  "In the operator of get_CF_hamiltonian the valence parameters act on the bath states below nValBaths[2] and the conduction parameters on the bath states from nValBaths[2] to nBaths[2], and the complete Hamiltonian built with it is accepted. (False unless nValBaths[2] is 10, which the code hard-wires.)",
  "all real crystal-field parameters, both bath bases, all numbers of bath states",
  "All parameters and all systems.",
  [ed+"get_spectra_using_CF.py:get_CF_hamiltonian", ed+"get_spectra_using_CF.py:get_hamiltonian_operator_using_CF"])

p("getGreen computes the resolvent when the Krylov space is exhausted",
  "For a Hermitian Hamiltonian, a normalised state and delta!=0: if psi, H psi, ..., H^krylovSize psi are linearly dependent, the value getGreen returns at a mesh point w is <psi|(w+1j*delta+e-H)^-1|psi>, where H is the Hamiltonian between the product states the restrictions allow. getGreen raises exactly if krylovSize is 0 or the first min(krylovSize, number of reachable product states) Krylov vectors are linearly dependent, and otherwise returns one value per mesh point.",
  "every Hermitian operator, state, restriction, mesh, delta!=0, krylovSize and previously stored exact columns",
  "A statement about all matrices and states; a numerical test fixes one matrix.",
  [spe+":getGreen", spe+":get_tridiagonal_krylov_vectors", fin+"expand_basis_and_hamiltonian"])

p("Spectra do not depend on the number of MPI ranks",
  "getSpectra in mode eigen_states gives every rank the same array, which is the same for every number of ranks; in mode H_build rank 0 gets an array that does not depend on the number of ranks. If no matrix element of the transition operators is below slaterWeightMin the two modes agree, and they finish in the same cases. In mode H_build the other ranks hold <psi|psi>/(w+1j*delta+e) instead of the spectrum.",
  "every number of ranks, schedule, iteration order of sets, Hamiltonian, transition operators, states",
  "Schedules and numbers of ranks are unbounded.",
  [spe+":getSpectra", spe+":getGreen", fin+"expand_basis_and_hamiltonian"])

p("getSpectra computes the resolvent of the excited states",
  "If krylovSize exhausts the Krylov space of T|psi_i>, the entry gs[i,t,k] is <psi_i|T^+ (w_k+1j*delta+e_i-H)^-1 T|psi_i>, with T|psi_i> restricted to the product states that fulfil the restrictions and whose weight reaches slaterWeightMin.",
  "every Hermitian operator, list of transition operators and states, number of ranks and schedule",
  "A statement about all operators, states and schedules.",
  [spe+":getSpectra"])

p("RIXS maps do not depend on the number of MPI ranks or on the mode",
  "If no matrix element of the first outgoing operator is below slaterWeightMin, there is one map that all ranks of getRIXSmap have in modes serial, wIn and H_build_wIn and that rank 0 has in mode H_build, for every number of ranks; or the ranks never all finish, in any of these modes. An unknown mode is not rejected: it returns zeros.",
  "every number of ranks, mode, schedule, iteration order of sets, stored columns, Hamiltonian, operators, states, energies and linear solver",
  "Schedules and numbers of ranks are unbounded.",
  [spe+":getRIXSmap", spe+":getGreen", fin+"expand_basis_and_hamiltonian"])

p("getRIXSmap computes the Kramers-Heisenberg expression for the first outgoing operator",
  "With an exact linear solver, delta1 and delta2 nonzero, and a krylovSize that exhausts the Krylov space of T'x, the entry gs[i,t,0,w_in,w_loss] is <x|T'^+ (w_loss+1j*delta2+e_i-H)^-1 T'|x> with x=(w_in+1j*delta1+e_i-H)^-1 T_t|psi_i>, T_t the incoming and T' the first outgoing operator, if normalising T'x does not push an amplitude below slaterWeightMin.",
  "every Hermitian operator, lists of operators and states, energies, number of ranks, mode and schedule",
  "A statement about all operators, states and schedules.",
  [spe+":getRIXSmap"])

p("What simulate_spectra stores does not depend on the number of MPI ranks",
  "For every number of ranks rank 0 of simulate_spectra stores the same data sets, tables and RIXS.bin and the other ranks store nothing; or, for every number of ranks, the ranks never all finish. (The first outgoing RIXS operator has no matrix element below slaterWeightMin.)",
  "every number of ranks, schedule, iteration order of sets, Hamiltonian, states, meshes, polarisations and temperature",
  "Schedules and numbers of ranks are unbounded.",
  [spe+":simulate_spectra", spe+":getSpectra", spe+":getRIXSmap"])

p("The stored spectra are the response functions of the transition operators",
  "Where krylovSize exhausts the Krylov spaces: the PS data of eigenstate i and d spin-orbital j is -Im of <c^+ (w+1j*delta+e_i-H)^-1 c^+> - <c (-(w+1j*delta)+e_i-H)^-1 c>; XPS is Im of the second term for the p spin-orbitals; XAS is -Im of the response of the dipole operator of the polarisation; NIXS that of exp(iq.r)/sqrt(4 pi) at the energy loss with deltaNIXS; RIXS that of the Kramers-Heisenberg expression of the incoming and the first outgoing polarisation. The thermal data sets are their Boltzmann averages, a table row is the mesh point, the sum over the operators and the value for each operator, and plotRIXS.py reads from RIXS.bin the energies and the sums over both polarisations.",
  "every Hermitian Hamiltonian, states, meshes, polarisations, momentum transfers, temperature, number of ranks and schedule",
  "A statement about all Hamiltonians, states and schedules.",
  [spe+":simulate_spectra", spe+":getSpectra", spe+":getRIXSmap", "impurityModel/plotScripts/plotRIXS.py"])

p("What main prints and stores does not depend on the number of MPI ranks",
  "There is one set of printed values, stored energies and stored spectra that rank 0 of main has for every number of ranks, and the other ranks store nothing; or, for every number of ranks, the ranks never all finish.",
  "every number of ranks, schedule, iteration order of sets and arguments accepted by main, for any eigensolver, linear solver and tabulated functions",
  "Schedules and numbers of ranks are unbounded.",
  ["impurityModel/ed/get_spectra.py:main", "impurityModel/ed/get_spectra_using_CF.py:main"])

p("main computes the documented spectra of the documented Hamiltonian",
  "If main finishes for a p and a d shell, then the p shell was full (n0imps); the Hamiltonian is the sum of H0, Coulomb repulsion within and between the shells, spin-orbit coupling, the magnetic field on the d spin and the double counting; the stored energies are the nPsiMax lowest energies of this Hamiltonian in the space of all product states that dnTols, dnValBaths and dnConBaths allow; the spectra are those of the eigenstates less than energy_cut*kB*T above the lowest, with the meshes, broadenings, polarisations x, y, z, the two momentum transfers along (1,1,1) and the occupation restrictions of main; and each stored spectrum is the response function of its operators. With energy_cut*kB*T <= 0 no eigenstate is kept and main never finishes.",
  "all arguments of main for a p and a d shell, pickled H0 or crystal field parameters, number of ranks and schedule",
  "A statement about all Hamiltonians, occupations and schedules.",
  ["impurityModel/ed/get_spectra.py:main", "impurityModel/ed/get_spectra_using_CF.py:main", "impurityModel/ed/spectra.py:simulate_spectra", "impurityModel/ed/finite.py:eigensystem"])

p("The printed expectation values are those of the eigenstates, and the printed averages are at 300 K",
  "Each row of the table that main prints has the energy above the lowest and the expectation values, in the eigenstate, of the number of d electrons, the occupations of the e_g and t_2g orbitals for each spin, Lz, Sz, L^2 and S^2. The printed thermal values are the Boltzmann averages of these columns over the states less than 10*kB*300K above the lowest. They are for 300 K whatever temperature is given to main.",
  "all arguments of main for a p and a d shell, number of ranks and schedule",
  "A statement about all eigenstates of all Hamiltonians.",
  ["impurityModel/ed/get_spectra.py:main", "impurityModel/ed/finite.py:printThermalExpValues", "impurityModel/ed/finite.py:printExpValues"])

p("The printed product states are those with the highest weights, and no large density matrix element is left out",
  "For every eigenstate main prints the nPrintSlaterWeights product states with the highest weights in descending order, and the printed byte strings identify the product states. Of the density matrix between the real d orbitals it prints exactly the elements whose modulus exceeds tolPrintOccupation, each once and with its value.",
  "all arguments of main for a p and a d shell with tolPrintOccupation >= 0, number of ranks and schedule",
  "A statement about all eigenstates of all Hamiltonians.",
  ["impurityModel/ed/get_spectra.py:main", "impurityModel/ed/finite.py:getDensityMatrixCubic"])

p("The Coulomb and spin-orbit operators are rotationally invariant",
  "The Coulomb operator of any four shells, and the 2p-3d operator, commutes with the total orbital momentum and with every total spin operator. The spin-orbit operator commutes with the total angular momentum L+S, and the magnetic-field operator with the total orbital momentum. Hence the whole Hamiltonian without field commutes with L+S if the non-interacting operator does: an ion has multiplets.",
  "all systems of shells and baths, Slater integrals, spin-orbit parameters and fields, and all Gaunt coefficients that are symmetric and rotationally invariant, in particular those of sympy's formula",
  "A statement about all many-electron states of all shells and all parameters.",
  [fin+"getUop", fin+"get2p3dSlaterCondonUop", fin+"getSOCop", fin+"gethHfieldop", fin+"gauntC", "impurityModel/ed/get_spectra.py:get_hamiltonian_operator"])

p("F0 is the repulsion per pair of electrons",
  "With monopole Slater integrals only, every product state with n_d and n_p electrons is an eigenstate of the 2p-3d Coulomb operator with energy F0dd n_d(n_d-1)/2 + F0pp n_p(n_p-1)/2 + F0pd n_p n_d.",
  "all systems, Slater integrals, states and occupations",
  "A statement about all occupations of all states.",
  [fin+"get2p3dSlaterCondonUop", fin+"getUop", fin+"gauntC"])

p("The angular integrals have their symmetries and selection rules",
  "The Gaunt coefficients are symmetric under exchange of spherical harmonics and reversal of all m, vanish unless the triangle rule, the parity rule and m1+m2+m3=0 hold, are rotationally invariant, reduce to orthonormality for k=0, and the dipole elements between p and d orbitals are either zero or above the cutoff of the code.",
  "all angular momenta l and projections m",
  "Infinitely many coefficients.",
  [fin+"gauntC", fin+"getDipoleOperator"])

p("getGreen on dictionaries agrees with getGreen on matrices",
  "For a Hermitian operator without tiny matrix elements, a normalised state and slaterWeightMin <= 0: if getGreen with mode='dict' returns, mode='sparse' returns the same values, and they are the exact Green's function if krylovSize exhausts the Krylov space. mode='dict' raises exactly if the first krylovSize Krylov vectors are linearly dependent, in particular if krylovSize exceeds the number of product states within reach, where mode='sparse' reduces krylovSize.",
  "all operators, states, restrictions, energies, meshes, Krylov sizes and stored columns",
  "Agreement of two algorithms for infinitely many operators and states; the tests call neither mode with the other as reference.",
  ["impurityModel/ed/spectra.py:getGreen", fin+"applyOp", fin+"add", fin+"norm2", fin+"inner"])

p("Spectra are sums of Lorentzians with the right total weight",
  "The Green's function that getGreen returns is a sum of weight/(w + i delta + e - energy) over at most krylovSize energies, with non-negative weights that add up to one; energies and weights do not depend on the mesh, the broadening or e, and for a normalised state and a Hermitian operator the energies lie within the bounds of the expectation values of the Hamiltonian. The same holds for getSpectra in both modes, with weights that add up to <T psi|T psi>, and for the photoemission spectra that simulate_spectra stores. The area of a spectrum is pi times the sum of the weights; for photoemission plus inverse photoemission of one spin-orbital this is pi times the norm of the state, and the part from removing electrons gives the occupation, unless restrictions or the cutoff drop amplitudes.",
  "all operators, states, Krylov sizes, meshes, broadenings, numbers of ranks and schedules",
  "An integral over the whole energy axis and a representation that must be the same for every mesh and broadening.",
  ["impurityModel/ed/spectra.py:getGreen", "impurityModel/ed/spectra.py:getSpectra", "impurityModel/ed/spectra.py:simulate_spectra"])

p("The command line checks accept the documented arguments, and the defaults work",
  "The scripts raise, on every rank and before any communication, exactly if the arguments lack the documented form. Accepted arguments for a p and a d shell pass the setup of main exactly if the nominal p occupation is six, all allowed occupations are possible, and the non-interacting operator is Hermitian and stays within the system; the crystal field script always gives such an operator. Without options the crystal field script gets through the setup for every file of parameters, with 190 product states.",
  "all arguments, crystal field parameters and radial files",
  "Infinitely many arguments and parameter files, and an exact description of the accepted ones.",
  ["impurityModel/ed/get_spectra.py:__main__", "impurityModel/ed/get_spectra_using_CF.py:__main__", "impurityModel/ed/get_spectra.py:main", "impurityModel/ed/get_spectra_using_CF.py:main"])

p("The plot script shows the stored spectra",
  "For every file written by get_spectra the plot script finishes and shows seven figures: the photoemission, XPS and absorption spectra summed over the transition operators, the absorption with the total and the quasi-elastic fluorescence yield, the NIXS spectrum of each q, the RIXS spectra at the in-coming energies nearest to the chosen ones with the documented offsets, and the RIXS maps of the sum and of each pair of polarisations, in which only intensities below 1e-6 are left out. For a finished run the quasi-elastic yield lies between zero and the total one. Files with fewer than three in-coming polarisations, other than one in-coming and one out-going, cannot be plotted.",
  "all spectra files",
  "Holds for every file, including the nearest mesh point and the pixel of every intensity.",
  ["impurityModel/plotScripts/plotSpectra.py:plot_spectra_in_file", "impurityModel/ed/get_spectra.py:main", "impurityModel/ed/spectra.py:simulate_spectra"])

p("Allowing more configurations never raises an energy",
  "For two calls of eigensystem with the same operator, or two finished runs of get_spectra with the same Hamiltonian, the second with at least the configurations of the first, the i-th energy of the second is not larger than that of the first. With the same configurations the energies are equal, whatever the solvers, modes, numbers of ranks, temperatures and numbers of energies asked for are. No superposition of allowed configurations has a lower energy than the lowest printed one.",
  "all Hermitian operators, nested sets of product states, tolerances, solvers and numbers of ranks",
  "Min-max principle over all superpositions; compares two runs for every Hamiltonian.",
  [fin+"eigensystem", "impurityModel/ed/get_spectra.py:main", fin+"get_basis"])

p("Spectra do not depend on which eigenvectors of a degenerate energy the solver returns",
  "Replacing the eigenstates by any unitary superposition within each energy leaves every thermally averaged response unchanged, at all temperatures. For two finished runs of get_spectra with the same input but different eigensolvers, ranks and set orders, the energies agree, and the states used for the spectra of one run are such superpositions of those of the other, provided at least one computed energy lies above the energy cut and no eigenvector lost weight to the cutoff. If in addition no amplitude is dropped by the cutoffs, the stored thermal averages of all five spectra agree. The agreement is exact if 150 Lanczos vectors exhaust the Krylov spaces, and otherwise holds up to the explicit error of 150 Lanczos vectors.",
  "all Hamiltonians, degeneracies, eigensolvers, temperatures, numbers of ranks and schedules",
  "Degenerate eigenvectors are arbitrary, and a test sees only the choice of one library version.",
  ["impurityModel/ed/get_spectra.py:main", "impurityModel/ed/spectra.py:simulate_spectra", fin+"eigensystem", "impurityModel/ed/average.py:thermal_average"])

p("In a fourfold symmetric system x and y polarised light give the same absorption",
  "If the magnetic field points along z and the non-interacting operator is invariant under rotation by 90 degrees about z, the thermally averaged absorption spectra stored by get_spectra for x and for y polarised light are equal at every mesh point, whatever the Slater integrals, spin-orbit couplings, occupations and temperature are. This needs at least one computed energy above the energy cut, eigenvectors that lost no weight to the cutoff, and harmless cutoffs in the spectra. Every crystal-field file gives such an invariant operator.",
  "all Hamiltonians with this symmetry, crystal-field parameters, eigensolvers, temperatures, numbers of ranks and schedules",
  "A relation between two spectra for every Hamiltonian of a symmetry class, including degenerate ground states.",
  ["impurityModel/ed/get_spectra.py:main", "impurityModel/ed/get_spectra_using_CF.py:get_CF_hamiltonian", "impurityModel/ed/spectra.py:getDipoleOperators", "impurityModel/ed/spectra.py:simulate_spectra"])

p("Without a magnetic field there is no net moment, and time-reversed spin-orbitals have the same photoemission",
  "If there is no magnetic field and the non-interacting operator is invariant under time reversal, the thermal averages printed by get_spectra have <Lz> = 0 and <Sz> = 0, and the printed eg and t2g occupations for spin down equal those for spin up, whatever the Slater integrals, spin-orbit couplings and occupations are. The stored photoemission, inverse photoemission and core photoemission spectra of the spin-orbitals (m, s) and (-m, 1-s) are equal. This needs at least one computed energy above the energies that are averaged over and eigenvectors that lost no weight to the cutoff; the spectra also need harmless cutoffs. Every crystal-field file gives an invariant operator.",
  "all time-reversal invariant Hamiltonians, crystal-field parameters, eigensolvers, temperatures, numbers of ranks and schedules",
  "A relation between outputs for every Hamiltonian without a field; single eigenvectors of a degenerate level have a moment, only the average has none.",
  ["impurityModel/ed/get_spectra.py:main", "impurityModel/ed/get_spectra_using_CF.py:get_CF_hamiltonian", fin+"printThermalExpValues", "impurityModel/ed/spectra.py:getPhotoEmissionOperators", "impurityModel/ed/spectra.py:simulate_spectra"])

p("Without a magnetic field the energies of an odd number of electrons come in pairs",
  "If there is no magnetic field, the number of electrons is odd and the non-interacting operator is invariant under time reversal of half-integer spin, the energies printed by get_spectra are equal two by two: the first and the second, the third and the fourth, and so on, whatever the Slater integrals, spin-orbit couplings, restrictions of the configurations and eigensolver are. For crystal-field files without p bath states no further condition is needed.",
  "all time-reversal invariant Hamiltonians, odd electron numbers, crystal-field parameters, eigensolvers, numbers of ranks and schedules",
  "Kramers' theorem: holds for every Hamiltonian without a field, a test only sees some of them.",
  ["impurityModel/ed/get_spectra.py:main", "impurityModel/ed/get_spectra_using_CF.py:get_CF_hamiltonian", fin+"eigensystem", fin+"get_basis"])

p("A run that is killed or fails has stored the beginning of what a complete run stores",
  "At every moment of a run of get_spectra, what has been stored by then (data.npz, the data sets of spectra.h5, the .dat files and RIXS.bin) is the beginning of one fixed sequence, each entry with its final value; nothing is stored twice or changed later, and only rank 0 stores anything. The sequence depends on the input only: for any two runs with the same input, with any numbers of ranks and schedules, stopped at any moment by a crash, an exception or the end, what one has stored is the beginning of what the other has stored. If a run can finish, all runs end with the complete sequence: the input parameters, the energies and meshes, and for each spectrum the intensities, the thermal average and the table or map.",
  "all inputs, numbers of ranks, set orders, schedules (synchronous and buffered communication) and moments at which the run stops",
  "A crash can come at any moment of any interleaving of the ranks; tests stop at a few of them at best.",
  ["impurityModel/ed/get_spectra.py:main", "impurityModel/ed/spectra.py:simulate_spectra"])

p("Raising the energies of the core level or of all levels only relabels the energy axes",
  "If the input operators of two finished runs of get_spectra differ by a constant c in the energies of some spin-orbitals, whose number of electrons m is conserved and is the same in all configurations, every printed energy of the second run is that of the first one plus c m, and the same number of states is used for the spectra. If these spin-orbitals are the p shell, the absorption spectra and the in-coming energies of RIXS move by -c, core photoemission by c, and the photoemission, NIXS and energy losses do not move. If they are all spin-orbitals, photoemission moves by c and absorption, NIXS and RIXS do not move. This needs that no diagonal matrix element is dropped by the cutoff; the spectra need at least one computed energy above the energy cut, eigenvectors that lost no weight to the cutoff, and harmless cutoffs.",
  "all Hamiltonians, constants, eigensolvers, temperatures, numbers of ranks and schedules",
  "A relation between two runs for every Hamiltonian and shift, including which states the energy cut keeps.",
  ["impurityModel/ed/get_spectra.py:main", "impurityModel/ed/spectra.py:simulate_spectra", fin+"eigensystem", "impurityModel/ed/average.py:thermal_average"])

p("Spectra from few Lanczos vectors are close to the exact ones, and the error falls exponentially with their number",
  "If all energies that can be reached from an excited state T|psi> lie within w of some energy, every value that getGreen, getSpectra, getRIXSmap and get_spectra compute for it from krylovSize Lanczos vectors differs from the exact response at that energy by at most |T psi|^2 2 / (delta sinh(2 krylovSize arsinh(delta/w))), whether or not the Krylov space is exhausted. The error decreases by the factor (delta/w + sqrt(1 + (delta/w)^2))^2 with each vector. The sum of the magnitudes of the strengths of the Hamiltonian can always be taken for w. Boltzmann averages have at most the largest of the errors.",
  "all Hermitian Hamiltonians, states, transition operators, restrictions, broadenings, meshes, krylovSize, numbers of ranks and schedules",
  "A convergence bound for every Hamiltonian and every number of Lanczos vectors; a test compares single values, and has no exact value to compare with for systems that need a Krylov method.",
  ["impurityModel/ed/spectra.py:getGreen", "impurityModel/ed/spectra.py:getSpectra", "impurityModel/ed/spectra.py:getRIXSmap", "impurityModel/ed/spectra.py:simulate_spectra", "impurityModel/ed/get_spectra.py:main"])

p("Small errors of the Lanczos coefficients change a Green's function by little, also where the Lanczos chain should have ended",
  "If the coefficients alpha and beta that the Green's function is calculated from differ by at most eps from the exact ones, every value of it is within 3 eps / delta^2 of the exact Green's function. This also holds if the exact chain ends before krylovSize, where exact arithmetic would raise: then it is enough that the coefficients agree up to the end of the chain and that the coupling there is at most eps; the coefficients that follow do not matter. If the chain does not end, the errors of truncation (see the preceding property) and of the coefficients add.",
  "all Hermitian Hamiltonians, states, restrictions, broadenings, meshes, coefficient errors, and all numbers of coefficients computed after the end of the chain",
  "A bound over all perturbations; tests see the rounding of one machine and one system, and garbage coefficients after a breakdown depend on both.",
  ["impurityModel/ed/spectra.py:getGreen", fin+"get_tridiagonal_krylov_vectors"])

p("The cutoffs change energies and spectra by at most a known amount",
  "Matrix elements of the Hamiltonian with a squared magnitude of at most the slater-weight cutoff are dropped, and so are components of eigenvectors and of excited states. With m terms in the Hamiltonian, every printed energy of get_spectra is within m sqrt(cut) of the energy without the cutoff, and so for any number of computed states. Every photoemission, core photoemission, absorption, NIXS and RIXS intensity is within a stated bound of the exact response to the complete state, operator and Hamiltonian: the bound has a term of first order in the lost weight over delta, one of m sqrt(cut) over delta squared, and the error of the Krylov space. It tends to zero with the cutoffs and holds without assuming that nothing was dropped.",
  "all Hermitian Hamiltonians, cutoffs, states, transition operators, restrictions, broadenings, meshes, krylovSize, eigensolvers, numbers of ranks and schedules",
  "A bound over all Hamiltonians and states on an effect that a test can only see by running twice, and that is below the tolerance of most comparisons.",
  [fin+"applyOp", fin+"get_hamiltonian_matrix_from_h_dict", fin+"eigensystem", "impurityModel/ed/spectra.py:getGreen", "impurityModel/ed/spectra.py:getRIXSmap", "impurityModel/ed/get_spectra.py:main"])

p("Thermal averages are safe to evaluate, have the right limits, and hardly depend on states above the energy cut",
  "thermal_average evaluates only exponentials between zero and one, one of which is one, and divides by a sum between one and the number of states, whatever the energies are and for every temperature above zero. At low temperatures the average approaches the plain mean over the states of lowest energy, with an error of at most D exp(-gap/kT) for each other state; at high temperatures it approaches the plain mean over all states, with an error of at most (exp(width/kT) - 1) D, where D bounds the differences of the observable. The average energy never falls when the temperature rises. Leaving out states that are at least c kT above another one changes an average by at most D exp(-c) for each. So every average stored by get_spectra is within D exp(-energy_cut) per computed state above the cut of the average over all computed states.",
  "all energies, observables (numbers and arrays), temperatures above zero, energy cuts, and finished runs of get_spectra",
  "Limits and error bounds over all temperatures and spectra; overflow occurs only for unusual energies.",
  ["impurityModel/ed/average.py:thermal_average", "impurityModel/ed/get_spectra.py:main"])

p("How far energies can move when parameters of the Hamiltonian change",
  "If the strengths of the terms of a Hamiltonian are changed, no energy returned by eigensystem changes by more than the sum of the magnitudes of the changes. If every product state gets an extra energy between lo and hi, every energy rises by at least lo and at most hi. The lowest energy is a concave function of the Hamiltonian. For get_spectra this means: changing the magnetic field by (dx, dy, dz) moves an energy by at most 5/2 (|dz| + sqrt(dx^2 + dy^2)), changing a spin-orbit coupling by at most its change times the sum of the magnitudes of the matrix elements of l.s, changing the non-interacting operator by at most the sum of its changes; changing F0 parameters, the charge-transfer correction and the shell levels moves all energies by an amount between the smallest and the largest of the costs of the allowed configurations; and the lowest energy is concave in all parameters together. The dropped matrix elements add at most sqrt(cut) per term.",
  "all Hermitian Hamiltonians and changes of them, product states, cutoffs, eigensolvers, and all pairs or triples of finished runs of get_spectra",
  "Bounds over all pairs of inputs; a test compares two runs at a time, and a wrong dependence on a parameter stays within plausible values.",
  [fin+"eigensystem", fin+"getUop", fin+"getSOCop", fin+"gethHfieldop", fin+"dc_MLFT", "impurityModel/ed/get_spectra.py:main", "impurityModel/ed/get_spectra.py:get_hamiltonian_operator"])

p("The ground-state basis has the number of states the combinatorics predicts",
  "When get_basis returns, the number of product states in it (all different) is the product over the angular momenta l of the sum, over the allowed numbers dv of electrons taken from the valence bath and dc put in the conduction bath (0 <= dv <= dnValBaths, 0 <= dc <= dnConBaths, |dv-dc| <= dnTol), of C(2(2l+1), n0imp+dv-dc) C(valBaths, valBaths-dv) C(nBaths-valBaths, dc), the middle factor being 1 without valence bath. With frozen baths this is the product of C(2(2l+1), n0imp). The basis is empty only if for some l no (dv, dc) is allowed.",
  "all systems and all occupation parameters for which get_basis returns",
  "the number of states is combinatorial in the parameters; tests compare a few small cases",
  [fin+"get_basis"])

p("An eigensolver that stops at a small residual still gives nearby energies, states and spectra",
  "Suppose numpy and scipy only return normalised vectors x and energies e with |H x - e x| <= delta(e); the vectors need not be orthogonal and need not belong to the lowest states. Then every energy eigensystem or main stores is within delta(e) plus 1e-6 per term of the Hamiltonian of an exact eigenvalue between the allowed product states (main has at most 1082 terms plus those of the non-interacting Hamiltonian). If the other eigenvalues are at least g away, the stored state is within sqrt(2) r/g, plus the effect of the dropped weights, of an exact eigenvector, r being this energy error; and the spectra main stores are, up to the stated errors, the responses of these exact eigenvectors for the Hamiltonian without cutoffs. If the Lanczos vectors are orthogonal and no lower state is missed, the i-th energy is within (2 sqrt(nPsiMax)+1) delta of the i-th exact one.",
  "all Hermitian operators, bases, residual bounds, numbers of ranks, schedules and inputs of main",
  "scipy's eigsh is called with a finite tolerance; a test sees one matrix and one error, the bound is about every matrix and every answer within the residual",
  [fin+"eigensystem", "impurityModel/ed/get_spectra.py:main"])

p("The spectra do not depend on the choice of the bath states",
  "The bath states are only a basis for the environment of the ion. If the non-interacting Hamiltonian in the second file is that in the first one for other bath states, so that its matrix is u h u+ with a unitary u that leaves the p and d shell alone and mixes valence bath states with valence bath states of the same shell and conduction bath states with conduction bath states of the same shell, then two finished runs of get_spectra print the same energies, keep the same number of states, and store the same thermally averaged spectra (also RIXS), provided the cutoffs drop nothing. For a mere renumbering of the bath states, with any phase factors, no condition on the matrix elements of the Hamiltonian is needed. The agreement is exact if 150 Lanczos vectors exhaust the Krylov spaces, and otherwise holds up to the explicit error of 150 Lanczos vectors.",
  "all numbers of bath states, non-interacting Hamiltonians, unitary transformations of the bath, eigensolvers, ranks and schedules of both runs",
  "Invariance over a continuous group of inputs; a test compares two bases at most, and the runs do not even use the same product states.",
  ["impurityModel/ed/get_spectra.py:main", "impurityModel/ed/get_spectra.py:get_hamiltonian_operator", fin+"get_basis", fin+"eigensystem"])

p("Without a preferred direction only the strength of the magnetic field counts",
  "If the non-interacting Hamiltonian has no preferred direction in space (it commutes with an angular momentum that is l+s in the p and d shells and anything on the bath states that keeps valence and conduction bath apart), two finished runs of get_spectra whose magnetic fields have the same strength but different directions print the same energies and keep the same number of states, for all Slater integrals, spin-orbit couplings and occupations. Their thermally averaged spectra agree after summation: photoemission over the ten 3d spin-orbitals, core photoemission over the six 2p spin-orbitals, absorption over the three polarisations, provided the cutoffs drop nothing. The agreement is exact if 150 Lanczos vectors exhaust the Krylov spaces, and otherwise holds up to the explicit error of 150 Lanczos vectors.",
  "all fields of equal strength, spherically symmetric non-interacting Hamiltonians, Slater integrals, spin-orbit couplings, eigensolvers, ranks and schedules of both runs",
  "Invariance under a continuous group of rotations; a test compares two directions, and a wrong sign in a field or spin-orbit matrix element keeps some directions equivalent.",
  ["impurityModel/ed/get_spectra.py:main", fin+"gethHfieldop", fin+"getSOCop", fin+"getUop", "impurityModel/ed/spectra.py:getDipoleOperator"])

p("Without field and preferred direction, absorption does not depend on the polarisation",
  "In a finished run of get_spectra without magnetic field and with a non-interacting Hamiltonian that has no preferred direction in space, the thermally averaged x-ray absorption is the same for the three polarisations at every energy. The averaged resonant scattering is the same for the two in-coming polarisations perpendicular to the out-going polarisation that main evaluates, provided the cutoffs drop nothing. The agreement is exact if 150 Lanczos vectors exhaust the Krylov spaces, and otherwise holds up to the explicit error of 150 Lanczos vectors.",
  "all spherically symmetric non-interacting Hamiltonians, Slater integrals, spin-orbit couplings, occupations, eigensolvers, ranks and schedules",
  "Holds only after averaging over all states of a degenerate energy, whose choice by the eigensolver is arbitrary; a test sees one choice.",
  ["impurityModel/ed/get_spectra.py:main", "impurityModel/ed/spectra.py:getDipoleOperator", "impurityModel/ed/spectra.py:getSpectra", "impurityModel/ed/spectra.py:getRIXSmap"])

p("Without spin-orbit coupling the direction of the magnetic field does not matter",
  "If both spin-orbit couplings are zero and the non-interacting Hamiltonian does not act on the spin, two finished runs of get_spectra whose magnetic fields have the same strength but different directions print the same energies and keep the same number of states, also when the crystal field has low symmetry. Their thermally averaged absorption, non-resonant and resonant scattering are the same for each polarisation and momentum transfer, and the photoemission and core photoemission are the same for each orbital after summation over the spin, provided the cutoffs drop nothing. The agreement is exact if 150 Lanczos vectors exhaust the Krylov spaces, and otherwise holds up to the explicit error of 150 Lanczos vectors.",
  "all fields of equal strength, spin-independent non-interacting Hamiltonians, Slater integrals, eigensolvers, ranks and schedules of both runs",
  "Invariance under a continuous group of spin rotations that mixes all product states; a test compares two directions.",
  ["impurityModel/ed/get_spectra.py:main", fin+"gethHfieldop", fin+"getUop", "impurityModel/ed/spectra.py:getDipoleOperator", "impurityModel/ed/spectra.py:getNIXSOperator"])

p("The printed sizes of the Hamiltonian are true",
  "expand_basis_and_hamiltonian prints, on rank 0 only, the sizes of the basis and of the dictionary of known columns. For any number of ranks, any earlier calls and any schedule, len(basis_index) and np.shape(h)[0] are the number of product states of the basis, len(h_dict) is the number of columns known to rank 0, and len(h_dict_total) is the number of different product states that had a column on some rank before or are in the basis: no column is counted twice. Printing does not change what is returned.",
  "all operators, restrictions, start states, known columns, numbers of ranks, orders of sets and schedules, both modes",
  "The total is a sum over ranks and counts a column twice as soon as two ranks store it for any order of sets and any history of calls.",
  [fin+"expand_basis_and_hamiltonian"])

p("Rounding errors do not grow along the continued fraction or the thermal average",
  "If every floating-point operation is exact up to a relative error u, the Green's function that getGreen computes from given Lanczos coefficients differs from the exact value of the continued fraction by at most 150 u S / delta^2 at every energy, where S bounds the energies and coefficients and 200 u S <= delta; the bound does not depend on the number of coefficients. Together with coefficients that are themselves inexact by eps, the result is the exact Green's function of the state up to 3 eps / delta^2 + 150 u S / delta^2, and no division by zero occurs. thermal_average differs from the exact average by at most 4 u (n + 3 + 4 X) times the largest observable, for n energies that span X in units of k_B T.",
  "all rounding functions with relative error u, coefficients, numbers of Lanczos vectors, energies, broadenings, observables and temperatures",
  "A test sees the rounding of one input; a bound that does not grow with the length needs the geometry of every step of the continued fraction.",
  ["impurityModel/ed/spectra.py:getGreen", "impurityModel/ed/average.py:thermal_average"])

p("The lowest energy and the printed expectation values respond to the field and the d level as they must",
  "Compare two finished runs of get_spectra that differ only in the z component of the magnetic field, by dhz, and in the level of the d orbitals, by ed. The lowest energy of the second run is at most every printed energy of the first plus dhz times the printed Sz of that state plus ed times its printed number of d electrons, up to a stated accuracy that comes from the cutoffs. The change of the lowest energy therefore lies between the changes predicted from the expectation values of either run. A larger field never raises the printed Sz of the lowest state and a higher d level never raises its number of d electrons, up to twice the accuracy. For eigensystem the same holds for any change of the energies of product states.",
  "all systems, Hamiltonians, fields, levels, eigensolvers (of either run), numbers of ranks and schedules, and finished runs of get_spectra",
  "An inequality between the printed energies of one run and the expectation values of another, over all parameters and for eigenvectors that are not unique when energies coincide.",
  [fin+"eigensystem", fin+"printExpValues", "impurityModel/ed/get_spectra.py:main", "impurityModel/ed/get_spectra.py:get_hamiltonian_operator"])

p("The spectra have the exact moments up to twice the number of Lanczos vectors",
  "A Green's function from krylovSize Lanczos vectors is a sum of at most krylovSize Lorentzians with weights that are not negative, and for every m below 2 krylovSize the sum of weight times energy to the power m equals the expectation value of the m-th power of the Hamiltonian in the excited state. The total weight, the mean energy and the width of every spectrum are therefore exact, however few vectors are used, and together these moments determine the computed spectrum completely. So the photoemission, XPS, XAS and NIXS spectra stored by get_spectra have the first 300 moments of the exact ones.",
  "all Hermitian Hamiltonians, states, transition operators, restrictions, krylovSize, meshes, broadenings, numbers of ranks and schedules, and finished runs of get_spectra",
  "A statement about exact expectation values of powers of the Hamiltonian for all inputs; a broadened spectrum on a mesh does not show its moments.",
  ["impurityModel/ed/spectra.py:getGreen", fin+"get_tridiagonal_krylov_vectors", "impurityModel/ed/spectra.py:getSpectra", "impurityModel/ed/spectra.py:simulate_spectra", "impurityModel/ed/get_spectra.py:main"])

p("Spectra do not move further than their input",
  "Take two finished calculations of spectra on the same mesh with the same broadening delta and the same restrictions, whose Hamiltonians, energies, states, transition operators, cutoffs and numbers of Lanczos vectors may all differ. At every energy of the mesh the two values for an eigenstate differ by at most |v - v'| (|v| + |v'|) / delta plus c |v'|^2 / delta^2 plus the errors of the Lanczos vectors, where v and v' are the excited states and c adds up the changes of the strengths of the Hamiltonian, the change of the energy and the matrix elements dropped by the cutoff. This holds for getSpectra in both modes, for photoemission, XPS, XAS and NIXS in simulate_spectra, and for what two runs of get_spectra with the same system, occupations and broadenings store. A value of RIXS obeys the same bound with the states after the emission, and the intermediate states differ by at most |v - v'| / delta + c |v'| / delta^2. If the values of all eigenstates differ by at most eps, those of the second run by at most D among each other, and the energies in units of the temperature by the same amount up to eta, then the thermal averages differ by at most eps + (exp(2 eta) - 1) D.",
  "all pairs of Hermitian Hamiltonians, states, transition operators, cutoffs and krylovSize, numbers of ranks and schedules of both runs, and pairs of finished runs of get_spectra",
  "A bound between two runs for all pairs of inputs; a test compares two inputs and the allowed difference depends on both.",
  ["impurityModel/ed/spectra.py:getSpectra", "impurityModel/ed/spectra.py:getGreen", "impurityModel/ed/spectra.py:simulate_spectra", "impurityModel/ed/get_spectra.py:main"])

p("The text files can be read back and show the spectra to four decimals",
  "numpy.loadtxt reads the files PS.dat, XPS.dat, NIXS.dat and XAS.dat of every finished run: they have one row for each point of the mesh, with the energy, the sum and one column per operator, and every number that is read is the multiple of 1e-4 nearest to the stored value (the even one of two). Columns are never merged, however large the numbers are. The energies in the files of get_spectra are strictly increasing, no intensity is negative if the broadenings are positive, the column sum differs from the sum of the columns by at most half of 1e-4 per column, and a value below half of 1e-4 is read as zero. The radial file may be any table of two or more pairs of decimal numbers, with comments, empty lines, signs and exponents: get_spectra uses exactly the pairs in the file, and a file with anything else is rejected.",
  "all real numbers, tables, headers, contents of radial files, and finished runs of simulate_spectra and get_spectra",
  "A test reads back a few tables; that no magnitude merges columns, loses a row or reorders energies concerns all numbers, and what the reader accepts concerns all texts.",
  ["impurityModel/ed/spectra.py:simulate_spectra", "impurityModel/ed/get_spectra.py:main"])

p("The command line means what it says",
  "Every command line that names the two files and then any of the 23 documented options, in any order and with repetitions, is accepted if the values are numbers of the right kind: each value is written with an equals sign, or does not start with a minus sign, or is a negative number without exponent. Every parameter is then set by its own option and by no other, to the number that the decimal notation denotes, the last occurrence of an option counts, and a parameter whose option is missing is left at its default. A command line with a word that starts with a minus sign and is neither an option, nor short for one, nor such a number, is refused wherever the word stands; so a misspelt option never passes unnoticed, and negative numbers with an exponent like -1e-4 are refused unless they follow an equals sign.",
  "all command lines: file names, sequences of options, decimal words, and positions of a wrong word",
  "A test parses a few command lines; that no option is confused with another, for all orders, repetitions and numbers, concerns all of them.",
  ["impurityModel/ed/get_spectra.py:main", "impurityModel/ed/get_spectra_using_CF.py:main"])

p("What is printed about the eigenstates can be read and is consistent",
  "printExpValues prints the lowest energy to four decimals, the titles of the columns, and for each eigenstate in order one line with exactly eleven words: its number and the energy above the lowest, the number of d electrons, the four occupations, Lz, Sz, L^2 and S^2 in the order of the titles, each the multiple of 0.001 or 0.01 nearest to the value (the even one of two), whatever the magnitude of the numbers; columns are never merged. In a finished run of get_spectra the printed energies are not negative and ascend from line to line, the printed occupations lie between zero and two (e_g) or three (t_2g) for each spin, the printed number of d electrons between zero and ten, and it differs from the sum of the four printed occupations by at most 0.007. printThermalExpValues prints each average behind the title of its column to three decimals. printGaunt prints for every k a table with a line for every m and a column for every m' with the coefficients to two decimals.",
  "all energies, states, expectation values, angular momenta, and finished runs of get_spectra",
  "A test compares the output of one run with a stored text; that no magnitude merges columns, and that rounding never violates the order and the sum rules by more than the last digits, concerns all values.",
  [fin+"printExpValues", fin+"printThermalExpValues", fin+"printGaunt", "impurityModel/ed/get_spectra.py:main"])

p("Rounding hardly changes norms, overlaps, occupations, moments and density matrices",
  "If every floating-point operation has a relative error of at most u, then for a state with K product states norm2 and getTraceDensityMatrix return the squared norm and the number of electrons in a shell up to a relative error of (1+u)^(K+3)-1 and (1+u)^(K+4)-1, with no loss from cancellation whatever the amplitudes are; inner returns the overlap up to 2((1+u)^(K+2)-1) times the lengths of the two states; getLz3d and getSz3d return the moments up to (1+u)^(K+4)-1 times 6 or 5/2 times the squared norm; and every element of getDensityMatrix is right up to 2((1+u)^(K+2)-1) times the squared norm, while no element outside of the shell appears. In double precision, with up to a million operations, these factors are below 1.2e-10. With exact operations the values are exact.",
  "all accurate floating-point operations, states, systems and shells",
  "A test computes a few states with one processor; the error for all amplitudes, numbers of product states and rounding behaviours needs a proof.",
  [fin+"norm2", fin+"inner", fin+"getTraceDensityMatrix", fin+"getLz3d", fin+"getSz3d", fin+"getDensityMatrix"])

p("Rounding hardly changes the action of an operator, the Hamiltonian matrix and the energies",
  "If every floating-point operation has a relative error of at most u, then applyOp, called without a cache for any operator with N terms, any state and any restrictions, returns a state whose amplitude at every allowed product state is that of the operator applied to the state, up to 2((1+u)^(N+2)-1) times the sum of the absolute values of the terms that lead there, plus the amplitude that the cutoff slaterWeightMin may remove; the bound does not depend on the number of product states. Product states that no term leads to, or that break a restriction, get no amplitude at all. In the Hamiltonian matrix of get_hamiltonian_matrix the errors of each row and of each column add up to at most E = 2((1+u)^(N+2)-1) times the sum of the absolute values of the coefficients plus N times the cutoff amplitude, and the lowest eigenvalues of any Hermitian matrix read off from it, for instance from its lower triangle as numpy.linalg.eigh does, differ from those of the exact operator by at most 2E. With exact operations applyOp is the exact one.",
  "all accurate floating-point operations, operators, states, restrictions, cutoffs, sets of product states and numbers of energies",
  "A test compares a few numbers on one processor with a tolerance; that errors do not grow with the number of product states and never move an energy by more than E holds for all inputs only by proof.",
  [fin+"applyOp", fin+"get_hamiltonian_matrix", fin+"eigensystem"])

p("X-ray absorption obeys the sum rules for the number of d holes and the orbital moment",
  "Let the p shell be full in a state. Then what the dipole operators for light along x, y and z excite adds up to 2/5 times the number of d holes: ten times the squared norm minus the number of d electrons that getTraceDensityMatrix returns; whatever else the state is. The difference between the two circular polarisations around z is -1/5 times the orbital moment that getLz3d returns, and their sum is that of x and y. With a cutoff slaterWeightMin the total can only be smaller. In a finished run of get_spectra in which the p shell keeps its six electrons in all configurations, the stored XAS of each eigenstate and polarisation is a sum of Lorentzians with weights that are not negative; its area is pi times their sum, and the areas for x, y and z together are at most pi times 2/5 times the number of d holes of the eigenstate. If dnTols or dnConBaths lets the d shell lose at most two electrons, the restrictions on excited states lose nothing, and the total falls short by at most 1e-7 for each product state that is reached.",
  "all states with a full p shell, bath sizes, cutoffs, and finished runs of get_spectra with any number of ranks",
  "A test integrates one spectrum on a finite mesh; the proportionality to the number of holes and to the moment for all states is a theorem about the operators.",
  [fin+"getDipoleOperator", fin+"applyOp", fin+"getTraceDensityMatrix", fin+"getLz3d", "impurityModel/ed/spectra.py:simulate_spectra", "impurityModel/ed/get_spectra.py:main"])

p("Photoemission counts the electrons and holes",
  "In a finished run of get_spectra the stored photoemission of each eigenstate and d spin-orbital is the sum of an inverse (adding an electron) and a direct part (removing one), and the stored XPS of each p spin-orbital is a direct part; each part is a sum of Lorentzians with weights that are not negative, and the areas are pi times the sums of the weights. Summed over the ten d spin-orbitals, the direct part weighs exactly as much as the d electrons in those configurations of the eigenstate that have at least the nominal number n0imps of d electrons, the inverse part as the d holes in those with at most two less, and XPS as the p electrons in those with at most one less; the cutoff loses nothing. So XPS and direct photoemission never exceed the numbers of p and d electrons of getTraceDensityMatrix, and if dnTols or dnConBaths allows the d shell to lose no electron (one for XPS, two for the inverse part) the weights are exactly these numbers, and ten times the squared norm minus the number of d electrons. The same holds for each spin-orbital alone: the direct part weighs its diagonal element of the density matrix of getDensityMatrix, and the inverse part the squared norm minus this element.",
  "all parameters, Hamiltonians and bath sizes, and finished runs of get_spectra with any number of ranks",
  "A test integrates one spectrum on a finite mesh; which configurations the restrictions on the excited states lose, and that nothing else is lost, concerns all runs.",
  ["impurityModel/ed/spectra.py:simulate_spectra", "impurityModel/ed/get_spectra.py:main", fin+"getTraceDensityMatrix", fin+"applyOp"])

p("Spin and orbital moments stay within the limits of the d shell",
  "For every state, the values that getSz3d, getSsqr3d, getLz3d and getLsqr3d return are possible for the numbers of d electrons in the state: the z component is never longer than the vector, |z| (|z| + |psi|^2) <= sq |psi|^2; the square of the spin is at most the average of S (S + 1) with S = 0, 1/2, 1, 3/2, 2, 5/2, 2, 3/2, 1, 1/2, 0 for 0 to 10 d electrons, and that of the orbital momentum at most the average of L (L + 1) with L = 0, 2, 4, 5, 6, 6, 6, 5, 4, 2, 0; the z components are at most the averages of S and L. For a state with a fixed number of d electrons these are the limits of that number. In a finished run of get_spectra every printed row has |Sz| (|Sz| + 1) <= S^2 <= 35/4 and |Lz| (|Lz| + 1) <= L^2 <= 42, and so have the printed averages at 300 K.",
  "all states and bath sizes, and finished runs of get_spectra with any number of ranks",
  "A test computes the moments of a few states; that no superposition, entangled with the baths or not, exceeds the limits is a theorem about the ladder operators.",
  [fin+"getSz3d", fin+"getSsqr3d", fin+"getLz3d", fin+"getLsqr3d", fin+"printExpValues", fin+"printThermalExpValues"])

p("A spectrum has intensity only where there are energies",
  "Let the number of electrons in a set of spin-orbitals (all of them, or the p shell) be conserved, and let the energies of the allowed states with k of these electrons lie between lo(k) and hi(k). In a finished run of get_spectra with positive broadenings, the stored photoemission, XPS, XAS and NIXS of every eigenstate are not negative anywhere, and at every energy of the mesh they are at most the weight of the excited state times the Lorentzian delta/(D^2+delta^2), where D is the distance of the final energy to the range for the number of electrons after the excitation: k = m plus one d electron or minus one for photoemission, minus one p electron for XPS, one electron moved from p to d for XAS, and m for NIXS. So there is no intensity below the threshold of absorption and in the gap of photoemission except for the tail of the broadening, although the Lanczos vectors are neither exact nor complete. For any Hermitian Hamiltonian and closed set of states, the energies of a spectrum with the first 2K moments lie between the extreme expectation values.",
  "all parameters, Hamiltonians, bath sizes, conserved numbers and energy ranges, and finished runs of get_spectra with any number of ranks",
  "A test looks at one spectrum; that truncated Lanczos recursions never create intensity outside of the range of the energies holds for all Hamiltonians only by proof.",
  ["impurityModel/ed/spectra.py:simulate_spectra", "impurityModel/ed/spectra.py:getGreen", "impurityModel/ed/spectra.py:getSpectra", "impurityModel/ed/get_spectra.py:main"])

p("A RIXS map shows energies, weights and resonances of the right states",
  "In a finished run of get_spectra with positive broadenings, the stored RIXS map of an eigenstate, an incoming polarisation and an incoming energy belongs to the one intermediate state x that solves (w_in + i delta + e - H) x = T psi: as a function of the energy loss it is a sum of Lorentzians with the first 300 moments of the state U x after the emission, its area is pi times the squared length of U x, and it is not negative anywhere. The intermediate state is long only at resonances: its squared length is at most that of T psi divided by D^2 + delta^2, where D is the distance of the incoming energy to the energies of the states with one electron moved from p to d (so at most 1/delta^2 times that of T psi anywhere). The map has no intensity at energy losses outside of the range of the energies with the numbers of electrons of the eigenstate, except for the tail of the Lorentzian of width deltaRIXS. The map is the same for the three outgoing polarisations, because only the first one is used. If the p shell is full in all configurations and its number of electrons is conserved, the map is nowhere higher than 64/9/((D^2+delta^2) deltaRIXS), where D is the distance of the incoming energy to the energies of states with one p hole, and it changes by at most that divided by deltaRIXS per unit of energy loss. The numbers that plotRIXS reads from RIXS.bin, the thermal average summed over the polarisations, then lie between zero and 64/(delta^2 deltaRIXS), and change by at most 64/(delta^2 deltaRIXS^2) per unit of energy loss.",
  "all parameters, Hamiltonians, bath sizes, incoming energies and polarisations, conserved numbers and energy ranges, and finished runs of get_spectra with any number of ranks",
  "A test compares one map with stored numbers; that the truncated Lanczos recursion keeps the total weight and creates no intensity elsewhere holds for all Hamiltonians only by proof.",
  ["impurityModel/ed/spectra.py:getRIXSmap", "impurityModel/ed/spectra.py:getGreen", "impurityModel/ed/spectra.py:simulate_spectra", "impurityModel/ed/get_spectra.py:main"])

p("The broadening limits how high and how steep a spectrum is",
  "In a finished run of get_spectra with positive broadening delta, every row of the text files of photoemission, XPS and XAS has an energy, the sum of the columns and ten, six or three columns. No column is negative; no column of photoemission or XPS is higher than 1/delta, and their sums are at most 10/delta and 6/delta. Between two rows whose energies differ by D, a column changes by at most D/delta^2 and the sums by at most 10 D/delta^2 and 6 D/delta^2, so that a mesh that is finer than delta misses no peak. If the p shell is full in all configurations the same holds for XAS with 4 for the columns and the sum, and the XAS of each eigenstate, summed over the polarisations, is at most 2/5 of its number of d holes divided by delta: a full d shell absorbs nothing.",
  "all parameters, Hamiltonians, temperatures and bath sizes, all rows and pairs of rows, and finished runs of get_spectra with any number of ranks",
  "A test looks at the numbers of one run; a limit for all runs, truncated Lanczos recursions and thermal averages needs a proof.",
  ["impurityModel/ed/spectra.py:simulate_spectra", "impurityModel/ed/spectra.py:getGreen", "impurityModel/ed/get_spectra.py:main", fin+"thermal_average"])

p("Nothing on an accepted command line is ignored",
  "If a command line is accepted, then its words, read one after the other, are exactly two file names, of which the first is the Hamiltonian and the second the radial mesh, and otherwise only documented options with numbers of the right kind: an option of one value with the next word, an option of several values with all words up to the next option, or an option with one value behind an equals sign. No word is left over, and every parameter is what its last option says, or is missing if there is none. The name of an option may be abbreviated if no other option, and not --help, begins like this, and the command line then means the same. An option of several values also takes the words that were meant as file names, and the command line is refused if one of them is not a number of the right kind; so file names never end up in a list of numbers.",
  "all sequences of words on the command line, all abbreviations, positions and values",
  "A test tries a few command lines; that none of the infinitely many others is accepted with a word ignored or attached to the wrong option needs a proof.",
  ["impurityModel/ed/get_spectra.py:main", "impurityModel/ed/get_spectra_using_CF.py:main"])

p("The opposite magnetic field gives the same energies and the opposite moments",
  "Two finished runs of get_spectra that differ only in the sign of the magnetic field, with a non-interacting Hamiltonian that is invariant under time reversal (which the one of every crystal-field file is), give the same energies and use the same energies for the spectra. If the states in the averages do not reach the end of the list of states and are normalised, the printed averages of the energy, of the number of d electrons and of the squares of spin and orbital momentum are the same, those of Lz and Sz have the opposite sign, and the occupations of spin up and spin down are exchanged. If also the cutoffs and the number of Lanczos vectors are harmless, the averaged photoemission spectra of a p or d spin-orbital in one field are those of the spin-orbital with the opposite spin and orbital momentum in the other, and the averaged absorption spectra of each of the three linear polarisations and the averaged inelastic scattering spectra of both momentum transfers are the same in both fields.",
  "all magnetic fields, parameters, bath sizes, time-reversal partners of the bath states, correct solvers, temperatures, and pairs of finished runs with any numbers of ranks",
  "A test compares two stored runs; a sign error in one component of the field or a matrix element that breaks the symmetry shows up for some fields and Hamiltonians only.",
  ["impurityModel/ed/get_spectra.py:main", "impurityModel/ed/finite.py:gethHfieldop", "impurityModel/ed/finite.py:printThermalExpValues", "impurityModel/ed/spectra.py:simulate_spectra", "impurityModel/ed/spectra.py:getDipoleOperators"])

p("A half turn of the magnetic field about x gives the turned results",
  "Two finished runs of get_spectra that differ only in the signs of the y and z components of the magnetic field, with a non-interacting Hamiltonian that is invariant under the half turn about the x axis (which the one of every crystal-field file is), give the same energies and use the same energies for the spectra. If the states in the averages do not reach the end of the list of states and are normalised, the printed averages of the energy, of the number of d electrons and of the squares of spin and orbital momentum are the same, those of Lz and Sz have the opposite sign, and the occupations of spin up and spin down are exchanged. If the energies used for the spectra do not reach the end of the list, the stored states are normalised, and the cutoffs and the number of Lanczos vectors are harmless, the averaged photoemission spectra of a p or d spin-orbital in one field are those of the spin-orbital with the opposite spin and orbital momentum in the other, and the averaged absorption spectra of each of the three linear polarisations and the averaged resonant scattering spectra of each incoming and outgoing polarisation at each pair of energies are the same for both fields. With too few Lanczos vectors they agree up to the error of 150 of them.",
  "all magnetic fields, parameters, bath sizes, exchanges of the bath states, correct solvers, temperatures, and pairs of finished runs with any numbers of ranks",
  "A test compares two stored runs; a wrong phase or sign in one component of the field, of the Coulomb interaction or of a polarisation breaks the symmetry for some fields and parameters only.",
  ["impurityModel/ed/get_spectra.py:main", "impurityModel/ed/finite.py:gethHfieldop", "impurityModel/ed/finite.py:getUop", "impurityModel/ed/spectra.py:simulate_spectra", "impurityModel/ed/spectra.py:getDipoleOperators"])

p("A half turn of the magnetic field about y gives the turned results",
  "Two finished runs of get_spectra that differ only in the signs of the x and z components of the magnetic field, with a non-interacting Hamiltonian that is invariant under the half turn about the y axis (which the one of every crystal-field file is), give the same energies and use the same energies for the spectra. If the states in the averages do not reach the end of the list of states and are normalised, the printed averages of the energy, of the number of d electrons and of the squares of spin and orbital momentum are the same, those of Lz and Sz have the opposite sign, and the occupations of spin up and spin down are exchanged. If the energies used for the spectra do not reach the end of the list, the stored states are normalised, and the cutoffs and the number of Lanczos vectors are harmless, the averaged photoemission spectra of a p or d spin-orbital in one field are those of the spin-orbital with the opposite spin and orbital momentum in the other, and the averaged absorption spectra of each of the three linear polarisations and the averaged resonant scattering spectra of each incoming and outgoing polarisation at each pair of energies are the same for both fields. With too few Lanczos vectors they agree up to the error of 150 of them.",
  "all magnetic fields, parameters, bath sizes, exchanges of the bath states, correct solvers, temperatures, and pairs of finished runs with any numbers of ranks",
  "A test compares two stored runs; a wrong phase or sign in one component of the field, of the Coulomb interaction or of a polarisation breaks the symmetry for some fields and parameters only.",
  ["impurityModel/ed/get_spectra.py:main", "impurityModel/ed/finite.py:gethHfieldop", "impurityModel/ed/finite.py:getUop", "impurityModel/ed/spectra.py:simulate_spectra", "impurityModel/ed/spectra.py:getDipoleOperators"])

for x in P: x["anchors"] = [a.replace("::", ":") for a in x["anchors"]]
with open("/verif/properties.jsonl","w") as f:
    for x in P: f.write(json.dumps(x)+"\n")
print(len(P))
