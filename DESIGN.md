# Formal model of impurityModel in Lean 4

## Method

`/repo` is Python.  Each function is re-written by hand as a small total Lean function that
follows the Python branch by branch (a shallow embedding); the Lean definition cites the file
and lines it models.

* Exceptions are values (`Except PyErr`).
* `while` loops carry fuel; the theorems prove that the fuel suffices.
* The iteration order of Python sets is an arbitrary permutation.  Theorems quantify over it.
* An MPI program is a value of `Mpi.Prog`: it returns, fails, or performs a collective call, a
  send or a receive and continues with the answer.  Every rank runs its own program.
  `Model/Mpi.lean` has two semantics, one in which a send waits for its receive and one with
  buffered sends.  A property of the ranks' results is proved for every schedule of either
  semantics: `AllRanksFinish` says that every schedule ends with the given results and none is
  stuck, `CanFinish` that some schedule does.

The specification lives apart from the model (`Verif/Spec/*`).  A product state is a finite set
of occupied spin-orbitals, a multi-configurational state a function from finite sets to
amplitudes, and the ladder operators act on such functions with the textbook sign
`(-1)^(number of occupied orbitals below i)`.  Properties are stated in `Verif/Prop/*`, one file
per area, in terms of the model functions and the specification only.  The data of the large
functions (`getSpectra`, `getRIXSmap`, `simulate_spectra`, `main`) are records of arguments;
`Spec/Arguments.lean` lists what the theorems ask of them.

## Layout

| directory            | content |
|----------------------|---------|
| `Verif/Py/*`         | Python values: errors, dicts, slices, bisect, combinations |
| `Verif/Model/*`      | the model of `/repo`, function by function |
| `Verif/Spec/*`       | specifications independent of the model |
| `Verif/Lemmas/*`     | helper lemmas |
| `Verif/Prop/*`       | the theorems listed in `MANIFEST.json`, with non-vacuity examples |
| `tools/*`            | the scripts that write `properties.jsonl` and `MANIFEST.json` |
| `seeded/LOG.jsonl`   | edits of the model that a theorem has to reject, and the theorems that did |

## Plan per property

| id | modelled | proof |
|----|----------|-------|
| C01-C03 | all conversion functions over `List ℕ`, `List Char`, `ℕ`, `List Bool`, `List UInt8` | each conversion maps the encoding of a finite set to the encoding of the same set; byte packing by induction over 8-bit groups |
| C04-C05 | the ten `create.u*`/`remove.u*` functions with Python indexing | refinement of the set-level rule |
| C06-C07 | `finite.a`, `finite.c`, `inner` on dicts | refinement of Fock-space ladder operators, then the anticommutation relations of the specification |
| C08 | `get_job_tasks` | list arithmetic |
| C09-C10 | `c2i`, `i2c` for int and tuple keys | induction on the ordered dict |
| C11-C13 | `get_basis` with its assertions | characterisation of `itertools.combinations`/`product`; negation witness for C13 |
| C14-C17 | `applyOp` in its four modes | loop invariants; history induction; negation witness for C16 |
| C18-C19 | `daggerOp`, `assert_hermitian` | adjointness in the specification, transported |
| C20-C21 | `get_hamiltonian_matrix` in four modes, any number of ranks | partition lemma C08 |
| C22-C26 | `expand_basis` (both modes), `get_hamiltonian_matrix_from_h_dict`, `expand_basis_and_hamiltonian` | invariants over loop, ranks and set orders; negation witness for C26 without its hypothesis |
| C27-C28 | `add`, `addToFirst`, `inner`, `norm2`, `addOps` | fold invariants |
| C29 | `applyOp`, `expand_basis` | invariant |
| C30-C32 | `getU`, `getUop`, `getNoSpinUop`, `get2p3dSlaterCondonUop`, `getSOCop`, `gethHfieldop`; Gaunt coefficients as a parameter with their symmetries as hypotheses | key analysis of the loops |
| C33-C37 | density matrices, angular momentum functions, cubic harmonics | refinement of the specification |
| C38-C39 | `thermal_average`, `dc_MLFT` over ℝ | real analysis, case split |
| C40-C42 | the continued fraction and `get_tridiagonal_krylov_vectors`, serial and distributed | induction on the Krylov size; ranks in lockstep |
| C43 | `getGreen`, `getSpectra`, `getRIXSmap`, `simulate_spectra` | a sign that every step keeps (`Safe`) |
| C44 | the part of `getRIXSmap` with its aliased caches | negation with witness; theorem for the first operator |
| C45-C47 | dipole, NIXS and photoemission operators; Gaunt coefficients, spherical harmonics and Bessel functions as parameters | key analysis; negation with witness for C46 |
| C48 | writer and reader of `RIXS.bin` | list arithmetic |
| C49-C50 | `allgather_dict`, collective calls of all parallel functions | induction; one run implies all schedules |
| C51-C52 | `eigensystem`, energy cut of `main`; the diagonaliser is a parameter with a specification | lists, min-max argument |
| C53, C56 | crystal-field Hamiltonian and its file | key analysis; negation with witness for C56 |
| C54 | assembly of the Hamiltonian | key analysis |
| C55 | the restrictions of `main` | counting |
| C57 | `getGreen` (dense and sparse) | C40, C41 and a change of basis into Fock space |
| C58-C59 | `getSpectra` in both modes, any number of ranks | refinement of a serial reference by each rank's program |
| C60-C61 | `getRIXSmap` in its modes, any number of ranks | the same; the caches hold columns of the right operators |
| C62-C63 | `simulate_spectra` | composition of C38, C45-C48, C57-C61 |
| C64-C65 | `main` of `get_spectra.py` and `get_spectra_using_CF.py` | composition of C11, C39, C51-C55 and C62-C63 |
| C66-C67 | what `main` prints | composition of C33-C38 and C51 |
| C68 | the Coulomb, spin-orbit and field operators and the Hamiltonian | commutators in the algebra of ladder operators; the Gaunt recursion |
| C69-C70 | `gauntC` with sympy's formula for `gaunt` | Racah's sum as a finite sum over ℤ, symmetries by reflection, recursion by Pascal-type identities |
| C71 | `getGreen` with `mode="dict"` | step-by-step refinement of the recursion on vectors |
| C72 | spectra as sums of Lorentzians, sum rules | spectral theorem for the tridiagonal matrix, integral of a Lorentzian |
| C73 | command line checks and defaults, which arguments pass the setup | cases, from C12, C39, C54, C56 |
| C74 | figures of `plotSpectra.py` for the file that `main` writes | meshes, nearest point, sums; from C65 and C43 |
| C75 | `eigensystem` and `main` with nested configurations | min-max principle, from C51 and C65 |
| C76 | `main` with two eigensolvers; unitary freedom within degenerate energies | trace invariance of the Boltzmann-weighted response, from C51, C65, C75 |
| C77 | `main` with a field along z; rotation by 90 degrees as phases of the spin-orbitals | the rotation commutes with every term and with the cut matrix elements, maps the y to the x dipole operator, and acts unitarily within each energy (as in C76) |
| C78 | `main` without a field; time reversal as an antiunitary change of spin-orbitals | it commutes with every term and with the cut matrix elements, acts antiunitarily within each energy, and changes the sign of Lz and Sz |
| C79 | `main` without a field and with an odd number of electrons | time reversal applied twice is -1, so the reversed state is orthogonal to the state; the states of the full problem with energies below each gap are even in number |
| C80 | programs that also stop at each call that stores something; what has been stored is part of the state | all steps commute, so any state reached can be joined with a state in which rank 0 has finished, has failed or waits for a failed rank; what is stored only grows |
| C81 | two runs of main whose input operators differ by c times the number of electrons in a set of spin-orbitals | every term of the Hamiltonian conserves that number, so the stored matrices differ by a constant on the configurations and on each excited sector; energies by min-max, responses because the resolvent at w + E depends on the differences only |
| C82 | getGreen, getSpectra, getRIXSmap, simulate_spectra and main with any krylovSize, against the exact resolvent | the Lanczos matrix and H have equal moments below 2 krylovSize (C41), so the difference of the resolvents is unchanged when 1/(z-x) is replaced by 1/(z-x) times one minus a scaled Chebyshev polynomial; this is small on the band and the norm of Chebyshev polynomials off the axis is at least a sinh; the band is bounded by the strengths with a Schur test |
| C83 | the continued fraction of getGreen with arbitrary coefficient lists near the exact ones | the fraction is an element of the resolvent of a tridiagonal matrix (C40); second resolvent identity, columns of resolvents are bounded by 1/delta, row sums of the difference by 3 eps; a chain with a zero coupling gives the fraction of its first part |
| C84 | the stored Hamiltonian, eigenvectors and excited states with their cutoffs, against the same with cutoff 0 and unpruned vectors | each column of the matrix has at most one dropped element per term, so a Schur test bounds the dropped part; min-max (Weyl) for energies, second resolvent identity for responses, the triangle inequality for pruned vectors |
| C85 | thermal_average with all its local variables; the averages over the states that main keeps | the smallest energy is subtracted, so exponents are not positive; the left-out part of the sum is bounded by its Boltzmann weights and the average lies in the convex hull (C38); the mean energy rises by a symmetric double sum |
| C86 | eigensystem and main for two or three operators that are close, shifted or interpolated | min-max principle (Weyl) for the stored matrices; column sums bound the difference of two operators; a field acts only on singly occupied orbitals; F0 parts are diagonal by C69; concavity from the variational principle |
| C87 | get_basis | `Spec/BasisCount.lean` gives the product of sums of binomials; proved from the lengths of `combinations` and `product` in the model of `get_basis`, together with C12 (no duplicates) and the converse for emptiness. |
| C88 | eigensystem, main | `Spec/Inexact.lean` says what a solver with residual `delta` may return (unit vectors, no orthogonality: eigsh does not promise it for degenerate complex matrices). Proved with the spectral theorem: a vector with small residual has an eigenvalue near its energy and, if isolated, an eigenvector near it; the matrix stored with cutoff is compared by the Schur test; for the ordered energies the min-max argument on almost invariant spaces. `Lemmas/OpLength.lean` counts the terms of the Hamiltonian of main. |
| C89 | get_hamiltonian_operator, main | `Spec/BathChange.lean` says what another choice of the bath states is (a unitary on the orbitals, diagonal blocks for shell, valence and conduction bath). Its action on the many-electron states are Slater determinants (`Lemmas/OrbitalChange.lean`); all operators of main on the shells commute with it, the product states of the basis and the restrictions are carried into each other, so eigenstates and responses are. |
| C90, C91 | gethHfieldop, getSOCop, getUop, getDipoleOperator, main | `Spec/Isotropy.lean` says that the non-interacting operator commutes with an angular momentum J. The unitary is exp(i w·J) (`Lemmas/MatrixExp.lean`, `Lemmas/TurnExp.lean`); commuting with J, or carrying the vector operator s, l·h, r·ε along, is a linear statement about commutators that integrates to the exponential (`Lemmas/Rotate3.lean`). Interaction: `GauntInvariant` gives commutation with total l. The families of transition operators are carried into unitary combinations of themselves (`Lemmas/Family.lean`), so the sums of the responses agree. |
| C92 | the same | The same with K = spin components: no assumption on Gaunt coefficients is needed, each transition operator is carried into itself, and the family of one orbital has the two spins. |
| C93 | `expand_basis_and_hamiltonian` with the line it prints (`Model/ExpandReport`) | Runs of the three collective parts are composed; the keys on different ranks are disjoint (C24), so that the reduced sum of the lengths is the cardinality of their union, which is determined by the expansion. |
| C94 | The continued fraction and `thermal_average` with every float operation as a parameter (`Model/Rounded`; numpy's complex division is Smith's algorithm); `Spec.Accurate` is the standard model of floating-point arithmetic, `Spec.Scale` bounds the sizes | Each step of the fraction keeps the imaginary part of the denominator at least `delta - small`, so the error of a step is contracted by the Lipschitz constant of the rest of the chain; a telescoping invariant (`Lemmas/RoundedChain`) bounds the sum by `O(u S / delta^2)` independently of the length. With exact operations the rounded model is the exact one. Witness: rounding to `p` binary digits. |
| C95 | Two finished runs of `main` (`Model/Main`) with fields that differ along z and d levels that differ by `ed`; the size of the dropped parts is `Spec.slopeAccuracy` | The computed state of one run is a trial state for the matrix diagonalised by the other (`Lemmas/Slope`): its energy there is the own energy plus the mean of the change, which is the printed `Sz` and number of d electrons. Dropped components and dropped matrix elements give the accuracy |
| C96 | `getGreen`, `getSpectra`, `simulate_spectra`, `main`; `Spec.IsGauss` says that a list of energies and weights is the Gauss quadrature of the Hamiltonian in a state | The continued fraction is the resolvent of the tridiagonal matrix, so its moments are the corner elements of the powers (`Lemmas/Moments`); these are the exact moments below `2 K` (C41), or all if the vectors span the space. Uniqueness by Lagrange interpolation |
| C97 | `getSpectra` in both modes, `simulate_spectra`, `main`; `Spec.responseChange` and `Spec.stateChange` write the bound out | The resolvent identity for two matrices in the space of the allowed product states, with the norm of a resolvent at most `1/|delta|` and the norm of the difference of the Hamiltonians at most the sum of the changes of the strengths (`Lemmas/SpectraChange`, `Lemmas/Perturb`); the Lanczos errors from C82; the same for the solutions of two equations (RIXS) and weights that differ by factors up to `exp(eta)` for the averages (`Lemmas/RixsChange`) |
| C98 | the text that `np.savetxt` writes with `%8.4f` and that `np.loadtxt` reads, as lists of characters (`Model/TextTable`) | `Spec/TextTable` gives the grammar of numbers, words and tables; the reader accepts exactly this grammar (induction on the text), and the writer produces it, with the digits of the rounded number (induction on the number of digits); composed with C63, C43 and C65 |
| C99 | the 23 `add_argument` calls and the parsing of the words by argparse (`Model/ArgParse`) | `Spec/ArgParse` lists the documented options and says what a sequence of given options means; induction on the sequence, with the state of the parser generalised; the refusal by induction on the words that follow |
| C100 | the text printed by `printExpValues`, `printThermalExpValues` and `printGaunt` as lists of characters (`Model/PrintedText`) | `Spec/PrintedText` lists titles, columns and decimals; words of a line by induction on its columns, composed with C66; the sum rule from the completeness of the real d orbitals, the ranges from the Pauli principle and the monotony of rounding (C98) |
| C101 | `norm2`, `inner`, `getTraceDensityMatrix`, `getLz3d`, `getSz3d` and `getDensityMatrix` with every float operation and the absolute value of a complex number as parameters (`Model/RoundedStates`); `Spec.AccurateAbs`, `Spec.relError` and the values of diagonal operators | One lemma on loops that add accurate terms or skip zero ones (`sum_near`): the error stays below `(Q (1+u)^k - 1)` times the sum of the bounds of the terms. Overlaps by Cauchy-Schwarz; a hop neither lengthens a state nor adds product states. With exact operations the rounded model is the exact one. Witness: rounding to 53 binary digits. |
| C102 | `applyOp` without a cache and `get_hamiltonian_matrix` (mode `dense_serial`) with every float operation as a parameter (`Model/RoundedApply`); `Spec.absoluteAction`, `Spec.lineError`, `Spec.Symmetrised` | A term of an operator takes different product states to different product states (`setActs_inj`), so at most N terms meet at one product state and the loop lemma of C101 applies with N additions; row and column sums by counting; energies by Weyl's inequality. The computed matrix need not be exactly Hermitian (the order of summation differs), so energies are those of any Hermitian matrix between it and its adjoint. Witness: a hopping in double precision |
| C103 | The model of `getDipoleOperator`, `applyOp`, `getTraceDensityMatrix`, `getLz3d` and `main` as it is; `Spec.FullShell`, `Spec.DipoleTable`, `Spec.Absorbs`, `Spec.reached` | In front of a full p shell the annihilated p spin-orbitals label orthogonal states (`normSq_between`), so the squared norm is a sum over them; the squares of the Gaunt coefficients (`sympyGaunt_table`) turn it into weights of adding a d electron, and creation in an empty spin-orbital gives 1 minus the occupation.  For main: kept states have only allowed configurations, hence a full p shell; a Gauss rule keeps the zeroth moment (C96); the restrictions allow one more d electron.  Witness: the d⁹ run |
| C104 | The model of `main` as it is; `Spec.atLeast`, `Spec.weights`, `Spec.shellCount` | Eigenstates of a run have only allowed configurations and amplitudes with square at least 1e-7 (`kept_configuration`), and adding or removing an electron keeps absolute values, so the cutoff drops nothing; a restriction is broken exactly by too few d electrons (`allowed_near_iff`); sums over spin-orbitals give occupations.  Note: main's restrictions for excited states start at n0imps - 1 d electrons, so when dnTols and dnConBaths allow fewer than n0imps, direct photoemission of those configurations is missing from the stored spectra.  Witness: the d⁹ run |
| C105 | The model as it is; `Spec.sMax`, `Spec.lMax`, `Spec.Possible` | Ladder operators that conserve the number of d electrons and raise the z component by one (`Ladder`): raising from the top levels downwards bounds the length of `J₊ v` on each level (`up_le`), Cauchy's inequality bounds the z component; the largest sums of spins and magnetic numbers of N spin-orbitals; averages by convexity.  Witnesses: one d electron; the d⁹ run |
| C106 | The model as it is; `Spec.ConservedNumber`, `Spec.EnergiesBetween`, `Spec.Outside`, `Spec.lorentzian` | The moments of C96 determine the weighted sums of all polynomials of degree below 2K; a square of a polynomial with zeros at all other energies, times (E - lo), has an expectation value that is not negative (`gauss_support`).  The Hamiltonian and the transition operators change the conserved number by a fixed amount (`sectorStates`, C81).  Witness: the d⁹ run, whose energies are between 0 and 16 |
| C107 | The model as it is; `Spec.IsIntermediate`, `Spec.EmissionKept`, `Spec.IsGauss`, and the specification of C106 | The row of a map is the spectrum of the state after the emission (C61), to which C96 applies; `⟨x|(z - H)x⟩` bounds the length of the intermediate state (`C107_resonance`); the part of the intermediate state with the right conserved number also solves the equation, and solutions are unique (`intermediate_sector`).  Witnesses: one electron, any number of ranks; the d⁹ run; for the height, emission is the adjoint of absorption, which C103 limits (`emits_le`), and the weights of the row add up to at most the squared length of the state after the emission even if amplitudes are dropped (`rixsRow_lehmann`) |
| C108 | The model as it is; `Spec.BoundedTable` | Each spectrum is a sum of Lorentzians (C96) whose total weight is limited by C72 and C103; Lorentzians of half width `delta` are at most `1/delta` high and `1/delta²` steep, and sums and Boltzmann averages keep such limits; the rows of the text files are those of C63 |
| C109 | The parser of C99 as it is; `Spec.Reads` says how the words are read one after the other | Strong induction on the number of words left, with the state of the parser generalised; every word that is taken for an option names one; an option with bad values is refused wherever it stands |
| C110 | Two runs of `main` with opposite fields; time reversal as in C78 | time reversal takes the cut matrix elements of one run to those of the other, so that it maps the eigenspaces; the dipole operator of a real polarisation and the even part of a plane wave commute with it, ladder operators go to partners |
| C111 | Two runs of `main` whose fields differ by a half turn about x; the turn as a relabelling of the spin-orbitals with phases (`Spec/HalfTurn`) | the turn takes the Hamiltonian of one field to that of the other (checked term by term: Coulomb, spin-orbit, Zeeman, crystal field, with the symmetries of the Gaunt table), so it maps the cut matrices and eigenspaces; dipole operators change by a sign, ladder operators go to partners |
| C112 | Two runs of `main` whose fields differ by a half turn about y; the turn is the relabelling with phases of `Spec/TimeReversal`, without conjugation | as C111 with the phase (−1)^(m+s): spin-orbit, Coulomb and crystal-field terms only join states of equal parity or spin flips that keep m+s, the field components along x and z change sign; the y polarisation changes sign |

For C76, C81 and C89–C92 the comparison of two runs is made for the exact spectra of the computed states (`PDExact` in
`Spec/ExactSpectra.lean`), which need no assumption on the number of Lanczos vectors. The stored spectra are equal to them if
150 Lanczos vectors exhaust the Krylov spaces (`AllResolved`), and are otherwise within the explicit error of C82 (`Near`). The second case
is the usual one for symmetric systems: `get_tridiagonal_krylov_vectors` raises as soon as an exhausted Krylov space
is smaller than the number of product states it lies in (C57).

Properties that are false of the code are `partial`: C13, C16, C44, C46, C56.  For each there is
a theorem `_violated` (or `_not_transparent`) with a concrete counterexample and a theorem
`_partial` for the case in which the property holds.

`Prop/MainExample` shows that the hypotheses of C64-C67 are met: for a full p shell and nine d electrons
with non-degenerate levels `main` finishes on every number of ranks (`C64_example`).

## What is modelled

Every function of `impurityModel/ed` and the reader of `plotScripts/plotRIXS.py`, with these
exceptions.

* `read_pickled_file`: the unpickled operator is an argument of `main`'s model.  The radial mesh and
  wave functions are arguments as well; that `np.loadtxt` obtains them from the text of the file is C98.
* `argparse`: modelled in `Model/ArgParse` (C99) except for the word `--`, blanks and underscores in numbers, `nan` and `inf`, and
  negative values of `ls`, `nBaths`, `nPsiMax` and `nPrintSlaterWeights`; all other models start from parsed options, given or not.
* Progress messages and timings. What is stored, and in which order, is in `Model/Files.lean`: an entry is a completed
  call of `savez_compressed`, `h5py.File`, `create_dataset`, `savetxt`, `tofile` or `close`; buffers of h5py and the
  operating system, and calls that are interrupted half-way, are not modelled.
  The text of the printed expectation values, thermal averages and Gaunt coefficients is modelled (C100); the printed basis
  sizes, weights and density matrices are modelled as values, their rounding and layout are not.
* The plotting part of `plotRIXS.py`, rendering by matplotlib, labels and colours of `plotSpectra.py`, and `data.npz`.

## Simplifications (global)

* Floating point numbers are exact reals and complex numbers (or any commutative star ring).
  Rounding, overflow and NaN are outside the model, except that C94 bounds the effect of rounding in the
  continued fraction and in the thermal average, C101 in norms, overlaps, occupations, moments and density matrices, and C102 in `applyOp` and the Hamiltonian matrix.  float32 rounding in `RIXS.bin` is a function
  that is the identity on the numbers it represents.
* Python ints used as orbital indices are natural numbers unless a definition says otherwise.
* Dictionaries are insertion-ordered association lists without repeated keys.
* Library routines are parameters.  `SolverCorrect` specifies scipy's `eigh` and `eigsh` and
  numpy's `argsort`; `ExactSolver` scipy's linear solver; the Gaunt coefficients are assumed to
  have their known symmetries (`GauntSymmetric`), selection rules (`GauntRules`) and, for p and d
  shells, no tiny value (`GauntLarge`), and in C68 rotational invariance (`GauntInvariant`).  `C70_gaunt`
  proves all of these for the formula that sympy evaluates (`Model/Gaunt`; sympy is not in the
  repository, the formula is taken from its documentation).  Each assumption is shown to be satisfiable beside the theorems.
* All ranks run the eigensolver on the same matrix; the model assumes that they get the same
  result.  MPI's sum adds the ranks' values in the exact field.
* Where two names refer to one mutable dict the model passes the dict along.  Only the aliasing of
  `tOut_big` in `getRIXSmap` is visible; it is modelled with a heap (C44).

## Findings

Each line names the theorem that shows the behaviour, where there is one.

1. `getRIXSmap` builds `tOut_big = [{}]*len(tOpsOut)`: all entries are one dict, so that every
   outgoing polarisation gives the row of the first (`C44_violated`, `C44_all_rows_equal`).
2. The `opResult` cache of `applyOp` drops small matrix elements per product state, so that a
   cached call can differ from an uncached one (`C16_cache_not_transparent`).
3. `get_basis` with `valBaths[l] = 0` and `dnValBaths[l] > 0` returns states with different numbers
   of electrons (`C13_violated`).
4. With restrictions the expanded matrix need not be Hermitian if the start states violate them
   (`C26_not_hermitian_outside_restrictions`).
5. The Lanczos recursion raises when a vector vanishes before `krylovSize`; in the distributed
   version only the root raises and the other ranks wait forever (`C42_error_hangs`, `C57_raises`). Rounded
   arithmetic does not notice the end of the chain; by C83 the spectra are right all the same
   (`C83_example`: one site coupled to two equal ones).
6. `create.ustr` with a negative index corrupts the string (`create_ustr_negative_corrupts`);
   `i2c` accepts negative indices (`C10_negative_index`).
7. The energy cut relies on ascending energies (`C52_needs_order`).
8. `getNIXSOperator` uses `arccos` for the azimuth and so loses the sign of `q_y`
   (`C46_violated`, and for all shells with the actual Gaunt coefficients `C46_violated_everywhere`); along z it divides by zero (`C46_along_z`); a factor `sqrt(4 pi)` is missing.
9. `main` keeps no state and never finishes when `energy_cut*kB*T <= 0` (`C65_needs_temperature`).
10. The crystal-field Hamiltonian assumes ten valence bath states (`C56_violated`).
11. The restrictions of `main` admit one electron less than the lowest allowed impurity
    occupation only down to `n0 - 1` (`C55_admits`).
12. `main` prints thermal averages at 300 K whatever `--T` is (`C66_temperature`).
13. In mode `H_build` of `getSpectra` only rank 0 has the spectra (`C58_only_root`).
14. `getRIXSmap` returns zeros for an unknown mode without an error (`C60_unknown_mode`).
15. `allgather_dict` uses `np.int`, which numpy removed in 1.24.  (Not modelled.)
16. The printed product states lack trailing zero bytes; they still identify the states
    (`C67_identifies`).  The printed label "(i,s)" of density matrix elements is the pair (s,i).
17. The order of `--ls` matters: dipole operators lead from the first to the second shell.  Lists of
    different lengths for `--ls`, `--n0imps` and `--dn*` are silently cut to the shortest.
18. `getGreen` with `mode="dict"` does not reduce `krylovSize` to the number of product states; beyond the
    Krylov space it prints a warning and raises (`C71_raises`, `C71_too_large`).
19. The command line checks accept any p occupation from zero to six, but `main` raises unless it is six
    (`C73_open_core_rejected`).  The lengths of `--n0imps` and `--dn*` are not checked (`C73_short_list_rejected`).
20. `plotSpectra.py` raises for files with fewer than three in-coming polarisations (`axes[2, :]`), unless there
    is one in-coming and one out-going polarisation (`C74_two_polarisations`).
21. argparse before Python 3.14 takes negative numbers with an exponent for unknown options: `--hField 0 0 -1e-4`, the default
    field turned round, is refused (`C99_exponent`); `--T=-1e-4` with an equals sign is accepted, lists cannot be written so.

## Trusted base

* Lean 4.33.0's kernel.
* The axioms `propext`, `Classical.choice` and `Quot.sound`.  No theorem of `MANIFEST.json` depends on
  any other axiom; the theorems about product states, indices and integer tables use a subset
  of them.  There is no `sorry`, `native_decide` or axiom of our own.
* The hand translation from Python to `Verif/Model` and the reading of numpy, scipy, sympy,
  bitarray and mpi4py semantics stated there.
* The specifications in `Verif/Spec`.
