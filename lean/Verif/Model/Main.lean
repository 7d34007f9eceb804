/-
Model of main, impurityModel/ed/get_spectra.py:21-332 and get_spectra_using_CF.py:21-332, of the
checks of the command line arguments (get_spectra.py:578-590) and of printExpValues and
printThermalExpValues (impurityModel/ed/finite.py:120-174).  What is printed is returned as a
value; the rounding of printed numbers, the headings and the timing are left out.
-/
import Verif.Model.Simulate
import Verif.Model.Restrictions
import Verif.Model.Assemble
import Verif.Model.CrystalField
import Verif.Model.Eigen
import Verif.Model.HamiltonianMpi

namespace Verif

open Psr Mpi

noncomputable section

/-! ### expectation values -/

/-- One row of the table of `printExpValues`. -/
structure ExpRow where
  energy : ℝ
  n3d : ℝ
  occ : List ℂ
  lz : ℝ
  sz : ℝ
  lsqr : ℝ
  ssqr : ℝ

/-- finite.py:131-147: one row. -/
def expRow (nBaths : Dict ℕ ℕ) (e : ℝ) (psi : Psi ℂ) : Py ExpRow := do
  let oc ← getEgT2gOccupation nBaths psi
  let n3d ← getTraceDensityMatrix nBaths psi 2
  let lz ← getLz3d nBaths psi
  let sz ← getSz3d nBaths psi
  let lsqr ← getLsqr3d nBaths psi
  let ssqr ← getSsqr3d nBaths psi
  return ⟨e, n3d, oc, lz, sz, lsqr, ssqr⟩

/-- finite.py:120-148 `printExpValues` with `n = None`: `E0` and the rows.  Only rank 0 does
anything. -/
def printExpValues (nBaths : Dict ℕ ℕ) (es : List ℝ) (psis : List (Psi ℂ)) (rank : ℕ) :
    Py (Option (ℝ × List ExpRow)) :=
  if rank = 0 then do
    let e0 ← pyGet es 0
    let rows ← ((es.map fun e => e - e0).zip psis).mapM fun p => expRow nBaths p.1 p.2
    return some (e0, rows)
  else return none

/-- What `printThermalExpValues` prints. -/
structure ThermalValues where
  energy : ℝ
  n3d : ℝ
  /-- egDn, egUp, t2gDn, t2gUp -/
  occ : ℕ → ℂ
  lz : ℝ
  sz : ℝ
  lsqr : ℝ
  ssqr : ℝ

/-- finite.py:151-174 `printThermalExpValues`.  The occupations are averaged on all ranks, the
rest on rank 0. -/
def printThermalExpValues (kB : ℝ) (nBaths : Dict ℕ ℕ) (es : List ℝ) (psis : List (Psi ℂ)) (rank : ℕ)
    (T : ℝ := 300) (cutOff : ℝ := 10) : Py (Option ThermalValues) := do
  let e0 ← pyGet es 0
  if es.length ≠ psis.length then throw .indexError
  let kept := ((es.map fun e => e - e0).zip psis).filter fun p => decide (p.1 < cutOff * kB * T)
  let e := kept.map Prod.fst
  let psis := kept.map Prod.snd
  let occ ← psis.mapM fun psi => do
    let oc ← getEgT2gOccupation nBaths psi
    return fun k => oc.getD k 0
  let occs ← thermalAverage kB e occ T
  if rank = 0 then do
    let energy ← thermalAverage kB e e T
    let n3d ← thermalAverage kB e (← psis.mapM fun psi => getTraceDensityMatrix nBaths psi 2) T
    let lz ← thermalAverage kB e (← psis.mapM fun psi => getLz3d nBaths psi) T
    let sz ← thermalAverage kB e (← psis.mapM fun psi => getSz3d nBaths psi) T
    let lsqr ← thermalAverage kB e (← psis.mapM fun psi => getLsqr3d nBaths psi) T
    let ssqr ← thermalAverage kB e (← psis.mapM fun psi => getSsqr3d nBaths psi) T
    return some ⟨energy, n3d, occs, lz, sz, lsqr, ssqr⟩
  else return none

/-! ### the tables that main prints -/

/-- An element of a numpy array of `bytes`: trailing zero bytes are not kept. -/
def npBytes (b : Bytes) : Bytes := (b.reverse.dropWhile (· = 0)).reverse

/-- get_spectra.py:219-230: the highest weights of one eigenstate and the product states they
belong to.  `s[j[-1::-1]]` picks with the reversed result of `np.argsort`. -/
def printWeights (argsort : List ℝ → List ℕ) (nPrint : ℕ) (psi : Psi ℂ) : List ℝ × List Bytes :=
  let ws : List ℝ := (Dict.values psi).map abs2
  let s := (Dict.keys psi).map npBytes
  let j := (argsort ws).reverse
  let ws := j.map fun i => ws.getD i 0
  let s := j.map fun i => s.getD i []
  if 0 < nPrint then (ws.take nPrint, s.take nPrint) else ([], [])

/-- get_spectra.py:237-248: the elements of the density matrix in cubic harmonics that are
printed for one eigenstate. -/
def printDensity (tol : ℝ) (nBaths : Dict ℕ ℕ) (psi : Psi ℂ) : Py (List (((ℤ × ℤ) × (ℤ × ℤ)) × ℂ)) := do
  let n ← getDensityMatrixCubic nBaths psi
  return n.filter fun p => decide (tol < ‖p.2‖)

/-! ### eigensystem on one rank -/

/-- finite.py:1608-1609 with the messages of the other functions. -/
def sparseGatherMsg (hSparse : Mat ℂ) : List ℕ → Mat ℂ → Prog (Msg ℂ) (Mat ℂ)
  | [], h => .ret h
  | r :: rs, h => (bcast r (Msg.matrix hSparse)).bind fun m => (asMatrix m).bind fun m =>
      sparseGatherMsg hSparse rs fun i j => h i j + m i j

/-- finite.py:1585-1609, mode `sparse_MPI` on rank `rank`. -/
def sparseMPIMsg (n : ℕ) (hOp : Op ℕ ℂ) (cut : ℝ) (basis : List Bytes) (ranks rank : ℕ) :
    Prog (Msg ℂ) (Mat ℂ) :=
  (Prog.lift (do
    let jobs ← getJobTasks rank ranks (List.range basis.length)
    let t ← sparseTriplets n hOp cut basis jobs
    return csr t)).bind fun hSparse =>
    sparseGatherMsg hSparse (List.range ranks) fun _ _ => 0

/-- finite.py:58-117 `eigensystem` on rank `rank`, with its default mode `Lanczos`.  Rank 0
divides by the size of the basis (finite.py:97).  All ranks diagonalise, each by itself, the
same matrix. -/
def eigensystemRank (S : EigenSolver) (n : ℕ) (hOp : Op ℕ ℂ) (cut : ℝ) (basis : List Bytes)
    (nPsiMax : ℕ) (slaterWeightMin : ℝ) (ranks rank : ℕ) : Prog (Msg ℂ) (List ℝ × List (Psi ℂ)) :=
  (sparseMPIMsg n hOp cut basis ranks rank).bind fun h =>
  (Prog.lift (do
    if rank = 0 ∧ basis.length = 0 then throw .zeroDivisionError
    let p ← diagLanczos S h basis.length nPsiMax
    return (p.es, (List.range p.es.length).map fun v =>
      eigenState basis slaterWeightMin fun i => p.vecs i v)))

/-! ### main -/

/-- The non-interacting Hamiltonian: read from a pickle file (get_spectra.py) or made from crystal
field parameters read from a json file (get_spectra_using_CF.py). -/
inductive H0Input where
  | pickle (h0 : Op Label ℂ)
  | crystalField (parameters : Dict String ℝ)

/-- The arguments of `main`.  Files are given by their content: `radial` are the rows of the file
with the radial part of the orbitals.  Numbers of bath states, `nPsiMax` and
`nPrintSlaterWeights` are not negative here. -/
structure MainArgs where
  h0 : H0Input
  radial : List (ℝ × ℝ)
  ls : List ℕ
  nBaths : List ℕ
  nValBaths : List ℤ
  n0imps : List ℤ
  dnTols : List ℤ
  dnValBaths : List ℤ
  dnConBaths : List ℤ
  Fdd : List ℝ
  Fpp : List ℝ
  Fpd : List ℝ
  Gpd : List ℝ
  xi2p : ℝ
  xi3d : ℝ
  chargeTransferCorrection : ℝ
  hField : List ℝ
  nPsiMax : ℕ
  nPrintSlaterWeights : ℕ
  tolPrintOccupation : ℝ
  T : ℝ
  energyCut : ℝ
  delta : ℝ
  deltaRIXS : ℝ
  deltaNIXS : ℝ

/-- The library functions and constants. -/
structure MainLib where
  gaunt : GauntFun
  sphHarm : SphHarm
  jn : SphericalJn
  solve : LinSolver
  solver : EigenSolver
  f32 : ℝ → ℝ
  kB : ℝ

/-- get_spectra.py:578-590: the checks of the command line arguments. -/
def sanityChecks (A : MainArgs) : Py Unit := do
  pyAssert (A.ls.length = A.nBaths.length)
  pyAssert (A.ls.length = A.nValBaths.length)
  (A.nBaths.zip A.nValBaths).forM fun p => pyAssert (p.2 ≤ (p.1 : ℤ))
  (A.ls.zip A.n0imps).forM fun p => do
    pyAssert (p.2 ≤ 2 * (2 * (p.1 : ℤ) + 1))
    pyAssert (0 ≤ p.2)
  pyAssert (A.Fdd.length = 5)
  pyAssert (A.Fpp.length = 3)
  pyAssert (A.Fpd.length = 3)
  pyAssert (A.Gpd.length = 4)
  pyAssert (A.hField.length = 3)

/-- `OrderedDict(zip(ls, xs))`, get_spectra.py:123-130. -/
def zipDict {V : Type} (ls : List ℕ) (xs : List V) : Dict ℕ V := Dict.update [] (ls.zip xs)

/-- `np.linspace(a, b, n)` for `2 ≤ n`. -/
def linspace (a b : ℝ) (n : ℕ) : List ℝ := (List.range n).map fun (i : ℕ) => a + (i : ℝ) * ((b - a) / (n - 1))

/-- What is known before the diagonalisation. -/
structure Setup where
  nBaths : Dict ℕ ℕ
  restrictions : Restrictions
  hOp : Op ℕ ℂ
  basis : List Bytes

/-- The call of `get_hamiltonian_operator` (get_spectra.py:183-191) or of
`get_hamiltonian_operator_using_CF` (get_spectra_using_CF.py:183-191).  The parameter
`bath_state_basis` keeps its default `spherical`. -/
def mainHamiltonian (L : MainLib) (A : MainArgs) (nBaths : Dict ℕ ℕ) (nValBaths n0imps : Dict ℕ ℤ) (hx hy hz : ℝ) :
    Py (Op ℕ ℂ) :=
  match A.h0 with
  | .pickle h0 =>
    getHamiltonianOperator L.gaunt (intKeys nBaths) A.Fdd A.Fpp A.Fpd A.Gpd A.xi2p A.xi3d n0imps
      A.chargeTransferCorrection hx hy hz h0
  | .crystalField P =>
    getHamiltonianOperatorUsingCF L.gaunt nBaths nValBaths A.Fdd A.Fpp A.Fpd A.Gpd A.xi2p A.xi3d n0imps
      A.chargeTransferCorrection hx hy hz P "spherical"

/-- get_spectra.py:123-198: dictionaries, restrictions, Hamiltonian and basis. -/
def mainSetup (L : MainLib) (A : MainArgs) : Py Setup := do
  let nBaths := zipDict A.ls A.nBaths
  let nValBaths := zipDict A.ls A.nValBaths
  let n0imps := zipDict A.ls A.n0imps
  let dnTols := zipDict A.ls A.dnTols
  let dnValBaths := zipDict A.ls A.dnValBaths
  let dnConBaths := zipDict A.ls A.dnConBaths
  let restrictions ← mainRestrictions nBaths nValBaths n0imps dnTols dnValBaths dnConBaths
  let h ← match A.hField with
    | [hx, hy, hz] => pure (hx, hy, hz)
    | _ => throw .valueError
  let hOp ← mainHamiltonian L A nBaths nValBaths n0imps h.1 h.2.1 h.2.2
  let basis ← getBasis nBaths nValBaths dnValBaths dnConBaths dnTols n0imps
  return ⟨nBaths, restrictions, hOp, basis⟩

/-- get_spectra.py:139, 142-143: the polarisation vectors. -/
def mainEpsilons : List (Vec3 ℂ) := [⟨1, 0, 0⟩, ⟨0, 1, 0⟩, ⟨0, 0, 1⟩]

/-- get_spectra.py:147-150: the vectors of momentum transfer. -/
def mainQs : List (Vec3 ℝ) :=
  [⟨2 * 1 / Real.sqrt 3, 2 * 1 / Real.sqrt 3, 2 * 1 / Real.sqrt 3⟩,
   ⟨7 * 1 / Real.sqrt 3, 7 * 1 / Real.sqrt 3, 7 * 1 / Real.sqrt 3⟩]

/-- get_spectra.py:307-330: the arguments of `simulate_spectra`, together with the default
arguments of the functions it calls: `krylovSize=150`, `slaterWeightMin=1e-7` (spectra.py:693-694,
821-822), `slaterWeightMin=1e-12` (finite.py:1301) and `kmin=1` (spectra.py:385). -/
def mainSim (L : MainLib) (A : MainArgs) (s : Setup) (es : List ℝ) (psis : List (Psi ℂ)) : SimulateArgs where
  es := es
  psis := psis
  hOp := s.hOp
  T := A.T
  w := linspace (-25) 25 3000
  delta := A.delta
  epsilons := mainEpsilons
  wLoss := linspace (-2) 12 4000
  deltaNIXS := A.deltaNIXS
  qsNIXS := mainQs
  liNIXS := 2
  ljNIXS := 2
  RiNIXS := A.radial.map fun p => (p.2 : ℂ)
  RjNIXS := A.radial.map fun p => (p.2 : ℂ)
  radialMesh := A.radial.map Prod.fst
  wIn := linspace (-10) 20 50
  deltaRIXS := A.deltaRIXS
  epsilonsRIXSin := mainEpsilons
  epsilonsRIXSout := mainEpsilons
  restrictions := some s.restrictions
  nBaths := s.nBaths
  krylovSize := 150
  slaterWeightMin := 1e-7
  cut := 1e-12
  kmin := 1
  gaunt := L.gaunt
  sphHarm := L.sphHarm
  jn := L.jn
  solve := L.solve
  f32 := L.f32
  kB := L.kB
  fuel := 2 ^ nSpinOrbitals s.nBaths + 2

/-- What rank 0 prints and stores. -/
structure MainOutput where
  thermal : ThermalValues
  expValues : ℝ × List ExpRow
  weights : List (List ℝ × List Bytes)
  density : List (List (((ℤ × ℤ) × (ℤ × ℤ)) × ℂ))
  /-- data set `E` -/
  energies : List ℝ
  spectra : Simulated

/-- get_spectra.py:209-249: what rank 0 prints about the eigenstates. -/
def mainPrints (L : MainLib) (A : MainArgs) (nBaths : Dict ℕ ℕ) (es : List ℝ) (psis : List (Psi ℂ)) (rank : ℕ) :
    Py (Option (ThermalValues × (ℝ × List ExpRow) × List (List ℝ × List Bytes) ×
      List (List (((ℤ × ℤ) × (ℤ × ℤ)) × ℂ)))) := do
  let thermal ← printThermalExpValues L.kB nBaths es psis rank
  let expValues ← printExpValues nBaths es psis rank
  let weights := psis.map (printWeights L.solver.argsort A.nPrintSlaterWeights)
  let density ← if rank = 0 then psis.mapM (printDensity A.tolPrintOccupation nBaths) else pure []
  match thermal, expValues with
  | some t, some e => return some (t, e, weights, density)
  | _, _ => return none

/-- get_spectra.py:21-332 `main` on rank `rank` of `ranks`.  Left out: the storage of the input
parameters and meshes (lines 251-298), see `mainFiles`. -/
def mainRank (L : MainLib) (A : MainArgs) (ord : ℕ → ℕ → ℕ → SetOrders) (ordRixs : List ℕ → SetOrders)
    (rank ranks : ℕ) : Prog (Msg ℂ) (Option MainOutput) :=
  (Prog.lift (mainSetup L A)).bind fun s =>
  (eigensystemRank L.solver (nSpinOrbitals s.nBaths) s.hOp 1e-12 s.basis A.nPsiMax 1e-7 ranks rank).bind fun eig =>
  (Prog.lift (mainPrints L A s.nBaths eig.1 eig.2 rank)).bind fun prints =>
  (Prog.lift (energyCut eig.1 eig.2 (A.energyCut * (L.kB * A.T)))).bind fun low =>
  (simulateSpectra (mainSim L A s low.1 low.2) ord ordRixs rank ranks).bind fun spectra =>
  .ret (match prints, spectra with
    | some p, some sp => some ⟨p.1, p.2.1, p.2.2.1, p.2.2.2, eig.1, sp⟩
    | _, _ => none)

end

end Verif
