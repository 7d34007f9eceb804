/-
Model of expand_basis and expand_basis_and_hamiltonian of
impurityModel/ed/finite.py, serial and MPI-parallel.
-/
import Verif.Model.Hamiltonian
import Verif.Model.Mpi
import Mathlib.Data.List.Sort

namespace Verif

open Psr Mpi

/-! ### Python sets of product states

A set is a duplicate-free list.  Where the code iterates over a set the order is a
parameter of the model. -/

/-- `s.update(l)`. -/
def setUpdate (s l : List Bytes) : List Bytes := l.foldl (fun s x => if x ∈ s then s else s ++ [x]) s

/-- `set(l)`. -/
def setOf (l : List Bytes) : List Bytes := setUpdate [] l

/-- `set(l).difference(s)`, `set(l) - s`. -/
def setDiff (l s : List Bytes) : List Bytes := (setOf l).filter fun x => x ∉ s

/-- `sorted(s)` for bytes. -/
def sortedBytes (s : List Bytes) : List Bytes := s.insertionSort (· ≤ ·)

section
variable {R F : Type} [CommRing R] [StarRing R] [CommRing F] [LinearOrder F]
  [IsStrictOrderedRing F] [Amp R F]

/-- The loop body `for b in basis[i:n]` of the serial mode, finite.py:1740-1746.
The accumulator holds `h_dict` and `basis_new`. -/
def serialBody (n : ℕ) (hOp : Op ℕ R) (cut : F) (restrictions : Option Restrictions)
    (basis : List Bytes) (acc : OpResult R × List Bytes) (b : Bytes) :
    Py (OpResult R × List Bytes) :=
  match Dict.get? acc.1 b with
  | some res => .ok (acc.1, setUpdate acc.2 (setDiff (Dict.keys res) basis))
  | none => do
    let (res, _) ← applyOp n hOp [(b, 1)] cut restrictions none
    return (Dict.set acc.1 b res, setUpdate acc.2 (setDiff (Dict.keys res) basis))

/-- The `while` loop of the serial mode, finite.py:1736-1750.  The number of
passes is bounded by `fuel`. -/
def expandSerialLoop (n : ℕ) (hOp : Op ℕ R) (cut : F) (restrictions : Option Restrictions) :
    ℕ → List Bytes → ℕ → OpResult R → Py (List Bytes × OpResult R)
  | 0, _, _, _ => .error .nonTermination
  | fuel + 1, basis, i, hDict =>
    if i < basis.length then do
      let (hDict, basisNew) ← (basis.drop i).foldlM (serialBody n hOp cut restrictions basis)
        (hDict, [])
      expandSerialLoop n hOp cut restrictions fuel (basis ++ sortedBytes basisNew) basis.length hDict
    else .ok (basis, hDict)

/-- finite.py:1696-1803 `expand_basis` with `parallelization_mode="serial"`.
Returns the basis and the updated `h_dict`. -/
def expandBasisSerial (n : ℕ) (hDict : OpResult R) (hOp : Op ℕ R) (cut : F) (basis0 : List Bytes)
    (restrictions : Option Restrictions) (fuel : ℕ) : Py (List Bytes × OpResult R) :=
  expandSerialLoop n hOp cut restrictions fuel basis0 0 hDict

/-- The messages of the parallel functions: sets and tuples of product states,
matrices, numbers, vectors, and dicts of spectra. -/
inductive Msg (R : Type) where
  | states (l : List Bytes)
  | matrix (m : Mat R)
  | number (k : ℕ)
  | vector (v : List R)
  | spectra (d : Dict ℕ (List (List R)))
  /-- `None`, given by ranks that are not the root of a broadcast -/
  | none

/-- Use of a message as a set or tuple of product states. -/
def asStates : Msg R → Prog (Msg R) (List Bytes)
  | .states l => .ret l
  | _ => .fail .typeError

/-- Use of a message as a matrix. -/
def asMatrix : Msg R → Prog (Msg R) (Mat R)
  | .matrix m => .ret m
  | _ => .fail .typeError

/-- finite.py:1769-1770: rank 0 receives the known states of the ranks `rs` and
removes them from `states_setB`. -/
def recvKnown : List ℕ → List Bytes → Prog (Msg R) (List Bytes)
  | [], setB => .ret setB
  | r :: rs, setB =>
    (recv r 0).bind fun m => (asStates m).bind fun l =>
      recvKnown rs (setB.filter fun x => x ∉ l)

/-- finite.py:1786-1788: union of the `basis_new_local` of the ranks `rs`. -/
def gatherNew (basisNewLocal : List Bytes) : List ℕ → List Bytes → Prog (Msg R) (List Bytes)
  | [], acc => .ret acc
  | r :: rs, acc =>
    (bcast r (.states basisNewLocal)).bind fun m => (asStates m).bind fun l =>
      gatherNew basisNewLocal rs (setUpdate acc l)

/-- finite.py:1757-1764: known product states. -/
def knownBody (hDict : OpResult R) (basis : List Bytes) (new : List Bytes) (ps : Bytes) :
    Py (List Bytes) := do
  let res ← Dict.get hDict ps
  return setUpdate new (setDiff (Dict.keys res) basis)

/-- finite.py:1778-1783: an unknown product state of this rank. -/
def unknownBody (n : ℕ) (hOp : Op ℕ R) (cut : F) (restrictions : Option Restrictions)
    (basis tupleB : List Bytes) (acc : OpResult R × List Bytes) (idx : ℕ) :
    Py (OpResult R × List Bytes) := do
  let ps ← pyGet tupleB (idx : ℤ)
  let (res, _) ← applyOp n hOp [(ps, 1)] cut restrictions none
  return (Dict.set acc.1 ps res, setUpdate acc.2 (setDiff (Dict.keys res) basis))

/-- The `while` loop of mode `H_build` on one rank, finite.py:1751-1798.  `ord k l`
is the order in which this rank's Python iterates over the set `l` the `k`-th
time.  The accumulator is `basis`, `i`, `h_dict_new_local`. -/
def hBuildLoop (n : ℕ) (hOp : Op ℕ R) (cut : F) (restrictions : Option Restrictions)
    (ord : ℕ → List Bytes → List Bytes) (rank ranks : ℕ) (hDict : OpResult R) :
    ℕ → List Bytes → ℕ → OpResult R → Prog (Msg R) (List Bytes × OpResult R)
  | 0, _, _, _ => .fail .nonTermination
  | fuel + 1, basis, i, hNew =>
    if i < basis.length then
      let setA := (setOf (basis.drop i)).filter fun b => b ∈ Dict.keys hDict
      (Prog.lift ((ord (2 * i) setA).foldlM (knownBody hDict basis) [])).bind fun new1 =>
      (if rank = 0 then
        (recvKnown (List.range' 1 (ranks - 1)) (setDiff (basis.drop i) setA)).bind fun setB =>
          .ret (Msg.states (ord (2 * i + 1) setB))
      else
        (send 0 0 (.states setA)).bind fun _ => .ret Msg.none).bind fun tB =>
      (bcast 0 tB).bind fun m => (asStates m).bind fun tupleB =>
      (Prog.lift (do
        let jobs ← getJobTasks rank ranks (List.range tupleB.length)
        jobs.foldlM (unknownBody n hOp cut restrictions basis tupleB) (hNew, new1))).bind fun acc =>
      (gatherNew acc.2 (List.range ranks) []).bind fun basisNew =>
      hBuildLoop n hOp cut restrictions ord rank ranks hDict fuel
        (basis ++ sortedBytes basisNew) basis.length acc.1
    else .ret (basis, Dict.update hDict hNew)

/-- finite.py:1696-1803 `expand_basis` with `parallelization_mode="H_build"`, on
rank `rank` of `ranks`.  Returns the basis and the updated `h_dict`. -/
def expandBasisHBuild (n : ℕ) (hDict : OpResult R) (hOp : Op ℕ R) (cut : F) (basis0 : List Bytes)
    (restrictions : Option Restrictions) (ord : ℕ → List Bytes → List Bytes) (rank ranks fuel : ℕ) :
    Prog (Msg R) (List Bytes × OpResult R) :=
  hBuildLoop n hOp cut restrictions ord rank ranks hDict fuel basis0 0 []

/-- finite.py:1686-1690: sum of the broadcast local matrices. -/
def sumLocal (hLocal : Mat R) : List ℕ → Mat R → Prog (Msg R) (Mat R)
  | [], h => .ret h
  | r :: rs, h =>
    (bcast r (.matrix hLocal)).bind fun m => (asMatrix m).bind fun hl =>
      sumLocal hLocal rs fun i j => h i j + hl i j

/-- finite.py:1613-1693 `get_hamiltonian_matrix_from_h_dict` with
`parallelization_mode="H_build"` and `mode="sparse"`, on one rank.  Returns the
matrix; `basis_index` is a function of `basis`. -/
def hMatrixHBuild (hDict : OpResult R) (basis : List Bytes) (ord : List Bytes → List Bytes)
    (ranks : ℕ) (returnLocal : Bool) : Prog (Msg R) (Mat R) :=
  (Prog.lift (fromDictLocal ord hDict basis)).bind fun hLocal =>
    if returnLocal then .ret hLocal
    else sumLocal hLocal (List.range ranks) fun _ _ => 0

/-- finite.py:1806-1894 `expand_basis_and_hamiltonian` with
`parallelization_mode="serial"`.  Returns the matrix, `basis_index` and the
updated `h_dict`.  Timing and printing are left out. -/
def expandBasisAndHamiltonianSerial (n : ℕ) (hDict : OpResult R) (hOp : Op ℕ R) (cut : F)
    (basis0 : List Bytes) (restrictions : Option Restrictions) (fuel : ℕ) :
    Py (Mat R × Dict Bytes ℕ × OpResult R) := do
  let (basis, hDict) ← expandBasisSerial n hDict hOp cut basis0 restrictions fuel
  let h ← fromDictSerial hDict basis
  return (h, basisIndex basis, hDict)

/-- finite.py:1806-1894 `expand_basis_and_hamiltonian` with
`parallelization_mode="H_build"`, on one rank; `ordH` is the order of the set in
`get_hamiltonian_matrix_from_h_dict`. -/
def expandBasisAndHamiltonianHBuild (n : ℕ) (hDict : OpResult R) (hOp : Op ℕ R) (cut : F)
    (basis0 : List Bytes) (restrictions : Option Restrictions)
    (ord : ℕ → List Bytes → List Bytes) (ordH : List Bytes → List Bytes) (returnLocal : Bool)
    (rank ranks fuel : ℕ) : Prog (Msg R) (Mat R × Dict Bytes ℕ × OpResult R) :=
  (expandBasisHBuild n hDict hOp cut basis0 restrictions ord rank ranks fuel).bind fun res =>
  (hMatrixHBuild res.2 res.1 ordH ranks returnLocal).bind fun h =>
  (reduce 0 (.number res.2.length)).bind fun _ =>
  .ret (h, basisIndex res.1, res.2)

end

end Verif
