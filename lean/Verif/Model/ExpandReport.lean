/-
The sizes that `expand_basis_and_hamiltonian` prints.
-/
import Verif.Model.Expand

namespace Verif

open Psr Mpi

/-- The line "Hamiltonian basis sizes" (finite.py:1877-1883 and 1885-1890):
`len(basis_index)`, `np.shape(h)[0]`, `len(h_dict)` and, in mode `H_build`,
`len(h_dict_total)`. -/
structure BasisSizes where
  basisIndex : ℕ
  hRows : ℕ
  hDict : ℕ
  hDictTotal : Option ℕ
deriving DecidableEq

/-- Use of what `comm.reduce` returns as a number. -/
def reducedNumber {R : Type} : Option (Msg R) → Option ℕ
  | some (.number k) => some k
  | _ => none

section
variable {R F : Type} [CommRing R] [StarRing R] [CommRing F] [LinearOrder F]
  [IsStrictOrderedRing F] [Amp R F]

/-- finite.py:1806-1894 `expand_basis_and_hamiltonian` with
`parallelization_mode="serial"`, with the printed sizes.  The rows of the sparse
matrix are the `shape=(n, n)` of finite.py:1670, 1682, with `n = len(basis)`. -/
def expandBasisAndHamiltonianSerialPrint (n : ℕ) (hDict : OpResult R) (hOp : Op ℕ R) (cut : F)
    (basis0 : List Bytes) (restrictions : Option Restrictions) (rank fuel : ℕ) :
    Py ((Mat R × Dict Bytes ℕ × OpResult R) × Option BasisSizes) := do
  let (basis, hDict) ← expandBasisSerial n hDict hOp cut basis0 restrictions fuel
  let h ← fromDictSerial hDict basis
  return ((h, basisIndex basis, hDict),
    if rank = 0 then some ⟨(basisIndex basis).length, basis.length, hDict.length, none⟩ else none)

/-- finite.py:1806-1894 `expand_basis_and_hamiltonian` with
`parallelization_mode="H_build"`, on one rank, with the printed sizes. -/
def expandBasisAndHamiltonianHBuildPrint (n : ℕ) (hDict : OpResult R) (hOp : Op ℕ R) (cut : F)
    (basis0 : List Bytes) (restrictions : Option Restrictions)
    (ord : ℕ → List Bytes → List Bytes) (ordH : List Bytes → List Bytes) (returnLocal : Bool)
    (rank ranks fuel : ℕ) :
    Prog (Msg R) ((Mat R × Dict Bytes ℕ × OpResult R) × Option BasisSizes) :=
  (expandBasisHBuild n hDict hOp cut basis0 restrictions ord rank ranks fuel).bind fun res =>
  (hMatrixHBuild res.2 res.1 ordH ranks returnLocal).bind fun h =>
  (reduce 0 (.number res.2.length)).bind fun total =>
  .ret ((h, basisIndex res.1, res.2),
    if rank = 0 then some ⟨(basisIndex res.1).length, res.1.length, res.2.length, reducedNumber total⟩ else none)

end

end Verif
