/-
The MPI modes of get_hamiltonian_matrix (impurityModel/ed/finite.py) as programs
of the ranks.
-/
import Verif.Model.Hamiltonian
import Verif.Model.Mpi

namespace Verif

open Psr Mpi

section
variable {R F : Type} [CommRing R] [StarRing R] [CommRing F] [LinearOrder F]
  [IsStrictOrderedRing F] [Amp R F]

/-- finite.py:1565-1569: `for r in range(ranks): hTmp = comm.bcast(hRank, root=r)`
and the assignment of its entries; the list are the remaining roots. -/
def denseGather (hRank : Dict ℕ (Dict ℕ R)) : List ℕ → Mat R → Prog (Dict ℕ (Dict ℕ R)) (Mat R)
  | [], h => .ret h
  | r :: rs, h => (bcast r hRank).bind fun hTmp =>
      denseGather hRank rs (hTmp.foldl (fun h p => p.2.foldl (fun h q => h.put q.1 p.1 q.2) h) h)

/-- finite.py:1551-1569, mode `dense_MPI` on rank `rank`. -/
def denseMPIRank (n : ℕ) (hOp : Op ℕ R) (cut : F) (basis : List Bytes) (ranks rank : ℕ) :
    Prog (Dict ℕ (Dict ℕ R)) (Mat R) :=
  (Prog.lift (denseLocal n hOp cut basis ranks rank)).bind fun hRank =>
    denseGather hRank (List.range ranks) fun _ _ => 0

/-- finite.py:1608-1609: `for r in range(ranks): h += comm.bcast(hSparse, root=r)`. -/
def sparseGather (hSparse : Mat R) : List ℕ → Mat R → Prog (Mat R) (Mat R)
  | [], h => .ret h
  | r :: rs, h => (bcast r hSparse).bind fun m => sparseGather hSparse rs fun i j => h i j + m i j

/-- finite.py:1585-1609, mode `sparse_MPI` on rank `rank`. -/
def sparseMPIRank (n : ℕ) (hOp : Op ℕ R) (cut : F) (basis : List Bytes) (ranks rank : ℕ) :
    Prog (Mat R) (Mat R) :=
  (Prog.lift (do
    let jobs ← getJobTasks rank ranks (List.range basis.length)
    let t ← sparseTriplets n hOp cut basis jobs
    return csr t)).bind fun hSparse =>
    sparseGather hSparse (List.range ranks) fun _ _ => 0

end

end Verif
