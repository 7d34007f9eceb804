/-
Model of the Hamiltonian matrix functions of impurityModel/ed/finite.py:
get_job_tasks, get_hamiltonian_matrix, get_hamiltonian_matrix_from_h_dict.
-/
import Verif.Model.State

namespace Verif

open Psr

/-- finite.py:27-55 `get_job_tasks`.  Python raises for `ranks = 0`; MPI has at
least one rank. -/
def getJobTasks {α : Type*} (rank ranks : ℕ) (tasksTot : List α) : Py (List α) := do
  if ranks = 0 then throw .zeroDivisionError
  let nTot := tasksTot.length
  let nj := nTot / ranks
  let rest := nTot % ranks
  let tasks ← (List.range' (nj * rank) nj).mapM fun (i : ℕ) => pyGet tasksTot (i : ℤ)
  if rank < rest then
    let t ← pyGet tasksTot ((nTot : ℤ) - rest + rank)
    return tasks ++ [t]
  else return tasks

/-- A square matrix; entries outside the shape are not used. -/
abbrev Mat (R : Type*) := ℕ → ℕ → R

/-- `h[i, j] = v` on a dense matrix. -/
def Mat.put {R : Type*} (h : Mat R) (i j : ℕ) (v : R) : Mat R :=
  fun a b => if a = i ∧ b = j then v else h a b

/-- `scipy.sparse.csr_matrix((data, (row, col)))`: entries given several times
are added.  The three parallel lists are modelled as one list of
((row, col), value). -/
def csr {R : Type*} [AddCommMonoid R] (triplets : List ((ℕ × ℕ) × R)) : Mat R :=
  fun i j => (triplets.map fun t => if t.1 = (i, j) then t.2 else 0).sum

/-- `{basis[i]: i for i in range(n)}`, finite.py:1537 and 1651. -/
def basisIndex (basis : List Bytes) : Dict Bytes ℕ :=
  basis.zipIdx.foldl (fun d p => Dict.set d p.1 p.2) []

section
variable {R F : Type} [CommRing R] [StarRing R] [CommRing F] [LinearOrder F]
  [IsStrictOrderedRing F] [Amp R F]

/-- `applyOp(n_spin_orbitals, hOp, {basis[j]: 1})`; `cut` is the default cutoff
`1e-12` of `applyOp`. -/
def columnOf (n : ℕ) (hOp : Op ℕ R) (cut : F) (basis : List Bytes) (j : ℕ) : Py (Psi R) := do
  let b ← pyGet basis (j : ℤ)
  let (res, _) ← applyOp n hOp [(b, 1)] cut none none
  return res

/-- finite.py:1541-1550, mode `dense_serial`. -/
def hamiltonianDenseSerial (n : ℕ) (hOp : Op ℕ R) (cut : F) (basis : List Bytes) : Py (Mat R) :=
  (List.range basis.length).foldlM (fun (h : Mat R) (j : ℕ) => do
    let res ← columnOf n hOp cut basis j
    return res.foldl (fun h p =>
      match Dict.get? (basisIndex basis) p.1 with
      | some i => h.put i j p.2
      | none => h) h) (fun _ _ => 0)

/-- finite.py:1553-1563, mode `dense_MPI`: the dictionary `hRank` of one rank. -/
def denseLocal (n : ℕ) (hOp : Op ℕ R) (cut : F) (basis : List Bytes) (ranks rank : ℕ) :
    Py (Dict ℕ (Dict ℕ R)) := do
  let jobs ← getJobTasks rank ranks (List.range basis.length)
  jobs.foldlM (fun hRank j => do
    let res ← columnOf n hOp cut basis j
    return Dict.set hRank j (res.foldl (fun hj p =>
      match Dict.get? (basisIndex basis) p.1 with
      | some i => Dict.set hj i p.2
      | none => hj) [])) []

/-- finite.py:1551-1569, mode `dense_MPI`: the matrix on any rank.  The broadcast
from rank `r` delivers that rank's `hRank`. -/
def hamiltonianDenseMPI (n : ℕ) (hOp : Op ℕ R) (cut : F) (basis : List Bytes) (ranks : ℕ) :
    Py (Mat R) :=
  (List.range ranks).foldlM (fun (h : Mat R) (r : ℕ) => do
    let hTmp ← denseLocal n hOp cut basis ranks r
    return hTmp.foldl (fun h p => p.2.foldl (fun h q => h.put q.1 p.1 q.2) h) h) (fun _ _ => 0)

/-- The triplets of the columns `jobs`, finite.py:1574-1583 and 1590-1596. -/
def sparseTriplets (n : ℕ) (hOp : Op ℕ R) (cut : F) (basis : List Bytes) (jobs : List ℕ) :
    Py (List ((ℕ × ℕ) × R)) :=
  jobs.foldlM (fun (trip : List ((ℕ × ℕ) × R)) (j : ℕ) => do
    let res ← columnOf n hOp cut basis j
    return res.foldl (fun trip p =>
      match Dict.get? (basisIndex basis) p.1 with
      | some i => trip ++ [((i, j), p.2)]
      | none => trip) trip) []

/-- finite.py:1570-1584, mode `sparse_serial`. -/
def hamiltonianSparseSerial (n : ℕ) (hOp : Op ℕ R) (cut : F) (basis : List Bytes) : Py (Mat R) := do
  let t ← sparseTriplets n hOp cut basis (List.range basis.length)
  return csr t

/-- finite.py:1585-1609, mode `sparse_MPI`: the matrix on any rank. -/
def hamiltonianSparseMPI (n : ℕ) (hOp : Op ℕ R) (cut : F) (basis : List Bytes) (ranks : ℕ) :
    Py (Mat R) :=
  (List.range ranks).foldlM (fun (h : Mat R) (r : ℕ) => do
    let jobs ← getJobTasks r ranks (List.range basis.length)
    let t ← sparseTriplets n hOp cut basis jobs
    return fun i j => h i j + csr t i j) (fun _ _ => 0)

/-- The argument `mode` of `get_hamiltonian_matrix`. -/
inductive HMode where
  | denseSerial | denseMPI | sparseSerial | sparseMPI
  deriving DecidableEq, Repr

/-- finite.py:1514-1610 `get_hamiltonian_matrix`, on one of `ranks` ranks.  All
ranks run the same code; only printing depends on the rank otherwise, so the
rank does not occur.  An unknown mode string (an unbound `h` in Python) is left
out. -/
def getHamiltonianMatrix (n : ℕ) (hOp : Op ℕ R) (cut : F) (basis : List Bytes) (mode : HMode)
    (ranks : ℕ) : Py (Mat R) :=
  match mode with
  | .denseSerial => hamiltonianDenseSerial n hOp cut basis
  | .denseMPI => hamiltonianDenseMPI n hOp cut basis ranks
  | .sparseSerial => hamiltonianSparseSerial n hOp cut basis
  | .sparseMPI => hamiltonianSparseMPI n hOp cut basis ranks

/-! ### from h_dict -/

/-- finite.py:1652-1658, `dense` and `serial`. -/
def fromDictDense (hDict : OpResult R) (basis : List Bytes) : Py (Mat R) :=
  (List.range basis.length).foldlM (fun (h : Mat R) (j : ℕ) => do
    let b ← pyGet basis (j : ℤ)
    let res ← Dict.get hDict b
    res.foldlM (fun (h : Mat R) p => do
      let i ← Dict.get (basisIndex basis) p.1
      return h.put i j p.2) h) (fun _ _ => 0)

/-- finite.py:1659-1669, `sparse` and `serial`. -/
def fromDictSerial (hDict : OpResult R) (basis : List Bytes) : Py (Mat R) := do
  let t ← (List.range basis.length).foldlM (fun (trip : List ((ℕ × ℕ) × R)) (j : ℕ) => do
    let b ← pyGet basis (j : ℤ)
    let res ← Dict.get hDict b
    res.foldlM (fun trip p => do
      let i ← Dict.get (basisIndex basis) p.1
      return trip ++ [((i, j), p.2)]) trip) []
  return csr t

/-- `set(basis).intersection(h_dict.keys())`.  The set is a duplicate-free list;
its iteration order is chosen by `ord`. -/
def localStates (ord : List Bytes → List Bytes) (hDict : OpResult R) (basis : List Bytes) :
    List Bytes :=
  ord (basis.dedup.filter fun b => (Dict.keys hDict).contains b)

/-- finite.py:1670-1683, `sparse` and `H_build`: the local matrix of one rank. -/
def fromDictLocal (ord : List Bytes → List Bytes) (hDict : OpResult R) (basis : List Bytes) :
    Py (Mat R) := do
  let t ← (localStates ord hDict basis).foldlM (fun trip ps => do
    let res ← Dict.get hDict ps
    res.foldlM (fun trip p => do
      let j ← Dict.get (basisIndex basis) ps
      let i ← Dict.get (basisIndex basis) p.1
      return trip ++ [((i, j), p.2)]) trip) []
  return csr t

end

end Verif
