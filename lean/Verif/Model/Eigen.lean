/-
Model of eigensystem (impurityModel/ed/finite.py:58-117) and of the selection of
low eigenstates in main (impurityModel/ed/get_spectra.py:302-303,
impurityModel/ed/get_spectra_using_CF.py:302-303).  Floats are real numbers.
-/
import Verif.Model.Hamiltonian
import Mathlib.Analysis.Complex.Basic

namespace Verif

open Psr

noncomputable section

/-- The eigenvalues and the matrix of eigenvectors that a diagonalisation routine
returns: `vecs[i, v]` is component `i` of eigenvector `v`. -/
structure EigenPairs where
  es : List ℝ
  vecs : ℕ → ℕ → ℂ

/-- The library routines `eigensystem` uses. -/
structure EigenSolver where
  /-- `np.linalg.eigh` -/
  eigh : Mat ℂ → ℕ → EigenPairs
  /-- `scipy.sparse.linalg.eigsh(h, k, which="SA", tol)`; it may raise (no
  convergence, or `k` not smaller than the dimension) -/
  eigsh : Mat ℂ → ℕ → ℕ → Py EigenPairs
  /-- `np.argsort` -/
  argsort : List ℝ → List ℕ

/-- The argument `groundDiagMode`. -/
inductive DiagMode where
  | full | lanczos | other
  deriving DecidableEq, Repr

/-- finite.py:97-100: full diagonalisation, `es[:nPsiMax]` and `vecs[:, :nPsiMax]`. -/
def diagFull (S : EigenSolver) (h : Mat ℂ) (dim nPsiMax : ℕ) : EigenPairs :=
  let p := S.eigh h dim
  { es := p.es.take nPsiMax, vecs := p.vecs }

/-- finite.py:101-106: Lanczos diagonalisation, sorted. -/
def diagLanczos (S : EigenSolver) (h : Mat ℂ) (dim nPsiMax : ℕ) : Py EigenPairs := do
  let p ← S.eigsh h dim nPsiMax
  let indices := S.argsort p.es
  let es ← indices.mapM fun (i : ℕ) => pyGet p.es (i : ℤ)
  return { es := es, vecs := fun i v => p.vecs i (indices.getD v 0) }

/-- finite.py:111-115: eigenvector `v` as a dict, small weights left out. -/
def eigenState (basis : List Bytes) (slaterWeightMin : ℝ) (vec : ℕ → ℂ) : Psi ℂ :=
  basis.zipIdx.foldl (fun d p =>
    if slaterWeightMin ≤ Complex.normSq (vec p.2) then Dict.set d p.1 (vec p.2) else d) []

/-- finite.py:58-117 `eigensystem`.  `cut` is the cutoff `1e-12` of `applyOp` and
`ranks` the number of MPI ranks; the matrix is built in the default mode
`sparse_MPI`.  Printing is left out, with the `ZeroDivisionError` for an empty
basis on rank 0 (finite.py:97).  An unknown mode string is only reported; then
`es` is unbound. -/
def eigensystem (S : EigenSolver) (n : ℕ) (hOp : Op ℕ ℂ) (cut : ℝ) (basis : List Bytes)
    (nPsiMax : ℕ) (mode : DiagMode) (slaterWeightMin : ℝ) (ranks : ℕ) :
    Py (List ℝ × List (Psi ℂ)) := do
  let h ← getHamiltonianMatrix n hOp cut basis .sparseMPI ranks
  let p ← (match mode with
    | .full => .ok (diagFull S h basis.length nPsiMax)
    | .lanczos => diagLanczos S h basis.length nPsiMax
    | .other => .error .unboundLocalError : Py EigenPairs)
  return (p.es, (List.range p.es.length).map fun v =>
    eigenState basis slaterWeightMin fun i => p.vecs i v)

/-- get_spectra.py:302-303: only eigenstates with low energy.  `es[0]` inside the
generator is the lowest of the original energies. -/
def energyCut {Q : Type} (es : List ℝ) (psis : List Q) (cut : ℝ) : Py (List ℝ × List Q) := do
  let es' ← es.foldlM (fun (kept : List ℝ) e => do
    let e0 ← pyGet es 0
    return if e - e0 < cut then kept ++ [e] else kept) []
  let psis' ← (List.range es'.length).mapM fun (i : ℕ) => pyGet psis (i : ℤ)
  return (es', psis')

end

end Verif
