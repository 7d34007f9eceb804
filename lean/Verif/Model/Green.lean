/-
Model of getGreen, impurityModel/ed/spectra.py:551-681, with `mode="sparse"` or
`mode="dense"` (they differ in the storage of the matrix only).  Floats are real
numbers, arithmetic is exact.
-/
import Verif.Model.Expand
import Verif.Model.Lanczos

namespace Verif

open Psr Mpi Matrix

noncomputable section

/-- The part of a matrix inside its shape. -/
def Mat.toMatrix (n : ℕ) (h : Mat ℂ) : Matrix (Fin n) (Fin n) ℂ := fun i j => h i j

/-- spectra.py:668-670 (and 941-943, 1053-1055): a state as a vector. -/
def psiVector (index : Dict Bytes ℕ) (psi : Psi ℂ) : Py (Fin index.length → ℂ) :=
  psi.foldlM (fun (v : Fin index.length → ℂ) p => do
    let i ← Dict.get index p.1
    if h : i < index.length then return Function.update v ⟨i, h⟩ p.2 else throw .indexError) 0

/-- spectra.py:678-681: the continued fraction on the whole mesh.  A `nan` in one
element (a zero denominator) ends the model's computation. -/
def greenOnMesh (alpha beta : List ℝ) (k : ℕ) (omega : List ℝ) (delta e : ℝ) : Py (List ℂ) :=
  omega.mapM fun (w : ℝ) => continuedFraction alpha beta k ((w : ℂ) + Complex.I * (delta : ℂ) + (e : ℂ))

/-- spectra.py:551-681 `getGreen` with `parallelization_mode="serial"`.  `cut` is the
default cutoff `1e-12` of `applyOp`, which `expand_basis` uses; the argument
`slaterWeightMin` is not used in these modes.  Returns the Green's function and
the updated `h_dict`. -/
def getGreen (n : ℕ) (e : ℝ) (psi : Psi ℂ) (hOp : Op ℕ ℂ) (omega : List ℝ) (delta : ℝ) (krylovSize : ℕ)
    (cut : ℝ) (restrictions : Option Restrictions) (hDict : OpResult ℂ) (fuel : ℕ) :
    Py (List ℂ × OpResult ℂ) :=
  if psi.length = 0 then .ok (List.replicate omega.length 0, hDict)
  else do
    let (h, index, hDict) ← expandBasisAndHamiltonianSerial n hDict hOp cut (Dict.keys psi) restrictions fuel
    let psi0 ← psiVector index psi
    let k := min krylovSize index.length
    let (alpha, beta) ← tridiagonalKrylov (h.toMatrix index.length) psi0 k
    let g ← greenOnMesh alpha beta k omega delta e
    return (g, hDict)

/-- A numpy vector as a message. -/
def vectorMsg {n : ℕ} (v : Fin n → ℂ) : Msg ℂ := .vector (List.ofFn v)

/-- A message as a numpy vector of length `n`. -/
def msgVector (n : ℕ) : Msg ℂ → Option (Fin n → ℂ)
  | .vector l => if l.length = n then some fun i => l.getD i 0 else none
  | _ => none

/-- The program of a rank with its vectors sent as messages of the whole program. -/
def embedVectors (n : ℕ) {A : Type} : Prog (Fin n → ℂ) A → Prog (Msg ℂ) A
  | .ret a => .ret a
  | .fail e => .fail e
  | .coll c v k => .coll c (vectorMsg v) fun m => match m with
    | none => embedVectors n (k none)
    | some m => match msgVector n m with
      | some v => embedVectors n (k (some v))
      | none => .fail .typeError
  | .send d t v k => .send d t (vectorMsg v) (embedVectors n k)
  | .recv s t k => .recv s t fun m => match msgVector n m with
    | some v => embedVectors n (k v)
    | none => .fail .typeError

/-- The vectors among messages, if all are vectors. -/
def allVectors (ms : List (Msg ℂ)) : Option (List (List ℂ)) :=
  ms.mapM fun m => match m with
    | .vector v => some v
    | _ => none

/-- The numbers among messages, if all are numbers. -/
def allNumbers (ms : List (Msg ℂ)) : Option (List ℕ) :=
  ms.mapM fun m => match m with
    | .number k => some k
    | _ => none

/-- The sum that `comm.reduce` and `comm.Reduce` form: of vectors element by
element, or of numbers.  Nothing else is reduced in the code. -/
def msgSum (ms : List (Msg ℂ)) : Msg ℂ :=
  match allVectors ms with
  | some (v :: vs) => .vector (vs.foldl (List.zipWith (· + ·)) v)
  | _ => match allNumbers ms with
    | some ks => .number ks.sum
    | none => .none

/-- The orders in which one rank iterates over Python sets during one call of
`expand_basis_and_hamiltonian`: in `expand_basis` and in
`get_hamiltonian_matrix_from_h_dict`. -/
structure SetOrders where
  expand : ℕ → List Bytes → List Bytes
  matrix : List Bytes → List Bytes

/-- spectra.py:551-681 `getGreen` with `parallelization_mode="H_build"` on rank `rank`. -/
def getGreenRank (n : ℕ) (e : ℝ) (psi : Psi ℂ) (hOp : Op ℕ ℂ) (omega : List ℝ) (delta : ℝ) (krylovSize : ℕ)
    (cut : ℝ) (restrictions : Option Restrictions) (hDict : OpResult ℂ) (ord : SetOrders)
    (rank ranks fuel : ℕ) : Prog (Msg ℂ) (List ℂ × OpResult ℂ) :=
  if psi.length = 0 then .ret (List.replicate omega.length 0, hDict)
  else
    (expandBasisAndHamiltonianHBuild n hDict hOp cut (Dict.keys psi) restrictions ord.expand ord.matrix true
      rank ranks fuel).bind fun res =>
    (Prog.lift (psiVector res.2.1 psi)).bind fun psi0 =>
    let k := min krylovSize res.2.1.length
    (embedVectors res.2.1.length (tridiagonalKrylovRank (res.1.toMatrix res.2.1.length) psi0 k rank)).bind fun ab =>
    (Prog.lift (greenOnMesh ab.1 ab.2 k omega delta e)).bind fun g =>
    .ret (g, res.2.2)

end

end Verif
