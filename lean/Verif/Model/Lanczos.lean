/-
Model of get_tridiagonal_krylov_vectors (impurityModel/ed/finite.py:1897-1995) and
of the continued fraction of getGreen (impurityModel/ed/spectra.py:676-681).
Floats are real numbers, arithmetic is exact.  An array of length `n` is a
function on `Fin n`.
-/
import Verif.Model.Mpi
import Mathlib.LinearAlgebra.Matrix.Hermitian
import Mathlib.Analysis.Complex.Basic
import Mathlib.Analysis.SpecialFunctions.Pow.Real

namespace Verif

open Mpi Matrix

noncomputable section

/-- The variables of the Krylov loop: the arrays `alpha`, `beta`, the two rows of
`v`, and `w`. -/
structure Krylov (n : ℕ) where
  alpha : List ℝ
  beta : List ℝ
  v0 : Fin n → ℂ
  v1 : Fin n → ℂ
  w : Fin n → ℂ

variable {n : ℕ}

/-- finite.py:1923-1932: allocation, with `krylovSize` already cut to `n`.
`np.zeros(krylovSize - 1)` raises for `krylovSize = 0`.  (`w` does not exist yet;
it is zero here.) -/
def krylovAlloc (psi0 : Fin n → ℂ) (k : ℕ) : Py (Krylov n) :=
  if k = 0 then .error .valueError
  else .ok ⟨List.replicate k 0, List.replicate (k - 1) 0, psi0, 0, 0⟩

/-- finite.py:1951-1952 and 1976-1977: `alpha[0]` and the first `w`. -/
def krylovFirst (s : Krylov n) (wp : Fin n → ℂ) : Krylov n :=
  let a := (star wp ⬝ᵥ s.v0).re
  { s with alpha := s.alpha.set 0 a, w := wp - (a : ℂ) • s.v0 }

/-- finite.py:1957-1963 and 1981-1987: `beta[j-1]` and the next Krylov vector
`v[1, :]`. -/
def krylovVector (j : ℕ) (s : Krylov n) : Py (Krylov n) :=
  let b := Real.sqrt (∑ i, Complex.normSq (s.w i))
  if b ≠ 0 then .ok { s with beta := s.beta.set (j - 1) b, v1 := fun i => s.w i / b }
  else .error .valueError

/-- finite.py:1971-1973 and 1989-1991: `alpha[j]`, the next `w`, and
`v[0, :] = v[1, :]`. -/
def krylovAlpha (j : ℕ) (s : Krylov n) (wp : Fin n → ℂ) : Krylov n :=
  let a := (star wp ⬝ᵥ s.v1).re
  { s with
    alpha := s.alpha.set j a
    w := wp - (a : ℂ) • s.v1 - ((s.beta.getD (j - 1) 0 : ℝ) : ℂ) • s.v0
    v0 := s.v1 }

/-- finite.py:1980-1991, the loop over `j` with `h_local=False`; `m` passes are left. -/
def krylovLoop (h : Matrix (Fin n) (Fin n) ℂ) : ℕ → ℕ → Krylov n → Py (Krylov n)
  | 0, _, s => .ok s
  | m + 1, j, s => do
    let s ← krylovVector j s
    krylovLoop h m (j + 1) (krylovAlpha j s (h *ᵥ s.v1))

/-- finite.py:1897-1995 `get_tridiagonal_krylov_vectors` with `h_local=False`.
Modes `dense` and `sparse` differ in the storage of `h` only.  Timing and
printing are left out. -/
def tridiagonalKrylov (h : Matrix (Fin n) (Fin n) ℂ) (psi0 : Fin n → ℂ) (krylovSize : ℕ) :
    Py (List ℝ × List ℝ) := do
  let k := min krylovSize n
  let s ← krylovAlloc psi0 k
  let s ← krylovLoop h (k - 1) 1 (krylovFirst s (h *ᵥ s.v0))
  return (s.alpha, s.beta)

/-- finite.py:1955-1973, the loop with `h_local=True` on rank `rank`, where `h` is
the part of the Hamiltonian that this rank holds. -/
def krylovLoopRank (h : Matrix (Fin n) (Fin n) ℂ) (rank : ℕ) :
    ℕ → ℕ → Krylov n → Prog (Fin n → ℂ) (Krylov n)
  | 0, _, s => .ret s
  | m + 1, j, s =>
    (if rank = 0 then Prog.lift (krylovVector j s) else .ret s).bind fun s =>
    (bcast 0 s.v1).bind fun v1 =>
    (reduce 0 (h *ᵥ v1)).bind fun wp =>
    krylovLoopRank h rank m (j + 1)
      (if rank = 0 then krylovAlpha j { s with v1 := v1 } (wp.getD 0) else { s with v1 := v1 })

/-- finite.py:1897-1995 `get_tridiagonal_krylov_vectors` with `h_local=True` on rank
`rank`.  `comm.Reduce(wp_local, wp)` leaves the zeros of `np.zeros_like` in `wp`
on all ranks but the root. -/
def tridiagonalKrylovRank (h : Matrix (Fin n) (Fin n) ℂ) (psi0 : Fin n → ℂ) (krylovSize rank : ℕ) :
    Prog (Fin n → ℂ) (List ℝ × List ℝ) :=
  let k := min krylovSize n
  (Prog.lift (krylovAlloc psi0 k)).bind fun s =>
  (reduce 0 (h *ᵥ s.v0)).bind fun wp =>
  (krylovLoopRank h rank (k - 1) 1 (if rank = 0 then krylovFirst s (wp.getD 0) else s)).bind fun s =>
  .ret (s.alpha, s.beta)

/-- A division of numpy: for a zero divisor the result is not a number. -/
def npDiv (x y : ℂ) : Py ℂ := if y = 0 then .error .nan else .ok (x / y)

/-- The body of the loop of spectra.py:679-680, for one energy. -/
def fractionBody (alpha beta : List ℝ) (k : ℕ) (z : ℂ) (g : ℂ) (i : ℕ) : Py ℂ := do
  let a ← pyGet alpha i
  if i = k - 1 then npDiv 1 (z - a)
  else do
    let b ← pyGet beta i
    npDiv 1 (z - a - (b : ℂ) ^ 2 * g)

/-- spectra.py:678-681, for one energy `z = omega + 1j*delta + e`; numpy does the
same for each element of `omegaP`.  `range(k-1, -1, -1)` counts down. -/
def continuedFraction (alpha beta : List ℝ) (k : ℕ) (z : ℂ) : Py ℂ :=
  (List.range k).reverse.foldlM (fractionBody alpha beta k z) 0

end

end Verif
