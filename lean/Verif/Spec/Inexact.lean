/-
Specification of eigensolvers that stop when the residual is small, and of isolated eigenvalues.
-/
import Verif.Spec.Eigen
import Verif.Spec.MainCutoff

namespace Verif.Spec

open Finset

noncomputable section

/-- The columns of `p.vecs` are normalised and nearly eigenvectors of the `d × d` matrix `H`: the length of
`H x - e x` is at most `δ e`, a bound that may depend on the energy `e`. -/
structure NearEigen (H : Mat ℂ) (d : ℕ) (δ : ℝ → ℝ) (p : EigenPairs) : Prop where
  unit : ∀ v < p.es.length, ∑ i ∈ range d, Complex.normSq (p.vecs i v) = 1
  residual : ∀ v (hv : v < p.es.length),
    ∑ i ∈ range d, Complex.normSq (∑ j ∈ range d, H i j * p.vecs j v - p.es[v] * p.vecs i v) ≤ δ p.es[v] ^ 2

/-- numpy and scipy return what they are asked for, but only up to a residual: no orthogonality, and not
necessarily the lowest eigenvalues. -/
structure SolverWithin (S : EigenSolver) (δ : ℝ → ℝ) : Prop where
  nonneg : ∀ e, 0 ≤ δ e
  eigh : ∀ H d, (∀ i j, H i j = star (H j i)) → NearEigen H d δ (S.eigh H d) ∧
    (S.eigh H d).es.Pairwise (· ≤ ·) ∧ (S.eigh H d).es.length = d
  eigsh : ∀ H d k p, (∀ i j, H i j = star (H j i)) → S.eigsh H d k = .ok p → NearEigen H d δ p ∧ p.es.length = k
  argsort : ∀ l, (S.argsort l).Perm (List.range l.length) ∧
    ((S.argsort l).map fun i => l.getD i 0).Pairwise (· ≤ ·)

/-- Moreover eigsh returns orthogonal vectors and misses no state: what is orthogonal to them has at least
the energy of each of them, up to the residual. -/
structure SolverComplete (S : EigenSolver) (δ : ℝ → ℝ) : Prop where
  ortho : ∀ H d k p, (∀ i j, H i j = star (H j i)) → S.eigsh H d k = .ok p → ∀ v < p.es.length, ∀ w < p.es.length,
    ∑ i ∈ range d, star (p.vecs i v) * p.vecs i w = if v = w then 1 else 0
  low : ∀ H d k p, (∀ i j, H i j = star (H j i)) → S.eigsh H d k = .ok p → ∀ y : ℕ → ℂ,
    (∀ v < p.es.length, ∑ i ∈ range d, star (p.vecs i v) * y i = 0) → ∀ v (hv : v < p.es.length),
      (p.es[v] - δ p.es[v]) * ∑ i ∈ range d, Complex.normSq (y i) ≤ energyOf H d y

/-- `y` is a normalised eigenvector, for the energy `e`, of the matrix `h` between the product states `s`. -/
structure IsEigenvector (s : Finset (Finset ℕ)) (h : Finset ℕ → Finset ℕ → ℂ) (e : ℝ) (y : Vec ℂ) : Prop where
  inside : ∀ F, F ∉ s → y F = 0
  normalised : ∑ F ∈ s, Complex.normSq (y F) = 1
  eigen : ∀ F ∈ s, ∑ G ∈ s, h F G * y G = e * y F

/-- All eigenvalues are at least `g` away from `e`, except `lam`. -/
def Isolated (s : Finset (Finset ℕ)) (h : Finset ℕ → Finset ℕ → ℂ) (e lam g : ℝ) : Prop :=
  ∀ mu y, IsEigenvector s h mu y → mu = lam ∨ g ≤ |mu - e|

/-- The matrix elements of an operator between product states. -/
def elementOf (H : Vec ℂ → Vec ℂ) (F G : Finset ℕ) : ℂ := H (single G 1) F

/-- How far a state with residual `r` can be from an eigenvector, for an eigenvalue isolated by `g`, if components of
weight below `weight` are dropped in a space of `d` product states. -/
def stateError (r g : ℝ) (d : ℕ) (weight : ℝ) : ℝ := Real.sqrt 2 * (r / g) + Real.sqrt (d * weight)

/-- `psis` are vectors `x` without components of weight less than `weight`, the `x` are normalised vectors in
the space of the product states `states`, and `H x - e x` for the matrix elements of `op` and the energies `es` has at
most the length `δ e` plus the effect of dropped matrix elements.  The energies are in ascending order. -/
def NearStates (n : ℕ) (op : Op ℕ ℂ) (cut weight : ℝ) (δ : ℝ → ℝ) (states : Finset (Finset ℕ)) (es : List ℝ)
    (psis : List (Psi ℂ)) : Prop :=
  es.Pairwise (· ≤ ·) ∧ psis.length = es.length ∧
  ∃ x : ℕ → Finset ℕ → ℂ,
    (∀ v < es.length, ∑ S ∈ states, Complex.normSq (x v S) = 1) ∧
    (∀ v (hv : v < es.length),
      ∑ S ∈ states, Complex.normSq (∑ T ∈ states, matrixElement op S T * x v T - es[v] * x v S)
        ≤ (δ es[v] + op.length * Real.sqrt cut) ^ 2) ∧
    ∀ v (hv : v < psis.length), IsState n psis[v] ∧
      ∀ S, ampl n psis[v] S = if S ∈ states ∧ weight ≤ Complex.normSq (x v S) then x v S else 0

end

end Verif.Spec
