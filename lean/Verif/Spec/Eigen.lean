/-
Specification: correct results of the diagonalisation routines of numpy and scipy.
-/
import Verif.Model.Eigen

namespace Verif.Spec

open Finset

/-- The columns of `p.vecs` are orthonormal eigenvectors of the `d × d` matrix `H`
for the eigenvalues `p.es`, in this order. -/
structure EigenOf (H : Mat ℂ) (d : ℕ) (p : EigenPairs) : Prop where
  eigen : ∀ v (hv : v < p.es.length), ∀ i < d, ∑ j ∈ range d, H i j * p.vecs j v = p.es[v] * p.vecs i v
  ortho : ∀ v < p.es.length, ∀ w < p.es.length,
    ∑ i ∈ range d, star (p.vecs i v) * p.vecs i w = if v = w then 1 else 0

/-- The energy `⟨y|H|y⟩`. -/
noncomputable def energyOf (H : Mat ℂ) (d : ℕ) (y : ℕ → ℂ) : ℝ :=
  (∑ i ∈ range d, ∑ j ∈ range d, star (y i) * H i j * y j).re

/-- No vector orthogonal to the eigenvectors has a lower energy than one of them. -/
def IsLowest (H : Mat ℂ) (d : ℕ) (p : EigenPairs) : Prop :=
  ∀ y : ℕ → ℂ, (∀ v < p.es.length, ∑ i ∈ range d, star (p.vecs i v) * y i = 0) →
    ∀ v (hv : v < p.es.length), p.es[v] * ∑ i ∈ range d, Complex.normSq (y i) ≤ energyOf H d y

/-- What numpy and scipy promise for a Hermitian matrix. -/
structure SolverCorrect (S : EigenSolver) : Prop where
  /-- eigh: all eigenvalues in ascending order -/
  eigh : ∀ H d, (∀ i j, H i j = star (H j i)) → EigenOf H d (S.eigh H d) ∧
    (S.eigh H d).es.Pairwise (· ≤ ·) ∧ (S.eigh H d).es.length = d
  /-- eigsh: the `k` lowest eigenvalues (`which="SA"`), in no particular order -/
  eigsh : ∀ H d k p, (∀ i j, H i j = star (H j i)) → S.eigsh H d k = .ok p →
    EigenOf H d p ∧ p.es.length = k ∧ IsLowest H d p
  /-- argsort: the positions, in the order of ascending values -/
  argsort : ∀ l, (S.argsort l).Perm (List.range l.length) ∧
    ((S.argsort l).map fun i => l.getD i 0).Pairwise (· ≤ ·)

end Verif.Spec
