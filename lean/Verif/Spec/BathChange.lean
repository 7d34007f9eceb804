/-
Specification of another choice of the bath states.
-/
import Verif.Spec.OrbitalChange
import Verif.Spec.Degenerate

namespace Verif.Spec

open Finset

noncomputable section

/-- The one-electron operator with the matrix `t`. -/
def hopping (n : ℕ) (t : ℕ → ℕ → ℂ) (v : Vec ℂ) : Vec ℂ :=
  fun F => ∑ i ∈ range n, ∑ j ∈ range n, t i j * create i (annihilate j v) F

/-- The matrix `u t u†`. -/
def transformed (n : ℕ) (u t : ℕ → ℕ → ℂ) : ℕ → ℕ → ℂ :=
  fun i j => ∑ k ∈ range n, ∑ l ∈ range n, u i k * t k l * star (u j l)

/-- The operator is a sum of terms `c†_x c_y`. -/
def OneElectron (sys : NBaths) (h : Op Label ℂ) : Prop :=
  ∀ q ∈ h, ∃ x y, q.1 = [(x, Action.c), (y, Action.a)] ∧ position sys x < nTotal sys ∧ position sys y < nTotal sys

/-- The matrix of such an operator. -/
def oneMatrix (sys : NBaths) (h : Op Label ℂ) (i j : ℕ) : ℂ :=
  (h.map fun q => if q.1.map (fun x => (position sys x.1, x.2)) = [(i, Action.c), (j, Action.a)] then q.2 else 0).sum

/-- The non-interacting operator `h0'` is `h0` for another choice of the bath states: what `h0` does with an electron in `j`,
`h0'` does with an electron in the state `u · j`.  The states of the p and the d shell are not changed, valence bath
states are mixed with valence bath states of the same shell only, and so are the conduction bath states. -/
structure BathChange (b : ℕ → ℕ) (P : BasisParams) (u : ℕ → ℕ → ℂ) (h0 h0' : Op Label ℂ) : Prop where
  unitary : UnitaryOn (nTotal (pdSystem b)) u
  shell : ∀ l ∈ [1, 2], ∀ j ∈ impOrbs (pdSystem b) l, ∀ i < nTotal (pdSystem b),
    u i j = (if i = j then 1 else 0) ∧ u j i = if j = i then 1 else 0
  bath : ∀ l ∈ [1, 2], ∀ i < nTotal (pdSystem b), ∀ j < nTotal (pdSystem b), u i j ≠ 0 →
    (i ∈ valOrbs (pdSystem b) l (P.val l) ↔ j ∈ valOrbs (pdSystem b) l (P.val l)) ∧
    (i ∈ conOrbs (pdSystem b) l (b l) (P.val l) ↔ j ∈ conOrbs (pdSystem b) l (b l) (P.val l))
  carried : ∀ v, ∀ F ⊆ range (nTotal (pdSystem b)),
    operator (labelSpec (position (pdSystem b)) h0') (changeOrbitals (nTotal (pdSystem b)) u v) F
      = changeOrbitals (nTotal (pdSystem b)) u (operator (labelSpec (position (pdSystem b)) h0) v) F

/-- The states are only numbered in another order, and multiplied by phase factors. -/
def Renumbers (n : ℕ) (u : ℕ → ℕ → ℂ) : Prop := ∃ (π : ℕ → ℕ) (φ : ℕ → ℂ), ∀ i < n, ∀ j < n, u i j = if i = π j then φ j else 0

/-- No matrix element of the Hamiltonian is dropped by the cutoff. -/
def ElementsKept (S : SimulateArgs) : Prop :=
  ∀ F ⊆ range (size S), ∀ G ⊆ range (size S), matrixElement S.hOp F G = 0 ∨ S.cut ≤ abs2 (matrixElement S.hOp F G)

end

end Verif.Spec
