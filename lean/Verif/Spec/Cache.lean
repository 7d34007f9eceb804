/-
Specification: a correct cache of an operator.
-/
import Verif.Spec.State

namespace Verif.Spec

open Finset

variable {R F : Type} [CommRing R] [StarRing R] [CommRing F] [LinearOrder F]
  [IsStrictOrderedRing F] [Amp R F]

/-- Matrix element `⟨S|op|T⟩`. -/
def matrixElement (op : Op ℕ R) (S T : Finset ℕ) : R := operator (opSpec op) (single T 1) S

/-- A matrix element as stored: 0 when its weight is below the cutoff. -/
def storedElement (op : Op ℕ R) (cut : F) (S T : Finset ℕ) : R :=
  if cut ≤ abs2 (matrixElement op S T) then matrixElement op S T else 0

/-- The column that a cache should hold for the product state `T`: the matrix
elements to allowed product states whose weight reaches the cutoff. -/
def column (op : Op ℕ R) (cut : F) (r : Option Restrictions) (T S : Finset ℕ) : R :=
  if AllowedOpt r S ∧ cut ≤ abs2 (matrixElement op S T) then matrixElement op S T else 0

/-- Every entry of the cache is the pruned, restricted result of the operator on
its key. -/
structure CacheCorrect (n : ℕ) (op : Op ℕ R) (cut : F) (r : Option Restrictions)
    (cache : Dict Psr.Bytes (Psi R)) : Prop where
  nodup : Dict.NodupKeys cache
  entries : ∀ k col, Dict.get? cache k = some col →
    ∃ T ⊆ range n, k = encBytes n T ∧ IsState n col ∧
      (∀ S ⊆ range n, encBytes n S ∈ Dict.keys col → AllowedOpt r S) ∧
      ∀ S ⊆ range n, ampl n col S = column op cut r T S

/-- No matrix element between `T` and an allowed product state is dropped by the
cutoff. -/
def NoSmallElements (n : ℕ) (op : Op ℕ R) (cut : F) (r : Option Restrictions) (T : Finset ℕ) : Prop :=
  ∀ S ⊆ range n, AllowedOpt r S → matrixElement op S T = 0 ∨ cut ≤ abs2 (matrixElement op S T)

/-- The cutoff drops no amplitude of `op |psi>`. -/
def NothingPruned (n : ℕ) (op : Op ℕ R) (psi : Psi R) (cut : F) : Prop :=
  ∀ S ⊆ range n, operator (opSpec op) (ampl n psi) S = 0 ∨
    cut ≤ abs2 (operator (opSpec op) (ampl n psi) S)

end Verif.Spec
