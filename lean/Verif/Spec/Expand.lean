/-
Specification: the space spanned by repeatedly applying an operator to product
states.
-/
import Verif.Spec.Cache

namespace Verif.Spec

open Finset

variable {R F : Type} [CommRing R] [StarRing R] [CommRing F] [LinearOrder F]
  [IsStrictOrderedRing F] [Amp R F]

/-- The operator leads from `T` to `S`: `S` fulfils the restrictions and the
weight of `⟨S|op|T⟩` reaches the cutoff. -/
def Connects (op : Op ℕ R) (cut : F) (r : Option Restrictions) (T S : Finset ℕ) : Prop :=
  AllowedOpt r S ∧ cut ≤ abs2 (matrixElement op S T)

/-- Every entry of `h_dict` is exactly the result of `applyOp` on its key. -/
structure ColumnsExact (n : ℕ) (op : Op ℕ R) (cut : F) (r : Option Restrictions)
    (hDict : Dict Psr.Bytes (Psi R)) : Prop where
  nodup : Dict.NodupKeys hDict
  entries : ∀ k col, Dict.get? hDict k = some col →
    ∃ T ⊆ range n, k = encBytes n T ∧ IsState n col ∧
      ∀ S ⊆ range n, (Connects op cut r T S → Dict.get? col (encBytes n S) = some (matrixElement op S T)) ∧
        (¬ Connects op cut r T S → Dict.get? col (encBytes n S) = none)

/-- `states` is the smallest set of product states of `n` spin-orbitals that
contains `start` and that the operator does not lead out of. -/
structure SmallestInvariant (n : ℕ) (op : Op ℕ R) (cut : F) (r : Option Restrictions)
    (start states : Set (Finset ℕ)) : Prop where
  contains : start ⊆ states
  closed : ∀ T ∈ states, ∀ S ⊆ range n, Connects op cut r T S → S ∈ states
  smallest : ∀ X : Set (Finset ℕ), start ⊆ X →
    (∀ T ∈ X, ∀ S ⊆ range n, Connects op cut r T S → S ∈ X) → states ⊆ X

/-- No product state is a key of the dictionaries of two ranks. -/
def DisjointKeys {N : ℕ} (hDicts : Fin N → Dict Psr.Bytes (Psi R)) : Prop :=
  ∀ k l, k ≠ l → ∀ b, b ∈ Dict.keys (hDicts k) → b ∉ Dict.keys (hDicts l)

/-- Every process of the operator has as many creations as annihilations. -/
def NumberConserving (op : Op ℕ R) : Prop :=
  ∀ q ∈ op, q.1.countP (fun x => x.2 = .c) = q.1.countP (fun x => x.2 = .a)

end Verif.Spec
