/-
Specification of the ground-state basis: which sets of occupied spin-orbitals
the occupation parameters allow.
-/
import Verif.Spec.Index
import Mathlib.Order.Interval.Finset.Nat
import Mathlib.Algebra.Order.Ring.Int

namespace Verif.Spec

open Finset

/-- The occupation parameters, per angular momentum. -/
structure BasisParams where
  val : ℕ → ℤ     -- number of valence bath states
  dnVal : ℕ → ℤ   -- how many electrons may leave the valence bath
  dnCon : ℕ → ℤ   -- how many electrons may enter the conduction bath
  tol : ℕ → ℤ     -- allowed deviation of the impurity occupation
  n0 : ℕ → ℤ      -- nominal impurity occupation

/-- The dict `d` gives the value `f l` to every angular momentum of the system. -/
def Provides (nBaths : Dict ℕ ℕ) (d : Dict ℕ ℤ) (f : ℕ → ℤ) : Prop :=
  ∀ l ∈ Dict.keys nBaths, Dict.get? d l = some (f l)

/-- The dicts agree with the parameters. -/
structure ProvidesAll (nBaths : Dict ℕ ℕ) (P : BasisParams)
    (valBaths dnValBaths dnConBaths dnTol n0imp : Dict ℕ ℤ) : Prop where
  val : Provides nBaths valBaths P.val
  dnVal : Provides nBaths dnValBaths P.dnVal
  dnCon : Provides nBaths dnConBaths P.dnCon
  tol : Provides nBaths dnTol P.tol
  n0 : Provides nBaths n0imp P.n0

/-- Impurity spin-orbitals of angular momentum `l`. -/
def impOrbs (nBaths : NBaths) (l : ℕ) : Finset ℕ :=
  Ico (impStart nBaths l) (impStart nBaths l + 2 * (2 * l + 1))

/-- The first `v` bath states of `l`: the valence bath. -/
def valOrbs (nBaths : NBaths) (l : ℕ) (v : ℤ) : Finset ℕ :=
  Ico (bathStart nBaths (.int l)) (bathStart nBaths (.int l) + v.toNat)

/-- The other bath states of `l`: the conduction bath. -/
def conOrbs (nBaths : NBaths) (l nb : ℕ) (v : ℤ) : Finset ℕ :=
  Ico (bathStart nBaths (.int l) + v.toNat) (bathStart nBaths (.int l) + nb)

/-- `dv` electrons removed from the valence bath and `dc` put in the conduction
bath are within the parameters. -/
def Chosen (P : BasisParams) (l : ℕ) (dv dc : ℤ) : Prop :=
  0 ≤ dv ∧ dv ≤ P.dnVal l ∧ 0 ≤ dc ∧ dc ≤ P.dnCon l ∧ |dv - dc| ≤ P.tol l

/-- Product state `S` has `k + dv - dc` impurity electrons, `val - dv` electrons in
the valence bath (if there is one) and `dc` in the conduction bath, for an allowed
choice of `dv`, `dc`, for each angular momentum. -/
def IsConfiguration (nBaths : Dict ℕ ℕ) (sys : NBaths) (P : BasisParams) (S : Finset ℕ) : Prop :=
  ∀ p ∈ nBaths, ∃ dv dc : ℤ, Chosen P p.1 dv dc ∧
    ((S ∩ impOrbs sys p.1).card : ℤ) = P.n0 p.1 + dv - dc ∧
    (P.val p.1 ≠ 0 → ((S ∩ valOrbs sys p.1 (P.val p.1)).card : ℤ) = P.val p.1 - dv) ∧
    ((S ∩ conOrbs sys p.1 p.2 (P.val p.1)).card : ℤ) = dc

/-- An occupation within the parameters that does not fit: too many electrons in
the conduction bath or on the impurity, or a negative number of electrons. -/
def BadOccupation (P : BasisParams) (l nb : ℕ) (dv dc : ℤ) : Prop :=
  dc > nb - P.val l ∨ P.n0 l + dv - dc > 2 * (2 * l + 1) ∨ P.n0 l + dv - dc < 0 ∨
    (P.val l ≠ 0 ∧ P.val l - dv < 0)

end Verif.Spec
