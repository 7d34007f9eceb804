/-
The number of product states the occupation parameters allow.
-/
import Verif.Spec.GetBasis
import Mathlib.Data.Nat.Choose.Basic
import Mathlib.Algebra.BigOperators.Group.Finset.Basic
import Mathlib.Data.Int.Interval

namespace Verif.Spec

open Finset

/-- Ways to put `k` electrons in the `v` valence bath states: binomial, and one way
if there is no valence bath. -/
def valenceWays (v k : ℤ) : ℕ := if v = 0 then 1 else v.toNat.choose k.toNat

/-- Configurations of angular momentum `l` with `nb` bath states: for each allowed
number `dv` of electrons taken from the valence bath and `dc` put in the conduction
bath, the ways to fill the `2(2l+1)` impurity orbitals, the valence bath and the
conduction bath. -/
def waysOf (P : BasisParams) (l nb : ℕ) : ℕ :=
  ∑ dv ∈ Icc 0 (P.dnVal l), ∑ dc ∈ Icc 0 (P.dnCon l),
    if |dv - dc| ≤ P.tol l then
      (2 * (2 * l + 1)).choose (P.n0 l + dv - dc).toNat * valenceWays (P.val l) (P.val l - dv) *
        (nb - P.val l).toNat.choose dc.toNat
    else 0

/-- The product over the angular momenta. -/
def waysTotal (nBaths : Dict ℕ ℕ) (P : BasisParams) : ℕ :=
  (nBaths.map fun p => waysOf P p.1 p.2).prod

end Verif.Spec
