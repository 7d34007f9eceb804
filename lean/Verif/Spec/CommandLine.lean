/-
Specification of the arguments that the scripts accept.
-/
import Verif.Model.Main
import Verif.Spec.GetBasis

namespace Verif.Spec

/-- The arguments have the documented form: a number of bath states and of valence bath states
for every angular momentum, not more valence bath states than bath states, nominal occupations
that the shells can have, and the documented numbers of Slater integrals and field components. -/
structure DocumentedForm (A : MainArgs) : Prop where
  nBaths : A.nBaths.length = A.ls.length
  nValBaths : A.nValBaths.length = A.ls.length
  valence : ∀ (i nb : ℕ) (v : ℤ), A.nBaths[i]? = some nb → A.nValBaths[i]? = some v → v ≤ (nb : ℤ)
  occupation : ∀ (i l : ℕ) (n : ℤ), A.ls[i]? = some l → A.n0imps[i]? = some n → 0 ≤ n ∧ n ≤ 2 * (2 * (l : ℤ) + 1)
  Fdd : A.Fdd.length = 5
  Fpp : A.Fpp.length = 3
  Fpd : A.Fpd.length = 3
  Gpd : A.Gpd.length = 4
  hField : A.hField.length = 3

/-- A p shell and then a d shell with ten valence and no or ten conduction bath states. -/
structure CrystalFieldForm (A : MainArgs) : Prop where
  p : A.ls[0]? = some 1
  d : A.ls[1]? = some 2
  bath : A.nBaths[1]? = some 10 ∨ A.nBaths[1]? = some 20
  valence : A.nValBaths[1]? = some 10

/-- Every occupation of shell `l` with `nb` bath states that the parameters allow is possible. -/
def AllFit (P : BasisParams) (l nb : ℕ) : Prop :=
  P.val l ≤ nb ∧ ∀ dv dc, Chosen P l dv dc → ¬ BadOccupation P l nb dv dc

end Verif.Spec
