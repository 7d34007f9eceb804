/-
Specification of calculations that differ in the allowed occupations only.
-/
import Verif.Spec.Main

namespace Verif.Spec

/-- `P'` allows everything that `P` allows: the same nominal occupations and valence baths, and no smaller
tolerances. -/
structure Enlarged (P P' : BasisParams) : Prop where
  val : P'.val = P.val
  n0 : P'.n0 = P.n0
  dnVal : ∀ l, P.dnVal l ≤ P'.dnVal l
  dnCon : ∀ l, P.dnCon l ≤ P'.dnCon l
  tol : ∀ l, P.tol l ≤ P'.tol l

/-- The same interaction parameters. -/
structure SameInteraction (A A' : MainArgs) : Prop where
  Fdd : A'.Fdd = A.Fdd
  Fpp : A'.Fpp = A.Fpp
  Fpd : A'.Fpd = A.Fpd
  Gpd : A'.Gpd = A.Gpd
  xi2p : A'.xi2p = A.xi2p
  xi3d : A'.xi3d = A.xi3d
  chargeTransferCorrection : A'.chargeTransferCorrection = A.chargeTransferCorrection

end Verif.Spec
