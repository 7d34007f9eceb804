/-
The arguments for which the theorems about getSpectra, getRIXSmap, simulate_spectra and main
are stated.
-/
import Verif.Model.Main
import Verif.Spec.Expand

namespace Verif

open Finset Psr Spec Matrix

noncomputable section

/-- The set orders are orders of the same set. -/
def SetOrders.Valid (o : SetOrders) : Prop := (∀ i l, (o.expand i l).Perm l) ∧ ∀ l, (o.matrix l).Perm l

/-- The usable arguments of `getSpectra`. -/
structure SpectraArgs.Valid (A : SpectraArgs) : Prop where
  hop : OpInSystem A.n A.hOp
  cut : 0 < A.cut
  weight : 0 < A.slaterWeightMin
  delta : A.delta ≠ 0
  krylov : 0 < A.krylovSize
  fuel : 2 ^ A.n + 2 ≤ A.fuel

/-- The usable arguments of `getRIXSmap`. -/
structure RixsArgs.Valid (A : RixsArgs) : Prop where
  hop : OpInSystem A.n A.hOp
  cut : 0 < A.cut
  weight : 0 < A.slaterWeightMin
  delta : A.delta2 ≠ 0
  krylov : 0 < A.krylovSize
  fuel : 2 ^ A.n + 2 ≤ A.fuel

/-- No matrix element of the operator is below the cutoff. -/
def RixsArgs.Large (A : RixsArgs) (op : Op ℕ ℂ) : Prop :=
  ∀ T ⊆ range A.n, NoSmallElements A.n op A.slaterWeightMin A.restrictions T

/-- What is needed of the out-going operators. -/
def OutOps (A : RixsArgs) (tOpsOut : List (Op ℕ ℂ)) : Prop :=
  ∀ op0 ∈ tOpsOut.head?, OpInSystem A.n op0 ∧ A.Large op0

/-- What is needed of `h_dict_ground` in a mode. -/
structure GroundOk (A : RixsArgs) (mode : RixsMode) {N : ℕ} (hGround : Fin N → OpResult ℂ) : Prop where
  exact : ∀ k, ColumnsExact A.n A.hOp A.cut A.restrictions (hGround k)
  disjoint : mode = .hBuild → DisjointKeys hGround

/-- The linear solver returns a solution whenever there is exactly one. -/
def ExactSolver (solve : LinSolver) : Prop :=
  ∀ (d : ℕ) (a : Matrix (Fin d) (Fin d) ℂ) (y : Fin d → ℂ), IsUnit a → a *ᵥ solve d a y = y

/-- What `simulate_spectra` needs of its arguments. -/
structure SimulateArgs.Valid (S : SimulateArgs) : Prop where
  nBaths : Dict.NodupKeys S.nBaths
  hop : OpInSystem (nSpinOrbitals S.nBaths) S.hOp
  cut : 0 < S.cut
  weight : 0 < S.slaterWeightMin
  delta : S.delta ≠ 0
  deltaNIXS : S.deltaNIXS ≠ 0
  deltaRIXS : S.deltaRIXS ≠ 0
  krylov : 0 < S.krylovSize
  fuel : 2 ^ nSpinOrbitals S.nBaths + 2 ≤ S.fuel
  states : ∀ psi ∈ S.psis, IsState (nSpinOrbitals S.nBaths) psi
  enough : S.es.length ≤ S.psis.length

/-- The first out-going operator of RIXS has no matrix element that is dropped. -/
def SimulateArgs.OutLarge (S : SimulateArgs) : Prop :=
  ∀ tOpsOut, getDaggeredDipoleOperators S.gaunt (intKeys S.nBaths) S.epsilonsRIXSout = .ok tOpsOut →
    ∀ op0 ∈ tOpsOut.head?, S.rixs.Large op0

/-- What main needs of its arguments. -/
structure MainArgs.Valid (A : MainArgs) : Prop where
  delta : A.delta ≠ 0
  deltaNIXS : A.deltaNIXS ≠ 0
  deltaRIXS : A.deltaRIXS ≠ 0

end

end Verif
