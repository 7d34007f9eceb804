/-
Model of the command line of the two scripts, impurityModel/ed/get_spectra.py:427-618 and
get_spectra_using_CF.py:630-826.  The parsing of the text by argparse is left out: an option that
is not given is `none`.  Numbers of bath states, `nPsiMax` and `nPrintSlaterWeights` are not
negative here.
-/
import Verif.Model.Main

namespace Verif

open Mpi

noncomputable section

/-- The options of the command line. -/
structure Options where
  ls : Option (List ℕ) := none
  nBaths : Option (List ℕ) := none
  nValBaths : Option (List ℤ) := none
  n0imps : Option (List ℤ) := none
  dnTols : Option (List ℤ) := none
  dnValBaths : Option (List ℤ) := none
  dnConBaths : Option (List ℤ) := none
  Fdd : Option (List ℝ) := none
  Fpp : Option (List ℝ) := none
  Fpd : Option (List ℝ) := none
  Gpd : Option (List ℝ) := none
  xi2p : Option ℝ := none
  xi3d : Option ℝ := none
  chargeTransferCorrection : Option ℝ := none
  hField : Option (List ℝ) := none
  nPsiMax : Option ℕ := none
  nPrintSlaterWeights : Option ℕ := none
  tolPrintOccupation : Option ℝ := none
  T : Option ℝ := none
  energyCut : Option ℝ := none
  delta : Option ℝ := none
  deltaRIXS : Option ℝ := none
  deltaNIXS : Option ℝ := none

/-- get_spectra.py:429-576 and 592-618 (get_spectra_using_CF.py:632-779 and 800-826): the
arguments of `main`, with the defaults of the options. -/
def Options.args (o : Options) (h0 : H0Input) (radial : List (ℝ × ℝ)) : MainArgs where
  h0 := h0
  radial := radial
  ls := o.ls.getD [1, 2]
  nBaths := o.nBaths.getD [0, 10]
  nValBaths := o.nValBaths.getD [0, 10]
  n0imps := o.n0imps.getD [6, 8]
  dnTols := o.dnTols.getD [0, 2]
  dnValBaths := o.dnValBaths.getD [0, 2]
  dnConBaths := o.dnConBaths.getD [0, 0]
  Fdd := o.Fdd.getD [7.5, 0, 9.9, 0, 6.6]
  Fpp := o.Fpp.getD [0, 0, 0]
  Fpd := o.Fpd.getD [8.9, 0, 6.8]
  Gpd := o.Gpd.getD [0, 5, 0, 2.8]
  xi2p := o.xi2p.getD 11.629
  xi3d := o.xi3d.getD 0.096
  chargeTransferCorrection := o.chargeTransferCorrection.getD 1.5
  hField := o.hField.getD [0, 0, 0.0001]
  nPsiMax := o.nPsiMax.getD 5
  nPrintSlaterWeights := o.nPrintSlaterWeights.getD 3
  tolPrintOccupation := o.tolPrintOccupation.getD 0.5
  T := o.T.getD 300
  energyCut := o.energyCut.getD 10
  delta := o.delta.getD 0.2
  deltaRIXS := o.deltaRIXS.getD 0.050
  deltaNIXS := o.deltaNIXS.getD 0.100

/-- get_spectra_using_CF.py:795-798: the checks that only the script for crystal field parameters
makes. -/
def cfChecks (A : MainArgs) : Py Unit := do
  pyAssert ((← pyGet A.ls 0) = 1)
  pyAssert ((← pyGet A.ls 1) = 2)
  let nb ← pyGet A.nBaths 1
  pyAssert (nb = 10 ∨ nb = 20)
  pyAssert ((← pyGet A.nValBaths 1) = 10)

/-- The checks of the script: get_spectra.py:578-590 or get_spectra_using_CF.py:782-798. -/
def scriptChecks (A : MainArgs) : Py Unit :=
  match A.h0 with
  | .pickle _ => sanityChecks A
  | .crystalField _ => do
    sanityChecks A
    cfChecks A

/-- The script, on rank `rank` of `ranks`. -/
def scriptRank (L : MainLib) (o : Options) (h0 : H0Input) (radial : List (ℝ × ℝ)) (ord : ℕ → ℕ → ℕ → SetOrders)
    (ordRixs : List ℕ → SetOrders) (rank ranks : ℕ) : Prog (Msg ℂ) (Option MainOutput) :=
  (Prog.lift (scriptChecks (o.args h0 radial))).bind fun _ =>
  mainRank L (o.args h0 radial) ord ordRixs rank ranks

end

end Verif
