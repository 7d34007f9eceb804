/-
What a run of main leaves on disk.
-/
import Verif.Model.Files

namespace Verif.Spec

open Verif

noncomputable section

/-- `data.npz` holds the parameters of the run. -/
structure InputsStored (L : MainLib) (A : MainArgs) (s : Setup) (d : NpzData) : Prop where
  shells : d.ls = A.ls ∧ d.nBaths = zipDict A.ls A.nBaths ∧ d.nValBaths = zipDict A.ls A.nValBaths
  occupation : d.n0imps = zipDict A.ls A.n0imps ∧ d.dnTols = zipDict A.ls A.dnTols ∧
    d.dnValBaths = zipDict A.ls A.dnValBaths ∧ d.dnConBaths = zipDict A.ls A.dnConBaths
  coulomb : d.Fdd = A.Fdd ∧ d.Fpp = A.Fpp ∧ d.Fpd = A.Fpd ∧ d.Gpd = A.Gpd
  oneBody : d.xi2p = A.xi2p ∧ d.xi3d = A.xi3d ∧ d.chargeTransferCorrection = A.chargeTransferCorrection ∧
    d.hField = A.hField
  thermal : d.nPsiMax = A.nPsiMax ∧ d.T = A.T
  /-- in eV, not in units of `k_B T` -/
  cut : d.energyCut = A.energyCut * (L.kB * A.T)
  widths : d.delta = A.delta ∧ d.deltaRIXS = A.deltaRIXS ∧ d.deltaNIXS = A.deltaNIXS
  polarisations : d.epsilons = mainEpsilons ∧ d.epsilonsRIXSin = mainEpsilons ∧ d.epsilonsRIXSout = mainEpsilons
  /-- the restrictions, the Hamiltonian and the number of spin-orbitals with which the spectra are calculated -/
  used : d.restrictions = s.restrictions ∧ d.hOp = s.hOp ∧ d.nSpinOrbitals = nSpinOrbitals s.nBaths

/-- Everything that a run with output `o` stores, in this order. -/
def filesOfRun (d : NpzData) (radial : List (ℝ × ℝ)) (o : MainOutput) : List Stored :=
  [.npz d, .h5open,
   .array "E" o.energies,
   .array "w" (linspace (-25) 25 3000), .array "wIn" (linspace (-10) 20 50), .array "wLoss" (linspace (-2) 12 4000),
   .vectors "qsNIXS" mainQs,
   .array "r" (radial.map Prod.fst), .array "RiNIXS" (radial.map Prod.snd), .array "RjNIXS" (radial.map Prod.snd),
   .spectra "PS" o.spectra.ps.data, .average "PSthermal" o.spectra.ps.thermal, .text "PS.dat" o.spectra.ps.table,
   .spectra "XPS" o.spectra.xps.data, .average "XPSthermal" o.spectra.xps.thermal, .text "XPS.dat" o.spectra.xps.table,
   .spectra "NIXS" o.spectra.nixs.data, .average "NIXSthermal" o.spectra.nixs.thermal,
   .text "NIXS.dat" o.spectra.nixs.table,
   .spectra "XAS" o.spectra.xas.data, .average "XASthermal" o.spectra.xas.thermal, .text "XAS.dat" o.spectra.xas.table,
   .map "RIXS" o.spectra.rixs.data, .mapAverage "RIXSthermal" o.spectra.rixs.thermal,
   .binary "RIXS.bin" o.spectra.rixs.file,
   .h5close]

/-- The name of the file or data set that a call creates. -/
def storedName : Stored → Option String
  | .npz _ => some "data.npz"
  | .h5open => some "spectra.h5"
  | .array n _ | .vectors n _ | .spectra n _ | .average n _ | .map n _ | .mapAverage n _ | .text n _ | .binary n _ => some n
  | .h5close => none

end

end Verif.Spec
