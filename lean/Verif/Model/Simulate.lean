/-
Model of simulate_spectra, impurityModel/ed/spectra.py:36-299.
-/
import Verif.Model.Rixs
import Verif.Model.Transitions
import Verif.Model.Average
import Verif.Model.Output
import Verif.Model.Observables

namespace Verif

open Psr Mpi

noncomputable section

/-- What rank 0 stores for one kind of spectrum. -/
structure SpectrumFiles where
  /-- data set, e.g. `PS`: eigenstate, transition operator, mesh point -/
  data : ℕ → ℕ → ℕ → ℝ
  /-- data set, e.g. `PSthermal`: transition operator, mesh point -/
  thermal : ℕ → ℕ → ℝ
  /-- the rows of, e.g., `PS.dat`; the rounding to four decimals is left out -/
  table : List (List ℝ)

/-- `-gs.imag`, spectra.py:144-146. -/
def intensity (gs : Spectra) : ℕ → ℕ → ℕ → ℝ := fun i t k => -((gs i t).getD k 0).im

/-- `gs *= -1`, spectra.py:137, 168. -/
def Spectra.negate (gs : Spectra) : Spectra := fun i t => (gs i t).map fun x => -1 * x

/-- `gsPS + gsIPS`, spectra.py:138. -/
def Spectra.add (a b : Spectra) : Spectra := fun i t => List.zipWith (· + ·) (a i t) (b i t)

/-- spectra.py:144-157 (XPS: 174-187, NIXS: 203-216, XAS: 233-246): thermal average,
sum over the `nOps` operators and table. -/
def spectrumFiles (kB : ℝ) (es : List ℝ) (T : ℝ) (w : List ℝ) (nOps : ℕ) (gs : Spectra) : Py SpectrumFiles := do
  let data := intensity gs
  let a ← thermalAverage kB es ((List.range es.length).map data) T
  let aSum : ℕ → ℝ := fun k => ((List.range nOps).map fun t => a t k).sum
  return ⟨data, a, w.zipIdx.map fun p => p.1 :: aSum p.2 :: (List.range nOps).map fun t => a t p.2⟩

/-- What rank 0 stores for RIXS. -/
structure RixsFiles where
  /-- data set `RIXS`: eigenstate, in-coming operator, out-going operator, in-coming
  energy, energy loss -/
  data : ℕ → ℕ → ℕ → ℕ → ℕ → ℝ
  /-- data set `RIXSthermal` -/
  thermal : ℕ → ℕ → ℕ → ℕ → ℝ
  /-- the values in `RIXS.bin` -/
  file : List ℝ

/-- spectra.py:278-293: thermal average, sum over both operators and file. -/
def rixsFiles (f32 : ℝ → ℝ) (kB : ℝ) (es : List ℝ) (T : ℝ) (wIn wLoss : List ℝ) (nIn nOut : ℕ) (gs : RixsMap) :
    Py RixsFiles := do
  let data : ℕ → ℕ → ℕ → ℕ → ℕ → ℝ := fun iE i o iw k => -((gs iE i o iw).getD k 0).im
  let a ← thermalAverage kB es ((List.range es.length).map data) T
  let aSum : Fin wIn.length → Fin wLoss.length → ℝ := fun iw k =>
    ((List.range nIn).map fun i => ((List.range nOut).map fun o => a i o iw k).sum).sum
  return ⟨data, a, rixsFile f32 wIn.get wLoss.get aSum⟩

/-- Everything that rank 0 stores. -/
structure Simulated where
  ps : SpectrumFiles
  xps : SpectrumFiles
  nixs : SpectrumFiles
  xas : SpectrumFiles
  rixs : RixsFiles

/-- The arguments of `simulate_spectra`, the library functions and constants it
uses, and the default arguments of the functions it calls. -/
structure SimulateArgs where
  es : List ℝ
  psis : List (Psi ℂ)
  hOp : Op ℕ ℂ
  T : ℝ
  w : List ℝ
  delta : ℝ
  epsilons : List (Vec3 ℂ)
  wLoss : List ℝ
  deltaNIXS : ℝ
  qsNIXS : List (Vec3 ℝ)
  liNIXS : ℕ
  ljNIXS : ℕ
  RiNIXS : List ℂ
  RjNIXS : List ℂ
  radialMesh : List ℝ
  wIn : List ℝ
  deltaRIXS : ℝ
  epsilonsRIXSin : List (Vec3 ℂ)
  epsilonsRIXSout : List (Vec3 ℂ)
  restrictions : Option Restrictions
  nBaths : Dict ℕ ℕ
  -- default arguments: 150, 1e-7, 1e-12, 1
  krylovSize : ℕ
  slaterWeightMin : ℝ
  cut : ℝ
  kmin : ℕ
  -- library functions and constants
  gaunt : GauntFun
  sphHarm : SphHarm
  jn : SphericalJn
  solve : LinSolver
  f32 : ℝ → ℝ
  kB : ℝ
  fuel : ℕ

/-- The arguments of the calls of `getSpectra`. -/
def SimulateArgs.spectra (S : SimulateArgs) (w : List ℝ) (delta : ℝ) : SpectraArgs where
  n := nSpinOrbitals S.nBaths
  hOp := S.hOp
  w := w
  delta := delta
  restrictions := S.restrictions
  krylovSize := S.krylovSize
  slaterWeightMin := S.slaterWeightMin
  cut := S.cut
  fuel := S.fuel

/-- The arguments of the call of `getRIXSmap`. -/
def SimulateArgs.rixs (S : SimulateArgs) : RixsArgs where
  n := nSpinOrbitals S.nBaths
  hOp := S.hOp
  wIns := S.wIn
  wLoss := S.wLoss
  delta1 := S.delta
  delta2 := S.deltaRIXS
  restrictions := S.restrictions
  krylovSize := S.krylovSize
  slaterWeightMin := S.slaterWeightMin
  cut := S.cut
  fuel := S.fuel
  solve := S.solve

/-- spectra.py:36-299 `simulate_spectra` on rank `rank` of `ranks`.  Returns what the
rank stores in the hdf5 file and in the other files: only rank 0 stores anything.
`ord c t i` are the set orders in the `c`-th call of `getSpectra`.  Printing and
timing are left out. -/
def simulateSpectra (S : SimulateArgs) (ord : ℕ → ℕ → ℕ → SetOrders) (ordRixs : List ℕ → SetOrders)
    (rank ranks : ℕ) : Prog (Msg ℂ) (Option Simulated) :=
  let nB := intKeys S.nBaths
  let negW := S.w.map fun x => -x
  -- photoemission, 128-157
  (Prog.lift (do
    let tOpsIPS ← getInversePhotoEmissionOperators nB 2
    let tOpsPS ← getPhotoEmissionOperators nB 2
    return (tOpsIPS, tOpsPS))).bind fun ops =>
  (getSpectra (S.spectra S.w S.delta) ops.1 S.psis S.es .hBuild (ord 0) rank ranks).bind fun gsIPS =>
  (getSpectra (S.spectra negW (-S.delta)) ops.2 S.psis S.es .hBuild (ord 1) rank ranks).bind fun gsPS =>
  (Prog.lift (spectrumFiles S.kB S.es S.T S.w ops.1.length (gsPS.negate.add gsIPS))).bind fun ps =>
  -- XPS, 164-187
  (Prog.lift (getPhotoEmissionOperators nB 1)).bind fun tOpsPS =>
  (getSpectra (S.spectra negW (-S.delta)) tOpsPS S.psis S.es .hBuild (ord 2) rank ranks).bind fun gs =>
  (Prog.lift (spectrumFiles S.kB S.es S.T S.w tOpsPS.length gs.negate)).bind fun xps =>
  -- NIXS, 195-216
  (Prog.lift (getNIXSOperators S.gaunt S.sphHarm S.jn nB S.qsNIXS S.liNIXS S.ljNIXS S.RiNIXS S.RjNIXS
    S.radialMesh S.kmin)).bind fun tOps =>
  (getSpectra (S.spectra S.wLoss S.deltaNIXS) tOps S.psis S.es .hBuild (ord 3) rank ranks).bind fun gs =>
  (Prog.lift (spectrumFiles S.kB S.es S.T S.wLoss tOps.length gs)).bind fun nixs =>
  -- XAS, 225-246
  (Prog.lift (getDipoleOperators S.gaunt nB S.epsilons)).bind fun tOps =>
  (getSpectra (S.spectra S.w S.delta) tOps S.psis S.es .hBuild (ord 4) rank ranks).bind fun gs =>
  (Prog.lift (spectrumFiles S.kB S.es S.T S.w tOps.length gs)).bind fun xas =>
  -- RIXS, 254-293
  (Prog.lift (do
    let tOpsIn ← getDipoleOperators S.gaunt nB S.epsilonsRIXSin
    let tOpsOut ← getDaggeredDipoleOperators S.gaunt nB S.epsilonsRIXSout
    return (tOpsIn, tOpsOut))).bind fun ops =>
  (getRIXSmap S.rixs ops.1 ops.2 S.psis S.es [] .hBuildWIn ordRixs rank ranks).bind fun gs =>
  (Prog.lift (rixsFiles S.f32 S.kB S.es S.T S.wIn S.wLoss ops.1.length ops.2.length gs.1)).bind fun rixs =>
  .ret (if rank = 0 then some ⟨ps, xps, nixs, xas, rixs⟩ else none)

end

end Verif
