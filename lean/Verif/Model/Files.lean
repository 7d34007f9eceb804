/-
Model of what main and simulate_spectra write to disk, in the order in which they write it:
impurityModel/ed/get_spectra.py:251-298 and impurityModel/ed/spectra.py:145-299.

The programs of Model/Mpi.lean stop at each MPI call.  The programs here stop in addition
at each call that stores something: `np.savez_compressed`, `h5py.File`, `create_dataset`,
`np.savetxt`, `tofile` and `close`.  A state of the ranks then knows what each rank has
stored so far, so that a run that is killed at any moment can be described.
-/
import Verif.Model.Main

namespace Verif.Mpi

/-- A rank's program that stops at each MPI call, as `Prog`, and at each call that stores
something. -/
inductive FProg (M W A : Type) : Type where
  | ret (a : A)
  | fail (e : PyErr)
  | coll (c : Coll) (v : M) (k : Option M → FProg M W A)
  | send (dest tag : ℕ) (v : M) (k : FProg M W A)
  | recv (source tag : ℕ) (k : M → FProg M W A)
  /-- store `w` -/
  | store (w : W) (k : FProg M W A)

variable {M W A B : Type} {N : ℕ}

/-- A program that stores nothing, followed by one that may. -/
def FProg.after : Prog M A → (A → FProg M W B) → FProg M W B
  | .ret a, f => f a
  | .fail e, _ => .fail e
  | .coll c v k, f => .coll c v fun m => FProg.after (k m) f
  | .send d t v k, f => .send d t v (FProg.after k f)
  | .recv s t k, f => .recv s t fun m => FProg.after (k m) f

/-- `if rank == 0:` store these things in this order. -/
def FProg.stores (rank : ℕ) (ws : List W) (k : FProg M W A) : FProg M W A :=
  if rank = 0 then ws.foldr .store k else k

/-- The program without the stores. -/
def FProg.erase : FProg M W A → Prog M A
  | .ret a => .ret a
  | .fail e => .fail e
  | .coll c v k => .coll c v fun m => (k m).erase
  | .send d t v k => .send d t v k.erase
  | .recv s t k => .recv s t fun m => (k m).erase
  | .store _ k => k.erase

/-- The program up to its next store, which returns what is left to do there. -/
def FProg.next : FProg M W A → Prog M (FProg M W A)
  | .ret a => .ret (.ret a)
  | .fail e => .fail e
  | .coll c v k => .coll c v fun m => (k m).next
  | .send d t v k => .send d t v k.next
  | .recv s t k => .recv s t fun m => (k m).next
  | .store w k => .ret (.store w k)

/-- One step of the ranks in the synchronous semantics: an MPI step, or one rank stores
something.  The second component is what each rank has stored so far. -/
inductive SyncFStep (sum : List M → M) :
    (Fin N → Prog M (FProg M W A)) × (Fin N → List W) → (Fin N → Prog M (FProg M W A)) × (Fin N → List W) → Prop where
  | mpi {σ τ : Fin N → Prog M (FProg M W A)} (l : Fin N → List W) (h : SyncStep sum σ τ) : SyncFStep sum (σ, l) (τ, l)
  | store (σ : Fin N → Prog M (FProg M W A)) (l : Fin N → List W) (r : Fin N) (w : W) (k : FProg M W A)
      (h : σ r = .ret (.store w k)) :
      SyncFStep sum (σ, l) (Function.update σ r k.next, Function.update l r (l r ++ [w]))

/-- One step of the ranks in the buffered semantics. -/
inductive BufFStep (sum : List M → M) :
    BufState M (FProg M W A) N × (Fin N → List W) → BufState M (FProg M W A) N × (Fin N → List W) → Prop where
  | mpi {σ τ : BufState M (FProg M W A) N} (l : Fin N → List W) (h : BufStep sum σ τ) : BufFStep sum (σ, l) (τ, l)
  | store (σ : BufState M (FProg M W A) N) (l : Fin N → List W) (r : Fin N) (w : W) (k : FProg M W A)
      (h : σ.prog r = .ret (.store w k)) :
      BufFStep sum (σ, l) ({ σ with prog := Function.update σ.prog r k.next }, Function.update l r (l r ++ [w]))

/-- At some moment of some schedule of one of the semantics, the ranks have stored `l`. -/
def CanHaveStored (sum : List M → M) (P : Fin N → FProg M W A) (l : Fin N → List W) : Prop :=
  (∃ k σ, Steps (SyncFStep sum) k ((fun r => (P r).next), fun _ => []) (σ, l)) ∨
  (∃ k σ, Steps (BufFStep sum) k (bufInit fun r => (P r).next, fun _ => []) (σ, l))

/-- Under every schedule of both semantics all ranks finish and have stored `l` in the end. -/
structure AllStored (sum : List M → M) (P : Fin N → FProg M W A) (l : Fin N → List W) : Prop where
  sync : AlwaysReaches (SyncFStep sum) ((fun r => (P r).next), fun _ => [])
    (fun s => (∀ r, ∃ a, s.1 r = .ret (.ret a)) ∧ s.2 = l)
  buffered : AlwaysReaches (BufFStep sum) (bufInit fun r => (P r).next, fun _ => [])
    (fun s => (∀ r, ∃ a, s.1.prog r = .ret (.ret a)) ∧ s.2 = l)

end Verif.Mpi

namespace Verif

open Mpi

noncomputable section

/-- The content of `data.npz`, get_spectra.py:254-284.  Left out: `h0_filename`, as the model
has the operator instead of the name of its file. -/
structure NpzData where
  ls : List ℕ
  nBaths : Dict ℕ ℕ
  nValBaths : Dict ℕ ℤ
  n0imps : Dict ℕ ℤ
  dnTols : Dict ℕ ℤ
  dnValBaths : Dict ℕ ℤ
  dnConBaths : Dict ℕ ℤ
  Fdd : List ℝ
  Fpp : List ℝ
  Fpd : List ℝ
  Gpd : List ℝ
  xi2p : ℝ
  xi3d : ℝ
  chargeTransferCorrection : ℝ
  hField : List ℝ
  nPsiMax : ℕ
  T : ℝ
  energyCut : ℝ
  delta : ℝ
  restrictions : Restrictions
  epsilons : List (Vec3 ℂ)
  epsilonsRIXSin : List (Vec3 ℂ)
  epsilonsRIXSout : List (Vec3 ℂ)
  deltaRIXS : ℝ
  deltaNIXS : ℝ
  nSpinOrbitals : ℕ
  hOp : Op ℕ ℂ

/-- A call that stores something. -/
inductive Stored where
  /-- `np.savez_compressed("data", ...)` -/
  | npz (data : NpzData)
  /-- `h5py.File("spectra.h5", "w")` -/
  | h5open
  /-- `h5f.create_dataset(name, data=...)` for the arrays that occur -/
  | array (name : String) (data : List ℝ)
  | vectors (name : String) (data : List (Vec3 ℝ))
  | spectra (name : String) (data : ℕ → ℕ → ℕ → ℝ)
  | average (name : String) (data : ℕ → ℕ → ℝ)
  | map (name : String) (data : ℕ → ℕ → ℕ → ℕ → ℕ → ℝ)
  | mapAverage (name : String) (data : ℕ → ℕ → ℕ → ℕ → ℝ)
  /-- `np.savetxt(name, ...)` -/
  | text (name : String) (rows : List (List ℝ))
  /-- `tmp.tofile(name)` -/
  | binary (name : String) (values : List ℝ)
  /-- `h5f.close()` -/
  | h5close

/-- get_spectra.py:251-298: what main stores before it calls `simulate_spectra`.  `energy_cut`
has been multiplied by `k_B * T` (line 134). -/
def mainStored (L : MainLib) (A : MainArgs) (s : Setup) (es : List ℝ) : List Stored :=
  [.npz {
      ls := A.ls
      nBaths := s.nBaths
      nValBaths := zipDict A.ls A.nValBaths
      n0imps := zipDict A.ls A.n0imps
      dnTols := zipDict A.ls A.dnTols
      dnValBaths := zipDict A.ls A.dnValBaths
      dnConBaths := zipDict A.ls A.dnConBaths
      Fdd := A.Fdd
      Fpp := A.Fpp
      Fpd := A.Fpd
      Gpd := A.Gpd
      xi2p := A.xi2p
      xi3d := A.xi3d
      chargeTransferCorrection := A.chargeTransferCorrection
      hField := A.hField
      nPsiMax := A.nPsiMax
      T := A.T
      energyCut := A.energyCut * (L.kB * A.T)
      delta := A.delta
      restrictions := s.restrictions
      epsilons := mainEpsilons
      epsilonsRIXSin := mainEpsilons
      epsilonsRIXSout := mainEpsilons
      deltaRIXS := A.deltaRIXS
      deltaNIXS := A.deltaNIXS
      nSpinOrbitals := nSpinOrbitals s.nBaths
      hOp := s.hOp },
   .h5open,
   .array "E" es,
   .array "w" (linspace (-25) 25 3000),
   .array "wIn" (linspace (-10) 20 50),
   .array "wLoss" (linspace (-2) 12 4000),
   .vectors "qsNIXS" mainQs,
   .array "r" (A.radial.map Prod.fst),
   .array "RiNIXS" (A.radial.map Prod.snd),
   .array "RjNIXS" (A.radial.map Prod.snd)]

/-- spectra.py:145-157 (XPS: 175-187, NIXS: 204-216, XAS: 234-246): two data sets and a text file. -/
def spectrumStored (name : String) (f : SpectrumFiles) : List Stored :=
  [.spectra name f.data, .average (name ++ "thermal") f.thermal, .text (name ++ ".dat") f.table]

/-- spectra.py:279-293. -/
def rixsStored (f : RixsFiles) : List Stored :=
  [.map "RIXS" f.data, .mapAverage "RIXSthermal" f.thermal, .binary "RIXS.bin" f.file]

/-- spectra.py:36-299 `simulate_spectra` on rank `rank` of `ranks`, with what it stores; otherwise as
`simulateSpectra`. -/
def simulateSpectraFiles (S : SimulateArgs) (ord : ℕ → ℕ → ℕ → SetOrders) (ordRixs : List ℕ → SetOrders)
    (rank ranks : ℕ) : FProg (Msg ℂ) Stored Unit :=
  let nB := intKeys S.nBaths
  let negW := S.w.map fun x => -x
  -- photoemission, 128-157
  FProg.after (Prog.lift (do
    let tOpsIPS ← getInversePhotoEmissionOperators nB 2
    let tOpsPS ← getPhotoEmissionOperators nB 2
    return (tOpsIPS, tOpsPS))) fun ops =>
  FProg.after (getSpectra (S.spectra S.w S.delta) ops.1 S.psis S.es .hBuild (ord 0) rank ranks) fun gsIPS =>
  FProg.after (getSpectra (S.spectra negW (-S.delta)) ops.2 S.psis S.es .hBuild (ord 1) rank ranks) fun gsPS =>
  FProg.after (Prog.lift (spectrumFiles S.kB S.es S.T S.w ops.1.length (gsPS.negate.add gsIPS))) fun ps =>
  FProg.stores rank (spectrumStored "PS" ps) <|
  -- XPS, 164-187
  FProg.after (Prog.lift (getPhotoEmissionOperators nB 1)) fun tOpsPS =>
  FProg.after (getSpectra (S.spectra negW (-S.delta)) tOpsPS S.psis S.es .hBuild (ord 2) rank ranks) fun gs =>
  FProg.after (Prog.lift (spectrumFiles S.kB S.es S.T S.w tOpsPS.length gs.negate)) fun xps =>
  FProg.stores rank (spectrumStored "XPS" xps) <|
  -- NIXS, 195-216
  FProg.after (Prog.lift (getNIXSOperators S.gaunt S.sphHarm S.jn nB S.qsNIXS S.liNIXS S.ljNIXS S.RiNIXS S.RjNIXS
    S.radialMesh S.kmin)) fun tOps =>
  FProg.after (getSpectra (S.spectra S.wLoss S.deltaNIXS) tOps S.psis S.es .hBuild (ord 3) rank ranks) fun gs =>
  FProg.after (Prog.lift (spectrumFiles S.kB S.es S.T S.wLoss tOps.length gs)) fun nixs =>
  FProg.stores rank (spectrumStored "NIXS" nixs) <|
  -- XAS, 225-246
  FProg.after (Prog.lift (getDipoleOperators S.gaunt nB S.epsilons)) fun tOps =>
  FProg.after (getSpectra (S.spectra S.w S.delta) tOps S.psis S.es .hBuild (ord 4) rank ranks) fun gs =>
  FProg.after (Prog.lift (spectrumFiles S.kB S.es S.T S.w tOps.length gs)) fun xas =>
  FProg.stores rank (spectrumStored "XAS" xas) <|
  -- RIXS, 254-293
  FProg.after (Prog.lift (do
    let tOpsIn ← getDipoleOperators S.gaunt nB S.epsilonsRIXSin
    let tOpsOut ← getDaggeredDipoleOperators S.gaunt nB S.epsilonsRIXSout
    return (tOpsIn, tOpsOut))) fun ops =>
  FProg.after (getRIXSmap S.rixs ops.1 ops.2 S.psis S.es [] .hBuildWIn ordRixs rank ranks) fun gs =>
  FProg.after (Prog.lift (rixsFiles S.f32 S.kB S.es S.T S.wIn S.wLoss ops.1.length ops.2.length gs.1)) fun rixs =>
  FProg.stores rank (rixsStored rixs) <|
  -- 298-299
  FProg.stores rank [.h5close] <| .ret ()

/-- get_spectra.py:21-332 `main` on rank `rank` of `ranks`, with what it stores; otherwise as
`mainRank`. -/
def mainFiles (L : MainLib) (A : MainArgs) (ord : ℕ → ℕ → ℕ → SetOrders) (ordRixs : List ℕ → SetOrders)
    (rank ranks : ℕ) : FProg (Msg ℂ) Stored Unit :=
  FProg.after (Prog.lift (mainSetup L A)) fun s =>
  FProg.after (eigensystemRank L.solver (nSpinOrbitals s.nBaths) s.hOp 1e-12 s.basis A.nPsiMax 1e-7 ranks rank) fun eig =>
  FProg.after (Prog.lift (mainPrints L A s.nBaths eig.1 eig.2 rank)) fun _ =>
  FProg.stores rank (mainStored L A s eig.1) <|
  FProg.after (Prog.lift (energyCut eig.1 eig.2 (A.energyCut * (L.kB * A.T)))) fun low =>
  simulateSpectraFiles (mainSim L A s low.1 low.2) ord ordRixs rank ranks

end

end Verif
