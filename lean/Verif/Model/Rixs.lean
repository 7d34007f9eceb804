/-
Model of getRIXSmap, impurityModel/ed/spectra.py:809-1130.
-/
import Verif.Model.Spectra

namespace Verif

open Psr Mpi Matrix

noncomputable section

/-- `scipy.sparse.linalg.bicgstab(a, y)[0]`: a parameter of the model. -/
abbrev LinSolver := (n : ℕ) → Matrix (Fin n) (Fin n) ℂ → (Fin n → ℂ) → Fin n → ℂ

/-- The argument `parallelization_mode` of `getRIXSmap`. -/
inductive RixsMode where
  | serial | hBuild | wIn | hBuildWIn | other
  deriving DecidableEq, Repr

/-- The arguments of `getRIXSmap` that its loops only pass on. -/
structure RixsArgs where
  n : ℕ
  hOp : Op ℕ ℂ
  wIns : List ℝ
  wLoss : List ℝ
  delta1 : ℝ
  delta2 : ℝ
  restrictions : Option Restrictions
  krylovSize : ℕ
  slaterWeightMin : ℝ
  cut : ℝ
  fuel : ℕ
  solve : LinSolver

/-- The array `gs`: `gs iE tIn tOut iwIn` is `gs[iE, tIn, tOut, iwIn, :]`. -/
abbrev RixsMap := ℕ → ℕ → ℕ → ℕ → List ℂ

/-- `gs[iE, tIn, :, iwIn, :] = rows` (and, one by one, `gs[iE, tIn, tOut, iwIn, :]`). -/
def RixsMap.putRows (gs : RixsMap) (iE tIn iwIn : ℕ) (rows : List (List ℂ)) : RixsMap :=
  fun a b c d => if a = iE ∧ b = tIn ∧ d = iwIn then rows.getD c (gs a b c d) else gs a b c d

/-- spectra.py:948-976 and 1060-1090: solution of `a*x = y` and `psi2`. -/
def rixsIntermediate (A : RixsArgs) (h : Mat ℂ) (index : Dict Bytes ℕ) (y : Fin index.length → ℂ) (e wIn : ℝ) :
    Py (Psi ℂ) :=
  let basisState : Dict ℕ Bytes := index.foldl (fun d p => Dict.set d p.2 p.1) []
  let a : Matrix (Fin index.length) (Fin index.length) ℂ :=
    ((wIn : ℂ) + Complex.I * (A.delta1 : ℂ) + (e : ℂ)) • (1 : Matrix _ _ ℂ) - h.toMatrix index.length
  let x := A.solve index.length a y
  (List.finRange index.length).foldlM (fun (psi2 : Psi ℂ) i =>
    if x i ≠ 0 then do
      let ps ← Dict.get basisState i.val
      return Dict.set psi2 ps (x i)
    else return psi2) []

/-- The call of `getGreen` in the modes of `getRIXSmap`, spectra.py:999-1011 and
1112-1124. -/
def rixsGreen (A : RixsArgs) (mode : RixsMode) (ord : SetOrders) (rank ranks : ℕ) (e : ℝ) (psi3 : Psi ℂ)
    (hGround : OpResult ℂ) : Prog (Msg ℂ) (List ℂ × OpResult ℂ) :=
  match mode with
  | .hBuild => getGreenRank A.n e psi3 A.hOp A.wLoss A.delta2 A.krylovSize A.cut A.restrictions hGround ord
      rank ranks A.fuel
  | _ => Prog.lift (getGreen A.n e psi3 A.hOp A.wLoss A.delta2 A.krylovSize A.cut A.restrictions hGround A.fuel)

/-- The variables of the loop over out-going operators: the rows that are done, the
memory of the dicts in `tOut_big`, and `h_dict_ground`. -/
structure RixsOutState where
  rows : List (List ℂ)
  heap : List (OpResult ℂ)
  hGround : OpResult ℂ

/-- spectra.py:979-1011 and 1092-1124: one out-going operator.  `tOut_big` is the list
`refs` of references into `heap`. -/
def rixsOutgoing (A : RixsArgs) (mode : RixsMode) (ord : ℕ → SetOrders) (rank ranks : ℕ) (refs : List ℕ)
    (e : ℝ) (psi2 : Psi ℂ) (st : RixsOutState) (q : Op ℕ ℂ × ℕ) : Prog (Msg ℂ) RixsOutState :=
  (Prog.lift (do
    let ref ← pyGet refs (q.2 : ℤ)
    let big ← pyGet st.heap (ref : ℤ)
    let (psi3, big') ← applyOp A.n q.1 psi2 A.slaterWeightMin A.restrictions (some big)
    let (normalization, psi3) ← normalise psi3
    return (normalization, prune A.slaterWeightMin psi3, st.heap.set ref (big'.getD [])))).bind fun x =>
  (rixsGreen A mode (ord q.2) rank ranks e x.2.1 st.hGround).bind fun gh =>
  .ret ⟨st.rows ++ [scaleSpectrum x.1 gh.1], x.2.2, gh.2⟩

/-- The variables of the outer loops. -/
structure RixsState where
  gs : RixsMap
  hExcited : OpResult ℂ
  heap : List (OpResult ℂ)
  hGround : OpResult ℂ

/-- spectra.py:919-943 and 1020-1055: the core-hole state and the Hamiltonian of the
core-hole system: `h`, `basis_index`, `y`, `tIn_big`, `h_dict_excited`.  The
cases `n = 0` (an empty core-hole state), in which scipy may reject matrices
without rows, are treated like the others. -/
def rixsExcited (A : RixsArgs) (mode : RixsMode) (ord : SetOrders) (rank ranks : ℕ) (tOpIn : Op ℕ ℂ)
    (psi : Psi ℂ) (tInBig hExcited : OpResult ℂ) :
    Prog (Msg ℂ) ((Mat ℂ × (index : Dict Bytes ℕ) × (Fin index.length → ℂ)) × OpResult ℂ × OpResult ℂ) :=
  (Prog.lift (applyOp A.n tOpIn psi A.slaterWeightMin A.restrictions (some tInBig))).bind fun p1 =>
  (match mode with
    | .hBuild | .hBuildWIn => expandBasisAndHamiltonianHBuild A.n hExcited A.hOp A.cut (Dict.keys p1.1)
        A.restrictions ord.expand ord.matrix false rank ranks A.fuel
    | _ => Prog.lift (expandBasisAndHamiltonianSerial A.n hExcited A.hOp A.cut (Dict.keys p1.1)
        A.restrictions A.fuel)).bind fun res =>
  (Prog.lift (psiVector res.2.1 p1.1)).bind fun y =>
  .ret ((res.1, ⟨res.2.1, y⟩), p1.2.getD [], res.2.2)

/-- spectra.py:951-1011, the loop over in-coming energies of modes `serial` and
`H_build`. -/
def rixsAllEnergies (A : RixsArgs) (mode : RixsMode) (tOpsOut : List (Op ℕ ℂ)) (ord : ℕ → ℕ → SetOrders)
    (rank ranks : ℕ) (refs : List ℕ) (tIn iE : ℕ) (e : ℝ)
    (sys : Mat ℂ × (index : Dict Bytes ℕ) × (Fin index.length → ℂ)) (st : RixsState) : Prog (Msg ℂ) RixsState :=
  Prog.loop (fun (st : RixsState) (p : ℝ × ℕ) =>
    (Prog.lift (rixsIntermediate A sys.1 sys.2.1 sys.2.2 e p.1)).bind fun psi2 =>
    (Prog.loop (rixsOutgoing A mode (ord p.2) rank ranks refs e psi2) tOpsOut.zipIdx
      ⟨[], st.heap, st.hGround⟩).bind fun o =>
    .ret { st with gs := st.gs.putRows iE tIn p.2 o.rows, heap := o.heap, hGround := o.hGround })
    A.wIns.zipIdx st

/-- spectra.py:1062-1124, the loop of modes `wIn` and `H_build_wIn` over this rank's
in-coming energies; the accumulator is the dict `g`, `tOut_big` and
`h_dict_ground`. -/
def rixsLocalEnergies (A : RixsArgs) (mode : RixsMode) (tOpsOut : List (Op ℕ ℂ)) (rank ranks : ℕ)
    (refs : List ℕ) (e : ℝ) (sys : Mat ℂ × (index : Dict Bytes ℕ) × (Fin index.length → ℂ)) (st : RixsState) :
    Prog (Msg ℂ) (Dict ℕ (List (List ℂ)) × List (OpResult ℂ) × OpResult ℂ) :=
  (Prog.lift (getJobTasks rank ranks (List.range A.wIns.length))).bind fun jobs =>
  Prog.loop (fun (acc : Dict ℕ (List (List ℂ)) × List (OpResult ℂ) × OpResult ℂ) (iwIn : ℕ) =>
    (Prog.lift (do
      let w ← pyGet A.wIns (iwIn : ℤ)
      rixsIntermediate A sys.1 sys.2.1 sys.2.2 e w)).bind fun psi2 =>
    (Prog.loop (rixsOutgoing A mode (fun _ => ⟨fun _ l => l, fun l => l⟩) rank ranks refs e psi2) tOpsOut.zipIdx
      ⟨[], acc.2.1, acc.2.2⟩).bind fun o =>
    .ret (Dict.set acc.1 iwIn o.rows, o.heap, o.hGround)) jobs ([], st.heap, st.hGround)

/-- spectra.py:1126-1129: the dicts of the ranks `rs` are broadcast and stored. -/
def gatherRixs (iE tIn : ℕ) (g : Dict ℕ (List (List ℂ))) : List ℕ → RixsMap → Prog (Msg ℂ) RixsMap
  | [], gs => .ret gs
  | r :: rs, gs =>
    (bcast r (.spectra g)).bind fun m => (asSpectra m).bind fun gTmp =>
      gatherRixs iE tIn g rs (gTmp.foldl (fun gs p => gs.putRows iE tIn p.1 p.2) gs)

/-- spectra.py:916-1011 and 1017-1129: the body of the loop over eigenstates; the
accumulator holds the variables of
the outer loops and `tIn_big`. -/
def rixsEigenState (A : RixsArgs) (mode : RixsMode) (tOpsOut : List (Op ℕ ℂ)) (psis : List (Psi ℂ)) (es : List ℝ)
    (ord : List ℕ → SetOrders) (rank ranks : ℕ) (refs : List ℕ) (tIn : ℕ) (tOpIn : Op ℕ ℂ)
    (acc : RixsState × OpResult ℂ) (iE : ℕ) : Prog (Msg ℂ) (RixsState × OpResult ℂ) :=
  (Prog.lift (do
    let psi ← pyGet psis (iE : ℤ)
    let e ← pyGet es (iE : ℤ)
    return (psi, e))).bind fun pe =>
  (rixsExcited A mode (ord [tIn, iE]) rank ranks tOpIn pe.1 acc.2 acc.1.hExcited).bind fun x =>
  let st := { acc.1 with hExcited := x.2.2 }
  match mode with
  | .serial | .hBuild =>
    (rixsAllEnergies A mode tOpsOut (fun iw t => ord [tIn, iE, iw, t]) rank ranks refs tIn iE pe.2 x.1 st).bind
      fun st => .ret (st, x.2.1)
  | _ =>
    (rixsLocalEnergies A mode tOpsOut rank ranks refs pe.2 x.1 st).bind fun g =>
    (gatherRixs iE tIn g.1 (List.range ranks) st.gs).bind fun gs =>
    .ret ({ st with gs := gs, heap := g.2.1, hGround := g.2.2 }, x.2.1)

/-- spectra.py:809-1130 `getRIXSmap` on rank `rank` of `ranks`.  `[{}] * len(tOpsOut)`
is a list of references to one dict.  `ord` gives the set orders of the calls of
`expand_basis_and_hamiltonian`, named by the loop indices.  An unknown mode
returns the zeros that `gs` was allocated with.  Returns `gs` and the updated
`h_dict_ground`. -/
def getRIXSmap (A : RixsArgs) (tOpsIn tOpsOut : List (Op ℕ ℂ)) (psis : List (Psi ℂ)) (es : List ℝ)
    (hGround : OpResult ℂ) (mode : RixsMode) (ord : List ℕ → SetOrders) (rank ranks : ℕ) :
    Prog (Msg ℂ) (RixsMap × OpResult ℂ) :=
  let zeros : RixsMap := fun _ _ _ _ => List.replicate A.wLoss.length 0
  let refs : List ℕ := List.replicate tOpsOut.length 0
  match mode with
  | .other => .ret (zeros, hGround)
  | _ =>
    (Prog.loop (fun (st : RixsState) (q : Op ℕ ℂ × ℕ) =>
      (Prog.loop (rixsEigenState A mode tOpsOut psis es ord rank ranks refs q.2 q.1) (List.range es.length)
        (st, [])).bind fun r => .ret r.1) tOpsIn.zipIdx ⟨zeros, [], [[]], hGround⟩).bind fun st =>
    .ret (st.gs, st.hGround)

end

end Verif
