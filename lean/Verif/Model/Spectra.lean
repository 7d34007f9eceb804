/-
Model of getSpectra, impurityModel/ed/spectra.py:684-806.
-/
import Verif.Model.Green

namespace Verif

open Psr Mpi

/-- A `for` loop of a rank's program. -/
def Prog.loop {M α β : Type} (f : β → α → Prog M β) : List α → β → Prog M β
  | [], b => .ret b
  | a :: l, b => (f b a).bind (Prog.loop f l)

noncomputable section

/-- Python's division of a complex by a real number. -/
def pyDiv (x : ℂ) (y : ℝ) : Py ℂ := if y = 0 then .error .zeroDivisionError else .ok (x / y)

/-- spectra.py:757-759, 788-790 (and 991-993, 1104-1106): `normalization` and the
normalised state. -/
def normalise (psi : Psi ℂ) : Py (ℝ × Psi ℂ) := do
  let normalization := Real.sqrt (norm2 psi)
  let psi ← psi.mapM fun p => do
    let a ← pyDiv p.2 normalization
    return (p.1, a)
  return (normalization, psi)

/-- `normalization**2 * g`. -/
def scaleSpectrum (normalization : ℝ) (g : List ℂ) : List ℂ := g.map fun x => ((normalization ^ 2 : ℝ) : ℂ) * x

/-- The array `gs` of `getSpectra`: `gs i t` is `gs[i, t, :]`.  Indices outside the
shape are not used. -/
abbrev Spectra := ℕ → ℕ → List ℂ

/-- `gs[i, t, :] = g`. -/
def Spectra.put (gs : Spectra) (i t : ℕ) (g : List ℂ) : Spectra :=
  fun a b => if a = i ∧ b = t then g else gs a b

/-- `gs[i, :, :] = g` with the rows of `g` in a list. -/
def Spectra.putRows (gs : Spectra) (i : ℕ) (g : List (List ℂ)) : Spectra :=
  fun a b => if a = i then g.getD b (gs a b) else gs a b

/-- The arguments of `getSpectra` that its loops only pass on. -/
structure SpectraArgs where
  n : ℕ
  hOp : Op ℕ ℂ
  w : List ℝ
  delta : ℝ
  restrictions : Option Restrictions
  krylovSize : ℕ
  /-- `slaterWeightMin` -/
  slaterWeightMin : ℝ
  /-- the default cutoff `1e-12` of `applyOp` -/
  cut : ℝ
  /-- bound on the passes of the loop in `expand_basis` -/
  fuel : ℕ

/-- spectra.py:755-772, the loop over transition operators for eigenstate `i`; the
accumulator holds the rows of `g[i]` that are done and the dict `h`. -/
def eigenStateRow (A : SpectraArgs) (psi : Psi ℂ) (e : ℝ) (acc : List (List ℂ) × OpResult ℂ) (tOp : Op ℕ ℂ) :
    Py (List (List ℂ) × OpResult ℂ) := do
  let (psiR, _) ← applyOp A.n tOp psi A.slaterWeightMin A.restrictions none
  let (normalization, psiR) ← normalise psiR
  let (g, h) ← getGreen A.n e psiR A.hOp A.w A.delta A.krylovSize A.cut A.restrictions acc.2 A.fuel
  return (acc.1 ++ [scaleSpectrum normalization g], h)

/-- spectra.py:747-772: the dict `g` of one rank. -/
def eigenStatesLocal (A : SpectraArgs) (tOps : List (Op ℕ ℂ)) (psis : List (Psi ℂ)) (es : List ℝ)
    (rank ranks : ℕ) : Py (Dict ℕ (List (List ℂ)) × OpResult ℂ) := do
  let jobs ← getJobTasks rank ranks (List.range es.length)
  jobs.foldlM (fun (acc : Dict ℕ (List (List ℂ)) × OpResult ℂ) (i : ℕ) => do
    let psi ← pyGet psis (i : ℤ)
    let e ← pyGet es (i : ℤ)
    let (rows, h) ← tOps.foldlM (eigenStateRow A psi e) ([], acc.2)
    return (Dict.set acc.1 i rows, h)) ([], [])

/-- Use of a message as a dict of spectra. -/
def asSpectra : Msg ℂ → Prog (Msg ℂ) (Dict ℕ (List (List ℂ)))
  | .spectra d => .ret d
  | _ => .fail .typeError

/-- spectra.py:774-777: the dicts of the ranks `rs` are broadcast and stored. -/
def gatherSpectra (g : Dict ℕ (List (List ℂ))) : List ℕ → Spectra → Prog (Msg ℂ) Spectra
  | [], gs => .ret gs
  | r :: rs, gs =>
    (bcast r (.spectra g)).bind fun m => (asSpectra m).bind fun gTmp =>
      gatherSpectra g rs (gTmp.foldl (fun gs p => gs.putRows p.1 p.2) gs)

/-- spectra.py:783-803: the body of the loop over eigenstates; the accumulator is
`gs`, `h`, `t_big`. -/
def hBuildBody (A : SpectraArgs) (psis : List (Psi ℂ)) (es : List ℝ) (ord : ℕ → ℕ → SetOrders)
    (rank ranks t : ℕ) (tOp : Op ℕ ℂ) (acc : Spectra × OpResult ℂ × OpResult ℂ) (i : ℕ) :
    Prog (Msg ℂ) (Spectra × OpResult ℂ × OpResult ℂ) :=
  (Prog.lift (do
    let psi ← pyGet psis (i : ℤ)
    let e ← pyGet es (i : ℤ)
    let (psiR, tBig) ← applyOp A.n tOp psi A.slaterWeightMin A.restrictions (some acc.2.2)
    let (normalization, psiR) ← normalise psiR
    return (e, psiR, normalization, tBig.getD []))).bind fun x =>
  (getGreenRank A.n x.1 x.2.1 A.hOp A.w A.delta A.krylovSize A.cut A.restrictions acc.2.1 (ord t i)
    rank ranks A.fuel).bind fun gh =>
  .ret (acc.1.put i t (scaleSpectrum x.2.2.1 gh.1), gh.2, x.2.2.2)

/-- The argument `parallelization_mode` of `getSpectra`. -/
inductive SpectraMode where
  | eigenStates | hBuild | other
  deriving DecidableEq, Repr

/-- spectra.py:684-806 `getSpectra` on rank `rank` of `ranks`.  `ord t i` are the set
orders in the call of `getGreen` for operator `t` and eigenstate `i`. -/
def getSpectra (A : SpectraArgs) (tOps : List (Op ℕ ℂ)) (psis : List (Psi ℂ)) (es : List ℝ)
    (mode : SpectraMode) (ord : ℕ → ℕ → SetOrders) (rank ranks : ℕ) : Prog (Msg ℂ) Spectra :=
  let zeros : Spectra := fun _ _ => List.replicate A.w.length 0
  match mode with
  | .eigenStates =>
    (Prog.lift (eigenStatesLocal A tOps psis es rank ranks)).bind fun g =>
      gatherSpectra g.1 (List.range ranks) zeros
  | .hBuild =>
    (Prog.loop (fun (acc : Spectra × OpResult ℂ) (q : Op ℕ ℂ × ℕ) =>
      (Prog.loop (hBuildBody A psis es ord rank ranks q.2 q.1) (List.range es.length)
        (acc.1, acc.2, [])).bind fun r => .ret (r.1, r.2.1)) tOps.zipIdx (zeros, [])).bind fun r => .ret r.1
  | .other => .fail .exception

end

end Verif
