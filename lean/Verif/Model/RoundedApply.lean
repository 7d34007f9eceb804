/-
applyOp and the Hamiltonian matrix in rounded arithmetic.  Overflow and underflow are left out.
-/
import Verif.Model.RoundedStates
import Verif.Model.Hamiltonian

namespace Verif

open Psr

noncomputable section

variable (fl : FloatOps) (absC : ℂ → ℝ)

/-- `amp * h * signTot`, finite.py:1376-1411: the sign is 1 or -1, so only the first product rounds. -/
def roundedTerm (amp h : ℂ) (signTot : ℤ) : ℂ := fl.cmul amp h * (signTot : ℂ)

/-- finite.py:1355-1388, mode `opResult is None and restrictions is not None`. -/
def roundedApplyRestricted (n : ℕ) (op : Op ℕ ℂ) (psi : Psi ℂ) (restrictions : Restrictions) : Py (Psi ℂ) :=
  psi.foldlM (fun psiNew p => do
    let (state, amp) := p
    let bits := bytes2bitarray state n
    op.foldlM (fun psiNew q => do
      let (process, h) := q
      match ← runProcess process bits with
      | none => return psiNew
      | some (stateNew, signTot) =>
        let stateB := bitarray2bytes stateNew
        match Dict.get? psiNew stateB with
        | some v => return Dict.set psiNew stateB (fl.cadd v (roundedTerm fl amp h signTot))
        | none =>
          if fulfils restrictions (bitarray2tuple stateNew) then
            return Dict.set psiNew stateB (roundedTerm fl amp h signTot)
          else return psiNew) psiNew) []

/-- finite.py:1389-1411, mode `opResult is None and restrictions is None`. -/
def roundedApplyPlain (n : ℕ) (op : Op ℕ ℂ) (psi : Psi ℂ) : Py (Psi ℂ) :=
  psi.foldlM (fun psiNew p => do
    let (state, amp) := p
    let bits := bytes2bitarray state n
    op.foldlM (fun psiNew q => do
      let (process, h) := q
      match ← runProcess process bits with
      | none => return psiNew
      | some (stateNew, signTot) =>
        let stateB := bitarray2bytes stateNew
        match Dict.get? psiNew stateB with
        | some v => return Dict.set psiNew stateB (fl.cadd v (roundedTerm fl amp h signTot))
        | none => return Dict.set psiNew stateB (roundedTerm fl amp h signTot)) psiNew) []

open Classical in
/-- finite.py:1507-1510: amplitudes with a small computed square are removed. -/
def roundedPrune (cut : ℝ) (d : Psi ℂ) : Psi ℂ :=
  d.foldl (fun acc p => if roundedAbs2 fl absC p.2 < cut then Dict.pop acc p.1 else acc) d

/-- finite.py:1301-1511 `applyOp` without the cache `opResult`. -/
def roundedApplyOp (n : ℕ) (op : Op ℕ ℂ) (psi : Psi ℂ) (slaterWeightMin : ℝ) (restrictions : Option Restrictions) :
    Py (Psi ℂ) := do
  let psiNew ← (match restrictions with
    | some r => roundedApplyRestricted fl n op psi r
    | none => roundedApplyPlain fl n op psi : Py (Psi ℂ))
  return roundedPrune fl absC slaterWeightMin psiNew

/-- `applyOp(n_spin_orbitals, hOp, {basis[j]: 1})`; `cut` is the default cutoff `1e-12` of `applyOp`. -/
def roundedColumnOf (n : ℕ) (hOp : Op ℕ ℂ) (cut : ℝ) (basis : List Bytes) (j : ℕ) : Py (Psi ℂ) := do
  let b ← pyGet basis (j : ℤ)
  roundedApplyOp fl absC n hOp [(b, 1)] cut none

/-- finite.py:1541-1550, mode `dense_serial`: the amplitudes are stored as they are. -/
def roundedDenseSerial (n : ℕ) (hOp : Op ℕ ℂ) (cut : ℝ) (basis : List Bytes) : Py (Mat ℂ) :=
  (List.range basis.length).foldlM (fun (h : Mat ℂ) (j : ℕ) => do
    let res ← roundedColumnOf fl absC n hOp cut basis j
    return res.foldl (fun h p =>
      match Dict.get? (basisIndex basis) p.1 with
      | some i => h.put i j p.2
      | none => h) h) (fun _ _ => 0)

end

end Verif
