/-
Model of the operations on multi-configurational states and operators in
impurityModel/ed/finite.py: inner, addToFirst, add, norm2, a, c, applyOp,
daggerOp, assert_hermitian, addOps.
-/
import Verif.Py.Dict
import Verif.Model.Scalar
import Verif.Model.CreateRemove

namespace Verif

open Psr

/-- The two actions of an operator.  Python uses the strings `'a'` and `'c'`;
other strings are rejected by `daggerOp` (see `daggerOpRaw`) and are left out of
the model of `applyOp` (there, Python would reuse a stale variable `sign`). -/
inductive Action where
  | a | c
  deriving DecidableEq, Repr

/-- A process: a tuple of (spin-orbital, action). -/
abbrev Process (ι : Type*) := List (ι × Action)

/-- An operator: dict process -> strength. -/
abbrev Op (ι R : Type*) := Dict (Process ι) R

/-- A multi-configurational state: dict product state (bytes) -> amplitude. -/
abbrev Psi (R : Type*) := Dict Bytes R

/-- Occupation restrictions: dict frozenset -> (lowest, highest) occupation. -/
abbrev Restrictions := List (Finset ℕ × (ℤ × ℤ))

section

variable {R F : Type} [CommRing R] [StarRing R] [CommRing F] [LinearOrder F]
  [IsStrictOrderedRing F] [Amp R F]

/-- finite.py:377-394 `inner`. -/
def inner (a b : Psi R) : R :=
  b.foldl (fun acc p =>
    match Dict.get? a p.1 with
    | some x => acc + star x * p.2
    | none => acc) 0

/-- The statement `if k in d: d[k] += x else: d[k] = x`, used all over finite.py. -/
def Dict.addAt {κ M : Type*} [DecidableEq κ] [Add M] (d : Dict κ M) (k : κ) (x : M) : Dict κ M :=
  match Dict.get? d k with
  | some v => Dict.set d k (v + x)
  | none => Dict.set d k x

/-- finite.py:397-419 `addToFirst`; returns the updated first argument. -/
def addToFirst (psi1 psi2 : Psi R) (mul : R) : Psi R :=
  psi2.foldl (fun psi p => Dict.addAt psi p.1 (p.2 * mul)) psi1

/-- finite.py:1998-2020 `add`. -/
def add (psi1 psi2 : Psi R) (mul : R) : Psi R :=
  psi2.foldl (fun psi p => Dict.addAt psi p.1 (mul * p.2)) psi1

/-- finite.py:2023-2033 `norm2`. -/
def norm2 (psi : Psi R) : F := (psi.map fun p => abs2 p.2).sum

/-- finite.py:422-446 `a`. -/
def opA (n i : ℕ) (psi : Psi R) : Py (Psi R) :=
  psi.foldlM (fun ret p => do
    let (stateNew, sign) ← Remove.ubytes n i p.1
    if sign ≠ 0 then return Dict.set ret stateNew (p.2 * (sign : R))
    else return ret) []

/-- finite.py:449-473 `c`. -/
def opC (n i : ℕ) (psi : Psi R) : Py (Psi R) :=
  psi.foldlM (fun ret p => do
    let (stateNew, sign) ← Create.ubytes n i p.1
    if sign ≠ 0 then return Dict.set ret stateNew (p.2 * (sign : R))
    else return ret) []

/-! ### applyOp -/

/-- The inner loop over the actions of a process, finite.py:1361-1368 (the same
code is at 1393-1400, 1426-1433 and 1473-1480).  `none` is the `break`, `some`
the `else` clause of the loop. -/
def runActions : List (ℕ × Action) → Bits → ℤ → Py (Option (Bits × ℤ))
  | [], stateNew, signTot => .ok (some (stateNew, signTot))
  | (i, act) :: rest, stateNew, signTot => do
    let (stateNew, sign) ← match act with
      | .a => Remove.ubitarray i stateNew
      | .c => Create.ubitarray i stateNew
    if sign = 0 then return none
    runActions rest stateNew (signTot * sign)

/-- `for i, action in process[-1::-1]` starting from `signTot = 1`. -/
def runProcess (process : Process ℕ) (bits : Bits) : Py (Option (Bits × ℤ)) :=
  runActions process.reverse bits 1

/-- The check of the occupation restrictions, finite.py:1376-1379 and
1446-1449: the loop over the restrictions runs to its end. -/
def fulfils (restrictions : Restrictions) (state : PyTuple) : Bool :=
  restrictions.all fun (restriction, occupations) =>
    let n : ℤ := ((restriction ∩ state.toFinset).card : ℤ)
    !(n < occupations.1 || occupations.2 < n)

/-- finite.py:1353-1382, mode `opResult is None and restrictions is not None`. -/
def applyOpRestricted (n : ℕ) (op : Op ℕ R) (psi : Psi R) (restrictions : Restrictions) :
    Py (Psi R) :=
  psi.foldlM (fun psiNew p => do
    let (state, amp) := p
    let bits := bytes2bitarray state n
    op.foldlM (fun psiNew q => do
      let (process, h) := q
      match ← runProcess process bits with
      | none => return psiNew
      | some (stateNew, signTot) =>
        let stateB := bitarray2bytes stateNew
        match Dict.get? psiNew stateB with
        | some v => return Dict.set psiNew stateB (v + amp * h * (signTot : R))
        | none =>
          if fulfils restrictions (bitarray2tuple stateNew) then
            return Dict.set psiNew stateB (amp * h * (signTot : R))
          else return psiNew) psiNew) []

/-- finite.py:1383-1406, mode `opResult is None and restrictions is None`. -/
def applyOpPlain (n : ℕ) (op : Op ℕ R) (psi : Psi R) : Py (Psi R) :=
  psi.foldlM (fun psiNew p => do
    let (state, amp) := p
    let bits := bytes2bitarray state n
    op.foldlM (fun psiNew q => do
      let (process, h) := q
      match ← runProcess process bits with
      | none => return psiNew
      | some (stateNew, signTot) =>
        let stateB := bitarray2bytes stateNew
        return Dict.addAt psiNew stateB (amp * h * (signTot : R))) psiNew) []

/-- `for ps, amplitude in list(d.items()): if abs(amplitude)**2 < cut: d.pop(ps)`,
finite.py:1455-1460, 1499-1504 and 1507-1510. -/
def prune (cut : F) (d : Psi R) : Psi R :=
  d.foldl (fun acc p => if abs2 p.2 < cut then Dict.pop acc p.1 else acc) d

/-- The cache argument `opResult` of `applyOp`. -/
abbrev OpResult (R : Type*) := Dict Bytes (Psi R)

instance {R : Type*} [DecidableEq R] : DecidableEq (Psi R) := inferInstance
instance {R : Type*} [DecidableEq R] : DecidableEq (OpResult R) := inferInstance

/-- finite.py:1407-1460, mode with both `opResult` and `restrictions`.
`col` is `opResult[state]`, the entry being filled. -/
def applyOpCachedRestricted (n : ℕ) (op : Op ℕ R) (psi : Psi R) (cut : F)
    (restrictions : Restrictions) (opResult : OpResult R) : Py (Psi R × OpResult R) :=
  psi.foldlM (fun (acc : Psi R × OpResult R) p => do
    let (psiNew, opResult) := acc
    let (state, amp) := p
    match Dict.get? opResult state with
    | some col => return (addToFirst psiNew col amp, opResult)
    | none =>
      let bits := bytes2bitarray state n
      let (psiNew, col) ← op.foldlM (fun (acc : Psi R × Psi R) q => do
        let (psiNew, col) := acc
        let (process, h) := q
        match ← runProcess process bits with
        | none => return (psiNew, col)
        | some (stateNew, signTot) =>
          let stateB := bitarray2bytes stateNew
          match Dict.get? psiNew stateB with
          | some v =>
            return (Dict.set psiNew stateB (v + amp * h * (signTot : R)),
              Dict.addAt col stateB (h * (signTot : R)))
          | none =>
            if fulfils restrictions (bitarray2tuple stateNew) then
              return (Dict.set psiNew stateB (amp * h * (signTot : R)),
                Dict.set col stateB (h * (signTot : R)))
            else return (psiNew, col)) (psiNew, [])
      return (psiNew, Dict.set opResult state (prune cut col))) ([], opResult)

/-- finite.py:1461-1504, mode with `opResult` and without `restrictions`. -/
def applyOpCached (n : ℕ) (op : Op ℕ R) (psi : Psi R) (cut : F) (opResult : OpResult R) :
    Py (Psi R × OpResult R) :=
  psi.foldlM (fun (acc : Psi R × OpResult R) p => do
    let (psiNew, opResult) := acc
    let (state, amp) := p
    match Dict.get? opResult state with
    | some col => return (addToFirst psiNew col amp, opResult)
    | none =>
      let bits := bytes2bitarray state n
      let (psiNew, col) ← op.foldlM (fun (acc : Psi R × Psi R) q => do
        let (psiNew, col) := acc
        let (process, h) := q
        match ← runProcess process bits with
        | none => return (psiNew, col)
        | some (stateNew, signTot) =>
          let stateB := bitarray2bytes stateNew
          return (Dict.addAt psiNew stateB (amp * h * (signTot : R)),
            Dict.addAt col stateB (h * (signTot : R)))) (psiNew, [])
      return (psiNew, Dict.set opResult state (prune cut col))) ([], opResult)

/-- finite.py:1301-1511 `applyOp`.  The in/out argument `opResult` is returned
as the second component. -/
def applyOp (n : ℕ) (op : Op ℕ R) (psi : Psi R) (slaterWeightMin : F)
    (restrictions : Option Restrictions) (opResult : Option (OpResult R)) :
    Py (Psi R × Option (OpResult R)) := do
  let (psiNew, opResult) ← (match opResult, restrictions with
    | none, some r => do
      let psiNew ← applyOpRestricted n op psi r
      return (psiNew, none)
    | none, none => do
      let psiNew ← applyOpPlain n op psi
      return (psiNew, none)
    | some o, some r => do
      let (psiNew, o) ← applyOpCachedRestricted n op psi slaterWeightMin r o
      return (psiNew, some o)
    | some o, none => do
      let (psiNew, o) ← applyOpCached n op psi slaterWeightMin o
      return (psiNew, some o) : Py (Psi R × Option (OpResult R)))
  return (prune slaterWeightMin psiNew, opResult)

end

/-! ### operators -/

/-- The action of the adjoint. -/
def Action.dagger : Action → Action
  | .a => .c
  | .c => .a

/-- finite.py:271-287 `daggerOp`. -/
def daggerOp {ι R : Type} [DecidableEq ι] [Star R] (op : Op ι R) : Op ι R :=
  op.foldl (fun opDagger q =>
    Dict.set opDagger (q.1.reverse.map fun e => (e.1, e.2.dagger)) (star q.2)) []

/-- finite.py:275-285: reading the action strings, with the exception for
unknown ones. -/
def parseAction (s : String) : Py Action :=
  if s = "a" then .ok .a else if s = "c" then .ok .c else .error .exception

/-- finite.py:271-287 `daggerOp` on operators with arbitrary action strings. -/
def daggerOpRaw {ι R : Type} [DecidableEq ι] [Star R] (op : Dict (List (ι × String)) R) :
    Py (Op ι R) :=
  op.foldlM (fun opDagger q => do
    let processNew ← q.1.reverse.mapM fun e => do
      let act ← parseAction e.2
      return (e.1, act.dagger)
    return Dict.set opDagger processNew (star q.2)) []

/-- finite.py:290-291 `assert_hermitian`: `daggerOp(op) == op` as Python dicts. -/
def isHermitianOp {ι R : Type} [DecidableEq ι] [Star R] (op : Op ι R) : Prop :=
  Dict.Eqv (daggerOp op) op

/-- finite.py:629-651 `addOps`. -/
def addOps {ι R : Type} [DecidableEq ι] [DecidableEq R] [Zero R] [Add R] (ops : List (Op ι R)) :
    Op ι R :=
  ops.foldl (fun opSum op =>
    op.foldl (fun opSum q => if q.2 ≠ 0 then Dict.addAt opSum q.1 q.2 else opSum) opSum) []

end Verif
