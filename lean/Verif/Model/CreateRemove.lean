/-
Model of impurityModel/ed/create.py and impurityModel/ed/remove.py
-/
import Verif.Model.Psr
import Mathlib.Data.Nat.Bitwise

namespace Verif

open Psr

/-- `1 if k % 2 == 0 else -1`, the sign computed in every `u*` function. -/
def parityAmp (k : ℕ) : Int := if k % 2 = 0 then 1 else -1

/-- Python's `int.bit_count()` of a non-negative int. -/
def bitCount (x : ℕ) : ℕ := (Nat.bits x).count true

namespace Create

/-- create.py:17-26 `binary_search_bigger`. -/
def binarySearchBigger (a : List ℕ) (x : ℕ) : Int :=
  let i := bisectLeft a x
  if i = a.length ∨ a[i]? ≠ some x then i else -1

/-- create.py:29-55 `utuple`. -/
def utuple (i : ℕ) (state : PyTuple) : PyTuple × Int :=
  let j := binarySearchBigger state i
  if j ≠ -1 then
    let amp := if j % 2 = 0 then 1 else -1
    (pySliceTo state j ++ [i] ++ pySliceFrom state j, amp)
  else ([], 0)

/-- create.py:58-92 `uint`.  `1 << i_right` raises `ValueError` for negative
`i_right`.  The state is a natural number. -/
def uint (nSpinOrbitals : Int) (i : Int) (state : ℕ) : Py (Int × Int) :=
  let iRight := nSpinOrbitals - 1 - i
  if iRight < 0 then .error .valueError
  else
    let r := iRight.toNat
    if state &&& (1 <<< r) ≠ 0 then .ok (-1, 0)
    else
      let stateNew := state ||| (1 <<< r)
      let tmp := state >>> (r + 1)
      .ok ((stateNew : Int), parityAmp (bitCount tmp))

/-- create.py:95-121 `ustr`. -/
def ustr (i : Int) (state : PyStr) : Py (PyStr × Int) := do
  let x ← pyGet state i
  if x = '1' then return ([], 0)
  else if x = '0' then
    let stateNew := pySliceTo state i ++ ['1'] ++ pySliceFrom state (i + 1)
    let amp := parityAmp ((pySliceTo state i).count '1')
    return (stateNew, amp)
  else throw .exception

/-- create.py:124-148 `ubitarray`; the updated bitarray is returned together
with the amplitude. -/
def ubitarray (i : Int) (state : Bits) : Py (Bits × Int) := do
  let x ← pyGet state i
  if x then return (state, 0)
  else
    let state' ← pySet state i true
    return (state', parityAmp ((pySliceTo state' i).count true))

/-- create.py:151-179 `ubytes`. -/
def ubytes (nSpinOrbitals : ℕ) (i : Int) (state : Bytes) : Py (Bytes × Int) := do
  let bits := bytes2bitarray state nSpinOrbitals
  let (bits', amp) ← ubitarray i bits
  let stateNew := bitarray2bytes bits'
  return (stateNew, amp)

end Create

namespace Remove

/-- remove.py:17-25 `binary_search`. -/
def binarySearch (a : List ℕ) (x : ℕ) : Int :=
  let i := bisectLeft a x
  if i ≠ a.length ∧ a[i]? = some x then i else -1

/-- remove.py:28-54 `utuple`. -/
def utuple (i : ℕ) (state : PyTuple) : PyTuple × Int :=
  let j := binarySearch state i
  if j ≠ -1 then
    let stateNew := pySliceTo state j ++ pySliceFrom state (j + 1)
    let amp := if j % 2 = 0 then 1 else -1
    (stateNew, amp)
  else ([], 0)

/-- remove.py:57-92 `uint`; `state & ~m` on a natural number is `Nat.ldiff`. -/
def uint (nSpinOrbitals : Int) (i : Int) (state : ℕ) : Py (Int × Int) :=
  let iRight := nSpinOrbitals - 1 - i
  if iRight < 0 then .error .valueError
  else
    let r := iRight.toNat
    if state &&& (1 <<< r) ≠ 0 then
      let stateNew := Nat.ldiff state (1 <<< r)
      let tmp := state >>> (r + 1)
      .ok ((stateNew : Int), parityAmp (bitCount tmp))
    else .ok (-1, 0)

/-- remove.py:95-121 `ustr`. -/
def ustr (i : Int) (state : PyStr) : Py (PyStr × Int) := do
  let x ← pyGet state i
  if x = '0' then return ([], 0)
  else if x = '1' then
    let stateNew := pySliceTo state i ++ ['0'] ++ pySliceFrom state (i + 1)
    let amp := parityAmp ((pySliceTo state i).count '1')
    return (stateNew, amp)
  else throw .exception

/-- remove.py:124-147 `ubitarray`; the updated bitarray is returned together
with the amplitude. -/
def ubitarray (i : Int) (state : Bits) : Py (Bits × Int) := do
  let x ← pyGet state i
  if x then
    let state' ← pySet state i false
    return (state', parityAmp ((pySliceTo state' i).count true))
  else return (state, 0)

/-- remove.py:150-177 `ubytes`. -/
def ubytes (nSpinOrbitals : ℕ) (i : Int) (state : Bytes) : Py (Bytes × Int) := do
  let bits := bytes2bitarray state nSpinOrbitals
  let (bits', amp) ← ubitarray i bits
  let stateNew := bitarray2bytes bits'
  return (stateNew, amp)

end Remove

end Verif
