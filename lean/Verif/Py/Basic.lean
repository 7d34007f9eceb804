/-
Python values used by the model: exceptions, indexing, slicing, bisect.
-/
import Mathlib.Data.Nat.Notation
import Mathlib.Data.List.Basic

namespace Verif

/-- The Python exceptions that the modelled code can raise. -/
inductive PyErr where
  | indexError
  | keyError
  | valueError
  | assertionError
  | typeError
  | unboundLocalError
  | zeroDivisionError
  | attributeError
  | exception   -- `raise Exception(...)`
  | nan   -- no Python exception: numpy divides by zero and the result is not a number
  | nonTermination   -- no Python exception: the bound on loop passes in the model was reached
  deriving DecidableEq, Repr

/-- A Python computation: a value or a raised exception. -/
abbrev Py (α : Type*) := Except PyErr α

instance {α : Type*} [DecidableEq α] : DecidableEq (Py α)
  | .ok a, .ok b => if h : a = b then isTrue (by rw [h]) else isFalse (by simpa using h)
  | .error a, .error b => if h : a = b then isTrue (by rw [h]) else isFalse (by simpa using h)
  | .ok _, .error _ => isFalse (by simp)
  | .error _, .ok _ => isFalse (by simp)

/-- Position meant by the Python index `i` in a sequence of length `len`
(negative indices count from the end), or `none` for an `IndexError`. -/
def pyIndex (len : ℕ) (i : Int) : Option ℕ :=
  if 0 ≤ i then (if i < len then some i.toNat else none)
  else if 0 ≤ i + len then some (i + len).toNat else none

/-- Clipped position meant by a Python slice bound `i`. -/
def pyBound (len : ℕ) (i : Int) : ℕ :=
  if 0 ≤ i then min i.toNat len else (i + len).toNat

/-- Python `l[i]`. -/
def pyGet {α : Type*} (l : List α) (i : Int) : Py α :=
  match pyIndex l.length i with
  | none => .error .indexError
  | some k => match l[k]? with
    | none => .error .indexError
    | some x => .ok x

/-- Python `l[:i]`. -/
def pySliceTo {α : Type*} (l : List α) (i : Int) : List α := l.take (pyBound l.length i)

/-- Python `l[i:]`. -/
def pySliceFrom {α : Type*} (l : List α) (i : Int) : List α := l.drop (pyBound l.length i)

/-- Python `l[i] = x` for a mutable sequence; returns the updated sequence. -/
def pySet {α : Type*} (l : List α) (i : Int) (x : α) : Py (List α) :=
  match pyIndex l.length i with
  | none => .error .indexError
  | some k => .ok (l.set k x)

/-- The loop of Python's `bisect.bisect_left(a, x)` (CPython `Lib/bisect.py`):
`while lo < hi: mid = (lo+hi)//2; if a[mid] < x: lo = mid+1 else: hi = mid`. -/
def bisectLeftLoop (a : List ℕ) (x lo hi : ℕ) : ℕ :=
  if lo < hi then
    let mid := (lo + hi) / 2
    if a.getD mid 0 < x then bisectLeftLoop a x (mid + 1) hi
    else bisectLeftLoop a x lo mid
  else lo
termination_by hi - lo
decreasing_by all_goals omega

/-- Python's `bisect.bisect_left(a, x)`. -/
def bisectLeft (a : List ℕ) (x : ℕ) : ℕ := bisectLeftLoop a x 0 a.length

end Verif
