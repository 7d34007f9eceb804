/-
Model of `get_basis`, impurityModel/ed/finite.py:294-374.
-/
import Verif.Model.Index
import Verif.Model.Psr
import Mathlib.Data.List.Sort
import Mathlib.Algebra.Order.Ring.Int

namespace Verif

open Psr

/-- Python's `itertools.combinations(l, r)` for `0 ≤ r`, in its order. -/
def combinations {α : Type*} : List α → ℕ → List (List α)
  | _, 0 => [[]]
  | [], _ + 1 => []
  | x :: xs, r + 1 => (combinations xs r).map (x :: ·) ++ combinations xs (r + 1)

/-- `tuple(itertools.combinations(l, r))`; a negative `r` is a `ValueError`. -/
def pyCombinations {α : Type*} (l : List α) (r : ℤ) : Py (List (List α)) :=
  if r < 0 then .error .valueError else .ok (combinations l r.toNat)

/-- Python's `itertools.product(*ls)`, in its order (last factor fastest). -/
def pyProduct {α : Type*} : List (List α) → List (List α)
  | [] => [[]]
  | l :: ls => l.flatMap fun x => (pyProduct ls).map (x :: ·)

/-- `assert b`. -/
def pyAssert (b : Prop) [Decidable b] : Py Unit := if b then .ok () else .error .assertionError

/-- `nBaths` with integer keys only.  A tuple key makes `get_basis` raise a
`TypeError` at `2 * (2 * l + 1)`; such dicts are left out. -/
def intKeys (nBaths : Dict ℕ ℕ) : NBaths := nBaths.map fun p => (LKey.int p.1, p.2)

/-- finite.py:341-348: the configurations of the valence bath; one way of having
zero electrons in zero spin-orbitals, whatever `nVal` is. -/
def getBasisVal (nBaths : Dict ℕ ℕ) (l : ℕ) (val nVal : ℤ) : Py (List (List ℕ)) :=
  if val = 0 then .ok [[]] else do
    let indices ← ((pyRange 0 val).map fun b => Label.bath (.int l) b).mapM (c2i (intKeys nBaths))
    pyCombinations indices nVal

/-- finite.py:349-357: the configurations of the conduction bath. -/
def getBasisCon (nBaths : Dict ℕ ℕ) (l nb : ℕ) (val nCon : ℤ) : Py (List (List ℕ)) :=
  if (nb : ℤ) - val = 0 then .ok [[]] else do
    let indices ← ((pyRange val nb).map fun b => Label.bath (.int l) b).mapM (c2i (intKeys nBaths))
    pyCombinations indices nCon

/-- finite.py:326-361: the configurations of one partition occupation. -/
def getBasisPartition (nBaths : Dict ℕ ℕ) (l nb : ℕ) (val n0 dnVal dnCon : ℤ) :
    Py (List (List ℕ)) := do
  let nImp := n0 + (dnVal - dnCon)
  let nVal := val - dnVal
  let nCon := dnCon
  pyAssert (nVal ≤ val)
  pyAssert (nCon ≤ nb - val)
  pyAssert (nImp ≤ 2 * (2 * l + 1))
  let indices ← ((pyRange 0 2).flatMap fun s =>
    (pyRange (-l) (l + 1)).map fun m => Label.imp l s m).mapM (c2i (intKeys nBaths))
  let basisImp ← pyCombinations indices nImp
  let basisVal ← getBasisVal nBaths l val nVal
  let basisCon ← getBasisCon nBaths l nb val nCon
  return basisImp.flatMap fun bImp => basisVal.flatMap fun bVal => basisCon.map fun bCon =>
    bImp ++ bVal ++ bCon

/-- finite.py:315-361: the configurations of angular momentum `l`. -/
def getBasisL (nBaths : Dict ℕ ℕ) (valBaths dnValBaths dnConBaths dnTol n0imp : Dict ℕ ℤ)
    (l nb : ℕ) : Py (List (List ℕ)) := do
  let dv ← Dict.get dnValBaths l
  (pyRange 0 (dv + 1)).foldlM (fun basisL dnVal => do
    let dc ← Dict.get dnConBaths l
    (pyRange 0 (dc + 1)).foldlM (fun basisL dnCon => do
      let tol ← Dict.get dnTol l
      if |dnVal - dnCon| ≤ tol then do
        let n0 ← Dict.get n0imp l
        let val ← Dict.get valBaths l
        return basisL ++ (← getBasisPartition nBaths l nb val n0 dnVal dnCon)
      else return basisL) basisL) []

/-- finite.py:294-374 `get_basis`. -/
def getBasis (nBaths : Dict ℕ ℕ) (valBaths dnValBaths dnConBaths dnTol n0imp : Dict ℕ ℤ) :
    Py (List Bytes) := do
  nBaths.forM fun p => do
    let val ← Dict.get valBaths p.1
    pyAssert (val ≤ p.2)
  let basisL ← nBaths.mapM fun p =>
    getBasisL nBaths valBaths dnValBaths dnConBaths dnTol n0imp p.1 p.2
  let n := (nBaths.map fun p => 2 * (2 * p.1 + 1) + p.2).sum
  (pyProduct basisL).mapM fun configuration =>
    tuple2bytes (configuration.flatten.insertionSort (· ≤ ·)) n

end Verif
