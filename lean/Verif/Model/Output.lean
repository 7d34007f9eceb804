/-
Model of the file RIXS.bin: written by simulate_spectra
(impurityModel/ed/spectra.py:286-293), read by
impurityModel/plotScripts/plotRIXS.py:25-30.

Numbers are real; `f32` is the conversion to `np.float32`, any function here.
The file is the list of its `float32` values: `tofile` and `fromfile` write and
read the raw values in row-major order.
-/
import Verif.Model.Average

namespace Verif

noncomputable section

/-- spectra.py:288-292: the array `tmp`.  `nIn`, `nLoss` are the numbers of
energies; the five assignments are in the order of the code, the last one wins.
`aSum` has shape `(nIn, nLoss)`. -/
def rixsTable (f32 : ℝ → ℝ) {nIn nLoss : ℕ} (wIn : Fin nIn → ℝ) (wLoss : Fin nLoss → ℝ)
    (aSum : Fin nIn → Fin nLoss → ℝ) : Fin (nLoss + 1) → Fin (nIn + 1) → ℝ :=
  let t0 : Fin (nLoss + 1) → Fin (nIn + 1) → ℝ := fun _ _ => 0
  let t1 : Fin (nLoss + 1) → Fin (nIn + 1) → ℝ := fun i j => if i = 0 ∧ j = 0 then f32 nIn else t0 i j
  let t2 : Fin (nLoss + 1) → Fin (nIn + 1) → ℝ := fun i j =>
    if i = 0 then Fin.cases (t1 i 0) (fun j' => f32 (wIn j')) j else t1 i j
  let t3 : Fin (nLoss + 1) → Fin (nIn + 1) → ℝ := fun i j =>
    if j = 0 then Fin.cases (t2 0 j) (fun i' => f32 (wLoss i')) i else t2 i j
  -- `aSum.T` has rows `wLoss` and columns `wIn`
  let aSumT : Fin nLoss → Fin nIn → ℝ := fun i j => aSum j i
  fun i j => Fin.cases (t3 0 j) (fun i' => Fin.cases (t3 i 0) (fun j' => f32 (aSumT i' j')) j) i

/-- spectra.py:293 `tmp.tofile`: the rows one after the other. -/
def rixsFile (f32 : ℝ → ℝ) {nIn nLoss : ℕ} (wIn : Fin nIn → ℝ) (wLoss : Fin nLoss → ℝ)
    (aSum : Fin nIn → Fin nLoss → ℝ) : List ℝ :=
  (List.ofFn fun i => List.ofFn (rixsTable f32 wIn wLoss aSum i)).flatten

/-- numpy's `x.reshape((rows, cols))` of a one-dimensional array; for sizes that do
not fit a `ValueError`. -/
def npReshape (x : List ℝ) (rows cols : ℕ) : Py (List (List ℝ)) :=
  if x.length = rows * cols then .ok ((List.range rows).map fun i => (x.drop (i * cols)).take cols)
  else .error .valueError

/-- plotRIXS.py:25-30: `wLoss`, `wIn` and `rixs` from the content of the file.  The
float division `len(x) / (ncols + 1)` with `int` is the integer division (file
lengths are below `2^53`); a negative first value, which makes `ncols` negative,
is answered with `ValueError` (numpy: too many or negative dimensions) or
`ZeroDivisionError`. -/
def readRIXS (x : List ℝ) : Py (List ℝ × List ℝ × List (List ℝ)) := do
  let x0 ← pyGet x 0
  let ncols := pyInt x0
  if ncols = -1 then throw .zeroDivisionError
  if ncols < 0 then throw .valueError
  let cols := ncols.toNat + 1
  let y ← npReshape x (x.length / cols) cols
  let row0 ← pyGet y 0
  let rest := pySliceFrom y 1
  let wLoss ← rest.mapM fun r => pyGet r 0
  return (wLoss, pySliceFrom row0 1, rest.map fun r => pySliceFrom r 1)

end

end Verif
