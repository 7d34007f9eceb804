/-
All local variables of thermal_average, impurityModel/ed/average.py:11-45.
-/
import Verif.Model.Average

namespace Verif

noncomputable section

/-- The local variables when `thermal_average` returns. -/
structure ThermalLocals (E : Type) where
  z : ℝ
  eAverage : ℝ
  oAverage : E
  weights : List ℝ

/-- average.py:35-39: the exponentials, in the order in which they are evaluated. -/
def thermalExps (kB : ℝ) (energies : List ℝ) (T : ℝ) : Py (List ℝ) := do
  let shift ← npMin energies
  if kB * T = 0 then throw .nan
  return energies.map fun e => Real.exp (-(e - shift) / (kB * T))

/-- average.py:11-45 `thermal_average`, with `weights` and `e_average`, which are computed but not
returned.  The loop over `j` is written as sums over the list of exponentials. -/
def thermalLocals {E : Type} [AddCommGroup E] [Module ℝ E] (kB : ℝ) (energies : List ℝ) (observable : List E) (T : ℝ) :
    Py (ThermalLocals E) := do
  if energies.length ≠ observable.length then throw .valueError
  let exps ← thermalExps kB energies T
  let z := exps.foldl (· + ·) 0
  let eAverage := (List.zipWith (fun w e => w * e) exps energies).foldl (· + ·) 0
  let oAverage := (List.zipWith (fun w (o : E) => w • o) exps observable).foldl (· + ·) 0
  return ⟨z, eAverage / z, z⁻¹ • oAverage, exps.map (· / z)⟩

end

end Verif
