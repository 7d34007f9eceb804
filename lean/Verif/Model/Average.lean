/-
Model of impurityModel/ed/average.py (thermal averages) and of the double
counting, impurityModel/ed/finite.py:177-217.  Floats are real numbers.
-/
import Verif.Py.Basic
import Mathlib.Analysis.SpecialFunctions.Exp

namespace Verif

noncomputable section

/-- `np.min(energies)`; `ValueError` for an empty array (average.py:35). -/
def npMin : List ℝ → Py ℝ
  | [] => .error .valueError
  | e :: es => .ok (es.foldl min e)

/-- average.py:11-45 `thermal_average`.  `E` is the type of the observable of one
state: a number or an array.  `kB` is Boltzmann's constant (average.py:8), a
parameter.  `weights` and `e_average`, which are computed but not returned
(lines 32, 34, 39, 40, 42, 44), are left out.  For `T = 0` numpy divides by zero. -/
def thermalAverage {E : Type} [AddCommGroup E] [Module ℝ E] (kB : ℝ) (energies : List ℝ)
    (observable : List E) (T : ℝ) : Py E := do
  if energies.length ≠ observable.length then throw .valueError
  let shift ← npMin energies
  if kB * T = 0 then throw .nan
  let r := (energies.zip observable).foldl (fun (acc : ℝ × E) (p : ℝ × E) =>
    let weight := Real.exp (-(p.1 - shift) / (kB * T))
    (acc.1 + weight, acc.2 + weight • p.2)) (0, 0)
  return r.1⁻¹ • r.2

/-- Python's `int(x)` of a float: truncation towards zero. -/
def pyInt (x : ℝ) : ℤ := if 0 ≤ x then ⌊x⌋ else ⌈x⌉

/-- What `dc_MLFT` returns: a number, or a list of two. -/
inductive DoubleCounting where
  | one (d : ℝ)
  | two (d p : ℝ)

/-- finite.py:177-217 `dc_MLFT`.  `none` stands for `None`. -/
def dcMLFT (n3d c : ℝ) (Fdd : List ℝ) (n2p : Option ℝ) (Fpd Gpd : Option (List ℝ)) :
    Py DoubleCounting := do
  if ((pyInt n3d : ℤ) : ℝ) ≠ n3d then throw .valueError
  match n2p with
  | some x => if ((pyInt x : ℤ) : ℝ) ≠ x then throw .valueError
  | none => pure ()
  let f0 ← pyGet Fdd 0
  let f2 ← pyGet Fdd 2
  let f4 ← pyGet Fdd 4
  let Udd := f0 - 14 / 441 * (f2 + f4)
  match n2p, Fpd, Gpd with
  | none, none, none => return .one (Udd * n3d - c)
  | some x, some F, some G =>
    if x = 6 then
      let F0 ← pyGet F 0
      let G1 ← pyGet G 1
      let G3 ← pyGet G 3
      let Upd := F0 - 1 / 15 * G1 - 3 / 70 * G3
      return .two (Udd * n3d + Upd * x - c) (Upd * (n3d + 1) - c)
    else throw .valueError
  | _, _, _ => throw .valueError

end

end Verif
