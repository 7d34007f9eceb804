/-
Model of getGreen, impurityModel/ed/spectra.py:551-681, with `mode="dict"`: the Krylov
vectors are dictionaries.  Floats are real numbers, arithmetic is exact.
-/
import Verif.Model.Green

namespace Verif

open Psr

noncomputable section

/-- The variables of the Krylov loop: the arrays `alpha` and `beta`, the entries `v[j-1]` and
`w[j-1]` of the lists `v` and `w`, and `h_dict`.  No other entries of the lists are
read. -/
structure DictKrylov where
  alpha : List ℝ
  beta : List ℝ
  v : Psi ℂ
  w : Psi ℂ
  hDict : OpResult ℂ

/-- `applyOp(n_spin_orbitals, hOp, v, slaterWeightMin, restrictions, h_dict)`, together with the updated `h_dict`. -/
def applyWithDict (n : ℕ) (hOp : Op ℕ ℂ) (v : Psi ℂ) (slaterWeightMin : ℝ) (restrictions : Option Restrictions)
    (hDict : OpResult ℂ) : Py (Psi ℂ × OpResult ℂ) := do
  let (wp, o) ← applyOp n hOp v slaterWeightMin restrictions (some hDict)
  return (wp, o.getD hDict)

/-- spectra.py:632-647: the loop over `j`; `m` passes are left.  If `beta[j-1] == 0`, `v[j]` remains
the number 0.0, and `applyOp` raises because a number has no `items`. -/
def dictKrylovLoop (n : ℕ) (hOp : Op ℕ ℂ) (slaterWeightMin : ℝ) (restrictions : Option Restrictions) :
    ℕ → ℕ → DictKrylov → Py DictKrylov
  | 0, _, s => .ok s
  | m + 1, j, s => do
    let b := Real.sqrt (norm2 s.w)
    let v ← if b ≠ 0 then .ok (s.w.map fun p => (p.1, 1 / (b : ℂ) * p.2)) else .error .attributeError
    let (wp, hDict) ← applyWithDict n hOp v slaterWeightMin restrictions s.hDict
    let a := (inner wp v).re
    let w := add (add wp v (-(a : ℂ))) s.v (-(b : ℂ))
    dictKrylovLoop n hOp slaterWeightMin restrictions m (j + 1)
      ⟨s.alpha.set j a, s.beta.set (j - 1) b, v, w, hDict⟩

/-- spectra.py:551-681 `getGreen` with `mode="dict"`; `serial` tells whether `parallelization_mode` is
"serial".  With `krylovSize = 0` the assignment `v[0] = psi` raises. -/
def getGreenDict (n : ℕ) (e : ℝ) (psi : Psi ℂ) (hOp : Op ℕ ℂ) (omega : List ℝ) (delta : ℝ) (krylovSize : ℕ)
    (slaterWeightMin : ℝ) (restrictions : Option Restrictions) (hDict : OpResult ℂ) (serial : Bool) :
    Py (List ℂ × OpResult ℂ) :=
  if psi.length = 0 then .ok (List.replicate omega.length 0, hDict)
  else if !serial then .error .assertionError
  else if krylovSize = 0 then .error .indexError
  else do
    let (wp, hDict) ← applyWithDict n hOp psi slaterWeightMin restrictions hDict
    let a := (inner wp psi).re
    let s : DictKrylov := ⟨(List.replicate krylovSize 0).set 0 a, List.replicate (krylovSize - 1) 0, psi,
      add wp psi (-(a : ℂ)), hDict⟩
    let s ← dictKrylovLoop n hOp slaterWeightMin restrictions (krylovSize - 1) 1 s
    let g ← greenOnMesh s.alpha s.beta krylovSize omega delta e
    return (g, s.hDict)

end

end Verif
