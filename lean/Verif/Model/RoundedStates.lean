/-
Norms, overlaps, occupations, density matrices and angular momenta in rounded arithmetic.
Overflow and underflow are left out.
-/
import Verif.Model.Rounded
import Verif.Model.Observables

namespace Verif

open Psr

noncomputable section

variable (fl : FloatOps) (absC : ℂ → ℝ)

/-- `abs(a) ** 2` of finite.py:865, 891, 962 and 2033: numpy's absolute value of a complex number (a parameter,
`absC`), squared. -/
def roundedAbs2 (a : ℂ) : ℝ := fl.mul (absC a) (absC a)

/-- finite.py:2023-2033 `norm2`: the terms are added one after the other. -/
def roundedNorm2 (psi : Psi ℂ) : ℝ := psi.foldl (fun s p => fl.add s (roundedAbs2 fl absC p.2)) 0

/-- The body of the loop of finite.py:390-393. -/
def roundedInnerStep (a : Psi ℂ) (acc : ℂ) (p : Bytes × ℂ) : ℂ :=
  match Dict.get? a p.1 with
  | some x => fl.cadd acc (fl.cmul (star x) p.2)
  | none => acc

/-- finite.py:377-394 `inner`. -/
def roundedInner (a b : Psi ℂ) : ℂ := b.foldl (roundedInnerStep fl a) 0

/-- finite.py:843-866 `getLz3d`.  The value of a product state is a small integer, so `tmp` is exact. -/
def roundedLz3d (nBaths : Dict ℕ ℕ) (psi : Psi ℂ) : Py ℝ :=
  psi.foldlM (fun Lz p => do
    let tmp ← lzOfState nBaths p.1
    return fl.add Lz (fl.mul tmp (roundedAbs2 fl absC p.2))) 0

/-- finite.py:869-892 `getSz3d`.  The value of a product state is a small multiple of 1/2, so `tmp` is exact. -/
def roundedSz3d (nBaths : Dict ℕ ℕ) (psi : Psi ℂ) : Py ℝ :=
  psi.foldlM (fun Sz p => do
    let tmp ← szOfState nBaths p.1
    return fl.add Sz (fl.mul tmp (roundedAbs2 fl absC p.2))) 0

/-- finite.py:937-964 `getTraceDensityMatrix`.  The number of electrons of a product state is exact. -/
def roundedTrace (nBaths : Dict ℕ ℕ) (psi : Psi ℂ) (l : ℕ) : Py ℝ :=
  psi.foldlM (fun n p => do
    let nState ← countOfState nBaths l p.1
    return fl.add n (fl.mul nState (roundedAbs2 fl absC p.2))) 0

/-- The body of the loops of finite.py:1004-1011.  `a` and `c` multiply amplitudes by 1 or -1, which is exact. -/
def roundedDensityStep (nBaths : Dict ℕ ℕ) (psi : Psi ℂ) (l : ℕ) (si sj mi mj : ℤ) (dm : DensityMatrix) :
    Py DensityMatrix := do
  let i ← c2i (intKeys nBaths) (.imp l si mi)
  let j ← c2i (intKeys nBaths) (.imp l sj mj)
  let psiNew ← hop (nSpinOrbitals nBaths) j i psi
  let tmp := roundedInner fl psi psiNew
  if tmp ≠ 0 then return Dict.set dm (.imp l si mi, .imp l sj mj) tmp
  else return dm

/-- finite.py:967-1012 `getDensityMatrix`. -/
def roundedDensityMatrix (nBaths : Dict ℕ ℕ) (psi : Psi ℂ) (l : ℕ) : Py DensityMatrix :=
  (pyRange 0 2).foldlM (fun dm si => (pyRange 0 2).foldlM (fun dm sj =>
    (pyRange (-l) (l + 1)).foldlM (fun dm mi => (pyRange (-l) (l + 1)).foldlM (fun dm mj =>
      roundedDensityStep fl nBaths psi l si sj mi mj dm) dm) dm) dm) []

end

end Verif
