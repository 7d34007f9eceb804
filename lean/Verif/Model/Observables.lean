/-
Model of the expectation values and angular momentum operators,
impurityModel/ed/finite.py:220-268 and 843-1298.
Amplitudes are complex numbers; arithmetic is exact.
-/
import Verif.Model.State
import Verif.Model.GetBasis
import Mathlib.Analysis.SpecialFunctions.Pow.Real

namespace Verif

open Psr

/-- `sum(2 * (2 * ang + 1) + nBath for ang, nBath in nBaths.items())`
(finite.py:856, 882, 953, 998, 1084, …). -/
def nSpinOrbitals (nBaths : Dict ℕ ℕ) : ℕ := (nBaths.map fun p => 2 * (2 * p.1 + 1) + p.2).sum

noncomputable section

/-- finite.py:859-864: the value of Lz of a product state. -/
def lzOfState (nBaths : Dict ℕ ℕ) (state : Bytes) : Py ℝ :=
  (bytes2tuple state (nSpinOrbitals nBaths)).foldlM (fun (tmp : ℝ) (i : ℕ) => do
    let spinOrb ← i2c (intKeys nBaths) i
    match spinOrb with
    | .imp l _ m => if l = 2 then return tmp + m else return tmp
    | .bath _ _ => return tmp) 0

/-- finite.py:843-866 `getLz3d`. -/
def getLz3d (nBaths : Dict ℕ ℕ) (psi : Psi ℂ) : Py ℝ :=
  psi.foldlM (fun Lz p => do
    let tmp ← lzOfState nBaths p.1
    return Lz + tmp * abs2 p.2) 0

/-- finite.py:885-890: the value of Sz of a product state. -/
def szOfState (nBaths : Dict ℕ ℕ) (state : Bytes) : Py ℝ :=
  (bytes2tuple state (nSpinOrbitals nBaths)).foldlM (fun (tmp : ℝ) (i : ℕ) => do
    let spinOrb ← i2c (intKeys nBaths) i
    match spinOrb with
    | .imp l s _ => if l = 2 then return tmp + (if s = 0 then -1 / 2 else 1 / 2) else return tmp
    | .bath _ _ => return tmp) 0

/-- finite.py:869-892 `getSz3d`. -/
def getSz3d (nBaths : Dict ℕ ℕ) (psi : Psi ℂ) : Py ℝ :=
  psi.foldlM (fun Sz p => do
    let tmp ← szOfState nBaths p.1
    return Sz + tmp * abs2 p.2) 0

/-- finite.py:955-962: the number of electrons of a product state in shell `l`.
`s[i]` cannot be out of range when `c2i` succeeds; otherwise it would be an
`IndexError`. -/
def countOfState (nBaths : Dict ℕ ℕ) (l : ℕ) (state : Bytes) : Py ℕ :=
  (pyRange 0 2).foldlM (fun (nState : ℕ) spin =>
    (pyRange (-l) (l + 1)).foldlM (fun (nState : ℕ) m => do
      let i ← c2i (intKeys nBaths) (.imp l spin m)
      match (bytes2str state (nSpinOrbitals nBaths))[i]? with
      | none => .error .indexError
      | some ch => if ch = '1' then return nState + 1 else return nState) nState) 0

/-- finite.py:937-964 `getTraceDensityMatrix`. -/
def getTraceDensityMatrix (nBaths : Dict ℕ ℕ) (psi : Psi ℂ) (l : ℕ) : Py ℝ :=
  psi.foldlM (fun n p => do
    let nState ← countOfState nBaths l p.1
    return n + nState * abs2 p.2) 0

/-- `c(n, i, a(n, j, psi))`, finite.py:1006-1007, 1093-1094, 1140, 1170, ….  -/
def hop (n i j : ℕ) (psi : Psi ℂ) : Py (Psi ℂ) := do
  let psiNew ← opA n j psi
  opC n i psiNew

/-- The dict returned by `getDensityMatrix`. -/
abbrev DensityMatrix := Dict (Label × Label) ℂ

/-- The body of the loops of finite.py:1004-1011. -/
def densityStep (nBaths : Dict ℕ ℕ) (psi : Psi ℂ) (l : ℕ) (si sj mi mj : ℤ) (dm : DensityMatrix) :
    Py DensityMatrix := do
  let i ← c2i (intKeys nBaths) (.imp l si mi)
  let j ← c2i (intKeys nBaths) (.imp l sj mj)
  let psiNew ← hop (nSpinOrbitals nBaths) j i psi
  let tmp := inner psi psiNew
  if tmp ≠ 0 then return Dict.set dm (.imp l si mi, .imp l sj mj) tmp
  else return dm

/-- finite.py:967-1012 `getDensityMatrix`. -/
def getDensityMatrix (nBaths : Dict ℕ ℕ) (psi : Psi ℂ) (l : ℕ) : Py DensityMatrix :=
  (pyRange 0 2).foldlM (fun dm si => (pyRange 0 2).foldlM (fun dm sj =>
    (pyRange (-l) (l + 1)).foldlM (fun dm mi => (pyRange (-l) (l + 1)).foldlM (fun dm mj =>
      densityStep nBaths psi l si sj mi mj dm) dm) dm) dm) []

/-! ### spherical and cubic harmonics -/

/-- A complex numpy matrix. -/
structure CMat where
  rows : ℕ
  cols : ℕ
  val : ℕ → ℕ → ℂ

/-- `np.zeros((rows, cols), dtype=complex)`. -/
def CMat.zeros (rows cols : ℕ) : CMat := ⟨rows, cols, fun _ _ => 0⟩

/-- A numpy index into an axis of length `n`: negative indices count from the end. -/
def npIdx (n : ℕ) (i : ℤ) : ℕ := if i < 0 then (n + i).toNat else i.toNat

/-- `u[i, j] = v`; all indices used below are in range. -/
def CMat.put (u : CMat) (i j : ℤ) (v : ℂ) : CMat :=
  { u with val := fun a b => if a = npIdx u.rows i ∧ b = npIdx u.cols j then v else u.val a b }

/-- `1 / np.sqrt(2)`. -/
def rsqrt2 : ℂ := ((1 / Real.sqrt 2 : ℝ) : ℂ)

/-- finite.py:243-249, `l == 1`. -/
def cubicP : CMat :=
  let u := CMat.zeros 3 3
  let u := u.put 0 0 (Complex.I * rsqrt2)
  let u := u.put 2 0 (Complex.I * rsqrt2)
  let u := u.put 0 1 rsqrt2
  let u := u.put 2 1 (-rsqrt2)
  let u := u.put 1 2 1
  u

/-- finite.py:250-260, `l == 2`. -/
def cubicD : CMat :=
  let u := CMat.zeros 5 5
  let u := u.put 2 0 1
  let u := (u.put 0 1 rsqrt2).put (-1) 1 rsqrt2
  let u := u.put 1 2 (-Complex.I * rsqrt2)
  let u := u.put (-2) 2 (-Complex.I * rsqrt2)
  let u := u.put 1 3 rsqrt2
  let u := u.put (-2) 3 (-rsqrt2)
  let u := u.put 0 4 (Complex.I * rsqrt2)
  let u := u.put (-1) 4 (-Complex.I * rsqrt2)
  u

/-- finite.py:261-267: `U[0:n, 0:m] = u; U[n:, m:] = u`. -/
def spinDouble (u : CMat) : CMat :=
  let U := CMat.zeros (2 * u.rows) (2 * u.cols)
  let U := { U with val := fun a b => if a < u.rows ∧ b < u.cols then u.val a b else U.val a b }
  let U := { U with val := fun a b =>
    if u.rows ≤ a ∧ u.cols ≤ b then u.val (a - u.rows) (b - u.cols) else U.val a b }
  U

/-- finite.py:243-260: another `l` leaves the variable `u` unbound, which is an
`UnboundLocalError` as soon as `u` is used. -/
def cubicBase (l : ℕ) : Py CMat :=
  if l = 1 then .ok cubicP else if l = 2 then .ok cubicD else .error .unboundLocalError

/-- finite.py:220-268 `get_spherical_2_cubic_matrix`. -/
def getSpherical2CubicMatrix (spinpol : Bool) (l : ℕ) : Py CMat := do
  let u ← cubicBase l
  if spinpol then return spinDouble u else return u

/-- The dict returned by `getDensityMatrixCubic`; keys `((si, i), (sj, j))`. -/
abbrev CubicDensity := Dict ((ℤ × ℤ) × (ℤ × ℤ)) ℂ

/-- The innermost body, finite.py:1051-1059. -/
def cubicStep (nSph : DensityMatrix) (u : CMat) (i j si sj mk mm : ℤ) (k m : ℕ) (nCub : CubicDensity) :
    CubicDensity :=
  match Dict.get? nSph (.imp 2 si mm, .imp 2 sj mk) with
  | some x =>
    let tmp := star (u.val m i.toNat) * x * u.val k j.toNat
    if tmp ≠ 0 then Dict.addAt nCub ((si, i), (sj, j)) tmp else nCub
  | none => nCub

/-- finite.py:1015-1060 `getDensityMatrixCubic`. -/
def getDensityMatrixCubic (nBaths : Dict ℕ ℕ) (psi : Psi ℂ) : Py CubicDensity := do
  let nSph ← getDensityMatrix nBaths psi 2
  let u ← getSpherical2CubicMatrix false 2
  return (pyRange 0 5).foldl (fun nCub i => (pyRange 0 5).foldl (fun nCub j =>
    (pyRange 0 2).foldl (fun nCub si => (pyRange 0 2).foldl (fun nCub sj =>
      (pyRange (-2) 3).zipIdx.foldl (fun nCub k => (pyRange (-2) 3).zipIdx.foldl (fun nCub m =>
        cubicStep nSph u i j si sj k.1 m.1 k.2 m.2 nCub) nCub) nCub) nCub) nCub) nCub) []

/-- The four occupation numbers. -/
structure Occs where
  egDn : ℂ
  egUp : ℂ
  t2gDn : ℂ
  t2gUp : ℂ

/-- The innermost body, finite.py:1091-1105. -/
def occStep (nBaths : Dict ℕ ℕ) (psi : Psi ℂ) (u : CMat) (i : ℕ) (j k : ℕ) (mj mk s : ℤ) (o : Occs) :
    Py Occs := do
  let jj ← c2i (intKeys nBaths) (.imp 2 s mj)
  let kk ← c2i (intKeys nBaths) (.imp 2 s mk)
  let psiNew ← hop (nSpinOrbitals nBaths) jj kk psi
  let v := u.val j i * star (u.val k i) * inner psi psiNew
  if i < 2 then
    if s = 0 then return { o with egDn := o.egDn + v } else return { o with egUp := o.egUp + v }
  else
    if s = 0 then return { o with t2gDn := o.t2gDn + v } else return { o with t2gUp := o.t2gUp + v }

/-- finite.py:1106-1111: `abs(occ.imag) < 1e-12` makes it real; otherwise the
complex number is kept (and a warning printed). -/
def realIfClose (z : ℂ) : ℂ := if |z.im| < 1 / 10 ^ 12 then (z.re : ℂ) else z

/-- finite.py:1063-1112 `getEgT2gOccupation`. -/
def getEgT2gOccupation (nBaths : Dict ℕ ℕ) (psi : Psi ℂ) : Py (List ℂ) := do
  let u ← getSpherical2CubicMatrix false 2
  let o ← (List.range 5).foldlM (fun o i =>
    (pyRange (-2) 3).zipIdx.foldlM (fun o j => (pyRange (-2) 3).zipIdx.foldlM (fun o k =>
      (pyRange 0 2).foldlM (fun o s =>
        occStep nBaths psi u i j.2 k.2 j.1 k.1 s o) o) o) o) (⟨0, 0, 0, 0⟩ : Occs)
  return [o.egDn, o.egUp, o.t2gDn, o.t2gUp].map realIfClose

/-! ### angular momentum operators -/

/-- The body `i = c2i(…); j = c2i(…); addToFirst(psiNew, c(n, i, a(n, j, psi)), x)`. -/
def hopStep (nBaths : Dict ℕ ℕ) (psi : Psi ℂ) (li lj : Label) (x : ℂ) (psiNew : Psi ℂ) : Py (Psi ℂ) := do
  let i ← c2i (intKeys nBaths) li
  let j ← c2i (intKeys nBaths) lj
  let psiP ← hop (nSpinOrbitals nBaths) i j psi
  return addToFirst psiNew psiP x

/-- finite.py:1115-1142 `applySz3d` (there `c2i` is called once, for `i`). -/
def applySz3d (nBaths : Dict ℕ ℕ) (psi : Psi ℂ) : Py (Psi ℂ) :=
  (pyRange 0 2).foldlM (fun psiNew s => (pyRange (-2) 3).foldlM (fun psiNew m =>
    hopStep nBaths psi (.imp 2 s m) (.imp 2 s m) (if s = 1 then 1 / 2 else -1 / 2) psiNew) psiNew) []

/-- finite.py:1145-1172 `applyLz3d`. -/
def applyLz3d (nBaths : Dict ℕ ℕ) (psi : Psi ℂ) : Py (Psi ℂ) :=
  (pyRange 0 2).foldlM (fun psiNew s => (pyRange (-2) 3).foldlM (fun psiNew m =>
    hopStep nBaths psi (.imp 2 s m) (.imp 2 s m) (m : ℂ) psiNew) psiNew) []

/-- finite.py:1175-1204 `applySplus3d`. -/
def applySplus3d (nBaths : Dict ℕ ℕ) (psi : Psi ℂ) : Py (Psi ℂ) :=
  (pyRange (-2) 3).foldlM (fun psiNew m =>
    hopStep nBaths psi (.imp 2 1 m) (.imp 2 0 m) 1 psiNew) []

/-- finite.py:1207-1235 `applyLplus3d`. -/
def applyLplus3d (nBaths : Dict ℕ ℕ) (psi : Psi ℂ) : Py (Psi ℂ) :=
  (pyRange 0 2).foldlM (fun psiNew s => (pyRange (-2) 2).foldlM (fun psiNew m =>
    hopStep nBaths psi (.imp 2 s (m + 1)) (.imp 2 s m)
      ((Real.sqrt ((2 - m) * (2 + m + 1)) : ℝ) : ℂ) psiNew) psiNew) []

/-- finite.py:1238-1267 `applySminus3d`. -/
def applySminus3d (nBaths : Dict ℕ ℕ) (psi : Psi ℂ) : Py (Psi ℂ) :=
  (pyRange (-2) 3).foldlM (fun psiNew m =>
    hopStep nBaths psi (.imp 2 0 m) (.imp 2 1 m) 1 psiNew) []

/-- finite.py:1270-1298 `applyLminus3d`. -/
def applyLminus3d (nBaths : Dict ℕ ℕ) (psi : Psi ℂ) : Py (Psi ℂ) :=
  (pyRange 0 2).foldlM (fun psiNew s => (pyRange (-2 + 1) 3).foldlM (fun psiNew m =>
    hopStep nBaths psi (.imp 2 s (m - 1)) (.imp 2 s m)
      ((Real.sqrt ((2 + m) * (2 - m + 1)) : ℝ) : ℂ) psiNew) psiNew) []

/-- finite.py:895-913 `getSsqr3d`.  `norm2` is real, so the warning is never
printed and `.real` changes nothing. -/
def getSsqr3d (nBaths : Dict ℕ ℕ) (psi : Psi ℂ) : Py ℝ := do
  let psi1 ← applySz3d nBaths psi
  let psi2 ← applySplus3d nBaths psi
  let psi3 ← applySminus3d nBaths psi
  return norm2 psi1 + 1 / 2 * (norm2 psi2 + norm2 psi3)

/-- finite.py:916-934 `getLsqr3d`. -/
def getLsqr3d (nBaths : Dict ℕ ℕ) (psi : Psi ℂ) : Py ℝ := do
  let psi1 ← applyLz3d nBaths psi
  let psi2 ← applyLplus3d nBaths psi
  let psi3 ← applyLminus3d nBaths psi
  return norm2 psi1 + 1 / 2 * (norm2 psi2 + norm2 psi3)

end

end Verif
