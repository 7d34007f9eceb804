/-
Model of the transition operators, impurityModel/ed/spectra.py:302-548.
Printing and the test `rank == 0` that guards it are left out.
-/
import Verif.Model.Operators
import Mathlib.Analysis.SpecialFunctions.Trigonometric.Inverse

namespace Verif

noncomputable section

/-- spectra.py:511-528 `getInversePhotoEmissionOperators`. -/
def getInversePhotoEmissionOperators (nBaths : NBaths) (l : ℕ) : Py (List (Op ℕ ℂ)) :=
  (pyRange 0 2).foldlM (fun (tOps : List (Op ℕ ℂ)) s =>
    (pyRange (-l) (l + 1)).foldlM (fun (tOps : List (Op ℕ ℂ)) m => do
      let i ← c2i nBaths (.imp l s m)
      return tOps ++ [[([(i, Action.c)], 1)]]) tOps) []

/-- spectra.py:531-548 `getPhotoEmissionOperators`. -/
def getPhotoEmissionOperators (nBaths : NBaths) (l : ℕ) : Py (List (Op ℕ ℂ)) :=
  (pyRange 0 2).foldlM (fun (tOps : List (Op ℕ ℂ)) s =>
    (pyRange (-l) (l + 1)).foldlM (fun (tOps : List (Op ℕ ℂ)) m => do
      let i ← c2i nBaths (.imp l s m)
      return tOps ++ [[([(i, Action.a)], 1)]]) tOps) []

/-- A polarisation vector; the code indexes `n[0]`, `n[1]`, `n[2]`. -/
structure Vec3 (α : Type) where
  x : α
  y : α
  z : α

/-- spectra.py:357-361: the dict `nDict`. -/
def nDict (n : Vec3 ℂ) : Dict ℤ ℂ :=
  [(-1, (n.x + Complex.I * n.y) / (Real.sqrt 2 : ℝ)),
   (0, n.z),
   (1, (-n.x + Complex.I * n.y) / (Real.sqrt 2 : ℝ))]

/-- spectra.py:367-381: the body of the three loops. -/
def dipoleStep (gaunt : GauntFun) (nBaths : NBaths) (n : Vec3 ℂ) (l1 l2 : ℕ) (tOp : Op ℕ ℂ) (m mp s : ℤ) :
    Py (Op ℕ ℂ) :=
  if |m - mp| ≤ 1 then do
    let nq ← Dict.get (nDict n) (m - mp)
    let tij : ℂ := gauntC gaunt 1 l2 m l1 mp * nq
    if tij ≠ 0 then do
      let i ← c2i nBaths (.imp l2 s m)
      let j ← c2i nBaths (.imp l1 s mp)
      return Dict.set tOp [(i, .c), (j, .a)] tij
    else return tOp
  else return tOp

/-- spectra.py:341-382 `getDipoleOperator`.  `l1, l2 = nBaths.keys()` raises a
`ValueError` unless there are two keys; `-l2` raises a `TypeError` for a tuple
key, and so does `-l1`. -/
def getDipoleOperator (gaunt : GauntFun) (nBaths : NBaths) (n : Vec3 ℂ) : Py (Op ℕ ℂ) :=
  match Dict.keys nBaths with
  | [.int l1, .int l2] =>
    (pyRange (-l2) (l2 + 1)).foldlM (fun (tOp : Op ℕ ℂ) m =>
      (pyRange (-l1) (l1 + 1)).foldlM (fun (tOp : Op ℕ ℂ) mp =>
        (pyRange 0 2).foldlM (fun (tOp : Op ℕ ℂ) s =>
          dipoleStep gaunt nBaths n l1 l2 tOp m mp s) tOp) tOp) []
  | [_, _] => .error .typeError
  | _ => .error .valueError

/-- spectra.py:302-320 `getDipoleOperators`. -/
def getDipoleOperators (gaunt : GauntFun) (nBaths : NBaths) (ns : List (Vec3 ℂ)) : Py (List (Op ℕ ℂ)) :=
  ns.foldlM (fun (tOps : List (Op ℕ ℂ)) n => do
    let tOp ← getDipoleOperator gaunt nBaths n
    return tOps ++ [tOp]) []

/-- spectra.py:323-338 `getDaggeredDipoleOperators`. -/
def getDaggeredDipoleOperators (gaunt : GauntFun) (nBaths : NBaths) (ns : List (Vec3 ℂ)) : Py (List (Op ℕ ℂ)) :=
  ns.foldlM (fun (tOps : List (Op ℕ ℂ)) n => do
    let tOp ← getDipoleOperator gaunt nBaths n
    return tOps ++ [daggerOp tOp]) []

/-- `scipy.special.sph_harm(m, k, phi, theta)`: a parameter of the model. -/
abbrev SphHarm := ℤ → ℕ → ℝ → ℝ → ℂ

/-- `scipy.special.spherical_jn(k, x)`: a parameter of the model. -/
abbrev SphericalJn := ℕ → ℝ → ℝ

/-- `np.trapz(y, x)` for lists of equal length. -/
def trapz : List ℂ → List ℝ → ℂ
  | y0 :: y1 :: ys, x0 :: x1 :: xs => (x1 - x0 : ℝ) * (y0 + y1) / 2 + trapz (y1 :: ys) (x1 :: xs)
  | _, _ => 0

/-- spectra.py:487, the integrand: elementwise products.  All three arrays must
have the same length; numpy's broadcasting of arrays of length one is left out. -/
def nixsIntegrand (jn : SphericalJn) (Ri Rj : List ℂ) (r : List ℝ) (k : ℕ) (qNorm : ℝ) : List ℂ :=
  ((Ri.zip Rj).zip r).map fun p => star p.1.1 * (jn k (qNorm * p.2) : ℝ) * p.1.2 * ((p.2 ^ 2 : ℝ) : ℂ)

/-- spectra.py:490-507: the body of the loops over `mi` and `mj`. -/
def nixsStep (gaunt : GauntFun) (sphHarm : SphHarm) (nBaths : NBaths) (Rintegral : ℂ) (theta phi : ℝ)
    (li lj k : ℕ) (tOp : Op ℕ ℂ) (mi mj : ℤ) : Py (Op ℕ ℂ) :=
  let m := mi - mj
  if |m| ≤ k then
    let tij : ℂ := Rintegral * (Complex.I ^ k * (Real.sqrt (2 * k + 1) : ℝ)) * star (sphHarm m k phi theta)
      * (gauntC gaunt k li mi lj mj : ℝ)
    if tij ≠ 0 then
      (pyRange 0 2).foldlM (fun (tOp : Op ℕ ℂ) s => do
        let i ← c2i nBaths (.imp li s mi)
        let j ← c2i nBaths (.imp lj s mj)
        return Dict.addAt tOp [(i, .c), (j, .a)] tij) tOp
    else return tOp
  else return tOp

/-- spectra.py:437-508 `getNIXSOperator`.  A division by zero gives `nan`, which
spreads to the amplitudes of the operator.  `kmin` is a natural number. -/
def getNIXSOperator (gaunt : GauntFun) (sphHarm : SphHarm) (jn : SphericalJn) (nBaths : NBaths) (q : Vec3 ℝ)
    (li lj : ℕ) (Ri Rj : List ℂ) (r : List ℝ) (kmin : ℕ) : Py (Op ℕ ℂ) :=
  let qNorm := Real.sqrt (q.x ^ 2 + q.y ^ 2 + q.z ^ 2)
  if qNorm = 0 then .error .nan
  else
    let theta := Real.arccos (q.z / qNorm)
    if qNorm * Real.sin theta = 0 then .error .nan
    else
      let phi := Real.arccos (q.x / (qNorm * Real.sin theta))
      (pyRange kmin (|(li + lj : ℤ)| + 1)).foldlM (fun (tOp : Op ℕ ℂ) (k : ℤ) =>
        if (li + lj + k) % 2 = 0 then
          if Ri.length = r.length ∧ Rj.length = r.length then
            let Rintegral := trapz (nixsIntegrand jn Ri Rj r k.toNat qNorm) r
            (pyRange (-li) (li + 1)).foldlM (fun (tOp : Op ℕ ℂ) mi =>
              (pyRange (-lj) (lj + 1)).foldlM (fun (tOp : Op ℕ ℂ) mj =>
                nixsStep gaunt sphHarm nBaths Rintegral theta phi li lj k.toNat tOp mi mj) tOp) tOp
          else .error .valueError
        else return tOp) []

/-- spectra.py:385-434 `getNIXSOperators`. -/
def getNIXSOperators (gaunt : GauntFun) (sphHarm : SphHarm) (jn : SphericalJn) (nBaths : NBaths)
    (qs : List (Vec3 ℝ)) (li lj : ℕ) (Ri Rj : List ℂ) (r : List ℝ) (kmin : ℕ) : Py (List (Op ℕ ℂ)) :=
  qs.foldlM (fun (tOps : List (Op ℕ ℂ)) q => do
    let tOp ← getNIXSOperator gaunt sphHarm jn nBaths q li lj Ri Rj r kmin
    return tOps ++ [tOp]) []

end

end Verif
