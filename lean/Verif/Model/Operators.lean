/-
Model of the one- and two-particle operators of an impurity shell,
impurityModel/ed/finite.py:476-728.
Loops that only perform assignments `d[k] = v` are written as the list of these
assignments in the order in which they are performed (`Dict.update [] …`).
-/
import Verif.Model.State
import Verif.Model.Index
import Mathlib.Analysis.Real.Pi.Bounds
import Mathlib.Analysis.Complex.Basic

namespace Verif

/-- sympy's `gaunt(l1, l2, l3, m1, m2, m3)`: a parameter of the model. -/
abbrev GauntFun := ℕ → ℕ → ℕ → ℤ → ℤ → ℤ → ℝ

noncomputable section

/-- finite.py:476-482 `gauntC`.  `float(c)` and `prec` are left out: reals are exact. -/
def gauntC (gaunt : GauntFun) (k l : ℕ) (m : ℤ) (lp : ℕ) (mp : ℤ) : ℝ :=
  Real.sqrt (4 * Real.pi / (2 * k + 1)) * (-1) ^ m * gaunt l k lp (-m) (m - mp) mp

/-- finite.py:485-534 `getU`. -/
def getU (gaunt : GauntFun) (l1 : ℕ) (m1 : ℤ) (l2 : ℕ) (m2 : ℤ) (l3 : ℕ) (m3 : ℤ) (l4 : ℕ) (m4 : ℤ)
    (R : List ℝ) : ℝ :=
  if m1 + m2 = m3 + m4 then
    R.zipIdx.foldl (fun u p =>
      u + p.1 * gauntC gaunt p.2 l1 m1 l4 m4 * gauntC gaunt p.2 l3 m3 l2 m2) 0
  else 0

/-- finite.py:562-583 `getNoSpinUop`. -/
def getNoSpinUop (gaunt : GauntFun) (l1 l2 l3 l4 : ℕ) (R : List ℝ) :
    Dict ((ℕ × ℤ) × (ℕ × ℤ) × (ℕ × ℤ) × (ℕ × ℤ)) ℝ :=
  Dict.update [] <|
    (pyRange (-l1) (l1 + 1)).flatMap fun (m1 : ℤ) => (pyRange (-l2) (l2 + 1)).flatMap fun (m2 : ℤ) =>
    (pyRange (-l3) (l3 + 1)).flatMap fun (m3 : ℤ) => (pyRange (-l4) (l4 + 1)).flatMap fun (m4 : ℤ) =>
      let u := getU gaunt l1 m1 l2 m2 l3 m3 l4 m4 R
      if u ≠ 0 then [(((l1, m1), (l2, m2), (l3, m3), (l4, m4)), u / 2)] else []

/-- The process of finite.py:613-618. -/
def uProcess (l1 l2 l3 l4 : ℕ) (m1 m2 m3 m4 s sp : ℤ) : Process Label :=
  [(.imp l1 s m1, .c), (.imp l2 sp m2, .c), (.imp l3 sp m3, .a), (.imp l4 s m4, .a)]

/-- finite.py:586-626 `getUop`. -/
def getUop (gaunt : GauntFun) (l1 l2 l3 l4 : ℕ) (R : List ℝ) : Op Label ℂ :=
  Dict.update [] <|
    (pyRange (-l1) (l1 + 1)).flatMap fun (m1 : ℤ) => (pyRange (-l2) (l2 + 1)).flatMap fun (m2 : ℤ) =>
    (pyRange (-l3) (l3 + 1)).flatMap fun (m3 : ℤ) => (pyRange (-l4) (l4 + 1)).flatMap fun (m4 : ℤ) =>
      let u := getU gaunt l1 m1 l2 m2 l3 m3 l4 m4 R
      if u ≠ 0 then
        (pyRange 0 2).flatMap fun (s : ℤ) => (pyRange 0 2).flatMap fun (sp : ℤ) =>
          if ¬ (s = sp ∧ ((l1, m1) = (l2, m2) ∨ (l3, m3) = (l4, m4))) then
            [(uProcess l1 l2 l3 l4 m1 m2 m3 m4 s sp, ((u / 2 : ℝ) : ℂ))]
          else []
      else []

/-- finite.py:654-681 `get2p3dSlaterCondonUop`. -/
def get2p3dSlaterCondonUop (gaunt : GauntFun) (Fdd Fpp Fpd Gpd : List ℝ) : Op Label ℂ :=
  let FddOp := getUop gaunt 2 2 2 2 Fdd
  let FppOp := getUop gaunt 1 1 1 1 Fpp
  let FpdOp1 := getUop gaunt 1 2 2 1 Fpd
  let FpdOp2 := getUop gaunt 2 1 1 2 Fpd
  let FpdOp := addOps [FpdOp1, FpdOp2]
  let GpdOp1 := getUop gaunt 1 2 1 2 Gpd
  let GpdOp2 := getUop gaunt 2 1 2 1 Gpd
  let GpdOp := addOps [GpdOp1, GpdOp2]
  addOps [FddOp, FppOp, FpdOp, GpdOp]

/-- A one-particle process. -/
def oneProcess (x y : Label) : Process Label := [(x, .c), (y, .a)]

/-- finite.py:684-705 `getSOCop`. -/
def getSOCop (xi : ℝ) (l : ℕ) : Op Label ℂ :=
  let opDict := Dict.update [] <|
    (pyRange (-l) (l + 1)).flatMap fun (m : ℤ) => (pyRange 0 2).map fun (s : ℤ) =>
      (oneProcess (.imp l s m) (.imp l s m),
        ((xi * m * (if s = 1 then 1 / 2 else -1 / 2) : ℝ) : ℂ))
  Dict.update opDict <|
    (pyRange (-l) l).flatMap fun (m : ℤ) =>
      let value : ℂ := ((xi / 2 * Real.sqrt ((l - m) * (l + m + 1)) : ℝ) : ℂ)
      [(oneProcess (.imp l 1 m) (.imp l 0 (m + 1)), value),
       (oneProcess (.imp l 0 (m + 1)) (.imp l 1 m), value)]

/-- One round of the loop of finite.py:720-727. -/
def hfieldStep (hx hy hz : ℝ) (l : ℕ) (op : Op Label ℂ) (m : ℤ) : Op Label ℂ :=
  let op := Dict.set op (oneProcess (.imp l 1 m) (.imp l 0 m)) ((hx / 2 : ℝ) : ℂ)
  let op := Dict.set op (oneProcess (.imp l 0 m) (.imp l 1 m)) ((hx / 2 : ℝ) : ℂ)
  let op := Dict.addAt op (oneProcess (.imp l 1 m) (.imp l 0 m)) (-hy * Complex.I / 2)
  let op := Dict.addAt op (oneProcess (.imp l 0 m) (.imp l 1 m)) (hy * Complex.I / 2)
  (pyRange 0 2).foldl (fun op s =>
    Dict.set op (oneProcess (.imp l s m) (.imp l s m))
      (if s = 1 then ((hz / 2 : ℝ) : ℂ) else ((-hz / 2 : ℝ) : ℂ))) op

/-- finite.py:708-728 `gethHfieldop`.  The `+=` statements act on keys that have
just been set, so `addAt` never meets a missing key. -/
def gethHfieldop (hx hy hz : ℝ) (l : ℕ) : Op Label ℂ :=
  (pyRange (-l) (l + 1)).foldl (hfieldStep hx hy hz l) []

end

end Verif
