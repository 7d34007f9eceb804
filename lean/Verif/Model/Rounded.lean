/-
The continued fraction of getGreen and the thermal average in rounded arithmetic:
every operation of numpy on real numbers is a parameter.  Overflow and underflow
are left out.  numpy's complex operations are written in terms of real ones.
-/
import Verif.Model.Green
import Verif.Model.Average

namespace Verif

noncomputable section

/-- The operations on floats: what the processor returns for them.  Squares are
products (numpy evaluates `x ** 2` as `x * x`). -/
structure FloatOps where
  add : ℝ → ℝ → ℝ
  sub : ℝ → ℝ → ℝ
  mul : ℝ → ℝ → ℝ
  div : ℝ → ℝ → ℝ
  exp : ℝ → ℝ

/-- Exact arithmetic. -/
def exactOps : FloatOps := ⟨(· + ·), (· - ·), (· * ·), (· / ·), Real.exp⟩

namespace FloatOps

variable (fl : FloatOps)

/-- numpy's addition of complex numbers. -/
def cadd (x y : ℂ) : ℂ := ⟨fl.add x.re y.re, fl.add x.im y.im⟩

/-- numpy's subtraction of complex numbers. -/
def csub (x y : ℂ) : ℂ := ⟨fl.sub x.re y.re, fl.sub x.im y.im⟩

/-- numpy's multiplication of complex numbers. -/
def cmul (x y : ℂ) : ℂ :=
  ⟨fl.sub (fl.mul x.re y.re) (fl.mul x.im y.im), fl.add (fl.mul x.re y.im) (fl.mul x.im y.re)⟩

/-- numpy's division of complex numbers (Smith's algorithm); not a number for a zero divisor. -/
def cdiv (x y : ℂ) : Py ℂ :=
  if y = 0 then .error .nan
  else if |y.im| ≤ |y.re| then
    let rat := fl.div y.im y.re
    let scl := fl.div 1 (fl.add y.re (fl.mul y.im rat))
    .ok ⟨fl.mul (fl.add x.re (fl.mul x.im rat)) scl, fl.mul (fl.sub x.im (fl.mul x.re rat)) scl⟩
  else
    let rat := fl.div y.re y.im
    let scl := fl.div 1 (fl.add y.im (fl.mul y.re rat))
    .ok ⟨fl.mul (fl.add (fl.mul x.re rat) x.im) scl, fl.mul (fl.sub (fl.mul x.im rat) x.re) scl⟩

end FloatOps

/-- The body of the loop of spectra.py:679-680, for one energy, in rounded arithmetic. -/
def roundedFractionBody (fl : FloatOps) (alpha beta : List ℝ) (k : ℕ) (z : ℂ) (g : ℂ) (i : ℕ) : Py ℂ := do
  let a ← pyGet alpha i
  if i = k - 1 then fl.cdiv 1 (fl.csub z a)
  else do
    let b ← pyGet beta i
    fl.cdiv 1 (fl.csub (fl.csub z a) (fl.cmul (fl.mul b b : ℝ) g))

/-- spectra.py:678-681 in rounded arithmetic, for one `z` of `omegaP`. -/
def roundedFraction (fl : FloatOps) (alpha beta : List ℝ) (k : ℕ) (z : ℂ) : Py ℂ :=
  (List.range k).reverse.foldlM (roundedFractionBody fl alpha beta k z) 0

/-- spectra.py:677-681 in rounded arithmetic, on the whole mesh. -/
def roundedGreenOnMesh (fl : FloatOps) (alpha beta : List ℝ) (k : ℕ) (omega : List ℝ) (delta e : ℝ) : Py (List ℂ) :=
  omega.mapM fun (w : ℝ) => roundedFraction fl alpha beta k (fl.cadd (fl.cadd (w : ℂ) ⟨0, delta⟩) (e : ℂ))

/-- average.py:11-45 `thermal_average` in rounded arithmetic, for one number per
state; for arrays numpy does the same with each element. -/
def roundedThermalAverage (fl : FloatOps) (kB : ℝ) (energies : List ℝ) (observable : List ℝ) (T : ℝ) : Py ℝ := do
  if energies.length ≠ observable.length then throw .valueError
  let shift ← npMin energies
  if fl.mul kB T = 0 then throw .nan
  let r := (energies.zip observable).foldl (fun (acc : ℝ × ℝ) (p : ℝ × ℝ) =>
    let weight := fl.exp (fl.div (-(fl.sub p.1 shift)) (fl.mul kB T))
    (fl.add acc.1 weight, fl.add acc.2 (fl.mul weight p.2))) (0, 0)
  return fl.div r.2 r.1

end

end Verif
