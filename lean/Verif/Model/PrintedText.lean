/-
Model of the text that is printed: the table of printExpValues (impurityModel/ed/finite.py:121-148), the lines of
printThermalExpValues (finite.py:151-174) and the table of printGaunt (finite.py:537-559).  The values are those of
`Model/Main.lean` and `Model/Operators.lean`.
-/
import Verif.Model.Main
import Verif.Model.TextTable
import Verif.Model.Operators

namespace Verif

noncomputable section

/-- Python `"{:w.pf}".format(x)` for `0 < p`. -/
def formatF (w p : ℕ) (x : ℝ) : List Char := padLeft w (fixedPoint p x)

/-- Python `"{:wd}".format(n)` for a number that is not negative. -/
def formatD (w n : ℕ) : List Char := padLeft w (wholeDigits n)

/-- Python `"{:w.pf}".format(z)` for an occupation.  `getEgT2gOccupation` returns a real number unless the imaginary part is
too large; then both parts are printed. -/
def formatC (w p : ℕ) (z : ℂ) : List Char :=
  if z.im = 0 then formatF w p z.re
  else padLeft w (fixedPoint p z.re ++ (if z.im < 0 then [] else ['+']) ++ fixedPoint p z.im ++ ['j'])

/-- finite.py:133-147: the line for eigenstate `i`. -/
def expRowText (i : ℕ) (r : ExpRow) : List Char :=
  (List.intersperse [' '] [formatD 3 i, formatF 6 3 r.energy, formatF 5 2 r.n3d, formatC 6 3 (r.occ.getD 0 0),
    formatC 7 3 (r.occ.getD 1 0), formatC 8 3 (r.occ.getD 2 0), formatC 7 3 (r.occ.getD 3 0), formatF 7 2 r.lz, formatF 6 2 r.sz,
    formatF 7 2 r.lsqr, formatF 7 2 r.ssqr]).flatten

/-- finite.py:129: the titles of the columns. -/
def expHeader : List Char := "  i  E-E0  N(3d) N(egDn) N(egUp) N(t2gDn) N(t2gUp) Lz(3d) Sz(3d) L^2(3d) S^2(3d)".toList

/-- finite.py:127-148: what `printExpValues` prints. -/
def expValuesText (v : ℝ × List ExpRow) : List Char :=
  "E0 = ".toList ++ formatF 7 4 v.1 ++ '\n' :: (expHeader ++ '\n' ::
    ((v.2.zipIdx.map fun q => expRowText q.2 q.1 ++ ['\n']).flatten ++ ['\n', '\n']))

/-- finite.py:164-174: what `printThermalExpValues` prints. -/
def thermalText (t : ThermalValues) : List Char :=
  ([("<E-E0> = ", formatF 4 3 t.energy),
    ("<N(3d)> = ", formatF 4 3 t.n3d),
    ("<N(egDn)> = ", formatC 4 3 (t.occ 0)),
    ("<N(egUp)> = ", formatC 4 3 (t.occ 1)),
    ("<N(t2gDn)> = ", formatC 4 3 (t.occ 2)),
    ("<N(t2gUp)> = ", formatC 4 3 (t.occ 3)),
    ("<Lz(3d)> = ", formatF 4 3 t.lz),
    ("<Sz(3d)> = ", formatF 4 3 t.sz),
    ("<L^2(3d)> = ", formatF 4 3 t.lsqr),
    ("<S^2(3d)> = ", formatF 4 3 t.ssqr)].map fun q => q.1.toList ++ q.2 ++ ['\n']).flatten

/-- finite.py:553-557: one line of the table of Gaunt coefficients. -/
def gauntLine (gaunt : GauntFun) (k l : ℕ) (m : ℤ) (lp : ℕ) : List Char :=
  ((List.range (2 * lp + 1)).map fun j : ℕ => ' ' :: formatF 3 2 (gauntC gaunt k l m lp ((j : ℤ) - lp))).flatten

/-- finite.py:537-559 `printGaunt`: what rank 0 prints. -/
def gauntText (gaunt : GauntFun) (l lp : ℕ) : List Char :=
  ((List.range (l + lp + 1)).map fun k => "k=".toList ++ formatD 0 k ++ '\n' ::
    (((List.range (2 * l + 1)).map fun j : ℕ => gauntLine gaunt k l ((j : ℤ) - l) lp ++ ['\n']).flatten ++ ['\n'])).flatten

end

end Verif
