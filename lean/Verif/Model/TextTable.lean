/-
Model of the text files: the tables that `simulate_spectra` writes with `np.savetxt`
(impurityModel/ed/spectra.py:148-157, 178-187, 207-216, 237-246) and the file of the radial part of
the orbitals that `main` reads with `np.loadtxt` (impurityModel/ed/get_spectra.py:172).
-/
import Mathlib.Data.Nat.Digits.Defs
import Mathlib.Data.Real.Archimedean
import Verif.Py.Basic
import Verif.Model.Simulate

namespace Verif

noncomputable section

/-- The integer that `%.pf` prints without the point: nearest to `y`, ties to the even one.  Python
rounds the exact value of the floating point number in this way.  `0 ≤ y`. -/
def roundHalfEven (y : ℝ) : ℕ :=
  let f := ⌊y⌋₊
  if y - f < 1 / 2 then f
  else if 1 / 2 < y - f then f + 1
  else if f % 2 = 0 then f else f + 1

/-- The digits of a whole number, `0` for zero. -/
def wholeDigits (n : ℕ) : List Char :=
  if n = 0 then ['0'] else (Nat.digits 10 n).reverse.map Nat.digitChar

/-- The last `p` digits, with leading zeros. -/
def lastDigits (p n : ℕ) : List Char :=
  (List.range p).reverse.map fun i => Nat.digitChar (n / 10 ^ i % 10)

/-- Python `"%.pf" % x` for `0 < p`.  A negative number that rounds to zero keeps its sign. -/
def fixedPoint (p : ℕ) (x : ℝ) : List Char :=
  let n := roundHalfEven (|x| * 10 ^ p)
  (if x < 0 then ['-'] else []) ++ wholeDigits (n / 10 ^ p) ++ '.' :: lastDigits p n

/-- Padding with blanks on the left to width `k`. -/
def padLeft (k : ℕ) (cs : List Char) : List Char := List.replicate (k - cs.length) ' ' ++ cs

/-- Python `"%8.4f" % x`. -/
def format84 (x : ℝ) : List Char := padLeft 8 (fixedPoint 4 x)

/-- One row as `np.savetxt(..., fmt="%8.4f")` writes it: the numbers with a blank between them, and
the end of line. -/
def savetxtRow (row : List ℝ) : List Char := (List.intersperse [' '] (row.map format84)).flatten ++ ['\n']

/-- `np.savetxt(file, rows, fmt="%8.4f", header=header)`: the content of the file.  The header has
no end of line. -/
def savetxt (header : List Char) (rows : List (List ℝ)) : List Char :=
  '#' :: ' ' :: header ++ '\n' :: (rows.map savetxtRow).flatten

/-- spectra.py:157, 187, 216, 246: the content of `PS.dat`, `XPS.dat`, `NIXS.dat`, `XAS.dat`. -/
def SpectrumFiles.text (f : SpectrumFiles) : List Char :=
  savetxt "E  sum  T1  T2  T3 ...".toList f.table

/-- The lines of a text; `cur` is the part of the current line that has been read, reversed. -/
def linesFrom (cur : List Char) : List Char → List (List Char)
  | [] => if cur = [] then [] else [cur.reverse]
  | c :: r => if c = '\n' then cur.reverse :: linesFrom [] r else linesFrom (c :: cur) r

/-- The words of a line; `cur` is the part of the current word that has been read, reversed. -/
def wordsFrom (cur : List Char) : List Char → List (List Char)
  | [] => if cur = [] then [] else [cur.reverse]
  | c :: r =>
    if c.isWhitespace then (if cur = [] then wordsFrom [] r else cur.reverse :: wordsFrom [] r)
    else wordsFrom (c :: cur) r

/-- The value of a string of digits. -/
def digitsValue (cs : List Char) : ℕ := cs.foldl (fun a c => 10 * a + (c.toNat - 48)) 0

/-- An optional sign. -/
def splitSign : List Char → ℤ × List Char
  | '-' :: r => (-1, r)
  | '+' :: r => (1, r)
  | r => (1, r)

/-- An optional exponent, up to the end of the word. -/
def parseExponent : List Char → Py ℤ
  | [] => .ok 0
  | c :: r =>
    if c = 'e' ∨ c = 'E' then
      let s := splitSign r
      if s.2 ≠ [] ∧ s.2.all Char.isDigit then .ok (s.1 * digitsValue s.2) else .error .valueError
    else .error .valueError

/-- An optional point: the digits behind it and the rest. -/
def splitFraction : List Char → List Char × List Char
  | '.' :: r => (r.takeWhile Char.isDigit, r.dropWhile Char.isDigit)
  | r => ([], r)

/-- Python `float(word)` for decimal numbers; the words `nan`, `inf` and the like are left out: here
they are a ValueError.  The result is the exact value; the rounding to a floating point number is left out. -/
def parseFloat (word : List Char) : Py ℝ := do
  let s := splitSign word
  let whole := s.2.takeWhile Char.isDigit
  let f := splitFraction (s.2.dropWhile Char.isDigit)
  if whole = [] ∧ f.1 = [] then throw .valueError
  let e ← parseExponent f.2
  return (s.1 : ℝ) * digitsValue (whole ++ f.1) * (10 : ℝ) ^ (e - f.1.length)

/-- `np.loadtxt(file)`: the rows of numbers.  What follows a `#` is a comment, lines without a word
are skipped, all rows must have the same number of words.  `np.loadtxt` returns a vector if there is only one row or
one column; here the result is always the list of rows. -/
def loadtxt (text : List Char) : Py (List (List ℝ)) := do
  let rows := ((linesFrom [] text).map fun l => wordsFrom [] (l.takeWhile (· ≠ '#'))).filter (· ≠ [])
  let numbers ← rows.mapM fun r => r.mapM parseFloat
  if numbers.all fun r => r.length = (numbers.headD []).length then return numbers
  throw .valueError

/-- get_spectra.py:172: the two numbers of a row; `.T` must have two rows. -/
def radialPair : List ℝ → Py (ℝ × ℝ)
  | [r, f] => .ok (r, f)
  | _ => .error .valueError

/-- get_spectra.py:172: `radialMesh, RiNIXS = np.loadtxt(radial_filename).T`, the pairs of both
lists.  Files with a single row or a single column, of which numpy makes a vector, are left out: here they are a ValueError. -/
def readRadial (text : List Char) : Py (List (ℝ × ℝ)) := do
  let rows ← loadtxt text
  if rows.length < 2 then throw .valueError
  rows.mapM radialPair

end

end Verif
