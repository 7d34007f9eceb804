/-
Specification for C98: text files with numbers.
-/
import Mathlib.Data.Nat.Digits.Defs
import Mathlib.Data.Real.Basic
import Mathlib.Algebra.BigOperators.Group.Finset.Basic

namespace Verif.Spec

/-- The number of which the decimal digits are `cs`. -/
def numeral (cs : List Char) : ℕ := Nat.ofDigits 10 (cs.map fun c => c.toNat - '0'.toNat).reverse

/-- An optional sign. -/
inductive Sign : List Char → ℤ → Prop
  | none : Sign [] 1
  | plus : Sign ['+'] 1
  | minus : Sign ['-'] (-1)

/-- Only digits. -/
def Digits (cs : List Char) : Prop := ∀ c ∈ cs, c.isDigit = true

/-- An optional point with the digits behind it. -/
inductive Fraction : List Char → List Char → Prop
  | none : Fraction [] []
  | point (ds : List Char) (h : Digits ds) : Fraction ('.' :: ds) ds

/-- An optional power of ten. -/
inductive Exponent : List Char → ℤ → Prop
  | none : Exponent [] 0
  | some (e : Char) (he : e = 'e' ∨ e = 'E') (s : List Char) (σ : ℤ) (hs : Sign s σ) (ds : List Char) (hne : ds ≠ [])
      (hd : Digits ds) : Exponent (e :: (s ++ ds)) (σ * numeral ds)

/-- The word is a decimal number, like `-12.5`, `.5` or `3e-2`, with the value `x`. -/
def Denotes (word : List Char) (x : ℝ) : Prop :=
  ∃ s σ whole f frac e k, Sign s σ ∧ Digits whole ∧ Fraction f frac ∧ ¬ (whole = [] ∧ frac = []) ∧ Exponent e k ∧
    word = s ++ whole ++ f ++ e ∧ x = σ * numeral (whole ++ frac) * (10 : ℝ) ^ (k - frac.length)

/-- Only white space. -/
def Blank (cs : List Char) : Prop := ∀ c ∈ cs, c.isWhitespace = true

/-- The line consists of the words `ws`, with white space between them. -/
inductive Words : List Char → List (List Char) → Prop
  | nil (b : List Char) (hb : Blank b) : Words b []
  | cons (b : List Char) (hb : Blank b) (w : List Char) (hne : w ≠ []) (hw : ∀ c ∈ w, c.isWhitespace = false)
      (rest : List Char) (hr : ∀ c, rest.head? = some c → c.isWhitespace = true) (ws : List (List Char)) (h : Words rest ws) :
      Words (b ++ w ++ rest) (w :: ws)

/-- `c` is the line without its comment. -/
def Content (line c : List Char) : Prop :=
  '#' ∉ c ∧ ∃ comment, line = c ++ comment ∧ ∀ x, comment.head? = some x → x = '#'

/-- The line has no number (`none`) or the numbers `xs`. -/
def LineHolds (line : List Char) : Option (List ℝ) → Prop
  | none => ∃ c, Content line c ∧ Words c []
  | some xs => xs ≠ [] ∧ ∃ c ws, Content line c ∧ Words c ws ∧ List.Forall₂ Denotes ws xs

/-- The text consists of the lines; the last one may lack its end of line. -/
def IsLines (text : List Char) (lines : List (List Char)) : Prop :=
  ∃ init last, lines = init ++ [last] ∧ (∀ l ∈ lines, '\n' ∉ l) ∧ text = (init.map fun l => l ++ ['\n']).flatten ++ last

/-- The text is a table with these rows of numbers; there may be empty lines and comments. -/
def TextRows (text : List Char) (rows : List (List ℝ)) : Prop :=
  ∃ lines found, IsLines text lines ∧ List.Forall₂ LineHolds lines found ∧ rows = found.filterMap id

/-- `y` is the multiple of `10⁻ᵖ` nearest to `x`, and the even multiple if there are two. -/
def Nearest (p : ℕ) (x y : ℝ) : Prop :=
  ∃ k : ℤ, y = k / 10 ^ p ∧ |y - x| ≤ 1 / 2 / 10 ^ p ∧ (|y - x| = 1 / 2 / 10 ^ p → Even k)

/-- The table `rows` shows the values `f t k` of `nOps` operators at the `n` energies `E k`, to four decimals: each row is
the energy, the sum over the operators and the values of the operators. -/
structure ShowsTable (E : ℕ → ℝ) (n nOps : ℕ) (f : ℕ → ℕ → ℝ) (rows : List (List ℝ)) : Prop where
  length : rows.length = n
  row : ∀ k, k < n → ∃ e total values, rows[k]? = some (e :: total :: values) ∧ values.length = nOps ∧
    Nearest 4 (E k) e ∧ Nearest 4 (∑ t ∈ Finset.range nOps, f t k) total ∧
    ∀ t (ht : t < values.length), Nearest 4 (f t k) values[t]

end Verif.Spec
