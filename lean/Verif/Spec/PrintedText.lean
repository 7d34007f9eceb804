/-
Specification for C100: the printed tables.
-/
import Verif.Spec.TextTable
import Verif.Spec.Printed

namespace Verif.Spec

open Finset

noncomputable section

/-- The word is a decimal number that shows `x` to `p` decimals. -/
def Shows (p : ℕ) (x : ℝ) (w : List Char) : Prop := ∃ y, Denotes w y ∧ Nearest p x y

/-- The titles of the columns. -/
def columnTitles : List String :=
  ["i", "E-E0", "N(3d)", "N(egDn)", "N(egUp)", "N(t2gDn)", "N(t2gUp)", "Lz(3d)", "Sz(3d)", "L^2(3d)", "S^2(3d)"]

/-- The columns behind the first, for the state `v` at the energy `e` above the lowest: the number of decimals and the value. -/
def columns (n : ℕ) (f : Label → ℕ) (v : Vec ℂ) (e : ℝ) : List (ℕ × ℝ) :=
  [(3, e),
   (2, (expect n (shellNumber f 2) v).re),
   (3, realOccupation n f v 0 0 + realOccupation n f v 0 1),
   (3, realOccupation n f v 1 0 + realOccupation n f v 1 1),
   (3, realOccupation n f v 0 2 + realOccupation n f v 0 3 + realOccupation n f v 0 4),
   (3, realOccupation n f v 1 2 + realOccupation n f v 1 3 + realOccupation n f v 1 4),
   (2, (expect n (oneBody f 2 (orbOp lZ)) v).re),
   (2, (expect n (oneBody f 2 (spinOp sZ)) v).re),
   (2, (expect n (squareOf (oneBody f 2 (orbOp lZ)) (oneBody f 2 (orbOp (lPlus 2))) (oneBody f 2 (orbOp (lMinus 2)))) v).re),
   (2, (expect n (squareOf (oneBody f 2 (spinOp sZ)) (oneBody f 2 (spinOp sPlus)) (oneBody f 2 (spinOp sMinus))) v).re)]

/-- The line consists of the number `i` and words that show the values. -/
def ShowsLine (i : ℕ) (values : List (ℕ × ℝ)) (line : List Char) : Prop :=
  ∃ w ws, Words line (w :: ws) ∧ Digits w ∧ numeral w = i ∧ List.Forall₂ (fun w q => Shows q.1 q.2 w) ws values

/-- The words of the line are the numbers. -/
def ReadsAs (line : List Char) (nums : List ℝ) : Prop := ∃ ws, Words line ws ∧ List.Forall₂ Denotes ws nums

/-- The line is a name, an equals sign and a word that shows `x`. -/
def ShowsNamed (name : String) (p : ℕ) (x : ℝ) (line : List Char) : Prop :=
  ∃ w, Words line [name.toList, ['='], w] ∧ Shows p x w

/-- The printed table: the lowest energy to four decimals, the titles, and one line for each state. -/
def ShowsStates (n : ℕ) (f : Label → ℕ) (energies : List ℝ) (e0 : ℝ) (v : ℕ → Vec ℂ) (text : List Char) : Prop :=
  ∃ first titles lines, IsLines text (first :: titles :: lines ++ [[], [], []]) ∧ ShowsNamed "E0" 4 e0 first ∧
    Words titles (columnTitles.map String.toList) ∧ lines.length = energies.length ∧
    ∀ i (hi : i < lines.length), ShowsLine i (columns n f (v i) (energies.getD i 0 - e0)) lines[i]

/-- The printed averages: one line for each column, to three decimals. -/
def ShowsAverages (n : ℕ) (f : Label → ℕ) (energies : List ℝ) (e0 : ℝ) (v : ℕ → Vec ℂ) (mean : (ℕ → ℝ) → ℝ) (text : List Char) :
    Prop :=
  ∃ lines, IsLines text (lines ++ [[]]) ∧ lines.length = 10 ∧ ∀ c (hc : c < lines.length),
    ShowsNamed ("<" ++ columnTitles.getD (c + 1) "" ++ ">") 3
      (mean fun i => ((columns n f (v i) (energies.getD i 0 - e0)).getD c (0, 0)).2) lines[c]

end

end Verif.Spec
