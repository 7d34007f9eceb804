/-
Specification for C99: what the words of the command line mean.
-/
import Verif.Spec.TextTable
import Verif.Model.CommandLine

namespace Verif.Spec

/-- The word is an integer. -/
def IntWord (w : List Char) (n : ℤ) : Prop :=
  ∃ s σ ds, Sign s σ ∧ ds ≠ [] ∧ Digits ds ∧ w = s ++ ds ∧ n = σ * numeral ds

/-- A word that cannot be mistaken for an option: it does not start with a minus sign, or it is a negative number without exponent,
and with a digit at its end. -/
def ValueWord (w : List Char) : Prop :=
  w.head? ≠ some '-' ∨ (∃ a, a ≠ [] ∧ Digits a ∧ w = '-' :: a) ∨
    ∃ a b, Digits a ∧ b ≠ [] ∧ Digits b ∧ w = '-' :: (a ++ '.' :: b)

/-- The kinds of options: one or several numbers. -/
inductive Kind where
  | nat | float | nats | ints | floats
  deriving DecidableEq

/-- The documented options. -/
def documentedOptions : List (String × Kind) :=
  [("--ls", .nats), ("--nBaths", .nats), ("--nValBaths", .ints), ("--n0imps", .ints), ("--dnTols", .ints), ("--dnValBaths", .ints),
   ("--dnConBaths", .ints), ("--Fdd", .floats), ("--Fpp", .floats), ("--Fpd", .floats), ("--Gpd", .floats), ("--xi_2p", .float),
   ("--xi_3d", .float), ("--chargeTransferCorrection", .float), ("--hField", .floats), ("--nPsiMax", .nat),
   ("--nPrintSlaterWeights", .nat), ("--tolPrintOccupation", .float), ("--T", .float), ("--energy_cut", .float), ("--delta", .float),
   ("--deltaRIXS", .float), ("--deltaNIXS", .float)]

/-- An option on the command line: its name, the words of its values, and whether it is written with `=`. -/
structure GivenOption where
  name : List Char
  words : List (List Char)
  eq : Bool

/-- The words on the command line. -/
def GivenOption.text (g : GivenOption) : List (List Char) :=
  if g.eq then [g.name ++ '=' :: g.words.flatten] else g.name :: g.words

/-- The values are numbers of the right kind. -/
def KindOk : Kind → List (List Char) → Prop
  | .nat, ws => ws.length = 1 ∧ ∀ w ∈ ws, ∃ n : ℕ, IntWord w n
  | .float, ws => ws.length = 1 ∧ ∀ w ∈ ws, ∃ x, Denotes w x
  | .nats, ws => ws ≠ [] ∧ ∀ w ∈ ws, ∃ n : ℕ, IntWord w n
  | .ints, ws => ws ≠ [] ∧ ∀ w ∈ ws, ∃ n, IntWord w n
  | .floats, ws => ws ≠ [] ∧ ∀ w ∈ ws, ∃ x, Denotes w x

/-- A documented option with values of its kind: with `=` one value, otherwise values that cannot be mistaken for options. -/
structure GivenOption.Ok (g : GivenOption) : Prop where
  kind : ∃ q ∈ documentedOptions, g.name = q.1.toList ∧ KindOk q.2 g.words
  form : if g.eq then g.words.length = 1 else ∀ w ∈ g.words, ValueWord w

/-- The words of the last occurrence of an option. -/
def given : List GivenOption → List Char → Option (List (List Char))
  | [], _ => none
  | g :: r, n => match given r n with
    | some ws => some ws
    | none => if g.name = n then some g.words else none

/-- The list is what the words of the option say, and missing if the option is. -/
def IsList {α : Type} (R : List Char → α → Prop) (opts : List GivenOption) (name : String) (v : Option (List α)) : Prop :=
  match given opts name.toList with
  | none => v = none
  | some ws => ∃ xs, v = some xs ∧ List.Forall₂ R ws xs

/-- The number is what the word of the option says, and missing if the option is. -/
def IsNumber {α : Type} (R : List Char → α → Prop) (opts : List GivenOption) (name : String) (v : Option α) : Prop :=
  match given opts name.toList with
  | none => v = none
  | some ws => ∃ w x, ws = [w] ∧ v = some x ∧ R w x

/-- The words of numbers that are not negative. -/
def NatWord (w : List Char) (n : ℕ) : Prop := IntWord w n

/-- Every parameter is set by its own option and by no other. -/
structure OptionsGiven (opts : List GivenOption) (o : Options) : Prop where
  ls : IsList NatWord opts "--ls" o.ls
  nBaths : IsList NatWord opts "--nBaths" o.nBaths
  nValBaths : IsList IntWord opts "--nValBaths" o.nValBaths
  n0imps : IsList IntWord opts "--n0imps" o.n0imps
  dnTols : IsList IntWord opts "--dnTols" o.dnTols
  dnValBaths : IsList IntWord opts "--dnValBaths" o.dnValBaths
  dnConBaths : IsList IntWord opts "--dnConBaths" o.dnConBaths
  Fdd : IsList Denotes opts "--Fdd" o.Fdd
  Fpp : IsList Denotes opts "--Fpp" o.Fpp
  Fpd : IsList Denotes opts "--Fpd" o.Fpd
  Gpd : IsList Denotes opts "--Gpd" o.Gpd
  xi2p : IsNumber Denotes opts "--xi_2p" o.xi2p
  xi3d : IsNumber Denotes opts "--xi_3d" o.xi3d
  chargeTransferCorrection : IsNumber Denotes opts "--chargeTransferCorrection" o.chargeTransferCorrection
  hField : IsList Denotes opts "--hField" o.hField
  nPsiMax : IsNumber NatWord opts "--nPsiMax" o.nPsiMax
  nPrintSlaterWeights : IsNumber NatWord opts "--nPrintSlaterWeights" o.nPrintSlaterWeights
  tolPrintOccupation : IsNumber Denotes opts "--tolPrintOccupation" o.tolPrintOccupation
  T : IsNumber Denotes opts "--T" o.T
  energyCut : IsNumber Denotes opts "--energy_cut" o.energyCut
  delta : IsNumber Denotes opts "--delta" o.delta
  deltaRIXS : IsNumber Denotes opts "--deltaRIXS" o.deltaRIXS
  deltaNIXS : IsNumber Denotes opts "--deltaNIXS" o.deltaNIXS

/-- A word that starts with a minus sign and is neither an option, nor short for one, nor a number without exponent. -/
structure Unknown (w : List Char) : Prop where
  minus : w.head? = some '-'
  long : 2 ≤ w.length
  noBlank : ' ' ∉ w
  noNumber : ¬ ValueWord w
  noOption : ∀ q ∈ documentedOptions, ¬ (w.takeWhile (· ≠ '=')) <+: q.1.toList

end Verif.Spec
