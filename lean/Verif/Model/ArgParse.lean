/-
Model of the parsing of the command line, impurityModel/ed/get_spectra.py:427-576 and
get_spectra_using_CF.py:630-779: the options that are declared with `add_argument`, and what
`parse_args` of Python's argparse (before Python 3.14) makes of the words of the command line.
-/
import Verif.Model.CommandLine
import Verif.Model.TextTable

namespace Verif

noncomputable section

/-- One `add_argument` with `type=int` or `type=float`, and with or without `nargs="+"`. -/
structure OptSpec where
  name : List Char
  isInt : Bool
  many : Bool
  deriving DecidableEq

/-- get_spectra.py:429-574 (get_spectra_using_CF.py:632-777): the options. -/
def optTable : List OptSpec := [
  ⟨"--ls".toList, true, true⟩,
  ⟨"--nBaths".toList, true, true⟩,
  ⟨"--nValBaths".toList, true, true⟩,
  ⟨"--n0imps".toList, true, true⟩,
  ⟨"--dnTols".toList, true, true⟩,
  ⟨"--dnValBaths".toList, true, true⟩,
  ⟨"--dnConBaths".toList, true, true⟩,
  ⟨"--Fdd".toList, false, true⟩,
  ⟨"--Fpp".toList, false, true⟩,
  ⟨"--Fpd".toList, false, true⟩,
  ⟨"--Gpd".toList, false, true⟩,
  ⟨"--xi_2p".toList, false, false⟩,
  ⟨"--xi_3d".toList, false, false⟩,
  ⟨"--chargeTransferCorrection".toList, false, false⟩,
  ⟨"--hField".toList, false, true⟩,
  ⟨"--nPsiMax".toList, true, false⟩,
  ⟨"--nPrintSlaterWeights".toList, true, false⟩,
  ⟨"--tolPrintOccupation".toList, false, false⟩,
  ⟨"--T".toList, false, false⟩,
  ⟨"--energy_cut".toList, false, false⟩,
  ⟨"--delta".toList, false, false⟩,
  ⟨"--deltaRIXS".toList, false, false⟩,
  ⟨"--deltaNIXS".toList, false, false⟩]

/-- What argparse takes a word for: a value, an option (with a value behind `=`), or something it does not
accept: an unknown or ambiguous option, the help option, or `--` (which is left out). -/
inductive Token where
  | value (word : List Char)
  | option (spec : OptSpec) (explicit : Option (List Char))
  | refused

/-- The regular expression `^-\d+$|^-\d*\.\d+$` of argparse. -/
def negativeNumber : List Char → Bool
  | '-' :: r =>
    match r.dropWhile Char.isDigit with
    | [] => r ≠ []
    | '.' :: f => f ≠ [] && f.all Char.isDigit
    | _ => false
  | _ => false

/-- `word.partition('=')`. -/
def partitionEq (w : List Char) : List Char × Option (List Char) :=
  match w.dropWhile (· ≠ '=') with
  | [] => (w, none)
  | _ :: v => (w.takeWhile (· ≠ '='), some v)

/-- The option before the `=` and the value behind it. -/
def explicitOption : List Char × Option (List Char) → Option (OptSpec × List Char)
  | (_, none) => none
  | (n, some v) => (optTable.find? (fun s => s.name = n)).map fun s => (s, v)

/-- argparse `_parse_optional`.  The options of the parser are those of `optTable`, `-h` and `--help`. -/
def classify (w : List Char) : Token :=
  match w with
  | [] => .value w
  | c :: r =>
    if c ≠ '-' then .value w
    else match optTable.find? (fun s => s.name = w) with
    | some s => .option s none
    | none =>
      if r = [] then .value w
      else if w = "--".toList then .refused
      else match explicitOption (partitionEq w) with
      | some (s, v) => .option s (some v)
      | none =>
        if r.head? = some '-' then
          -- abbreviations
          match optTable.filter (fun s => (partitionEq w).1.isPrefixOf s.name), (partitionEq w).1.isPrefixOf "--help".toList with
          | [s], false => .option s (partitionEq w).2
          | [], false => if ' ' ∈ w then .value w else .refused
          | _, _ => .refused
        else if r.head? = some 'h' then .refused
        else if negativeNumber w then .value w
        else if ' ' ∈ w then .value w
        else .refused

/-- Python `int(word)`; blanks and underscores are left out. -/
def parseInt (w : List Char) : Option ℤ :=
  let s := splitSign w
  if s.2 ≠ [] ∧ s.2.all Char.isDigit then some (s.1 * digitsValue s.2) else none

/-- The values of an option. -/
inductive ArgValue where
  | ints (l : List ℤ)
  | floats (l : List ℝ)

/-- Conversion of the words by `type`. -/
def convert (s : OptSpec) (words : List (List Char)) : Option ArgValue :=
  if s.isInt then (words.mapM parseInt).map .ints
  else (words.mapM fun w => (parseFloat w).toOption).map .floats

/-- The word, if argparse takes it for a value. -/
def Token.word? : Token → Option (List Char)
  | .value w => some w
  | _ => none

/-- argparse `parse_args`: the two file names and the values of the options; `none` if argparse prints a message and exits.
A value of an option without `nargs` is the next word; an option with `nargs="+"` takes all values up to the next option; the other
values are the file names.  The last occurrence of an option counts. -/
def parseTokens : List Token → List (List Char) → Dict (List Char) ArgValue → Option (List (List Char) × Dict (List Char) ArgValue)
  | [], pos, ns => if pos.length = 2 then some (pos, ns) else none
  | .value w :: r, pos, ns => if pos.length < 2 then parseTokens r (pos ++ [w]) ns else none
  | .refused :: _, _, _ => none
  | .option s (some v) :: r, pos, ns => do
    let x ← convert s [v]
    parseTokens r pos (Dict.set ns s.name x)
  | .option s none :: r, pos, ns =>
    let ws := if s.many then (r.takeWhile fun t => t.word?.isSome).filterMap Token.word? else (r.take 1).filterMap Token.word?
    let rest := if s.many then r.dropWhile fun t => t.word?.isSome else r.drop 1
    if ws = [] then none
    else do
      let x ← convert s ws
      parseTokens rest pos (Dict.set ns s.name x)
termination_by l => l.length
decreasing_by
  all_goals simp_wf
  split
  · exact (List.dropWhile_suffix _).length_le
  · simp

/-- A list of integers. -/
def intsOf (ns : Dict (List Char) ArgValue) (name : String) : Option (List ℤ) :=
  match Dict.get? ns name.toList with
  | some (.ints l) => some l
  | _ => none

/-- A list of floating point numbers. -/
def floatsOf (ns : Dict (List Char) ArgValue) (name : String) : Option (List ℝ) :=
  match Dict.get? ns name.toList with
  | some (.floats l) => some l
  | _ => none

/-- The option has no negative value. -/
def noneNegative (ns : Dict (List Char) ArgValue) (name : String) : Bool := ((intsOf ns name).getD []).all fun n => 0 ≤ n

/-- Integers that are not negative. -/
def natsOf (ns : Dict (List Char) ArgValue) (name : String) : Option (List ℕ) := (intsOf ns name).map fun l => l.map Int.toNat

/-- get_spectra.py:592-618: the options by their names. -/
def optionsOf (ns : Dict (List Char) ArgValue) : Options where
  ls := natsOf ns "--ls"
  nBaths := natsOf ns "--nBaths"
  nValBaths := intsOf ns "--nValBaths"
  n0imps := intsOf ns "--n0imps"
  dnTols := intsOf ns "--dnTols"
  dnValBaths := intsOf ns "--dnValBaths"
  dnConBaths := intsOf ns "--dnConBaths"
  Fdd := floatsOf ns "--Fdd"
  Fpp := floatsOf ns "--Fpp"
  Fpd := floatsOf ns "--Fpd"
  Gpd := floatsOf ns "--Gpd"
  xi2p := (floatsOf ns "--xi_2p").bind List.head?
  xi3d := (floatsOf ns "--xi_3d").bind List.head?
  chargeTransferCorrection := (floatsOf ns "--chargeTransferCorrection").bind List.head?
  hField := floatsOf ns "--hField"
  nPsiMax := (natsOf ns "--nPsiMax").bind List.head?
  nPrintSlaterWeights := (natsOf ns "--nPrintSlaterWeights").bind List.head?
  tolPrintOccupation := (floatsOf ns "--tolPrintOccupation").bind List.head?
  T := (floatsOf ns "--T").bind List.head?
  energyCut := (floatsOf ns "--energy_cut").bind List.head?
  delta := (floatsOf ns "--delta").bind List.head?
  deltaRIXS := (floatsOf ns "--deltaRIXS").bind List.head?
  deltaNIXS := (floatsOf ns "--deltaNIXS").bind List.head?

/-- get_spectra.py:427-576, 592-618: from the words of the command line to the names of the two files and the options.
Negative angular momenta, numbers of bath states, `nPsiMax` and `nPrintSlaterWeights` are left out: here they are refused. -/
def parseCommandLine (argv : List (List Char)) : Option (List Char × List Char × Options) :=
  match parseTokens (argv.map classify) [] [] with
  | some ([h0, radial], ns) =>
    if ["--ls", "--nBaths", "--nPsiMax", "--nPrintSlaterWeights"].all (noneNegative ns) then some (h0, radial, optionsOf ns)
    else none
  | _ => none

end

end Verif
