/-
Specification for C109: how the words of a command line are read, one after the other.
-/
import Verif.Spec.ArgParse

namespace Verif.Spec

/-- The word names the option: it is its name, or the beginning of its name and of no other (the option `--help` included). -/
def Names (n : List Char) (q : String × Kind) : Prop :=
  q ∈ documentedOptions ∧ (n = q.1.toList ∨
    (['-', '-'] <+: n ∧ n <+: q.1.toList ∧ (∀ q' ∈ documentedOptions, n <+: q'.1.toList → q' = q) ∧ ¬ n <+: "--help".toList))

/-- A word that may be the name of a file: it is no option, because it does not start with a minus sign, or is a negative number,
or is a minus sign only, or contains a blank. -/
def FileWord (w : List Char) : Prop := ValueWord w ∨ w = ['-'] ∨ ' ' ∈ w

/-- The option takes these words: one or several, and all of them integers or numbers. -/
def Takes : Kind → List (List Char) → Prop
  | .nat, ws => ws.length = 1 ∧ ∀ w ∈ ws, ∃ n, IntWord w n
  | .float, ws => ws.length = 1 ∧ ∀ w ∈ ws, ∃ x, Denotes w x
  | .nats, ws => ws ≠ [] ∧ ∀ w ∈ ws, ∃ n, IntWord w n
  | .ints, ws => ws ≠ [] ∧ ∀ w ∈ ws, ∃ n, IntWord w n
  | .floats, ws => ws ≠ [] ∧ ∀ w ∈ ws, ∃ x, Denotes w x

/-- An option that takes several values. -/
def Several : Kind → Prop
  | .nat => False
  | .float => False
  | _ => True

/-- The words, read one after the other, are these file names and these options. -/
inductive Reads : List (List Char) → List (List Char) → List GivenOption → Prop
  | nil : Reads [] [] []
  | file {w r files opts} : FileWord w → Reads r files opts → Reads (w :: r) (w :: files) opts
  | equals {n q v r files opts} : Names n q → Takes q.2 [v] → Reads r files opts →
      Reads ((n ++ '=' :: v) :: r) files (⟨q.1.toList, [v], true⟩ :: opts)
  | option {n q ws r files opts} : Names n q → Takes q.2 ws → (∀ w ∈ ws, ValueWord w) →
      (Several q.2 → ∀ w, r.head? = some w → ¬ ValueWord w) → Reads r files opts →
      Reads (n :: (ws ++ r)) files (⟨q.1.toList, ws, false⟩ :: opts)

end Verif.Spec
