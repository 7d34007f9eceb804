/-
Specification: strengths of processes, Hermitian operators, the number operator of a
shell.
-/
import Verif.Spec.Shell

namespace Verif.Spec

/-- The strength with which a process occurs in an operator dict. -/
def strength {ι R : Type} [DecidableEq ι] [Zero R] (op : Op ι R) (p : Process ι) : R := (Dict.get? op p).getD 0

/-- The reverse process: opposite order, creation and annihilation exchanged. -/
def reverseProcess {ι : Type} (p : Process ι) : Process ι :=
  (p.map fun x => (x.1, match x.2 with
    | .c => .a
    | .a => .c)).reverse

/-- Every process and its reverse occur with complex conjugated strengths. -/
def HermitianStrengths {ι : Type} [DecidableEq ι] (op : Op ι ℂ) : Prop :=
  ∀ p, strength op (reverseProcess p) = star (strength op p)

/-- The number of electrons in the shell `l`. -/
noncomputable def shellNumber (f : Label → ℕ) (l : ℕ) (v : Vec ℂ) : Vec ℂ :=
  fun S => ∑ x ∈ shell l, create (f (.imp l x.1 x.2)) (annihilate (f (.imp l x.1 x.2)) v) S

end Verif.Spec
