/-
Specification: what a multi-configurational state (a dict) means, and what an
operator dict means.
-/
import Verif.Spec.Fock
import Verif.Spec.Encoding
import Verif.Py.Dict
import Verif.Model.State

namespace Verif.Spec

open Finset

/-- `psi` is a multi-configurational state of a system with `n` spin-orbitals:
a dict whose keys encode sets of occupied spin-orbitals. -/
structure IsState {R : Type*} (n : ℕ) (psi : Psi R) : Prop where
  nodup : Dict.NodupKeys psi
  keys : ∀ k ∈ Dict.keys psi, ∃ S ⊆ range n, k = encBytes n S

/-- The amplitude of the product state `S` in `psi`. -/
def ampl {R : Type*} [Zero R] (n : ℕ) (psi : Psi R) : Vec R :=
  fun S => if S ⊆ range n then (Dict.get? psi (encBytes n S)).getD 0 else 0

/-- The product of ladder operators meant by a process. -/
def processSpec (p : Process ℕ) : List (ℕ × Bool) := p.map fun x => (x.1, x.2 = .c)

/-- The second-quantised operator meant by an operator dict. -/
def opSpec {R : Type*} (op : Op ℕ R) : List (List (ℕ × Bool) × R) :=
  op.map fun q => (processSpec q.1, q.2)

/-- All spin-orbitals of the operator belong to the system. -/
def OpInSystem {R : Type*} (n : ℕ) (op : Op ℕ R) : Prop := ∀ q ∈ op, ∀ x ∈ q.1, x.1 < n

/-- The product state `S` fulfils the occupation restrictions. -/
def Allowed (r : Restrictions) (S : Finset ℕ) : Prop :=
  ∀ q ∈ r, q.2.1 ≤ ((q.1 ∩ S).card : ℤ) ∧ ((q.1 ∩ S).card : ℤ) ≤ q.2.2

/-- Same, with `None` meaning no restrictions. -/
def AllowedOpt : Option Restrictions → Finset ℕ → Prop
  | none, _ => True
  | some r, S => Allowed r S

instance (r : Restrictions) (S : Finset ℕ) : Decidable (Allowed r S) := by
  unfold Allowed; infer_instance

instance (r : Option Restrictions) (S : Finset ℕ) : Decidable (AllowedOpt r S) := by
  cases r <;> unfold AllowedOpt <;> infer_instance

/-- The product state `S` with amplitude `x`. -/
def single {R : Type*} [Zero R] (T : Finset ℕ) (x : R) : Vec R := fun S => if S = T then x else 0

end Verif.Spec

/-- The strings for the two actions, `"a"` for annihilation and `"c"` for creation. -/
def Verif.Action.str : Verif.Action → String
  | .a => "a"
  | .c => "c"
