/-
Specification: fermionic Fock space.  A vector assigns an amplitude to every
finite set of occupied spin-orbitals.  Ladder operators have the textbook sign
`(-1)^(number of electrons below i)`.
-/
import Verif.Spec.Ladder
import Mathlib.Algebra.Star.Basic
import Mathlib.Data.Finset.Powerset

namespace Verif.Spec

open Finset

variable {R : Type*} [CommRing R]

/-- Fock space. -/
abbrev Vec (R : Type*) := Finset ℕ → R

/-- Creation operator: `(c_i† f)(S) = ± f(S \ {i})` if `i ∈ S`, else `0`. -/
def create (i : ℕ) (f : Vec R) : Vec R :=
  fun S => if i ∈ S then (sgn i S : R) * f (S.erase i) else 0

/-- Annihilation operator: `(c_i f)(S) = ± f(S ∪ {i})` if `i ∉ S`, else `0`. -/
def annihilate (i : ℕ) (f : Vec R) : Vec R :=
  fun S => if i ∈ S then 0 else (sgn i S : R) * f (insert i S)

/-- One ladder operator; `true` creates, `false` annihilates. -/
def ladder (i : ℕ) (isCreate : Bool) (f : Vec R) : Vec R :=
  if isCreate then create i f else annihilate i f

/-- A product of ladder operators `p₁ p₂ … p_k`; the rightmost acts first. -/
def product (p : List (ℕ × Bool)) (f : Vec R) : Vec R :=
  p.foldr (fun x g => ladder x.1 x.2 g) f

/-- A second-quantised operator `∑ h · p`. -/
def operator (op : List (List (ℕ × Bool) × R)) (f : Vec R) : Vec R :=
  fun S => (op.map fun q => q.2 * product q.1 f S).sum

/-- Inner product over the product states of a system of `n` spin-orbitals. -/
def innerProduct [StarRing R] (n : ℕ) (f g : Vec R) : R :=
  ∑ S ∈ (range n).powerset, star (f S) * g S

end Verif.Spec
