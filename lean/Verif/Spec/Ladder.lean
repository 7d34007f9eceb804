/-
Specification of adding/removing one electron to/from a set of occupied
spin-orbitals, with the sign convention |psi> = c2 c5 |0> (create.py:6-7).
-/
import Mathlib.Algebra.BigOperators.Group.Finset.Basic
import Mathlib.Data.Finset.Range

namespace Verif.Spec

/-- Number of electrons in spin-orbitals with an index lower than `i`. -/
def below (i : ℕ) (S : Finset ℕ) : ℕ := (S.filter (· < i)).card

/-- The fermionic sign `(-1)^(number of electrons below i)`. -/
def sgn (i : ℕ) (S : Finset ℕ) : ℤ := (-1) ^ below i S

end Verif.Spec
