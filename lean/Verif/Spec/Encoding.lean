/-
Specification: the five encodings of a set of occupied spin-orbitals, straight
from the module documentation (product_state_representation.py:1-30).
Nothing here refers to the model.
-/
import Mathlib.Algebra.BigOperators.Group.Finset.Basic
import Mathlib.Data.Finset.Range

namespace Verif.Spec

open Finset

/-- tuple: the occupied orbitals below `n`, in increasing order. -/
def encTuple (n : ℕ) (S : Finset ℕ) : List ℕ := (List.range n).filter (· ∈ S)

/-- str: character number `i` tells whether orbital `i` is occupied. -/
def encStr (n : ℕ) (S : Finset ℕ) : List Char :=
  (List.range n).map fun i => if i ∈ S then '1' else '0'

/-- bitarray: bit number `i` tells whether orbital `i` is occupied. -/
def encBits (n : ℕ) (S : Finset ℕ) : List Bool := (List.range n).map fun i => decide (i ∈ S)

/-- int: orbital `i` has weight `2^(n-1-i)` (orbital 0 is most significant). -/
def encInt (n : ℕ) (S : Finset ℕ) : ℕ := ∑ i ∈ range n, if i ∈ S then 2 ^ (n - 1 - i) else 0

/-- bytes: byte number `k` holds the orbitals `8k … 8k+7`, most significant bit
first; orbitals `≥ n` do not exist and are zero. -/
def encBytes (n : ℕ) (S : Finset ℕ) : List UInt8 :=
  (List.range ((n + 7) / 8)).map fun k =>
    UInt8.ofNat (∑ j ∈ range 8, if 8 * k + j < n ∧ 8 * k + j ∈ S then 2 ^ (7 - j) else 0)

end Verif.Spec
