/-
Specification of thermal averages, and the documented input of the double counting.
-/
import Mathlib.Analysis.SpecialFunctions.Exp

namespace Verif

variable {E : Type} [AddCommGroup E] [Module ℝ E]

/-- The partition sum `∑ exp(-e_i/kT)`. -/
noncomputable def partitionSum (kB : ℝ) (energies : List ℝ) (T : ℝ) : ℝ :=
  (energies.map fun e => Real.exp (-e / (kB * T))).sum

/-- The Boltzmann sum `∑ exp(-e_i/kT) o_i`. -/
noncomputable def boltzmannSum (kB : ℝ) (energies : List ℝ) (observable : List E) (T : ℝ) : E :=
  (List.zipWith (fun e o => Real.exp (-e / (kB * T)) • o) energies observable).sum

/-- The input documented for the double counting: integer occupations, and either
none of the 2p arguments, or a full 2p shell with its Slater integrals. -/
def DocumentedInput (n3d : ℝ) (n2p : Option ℝ) (Fpd Gpd : Option (List ℝ)) : Prop :=
  (∃ k : ℤ, (k : ℝ) = n3d) ∧ (∀ x ∈ n2p, ∃ k : ℤ, (k : ℝ) = x) ∧
    ((n2p = none ∧ Fpd = none ∧ Gpd = none) ∨ (n2p = some 6 ∧ Fpd ≠ none ∧ Gpd ≠ none))

end Verif
