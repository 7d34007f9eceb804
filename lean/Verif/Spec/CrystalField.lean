/-
Specification of the crystal-field Hamiltonian in cubic orbitals.
-/
import Verif.Spec.Observables
import Verif.Spec.Assemble
import Verif.Model.Observables

namespace Verif.Spec

open Finset

/-- Creation in the orbital `∑_k u_k |k⟩`, `k` ranging over positions `p k`. -/
noncomputable def createIn {κ : Type*} (K : Finset κ) (p : κ → ℕ) (u : κ → ℂ) (v : Vec ℂ) : Vec ℂ :=
  fun S => ∑ k ∈ K, u k * create (p k) v S

/-- The value of column `c` of the cubic harmonics: `z²` and `x²-y²` are the eg orbitals, `yz`,
`xz` and `xy` the t2g orbitals (C36). -/
def egT2g (eg t2g : ℝ) (c : ℕ) : ℝ := if c < 2 then eg else t2g

/-- Orbitals of one spin: position and amplitude of component `i` of cubic orbital `c`. -/
structure Orbitals where
  pos : ℕ → ℕ
  amp : ℕ → ℕ → ℂ

/-- `a†_c b_c` summed over the five cubic orbitals with weights `w c`. -/
noncomputable def hopSum (a b : Orbitals) (w : ℕ → ℝ) (v : Vec ℂ) (S : Finset ℕ) : ℂ :=
  ∑ c ∈ range 5, (w c : ℂ) *
    createIn (range 5) a.pos (fun i => a.amp i c) (annihilateIn (range 5) b.pos (fun i => b.amp i c) v) S

/-- The d orbitals of spin `s`: `m = -2, …, 2`, amplitudes `u`. -/
def dOrbitals (f : Label → ℕ) (u : ℕ → ℕ → ℂ) (s : ℤ) : Orbitals := ⟨fun i => f (.imp 2 s (i - 2)), u⟩

/-- Five consecutive bath states from number `b`. -/
def bathOrbitals (f : Label → ℕ) (u : ℕ → ℕ → ℂ) (b : ℤ) : Orbitals := ⟨fun i => f (.bath (.int 2) (b + i)), u⟩

/-- One set of bath states coupled to the d shell, spin by spin: levels `e`, hopping `w`; `b s` is the
first bath state of spin `s`. -/
noncomputable def bathTerms (f : Label → ℕ) (u uBath : ℕ → ℕ → ℂ) (b : ℤ → ℤ) (e w : ℕ → ℝ) (v : Vec ℂ)
    (S : Finset ℕ) : ℂ :=
  ∑ s ∈ ({0, 1} : Finset ℤ), (hopSum (bathOrbitals f uBath (b s)) (bathOrbitals f uBath (b s)) e v S
    + (hopSum (bathOrbitals f uBath (b s)) (dOrbitals f u s) w v S
      + hopSum (dOrbitals f u s) (bathOrbitals f uBath (b s)) w v S))

/-- The spin of an orbital, bath states being numbered spin down (five), spin up (five). -/
def spinOf : Label → ℤ
  | .imp _ s _ => s
  | .bath _ b => b / 5 % 2

end Verif.Spec
