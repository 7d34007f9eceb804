/-
Specification of the values that main prints: expectation values of the d shell in the
eigenstates, their thermal averages, the weights of product states, and density matrices.
-/
import Verif.Spec.Main

namespace Verif.Spec

open Finset Psr

noncomputable section

/-- `⟨v| A |v⟩`. -/
def expect (n : ℕ) (A : Vec ℂ → Vec ℂ) (v : Vec ℂ) : ℂ := innerProduct n v (A v)

/-- The coefficient of `Y_{2m}` in the real d orbitals `z²`, `x²-y²`, `yz`, `xz` and `xy`, in this
order, as a table with the columns `m = -2, …, 2`; `yz` has the sign of the code. -/
def realOrbital (i : ℕ) (m : ℤ) : ℂ :=
  (([[0, 0, 1, 0, 0],
     [1 / (Real.sqrt 2 : ℝ), 0, 0, 0, 1 / (Real.sqrt 2 : ℝ)],
     [0, -Complex.I / (Real.sqrt 2 : ℝ), 0, -Complex.I / (Real.sqrt 2 : ℝ), 0],
     [0, 1 / (Real.sqrt 2 : ℝ), 0, -1 / (Real.sqrt 2 : ℝ), 0],
     [Complex.I / (Real.sqrt 2 : ℝ), 0, 0, 0, -Complex.I / (Real.sqrt 2 : ℝ)]] : List (List ℂ)).getD i []).getD (m + 2).toNat 0

/-- Annihilation in the real d orbital `i` with spin `s`. -/
def annihilateReal (f : Label → ℕ) (s : ℤ) (i : ℕ) (v : Vec ℂ) : Vec ℂ :=
  annihilateIn (Icc (-2 : ℤ) 2) (fun m => f (.imp 2 s m)) (realOrbital i) v

/-- The occupation of the real d orbital `i` with spin `s`. -/
def realOccupation (n : ℕ) (f : Label → ℕ) (v : Vec ℂ) (s : ℤ) (i : ℕ) : ℝ := normSq n (annihilateReal f s i v)

/-- `⟨d†_{s'j} d_{si}⟩` for real d orbitals. -/
def realDensity (n : ℕ) (f : Label → ℕ) (v : Vec ℂ) (s : ℤ) (i : ℕ) (s' : ℤ) (j : ℕ) : ℂ :=
  innerProduct n (annihilateReal f s' j v) (annihilateReal f s i v)

/-- The square of an angular momentum, `J₋J₊ + Jz² + Jz`. -/
def squareOf (Jz Jp Jm : Vec ℂ → Vec ℂ) (v : Vec ℂ) : Vec ℂ := fun S => Jm (Jp v) S + Jz (Jz v) S + Jz v S

/-- One row of the table of expectation values, for the state `v`. -/
structure RowMeans (n : ℕ) (f : Label → ℕ) (v : Vec ℂ) (row : ExpRow) : Prop where
  n3d : (row.n3d : ℂ) = expect n (shellNumber f 2) v
  /-- the occupations of the e_g orbitals with spin down and up, then of the t_2g orbitals -/
  occ : row.occ = ([realOccupation n f v 0 0 + realOccupation n f v 0 1,
    realOccupation n f v 1 0 + realOccupation n f v 1 1,
    realOccupation n f v 0 2 + realOccupation n f v 0 3 + realOccupation n f v 0 4,
    realOccupation n f v 1 2 + realOccupation n f v 1 3 + realOccupation n f v 1 4] : List ℝ).map fun x : ℝ => (x : ℂ)
  lz : (row.lz : ℂ) = expect n (oneBody f 2 (orbOp lZ)) v
  sz : (row.sz : ℂ) = expect n (oneBody f 2 (spinOp sZ)) v
  lsqr : (row.lsqr : ℂ) = expect n (squareOf (oneBody f 2 (orbOp lZ)) (oneBody f 2 (orbOp (lPlus 2)))
    (oneBody f 2 (orbOp (lMinus 2)))) v
  ssqr : (row.ssqr : ℂ) = expect n (squareOf (oneBody f 2 (spinOp sZ)) (oneBody f 2 (spinOp sPlus))
    (oneBody f 2 (spinOp sMinus))) v

/-- The Boltzmann average at the temperature `T` over the states less than `window` above the
energy `e0`. -/
def thermalMean {E : Type} [AddCommGroup E] [Module ℝ E] (kB T window e0 : ℝ) (energies : List ℝ) (x : ℕ → E) : E :=
  (∑ i ∈ range energies.length, if energies.getD i 0 - e0 < window
      then Real.exp (-energies.getD i 0 / (kB * T)) else 0)⁻¹ •
    ∑ i ∈ range energies.length, if energies.getD i 0 - e0 < window
      then Real.exp (-energies.getD i 0 / (kB * T)) • x i else 0

/-- What main prints about the eigenstates: a table with one row for each energy, relative to
the lowest energy `e0`, and the averages of its columns at 300 K over the states less than
`10 · kB · 300 K` above the lowest. -/
structure PrintedMeans (kB : ℝ) (n : ℕ) (f : Label → ℕ) (energies : List ℝ) (psis : List (Psi ℂ))
    (thermal : ThermalValues) (e0 : ℝ) (rows : List ExpRow) : Prop where
  ground : e0 ∈ energies ∧ ∀ e ∈ energies, e0 ≤ e
  count : rows.length = energies.length
  table : ∀ i (hi : i < rows.length), rows[i].energy = energies.getD i 0 - e0 ∧
    RowMeans n f (ampl n (psis.getD i [])) rows[i]
  energy : thermal.energy = thermalMean kB 300 (10 * kB * 300) e0 energies fun i => energies.getD i 0 - e0
  n3d : thermal.n3d = thermalMean kB 300 (10 * kB * 300) e0 energies fun i => (rows.map fun r => r.n3d).getD i 0
  occ : ∀ k, thermal.occ k
    = thermalMean kB 300 (10 * kB * 300) e0 energies fun i => (rows.map fun r => r.occ.getD k 0).getD i 0
  lz : thermal.lz = thermalMean kB 300 (10 * kB * 300) e0 energies fun i => (rows.map fun r => r.lz).getD i 0
  sz : thermal.sz = thermalMean kB 300 (10 * kB * 300) e0 energies fun i => (rows.map fun r => r.sz).getD i 0
  lsqr : thermal.lsqr = thermalMean kB 300 (10 * kB * 300) e0 energies fun i => (rows.map fun r => r.lsqr).getD i 0
  ssqr : thermal.ssqr = thermalMean kB 300 (10 * kB * 300) e0 energies fun i => (rows.map fun r => r.ssqr).getD i 0

/-- The weights printed for one eigenstate: the `nPrint` highest, or all if there are not more,
in descending order, each with its product state.  A product state is printed without
trailing zero bytes. -/
structure PrintedWeights (n nPrint : ℕ) (psi : Psi ℂ) (p : List ℝ × List Bytes) : Prop where
  descending : p.1.Pairwise (· ≥ ·)
  states : ∃ Fs : List (Finset ℕ), Fs.Nodup ∧ Fs.length = min nPrint psi.length ∧
    (∀ F ∈ Fs, F ⊆ range n) ∧
    p.1 = Fs.map (fun F => Complex.normSq (ampl n psi F)) ∧ p.2 = Fs.map (fun F => npBytes (encBytes n F)) ∧
    ∀ F ⊆ range n, F ∉ Fs → ∀ w ∈ p.1, Complex.normSq (ampl n psi F) ≤ w

/-- The density matrix elements printed for one eigenstate: each element between real d
orbitals of modulus greater than `tol`, once. -/
structure PrintedDensity (tol : ℝ) (n : ℕ) (f : Label → ℕ) (v : Vec ℂ)
    (p : List (((ℤ × ℤ) × (ℤ × ℤ)) × ℂ)) : Prop where
  once : (p.map Prod.fst).Nodup
  mem : ∀ s i s' j x, (((s, i), (s', j)), x) ∈ p ↔ (s = 0 ∨ s = 1) ∧ (s' = 0 ∨ s' = 1) ∧ (0 ≤ i ∧ i < 5) ∧
    (0 ≤ j ∧ j < 5) ∧ x = realDensity n f v s i.toNat s' j.toNat ∧ tol < ‖x‖

end

end Verif.Spec
