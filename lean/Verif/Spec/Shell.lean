/-
Specification: operators written with labels, one- and two-particle operators of
a shell, conserved quantities of a process.
-/
import Verif.Spec.State
import Verif.Model.Index
import Mathlib.Data.Int.Interval
import Mathlib.Analysis.SpecialFunctions.Pow.Real

namespace Verif.Spec

open Finset

/-- The second-quantised operator meant by an operator dict over labels, when
label `x` is spin-orbital number `f x`. -/
def labelSpec {R : Type*} (f : Label → ℕ) (op : Op Label R) : List (List (ℕ × Bool) × R) :=
  op.map fun q => (q.1.map fun x => (f x.1, x.2 = .c), q.2)

/-- Created minus annihilated amount of the quantity `φ`. -/
def change (φ : Label → ℤ) (p : Process Label) : ℤ :=
  (p.map fun x => match x.2 with
    | .c => φ x.1
    | .a => -φ x.1).sum

/-- Orbital momentum projection, spin projection (twice) and electron number of a label. -/
def lz : Label → ℤ
  | .imp _ _ m => m
  | .bath _ _ => 0
def twoSz : Label → ℤ
  | .imp _ s _ => 2 * s - 1
  | .bath _ _ => 0
def one : Label → ℤ := fun _ => 1

/-- The spin-orbitals `(s, m)` of a shell. -/
noncomputable def shell (l : ℕ) : Finset (ℤ × ℤ) := ({0, 1} : Finset ℤ) ×ˢ Icc (-(l : ℤ)) l

/-- One-particle operator of a shell with matrix `M`:
`∑ M (s,m) (s',m') c†_{lsm} c_{ls'm'}`. -/
noncomputable def oneBody (f : Label → ℕ) (l : ℕ) (M : ℤ × ℤ → ℤ × ℤ → ℂ) (v : Vec ℂ) : Vec ℂ :=
  fun S => ∑ x ∈ shell l ×ˢ shell l, M x.1 x.2 *
    create (f (.imp l x.1.1 x.1.2)) (annihilate (f (.imp l x.2.1 x.2.2)) v) S

/-- `⟨l m'| l₊ |l m⟩`. -/
noncomputable def lPlus (l : ℕ) (m' m : ℤ) : ℂ :=
  if m' = m + 1 then ((Real.sqrt ((l - m) * (l + m + 1)) : ℝ) : ℂ) else 0
/-- `⟨l m'| l₋ |l m⟩`. -/
noncomputable def lMinus (l : ℕ) (m' m : ℤ) : ℂ :=
  if m' = m - 1 then ((Real.sqrt ((l + m) * (l - m + 1)) : ℝ) : ℂ) else 0
/-- `⟨m'| l_z |m⟩`. -/
noncomputable def lZ (m' m : ℤ) : ℂ := if m' = m then (m : ℂ) else 0
/-- Spin ½ with `s = 0` down and `s = 1` up. -/
noncomputable def sPlus (s' s : ℤ) : ℂ := if s' = 1 ∧ s = 0 then 1 else 0
noncomputable def sMinus (s' s : ℤ) : ℂ := if s' = 0 ∧ s = 1 then 1 else 0
noncomputable def sZ (s' s : ℤ) : ℂ := if s' = s then (if s = 1 then 1 / 2 else -1 / 2) else 0
noncomputable def sX (s' s : ℤ) : ℂ := (sPlus s' s + sMinus s' s) / 2
noncomputable def sY (s' s : ℤ) : ℂ := (sPlus s' s - sMinus s' s) / (2 * Complex.I)
/-- Orbital identity. -/
noncomputable def delta (m' m : ℤ) : ℂ := if m' = m then 1 else 0

/-- `⟨s m| l·s |s' m'⟩ = l_z s_z + (l₊ s₋ + l₋ s₊)/2`. -/
noncomputable def lDotS (l : ℕ) (x y : ℤ × ℤ) : ℂ :=
  lZ x.2 y.2 * sZ x.1 y.1 + (lPlus l x.2 y.2 * sMinus x.1 y.1 + lMinus l x.2 y.2 * sPlus x.1 y.1) / 2

/-- `⟨s m| h·s |s' m'⟩`. -/
noncomputable def hDotS (hx hy hz : ℝ) (x y : ℤ × ℤ) : ℂ :=
  (hx * sX x.1 y.1 + hy * sY x.1 y.1 + hz * sZ x.1 y.1) * delta x.2 y.2

/-- The quantum numbers `m` of a shell. -/
noncomputable def mRange (l : ℕ) : Finset ℤ := Icc (-(l : ℤ)) l

/-- The symmetries of the Gaunt coefficients `∫ Y_{l1 m1} Y_{l2 m2} Y_{l3 m3}`:
exchanging two spherical harmonics, and the sign of all `m`. -/
structure GauntSymmetric (gaunt : ℕ → ℕ → ℕ → ℤ → ℤ → ℤ → ℝ) : Prop where
  swap : ∀ a b c α β γ, gaunt a b c α β γ = gaunt c b a γ β α
  flip : ∀ a b c α β γ, gaunt a b c (-α) (-β) (-γ) = gaunt a b c α β γ

/-- `⟨l m| C^k_{m-m'} |l' m'⟩` with the renormalised spherical harmonics
`C^k_q = √(4π/(2k+1)) Y_{kq}`; `Y*_{lm} = (-1)^m Y_{l,-m}`. -/
noncomputable def ck (gaunt : ℕ → ℕ → ℕ → ℤ → ℤ → ℤ → ℝ) (k l : ℕ) (m : ℤ) (l' : ℕ) (m' : ℤ) : ℝ :=
  (-1) ^ m * (Real.sqrt (4 * Real.pi / (2 * k + 1)) * gaunt l k l' (-m) (m - m') m')

/-- Coulomb matrix element `⟨1 2|V|4 3⟩ = δ ∑_k R^k c^k(1,4) c^k(3,2)`. -/
noncomputable def coulomb (gaunt : ℕ → ℕ → ℕ → ℤ → ℤ → ℤ → ℝ) (l1 l2 l3 l4 : ℕ) (R : List ℝ)
    (m1 m2 m3 m4 : ℤ) : ℝ :=
  if m1 + m2 = m3 + m4 then
    ∑ k ∈ range R.length, R.getD k 0 * (ck gaunt k l1 m1 l4 m4 * ck gaunt k l3 m3 l2 m2)
  else 0

/-- `½ ∑ u(m1,m2,m3,m4) c†_{l1 s m1} c†_{l2 s' m2} c_{l3 s' m3} c_{l4 s m4}`,
the sum over all `m` and both spins. -/
noncomputable def twoBody (f : Label → ℕ) (l1 l2 l3 l4 : ℕ) (u : ℤ → ℤ → ℤ → ℤ → ℝ) (v : Vec ℂ) : Vec ℂ :=
  fun S => (1 / 2 : ℂ) * ∑ m1 ∈ mRange l1, ∑ m2 ∈ mRange l2, ∑ m3 ∈ mRange l3, ∑ m4 ∈ mRange l4,
    ∑ s ∈ ({0, 1} : Finset ℤ), ∑ s' ∈ ({0, 1} : Finset ℤ), (u m1 m2 m3 m4 : ℂ) *
      create (f (.imp l1 s m1)) (create (f (.imp l2 s' m2))
        (annihilate (f (.imp l3 s' m3)) (annihilate (f (.imp l4 s m4)) v))) S

end Verif.Spec
