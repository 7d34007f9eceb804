/-
C14, C15: applyOp without cache.
-/
import Verif.Lemmas.ApplyOp
import Verif.Prop.States

namespace Verif

open Finset Psr Spec

section
variable {R F : Type} [CommRing R] [StarRing R] [CommRing F] [LinearOrder F]
  [IsStrictOrderedRing F] [Amp R F]

/-- C14.  Without restrictions `applyOp` returns the amplitudes of `op |psi>`,
keeping exactly the product states whose weight reaches the cutoff. -/
theorem C14_applyOp_exact (n : ℕ) (op : Op ℕ R) (hop : OpInSystem n op) (psi : Psi R)
    (hpsi : IsState n psi) (slaterWeightMin : F) (hcut : 0 < slaterWeightMin) :
    ∃ psi', applyOp n op psi slaterWeightMin none none = .ok (psi', none) ∧ IsState n psi' ∧
      ∀ S ⊆ range n, Dict.get? psi' (encBytes n S)
        = if slaterWeightMin ≤ abs2 (operator (opSpec op) (ampl n psi) S)
          then some (operator (opSpec op) (ampl n psi) S) else none := by
  refine ⟨_, applyOp_eq hop hpsi slaterWeightMin none,
    isState_applyOpPure hop hpsi slaterWeightMin none, ?_⟩
  intro S hS
  rw [get?_applyOpPure hop hpsi slaterWeightMin none hS]
  by_cases hc : slaterWeightMin ≤ abs2 (operator (opSpec op) (ampl n psi) S)
  · rw [if_pos hc, if_pos]
    refine ⟨trivial, ?_, hc⟩
    by_contra hm
    rw [← total_allContributions hop hpsi hS, total_of_notMem hm, Amp.abs2_zero] at hc
    exact absurd hc (not_le.2 hcut)
  · rw [if_neg hc, if_neg (fun h => hc h.2.2)]

/-- C14, any cutoff (also 0 or negative): the amplitudes. -/
theorem C14_applyOp_amplitudes (n : ℕ) (op : Op ℕ R) (hop : OpInSystem n op) (psi : Psi R)
    (hpsi : IsState n psi) (slaterWeightMin : F) :
    ∃ psi', applyOp n op psi slaterWeightMin none none = .ok (psi', none) ∧ IsState n psi' ∧
      ∀ S ⊆ range n, ampl n psi' S
        = if slaterWeightMin ≤ abs2 (operator (opSpec op) (ampl n psi) S)
          then operator (opSpec op) (ampl n psi) S else 0 := by
  refine ⟨_, applyOp_eq hop hpsi slaterWeightMin none,
    isState_applyOpPure hop hpsi slaterWeightMin none, ?_⟩
  intro S hS
  rw [ampl_applyOpPure hop hpsi slaterWeightMin none hS]
  simp [AllowedOpt]

/-- C15.  With restrictions `applyOp` keeps exactly the allowed product states. -/
theorem C15_applyOp_restricted (n : ℕ) (op : Op ℕ R) (hop : OpInSystem n op) (psi : Psi R)
    (hpsi : IsState n psi) (slaterWeightMin : F) (hcut : 0 < slaterWeightMin) (r : Restrictions) :
    ∃ psi', applyOp n op psi slaterWeightMin (some r) none = .ok (psi', none) ∧ IsState n psi' ∧
      ∀ S ⊆ range n, Dict.get? psi' (encBytes n S)
        = if Allowed r S ∧ slaterWeightMin ≤ abs2 (operator (opSpec op) (ampl n psi) S)
          then some (operator (opSpec op) (ampl n psi) S) else none := by
  refine ⟨_, applyOp_eq hop hpsi slaterWeightMin (some r),
    isState_applyOpPure hop hpsi slaterWeightMin (some r), ?_⟩
  intro S hS
  rw [get?_applyOpPure hop hpsi slaterWeightMin (some r) hS]
  by_cases hc : Allowed r S ∧ slaterWeightMin ≤ abs2 (operator (opSpec op) (ampl n psi) S)
  · rw [if_pos hc, if_pos]
    refine ⟨hc.1, ?_, hc.2⟩
    by_contra hm
    have := hc.2
    rw [← total_allContributions hop hpsi hS, total_of_notMem hm, Amp.abs2_zero] at this
    exact absurd this (not_le.2 hcut)
  · rw [if_neg hc, if_neg (fun h => hc ⟨h.1, h.2.2⟩)]

/-- C15, any cutoff: the amplitudes; a product state that violates the
restrictions is never a key of the result. -/
theorem C15_applyOp_restricted_amplitudes (n : ℕ) (op : Op ℕ R) (hop : OpInSystem n op) (psi : Psi R)
    (hpsi : IsState n psi) (slaterWeightMin : F) (r : Restrictions) :
    ∃ psi', applyOp n op psi slaterWeightMin (some r) none = .ok (psi', none) ∧ IsState n psi' ∧
      (∀ S ⊆ range n, ampl n psi' S
        = if Allowed r S ∧ slaterWeightMin ≤ abs2 (operator (opSpec op) (ampl n psi) S)
          then operator (opSpec op) (ampl n psi) S else 0) ∧
      ∀ S ⊆ range n, encBytes n S ∈ Dict.keys psi' → Allowed r S := by
  refine ⟨_, applyOp_eq hop hpsi slaterWeightMin (some r),
    isState_applyOpPure hop hpsi slaterWeightMin (some r), ?_, ?_⟩
  · intro S hS
    rw [ampl_applyOpPure hop hpsi slaterWeightMin (some r) hS]
    rfl
  · intro S hS hm
    rw [Dict.mem_keys_iff, get?_applyOpPure hop hpsi slaterWeightMin (some r) hS] at hm
    by_contra hn
    rw [if_neg (fun h => hn h.1)] at hm
    simp at hm

end

/-! Non-vacuity. -/

/-- A concrete operator: `5 c2† c0 + 7 c1† c2† c0 c2 - c0† c0`. -/
def exOp : Op ℕ ℤ :=
  [([(2, .c), (0, .a)], 5), ([(1, .c), (2, .c), (0, .a), (2, .a)], 7), ([(0, .c), (0, .a)], -1)]

theorem exOp_inSystem : OpInSystem 3 exOp := by
  unfold OpInSystem exOp; decide

example : applyOp 3 exOp exPsi 1 none none
    = .ok ([([32], 10), ([128], -2), ([96], -21), ([160], -3)], none) := by decide
example : applyOp 3 exOp exPsi 5 none none = .ok ([([32], 10), ([96], -21), ([160], -3)], none) := by
  decide
/-- Orbitals {0,1} must hold exactly one electron. -/
example : applyOp 3 exOp exPsi 1 (some [({0, 1}, (1, 1))]) none
    = .ok ([([128], -2), ([96], -21), ([160], -3)], none) := by decide
example : ∃ psi', applyOp 3 exOp exPsi 1 none none = .ok (psi', none) ∧ IsState 3 psi' ∧
    ∀ S ⊆ range 3, Dict.get? psi' (encBytes 3 S)
        = if 1 ≤ abs2 (operator (opSpec exOp) (ampl 3 exPsi) S)
          then some (operator (opSpec exOp) (ampl 3 exPsi) S) else none :=
  C14_applyOp_exact 3 exOp exOp_inSystem exPsi exPsi_isState 1 (by decide)

end Verif
