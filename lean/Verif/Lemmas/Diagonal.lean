/-
A Hamiltonian that is diagonal in the product states: spectra of states whose product
states have distinct energies do not raise.
-/
import Verif.Lemmas.SimulateExample
import Mathlib.LinearAlgebra.Vandermonde

namespace Verif

open Finset Mpi Psr Spec Matrix

noncomputable section

/-- The operator is diagonal in the product states, with energies that the cutoff does not
remove. -/
structure DiagonalOp (n : ℕ) (op : Op ℕ ℂ) (cut : ℝ) (E : Finset ℕ → ℂ) : Prop where
  element : ∀ S ⊆ range n, ∀ T ⊆ range n, matrixElement op S T = if S = T then E T else 0
  large : ∀ S ⊆ range n, E S = 0 ∨ cut ≤ abs2 (E S)

section
variable {n : ℕ} {op : Op ℕ ℂ} {cut : ℝ} {E : Finset ℕ → ℂ} (hD : DiagonalOp n op cut E) (hcut : 0 < cut)
  {r : Option Restrictions}
include hD

theorem DiagonalOp.stored (S T : Finset ℕ) (hS : S ⊆ range n) (hT : T ⊆ range n) :
    storedElement op cut S T = if S = T then E T else 0 := by
  unfold storedElement
  rw [hD.element S hS T hT]
  by_cases h : S = T
  · rw [if_pos h]
    rcases hD.large T hT with h0 | h0
    · rw [h0]; split <;> rfl
    · rw [if_pos h0]
  · rw [if_neg h]; split <;> rfl

theorem DiagonalOp.column (S T : Finset ℕ) (hS : S ⊆ range n) (hT : T ⊆ range n) (hr : AllowedOpt r S) :
    column op cut r T S = if S = T then E T else 0 := by
  rw [← hD.stored S T hS hT]
  unfold Spec.column storedElement
  simp only [hr, true_and]

theorem DiagonalOp.hamiltonian {v : Vec ℂ} {S : Finset ℕ} (hS : S ⊆ range n) (hr : AllowedOpt r S) :
    hamiltonian n op cut r v S = E S * v S := by
  unfold Spec.hamiltonian
  rw [if_pos hS, Finset.sum_eq_single S]
  · rw [hD.column S S hS hS hr, if_pos rfl]
  · intro T hT hne
    rw [hD.column S T hS (mem_powerset.1 hT) hr, if_neg (Ne.symm hne), zero_mul]
  · intro h; exact absurd (mem_powerset.2 hS) h

theorem DiagonalOp.iterate {v : Vec ℂ} {S : Finset ℕ} (hS : S ⊆ range n) (hr : AllowedOpt r S) (i : ℕ) :
    (Spec.hamiltonian n op cut r)^[i] v S = E S ^ i * v S := by
  induction i with
  | zero => simp
  | succ i ih => rw [Function.iterate_succ_apply', hD.hamiltonian hS hr, ih, pow_succ]; ring

include hcut in
theorem DiagonalOp.connects {S T : Finset ℕ} (hS : S ⊆ range n) (hT : T ⊆ range n) (h : Connects op cut r T S) :
    S = T := by
  by_contra hne
  have := h.2
  rw [hD.element S hS T hT, if_neg hne, Amp.abs2_zero] at this
  exact absurd this (not_le.2 hcut)

/-- The first Krylov vectors are linearly independent, as many as product states. -/
theorem DiagonalOp.independent {v : Vec ℂ} (X : Finset (Finset ℕ)) (hX : ∀ S ∈ X, S ⊆ range n ∧ AllowedOpt r S ∧ v S ≠ 0)
    (hinj : ∀ S ∈ X, ∀ T ∈ X, E S = E T → S = T) {k : ℕ} (hk : k ≤ X.card) :
    LinearIndependent ℂ fun i : Fin k => (Spec.hamiltonian n op cut r)^[i.val] v := by
  rw [Fintype.linearIndependent_iff]
  intro g hg
  obtain ⟨Y, hY, hc⟩ := Finset.exists_subset_card_eq hk
  let f : Fin k → Finset ℕ := fun i => (Y.equivFin.symm (Fin.cast hc.symm i)).val
  have hfm : ∀ i, f i ∈ X := fun i => hY (Y.equivFin.symm (Fin.cast hc.symm i)).2
  have hfi : Function.Injective fun i => E (f i) := by
    intro i j h
    have := hinj _ (hfm i) _ (hfm j) h
    have := Y.equivFin.symm.injective (Subtype.ext this)
    simpa using this
  have := Matrix.eq_zero_of_forall_index_sum_pow_mul_eq_zero (f := fun i => E (f i)) (v := g) hfi (by
    intro j
    obtain ⟨h1, h2, h3⟩ := hX _ (hfm j)
    have hj := congrFun hg (f j)
    rw [Finset.sum_apply] at hj
    simp only [Pi.smul_apply, smul_eq_mul, hD.iterate h1 h2, Pi.zero_apply] at hj
    rw [show ∑ i : Fin k, g i * (E (f j) ^ (i : ℕ) * v (f j)) = (∑ i : Fin k, E (f j) ^ (i : ℕ) * g i) * v (f j) by
      rw [Finset.sum_mul]; refine sum_congr rfl fun i _ => by ring] at hj
    exact (mul_eq_zero.1 hj).resolve_right h3)
  exact fun i => congrFun this i

end

theorem spectrumOf_diagonal {A : SpectraArgs} (hA : A.Valid) (hdict : Dict.NodupKeys A.hOp) (hh : isHermitianOp A.hOp)
    (hk : A.krylovSize ≠ 0) {E : Finset ℕ → ℂ} (hD : DiagonalOp A.n A.hOp A.cut E) {psiR : Psi ℂ}
    (hE : Excited A.n A.slaterWeightMin A.restrictions psiR)
    (hinj : ∀ S T, ampl A.n psiR S ≠ 0 → ampl A.n psiR T ≠ 0 → E S = E T → S = T) (e : ℝ) :
    ∃ g, spectrumOf A psiR e = .ok g := by
  unfold spectrumOf
  by_cases hnil : psiR = []
  · subst hnil
    exact ⟨_, rfl⟩
  · have hpos := hE.norm_pos hA.weight hnil
    have hnorm := norm2_unit hpos
    set X : Finset (Finset ℕ) := {S ∈ (range A.n).powerset | encBytes A.n S ∈ Dict.keys (unit psiR)} with hXd
    have hall : ∀ S ⊆ range A.n, encBytes A.n S ∈ Dict.keys (unit psiR) → AllowedOpt A.restrictions S :=
      fun S hS hk => hE.allowed S hS (by rwa [keys_unit] at hk)
    have hXm : ∀ S, S ∈ X ↔ S ⊆ range A.n ∧ encBytes A.n S ∈ Dict.keys (unit psiR) := by
      intro S; rw [hXd, mem_filter, mem_powerset]
    have hX : SmallestInvariant A.n A.hOp A.cut A.restrictions {S | S ⊆ range A.n ∧ encBytes A.n S ∈ Dict.keys (unit psiR)}
        {S | S ∈ X} := by
      refine ⟨fun S hS => (hXm S).2 hS, fun T hT S hS hc => ?_, fun Y hY _ S hS => hY ((hXm S).1 hS)⟩
      rwa [hD.connects hA.cut hS ((hXm T).1 hT).1 hc]
    obtain ⟨hre, ht⟩ := C57_raises hA.hop hdict hh hA.cut A.restrictions (isState_unit hE.state)
      hall hnorm X hX A.krylovSize A.fuel hA.fuel e A.w A.delta hA.delta [] (columnsExact_nil ..)
    rcases ht with ht | ⟨g, h', hg, -, -⟩
    · exfalso
      rcases hre.1 ht with h | h
      · exact hk h
      · apply h
        have hne : ∀ S ∈ X, ampl A.n psiR S ≠ 0 := by
          intro S hS
          obtain ⟨h1, h2⟩ := (hXm S).1 hS
          have hk' : encBytes A.n S ∈ Dict.keys psiR := by rwa [keys_unit] at h2
          rw [Dict.mem_keys_iff] at hk'
          obtain ⟨x, hx⟩ := Option.isSome_iff_exists.1 hk'
          unfold ampl
          rw [if_pos h1, hx]
          have hl := hE.large (encBytes A.n S, x) (Dict.mem_of_get? hx)
          intro h0
          rw [show x = 0 from h0, Amp.abs2_zero] at hl
          exact absurd hl (not_le.2 hA.weight)
        refine hD.independent X (fun S hS => ?_) (fun S hS T hT => hinj S T (hne S hS) (hne T hT)) (min_le_right _ _)
        obtain ⟨h1, h2⟩ := (hXm S).1 hS
        refine ⟨h1, hall S h1 h2, ?_⟩
        rw [ampl_unit]
        exact div_ne_zero (hne S hS) (by exact_mod_cast (Real.sqrt_pos.2 hpos).ne')
    · rw [hg]
      exact ⟨_, rfl⟩

end

end Verif
