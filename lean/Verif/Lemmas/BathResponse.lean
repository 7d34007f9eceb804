/-
Eigenvectors and responses for another choice of the bath states.
-/
import Verif.Lemmas.BathChange

namespace Verif

open Finset Spec

noncomputable section

section
variable {n : ℕ} {u : ℕ → ℕ → ℂ} (hu : UnitaryOn n u)

include hu in
theorem slater_adjoint {T F : Finset ℕ} (hT : T ⊆ range n) (hF : F ⊆ range n) :
    slater n (adjointOrb u) T F = star (slater n u F T) := by
  have h := changeOrbitals_adjoint hu (Spec.single F 1) (Spec.single T 1)
  rw [changeOrbitals_single hF, changeOrbitals_single hT, innerProduct_single_right hT, innerProduct_single_left hF, star_one, one_mul,
    mul_one] at h
  exact h.symm

theorem inside_eq {v : Vec ℂ} (h : ∀ F, ¬ F ⊆ range n → v F = 0) : inside n v = v := by
  funext F
  unfold inside
  split
  · rfl
  · rename_i hF
    exact (h F hF).symm

theorem hamiltonian_outside (op : Op ℕ ℂ) (cut : ℝ) (r : Option Restrictions) (v : Vec ℂ) (F : Finset ℕ) (hF : ¬ F ⊆ range n) :
    hamiltonian n op cut r v F = 0 := if_neg hF

theorem hamiltonian_inside (op : Op ℕ ℂ) (cut : ℝ) (r : Option Restrictions) (v : Vec ℂ) :
    hamiltonian n op cut r (inside n v) = hamiltonian n op cut r v := by
  funext F
  unfold hamiltonian
  split
  · exact sum_congr rfl fun T hT => by unfold inside; rw [if_pos (mem_powerset.1 hT)]
  · rfl

/-- The Hamiltonians `H` and `H'` are the same operator for two choices of the states. -/
structure SameOperator (n : ℕ) (u : ℕ → ℕ → ℂ) (H H' : Vec ℂ → Vec ℂ) : Prop where
  linear : IsLinearMap ℂ H
  change : ∀ v, H' (changeOrbitals n u v) = changeOrbitals n u (H v)
  local' : ∀ v, H' (inside n v) = H' v
  outside : ∀ v F, ¬ F ⊆ range n → H v F = 0

variable {H H' : Vec ℂ → Vec ℂ} (hH : SameOperator n u H H')

include hu hH in
theorem SameOperator.back (v : Vec ℂ) : H (changeOrbitals n (adjointOrb u) v) = changeOrbitals n (adjointOrb u) (H' v) := by
  have h := congrArg (changeOrbitals n (adjointOrb u)) (hH.change (changeOrbitals n (adjointOrb u) v))
  rw [changeOrbitals_right hu, changeOrbitals_left hu, hH.local', inside_eq (hH.outside _)] at h
  exact h.symm

include hu hH in
theorem SameOperator.solves_back {z : ℂ} {b x : Vec ℂ} (hb : ∀ F, ¬ F ⊆ range n → b F = 0)
    (h : Solves n H' z (changeOrbitals n u b) x) : Solves n H z b (changeOrbitals n (adjointOrb u) x) := by
  refine ⟨fun F hF => ?_, fun F hF => changeOrbitals_outside _ F hF⟩
  have h1 : changeOrbitals n (adjointOrb u) (z • x - H' x) = changeOrbitals n (adjointOrb u) (changeOrbitals n u b) :=
    changeOrbitals_local fun F hF => h.inside F hF
  rw [(changeOrbitals_linear _ _).map_sub, (changeOrbitals_linear _ _).map_smul, changeOrbitals_left hu, inside_eq hb,
    ← hH.back hu] at h1
  exact congrFun h1 F

include hH in
theorem SameOperator.solves {z : ℂ} {b x : Vec ℂ} (h : Solves n H z b x) :
    Solves n H' z (changeOrbitals n u b) (changeOrbitals n u x) := by
  refine ⟨fun F hF => ?_, fun F hF => changeOrbitals_outside _ F hF⟩
  have h1 : changeOrbitals n u (z • x - H x) = changeOrbitals n u b := changeOrbitals_local fun F hF => h.inside F hF
  rw [(changeOrbitals_linear _ _).map_sub, (changeOrbitals_linear _ _).map_smul, ← hH.change] at h1
  exact congrFun h1 F

include hu hH in
theorem SameOperator.unique {z : ℂ} {b x : Vec ℂ} (h : ∀ y, Solves n H' z (changeOrbitals n u b) y → y = x) (y : Vec ℂ)
    (hy : Solves n H z b y) : y = changeOrbitals n (adjointOrb u) x := by
  rw [← h _ (hH.solves hy), changeOrbitals_left hu, inside_eq hy.outside]

include hu hH in
theorem SameOperator.green {z : ℂ} {b : Vec ℂ} (hb : ∀ F, ¬ F ⊆ range n → b F = 0) {g : ℂ}
    (h : IsGreen n H' z (changeOrbitals n u b) g) : IsGreen n H z b g := by
  obtain ⟨x, h1, h2, h3⟩ := h
  exact ⟨_, hH.solves_back hu hb h1, hH.unique hu h2, h3.trans (changeOrbitals_adjoint hu b x)⟩

include hu hH in
theorem SameOperator.rixs {z₁ z₂ : ℂ} {b : Vec ℂ} (hb : ∀ F, ¬ F ⊆ range n → b F = 0) {T T' : Vec ℂ → Vec ℂ} {g : ℂ}
    (hT : ∀ x, Solves n H z₁ b x → T' (changeOrbitals n u x) = changeOrbitals n u (T x))
    (hT0 : ∀ v F, ¬ F ⊆ range n → T v F = 0)
    (h : IsRixs n H' z₁ z₂ (changeOrbitals n u b) T' g) : IsRixs n H z₁ z₂ b T g := by
  obtain ⟨x, h1, h2, h3⟩ := h
  have h4 := hH.solves_back hu hb h1
  refine ⟨_, h4, hH.unique hu h2, hH.green hu (hT0 _) ?_⟩
  rwa [← hT _ h4, changeOrbitals_right hu, inside_eq h1.outside]

end

/-! ### Superpositions -/

/-- Resonant scattering with a linear second step. -/
theorem rixs_mix {n m : ℕ} {U : ℕ → ℕ → ℂ} {H T : Vec ℂ → Vec ℂ} (hH : IsLinearMap ℂ H) (hT : IsLinearMap ℂ T)
    (hU : ∀ j < m, ∀ k < m, ∑ i ∈ range m, star (U i j) * U i k = if j = k then 1 else 0)
    {wt z₁ z₂ : ℕ → ℂ} (hwt : ∀ i < m, ∀ j < m, U i j ≠ 0 → wt i = wt j) (hz₁ : ∀ i < m, ∀ j < m, U i j ≠ 0 → z₁ i = z₁ j)
    (hz₂ : ∀ i < m, ∀ j < m, U i j ≠ 0 → z₂ i = z₂ j)
    {b b' : ℕ → Vec ℂ} (hb : ∀ i < m, b' i = mix m U b i) {g g' : ℕ → ℂ}
    (hg : ∀ j < m, IsRixs n H (z₁ j) (z₂ j) (b j) T (g j)) (hg' : ∀ j < m, IsRixs n H (z₁ j) (z₂ j) (b' j) T (g' j)) :
    ∑ i ∈ range m, wt i * g' i = ∑ i ∈ range m, wt i * g i := by
  classical
  choose x hx hu hgr using hg
  let y : ℕ → Vec ℂ := fun j => if h : j < m then x j h else 0
  have hy : ∀ j (hj : j < m), y j = x j hj := fun j hj => dif_pos hj
  have hsol : ∀ i < m, Solves n H (z₁ i) (b' i) (mix m U y i) := by
    intro i hi
    rw [hb i hi]
    refine solves_mix hH (z := z₁) (fun j hj hne => hz₁ i hi j hj hne) fun j hj => ?_
    rw [hy j hj]
    exact hx j hj
  refine green_mix (n := n) hH hU hwt hz₂ (b := fun j => T (y j)) (b' := fun i => T (mix m U y i)) (fun i _ => linear_mix hT _ _) ?_ ?_
  · intro i hi
    rw [hy i hi]
    exact hgr i hi
  · intro i hi
    obtain ⟨x', h1, h2, h3⟩ := hg' i hi
    rw [← h2 _ (hsol i hi)] at h3
    exact h3

/-! ### Eigenvectors -/

section
variable {n : ℕ} {u : ℕ → ℕ → ℂ} (hu : UnitaryOn n u) {op op' : Op ℕ ℂ} {cut : ℝ}
  (hD : ∀ v, hamiltonian n op' cut none (changeOrbitals n u v) = changeOrbitals n u (hamiltonian n op cut none v))
  {s : Finset (Finset ℕ)} (hs : ∀ F ∈ s, F ⊆ range n)
  (hsu : ∀ T ⊆ range n, ∀ F ⊆ range n, slater n u T F ≠ 0 → (F ∈ s ↔ T ∈ s))

theorem storedElement_column (S T : Finset ℕ) : storedElement op cut S T = column op cut none T S := by
  unfold storedElement column
  by_cases h : cut ≤ abs2 (matrixElement op S T)
  · rw [if_pos h, if_pos ⟨trivial, h⟩]
  · rw [if_neg h, if_neg fun h' => h h'.2]

include hs in
theorem stored_sum (op : Op ℕ ℂ) (cut : ℝ) (v : Vec ℂ) {S : Finset ℕ} (hS : S ∈ s) :
    ∑ T ∈ s, storedElement op cut S T * v T = hamiltonian n op cut none (onlyIn (· ∈ s) v) S := by
  unfold hamiltonian onlyIn
  rw [if_pos (hs S hS)]
  refine (sum_congr rfl fun T hT => ?_).trans (sum_subset (fun T hT => mem_powerset.2 (hs T hT)) fun T _ hT => ?_)
  · rw [if_pos hT, storedElement_column]
  · rw [if_neg hT, mul_zero]

include hs in
theorem inner_onlyIn (v w : Vec ℂ) :
    innerProduct n (onlyIn (· ∈ s) v) (onlyIn (· ∈ s) w) = ∑ S ∈ s, star (v S) * w S := by
  unfold innerProduct onlyIn
  refine ((sum_congr rfl fun T hT => ?_).trans (sum_subset (fun T hT => mem_powerset.2 (hs T hT)) fun T _ hT => ?_)).symm
  · rw [if_pos hT, if_pos hT]
  · rw [if_neg hT, if_neg hT, mul_zero]

theorem onlyIn_idem (v : Vec ℂ) : onlyIn (· ∈ s) (onlyIn (· ∈ s) v) = onlyIn (· ∈ s) v := by
  funext F
  unfold onlyIn
  dsimp only
  split <;> rfl

include hs in
theorem inside_onlyIn (v : Vec ℂ) : inside n (onlyIn (· ∈ s) v) = onlyIn (· ∈ s) v :=
  inside_eq fun F hF => if_neg fun h => hF (hs F h)

include hu hs hsu in
theorem change_lowest_aux (hD : ∀ v, hamiltonian n op' cut none (changeOrbitals n u v)
      = changeOrbitals n u (hamiltonian n op cut none v)) {es : List ℝ} {x : ℕ → Finset ℕ → ℂ}
    (H : LowestIn s (storedElement op cut) es x) :
    LowestIn s (storedElement op' cut) es fun i => changeOrbitals n u (onlyIn (· ∈ s) (x i)) := by
  have hp : ∀ v, changeOrbitals n u (onlyIn (· ∈ s) v) = onlyIn (· ∈ s) (changeOrbitals n u v) := changeOrbitals_part hsu
  have hsu' : ∀ T ⊆ range n, ∀ F ⊆ range n, slater n (adjointOrb u) T F ≠ 0 → (F ∈ s ↔ T ∈ s) := by
    intro T hT F hF h
    rw [slater_adjoint hu hT hF] at h
    exact (hsu F hF T hT (star_ne_zero.1 h)).symm
  have hp' : ∀ v, changeOrbitals n (adjointOrb u) (onlyIn (· ∈ s) v) = onlyIn (· ∈ s) (changeOrbitals n (adjointOrb u) v) :=
    changeOrbitals_part hsu'
  refine H.map_unitary (R := fun v => changeOrbitals n u (onlyIn (· ∈ s) v))
    (R' := fun v => changeOrbitals n (adjointOrb u) (onlyIn (· ∈ s) v)) (fun c v => ?_) (fun v w h S _ => ?_) (fun v w => ?_)
    (fun v S hS => ?_) fun v S hS => ?_
  · rw [← (changeOrbitals_linear _ _).map_smul]
    congr 1
    funext F
    unfold onlyIn
    rw [Pi.smul_apply, Pi.smul_apply, smul_ite, smul_zero]
  · refine congrFun (congrArg _ (funext fun F => ?_)) S
    unfold onlyIn
    split
    · rename_i hF
      exact h F hF
    · rfl
  · rw [← inner_onlyIn hs, ← inner_onlyIn hs, ← hp, onlyIn_idem, ← hp, onlyIn_idem, changeOrbitals_inner hu]
  · rw [← hp', onlyIn_idem, changeOrbitals_right hu, inside_onlyIn hs]
    exact if_pos hS
  · rw [stored_sum hs op' cut _ hS, ← hp, onlyIn_idem, hD]
    have e : onlyIn (· ∈ s) (fun S => ∑ T ∈ s, storedElement op cut S T * v T)
        = onlyIn (· ∈ s) (hamiltonian n op cut none (onlyIn (· ∈ s) v)) := by
      funext F
      unfold onlyIn
      split
      · rename_i hF
        exact stored_sum hs op cut v hF
      · rfl
    rw [e, hp]
    exact (if_pos hS).symm

include hu hD hs hsu in
/-- The eigenvectors of the second Hamiltonian, in terms of the first states. -/
theorem change_lowest {es : List ℝ} {x : ℕ → Finset ℕ → ℂ} (H : LowestIn s (storedElement op' cut) es x) :
    LowestIn s (storedElement op cut) es fun i => changeOrbitals n (adjointOrb u) (onlyIn (· ∈ s) (x i)) := by
  refine change_lowest_aux (unitary_adjoint hu) hs (fun T hT F hF h => ?_) (fun v => ?_) H
  · rw [slater_adjoint hu hT hF] at h
    exact (hsu F hF T hT (star_ne_zero.1 h)).symm
  · have h := SameOperator.back hu ⟨hamiltonian_linear n op cut none, hD, hamiltonian_inside op' cut none,
      hamiltonian_outside op cut none⟩ v
    exact h

end

end

end Verif
