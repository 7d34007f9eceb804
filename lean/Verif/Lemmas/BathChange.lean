/-
Lemmas on another choice of the bath states.
-/
import Verif.Lemmas.TimeReversal
import Verif.Lemmas.Cutoff
import Verif.Spec.BathChange

namespace Verif

open Finset Spec

noncomputable section

/-! ### Renumbering -/

section
variable {n : ℕ} {u : ℕ → ℕ → ℂ} (hu : UnitaryOn n u)

/-- Only the part of the matrix inside the system matters. -/
theorem slater_local {u' : ℕ → ℕ → ℂ} (h : ∀ i < n, ∀ j < n, u i j = u' i j) {T : Finset ℕ} (hT : T ⊆ range n) :
    slater n u T = slater n u' T := by
  induction T using Finset.induction_on_min with
  | empty => rw [slater_empty, slater_empty]
  | insert k T hk ih =>
    rw [slater_insert_min hk, slater_insert_min hk, ih ((subset_insert _ _).trans hT)]
    funext F
    unfold createOrb
    exact sum_congr rfl fun i hi => by rw [h i (mem_range.1 hi) k (mem_range.1 (hT (mem_insert_self _ _)))]

include hu in
/-- A product state becomes a product state. -/
theorem slater_renumber (hR : Renumbers n u) {T : Finset ℕ} (hT : T ⊆ range n) :
    ∃ (c : ℂ) (T' : Finset ℕ), ‖c‖ = 1 ∧ slater n u T = c • Spec.single T' 1 := by
  obtain ⟨π, φ, hπ⟩ := hR
  have hcol : ∀ j < n, π j < n ∧ ‖φ j‖ = 1 := by
    intro j hj
    have h := hu.cols j hj j hj
    rw [if_pos rfl] at h
    obtain ⟨i, hi, h1⟩ := exists_ne_zero_of_sum_ne_zero (h.trans_ne one_ne_zero)
    have h2 := right_ne_zero_of_mul h1
    rw [hπ i (mem_range.1 hi) j hj] at h2
    have e : i = π j := by
      by_contra hne
      exact h2 (if_neg hne)
    subst e
    refine ⟨mem_range.1 hi, ?_⟩
    rw [sum_eq_single_of_mem (π j) hi, hπ _ (mem_range.1 hi) j hj, if_pos rfl] at h
    · have h3 := Complex.normSq_eq_conj_mul_self (z := φ j)
      rw [Complex.normSq_eq_norm_sq] at h3
      have h4 : ((‖φ j‖ ^ 2 : ℝ) : ℂ) = 1 := h3.trans h
      have h5 : ‖φ j‖ ^ 2 = 1 := by exact_mod_cast h4
      nlinarith [norm_nonneg (φ j)]
    · intro k hk hne
      rw [hπ k (mem_range.1 hk) j hj, if_neg hne, mul_zero]
  have hinj : ∀ i < n, ∀ j < n, π i = π j → i = j := by
    intro i hi j hj e
    by_contra hne
    have h := hu.cols i hi j hj
    rw [if_neg hne, sum_eq_single_of_mem (π i) (mem_range.2 (hcol i hi).1), hπ _ (hcol i hi).1 i hi, hπ _ (hcol i hi).1 j hj,
      if_pos rfl, if_pos e] at h
    · rcases mul_eq_zero.1 h with h1 | h1
      · have := (hcol i hi).2
        rw [star_eq_zero.1 h1, norm_zero] at this
        exact one_ne_zero this.symm
      · have := (hcol j hj).2
        rw [h1, norm_zero] at this
        exact one_ne_zero this.symm
    · intro k hk hne'
      rw [hπ k (mem_range.1 hk) i hi, if_neg hne', star_zero, zero_mul]
  suffices h : ∃ c : ℂ, ‖c‖ = 1 ∧ slater n u T = c • Spec.single (T.image π) 1 by
    obtain ⟨c, h1, h2⟩ := h
    exact ⟨c, _, h1, h2⟩
  rw [slater_local (u' := partnerMatrix π φ) hπ hT]
  induction T using Finset.induction_on_min with
  | empty => exact ⟨1, norm_one, by rw [slater_empty, image_empty, one_smul]⟩
  | insert k T hk ih =>
    have hk' : k < n := mem_range.1 (hT (mem_insert_self _ _))
    have hT' : T ⊆ range n := (subset_insert _ _).trans hT
    obtain ⟨c, hc, e⟩ := ih hT'
    have h1 : π k ∉ T.image π := by
      intro h
      obtain ⟨j, hj, e⟩ := mem_image.1 h
      have := hinj _ (mem_range.1 (hT' hj)) _ hk' e
      exact absurd (hk j hj) (by omega)
    have h2 : create (π k) (Spec.single (T.image π) 1 : Vec ℂ)
        = (sgn (π k) (T.image π) : ℂ) • Spec.single (insert (π k) (T.image π)) 1 := by
      funext F
      rw [Pi.smul_apply, smul_eq_mul]
      unfold create Spec.single
      by_cases hF : F = insert (π k) (T.image π)
      · rw [if_pos hF, hF, if_pos (mem_insert_self _ _), erase_insert h1, if_pos rfl, sgn_insert_self]
      · rw [if_neg hF, mul_zero]
        split
        · rename_i h3
          rw [if_neg, mul_zero]
          intro h4
          exact hF (by rw [← h4, insert_erase h3])
        · rfl
    refine ⟨φ k * c * (sgn (π k) (T.image π) : ℂ), ?_, ?_⟩
    · rw [norm_mul, norm_mul, (hcol k hk').2, hc, sgn]
      push_cast
      rw [norm_pow, norm_neg, norm_one, one_pow]
      norm_num
    · rw [slater_insert_min hk, e, (createOrb_linear _ _ _).map_smul, createOrb_partner (hcol k hk').1, h2, image_insert,
        smul_smul, smul_smul]
      congr 1
      ring

include hu in
/-- The inverse is a renumbering as well. -/
theorem changeOrbitals_renumber (hR : Renumbers n u) : ∃ (c : Finset ℕ → ℂ) (τ τ' : Finset ℕ → Finset ℕ),
    (∀ T ⊆ range n, ‖c T‖ = 1 ∧ τ T ⊆ range n ∧ τ' T ⊆ range n ∧ τ' (τ T) = T ∧ τ (τ' T) = T ∧
      slater n u T = c T • Spec.single (τ T) 1) ∧
    ∀ v, ∀ T ⊆ range n, changeOrbitals n u v (τ T) = c T * v T := by
  classical
  have h0 : ∀ T : Finset ℕ, ∃ (c : ℂ) (T' : Finset ℕ), T ⊆ range n → ‖c‖ = 1 ∧ slater n u T = c • Spec.single T' 1 := by
    intro T
    by_cases hT : T ⊆ range n
    · obtain ⟨c, T', h⟩ := slater_renumber hu hR hT
      exact ⟨c, T', fun _ => h⟩
    · exact ⟨0, ∅, fun h => absurd h hT⟩
  choose c τ h1 using h0
  have hne : ∀ T ⊆ range n, c T ≠ 0 := fun T hT h => by
    have := (h1 T hT).1
    rw [h, norm_zero] at this
    exact one_ne_zero this.symm
  have hat : ∀ T ⊆ range n, ∀ F, slater n u T F = if F = τ T then c T else 0 := by
    intro T hT F
    rw [(h1 T hT).2, Pi.smul_apply, Spec.single, smul_eq_mul, mul_ite, mul_one, mul_zero]
  have hτ : ∀ T ⊆ range n, τ T ⊆ range n := by
    intro T hT
    by_contra h
    have := slater_outside (n := n) (u := u) T (τ T) h
    rw [hat T hT, if_pos rfl] at this
    exact hne T hT this
  have hinj : ∀ T ⊆ range n, ∀ T' ⊆ range n, τ T = τ T' → T = T' := by
    intro T hT T' hT' e
    by_contra hTT
    have h := changeOrbitals_inner hu (Spec.single T 1) (Spec.single T' 1)
    rw [changeOrbitals_single hT, changeOrbitals_single hT'] at h
    have e1 : innerProduct n (slater n u T) (slater n u T') = star (c T) * c T' := by
      unfold innerProduct
      rw [sum_eq_single_of_mem (τ T) (mem_powerset.2 (hτ T hT)), hat T hT, hat T' hT', if_pos rfl, if_pos e]
      intro F _ hF
      rw [hat T hT, if_neg hF, star_zero, zero_mul]
    have e2 : innerProduct n (Spec.single T (1 : ℂ)) (Spec.single T' 1) = 0 := by
      unfold innerProduct Spec.single
      refine sum_eq_zero fun F _ => ?_
      by_cases hF : F = T
      · rw [if_neg (fun h => hTT (hF.symm.trans h)), mul_zero]
      · rw [if_neg hF, star_zero, zero_mul]
    rw [e1, e2] at h
    rcases mul_eq_zero.1 h with h | h
    · exact hne T hT (star_eq_zero.1 h)
    · exact hne T' hT' h
  have hsurj : ∀ F ⊆ range n, ∃ T ⊆ range n, τ T = F := by
    intro F hF
    have himg : (range n).powerset.image τ = (range n).powerset := by
      refine eq_of_subset_of_card_le (fun G hG => ?_) ?_
      · obtain ⟨T, hT, rfl⟩ := mem_image.1 hG
        exact mem_powerset.2 (hτ T (mem_powerset.1 hT))
      · rw [card_image_of_injOn fun T hT T' hT' e => hinj T (mem_powerset.1 hT) T' (mem_powerset.1 hT') e]
    have := mem_powerset.2 hF
    rw [← himg] at this
    obtain ⟨T, hT, e⟩ := mem_image.1 this
    exact ⟨T, mem_powerset.1 hT, e⟩
  have hs : ∀ F : Finset ℕ, ∃ T : Finset ℕ, F ⊆ range n → T ⊆ range n ∧ τ T = F := by
    intro F
    by_cases hF : F ⊆ range n
    · obtain ⟨T, h⟩ := hsurj F hF
      exact ⟨T, fun _ => h⟩
    · exact ⟨∅, fun h => absurd h hF⟩
  choose τ' hτ' using hs
  refine ⟨c, τ, τ', fun T hT => ⟨(h1 T hT).1, hτ T hT, (hτ' T hT).1, ?_, (hτ' T hT).2, (h1 T hT).2⟩, fun v T hT => ?_⟩
  · exact hinj _ (hτ' _ (hτ T hT)).1 _ hT (hτ' _ (hτ T hT)).2
  · unfold changeOrbitals
    rw [sum_eq_single_of_mem T (mem_powerset.2 hT), hat T hT, if_pos rfl, mul_comm]
    intro T' hT' hne'
    rw [hat T' (mem_powerset.1 hT'), if_neg, mul_zero]
    intro e
    exact hne' (hinj _ (mem_powerset.1 hT') _ hT e.symm)

/-! ### The Hamiltonian matrix -/

variable {op op' : Op ℕ ℂ} (hop : ∀ v, ∀ F ⊆ range n,
  operator (opSpec op') (changeOrbitals n u v) F = changeOrbitals n u (operator (opSpec op) v) F)

/-- No matrix element of the operator is dropped. -/
def KeptAll (n : ℕ) (op : Op ℕ ℂ) (cut : ℝ) : Prop :=
  ∀ F ⊆ range n, ∀ G ⊆ range n, matrixElement op F G = 0 ∨ cut ≤ abs2 (matrixElement op F G)

theorem hamiltonian_kept {cut : ℝ} (h : KeptAll n op cut) {v : Vec ℂ} {F : Finset ℕ} (hF : F ⊆ range n) :
    hamiltonian n op cut none v F = operator (opSpec op) (inside n v) F := by
  have h1 : hamiltonian n op cut none v = hamiltonian n op 0 none (inside n v) := by
    funext F
    unfold hamiltonian
    split
    · rename_i hF
      refine sum_congr rfl fun T hT => ?_
      unfold column inside
      rw [if_pos (mem_powerset.1 hT)]
      have h0 : AllowedOpt none F ∧ (0 : ℝ) ≤ abs2 (matrixElement op F T) := ⟨trivial, Complex.normSq_nonneg _⟩
      rw [if_pos h0]
      rcases h F hF T (mem_powerset.1 hT) with h | h
      · rw [h, ite_self]
      · rw [if_pos ⟨trivial, h⟩]
    · rfl
  rw [h1, hamiltonian_zero_cut n op none (inside_zero v)]
  exact if_pos ⟨hF, trivial⟩

include hu hop in
/-- The matrix of the Hamiltonian in the new states. -/
theorem hamiltonian_change {cut : ℝ} (hc : Renumbers n u ∨ (KeptAll n op cut ∧ KeptAll n op' cut)) (v : Vec ℂ) :
    hamiltonian n op' cut none (changeOrbitals n u v) = changeOrbitals n u (hamiltonian n op cut none v) := by
  funext F
  by_cases hF : F ⊆ range n
  swap
  · rw [changeOrbitals_outside _ F hF]
    exact if_neg hF
  rcases hc with hR | ⟨hk, hk'⟩
  · obtain ⟨c, τ, τ', h1, h2⟩ := changeOrbitals_renumber hu hR
    obtain ⟨G, hG, rfl⟩ : ∃ G ⊆ range n, τ G = F := ⟨τ' F, (h1 F hF).2.2.1, (h1 F hF).2.2.2.2.1⟩
    have hm : ∀ T ⊆ range n, matrixElement op' (τ G) (τ T) * c T = c G * matrixElement op G T := by
      intro T hT
      have h := hop (Spec.single T 1) _ hF
      rw [changeOrbitals_single hT, (h1 T hT).2.2.2.2.2, h2 _ G hG] at h
      replace h := (operator_smul _ _ _ _).symm.trans h
      unfold matrixElement
      rw [mul_comm]
      exact h
    have ha : ∀ T ⊆ range n, (abs2 (matrixElement op' (τ G) (τ T)) : ℝ) = abs2 (matrixElement op G T) := by
      intro T hT
      have h := congrArg norm (hm T hT)
      rw [norm_mul, norm_mul, (h1 T hT).1, (h1 G hG).1, mul_one, one_mul] at h
      show Complex.normSq _ = Complex.normSq _
      rw [Complex.normSq_eq_norm_sq, Complex.normSq_eq_norm_sq, h]
    rw [h2 _ G hG]
    unfold hamiltonian
    rw [if_pos hF, if_pos hG, mul_sum]
    refine (sum_bij' (fun T _ => τ T) (fun T _ => τ' T) (fun T hT => mem_powerset.2 (h1 T (mem_powerset.1 hT)).2.1)
      (fun T hT => mem_powerset.2 (h1 T (mem_powerset.1 hT)).2.2.1) (fun T hT => (h1 T (mem_powerset.1 hT)).2.2.2.1)
      (fun T hT => (h1 T (mem_powerset.1 hT)).2.2.2.2.1) fun T hT => ?_).symm
    rw [h2 _ T (mem_powerset.1 hT)]
    unfold column
    rw [ha T (mem_powerset.1 hT)]
    by_cases hc : AllowedOpt none G ∧ cut ≤ abs2 (matrixElement op G T)
    · rw [if_pos hc, if_pos ⟨trivial, hc.2⟩]
      linear_combination -v T * hm T (mem_powerset.1 hT)
    · rw [if_neg hc, if_neg fun h => hc ⟨trivial, h.2⟩]
      ring
  · rw [hamiltonian_kept hk' hF]
    have e1 : inside n (changeOrbitals n u v) = changeOrbitals n u (inside n v) := by
      rw [changeOrbitals_inside]
      funext G
      unfold inside
      split
      · rfl
      · rename_i h
        exact (changeOrbitals_outside v G h).symm
    rw [e1, hop _ F hF]
    exact congrFun (changeOrbitals_local fun G hG => (hamiltonian_kept hk hG).symm) F

/-! ### Product states with given occupations -/

/-- The part of a vector in the product states `Q`. -/
def onlyIn (Q : Finset ℕ → Prop) [DecidablePred Q] (v : Vec ℂ) : Vec ℂ := fun F => if Q F then v F else 0

theorem changeOrbitals_part {Q : Finset ℕ → Prop} [DecidablePred Q]
    (hQ : ∀ T ⊆ range n, ∀ F ⊆ range n, slater n u T F ≠ 0 → (Q F ↔ Q T)) (v : Vec ℂ) :
    changeOrbitals n u (onlyIn Q v) = onlyIn Q (changeOrbitals n u v) := by
  funext F
  by_cases hF : F ⊆ range n
  · unfold onlyIn changeOrbitals
    have e : (if Q F then ∑ T ∈ (range n).powerset, v T * slater n u T F else 0)
        = ∑ T ∈ (range n).powerset, if Q F then v T * slater n u T F else 0 := by
      split
      · rfl
      · rw [sum_const_zero]
    rw [e]
    refine sum_congr rfl fun T hT => ?_
    by_cases h0 : slater n u T F = 0
    · rw [h0, mul_zero, mul_zero, ite_self]
    · simp only [hQ T (mem_powerset.1 hT) F hF h0]
      split <;> simp
  · rw [changeOrbitals_outside _ F hF]
    unfold onlyIn
    rw [changeOrbitals_outside _ F hF, ite_self]

theorem hamiltonian_part (op : Op ℕ ℂ) (cut : ℝ) (r : Option Restrictions) (v : Vec ℂ) :
    hamiltonian n op cut r v = onlyIn (AllowedOpt r) (hamiltonian n op cut none v) := by
  funext F
  unfold hamiltonian onlyIn
  dsimp only
  by_cases hF : F ⊆ range n
  · rw [if_pos hF, if_pos hF]
    split
    · rename_i ha
      refine sum_congr rfl fun T _ => ?_
      unfold column
      by_cases h : cut ≤ abs2 (matrixElement op F T)
      · rw [if_pos ⟨ha, h⟩, if_pos ⟨trivial, h⟩]
      · rw [if_neg fun h' => h h'.2, if_neg fun h' => h h'.2]
    · rename_i ha
      refine sum_eq_zero fun T _ => ?_
      unfold column
      rw [if_neg fun h' => ha h'.1, zero_mul]
  · rw [if_neg hF, if_neg hF, ite_self]

end

end

end Verif
