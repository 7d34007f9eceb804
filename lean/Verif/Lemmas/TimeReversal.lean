/-
Lemmas on time reversal.
-/
import Verif.Lemmas.Antiunitary
import Verif.Spec.TimeReversal

namespace Verif

open Finset Spec

noncomputable section

/-! ### Partners -/

section
variable {n : ℕ} {π : ℕ → ℕ} {φ : ℕ → ℂ} (hπ : ∀ i < n, π i < n ∧ π (π i) = i) (hφ : ∀ i, ‖φ i‖ = 1)

/-- The matrix of the change of orbitals. -/
def partnerMatrix (π : ℕ → ℕ) (φ : ℕ → ℂ) : ℕ → ℕ → ℂ := fun i j => if i = π j then φ j else 0

include hφ in
theorem unit_star (i : ℕ) : star (φ i) * φ i = 1 := by
  have h := phase_mul hφ {i}
  simpa only [Finset.prod_singleton] using h

include hπ in
theorem partner_inj {i j : ℕ} (hi : i < n) (hj : j < n) (h : π i = π j) : i = j := by
  rw [← (hπ i hi).2, h, (hπ j hj).2]

include hπ hφ in
theorem partner_unitary : UnitaryOn n (partnerMatrix π φ) := by
  constructor
  · intro j hj k hk
    unfold partnerMatrix
    rw [sum_eq_single_of_mem (π j) (mem_range.2 (hπ j hj).1)]
    · rw [if_pos rfl]
      by_cases e : j = k
      · rw [e, if_pos rfl, if_pos rfl, unit_star hφ]
      · rw [if_neg e, if_neg fun h => e (partner_inj hπ hj hk h), mul_zero]
    · intro i _ hne
      rw [if_neg hne, star_zero, zero_mul]
  · intro j hj k hk
    unfold partnerMatrix
    rw [sum_eq_single_of_mem (π j) (mem_range.2 (hπ j hj).1)]
    · rw [if_pos (hπ j hj).2.symm, (hπ j hj).2]
      by_cases e : j = k
      · rw [if_pos e.symm, if_pos e, mul_comm, unit_star hφ]
      · rw [if_neg (Ne.symm e), if_neg e, star_zero, mul_zero]
    · intro i hi hne
      rw [if_neg, zero_mul]
      rintro rfl
      exact hne (hπ i (mem_range.1 hi)).2.symm

theorem createOrb_partner {j : ℕ} (hj : π j < n) (v : Vec ℂ) : createOrb n (partnerMatrix π φ) j v = φ j • create (π j) v := by
  funext F
  unfold createOrb partnerMatrix
  rw [sum_eq_single_of_mem (π j) (mem_range.2 hj), if_pos rfl]
  · rfl
  · intro i _ hne
    rw [if_neg hne, zero_mul]

theorem annihilateOrb_partner {j : ℕ} (hj : π j < n) (v : Vec ℂ) :
    annihilateOrb n (partnerMatrix π φ) j v = star (φ j) • annihilate (π j) v := by
  funext F
  unfold annihilateOrb partnerMatrix
  rw [sum_eq_single_of_mem (π j) (mem_range.2 hj), if_pos rfl]
  · rfl
  · intro i _ hne
    rw [if_neg hne, star_zero, zero_mul]

theorem reverse_add (v w : Vec ℂ) : reverse n π φ (v + w) = reverse n π φ v + reverse n π φ w := by
  unfold reverse
  rw [← (changeOrbitals_linear _ _).map_add]
  refine congrArg _ (funext fun F => star_add _ _)

theorem reverse_smul (c : ℂ) (v : Vec ℂ) : reverse n π φ (c • v) = star c • reverse n π φ v := by
  unfold reverse
  rw [← (changeOrbitals_linear _ _).map_smul]
  refine congrArg _ (funext fun F => star_mul' _ _)

theorem reverse_zero : reverse n π φ 0 = 0 := by
  have h := reverse_smul (n := n) (π := π) (φ := φ) 0 0
  rwa [zero_smul, star_zero, zero_smul] at h

theorem reverse_sum {ι : Type} (s : Finset ι) (c : ι → ℂ) (f : ι → Vec ℂ) :
    reverse n π φ (fun F => ∑ i ∈ s, c i * f i F) = fun F => ∑ i ∈ s, star (c i) * reverse n π φ (f i) F := by
  unfold reverse
  rw [← linear_apply_sum (changeOrbitals_linear _ _)]
  refine congrArg _ (funext fun F => ?_)
  rw [star_sum]
  exact sum_congr rfl fun i _ => star_mul' _ _

theorem star_create (j : ℕ) (v : Vec ℂ) : (fun F => star (create j v F)) = create j fun F => star (v F) := by
  funext F
  unfold create
  split
  · rw [star_mul', star_intCast]
  · exact star_zero ℂ

theorem star_annihilate (j : ℕ) (v : Vec ℂ) : (fun F => star (annihilate j v F)) = annihilate j fun F => star (v F) := by
  funext F
  unfold annihilate
  split
  · exact star_zero ℂ
  · rw [star_mul', star_intCast]

include hπ in
theorem reverse_create {j : ℕ} (hj : j < n) (v : Vec ℂ) : reverse n π φ (create j v) = φ j • create (π j) (reverse n π φ v) := by
  unfold reverse
  rw [star_create, changeOrbitals_create hj]
  exact createOrb_partner (hπ j hj).1 _

include hπ hφ in
theorem reverse_annihilate {j : ℕ} (hj : j < n) (v : Vec ℂ) :
    reverse n π φ (annihilate j v) = star (φ j) • annihilate (π j) (reverse n π φ v) := by
  unfold reverse
  rw [star_annihilate]
  exact (changeOrbitals_annihilate (partner_unitary hπ hφ) hj _).trans (annihilateOrb_partner (hπ j hj).1 _)

include hπ hφ in
theorem reverse_hop {i j : ℕ} (hi : i < n) (hj : j < n) (v : Vec ℂ) :
    reverse n π φ (create i (annihilate j v)) = (φ i * star (φ j)) • create (π i) (annihilate (π j) (reverse n π φ v)) := by
  rw [reverse_create hπ hi, reverse_annihilate hπ hφ hj, (create_linear _).map_smul, smul_smul]

include hπ hφ in
theorem reverse_pair {i j k l : ℕ} (hi : i < n) (hj : j < n) (hk : k < n) (hl : l < n) (v : Vec ℂ) :
    reverse n π φ (create i (create j (annihilate k (annihilate l v))))
      = (φ i * φ j * star (φ k) * star (φ l)) •
        create (π i) (create (π j) (annihilate (π k) (annihilate (π l) (reverse n π φ v)))) := by
  rw [reverse_create hπ hi, reverse_hop hπ hφ hj hk, reverse_annihilate hπ hφ hl, (annihilate_linear _).map_smul,
    (create_linear _).map_smul, (create_linear _).map_smul, (create_linear _).map_smul, smul_smul, smul_smul]
  congr 1
  ring

/-- The inverse of time reversal. -/
def reverse' (n : ℕ) (π : ℕ → ℕ) (φ : ℕ → ℂ) (v : Vec ℂ) : Vec ℂ :=
  fun F => star (changeOrbitals n (adjointOrb (partnerMatrix π φ)) v F)

include hπ hφ in
theorem reverse_anti : IsAnti n (reverse n π φ) (reverse' n π φ) := by
  have hu := partner_unitary hπ hφ
  constructor
  · exact reverse_smul
  · intro v w
    funext F
    unfold reverse'
    rw [(changeOrbitals_linear _ _).map_sub, Pi.sub_apply, star_sub]
    rfl
  · intro c v
    funext F
    unfold reverse'
    rw [(changeOrbitals_linear _ _).map_smul, Pi.smul_apply, smul_eq_mul, star_mul']
    rfl
  · intro v
    funext F
    unfold reverse' reverse
    rw [show (fun i j => if i = π j then φ j else 0) = partnerMatrix π φ from rfl, changeOrbitals_left hu]
    unfold inside
    split
    · exact star_star _
    · exact star_zero ℂ
  · intro v
    unfold reverse' reverse
    simp only [star_star]
    exact changeOrbitals_right hu v
  · intro v w
    refine (changeOrbitals_inner hu _ _).trans ?_
    unfold innerProduct
    rw [star_sum]
    refine sum_congr rfl fun F _ => ?_
    rw [star_mul']
  · intro v F hF
    unfold reverse'
    rw [changeOrbitals_outside v F hF, star_zero]
  · intro v w h
    unfold reverse'
    rw [changeOrbitals_local h]

/-! ### Product states -/

include hπ hφ in
/-- A product state becomes the product state of the partners. -/
theorem slater_partner {T : Finset ℕ} (hT : T ⊆ range n) :
    ∃ c : ℂ, ‖c‖ = 1 ∧ slater n (partnerMatrix π φ) T = c • Spec.single (T.image π) 1 := by
  induction T using Finset.induction_on_min with
  | empty => exact ⟨1, norm_one, by rw [slater_empty, image_empty, one_smul]⟩
  | insert k T hk ih =>
    have hk' : k < n := mem_range.1 (hT (mem_insert_self _ _))
    have hT' : T ⊆ range n := (subset_insert _ _).trans hT
    obtain ⟨c, hc, e⟩ := ih hT'
    have h1 : π k ∉ T.image π := by
      intro h
      obtain ⟨j, hj, e⟩ := mem_image.1 h
      have := partner_inj hπ (mem_range.1 (hT' hj)) hk' e
      exact absurd (hk j hj) (by omega)
    have h2 : create (π k) (Spec.single (T.image π) 1 : Vec ℂ)
        = (sgn (π k) (T.image π) : ℂ) • Spec.single (insert (π k) (T.image π)) 1 := by
      funext F
      rw [Pi.smul_apply, smul_eq_mul]
      unfold create Spec.single
      by_cases hF : F = insert (π k) (T.image π)
      · rw [if_pos hF, hF, if_pos (mem_insert_self _ _), erase_insert h1, if_pos rfl, sgn_insert_self]
      · rw [if_neg hF, mul_zero]
        split
        · rename_i h3
          rw [if_neg, mul_zero]
          intro h4
          exact hF (by rw [← h4, insert_erase h3])
        · rfl
    refine ⟨φ k * c * (sgn (π k) (T.image π) : ℂ), ?_, ?_⟩
    · rw [norm_mul, norm_mul, hφ, hc, sgn]
      push_cast
      rw [norm_pow, norm_neg, norm_one, one_pow]
      norm_num
    · rw [slater_insert_min hk, e, (createOrb_linear _ _ _).map_smul, createOrb_partner (hπ k hk').1, h2, image_insert,
        smul_smul, smul_smul]
      congr 1
      ring

/-- The phase of a product state. -/
def partnerPhase (n : ℕ) (π : ℕ → ℕ) (φ : ℕ → ℂ) (T : Finset ℕ) : ℂ := slater n (partnerMatrix π φ) T (T.image π)

include hπ hφ in
theorem slater_phase {T : Finset ℕ} (hT : T ⊆ range n) :
    ‖partnerPhase n π φ T‖ = 1 ∧ slater n (partnerMatrix π φ) T = partnerPhase n π φ T • Spec.single (T.image π) 1 := by
  obtain ⟨c, hc, e⟩ := slater_partner hπ hφ hT
  have h : partnerPhase n π φ T = c := by
    unfold partnerPhase
    rw [e, Pi.smul_apply, Spec.single, if_pos rfl, smul_eq_mul, mul_one]
  rw [h]
  exact ⟨hc, e⟩

include hπ in
theorem image_subset' {T : Finset ℕ} (hT : T ⊆ range n) : T.image π ⊆ range n := by
  intro i hi
  obtain ⟨j, hj, rfl⟩ := mem_image.1 hi
  exact mem_range.2 (hπ j (mem_range.1 (hT hj))).1

include hπ in
theorem image_image' {T : Finset ℕ} (hT : T ⊆ range n) : (T.image π).image π = T := by
  rw [image_image]
  ext i
  rw [mem_image]
  constructor
  · rintro ⟨j, hj, rfl⟩
    rwa [Function.comp, (hπ j (mem_range.1 (hT hj))).2]
  · exact fun hi => ⟨i, hi, (hπ i (mem_range.1 (hT hi))).2⟩

include hπ hφ in
/-- The amplitudes of the reversed state. -/
theorem reverse_apply (v : Vec ℂ) {F : Finset ℕ} (hF : F ⊆ range n) :
    reverse n π φ v F = partnerPhase n π φ (F.image π) * star (v (F.image π)) := by
  unfold reverse changeOrbitals
  have hF' := image_subset' hπ hF
  rw [sum_eq_single_of_mem (F.image π) (mem_powerset.2 hF')]
  · rw [show (fun i j => if i = π j then φ j else 0) = partnerMatrix π φ from rfl, (slater_phase hπ hφ hF').2, Pi.smul_apply,
      Spec.single, image_image' hπ hF, if_pos rfl, smul_eq_mul, mul_one, mul_comm]
  · intro T hT hne
    rw [show (fun i j => if i = π j then φ j else 0) = partnerMatrix π φ from rfl, (slater_phase hπ hφ (mem_powerset.1 hT)).2,
      Pi.smul_apply, Spec.single, if_neg, smul_zero, mul_zero]
    rintro rfl
    exact hne (image_image' hπ (mem_powerset.1 hT)).symm

theorem reverse_outside (v : Vec ℂ) {F : Finset ℕ} (hF : ¬ F ⊆ range n) : reverse n π φ v F = 0 := changeOrbitals_outside _ F hF

include hπ in
theorem card_image_inter {G T : Finset ℕ} (hG : ∀ i < n, (π i ∈ G ↔ i ∈ G)) (hT : T ⊆ range n) :
    (T.image π ∩ G).card = (T ∩ G).card := by
  have h1 : T.image π ∩ G = (T ∩ G).image π := by
    ext i
    rw [mem_inter, mem_image, mem_image]
    constructor
    · rintro ⟨⟨j, hj, rfl⟩, h⟩
      exact ⟨j, mem_inter.2 ⟨hj, (hG j (mem_range.1 (hT hj))).1 h⟩, rfl⟩
    · rintro ⟨j, hj, rfl⟩
      have := mem_inter.1 hj
      exact ⟨⟨j, this.1, rfl⟩, (hG j (mem_range.1 (hT this.1))).2 this.2⟩
  rw [h1, card_image_of_injOn]
  intro i hi j hj e
  exact partner_inj hπ (mem_range.1 (hT (mem_inter.1 hi).1)) (mem_range.1 (hT (mem_inter.1 hj).1)) e

/-! ### The Hamiltonian matrix -/

variable {op op' : Op ℕ ℂ}
  (hop : ∀ v, ∀ F ⊆ range n, operator (opSpec op') (reverse n π φ v) F = reverse n π φ (operator (opSpec op) v) F)

include hπ hφ hop in
theorem matrixElement_reverse {S T : Finset ℕ} (hS : S ⊆ range n) (hT : T ⊆ range n) :
    matrixElement op' (S.image π) (T.image π) * partnerPhase n π φ T = partnerPhase n π φ S * star (matrixElement op S T) := by
  have hS' := image_subset' hπ hS
  have h := hop (Spec.single T 1) _ hS'
  have e : reverse n π φ (Spec.single T 1) = partnerPhase n π φ T • Spec.single (T.image π) 1 := by
    rw [← (slater_phase hπ hφ hT).2, ← changeOrbitals_single hT]
    unfold reverse
    refine congrArg _ (funext fun F => ?_)
    unfold Spec.single
    split
    · exact star_one ℂ
    · exact star_zero ℂ
  rw [e, reverse_apply hπ hφ _ hS', image_image' hπ hS] at h
  replace h := (operator_smul _ _ _ _).symm.trans h
  unfold matrixElement
  rw [mul_comm]
  exact h

include hπ hφ hop in
theorem abs2_reverse {S T : Finset ℕ} (hS : S ⊆ range n) (hT : T ⊆ range n) :
    (abs2 (matrixElement op' (S.image π) (T.image π)) : ℝ) = abs2 (matrixElement op S T) := by
  have h := congrArg norm (matrixElement_reverse hπ hφ hop hS hT)
  rw [norm_mul, norm_mul, (slater_phase hπ hφ hS).1, (slater_phase hπ hφ hT).1, mul_one, one_mul, norm_star] at h
  show Complex.normSq _ = Complex.normSq _
  rw [Complex.normSq_eq_norm_sq, Complex.normSq_eq_norm_sq, h]

include hπ hφ hop in
theorem storedElement_reverse (cut : ℝ) {S T : Finset ℕ} (hS : S ⊆ range n) (hT : T ⊆ range n) :
    storedElement op' cut (S.image π) (T.image π) * partnerPhase n π φ T
      = partnerPhase n π φ S * star (storedElement op cut S T) := by
  unfold storedElement
  rw [abs2_reverse hπ hφ hop hS hT]
  split
  · exact matrixElement_reverse hπ hφ hop hS hT
  · simp

include hπ hφ hop in
theorem column_reverse (cut : ℝ) {r : Option Restrictions} (hr : ∀ F ⊆ range n, (AllowedOpt r (F.image π) ↔ AllowedOpt r F))
    {S T : Finset ℕ} (hS : S ⊆ range n) (hT : T ⊆ range n) :
    column op' cut r (T.image π) (S.image π) * partnerPhase n π φ T = partnerPhase n π φ S * star (column op cut r T S) := by
  unfold column
  rw [abs2_reverse hπ hφ hop hS hT]
  simp only [hr S hS]
  split
  · exact matrixElement_reverse hπ hφ hop hS hT
  · simp

include hπ in
theorem sum_image (f : Finset ℕ → ℂ) {s : Finset (Finset ℕ)} (hs : ∀ T ∈ s, T ⊆ range n) (hsπ : ∀ T ∈ s, T.image π ∈ s) :
    ∑ T ∈ s, f (T.image π) = ∑ T ∈ s, f T := by
  refine sum_bij' (fun T _ => T.image π) (fun T _ => T.image π) hsπ hsπ (fun T hT => image_image' hπ (hs T hT))
    (fun T hT => image_image' hπ (hs T hT)) fun _ _ => rfl

include hπ hφ hop in
theorem hamiltonian_reverse (cut : ℝ) {r : Option Restrictions}
    (hr : ∀ F ⊆ range n, (AllowedOpt r (F.image π) ↔ AllowedOpt r F)) (v : Vec ℂ) :
    hamiltonian n op' cut r (reverse n π φ v) = reverse n π φ (hamiltonian n op cut r v) := by
  funext F
  by_cases hF : F ⊆ range n
  · have hF' := image_subset' hπ hF
    rw [reverse_apply hπ hφ _ hF]
    unfold hamiltonian
    rw [if_pos hF, if_pos hF', star_sum, mul_sum,
      ← sum_image hπ (fun T => column op' cut r T F * reverse n π φ v T) (fun T hT => mem_powerset.1 hT)
        fun T hT => mem_powerset.2 (image_subset' hπ (mem_powerset.1 hT))]
    refine sum_congr rfl fun T hT => ?_
    have hT' := mem_powerset.1 hT
    have h := column_reverse hπ hφ hop cut hr hF' hT'
    rw [image_image' hπ hF] at h
    rw [reverse_apply hπ hφ _ (image_subset' hπ hT'), image_image' hπ hT', ← mul_assoc, h, star_mul']
    ring
  · rw [reverse_outside _ hF]
    exact if_neg hF

include hπ hφ hop in
theorem hamiltonian_reverse' (cut : ℝ) {r : Option Restrictions}
    (hr : ∀ F ⊆ range n, (AllowedOpt r (F.image π) ↔ AllowedOpt r F)) (v : Vec ℂ) (F : Finset ℕ) (hF : F ⊆ range n) :
    hamiltonian n op cut r (reverse' n π φ v) F = reverse' n π φ (hamiltonian n op' cut r v) F := by
  have ha := reverse_anti hπ hφ
  have h1 := congrArg (reverse' n π φ) (hamiltonian_reverse hπ hφ hop cut hr (reverse' n π φ v))
  rw [ha.right, ha.left] at h1
  have h2 : hamiltonian n op' cut r (inside n v) = hamiltonian n op' cut r v := by
    funext G
    unfold hamiltonian
    split
    · exact sum_congr rfl fun T hT => by unfold inside; rw [if_pos (mem_powerset.1 hT)]
    · rfl
  rw [h2] at h1
  rw [h1]
  exact (if_pos hF).symm

include hπ hφ hop in
theorem reverse_lowest {s : Finset (Finset ℕ)} (hs : ∀ T ∈ s, T ⊆ range n) (hsπ : ∀ T ∈ s, T.image π ∈ s) {cut : ℝ} {es : List ℝ}
    {x : ℕ → Finset ℕ → ℂ} (H : LowestIn s (storedElement op cut) es x) :
    LowestIn s (storedElement op' cut) es fun i => reverse n π φ (x i) := by
  have ha := reverse_anti hπ hφ
  refine H.map_anti (R' := reverse' n π φ) reverse_smul (fun v w h S hS => ?_) (fun v w => ?_) (fun v S hS => ?_) fun v S hS => ?_
  · rw [reverse_apply hπ hφ _ (hs S hS), reverse_apply hπ hφ _ (hs S hS), h _ (hsπ S hS)]
  · rw [star_sum, ← sum_image hπ _ hs hsπ]
    refine sum_congr rfl fun S hS => ?_
    have hS' := image_subset' hπ (hs S hS)
    rw [reverse_apply hπ hφ _ hS', reverse_apply hπ hφ _ hS', image_image' hπ (hs S hS), star_mul', star_mul', star_star]
    have h1 : star (partnerPhase n π φ S) * partnerPhase n π φ S = 1 := by
      have h := Complex.normSq_eq_conj_mul_self (z := partnerPhase n π φ S)
      rw [Complex.normSq_eq_norm_sq, (slater_phase hπ hφ (hs S hS)).1] at h
      exact h.symm.trans (by norm_num)
    linear_combination v S * star (w S) * h1
  · rw [ha.right]
    exact if_pos (hs S hS)
  · rw [reverse_apply hπ hφ _ (hs S hS), star_sum, mul_sum, ← sum_image hπ _ hs hsπ]
    refine sum_congr rfl fun T hT => ?_
    have h := storedElement_reverse hπ hφ hop cut (hs _ (hsπ S hS)) (hs T hT)
    rw [image_image' hπ (hs S hS)] at h
    rw [reverse_apply hπ hφ _ (image_subset' hπ (hs T hT)), image_image' hπ (hs T hT), ← mul_assoc, h, star_mul']
    ring

end

/-! ### The operators of the shells -/

section
variable {b : ℕ → ℕ} {P : BasisParams} {π : ℕ → ℕ} {φ : ℕ → ℂ} (hR : TimeReversal b P π φ)

theorem shell_lt {l : ℕ} (hl : l ∈ [1, 2]) {s m : ℤ} (hs : s ∈ ({0, 1} : Finset ℤ)) (hm : m ∈ mRange l) :
    position (pdSystem b) (.imp l s m) < nTotal (pdSystem b) := by
  refine position_lt (goodSystem_intKeys (nBaths := [(1, b 1), (2, b 2)]) (nodup_documented b)) ?_
  have h1 := Finset.mem_Icc.1 hm
  refine ⟨?_, ?_, ?_, h1.1, h1.2⟩
  · simp only [List.mem_cons, List.not_mem_nil, or_false] at hl
    rcases hl with rfl | rfl <;> simp [allAngulars, angulars, intKeys]
  · simp only [mem_insert, mem_singleton] at hs; omega
  · simp only [mem_insert, mem_singleton] at hs; omega

/-- The matrix of a reversed one-particle operator. -/
def flipMatrix (M : ℤ × ℤ → ℤ × ℤ → ℂ) (x y : ℤ × ℤ) : ℂ :=
  (-1) ^ (x.2 + x.1 + (y.2 + y.1)) * star (M (1 - x.1, -x.2) (1 - y.1, -y.2))

theorem flip_spin {s : ℤ} (hs : s ∈ ({0, 1} : Finset ℤ)) : 1 - s ∈ ({0, 1} : Finset ℤ) := by
  simp only [mem_insert, mem_singleton] at hs ⊢
  omega

theorem flip_m {l : ℕ} {m : ℤ} (hm : m ∈ mRange l) : -m ∈ mRange l := by
  unfold mRange at hm ⊢
  rw [mem_Icc] at hm ⊢
  omega

theorem flip_shell {l : ℕ} {x : ℤ × ℤ} (hx : x ∈ shell l) : (1 - x.1, -x.2) ∈ shell l := by
  obtain ⟨h1, h2⟩ := Finset.mem_product.1 hx
  exact Finset.mem_product.2 ⟨flip_spin h1, flip_m h2⟩

theorem star_neg_one_zpow (k : ℤ) : star ((-1 : ℂ) ^ k) = (-1) ^ k := by
  rw [star_zpow₀, star_neg, star_one]

theorem neg_one_zpow_even {k : ℤ} (h : k % 2 = 0) : (-1 : ℂ) ^ k = 1 := (Int.even_iff.2 h).neg_one_zpow

theorem neg_one_zpow_congr {k k' : ℤ} (h : (k - k') % 2 = 0) : (-1 : ℂ) ^ k = (-1) ^ k' := by
  have h1 : (-1 : ℂ) ^ k = (-1) ^ (k - k') * (-1) ^ k' := by
    rw [← zpow_add₀ (by norm_num : (-1 : ℂ) ≠ 0), sub_add_cancel]
  rw [h1, neg_one_zpow_even h, one_mul]

include hR in
theorem reverse_oneBody {l : ℕ} (hl : l ∈ [1, 2]) (M : ℤ × ℤ → ℤ × ℤ → ℂ) (v : Vec ℂ) :
    reverse (nTotal (pdSystem b)) π φ (oneBody (position (pdSystem b)) l M v)
      = oneBody (position (pdSystem b)) l (flipMatrix M) (reverse (nTotal (pdSystem b)) π φ v) := by
  unfold oneBody
  rw [reverse_sum]
  funext F
  refine sum_bij' (fun x _ => ((1 - x.1.1, -x.1.2), (1 - x.2.1, -x.2.2))) (fun x _ => ((1 - x.1.1, -x.1.2), (1 - x.2.1, -x.2.2)))
    (fun x hx => ?_) (fun x hx => ?_) (fun x _ => ?_) (fun x _ => ?_) fun x hx => ?_
  · obtain ⟨h1, h2⟩ := Finset.mem_product.1 hx
    exact Finset.mem_product.2 ⟨flip_shell h1, flip_shell h2⟩
  · obtain ⟨h1, h2⟩ := Finset.mem_product.1 hx
    exact Finset.mem_product.2 ⟨flip_shell h1, flip_shell h2⟩
  · simp only [sub_sub_cancel, neg_neg]
  · simp only [sub_sub_cancel, neg_neg]
  · obtain ⟨h1, h2⟩ := Finset.mem_product.1 hx
    obtain ⟨a1, a2⟩ := Finset.mem_product.1 h1
    obtain ⟨b1, b2⟩ := Finset.mem_product.1 h2
    rw [reverse_hop hR.partner hR.unit (shell_lt hl a1 a2) (shell_lt hl b1 b2), (hR.shell l hl _ a1 _ a2).1, (hR.shell l hl _ a1 _ a2).2,
      (hR.shell l hl _ b1 _ b2).1, (hR.shell l hl _ b1 _ b2).2, Pi.smul_apply, smul_eq_mul, ← mul_assoc]
    congr 1
    unfold flipMatrix
    dsimp only
    rw [sub_sub_cancel, neg_neg, sub_sub_cancel, neg_neg, star_neg_one_zpow, ← zpow_add₀ (by norm_num : (-1 : ℂ) ≠ 0), mul_comm]
    congr 1
    exact neg_one_zpow_congr (by omega)

include hR in
theorem reverse_shellNumber {l : ℕ} (hl : l ∈ [1, 2]) (v : Vec ℂ) :
    reverse (nTotal (pdSystem b)) π φ (shellNumber (position (pdSystem b)) l v)
      = shellNumber (position (pdSystem b)) l (reverse (nTotal (pdSystem b)) π φ v) := by
  unfold shellNumber
  have h := reverse_sum (n := nTotal (pdSystem b)) (π := π) (φ := φ) (shell l) (fun _ => 1)
    (fun x => create (position (pdSystem b) (.imp l x.1 x.2)) (annihilate (position (pdSystem b) (.imp l x.1 x.2)) v))
  simp only [one_mul, star_one] at h
  rw [h]
  funext F
  refine sum_bij' (fun x _ => (1 - x.1, -x.2)) (fun x _ => (1 - x.1, -x.2)) (fun x hx => flip_shell hx) (fun x hx => flip_shell hx)
    (fun x _ => ?_) (fun x _ => ?_) fun x hx => ?_
  · simp only [sub_sub_cancel, neg_neg]
  · simp only [sub_sub_cancel, neg_neg]
  · obtain ⟨a1, a2⟩ := Finset.mem_product.1 hx
    rw [reverse_hop hR.partner hR.unit (shell_lt hl a1 a2) (shell_lt hl a1 a2), (hR.shell l hl _ a1 _ a2).1, Pi.smul_apply,
      mul_comm (φ _), unit_star hR.unit, one_smul]

theorem sum_flip_m {l : ℕ} (f : ℤ → ℂ) : ∑ m ∈ mRange l, f (-m) = ∑ m ∈ mRange l, f m :=
  sum_bij' (fun m _ => -m) (fun m _ => -m) (fun _ h => flip_m h) (fun _ h => flip_m h) (fun _ _ => neg_neg _)
    (fun _ _ => neg_neg _) fun _ _ => rfl

theorem sum_flip_spin (f : ℤ → ℂ) : ∑ s ∈ ({0, 1} : Finset ℤ), f (1 - s) = ∑ s ∈ ({0, 1} : Finset ℤ), f s :=
  sum_bij' (fun s _ => 1 - s) (fun s _ => 1 - s) (fun _ h => flip_spin h) (fun _ h => flip_spin h) (fun _ _ => sub_sub_cancel _ _)
    (fun _ _ => sub_sub_cancel _ _) fun _ _ => rfl

theorem ck_reversed {gaunt : ℕ → ℕ → ℕ → ℤ → ℤ → ℤ → ℝ} (hG : GauntSymmetric gaunt) (k l l' : ℕ) (m m' : ℤ) :
    ck gaunt k l (-m) l' (-m') = ck gaunt k l m l' m' := by
  unfold ck
  rw [show -m - -m' = -(m - m') by ring, hG.flip]
  congr 1
  rw [zpow_neg, ← inv_zpow]
  norm_num

theorem coulomb_reversed {gaunt : ℕ → ℕ → ℕ → ℤ → ℤ → ℤ → ℝ} (hG : GauntSymmetric gaunt) (l1 l2 l3 l4 : ℕ) (R : List ℝ)
    (m1 m2 m3 m4 : ℤ) : coulomb gaunt l1 l2 l3 l4 R (-m1) (-m2) (-m3) (-m4) = coulomb gaunt l1 l2 l3 l4 R m1 m2 m3 m4 := by
  unfold coulomb
  by_cases h : m1 + m2 = m3 + m4
  · rw [if_pos h, if_pos (by omega)]
    exact sum_congr rfl fun k _ => by rw [ck_reversed hG, ck_reversed hG]
  · rw [if_neg h, if_neg (by omega)]

include hR in
theorem reverse_twoBody {gaunt : ℕ → ℕ → ℕ → ℤ → ℤ → ℤ → ℝ} (hG : GauntSymmetric gaunt) {l1 l2 l3 l4 : ℕ} (h1 : l1 ∈ [1, 2])
    (h2 : l2 ∈ [1, 2]) (h3 : l3 ∈ [1, 2]) (h4 : l4 ∈ [1, 2]) (R : List ℝ) (v : Vec ℂ) :
    reverse (nTotal (pdSystem b)) π φ (twoBody (position (pdSystem b)) l1 l2 l3 l4 (coulomb gaunt l1 l2 l3 l4 R) v)
      = twoBody (position (pdSystem b)) l1 l2 l3 l4 (coulomb gaunt l1 l2 l3 l4 R) (reverse (nTotal (pdSystem b)) π φ v) := by
  let I := mRange l1 ×ˢ mRange l2 ×ˢ mRange l3 ×ˢ mRange l4 ×ˢ ({0, 1} : Finset ℤ) ×ˢ ({0, 1} : Finset ℤ)
  have key : ∀ w : Vec ℂ, twoBody (position (pdSystem b)) l1 l2 l3 l4 (coulomb gaunt l1 l2 l3 l4 R) w
      = fun F => ∑ x ∈ I, (1 / 2 * (coulomb gaunt l1 l2 l3 l4 R x.1 x.2.1 x.2.2.1 x.2.2.2.1 : ℂ)) *
        create (position (pdSystem b) (.imp l1 x.2.2.2.2.1 x.1)) (create (position (pdSystem b) (.imp l2 x.2.2.2.2.2 x.2.1))
          (annihilate (position (pdSystem b) (.imp l3 x.2.2.2.2.2 x.2.2.1))
            (annihilate (position (pdSystem b) (.imp l4 x.2.2.2.2.1 x.2.2.2.1)) w))) F := by
    intro w
    funext F
    unfold twoBody
    simp only [I, sum_product, mul_sum, mul_assoc]
  rw [key, key, reverse_sum]
  funext F
  let fl : ℤ × ℤ × ℤ × ℤ × ℤ × ℤ → ℤ × ℤ × ℤ × ℤ × ℤ × ℤ := fun x =>
    (-x.1, -x.2.1, -x.2.2.1, -x.2.2.2.1, 1 - x.2.2.2.2.1, 1 - x.2.2.2.2.2)
  have hfl : ∀ x, fl (fl x) = x := by
    intro x
    simp only [fl, neg_neg, sub_sub_cancel]
  have hI : ∀ x ∈ I, x.1 ∈ mRange l1 ∧ x.2.1 ∈ mRange l2 ∧ x.2.2.1 ∈ mRange l3 ∧ x.2.2.2.1 ∈ mRange l4 ∧
      x.2.2.2.2.1 ∈ ({0, 1} : Finset ℤ) ∧ x.2.2.2.2.2 ∈ ({0, 1} : Finset ℤ) := by
    intro x hx
    simpa only [I, mem_product] using hx
  have hflI : ∀ x ∈ I, fl x ∈ I := by
    intro x hx
    obtain ⟨a1, a2, a3, a4, a5, a6⟩ := hI x hx
    simp only [I, mem_product, fl]
    exact ⟨flip_m a1, flip_m a2, flip_m a3, flip_m a4, flip_spin a5, flip_spin a6⟩
  refine sum_bij' (fun x _ => fl x) (fun x _ => fl x) hflI hflI (fun x _ => hfl x) (fun x _ => hfl x) fun x hx => ?_
  obtain ⟨a1, a2, a3, a4, a5, a6⟩ := hI x hx
  rw [reverse_pair hR.partner hR.unit (shell_lt h1 a5 a1) (shell_lt h2 a6 a2) (shell_lt h3 a6 a3) (shell_lt h4 a5 a4),
    (hR.shell l1 h1 _ a5 _ a1).1, (hR.shell l1 h1 _ a5 _ a1).2, (hR.shell l2 h2 _ a6 _ a2).1, (hR.shell l2 h2 _ a6 _ a2).2,
    (hR.shell l3 h3 _ a6 _ a3).1, (hR.shell l3 h3 _ a6 _ a3).2, (hR.shell l4 h4 _ a5 _ a4).1, (hR.shell l4 h4 _ a5 _ a4).2,
    Pi.smul_apply, smul_eq_mul, ← mul_assoc]
  simp only [fl]
  congr 1
  rw [coulomb_reversed hG]
  by_cases e : x.1 + x.2.1 = x.2.2.1 + x.2.2.2.1
  · rw [star_neg_one_zpow, star_neg_one_zpow, ← zpow_add₀ (by norm_num : (-1 : ℂ) ≠ 0), ← zpow_add₀ (by norm_num : (-1 : ℂ) ≠ 0),
      ← zpow_add₀ (by norm_num : (-1 : ℂ) ≠ 0), neg_one_zpow_even (by omega), mul_one, star_mul',
      show ∀ r : ℝ, star (r : ℂ) = (r : ℂ) from fun r => Complex.conj_ofReal r]
    congr 1
    rw [star_div₀, star_one, show star (2 : ℂ) = 2 from Complex.conj_ofNat 2]
  · unfold coulomb
    rw [if_neg e]
    simp

end

end

end Verif
