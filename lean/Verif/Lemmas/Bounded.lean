/-
Lemmas for C84: how much longer operators make vectors, and what the cutoffs drop from them.
-/
import Verif.Lemmas.Cutoff
import Verif.Lemmas.Weyl

namespace Verif

open Finset Spec

noncomputable section

/-- The length of a vector. -/
def len (n : ℕ) (v : Vec ℂ) : ℝ := ‖onStates (range n).powerset v‖

theorem len_sq (n : ℕ) (v : Vec ℂ) : len n v ^ 2 = Spec.normSq n v := norm_onStates v

theorem len_nonneg (n : ℕ) (v : Vec ℂ) : 0 ≤ len n v := norm_nonneg _

theorem len_add (n : ℕ) (v w : Vec ℂ) : len n (v + w) ≤ len n v + len n w :=
  norm_add_le (onStates (range n).powerset v) (onStates (range n).powerset w)

theorem len_smul (n : ℕ) (c : ℂ) (v : Vec ℂ) : len n (c • v) = ‖c‖ * len n v := norm_smul c (onStates (range n).powerset v)

theorem len_zero (n : ℕ) : len n 0 = 0 := norm_zero (E := EuclideanSpace ℂ (range n).powerset)

theorem len_le {n : ℕ} {v : Vec ℂ} {a : ℝ} (ha : 0 ≤ a) (h : Spec.normSq n v ≤ a ^ 2) : len n v ≤ a := by
  rw [← len_sq] at h
  exact le_of_sq_le_sq h ha

theorem normSq_le_of_len {n : ℕ} {v : Vec ℂ} {a : ℝ} (h : len n v ≤ a) : Spec.normSq n v ≤ a ^ 2 := by
  rw [← len_sq]
  exact pow_le_pow_left₀ (len_nonneg _ _) h 2

theorem len_sum {ι : Type} (n : ℕ) (s : Finset ι) (v : ι → Vec ℂ) : len n (∑ k ∈ s, v k) ≤ ∑ k ∈ s, len n (v k) := by
  classical
  induction s using Finset.induction_on with
  | empty => rw [sum_empty, sum_empty, len_zero]
  | insert a s ha ih =>
    rw [sum_insert ha, sum_insert ha]
    exact (len_add _ _ _).trans (add_le_add le_rfl ih)

theorem len_mono {n : ℕ} {v w : Vec ℂ} (h : ∀ S, ‖v S‖ ≤ ‖w S‖) : len n v ≤ len n w := by
  refine le_of_sq_le_sq ?_ (len_nonneg _ _)
  rw [len_sq, len_sq]
  unfold Spec.normSq
  refine sum_le_sum fun S _ => ?_
  rw [Complex.normSq_eq_norm_sq, Complex.normSq_eq_norm_sq]
  exact pow_le_pow_left₀ (norm_nonneg _) (h S) 2

theorem normSq_sgn_mul (i : ℕ) (S : Finset ℕ) (z : ℂ) : Complex.normSq (((sgn i S : ℤ) : ℂ) * z) = Complex.normSq z := by
  rw [Complex.normSq_mul]
  unfold sgn
  simp

theorem normSq_create_le (n i : ℕ) (v : Vec ℂ) : Spec.normSq n (create i v) ≤ Spec.normSq n v := by
  classical
  unfold Spec.normSq
  have h1 : ∑ S ∈ (range n).powerset, Complex.normSq (create i v S)
      = ∑ S ∈ (range n).powerset with i ∈ S, Complex.normSq (v (S.erase i)) := by
    rw [sum_filter]
    refine sum_congr rfl fun S _ => ?_
    unfold create
    split
    · exact normSq_sgn_mul _ _ _
    · exact Complex.normSq_zero
  rw [h1, ← Finset.sum_image (f := fun S => Complex.normSq (v S)) (g := fun S : Finset ℕ => S.erase i)
    (s := {S ∈ (range n).powerset | i ∈ S})]
  · refine sum_le_sum_of_subset_of_nonneg ?_ fun S _ _ => Complex.normSq_nonneg _
    intro S hS
    obtain ⟨T, hT, rfl⟩ := mem_image.1 hS
    rw [mem_filter, mem_powerset] at hT
    rw [mem_powerset]
    exact (erase_subset _ _).trans hT.1
  · intro S hS T hT h
    have hS := (mem_filter.1 hS).2
    have hT := (mem_filter.1 hT).2
    have h : S.erase i = T.erase i := h
    rw [← insert_erase hS, h, insert_erase hT]

theorem normSq_annihilate_le (n i : ℕ) {v : Vec ℂ} (hv : ∀ S, ¬ S ⊆ range n → v S = 0) :
    Spec.normSq n (annihilate i v) ≤ Spec.normSq n v := by
  classical
  unfold Spec.normSq
  by_cases hi : i < n
  · have h1 : ∑ S ∈ (range n).powerset, Complex.normSq (annihilate i v S)
        = ∑ S ∈ (range n).powerset with i ∉ S, Complex.normSq (v (insert i S)) := by
      rw [sum_filter]
      refine sum_congr rfl fun S _ => ?_
      unfold annihilate
      by_cases h : i ∈ S
      · rw [if_pos h, if_neg (not_not.2 h), Complex.normSq_zero]
      · rw [if_neg h, if_pos h, normSq_sgn_mul]
    rw [h1, ← Finset.sum_image (f := fun S => Complex.normSq (v S)) (g := fun S : Finset ℕ => insert i S)
      (s := {S ∈ (range n).powerset | i ∉ S})]
    · refine sum_le_sum_of_subset_of_nonneg ?_ fun S _ _ => Complex.normSq_nonneg _
      intro S hS
      obtain ⟨T, hT, rfl⟩ := mem_image.1 hS
      rw [mem_filter, mem_powerset] at hT
      rw [mem_powerset]
      exact insert_subset (mem_range.2 hi) hT.1
    · intro S hS T hT h
      have hS := (mem_filter.1 hS).2
      have hT := (mem_filter.1 hT).2
      have h : insert i S = insert i T := h
      rw [← erase_insert hS, h, erase_insert hT]
  · refine (sum_nonpos fun S _ => ?_).trans (sum_nonneg fun S _ => Complex.normSq_nonneg _)
    unfold annihilate
    split
    · rw [Complex.normSq_zero]
    · rw [hv _ (fun h => hi (mem_range.1 (h (mem_insert_self _ _)))), mul_zero, Complex.normSq_zero]

theorem boundedBy_create (n i : ℕ) : BoundedBy n (create i) 1 :=
  ⟨create_linear i, zero_le_one, fun v _ => by rw [one_pow, one_mul]; exact normSq_create_le n i v⟩

theorem boundedBy_annihilate (n i : ℕ) : BoundedBy n (annihilate i) 1 :=
  ⟨annihilate_linear i, zero_le_one, fun v hv => by rw [one_pow, one_mul]; exact normSq_annihilate_le n i hv⟩

theorem annihilate_outside {n i : ℕ} {v : Vec ℂ} (hv : ∀ S, ¬ S ⊆ range n → v S = 0) {S : Finset ℕ} (hS : ¬ S ⊆ range n) :
    annihilate i v S = 0 := by
  unfold annihilate
  split
  · rfl
  · rw [hv _ (fun h => hS ((subset_insert _ _).trans h)), mul_zero]

theorem Spec.BoundedBy.stretch {n : ℕ} {T : Vec ℂ → Vec ℂ} {t : ℝ} (h : BoundedBy n T t) {v : Vec ℂ} (hv : ∀ S, ¬ S ⊆ range n → v S = 0) :
    Verif.len n (T v) ≤ t * Verif.len n v := by
  refine len_le (mul_nonneg h.nonneg (len_nonneg _ _)) ?_
  rw [mul_pow, len_sq]
  exact h.bound v hv

/-- An operator between two shells. -/
theorem boundedBy_between (n : ℕ) (f : Label → ℕ) (li lj : ℕ) (M : ℤ → ℤ → ℂ) :
    BoundedBy n (between f li lj M) (2 * ∑ m ∈ mRange li, ∑ m' ∈ mRange lj, ‖M m m'‖) := by
  have h0 : 0 ≤ ∑ m ∈ mRange li, ∑ m' ∈ mRange lj, ‖M m m'‖ := sum_nonneg fun _ _ => sum_nonneg fun _ _ => norm_nonneg _
  refine ⟨between_linear _ _ _ _, by positivity, fun v hv => ?_⟩
  rw [← len_sq, ← len_sq, ← mul_pow]
  refine pow_le_pow_left₀ (len_nonneg _ _) ?_ 2
  have e : between f li lj M v = ∑ s ∈ ({0, 1} : Finset ℤ), ∑ m ∈ mRange li, ∑ m' ∈ mRange lj,
      M m m' • create (f (.imp li s m)) (annihilate (f (.imp lj s m')) v) := by
    funext S
    simp only [Finset.sum_apply, Pi.smul_apply, smul_eq_mul]
    rfl
  rw [e]
  refine (len_sum _ _ _).trans ?_
  have h1 : ∀ s ∈ ({0, 1} : Finset ℤ), len n (∑ m ∈ mRange li, ∑ m' ∈ mRange lj,
      M m m' • create (f (.imp li s m)) (annihilate (f (.imp lj s m')) v))
        ≤ (∑ m ∈ mRange li, ∑ m' ∈ mRange lj, ‖M m m'‖) * len n v := by
    intro s _
    refine (len_sum _ _ _).trans ?_
    rw [sum_mul]
    refine sum_le_sum fun m _ => (len_sum _ _ _).trans ?_
    rw [sum_mul]
    refine sum_le_sum fun m' _ => ?_
    rw [len_smul]
    refine mul_le_mul_of_nonneg_left ?_ (norm_nonneg _)
    have h2 := (boundedBy_create n (f (.imp li s m))).stretch (v := annihilate (f (.imp lj s m')) v) fun S hS => annihilate_outside hv hS
    have h3 := (boundedBy_annihilate n (f (.imp lj s m'))).stretch hv
    rw [one_mul] at h2 h3
    exact h2.trans h3
  refine (sum_le_sum h1).trans (le_of_eq ?_)
  rw [sum_const, nsmul_eq_mul]
  have : #({0, 1} : Finset ℤ) = 2 := by decide
  rw [this]
  push_cast
  ring

theorem Spec.BoundedBy.smul {n : ℕ} {T : Vec ℂ → Vec ℂ} {t : ℝ} (h : BoundedBy n T t) (c : ℂ) :
    BoundedBy n (fun v S => c * T v S) (‖c‖ * t) := by
  refine ⟨⟨fun v w => ?_, fun a v => ?_⟩, mul_nonneg (norm_nonneg _) h.nonneg, fun v hv => ?_⟩
  · funext S
    rw [h.linear.map_add, Pi.add_apply, Pi.add_apply, mul_add]
  · funext S
    rw [h.linear.map_smul, Pi.smul_apply, Pi.smul_apply, smul_eq_mul, smul_eq_mul]
    ring
  · rw [← len_sq]
    have : len n (fun S => c * T v S) = ‖c‖ * len n (T v) := len_smul n c (T v)
    rw [this, mul_pow, mul_pow, mul_assoc, len_sq]
    exact mul_le_mul_of_nonneg_left (h.bound v hv) (sq_nonneg _)

/-- What the cutoff drops. -/
theorem dropped_len {n : ℕ} (T : Vec ℂ → Vec ℂ) {weight : ℝ} (hw : 0 ≤ weight) (r : Option Restrictions) (x : Vec ℂ) :
    len n (excited n T weight r x - allowedPart n r T x) ≤ Real.sqrt (dropped n T weight x * weight) := by
  classical
  refine len_le (Real.sqrt_nonneg _) ?_
  rw [Real.sq_sqrt (mul_nonneg (Nat.cast_nonneg _) hw)]
  unfold Spec.normSq dropped
  have h1 : ∀ S ∈ (range n).powerset, Complex.normSq ((excited n T weight r x - allowedPart n r T x) S)
      ≤ if T x S ≠ 0 ∧ Complex.normSq (T x S) < weight then weight else 0 := by
    intro S hS
    rw [Pi.sub_apply]
    unfold excited allowedPart
    by_cases ha : S ⊆ range n ∧ AllowedOpt r S
    · rw [if_pos ha]
      by_cases hc : weight ≤ abs2 (T x S)
      · rw [if_pos ⟨ha.1, ha.2, hc⟩, sub_self, Complex.normSq_zero]
        split
        · exact hw
        · exact le_rfl
      · rw [if_neg (fun h => hc h.2.2), zero_sub, Complex.normSq_neg]
        by_cases h0 : T x S = 0
        · rw [h0, Complex.normSq_zero]
          split
          · exact hw
          · exact le_rfl
        · rw [if_pos ⟨h0, not_le.1 hc⟩]
          exact (not_le.1 hc).le
    · rw [if_neg ha, if_neg (fun h => ha ⟨h.1, h.2.1⟩), sub_zero, Complex.normSq_zero]
      split
      · exact hw
      · exact le_rfl
  refine (sum_le_sum h1).trans (le_of_eq ?_)
  rw [← sum_filter, sum_const, nsmul_eq_mul]

/-- The vectors on which the resolvents act. -/
theorem excited_close {n : ℕ} {T : Vec ℂ → Vec ℂ} {t : ℝ} (hT : BoundedBy n T t) {weight : ℝ} (hw : 0 ≤ weight)
    (r : Option Restrictions) {psi x : Vec ℂ} (hpsi : ∀ S, ¬ S ⊆ range n → psi S = 0) (hx : ∀ S, ¬ S ⊆ range n → x S = 0)
    {eta : ℝ} (h0 : 0 ≤ eta) (heta : Spec.normSq n (psi - x) ≤ eta ^ 2) :
    len n (excited n T weight r psi - allowedPart n r T x) ≤ vectorError t eta weight (dropped n T weight psi) := by
  have e : excited n T weight r psi - allowedPart n r T x
      = (excited n T weight r psi - allowedPart n r T psi) + allowedPart n r T (psi - x) := by
    funext S
    rw [Pi.add_apply, Pi.sub_apply, Pi.sub_apply]
    unfold allowedPart
    split
    · rw [hT.linear.map_sub, Pi.sub_apply]; ring
    · ring
  rw [e]
  refine (len_add _ _ _).trans ?_
  unfold vectorError
  rw [add_comm]
  refine add_le_add ?_ (dropped_len T hw r psi)
  refine le_trans (len_mono fun S => ?_)
    ((hT.stretch (v := psi - x) (fun S hS => by rw [Pi.sub_apply, hpsi S hS, hx S hS, sub_zero])).trans
      (mul_le_mul_of_nonneg_left (len_le h0 heta) hT.nonneg))
  unfold allowedPart
  split
  · exact le_rfl
  · rw [norm_zero]; exact norm_nonneg _

theorem len_allowedPart {n : ℕ} (T : Vec ℂ → Vec ℂ) (r : Option Restrictions) (x : Vec ℂ) :
    len n (allowedPart n r T x) ≤ len n (T x) := by
  refine len_mono fun S => ?_
  unfold allowedPart
  split
  · exact le_rfl
  · rw [norm_zero]; exact norm_nonneg _

end

end Verif
