/-
Lemmas on changes of the spin-orbitals.
-/
import Verif.Lemmas.Fock
import Verif.Lemmas.Degenerate
import Verif.Spec.OrbitalChange
import Mathlib.Data.Finset.Sort

namespace Verif

open Finset Spec

noncomputable section

variable {n : ℕ} {u : ℕ → ℕ → ℂ}

theorem createOrb_linear (n : ℕ) (u : ℕ → ℕ → ℂ) (j : ℕ) : IsLinearMap ℂ (createOrb n u j) := by
  constructor
  · intro v w
    funext F
    simp only [createOrb, (create_linear _).map_add, Pi.add_apply, mul_add, sum_add_distrib]
  · intro c v
    funext F
    simp only [createOrb, (create_linear _).map_smul, Pi.smul_apply, smul_eq_mul, mul_sum]
    exact sum_congr rfl fun i _ => by ring

theorem annihilateOrb_linear (n : ℕ) (u : ℕ → ℕ → ℂ) (j : ℕ) : IsLinearMap ℂ (annihilateOrb n u j) := by
  constructor
  · intro v w
    funext F
    simp only [annihilateOrb, (annihilate_linear _).map_add, Pi.add_apply, mul_add, sum_add_distrib]
  · intro c v
    funext F
    simp only [annihilateOrb, (annihilate_linear _).map_smul, Pi.smul_apply, smul_eq_mul, mul_sum]
    exact sum_congr rfl fun i _ => by ring

theorem linear_apply_sum {T : Vec ℂ → Vec ℂ} (hT : IsLinearMap ℂ T) {ι : Type} (s : Finset ι) (c : ι → ℂ) (f : ι → Vec ℂ) :
    T (fun F => ∑ i ∈ s, c i * f i F) = fun F => ∑ i ∈ s, c i * T (f i) F := by
  have h1 : (fun F => ∑ i ∈ s, c i * f i F) = ∑ i ∈ s, c i • f i := by
    funext F
    simp [Finset.sum_apply]
  have h2 : T (∑ i ∈ s, c i • f i) = ∑ i ∈ s, T (c i • f i) := map_sum (hT.mk' T) _ _
  rw [h1, h2]
  funext F
  rw [Finset.sum_apply]
  refine sum_congr rfl fun i _ => ?_
  rw [hT.map_smul]
  rfl

theorem createOrb_anticomm (j k : ℕ) (v : Vec ℂ) : createOrb n u j (createOrb n u k v) = -createOrb n u k (createOrb n u j v) := by
  funext F
  have e : ∀ a b : ℕ, createOrb n u a (createOrb n u b v) F
      = ∑ i ∈ range n, ∑ i' ∈ range n, u i a * u i' b * create i (create i' v) F := by
    intro a b
    unfold createOrb
    refine sum_congr rfl fun i _ => ?_
    rw [linear_apply_sum (create_linear i), mul_sum]
    exact sum_congr rfl fun i' _ => by ring
  rw [Pi.neg_apply, e, e, sum_comm, ← sum_neg_distrib]
  refine sum_congr rfl fun i _ => ?_
  rw [← sum_neg_distrib]
  refine sum_congr rfl fun i' _ => ?_
  linear_combination u i' j * u i k * create_create i' i v F

/-- The anticommutator of removal and creation in the new states. -/
theorem orb_anticomm (h : UnitaryOn n u) {j k : ℕ} (hj : j < n) (hk : k < n) (v : Vec ℂ) (F : Finset ℕ) :
    annihilateOrb n u j (createOrb n u k v) F + createOrb n u k (annihilateOrb n u j v) F = if j = k then v F else 0 := by
  have e1 : annihilateOrb n u j (createOrb n u k v) F
      = ∑ i ∈ range n, ∑ i' ∈ range n, star (u i j) * u i' k * annihilate i (create i' v) F := by
    unfold createOrb annihilateOrb
    refine sum_congr rfl fun i _ => ?_
    rw [linear_apply_sum (annihilate_linear i), mul_sum]
    exact sum_congr rfl fun i' _ => by ring
  have e2 : createOrb n u k (annihilateOrb n u j v) F
      = ∑ i' ∈ range n, ∑ i ∈ range n, star (u i j) * u i' k * create i' (annihilate i v) F := by
    unfold createOrb annihilateOrb
    refine sum_congr rfl fun i _ => ?_
    rw [linear_apply_sum (create_linear i), mul_sum]
    exact sum_congr rfl fun i' _ => by ring
  rw [e1, e2, sum_comm (s := range n) (t := range n) (f := fun i' i => star (u i j) * u i' k * create i' (annihilate i v) F),
    ← sum_add_distrib]
  have e3 : ∀ i ∈ range n, (∑ i' ∈ range n, star (u i j) * u i' k * annihilate i (create i' v) F
      + ∑ i' ∈ range n, star (u i j) * u i' k * create i' (annihilate i v) F) = star (u i j) * u i k * v F := by
    intro i hi
    rw [← sum_add_distrib]
    simp only [← mul_add, annihilate_create, mul_ite, mul_zero]
    rw [sum_ite_eq, if_pos hi]
  rw [sum_congr rfl e3, ← sum_mul, h.cols j hj k hk]
  split <;> simp

theorem sort_insert_min {k : ℕ} {T : Finset ℕ} (h : ∀ i ∈ T, k < i) : (insert k T).sort (· ≤ ·) = k :: T.sort (· ≤ ·) :=
  Finset.sort_insert (r := (· ≤ ·)) (fun i hi => (h i hi).le) fun hk => absurd (h k hk) (lt_irrefl k)

theorem slater_empty : slater n u ∅ = Spec.single ∅ 1 := by simp [slater]

theorem slater_insert_min {k : ℕ} {T : Finset ℕ} (h : ∀ i ∈ T, k < i) :
    slater n u (insert k T) = createOrb n u k (slater n u T) := by
  unfold slater
  rw [sort_insert_min h]
  rfl

/-- Adding an electron to a Slater determinant. -/
theorem createOrb_slater (j : ℕ) (T : Finset ℕ) :
    createOrb n u j (slater n u T) = if j ∈ T then 0 else (sgn j T : ℂ) • slater n u (insert j T) := by
  induction T using Finset.induction_on_min with
  | empty =>
    rw [if_neg (notMem_empty j), slater_insert_min (by simp)]
    simp [sgn, below]
  | insert k T hT ih =>
    have hk : k ∉ T := fun h => absurd (hT k h) (lt_irrefl k)
    rcases lt_trichotomy j k with h | h | h
    · have h1 : ∀ i ∈ insert k T, j < i := by
        intro i hi
        rcases mem_insert.1 hi with rfl | hi
        · exact h
        · exact h.trans (hT i hi)
      have h2 : j ∉ insert k T := fun hj => absurd (h1 j hj) (lt_irrefl j)
      have h3 : below j (insert k T) = 0 := by
        unfold below
        rw [card_eq_zero, filter_eq_empty_iff]
        exact fun i hi => not_lt.2 (h1 i hi).le
      rw [if_neg h2, slater_insert_min h1]
      simp [sgn, h3]
    · subst h
      rw [if_pos (mem_insert_self _ _), slater_insert_min hT]
      have h := createOrb_anticomm (n := n) (u := u) j j (slater n u T)
      funext F
      have h1 := congrFun h F
      rw [Pi.neg_apply] at h1
      exact self_eq_neg.1 h1
    · rw [slater_insert_min hT, createOrb_anticomm, ih]
      by_cases hj : j ∈ T
      · rw [if_pos hj, if_pos (mem_insert_of_mem hj), (createOrb_linear n u k).map_zero, neg_zero]
      · have h2 : j ∉ insert k T := by
          rw [mem_insert, not_or]
          exact ⟨h.ne', hj⟩
        have h3 : ∀ i ∈ insert j T, k < i := by
          intro i hi
          rcases mem_insert.1 hi with rfl | hi
          · exact h
          · exact hT i hi
        rw [if_neg hj, if_neg h2, (createOrb_linear n u k).map_smul, ← slater_insert_min h3, Finset.insert_comm, sgn_insert hk,
          if_pos h]
        push_cast
        rw [neg_smul]

theorem changeOrbitals_linear (n : ℕ) (u : ℕ → ℕ → ℂ) : IsLinearMap ℂ (changeOrbitals n u) := by
  constructor
  · intro v w
    funext F
    simp only [changeOrbitals, Pi.add_apply, add_mul, sum_add_distrib]
  · intro c v
    funext F
    simp only [changeOrbitals, Pi.smul_apply, smul_eq_mul, mul_sum, mul_assoc]

theorem changeOrbitals_single {T : Finset ℕ} (hT : T ⊆ range n) : changeOrbitals n u (Spec.single T 1) = slater n u T := by
  funext F
  unfold changeOrbitals Spec.single
  simp only [ite_mul, one_mul, zero_mul]
  rw [sum_ite_eq', if_pos (mem_powerset.2 hT)]

/-- Changing the orbitals turns the creation of `j` into creation in the new state `j`. -/
theorem changeOrbitals_create {j : ℕ} (hj : j < n) (v : Vec ℂ) :
    changeOrbitals n u (create j v) = createOrb n u j (changeOrbitals n u v) := by
  have h1 : createOrb n u j (changeOrbitals n u v) = fun F => ∑ T ∈ (range n).powerset, v T * createOrb n u j (slater n u T) F :=
    linear_apply_sum (createOrb_linear n u j) _ _ _
  rw [h1]
  funext F
  have h2 : ∀ w : Vec ℂ, changeOrbitals n u w F = innerProduct n (fun T => star (slater n u T F)) w := by
    intro w
    unfold changeOrbitals innerProduct
    exact sum_congr rfl fun T _ => by rw [star_star, mul_comm]
  rw [h2, innerProduct_create n j hj]
  unfold innerProduct
  refine sum_congr rfl fun T _ => ?_
  rw [createOrb_slater, annihilate]
  split
  · simp
  · rw [star_mul', star_intCast, star_star, Pi.smul_apply, smul_eq_mul]
    ring

/-- Statements that are preserved by superposition and by the creation of electrons hold for all states if they hold for the
vacuum. -/
theorem vec_induction (n : ℕ) {Q : Vec ℂ → Prop} (hadd : ∀ v w, Q v → Q w → Q (v + w)) (hsmul : ∀ (c : ℂ) v, Q v → Q (c • v))
    (hvac : Q (Spec.single ∅ 1)) (hc : ∀ k < n, ∀ v, Q v → Q (create k v)) (v : Vec ℂ) (hv : ∀ F, ¬ F ⊆ range n → v F = 0) :
    Q v := by
  have h1 : ∀ T : Finset ℕ, T ⊆ range n → Q (Spec.single T 1) := by
    intro T
    induction T using Finset.induction_on with
    | empty => exact fun _ => hvac
    | insert k T hk ih =>
      intro hT
      have h2 : (Spec.single (insert k T) 1 : Vec ℂ) = (sgn k T : ℂ) • create k (Spec.single T 1) := by
        funext F
        rw [Pi.smul_apply, smul_eq_mul]
        unfold create Spec.single
        by_cases hF : F = insert k T
        · rw [if_pos hF, hF, if_pos (mem_insert_self _ _), erase_insert hk, if_pos rfl, mul_one, sgn_insert_self, sgn_sq]
        · rw [if_neg hF]
          split
          · rename_i h3
            rw [if_neg, mul_zero, mul_zero]
            intro h4
            exact hF (by rw [← h4, insert_erase h3])
          · rw [mul_zero]
      rw [h2]
      exact hsmul _ _ (hc k (mem_range.1 (hT (mem_insert_self _ _))) _ (ih ((subset_insert _ _).trans hT)))
  have h0 : Q 0 := by
    have h := hsmul 0 _ hvac
    rwa [zero_smul] at h
  have h3 : ∀ s : Finset (Finset ℕ), (∀ T ∈ s, T ⊆ range n) → Q (∑ T ∈ s, v T • Spec.single T 1) := by
    intro s
    induction s using Finset.induction_on with
    | empty => exact fun _ => by rw [sum_empty]; exact h0
    | insert T s hT ih =>
      intro hs
      rw [sum_insert hT]
      exact hadd _ _ (hsmul _ _ (h1 T (hs T (mem_insert_self _ _)))) (ih fun T' h => hs T' (mem_insert_of_mem h))
  have h4 : v = ∑ T ∈ (range n).powerset, v T • Spec.single T 1 := by
    funext F
    rw [Finset.sum_apply]
    simp only [Pi.smul_apply, smul_eq_mul, Spec.single, mul_ite, mul_one, mul_zero]
    rw [sum_ite_eq]
    split
    · rfl
    · rename_i h
      exact hv F fun h' => h (mem_powerset.2 h')
  rw [h4]
  exact h3 _ fun T hT => mem_powerset.1 hT

theorem changeOrbitals_local {v w : Vec ℂ} (h : ∀ F ⊆ range n, v F = w F) : changeOrbitals n u v = changeOrbitals n u w := by
  funext F
  unfold changeOrbitals
  exact sum_congr rfl fun T hT => by rw [h T (mem_powerset.1 hT)]

theorem createOrb_outside (j : ℕ) {v : Vec ℂ} (hv : ∀ F, ¬ F ⊆ range n → v F = 0) (F : Finset ℕ) (hF : ¬ F ⊆ range n) :
    createOrb n u j v F = 0 := by
  refine sum_eq_zero fun i hi => ?_
  unfold create
  split
  · rw [hv, mul_zero, mul_zero]
    intro h
    exact hF fun k hk => by
      by_cases e : k = i
      · rw [e]; exact hi
      · exact h (mem_erase.2 ⟨e, hk⟩)
  · rw [mul_zero]

theorem slater_outside (T F : Finset ℕ) (hF : ¬ F ⊆ range n) : slater n u T F = 0 := by
  revert F
  induction T using Finset.induction_on_min with
  | empty =>
    intro F hF
    rw [slater_empty, Spec.single, if_neg]
    rintro rfl
    exact hF (empty_subset _)
  | insert k T hT ih =>
    intro F hF
    rw [slater_insert_min hT]
    exact createOrb_outside k ih F hF

theorem changeOrbitals_outside (v : Vec ℂ) (F : Finset ℕ) (hF : ¬ F ⊆ range n) : changeOrbitals n u v F = 0 :=
  sum_eq_zero fun T _ => by rw [slater_outside T F hF, mul_zero]

/-- The part of a vector inside the system. -/
def inside (n : ℕ) (v : Vec ℂ) : Vec ℂ := fun F => if F ⊆ range n then v F else 0

theorem inside_zero (v : Vec ℂ) (F : Finset ℕ) (hF : ¬ F ⊆ range n) : inside n v F = 0 := if_neg hF

theorem changeOrbitals_inside (v : Vec ℂ) : changeOrbitals n u (inside n v) = changeOrbitals n u v :=
  changeOrbitals_local fun _ hF => if_pos hF

/-- Changing the orbitals turns the removal from `j` into the removal from the new state `j`. -/
theorem changeOrbitals_annihilate (h : UnitaryOn n u) {j : ℕ} (hj : j < n) (v : Vec ℂ) :
    changeOrbitals n u (annihilate j v) = annihilateOrb n u j (changeOrbitals n u v) := by
  have h1 : ∀ v : Vec ℂ, (∀ F, ¬ F ⊆ range n → v F = 0) →
      changeOrbitals n u (annihilate j v) = annihilateOrb n u j (changeOrbitals n u v) := by
    refine vec_induction n (fun v w hv hw => ?_) (fun c v hv => ?_) ?_ fun k hk v hv => ?_
    · rw [(annihilate_linear j).map_add, (changeOrbitals_linear n u).map_add, hv, hw, (changeOrbitals_linear n u).map_add,
        (annihilateOrb_linear n u j).map_add]
    · rw [(annihilate_linear j).map_smul, (changeOrbitals_linear n u).map_smul, hv, (changeOrbitals_linear n u).map_smul,
        (annihilateOrb_linear n u j).map_smul]
    · have e : ∀ i, annihilate i (Spec.single ∅ 1 : Vec ℂ) = 0 := by
        intro i
        funext F
        unfold annihilate Spec.single
        split
        · rfl
        · rw [if_neg (insert_ne_empty i F), mul_zero]; rfl
      rw [e, (changeOrbitals_linear n u).map_zero, changeOrbitals_single (empty_subset _), slater_empty]
      funext F
      simp [annihilateOrb, e]
    · have e1 : annihilate j (create k v) = (if j = k then v else 0) - create k (annihilate j v) := by
        funext F
        have := annihilate_create j k v F
        rw [Pi.sub_apply]
        split_ifs at this ⊢ <;> first | exact eq_sub_of_add_eq this
      have e2 : annihilateOrb n u j (createOrb n u k (changeOrbitals n u v))
          = (if j = k then changeOrbitals n u v else 0) - createOrb n u k (annihilateOrb n u j (changeOrbitals n u v)) := by
        funext F
        have := orb_anticomm h hj hk (changeOrbitals n u v) F
        rw [Pi.sub_apply]
        split_ifs at this ⊢ <;> first | exact eq_sub_of_add_eq this
      rw [changeOrbitals_create hk, e2, e1, (changeOrbitals_linear n u).map_sub, changeOrbitals_create hk, hv]
      split_ifs
      · rfl
      · rw [(changeOrbitals_linear n u).map_zero]
  rw [← changeOrbitals_inside, ← changeOrbitals_inside v, ← h1 _ (inside_zero v)]
  refine changeOrbitals_local fun F hF => ?_
  unfold inside annihilate
  rw [if_pos hF]
  split
  · rfl
  · dsimp only
    rw [if_pos (insert_subset (mem_range.2 hj) hF)]

/-- The inverse change. -/
def adjointOrb (u : ℕ → ℕ → ℂ) : ℕ → ℕ → ℂ := fun i j => star (u j i)

theorem unitary_adjoint (h : UnitaryOn n u) : UnitaryOn n (adjointOrb u) := by
  refine ⟨fun j hj k hk => ?_, fun j hj k hk => ?_⟩
  · rw [← h.rows j hj k hk]
    exact sum_congr rfl fun i _ => by rw [adjointOrb, adjointOrb, star_star]
  · rw [← h.cols j hj k hk]
    exact sum_congr rfl fun i _ => by rw [adjointOrb, adjointOrb, star_star]

theorem adjointOrb_adjointOrb (u : ℕ → ℕ → ℂ) : adjointOrb (adjointOrb u) = u := by
  funext i j
  exact star_star _

/-- Two changes, one after the other. -/
theorem changeOrbitals_comp {u' : ℕ → ℕ → ℂ} (v : Vec ℂ) :
    changeOrbitals n u' (changeOrbitals n u v) = changeOrbitals n (fun i j => ∑ k ∈ range n, u' i k * u k j) v := by
  rw [← changeOrbitals_inside v, ← changeOrbitals_inside (u := fun i j => _) v]
  refine vec_induction n (Q := fun v => changeOrbitals n u' (changeOrbitals n u v)
    = changeOrbitals n (fun i j => ∑ k ∈ range n, u' i k * u k j) v) (fun v w hv hw => ?_) (fun c v hv => ?_) ?_
    (fun k hk v hv => ?_) _ (inside_zero v)
  · rw [(changeOrbitals_linear _ _).map_add, (changeOrbitals_linear _ _).map_add, hv, hw, (changeOrbitals_linear _ _).map_add]
  · rw [(changeOrbitals_linear _ _).map_smul, (changeOrbitals_linear _ _).map_smul, hv, (changeOrbitals_linear _ _).map_smul]
  · simp only [changeOrbitals_single (empty_subset _), slater_empty]
  · rw [changeOrbitals_create hk, changeOrbitals_create hk, ← hv]
    have h1 : changeOrbitals n u' (createOrb n u k (changeOrbitals n u v))
        = fun F => ∑ i ∈ range n, u i k * changeOrbitals n u' (create i (changeOrbitals n u v)) F :=
      linear_apply_sum (changeOrbitals_linear n u') _ _ _
    rw [h1]
    funext F
    unfold createOrb
    simp only [sum_mul]
    rw [sum_comm]
    refine sum_congr rfl fun i hi => ?_
    rw [changeOrbitals_create (mem_range.1 hi), createOrb, mul_sum]
    exact sum_congr rfl fun i' _ => by ring

theorem changeOrbitals_one {e : ℕ → ℕ → ℂ} (he : ∀ i < n, ∀ j < n, e i j = if i = j then 1 else 0) (v : Vec ℂ) :
    changeOrbitals n e v = inside n v := by
  rw [← changeOrbitals_inside v]
  refine vec_induction n (Q := fun v => changeOrbitals n e v = v) (fun v w hv hw => ?_) (fun c v hv => ?_) ?_
    (fun k hk v hv => ?_) _ (inside_zero v)
  · rw [(changeOrbitals_linear _ _).map_add, hv, hw]
  · rw [(changeOrbitals_linear _ _).map_smul, hv]
  · simp only [changeOrbitals_single (empty_subset _), slater_empty]
  · rw [changeOrbitals_create hk, hv]
    funext F
    unfold createOrb
    rw [sum_eq_single_of_mem k (mem_range.2 hk), he k hk k hk, if_pos rfl, one_mul]
    intro i hi hne
    rw [he i (mem_range.1 hi) k hk, if_neg hne, zero_mul]

theorem changeOrbitals_left (h : UnitaryOn n u) (v : Vec ℂ) : changeOrbitals n (adjointOrb u) (changeOrbitals n u v) = inside n v := by
  rw [changeOrbitals_comp]
  exact changeOrbitals_one (fun i hi j hj => h.cols i hi j hj) v

theorem changeOrbitals_right (h : UnitaryOn n u) (v : Vec ℂ) : changeOrbitals n u (changeOrbitals n (adjointOrb u) v) = inside n v := by
  rw [changeOrbitals_comp]
  exact changeOrbitals_one (fun i hi j hj => h.rows i hi j hj) v

theorem innerProduct_local {v v' w w' : Vec ℂ} (hv : ∀ F ⊆ range n, v F = v' F) (hw : ∀ F ⊆ range n, w F = w' F) :
    innerProduct n v w = innerProduct n v' w' :=
  sum_congr rfl fun F hF => by rw [hv F (mem_powerset.1 hF), hw F (mem_powerset.1 hF)]

theorem createOrb_adjoint (j : ℕ) (v w : Vec ℂ) : innerProduct n (createOrb n u j v) w = innerProduct n v (annihilateOrb n u j w) := by
  have h1 : innerProduct n (createOrb n u j v) w = ∑ i ∈ range n, star (u i j) * innerProduct n (create i v) w := by
    unfold innerProduct createOrb
    simp only [star_sum, star_mul', sum_mul, mul_sum]
    rw [sum_comm]
    exact sum_congr rfl fun i _ => sum_congr rfl fun S _ => by ring
  have h2 : innerProduct n v (annihilateOrb n u j w) = ∑ i ∈ range n, star (u i j) * innerProduct n v (annihilate i w) := by
    unfold innerProduct annihilateOrb
    simp only [mul_sum]
    rw [sum_comm]
    exact sum_congr rfl fun i _ => sum_congr rfl fun S _ => by ring
  rw [h1, h2]
  exact sum_congr rfl fun i hi => by rw [innerProduct_annihilate n i (mem_range.1 hi)]

/-- The inverse change is the adjoint. -/
theorem changeOrbitals_adjoint (h : UnitaryOn n u) (v w : Vec ℂ) :
    innerProduct n (changeOrbitals n u v) w = innerProduct n v (changeOrbitals n (adjointOrb u) w) := by
  rw [← changeOrbitals_inside v, innerProduct_local (v := v) (v' := inside n v) (fun F hF => (if_pos hF).symm) fun F _ => rfl]
  refine vec_induction n (Q := fun v => ∀ w, innerProduct n (changeOrbitals n u v) w
    = innerProduct n v (changeOrbitals n (adjointOrb u) w)) (fun v v' hv hv' w => ?_) (fun c v hv w => ?_) (fun w => ?_)
    (fun k hk v hv w => ?_) _ (inside_zero v) w
  · rw [(changeOrbitals_linear _ _).map_add]
    have e : ∀ a b c : Vec ℂ, innerProduct n (a + b) c = innerProduct n a c + innerProduct n b c := by
      intro a b c
      simp only [innerProduct, Pi.add_apply, star_add, add_mul, sum_add_distrib]
    rw [e, e, hv, hv']
  · rw [(changeOrbitals_linear _ _).map_smul]
    have e : ∀ a b : Vec ℂ, innerProduct n (c • a) b = star c * innerProduct n a b := by
      intro a b
      simp only [innerProduct, Pi.smul_apply, smul_eq_mul, star_mul', mul_sum, mul_assoc]
    rw [e, e, hv]
  · rw [changeOrbitals_single (empty_subset _), slater_empty]
    have e : ∀ a : Vec ℂ, innerProduct n (Spec.single ∅ 1) a = a ∅ := by
      intro a
      unfold innerProduct Spec.single
      simp only [apply_ite star, star_one, star_zero, ite_mul, one_mul, zero_mul]
      rw [sum_ite_eq', if_pos (empty_mem_powerset _)]
    rw [e, e]
    unfold changeOrbitals
    rw [sum_eq_single_of_mem ∅ (empty_mem_powerset _), slater_empty, Spec.single, if_pos rfl, mul_one]
    intro T _ hT
    obtain ⟨k, T', h1, h2⟩ : ∃ k T', T = insert k T' ∧ ∀ i ∈ T', k < i := by
      have hne := nonempty_iff_ne_empty.2 hT
      refine ⟨T.min' hne, T.erase (T.min' hne), (insert_erase (min'_mem _ _)).symm, fun i hi => ?_⟩
      exact min'_lt_of_mem_erase_min' _ _ hi
    rw [h1, slater_insert_min h2, createOrb, sum_eq_zero, mul_zero]
    intro i _
    unfold create
    rw [if_neg (notMem_empty i), mul_zero]
  · rw [changeOrbitals_create hk, createOrb_adjoint, hv, ← innerProduct_annihilate n k hk]
    refine congrArg _ ?_
    have h1 : changeOrbitals n (adjointOrb u) (annihilateOrb n u k w)
        = fun F => ∑ i ∈ range n, star (u i k) * changeOrbitals n (adjointOrb u) (annihilate i w) F :=
      linear_apply_sum (changeOrbitals_linear n _) _ _ _
    rw [h1]
    funext F
    have h2 : ∀ i ∈ range n, star (u i k) * changeOrbitals n (adjointOrb u) (annihilate i w) F
        = ∑ i' ∈ range n, star (u i k) * u i i' * annihilate i' (changeOrbitals n (adjointOrb u) w) F := by
      intro i hi
      rw [changeOrbitals_annihilate (unitary_adjoint h) (mem_range.1 hi), annihilateOrb, mul_sum]
      exact sum_congr rfl fun i' _ => by rw [adjointOrb, star_star]; ring
    rw [sum_congr rfl h2, sum_comm, sum_eq_single_of_mem k (mem_range.2 hk), ← sum_mul, h.cols k hk k hk, if_pos rfl, one_mul]
    intro i hi hne
    rw [← sum_mul, h.cols k hk i (mem_range.1 hi), if_neg hne.symm, zero_mul]

/-- Changes of the orbitals conserve inner products. -/
theorem changeOrbitals_inner (h : UnitaryOn n u) (v w : Vec ℂ) :
    innerProduct n (changeOrbitals n u v) (changeOrbitals n u w) = innerProduct n v w := by
  rw [changeOrbitals_adjoint h, changeOrbitals_left h]
  exact innerProduct_local (fun _ _ => rfl) fun F hF => if_pos hF

/-- The occupation of a group of spin-orbitals is conserved if no electron is moved into or out of it. -/
theorem slater_count {G : Finset ℕ} (hG : ∀ i < n, ∀ j < n, u i j ≠ 0 → (i ∈ G ↔ j ∈ G)) {T F : Finset ℕ} (hT' : T ⊆ range n)
    (h : slater n u T F ≠ 0) : (F ∩ G).card = (T ∩ G).card := by
  revert F
  induction T using Finset.induction_on_min with
  | empty =>
    intro F h
    rw [slater_empty, Spec.single] at h
    by_cases e : F = ∅
    · rw [e]
    · exact absurd (if_neg e) h
  | insert k T hT ih =>
    intro F h
    rw [slater_insert_min hT, createOrb] at h
    obtain ⟨i, hi, h1⟩ := exists_ne_zero_of_sum_ne_zero h
    have hk' : k < n := mem_range.1 (hT' (mem_insert_self _ _))
    have h2 := left_ne_zero_of_mul h1
    have h3 := right_ne_zero_of_mul h1
    unfold create at h3
    by_cases hiF : i ∈ F
    · rw [if_pos hiF] at h3
      have h4 := ih ((subset_insert _ _).trans hT') (right_ne_zero_of_mul h3)
      have hk : k ∉ T := fun h => absurd (hT k h) (lt_irrefl k)
      have h5 := hG i (mem_range.1 hi) k hk' h2
      by_cases hg : i ∈ G
      · rw [insert_inter_of_mem (h5.1 hg), card_insert_of_notMem (fun h => hk (mem_inter.1 h).1), ← h4, erase_inter,
          card_erase_add_one (mem_inter.2 ⟨hiF, hg⟩)]
      · rw [insert_inter_of_notMem (fun h => hg (h5.2 h)), ← h4, erase_inter, erase_eq_of_notMem fun h => hg (mem_inter.1 h).2]
    · rw [if_neg hiF] at h3
      exact absurd rfl h3

end

end Verif
