/-
Lemmas for C86: matrix elements of two operators that are close.
-/
import Verif.Spec.Perturb
import Verif.Lemmas.Cutoff
import Verif.Lemmas.Weyl

namespace Verif

open Finset Spec

noncomputable section

theorem Dict.sum_eq_sum_keys {ι : Type} [DecidableEq ι] {op : Op ι ℂ} (hnd : Dict.NodupKeys op) (f : Process ι → ℂ) {K : Finset (Process ι)}
    (hK : (Dict.keys op).toFinset ⊆ K) : (op.map fun q => q.2 * f q.1).sum = ∑ p ∈ K, strength op p * f p := by
  have h0 : ∀ p ∈ K, p ∉ (Dict.keys op).toFinset → strength op p * f p = 0 := by
    intro p _ hp
    rw [List.mem_toFinset, Dict.mem_keys_iff] at hp
    unfold strength
    rw [Option.not_isSome_iff_eq_none.1 hp]
    simp
  rw [← sum_subset hK h0]
  rw [List.sum_toFinset _ hnd]
  unfold Dict.keys
  rw [List.map_map]
  congr 1
  refine List.map_congr_left fun q hq => ?_
  simp only [Function.comp_apply]
  unfold strength
  rw [Dict.get?_of_mem hnd (show (q.1, q.2) ∈ op from hq)]
  rfl

theorem sum_strengthChange {ι : Type} [DecidableEq ι] {op op' : Op ι ℂ} (hnd : Dict.NodupKeys op) (hnd' : Dict.NodupKeys op')
    (g : Process ι → List (ℕ × Bool)) (s : Finset (Finset ℕ)) (T : Finset ℕ) :
    ∑ S ∈ s, ‖(op.map fun q => q.2 * product (g q.1) (single T (1 : ℂ)) S).sum
      - (op'.map fun q => q.2 * product (g q.1) (single T (1 : ℂ)) S).sum‖ ≤ strengthChange op op' := by
  have e : ∀ S, (op.map fun q => q.2 * product (g q.1) (single T (1 : ℂ)) S).sum
      - (op'.map fun q => q.2 * product (g q.1) (single T (1 : ℂ)) S).sum
      = ∑ p ∈ (Dict.keys op).toFinset ∪ (Dict.keys op').toFinset,
        (strength op p - strength op' p) * product (g p) (single T (1 : ℂ)) S := by
    intro S
    rw [Dict.sum_eq_sum_keys hnd (fun p => product (g p) (single T (1 : ℂ)) S)
      (K := (Dict.keys op).toFinset ∪ (Dict.keys op').toFinset) subset_union_left,
      Dict.sum_eq_sum_keys hnd' (fun p => product (g p) (single T (1 : ℂ)) S)
      (K := (Dict.keys op).toFinset ∪ (Dict.keys op').toFinset) subset_union_right]
    simp only [sub_mul, sum_sub_distrib]
  simp only [e]
  unfold strengthChange
  refine (sum_le_sum fun S _ => norm_sum_le _ _).trans ?_
  rw [sum_comm]
  refine sum_le_sum fun p _ => ?_
  simp only [norm_mul, ← mul_sum]
  exact mul_le_of_le_one_right (norm_nonneg _) (sum_norm_product_le s _ T)

theorem matrixElement_change {op op' : Op ℕ ℂ} (hnd : Dict.NodupKeys op) (hnd' : Dict.NodupKeys op')
    (s : Finset (Finset ℕ)) (T : Finset ℕ) :
    ∑ S ∈ s, ‖matrixElement op S T - matrixElement op' S T‖ ≤ strengthChange op op' := by
  refine le_trans (le_of_eq (sum_congr rfl fun S _ => ?_)) (sum_strengthChange hnd hnd' processSpec s T)
  unfold matrixElement operator opSpec
  rw [List.map_map, List.map_map]
  rfl

theorem labelled_change {f : Label → ℕ} {op op' : Op Label ℂ} (hnd : Dict.NodupKeys op) (hnd' : Dict.NodupKeys op')
    (s : Finset (Finset ℕ)) (T : Finset ℕ) :
    ∑ S ∈ s, ‖operator (labelSpec f op) (single T (1 : ℂ)) S - operator (labelSpec f op') (single T (1 : ℂ)) S‖
      ≤ strengthChange op op' := by
  refine le_trans (le_of_eq (sum_congr rfl fun S _ => ?_))
    (sum_strengthChange hnd hnd' (fun p => p.map fun x => (f x.1, decide (x.2 = Action.c))) s T)
  unfold operator labelSpec
  rw [List.map_map, List.map_map]
  rfl

theorem sum_norm_oneBody (f : Label → ℕ) (l : ℕ) (M : ℤ × ℤ → ℤ × ℤ → ℂ) (s : Finset (Finset ℕ)) (T : Finset ℕ) :
    ∑ S ∈ s, ‖oneBody f l M (single T (1 : ℂ)) S‖ ≤ ∑ x ∈ shell l, ∑ y ∈ shell l, ‖M x y‖ := by
  have h1 : ∀ i j : ℕ, ∑ S ∈ s, ‖create i (annihilate j (single T (1 : ℂ))) S‖ ≤ 1 := fun i j =>
    sum_norm_product_le s [(i, true), (j, false)] T
  have h2 : ∀ x y, ∑ S ∈ s, ‖M x y * create (f (.imp l x.1 x.2)) (annihilate (f (.imp l y.1 y.2)) (single T (1 : ℂ))) S‖
      ≤ ‖M x y‖ := by
    intro x y
    simp only [norm_mul]
    rw [← mul_sum]
    exact mul_le_of_le_one_right (norm_nonneg _) (h1 _ _)
  have h3 : ∀ S, ‖oneBody f l M (single T (1 : ℂ)) S‖ ≤ ∑ x ∈ shell l, ∑ y ∈ shell l,
      ‖M x y * create (f (.imp l x.1 x.2)) (annihilate (f (.imp l y.1 y.2)) (single T (1 : ℂ))) S‖ := by
    intro S
    unfold oneBody
    rw [← sum_product']
    exact norm_sum_le _ _
  calc ∑ S ∈ s, ‖oneBody f l M (single T (1 : ℂ)) S‖
      ≤ ∑ S ∈ s, ∑ x ∈ shell l, ∑ y ∈ shell l,
        ‖M x y * create (f (.imp l x.1 x.2)) (annihilate (f (.imp l y.1 y.2)) (single T (1 : ℂ))) S‖ :=
        sum_le_sum fun S _ => h3 S
    _ = ∑ x ∈ shell l, ∑ y ∈ shell l, ∑ S ∈ s,
        ‖M x y * create (f (.imp l x.1 x.2)) (annihilate (f (.imp l y.1 y.2)) (single T (1 : ℂ))) S‖ := by
      rw [sum_comm]
      exact sum_congr rfl fun x _ => sum_comm
    _ ≤ _ := sum_le_sum fun x _ => sum_le_sum fun y _ => h2 x y

theorem storedElement_cut (s : Finset (Finset ℕ)) (op : Op ℕ ℂ) (cut : ℝ) (T : Finset ℕ) :
    ∑ S ∈ s, ‖storedElement op cut S T - matrixElement op S T‖ ≤ op.length * Real.sqrt cut := by
  have h := dropped_column s op (cut := cut) none T
  refine le_trans (le_of_eq (sum_congr rfl fun S _ => ?_)) h
  unfold storedElement column
  simp only [AllowedOpt, true_and]
  rw [if_pos (show (0 : ℝ) ≤ abs2 (matrixElement op S T) from Complex.normSq_nonneg _)]

/-- The expectation values of an operator with a cutoff, from above and below. -/
theorem form_cut {n : ℕ} {op : Op ℕ ℂ} (hop : OpInSystem n op) (hdict : Dict.NodupKeys op) (hh : isHermitianOp op)
    (cut : ℝ) {s : Finset (Finset ℕ)} (hs : ∀ S ∈ s, S ⊆ range n) (y : Finset ℕ → ℂ) :
    (∑ S ∈ s, ∑ T ∈ s, star (y S) * storedElement op cut S T * y T).re
      ≤ (∑ S ∈ s, ∑ T ∈ s, star (y S) * matrixElement op S T * y T).re
        + op.length * Real.sqrt cut * ∑ S ∈ s, Complex.normSq (y S) ∧
    (∑ S ∈ s, ∑ T ∈ s, star (y S) * matrixElement op S T * y T).re
      ≤ (∑ S ∈ s, ∑ T ∈ s, star (y S) * storedElement op cut S T * y T).re
        + op.length * Real.sqrt cut * ∑ S ∈ s, Complex.normSq (y S) := by
  have h1 : ∀ S ∈ s, ∀ T ∈ s, storedElement op cut S T = star (storedElement op cut T S) := fun S hS T hT =>
    storedElement_star hdict hop hh cut (hs S hS) (hs T hT)
  have h2 : ∀ S ∈ s, ∀ T ∈ s, matrixElement op S T = star (matrixElement op T S) := fun S hS T hT =>
    matrixElement_hermitian hdict hop hh (hs S hS) (hs T hT)
  refine ⟨form_close h1 h2 (fun T _ => storedElement_cut s op cut T) y, form_close h2 h1 (fun T _ => ?_) y⟩
  simp only [norm_sub_rev (matrixElement op _ _)]
  exact storedElement_cut s op cut T

/-- Two operators that differ by a diagonal one. -/
theorem form_shifted {op op' : Op ℕ ℂ} {s : Finset (Finset ℕ)} {q : Finset ℕ → ℝ}
    (hq : ShiftedBy (operator (opSpec op)) (operator (opSpec op')) q) (y : Finset ℕ → ℂ) :
    (∑ S ∈ s, ∑ T ∈ s, star (y S) * matrixElement op' S T * y T).re
      = (∑ S ∈ s, ∑ T ∈ s, star (y S) * matrixElement op S T * y T).re + ∑ S ∈ s, q S * Complex.normSq (y S) := by
  have e : ∀ S ∈ s, ∑ T ∈ s, star (y S) * matrixElement op' S T * y T
      = ∑ T ∈ s, star (y S) * matrixElement op S T * y T + ((q S * Complex.normSq (y S) : ℝ) : ℂ) := by
    intro S hS
    have h1 : ∀ T, star (y S) * matrixElement op' S T * y T
        = star (y S) * matrixElement op S T * y T + if S = T then ((q S * Complex.normSq (y S) : ℝ) : ℂ) else 0 := by
      intro T
      have : matrixElement op' S T = matrixElement op S T + (q S : ℂ) * single T (1 : ℂ) S := hq _ S
      rw [this]
      unfold Spec.single
      by_cases hST : S = T
      · subst hST
        simp only [if_true]
        push_cast
        have : (Complex.normSq (y S) : ℂ) = star (y S) * y S := by
          rw [mul_comm]; exact (Complex.mul_conj (y S)).symm
        rw [this]
        ring
      · simp only [hST, if_false]
        ring
    simp only [h1]
    rw [sum_add_distrib, sum_ite_eq, if_pos hS]
  rw [sum_congr rfl e, sum_add_distrib, Complex.add_re, ← Complex.ofReal_sum, Complex.ofReal_re]

/-! ### magnetic field -/

/-- The four processes of a magnetic field for one orbital. -/
def orbitalField (a b : ℕ) (h0 h1 p q : ℂ) (v : Vec ℂ) : Vec ℂ := fun S =>
  h0 * create a (annihilate a v) S + h1 * create b (annihilate b v) S
    + (p * create b (annihilate a v) S + q * create a (annihilate b v) S)

theorem number_single (a : ℕ) (T : Finset ℕ) (S : Finset ℕ) :
    create a (annihilate a (single T (1 : ℂ))) S = if a ∈ T then single T (1 : ℂ) S else 0 := by
  have h : create a (annihilate a (single T (1 : ℂ))) = ladder a true (ladder a false (single T (1 : ℂ))) := rfl
  rw [h, ladder_single_a]
  by_cases ha : a ∈ T
  · rw [if_pos ha, if_pos ha, ladder_single_c, if_neg (notMem_erase a T), insert_erase ha]
    congr 2
    rw [mul_one]
    have : sgn a (T.erase a) = sgn a T := by
      unfold sgn
      congr 1
      unfold below
      congr 1
      ext x
      simp only [mem_filter, mem_erase]
      constructor
      · rintro ⟨⟨-, h1⟩, h2⟩; exact ⟨h1, h2⟩
      · rintro ⟨h1, h2⟩; exact ⟨⟨by omega, h1⟩, h2⟩
    rw [this, ← Int.cast_mul]
    have : sgn a T * sgn a T = 1 := by
      unfold sgn
      rw [← pow_add, ← two_mul, pow_mul]; norm_num
    rw [this, Int.cast_one]
  · rw [if_neg ha, if_neg ha, ladder_zero]
    rfl

theorem hop_single_of_notMem {a b : ℕ} {T : Finset ℕ} (ha : a ∉ T) (S : Finset ℕ) :
    create b (annihilate a (single T (1 : ℂ))) S = 0 := by
  have h : create b (annihilate a (single T (1 : ℂ))) = ladder b true (ladder a false (single T (1 : ℂ))) := rfl
  rw [h, ladder_single_a, if_neg ha, ladder_zero]
  rfl

theorem hop_single_of_mem {a b : ℕ} (hab : a ≠ b) {T : Finset ℕ} (hb : b ∈ T) (S : Finset ℕ) :
    create b (annihilate a (single T (1 : ℂ))) S = 0 := by
  have h : create b (annihilate a (single T (1 : ℂ))) = ladder b true (ladder a false (single T (1 : ℂ))) := rfl
  rw [h, ladder_single_a]
  split
  · rw [ladder_single_c, if_pos (mem_erase.2 ⟨hab.symm, hb⟩)]
    rfl
  · rw [ladder_zero]
    rfl

theorem sum_norm_single (s : Finset (Finset ℕ)) (T : Finset ℕ) : ∑ S ∈ s, ‖(single T (1 : ℂ) : Vec ℂ) S‖ ≤ 1 :=
  sum_norm_product_le s [] T

/-- A field acts on an orbital only if the orbital is singly occupied. -/
theorem sum_norm_orbitalField {a b : ℕ} (hab : a ≠ b) {h p q : ℂ} {u w : ℝ} (hu : ‖h‖ ≤ u) (hp : ‖p‖ ≤ w) (hq : ‖q‖ ≤ w)
    (s : Finset (Finset ℕ)) (T : Finset ℕ) :
    ∑ S ∈ s, ‖orbitalField a b (-h) h p q (single T (1 : ℂ)) S‖ ≤ u + w := by
  have hu0 : 0 ≤ u := (norm_nonneg _).trans hu
  have hw0 : 0 ≤ w := (norm_nonneg _).trans hp
  have hflip : ∀ (c d : ℕ) (z : ℂ), ‖z‖ ≤ w → ∑ S ∈ s, ‖z * create c (annihilate d (single T (1 : ℂ))) S‖ ≤ w := by
    intro c d z hz
    simp only [norm_mul, ← mul_sum]
    have h1 : ∑ S ∈ s, ‖create c (annihilate d (single T (1 : ℂ))) S‖ ≤ 1 := sum_norm_product_le s [(c, true), (d, false)] T
    calc ‖z‖ * _ ≤ ‖z‖ * 1 := mul_le_mul_of_nonneg_left h1 (norm_nonneg _)
      _ ≤ w := by rw [mul_one]; exact hz
  have hdiag : ∀ z : ℂ, ‖z‖ ≤ u → ∑ S ∈ s, ‖z * (single T (1 : ℂ) : Vec ℂ) S‖ ≤ u := by
    intro z hz
    simp only [norm_mul, ← mul_sum]
    calc ‖z‖ * _ ≤ ‖z‖ * 1 := mul_le_mul_of_nonneg_left (sum_norm_single s T) (norm_nonneg _)
      _ ≤ u := by rw [mul_one]; exact hz
  unfold orbitalField
  simp only [number_single]
  by_cases ha : a ∈ T <;> by_cases hb : b ∈ T
  · simp only [ha, hb, if_true, hop_single_of_mem hab hb, hop_single_of_mem hab.symm ha, mul_zero, add_zero]
    simp only [neg_mul, neg_add_cancel, norm_zero, sum_const_zero]
    positivity
  · simp only [ha, hb, if_true, if_false, hop_single_of_notMem hb, mul_zero, add_zero]
    refine (sum_le_sum fun S _ => norm_add_le _ _).trans ?_
    rw [sum_add_distrib]
    exact add_le_add (hdiag _ (by rw [norm_neg]; exact hu)) (hflip _ _ _ hp)
  · simp only [ha, hb, if_true, if_false, hop_single_of_notMem ha, mul_zero, zero_add]
    refine (sum_le_sum fun S _ => norm_add_le _ _).trans ?_
    rw [sum_add_distrib]
    exact add_le_add (hdiag _ hu) (hflip _ _ _ hq)
  · simp only [ha, hb, if_false, hop_single_of_notMem ha, hop_single_of_notMem hb, mul_zero, add_zero, norm_zero, sum_const_zero]
    positivity

theorem oneBody_field (f : Label → ℕ) (l : ℕ) (hx hy hz : ℝ) (v : Vec ℂ) (S : Finset ℕ) :
    oneBody f l (hDotS hx hy hz) v S = ∑ m ∈ mRange l, orbitalField (f (.imp l 0 m)) (f (.imp l 1 m)) (-(hz / 2 : ℂ)) (hz / 2)
      ((hx - Complex.I * hy) / 2) ((hx + Complex.I * hy) / 2) v S := by
  unfold oneBody shell
  rw [sum_product, sum_product]
  simp only [sum_product]
  simp only [sum_pair (show (0 : ℤ) ≠ 1 by norm_num)]
  rw [← sum_add_distrib]
  unfold mRange
  refine sum_congr rfl fun m hm => ?_
  have key : ∀ (s s' : ℤ) (g : ℤ → ℂ), ∑ x ∈ Icc (-(l : ℤ)) l, hDotS hx hy hz (s, m) (s', x) * g x
      = (hx * sX s s' + hy * sY s s' + hz * sZ s s') * g m := by
    intro s s' g
    rw [sum_eq_single m]
    · simp [hDotS, delta]
    · intro x _ hne
      simp [hDotS, delta, Ne.symm hne]
    · intro h; exact absurd hm h
  rw [key 0 0 (fun x => create (f (.imp l 0 m)) (annihilate (f (.imp l 0 x)) v) S),
    key 0 1 (fun x => create (f (.imp l 0 m)) (annihilate (f (.imp l 1 x)) v) S),
    key 1 0 (fun x => create (f (.imp l 1 m)) (annihilate (f (.imp l 0 x)) v) S),
    key 1 1 (fun x => create (f (.imp l 1 m)) (annihilate (f (.imp l 1 x)) v) S)]
  unfold orbitalField
  simp only [sX, sY, sZ, sPlus, sMinus]
  norm_num
  have hI : (-1 : ℂ) / (2 * Complex.I) = Complex.I / 2 := by
    rw [div_eq_iff (by simp)]
    linear_combination -Complex.I_mul_I
  rw [hI]
  ring

/-- The matrix elements of a field in one column. -/
theorem sum_norm_field {f : Label → ℕ} {l : ℕ} (hf : ∀ m ∈ mRange l, f (.imp l 0 m) ≠ f (.imp l 1 m)) (hx hy hz : ℝ)
    (s : Finset (Finset ℕ)) (T : Finset ℕ) :
    ∑ S ∈ s, ‖oneBody f l (hDotS hx hy hz) (single T (1 : ℂ)) S‖ ≤ (2 * l + 1) / 2 * (|hz| + Real.sqrt (hx ^ 2 + hy ^ 2)) := by
  simp only [oneBody_field]
  refine (sum_le_sum fun S _ => norm_sum_le _ _).trans ?_
  rw [sum_comm]
  have hcard : (mRange l).card = 2 * l + 1 := by
    unfold mRange
    rw [Int.card_Icc]
    omega
  have hn : ∀ e : ℝ, |e| = |hy| → ‖((hx : ℂ) + Complex.I * (e : ℂ)) / 2‖ ≤ Real.sqrt (hx ^ 2 + hy ^ 2) / 2 := by
    intro e he
    rw [norm_div, mul_comm Complex.I, Complex.norm_add_mul_I, Complex.norm_ofNat, ← sq_abs e, he, sq_abs]
  have h1 : ∀ m ∈ mRange l, ∑ S ∈ s, ‖orbitalField (f (.imp l 0 m)) (f (.imp l 1 m)) (-(hz / 2 : ℂ)) (hz / 2)
      ((hx - Complex.I * hy) / 2) ((hx + Complex.I * hy) / 2) (single T (1 : ℂ)) S‖
      ≤ |hz| / 2 + Real.sqrt (hx ^ 2 + hy ^ 2) / 2 := by
    intro m hm
    refine sum_norm_orbitalField (hf m hm) ?_ ?_ ?_ s T
    · rw [norm_div, Complex.norm_real, Complex.norm_ofNat, Real.norm_eq_abs]
    · have := hn (-hy) (abs_neg hy)
      push_cast at this
      rwa [mul_neg, ← sub_eq_add_neg] at this
    · exact hn hy rfl
  refine (sum_le_sum h1).trans (le_of_eq ?_)
  rw [sum_const, hcard, nsmul_eq_mul]
  push_cast
  ring

end

end Verif
