/-
The monopole part of the Coulomb interaction.
-/
import Verif.Lemmas.Gaunt
import Verif.Lemmas.Rotation
import Verif.Spec.GetBasis
import Mathlib.Data.Int.CardIntervalMod

namespace Verif

open Spec Finset

noncomputable section

/-- `⟨l m|C⁰|l' m'⟩` is the identity. -/
theorem ck_monopole {l l' : ℕ} {m m' : ℤ} (hm : m ∈ mRange l) :
    ck sympyGaunt 0 l m l' m' = if l = l' ∧ m = m' then 1 else 0 := by
  have hb := mem_Icc.1 hm
  by_cases h : l = l' ∧ m = m'
  · obtain ⟨rfl, rfl⟩ := h
    rw [if_pos ⟨rfl, rfl⟩]
    unfold ck sympyGaunt
    have hz : gauntZero l (0 : ℕ) l (-m) (m - m) m = false := by
      rw [gauntZero_eq_false]
      simp only [abs_le]
      push_cast
      omega
    rw [hz, if_neg (by simp)]
    have e0 : factList 0 = 1 := by unfold factList; norm_num
    have es : gauntSum l (0 : ℕ) l (-m) (m - m) = 1 / (factList (l + m) * factList (l - m)) := by
      unfold gauntSum
      have i1 : Max.max (Max.max (-(l : ℤ) + l + (m - m)) (-(l : ℤ) + (0 : ℕ) - -m)) 0 = 0 := by
        push_cast
        rw [max_eq_right]
        exact max_le (by omega) (by omega)
      have i2 : Min.min (Min.min (((0 : ℕ) : ℤ) + (m - m)) ((l : ℤ) - -m)) ((l : ℤ) + (0 : ℕ) - l) = 0 := by
        push_cast
        rw [min_eq_right]
        · omega
        · exact le_min (by omega) (by omega)
      dsimp only
      rw [i1, i2]
      have : pyRange 0 (0 + 1) = [0] := by decide
      rw [this]
      simp only [List.map_cons, List.map_nil, List.sum_cons, List.sum_nil, add_zero, zpow_zero]
      rw [show (0 : ℤ) + l - l - (m - m) = 0 by ring, show (((0 : ℕ) : ℤ) + (m - m) - 0) = 0 by simp,
        show ((l : ℤ) - 0 - -m) = l + m by ring, show ((0 : ℤ) + l - ((0 : ℕ) : ℤ) + -m) = l - m by push_cast; ring,
        show ((l : ℤ) + ((0 : ℕ) : ℤ) - l - 0) = 0 by push_cast; ring, e0]
      ring
    have ep : gauntPrefac l (0 : ℕ) l = 1 / (2 * l + 1) := by
      unfold gauntPrefac
      dsimp only
      have i1 : ((l : ℤ) + ((0 : ℕ) : ℤ) + l) / 2 = l := by push_cast; omega
      rw [i1, show (((0 : ℕ) : ℤ) - l + l) = 0 by simp, show ((l : ℤ) - ((0 : ℕ) : ℤ) + l) = 2 * l by push_cast; ring,
        show ((l : ℤ) + ((0 : ℕ) : ℤ) - l) = 0 by simp, show ((l : ℤ) - l) = 0 by ring,
        show ((l : ℤ) - ((0 : ℕ) : ℤ)) = l by simp, e0, factList_succ (by omega)]
      have h1 := (factList_pos (l : ℤ)).ne'
      have h2 := (factList_pos (2 * l : ℤ)).ne'
      have h3 : (2 * (l : ℚ) + 1) ≠ 0 := by positivity
      push_cast
      field_simp
    have ea : (gauntArg l (0 : ℕ) l (-m) (m - m) m : ℝ) = (((2 * l + 1) * (factList (l + m) * factList (l - m)) : ℚ) : ℝ) ^ 2 := by
      have : gauntArg l (0 : ℕ) l (-m) (m - m) m = ((2 * l + 1) * (factList (l + m) * factList (l - m))) ^ 2 := by
        unfold gauntArg
        rw [show (l : ℤ) - -m = l + m by ring, show (l : ℤ) + -m = l - m by ring,
          show (((0 : ℕ) : ℤ) - (m - m)) = 0 by simp, show (((0 : ℕ) : ℤ) + (m - m)) = 0 by simp, e0]
        push_cast
        ring
      rw [this]
      push_cast
      rfl
    have eg : gauntRational l (0 : ℕ) l (-m) (m - m)
        = 1 / ((2 * l + 1) * (factList (l + m) * factList (l - m))) * (-1) ^ m := by
      unfold gauntRational
      rw [ep, es]
      rw [sign_eq (x := ((l : ℤ) + ((0 : ℕ) : ℤ) + l) / 2 + l + -m - (m - m)) (y := m) (by push_cast; omega)]
      have h3 : (2 * (l : ℚ) + 1) ≠ 0 := by positivity
      have h1 := (factList_pos (l + m : ℤ)).ne'
      have h2 := (factList_pos (l - m : ℤ)).ne'
      field_simp
    set w : ℚ := (2 * l + 1) * (factList (l + m) * factList (l - m)) with hw
    have hwp : 0 < w := by
      have h1 := (factList_pos (l + m : ℤ))
      have h2 := (factList_pos (l - m : ℤ))
      positivity
    have hwr : (0 : ℝ) < (w : ℝ) := by exact_mod_cast hwp
    rw [ea, eg, Real.sqrt_div (sq_nonneg _), Real.sqrt_sq hwr.le]
    have hpi : Real.sqrt (4 * Real.pi) ≠ 0 := (Real.sqrt_pos.2 (by positivity)).ne'
    have hs : ((-1 : ℝ) ^ m) * (-1) ^ m = 1 := by
      rw [← mul_zpow]; norm_num
    push_cast
    simp only [mul_zero, zero_add, div_one]
    calc (-1 : ℝ) ^ m * (Real.sqrt (4 * Real.pi) * ((w : ℝ) / Real.sqrt (4 * Real.pi) * (1 / (w : ℝ) * (-1) ^ m)))
        = ((-1 : ℝ) ^ m * (-1) ^ m) * ((Real.sqrt (4 * Real.pi) / Real.sqrt (4 * Real.pi)) * ((w : ℝ) / (w : ℝ))) := by ring
      _ = 1 := by rw [hs, div_self hpi, div_self hwr.ne']; norm_num
  · rw [if_neg h]
    unfold ck sympyGaunt
    have hz : gauntZero l (0 : ℕ) l' (-m) (m - m') m' = true := by
      by_contra hn
      rw [Bool.not_eq_true, gauntZero_eq_false] at hn
      simp only [abs_le] at hn
      push_cast at hn
      omega
    rw [hz, if_pos rfl]
    ring

theorem pair_number (i j : ℕ) (v : Vec ℂ) (S : Finset ℕ) :
    create i (create j (annihilate j (annihilate i v))) S = if i ∈ S ∧ j ∈ S ∧ i ≠ j then v S else 0 := by
  have h : create j (annihilate j (annihilate i v)) = fun S => if j ∈ S then annihilate i v S else 0 := by
    funext S
    exact create_annihilate_self j _ S
  rw [h]
  have h2 := create_annihilate_self i v S
  unfold create at h2 ⊢
  by_cases hi : i ∈ S
  · simp only [if_pos hi] at h2 ⊢
    by_cases hj : j ∈ S ∧ i ≠ j
    · rw [if_pos (mem_erase.2 ⟨fun e => hj.2 e.symm, hj.1⟩), h2, if_pos ⟨hi, hj⟩]
    · rw [if_neg (fun h => hj ⟨(mem_erase.1 h).2, fun e => (mem_erase.1 h).1 e.symm⟩), if_neg (fun h => hj h.2), mul_zero]
  · rw [if_neg hi, if_neg (fun h => hi h.1)]

theorem card_shell (l : ℕ) : (shell l).card = 2 * (2 * l + 1) := by
  unfold shell
  rw [card_product, Int.card_Icc]
  have : ({0, 1} : Finset ℤ).card = 2 := rfl
  rw [this]
  omega

variable {nBaths : NBaths} (hsys : GoodSystem nBaths)

include hsys in
theorem systemApart : ShellsApart (position nBaths) (allAngulars nBaths).toFinset := by
  intro l hl x hx l' hl' y hy e
  have i : ∀ l ∈ (allAngulars nBaths).toFinset, ∀ x ∈ shell l, InSystem nBaths (.imp l x.1 x.2) := by
    intro l hl x hx
    have := mem_product.1 hx
    rw [mem_Icc] at this
    have h1 := this.1
    simp only [mem_insert, mem_singleton] at h1
    refine ⟨List.mem_toFinset.1 hl, ?_, ?_, this.2.1, this.2.2⟩ <;> omega
  obtain ⟨h1, h2, h3⟩ := position_imp_inj hsys (i l hl x hx) (i l' hl' y hy) e
  exact ⟨h1, Prod.ext h2 h3⟩

include hsys in
theorem image_shell {l : ℕ} (hl : l ∈ allAngulars nBaths) :
    (shell l).image (fun x => position nBaths (.imp l x.1 x.2)) = impOrbs nBaths l := by
  have hl' : l ∈ (allAngulars nBaths).toFinset := List.mem_toFinset.2 hl
  apply eq_of_subset_of_card_le
  · intro i hi
    obtain ⟨x, hx, rfl⟩ := mem_image.1 hi
    have := mem_product.1 hx
    rw [mem_Icc] at this
    have h1 := this.1
    simp only [mem_insert, mem_singleton] at h1
    unfold impOrbs position
    rw [mem_Ico]
    dsimp only
    rcases h1 with h1 | h1 <;> rw [h1] <;> norm_num <;> omega
  · rw [card_image_of_injOn, card_shell]
    · unfold impOrbs
      rw [Nat.card_Ico]
      omega
    · intro x hx y hy e
      exact (systemApart hsys l hl' x hx l hl' y hy e).2

include hsys in
/-- The number of electrons in a shell. -/
theorem count_shell {l : ℕ} (hl : l ∈ allAngulars nBaths) (S : Finset ℕ) :
    ∑ x ∈ shell l, (if position nBaths (.imp l x.1 x.2) ∈ S then (1 : ℂ) else 0) = ((S ∩ impOrbs nBaths l).card : ℂ) := by
  have hl' : l ∈ (allAngulars nBaths).toFinset := List.mem_toFinset.2 hl
  rw [← image_shell hsys hl, inter_comm, ← filter_mem_eq_inter, ← sum_filter, sum_const, nsmul_one]
  congr 1
  rw [filter_image, card_image_of_injOn]
  intro x hx y hy e
  exact (systemApart hsys l hl' x (mem_filter.1 hx).1 l hl' y (mem_filter.1 hy).1 e).2

theorem monopole_coulomb {l l' : ℕ} (F0 : ℝ) {m1 m2 m3 m4 : ℤ} (h1 : m1 ∈ mRange l) (h3 : m3 ∈ mRange l') :
    coulomb sympyGaunt l l' l' l [F0] m1 m2 m3 m4 = if m1 = m4 ∧ m3 = m2 then F0 else 0 := by
  unfold coulomb
  simp only [List.length_singleton, range_one, sum_singleton, ck_monopole h1, ck_monopole h3, true_and, List.getD_cons_zero]
  by_cases a : m1 = m4 ∧ m3 = m2
  · obtain ⟨rfl, rfl⟩ := a
    simp [add_comm]
  · rw [if_neg a]
    by_cases b : m1 = m4
    · have c : ¬ m3 = m2 := fun c => a ⟨b, c⟩
      simp [c]
    · simp [b]

/-- `½ F⁰ ∑ n n'` over the pairs of different orbitals. -/
theorem monopole_twoBody (f : Label → ℕ) (l l' : ℕ) (F0 : ℝ) (v : Vec ℂ) (S : Finset ℕ) :
    twoBody f l l' l' l (coulomb sympyGaunt l l' l' l [F0]) v S = (F0 : ℂ) / 2 * ∑ x ∈ shell l, ∑ y ∈ shell l',
      if f (.imp l x.1 x.2) ∈ S ∧ f (.imp l' y.1 y.2) ∈ S ∧ f (.imp l x.1 x.2) ≠ f (.imp l' y.1 y.2) then v S else 0 := by
  unfold twoBody
  have e : ∑ m1 ∈ mRange l, ∑ m2 ∈ mRange l', ∑ m3 ∈ mRange l', ∑ m4 ∈ mRange l,
      ∑ s ∈ ({0, 1} : Finset ℤ), ∑ s' ∈ ({0, 1} : Finset ℤ), (coulomb sympyGaunt l l' l' l [F0] m1 m2 m3 m4 : ℂ) *
        create (f (.imp l s m1)) (create (f (.imp l' s' m2)) (annihilate (f (.imp l' s' m3)) (annihilate (f (.imp l s m4)) v))) S
      = ∑ m1 ∈ mRange l, ∑ m2 ∈ mRange l', ∑ s ∈ ({0, 1} : Finset ℤ), ∑ s' ∈ ({0, 1} : Finset ℤ), (F0 : ℂ) *
        (if f (.imp l s m1) ∈ S ∧ f (.imp l' s' m2) ∈ S ∧ f (.imp l s m1) ≠ f (.imp l' s' m2) then v S else 0) := by
    refine sum_congr rfl fun m1 h1 => sum_congr rfl fun m2 h2 => ?_
    rw [sum_eq_single m2]
    · rw [sum_eq_single m1]
      · refine sum_congr rfl fun s _ => sum_congr rfl fun s' _ => ?_
        rw [monopole_coulomb F0 h1 h2, if_pos ⟨rfl, rfl⟩, pair_number]
      · intro m4 _ hne
        refine sum_eq_zero fun s _ => sum_eq_zero fun s' _ => ?_
        rw [monopole_coulomb F0 h1 h2, if_neg (fun h => hne h.1.symm), Complex.ofReal_zero, zero_mul]
      · intro h; exact absurd h1 h
    · intro m3 h3 hne
      refine sum_eq_zero fun m4 _ => sum_eq_zero fun s _ => sum_eq_zero fun s' _ => ?_
      rw [monopole_coulomb F0 h1 h3, if_neg (fun h => hne h.2), Complex.ofReal_zero, zero_mul]
    · intro h; exact absurd h2 h
  rw [e]
  have p : ∀ g : ℤ → ℂ, ∑ s ∈ ({0, 1} : Finset ℤ), g s = g 0 + g 1 := fun g => sum_pair (by decide)
  have q : ∀ (l : ℕ) (g : ℤ × ℤ → ℂ), ∑ x ∈ shell l, g x = ∑ m ∈ mRange l, (g (0, m) + g (1, m)) := by
    intro l g
    unfold shell mRange
    rw [sum_product, p, ← sum_add_distrib]
  simp only [q, p]
  rw [mul_sum, mul_sum]
  refine sum_congr rfl fun m1 _ => ?_
  rw [← sum_add_distrib, mul_sum, mul_sum]
  refine sum_congr rfl fun m2 _ => ?_
  ring

end

end Verif
