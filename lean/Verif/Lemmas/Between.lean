/-
The matrix elements of one-particle operators between two shells.
-/
import Verif.Spec.Main
import Verif.Lemmas.SimulateValue

namespace Verif

open Finset Psr Spec

theorem hop_sets {i j : ℕ} (hij : i ≠ j) {S S' : Finset ℕ} (hi : i ∈ S) (hj : j ∉ S.erase i)
    (h : insert j (S.erase i) = S') : S \ S' = {i} ∧ S' \ S = {j} := by
  subst h
  have hjS : j ∉ S := fun h => hj (mem_erase.2 ⟨hij.symm, h⟩)
  constructor <;>
  · ext x
    simp only [mem_sdiff, mem_insert, mem_erase, mem_singleton]
    constructor
    · rintro ⟨h1, h2⟩
      by_contra hne
      first
        | exact h2 (Or.inr ⟨hne, h1⟩)
        | (rcases h1 with rfl | h1
           · exact hne rfl
           · exact h2 h1.2)
    · rintro rfl
      first
        | exact ⟨hi, fun h => h.elim (fun h => hij h) fun h => h.1 rfl⟩
        | exact ⟨Or.inl rfl, hjS⟩

theorem abs2_sgn (i : ℕ) (S : Finset ℕ) : abs2 ((sgn i S : ℤ) : ℂ) = (1 : ℝ) := by
  show Complex.normSq _ = 1
  have h : ((sgn i S : ℤ) : ℂ) * ((sgn i S : ℤ) : ℂ) = 1 := sgn_sq i S
  have := congrArg Complex.normSq h
  rw [Complex.normSq_mul, Complex.normSq_one] at this
  nlinarith [Complex.normSq_nonneg ((sgn i S : ℤ) : ℂ)]

/-- The matrix elements of `c†_i c_j`. -/
theorem hop_element {i j : ℕ} (hij : i ≠ j) (S S' : Finset ℕ) :
    (create i (annihilate j (Spec.single S' (1 : ℂ))) S = 0) ∨
    (abs2 (create i (annihilate j (Spec.single S' (1 : ℂ))) S) = (1 : ℝ) ∧ S \ S' = {i} ∧ S' \ S = {j}) := by
  unfold create annihilate Spec.single
  by_cases hi : i ∈ S
  · by_cases hj : j ∈ S.erase i
    · left; simp [hj]
    · by_cases h : insert j (S.erase i) = S'
      · right
        refine ⟨?_, hop_sets hij hi hj h⟩
        rw [if_pos hi, if_neg hj, if_pos h, mul_one, Amp.abs2_mul, abs2_sgn, abs2_sgn, one_mul]
      · left; rw [if_pos hi, if_neg hj, if_neg h, mul_zero, mul_zero]
  · left; rw [if_neg hi]

/-- The matrix elements of a one-particle operator between two different shells: one electron
moves, and the element is its coefficient, up to a sign. -/
theorem between_element {nBaths : NBaths} (h : GoodSystem nBaths) {l l' : ℕ} (hl : l ∈ allAngulars nBaths)
    (hl' : l' ∈ allAngulars nBaths) (hne : l ≠ l') (M : ℤ → ℤ → ℂ) (S S' : Finset ℕ) :
    between (position nBaths) l l' M (Spec.single S' 1) S = 0 ∨
    ∃ s ∈ ({0, 1} : Finset ℤ), ∃ m ∈ mRange l, ∃ m' ∈ mRange l',
      abs2 (between (position nBaths) l l' M (Spec.single S' 1) S) = (abs2 (M m m') : ℝ) ∧
      S \ S' = {position nBaths (.imp l s m)} ∧ S' \ S = {position nBaths (.imp l' s m')} := by
  have hin : ∀ L ∈ allAngulars nBaths, ∀ s ∈ ({0, 1} : Finset ℤ), ∀ m ∈ mRange L, InSystem nBaths (.imp L s m) := by
    intro L hL s hs m hm
    rw [mRange, mem_Icc] at hm
    refine ⟨hL, ?_, ?_, hm.1, hm.2⟩ <;> (simp at hs; omega)
  have hval : between (position nBaths) l l' M (Spec.single S' 1) S
      = ∑ x ∈ ({0, 1} : Finset ℤ) ×ˢ (mRange l ×ˢ mRange l'), M x.2.1 x.2.2 *
        create (position nBaths (.imp l x.1 x.2.1)) (annihilate (position nBaths (.imp l' x.1 x.2.2)) (Spec.single S' 1)) S := by
    unfold between
    rw [sum_product]
    refine sum_congr rfl fun s _ => ?_
    rw [sum_product]
  rw [hval]
  have hij : ∀ x ∈ ({0, 1} : Finset ℤ) ×ˢ (mRange l ×ˢ mRange l'),
      position nBaths (.imp l x.1 x.2.1) ≠ position nBaths (.imp l' x.1 x.2.2) := by
    intro x hx he
    simp only [mem_product] at hx
    have := position_inj h (hin l hl _ hx.1 _ hx.2.1) (hin l' hl' _ hx.1 _ hx.2.2) he
    simp only [Label.imp.injEq] at this
    exact hne this.1
  by_cases hall : ∀ x ∈ ({0, 1} : Finset ℤ) ×ˢ (mRange l ×ˢ mRange l'),
      create (position nBaths (.imp l x.1 x.2.1)) (annihilate (position nBaths (.imp l' x.1 x.2.2)) (Spec.single S' 1)) S = (0 : ℂ)
  · left
    exact sum_eq_zero fun x hx => by rw [hall x hx, mul_zero]
  · push_neg at hall
    obtain ⟨x, hx, hnz⟩ := hall
    have h1 := (hop_element (hij x hx) S S').resolve_left hnz
    have hx' := hx
    simp only [mem_product] at hx'
    right
    refine ⟨x.1, hx'.1, x.2.1, hx'.2.1, x.2.2, hx'.2.2, ?_, h1.2.1, h1.2.2⟩
    rw [sum_eq_single x]
    · rw [Amp.abs2_mul, h1.1, mul_one]
    · intro y hy hyx
      rcases hop_element (hij y hy) S S' with h0 | h2
      · rw [h0, mul_zero]
      · exfalso
        apply hyx
        have hy' := hy
        simp only [mem_product] at hy'
        have e1 : position nBaths (.imp l y.1 y.2.1) = position nBaths (.imp l x.1 x.2.1) :=
          singleton_injective (h2.2.1.symm.trans h1.2.1)
        have e2 : position nBaths (.imp l' y.1 y.2.2) = position nBaths (.imp l' x.1 x.2.2) :=
          singleton_injective (h2.2.2.symm.trans h1.2.2)
        have f1 := position_inj h (hin l hl _ hy'.1 _ hy'.2.1) (hin l hl _ hx'.1 _ hx'.2.1) e1
        have f2 := position_inj h (hin l' hl' _ hy'.1 _ hy'.2.2) (hin l' hl' _ hx'.1 _ hx'.2.2) e2
        simp only [Label.imp.injEq] at f1 f2
        exact Prod.ext f1.2.1 (Prod.ext f1.2.2 f2.2.2)
    · intro hc
      exact absurd hx hc

/-- No matrix element of a one-particle operator between two different shells is small if no
coefficient is. -/
theorem noSmall_between {nBaths : NBaths} (h : GoodSystem nBaths) {l l' : ℕ} (hl : l ∈ allAngulars nBaths)
    (hl' : l' ∈ allAngulars nBaths) (hne : l ≠ l') (M : ℤ → ℤ → ℂ) {cut : ℝ}
    (hM : ∀ m ∈ mRange l, ∀ m' ∈ mRange l', M m m' = 0 ∨ cut ≤ abs2 (M m m')) (n : ℕ) (r : Option Restrictions) :
    NoSmall n (between (position nBaths) l l' M) cut r := by
  intro S _ S' _ _
  rcases between_element h hl hl' hne M S S' with h0 | ⟨s, -, m, hm, m', hm', he, -, -⟩
  · exact Or.inl h0
  · rcases hM m hm m' hm' with h0 | h0
    · left
      rw [h0, Amp.abs2_zero] at he
      exact Complex.normSq_eq_zero.1 he
    · right
      rw [he]
      exact h0

/-- A dipole coefficient for polarisation along x. -/
theorem dipole_x (gaunt : GauntFun) (l : ℕ) (m : ℤ) (l' : ℕ) (m' : ℤ) :
    dipole gaunt 1 0 0 l m l' m' = 0 ∨ (abs2 (dipole gaunt 1 0 0 l m l' m') : ℝ) = ck gaunt 1 l m l' m' ^ 2 / 2 := by
  have h2 : Complex.normSq ((Real.sqrt 2 : ℝ) : ℂ) = 2 := by
    rw [Complex.normSq_ofReal, Real.mul_self_sqrt (by norm_num)]
  show _ ∨ Complex.normSq _ = _
  unfold dipole c1
  simp only [one_mul, zero_mul, add_zero]
  by_cases h1 : m - m' = 1
  · right
    rw [if_neg (by omega), if_pos h1, zero_sub, Complex.normSq_div, Complex.normSq_neg, h2, Complex.normSq_ofReal, sq]
  · by_cases h3 : m - m' = -1
    · right
      rw [if_pos h3, if_neg h1, sub_zero, Complex.normSq_div, h2, Complex.normSq_ofReal, sq]
    · left
      rw [if_neg h1, if_neg h3]
      simp

/-- Dipole coefficients change the magnetic quantum number by at most one. -/
theorem dipole_step (gaunt : GauntFun) (x y z : ℂ) (l : ℕ) (m : ℤ) (l' : ℕ) (m' : ℤ)
    (h : dipole gaunt x y z l m l' m' ≠ 0) : -1 ≤ m - m' ∧ m - m' ≤ 1 := by
  by_contra hc
  apply h
  unfold dipole c1
  rw [if_neg (by omega), if_neg (by omega), if_neg (by omega)]
  simp

/-- The coefficients of the dipole operator for the polarisations that main uses. -/
theorem dipole_ge {gaunt : GauntFun} {l l' : ℕ} {v : Vec3 ℂ}
    (hv : v ∈ ([⟨1, 0, 0⟩, ⟨0, 1, 0⟩, ⟨0, 0, 1⟩] : List (Vec3 ℂ))) (m m' : ℤ) {c : ℝ} (hc : 0 ≤ c)
    (hG : ck gaunt 1 l m l' m' = 0 ∨ c ≤ ck gaunt 1 l m l' m' ^ 2) :
    dipole gaunt v.x v.y v.z l m l' m' = 0 ∨ c / 2 ≤ abs2 (dipole gaunt v.x v.y v.z l m l' m') := by
  have h2 : Complex.normSq ((Real.sqrt 2 : ℝ) : ℂ) = 2 := by
    rw [Complex.normSq_ofReal, Real.mul_self_sqrt (by norm_num)]
  have hck : ∀ q, c1 gaunt l m l' m' q = 0 ∨ c ≤ Complex.normSq (c1 gaunt l m l' m' q) := by
    intro q
    unfold c1
    split
    · rcases hG with h | h
      · left; rw [h]; simp
      · right; rw [Complex.normSq_ofReal, ← sq]; exact h
    · left; rfl
  have hone : c1 gaunt l m l' m' (-1) = 0 ∨ c1 gaunt l m l' m' 1 = 0 := by
    unfold c1
    by_cases h : m - m' = 1
    · left; rw [if_neg (by omega)]
    · right; rw [if_neg h]
  simp only [List.mem_cons, List.not_mem_nil, or_false] at hv
  show _ ∨ c / 2 ≤ Complex.normSq _
  unfold dipole
  rcases hv with rfl | rfl | rfl
  · simp only [one_mul, zero_mul, add_zero]
    rcases hone with h | h
    · rw [h]
      rcases hck 1 with h' | h'
      · left; rw [h']; simp
      · right
        rw [zero_sub, Complex.normSq_div, Complex.normSq_neg, h2]
        exact div_le_div_of_nonneg_right h' (by norm_num)
    · rw [h]
      rcases hck (-1) with h' | h'
      · left; rw [h']; simp
      · right
        rw [sub_zero, Complex.normSq_div, h2]
        exact div_le_div_of_nonneg_right h' (by norm_num)
  · simp only [one_mul, zero_mul, add_zero, zero_add]
    rcases hone with h | h
    · rw [h]
      rcases hck 1 with h' | h'
      · left; rw [h']; simp
      · right
        rw [zero_add, Complex.normSq_div, Complex.normSq_mul, Complex.normSq_I, one_mul, h2]
        exact div_le_div_of_nonneg_right h' (by norm_num)
    · rw [h]
      rcases hck (-1) with h' | h'
      · left; rw [h']; simp
      · right
        rw [add_zero, Complex.normSq_div, Complex.normSq_mul, Complex.normSq_I, one_mul, h2]
        exact div_le_div_of_nonneg_right h' (by norm_num)
  · simp only [one_mul, zero_mul, zero_add]
    rcases hck 0 with h' | h'
    · left; exact h'
    · right; exact le_trans (by linarith) h'

theorem dipole_large {gaunt : GauntFun} {ls : List ℕ} (hG : GauntLarge gaunt ls) {l l' : ℕ} (hl : l ∈ ls) (hl' : l' ∈ ls)
    {v : Vec3 ℂ} (hv : v ∈ ([⟨1, 0, 0⟩, ⟨0, 1, 0⟩, ⟨0, 0, 1⟩] : List (Vec3 ℂ))) (m m' : ℤ) :
    dipole gaunt v.x v.y v.z l m l' m' = 0 ∨ (1e-7 : ℝ) ≤ abs2 (dipole gaunt v.x v.y v.z l m l' m') := by
  have := dipole_ge hv m m' (by norm_num) (hG l hl l' hl' m m')
  rwa [show (2e-7 : ℝ) / 2 = 1e-7 by norm_num] at this

end Verif
