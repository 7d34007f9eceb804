/-
Time reversal of the Hamiltonian and of the observables of a p and a d shell.
-/
import Verif.Lemmas.TimeReversal
import Verif.Spec.Printed

namespace Verif

open Finset Spec

noncomputable section

/-! ### Matrices -/

theorem star_ofReal (r : ℝ) : star (r : ℂ) = (r : ℂ) := Complex.conj_ofReal r

theorem oneBody_shell {f : Label → ℕ} {l : ℕ} {M M' : ℤ × ℤ → ℤ × ℤ → ℂ} (h : ∀ x ∈ shell l, ∀ y ∈ shell l, M x y = M' x y)
    (v : Vec ℂ) : oneBody f l M v = oneBody f l M' v := by
  funext F
  refine sum_congr rfl fun x hx => ?_
  obtain ⟨h1, h2⟩ := Finset.mem_product.1 hx
  rw [h _ h1 _ h2]

theorem shell_spin {l : ℕ} {x : ℤ × ℤ} (hx : x ∈ shell l) : x.1 = 0 ∨ x.1 = 1 := by
  have h := (Finset.mem_product.1 hx).1
  simpa using h

theorem sZ_flip {s s' : ℤ} (hs : s = 0 ∨ s = 1) (hs' : s' = 0 ∨ s' = 1) : star (sZ (1 - s') (1 - s)) = -sZ s' s := by
  unfold sZ
  rcases hs with rfl | rfl <;> rcases hs' with rfl | rfl <;> norm_num

theorem lZ_flip (m m' : ℤ) : star (lZ (-m') (-m)) = -lZ m' m := by
  unfold lZ
  by_cases h : m' = m
  · rw [if_pos h, if_pos (by rw [h])]
    push_cast
    rw [star_neg, star_intCast]
  · rw [if_neg h, if_neg fun e => h (neg_injective e), star_zero, neg_zero]

theorem sPlus_flip (s s' : ℤ) : star (sPlus (1 - s') (1 - s)) = sMinus s' s := by
  unfold sPlus sMinus
  by_cases h : s' = 0 ∧ s = 1
  · rw [if_pos h, if_pos (by omega), star_one]
  · rw [if_neg h, if_neg (by omega), star_zero]

theorem sMinus_flip (s s' : ℤ) : star (sMinus (1 - s') (1 - s)) = sPlus s' s := by
  unfold sPlus sMinus
  by_cases h : s' = 1 ∧ s = 0
  · rw [if_pos h, if_pos (by omega), star_one]
  · rw [if_neg h, if_neg (by omega), star_zero]

theorem lPlus_flip (l : ℕ) (m m' : ℤ) : star (lPlus l (-m') (-m)) = lMinus l m' m := by
  unfold lPlus lMinus
  by_cases h : m' = m - 1
  · rw [if_pos h, if_pos (by omega), star_ofReal]
    congr 2
    push_cast
    ring
  · rw [if_neg h, if_neg (by omega), star_zero]

theorem lMinus_flip (l : ℕ) (m m' : ℤ) : star (lMinus l (-m') (-m)) = lPlus l m' m := by
  unfold lPlus lMinus
  by_cases h : m' = m + 1
  · rw [if_pos h, if_pos (by omega), star_ofReal]
    congr 2
    push_cast
    ring
  · rw [if_neg h, if_neg (by omega), star_zero]

theorem delta_flip (m m' : ℤ) : star (delta (-m') (-m)) = delta m' m := by
  unfold delta
  by_cases h : m' = m
  · rw [if_pos h, if_pos (by rw [h]), star_one]
  · rw [if_neg h, if_neg (by omega), star_zero]

theorem delta_flip' (s s' : ℤ) : star (delta (1 - s') (1 - s)) = delta s' s := by
  unfold delta
  by_cases h : s' = s
  · rw [if_pos h, if_pos (by rw [h]), star_one]
  · rw [if_neg h, if_neg (by omega), star_zero]

theorem lDotS_flip (c : ℝ) (l : ℕ) {x y : ℤ × ℤ} (hx : x.1 = 0 ∨ x.1 = 1) (hy : y.1 = 0 ∨ y.1 = 1) :
    flipMatrix (fun x y => (c : ℂ) * lDotS l x y) x y = (c : ℂ) * lDotS l x y := by
  have h : star (lDotS l (1 - x.1, -x.2) (1 - y.1, -y.2)) = lDotS l x y := by
    unfold lDotS
    dsimp only
    rw [star_add, star_mul', star_div₀, star_add, star_mul', star_mul', sZ_flip hy hx, lZ_flip, lPlus_flip, lMinus_flip, sPlus_flip,
      sMinus_flip, show star (2 : ℂ) = 2 from Complex.conj_ofNat 2]
    ring
  unfold flipMatrix
  dsimp only
  rw [star_mul', star_ofReal, h]
  by_cases h0 : lDotS l x y = 0
  · rw [h0]; ring
  · rw [neg_one_zpow_even (by have := lDotS_conserves l x y h0; omega), one_mul]

theorem orbZ_flip (x y : ℤ × ℤ) : flipMatrix (orbOp lZ) x y = -orbOp lZ x y := by
  unfold flipMatrix orbOp
  dsimp only
  rw [star_mul', delta_flip', lZ_flip]
  unfold delta lZ
  by_cases h : x.1 = y.1 ∧ x.2 = y.2
  · rw [if_pos h.1, if_pos h.2, neg_one_zpow_even (by omega)]; ring
  · by_cases h1 : x.1 = y.1
    · rw [if_neg fun e => h ⟨h1, e⟩]; ring
    · rw [if_neg h1]; ring

theorem spinZ_flip {x y : ℤ × ℤ} (hx : x.1 = 0 ∨ x.1 = 1) (hy : y.1 = 0 ∨ y.1 = 1) :
    flipMatrix (spinOp sZ) x y = -spinOp sZ x y := by
  unfold flipMatrix spinOp
  dsimp only
  rw [star_mul', delta_flip, sZ_flip hy hx]
  unfold delta sZ
  by_cases h : x.1 = y.1 ∧ x.2 = y.2
  · rw [if_pos h.1, if_pos h.2, neg_one_zpow_even (by omega)]; ring
  · by_cases h1 : x.1 = y.1
    · rw [if_neg fun e => h ⟨h1, e⟩]; ring
    · rw [if_neg h1]; ring

theorem hDotS_flip (hx hy hz : ℝ) {x y : ℤ × ℤ} (h1 : x.1 = 0 ∨ x.1 = 1) (h2 : y.1 = 0 ∨ y.1 = 1) :
    flipMatrix (hDotS hx hy hz) x y = hDotS (-hx) (-hy) (-hz) x y := by
  obtain ⟨s, m⟩ := x
  obtain ⟨s', m'⟩ := y
  have hI : star Complex.I = -Complex.I := Complex.conj_I
  have h2' : star (2 : ℂ) = 2 := Complex.conj_ofNat 2
  unfold flipMatrix hDotS sX sY
  dsimp only at h1 h2 ⊢
  rw [star_mul', star_add, star_add, star_mul', star_mul', star_mul', star_div₀, star_div₀, star_add, star_sub, star_mul', h2', hI,
    star_ofReal, star_ofReal, star_ofReal, sPlus_flip, sMinus_flip, sZ_flip h2 h1, delta_flip]
  unfold delta
  by_cases hm : m = m'
  · subst hm
    rw [if_pos rfl]
    rcases h1 with rfl | rfl <;> rcases h2 with rfl | rfl
    · rw [neg_one_zpow_even (by omega)]
      simp [sPlus, sMinus, sZ]
    · rw [neg_one_zpow_congr (k' := 1) (by omega)]
      simp [sPlus, sMinus, sZ]
      ring_nf
      rw [Complex.inv_I]
      ring
    · rw [neg_one_zpow_congr (k' := 1) (by omega)]
      simp [sPlus, sMinus, sZ]
      ring
    · rw [neg_one_zpow_even (by omega)]
      simp [sPlus, sMinus, sZ]
  · rw [if_neg hm, mul_zero, mul_zero, mul_zero]

/-! ### The Hamiltonian -/

section
variable {b : ℕ → ℕ} {P : BasisParams} {π : ℕ → ℕ} {φ : ℕ → ℂ} (hR : TimeReversal b P π φ)

theorem reverse_sub {n : ℕ} (v w : Vec ℂ) : reverse n π φ (v - w) = reverse n π φ v - reverse n π φ w := by
  have h := reverse_add (n := n) (π := π) (φ := φ) v ((-1 : ℂ) • w)
  rw [reverse_smul, star_neg, star_one, neg_one_smul, neg_one_smul, ← sub_eq_add_neg, ← sub_eq_add_neg] at h
  exact h

include hR in
/-- Time reversal reverses the magnetic field in the Hamiltonian if the non-interacting operator is invariant. -/
theorem pdHamiltonian_reverse_field (hx hy hz : ℝ) {gaunt : ℕ → ℕ → ℕ → ℤ → ℤ → ℤ → ℝ} (hG : GauntSymmetric gaunt) {A : MainArgs} {n3d : ℤ}
    {h0 : Op Label ℂ}
    (hh : ∀ v, operator (labelSpec (position (pdSystem b)) h0) (reverse (nTotal (pdSystem b)) π φ v)
      = reverse (nTotal (pdSystem b)) π φ (operator (labelSpec (position (pdSystem b)) h0) v)) (v : Vec ℂ) :
    pdHamiltonian gaunt (position (pdSystem b)) A n3d (-hx) (-hy) (-hz) h0 (reverse (nTotal (pdSystem b)) π φ v)
      = reverse (nTotal (pdSystem b)) π φ (pdHamiltonian gaunt (position (pdSystem b)) A n3d hx hy hz h0 v) := by
  have p1 : 1 ∈ [1, 2] := by simp
  have p2 : 2 ∈ [1, 2] := by simp
  let f := position (pdSystem b)
  let c1 : ℂ := ((averageUdd A.Fdd * n3d + averageUpd A.Fpd A.Gpd * 6 - A.chargeTransferCorrection : ℝ) : ℂ)
  let c2 : ℂ := ((averageUpd A.Fpd A.Gpd * (n3d + 1) - A.chargeTransferCorrection : ℝ) : ℂ)
  have key : ∀ (hx hy hz : ℝ) (w : Vec ℂ), pdHamiltonian gaunt f A n3d hx hy hz h0 w
      = (twoBody f 2 2 2 2 (coulomb gaunt 2 2 2 2 A.Fdd) w + twoBody f 1 1 1 1 (coulomb gaunt 1 1 1 1 A.Fpp) w
        + (twoBody f 1 2 2 1 (coulomb gaunt 1 2 2 1 A.Fpd) w + twoBody f 2 1 1 2 (coulomb gaunt 2 1 1 2 A.Fpd) w)
        + (twoBody f 1 2 1 2 (coulomb gaunt 1 2 1 2 A.Gpd) w + twoBody f 2 1 2 1 (coulomb gaunt 2 1 2 1 A.Gpd) w))
        + oneBody f 2 (hDotS hx hy hz) w + oneBody f 1 (fun x y => (A.xi2p : ℂ) * lDotS 1 x y) w
        + oneBody f 2 (fun x y => (A.xi3d : ℂ) * lDotS 2 x y) w
        - (c1 • shellNumber f 2 w + c2 • shellNumber f 1 w) + operator (labelSpec f h0) w := fun _ _ _ w => rfl
  have hfield : ∀ w, oneBody f 2 (flipMatrix (hDotS hx hy hz)) w = oneBody f 2 (hDotS (-hx) (-hy) (-hz)) w := fun w =>
    oneBody_shell (fun x h1 y h2 => hDotS_flip hx hy hz (shell_spin h1) (shell_spin h2)) w
  have hs : ∀ (c : ℝ) (l : ℕ) w, oneBody f l (flipMatrix fun x y => (c : ℂ) * lDotS l x y) w
      = oneBody f l (fun x y => (c : ℂ) * lDotS l x y) w := fun c l w =>
    oneBody_shell (fun x hx y hy => lDotS_flip c l (shell_spin hx) (shell_spin hy)) w
  rw [key, key]
  simp only [reverse_add, reverse_sub, reverse_smul]
  rw [reverse_twoBody hR hG p2 p2 p2 p2, reverse_twoBody hR hG p1 p1 p1 p1, reverse_twoBody hR hG p1 p2 p2 p1,
    reverse_twoBody hR hG p2 p1 p1 p2, reverse_twoBody hR hG p1 p2 p1 p2, reverse_twoBody hR hG p2 p1 p2 p1,
    reverse_oneBody hR p2, reverse_oneBody hR p1, reverse_oneBody hR p2, reverse_shellNumber hR p2, reverse_shellNumber hR p1,
    hh, hfield, hs, hs, star_ofReal, star_ofReal]

include hR in
/-- Without a magnetic field the Hamiltonian is invariant if the non-interacting operator is. -/
theorem pdHamiltonian_reverse {gaunt : ℕ → ℕ → ℕ → ℤ → ℤ → ℤ → ℝ} (hG : GauntSymmetric gaunt) {A : MainArgs} {n3d : ℤ}
    {h0 : Op Label ℂ}
    (hh : ∀ v, operator (labelSpec (position (pdSystem b)) h0) (reverse (nTotal (pdSystem b)) π φ v)
      = reverse (nTotal (pdSystem b)) π φ (operator (labelSpec (position (pdSystem b)) h0) v)) (v : Vec ℂ) :
    pdHamiltonian gaunt (position (pdSystem b)) A n3d 0 0 0 h0 (reverse (nTotal (pdSystem b)) π φ v)
      = reverse (nTotal (pdSystem b)) π φ (pdHamiltonian gaunt (position (pdSystem b)) A n3d 0 0 0 h0 v) := by
  have h := pdHamiltonian_reverse_field hR 0 0 0 hG (A := A) (n3d := n3d) hh v
  rwa [neg_zero] at h

/-! ### Groups of spin-orbitals -/

theorem shell_position {l : ℕ} {j : ℕ} (hj : j < 2 * (2 * l + 1)) :
    ((j / (2 * l + 1) : ℕ) : ℤ) ∈ ({0, 1} : Finset ℤ) ∧ ((j % (2 * l + 1) : ℕ) : ℤ) - l ∈ mRange l ∧
    impStart (pdSystem b) l + j = position (pdSystem b) (.imp l ((j / (2 * l + 1) : ℕ) : ℤ) (((j % (2 * l + 1) : ℕ) : ℤ) - l)) := by
  have h1 : j / (2 * l + 1) < 2 := Nat.div_lt_of_lt_mul (by rw [mul_comm]; exact hj)
  have h2 : j % (2 * l + 1) < 2 * l + 1 := Nat.mod_lt _ (by omega)
  have h3 := Nat.div_add_mod j (2 * l + 1)
  refine ⟨?_, ?_, ?_⟩
  · simp only [mem_insert, mem_singleton]
    generalize j / (2 * l + 1) = q at *
    omega
  · unfold mRange
    rw [mem_Icc]
    omega
  · unfold position
    dsimp only
    rw [sub_add_cancel, Int.toNat_natCast, Int.toNat_natCast]
    rw [mul_comm] at h3
    omega

include hR in
theorem partner_shell {l : ℕ} (hl : l ∈ [1, 2]) {j : ℕ} (hj : j < 2 * (2 * l + 1)) :
    π (impStart (pdSystem b) l + j) = impStart (pdSystem b) l + (2 * (2 * l + 1) - 1 - j) := by
  obtain ⟨h1, h2, h3⟩ := shell_position (b := b) hj
  rw [h3, (hR.shell l hl _ h1 _ h2).1]
  have h4 := Nat.div_add_mod j (2 * l + 1)
  have h5 : j % (2 * l + 1) < 2 * l + 1 := Nat.mod_lt _ (by omega)
  simp only [mem_insert, mem_singleton] at h1
  unfold position
  dsimp only
  generalize j / (2 * l + 1) = q at *
  generalize j % (2 * l + 1) = r at *
  have h6 : (-((r : ℤ) - l) + l).toNat = 2 * l - r := by omega
  rw [h6]
  rcases h1 with h1 | h1
  · obtain rfl : q = 0 := by omega
    simp only [Nat.cast_zero, sub_zero, Int.toNat_one, one_mul]
    omega
  · obtain rfl : q = 1 := by omega
    simp only [Nat.cast_one, sub_self, Int.toNat_zero, zero_mul, zero_add]
    omega

include hR in
theorem partner_imp {l : ℕ} (hl : l ∈ [1, 2]) (i : ℕ) (hi : i < nTotal (pdSystem b)) :
    π i ∈ impOrbs (pdSystem b) l ↔ i ∈ impOrbs (pdSystem b) l := by
  have h1 : ∀ i, i ∈ impOrbs (pdSystem b) l → π i ∈ impOrbs (pdSystem b) l := by
    intro i hi
    unfold impOrbs at hi ⊢
    rw [mem_Ico] at hi ⊢
    have h2 := partner_shell hR hl (j := i - impStart (pdSystem b) l) (by omega)
    rw [Nat.add_sub_cancel' hi.1] at h2
    omega
  refine ⟨fun h => ?_, h1 i⟩
  rw [← (hR.partner i hi).2]
  exact h1 _ h

include hR in
/-- Time reversal conserves the occupations of all groups of spin-orbitals. -/
theorem partner_cards {l : ℕ} (hl : l ∈ [1, 2]) {F : Finset ℕ} (hF : F ⊆ range (nTotal (pdSystem b))) :
    (F.image π ∩ impOrbs (pdSystem b) l).card = (F ∩ impOrbs (pdSystem b) l).card ∧
    (F.image π ∩ valOrbs (pdSystem b) l (P.val l)).card = (F ∩ valOrbs (pdSystem b) l (P.val l)).card ∧
    (F.image π ∩ conOrbs (pdSystem b) l (b l) (P.val l)).card = (F ∩ conOrbs (pdSystem b) l (b l) (P.val l)).card :=
  ⟨card_image_inter hR.partner (partner_imp hR hl) hF, card_image_inter hR.partner (fun i hi => (hR.bath l hl i hi).1) hF,
    card_image_inter hR.partner (fun i hi => (hR.bath l hl i hi).2) hF⟩

include hR in
theorem partner_configuration {F : Finset ℕ} (hF : F ⊆ range (nTotal (pdSystem b)))
    (h : IsConfiguration [(1, b 1), (2, b 2)] (pdSystem b) P F) :
    IsConfiguration [(1, b 1), (2, b 2)] (pdSystem b) P (F.image π) := by
  intro p hp
  have hp' : p.1 ∈ [1, 2] ∧ p.2 = b p.1 := by
    simp only [List.mem_cons, List.not_mem_nil, or_false] at hp
    rcases hp with rfl | rfl <;> simp
  have h1 := h p hp
  obtain ⟨c1, c2, c3⟩ := partner_cards hR hp'.1 hF
  rw [hp'.2] at h1 ⊢
  rw [c1, c2, c3]
  exact h1

/-! ### Real orbitals -/

theorem realOrbital_flip (i : ℕ) (hi : i < 5) (m : ℤ) (hm : m ∈ Icc (-2 : ℤ) 2) :
    (-1) ^ m * star (realOrbital i (-m)) = realOrbital i m := by
  rw [mem_Icc] at hm
  obtain ⟨h1, h2⟩ := hm
  have h3 : star ((Real.sqrt 2 : ℝ) : ℂ) = ((Real.sqrt 2 : ℝ) : ℂ) := star_ofReal _
  have h4 : star Complex.I = -Complex.I := Complex.conj_I
  unfold realOrbital
  interval_cases m <;> interval_cases i <;>
    simp [List.getD, star_div₀, h3, h4, zpow_neg, neg_div] <;> norm_num

include hR in
/-- Removing an electron from a real orbital and reversing the time. -/
theorem reverse_real {s : ℤ} (hs : s ∈ ({0, 1} : Finset ℤ)) {i : ℕ} (hi : i < 5) (v : Vec ℂ) :
    reverse (nTotal (pdSystem b)) π φ (annihilateReal (position (pdSystem b)) s i v)
      = ((-1 : ℂ) ^ s) • annihilateReal (position (pdSystem b)) (1 - s) i (reverse (nTotal (pdSystem b)) π φ v) := by
  have p2 : 2 ∈ [1, 2] := by simp
  unfold annihilateReal annihilateIn
  rw [reverse_sum]
  funext F
  rw [Pi.smul_apply, smul_eq_mul, mul_sum]
  refine sum_bij' (fun m _ => -m) (fun m _ => -m) (fun m hm => ?_) (fun m hm => ?_) (fun m _ => neg_neg m) (fun m _ => neg_neg m)
    fun m hm => ?_
  · rw [mem_Icc] at hm ⊢; omega
  · rw [mem_Icc] at hm ⊢; omega
  · have hm' : m ∈ mRange 2 := hm
    rw [reverse_annihilate hR.partner hR.unit (shell_lt p2 hs hm'), (hR.shell 2 p2 s hs m hm').1, (hR.shell 2 p2 s hs m hm').2,
      Pi.smul_apply, smul_eq_mul, star_star, star_neg_one_zpow, ← mul_assoc, ← mul_assoc]
    congr 1
    have hm2 : -m ∈ Icc (-2 : ℤ) 2 := by rw [mem_Icc] at hm ⊢; omega
    rw [← realOrbital_flip i hi (-m) hm2, neg_neg, star_mul', star_star, star_neg_one_zpow, zpow_add₀ (by norm_num : (-1 : ℂ) ≠ 0)]
    rw [neg_one_zpow_congr (k := -m) (k' := m) (by omega)]
    ring

end

end

end Verif
