/-
C68, C69: rotational invariance of the Hamiltonian, and the monopole part of the Coulomb interaction.
-/
import Verif.Lemmas.Monopole
import Verif.Prop.Assemble

namespace Verif

open Spec Finset

noncomputable section

section
variable {nBaths : NBaths} (hsys : GoodSystem nBaths) {l1 l2 l3 l4 : ℕ}
  (h1 : l1 ∈ allAngulars nBaths) (h2 : l2 ∈ allAngulars nBaths) (h3 : l3 ∈ allAngulars nBaths) (h4 : l4 ∈ allAngulars nBaths)
  {gaunt : GauntFun} (hs : GauntSymmetric gaunt) (hi : GauntInvariant gaunt) (R : List ℝ)
include hsys h1 h2 h3 h4

/-- C68.  The Coulomb interaction does not depend on the spins: it commutes with every total spin operator,
in particular with rotations of all spins. -/
theorem C68_spin (A : ℤ → ℤ → ℂ) : Commutes (totalOneBody (position nBaths) (allAngulars nBaths).toFinset fun _ => spinOp A)
    (operator (labelSpec (position nBaths) (getUop gaunt l1 l2 l3 l4 R))) := by
  intro v
  rw [C30_meaning, C30_meaning]
  exact spin_commutes (systemApart hsys) (List.mem_toFinset.2 h1) (List.mem_toFinset.2 h2) (List.mem_toFinset.2 h3)
    (List.mem_toFinset.2 h4) _ A v

include hs hi

/-- C68.  The Coulomb interaction commutes with the total orbital momentum. -/
theorem C68_orbital : ∀ M ∈ orbitalMatrices, Commutes (totalOneBody (position nBaths) (allAngulars nBaths).toFinset M)
    (operator (labelSpec (position nBaths) (getUop gaunt l1 l2 l3 l4 R))) := by
  have k := systemApart hsys
  have k1 := List.mem_toFinset.2 h1
  have k2 := List.mem_toFinset.2 h2
  have k3 := List.mem_toFinset.2 h3
  have k4 := List.mem_toFinset.2 h4
  intro M hM v
  rw [C30_meaning, C30_meaning]
  simp only [orbitalMatrices, List.mem_cons, List.not_mem_nil, or_false] at hM
  rcases hM with rfl | rfl | rfl
  · exact lPlus_commutes k k1 k2 k3 k4 hi hs R v
  · exact lMinus_commutes k k1 k2 k3 k4 hi hs R v
  · exact lZ_commutes k k1 k2 k3 k4 R v

end

section
variable {nBaths : NBaths} (hsys : GoodSystem nBaths) {l : ℕ} (hl : l ∈ allAngulars nBaths)
include hsys hl

/-- C68.  Spin-orbit coupling commutes with the total angular momentum `L + S`. -/
theorem C68_spin_orbit (xi : ℝ) : ∀ M ∈ totalMatrices, Commutes (totalOneBody (position nBaths) (allAngulars nBaths).toFinset M)
    (operator (labelSpec (position nBaths) (getSOCop xi l))) := by
  intro M hM v
  rw [C31_meaning, C31_meaning]
  refine commutes_one (systemApart hsys) (List.mem_toFinset.2 hl) (fun x hx y hy => ?_) v
  have e : ∀ M' : ℤ × ℤ → ℤ × ℤ → ℂ, (∑ z ∈ shell l, M' x z * lDotS l z y = ∑ z ∈ shell l, M' z y * lDotS l x z) →
      ∑ z ∈ shell l, M' x z * ((xi : ℂ) * lDotS l z y) = ∑ z ∈ shell l, M' z y * ((xi : ℂ) * lDotS l x z) := by
    intro M' h
    simp only [mul_left_comm _ (xi : ℂ), ← mul_sum, h]
  simp only [totalMatrices, orbitalMatrices, spinMatrices, List.zipWith_cons_cons, List.zipWith_nil_right, List.mem_cons,
    List.not_mem_nil, or_false] at hM
  rcases hM with rfl | rfl | rfl
  · exact e (fun x z => orbOp (lPlus l) x z + spinOp sPlus x z) (lDotS_raise l x hx y hy)
  · exact e (fun x z => orbOp (lMinus l) x z + spinOp sMinus x z) (lDotS_lower l x hx y hy)
  · exact e (fun x z => orbOp lZ x z + spinOp sZ x z) (lDotS_z l x hx y hy)

/-- C68.  A magnetic field acts on the spins only: it commutes with the total orbital momentum. -/
theorem C68_field (hx hy hz : ℝ) (B : ℕ → ℤ → ℤ → ℂ) :
    Commutes (totalOneBody (position nBaths) (allAngulars nBaths).toFinset fun l => orbOp (B l))
    (operator (labelSpec (position nBaths) (gethHfieldop hx hy hz l))) := by
  intro v
  rw [C32_meaning, C32_meaning]
  refine commutes_one (systemApart hsys) (List.mem_toFinset.2 hl) (fun x kx y ky => ?_) v
  rw [sum_orbOp kx, sum_orbOp' ky]
  have k1 := (mem_product.1 kx).2
  have k2 := (mem_product.1 ky).2
  unfold hDotS delta
  dsimp only
  simp only [mul_ite, mul_one, mul_zero]
  rw [sum_ite_eq', sum_ite_eq, if_pos (show y.2 ∈ mRange l from k2), if_pos (show x.2 ∈ mRange l from k1)]

/-- Every total one-particle operator conserves the number of electrons in the shells. -/
theorem number_commutes (M : ℕ → ℤ × ℤ → ℤ × ℤ → ℂ) :
    Commutes (totalOneBody (position nBaths) (allAngulars nBaths).toFinset M) (shellNumber (position nBaths) l) := by
  have e : shellNumber (position nBaths) l = oneBody (position nBaths) l fun x y => if x = y then 1 else 0 := by
    funext v S
    unfold shellNumber oneBody
    rw [sum_product]
    refine sum_congr rfl fun x hx => ?_
    simp only [ite_mul, one_mul, zero_mul]
    rw [sum_ite_eq, if_pos hx]
  rw [e]
  intro v
  refine commutes_one (systemApart hsys) (List.mem_toFinset.2 hl) (fun x kx y ky => ?_) v
  simp only [mul_ite, mul_one, mul_zero]
  rw [sum_ite_eq', sum_ite_eq, if_pos kx, if_pos ky]

end

theorem totalOneBody_add (ls : Finset ℕ) (A B : ℕ → ℤ × ℤ → ℤ × ℤ → ℂ) (f : Label → ℕ) (v : Vec ℂ) :
    totalOneBody f ls (fun l x y => A l x y + B l x y) v = totalOneBody f ls A v + totalOneBody f ls B v := by
  funext S
  simp only [totalOneBody, oneBody, Pi.add_apply, add_mul, sum_add_distrib]

theorem Commutes.sum {nBaths : NBaths} {M : ℕ → ℤ × ℤ → ℤ × ℤ → ℂ} {H U V W X N N' Z : Vec ℂ → Vec ℂ} {d p : ℂ} {ls : Finset ℕ}
    (hU : Commutes (totalOneBody (position nBaths) ls M) U) (hV : Commutes (totalOneBody (position nBaths) ls M) V)
    (hW : Commutes (totalOneBody (position nBaths) ls M) W) (hX : Commutes (totalOneBody (position nBaths) ls M) X)
    (hN : Commutes (totalOneBody (position nBaths) ls M) N) (hN' : Commutes (totalOneBody (position nBaths) ls M) N')
    (hZ : Commutes (totalOneBody (position nBaths) ls M) Z)
    (h : ∀ v S, H v S = U v S + V v S + W v S + X v S - (d * N v S + p * N' v S) + Z v S) :
    Commutes (totalOneBody (position nBaths) ls M) H := by
  intro v
  have e : ∀ v, H v = U v + V v + W v + X v - (d • N v + p • N' v) + Z v := fun v => funext fun S => h v S
  rw [e, e, ← hU, ← hV, ← hW, ← hX, ← hN, ← hN', ← hZ]
  simp only [← totA_apply]
  simp only [map_add, map_sub, map_smul]

section
variable {nBaths : NBaths} (hsys : GoodSystem nBaths) (h1 : 1 ∈ allAngulars nBaths) (h2 : 2 ∈ allAngulars nBaths)
  {gaunt : GauntFun} (Fdd Fpp Fpd Gpd : List ℝ)
include hsys h1 h2

theorem slaterCondon_commutes {M : ℕ → ℤ × ℤ → ℤ × ℤ → ℂ}
    (h : ∀ l1 ∈ allAngulars nBaths, ∀ l2 ∈ allAngulars nBaths, ∀ l3 ∈ allAngulars nBaths, ∀ l4 ∈ allAngulars nBaths, ∀ R,
      Commutes (totalOneBody (position nBaths) (allAngulars nBaths).toFinset M)
        (operator (labelSpec (position nBaths) (getUop gaunt l1 l2 l3 l4 R)))) :
    Commutes (totalOneBody (position nBaths) (allAngulars nBaths).toFinset M)
      (operator (labelSpec (position nBaths) (get2p3dSlaterCondonUop gaunt Fdd Fpp Fpd Gpd))) := by
  intro v
  have a := fun l1 h1 l2 h2 l3 h3 l4 h4 R => h l1 h1 l2 h2 l3 h3 l4 h4 R v
  simp only [C30_meaning] at a
  have e : ∀ v, operator (labelSpec (position nBaths) (get2p3dSlaterCondonUop gaunt Fdd Fpp Fpd Gpd)) v
      = twoBody (position nBaths) 2 2 2 2 (coulomb gaunt 2 2 2 2 Fdd) v + twoBody (position nBaths) 1 1 1 1 (coulomb gaunt 1 1 1 1 Fpp) v
        + (twoBody (position nBaths) 1 2 2 1 (coulomb gaunt 1 2 2 1 Fpd) v + twoBody (position nBaths) 2 1 1 2 (coulomb gaunt 2 1 1 2 Fpd) v)
        + (twoBody (position nBaths) 1 2 1 2 (coulomb gaunt 1 2 1 2 Gpd) v + twoBody (position nBaths) 2 1 2 1 (coulomb gaunt 2 1 2 1 Gpd) v) :=
    fun v => funext fun S => C30_slater_condon_meaning gaunt (position nBaths) Fdd Fpp Fpd Gpd v S
  rw [e, e, ← a 2 h2 2 h2 2 h2 2 h2, ← a 1 h1 1 h1 1 h1 1 h1, ← a 1 h1 2 h2 2 h2 1 h1, ← a 2 h2 1 h1 1 h1 2 h2,
    ← a 1 h1 2 h2 1 h1 2 h2, ← a 2 h2 1 h1 2 h2 1 h1]
  simp only [← totA_apply]
  simp only [map_add]

/-- C68.  The 2p-3d Coulomb interaction commutes with the total orbital momentum and the total spin. -/
theorem C68_slater_condon (hs : GauntSymmetric gaunt) (hi : GauntInvariant gaunt) : ∀ M ∈ orbitalMatrices ++ spinMatrices,
    Commutes (totalOneBody (position nBaths) (allAngulars nBaths).toFinset M)
      (operator (labelSpec (position nBaths) (get2p3dSlaterCondonUop gaunt Fdd Fpp Fpd Gpd))) := by
  intro M hM
  refine slaterCondon_commutes hsys h1 h2 Fdd Fpp Fpd Gpd fun l1 k1 l2 k2 l3 k3 l4 k4 R => ?_
  rcases List.mem_append.1 hM with hM | hM
  · exact C68_orbital hsys k1 k2 k3 k4 hs hi R M hM
  · simp only [spinMatrices, List.mem_cons, List.not_mem_nil, or_false] at hM
    rcases hM with rfl | rfl | rfl <;> exact C68_spin hsys k1 k2 k3 k4 R _

/-- C68.  The Hamiltonian commutes with the total angular momentum when there is no magnetic field and the
non-interacting operator commutes with it. -/
theorem C68_hamiltonian (hs : GauntSymmetric gaunt) (hi : GauntInvariant gaunt) {n0imps : Dict ℕ ℤ} {h0 : Op Label ℂ}
    (xi2p xi3d c : ℝ) (n3d n2p : ℤ) (hn3 : Dict.get? n0imps 2 = some n3d) (hn2 : Dict.get? n0imps 1 = some n2p)
    (d p : ℝ) (hdc : dcMLFT n3d c Fdd (some (n2p : ℝ)) (some Fpd) (some Gpd) = .ok (.two d p))
    (hn0 : Dict.NodupKeys h0) (hOp : Op ℕ ℂ)
    (h : getHamiltonianOperator gaunt nBaths Fdd Fpp Fpd Gpd xi2p xi3d n0imps c 0 0 0 h0 = .ok hOp)
    (M : ℕ → ℤ × ℤ → ℤ × ℤ → ℂ) (hM : M ∈ totalMatrices)
    (h0J : Commutes (totalOneBody (position nBaths) (allAngulars nBaths).toFinset M) (operator (labelSpec (position nBaths) h0))) :
    Commutes (totalOneBody (position nBaths) (allAngulars nBaths).toFinset M) (operator (opSpec hOp)) := by
  obtain ⟨-, -, -, -, e⟩ := C54_meaning Fdd Fpp Fpd Gpd xi2p xi3d c 0 0 0 hsys n3d n2p hn3 hn2 d p hdc hn0 hOp h
  have sc := C68_slater_condon hsys h1 h2 Fdd Fpp Fpd Gpd hs hi
  have scJ : Commutes (totalOneBody (position nBaths) (allAngulars nBaths).toFinset M)
      (operator (labelSpec (position nBaths) (get2p3dSlaterCondonUop gaunt Fdd Fpp Fpd Gpd))) := by
    simp only [totalMatrices, orbitalMatrices, spinMatrices, List.zipWith_cons_cons, List.zipWith_nil_right, List.mem_cons,
      List.not_mem_nil, or_false] at hM
    have key : ∀ A ∈ orbitalMatrices, ∀ B ∈ spinMatrices,
        Commutes (totalOneBody (position nBaths) (allAngulars nBaths).toFinset (fun l x y => A l x y + B l x y))
          (operator (labelSpec (position nBaths) (get2p3dSlaterCondonUop gaunt Fdd Fpp Fpd Gpd))) := by
      intro A hA B hB v
      rw [totalOneBody_add, totalOneBody_add, sc A (List.mem_append_left _ hA) v, sc B (List.mem_append_right _ hB) v]
      exact funext fun S => (operator_add _ _ _ S).symm
    rcases hM with rfl | rfl | rfl
    · exact key _ (by simp [orbitalMatrices]) _ (by simp [spinMatrices])
    · exact key _ (by simp [orbitalMatrices]) _ (by simp [spinMatrices])
    · exact key _ (by simp [orbitalMatrices]) _ (by simp [spinMatrices])
  have f0 : Commutes (totalOneBody (position nBaths) (allAngulars nBaths).toFinset M) (oneBody (position nBaths) 2 (hDotS 0 0 0)) := by
    have z : ∀ v, oneBody (position nBaths) 2 (hDotS 0 0 0) v = 0 := by
      intro v
      funext S
      unfold oneBody hDotS
      refine sum_eq_zero fun x _ => ?_
      push_cast
      ring
    intro v
    rw [z, z, ← totA_apply, map_zero]
  have s1 := C68_spin_orbit hsys h1 xi2p M hM
  have s2 := C68_spin_orbit hsys h2 xi3d M hM
  have e1 : operator (labelSpec (position nBaths) (getSOCop xi2p 1)) = oneBody (position nBaths) 1 fun x y => (xi2p : ℂ) * lDotS 1 x y :=
    funext fun v => C31_meaning _ _ _ v
  have e2 : operator (labelSpec (position nBaths) (getSOCop xi3d 2)) = oneBody (position nBaths) 2 fun x y => (xi3d : ℂ) * lDotS 2 x y :=
    funext fun v => C31_meaning _ _ _ v
  rw [e1] at s1
  rw [e2] at s2
  exact Commutes.sum scJ f0 s1 s2 (number_commutes hsys h2 M) (number_commutes hsys h1 M) h0J e

/-- C69.  A Coulomb interaction with monopole parts only costs one `F⁰` per pair of electrons. -/
theorem C69_monopole (Fdd0 Fpp0 Fpd0 : ℝ) (v : Vec ℂ) (S : Finset ℕ) :
    operator (labelSpec (position nBaths) (get2p3dSlaterCondonUop sympyGaunt [Fdd0] [Fpp0] [Fpd0] [])) v S
      = ((Fdd0 * ((S ∩ impOrbs nBaths 2).card.choose 2) + Fpp0 * ((S ∩ impOrbs nBaths 1).card.choose 2)
        + Fpd0 * ((S ∩ impOrbs nBaths 1).card * (S ∩ impOrbs nBaths 2).card) : ℝ) : ℂ) * v S := by
  rw [C30_slater_condon_meaning]
  have sa := systemApart hsys
  have same : ∀ l ∈ allAngulars nBaths, ∀ F0 : ℝ, twoBody (position nBaths) l l l l (coulomb sympyGaunt l l l l [F0]) v S
      = (F0 : ℂ) * ((S ∩ impOrbs nBaths l).card.choose 2 : ℕ) * v S := by
    intro l hl F0
    rw [monopole_twoBody, Nat.cast_choose_two, ← count_shell hsys hl S]
    set c := ∑ x ∈ shell l, (if position nBaths (.imp l x.1 x.2) ∈ S then (1 : ℂ) else 0) with hc
    have e : ∑ x ∈ shell l, ∑ y ∈ shell l, (if position nBaths (.imp l x.1 x.2) ∈ S ∧ position nBaths (.imp l y.1 y.2) ∈ S ∧
        position nBaths (.imp l x.1 x.2) ≠ position nBaths (.imp l y.1 y.2) then v S else 0) = c * (c - 1) * v S := by
      have : ∀ x ∈ shell l, ∑ y ∈ shell l, (if position nBaths (.imp l x.1 x.2) ∈ S ∧ position nBaths (.imp l y.1 y.2) ∈ S ∧
          position nBaths (.imp l x.1 x.2) ≠ position nBaths (.imp l y.1 y.2) then v S else 0)
          = (if position nBaths (.imp l x.1 x.2) ∈ S then (1 : ℂ) else 0) * ((c - 1) * v S) := by
        intro x hx
        by_cases h : position nBaths (.imp l x.1 x.2) ∈ S
        · rw [if_pos h, one_mul, hc, sub_mul, sum_mul, one_mul, eq_sub_iff_add_eq]
          have : v S = ∑ y ∈ shell l, if y = x then v S else 0 := by rw [sum_ite_eq', if_pos hx]
          conv_lhs => rhs; rw [this]
          rw [← sum_add_distrib]
          refine sum_congr rfl fun y hy => ?_
          by_cases hyx : y = x
          · subst hyx; simp [h]
          · have : position nBaths (.imp l x.1 x.2) ≠ position nBaths (.imp l y.1 y.2) := fun e =>
              hyx (sa l (List.mem_toFinset.2 hl) x hx l (List.mem_toFinset.2 hl) y hy e).2.symm
            simp [h, this, hyx]
        · rw [if_neg h, zero_mul]
          exact sum_eq_zero fun y _ => if_neg fun k => h k.1
      rw [sum_congr rfl this, ← sum_mul]
      ring
    rw [e]
    ring
  have cross : ∀ l ∈ allAngulars nBaths, ∀ l' ∈ allAngulars nBaths, l ≠ l' → ∀ F0 : ℝ,
      twoBody (position nBaths) l l' l' l (coulomb sympyGaunt l l' l' l [F0]) v S
      = (F0 : ℂ) / 2 * ((S ∩ impOrbs nBaths l).card * (S ∩ impOrbs nBaths l').card) * v S := by
    intro l hl l' hl' hne F0
    rw [monopole_twoBody, ← count_shell hsys hl S, ← count_shell hsys hl' S, sum_mul, mul_assoc, sum_mul]
    congr 1
    refine sum_congr rfl fun x hx => ?_
    rw [mul_sum, sum_mul]
    refine sum_congr rfl fun y hy => ?_
    have : position nBaths (.imp l x.1 x.2) ≠ position nBaths (.imp l' y.1 y.2) := fun e =>
      hne (sa l (List.mem_toFinset.2 hl) x hx l' (List.mem_toFinset.2 hl') y hy e).1
    by_cases p : position nBaths (.imp l x.1 x.2) ∈ S <;> by_cases q : position nBaths (.imp l' y.1 y.2) ∈ S <;> simp [p, q, this]
  have none : ∀ l l', twoBody (position nBaths) l l' l l' (coulomb sympyGaunt l l' l l' []) v S = 0 := by
    intro l l'
    unfold twoBody coulomb
    simp
  rw [same 2 h2, same 1 h1, cross 1 h1 2 h2 (by norm_num), cross 2 h2 1 h1 (by norm_num), none, none]
  push_cast
  ring

end

/-- C70.  The integrals of three spherical harmonics that sympy's formula gives are symmetric, obey the
selection rules, are rotationally invariant, do not fall below the cutoff of the dipole operator for p
and d electrons, and those with `Y₀₀` are those of the orthonormal spherical harmonics. -/
theorem C70_gaunt : GauntSymmetric sympyGaunt ∧ GauntRules sympyGaunt ∧ GauntInvariant sympyGaunt ∧
    GauntLarge sympyGaunt [1, 2] ∧ ∀ (l l' : ℕ), ∀ m ∈ mRange l, ∀ m' ∈ mRange l',
      ck sympyGaunt 0 l m l' m' = if l = l' ∧ m = m' then 1 else 0 :=
  ⟨sympyGaunt_symmetric, sympyGaunt_rules, sympyGaunt_recursion, sympyGaunt_large, fun _ _ _ hm _ _ => ck_monopole hm⟩

/-- An ion without surroundings: the Hamiltonian exists and commutes with the total angular momentum. -/
example : ∃ hOp, getHamiltonianOperator sympyGaunt [(.int 1, 0), (.int 2, 0)] [7, 0, 1, 0, 1] [0, 0, 0] [1, 0, 2]
    [0, 1, 0, 2] 11 (1 / 10) [(1, 6), (2, 8)] (3 / 2) 0 0 0 [] = .ok hOp ∧ ∀ M ∈ totalMatrices,
      Commutes (totalOneBody (position [(.int 1, 0), (.int 2, 0)]) {1, 2} M) (operator (opSpec hOp)) := by
  obtain ⟨d, p, hdc⟩ : ∃ d p, dcMLFT ((8 : ℤ) : ℝ) (3 / 2) [7, 0, 1, 0, 1] (some ((6 : ℤ) : ℝ)) (some [1, 0, 2])
      (some [0, 1, 0, 2]) = .ok (.two d p) := by
    exact ⟨_, _, (C39_double_counting _ _ _ _ _ _ (by simp) (by simp) (by simp)).2.2 [1, 0, 2] [0, 1, 0, 2] ⟨8, rfl⟩
      (by norm_num) rfl rfl⟩
  have hsys : GoodSystem [(.int 1, 0), (.int 2, 0)] := ⟨by decide, by decide⟩
  have hz : ∀ q, strength ([] : Op Label ℂ) q = 0 := fun q => rfl
  obtain ⟨hOp, h⟩ := (C54_accepts (nBaths := [(.int 1, 0), (.int 2, 0)]) (n0imps := [(1, 6), (2, 8)]) [7, 0, 1, 0, 1] [0, 0, 0]
    [1, 0, 2] [0, 1, 0, 2] 11 (1 / 10) (3 / 2) 0 0 0 sympyGaunt_symmetric hsys (by decide) (by decide) 8 6 rfl rfl d p hdc
    (h0 := []) (by decide)).1 (fun q hq => absurd (hz q) hq) (fun q => by simp [hz])
  refine ⟨hOp, h, fun M hM => ?_⟩
  refine C68_hamiltonian hsys (by decide) (by decide) _ _ _ _ sympyGaunt_symmetric sympyGaunt_recursion _ _ _ 8 6 rfl rfl d p hdc
    (by decide) hOp h M hM ?_
  intro v
  have z : ∀ v : Vec ℂ, operator (labelSpec (position [(.int 1, 0), (.int 2, 0)]) []) v = 0 := fun v => rfl
  rw [z, z, ← totA_apply, map_zero]

/-- Two d electrons and one p electron: one pair of d electrons and two p-d pairs. -/
example (v : Vec ℂ) : operator (labelSpec (position [(.int 1, 0), (.int 2, 0)])
    (get2p3dSlaterCondonUop sympyGaunt [7] [0] [3] [])) v {0, 6, 12} = 13 * v {0, 6, 12} := by
  rw [C69_monopole ⟨by decide, by decide⟩ (by decide) (by decide)]
  have e1 : (({0, 6, 12} : Finset ℕ) ∩ impOrbs [(.int 1, 0), (.int 2, 0)] 1).card = 1 := by decide +kernel
  have e2 : (({0, 6, 12} : Finset ℕ) ∩ impOrbs [(.int 1, 0), (.int 2, 0)] 2).card = 2 := by decide +kernel
  rw [e1, e2]
  norm_num

end

end Verif
