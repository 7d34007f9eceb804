/-
Lemmas for C86: parameters of main that only enter the energies of product states.
-/
import Verif.Lemmas.Perturb
import Verif.Prop.Rotation
import Verif.Lemmas.MainRuns
import Verif.Spec.Variational

namespace Verif

open Finset Spec

noncomputable section

theorem coulomb_raiseMonopole {gaunt : GauntFun} (l1 l2 l3 l4 : ℕ) {R : List ℝ} (hR : R ≠ []) (u : ℝ) (m1 m2 m3 m4 : ℤ) :
    coulomb gaunt l1 l2 l3 l4 (raiseMonopole R u) m1 m2 m3 m4
      = coulomb gaunt l1 l2 l3 l4 R m1 m2 m3 m4 + coulomb gaunt l1 l2 l3 l4 [u] m1 m2 m3 m4 := by
  obtain ⟨r, R, rfl⟩ := List.exists_cons_of_ne_nil hR
  unfold coulomb raiseMonopole
  split
  · simp only [List.modifyHead_cons, List.length_cons, List.length_nil, sum_range_succ', List.getD_cons_succ, List.getD_cons_zero,
      sum_range_zero, zero_add]
    ring
  · simp

theorem twoBody_add (f : Label → ℕ) (l1 l2 l3 l4 : ℕ) {u w t : ℤ → ℤ → ℤ → ℤ → ℝ}
    (h : ∀ m1 m2 m3 m4, u m1 m2 m3 m4 = w m1 m2 m3 m4 + t m1 m2 m3 m4) (v : Vec ℂ) (S : Finset ℕ) :
    twoBody f l1 l2 l3 l4 u v S = twoBody f l1 l2 l3 l4 w v S + twoBody f l1 l2 l3 l4 t v S := by
  unfold twoBody
  simp only [h, Complex.ofReal_add, add_mul, sum_add_distrib, mul_add]

theorem twoBody_nil {gaunt : GauntFun} (f : Label → ℕ) (l1 l2 l3 l4 k1 k2 k3 k4 : ℕ) (v : Vec ℂ) (S : Finset ℕ) :
    twoBody f k1 k2 k3 k4 (coulomb gaunt l1 l2 l3 l4 []) v S = 0 := by
  have : coulomb gaunt l1 l2 l3 l4 [] = fun _ _ _ _ => 0 := by
    funext m1 m2 m3 m4
    unfold coulomb
    split <;> simp
  unfold twoBody
  simp [this]

theorem shellNumber_eq {nBaths : NBaths} (hsys : GoodSystem nBaths) {l : ℕ} (hl : l ∈ allAngulars nBaths) (v : Vec ℂ) (S : Finset ℕ) :
    shellNumber (position nBaths) l v S = ((S ∩ impOrbs nBaths l).card : ℂ) * v S := by
  unfold shellNumber
  rw [← count_shell hsys hl S, sum_mul]
  refine sum_congr rfl fun x _ => ?_
  rw [create_annihilate_self, ite_mul, one_mul, zero_mul]

theorem pd_system (b : ℕ → ℕ) : GoodSystem (pdSystem b) ∧ 1 ∈ allAngulars (pdSystem b) ∧ 2 ∈ allAngulars (pdSystem b) :=
  ⟨goodSystem_two (by decide), allAngulars_two 1 2 (b 1) (b 2)⟩

theorem pdHamiltonian_raise {b : ℕ → ℕ} {A : MainArgs} (h1 : A.Fdd ≠ []) (h2 : A.Fpp ≠ []) (h3 : A.Fpd ≠ []) (udd upp upd c : ℝ)
    (n3d : ℤ) (hx hy hz : ℝ) (h0 : Op Label ℂ) (v : Vec ℂ) (F : Finset ℕ) :
    pdHamiltonian sympyGaunt (position (pdSystem b)) (raiseMonopoles A udd upp upd c) n3d hx hy hz h0 v F
      = pdHamiltonian sympyGaunt (position (pdSystem b)) A n3d hx hy hz h0 v F
        + (monopoleEnergy udd upp upd c n3d (F ∩ impOrbs (pdSystem b) 2).card (F ∩ impOrbs (pdSystem b) 1).card : ℂ) * v F := by
  obtain ⟨hsys, p1, p2⟩ := pd_system b
  have hm := C69_monopole hsys p1 p2 udd upp upd v F
  rw [C30_slater_condon_meaning, twoBody_nil, twoBody_nil, add_zero, add_zero] at hm
  have a1 : averageUdd (raiseMonopole A.Fdd udd) = averageUdd A.Fdd + udd := by
    obtain ⟨r, R, e⟩ := List.exists_cons_of_ne_nil h1
    rw [e]
    unfold averageUdd raiseMonopole
    simp only [List.modifyHead_cons, List.getD_cons_zero, List.getD_cons_succ]
    ring
  have a2 : averageUpd (raiseMonopole A.Fpd upd) A.Gpd = averageUpd A.Fpd A.Gpd + upd := by
    obtain ⟨r, R, e⟩ := List.exists_cons_of_ne_nil h3
    rw [e]
    unfold averageUpd raiseMonopole
    simp only [List.modifyHead_cons, List.getD_cons_zero]
    ring
  unfold pdHamiltonian raiseMonopoles
  simp only
  rw [twoBody_add _ 2 2 2 2 (coulomb_raiseMonopole 2 2 2 2 h1 udd), twoBody_add _ 1 1 1 1 (coulomb_raiseMonopole 1 1 1 1 h2 upp),
    twoBody_add _ 1 2 2 1 (coulomb_raiseMonopole 1 2 2 1 h3 upd), twoBody_add _ 2 1 1 2 (coulomb_raiseMonopole 2 1 1 2 h3 upd), a1, a2,
    shellNumber_eq hsys p1, shellNumber_eq hsys p2]
  unfold monopoleEnergy
  push_cast at hm ⊢
  linear_combination hm

theorem pdHamiltonian_oneBody {b : ℕ → ℕ} {gaunt : GauntFun} {A A' : MainArgs} (hI : SameInteraction { A with xi2p := A'.xi2p, xi3d := A'.xi3d } A')
    (n3d : ℤ) {hx hy hz hx' hy' hz' : ℝ} {h0 h0' : Op Label ℂ} (hnd : Dict.NodupKeys h0) (hnd' : Dict.NodupKeys h0')
    (s : Finset (Finset ℕ)) (T : Finset ℕ) :
    ∑ S ∈ s, ‖pdHamiltonian gaunt (position (pdSystem b)) A n3d hx hy hz h0 (single T (1 : ℂ)) S
      - pdHamiltonian gaunt (position (pdSystem b)) A' n3d hx' hy' hz' h0' (single T (1 : ℂ)) S‖
      ≤ oneBodyChange hx hy hz hx' hy' hz' A.xi2p A.xi3d A'.xi2p A'.xi3d h0 h0' := by
  set f := position (pdSystem b) with hf
  have e : ∀ S, pdHamiltonian gaunt f A n3d hx hy hz h0 (single T (1 : ℂ)) S
      - pdHamiltonian gaunt f A' n3d hx' hy' hz' h0' (single T (1 : ℂ)) S
      = oneBody f 2 (hDotS (hx - hx') (hy - hy') (hz - hz')) (single T (1 : ℂ)) S
        + oneBody f 1 (fun x y => ((A.xi2p - A'.xi2p : ℝ) : ℂ) * lDotS 1 x y) (single T (1 : ℂ)) S
        + oneBody f 2 (fun x y => ((A.xi3d - A'.xi3d : ℝ) : ℂ) * lDotS 2 x y) (single T (1 : ℂ)) S
        + (operator (labelSpec f h0) (single T (1 : ℂ)) S - operator (labelSpec f h0') (single T (1 : ℂ)) S) := by
    intro S
    have e1 : oneBody f 2 (hDotS (hx - hx') (hy - hy') (hz - hz')) (single T (1 : ℂ)) S
        = oneBody f 2 (hDotS hx hy hz) (single T (1 : ℂ)) S - oneBody f 2 (hDotS hx' hy' hz') (single T (1 : ℂ)) S := by
      unfold oneBody
      simp only [← sum_sub_distrib]
      refine sum_congr rfl fun x _ => ?_
      unfold hDotS
      push_cast
      ring
    have e2 : ∀ l (a a' : ℝ), oneBody f l (fun x y => ((a - a' : ℝ) : ℂ) * lDotS l x y) (single T (1 : ℂ)) S
        = oneBody f l (fun x y => (a : ℂ) * lDotS l x y) (single T (1 : ℂ)) S
          - oneBody f l (fun x y => (a' : ℂ) * lDotS l x y) (single T (1 : ℂ)) S := by
      intro l a a'
      unfold oneBody
      simp only [← sum_sub_distrib]
      refine sum_congr rfl fun x _ => ?_
      push_cast
      ring
    rw [e1, e2, e2]
    unfold pdHamiltonian
    rw [hI.Fdd, hI.Fpp, hI.Fpd, hI.Gpd, hI.chargeTransferCorrection]
    ring
  simp only [e]
  have n1 : ∑ S ∈ s, ‖oneBody f 2 (hDotS (hx - hx') (hy - hy') (hz - hz')) (single T (1 : ℂ)) S‖
      ≤ 5 / 2 * (|hz - hz'| + Real.sqrt ((hx - hx') ^ 2 + (hy - hy') ^ 2)) := by
    refine (sum_norm_field (fun m hm => ?_) _ _ _ s T).trans (le_of_eq (by push_cast; ring))
    intro he
    obtain ⟨hsys, p1, p2⟩ := pd_system b
    have hm0 : ((0 : ℤ), m) ∈ shell 2 := mem_product.2 ⟨by simp, hm⟩
    have hm1 : ((1 : ℤ), m) ∈ shell 2 := mem_product.2 ⟨by simp, hm⟩
    have := (systemApart hsys 2 (List.mem_toFinset.2 p2) _ hm0 2 (List.mem_toFinset.2 p2) _ hm1 he).2
    simp at this
  have n2 : ∀ l (a : ℝ), ∑ S ∈ s, ‖oneBody f l (fun x y => (a : ℂ) * lDotS l x y) (single T (1 : ℂ)) S‖ ≤ |a| * spinOrbitSize l := by
    intro l a
    refine (sum_norm_oneBody f l _ s T).trans (le_of_eq ?_)
    unfold spinOrbitSize
    simp only [norm_mul, ← mul_sum, Complex.norm_real, Real.norm_eq_abs]
  refine (sum_le_sum fun S _ => (norm_add_le _ _).trans (add_le_add_left (norm_add₃_le) _)).trans ?_
  simp only [sum_add_distrib]
  unfold oneBodyChange
  exact add_le_add (add_le_add (add_le_add n1 (n2 1 _)) (n2 2 _)) (labelled_change hnd hnd' s T)

/-! ### interpolation -/

theorem coulomb_between {gaunt : GauntFun} {t : ℝ} (l1 l2 l3 l4 : ℕ) {R R' Rm : List ℝ} (hR : Between t R R' Rm) (m1 m2 m3 m4 : ℤ) :
    coulomb gaunt l1 l2 l3 l4 Rm m1 m2 m3 m4
      = t * coulomb gaunt l1 l2 l3 l4 R m1 m2 m3 m4 + (1 - t) * coulomb gaunt l1 l2 l3 l4 R' m1 m2 m3 m4 := by
  unfold coulomb
  split
  · rw [← hR.1, ← hR.2.1, mul_sum, mul_sum, ← sum_add_distrib]
    refine sum_congr rfl fun k _ => ?_
    rw [hR.2.2 k]
    ring
  · simp

theorem twoBody_between (f : Label → ℕ) (l1 l2 l3 l4 : ℕ) {t : ℝ} {u u' um : ℤ → ℤ → ℤ → ℤ → ℝ}
    (h : ∀ m1 m2 m3 m4, um m1 m2 m3 m4 = t * u m1 m2 m3 m4 + (1 - t) * u' m1 m2 m3 m4) (v : Vec ℂ) (S : Finset ℕ) :
    twoBody f l1 l2 l3 l4 um v S = t * twoBody f l1 l2 l3 l4 u v S + (1 - t) * twoBody f l1 l2 l3 l4 u' v S := by
  unfold twoBody
  simp only [h, Complex.ofReal_add, Complex.ofReal_mul, Complex.ofReal_sub, Complex.ofReal_one, add_mul, sum_add_distrib, mul_assoc,
    ← mul_sum]
  ring

theorem oneBody_between (f : Label → ℕ) (l : ℕ) {t : ℝ} {u u' um : ℤ × ℤ → ℤ × ℤ → ℂ}
    (h : ∀ x y, um x y = t * u x y + (1 - t) * u' x y) (v : Vec ℂ) (S : Finset ℕ) :
    oneBody f l um v S = t * oneBody f l u v S + (1 - t) * oneBody f l u' v S := by
  unfold oneBody
  simp only [h, add_mul, sum_add_distrib, mul_assoc, ← mul_sum]

theorem pdHamiltonian_between {gaunt : GauntFun} {f : Label → ℕ} {t : ℝ} {A A' Am : MainArgs} (hA : InteractionBetween t A A' Am)
    {h0 h0' h0m : Op Label ℂ}
    (h : OperatorBetween t (operator (labelSpec f h0)) (operator (labelSpec f h0')) (operator (labelSpec f h0m))) (n3d : ℤ)
    (hx hy hz hx' hy' hz' : ℝ) :
    OperatorBetween t (pdHamiltonian gaunt f A n3d hx hy hz h0) (pdHamiltonian gaunt f A' n3d hx' hy' hz' h0')
      (pdHamiltonian gaunt f Am n3d (t * hx + (1 - t) * hx') (t * hy + (1 - t) * hy') (t * hz + (1 - t) * hz') h0m) := by
  intro v F
  have a1 : averageUdd Am.Fdd = t * averageUdd A.Fdd + (1 - t) * averageUdd A'.Fdd := by
    unfold averageUdd
    rw [hA.Fdd.2.2, hA.Fdd.2.2, hA.Fdd.2.2]
    ring
  have a2 : averageUpd Am.Fpd Am.Gpd = t * averageUpd A.Fpd A.Gpd + (1 - t) * averageUpd A'.Fpd A'.Gpd := by
    unfold averageUpd
    rw [hA.Fpd.2.2, hA.Gpd.2.2, hA.Gpd.2.2]
    ring
  have a3 : ∀ x y, hDotS (t * hx + (1 - t) * hx') (t * hy + (1 - t) * hy') (t * hz + (1 - t) * hz') x y
      = t * hDotS hx hy hz x y + (1 - t) * hDotS hx' hy' hz' x y := by
    intro x y
    unfold hDotS
    push_cast
    ring
  have a4 : ∀ l x y, ((t * A.xi2p + (1 - t) * A'.xi2p : ℝ) : ℂ) * lDotS l x y
      = t * ((A.xi2p : ℂ) * lDotS l x y) + (1 - t) * ((A'.xi2p : ℂ) * lDotS l x y) := by
    intro l x y
    push_cast
    ring
  have a5 : ∀ l x y, ((t * A.xi3d + (1 - t) * A'.xi3d : ℝ) : ℂ) * lDotS l x y
      = t * ((A.xi3d : ℂ) * lDotS l x y) + (1 - t) * ((A'.xi3d : ℂ) * lDotS l x y) := by
    intro l x y
    push_cast
    ring
  unfold pdHamiltonian
  rw [twoBody_between f 2 2 2 2 (coulomb_between 2 2 2 2 hA.Fdd), twoBody_between f 1 1 1 1 (coulomb_between 1 1 1 1 hA.Fpp),
    twoBody_between f 1 2 2 1 (coulomb_between 1 2 2 1 hA.Fpd), twoBody_between f 2 1 1 2 (coulomb_between 2 1 1 2 hA.Fpd),
    twoBody_between f 1 2 1 2 (coulomb_between 1 2 1 2 hA.Gpd), twoBody_between f 2 1 2 1 (coulomb_between 2 1 2 1 hA.Gpd),
    oneBody_between f 2 a3, hA.xi2p, hA.xi3d, oneBody_between f 1 (a4 1), oneBody_between f 2 (a5 2), h v F, a1, a2,
    hA.chargeTransferCorrection]
  push_cast
  ring

/-- The expectation value of an operator between two operators. -/
theorem form_between {t : ℝ} {op op' opm : Op ℕ ℂ} {s : Finset (Finset ℕ)}
    (h : OperatorBetween t (operator (opSpec op)) (operator (opSpec op')) (operator (opSpec opm))) (y : Finset ℕ → ℂ) :
    (∑ S ∈ s, ∑ T ∈ s, star (y S) * matrixElement opm S T * y T).re
      = t * (∑ S ∈ s, ∑ T ∈ s, star (y S) * matrixElement op S T * y T).re
        + (1 - t) * (∑ S ∈ s, ∑ T ∈ s, star (y S) * matrixElement op' S T * y T).re := by
  rw [← Complex.re_ofReal_mul, ← Complex.re_ofReal_mul, ← Complex.add_re]
  congr 1
  simp only [mul_sum]
  rw [← sum_add_distrib]
  refine sum_congr rfl fun S _ => ?_
  rw [← sum_add_distrib]
  refine sum_congr rfl fun T _ => ?_
  have : matrixElement opm S T = t * matrixElement op S T + (1 - t) * matrixElement op' S T := h _ S
  rw [this]
  push_cast
  ring

end

end Verif
