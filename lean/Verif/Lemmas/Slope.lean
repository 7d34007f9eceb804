/-
Lemmas for C95: the expectation value of a change of the Hamiltonian bounds the change of the lowest energy.
-/
import Verif.Prop.Perturb
import Verif.Lemmas.Density

namespace Verif

open Finset Spec

noncomputable section

theorem LowestIn.normalised {s : Finset (Finset ℕ)} {h : Finset ℕ → Finset ℕ → ℂ} {es : List ℝ} {x : ℕ → Finset ℕ → ℂ}
    (H : LowestIn s h es x) {i : ℕ} (hi : i < es.length) : ∑ S ∈ s, Complex.normSq (x i S) = 1 := by
  have h1 := H.ortho i hi i hi
  rw [if_pos rfl] at h1
  have h2 : ((∑ S ∈ s, Complex.normSq (x i S) : ℝ) : ℂ) = 1 := by
    rw [← h1, Complex.ofReal_sum]
    exact sum_congr rfl fun S _ => Complex.normSq_eq_conj_mul_self
  exact_mod_cast h2

theorem LowestIn.form {s : Finset (Finset ℕ)} {h : Finset ℕ → Finset ℕ → ℂ} {es : List ℝ} {x : ℕ → Finset ℕ → ℂ}
    (H : LowestIn s h es x) {i : ℕ} (hi : i < es.length) :
    (∑ S ∈ s, ∑ T ∈ s, star (x i S) * h S T * x i T).re = es[i] := by
  have h1 : ∀ S ∈ s, ∑ T ∈ s, star (x i S) * h S T * x i T = ((es[i] * Complex.normSq (x i S) : ℝ) : ℂ) := by
    intro S hS
    simp only [mul_assoc]
    rw [← mul_sum, H.eigen i hi S hS]
    push_cast
    rw [Complex.normSq_eq_conj_mul_self]
    change star (x i S) * _ = _ * (star (x i S) * _)
    ring
  rw [sum_congr rfl h1, ← Complex.ofReal_sum, Complex.ofReal_re, ← mul_sum, H.normalised hi, mul_one]

section
variable {n : ℕ} {op op' : Op ℕ ℂ} (hop : OpInSystem n op) (hop' : OpInSystem n op') (hdict : Dict.NodupKeys op)
  (hdict' : Dict.NodupKeys op') (hh : isHermitianOp op) (hh' : isHermitianOp op') {cut cut' : ℝ}

include hop hop' hdict hdict' hh hh' in
theorem slope_exact {states : Finset (Finset ℕ)} (hst : ∀ S ∈ states, S ⊆ range n) {es es' : List ℝ} {x x' : ℕ → Finset ℕ → ℂ}
    (H : LowestIn states (storedElement op cut) es x) (H' : LowestIn states (storedElement op' cut') es' x') {q : Finset ℕ → ℝ}
    (hq : ShiftedBy (operator (opSpec op)) (operator (opSpec op')) q) (i : ℕ) (hi : i < es.length) (h0' : 0 < es'.length) :
    es'[0] ≤ es[i] + ∑ S ∈ states, q S * Complex.normSq (x i S) + (op.length * Real.sqrt cut + op'.length * Real.sqrt cut') := by
  have v := H'.variational (storedElement_hermitian hdict' hop' hh' cut' hst) h0' (x i)
  have c1 := (form_cut hop' hdict' hh' cut' hst (x i)).1
  have c2 := (form_cut hop hdict hh cut hst (x i)).2
  rw [form_shifted hq (x i)] at c1
  rw [H.form hi] at c2
  rw [H.normalised hi, mul_one] at v c1 c2
  linarith

/-- What is left out of a state by dropping components of small weight. -/
theorem mean_dropped {states : Finset (Finset ℕ)} (hst : ∀ S ∈ states, S ⊆ range n) {x v : Finset ℕ → ℂ} {weight Q : ℝ}
    (hv : ∀ S, v S = if S ∈ states ∧ weight ≤ Complex.normSq (x S) then x S else 0) {q : Finset ℕ → ℝ}
    (hw : 0 ≤ weight) (hQ : ∀ S ∈ states, |q S| ≤ Q) :
    |∑ S ∈ states, q S * Complex.normSq (x S) - ∑ S ∈ (range n).powerset, q S * Complex.normSq (v S)|
      ≤ Q * weight * states.card := by
  have h1 : ∑ S ∈ (range n).powerset, q S * Complex.normSq (v S) = ∑ S ∈ states, q S * Complex.normSq (v S) := by
    refine (sum_subset (fun S hS => mem_powerset.2 (hst S hS)) fun S _ hS => ?_).symm
    rw [hv, if_neg (fun h => hS h.1)]
    simp
  rw [h1, ← sum_sub_distrib]
  refine (abs_sum_le_sum_abs _ _).trans ?_
  rw [mul_comm, ← nsmul_eq_mul]
  refine sum_le_card_nsmul _ _ _ fun S hS => ?_
  rw [← mul_sub, abs_mul]
  have h2 : |Complex.normSq (x S) - Complex.normSq (v S)| ≤ weight := by
    rw [hv]
    by_cases hc : weight ≤ Complex.normSq (x S)
    · rw [if_pos ⟨hS, hc⟩, sub_self, abs_zero]; exact hw
    · rw [if_neg (fun h => hc h.2), map_zero, sub_zero, abs_of_nonneg (Complex.normSq_nonneg _)]
      exact (not_le.1 hc).le
  exact mul_le_mul (hQ S hS) h2 (abs_nonneg _) ((abs_nonneg _).trans (hQ S hS))

include hop hop' hdict hdict' hh hh' in
theorem slope_states {states : Finset (Finset ℕ)} (hst : ∀ S ∈ states, S ⊆ range n) {es es' : List ℝ} {psis psis' : List (Psi ℂ)}
    {weight weight' Q : ℝ} (hw : 0 ≤ weight)
    (H : LowestStates n op cut weight states es psis) (H' : LowestStates n op' cut' weight' states es' psis') {q : Finset ℕ → ℝ}
    (hq : ShiftedBy (operator (opSpec op)) (operator (opSpec op')) q) (hQ : ∀ S ∈ states, |q S| ≤ Q)
    (i : ℕ) (hi : i < es.length) (h0' : 0 < es'.length) :
    es'[0] ≤ es[i] + ∑ S ∈ (range n).powerset, q S * Complex.normSq (ampl n (psis.getD i []) S)
      + (op.length * Real.sqrt cut + op'.length * Real.sqrt cut' + Q * weight * states.card) := by
  obtain ⟨h1, hl, x, h2, h3, h4, h5⟩ := H
  obtain ⟨x', H'⟩ := lowestIn_of H'
  have h6 := slope_exact hop hop' hdict hdict' hh hh' hst ⟨h1, h2, h3, h4⟩ H' hq i hi h0'
  have hi2 : i < psis.length := by omega
  rw [List.getD_eq_getElem _ _ hi2]
  have h7 := (abs_le.1 (mean_dropped hst (h5 i hi2).2 hw hQ)).2
  linarith

end

/-! ### the d shell -/

/-- `S_z` of the d electrons of a product state. -/
def spinOf (f : Label → ℕ) (F : Finset ℕ) : ℝ := ∑ x ∈ shell 2, if f (.imp 2 x.1 x.2) ∈ F then (if x.1 = 1 then 1 / 2 else -1 / 2) else 0

theorem spinZ_diag (f : Label → ℕ) (v : Vec ℂ) : oneBody f 2 (spinOp sZ) v = fun S => ∑ x ∈ shell 2,
    ((if x.1 = 1 then 1 / 2 else -1 / 2 : ℝ) : ℂ) * create (f (.imp 2 x.1 x.2)) (annihilate (f (.imp 2 x.1 x.2)) v) S := by
  refine oneBody_diag f 2 _ (fun x => ((if x.1 = 1 then 1 / 2 else -1 / 2 : ℝ) : ℂ)) (fun x _ y _ => ?_) v
  unfold spinOp sZ Spec.delta
  obtain ⟨s, m⟩ := x
  obtain ⟨s', m'⟩ := y
  simp only [Prod.mk.injEq]
  by_cases h1 : s = s' <;> by_cases h2 : m = m' <;> simp [h1, h2]
  split <;> norm_num

theorem spinZ_apply (f : Label → ℕ) (v : Vec ℂ) (F : Finset ℕ) : oneBody f 2 (spinOp sZ) v F = (spinOf f F : ℂ) * v F := by
  rw [spinZ_diag]
  unfold spinOf
  rw [Complex.ofReal_sum, sum_mul]
  refine sum_congr rfl fun x _ => ?_
  rw [create_annihilate_self]
  by_cases h : f (.imp 2 x.1 x.2) ∈ F <;> simp [h]

theorem spinOf_le (f : Label → ℕ) (F : Finset ℕ) : |spinOf f F| ≤ 5 := by
  unfold spinOf
  refine (abs_sum_le_sum_abs _ _).trans ?_
  have : ∀ x ∈ shell 2, |if f (.imp 2 x.1 x.2) ∈ F then (if x.1 = 1 then 1 / 2 else -1 / 2 : ℝ) else 0| ≤ 1 / 2 := by
    intro x _
    split_ifs <;> norm_num [abs_of_pos, abs_of_neg]
  refine (sum_le_card_nsmul _ _ _ this).trans ?_
  have hc : (shell 2).card = 10 := by decide
  rw [hc]
  norm_num

theorem mean_diag (n : ℕ) {B : Vec ℂ → Vec ℂ} {q : Finset ℕ → ℝ} (hB : ∀ v F, B v F = (q F : ℂ) * v F) (v : Vec ℂ) :
    Spec.expect n B v = ((∑ S ∈ (range n).powerset, q S * Complex.normSq (v S) : ℝ) : ℂ) := by
  unfold Spec.expect innerProduct
  rw [Complex.ofReal_sum]
  refine sum_congr rfl fun S _ => ?_
  rw [hB, Complex.ofReal_mul, Complex.normSq_eq_conj_mul_self]
  change star (v S) * _ = _ * (star (v S) * v S)
  ring

end

end Verif
