/-
Kramers pairs: energies of an odd number of electrons come in pairs if time reversal applied twice changes the sign of each
spin-orbital.
-/
import Verif.Lemmas.TimeReversal
import Mathlib.LinearAlgebra.Matrix.Determinant.Basic

namespace Verif

open Finset Spec

noncomputable section

section
variable {n : ℕ} {π : ℕ → ℕ} {φ : ℕ → ℂ} (hπ : ∀ i < n, π i < n ∧ π (π i) = i) (hφ : ∀ i, ‖φ i‖ = 1)
  (hodd : ∀ i < n, φ (π i) = -φ i)

theorem create_sign (k : ℕ) (v : Vec ℂ) :
    create k (fun F => (-1) ^ F.card * v F) = fun F => -((-1) ^ F.card * create k v F) := by
  funext F
  unfold create
  split
  · rename_i h
    have h1 : F.card = (F.erase k).card + 1 := (card_erase_add_one h).symm
    rw [h1, pow_succ]
    ring
  · simp

include hπ hφ hodd in
/-- Time reversal applied twice. -/
theorem reverse_twice (v : Vec ℂ) (hv : ∀ F, ¬ F ⊆ range n → v F = 0) :
    reverse n π φ (reverse n π φ v) = fun F => (-1) ^ F.card * v F := by
  refine vec_induction n (Q := fun v => reverse n π φ (reverse n π φ v) = fun F => (-1) ^ F.card * v F)
    (fun v w hv hw => ?_) (fun c v hv => ?_) ?_ (fun k hk v hv => ?_) v hv
  · rw [reverse_add, reverse_add, hv, hw]
    funext F
    simp only [Pi.add_apply, mul_add]
  · rw [reverse_smul, reverse_smul, hv, star_star]
    funext F
    simp only [Pi.smul_apply, smul_eq_mul]
    ring
  · have h : reverse n π φ (Spec.single ∅ 1) = Spec.single ∅ 1 := by
      have e : (fun F => star ((Spec.single ∅ 1 : Vec ℂ) F)) = Spec.single ∅ 1 := by
        funext F
        unfold Spec.single
        split
        · exact star_one ℂ
        · exact star_zero ℂ
      unfold reverse
      rw [e, changeOrbitals_single (empty_subset _), slater_empty]
    rw [h, h]
    funext F
    unfold Spec.single
    split
    · rename_i h
      rw [h, card_empty, pow_zero, one_mul]
    · rw [mul_zero]
  · rw [reverse_create hπ hk, reverse_smul, reverse_create hπ (hπ k hk).1, hv, (hπ k hk).2, hodd k hk, create_sign]
    funext F
    simp only [Pi.smul_apply, smul_eq_mul]
    linear_combination (-1) ^ F.card * create k v F * unit_star hφ k

include hπ hφ hodd in
theorem reverse_twice_apply (v : Vec ℂ) {F : Finset ℕ} (hF : F ⊆ range n) :
    reverse n π φ (reverse n π φ v) F = (-1) ^ F.card * v F := by
  have h := congrFun (reverse_twice hπ hφ hodd (Spec.single F 1) fun G hG =>
    if_neg fun e : G = F => hG (e ▸ hF)) F
  have hF' := image_subset' hπ hF
  rw [reverse_apply hπ hφ _ hF, reverse_apply hπ hφ _ hF', image_image' hπ hF] at h ⊢
  unfold Spec.single at h
  rw [if_pos rfl, star_one, mul_one, mul_one] at h
  rw [← h, star_mul', star_star]
  ring

end

/-- A matrix `U` with `U* U = -1` has an even number of rows. -/
theorem even_of_conj_mul {m : ℕ} {U : ℕ → ℕ → ℂ}
    (h : ∀ i < m, ∀ k < m, ∑ j ∈ range m, star (U i j) * U j k = if i = k then -1 else 0) : Even m := by
  let V : Matrix (Fin m) (Fin m) ℂ := fun i j => U i j
  have h1 : V.map (starRingEnd ℂ) * V = -1 := by
    ext i k
    rw [Matrix.mul_apply, Matrix.neg_apply, Matrix.one_apply]
    have := h i i.2 k k.2
    rw [Finset.sum_range] at this
    refine this.trans ?_
    simp only [← Fin.ext_iff]
    split <;> simp
  have h2 := congrArg Matrix.det h1
  rw [Matrix.det_mul, ← RingHom.mapMatrix_apply, ← RingHom.map_det, Matrix.det_neg, Matrix.det_one, mul_one, Fintype.card_fin] at h2
  by_contra hm
  rw [Nat.not_even_iff_odd] at hm
  rw [hm.neg_one_pow, ← Complex.normSq_eq_conj_mul_self] at h2
  have h3 : Complex.normSq V.det = -1 := by exact_mod_cast h2
  have := Complex.normSq_nonneg V.det
  linarith

section
variable {n : ℕ} {π : ℕ → ℕ} {φ : ℕ → ℂ} (hπ : ∀ i < n, π i < n ∧ π (π i) = i) (hφ : ∀ i, ‖φ i‖ = 1)
  (hodd : ∀ i < n, φ (π i) = -φ i) {op : Op ℕ ℂ}
  (hop : ∀ v, ∀ F ⊆ range n, operator (opSpec op) (reverse n π φ v) F = reverse n π φ (operator (opSpec op) v) F)

include hπ hφ hodd hop in
/-- The number of energies below a gap is even. -/
theorem even_below_gap {s : Finset (Finset ℕ)} (hs : ∀ T ∈ s, T ⊆ range n) (hsπ : ∀ T ∈ s, T.image π ∈ s)
    (hcard : ∀ T ∈ s, Odd T.card) {cut : ℝ} {es : List ℝ} {x : ℕ → Finset ℕ → ℂ}
    (hh : ∀ S ∈ s, ∀ T ∈ s, storedElement op cut S T = star (storedElement op cut T S))
    (H : LowestIn s (storedElement op cut) es x) {m : ℕ} (hm : m < es.length) (hlt : ∀ i (_ : i < m), es[i] < es[m]) : Even m := by
  obtain ⟨U, -, -, hU⟩ := H.unitary (reverse_lowest hπ hφ hop hs hsπ H) hh hm hlt
  refine even_of_conj_mul (U := U) fun i hi k hk => ?_
  have h1 : ∀ F ∈ s, -x i F = ∑ l ∈ range m, (∑ j ∈ range m, star (U i j) * U j l) * x l F := by
    intro F hF
    have h := reverse_twice_apply hπ hφ hodd (x i) (hs F hF)
    rw [(hcard F hF).neg_one_pow, neg_one_mul, reverse_apply hπ hφ _ (hs F hF), hU i hi _ (hsπ F hF), star_sum, mul_sum] at h
    rw [← h]
    simp only [sum_mul]
    rw [sum_comm]
    refine sum_congr rfl fun j hj => ?_
    have h2 := hU j (mem_range.1 hj) F hF
    rw [reverse_apply hπ hφ _ (hs F hF)] at h2
    rw [star_mul', mul_left_comm, h2, mul_sum]
    exact sum_congr rfl fun l _ => by ring
  have h3 : ∑ F ∈ s, star (x k F) * -x i F = ∑ j ∈ range m, star (U i j) * U j k := by
    rw [sum_congr rfl fun F hF => by rw [h1 F hF, mul_sum], sum_comm, sum_eq_single_of_mem k (mem_range.2 hk)]
    · have h4 := H.ortho k (hk.trans hm) k (hk.trans hm)
      rw [if_pos rfl] at h4
      calc _ = (∑ j ∈ range m, star (U i j) * U j k) * ∑ F ∈ s, star (x k F) * x k F := by
            rw [mul_sum]; exact sum_congr rfl fun F _ => by ring
        _ = _ := by rw [h4, mul_one]
    · intro l hl hne
      have h4 := H.ortho k (hk.trans hm) l ((mem_range.1 hl).trans hm)
      rw [if_neg hne.symm] at h4
      calc _ = (∑ j ∈ range m, star (U i j) * U j l) * ∑ F ∈ s, star (x k F) * x l F := by
            rw [mul_sum]; exact sum_congr rfl fun F _ => by ring
        _ = 0 := by rw [h4, mul_zero]
  rw [← h3]
  simp only [mul_neg, sum_neg_distrib]
  rw [H.ortho k (hk.trans hm) i (hi.trans hm)]
  by_cases e : i = k
  · rw [if_pos e, if_pos e.symm]
  · rw [if_neg e, if_neg fun h => e h.symm, neg_zero]

include hπ hφ hodd hop in
/-- The energies come in pairs. -/
theorem kramers_pairs {s : Finset (Finset ℕ)} (hs : ∀ T ∈ s, T ⊆ range n) (hsπ : ∀ T ∈ s, T.image π ∈ s)
    (hcard : ∀ T ∈ s, Odd T.card) {cut : ℝ} {es : List ℝ} {x : ℕ → Finset ℕ → ℂ}
    (hh : ∀ S ∈ s, ∀ T ∈ s, storedElement op cut S T = star (storedElement op cut T S))
    (H : LowestIn s (storedElement op cut) es x) {k : ℕ} (hk : 2 * k + 1 < es.length) : es[2 * k] = es[2 * k + 1] := by
  by_contra hne
  have hp := List.pairwise_iff_getElem.1 H.asc
  have h1 : es[2 * k] < es[2 * k + 1] := lt_of_le_of_ne (hp _ _ _ hk (by omega)) hne
  have h2 : Even (2 * k + 1) := even_below_gap hπ hφ hodd hop hs hsπ hcard hh H hk fun i hi => by
    rcases Nat.lt_or_eq_of_le (Nat.le_of_lt_succ hi) with h | h
    · exact lt_of_le_of_lt (hp i (2 * k) (by omega) (by omega) h) h1
    · subst h
      exact h1
  exact absurd h2 (by rw [Nat.not_even_iff_odd]; exact odd_two_mul_add_one k)

end

end

end Verif
