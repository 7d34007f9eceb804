/-
Lemmas for C84: the effect of cutoffs on solutions of `(z - H) x = b`.
-/
import Verif.Lemmas.Bounded

namespace Verif

open Finset Psr Spec

noncomputable section

variable {n : ℕ} {op : Op ℕ ℂ} (hop : OpInSystem n op) (hdict : Dict.NodupKeys op) (hh : isHermitianOp op) {cut : ℝ}
  (r : Option Restrictions)

theorem innerProduct_le (n : ℕ) (v w : Vec ℂ) : ‖innerProduct n v w‖ ≤ len n v * len n w := by
  have h : innerProduct n v w = Inner.inner ℂ (onStates (range n).powerset v) (onStates (range n).powerset w) :=
    (inner_onStates v w).symm
  rw [h]
  exact norm_inner_le_norm _ _

/-- Solutions vanish where the occupations are not allowed. -/
theorem solves_allowed {z : ℂ} (hz : z ≠ 0) {b x : Vec ℂ} (hb : ∀ S, ¬ (S ⊆ range n ∧ AllowedOpt r S) → b S = 0)
    (hx : Solves n (hamiltonian n op cut r) z b x) : ∀ S, ¬ (S ⊆ range n ∧ AllowedOpt r S) → x S = 0 := by
  intro S hS
  by_cases hn : S ⊆ range n
  · have ha : ¬ AllowedOpt r S := fun h => hS ⟨hn, h⟩
    have h1 := hx.inside S hn
    have h0 : hamiltonian n op cut r x S = 0 := by
      unfold hamiltonian
      rw [if_pos hn]
      apply Finset.sum_eq_zero
      intro T _
      unfold column
      rw [if_neg (fun h => ha h.1), zero_mul]
    rw [h0, hb S hS, sub_zero] at h1
    exact (mul_eq_zero.1 h1).resolve_left hz
  · exact hx.outside S hn

include hop hdict hh in
/-- Expectation values are real. -/
theorem hamiltonian_real {x : Vec ℂ} (hx : ∀ S, ¬ (S ⊆ range n ∧ AllowedOpt r S) → x S = 0) :
    (innerProduct n x (hamiltonian n op cut r x)).im = 0 := by
  set q := innerProduct n x (hamiltonian n op cut r x) with hq
  have hq1 : q = ∑ S ∈ (range n).powerset, ∑ T ∈ (range n).powerset, star (x S) * (column op cut r T S * x T) := by
    rw [hq]
    unfold innerProduct hamiltonian
    refine sum_congr rfl fun S hS => ?_
    rw [if_pos (mem_powerset.1 hS), Finset.mul_sum]
  have hq2 : star q = q := by
    rw [hq1, star_sum]
    simp only [star_sum]
    rw [Finset.sum_comm]
    refine sum_congr rfl fun S hS => sum_congr rfl fun T hT => ?_
    rw [mem_powerset] at hS hT
    by_cases haS : AllowedOpt r S
    · by_cases haT : AllowedOpt r T
      · rw [column_hermitian hop hdict hh r hS hT haS haT]
        simp only [star_mul', star_star]
        ring
      · rw [hx T fun h => haT h.2]; simp
    · rw [hx S fun h => haS h.2]; simp
  have := congrArg Complex.im hq2
  simp at this
  linarith

include hop hdict hh in
/-- Solutions are at most `1/|Im z|` times as long as the right-hand side. -/
theorem solves_len {z : ℂ} (hz : z.im ≠ 0) {b x : Vec ℂ} (hb : ∀ S, ¬ (S ⊆ range n ∧ AllowedOpt r S) → b S = 0)
    (hx : Solves n (hamiltonian n op cut r) z b x) : len n x ≤ len n b / |z.im| := by
  have hz0 : z ≠ 0 := by rintro rfl; simp at hz
  have hxa := solves_allowed r hz0 hb hx
  have hreal := hamiltonian_real (cut := cut) hop hdict hh r hxa
  have h1 : innerProduct n x b = z * innerProduct n x x - innerProduct n x (hamiltonian n op cut r x) := by
    unfold innerProduct
    rw [Finset.mul_sum, ← sum_sub_distrib]
    refine sum_congr rfl fun S hS => ?_
    rw [← hx.inside S (mem_powerset.1 hS)]
    ring
  have h2 : (innerProduct n x b).im = z.im * len n x ^ 2 := by
    rw [h1, Complex.sub_im, hreal, sub_zero, innerProduct_self, Complex.im_mul_ofReal, len_sq]
  have hd : 0 < |z.im| := abs_pos.2 hz
  have h3 : |z.im| * len n x ^ 2 ≤ len n x * len n b := by
    rw [← abs_of_nonneg (sq_nonneg (len n x)), ← abs_mul, ← h2]
    exact (Complex.abs_im_le_norm _).trans (innerProduct_le n x b)
  rw [le_div_iff₀ hd]
  rcases (len_nonneg n x).eq_or_lt with h | h
  · rw [← h, zero_mul]; exact len_nonneg _ _
  · refine le_of_mul_le_mul_left ?_ h
    calc len n x * (len n x * |z.im|) = |z.im| * len n x ^ 2 := by ring
      _ ≤ _ := h3

include hop hdict hh in
/-- What the dropped matrix elements do to a vector. -/
theorem dropped_hamiltonian {x : Vec ℂ} (hx : ∀ S, ¬ (S ⊆ range n ∧ AllowedOpt r S) → x S = 0) :
    len n (hamiltonian n op cut r x - hamiltonian n op 0 r x) ≤ op.length * Real.sqrt cut * len n x := by
  set c := op.length * Real.sqrt cut with hc
  have hc0 : 0 ≤ c := by rw [hc]; positivity
  set D : Finset ℕ → Finset ℕ → ℂ := fun S T => if AllowedOpt r S ∧ AllowedOpt r T then column op cut r T S - column op 0 r T S else 0 with hD
  have hcol : ∀ T, ∑ S ∈ (range n).powerset, ‖D S T‖ ≤ c := by
    intro T
    refine (sum_le_sum fun S _ => ?_).trans (dropped_column (range n).powerset op r T)
    simp only [hD]
    split
    · exact le_rfl
    · rw [norm_zero]; exact norm_nonneg _
  have hrow : ∀ S ∈ (range n).powerset, ∑ T ∈ (range n).powerset, ‖D S T‖ ≤ c := by
    intro S hS
    refine le_trans (le_of_eq (sum_congr rfl fun T hT => ?_)) (hcol S)
    simp only [hD]
    by_cases h : AllowedOpt r S ∧ AllowedOpt r T
    · rw [if_pos h, if_pos ⟨h.2, h.1⟩, column_hermitian hop hdict hh r (mem_powerset.1 hS) (mem_powerset.1 hT) h.1 h.2,
        column_hermitian (cut := 0) hop hdict hh r (mem_powerset.1 hS) (mem_powerset.1 hT) h.1 h.2, ← star_sub, norm_star]
    · rw [if_neg h, if_neg (fun h' => h ⟨h'.2, h'.1⟩)]
  have hval : ∀ S ∈ (range n).powerset, (hamiltonian n op cut r x - hamiltonian n op 0 r x) S
      = ∑ T ∈ (range n).powerset, D S T * x T := by
    intro S hS
    rw [Pi.sub_apply]
    unfold hamiltonian
    rw [if_pos (mem_powerset.1 hS), if_pos (mem_powerset.1 hS), ← sum_sub_distrib]
    refine sum_congr rfl fun T hT => ?_
    simp only [hD]
    by_cases h : AllowedOpt r S ∧ AllowedOpt r T
    · rw [if_pos h]; ring
    · rw [if_neg h, zero_mul]
      by_cases hT' : AllowedOpt r T
      · have hS' : ¬ AllowedOpt r S := fun h' => h ⟨h', hT'⟩
        unfold column
        rw [if_neg (fun h => hS' h.1), if_neg (fun h => hS' h.1)]
        ring
      · rw [hx T fun h => hT' h.2]; ring
  refine len_le (mul_nonneg hc0 (len_nonneg _ _)) ?_
  rw [mul_pow, len_sq]
  unfold Spec.normSq
  calc ∑ S ∈ (range n).powerset, Complex.normSq ((hamiltonian n op cut r x - hamiltonian n op 0 r x) S)
      ≤ ∑ S ∈ (range n).powerset, c * ∑ T ∈ (range n).powerset, ‖D S T‖ * ‖x T‖ ^ 2 := by
        refine sum_le_sum fun S hS => ?_
        rw [hval S hS, Complex.normSq_eq_norm_sq]
        have h1 : ‖∑ T ∈ (range n).powerset, D S T * x T‖
            ≤ ∑ T ∈ (range n).powerset, Real.sqrt ‖D S T‖ * (Real.sqrt ‖D S T‖ * ‖x T‖) := by
          refine (norm_sum_le _ _).trans (le_of_eq (sum_congr rfl fun T _ => ?_))
          rw [norm_mul, ← mul_assoc, Real.mul_self_sqrt (norm_nonneg _)]
        refine (pow_le_pow_left₀ (norm_nonneg _) h1 2).trans ((sum_mul_sq_le_sq_mul_sq _ _ _).trans ?_)
        have e1 : ∑ T ∈ (range n).powerset, Real.sqrt ‖D S T‖ ^ 2 = ∑ T ∈ (range n).powerset, ‖D S T‖ :=
          sum_congr rfl fun T _ => Real.sq_sqrt (norm_nonneg _)
        have e2 : ∑ T ∈ (range n).powerset, (Real.sqrt ‖D S T‖ * ‖x T‖) ^ 2 = ∑ T ∈ (range n).powerset, ‖D S T‖ * ‖x T‖ ^ 2 :=
          sum_congr rfl fun T _ => by rw [mul_pow, Real.sq_sqrt (norm_nonneg _)]
        rw [e1, e2]
        exact mul_le_mul_of_nonneg_right (hrow S hS) (sum_nonneg fun T _ => by positivity)
    _ = c * ∑ T ∈ (range n).powerset, (∑ S ∈ (range n).powerset, ‖D S T‖) * ‖x T‖ ^ 2 := by
        rw [← Finset.mul_sum, sum_comm]
        simp only [sum_mul]
    _ ≤ c * ∑ T ∈ (range n).powerset, c * ‖x T‖ ^ 2 := by
        refine mul_le_mul_of_nonneg_left (sum_le_sum fun T _ => ?_) hc0
        exact mul_le_mul_of_nonneg_right (hcol T) (by positivity)
    _ = c ^ 2 * ∑ T ∈ (range n).powerset, Complex.normSq (x T) := by
        rw [← Finset.mul_sum]
        simp only [Complex.normSq_eq_norm_sq]
        ring

include hop hdict hh in
/-- Two solutions: with and without cutoff. -/
theorem solves_close {z : ℂ} (hz : z.im ≠ 0) {b b' x x' : Vec ℂ} (hb : ∀ S, ¬ (S ⊆ range n ∧ AllowedOpt r S) → b S = 0)
    (hb' : ∀ S, ¬ (S ⊆ range n ∧ AllowedOpt r S) → b' S = 0) (hx : Solves n (hamiltonian n op cut r) z b x)
    (hx' : Solves n (hamiltonian n op 0 r) z b' x') {a' ρ : ℝ} (ha' : len n b' ≤ a') (hd : len n (b - b') ≤ ρ) :
    len n (x - x') ≤ ρ / |z.im| + op.length * Real.sqrt cut * a' / z.im ^ 2 := by
  have hz0 : z ≠ 0 := by rintro rfl; simp at hz
  have hxa := solves_allowed r hz0 hb hx
  have hxa' := solves_allowed r hz0 hb' hx'
  have hlen' := solves_len hop hdict hh r hz hb' hx'
  set e : Vec ℂ := hamiltonian n op cut r x' - hamiltonian n op 0 r x' with he
  have hea : ∀ S, ¬ (S ⊆ range n ∧ AllowedOpt r S) → e S = 0 := by
    intro S hS
    rw [he, Pi.sub_apply]
    unfold hamiltonian
    by_cases hn : S ⊆ range n
    · have ha : ¬ AllowedOpt r S := fun h => hS ⟨hn, h⟩
      rw [if_pos hn, if_pos hn, ← sum_sub_distrib]
      refine sum_eq_zero fun T _ => ?_
      unfold column
      rw [if_neg (fun h => ha h.1), if_neg (fun h => ha h.1)]
      ring
    · rw [if_neg hn, if_neg hn, sub_self]
  have hs : Solves n (hamiltonian n op cut r) z ((b - b') + e) (x - x') := by
    refine ⟨fun S hS => ?_, fun S hS => by rw [Pi.sub_apply, hx.outside S hS, hx'.outside S hS, sub_zero]⟩
    have h1 := hx.inside S hS
    have h2 := hx'.inside S hS
    rw [(hamiltonian_linear n op cut r).map_sub, Pi.add_apply, Pi.sub_apply, Pi.sub_apply, Pi.sub_apply, he, Pi.sub_apply]
    linear_combination h1 - h2
  have h3 := solves_len hop hdict hh r hz (fun S hS => by
    rw [Pi.add_apply, Pi.sub_apply, hb S hS, hb' S hS, hea S hS]; simp) hs
  refine h3.trans ?_
  have h4 : len n e ≤ op.length * Real.sqrt cut * (a' / |z.im|) := by
    refine (dropped_hamiltonian hop hdict hh r hxa').trans (mul_le_mul_of_nonneg_left (hlen'.trans ?_) (by positivity))
    exact div_le_div_of_nonneg_right ha' (abs_nonneg _)
  have hpos : 0 < |z.im| := abs_pos.2 hz
  calc len n ((b - b') + e) / |z.im| ≤ (ρ + op.length * Real.sqrt cut * (a' / |z.im|)) / |z.im| :=
        div_le_div_of_nonneg_right ((len_add _ _ _).trans (add_le_add hd h4)) (abs_nonneg _)
    _ = ρ / |z.im| + op.length * Real.sqrt cut * a' / z.im ^ 2 := by
        rw [← sq_abs z.im]
        field_simp

end

end Verif
