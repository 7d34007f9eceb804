/-
Rounded sums over the product states of a state.
-/
import Verif.Spec.RoundedStates
import Verif.Lemmas.Rounded
import Verif.Lemmas.Cubic
import Verif.Lemmas.Bounded
import Verif.Lemmas.OpLength

namespace Verif

open Spec Finset Psr

noncomputable section

variable {u : ℝ} {fl : FloatOps} {absC : ℂ → ℝ}

theorem relError_nonneg (hu : 0 ≤ u) (k : ℕ) : 0 ≤ relError u k :=
  sub_nonneg.2 (one_le_pow₀ (by linarith))

theorem relError_mono (hu : 0 ≤ u) {k m : ℕ} (h : k ≤ m) : relError u k ≤ relError u m :=
  sub_le_sub_right (pow_le_pow_right₀ (by linarith) h) 1

/-! ### adding up -/

section
variable {E α : Type} [SeminormedAddCommGroup E]

/-- Each step adds an accurate term, or skips a term that is zero. -/
theorem sum_near_from (hu : 0 ≤ u) {add : E → E → E} (hadd : ∀ x y, ‖add x y - (x + y)‖ ≤ u * ‖x + y‖)
    {Q : ℝ} (hQ : 1 ≤ Q) (step : E → α → E) (x : α → E) (M : α → ℝ) (L : List α) (s S : E) (P N : ℝ) (hP : Q ≤ P)
    (hN : 0 ≤ N) (h : ‖s - S‖ ≤ (P - 1) * N) (hS : ‖S‖ ≤ N) (hx : ∀ a ∈ L, ‖x a‖ ≤ M a)
    (hstep : ∀ a ∈ L, ∀ s, (step s a = s ∧ x a = 0) ∨ ∃ x', step s a = add s x' ∧ ‖x' - x a‖ ≤ (Q - 1) * M a) :
    ‖L.foldl step s - (S + (L.map x).sum)‖ ≤ (P * (1 + u) ^ L.length - 1) * (N + (L.map M).sum) := by
  induction L generalizing s S P N with
  | nil => simpa using h
  | cons a L ih =>
    have hxa := hx a (by simp)
    have hM : 0 ≤ M a := (norm_nonneg _).trans hxa
    have hP1 : 1 ≤ P := hQ.trans hP
    have key : ‖step s a - (S + x a)‖ ≤ (P * (1 + u) - 1) * (N + M a) := by
      rcases hstep a (by simp) s with ⟨e, e0⟩ | ⟨x', e, h'⟩
      · rw [e, e0, add_zero]
        have h1 : 0 ≤ P * u * (N + M a) := by positivity
        have h2 : 0 ≤ (P - 1) * M a := mul_nonneg (by linarith) hM
        nlinarith
      · rw [e]
        have h1 : ‖s + x'‖ ≤ P * N + P * M a := by
          have e1 : s + x' = (s - S) + (x' - x a) + (S + x a) := by abel
          rw [e1]
          have h3 := norm_add_le ((s - S) + (x' - x a)) (S + x a)
          have h4 := norm_add_le (s - S) (x' - x a)
          have h5 := norm_add_le S (x a)
          have h6 : (Q - 1) * M a ≤ (P - 1) * M a := mul_le_mul_of_nonneg_right (by linarith) hM
          linarith
        have e2 : add s x' - (S + x a) = (add s x' - (s + x')) + ((s - S) + (x' - x a)) := by abel
        rw [e2]
        have h3 := norm_add_le (add s x' - (s + x')) ((s - S) + (x' - x a))
        have h4 := norm_add_le (s - S) (x' - x a)
        have h5 := hadd s x'
        have h6 : (Q - 1) * M a ≤ (P - 1) * M a := mul_le_mul_of_nonneg_right (by linarith) hM
        have h7 : u * ‖s + x'‖ ≤ u * (P * N + P * M a) := mul_le_mul_of_nonneg_left h1 hu
        linarith
    have h1 := ih (step s a) (S + x a) (P * (1 + u)) (N + M a) (by nlinarith) (by linarith) key
      ((norm_add_le _ _).trans (by linarith)) (fun b hb => hx b (by simp [hb])) (fun b hb => hstep b (by simp [hb]))
    simp only [List.foldl_cons, List.map_cons, List.sum_cons, List.length_cons]
    rw [← add_assoc, ← add_assoc, pow_succ', ← mul_assoc]
    exact h1

theorem sum_near (hu : 0 ≤ u) {add : E → E → E} (hadd : ∀ x y, ‖add x y - (x + y)‖ ≤ u * ‖x + y‖)
    {Q : ℝ} (hQ : 1 ≤ Q) (step : E → α → E) (x : α → E) (M : α → ℝ) (L : List α)
    (hx : ∀ a ∈ L, ‖x a‖ ≤ M a)
    (hstep : ∀ a ∈ L, ∀ s, (step s a = s ∧ x a = 0) ∨ ∃ x', step s a = add s x' ∧ ‖x' - x a‖ ≤ (Q - 1) * M a) :
    ‖L.foldl step 0 - (L.map x).sum‖ ≤ (Q * (1 + u) ^ L.length - 1) * (L.map M).sum := by
  have := sum_near_from hu hadd hQ step x M L 0 0 Q 0 le_rfl le_rfl (by simp) (by simp) hx hstep
  simpa using this

end

/-! ### the terms -/

theorem absC_near (hu : 0 ≤ u) (h : AccurateAbs u absC) (z : ℂ) : ∃ p, Near (1 + u) p ∧ absC z = ‖z‖ * p :=
  exists_near hu (by rw [abs_of_nonneg (norm_nonneg z)]; exact h z)

theorem roundedAbs2_near (hfl : Accurate u fl) (h : AccurateAbs u absC) (z : ℂ) :
    ∃ p, Near ((1 + u) ^ 3) p ∧ roundedAbs2 fl absC z = Complex.normSq z * p := by
  obtain ⟨p, hp, ep⟩ := absC_near hfl.nonneg h z
  obtain ⟨q, hq, eq⟩ := exists_near hfl.nonneg (hfl.mul (absC z) (absC z))
  refine ⟨p * p * q, ?_, ?_⟩
  · rw [pow_succ, pow_two]; exact (hp.mul hp).mul hq
  · unfold roundedAbs2
    rw [eq, ep, Complex.normSq_eq_norm_sq]; ring

theorem cmul_error (hfl : Accurate u fl) (x y : ℂ) :
    ‖fl.cmul x y - x * y‖ ≤ 2 * relError u 2 * (‖x‖ * ‖y‖) := by
  have hu := hfl.nonneg
  have hg := relError_nonneg hu 2
  have two : ∀ a b c d : ℝ, ∀ P Q : ℝ, Near (1 + u) P → Near (1 + u) Q → ∀ R, Near (1 + u) R →
      |(a * b * P + c * d * Q) * R - (a * b + c * d)| ≤ relError u 2 * (|a| * |b| + |c| * |d|) := by
    intro a b c d P Q hP hQ R hR
    have e : (a * b * P + c * d * Q) * R - (a * b + c * d)
        = (a * b * (P * R) - a * b) + (c * d * (Q * R) - c * d) := by ring
    rw [e]
    have h1 := near_error (x := a * b) (hP.mul hR)
    have h2 := near_error (x := c * d) (hQ.mul hR)
    have h3 := abs_add_le (a * b * (P * R) - a * b) (c * d * (Q * R) - c * d)
    rw [abs_mul] at h1 h2
    unfold relError
    rw [pow_two]
    linarith
  obtain ⟨p1, hp1, e1⟩ := exists_near hu (hfl.mul x.re y.re)
  obtain ⟨p2, hp2, e2⟩ := exists_near hu (hfl.mul x.im y.im)
  obtain ⟨p3, hp3, e3⟩ := exists_near hu (hfl.sub (fl.mul x.re y.re) (fl.mul x.im y.im))
  obtain ⟨q1, hq1, f1⟩ := exists_near hu (hfl.mul x.re y.im)
  obtain ⟨q2, hq2, f2⟩ := exists_near hu (hfl.mul x.im y.re)
  obtain ⟨q3, hq3, f3⟩ := exists_near hu (hfl.add (fl.mul x.re y.im) (fl.mul x.im y.re))
  have hre : |(fl.cmul x y - x * y).re| ≤ relError u 2 * (|x.re| * |y.re| + |x.im| * |y.im|) := by
    have := two x.re y.re (-x.im) y.im p1 p2 hp1 hp2 p3 hp3
    rw [abs_neg] at this
    refine le_trans (le_of_eq ?_) this
    congr 1
    rw [Complex.sub_re, Complex.mul_re, show (fl.cmul x y).re = fl.sub (fl.mul x.re y.re) (fl.mul x.im y.im) from rfl,
      e3, e1, e2]
    ring
  have him : |(fl.cmul x y - x * y).im| ≤ relError u 2 * (|x.re| * |y.im| + |x.im| * |y.re|) := by
    refine le_trans (le_of_eq ?_) (two x.re y.im x.im y.re q1 q2 hq1 hq2 q3 hq3)
    congr 1
    rw [Complex.sub_im, Complex.mul_im, show (fl.cmul x y).im = fl.add (fl.mul x.re y.im) (fl.mul x.im y.re) from rfl,
      f3, f1, f2]
  have cs : ∀ a b c d : ℝ, a ^ 2 + b ^ 2 = ‖x‖ ^ 2 → c ^ 2 + d ^ 2 = ‖y‖ ^ 2 → a * c + b * d ≤ ‖x‖ * ‖y‖ := by
    intro a b c d h1 h2
    refine le_of_sq_le_sq ?_ (by positivity)
    rw [mul_pow, ← h1, ← h2]
    nlinarith [sq_nonneg (a * d - b * c)]
  have hnx : |x.re| ^ 2 + |x.im| ^ 2 = ‖x‖ ^ 2 := by
    rw [sq_abs, sq_abs, ← Complex.normSq_eq_norm_sq, Complex.normSq_apply]; ring
  have hny : |y.re| ^ 2 + |y.im| ^ 2 = ‖y‖ ^ 2 := by
    rw [sq_abs, sq_abs, ← Complex.normSq_eq_norm_sq, Complex.normSq_apply]; ring
  have h1 := cs _ _ _ _ hnx hny
  have h2 := cs _ _ _ _ hnx (by rw [add_comm] at hny; exact hny)
  have h3 := Complex.norm_le_abs_re_add_abs_im (fl.cmul x y - x * y)
  have h4 := mul_le_mul_of_nonneg_left h1 hg
  have h5 := mul_le_mul_of_nonneg_left h2 hg
  linarith

/-! ### norms and overlaps -/

theorem roundedNorm2_near (hfl : Accurate u fl) (h : AccurateAbs u absC) (psi : Psi ℂ) :
    |roundedNorm2 fl absC psi - norm2 psi| ≤ relError u (psi.length + 3) * norm2 psi := by
  have := sum_near (E := ℝ) hfl.nonneg (add := fl.add) hfl.add (Q := (1 + u) ^ 3)
    (one_le_pow₀ (by linarith [hfl.nonneg]))
    (fun s (p : Bytes × ℂ) => fl.add s (roundedAbs2 fl absC p.2)) (fun p => Complex.normSq p.2)
    (fun p => Complex.normSq p.2) psi
    (fun p _ => by rw [Real.norm_eq_abs, abs_of_nonneg (Complex.normSq_nonneg _)])
    (fun p _ s => Or.inr ⟨_, rfl, by
      obtain ⟨q, hq, e⟩ := roundedAbs2_near hfl h p.2
      rw [e, Real.norm_eq_abs]
      refine (near_error hq).trans ?_
      rw [abs_of_nonneg (Complex.normSq_nonneg _)]⟩)
  rw [← pow_add, add_comm 3, Real.norm_eq_abs] at this
  exact this

theorem roundedInner_near (hfl : Accurate u fl) (a b : Psi ℂ) :
    ‖roundedInner fl a b - inner a b‖
      ≤ 2 * relError u (b.length + 2) * (b.map fun p => ‖(Dict.get? a p.1).getD 0‖ * ‖p.2‖).sum := by
  have hg := relError_nonneg hfl.nonneg 2
  have := sum_near (E := ℂ) hfl.nonneg (add := fl.cadd) (cadd_near hfl) (Q := 1 + 2 * relError u 2) (by linarith)
    (roundedInnerStep fl a) (fun p => star ((Dict.get? a p.1).getD 0) * p.2)
    (fun p => ‖(Dict.get? a p.1).getD 0‖ * ‖p.2‖) b
    (fun p _ => by rw [norm_mul, norm_star])
    (fun p _ s => by
      unfold roundedInnerStep
      cases hx : Dict.get? a p.1 with
      | none => left; simp
      | some x =>
        right
        refine ⟨_, rfl, ?_⟩
        have := cmul_error hfl (star x) p.2
        rw [norm_star] at this
        rw [add_sub_cancel_left]
        exact this)
  have e : inner a b = (b.map fun p => star ((Dict.get? a p.1).getD 0) * p.2).sum :=
    (inner_foldl a b 0).trans (zero_add _)
  rw [e]
  refine this.trans (mul_le_mul_of_nonneg_right ?_ ?_)
  · unfold relError
    have h1 : 1 ≤ (1 + u) ^ b.length := one_le_pow₀ (by linarith [hfl.nonneg])
    rw [pow_add]
    nlinarith
  · exact List.sum_nonneg fun y hy => by
      obtain ⟨p, _, rfl⟩ := List.mem_map.1 hy
      positivity

theorem overlap_terms_le {n : ℕ} {a b : Psi ℂ} (ha : IsState n a) (hb : IsState n b) :
    (b.map fun p => ‖(Dict.get? a p.1).getD 0‖ * ‖p.2‖).sum
      ≤ Real.sqrt (Spec.normSq n (ampl n a)) * Real.sqrt (Spec.normSq n (ampl n b)) := by
  rw [sum_items_powerset hb (fun k v => ‖(Dict.get? a k).getD 0‖ * ‖v‖)]
  refine le_trans (le_of_eq (sum_congr (g := fun S => ‖ampl n a S‖ * ‖ampl n b S‖) rfl fun S hS => ?_)) ?_
  · rw [mem_powerset] at hS
    rw [ampl_of_subset hS, ampl_of_subset hS]
    cases Dict.get? b (encBytes n S) <;> simp
  refine (Real.sum_mul_le_sqrt_mul_sqrt _ _ _).trans (le_of_eq ?_)
  unfold Spec.normSq
  simp only [Complex.normSq_eq_norm_sq]

/-! ### diagonal operators -/

theorem items_sum {n : ℕ} {psi : Psi ℂ} (hpsi : IsState n psi) (T : Finset ℕ → ℝ) :
    (psi.map fun p => T (dec n p.1) * Complex.normSq p.2).sum = diagonalValue n T (ampl n psi) := by
  rw [sum_items_powerset hpsi (fun k v => T (dec n k) * Complex.normSq v)]
  refine sum_congr rfl fun S hS => ?_
  rw [mem_powerset] at hS
  rw [ampl_of_subset hS]
  cases Dict.get? psi (encBytes n S) with
  | none => simp
  | some v => simp [dec_enc hS]

theorem rounded_loop (hfl : Accurate u fl) (h : AccurateAbs u absC) {n : ℕ} {psi : Psi ℂ} (hpsi : IsState n psi)
    (F : Bytes → Py ℝ) (T : Finset ℕ → ℝ) (hF : ∀ S ⊆ range n, F (encBytes n S) = .ok (T S)) :
    ∃ r, psi.foldlM (fun acc p => do
        let t ← F p.1
        return fl.add acc (fl.mul t (roundedAbs2 fl absC p.2))) (0 : ℝ) = .ok r ∧
      |r - diagonalValue n T (ampl n psi)|
        ≤ relError u (psi.length + 4) * diagonalValue n (fun S => |T S|) (ampl n psi) := by
  have h1 : ∀ p ∈ psi, F p.1 = .ok (T (dec n p.1)) := by
    intro p hp
    obtain ⟨S, hS, e⟩ := hpsi.keys p.1 (List.mem_map_of_mem hp)
    rw [e, hF S hS, dec_enc hS]
  have h2 : ∀ (L : Psi ℂ) (s : ℝ), (∀ p ∈ L, F p.1 = .ok (T (dec n p.1))) → L.foldlM (fun acc p => do
        let t ← F p.1
        return fl.add acc (fl.mul t (roundedAbs2 fl absC p.2))) s
      = .ok (L.foldl (fun acc p => fl.add acc (fl.mul (T (dec n p.1)) (roundedAbs2 fl absC p.2))) s) := by
    intro L
    induction L with
    | nil => intro s _; rfl
    | cons p L ih =>
      intro s hL
      rw [List.foldlM_cons, hL p (by simp)]
      exact ih _ fun q hq => hL q (by simp [hq])
  refine ⟨_, h2 psi 0 h1, ?_⟩
  rw [← items_sum hpsi, ← items_sum hpsi, ← Real.norm_eq_abs]
  have := sum_near (E := ℝ) hfl.nonneg (add := fl.add) hfl.add (Q := (1 + u) ^ 4)
    (one_le_pow₀ (by linarith [hfl.nonneg]))
    (fun s (p : Bytes × ℂ) => fl.add s (fl.mul (T (dec n p.1)) (roundedAbs2 fl absC p.2)))
    (fun p => T (dec n p.1) * Complex.normSq p.2)
    (fun p => |T (dec n p.1)| * Complex.normSq p.2) psi
    (fun p _ => by rw [Real.norm_eq_abs, abs_mul, abs_of_nonneg (Complex.normSq_nonneg _)])
    (fun p _ s => Or.inr ⟨_, rfl, by
      obtain ⟨q, hq, e⟩ := roundedAbs2_near hfl h p.2
      obtain ⟨q', hq', e'⟩ := exists_near hfl.nonneg (hfl.mul (T (dec n p.1)) (roundedAbs2 fl absC p.2))
      rw [e', e, Real.norm_eq_abs]
      have := near_error (x := T (dec n p.1) * Complex.normSq p.2) (hq.mul hq')
      rw [abs_mul (T _), abs_of_nonneg (Complex.normSq_nonneg _), ← pow_succ] at this
      refine le_trans (le_of_eq ?_) this
      congr 1; ring⟩)
  rw [← pow_add, add_comm 4] at this
  exact this

theorem diagonalValue_le {n : ℕ} {f : Finset ℕ → ℝ} {B : ℝ} (hf : ∀ S, f S ≤ B) (v : Vec ℂ) :
    diagonalValue n f v ≤ B * Spec.normSq n v := by
  unfold diagonalValue Spec.normSq
  rw [mul_sum]
  exact sum_le_sum fun S _ => mul_le_mul_of_nonneg_right (hf S) (Complex.normSq_nonneg _)

theorem abs_partial_sum_le {κ : Type} (K : Finset κ) (f : κ → ℝ) (P : κ → Prop) [DecidablePred P] {B : ℝ}
    (h1 : ∑ x ∈ K, max (f x) 0 ≤ B) (h2 : ∑ x ∈ K, max (-f x) 0 ≤ B) :
    |∑ x ∈ K, if P x then f x else 0| ≤ B := by
  rw [_root_.abs_le']
  constructor
  · refine le_trans (sum_le_sum fun x _ => ?_) h1
    split
    · exact le_max_left _ _
    · exact le_max_right _ _
  · rw [← sum_neg_distrib]
    refine le_trans (sum_le_sum fun x _ => ?_) h2
    split
    · exact le_max_left _ _
    · rw [neg_zero]; exact le_max_right _ _

theorem shell_two : (shell 2 : Finset (ℤ × ℤ)) = {(0, -2), (0, -1), (0, 0), (0, 1), (0, 2), (1, -2), (1, -1), (1, 0),
    (1, 1), (1, 2)} := by decide

theorem orbitalMoment_le (nBaths : Dict ℕ ℕ) (S : Finset ℕ) : |orbitalMoment nBaths S| ≤ 6 := by
  unfold orbitalMoment
  refine abs_partial_sum_le _ (fun x : ℤ × ℤ => (x.2 : ℝ)) _ ?_ ?_ <;> rw [shell_two] <;>
    norm_num [sum_insert, max_def]

theorem spinMoment_le (nBaths : Dict ℕ ℕ) (S : Finset ℕ) : |spinMoment nBaths S| ≤ 5 / 2 := by
  unfold spinMoment
  refine abs_partial_sum_le _ (fun x : ℤ × ℤ => if x.1 = 0 then -1 / 2 else 1 / 2) _ ?_ ?_ <;> rw [shell_two] <;>
    norm_num [sum_insert, max_def]

theorem shellCount_nonneg (nBaths : Dict ℕ ℕ) (l : ℕ) (S : Finset ℕ) : 0 ≤ shellCount nBaths l S :=
  sum_nonneg fun x _ => by split <;> norm_num

section
variable {nBaths : Dict ℕ ℕ} (hn : Dict.NodupKeys nBaths)
include hn

theorem lzOfState_spec (hl : 2 ∈ Dict.keys nBaths) {S : Finset ℕ} (hS : S ⊆ range (nSpinOrbitals nBaths)) :
    lzOfState nBaths (encBytes (nSpinOrbitals nBaths) S) = .ok (orbitalMoment nBaths S) := by
  refine tuple_sum hn hl (fun x => (x.2 : ℝ)) _ ?_ hS
  intro t i hi
  obtain ⟨lab, h, _⟩ := tuple_step hn hi
  rw [contrib, h]
  simp only [bind, Except.bind]
  cases lab with
  | bath _ _ => simp [pure, Except.pure]
  | imp l s m =>
    by_cases h : l = 2 <;> simp [h, pure, Except.pure]

theorem szOfState_spec (hl : 2 ∈ Dict.keys nBaths) {S : Finset ℕ} (hS : S ⊆ range (nSpinOrbitals nBaths)) :
    szOfState nBaths (encBytes (nSpinOrbitals nBaths) S) = .ok (spinMoment nBaths S) := by
  refine tuple_sum hn hl (fun x => if x.1 = 0 then -1 / 2 else 1 / 2) _ ?_ hS
  intro t i hi
  obtain ⟨lab, h, _⟩ := tuple_step hn hi
  rw [contrib, h]
  simp only [bind, Except.bind]
  cases lab with
  | bath _ _ => simp [pure, Except.pure]
  | imp l s m =>
    by_cases h : l = 2 <;> simp [h, pure, Except.pure]

end

/-! ### density matrices -/

theorem foldlM_length {α : Type} {step : Psi ℂ → α → Py (Psi ℂ)} (h : ∀ d a d', step d a = .ok d' → d'.length ≤ d.length + 1)
    (L : List α) (d d' : Psi ℂ) (e : L.foldlM step d = .ok d') : d'.length ≤ d.length + L.length := by
  induction L generalizing d with
  | nil => cases e; simp
  | cons a L ih =>
    rw [List.foldlM_cons] at e
    cases hs : step d a with
    | error x => rw [hs] at e; cases e
    | ok d1 =>
      rw [hs] at e
      have h1 := ih d1 e
      have h2 := h d a d1 hs
      simp only [List.length_cons]
      omega

theorem opA_length {n i : ℕ} {psi psi' : Psi ℂ} (h : opA n i psi = .ok psi') : psi'.length ≤ psi.length := by
  have := foldlM_length (fun d (p : Bytes × ℂ) d' e => by
    cases hr : Remove.ubytes n i p.1 with
    | error x => rw [hr] at e; cases e
    | ok r =>
      rw [hr] at e
      simp only [bind, Except.bind, pure, Except.pure] at e
      split at e
      · cases e; exact Dict.length_set _ _ _
      · cases e; omega) psi [] psi' h
  simpa using this

theorem opC_length {n i : ℕ} {psi psi' : Psi ℂ} (h : opC n i psi = .ok psi') : psi'.length ≤ psi.length := by
  have := foldlM_length (fun d (p : Bytes × ℂ) d' e => by
    cases hr : Create.ubytes n i p.1 with
    | error x => rw [hr] at e; cases e
    | ok r =>
      rw [hr] at e
      simp only [bind, Except.bind, pure, Except.pure] at e
      split at e
      · cases e; exact Dict.length_set _ _ _
      · cases e; omega) psi [] psi' h
  simpa using this

theorem hop_length {n i j : ℕ} {psi psi' : Psi ℂ} (h : hop n i j psi = .ok psi') : psi'.length ≤ psi.length := by
  unfold hop at h
  cases h1 : opA n j psi with
  | error e => rw [h1] at h; cases h
  | ok p =>
    rw [h1] at h
    exact (opC_length h).trans (opA_length h1)

section
variable {nBaths : Dict ℕ ℕ} (hn : Dict.NodupKeys nBaths) {l : ℕ} (hl : l ∈ Dict.keys nBaths)
  {psi : Psi ℂ} (hpsi : IsState (nSpinOrbitals nBaths) psi)

/-- The computed value of a density matrix element. -/
noncomputable def roundedDmVal (fl : FloatOps) (nBaths : Dict ℕ ℕ) (psi : Psi ℂ) (k : Label × Label) : ℂ :=
  match hop (nSpinOrbitals nBaths) (pos nBaths k.2) (pos nBaths k.1) psi with
  | .ok psi' => roundedInner fl psi psi'
  | .error _ => 0

include hn hl hpsi

theorem roundedDmVal_near (hfl : Accurate u fl) {x y : ℤ × ℤ} (hx : x ∈ shell l) (hy : y ∈ shell l) :
    (∃ psi', hop (nSpinOrbitals nBaths) (pos nBaths (.imp l y.1 y.2)) (pos nBaths (.imp l x.1 x.2)) psi = .ok psi'
      ∧ roundedInner fl psi psi' = roundedDmVal fl nBaths psi (.imp l x.1 x.2, .imp l y.1 y.2)) ∧
    ‖roundedDmVal fl nBaths psi (.imp l x.1 x.2, .imp l y.1 y.2) - dmVal nBaths psi (.imp l x.1 x.2, .imp l y.1 y.2)‖
      ≤ 2 * relError u (psi.length + 2) * Spec.normSq (nSpinOrbitals nBaths) (ampl (nSpinOrbitals nBaths) psi) := by
  obtain ⟨p, h1, s1, a1⟩ := hop_spec (pos_lt hn hl hy) (pos_lt hn hl hx) hpsi
  have e : roundedDmVal fl nBaths psi (.imp l x.1 x.2, .imp l y.1 y.2) = roundedInner fl psi p := by
    unfold roundedDmVal
    dsimp only
    rw [h1]
  refine ⟨⟨p, h1, e.symm⟩, ?_⟩
  have e2 : dmVal nBaths psi (.imp l x.1 x.2, .imp l y.1 y.2) = inner psi p := by
    rw [inner_eq s1, a1]; rfl
  rw [e, e2]
  set n := nSpinOrbitals nBaths
  have hN : 0 ≤ Spec.normSq n (ampl n psi) := normSq_nonneg _ _
  have h2 : Spec.normSq n (ampl n p) ≤ Spec.normSq n (ampl n psi) := by
    rw [a1]
    exact (normSq_create_le _ _ _).trans (normSq_annihilate_le _ _ fun S hS => ampl_of_not_subset hS)
  have h3 := overlap_terms_le hpsi s1
  have h4 : Real.sqrt (Spec.normSq n (ampl n psi)) * Real.sqrt (Spec.normSq n (ampl n p))
      ≤ Spec.normSq n (ampl n psi) := by
    refine (mul_le_mul_of_nonneg_left (Real.sqrt_le_sqrt h2) (Real.sqrt_nonneg _)).trans ?_
    rw [Real.mul_self_sqrt hN]
  refine (roundedInner_near hfl psi p).trans ?_
  have h5 := relError_mono hfl.nonneg (k := p.length + 2) (m := psi.length + 2) (by have := hop_length h1; omega)
  have h6 := relError_nonneg hfl.nonneg (p.length + 2)
  refine mul_le_mul (by linarith) (h3.trans h4) ?_ (by linarith)
  exact List.sum_nonneg fun y hy => by
      obtain ⟨p, _, rfl⟩ := List.mem_map.1 hy
      positivity

theorem roundedDensityStep_spec (hfl : Accurate u fl) {si sj mi mj : ℤ} (hx : (si, mi) ∈ shell l)
    (hy : (sj, mj) ∈ shell l) :
    SetsKeys (roundedDmVal fl nBaths psi) (fun d => roundedDensityStep fl nBaths psi l si sj mi mj d)
      (fun k => k = (.imp l si mi, .imp l sj mj)) := by
  intro d hd
  obtain ⟨⟨p, h1, h2⟩, _⟩ := roundedDmVal_near hn hl hpsi hfl hx hy
  have e1 := c2i_shell hn hl hx
  have e2 := c2i_shell hn hl hy
  dsimp only at e1 e2 h1 h2
  simp only [roundedDensityStep, e1, e2, bind, Except.bind, h1, h2, pure, Except.pure]
  by_cases hv : roundedDmVal fl nBaths psi (.imp l si mi, .imp l sj mj) = 0
  · refine ⟨d, by simp [hv], hd, fun k => ?_⟩
    rw [if_neg]
    rintro ⟨rfl, h⟩
    exact h hv
  · refine ⟨Dict.set d (.imp l si mi, .imp l sj mj) (roundedDmVal fl nBaths psi (.imp l si mi, .imp l sj mj)),
      by simp [hv], Dict.nodupKeys_set hd _ _, fun k => ?_⟩
    rw [Dict.get?_set]
    by_cases hk : k = (.imp l si mi, .imp l sj mj)
    · subst hk
      rw [if_pos rfl, if_pos ⟨rfl, hv⟩]
    · rw [if_neg (Ne.symm hk), if_neg (fun h => hk h.1)]

open Classical in
theorem roundedDensityMatrix_spec (hfl : Accurate u fl) :
    ∃ dm, roundedDensityMatrix fl nBaths psi l = .ok dm ∧ Dict.NodupKeys dm ∧
    ∀ k, Dict.get? dm k = if (∃ x ∈ shell l, ∃ y ∈ shell l, k = (.imp l x.1 x.2, .imp l y.1 y.2)) ∧
        roundedDmVal fl nBaths psi k ≠ 0 then some (roundedDmVal fl nBaths psi k) else none := by
  have hmem : ∀ s ∈ pyRange 0 2, ∀ m ∈ pyRange (-l) (l + 1), (s, m) ∈ shell l := by
    intro s hs m hm
    rw [mem_pyRange] at hs hm
    rw [mem_shell]
    dsimp only
    omega
  have := SetsKeys.foldlM (roundedDmVal fl nBaths psi) (pyRange 0 2) _ _ (fun si hsi =>
    SetsKeys.foldlM (roundedDmVal fl nBaths psi) (pyRange 0 2) _ _ (fun sj hsj =>
      SetsKeys.foldlM (roundedDmVal fl nBaths psi) (pyRange (-l) (l + 1)) _ _ (fun mi hmi =>
        SetsKeys.foldlM (roundedDmVal fl nBaths psi) (pyRange (-l) (l + 1)) _ _ (fun mj hmj =>
          roundedDensityStep_spec hn hl hpsi hfl (hmem si hsi mi hmi) (hmem sj hsj mj hmj)))))
  obtain ⟨dm, h1, h2, h3⟩ := this [] Dict.nodupKeys_nil
  refine ⟨dm, h1, h2, fun k => ?_⟩
  rw [h3 k]
  have hiff : (∃ si ∈ pyRange 0 2, ∃ sj ∈ pyRange 0 2, ∃ mi ∈ pyRange (-l) (l + 1), ∃ mj ∈ pyRange (-l) (l + 1),
      k = (Label.imp l si mi, Label.imp l sj mj)) ↔
      ∃ x ∈ shell l, ∃ y ∈ shell l, k = (.imp l x.1 x.2, .imp l y.1 y.2) := by
    constructor
    · rintro ⟨si, hsi, sj, hsj, mi, hmi, mj, hmj, e⟩
      exact ⟨(si, mi), hmem _ hsi _ hmi, (sj, mj), hmem _ hsj _ hmj, e⟩
    · rintro ⟨x, hx, y, hy, e⟩
      rw [mem_shell] at hx hy
      exact ⟨x.1, by rw [mem_pyRange]; omega, y.1, by rw [mem_pyRange]; omega,
        x.2, by rw [mem_pyRange]; omega, y.2, by rw [mem_pyRange]; omega, e⟩
  simp only [hiff]
  rfl

end

end

end Verif
