/-
Lemmas for C105: how long an angular momentum can be.
-/
import Verif.Spec.AngularBounds
import Verif.Lemmas.RixsCutoff
import Verif.Prop.Observables

namespace Verif

open Finset Psr Spec

noncomputable section

/-- Ladder operators with the z component `q` that conserve `t`. -/
structure Ladder (n : ℕ) (t q : Finset ℕ → ℝ) (Jp Jm : Vec ℂ → Vec ℂ) : Prop where
  adjoint : ∀ v w, innerProduct n v (Jp w) = innerProduct n (Jm v) w
  adjoint' : ∀ v w, innerProduct n v (Jm w) = innerProduct n (Jp v) w
  commutator : ∀ v F, Jp (Jm v) F - Jm (Jp v) F = 2 * (q F : ℂ) * v F
  local_ : ∀ v w, ∀ F ⊆ range n, (∀ G ⊆ range n, t G = t F → q G + 1 = q F → v G = w G) → Jp v F = Jp w F
  zero : Jp 0 = 0

section
variable {n : ℕ} {t q : Finset ℕ → ℝ} {Jp Jm : Vec ℂ → Vec ℂ} (h : Ladder n t q Jp Jm)

theorem normSq_le_len (v : Vec ℂ) : len n v ^ 2 = Spec.normSq n v := by
  unfold len
  exact norm_onStates v

include h in
theorem normSq_up (v : Vec ℂ) : Spec.normSq n (Jm v) = Spec.normSq n (Jp v) + 2 * diagonalValue n q v := by
  have h1 : innerProduct n v (Jp (Jm v)) = ((Spec.normSq n (Jm v) : ℝ) : ℂ) := by rw [h.adjoint, innerProduct_self]
  have h2 : innerProduct n v (Jm (Jp v)) = ((Spec.normSq n (Jp v) : ℝ) : ℂ) := by rw [h.adjoint', innerProduct_self]
  have h3 : innerProduct n v (Jp (Jm v)) - innerProduct n v (Jm (Jp v)) = ((2 * diagonalValue n q v : ℝ) : ℂ) := by
    unfold innerProduct diagonalValue
    rw [← sum_sub_distrib, mul_sum, Complex.ofReal_sum]
    refine sum_congr rfl fun F _ => ?_
    rw [← mul_sub, h.commutator]
    push_cast
    rw [Complex.normSq_eq_conj_mul_self]
    change star (v F) * _ = 2 * (_ * (star (v F) * v F))
    ring
  rw [h1, h2] at h3
  have : Spec.normSq n (Jm v) - Spec.normSq n (Jp v) = 2 * diagonalValue n q v := by exact_mod_cast h3
  linarith

/-- The product states of `w` have the same `t` and `q`. -/
def InLevel (n : ℕ) (t q : Finset ℕ → ℝ) (k M : ℝ) (w : Vec ℂ) : Prop := ∀ F ⊆ range n, w F ≠ 0 → t F = k ∧ q F = M

theorem diagonal_inLevel {k M : ℝ} {w : Vec ℂ} (hw : InLevel n t q k M w) : diagonalValue n q w = M * Spec.normSq n w := by
  unfold diagonalValue Spec.normSq
  rw [mul_sum]
  refine sum_congr rfl fun F hF => ?_
  by_cases h0 : w F = 0
  · rw [h0, map_zero, mul_zero, mul_zero]
  · rw [(hw F (mem_powerset.1 hF) h0).2]

include h in
theorem up_inLevel {k M : ℝ} {w : Vec ℂ} (hw : InLevel n t q k M w) : InLevel n t q k (M + 1) (Jp w) := by
  intro F hF h0
  by_contra hne
  refine h0 ?_
  rw [h.local_ w 0 F hF, h.zero]
  · rfl
  · intro G hG h1 h2
    by_contra h3
    obtain ⟨h4, h5⟩ := hw G hG h3
    exact hne ⟨by rw [← h1, h4], by rw [← h2, h5]⟩

variable {j : ℝ → ℝ} (hj : ∀ F ⊆ range n, |q F| ≤ j (t F))

include h hj in
theorem up_le_level (k : ℝ) (steps : ℕ) : ∀ (M : ℝ) (w : Vec ℂ), j k < M + steps → InLevel n t q k M w →
    Spec.normSq n (Jp w) ≤ (square (j k) - square M) * Spec.normSq n w := by
  have out : ∀ (M : ℝ) (w : Vec ℂ), InLevel n t q k M w → (∀ F ⊆ range n, w F = 0) ∨ |M| ≤ j k := by
    intro M w hw
    by_cases h0 : ∀ F ⊆ range n, w F = 0
    · exact Or.inl h0
    · push Not at h0
      obtain ⟨F, hF, h0⟩ := h0
      obtain ⟨h1, h2⟩ := hw F hF h0
      have := hj F hF
      rw [h1, h2] at this
      exact Or.inr this
  have hzero : ∀ (M : ℝ) (w : Vec ℂ), (∀ F ⊆ range n, w F = 0) →
      Spec.normSq n (Jp w) ≤ (square (j k) - square M) * Spec.normSq n w := by
    intro M w h0
    have h1 : Spec.normSq n w = 0 := sum_eq_zero fun F hF => by rw [h0 F (mem_powerset.1 hF), map_zero]
    have h2 : Spec.normSq n (Jp w) = 0 := by
      refine sum_eq_zero fun F hF => ?_
      rw [h.local_ w 0 F (mem_powerset.1 hF) (fun G hG _ _ => h0 G hG), h.zero]
      exact map_zero _
    rw [h1, h2, mul_zero]
  induction steps with
  | zero =>
    intro M w hM hw
    rcases out M w hw with h0 | h1
    · exact hzero M w h0
    · have := (le_abs_self M).trans h1
      rw [Nat.cast_zero, add_zero] at hM
      linarith
  | succ steps ih =>
    intro M w hM hw
    rcases out M w hw with h0 | h1
    · exact hzero M w h0
    · obtain ⟨b1, b2⟩ := _root_.abs_le.1 h1
      set c := square (j k) - square M with hc
      have hc0 : 0 ≤ c := by rw [hc]; unfold square; nlinarith
      have hu := up_inLevel h hw
      have i1 := ih (M + 1) (Jp w) (by push_cast at hM; linarith) hu
      have i2 := normSq_up h (Jp w)
      rw [diagonal_inLevel hu] at i2
      have i3 : Spec.normSq n (Jm (Jp w)) ≤ c * Spec.normSq n (Jp w) := by
        rw [i2, hc]
        unfold square at i1 ⊢
        nlinarith
      have i4 : (Spec.normSq n (Jp w)) ^ 2 ≤ Spec.normSq n w * Spec.normSq n (Jm (Jp w)) := by
        have e : innerProduct n w (Jm (Jp w)) = ((Spec.normSq n (Jp w) : ℝ) : ℂ) := by rw [h.adjoint', innerProduct_self]
        have := innerProduct_le n w (Jm (Jp w))
        rw [e, Complex.norm_real, Real.norm_eq_abs, abs_of_nonneg (normSq_nonneg _ _)] at this
        calc (Spec.normSq n (Jp w)) ^ 2 ≤ (len n w * len n (Jm (Jp w))) ^ 2 := pow_le_pow_left₀ (normSq_nonneg _ _) this 2
          _ = _ := by rw [mul_pow, normSq_le_len, normSq_le_len]
      have p0 := normSq_nonneg n (Jp w)
      have w0 := normSq_nonneg n w
      have i5 : (Spec.normSq n (Jp w)) ^ 2 ≤ c * Spec.normSq n w * Spec.normSq n (Jp w) :=
        i4.trans (by nlinarith [mul_le_mul_of_nonneg_left i3 w0])
      by_contra hlt
      rw [not_le] at hlt
      have hp : 0 < Spec.normSq n (Jp w) := lt_of_le_of_lt (mul_nonneg hc0 w0) hlt
      nlinarith

open Classical in
include h hj in
/-- Raising lengthens no more than the largest angular momentum allows. -/
theorem up_le (v : Vec ℂ) : Spec.normSq n (Jp v) ≤ diagonalValue n (fun F => square (j (t F)) - square (q F)) v := by
  set I : Finset (ℝ × ℝ) := ((range n).powerset).image fun F => (t F, q F) with hI
  let part : ℝ × ℝ → Vec ℂ := fun s F => if (t F, q F) = s then v F else 0
  have hpart : ∀ s, InLevel n t q s.1 s.2 (part s) := by
    intro s F _ h0
    by_cases he : (t F, q F) = s
    · rw [← he]; exact ⟨rfl, rfl⟩
    · exact absurd (if_neg he) h0
  have h1 : ∀ F ∈ (range n).powerset, Complex.normSq (Jp v F) ≤ ∑ s ∈ I, Complex.normSq (Jp (part s) F) := by
    intro F hF
    have hF' := mem_powerset.1 hF
    have e : Jp v F = Jp (part (t F, q F - 1)) F := by
      refine h.local_ _ _ F hF' fun G _ g1 g2 => ?_
      show v G = if (t G, q G) = (t F, q F - 1) then v G else 0
      rw [if_pos]
      rw [g1, ← g2, add_sub_cancel_right]
    rw [e]
    by_cases hs : (t F, q F - 1) ∈ I
    · exact single_le_sum (f := fun s => Complex.normSq (Jp (part s) F)) (fun s _ => Complex.normSq_nonneg _) hs
    · have : Jp (part (t F, q F - 1)) F = 0 := by
        rw [h.local_ _ 0 F hF', h.zero]
        · rfl
        · intro G hG g1 g2
          refine absurd (mem_image.2 ⟨G, mem_powerset.2 hG, ?_⟩) hs
          rw [g1, ← g2, add_sub_cancel_right]
      rw [this, map_zero]
      exact sum_nonneg fun s _ => Complex.normSq_nonneg _
  calc Spec.normSq n (Jp v) ≤ ∑ F ∈ (range n).powerset, ∑ s ∈ I, Complex.normSq (Jp (part s) F) := sum_le_sum h1
    _ = ∑ s ∈ I, Spec.normSq n (Jp (part s)) := sum_comm
    _ ≤ ∑ s ∈ I, (square (j s.1) - square s.2) * Spec.normSq n (part s) := by
        refine sum_le_sum fun s _ => ?_
        obtain ⟨k, hk⟩ := exists_nat_gt (j s.1 - s.2)
        exact up_le_level h hj s.1 k s.2 (part s) (by linarith) (hpart s)
    _ = diagonalValue n (fun F => square (j (t F)) - square (q F)) v := by
        unfold diagonalValue Spec.normSq
        simp only [mul_sum]
        rw [sum_comm]
        refine sum_congr rfl fun F hF => ?_
        rw [sum_eq_single (t F, q F)]
        · show _ * Complex.normSq (if (t F, q F) = (t F, q F) then v F else 0) = _
          rw [if_pos rfl]
        · intro s _ hne
          show _ * Complex.normSq (if (t F, q F) = s then v F else 0) = _
          rw [if_neg (Ne.symm hne), map_zero, mul_zero]
        · intro hn
          exact absurd (mem_image.2 ⟨F, hF, rfl⟩) hn

include h hj in
/-- The limits of an angular momentum. -/
theorem Ladder.possible (v : Vec ℂ) : Possible j (fun f => diagonalValue n f v) t
    (Spec.normSq n (Jp v) + diagonalValue n (fun F => square (q F)) v) (diagonalValue n q v) := by
  have one : diagonalValue n (fun _ => 1) v = Spec.normSq n v := by
    unfold diagonalValue Spec.normSq; simp only [one_mul]
  have hsq : diagonalValue n (fun F => square (q F)) v = diagonalValue n (fun F => q F ^ 2) v + diagonalValue n q v := by
    unfold diagonalValue square
    rw [← sum_add_distrib]
    exact sum_congr rfl fun F _ => by ring
  have w0 := normSq_nonneg n v
  have up := normSq_up h v
  have p0 := normSq_nonneg n (Jp v)
  have m0 := normSq_nonneg n (Jm v)
  have key : |diagonalValue n q v| ≤ Spec.normSq n (Jp v) + diagonalValue n q v := by
    rcases abs_cases (diagonalValue n q v) with ⟨e, -⟩ | ⟨e, -⟩ <;> rw [e] <;> linarith
  refine ⟨?_, ?_, ?_, ?_⟩
  · rw [one]
    have cs : diagonalValue n q v ^ 2 ≤ diagonalValue n (fun F => q F ^ 2) v * Spec.normSq n v := by
      unfold diagonalValue Spec.normSq
      refine (le_of_eq ?_).trans ((sum_mul_sq_le_sq_mul_sq (range n).powerset
        (fun F => q F * Real.sqrt (Complex.normSq (v F))) fun F => Real.sqrt (Complex.normSq (v F))).trans (le_of_eq ?_))
      · congr 1
        exact sum_congr rfl fun F _ => by rw [mul_assoc, Real.mul_self_sqrt (Complex.normSq_nonneg _)]
      · congr 1
        · exact sum_congr rfl fun F _ => by rw [mul_pow, Real.sq_sqrt (Complex.normSq_nonneg _)]
        · exact sum_congr rfl fun F _ => by rw [Real.sq_sqrt (Complex.normSq_nonneg _)]
    rw [hsq, mul_add, ← pow_two, sq_abs]
    nlinarith [mul_le_mul_of_nonneg_right key w0]
  · have := up_le h hj v
    refine (add_le_add_left this _).trans (le_of_eq ?_)
    unfold diagonalValue
    rw [← sum_add_distrib]
    exact sum_congr rfl fun F _ => by ring
  · rw [hsq]
    have : 0 ≤ diagonalValue n (fun F => q F ^ 2) v :=
      sum_nonneg fun F _ => mul_nonneg (sq_nonneg _) (Complex.normSq_nonneg _)
    linarith [abs_nonneg (diagonalValue n q v)]
  · unfold diagonalValue
    refine (abs_sum_le_sum_abs _ _).trans (sum_le_sum fun F hF => ?_)
    rw [abs_mul, abs_of_nonneg (Complex.normSq_nonneg _)]
    exact mul_le_mul_of_nonneg_right (hj F (mem_powerset.1 hF)) (Complex.normSq_nonneg _)

end

/-! ### one-body operators -/

section
variable {n : ℕ} {f : Label → ℕ} (hf : ∀ x ∈ shell 2, f (.imp 2 x.1 x.2) < n)
  (hinj : ∀ x ∈ shell 2, ∀ y ∈ shell 2, f (.imp 2 x.1 x.2) = f (.imp 2 y.1 y.2) → x = y)

/-- The sum of `c` over the occupied d spin-orbitals. -/
def occupiedSum (f : Label → ℕ) (c : ℤ × ℤ → ℝ) (F : Finset ℕ) : ℝ := ∑ x ∈ shell 2, if f (.imp 2 x.1 x.2) ∈ F then c x else 0

include hinj in
/-- A hop changes the sum by the difference. -/
theorem occupiedSum_hop (c : ℤ × ℤ → ℝ) {x y : ℤ × ℤ} (hx : x ∈ shell 2) (hy : y ∈ shell 2) (hne : x ≠ y) {F : Finset ℕ}
    (h1 : f (.imp 2 x.1 x.2) ∈ F) (h2 : f (.imp 2 y.1 y.2) ∉ F) :
    occupiedSum f c F = occupiedSum f c (insert (f (.imp 2 y.1 y.2)) (F.erase (f (.imp 2 x.1 x.2)))) + c x - c y := by
  have hxy : f (.imp 2 x.1 x.2) ≠ f (.imp 2 y.1 y.2) := fun e => hne (hinj x hx y hy e)
  have key : occupiedSum f c F - occupiedSum f c (insert (f (.imp 2 y.1 y.2)) (F.erase (f (.imp 2 x.1 x.2))))
      = ∑ z ∈ shell 2, ((if z = x then c x else 0) - if z = y then c y else 0) := by
    unfold occupiedSum
    rw [← sum_sub_distrib]
    refine sum_congr rfl fun z hz => ?_
    by_cases ex : z = x
    · subst ex
      rw [if_pos h1, if_neg, if_pos rfl, if_neg hne]
      rw [mem_insert, not_or]
      exact ⟨hxy, notMem_erase _ _⟩
    · by_cases ey : z = y
      · subst ey
        rw [if_neg h2, if_pos (mem_insert_self _ _), if_neg ex, if_pos rfl]
      · have a1 : f (.imp 2 z.1 z.2) ≠ f (.imp 2 x.1 x.2) := fun e => ex (hinj z hz x hx e)
        have a2 : f (.imp 2 z.1 z.2) ≠ f (.imp 2 y.1 y.2) := fun e => ey (hinj z hz y hy e)
        have : (f (.imp 2 z.1 z.2) ∈ insert (f (.imp 2 y.1 y.2)) (F.erase (f (.imp 2 x.1 x.2)))) ↔ f (.imp 2 z.1 z.2) ∈ F := by
          rw [mem_insert, mem_erase]
          exact ⟨fun h => (h.resolve_left a2).2, fun h => Or.inr ⟨a1, h⟩⟩
        simp only [this, ex, ey, if_false]
        ring
  rw [sum_sub_distrib, sum_ite_eq' (shell 2) x, sum_ite_eq' (shell 2) y, if_pos hx, if_pos hy] at key
  linarith

include hf hinj in
theorem ladder_oneBody {Z Pm Mm : ℤ × ℤ → ℤ × ℤ → ℂ} {c : ℤ × ℤ → ℝ}
    (hPM : ∀ x y, star (Pm y x) = Mm x y) (hMP : ∀ x y, star (Mm y x) = Pm x y)
    (hcom : ∀ x ∈ shell 2, ∀ z ∈ shell 2, mmul 2 Pm Mm x z - mmul 2 Mm Pm x z = 2 * Z x z)
    (hZ : ∀ x ∈ shell 2, ∀ y ∈ shell 2, Z x y = if x = y then (c x : ℂ) else 0)
    (hP : ∀ x ∈ shell 2, ∀ y ∈ shell 2, Pm x y ≠ 0 → c x = c y + 1) :
    Ladder n (occupiedSum f fun _ => 1) (occupiedSum f c) (oneBody f 2 Pm) (oneBody f 2 Mm) where
  adjoint v w := by
    rw [innerProduct_oneBody hf]
    simp only [hPM]
  adjoint' v w := by
    rw [innerProduct_oneBody hf]
    simp only [hMP]
  commutator v F := by
    rw [oneBody_commutator hinj, oneBody_congr hcom]
    have h2 : oneBody f 2 (fun x z => 2 * Z x z) v F = 2 * oneBody f 2 Z v F := by
      unfold oneBody
      rw [mul_sum]
      exact sum_congr rfl fun _ _ => by ring
    rw [h2, oneBody_diag f 2 Z (fun x => (c x : ℂ)) hZ]
    simp only [create_annihilate_self]
    unfold occupiedSum
    rw [Complex.ofReal_sum, mul_assoc, sum_mul]
    congr 1
    refine sum_congr rfl fun x _ => ?_
    split <;> simp
  local_ v w F hF hvw := by
    unfold oneBody
    refine sum_congr rfl fun x hx => ?_
    rw [mem_product] at hx
    obtain ⟨hx1, hx2⟩ := hx
    by_cases h0 : Pm x.1 x.2 = 0
    · rw [h0, zero_mul, zero_mul]
    have hc := hP _ hx1 _ hx2 h0
    congr 1
    have hne : x.1 ≠ x.2 := by
      intro e
      rw [e] at hc
      linarith
    have hpne : f (.imp 2 x.1.1 x.1.2) ≠ f (.imp 2 x.2.1 x.2.2) := fun e => hne (hinj _ hx1 _ hx2 e)
    unfold create annihilate
    by_cases h1 : f (.imp 2 x.1.1 x.1.2) ∈ F
    swap
    · rw [if_neg h1, if_neg h1]
    rw [if_pos h1, if_pos h1]
    by_cases h2 : f (.imp 2 x.2.1 x.2.2) ∈ F.erase (f (.imp 2 x.1.1 x.1.2))
    · rw [if_pos h2, if_pos h2]
    rw [if_neg h2, if_neg h2]
    have h3 : f (.imp 2 x.2.1 x.2.2) ∉ F := fun h => h2 (mem_erase.2 ⟨Ne.symm hpne, h⟩)
    rw [hvw]
    · exact insert_subset (mem_range.2 (hf _ hx2)) ((erase_subset _ _).trans hF)
    · have := occupiedSum_hop hinj (fun _ => 1) hx1 hx2 hne h1 h3
      linarith
    · have := occupiedSum_hop hinj c hx1 hx2 hne h1 h3
      rw [this, hc]
      ring
  zero := by
    funext F
    refine sum_eq_zero fun x _ => ?_
    unfold create annihilate
    simp

/-- The square of the angular momentum of one-body operators. -/
theorem squareOf_ladder {Z Pm Mm : ℤ × ℤ → ℤ × ℤ → ℂ} {c : ℤ × ℤ → ℝ}
    (hL : Ladder n (occupiedSum f fun _ => 1) (occupiedSum f c) (oneBody f 2 Pm) (oneBody f 2 Mm))
    (hZ : ∀ x ∈ shell 2, ∀ y ∈ shell 2, Z x y = if x = y then (c x : ℂ) else 0) (v : Vec ℂ) :
    innerProduct n v (fun F => oneBody f 2 Mm (oneBody f 2 Pm v) F + oneBody f 2 Z (oneBody f 2 Z v) F + oneBody f 2 Z v F)
      = ((Spec.normSq n (oneBody f 2 Pm v) + diagonalValue n (fun F => square (occupiedSum f c F)) v : ℝ) : ℂ) ∧
    innerProduct n v (oneBody f 2 Z v) = ((diagonalValue n (occupiedSum f c) v : ℝ) : ℂ) := by
  have hz : ∀ (w : Vec ℂ) F, oneBody f 2 Z w F = (occupiedSum f c F : ℂ) * w F := by
    intro w F
    rw [oneBody_diag f 2 Z (fun x => (c x : ℂ)) hZ]
    simp only [create_annihilate_self]
    unfold occupiedSum
    rw [Complex.ofReal_sum, sum_mul]
    refine sum_congr rfl fun x _ => ?_
    split <;> simp
  have hmp : innerProduct n v (oneBody f 2 Mm (oneBody f 2 Pm v)) = ((Spec.normSq n (oneBody f 2 Pm v) : ℝ) : ℂ) := by
    rw [hL.adjoint', innerProduct_self]
  constructor
  · rw [Complex.ofReal_add, ← hmp]
    unfold innerProduct diagonalValue
    rw [Complex.ofReal_sum, ← sum_add_distrib]
    refine sum_congr rfl fun F _ => ?_
    beta_reduce
    rw [hz (oneBody f 2 Z v), hz]
    unfold square
    push_cast
    rw [Complex.normSq_eq_conj_mul_self]
    change star (v F) * _ = _ + _ * (star (v F) * v F)
    ring
  · unfold innerProduct diagonalValue
    rw [Complex.ofReal_sum]
    refine sum_congr rfl fun F _ => ?_
    rw [hz, Complex.ofReal_mul, Complex.normSq_eq_conj_mul_self]
    change star (v F) * _ = _ * (star (v F) * v F)
    ring

theorem spin_diag : ∀ x ∈ shell 2, ∀ y ∈ shell 2,
    spinOp sZ x y = if x = y then ((if x.1 = 0 then -1 / 2 else 1 / 2 : ℝ) : ℂ) else 0 := by
  intro x hx y hy
  rw [mem_shell] at hx hy
  unfold spinOp sZ delta
  simp only [Prod.ext_iff]
  by_cases h1 : x.1 = y.1 <;> by_cases h2 : x.2 = y.2 <;> rcases hx.1 with h | h <;>
    rcases hy.1 with h' | h' <;> simp [h2, h, h']

theorem orb_diag : ∀ x ∈ shell 2, ∀ y ∈ shell 2, orbOp lZ x y = if x = y then ((x.2 : ℝ) : ℂ) else 0 := by
  intro x _ y _
  unfold orbOp lZ delta
  simp only [Prod.ext_iff]
  by_cases h1 : x.1 = y.1 <;> by_cases h2 : x.2 = y.2 <;> simp [h1, h2]

include hf hinj in
theorem ladder_spin : Ladder n (occupiedSum f fun _ => 1) (occupiedSum f fun x => if x.1 = 0 then -1 / 2 else 1 / 2)
    (oneBody f 2 (spinOp sPlus)) (oneBody f 2 (spinOp sMinus)) := by
  refine ladder_oneBody hf hinj (Z := spinOp sZ) (fun x y => ?_) (fun x y => ?_) (fun x hx z hz => spin_pm hx hz) spin_diag ?_
  · rw [spinOp_star]; simp only [sPlus_star]
  · rw [spinOp_star]; simp only [sMinus_star]
  · intro x _ y _ h0
    have : sPlus x.1 y.1 ≠ 0 := left_ne_zero_of_mul h0
    unfold sPlus at this
    by_cases h : x.1 = 1 ∧ y.1 = 0
    · rw [h.1, h.2]; norm_num
    · rw [if_neg h] at this; exact absurd rfl this

include hf hinj in
theorem ladder_orb : Ladder n (occupiedSum f fun _ => 1) (occupiedSum f fun x => (x.2 : ℝ))
    (oneBody f 2 (orbOp (lPlus 2))) (oneBody f 2 (orbOp (lMinus 2))) := by
  refine ladder_oneBody hf hinj (Z := orbOp lZ) (fun x y => ?_) (fun x y => ?_) (fun x hx z hz => orb_pm hx hz) orb_diag ?_
  · rw [orbOp_star]; simp only [lPlus_star]
  · rw [orbOp_star]; simp only [lMinus_star]
  · intro x _ y _ h0
    have : lPlus 2 x.2 y.2 ≠ 0 := right_ne_zero_of_mul h0
    unfold lPlus at this
    by_cases h : x.2 = y.2 + 1
    · rw [h]; push_cast; ring
    · rw [if_neg h] at this; exact absurd rfl this

/-- The sum over a part of the shell is at most that over the positive terms. -/
theorem occupiedSum_le (c : ℤ × ℤ → ℝ) (F : Finset ℕ) : occupiedSum f c F ≤ ∑ x ∈ shell 2, max (c x) 0 := by
  refine sum_le_sum fun x _ => ?_
  split
  · exact le_max_left _ _
  · exact le_max_right _ _

theorem occupiedSum_sub (c : ℤ × ℤ → ℝ) (a : ℝ) (F : Finset ℕ) :
    occupiedSum f (fun x => c x - a) F = occupiedSum f c F - a * occupiedSum f (fun _ => 1) F := by
  unfold occupiedSum
  rw [mul_sum, ← sum_sub_distrib]
  exact sum_congr rfl fun x _ => by split <;> ring

theorem occupiedSum_neg (c : ℤ × ℤ → ℝ) (F : Finset ℕ) : occupiedSum f (fun x => -c x) F = -occupiedSum f c F := by
  unfold occupiedSum
  rw [← sum_neg_distrib]
  exact sum_congr rfl fun x _ => by split <;> ring

theorem shell_sum_two (F : ℤ → ℤ → ℝ) : ∑ x ∈ shell 2, F x.1 x.2
    = (F 0 (-2) + F 0 (-1) + F 0 0 + F 0 1 + F 0 2) + (F 1 (-2) + F 1 (-1) + F 1 0 + F 1 1 + F 1 2) := by
  have : shell 2 = {(0, -2), (0, -1), (0, 0), (0, 1), (0, 2), (1, -2), (1, -1), (1, 0), (1, 1), (1, 2)} := by
    unfold shell; decide
  rw [this]
  simp [add_assoc]

theorem spin_limit (F : Finset ℕ) :
    |occupiedSum f (fun x => if x.1 = 0 then -1 / 2 else 1 / 2) F| ≤ sMax (occupiedSum f (fun _ => 1) F) := by
  have key : ∀ c : ℤ × ℤ → ℝ, ∀ a : ℝ, occupiedSum f c F ≤ a * occupiedSum f (fun _ => 1) F + ∑ x ∈ shell 2, max (c x - a) 0 := by
    intro c a
    have := occupiedSum_le (f := f) (fun x => c x - a) F
    rw [occupiedSum_sub] at this
    linarith
  have e : ∀ a, ∑ x ∈ shell 2, max ((if x.1 = 0 then (-1 / 2 : ℝ) else 1 / 2) - a) 0 = 5 * max (-1 / 2 - a) 0 + 5 * max (1 / 2 - a) 0 := by
    intro a
    rw [shell_sum_two fun s m => max ((if s = 0 then (-1 / 2 : ℝ) else 1 / 2) - a) 0]
    norm_num
    ring
  have e' : ∀ a, ∑ x ∈ shell 2, max (-(if x.1 = 0 then (-1 / 2 : ℝ) else 1 / 2) - a) 0 = 5 * max (1 / 2 - a) 0 + 5 * max (-1 / 2 - a) 0 := by
    intro a
    rw [shell_sum_two fun s m => max (-(if s = 0 then (-1 / 2 : ℝ) else 1 / 2) - a) 0]
    norm_num
    ring
  have a1 := key (fun x => if x.1 = 0 then -1 / 2 else 1 / 2) (1 / 2)
  have a2 := key (fun x => if x.1 = 0 then -1 / 2 else 1 / 2) (-1 / 2)
  have b1 := key (fun x => -(if x.1 = 0 then -1 / 2 else 1 / 2)) (1 / 2)
  have b2 := key (fun x => -(if x.1 = 0 then -1 / 2 else 1 / 2)) (-1 / 2)
  rw [e] at a1 a2
  rw [e', occupiedSum_neg] at b1 b2
  norm_num at a1 a2 b1 b2
  unfold sMax
  rw [_root_.abs_le, le_div_iff₀ (by norm_num : (0 : ℝ) < 2), le_min_iff]
  refine ⟨?_, by constructor <;> linarith⟩
  have : 2 * (-occupiedSum f (fun x => if x.1 = 0 then -1 / 2 else 1 / 2) F) ≤ min (occupiedSum f (fun _ => 1) F) (10 - occupiedSum f (fun _ => 1) F) := by
    rw [le_min_iff]
    constructor <;> linarith
  linarith

theorem orb_limit (F : Finset ℕ) : |occupiedSum f (fun x => (x.2 : ℝ)) F| ≤ lMax (occupiedSum f (fun _ => 1) F) := by
  have key : ∀ c : ℤ × ℤ → ℝ, ∀ a : ℝ, occupiedSum f c F ≤ a * occupiedSum f (fun _ => 1) F + ∑ x ∈ shell 2, max (c x - a) 0 := by
    intro c a
    have := occupiedSum_le (f := f) (fun x => c x - a) F
    rw [occupiedSum_sub] at this
    linarith
  have e : ∀ a : ℝ, ∑ x ∈ shell 2, max ((x.2 : ℝ) - a) 0
      = 2 * (max (-2 - a) 0 + max (-1 - a) 0 + max (0 - a) 0 + max (1 - a) 0 + max (2 - a) 0) := by
    intro a
    rw [shell_sum_two fun s m => max ((m : ℝ) - a) 0]
    push_cast
    ring
  have e' : ∀ a : ℝ, ∑ x ∈ shell 2, max (-(x.2 : ℝ) - a) 0
      = 2 * (max (-2 - a) 0 + max (-1 - a) 0 + max (0 - a) 0 + max (1 - a) 0 + max (2 - a) 0) := by
    intro a
    rw [shell_sum_two fun s m => max (-(m : ℝ) - a) 0]
    push_cast
    rw [neg_neg, neg_neg, neg_zero]
    ring
  have all : ∀ s : ℝ, (∀ a : ℝ, s ≤ a * occupiedSum f (fun _ => 1) F
      + 2 * (max (-2 - a) 0 + max (-1 - a) 0 + max (0 - a) 0 + max (1 - a) 0 + max (2 - a) 0)) →
      s ≤ lMax (occupiedSum f (fun _ => 1) F) := by
    intro s hs
    have a1 := hs 2
    have a2 := hs 1
    have a3 := hs 0
    have a4 := hs (-1)
    have a5 := hs (-2)
    norm_num at a1 a2 a3 a4 a5
    unfold lMax
    simp only [le_min_iff]
    refine ⟨⟨?_, ?_⟩, ?_, ?_, ?_⟩ <;> linarith
  rw [abs_le']
  refine ⟨all _ fun a => ?_, all _ fun a => ?_⟩
  · rw [← e]
    exact key _ a
  · rw [← e', ← occupiedSum_neg]
    exact key _ a

end

end

end Verif
