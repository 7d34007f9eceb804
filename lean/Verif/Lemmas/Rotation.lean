/-
Commutators of total angular momenta with two-particle operators.
-/
import Verif.Spec.Rotation
import Verif.Lemmas.OneBodyAlg
import Verif.Lemmas.ShellMeaning

namespace Verif

open Spec Finset

set_option linter.unusedSimpArgs false

noncomputable section

section abstractAlgebra

variable {A : Type} [Ring A] [Algebra ℂ A]

theorem ring_hop_cr (cp aq cj d : A) (h : aq * cj = d - cj * aq) (hc : cj * cp = -(cp * cj)) :
    cp * aq * cj - cj * (cp * aq) = cp * d := by
  rw [mul_assoc, h, ← mul_assoc cj, hc]
  noncomm_ring

theorem ring_hop_an (cp aq aj d : A) (h : aj * cp = d - cp * aj) (ha : aq * aj = -(aj * aq)) :
    cp * aq * aj - aj * (cp * aq) = -(d * aq) := by
  rw [mul_assoc, ha, ← mul_assoc aj, h]
  noncomm_ring

theorem ring_four (t a b c d : A) : t * (a * b * c * d) - a * b * c * d * t
    = (t * a - a * t) * b * c * d + a * (t * b - b * t) * c * d + a * b * (t * c - c * t) * d
      + a * b * c * (t * d - d * t) := by
  noncomm_ring

/-- Fermion operators of several shells. -/
structure CAR {ι : Type} [DecidableEq ι] (ls : Finset ℕ) (s : ℕ → Finset ι) (c a : ℕ → ι → A) : Prop where
  ac : ∀ l ∈ ls, ∀ x ∈ s l, ∀ l' ∈ ls, ∀ y ∈ s l', a l x * c l' y = (if l = l' ∧ x = y then 1 else 0) - c l' y * a l x
  cc : ∀ l ∈ ls, ∀ x ∈ s l, ∀ l' ∈ ls, ∀ y ∈ s l', c l x * c l' y = -(c l' y * c l x)
  aa : ∀ l ∈ ls, ∀ x ∈ s l, ∀ l' ∈ ls, ∀ y ∈ s l', a l x * a l' y = -(a l' y * a l x)

variable {ι : Type} [DecidableEq ι] {ls : Finset ℕ} {s : ℕ → Finset ι} {c a : ℕ → ι → A}

/-- The total one-particle operator. -/
def totA (ls : Finset ℕ) (s : ℕ → Finset ι) (c a : ℕ → ι → A) (M : ℕ → ι → ι → ℂ) : A :=
  ∑ l ∈ ls, ∑ x ∈ s l, ∑ y ∈ s l, M l x y • (c l x * a l y)

/-- A two-particle operator. -/
def tbA (s : ℕ → Finset ι) (c a : ℕ → ι → A) (l1 l2 l3 l4 : ℕ) (u : ι → ι → ι → ι → ℂ) : A :=
  ∑ x1 ∈ s l1, ∑ x2 ∈ s l2, ∑ x3 ∈ s l3, ∑ x4 ∈ s l4, u x1 x2 x3 x4 • (c l1 x1 * c l2 x2 * a l3 x3 * a l4 x4)

theorem tot_cr (hf : CAR ls s c a) (M : ℕ → ι → ι → ℂ) {l : ℕ} (hl : l ∈ ls) {x : ι} (hx : x ∈ s l) :
    totA ls s c a M * c l x - c l x * totA ls s c a M = ∑ y ∈ s l, M l y x • c l y := by
  unfold totA
  simp only [sum_mul, mul_sum, ← sum_sub_distrib, smul_mul_assoc, mul_smul_comm, ← smul_sub]
  rw [sum_eq_single l]
  · refine sum_congr rfl fun p hp => ?_
    rw [sum_eq_single x]
    · rw [ring_hop_cr _ _ _ _ (hf.ac l hl x hx l hl x hx) (hf.cc l hl x hx l hl p hp), if_pos ⟨rfl, rfl⟩, mul_one]
    · intro q hq hne
      rw [ring_hop_cr _ _ _ _ (hf.ac l hl q hq l hl x hx) (hf.cc l hl x hx l hl p hp), if_neg (fun h => hne h.2), mul_zero,
        smul_zero]
    · intro h; exact absurd hx h
  · intro l' hl' hne
    refine sum_eq_zero fun p hp => sum_eq_zero fun q hq => ?_
    rw [ring_hop_cr _ _ _ _ (hf.ac l' hl' q hq l hl x hx) (hf.cc l hl x hx l' hl' p hp), if_neg (fun h => hne h.1), mul_zero,
      smul_zero]
  · intro h; exact absurd hl h

theorem tot_an (hf : CAR ls s c a) (M : ℕ → ι → ι → ℂ) {l : ℕ} (hl : l ∈ ls) {x : ι} (hx : x ∈ s l) :
    totA ls s c a M * a l x - a l x * totA ls s c a M = -∑ y ∈ s l, M l x y • a l y := by
  unfold totA
  simp only [sum_mul, mul_sum, ← sum_sub_distrib, smul_mul_assoc, mul_smul_comm, ← smul_sub]
  rw [sum_eq_single l]
  · rw [sum_eq_single x]
    · rw [← sum_neg_distrib]
      refine sum_congr rfl fun q hq => ?_
      rw [ring_hop_an _ _ _ _ (hf.ac l hl x hx l hl x hx) (hf.aa l hl q hq l hl x hx), if_pos ⟨rfl, rfl⟩, one_mul, smul_neg]
    · intro p hp hne
      refine sum_eq_zero fun q hq => ?_
      rw [ring_hop_an _ _ _ _ (hf.ac l hl x hx l hl p hp) (hf.aa l hl q hq l hl x hx), if_neg (fun h => hne h.2.symm), zero_mul,
        neg_zero, smul_zero]
    · intro h; exact absurd hx h
  · intro l' hl' hne
    refine sum_eq_zero fun p hp => sum_eq_zero fun q hq => ?_
    rw [ring_hop_an _ _ _ _ (hf.ac l hl x hx l' hl' p hp) (hf.aa l' hl' q hq l hl x hx), if_neg (fun h => hne h.1.symm), zero_mul,
      neg_zero, smul_zero]
  · intro h; exact absurd hl h

/-- The commutator of a total one-particle operator with a two-particle operator. -/
theorem tot_tb (hf : CAR ls s c a) (M : ℕ → ι → ι → ℂ) {l1 l2 l3 l4 : ℕ}
    (h1 : l1 ∈ ls) (h2 : l2 ∈ ls) (h3 : l3 ∈ ls) (h4 : l4 ∈ ls) (u : ι → ι → ι → ι → ℂ) :
    totA ls s c a M * tbA s c a l1 l2 l3 l4 u - tbA s c a l1 l2 l3 l4 u * totA ls s c a M
      = tbA s c a l1 l2 l3 l4 fun x1 x2 x3 x4 =>
        ∑ y ∈ s l1, M l1 x1 y * u y x2 x3 x4 + ∑ y ∈ s l2, M l2 x2 y * u x1 y x3 x4
        - ∑ y ∈ s l3, M l3 y x3 * u x1 x2 y x4 - ∑ y ∈ s l4, M l4 y x4 * u x1 x2 x3 y := by
  have e : totA ls s c a M * tbA s c a l1 l2 l3 l4 u - tbA s c a l1 l2 l3 l4 u * totA ls s c a M
      = ∑ x1 ∈ s l1, ∑ x2 ∈ s l2, ∑ x3 ∈ s l3, ∑ x4 ∈ s l4,
        ((∑ y ∈ s l1, (M l1 y x1 * u x1 x2 x3 x4) • (c l1 y * c l2 x2 * a l3 x3 * a l4 x4))
        + (∑ y ∈ s l2, (M l2 y x2 * u x1 x2 x3 x4) • (c l1 x1 * c l2 y * a l3 x3 * a l4 x4))
        - (∑ y ∈ s l3, (M l3 x3 y * u x1 x2 x3 x4) • (c l1 x1 * c l2 x2 * a l3 y * a l4 x4))
        - (∑ y ∈ s l4, (M l4 x4 y * u x1 x2 x3 x4) • (c l1 x1 * c l2 x2 * a l3 x3 * a l4 y))) := by
    unfold tbA
    simp only [mul_sum, sum_mul]
    rw [← sum_sub_distrib]
    refine sum_congr rfl fun x1 hx1 => ?_
    rw [← sum_sub_distrib]
    refine sum_congr rfl fun x2 hx2 => ?_
    rw [← sum_sub_distrib]
    refine sum_congr rfl fun x3 hx3 => ?_
    rw [← sum_sub_distrib]
    refine sum_congr rfl fun x4 hx4 => ?_
    rw [mul_smul_comm, smul_mul_assoc, ← smul_sub, ring_four, tot_cr hf M h1 hx1, tot_cr hf M h2 hx2, tot_an hf M h3 hx3,
      tot_an hf M h4 hx4]
    simp only [sum_mul, mul_sum, mul_neg, neg_mul, smul_add, smul_neg, smul_sum, smul_mul_assoc, mul_smul_comm, smul_smul,
      mul_comm (u x1 x2 x3 x4), sub_eq_add_neg]
  rw [e]
  unfold tbA
  simp only [sub_smul, add_smul, sum_add_distrib, sum_sub_distrib, sum_smul]
  congr 1
  · congr 1
    · congr 1
      · have e1 : ∀ G : ι → ι → ι → ι → ι → A,
            ∑ x1 ∈ s l1, ∑ x2 ∈ s l2, ∑ x3 ∈ s l3, ∑ x4 ∈ s l4, ∑ y ∈ s l1, G x1 x2 x3 x4 y
            = ∑ x1 ∈ s l1, ∑ y ∈ s l1, ∑ x2 ∈ s l2, ∑ x3 ∈ s l3, ∑ x4 ∈ s l4, G x1 x2 x3 x4 y := by
          intro G
          refine sum_congr rfl fun x1 _ => ?_
          rw [sum_comm (s := s l1)]
          refine sum_congr rfl fun x2 _ => ?_
          rw [sum_comm (s := s l1)]
          refine sum_congr rfl fun x3 _ => ?_
          rw [sum_comm]
        rw [e1, e1, sum_comm]
      · refine sum_congr rfl fun x1 _ => ?_
        have e1 : ∀ G : ι → ι → ι → ι → A,
            ∑ x2 ∈ s l2, ∑ x3 ∈ s l3, ∑ x4 ∈ s l4, ∑ y ∈ s l2, G x2 x3 x4 y
            = ∑ x2 ∈ s l2, ∑ y ∈ s l2, ∑ x3 ∈ s l3, ∑ x4 ∈ s l4, G x2 x3 x4 y := by
          intro G
          refine sum_congr rfl fun x2 _ => ?_
          rw [sum_comm (s := s l2)]
          refine sum_congr rfl fun x3 _ => ?_
          rw [sum_comm]
        rw [e1, e1, sum_comm]
    · refine sum_congr rfl fun x1 _ => sum_congr rfl fun x2 _ => ?_
      have e1 : ∀ G : ι → ι → ι → A,
          ∑ x3 ∈ s l3, ∑ x4 ∈ s l4, ∑ y ∈ s l3, G x3 x4 y
          = ∑ x3 ∈ s l3, ∑ y ∈ s l3, ∑ x4 ∈ s l4, G x3 x4 y := by
        intro G
        refine sum_congr rfl fun x3 _ => ?_
        rw [sum_comm]
      rw [e1, e1, sum_comm]
  · refine sum_congr rfl fun x1 _ => sum_congr rfl fun x2 _ => sum_congr rfl fun x3 _ => ?_
    rw [sum_comm]

/-- The commutator of a total one-particle operator with a one-particle operator of one shell. -/
theorem tot_ob (hf : CAR ls s c a) (M : ℕ → ι → ι → ℂ) {l : ℕ} (hl : l ∈ ls) (N : ι → ι → ℂ) :
    totA ls s c a M * (∑ x ∈ s l, ∑ y ∈ s l, N x y • (c l x * a l y))
      - (∑ x ∈ s l, ∑ y ∈ s l, N x y • (c l x * a l y)) * totA ls s c a M
      = ∑ x ∈ s l, ∑ y ∈ s l, (∑ z ∈ s l, M l x z * N z y - ∑ z ∈ s l, M l z y * N x z) • (c l x * a l y) := by
  have r : ∀ t p q : A, t * (p * q) - p * q * t = (t * p - p * t) * q + p * (t * q - q * t) := by
    intro t p q; noncomm_ring
  have e : totA ls s c a M * (∑ x ∈ s l, ∑ y ∈ s l, N x y • (c l x * a l y))
      - (∑ x ∈ s l, ∑ y ∈ s l, N x y • (c l x * a l y)) * totA ls s c a M
      = ∑ x ∈ s l, ∑ y ∈ s l, ((∑ z ∈ s l, (M l z x * N x y) • (c l z * a l y))
        - ∑ z ∈ s l, (M l y z * N x y) • (c l x * a l z)) := by
    simp only [mul_sum, sum_mul]
    rw [← sum_sub_distrib]
    refine sum_congr rfl fun x hx => ?_
    rw [← sum_sub_distrib]
    refine sum_congr rfl fun y hy => ?_
    rw [mul_smul_comm, smul_mul_assoc, ← smul_sub, r, tot_cr hf M hl hx, tot_an hf M hl hy]
    simp only [sum_mul, mul_sum, mul_neg, smul_add, smul_neg, smul_sum, smul_mul_assoc, mul_smul_comm, smul_smul,
      mul_comm (N x y), sub_eq_add_neg]
  rw [e]
  simp only [sub_smul, sum_sub_distrib, sum_smul]
  congr 1
  · have e1 : ∀ G : ι → ι → ι → A, ∑ x ∈ s l, ∑ y ∈ s l, ∑ z ∈ s l, G x y z = ∑ x ∈ s l, ∑ z ∈ s l, ∑ y ∈ s l, G x y z :=
      fun G => sum_congr rfl fun x _ => sum_comm
    exact (e1 _).trans (sum_comm.trans (e1 _).symm)
  · refine sum_congr rfl fun x _ => ?_
    rw [sum_comm]

end abstractAlgebra

/-- Creation and annihilation in a spin-orbital of a shell. -/
def crX (f : Label → ℕ) (l : ℕ) (x : ℤ × ℤ) : Module.End ℂ (Vec ℂ) := crL (f (.imp l x.1 x.2))
def anX (f : Label → ℕ) (l : ℕ) (x : ℤ × ℤ) : Module.End ℂ (Vec ℂ) := anL (f (.imp l x.1 x.2))

/-- Different spin-orbitals of the shells have different positions. -/
def ShellsApart (f : Label → ℕ) (ls : Finset ℕ) : Prop := ∀ l ∈ ls, ∀ x ∈ shell l, ∀ l' ∈ ls, ∀ y ∈ shell l',
  f (.imp l x.1 x.2) = f (.imp l' y.1 y.2) → l = l' ∧ x = y

theorem shellsCAR {f : Label → ℕ} {ls : Finset ℕ} (hf : ShellsApart f ls) : CAR ls shell (crX f) (anX f) where
  ac l hl x hx l' hl' y hy := by
    have i : f (.imp l x.1 x.2) = f (.imp l' y.1 y.2) ↔ l = l' ∧ x = y :=
      ⟨hf l hl x hx l' hl' y hy, fun h => by rw [h.1, h.2]⟩
    have := anL_crL (f (.imp l x.1 x.2)) (f (.imp l' y.1 y.2))
    simp only [i] at this
    exact this
  cc l _ x _ l' _ y _ := crL_crL _ _
  aa l _ x _ l' _ y _ := anL_anL _ _

theorem totA_apply (f : Label → ℕ) (ls : Finset ℕ) (M : ℕ → ℤ × ℤ → ℤ × ℤ → ℂ) (v : Vec ℂ) :
    totA ls shell (crX f) (anX f) M v = totalOneBody f ls M v := by
  funext S
  unfold totA totalOneBody
  rw [endSum_apply]
  refine sum_congr rfl fun l _ => ?_
  rw [← obL_apply]
  rfl

/-- The coefficients of `twoBody`. -/
def spinDiag (u : ℤ → ℤ → ℤ → ℤ → ℝ) (x1 x2 x3 x4 : ℤ × ℤ) : ℂ :=
  if x1.1 = x4.1 ∧ x2.1 = x3.1 then 1 / 2 * (u x1.2 x2.2 x3.2 x4.2 : ℂ) else 0

theorem tbA_apply (f : Label → ℕ) (l1 l2 l3 l4 : ℕ) (u : ℤ → ℤ → ℤ → ℤ → ℝ) (v : Vec ℂ) :
    tbA shell (crX f) (anX f) l1 l2 l3 l4 (spinDiag u) v = twoBody f l1 l2 l3 l4 u v := by
  funext S
  unfold tbA twoBody
  simp only [endSum_apply, shell, sum_product]
  have e : ∀ x1 x2 x3 x4 : ℤ × ℤ, ((spinDiag u x1 x2 x3 x4 • (crX f l1 x1 * crX f l2 x2 * anX f l3 x3 * anX f l4 x4)) v) S
      = spinDiag u x1 x2 x3 x4 * create (f (.imp l1 x1.1 x1.2)) (create (f (.imp l2 x2.1 x2.2))
        (annihilate (f (.imp l3 x3.1 x3.2)) (annihilate (f (.imp l4 x4.1 x4.2)) v))) S := fun _ _ _ _ => rfl
  simp only [e, spinDiag]
  have p : ∀ g : ℤ → ℂ, ∑ s ∈ ({0, 1} : Finset ℤ), g s = g 0 + g 1 := fun g => sum_pair (by decide)
  simp only [p, mRange, mul_sum]
  simp [sum_add_distrib, mul_add, mul_assoc]
  abel

theorem sum_orbOp {l : ℕ} {x : ℤ × ℤ} (hx : x ∈ shell l) (B : ℤ → ℤ → ℂ) (g : ℤ × ℤ → ℂ) :
    ∑ y ∈ shell l, orbOp B x y * g y = ∑ m ∈ mRange l, B x.2 m * g (x.1, m) := by
  have hx' := (mem_product.1 hx).1
  unfold shell orbOp delta mRange
  rw [sum_product, sum_comm]
  refine sum_congr rfl fun m _ => ?_
  rw [sum_eq_single x.1]
  · rw [if_pos rfl, one_mul]
  · intro b _ hb
    rw [if_neg (fun h => hb h.symm), zero_mul, zero_mul]
  · intro h; exact absurd hx' h

theorem sum_orbOp' {l : ℕ} {x : ℤ × ℤ} (hx : x ∈ shell l) (B : ℤ → ℤ → ℂ) (g : ℤ × ℤ → ℂ) :
    ∑ y ∈ shell l, orbOp B y x * g y = ∑ m ∈ mRange l, B m x.2 * g (x.1, m) := by
  rw [← sum_orbOp hx (fun a b => B b a) g]
  refine sum_congr rfl fun y _ => ?_
  unfold orbOp delta
  simp only [eq_comm]

theorem sum_spinOp {l : ℕ} {x : ℤ × ℤ} (hx : x ∈ shell l) (B : ℤ → ℤ → ℂ) (g : ℤ × ℤ → ℂ) :
    ∑ y ∈ shell l, spinOp B x y * g y = ∑ s ∈ ({0, 1} : Finset ℤ), B x.1 s * g (s, x.2) := by
  have hx' := (mem_product.1 hx).2
  unfold shell spinOp delta
  rw [sum_product]
  refine sum_congr rfl fun s _ => ?_
  rw [sum_eq_single x.2]
  · rw [if_pos rfl, mul_one]
  · intro b _ hb
    rw [if_neg (fun h => hb h.symm), mul_zero, zero_mul]
  · intro h; exact absurd hx' h

theorem sum_spinOp' {l : ℕ} {x : ℤ × ℤ} (hx : x ∈ shell l) (B : ℤ → ℤ → ℂ) (g : ℤ × ℤ → ℂ) :
    ∑ y ∈ shell l, spinOp B y x * g y = ∑ s ∈ ({0, 1} : Finset ℤ), B s x.1 * g (s, x.2) := by
  rw [← sum_spinOp hx (fun a b => B b a) g]
  refine sum_congr rfl fun y _ => ?_
  unfold spinOp delta
  simp only [eq_comm]

section
variable {f : Label → ℕ} {ls : Finset ℕ} (hf : ShellsApart f ls) {l1 l2 l3 l4 : ℕ}
  (h1 : l1 ∈ ls) (h2 : l2 ∈ ls) (h3 : l3 ∈ ls) (h4 : l4 ∈ ls) (u : ℤ → ℤ → ℤ → ℤ → ℝ)
include hf h1 h2 h3 h4

theorem commutes_of {M : ℕ → ℤ × ℤ → ℤ × ℤ → ℂ}
    (h : ∀ x1 ∈ shell l1, ∀ x2 ∈ shell l2, ∀ x3 ∈ shell l3, ∀ x4 ∈ shell l4,
      ∑ y ∈ shell l1, M l1 x1 y * spinDiag u y x2 x3 x4 + ∑ y ∈ shell l2, M l2 x2 y * spinDiag u x1 y x3 x4
        - ∑ y ∈ shell l3, M l3 y x3 * spinDiag u x1 x2 y x4 - ∑ y ∈ shell l4, M l4 y x4 * spinDiag u x1 x2 x3 y = 0)
    (v : Vec ℂ) :
    totalOneBody f ls M (twoBody f l1 l2 l3 l4 u v) = twoBody f l1 l2 l3 l4 u (totalOneBody f ls M v) := by
  have e := tot_tb (shellsCAR hf) M h1 h2 h3 h4 (spinDiag u)
  have z : tbA shell (crX f) (anX f) l1 l2 l3 l4 (fun x1 x2 x3 x4 =>
      ∑ y ∈ shell l1, M l1 x1 y * spinDiag u y x2 x3 x4 + ∑ y ∈ shell l2, M l2 x2 y * spinDiag u x1 y x3 x4
        - ∑ y ∈ shell l3, M l3 y x3 * spinDiag u x1 x2 y x4 - ∑ y ∈ shell l4, M l4 y x4 * spinDiag u x1 x2 x3 y) = 0 := by
    unfold tbA
    refine sum_eq_zero fun x1 k1 => sum_eq_zero fun x2 k2 => sum_eq_zero fun x3 k3 => sum_eq_zero fun x4 k4 => ?_
    dsimp only
    rw [h x1 k1 x2 k2 x3 k3 x4 k4, zero_smul]
  rw [z] at e
  have e' := congrArg (fun T : Module.End ℂ (Vec ℂ) => T v) (sub_eq_zero.1 e)
  simp only [Module.End.mul_apply, totA_apply, tbA_apply] at e'
  exact e'

/-- Rotations of the spins leave a two-particle operator without spin dependence alone. -/
theorem spin_commutes (A : ℤ → ℤ → ℂ) (v : Vec ℂ) :
    totalOneBody f ls (fun _ => spinOp A) (twoBody f l1 l2 l3 l4 u v)
      = twoBody f l1 l2 l3 l4 u (totalOneBody f ls (fun _ => spinOp A) v) := by
  refine commutes_of hf h1 h2 h3 h4 u (fun x1 k1 x2 k2 x3 k3 x4 k4 => ?_) v
  rw [sum_spinOp k1, sum_spinOp k2, sum_spinOp' k3, sum_spinOp' k4]
  have m1 := (mem_product.1 k1).1
  have m2 := (mem_product.1 k2).1
  have m3 := (mem_product.1 k3).1
  have m4 := (mem_product.1 k4).1
  have p : ∀ g : ℤ → ℂ, ∑ s ∈ ({0, 1} : Finset ℤ), g s = g 0 + g 1 := fun g => sum_pair (by decide)
  unfold spinDiag
  simp only [p]
  simp only [mem_insert, mem_singleton] at m1 m2 m3 m4
  rcases m1 with e1 | e1 <;> rcases m2 with e2 | e2 <;> rcases m3 with e3 | e3 <;> rcases m4 with e4 | e4 <;>
    simp [e1, e2, e3, e4]

/-- An orbital one-particle operator commutes with a two-particle operator when the coefficients are invariant. -/
theorem orb_commutes {B : ℕ → ℤ → ℤ → ℂ}
    (h : ∀ m1 ∈ mRange l1, ∀ m2 ∈ mRange l2, ∀ m3 ∈ mRange l3, ∀ m4 ∈ mRange l4,
      ∑ m ∈ mRange l1, B l1 m1 m * u m m2 m3 m4 + ∑ m ∈ mRange l2, B l2 m2 m * u m1 m m3 m4
        - ∑ m ∈ mRange l3, B l3 m m3 * u m1 m2 m m4 - ∑ m ∈ mRange l4, B l4 m m4 * u m1 m2 m3 m = 0)
    (v : Vec ℂ) :
    totalOneBody f ls (fun l => orbOp (B l)) (twoBody f l1 l2 l3 l4 u v)
      = twoBody f l1 l2 l3 l4 u (totalOneBody f ls (fun l => orbOp (B l)) v) := by
  refine commutes_of hf h1 h2 h3 h4 u (fun x1 k1 x2 k2 x3 k3 x4 k4 => ?_) v
  rw [sum_orbOp k1, sum_orbOp k2, sum_orbOp' k3, sum_orbOp' k4]
  unfold spinDiag
  by_cases hs : x1.1 = x4.1 ∧ x2.1 = x3.1
  · simp only [if_pos hs]
    have := h x1.2 (mem_product.1 k1).2 x2.2 (mem_product.1 k2).2 x3.2 (mem_product.1 k3).2 x4.2 (mem_product.1 k4).2
    have e : ∀ (s : Finset ℤ) (a b : ℤ → ℂ), ∑ m ∈ s, a m * (1 / 2 * b m) = 1 / 2 * ∑ m ∈ s, a m * b m := by
      intro s a b
      rw [mul_sum]
      refine sum_congr rfl fun m _ => by ring
    simp only [e, ← mul_add, ← mul_sub]
    rw [this, mul_zero]
  · simp only [if_neg hs]
    simp
end

/-- `⟨m+1| l₊ |m⟩`. -/
def up (l : ℕ) (m : ℤ) : ℝ := Real.sqrt ((l - m) * (l + m + 1))

theorem up_bottom (l : ℕ) : up l (-(l : ℤ) - 1) = 0 := by
  unfold up
  push_cast
  rw [show ((l : ℝ) + (-l - 1) + 1) = 0 by ring, mul_zero, Real.sqrt_zero]

theorem up_top (l : ℕ) : up l l = 0 := by
  unfold up
  push_cast
  rw [sub_self, zero_mul, Real.sqrt_zero]

theorem up_neg (l : ℕ) (m : ℤ) : up l (-m - 1) = up l m := by
  unfold up
  push_cast
  congr 1
  ring

theorem sum_lPlus_left {l : ℕ} {m : ℤ} (hm : m ∈ mRange l) (g : ℤ → ℂ) :
    ∑ m' ∈ mRange l, lPlus l m m' * g m' = (up l (m - 1) : ℂ) * g (m - 1) := by
  unfold mRange lPlus at *
  rw [mem_Icc] at hm
  by_cases h : m = -(l : ℤ)
  · rw [h, up_bottom, Complex.ofReal_zero, zero_mul]
    refine sum_eq_zero fun m' hm' => ?_
    rw [mem_Icc] at hm'
    rw [if_neg (by omega), zero_mul]
  · rw [sum_eq_single (m - 1)]
    · rw [if_pos (by ring)]
      rfl
    · intro b _ hb
      rw [if_neg (by omega), zero_mul]
    · intro h'
      rw [mem_Icc] at h'
      omega

theorem sum_lPlus_right {l : ℕ} {m : ℤ} (hm : m ∈ mRange l) (g : ℤ → ℂ) :
    ∑ m' ∈ mRange l, lPlus l m' m * g m' = (up l m : ℂ) * g (m + 1) := by
  unfold mRange lPlus at *
  rw [mem_Icc] at hm
  by_cases h : m = (l : ℤ)
  · rw [h, up_top, Complex.ofReal_zero, zero_mul]
    refine sum_eq_zero fun m' hm' => ?_
    rw [mem_Icc] at hm'
    rw [if_neg (by omega), zero_mul]
  · rw [sum_eq_single (m + 1)]
    · rw [if_pos rfl]
      rfl
    · intro b _ hb
      rw [if_neg hb, zero_mul]
    · intro h'
      rw [mem_Icc] at h'
      omega

theorem lMinus_eq (l : ℕ) (m m' : ℤ) : lMinus l m m' = lPlus l m' m := by
  unfold lMinus lPlus
  by_cases h : m = m' - 1
  · rw [if_pos h, if_pos (by omega), h]
    push_cast
    congr 2
    ring
  · rw [if_neg h, if_neg (by omega)]

section
variable {gaunt : GauntFun} (hi : GauntInvariant gaunt)
include hi

theorem ck_raise (k l : ℕ) (m : ℤ) (l' : ℕ) (m' : ℤ) :
    up l (m - 1) * ck gaunt k l (m - 1) l' m' - up l' m' * ck gaunt k l m l' (m' + 1)
      = up k (m - m' - 1) * ck gaunt k l m l' m' := by
  have h := hi l k l' (-m) (m - m' - 1) m'
  have e1 : Real.sqrt (((l : ℝ) - ((-m : ℤ) : ℝ)) * (l + ((-m : ℤ) : ℝ) + 1)) = up l (m - 1) := by
    unfold up
    push_cast
    congr 1
    ring
  have e2 : Real.sqrt (((k : ℝ) - ((m - m' - 1 : ℤ) : ℝ)) * (k + ((m - m' - 1 : ℤ) : ℝ) + 1)) = up k (m - m' - 1) := rfl
  have e3 : Real.sqrt (((l' : ℝ) - (m' : ℝ)) * (l' + (m' : ℝ) + 1)) = up l' m' := rfl
  rw [e1, e2, e3] at h
  unfold ck
  rw [show -(m - 1) = -m + 1 by ring, show m - 1 - m' = m - m' - 1 by ring, show m - (m' + 1) = m - m' - 1 by ring,
    zpow_sub_one₀ (by norm_num : (-1 : ℝ) ≠ 0)]
  rw [show m - m' - 1 + 1 = m - m' by ring] at h
  have e4 : up k (m - m' - 1) * gaunt l k l' (-m) (m - m') m' = -(up l (m - 1) * gaunt l k l' (-m + 1) (m - m' - 1) m')
      - up l' m' * gaunt l k l' (-m) (m - m' - 1) (m' + 1) := by linarith
  calc _ = (-1) ^ m * Real.sqrt (4 * Real.pi / (2 * k + 1)) * (-(up l (m - 1) * gaunt l k l' (-m + 1) (m - m' - 1) m')
      - up l' m' * gaunt l k l' (-m) (m - m' - 1) (m' + 1)) := by rw [inv_neg_one]; ring
    _ = _ := by rw [← e4]; ring

omit hi in
theorem ck_flip (hs : GauntSymmetric gaunt) (k l : ℕ) (m : ℤ) (l' : ℕ) (m' : ℤ) :
    ck gaunt k l (-m) l' (-m') = ck gaunt k l m l' m' := by
  unfold ck
  rw [show -m - -m' = -(m - m') by ring, hs.flip, zpow_neg, ← inv_zpow, inv_neg_one]

theorem ck_lower (hs : GauntSymmetric gaunt) (k l : ℕ) (m : ℤ) (l' : ℕ) (m' : ℤ) :
    up l m * ck gaunt k l (m + 1) l' m' - up l' (m' - 1) * ck gaunt k l m l' (m' - 1)
      = up k (m - m') * ck gaunt k l m l' m' := by
  have h := ck_raise hi k l (-m) l' (-m')
  rw [show -m - 1 = -(m + 1) by ring, show -m' + 1 = -(m' - 1) by ring, ck_flip hs, ck_flip hs, ck_flip hs,
    show -(m + 1) = -m - 1 by ring, up_neg, show -m' = -(m' - 1) - 1 by ring, up_neg,
    show -m - (-(m' - 1) - 1) - 1 = -(m - m') - 1 by ring, up_neg] at h
  exact h

/-- The Coulomb matrix elements are invariant under `l₊`. -/
theorem coulomb_raise (hs : GauntSymmetric gaunt) (l1 l2 l3 l4 : ℕ) (R : List ℝ) (m1 m2 m3 m4 : ℤ) :
    up l1 (m1 - 1) * coulomb gaunt l1 l2 l3 l4 R (m1 - 1) m2 m3 m4 + up l2 (m2 - 1) * coulomb gaunt l1 l2 l3 l4 R m1 (m2 - 1) m3 m4
      - up l3 m3 * coulomb gaunt l1 l2 l3 l4 R m1 m2 (m3 + 1) m4 - up l4 m4 * coulomb gaunt l1 l2 l3 l4 R m1 m2 m3 (m4 + 1) = 0 := by
  unfold coulomb
  by_cases h : m1 + m2 = m3 + m4 + 1
  · rw [if_pos (by omega), if_pos (by omega), if_pos (by omega), if_pos (by omega), mul_sum, mul_sum, mul_sum, mul_sum,
      ← sum_add_distrib, ← sum_sub_distrib, ← sum_sub_distrib]
    refine sum_eq_zero fun k _ => ?_
    have a := ck_raise hi k l1 m1 l4 m4
    have b := ck_lower hi hs k l3 m3 l2 m2
    rw [show m1 - m4 - 1 = m3 - m2 by omega] at a
    linear_combination (R.getD k 0 * ck gaunt k l3 m3 l2 m2) * a - (R.getD k 0 * ck gaunt k l1 m1 l4 m4) * b
  · rw [if_neg (by omega), if_neg (by omega), if_neg (by omega), if_neg (by omega)]
    ring

omit hi in
theorem coulomb_flip (hs : GauntSymmetric gaunt) (l1 l2 l3 l4 : ℕ) (R : List ℝ) (m1 m2 m3 m4 : ℤ) :
    coulomb gaunt l1 l2 l3 l4 R (-m1) (-m2) (-m3) (-m4) = coulomb gaunt l1 l2 l3 l4 R m1 m2 m3 m4 := by
  unfold coulomb
  simp only [ck_flip hs]
  have : -m1 + -m2 = -m3 + -m4 ↔ m1 + m2 = m3 + m4 := by omega
  simp only [this]

theorem coulomb_lower (hs : GauntSymmetric gaunt) (l1 l2 l3 l4 : ℕ) (R : List ℝ) (m1 m2 m3 m4 : ℤ) :
    up l1 m1 * coulomb gaunt l1 l2 l3 l4 R (m1 + 1) m2 m3 m4 + up l2 m2 * coulomb gaunt l1 l2 l3 l4 R m1 (m2 + 1) m3 m4
      - up l3 (m3 - 1) * coulomb gaunt l1 l2 l3 l4 R m1 m2 (m3 - 1) m4
      - up l4 (m4 - 1) * coulomb gaunt l1 l2 l3 l4 R m1 m2 m3 (m4 - 1) = 0 := by
  have h := coulomb_raise hi hs l1 l2 l3 l4 R (-m1) (-m2) (-m3) (-m4)
  rw [up_neg, up_neg, show -m1 - 1 = -(m1 + 1) by ring, show -m2 - 1 = -(m2 + 1) by ring, show -m3 + 1 = -(m3 - 1) by ring,
    show -m4 + 1 = -(m4 - 1) by ring, coulomb_flip hs, coulomb_flip hs, coulomb_flip hs, coulomb_flip hs,
    show -m3 = -(m3 - 1) - 1 by ring, up_neg, show -m4 = -(m4 - 1) - 1 by ring, up_neg] at h
  exact h

end

section
variable {f : Label → ℕ} {ls : Finset ℕ} (hf : ShellsApart f ls) {l1 l2 l3 l4 : ℕ}
  (h1 : l1 ∈ ls) (h2 : l2 ∈ ls) (h3 : l3 ∈ ls) (h4 : l4 ∈ ls)
  {gaunt : GauntFun} (hi : GauntInvariant gaunt) (hs : GauntSymmetric gaunt) (R : List ℝ)
include hf h1 h2 h3 h4

theorem lZ_commutes (v : Vec ℂ) :
    totalOneBody f ls (fun _ => orbOp lZ) (twoBody f l1 l2 l3 l4 (coulomb gaunt l1 l2 l3 l4 R) v)
      = twoBody f l1 l2 l3 l4 (coulomb gaunt l1 l2 l3 l4 R) (totalOneBody f ls (fun _ => orbOp lZ) v) := by
  refine orb_commutes hf h1 h2 h3 h4 _ (B := fun _ => lZ) (fun m1 k1 m2 k2 m3 k3 m4 k4 => ?_) v
  unfold lZ
  simp only [ite_mul, zero_mul, sum_ite_eq, sum_ite_eq', if_pos k1, if_pos k2, if_pos k3, if_pos k4]
  unfold coulomb
  split
  · next h =>
    have : (m1 : ℂ) + m2 = m3 + m4 := by exact_mod_cast h
    linear_combination ((∑ k ∈ range R.length, R.getD k 0 * (ck gaunt k l1 m1 l4 m4 * ck gaunt k l3 m3 l2 m2) : ℝ) : ℂ) * this
  · simp

include hi hs

theorem lPlus_commutes (v : Vec ℂ) :
    totalOneBody f ls (fun l => orbOp (lPlus l)) (twoBody f l1 l2 l3 l4 (coulomb gaunt l1 l2 l3 l4 R) v)
      = twoBody f l1 l2 l3 l4 (coulomb gaunt l1 l2 l3 l4 R) (totalOneBody f ls (fun l => orbOp (lPlus l)) v) := by
  refine orb_commutes hf h1 h2 h3 h4 _ (B := lPlus) (fun m1 k1 m2 k2 m3 k3 m4 k4 => ?_) v
  rw [sum_lPlus_left k1, sum_lPlus_left k2, sum_lPlus_right k3, sum_lPlus_right k4]
  exact_mod_cast coulomb_raise hi hs l1 l2 l3 l4 R m1 m2 m3 m4

theorem lMinus_commutes (v : Vec ℂ) :
    totalOneBody f ls (fun l => orbOp (lMinus l)) (twoBody f l1 l2 l3 l4 (coulomb gaunt l1 l2 l3 l4 R) v)
      = twoBody f l1 l2 l3 l4 (coulomb gaunt l1 l2 l3 l4 R) (totalOneBody f ls (fun l => orbOp (lMinus l)) v) := by
  refine orb_commutes hf h1 h2 h3 h4 _ (B := lMinus) (fun m1 k1 m2 k2 m3 k3 m4 k4 => ?_) v
  simp only [lMinus_eq]
  rw [sum_lPlus_right k1, sum_lPlus_right k2, sum_lPlus_left k3, sum_lPlus_left k4]
  exact_mod_cast coulomb_lower hi hs l1 l2 l3 l4 R m1 m2 m3 m4

end

section
variable {f : Label → ℕ} {ls : Finset ℕ} (hf : ShellsApart f ls) {l : ℕ} (hl : l ∈ ls)
include hf hl

theorem commutes_one {M : ℕ → ℤ × ℤ → ℤ × ℤ → ℂ} {N : ℤ × ℤ → ℤ × ℤ → ℂ}
    (h : ∀ x ∈ shell l, ∀ y ∈ shell l, ∑ z ∈ shell l, M l x z * N z y = ∑ z ∈ shell l, M l z y * N x z) (v : Vec ℂ) :
    totalOneBody f ls M (oneBody f l N v) = oneBody f l N (totalOneBody f ls M v) := by
  have e := tot_ob (shellsCAR hf) M hl N
  have z : ∑ x ∈ shell l, ∑ y ∈ shell l, (∑ z ∈ shell l, M l x z * N z y - ∑ z ∈ shell l, M l z y * N x z) • (crX f l x * anX f l y)
      = 0 := by
    refine sum_eq_zero fun x hx => sum_eq_zero fun y hy => ?_
    rw [h x hx y hy, sub_self, zero_smul]
  rw [z] at e
  have e' := congrArg (fun T : Module.End ℂ (Vec ℂ) => T v) (sub_eq_zero.1 e)
  simp only [Module.End.mul_apply, totA_apply] at e'
  have o : ∀ w, (∑ x ∈ shell l, ∑ y ∈ shell l, N x y • (crX f l x * anX f l y)) w = oneBody f l N w := obL_apply f l N
  rw [o, o] at e'
  exact e'

end

theorem up_sq {l : ℕ} {m : ℤ} (h1 : -(l : ℤ) - 1 ≤ m) (h2 : m ≤ l) : up l m * up l m = (l - m) * (l + m + 1) := by
  have h1' : -(l : ℝ) - 1 ≤ m := by exact_mod_cast h1
  have h2' : (m : ℝ) ≤ l := by exact_mod_cast h2
  exact Real.mul_self_sqrt (mul_nonneg (by linarith) (by linarith))

theorem lPlus_up (l : ℕ) (m' m : ℤ) : lPlus l m' m = if m' = m + 1 then (up l m : ℂ) else 0 := rfl

theorem lDotS_symm (l : ℕ) (x y : ℤ × ℤ) : lDotS l x y = lDotS l y x := by
  unfold lDotS
  rw [lMinus_eq, lMinus_eq]
  have e1 : lZ x.2 y.2 = lZ y.2 x.2 := by
    unfold lZ; by_cases h : x.2 = y.2
    · rw [h]
    · rw [if_neg h, if_neg (fun e => h e.symm)]
  have e2 : sZ x.1 y.1 = sZ y.1 x.1 := by
    unfold sZ; by_cases h : x.1 = y.1
    · rw [h]
    · rw [if_neg h, if_neg (fun e => h e.symm)]
  have e3 : ∀ s s', sMinus s s' = sPlus s' s := fun s s' => by unfold sMinus sPlus; simp only [and_comm]
  rw [e1, e2, e3, e3]
  ring

/-- The matrix of `l·s` commutes with that of `j₊`. -/
theorem lDotS_raise (l : ℕ) : ∀ x ∈ shell l, ∀ y ∈ shell l,
    ∑ z ∈ shell l, (orbOp (lPlus l) x z + spinOp sPlus x z) * lDotS l z y
      = ∑ z ∈ shell l, (orbOp (lPlus l) z y + spinOp sPlus z y) * lDotS l x z := by
  rintro ⟨s, m⟩ hx ⟨s', m'⟩ hy
  simp only [add_mul, sum_add_distrib]
  rw [sum_orbOp hx, sum_spinOp hx, sum_orbOp' hy, sum_spinOp' hy]
  have mx := mem_product.1 hx
  have my := mem_product.1 hy
  dsimp only at mx my ⊢
  rw [sum_lPlus_left mx.2, sum_lPlus_right my.2]
  have p : ∀ g : ℤ → ℂ, ∑ s ∈ ({0, 1} : Finset ℤ), g s = g 0 + g 1 := fun g => sum_pair (by decide)
  have b := mem_Icc.1 mx.2
  have q1 : ((up l m * up l m : ℝ) : ℂ) = (l - m) * (l + m + 1) := by
    rw [up_sq (by omega) (by omega)]; push_cast; ring
  have q2 : ((up l (m - 1) * up l (m - 1) : ℝ) : ℂ) = (l - m + 1) * (l + m) := by
    rw [up_sq (by omega) (by omega)]; push_cast; ring
  push_cast at q1 q2
  simp only [p]
  have h1 := mx.1
  have h2 := my.1
  simp only [mem_insert, mem_singleton] at h1 h2
  have i1 : (m - 1 = m' - 1) ↔ m = m' := by omega
  have i2 : (m' = m - 1 + 1) ↔ m = m' := by omega
  have i3 : (m' + 1 = m + 1) ↔ m = m' := by omega
  have i4 : (m - 1 = m') ↔ m = m' + 1 := by omega
  rcases h1 with rfl | rfl <;> rcases h2 with rfl | rfl <;>
    simp only [lDotS, sZ, sPlus, sMinus, lZ, lMinus_eq, lPlus_up, i2, i3, i4] <;>
    simp only [zero_ne_one, one_ne_zero, and_true, true_and, and_false, false_and, if_true, if_false, mul_zero, zero_mul,
      add_zero, zero_add, one_mul, and_self, mul_one, zero_div]
  · by_cases h : m = m' + 1
    · subst h
      simp only [if_true, add_sub_cancel_right]
      push_cast
      ring
    · simp only [if_neg h]
      ring
  · have i5 : (m - 1 = m' + 1) ↔ m = m' + 1 + 1 := by omega
    simp only [i5]
    by_cases h : m = m' + 1 + 1
    · subst h
      simp only [if_true, add_sub_cancel_right]
      ring
    · simp only [if_neg h]
      ring
  · by_cases h : m = m'
    · subst h
      simp only [if_true]
      linear_combination (1 / 2 : ℂ) * q2 - (1 / 2 : ℂ) * q1
    · simp only [if_neg h]
      ring
  · by_cases h : m = m' + 1
    · subst h
      simp only [if_true, add_sub_cancel_right]
      push_cast
      ring
    · simp only [if_neg h]
      ring

theorem lDotS_lower (l : ℕ) : ∀ x ∈ shell l, ∀ y ∈ shell l,
    ∑ z ∈ shell l, (orbOp (lMinus l) x z + spinOp sMinus x z) * lDotS l z y
      = ∑ z ∈ shell l, (orbOp (lMinus l) z y + spinOp sMinus z y) * lDotS l x z := by
  intro x hx y hy
  have h := lDotS_raise l y hy x hx
  have e : ∀ a b, orbOp (lMinus l) a b + spinOp sMinus a b = orbOp (lPlus l) b a + spinOp sPlus b a := by
    intro a b
    unfold orbOp spinOp delta sMinus sPlus
    rw [lMinus_eq]
    simp only [and_comm, eq_comm]
  simp only [e]
  rw [show ∑ z ∈ shell l, (orbOp (lPlus l) z x + spinOp sPlus z x) * lDotS l z y
      = ∑ z ∈ shell l, (orbOp (lPlus l) z x + spinOp sPlus z x) * lDotS l y z from
    sum_congr rfl fun z _ => by rw [lDotS_symm l z y], ← h]
  exact sum_congr rfl fun z _ => by rw [lDotS_symm l z x]

theorem lDotS_z (l : ℕ) : ∀ x ∈ shell l, ∀ y ∈ shell l,
    ∑ z ∈ shell l, (orbOp lZ x z + spinOp sZ x z) * lDotS l z y
      = ∑ z ∈ shell l, (orbOp lZ z y + spinOp sZ z y) * lDotS l x z := by
  rintro ⟨s, m⟩ hx ⟨s', m'⟩ hy
  simp only [add_mul, sum_add_distrib]
  rw [sum_orbOp hx, sum_spinOp hx, sum_orbOp' hy, sum_spinOp' hy]
  have mx := mem_product.1 hx
  have my := mem_product.1 hy
  dsimp only at mx my ⊢
  have p : ∀ g : ℤ → ℂ, ∑ s ∈ ({0, 1} : Finset ℤ), g s = g 0 + g 1 := fun g => sum_pair (by decide)
  have hz1 : ∀ g : ℤ → ℂ, ∑ k ∈ mRange l, lZ m k * g k = m * g m := by
    intro g
    unfold lZ
    simp only [ite_mul, zero_mul]
    rw [sum_ite_eq, if_pos (show m ∈ mRange l from mx.2)]
  have hz2 : ∀ g : ℤ → ℂ, ∑ k ∈ mRange l, lZ k m' * g k = m' * g m' := by
    intro g
    unfold lZ
    simp only [ite_mul, zero_mul]
    rw [sum_ite_eq', if_pos (show m' ∈ mRange l from my.2)]
  rw [hz1, hz2]
  simp only [p]
  have h1 := mx.1
  have h2 := my.1
  simp only [mem_insert, mem_singleton] at h1 h2
  rcases h1 with rfl | rfl <;> rcases h2 with rfl | rfl <;>
    simp only [lDotS, sZ, sPlus, sMinus, lZ, lMinus_eq, lPlus_up] <;>
    simp only [zero_ne_one, one_ne_zero, and_true, true_and, and_false, false_and, if_true, if_false, mul_zero, zero_mul,
      add_zero, zero_add, one_mul, and_self, mul_one, zero_div]
  · by_cases h : m = m'
    · subst h; ring
    · simp only [if_neg h]; ring
  · by_cases h : m = m' + 1
    · subst h; simp only [if_true]; push_cast; ring
    · simp only [if_neg h]; ring
  · by_cases h : m' = m + 1
    · subst h; simp only [if_true]; push_cast; ring
    · simp only [if_neg h]; ring
  · by_cases h : m = m'
    · subst h; ring
    · simp only [if_neg h]; ring

end

end Verif
