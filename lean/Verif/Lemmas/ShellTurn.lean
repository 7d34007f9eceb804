/-
A change of the one-electron states that turns every shell into itself: what becomes of one-particle and two-particle
operators.
-/
import Verif.Lemmas.BathShell
import Verif.Lemmas.Monopole
import Verif.Lemmas.PerturbMain

namespace Verif

open Finset Spec

noncomputable section

section abstractTurn
variable {A : Type} [Ring A] [Algebra ℂ A] {ι : Type} [DecidableEq ι] {ls : Finset ℕ} {s : ℕ → Finset ι} {c a : ℕ → ι → A} {V : A}
  {D : ℕ → ι → ι → ℂ}

/-- `V` moves every electron of a shell with the matrix `D`. -/
structure Turns (ls : Finset ℕ) (s : ℕ → Finset ι) (c a : ℕ → ι → A) (V : A) (D : ℕ → ι → ι → ℂ) : Prop where
  cr : ∀ l ∈ ls, ∀ x ∈ s l, V * c l x = ∑ y ∈ s l, D l y x • (c l y * V)
  an : ∀ l ∈ ls, ∀ x ∈ s l, V * a l x = ∑ y ∈ s l, star (D l y x) • (a l y * V)
  rows : ∀ l ∈ ls, ∀ x ∈ s l, ∀ z ∈ s l, ∑ y ∈ s l, D l x y * star (D l z y) = if x = z then 1 else 0

variable (hV : Turns ls s c a V D)

/-- A one-particle operator from the shell `l'` to the shell `l`. -/
def hopA (s : ℕ → Finset ι) (c a : ℕ → ι → A) (l l' : ℕ) (N : ι → ι → ℂ) : A :=
  ∑ x ∈ s l, ∑ y ∈ s l', N x y • (c l x * a l' y)

include hV in
theorem turn_pairA {l l' : ℕ} (hl : l ∈ ls) (hl' : l' ∈ ls) {x y : ι} (hx : x ∈ s l) (hy : y ∈ s l') :
    V * (c l x * a l' y) = ∑ x' ∈ s l, ∑ y' ∈ s l', (D l x' x * star (D l' y' y)) • (c l x' * a l' y' * V) := by
  rw [← mul_assoc, hV.cr l hl x hx, sum_mul]
  refine sum_congr rfl fun x' _ => ?_
  rw [smul_mul_assoc, mul_assoc, hV.an l' hl' y hy, mul_sum, smul_sum]
  refine sum_congr rfl fun y' _ => ?_
  rw [mul_smul_comm, smul_smul, mul_assoc]

include hV in
theorem turn_hopA {l l' : ℕ} (hl : l ∈ ls) (hl' : l' ∈ ls) {N N' : ι → ι → ℂ}
    (h : ∀ x ∈ s l, ∀ y ∈ s l', ∑ z ∈ s l, D l x z * N z y = ∑ z ∈ s l', N' x z * D l' z y) :
    V * hopA s c a l l' N = hopA s c a l l' N' * V := by
  unfold hopA
  have h1 : V * ∑ x ∈ s l, ∑ y ∈ s l', N x y • (c l x * a l' y)
      = ∑ x ∈ s l, ∑ y ∈ s l', ∑ x' ∈ s l, ∑ y' ∈ s l', (N x y * (D l x' x * star (D l' y' y))) • (c l x' * a l' y' * V) := by
    rw [mul_sum]
    refine sum_congr rfl fun x hx => ?_
    rw [mul_sum]
    refine sum_congr rfl fun y hy => ?_
    rw [mul_smul_comm, turn_pairA hV hl hl' hx hy, smul_sum]
    refine sum_congr rfl fun x' _ => ?_
    rw [smul_sum]
    exact sum_congr rfl fun y' _ => smul_smul _ _ _
  have h2 : ∑ x ∈ s l, ∑ y ∈ s l', ∑ x' ∈ s l, ∑ y' ∈ s l', (N x y * (D l x' x * star (D l' y' y))) • (c l x' * a l' y' * V)
      = ∑ x' ∈ s l, ∑ y' ∈ s l', (∑ x ∈ s l, ∑ y ∈ s l', N x y * (D l x' x * star (D l' y' y))) • (c l x' * a l' y' * V) := by
    have e : ∀ x' y', (∑ x ∈ s l, ∑ y ∈ s l', N x y * (D l x' x * star (D l' y' y))) • (c l x' * a l' y' * V)
        = ∑ x ∈ s l, ∑ y ∈ s l', (N x y * (D l x' x * star (D l' y' y))) • (c l x' * a l' y' * V) := by
      intro x' y'
      simp only [sum_smul]
    simp only [e]
    rw [sum_congr rfl fun x _ => sum_comm, sum_comm]
    refine sum_congr rfl fun x' _ => ?_
    rw [sum_congr rfl fun x _ => sum_comm, sum_comm]
  rw [h1, h2, sum_mul]
  refine sum_congr rfl fun x' hx' => ?_
  rw [sum_mul]
  refine sum_congr rfl fun y' hy' => ?_
  rw [smul_mul_assoc]
  congr 1
  calc ∑ x ∈ s l, ∑ y ∈ s l', N x y * (D l x' x * star (D l' y' y))
      = ∑ y ∈ s l', (∑ x ∈ s l, D l x' x * N x y) * star (D l' y' y) := by
        rw [sum_comm]
        refine sum_congr rfl fun y _ => ?_
        rw [sum_mul]
        exact sum_congr rfl fun x _ => by ring
    _ = ∑ y ∈ s l', (∑ z ∈ s l', N' x' z * D l' z y) * star (D l' y' y) := sum_congr rfl fun y hy => by rw [h x' hx' y hy]
    _ = ∑ z ∈ s l', N' x' z * ∑ y ∈ s l', D l' z y * star (D l' y' y) := by
        simp only [sum_mul, mul_sum]
        rw [sum_comm]
        exact sum_congr rfl fun z _ => sum_congr rfl fun y _ => by ring
    _ = N' x' y' := by
        rw [sum_congr rfl fun z hz => by rw [hV.rows l' hl' z hz y' hy']]
        simp only [mul_ite, mul_one, mul_zero]
        rw [sum_ite_eq' (s l') y', if_pos hy']

include hV in
theorem turn_fourA {l1 l2 l3 l4 : ℕ} (h1 : l1 ∈ ls) (h2 : l2 ∈ ls) (h3 : l3 ∈ ls) (h4 : l4 ∈ ls) {x : ι × ι × ι × ι}
    (hx : x ∈ s l1 ×ˢ s l2 ×ˢ s l3 ×ˢ s l4) :
    V * (c l1 x.1 * c l2 x.2.1 * a l3 x.2.2.1 * a l4 x.2.2.2) = ∑ y ∈ s l1 ×ˢ s l2 ×ˢ s l3 ×ˢ s l4,
      (D l1 y.1 x.1 * D l2 y.2.1 x.2.1 * (star (D l3 y.2.2.1 x.2.2.1) * star (D l4 y.2.2.2 x.2.2.2)))
        • (c l1 y.1 * c l2 y.2.1 * a l3 y.2.2.1 * a l4 y.2.2.2 * V) := by
  simp only [mem_product] at hx
  obtain ⟨k1, k2, k3, k4⟩ := hx
  simp only [sum_product]
  rw [← mul_assoc, ← mul_assoc, ← mul_assoc, hV.cr l1 h1 _ k1]
  simp only [sum_mul]
  refine sum_congr rfl fun y1 _ => ?_
  rw [smul_mul_assoc, smul_mul_assoc, smul_mul_assoc, mul_assoc (c l1 y1) V, hV.cr l2 h2 _ k2, mul_sum, sum_mul, sum_mul, smul_sum]
  refine sum_congr rfl fun y2 _ => ?_
  rw [mul_smul_comm, smul_mul_assoc, smul_mul_assoc, smul_smul, ← mul_assoc, mul_assoc (c l1 y1 * c l2 y2) V, hV.an l3 h3 _ k3,
    mul_sum, sum_mul, smul_sum]
  refine sum_congr rfl fun y3 _ => ?_
  rw [mul_smul_comm, smul_mul_assoc, smul_smul, ← mul_assoc, mul_assoc (c l1 y1 * c l2 y2 * a l3 y3) V, hV.an l4 h4 _ k4,
    mul_sum, smul_sum]
  refine sum_congr rfl fun y4 _ => ?_
  rw [mul_smul_comm, smul_smul, ← mul_assoc, mul_assoc (D l1 y1 x.1 * D l2 y2 x.2.1)]

include hV in
theorem turn_tbA {l1 l2 l3 l4 : ℕ} (h1 : l1 ∈ ls) (h2 : l2 ∈ ls) (h3 : l3 ∈ ls) (h4 : l4 ∈ ls) {W : ι → ι → ι → ι → ℂ}
    (h : ∀ x1 ∈ s l1, ∀ x2 ∈ s l2, ∀ x3 ∈ s l3, ∀ x4 ∈ s l4,
      ∑ z ∈ s l1 ×ˢ s l2, D l1 x1 z.1 * D l2 x2 z.2 * W z.1 z.2 x3 x4
        = ∑ z ∈ s l3 ×ˢ s l4, W x1 x2 z.1 z.2 * (D l3 z.1 x3 * D l4 z.2 x4)) :
    V * tbA s c a l1 l2 l3 l4 W = tbA s c a l1 l2 l3 l4 W * V := by
  have e : tbA s c a l1 l2 l3 l4 W = ∑ x ∈ s l1 ×ˢ s l2 ×ˢ s l3 ×ˢ s l4,
      W x.1 x.2.1 x.2.2.1 x.2.2.2 • (c l1 x.1 * c l2 x.2.1 * a l3 x.2.2.1 * a l4 x.2.2.2) := by
    unfold tbA
    simp only [sum_product]
  rw [e, mul_sum, sum_mul]
  have e1 : ∀ x ∈ s l1 ×ˢ s l2 ×ˢ s l3 ×ˢ s l4,
      V * (W x.1 x.2.1 x.2.2.1 x.2.2.2 • (c l1 x.1 * c l2 x.2.1 * a l3 x.2.2.1 * a l4 x.2.2.2))
      = ∑ y ∈ s l1 ×ˢ s l2 ×ˢ s l3 ×ˢ s l4, (W x.1 x.2.1 x.2.2.1 x.2.2.2 *
        (D l1 y.1 x.1 * D l2 y.2.1 x.2.1 * (star (D l3 y.2.2.1 x.2.2.1) * star (D l4 y.2.2.2 x.2.2.2))))
        • (c l1 y.1 * c l2 y.2.1 * a l3 y.2.2.1 * a l4 y.2.2.2 * V) := by
    intro x hx
    rw [mul_smul_comm, turn_fourA hV h1 h2 h3 h4 hx, smul_sum]
    exact sum_congr rfl fun y _ => smul_smul _ _ _
  rw [sum_congr rfl e1, sum_comm]
  refine sum_congr rfl fun y hy => ?_
  rw [← sum_smul, smul_mul_assoc]
  congr 1
  simp only [mem_product] at hy
  obtain ⟨k1, k2, k3, k4⟩ := hy
  calc ∑ x ∈ s l1 ×ˢ s l2 ×ˢ s l3 ×ˢ s l4, W x.1 x.2.1 x.2.2.1 x.2.2.2 *
        (D l1 y.1 x.1 * D l2 y.2.1 x.2.1 * (star (D l3 y.2.2.1 x.2.2.1) * star (D l4 y.2.2.2 x.2.2.2)))
      = ∑ x3 ∈ s l3, ∑ x4 ∈ s l4, (∑ z ∈ s l1 ×ˢ s l2, D l1 y.1 z.1 * D l2 y.2.1 z.2 * W z.1 z.2 x3 x4)
          * (star (D l3 y.2.2.1 x3) * star (D l4 y.2.2.2 x4)) := by
        simp only [sum_product, sum_mul]
        rw [sum_congr rfl fun x1 _ => sum_comm, sum_comm]
        refine sum_congr rfl fun x3 _ => ?_
        rw [sum_congr rfl fun x1 _ => sum_congr rfl fun x2 _ => rfl, sum_congr rfl fun x1 _ => sum_comm, sum_comm]
        refine sum_congr rfl fun x4 _ => sum_congr rfl fun x1 _ => sum_congr rfl fun x2 _ => by ring
    _ = ∑ x3 ∈ s l3, ∑ x4 ∈ s l4, (∑ z ∈ s l3 ×ˢ s l4, W y.1 y.2.1 z.1 z.2 * (D l3 z.1 x3 * D l4 z.2 x4))
          * (star (D l3 y.2.2.1 x3) * star (D l4 y.2.2.2 x4)) :=
        sum_congr rfl fun x3 j3 => sum_congr rfl fun x4 j4 => by rw [h y.1 k1 y.2.1 k2 x3 j3 x4 j4]
    _ = ∑ z ∈ s l3 ×ˢ s l4, W y.1 y.2.1 z.1 z.2 * ((∑ x3 ∈ s l3, D l3 z.1 x3 * star (D l3 y.2.2.1 x3))
          * ∑ x4 ∈ s l4, D l4 z.2 x4 * star (D l4 y.2.2.2 x4)) := by
        have e : ∀ z : ι × ι, W y.1 y.2.1 z.1 z.2 * ((∑ x3 ∈ s l3, D l3 z.1 x3 * star (D l3 y.2.2.1 x3))
            * ∑ x4 ∈ s l4, D l4 z.2 x4 * star (D l4 y.2.2.2 x4))
            = ∑ x3 ∈ s l3, ∑ x4 ∈ s l4, W y.1 y.2.1 z.1 z.2 * (D l3 z.1 x3 * D l4 z.2 x4)
              * (star (D l3 y.2.2.1 x3) * star (D l4 y.2.2.2 x4)) := by
          intro z
          rw [sum_mul_sum, mul_sum]
          refine sum_congr rfl fun x3 _ => ?_
          rw [mul_sum]
          exact sum_congr rfl fun x4 _ => by ring
        rw [sum_congr rfl fun z _ => e z]
        conv_rhs => rw [sum_comm]
        refine sum_congr rfl fun x3 _ => ?_
        conv_rhs => rw [sum_comm]
        exact sum_congr rfl fun x4 _ => sum_mul _ _ _
    _ = W y.1 y.2.1 y.2.2.1 y.2.2.2 := by
        rw [sum_congr rfl fun z hz => by
          rw [hV.rows l3 h3 z.1 (mem_product.1 hz).1 _ k3, hV.rows l4 h4 z.2 (mem_product.1 hz).2 _ k4]]
        rw [sum_product, sum_eq_single_of_mem y.2.2.1 k3, sum_eq_single_of_mem y.2.2.2 k4]
        · rw [if_pos rfl, if_pos rfl, one_mul, mul_one]
        · intro z _ hz
          rw [if_neg hz, mul_zero, mul_zero]
        · intro z _ hz
          refine sum_eq_zero fun w _ => ?_
          rw [if_neg hz, zero_mul, mul_zero]

end abstractTurn

/-- A change of the one-electron states that moves the states of the p and of the d shell with the matrices `D l`, and mixes
valence bath states of a shell among themselves, and conduction bath states among themselves. -/
structure ShellTurn (b : ℕ → ℕ) (P : BasisParams) (u : ℕ → ℕ → ℂ) (D : ℕ → ℤ × ℤ → ℤ × ℤ → ℂ) : Prop where
  unitary : UnitaryOn (nTotal (pdSystem b)) u
  shell : ∀ l ∈ [1, 2], ∀ x ∈ Spec.shell l, ∀ i < nTotal (pdSystem b), u i (position (pdSystem b) (.imp l x.1 x.2))
    = ∑ y ∈ Spec.shell l, if i = position (pdSystem b) (.imp l y.1 y.2) then D l y x else 0
  cols : ∀ l ∈ [1, 2], ∀ x ∈ Spec.shell l, ∀ z ∈ Spec.shell l, ∑ y ∈ Spec.shell l, star (D l y x) * D l y z = if x = z then 1 else 0
  rows : ∀ l ∈ [1, 2], ∀ x ∈ Spec.shell l, ∀ z ∈ Spec.shell l, ∑ y ∈ Spec.shell l, D l x y * star (D l z y) = if x = z then 1 else 0
  groups : ∀ l ∈ [1, 2], ∀ i < nTotal (pdSystem b), ∀ j < nTotal (pdSystem b), u i j ≠ 0 →
    (i ∈ impOrbs (pdSystem b) l ↔ j ∈ impOrbs (pdSystem b) l) ∧
    (i ∈ valOrbs (pdSystem b) l (P.val l) ↔ j ∈ valOrbs (pdSystem b) l (P.val l)) ∧
    (i ∈ conOrbs (pdSystem b) l (b l) (P.val l) ↔ j ∈ conOrbs (pdSystem b) l (b l) (P.val l))

/-- The change of the states as a linear map. -/
def coL (n : ℕ) (u : ℕ → ℕ → ℂ) : Module.End ℂ (Vec ℂ) where
  toFun := changeOrbitals n u
  map_add' := (changeOrbitals_linear n u).map_add
  map_smul' := (changeOrbitals_linear n u).map_smul

section
variable {b : ℕ → ℕ} {P : BasisParams} {u : ℕ → ℕ → ℂ} {D : ℕ → ℤ × ℤ → ℤ × ℤ → ℂ} (hT : ShellTurn b P u D)

theorem shell_position_lt {l : ℕ} (hl : l ∈ [1, 2]) {x : ℤ × ℤ} (hx : x ∈ shell l) :
    position (pdSystem b) (.imp l x.1 x.2) < nTotal (pdSystem b) :=
  shell_lt hl (mem_product.1 hx).1 (mem_product.1 hx).2

include hT in
theorem shellTurn_create {l : ℕ} (hl : l ∈ [1, 2]) {x : ℤ × ℤ} (hx : x ∈ shell l) (v : Vec ℂ) :
    changeOrbitals (nTotal (pdSystem b)) u (create (position (pdSystem b) (.imp l x.1 x.2)) v)
      = fun F => ∑ y ∈ shell l, D l y x * create (position (pdSystem b) (.imp l y.1 y.2)) (changeOrbitals (nTotal (pdSystem b)) u v) F := by
  rw [changeOrbitals_create (shell_position_lt hl hx)]
  funext F
  unfold createOrb
  rw [sum_congr rfl fun i hi => by rw [hT.shell l hl x hx i (mem_range.1 hi), sum_mul], sum_comm]
  refine sum_congr rfl fun y hy => ?_
  rw [sum_eq_single_of_mem _ (mem_range.2 (shell_position_lt (b := b) hl hy)), if_pos rfl]
  intro i _ hi
  rw [if_neg hi, zero_mul]

include hT in
theorem shellTurn_annihilate {l : ℕ} (hl : l ∈ [1, 2]) {x : ℤ × ℤ} (hx : x ∈ shell l) (v : Vec ℂ) :
    changeOrbitals (nTotal (pdSystem b)) u (annihilate (position (pdSystem b) (.imp l x.1 x.2)) v)
      = fun F => ∑ y ∈ shell l, star (D l y x) *
        annihilate (position (pdSystem b) (.imp l y.1 y.2)) (changeOrbitals (nTotal (pdSystem b)) u v) F := by
  rw [changeOrbitals_annihilate hT.unitary (shell_position_lt hl hx)]
  funext F
  unfold annihilateOrb
  rw [sum_congr rfl fun i hi => by rw [hT.shell l hl x hx i (mem_range.1 hi), star_sum, sum_mul], sum_comm]
  refine sum_congr rfl fun y hy => ?_
  rw [sum_eq_single_of_mem _ (mem_range.2 (shell_position_lt (b := b) hl hy)), if_pos rfl]
  intro i _ hi
  rw [if_neg hi, star_zero, zero_mul]

include hT in
theorem turns : Turns {1, 2} shell (crX (position (pdSystem b))) (anX (position (pdSystem b))) (coL (nTotal (pdSystem b)) u) D := by
  have hmem : ∀ l ∈ ({1, 2} : Finset ℕ), l ∈ [1, 2] := by
    intro l hl
    simpa using hl
  refine ⟨fun l hl x hx => ?_, fun l hl x hx => ?_, fun l hl => hT.rows l (hmem l hl)⟩
  · apply LinearMap.ext
    intro v
    funext F
    rw [endSum_apply]
    exact congrFun (shellTurn_create hT (hmem l hl) hx v) F
  · apply LinearMap.ext
    intro v
    funext F
    rw [endSum_apply]
    exact congrFun (shellTurn_annihilate hT (hmem l hl) hx v) F

/-- The operator `T` becomes `T'`. -/
def Carried (n : ℕ) (u : ℕ → ℕ → ℂ) (T T' : Vec ℂ → Vec ℂ) : Prop :=
  ∀ v, T' (changeOrbitals n u v) = changeOrbitals n u (T v)

theorem carried_of_end {n : ℕ} {T T' : Module.End ℂ (Vec ℂ)} (h : coL n u * T = T' * coL n u) : Carried n u T T' :=
  fun v => (congrArg (fun X : Module.End ℂ (Vec ℂ) => X v) h).symm

theorem Carried.add {n : ℕ} {T T' X X' : Vec ℂ → Vec ℂ} (h : Carried n u T T') (h' : Carried n u X X') :
    Carried n u (fun v F => T v F + X v F) fun v F => T' v F + X' v F := by
  intro v
  have e : (fun F => T v F + X v F) = T v + X v := rfl
  dsimp only
  rw [h, h', e, (changeOrbitals_linear n u).map_add]
  rfl

theorem Carried.smul {n : ℕ} {T T' : Vec ℂ → Vec ℂ} (h : Carried n u T T') (c : ℂ) :
    Carried n u (fun v F => c * T v F) fun v F => c * T' v F := by
  intro v
  have e : (fun F => c * T v F) = c • T v := rfl
  dsimp only
  rw [h, e, (changeOrbitals_linear n u).map_smul]
  rfl

/-- The coefficients of `between`. -/
def spinKept (M : ℤ → ℤ → ℂ) (x y : ℤ × ℤ) : ℂ := if x.1 = y.1 then M x.2 y.2 else 0

/-- A one-particle operator from the shell `l'` to the shell `l`. -/
def hopShell (f : Label → ℕ) (l l' : ℕ) (N : ℤ × ℤ → ℤ × ℤ → ℂ) (v : Vec ℂ) : Vec ℂ := fun F =>
  ∑ x ∈ shell l, ∑ y ∈ shell l', N x y * create (f (.imp l x.1 x.2)) (annihilate (f (.imp l' y.1 y.2)) v) F

theorem hopA_apply (f : Label → ℕ) (l l' : ℕ) (N : ℤ × ℤ → ℤ × ℤ → ℂ) (v : Vec ℂ) :
    hopA shell (crX f) (anX f) l l' N v = hopShell f l l' N v := by
  funext F
  unfold hopA hopShell
  simp only [endSum_apply]
  rfl

theorem hopShell_oneBody (f : Label → ℕ) (l : ℕ) (N : ℤ × ℤ → ℤ × ℤ → ℂ) : hopShell f l l N = oneBody f l N := by
  funext v F
  unfold oneBody hopShell
  rw [sum_product]

theorem hopShell_between (f : Label → ℕ) (l l' : ℕ) (M : ℤ → ℤ → ℂ) :
    hopShell f l l' (spinKept M) = between f l l' M := by
  funext v F
  unfold hopShell between shell spinKept
  simp only [sum_product, mRange]
  refine sum_congr rfl fun s hs => sum_congr rfl fun m _ => ?_
  rw [sum_eq_single_of_mem s hs]
  · exact sum_congr rfl fun m' _ => by rw [if_pos rfl]
  · intro s' _ hne
    exact sum_eq_zero fun m' _ => by rw [if_neg (Ne.symm hne), zero_mul]

theorem hopShell_number (f : Label → ℕ) (l : ℕ) :
    hopShell f l l (fun x y => if x = y then 1 else 0) = shellNumber f l := by
  funext v F
  unfold hopShell shellNumber
  refine sum_congr rfl fun x hx => ?_
  simp only [ite_mul, one_mul, zero_mul]
  rw [sum_ite_eq, if_pos hx]

include hT in
theorem shellTurn_hop {l l' : ℕ} (hl : l ∈ [1, 2]) (hl' : l' ∈ [1, 2]) {N N' : ℤ × ℤ → ℤ × ℤ → ℂ}
    (h : ∀ x ∈ shell l, ∀ y ∈ shell l', ∑ z ∈ shell l, D l x z * N z y = ∑ z ∈ shell l', N' x z * D l' z y) :
    Carried (nTotal (pdSystem b)) u (hopShell (position (pdSystem b)) l l' N) (hopShell (position (pdSystem b)) l l' N') := by
  have h := carried_of_end (turn_hopA (turns hT) (by simpa using hl) (by simpa using hl') h)
  intro v
  have h := h v
  rwa [hopA_apply, hopA_apply] at h

include hT in
theorem shellTurn_number {l : ℕ} (hl : l ∈ [1, 2]) :
    Carried (nTotal (pdSystem b)) u (shellNumber (position (pdSystem b)) l) (shellNumber (position (pdSystem b)) l) := by
  have h := shellTurn_hop hT hl hl (N := fun x y => if x = y then 1 else 0) (N' := fun x y => if x = y then 1 else 0) (fun x hx y hy => by
    simp only [mul_ite, mul_one, mul_zero, ite_mul, one_mul, zero_mul]
    rw [sum_ite_eq', sum_ite_eq, if_pos hx, if_pos hy])
  rwa [hopShell_number] at h

include hT in
theorem shellTurn_two {l1 l2 l3 l4 : ℕ} (h1 : l1 ∈ [1, 2]) (h2 : l2 ∈ [1, 2]) (h3 : l3 ∈ [1, 2]) (h4 : l4 ∈ [1, 2]) {c : ℤ → ℤ → ℤ → ℤ → ℝ}
    (h : ∀ x1 ∈ shell l1, ∀ x2 ∈ shell l2, ∀ x3 ∈ shell l3, ∀ x4 ∈ shell l4,
      ∑ z ∈ shell l1 ×ˢ shell l2, D l1 x1 z.1 * D l2 x2 z.2 * spinDiag c z.1 z.2 x3 x4
        = ∑ z ∈ shell l3 ×ˢ shell l4, spinDiag c x1 x2 z.1 z.2 * (D l3 z.1 x3 * D l4 z.2 x4)) :
    Carried (nTotal (pdSystem b)) u (twoBody (position (pdSystem b)) l1 l2 l3 l4 c) (twoBody (position (pdSystem b)) l1 l2 l3 l4 c) := by
  have h := carried_of_end (turn_tbA (turns hT) (by simpa using h1) (by simpa using h2) (by simpa using h3) (by simpa using h4) h)
  intro v
  have h := h v
  rwa [tbA_apply, tbA_apply] at h

/-! ### The occupations -/

include hT in
theorem shellTurn_occupations {l : ℕ} (hl : l ∈ [1, 2]) {T F : Finset ℕ} (hT' : T ⊆ range (nTotal (pdSystem b)))
    (h : slater (nTotal (pdSystem b)) u T F ≠ 0) :
    (F ∩ impOrbs (pdSystem b) l).card = (T ∩ impOrbs (pdSystem b) l).card ∧
    (F ∩ valOrbs (pdSystem b) l (P.val l)).card = (T ∩ valOrbs (pdSystem b) l (P.val l)).card ∧
    (F ∩ conOrbs (pdSystem b) l (b l) (P.val l)).card = (T ∩ conOrbs (pdSystem b) l (b l) (P.val l)).card :=
  ⟨slater_count (fun i hi j hj hne => (hT.groups l hl i hi j hj hne).1) hT' h,
    slater_count (fun i hi j hj hne => (hT.groups l hl i hi j hj hne).2.1) hT' h,
    slater_count (fun i hi j hj hne => (hT.groups l hl i hi j hj hne).2.2) hT' h⟩

include hT in
theorem shellTurn_configuration {T F : Finset ℕ} (hT' : T ⊆ range (nTotal (pdSystem b))) (h : slater (nTotal (pdSystem b)) u T F ≠ 0) :
    IsConfiguration [(1, b 1), (2, b 2)] (pdSystem b) P F ↔ IsConfiguration [(1, b 1), (2, b 2)] (pdSystem b) P T := by
  refine forall_congr' fun p => forall_congr' fun hp => ?_
  have hp' : p.1 ∈ [1, 2] ∧ p.2 = b p.1 := by
    simp only [List.mem_cons, List.not_mem_nil, or_false] at hp
    rcases hp with rfl | rfl <;> simp
  obtain ⟨c1, c2, c3⟩ := shellTurn_occupations hT hp'.1 hT' h
  rw [hp'.2, c1, c2, c3]

include hT in
theorem shellTurn_allowed {L : MainLib} {A : MainArgs} {hx hy hz : ℝ} {energies : List ℝ} {psis : List (Psi ℂ)} {S : SimulateArgs}
    {h : Op Label ℂ} (hrun : MainRun L A b P hx hy hz h energies psis S) {T F : Finset ℕ} (hT' : T ⊆ range (nTotal (pdSystem b)))
    (hs : slater (nTotal (pdSystem b)) u T F ≠ 0) : AllowedOpt S.restrictions F ↔ AllowedOpt S.restrictions T := by
  obtain ⟨r, hr, hall⟩ := hrun.excited
  obtain ⟨c1, c2, c3⟩ := shellTurn_occupations hT (l := 2) (by simp) hT' hs
  rw [hr]
  show Allowed r _ ↔ Allowed r _
  rw [hall, hall, c1, c2, c3]

end

end

end Verif
