/-
The weight of a transition from a full shell.
-/
import Verif.Spec.SumRules
import Verif.Lemmas.Between
import Verif.Lemmas.Cubic
import Verif.Lemmas.Photo
import Verif.Lemmas.Gaunt

namespace Verif

open Finset Spec

noncomputable section

theorem full_create {i j : ℕ} {v : Vec ℂ} (h : ∀ S, v S ≠ 0 → i ∈ S) (S : Finset ℕ) (hS : create j v S ≠ 0) : i ∈ S := by
  unfold create at hS
  split at hS
  · exact erase_subset _ _ (h _ (right_ne_zero_of_mul hS))
  · exact absurd rfl hS

theorem create_annihilate_full {i : ℕ} {v : Vec ℂ} (h : ∀ S, v S ≠ 0 → i ∈ S) : create i (annihilate i v) = v := by
  funext S
  rw [create_annihilate_self]
  split
  · rfl
  · next hi =>
    by_contra hn
    exact hi (h S fun e => hn e.symm)

theorem create_full {i : ℕ} {v : Vec ℂ} (h : ∀ S, v S ≠ 0 → i ∈ S) : create i v = 0 := by
  funext S
  unfold create
  split
  · have : v (S.erase i) = 0 := by
      by_contra hn
      exact notMem_erase i S (h _ hn)
    rw [this, mul_zero]; rfl
  · rfl

theorem annihilate_create_ne {i j : ℕ} (hij : i ≠ j) (v : Vec ℂ) : create j (annihilate i v) = fun S => -annihilate i (create j v) S := by
  funext S
  have := annihilate_create i j v S
  rw [if_neg hij] at this
  linear_combination this

theorem annihilate_sum {ι : Type} (i : ℕ) (s : Finset ι) (c : ι → ℂ) (w : ι → Vec ℂ) (S : Finset ℕ) :
    annihilate i (fun S => ∑ x ∈ s, c x * w x S) S = ∑ x ∈ s, c x * annihilate i (w x) S := by
  unfold annihilate
  split
  · simp
  · rw [mul_sum]
    exact sum_congr rfl fun x _ => by ring

/-- Removing electrons from different orbitals of a full shell gives orthogonal states. -/
theorem inner_holes {ι : Type} [DecidableEq ι] {n : ℕ} (s : Finset ι) (p : ι → ℕ) (hp : ∀ a ∈ s, p a < n) (hinj : Set.InjOn p s)
    (w : ι → Vec ℂ) (hw : ∀ a ∈ s, ∀ b ∈ s, ∀ S, w a S ≠ 0 → p b ∈ S) :
    Spec.normSq n (fun S => -∑ a ∈ s, annihilate (p a) (w a) S) = ∑ a ∈ s, Spec.normSq n (w a) := by
  have h0 : Spec.normSq n (fun S => -∑ a ∈ s, annihilate (p a) (w a) S)
      = Spec.normSq n (fun S => ∑ a ∈ s, annihilate (p a) (w a) S) := by
    unfold Spec.normSq
    exact sum_congr rfl fun S _ => Complex.normSq_neg _
  rw [h0]
  have key : innerProduct n (fun S => ∑ a ∈ s, annihilate (p a) (w a) S) (fun S => ∑ a ∈ s, annihilate (p a) (w a) S)
      = ∑ a ∈ s, innerProduct n (w a) (w a) := by
    rw [innerProduct_sum_left]
    refine sum_congr rfl fun a ha => ?_
    rw [innerProduct_sum_right, sum_eq_single a]
    · rw [innerProduct_annihilate n _ (hp a ha), create_annihilate_full (hw a ha a ha)]
    · intro b hb hba
      have hne : p b ≠ p a := fun e => hba (hinj hb ha e)
      rw [← innerProduct_create n _ (hp a ha), annihilate_create_ne hne, create_full (hw b hb a ha)]
      unfold innerProduct
      refine sum_eq_zero fun S _ => ?_
      simp [annihilate]
    · intro h; exact absurd ha h
  rw [innerProduct_self] at key
  simp only [innerProduct_self] at key
  exact_mod_cast key

theorem inSystem_shellPair {nBaths : NBaths} {l : ℕ} (hl : l ∈ allAngulars nBaths) {x : ℤ × ℤ} (hx : x ∈ shell l) :
    InSystem nBaths (.imp l x.1 x.2) := by
  simp only [shell, mem_product, mem_Icc, mem_insert, mem_singleton] at hx
  exact ⟨hl, by omega, by omega, hx.2.1, hx.2.2⟩

/-- The weight of a transition from a full shell: each electron of the shell leaves its own hole, and goes to the orbital that
the matrix says. -/
theorem normSq_between {nBaths : NBaths} (h : GoodSystem nBaths) {l l' : ℕ} (hl : l ∈ allAngulars nBaths)
    (hl' : l' ∈ allAngulars nBaths) (hne : l ≠ l') (M : ℤ → ℤ → ℂ) {v : Vec ℂ} (hv : FullShell (position nBaths) l' v) :
    Spec.normSq (nTotal nBaths) (between (position nBaths) l l' M v)
      = ∑ x ∈ shell l', Spec.normSq (nTotal nBaths)
        (fun S => ∑ m ∈ mRange l, M m x.2 * create (position nBaths (.imp l x.1 m)) v S) := by
  classical
  have hb : between (position nBaths) l l' M v = fun S => -∑ x ∈ shell l', annihilate (position nBaths (.imp l' x.1 x.2))
      (fun S => ∑ m ∈ mRange l, M m x.2 * create (position nBaths (.imp l x.1 m)) v S) S := by
    funext S
    unfold between
    rw [shell, sum_product, ← sum_neg_distrib]
    refine sum_congr rfl fun s hs => ?_
    rw [sum_comm, ← sum_neg_distrib]
    refine sum_congr rfl fun m' hm' => ?_
    rw [annihilate_sum, ← sum_neg_distrib]
    refine sum_congr rfl fun m hm => ?_
    have hd : position nBaths (.imp l' s m') ≠ position nBaths (.imp l s m) := by
      intro e
      have := position_inj h (inSystem_shellPair hl' (x := (s, m')) (by rw [shell, mem_product]; exact ⟨hs, hm'⟩))
        (inSystem_shellPair hl (x := (s, m)) (by rw [shell, mem_product]; exact ⟨hs, hm⟩)) e
      simp only [Label.imp.injEq] at this
      exact hne this.1.symm
    rw [annihilate_create_ne hd]
    ring
  rw [hb]
  refine inner_holes (shell l') (fun x => position nBaths (.imp l' x.1 x.2)) (fun x hx => position_imp_lt h (inSystem_shellPair hl' hx)) ?_ _ ?_
  · intro x hx y hy e
    have := position_inj h (inSystem_shellPair hl' hx) (inSystem_shellPair hl' hy) e
    simp only [Label.imp.injEq, true_and] at this
    exact Prod.ext this.1 this.2
  · intro a _ b hb S hS
    obtain ⟨m, hm, hmS⟩ := exists_ne_zero_of_sum_ne_zero hS
    exact full_create (fun S hS => hv S hS b hb) S (right_ne_zero_of_mul hmS)

/-- The entries of the table, for sympy's Gaunt coefficients. -/
theorem sympyGaunt_table : DipoleTable sympyGaunt := by
  have hfin : ∀ m ∈ ([-1, 0, 1] : List ℤ),
      (gauntZero (2 : ℕ) (1 : ℕ) (1 : ℕ) (-(m + 1)) (m + 1 - m) m = false ∧
        gauntArg (2 : ℕ) (1 : ℕ) (1 : ℕ) (-(m + 1)) (m + 1 - m) m * gauntRational (2 : ℕ) (1 : ℕ) (1 : ℕ) (-(m + 1)) (m + 1 - m) ^ 2
          / (2 * (1 : ℕ) + 1) = ((m : ℚ) + 2) * (m + 3) / 30) ∧
      (gauntZero (2 : ℕ) (1 : ℕ) (1 : ℕ) (-m) (m - m) m = false ∧
        gauntArg (2 : ℕ) (1 : ℕ) (1 : ℕ) (-m) (m - m) m * gauntRational (2 : ℕ) (1 : ℕ) (1 : ℕ) (-m) (m - m) ^ 2
          / (2 * (1 : ℕ) + 1) = (4 - (m : ℚ) ^ 2) / 15) ∧
      (gauntZero (2 : ℕ) (1 : ℕ) (1 : ℕ) (-(m - 1)) (m - 1 - m) m = false ∧
        gauntArg (2 : ℕ) (1 : ℕ) (1 : ℕ) (-(m - 1)) (m - 1 - m) m * gauntRational (2 : ℕ) (1 : ℕ) (1 : ℕ) (-(m - 1)) (m - 1 - m) ^ 2
          / (2 * (1 : ℕ) + 1) = (2 - (m : ℚ)) * (3 - m) / 30) := by
    decide +kernel
  have hm : ∀ m : ℤ, |m| ≤ 1 → m ∈ ([-1, 0, 1] : List ℤ) := by
    intro m h
    rw [_root_.abs_le] at h
    simp only [List.mem_cons, List.not_mem_nil, or_false]
    omega
  refine ⟨fun m h => ?_, fun m h => ?_, fun m h => ?_⟩
  · obtain ⟨h1, h2⟩ := (hfin m (hm m h)).1
    rw [ck_sq, h1, if_neg (by simp), h2]
    push_cast; ring
  · obtain ⟨h1, h2⟩ := (hfin m (hm m h)).2.1
    rw [ck_sq, h1, if_neg (by simp), h2]
    push_cast; ring
  · obtain ⟨h1, h2⟩ := (hfin m (hm m h)).2.2
    rw [ck_sq, h1, if_neg (by simp), h2]
    push_cast; ring

/-! ### The dipole operator -/

section
variable (gaunt : GauntFun)

theorem c1_sum (w : ℤ → ℂ) {m' q : ℤ} (hm : |m'| ≤ 1) (hq : |q| ≤ 1) :
    ∑ m ∈ mRange 2, c1 gaunt 2 m 1 m' q * w m = (ck gaunt 1 2 (m' + q) 1 m' : ℂ) * w (m' + q) := by
  rw [_root_.abs_le] at hm hq
  rw [sum_eq_single (m' + q)]
  · rw [c1, if_pos (by ring)]
  · intro m _ hne
    rw [c1, if_neg (fun e => hne (by linarith)), zero_mul]
  · intro h
    exact absurd (by rw [mRange, mem_Icc]; push_cast; omega) h

theorem dipole_sum (w : ℤ → ℂ) (ε : Vec3 ℂ) {m' : ℤ} (hm : |m'| ≤ 1) :
    ∑ m ∈ mRange 2, dipole gaunt ε.x ε.y ε.z 2 m 1 m' * w m
      = ε.x * (((ck gaunt 1 2 (m' - 1) 1 m' : ℂ) * w (m' - 1) - (ck gaunt 1 2 (m' + 1) 1 m' : ℂ) * w (m' + 1)) / (Real.sqrt 2 : ℝ))
        + ε.y * (Complex.I * ((ck gaunt 1 2 (m' - 1) 1 m' : ℂ) * w (m' - 1) + (ck gaunt 1 2 (m' + 1) 1 m' : ℂ) * w (m' + 1))
          / (Real.sqrt 2 : ℝ))
        + ε.z * ((ck gaunt 1 2 m' 1 m' : ℂ) * w m') := by
  have h1 := c1_sum gaunt w hm (q := -1) (by norm_num)
  have h2 := c1_sum gaunt w hm (q := 1) (by norm_num)
  have h3 := c1_sum gaunt w hm (q := 0) (by norm_num)
  rw [add_zero] at h3
  rw [← sub_eq_add_neg] at h1
  rw [← h1, ← h2, ← h3]
  simp only [← sum_sub_distrib, ← sum_add_distrib, mul_sum, sum_div]
  refine sum_congr rfl fun m _ => ?_
  unfold dipole
  ring

theorem sqrt_two_sq : ((Real.sqrt 2 : ℝ) : ℂ) ^ 2 = 2 := by
  rw [← Complex.ofReal_pow, Real.sq_sqrt (by norm_num)]
  norm_num

theorem normSq_sqrt_two : Complex.normSq ((Real.sqrt 2 : ℝ) : ℂ) = 2 := by
  rw [Complex.normSq_ofReal, Real.mul_self_sqrt (by norm_num)]

theorem normSq_scale (n : ℕ) (c : ℝ) (v : Vec ℂ) : Spec.normSq n (fun S => (c : ℂ) * v S) = c ^ 2 * Spec.normSq n v := by
  unfold Spec.normSq
  rw [mul_sum]
  exact sum_congr rfl fun S _ => by rw [map_mul, Complex.normSq_ofReal]; ring

variable {nBaths : NBaths} (h : GoodSystem nBaths) (h2 : 2 ∈ allAngulars nBaths) (h1 : 1 ∈ allAngulars nBaths) {v : Vec ℂ}
  (hv : FullShell (position nBaths) 1 v)

/-- The weight for adding an electron to a d spin-orbital. -/
def addWeight (nBaths : NBaths) (v : Vec ℂ) (s m : ℤ) : ℝ := Spec.normSq (nTotal nBaths) (create (position nBaths (.imp 2 s m)) v)

/-- The operator of the transition. -/
def transition (nBaths : NBaths) (ε : Vec3 ℂ) : Vec ℂ → Vec ℂ :=
  between (position nBaths) 2 1 fun m m' => dipole gaunt ε.x ε.y ε.z 2 m 1 m'

theorem shell_abs {x : ℤ × ℤ} (hx : x ∈ shell 1) : |x.2| ≤ 1 := by
  simp only [shell, mem_product, mem_Icc] at hx
  exact _root_.abs_le.2 (by push_cast at hx; omega)

include h h2 h1 hv in
theorem normSq_plus : Spec.normSq (nTotal nBaths) (transition gaunt nBaths circularPlus v)
    = ∑ x ∈ shell 1, ck gaunt 1 2 (x.2 + 1) 1 x.2 ^ 2 * addWeight nBaths v x.1 (x.2 + 1) := by
  unfold transition
  rw [normSq_between h h2 h1 (by norm_num) _ hv]
  refine sum_congr rfl fun x hx => ?_
  unfold addWeight
  rw [← normSq_scale]
  unfold Spec.normSq
  refine sum_congr rfl fun S _ => ?_
  beta_reduce
  rw [dipole_sum gaunt (fun m => create (position nBaths (.imp 2 x.1 m)) v S) circularPlus (shell_abs hx), ← Complex.normSq_neg]
  congr 1
  have hs := sqrt_two_sq
  have hs0 : ((Real.sqrt 2 : ℝ) : ℂ) ≠ 0 := by intro e; rw [e] at hs; norm_num at hs
  simp only [circularPlus]
  field_simp
  rw [hs, Complex.I_sq]
  ring

include h h2 h1 hv in
theorem normSq_minus : Spec.normSq (nTotal nBaths) (transition gaunt nBaths circularMinus v)
    = ∑ x ∈ shell 1, ck gaunt 1 2 (x.2 - 1) 1 x.2 ^ 2 * addWeight nBaths v x.1 (x.2 - 1) := by
  unfold transition
  rw [normSq_between h h2 h1 (by norm_num) _ hv]
  refine sum_congr rfl fun x hx => ?_
  unfold addWeight
  rw [← normSq_scale]
  unfold Spec.normSq
  refine sum_congr rfl fun S _ => ?_
  beta_reduce
  rw [dipole_sum gaunt (fun m => create (position nBaths (.imp 2 x.1 m)) v S) circularMinus (shell_abs hx)]
  congr 1
  have hs := sqrt_two_sq
  have hs0 : ((Real.sqrt 2 : ℝ) : ℂ) ≠ 0 := by intro e; rw [e] at hs; norm_num at hs
  simp only [circularMinus]
  field_simp
  rw [hs, Complex.I_sq]
  ring

include h h2 h1 hv in
theorem normSq_z : Spec.normSq (nTotal nBaths) (transition gaunt nBaths alongZ v)
    = ∑ x ∈ shell 1, ck gaunt 1 2 x.2 1 x.2 ^ 2 * addWeight nBaths v x.1 x.2 := by
  unfold transition
  rw [normSq_between h h2 h1 (by norm_num) _ hv]
  refine sum_congr rfl fun x hx => ?_
  unfold addWeight
  rw [← normSq_scale]
  unfold Spec.normSq
  refine sum_congr rfl fun S _ => ?_
  beta_reduce
  rw [dipole_sum gaunt (fun m => create (position nBaths (.imp 2 x.1 m)) v S) alongZ (shell_abs hx)]
  congr 1
  simp [alongZ]

/-- Light along x and y together is as much as both kinds of circularly polarised light. -/
theorem normSq_xy (n : ℕ) (f : Label → ℕ) (v : Vec ℂ) :
    Spec.normSq n (between f 2 1 (fun m m' => dipole gaunt 1 0 0 2 m 1 m') v)
      + Spec.normSq n (between f 2 1 (fun m m' => dipole gaunt 0 1 0 2 m 1 m') v)
    = Spec.normSq n (between f 2 1 (fun m m' => dipole gaunt circularPlus.x circularPlus.y circularPlus.z 2 m 1 m') v)
      + Spec.normSq n (between f 2 1 (fun m m' => dipole gaunt circularMinus.x circularMinus.y circularMinus.z 2 m 1 m') v) := by
  have hs := normSq_sqrt_two
  have lin : ∀ (ε : Vec3 ℂ) (S : Finset ℕ), ε.z = 0 → between f 2 1 (fun m m' => dipole gaunt ε.x ε.y ε.z 2 m 1 m') v S
      = ε.x * between f 2 1 (fun m m' => dipole gaunt 1 0 0 2 m 1 m') v S
        + ε.y * between f 2 1 (fun m m' => dipole gaunt 0 1 0 2 m 1 m') v S := by
    intro ε S hz
    unfold between
    simp only [mul_sum, ← sum_add_distrib]
    refine sum_congr rfl fun s _ => sum_congr rfl fun m _ => sum_congr rfl fun m' _ => ?_
    unfold dipole
    rw [hz]
    ring
  unfold Spec.normSq
  rw [← sum_add_distrib, ← sum_add_distrib]
  refine sum_congr rfl fun S _ => ?_
  rw [lin circularPlus S rfl, lin circularMinus S rfl]
  generalize between f 2 1 (fun m m' => dipole gaunt 1 0 0 2 m 1 m') v S = a
  generalize between f 2 1 (fun m m' => dipole gaunt 0 1 0 2 m 1 m') v S = b
  have e1 : circularPlus.x * a + circularPlus.y * b = (a + Complex.I * b) / ((Real.sqrt 2 : ℝ) : ℂ) := by
    simp only [circularPlus]; ring
  have e2 : circularMinus.x * a + circularMinus.y * b = (a - Complex.I * b) / ((Real.sqrt 2 : ℝ) : ℂ) := by
    simp only [circularMinus]; ring
  rw [e1, e2, map_div₀, map_div₀, hs]
  have hadd := Complex.normSq_add a (Complex.I * b)
  have hsub := Complex.normSq_sub a (Complex.I * b)
  rw [map_mul, Complex.normSq_I, one_mul] at hadd hsub
  rw [hadd, hsub]
  ring

theorem sum_shell_one (F : ℤ → ℤ → ℝ) : ∑ x ∈ shell 1, F x.1 x.2
    = (F 0 (-1) + F 0 0 + F 0 1) + (F 1 (-1) + F 1 0 + F 1 1) := by
  have : shell 1 = {(0, -1), (0, 0), (0, 1), (1, -1), (1, 0), (1, 1)} := by unfold shell; decide
  rw [this]
  simp [add_assoc]

theorem sum_shell_two (F : ℤ → ℤ → ℝ) : ∑ x ∈ shell 2, F x.1 x.2
    = (F 0 (-2) + F 0 (-1) + F 0 0 + F 0 1 + F 0 2) + (F 1 (-2) + F 1 (-1) + F 1 0 + F 1 1 + F 1 2) := by
  have : shell 2 = {(0, -2), (0, -1), (0, 0), (0, 1), (0, 2), (1, -2), (1, -1), (1, 0), (1, 1), (1, 2)} := by
    unfold shell; decide
  rw [this]
  simp [add_assoc]

variable {gaunt} (hT : DipoleTable gaunt)

include h h2 h1 hv hT in
theorem weight_plus : Spec.normSq (nTotal nBaths) (transition gaunt nBaths circularPlus v)
    = ∑ x ∈ shell 2, (((x.2 : ℝ) + 1) * (x.2 + 2) / 30) * addWeight nBaths v x.1 x.2 := by
  rw [normSq_plus gaunt h h2 h1 hv, sum_congr rfl fun x hx => by rw [hT.up x.2 (shell_abs hx)],
    sum_shell_one (fun s m => ((m : ℝ) + 2) * (m + 3) / 30 * addWeight nBaths v s (m + 1)),
    sum_shell_two (fun s m => ((m : ℝ) + 1) * (m + 2) / 30 * addWeight nBaths v s m)]
  norm_num

include h h2 h1 hv hT in
theorem weight_minus : Spec.normSq (nTotal nBaths) (transition gaunt nBaths circularMinus v)
    = ∑ x ∈ shell 2, ((1 - (x.2 : ℝ)) * (2 - x.2) / 30) * addWeight nBaths v x.1 x.2 := by
  rw [normSq_minus gaunt h h2 h1 hv, sum_congr rfl fun x hx => by rw [hT.down x.2 (shell_abs hx)],
    sum_shell_one (fun s m => (2 - (m : ℝ)) * (3 - m) / 30 * addWeight nBaths v s (m - 1)),
    sum_shell_two (fun s m => (1 - (m : ℝ)) * (2 - m) / 30 * addWeight nBaths v s m)]
  norm_num

include h h2 h1 hv hT in
theorem weight_z : Spec.normSq (nTotal nBaths) (transition gaunt nBaths alongZ v)
    = ∑ x ∈ shell 2, ((4 - (x.2 : ℝ) ^ 2) / 15) * addWeight nBaths v x.1 x.2 := by
  rw [normSq_z gaunt h h2 h1 hv, sum_congr rfl fun x hx => by rw [hT.same x.2 (shell_abs hx)],
    sum_shell_one (fun s m => (4 - (m : ℝ) ^ 2) / 15 * addWeight nBaths v s m),
    sum_shell_two (fun s m => (4 - (m : ℝ) ^ 2) / 15 * addWeight nBaths v s m)]
  norm_num

include h h2 in
/-- Holes: what is missing in the occupations. -/
theorem sum_addWeight (c : ℤ × ℤ → ℝ) : ∑ x ∈ shell 2, c x * addWeight nBaths v x.1 x.2
    = (∑ x ∈ shell 2, c x) * Spec.normSq (nTotal nBaths) v - ∑ S ∈ (range (nTotal nBaths)).powerset,
      (∑ x ∈ shell 2, if position nBaths (.imp 2 x.1 x.2) ∈ S then c x else 0) * Complex.normSq (v S) := by
  have e : ∀ x ∈ shell 2, c x * addWeight nBaths v x.1 x.2 = ∑ S ∈ (range (nTotal nBaths)).powerset,
      (c x - if position nBaths (.imp 2 x.1 x.2) ∈ S then c x else 0) * Complex.normSq (v S) := by
    intro x hx
    unfold addWeight
    have := weight_create (position_imp_lt h (inSystem_shellPair h2 hx)) v
    unfold Spec.normSq
    rw [show (∑ S ∈ (range (nTotal nBaths)).powerset, Complex.normSq (create (position nBaths (.imp 2 x.1 x.2)) v S)) = _ from this,
      mul_sum]
    refine sum_congr rfl fun S _ => ?_
    by_cases hp : position nBaths (.imp 2 x.1 x.2) ∈ S
    · simp [hp]
    · simp only [hp, not_false_iff, if_true, if_false, sub_zero]; rfl
  rw [sum_congr rfl e, sum_comm]
  unfold Spec.normSq
  rw [mul_sum, ← sum_sub_distrib]
  refine sum_congr rfl fun S _ => ?_
  rw [← sum_mul, sum_sub_distrib, sub_mul]

end

end

end Verif
