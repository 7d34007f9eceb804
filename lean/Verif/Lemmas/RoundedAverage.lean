/-
The error of the rounded thermal average.
-/
import Verif.Lemmas.Rounded
import Mathlib.Analysis.Complex.Exponential

namespace Verif

open Spec

noncomputable section

theorem near_exp {s t : ℝ} (h : |s| ≤ t) : Near (Real.exp t) (Real.exp s) := by
  unfold Near
  have h1 : Real.exp |s| ≤ Real.exp t := Real.exp_le_exp.2 h
  have h2 : |Real.exp s - 1| ≤ Real.exp |s| - 1 := by
    rcases le_total 0 s with hs | hs
    · rw [abs_of_nonneg hs, abs_of_nonneg]
      have := Real.add_one_le_exp s
      linarith
    · rw [abs_of_nonpos hs, abs_of_nonpos (by have := Real.exp_le_one_iff.2 hs; linarith)]
      have h3 : Real.exp s * Real.exp (-s) = 1 := by rw [← Real.exp_add]; simp
      have := Real.exp_pos s
      have := Real.exp_pos (-s)
      nlinarith [sq_nonneg (Real.exp s - Real.exp (-s))]
  linarith

variable {u : ℝ} {fl : FloatOps}

/-- A rounded Boltzmann factor. -/
theorem rounded_weight (hfl : Accurate u fl) (hu : u ≤ 1 / 5) {kB T e shift X : ℝ} (hb : kB * T ≠ 0)
    (hX : |e - shift| ≤ X * |kB * T|) :
    fl.mul kB T ≠ 0 ∧ ∃ p, Near (Real.exp (4 * u * X) * (1 + u)) p ∧
      fl.exp (fl.div (-(fl.sub e shift)) (fl.mul kB T)) = Real.exp (-(e - shift) / (kB * T)) * p := by
  have h0 := hfl.nonneg
  obtain ⟨p1, hp1, e1⟩ := exists_near h0 (hfl.sub e shift)
  obtain ⟨p2, hp2, e2⟩ := exists_near h0 (hfl.mul kB T)
  have hp2p := hp2.pos (by linarith)
  have hne : fl.mul kB T ≠ 0 := by rw [e2]; exact mul_ne_zero hb hp2p.ne'
  refine ⟨hne, ?_⟩
  obtain ⟨p3, hp3, e3⟩ := exists_near h0 (hfl.div (-(fl.sub e shift)) _ hne)
  set x := -(e - shift) / (kB * T) with hx
  have hy : fl.div (-(fl.sub e shift)) (fl.mul kB T) = x * (p1 * p3 * p2⁻¹) := by
    rw [e3, e1, e2, hx]
    field_simp
  have hp := (hp1.mul hp3).mul (hp2.inv (by linarith))
  have hxX : |x| ≤ X := by
    rw [hx, abs_div, abs_neg, div_le_iff₀ (abs_pos.2 hb)]
    exact hX
  have hs : |x * (p1 * p3 * p2⁻¹) - x| ≤ 4 * u * X := by
    refine (near_error hp).trans ?_
    have h1 : (1 + u) * (1 + u) * (2 - (1 + u))⁻¹ - 1 ≤ 4 * u := by
      rw [← div_eq_mul_inv, sub_le_iff_le_add, div_le_iff₀ (by linarith)]
      nlinarith
    exact mul_le_mul h1 hxX (abs_nonneg _) (by linarith)
  obtain ⟨p4, hp4, e4⟩ := exists_near h0 (r := fl.exp (x * (p1 * p3 * p2⁻¹))) (x := Real.exp (x * (p1 * p3 * p2⁻¹)))
    (by rw [abs_of_pos (Real.exp_pos _)]; exact hfl.exp _)
  refine ⟨_, (near_exp hs).mul hp4, ?_⟩
  rw [hy, e4, ← mul_assoc (Real.exp x), ← Real.exp_add]
  congr 2
  ring

/-- One rounded addition: errors relative to the sums of the magnitudes. -/
theorem rounded_add (hfl : Accurate u fl) {x y x' y' m n A : ℝ} (hx : |x' - x| ≤ (A - 1) * m) (hy : |y' - y| ≤ (A - 1) * n)
    (hm : |x| ≤ m) (hn : |y| ≤ n) : |fl.add x' y' - (x + y)| ≤ (A * (1 + u) - 1) * (m + n) := by
  have h0 := hfl.nonneg
  have h1 : |x' + y' - (x + y)| ≤ (A - 1) * (m + n) := by
    rw [show x' + y' - (x + y) = (x' - x) + (y' - y) by ring]
    refine (abs_add_le _ _).trans ?_
    linarith
  have h2 : |x' + y'| ≤ A * (m + n) := by
    have := abs_add_le (x' + y' - (x + y)) (x + y)
    rw [sub_add_cancel] at this
    have h3 := abs_add_le x y
    nlinarith
  have h3 := hfl.add x' y'
  have h4 : u * |x' + y'| ≤ u * (A * (m + n)) := mul_le_mul_of_nonneg_left h2 h0
  rw [show fl.add x' y' - (x + y) = (fl.add x' y' - (x' + y')) + (x' + y' - (x + y)) by ring]
  refine (abs_add_le _ _).trans ?_
  nlinarith

/-- The loop of `thermal_average` with rounding, for exact weights `w` and rounded weights `w'`. -/
theorem rounded_fold (hfl : Accurate u fl) {ρ : ℝ} (w w' : ℝ → ℝ) (hw : ∀ e, 0 ≤ w e) : ∀ l : List (ℝ × ℝ),
    (∀ p ∈ l, ∃ q, Near ρ q ∧ w' p.1 = w p.1 * q) → 1 ≤ ρ →
    |(l.foldl (fun (acc : ℝ × ℝ) (p : ℝ × ℝ) => (fl.add acc.1 (w' p.1), fl.add acc.2 (fl.mul (w' p.1) p.2))) (0, 0)).1
        - (l.foldl (fun (acc : ℝ × ℝ) (p : ℝ × ℝ) => (acc.1 + w p.1, acc.2 + w p.1 • p.2)) (0, 0)).1|
      ≤ (ρ * (1 + u) ^ l.length - 1) * (l.map fun p => w p.1).sum ∧
    |(l.foldl (fun (acc : ℝ × ℝ) (p : ℝ × ℝ) => (fl.add acc.1 (w' p.1), fl.add acc.2 (fl.mul (w' p.1) p.2))) (0, 0)).2
        - (l.foldl (fun (acc : ℝ × ℝ) (p : ℝ × ℝ) => (acc.1 + w p.1, acc.2 + w p.1 • p.2)) (0, 0)).2|
      ≤ (ρ * (1 + u) ^ (l.length + 1) - 1) * (l.map fun p => w p.1 * |p.2|).sum ∧
    (l.foldl (fun (acc : ℝ × ℝ) (p : ℝ × ℝ) => (acc.1 + w p.1, acc.2 + w p.1 • p.2)) (0, 0)).1
      = (l.map fun p => w p.1).sum ∧
    |(l.foldl (fun (acc : ℝ × ℝ) (p : ℝ × ℝ) => (acc.1 + w p.1, acc.2 + w p.1 • p.2)) (0, 0)).2|
      ≤ (l.map fun p => w p.1 * |p.2|).sum := by
  have h0 := hfl.nonneg
  intro l
  induction l using List.reverseRecOn with
  | nil => intro _ _; simp
  | append_singleton l p ih =>
    intro hq hρ
    obtain ⟨i1, i2, i3, i4⟩ := ih (fun p hp => hq p (by simp [hp])) hρ
    simp only [List.foldl_append, List.foldl_cons, List.foldl_nil, List.map_append, List.map_cons, List.map_nil,
      List.sum_append, List.sum_cons, List.sum_nil, add_zero, List.length_append, List.length_cons, List.length_nil,
      zero_add]
    obtain ⟨q, hqn, eq⟩ := hq p (by simp)
    have hwp := hw p.1
    have hone : ∀ j : ℕ, 1 ≤ (1 + u) ^ j := fun j => one_le_pow₀ (by linarith)
    refine ⟨?_, ?_, by rw [i3], ?_⟩
    · rw [pow_succ, ← mul_assoc]
      refine rounded_add hfl i1 ?_ (by rw [i3, abs_of_nonneg]; exact List.sum_nonneg (by
        intro x hx; obtain ⟨p, -, rfl⟩ := List.mem_map.1 hx; exact hw _)) (abs_of_nonneg hwp).le
      rw [eq]
      refine (near_error hqn).trans ?_
      rw [abs_of_nonneg hwp]
      refine mul_le_mul_of_nonneg_right ?_ hwp
      nlinarith [hone l.length]
    · rw [pow_succ (1 + u) (l.length + 1), ← mul_assoc]
      refine rounded_add hfl i2 ?_ i4 (by rw [smul_eq_mul, abs_mul, abs_of_nonneg hwp])
      obtain ⟨q2, hq2, eq2⟩ := exists_near h0 (hfl.mul (w' p.1) p.2)
      rw [eq2, eq, smul_eq_mul, show w p.1 * q * p.2 * q2 = w p.1 * p.2 * (q * q2) by ring]
      refine (near_error (hqn.mul hq2)).trans ?_
      rw [abs_mul, abs_of_nonneg hwp]
      refine mul_le_mul_of_nonneg_right ?_ (mul_nonneg hwp (abs_nonneg _))
      have h1 : ρ * (1 + u) * 1 ≤ ρ * (1 + u) * (1 + u) ^ l.length :=
        mul_le_mul_of_nonneg_left (hone _) (by nlinarith)
      have h2 : ρ * (1 + u) ^ (l.length + 1) = ρ * (1 + u) * (1 + u) ^ l.length := by rw [pow_succ]; ring
      linarith
    · refine (abs_add_le _ _).trans (add_le_add i4 ?_)
      rw [smul_eq_mul, abs_mul, abs_of_nonneg hwp]

/-- The last division. -/
theorem rounded_quotient (hfl : Accurate u fl) {z z' N N' M O A B : ℝ} (hz : 0 < z) (hA1 : 1 ≤ A) (hB1 : 1 ≤ B)
    (hA : A < 2) (hz' : |z' - z| ≤ (A - 1) * z)
    (hN' : |N' - N| ≤ (B - 1) * M) (hN : |N| ≤ M) (hM : M ≤ z * O) :
    |fl.div N' z' - z⁻¹ * N| ≤ (A + B * (1 + u) - 2) / (2 - A) * O := by
  have h0 := hfl.nonneg
  have hz'1 : (2 - A) * z ≤ z' := by
    have := (abs_le.1 hz').1
    linarith
  have hz'0 : 0 < z' := lt_of_lt_of_le (mul_pos (by linarith) hz) hz'1
  have h2A : 0 < 2 - A := by linarith
  have hM0 : 0 ≤ M := (abs_nonneg _).trans hN
  have hB : |N'| ≤ B * M := by
    have := abs_add_le (N' - N) N
    rw [sub_add_cancel] at this
    linarith
  have h1 := hfl.div N' z' hz'0.ne'
  have h2 : |fl.div N' z' - z⁻¹ * N| * z' ≤ (A + B * (1 + u) - 2) * M := by
    have e : (fl.div N' z' - z⁻¹ * N) * z' = (fl.div N' z' - N' / z') * z' + (N' - N) + z⁻¹ * N * (z - z') := by
      field_simp
      ring
    rw [← abs_of_pos hz'0, ← abs_mul, abs_of_pos hz'0, e]
    refine (abs_add_le _ _).trans ?_
    have h3 : |(fl.div N' z' - N' / z') * z'| ≤ u * (B * M) := by
      rw [abs_mul, abs_of_pos hz'0]
      calc |fl.div N' z' - N' / z'| * z' ≤ u * |N' / z'| * z' := mul_le_mul_of_nonneg_right h1 hz'0.le
        _ = u * |N'| := by rw [abs_div, abs_of_pos hz'0]; field_simp
        _ ≤ u * (B * M) := mul_le_mul_of_nonneg_left hB h0
    have h4 : |z⁻¹ * N * (z - z')| ≤ (A - 1) * M := by
      rw [abs_mul, abs_mul, abs_of_pos (inv_pos.2 hz), abs_sub_comm]
      calc z⁻¹ * |N| * |z' - z| ≤ z⁻¹ * M * ((A - 1) * z) :=
            mul_le_mul (mul_le_mul_of_nonneg_left hN (inv_pos.2 hz).le) hz' (abs_nonneg _)
              (mul_nonneg (inv_pos.2 hz).le hM0)
        _ = (A - 1) * M := by field_simp
    have h5 := abs_add_le ((fl.div N' z' - N' / z') * z') (N' - N)
    nlinarith
  have h3 : 0 ≤ A + B * (1 + u) - 2 := by nlinarith
  have h4 : |fl.div N' z' - z⁻¹ * N| * ((2 - A) * z) ≤ (A + B * (1 + u) - 2) * (z * O) :=
    (mul_le_mul_of_nonneg_left hz'1 (abs_nonneg _)).trans (h2.trans (mul_le_mul_of_nonneg_left hM h3))
  have h5 : |fl.div N' z' - z⁻¹ * N| * (2 - A) ≤ (A + B * (1 + u) - 2) * O := by
    refine le_of_mul_le_mul_right ?_ hz
    calc _ = |fl.div N' z' - z⁻¹ * N| * ((2 - A) * z) := by ring
      _ ≤ _ := h4
      _ = _ := by ring
  rw [div_mul_eq_mul_div, le_div_iff₀ h2A]
  exact h5

end

end Verif
