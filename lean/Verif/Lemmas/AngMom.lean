/-
Helper lemmas: algebra of spin and orbital momentum matrices of a shell.
-/
import Verif.Lemmas.Observables

set_option linter.unusedSectionVars false
set_option linter.unusedSimpArgs false

namespace Verif

open Spec Finset

theorem sum_delta_left {s : Finset ℤ} {a : ℤ} (ha : a ∈ s) (F : ℤ → ℂ) : ∑ b ∈ s, delta a b * F b = F a := by
  rw [sum_eq_single a]
  · simp [delta]
  · intro b _ hb; simp [delta, Ne.symm hb]
  · intro h; exact absurd ha h

section
variable {l : ℕ}

theorem mmul_spin (A B : ℤ → ℤ → ℂ) {x : ℤ × ℤ} (hx : x ∈ shell l) (z : ℤ × ℤ) :
    mmul l (spinOp A) (spinOp B) x z = (A x.1 0 * B 0 z.1 + A x.1 1 * B 1 z.1) * delta x.2 z.2 := by
  unfold mmul shell spinOp
  rw [sum_product]
  have hx2 : x.2 ∈ Icc (-(l : ℤ)) l := by rw [mem_shell] at hx; rw [mem_Icc]; exact hx.2
  have : ∀ s : ℤ, (∑ m ∈ Icc (-(l : ℤ)) l, A x.1 s * delta x.2 m * (B s z.1 * delta m z.2))
      = A x.1 s * B s z.1 * delta x.2 z.2 := by
    intro s
    rw [← sum_delta_left hx2 (fun m => A x.1 s * B s z.1 * delta m z.2)]
    exact sum_congr rfl fun m _ => by ring
  simp only [this]
  rw [sum_pair (by norm_num)]
  ring

theorem mmul_orb (A B : ℤ → ℤ → ℂ) {x : ℤ × ℤ} (hx : x ∈ shell l) (z : ℤ × ℤ) :
    mmul l (orbOp A) (orbOp B) x z
      = delta x.1 z.1 * ∑ m ∈ Icc (-(l : ℤ)) l, A x.2 m * B m z.2 := by
  unfold mmul shell orbOp
  rw [sum_product, mul_sum, sum_comm]
  have hx1 : x.1 ∈ ({0, 1} : Finset ℤ) := by rw [mem_shell] at hx; simp; exact hx.1
  refine sum_congr rfl fun m _ => ?_
  rw [← sum_delta_left hx1 (fun s => delta s z.1 * (A x.2 m * B m z.2))]
  exact sum_congr rfl fun m _ => by ring

theorem mmul_spin_orb (A B : ℤ → ℤ → ℂ) {x z : ℤ × ℤ} (hx : x ∈ shell l) (hz : z ∈ shell l) :
    mmul l (spinOp A) (orbOp B) x z = A x.1 z.1 * B x.2 z.2 := by
  unfold mmul shell spinOp orbOp
  rw [sum_product]
  have hx2 : x.2 ∈ Icc (-(l : ℤ)) l := by rw [mem_shell] at hx; rw [mem_Icc]; exact hx.2
  have : ∀ s : ℤ, (∑ m ∈ Icc (-(l : ℤ)) l, A x.1 s * delta x.2 m * (delta s z.1 * B m z.2))
      = A x.1 s * delta s z.1 * B x.2 z.2 := by
    intro s
    rw [← sum_delta_left hx2 (fun m => A x.1 s * delta s z.1 * B m z.2)]
    exact sum_congr rfl fun m _ => by ring
  simp only [this]
  rw [sum_pair (by norm_num)]
  rw [mem_shell] at hz
  rcases hz.1 with h | h <;> simp [h, delta]

theorem mmul_orb_spin (A B : ℤ → ℤ → ℂ) {x z : ℤ × ℤ} (hx : x ∈ shell l) (hz : z ∈ shell l) :
    mmul l (orbOp B) (spinOp A) x z = A x.1 z.1 * B x.2 z.2 := by
  unfold mmul shell spinOp orbOp
  rw [sum_product, sum_comm]
  have hx1 : x.1 ∈ ({0, 1} : Finset ℤ) := by rw [mem_shell] at hx; simp; exact hx.1
  have hz2 : z.2 ∈ Icc (-(l : ℤ)) l := by rw [mem_shell] at hz; rw [mem_Icc]; exact hz.2
  have : ∀ m : ℤ, (∑ s ∈ ({0, 1} : Finset ℤ), delta x.1 s * B x.2 m * (A s z.1 * delta m z.2))
      = A x.1 z.1 * B x.2 m * delta m z.2 := by
    intro m
    rw [← sum_delta_left hx1 (fun s => A s z.1 * B x.2 m * delta m z.2)]
    exact sum_congr rfl fun m _ => by ring
  simp only [this]
  rw [sum_eq_single z.2]
  · simp [delta]
  · intro m _ h; simp [delta, h]
  · intro h; exact absurd hz2 h

theorem spin_pm {x z : ℤ × ℤ} (hx : x ∈ shell l) (hz : z ∈ shell l) :
    mmul l (spinOp sPlus) (spinOp sMinus) x z - mmul l (spinOp sMinus) (spinOp sPlus) x z
      = 2 * spinOp sZ x z := by
  rw [mmul_spin _ _ hx, mmul_spin _ _ hx]
  rw [mem_shell] at hx hz
  unfold spinOp sPlus sMinus sZ
  rcases hx.1 with h | h <;> rcases hz.1 with h' | h' <;> simp [h, h'] <;> ring

theorem spin_zp {x z : ℤ × ℤ} (hx : x ∈ shell l) (hz : z ∈ shell l) :
    mmul l (spinOp sZ) (spinOp sPlus) x z - mmul l (spinOp sPlus) (spinOp sZ) x z = spinOp sPlus x z := by
  rw [mmul_spin _ _ hx, mmul_spin _ _ hx]
  rw [mem_shell] at hx hz
  unfold spinOp sPlus sZ
  rcases hx.1 with h | h <;> rcases hz.1 with h' | h' <;> simp [h, h'] <;> ring

theorem spin_zm {x z : ℤ × ℤ} (hx : x ∈ shell l) (hz : z ∈ shell l) :
    mmul l (spinOp sZ) (spinOp sMinus) x z - mmul l (spinOp sMinus) (spinOp sZ) x z = - spinOp sMinus x z := by
  rw [mmul_spin _ _ hx, mmul_spin _ _ hx]
  rw [mem_shell] at hx hz
  unfold spinOp sMinus sZ
  rcases hx.1 with h | h <;> rcases hz.1 with h' | h' <;> simp [h, h'] <;> ring

theorem sum_plus_minus {m m' : ℤ} (h1 : -(l : ℤ) ≤ m) (h2 : m ≤ l) (h3 : -(l : ℤ) ≤ m') (h4 : m' ≤ l) :
    ∑ k ∈ Icc (-(l : ℤ)) l, lPlus l m k * lMinus l k m'
      = if m = m' then (((l + m) * (l - m + 1) : ℝ) : ℂ) else 0 := by
  by_cases hm : m = -(l : ℤ)
  · rw [sum_eq_zero]
    · have : ((l : ℝ) + (m : ℝ)) = 0 := by rw [hm]; push_cast; ring
      rw [this]; simp
    · intro k hk
      rw [mem_Icc] at hk
      unfold lPlus
      rw [if_neg (by omega), zero_mul]
  · rw [sum_eq_single (m - 1)]
    · unfold lPlus lMinus
      rw [if_pos (by omega)]
      by_cases h : m = m'
      · subst h
        simp only [if_true]
        have e : ((l : ℝ) - ((m - 1 : ℤ) : ℝ)) * ((l : ℝ) + ((m - 1 : ℤ) : ℝ) + 1)
            = ((l : ℝ) + m) * (l - m + 1) := by push_cast; ring
        rw [e, ← Complex.ofReal_mul, Real.mul_self_sqrt]
        have a1 : (0 : ℝ) ≤ (l : ℝ) + m := by
          have : (-(l : ℤ) : ℝ) ≤ (m : ℝ) := by exact_mod_cast h1
          push_cast at this; linarith
        have a2 : (0 : ℝ) ≤ (l : ℝ) - m + 1 := by
          have : (m : ℝ) ≤ (l : ℝ) := by exact_mod_cast h2
          linarith
        exact mul_nonneg a1 a2
      · rw [if_neg (by omega), if_neg h, mul_zero]
    · intro k _ hk
      unfold lPlus
      rw [if_neg (by omega), zero_mul]
    · intro h
      exact absurd (mem_Icc.2 (by omega)) h

theorem sum_minus_plus {m m' : ℤ} (h1 : -(l : ℤ) ≤ m) (h2 : m ≤ l) (h3 : -(l : ℤ) ≤ m') (h4 : m' ≤ l) :
    ∑ k ∈ Icc (-(l : ℤ)) l, lMinus l m k * lPlus l k m'
      = if m = m' then (((l - m) * (l + m + 1) : ℝ) : ℂ) else 0 := by
  by_cases hm : m = (l : ℤ)
  · rw [sum_eq_zero]
    · have : ((l : ℝ) - (m : ℝ)) = 0 := by rw [hm]; push_cast; ring
      rw [this]; simp
    · intro k hk
      rw [mem_Icc] at hk
      unfold lMinus
      rw [if_neg (by omega), zero_mul]
  · rw [sum_eq_single (m + 1)]
    · unfold lPlus lMinus
      rw [if_pos (by omega)]
      by_cases h : m = m'
      · subst h
        simp only [if_true]
        have e : ((l : ℝ) + ((m + 1 : ℤ) : ℝ)) * ((l : ℝ) - ((m + 1 : ℤ) : ℝ) + 1)
            = ((l : ℝ) - m) * (l + m + 1) := by push_cast; ring
        rw [e, ← Complex.ofReal_mul, Real.mul_self_sqrt]
        have a1 : (0 : ℝ) ≤ (l : ℝ) - m := by
          have : (m : ℝ) ≤ (l : ℝ) := by exact_mod_cast h2
          linarith
        have a2 : (0 : ℝ) ≤ (l : ℝ) + m + 1 := by
          have : (-(l : ℤ) : ℝ) ≤ (m : ℝ) := by exact_mod_cast h1
          push_cast at this; linarith
        exact mul_nonneg a1 a2
      · rw [if_neg (by omega), if_neg h, mul_zero]
    · intro k _ hk
      unfold lMinus
      rw [if_neg (by omega), zero_mul]
    · intro h
      exact absurd (mem_Icc.2 (by omega)) h

theorem sum_lZ_left {m : ℤ} (h1 : -(l : ℤ) ≤ m) (h2 : m ≤ l) (F : ℤ → ℂ) :
    ∑ k ∈ Icc (-(l : ℤ)) l, lZ m k * F k = m * F m := by
  rw [sum_eq_single m]
  · simp [lZ]
  · intro k _ hk; simp [lZ, Ne.symm hk]
  · intro h; exact absurd (mem_Icc.2 ⟨h1, h2⟩) h

theorem sum_lZ_right {m : ℤ} (h1 : -(l : ℤ) ≤ m) (h2 : m ≤ l) (F : ℤ → ℂ) :
    ∑ k ∈ Icc (-(l : ℤ)) l, F k * lZ k m = F m * m := by
  rw [sum_eq_single m]
  · simp [lZ]
  · intro k _ hk; simp [lZ, hk]
  · intro h; exact absurd (mem_Icc.2 ⟨h1, h2⟩) h

theorem orb_pm {x z : ℤ × ℤ} (hx : x ∈ shell l) (hz : z ∈ shell l) :
    mmul l (orbOp (lPlus l)) (orbOp (lMinus l)) x z - mmul l (orbOp (lMinus l)) (orbOp (lPlus l)) x z
      = 2 * orbOp lZ x z := by
  rw [mmul_orb _ _ hx, mmul_orb _ _ hx]
  rw [mem_shell] at hx hz
  rw [sum_plus_minus hx.2.1 hx.2.2 hz.2.1 hz.2.2, sum_minus_plus hx.2.1 hx.2.2 hz.2.1 hz.2.2]
  unfold orbOp lZ
  by_cases h : x.2 = z.2
  · simp only [h, if_true]; push_cast; ring
  · simp [h]

theorem orb_zp {x z : ℤ × ℤ} (hx : x ∈ shell l) (hz : z ∈ shell l) :
    mmul l (orbOp lZ) (orbOp (lPlus l)) x z - mmul l (orbOp (lPlus l)) (orbOp lZ) x z
      = orbOp (lPlus l) x z := by
  rw [mmul_orb _ _ hx, mmul_orb _ _ hx]
  rw [mem_shell] at hx hz
  rw [sum_lZ_left hx.2.1 hx.2.2 (fun m => lPlus l m z.2), sum_lZ_right hz.2.1 hz.2.2 (fun m => lPlus l x.2 m)]
  unfold orbOp lPlus
  by_cases h : x.2 = z.2 + 1
  · simp only [h, if_true]; push_cast; ring
  · simp [h]

theorem orb_zm {x z : ℤ × ℤ} (hx : x ∈ shell l) (hz : z ∈ shell l) :
    mmul l (orbOp lZ) (orbOp (lMinus l)) x z - mmul l (orbOp (lMinus l)) (orbOp lZ) x z
      = - orbOp (lMinus l) x z := by
  rw [mmul_orb _ _ hx, mmul_orb _ _ hx]
  rw [mem_shell] at hx hz
  rw [sum_lZ_left hx.2.1 hx.2.2 (fun m => lMinus l m z.2), sum_lZ_right hz.2.1 hz.2.2 (fun m => lMinus l x.2 m)]
  unfold orbOp lMinus
  by_cases h : x.2 = z.2 - 1
  · simp only [h, if_true]; push_cast; ring
  · simp [h]

theorem delta_star (a b : ℤ) : star (delta a b) = delta b a := by
  unfold delta
  by_cases h : a = b
  · simp [h]
  · simp [h, Ne.symm h]

theorem spinOp_star (A : ℤ → ℤ → ℂ) (x y : ℤ × ℤ) :
    star (spinOp A y x) = spinOp (fun a b => star (A b a)) x y := by
  unfold spinOp
  rw [star_mul', delta_star]

theorem orbOp_star (A : ℤ → ℤ → ℂ) (x y : ℤ × ℤ) :
    star (orbOp A y x) = orbOp (fun a b => star (A b a)) x y := by
  unfold orbOp
  rw [star_mul', delta_star]

end

end Verif
