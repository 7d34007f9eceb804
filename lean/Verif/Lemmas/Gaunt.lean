/-
Symmetries, selection rules and the recursion relation of sympy's Gaunt coefficients.
-/
import Verif.Model.Gaunt
import Verif.Lemmas.Dipole
import Verif.Spec.Main
import Mathlib.Algebra.BigOperators.Finprod
import Mathlib.Tactic.LinearCombination
import Mathlib.Tactic.FieldSimp

namespace Verif

open Finset Spec

/-- `1/n!`, zero for negative `n`. -/
def invFact (n : ℤ) : ℚ := if n < 0 then 0 else 1 / factList n

theorem factList_pos (n : ℤ) : 0 < factList n := by
  unfold factList
  exact_mod_cast Nat.factorial_pos _

theorem invFact_neg {n : ℤ} (h : n < 0) : invFact n = 0 := if_pos h

theorem invFact_pred (n : ℤ) : invFact (n - 1) = n * invFact n := by
  rcases lt_trichotomy n 0 with h | h | h
  · rw [invFact_neg h, invFact_neg (by omega), mul_zero]
  · subst h; rw [invFact_neg (by omega)]; simp
  · obtain ⟨k, rfl⟩ : ∃ k : ℕ, n = k + 1 := ⟨(n - 1).toNat, by omega⟩
    unfold invFact factList
    rw [if_neg (by omega), if_neg (by omega)]
    have e1 : ((k : ℤ) + 1 - 1).toNat = k := by omega
    have e2 : ((k : ℤ) + 1).toNat = k + 1 := by omega
    rw [e1, e2, Nat.factorial_succ]
    push_cast
    have : (k.factorial : ℚ) ≠ 0 := by exact_mod_cast (Nat.factorial_pos k).ne'
    field_simp

/-- `(n + 1)! = (n + 1) n!`. -/
theorem factList_succ {n : ℤ} (h : 0 ≤ n) : factList (n + 1) = (n + 1) * factList n := by
  obtain ⟨k, rfl⟩ : ∃ k : ℕ, n = k := ⟨n.toNat, by omega⟩
  unfold factList
  have e2 : ((k : ℤ) + 1).toNat = k + 1 := by omega
  rw [e2, Nat.factorial_succ]
  push_cast
  rfl

/-- A term of Racah's sum, without its sign. -/
def racahTerm (p1 p2 p3 q1 q2 q3 : ℤ) : ℚ :=
  invFact p1 * invFact p2 * invFact p3 * invFact q1 * invFact q2 * invFact q3

theorem racahTerm_ne {p1 p2 p3 q1 q2 q3 : ℤ} (h : racahTerm p1 p2 p3 q1 q2 q3 ≠ 0) :
    0 ≤ p1 ∧ 0 ≤ p2 ∧ 0 ≤ p3 ∧ 0 ≤ q1 ∧ 0 ≤ q2 ∧ 0 ≤ q3 := by
  refine ⟨?_, ?_, ?_, ?_, ?_, ?_⟩ <;>
  · by_contra hn
    apply h
    unfold racahTerm
    rw [invFact_neg (not_le.1 hn)]
    ring

theorem gauntSum_eq (a b c α β : ℤ) : gauntSum a b c α β
    = ∑ᶠ i : ℤ, (-1) ^ i * racahTerm i (c - a - β + i) (c - b + α + i) (b + β - i) (a - α - i) (a + b - c - i) := by
  unfold gauntSum
  dsimp only
  rw [finsum_eq_sum_of_support_subset (s := Icc (max (max (-c + a + β) (-c + b - α)) 0)
    (min (min (b + β) (a - α)) (a + b - c))), sum_pyRange]
  · have : Ico (max (max (-c + a + β) (-c + b - α)) 0) (min (min (b + β) (a - α)) (a + b - c) + 1)
      = Icc (max (max (-c + a + β) (-c + b - α)) 0) (min (min (b + β) (a - α)) (a + b - c)) := by
      ext x; simp only [mem_Ico, mem_Icc]; omega
    rw [this]
    refine sum_congr rfl fun i hi => ?_
    rw [mem_Icc] at hi
    unfold racahTerm invFact
    rw [if_neg (by omega), if_neg (by omega), if_neg (by omega), if_neg (by omega), if_neg (by omega), if_neg (by omega),
      show i + c - a - β = c - a - β + i by ring, show a - i - α = a - α - i by ring,
      show i + c - b + α = c - b + α + i by ring]
    have := factList_pos
    field_simp
  · intro i hi
    have := racahTerm_ne (right_ne_zero_of_mul hi)
    rw [coe_Icc, Set.mem_Icc]
    omega

/-- Reflecting the summation index of an alternating sum. -/
theorem finsum_reflect (F : ℤ → ℚ) (N : ℤ) : ∑ᶠ i : ℤ, (-1) ^ i * F i = (-1) ^ N * ∑ᶠ i : ℤ, (-1) ^ i * F (N - i) := by
  rw [mul_finsum]
  · rw [← finsum_comp_equiv (Equiv.subLeft N)]
    refine finsum_congr fun i => ?_
    rw [Equiv.subLeft_apply, ← mul_assoc, ← zpow_add₀ (by norm_num)]
    have : ((-1 : ℚ)) ^ (N - i) = (-1) ^ (N + i) := by
      rw [zpow_sub₀ (by norm_num), zpow_add₀ (by norm_num), div_eq_mul_inv, ← inv_zpow]
      norm_num
    rw [this]

theorem gauntSum_swap {a b c α β γ : ℤ} (h : α + β + γ = 0) :
    gauntSum c b a γ β = (-1) ^ (b + β) * gauntSum a b c α β := by
  rw [gauntSum_eq, gauntSum_eq, finsum_reflect _ (b + β)]
  congr 1
  refine finsum_congr fun i => ?_
  congr 1
  have e1 : a - c - β + (b + β - i) = a + b - c - i := by ring
  have e2 : a - b + γ + (b + β - i) = a - α - i := by rw [show γ = -α - β by omega]; ring
  have e3 : b + β - (b + β - i) = i := by ring
  have e4 : c - γ - (b + β - i) = c - b + α + i := by rw [show γ = -α - β by omega]; ring
  have e5 : c + b - a - (b + β - i) = c - a - β + i := by ring
  rw [e1, e2, e3, e4, e5]
  unfold racahTerm
  ring

theorem gauntSum_flip {a b c α β : ℤ} : gauntSum a b c (-α) (-β) = (-1) ^ (a + b - c) * gauntSum a b c α β := by
  rw [gauntSum_eq, gauntSum_eq, finsum_reflect _ (a + b - c)]
  congr 1
  refine finsum_congr fun i => ?_
  congr 1
  have e1 : c - a - -β + (a + b - c - i) = b + β - i := by ring
  have e2 : c - b + -α + (a + b - c - i) = a - α - i := by ring
  have e3 : b + -β - (a + b - c - i) = c - a - β + i := by ring
  have e4 : a - -α - (a + b - c - i) = c - b + α + i := by ring
  have e5 : a + b - c - (a + b - c - i) = i := by ring
  rw [e1, e2, e3, e4, e5]
  unfold racahTerm
  ring

theorem negOne_zpow_even {n : ℤ} (h : Even n) : ((-1 : ℚ)) ^ n = 1 := h.neg_one_zpow

theorem sign_eq {x y : ℤ} (h : (x - y) % 2 = 0) : ((-1 : ℚ)) ^ x = (-1) ^ y := by
  have : x = y + (x - y) := by ring
  rw [this, zpow_add₀ (by norm_num), negOne_zpow_even (Int.even_iff.2 h), mul_one]

theorem gauntZero_eq_false {l1 l2 l3 m1 m2 m3 : ℤ} : gauntZero l1 l2 l3 m1 m2 m3 = false ↔
    (0 ≤ l1 + l2 - l3 ∧ 0 ≤ l1 - l2 + l3 ∧ 0 ≤ -l1 + l2 + l3) ∧ (l1 + l2 + l3) % 2 ≠ 1 ∧ m1 + m2 + m3 = 0 ∧
      |m1| ≤ l1 ∧ |m2| ≤ l2 ∧ |m3| ≤ l3 := by
  unfold gauntZero
  simp only [Bool.or_eq_false_iff, decide_eq_false_iff_not, not_lt, ne_eq, not_not, and_assoc]

theorem gauntPrefac_swap (a b c : ℤ) : gauntPrefac c b a = gauntPrefac a b c := by
  unfold gauntPrefac
  dsimp only
  rw [show c + b + a = a + b + c by ring, show b - c + a = a + b - c by ring, show c - b + a = a - b + c by ring,
    show c + b - a = b - a + c by ring]
  ring

theorem gauntArg_swap (a b c α β γ : ℤ) : gauntArg c b a γ β α = gauntArg a b c α β γ := by
  unfold gauntArg; ring

theorem gauntArg_flip (a b c α β γ : ℤ) : gauntArg a b c (-α) (-β) (-γ) = gauntArg a b c α β γ := by
  unfold gauntArg
  simp only [sub_neg_eq_add, ← sub_eq_add_neg]
  ring

theorem gauntRational_swap {a b c α β γ : ℤ} (h : α + β + γ = 0) (he : (a + b + c) % 2 ≠ 1) :
    gauntRational c b a γ β = gauntRational a b c α β := by
  unfold gauntRational
  rw [gauntPrefac_swap, gauntSum_swap h, show c + b + a = a + b + c by ring]
  have : ((-1 : ℚ)) ^ (b + β) * (-1) ^ ((a + b + c) / 2 + a + γ - β) = (-1) ^ ((a + b + c) / 2 + c + α - β) := by
    rw [← zpow_add₀ (by norm_num)]
    exact sign_eq (by omega)
  linear_combination gauntPrefac a b c * gauntSum a b c α β * this

theorem gauntRational_flip {a b c α β : ℤ} (he : (a + b + c) % 2 ≠ 1) :
    gauntRational a b c (-α) (-β) = gauntRational a b c α β := by
  unfold gauntRational
  rw [gauntSum_flip, negOne_zpow_even (n := a + b - c) ⟨(a + b - c) / 2, by omega⟩, one_mul]
  congr 1
  exact sign_eq (by omega)

/-- sympy's Gaunt coefficients have the symmetries of the integrals. -/
theorem sympyGaunt_symmetric : GauntSymmetric sympyGaunt := by
  constructor
  · intro a b c α β γ
    unfold sympyGaunt
    by_cases h : gauntZero a b c α β γ = false
    · have h' : gauntZero c b a γ β α = false := by
        rw [gauntZero_eq_false] at h ⊢
        omega
      rw [h, h', gauntArg_swap]
      rw [gauntZero_eq_false] at h
      rw [gauntRational_swap h.2.2.1 h.2.1]
    · have h' : gauntZero c b a γ β α = true := by
        by_contra h2
        apply h
        rw [Bool.not_eq_true] at h2
        rw [gauntZero_eq_false] at h2 ⊢
        omega
      rw [if_pos h', if_pos (by simpa using h)]
  · intro a b c α β γ
    unfold sympyGaunt
    by_cases h : gauntZero a b c α β γ = false
    · have h' : gauntZero a b c (-α) (-β) (-γ) = false := by
        rw [gauntZero_eq_false] at h ⊢
        simp only [abs_neg]
        omega
      rw [h, h', gauntArg_flip]
      rw [gauntZero_eq_false] at h
      rw [gauntRational_flip h.2.1]
    · have h' : gauntZero a b c (-α) (-β) (-γ) = true := by
        by_contra h2
        apply h
        rw [Bool.not_eq_true] at h2
        rw [gauntZero_eq_false] at h2 ⊢
        simp only [abs_neg] at h2
        omega
      rw [if_pos h', if_pos (by simpa using h)]

/-- sympy's Gaunt coefficients obey the selection rules. -/
theorem sympyGaunt_rules : GauntRules sympyGaunt := by
  have key : ∀ (a b c : ℕ) (α β γ : ℤ), sympyGaunt a b c α β γ ≠ 0 → gauntZero a b c α β γ = false := by
    intro a b c α β γ h
    by_contra hn
    exact h (if_pos (by simpa using hn))
  refine ⟨?_, ?_, ?_⟩
  · intro a b c α β γ h
    by_contra hn
    have := gauntZero_eq_false.1 (key _ _ _ _ _ _ hn)
    omega
  · intro a b c α β γ h
    by_contra hn
    have := gauntZero_eq_false.1 (key _ _ _ _ _ _ hn)
    omega
  · intro a b c α β γ h
    by_contra hn
    have := gauntZero_eq_false.1 (key _ _ _ _ _ _ hn)
    omega

/-- Squares of the matrix elements of `C^k` are rational. -/
theorem ck_sq (k l : ℕ) (m : ℤ) (l' : ℕ) (m' : ℤ) : ck sympyGaunt k l m l' m' ^ 2
    = if gauntZero l k l' (-m) (m - m') m' then 0
      else ((gauntArg l k l' (-m) (m - m') m' * gauntRational l k l' (-m) (m - m') ^ 2 / (2 * k + 1) : ℚ) : ℝ) := by
  unfold ck sympyGaunt
  split
  · simp
  · have hpi := Real.pi_pos
    have harg : (0 : ℝ) ≤ gauntArg l k l' (-m) (m - m') m' := by
      have : 0 ≤ gauntArg l k l' (-m) (m - m') m' := by
        unfold gauntArg
        have h1 := factList_pos (l - -m)
        have h2 := factList_pos (l + -m)
        have h3 := factList_pos (k - (m - m'))
        have h4 := factList_pos (k + (m - m'))
        have h5 := factList_pos (l' - m')
        have h6 := factList_pos (l' + m')
        push_cast
        positivity
      exact_mod_cast this
    have hm : (((-1 : ℝ)) ^ m) ^ 2 = 1 := by
      rw [← zpow_natCast, ← zpow_mul, mul_comm, zpow_mul]; norm_num
    rw [mul_pow, mul_pow, mul_pow, hm, Real.sq_sqrt (by positivity), Real.sq_sqrt (by positivity)]
    push_cast
    field_simp

/-- The dipole matrix elements between p and d orbitals are not tiny. -/
theorem sympyGaunt_large : GauntLarge sympyGaunt [1, 2] := by
  have hfin : ∀ l ∈ ([1, 2] : List ℕ), ∀ l' ∈ ([1, 2] : List ℕ), ∀ m ∈ ([-2, -1, 0, 1, 2] : List ℤ),
      ∀ m' ∈ ([-2, -1, 0, 1, 2] : List ℤ), gauntZero l (1 : ℕ) l' (-m) (m - m') m' = true ∨
      2e-7 ≤ gauntArg l (1 : ℕ) l' (-m) (m - m') m' * gauntRational l (1 : ℕ) l' (-m) (m - m') ^ 2 / (2 * (1 : ℕ) + 1) := by
    decide +kernel
  intro l hl l' hl' m m'
  by_cases h : gauntZero l (1 : ℕ) l' (-m) (m - m') m' = true
  · left
    unfold ck sympyGaunt
    rw [if_pos h]
    simp
  · right
    have h0 := gauntZero_eq_false.1 (by simpa using h)
    simp only [abs_le] at h0
    have hle : (l : ℤ) ≤ 2 ∧ (l' : ℤ) ≤ 2 := by
      simp only [List.mem_cons, List.not_mem_nil, or_false] at hl hl'
      omega
    have hm : m ∈ ([-2, -1, 0, 1, 2] : List ℤ) := by
      simp only [List.mem_cons, List.not_mem_nil, or_false]; omega
    have hm' : m' ∈ ([-2, -1, 0, 1, 2] : List ℤ) := by
      simp only [List.mem_cons, List.not_mem_nil, or_false]; omega
    rcases hfin l hl l' hl' m hm m' hm' with h1 | h1
    · exact absurd h1 h
    · rw [ck_sq, if_neg h]
      have : ((2e-7 : ℚ) : ℝ) ≤ ((gauntArg l (1 : ℕ) l' (-m) (m - m') m' * gauntRational l (1 : ℕ) l' (-m) (m - m') ^ 2
        / (2 * (1 : ℕ) + 1) : ℚ) : ℝ) := by exact_mod_cast h1
      refine le_trans (le_of_eq ?_) this
      norm_num

/-! ### The recursion relation -/

theorem finite_support {F : ℤ → ℚ} (lo hi : ℤ) (h : ∀ i, F i ≠ 0 → lo ≤ i ∧ i ≤ hi) : (Function.support F).Finite :=
  (Set.finite_Icc lo hi).subset fun i hi => h i hi

/-- The recursion relation of Racah's sum. -/
theorem gauntSum_recursion (a b c α β : ℤ) :
    (c - α - β : ℚ) * gauntSum a b c α β
      = (a + α + 1) * gauntSum a b c (α + 1) β + (b + β + 1) * gauntSum a b c α (β + 1) := by
  rw [gauntSum_eq, gauntSum_eq, gauntSum_eq]
  have hg : (Function.support fun i : ℤ => (-1 : ℚ) ^ i * racahTerm i (c - a - β + i) (c - b + α + i + 1) (b + β - i)
      (a - α - i - 1) (a + b - c - i - 1)).Finite := finite_support 0 (a + b - c) fun i hi => by
    have := racahTerm_ne (right_ne_zero_of_mul hi)
    omega
  rw [mul_finsum, mul_finsum, mul_finsum, ← sub_eq_zero, ← finsum_add_distrib,
    ← finsum_sub_distrib]
  · have key : ∀ i : ℤ, (c - α - β : ℚ) * ((-1) ^ i * racahTerm i (c - a - β + i) (c - b + α + i) (b + β - i) (a - α - i)
          (a + b - c - i))
        - ((a + α + 1) * ((-1) ^ i * racahTerm i (c - a - β + i) (c - b + (α + 1) + i) (b + β - i) (a - (α + 1) - i)
          (a + b - c - i))
        + (b + β + 1) * ((-1) ^ i * racahTerm i (c - a - (β + 1) + i) (c - b + α + i) (b + (β + 1) - i) (a - α - i)
          (a + b - c - i)))
        = (-1) ^ (i - 1) * racahTerm (i - 1) (c - a - β + (i - 1)) (c - b + α + (i - 1) + 1) (b + β - (i - 1))
            (a - α - (i - 1) - 1) (a + b - c - (i - 1) - 1)
          - (-1) ^ i * racahTerm i (c - a - β + i) (c - b + α + i + 1) (b + β - i) (a - α - i - 1)
            (a + b - c - i - 1) := by
      intro i
      have e1 := invFact_pred i
      have e2 := invFact_pred (c - a - β + i)
      have e3 := invFact_pred (c - b + α + i + 1)
      have e4 := invFact_pred (b + β - i + 1)
      have e5 := invFact_pred (a - α - i)
      have e6 := invFact_pred (a + b - c - i)
      rw [add_sub_cancel_right] at e3 e4
      rw [show c - b + (α + 1) + i = c - b + α + i + 1 by ring, show a - (α + 1) - i = a - α - i - 1 by ring,
        show c - a - (β + 1) + i = c - a - β + i - 1 by ring, show b + (β + 1) - i = b + β - i + 1 by ring,
        show c - a - β + (i - 1) = c - a - β + i - 1 by ring, show c - b + α + (i - 1) + 1 = c - b + α + i by ring,
        show b + β - (i - 1) = b + β - i + 1 by ring, show a - α - (i - 1) - 1 = a - α - i by ring,
        show a + b - c - (i - 1) - 1 = a + b - c - i by ring]
      unfold racahTerm
      have hs : ((-1 : ℚ)) ^ (i - 1) = -(-1) ^ i := by rw [zpow_sub_one₀ (by norm_num)]; norm_num
      rw [hs, e1, e2, e3, e4, e5, e6]
      push_cast
      ring
    rw [finsum_congr key, finsum_sub_distrib, sub_eq_zero]
    · exact finsum_comp_equiv (Equiv.subRight (1 : ℤ)) (f := fun i : ℤ => (-1 : ℚ) ^ i * racahTerm i (c - a - β + i)
        (c - b + α + i + 1) (b + β - i) (a - α - i - 1) (a + b - c - i - 1))
    · exact finite_support 1 (a + b - c + 1) fun i hi => by
        have := racahTerm_ne (right_ne_zero_of_mul hi)
        omega
    · exact hg
  all_goals
    refine finite_support 0 (a + b - c) fun i hi => ?_
  · have := racahTerm_ne (right_ne_zero_of_mul (right_ne_zero_of_mul hi))
    omega
  · by_contra hn
    apply hi
    have h1 : ∀ α β, racahTerm i (c - a - β + i) (c - b + α + i) (b + β - i) (a - α - i) (a + b - c - i) = 0 := by
      intro α β
      by_contra h
      have := racahTerm_ne h
      omega
    rw [h1, h1]
    ring
  · have := racahTerm_ne (right_ne_zero_of_mul (right_ne_zero_of_mul hi))
    omega
  · have := racahTerm_ne (right_ne_zero_of_mul (right_ne_zero_of_mul hi))
    omega

theorem gauntSum_ne {a b c α β : ℤ} (h : gauntSum a b c α β ≠ 0) :
    α ≤ a ∧ -a ≤ α ∧ β ≤ b ∧ -b ≤ β ∧ 0 ≤ c + α + β ∧ 0 ≤ c - α - β := by
  rw [gauntSum_eq] at h
  obtain ⟨i, hi⟩ : ∃ i : ℤ, (-1 : ℚ) ^ i * racahTerm i (c - a - β + i) (c - b + α + i) (b + β - i) (a - α - i)
      (a + b - c - i) ≠ 0 := by
    by_contra hn
    push Not at hn
    exact h (by rw [finsum_congr hn, finsum_zero])
  have := racahTerm_ne (right_ne_zero_of_mul hi)
  omega

noncomputable section

/-- `√((l-m)! (l+m)!)`, zero if there is no such orbital. -/
def orbNorm (l m : ℤ) : ℝ := if |m| ≤ l then Real.sqrt ((factList (l - m) * factList (l + m) : ℚ) : ℝ) else 0

theorem orbNorm_succ (l m : ℤ) (hm : m ≠ l) :
    Real.sqrt ((l - m) * (l + m + 1)) * orbNorm l (m + 1) = (l + m + 1) * orbNorm l m := by
  unfold orbNorm
  simp only [abs_le]
  by_cases h1 : -l ≤ m ∧ m ≤ l
  · rw [if_pos h1, if_pos (by omega)]
    have e1 : factList (l - m) = (l - m) * factList (l - (m + 1)) := by
      have := factList_succ (n := l - (m + 1)) (by omega)
      rw [show l - (m + 1) + 1 = l - m by ring] at this
      rw [this]; push_cast; ring
    have e2 : factList (l + (m + 1)) = (l + m + 1) * factList (l + m) := by
      have := factList_succ (n := l + m) (by omega)
      rw [show l + m + 1 = l + (m + 1) by ring] at this
      rw [this]; push_cast; ring
    have hx : (0 : ℝ) ≤ (l + m + 1 : ℝ) := by exact_mod_cast (by omega : (0 : ℤ) ≤ l + m + 1)
    have hy : (0 : ℝ) ≤ (l - m : ℝ) := by exact_mod_cast (by omega : (0 : ℤ) ≤ l - m)
    rw [← Real.sqrt_mul (by positivity), e1, e2]
    rw [← Real.sqrt_sq hx, ← Real.sqrt_mul (by positivity), Real.sqrt_sq hx]
    congr 1
    push_cast
    ring
  · rw [if_neg h1]
    by_cases h2 : m = -l - 1
    · subst h2
      push_cast
      rw [show (l : ℝ) + (-l - 1) + 1 = 0 by ring]
      simp
    · rw [if_neg (by omega)]
      simp

theorem orbNorm_step {l m : ℤ} {x : ℝ} (h : m = l → x = 0) :
    Real.sqrt ((l - m) * (l + m + 1)) * (orbNorm l (m + 1) * x) = (l + m + 1) * (orbNorm l m * x) := by
  by_cases hm : m = l
  · rw [h hm]; simp
  · rw [← mul_assoc, orbNorm_succ l m hm, mul_assoc]

/-- The formula without case distinctions on the `m`. -/
theorem sympyGaunt_eq {a b c : ℕ} (ht : 0 ≤ (a + b - c : ℤ) ∧ 0 ≤ (a - b + c : ℤ) ∧ 0 ≤ (-a + b + c : ℤ))
    (hp : (a + b + c : ℤ) % 2 ≠ 1) {α β γ : ℤ} (hs : α + β + γ = 0) :
    sympyGaunt a b c α β γ = Real.sqrt (((2 * a + 1) * (2 * b + 1) * (2 * c + 1) : ℝ) / (4 * Real.pi))
      * (orbNorm a α * (orbNorm b β * (orbNorm c γ * (gauntRational a b c α β : ℝ)))) := by
  unfold sympyGaunt orbNorm
  by_cases h : |α| ≤ a ∧ |β| ≤ b ∧ |γ| ≤ c
  · rw [if_neg (by rw [Bool.not_eq_true, gauntZero_eq_false]; exact ⟨ht, hp, hs, h⟩), if_pos h.1, if_pos h.2.1,
      if_pos h.2.2]
    have q1 := (factList_pos (a - α)).le
    have q2 := (factList_pos (a + α)).le
    have q3 := (factList_pos (b - β)).le
    have q4 := (factList_pos (b + β)).le
    have q5 := (factList_pos (c - γ)).le
    have q6 := (factList_pos (c + γ)).le
    have hpi := Real.pi_pos
    have g1 : (0 : ℝ) ≤ ((factList (a - α) * factList (a + α) : ℚ) : ℝ) := by exact_mod_cast mul_nonneg q1 q2
    have g2 : (0 : ℝ) ≤ ((factList (b - β) * factList (b + β) : ℚ) : ℝ) := by exact_mod_cast mul_nonneg q3 q4
    have g3 : (0 : ℝ) ≤ ((factList (c - γ) * factList (c + γ) : ℚ) : ℝ) := by exact_mod_cast mul_nonneg q5 q6
    rw [← mul_assoc, ← mul_assoc, ← mul_assoc, ← Real.sqrt_mul (by positivity), ← Real.sqrt_mul (by positivity),
      ← Real.sqrt_mul (by positivity)]
    congr 2
    unfold gauntArg
    push_cast
    ring
  · rw [if_pos]
    · by_cases h1 : |α| ≤ a
      · by_cases h2 : |β| ≤ b
        · rw [if_neg (fun h3 => h ⟨h1, h2, h3⟩)]; simp
        · rw [if_neg h2]; simp
      · rw [if_neg h1]; simp
    · by_contra hn
      rw [Bool.not_eq_true, gauntZero_eq_false] at hn
      exact h hn.2.2.2

theorem gauntRational_zero {a b c α β : ℤ} (h : gauntSum a b c α β = 0) : (gauntRational a b c α β : ℝ) = 0 := by
  unfold gauntRational
  rw [h]
  simp

/-- The rotational invariance of sympy's Gaunt coefficients. -/
theorem sympyGaunt_recursion (a b c : ℕ) (α β γ : ℤ) :
    Real.sqrt ((a - α) * (a + α + 1)) * sympyGaunt a b c (α + 1) β γ
      + Real.sqrt ((b - β) * (b + β + 1)) * sympyGaunt a b c α (β + 1) γ
      + Real.sqrt ((c - γ) * (c + γ + 1)) * sympyGaunt a b c α β (γ + 1) = 0 := by
  have hz : ∀ α β γ, (¬ (0 ≤ (a + b - c : ℤ) ∧ 0 ≤ (a - b + c : ℤ) ∧ 0 ≤ (-a + b + c : ℤ)) ∨
      (a + b + c : ℤ) % 2 = 1 ∨ α + β + γ ≠ 0) → sympyGaunt a b c α β γ = 0 := by
    intro α β γ h
    refine if_pos ?_
    by_contra hn
    rw [Bool.not_eq_true, gauntZero_eq_false] at hn
    rcases h with h | h | h
    · exact h hn.1
    · exact hn.2.1 h
    · exact h hn.2.2.1
  by_cases hs : α + β + γ = -1
  swap
  · rw [hz _ _ _ (by omega), hz _ _ _ (by omega), hz _ _ _ (by omega)]
    simp
  by_cases hp : (a + b + c : ℤ) % 2 = 1
  · rw [hz _ _ _ (by omega), hz _ _ _ (by omega), hz _ _ _ (by omega)]
    simp
  by_cases ht : 0 ≤ (a + b - c : ℤ) ∧ 0 ≤ (a - b + c : ℤ) ∧ 0 ≤ (-a + b + c : ℤ)
  swap
  · rw [hz _ _ _ (by omega), hz _ _ _ (by omega), hz _ _ _ (by omega)]
    simp
  rw [sympyGaunt_eq ht hp (by omega), sympyGaunt_eq ht hp (by omega), sympyGaunt_eq ht hp (by omega)]
  have h1 := orbNorm_step (l := a) (m := α) (x := orbNorm b β * (orbNorm c γ * (gauntRational a b c (α + 1) β : ℝ)))
    fun h => by
      rw [gauntRational_zero]
      · simp
      · by_contra hn; have := gauntSum_ne hn; omega
  have h2 := orbNorm_step (l := b) (m := β) (x := orbNorm c γ * (gauntRational a b c α (β + 1) : ℝ))
    fun h => by
      rw [gauntRational_zero]
      · simp
      · by_contra hn; have := gauntSum_ne hn; omega
  have h3 := orbNorm_step (l := c) (m := γ) (x := (gauntRational a b c α β : ℝ))
    fun h => by
      rw [gauntRational_zero]
      by_contra hn; have := gauntSum_ne hn; omega
  have hr : ((a : ℝ) + α + 1) * (gauntRational a b c (α + 1) β : ℝ) + (b + β + 1) * (gauntRational a b c α (β + 1) : ℝ)
      + (c + γ + 1) * (gauntRational a b c α β : ℝ) = 0 := by
    have hg := gauntSum_recursion a b c α β
    have e1 : ((-1 : ℚ)) ^ (((a : ℤ) + b + c) / 2 + c + (α + 1) - β) = -(-1) ^ (((a : ℤ) + b + c) / 2 + c + α - β) := by
      rw [show ((a : ℤ) + b + c) / 2 + c + (α + 1) - β = ((a : ℤ) + b + c) / 2 + c + α - β + 1 by ring,
        zpow_add_one₀ (by norm_num)]
      ring
    have e2 : ((-1 : ℚ)) ^ (((a : ℤ) + b + c) / 2 + c + α - (β + 1)) = -(-1) ^ (((a : ℤ) + b + c) / 2 + c + α - β) := by
      rw [show ((a : ℤ) + b + c) / 2 + c + α - (β + 1) = ((a : ℤ) + b + c) / 2 + c + α - β - 1 by ring,
        zpow_sub_one₀ (by norm_num)]
      norm_num
    have hq : ((a : ℚ) + α + 1) * gauntRational a b c (α + 1) β + (b + β + 1) * gauntRational a b c α (β + 1)
        + (c + γ + 1) * gauntRational a b c α β = 0 := by
      unfold gauntRational
      rw [e1, e2]
      have hγ : (γ : ℚ) = -1 - α - β := by
        have : γ = -1 - α - β := by omega
        rw [this]; push_cast; ring
      rw [hγ]
      push_cast at hg
      linear_combination gauntPrefac a b c * (-1) ^ (((a : ℤ) + b + c) / 2 + c + α - β) * hg
    exact_mod_cast congrArg (fun x : ℚ => (x : ℝ)) hq
  push_cast at h1 h2 h3
  set K := Real.sqrt (((2 * a + 1) * (2 * b + 1) * (2 * c + 1) : ℝ) / (4 * Real.pi))
  linear_combination K * h1 + K * orbNorm a α * h2 + K * orbNorm a α * orbNorm b β * h3
    + K * orbNorm a α * orbNorm b β * orbNorm c γ * hr

end

end Verif
