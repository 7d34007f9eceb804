import Verif.Lemmas.Psr
import Mathlib.Algebra.Order.BigOperators.Group.Finset

namespace Verif.Psr

open Finset Verif.Spec

/-- Value of a byte string read as a base-256 number. -/
def bytesVal (l : List UInt8) : ℕ := l.foldl (fun acc b => 256 * acc + b.toNat) 0

theorem foldl_bytes (l : List UInt8) (acc : ℕ) :
    l.foldl (fun acc b => 256 * acc + b.toNat) acc = acc * 256 ^ l.length + bytesVal l := by
  induction l generalizing acc with
  | nil => simp [bytesVal]
  | cons x xs ih =>
    rw [bytesVal, List.foldl_cons, List.foldl_cons, ih, ih (256 * 0 + x.toNat), List.length_cons, pow_succ]
    ring

theorem bytesVal_cons (x : UInt8) (xs : List UInt8) :
    bytesVal (x :: xs) = x.toNat * 256 ^ xs.length + bytesVal xs := by
  rw [bytesVal, List.foldl_cons, foldl_bytes]; simp

theorem bytesVal_append_singleton (xs : List UInt8) (x : UInt8) :
    bytesVal (xs ++ [x]) = 256 * bytesVal xs + x.toNat := by
  rw [bytesVal, List.foldl_append, ← bytesVal]; rfl

theorem bytesVal_lt (l : List UInt8) : bytesVal l < 256 ^ l.length := by
  induction l with
  | nil => simp [bytesVal]
  | cons x xs ih =>
    rw [bytesVal_cons, List.length_cons, pow_succ]
    have := x.toNat_lt
    nlinarith

theorem bytes_lt_iff (l m : List UInt8) (h : l.length = m.length) :
    l < m ↔ bytesVal l < bytesVal m := by
  induction l generalizing m with
  | nil =>
    cases m with
    | nil => simp
    | cons y ys => simp at h
  | cons x xs ih =>
    cases m with
    | nil => simp at h
    | cons y ys =>
      simp only [List.length_cons, Nat.add_right_cancel_iff] at h
      rw [List.cons_lt_cons_iff, ih ys h, bytesVal_cons, bytesVal_cons, h]
      have h1 := bytesVal_lt xs
      have h2 := bytesVal_lt ys
      rw [h] at h1
      constructor
      · rintro (hlt | ⟨he, hlt⟩)
        · rw [UInt8.lt_iff_toNat_lt] at hlt
          nlinarith
        · rw [he]; omega
      · intro hlt
        rcases Nat.lt_trichotomy x.toNat y.toNat with h3 | h3 | h3
        · left; rwa [UInt8.lt_iff_toNat_lt]
        · right
          refine ⟨UInt8.toNat_inj.1 h3, ?_⟩
          rw [h3] at hlt; omega
        · exfalso; nlinarith

theorem byte_toNat (n k : ℕ) (S : Finset ℕ) :
    (UInt8.ofNat (∑ j ∈ range 8, if 8 * k + j < n ∧ 8 * k + j ∈ S then 2 ^ (7 - j) else 0)).toNat
      = ∑ j ∈ range 8, if 8 * k + j < n ∧ 8 * k + j ∈ S then 2 ^ (7 - j) else 0 := by
  rw [UInt8.toNat_ofNat']
  apply Nat.mod_eq_of_lt
  calc _ ≤ ∑ j ∈ range 8, 2 ^ (7 - j) := by
        apply sum_le_sum; intro j _; split <;> simp
    _ < 2 ^ 8 := by decide

theorem bytesVal_encBytes_aux (n : ℕ) (S : Finset ℕ) (m : ℕ) :
    bytesVal ((List.range m).map fun k =>
      UInt8.ofNat (∑ j ∈ range 8, if 8 * k + j < n ∧ 8 * k + j ∈ S then 2 ^ (7 - j) else 0))
      = encInt (8 * m) (S.filter (· < n)) := by
  induction m with
  | zero => simp [bytesVal, encInt]
  | succ m ih =>
    rw [List.range_succ, List.map_append, List.map_singleton, bytesVal_append_singleton, ih, byte_toNat,
      show 8 * (m + 1) = 8 * m + 7 + 1 by ring]
    simp only [encInt_succ, sum_range_succ, sum_range_zero, mem_filter, and_comm]
    simp only [Nat.add_zero]
    norm_num
    ring_nf
    simp only [ite_mul, zero_mul, one_mul]
    ring

theorem encInt_add (n d : ℕ) (S : Finset ℕ) (hS : ∀ i ∈ S, i < n) :
    encInt (n + d) S = encInt n S * 2 ^ d := by
  induction d with
  | zero => simp
  | succ d ih =>
    rw [← Nat.add_assoc, encInt_succ, ih, if_neg, pow_succ]
    · ring
    · intro h; have := hS _ h; omega

theorem encInt_congr {n : ℕ} {S T : Finset ℕ} (h : ∀ i < n, i ∈ S ↔ i ∈ T) :
    encInt n S = encInt n T := by
  unfold encInt
  apply sum_congr rfl
  intro i hi
  simp [h i (mem_range.1 hi)]

theorem bytesVal_encBytes (n : ℕ) (S : Finset ℕ) :
    bytesVal (encBytes n S) = encInt n S * 2 ^ (8 * ((n + 7) / 8) - n) := by
  rw [encBytes, bytesVal_encBytes_aux]
  have hn : 8 * ((n + 7) / 8) = n + (8 * ((n + 7) / 8) - n) := by omega
  rw [hn, encInt_add _ _ _ (by intro i hi; exact (mem_filter.1 hi).2)]
  congr 1
  · apply encInt_congr
    intro i hi
    simp [hi]
  · congr 1; omega

theorem encBytes_lt_iff (n : ℕ) (S T : Finset ℕ) :
    encBytes n S < encBytes n T ↔ encInt n S < encInt n T := by
  rw [bytes_lt_iff _ _ (by simp [encBytes]), bytesVal_encBytes, bytesVal_encBytes]
  exact Nat.mul_lt_mul_right (Nat.pos_of_ne_zero (by positivity))

end Verif.Psr
