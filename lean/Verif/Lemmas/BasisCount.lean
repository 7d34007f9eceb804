/-
Lengths of the lists `get_basis` builds.
-/
import Verif.Lemmas.GetBasisResult
import Verif.Spec.BasisCount
import Mathlib.Algebra.BigOperators.Group.List.Basic

namespace Verif

open Spec Psr Finset

theorem length_combinations {α : Type*} (L : List α) (r : ℕ) :
    (combinations L r).length = L.length.choose r := by
  induction L generalizing r with
  | nil => cases r <;> simp [combinations]
  | cons x xs ih =>
    cases r with
    | zero => simp [combinations]
    | succ r => simp [combinations, ih, Nat.choose_succ_succ]

theorem length_pyProduct {α : Type*} (Ls : List (List α)) :
    (pyProduct Ls).length = (Ls.map List.length).prod := by
  induction Ls with
  | nil => simp [pyProduct]
  | cons L Ls ih => simp [pyProduct, ih, List.length_flatMap]

theorem length_partPure (I V C : List ℕ) (i v c : ℕ) : (partPure I V C i v c).length =
    I.length.choose i * V.length.choose v * C.length.choose c := by
  simp [partPure, List.length_flatMap, length_combinations, mul_assoc]

theorem sum_pyRange_Icc (k : ℤ) (f : ℤ → ℕ) :
    ((pyRange 0 (k + 1)).map f).sum = ∑ d ∈ Icc 0 k, f d := by
  rw [← List.sum_toFinset f (nodup_pyRange _ _)]
  refine sum_congr ?_ fun _ _ => rfl
  ext d
  simp [mem_pyRange, Int.lt_add_one_iff]

theorem length_basisLPure {nBaths : Dict ℕ ℕ} {P : BasisParams} {l nb : ℕ} (hv : P.val l ≤ nb)
    (hb : ∀ dv dc, Chosen P l dv dc → ¬ BadOccupation P l nb dv dc) :
    (basisLPure nBaths P l nb).length = waysOf P l nb := by
  rw [basisLPure, List.length_flatMap, sum_pyRange_Icc, waysOf]
  refine sum_congr rfl fun dv hdv => ?_
  rw [List.length_flatMap, sum_pyRange_Icc]
  refine sum_congr rfl fun dc hdc => ?_
  rw [mem_Icc] at hdv hdc
  split
  next ht =>
    have h := hb dv dc ⟨hdv.1, hdv.2, hdc.1, hdc.2, ht⟩
    unfold BadOccupation at h
    push Not at h
    have hval0 : 0 ≤ P.val l := by
      by_cases h0 : P.val l = 0
      · omega
      · have := h.2.2.2 h0; omega
    rw [partOf, length_partPure]
    congr 1
    · congr 1
      · rw [impIdx, List.length_range', add_sub_assoc]
      · rw [valIdx, List.length_range', valenceWays]
        split
        next h0 =>
          rw [h0, show (0 - dv : ℤ).toNat = 0 by omega]
          simp
        next => rfl
    · rw [conIdx, List.length_range']
      congr 1
      omega
  next => rfl

theorem length_configs {nBaths : Dict ℕ ℕ} {P : BasisParams} (hf : Fits nBaths P) :
    (configs nBaths P).length = waysTotal nBaths P := by
  rw [configs, length_pyProduct, List.map_map, waysTotal]
  congr 1
  exact List.map_congr_left fun p hp => length_basisLPure (hf p hp).1 (hf p hp).2

end Verif
