import Verif.Model.CreateRemove
import Verif.Spec.Ladder
import Verif.Lemmas.Psr
import Mathlib.Algebra.Ring.Parity
import Mathlib.Tactic.IntervalCases

namespace Verif

open Finset Spec Psr

theorem below_zero (S : Finset ℕ) : below 0 S = 0 := by simp [below]

theorem below_succ (i : ℕ) (S : Finset ℕ) :
    below (i + 1) S = below i S + (if i ∈ S then 1 else 0) := by
  unfold below
  have : S.filter (· < i + 1) = S.filter (· < i) ∪ (if i ∈ S then {i} else ∅) := by
    ext k
    simp only [mem_filter, mem_union]
    split
    · simp only [mem_singleton]
      constructor
      · rintro ⟨h1, h2⟩
        rcases Nat.lt_succ_iff_lt_or_eq.1 h2 with h | h
        · exact Or.inl ⟨h1, h⟩
        · exact Or.inr h
      · rintro (⟨h1, h2⟩ | rfl)
        · exact ⟨h1, by omega⟩
        · exact ⟨by assumption, by omega⟩
    · simp only [notMem_empty, or_false]
      constructor
      · rintro ⟨h1, h2⟩
        refine ⟨h1, ?_⟩
        rcases Nat.lt_succ_iff_lt_or_eq.1 h2 with h | h
        · exact h
        · subst h; contradiction
      · rintro ⟨h1, h2⟩; exact ⟨h1, by omega⟩
  rw [this]
  split
  · rw [card_union_of_disjoint]
    · simp
    · simp [disjoint_singleton_right]
  · simp

theorem parityAmp_eq (k : ℕ) : parityAmp k = (-1) ^ k := by
  unfold parityAmp
  split
  · rw [Even.neg_one_pow]; exact Nat.even_iff.2 (by assumption)
  · rw [Odd.neg_one_pow]; exact Nat.odd_iff.2 (by omega)

theorem parityAmp_below (i : ℕ) (S : Finset ℕ) : parityAmp (below i S) = sgn i S := parityAmp_eq _

/-! ### tuple -/

theorem bisectLeftLoop_eq (pre post : List ℕ) (x lo hi : ℕ) (h1 : ∀ y ∈ pre, y < x)
    (h2 : ∀ y ∈ post, x ≤ y) (hlo : lo ≤ pre.length) (hhi : pre.length ≤ hi)
    (hlen : hi ≤ (pre ++ post).length) : bisectLeftLoop (pre ++ post) x lo hi = pre.length := by
  induction hd : hi - lo using Nat.strong_induction_on generalizing lo hi with
  | _ d ih =>
    rw [bisectLeftLoop]
    split
    · rename_i hlt
      dsimp only
      have hmid : (lo + hi) / 2 < (pre ++ post).length := by omega
      have hget : (pre ++ post).getD ((lo + hi) / 2) 0 = (pre ++ post)[(lo + hi) / 2] := by
        rw [List.getD_eq_getElem?_getD, List.getElem?_eq_getElem hmid]; rfl
      rw [hget]
      by_cases hp : (lo + hi) / 2 < pre.length
      · rw [List.getElem_append_left hp, if_pos (h1 _ (List.getElem_mem _))]
        exact ih _ (by omega) _ _ (by omega) (by omega) (by omega) rfl
      · rw [List.getElem_append_right (by omega), if_neg (by
          have := h2 _ (List.getElem_mem (l := post) (n := (lo + hi) / 2 - pre.length)
            (by simp at hmid; omega)); omega)]
        exact ih _ (by omega) _ _ (by omega) (by omega) (by omega) rfl
    · omega

theorem bisectLeft_eq (pre post : List ℕ) (x : ℕ) (h1 : ∀ y ∈ pre, y < x)
    (h2 : ∀ y ∈ post, x ≤ y) : bisectLeft (pre ++ post) x = pre.length :=
  bisectLeftLoop_eq pre post x _ _ h1 h2 (by omega) (by simp) (by simp)

theorem encTuple_length (n : ℕ) (S : Finset ℕ) : (encTuple n S).length = below n S := by
  induction n with
  | zero => simp [encTuple, below_zero]
  | succ n ih => rw [encTuple_succ, List.length_append, ih, below_succ]; split <;> rfl

/-- The part of `encTuple n S` above `i`. -/
def encAbove (n i : ℕ) (S : Finset ℕ) : List ℕ := (List.range' (i + 1) (n - i - 1)).filter (· ∈ S)

theorem encTuple_split {n i : ℕ} (hi : i < n) (S : Finset ℕ) :
    encTuple n S = encTuple i S ++ ((if i ∈ S then [i] else []) ++ encAbove n i S) := by
  have h : List.range n = List.range i ++ ([i] ++ List.range' (i + 1) (n - i - 1)) := by
    rw [List.range_eq_range', List.range_eq_range',
      show n = i + (1 + (n - i - 1)) by omega, ← List.range'_append, ← List.range'_append]
    simp
  rw [encTuple, h, List.filter_append, List.filter_append, encTuple, encAbove]
  congr 2
  by_cases hS : i ∈ S <;> simp [hS]

theorem lt_of_mem_encTuple {i y : ℕ} {S : Finset ℕ} (h : y ∈ encTuple i S) : y < i :=
  (mem_encTuple.1 h).1

theorem lt_of_mem_encAbove {n i y : ℕ} {S : Finset ℕ} (h : y ∈ encAbove n i S) : i < y := by
  simp only [encAbove, List.mem_filter, List.mem_range'_1] at h; omega

theorem encTuple_congr {n : ℕ} {S T : Finset ℕ} (h : ∀ k < n, k ∈ S ↔ k ∈ T) :
    encTuple n S = encTuple n T := by
  unfold encTuple
  apply List.filter_congr
  intro k hk
  simp [h k (List.mem_range.1 hk)]

theorem encAbove_congr {n i : ℕ} {S T : Finset ℕ} (h : ∀ k, i < k → (k ∈ S ↔ k ∈ T)) :
    encAbove n i S = encAbove n i T := by
  unfold encAbove
  apply List.filter_congr
  intro k hk
  rw [List.mem_range'_1] at hk
  simp [h k (by omega)]

theorem pyBound_nat (len k : ℕ) : pyBound len (k : Int) = min k len := by
  simp [pyBound]

theorem create_utuple_empty {n i : ℕ} (hi : i < n) {S : Finset ℕ} (h : i ∉ S) :
    Create.utuple i (encTuple n S) = (encTuple n (insert i S), sgn i S) := by
  have hs := encTuple_split hi S
  rw [if_neg h, List.nil_append] at hs
  have hb : bisectLeft (encTuple n S) i = below i S := by
    rw [hs, bisectLeft_eq _ _ _ (fun y hy => lt_of_mem_encTuple hy)
      (fun y hy => (lt_of_mem_encAbove hy).le), encTuple_length]
  have hj : Create.binarySearchBigger (encTuple n S) i = (below i S : Int) := by
    unfold Create.binarySearchBigger
    rw [hb]
    dsimp only
    rw [if_pos]
    right
    intro hc
    have := List.mem_of_getElem? hc
    rw [mem_encTuple] at this
    exact h this.2
  unfold Create.utuple
  rw [hj]
  dsimp only
  rw [if_pos (by omega)]
  congr 1
  · have hlen : below i S ≤ (encTuple n S).length := by
      rw [hs, List.length_append, encTuple_length]; omega
    rw [pySliceTo, pySliceFrom, pyBound_nat, min_eq_left hlen, encTuple_split hi (insert i S),
      if_pos (mem_insert_self i S), encTuple_congr (S := insert i S) (T := S),
      encAbove_congr (S := insert i S) (T := S)]
    · rw [hs, ← encTuple_length, List.take_left', List.drop_left']
      · simp
      · rfl
      · rfl
    · intro k hk; rw [mem_insert]; exact ⟨fun h => h.resolve_left (by omega), Or.inr⟩
    · intro k hk; rw [mem_insert]; exact ⟨fun h => h.resolve_left (by omega), Or.inr⟩
  · rw [← parityAmp_below, parityAmp]
    congr 1
    simp only [eq_iff_iff]; omega

theorem create_utuple_occ {n i : ℕ} (hi : i < n) {S : Finset ℕ} (h : i ∈ S) :
    Create.utuple i (encTuple n S) = ([], 0) := by
  have hs := encTuple_split hi S
  rw [if_pos h] at hs
  have hb : bisectLeft (encTuple n S) i = below i S := by
    rw [hs, bisectLeft_eq _ _ _ (fun y hy => lt_of_mem_encTuple hy), encTuple_length]
    intro y hy
    simp only [List.cons_append, List.nil_append, List.mem_cons] at hy
    rcases hy with rfl | hy
    · exact le_rfl
    · exact (lt_of_mem_encAbove hy).le
  have hj : Create.binarySearchBigger (encTuple n S) i = -1 := by
    unfold Create.binarySearchBigger
    rw [hb]
    dsimp only
    rw [if_neg]
    rintro (hc | hc)
    · have := congrArg List.length hs
      simp [encTuple_length] at this
      rw [encTuple_length] at hc
      omega
    · apply hc
      rw [hs, List.getElem?_append_right (by rw [encTuple_length]), encTuple_length]
      simp
  unfold Create.utuple
  rw [hj]
  simp

theorem remove_utuple_occ {n i : ℕ} (hi : i < n) {S : Finset ℕ} (h : i ∈ S) :
    Remove.utuple i (encTuple n S) = (encTuple n (S.erase i), sgn i S) := by
  have hs := encTuple_split hi S
  rw [if_pos h] at hs
  have hb : bisectLeft (encTuple n S) i = below i S := by
    rw [hs, bisectLeft_eq _ _ _ (fun y hy => lt_of_mem_encTuple hy), encTuple_length]
    intro y hy
    simp only [List.cons_append, List.nil_append, List.mem_cons] at hy
    rcases hy with rfl | hy
    · exact le_rfl
    · exact (lt_of_mem_encAbove hy).le
  have hlen : below i S < (encTuple n S).length := by
    rw [hs]; simp [encTuple_length]
  have hj : Remove.binarySearch (encTuple n S) i = (below i S : Int) := by
    unfold Remove.binarySearch
    rw [hb]
    dsimp only
    rw [if_pos]
    refine ⟨by omega, ?_⟩
    rw [hs, List.getElem?_append_right (by rw [encTuple_length]), encTuple_length]
    simp
  unfold Remove.utuple
  rw [hj]
  dsimp only
  rw [if_pos (by omega)]
  congr 1
  · rw [pySliceTo, pySliceFrom, pyBound_nat, min_eq_left hlen.le,
      show ((below i S : Int) + 1) = ((below i S + 1 : ℕ) : Int) by push_cast; rfl, pyBound_nat,
      min_eq_left (by omega), encTuple_split hi (S.erase i),
      if_neg (notMem_erase i S), encTuple_congr (S := S.erase i) (T := S),
      encAbove_congr (S := S.erase i) (T := S)]
    · rw [hs, ← encTuple_length, List.take_left', List.drop_append]
      · simp
      · rfl
    · intro k hk; rw [mem_erase]; exact ⟨fun h => h.2, fun h => ⟨by omega, h⟩⟩
    · intro k hk; rw [mem_erase]; exact ⟨fun h => h.2, fun h => ⟨by omega, h⟩⟩
  · rw [← parityAmp_below, parityAmp]
    congr 1
    simp only [eq_iff_iff]; omega

theorem remove_utuple_empty {n i : ℕ} (_hi : i < n) {S : Finset ℕ} (h : i ∉ S) :
    Remove.utuple i (encTuple n S) = ([], 0) := by
  have hj : Remove.binarySearch (encTuple n S) i = -1 := by
    unfold Remove.binarySearch
    dsimp only
    rw [if_neg]
    rintro ⟨_, hc⟩
    have := List.mem_of_getElem? hc
    rw [mem_encTuple] at this
    exact h this.2
  unfold Remove.utuple
  rw [hj]
  simp

/-! ### int -/

theorem testBit_encInt (n : ℕ) (S : Finset ℕ) (k : ℕ) :
    (encInt n S).testBit k = decide (k < n ∧ n - 1 - k ∈ S) := by
  induction n generalizing k with
  | zero => simp [encInt]
  | succ n ih =>
    rw [encInt_succ]
    cases k with
    | zero =>
      rw [Nat.testBit_zero]
      by_cases h : n ∈ S <;> simp [h, Nat.add_mod]
    | succ k =>
      rw [Nat.testBit_succ, show (2 * encInt n S + if n ∈ S then 1 else 0) / 2 = encInt n S by
        split <;> omega, ih]
      congr 1
      rw [eq_iff_iff, show n + 1 - 1 - (k + 1) = n - 1 - k by omega]
      constructor <;> rintro ⟨h1, h2⟩ <;> exact ⟨by omega, h2⟩

theorem bitCount_bit (x b : ℕ) (hb : b < 2) : bitCount (2 * x + b) = bitCount x + b := by
  unfold bitCount
  interval_cases b
  · by_cases hx : x = 0
    · subst hx; simp
    · rw [show 2 * x + 0 = 2 * x by omega, Nat.bit0_bits x hx]; simp
  · rw [Nat.bit1_bits]; simp

theorem bitCount_encInt (n : ℕ) (S : Finset ℕ) : bitCount (encInt n S) = below n S := by
  induction n with
  | zero => simp [encInt, bitCount, below_zero]
  | succ n ih => rw [encInt_succ, bitCount_bit _ _ (by split <;> omega), ih, below_succ]

theorem encInt_shiftRight {n i : ℕ} (hi : i < n) (S : Finset ℕ) :
    encInt n S >>> (n - 1 - i + 1) = encInt i S := by
  apply Nat.eq_of_testBit_eq
  intro k
  rw [Nat.testBit_shiftRight, testBit_encInt, testBit_encInt]
  congr 1
  rw [eq_iff_iff]
  constructor
  · rintro ⟨h1, h2⟩
    exact ⟨by omega, by rwa [show i - 1 - k = n - 1 - (n - 1 - i + 1 + k) by omega]⟩
  · rintro ⟨h1, h2⟩
    exact ⟨by omega, by rwa [show n - 1 - (n - 1 - i + 1 + k) = i - 1 - k by omega]⟩

theorem and_shift_ne_zero (x r : ℕ) : x &&& (1 <<< r) ≠ 0 ↔ x.testBit r = true := by
  rw [Nat.one_shiftLeft, Nat.and_two_pow]
  cases x.testBit r <;> simp

theorem encInt_testBit_self {n i : ℕ} (hi : i < n) (S : Finset ℕ) :
    (encInt n S).testBit (n - 1 - i) = decide (i ∈ S) := by
  rw [testBit_encInt]
  congr 1
  rw [show n - 1 - (n - 1 - i) = i by omega]
  simp; omega

theorem testBit_one_shiftLeft (r k : ℕ) : (1 <<< r).testBit k = decide (r = k) := by
  rw [Nat.one_shiftLeft, Nat.testBit_two_pow]

theorem encInt_or {n i : ℕ} (hi : i < n) (S : Finset ℕ) :
    encInt n S ||| (1 <<< (n - 1 - i)) = encInt n (insert i S) := by
  apply Nat.eq_of_testBit_eq
  intro k
  rw [Nat.testBit_or, testBit_one_shiftLeft, testBit_encInt, testBit_encInt, ← Bool.decide_or]
  congr 1
  rw [eq_iff_iff, mem_insert]
  constructor
  · rintro (⟨h1, h2⟩ | h)
    · exact ⟨h1, Or.inr h2⟩
    · exact ⟨by omega, Or.inl (by omega)⟩
  · rintro ⟨h1, h2 | h2⟩
    · right; omega
    · exact Or.inl ⟨h1, h2⟩

theorem encInt_ldiff {n i : ℕ} (hi : i < n) (S : Finset ℕ) :
    Nat.ldiff (encInt n S) (1 <<< (n - 1 - i)) = encInt n (S.erase i) := by
  apply Nat.eq_of_testBit_eq
  intro k
  rw [Nat.testBit_ldiff, testBit_one_shiftLeft, testBit_encInt, testBit_encInt, ← decide_not,
    ← Bool.decide_and]
  congr 1
  rw [eq_iff_iff, mem_erase]
  constructor
  · rintro ⟨⟨h1, h2⟩, h3⟩
    exact ⟨h1, by omega, h2⟩
  · rintro ⟨h1, h2, h3⟩
    exact ⟨⟨h1, h3⟩, by omega⟩

theorem iRight_eq {n i : ℕ} (hi : i < n) :
    ((n : Int) - 1 - (i : Int)) = ((n - 1 - i : ℕ) : Int) := by omega

theorem create_uint {n i : ℕ} (hi : i < n) (S : Finset ℕ) :
    Create.uint n i (encInt n S) =
      .ok (if i ∈ S then (-1, 0) else ((encInt n (insert i S) : Int), sgn i S)) := by
  unfold Create.uint
  dsimp only
  rw [iRight_eq hi, if_neg (by omega), Int.toNat_natCast]
  by_cases h : i ∈ S
  · rw [if_pos, if_pos h]
    rw [and_shift_ne_zero, encInt_testBit_self hi]; simpa
  · rw [if_neg, if_neg h, encInt_or hi, encInt_shiftRight hi, bitCount_encInt, parityAmp_below]
    rw [and_shift_ne_zero, encInt_testBit_self hi]; simpa

theorem remove_uint {n i : ℕ} (hi : i < n) (S : Finset ℕ) :
    Remove.uint n i (encInt n S) =
      .ok (if i ∈ S then ((encInt n (S.erase i) : Int), sgn i S) else (-1, 0)) := by
  unfold Remove.uint
  dsimp only
  rw [iRight_eq hi, if_neg (by omega), Int.toNat_natCast]
  by_cases h : i ∈ S
  · rw [if_pos, if_pos h, encInt_ldiff hi, encInt_shiftRight hi, bitCount_encInt, parityAmp_below]
    rw [and_shift_ne_zero, encInt_testBit_self hi]; simpa
  · rw [if_neg, if_neg h]
    rw [and_shift_ne_zero, encInt_testBit_self hi]; simpa

/-! ### str and bitarray -/

theorem pyIndex_nat {len i : ℕ} (h : i < len) : pyIndex len (i : Int) = some i := by
  simp [pyIndex, h]

theorem pyGet_map {α : Type*} {n i : ℕ} (hi : i < n) (f : ℕ → α) :
    pyGet ((List.range n).map f) (i : Int) = .ok (f i) := by
  unfold pyGet
  rw [pyIndex_nat (by simpa using hi)]
  simp [hi]

theorem pySliceTo_map {α : Type*} {n i : ℕ} (hi : i < n) (f : ℕ → α) :
    pySliceTo ((List.range n).map f) (i : Int) = (List.range i).map f := by
  rw [pySliceTo, pyBound_nat, ← List.map_take, List.take_range]
  congr 2; simp; omega

theorem pySet_map {α : Type*} {n i : ℕ} (hi : i < n) (f : ℕ → α) (x : α) :
    pySet ((List.range n).map f) (i : Int) x
      = .ok ((List.range n).map fun k => if k = i then x else f k) := by
  unfold pySet
  rw [pyIndex_nat (by simpa using hi)]
  simp only [Except.ok.injEq]
  apply List.ext_getElem
  · simp
  · intro k h1 h2
    rw [List.getElem_set]
    by_cases hk : i = k
    · subst hk; simp
    · simp [hk, Ne.symm hk]

theorem splice_map {α : Type*} {n i : ℕ} (hi : i < n) (f : ℕ → α) (x : α) :
    pySliceTo ((List.range n).map f) (i : Int) ++ [x] ++ pySliceFrom ((List.range n).map f) ((i : Int) + 1)
      = (List.range n).map fun k => if k = i then x else f k := by
  rw [pySliceFrom, show ((i : Int) + 1) = ((i + 1 : ℕ) : Int) by push_cast; rfl, pyBound_nat,
    pySliceTo, pyBound_nat]
  have h := pySet_map hi f x
  unfold pySet at h
  rw [pyIndex_nat (by simpa using hi)] at h
  simp only [Except.ok.injEq] at h
  rw [← h, List.set_eq_take_append_cons_drop, if_pos (by simpa using hi), min_eq_left (by simp; omega),
    min_eq_left (by simp; omega)]
  simp

theorem count_encStr (n : ℕ) (S : Finset ℕ) : (encStr n S).count '1' = below n S := by
  induction n with
  | zero => simp [encStr, below_zero]
  | succ n ih =>
    rw [encStr_succ, List.count_append, ih, below_succ]
    by_cases h : n ∈ S <;> simp [h]

theorem encBits_succ (n : ℕ) (S : Finset ℕ) :
    encBits (n + 1) S = encBits n S ++ [decide (n ∈ S)] := by
  rw [encBits, List.range_succ, List.map_append, ← encBits]; rfl

theorem count_encBits (n : ℕ) (S : Finset ℕ) : (encBits n S).count true = below n S := by
  induction n with
  | zero => simp [encBits, below_zero]
  | succ n ih =>
    rw [encBits_succ, List.count_append, ih, below_succ]
    by_cases h : n ∈ S <;> simp [h]

theorem map_insert_str {n i : ℕ} (S : Finset ℕ) :
    ((List.range n).map fun k => if k = i then '1' else if k ∈ S then '1' else '0')
      = encStr n (insert i S) := by
  unfold encStr
  apply List.map_congr_left
  intro k _
  by_cases hk : k = i
  · simp [hk]
  · simp [hk]

theorem map_erase_str {n i : ℕ} (S : Finset ℕ) :
    ((List.range n).map fun k => if k = i then '0' else if k ∈ S then '1' else '0')
      = encStr n (S.erase i) := by
  unfold encStr
  apply List.map_congr_left
  intro k _
  by_cases hk : k = i
  · simp [hk]
  · simp [hk]

theorem create_ustr {n i : ℕ} (hi : i < n) (S : Finset ℕ) :
    Create.ustr i (encStr n S) = .ok (if i ∈ S then ([], 0) else (encStr n (insert i S), sgn i S)) := by
  unfold Create.ustr
  have h1 := pyGet_map hi (fun k => if k ∈ S then '1' else '0')
  have h2 := splice_map hi (fun k => if k ∈ S then '1' else '0') '1'
  have h3 := pySliceTo_map hi (fun k => if k ∈ S then '1' else '0')
  rw [← encStr] at h1 h2 h3
  rw [← encStr] at h3
  rw [h1, h2, h3, count_encStr, parityAmp_below, map_insert_str]
  by_cases h : i ∈ S <;> simp [h, bind, Except.bind, pure, Except.pure]

theorem remove_ustr {n i : ℕ} (hi : i < n) (S : Finset ℕ) :
    Remove.ustr i (encStr n S) = .ok (if i ∈ S then (encStr n (S.erase i), sgn i S) else ([], 0)) := by
  unfold Remove.ustr
  have h1 := pyGet_map hi (fun k => if k ∈ S then '1' else '0')
  have h2 := splice_map hi (fun k => if k ∈ S then '1' else '0') '0'
  have h3 := pySliceTo_map hi (fun k => if k ∈ S then '1' else '0')
  rw [← encStr] at h1 h2 h3
  rw [← encStr] at h3
  rw [h1, h2, h3, count_encStr, parityAmp_below, map_erase_str]
  by_cases h : i ∈ S <;> simp [h, bind, Except.bind, pure, Except.pure]

theorem map_insert_bits {n i : ℕ} (S : Finset ℕ) :
    ((List.range n).map fun k => if k = i then true else decide (k ∈ S)) = encBits n (insert i S) := by
  unfold encBits
  apply List.map_congr_left
  intro k _
  by_cases hk : k = i
  · simp [hk]
  · simp [hk]

theorem map_erase_bits {n i : ℕ} (S : Finset ℕ) :
    ((List.range n).map fun k => if k = i then false else decide (k ∈ S)) = encBits n (S.erase i) := by
  unfold encBits
  apply List.map_congr_left
  intro k _
  by_cases hk : k = i
  · simp [hk]
  · simp [hk]

theorem below_insert_self (i : ℕ) (S : Finset ℕ) : below i (insert i S) = below i S := by
  unfold below
  congr 1
  ext k
  simp only [mem_filter, mem_insert]
  constructor
  · rintro ⟨rfl | h, h2⟩
    · omega
    · exact ⟨h, h2⟩
  · rintro ⟨h, h2⟩; exact ⟨Or.inr h, h2⟩

theorem below_erase_self (i : ℕ) (S : Finset ℕ) : below i (S.erase i) = below i S := by
  unfold below
  congr 1
  ext k
  simp only [mem_filter, mem_erase]
  constructor
  · rintro ⟨⟨_, h⟩, h2⟩; exact ⟨h, h2⟩
  · rintro ⟨h, h2⟩; exact ⟨⟨by omega, h⟩, h2⟩

theorem create_ubitarray {n i : ℕ} (hi : i < n) (S : Finset ℕ) :
    Create.ubitarray i (encBits n S) =
      .ok (if i ∈ S then (encBits n S, 0) else (encBits n (insert i S), sgn i S)) := by
  unfold Create.ubitarray
  have h1 := pyGet_map hi (fun k => decide (k ∈ S))
  have h2 := pySet_map hi (fun k => decide (k ∈ S)) true
  have h3 := pySliceTo_map hi (fun k => decide (k ∈ insert i S))
  rw [← encBits] at h1 h2 h3
  rw [← encBits] at h3
  rw [map_insert_bits] at h2
  rw [h1, h2]
  by_cases h : i ∈ S
  · simp [h, bind, Except.bind, pure, Except.pure]
  · simp [h, bind, Except.bind, pure, Except.pure, h3, count_encBits, below_insert_self, parityAmp_below]

theorem remove_ubitarray {n i : ℕ} (hi : i < n) (S : Finset ℕ) :
    Remove.ubitarray i (encBits n S) =
      .ok (if i ∈ S then (encBits n (S.erase i), sgn i S) else (encBits n S, 0)) := by
  unfold Remove.ubitarray
  have h1 := pyGet_map hi (fun k => decide (k ∈ S))
  have h2 := pySet_map hi (fun k => decide (k ∈ S)) false
  have h3 := pySliceTo_map hi (fun k => decide (k ∈ S.erase i))
  rw [← encBits] at h1 h2 h3
  rw [← encBits] at h3
  rw [map_erase_bits] at h2
  rw [h1, h2]
  by_cases h : i ∈ S
  · simp [h, bind, Except.bind, pure, Except.pure, h3, count_encBits, below_erase_self, parityAmp_below]
  · simp [h, bind, Except.bind, pure, Except.pure]

theorem create_ubytes {n i : ℕ} (hi : i < n) (S : Finset ℕ) :
    Create.ubytes n i (encBytes n S) =
      .ok (if i ∈ S then (encBytes n S, 0) else (encBytes n (insert i S), sgn i S)) := by
  unfold Create.ubytes
  dsimp only
  rw [bytes2bitarray_encBytes, create_ubitarray hi]
  by_cases h : i ∈ S <;>
    simp [h, bind, Except.bind, pure, Except.pure, bitarray2bytes, tobytes_encBits]

theorem remove_ubytes {n i : ℕ} (hi : i < n) (S : Finset ℕ) :
    Remove.ubytes n i (encBytes n S) =
      .ok (if i ∈ S then (encBytes n (S.erase i), sgn i S) else (encBytes n S, 0)) := by
  unfold Remove.ubytes
  dsimp only
  rw [bytes2bitarray_encBytes, remove_ubitarray hi]
  by_cases h : i ∈ S <;>
    simp [h, bind, Except.bind, pure, Except.pure, bitarray2bytes, tobytes_encBits]

end Verif
