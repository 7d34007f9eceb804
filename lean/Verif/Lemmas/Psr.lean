import Verif.Model.Psr
import Verif.Spec.Encoding
import Mathlib.Algebra.BigOperators.Intervals
import Mathlib.Algebra.BigOperators.Ring.Finset
import Mathlib.Tactic.Ring
import Mathlib.Tactic.Linarith

namespace Verif.Psr

open Finset Verif.Spec

theorem tuple2str_eq_map (t : List ℕ) (n : ℕ) :
    tuple2str t n = (List.range n).map fun i => if i ∈ t then '1' else '0' := by
  unfold tuple2str
  induction n with
  | zero => rfl
  | succ n ih =>
    rw [List.range_succ, List.foldl_append, ih]
    simp only [List.foldl_cons, List.foldl_nil, List.map_append, List.map_cons, List.map_nil]
    split <;> rfl

theorem tuple2str_eq (t : List ℕ) (n : ℕ) (S : Finset ℕ) (h : ∀ i < n, i ∈ t ↔ i ∈ S) :
    tuple2str t n = encStr n S := by
  rw [tuple2str_eq_map, encStr]
  apply List.map_congr_left
  intro i hi
  rw [List.mem_range] at hi
  simp [h i hi]

theorem mem_encTuple {n : ℕ} {S : Finset ℕ} {i : ℕ} : i ∈ encTuple n S ↔ i < n ∧ i ∈ S := by
  simp [encTuple]

theorem encTuple_succ (n : ℕ) (S : Finset ℕ) :
    encTuple (n + 1) S = encTuple n S ++ (if n ∈ S then [n] else []) := by
  rw [encTuple, List.range_succ, List.filter_append, ← encTuple]
  congr 1
  by_cases h : n ∈ S <;> simp [h]

theorem encStr_succ (n : ℕ) (S : Finset ℕ) :
    encStr (n + 1) S = encStr n S ++ [if n ∈ S then '1' else '0'] := by
  rw [encStr, List.range_succ, List.map_append, ← encStr]; rfl

@[simp] theorem encStr_length (n : ℕ) (S : Finset ℕ) : (encStr n S).length = n := by
  simp [encStr]

@[simp] theorem encBits_length (n : ℕ) (S : Finset ℕ) : (encBits n S).length = n := by
  simp [encBits]

theorem str2tuple_append_singleton (s : List Char) (c : Char) :
    str2tuple (s ++ [c]) = str2tuple s ++ (if c = '1' then [s.length] else []) := by
  unfold str2tuple
  rw [List.zipIdx_append, List.filterMap_append]
  congr 1
  simp only [List.zipIdx_cons, List.zipIdx_nil, List.filterMap_cons, List.filterMap_nil]
  by_cases h : c = '1' <;> simp [h]

theorem str2tuple_encStr (n : ℕ) (S : Finset ℕ) : str2tuple (encStr n S) = encTuple n S := by
  induction n with
  | zero => rfl
  | succ n ih =>
    rw [encStr_succ, str2tuple_append_singleton, ih, encTuple_succ, encStr_length]
    congr 1
    by_cases h : n ∈ S <;> simp [h]

theorem encInt_succ (n : ℕ) (S : Finset ℕ) :
    encInt (n + 1) S = 2 * encInt n S + (if n ∈ S then 1 else 0) := by
  rw [encInt, sum_range_succ, encInt, mul_sum]
  congr 1
  · apply sum_congr rfl
    intro i hi
    rw [mem_range] at hi
    split
    · rw [show n + 1 - 1 - i = (n - 1 - i) + 1 by omega, pow_succ]; ring
    · rfl
  · simp

theorem encInt_lt (n : ℕ) (S : Finset ℕ) : encInt n S < 2 ^ n := by
  induction n with
  | zero => simp [encInt]
  | succ n ih => rw [encInt_succ, pow_succ]; split <;> omega

theorem intBase2_append_singleton (s : List Char) (c : Char) (acc v b : ℕ)
    (h : intBase2 acc s = .ok v) (hb : bitVal c = some b) :
    intBase2 acc (s ++ [c]) = .ok (2 * v + b) := by
  induction s generalizing acc with
  | nil =>
    simp only [intBase2, Except.ok.injEq] at h
    simp [intBase2, hb, h]
  | cons d s ih =>
    simp only [List.cons_append, intBase2] at h ⊢
    cases hd : bitVal d with
    | none => rw [hd] at h; simp at h
    | some e => rw [hd] at h; exact ih _ h

theorem intBase2_encStr (n : ℕ) (S : Finset ℕ) : intBase2 0 (encStr n S) = .ok (encInt n S) := by
  induction n with
  | zero => rfl
  | succ n ih =>
    rw [encStr_succ, encInt_succ]
    apply intBase2_append_singleton _ _ _ _ _ ih
    by_cases h : n ∈ S <;> simp [h, bitVal]

theorem str2int_encStr {n : ℕ} (hn : 0 < n) (S : Finset ℕ) :
    str2int (encStr n S) = .ok (encInt n S) := by
  have h : encStr n S ≠ [] := by
    intro h; have := encStr_length n S; rw [h] at this; simp at this; omega
  rw [str2int, if_neg h, intBase2_encStr]

/-- `bin` of a number with its last bit split off, padded. -/
theorem int2str_bit {n : ℕ} (hn : 0 < n) (x b : ℕ) (hb : b < 2) :
    int2str (2 * x + b) (n + 1) = int2str x n ++ [if b = 0 then '0' else '1'] := by
  unfold int2str
  by_cases hx : x = 0
  · subst hx
    have h0 : 2 * 0 + b = b := by omega
    have hz : binDigits 0 = ['0'] := by rw [binDigits]; rfl
    have hbb : binDigits b = [if b = 0 then '0' else '1'] := by rw [binDigits, if_pos hb]
    rw [h0, hz, hbb]
    simp only [List.length_singleton]
    rw [show n + 1 - 1 = (n - 1) + 1 by omega, List.replicate_succ']
  · rw [binDigits, if_neg (by omega)]
    have h1 : (2 * x + b) / 2 = x := by omega
    have h2 : (2 * x + b) % 2 = b := by omega
    simp only [h1, h2, List.length_append, List.length_singleton, ← List.append_assoc]
    rw [show n + 1 - ((binDigits x).length + 1) = n - (binDigits x).length by omega]

theorem int2str_encInt {n : ℕ} (hn : 0 < n) (S : Finset ℕ) :
    int2str (encInt n S) n = encStr n S := by
  induction n with
  | zero => omega
  | succ n ih =>
    by_cases h0 : n = 0
    · subst h0
      rw [encInt_succ, encStr_succ]
      by_cases h : 0 ∈ S <;> simp [h, encInt, encStr, int2str, binDigits]
    · rw [encInt_succ, encStr_succ, int2str_bit (by omega) _ _ (by split <;> omega), ih (by omega)]
      congr 2
      by_cases h : n ∈ S <;> simp [h]

theorem to01_encBits (n : ℕ) (S : Finset ℕ) : to01 (encBits n S) = encStr n S := by
  simp [to01, encBits, encStr]

theorem bitarrayOfStr_encStr (n : ℕ) (S : Finset ℕ) :
    bitarrayOfStr (encStr n S) = .ok (encBits n S) := by
  unfold bitarrayOfStr encStr encBits
  induction (List.range n) with
  | nil => rfl
  | cons i l ih =>
    rw [List.map_cons, List.mapM_cons, ih]
    by_cases h : i ∈ S <;> simp [h, bind, Except.bind, pure, Except.pure]

/-! ### bytes -/

theorem unpack_pack8 : ∀ b0 b1 b2 b3 b4 b5 b6 b7 : Bool,
    unpackByte (packByte [b0, b1, b2, b3, b4, b5, b6, b7]) = [b0, b1, b2, b3, b4, b5, b6, b7] := by
  decide

theorem packByte_eq_sum (b : List Bool) :
    packByte b = UInt8.ofNat (∑ j ∈ range 8, if b.getD j false then 2 ^ (7 - j) else 0) := by
  unfold packByte
  congr 1
  simp only [show List.range 8 = [0, 1, 2, 3, 4, 5, 6, 7] from rfl, List.foldl_cons, List.foldl_nil,
    sum_range_succ, sum_range_zero]
  generalize b.getD 0 false = b0
  generalize b.getD 1 false = b1
  generalize b.getD 2 false = b2
  generalize b.getD 3 false = b3
  generalize b.getD 4 false = b4
  generalize b.getD 5 false = b5
  generalize b.getD 6 false = b6
  generalize b.getD 7 false = b7
  revert b0 b1 b2 b3 b4 b5 b6 b7
  decide

theorem packByte_congr (b c : List Bool) (h : ∀ j < 8, b.getD j false = c.getD j false) :
    packByte b = packByte c := by
  rw [packByte_eq_sum, packByte_eq_sum]
  congr 1
  apply sum_congr rfl
  intro j hj
  rw [h j (mem_range.1 hj)]

theorem unpack_packByte (b : List Bool) :
    unpackByte (packByte b) = (List.range 8).map fun j => b.getD j false := by
  rw [packByte_congr b ((List.range 8).map fun j => b.getD j false)]
  · exact unpack_pack8 _ _ _ _ _ _ _ _
  · intro j hj
    rw [List.getD_eq_getElem?_getD (l := List.map _ _), List.getElem?_map, List.getElem?_range hj]
    rfl

theorem tobytes_eq (b : List Bool) :
    tobytes b = (List.range ((b.length + 7) / 8)).map fun k => packByte ((b.drop (8 * k)).take 8) := rfl

theorem encBits_getD (n : ℕ) (S : Finset ℕ) (i : ℕ) :
    (encBits n S).getD i false = decide (i < n ∧ i ∈ S) := by
  rw [List.getD_eq_getElem?_getD, encBits, List.getElem?_map]
  by_cases h : i < n
  · rw [List.getElem?_range h]; simp [h]
  · rw [List.getElem?_eq_none (by simpa using h)]; simp [h]

theorem tobytes_encBits (n : ℕ) (S : Finset ℕ) : tobytes (encBits n S) = encBytes n S := by
  rw [tobytes_eq, encBits_length, encBytes]
  apply List.map_congr_left
  intro k _
  rw [packByte_eq_sum]
  congr 1
  apply sum_congr rfl
  intro j hj
  have hj' := mem_range.1 hj
  have : (((encBits n S).drop (8 * k)).take 8).getD j false = (encBits n S).getD (8 * k + j) false := by
    simp only [List.getD_eq_getElem?_getD, List.getElem?_take, List.getElem?_drop, hj', if_true]
  rw [this, encBits_getD]
  simp

theorem flatMap_range8 {α : Type*} (f : ℕ → α) (m : ℕ) :
    ((List.range m).flatMap fun k => (List.range 8).map fun j => f (8 * k + j))
      = (List.range (8 * m)).map f := by
  induction m with
  | zero => rfl
  | succ m ih =>
    rw [List.range_succ (n := m), List.flatMap_append, ih, show 8 * (m + 1) = 8 * m + 8 by ring,
      List.range_add, List.map_append]
    congr 1

theorem frombytes_encBytes (n : ℕ) (S : Finset ℕ) :
    frombytes (encBytes n S)
      = (List.range (8 * ((n + 7) / 8))).map fun i => decide (i < n ∧ i ∈ S) := by
  rw [← tobytes_encBits, tobytes_eq, encBits_length, frombytes, List.flatMap_map,
    ← flatMap_range8]
  congr 1
  funext k
  rw [unpack_packByte]
  apply List.map_congr_left
  intro j hj
  rw [List.mem_range] at hj
  have : (((encBits n S).drop (8 * k)).take 8).getD j false = (encBits n S).getD (8 * k + j) false := by
    simp only [List.getD_eq_getElem?_getD, List.getElem?_take, List.getElem?_drop, hj, if_true]
  rw [this, encBits_getD]

theorem bytes2bitarray_encBytes (n : ℕ) (S : Finset ℕ) :
    bytes2bitarray (encBytes n S) n = encBits n S := by
  rw [bytes2bitarray, frombytes_encBytes, ← List.map_take, List.take_range,
    show min n (8 * ((n + 7) / 8)) = n by omega, encBits]
  apply List.map_congr_left
  intro i hi
  rw [List.mem_range] at hi
  simp [hi]

theorem encBits_injOn {n : ℕ} {S T : Finset ℕ} (hS : S ⊆ range n) (hT : T ⊆ range n)
    (h : encBits n S = encBits n T) : S = T := by
  have key : ∀ i, (encBits n S).getD i false = (encBits n T).getD i false := by rw [h]; simp
  ext i
  have := key i
  rw [encBits_getD, encBits_getD] at this
  constructor
  · intro hi
    have hn := mem_range.1 (hS hi)
    simpa [hn, hi] using this
  · intro hi
    have hn := mem_range.1 (hT hi)
    simpa [hn, hi] using this

theorem encBytes_injOn {n : ℕ} {S T : Finset ℕ} (hS : S ⊆ range n) (hT : T ⊆ range n)
    (h : encBytes n S = encBytes n T) : S = T := by
  apply encBits_injOn hS hT
  rw [← bytes2bitarray_encBytes, h, bytes2bitarray_encBytes]

end Verif.Psr
