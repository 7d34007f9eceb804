/-
C04, C05: creating and removing one electron in the five formats.
-/
import Verif.Lemmas.CreateRemove

namespace Verif

open Finset Psr Spec

/-- C04.  Creating an electron in an empty spin-orbital `i < n`: all five
formats give the state that additionally occupies `i`, with the fermionic sign. -/
theorem C04_create_empty (n i : ℕ) (hi : i < n) (S : Finset ℕ) (h : i ∉ S) :
    Create.utuple i (encTuple n S) = (encTuple n (insert i S), sgn i S) ∧
    Create.uint n i (encInt n S) = .ok ((encInt n (insert i S) : ℤ), sgn i S) ∧
    Create.ustr i (encStr n S) = .ok (encStr n (insert i S), sgn i S) ∧
    Create.ubitarray i (encBits n S) = .ok (encBits n (insert i S), sgn i S) ∧
    Create.ubytes n i (encBytes n S) = .ok (encBytes n (insert i S), sgn i S) := by
  refine ⟨create_utuple_empty hi h, ?_, ?_, ?_, ?_⟩
  · rw [create_uint hi, if_neg h]
  · rw [create_ustr hi, if_neg h]
  · rw [create_ubitarray hi, if_neg h]
  · rw [create_ubytes hi, if_neg h]

/-- C04.  Creating an electron in an occupied spin-orbital: amplitude 0 and the
documented dummy states; bitarray and bytes are left unchanged. -/
theorem C04_create_occupied (n i : ℕ) (hi : i < n) (S : Finset ℕ) (h : i ∈ S) :
    Create.utuple i (encTuple n S) = ([], 0) ∧
    Create.uint n i (encInt n S) = .ok (-1, 0) ∧
    Create.ustr i (encStr n S) = .ok ([], 0) ∧
    Create.ubitarray i (encBits n S) = .ok (encBits n S, 0) ∧
    Create.ubytes n i (encBytes n S) = .ok (encBytes n S, 0) := by
  refine ⟨create_utuple_occ hi h, ?_, ?_, ?_, ?_⟩
  · rw [create_uint hi, if_pos h]
  · rw [create_ustr hi, if_pos h]
  · rw [create_ubitarray hi, if_pos h]
  · rw [create_ubytes hi, if_pos h]

/-- C05.  Removing an electron from an occupied spin-orbital `i < n`. -/
theorem C05_remove_occupied (n i : ℕ) (hi : i < n) (S : Finset ℕ) (h : i ∈ S) :
    Remove.utuple i (encTuple n S) = (encTuple n (S.erase i), sgn i S) ∧
    Remove.uint n i (encInt n S) = .ok ((encInt n (S.erase i) : ℤ), sgn i S) ∧
    Remove.ustr i (encStr n S) = .ok (encStr n (S.erase i), sgn i S) ∧
    Remove.ubitarray i (encBits n S) = .ok (encBits n (S.erase i), sgn i S) ∧
    Remove.ubytes n i (encBytes n S) = .ok (encBytes n (S.erase i), sgn i S) := by
  refine ⟨remove_utuple_occ hi h, ?_, ?_, ?_, ?_⟩
  · rw [remove_uint hi, if_pos h]
  · rw [remove_ustr hi, if_pos h]
  · rw [remove_ubitarray hi, if_pos h]
  · rw [remove_ubytes hi, if_pos h]

/-- C05.  Removing an electron from an empty spin-orbital: amplitude 0. -/
theorem C05_remove_empty (n i : ℕ) (hi : i < n) (S : Finset ℕ) (h : i ∉ S) :
    Remove.utuple i (encTuple n S) = ([], 0) ∧
    Remove.uint n i (encInt n S) = .ok (-1, 0) ∧
    Remove.ustr i (encStr n S) = .ok ([], 0) ∧
    Remove.ubitarray i (encBits n S) = .ok (encBits n S, 0) ∧
    Remove.ubytes n i (encBytes n S) = .ok (encBytes n S, 0) := by
  refine ⟨remove_utuple_empty hi h, ?_, ?_, ?_, ?_⟩
  · rw [remove_uint hi, if_neg h]
  · rw [remove_ustr hi, if_neg h]
  · rw [remove_ubitarray hi, if_neg h]
  · rw [remove_ubytes hi, if_neg h]

theorem pyGet_ge {α : Type*} (l : List α) (i : ℕ) (h : l.length ≤ i) :
    pyGet l (i : Int) = .error .indexError := by
  unfold pyGet pyIndex
  have : ¬ ((i : Int) < l.length) := by omega
  simp [this]

/-- C04/C05, spin-orbitals outside of the system (`i ≥ n`) are rejected by all
formats that know the system size. -/
theorem C04_C05_index_too_big (n i : ℕ) (hi : n ≤ i) (S : Finset ℕ) :
    Create.uint n i (encInt n S) = .error .valueError ∧
    Create.ustr i (encStr n S) = .error .indexError ∧
    Create.ubitarray i (encBits n S) = .error .indexError ∧
    Create.ubytes n i (encBytes n S) = .error .indexError ∧
    Remove.uint n i (encInt n S) = .error .valueError ∧
    Remove.ustr i (encStr n S) = .error .indexError ∧
    Remove.ubitarray i (encBits n S) = .error .indexError ∧
    Remove.ubytes n i (encBytes n S) = .error .indexError := by
  have h1 := pyGet_ge (encStr n S) i (by simpa)
  have h2 := pyGet_ge (encBits n S) i (by simpa)
  have hneg : (n : Int) - 1 - i < 0 := by omega
  refine ⟨?_, ?_, ?_, ?_, ?_, ?_, ?_, ?_⟩
  · simp [Create.uint, hneg]
  · simp [Create.ustr, h1, bind, Except.bind]
  · simp [Create.ubitarray, h2, bind, Except.bind]
  · simp [Create.ubytes, bytes2bitarray_encBytes, Create.ubitarray, h2, bind, Except.bind]
  · simp [Remove.uint, hneg]
  · simp [Remove.ustr, h1, bind, Except.bind]
  · simp [Remove.ubitarray, h2, bind, Except.bind]
  · simp [Remove.ubytes, bytes2bitarray_encBytes, Remove.ubitarray, h2, bind, Except.bind]

/-- C04/C05.  Removing what was created (and creating what was removed) gives
back the state, with total amplitude `+1`. -/
theorem C04_C05_inverse (n i : ℕ) (hi : i < n) (S : Finset ℕ) :
    (i ∉ S → ∃ s a b, Create.ubytes n i (encBytes n S) = .ok (s, a) ∧
      Remove.ubytes n i s = .ok (encBytes n S, b) ∧ a * b = 1) ∧
    (i ∈ S → ∃ s a b, Remove.ubytes n i (encBytes n S) = .ok (s, a) ∧
      Create.ubytes n i s = .ok (encBytes n S, b) ∧ a * b = 1) := by
  have hsq : sgn i S * sgn i S = 1 := by
    rw [sgn, ← pow_add, ← two_mul, pow_mul]; simp
  constructor
  · intro h
    refine ⟨_, _, _, (C04_create_empty n i hi S h).2.2.2.2, ?_, hsq⟩
    rw [remove_ubytes hi, if_pos (mem_insert_self i S), erase_insert h, sgn, below_insert_self, sgn]
  · intro h
    refine ⟨_, _, _, (C05_remove_occupied n i hi S h).2.2.2.2, ?_, hsq⟩
    rw [create_ubytes hi, if_neg (notMem_erase i S), insert_erase h, sgn, below_erase_self, sgn]

/-- A negative index is not rejected: on strings `create.ustr(-1, ·)` returns a
string of twice the length, which is no product state of the system.  (The code
never passes negative indices; this documents why the theorems need `0 ≤ i`.) -/
theorem create_ustr_negative_corrupts (n : ℕ) (S : Finset ℕ) (hn : n ∉ S) :
    ∃ s a, Create.ustr (-1) (encStr (n + 1) S) = .ok (s, a) ∧ s.length = 2 * (n + 1) := by
  have hget : pyGet (encStr (n + 1) S) (-1) = .ok '0' := by
    have h1 : pyIndex (encStr (n + 1) S).length (-1) = some n := by
      simp [pyIndex]
    unfold pyGet
    rw [h1, encStr_succ, if_neg hn]
    simp
  refine ⟨pySliceTo (encStr (n + 1) S) (-1) ++ ['1'] ++ pySliceFrom (encStr (n + 1) S) (-1 + 1),
    parityAmp ((pySliceTo (encStr (n + 1) S) (-1)).count '1'), ?_, ?_⟩
  · simp [Create.ustr, hget, bind, Except.bind, pure, Except.pure]
  · simp [pySliceTo, pySliceFrom, pyBound]; omega

/-! Non-vacuity: a 10-orbital system with orbitals 2, 5, 9 occupied. -/
example : Create.ubytes 10 7 (encBytes 10 {2, 5, 9}) = .ok (encBytes 10 {2, 5, 7, 9}, 1) := by decide
example : Create.ubytes 10 3 (encBytes 10 {2, 5, 9}) = .ok (encBytes 10 {2, 3, 5, 9}, -1) := by decide
example : Remove.ubytes 10 9 (encBytes 10 {2, 5, 9}) = .ok (encBytes 10 {2, 5}, 1) := by decide
example : (7 : ℕ) < 10 ∧ 7 ∉ ({2, 5, 9} : Finset ℕ) ∧ 5 ∈ ({2, 5, 9} : Finset ℕ) := by decide

end Verif
