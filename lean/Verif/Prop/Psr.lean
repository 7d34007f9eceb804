/-
C01, C02, C03: the product-state formats.
-/
import Verif.Lemmas.PsrOrder

namespace Verif

open Finset Psr Spec

/-- C01.  Every conversion function maps the encoding of a set `S` of occupied
spin-orbitals to the encoding of the same set.  Functions that go through the
int format need `0 < n`. -/
theorem C01_conversions_agree (n : ℕ) (hn : 0 < n) (S : Finset ℕ) :
    str2int (encStr n S) = .ok (encInt n S) ∧
    int2str (encInt n S) n = encStr n S ∧
    str2tuple (encStr n S) = encTuple n S ∧
    tuple2str (encTuple n S) n = encStr n S ∧
    tuple2int (encTuple n S) n = .ok (encInt n S) ∧
    int2tuple (encInt n S) n = encTuple n S ∧
    bitarray2bytes (encBits n S) = encBytes n S ∧
    bytes2bitarray (encBytes n S) n = encBits n S ∧
    int2bitarray (encInt n S) n = .ok (encBits n S) ∧
    bitarray2int (encBits n S) = .ok (encInt n S) ∧
    bitarray2str (encBits n S) = encStr n S ∧
    str2bitarray (encStr n S) = .ok (encBits n S) ∧
    tuple2bitarray (encTuple n S) n = .ok (encBits n S) ∧
    bitarray2tuple (encBits n S) = encTuple n S ∧
    tuple2bytes (encTuple n S) n = .ok (encBytes n S) ∧
    bytes2tuple (encBytes n S) n = encTuple n S ∧
    str2bytes (encStr n S) = .ok (encBytes n S) ∧
    bytes2str (encBytes n S) n = encStr n S ∧
    int2bytes (encInt n S) n = .ok (encBytes n S) ∧
    bytes2int (encBytes n S) n = .ok (encInt n S) := by
  have ht : tuple2str (encTuple n S) n = encStr n S :=
    tuple2str_eq _ _ _ (fun i hi => by simp [mem_encTuple, hi])
  have hb := bytes2bitarray_encBytes n S
  have hsb := bitarrayOfStr_encStr n S
  refine ⟨str2int_encStr hn S, int2str_encInt hn S, str2tuple_encStr n S, ht, ?_, ?_,
    tobytes_encBits n S, hb, ?_, ?_, to01_encBits n S, hsb, ?_, ?_, ?_, ?_, ?_, ?_, ?_, ?_⟩
  · rw [tuple2int, ht, str2int_encStr hn]
  · rw [int2tuple, int2str_encInt hn, str2tuple_encStr]
  · rw [int2bitarray, int2str_encInt hn, hsb]
  · rw [bitarray2int, to01_encBits, str2int_encStr hn]
  · rw [tuple2bitarray, ht, hsb]
  · rw [bitarray2tuple, bitarray2str, to01_encBits, str2tuple_encStr]
  · rw [tuple2bytes, tuple2bitarray, ht, hsb]; simp [bind, Except.bind, pure, Except.pure, tobytes_encBits]
  · rw [bytes2tuple, hb, bitarray2tuple, bitarray2str, to01_encBits, str2tuple_encStr]
  · rw [str2bytes, str2bitarray, hsb]
    simp [bind, Except.bind, pure, Except.pure, bitarray2bytes, tobytes_encBits]
  · rw [bytes2str, hb, bitarray2str, to01_encBits]
  · rw [int2bytes, int2bitarray, int2str_encInt hn, hsb]
    simp [bind, Except.bind, pure, Except.pure, bitarray2bytes, tobytes_encBits]
  · rw [bytes2int, hb, bitarray2int, to01_encBits, str2int_encStr hn]

/-- C01, the empty system (`n = 0`): the formats that avoid `int` still agree,
`str2int` raises and `int2str` produces one character too many. -/
theorem C01_empty_system (S : Finset ℕ) :
    tuple2str (encTuple 0 S) 0 = encStr 0 S ∧
    bitarray2bytes (encBits 0 S) = encBytes 0 S ∧
    bytes2bitarray (encBytes 0 S) 0 = encBits 0 S ∧
    str2int (encStr 0 S) = .error .valueError ∧
    int2str (encInt 0 S) 0 ≠ encStr 0 S := by
  refine ⟨rfl, tobytes_encBits 0 S, bytes2bitarray_encBytes 0 S, rfl, ?_⟩
  simp [encInt, encStr, int2str, binDigits]

/-- C01.  Only strings of `0` and `1` are product states: `str2bitarray` and `str2bytes` raise a
`ValueError` for every other string, and so does `str2int`, which also refuses the empty string. -/
theorem C01_malformed (s : List Char) :
    ((∀ c ∈ s, c = '0' ∨ c = '1') →
      str2bitarray s = .ok (s.map (· == '1')) ∧
      str2bytes s = .ok (bitarray2bytes (s.map (· == '1'))) ∧
      (s ≠ [] → ∃ i, str2int s = .ok i ∧ i < 2 ^ s.length)) ∧
    ((∃ c ∈ s, c ≠ '0' ∧ c ≠ '1') →
      str2bitarray s = .error .valueError ∧ str2bytes s = .error .valueError ∧
      str2int s = .error .valueError) ∧
    str2int [] = .error .valueError := by
  have hb : ∀ c n, bitVal c = some n → n < 2 ∧ (c = '0' ∨ c = '1') := by
    intro c n h
    unfold bitVal at h
    split at h
    · exact ⟨by injection h; omega, Or.inl rfl⟩
    · exact ⟨by injection h; omega, Or.inr rfl⟩
    · cases h
  have hok : ∀ s : List Char, (∀ c ∈ s, c = '0' ∨ c = '1') →
      bitarrayOfStr s = .ok (s.map (· == '1')) := by
    intro s
    induction s with
    | nil => intro _; rfl
    | cons c s ih =>
      intro h
      have := ih fun d hd => h d (List.mem_cons_of_mem _ hd)
      unfold bitarrayOfStr at this ⊢
      rw [List.mapM_cons, this]
      rcases h c (List.mem_cons_self ..) with rfl | rfl <;> rfl
  have hbad : ∀ s : List Char, (∃ c ∈ s, c ≠ '0' ∧ c ≠ '1') →
      bitarrayOfStr s = .error .valueError := by
    intro s
    induction s with
    | nil => rintro ⟨c, hc, -⟩; cases hc
    | cons c s ih =>
      rintro ⟨d, hd, h0, h1⟩
      unfold bitarrayOfStr at ih ⊢
      rw [List.mapM_cons]
      rcases List.mem_cons.1 hd with rfl | hd
      · rw [if_neg h1, if_neg h0]; rfl
      · rw [ih ⟨d, hd, h0, h1⟩]
        split
        · rfl
        · split <;> rfl
  have iok : ∀ (s : List Char) (acc : ℕ), (∀ c ∈ s, c = '0' ∨ c = '1') →
      ∃ i, intBase2 acc s = .ok i ∧ i < (acc + 1) * 2 ^ s.length := by
    intro s
    induction s with
    | nil => intro acc _; exact ⟨acc, rfl, by simp⟩
    | cons c s ih =>
      intro acc h
      have hc := h c (List.mem_cons_self ..)
      have : ∃ b, bitVal c = some b := by
        rcases hc with rfl | rfl
        · exact ⟨0, rfl⟩
        · exact ⟨1, rfl⟩
      obtain ⟨b, hbc⟩ := this
      obtain ⟨i, hi, hlt⟩ := ih (2 * acc + b) fun d hd => h d (List.mem_cons_of_mem _ hd)
      refine ⟨i, by rw [intBase2, hbc]; exact hi, hlt.trans_le ?_⟩
      rw [List.length_cons, pow_succ, mul_comm (2 ^ s.length) 2, ← mul_assoc]
      exact Nat.mul_le_mul_right _ (by have := (hb c b hbc).1; omega)
  have ibad : ∀ (s : List Char) (acc : ℕ), (∃ c ∈ s, c ≠ '0' ∧ c ≠ '1') →
      intBase2 acc s = .error .valueError := by
    intro s
    induction s with
    | nil => rintro acc ⟨c, hc, -⟩; cases hc
    | cons c s ih =>
      rintro acc ⟨d, hd, h0, h1⟩
      rw [intBase2]
      cases hbc : bitVal c with
      | none => rfl
      | some b =>
        rcases List.mem_cons.1 hd with rfl | hd
        · rcases (hb d b hbc).2 with h | h
          · exact absurd h h0
          · exact absurd h h1
        · exact ih _ ⟨d, hd, h0, h1⟩
  refine ⟨fun h => ⟨hok s h, ?_, fun hne => ?_⟩, fun h => ⟨hbad s h, ?_, ?_⟩, rfl⟩
  · rw [str2bytes, str2bitarray, hok s h]; rfl
  · obtain ⟨i, hi, hlt⟩ := iok s 0 h
    exact ⟨i, by rw [str2int, if_neg hne]; exact hi, by simpa using hlt⟩
  · rw [str2bytes, str2bitarray, hbad s h]; rfl
  · have hne : s ≠ [] := by rintro rfl; obtain ⟨c, hc, -⟩ := h; cases hc
    rw [str2int, if_neg hne]
    exact ibad s 0 h

/-- C01.  An int that does not fit into `n` spin-orbitals is not cut: the string, and the bitarray,
have more than `n` entries, and the tuple is that of the longer string.  (The bytes can then be
read only with the longer length.) -/
theorem C01_int_too_big (i n : ℕ) (h : 2 ^ n ≤ i) :
    n < (int2str i n).length ∧ i < 2 ^ (int2str i n).length ∧
    str2int (int2str i n) = .ok i := by
  have hlen : ∀ i, 0 < i → 2 ^ ((binDigits i).length - 1) ≤ i ∧ i < 2 ^ (binDigits i).length ∧
      0 < (binDigits i).length := by
    intro i
    induction i using Nat.strong_induction_on with
    | _ i ih =>
      intro hi
      rw [binDigits]
      split
      next h2 =>
        have : i = 1 := by omega
        subst this
        simp
      next h2 =>
        obtain ⟨h1, h3, h4⟩ := ih (i / 2) (by omega) (by omega)
        rw [List.length_append, List.length_singleton, Nat.add_sub_cancel]
        have e : 2 ^ (binDigits (i / 2)).length = 2 * 2 ^ ((binDigits (i / 2)).length - 1) := by
          rw [← pow_succ']; congr 1; omega
        refine ⟨by omega, by rw [pow_succ]; omega, by omega⟩
  have hpos : 0 < i := lt_of_lt_of_le (Nat.two_pow_pos n) h
  obtain ⟨h1, h2, h3⟩ := hlen i hpos
  have hn : n < (binDigits i).length := by
    by_contra hc
    have := Nat.pow_le_pow_right (n := 2) (by norm_num) (Nat.le_of_not_lt hc)
    omega
  have he : int2str i n = binDigits i := by
    simp only [int2str]
    rw [Nat.sub_eq_zero_of_le hn.le]
    rfl
  have hrt : ∀ i, intBase2 0 (binDigits i) = .ok i := by
    intro i
    induction i using Nat.strong_induction_on with
    | _ i ih =>
      rw [binDigits]
      split
      next h2 =>
        have : i = 0 ∨ i = 1 := by omega
        rcases this with rfl | rfl <;> rfl
      next h2 =>
        rw [intBase2_append_singleton _ _ 0 (i / 2) (i % 2) (ih _ (by omega))]
        · congr 1; omega
        · have : i % 2 = 0 ∨ i % 2 = 1 := by omega
          rcases this with e | e <;> rw [e] <;> rfl
  rw [he]
  refine ⟨hn, h2, ?_⟩
  rw [str2int, if_neg, hrt]
  intro e
  rw [e] at h3
  simp at h3

example : str2int "0120".toList = .error .valueError ∧ str2bytes "0b1".toList = .error .valueError ∧
    str2bitarray "0110".toList = .ok [false, true, true, false] := by decide

/-- C01, the encodings exhaust the well-formed values of each format: strings
of `n` characters `0`/`1`, bitarrays of length `n`, ints below `2^n` and strictly
increasing tuples of indices below `n` are encodings of exactly one set. -/
theorem C01_encodings_exhaust (n : ℕ) :
    (∀ s : List Char, s.length = n → (∀ c ∈ s, c = '0' ∨ c = '1') →
      ∃! S : Finset ℕ, S ⊆ range n ∧ encStr n S = s) ∧
    (∀ b : List Bool, b.length = n → ∃! S : Finset ℕ, S ⊆ range n ∧ encBits n S = b) ∧
    (∀ x : ℕ, x < 2 ^ n → ∃! S : Finset ℕ, S ⊆ range n ∧ encInt n S = x) ∧
    (∀ t : List ℕ, t.Pairwise (· < ·) → (∀ i ∈ t, i < n) →
      ∃! S : Finset ℕ, S ⊆ range n ∧ encTuple n S = t) := by
  have hbits : ∀ b : List Bool, b.length = n → ∃ S : Finset ℕ, S ⊆ range n ∧ encBits n S = b := by
    intro b hb
    refine ⟨(range n).filter fun i => b.getD i false = true, filter_subset _ _, ?_⟩
    apply List.ext_getElem
    · simp [hb]
    · intro i h1 h2
      have hi : i < n := by simpa using h1
      simp [encBits, hi, h2]
  have hint : ∀ (m x : ℕ), x < 2 ^ m → ∃ S : Finset ℕ, S ⊆ range m ∧ encInt m S = x := by
    intro m
    induction m with
    | zero => intro x hx; exact ⟨∅, by simp, by simp [encInt]; simp at hx; exact hx.symm⟩
    | succ m ih =>
      intro x hx
      obtain ⟨S, hS, hv⟩ := ih (x / 2) (by rw [pow_succ] at hx; omega)
      have hm : m ∉ S := fun h => by have := mem_range.1 (hS h); omega
      by_cases hodd : x % 2 = 0
      · refine ⟨S, fun i hi => by have := mem_range.1 (hS hi); rw [mem_range]; omega, ?_⟩
        rw [encInt_succ, hv, if_neg hm]; omega
      · refine ⟨insert m S, ?_, ?_⟩
        · intro i hi
          rw [mem_insert] at hi
          rw [mem_range]
          rcases hi with rfl | hi
          · omega
          · have := mem_range.1 (hS hi); omega
        · rw [encInt_succ, if_pos (mem_insert_self _ _), encInt_congr (T := S), hv]
          · omega
          · intro i hi
            rw [mem_insert]
            constructor
            · rintro (rfl | h)
              · omega
              · exact h
            · exact Or.inr
  have hstr_bits : ∀ S T : Finset ℕ, encStr n S = encStr n T → encBits n S = encBits n T := by
    intro S T h
    have h1 := bitarrayOfStr_encStr n S
    rw [h, bitarrayOfStr_encStr] at h1
    simpa using h1.symm
  refine ⟨?_, ?_, ?_, ?_⟩
  · intro s hs hc
    obtain ⟨S, hS, hb⟩ := hbits (s.map (· == '1')) (by simpa using hs)
    have hSs : encStr n S = s := by
      rw [← to01_encBits, hb, to01, List.map_map]
      conv_rhs => rw [← List.map_id s]
      apply List.map_congr_left
      intro c hcs
      rcases hc c hcs with rfl | rfl <;> rfl
    refine ⟨S, ⟨hS, hSs⟩, ?_⟩
    rintro T ⟨hT, hTs⟩
    exact encBits_injOn hT hS (hstr_bits _ _ (by rw [hTs, hSs]))
  · intro b hb
    obtain ⟨S, hS, hv⟩ := hbits b hb
    exact ⟨S, ⟨hS, hv⟩, fun T ⟨hT, hv'⟩ => encBits_injOn hT hS (by rw [hv, hv'])⟩
  · intro x hx
    obtain ⟨S, hS, hv⟩ := hint n x hx
    refine ⟨S, ⟨hS, hv⟩, fun T ⟨hT, hv'⟩ => ?_⟩
    by_cases hn : 0 < n
    · apply encBits_injOn hT hS
      apply hstr_bits
      rw [← int2str_encInt hn, ← int2str_encInt hn, hv, hv']
    · have h0 : n = 0 := by omega
      subst h0
      simp only [range_zero, subset_empty] at hT hS
      rw [hT, hS]
  · intro t hp ht
    have hm : encTuple n t.toFinset = t := by
      apply List.Perm.eq_of_pairwise (le := (· < ·))
      · intro a b _ _ h1 h2; omega
      · exact List.Pairwise.filter _ List.pairwise_lt_range
      · exact hp
      · apply (List.perm_ext_iff_of_nodup (List.Nodup.filter _ List.nodup_range) _).2
        · intro i
          rw [← encTuple, mem_encTuple, List.mem_toFinset]
          exact ⟨fun h => h.2, fun h => ⟨ht i h, h⟩⟩
        · exact hp.imp (fun h => by omega)
    refine ⟨t.toFinset, ⟨fun i hi => mem_range.2 (ht i (List.mem_toFinset.1 hi)), hm⟩, ?_⟩
    rintro T ⟨hT, hv⟩
    ext i
    rw [List.mem_toFinset, ← hv, mem_encTuple]
    exact ⟨fun h => ⟨mem_range.1 (hT h), h⟩, fun h => h.2⟩

/-- C02.  Byte strings are faithful: two product states of a system have equal
bytes exactly if they occupy the same spin-orbitals. -/
theorem C02_bytes_injective (n : ℕ) (S T : Finset ℕ) (hS : S ⊆ range n) (hT : T ⊆ range n) :
    (tuple2bytes (encTuple n S) n = tuple2bytes (encTuple n T) n ↔ S = T) := by
  constructor
  · intro h
    have hx : ∀ U : Finset ℕ, tuple2bytes (encTuple n U) n = .ok (encBytes n U) := by
      intro U
      have ht : tuple2str (encTuple n U) n = encStr n U :=
        tuple2str_eq _ _ _ (fun i hi => by simp [mem_encTuple, hi])
      rw [tuple2bytes, tuple2bitarray, ht, bitarrayOfStr_encStr]
      simp [bind, Except.bind, pure, Except.pure, tobytes_encBits]
    rw [hx, hx] at h
    exact encBytes_injOn hS hT (by simpa using h)
  · rintro rfl; rfl

/-- C02.  Lexicographic order of the bytes (the order of Python's `sorted` on
bytes) is the numerical order of the int representation. -/
theorem C02_bytes_order (n : ℕ) (S T : Finset ℕ) :
    bitarray2bytes (encBits n S) < bitarray2bytes (encBits n T) ↔ encInt n S < encInt n T := by
  rw [bitarray2bytes, bitarray2bytes, tobytes_encBits, tobytes_encBits, encBytes_lt_iff]

/-- C03.  Any tuple of indices, however malformed, is normalised: the trip
through str, bitarray or bytes returns the strictly increasing tuple of exactly
the listed indices that are below `n`. -/
theorem C03_normalises (n : ℕ) (t : List ℕ) :
    (∃ b s, tuple2bytes t n = .ok s ∧ tuple2bitarray t n = .ok b ∧
      bytes2tuple s n = str2tuple (tuple2str t n) ∧ bitarray2tuple b = str2tuple (tuple2str t n)) ∧
    (str2tuple (tuple2str t n)).Pairwise (· < ·) ∧
    ∀ i, i ∈ str2tuple (tuple2str t n) ↔ i ∈ t ∧ i < n := by
  have ht : tuple2str t n = encStr n t.toFinset := tuple2str_eq _ _ _ (fun i _ => by simp)
  refine ⟨⟨encBits n t.toFinset, encBytes n t.toFinset, ?_, ?_, ?_, ?_⟩, ?_, ?_⟩
  · rw [tuple2bytes, tuple2bitarray, ht, bitarrayOfStr_encStr]
    simp [bind, Except.bind, pure, Except.pure, tobytes_encBits]
  · rw [tuple2bitarray, ht, bitarrayOfStr_encStr]
  · rw [bytes2tuple, bytes2bitarray_encBytes, bitarray2tuple, bitarray2str, to01_encBits, ht]
  · rw [bitarray2tuple, bitarray2str, to01_encBits, ht]
  · rw [ht, str2tuple_encStr]
    exact List.Pairwise.filter _ List.pairwise_lt_range
  · intro i
    rw [ht, str2tuple_encStr, mem_encTuple, List.mem_toFinset, and_comm]

/-! Non-vacuity: a concrete 10-orbital system with orbitals 2, 5, 9 occupied. -/

example : encTuple 10 {2, 5, 9} = [2, 5, 9] ∧ encInt 10 {2, 5, 9} = 145 ∧
    encBytes 10 {2, 5, 9} = [36, 64] ∧
    encStr 10 {2, 5, 9} = "0010010001".toList := by decide
example : tuple2bytes [2, 5, 9] 10 = .ok [36, 64] := by decide
example : bytes2tuple [36, 64] 10 = [2, 5, 9] := by decide
example : tuple2bytes [9, 2, 2, 11, 5] 10 = .ok [36, 64] := by decide
example : ∃ S T : Finset ℕ, S ⊆ range 10 ∧ T ⊆ range 10 ∧ S ≠ T ∧
    encBytes 10 S < encBytes 10 T := ⟨{2}, {1}, by decide, by decide, by decide, by decide⟩

end Verif
