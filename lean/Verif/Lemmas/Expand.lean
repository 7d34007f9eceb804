import Verif.Lemmas.Hamiltonian
import Verif.Lemmas.Mpi
import Verif.Spec.Expand
import Verif.Model.Expand

set_option linter.unusedSectionVars false
set_option linter.unusedSimpArgs false

namespace Verif

open Finset Spec Psr Mpi

/-! ### sets of bytes -/

theorem mem_setUpdate (s l : List Bytes) (x : Bytes) : x ∈ setUpdate s l ↔ x ∈ s ∨ x ∈ l := by
  unfold setUpdate
  induction l generalizing s with
  | nil => simp
  | cons a l ih =>
    rw [List.foldl_cons, ih]
    by_cases h : a ∈ s
    · rw [if_pos h]
      constructor
      · rintro (h' | h')
        · exact Or.inl h'
        · exact Or.inr (by simp [h'])
      · rintro (h' | h')
        · exact Or.inl h'
        · rcases List.mem_cons.1 h' with rfl | h'
          · exact Or.inl h
          · exact Or.inr h'
    · rw [if_neg h]
      simp [or_assoc]

theorem nodup_setUpdate {s : List Bytes} (hs : s.Nodup) (l : List Bytes) : (setUpdate s l).Nodup := by
  unfold setUpdate
  induction l generalizing s with
  | nil => exact hs
  | cons a l ih =>
    rw [List.foldl_cons]
    apply ih
    split
    · exact hs
    · rename_i h
      rw [List.nodup_append]
      refine ⟨hs, List.nodup_singleton a, ?_⟩
      intro x hx y hy hxy
      rw [List.mem_singleton] at hy
      exact h (hy ▸ hxy ▸ hx)

theorem mem_setOf (l : List Bytes) (x : Bytes) : x ∈ setOf l ↔ x ∈ l := by
  unfold setOf; rw [mem_setUpdate]; simp

theorem nodup_setOf (l : List Bytes) : (setOf l).Nodup := nodup_setUpdate List.nodup_nil l

theorem mem_setDiff (l s : List Bytes) (x : Bytes) : x ∈ setDiff l s ↔ x ∈ l ∧ x ∉ s := by
  unfold setDiff; rw [List.mem_filter, mem_setOf]; simp

theorem nodup_setDiff (l s : List Bytes) : (setDiff l s).Nodup := (nodup_setOf l).filter _

instance : Std.Total (α := Bytes) (· ≤ ·) := ⟨fun a b => List.le_total a b⟩
instance : IsTrans Bytes (· ≤ ·) := ⟨fun _ _ _ h h' => List.le_trans h h'⟩

theorem sortedBytes_perm (s : List Bytes) : (sortedBytes s).Perm s := List.perm_insertionSort _ s

theorem sortedBytes_congr {s t : List Bytes} (hs : s.Nodup) (ht : t.Nodup)
    (h : ∀ x, x ∈ s ↔ x ∈ t) : sortedBytes s = sortedBytes t := by
  have hp : s.Perm t := (List.perm_ext_iff_of_nodup hs ht).2 h
  refine List.Perm.eq_of_pairwise (le := fun a b : Bytes => a ≤ b) (fun a b _ _ h h' => List.le_antisymm h h')
    (List.pairwise_insertionSort _ s) (List.pairwise_insertionSort _ t) ?_
  exact (sortedBytes_perm s).trans (hp.trans (sortedBytes_perm t).symm)

/-! ### growing a set of states -/

section
variable (succ : Bytes → List Bytes)

def newStates (basis : List Bytes) (i : ℕ) : List Bytes :=
  sortedBytes (setOf (((basis.drop i).flatMap succ).filter fun x => x ∉ basis))

theorem mem_newStates (basis : List Bytes) (i : ℕ) (x : Bytes) :
    x ∈ newStates succ basis i ↔ x ∉ basis ∧ ∃ b ∈ basis.drop i, x ∈ succ b := by
  unfold newStates
  rw [(sortedBytes_perm _).mem_iff, mem_setOf, List.mem_filter, List.mem_flatMap]
  simp [and_comm]

theorem nodup_newStates (basis : List Bytes) (i : ℕ) : (newStates succ basis i).Nodup :=
  (sortedBytes_perm _).nodup_iff.2 (nodup_setOf _)

theorem sortedBytes_eq_newStates {basis : List Bytes} {i : ℕ} {new : List Bytes} (hnd : new.Nodup)
    (h : ∀ x, x ∈ new ↔ x ∉ basis ∧ ∃ b ∈ basis.drop i, x ∈ succ b) :
    sortedBytes new = newStates succ basis i := by
  refine sortedBytes_congr hnd (nodup_setOf _) ?_
  intro x
  rw [h, mem_setOf, List.mem_filter, List.mem_flatMap]
  simp [and_comm]

def growLoop : ℕ → List Bytes → ℕ → Option (List Bytes)
  | 0, _, _ => none
  | fuel + 1, basis, i =>
    if i < basis.length then growLoop fuel (basis ++ newStates succ basis i) basis.length
    else some basis

theorem growLoop_prefix (fuel : ℕ) (basis : List Bytes) (i : ℕ) (B : List Bytes)
    (h : growLoop succ fuel basis i = some B) : ∃ rest, B = basis ++ rest ∧ rest.Nodup ∧
      ∀ x ∈ rest, x ∉ basis := by
  induction fuel generalizing basis i with
  | zero => cases h
  | succ fuel ih =>
    unfold growLoop at h
    split at h
    · obtain ⟨rest, hB, hnd, hdis⟩ := ih _ _ h
      refine ⟨newStates succ basis i ++ rest, by rw [hB, List.append_assoc], ?_, ?_⟩
      · rw [List.nodup_append]
        refine ⟨nodup_newStates succ basis i, hnd, ?_⟩
        rintro x hx y hy rfl
        exact hdis x hy (List.mem_append_right _ hx)
      · intro x hx
        rcases List.mem_append.1 hx with hx | hx
        · exact ((mem_newStates succ basis i x).1 hx).1
        · exact fun hb => hdis x hx (List.mem_append_left _ hb)
    · injection h with h
      exact ⟨[], by simp [h], List.nodup_nil, by simp⟩

/-- Everything reached is in every invariant set. -/
theorem growLoop_smallest (X : Bytes → Prop) (hX : ∀ b, X b → ∀ x ∈ succ b, X x) (fuel : ℕ)
    (basis : List Bytes) (i : ℕ) (hb : ∀ b ∈ basis, X b) (B : List Bytes)
    (h : growLoop succ fuel basis i = some B) : ∀ b ∈ B, X b := by
  induction fuel generalizing basis i with
  | zero => cases h
  | succ fuel ih =>
    unfold growLoop at h
    split at h
    · refine ih _ _ ?_ h
      intro b hb'
      rcases List.mem_append.1 hb' with hb' | hb'
      · exact hb b hb'
      · obtain ⟨-, c, hc, hx⟩ := (mem_newStates succ basis i b).1 hb'
        exact hX c (hb c (List.mem_of_mem_drop hc)) b hx
    · injection h with h
      rw [← h]; exact hb

theorem growLoop_closed (fuel : ℕ) (basis : List Bytes) (i : ℕ)
    (hi : i ≤ basis.length) (hdone : ∀ b ∈ basis.take i, ∀ x ∈ succ b, x ∈ basis) (B : List Bytes)
    (h : growLoop succ fuel basis i = some B) : ∀ b ∈ B, ∀ x ∈ succ b, x ∈ B := by
  induction fuel generalizing basis i with
  | zero => cases h
  | succ fuel ih =>
    unfold growLoop at h
    split at h
    · refine ih _ _ (by simp) ?_ h
      intro b hb x hx
      rw [List.take_left] at hb
      rw [List.mem_append]
      by_cases hxb : x ∈ basis
      · exact Or.inl hxb
      · right
        rw [mem_newStates]
        refine ⟨hxb, b, ?_, hx⟩
        rw [← List.take_append_drop i basis, List.mem_append] at hb
        rcases hb with hb | hb
        · exact absurd (hdone b hb x hx) hxb
        · exact hb
    · rename_i hlt
      injection h with h
      have : basis.take i = basis := List.take_of_length_le (by omega)
      rw [this] at hdone
      rw [← h]; exact hdone

/-- The loop ends when all states lie in a finite set. -/
theorem growLoop_terminates (U : Finset Bytes) (hU : ∀ b ∈ U, ∀ x ∈ succ b, x ∈ U) (fuel : ℕ)
    (basis : List Bytes) (i : ℕ) (hb : ∀ b ∈ basis, b ∈ U) (hi : i ≤ basis.length)
    (hfuel : U.card - basis.toFinset.card + (if i < basis.length then 2 else 1) ≤ fuel) :
    ∃ B, growLoop succ fuel basis i = some B := by
  induction fuel generalizing basis i with
  | zero => split at hfuel <;> omega
  | succ fuel ih =>
    unfold growLoop
    split
    · rename_i hlt
      rw [if_pos hlt] at hfuel
      have hsub : ∀ b ∈ basis ++ newStates succ basis i, b ∈ U := by
        intro b hb'
        rcases List.mem_append.1 hb' with hb' | hb'
        · exact hb b hb'
        · obtain ⟨-, c, hc, hx⟩ := (mem_newStates succ basis i b).1 hb'
          exact hU c (hb c (List.mem_of_mem_drop hc)) b hx
      apply ih _ _ hsub (by simp)
      by_cases hnew : newStates succ basis i = []
      · rw [hnew]
        simp
        omega
      · have hlen : basis.length < (basis ++ newStates succ basis i).length := by
          rw [List.length_append]
          have := List.length_pos_iff.2 hnew
          omega
        rw [if_pos hlen]
        have h1 : basis.toFinset.card < (basis ++ newStates succ basis i).toFinset.card := by
          apply Finset.card_lt_card
          rw [Finset.ssubset_iff_of_subset]
          · obtain ⟨x, hx⟩ := List.exists_mem_of_ne_nil _ hnew
            exact ⟨x, by simp [hx], by simpa using ((mem_newStates succ basis i x).1 hx).1⟩
          · intro x hx; simp at hx ⊢; exact Or.inl hx
        have h2 : (basis ++ newStates succ basis i).toFinset.card ≤ U.card := by
          apply Finset.card_le_card
          intro x hx
          exact hsub x (by simpa using hx)
        omega
    · exact ⟨basis, rfl⟩

end

/-! ### columns -/

section
variable {R F : Type} [CommRing R] [StarRing R] [CommRing F] [LinearOrder F]
  [IsStrictOrderedRing F] [Amp R F]

/-- A product state of the system. -/
def ValidState (n : ℕ) (b : Bytes) : Prop := ∃ S ⊆ range n, b = encBytes n S

/-- The column of `b`. -/
def colB (n : ℕ) (op : Op ℕ R) (cut : F) (r : Option Restrictions) (b : Bytes) : Psi R :=
  applyOpPure n op [(b, 1)] cut r

/-- The product states `op` leads to. -/
def succB (n : ℕ) (op : Op ℕ R) (cut : F) (r : Option Restrictions) (b : Bytes) : List Bytes :=
  Dict.keys (colB n op cut r b)

variable {n : ℕ} {op : Op ℕ R} {cut : F} {r : Option Restrictions}

theorem applyOp_colB (hop : OpInSystem n op) {b : Bytes} (hb : ValidState n b) :
    applyOp n op [(b, 1)] cut r none = .ok (colB n op cut r b, none) := by
  obtain ⟨S, hS, rfl⟩ := hb
  exact applyOp_eq hop (isState_single hS 1) cut r

theorem isState_colB (hop : OpInSystem n op) {b : Bytes} (hb : ValidState n b) :
    IsState n (colB n op cut r b) := by
  obtain ⟨S, hS, rfl⟩ := hb
  exact isState_applyOpPure hop (isState_single hS 1) cut r

theorem valid_succB (hop : OpInSystem n op) {b : Bytes} (hb : ValidState n b) {x : Bytes}
    (hx : x ∈ succB n op cut r b) : ValidState n x := (isState_colB hop hb).keys x hx

theorem get?_colB (hop : OpInSystem n op) (hcut : 0 < cut) {T : Finset ℕ} (hT : T ⊆ range n)
    {S : Finset ℕ} (hS : S ⊆ range n) :
    (Connects op cut r T S → Dict.get? (colB n op cut r (encBytes n T)) (encBytes n S)
        = some (matrixElement op S T)) ∧
      (¬ Connects op cut r T S → Dict.get? (colB n op cut r (encBytes n T)) (encBytes n S) = none) := by
  unfold colB
  rw [get?_applyOpPure hop (isState_single hT 1) cut r hS, ampl_single hT]
  constructor
  · intro hc
    rw [if_pos]
    · rfl
    · refine ⟨hc.1, ?_, hc.2⟩
      by_contra hm
      have h1 := hc.2
      unfold matrixElement at h1
      rw [← ampl_single hT, ← total_allContributions hop (isState_single hT 1) hS,
        total_of_notMem hm, Amp.abs2_zero] at h1
      exact absurd h1 (not_le.2 hcut)
  · intro hc
    rw [if_neg]
    exact fun h => hc ⟨h.1, h.2.2⟩

theorem mem_succB (hop : OpInSystem n op) (hcut : 0 < cut) {T : Finset ℕ} (hT : T ⊆ range n)
    {S : Finset ℕ} (hS : S ⊆ range n) :
    encBytes n S ∈ succB n op cut r (encBytes n T) ↔ Connects op cut r T S := by
  unfold succB
  rw [Dict.mem_keys_iff]
  have := get?_colB (r := r) hop hcut hT hS
  by_cases hc : Connects op cut r T S
  · simp [this.1 hc, hc]
  · simp [this.2 hc, hc]

/-- The entries of the dictionary are columns (as key sets and values). -/
structure GoodDict (n : ℕ) (op : Op ℕ R) (cut : F) (r : Option Restrictions) (h : OpResult R) : Prop where
  nodup : Dict.NodupKeys h
  valid : ∀ k ∈ Dict.keys h, ValidState n k
  cols : ∀ k col, Dict.get? h k = some col → Dict.NodupKeys col ∧ Dict.Eqv col (colB n op cut r k)

theorem goodDict_iff (hop : OpInSystem n op) (hcut : 0 < cut) (h : OpResult R) :
    ColumnsExact n op cut r h ↔ GoodDict n op cut r h := by
  constructor
  · intro hc
    refine ⟨hc.nodup, ?_, ?_⟩
    · intro k hk
      rw [Dict.mem_keys_iff, Option.isSome_iff_exists] at hk
      obtain ⟨col, hk⟩ := hk
      obtain ⟨T, hT, e, -⟩ := hc.entries k col hk
      exact ⟨T, hT, e⟩
    · intro k col hk
      obtain ⟨T, hT, e, hst, hval⟩ := hc.entries k col hk
      subst e
      refine ⟨hst.nodup, fun x => ?_⟩
      by_cases hx : ValidState n x
      · obtain ⟨S, hS, rfl⟩ := hx
        by_cases hcn : Connects op cut r T S
        · rw [(hval S hS).1 hcn, (get?_colB hop hcut hT hS).1 hcn]
        · rw [(hval S hS).2 hcn, (get?_colB hop hcut hT hS).2 hcn]
      · rw [(Dict.get?_eq_none_iff _ _).2 (fun hm => hx (hst.keys x hm)),
          (Dict.get?_eq_none_iff _ _).2
            (fun hm => hx ((isState_colB hop ⟨T, hT, rfl⟩).keys x hm))]
  · intro hg
    refine ⟨hg.nodup, ?_⟩
    intro k col hk
    obtain ⟨T, hT, rfl⟩ := hg.valid k (by rw [Dict.mem_keys_iff, hk]; rfl)
    obtain ⟨hnd, he⟩ := hg.cols _ _ hk
    refine ⟨T, hT, rfl, ⟨hnd, ?_⟩, ?_⟩
    · intro x hx
      rw [Dict.mem_keys_iff, he x, ← Dict.mem_keys_iff] at hx
      exact (isState_colB hop ⟨T, hT, rfl⟩).keys x hx
    · intro S hS
      rw [he]
      exact get?_colB hop hcut hT hS

theorem GoodDict.mem_keys_col {h : OpResult R} (hg : GoodDict n op cut r h) {k : Bytes} {col : Psi R}
    (hk : Dict.get? h k = some col) (x : Bytes) : x ∈ Dict.keys col ↔ x ∈ succB n op cut r k := by
  unfold succB
  rw [Dict.mem_keys_iff, Dict.mem_keys_iff, (hg.cols k col hk).2 x]

theorem goodDict_nil : GoodDict n op cut r ([] : OpResult R) :=
  ⟨Dict.nodupKeys_nil, by simp, by simp⟩

theorem GoodDict.set (hop : OpInSystem n op) {h : OpResult R} (hg : GoodDict n op cut r h) {b : Bytes}
    (hb : ValidState n b) : GoodDict n op cut r (Dict.set h b (colB n op cut r b)) := by
  refine ⟨Dict.nodupKeys_set hg.nodup _ _, ?_, ?_⟩
  · intro k hk
    rcases (Dict.mem_keys_set _ _ _ _).1 hk with rfl | hk
    · exact hb
    · exact hg.valid k hk
  · intro k col hk
    rw [Dict.get?_set] at hk
    split at hk
    · rename_i e
      subst e
      injection hk with hk
      subst hk
      exact ⟨(isState_colB hop hb).nodup, fun _ => rfl⟩
    · exact hg.cols k col hk

end

end Verif
