/-
Lemmas for eigensystem.
-/
import Verif.Spec.Eigen
import Verif.Prop.Hamiltonian

namespace Verif

open Finset Psr Spec

/-- A sum over a duplicate-free list of states, by position. -/
theorem sum_states {M : Type*} [AddCommMonoid M] (states : List (Finset ℕ)) (hnd : states.Nodup)
    (f : Finset ℕ → ℕ → M) :
    ∑ S ∈ states.toFinset, f S (states.idxOf S) = ∑ i ∈ range states.length, f (states.getD i ∅) i := by
  refine Finset.sum_bij' (fun S _ => states.idxOf S) (fun i _ => states.getD i ∅) ?_ ?_ ?_ ?_ ?_
  · intro S hS
    exact mem_range.2 (List.idxOf_lt_length_of_mem (List.mem_toFinset.1 hS))
  · intro i hi
    rw [List.getD_eq_getElem _ _ (mem_range.1 hi)]
    exact List.mem_toFinset.2 (List.getElem_mem _)
  · intro S hS
    have := List.idxOf_lt_length_of_mem (List.mem_toFinset.1 hS)
    rw [List.getD_eq_getElem _ _ this, List.getElem_idxOf]
  · intro i hi
    rw [List.getD_eq_getElem _ _ (mem_range.1 hi)]
    exact hnd.idxOf_getElem i (mem_range.1 hi)
  · intro S hS
    have := List.idxOf_lt_length_of_mem (List.mem_toFinset.1 hS)
    rw [List.getD_eq_getElem _ _ this, List.getElem_idxOf]

theorem foldl_if_filter {α β : Type*} (l : List α) (p : α → Prop) [DecidablePred p] (f : β → α → β) (b : β) :
    l.foldl (fun b x => if p x then f b x else b) b = (l.filter fun x => decide (p x)).foldl f b := by
  induction l generalizing b with
  | nil => rfl
  | cons x l ih =>
    rw [List.foldl_cons, ih, List.filter_cons]
    by_cases h : p x <;> simp [h]

theorem eigenState_eq (basis : List Bytes) (hb : basis.Nodup) (m : ℝ) (vec : ℕ → ℂ) :
    eigenState basis m vec
      = (basis.zipIdx.filter fun p => decide (m ≤ Complex.normSq (vec p.2))).map fun p => (p.1, vec p.2) := by
  unfold eigenState
  rw [foldl_if_filter basis.zipIdx (fun p => m ≤ Complex.normSq (vec p.2)) (fun d p => Dict.set d p.1 (vec p.2))]
  have hn : ((basis.zipIdx.filter fun p => decide (m ≤ Complex.normSq (vec p.2))).map fun p => p.1).Nodup := by
    refine List.Nodup.sublist (List.Sublist.map _ List.filter_sublist) ?_
    rw [List.zipIdx_map_fst]
    exact hb
  rw [Dict.foldl_set_fresh _ (fun p : Bytes × ℕ => p.1) (fun p => vec p.2) hn _ (by simp), List.nil_append]

theorem get?_eigenState (basis : List Bytes) (hb : basis.Nodup) (m : ℝ) (vec : ℕ → ℂ) (b : Bytes) :
    Dict.get? (eigenState basis m vec) b
      = if b ∈ basis ∧ m ≤ Complex.normSq (vec (basis.idxOf b)) then some (vec (basis.idxOf b)) else none := by
  rw [eigenState_eq basis hb]
  have hnk : Dict.NodupKeys ((basis.zipIdx.filter fun p => decide (m ≤ Complex.normSq (vec p.2))).map
      fun p => (p.1, vec p.2)) := by
    unfold Dict.NodupKeys Dict.keys
    rw [List.map_map]
    refine List.Nodup.sublist (List.Sublist.map _ List.filter_sublist) ?_
    change (basis.zipIdx.map fun p => p.1).Nodup
    rw [List.zipIdx_map_fst]
    exact hb
  split
  · rename_i h
    apply Dict.get?_of_mem hnk
    rw [List.mem_map]
    refine ⟨(b, basis.idxOf b), ?_, rfl⟩
    rw [List.mem_filter]
    refine ⟨?_, by simpa using h.2⟩
    have hlt := List.idxOf_lt_length_of_mem h.1
    rw [List.mem_zipIdx_iff_getElem?, List.getElem?_eq_getElem hlt, List.getElem_idxOf]
  · rename_i h
    rw [Dict.get?_eq_none_iff]
    intro hk
    apply h
    unfold Dict.keys at hk
    rw [List.map_map, List.mem_map] at hk
    obtain ⟨⟨b', i⟩, hm, rfl⟩ := hk
    rw [List.mem_filter, List.mem_zipIdx_iff_getElem?] at hm
    obtain ⟨hm1, hm2⟩ := hm
    simp only at hm1 hm2
    obtain ⟨hi, he⟩ := List.getElem?_eq_some_iff.1 hm1
    simp only [Function.comp]
    subst he
    refine ⟨List.getElem_mem _, ?_⟩
    rw [hb.idxOf_getElem i hi]
    simpa using hm2

theorem nodup_encBytes {n : ℕ} {states : List (Finset ℕ)} (hnd : states.Nodup)
    (hst : ∀ S ∈ states, S ⊆ range n) : (states.map (encBytes n)).Nodup := by
  rw [List.nodup_iff_pairwise_ne, List.pairwise_map]
  refine hnd.imp_of_mem ?_
  intro S T hS hT hne h
  exact hne (encBytes_injOn (hst S hS) (hst T hT) h)

theorem mem_map_encBytes {n : ℕ} {states : List (Finset ℕ)}
    (hst : ∀ S ∈ states, S ⊆ range n) {S : Finset ℕ} (hS : S ⊆ range n) :
    encBytes n S ∈ states.map (encBytes n) ↔ S ∈ states := by
  constructor
  · intro h
    obtain ⟨T, hT, he⟩ := List.mem_map.1 h
    rwa [← encBytes_injOn (hst T hT) hS he]
  · exact fun h => List.mem_map.2 ⟨S, h, rfl⟩

theorem idxOf_map_encBytes {n : ℕ} {states : List (Finset ℕ)} (hnd : states.Nodup)
    (hst : ∀ S ∈ states, S ⊆ range n) {S : Finset ℕ} (hS : S ∈ states) :
    (states.map (encBytes n)).idxOf (encBytes n S) = states.idxOf S := by
  have hlt := List.idxOf_lt_length_of_mem hS
  have h := (nodup_encBytes hnd hst).idxOf_getElem (states.idxOf S) (by simpa using hlt)
  rw [List.getElem_map, List.getElem_idxOf] at h
  exact h

theorem isState_eigenState {n : ℕ} {states : List (Finset ℕ)} (hnd : states.Nodup)
    (hst : ∀ S ∈ states, S ⊆ range n) (m : ℝ) (vec : ℕ → ℂ) :
    IsState n (eigenState (states.map (encBytes n)) m vec) := by
  have hb := nodup_encBytes hnd hst
  constructor
  · unfold eigenState
    generalize (states.map (encBytes n)).zipIdx = l
    suffices ∀ d : Psi ℂ, Dict.NodupKeys d → Dict.NodupKeys (l.foldl (fun d p =>
        if m ≤ Complex.normSq (vec p.2) then Dict.set d p.1 (vec p.2) else d) d) from this [] Dict.nodupKeys_nil
    induction l with
    | nil => exact fun d h => h
    | cons p l ih =>
      intro d hd
      rw [List.foldl_cons]
      apply ih
      split
      · exact Dict.nodupKeys_set hd _ _
      · exact hd
  · intro k hk
    rw [Dict.mem_keys_iff, get?_eigenState _ hb] at hk
    split at hk
    · rename_i h
      obtain ⟨S, hS, rfl⟩ := List.mem_map.1 h.1
      exact ⟨S, hst S hS, rfl⟩
    · simp at hk

theorem ampl_eigenState {n : ℕ} {states : List (Finset ℕ)} (hnd : states.Nodup)
    (hst : ∀ S ∈ states, S ⊆ range n) (m : ℝ) (vec : ℕ → ℂ) (S : Finset ℕ) :
    ampl n (eigenState (states.map (encBytes n)) m vec) S
      = if S ∈ states ∧ m ≤ Complex.normSq (vec (states.idxOf S)) then vec (states.idxOf S) else 0 := by
  by_cases hS : S ⊆ range n
  · rw [ampl_of_subset hS, get?_eigenState _ (nodup_encBytes hnd hst)]
    simp only [mem_map_encBytes hst hS]
    by_cases h : S ∈ states
    · rw [idxOf_map_encBytes hnd hst h]
      split <;> rfl
    · simp [h]
  · rw [ampl_of_not_subset hS, if_neg (fun h => hS (hst S h.1))]

theorem norm2_eigenState {n : ℕ} {states : List (Finset ℕ)} (hnd : states.Nodup)
    (hst : ∀ S ∈ states, S ⊆ range n) (m : ℝ) (vec : ℕ → ℂ) :
    (norm2 (eigenState (states.map (encBytes n)) m vec) : ℝ)
      = ∑ i ∈ range states.length, if m ≤ Complex.normSq (vec i) then Complex.normSq (vec i) else 0 := by
  rw [norm2_eq (isState_eigenState hnd hst m vec)]
  have hsub : states.toFinset ⊆ (range n).powerset := by
    intro S hS
    exact mem_powerset.2 (hst S (List.mem_toFinset.1 hS))
  rw [← Finset.sum_subset hsub]
  · rw [← sum_states states hnd (fun _ i => if m ≤ Complex.normSq (vec i) then Complex.normSq (vec i) else 0)]
    apply Finset.sum_congr rfl
    intro S hS
    rw [ampl_eigenState hnd hst]
    have : S ∈ states := List.mem_toFinset.1 hS
    by_cases h : m ≤ Complex.normSq (vec (states.idxOf S))
    · rw [if_pos ⟨this, h⟩, if_pos h]; rfl
    · rw [if_neg (fun h' => h h'.2), if_neg h]; exact Complex.normSq_zero
  · intro S _ hS
    rw [ampl_eigenState hnd hst, if_neg (fun h => hS (List.mem_toFinset.2 h.1))]
    exact Complex.normSq_zero

end Verif
