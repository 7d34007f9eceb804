import Verif.Lemmas.FromDict
import Verif.Lemmas.Number

set_option linter.unusedSectionVars false
set_option linter.unusedSimpArgs false

namespace Verif

open Finset Spec Psr Mpi

section
variable {R F : Type} [CommRing R] [StarRing R] [CommRing F] [LinearOrder F]
  [IsStrictOrderedRing F] [Amp R F]
variable {n : ℕ} {op : Op ℕ R} {cut : F} {r : Option Restrictions} {N : ℕ}
  {sum : List (Msg R) → Msg R}

theorem exists_states {l : List Bytes} (h : ∀ b ∈ l, ValidState n b) :
    ∃ states : List (Finset ℕ), (∀ S ∈ states, S ⊆ range n) ∧ l = states.map (encBytes n) := by
  induction l with
  | nil => exact ⟨[], by simp, rfl⟩
  | cons b l ih =>
    obtain ⟨st, h1, h2⟩ := ih (fun b hb => h b (by simp [hb]))
    obtain ⟨S, hS, rfl⟩ := h b (by simp)
    refine ⟨S :: st, ?_, by rw [h2]; rfl⟩
    intro T hT
    rcases List.mem_cons.1 hT with rfl | hT
    · exact hS
    · exact h1 T hT

theorem valid_map {states : List (Finset ℕ)} (h : ∀ S ∈ states, S ⊆ range n) :
    ∀ b ∈ states.map (encBytes n), ValidState n b := by
  intro b hb
  obtain ⟨S, hS, rfl⟩ := List.mem_map.1 hb
  exact ⟨S, h S hS, rfl⟩

theorem mem_map_enc {states : List (Finset ℕ)} (h : ∀ S ∈ states, S ⊆ range n) {S : Finset ℕ}
    (hS : S ⊆ range n) : encBytes n S ∈ states.map (encBytes n) ↔ S ∈ states := by
  constructor
  · intro hm
    obtain ⟨T, hT, he⟩ := List.mem_map.1 hm
    rw [← encBytes_injOn (h T hT) hS he]; exact hT
  · exact fun hm => List.mem_map.2 ⟨S, hm, rfl⟩

theorem nodup_map_enc {states : List (Finset ℕ)} (h : ∀ S ∈ states, S ⊆ range n) :
    (states.map (encBytes n)).Nodup ↔ states.Nodup := by
  constructor
  · exact List.Nodup.of_map _
  · intro hnd
    rw [List.nodup_iff_pairwise_ne, List.pairwise_map]
    refine hnd.imp_of_mem ?_
    intro S T hS hT hne he
    exact hne (encBytes_injOn (h S hS) (h T hT) he)

/-- What the expansion of `states0` gives. -/
theorem expansion (hop : OpInSystem n op) (hcut : 0 < cut) (r : Option Restrictions)
    (states0 : List (Finset ℕ)) (hst : ∀ S ∈ states0, S ⊆ range n) :
    ∃ states : List (Finset ℕ), (∀ S ∈ states, S ⊆ range n) ∧
      (∀ fuel ≥ 2 ^ n + 2, growLoop (succB n op cut r) fuel (states0.map (encBytes n)) 0
        = some (states.map (encBytes n))) ∧
      states0 <+: states ∧ (states0.Nodup → states.Nodup) ∧
      SmallestInvariant n op cut r {S | S ∈ states0} {S | S ∈ states} := by
  have hv := valid_map hst
  obtain ⟨B, hB⟩ := growLoop_total (cut := cut) (r := r) hop _ hv _ le_rfl
  obtain ⟨rest, hBr, hrd, hrb⟩ := growLoop_prefix _ _ _ _ _ hB
  have hclosed := growLoop_closed _ _ _ 0 (by simp) (by simp) _ hB
  have hBv : ∀ b ∈ B, ValidState n b :=
    growLoop_smallest _ (ValidState n) (fun b hb x hx => valid_succB hop hb hx) _ _ _ hv _ hB
  obtain ⟨rst, hrst, hre⟩ := exists_states (fun b hb => hBv b (by rw [hBr]; simp [hb]) : ∀ b ∈ rest, _)
  have hall : ∀ S ∈ states0 ++ rst, S ⊆ range n := by
    intro S hS
    rcases List.mem_append.1 hS with h | h
    · exact hst S h
    · exact hrst S h
  have hBe : B = (states0 ++ rst).map (encBytes n) := by rw [hBr, hre, List.map_append]
  refine ⟨states0 ++ rst, hall, ?_, List.prefix_append _ _, ?_, ?_, ?_, ?_⟩
  · intro fuel hf
    rw [← hBe]
    exact growLoop_mono _ _ _ _ _ hB fuel hf
  · intro hnd
    rw [List.nodup_append]
    refine ⟨hnd, ?_, ?_⟩
    · rw [hre, nodup_map_enc hrst] at hrd; exact hrd
    · rintro S hS T hT rfl
      exact hrb (encBytes n S) (by rw [hre]; exact List.mem_map.2 ⟨S, hT, rfl⟩)
        (List.mem_map.2 ⟨S, hS, rfl⟩)
  · intro S hS
    exact List.mem_append_left _ hS
  · intro T hT S hS hc
    have h1 : encBytes n T ∈ B := by rw [hBe]; exact List.mem_map.2 ⟨T, hT, rfl⟩
    have h2 := hclosed _ h1 _ ((mem_succB hop hcut (hall T hT) hS).2 hc)
    rw [hBe, mem_map_enc hall hS] at h2
    exact h2
  · intro X hX0 hX S hS
    have := growLoop_smallest _ (fun b => ∃ S ⊆ range n, b = encBytes n S ∧ S ∈ X) (by
      rintro b ⟨T, hT, rfl, hTX⟩ x hx
      obtain ⟨S, hS, rfl⟩ := valid_succB hop ⟨T, hT, rfl⟩ hx
      exact ⟨S, hS, rfl, hX T hTX S hS ((mem_succB hop hcut hT hS).1 hx)⟩) _ _ _ (by
      intro b hb
      obtain ⟨S, hS, rfl⟩ := List.mem_map.1 hb
      exact ⟨S, hst S hS, rfl, hX0 hS⟩) _ hB (encBytes n S) (by
        rw [hBe]; exact List.mem_map.2 ⟨S, hS, rfl⟩)
    obtain ⟨S', hS', he, hmem⟩ := this
    rw [encBytes_injOn (hall S hS) hS' he]; exact hmem

/-- Closure in terms of bytes. -/
theorem SmallestInvariant.closedB (hop : OpInSystem n op) (hcut : 0 < cut)
    {states0 states : List (Finset ℕ)} (hst : ∀ S ∈ states, S ⊆ range n)
    (h : SmallestInvariant n op cut r {S | S ∈ states0} {S | S ∈ states}) :
    ∀ b ∈ states.map (encBytes n), ∀ x ∈ succB n op cut r b, x ∈ states.map (encBytes n) := by
  intro b hb x hx
  obtain ⟨T, hT, rfl⟩ := List.mem_map.1 hb
  obtain ⟨S, hS, rfl⟩ := valid_succB hop ⟨T, hst T hT, rfl⟩ hx
  exact List.mem_map.2 ⟨S, h.closed T hT S hS ((mem_succB hop hcut (hst T hT) hS).1 hx), rfl⟩

/-- Entries in terms of the operator's matrix elements. -/
theorem entryB_eq (hop : OpInSystem n op) (hcut : 0 < cut) {states : List (Finset ℕ)}
    (hst : ∀ S ∈ states, S ⊆ range n) (i j : ℕ) :
    entryB n op cut r (states.map (encBytes n)) i j
      = if h : i < states.length ∧ j < states.length then
          column op cut r states[j] states[i] else 0 := by
  unfold entryB
  split
  · rename_i a b ha hb
    rw [List.getElem?_map, Option.map_eq_some_iff] at ha hb
    obtain ⟨S, hS, rfl⟩ := ha
    obtain ⟨T, hT, rfl⟩ := hb
    obtain ⟨hi, hSi⟩ := List.getElem?_eq_some_iff.1 hS
    obtain ⟨hj, hTj⟩ := List.getElem?_eq_some_iff.1 hT
    rw [dif_pos ⟨hi, hj⟩, hSi, hTj]
    have hS' := hst S (hSi ▸ List.getElem_mem hi)
    have hT' := hst T (hTj ▸ List.getElem_mem hj)
    have := get?_colB (r := r) hop hcut hT' hS'
    unfold column
    by_cases hc : Connects op cut r T S
    · rw [this.1 hc]; unfold Connects at hc; rw [if_pos hc]; rfl
    · rw [this.2 hc]; unfold Connects at hc; rw [if_neg hc]; rfl
  · rename_i hno
    rw [dif_neg]
    rintro ⟨hi, hj⟩
    exact hno (encBytes n states[i]) (encBytes n states[j]) (by simp [hi]) (by simp [hj])

/-! ### dictionaries after an H_build expansion -/

theorem get?_addCols (h : OpResult R) (l : List Bytes) (k : Bytes) :
    Dict.get? (addCols n op cut r h l) k
      = if k ∈ l then some (colB n op cut r k) else Dict.get? h k := by
  unfold addCols
  induction l generalizing h with
  | nil => simp
  | cons b l ih =>
    rw [List.foldl_cons, ih, Dict.get?_set]
    by_cases hk : k ∈ l
    · simp [hk]
    · by_cases hb : b = k
      · simp [hb]
      · simp [hk, hb, Ne.symm hb]

theorem nodup_addCols {h : OpResult R} (hh : Dict.NodupKeys h) (l : List Bytes) :
    Dict.NodupKeys (addCols n op cut r h l) := by
  unfold addCols
  induction l generalizing h with
  | nil => exact hh
  | cons b l ih => exact ih (Dict.nodupKeys_set hh _ _)

theorem get?_update_addCols (h : OpResult R) (l : List Bytes) (k : Bytes) :
    Dict.get? (Dict.update h (addCols n op cut r [] l)) k
      = if k ∈ l then some (colB n op cut r k) else Dict.get? h k := by
  rw [Dict.get?_update _ _ (nodup_addCols Dict.nodupKeys_nil _), get?_addCols]
  by_cases hk : k ∈ l
  · simp [hk]
  · simp [hk]

theorem mem_keys_update_addCols (h : OpResult R) (l : List Bytes) (k : Bytes) :
    k ∈ Dict.keys (Dict.update h (addCols n op cut r [] l)) ↔ k ∈ l ∨ k ∈ Dict.keys h := by
  rw [Dict.mem_keys_iff, Dict.mem_keys_iff, get?_update_addCols]
  by_cases hk : k ∈ l <;> simp [hk]

theorem goodDict_update_addCols (hop : OpInSystem n op) {h : OpResult R} (hg : GoodDict n op cut r h)
    {l : List Bytes} (hl : ∀ b ∈ l, ValidState n b) :
    GoodDict n op cut r (Dict.update h (addCols n op cut r [] l)) := by
  refine ⟨Dict.nodupKeys_update hg.nodup _, ?_, ?_⟩
  · intro k hk
    rcases (mem_keys_update_addCols _ _ _).1 hk with hk | hk
    · exact hl k hk
    · exact hg.valid k hk
  · intro k col hk
    rw [get?_update_addCols] at hk
    split at hk
    · rename_i hkl
      injection hk with hk
      subst hk
      exact ⟨(isState_colB hop (hl k hkl)).nodup, fun _ => rfl⟩
    · exact hg.cols k col hk

end
end Verif
