import Verif.Lemmas.Expand

set_option linter.unusedSectionVars false
set_option linter.unusedSimpArgs false

namespace Verif

open Finset Spec Psr Mpi

section
variable {R F : Type} [CommRing R] [StarRing R] [CommRing F] [LinearOrder F]
  [IsStrictOrderedRing F] [Amp R F]
variable {n : ℕ} {op : Op ℕ R} {cut : F} {r : Option Restrictions}

/-! ### serial -/

/-- `h_dict` after the columns of `l` have been looked up. -/
def extendCols (n : ℕ) (op : Op ℕ R) (cut : F) (r : Option Restrictions) (h : OpResult R)
    (l : List Bytes) : OpResult R :=
  l.foldl (fun h b => if b ∈ Dict.keys h then h else Dict.set h b (colB n op cut r b)) h

theorem get?_extendCols (h : OpResult R) (l : List Bytes) (k : Bytes) :
    Dict.get? (extendCols n op cut r h l) k = match Dict.get? h k with
      | some c => some c
      | none => if k ∈ l then some (colB n op cut r k) else none := by
  unfold extendCols
  induction l generalizing h with
  | nil => cases hg : Dict.get? h k <;> simp [hg]
  | cons b l ih =>
    rw [List.foldl_cons, ih]
    by_cases hb : b ∈ Dict.keys h
    · rw [if_pos hb]
      cases hg : Dict.get? h k with
      | some c => rfl
      | none =>
        have : k ≠ b := by
          rintro rfl
          rw [Dict.get?_eq_none_iff] at hg
          exact hg hb
        simp [this]
    · rw [if_neg hb, Dict.get?_set]
      by_cases e : k = b
      · subst e
        rw [(Dict.get?_eq_none_iff _ _).2 hb]
        simp
      · rw [if_neg (Ne.symm e)]
        cases hg : Dict.get? h k <;> simp [e]

theorem goodDict_extendCols (hop : OpInSystem n op) {h : OpResult R} (hg : GoodDict n op cut r h)
    {l : List Bytes} (hl : ∀ b ∈ l, ValidState n b) :
    GoodDict n op cut r (extendCols n op cut r h l) := by
  unfold extendCols
  induction l generalizing h with
  | nil => exact hg
  | cons b l ih =>
    rw [List.foldl_cons]
    apply ih _ (fun b hb => hl b (by simp [hb]))
    split
    · exact hg
    · exact hg.set hop (hl b (by simp))

theorem extendCols_append (h : OpResult R) (l l' : List Bytes) :
    extendCols n op cut r h (l ++ l') = extendCols n op cut r (extendCols n op cut r h l) l' := by
  unfold extendCols; rw [List.foldl_append]

theorem serialFold (hop : OpInSystem n op) (basis l : List Bytes) (hl : ∀ b ∈ l, ValidState n b)
    (h : OpResult R) (hg : GoodDict n op cut r h) (new : List Bytes) (hnew : new.Nodup) :
    ∃ new', l.foldlM (serialBody n op cut r basis) (h, new)
        = .ok (extendCols n op cut r h l, new') ∧ new'.Nodup ∧
      ∀ x, x ∈ new' ↔ x ∈ new ∨ x ∉ basis ∧ ∃ b ∈ l, x ∈ succB n op cut r b := by
  induction l generalizing h new with
  | nil => exact ⟨new, rfl, hnew, by simp⟩
  | cons b l ih =>
    have hl' : ∀ b ∈ l, ValidState n b := fun b hb => hl b (by simp [hb])
    have hvb := hl b (by simp)
    rw [List.foldlM_cons]
    -- the column used
    have key : ∃ col : Psi R, serialBody n op cut r basis (h, new) b
        = .ok (extendCols n op cut r h [b], setUpdate new (setDiff (Dict.keys col) basis)) ∧
        ∀ x, x ∈ Dict.keys col ↔ x ∈ succB n op cut r b := by
      unfold serialBody
      cases hk : Dict.get? h b with
      | some col =>
        refine ⟨col, ?_, hg.mem_keys_col hk⟩
        have : b ∈ Dict.keys h := by rw [Dict.mem_keys_iff, hk]; rfl
        simp [extendCols, this]
      | none =>
        refine ⟨colB n op cut r b, ?_, fun _ => Iff.rfl⟩
        have : b ∉ Dict.keys h := (Dict.get?_eq_none_iff _ _).1 hk
        simp only [applyOp_colB hop hvb, bind, Except.bind, pure, Except.pure]
        simp [extendCols, this]
    obtain ⟨col, hstep, hcol⟩ := key
    rw [hstep]
    simp only [bind, Except.bind]
    have hg' : GoodDict n op cut r (extendCols n op cut r h [b]) :=
      goodDict_extendCols hop hg (by simpa using hvb)
    obtain ⟨new', h1, h2, h3⟩ := ih hl' _ hg' _ (nodup_setUpdate hnew _)
    refine ⟨new', ?_, h2, ?_⟩
    · rw [h1, ← extendCols_append]; rfl
    · intro x
      rw [h3, mem_setUpdate, mem_setDiff, hcol]
      simp only [List.mem_cons, exists_eq_or_imp]
      tauto

theorem valid_newStates (hop : OpInSystem n op) {basis : List Bytes}
    (hb : ∀ b ∈ basis, ValidState n b) (i : ℕ) :
    ∀ b ∈ basis ++ newStates (succB n op cut r) basis i, ValidState n b := by
  intro b hb'
  rcases List.mem_append.1 hb' with hb' | hb'
  · exact hb b hb'
  · obtain ⟨-, c, hc, hx⟩ := (mem_newStates _ basis i b).1 hb'
    exact valid_succB hop (hb c (List.mem_of_mem_drop hc)) hx

theorem expandSerialLoop_eq (hop : OpInSystem n op) (fuel : ℕ) (basis : List Bytes)
    (hb : ∀ b ∈ basis, ValidState n b) (i : ℕ) (hi : i ≤ basis.length) (h : OpResult R)
    (hg : GoodDict n op cut r h) (B : List Bytes)
    (hB : growLoop (succB n op cut r) fuel basis i = some B) :
    expandSerialLoop n op cut r fuel basis i h = .ok (B, extendCols n op cut r h (B.drop i)) := by
  induction fuel generalizing basis i h with
  | zero => cases hB
  | succ fuel ih =>
    unfold growLoop at hB
    unfold expandSerialLoop
    by_cases hlt : i < basis.length
    · rw [if_pos hlt] at hB ⊢
      have hsl : ∀ b ∈ basis.drop i, ValidState n b := fun b hb' => hb b (List.mem_of_mem_drop hb')
      obtain ⟨new, h1, h2, h3⟩ := serialFold (cut := cut) (r := r) hop basis (basis.drop i) hsl h hg [] List.nodup_nil
      rw [h1]
      simp only [bind, Except.bind]
      have e : sortedBytes new = newStates (succB n op cut r) basis i :=
        sortedBytes_eq_newStates _ h2 (by intro x; rw [h3]; simp)
      rw [e, ih _ (valid_newStates hop hb i) _ (by simp) _ (goodDict_extendCols hop hg hsl) hB]
      obtain ⟨rest, hBr, -⟩ := growLoop_prefix _ _ _ _ _ hB
      congr 2
      rw [← extendCols_append]
      congr 1
      rw [hBr, List.append_assoc, List.drop_append_of_le_length hi,
        List.drop_append_of_le_length le_rfl]
      simp
    · rw [if_neg hlt] at hB ⊢
      injection hB with hB
      subst hB
      rw [List.drop_of_length_le (by omega)]
      rfl

/-! ### all product states of the system -/

theorem growLoop_total (hop : OpInSystem n op) (basis0 : List Bytes)
    (hb : ∀ b ∈ basis0, ValidState n b) (fuel : ℕ) (hf : 2 ^ n + 2 ≤ fuel) :
    ∃ B, growLoop (succB n op cut r) fuel basis0 0 = some B := by
  classical
  refine growLoop_terminates _ ((range n).powerset.image (encBytes n)) ?_ fuel basis0 0 ?_ (by simp) ?_
  · intro b hb' x hx
    obtain ⟨S, hS, rfl⟩ := mem_image.1 hb'
    obtain ⟨T, hT, rfl⟩ := valid_succB hop ⟨S, mem_powerset.1 hS, rfl⟩ hx
    exact mem_image.2 ⟨T, mem_powerset.2 hT, rfl⟩
  · intro b hb'
    obtain ⟨S, hS, rfl⟩ := hb b hb'
    exact mem_image.2 ⟨S, mem_powerset.2 hS, rfl⟩
  · have h1 : ((range n).powerset.image (encBytes n)).card ≤ 2 ^ n := by
      refine card_image_le.trans ?_
      rw [card_powerset, card_range]
    split <;> omega

/-- The result does not depend on the bound once the loop ends. -/
theorem growLoop_mono (succ : Bytes → List Bytes) (fuel : ℕ) (basis : List Bytes) (i : ℕ) (B : List Bytes)
    (h : growLoop succ fuel basis i = some B) (fuel' : ℕ) (hf : fuel ≤ fuel') :
    growLoop succ fuel' basis i = some B := by
  induction fuel generalizing basis i fuel' with
  | zero => cases h
  | succ fuel ih =>
    obtain ⟨f, rfl⟩ : ∃ f, fuel' = f + 1 := ⟨fuel' - 1, by omega⟩
    unfold growLoop at h ⊢
    split at h
    · rename_i hlt
      rw [if_pos hlt]
      exact ih _ _ h f (by omega)
    · rename_i hlt
      rw [if_neg hlt]; exact h

end

end Verif
