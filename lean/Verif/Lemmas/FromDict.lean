import Verif.Lemmas.HBuild

set_option linter.unusedSectionVars false
set_option linter.unusedSimpArgs false

namespace Verif

open Finset Spec Psr Mpi

section
variable {R F : Type} [CommRing R] [StarRing R] [CommRing F] [LinearOrder F]
  [IsStrictOrderedRing F] [Amp R F]
variable {n : ℕ} {op : Op ℕ R} {cut : F} {r : Option Restrictions} {N : ℕ}
  {sum : List (Msg R) → Msg R}

/-- The stored column of `b`. -/
def dcol (h : OpResult R) (b : Bytes) : Psi R := (Dict.get? h b).getD []

theorem GoodDict.get?_dcol {h : OpResult R} (hg : GoodDict n op cut r h) {b : Bytes}
    (hb : b ∈ Dict.keys h) (k : Bytes) :
    Dict.get? (dcol h b) k = Dict.get? (colB n op cut r b) k := by
  rw [Dict.mem_keys_iff, Option.isSome_iff_exists] at hb
  obtain ⟨col, hcol⟩ := hb
  unfold dcol
  rw [hcol]
  exact (hg.cols b col hcol).2 k

theorem GoodDict.nodup_dcol {h : OpResult R} (hg : GoodDict n op cut r h) (b : Bytes) :
    Dict.NodupKeys (dcol h b) := by
  unfold dcol
  cases hcol : Dict.get? h b with
  | none => exact Dict.nodupKeys_nil
  | some col => exact (hg.cols b col hcol).1

theorem GoodDict.keys_dcol {h : OpResult R} (hg : GoodDict n op cut r h) {b : Bytes} {k : Bytes}
    (hk : k ∈ Dict.keys (dcol h b)) : k ∈ succB n op cut r b := by
  unfold dcol at hk
  cases hcol : Dict.get? h b with
  | none => rw [hcol] at hk; simp at hk
  | some col => rw [hcol] at hk; exact (hg.mem_keys_col hcol k).1 hk

theorem get_basisIndex {basis : List Bytes} (hb : basis.Nodup) {k : Bytes} (hk : k ∈ basis) :
    Dict.get (basisIndex basis) k = .ok (basis.idxOf k) := by
  unfold Dict.get
  rw [(get?_basisIndex hb k (basis.idxOf k)).2]
  · rw [List.getElem?_eq_getElem (List.idxOf_lt_length_of_mem hk), List.getElem_idxOf]

theorem foldlM_triplets {basis : List Bytes} (hb : basis.Nodup) (col : Psi R)
    (hc : ∀ k ∈ Dict.keys col, k ∈ basis) (j : ℕ) (t : List ((ℕ × ℕ) × R)) :
    (col.foldlM (fun trip p => do
      let i ← Dict.get (basisIndex basis) p.1
      return trip ++ [((i, j), p.2)]) t : Py _) = .ok (t ++ colEvents basis col j) := by
  rw [foldlM_ok _ (fun trip p => match Dict.get? (basisIndex basis) p.1 with
      | some i => trip ++ [((i, j), p.2)]
      | none => trip)]
  · exact congrArg _ (foldl_triplets basis col j t)
  · intro t p hp
    have hm : p.1 ∈ basis := hc _ (List.mem_map.2 ⟨p, hp, rfl⟩)
    have := get_basisIndex hb hm
    unfold Dict.get at this ⊢
    cases hg : Dict.get? (basisIndex basis) p.1 with
    | none => rw [hg] at this; cases this
    | some i => rfl

/-- Columns by index. -/
def dcols (h : OpResult R) (basis : List Bytes) (j : ℕ) : Psi R := dcol h (basis.getD j [])

theorem GoodDict.nodup_dcols {h : OpResult R} (hg : GoodDict n op cut r h) (basis : List Bytes)
    (jobs : List ℕ) : ∀ j ∈ jobs, Dict.NodupKeys (dcols h basis j) := fun _ _ => hg.nodup_dcol _

theorem fromDictSerial_eq {basis : List Bytes} (hb : basis.Nodup) {h : OpResult R}
    (hg : GoodDict n op cut r h) (hkeys : ∀ b ∈ basis, b ∈ Dict.keys h)
    (hclosed : ∀ b ∈ basis, ∀ x ∈ succB n op cut r b, x ∈ basis) :
    fromDictSerial h basis = .ok (csr (matEvents basis (dcols h basis) (List.range basis.length))) := by
  unfold fromDictSerial
  rw [foldlM_ok _ (fun t j => t ++ colEvents basis (dcols h basis j) j)]
  · rw [foldl_append_eq]; rfl
  · intro t j hj
    have hj := List.mem_range.1 hj
    have hm := List.getElem_mem hj
    rw [pyGet_ofNat _ _ hj]
    have hk := hkeys _ hm
    rw [Dict.mem_keys_iff, Option.isSome_iff_exists] at hk
    obtain ⟨col, hcol⟩ := hk
    have e : dcols h basis j = col := by
      unfold dcols dcol
      rw [List.getD_eq_getElem _ _ hj, hcol]; rfl
    have hget : Dict.get h basis[j] = .ok col := by unfold Dict.get; rw [hcol]
    simp only [bind, Except.bind, hget]
    rw [e]
    exact foldlM_triplets hb col (fun k hk => hclosed _ hm _ ((hg.mem_keys_col hcol k).1 hk)) j t

theorem fromDictDense_eq {basis : List Bytes} (hb : basis.Nodup) {h : OpResult R}
    (hg : GoodDict n op cut r h) (hkeys : ∀ b ∈ basis, b ∈ Dict.keys h)
    (hclosed : ∀ b ∈ basis, ∀ x ∈ succB n op cut r b, x ∈ basis) :
    fromDictDense h basis = .ok ((matEvents basis (dcols h basis) (List.range basis.length)).foldl
          (fun (h : Mat R) e => h.put e.1.1 e.1.2 e.2) (fun _ _ => 0)) := by
  unfold fromDictDense matEvents
  rw [foldlM_ok _ (fun m j => (colEvents basis (dcols h basis j) j).foldl
    (fun (h : Mat R) e => h.put e.1.1 e.1.2 e.2) m), List.foldl_flatMap]
  intro m j hj
  have hj := List.mem_range.1 hj
  have hm := List.getElem_mem hj
  rw [pyGet_ofNat _ _ hj]
  have hk := hkeys _ hm
  rw [Dict.mem_keys_iff, Option.isSome_iff_exists] at hk
  obtain ⟨col, hcol⟩ := hk
  have e : dcols h basis j = col := by
    unfold dcols dcol
    rw [List.getD_eq_getElem _ _ hj, hcol]; rfl
  have hget : Dict.get h basis[j] = .ok col := by unfold Dict.get; rw [hcol]
  simp only [bind, Except.bind, hget]
  rw [e, ← foldl_put_cols]
  refine foldlM_ok _ (fun (m : Mat R) (p : Bytes × R) => match Dict.get? (basisIndex basis) p.1 with
      | some i => m.put i j p.2
      | none => m) _ _ ?_
  intro t p hp
  have hmem : p.1 ∈ basis := hclosed _ hm _ ((hg.mem_keys_col hcol _).1 (List.mem_map.2 ⟨p, hp, rfl⟩))
  have := get_basisIndex hb hmem
  unfold Dict.get at this ⊢
  cases hg : Dict.get? (basisIndex basis) p.1 with
  | none => rw [hg] at this; cases this
  | some i => rfl

/-- Entry `(i, j)` of the matrix of the operator in `basis`. -/
def entryB (n : ℕ) (op : Op ℕ R) (cut : F) (r : Option Restrictions) (basis : List Bytes)
    (i j : ℕ) : R :=
  match basis[i]?, basis[j]? with
  | some a, some b => (Dict.get? (colB n op cut r b) a).getD 0
  | _, _ => 0

theorem get?_dcols_entry {basis : List Bytes} (hb : basis.Nodup) {h : OpResult R}
    (hg : GoodDict n op cut r h) (jobs : List ℕ) (hjobs : jobs.Nodup)
    (hkeys : ∀ j ∈ jobs, ∃ b, basis[j]? = some b ∧ b ∈ Dict.keys h) (i j : ℕ) :
    (Dict.get? (matEvents basis (dcols h basis) jobs) (i, j)).getD 0
      = if j ∈ jobs then entryB n op cut r basis i j else 0 := by
  rw [get?_matEvents hb (hg.nodup_dcols basis _) hjobs]
  split
  · rename_i hj
    obtain ⟨b, hjb, hbk⟩ := hkeys j hj
    unfold entryB
    rw [hjb]
    cases hi : basis[i]? with
    | none => rfl
    | some a =>
      simp only
      have : basis.getD j [] = b := by rw [List.getD_eq_getElem?_getD, hjb]; rfl
      rw [dcols, this, hg.get?_dcol hbk]
  · rfl

theorem fromDictSerial_entry {basis : List Bytes} (hb : basis.Nodup) {h : OpResult R}
    (hg : GoodDict n op cut r h) (hkeys : ∀ b ∈ basis, b ∈ Dict.keys h)
    (hclosed : ∀ b ∈ basis, ∀ x ∈ succB n op cut r b, x ∈ basis) :
    fromDictSerial h basis = .ok (entryB n op cut r basis) := by
  rw [fromDictSerial_eq hb hg hkeys hclosed]
  congr 1
  funext i j
  rw [csr_eq_get? _ (nodupKeys_matEvents hb (hg.nodup_dcols basis _) List.nodup_range),
    get?_dcols_entry hb hg _ List.nodup_range (by
      intro j hj
      have hj := List.mem_range.1 hj
      exact ⟨basis[j], List.getElem?_eq_getElem hj, hkeys _ (List.getElem_mem hj)⟩)]
  split
  · rfl
  · rename_i hj
    rw [List.mem_range, not_lt] at hj
    unfold entryB
    rw [List.getElem?_eq_none hj]
    cases basis[i]? <;> rfl

theorem fromDictDense_entry {basis : List Bytes} (hb : basis.Nodup) {h : OpResult R}
    (hg : GoodDict n op cut r h) (hkeys : ∀ b ∈ basis, b ∈ Dict.keys h)
    (hclosed : ∀ b ∈ basis, ∀ x ∈ succB n op cut r b, x ∈ basis) :
    fromDictDense h basis = .ok (entryB n op cut r basis) := by
  rw [fromDictDense_eq hb hg hkeys hclosed, ← fromDictSerial_entry hb hg hkeys hclosed,
    fromDictSerial_eq hb hg hkeys hclosed]
  congr 1
  funext i j
  have hnd := nodupKeys_matEvents hb (hg.nodup_dcols basis _)
    (List.nodup_range (n := basis.length))
  exact (foldl_put _ hnd _ i j).trans (csr_eq_get? _ hnd i j).symm

theorem mem_localStates (ord : List Bytes → List Bytes) (hord : ∀ l, (ord l).Perm l)
    (h : OpResult R) (basis : List Bytes) (b : Bytes) :
    b ∈ localStates ord h basis ↔ b ∈ basis ∧ b ∈ Dict.keys h := by
  unfold localStates
  rw [(hord _).mem_iff, List.mem_filter, List.mem_dedup]
  simp

theorem nodup_localStates (ord : List Bytes → List Bytes) (hord : ∀ l, (ord l).Perm l)
    (h : OpResult R) (basis : List Bytes) : (localStates ord h basis).Nodup := by
  unfold localStates
  rw [(hord _).nodup_iff]
  exact (List.nodup_dedup basis).filter _

theorem fromDictLocal_eq {basis : List Bytes} (hb : basis.Nodup) {h : OpResult R}
    (hg : GoodDict n op cut r h) (ord : List Bytes → List Bytes) (hord : ∀ l, (ord l).Perm l)
    (hclosed : ∀ b ∈ basis, ∀ x ∈ succB n op cut r b, x ∈ basis) :
    fromDictLocal ord h basis = .ok (csr (matEvents basis (dcols h basis)
      ((localStates ord h basis).map basis.idxOf))) := by
  unfold fromDictLocal
  rw [foldlM_ok _ (fun t b => t ++ colEvents basis (dcols h basis (basis.idxOf b)) (basis.idxOf b))]
  · rw [foldl_append_eq]
    unfold matEvents
    rw [List.flatMap_map]
    rfl
  · intro t b hb'
    obtain ⟨hm, hk⟩ := (mem_localStates ord hord h basis b).1 hb'
    rw [Dict.mem_keys_iff, Option.isSome_iff_exists] at hk
    obtain ⟨col, hcol⟩ := hk
    have e : dcols h basis (basis.idxOf b) = col := by
      unfold dcols dcol
      rw [List.getD_eq_getElem _ _ (List.idxOf_lt_length_of_mem hm), List.getElem_idxOf, hcol]; rfl
    have hget : Dict.get h b = .ok col := by unfold Dict.get; rw [hcol]
    simp only [bind, Except.bind, hget, get_basisIndex hb hm]
    rw [e]
    exact foldlM_triplets hb col (fun k hk => hclosed _ hm _ ((hg.mem_keys_col hcol k).1 hk)) _ t

theorem fromDictLocal_entry {basis : List Bytes} (hb : basis.Nodup) {h : OpResult R}
    (hg : GoodDict n op cut r h) (ord : List Bytes → List Bytes) (hord : ∀ l, (ord l).Perm l)
    (hclosed : ∀ b ∈ basis, ∀ x ∈ succB n op cut r b, x ∈ basis) :
    fromDictLocal ord h basis = .ok (fun i j =>
      if basis.getD j [] ∈ Dict.keys h then entryB n op cut r basis i j else 0) := by
  rw [fromDictLocal_eq hb hg ord hord hclosed]
  congr 1
  funext i j
  have hnd : ((localStates ord h basis).map basis.idxOf).Nodup := by
    rw [List.nodup_iff_pairwise_ne, List.pairwise_map]
    refine (nodup_localStates ord hord h basis).imp_of_mem ?_
    intro a b ha hb' hne he
    exact hne (List.idxOf_inj ((mem_localStates ord hord h basis a).1 ha).1 |>.1 he)
  rw [csr_eq_get? _ (nodupKeys_matEvents hb (hg.nodup_dcols basis _) hnd),
    get?_dcols_entry hb hg _ hnd]
  · by_cases hj : j < basis.length
    · have e : basis.getD j [] = basis[j] := by simp [hj]
      have : j ∈ (localStates ord h basis).map basis.idxOf ↔ basis.getD j [] ∈ Dict.keys h := by
        rw [e, List.mem_map]
        constructor
        · rintro ⟨b, hb', rfl⟩
          rw [List.getElem_idxOf]
          exact ((mem_localStates ord hord h basis b).1 hb').2
        · intro hk
          exact ⟨basis[j], (mem_localStates ord hord h basis _).2 ⟨List.getElem_mem hj, hk⟩,
            hb.idxOf_getElem j hj⟩
      simp only [this]
    · have : entryB n op cut r basis i j = 0 := by
        unfold entryB
        rw [List.getElem?_eq_none (not_lt.1 hj)]
        cases basis[i]? <;> rfl
      simp [this]
  · intro j hj
    obtain ⟨b, hb', rfl⟩ := List.mem_map.1 hj
    obtain ⟨hm, hk⟩ := (mem_localStates ord hord h basis b).1 hb'
    refine ⟨b, ?_, hk⟩
    rw [List.getElem?_eq_getElem (List.idxOf_lt_length_of_mem hm), List.getElem_idxOf]

/-- Broadcast and sum of the local matrices. -/
theorem runs_sumLocal (rs : List (Fin N)) (L : Fin N → Mat R) (acc : Mat R) :
    Runs sum (fun k : Fin N => sumLocal (L k) (rs.map Fin.val) acc)
      (fun _ => fun i j => acc i j + (rs.map fun s => L s i j).sum) := by
  induction rs generalizing acc with
  | nil => exact .ret fun k => by simp [sumLocal]
  | cons s rs ih =>
    refine Runs.bind (P := fun k : Fin N => Mpi.bcast s.val (Msg.matrix (R := R) (L k)))
      (Runs.bcast _ s (fun k => Msg.matrix (L k)) (fun _ => rfl)) ?_
    refine (ih (fun i j => acc i j + L s i j)).congr (fun _ => rfl) (fun _ => ?_)
    funext i j
    rw [List.map_cons, List.sum_cons, add_assoc]

end

end Verif
