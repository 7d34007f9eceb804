import Verif.Lemmas.Cache
import Verif.Lemmas.Operators
import Verif.Model.Hamiltonian

set_option linter.unusedSectionVars false
set_option linter.unusedSimpArgs false

namespace Verif

open Finset Spec Psr

/-! ### lists -/

theorem pyGet_ofNat {α : Type*} (l : List α) (i : ℕ) (h : i < l.length) :
    pyGet l (i : ℤ) = .ok l[i] := by
  unfold pyGet pyIndex
  simp [h]

theorem mapM_ok {α β : Type*} (f : α → Py β) (g : α → β) (l : List α)
    (h : ∀ a ∈ l, f a = .ok (g a)) : l.mapM f = .ok (l.map g) := by
  induction l with
  | nil => rfl
  | cons a l ih =>
    rw [List.mapM_cons, h a (by simp), ih (fun b hb => h b (by simp [hb]))]
    rfl

/-- The tasks of one rank. -/
def jobsPure {α : Type*} (ranks : ℕ) (tasks : List α) (rank : ℕ) : List α :=
  (tasks.drop (tasks.length / ranks * rank)).take (tasks.length / ranks)
    ++ ((tasks.drop (tasks.length / ranks * ranks))[rank]?).toList

theorem mapM_pyGet_range' {α : Type*} (l : List α) (m s : ℕ) (h : s + m ≤ l.length) :
    (List.range' s m).mapM (fun (i : ℕ) => pyGet l (i : ℤ)) = .ok ((l.drop s).take m) := by
  induction m generalizing s with
  | zero => simp [pure, Except.pure]
  | succ m ih =>
    have hs : s < l.length := by omega
    rw [List.range'_succ, List.mapM_cons, pyGet_ofNat l s hs, ih (s + 1) (by omega),
      List.drop_eq_getElem_cons hs, List.take_succ_cons]
    rfl

theorem getJobTasks_eq {α : Type*} {rank ranks : ℕ} (h : rank < ranks) (tasks : List α) :
    getJobTasks rank ranks tasks = .ok (jobsPure ranks tasks rank) := by
  have hr : ranks ≠ 0 := by omega
  have hdiv : tasks.length / ranks * ranks + tasks.length % ranks = tasks.length := by
    rw [mul_comm]; exact Nat.div_add_mod _ _
  unfold getJobTasks jobsPure
  set nj := tasks.length / ranks with hnj
  have hle : nj * rank + nj ≤ nj * ranks := by
    calc nj * rank + nj = nj * (rank + 1) := by ring
      _ ≤ nj * ranks := Nat.mul_le_mul_left _ (by omega)
  have e : ((tasks.length : ℤ) - (tasks.length % ranks : ℕ) + (rank : ℕ)) = ((nj * ranks + rank : ℕ) : ℤ) := by
    push_cast; have := congrArg (Nat.cast : ℕ → ℤ) hdiv; push_cast at this; linarith
  simp only [hr, if_false, ← hnj]
  rw [mapM_pyGet_range' _ _ _ (by omega)]
  simp only [bind, Except.bind, pure, Except.pure]
  by_cases hrest : rank < tasks.length % ranks
  · have hlt : nj * ranks + rank < tasks.length := by omega
    simp only [hrest, if_true]
    rw [e, pyGet_ofNat _ _ hlt]
    simp [hlt]
  · have hge : tasks.length ≤ nj * ranks + rank := by omega
    simp only [hrest, if_false]
    rw [List.getElem?_eq_none (by rw [List.length_drop]; omega)]
    simp

theorem flatMap_take_range {α : Type*} (l : List α) (m k : ℕ) :
    (List.range k).flatMap (fun r => (l.drop (m * r)).take m) = l.take (m * k) := by
  induction k with
  | zero => simp
  | succ k ih =>
    rw [List.range_succ, List.flatMap_append, ih, Nat.mul_succ, List.take_add]
    simp

theorem flatMap_getElem?_range {α : Type*} (l : List α) (k : ℕ) :
    (List.range k).flatMap (fun r => (l[r]?).toList) = l.take k := by
  induction k with
  | zero => simp
  | succ k ih =>
    rw [List.range_succ, List.flatMap_append, ih, List.take_add_one]
    simp

theorem jobsPure_perm {α : Type*} {ranks : ℕ} (h : 0 < ranks) (tasks : List α) :
    ((List.range ranks).flatMap (jobsPure ranks tasks)).Perm tasks := by
  have h1 := List.flatMap_append_perm (List.range ranks)
    (fun rank => (tasks.drop (tasks.length / ranks * rank)).take (tasks.length / ranks))
    (fun rank => ((tasks.drop (tasks.length / ranks * ranks))[rank]?).toList)
  refine h1.symm.trans ?_
  rw [flatMap_take_range, flatMap_getElem?_range, List.take_of_length_le (i := ranks)]
  · rw [List.take_append_drop]
  · rw [List.length_drop]
    have hdiv : tasks.length / ranks * ranks + tasks.length % ranks = tasks.length := by
      rw [mul_comm]; exact Nat.div_add_mod _ _
    have := Nat.mod_lt tasks.length h
    omega

theorem jobsPure_length {α : Type*} {rank ranks : ℕ} (h : rank < ranks) (tasks : List α) :
    (jobsPure ranks tasks rank).length
      = tasks.length / ranks + if rank < tasks.length % ranks then 1 else 0 := by
  have hdiv : tasks.length / ranks * ranks + tasks.length % ranks = tasks.length := by
    rw [mul_comm]; exact Nat.div_add_mod _ _
  unfold jobsPure
  set nj := tasks.length / ranks with hnj
  have hle : nj * rank + nj ≤ nj * ranks := by
    calc nj * rank + nj = nj * (rank + 1) := by ring
      _ ≤ nj * ranks := Nat.mul_le_mul_left _ (by omega)
  rw [List.length_append, List.length_take, List.length_drop]
  congr 1
  · omega
  · by_cases hrest : rank < tasks.length % ranks
    · rw [if_pos hrest, List.getElem?_eq_getElem (by rw [List.length_drop]; omega)]
      rfl
    · rw [if_neg hrest, List.getElem?_eq_none (by rw [List.length_drop]; omega)]
      rfl

/-! ### matrices from events -/

section
variable {R F : Type} [CommRing R] [StarRing R] [CommRing F] [LinearOrder F]
  [IsStrictOrderedRing F] [Amp R F]

/-- Assigning matrix entries one after the other. -/
theorem foldl_put (evs : List ((ℕ × ℕ) × R)) (hnd : Dict.NodupKeys evs) (h : Mat R) (i j : ℕ) :
    evs.foldl (fun (h : Mat R) e => h.put e.1.1 e.1.2 e.2) h i j
      = (Dict.get? evs (i, j)).getD (h i j) := by
  induction evs generalizing h with
  | nil => rfl
  | cons e evs ih =>
    obtain ⟨⟨a, b⟩, v⟩ := e
    unfold Dict.NodupKeys at hnd
    rw [Dict.keys_cons, List.nodup_cons] at hnd
    rw [List.foldl_cons, ih hnd.2, Dict.get?_cons]
    unfold Mat.put
    by_cases hk : (a, b) = (i, j)
    · rw [if_pos hk]
      rw [hk] at hnd
      rw [(Dict.get?_eq_none_iff evs (i, j)).2 hnd.1]
      injection hk with h1 h2
      simp [h1, h2]
    · rw [if_neg hk]
      have : ¬ (i = a ∧ j = b) := by rintro ⟨rfl, rfl⟩; exact hk rfl
      rw [if_neg this]

theorem csr_eq_get? (evs : List ((ℕ × ℕ) × R)) (hnd : Dict.NodupKeys evs) (i j : ℕ) :
    csr evs i j = (Dict.get? evs (i, j)).getD 0 := by
  unfold csr
  rw [Dict.sum_items_eq evs hnd (i, j) (fun v => v)]
  simp

theorem csr_append (e f : List ((ℕ × ℕ) × R)) (i j : ℕ) :
    csr (e ++ f) i j = csr e i j + csr f i j := by
  simp [csr]

theorem csr_perm {e f : List ((ℕ × ℕ) × R)} (h : e.Perm f) (i j : ℕ) : csr e i j = csr f i j :=
  (h.map _).sum_eq

theorem get?_perm {κ ν : Type*} [DecidableEq κ] {d e : Dict κ ν} (hd : Dict.NodupKeys d)
    (h : d.Perm e) (k : κ) : Dict.get? d k = Dict.get? e k := by
  have he : Dict.NodupKeys e := (h.map Prod.fst).nodup_iff.1 hd
  cases hg : Dict.get? e k with
  | some v => exact Dict.get?_of_mem hd (h.mem_iff.2 (Dict.mem_of_get? hg))
  | none =>
    rw [Dict.get?_eq_none_iff] at hg ⊢
    exact fun hm => hg ((h.map Prod.fst).mem_iff.1 hm)

/-- basis index -/
theorem basisIndex_eq (basis : List Bytes) (h : basis.Nodup) : basisIndex basis = basis.zipIdx := by
  unfold basisIndex
  have := Dict.foldl_set_fresh basis.zipIdx (fun p => p.1) (fun p => p.2)
    (by rw [List.zipIdx_map_fst]; exact h) ([] : Dict Bytes ℕ) (by simp)
  rw [List.nil_append] at this
  rw [this]
  exact List.map_id _

theorem nodupKeys_basisIndex (basis : List Bytes) (h : basis.Nodup) :
    Dict.NodupKeys (basisIndex basis) := by
  rw [basisIndex_eq basis h]
  unfold Dict.NodupKeys Dict.keys
  rw [List.zipIdx_map_fst]; exact h

theorem get?_basisIndex {basis : List Bytes} (h : basis.Nodup) (k : Bytes) (i : ℕ) :
    Dict.get? (basisIndex basis) k = some i ↔ basis[i]? = some k := by
  constructor
  · intro hg
    have := Dict.mem_of_get? hg
    rw [basisIndex_eq basis h] at this
    exact (List.mem_zipIdx_iff_getElem?.1 this)
  · intro hg
    apply Dict.get?_of_mem (nodupKeys_basisIndex basis h)
    rw [basisIndex_eq basis h]
    exact List.mem_zipIdx_iff_getElem?.2 hg

/-- The entries that column `j` puts into the matrix. -/
def colEvents (basis : List Bytes) (col : Psi R) (j : ℕ) : List ((ℕ × ℕ) × R) :=
  col.filterMap fun p => (Dict.get? (basisIndex basis) p.1).map fun i => ((i, j), p.2)

theorem mem_colEvents {basis : List Bytes} (hb : basis.Nodup) {col : Psi R} {j : ℕ}
    {e : (ℕ × ℕ) × R} (he : e ∈ colEvents basis col j) :
    e.1.2 = j ∧ ∃ k, basis[e.1.1]? = some k ∧ (k, e.2) ∈ col := by
  unfold colEvents at he
  rw [List.mem_filterMap] at he
  obtain ⟨p, hp, hm⟩ := he
  rw [Option.map_eq_some_iff] at hm
  obtain ⟨i, hi, rfl⟩ := hm
  exact ⟨rfl, p.1, (get?_basisIndex hb _ _).1 hi, hp⟩

theorem nodupKeys_colEvents {basis : List Bytes} (hb : basis.Nodup) {col : Psi R}
    (hc : Dict.NodupKeys col) (j : ℕ) : Dict.NodupKeys (colEvents basis col j) := by
  induction col with
  | nil => exact Dict.nodupKeys_nil
  | cons p col ih =>
    unfold Dict.NodupKeys at hc
    rw [Dict.keys_cons, List.nodup_cons] at hc
    have ih := ih hc.2
    unfold colEvents at ih ⊢
    rw [List.filterMap_cons]
    cases hg : Dict.get? (basisIndex basis) p.1 with
    | none => exact ih
    | some i =>
      simp only [Option.map_some]
      unfold Dict.NodupKeys at ih ⊢
      rw [Dict.keys_cons, List.nodup_cons]
      refine ⟨?_, ih⟩
      intro hm
      obtain ⟨e, he, he1⟩ := List.mem_map.1 hm
      obtain ⟨-, k, hk, hkc⟩ := mem_colEvents hb he
      rw [he1] at hk
      simp only at hk
      rw [(get?_basisIndex hb _ _).1 hg] at hk
      injection hk with hk
      subst hk
      exact hc.1 (List.mem_map.2 ⟨_, hkc, rfl⟩)

theorem get?_colEvents {basis : List Bytes} (hb : basis.Nodup) {col : Psi R}
    (hc : Dict.NodupKeys col) (i j : ℕ) :
    Dict.get? (colEvents basis col j) (i, j) = match basis[i]? with
      | some k => Dict.get? col k
      | none => none := by
  cases hi : basis[i]? with
  | none =>
    simp only
    rw [Dict.get?_eq_none_iff]
    intro hm
    obtain ⟨e, he, he1⟩ := List.mem_map.1 hm
    obtain ⟨-, k, hk, -⟩ := mem_colEvents hb he
    rw [he1] at hk
    simp only at hk
    rw [hi] at hk
    cases hk
  | some k =>
    simp only
    cases hg : Dict.get? col k with
    | some v =>
      apply Dict.get?_of_mem (nodupKeys_colEvents hb hc j)
      unfold colEvents
      rw [List.mem_filterMap]
      refine ⟨(k, v), Dict.mem_of_get? hg, ?_⟩
      simp only
      rw [(get?_basisIndex hb k i).2 hi]
      rfl
    | none =>
      rw [Dict.get?_eq_none_iff]
      intro hm
      obtain ⟨e, he, he1⟩ := List.mem_map.1 hm
      obtain ⟨-, k', hk, hkc⟩ := mem_colEvents hb he
      rw [he1] at hk
      simp only at hk
      rw [hi] at hk
      injection hk with hk
      subst hk
      rw [Dict.get?_eq_none_iff] at hg
      exact hg (List.mem_map.2 ⟨_, hkc, rfl⟩)

/-- All entries of the columns `jobs`. -/
def matEvents (basis : List Bytes) (cols : ℕ → Psi R) (jobs : List ℕ) : List ((ℕ × ℕ) × R) :=
  jobs.flatMap fun j => colEvents basis (cols j) j

theorem get?_append {κ ν : Type*} [DecidableEq κ] (d e : Dict κ ν) (k : κ) :
    Dict.get? (d ++ e) k = (Dict.get? d k).or (Dict.get? e k) := by
  induction d with
  | nil => simp
  | cons p d ih =>
    obtain ⟨a, v⟩ := p
    rw [List.cons_append, Dict.get?_cons, Dict.get?_cons, ih]
    split <;> simp

theorem get?_colEvents_ne {basis : List Bytes} (hb : basis.Nodup) {col : Psi R} {j j' : ℕ}
    (h : j' ≠ j) (i : ℕ) : Dict.get? (colEvents basis col j) (i, j') = none := by
  rw [Dict.get?_eq_none_iff]
  intro hm
  obtain ⟨e, he, he1⟩ := List.mem_map.1 hm
  obtain ⟨h1, -⟩ := mem_colEvents hb he
  rw [he1] at h1
  exact h h1

theorem nodupKeys_matEvents {basis : List Bytes} (hb : basis.Nodup) {cols : ℕ → Psi R}
    {jobs : List ℕ} (hc : ∀ j ∈ jobs, Dict.NodupKeys (cols j)) (hj : jobs.Nodup) :
    Dict.NodupKeys (matEvents basis cols jobs) := by
  induction jobs with
  | nil => exact Dict.nodupKeys_nil
  | cons j jobs ih =>
    rw [List.nodup_cons] at hj
    unfold matEvents at ih ⊢
    rw [List.flatMap_cons]
    unfold Dict.NodupKeys
    rw [Dict.keys_append, List.nodup_append]
    refine ⟨nodupKeys_colEvents hb (hc j (by simp)) j, ih (fun j hj => hc j (by simp [hj])) hj.2, ?_⟩
    intro a ha b hb' hab
    subst hab
    obtain ⟨e, he, he1⟩ := List.mem_map.1 ha
    obtain ⟨f, hf, hf1⟩ := List.mem_map.1 hb'
    obtain ⟨j', hj', hf'⟩ := List.mem_flatMap.1 hf
    have h1 := (mem_colEvents hb he).1
    have h2 := (mem_colEvents hb hf').1
    rw [he1] at h1
    rw [hf1] at h2
    rw [h1] at h2
    exact hj.1 (h2 ▸ hj')

theorem get?_matEvents {basis : List Bytes} (hb : basis.Nodup) {cols : ℕ → Psi R}
    {jobs : List ℕ} (hc : ∀ j ∈ jobs, Dict.NodupKeys (cols j)) (hj : jobs.Nodup) (i j : ℕ) :
    Dict.get? (matEvents basis cols jobs) (i, j) = if j ∈ jobs then
      match basis[i]? with
      | some k => Dict.get? (cols j) k
      | none => none
      else none := by
  induction jobs with
  | nil => rfl
  | cons j' jobs ih =>
    rw [List.nodup_cons] at hj
    have ih := ih (fun j hj => hc j (by simp [hj])) hj.2
    unfold matEvents at ih ⊢
    rw [List.flatMap_cons, get?_append, ih]
    by_cases h : j = j'
    · subst h
      rw [get?_colEvents hb (hc j (by simp)), if_neg hj.1]
      simp
    · rw [get?_colEvents_ne hb h]
      simp [h]

theorem foldl_put_cols (basis : List Bytes) (col : Psi R) (j : ℕ) (h : Mat R) :
    col.foldl (fun h p =>
      match Dict.get? (basisIndex basis) p.1 with
      | some i => h.put i j p.2
      | none => h) h
    = (colEvents basis col j).foldl (fun (h : Mat R) e => h.put e.1.1 e.1.2 e.2) h := by
  induction col generalizing h with
  | nil => rfl
  | cons p col ih =>
    unfold colEvents at ih ⊢
    rw [List.foldl_cons, ih, List.filterMap_cons]
    cases Dict.get? (basisIndex basis) p.1 <;> rfl

theorem foldl_triplets (basis : List Bytes) (col : Psi R) (j : ℕ) (t : List ((ℕ × ℕ) × R)) :
    col.foldl (fun trip p =>
      match Dict.get? (basisIndex basis) p.1 with
      | some i => trip ++ [((i, j), p.2)]
      | none => trip) t = t ++ colEvents basis col j := by
  induction col generalizing t with
  | nil => simp [colEvents]
  | cons p col ih =>
    unfold colEvents at ih ⊢
    rw [List.foldl_cons, ih, List.filterMap_cons]
    cases Dict.get? (basisIndex basis) p.1 <;> simp

theorem foldl_append_eq {α β : Type*} (l : List α) (f : α → List β) (t : List β) :
    l.foldl (fun t a => t ++ f a) t = t ++ l.flatMap f := by
  induction l generalizing t with
  | nil => simp
  | cons a l ih => rw [List.foldl_cons, ih]; simp

/-! ### get_hamiltonian_matrix -/

/-- Column `j`. -/
def colOf (n : ℕ) (op : Op ℕ R) (cut : F) (basis : List Bytes) (j : ℕ) : Psi R :=
  applyOpPure n op [(basis.getD j [], 1)] cut none

theorem columnOf_eq {n : ℕ} {op : Op ℕ R} (hop : OpInSystem n op) (cut : F) {basis : List Bytes}
    (hbasis : ∀ b ∈ basis, ∃ S ⊆ range n, b = encBytes n S) {j : ℕ} (hj : j < basis.length) :
    columnOf n op cut basis j = .ok (colOf n op cut basis j) := by
  unfold columnOf colOf
  rw [pyGet_ofNat _ _ hj]
  obtain ⟨S, hS, he⟩ := hbasis basis[j] (List.getElem_mem hj)
  simp only [bind, Except.bind]
  rw [he, applyOp_eq hop (isState_single hS 1), List.getD_eq_getElem _ _ hj, he]
  rfl

theorem nodupKeys_colOf {n : ℕ} {op : Op ℕ R} (cut : F) {basis : List Bytes}
    (j : ℕ) : Dict.NodupKeys (colOf n op cut basis j) :=
  nodupKeys_prune _ _ (nodupKeys_foldl_addIf _ _ _ Dict.nodupKeys_nil)

theorem denseSerial_eq {n : ℕ} {op : Op ℕ R} (hop : OpInSystem n op) (cut : F) {basis : List Bytes}
    (hbasis : ∀ b ∈ basis, ∃ S ⊆ range n, b = encBytes n S) :
    hamiltonianDenseSerial n op cut basis
      = .ok ((matEvents basis (colOf n op cut basis) (List.range basis.length)).foldl
          (fun (h : Mat R) e => h.put e.1.1 e.1.2 e.2) (fun _ _ => 0)) := by
  unfold hamiltonianDenseSerial matEvents
  rw [foldlM_ok _ (fun h j => (colEvents basis (colOf n op cut basis j) j).foldl
    (fun (h : Mat R) e => h.put e.1.1 e.1.2 e.2) h), List.foldl_flatMap]
  intro h j hj
  rw [columnOf_eq hop cut hbasis (List.mem_range.1 hj)]
  simp only [bind, Except.bind, pure, Except.pure]
  exact congrArg _ (foldl_put_cols basis _ j h)

theorem sparseTriplets_eq {n : ℕ} {op : Op ℕ R} (hop : OpInSystem n op) (cut : F)
    {basis : List Bytes} (hbasis : ∀ b ∈ basis, ∃ S ⊆ range n, b = encBytes n S) (jobs : List ℕ)
    (hjobs : ∀ j ∈ jobs, j < basis.length) :
    sparseTriplets n op cut basis jobs = .ok (matEvents basis (colOf n op cut basis) jobs) := by
  unfold sparseTriplets
  rw [foldlM_ok _ (fun t j => t ++ colEvents basis (colOf n op cut basis j) j)]
  · rw [foldl_append_eq]; rfl
  · intro t j hj
    rw [columnOf_eq hop cut hbasis (hjobs j hj)]
    simp only [bind, Except.bind, pure, Except.pure]
    exact congrArg _ (foldl_triplets basis _ j t)

theorem sparseSerial_eq {n : ℕ} {op : Op ℕ R} (hop : OpInSystem n op) (cut : F) {basis : List Bytes}
    (hbasis : ∀ b ∈ basis, ∃ S ⊆ range n, b = encBytes n S) :
    hamiltonianSparseSerial n op cut basis
      = .ok (csr (matEvents basis (colOf n op cut basis) (List.range basis.length))) := by
  unfold hamiltonianSparseSerial
  rw [sparseTriplets_eq hop cut hbasis _ (fun j hj => List.mem_range.1 hj)]
  rfl

theorem mem_jobsPure {α : Type*} {ranks : ℕ} (h : 0 < ranks) (tasks : List α) {r : ℕ}
    (hr : r < ranks) {x : α} (hx : x ∈ jobsPure ranks tasks r) : x ∈ tasks :=
  (jobsPure_perm h tasks).mem_iff.1 (List.mem_flatMap.2 ⟨r, List.mem_range.2 hr, hx⟩)

theorem foldl_add_csr (l : List ℕ) (f : ℕ → List ((ℕ × ℕ) × R)) (h : Mat R) (i j : ℕ) :
    l.foldl (fun (h : Mat R) r => fun i j => h i j + csr (f r) i j) h i j
      = h i j + csr (l.flatMap f) i j := by
  induction l generalizing h with
  | nil => simp [csr]
  | cons r l ih =>
    rw [List.foldl_cons, ih, List.flatMap_cons, csr_append, add_assoc]

theorem flatMap_matEvents (basis : List Bytes) (cols : ℕ → Psi R) (l : List ℕ) (f : ℕ → List ℕ) :
    l.flatMap (fun r => matEvents basis cols (f r)) = matEvents basis cols (l.flatMap f) := by
  unfold matEvents
  rw [List.flatMap_assoc]

theorem sparseMPI_eq {n : ℕ} {op : Op ℕ R} (hop : OpInSystem n op) (cut : F) {basis : List Bytes}
    (hbasis : ∀ b ∈ basis, ∃ S ⊆ range n, b = encBytes n S) {ranks : ℕ} (hr : 0 < ranks) :
    hamiltonianSparseMPI n op cut basis ranks
      = .ok (csr (matEvents basis (colOf n op cut basis) (List.range basis.length))) := by
  unfold hamiltonianSparseMPI
  rw [foldlM_ok _ (fun (h : Mat R) r => fun i j => h i j
    + csr (matEvents basis (colOf n op cut basis) (jobsPure ranks (List.range basis.length) r)) i j)]
  · congr 1
    funext i j
    rw [foldl_add_csr, flatMap_matEvents, zero_add]
    apply csr_perm
    exact (jobsPure_perm hr _).flatMap_right _
  · intro h r hr'
    rw [List.mem_range] at hr'
    rw [getJobTasks_eq hr']
    simp only [bind, Except.bind]
    rw [sparseTriplets_eq hop cut hbasis _ (fun j hj => List.mem_range.1 (mem_jobsPure hr _ hr' hj))]
    rfl

/-- The dict `hRank[j]`. -/
theorem foldl_rowdict {basis : List Bytes} (hb : basis.Nodup) {col : Psi R} (hc : Dict.NodupKeys col)
    (j : ℕ) :
    col.foldl (fun hj p =>
      match Dict.get? (basisIndex basis) p.1 with
      | some i => Dict.set hj i p.2
      | none => hj) []
    = (colEvents basis col j).map fun e => (e.1.1, e.2) := by
  have h1 : ∀ d : Dict ℕ R, col.foldl (fun hj p =>
      match Dict.get? (basisIndex basis) p.1 with
      | some i => Dict.set hj i p.2
      | none => hj) d
      = (colEvents basis col j).foldl (fun d e => Dict.set d e.1.1 e.2) d := by
    clear hc
    induction col with
    | nil => intro d; rfl
    | cons p col ih =>
      intro d
      unfold colEvents at ih ⊢
      rw [List.foldl_cons, ih, List.filterMap_cons]
      cases Dict.get? (basisIndex basis) p.1 <;> rfl
  rw [h1]
  refine (Dict.foldl_set_fresh (colEvents basis col j) (fun e => e.1.1) (fun e => e.2) ?_ []
    (by simp)).trans rfl
  · have hnd := nodupKeys_colEvents hb hc j
    unfold Dict.NodupKeys Dict.keys at hnd
    rw [List.nodup_iff_pairwise_ne, List.pairwise_map] at hnd ⊢
    refine hnd.imp_of_mem ?_
    intro a b ha hb' hne heq
    apply hne
    have h1 := (mem_colEvents hb ha).1
    have h2 := (mem_colEvents hb hb').1
    exact Prod.ext heq (h1.trans h2.symm)

theorem denseLocal_eq {n : ℕ} {op : Op ℕ R} (hop : OpInSystem n op) (cut : F) {basis : List Bytes}
    (hb : basis.Nodup)
    (hbasis : ∀ b ∈ basis, ∃ S ⊆ range n, b = encBytes n S) {ranks r : ℕ} (hr : r < ranks) :
    denseLocal n op cut basis ranks r
      = .ok ((jobsPure ranks (List.range basis.length) r).map fun j =>
          (j, (colEvents basis (colOf n op cut basis j) j).map fun e => (e.1.1, e.2))) := by
  unfold denseLocal
  have h0 : 0 < ranks := by omega
  rw [getJobTasks_eq hr]
  simp only [bind, Except.bind]
  have hnd : (jobsPure ranks (List.range basis.length) r).Nodup := by
    have := (jobsPure_perm h0 (List.range basis.length)).nodup_iff.2 List.nodup_range
    rw [List.nodup_flatMap] at this
    exact this.1 r (List.mem_range.2 hr)
  have key := foldlM_ok (fun (hRank : Dict ℕ (Dict ℕ R)) (j : ℕ) => do
      let res ← columnOf n op cut basis j
      return Dict.set hRank j (res.foldl (fun hj p =>
        match Dict.get? (basisIndex basis) p.1 with
        | some i => Dict.set hj i p.2
        | none => hj) []))
    (fun d j => Dict.set d j
      ((colEvents basis (colOf n op cut basis j) j).map fun e => (e.1.1, e.2)))
    (jobsPure ranks (List.range basis.length) r) [] (by
      intro d j hj
      rw [columnOf_eq hop cut hbasis (List.mem_range.1 (mem_jobsPure h0 _ hr hj))]
      simp only [bind, Except.bind, pure, Except.pure]
      rw [← foldl_rowdict hb (nodupKeys_colOf cut j) j])
  refine key.trans ?_
  rw [Dict.foldl_set_fresh _ (fun j => j) _ (by simpa using hnd) _ (by simp)]
  rfl

theorem denseMPI_eq {n : ℕ} {op : Op ℕ R} (hop : OpInSystem n op) (cut : F) {basis : List Bytes}
    (hb : basis.Nodup) (hbasis : ∀ b ∈ basis, ∃ S ⊆ range n, b = encBytes n S) {ranks : ℕ} :
    hamiltonianDenseMPI n op cut basis ranks
      = .ok ((matEvents basis (colOf n op cut basis)
          ((List.range ranks).flatMap (jobsPure ranks (List.range basis.length)))).foldl
          (fun (h : Mat R) e => h.put e.1.1 e.1.2 e.2) (fun _ _ => 0)) := by
  unfold hamiltonianDenseMPI
  rw [← flatMap_matEvents, List.foldl_flatMap]
  apply foldlM_ok
  intro h r hr
  rw [List.mem_range] at hr
  rw [denseLocal_eq hop cut hb hbasis hr]
  simp only [bind, Except.bind, pure, Except.pure]
  congr 1
  rw [List.foldl_map]
  unfold matEvents
  rw [List.foldl_flatMap]
  congr 1
  funext h j
  rw [List.foldl_map]
  have : ∀ (l : List ((ℕ × ℕ) × R)), (∀ e ∈ l, e.1.2 = j) → ∀ h : Mat R,
      l.foldl (fun (h : Mat R) e => h.put e.1.1 j e.2) h
        = l.foldl (fun (h : Mat R) e => h.put e.1.1 e.1.2 e.2) h := by
    intro l hl
    induction l with
    | nil => intro h; rfl
    | cons e l ih =>
      intro h
      rw [List.foldl_cons, List.foldl_cons, ih (fun e he => hl e (by simp [he])), hl e (by simp)]
  exact this _ (fun e he => (mem_colEvents hb he).1) h

/-- All four modes. -/
theorem getHamiltonianMatrix_eq {n : ℕ} {op : Op ℕ R} (hop : OpInSystem n op) (cut : F)
    {basis : List Bytes} (hb : basis.Nodup)
    (hbasis : ∀ b ∈ basis, ∃ S ⊆ range n, b = encBytes n S) (mode : HMode) {ranks : ℕ}
    (hr : 0 < ranks) :
    getHamiltonianMatrix n op cut basis mode ranks
      = .ok fun i j => if j < basis.length then
          match basis[i]? with
          | some k => (Dict.get? (colOf n op cut basis j) k).getD 0
          | none => 0
        else 0 := by
  have hcols : ∀ jobs : List ℕ, ∀ j ∈ jobs, Dict.NodupKeys (colOf n op cut basis j) :=
    fun _ j _ => nodupKeys_colOf cut j
  have hval : ∀ i j, (Dict.get? (matEvents basis (colOf n op cut basis)
      (List.range basis.length)) (i, j)).getD 0 = if j < basis.length then
          match basis[i]? with
          | some k => (Dict.get? (colOf n op cut basis j) k).getD 0
          | none => 0
        else 0 := by
    intro i j
    rw [get?_matEvents hb (hcols _) List.nodup_range]
    by_cases hj : j < basis.length
    · rw [if_pos (List.mem_range.2 hj), if_pos hj]
      cases basis[i]? <;> rfl
    · rw [if_neg (fun h => hj (List.mem_range.1 h)), if_neg hj]
      rfl
  have hnd := nodupKeys_matEvents hb (hcols _) (List.nodup_range (n := basis.length))
  have hsparse : csr (matEvents basis (colOf n op cut basis) (List.range basis.length))
      = fun i j => if j < basis.length then
          match basis[i]? with
          | some k => (Dict.get? (colOf n op cut basis j) k).getD 0
          | none => 0
        else 0 := by
    funext i j
    rw [csr_eq_get? _ hnd]
    exact hval i j
  cases mode with
  | denseSerial =>
    simp only [getHamiltonianMatrix]
    rw [denseSerial_eq hop cut hbasis]
    congr 1
    funext i j
    rw [foldl_put _ hnd]
    exact hval i j
  | denseMPI =>
    simp only [getHamiltonianMatrix]
    rw [denseMPI_eq hop cut hb hbasis]
    congr 1
    funext i j
    have hp := jobsPure_perm hr (List.range basis.length)
    have hnd' := nodupKeys_matEvents hb (hcols _) (hp.nodup_iff.2 List.nodup_range)
    rw [foldl_put _ hnd', get?_perm hnd' (hp.flatMap_right _)]
    exact hval i j
  | sparseSerial =>
    simp only [getHamiltonianMatrix]
    rw [sparseSerial_eq hop cut hbasis, hsparse]
  | sparseMPI =>
    simp only [getHamiltonianMatrix]
    rw [sparseMPI_eq hop cut hbasis hr, hsparse]

end

end Verif
