/-
C49, C50: allgather_dict and the MPI modes of get_hamiltonian_matrix as programs of
the ranks (C50 for expand_basis is C23 and C25).
-/
import Verif.Lemmas.Allgather
import Verif.Model.HamiltonianMpi
import Verif.Prop.Hamiltonian

namespace Verif

open Finset Psr Spec Mpi

section
variable {κ ν : Type} [DecidableEq κ] {N : ℕ}

theorem get?_foldl_update (data : Fin N → Dict κ ν) (hnd : ∀ k, Dict.NodupKeys (data k))
    (rs : List (Fin N)) (t : Dict κ ν) (key : κ) :
    Dict.get? (rs.foldl (fun t s => Dict.update t (data s)) t) key
      = (rs.reverse.findSome? fun s => Dict.get? (data s) key).or (Dict.get? t key) := by
  induction rs generalizing t with
  | nil => simp
  | cons s rs ih =>
    rw [List.foldl_cons, ih, Dict.get?_update _ _ (hnd s), List.reverse_cons, List.findSome?_append]
    cases h1 : rs.reverse.findSome? fun s => Dict.get? (data s) key with
    | some v => simp
    | none =>
      cases h2 : Dict.get? (data s) key <;> simp [h2]

/-- C49, C50.  `allgather_dict`: all ranks finish under every schedule, whether or
not the data is sent in chunks; every rank's `total` is then its former `total`
updated with the data of rank 0, rank 1, … in this order. -/
theorem C49_allgather (data total : Fin N → Dict κ ν) (chunk : ℕ) (hc : 0 < chunk)
    (sum : List (GatherMsg κ ν) → GatherMsg κ ν) :
    AllRanksFinish sum (fun k : Fin N => allgatherDict (data k) (total k) chunk k.val N)
      (fun k => (List.finRange N).foldl (fun t s => Dict.update t (data s)) (total k)) :=
  (runs_allgatherDict data total hc).allRanksFinish

/-- C49.  For data with keys on one rank each and not in `total` (as the
docstring demands) the new `total` is the union. -/
theorem C49_union (data total : Fin N → Dict κ ν) (chunk : ℕ) (hc : 0 < chunk)
    (sum : List (GatherMsg κ ν) → GatherMsg κ ν)
    (hnd : ∀ k, Dict.NodupKeys (data k))
    (huniq : ∀ k l key, k ≠ l → key ∈ Dict.keys (data k) → key ∉ Dict.keys (data l))
    (hfresh : ∀ k l key, key ∈ Dict.keys (data k) → key ∉ Dict.keys (total l)) :
    ∃ total' : Fin N → Dict κ ν,
      AllRanksFinish sum (fun k : Fin N => allgatherDict (data k) (total k) chunk k.val N) total' ∧
      ∀ k key v, Dict.get? (total' k) key = some v ↔
        Dict.get? (total k) key = some v ∨ ∃ l, Dict.get? (data l) key = some v := by
  refine ⟨_, C49_allgather data total chunk hc sum, ?_⟩
  intro k key v
  rw [get?_foldl_update data hnd]
  cases h : (List.finRange N).reverse.findSome? fun s => Dict.get? (data s) key with
  | none =>
    rw [List.findSome?_eq_none_iff] at h
    simp only [Option.none_or]
    constructor
    · exact Or.inl
    · rintro (h1 | ⟨l, hl⟩)
      · exact h1
      · rw [h l (by simp)] at hl; cases hl
  | some w =>
    obtain ⟨l, -, hl⟩ := List.exists_of_findSome?_eq_some h
    have hkl : key ∈ Dict.keys (data l) := by rw [Dict.mem_keys_iff, hl]; rfl
    simp only [Option.some_or]
    constructor
    · rintro h1
      exact Or.inr ⟨l, by rw [hl, h1]⟩
    · rintro (h1 | ⟨m, hm⟩)
      · exact absurd (by rw [Dict.mem_keys_iff, h1]; rfl) (hfresh l k key hkl)
      · have : m = l := by
          by_contra hne
          exact huniq l m key (Ne.symm hne) hkl (by rw [Dict.mem_keys_iff, hm]; rfl)
        rw [this, hl] at hm
        exact hm

/-- C49.  `dict_chunks_from_one_MPI_rank`: the root yields chunks of at most
`chunk_maxsize` entries that together are its data; the other ranks yield as many
`None`. -/
theorem C49_chunks (data : Fin N → Dict κ ν) (chunk : ℕ) (hc : 0 < chunk) (root : Fin N)
    (sum : List (GatherMsg κ ν) → GatherMsg κ ν) :
    ∃ chunks : List (Dict κ ν), (∀ c ∈ chunks, c.length ≤ chunk) ∧ chunks.flatten = data root ∧
      AllRanksFinish sum (fun k : Fin N => dictChunksFromOneRank (data k) chunk root.val k.val)
        (fun k => if k = root then chunks.map .dict else chunks.map fun _ => .none) :=
  ⟨chunksOf chunk (data root), fun _ h => mem_isliceChunks h,
    flatten_isliceChunks _ _ _ (ceilDiv_mul hc), (runs_dictChunks data hc root).allRanksFinish⟩

end

section
variable {R F : Type} [CommRing R] [StarRing R] [CommRing F] [LinearOrder F]
  [IsStrictOrderedRing F] [Amp R F] {N : ℕ}

omit [CommRing R] [StarRing R] in
theorem runs_denseGather {sum : List (Dict ℕ (Dict ℕ R)) → Dict ℕ (Dict ℕ R)}
    (hRank : Fin N → Dict ℕ (Dict ℕ R)) (rs : List (Fin N)) (h : Mat R) :
    Runs sum (fun k : Fin N => denseGather (hRank k) (rs.map Fin.val) h)
      (fun _ => rs.foldl (fun h s => (hRank s).foldl
        (fun h p => p.2.foldl (fun h q => h.put q.1 p.1 q.2) h) h) h) := by
  induction rs generalizing h with
  | nil => exact .ret fun k => rfl
  | cons s rs ih =>
    refine Runs.bind (P := fun k : Fin N => Mpi.bcast s.val (hRank k))
      (Runs.bcast _ s hRank (fun _ => rfl)) ?_
    exact (ih _).congr (fun _ => rfl) (fun _ => rfl)

omit [StarRing R] in
theorem runs_sparseGather {sum : List (Mat R) → Mat R}
    (hSparse : Fin N → Mat R) (rs : List (Fin N)) (h : Mat R) :
    Runs sum (fun k : Fin N => sparseGather (hSparse k) (rs.map Fin.val) h)
      (fun _ => rs.foldl (fun h s => fun i j => h i j + hSparse s i j) h) := by
  induction rs generalizing h with
  | nil => exact .ret fun k => rfl
  | cons s rs ih =>
    refine Runs.bind (P := fun k : Fin N => Mpi.bcast s.val (hSparse k))
      (Runs.bcast _ s hSparse (fun _ => rfl)) ?_
    exact (ih _).congr (fun _ => rfl) (fun _ => rfl)

theorem range_eq_finRange (N : ℕ) : List.range N = (List.finRange N).map Fin.val := by simp

/-- C50, C20.  `get_hamiltonian_matrix` in mode `dense_MPI`: under every schedule
all ranks finish and have the matrix of the mode `dense_serial`. -/
theorem C50_dense_MPI (hN : 0 < N) (n : ℕ) (op : Op ℕ R) (hop : OpInSystem n op) (cut : F)
    (states : List (Finset ℕ)) (hnd : states.Nodup) (hst : ∀ S ∈ states, S ⊆ range n)
    (sum : List (Dict ℕ (Dict ℕ R)) → Dict ℕ (Dict ℕ R)) :
    ∃ H, getHamiltonianMatrix n op cut (states.map (encBytes n)) .denseSerial N = .ok H ∧
      AllRanksFinish sum (fun k : Fin N => denseMPIRank n op cut (states.map (encBytes n)) N k.val)
        (fun _ => H) := by
  obtain ⟨H, hH, -⟩ := C21_matrix_elements n op hop cut states hnd hst .denseMPI N hN
  refine ⟨H, (C20_modes_agree n op hop cut states hnd hst .denseSerial .denseMPI N N hN hN).trans hH, ?_⟩
  have hb : (states.map (encBytes n)).Nodup := by
    rw [List.nodup_iff_pairwise_ne, List.pairwise_map]
    refine hnd.imp_of_mem ?_
    intro S T hS hT hne h
    exact hne (encBytes_injOn (hst S hS) (hst T hT) h)
  have hbasis : ∀ b ∈ states.map (encBytes n), ∃ S ⊆ range n, b = encBytes n S := by
    intro b hb
    obtain ⟨S, hS, rfl⟩ := List.mem_map.1 hb
    exact ⟨S, hst S hS, rfl⟩
  let loc : Fin N → Dict ℕ (Dict ℕ R) := fun k =>
    (jobsPure N (List.range (states.map (encBytes n)).length) k.val).map fun j =>
      (j, (colEvents (states.map (encBytes n)) (colOf n op cut (states.map (encBytes n)) j) j).map
        fun e => (e.1.1, e.2))
  have hloc : ∀ k : Fin N, denseLocal n op cut (states.map (encBytes n)) N k.val = .ok (loc k) :=
    fun k => denseLocal_eq hop cut hb hbasis k.isLt
  have hlift : ∀ k : Fin N, denseMPIRank n op cut (states.map (encBytes n)) N k.val
      = denseGather (loc k) ((List.finRange N).map Fin.val) fun _ _ => 0 := by
    intro k
    unfold denseMPIRank
    rw [hloc k, range_eq_finRange N]
    rfl
  refine Runs.allRanksFinish ?_
  simp only [hlift]
  refine (runs_denseGather _ _ _).congr (fun _ => rfl) (fun _ => ?_)
  have hH' : hamiltonianDenseMPI n op cut (states.map (encBytes n)) N = .ok H := hH
  unfold hamiltonianDenseMPI at hH'
  rw [range_eq_finRange N, List.foldlM_map, foldlM_ok _ (fun (h : Mat R) (k : Fin N) =>
    (loc k).foldl (fun h p => p.2.foldl (fun h q => h.put q.1 p.1 q.2) h) h)] at hH'
  · injection hH' with hH'
    rw [← hH']
  · intro h k _
    rw [hloc k]
    rfl

/-- C50, C20.  The same for mode `sparse_MPI`. -/
theorem C50_sparse_MPI (hN : 0 < N) (n : ℕ) (op : Op ℕ R) (hop : OpInSystem n op) (cut : F)
    (states : List (Finset ℕ)) (hnd : states.Nodup) (hst : ∀ S ∈ states, S ⊆ range n)
    (sum : List (Mat R) → Mat R) :
    ∃ H, getHamiltonianMatrix n op cut (states.map (encBytes n)) .denseSerial N = .ok H ∧
      AllRanksFinish sum (fun k : Fin N => sparseMPIRank n op cut (states.map (encBytes n)) N k.val)
        (fun _ => H) := by
  obtain ⟨H, hH, -⟩ := C21_matrix_elements n op hop cut states hnd hst .sparseMPI N hN
  refine ⟨H, (C20_modes_agree n op hop cut states hnd hst .denseSerial .sparseMPI N N hN hN).trans hH, ?_⟩
  have hbasis : ∀ b ∈ states.map (encBytes n), ∃ S ⊆ range n, b = encBytes n S := by
    intro b hb
    obtain ⟨S, hS, rfl⟩ := List.mem_map.1 hb
    exact ⟨S, hst S hS, rfl⟩
  have hloc : ∀ k : Fin N, (do
      let jobs ← getJobTasks k.val N (List.range (states.map (encBytes n)).length)
      sparseTriplets n op cut (states.map (encBytes n)) jobs)
      = .ok (matEvents (states.map (encBytes n)) (colOf n op cut (states.map (encBytes n)))
        (jobsPure N (List.range (states.map (encBytes n)).length) k.val)) := by
    intro k
    rw [getJobTasks_eq k.isLt]
    simp only [bind, Except.bind]
    exact sparseTriplets_eq hop cut hbasis _
      (fun j hj => List.mem_range.1 (mem_jobsPure hN _ k.isLt hj))
  have hlift : ∀ k : Fin N, sparseMPIRank n op cut (states.map (encBytes n)) N k.val
      = sparseGather (csr (matEvents (states.map (encBytes n)) (colOf n op cut (states.map (encBytes n)))
        (jobsPure N (List.range (states.map (encBytes n)).length) k.val)))
        ((List.finRange N).map Fin.val) fun _ _ => 0 := by
    intro k
    unfold sparseMPIRank
    have := hloc k
    rw [getJobTasks_eq k.isLt] at this ⊢
    simp only [bind, Except.bind] at this ⊢
    rw [this, range_eq_finRange N]
    rfl
  refine Runs.allRanksFinish ?_
  simp only [hlift]
  refine (runs_sparseGather _ _ _).congr (fun _ => rfl) (fun _ => ?_)
  have hH' : hamiltonianSparseMPI n op cut (states.map (encBytes n)) N = .ok H := hH
  unfold hamiltonianSparseMPI at hH'
  rw [range_eq_finRange N, List.foldlM_map, foldlM_ok _ (fun (h : Mat R) (k : Fin N) =>
    fun i j => h i j + csr (matEvents (states.map (encBytes n)) (colOf n op cut (states.map (encBytes n)))
        (jobsPure N (List.range (states.map (encBytes n)).length) k.val)) i j)] at hH'
  · injection hH' with hH'
    rw [← hH']
  · intro h k _
    have := hloc k
    rw [getJobTasks_eq k.isLt] at this ⊢
    simp only [bind, Except.bind] at this ⊢
    rw [this]
    rfl

end

/-! Non-vacuity. -/

/-- Three ranks; rank 2 has five entries, sent in chunks of two. -/
def exData : Fin 3 → Dict ℕ ℕ := ![[(1, 10)], [], [(2, 20), (3, 30), (4, 40), (5, 50), (6, 60)]]

example := C49_union exData (fun _ => [(0, 0)]) 2 (by decide) (fun _ => .none)
  (by unfold Dict.NodupKeys; decide) (by
    intro k l key hkl h h'
    revert h h'
    fin_cases k <;> fin_cases l <;> simp [exData, Dict.keys] at hkl ⊢ <;> omega) (by
    intro k l key h h'
    revert h h'
    fin_cases k <;> simp [exData, Dict.keys] <;> omega)

example : chunksOf 2 (exData 2) = [[(2, 20), (3, 30)], [(4, 40), (5, 50)], [(6, 60)]] := by decide

example := C50_dense_MPI (N := 3) (by decide) 3 exHerm exHerm_inSystem 1 [{0, 2}, {1, 2}] (by decide)
  (by decide) (fun _ => [])
example := C50_sparse_MPI (N := 3) (by decide) 3 exHerm exHerm_inSystem 1 [{0, 2}, {1, 2}] (by decide)
  (by decide) (fun _ _ _ => 0)

end Verif
