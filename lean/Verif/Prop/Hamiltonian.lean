/-
C08, C19, C20, C21: distribution of tasks and the Hamiltonian matrix.
-/
import Verif.Lemmas.Hamiltonian
import Verif.Prop.ApplyOp

namespace Verif

open Finset Psr Spec

/-- C08.  The tasks given to the ranks are together exactly the list of tasks
(no task lost, none given twice). -/
theorem C08_partition {α : Type*} (ranks : ℕ) (hr : 0 < ranks) (tasks : List α) :
    ∃ parts : List (List α), parts.length = ranks ∧
      (∀ r (h : r < parts.length), getJobTasks r ranks tasks = .ok parts[r]) ∧
      parts.flatten.Perm tasks := by
  refine ⟨(List.range ranks).map (jobsPure ranks tasks), by simp, ?_, ?_⟩
  · intro r h
    rw [getJobTasks_eq (by simpa using h)]
    simp
  · exact jobsPure_perm hr tasks

/-- C08.  The numbers of tasks of two ranks differ by at most one; lower ranks
have at least as many tasks as higher ones. -/
theorem C08_balanced {α : Type*} (ranks : ℕ) (tasks : List α) (r s : ℕ) (hrs : r ≤ s)
    (hs : s < ranks) :
    ∃ a b, getJobTasks r ranks tasks = .ok a ∧ getJobTasks s ranks tasks = .ok b ∧
      b.length ≤ a.length ∧ a.length ≤ b.length + 1 := by
  refine ⟨_, _, getJobTasks_eq (by omega) tasks, getJobTasks_eq hs tasks, ?_⟩
  rw [jobsPure_length (lt_of_le_of_lt hrs hs), jobsPure_length hs]
  split <;> split <;> omega

/-- C08.  The same as positions: for `range(n)` the ranks' tasks are disjoint
and cover `0 … n-1`. -/
theorem C08_positions (ranks : ℕ) (hr : 0 < ranks) (n : ℕ) (i : ℕ) (hi : i < n) :
    ∃! r, r < ranks ∧ ∃ l, getJobTasks r ranks (List.range n) = .ok l ∧ i ∈ l := by
  have hp := jobsPure_perm hr (List.range n)
  have hm := hp.mem_iff.2 (List.mem_range.2 hi)
  obtain ⟨r, hr', hir⟩ := List.mem_flatMap.1 hm
  rw [List.mem_range] at hr'
  refine ⟨r, ⟨hr', _, getJobTasks_eq hr' _, hir⟩, ?_⟩
  rintro s ⟨hs, l, hl, his⟩
  rw [getJobTasks_eq hs] at hl
  injection hl with hl
  subst hl
  by_contra hne
  have hnd := hp.nodup_iff.2 List.nodup_range
  rw [List.nodup_flatMap] at hnd
  have hpw := hnd.2
  have hdis : ∀ a b, a < b → b < ranks → List.Disjoint (jobsPure ranks (List.range n) a)
      (jobsPure ranks (List.range n) b) := by
    intro a b hab hb
    have := List.pairwise_iff_getElem.1 hpw a b (by simp; omega) (by simpa using hb) hab
    simpa using this
  rcases Nat.lt_or_gt_of_ne hne with h | h
  · exact hdis s r h hr' his hir
  · exact hdis r s h hs hir his

section
variable {R F : Type} [CommRing R] [StarRing R] [CommRing F] [LinearOrder F]
  [IsStrictOrderedRing F] [Amp R F]

/-- C21.  In every mode and for every number of ranks, entry `(i, j)` is the
matrix element `⟨basis_i|op|basis_j⟩` if its weight reaches the cutoff, else 0;
nothing is stored outside the shape. -/
theorem C21_matrix_elements (n : ℕ) (op : Op ℕ R) (hop : OpInSystem n op) (cut : F)
    (states : List (Finset ℕ)) (hnd : states.Nodup) (hst : ∀ S ∈ states, S ⊆ range n)
    (mode : HMode) (ranks : ℕ) (hr : 0 < ranks) :
    ∃ H, getHamiltonianMatrix n op cut (states.map (encBytes n)) mode ranks = .ok H ∧
      (∀ i j (hi : i < states.length) (hj : j < states.length),
        H i j = storedElement op cut states[i] states[j]) ∧
      ∀ i j, ¬ (i < states.length ∧ j < states.length) → H i j = 0 := by
  have hb : (states.map (encBytes n)).Nodup := by
    rw [List.nodup_iff_pairwise_ne, List.pairwise_map]
    refine hnd.imp_of_mem ?_
    intro S T hS hT hne h
    exact hne (encBytes_injOn (hst S hS) (hst T hT) h)
  refine ⟨_, getHamiltonianMatrix_eq hop cut hb (by
    intro b hb
    obtain ⟨S, hS, rfl⟩ := List.mem_map.1 hb
    exact ⟨S, hst S hS, rfl⟩) mode hr, ?_, ?_⟩
  · intro i j hi hj
    have hSi := hst _ (List.getElem_mem hi)
    have hSj := hst _ (List.getElem_mem hj)
    have h1 : (states.map (encBytes n))[i]? = some (encBytes n states[i]) := by simp [hi]
    have h2 : (states.map (encBytes n)).getD j [] = encBytes n states[j] := by simp [hj]
    simp only [List.length_map, if_pos hj, h1]
    have := ampl_applyOpPure hop (isState_single hSj 1) cut none hSi
    rw [ampl, if_pos hSi, ampl_single hSj] at this
    unfold colOf
    rw [h2, this]
    unfold storedElement matrixElement
    by_cases h : cut ≤ abs2 (operator (opSpec op) (single states[j] 1) states[i])
    · rw [if_pos h, if_pos ⟨trivial, h⟩]
    · rw [if_neg h, if_neg (fun h' => h h'.2)]
  · intro i j hij
    by_cases hj : j < states.length
    · have hi : ¬ i < states.length := fun h => hij ⟨h, hj⟩
      simp [hj, List.getElem?_eq_none (not_lt.1 hi)]
    · simp [hj]

/-- C20.  All modes give the same matrix, for any number of ranks. -/
theorem C20_modes_agree (n : ℕ) (op : Op ℕ R) (hop : OpInSystem n op) (cut : F)
    (states : List (Finset ℕ)) (hnd : states.Nodup) (hst : ∀ S ∈ states, S ⊆ range n)
    (mode mode' : HMode) (ranks ranks' : ℕ) (hr : 0 < ranks) (hr' : 0 < ranks') :
    getHamiltonianMatrix n op cut (states.map (encBytes n)) mode ranks
      = getHamiltonianMatrix n op cut (states.map (encBytes n)) mode' ranks' := by
  obtain ⟨H, h, h1, h2⟩ := C21_matrix_elements n op hop cut states hnd hst mode ranks hr
  obtain ⟨H', h', h1', h2'⟩ := C21_matrix_elements n op hop cut states hnd hst mode' ranks' hr'
  rw [h, h']
  congr 1
  funext i j
  by_cases hij : i < states.length ∧ j < states.length
  · rw [h1 i j hij.1 hij.2, h1' i j hij.1 hij.2]
  · rw [h2 i j hij, h2' i j hij]

theorem storedElement_star {n : ℕ} {op : Op ℕ R} (hnd : Dict.NodupKeys op) (hop : OpInSystem n op)
    (hh : isHermitianOp op) (cut : F) {S T : Finset ℕ} (hS : S ⊆ range n) (hT : T ⊆ range n) :
    storedElement op cut S T = star (storedElement op cut T S) := by
  unfold storedElement
  rw [matrixElement_hermitian hnd hop hh hS hT, Amp.abs2_star]
  split <;> simp

/-- C19.  If `assert_hermitian(op)` passes, the Hamiltonian matrix is Hermitian in
every basis of distinct product states and every mode, pruning included. -/
theorem C19_matrix_hermitian (n : ℕ) (op : Op ℕ R) (hop : OpInSystem n op)
    (hdict : Dict.NodupKeys op) (hh : isHermitianOp op) (cut : F)
    (states : List (Finset ℕ)) (hnd : states.Nodup) (hst : ∀ S ∈ states, S ⊆ range n)
    (mode : HMode) (ranks : ℕ) (hr : 0 < ranks) :
    ∃ H, getHamiltonianMatrix n op cut (states.map (encBytes n)) mode ranks = .ok H ∧
      ∀ i j, H i j = star (H j i) := by
  obtain ⟨H, h, h1, h2⟩ := C21_matrix_elements n op hop cut states hnd hst mode ranks hr
  refine ⟨H, h, fun i j => ?_⟩
  by_cases hij : i < states.length ∧ j < states.length
  · rw [h1 i j hij.1 hij.2, h1 j i hij.2 hij.1]
    exact storedElement_star hdict hop hh cut (hst _ (List.getElem_mem _)) (hst _ (List.getElem_mem _))
  · rw [h2 i j hij, h2 j i (fun h => hij ⟨h.2, h.1⟩), star_zero]

end

/-! Non-vacuity. -/

example : getJobTasks 0 3 [10, 11, 12, 13, 14] = .ok [10, 13] := by decide
example : getJobTasks 1 3 [10, 11, 12, 13, 14] = .ok [11, 14] := by decide
example : getJobTasks 2 3 [10, 11, 12, 13, 14] = .ok [12] := by decide

/-- A Hermitian operator: `2 c0† c0 + 3 (c1† c0 + c0† c1) + 5 c2† c2`. -/
def exHerm : Op ℕ ℤ :=
  [([(0, .c), (0, .a)], 2), ([(1, .c), (0, .a)], 3), ([(0, .c), (1, .a)], 3), ([(2, .c), (2, .a)], 5)]

theorem exHerm_inSystem : OpInSystem 3 exHerm := by unfold OpInSystem exHerm; decide
theorem exHerm_nodup : Dict.NodupKeys exHerm := by decide
theorem exHerm_hermitian : isHermitianOp exHerm := by
  have h : daggerOp exHerm = [([(0, .c), (0, .a)], 2), ([(0, .c), (1, .a)], 3),
    ([(1, .c), (0, .a)], 3), ([(2, .c), (2, .a)], 5)] := by decide
  intro k
  rw [h, exHerm]
  refine get?_perm (by decide) ?_ k
  decide

example : ((getHamiltonianMatrix 3 exHerm 1 ([{0, 2}, {1, 2}].map (encBytes 3)) .denseMPI 2).toOption.map
    fun H => (H 0 0, H 0 1, H 1 0, H 1 1)) = some (7, 3, 3, 5) := by decide
example : ((getHamiltonianMatrix 3 exHerm 1 ([{0, 2}, {1, 2}].map (encBytes 3)) .sparseMPI 3).toOption.map
    fun H => (H 0 0, H 0 1, H 1 0, H 1 1)) = some (7, 3, 3, 5) := by decide
example : ∃ H, getHamiltonianMatrix 3 exHerm 1 ([{0, 2}, {1, 2}].map (encBytes 3)) .sparseMPI 2 = .ok H ∧
      ∀ i j, H i j = star (H j i) :=
  C19_matrix_hermitian 3 exHerm exHerm_inSystem exHerm_nodup exHerm_hermitian 1 _ (by decide)
    (by decide) .sparseMPI 2 (by decide)

end Verif
