/-
C48: the RIXS map can be read back from the file.
-/
import Verif.Model.Output
import Mathlib.Tactic.Linarith

namespace Verif

theorem pyGet_cons_zero {α : Type*} (x : α) (l : List α) : pyGet (x :: l) 0 = .ok x := by
  have : ((0 : ℤ) < ((x :: l).length : ℤ)) := by simp
  simp only [pyGet, pyIndex, le_refl, if_true, this]
  rfl

theorem reshape_flatten (cols : ℕ) : ∀ (L : List (List ℝ)), (∀ r ∈ L, r.length = cols) →
    npReshape L.flatten L.length cols = .ok L := by
  intro L hL
  have hlen : L.flatten.length = L.length * cols := by
    rw [List.length_flatten, List.map_congr_left (g := fun _ => cols) hL, List.map_const', List.sum_replicate]
    simp
  unfold npReshape
  rw [if_pos hlen]
  congr 1
  clear hlen
  induction L with
  | nil => rfl
  | cons r L ih =>
    have hr : r.length = cols := hL r (by simp)
    rw [List.length_cons, List.range_succ_eq_map, List.map_cons, List.map_map, List.flatten_cons]
    congr 1
    · rw [zero_mul, List.drop_zero, ← hr, List.take_left']
      rfl
    · rw [← ih (fun r' h => hL r' (by simp [h]))]
      simp only [List.length_map, List.length_range]
      apply List.map_congr_left
      intro i _
      rw [ih (fun r' h => hL r' (by simp [h]))]
      simp only [Function.comp, Nat.succ_eq_add_one]
      rw [List.drop_append, hr, List.drop_eq_nil_of_le (by rw [hr]; nlinarith), List.nil_append,
        show (i + 1) * cols - cols = i * cols by rw [add_mul, one_mul, Nat.add_sub_cancel]]

theorem rixsTable_00 (f32 : ℝ → ℝ) {nIn nLoss : ℕ} (wIn : Fin nIn → ℝ) (wLoss : Fin nLoss → ℝ)
    (aSum : Fin nIn → Fin nLoss → ℝ) : rixsTable f32 wIn wLoss aSum 0 0 = f32 nIn := by
  simp [rixsTable]

theorem rixsTable_0s (f32 : ℝ → ℝ) {nIn nLoss : ℕ} (wIn : Fin nIn → ℝ) (wLoss : Fin nLoss → ℝ)
    (aSum : Fin nIn → Fin nLoss → ℝ) (j : Fin nIn) : rixsTable f32 wIn wLoss aSum 0 j.succ = f32 (wIn j) := by
  simp [rixsTable]

theorem rixsTable_s0 (f32 : ℝ → ℝ) {nIn nLoss : ℕ} (wIn : Fin nIn → ℝ) (wLoss : Fin nLoss → ℝ)
    (aSum : Fin nIn → Fin nLoss → ℝ) (i : Fin nLoss) :
    rixsTable f32 wIn wLoss aSum i.succ 0 = f32 (wLoss i) := by
  simp [rixsTable]

theorem rixsTable_ss (f32 : ℝ → ℝ) {nIn nLoss : ℕ} (wIn : Fin nIn → ℝ) (wLoss : Fin nLoss → ℝ)
    (aSum : Fin nIn → Fin nLoss → ℝ) (i : Fin nLoss) (j : Fin nIn) :
    rixsTable f32 wIn wLoss aSum i.succ j.succ = f32 (aSum j i) := by
  simp [rixsTable]

/-- C48.  The plot script gets back from RIXS.bin the energy meshes and the map,
`map[loss][in]`, each rounded to `float32`, for all numbers of energies (zero
included) as long as the number of in-coming energies is a `float32` (all
integers up to `2^24` are). -/
theorem C48_rixs_file (f32 : ℝ → ℝ) (nIn nLoss : ℕ) (hf : f32 nIn = nIn) (wIn : Fin nIn → ℝ)
    (wLoss : Fin nLoss → ℝ) (aSum : Fin nIn → Fin nLoss → ℝ) :
    readRIXS (rixsFile f32 wIn wLoss aSum) = .ok (List.ofFn fun i => f32 (wLoss i),
      List.ofFn fun j => f32 (wIn j), List.ofFn fun i => List.ofFn fun j => f32 (aSum j i)) := by
  set L : List (List ℝ) := List.ofFn fun i => List.ofFn (rixsTable f32 wIn wLoss aSum i) with hL
  have hcols : ∀ r ∈ L, r.length = nIn + 1 := by
    intro r hr
    obtain ⟨i, rfl⟩ := List.mem_ofFn.1 hr
    simp
  have hLlen : L.length = nLoss + 1 := by simp [hL]
  have hcons : L = List.ofFn (rixsTable f32 wIn wLoss aSum 0) ::
      List.ofFn fun i : Fin nLoss => List.ofFn (rixsTable f32 wIn wLoss aSum i.succ) := by
    rw [hL, List.ofFn_succ]
  have hrow : ∀ i, List.ofFn (rixsTable f32 wIn wLoss aSum i) = rixsTable f32 wIn wLoss aSum i 0 ::
      List.ofFn fun j : Fin nIn => rixsTable f32 wIn wLoss aSum i j.succ := fun i => List.ofFn_succ
  have hx0 : pyGet (rixsFile f32 wIn wLoss aSum) 0 = .ok (nIn : ℝ) := by
    unfold rixsFile
    rw [← hL, hcons, List.flatten_cons, hrow, List.cons_append, rixsTable_00, hf]
    exact pyGet_cons_zero _ _
  have hlen : (rixsFile f32 wIn wLoss aSum).length = (nLoss + 1) * (nIn + 1) := by
    unfold rixsFile
    rw [← hL, List.length_flatten, List.map_congr_left (g := fun _ => nIn + 1) hcols, List.map_const',
      List.sum_replicate, hLlen]
    rfl
  have hpi : pyInt (nIn : ℝ) = (nIn : ℤ) := by
    unfold pyInt
    rw [if_pos (Nat.cast_nonneg _)]
    exact Int.floor_natCast nIn
  have hdiv : (nLoss + 1) * (nIn + 1) / (nIn + 1) = L.length := by
    rw [hLlen, Nat.mul_div_cancel _ (Nat.succ_pos _)]
  have hres : npReshape (rixsFile f32 wIn wLoss aSum) L.length (nIn + 1) = .ok L := reshape_flatten _ L hcols
  have hneg1 : ¬ ((nIn : ℤ) = -1) := by omega
  have hneg2 : ¬ ((nIn : ℤ) < 0) := by omega
  have hm : ∀ M : List (Fin nLoss), M.mapM (fun i => (pyGet (List.ofFn (rixsTable f32 wIn wLoss aSum i.succ)) 0 : Py ℝ))
      = .ok (M.map fun i => f32 (wLoss i)) := by
    intro M
    induction M with
    | nil => rfl
    | cons i M ih =>
      rw [List.mapM_cons, ih, hrow, rixsTable_s0, pyGet_cons_zero]
      rfl
  have hm' : (List.ofFn fun i : Fin nLoss => List.ofFn (rixsTable f32 wIn wLoss aSum i.succ)).mapM
      (fun r => (pyGet r 0 : Py ℝ)) = .ok (List.ofFn fun i => f32 (wLoss i)) := by
    rw [List.ofFn_eq_map, List.ofFn_eq_map, List.mapM_map]
    exact hm _
  unfold readRIXS
  rw [hx0]
  simp only [bind, Except.bind, hpi, hneg1, hneg2, if_false, pure, Except.pure, Int.toNat_natCast, hlen, hdiv, hres]
  rw [hcons]
  have hg : pyGet (List.ofFn (rixsTable f32 wIn wLoss aSum 0) ::
      List.ofFn fun i : Fin nLoss => List.ofFn (rixsTable f32 wIn wLoss aSum i.succ)) 0
      = .ok (List.ofFn (rixsTable f32 wIn wLoss aSum 0)) := pyGet_cons_zero _ _
  have hs : ∀ (x : List ℝ) (l : List (List ℝ)), pySliceFrom (x :: l) 1 = l := by
    intro x l
    simp [pySliceFrom, pyBound]
  have hs' : ∀ (x : ℝ) (l : List ℝ), pySliceFrom (x :: l) 1 = l := by
    intro x l
    simp [pySliceFrom, pyBound]
  rw [hg]
  simp only [hs, hm']
  rw [hrow 0, hs']
  simp only [rixsTable_0s]
  rw [List.map_ofFn]
  congr 4
  funext i
  simp only [Function.comp]
  rw [hrow, hs']
  simp only [rixsTable_ss]

/-- Two in-coming energies, three losses. -/
example : readRIXS (rixsFile id ![10, 20] ![1, 2, 3] ![![11, 12, 13], ![21, 22, 23]])
    = .ok ([1, 2, 3], [10, 20], [[11, 21], [12, 22], [13, 23]]) := by
  rw [C48_rixs_file id 2 3 rfl]
  simp [List.ofFn_succ]

end Verif
