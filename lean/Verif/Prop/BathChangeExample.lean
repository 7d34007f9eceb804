/-
The hypotheses of C89 are met.
-/
import Verif.Prop.BathChange
import Verif.Prop.LevelsExample
import Verif.Lemmas.BathRun

namespace Verif

open Finset Mpi Psr Spec

noncomputable section

/-! ### Two bath states that hybridise with the same orbital -/

/-- The bath states 3 and 4 of the d shell are turned into each other. -/
def turnBath (s : ℂ) (i j : ℕ) : ℂ :=
  if j = 19 then (if i = 19 then 3 / 5 else if i = 20 then s else 0)
  else if j = 20 then (if i = 19 then -s else if i = 20 then 3 / 5 else 0)
  else if i = j then 1 else 0

theorem turnBath_flip (s : ℂ) (i j : ℕ) : turnBath s i j = turnBath (-s) j i := by
  unfold turnBath
  by_cases h1 : j = 19
  · subst h1
    by_cases h2 : i = 19
    · subst h2; simp
    · by_cases h3 : i = 20
      · subst h3; simp
      · simp [h2, h3, Ne.symm h2]
  · by_cases h4 : j = 20
    · subst h4
      by_cases h2 : i = 19
      · subst h2; simp
      · by_cases h3 : i = 20
        · subst h3; simp
        · simp [h2, h3, Ne.symm h3]
    · by_cases h2 : i = 19
      · subst h2; simp [h1, h4, Ne.symm h1]
      · by_cases h3 : i = 20
        · subst h3; simp [h1, h4, Ne.symm h4]
        · simp [h1, h2, h3, h4, eq_comm]

theorem turnBath_sum {n : ℕ} (hn : 20 < n) (s : ℂ) (f : ℕ → ℂ) {j : ℕ} (hj : j < n) : ∑ k ∈ range n, f k * turnBath s k j
    = if j = 19 then f 19 * (3 / 5) + f 20 * s else if j = 20 then f 19 * (-s) + f 20 * (3 / 5) else f j := by
  have key : ∀ a c : ℂ, ∑ k ∈ range n, f k * (if k = 19 then a else if k = 20 then c else 0) = f 19 * a + f 20 * c := by
    intro a c
    have : ∀ k ∈ range n, f k * (if k = 19 then a else if k = 20 then c else 0)
        = (if k = 19 then f 19 * a else 0) + if k = 20 then f 20 * c else 0 := by
      intro k _
      by_cases h1 : k = 19
      · subst h1; simp
      · by_cases h2 : k = 20
        · subst h2; simp
        · simp [h1, h2]
    rw [sum_congr rfl this, sum_add_distrib, sum_ite_eq', sum_ite_eq', if_pos (mem_range.2 (by omega)), if_pos (mem_range.2 hn)]
  unfold turnBath
  by_cases h1 : j = 19
  · simp only [h1, if_true]
    exact key _ _
  · by_cases h2 : j = 20
    · simp only [h2, if_true]
      rw [if_neg (by decide), ← key]
      exact sum_congr rfl fun k _ => by simp
    · simp only [h1, h2, if_false, mul_ite, mul_one, mul_zero]
      rw [sum_ite_eq', if_pos (mem_range.2 hj)]

theorem turnBath_star {s : ℂ} (hs : star s = s) (i j : ℕ) : star (turnBath s i j) = turnBath s i j := by
  have h35 : star (3 / 5 : ℂ) = 3 / 5 := by rw [star_div₀]; simp
  unfold turnBath
  split
  · split
    · exact h35
    · split
      · exact hs
      · exact star_zero _
  · split
    · split
      · rw [star_neg, hs]
      · split
        · exact h35
        · exact star_zero _
    · split
      · exact star_one _
      · exact star_zero _

theorem turnBath_cols {n : ℕ} (hn : 20 < n) {s : ℂ} (hs : star s = s) (h2 : s * s = 16 / 25) {j k : ℕ} (_ : j < n) (hk : k < n) :
    ∑ i ∈ range n, star (turnBath s i j) * turnBath s i k = if j = k then 1 else 0 := by
  rw [turnBath_sum hn s (fun i => star (turnBath s i j)) hk]
  simp only [turnBath_star hs]
  unfold turnBath
  by_cases a : k = 19
  · subst a
    by_cases b : j = 19
    · subst b; simp [h2]; norm_num
    · by_cases c : j = 20
      · subst c; simp; ring
      · simp [b, c, Ne.symm b, Ne.symm c]
  · by_cases a' : k = 20
    · subst a'
      by_cases b : j = 19
      · subst b; simp; ring
      · by_cases c : j = 20
        · subst c; simp [h2]; norm_num
        · simp [b, c, Ne.symm b, Ne.symm c]
    · by_cases b : j = 19
      · subst b; simp [a, a', Ne.symm a]
      · by_cases c : j = 20
        · subst c; simp [a, a', Ne.symm a']
        · simp [a, a', b, c, eq_comm]

theorem turnBath_unitary {n : ℕ} (hn : 20 < n) : UnitaryOn n (turnBath (4 / 5)) := by
  have hs : star (4 / 5 : ℂ) = 4 / 5 := by rw [star_div₀]; simp
  refine ⟨fun j hj k hk => turnBath_cols hn hs (by norm_num) hj hk, fun j hj k hk => ?_⟩
  rw [← turnBath_cols hn (s := -(4 / 5)) (by rw [star_neg, hs]) (by norm_num) hj hk]
  refine sum_congr rfl fun i _ => ?_
  rw [turnBath_star hs, turnBath_star (by rw [star_neg, hs]), turnBath_flip _ j, turnBath_flip _ k]

/-- An orbital that hybridises with bath state 3, and the same with both bath states. -/
def oneHop : Op Label ℂ :=
  [(oneProcess (.imp 2 0 0) (.bath (.int 2) 3), (5 : ℂ)), (oneProcess (.bath (.int 2) 3) (.imp 2 0 0), (5 : ℂ))]

def twoHops : Op Label ℂ :=
  [(oneProcess (.imp 2 0 0) (.bath (.int 2) 3), (3 : ℂ)), (oneProcess (.bath (.int 2) 3) (.imp 2 0 0), (3 : ℂ)),
    (oneProcess (.imp 2 0 0) (.bath (.int 2) 4), (4 : ℂ)), (oneProcess (.bath (.int 2) 4) (.imp 2 0 0), (4 : ℂ))]

/-- A d shell with ten filled bath states. -/
def tenBaths (l : ℕ) : ℕ := if l = 2 then 10 else 0

def tenParams : BasisParams :=
  ⟨fun l => if l = 2 then 10 else 0, fun l => if l = 2 then 1 else 0, fun _ => 0, fun _ => 1, fun l => if l = 2 then 8 else 6⟩

theorem ten_total : nTotal (pdSystem tenBaths) = 26 := by decide +kernel

theorem ten_position : position (pdSystem tenBaths) (.imp 2 0 0) = 8 ∧ position (pdSystem tenBaths) (.bath (.int 2) 3) = 19 ∧
    position (pdSystem tenBaths) (.bath (.int 2) 4) = 20 := by decide +kernel

theorem oneMatrix_one (i j : ℕ) : oneMatrix (pdSystem tenBaths) oneHop i j
    = (if i = 8 ∧ j = 19 then 5 else 0) + if i = 19 ∧ j = 8 then 5 else 0 := by
  obtain ⟨p1, p2, -⟩ := ten_position
  unfold oneMatrix oneHop oneProcess
  simp [p1, p2, eq_comm (a := 8), eq_comm (a := 19)]

theorem oneMatrix_two (i j : ℕ) : oneMatrix (pdSystem tenBaths) twoHops i j
    = (if i = 8 ∧ j = 19 then 3 else 0) + ((if i = 19 ∧ j = 8 then 3 else 0) + ((if i = 8 ∧ j = 20 then 4 else 0)
      + if i = 20 ∧ j = 8 then 4 else 0)) := by
  obtain ⟨p1, p2, p3⟩ := ten_position
  unfold oneMatrix twoHops oneProcess
  simp [p1, p2, p3, eq_comm (a := 8), eq_comm (a := 19), eq_comm (a := 20)]

theorem transformed_one {i j : ℕ} : transformed 26 (turnBath (4 / 5)) (oneMatrix (pdSystem tenBaths) oneHop) i j
    = 5 * (turnBath (4 / 5) i 8 * turnBath (4 / 5) j 19 + turnBath (4 / 5) i 19 * turnBath (4 / 5) j 8) := by
  have hs : star (4 / 5 : ℂ) = 4 / 5 := by rw [star_div₀]; simp
  unfold transformed
  simp only [oneMatrix_one, turnBath_star hs]
  have key : ∀ a c : ℕ, a < 26 → c < 26 → ∑ k ∈ range 26, ∑ l ∈ range 26,
      turnBath (4 / 5) i k * (if k = a ∧ l = c then 5 else 0) * turnBath (4 / 5) j l
        = 5 * (turnBath (4 / 5) i a * turnBath (4 / 5) j c) := by
    intro a c ha hc
    rw [sum_eq_single_of_mem a (mem_range.2 ha), sum_eq_single_of_mem c (mem_range.2 hc), if_pos ⟨rfl, rfl⟩]
    · ring
    · intro l _ hl
      rw [if_neg fun h => hl h.2]; ring
    · intro k _ hk
      exact sum_eq_zero fun l _ => by rw [if_neg fun h => hk h.1]; ring
  rw [mul_add, ← key 8 19 (by decide) (by decide), ← key 19 8 (by decide) (by decide), ← sum_add_distrib]
  refine sum_congr rfl fun k _ => ?_
  rw [← sum_add_distrib]
  exact sum_congr rfl fun l _ => by ring

theorem turnBath_zero {i j : ℕ} (h : turnBath (4 / 5) i j ≠ 0) : i = j ∨ ((i = 19 ∨ i = 20) ∧ (j = 19 ∨ j = 20)) := by
  unfold turnBath at h
  split at h
  · rename_i hj
    split at h
    · omega
    · split at h
      · omega
      · exact absurd rfl h
  · split at h
    · rename_i hj
      split at h
      · omega
      · split at h
        · omega
        · exact absurd rfl h
    · split at h
      · exact .inl ‹_›
      · exact absurd rfl h

/-- A bath state that is a superposition of two bath states of the first calculation: both calculations are the same. -/
theorem turnBath_change : BathChange tenBaths tenParams (turnBath (4 / 5)) oneHop twoHops where
  unitary := turnBath_unitary (by rw [ten_total]; decide)
  shell := by
    intro l hl j hj i _
    have hj' : j < 16 := by
      simp only [List.mem_cons, List.not_mem_nil, or_false] at hl
      unfold impOrbs at hj
      rcases hl with rfl | rfl
      · rw [pd_start1, mem_Ico] at hj; omega
      · rw [pd_start2, mem_Ico] at hj; omega
    constructor
    · unfold turnBath
      rw [if_neg (by omega), if_neg (by omega)]
    · rw [turnBath_flip]
      unfold turnBath
      rw [if_neg (by omega), if_neg (by omega)]
      exact if_congr eq_comm rfl rfl
  bath := by
    intro l hl i _ j _ h
    simp only [List.mem_cons, List.not_mem_nil, or_false] at hl
    unfold valOrbs conOrbs
    rcases hl with rfl | rfl
    · rw [pd_bath1, mem_Ico, mem_Ico, mem_Ico, mem_Ico]
      have := turnBath_zero h
      simp only [tenBaths, tenParams]
      norm_num
      omega
    · rw [pd_bath2, mem_Ico, mem_Ico, mem_Ico, mem_Ico]
      have := turnBath_zero h
      simp only [tenBaths, tenParams]
      norm_num
      omega
  carried := by
    intro v F _
    obtain ⟨p1, p2, p3⟩ := ten_position
    refine congrFun (C89_carried (turnBath_unitary (by rw [ten_total]; decide)) ?_ ?_ ?_ v) F
    · intro q hq
      rw [ten_total]
      simp only [oneHop, List.mem_cons, List.not_mem_nil, or_false] at hq
      rcases hq with rfl | rfl
      · exact ⟨_, _, rfl, by rw [p1]; decide, by rw [p2]; decide⟩
      · exact ⟨_, _, rfl, by rw [p2]; decide, by rw [p1]; decide⟩
    · intro q hq
      rw [ten_total]
      simp only [twoHops, List.mem_cons, List.not_mem_nil, or_false] at hq
      rcases hq with rfl | rfl | rfl | rfl
      · exact ⟨_, _, rfl, by rw [p1]; decide, by rw [p2]; decide⟩
      · exact ⟨_, _, rfl, by rw [p2]; decide, by rw [p1]; decide⟩
      · exact ⟨_, _, rfl, by rw [p1]; decide, by rw [p3]; decide⟩
      · exact ⟨_, _, rfl, by rw [p3]; decide, by rw [p1]; decide⟩
    · intro i _ j _
      rw [ten_total, transformed_one, oneMatrix_two]
      have e8 : ∀ i, turnBath (4 / 5) i 8 = if i = 8 then 1 else 0 := fun i => by unfold turnBath; simp
      have e19 : ∀ i, turnBath (4 / 5) i 19 = if i = 19 then 3 / 5 else if i = 20 then 4 / 5 else 0 := fun i => by
        unfold turnBath; simp
      rw [e8, e8, e19, e19]
      by_cases a : i = 8
      · subst a
        by_cases c : j = 19
        · subst c; norm_num
        · by_cases d : j = 20
          · subst d; norm_num
          · simp [c, d]
      · by_cases c : j = 8
        · subst c
          by_cases d : i = 19
          · subst d; norm_num
          · by_cases e : i = 20
            · subst e; norm_num
            · simp [d, e]
        · simp [a, c]

/-! ### Two finished runs, with the bath states in either order -/

/-- The two bath states are exchanged, and one of them is multiplied by `i`. -/
def swapBath (i j : ℕ) : ℂ := if i = Equiv.swap 16 17 j then (if j = 16 then Complex.I else 1) else 0

theorem swap_lt {j : ℕ} (hj : j < 18) : Equiv.swap 16 17 j < 18 := by
  revert j
  decide

theorem swapBath_phase (j : ℕ) : star (if j = 16 then Complex.I else 1 : ℂ) * (if j = 16 then Complex.I else 1) = 1 := by
  split
  · simp
  · simp

theorem swapBath_unitary : UnitaryOn 18 swapBath := by
  refine ⟨fun j hj k hk => ?_, fun j hj k hk => ?_⟩
  · unfold swapBath
    rw [sum_eq_single_of_mem (Equiv.swap 16 17 k) (mem_range.2 (swap_lt hk))]
    · by_cases h : j = k
      · subst h
        simp only [if_true]
        exact swapBath_phase j
      · rw [if_neg h, if_neg fun e => h ((Equiv.swap 16 17).injective e.symm), star_zero, zero_mul]
    · intro i _ hi
      rw [if_neg hi, mul_zero]
  · unfold swapBath
    rw [sum_eq_single_of_mem (Equiv.swap 16 17 k) (mem_range.2 (swap_lt hk))]
    · by_cases h : j = k
      · subst h
        simp only [Equiv.swap_apply_self, if_true]
        rw [mul_comm]
        exact swapBath_phase _
      · rw [if_neg h, Equiv.swap_apply_self, if_neg h, zero_mul]
    · intro i _ hi
      rw [if_neg (c := k = _) fun e => hi (by rw [e, Equiv.swap_apply_self]), star_zero, mul_zero]

theorem lig_oneMatrix (σ : Equiv.Perm ℕ) {i j : ℕ} (hi : i < 18) :
    oneMatrix ligSystem (ligLevels σ) i j = if i = j then ligLevel σ i else 0 := by
  unfold oneMatrix ligLevels oneProcess
  rw [List.map_map]
  have h : ∀ k ∈ List.range 18, ((fun q : Process Label × ℂ => if q.1.map (fun x => (position ligSystem x.1, x.2))
      = [(i, Action.c), (j, Action.a)] then q.2 else 0) ∘ fun i => ([(ligLabel i, Action.c), (ligLabel i, Action.a)], ligLevel σ i)) k
      = if k = i then (if i = j then ligLevel σ i else 0) else 0 := by
    intro k hk
    simp only [Function.comp, List.map_cons, List.map_nil, ligLabel_position k (List.mem_range.1 hk), List.cons.injEq,
      Prod.mk.injEq, and_true]
    by_cases h : k = i
    · subst h; simp
    · rw [if_neg fun e => h e.1, if_neg h]
  rw [List.map_congr_left h, ← List.sum_toFinset _ List.nodup_range, List.toFinset_range, sum_ite_eq', if_pos (mem_range.2 hi)]

theorem lig_oneElectron (σ : Equiv.Perm ℕ) : OneElectron ligSystem (ligLevels σ) := by
  intro q hq
  obtain ⟨i, hi, rfl⟩ := List.mem_map.1 hq
  have hi := List.mem_range.1 hi
  exact ⟨_, _, rfl, by rw [ligLabel_position i hi, ligSystem_size]; exact hi, by rw [ligLabel_position i hi, ligSystem_size]; exact hi⟩

theorem swapBath_change : BathChange ligBaths ligParams swapBath (ligLevels 1) (ligLevels (Equiv.swap 16 17)) where
  unitary := by rw [ligSystem_size]; exact swapBath_unitary
  shell := by
    intro l hl j hj i _
    have hj' : j < 16 := by
      simp only [List.mem_cons, List.not_mem_nil, or_false] at hl
      unfold impOrbs at hj
      rcases hl with rfl | rfl
      · rw [pd_start1, mem_Ico] at hj; omega
      · rw [pd_start2, mem_Ico] at hj; omega
    have hs : Equiv.swap 16 17 j = j := Equiv.swap_apply_of_ne_of_ne (by omega) (by omega)
    unfold swapBath
    constructor
    · rw [hs, if_neg (c := j = 16) (by omega)]
    · by_cases h : j = i
      · subst h
        rw [hs, if_pos rfl, if_pos rfl, if_neg (by omega)]
      · rw [if_neg h, if_neg]
        intro e
        exact h (by rw [← hs, e, Equiv.swap_apply_self])
  bath := by
    intro l hl i _ j _ h
    have hij : i = Equiv.swap 16 17 j := by
      by_contra hn
      exact h (if_neg hn)
    have hc : i = j ∨ ((i = 16 ∨ i = 17) ∧ (j = 16 ∨ j = 17)) := by
      rw [Equiv.swap_apply_def] at hij
      split at hij
      · omega
      · split at hij
        · omega
        · exact .inl hij
    simp only [List.mem_cons, List.not_mem_nil, or_false] at hl
    unfold valOrbs conOrbs
    rcases hl with rfl | rfl
    · rw [pd_bath1, mem_Ico, mem_Ico, mem_Ico, mem_Ico]
      simp only [ligBaths, ligParams]
      norm_num
      omega
    · rw [pd_bath2, mem_Ico, mem_Ico, mem_Ico, mem_Ico]
      simp only [ligBaths, ligParams]
      norm_num
      omega
  carried := by
    intro v F _
    refine congrFun (C89_carried (by rw [ligSystem_size]; exact swapBath_unitary) (lig_oneElectron 1) (lig_oneElectron _) ?_ v) F
    intro i hi j hj
    rw [ligSystem_size] at hi hj ⊢
    rw [lig_oneMatrix _ hi]
    unfold transformed
    have h1 : ∀ k ∈ range 18, ∑ l ∈ range 18, swapBath i k * oneMatrix ligSystem (ligLevels 1) k l * star (swapBath j l)
        = swapBath i k * ligLevel 1 k * star (swapBath j k) := by
      intro k hk
      have h2 : ∀ l, oneMatrix ligSystem (ligLevels 1) k l = if k = l then ligLevel 1 k else 0 :=
        fun l => lig_oneMatrix 1 (mem_range.1 hk)
      simp only [h2, mul_ite, mul_zero, ite_mul, zero_mul]
      rw [sum_ite_eq, if_pos hk]
    rw [sum_congr rfl h1, sum_eq_single_of_mem (Equiv.swap 16 17 i) (mem_range.2 (swap_lt hi))]
    · unfold swapBath
      rw [Equiv.swap_apply_self, if_pos rfl]
      by_cases h : i = j
      · subst h
        rw [if_pos rfl, if_pos rfl, mul_comm, ← mul_assoc, swapBath_phase, one_mul]
        rfl
      · rw [if_neg h, if_neg (Ne.symm h), star_zero, mul_zero]
    · intro k _ hk
      unfold swapBath
      rw [if_neg fun e => hk (by rw [e, Equiv.swap_apply_self]), zero_mul, zero_mul]

/-- The hypotheses of C89_main are met, for all pairs of correct solvers: three ranks with the bath states in one order and five
ranks with the bath states in the other order. -/
example {solver solver' : EigenSolver} (hS : SolverCorrect solver) (hS' : SolverCorrect solver')
    (htot : ∀ H d k, k < d → ∃ p, solver.eigsh H d k = .ok p) (htot' : ∀ H d k, k < d → ∃ p, solver'.eigsh H d k = .ok p)
    (sphHarm : SphHarm) (jn : SphericalJn) {T : ℝ} (hT : 0 < T) (hcold : 10 * (1 * T) ≤ 4) :
    ∃ o o' : MainOutput,
      CanFinish msgSum (fun k : Fin 3 => mainRank (holeLib solver sphHarm jn 1) (ligArgs 1 T) (fun _ _ _ => holeOrders)
        (fun _ => holeOrders) k.val 3) (fun k => if k.val = 0 then some o else none) ∧
      CanFinish msgSum (fun k : Fin 5 => mainRank (holeLib solver' sphHarm jn 1) (ligArgs (Equiv.swap 16 17) T)
        (fun _ _ _ => holeOrders) (fun _ => holeOrders) k.val 5) (fun k => if k.val = 0 then some o' else none) ∧
      o'.energies = o.energies ∧ SameThermal o.spectra o'.spectra := by
  obtain ⟨o, ho⟩ := lig_finishes 1 hS htot sphHarm jn one_pos hT hcold
  obtain ⟨o', ho'⟩ := lig_finishes (Equiv.swap 16 17) hS' htot' sphHarm jn one_pos hT hcold
  have h1 := (ho 3 (by decide) (fun _ _ _ _ => holeOrders) (fun _ _ _ _ => holeOrders_valid) (fun _ _ => holeOrders)
    (fun _ _ => holeOrders_valid)).canFinish
  have h2 := (ho' 5 (by decide) (fun _ _ _ _ => holeOrders) (fun _ _ _ _ => holeOrders_valid) (fun _ _ => holeOrders)
    (fun _ _ => holeOrders_valid)).canFinish
  obtain ⟨psis, S, psis', S', r1, r2, -, -, hmain⟩ := C89_main (ligArgs_valid 1 T) sympyGaunt_large (by decide) (by decide)
    (fun _ _ _ _ => holeOrders_valid) (fun _ _ => holeOrders_valid) h1 rfl
    (fun _ _ _ _ => holeOrders_valid) (fun _ _ => holeOrders_valid) h2 rfl hS hS' rfl (ligArgs_documented 1 T)
    (ligArgs_documented (Equiv.swap 16 17) T) rfl rfl rfl rfl
    sympyGaunt_rules (holeSolve_exact solver sphHarm jn 1) (holeSolve_exact solver' sphHarm jn 1) rfl rfl
  obtain ⟨k1, k2, k3⟩ := lig_resolved (L := holeLib solver sphHarm jn 1) rfl hT one_pos hcold r1
  obtain ⟨-, k2', k3'⟩ := lig_resolved (L := holeLib solver' sphHarm jn 1) rfl hT one_pos hcold r2
  have hsz : size S' = size S := by unfold size; rw [r1.system, r2.system]
  have hsz' : size S = 18 := by unfold size; rw [r1.system]; exact ligSystem_size
  obtain ⟨e1, -, e2⟩ := hmain swapBath swapBath_change (.inl (by
    rw [hsz']
    exact ⟨Equiv.swap 16 17, fun j => if j = 16 then Complex.I else 1, fun _ _ _ _ => rfl⟩))
  refine ⟨o, o', h1, h2, e1, (e2 k1 fun psi hp => ?_).1 k3 k3'⟩
  rcases List.mem_append.1 hp with hp | hp
  · exact k2 psi hp
  · rw [← hsz]; exact k2' psi hp

/-- Bath states that are numbered in another order, with phase factors. -/
example : Renumbers 26 (fun i j => if i = Equiv.swap 19 20 j then (if j = 19 then Complex.I else 1) else 0) :=
  ⟨Equiv.swap 19 20, fun j => if j = 19 then Complex.I else 1, fun _ _ _ _ => rfl⟩

end

end Verif
