/-
When the hypotheses of C81 hold, and two runs that meet them.
-/
import Verif.Prop.Levels
import Verif.Lemmas.DegenerateExample
import Verif.Lemmas.TimeReversalCF

namespace Verif

open Finset Mpi Psr Spec

noncomputable section

/-! ### The two main cases -/

theorem product_carries {O : Finset ℕ} (p : List (ℕ × Bool)) :
    Carries O (p.map fun x => if x.2 then charge O x.1 else -charge O x.1).sum (product p) := by
  induction p with
  | nil => intro k v hv; simpa [product] using hv
  | cons x p ih =>
    intro k v hv
    have h1 := ih k v hv
    show InSector O _ (ladder x.1 x.2 (product p v))
    unfold ladder
    rw [List.map_cons, List.sum_cons, add_comm (if x.2 = true then _ else _), ← add_assoc]
    split
    · exact create_carries _ _ _ h1
    · exact annihilate_carries _ _ _ h1

/-- An operator conserves the number of electrons in `O` if all its processes do. -/
theorem C81_conserved {O : Finset ℕ} (f : Label → ℕ) (h0 : Op Label ℂ)
    (h : ∀ q ∈ h0, change (fun x => if f x ∈ O then 1 else 0) q.1 = 0) {k : ℤ} {v : Vec ℂ} (hv : InSector O k v) :
    InSector O k (operator (labelSpec f h0) v) := by
  intro F hF
  obtain ⟨q, hq, hne⟩ : ∃ q ∈ labelSpec f h0, q.2 * product q.1 v F ≠ 0 := by
    by_contra hc
    push Not at hc
    refine hF ?_
    unfold operator
    refine List.sum_eq_zero fun x hx => ?_
    obtain ⟨q, hq, rfl⟩ := List.mem_map.1 hx
    exact hc q hq
  obtain ⟨q0, hq0, rfl⟩ := List.mem_map.1 hq
  have h1 := product_carries (O := O) (q0.1.map fun x => (f x.1, decide (x.2 = Action.c))) k v hv F (right_ne_zero_of_mul hne)
  have h2 := h q0 hq0
  rw [h1]
  unfold change at h2
  rw [List.map_map, add_eq_left, ← h2]
  refine congrArg List.sum (List.map_congr_left fun x _ => ?_)
  obtain ⟨y, z⟩ := x
  cases z <;> simp [charge]

/-- How to raise the energies of the spin-orbitals `xs`. -/
theorem C81_raised (f : Label → ℕ) (h0 : Op Label ℂ) (xs : List Label) (hxs : (xs.map f).Nodup) (c : ℂ) (v : Vec ℂ) (F : Finset ℕ) :
    operator (labelSpec f (h0 ++ xs.map fun x => (oneProcess x x, c))) v F
      = operator (labelSpec f h0) v F + c * ((F ∩ (xs.map f).toFinset).card : ℂ) * v F := by
  unfold operator labelSpec
  rw [List.map_append, List.map_append, List.sum_append, List.map_map (l := xs), List.map_map (l := xs)]
  congr 1
  have h1 : xs.map ((fun q : List (ℕ × Bool) × ℂ => q.2 * product q.1 v F) ∘
      (fun q : Process Label × ℂ => (q.1.map fun x => (f x.1, decide (x.2 = Action.c)), q.2)) ∘ fun x => (oneProcess x x, c))
      = (xs.map f).map fun i => c * if i ∈ F then v F else 0 := by
    rw [List.map_map]
    refine List.map_congr_left fun x _ => ?_
    simp only [Function.comp]
    rw [← create_annihilate_self]
    simp [oneProcess, product, ladder]
  rw [h1, ← List.sum_toFinset _ hxs]
  simp only [mul_ite, mul_zero]
  rw [Finset.sum_ite_mem, Finset.sum_const, nsmul_eq_mul, inter_comm]
  ring

theorem card_inter_Ico {F : Finset ℕ} {a b c : ℕ} (h1 : a ≤ b) (h2 : b ≤ c) :
    (F ∩ Ico a c).card = (F ∩ Ico a b).card + (F ∩ Ico b c).card := by
  rw [← card_union_of_disjoint, ← inter_union_distrib_left, Ico_union_Ico_eq_Ico h1 h2]
  exact (Ico_disjoint_Ico_consecutive a b c).mono inter_subset_right inter_subset_right

section
variable {b : ℕ → ℕ} {P : BasisParams} {h0 h0' : Op Label ℂ} {c : ℝ}

/-- The zero of the energy: all spin-orbitals are raised.  The spectra that add or remove an electron move by `c`, all others
stay. -/
theorem C81_energy_zero (hv : ∀ l, 0 ≤ P.val l ∧ P.val l ≤ b l ∧ (P.val l = 0 → P.dnVal l ≤ 0))
    (conserved : ∀ k v, InSector (range (nTotal (pdSystem b))) k v →
      InSector (range (nTotal (pdSystem b))) k (operator (labelSpec (position (pdSystem b)) h0) v))
    (raised : ∀ v F, operator (labelSpec (position (pdSystem b)) h0') v F = operator (labelSpec (position (pdSystem b)) h0) v F
      + (c : ℂ) * ((F ∩ range (nTotal (pdSystem b))).card : ℂ) * v F) :
    LevelShift b P h0 h0' (range (nTotal (pdSystem b))) c (P.n0 1 + P.val 1 + (P.n0 2 + P.val 2)) 1 1 where
  core := Or.inl ⟨rfl, fun i hi => by
    unfold impOrbs at hi
    rw [pd_start1, mem_Ico] at hi
    rw [mem_range, pd_total]; omega⟩
  valence := Or.inl ⟨rfl, fun i hi => by
    unfold impOrbs at hi
    rw [pd_start2, mem_Ico] at hi
    rw [mem_range, pd_total]; omega⟩
  conserved := conserved
  filling := by
    intro F _ hC
    have key : ∀ l : ℕ, (l, b l) ∈ [((1 : ℕ), b 1), (2, b 2)] → ((F ∩ impOrbs (pdSystem b) l).card : ℤ)
        + ((F ∩ Ico (bathStart (pdSystem b) (.int l)) (bathStart (pdSystem b) (.int l) + b l)).card : ℤ) = P.n0 l + P.val l := by
      intro l hl
      obtain ⟨dv, dc, ⟨g1, g2, -⟩, e1, e2, e3⟩ := hC _ hl
      dsimp only at g2 e1 e2 e3
      obtain ⟨v1, v2, v3⟩ := hv l
      rw [card_inter_Ico (F := F) (b := bathStart (pdSystem b) (.int l) + (P.val l).toNat) (by omega) (by omega)]
      unfold conOrbs at e3
      unfold valOrbs at e2
      push_cast
      rw [e3, e1]
      by_cases h0 : P.val l = 0
      · have := v3 h0
        rw [h0]
        simp
        omega
      · rw [e2 h0]; ring
    have k1 := key 1 (by simp)
    have k2 := key 2 (by simp)
    unfold impOrbs at k1 k2
    rw [pd_start1, pd_bath1] at k1
    rw [pd_start2, pd_bath2] at k2
    rw [pd_total, range_eq_Ico, card_inter_Ico (b := 6) (by omega) (by omega), card_inter_Ico (a := 6) (b := 16) (by omega) (by omega),
      card_inter_Ico (a := 16) (b := 16 + b 1) (by omega) (by omega)]
    norm_num at k1 k2 ⊢
    omega
  raised := raised

/-- The core level: the p shell is raised, which has no bath states.  The binding energies of XPS move by `c`, the absorption
energies of XAS and RIXS by `-c`, and the other spectra stay. -/
theorem C81_core_level (hb : b 1 = 0) (hv : P.dnVal 1 ≤ 0)
    (conserved : ∀ k v, InSector (impOrbs (pdSystem b) 1) k v →
      InSector (impOrbs (pdSystem b) 1) k (operator (labelSpec (position (pdSystem b)) h0) v))
    (raised : ∀ v F, operator (labelSpec (position (pdSystem b)) h0') v F = operator (labelSpec (position (pdSystem b)) h0) v F
      + (c : ℂ) * ((F ∩ impOrbs (pdSystem b) 1).card : ℂ) * v F) :
    LevelShift b P h0 h0' (impOrbs (pdSystem b) 1) c (P.n0 1) 1 0 where
  core := Or.inl ⟨rfl, subset_rfl⟩
  valence := Or.inr ⟨rfl, by
    unfold impOrbs
    rw [pd_start1, pd_start2]
    exact (Ico_disjoint_Ico_consecutive 0 6 16).symm⟩
  conserved := conserved
  filling := by
    intro F _ hC
    obtain ⟨dv, dc, ⟨g1, g2, -⟩, e1, -, e3⟩ := hC (1, b 1) (by simp)
    dsimp only at g2 e1 e3
    unfold conOrbs at e3
    rw [hb, Ico_eq_empty (by omega)] at e3
    simp at e3
    omega
  raised := raised

end

/-! ### Two runs of main -/

instance : CoreLevel (50 / 2999) where
  nonneg := by norm_num
  le := by norm_num
  apart n m hn h := by
    have h1 : (n : ℝ) * 204800 = m * 2999 := by linarith
    have h2 : n * 204800 = m * 2999 := by exact_mod_cast h1
    rw [abs_le] at hn
    omega

instance : CoreLevel (30 / 49) where
  nonneg := by norm_num
  le := by norm_num
  apart n m hn h := by
    have h1 : (n : ℝ) * 122880 = m * 49 := by linarith
    have h2 : n * 122880 = m * 49 := by exact_mod_cast h1
    rw [abs_le] at hn
    omega

theorem hole_operator (lev : ℝ) (v : Vec ℂ) (F : Finset ℕ) : operator (labelSpec (position holeSystem) (holeLevels lev)) v F
    = (∑ i ∈ F ∩ range 16, holeLevel lev i) * v F := by
  have h1 : operator (labelSpec (position holeSystem) (holeLevels lev)) v F
      = ((List.range 16).map fun i => holeLevel lev i * create i (annihilate i v) F).sum := by
    unfold operator labelSpec holeLevels
    simp only [List.map_map]
    refine congrArg List.sum (List.map_congr_left fun i hi => ?_)
    simp [oneProcess, product, ladder, holeLabel_position i (List.mem_range.1 hi)]
  rw [h1]
  simp only [create_annihilate_self]
  rw [← List.sum_toFinset _ (List.nodup_range), List.toFinset_range]
  simp only [mul_ite, mul_zero]
  rw [Finset.sum_ite_mem, ← Finset.sum_mul, inter_comm]

theorem hole_levelShift (lev : ℝ) : LevelShift (fun _ => 0) holeParams (holeLevels 0) (holeLevels lev)
    (impOrbs holeSystem 1) lev 6 1 0 := by
  refine C81_core_level rfl le_rfl ?_ ?_
  · intro k v hv F hF
    rw [hole_operator] at hF
    exact hv F (right_ne_zero_of_mul hF)
  · intro v F
    rw [hole_operator, hole_operator, ← add_mul]
    congr 1
    have : F ∩ impOrbs holeSystem 1 = {i ∈ F ∩ range 16 | i < 6} := by
      ext i
      unfold impOrbs
      rw [pd_start1, mem_inter, mem_Ico, mem_filter, mem_inter, mem_range]
      constructor
      · rintro ⟨h1, h2⟩; exact ⟨⟨h1, by omega⟩, by omega⟩
      · rintro ⟨⟨h1, -⟩, h2⟩; exact ⟨h1, by omega⟩
    rw [show pdSystem (fun _ => 0) = holeSystem from rfl, this, holeLevel_sum, holeLevel_sum]
    unfold holeEnergy
    push_cast
    ring

theorem hole_diagonalKept {L : MainLib} {lev T : ℝ} [CoreLevel lev] {energies : List ℝ} {psis : List (Psi ℂ)} {S : SimulateArgs}
    (hrun : MainRun L (hole2Args lev T) (fun _ => 0) holeParams 0 0 0 (holeLevels lev) energies psis S) : DiagonalKept S := by
  have hD : DiagonalOp 16 S.hOp 1e-12 (holeEnergy lev) := hole_diagonal fun v F hF => by
    rw [hrun.hamiltonian v F]
    exact hole_pdHamiltonian L.gaunt lev T [] v hF
  have hsz : size S = 16 := by unfold size; rw [hrun.system]; exact holeSystem_size
  intro F hF
  rw [hsz] at hF
  rw [hD.element F hF F hF, if_pos rfl, hrun.args.cutoffs.2.2]
  exact hD.large F hF

/-- Two runs, the p shell of the second one raised by `lev`. -/
theorem hole_levels {solver solver' : EigenSolver} (hS : SolverCorrect solver) (hS' : SolverCorrect solver')
    (htot : ∀ H d k, k < d → ∃ p, solver.eigsh H d k = .ok p) (htot' : ∀ H d k, k < d → ∃ p, solver'.eigsh H d k = .ok p)
    (sphHarm : SphHarm) (jn : SphericalJn) {T : ℝ} (hT : 0 < T) (hcold : 10 * (1 * T) ≤ 4) (lev : ℝ) [CoreLevel lev] :
    ∃ o o' : MainOutput,
      CanFinish msgSum (fun k : Fin 3 => mainRank (holeLib solver sphHarm jn 1) (hole2Args 0 T) (fun _ _ _ => holeOrders)
        (fun _ => holeOrders) k.val 3) (fun k => if k.val = 0 then some o else none) ∧
      CanFinish msgSum (fun k : Fin 5 => mainRank (holeLib solver' sphHarm jn 1) (hole2Args lev T) (fun _ _ _ => holeOrders)
        (fun _ => holeOrders) k.val 5) (fun k => if k.val = 0 then some o' else none) ∧
      o'.energies = o.energies.map (fun e => e + lev * 6) ∧
      ∃ w wIn, Mesh w (-25) 25 3000 ∧ Mesh wIn (-10) 20 50 ∧ ShiftedThermal w wIn lev 1 0 o.spectra o'.spectra := by
  obtain ⟨o, ho⟩ := hole2_finishes 0 hS htot sphHarm jn one_pos hT hcold
  obtain ⟨o', ho'⟩ := hole2_finishes lev hS' htot' sphHarm jn one_pos hT hcold
  have h1 := (ho 3 (by decide) (fun _ _ _ _ => holeOrders) (fun _ _ _ _ => holeOrders_valid) (fun _ _ => holeOrders)
    (fun _ _ => holeOrders_valid)).canFinish
  have h2 := (ho' 5 (by decide) (fun _ _ _ _ => holeOrders) (fun _ _ _ _ => holeOrders_valid) (fun _ _ => holeOrders)
    (fun _ _ => holeOrders_valid)).canFinish
  obtain ⟨psis, S, psis', S', r1, r2, -, -, hmain⟩ := C81_main (hole2Args_valid 0 T) sympyGaunt_large (by decide) (by decide)
    (fun _ _ _ _ => holeOrders_valid) (fun _ _ => holeOrders_valid) h1 rfl
    (fun _ _ _ _ => holeOrders_valid) (fun _ _ => holeOrders_valid) h2 rfl hS hS' rfl (hole2Args_documented 0 T)
    (hole2Args_documented lev T) rfl rfl rfl rfl
    sympyGaunt_rules (holeSolve_exact solver sphHarm jn 1) (holeSolve_exact solver' sphHarm jn 1) rfl rfl
  obtain ⟨k1, k2, k3⟩ := hole2_resolved (L := holeLib solver sphHarm jn 1) rfl hT one_pos hcold r1
  obtain ⟨-, k2', k3'⟩ := hole2_resolved (L := holeLib solver' sphHarm jn 1) rfl hT one_pos hcold r2
  have hsz : size S' = size S := by unfold size; rw [r1.system, r2.system]
  obtain ⟨e1, -, e2⟩ := hmain _ lev 6 1 0 (hole_levelShift lev) (hole_diagonalKept r1) (hole_diagonalKept r2)
  refine ⟨o, o', h1, h2, by exact_mod_cast e1, S.w, S.wIn, r1.args.w, r1.args.wIn, (e2 k1 fun psi hp => ?_).1 k3 k3'⟩
  rcases List.mem_append.1 hp with hp | hp
  · exact k2 psi hp
  · rw [← hsz]; exact k2' psi hp

/-- The hypotheses of C81_main are met, for all pairs of correct solvers.  A core level that is one mesh point higher moves
the absorption spectra by one mesh point down and the core photoemission by one mesh point up. -/
example {solver solver' : EigenSolver} (hS : SolverCorrect solver) (hS' : SolverCorrect solver')
    (htot : ∀ H d k, k < d → ∃ p, solver.eigsh H d k = .ok p) (htot' : ∀ H d k, k < d → ∃ p, solver'.eigsh H d k = .ok p)
    (sphHarm : SphHarm) (jn : SphericalJn) {T : ℝ} (hT : 0 < T) (hcold : 10 * (1 * T) ≤ 4) :
    ∃ o o' : MainOutput,
      CanFinish msgSum (fun k : Fin 3 => mainRank (holeLib solver sphHarm jn 1) (hole2Args 0 T) (fun _ _ _ => holeOrders)
        (fun _ => holeOrders) k.val 3) (fun k => if k.val = 0 then some o else none) ∧
      CanFinish msgSum (fun k : Fin 5 => mainRank (holeLib solver' sphHarm jn 1) (hole2Args (50 / 2999) T) (fun _ _ _ => holeOrders)
        (fun _ => holeOrders) k.val 5) (fun k => if k.val = 0 then some o' else none) ∧
      (∀ t < 3, ∀ k < 2999, o'.spectra.xas.thermal t k = o.spectra.xas.thermal t (k + 1)) ∧
      (∀ j < 6, ∀ k < 2999, o'.spectra.xps.thermal j (k + 1) = o.spectra.xps.thermal j k) ∧
      ∀ j < 10, ∀ k < 3000, o'.spectra.ps.thermal j k = o.spectra.ps.thermal j k := by
  obtain ⟨o, o', h1, h2, -, w, wIn, hw, -, h⟩ := hole_levels hS hS' htot htot' sphHarm jn hT hcold (50 / 2999)
  have hl := hw.1
  refine ⟨o, o', h1, h2, fun t ht k hk => ?_, fun j hj k hk => ?_, fun j hj k hk => ?_⟩
  · refine h.xas t ht k (k + 1) (by omega) (by omega) ?_
    rw [hw.2, hw.2]
    push_cast
    ring
  · refine h.xps j hj (k + 1) k (by omega) (by omega) ?_
    rw [hw.2, hw.2]
    push_cast
    ring
  · exact h.ps j hj k k (by omega) (by omega) (by push_cast; ring)

/-- The same for resonant scattering, where the mesh of absorption energies is coarser. -/
example {solver solver' : EigenSolver} (hS : SolverCorrect solver) (hS' : SolverCorrect solver')
    (htot : ∀ H d k, k < d → ∃ p, solver.eigsh H d k = .ok p) (htot' : ∀ H d k, k < d → ∃ p, solver'.eigsh H d k = .ok p)
    (sphHarm : SphHarm) (jn : SphericalJn) {T : ℝ} (hT : 0 < T) (hcold : 10 * (1 * T) ≤ 4) :
    ∃ o o' : MainOutput,
      CanFinish msgSum (fun k : Fin 3 => mainRank (holeLib solver sphHarm jn 1) (hole2Args 0 T) (fun _ _ _ => holeOrders)
        (fun _ => holeOrders) k.val 3) (fun k => if k.val = 0 then some o else none) ∧
      CanFinish msgSum (fun k : Fin 5 => mainRank (holeLib solver' sphHarm jn 1) (hole2Args (30 / 49) T) (fun _ _ _ => holeOrders)
        (fun _ => holeOrders) k.val 5) (fun k => if k.val = 0 then some o' else none) ∧
      ∀ a < 3, ∀ u < 3, ∀ i < 49, ∀ k < 4000, o'.spectra.rixs.thermal a u i k = o.spectra.rixs.thermal a u (i + 1) k := by
  obtain ⟨o, o', h1, h2, -, w, wIn, -, hw, h⟩ := hole_levels hS hS' htot htot' sphHarm jn hT hcold (30 / 49)
  have hl := hw.1
  refine ⟨o, o', h1, h2, fun a ha u hu i hi k hk => ?_⟩
  refine h.rixs a ha u hu i (i + 1) (by omega) (by omega) ?_ k hk
  rw [hw.2, hw.2]
  push_cast
  ring

/-- The labels of a system with ten bath states of the d shell. -/
def bathDLabels : List Label := (List.range 16).map holeLabel ++ (List.range 10).map fun i => .bath (.int 2) i

/-- The zero of the energy of a system with ten bath states, with hopping between an orbital and a bath state. -/
example (c : ℝ) : LevelShift (fun l => if l = 2 then 10 else 0)
    ⟨fun l => if l = 2 then 10 else 0, fun l => if l = 2 then 1 else 0, fun _ => 0, fun _ => 1, fun l => if l = 2 then 8 else 6⟩
    [(oneProcess (.imp 2 0 0) (.bath (.int 2) 3), (2 : ℂ)), (oneProcess (.bath (.int 2) 3) (.imp 2 0 0), (2 : ℂ))]
    ([(oneProcess (.imp 2 0 0) (.bath (.int 2) 3), (2 : ℂ)), (oneProcess (.bath (.int 2) 3) (.imp 2 0 0), (2 : ℂ))]
      ++ bathDLabels.map fun x => (oneProcess x x, (c : ℂ))) (range 26) c 24 1 1 := by
  have hpos : bathDLabels.map (position (pdSystem fun l => if l = 2 then 10 else 0)) = List.range 26 := by decide +kernel
  refine C81_energy_zero (b := fun l => if l = 2 then 10 else 0) (fun l => ?_) (fun k v hv => ?_) (fun v F => ?_)
  · by_cases h : l = 2 <;> simp [h]
  · refine C81_conserved _ _ (fun q hq => ?_) hv
    simp only [List.mem_cons, List.not_mem_nil, or_false] at hq
    rcases hq with rfl | rfl <;> decide +kernel
  · rw [C81_raised _ _ _ (by rw [hpos]; exact List.nodup_range), hpos, List.toFinset_range]
    rfl

end

end Verif
