/-
C86: cases that meet the hypotheses.
-/
import Verif.Prop.Perturb
import Verif.Prop.LevelsExample

namespace Verif

open Finset Mpi Psr Spec

noncomputable section

/-- Hopping between two spin-orbitals of strength `t`, the second one at the energy `e`. -/
def twoLevel (t e : ℝ) : Op ℕ ℂ := [([(0, .c), (1, .a)], (t : ℂ)), ([(1, .c), (0, .a)], (t : ℂ)), ([(1, .c), (1, .a)], (e : ℂ))]

theorem twoLevel_nodup (t e : ℝ) : Dict.NodupKeys (twoLevel t e) := by simp [Dict.NodupKeys, Dict.keys, twoLevel]

theorem twoLevel_inSystem (t e : ℝ) : OpInSystem 2 (twoLevel t e) := by
  intro q hq x hx
  simp only [twoLevel, List.mem_cons, List.not_mem_nil, or_false] at hq
  rcases hq with rfl | rfl | rfl <;> simp at hx <;> rcases hx with rfl | rfl <;> norm_num

theorem twoLevel_hermitian (t e : ℝ) : isHermitianOp (twoLevel t e) := by
  have ht : ∀ r : ℝ, star (r : ℂ) = r := Complex.conj_ofReal
  intro k
  simp only [twoLevel, daggerOp, List.foldl_cons, List.foldl_nil, Dict.set, List.reverse_cons, List.reverse_nil,
    List.nil_append, List.cons_append, List.map_cons, List.map_nil, Action.dagger, ht, Dict.get?_cons, Dict.get?_nil]
  clear ht
  by_cases ha : k = [(0, .c), (1, .a)] <;> by_cases hb : k = [(1, .c), (0, .a)] <;> simp_all [Dict.set, Dict.get?_cons, eq_comm]

theorem twoLevel_change (t e e' : ℝ) : strengthChange (twoLevel t e) (twoLevel t e') = |e - e'| := by
  have hk : ∀ e : ℝ, Dict.keys (twoLevel t e) = [[(0, .c), (1, .a)], [(1, .c), (0, .a)], [(1, .c), (1, .a)]] := fun _ => rfl
  unfold strengthChange
  rw [hk, hk, union_self]
  simp [strength, twoLevel, Dict.get?_cons, ← Complex.ofReal_sub]

theorem twoLevel_shifted (t e e' : ℝ) : ShiftedBy (operator (opSpec (twoLevel t e))) (operator (opSpec (twoLevel t e')))
    fun F => if 1 ∈ F then e' - e else 0 := by
  intro v F
  have h : ∀ e : ℝ, operator (opSpec (twoLevel t e)) v F = (t : ℂ) * create 0 (annihilate 1 v) F + (t : ℂ) * create 1 (annihilate 0 v) F
      + (e : ℂ) * create 1 (annihilate 1 v) F := by
    intro e
    simp [operator, opSpec, twoLevel, processSpec, product, ladder]
    ring
  rw [h, h, create_annihilate_self]
  by_cases h1 : 1 ∈ F
  · simp only [h1, if_true]; push_cast; ring
  · simp [h1]

theorem twoLevel_between (t e e' s : ℝ) : OperatorBetween s (operator (opSpec (twoLevel t e))) (operator (opSpec (twoLevel t e')))
    (operator (opSpec (twoLevel t (s * e + (1 - s) * e')))) := by
  intro v F
  simp [operator, opSpec, twoLevel]
  ring

/-- The hypotheses of `C86_eigensystem`, `C86_shifted` and `C86_concave` are met: two levels with hopping, the second level at
the energies 0, 1 and 1/4. -/
theorem C86_example : ∃ S es psis es' psis' esm psism, SolverCorrect S ∧
    eigensystem S 2 (twoLevel 1 0) 0 ([{0}, {1}].map (encBytes 2)) 5 .full 1e-7 3 = .ok (es, psis) ∧ es.length = 2 ∧
    eigensystem S 2 (twoLevel 1 1) 0 ([{0}, {1}].map (encBytes 2)) 5 .full 1e-7 3 = .ok (es', psis') ∧ es'.length = 2 ∧
    eigensystem S 2 (twoLevel 1 (1 / 4)) 0 ([{0}, {1}].map (encBytes 2)) 5 .full 1e-7 3 = .ok (esm, psism) ∧ esm.length = 2 ∧
    (∀ i (hi : i < es.length) (hi' : i < es'.length), |es[i] - es'[i]| ≤ 1 ∧ 0 ≤ es'[i] - es[i] ∧ es'[i] - es[i] ≤ 1) ∧
    3 / 4 * es.getD 0 0 + 1 / 4 * es'.getD 0 0 ≤ esm.getD 0 0 := by
  obtain ⟨S, hS⟩ := exists_solverCorrect
  have hr := fun e => C51_returns S hS 2 (twoLevel 1 e) (twoLevel_inSystem 1 e) (twoLevel_nodup 1 e) (twoLevel_hermitian 1 e) 0
    [{0}, {1}] (by decide) (by decide) 5 1e-7 3 (by norm_num)
  obtain ⟨⟨es, psis, h, hl⟩, -⟩ := hr 0
  obtain ⟨⟨es', psis', h', hl'⟩, -⟩ := hr 1
  obtain ⟨⟨esm, psism, hm, hlm⟩, -⟩ := hr (1 / 4)
  have hl : es.length = 2 := by simpa using hl
  have hl' : es'.length = 2 := by simpa using hl'
  have hlm : esm.length = 2 := by simpa using hlm
  refine ⟨S, es, psis, es', psis', esm, psism, hS, h, hl, h', hl', hm, hlm, fun i hi hi' => ⟨?_, ?_⟩, ?_⟩
  · have := C86_eigensystem (twoLevel_inSystem 1 0) (twoLevel_inSystem 1 1) (twoLevel_nodup 1 0) (twoLevel_nodup 1 1)
      (twoLevel_hermitian 1 0) (twoLevel_hermitian 1 1) hS hS (by decide) (by decide) (by norm_num) (by norm_num) h h' i hi hi'
    rw [twoLevel_change] at this
    simpa using this
  · have := C86_shifted (twoLevel_inSystem 1 0) (twoLevel_inSystem 1 1) (twoLevel_nodup 1 0) (twoLevel_nodup 1 1)
      (twoLevel_hermitian 1 0) (twoLevel_hermitian 1 1) hS hS (by decide) (by decide) (by norm_num) (by norm_num) h h'
      (twoLevel_shifted 1 0 1) (lo := 0) (hi := 1) (fun F _ => by split <;> norm_num) (fun F _ => by split <;> norm_num) i hi hi'
    simpa using this
  · have hb := twoLevel_between 1 0 1 (3 / 4)
    rw [show (3 / 4 : ℝ) * 0 + (1 - 3 / 4) * 1 = 1 / 4 by norm_num] at hb
    have := C86_concave (twoLevel_inSystem 1 0) (twoLevel_inSystem 1 1) (twoLevel_nodup 1 0) (twoLevel_nodup 1 1)
      (twoLevel_hermitian 1 0) (twoLevel_hermitian 1 1) hS hS (by decide) (by decide) (by norm_num) (by norm_num)
      (twoLevel_inSystem 1 _) (twoLevel_nodup 1 _) (twoLevel_hermitian 1 _) hS (by norm_num) (by norm_num) (by norm_num) hb h h' hm
      (by omega) (by omega) (by omega)
    rw [List.getD_eq_getElem _ _ (by omega), List.getD_eq_getElem _ _ (by omega), List.getD_eq_getElem _ _ (by omega)]
    rw [Real.sqrt_zero] at this
    linarith

/-! ### main -/

theorem hole_levelsRaised (lev : ℝ) : LevelsRaised (fun _ => 0) (holeLevels 0) (holeLevels lev) 0 lev := by
  intro v F
  have := (hole_levelShift lev).raised v F
  rw [this]
  push_cast
  ring

/-- The hypotheses of `C86_main` and `C86_monopoles` are met, for all pairs of correct solvers: two runs, the p shell of the
second one 30/49 higher. -/
theorem C86_main_example {solver solver' : EigenSolver} (hS : SolverCorrect solver) (hS' : SolverCorrect solver')
    (htot : ∀ H d k, k < d → ∃ p, solver.eigsh H d k = .ok p) (htot' : ∀ H d k, k < d → ∃ p, solver'.eigsh H d k = .ok p)
    (sphHarm : SphHarm) (jn : SphericalJn) {T : ℝ} (hT : 0 < T) (hcold : 10 * (1 * T) ≤ 4) :
    ∃ (o o' : MainOutput) (p p' q q' : ℕ), o.energies.length = 2 ∧ o'.energies.length = 2 ∧
      ∀ i (hi : i < o.energies.length) (hi' : i < o'.energies.length),
        |o.energies[i] - o'.energies[i]|
          ≤ oneBodyChange 0 0 0 0 0 0 0 0 0 0 (holeLevels 0) (holeLevels (30 / 49)) + (p + p') * 1e-6 ∧
        6 * (30 / 49) - (q + q') * 1e-6 ≤ o'.energies[i] - o.energies[i] ∧
        o'.energies[i] - o.energies[i] ≤ 6 * (30 / 49) + (q + q') * 1e-6 := by
  obtain ⟨o, ho⟩ := hole2_finishes 0 hS htot sphHarm jn one_pos hT hcold
  obtain ⟨o', ho'⟩ := hole2_finishes (30 / 49) hS' htot' sphHarm jn one_pos hT hcold
  have h1 := (ho 3 (by decide) (fun _ _ _ _ => holeOrders) (fun _ _ _ _ => holeOrders_valid) (fun _ _ => holeOrders)
    (fun _ _ => holeOrders_valid)).canFinish
  have h2 := (ho' 5 (by decide) (fun _ _ _ _ => holeOrders) (fun _ _ _ _ => holeOrders_valid) (fun _ _ => holeOrders)
    (fun _ _ => holeOrders_valid)).canFinish
  obtain ⟨psis, S, psis', S', r, r', c1⟩ := C86_main (hole2Args_valid 0 T) (hole2Args_valid (30 / 49) T) sympyGaunt_large
    (by decide) (by decide) (fun _ _ _ _ => holeOrders_valid) (fun _ _ => holeOrders_valid) h1 rfl
    (fun _ _ _ _ => holeOrders_valid) (fun _ _ => holeOrders_valid) h2 rfl hS hS' rfl (hole2Args_documented 0 T)
    (hole2Args_documented (30 / 49) T) ⟨rfl, rfl, rfl, rfl, rfl, rfl, rfl⟩ holeLevels_nodup holeLevels_nodup
  obtain ⟨psis2, S2, psis2', S2', -, -, c2⟩ := C86_monopoles (hole2Args_valid 0 T) (hole2Args_valid (30 / 49) T) sympyGaunt_large
    (by decide) (by decide) (fun _ _ _ _ => holeOrders_valid) (fun _ _ => holeOrders_valid) h1 rfl
    (fun _ _ _ _ => holeOrders_valid) (fun _ _ => holeOrders_valid) h2 rfl hS hS' (hole2Args_documented 0 T)
    (hole2Args_documented (30 / 49) T) rfl rfl (udd := 0) (upp := 0) (upd := 0) (c := 0) (ed := 0) (ep := 30 / 49)
    ⟨by simp [raiseMonopoles, raiseMonopole, hole2Args, holeArgs], by simp [raiseMonopoles, raiseMonopole, hole2Args, holeArgs],
      by simp [raiseMonopoles, raiseMonopole, hole2Args, holeArgs], rfl, rfl, rfl,
      by simp [raiseMonopoles, raiseMonopole, hole2Args, holeArgs]⟩ rfl (hole_levelsRaised _)
  refine ⟨o, o', S.hOp.length, S'.hOp.length, S2.hOp.length, S2'.hOp.length, r.count, r'.count, fun i hi hi' =>
    ⟨c1 i hi hi', c2 (6 * (30 / 49)) (6 * (30 / 49)) ?_ i hi hi'⟩⟩
  intro F _ hF nd np _ hnp
  have hp : (np : ℤ) = 6 := by
    obtain ⟨dv, dc, hch, himp, -⟩ := hF (1, 0) (by simp)
    rw [← hnp] at himp
    obtain ⟨h1, h2, h3, h4, h5⟩ := hch
    simp only [holeParams] at h2 h4 himp
    simp at himp
    omega
  have hp : (np : ℝ) = 6 := by exact_mod_cast hp
  unfold monopoleEnergy
  rw [hp]
  constructor <;> norm_num

/-- The hypotheses of `C86_main_concave` are met: the p shell of the third run lies between those of the others. -/
example {solver : EigenSolver} (hS : SolverCorrect solver) (htot : ∀ H d k, k < d → ∃ p, solver.eigsh H d k = .ok p)
    (sphHarm : SphHarm) (jn : SphericalJn) {T : ℝ} (hT : 0 < T) (hcold : 10 * (1 * T) ≤ 4) :
    ∃ es es' esm psis psis' psism S S' Sm, MainRun (holeLib solver sphHarm jn 1) (hole2Args 0 T) (fun _ => 0) holeParams 0 0 0
        (holeLevels 0) es psis S ∧
      MainRun (holeLib solver sphHarm jn 1) (hole2Args (30 / 49) T) (fun _ => 0) holeParams 0 0 0 (holeLevels (30 / 49)) es' psis' S' ∧
      MainRun (holeLib solver sphHarm jn 1) (hole2Args (50 / 2999) T) (fun _ => 0) holeParams 0 0 0 (holeLevels (50 / 2999)) esm psism
        Sm ∧ ∃ (p : 0 < es.length) (p' : 0 < es'.length) (pm : 0 < esm.length),
        8752 / 8997 * es[0] + 245 / 8997 * es'[0]
          ≤ esm[0] + (8752 / 8997 * S.hOp.length + 245 / 8997 * S'.hOp.length + Sm.hOp.length) * 1e-6 := by
  have hrun : ∀ (lev : ℝ) [CoreLevel lev], ∃ es psis S, MainRun (holeLib solver sphHarm jn 1) (hole2Args lev T) (fun _ => 0) holeParams
      0 0 0 (holeLevels lev) es psis S := by
    intro lev _
    obtain ⟨o, ho⟩ := hole2_finishes lev hS htot sphHarm jn one_pos hT hcold
    have h1 := (ho 3 (by decide) (fun _ _ _ _ => holeOrders) (fun _ _ _ _ => holeOrders_valid) (fun _ _ => holeOrders)
      (fun _ _ => holeOrders_valid)).canFinish
    obtain ⟨psis, S, r, -⟩ := C65_run (hole2Args_valid lev T) sympyGaunt_large (by decide)
      (fun _ _ _ _ => holeOrders_valid) (fun _ _ => holeOrders_valid) h1 rfl hS (hole2Args_documented lev T)
    exact ⟨_, psis, S, r⟩
  obtain ⟨es, psis, S, r⟩ := hrun 0
  obtain ⟨es', psis', S', r'⟩ := hrun (30 / 49)
  obtain ⟨esm, psism, Sm, rm⟩ := hrun (50 / 2999)
  refine ⟨es, es', esm, psis, psis', psism, S, S', Sm, r, r', rm, ?_⟩
  have hz : ∀ t : ℝ, t * 0 + (1 - t) * 0 = 0 := fun t => by ring
  have rm2 : MainRun (holeLib solver sphHarm jn 1) (hole2Args (50 / 2999) T) (fun _ => 0) holeParams (8752 / 8997 * 0 + (1 - 8752 / 8997) * 0)
      (8752 / 8997 * 0 + (1 - 8752 / 8997) * 0) (8752 / 8997 * 0 + (1 - 8752 / 8997) * 0) (holeLevels (50 / 2999)) esm psism Sm := by
    rw [hz]; exact rm
  have := C86_main_concave (t := 8752 / 8997) r r' rm2 rfl rfl (by norm_num) (by norm_num)
    ⟨⟨rfl, rfl, fun k => by change _ = _ * (hole2Args 0 T).Fdd.getD k 0 + _ * (hole2Args 0 T).Fdd.getD k 0; rw [← add_mul]; norm_num [hole2Args, holeArgs]⟩,
      ⟨rfl, rfl, fun k => by change _ = _ * (hole2Args 0 T).Fpp.getD k 0 + _ * (hole2Args 0 T).Fpp.getD k 0; rw [← add_mul]; norm_num [hole2Args, holeArgs]⟩,
      ⟨rfl, rfl, fun k => by change _ = _ * (hole2Args 0 T).Fpd.getD k 0 + _ * (hole2Args 0 T).Fpd.getD k 0; rw [← add_mul]; norm_num [hole2Args, holeArgs]⟩,
      ⟨rfl, rfl, fun k => by change _ = _ * (hole2Args 0 T).Gpd.getD k 0 + _ * (hole2Args 0 T).Gpd.getD k 0; rw [← add_mul]; norm_num [hole2Args, holeArgs]⟩,
      (hz _).symm, (hz _).symm, (hz _).symm⟩ (by
      intro v F
      have h1 := hole_levelsRaised (30 / 49) v F
      have h2 := hole_levelsRaised (50 / 2999) v F
      rw [h1, h2]
      push_cast
      ring)
  obtain ⟨p, p', pm, h⟩ := this
  refine ⟨p, p', pm, ?_⟩
  norm_num at h ⊢
  exact h

end

end Verif
