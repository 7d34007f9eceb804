/-
The hypotheses of C90, C91 and C92 are met.
-/
import Verif.Prop.Isotropy
import Verif.Prop.Rotation
import Verif.Lemmas.TimeReversalCF
import Verif.Lemmas.ClosedShellRun

namespace Verif

open Finset Mpi Psr Spec

noncomputable section

/-! ### A system without a preferred direction -/

/-- The quantum numbers of the spin-orbital `i` of a shell. -/
def cloNumbers (i : ℕ) : ℤ × ℤ :=
  if i < 6 then (((i / 3 : ℕ) : ℤ), ((i % 3 : ℕ) : ℤ) - 1) else ((((i - 6) / 5 : ℕ) : ℤ), (((i - 6) % 5 : ℕ) : ℤ) - 2)

/-- An angular momentum of the electrons in the two shells. -/
def cloMomentum (K : ℕ → Fin 3 → ℤ × ℤ → ℤ × ℤ → ℂ) (a : Fin 3) (i j : ℕ) : ℂ :=
  if i < 6 ∧ j < 6 then K 1 a (cloNumbers i) (cloNumbers j)
  else if (6 ≤ i ∧ i < 16) ∧ 6 ≤ j ∧ j < 16 then K 2 a (cloNumbers i) (cloNumbers j) else 0

theorem clo_oneMatrix {i j : ℕ} (hi : i < 17) :
    oneMatrix cloSystem cloLevels i j = if i = j then cloLevel i else 0 := by
  unfold oneMatrix cloLevels oneProcess
  rw [List.map_map]
  have h : ∀ k ∈ List.range 17, ((fun q : Process Label × ℂ => if q.1.map (fun x => (position cloSystem x.1, x.2))
      = [(i, Action.c), (j, Action.a)] then q.2 else 0) ∘ fun i => ([(cloLabel i, Action.c), (cloLabel i, Action.a)], cloLevel i)) k
      = if k = i then (if i = j then cloLevel i else 0) else 0 := by
    intro k hk
    simp only [Function.comp, List.map_cons, List.map_nil, cloLabel_position k (List.mem_range.1 hk), List.cons.injEq,
      Prod.mk.injEq, and_true]
    by_cases h : k = i
    · subst h; simp
    · rw [if_neg fun e => h e.1, if_neg h]
  rw [List.map_congr_left h, ← List.sum_toFinset _ List.nodup_range, List.toFinset_range, sum_ite_eq', if_pos (mem_range.2 hi)]

theorem clo_oneElectron : OneElectron cloSystem cloLevels := by
  intro q hq
  obtain ⟨i, hi, rfl⟩ := List.mem_map.1 hq
  have hi := List.mem_range.1 hi
  exact ⟨_, _, rfl, by rw [cloLabel_position i hi, cloSystem_size]; exact hi, by rw [cloLabel_position i hi, cloSystem_size]; exact hi⟩

theorem clo_conserves {K : ℕ → Fin 3 → ℤ × ℤ → ℤ × ℤ → ℂ} (hK : ∀ l a x y, star (K l a y x) = K l a x y) :
    ConservesMomentum cloBaths cloParams cloLevels K (cloMomentum K) where
  hermitian := by
    intro a i _ j _
    unfold cloMomentum
    by_cases h1 : i < 6 ∧ j < 6
    · rw [if_pos h1, if_pos h1.symm, hK]
    · rw [if_neg h1, if_neg fun h => h1 h.symm]
      by_cases h2 : (6 ≤ i ∧ i < 16) ∧ 6 ≤ j ∧ j < 16
      · rw [if_pos h2, if_pos h2.symm, hK]
      · rw [if_neg h2, if_neg fun h => h2 h.symm, star_zero]
  shell := by
    have h1 : ∀ x ∈ Spec.shell 1, position cloSystem (.imp 1 x.1 x.2) < 6 ∧ cloNumbers (position cloSystem (.imp 1 x.1 x.2)) = x := by
      unfold Spec.shell; decide +kernel
    have h2 : ∀ x ∈ Spec.shell 2, (6 ≤ position cloSystem (.imp 2 x.1 x.2) ∧ position cloSystem (.imp 2 x.1 x.2) < 16) ∧
        cloNumbers (position cloSystem (.imp 2 x.1 x.2)) = x := by
      unfold Spec.shell; decide +kernel
    intro a l hl x hx y hy
    simp only [List.mem_cons, List.not_mem_nil, or_false] at hl
    unfold cloMomentum
    rcases hl with rfl | rfl
    · rw [if_pos ⟨(h1 x hx).1, (h1 y hy).1⟩, (h1 x hx).2, (h1 y hy).2]
    · rw [if_neg fun h => absurd (h2 x hx).1.1 (not_le.2 h.1), if_pos ⟨(h2 x hx).1, (h2 y hy).1⟩, (h2 x hx).2, (h2 y hy).2]
  groups := by
    intro a l hl i hi j hj h
    rw [cloSystem_size] at hi hj
    have hc : (i < 6 ∧ j < 6) ∨ ((6 ≤ i ∧ i < 16) ∧ 6 ≤ j ∧ j < 16) := by
      by_contra hn
      push Not at hn
      unfold cloMomentum at h
      rw [if_neg fun e => absurd e.2 (by have := hn.1 e.1; omega), if_neg fun e => absurd e.2.2 (by have := hn.2 e.1 e.2.1; omega)] at h
      exact h rfl
    simp only [List.mem_cons, List.not_mem_nil, or_false] at hl
    unfold impOrbs valOrbs conOrbs
    rcases hl with rfl | rfl
    · rw [pd_start1, pd_bath1, mem_Ico, mem_Ico, mem_Ico, mem_Ico, mem_Ico, mem_Ico]
      simp only [cloBaths, cloParams]
      norm_num
      omega
    · rw [pd_start2, pd_bath2, mem_Ico, mem_Ico, mem_Ico, mem_Ico, mem_Ico, mem_Ico]
      simp only [cloBaths, cloParams]
      norm_num
      omega
  oneElectron := clo_oneElectron
  commutes := by
    intro a i hi j hj
    rw [cloSystem_size] at hi hj ⊢
    have h1 : ∀ k ∈ range 17, cloMomentum K a i k * oneMatrix cloSystem cloLevels k j
        = if k = j then cloMomentum K a i j * cloLevel j else 0 := by
      intro k hk
      rw [clo_oneMatrix (mem_range.1 hk)]
      split
      · next h => rw [h]
      · rw [mul_zero]
    have h2 : ∀ k ∈ range 17, oneMatrix cloSystem cloLevels i k * cloMomentum K a k j
        = if i = k then cloLevel i * cloMomentum K a i j else 0 := by
      intro k _
      rw [clo_oneMatrix hi]
      split
      · next h => rw [h]
      · rw [zero_mul]
    rw [sum_congr rfl h1, sum_congr rfl h2, sum_ite_eq', sum_ite_eq, if_pos (mem_range.2 hj), if_pos (mem_range.2 hi)]
    unfold cloMomentum cloLevel
    split_ifs <;> first | omega | (simp [mul_comm])

theorem clo_spherical : SphericallySymmetric cloBaths cloParams cloLevels :=
  ⟨_, clo_conserves totalComponent_herm⟩

theorem clo_spin : SpinSymmetric cloBaths cloParams cloLevels :=
  ⟨_, clo_conserves spinComponent_herm⟩

theorem clo_kept {μ : ℤ} [CloField μ] {L : MainLib} {T : ℝ} {energies : List ℝ} {psis : List (Psi ℂ)} {S : SimulateArgs}
    (hrun : MainRun L (cloArgs μ T) cloBaths cloParams 0 0 (μ : ℝ) cloLevels energies psis S) : ElementsKept S := by
  have hsz : size S = 17 := by unfold size; rw [hrun.system]; exact cloSystem_size
  have hD : DiagonalOp 17 S.hOp 1e-12 (cloEnergy μ) := clo_diagonal fun v F hF => by
    rw [hrun.hamiltonian v F]
    exact clo_pdHamiltonian L.gaunt μ T v hF
  intro F hF G hG
  rw [hsz] at hF hG
  rw [hrun.args.cutoffs.2.2, hD.element F hF G hG]
  split
  · exact hD.large G hG
  · exact Or.inl rfl

/-! ### The runs -/

/-- The hypotheses of C90_main and C92_main are met, for all pairs of correct solvers: three ranks with the field along z and five ranks with
the opposite field. -/
example {solver solver' : EigenSolver} (hS : SolverCorrect solver) (hS' : SolverCorrect solver')
    (htot : ∀ H d k, k < d → ∃ p, solver.eigsh H d k = .ok p) (htot' : ∀ H d k, k < d → ∃ p, solver'.eigsh H d k = .ok p)
    (sphHarm : SphHarm) (jn : SphericalJn) {T : ℝ} (hT : 0 < T) (hcold : 10 * (1 * T) ≤ 4) :
    ∃ o o' : MainOutput,
      CanFinish msgSum (fun k : Fin 3 => mainRank (holeLib solver sphHarm jn 1) (cloArgs 1 T) (fun _ _ _ => holeOrders)
        (fun _ => holeOrders) k.val 3) (fun k => if k.val = 0 then some o else none) ∧
      CanFinish msgSum (fun k : Fin 5 => mainRank (holeLib solver' sphHarm jn 1) (cloArgs (-1) T)
        (fun _ _ _ => holeOrders) (fun _ => holeOrders) k.val 5) (fun k => if k.val = 0 then some o' else none) ∧
      o'.energies = o.energies ∧ SameSums o.spectra o'.spectra ∧ SameSpinSums o.spectra o'.spectra := by
  obtain ⟨o, ho⟩ := clo_finishes 1 hS htot sphHarm jn one_pos hT hcold
  obtain ⟨o', ho'⟩ := clo_finishes (-1) hS' htot' sphHarm jn one_pos hT hcold
  have h1 := (ho 3 (by decide) (fun _ _ _ _ => holeOrders) (fun _ _ _ _ => holeOrders_valid) (fun _ _ => holeOrders)
    (fun _ _ => holeOrders_valid)).canFinish
  have h2 := (ho' 5 (by decide) (fun _ _ _ _ => holeOrders) (fun _ _ _ _ => holeOrders_valid) (fun _ _ => holeOrders)
    (fun _ _ => holeOrders_valid)).canFinish
  have hlen : (0 : ℝ) ^ 2 + 0 ^ 2 + ((1 : ℤ) : ℝ) ^ 2 = 0 ^ 2 + 0 ^ 2 + ((-1 : ℤ) : ℝ) ^ 2 := by norm_num
  have key : ∀ {psis psis' : List (Psi ℂ)} {S S' : SimulateArgs},
      MainRun (holeLib solver sphHarm jn 1) (cloArgs 1 T) cloBaths cloParams 0 0 ((1 : ℤ) : ℝ) cloLevels o.energies psis S →
      MainRun (holeLib solver' sphHarm jn 1) (cloArgs (-1) T) cloBaths cloParams 0 0 ((-1 : ℤ) : ℝ) cloLevels o'.energies psis' S' →
      ElementsKept S ∧ ElementsKept S' ∧ S.es.length < o.energies.length ∧
      (∀ psi ∈ S.psis ++ S'.psis, ∑ F ∈ (range (size S)).powerset, Complex.normSq (ampl (size S) psi F) = 1) ∧
      AllResolved cloBaths S ∧ AllResolved cloBaths S' := by
    intro psis psis' S S' r1 r2
    obtain ⟨k1, k2, k3⟩ := clo_resolved (L := holeLib solver sphHarm jn 1) rfl hT one_pos hcold r1
    obtain ⟨-, k2', k3'⟩ := clo_resolved (L := holeLib solver' sphHarm jn 1) rfl hT one_pos hcold r2
    have hsz : size S' = size S := by unfold size; rw [r1.system, r2.system]
    refine ⟨clo_kept r1, clo_kept r2, k1, fun psi hp => ?_, k3, k3'⟩
    rcases List.mem_append.1 hp with hp | hp
    · exact k2 psi hp
    · rw [← hsz]; exact k2' psi hp
  obtain ⟨psis, S, psis', S', r1, r2, hmain⟩ := C90_main (cloArgs_valid 1 T) sympyGaunt_large (by decide) (by decide)
    (fun _ _ _ _ => holeOrders_valid) (fun _ _ => holeOrders_valid) h1 rfl
    (fun _ _ _ _ => holeOrders_valid) (fun _ _ => holeOrders_valid) h2 rfl hS hS' rfl (cloArgs_documented 1 T)
    (cloArgs_documented (-1) T) hlen rfl rfl rfl rfl sympyGaunt_rules C70_gaunt.2.2.1 sympyGaunt_symmetric
    (holeSolve_exact solver sphHarm jn 1) (holeSolve_exact solver' sphHarm jn 1) rfl rfl clo_spherical
  obtain ⟨psis2, S2, psis2', S2', r3, r4, hmain2⟩ := C92_main (cloArgs_valid 1 T) sympyGaunt_large (by decide) (by decide)
    (fun _ _ _ _ => holeOrders_valid) (fun _ _ => holeOrders_valid) h1 rfl
    (fun _ _ _ _ => holeOrders_valid) (fun _ _ => holeOrders_valid) h2 rfl hS hS' rfl (cloArgs_documented 1 T)
    (cloArgs_documented (-1) T) hlen rfl rfl rfl rfl sympyGaunt_rules
    (holeSolve_exact solver sphHarm jn 1) (holeSolve_exact solver' sphHarm jn 1) rfl rfl clo_spin rfl rfl
  obtain ⟨a1, a2, a3, a4, a5, a6⟩ := key r1 r2
  obtain ⟨b1, b2, b3, b4, b5, b6⟩ := key r3 r4
  obtain ⟨e1, -, e2⟩ := hmain a1 a2
  exact ⟨o, o', h1, h2, e1, (e2 a3 a4).1 a5 a6, ((hmain2 b1 b2).2.2 b3 b4).1 b5 b6⟩

/-- The hypotheses of C91_main are met. -/
example {solver : EigenSolver} (hS : SolverCorrect solver) (htot : ∀ H d k, k < d → ∃ p, solver.eigsh H d k = .ok p)
    (sphHarm : SphHarm) (jn : SphericalJn) {T : ℝ} (hT : 0 < T) (hcold : 10 * (1 * T) ≤ 4) :
    ∃ o : MainOutput,
      CanFinish msgSum (fun k : Fin 3 => mainRank (holeLib solver sphHarm jn 1) (cloArgs 0 T) (fun _ _ _ => holeOrders)
        (fun _ => holeOrders) k.val 3) (fun k => if k.val = 0 then some o else none) ∧ Unpolarised o.spectra := by
  obtain ⟨o, ho⟩ := clo_finishes 0 hS htot sphHarm jn one_pos hT hcold
  have h1 := (ho 3 (by decide) (fun _ _ _ _ => holeOrders) (fun _ _ _ _ => holeOrders_valid) (fun _ _ => holeOrders)
    (fun _ _ => holeOrders_valid)).canFinish
  have hz : ((0 : ℤ) : ℝ) = 0 := Int.cast_zero
  have hD := cloArgs_documented 0 T
  rw [hz] at hD
  obtain ⟨psis, S, r1, hmain⟩ := C91_main (cloArgs_valid 0 T) sympyGaunt_large (by decide)
    (fun _ _ _ _ => holeOrders_valid) (fun _ _ => holeOrders_valid) h1 rfl hS hD sympyGaunt_rules C70_gaunt.2.2.1
    sympyGaunt_symmetric (holeSolve_exact solver sphHarm jn 1) rfl clo_spherical
  have r2 : MainRun (holeLib solver sphHarm jn 1) (cloArgs 0 T) cloBaths cloParams 0 0 ((0 : ℤ) : ℝ) cloLevels o.energies psis S := by
    rw [hz]; exact r1
  obtain ⟨k1, k2, k3⟩ := clo_resolved (L := holeLib solver sphHarm jn 1) rfl hT one_pos hcold r2
  exact ⟨o, h1, (hmain (clo_kept r2) k1 k2).1 k3⟩

end

end Verif
