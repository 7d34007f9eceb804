/-
The hypotheses of C76 are met: an s shell with degenerate states, and two runs of main with different solvers.
-/
import Verif.Lemmas.DegenerateExample
import Verif.Lemmas.SimulateExample

namespace Verif

open Finset Mpi Psr Spec Matrix

noncomputable section

/-! ### Degenerate states of an s shell -/

/-- One electron in an s shell without a Hamiltonian, and a unitary superposition of the two states. -/
def twoStates : List (Psi ℂ) := [[(encBytes 2 {0}, 1)], [(encBytes 2 {1}, 1)]]

def twoMixed : List (Psi ℂ) := [[(encBytes 2 {0}, 3 / 5), (encBytes 2 {1}, 4 / 5)],
  [(encBytes 2 {0}, -4 / 5), (encBytes 2 {1}, 3 / 5)]]

def shellSim (gaunt : GauntFun) (sphHarm : SphHarm) (jn : SphericalJn) : SimulateArgs :=
  { exSim gaunt sphHarm jn 1e-7 with es := [0, 0], psis := twoStates, hOp := [], nBaths := [(0, 0)], cut := 1e-12 }

theorem two_subsets {F : Finset ℕ} (h : F ⊆ range 2) : F = ∅ ∨ F = {0} ∨ F = {1} ∨ F = {0, 1} := by
  have : ∀ F ∈ (range 2).powerset, F = ∅ ∨ F = {0} ∨ F = {1} ∨ F = {0, 1} := by decide
  exact this F (mem_powerset.2 h)

theorem ampl_two (x y : ℂ) (F : Finset ℕ) : ampl 2 [(encBytes 2 {0}, x), (encBytes 2 {1}, y)] F
    = if F = {0} then x else if F = {1} then y else 0 := by
  unfold ampl
  by_cases h : F ⊆ range 2
  · rw [if_pos h]
    rcases two_subsets h with rfl | rfl | rfl | rfl
    · rw [if_neg (by decide), if_neg (by decide)]; rfl
    · rw [if_pos rfl]; rfl
    · rw [if_neg (by decide), if_pos rfl]; rfl
    · rw [if_neg (by decide), if_neg (by decide)]; rfl
  · rw [if_neg h, if_neg (by rintro rfl; exact h (by decide)), if_neg (by rintro rfl; exact h (by decide))]

theorem ampl_one (F : Finset ℕ) :
    ampl 2 (twoStates.getD 0 []) F = (if F = {0} then 1 else if F = {1} then 0 else 0) ∧
    ampl 2 (twoStates.getD 1 []) F = if F = {0} then 0 else if F = {1} then 1 else 0 := by
  rw [show twoStates.getD 0 [] = [(encBytes 2 {0}, 1)] from rfl, show twoStates.getD 1 [] = [(encBytes 2 {1}, 1)] from rfl,
    ampl_single (by decide), ampl_single (by decide)]
  unfold Spec.single
  constructor
  · by_cases h : F = {0} <;> simp [h]
  · by_cases h : F = {0}
    · subst h; simp
    · simp [h]

section
variable (gaunt : GauntFun) (sphHarm : SphHarm) (jn : SphericalJn) {P : List (Psi ℂ)} {a b : ℕ → ℂ}
  (hP : ∀ i < 2, ∀ F, ampl 2 (P.getD i []) F = if F = {0} then a i else if F = {1} then b i else 0)
  (ha : ∀ i < 2, a i = 0 ∨ (1e-7 : ℝ) ≤ abs2 (a i))
include hP

theorem shell_removed {i : ℕ} (hi : i < 2) (F : Finset ℕ) : annihilate 0 (ampl 2 (P.getD i [])) F = if F = ∅ then a i else 0 := by
  unfold annihilate
  rw [hP i hi]
  by_cases h0 : 0 ∈ F
  · rw [if_pos h0, if_neg (by rintro rfl; simp at h0)]
  · by_cases hF : F = ∅
    · subst hF
      simp [sgn, below]
    · rw [if_neg hF]
      have h1 : insert 0 F ≠ {0} := by
        intro h
        refine hF (Finset.eq_empty_of_forall_notMem fun x hx => h0 ?_)
        have : x ∈ ({0} : Finset ℕ) := h ▸ mem_insert_of_mem hx
        rwa [← mem_singleton.1 this]
      have h2 : insert 0 F ≠ {1} := by
        intro h
        have : 0 ∈ ({1} : Finset ℕ) := h ▸ mem_insert_self 0 F
        simp at this
      simp [h1, h2]

include ha

theorem shell_lost {i : ℕ} (hi : i < 2) : NothingLost (shellSim gaunt sphHarm jn) (annihilate 0) (ampl 2 (P.getD i [])) := by
  intro F _ _
  rw [shell_removed hP hi]
  split
  · exact ha i hi
  · exact Or.inl rfl

theorem shell_response {i : ℕ} (hi : i < 2) :
    IsResponse { shellSim gaunt sphHarm jn with psis := P } (annihilate 0) i Complex.I (star (a i) * (a i / Complex.I)) := by
  set S : SimulateArgs := { shellSim gaunt sphHarm jn with psis := P }
  have hsz : size S = 2 := rfl
  have hH : ∀ x F, hamilton S x F = 0 := by
    intro x F
    unfold hamilton Spec.hamiltonian
    split
    · refine sum_eq_zero fun G _ => ?_
      unfold Spec.column
      split
      · have : matrixElement S.hOp F G = 0 := by
          unfold matrixElement
          simp [S, shellSim, opSpec, operator]
        rw [this, zero_mul]
      · rw [zero_mul]
    · rfl
  have hb : excite S (annihilate 0) i = fun F => if F = ∅ then a i else 0 := by
    funext F
    unfold excite exciteVec excited
    rw [hsz, show S.psis = P from rfl, shell_removed hP hi]
    by_cases hF : F = ∅
    · subst hF
      rw [if_pos rfl]
      split
      · rfl
      · next hc =>
        rcases ha i hi with h0 | h0
        · exact h0.symm
        · exact absurd ⟨empty_subset _, trivial, h0⟩ hc
    · simp [hF]
  have hz : Complex.I + (S.es.getD i 0 : ℂ) = Complex.I := by
    have : S.es.getD i 0 = 0 := by
      interval_cases i <;> rfl
    rw [this]; simp
  unfold IsResponse
  rw [hz, hb, hsz]
  refine ⟨fun F => if F = ∅ then a i / Complex.I else 0, ⟨fun F _ => ?_, fun F hF => ?_⟩, fun x hx => ?_, ?_⟩
  · rw [hH]
    split
    · rw [sub_zero, mul_div_cancel₀ _ Complex.I_ne_zero]
    · simp
  · rw [if_neg]
    rintro rfl
    exact hF (empty_subset _)
  · funext F
    by_cases hF : F ⊆ range 2
    · have := hx.inside F hF
      rw [hH, sub_zero] at this
      split at this
      · next h => rw [if_pos h, eq_div_iff Complex.I_ne_zero, mul_comm, this]
      · next h => rw [if_neg h]; exact (mul_eq_zero.1 this).resolve_left Complex.I_ne_zero
    · rw [hx.outside F hF, if_neg]
      rintro rfl
      exact hF (empty_subset _)
  · unfold innerProduct
    rw [Finset.sum_eq_single ∅]
    · simp
    · intro F _ hne; simp [hne]
    · intro h; exact absurd (by simp) h

end

/-- C76_responses applies: the averages of the two different responses to the removal of the first spin agree. -/
example (gaunt : GauntFun) (sphHarm : SphHarm) (jn : SphericalJn) (kB T avg avg' : ℝ)
    (h : IsThermal kB T [0, 0] (fun i => if i = 0 then 1 else 0) avg)
    (h' : IsThermal kB T [0, 0] (fun i => if i = 0 then 9 / 25 else 16 / 25) avg') : avg' = avg := by
  have e1 : ∀ i < 2, ∀ F, ampl 2 (twoStates.getD i []) F
      = if F = {0} then (if i = 0 then 1 else 0 : ℂ) else if F = {1} then (if i = 0 then 0 else 1) else 0 := by
    intro i hi F
    interval_cases i
    · exact (ampl_one F).1
    · exact (ampl_one F).2
  have e2 : ∀ i < 2, ∀ F, ampl 2 (twoMixed.getD i []) F
      = if F = {0} then (if i = 0 then 3 / 5 else -4 / 5 : ℂ) else if F = {1} then (if i = 0 then 4 / 5 else 3 / 5) else 0 := by
    intro i hi F
    interval_cases i
    · exact ampl_two _ _ F
    · exact ampl_two _ _ F
  have a1 : ∀ i < 2, (if i = 0 then 1 else 0 : ℂ) = 0 ∨ (1e-7 : ℝ) ≤ abs2 (if i = 0 then 1 else 0 : ℂ) := by
    intro i hi
    interval_cases i
    · right; show _ ≤ Complex.normSq _; norm_num
    · left; simp
  have a2 : ∀ i < 2, (if i = 0 then 3 / 5 else -4 / 5 : ℂ) = 0 ∨ (1e-7 : ℝ) ≤ abs2 (if i = 0 then 3 / 5 else -4 / 5 : ℂ) := by
    intro i hi
    right
    show _ ≤ Complex.normSq _
    interval_cases i <;> norm_num [Complex.normSq_apply]
  refine C76_responses (shellSim gaunt sphHarm jn) twoMixed ?_ (annihilate_linear 0)
    (fun i hi => shell_lost gaunt sphHarm jn e1 a1 hi) (fun i hi => shell_lost gaunt sphHarm jn e2 a2 hi) Complex.I
    (fun i hi => shell_response gaunt sphHarm jn e1 a1 hi) (fun i hi => shell_response gaunt sphHarm jn e2 a2 hi) kB T avg avg' ?_ ?_
  · refine ⟨fun i j => if i = 0 then (if j = 0 then 3 / 5 else 4 / 5) else (if j = 0 then -4 / 5 else 3 / 5), ?_, ?_, ?_⟩
    · intro j hj k hk
      have hj : j < 2 := hj
      have hk : k < 2 := hk
      show ∑ i ∈ range 2, _ = _
      rw [sum_range_succ, sum_range_one]
      interval_cases j <;> interval_cases k <;> norm_num [Complex.ext_iff]
    · intro i hi j hj hne
      have hi : i < 2 := hi
      have hj : j < 2 := hj
      exact absurd (by interval_cases i <;> interval_cases j <;> rfl) hne
    · intro i hi F
      have hi : i < 2 := hi
      show ampl 2 _ F = ∑ j ∈ range 2, _ * ampl 2 (twoStates.getD j []) F
      rw [sum_range_succ, sum_range_one, e2 i hi, (ampl_one F).1, (ampl_one F).2]
      by_cases h0 : F = {0}
      · simp [h0]
      · by_cases h1 : F = {1}
        · subst h1; simp
        · simp [h0, h1]
  · convert h using 1
    · rfl
    funext i
    by_cases hi : i = 0 <;> simp [hi]
  · convert h' using 1
    · rfl
    funext i
    by_cases hi : i = 0
    · simp [hi, Complex.div_im, Complex.normSq_apply]; norm_num
    · simp [hi, Complex.div_im, Complex.normSq_apply]; norm_num

/-! ### Two runs of main -/

/-- The hypotheses of C76_main are met, for all pairs of correct solvers: runs with three and with five ranks store the same
averages. -/
example {solver solver' : EigenSolver} (hS : SolverCorrect solver) (hS' : SolverCorrect solver')
    (htot : ∀ H d k, k < d → ∃ p, solver.eigsh H d k = .ok p) (htot' : ∀ H d k, k < d → ∃ p, solver'.eigsh H d k = .ok p)
    (sphHarm : SphHarm) (jn : SphericalJn) {T : ℝ} (hT : 0 < T) (hcold : 10 * (1 * T) ≤ 4) :
    ∃ o o' : MainOutput,
      CanFinish msgSum (fun k : Fin 3 => mainRank (holeLib solver sphHarm jn 1) (hole2Args 0 T) (fun _ _ _ => holeOrders)
        (fun _ => holeOrders) k.val 3) (fun k => if k.val = 0 then some o else none) ∧
      CanFinish msgSum (fun k : Fin 5 => mainRank (holeLib solver' sphHarm jn 1) (hole2Args 0 T) (fun _ _ _ => holeOrders)
        (fun _ => holeOrders) k.val 5) (fun k => if k.val = 0 then some o' else none) ∧
      o'.energies = o.energies ∧ SameThermal o.spectra o'.spectra ∧
      ∃ b S S', Almost SameThermal b S S' o.spectra o'.spectra := by
  obtain ⟨o, ho⟩ := hole2_finishes 0 hS htot sphHarm jn one_pos hT hcold
  obtain ⟨o', ho'⟩ := hole2_finishes 0 hS' htot' sphHarm jn one_pos hT hcold
  have h1 := (ho 3 (by decide) (fun _ _ _ _ => holeOrders) (fun _ _ _ _ => holeOrders_valid) (fun _ _ => holeOrders)
    (fun _ _ => holeOrders_valid)).canFinish
  have h2 := (ho' 5 (by decide) (fun _ _ _ _ => holeOrders) (fun _ _ _ _ => holeOrders_valid) (fun _ _ => holeOrders)
    (fun _ _ => holeOrders_valid)).canFinish
  obtain ⟨psis, S, psis', S', r1, r2, -, -, e1, e2, hmain⟩ := C76_main (hole2Args_valid 0 T) sympyGaunt_large (by decide) (by decide)
    (fun _ _ _ _ => holeOrders_valid) (fun _ _ => holeOrders_valid) h1 rfl
    (fun _ _ _ _ => holeOrders_valid) (fun _ _ => holeOrders_valid) h2 rfl hS hS' (hole2Args_documented 0 T) rfl rfl rfl rfl
    sympyGaunt_rules (holeSolve_exact solver sphHarm jn 1) (holeSolve_exact solver' sphHarm jn 1) rfl rfl
  obtain ⟨k1, k2, k3⟩ := hole2_resolved (L := holeLib solver sphHarm jn 1) rfl hT one_pos hcold r1
  obtain ⟨-, k2', k3'⟩ := hole2_resolved (L := holeLib solver' sphHarm jn 1) rfl hT one_pos hcold r2
  have hsz : size S' = size S := by unfold size; rw [r1.system, r2.system]
  have hm := hmain k1 fun psi hp => ?_
  · exact ⟨o, o', h1, h2, e1, hm.2.1 k3 k3', _, S, S', hm.2.2 k3.kept k3'.kept⟩
  rcases List.mem_append.1 hp with hp | hp
  · exact k2 psi hp
  · rw [← hsz]; exact k2' psi hp

end

end Verif
