/-
C88: an eigensolver that is not exact, and main with it.
-/
import Verif.Prop.InexactMain
import Verif.Prop.PerturbExample

namespace Verif

open Finset Mpi Psr Spec Matrix

noncomputable section

/-- A solver that returns all energies too high by `ε`. -/
def shiftSolver (S : EigenSolver) (ε : ℝ) : EigenSolver where
  eigh H d := ⟨(S.eigh H d).es.map (· + ε), (S.eigh H d).vecs⟩
  eigsh H d k := (S.eigsh H d k).map fun p => ⟨p.es.map (· + ε), p.vecs⟩
  argsort l := S.argsort (l.map (· - ε))

theorem shift_near {H : Mat ℂ} {d : ℕ} {p : EigenPairs} (h : EigenOf H d p) (ε : ℝ) :
    NearEigen H d (fun _ => |ε|) ⟨p.es.map (· + ε), p.vecs⟩ where
  unit v hv := by
    have hv : v < p.es.length := by simpa using hv
    have := h.ortho v hv v hv
    rw [if_pos rfl] at this
    have h2 : ((∑ i ∈ range d, Complex.normSq (p.vecs i v) : ℝ) : ℂ) = 1 := by
      rw [← this]
      push_cast
      exact sum_congr rfl fun i _ => Complex.normSq_eq_conj_mul_self
    exact_mod_cast h2
  residual v hv := by
    have hv : v < p.es.length := by simpa using hv
    have hu := h.ortho v hv v hv
    rw [if_pos rfl] at hu
    have h2 : ((∑ i ∈ range d, Complex.normSq (p.vecs i v) : ℝ) : ℂ) = 1 := by
      rw [← hu]
      push_cast
      exact sum_congr rfl fun i _ => Complex.normSq_eq_conj_mul_self
    have h2 : ∑ i ∈ range d, Complex.normSq (p.vecs i v) = 1 := by exact_mod_cast h2
    have h3 : ∀ i ∈ range d, Complex.normSq (∑ j ∈ range d, H i j * p.vecs j v - ((p.es.map (· + ε))[v]'(by simpa using hv) : ℝ) * p.vecs i v)
        = ε ^ 2 * Complex.normSq (p.vecs i v) := by
      intro i hi
      rw [h.eigen v hv i (mem_range.1 hi), List.getElem_map]
      push_cast
      rw [show (p.es[v] : ℂ) * p.vecs i v - (p.es[v] + ε) * p.vecs i v = -((ε : ℝ) : ℂ) * p.vecs i v by ring, Complex.normSq_mul,
        Complex.normSq_neg, Complex.normSq_ofReal]
      ring
    dsimp only
    rw [sum_congr rfl h3, ← mul_sum, h2, mul_one, sq_abs]

/-- Its residual is `ε`. -/
theorem shift_within {S : EigenSolver} (hS : SolverCorrect S) (ε : ℝ) : SolverWithin (shiftSolver S ε) fun _ => |ε| where
  nonneg _ := abs_nonneg _
  eigh H d hH := by
    obtain ⟨h1, h2, h3⟩ := hS.eigh H d hH
    refine ⟨shift_near h1 ε, ?_, by simpa [shiftSolver] using h3⟩
    simp only [shiftSolver]
    rw [List.pairwise_map]
    exact h2.imp fun h => by linarith
  eigsh H d k p hH h := by
    simp only [shiftSolver] at h
    cases hp : S.eigsh H d k with
    | error e => rw [hp] at h; cases h
    | ok q =>
      rw [hp] at h
      cases h
      obtain ⟨h1, h2, -⟩ := hS.eigsh H d k q hH hp
      exact ⟨shift_near h1 ε, by simpa using h2⟩
  argsort l := by
    obtain ⟨h1, h2⟩ := hS.argsort (l.map (· - ε))
    rw [List.length_map] at h1
    refine ⟨h1, ?_⟩
    simp only [shiftSolver]
    rw [List.pairwise_map] at h2 ⊢
    refine h2.imp_of_mem fun {a b} ha hb h => ?_
    have ha := List.mem_range.1 (h1.mem_iff.1 ha)
    have hb := List.mem_range.1 (h1.mem_iff.1 hb)
    rw [List.getD_eq_getElem _ _ (by simpa using ha), List.getD_eq_getElem _ _ (by simpa using hb), List.getElem_map, List.getElem_map] at h
    rw [List.getD_eq_getElem _ _ ha, List.getD_eq_getElem _ _ hb]
    linarith

/-- It misses no state. -/
theorem shift_complete {S : EigenSolver} (hS : SolverCorrect S) (ε : ℝ) : SolverComplete (shiftSolver S ε) fun _ => |ε| where
  ortho H d k p hH h v hv w hw := by
    simp only [shiftSolver] at h
    cases hp : S.eigsh H d k with
    | error e => rw [hp] at h; cases h
    | ok q =>
      rw [hp] at h
      cases h
      exact (hS.eigsh H d k q hH hp).1.ortho v (by simpa using hv) w (by simpa using hw)
  low H d k p hH h y hy v hv := by
    simp only [shiftSolver] at h
    cases hp : S.eigsh H d k with
    | error e => rw [hp] at h; cases h
    | ok q =>
      rw [hp] at h
      cases h
      have hv' : v < q.es.length := by simpa using hv
      refine le_trans ?_ ((hS.eigsh H d k q hH hp).2.2 y (fun v hv => hy v (by simpa using hv)) v hv')
      refine mul_le_mul_of_nonneg_right ?_ (sum_nonneg fun i _ => Complex.normSq_nonneg _)
      rw [List.getElem_map]
      linarith [le_abs_self ε]

theorem shift_eigensystem {S : EigenSolver} (ε : ℝ) {n : ℕ} {op : Op ℕ ℂ} {cut : ℝ} {basis : List Bytes} {k : ℕ} {m : ℝ} {es : List ℝ} {psis : List (Psi ℂ)}
    (h : refEigensystem S n op cut basis k m = .ok (es, psis)) :
    refEigensystem (shiftSolver S ε) n op cut basis k m = .ok (es.map (· + ε), psis) := by
  unfold refEigensystem at h ⊢
  split at h
  · cases h
  rename_i hb
  rw [if_neg hb]
  unfold eigensystem at h ⊢
  obtain ⟨H, e1, h⟩ := bind_ok h
  obtain ⟨p, e2, h⟩ := bind_ok h
  cases h
  rw [e1]
  simp only [ok_bind]
  unfold diagLanczos at e2 ⊢
  obtain ⟨q, e3, e2⟩ := bind_ok e2
  obtain ⟨es, e4, e2⟩ := bind_ok e2
  cases e2
  simp only [shiftSolver, e3, Except.map, ok_bind, List.map_map]
  rw [show ((fun x => x - ε) ∘ fun x => x + ε) = (id : ℝ → ℝ) by funext x; simp, List.map_id]
  have key : ∀ (l : List ℕ) (es : List ℝ), l.mapM (fun (i : ℕ) => pyGet q.es (i : ℤ)) = .ok es →
      l.mapM (fun (i : ℕ) => pyGet (q.es.map (· + ε)) (i : ℤ)) = .ok (es.map (· + ε)) := by
    intro l
    induction l with
    | nil => intro es h; cases h; rfl
    | cons i l ih =>
      intro es h
      rw [List.mapM_cons] at h ⊢
      obtain ⟨a, h1, h⟩ := bind_ok h
      obtain ⟨b, h2, h⟩ := bind_ok h
      cases h
      have : pyGet (q.es.map (· + ε)) (i : ℤ) = .ok (a + ε) := by
        unfold pyGet at h1 ⊢
        rw [List.length_map]
        cases hk : pyIndex q.es.length (i : ℤ) with
        | none => rw [hk] at h1; cases h1
        | some k =>
          rw [hk] at h1
          dsimp only at h1 ⊢
          cases hq : q.es[k]? with
          | none => rw [hq] at h1; cases h1
          | some z =>
            rw [hq] at h1
            cases h1
            rw [List.getElem?_map, hq]
            rfl
      rw [this, ih b h2]
      rfl
  rw [key _ _ e4]
  simp only [ok_bind, pure_ok, List.length_map]

/-- The hypotheses of `C88_energies` are met: the lowest energy of the example, from the solver with the error `ε`, and
all energies from an exact one. -/
example (ε : ℝ) : ∃ (S : EigenSolver) (op : Op ℕ ℂ) (es es' : List ℝ) (psis psis' : List (Psi ℂ)), SolverCorrect S ∧
    eigensystem (shiftSolver S ε) 16 op 1e-12 (holeStates.map (encBytes 16)) 1 .lanczos 1e-7 1 = .ok (es, psis) ∧ es.length = 1 ∧
    eigensystem S 16 op 1e-12 (holeStates.map (encBytes 16)) 20 .full 1e-7 1 = .ok (es', psis') ∧ es'.length = 10 ∧
    |es.getD 0 0 - es'.getD 0 0| ≤ (2 * Real.sqrt (1 : ℕ) + 1) * |ε| := by
  obtain ⟨S, hS, htot⟩ := exists_solver
  obtain ⟨op, hs⟩ := holeSetup_ok (holeLib S (fun _ _ _ _ => 0) (fun _ _ => 0) 1) rfl 0 1 []
  have hgood := (mainSetup_good _ _ _ hs).op
  rw [nSpinOrbitals_eq, show nTotal (intKeys [((1 : ℕ), 0), (2, 0)]) = 16 from holeSystem_size] at hgood
  obtain ⟨e, psi, z, h1, -⟩ := holeEigen hs hS htot
  have h2 := shift_eigensystem ε h1
  unfold refEigensystem at h2
  rw [if_neg (by decide)] at h2
  obtain ⟨⟨es', psis', h3, hl⟩, -⟩ := C51_returns S hS 16 op hgood.1.2 hgood.1.1 hgood.2 1e-12 holeStates
    holeStates_nodup holeStates_sub 20 1e-7 1 one_pos
  have hl : es'.length = 10 := by rw [hl]; decide
  refine ⟨S, op, _, es', _, psis', hS, h2, rfl, h3, hl, ?_⟩
  have := C88_energies hgood.1.2 hgood.1.1 hgood.2 (shift_within hS ε) (shift_complete hS ε) hS holeStates_nodup holeStates_sub
    one_pos one_pos h2 h3 (D := |ε|) (fun _ _ => le_rfl) 0 (by simp) (by omega)
  rw [List.getD_eq_getElem _ _ (by simp), List.getD_eq_getElem _ _ (by omega)]
  exact this

theorem hole_configuration {F : Finset ℕ} (hF : F ⊆ range 16) :
    IsConfiguration [(1, 0), (2, 0)] (pdSystem fun _ => 0) holeParams F ↔ F ∈ holeStates := by
  have hb : getBasis [(1, 0), (2, 0)] [(1, 0), (2, 0)] [(1, 0), (2, 0)] [(1, 0), (2, 0)] [(1, 0), (2, 0)] [(1, 6), (2, 9)]
      = .ok (holeStates.map (encBytes 16)) := by decide +kernel
  have hC := (C11_get_basis _ holeParams _ _ _ _ _ (nodup_documented fun _ => 0) (provides_documented (fun _ => 0) holeParams) _ hb).1
    F (by rw [show nTotal (intKeys [((1 : ℕ), 0), (2, 0)]) = 16 from holeSystem_size]; exact hF)
  rw [show pdSystem (fun _ => 0) = intKeys [((1 : ℕ), 0), (2, 0)] from rfl, ← hC]
  rw [show nTotal (intKeys [((1 : ℕ), 0), (2, 0)]) = 16 from holeSystem_size]
  constructor
  · intro h
    obtain ⟨F', hF', e⟩ := List.mem_map.1 h
    rwa [← encBytes_injOn (holeStates_sub F' hF') hF e]
  · exact fun h => List.mem_map.2 ⟨F, h, rfl⟩

theorem hole_gap : ∀ F ∈ holeStates, F ≠ range 15 → ∑ i ∈ range 15, 2 ^ i + 4 * 4096 ≤ ∑ i ∈ F, 2 ^ i := by decide +kernel

/-- The lowest energy of the example is isolated. -/
theorem hole_isolated (gaunt : GauntFun) (T : ℝ) (radial : List (ℝ × ℝ)) {configs : Finset (Finset ℕ)}
    (hconf : ∀ F, F ∈ configs ↔ F ⊆ range (nTotal (pdSystem fun _ => 0)) ∧
      IsConfiguration [(1, 0), (2, 0)] (pdSystem fun _ => 0) holeParams F) {ε : ℝ} (hε : |ε| ≤ 1) :
    Isolated configs (elementOf (pdHamiltonian gaunt (position (pdSystem fun _ => 0)) (holeArgs 0 T radial) (holeParams.n0 2) 0 0 0
      (holeLevels 0))) ((32767 : ℝ) / 4096 + ε) (32767 / 4096) 2 := by
  intro mu y hy
  obtain ⟨F, hF, hyF⟩ : ∃ F ∈ configs, y F ≠ 0 := by
    by_contra hc
    push Not at hc
    have := hy.normalised
    rw [sum_eq_zero fun F hF => by rw [hc F hF, map_zero]] at this
    exact zero_ne_one this
  obtain ⟨hF1, hF2⟩ := (hconf F).1 hF
  have hF1 : F ⊆ range 16 := by
    rw [show nTotal (pdSystem fun _ => 0) = 16 from holeSystem_size] at hF1
    exact hF1
  have hF2 := (hole_configuration hF1).1 hF2
  have hmu : holeEnergy 0 F = mu := by
    have h1 := hy.eigen F hF
    have h2 : ∀ G ∈ configs, elementOf (pdHamiltonian gaunt (position (pdSystem fun _ => 0)) (holeArgs 0 T radial) (holeParams.n0 2) 0 0 0
        (holeLevels 0)) F G * y G = if G = F then holeEnergy 0 F * y F else 0 := by
      intro G _
      unfold elementOf
      rw [show holeParams.n0 2 = 9 from rfl, hole_pdHamiltonian gaunt 0 T radial _ hF1]
      unfold Spec.single
      by_cases h : G = F
      · rw [if_pos h.symm, if_pos h, mul_one, h]
      · rw [if_neg (Ne.symm h), if_neg h, mul_zero, zero_mul]
    rw [sum_congr rfl h2, sum_ite_eq' configs F, if_pos hF] at h1
    exact mul_right_cancel₀ hyF h1
  have hmu : ((∑ i ∈ F, 2 ^ i : ℕ) : ℝ) / 4096 = mu := by
    unfold holeEnergy at hmu
    rw [zero_mul, add_zero] at hmu
    exact_mod_cast hmu
  by_cases h : F = range 15
  · left
    rw [← hmu, h, show ∑ i ∈ range 15, 2 ^ i = 32767 by decide +kernel]
    norm_num
  · right
    have h1 := hole_gap F hF2 h
    rw [show ∑ i ∈ range 15, 2 ^ i = 32767 by decide +kernel] at h1
    have h1 : (32767 : ℝ) + 4 * 4096 ≤ ((∑ i ∈ F, 2 ^ i : ℕ) : ℝ) := by exact_mod_cast h1
    rw [abs_le] at hε
    rw [← hmu]
    refine le_trans ?_ (le_abs_self _)
    linarith [hε.2]

/-- The hypotheses of `C88_main` are met: three ranks, any temperature, a solver with an error `ε` of at most 1. -/
example (sphHarm : SphHarm) (jn : SphericalJn) (T : ℝ) (hT : 0 < T) (radial : List (ℝ × ℝ)) (ε : ℝ) (hε : |ε| ≤ 1)
    (configs : Finset (Finset ℕ)) (hconf : ∀ F, F ∈ configs ↔ F ⊆ range (nTotal (pdSystem fun _ => 0)) ∧
      IsConfiguration [(1, 0), (2, 0)] (pdSystem fun _ => 0) holeParams F) :
    ∃ (L : MainLib) (o : MainOutput) (psis : _) (S : _) (x : ℕ → Vec ℂ), SolverWithin L.solver (fun _ => |ε|) ∧
      o.energies = [32767 / 4096 + ε] ∧
      MainPrepared L (holeArgs 0 T radial) (fun _ => 0) holeParams 0 0 0 (holeLevels 0) o.energies psis S ∧
      (∀ i < S.es.length, IsEigenvector configs (elementOf (pdHamiltonian L.gaunt (position (pdSystem fun _ => 0)) (holeArgs 0 T radial)
        (holeParams.n0 2) 0 0 0 (holeLevels 0))) (32767 / 4096) (x i)) ∧
      PDUncut (fun _ => 0) S (pdHamiltonian L.gaunt (position (pdSystem fun _ => 0)) (holeArgs 0 T radial) (holeParams.n0 2) 0 0 0
        (holeLevels 0)) x (stateError (|ε| + 0.0011) 2 configs.card 1e-7) o.spectra := by
  obtain ⟨solver, hS, htot⟩ := exists_solver
  obtain ⟨hOp, hs⟩ := holeSetup_ok (holeLib solver sphHarm jn 1) rfl 0 T radial
  obtain ⟨e, psi, z, h1, h2, h3, -, he⟩ := holeEigen hs hS htot
  have he : e = 32767 / 4096 := by
    unfold holeEnergy at he
    rw [zero_mul, add_zero, show ∑ i ∈ range 15, 2 ^ i = 32767 by decide +kernel] at he
    have : (32767 : ℝ) / 4096 = e := by exact_mod_cast he
    exact this.symm
  subst he
  obtain ⟨o, ho, hoe⟩ := holeMain_ok_of (L := holeLib (shiftSolver solver ε) sphHarm jn 1) rfl hT one_pos
    (holeSolve_exact _ sphHarm jn 1) hs (shift_eigensystem ε h1) h2 h3
  have hfin := main_settles (N := 3) (by decide) (L := holeLib (shiftSolver solver ε) sphHarm jn 1) (holeArgs_valid 0 T radial) sympyGaunt_large
    (fun _ _ _ _ => holeOrders) (fun _ _ _ _ => holeOrders_valid) (fun _ _ => holeOrders) (fun _ _ => holeOrders_valid)
  rw [ho] at hfin
  obtain ⟨out, rfl, hrun⟩ := hfin
  have hL : SolverWithin (holeLib (shiftSolver solver ε) sphHarm jn 1).solver (fun _ => |ε|) := shift_within hS ε
  obtain ⟨psis, S, hprep, -, hmain⟩ := C88_main (holeArgs_valid 0 T radial) sympyGaunt_large (by decide)
    (fun _ _ _ _ => holeOrders_valid) (fun _ _ => holeOrders_valid) hrun.allRanksFinish.canFinish rfl hL (holeArgs_documented 0 T radial)
    sympyGaunt_rules (holeSolve_exact _ sphHarm jn 1) hconf
  have hes : ∀ i (hi : i < S.es.length), S.es[i] = 32767 / 4096 + ε := by
    intro i hi
    obtain ⟨v, hv, -, e1, -⟩ := kept_index hprep (prepared_near hL hprep hconf).1 i hi
    rw [e1]
    have h4 : ∀ z ∈ o.energies, z = 32767 / 4096 + ε := by rw [hoe]; simp
    exact h4 _ (List.getElem_mem hv)
  have hterms := hprep.terms
  rw [show (holeLevels 0).length = 16 by simp [holeLevels]] at hterms
  have hterms : (S.hOp.length : ℝ) ≤ 1098 := by exact_mod_cast hterms
  obtain ⟨-, x, h5, h6⟩ := hmain (|ε| + 0.0011) 2 (fun _ => 32767 / 4096) (fun e _ => by
      have : (S.hOp.length : ℝ) * 1e-6 ≤ 1098 * 1e-6 := mul_le_mul_of_nonneg_right hterms (by norm_num)
      have h7 : (1098 : ℝ) * 1e-6 ≤ 0.0011 := by norm_num
      linarith) (by linarith) (fun i hi => by
      rw [hes i hi]
      exact hole_isolated _ T radial hconf hε)
  exact ⟨_, o, psis, S, x, hL, hoe, hprep, h5, h6⟩

end

end Verif
