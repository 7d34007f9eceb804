/-
C104: the photoemission of one spin-orbital weighs its occupation.
-/
import Verif.Prop.PhotoCount
import Verif.Prop.Observables
import Verif.Lemmas.TimeReversalCF

namespace Verif

open Finset Mpi Psr Spec

noncomputable section

theorem normSq_annihilate_correl {n x : ℕ} (hx : x < n) (v : Vec ℂ) : ((Spec.normSq n (annihilate x v) : ℝ) : ℂ) = correl n v x x := by
  rw [correl_self]
  congr 1
  exact weight_annihilate hx v

theorem normSq_create_correl {n x : ℕ} (hx : x < n) (v : Vec ℂ) :
    ((Spec.normSq n (create x v) : ℝ) : ℂ) = ((Spec.normSq n v : ℝ) : ℂ) - correl n v x x := by
  rw [← normSq_annihilate_correl hx, ← Complex.ofReal_sub]
  congr 1
  have a := weight_create hx v
  have c := weight_annihilate hx v
  unfold Spec.normSq
  rw [eq_sub_iff_add_eq]
  refine (congrArg₂ (· + ·) a c).trans ?_
  rw [← sum_add_distrib]
  refine sum_congr rfl fun S _ => ?_
  by_cases h : x ∈ S
  · simp only [h, not_true_eq_false, if_false, if_true, zero_add]; rfl
  · simp only [h, not_false_eq_true, if_false, if_true, add_zero]; rfl

section
variable {L : MainLib} {A : MainArgs} (hA : A.Valid) (hG : GauntLarge L.gaunt A.ls) {N : ℕ} (hN : 0 < N)
  {ord : Fin N → ℕ → ℕ → ℕ → SetOrders} (hord : ∀ k c t i, (ord k c t i).Valid)
  {ordRixs : Fin N → List ℕ → SetOrders} (hordR : ∀ k l, (ordRixs k l).Valid) {out : Fin N → Option MainOutput}
  (hfin : CanFinish msgSum (fun k : Fin N => mainRank L A (ord k) (ordRixs k) k.val N) out)
  {o : MainOutput} (ho : out ⟨0, hN⟩ = some o)
variable (hL : SolverCorrect L.solver) {b : ℕ → ℕ} {P : BasisParams} {hx hy hz : ℝ} {h0 : Op Label ℂ}
  (hD : Documented A b P hx hy hz h0)

include hA hG hord hordR hfin ho hL hD in
/-- C104, main, spin-orbital by spin-orbital.  In the photoemission of the d spin-orbital with spin `y.1` and magnetic number `y.2`, the
part from removing an electron weighs the occupation of this spin-orbital, and the part from adding one the rest, in those
configurations that the restrictions on the excited states do not lose.  If no configuration has too few d electrons, this is the
diagonal element of the density matrix `dm` that `getDensityMatrix` returns.  The same holds for XPS and the p shell. -/
theorem C104_orbitals (hR : GauntRules L.gaunt) :
    ∃ psis S, MainRun L A b P hx hy hz h0 o.energies psis S ∧ ∀ i < S.es.length, ∀ v, v = ampl (size S) (S.psis.getD i []) →
      ∃ pm dm, getDensityMatrix S.nBaths (S.psis.getD i []) 1 = .ok pm ∧ getDensityMatrix S.nBaths (S.psis.getD i []) 2 = .ok dm ∧
        (∀ j < 10, ∀ y ∈ shell 2, position (pdSystem b) (.imp 2 y.1 y.2) = impStart (pdSystem b) 2 + j →
          ∃ add rem : List (ℝ × ℝ), (∀ q ∈ add, 0 ≤ q.2) ∧ (∀ q ∈ rem, 0 ≤ q.2) ∧
            (∀ k (hk : k < S.w.length), o.spectra.ps.data i j k
              = -(lehmann add ((S.w[k] : ℂ) + Complex.I * S.delta + (S.es.getD i 0 : ℂ))).im
                + (lehmann rem (-((S.w[k] : ℂ) + Complex.I * S.delta) + (S.es.getD i 0 : ℂ))).im) ∧
            ((totalWeight rem : ℝ) : ℂ) = correl (size S) (atLeast (pdSystem b) (P.n0 2) v) (impStart (pdSystem b) 2 + j)
              (impStart (pdSystem b) 2 + j) ∧
            ((totalWeight add : ℝ) : ℂ) = ((Spec.normSq (size S) (atLeast (pdSystem b) (P.n0 2 - 2) v) : ℝ) : ℂ)
              - correl (size S) (atLeast (pdSystem b) (P.n0 2 - 2) v) (impStart (pdSystem b) 2 + j) (impStart (pdSystem b) 2 + j) ∧
            (P.tol 2 ≤ 0 ∨ P.dnCon 2 ≤ 0 →
              ((totalWeight rem : ℝ) : ℂ) = (Dict.get? dm (.imp 2 y.1 y.2, .imp 2 y.1 y.2)).getD 0) ∧
            (P.tol 2 ≤ 2 ∨ P.dnCon 2 ≤ 2 → ((totalWeight add : ℝ) : ℂ)
              = ((norm2 (S.psis.getD i []) : ℝ) : ℂ) - (Dict.get? dm (.imp 2 y.1 y.2, .imp 2 y.1 y.2)).getD 0)) ∧
        ∀ j < 6, ∀ y ∈ shell 1, position (pdSystem b) (.imp 1 y.1 y.2) = impStart (pdSystem b) 1 + j →
          ∃ core : List (ℝ × ℝ), (∀ q ∈ core, 0 ≤ q.2) ∧
            (∀ k (hk : k < S.w.length), o.spectra.xps.data i j k
              = (lehmann core (-((S.w[k] : ℂ) + Complex.I * S.delta) + (S.es.getD i 0 : ℂ))).im) ∧
            ((totalWeight core : ℝ) : ℂ) = correl (size S) (atLeast (pdSystem b) (P.n0 2 - 1) v) (impStart (pdSystem b) 1 + j)
              (impStart (pdSystem b) 1 + j) ∧
            (P.tol 2 ≤ 1 ∨ P.dnCon 2 ≤ 1 →
              ((totalWeight core : ℝ) : ℂ) = (Dict.get? pm (.imp 1 y.1 y.2, .imp 1 y.1 y.2)).getD 0) := by
  obtain ⟨psis, S, hrun, hM⟩ := C96_main hA hG hN hord hordR hfin ho hL hD hR
  refine ⟨psis, S, hrun, fun i hi v hv => ?_⟩
  subst hv
  obtain ⟨hst, -⟩ := kept_configuration hrun hi
  have hsz : nSpinOrbitals S.nBaths = size S := nSpinOrbitals_eq _
  have hK : intKeys S.nBaths = pdSystem b := by rw [hrun.system]; rfl
  have hnd : Dict.NodupKeys S.nBaths := by rw [hrun.system]; simp [Dict.NodupKeys, Dict.keys]
  have hl2 : 2 ∈ Dict.keys S.nBaths := by rw [hrun.system]; simp [Dict.keys]
  have hl1 : 1 ∈ Dict.keys S.nBaths := by rw [hrun.system]; simp [Dict.keys]
  have hst' : IsState (nSpinOrbitals S.nBaths) (S.psis.getD i []) := by rw [hsz]; exact hst
  obtain ⟨dm, d1, -, d2, -⟩ := C33_elements S.nBaths hnd 2 hl2 _ hst'
  obtain ⟨pm, p1, -, p2, -⟩ := C33_elements S.nBaths hnd 1 hl1 _ hst'
  rw [hsz, hK] at d2 p2
  obtain ⟨l1, l2, -⟩ := pd_layout b
  have hsz' : size S = nTotal (pdSystem b) := by unfold size; rw [hK]
  have inD : ∀ j < 10, impStart (pdSystem b) 2 + j ∈ impOrbs (pdSystem b) 2 := by
    intro j hj; unfold impOrbs; rw [mem_Ico]; omega
  have notD : ∀ j < 6, impStart (pdSystem b) 1 + j ∉ impOrbs (pdSystem b) 2 := by
    intro j hj; unfold impOrbs; rw [mem_Ico, l1, l2]; omega
  refine ⟨pm, dm, p1, d1, fun j hj y hy hyj => ?_, fun j hj y hy hyj => ?_⟩
  · obtain ⟨add, rem, g1, g2, g3⟩ := hM.photoemission i j hi hj _ rfl
    have hlt : impStart (pdSystem b) 2 + j < size S := by rw [hsz', pd_total, l2]; omega
    have e1 : ((totalWeight rem : ℝ) : ℂ) = correl (size S) (atLeast (pdSystem b) (P.n0 2) (ampl (size S) (S.psis.getD i [])))
        (impStart (pdSystem b) 2 + j) (impStart (pdSystem b) 2 + j) := by
      rw [gauss_weight (by norm_num) g2, ← normSq_annihilate_correl hlt]
      congr 1
      refine normSq_congr fun F hF => ?_
      rw [excite_annihilate hrun hi (by omega) (-1) (fun F hF => ?_) (by norm_num) hF, show P.n0 2 - 1 - -1 = P.n0 2 by ring]
      rw [insert_inter_of_mem (inD j hj), card_insert_of_notMem fun h => hF (mem_inter.1 h).1]
      push_cast; ring
    have e2 : ((totalWeight add : ℝ) : ℂ)
        = ((Spec.normSq (size S) (atLeast (pdSystem b) (P.n0 2 - 2) (ampl (size S) (S.psis.getD i []))) : ℝ) : ℂ)
          - correl (size S) (atLeast (pdSystem b) (P.n0 2 - 2) (ampl (size S) (S.psis.getD i []))) (impStart (pdSystem b) 2 + j)
            (impStart (pdSystem b) 2 + j) := by
      rw [gauss_weight (by norm_num) g1, ← normSq_create_correl hlt]
      congr 1
      refine normSq_congr fun F hF => ?_
      rw [excite_create hrun hi (by omega) 1 (fun F hF => ?_) le_rfl hF, show P.n0 2 - 1 - 1 = P.n0 2 - 2 by ring]
      rw [erase_inter, ← card_erase_add_one (mem_inter.2 ⟨hF, inD j hj⟩)]
      push_cast; ring
    refine ⟨add, rem, g1.2.1, g2.2.1, g3, e1, e2, fun ht => ?_, fun ht => ?_⟩
    · have := atLeast_all hrun hi ht
      rw [sub_zero] at this
      rw [e1, this, d2 y hy y hy, hyj]
    · rw [e2, atLeast_all hrun hi ht, d2 y hy y hy, hyj, show (norm2 (S.psis.getD i []) : ℝ) = _ from norm2_eq hst]
      rfl
  · obtain ⟨core, g2, g3⟩ := hM.xps i j hi hj _ rfl
    have hlt : impStart (pdSystem b) 1 + j < size S := by rw [hsz', pd_total, l1]; omega
    have e1 : ((totalWeight core : ℝ) : ℂ) = correl (size S) (atLeast (pdSystem b) (P.n0 2 - 1) (ampl (size S) (S.psis.getD i [])))
        (impStart (pdSystem b) 1 + j) (impStart (pdSystem b) 1 + j) := by
      rw [gauss_weight (by norm_num) g2, ← normSq_annihilate_correl hlt]
      congr 1
      refine normSq_congr fun F hF => ?_
      rw [excite_annihilate hrun hi (by omega) 0 (fun F hF => ?_) (by norm_num) hF, show P.n0 2 - 1 - 0 = P.n0 2 - 1 by ring]
      rw [insert_inter_of_notMem (notD j hj), add_zero]
    refine ⟨core, g2.2.1, g3, e1, fun ht => ?_⟩
    rw [e1, atLeast_all hrun hi ht, p2 y hy y hy, hyj]

end

/-! ### Non-vacuity -/

/-- The hypotheses of `C104_orbitals` are met: three ranks, any temperature.  Every d spin-orbital has a place in the list. -/
example (sphHarm : SphHarm) (jn : SphericalJn) (T : ℝ) (hT : 0 < T) (radial : List (ℝ × ℝ)) :
    ∃ (L : MainLib) (o : MainOutput) (psis : _) (S : _),
      MainRun L (holeArgs 0 T radial) (fun _ => 0) holeParams 0 0 0 (holeLevels 0) o.energies psis S ∧ 0 < S.es.length ∧
      ∀ i < S.es.length, ∃ dm, getDensityMatrix S.nBaths (S.psis.getD i []) 2 = .ok dm ∧
        ∀ y ∈ shell 2, ∃ j < 10, ∃ add rem : List (ℝ × ℝ), (∀ k (hk : k < S.w.length), o.spectra.ps.data i j k
              = -(lehmann add ((S.w[k] : ℂ) + Complex.I * S.delta + (S.es.getD i 0 : ℂ))).im
                + (lehmann rem (-((S.w[k] : ℂ) + Complex.I * S.delta) + (S.es.getD i 0 : ℂ))).im) ∧
            ((totalWeight rem : ℝ) : ℂ) = (Dict.get? dm (.imp 2 y.1 y.2, .imp 2 y.1 y.2)).getD 0 := by
  obtain ⟨solver, hS, htot⟩ := exists_solver
  obtain ⟨o, ho⟩ := C64_example hS htot sphHarm jn one_pos hT radial
  have h1 := (ho 3 (by decide) (fun _ _ _ _ => holeOrders) (fun _ _ _ _ => holeOrders_valid) (fun _ _ => holeOrders)
    (fun _ _ => holeOrders_valid)).canFinish
  obtain ⟨psis, S, hrun, hsp⟩ := C104_orbitals (holeArgs_valid 0 T radial) sympyGaunt_large (by decide)
    (fun _ _ _ _ => holeOrders_valid) (fun _ _ => holeOrders_valid) h1 rfl hS (holeArgs_documented 0 T radial)
    sympyGaunt_rules
  refine ⟨_, o, psis, S, hrun, List.length_pos_iff.2 hrun.nonempty.2, fun i hi => ?_⟩
  obtain ⟨pm, dm, -, h2, h3, -⟩ := hsp i hi _ rfl
  refine ⟨dm, h2, fun y hy => ?_⟩
  have hmem : position (pdSystem fun _ => 0) (.imp 2 y.1 y.2) ∈ impOrbs (pdSystem fun _ => 0) 2 := by
    rw [← image_shell (pd_system fun _ => 0).1 (pd_system fun _ => 0).2.2]
    exact mem_image_of_mem _ hy
  unfold impOrbs at hmem
  rw [mem_Ico] at hmem
  obtain ⟨j, hj, e⟩ : ∃ j < 10, position (pdSystem fun _ => 0) (.imp 2 y.1 y.2) = impStart (pdSystem fun _ => 0) 2 + j :=
    ⟨position (pdSystem fun _ => 0) (.imp 2 y.1 y.2) - impStart (pdSystem fun _ => 0) 2, by omega, by omega⟩
  obtain ⟨add, rem, -, -, g1, -, -, g2, -⟩ := h3 j hj y hy e
  exact ⟨j, hj, add, rem, g1, g2 (Or.inl le_rfl)⟩

end

end Verif
