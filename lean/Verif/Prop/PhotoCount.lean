/-
C104: photoemission counts electrons and holes.
-/
import Verif.Spec.PhotoCount
import Verif.Prop.SumRules
import Verif.Lemmas.PerturbMain
import Verif.Lemmas.Monopole
import Verif.Lemmas.RoundedStates

namespace Verif

open Finset Mpi Psr Spec

noncomputable section

theorem normSq_annihilate_shell {nBaths : Dict ℕ ℕ} (hg : GoodSystem (intKeys nBaths)) {l : ℕ} (hl : l ∈ allAngulars (intKeys nBaths))
    (v : Vec ℂ) : ∑ j ∈ range (2 * (2 * l + 1)), Spec.normSq (nTotal (intKeys nBaths)) (annihilate (impStart (intKeys nBaths) l + j) v)
      = diagonalValue (nTotal (intKeys nBaths)) (shellCount nBaths l) v := by
  have h1 : ∀ x ∈ shell l, Spec.normSq (nTotal (intKeys nBaths)) (annihilate (position (intKeys nBaths) (.imp l x.1 x.2)) v)
      = ∑ S ∈ (range (nTotal (intKeys nBaths))).powerset,
        (if position (intKeys nBaths) (.imp l x.1 x.2) ∈ S then (1 : ℝ) else 0) * Complex.normSq (v S) := by
    intro x hx
    refine (weight_annihilate (position_imp_lt hg (inSystem_shellPair hl hx)) v).trans (sum_congr rfl fun S _ => ?_)
    split
    · rw [one_mul]; rfl
    · rw [zero_mul]
  have h2 : ∑ j ∈ range (2 * (2 * l + 1)), Spec.normSq (nTotal (intKeys nBaths)) (annihilate (impStart (intKeys nBaths) l + j) v)
      = ∑ k ∈ impOrbs (intKeys nBaths) l, Spec.normSq (nTotal (intKeys nBaths)) (annihilate k v) := by
    unfold impOrbs
    rw [sum_Ico_eq_sum_range]
    congr 2
    omega
  have hl' : l ∈ (allAngulars (intKeys nBaths)).toFinset := List.mem_toFinset.2 hl
  rw [h2, ← image_shell hg hl, sum_image fun x hx y hy e => (systemApart hg l hl' x hx l hl' y hy e).2, sum_congr rfl h1, sum_comm]
  unfold diagonalValue shellCount
  exact sum_congr rfl fun S _ => (sum_mul ..).symm

theorem normSq_create_shell {nBaths : Dict ℕ ℕ} (hg : GoodSystem (intKeys nBaths)) {l : ℕ} (hl : l ∈ allAngulars (intKeys nBaths))
    (v : Vec ℂ) : ∑ j ∈ range (2 * (2 * l + 1)), Spec.normSq (nTotal (intKeys nBaths)) (create (impStart (intKeys nBaths) l + j) v)
      = 2 * (2 * l + 1) * Spec.normSq (nTotal (intKeys nBaths)) v
        - diagonalValue (nTotal (intKeys nBaths)) (shellCount nBaths l) v := by
  have hlt : ∀ j ∈ range (2 * (2 * l + 1)), impStart (intKeys nBaths) l + j < nTotal (intKeys nBaths) := by
    intro j hj
    have : impStart (intKeys nBaths) l + j ∈ impOrbs (intKeys nBaths) l := by
      unfold impOrbs; rw [mem_Ico]; rw [mem_range] at hj; omega
    rw [← image_shell hg hl] at this
    obtain ⟨x, hx, e⟩ := mem_image.1 this
    rw [← e]
    exact position_imp_lt hg (inSystem_shellPair hl hx)
  have h1 : ∀ j ∈ range (2 * (2 * l + 1)), Spec.normSq (nTotal (intKeys nBaths)) (create (impStart (intKeys nBaths) l + j) v)
      = Spec.normSq (nTotal (intKeys nBaths)) v - Spec.normSq (nTotal (intKeys nBaths)) (annihilate (impStart (intKeys nBaths) l + j) v) := by
    intro j hj
    have a := weight_create (hlt j hj) v
    have c := weight_annihilate (hlt j hj) v
    unfold Spec.normSq
    rw [eq_sub_iff_add_eq]
    refine (congrArg₂ (· + ·) a c).trans ?_
    rw [← sum_add_distrib]
    refine sum_congr rfl fun S _ => ?_
    by_cases h : impStart (intKeys nBaths) l + j ∈ S
    · simp only [h, not_true_eq_false, if_false, if_true, zero_add]; rfl
    · simp only [h, not_false_eq_true, if_false, if_true, add_zero]; rfl
  rw [sum_congr rfl h1, sum_sub_distrib, normSq_annihilate_shell hg hl, sum_const, card_range, nsmul_eq_mul]
  push_cast
  ring

section
variable {L : MainLib} {A : MainArgs} {b : ℕ → ℕ} {P : BasisParams} {hx hy hz : ℝ} {h0 : Op Label ℂ}
  {energies : List ℝ} {psis : List (Psi ℂ)} {S : SimulateArgs} (hrun : MainRun L A b P hx hy hz h0 energies psis S)
  {i : ℕ} (hi : i < S.es.length)

theorem normSq_sgn (x : ℕ) (F : Finset ℕ) (z : ℂ) : Complex.normSq ((sgn x F : ℂ) * z) = Complex.normSq z := by
  have h := congrArg Complex.normSq (sgn_sq (R := ℂ) x F)
  rw [map_mul, map_one] at h
  have h0 := Complex.normSq_nonneg (sgn x F : ℂ)
  have : Complex.normSq (sgn x F : ℂ) = 1 := by nlinarith
  rw [map_mul, this, one_mul]

include hrun hi in
/-- Removing an electron loses the states with too few d electrons and nothing else. -/
theorem excite_annihilate {x : ℕ} (hx : x < 16) (d : ℤ)
    (hd : ∀ F : Finset ℕ, x ∉ F → ((F ∩ impOrbs (pdSystem b) 2).card : ℤ) = ((insert x F ∩ impOrbs (pdSystem b) 2).card : ℤ) + d)
    (hd1 : d ≤ 1) {F : Finset ℕ} (hF : F ⊆ range (size S)) :
    excite S (annihilate x) i F
      = annihilate x (atLeast (pdSystem b) (P.n0 2 - 1 - d) (ampl (size S) (S.psis.getD i []))) F := by
  have hw : S.slaterWeightMin = 1e-7 := hrun.args.cutoffs.2.1
  unfold excite exciteVec excited annihilate atLeast
  by_cases hxF : x ∈ F
  · simp only [hxF, if_true, ite_self]
  simp only [hxF, if_false]
  by_cases hz : ampl (size S) (S.psis.getD i []) (insert x F) = 0
  · rw [hz, mul_zero, ite_self, ite_self, mul_zero]
  obtain ⟨k1, k2⟩ := (kept_configuration hrun hi).2 _ hz
  have hal := allowed_near_iff hrun (F := F) k1 d (hd F hxF) hd1 (fun k hk => by
    rw [mem_insert]; exact ⟨Or.inr, fun h => h.resolve_left (by omega)⟩)
  have hab : S.slaterWeightMin ≤ abs2 ((sgn x F : ℂ) * ampl (size S) (S.psis.getD i []) (insert x F)) := by
    rw [hw]
    exact k2.trans (le_of_eq (normSq_sgn _ _ _).symm)
  by_cases hl : P.n0 2 - 1 - d ≤ ((insert x F ∩ impOrbs (pdSystem b) 2).card : ℤ)
  · rw [if_pos ⟨hF, hal.2 hl, hab⟩, if_pos hl]
  · rw [if_neg (fun h => hl (hal.1 h.2.1)), if_neg hl, mul_zero]

include hrun hi in
/-- The same when an electron is added. -/
theorem excite_create {x : ℕ} (hx : x < 16) (d : ℤ)
    (hd : ∀ F : Finset ℕ, x ∈ F → ((F ∩ impOrbs (pdSystem b) 2).card : ℤ) = ((F.erase x ∩ impOrbs (pdSystem b) 2).card : ℤ) + d)
    (hd1 : d ≤ 1) {F : Finset ℕ} (hF : F ⊆ range (size S)) :
    excite S (create x) i F
      = create x (atLeast (pdSystem b) (P.n0 2 - 1 - d) (ampl (size S) (S.psis.getD i []))) F := by
  have hw : S.slaterWeightMin = 1e-7 := hrun.args.cutoffs.2.1
  unfold excite exciteVec excited create atLeast
  by_cases hxF : x ∈ F
  swap
  · simp only [hxF, if_false, ite_self]
  simp only [hxF, if_true]
  by_cases hz : ampl (size S) (S.psis.getD i []) (F.erase x) = 0
  · rw [hz, mul_zero, ite_self, ite_self, mul_zero]
  obtain ⟨k1, k2⟩ := (kept_configuration hrun hi).2 _ hz
  have hal := allowed_near_iff hrun (F := F) k1 d (hd F hxF) hd1 (fun k hk => by
    rw [mem_erase]; exact ⟨fun h => ⟨by omega, h⟩, fun h => h.2⟩)
  have hab : S.slaterWeightMin ≤ abs2 ((sgn x F : ℂ) * ampl (size S) (S.psis.getD i []) (F.erase x)) := by
    rw [hw]
    exact k2.trans (le_of_eq (normSq_sgn _ _ _).symm)
  by_cases hl : P.n0 2 - 1 - d ≤ ((F.erase x ∩ impOrbs (pdSystem b) 2).card : ℤ)
  · rw [if_pos ⟨hF, hal.2 hl, hab⟩, if_pos hl]
  · rw [if_neg (fun h => hl (hal.1 h.2.1)), if_neg hl, mul_zero]

include hrun hi in
theorem atLeast_all {k : ℤ} (ht : P.tol 2 ≤ k ∨ P.dnCon 2 ≤ k) :
    atLeast (pdSystem b) (P.n0 2 - k) (ampl (size S) (S.psis.getD i [])) = ampl (size S) (S.psis.getD i []) := by
  funext F
  unfold atLeast
  by_cases hz : ampl (size S) (S.psis.getD i []) F = 0
  · rw [hz, ite_self]
  · rw [if_pos (configuration_low ((kept_configuration hrun hi).2 _ hz).1 ht)]

end

theorem diagonalValue_atLeast_le (sys : NBaths) (n : ℤ) (N : ℕ) {f : Finset ℕ → ℝ} (hf : ∀ F, 0 ≤ f F) (v : Vec ℂ) :
    diagonalValue N f (atLeast sys n v) ≤ diagonalValue N f v := by
  unfold diagonalValue atLeast
  refine sum_le_sum fun F _ => ?_
  split
  · exact le_rfl
  · rw [map_zero, mul_zero]
    exact mul_nonneg (hf F) (Complex.normSq_nonneg _)

theorem normSq_congr {n : ℕ} {v w : Vec ℂ} (h : ∀ F ⊆ range n, v F = w F) : Spec.normSq n v = Spec.normSq n w :=
  sum_congr rfl fun F hF => by rw [h F (mem_powerset.1 hF)]

theorem gauss_weight {n : ℕ} {H : Vec ℂ → Vec ℂ} {v : Vec ℂ} {K : ℕ} (hK : 0 < K) {L : List (ℝ × ℝ)} (h : IsGauss n H v K L) :
    totalWeight L = Spec.normSq n v := by
  have := h.2.2 0 (by omega)
  rw [Function.iterate_zero, id, innerProduct_self] at this
  have h1 : momentOf L 0 = totalWeight L := by
    unfold momentOf totalWeight
    simp
  rw [← h1]
  exact_mod_cast this

section
variable {L : MainLib} {A : MainArgs} (hA : A.Valid) (hG : GauntLarge L.gaunt A.ls) {N : ℕ} (hN : 0 < N)
  {ord : Fin N → ℕ → ℕ → ℕ → SetOrders} (hord : ∀ k c t i, (ord k c t i).Valid)
  {ordRixs : Fin N → List ℕ → SetOrders} (hordR : ∀ k l, (ordRixs k l).Valid) {out : Fin N → Option MainOutput}
  (hfin : CanFinish msgSum (fun k : Fin N => mainRank L A (ord k) (ordRixs k) k.val N) out)
  {o : MainOutput} (ho : out ⟨0, hN⟩ = some o)
variable (hL : SolverCorrect L.solver) {b : ℕ → ℕ} {P : BasisParams} {hx hy hz : ℝ} {h0 : Op Label ℂ}
  (hD : Documented A b P hx hy hz h0)

include hA hG hord hordR hfin ho hL hD in
/-- C104, main.  The stored photoemission and XPS of an eigenstate `psi` are sums of Lorentzians; their areas are `π` times
the sums of the weights.  For the ten d spin-orbitals together, removing electrons (`rem`) has the weight of the
d electrons in the configurations with at least the nominal number of d electrons, and adding electrons (`add`) that of the d holes
in the configurations with at most two less; XPS (`core`) has the weight of the p electrons in those with at most one less.
So if no configuration has fewer, the weights are exactly the numbers of electrons and holes. -/
theorem C104_main (hR : GauntRules L.gaunt) :
    ∃ psis S, MainRun L A b P hx hy hz h0 o.energies psis S ∧ ∀ i < S.es.length, ∀ v, v = ampl (size S) (S.psis.getD i []) →
      ∃ (p d : ℝ) (add rem core : ℕ → List (ℝ × ℝ)),
        getTraceDensityMatrix S.nBaths (S.psis.getD i []) 1 = .ok p ∧ getTraceDensityMatrix S.nBaths (S.psis.getD i []) 2 = .ok d ∧
        (∀ j < 10, (∀ q ∈ add j, 0 ≤ q.2) ∧ (∀ q ∈ rem j, 0 ≤ q.2) ∧ (∀ k (hk : k < S.w.length), o.spectra.ps.data i j k
            = -(lehmann (add j) ((S.w[k] : ℂ) + Complex.I * S.delta + (S.es.getD i 0 : ℂ))).im
              + (lehmann (rem j) (-((S.w[k] : ℂ) + Complex.I * S.delta) + (S.es.getD i 0 : ℂ))).im) ∧
          (0 < S.delta → ∫ w : ℝ, (-(lehmann (add j) ((w : ℂ) + Complex.I * S.delta + (S.es.getD i 0 : ℂ))).im
              + (lehmann (rem j) (-((w : ℂ) + Complex.I * S.delta) + (S.es.getD i 0 : ℂ))).im)
            = Real.pi * (totalWeight (add j) + totalWeight (rem j)))) ∧
        (∀ j < 6, (∀ q ∈ core j, 0 ≤ q.2) ∧ (∀ k (hk : k < S.w.length), o.spectra.xps.data i j k
            = (lehmann (core j) (-((S.w[k] : ℂ) + Complex.I * S.delta) + (S.es.getD i 0 : ℂ))).im) ∧
          (0 < S.delta → ∫ w : ℝ, (lehmann (core j) (-((w : ℂ) + Complex.I * S.delta) + (S.es.getD i 0 : ℂ))).im
            = Real.pi * totalWeight (core j))) ∧
        (weights 10 rem = diagonalValue (size S) (shellCount S.nBaths 2) (atLeast (pdSystem b) (P.n0 2) v) ∧
          weights 6 core = diagonalValue (size S) (shellCount S.nBaths 1) (atLeast (pdSystem b) (P.n0 2 - 1) v) ∧
          weights 10 add = 10 * Spec.normSq (size S) (atLeast (pdSystem b) (P.n0 2 - 2) v)
            - diagonalValue (size S) (shellCount S.nBaths 2) (atLeast (pdSystem b) (P.n0 2 - 2) v)) ∧
        (weights 10 rem ≤ d ∧ weights 6 core ≤ p) ∧
        (P.tol 2 ≤ 0 ∨ P.dnCon 2 ≤ 0 → weights 10 rem = d) ∧
        (P.tol 2 ≤ 1 ∨ P.dnCon 2 ≤ 1 → weights 6 core = p) ∧
        (P.tol 2 ≤ 2 ∨ P.dnCon 2 ≤ 2 → weights 10 add = 10 * norm2 (S.psis.getD i []) - d) := by
  obtain ⟨psis, S, hrun, hM⟩ := C96_main hA hG hN hord hordR hfin ho hL hD hR
  refine ⟨psis, S, hrun, fun i hi v hv => ?_⟩
  subst hv
  obtain ⟨hst, -⟩ := kept_configuration hrun hi
  have hsz : nSpinOrbitals S.nBaths = size S := nSpinOrbitals_eq _
  have hK : intKeys S.nBaths = pdSystem b := by rw [hrun.system]; rfl
  have hnd : Dict.NodupKeys S.nBaths := by rw [hrun.system]; simp [Dict.NodupKeys, Dict.keys]
  have hl2 : 2 ∈ Dict.keys S.nBaths := by rw [hrun.system]; simp [Dict.keys]
  have hl1 : 1 ∈ Dict.keys S.nBaths := by rw [hrun.system]; simp [Dict.keys]
  have hst' : IsState (nSpinOrbitals S.nBaths) (S.psis.getD i []) := by rw [hsz]; exact hst
  have tr2 := getTraceDensityMatrix_spec hnd hl2 hst'
  have tr1 := getTraceDensityMatrix_spec hnd hl1 hst'
  rw [hsz] at tr1 tr2
  obtain ⟨s1, s2, s3⟩ := pd_system b
  obtain ⟨l1, l2, -⟩ := pd_layout b
  have hps : ∀ j, ∃ add rem : List (ℝ × ℝ), j < 10 →
      IsGauss (size S) (hamilton S) (excite S (create (impStart (pdSystem b) 2 + j)) i) 150 add ∧
      IsGauss (size S) (hamilton S) (excite S (annihilate (impStart (pdSystem b) 2 + j)) i) 150 rem ∧ ∀ k (hk : k < S.w.length),
      o.spectra.ps.data i j k = -(lehmann add ((S.w[k] : ℂ) + Complex.I * S.delta + (S.es.getD i 0 : ℂ))).im
        + (lehmann rem (-((S.w[k] : ℂ) + Complex.I * S.delta) + (S.es.getD i 0 : ℂ))).im := by
    intro j
    by_cases hj : j < 10
    · obtain ⟨add, rem, h⟩ := hM.photoemission i j hi hj _ rfl
      exact ⟨add, rem, fun _ => h⟩
    · exact ⟨[], [], fun h => absurd h hj⟩
  have hxps : ∀ j, ∃ core : List (ℝ × ℝ), j < 6 →
      IsGauss (size S) (hamilton S) (excite S (annihilate (impStart (pdSystem b) 1 + j)) i) 150 core ∧ ∀ k (hk : k < S.w.length),
      o.spectra.xps.data i j k = (lehmann core (-((S.w[k] : ℂ) + Complex.I * S.delta) + (S.es.getD i 0 : ℂ))).im := by
    intro j
    by_cases hj : j < 6
    · obtain ⟨core, h⟩ := hM.xps i j hi hj _ rfl
      exact ⟨core, fun _ => h⟩
    · exact ⟨[], fun h => absurd h hj⟩
  choose add rem hps using hps
  choose core hxps using hxps
  have inD : ∀ j < 10, impStart (pdSystem b) 2 + j ∈ impOrbs (pdSystem b) 2 := by
    intro j hj; unfold impOrbs; rw [mem_Ico]; omega
  have notD : ∀ j < 6, impStart (pdSystem b) 1 + j ∉ impOrbs (pdSystem b) 2 := by
    intro j hj; unfold impOrbs; rw [mem_Ico, l1, l2]; omega
  have wrem : weights 10 rem = diagonalValue (size S) (shellCount S.nBaths 2)
      (atLeast (pdSystem b) (P.n0 2) (ampl (size S) (S.psis.getD i []))) := by
    have := normSq_annihilate_shell (nBaths := S.nBaths) (by rw [hK]; exact s1) (l := 2) (by rw [hK]; exact s3)
      (atLeast (pdSystem b) (P.n0 2) (ampl (size S) (S.psis.getD i [])))
    refine Eq.trans ?_ this
    refine sum_congr rfl fun j hj => ?_
    rw [mem_range] at hj
    rw [gauss_weight (by norm_num) (hps j hj).2.1]
    refine normSq_congr fun F hF => ?_
    rw [excite_annihilate hrun hi (by omega) (-1) (fun F hF => ?_) (by norm_num) hF, hK, show P.n0 2 - 1 - -1 = P.n0 2 by ring]
    rw [insert_inter_of_mem (inD j hj), card_insert_of_notMem fun h => hF (mem_inter.1 h).1]
    push_cast; ring
  have wcore : weights 6 core = diagonalValue (size S) (shellCount S.nBaths 1)
      (atLeast (pdSystem b) (P.n0 2 - 1) (ampl (size S) (S.psis.getD i []))) := by
    have := normSq_annihilate_shell (nBaths := S.nBaths) (by rw [hK]; exact s1) (l := 1) (by rw [hK]; exact s2)
      (atLeast (pdSystem b) (P.n0 2 - 1) (ampl (size S) (S.psis.getD i [])))
    refine Eq.trans ?_ this
    refine sum_congr rfl fun j hj => ?_
    rw [mem_range] at hj
    rw [gauss_weight (by norm_num) (hxps j hj).1]
    refine normSq_congr fun F hF => ?_
    rw [excite_annihilate hrun hi (by omega) 0 (fun F hF => ?_) (by norm_num) hF, hK, show P.n0 2 - 1 - 0 = P.n0 2 - 1 by ring]
    rw [insert_inter_of_notMem (notD j hj), add_zero]
  have wadd : weights 10 add = 10 * Spec.normSq (size S) (atLeast (pdSystem b) (P.n0 2 - 2) (ampl (size S) (S.psis.getD i [])))
      - diagonalValue (size S) (shellCount S.nBaths 2) (atLeast (pdSystem b) (P.n0 2 - 2) (ampl (size S) (S.psis.getD i []))) := by
    have := normSq_create_shell (nBaths := S.nBaths) (by rw [hK]; exact s1) (l := 2) (by rw [hK]; exact s3)
      (atLeast (pdSystem b) (P.n0 2 - 2) (ampl (size S) (S.psis.getD i [])))
    rw [show (2 : ℝ) * (2 * (2 : ℕ) + 1) = 10 by norm_num] at this
    refine Eq.trans ?_ this
    refine sum_congr rfl fun j hj => ?_
    rw [mem_range] at hj
    rw [gauss_weight (by norm_num) (hps j hj).1]
    refine normSq_congr fun F hF => ?_
    rw [excite_create hrun hi (by omega) 1 (fun F hF => ?_) le_rfl hF, hK, show P.n0 2 - 1 - 1 = P.n0 2 - 2 by ring]
    rw [erase_inter, ← card_erase_add_one (mem_inter.2 ⟨hF, inD j hj⟩)]
    push_cast; ring
  refine ⟨_, _, add, rem, core, tr1, tr2, fun j hj => ⟨(hps j hj).1.2.1, (hps j hj).2.1.2.1, (hps j hj).2.2, fun hd => ?_⟩,
    fun j hj => ⟨(hxps j hj).1.2.1, (hxps j hj).2, fun hd => (integral_lehmann_neg (core j) hd _).2⟩,
    ⟨wrem, wcore, wadd⟩, ⟨?_, ?_⟩, fun ht => ?_, fun ht => ?_, fun ht => ?_⟩
  · obtain ⟨c1, c2⟩ := integral_lehmann (add j) hd (S.es.getD i 0)
    obtain ⟨d1, d2⟩ := integral_lehmann_neg (rem j) hd (S.es.getD i 0)
    rw [MeasureTheory.integral_add c1 d1, c2, d2]
    ring
  · rw [wrem]
    exact diagonalValue_atLeast_le _ _ _ (shellCount_nonneg _ _) _
  · rw [wcore]
    exact diagonalValue_atLeast_le _ _ _ (shellCount_nonneg _ _) _
  · have := atLeast_all hrun hi ht
    rw [sub_zero] at this
    rw [wrem, this]
    rfl
  · rw [wcore, atLeast_all hrun hi ht]
    rfl
  · rw [wadd, atLeast_all hrun hi ht, show (norm2 (S.psis.getD i []) : ℝ) = _ from norm2_eq hst]
    rfl

end

/-! ### Non-vacuity -/

/-- The hypotheses of `C104_main` are met, and all electrons are counted: three ranks, any temperature. -/
example (sphHarm : SphHarm) (jn : SphericalJn) (T : ℝ) (hT : 0 < T) (radial : List (ℝ × ℝ)) :
    ∃ (L : MainLib) (o : MainOutput) (psis : _) (S : _),
      MainRun L (holeArgs 0 T radial) (fun _ => 0) holeParams 0 0 0 (holeLevels 0) o.energies psis S ∧ 0 < S.es.length ∧
      ∀ i < S.es.length, ∃ (d : ℝ) (add rem : ℕ → List (ℝ × ℝ)),
        getTraceDensityMatrix S.nBaths (S.psis.getD i []) 2 = .ok d ∧ weights 10 rem = d ∧
        weights 10 add = 10 * norm2 (S.psis.getD i []) - d ∧
        ∀ j < 10, ∀ k (hk : k < S.w.length), o.spectra.ps.data i j k
          = -(lehmann (add j) ((S.w[k] : ℂ) + Complex.I * S.delta + (S.es.getD i 0 : ℂ))).im
            + (lehmann (rem j) (-((S.w[k] : ℂ) + Complex.I * S.delta) + (S.es.getD i 0 : ℂ))).im := by
  obtain ⟨solver, hS, htot⟩ := exists_solver
  obtain ⟨o, ho⟩ := C64_example hS htot sphHarm jn one_pos hT radial
  have h1 := (ho 3 (by decide) (fun _ _ _ _ => holeOrders) (fun _ _ _ _ => holeOrders_valid) (fun _ _ => holeOrders)
    (fun _ _ => holeOrders_valid)).canFinish
  obtain ⟨psis, S, hrun, hsp⟩ := C104_main (holeArgs_valid 0 T radial) sympyGaunt_large (by decide)
    (fun _ _ _ _ => holeOrders_valid) (fun _ _ => holeOrders_valid) h1 rfl hS (holeArgs_documented 0 T radial)
    sympyGaunt_rules
  refine ⟨_, o, psis, S, hrun, List.length_pos_iff.2 hrun.nonempty.2, fun i hi => ?_⟩
  obtain ⟨p, d, add, rem, core, -, h2, h3, -, -, -, h4, -, h5⟩ := hsp i hi _ rfl
  exact ⟨d, add, rem, h2, h4 (Or.inl le_rfl), h5 (Or.inl (by decide)), fun j hj => (h3 j hj).2.2.1⟩

end

end Verif
