/-
C107: how high a RIXS map can be.
-/
import Verif.Prop.RixsMoments
import Verif.Prop.Heights

namespace Verif

open Spec Finset Psr Mpi Matrix

noncomputable section

/-! ### Absorption and emission -/

section
variable {gaunt : GauntFun} (hT : DipoleTable gaunt) {b : ℕ → ℕ}

include hT in
/-- What a state with a full p shell absorbs. -/
theorem absorbs_le {v : Vec ℂ} (hv : FullShell (position (pdSystem b)) 1 v) {ε : Vec3 ℂ} (hε : ε ∈ [alongX, alongY, alongZ]) :
    Spec.normSq (nTotal (pdSystem b)) (dipolePD gaunt b ε v) ≤ 8 / 3 * Spec.normSq (nTotal (pdSystem b)) v := by
  have hK : intKeys [(1, b 1), (2, b 2)] = pdSystem b := rfl
  obtain ⟨k1, -, -, k4⟩ := C103_weights hT [(1, b 1), (2, b 2)] rfl (v := v) hv (nTotal (pdSystem b)) rfl _ _ _ rfl rfl rfl
    (fun ε => Spec.normSq (nTotal (pdSystem b)) (dipolePD gaunt b ε v)) (fun ε => rfl)
  have p1 : 0 ≤ Spec.normSq (nTotal (pdSystem b)) (dipolePD gaunt b alongX v) := normSq_nonneg _ _
  have p2 : 0 ≤ Spec.normSq (nTotal (pdSystem b)) (dipolePD gaunt b alongY v) := normSq_nonneg _ _
  have hN : 0 ≤ diagonalValue (nTotal (pdSystem b)) (shellCount [(1, b 1), (2, b 2)] 2) v :=
    sum_nonneg fun F _ => mul_nonneg (sum_nonneg fun x _ => by split <;> norm_num) (Complex.normSq_nonneg _)
  have hQ : 0 ≤ diagonalValue (nTotal (pdSystem b)) (squaredMoment [(1, b 1), (2, b 2)]) v :=
    sum_nonneg fun F _ => mul_nonneg (sum_nonneg fun x _ => by split <;> positivity) (Complex.normSq_nonneg _)
  have hQN : diagonalValue (nTotal (pdSystem b)) (squaredMoment [(1, b 1), (2, b 2)]) v
      ≤ 4 * diagonalValue (nTotal (pdSystem b)) (shellCount [(1, b 1), (2, b 2)] 2) v := by
    unfold diagonalValue
    rw [mul_sum]
    refine sum_le_sum fun F _ => ?_
    rw [← mul_assoc]
    refine mul_le_mul_of_nonneg_right ?_ (Complex.normSq_nonneg _)
    unfold squaredMoment shellCount
    rw [mul_sum]
    refine sum_le_sum fun x hx => ?_
    split
    · unfold shell at hx
      obtain ⟨-, h2⟩ := mem_product.1 hx
      replace h2 : -2 ≤ x.2 ∧ x.2 ≤ 2 := by simpa [mRange] using h2
      have h3 : |(x.2 : ℝ)| ≤ 2 := by
        rw [_root_.abs_le]
        exact ⟨by exact_mod_cast h2.1, by exact_mod_cast h2.2⟩
      have := sq_le_sq' (by linarith [abs_nonneg (x.2 : ℝ)] : -(2 : ℝ) ≤ |(x.2 : ℝ)|) h3
      rw [sq_abs] at this
      linarith
    · simp
  have hn : 0 ≤ Spec.normSq (nTotal (pdSystem b)) v := normSq_nonneg _ _
  simp only [List.mem_cons, List.not_mem_nil, or_false] at hε
  rcases hε with rfl | rfl | rfl <;> linarith

include hT in
/-- What a state emits, if its p shell is full afterwards. -/
theorem emits_le {x : Vec ℂ} (hx : FullShell (position (pdSystem b)) 1 (dipoleDP gaunt b alongX x)) :
    Spec.normSq (nTotal (pdSystem b)) (dipoleDP gaunt b alongX x) ≤ 8 / 3 * Spec.normSq (nTotal (pdSystem b)) x := by
  have hg : GoodSystem (pdSystem b) := goodSystem_two (by decide)
  have h1 : 1 ∈ allAngulars (pdSystem b) := (allAngulars_two 1 2 (b 1) (b 2)).1
  have h2 : 2 ∈ allAngulars (pdSystem b) := (allAngulars_two 1 2 (b 1) (b 2)).2
  set n := nTotal (pdSystem b) with hn
  set u := dipoleDP gaunt b alongX x with hu
  have hadj : innerProduct n u u = innerProduct n x (dipolePD gaunt b alongX u) :=
    between_adjoint hg h2 h1 (fun m m' => dipole gaunt alongX.x alongX.y alongX.z 2 m 1 m') x u
  have hle := innerProduct_le n x (dipolePD gaunt b alongX u)
  rw [← hadj, innerProduct_self, Complex.norm_real, Real.norm_of_nonneg (normSq_nonneg _ _)] at hle
  have hsq := pow_le_pow_left₀ (normSq_nonneg n u) hle 2
  rw [mul_pow, len_sq, len_sq] at hsq
  have hab := absorbs_le (b := b) hT hx (ε := alongX) (by simp)
  rw [← hn] at hab
  have hx0 := normSq_nonneg n x
  have hu0 := normSq_nonneg n u
  have h3 : Spec.normSq n u ^ 2 ≤ Spec.normSq n x * (8 / 3 * Spec.normSq n u) :=
    hsq.trans (mul_le_mul_of_nonneg_left hab hx0)
  rcases hu0.eq_or_lt with h | h
  · rw [← h]; positivity
  · refine le_of_mul_le_mul_left ?_ h
    nlinarith

end

theorem full_of_sector {b : ℕ → ℕ} {v : Vec ℂ} (hv : InSector (impOrbs (pdSystem b) 1) 6 v) :
    FullShell (position (pdSystem b)) 1 v := by
  intro F hF x hx
  have h := hv F hF
  have hc : (impOrbs (pdSystem b) 1).card = 6 := by simp [impOrbs]
  have he : F ∩ impOrbs (pdSystem b) 1 = impOrbs (pdSystem b) 1 :=
    eq_of_subset_of_card_le inter_subset_right (by rw [hc]; exact_mod_cast h.ge)
  unfold shell at hx
  rw [mem_product] at hx
  have := position_mem (sys := pdSystem b) hx.1 hx.2
  rw [← he] at this
  exact (mem_inter.1 this).1

/-! ### main -/

section
variable {L : MainLib} {A : MainArgs} (hA : A.Valid) (hG : GauntLarge L.gaunt A.ls) {N : ℕ} (hN : 0 < N)
  {ord : Fin N → ℕ → ℕ → ℕ → SetOrders} (hord : ∀ k c t i, (ord k c t i).Valid)
  {ordRixs : Fin N → List ℕ → SetOrders} (hordR : ∀ k l, (ordRixs k l).Valid) {out : Fin N → Option MainOutput}
  (hfin : CanFinish msgSum (fun k : Fin N => mainRank L A (ord k) (ordRixs k) k.val N) out)
  {o : MainOutput} (ho : out ⟨0, hN⟩ = some o)
  (hL : SolverCorrect L.solver) {b : ℕ → ℕ} {P : BasisParams} {hx hy hz : ℝ} {h0 : Op Label ℂ}
  (hD : Documented A b P hx hy hz h0)

omit hfin ho in
include hG hN hord hordR hD in
theorem rixs_height (hsolve : ExactSolver L.solve) (hT : DipoleTable L.gaunt) (hδ : 0 < A.delta) (hδ' : 0 < A.deltaRIXS)
    (hC : ConservedNumber b P h0 (impOrbs (pdSystem b) 1) 6 1 0) {energies : List ℝ}
    {psis : List (Psi ℂ)} {S : SimulateArgs} (hrun : MainRun L A b P hx hy hz h0 energies psis S) (hS : S.Valid) (hout : S.OutLarge)
    (hfin1 : CanFinish msgSum (fun k : Fin N => simulateSpectra S (ord k) (ordRixs k) k.val N)
      (fun k => if k.val = 0 then some o.spectra else none)) :
      ∀ i a j (_ : i < S.es.length) (ha : a < S.epsilonsRIXSin.length) (hj : j < S.wIn.length), ∀ c < 3,
      (∀ k < S.wLoss.length, 0 ≤ o.spectra.rixs.data i a c j k ∧
        o.spectra.rixs.data i a c j k ≤ 64 / 9 / (A.delta ^ 2 * A.deltaRIXS)) ∧
      (∀ k (hk : k < S.wLoss.length) k' (hk' : k' < S.wLoss.length), |o.spectra.rixs.data i a c j k - o.spectra.rixs.data i a c j k'|
          ≤ 64 / 9 * |S.wLoss[k] - S.wLoss[k']| / (A.delta ^ 2 * A.deltaRIXS ^ 2)) ∧
      ∀ lo hi D, EnergiesBetween S (impOrbs (pdSystem b) 1) 5 lo hi → Outside lo hi (S.wIn[j] + S.es.getD i 0) D →
        (∀ k < S.wLoss.length, o.spectra.rixs.data i a c j k ≤ 64 / 9 / ((D ^ 2 + A.delta ^ 2) * A.deltaRIXS)) ∧
        ∀ k (hk : k < S.wLoss.length) k' (hk' : k' < S.wLoss.length), |o.spectra.rixs.data i a c j k - o.spectra.rixs.data i a c j k'|
          ≤ 64 / 9 * |S.wLoss[k] - S.wLoss[k']| / ((D ^ 2 + A.delta ^ 2) * A.deltaRIXS ^ 2) := by
  have hM := rixs_run hG hN hord hordR hD hsolve hδ hδ' hrun hS hout hfin1
  intro i a j hi ha hj c hc
  obtain ⟨x, G, h1, -, -, hpos, hwt, h3, -, h4, -⟩ := hM i a j hi ha hj _ _ rfl rfl
  have hsz : size S = nTotal (pdSystem b) := by unfold size; rw [hrun.system]; rfl
  have hgS : S.gaunt = L.gaunt := hrun.args.library.1
  have hTS : DipoleTable S.gaunt := by rw [hgS]; exact hT
  have hop : OpInSystem (size S) S.hOp := by rw [hsz]; exact hrun.inside
  have hTc : Carries (impOrbs (pdSystem b) 1) (0 - 1) (dipolePD S.gaunt b S.epsilonsRIXSin[a]) := between_carries hC.valence hC.core _
  have hUc : Carries (impOrbs (pdSystem b) 1) (1 - 0) (dipoleDP S.gaunt b alongX) := between_carries hC.core hC.valence _
  have hd := hrun.args.delta
  have hz' : ((S.wIn[j] : ℂ) + Complex.I * S.delta + (S.es.getD i 0 : ℂ)).im = A.delta := by rw [← hd]; simp
  have hzr : ((S.wIn[j] : ℂ) + Complex.I * S.delta + (S.es.getD i 0 : ℂ)).re = S.wIn[j] + S.es.getD i 0 := by simp
  have hzn : ((S.wIn[j] : ℂ) + Complex.I * S.delta + (S.es.getD i 0 : ℂ)).im ≠ 0 := by rw [hz']; exact hδ.ne'
  have hxs := intermediate_sector hC hrun hzn (excite_sector hC hrun hTc hi) h1
  have hva : ∀ F, ¬ (F ⊆ range (size S) ∧ AllowedOpt S.restrictions F) →
      excite S (dipolePD S.gaunt b S.epsilonsRIXSin[a]) i F = 0 := by
    intro F hF
    unfold excite exciteVec excited
    rw [if_neg fun hc => hF ⟨hc.1, hc.2.1⟩]
  have hem : Spec.normSq (size S) (exciteVec S (dipoleDP S.gaunt b alongX) x) ≤ 8 / 3 * Spec.normSq (size S) x := by
    have hfull : FullShell (position (pdSystem b)) 1 (dipoleDP S.gaunt b alongX x) := full_of_sector (hUc _ _ hxs.2)
    have := emits_le hTS hfull
    rw [← hsz] at this
    refine le_trans ?_ this
    unfold Spec.normSq
    refine sum_le_sum fun F _ => ?_
    unfold exciteVec excited
    split
    · exact le_rfl
    · rw [map_zero]; exact Complex.normSq_nonneg _
  have hab : Spec.normSq (size S) (excite S (dipolePD S.gaunt b S.epsilonsRIXSin[a]) i) ≤ 8 / 3 := by
    refine (normSq_excite_le _ _ _).trans ?_
    have hfull : FullShell (position (pdSystem b)) 1 (ampl (size S) (S.psis.getD i [])) := by
      refine full_of_sector fun F hF => hC.filling F ?_ ((kept_configuration hrun hi).2 F hF).1
      rw [← hsz]
      by_contra hn
      exact hF (ampl_of_not_subset hn)
    have hmem : S.epsilonsRIXSin[a] ∈ [alongX, alongY, alongZ] := by
      have : ∀ l, S.epsilonsRIXSin = l → S.epsilonsRIXSin[a] ∈ l := by rintro _ rfl; exact List.getElem_mem ha
      exact this _ hrun.args.epsilonsRIXS.1
    have := absorbs_le (b := b) hTS hfull hmem
    rw [← hsz] at this
    have hn := kept_norm hrun hi
    linarith
  have hg := (gentle_lehmann hδ' hpos).comp (g := fun w => w + S.es.getD i 0) (fun x x' => by rw [add_sub_add_right_eq_sub])
  have hv : ∀ k (hk : k < S.wLoss.length), o.spectra.rixs.data i a c j k
      = -(lehmann G (((S.wLoss[k] + S.es.getD i 0 : ℝ) : ℂ) + Complex.I * A.deltaRIXS)).im := by
    intro k hk
    rw [h3 c hc k hk]
    congr 3
    push_cast; ring
  have key : ∀ q : ℝ, 0 < q → q * Spec.normSq (size S) x ≤ Spec.normSq (size S) (excite S (dipolePD S.gaunt b S.epsilonsRIXSin[a]) i) →
      totalWeight G ≤ 64 / 9 / q := by
    intro q hq hle
    refine hwt.trans ?_
    rw [le_div_iff₀ hq]
    refine (mul_le_mul_of_nonneg_right hem hq.le).trans ?_
    have := hle.trans hab
    linarith
  refine ⟨fun k hk => ?_, fun k hk k' hk' => ?_, fun lo hi' D hb hDo => ?_⟩
  · have hG' := hg.mono hδ' (key (A.delta ^ 2) (by positivity) h4)
    rw [hv k hk, ← div_div]
    exact ⟨hG'.low _, hG'.high _⟩
  · have hG' := hg.mono hδ' (key (A.delta ^ 2) (by positivity) h4)
    rw [hv k hk, hv k' hk']
    refine (hG'.slope _ _).trans (le_of_eq ?_)
    field_simp
  · have := C107_resonance hop hrun.dict.1 hrun.dict.2 S.restrictions hzn hva h1 (hb x hxs.1 (by simpa using hxs.2))
      (by rw [hzr]; exact hDo)
    rw [hz'] at this
    have hG' := hg.mono hδ' (key (D ^ 2 + A.delta ^ 2) (by positivity) this)
    refine ⟨fun k hk => ?_, fun k hk k' hk' => ?_⟩
    · rw [hv k hk, ← div_div]
      exact hG'.high _
    · rw [hv k hk, hv k' hk']
      refine (hG'.slope _ _).trans (le_of_eq ?_)
      field_simp

include hA hG hord hordR hfin ho hL hD in
/-- C107, the height.  Let the p shell be full in all configurations, and its number of electrons be conserved.  The map of an eigenstate
is at no energy loss higher than `64/9 / (delta² deltaRIXS)`, and with the energies of the states with a p hole at the distance `D` not
higher than `64/9 / ((D² + delta²) deltaRIXS)`; between two energy losses it changes by at most their distance times these limits
divided by `deltaRIXS`. -/
theorem C107_height (hsolve : ExactSolver L.solve) (hT : DipoleTable L.gaunt) (hδ : 0 < A.delta) (hδ' : 0 < A.deltaRIXS)
    (hC : ConservedNumber b P h0 (impOrbs (pdSystem b) 1) 6 1 0) :
    ∃ psis S, MainRun L A b P hx hy hz h0 o.energies psis S ∧
      ∀ i a j (_ : i < S.es.length) (ha : a < S.epsilonsRIXSin.length) (hj : j < S.wIn.length), ∀ c < 3,
      (∀ k < S.wLoss.length, 0 ≤ o.spectra.rixs.data i a c j k ∧
        o.spectra.rixs.data i a c j k ≤ 64 / 9 / (A.delta ^ 2 * A.deltaRIXS)) ∧
      (∀ k (hk : k < S.wLoss.length) k' (hk' : k' < S.wLoss.length), |o.spectra.rixs.data i a c j k - o.spectra.rixs.data i a c j k'|
          ≤ 64 / 9 * |S.wLoss[k] - S.wLoss[k']| / (A.delta ^ 2 * A.deltaRIXS ^ 2)) ∧
      ∀ lo hi D, EnergiesBetween S (impOrbs (pdSystem b) 1) 5 lo hi → Outside lo hi (S.wIn[j] + S.es.getD i 0) D →
        (∀ k < S.wLoss.length, o.spectra.rixs.data i a c j k ≤ 64 / 9 / ((D ^ 2 + A.delta ^ 2) * A.deltaRIXS)) ∧
        ∀ k (hk : k < S.wLoss.length) k' (hk' : k' < S.wLoss.length), |o.spectra.rixs.data i a c j k - o.spectra.rixs.data i a c j k'|
          ≤ 64 / 9 * |S.wLoss[k] - S.wLoss[k']| / ((D ^ 2 + A.delta ^ 2) * A.deltaRIXS ^ 2) := by
  obtain ⟨psis, S, hrun, hS, hout, hall⟩ := C65_run hA hG hN hord hordR hfin ho hL hD
  exact ⟨psis, S, hrun, rixs_height hG hN hord hordR hD hsolve hT hδ hδ' hC hrun hS hout (hall N hN ord hord ordRixs hordR).canFinish⟩

include hA hG hord hordR hfin ho hL hD in
/-- C107, the file.  Let the p shell be full in all configurations, and its number of electrons be conserved.  `plotRIXS.py` reads the
two meshes and, for every energy loss and incoming energy, one number, rounded to single precision: it is not negative, at most
`64 / (delta² deltaRIXS)`, and between two energy losses it changes by at most their distance times `64 / (delta² deltaRIXS²)`. -/
theorem C107_file (hsolve : ExactSolver L.solve) (hT : DipoleTable L.gaunt) (hδ : 0 < A.delta) (hδ' : 0 < A.deltaRIXS)
    (hC : ConservedNumber b P h0 (impOrbs (pdSystem b) 1) 6 1 0) (hf : L.f32 50 = 50) :
    ∃ psis S, MainRun L A b P hx hy hz h0 o.energies psis S ∧
      ∃ value : ℕ → ℕ → ℝ, readRIXS o.spectra.rixs.file = .ok (S.wLoss.map S.f32, S.wIn.map S.f32,
          (List.range S.wLoss.length).map fun k => (List.range S.wIn.length).map fun j => S.f32 (value k j)) ∧
        (∀ k < S.wLoss.length, ∀ j < S.wIn.length, 0 ≤ value k j ∧ value k j ≤ 64 / (A.delta ^ 2 * A.deltaRIXS)) ∧
        ∀ k (hk : k < S.wLoss.length) k' (hk' : k' < S.wLoss.length), ∀ j < S.wIn.length,
          |value k j - value k' j| ≤ 64 * |S.wLoss[k] - S.wLoss[k']| / (A.delta ^ 2 * A.deltaRIXS ^ 2) := by
  obtain ⟨psis, S, hrun, hS, hout, hall⟩ := C65_run hA hG hN hord hordR hfin ho hL hD
  have hfin1 := (hall N hN ord hord ordRixs hordR).canFinish
  refine ⟨psis, S, hrun, ?_⟩
  have hM := rixs_height hG hN hord hordR hD hsolve hT hδ hδ' hC hrun hS hout hfin1
  obtain ⟨t1, t2⟩ := C63_rixs_file hS hout hN hord hordR hfin1 rfl
    (by rw [hrun.args.wIn.1, hrun.args.library.2.2.2.2.1]; exact_mod_cast hf)
  have l1 : S.epsilonsRIXSin.length = 3 := by rw [hrun.args.epsilonsRIXS.1]; rfl
  have l2 : S.epsilonsRIXSout.length = 3 := by rw [hrun.args.epsilonsRIXS.2]; rfl
  rw [l1, l2] at t2
  obtain ⟨w, w0, w1, w2⟩ := thermal_weights (kB := S.kB) (T := S.T) hrun.nonempty.2
  have mean_le : ∀ (x : ℕ → ℝ) (y : ℝ), (∀ i < S.es.length, x i ≤ y) → ∑ i ∈ range S.es.length, w i * x i ≤ y := by
    intro x y hxy
    calc ∑ i ∈ range S.es.length, w i * x i ≤ ∑ i ∈ range S.es.length, w i * y :=
          sum_le_sum fun i hi => mul_le_mul_of_nonneg_left (hxy i (mem_range.1 hi)) (w0 i)
      _ = y := by rw [← sum_mul, w1, one_mul]
  have data := fun i a j (hi : i < S.es.length) (ha : a < 3) (hj : j < S.wIn.length) c hc =>
    hM i a j hi (by rw [l1]; exact ha) hj c hc
  refine ⟨_, t2, fun k hk j hj => ⟨?_, ?_⟩, fun k hk k' hk' j hj => ?_⟩
  · refine sum_nonneg fun a ha => sum_nonneg fun c hc => ?_
    rw [w2 _ _ (t1 a c j k)]
    exact sum_nonneg fun i hi => mul_nonneg (w0 i) ((data i a j (mem_range.1 hi) (mem_range.1 ha) hj c (mem_range.1 hc)).1 k hk).1
  · have : ∑ a ∈ range 3, ∑ c ∈ range 3, o.spectra.rixs.thermal a c j k ≤
        ∑ a ∈ range 3, ∑ c ∈ range 3, 64 / 9 / (A.delta ^ 2 * A.deltaRIXS) := by
      refine sum_le_sum fun a ha => sum_le_sum fun c hc => ?_
      rw [w2 _ _ (t1 a c j k)]
      exact mean_le _ _ fun i hi => ((data i a j hi (mem_range.1 ha) hj c (mem_range.1 hc)).1 k hk).2
    refine this.trans (le_of_eq ?_)
    simp only [sum_const, card_range, nsmul_eq_mul]
    push_cast
    ring
  · rw [← sum_sub_distrib]
    simp only [← sum_sub_distrib]
    have : |∑ a ∈ range 3, ∑ c ∈ range 3, (o.spectra.rixs.thermal a c j k - o.spectra.rixs.thermal a c j k')| ≤
        ∑ a ∈ range 3, ∑ c ∈ range 3, 64 / 9 * |S.wLoss[k] - S.wLoss[k']| / (A.delta ^ 2 * A.deltaRIXS ^ 2) := by
      refine (abs_sum_le_sum_abs _ _).trans (sum_le_sum fun a ha => (abs_sum_le_sum_abs _ _).trans (sum_le_sum fun c hc => ?_))
      rw [w2 _ _ (t1 a c j k), w2 _ _ (t1 a c j k'), ← sum_sub_distrib]
      refine (abs_sum_le_sum_abs _ _).trans ?_
      refine le_trans (le_of_eq ?_) (mean_le (fun i => |o.spectra.rixs.data i a c j k - o.spectra.rixs.data i a c j k'|) _ fun i hi =>
        (data i a j hi (mem_range.1 ha) hj c (mem_range.1 hc)).2.1 k hk k' hk')
      exact sum_congr rfl fun i _ => by rw [← mul_sub, abs_mul, abs_of_nonneg (w0 i)]
    refine this.trans (le_of_eq ?_)
    simp only [sum_const, card_range, nsmul_eq_mul]
    push_cast
    ring

end

/-! ### Non-vacuity -/

/-- The hypotheses of `C107_height` are met: three ranks, any temperature.  The map is at most `64/9·25·20` high. -/
example (sphHarm : SphHarm) (jn : SphericalJn) (T : ℝ) (hT : 0 < T) (radial : List (ℝ × ℝ)) :
    ∃ (L : MainLib) (o : MainOutput) (psis : _) (S : _),
      MainRun L (holeArgs 0 T radial) (fun _ => 0) holeParams 0 0 0 (holeLevels 0) o.energies psis S ∧ 0 < S.es.length ∧
      ∀ i a j (_ : i < S.es.length) (ha : a < S.epsilonsRIXSin.length) (hj : j < S.wIn.length),
      ∀ c < 3, ∀ k < S.wLoss.length, 0 ≤ o.spectra.rixs.data i a c j k ∧ o.spectra.rixs.data i a c j k ≤ 64 / 9 * 25 * 20 := by
  obtain ⟨solver, hS, htot⟩ := exists_solver
  obtain ⟨o, ho⟩ := C64_example hS htot sphHarm jn one_pos hT radial
  have h1 := (ho 3 (by decide) (fun _ _ _ _ => holeOrders) (fun _ _ _ _ => holeOrders_valid) (fun _ _ => holeOrders)
    (fun _ _ => holeOrders_valid)).canFinish
  have hsolve : ExactSolver (holeLib solver sphHarm jn 1).solve := by
    intro d a y ha
    show a *ᵥ (a⁻¹ *ᵥ y) = y
    rw [Matrix.mulVec_mulVec, Matrix.mul_nonsing_inv a ((Matrix.isUnit_iff_isUnit_det a).1 ha), Matrix.one_mulVec]
  obtain ⟨psis, S, hrun, hsp⟩ := C107_height (holeArgs_valid 0 T radial) sympyGaunt_large (by decide)
    (fun _ _ _ _ => holeOrders_valid) (fun _ _ => holeOrders_valid) h1 rfl hS (holeArgs_documented 0 T radial)
    hsolve sympyGaunt_table (by change (0 : ℝ) < 1 / 5; norm_num) (by change (0 : ℝ) < 1 / 20; norm_num) hole_conserved
  refine ⟨_, o, psis, S, hrun, List.length_pos_iff.2 hrun.nonempty.2, fun i a j hi ha hj c hc k hk => ?_⟩
  have := (hsp i a j hi ha hj c hc).1 k hk
  rw [show (holeArgs 0 T radial).delta = 1 / 5 from rfl, show (holeArgs 0 T radial).deltaRIXS = 1 / 20 from rfl] at this
  norm_num at this ⊢
  exact this

/-- The hypotheses of `C107_file` are met: three ranks, any temperature.  No number of the file is higher than `64·25·20`. -/
example (sphHarm : SphHarm) (jn : SphericalJn) (T : ℝ) (hT : 0 < T) (radial : List (ℝ × ℝ)) :
    ∃ (L : MainLib) (o : MainOutput) (psis : _) (S : _),
      MainRun L (holeArgs 0 T radial) (fun _ => 0) holeParams 0 0 0 (holeLevels 0) o.energies psis S ∧ 0 < S.es.length ∧
      ∃ value : ℕ → ℕ → ℝ, readRIXS o.spectra.rixs.file = .ok (S.wLoss.map S.f32, S.wIn.map S.f32,
          (List.range S.wLoss.length).map fun k => (List.range S.wIn.length).map fun j => S.f32 (value k j)) ∧
        ∀ k < S.wLoss.length, ∀ j < S.wIn.length, 0 ≤ value k j ∧ value k j ≤ 64 * 25 * 20 := by
  obtain ⟨solver, hS, htot⟩ := exists_solver
  obtain ⟨o, ho⟩ := C64_example hS htot sphHarm jn one_pos hT radial
  have h1 := (ho 3 (by decide) (fun _ _ _ _ => holeOrders) (fun _ _ _ _ => holeOrders_valid) (fun _ _ => holeOrders)
    (fun _ _ => holeOrders_valid)).canFinish
  have hsolve : ExactSolver (holeLib solver sphHarm jn 1).solve := by
    intro d a y ha
    show a *ᵥ (a⁻¹ *ᵥ y) = y
    rw [Matrix.mulVec_mulVec, Matrix.mul_nonsing_inv a ((Matrix.isUnit_iff_isUnit_det a).1 ha), Matrix.one_mulVec]
  obtain ⟨psis, S, hrun, hsp⟩ := C107_file (holeArgs_valid 0 T radial) sympyGaunt_large (by decide)
    (fun _ _ _ _ => holeOrders_valid) (fun _ _ => holeOrders_valid) h1 rfl hS (holeArgs_documented 0 T radial)
    hsolve sympyGaunt_table (by change (0 : ℝ) < 1 / 5; norm_num) (by change (0 : ℝ) < 1 / 20; norm_num) hole_conserved rfl
  refine ⟨_, o, psis, S, hrun, List.length_pos_iff.2 hrun.nonempty.2, ?_⟩
  obtain ⟨value, v1, v2, -⟩ := hsp
  refine ⟨value, v1, fun k hk j hj => ?_⟩
  have := v2 k hk j hj
  rw [show (holeArgs 0 T radial).delta = 1 / 5 from rfl, show (holeArgs 0 T radial).deltaRIXS = 1 / 20 from rfl] at this
  norm_num at this ⊢
  exact this

end

end Verif
