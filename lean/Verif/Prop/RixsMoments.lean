/-
C107: the energies, the weight and the resonances of a RIXS map.
-/
import Verif.Prop.Thresholds
import Verif.Prop.RixsChange
import Verif.Lemmas.RixsCutoff

namespace Verif

open Spec Finset Psr Mpi Matrix

noncomputable section

/-! ### One map -/

/-- A row of the map as a sum of Lorentzians, also if amplitudes are dropped. -/
theorem rixsRow_lehmann {A : RixsArgs} (hA : A.Valid) {e : ℝ} {psi3 : Psi ℂ} (hst : IsState A.n psi3) {g : List ℂ}
    (hg : rixsRow A e psi3 = .ok g) :
    ∃ L : List (ℝ × ℝ), (∀ p ∈ L, 0 ≤ p.2) ∧ totalWeight L ≤ Spec.normSq A.n (ampl A.n psi3) ∧
      g = A.wLoss.map fun (v : ℝ) => lehmann L ((v : ℂ) + Complex.I * (A.delta2 : ℂ) + (e : ℂ)) := by
  have hn2 : (norm2 psi3 : ℝ) = Spec.normSq A.n (ampl A.n psi3) := norm2_eq hst
  have hp : 0 ≤ (norm2 psi3 : ℝ) := by rw [hn2]; exact normSq_nonneg _ _
  unfold rixsRow at hg
  by_cases hnil : prune A.slaterWeightMin (unit psi3) = []
  · refine ⟨[], by simp, by rw [← hn2]; simpa [totalWeight] using hp, ?_⟩
    rw [hnil] at hg
    have h0 : getGreen A.n e [] A.hOp A.wLoss A.delta2 A.krylovSize A.cut A.restrictions [] A.fuel
        = .ok (List.replicate A.wLoss.length 0, []) := rfl
    rw [h0] at hg
    simp only [ok_bind, pure_ok] at hg
    cases hg
    unfold scaleSpectrum lehmann
    simp [List.map_const']
  · obtain ⟨x, hx, -⟩ := bind_ok hg
    obtain ⟨L, l1, l2, -, l4⟩ := getGreen_lehmann hnil hx
    refine ⟨L.map fun p => (p.1, norm2 psi3 * p.2), ?_, by rw [totalWeight_scale, l2, mul_one, hn2], ?_⟩
    · intro p hpm
      obtain ⟨q, hq, rfl⟩ := List.mem_map.1 hpm
      exact mul_nonneg hp (l1 q hq)
    · rw [l4 e A.wLoss A.delta2 hA.delta] at hg
      simp only [ok_bind, pure_ok] at hg
      cases hg
      unfold scaleSpectrum
      rw [List.map_map]
      refine List.map_congr_left fun y _ => ?_
      rw [lehmann_scale, Function.comp_apply, Real.sq_sqrt hp]

theorem rixsPoint_moments {A : RixsArgs} (hA : A.Valid) (hdict : Dict.NodupKeys A.hOp) (hh : isHermitianOp A.hOp)
    (hd1 : A.delta1 ≠ 0) (hsolve : ExactSolver A.solve) {op0 : Op ℕ ℂ} (hop0 : OpInSystem A.n op0)
    {psi1 : Psi ℂ} (hE : Excited A.n A.slaterWeightMin A.restrictions psi1) {sys : RixsSys}
    (hsys : rixsSystem A psi1 = .ok sys) {e w : ℝ} {psi2 : Psi ℂ}
    (h2 : rixsIntermediate A sys.1 sys.2.1 sys.2.2 e w = .ok psi2) {g : List ℂ}
    (hg : rixsRow A e (rixsOutState A op0 psi2) = .ok g) :
    ∃ x L, Solves A.n (hamiltonian A.n A.hOp A.cut A.restrictions) ((w : ℂ) + Complex.I * (A.delta1 : ℂ) + (e : ℂ)) (ampl A.n psi1) x ∧
      (NoneDropped A.n A.slaterWeightMin (Spec.transition A.n op0 A.slaterWeightMin A.restrictions x) →
        IsGauss A.n (hamiltonian A.n A.hOp A.cut A.restrictions) (Spec.transition A.n op0 A.slaterWeightMin A.restrictions x)
          A.krylovSize L) ∧
      (∀ p ∈ L, 0 ≤ p.2) ∧ totalWeight L ≤ Spec.normSq A.n (Spec.transition A.n op0 A.slaterWeightMin A.restrictions x) ∧
      g = A.wLoss.map fun (v : ℝ) => lehmann L ((v : ℂ) + Complex.I * (A.delta2 : ℂ) + (e : ℂ)) := by
  obtain ⟨hst, hsol⟩ := intermediate_solves hA hdict hh hd1 hsolve hE hsys h2
  have hex : Excited A.n A.slaterWeightMin A.restrictions (rixsOutState A op0 psi2) :=
    applyOp_excited hop0 hst hA.weight A.restrictions
  refine ⟨ampl A.n psi2, ?_⟩
  rw [← ampl_rixsOutState hop0 hst]
  by_cases hn : NoneDropped A.n A.slaterWeightMin (ampl A.n (rixsOutState A op0 psi2))
  · rw [rixsRow_eq_spectrum hA hex hn] at hg
    obtain ⟨L, l1, l2⟩ := spectrumOf_moments (A := A.spectra) hA.spectra hdict hh hex (w₀ := A.spectra.w) hA.spectra.delta hg
    exact ⟨L, hsol, fun _ => l1, l1.2.1, (gauss_weight hA.krylov l1).le, l2 A.wLoss A.delta2 e hA.spectra.delta _ hg⟩
  · obtain ⟨L, l1, l2, l3⟩ := rixsRow_lehmann hA hex.state hg
    exact ⟨L, hsol, fun h => absurd h hn, l1, l2, l3⟩

section
variable {A : RixsArgs} (hA : A.Valid) {tOpsIn : List (Op ℕ ℂ)} (hin : ∀ op ∈ tOpsIn, OpInSystem A.n op)
  {psis : List (Psi ℂ)} {es : List ℝ} (hlen : es.length ≤ psis.length) (hpsis : ∀ psi ∈ psis, IsState A.n psi)

include hA hin hlen hpsis in
theorem refRixs_moments (hdict : Dict.NodupKeys A.hOp) (hh : isHermitianOp A.hOp) (hd1 : A.delta1 ≠ 0)
    (hsolve : ExactSolver A.solve) {op0 : Op ℕ ℂ} {rest : List (Op ℕ ℂ)} (ho0 : OpInSystem A.n op0)
    {x : RefRixs} (hx : refRixs A tOpsIn (op0 :: rest) psis es = .ok x)
    (a b d : ℕ) (ha : a < es.length) (hb : b < tOpsIn.length)
    (hd : d < A.wIns.length) (hlarge : A.Large tOpsIn[b]) :
    ∃ y L, Solves A.n (hamiltonian A.n A.hOp A.cut A.restrictions)
        ((A.wIns[d] : ℂ) + Complex.I * (A.delta1 : ℂ) + (es.getD a 0 : ℂ))
        (excitation A.n tOpsIn[b] A.slaterWeightMin A.restrictions (psis.getD a [])) y ∧
      (NoneDropped A.n A.slaterWeightMin (Spec.transition A.n op0 A.slaterWeightMin A.restrictions y) →
        IsGauss A.n (hamiltonian A.n A.hOp A.cut A.restrictions) (Spec.transition A.n op0 A.slaterWeightMin A.restrictions y)
          A.krylovSize L) ∧
      (∀ p ∈ L, 0 ≤ p.2) ∧ totalWeight L ≤ Spec.normSq A.n (Spec.transition A.n op0 A.slaterWeightMin A.restrictions y) ∧
      ∀ c < (op0 :: rest).length, x.root a b c d
        = A.wLoss.map fun (v : ℝ) => lehmann L ((v : ℂ) + Complex.I * (A.delta2 : ℂ) + (es.getD a 0 : ℂ)) := by
  obtain ⟨r, ⟨psi1, big, big', sys, hcc, h1, hsys, hp⟩, hr⟩ := (refRixs_value hA hin hlen hpsis hx).1 a ha b hb d hd
  obtain ⟨psi2, g, h2, hrow, hr1, -⟩ := rixsPoint_rows hp
  have hap : a < psis.length := lt_of_lt_of_le ha hlen
  have hpsi : IsState A.n psis[a] := hpsis _ (List.getElem_mem _)
  have hop : OpInSystem A.n tOpsIn[b] := hin _ (List.getElem_mem _)
  rw [List.getD_eq_getElem _ _ hap] at h1 ⊢
  have hex : Excited A.n A.slaterWeightMin A.restrictions psi1 := by
    obtain ⟨p, c, hp, -, hex⟩ := applyOp_cached_excited hop hpsi hA.weight A.restrictions hcc
    rw [h1] at hp
    cases hp
    exact hex
  have hampl := cached_excitation hA hop hlarge hpsi hcc h1
  rw [← hampl]
  obtain ⟨y, L, a1, a2, a4, a5, a3⟩ := rixsPoint_moments hA hdict hh hd1 hsolve ho0 hex hsys h2 hrow
  refine ⟨y, L, a1, a2, a4, a5, fun c hc => ?_⟩
  have hcg : (List.replicate (op0 :: rest).length g).getD c (List.replicate A.wLoss.length 0) = g := by
    rw [List.getD_eq_getElem _ _ (by simpa using hc), List.getElem_replicate]
  rw [(hr c).1, hr1, hcg, a3]

end

section
variable {S : SimulateArgs} (hS : S.Valid) (hout : S.OutLarge) {N : ℕ} (hN : 0 < N)
  {ord : Fin N → ℕ → ℕ → ℕ → SetOrders} (hord : ∀ k c t i, (ord k c t i).Valid)
  {ordRixs : Fin N → List ℕ → SetOrders} (hordR : ∀ k l, (ordRixs k l).Valid) {out : Fin N → Option Simulated}
  (hfin : CanFinish msgSum (fun k : Fin N => simulateSpectra S (ord k) (ordRixs k) k.val N) out)
  {s : Simulated} (hs : out ⟨0, hN⟩ = some s)
  (hdict : Dict.NodupKeys S.hOp) (hh : isHermitianOp S.hOp)
  {l1 l2 b1 b2 : ℕ} (hsys : S.nBaths = [(l1, b1), (l2, b2)])

include hS hout hord hordR hfin hs hdict hh hsys in
/-- C107, `simulate_spectra`.  For every eigenstate, incoming polarisation and incoming energy, the stored RIXS is
`-Im ∑ weight/(w + i deltaRIXS + e - energy)` with weights that are not negative and at most add up to the squared length of `U x`,
where `x` is the intermediate state after the absorption and `U` the emission of light of the first outgoing polarisation.  If none of
the amplitudes of `U x` are dropped, it has the first `2 krylovSize` moments of the exact spectrum of `U x`. -/
theorem C107_rixs (hsolve : ExactSolver S.solve) (i a d : ℕ) (hi : i < S.es.length)
    (ha : a < S.epsilonsRIXSin.length) (h0 : 0 < S.epsilonsRIXSout.length) (hd : d < S.wIn.length)
    (T : Vec ℂ → Vec ℂ) (hT : T = between (position (intKeys S.nBaths)) l2 l1 (fun m m' =>
      dipole S.gaunt S.epsilonsRIXSin[a].x S.epsilonsRIXSin[a].y S.epsilonsRIXSin[a].z l2 m l1 m'))
    (U : Vec ℂ → Vec ℂ) (hU : U = between (position (intKeys S.nBaths)) l1 l2 (fun m' m =>
      star (dipole S.gaunt S.epsilonsRIXSout[0].x S.epsilonsRIXSout[0].y S.epsilonsRIXSout[0].z l2 m l1 m')))
    (hsmall : NoSmall (size S) T S.slaterWeightMin S.restrictions) :
    ∃ x L, IsIntermediate S T i S.wIn[d] x ∧ (NoneDropped (size S) S.slaterWeightMin (exciteVec S U x) →
        IsGauss (size S) (hamilton S) (exciteVec S U x) S.krylovSize L) ∧
      (∀ p ∈ L, 0 ≤ p.2) ∧ totalWeight L ≤ Spec.normSq (size S) (exciteVec S U x) ∧
      ∀ c < S.epsilonsRIXSout.length, ∀ k (hk : k < S.wLoss.length), s.rixs.data i a c d k
        = -(lehmann L ((S.wLoss[k] : ℂ) + Complex.I * S.deltaRIXS + (S.es.getD i 0 : ℂ))).im := by
  obtain ⟨st⟩ := simulate_steps' hS hout hN hord hordR hfin hs
  have hne : l1 ≠ l2 := by
    have := hS.nBaths
    rw [hsys] at this
    simpa [Dict.NodupKeys, Dict.keys] using this
  have he := st.rin_eq
  have he' := st.rout_eq
  have hn : nSpinOrbitals S.nBaths = size S := nSpinOrbitals_eq _
  have hin : ∀ op ∈ st.rin, OpInSystem (nSpinOrbitals S.nBaths) op := by
    rw [hn]; exact dipoles_okIn S.gaunt hS.good _ _ st.rin_eq
  have hrout : ∀ op ∈ st.rout, OpInSystem (nSpinOrbitals S.nBaths) op := by
    rw [hn]; exact daggered_okIn S.gaunt hS.good _ _ st.rout_eq
  have hiK : intKeys S.nBaths = [(.int l1, b1), (.int l2, b2)] := by rw [hsys]; rfl
  rw [hiK] at he he' hT hU
  obtain ⟨hl, ho⟩ := dipoles_spec S.gaunt hne he
  obtain ⟨hl', ho'⟩ := daggered_spec S.gaunt hne he'
  have hx := st.gRixs_eq
  have hfiles := (rixsFiles_spec st.rixsFiles).1
  have h00 := ho' 0 h0
  have hc' : 0 < st.rout.length := hl' ▸ h0
  obtain ⟨op0, rest, hro⟩ : ∃ op0 rest, st.rout = op0 :: rest := by
    cases h : st.rout with
    | nil => rw [h] at hc'; simp at hc'
    | cons op0 rest => exact ⟨op0, rest, rfl⟩
  have hop0 : st.rout[0]'hc' = op0 := by simp [hro]
  rw [hop0] at h00
  rw [hro] at hx hrout
  have hTe : operator (opSpec (st.rin[a]'(hl ▸ ha))) = T := (ho a ha).trans hT.symm
  have hT0 : exciteVec S U = Spec.transition (size S) op0 S.slaterWeightMin S.restrictions := by
    refine (excited_congr (fun v F hF => ?_) _ _ : _ = excited (size S) (operator (opSpec op0)) _ _)
    rw [hU]
    refine (h00 v F ?_).symm
    unfold size at hF
    rwa [hiK] at hF
  unfold IsIntermediate
  rw [hT0]
  subst hTe
  have key := refRixs_moments (A := S.rixs) hS.rixs hin hS.enough hS.states hdict hh hS.delta hsolve
    (hrout op0 (by simp)) hx i a d hi (hl ▸ ha) hd (by
      intro F hF F' hF' hal
      have hF : F ⊆ range (nSpinOrbitals S.nBaths) := hF
      have hF' : F' ⊆ range (nSpinOrbitals S.nBaths) := hF'
      rw [hn] at hF hF'
      exact hsmall F' hF' F hF hal)
  have key : ∃ y L, Solves (nSpinOrbitals S.nBaths) (hamiltonian (nSpinOrbitals S.nBaths) S.hOp S.cut S.restrictions)
        ((S.wIn[d] : ℂ) + Complex.I * (S.delta : ℂ) + (S.es.getD i 0 : ℂ))
        (excitation (nSpinOrbitals S.nBaths) (st.rin[a]'(hl ▸ ha)) S.slaterWeightMin S.restrictions (S.psis.getD i [])) y ∧
      (NoneDropped (nSpinOrbitals S.nBaths) S.slaterWeightMin
          (Spec.transition (nSpinOrbitals S.nBaths) op0 S.slaterWeightMin S.restrictions y) →
        IsGauss (nSpinOrbitals S.nBaths) (hamiltonian (nSpinOrbitals S.nBaths) S.hOp S.cut S.restrictions)
          (Spec.transition (nSpinOrbitals S.nBaths) op0 S.slaterWeightMin S.restrictions y) S.krylovSize L) ∧
      (∀ p ∈ L, 0 ≤ p.2) ∧ totalWeight L ≤ Spec.normSq (nSpinOrbitals S.nBaths)
          (Spec.transition (nSpinOrbitals S.nBaths) op0 S.slaterWeightMin S.restrictions y) ∧
      ∀ c < (op0 :: rest).length, st.gRixs.root i a c d
        = S.wLoss.map fun (v : ℝ) => lehmann L ((v : ℂ) + Complex.I * (S.deltaRIXS : ℂ) + (S.es.getD i 0 : ℂ)) := key
  rw [hn] at key
  obtain ⟨y, L, k1, k2, k4, k5, k3⟩ := key
  refine ⟨y, L, k1, k2, k4, k5, fun c hc k hk => ?_⟩
  have hc2 : c < (op0 :: rest).length := by rw [← hro, hl']; exact hc
  rw [hfiles i a c d k, k3 c hc2, List.getD_eq_getElem _ _ (by simpa using hk)]
  simp only [List.getElem_map]

end

/-! ### Resonances -/

/-- C107, resonances.  The intermediate state is at most `1/√(D² + delta²)` times as long as the state after the absorption, where `D`
is the distance of the incoming energy to the range of the expectation values of the Hamiltonian in the intermediate state. -/
theorem C107_resonance {n : ℕ} {op : Op ℕ ℂ} (hop : OpInSystem n op) (hdict : Dict.NodupKeys op) (hh : isHermitianOp op) {cut : ℝ}
    (r : Option Restrictions) {z : ℂ} (hz : z.im ≠ 0) {v x : Vec ℂ} (hv : ∀ F, ¬ (F ⊆ range n ∧ AllowedOpt r F) → v F = 0)
    (hx : Solves n (hamiltonian n op cut r) z v x) {lo hi D : ℝ}
    (hb : lo * Spec.normSq n x ≤ (innerProduct n x (hamiltonian n op cut r x)).re ∧
      (innerProduct n x (hamiltonian n op cut r x)).re ≤ hi * Spec.normSq n x) (hD : Outside lo hi z.re D) :
    (D ^ 2 + z.im ^ 2) * Spec.normSq n x ≤ Spec.normSq n v := by
  have hz0 : z ≠ 0 := by rintro rfl; simp at hz
  have hxa := solves_allowed r hz0 hv hx
  have hreal := hamiltonian_real (cut := cut) hop hdict hh r hxa
  set q := innerProduct n x (hamiltonian n op cut r x) with hq
  set N := Spec.normSq n x with hNdef
  have hN0 : 0 ≤ N := normSq_nonneg _ _
  have h1 : innerProduct n x v = z * innerProduct n x x - q := by
    rw [hq]
    unfold innerProduct
    rw [Finset.mul_sum, ← sum_sub_distrib]
    refine sum_congr rfl fun S hS => ?_
    rw [← hx.inside S (mem_powerset.1 hS)]
    ring
  rw [innerProduct_self, ← hNdef] at h1
  have hre : (innerProduct n x v).re = z.re * N - q.re := by
    rw [h1, Complex.sub_re, Complex.re_mul_ofReal]
  have him : (innerProduct n x v).im = z.im * N := by
    rw [h1, Complex.sub_im, Complex.im_mul_ofReal, hreal, sub_zero]
  have hle : (z.re * N - q.re) ^ 2 + (z.im * N) ^ 2 ≤ N * Spec.normSq n v := by
    have h2 := innerProduct_le n x v
    have h3 : ‖innerProduct n x v‖ ^ 2 ≤ (len n x * len n v) ^ 2 := pow_le_pow_left₀ (norm_nonneg _) h2 2
    rw [mul_pow, len_sq, len_sq, ← Complex.normSq_eq_norm_sq, Complex.normSq_apply, hre, him] at h3
    nlinarith [h3]
  have hge : D ^ 2 * N ^ 2 ≤ (z.re * N - q.re) ^ 2 := by
    obtain ⟨hD0, h | h | h⟩ := hD
    · rw [h]; nlinarith [sq_nonneg (z.re * N - q.re)]
    · have h4 : (z.re + D) * N ≤ lo * N := mul_le_mul_of_nonneg_right h hN0
      have h5 : D * N ≤ q.re - z.re * N := by linarith [hb.1]
      have h6 : 0 ≤ D * N := mul_nonneg hD0 hN0
      nlinarith
    · have h4 : (hi + D) * N ≤ z.re * N := mul_le_mul_of_nonneg_right h hN0
      have h5 : D * N ≤ z.re * N - q.re := by linarith [hb.2]
      have h6 : 0 ≤ D * N := mul_nonneg hD0 hN0
      nlinarith
  rcases hN0.eq_or_lt with h | h
  · rw [← h, mul_zero]; exact normSq_nonneg _ _
  · refine le_of_mul_le_mul_left ?_ h
    calc N * ((D ^ 2 + z.im ^ 2) * N) = D ^ 2 * N ^ 2 + (z.im * N) ^ 2 := by ring
      _ ≤ (z.re * N - q.re) ^ 2 + (z.im * N) ^ 2 := by linarith
      _ ≤ _ := hle

/-! ### main -/

section
variable {b : ℕ → ℕ} {P : BasisParams} {h0 : Op Label ℂ} {O : Finset ℕ} {m p d : ℤ} (hC : ConservedNumber b P h0 O m p d)
  {L : MainLib} {A : MainArgs} {hx hy hz : ℝ} {energies : List ℝ} {psis : List (Psi ℂ)} {S : SimulateArgs}
  (hrun : MainRun L A b P hx hy hz h0 energies psis S)

include hC hrun in
/-- The intermediate state has the same conserved number as the state after the absorption. -/
theorem intermediate_sector {z : ℂ} (hz : z.im ≠ 0) {k : ℤ} {v x : Vec ℂ} (hv : v ∈ sectorStates S O k)
    (hx : Solves (size S) (hamilton S) z v x) : x ∈ sectorStates S O k := by
  have hsz : size S = nTotal (pdSystem b) := by unfold size; rw [hrun.system]; rfl
  have hz0 : z ≠ 0 := by rintro rfl; simp at hz
  have hva : ∀ F, ¬ (F ⊆ range (size S) ∧ AllowedOpt S.restrictions F) → v F = 0 := by
    intro F hF
    by_contra h
    exact hF (hv.1 F h)
  have hxa := solves_allowed _ hz0 hva hx
  have hpart : Solves (size S) (hamilton S) z v (sectorPart O k x) := by
    refine ⟨fun F hF => ?_, fun F hF => ?_⟩
    · have e : hamilton S (sectorPart O k x) F = if ((F ∩ O).card : ℤ) = k then hamilton S x F else 0 := by
        unfold hamilton hamiltonian
        rw [if_pos hF, if_pos hF]
        have : ∀ T, column S.hOp S.cut S.restrictions T F * sectorPart O k x T
            = if ((F ∩ O).card : ℤ) = k then column S.hOp S.cut S.restrictions T F * x T else 0 := by
          intro T
          by_cases h1 : column S.hOp S.cut S.restrictions T F = 0
          · rw [h1]; simp
          · have h2 : matrixElement S.hOp F T ≠ 0 := by
              intro h
              unfold column at h1
              rw [h] at h1
              simp at h1
            have h3 := levels_sector hC.levelShift hrun h2
            unfold sectorPart
            rw [h3]
            split
            · rfl
            · rw [mul_zero]
        rw [sum_congr rfl fun T _ => this T]
        split
        · rfl
        · exact sum_const_zero
      rw [e]
      have h4 := hx.inside F hF
      unfold sectorPart
      split
      · exact h4
      · rename_i hne
        rw [mul_zero, sub_zero]
        by_contra h5
        exact hne (hv.2 F fun h6 => h5 h6.symm)
    · unfold sectorPart
      rw [hx.outside F hF, ite_self]
  have hu := solves_unique (by rw [hsz]; exact hrun.inside) hrun.dict.1 hrun.dict.2 S.restrictions hz hx hpart
  refine ⟨fun F hF => ?_, fun F hF => ?_⟩
  · by_contra h
    exact hF (hxa F h)
  · rw [← hu] at hF
    unfold sectorPart at hF
    by_contra h
    rw [if_neg h] at hF
    exact hF rfl

end

section
variable {L : MainLib} {A : MainArgs} (hA : A.Valid) (hG : GauntLarge L.gaunt A.ls) {N : ℕ} (hN : 0 < N)
  {ord : Fin N → ℕ → ℕ → ℕ → SetOrders} (hord : ∀ k c t i, (ord k c t i).Valid)
  {ordRixs : Fin N → List ℕ → SetOrders} (hordR : ∀ k l, (ordRixs k l).Valid) {out : Fin N → Option MainOutput}
  (hfin : CanFinish msgSum (fun k : Fin N => mainRank L A (ord k) (ordRixs k) k.val N) out)
  {o : MainOutput} (ho : out ⟨0, hN⟩ = some o)
  (hL : SolverCorrect L.solver) {b : ℕ → ℕ} {P : BasisParams} {hx hy hz : ℝ} {h0 : Op Label ℂ}
  (hD : Documented A b P hx hy hz h0)

omit hfin ho in
include hG hN hord hordR hD in
theorem rixs_run (hsolve : ExactSolver L.solve) (hδ : 0 < A.delta) (hδ' : 0 < A.deltaRIXS) {energies : List ℝ}
    {psis : List (Psi ℂ)} {S : SimulateArgs} (hrun : MainRun L A b P hx hy hz h0 energies psis S) (hS : S.Valid) (hout : S.OutLarge)
    (hfin1 : CanFinish msgSum (fun k : Fin N => simulateSpectra S (ord k) (ordRixs k) k.val N)
      (fun k => if k.val = 0 then some o.spectra else none)) :
      ∀ i a j (_ : i < S.es.length) (ha : a < S.epsilonsRIXSin.length) (hj : j < S.wIn.length) (T U : Vec ℂ → Vec ℂ),
      T = dipolePD S.gaunt b S.epsilonsRIXSin[a] → U = dipoleDP S.gaunt b ⟨1, 0, 0⟩ →
      ∃ x G, IsIntermediate S T i S.wIn[j] x ∧ (∀ y, IsIntermediate S T i S.wIn[j] y → y = x) ∧
        (NoneDropped (size S) S.slaterWeightMin (exciteVec S U x) → IsGauss (size S) (hamilton S) (exciteVec S U x) 150 G) ∧
        (∀ p ∈ G, 0 ≤ p.2) ∧ totalWeight G ≤ Spec.normSq (size S) (exciteVec S U x) ∧
        (∀ c < 3, ∀ k (hk : k < S.wLoss.length), o.spectra.rixs.data i a c j k
          = -(lehmann G ((S.wLoss[k] : ℂ) + Complex.I * A.deltaRIXS + (S.es.getD i 0 : ℂ))).im) ∧
        (NoneDropped (size S) S.slaterWeightMin (exciteVec S U x) →
          ∫ w : ℝ, -(lehmann G ((w : ℂ) + Complex.I * A.deltaRIXS + (S.es.getD i 0 : ℂ))).im
            = Real.pi * Spec.normSq (size S) (exciteVec S U x)) ∧
        A.delta ^ 2 * Spec.normSq (size S) x ≤ Spec.normSq (size S) (excite S T i) ∧
        ∀ O m p d, ConservedNumber b P h0 O m p d → ∀ lo hi : ℤ → ℝ, (∀ k, EnergiesBetween S O k (lo k) (hi k)) →
          (∀ D, Outside (lo (m + (d - p))) (hi (m + (d - p))) (S.wIn[j] + S.es.getD i 0) D →
            (D ^ 2 + A.delta ^ 2) * Spec.normSq (size S) x ≤ Spec.normSq (size S) (excite S T i)) ∧
          (NoneDropped (size S) S.slaterWeightMin (exciteVec S U x) →
            ∀ c < 3, ∀ k (hk : k < S.wLoss.length) (D : ℝ), Outside (lo m) (hi m) (S.wLoss[k] + S.es.getD i 0) D →
            0 ≤ o.spectra.rixs.data i a c j k ∧
            o.spectra.rixs.data i a c j k ≤ Spec.normSq (size S) (exciteVec S U x) * lorentzian A.deltaRIXS D) := by
  intro i a j hi ha hj T U hT hU
  obtain ⟨hdict, hh⟩ := hrun.dict
  have hK : intKeys S.nBaths = pdSystem b := by rw [hrun.system]; rfl
  have hsz : size S = nTotal (pdSystem b) := by unfold size; rw [hK]
  have hop : OpInSystem (size S) S.hOp := by rw [hsz]; exact hrun.inside
  have hc3 : S.epsilonsRIXSout.length = 3 := by rw [hrun.args.epsilonsRIXS.2]; rfl
  have hc0 : 0 < S.epsilonsRIXSout.length := by omega
  have h00 : S.epsilonsRIXSout[0] = ⟨1, 0, 0⟩ := by
    simp only [hrun.args.epsilonsRIXS.2, List.getElem_cons_zero]
  have hsm : NoSmall (size S) T S.slaterWeightMin S.restrictions := by
    rw [hT, hrun.args.cutoffs.2.1, hrun.args.library.1]
    exact dipole_noSmall hG hD.ls b (by rw [← hrun.args.epsilonsRIXS.1]; exact List.getElem_mem _) _ _
  obtain ⟨x, G, h1, h2, hpos, htot, h3⟩ := C107_rixs hS hout hN hord hordR hfin1 rfl hdict hh hrun.system
    (by rw [hrun.args.library.2.2.2.1]; exact hsolve) i a j hi ha hc0 hj T (by rw [hT, hK]; rfl) U (by rw [hU, hK, h00]; rfl) hsm
  rw [hrun.args.cutoffs.1] at h2
  rw [hc3] at h3
  have hdR := hrun.args.deltaRIXS
  have hd := hrun.args.delta
  rw [hdR] at h3
  have hz' : ((S.wIn[j] : ℂ) + Complex.I * S.delta + (S.es.getD i 0 : ℂ)).im = A.delta := by rw [← hd]; simp
  have hzr : ((S.wIn[j] : ℂ) + Complex.I * S.delta + (S.es.getD i 0 : ℂ)).re = S.wIn[j] + S.es.getD i 0 := by simp
  have hzn : ((S.wIn[j] : ℂ) + Complex.I * S.delta + (S.es.getD i 0 : ℂ)).im ≠ 0 := by rw [hz']; exact hδ.ne'
  have hva : ∀ F, ¬ (F ⊆ range (size S) ∧ AllowedOpt S.restrictions F) → excite S T i F = 0 := by
    intro F hF
    unfold excite exciteVec excited
    rw [if_neg fun hc => hF ⟨hc.1, hc.2.1⟩]
  refine ⟨x, G, h1, fun y hy => solves_unique hop hdict hh S.restrictions hzn h1 hy, h2, hpos, htot, h3, fun hn => ?_, ?_, ?_⟩
  · rw [(integral_lehmann G hδ' _).2, gauss_weight (by norm_num) (h2 hn)]
  · have := solves_len hop hdict hh S.restrictions hzn hva h1
    rw [hz', abs_of_pos hδ, le_div_iff₀ hδ] at this
    have h4 := pow_le_pow_left₀ (mul_nonneg (len_nonneg _ _) hδ.le) this 2
    rw [mul_pow, len_sq, len_sq] at h4
    linarith
  · intro O m p d hC lo hi' hb
    have hTc : Carries O (d - p) T := by rw [hT]; exact between_carries hC.valence hC.core _
    have hUc : Carries O (p - d) U := by rw [hU]; exact between_carries hC.core hC.valence _
    have hxs := intermediate_sector hC hrun hzn (excite_sector hC hrun hTc hi) h1
    refine ⟨fun D hDo => ?_, fun hn c hc k hk D hDo => ?_⟩
    · have := C107_resonance hop hdict hh S.restrictions hzn hva h1 (hb _ x hxs.1 hxs.2) (by rw [hzr]; exact hDo)
      rw [hz'] at this
      exact this
    · have hus : exciteVec S U x ∈ sectorStates S O m := by
        refine ⟨fun F hF => ?_, ?_⟩
        · unfold exciteVec excited at hF
          split at hF
          · rename_i h; exact ⟨h.1, h.2.1⟩
          · exact absurd rfl hF
        · have := exciteVec_carries (S := S) hUc _ _ hxs.2
          rwa [show m + (d - p) + (p - d) = m by ring] at this
      have key : ∀ v : Vec ℂ, v ∈ sectorStates S O m → ∀ F, ¬ (F ⊆ range (size S) ∧ AllowedOpt S.restrictions F) → v F = 0 := by
        intro v hv F hF
        by_contra h
        exact hF (hv.1 F h)
      have hen := C106_energies (hamiltonian_linear _ _ _ _) (sectorStates S O m) (fun u hu => sector_stays hC hrun hu)
        (fun u hu w hw => hamiltonian_symmetric hdict hop hh _ _ (key w hw) (key u hu)) (fun u hu => hb m u hu.1 hu.2) hus (h2 hn)
      have t2 := lehmann_outside hδ' hen hDo
      rw [gauss_weight (by norm_num) (h2 hn)] at t2
      rw [h3 c hc k hk]
      have e : (S.wLoss[k] : ℂ) + Complex.I * (A.deltaRIXS : ℂ) + (S.es.getD i 0 : ℂ)
          = ((S.wLoss[k] + S.es.getD i 0 : ℝ) : ℂ) + Complex.I * (A.deltaRIXS : ℂ) := by push_cast; ring
      rw [e]
      exact t2

include hA hG hord hordR hfin ho hL hD in
/-- C107, `main`.  For every eigenstate, incoming polarisation and incoming energy, the map of a finished run is that of the only
intermediate state `x`: a sum of Lorentzians with the first 300 moments of the state after the emission of light along x, the same for
the three outgoing polarisations.  Its area is π times the squared length of that state.  The intermediate state is long only at
resonances: incoming energies close to energies of states with one electron moved from p to d.  The map is not negative, and has
intensity only at energy losses close to energies of states with the numbers of electrons of the eigenstate. -/
theorem C107_main (hsolve : ExactSolver L.solve) (hδ : 0 < A.delta) (hδ' : 0 < A.deltaRIXS) :
    ∃ psis S, MainRun L A b P hx hy hz h0 o.energies psis S ∧
      ∀ i a j (_ : i < S.es.length) (ha : a < S.epsilonsRIXSin.length) (hj : j < S.wIn.length) (T U : Vec ℂ → Vec ℂ),
      T = dipolePD S.gaunt b S.epsilonsRIXSin[a] → U = dipoleDP S.gaunt b ⟨1, 0, 0⟩ → EmissionKept S T U i S.wIn[j] →
      ∃ x G, IsIntermediate S T i S.wIn[j] x ∧ (∀ y, IsIntermediate S T i S.wIn[j] y → y = x) ∧
        IsGauss (size S) (hamilton S) (exciteVec S U x) 150 G ∧
        (∀ c < 3, ∀ k (hk : k < S.wLoss.length), o.spectra.rixs.data i a c j k
          = -(lehmann G ((S.wLoss[k] : ℂ) + Complex.I * A.deltaRIXS + (S.es.getD i 0 : ℂ))).im) ∧
        ∫ w : ℝ, -(lehmann G ((w : ℂ) + Complex.I * A.deltaRIXS + (S.es.getD i 0 : ℂ))).im
          = Real.pi * Spec.normSq (size S) (exciteVec S U x) ∧
        A.delta ^ 2 * Spec.normSq (size S) x ≤ Spec.normSq (size S) (excite S T i) ∧
        ∀ O m p d, ConservedNumber b P h0 O m p d → ∀ lo hi : ℤ → ℝ, (∀ k, EnergiesBetween S O k (lo k) (hi k)) →
          (∀ D, Outside (lo (m + (d - p))) (hi (m + (d - p))) (S.wIn[j] + S.es.getD i 0) D →
            (D ^ 2 + A.delta ^ 2) * Spec.normSq (size S) x ≤ Spec.normSq (size S) (excite S T i)) ∧
          ∀ c < 3, ∀ k (hk : k < S.wLoss.length) (D : ℝ), Outside (lo m) (hi m) (S.wLoss[k] + S.es.getD i 0) D →
            0 ≤ o.spectra.rixs.data i a c j k ∧
            o.spectra.rixs.data i a c j k ≤ Spec.normSq (size S) (exciteVec S U x) * lorentzian A.deltaRIXS D := by
  obtain ⟨psis, S, hrun, hS, hout, hall⟩ := C65_run hA hG hN hord hordR hfin ho hL hD
  refine ⟨psis, S, hrun, fun i a j hi ha hj T U hT hU hkeep => ?_⟩
  obtain ⟨x, G, g1, g2, g3, -, -, g4, g5, g6, g7⟩ := rixs_run hG hN hord hordR hD hsolve hδ hδ' hrun hS hout
    (hall N hN ord hord ordRixs hordR).canFinish i a j hi ha hj T U hT hU
  have hn := hkeep x g1
  refine ⟨x, G, g1, g2, g3 hn, g4, g5 hn, g6, fun O m p d hC lo hi' hb => ?_⟩
  obtain ⟨r1, r2⟩ := g7 O m p d hC lo hi' hb
  exact ⟨r1, r2 hn⟩

end

/-! ### Non-vacuity -/

/-- The hypotheses of `C107_rixs` are met: any number of ranks. -/
example {gaunt : GauntFun} (hG : GauntRules gaunt) (sphHarm : SphHarm) (jn : SphericalJn) (N : ℕ) (hN : 0 < N) :
    ∃ c : ℝ, 0 < c ∧ ∃ s : Simulated,
      CanFinish msgSum (fun k : Fin N => simulateSpectra (exSim gaunt sphHarm jn c) (fun _ _ _ => holeOrders) (fun _ => holeOrders)
        k.val N) (fun k => if k.val = 0 then some s else none) ∧
      ∃ x G, IsIntermediate (exSim gaunt sphHarm jn c) (exDip gaunt) 0 7 x ∧
        IsGauss (size (exSim gaunt sphHarm jn c)) (hamilton (exSim gaunt sphHarm jn c)) (exciteVec (exSim gaunt sphHarm jn c) (exDip' gaunt) x)
          (exSim gaunt sphHarm jn c).krylovSize G ∧ ∀ k (hk : k < (exSim gaunt sphHarm jn c).wLoss.length), s.rixs.data 0 0 0 0 k
          = -(lehmann G (((exSim gaunt sphHarm jn c).wLoss[k] : ℂ) + Complex.I * (exSim gaunt sphHarm jn c).deltaRIXS
            + ((exSim gaunt sphHarm jn c).es.getD 0 0 : ℂ))).im := by
  obtain ⟨c, hc⟩ := exists_exCut gaunt sphHarm jn
  obtain ⟨s, hs⟩ := exSim_ok hc hG
  have hfin : CanFinish msgSum (fun k : Fin N => simulateSpectra (exSim gaunt sphHarm jn c) (fun _ _ _ => holeOrders) (fun _ => holeOrders)
      k.val N) (fun k => if k.val = 0 then some s else none) := by
    have := simulate_settles hN (exSim_valid gaunt sphHarm jn c hc.pos) (exSim_outLarge hc) (fun _ _ _ _ => holeOrders)
      (fun _ _ _ _ => holeOrders_valid) (fun _ _ => holeOrders) (fun _ _ => holeOrders_valid)
    rw [hs] at this
    obtain ⟨out, rfl, hrun⟩ := this
    exact hrun.allRanksFinish.canFinish
  have hsolve : ExactSolver (exSim gaunt sphHarm jn c).solve := by
    intro d a y ha
    show a *ᵥ (a⁻¹ *ᵥ y) = y
    rw [Matrix.mulVec_mulVec, Matrix.mul_nonsing_inv a ((Matrix.isUnit_iff_isUnit_det a).1 ha), Matrix.one_mulVec]
  have hkeep : EmissionKept (exSim gaunt sphHarm jn c) (exDip gaunt) (exDip' gaunt) 0 7 := by
    intro x hx
    unfold IsIntermediate at hx
    rw [show ((((7 : ℝ) : ℂ)) + Complex.I * ((exSim gaunt sphHarm jn c).delta : ℂ) + ((exSim gaunt sphHarm jn c).es.getD 0 0 : ℂ))
      = 7 + Complex.I by
        rw [show (exSim gaunt sphHarm jn c).delta = 1 from rfl, show (exSim gaunt sphHarm jn c).es.getD 0 0 = 0 from rfl]
        push_cast; ring] at hx
    rw [exSim_size] at hx ⊢
    exact (exSim_rixs hc hx).1
  obtain ⟨x, G, h1, h2, -, -, h3⟩ := C107_rixs (S := exSim gaunt sphHarm jn c) (exSim_valid gaunt sphHarm jn c hc.pos) (exSim_outLarge hc) hN
    (fun _ _ _ _ => holeOrders_valid) (fun _ _ => holeOrders_valid) hfin rfl (nodup_castOp countAll_nodup)
    (hermitian_castOp countAll_hermitian) rfl hsolve 0 0 0 one_pos one_pos one_pos one_pos _ rfl _ rfl
    (by rw [exSim_size]; exact hc.dip)
  exact ⟨c, hc.pos, s, hfin, x, G, h1, h2 (hkeep x h1), fun k hk => h3 0 one_pos k hk⟩

/-- The hypotheses of `C107_main` are met: three ranks, any temperature.  All energies are between 0 and 16. -/
example (sphHarm : SphHarm) (jn : SphericalJn) (T : ℝ) (hT : 0 < T) (radial : List (ℝ × ℝ)) :
    ∃ (L : MainLib) (o : MainOutput) (psis : _) (S : _),
      MainRun L (holeArgs 0 T radial) (fun _ => 0) holeParams 0 0 0 (holeLevels 0) o.energies psis S ∧ 0 < S.es.length ∧
      ∀ i a j (_ : i < S.es.length) (ha : a < S.epsilonsRIXSin.length) (hj : j < S.wIn.length) (T U : Vec ℂ → Vec ℂ),
      T = dipolePD S.gaunt (fun _ => 0) S.epsilonsRIXSin[a] → U = dipoleDP S.gaunt (fun _ => 0) ⟨1, 0, 0⟩ →
      EmissionKept S T U i S.wIn[j] → ∃ x, IsIntermediate S T i S.wIn[j] x ∧
        ∀ c < 3, ∀ k (hk : k < S.wLoss.length) (D : ℝ), 0 ≤ D → 16 + D ≤ S.wLoss[k] + S.es.getD i 0 →
          0 ≤ o.spectra.rixs.data i a c j k ∧
          o.spectra.rixs.data i a c j k ≤ Spec.normSq (size S) (exciteVec S U x) * lorentzian (1 / 20) D := by
  obtain ⟨solver, hS, htot⟩ := exists_solver
  obtain ⟨o, ho⟩ := C64_example hS htot sphHarm jn one_pos hT radial
  have h1 := (ho 3 (by decide) (fun _ _ _ _ => holeOrders) (fun _ _ _ _ => holeOrders_valid) (fun _ _ => holeOrders)
    (fun _ _ => holeOrders_valid)).canFinish
  have hsolve : ExactSolver (holeLib solver sphHarm jn 1).solve := by
    intro d a y ha
    show a *ᵥ (a⁻¹ *ᵥ y) = y
    rw [Matrix.mulVec_mulVec, Matrix.mul_nonsing_inv a ((Matrix.isUnit_iff_isUnit_det a).1 ha), Matrix.one_mulVec]
  obtain ⟨psis, S, hrun, hsp⟩ := C107_main (holeArgs_valid 0 T radial) sympyGaunt_large (by decide)
    (fun _ _ _ _ => holeOrders_valid) (fun _ _ => holeOrders_valid) h1 rfl hS (holeArgs_documented 0 T radial)
    hsolve (by change (0 : ℝ) < 1 / 5; norm_num) (by change (0 : ℝ) < 1 / 20; norm_num)
  refine ⟨_, o, psis, S, hrun, List.length_pos_iff.2 hrun.nonempty.2, fun i a j hi ha hj T U hT hU hk => ?_⟩
  obtain ⟨x, G, g1, -, -, -, -, -, g2⟩ := hsp i a j hi ha hj T U hT hU hk
  refine ⟨x, g1, fun c hc k hk D hD hx => ?_⟩
  exact (g2 _ 6 1 0 hole_conserved (fun _ => 0) (fun _ => 16) (hole_energies hrun _)).2 c hc k hk D ⟨hD, Or.inr (Or.inr hx)⟩

end

end Verif
