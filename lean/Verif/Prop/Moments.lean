/-
C96: the moments of the spectra.
-/
import Verif.Lemmas.Moments
import Verif.Prop.MainConvergence
import Verif.Prop.Lehmann

namespace Verif

open Finset Mpi Psr Spec Matrix

noncomputable section

/-- C96, one Green's function.  If `getGreen` returns for a normalised state and a Hermitian Hamiltonian, the
result is for every mesh and broadening `∑ weight/(w + i delta + e - energy)` with at most `krylovSize` energies, weights that
are not negative and `∑ weight energy^m = ⟨psi|H^m|psi⟩` for all `m < 2 krylovSize`. -/
theorem C96_green {n : ℕ} {op : Op ℕ ℂ} (hop : OpInSystem n op) (hdict : Dict.NodupKeys op) (hh : isHermitianOp op) {cut : ℝ}
    (hcut : 0 < cut) (r : Option Restrictions) {psi : Psi ℂ} (hpsi : IsState n psi)
    (hall : ∀ S ⊆ range n, encBytes n S ∈ Dict.keys psi → AllowedOpt r S) (hnorm : norm2 psi = (1 : ℝ))
    (krylovSize fuel : ℕ) (hf : 2 ^ n + 2 ≤ fuel) (e₀ delta₀ : ℝ) (omega₀ : List ℝ) (hDict : OpResult ℂ)
    (hd : ColumnsExact n op cut r hDict) (x : List ℂ × OpResult ℂ)
    (h : getGreen n e₀ psi op omega₀ delta₀ krylovSize cut r hDict fuel = .ok x) :
    ∃ L : List (ℝ × ℝ), IsGauss n (hamiltonian n op cut r) (ampl n psi) krylovSize L ∧
      ∀ (e : ℝ) (omega : List ℝ) (delta : ℝ), delta ≠ 0 → getGreen n e psi op omega delta krylovSize cut r hDict fuel
        = .ok (omega.map fun (w : ℝ) => lehmann L ((w : ℂ) + Complex.I * (delta : ℂ) + (e : ℂ)), x.2) :=
  getGreen_moments hop hdict hh hcut r hpsi hall hnorm hf hd h

/-- C96, the moments determine the spectrum: two sums of at most `k` Lorentzians whose first `2 k` moments are those of the same
state and Hamiltonian agree at all energies. -/
theorem C96_unique {n : ℕ} {H : Vec ℂ → Vec ℂ} {v : Vec ℂ} {k : ℕ} {L L' : List (ℝ × ℝ)} (h : IsGauss n H v k L)
    (h' : IsGauss n H v k L') (z : ℂ) : lehmann L z = lehmann L' z :=
  lehmann_unique h.1 h'.1 (fun m hm => by exact_mod_cast (h.2.2 m hm).trans (h'.2.2 m hm).symm) z

/-! ### getSpectra -/

section
variable {A : SpectraArgs} (hA : A.Valid) (hdict : Dict.NodupKeys A.hOp) (hh : isHermitianOp A.hOp)
  {psis : List (Psi ℂ)} {es : List ℝ} (hlen : es.length ≤ psis.length)
  (hpsis : ∀ psi ∈ psis, IsState A.n psi) {tOps : List (Op ℕ ℂ)} (htOps : ∀ tOp ∈ tOps, OpInSystem A.n tOp)

include hA hdict hh hlen hpsis htOps in
/-- C96, `getSpectra` in mode `eigen_states`: the values that a rank holds for eigenstate `i` and transition operator `t` are
`∑ weight/(w + i delta + e_i - energy)` with the first `2 krylovSize` moments of the exact spectrum of `T psi_i`. -/
theorem C96_eigenStates {N : ℕ} (hN : 0 < N) (ord : Fin N → ℕ → ℕ → SetOrders) (out : Fin N → Spectra)
    (hout : CanFinish msgSum (fun k : Fin N => getSpectra A tOps psis es .eigenStates (ord k) k.val N) out)
    (k : Fin N) (i t : ℕ) (hi : i < es.length) (ht : t < tOps.length) :
    ∃ L : List (ℝ × ℝ), IsGauss A.n (hamiltonian A.n A.hOp A.cut A.restrictions)
        (excitation A.n tOps[t] A.slaterWeightMin A.restrictions psis[i]) A.krylovSize L ∧
      out k i t = A.w.map fun (x : ℝ) => lehmann L ((x : ℂ) + Complex.I * (A.delta : ℂ) + (es[i] : ℂ)) := by
  obtain ⟨hok, herr⟩ := eigen_dichotomy hN hA hlen hpsis htOps ord
  have hall : ∀ i tOp, ∃ g, i < es.length → tOp ∈ tOps →
      spectrumOf A (transitionState A tOp (psis.getD i [])) (es.getD i 0) = .ok g := by
    intro i tOp
    cases hg : spectrumOf A (transitionState A tOp (psis.getD i [])) (es.getD i 0) with
    | ok g => exact ⟨g, fun _ _ => rfl⟩
    | error err => exact ⟨[], fun a b => absurd hout (herr ⟨i, a, tOp, b, err, hg⟩ out)⟩
  choose f hf using hall
  have hru := hok f fun i hi tOp ht => hf i tOp hi ht
  have hu := AllRanksFinish.unique hru.allRanksFinish hout
  have hval : out k i t = f i tOps[t] := by
    rw [hu]
    unfold gathered
    beta_reduce
    rw [if_pos hi, List.getD_eq_getElem _ _ (by simpa using ht), List.getElem_map]
  have hi' : i < psis.length := by omega
  have h1 := hf i tOps[t] hi (List.getElem_mem ht)
  rw [List.getD_eq_getElem _ _ hi, List.getD_eq_getElem _ _ hi', ← hval] at h1
  have htin := htOps _ (List.getElem_mem ht)
  have hpin := hpsis _ (List.getElem_mem hi')
  rw [← ampl_transitionState htin hpin]
  obtain ⟨L, l1, l2⟩ := spectrumOf_moments hA hdict hh (applyOp_excited htin hpin hA.weight _) (w₀ := A.w) hA.delta h1
  exact ⟨L, l1, l2 A.w A.delta es[i] hA.delta _ h1⟩

include hA hdict hh hlen hpsis htOps in
theorem refHBuild_moments {x : RefSpectra} (h1 : refHBuild A tOps psis es = .ok x)
    (i t : ℕ) (hi : i < es.length) (ht : t < tOps.length)
    (hsmall : ∀ T ⊆ range A.n, NoSmallElements A.n tOps[t] A.slaterWeightMin A.restrictions T) :
    ∃ L : List (ℝ × ℝ), IsGauss A.n (hamiltonian A.n A.hOp A.cut A.restrictions)
        (excitation A.n tOps[t] A.slaterWeightMin A.restrictions (psis.getD i [])) A.krylovSize L ∧
      x.root i t = A.w.map fun (x : ℝ) => lehmann L ((x : ℂ) + Complex.I * (A.delta : ℂ) + (es.getD i 0 : ℂ)) := by
  have hs := (((refHBuild_spec hA hlen hpsis htOps).1 x h1).1 t i ht hi).1
  obtain ⟨h3, h4⟩ := hBuildStates_spec hA hlen hpsis htOps ht hi
  have hi' : i < psis.length := by omega
  have htin := htOps _ (List.getElem_mem ht)
  have hpin := hpsis _ (List.getElem_mem hi')
  have heq := h4 hsmall
  rw [List.getD_eq_getElem _ _ hi'] at heq ⊢
  rw [← spectrumOf_congr hA (isState_applyOpPure htin hpin _ _) h3 heq] at hs
  rw [← ampl_transitionState htin hpin]
  obtain ⟨L, l1, l2⟩ := spectrumOf_moments hA hdict hh (applyOp_excited htin hpin hA.weight _) (w₀ := A.w) hA.delta hs
  exact ⟨L, l1, l2 A.w A.delta _ hA.delta _ hs⟩

include hA hdict hh hlen hpsis htOps in
/-- C96, `getSpectra` in mode `H_build`: the same on rank 0, if no matrix element of the transition operator is
below `slaterWeightMin`. -/
theorem C96_hBuild {N : ℕ} (hN : 0 < N) (ord : Fin N → ℕ → ℕ → SetOrders) (hord : ∀ k t i, (ord k t i).Valid)
    (out : Fin N → Spectra)
    (hout : CanFinish msgSum (fun k : Fin N => getSpectra A tOps psis es .hBuild (ord k) k.val N) out)
    (i t : ℕ) (hi : i < es.length) (ht : t < tOps.length)
    (hsmall : ∀ T ⊆ range A.n, NoSmallElements A.n tOps[t] A.slaterWeightMin A.restrictions T) :
    ∃ L : List (ℝ × ℝ), IsGauss A.n (hamiltonian A.n A.hOp A.cut A.restrictions)
        (excitation A.n tOps[t] A.slaterWeightMin A.restrictions psis[i]) A.krylovSize L ∧
      out ⟨0, hN⟩ i t = A.w.map fun (x : ℝ) => lehmann L ((x : ℂ) + Complex.I * (A.delta : ℂ) + (es[i] : ℂ)) := by
  rcases hBuild_dichotomy hN hA hlen hpsis htOps ord hord with ⟨x, h1, h2⟩ | ⟨err, -, h2⟩
  swap
  · exact absurd hout (RunsToFailure.not_canFinish hN h2 out)
  have hu := AllRanksFinish.unique h2.allRanksFinish hout
  have hval : out ⟨0, hN⟩ i t = x.root i t := by rw [hu]; simp
  have hi' : i < psis.length := by omega
  have key := refHBuild_moments hA hdict hh hlen hpsis htOps h1 i t hi ht hsmall
  rw [List.getD_eq_getElem _ _ hi', List.getD_eq_getElem _ _ hi, ← hval] at key
  exact key

end

/-! ### simulate_spectra -/

section
variable {S : SimulateArgs} (hS : S.Valid) (hdict : Dict.NodupKeys S.hOp) (hh : isHermitianOp S.hOp)

include hS hdict hh in
theorem response_moments {w : List ℝ} {delta : ℝ} (hd : delta ≠ 0) {tOps : List (Op ℕ ℂ)}
    (htOps : ∀ tOp ∈ tOps, OpInSystem (nTotal (intKeys S.nBaths)) tOp) {x : RefSpectra}
    (hx : refHBuild (S.spectra w delta) tOps S.psis S.es = .ok x) {i t : ℕ} (hi : i < S.es.length)
    (ht : t < tOps.length) {T : Vec ℂ → Vec ℂ} (hT : operator (opSpec tOps[t]) = T)
    (hsmall : NoSmall (size S) T S.slaterWeightMin S.restrictions) :
    ∃ L : List (ℝ × ℝ), IsGauss (size S) (hamilton S) (excite S T i) S.krylovSize L ∧
      x.root i t = w.map fun (x : ℝ) => lehmann L ((x : ℂ) + Complex.I * (delta : ℂ) + (S.es.getD i 0 : ℂ)) := by
  subst hT
  have hn : nSpinOrbitals S.nBaths = size S := nSpinOrbitals_eq _
  have key := refHBuild_moments (A := S.spectra w delta) (hS.spectra w hd) hdict hh hS.enough hS.states (tOps := tOps)
    (by intro tOp h; show OpInSystem (nSpinOrbitals S.nBaths) tOp; rw [hn]; exact htOps tOp h) hx i t hi ht
    (by
      intro T hT S' hS' ha
      have hT : T ⊆ range (nSpinOrbitals S.nBaths) := hT
      have hS' : S' ⊆ range (nSpinOrbitals S.nBaths) := hS'
      rw [hn] at hT hS'
      exact hsmall S' hS' T hT ha)
  have key : ∃ L : List (ℝ × ℝ), IsGauss (nSpinOrbitals S.nBaths) (hamiltonian (nSpinOrbitals S.nBaths) S.hOp S.cut S.restrictions)
      (excitation (nSpinOrbitals S.nBaths) tOps[t] S.slaterWeightMin S.restrictions (S.psis.getD i [])) S.krylovSize L ∧
      x.root i t = w.map fun (x : ℝ) => lehmann L ((x : ℂ) + Complex.I * (delta : ℂ) + (S.es.getD i 0 : ℂ)) := key
  rw [hn] at key
  exact key

end

section
variable {S : SimulateArgs} (hS : S.Valid) (hout : S.OutLarge) {N : ℕ} (hN : 0 < N)
  {ord : Fin N → ℕ → ℕ → ℕ → SetOrders} (hord : ∀ k c t i, (ord k c t i).Valid)
  {ordRixs : Fin N → List ℕ → SetOrders} (hordR : ∀ k l, (ordRixs k l).Valid) {out : Fin N → Option Simulated}
  (hfin : CanFinish msgSum (fun k : Fin N => simulateSpectra S (ord k) (ordRixs k) k.val N) out)
  {s : Simulated} (hs : out ⟨0, hN⟩ = some s)
  (hdict : Dict.NodupKeys S.hOp) (hh : isHermitianOp S.hOp)

include hS hout hord hordR hfin hs hdict hh in
/-- C96, photoemission and inverse photoemission in `simulate_spectra`. -/
theorem C96_photoemission (hw : S.slaterWeightMin ≤ 1) (i j : ℕ) (hi : i < S.es.length) (hj : j < 10)
    (x : ℕ) (hx : x = impStart (intKeys S.nBaths) 2 + j) :
    ∃ add rem, IsGauss (size S) (hamilton S) (excite S (create x) i) S.krylovSize add ∧
      IsGauss (size S) (hamilton S) (excite S (annihilate x) i) S.krylovSize rem ∧ ∀ k (hk : k < S.w.length),
      s.ps.data i j k = -(lehmann add ((S.w[k] : ℂ) + Complex.I * S.delta + (S.es.getD i 0 : ℂ))).im
        + (lehmann rem (-((S.w[k] : ℂ) + Complex.I * S.delta) + (S.es.getD i 0 : ℂ))).im := by
  subst hx
  obtain ⟨st⟩ := simulate_steps' hS hout hN hord hordR hfin hs
  have p1 := inversePhoto_spec hS.good st.ips_eq
  have p2 := photo_spec hS.good st.ps_eq
  have j1 : j < st.ips.length := by rw [p1]; simpa using hj
  have j2 : j < st.ps.length := by rw [p2]; simpa using hj
  have o1 : st.ips[j] = [([(impStart (intKeys S.nBaths) 2 + j, .c)], 1)] := by simp [p1]
  have o2 : st.ps[j] = [([(impStart (intKeys S.nBaths) 2 + j, .a)], 1)] := by simp [p2]
  have t1 : operator (opSpec st.ips[j]) = create (impStart (intKeys S.nBaths) 2 + j) := by
    rw [o1]; funext v; exact operator_photo _ .c v
  have t2 : operator (opSpec st.ps[j]) = annihilate (impStart (intKeys S.nBaths) 2 + j) := by
    rw [o2]; funext v; exact operator_photo _ .a v
  obtain ⟨L1, a1, r1⟩ := response_moments hS hdict hh hS.delta (inversePhoto_okIn hS.good 2 _ st.ips_eq) st.gIps_eq hi j1 t1
    (by rw [← t1, o1]; exact noSmall_photo _ _ .c hw _)
  obtain ⟨L2, a2, r2⟩ := response_moments hS hdict hh (neg_ne_zero.2 hS.delta) (photo_okIn hS.good 2 _ st.ps_eq) st.gPs_eq hi j2
    t2 (by rw [← t2, o2]; exact noSmall_photo _ _ .a hw _)
  refine ⟨L1, L2, a1, a2, fun k hk => ?_⟩
  generalize S.es.getD i 0 = e at r1 r2 ⊢
  rw [(spectrumFiles_spec st.psFiles).1, add_getD, negate_getD, r1, r2,
    List.getD_eq_getElem _ _ (by simpa using hk), List.getD_eq_getElem _ _ (by simpa using hk)]
  · simp only [List.getElem_map, Complex.add_im, Complex.neg_im]
    have : (((-S.w[k] : ℝ) : ℂ) + Complex.I * ((-S.delta : ℝ) : ℂ) + (e : ℂ))
        = -((S.w[k] : ℂ) + Complex.I * (S.delta : ℂ)) + (e : ℂ) := by push_cast; ring
    rw [this]
    ring
  · unfold Spectra.negate
    rw [List.length_map, r1, r2]
    simp

include hS hout hord hordR hfin hs hdict hh in
/-- C96, XPS in `simulate_spectra`. -/
theorem C96_xps (hw : S.slaterWeightMin ≤ 1) (i j : ℕ) (hi : i < S.es.length) (hj : j < 6)
    (x : ℕ) (hx : x = impStart (intKeys S.nBaths) 1 + j) :
    ∃ rem, IsGauss (size S) (hamilton S) (excite S (annihilate x) i) S.krylovSize rem ∧ ∀ k (hk : k < S.w.length),
      s.xps.data i j k = (lehmann rem (-((S.w[k] : ℂ) + Complex.I * S.delta) + (S.es.getD i 0 : ℂ))).im := by
  subst hx
  obtain ⟨st⟩ := simulate_steps' hS hout hN hord hordR hfin hs
  have p2 := photo_spec hS.good st.xps_eq
  have j2 : j < st.xps.length := by rw [p2]; simpa using hj
  have o2 : st.xps[j] = [([(impStart (intKeys S.nBaths) 1 + j, .a)], 1)] := by simp [p2]
  have t2 : operator (opSpec st.xps[j]) = annihilate (impStart (intKeys S.nBaths) 1 + j) := by
    rw [o2]; funext v; exact operator_photo _ .a v
  obtain ⟨L2, a2, r2⟩ := response_moments hS hdict hh (neg_ne_zero.2 hS.delta) (photo_okIn hS.good 1 _ st.xps_eq) st.gXps_eq hi j2
    t2 (by rw [← t2, o2]; exact noSmall_photo _ _ .a hw _)
  refine ⟨L2, a2, fun k hk => ?_⟩
  rw [(spectrumFiles_spec st.xpsFiles).1, negate_getD, Complex.neg_im, neg_neg, r2, List.getD_eq_getElem _ _ (by simpa using hk)]
  simp only [List.getElem_map]
  congr 2
  push_cast
  ring

variable {l1 l2 b1 b2 : ℕ} (hsys : S.nBaths = [(l1, b1), (l2, b2)])

include hS hout hord hordR hfin hs hdict hh hsys in
/-- C96, XAS in `simulate_spectra`. -/
theorem C96_xas (i t : ℕ) (hi : i < S.es.length) (ht : t < S.epsilons.length)
    (T : Vec ℂ → Vec ℂ) (hT : T = between (position (intKeys S.nBaths)) l2 l1
      (fun m m' => dipole S.gaunt S.epsilons[t].x S.epsilons[t].y S.epsilons[t].z l2 m l1 m'))
    (hsmall : NoSmall (size S) T S.slaterWeightMin S.restrictions) :
    ∃ L, IsGauss (size S) (hamilton S) (excite S T i) S.krylovSize L ∧ ∀ k (hk : k < S.w.length),
      s.xas.data i t k = -(lehmann L ((S.w[k] : ℂ) + Complex.I * S.delta + (S.es.getD i 0 : ℂ))).im := by
  obtain ⟨st⟩ := simulate_steps' hS hout hN hord hordR hfin hs
  have hne : l1 ≠ l2 := by
    have := hS.nBaths
    rw [hsys] at this
    simpa [Dict.NodupKeys, Dict.keys] using this
  have he := st.xas_eq
  have hiK : intKeys S.nBaths = [(.int l1, b1), (.int l2, b2)] := by rw [hsys]; rfl
  rw [hiK] at he hT
  obtain ⟨hl, ho⟩ := dipoles_spec S.gaunt hne he
  obtain ⟨L, a, r⟩ := response_moments hS hdict hh hS.delta (dipoles_okIn S.gaunt hS.good _ _ st.xas_eq) st.gXas_eq hi (hl ▸ ht)
    ((ho t ht).trans hT.symm) hsmall
  refine ⟨L, a, fun k hk => ?_⟩
  rw [(spectrumFiles_spec st.xasFiles).1 i t k, r, List.getD_eq_getElem _ _ (by simpa using hk)]
  simp only [List.getElem_map]

include hS hout hord hordR hfin hs hdict hh in
/-- C96, NIXS in `simulate_spectra`. -/
theorem C96_nixs (hG : GauntRules S.gaunt) (hli : S.liNIXS ∈ Dict.keys S.nBaths) (hlj : S.ljNIXS ∈ Dict.keys S.nBaths)
    (h1 : S.RiNIXS.length = S.radialMesh.length) (h2 : S.RjNIXS.length = S.radialMesh.length)
    (i t : ℕ) (hi : i < S.es.length) (ht : t < S.qsNIXS.length)
    (qn θ φ : ℝ) (hq : 0 < qn) (hθ : 0 < θ) (hθ' : θ < Real.pi) (hφ : |φ| ≤ Real.pi)
    (hx : S.qsNIXS[t].x = qn * (Real.sin θ * Real.cos φ)) (hy : S.qsNIXS[t].y = qn * (Real.sin θ * Real.sin φ))
    (hz : S.qsNIXS[t].z = qn * Real.cos θ)
    (T : Vec ℂ → Vec ℂ) (hT : T = fun v F => ((Real.sqrt (4 * Real.pi) : ℝ) : ℂ)⁻¹ *
      between (position (intKeys S.nBaths)) S.liNIXS S.ljNIXS (fun mi mj =>
        planeWave S.gaunt S.sphHarm (radialIntegral S.jn S.RiNIXS S.RjNIXS S.radialMesh qn) θ |φ| S.kmin
          (S.liNIXS + S.ljNIXS) S.liNIXS mi S.ljNIXS mj) v F)
    (hsmall : NoSmall (size S) T S.slaterWeightMin S.restrictions) :
    ∃ L, IsGauss (size S) (hamilton S) (excite S T i) S.krylovSize L ∧ ∀ k (hk : k < S.wLoss.length),
      s.nixs.data i t k = -(lehmann L ((S.wLoss[k] : ℂ) + Complex.I * S.deltaNIXS + (S.es.getD i 0 : ℂ))).im := by
  obtain ⟨st⟩ := simulate_steps' hS hout hN hord hordR hfin hs
  have hcol := collect_get st.nixs_eq
  have ht' : t < st.nixs.length := hcol.length_eq ▸ ht
  have heq := (List.forall₂_iff_get.1 hcol).2 t ht ht'
  simp only [List.get_eq_getElem] at heq
  obtain ⟨tOp, e, -, -, -, hm⟩ := C46_operator S.gaunt hG S.sphHarm S.jn (intKeys S.nBaths) hS.good S.liNIXS S.ljNIXS
    (by rw [allAngulars_intKeys]; exact hli) (by rw [allAngulars_intKeys]; exact hlj)
    S.RiNIXS S.RjNIXS S.radialMesh h1 h2 S.kmin _ le_rfl _ qn θ φ hq hθ hθ' hφ hx hy hz
  rw [e] at heq
  have heq := Except.ok.inj heq
  obtain ⟨L, a, r⟩ := response_moments hS hdict hh hS.deltaNIXS (nixss_okIn _ _ _ hS.good _ _ _ _ _ _ _ _ st.nixs_eq) st.gNixs_eq hi
    ht' (T := T) (by
      rw [← heq, hT]
      funext v F
      rw [← hm v F, inv_mul_cancel_left₀]
      rw [Ne, Complex.ofReal_eq_zero]
      exact Real.sqrt_ne_zero'.2 (by positivity)) hsmall
  refine ⟨L, a, fun k hk => ?_⟩
  rw [(spectrumFiles_spec st.nixsFiles).1 i t k, r, List.getD_eq_getElem _ _ (by simpa using hk)]
  simp only [List.getElem_map]

end

/-! ### main -/

section
variable {L : MainLib} {A : MainArgs} (hA : A.Valid) (hG : GauntLarge L.gaunt A.ls) {N : ℕ} (hN : 0 < N)
  {ord : Fin N → ℕ → ℕ → ℕ → SetOrders} (hord : ∀ k c t i, (ord k c t i).Valid)
  {ordRixs : Fin N → List ℕ → SetOrders} (hordR : ∀ k l, (ordRixs k l).Valid) {out : Fin N → Option MainOutput}
  (hfin : CanFinish msgSum (fun k : Fin N => mainRank L A (ord k) (ordRixs k) k.val N) out)
  {o : MainOutput} (ho : out ⟨0, hN⟩ = some o)
variable (hL : SolverCorrect L.solver) {b : ℕ → ℕ} {P : BasisParams} {hx hy hz : ℝ} {h0 : Op Label ℂ}
  (hD : Documented A b P hx hy hz h0)

omit hfin in
include hG hN hord hordR hD in
theorem mainRun_moments (hR : GauntRules L.gaunt) {energies : List ℝ} {psis : List (Psi ℂ)}
    {S : SimulateArgs} (hrun : MainPrepared L A b P hx hy hz h0 energies psis S) (hS : S.Valid) (hout : S.OutLarge) {s : Simulated}
    (hfin : CanFinish msgSum (fun k : Fin N => simulateSpectra S (ord k) (ordRixs k) k.val N)
      (fun k => if k.val = 0 then some s else none)) : PDMoments b S s := by
  have hs : (fun k : Fin N => if k.val = 0 then some s else none) ⟨0, hN⟩ = some s := rfl
  obtain ⟨hdict, hh⟩ := hrun.dict
  have hK : intKeys S.nBaths = pdSystem b := by rw [hrun.system]; rfl
  obtain ⟨hkry, hwt, hcut⟩ := hrun.args.cutoffs
  obtain ⟨g1, g2, g3, g4, g5, g6⟩ := hrun.args.library
  have hw1 : S.slaterWeightMin ≤ 1 := by rw [hwt]; norm_num
  have hqs : S.qsNIXS.length = 2 := hrun.args.qs.1
  have hns : ∀ v ∈ ([⟨1, 0, 0⟩, ⟨0, 1, 0⟩, ⟨0, 0, 1⟩] : List (Vec3 ℂ)),
      NoSmall (size S) (dipolePD S.gaunt b v) S.slaterWeightMin S.restrictions := by
    intro v hv
    rw [hwt, g1]
    exact dipole_noSmall hG hD.ls b hv _ _
  refine ⟨?_, ?_, ?_, ?_⟩
  · intro i j hi hj x hx
    rw [← hK] at hx
    rw [← hkry]
    exact C96_photoemission hS hout hN hord hordR hfin hs hdict hh hw1 i j hi hj x hx
  · intro i j hi hj x hx
    rw [← hK] at hx
    rw [← hkry]
    exact C96_xps hS hout hN hord hordR hfin hs hdict hh hw1 i j hi hj x hx
  · intro i t hi ht
    rw [← hkry]
    refine C96_xas hS hout hN hord hordR hfin hs hdict hh hrun.system i t hi ht _ ?_ (hns _ ?_)
    · rw [hK]; rfl
    · rw [← hrun.args.epsilons]
      exact List.getElem_mem _
  · intro i t hi ht q hq hsm
    rw [← hkry]
    have ht' : t < S.qsNIXS.length := by rw [hqs]; exact ht
    obtain ⟨c, hc, hqc⟩ := hrun.args.qs.2 t ht'
    obtain ⟨a1, a2, a3, a4, a5⟩ := diagonal_angles q
    have hcq : c = q / Real.sqrt 3 := by rw [hc, hq]
    have hq0 : 0 < q := by rw [hq]; split <;> norm_num
    obtain ⟨r1, r2, r3⟩ := hrun.args.radial
    obtain ⟨s1, s2⟩ := hrun.args.shells
    refine C96_nixs hS hout hN hord hordR hfin hs hdict hh (by rw [g1]; exact hR)
      (by rw [s1, hrun.system]; simp [Dict.keys]) (by rw [s2, hrun.system]; simp [Dict.keys])
      (by rw [r1, r2]; simp) (by rw [r1, r3]; simp) i t hi ht' q _ (Real.pi / 4) hq0 a4 a5
      (by rw [abs_of_pos (by positivity)]; linarith [Real.pi_pos]) (by rw [hqc, a1, hcq]) (by rw [hqc, a2, hcq])
      (by rw [hqc, a3, hcq]) _ ?_ hsm
    unfold planeWaveDD
    rw [hK, s1, s2, hrun.args.kmin, abs_of_pos (by positivity : (0 : ℝ) < Real.pi / 4)]

include hA hG hord hordR hfin ho hL hD in
/-- C96, main.  Whatever main stores for photoemission, XPS, XAS and NIXS is a sum of at most 150 Lorentzians; their first 300
moments are those of the exact spectrum. -/
theorem C96_main (hR : GauntRules L.gaunt) :
    ∃ psis S, MainRun L A b P hx hy hz h0 o.energies psis S ∧ PDMoments b S o.spectra := by
  obtain ⟨psis, S, hrun, hS, hout, hall⟩ := C65_run hA hG hN hord hordR hfin ho hL hD
  exact ⟨psis, S, hrun, mainRun_moments hG hN hord hordR hD hR hrun.toMainPrepared hS hout
    (hall N hN ord hord ordRixs hordR).canFinish⟩

end

/-! ### Non-vacuity -/

/-- The hypotheses of `C96_green` are met with one Lanczos vector for two product states. -/
example (omega : List ℝ) : ∃ (L : List (ℝ × ℝ)) (hDict' : OpResult ℂ),
    IsGauss 2 (hamiltonian 2 (castOp exTwo) (1 / 2) none) (ampl 2 exTwoPsi) 1 L ∧
    getGreen 2 0 exTwoPsi (castOp exTwo) omega 1 1 (1 / 2) none [] 10
      = .ok (omega.map fun (w : ℝ) => lehmann L ((w : ℂ) + Complex.I * ((1 : ℝ) : ℂ) + ((0 : ℝ) : ℂ)), hDict') := by
  obtain ⟨g, h', hg, -⟩ := C82_example omega
  obtain ⟨L, h1, h2⟩ := C96_green exTwo_inSystem exTwo_nodup exTwo_hermitian (cut := 1 / 2) (by norm_num) none exTwoPsi_state
    (fun _ _ _ => trivial) exTwoPsi_norm 1 10 (by norm_num) 0 1 omega [] (columnsExact_nil _ _ _ _) _ hg
  exact ⟨L, h', h1, h2 0 omega 1 one_ne_zero⟩

/-- The hypotheses of `C96_main` are met: three ranks, any temperature. -/
example (sphHarm : SphHarm) (jn : SphericalJn) (T : ℝ) (hT : 0 < T) (radial : List (ℝ × ℝ)) :
    ∃ (L : MainLib) (o : MainOutput) (psis : _) (S : _),
      MainRun L (holeArgs 0 T radial) (fun _ => 0) holeParams 0 0 0 (holeLevels 0) o.energies psis S ∧
      PDMoments (fun _ => 0) S o.spectra := by
  obtain ⟨solver, hS, htot⟩ := exists_solver
  obtain ⟨o, ho⟩ := C64_example hS htot sphHarm jn one_pos hT radial
  have h1 := (ho 3 (by decide) (fun _ _ _ _ => holeOrders) (fun _ _ _ _ => holeOrders_valid) (fun _ _ => holeOrders)
    (fun _ _ => holeOrders_valid)).canFinish
  obtain ⟨psis, S, hrun, hsp⟩ := C96_main (holeArgs_valid 0 T radial) sympyGaunt_large (by decide)
    (fun _ _ _ _ => holeOrders_valid) (fun _ _ => holeOrders_valid) h1 rfl hS (holeArgs_documented 0 T radial)
    sympyGaunt_rules
  exact ⟨_, o, psis, S, hrun, hsp⟩

end

end Verif
