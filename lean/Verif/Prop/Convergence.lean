/-
C82: how far spectra are from the exact ones when the Krylov space is not exhausted.
-/
import Verif.Spec.Convergence
import Verif.Lemmas.KrylovError
import Verif.Lemmas.EnergyBound
import Verif.Prop.Spectra
import Verif.Prop.Simulate

namespace Verif

open Finset Mpi Psr Spec Matrix

noncomputable section

theorem lanczosError_nonneg {w : ℝ} (hw : 0 < w) (delta : ℝ) (K : ℕ) : 0 ≤ lanczosError w delta K := by
  unfold lanczosError
  have h1 : 0 ≤ Real.arsinh (|delta| / w) := Real.arsinh_nonneg_iff.2 (by positivity)
  have h2 : 0 ≤ Real.sinh (2 * K * Real.arsinh (|delta| / w)) := Real.sinh_nonneg_iff.2 (by positivity)
  positivity

/-- C82, the rate.  The error decreases exponentially with the number of Lanczos vectors: by the factor
`(|delta|/w + √(1 + (delta/w)²))²` for each vector. -/
theorem C82_rate {w delta : ℝ} (hw : 0 < w) (hdelta : delta ≠ 0) : ∃ C, ∀ K : ℕ, 0 < K →
    lanczosError w delta K ≤ C / ((|delta| / w + Real.sqrt (1 + (|delta| / w) ^ 2)) ^ 2) ^ K := by
  set t := Real.arsinh (|delta| / w) with ht
  have hd : 0 < |delta| := abs_pos.2 hdelta
  have htpos : 0 < t := Real.arsinh_pos_iff.2 (by positivity)
  have hexp : Real.exp (-(4 * t)) < 1 := by
    rw [← Real.exp_zero, Real.exp_lt_exp]
    linarith
  refine ⟨4 / (|delta| * (1 - Real.exp (-(4 * t)))), fun K hK => ?_⟩
  have hrho : ((|delta| / w + Real.sqrt (1 + (|delta| / w) ^ 2)) ^ 2) ^ K = Real.exp (2 * K * t) := by
    rw [← Real.exp_arsinh, ← ht, ← pow_mul, ← Real.exp_nat_mul]
    push_cast
    ring_nf
  rw [hrho]
  unfold lanczosError
  rw [← ht, Real.sinh_eq]
  have hK1 : (1 : ℝ) ≤ K := by exact_mod_cast hK
  have hfac : Real.exp (-(2 * K * t)) = Real.exp (2 * K * t) * Real.exp (-(4 * K * t)) := by
    rw [← Real.exp_add]
    ring_nf
  have hle : Real.exp (-(4 * K * t)) ≤ Real.exp (-(4 * t)) := by
    rw [Real.exp_le_exp]
    nlinarith
  have hE := Real.exp_pos (2 * K * t)
  have hlow : Real.exp (2 * K * t) * (1 - Real.exp (-(4 * t))) / 2
      ≤ (Real.exp (2 * K * t) - Real.exp (-(2 * K * t))) / 2 := by
    rw [hfac]
    nlinarith
  have h1 : 0 < 1 - Real.exp (-(4 * t)) := by linarith
  calc 2 / (|delta| * ((Real.exp (2 * K * t) - Real.exp (-(2 * K * t))) / 2))
      ≤ 2 / (|delta| * (Real.exp (2 * K * t) * (1 - Real.exp (-(4 * t))) / 2)) := by
        refine div_le_div_of_nonneg_left (by norm_num) (by positivity) ?_
        exact mul_le_mul_of_nonneg_left hlow hd.le
    _ = 4 / (|delta| * (1 - Real.exp (-(4 * t)))) / Real.exp (2 * K * t) := by
        field_simp
        ring

theorem hamiltonian_single (n : ℕ) (op : Op ℕ ℂ) (cut : ℝ) (r : Option Restrictions) {T S : Finset ℕ}
    (hT : T ⊆ range n) (hS : S ⊆ range n) : hamiltonian n op cut r (single T 1) S = column op cut r T S := by
  unfold hamiltonian
  rw [if_pos hS, Finset.sum_eq_single T]
  · unfold Spec.single
    rw [if_pos rfl, mul_one]
  · intro T' _ hne
    unfold Spec.single
    rw [if_neg (by tauto), mul_zero]
  · intro h
    exact absurd (mem_powerset.2 hT) h

section
variable {n : ℕ} {op : Op ℕ ℂ} (hop : OpInSystem n op) (hdict : Dict.NodupKeys op) (hh : isHermitianOp op) {cut : ℝ}
  (hcut : 0 < cut) (r : Option Restrictions) {psi : Psi ℂ} (hpsi : IsState n psi)
  (hall : ∀ S ⊆ range n, encBytes n S ∈ Dict.keys psi → AllowedOpt r S) (hnorm : norm2 psi = (1 : ℝ))

include hop hdict hh hcut hpsi hall hnorm in
/-- C82, one Green's function.  If the product states of a normalised state belong to a set `X` that the Hermitian Hamiltonian
does not lead out of, and all energies in `X` are within `w` of some `c`, then `getGreen` with any `krylovSize` is for
every energy of the mesh within
`2/(|delta| sinh(2 krylovSize arsinh(|delta|/w)))` of the exact Green's function. -/
theorem C82_green (X : Set (Finset ℕ)) (hX : ∀ S ⊆ range n, encBytes n S ∈ Dict.keys psi → S ∈ X)
    (hXc : ∀ T ∈ X, T ⊆ range n → ∀ S ⊆ range n, hamiltonian n op cut r (single T 1) S ≠ 0 → S ∈ X)
    (c w : ℝ) (hw : 0 < w) (hband : EnergiesWithin n (hamiltonian n op cut r) X c w) (krylovSize : ℕ)
    (fuel : ℕ) (hf : 2 ^ n + 2 ≤ fuel) (e : ℝ) (omega : List ℝ) (delta : ℝ) (hdelta : delta ≠ 0)
    (hDict : OpResult ℂ) (hd : ColumnsExact n op cut r hDict) (g : List ℂ) (hDict' : OpResult ℂ)
    (hg : getGreen n e psi op omega delta krylovSize cut r hDict fuel = .ok (g, hDict')) :
    List.Forall₂ (fun (ω : ℝ) x => ∃ g₀, IsGreen n (hamiltonian n op cut r)
      ((ω : ℂ) + Complex.I * (delta : ℂ) + (e : ℂ)) (ampl n psi) g₀ ∧ ‖x - g₀‖ ≤ lanczosError w delta krylovSize) omega g := by
  obtain ⟨states, d, hlen, M, v, hnd, hsm, hherm, hvn, -, hgr, -, hs, hv, hM, hser⟩ :=
    getGreen_matrix_full hop hdict hh hcut r hpsi (norm_one_ne_nil hnorm) hall hnorm hf krylovSize
  have hsub : {S | S ∈ states} ⊆ {S | S ∈ X ∧ S ⊆ range n} := hsm.smallest _ (fun S hS => ⟨hX S hS.1 hS.2, hS.1⟩) (by
    intro T hT S hS hc
    refine ⟨hXc T hT.1 hT.2 S hS ?_, hS⟩
    rw [hamiltonian_single n op cut r hT.2 hS]
    unfold column
    rw [if_pos ⟨hc.1, hc.2⟩]
    intro h0
    have := hc.2
    rw [h0, Amp.abs2_zero] at this
    linarith)
  have hin : ∀ a b : Fin d → ℂ, innerProduct n (spread states hlen a) (spread states hlen b) = star a ⬝ᵥ b := by
    intro a b
    unfold innerProduct
    rw [← sum_over_states hnd hs hlen (fun S => star (spread states hlen a S) * spread states hlen b S)
      (fun S _ hS => by rw [spread_zero hlen b hS, mul_zero])]
    simp only [dotProduct]
    exact sum_congr rfl fun i _ => by rw [spread_get hnd hlen, spread_get hnd hlen]; rfl
  have hbandM : ∀ u : Fin d → ℂ, star u ⬝ᵥ u = 1 → |(star u ⬝ᵥ (M *ᵥ u)).re - c| ≤ w := by
    intro u hu
    have := hband (spread states hlen u) (fun S hS => spread_zero hlen u fun h => hS (hsub h)) (by rw [hin, hu])
    rwa [hM, hin] at this
  obtain ⟨h', -, hx⟩ := hser hDict hd
  rw [hx] at hg
  cases hkr : tridiagonalKrylov M v (min krylovSize d) with
  | error err => rw [hkr] at hg; cases hg
  | ok ab =>
    obtain ⟨al, be⟩ := ab
    rw [hkr] at hg
    simp only [ok_bind] at hg
    have him : ∀ ω : ℝ, ((ω : ℂ) + Complex.I * (delta : ℂ) + (e : ℂ)).im = delta := by
      intro ω; simp
    have hcf : ∀ ω : ℝ, ∃ y, continuedFraction al be (min krylovSize d) ((ω : ℂ) + Complex.I * (delta : ℂ) + (e : ℂ)) = .ok y ∧
        ‖y - Spec.resolvent M v ((ω : ℂ) + Complex.I * (delta : ℂ) + (e : ℂ))‖ ≤ lanczosError w delta krylovSize := by
      intro ω
      have hz : ((ω : ℂ) + Complex.I * (delta : ℂ) + (e : ℂ)).im ≠ 0 := by rw [him]; exact hdelta
      have hm : min (min krylovSize d) d = min krylovSize d := by omega
      by_cases hKd : d ≤ krylovSize
      · have h1 := C41_exact M hherm v hvn (min krylovSize d) al be hkr (Or.inl (by omega)) _ hz
        rw [hm] at h1
        refine ⟨_, h1, ?_⟩
        rw [sub_self, norm_zero]
        exact lanczosError_nonneg hw _ _
      · have hmin : min krylovSize d = krylovSize := by omega
        obtain ⟨y, h1, h2⟩ := krylov_error hherm hvn hkr hw hbandM hz
        rw [hm] at h1
        rw [hmin, him] at h2
        exact ⟨y, h1, h2⟩
    choose f hf1 hf2 using hcf
    have hmesh : greenOnMesh al be (min krylovSize d) omega delta e = .ok (omega.map f) := by
      unfold greenOnMesh
      exact mapM_ok _ _ _ fun ω _ => hf1 ω
    rw [hmesh] at hg
    cases hg
    rw [List.forall₂_map_right_iff]
    exact List.forall₂_same.2 fun ω _ => ⟨_, hgr _ (by rw [him]; exact hdelta), hf2 ω⟩

end

/-! ### getSpectra -/

theorem Excited.ampl_ne {n : ℕ} {cut : ℝ} (hcut : 0 < cut) {r : Option Restrictions} {psi : Psi ℂ} (hE : Excited n cut r psi)
    {S : Finset ℕ} (hS : S ⊆ range n) (hk : encBytes n S ∈ Dict.keys psi) : ampl n psi S ≠ 0 := by
  unfold ampl
  rw [if_pos hS]
  cases hg : Dict.get? psi (encBytes n S) with
  | none => exact absurd hk ((Dict.get?_eq_none_iff psi _).1 hg)
  | some x =>
    have hm := Dict.mem_of_get? hg
    have := hE.large _ hm
    intro h0
    simp only [Option.getD_some] at h0
    rw [h0, Amp.abs2_zero] at this
    linarith

theorem spectrumOf_error {A : SpectraArgs} (hA : A.Valid) (hdict : Dict.NodupKeys A.hOp) (hh : isHermitianOp A.hOp)
    {psiR : Psi ℂ} (hE : Excited A.n A.slaterWeightMin A.restrictions psiR) (e : ℝ) {X : Set (Finset ℕ)} {c w : ℝ}
    (hX : ClosedAround A.n (hamiltonian A.n A.hOp A.cut A.restrictions) (ampl A.n psiR) X) (hw : 0 < w)
    (hband : EnergiesWithin A.n (hamiltonian A.n A.hOp A.cut A.restrictions) X c w) {g : List ℂ}
    (hg : spectrumOf A psiR e = .ok g) :
    List.Forall₂ (fun (ω : ℝ) x => ∃ g₀, IsGreen A.n (hamiltonian A.n A.hOp A.cut A.restrictions)
      ((ω : ℂ) + Complex.I * (A.delta : ℂ) + (e : ℂ)) (ampl A.n psiR) g₀ ∧
      ‖x - g₀‖ ≤ Spec.normSq A.n (ampl A.n psiR) * lanczosError w A.delta A.krylovSize) A.w g := by
  have hn2 : Spec.normSq A.n (ampl A.n psiR) = norm2 psiR := (norm2_eq hE.state).symm
  by_cases hnil : psiR = []
  · have hex : ¬ LinearIndependent ℂ (fun i : Fin (A.krylovSize + 1) =>
        (hamiltonian A.n A.hOp A.cut A.restrictions)^[i.val] (ampl A.n psiR)) := by
      intro hli
      refine hli.ne_zero 0 ?_
      subst hnil
      show ampl A.n ([] : Psi ℂ) = 0
      funext S; unfold ampl; split <;> simp
    refine (spectrumOf_meaning hA hdict hh hE e hex hg).imp fun ω x hx => ⟨x, hx, ?_⟩
    rw [sub_self, norm_zero]
    refine mul_nonneg ?_ (lanczosError_nonneg hw _ _)
    rw [hn2, hnil]
    simp [norm2]
  · unfold spectrumOf at hg
    have hpos := hE.norm_pos hA.weight hnil
    have hs0 : ((Real.sqrt (norm2 psiR) : ℝ) : ℂ) ≠ 0 := by
      rw [Ne, Complex.ofReal_eq_zero]; exact Real.sqrt_ne_zero'.2 hpos
    have hu : ampl A.n (unit psiR) = fun S => ((Real.sqrt (norm2 psiR) : ℝ) : ℂ)⁻¹ * ampl A.n psiR S := by
      funext S; rw [ampl_unit]; ring
    cases hx : getGreen A.n e (unit psiR) A.hOp A.w A.delta A.krylovSize A.cut A.restrictions [] A.fuel with
    | error err => rw [hx] at hg; cases hg
    | ok x =>
      obtain ⟨g0, h'⟩ := x
      rw [hx] at hg
      simp only [ok_bind, pure_ok] at hg
      cases hg
      have := C82_green hA.hop hdict hh hA.cut A.restrictions (isState_unit hE.state)
        (fun S hS hk => hE.allowed S hS (by rwa [keys_unit] at hk)) (norm2_unit hpos) X
        (fun S hS hk => hX.contains S (hE.ampl_ne hA.weight hS (by rwa [keys_unit] at hk))) hX.closed c w hw hband
        A.krylovSize A.fuel hA.fuel e A.w A.delta hA.delta [] (columnsExact_nil ..) g0 h' hx
      unfold scaleSpectrum
      rw [List.forall₂_map_right_iff]
      refine this.imp fun ω x hgx => ?_
      obtain ⟨g₀, h1, h2⟩ := hgx
      rw [hu] at h1
      have hfin := isGreen_smul hs0 h1
      refine ⟨_, hfin, ?_⟩
      rw [Complex.normSq_ofReal, ← sq, hn2, Real.sq_sqrt hpos.le,
        ← mul_sub, norm_mul, Complex.norm_real, Real.norm_of_nonneg hpos.le]
      exact mul_le_mul_of_nonneg_left h2 hpos.le

section
variable {A : SpectraArgs} (hA : A.Valid) (hdict : Dict.NodupKeys A.hOp) (hh : isHermitianOp A.hOp)
  {psis : List (Psi ℂ)} {es : List ℝ} (hlen : es.length ≤ psis.length)
  (hpsis : ∀ psi ∈ psis, IsState A.n psi) {tOps : List (Op ℕ ℂ)} (htOps : ∀ tOp ∈ tOps, OpInSystem A.n tOp)

include hA hdict hh hlen hpsis htOps in
/-- C82, `getSpectra` in mode `eigen_states`.  In every execution that finishes, every value that a rank holds for eigenstate
`i` and transition operator `t` is within `⟨T psi|T psi⟩ 2/(|delta| sinh(2 krylovSize arsinh(|delta|/w)))` of the exact
response. -/
theorem C82_eigenStates {N : ℕ} (hN : 0 < N) (ord : Fin N → ℕ → ℕ → SetOrders) (out : Fin N → Spectra)
    (hout : CanFinish msgSum (fun k : Fin N => getSpectra A tOps psis es .eigenStates (ord k) k.val N) out)
    (k : Fin N) (i t : ℕ) (hi : i < es.length) (ht : t < tOps.length) (X : Set (Finset ℕ)) (c w : ℝ) (hw : 0 < w)
    (hX : ClosedAround A.n (hamiltonian A.n A.hOp A.cut A.restrictions)
      (excitation A.n tOps[t] A.slaterWeightMin A.restrictions psis[i]) X)
    (hband : EnergiesWithin A.n (hamiltonian A.n A.hOp A.cut A.restrictions) X c w) :
    List.Forall₂ (fun (ω : ℝ) x => ∃ g₀, IsGreen A.n (hamiltonian A.n A.hOp A.cut A.restrictions)
        ((ω : ℂ) + Complex.I * (A.delta : ℂ) + (es[i] : ℂ))
        (excitation A.n tOps[t] A.slaterWeightMin A.restrictions psis[i]) g₀ ∧
      ‖x - g₀‖ ≤ Spec.normSq A.n (excitation A.n tOps[t] A.slaterWeightMin A.restrictions psis[i])
        * lanczosError w A.delta A.krylovSize) A.w (out k i t) := by
  obtain ⟨hok, herr⟩ := eigen_dichotomy hN hA hlen hpsis htOps ord
  have hall : ∀ i tOp, ∃ g, i < es.length → tOp ∈ tOps →
      spectrumOf A (transitionState A tOp (psis.getD i [])) (es.getD i 0) = .ok g := by
    intro i tOp
    cases hg : spectrumOf A (transitionState A tOp (psis.getD i [])) (es.getD i 0) with
    | ok g => exact ⟨g, fun _ _ => rfl⟩
    | error err => exact ⟨[], fun a b => absurd hout (herr ⟨i, a, tOp, b, err, hg⟩ out)⟩
  choose f hf using hall
  have hru := hok f fun i hi tOp ht => hf i tOp hi ht
  have hu := AllRanksFinish.unique hru.allRanksFinish hout
  have hval : out k i t = f i tOps[t] := by
    rw [hu]
    unfold gathered
    beta_reduce
    rw [if_pos hi, List.getD_eq_getElem _ _ (by simpa using ht), List.getElem_map]
  have hi' : i < psis.length := by omega
  have h1 := hf i tOps[t] hi (List.getElem_mem ht)
  rw [List.getD_eq_getElem _ _ hi, List.getD_eq_getElem _ _ hi', ← hval] at h1
  have htin := htOps _ (List.getElem_mem ht)
  have hpin := hpsis _ (List.getElem_mem hi')
  rw [← ampl_transitionState htin hpin] at hX ⊢
  exact spectrumOf_error hA hdict hh (applyOp_excited htin hpin hA.weight _) es[i] hX hw hband h1

include hA hdict hh hlen hpsis htOps in
theorem refHBuild_error {x : RefSpectra} (h1 : refHBuild A tOps psis es = .ok x)
    (i t : ℕ) (hi : i < es.length) (ht : t < tOps.length)
    (hsmall : ∀ T ⊆ range A.n, NoSmallElements A.n tOps[t] A.slaterWeightMin A.restrictions T)
    {X : Set (Finset ℕ)} {c w : ℝ} (hw : 0 < w)
    (hX : ClosedAround A.n (hamiltonian A.n A.hOp A.cut A.restrictions)
      (excitation A.n tOps[t] A.slaterWeightMin A.restrictions (psis.getD i [])) X)
    (hband : EnergiesWithin A.n (hamiltonian A.n A.hOp A.cut A.restrictions) X c w) :
    List.Forall₂ (fun (ω : ℝ) x => ∃ g₀, IsGreen A.n (hamiltonian A.n A.hOp A.cut A.restrictions)
        ((ω : ℂ) + Complex.I * (A.delta : ℂ) + (es.getD i 0 : ℂ))
        (excitation A.n tOps[t] A.slaterWeightMin A.restrictions (psis.getD i [])) g₀ ∧
      ‖x - g₀‖ ≤ Spec.normSq A.n (excitation A.n tOps[t] A.slaterWeightMin A.restrictions (psis.getD i []))
        * lanczosError w A.delta A.krylovSize) A.w (x.root i t) := by
  have hs := (((refHBuild_spec hA hlen hpsis htOps).1 x h1).1 t i ht hi).1
  obtain ⟨h3, h4⟩ := hBuildStates_spec hA hlen hpsis htOps ht hi
  have hi' : i < psis.length := by omega
  have htin := htOps _ (List.getElem_mem ht)
  have hpin := hpsis _ (List.getElem_mem hi')
  have heq := h4 hsmall
  rw [List.getD_eq_getElem _ _ hi'] at heq hX ⊢
  rw [← spectrumOf_congr hA (isState_applyOpPure htin hpin _ _) h3 heq] at hs
  rw [← ampl_transitionState htin hpin] at hX ⊢
  exact spectrumOf_error hA hdict hh (applyOp_excited htin hpin hA.weight _) _ hX hw hband hs

include hA hdict hh hlen hpsis htOps in
/-- C82, `getSpectra` in mode `H_build`: the same on rank 0, if no matrix element of the transition
operator is below `slaterWeightMin`. -/
theorem C82_hBuild {N : ℕ} (hN : 0 < N) (ord : Fin N → ℕ → ℕ → SetOrders) (hord : ∀ k t i, (ord k t i).Valid)
    (out : Fin N → Spectra)
    (hout : CanFinish msgSum (fun k : Fin N => getSpectra A tOps psis es .hBuild (ord k) k.val N) out)
    (i t : ℕ) (hi : i < es.length) (ht : t < tOps.length)
    (hsmall : ∀ T ⊆ range A.n, NoSmallElements A.n tOps[t] A.slaterWeightMin A.restrictions T)
    (X : Set (Finset ℕ)) (c w : ℝ) (hw : 0 < w)
    (hX : ClosedAround A.n (hamiltonian A.n A.hOp A.cut A.restrictions)
      (excitation A.n tOps[t] A.slaterWeightMin A.restrictions psis[i]) X)
    (hband : EnergiesWithin A.n (hamiltonian A.n A.hOp A.cut A.restrictions) X c w) :
    List.Forall₂ (fun (ω : ℝ) x => ∃ g₀, IsGreen A.n (hamiltonian A.n A.hOp A.cut A.restrictions)
        ((ω : ℂ) + Complex.I * (A.delta : ℂ) + (es[i] : ℂ))
        (excitation A.n tOps[t] A.slaterWeightMin A.restrictions psis[i]) g₀ ∧
      ‖x - g₀‖ ≤ Spec.normSq A.n (excitation A.n tOps[t] A.slaterWeightMin A.restrictions psis[i])
        * lanczosError w A.delta A.krylovSize) A.w (out ⟨0, hN⟩ i t) := by
  rcases hBuild_dichotomy hN hA hlen hpsis htOps ord hord with ⟨x, h1, h2⟩ | ⟨err, -, h2⟩
  swap
  · exact absurd hout (RunsToFailure.not_canFinish hN h2 out)
  have hu := AllRanksFinish.unique h2.allRanksFinish hout
  have hval : out ⟨0, hN⟩ i t = x.root i t := by rw [hu]; simp
  have hi' : i < psis.length := by omega
  have key := refHBuild_error hA hdict hh hlen hpsis htOps h1 i t hi ht hsmall hw
    (by rw [List.getD_eq_getElem _ _ hi']; exact hX) hband
  rw [List.getD_eq_getElem _ _ hi', List.getD_eq_getElem _ _ hi, ← hval] at key
  exact key

end

/-! ### simulate_spectra -/

section
variable {S : SimulateArgs} (hS : S.Valid) (hdict : Dict.NodupKeys S.hOp) (hh : isHermitianOp S.hOp)

include hS hdict hh in
theorem response_error {w : List ℝ} {delta : ℝ} (hd : delta ≠ 0) {tOps : List (Op ℕ ℂ)}
    (htOps : ∀ tOp ∈ tOps, OpInSystem (nTotal (intKeys S.nBaths)) tOp) {x : RefSpectra}
    (hx : refHBuild (S.spectra w delta) tOps S.psis S.es = .ok x) {i t k : ℕ} (hi : i < S.es.length)
    (ht : t < tOps.length) (hk : k < w.length) {T : Vec ℂ → Vec ℂ} (hT : operator (opSpec tOps[t]) = T)
    (hsmall : NoSmall (size S) T S.slaterWeightMin S.restrictions) {X : Set (Finset ℕ)} {c wd : ℝ} (hw : 0 < wd)
    (hX : ClosedAround (size S) (hamilton S) (excite S T i) X) (hband : EnergiesWithin (size S) (hamilton S) X c wd) :
    (x.root i t).length = w.length ∧
      ∃ g₀, IsResponse S T i ((w[k] : ℂ) + Complex.I * (delta : ℂ)) g₀ ∧
        ‖(x.root i t).getD k 0 - g₀‖ ≤ Spec.normSq (size S) (excite S T i) * lanczosError wd delta S.krylovSize := by
  subst hT
  have hn : nSpinOrbitals S.nBaths = size S := nSpinOrbitals_eq _
  have hst := hS.states
  have hva := hS.spectra w hd
  have key := refHBuild_error (A := S.spectra w delta) hva hdict hh hS.enough hst (tOps := tOps)
    (by intro tOp h; show OpInSystem (nSpinOrbitals S.nBaths) tOp; rw [hn]; exact htOps tOp h) hx i t hi ht
    (by
      intro T hT S' hS' ha
      have hT : T ⊆ range (nSpinOrbitals S.nBaths) := hT
      have hS' : S' ⊆ range (nSpinOrbitals S.nBaths) := hS'
      rw [hn] at hT hS'
      exact hsmall S' hS' T hT ha) (X := X) (c := c) hw
    (by
      show ClosedAround (nSpinOrbitals S.nBaths) (hamiltonian (nSpinOrbitals S.nBaths) S.hOp S.cut S.restrictions)
        (excitation (nSpinOrbitals S.nBaths) tOps[t] S.slaterWeightMin S.restrictions (S.psis.getD i [])) X
      rw [hn]
      exact hX)
    (by
      show EnergiesWithin (nSpinOrbitals S.nBaths) (hamiltonian (nSpinOrbitals S.nBaths) S.hOp S.cut S.restrictions) X c wd
      rw [hn]
      exact hband)
  have hl : w.length = (x.root i t).length := key.length_eq
  refine ⟨hl.symm, ?_⟩
  have key := forall2_getD key 0 hk
  have key : ∃ g₀, IsGreen (nSpinOrbitals S.nBaths) (hamiltonian (nSpinOrbitals S.nBaths) S.hOp S.cut S.restrictions)
      ((w[k] : ℂ) + Complex.I * (delta : ℂ) + (S.es.getD i 0 : ℂ))
      (excitation (nSpinOrbitals S.nBaths) tOps[t] S.slaterWeightMin S.restrictions (S.psis.getD i [])) g₀ ∧
      ‖(x.root i t).getD k 0 - g₀‖ ≤ Spec.normSq (nSpinOrbitals S.nBaths)
        (excitation (nSpinOrbitals S.nBaths) tOps[t] S.slaterWeightMin S.restrictions (S.psis.getD i []))
        * lanczosError wd delta S.krylovSize := key
  rw [hn] at key
  exact key

end

section
variable {S : SimulateArgs} (hS : S.Valid) (hout : S.OutLarge) {N : ℕ} (hN : 0 < N)
  {ord : Fin N → ℕ → ℕ → ℕ → SetOrders} (hord : ∀ k c t i, (ord k c t i).Valid)
  {ordRixs : Fin N → List ℕ → SetOrders} (hordR : ∀ k l, (ordRixs k l).Valid) {out : Fin N → Option Simulated}
  (hfin : CanFinish msgSum (fun k : Fin N => simulateSpectra S (ord k) (ordRixs k) k.val N) out)
  {s : Simulated} (hs : out ⟨0, hN⟩ = some s)
  (hdict : Dict.NodupKeys S.hOp) (hh : isHermitianOp S.hOp)

theorem im_close {x y : ℂ} {ε : ℝ} (h : ‖x - y‖ ≤ ε) : |x.im - y.im| ≤ ε :=
  (by rw [← Complex.sub_im]; exact Complex.abs_im_le_norm _ : |x.im - y.im| ≤ ‖x - y‖).trans h

include hS hout hord hordR hfin hs hdict hh in
/-- C82, photoemission and inverse photoemission in `simulate_spectra`: the stored value of eigenstate `i` and the `j`-th
spin-orbital of the shell `l = 2` is within the sum of the two errors of the exact one. -/
theorem C82_photoemission (hw : S.slaterWeightMin ≤ 1) (i j k : ℕ) (hi : i < S.es.length) (hj : j < 10)
    (hk : k < S.w.length) (x : ℕ) (hx : x = impStart (intKeys S.nBaths) 2 + j) (X Y : Set (Finset ℕ)) (c wd c' wd' : ℝ)
    (hwd : 0 < wd) (hX : ClosedAround (size S) (hamilton S) (excite S (create x) i) X)
    (hband : EnergiesWithin (size S) (hamilton S) X c wd)
    (hwd' : 0 < wd') (hY : ClosedAround (size S) (hamilton S) (excite S (annihilate x) i) Y)
    (hband' : EnergiesWithin (size S) (hamilton S) Y c' wd') :
    ∃ add rem, IsResponse S (create x) i ((S.w[k] : ℂ) + Complex.I * S.delta) add ∧
      IsResponse S (annihilate x) i (-((S.w[k] : ℂ) + Complex.I * S.delta)) rem ∧
      |s.ps.data i j k - -(add - rem).im| ≤ Spec.normSq (size S) (excite S (create x) i) * lanczosError wd S.delta S.krylovSize
        + Spec.normSq (size S) (excite S (annihilate x) i) * lanczosError wd' S.delta S.krylovSize := by
  subst hx
  obtain ⟨st⟩ := simulate_steps' hS hout hN hord hordR hfin hs
  have p1 := inversePhoto_spec hS.good st.ips_eq
  have p2 := photo_spec hS.good st.ps_eq
  have j1 : j < st.ips.length := by rw [p1]; simpa using hj
  have j2 : j < st.ps.length := by rw [p2]; simpa using hj
  have o1 : st.ips[j] = [([(impStart (intKeys S.nBaths) 2 + j, .c)], 1)] := by simp [p1]
  have o2 : st.ps[j] = [([(impStart (intKeys S.nBaths) 2 + j, .a)], 1)] := by simp [p2]
  have t1 : operator (opSpec st.ips[j]) = create (impStart (intKeys S.nBaths) 2 + j) := by
    rw [o1]; funext v; exact operator_photo _ .c v
  have t2 : operator (opSpec st.ps[j]) = annihilate (impStart (intKeys S.nBaths) 2 + j) := by
    rw [o2]; funext v; exact operator_photo _ .a v
  obtain ⟨l1, a1, g1, e1⟩ := response_error hS hdict hh hS.delta (inversePhoto_okIn hS.good 2 _ st.ips_eq) st.gIps_eq hi j1 hk t1
    (by rw [← t1, o1]; exact noSmall_photo _ _ .c hw _) hwd hX hband
  have hk' : k < (S.w.map fun x => -x).length := by simpa using hk
  obtain ⟨l2, a2, g2, e2⟩ := response_error hS hdict hh (neg_ne_zero.2 hS.delta) (photo_okIn hS.good 2 _ st.ps_eq) st.gPs_eq hi j2
    hk' t2 (by rw [← t2, o2]; exact noSmall_photo _ _ .a hw _) hwd' hY hband'
  have hneg : lanczosError wd' (-S.delta) S.krylovSize = lanczosError wd' S.delta S.krylovSize := by
    unfold lanczosError
    rw [abs_neg]
  rw [hneg] at e2
  refine ⟨a1, a2, g1, ?_, ?_⟩
  · convert g2 using 1
    rw [List.getElem_map]
    push_cast
    ring
  · have hval : s.ps.data i j k = -((st.gIps.root i j).getD k 0 - (st.gPs.root i j).getD k 0).im := by
      rw [(spectrumFiles_spec st.psFiles).1, add_getD, negate_getD]
      · simp only [Complex.add_im, Complex.neg_im, Complex.sub_im]
        ring
      · rw [l1]
        unfold Spectra.negate
        rw [List.length_map, l2, List.length_map]
    rw [hval, Complex.sub_im, Complex.sub_im]
    have h1 := abs_le.1 (im_close e1)
    have h2 := abs_le.1 (im_close e2)
    rw [abs_le]
    constructor <;> linarith [h1.1, h1.2, h2.1, h2.2]

include hS hout hord hordR hfin hs hdict hh in
/-- C82, XPS in `simulate_spectra`. -/
theorem C82_xps (hw : S.slaterWeightMin ≤ 1) (i j k : ℕ) (hi : i < S.es.length) (hj : j < 6) (hk : k < S.w.length)
    (x : ℕ) (hx : x = impStart (intKeys S.nBaths) 1 + j) (X : Set (Finset ℕ)) (c wd : ℝ)
    (hwd : 0 < wd) (hX : ClosedAround (size S) (hamilton S) (excite S (annihilate x) i) X)
    (hband : EnergiesWithin (size S) (hamilton S) X c wd) :
    ∃ rem, IsResponse S (annihilate x) i (-((S.w[k] : ℂ) + Complex.I * S.delta)) rem ∧
      |s.xps.data i j k - rem.im| ≤
        Spec.normSq (size S) (excite S (annihilate x) i) * lanczosError wd S.delta S.krylovSize := by
  subst hx
  obtain ⟨st⟩ := simulate_steps' hS hout hN hord hordR hfin hs
  have p2 := photo_spec hS.good st.xps_eq
  have j2 : j < st.xps.length := by rw [p2]; simpa using hj
  have o2 : st.xps[j] = [([(impStart (intKeys S.nBaths) 1 + j, .a)], 1)] := by simp [p2]
  have t2 : operator (opSpec st.xps[j]) = annihilate (impStart (intKeys S.nBaths) 1 + j) := by
    rw [o2]; funext v; exact operator_photo _ .a v
  have hk' : k < (S.w.map fun x => -x).length := by simpa using hk
  obtain ⟨-, a2, g2, e2⟩ := response_error hS hdict hh (neg_ne_zero.2 hS.delta) (photo_okIn hS.good 1 _ st.xps_eq) st.gXps_eq hi j2
    hk' t2 (by rw [← t2, o2]; exact noSmall_photo _ _ .a hw _) hwd hX hband
  have hneg : lanczosError wd (-S.delta) S.krylovSize = lanczosError wd S.delta S.krylovSize := by
    unfold lanczosError
    rw [abs_neg]
  rw [hneg] at e2
  refine ⟨a2, ?_, ?_⟩
  · convert g2 using 1
    rw [List.getElem_map]
    push_cast
    ring
  · rw [(spectrumFiles_spec st.xpsFiles).1, negate_getD, Complex.neg_im, neg_neg]
    exact im_close e2

variable {l1 l2 b1 b2 : ℕ} (hsys : S.nBaths = [(l1, b1), (l2, b2)])

include hS hout hord hordR hfin hs hdict hh hsys in
/-- C82, XAS in `simulate_spectra`. -/
theorem C82_xas (i t k : ℕ) (hi : i < S.es.length) (ht : t < S.epsilons.length) (hk : k < S.w.length)
    (T : Vec ℂ → Vec ℂ) (hT : T = between (position (intKeys S.nBaths)) l2 l1
      (fun m m' => dipole S.gaunt S.epsilons[t].x S.epsilons[t].y S.epsilons[t].z l2 m l1 m'))
    (hsmall : NoSmall (size S) T S.slaterWeightMin S.restrictions) (X : Set (Finset ℕ)) (c wd : ℝ)
    (hwd : 0 < wd) (hX : ClosedAround (size S) (hamilton S) (excite S T i) X)
    (hband : EnergiesWithin (size S) (hamilton S) X c wd) :
    ∃ g, IsResponse S T i ((S.w[k] : ℂ) + Complex.I * S.delta) g ∧
      |s.xas.data i t k - -g.im| ≤ Spec.normSq (size S) (excite S T i) * lanczosError wd S.delta S.krylovSize := by
  obtain ⟨st⟩ := simulate_steps' hS hout hN hord hordR hfin hs
  have hne : l1 ≠ l2 := by
    have := hS.nBaths
    rw [hsys] at this
    simpa [Dict.NodupKeys, Dict.keys] using this
  have he := st.xas_eq
  have hiK : intKeys S.nBaths = [(.int l1, b1), (.int l2, b2)] := by rw [hsys]; rfl
  rw [hiK] at he hT
  obtain ⟨hl, ho⟩ := dipoles_spec S.gaunt hne he
  obtain ⟨-, a, g, e⟩ := response_error hS hdict hh hS.delta (dipoles_okIn S.gaunt hS.good _ _ st.xas_eq) st.gXas_eq hi (hl ▸ ht) hk
    ((ho t ht).trans hT.symm) hsmall hwd hX hband
  refine ⟨a, g, ?_⟩
  rw [(spectrumFiles_spec st.xasFiles).1 i t k, neg_sub_neg, abs_sub_comm]
  exact im_close e

include hS hout hord hordR hfin hs hdict hh in
/-- C82, NIXS in `simulate_spectra`. -/
theorem C82_nixs (hG : GauntRules S.gaunt) (hli : S.liNIXS ∈ Dict.keys S.nBaths) (hlj : S.ljNIXS ∈ Dict.keys S.nBaths)
    (h1 : S.RiNIXS.length = S.radialMesh.length) (h2 : S.RjNIXS.length = S.radialMesh.length)
    (i t k : ℕ) (hi : i < S.es.length) (ht : t < S.qsNIXS.length) (hk : k < S.wLoss.length)
    (qn θ φ : ℝ) (hq : 0 < qn) (hθ : 0 < θ) (hθ' : θ < Real.pi) (hφ : |φ| ≤ Real.pi)
    (hx : S.qsNIXS[t].x = qn * (Real.sin θ * Real.cos φ)) (hy : S.qsNIXS[t].y = qn * (Real.sin θ * Real.sin φ))
    (hz : S.qsNIXS[t].z = qn * Real.cos θ)
    (T : Vec ℂ → Vec ℂ) (hT : T = fun v F => ((Real.sqrt (4 * Real.pi) : ℝ) : ℂ)⁻¹ *
      between (position (intKeys S.nBaths)) S.liNIXS S.ljNIXS (fun mi mj =>
        planeWave S.gaunt S.sphHarm (radialIntegral S.jn S.RiNIXS S.RjNIXS S.radialMesh qn) θ |φ| S.kmin
          (S.liNIXS + S.ljNIXS) S.liNIXS mi S.ljNIXS mj) v F)
    (hsmall : NoSmall (size S) T S.slaterWeightMin S.restrictions) (X : Set (Finset ℕ)) (c wd : ℝ)
    (hwd : 0 < wd) (hX : ClosedAround (size S) (hamilton S) (excite S T i) X)
    (hband : EnergiesWithin (size S) (hamilton S) X c wd) :
    ∃ g, IsResponse S T i ((S.wLoss[k] : ℂ) + Complex.I * S.deltaNIXS) g ∧
      |s.nixs.data i t k - -g.im| ≤ Spec.normSq (size S) (excite S T i) * lanczosError wd S.deltaNIXS S.krylovSize := by
  obtain ⟨st⟩ := simulate_steps' hS hout hN hord hordR hfin hs
  have hcol := collect_get st.nixs_eq
  have ht' : t < st.nixs.length := hcol.length_eq ▸ ht
  have heq := (List.forall₂_iff_get.1 hcol).2 t ht ht'
  simp only [List.get_eq_getElem] at heq
  obtain ⟨tOp, e, -, -, -, hm⟩ := C46_operator S.gaunt hG S.sphHarm S.jn (intKeys S.nBaths) hS.good S.liNIXS S.ljNIXS
    (by rw [allAngulars_intKeys]; exact hli) (by rw [allAngulars_intKeys]; exact hlj)
    S.RiNIXS S.RjNIXS S.radialMesh h1 h2 S.kmin _ le_rfl _ qn θ φ hq hθ hθ' hφ hx hy hz
  rw [e] at heq
  have heq := Except.ok.inj heq
  obtain ⟨-, a, g, e⟩ := response_error hS hdict hh hS.deltaNIXS (nixss_okIn _ _ _ hS.good _ _ _ _ _ _ _ _ st.nixs_eq) st.gNixs_eq hi
    ht' hk (T := T) (by
      rw [← heq, hT]
      funext v F
      rw [← hm v F, inv_mul_cancel_left₀]
      rw [Ne, Complex.ofReal_eq_zero]
      exact Real.sqrt_ne_zero'.2 (by positivity)) hsmall hwd hX hband
  refine ⟨a, g, ?_⟩
  rw [(spectrumFiles_spec st.nixsFiles).1 i t k, neg_sub_neg, abs_sub_comm]
  exact im_close e

end

/-- C82, the averages: if each of the values is within `ε` of an exact one, so is their Boltzmann average. -/
theorem C82_thermal {kB T : ℝ} {es : List ℝ} (hne : es ≠ []) {x y : ℕ → ℝ} {a b ε : ℝ} (hx : IsThermal kB T es x a)
    (hy : IsThermal kB T es y b) (h : ∀ i < es.length, |x i - y i| ≤ ε) : |a - b| ≤ ε := by
  set Z := ∑ i : Fin es.length, Real.exp (-es[i] / (kB * T)) with hZ
  have hpos : 0 < Z := by
    have : Nonempty (Fin es.length) := ⟨⟨0, List.length_pos_iff.2 hne⟩⟩
    exact sum_pos (fun i _ => Real.exp_pos _) univ_nonempty
  have heq : a - b = (∑ i : Fin es.length, Real.exp (-es[i] / (kB * T)) * (x i - y i)) / Z := by
    rw [hx, hy, ← sub_div, ← sum_sub_distrib]
    simp only [mul_sub]
    rfl
  rw [heq, abs_div, abs_of_pos hpos, div_le_iff₀ hpos]
  refine (abs_sum_le_sum_abs _ _).trans ?_
  rw [hZ, mul_sum]
  refine sum_le_sum fun i _ => ?_
  rw [abs_mul, abs_of_pos (Real.exp_pos _), mul_comm]
  exact mul_le_mul_of_nonneg_right (h i i.isLt) (Real.exp_pos _).le

/-! ### Non-vacuity: one Lanczos vector for one electron on two sites -/

theorem exTwo_one : LinearIndependent ℂ (fun i : Fin (min 1 ({{0}, {1}} : Finset (Finset ℕ)).card) =>
    (hamiltonian 2 (castOp exTwo) (1 / 2) none)^[i.val] (ampl 2 exTwoPsi)) := by
  have hcard : min 1 ({{0}, {1}} : Finset (Finset ℕ)).card = 1 := by decide
  rw [hcard, Fintype.linearIndependent_iff]
  intro g hg
  rw [Fin.sum_univ_one] at hg
  have ha0 : ampl 2 exTwoPsi {0} = 1 := by simp [ampl, exTwoPsi, Dict.get?_cons]
  have e0 := congrFun hg {0}
  simp only [Fin.val_zero, Function.iterate_zero, id, Pi.smul_apply, smul_eq_mul, ha0, Pi.zero_apply, mul_one] at e0
  intro i
  fin_cases i
  exact e0

/-- The hypotheses of `C82_green` are met with fewer Lanczos vectors than product states. -/
theorem C82_example (omega : List ℝ) : ∃ g hDict',
    getGreen 2 0 exTwoPsi (castOp exTwo) omega 1 1 (1 / 2) none [] 10 = .ok (g, hDict') ∧
      List.Forall₂ (fun (w : ℝ) x => ∃ g₀, IsGreen 2 (hamiltonian 2 (castOp exTwo) (1 / 2) none)
        ((w : ℂ) + Complex.I * ((1 : ℝ) : ℂ) + ((0 : ℝ) : ℂ)) (ampl 2 exTwoPsi) g₀ ∧ ‖x - g₀‖ ≤ lanczosError 5 1 1) omega g := by
  obtain ⟨hr, ht⟩ := C57_raises exTwo_inSystem exTwo_nodup exTwo_hermitian (cut := 1 / 2) (by norm_num) none exTwoPsi_state
    (fun _ _ _ => trivial) exTwoPsi_norm {{0}, {1}} exTwo_smallest 1 10 (by norm_num) 0 omega 1 (by norm_num) []
    (columnsExact_nil ..)
  rcases ht with ht | ⟨g, h', hg, -, -⟩
  · rcases hr.1 ht with h | h
    · cases h
    · exact absurd exTwo_one h
  · exact ⟨g, h', hg, C82_green exTwo_inSystem exTwo_nodup exTwo_hermitian (by norm_num) none exTwoPsi_state
      (fun _ _ _ => trivial) exTwoPsi_norm Set.univ (fun _ _ _ => trivial) (fun _ _ _ _ _ _ => trivial) 0 5 (by norm_num)
      (energiesWithin_all exTwo_inSystem exTwo_nodup exTwo_hermitian _ _ _ (by
        simp [castOp, exTwo]; norm_num)) 1 10 (by norm_num) 0 omega 1 (by norm_num) [] (columnsExact_nil ..) g h' hg⟩

end

end Verif
