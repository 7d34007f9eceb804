/-
C72: spectra are sums of Lorentzians with the right total weight.
-/
import Verif.Lemmas.Lehmann
import Verif.Lemmas.Photo
import Verif.Prop.Simulate

namespace Verif

open Finset Mpi Psr Spec Matrix MeasureTheory

noncomputable section

/-- C72, one Green's function.  If `getGreen` returns for some mesh, there are at most `krylovSize` energies with
non-negative weights that add up to one, such that for every mesh, every broadening and
every energy `e` the result is `∑ weight/(w + i delta + e - energy)`; for a positive broadening its area over
the whole axis is `π`.  This holds for any Hamiltonian and any state, normalised or not. -/
theorem C72_green (n : ℕ) (psi : Psi ℂ) (hne : psi ≠ []) (hOp : Op ℕ ℂ) (krylovSize : ℕ) (cut : ℝ) (r : Option Restrictions)
    (hDict : OpResult ℂ) (fuel : ℕ) (e₀ delta₀ : ℝ) (omega₀ : List ℝ) (x : List ℂ × OpResult ℂ)
    (h : getGreen n e₀ psi hOp omega₀ delta₀ krylovSize cut r hDict fuel = .ok x) :
    ∃ L : List (ℝ × ℝ), (∀ p ∈ L, 0 ≤ p.2) ∧ totalWeight L = 1 ∧ L.length ≤ krylovSize ∧
      (∀ (e : ℝ) (omega : List ℝ) (delta : ℝ), delta ≠ 0 → getGreen n e psi hOp omega delta krylovSize cut r hDict fuel
        = .ok (omega.map fun (w : ℝ) => lehmann L ((w : ℂ) + Complex.I * (delta : ℂ) + (e : ℂ)), x.2)) ∧
      ∀ e delta : ℝ, 0 < delta →
        ∫ w : ℝ, -(lehmann L ((w : ℂ) + Complex.I * (delta : ℂ) + (e : ℂ))).im = Real.pi := by
  obtain ⟨L, h1, h2, h3, h4⟩ := getGreen_lehmann hne h
  exact ⟨L, h1, h2, h3, h4, fun e delta hd => by rw [(integral_lehmann L hd e).2, h2, mul_one]⟩

section
variable {n : ℕ} {op : Op ℕ ℂ} (hop : OpInSystem n op) (hdict : Dict.NodupKeys op) (hh : isHermitianOp op) {cut : ℝ}
  (hcut : 0 < cut) (r : Option Restrictions) {psi : Psi ℂ} (hpsi : IsState n psi)
  (hall : ∀ S ⊆ range n, encBytes n S ∈ Dict.keys psi → AllowedOpt r S) (hnorm : norm2 psi = (1 : ℝ))

include hop hdict hh hcut hpsi hall hnorm in
/-- C72, the energies.  For a Hermitian operator and a normalised state, the energies lie between any bounds of
the expectation values of the Hamiltonian: there is no intensity below the lowest or above the highest level,
whatever `krylovSize` is. -/
theorem C72_energies (krylovSize fuel : ℕ) (hf : 2 ^ n + 2 ≤ fuel) (e₀ delta₀ : ℝ) (omega₀ : List ℝ) (hDict : OpResult ℂ)
    (hd : ColumnsExact n op cut r hDict) (x : List ℂ × OpResult ℂ)
    (h : getGreen n e₀ psi op omega₀ delta₀ krylovSize cut r hDict fuel = .ok x) (lo hi : ℝ)
    (hbound : ∀ v : Vec ℂ, (∀ S, ¬ S ⊆ range n → v S = 0) → innerProduct n v v = 1 →
      lo ≤ (innerProduct n v (hamiltonian n op cut r v)).re ∧ (innerProduct n v (hamiltonian n op cut r v)).re ≤ hi) :
    ∃ L : List (ℝ × ℝ), (∀ p ∈ L, 0 ≤ p.2 ∧ lo ≤ p.1 ∧ p.1 ≤ hi) ∧ totalWeight L = 1 ∧
      ∀ (e : ℝ) (omega : List ℝ) (delta : ℝ), delta ≠ 0 → getGreen n e psi op omega delta krylovSize cut r hDict fuel
        = .ok (omega.map fun (w : ℝ) => lehmann L ((w : ℂ) + Complex.I * (delta : ℂ) + (e : ℂ)), x.2) := by
  obtain ⟨states, d, hlen, M, v, hnd, -, hherm, hvn, -, -, -, hs, hv, hM, hser⟩ :=
    getGreen_matrix_full hop hdict hh hcut r hpsi (norm_one_ne_nil hnorm) hall hnorm hf krylovSize
  obtain ⟨h', -, hx⟩ := hser hDict hd
  rw [hx] at h
  cases hkr : tridiagonalKrylov M v (min krylovSize d) with
  | error err => rw [hkr] at h; cases h
  | ok ab =>
    rw [hkr] at h
    simp only [ok_bind] at h
    have hm : min (min krylovSize d) d = min krylovSize d := by omega
    obtain ⟨hk, -, -⟩ := tridiagonalKrylov_length hkr
    obtain ⟨ha, hb, -, V, -, hV, hT⟩ := C41_tridiagonal M hherm v hvn (min krylovSize d) ab.1 ab.2 hkr
    rw [hm] at hk ha hb hV hT
    obtain ⟨L, l1, l2, -, l3, l4⟩ := fraction_lehmann hk ha hb
    refine ⟨L, fun p hp => ⟨l1 p hp, ?_⟩, l2, fun e omega delta hdel => ?_⟩
    · obtain ⟨u, u1, u2⟩ := l3 p hp
      set y : Fin d → ℂ := krylovMat V (min krylovSize d) *ᵥ u with hy
      have hort : (krylovMat V (min krylovSize d))ᴴ * krylovMat V (min krylovSize d) = 1 := by
        ext i j
        rw [mul_apply]
        simp only [conjTranspose_apply, krylovMat]
        have := hV i i.isLt j j.isLt
        rw [dotProduct] at this
        rw [show (∑ x, star (V i x) * V j x) = _ from this, one_apply]
        simp [Fin.ext_iff]
      have hmat : (krylovMat V (min krylovSize d))ᴴ * M * krylovMat V (min krylovSize d)
          = tridiagonal ab.1 ab.2 (min krylovSize d) := by
        ext i j
        rw [← hT i j, Matrix.mul_assoc]
        rfl
      have hadj : ∀ z : Fin d → ℂ, star y ⬝ᵥ z = star u ⬝ᵥ ((krylovMat V (min krylovSize d))ᴴ *ᵥ z) := by
        intro z
        rw [hy, star_mulVec, dotProduct_mulVec]
      have y1 : star y ⬝ᵥ y = 1 := by
        rw [hadj, hy, mulVec_mulVec, hort, one_mulVec, u1]
      have y2 : star y ⬝ᵥ (M *ᵥ y) = (p.1 : ℂ) := by
        rw [hadj, hy, mulVec_mulVec, mulVec_mulVec, hmat, u2]
      have hin : ∀ a b : Fin d → ℂ, innerProduct n (spread states hlen a) (spread states hlen b) = star a ⬝ᵥ b := by
        intro a b
        unfold innerProduct
        rw [← sum_over_states hnd hs hlen (fun S => star (spread states hlen a S) * spread states hlen b S)
          (fun S _ hS => by rw [spread_zero hlen b hS, mul_zero])]
        simp only [dotProduct]
        exact sum_congr rfl fun i _ => by rw [spread_get hnd hlen, spread_get hnd hlen]; rfl
      have := hbound (spread states hlen y) (fun S hS => spread_zero hlen y fun h => hS (hs S h)) (by rw [hin, y1])
      rw [hM, hin, y2, Complex.ofReal_re] at this
      exact this
    · rw [hx, hkr]
      simp only [ok_bind]
      rw [greenOnMesh_lehmann l4 omega hdel e]
      cases h4 : greenOnMesh ab.1 ab.2 (min krylovSize d) omega₀ delta₀ e₀ with
      | error err => rw [h4] at h; cases h
      | ok g => rw [h4] at h; cases h; rfl

end

section
variable {A : SpectraArgs} (hA : A.Valid) {psis : List (Psi ℂ)} {es : List ℝ} (hlen : es.length ≤ psis.length)
  (hpsis : ∀ psi ∈ psis, IsState A.n psi) {tOps : List (Op ℕ ℂ)} (htOps : ∀ tOp ∈ tOps, OpInSystem A.n tOp)

include hA hlen hpsis htOps in
/-- C72, `getSpectra` in mode `eigen_states`.  For each eigenstate `i` and transition operator `t` there are
energies with non-negative weights whose sum is `⟨T psi_i|T psi_i⟩`, such that every execution that finishes, with
any mesh, broadening and number of ranks, gives `∑ weight/(w + i delta + e_i - energy)` on every rank.  For a
positive broadening the area of the spectrum is `π ⟨T psi_i|T psi_i⟩`. -/
theorem C72_eigenStates (i t : ℕ) (hi : i < es.length) (ht : t < tOps.length) :
    ∃ L : List (ℝ × ℝ), (∀ p ∈ L, 0 ≤ p.2) ∧
      totalWeight L = Spec.normSq A.n (excitation A.n tOps[t] A.slaterWeightMin A.restrictions psis[i]) ∧
      (∀ (w : List ℝ) (delta : ℝ), delta ≠ 0 → ∀ (N : ℕ) (_ : 0 < N) (ord : Fin N → ℕ → ℕ → SetOrders) (out : Fin N → Spectra),
        CanFinish msgSum (fun k : Fin N =>
          getSpectra { A with w := w, delta := delta } tOps psis es .eigenStates (ord k) k.val N) out →
        ∀ k, out k i t = w.map fun (x : ℝ) => lehmann L ((x : ℂ) + Complex.I * (delta : ℂ) + (es[i] : ℂ))) ∧
      ∀ delta : ℝ, 0 < delta →
        ∫ x : ℝ, -(lehmann L ((x : ℂ) + Complex.I * (delta : ℂ) + (es[i] : ℂ))).im = Real.pi * totalWeight L := by
  have hi' : i < psis.length := by omega
  have htin := htOps _ (List.getElem_mem ht)
  have hpin := hpsis _ (List.getElem_mem hi')
  have hE := applyOp_excited htin hpin hA.weight A.restrictions
  obtain ⟨L, l1, l2, l3⟩ := spectrumOf_lehmann A (transitionState A tOps[t] psis[i])
    (fun h => hE.norm_pos hA.weight h)
  refine ⟨L, l1, ?_, ?_, fun delta hd => (integral_lehmann L hd es[i]).2⟩
  · rw [l2, ← ampl_transitionState htin hpin]
    exact norm2_eq hE.state
  · intro w delta hd N hN ord out hout k
    have hA' : (A.on w delta).Valid := hA.on w hd
    obtain ⟨hok, herr⟩ := eigen_dichotomy hN hA' hlen hpsis htOps ord
    have hall : ∀ i tOp, ∃ g, i < es.length → tOp ∈ tOps →
        spectrumOf (A.on w delta) (transitionState (A.on w delta) tOp (psis.getD i [])) (es.getD i 0) = .ok g := by
      intro i tOp
      cases hg : spectrumOf (A.on w delta) (transitionState (A.on w delta) tOp (psis.getD i [])) (es.getD i 0) with
      | ok g => exact ⟨g, fun _ _ => rfl⟩
      | error err => exact ⟨[], fun a b => absurd hout (herr ⟨i, a, tOp, b, err, hg⟩ out)⟩
    choose f hf using hall
    have hru := hok f fun i hi tOp ht => hf i tOp hi ht
    have hu := AllRanksFinish.unique hru.allRanksFinish hout
    have hval : out k i t = f i tOps[t] := by
      rw [hu]
      unfold gathered
      beta_reduce
      rw [if_pos hi, List.getD_eq_getElem _ _ (by simpa using ht), List.getElem_map]
    have h1 := hf i tOps[t] hi (List.getElem_mem ht)
    rw [List.getD_eq_getElem _ _ hi, List.getD_eq_getElem _ _ hi', ← hval] at h1
    exact l3 w delta es[i] hd _ h1

include hA hlen hpsis htOps in
theorem refHBuild_lehmann (i t : ℕ) (hi : i < es.length) (ht : t < tOps.length)
    (hsmall : ∀ T ⊆ range A.n, NoSmallElements A.n tOps[t] A.slaterWeightMin A.restrictions T) :
    ∃ L : List (ℝ × ℝ), (∀ p ∈ L, 0 ≤ p.2) ∧
      totalWeight L = Spec.normSq A.n (excitation A.n tOps[t] A.slaterWeightMin A.restrictions (psis.getD i [])) ∧
      ∀ (w : List ℝ) (delta : ℝ), delta ≠ 0 → ∀ x, refHBuild (A.on w delta) tOps psis es = .ok x →
        x.root i t = w.map fun (x : ℝ) => lehmann L ((x : ℂ) + Complex.I * (delta : ℂ) + (es.getD i 0 : ℂ)) := by
  have hi' : i < psis.length := by omega
  have htin := htOps _ (List.getElem_mem ht)
  have hpin := hpsis _ (List.getElem_mem hi')
  have hE := applyOp_excited htin hpin hA.weight A.restrictions
  rw [List.getD_eq_getElem _ _ hi', List.getD_eq_getElem _ _ hi]
  obtain ⟨L, l1, l2, l3⟩ := spectrumOf_lehmann A (transitionState A tOps[t] psis[i])
    (fun h => hE.norm_pos hA.weight h)
  refine ⟨L, l1, ?_, ?_⟩
  · rw [l2, ← ampl_transitionState htin hpin]
    exact norm2_eq hE.state
  · intro w delta hd x h1
    have hA' : (A.on w delta).Valid := hA.on w hd
    have hs := (((refHBuild_spec hA' hlen hpsis htOps).1 x h1).1 t i ht hi).1
    obtain ⟨h3, h4⟩ := hBuildStates_spec hA' hlen hpsis htOps ht hi
    have heq := h4 hsmall
    rw [List.getD_eq_getElem _ _ hi'] at heq
    rw [List.getD_eq_getElem _ _ hi,
      ← spectrumOf_congr hA' (isState_applyOpPure htin hpin _ _) h3 heq] at hs
    exact l3 w delta es[i] hd _ hs

include hA hlen hpsis htOps in
/-- C72, `getSpectra` in mode `H_build`: the same on rank 0, if no matrix element of the
transition operator is below `slaterWeightMin`. -/
theorem C72_hBuild (i t : ℕ) (hi : i < es.length) (ht : t < tOps.length)
    (hsmall : ∀ T ⊆ range A.n, NoSmallElements A.n tOps[t] A.slaterWeightMin A.restrictions T) :
    ∃ L : List (ℝ × ℝ), (∀ p ∈ L, 0 ≤ p.2) ∧
      totalWeight L = Spec.normSq A.n (excitation A.n tOps[t] A.slaterWeightMin A.restrictions psis[i]) ∧
      (∀ (w : List ℝ) (delta : ℝ), delta ≠ 0 → ∀ (N : ℕ) (hN : 0 < N) (ord : Fin N → ℕ → ℕ → SetOrders),
        (∀ k t i, (ord k t i).Valid) → ∀ out : Fin N → Spectra,
        CanFinish msgSum (fun k : Fin N =>
          getSpectra { A with w := w, delta := delta } tOps psis es .hBuild (ord k) k.val N) out →
        out ⟨0, hN⟩ i t = w.map fun (x : ℝ) => lehmann L ((x : ℂ) + Complex.I * (delta : ℂ) + (es[i] : ℂ))) ∧
      ∀ delta : ℝ, 0 < delta →
        ∫ x : ℝ, -(lehmann L ((x : ℂ) + Complex.I * (delta : ℂ) + (es[i] : ℂ))).im = Real.pi * totalWeight L := by
  have hi' : i < psis.length := by omega
  obtain ⟨L, l1, l2, l3⟩ := refHBuild_lehmann hA hlen hpsis htOps i t hi ht hsmall
  rw [List.getD_eq_getElem _ _ hi'] at l2
  simp only [List.getD_eq_getElem _ _ hi] at l3
  refine ⟨L, l1, l2, ?_, fun delta hd => (integral_lehmann L hd es[i]).2⟩
  intro w delta hd N hN ord hord out hout
  rcases hBuild_dichotomy hN (hA.on w hd) hlen hpsis htOps ord hord with ⟨x, h1, h2⟩ | ⟨err, -, h2⟩
  swap
  · exact absurd hout (RunsToFailure.not_canFinish hN h2 out)
  have hu := AllRanksFinish.unique h2.allRanksFinish hout
  have hval : out ⟨0, hN⟩ i t = x.root i t := by rw [hu]; simp
  rw [hval]
  exact l3 w delta hd x h1

end

/-! ### simulate_spectra -/

section
variable {S : SimulateArgs} (hS : S.Valid)

include hS in
theorem simulate_lehmann {tOps : List (Op ℕ ℂ)}
    (htOps : ∀ tOp ∈ tOps, OpInSystem (nTotal (intKeys S.nBaths)) tOp) {i t : ℕ} (hi : i < S.es.length)
    (ht : t < tOps.length) {T : Vec ℂ → Vec ℂ} (hT : operator (opSpec tOps[t]) = T)
    (hsmall : NoSmall (size S) T S.slaterWeightMin S.restrictions) :
    ∃ L : List (ℝ × ℝ), (∀ p ∈ L, 0 ≤ p.2) ∧ totalWeight L = Spec.normSq (size S) (excite S T i) ∧
      ∀ (w : List ℝ) (delta : ℝ), delta ≠ 0 → ∀ x, refHBuild (S.spectra w delta) tOps S.psis S.es = .ok x →
        x.root i t = w.map fun (x : ℝ) => lehmann L ((x : ℂ) + Complex.I * (delta : ℂ) + (S.es.getD i 0 : ℂ)) := by
  subst hT
  have hn : nSpinOrbitals S.nBaths = size S := nSpinOrbitals_eq _
  obtain ⟨L, l1, l2, l3⟩ := refHBuild_lehmann (A := S.spectra S.w S.delta) (hS.spectra S.w hS.delta) hS.enough hS.states
    (tOps := tOps) (by intro tOp h; show OpInSystem (nSpinOrbitals S.nBaths) tOp; rw [hn]; exact htOps tOp h) i t hi ht
    (by
      intro T hT S' hS' ha
      have hT : T ⊆ range (nSpinOrbitals S.nBaths) := hT
      have hS' : S' ⊆ range (nSpinOrbitals S.nBaths) := hS'
      rw [hn] at hT hS'
      exact hsmall S' hS' T hT ha)
  have l2 : totalWeight L = Spec.normSq (nSpinOrbitals S.nBaths)
    (excitation (nSpinOrbitals S.nBaths) tOps[t] S.slaterWeightMin S.restrictions (S.psis.getD i [])) := l2
  rw [hn] at l2
  exact ⟨L, l1, l2, l3⟩

theorem SimulateArgs.Valid.on (hS : S.Valid) (w : List ℝ) {delta : ℝ} (hd : delta ≠ 0) :
    ({ S with w := w, delta := delta } : SimulateArgs).Valid :=
  ⟨hS.nBaths, hS.hop, hS.cut, hS.weight, hd, hS.deltaNIXS, hS.deltaRIXS, hS.krylov, hS.fuel, hS.states, hS.enough⟩

variable (hout : S.OutLarge) {N : ℕ} (hN : 0 < N)
  {ord : Fin N → ℕ → ℕ → ℕ → SetOrders} (hord : ∀ k c t i, (ord k c t i).Valid)
  {ordRixs : Fin N → List ℕ → SetOrders} (hordR : ∀ k l, (ordRixs k l).Valid) {out : Fin N → Option Simulated}
  (hfin : CanFinish msgSum (fun k : Fin N => simulateSpectra S (ord k) (ordRixs k) k.val N) out)

include hS hout hord hordR hfin hN in
/-- C72, photoemission and inverse photoemission.  If one execution finishes, there are energies with non-negative
weights such that every execution that finishes, with any mesh, broadening and number of ranks,
stores for eigenstate `i` and the `j`-th spin-orbital of the shell `l = 2` the values
`∑ -Im weight/(w + i delta + e - energy)` for adding an electron plus the corresponding sum for removing one.
The weights add up to `⟨c† psi|c† psi⟩` and `⟨c psi|c psi⟩`; for a positive broadening the area is `π` times the
sum of the two. -/
theorem C72_photoemission (hw : S.slaterWeightMin ≤ 1) (i j : ℕ) (hi : i < S.es.length) (hj : j < 10) :
    ∃ add rem : List (ℝ × ℝ), (∀ p ∈ add, 0 ≤ p.2) ∧ (∀ p ∈ rem, 0 ≤ p.2) ∧
      totalWeight add = Spec.normSq (size S) (excite S (create (impStart (intKeys S.nBaths) 2 + j)) i) ∧
      totalWeight rem = Spec.normSq (size S) (excite S (annihilate (impStart (intKeys S.nBaths) 2 + j)) i) ∧
      (∀ (w : List ℝ) (delta : ℝ), delta ≠ 0 → ∀ (N : ℕ) (hN : 0 < N) (ord : Fin N → ℕ → ℕ → ℕ → SetOrders),
        (∀ k c t i, (ord k c t i).Valid) → ∀ ordRixs : Fin N → List ℕ → SetOrders, (∀ k l, (ordRixs k l).Valid) →
        ∀ out : Fin N → Option Simulated, CanFinish msgSum (fun k : Fin N =>
          simulateSpectra { S with w := w, delta := delta } (ord k) (ordRixs k) k.val N) out →
        ∀ s, out ⟨0, hN⟩ = some s → ∀ (k : ℕ) (hk : k < w.length),
          s.ps.data i j k = -(lehmann add ((w[k] : ℂ) + Complex.I * (delta : ℂ) + (S.es[i] : ℂ))).im
            + (lehmann rem (-((w[k] : ℂ) + Complex.I * (delta : ℂ)) + (S.es[i] : ℂ))).im) ∧
      ∀ delta : ℝ, 0 < delta →
        ∫ x : ℝ, (-(lehmann add ((x : ℂ) + Complex.I * (delta : ℂ) + (S.es[i] : ℂ))).im
            + (lehmann rem (-((x : ℂ) + Complex.I * (delta : ℂ)) + (S.es[i] : ℂ))).im)
          = Real.pi * (totalWeight add + totalWeight rem) := by
  obtain ⟨s0, -, ⟨st⟩⟩ := simulate_steps hS hout hN hord hordR hfin
  have p1 := inversePhoto_spec hS.good st.ips_eq
  have p2 := photo_spec hS.good st.ps_eq
  have j1 : j < st.ips.length := by rw [p1]; simpa using hj
  have j2 : j < st.ps.length := by rw [p2]; simpa using hj
  have o1 : st.ips[j] = [([(impStart (intKeys S.nBaths) 2 + j, .c)], 1)] := by simp [p1]
  have o2 : st.ps[j] = [([(impStart (intKeys S.nBaths) 2 + j, .a)], 1)] := by simp [p2]
  have t1 : operator (opSpec st.ips[j]) = create (impStart (intKeys S.nBaths) 2 + j) := by
    rw [o1]; funext v; exact operator_photo _ .c v
  have t2 : operator (opSpec st.ps[j]) = annihilate (impStart (intKeys S.nBaths) 2 + j) := by
    rw [o2]; funext v; exact operator_photo _ .a v
  obtain ⟨L1, a1, a2, a3⟩ := simulate_lehmann hS (inversePhoto_okIn hS.good 2 _ st.ips_eq) hi j1 t1
    (by rw [← t1, o1]; exact noSmall_photo _ _ .c hw _)
  obtain ⟨L2, b1, b2, b3⟩ := simulate_lehmann hS (photo_okIn hS.good 2 _ st.ps_eq) hi j2 t2
    (by rw [← t2, o2]; exact noSmall_photo _ _ .a hw _)
  simp only [List.getD_eq_getElem _ _ hi] at a3 b3
  refine ⟨L1, L2, a1, b1, a2, b2, ?_, fun delta hd => ?_⟩
  · intro w delta hd N hN ord hord ordRixs hordR out hfin s hs k hk
    obtain ⟨st'⟩ := simulate_steps' (hS.on w hd) hout hN hord hordR hfin hs
    have e1 : st'.ips = st.ips := Except.ok.inj (st'.ips_eq.symm.trans st.ips_eq)
    have e2 : st'.ps = st.ps := Except.ok.inj (st'.ps_eq.symm.trans st.ps_eq)
    have r1 := a3 w delta hd st'.gIps (by rw [← e1]; exact st'.gIps_eq)
    have r2 := b3 (w.map fun x => -x) (-delta) (neg_ne_zero.2 hd) st'.gPs (by rw [← e2]; exact st'.gPs_eq)
    rw [(spectrumFiles_spec st'.psFiles).1, add_getD, negate_getD, r1, r2,
      List.getD_eq_getElem _ _ (by simpa using hk), List.getD_eq_getElem _ _ (by simpa using hk)]
    · simp only [List.getElem_map, Complex.add_im, Complex.neg_im]
      have : (((-w[k] : ℝ) : ℂ) + Complex.I * ((-delta : ℝ) : ℂ) + (S.es[i] : ℂ))
          = -((w[k] : ℂ) + Complex.I * (delta : ℂ)) + (S.es[i] : ℂ) := by push_cast; ring
      rw [this]
      ring
    · unfold Spectra.negate
      rw [List.length_map, r1, r2]
      simp
  · obtain ⟨c1, c2⟩ := integral_lehmann L1 hd S.es[i]
    obtain ⟨d1, d2⟩ := integral_lehmann_neg L2 hd S.es[i]
    rw [integral_add c1 d1, c2, d2]
    ring

/-- `T |psi_i⟩` has no amplitude that the restrictions or the cutoff remove. -/
def NothingDropped (S : SimulateArgs) (T : Vec ℂ → Vec ℂ) (i : ℕ) : Prop :=
  ∀ F ⊆ range (size S), T (ampl (size S) (S.psis.getD i [])) F = 0 ∨
    (AllowedOpt S.restrictions F ∧ S.slaterWeightMin ≤ Complex.normSq (T (ampl (size S) (S.psis.getD i [])) F))

theorem normSq_excite_le (S : SimulateArgs) (T : Vec ℂ → Vec ℂ) (i : ℕ) :
    Spec.normSq (size S) (excite S T i) ≤ Spec.normSq (size S) (T (ampl (size S) (S.psis.getD i []))) := by
  unfold Spec.normSq
  refine sum_le_sum fun F _ => ?_
  unfold excite exciteVec excited
  split
  · exact le_refl _
  · rw [map_zero]; exact Complex.normSq_nonneg _

theorem normSq_excite_eq {S : SimulateArgs} {T : Vec ℂ → Vec ℂ} {i : ℕ} (h : NothingDropped S T i) :
    Spec.normSq (size S) (excite S T i) = Spec.normSq (size S) (T (ampl (size S) (S.psis.getD i []))) := by
  unfold Spec.normSq
  refine sum_congr rfl fun F hF => ?_
  unfold excite exciteVec excited
  rw [mem_powerset] at hF
  rcases h F hF with h0 | h1
  · rw [h0, ite_self]
  · rw [if_pos ⟨hF, h1.1, h1.2⟩]

/-- C72, the sum rule.  The weights for adding an electron in spin-orbital `p` and for removing one add up to at most
`⟨psi|psi⟩`, and exactly if nothing is dropped; the weight for removing is then the occupation of the spin-orbital. -/
theorem C72_sum_rule (S : SimulateArgs) (i p : ℕ) (hp : p < size S) :
    Spec.normSq (size S) (excite S (create p) i) + Spec.normSq (size S) (excite S (annihilate p) i)
      ≤ Spec.normSq (size S) (ampl (size S) (S.psis.getD i [])) ∧
    (NothingDropped S (create p) i → NothingDropped S (annihilate p) i →
      Spec.normSq (size S) (excite S (create p) i) + Spec.normSq (size S) (excite S (annihilate p) i)
        = Spec.normSq (size S) (ampl (size S) (S.psis.getD i []))) ∧
    (NothingDropped S (annihilate p) i → Spec.normSq (size S) (excite S (annihilate p) i)
      = ∑ F ∈ (range (size S)).powerset with p ∈ F, Complex.normSq (ampl (size S) (S.psis.getD i []) F)) := by
  have h1 : Spec.normSq (size S) (annihilate p (ampl (size S) (S.psis.getD i [])))
      = ∑ F ∈ (range (size S)).powerset, if p ∈ F then Complex.normSq (ampl (size S) (S.psis.getD i []) F) else 0 :=
    weight_annihilate hp (ampl (size S) (S.psis.getD i []))
  have h2 : Spec.normSq (size S) (create p (ampl (size S) (S.psis.getD i [])))
      = ∑ F ∈ (range (size S)).powerset, if p ∉ F then Complex.normSq (ampl (size S) (S.psis.getD i []) F) else 0 :=
    weight_create hp (ampl (size S) (S.psis.getD i []))
  have h3 : Spec.normSq (size S) (create p (ampl (size S) (S.psis.getD i [])))
      + Spec.normSq (size S) (annihilate p (ampl (size S) (S.psis.getD i [])))
      = Spec.normSq (size S) (ampl (size S) (S.psis.getD i [])) := by
    rw [h1, h2, ← sum_add_distrib]
    unfold Spec.normSq
    refine sum_congr rfl fun F _ => ?_
    by_cases h : p ∈ F <;> simp [h]
  refine ⟨?_, fun a b => ?_, fun b => ?_⟩
  · rw [← h3]
    exact add_le_add (normSq_excite_le _ _ _) (normSq_excite_le _ _ _)
  · rw [normSq_excite_eq a, normSq_excite_eq b, h3]
  · rw [normSq_excite_eq b, h1, sum_filter]

end

/-! ### Examples -/

/-- The hypothesis of `C72_energies` on the bounds can always be met. -/
theorem bounds_exist (n : ℕ) (op : Op ℕ ℂ) (cut : ℝ) (r : Option Restrictions) : ∃ lo hi : ℝ,
    ∀ v : Vec ℂ, (∀ S, ¬ S ⊆ range n → v S = 0) → innerProduct n v v = 1 →
      lo ≤ (innerProduct n v (hamiltonian n op cut r v)).re ∧ (innerProduct n v (hamiltonian n op cut r v)).re ≤ hi := by
  set B : ℝ := ∑ S ∈ (range n).powerset, ∑ T ∈ (range n).powerset, ‖column op cut r T S‖
  refine ⟨-B, B, fun v _ hv => ?_⟩
  have h1 : ∀ S ∈ (range n).powerset, ‖v S‖ ≤ 1 := by
    intro S hS
    have h2 : (innerProduct n v v).re = ∑ S ∈ (range n).powerset, ‖v S‖ ^ 2 := by
      unfold innerProduct
      rw [Complex.re_sum]
      refine sum_congr rfl fun S _ => ?_
      rw [← Complex.normSq_eq_norm_sq, mul_comm]
      exact congrArg Complex.re (Complex.mul_conj (v S))
    rw [hv, Complex.one_re] at h2
    have h3 := single_le_sum (f := fun S => ‖v S‖ ^ 2) (fun S _ => sq_nonneg _) hS
    rw [← h2] at h3
    nlinarith [norm_nonneg (v S)]
  have h2 : ‖innerProduct n v (hamiltonian n op cut r v)‖ ≤ B := by
    unfold innerProduct
    refine (norm_sum_le _ _).trans (sum_le_sum fun S hS => ?_)
    unfold hamiltonian
    rw [if_pos (mem_powerset.1 hS), norm_mul, norm_star]
    refine (mul_le_of_le_one_left (norm_nonneg _) (h1 S hS)).trans ?_
    refine (norm_sum_le _ _).trans (sum_le_sum fun T hT => ?_)
    rw [norm_mul]
    exact mul_le_of_le_one_right (norm_nonneg _) (h1 T hT)
  exact abs_le.1 ((Complex.abs_re_le_norm _).trans h2)

/-- The hypotheses of `C72_green` and `C72_energies` are met by two sites with one electron. -/
theorem exTwo_lehmann : ∃ (L : List (ℝ × ℝ)) (lo hi : ℝ) (hDict' : OpResult ℂ), (∀ p ∈ L, 0 ≤ p.2 ∧ lo ≤ p.1 ∧ p.1 ≤ hi) ∧
    totalWeight L = 1 ∧ ∀ (e : ℝ) (omega : List ℝ) (delta : ℝ), delta ≠ 0 →
      getGreen 2 e exTwoPsi (castOp exTwo) omega delta 5 (1 / 2) none [] 10
        = .ok (omega.map fun (w : ℝ) => lehmann L ((w : ℂ) + Complex.I * (delta : ℂ) + (e : ℂ)), hDict') := by
  obtain ⟨g, h', hg, -⟩ := exTwo_green [0]
  obtain ⟨lo, hi, hb⟩ := bounds_exist 2 (castOp exTwo) (1 / 2) none
  obtain ⟨L, h1, h2, h3⟩ := C72_energies exTwo_inSystem exTwo_nodup exTwo_hermitian (cut := 1 / 2) (by norm_num) none exTwoPsi_state
    (fun _ _ _ => trivial) exTwoPsi_norm 5 10 (by norm_num) 0 1 [0] [] (columnsExact_nil _ _ _ _) _ hg lo hi hb
  exact ⟨L, lo, hi, h', h1, h2, h3⟩

/-- The hypotheses of `C72_photoemission` and of all parts of `C72_sum_rule` are met: an execution on three ranks
finishes, nothing is dropped, and for every spin-orbital the weights add up to one. -/
theorem exSim_sum_rule {gaunt : GauntFun} (hG : GauntRules gaunt) (sphHarm : SphHarm) (jn : SphericalJn) :
    ∃ (S : SimulateArgs) (ord : Fin 3 → ℕ → ℕ → ℕ → SetOrders) (ordRixs : Fin 3 → List ℕ → SetOrders)
      (out : Fin 3 → Option Simulated), S.Valid ∧ S.OutLarge ∧ S.slaterWeightMin ≤ 1 ∧ 0 < S.es.length ∧
      (∀ k c t i, (ord k c t i).Valid) ∧ (∀ k l, (ordRixs k l).Valid) ∧
      CanFinish msgSum (fun k : Fin 3 => simulateSpectra S (ord k) (ordRixs k) k.val 3) out ∧
      ∀ p < size S, Spec.normSq (size S) (excite S (create p) 0) + Spec.normSq (size S) (excite S (annihilate p) 0) = 1 := by
  obtain ⟨c, S, rfl, hS, hout, -, -, -, hw, -, -, -, -, -, -, s, -, h⟩ := exSim_meets hG sphHarm jn
  refine ⟨exSim gaunt sphHarm jn c, fun _ _ _ _ => ⟨fun _ l => l, fun l => l⟩, fun _ _ => ⟨fun _ l => l, fun l => l⟩, _, hS, hout, hw,
    Nat.one_pos, fun _ _ _ _ => ⟨fun _ l => List.Perm.refl l, fun l => List.Perm.refl l⟩,
    fun _ _ => ⟨fun _ l => List.Perm.refl l, fun l => List.Perm.refl l⟩,
    (h 3 (by omega) _ (fun _ _ _ _ => ⟨fun _ l => List.Perm.refl l, fun l => List.Perm.refl l⟩) _
      (fun _ _ => ⟨fun _ l => List.Perm.refl l, fun l => List.Perm.refl l⟩)).canFinish, fun p hp => ?_⟩
  have hsg : ∀ (F : Finset ℕ), Complex.normSq ((sgn p F : ℤ) : ℂ) = 1 := by
    intro F
    unfold sgn
    rcases neg_one_pow_eq_or ℤ (below p F) with h | h <;> simp [h]
  have hsi : ∀ F : Finset ℕ, Spec.single (range 7) (1 : ℂ) F = 0 ∨ Spec.single (range 7) (1 : ℂ) F = 1 := by
    intro F
    unfold Spec.single
    split
    · exact Or.inr rfl
    · exact Or.inl rfl
  have key : ∀ T : Vec ℂ → Vec ℂ, (∀ F, T (Spec.single (range 7) 1) F = 0 ∨ Complex.normSq (T (Spec.single (range 7) 1) F) = 1) →
      NothingDropped (exSim gaunt sphHarm jn c) T 0 := by
    intro T hT F _
    rw [exSim_psi]
    rcases hT F with h | h
    · exact Or.inl h
    · exact Or.inr ⟨trivial, by rw [h]; exact hw⟩
  rw [(C72_sum_rule (exSim gaunt sphHarm jn c) 0 p hp).2.1 (key _ fun F => ?_) (key _ fun F => ?_), exSim_psi, exSim_size]
  · unfold Spec.normSq
    rw [Finset.sum_eq_single (range 7)]
    · simp [Spec.single]
    · intro F _ hF
      simp [Spec.single, hF]
    · intro h
      exact absurd (mem_powerset.2 (by decide)) h
  · unfold create
    split
    · rcases hsi (F.erase p) with h | h
      · left; rw [h, mul_zero]
      · right; rw [h, mul_one]; exact hsg _
    · left; rfl
  · unfold annihilate
    split
    · left; rfl
    · rcases hsi (insert p F) with h | h
      · left; rw [h, mul_zero]
      · right; rw [h, mul_one]; exact hsg _

end

end Verif
