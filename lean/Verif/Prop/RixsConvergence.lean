/-
C82, RIXS: how far the map is from the exact one when the Krylov space is not exhausted.
-/
import Verif.Prop.Convergence

namespace Verif

open Finset Mpi Psr Spec Matrix

noncomputable section

theorem rixsPoint_error {A : RixsArgs} (hA : A.Valid) (hdict : Dict.NodupKeys A.hOp) (hh : isHermitianOp A.hOp)
    (hd1 : A.delta1 ≠ 0) (hsolve : ExactSolver A.solve) {op0 : Op ℕ ℂ} (hop0 : OpInSystem A.n op0)
    {psi1 : Psi ℂ} (hE : Excited A.n A.slaterWeightMin A.restrictions psi1) {sys : RixsSys}
    (hsys : rixsSystem A psi1 = .ok sys) {e w : ℝ} {psi2 : Psi ℂ}
    (h2 : rixsIntermediate A sys.1 sys.2.1 sys.2.2 e w = .ok psi2) {g : List ℂ}
    (hg : rixsRow A e (rixsOutState A op0 psi2) = .ok g)
    {X : Set (Finset ℕ)} (hT : ∀ x, Solves A.n (hamiltonian A.n A.hOp A.cut A.restrictions)
        ((w : ℂ) + Complex.I * (A.delta1 : ℂ) + (e : ℂ)) (ampl A.n psi1) x →
      NoneDropped A.n A.slaterWeightMin (transition A.n op0 A.slaterWeightMin A.restrictions x) ∧
      ClosedAround A.n (hamiltonian A.n A.hOp A.cut A.restrictions)
        (transition A.n op0 A.slaterWeightMin A.restrictions x) X) {c₀ wd : ℝ} (hwd : 0 < wd)
    (hband : EnergiesWithin A.n (hamiltonian A.n A.hOp A.cut A.restrictions) X c₀ wd) :
    List.Forall₂ (fun (v : ℝ) y => ∃ y₀, IsRixs A.n (hamiltonian A.n A.hOp A.cut A.restrictions)
      ((w : ℂ) + Complex.I * (A.delta1 : ℂ) + (e : ℂ)) ((v : ℂ) + Complex.I * (A.delta2 : ℂ) + (e : ℂ))
      (ampl A.n psi1) (transition A.n op0 A.slaterWeightMin A.restrictions) y₀ ∧
      ∀ x, Solves A.n (hamiltonian A.n A.hOp A.cut A.restrictions)
        ((w : ℂ) + Complex.I * (A.delta1 : ℂ) + (e : ℂ)) (ampl A.n psi1) x →
      ‖y - y₀‖ ≤ Spec.normSq A.n (transition A.n op0 A.slaterWeightMin A.restrictions x)
        * lanczosError wd A.delta2 A.krylovSize) A.wLoss g := by
  obtain ⟨hst, hsol⟩ := intermediate_solves hA hdict hh hd1 hsolve hE hsys h2
  obtain ⟨hn, hk⟩ := hT _ hsol
  rw [← ampl_rixsOutState hop0 hst] at hn hk
  have hex : Excited A.n A.slaterWeightMin A.restrictions (rixsOutState A op0 psi2) :=
    applyOp_excited hop0 hst hA.weight A.restrictions
  rw [rixsRow_eq_spectrum hA hex hn] at hg
  have hm := spectrumOf_error (A := A.spectra) hA.spectra hdict hh hex e hk hwd hband hg
  have hz : ((w : ℂ) + Complex.I * (A.delta1 : ℂ) + (e : ℂ)).im ≠ 0 := by simpa using hd1
  have huniq : ∀ u, Solves A.n (hamiltonian A.n A.hOp A.cut A.restrictions)
        ((w : ℂ) + Complex.I * (A.delta1 : ℂ) + (e : ℂ)) (ampl A.n psi1) u → u = ampl A.n psi2 :=
    fun u hu => solves_unique hA.hop hdict hh A.restrictions hz hsol hu
  refine hm.imp fun v y hy => ?_
  obtain ⟨y₀, h1, h2⟩ := hy
  refine ⟨y₀, ⟨_, hsol, huniq, ?_⟩, fun x hx => ?_⟩
  · rw [← ampl_rixsOutState hop0 hst]
    exact h1
  · rw [huniq x hx, ← ampl_rixsOutState hop0 hst]
    exact h2

section
variable {A : RixsArgs} (hA : A.Valid) {tOpsIn : List (Op ℕ ℂ)} (hin : ∀ op ∈ tOpsIn, OpInSystem A.n op)
  {psis : List (Psi ℂ)} {es : List ℝ} (hlen : es.length ≤ psis.length) (hpsis : ∀ psi ∈ psis, IsState A.n psi)

include hA hin hlen hpsis in
theorem refRixs_error (hdict : Dict.NodupKeys A.hOp) (hh : isHermitianOp A.hOp) (hd1 : A.delta1 ≠ 0)
    (hsolve : ExactSolver A.solve) {op0 : Op ℕ ℂ} {rest : List (Op ℕ ℂ)} (ho0 : OpInSystem A.n op0)
    {x : RefRixs} (hx : refRixs A tOpsIn (op0 :: rest) psis es = .ok x)
    (a b c d : ℕ) (ha : a < es.length) (hb : b < tOpsIn.length) (hc : c < (op0 :: rest).length)
    (hd : d < A.wIns.length) (hlarge : A.Large tOpsIn[b])
    {X : Set (Finset ℕ)} (hT : ∀ x, Solves A.n (hamiltonian A.n A.hOp A.cut A.restrictions)
        ((A.wIns[d] : ℂ) + Complex.I * (A.delta1 : ℂ) + (es.getD a 0 : ℂ))
        (excitation A.n tOpsIn[b] A.slaterWeightMin A.restrictions (psis.getD a [])) x →
      NoneDropped A.n A.slaterWeightMin (transition A.n op0 A.slaterWeightMin A.restrictions x) ∧
      ClosedAround A.n (hamiltonian A.n A.hOp A.cut A.restrictions)
        (transition A.n op0 A.slaterWeightMin A.restrictions x) X) {c₀ wd : ℝ} (hwd : 0 < wd)
    (hband : EnergiesWithin A.n (hamiltonian A.n A.hOp A.cut A.restrictions) X c₀ wd) :
    List.Forall₂ (fun (v : ℝ) y => ∃ y₀, IsRixs A.n (hamiltonian A.n A.hOp A.cut A.restrictions)
      ((A.wIns[d] : ℂ) + Complex.I * (A.delta1 : ℂ) + (es.getD a 0 : ℂ))
      ((v : ℂ) + Complex.I * (A.delta2 : ℂ) + (es.getD a 0 : ℂ))
      (excitation A.n tOpsIn[b] A.slaterWeightMin A.restrictions (psis.getD a []))
      (transition A.n op0 A.slaterWeightMin A.restrictions) y₀ ∧
      ∀ x, Solves A.n (hamiltonian A.n A.hOp A.cut A.restrictions)
        ((A.wIns[d] : ℂ) + Complex.I * (A.delta1 : ℂ) + (es.getD a 0 : ℂ))
        (excitation A.n tOpsIn[b] A.slaterWeightMin A.restrictions (psis.getD a [])) x →
      ‖y - y₀‖ ≤ Spec.normSq A.n (transition A.n op0 A.slaterWeightMin A.restrictions x)
        * lanczosError wd A.delta2 A.krylovSize) A.wLoss (x.root a b c d) := by
  obtain ⟨r, ⟨psi1, big, big', sys, hcc, h1, hsys, hp⟩, hr⟩ := (refRixs_value hA hin hlen hpsis hx).1 a ha b hb d hd
  obtain ⟨psi2, g, h2, hrow, hr1, -⟩ := rixsPoint_rows hp
  have hap : a < psis.length := lt_of_lt_of_le ha hlen
  have hpsi : IsState A.n psis[a] := hpsis _ (List.getElem_mem _)
  have hop : OpInSystem A.n tOpsIn[b] := hin _ (List.getElem_mem _)
  rw [List.getD_eq_getElem _ _ hap] at h1 hT ⊢
  have hcg : (List.replicate (op0 :: rest).length g).getD c (List.replicate A.wLoss.length 0) = g := by
    rw [List.getD_eq_getElem _ _ (by simpa using hc), List.getElem_replicate]
  rw [(hr c).1, hr1, hcg]
  have hex : Excited A.n A.slaterWeightMin A.restrictions psi1 := by
    obtain ⟨p, c, hp, -, hex⟩ := applyOp_cached_excited hop hpsi hA.weight A.restrictions hcc
    rw [h1] at hp
    cases hp
    exact hex
  have hampl := cached_excitation hA hop hlarge hpsi hcc h1
  rw [← hampl] at hT ⊢
  exact rixsPoint_error hA hdict hh hd1 hsolve ho0 hex hsys h2 hrow hT hwd hband

end

section
variable {S : SimulateArgs} (hS : S.Valid) (hout : S.OutLarge) {N : ℕ} (hN : 0 < N)
  {ord : Fin N → ℕ → ℕ → ℕ → SetOrders} (hord : ∀ k c t i, (ord k c t i).Valid)
  {ordRixs : Fin N → List ℕ → SetOrders} (hordR : ∀ k l, (ordRixs k l).Valid) {out : Fin N → Option Simulated}
  (hfin : CanFinish msgSum (fun k : Fin N => simulateSpectra S (ord k) (ordRixs k) k.val N) out)
  {s : Simulated} (hs : out ⟨0, hN⟩ = some s)
  (hdict : Dict.NodupKeys S.hOp) (hh : isHermitianOp S.hOp)
  {l1 l2 b1 b2 : ℕ} (hsys : S.nBaths = [(l1, b1), (l2, b2)])

include hS hout hord hordR hfin hs hdict hh hsys in
/-- C82, RIXS in `simulate_spectra`.  The intermediate state `x` is solved for; only the response of `T' x` is from Lanczos. -/
theorem C82_rixs (hsolve : ExactSolver S.solve) (i a c d k : ℕ) (hi : i < S.es.length)
    (ha : a < S.epsilonsRIXSin.length) (hc : c < S.epsilonsRIXSout.length) (hd : d < S.wIn.length)
    (hk : k < S.wLoss.length)
    (T : Vec ℂ → Vec ℂ) (hT : T = between (position (intKeys S.nBaths)) l2 l1 (fun m m' =>
      dipole S.gaunt S.epsilonsRIXSin[a].x S.epsilonsRIXSin[a].y S.epsilonsRIXSin[a].z l2 m l1 m'))
    (T' : Vec ℂ → Vec ℂ) (hT' : T' = between (position (intKeys S.nBaths)) l1 l2 (fun m' m =>
      star (dipole S.gaunt (S.epsilonsRIXSout[0]'(Nat.zero_lt_of_lt hc)).x (S.epsilonsRIXSout[0]'(Nat.zero_lt_of_lt hc)).y
        (S.epsilonsRIXSout[0]'(Nat.zero_lt_of_lt hc)).z l2 m l1 m')))
    (hsmall : NoSmall (size S) T S.slaterWeightMin S.restrictions)
    {X : Set (Finset ℕ)}
    (hres : ∀ x, Solves (size S) (hamilton S) ((S.wIn[d] : ℂ) + Complex.I * S.delta + (S.es.getD i 0 : ℂ)) (excite S T i) x →
      NoneDropped (size S) S.slaterWeightMin (exciteVec S T' x) ∧
      ClosedAround (size S) (hamilton S) (exciteVec S T' x) X) {c₀ wd : ℝ} (hwd : 0 < wd)
    (hband : EnergiesWithin (size S) (hamilton S) X c₀ wd) :
    ∃ g, IsRixs (size S) (hamilton S) ((S.wIn[d] : ℂ) + Complex.I * S.delta + (S.es.getD i 0 : ℂ))
        ((S.wLoss[k] : ℂ) + Complex.I * S.deltaRIXS + (S.es.getD i 0 : ℂ)) (excite S T i) (exciteVec S T') g ∧
      ∀ x, Solves (size S) (hamilton S) ((S.wIn[d] : ℂ) + Complex.I * S.delta + (S.es.getD i 0 : ℂ)) (excite S T i) x →
        |s.rixs.data i a c d k - -g.im| ≤
          Spec.normSq (size S) (exciteVec S T' x) * lanczosError wd S.deltaRIXS S.krylovSize := by
  obtain ⟨st⟩ := simulate_steps' hS hout hN hord hordR hfin hs
  have hne : l1 ≠ l2 := by
    have := hS.nBaths
    rw [hsys] at this
    simpa [Dict.NodupKeys, Dict.keys] using this
  have he := st.rin_eq
  have he' := st.rout_eq
  have hn : nSpinOrbitals S.nBaths = size S := nSpinOrbitals_eq _
  have hin : ∀ op ∈ st.rin, OpInSystem (nSpinOrbitals S.nBaths) op := by
    rw [hn]; exact dipoles_okIn S.gaunt hS.good _ _ st.rin_eq
  have hrout : ∀ op ∈ st.rout, OpInSystem (nSpinOrbitals S.nBaths) op := by
    rw [hn]; exact daggered_okIn S.gaunt hS.good _ _ st.rout_eq
  have hiK : intKeys S.nBaths = [(.int l1, b1), (.int l2, b2)] := by rw [hsys]; rfl
  rw [hiK] at he he' hT hT'
  obtain ⟨hl, ho⟩ := dipoles_spec S.gaunt hne he
  obtain ⟨hl', ho'⟩ := daggered_spec S.gaunt hne he'
  have hx := st.gRixs_eq
  have hfiles := (rixsFiles_spec st.rixsFiles).1
  have h0 := ho' 0 (Nat.zero_lt_of_lt hc)
  have hc' : c < st.rout.length := hl' ▸ hc
  obtain ⟨op0, rest, hro⟩ : ∃ op0 rest, st.rout = op0 :: rest := by
    cases h : st.rout with
    | nil => rw [h] at hc'; simp at hc'
    | cons op0 rest => exact ⟨op0, rest, rfl⟩
  have hop0 : st.rout[0]'(Nat.zero_lt_of_lt hc') = op0 := by simp [hro]
  rw [hop0] at h0
  rw [hro] at hx hrout hc'
  have hTe : operator (opSpec (st.rin[a]'(hl ▸ ha))) = T := (ho a ha).trans hT.symm
  have hT0 : exciteVec S T' = transition (size S) op0 S.slaterWeightMin S.restrictions := by
    refine (excited_congr (fun v F hF => ?_) _ _ : _ = excited (size S) (operator (opSpec op0)) _ _)
    rw [hT']
    refine (h0 v F ?_).symm
    unfold size at hF
    rwa [hiK] at hF
  rw [hT0] at hres ⊢
  subst hTe
  have key := refRixs_error (A := S.rixs) hS.rixs hin hS.enough hS.states hdict hh hS.delta hsolve
    (hrout op0 (by simp)) hx i a c d hi (hl ▸ ha) hc' hd (by
      intro F hF F' hF' hal
      have hF : F ⊆ range (nSpinOrbitals S.nBaths) := hF
      have hF' : F' ⊆ range (nSpinOrbitals S.nBaths) := hF'
      rw [hn] at hF hF'
      exact hsmall F' hF' F hF hal) (by
      show ∀ x, Solves (nSpinOrbitals S.nBaths) (hamiltonian (nSpinOrbitals S.nBaths) S.hOp S.cut S.restrictions)
          ((S.wIn[d] : ℂ) + Complex.I * (S.delta : ℂ) + (S.es.getD i 0 : ℂ))
          (excitation (nSpinOrbitals S.nBaths) (st.rin[a]'(hl ▸ ha)) S.slaterWeightMin S.restrictions (S.psis.getD i [])) x →
        NoneDropped (nSpinOrbitals S.nBaths) S.slaterWeightMin
          (transition (nSpinOrbitals S.nBaths) op0 S.slaterWeightMin S.restrictions x) ∧
        ClosedAround (nSpinOrbitals S.nBaths) (hamiltonian (nSpinOrbitals S.nBaths) S.hOp S.cut S.restrictions)
            (transition (nSpinOrbitals S.nBaths) op0 S.slaterWeightMin S.restrictions x) X
      rw [hn]
      exact hres) hwd (by
      show EnergiesWithin (nSpinOrbitals S.nBaths) (hamiltonian (nSpinOrbitals S.nBaths) S.hOp S.cut S.restrictions) X c₀ wd
      rw [hn]
      exact hband)
  have key := forall2_getD key 0 hk
  have key : ∃ g, IsRixs (nSpinOrbitals S.nBaths) (hamiltonian (nSpinOrbitals S.nBaths) S.hOp S.cut S.restrictions)
      ((S.wIn[d] : ℂ) + Complex.I * S.delta + (S.es.getD i 0 : ℂ))
      ((S.wLoss[k] : ℂ) + Complex.I * S.deltaRIXS + (S.es.getD i 0 : ℂ))
      (excitation (nSpinOrbitals S.nBaths) (st.rin[a]'(hl ▸ ha)) S.slaterWeightMin S.restrictions (S.psis.getD i []))
      (transition (nSpinOrbitals S.nBaths) op0 S.slaterWeightMin S.restrictions) g ∧
      ∀ x, Solves (nSpinOrbitals S.nBaths) (hamiltonian (nSpinOrbitals S.nBaths) S.hOp S.cut S.restrictions)
          ((S.wIn[d] : ℂ) + Complex.I * (S.delta : ℂ) + (S.es.getD i 0 : ℂ))
          (excitation (nSpinOrbitals S.nBaths) (st.rin[a]'(hl ▸ ha)) S.slaterWeightMin S.restrictions (S.psis.getD i [])) x →
        ‖(st.gRixs.root i a c d).getD k 0 - g‖ ≤ Spec.normSq (nSpinOrbitals S.nBaths)
          (transition (nSpinOrbitals S.nBaths) op0 S.slaterWeightMin S.restrictions x)
          * lanczosError wd S.deltaRIXS S.krylovSize := key
  rw [hn] at key
  obtain ⟨g, h1, h2⟩ := key
  refine ⟨g, h1, fun x hx => ?_⟩
  rw [hfiles i a c d k, neg_sub_neg, abs_sub_comm]
  exact im_close (h2 x hx)

end

end

end Verif
