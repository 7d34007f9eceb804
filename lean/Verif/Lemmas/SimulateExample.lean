/-
A run of simulate_spectra that finishes: one Krylov vector, electrons that do not
interact.
-/
import Verif.Lemmas.SimulateValue

namespace Verif

open Finset Mpi Psr Spec Matrix

noncomputable section

/-! ### With one Krylov vector nothing raises -/

theorem spectrumOf_one {A : SpectraArgs} (hA : A.Valid) (hdict : Dict.NodupKeys A.hOp) (hh : isHermitianOp A.hOp)
    (h1 : A.krylovSize = 1) {psiR : Psi ℂ} (hE : Excited A.n A.slaterWeightMin A.restrictions psiR) (e : ℝ) :
    ∃ g, spectrumOf A psiR e = .ok g := by
  unfold spectrumOf
  by_cases hnil : psiR = []
  · subst hnil
    exact ⟨_, rfl⟩
  · have hpos := hE.norm_pos hA.weight hnil
    have hnorm := norm2_unit hpos
    obtain ⟨states, d, hlen, M, v, hnd, hsm, hherm, hvn, hli, -, -, -⟩ :=
      getGreen_matrix hA.hop hdict hh hA.cut A.restrictions (isState_unit hE.state) (norm_one_ne_nil hnorm)
        (fun S hS hk => hE.allowed S hS (by rwa [keys_unit] at hk)) hnorm hA.fuel A.krylovSize
    have hX : SmallestInvariant A.n A.hOp A.cut A.restrictions {S | S ⊆ range A.n ∧ encBytes A.n S ∈ Dict.keys (unit psiR)}
        {S | S ∈ states.toFinset} := by
      convert hsm using 1
      ext S; simp
    obtain ⟨hre, ht⟩ := C57_raises hA.hop hdict hh hA.cut A.restrictions (isState_unit hE.state)
      (fun S hS hk => hE.allowed S hS (by rwa [keys_unit] at hk)) hnorm states.toFinset hX A.krylovSize A.fuel hA.fuel e A.w
      A.delta hA.delta [] (columnsExact_nil ..)
    rcases ht with ht | ⟨g, h', hg, -, -⟩
    · exfalso
      rcases hre.1 ht with h | h
      · omega
      · apply h
        rw [List.toFinset_card_of_nodup hnd, ← hlen, hli]
        have hd := dim_pos M hherm v hvn
        have : min A.krylovSize d = 1 := by omega
        rw [this, linearIndependent_unique_iff]
        show M ^ 0 *ᵥ v ≠ 0
        rw [pow_zero, one_mulVec]
        rintro rfl
        simp at hvn
    · rw [hg]
      exact ⟨_, rfl⟩

/-- If no spectrum raises, the loops over operators and eigenstates finish. -/
theorem refHBuild_core {A : SpectraArgs} (hA : A.Valid) {psis : List (Psi ℂ)} {es : List ℝ} (hlen : es.length ≤ psis.length)
    (hpsis : ∀ psi ∈ psis, IsState A.n psi) {tOps : List (Op ℕ ℂ)} (htOps : ∀ tOp ∈ tOps, OpInSystem A.n tOp)
    (hspec : ∀ t (_ : t < tOps.length) i (_ : i < es.length),
      Excited A.n A.slaterWeightMin A.restrictions (hBuildStates A tOps psis es.length t i) →
      ∃ g, spectrumOf A (hBuildStates A tOps psis es.length t i) (es.getD i 0) = .ok g) :
    ∃ x, refHBuild A tOps psis es = .ok x := by
  cases hx : refHBuild A tOps psis es with
  | ok x => exact ⟨x, rfl⟩
  | error err =>
    exfalso
    obtain ⟨t, i, ht, hi, err, he⟩ := (refHBuild_spec hA hlen hpsis htOps).2 ⟨err, hx⟩
    have hin := htOps _ (List.getElem_mem ht)
    obtain ⟨res, c, r1, r2, r3, -⟩ := refBody_fold hA (es := es) hpsis hin t es.length 0 (by omega) (by omega)
      ⟨fun _ _ => [], fun _ _ => []⟩ [] (correct_nil ..)
    rw [List.drop_zero] at r1
    have hget : tOps.getD t [] = tOps[t] := List.getD_eq_getElem _ _ ht
    have hst : hBuildStates A tOps psis es.length t i = res[i]'(by omega) := by
      unfold hBuildStates
      rw [hget, r1]
      exact List.getD_eq_getElem _ _ _
    obtain ⟨g, hg⟩ := hspec t ht i hi (by rw [hst]; exact r3 _ (List.getElem_mem (by omega : i < res.length)))
    rw [hg] at he
    cases he

theorem refHBuild_of {A : SpectraArgs} (hA : A.Valid)
    (hspec : ∀ psiR e, Excited A.n A.slaterWeightMin A.restrictions psiR → ∃ g, spectrumOf A psiR e = .ok g)
    {psis : List (Psi ℂ)} {es : List ℝ} (hlen : es.length ≤ psis.length)
    (hpsis : ∀ psi ∈ psis, IsState A.n psi) {tOps : List (Op ℕ ℂ)} (htOps : ∀ tOp ∈ tOps, OpInSystem A.n tOp) :
    ∃ x, refHBuild A tOps psis es = .ok x :=
  refHBuild_core hA hlen hpsis htOps fun _ _ _ _ h => hspec _ _ h

/-- The same, if no matrix element of the transition operators is small. -/
theorem refHBuild_large {A : SpectraArgs} (hA : A.Valid) {psis : List (Psi ℂ)} {es : List ℝ} (hlen : es.length ≤ psis.length)
    (hpsis : ∀ psi ∈ psis, IsState A.n psi) {tOps : List (Op ℕ ℂ)} (htOps : ∀ tOp ∈ tOps, OpInSystem A.n tOp)
    (hsmall : ∀ tOp ∈ tOps, ∀ T ⊆ range A.n, NoSmallElements A.n tOp A.slaterWeightMin A.restrictions T)
    (hspec : ∀ t (_ : t < tOps.length) i (_ : i < es.length), ∀ psiR, Excited A.n A.slaterWeightMin A.restrictions psiR →
      ampl A.n psiR = excitation A.n tOps[t] A.slaterWeightMin A.restrictions (psis.getD i []) →
      ∃ g, spectrumOf A psiR (es.getD i 0) = .ok g) :
    ∃ x, refHBuild A tOps psis es = .ok x := by
  refine refHBuild_core hA hlen hpsis htOps fun t ht i hi hE => hspec t ht i hi _ hE ?_
  have hi' : i < psis.length := by omega
  rw [← ampl_congr ((hBuildStates_spec hA hlen hpsis htOps ht hi).2 (hsmall _ (List.getElem_mem ht)))]
  refine ampl_transitionState (htOps _ (List.getElem_mem ht)) ?_
  rw [List.getD_eq_getElem _ _ hi']
  exact hpsis _ (List.getElem_mem hi')

theorem refHBuild_one {A : SpectraArgs} (hA : A.Valid) (hdict : Dict.NodupKeys A.hOp) (hh : isHermitianOp A.hOp)
    (h1 : A.krylovSize = 1) {psis : List (Psi ℂ)} {es : List ℝ} (hlen : es.length ≤ psis.length)
    (hpsis : ∀ psi ∈ psis, IsState A.n psi) {tOps : List (Op ℕ ℂ)} (htOps : ∀ tOp ∈ tOps, OpInSystem A.n tOp) :
    ∃ x, refHBuild A tOps psis es = .ok x :=
  refHBuild_of hA (fun _ e hE => spectrumOf_one hA hdict hh h1 hE e) hlen hpsis htOps

/-- The same, if the spectra that are calculated do not raise. -/
theorem refRixs_core {A : RixsArgs} (hA : A.Valid) (hdict : Dict.NodupKeys A.hOp) (hh : isHermitianOp A.hOp)
    (hd1 : A.delta1 ≠ 0) (hsolve : ExactSolver A.solve)
    {tOpsIn rest : List (Op ℕ ℂ)} {op0 : Op ℕ ℂ}
    (hin : ∀ op ∈ tOpsIn, OpInSystem A.n op) (hlarge : ∀ op ∈ tOpsIn, A.Large op) (h0 : OpInSystem A.n op0)
    {psis : List (Psi ℂ)} {es : List ℝ} (hlen : es.length ≤ psis.length) (hpsis : ∀ psi ∈ psis, IsState A.n psi)
    (hres : ∀ op ∈ tOpsIn, ∀ a (ha : a < es.length), ∀ w ∈ A.wIns, ∀ x,
      Solves A.n (hamiltonian A.n A.hOp A.cut A.restrictions) ((w : ℂ) + Complex.I * (A.delta1 : ℂ) + (es[a] : ℂ))
        (excitation A.n op A.slaterWeightMin A.restrictions (psis[a]'(lt_of_lt_of_le ha hlen))) x →
      NoneDropped A.n A.slaterWeightMin (transition A.n op0 A.slaterWeightMin A.restrictions x) ∧
      ∀ psiR, Excited A.n A.slaterWeightMin A.restrictions psiR →
        ampl A.n psiR = transition A.n op0 A.slaterWeightMin A.restrictions x → ∃ g, spectrumOf A.spectra psiR es[a] = .ok g) :
    ∃ x, refRixs A tOpsIn (op0 :: rest) psis es = .ok x := by
  apply refRixs_ok hA hin hlen hpsis
  intro op hop a ha w hw psi1 big big' sys hc he hex hsys
  have hpsi := hpsis _ (List.getElem_mem (lt_of_lt_of_le ha hlen))
  have hpsi1 := cached_excitation hA (hin op hop) (hlarge op hop) hpsi hc he
  obtain ⟨H, states, y, hnd, hs, -, -, -, hsys', -⟩ := rixsSystem_spec (N := 1) (by omega) hA hex.state .serial
    (fun _ => ⟨fun _ l => l, fun l => l⟩) (fun _ => ⟨fun _ l => List.Perm.refl l, fun l => List.Perm.refl l⟩)
    (fun _ => []) (fun _ => columnsExact_nil ..) (fun h => h.elim)
  have hse := Except.ok.inj (hsys.symm.trans hsys')
  subst hse
  obtain ⟨psi2, h2, -⟩ := rixsIntermediate_spec A H hnd hs y es[a] w
  obtain ⟨hst, hsol⟩ := intermediate_solves hA hdict hh hd1 hsolve hex hsys h2
  rw [hpsi1] at hsol
  obtain ⟨hn, hspec⟩ := hres op hop a ha w hw _ hsol
  rw [← ampl_rixsOutState h0 hst] at hn
  have hE : Excited A.n A.slaterWeightMin A.restrictions (rixsOutState A op0 psi2) :=
    applyOp_excited h0 hst hA.weight A.restrictions
  obtain ⟨g, hg⟩ := hspec (rixsOutState A op0 psi2) hE (ampl_rixsOutState h0 hst)
  refine ⟨(List.replicate (op0 :: rest).length g, rixsOtherRows A (op0 :: rest) es[a] psi2), ?_⟩
  unfold rixsPoint
  rw [h2]
  simp only [ok_bind, rixsRows]
  rw [rixsRow_eq_spectrum hA hE hn, hg]
  rfl

theorem refRixs_of {A : RixsArgs} (hA : A.Valid) (hdict : Dict.NodupKeys A.hOp) (hh : isHermitianOp A.hOp)
    (hd1 : A.delta1 ≠ 0) (hsolve : ExactSolver A.solve)
    (hspec : ∀ psiR e, Excited A.n A.slaterWeightMin A.restrictions psiR → ∃ g, spectrumOf A.spectra psiR e = .ok g)
    {tOpsIn rest : List (Op ℕ ℂ)} {op0 : Op ℕ ℂ}
    (hin : ∀ op ∈ tOpsIn, OpInSystem A.n op) (hlarge : ∀ op ∈ tOpsIn, A.Large op) (h0 : OpInSystem A.n op0)
    {psis : List (Psi ℂ)} {es : List ℝ} (hlen : es.length ≤ psis.length) (hpsis : ∀ psi ∈ psis, IsState A.n psi)
    (hres : ∀ op ∈ tOpsIn, ∀ a (ha : a < es.length), ∀ w ∈ A.wIns, ∀ x,
      Solves A.n (hamiltonian A.n A.hOp A.cut A.restrictions) ((w : ℂ) + Complex.I * (A.delta1 : ℂ) + (es[a] : ℂ))
        (excitation A.n op A.slaterWeightMin A.restrictions (psis[a]'(lt_of_lt_of_le ha hlen))) x →
      NoneDropped A.n A.slaterWeightMin (transition A.n op0 A.slaterWeightMin A.restrictions x)) :
    ∃ x, refRixs A tOpsIn (op0 :: rest) psis es = .ok x :=
  refRixs_core hA hdict hh hd1 hsolve hin hlarge h0 hlen hpsis fun op hop a ha w hw x hx =>
    ⟨hres op hop a ha w hw x hx, fun psiR hE _ => hspec psiR es[a] hE⟩

/-- If no spectrum raises, simulate_spectra finishes. -/
theorem refSimulate_core {S : SimulateArgs} (hS : S.Valid) (h1 : 1 ∈ allAngulars (intKeys S.nBaths))
    (h2 : 2 ∈ allAngulars (intKeys S.nBaths)) (hes : S.es ≠ []) (hT : S.kB * S.T ≠ 0)
    {tN tX tI tO : List (Op ℕ ℂ)}
    (eNixs : getNIXSOperators S.gaunt S.sphHarm S.jn (intKeys S.nBaths) S.qsNIXS S.liNIXS S.ljNIXS S.RiNIXS S.RjNIXS
      S.radialMesh S.kmin = .ok tN)
    (eXas : getDipoleOperators S.gaunt (intKeys S.nBaths) S.epsilons = .ok tX)
    (eRin : getDipoleOperators S.gaunt (intKeys S.nBaths) S.epsilonsRIXSin = .ok tI)
    (eRout : getDaggeredDipoleOperators S.gaunt (intKeys S.nBaths) S.epsilonsRIXSout = .ok tO)
    (spec : ∀ {w : List ℝ} {d : ℝ}, d ≠ 0 → ∀ {tOps : List (Op ℕ ℂ)},
      (∀ t ∈ tOps, OpInSystem (nTotal (intKeys S.nBaths)) t) →
      (getInversePhotoEmissionOperators (intKeys S.nBaths) 2 = .ok tOps ∨ getPhotoEmissionOperators (intKeys S.nBaths) 2 = .ok tOps ∨
        getPhotoEmissionOperators (intKeys S.nBaths) 1 = .ok tOps ∨ tOps = tN ∨ tOps = tX) →
      ∃ x, refHBuild (S.spectra w d) tOps S.psis S.es = .ok x)
    (hr : ∃ x, refRixs S.rixs tI tO S.psis S.es = .ok x) : ∃ s, refSimulate S = .ok s := by
  have file : ∀ (w : List ℝ) (k : ℕ) (gs : Spectra), ∃ s, spectrumFiles S.kB S.es S.T w k gs = .ok s := by
    intro w k gs
    unfold spectrumFiles
    dsimp only
    rcases thermalAverage_cases S.kB S.es S.T (intensity gs) with ⟨-, -, h⟩ | ⟨h, -⟩
    · rw [h]; exact ⟨_, rfl⟩
    · exact absurd ⟨hes, hT⟩ h
  obtain ⟨ePs, eIps⟩ := (C47_enumerate _ hS.good 2).1 h2
  obtain ⟨eXps, -⟩ := (C47_enumerate _ hS.good 1).1 h1
  obtain ⟨gIps, f1⟩ := spec hS.delta (inversePhoto_okIn hS.good 2 _ eIps) (Or.inl eIps) (w := S.w)
  obtain ⟨gPs, f2⟩ := spec (neg_ne_zero.2 hS.delta) (photo_okIn hS.good 2 _ ePs) (Or.inr (Or.inl ePs)) (w := S.w.map fun x => -x)
  obtain ⟨gXps, f3⟩ := spec (neg_ne_zero.2 hS.delta) (photo_okIn hS.good 1 _ eXps) (Or.inr (Or.inr (Or.inl eXps))) (w := S.w.map fun x => -x)
  obtain ⟨gNixs, f4⟩ := spec hS.deltaNIXS (nixss_okIn _ _ _ hS.good _ _ _ _ _ _ _ _ eNixs) (Or.inr (Or.inr (Or.inr (Or.inl rfl)))) (w := S.wLoss)
  obtain ⟨gXas, f5⟩ := spec hS.delta (dipoles_okIn _ hS.good _ _ eXas) (Or.inr (Or.inr (Or.inr (Or.inr rfl)))) (w := S.w)
  obtain ⟨gRixs, f6⟩ := hr
  obtain ⟨sR, fRixs⟩ : ∃ s, rixsFiles S.f32 S.kB S.es S.T S.wIn S.wLoss tI.length tO.length gRixs.root = .ok s := by
    unfold rixsFiles
    dsimp only
    rcases thermalAverage_cases S.kB S.es S.T
      (fun iE i o iw k => -((gRixs.root iE i o iw).getD k 0).im) with ⟨-, -, h⟩ | ⟨h, -⟩
    · rw [h]; exact ⟨_, rfl⟩
    · exact absurd ⟨hes, hT⟩ h
  unfold refSimulate
  dsimp only
  rw [eIps, ePs]
  simp only [ok_bind, pure_ok]
  rw [f1]
  simp only [ok_bind]
  rw [f2]
  simp only [ok_bind]
  obtain ⟨s1, g1⟩ := file S.w _ (gPs.root.negate.add gIps.root)
  rw [g1]
  simp only [ok_bind]
  rw [eXps]
  simp only [ok_bind]
  rw [f3]
  simp only [ok_bind]
  obtain ⟨s2, g2⟩ := file S.w _ gXps.root.negate
  rw [g2]
  simp only [ok_bind]
  rw [eNixs]
  simp only [ok_bind]
  rw [f4]
  simp only [ok_bind]
  obtain ⟨s3, g3⟩ := file S.wLoss _ gNixs.root
  rw [g3]
  simp only [ok_bind]
  rw [eXas]
  simp only [ok_bind]
  rw [f5]
  simp only [ok_bind]
  obtain ⟨s4, g4⟩ := file S.w _ gXas.root
  rw [g4]
  simp only [ok_bind]
  rw [eRin, eRout]
  simp only [ok_bind]
  rw [f6]
  simp only [ok_bind]
  rw [fRixs]
  exact ⟨_, rfl⟩

theorem refSimulate_of {S : SimulateArgs} (hS : S.Valid) (h1 : 1 ∈ allAngulars (intKeys S.nBaths))
    (h2 : 2 ∈ allAngulars (intKeys S.nBaths)) (hes : S.es ≠ []) (hT : S.kB * S.T ≠ 0)
    (hspec : ∀ w d, d ≠ 0 → ∀ psiR e, Excited (nSpinOrbitals S.nBaths) S.slaterWeightMin S.restrictions psiR →
      ∃ g, spectrumOf (S.spectra w d) psiR e = .ok g)
    {tN tX tI tO : List (Op ℕ ℂ)}
    (eNixs : getNIXSOperators S.gaunt S.sphHarm S.jn (intKeys S.nBaths) S.qsNIXS S.liNIXS S.ljNIXS S.RiNIXS S.RjNIXS
      S.radialMesh S.kmin = .ok tN)
    (eXas : getDipoleOperators S.gaunt (intKeys S.nBaths) S.epsilons = .ok tX)
    (eRin : getDipoleOperators S.gaunt (intKeys S.nBaths) S.epsilonsRIXSin = .ok tI)
    (eRout : getDaggeredDipoleOperators S.gaunt (intKeys S.nBaths) S.epsilonsRIXSout = .ok tO)
    (hr : ∃ x, refRixs S.rixs tI tO S.psis S.es = .ok x) : ∃ s, refSimulate S = .ok s := by
  refine refSimulate_core hS h1 h2 hes hT eNixs eXas eRin eRout (fun {w d} hd {tOps} ht _ => ?_) hr
  exact refHBuild_of (hS.spectra w hd) (hspec w d hd) hS.enough hS.states (by
    show ∀ t ∈ tOps, OpInSystem (nSpinOrbitals S.nBaths) t
    rw [nSpinOrbitals_eq]; exact ht)

/-! ### Electrons that do not interact -/

/-- The total number of electrons in 16 spin-orbitals. -/
def countAll : Op ℕ ℤ := (List.range 16).map fun i => ([(i, .c), (i, .a)], 1)

theorem countAll_in : OpInSystem 16 countAll := by unfold OpInSystem countAll; decide

theorem countAll_nodup : Dict.NodupKeys countAll := by unfold Dict.NodupKeys countAll; decide

theorem countAll_hermitian : isHermitianOp countAll := by
  intro p
  rw [show daggerOp countAll = countAll by decide]

/-- All product states in `v` have `m` electrons in the 16 spin-orbitals. -/
def Electrons (m : ℕ) (v : Vec ℂ) : Prop := ∀ F, v F ≠ 0 → F ⊆ range 16 ∧ F.card = m

theorem operator_countAll (v : Vec ℂ) {F : Finset ℕ} (hF : F ⊆ range 16) :
    operator (opSpec (castOp countAll)) v F = F.card * v F := by
  have h1 : operator (opSpec (castOp countAll)) v F
      = ((List.range 16).map fun i => create i (annihilate i v) F).sum := by
    unfold operator opSpec castOp countAll
    simp only [List.map_map]
    congr 1
    apply List.map_congr_left
    intro i _
    simp [processSpec, product, ladder]
  rw [h1]
  simp only [create_annihilate_self]
  rw [← List.sum_toFinset _ (List.nodup_range), List.toFinset_range, Finset.sum_ite_mem, Finset.sum_const,
    Finset.inter_eq_right.2 hF, nsmul_eq_mul]

theorem exists_threshold {ι : Type} (s : Finset ι) (f : ι → ℝ) (hf : ∀ i, 0 ≤ f i) :
    ∃ c : ℝ, 0 < c ∧ ∀ i ∈ s, f i = 0 ∨ c ≤ f i := by
  classical
  induction s using Finset.induction_on with
  | empty => exact ⟨1, one_pos, by simp⟩
  | insert a s _ ih =>
    obtain ⟨c, hc, h⟩ := ih
    by_cases ha : f a = 0
    · refine ⟨c, hc, fun i hi => ?_⟩
      rcases mem_insert.1 hi with rfl | hi
      · exact Or.inl ha
      · exact h i hi
    · have hpos : 0 < f a := lt_of_le_of_ne (hf a) (Ne.symm ha)
      refine ⟨min c (f a), lt_min hc hpos, fun i hi => ?_⟩
      rcases mem_insert.1 hi with rfl | hi
      · exact Or.inr (min_le_right _ _)
      · exact (h i hi).imp id fun h => le_trans (min_le_left _ _) h

theorem exists_noSmall (n : ℕ) (T : Vec ℂ → Vec ℂ) : ∃ c : ℝ, 0 < c ∧ ∀ c' ≤ c, NoSmall n T c' none := by
  obtain ⟨c, hc, h⟩ := exists_threshold ((range n).powerset ×ˢ (range n).powerset)
    (fun p => Complex.normSq (T (Spec.single p.2 1) p.1)) (fun _ => Complex.normSq_nonneg _)
  refine ⟨c, hc, fun c' hc' S hS S' hS' _ => ?_⟩
  rcases h (S, S') (mem_product.2 ⟨mem_powerset.2 hS, mem_powerset.2 hS'⟩) with h | h
  · exact Or.inl (Complex.normSq_eq_zero.1 h)
  · exact Or.inr (le_trans hc' h)

theorem card_create {m i : ℕ} {v : Vec ℂ} (h : ∀ F, v F ≠ 0 → F.card = m) {F : Finset ℕ} (hF : create i v F ≠ 0) :
    F.card = m + 1 := by
  unfold create at hF
  split at hF
  · next hi =>
    have := h _ (right_ne_zero_of_mul hF)
    rw [card_erase_of_mem hi] at this
    have := card_pos.2 ⟨i, hi⟩
    omega
  · exact absurd rfl hF

theorem card_annihilate {m i : ℕ} {v : Vec ℂ} (h : ∀ F, v F ≠ 0 → F.card = m) {F : Finset ℕ}
    (hF : annihilate i v F ≠ 0) : F.card + 1 = m := by
  unfold annihilate at hF
  split at hF
  · exact absurd rfl hF
  · next hi =>
    have := h _ (right_ne_zero_of_mul hF)
    rwa [card_insert_of_notMem hi] at this

theorem card_between {m : ℕ} {v : Vec ℂ} (h : ∀ F, v F ≠ 0 → F.card = m) {f : Label → ℕ} {li lj : ℕ} {M : ℤ → ℤ → ℂ}
    {F : Finset ℕ} (hF : between f li lj M v F ≠ 0) : F.card = m := by
  unfold between at hF
  obtain ⟨s, -, hF⟩ := exists_ne_zero_of_sum_ne_zero hF
  obtain ⟨a, -, hF⟩ := exists_ne_zero_of_sum_ne_zero hF
  obtain ⟨b, -, hF⟩ := exists_ne_zero_of_sum_ne_zero hF
  have hF := right_ne_zero_of_mul hF
  cases m with
  | zero =>
    exfalso
    unfold create at hF
    split at hF
    · have := card_annihilate h (right_ne_zero_of_mul hF)
      omega
    · exact hF rfl
  | succ m =>
    exact card_create (m := m) (fun F hF => by have := card_annihilate h hF; omega) hF

section
variable (gaunt : GauntFun) (sphHarm : SphHarm) (jn : SphericalJn) (c : ℝ)

/-- One electron in a d shell above a full p shell, no bath states; the Hamiltonian is the
number of electrons.  One point per mesh, one polarisation, one vector `q`. -/
def exSim : SimulateArgs where
  es := [0]
  psis := [[(encBytes 16 (range 7), 1)]]
  hOp := castOp countAll
  T := 1
  w := [8]
  delta := 1
  epsilons := [⟨0, 0, 1⟩]
  wLoss := [7]
  deltaNIXS := 1
  qsNIXS := [⟨1, 0, 0⟩]
  liNIXS := 2
  ljNIXS := 1
  RiNIXS := [1, 1]
  RjNIXS := [1, 1]
  radialMesh := [0, 1]
  wIn := [7]
  deltaRIXS := 1
  epsilonsRIXSin := [⟨0, 0, 1⟩]
  epsilonsRIXSout := [⟨0, 0, 1⟩]
  restrictions := none
  nBaths := [(1, 0), (2, 0)]
  krylovSize := 1
  slaterWeightMin := c
  cut := 1
  kmin := 1
  gaunt := gaunt
  sphHarm := sphHarm
  jn := jn
  solve := fun _ a y => a⁻¹ *ᵥ y
  f32 := id
  kB := 1
  fuel := 2 ^ 16 + 2

/-- The dipole operator of the example. -/
def exDip : Vec ℂ → Vec ℂ := between (position (intKeys [(1, 0), (2, 0)])) 2 1 fun m m' => dipole gaunt 0 0 1 2 m 1 m'

/-- Its adjoint. -/
def exDip' : Vec ℂ → Vec ℂ :=
  between (position (intKeys [(1, 0), (2, 0)])) 1 2 fun m' m => star (dipole gaunt 0 0 1 2 m 1 m')

/-- The NIXS operator of the example. -/
def exNixs : Vec ℂ → Vec ℂ := fun v F => ((Real.sqrt (4 * Real.pi) : ℝ) : ℂ)⁻¹ *
  between (position (intKeys [(1, 0), (2, 0)])) 2 1 (fun mi mj =>
    planeWave gaunt sphHarm (radialIntegral jn [1, 1] [1, 1] [0, 1] 1) (Real.pi / 2) |0| 1 (2 + 1) 2 mi 1 mj) v F

theorem exSim_size : size (exSim gaunt sphHarm jn c) = 16 := by
  show nTotal (intKeys [(1, 0), (2, 0)]) = 16
  decide

theorem exSim_n : nSpinOrbitals (exSim gaunt sphHarm jn c).nBaths = 16 := by
  rw [nSpinOrbitals_eq]; exact exSim_size gaunt sphHarm jn c

theorem exSim_valid (hc : 0 < c) : (exSim gaunt sphHarm jn c).Valid where
  nBaths := by show ([1, 2] : List ℕ).Nodup; decide
  hop := by rw [exSim_n]; exact inSystem_castOp countAll_in
  cut := one_pos
  weight := hc
  delta := one_ne_zero
  deltaNIXS := one_ne_zero
  deltaRIXS := one_ne_zero
  krylov := one_pos
  fuel := by rw [exSim_n]; rfl
  states := by
    intro psi h
    rw [exSim_n, List.mem_singleton.1 h]
    exact isState_single (by decide) 1
  enough := le_rfl

theorem exSim_hamilton {m : ℕ} {v : Vec ℂ} (hv : Electrons m v) :
    hamilton (exSim gaunt sphHarm jn c) v = fun F => m * v F := by
  unfold hamilton
  rw [exSim_size]
  funext F
  by_cases hF : F ⊆ range 16
  · show hamiltonian 16 (castOp countAll) 1 none v F = _
    rw [hamiltonian_eq_operator (n := 16) (fun T _ => noSmall_castOp 16 countAll le_rfl none T) v
      (fun S hS => by by_contra h; exact hS (hv S h).1) F hF, operator_countAll v hF]
    by_cases h : v F = 0
    · rw [h, mul_zero, mul_zero]
    · rw [(hv F h).2]
  · have : v F = 0 := by by_contra h; exact hF (hv F h).1
    unfold hamiltonian
    rw [if_neg hF, this, mul_zero]

theorem exSim_hamilton_at {v : Vec ℂ} (hv : ∀ F, ¬ F ⊆ range 16 → v F = 0) {F : Finset ℕ} (hF : F ⊆ range 16) :
    hamilton (exSim gaunt sphHarm jn c) v F = F.card * v F := by
  unfold hamilton
  rw [exSim_size]
  show hamiltonian 16 (castOp countAll) 1 none v F = _
  rw [hamiltonian_eq_operator (n := 16) (fun T _ => noSmall_castOp 16 countAll le_rfl none T) v hv F hF,
    operator_countAll v hF]

theorem exSim_krylov {m : ℕ} {v : Vec ℂ} (hv : Electrons m v) :
    KrylovExhausted (hamilton (exSim gaunt sphHarm jn c)) (exSim gaunt sphHarm jn c).krylovSize v := by
  intro hli
  have hli : LinearIndependent ℂ fun j : Fin 2 => (hamilton (exSim gaunt sphHarm jn c))^[j.val] v := hli
  have := Fintype.linearIndependent_iff.1 hli ![(m : ℂ), -1] (by
    rw [Fin.sum_univ_two]
    funext F
    simp [exSim_hamilton gaunt sphHarm jn c hv]) 1
  simp at this

theorem exSim_psi : ampl (size (exSim gaunt sphHarm jn c)) ((exSim gaunt sphHarm jn c).psis.getD 0 [])
    = Spec.single (range 7) 1 := by
  rw [exSim_size]
  exact ampl_single (by decide) 1

theorem exSim_exciteVec {T : Vec ℂ → Vec ℂ} {v : Vec ℂ} {m : ℕ} (hT : ∀ F, T v F ≠ 0 → F.card = m) :
    Electrons m (exciteVec (exSim gaunt sphHarm jn c) T v) := by
  intro F hF
  unfold exciteVec excited at hF
  rw [exSim_size] at hF
  split at hF
  · next h => exact ⟨h.1, hT F hF⟩
  · exact absurd rfl hF

theorem single_card : ∀ F, (Spec.single (range 7) (1 : ℂ)) F ≠ 0 → F.card = 7 := by
  intro F hF
  unfold Spec.single at hF
  split at hF
  · next h => rw [h]; rfl
  · exact absurd rfl hF

/-- The intermediate state of the RIXS calculation of the example. -/
def exInter : Vec ℂ := fun F =>
  (if F ⊆ range 16 then exDip gaunt (Spec.single (range 7) 1) F else 0) / (7 + Complex.I - F.card)

theorem exInter_denom (k : ℕ) : (7 : ℂ) + Complex.I - k ≠ 0 := fun h => by
  have := congrArg Complex.im h; simp at this

theorem exists_rixs : ∃ c : ℝ, 0 < c ∧ ∀ c' ≤ c,
    (∀ F ⊆ range 16, exDip' gaunt (exInter gaunt) F = 0 ∨ c' ≤ abs2 (exDip' gaunt (exInter gaunt) F)) ∧
    NoneDropped 16 c' (fun F => if F ⊆ range 16 then exDip' gaunt (exInter gaunt) F else 0) := by
  obtain ⟨c, hc, h⟩ := exists_threshold (range 16).powerset
    (fun F => Complex.normSq (exDip' gaunt (exInter gaunt) F)) (fun _ => Complex.normSq_nonneg _)
  set t := ∑ T ∈ (range 16).powerset, Complex.normSq (if T ⊆ range 16 then exDip' gaunt (exInter gaunt) T else 0) with ht
  have ht0 : 0 ≤ t := sum_nonneg fun _ _ => Complex.normSq_nonneg _
  refine ⟨c / (1 + t), div_pos hc (by linarith), fun c' hc' => ⟨fun F hF => ?_, fun F hF => ?_⟩⟩
  · rcases h F (mem_powerset.2 hF) with h | h
    · exact Or.inl (Complex.normSq_eq_zero.1 h)
    · refine Or.inr (le_trans hc' (le_trans ?_ h))
      exact div_le_self hc.le (by linarith)
  · rw [← ht]
    simp only [if_pos hF]
    rcases h F (mem_powerset.2 hF) with h | h
    · exact Or.inl (Complex.normSq_eq_zero.1 h)
    · right
      refine le_trans ?_ h
      calc c' * t ≤ c / (1 + t) * t := mul_le_mul_of_nonneg_right hc' ht0
        _ = c * (t / (1 + t)) := by ring
        _ ≤ c * 1 := by
          apply mul_le_mul_of_nonneg_left _ hc.le
          rw [div_le_one (by linarith)]
          linarith
        _ = c := mul_one c

/-- The cutoff is below every non-zero matrix element and amplitude. -/
structure ExCut : Prop where
  pos : 0 < c
  le_one : c ≤ 1
  dip : NoSmall 16 (exDip gaunt) c none
  dip' : NoSmall 16 (exDip' gaunt) c none
  nixs : NoSmall 16 (exNixs gaunt sphHarm jn) c none
  rixs : ∀ F ⊆ range 16, exDip' gaunt (exInter gaunt) F = 0 ∨ c ≤ abs2 (exDip' gaunt (exInter gaunt) F)
  drop : NoneDropped 16 c (fun F => if F ⊆ range 16 then exDip' gaunt (exInter gaunt) F else 0)

theorem exists_exCut : ∃ c, ExCut gaunt sphHarm jn c := by
  obtain ⟨c1, p1, h1⟩ := exists_noSmall 16 (exDip gaunt)
  obtain ⟨c2, p2, h2⟩ := exists_noSmall 16 (exDip' gaunt)
  obtain ⟨c3, p3, h3⟩ := exists_noSmall 16 (exNixs gaunt sphHarm jn)
  obtain ⟨c4, p4, h4⟩ := exists_rixs gaunt
  refine ⟨min 1 (min c1 (min c2 (min c3 c4))), lt_min one_pos (lt_min p1 (lt_min p2 (lt_min p3 p4))), min_le_left _ _,
    h1 _ ?_, h2 _ ?_, h3 _ ?_, (h4 _ ?_).1, (h4 _ ?_).2⟩ <;> simp

variable {gaunt sphHarm jn c} (hc : ExCut gaunt sphHarm jn c)
include hc

theorem exSim_dip : excite (exSim gaunt sphHarm jn c) (exDip gaunt) 0
    = fun F => if F ⊆ range 16 then exDip gaunt (Spec.single (range 7) 1) F else 0 := by
  unfold excite exciteVec excited
  rw [exSim_psi, exSim_size]
  funext F
  by_cases hF : F ⊆ range 16
  · rw [if_pos hF]
    rcases hc.dip F hF (range 7) (by decide) trivial with h | h
    · rw [h]; split <;> rfl
    · rw [if_pos ⟨hF, trivial, h⟩]
  · rw [if_neg hF, if_neg fun h => hF h.1]

theorem exSim_inter {x : Vec ℂ} (hx : Solves 16 (hamilton (exSim gaunt sphHarm jn c)) (7 + Complex.I)
    (excite (exSim gaunt sphHarm jn c) (exDip gaunt) 0) x) : x = exInter gaunt := by
  funext F
  unfold exInter
  by_cases hF : F ⊆ range 16
  · have := hx.inside F hF
    rw [exSim_hamilton_at gaunt sphHarm jn c hx.outside hF, exSim_dip hc, ← sub_mul] at this
    rw [eq_div_iff (exInter_denom _), mul_comm]
    exact this
  · rw [if_neg hF, zero_div, hx.outside F hF]

theorem exSim_out : exciteVec (exSim gaunt sphHarm jn c) (exDip' gaunt) (exInter gaunt)
    = fun F => if F ⊆ range 16 then exDip' gaunt (exInter gaunt) F else 0 := by
  unfold exciteVec excited
  rw [exSim_size]
  funext F
  by_cases hF : F ⊆ range 16
  · rw [if_pos hF]
    rcases hc.rixs F hF with h | h
    · rw [h]; split <;> rfl
    · rw [if_pos ⟨hF, trivial, h⟩]
  · rw [if_neg hF, if_neg fun h => hF h.1]

omit hc in
theorem exInter_card : ∀ F, exInter gaunt F ≠ 0 → F.card = 7 := by
  intro F hF
  unfold exInter at hF
  rw [div_ne_zero_iff] at hF
  have := hF.1
  split at this
  · exact card_between single_card this
  · exact absurd rfl this

theorem exSim_rixs {x : Vec ℂ} (hx : Solves 16 (hamilton (exSim gaunt sphHarm jn c)) (7 + Complex.I)
    (excite (exSim gaunt sphHarm jn c) (exDip gaunt) 0) x) :
    NoneDropped 16 c (exciteVec (exSim gaunt sphHarm jn c) (exDip' gaunt) x) ∧
    KrylovExhausted (hamilton (exSim gaunt sphHarm jn c)) 1 (exciteVec (exSim gaunt sphHarm jn c) (exDip' gaunt) x) := by
  rw [exSim_inter hc hx]
  refine ⟨by rw [exSim_out hc]; exact hc.drop, ?_⟩
  exact exSim_krylov gaunt sphHarm jn c (m := 7) (exSim_exciteVec gaunt sphHarm jn c fun F hF => card_between exInter_card hF)

theorem exSim_outLarge : (exSim gaunt sphHarm jn c).OutLarge := by
  intro ts hts op0 hop0
  have hts : getDaggeredDipoleOperators gaunt [(.int 1, 0), (.int 2, 0)] [⟨0, 0, 1⟩] = .ok ts := hts
  obtain ⟨hl, ho⟩ := daggered_spec gaunt (by decide) hts
  have h0 := ho 0 (by simp)
  cases ts with
  | nil => simp at hop0
  | cons op rest =>
    simp only [List.head?_cons, Option.mem_def, Option.some.injEq] at hop0
    subst hop0
    intro F hF F' hF' hal
    have hF : F ⊆ range (nSpinOrbitals (exSim gaunt sphHarm jn c).nBaths) := hF
    have hF' : F' ⊆ range (nSpinOrbitals (exSim gaunt sphHarm jn c).nBaths) := hF'
    rw [exSim_n] at hF hF'
    have := hc.dip' F' hF' F hF trivial
    rw [show exDip' gaunt (Spec.single F 1) F' = operator (opSpec op) (Spec.single F 1) F' from
      (h0 (Spec.single F 1) F' (by rw [show nTotal [(.int 1, 0), (.int 2, 0)] = 16 from by decide]; exact hF')).symm] at this
    exact this

theorem exSim_ok (hG : GauntRules gaunt) : ∃ s, refSimulate (exSim gaunt sphHarm jn c) = .ok s := by
  have hS := exSim_valid gaunt sphHarm jn c hc.pos
  have hdict : Dict.NodupKeys (exSim gaunt sphHarm jn c).hOp := nodup_castOp countAll_nodup
  have hh : isHermitianOp (exSim gaunt sphHarm jn c).hOp := hermitian_castOp countAll_hermitian
  have hn : nSpinOrbitals (exSim gaunt sphHarm jn c).nBaths = nTotal (intKeys (exSim gaunt sphHarm jn c).nBaths) :=
    nSpinOrbitals_eq _
  have h1 : 1 ∈ allAngulars (intKeys (exSim gaunt sphHarm jn c).nBaths) := by
    show 1 ∈ allAngulars (intKeys [(1, 0), (2, 0)]); decide
  have h2 : 2 ∈ allAngulars (intKeys (exSim gaunt sphHarm jn c).nBaths) := by
    show 2 ∈ allAngulars (intKeys [(1, 0), (2, 0)]); decide
  obtain ⟨tN, eN, -⟩ := C46_operator gaunt hG sphHarm jn (intKeys (exSim gaunt sphHarm jn c).nBaths) hS.good 2 1 h2 h1
    [1, 1] [1, 1] [0, 1] rfl rfl 1 (2 + 1) le_rfl ⟨1, 0, 0⟩ 1 (Real.pi / 2) 0 one_pos (by positivity)
    (by linarith [Real.pi_pos]) (by simpa using Real.pi_pos.le) (by simp) (by simp) (by simp)
  have eNixs : getNIXSOperators (exSim gaunt sphHarm jn c).gaunt (exSim gaunt sphHarm jn c).sphHarm
      (exSim gaunt sphHarm jn c).jn (intKeys (exSim gaunt sphHarm jn c).nBaths) (exSim gaunt sphHarm jn c).qsNIXS
      (exSim gaunt sphHarm jn c).liNIXS (exSim gaunt sphHarm jn c).ljNIXS (exSim gaunt sphHarm jn c).RiNIXS
      (exSim gaunt sphHarm jn c).RjNIXS (exSim gaunt sphHarm jn c).radialMesh (exSim gaunt sphHarm jn c).kmin = .ok [tN] := by
    unfold getNIXSOperators
    show List.foldlM _ _ [(⟨1, 0, 0⟩ : Vec3 ℝ)] = _
    rw [List.foldlM_cons]
    have eN : getNIXSOperator (exSim gaunt sphHarm jn c).gaunt (exSim gaunt sphHarm jn c).sphHarm
      (exSim gaunt sphHarm jn c).jn (intKeys (exSim gaunt sphHarm jn c).nBaths) ⟨1, 0, 0⟩
      (exSim gaunt sphHarm jn c).liNIXS (exSim gaunt sphHarm jn c).ljNIXS (exSim gaunt sphHarm jn c).RiNIXS
      (exSim gaunt sphHarm jn c).RjNIXS (exSim gaunt sphHarm jn c).radialMesh (exSim gaunt sphHarm jn c).kmin = .ok tN := eN
    rw [eN]
    rfl
  obtain ⟨ts, ds, eX, eD, -⟩ := C45_daggered gaunt 1 2 0 0 (by decide) [⟨0, 0, 1⟩]
  have eXas : getDipoleOperators (exSim gaunt sphHarm jn c).gaunt (intKeys (exSim gaunt sphHarm jn c).nBaths)
    (exSim gaunt sphHarm jn c).epsilons = .ok ts := eX
  have eRin : getDipoleOperators (exSim gaunt sphHarm jn c).gaunt (intKeys (exSim gaunt sphHarm jn c).nBaths)
    (exSim gaunt sphHarm jn c).epsilonsRIXSin = .ok ts := eX
  have eRout : getDaggeredDipoleOperators (exSim gaunt sphHarm jn c).gaunt (intKeys (exSim gaunt sphHarm jn c).nBaths)
    (exSim gaunt sphHarm jn c).epsilonsRIXSout = .ok ds := eD
  obtain ⟨hl, ho⟩ := dipoles_spec gaunt (by decide) eX
  obtain ⟨hl', ho'⟩ := daggered_spec gaunt (by decide) eD
  obtain ⟨op, rfl⟩ : ∃ op, ts = [op] := List.length_eq_one_iff.1 hl
  obtain ⟨op0, rfl⟩ : ∃ op, ds = [op] := List.length_eq_one_iff.1 hl'
  have hT : operator (opSpec op) = exDip gaunt := ho 0 (by simp)
  have hT' : ∀ v, ∀ F ⊆ range 16, exDip' gaunt v F = operator (opSpec op0) v F := fun v F hF =>
    (ho' 0 (by simp) v F (by rw [show nTotal [(.int 1, 0), (.int 2, 0)] = 16 from by decide]; exact hF)).symm
  have hin : ∀ t ∈ [op], OpInSystem (nSpinOrbitals (exSim gaunt sphHarm jn c).nBaths) t := by
    rw [hn]; exact dipoles_okIn _ hS.good _ _ eXas
  have hin0 : ∀ t ∈ [op0], OpInSystem (nSpinOrbitals (exSim gaunt sphHarm jn c).nBaths) t := by
    rw [hn]; exact daggered_okIn _ hS.good _ _ eRout
  refine refSimulate_of hS h1 h2 (by simp [exSim]) (by simp [exSim])
    (fun w d hd psiR e hE => spectrumOf_one (hS.spectra w hd) hdict hh rfl hE e) eNixs eXas eRin eRout ?_
  · refine refRixs_of hS.rixs hdict hh hS.delta ?_
      (fun _ e hE => spectrumOf_one hS.rixs.spectra hdict hh rfl hE e) hin ?_ (hin0 op0 (by simp)) hS.enough hS.states ?_
    · intro d a y ha
      show a *ᵥ (a⁻¹ *ᵥ y) = y
      rw [Matrix.mulVec_mulVec, Matrix.mul_nonsing_inv a ((Matrix.isUnit_iff_isUnit_det a).1 ha), Matrix.one_mulVec]
    · intro op' h
      obtain rfl := List.mem_singleton.1 h
      intro F hF F' hF' hal
      have hF : F ⊆ range (nSpinOrbitals (exSim gaunt sphHarm jn c).nBaths) := hF
      have hF' : F' ⊆ range (nSpinOrbitals (exSim gaunt sphHarm jn c).nBaths) := hF'
      rw [exSim_n] at hF hF'
      have := hc.dip F' hF' F hF trivial
      rw [← hT] at this
      exact this
    · intro op' h a ha w hw x hx
      obtain rfl := List.mem_singleton.1 h
      obtain rfl : a = 0 := by simpa [exSim] using ha
      obtain rfl := List.mem_singleton.1 (show w ∈ [(7 : ℝ)] from hw)
      have hx : Solves (nSpinOrbitals (exSim gaunt sphHarm jn c).nBaths)
        (hamiltonian (nSpinOrbitals (exSim gaunt sphHarm jn c).nBaths) (castOp countAll) 1 none)
        (((7 : ℝ) : ℂ) + Complex.I * ((1 : ℝ) : ℂ) + ((0 : ℝ) : ℂ))
        (excitation (nSpinOrbitals (exSim gaunt sphHarm jn c).nBaths) op' c none [(encBytes 16 (range 7), 1)]) x := hx
      show NoneDropped (nSpinOrbitals (exSim gaunt sphHarm jn c).nBaths) c
        (transition (nSpinOrbitals (exSim gaunt sphHarm jn c).nBaths) op0 c none x)
      rw [exSim_n] at hx ⊢
      have e1 : excitation 16 op' c none [(encBytes 16 (range 7), 1)]
          = excite (exSim gaunt sphHarm jn c) (exDip gaunt) 0 := by
        unfold excite exciteVec
        rw [exSim_size, ← hT]
        rfl
      have e2 : hamiltonian 16 (castOp countAll) 1 none = hamilton (exSim gaunt sphHarm jn c) := by
        unfold hamilton
        rw [exSim_size]
        rfl
      have e3 : (((7 : ℝ) : ℂ) + Complex.I * ((1 : ℝ) : ℂ) + ((0 : ℝ) : ℂ)) = 7 + Complex.I := by
        push_cast; ring
      have e4 : exciteVec (exSim gaunt sphHarm jn c) (exDip' gaunt) = transition 16 op0 c none := by
        unfold exciteVec
        rw [exSim_size]
        exact excited_congr hT' _ _
      rw [e1, e2, e3] at hx
      have := (exSim_rixs hc hx).1
      rwa [e4] at this

end

end

end Verif
