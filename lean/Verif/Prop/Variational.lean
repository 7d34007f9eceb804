/-
C75: allowing more configurations never raises an energy; energies are properties of the
Hamiltonian and the configurations only.
-/
import Verif.Lemmas.Variational
import Verif.Spec.Variational
import Verif.Prop.Main
import Verif.Prop.Eigen
import Verif.Prop.MainExample

namespace Verif

open Finset Mpi Psr Spec

noncomputable section

theorem storedElement_hermitian {n : ℕ} {op : Op ℕ ℂ} (hdict : Dict.NodupKeys op) (hop : OpInSystem n op)
    (hh : isHermitianOp op) (cut : ℝ) {s : Finset (Finset ℕ)} (hs : ∀ S ∈ s, S ⊆ range n) :
    ∀ S ∈ s, ∀ T ∈ s, storedElement op cut S T = star (storedElement op cut T S) := fun S hS T hT =>
  storedElement_star hdict hop hh cut (hs S hS) (hs T hT)

/-! ### eigensystem -/

section
variable {solver solver' : EigenSolver} (hS : SolverCorrect solver) (hS' : SolverCorrect solver')
  {n : ℕ} {op : Op ℕ ℂ} (hop : OpInSystem n op) (hdict : Dict.NodupKeys op) (hh : isHermitianOp op) {cut : ℝ}
  {states states' : List (Finset ℕ)} (hnd : states.Nodup) (hnd' : states'.Nodup)
  (hst' : ∀ S ∈ states', S ⊆ range n) {nPsiMax nPsiMax' : ℕ} {mode mode' : DiagMode}
  {slaterWeightMin slaterWeightMin' : ℝ} {ranks ranks' : ℕ} (hr : 0 < ranks) (hr' : 0 < ranks') {es es' : List ℝ}
  {psis psis' : List (Psi ℂ)}

omit hS' hr' in
include hS hop hdict hh hr in
theorem eigensystem_lowest (hnd : states.Nodup) (hst : ∀ S ∈ states, S ⊆ range n)
    (h : eigensystem solver n op cut (states.map (encBytes n)) nPsiMax mode slaterWeightMin ranks = .ok (es, psis)) :
    ∃ x, LowestIn states.toFinset (storedElement op cut) es x := by
  obtain ⟨h1, -, x, h2, h3, h4, -⟩ :=
    C51_eigensystem solver hS n op hop hdict hh cut states hnd hst nPsiMax mode slaterWeightMin ranks hr es psis h
  exact ⟨x, h1, h2, fun v hv S hS => h3 v hv S (List.mem_toFinset.1 hS), h4⟩

include hS hS' hop hdict hh hnd hnd' hst' hr hr' in
/-- C75.  Two calls of `eigensystem` for the same operator, the second with all product states of the
first and possibly more: the `i`-th energy of the second is not larger than that of the first, whatever
the solvers, modes, numbers of ranks and numbers of energies asked for are. -/
theorem C75_eigensystem (hsub : states ⊆ states')
    (h : eigensystem solver n op cut (states.map (encBytes n)) nPsiMax mode slaterWeightMin ranks = .ok (es, psis))
    (h' : eigensystem solver' n op cut (states'.map (encBytes n)) nPsiMax' mode' slaterWeightMin' ranks' = .ok (es', psis'))
    (i : ℕ) (hi : i < es.length) (hi' : i < es'.length) : es'[i] ≤ es[i] := by
  obtain ⟨x, hx⟩ := eigensystem_lowest hS hop hdict hh hr hnd (fun S h => hst' S (hsub h)) h
  obtain ⟨x', hx'⟩ := eigensystem_lowest hS' hop hdict hh hr' hnd' hst' h'
  exact hx.antitone hx' (fun S hS => List.mem_toFinset.2 (hsub (List.mem_toFinset.1 hS)))
    (storedElement_hermitian hdict hop hh cut fun S hS => hst' S (List.mem_toFinset.1 hS)) i hi hi'

include hS hS' hop hdict hh hnd hnd' hst' hr hr' in
/-- C75.  With the same product states in any order the energies are the same. -/
theorem C75_eigensystem_unique (hsame : ∀ S, S ∈ states ↔ S ∈ states')
    (h : eigensystem solver n op cut (states.map (encBytes n)) nPsiMax mode slaterWeightMin ranks = .ok (es, psis))
    (h' : eigensystem solver' n op cut (states'.map (encBytes n)) nPsiMax' mode' slaterWeightMin' ranks' = .ok (es', psis'))
    (i : ℕ) (hi : i < es.length) (hi' : i < es'.length) : es[i] = es'[i] :=
  le_antisymm
    (C75_eigensystem hS' hS hop hdict hh hnd' hnd (fun S h => hst' S ((hsame S).1 h)) hr' hr (fun S h => (hsame S).2 h)
      h' h i hi' hi)
    (C75_eigensystem hS hS' hop hdict hh hnd hnd' hst' hr hr' (fun S h => (hsame S).1 h) h h' i hi hi')

end

/-- The hopping operator with one and with two product states. -/
example : ∃ S es psis es' psis', SolverCorrect S ∧
    eigensystem S 2 exHop 1e-12 ([{0}].map (encBytes 2)) 5 .full 1e-7 3 = .ok (es, psis) ∧ es.length = 1 ∧
    eigensystem S 2 exHop 1e-12 ([{0}, {1}].map (encBytes 2)) 5 .full 1e-7 3 = .ok (es', psis') ∧ es'.length = 2 ∧
    es'.getD 0 0 ≤ es.getD 0 0 := by
  obtain ⟨S, hS⟩ := exists_solverCorrect
  obtain ⟨⟨es, psis, h, hl⟩, -⟩ := C51_returns S hS 2 exHop exHop_inSystem exHop_nodup exHop_hermitian 1e-12 [{0}]
    (by decide) (by decide) 5 1e-7 3 (by norm_num)
  obtain ⟨⟨es', psis', h', hl'⟩, -⟩ := C51_returns S hS 2 exHop exHop_inSystem exHop_nodup exHop_hermitian 1e-12 [{0}, {1}]
    (by decide) (by decide) 5 1e-7 3 (by norm_num)
  have hl : es.length = 1 := by simpa using hl
  have hl' : es'.length = 2 := by simpa using hl'
  refine ⟨S, es, psis, es', psis', hS, h, hl, h', hl', ?_⟩
  have := C75_eigensystem hS hS exHop_inSystem exHop_nodup exHop_hermitian (by decide) (by decide) (by decide)
    (by norm_num) (by norm_num) (by decide) h h' 0 (by omega) (by omega)
  rwa [List.getD_eq_getElem _ _ (by omega), List.getD_eq_getElem _ _ (by omega)]

/-! ### main -/

theorem isConfiguration_enlarged {P P' : BasisParams} (hP : Enlarged P P') {nBaths : Dict ℕ ℕ} {sys : NBaths} {S : Finset ℕ}
    (h : IsConfiguration nBaths sys P S) : IsConfiguration nBaths sys P' S := by
  intro p hp
  obtain ⟨dv, dc, ⟨h1, h2, h3, h4, h5⟩, h6, h7, h8⟩ := h p hp
  rw [IsConfiguration] at *
  refine ⟨dv, dc, ⟨h1, h2.trans (hP.dnVal _), h3, h4.trans (hP.dnCon _), h5.trans (hP.tol _)⟩, ?_, ?_, ?_⟩
  · rw [hP.n0]; exact h6
  · rw [hP.val]; exact h7
  · rw [hP.val]; exact h8

section
variable {L L' : MainLib} {A A' : MainArgs} (hA : A.Valid) (hA' : A'.Valid) (hG : GauntLarge L.gaunt A.ls) {N N' : ℕ}
  (hN : 0 < N) (hN' : 0 < N')
  {ord : Fin N → ℕ → ℕ → ℕ → SetOrders} (hord : ∀ k c t i, (ord k c t i).Valid)
  {ordRixs : Fin N → List ℕ → SetOrders} (hordR : ∀ k l, (ordRixs k l).Valid) {out : Fin N → Option MainOutput}
  (hfin : CanFinish msgSum (fun k : Fin N => mainRank L A (ord k) (ordRixs k) k.val N) out)
  {o o' : MainOutput} (ho : out ⟨0, hN⟩ = some o)
  {ord' : Fin N' → ℕ → ℕ → ℕ → SetOrders} (hord' : ∀ k c t i, (ord' k c t i).Valid)
  {ordRixs' : Fin N' → List ℕ → SetOrders} (hordR' : ∀ k l, (ordRixs' k l).Valid) {out' : Fin N' → Option MainOutput}
  (hfin' : CanFinish msgSum (fun k : Fin N' => mainRank L' A' (ord' k) (ordRixs' k) k.val N') out')
  (ho' : out' ⟨0, hN'⟩ = some o')
  (hL : SolverCorrect L.solver) (hL' : SolverCorrect L'.solver) (hgaunt : L'.gaunt = L.gaunt)
  {b : ℕ → ℕ} {P P' : BasisParams} {hx hy hz : ℝ} {h0 : Op Label ℂ}
  (hD : Documented A b P hx hy hz h0) (hD' : Documented A' b P' hx hy hz h0) (hI : SameInteraction A A')

theorem pdHamiltonian_same {gaunt : ℕ → ℕ → ℕ → ℤ → ℤ → ℤ → ℝ} {f : Label → ℕ} (hI : SameInteraction A A') (n : ℤ) (hx hy hz : ℝ)
    (h0 : Op Label ℂ) (v : Vec ℂ) (F : Finset ℕ) :
    pdHamiltonian gaunt f A' n hx hy hz h0 v F = pdHamiltonian gaunt f A n hx hy hz h0 v F := by
  unfold pdHamiltonian
  rw [hI.Fdd, hI.Fpp, hI.Fpd, hI.Gpd, hI.xi2p, hI.xi3d, hI.chargeTransferCorrection]

include hA hA' hG hord hordR hfin ho hord' hordR' hfin' ho' hL hL' hgaunt hD hD' hI in
/-- C75.  Two finished runs of main for the same Hamiltonian, the second with the same or larger
tolerances for the occupations: the `i`-th energy of the second is not larger than that of the
first, whatever the solvers, the numbers of ranks and the other arguments are. -/
theorem C75_more_configurations (hP : Enlarged P P') (i : ℕ) (hi : i < o.energies.length) (hi' : i < o'.energies.length) :
    o'.energies[i] ≤ o.energies[i] := by
  classical
  have hG' : GauntLarge L'.gaunt A'.ls := by
    rw [hgaunt, hD'.ls, ← hD.ls]; exact hG
  obtain ⟨psis, S, hrun, hS, -⟩ := C65_run hA hG hN hord hordR hfin ho hL hD
  obtain ⟨psis', S', hrun', hS', -⟩ := C65_run hA' hG' hN' hord' hordR' hfin' ho' hL' hD'
  obtain ⟨x, hx⟩ := lowestIn_of hrun.lowest
  obtain ⟨x', hx'⟩ := lowestIn_of hrun'.lowest
  have hel : storedElement S'.hOp (1e-12 : ℝ) = storedElement S.hOp (1e-12 : ℝ) := by
    funext F G
    unfold storedElement matrixElement
    rw [hrun'.hamiltonian, hrun.hamiltonian, hgaunt, hP.n0, pdHamiltonian_same hI]
  have hsz : nSpinOrbitals S'.nBaths = nTotal (pdSystem b) := by
    rw [nSpinOrbitals_eq, hrun'.system]; rfl
  refine hx.antitone (hel ▸ hx') ?_ ?_ i hi hi'
  · intro F hF
    rw [Finset.mem_filter] at hF ⊢
    exact ⟨hF.1, isConfiguration_enlarged hP hF.2⟩
  · rw [← hel]
    refine storedElement_hermitian hrun'.dict.1 hS'.hop hrun'.dict.2 _ fun F hF => ?_
    rw [hsz]
    exact Finset.mem_powerset.1 (Finset.mem_filter.1 hF).1

include hA hA' hG hord hordR hfin ho hord' hordR' hfin' ho' hL hL' hgaunt hD hD' hI in
/-- C75.  With the same tolerances the energies are the same: they do not depend on the solver, on how
many of them are asked for, or on any argument that is not part of the Hamiltonian. -/
theorem C75_unique (hval : P'.val = P.val) (hn0 : P'.n0 = P.n0) (hdv : P'.dnVal = P.dnVal) (hdc : P'.dnCon = P.dnCon)
    (htol : P'.tol = P.tol) (i : ℕ) (hi : i < o.energies.length) (hi' : i < o'.energies.length) :
    o.energies[i] = o'.energies[i] := by
  have hG' : GauntLarge L'.gaunt A'.ls := by
    rw [hgaunt, hD'.ls, ← hD.ls]; exact hG
  refine le_antisymm ?_ ?_
  · exact C75_more_configurations hA' hA hG' hN' hN hord' hordR' hfin' ho' hord hordR hfin ho hL' hL hgaunt.symm hD' hD
      ⟨hI.Fdd.symm, hI.Fpp.symm, hI.Fpd.symm, hI.Gpd.symm, hI.xi2p.symm, hI.xi3d.symm, hI.chargeTransferCorrection.symm⟩
      ⟨hval.symm, hn0.symm, fun l => by rw [hdv], fun l => by rw [hdc], fun l => by rw [htol]⟩ i hi' hi
  · exact C75_more_configurations hA hA' hG hN hN' hord hordR hfin ho hord' hordR' hfin' ho' hL hL' hgaunt hD hD' hI
      ⟨hval, hn0, fun l => by rw [hdv], fun l => by rw [hdc], fun l => by rw [htol]⟩ i hi hi'

omit hA' hord' hordR' hfin' ho' hL' hgaunt hD' hI in
include hA hG hord hordR hfin ho hL hD in
/-- C75.  The variational principle: no superposition of allowed configurations has a lower energy
than the lowest one that main prints. -/
theorem C75_variational (hk : 0 < A.nPsiMax) : ∃ psis S, MainRun L A b P hx hy hz h0 o.energies psis S ∧
    ∃ hpos : 0 < o.energies.length, ∀ (y : Finset ℕ → ℂ) (states : Finset (Finset ℕ)),
      (∀ F, F ∈ states ↔ F ⊆ range (nTotal (pdSystem b)) ∧ IsConfiguration [(1, b 1), (2, b 2)] (pdSystem b) P F) →
      o.energies[0] * ∑ F ∈ states, Complex.normSq (y F)
        ≤ (∑ F ∈ states, ∑ G ∈ states, star (y F) * storedElement S.hOp 1e-12 F G * y G).re := by
  obtain ⟨psis, S, hrun, hS, -⟩ := C65_run hA hG hN hord hordR hfin ho hL hD
  obtain ⟨x, hx⟩ := lowestIn_of hrun.lowest
  refine ⟨psis, S, hrun, hrun.count ▸ hk, fun y states hst => ?_⟩
  classical
  have hs : states = {F ∈ (range (nTotal (pdSystem b))).powerset |
      IsConfiguration [(1, b 1), (2, b 2)] (pdSystem b) P F} := by
    ext F
    rw [hst, Finset.mem_filter, Finset.mem_powerset]
  have hsz : nSpinOrbitals S.nBaths = nTotal (pdSystem b) := by
    rw [nSpinOrbitals_eq, hrun.system]; rfl
  have := hx.variational (storedElement_hermitian hrun.dict.1 hS.hop hrun.dict.2 _ fun F hF => by
    rw [hsz]
    exact Finset.mem_powerset.1 (Finset.mem_filter.1 hF).1) (hrun.count ▸ hk) y
  rw [hs]
  convert this using 3

end

/-- Two runs with different solvers, temperatures, numbers of ranks and radial meshes. -/
example (sphHarm : SphHarm) (jn : SphericalJn) (T T' : ℝ) (hT : 0 < T) (hT' : 0 < T') (radial radial' : List (ℝ × ℝ))
    {solver solver' : EigenSolver} (hS : SolverCorrect solver) (htot : ∀ H d k, k < d → ∃ p, solver.eigsh H d k = .ok p)
    (hS' : SolverCorrect solver') (htot' : ∀ H d k, k < d → ∃ p, solver'.eigsh H d k = .ok p) :
    ∃ o o' : MainOutput, o.energies.length = 1 ∧ o'.energies.length = 1 ∧ o.energies = o'.energies := by
  obtain ⟨o, ho⟩ := C64_example hS htot sphHarm jn one_pos hT radial
  obtain ⟨o', ho'⟩ := C64_example hS' htot' sphHarm jn one_pos hT' radial'
  have h1 := (ho 3 (by decide) (fun _ _ _ _ => holeOrders) (fun _ _ _ _ => holeOrders_valid) (fun _ _ => holeOrders)
    (fun _ _ => holeOrders_valid)).canFinish
  have h2 := (ho' 2 (by decide) (fun _ _ _ _ => holeOrders) (fun _ _ _ _ => holeOrders_valid) (fun _ _ => holeOrders)
    (fun _ _ => holeOrders_valid)).canFinish
  obtain ⟨_, _, r1, -⟩ := C65_run (holeArgs_valid 0 T radial) sympyGaunt_large (by decide)
    (fun _ _ _ _ => holeOrders_valid) (fun _ _ => holeOrders_valid) h1 rfl hS (holeArgs_documented 0 T radial)
  obtain ⟨_, _, r2, -⟩ := C65_run (holeArgs_valid 0 T' radial') sympyGaunt_large (by decide)
    (fun _ _ _ _ => holeOrders_valid) (fun _ _ => holeOrders_valid) h2 rfl hS' (holeArgs_documented 0 T' radial')
  have l1 : o.energies.length = 1 := r1.count
  have l2 : o'.energies.length = 1 := r2.count
  refine ⟨o, o', l1, l2, List.ext_getElem (l1.trans l2.symm) fun i hi hi' => ?_⟩
  exact C75_unique (holeArgs_valid 0 T radial) (holeArgs_valid 0 T' radial') sympyGaunt_large (by decide) (by decide)
    (fun _ _ _ _ => holeOrders_valid) (fun _ _ => holeOrders_valid) h1 rfl
    (fun _ _ _ _ => holeOrders_valid) (fun _ _ => holeOrders_valid) h2 rfl hS hS' rfl
    (holeArgs_documented 0 T radial) (holeArgs_documented 0 T' radial') ⟨rfl, rfl, rfl, rfl, rfl, rfl, rfl⟩
    rfl rfl rfl rfl rfl i hi hi'

/-- Larger tolerances: up to two instead of one electron may leave the valence bath. -/
example : Enlarged ⟨fun _ => 10, fun _ => 1, fun _ => 0, fun _ => 1, fun l => if l = 1 then 6 else 8⟩
    ⟨fun _ => 10, fun _ => 2, fun _ => 0, fun _ => 2, fun l => if l = 1 then 6 else 8⟩ :=
  ⟨rfl, rfl, by norm_num, by norm_num, by norm_num⟩

end

end Verif
