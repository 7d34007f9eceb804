/-
C95: how the lowest energy and the printed expectation values respond to a field and to the d level.
-/
import Verif.Lemmas.Slope
import Verif.Prop.Printed
import Verif.Spec.Slope

namespace Verif

open Finset Mpi Psr Spec

noncomputable section

section
variable {n : ℕ} {op op' : Op ℕ ℂ} (hop : OpInSystem n op) (hop' : OpInSystem n op') (hdict : Dict.NodupKeys op)
  (hdict' : Dict.NodupKeys op') (hh : isHermitianOp op) (hh' : isHermitianOp op') {cut cut' : ℝ}
  {solver solver' : EigenSolver} (hS : SolverCorrect solver) (hS' : SolverCorrect solver')
  {states : List (Finset ℕ)} (hnd : states.Nodup) (hst : ∀ S ∈ states, S ⊆ range n) {nPsiMax nPsiMax' : ℕ}
  {mode mode' : DiagMode} {weight weight' : ℝ} (hw : 0 ≤ weight) {ranks ranks' : ℕ} (hr : 0 < ranks)
  (hr' : 0 < ranks') {es es' : List ℝ} {psis psis' : List (Psi ℂ)}

include hop hop' hdict hdict' hh hh' hS hS' hnd hst hw hr hr' in
/-- C95, `eigensystem`.  If the energy `q F` is added for each product state `F`, the lowest energy ends up at most at any
energy of before plus the expectation value of `q` in the returned state, apart from dropped matrix elements and dropped
components. -/
theorem C95_eigensystem
    (h : eigensystem solver n op cut (states.map (encBytes n)) nPsiMax mode weight ranks = .ok (es, psis))
    (h' : eigensystem solver' n op' cut' (states.map (encBytes n)) nPsiMax' mode' weight' ranks' = .ok (es', psis'))
    {q : Finset ℕ → ℝ} (hq : ShiftedBy (operator (opSpec op)) (operator (opSpec op')) q) {Q : ℝ}
    (hQ : ∀ S ∈ states, |q S| ≤ Q) (i : ℕ) (hi : i < es.length) (h0' : 0 < es'.length) :
    es'[0] ≤ es[i] + ∑ S ∈ (range n).powerset, q S * Complex.normSq (ampl n (psis.getD i []) S)
      + (op.length * Real.sqrt cut + op'.length * Real.sqrt cut' + Q * weight * states.length) := by
  have hlow : ∀ {solver : EigenSolver}, SolverCorrect solver → ∀ {op : Op ℕ ℂ}, OpInSystem n op → Dict.NodupKeys op →
      isHermitianOp op → ∀ {cut : ℝ} {nPsiMax : ℕ} {mode : DiagMode} {weight : ℝ} {ranks : ℕ}, 0 < ranks → ∀ {es : List ℝ}
      {psis : List (Psi ℂ)}, eigensystem solver n op cut (states.map (encBytes n)) nPsiMax mode weight ranks = .ok (es, psis) →
      LowestStates n op cut weight states.toFinset es psis := by
    intro solver hS op hop hdict hh cut nPsiMax mode weight ranks hr es psis h
    obtain ⟨h1, h2, x, h3, h4, h5, h6⟩ :=
      C51_eigensystem solver hS n op hop hdict hh cut states hnd hst nPsiMax mode weight ranks hr es psis h
    exact ⟨h1, h2, x, h3, fun v hv S hS => h4 v hv S (List.mem_toFinset.1 hS), h5, fun v hv =>
      ⟨(h6 v hv).1, fun S => by simpa using (h6 v hv).2.1 S⟩⟩
  have := slope_states hop hop' hdict hdict' hh hh' (fun S hS => hst S (List.mem_toFinset.1 hS)) hw (hlow hS hop hdict hh hr h)
    (hlow hS' hop' hdict' hh' hr' h') hq (fun S hS => hQ S (List.mem_toFinset.1 hS)) i hi h0'
  rwa [List.toFinset_card_of_nodup hnd] at this

end

/-! ### main -/

section
variable {L L' : MainLib} {A A' : MainArgs} (hA : A.Valid) (hA' : A'.Valid) (hG : GauntLarge L.gaunt A.ls) {N N' : ℕ}
  (hN : 0 < N) (hN' : 0 < N')
  {ord : Fin N → ℕ → ℕ → ℕ → SetOrders} (hord : ∀ k c t i, (ord k c t i).Valid)
  {ordRixs : Fin N → List ℕ → SetOrders} (hordR : ∀ k l, (ordRixs k l).Valid) {out : Fin N → Option MainOutput}
  (hfin : CanFinish msgSum (fun k : Fin N => mainRank L A (ord k) (ordRixs k) k.val N) out)
  {o o' : MainOutput} (ho : out ⟨0, hN⟩ = some o)
  {ord' : Fin N' → ℕ → ℕ → ℕ → SetOrders} (hord' : ∀ k c t i, (ord' k c t i).Valid)
  {ordRixs' : Fin N' → List ℕ → SetOrders} (hordR' : ∀ k l, (ordRixs' k l).Valid) {out' : Fin N' → Option MainOutput}
  (hfin' : CanFinish msgSum (fun k : Fin N' => mainRank L' A' (ord' k) (ordRixs' k) k.val N') out')
  (ho' : out' ⟨0, hN'⟩ = some o')
  (hL : SolverCorrect L.solver) (hL' : SolverCorrect L'.solver) (hgaunt : L'.gaunt = L.gaunt)
  {b : ℕ → ℕ} {P : BasisParams} {hx hy hz hz' : ℝ} {h0 h0' : Op Label ℂ}
  (hD : Documented A b P hx hy hz h0) (hD' : Documented A' b P hx hy hz' h0')

theorem slope_run {L L' : MainLib} {A A' : MainArgs} (hgaunt : L'.gaunt = L.gaunt)
    {b : ℕ → ℕ} {P : BasisParams} {hx hy hz hz' : ℝ} {h0 h0' : Op Label ℂ} {es es' : List ℝ} {psis psis' : List (Psi ℂ)}
    {S S' : SimulateArgs} (hrun : MainRun L A b P hx hy hz h0 es psis S) (hrun' : MainRun L' A' b P hx hy hz' h0' es' psis' S')
    (hI : SameInteraction A A') {ed : ℝ} (hlev : LevelsRaised b h0 h0' ed 0)
    {row : ExpRow} {i : ℕ} (hi : i < es.length)
    (hrow : RowMeans (nTotal (pdSystem b)) (position (pdSystem b)) (ampl (nTotal (pdSystem b)) (psis.getD i [])) row)
    (h0l : 0 < es'.length) :
    es'[0] ≤ es[i] + (hz' - hz) * row.sz + ed * row.n3d
      + slopeAccuracy (S.hOp.length + S'.hOp.length) (numberOfConfigurations b P) (hz' - hz) ed := by
  classical
  set f := position (pdSystem b) with hf
  obtain ⟨hsys, p1, p2⟩ := pd_system b
  have hs : ShiftedBy (operator (opSpec S.hOp)) (operator (opSpec S'.hOp)) fun F =>
      (hz' - hz) * spinOf f F + ed * (F ∩ impOrbs (pdSystem b) 2).card := by
    intro v F
    rw [hrun.hamiltonian, hrun'.hamiltonian, hgaunt, pdHamiltonian_same hI]
    have h2 := hlev v F
    have h3 : oneBody f 2 (hDotS hx hy hz') v F = oneBody f 2 (hDotS hx hy hz) v F + ((hz' - hz : ℝ) : ℂ) * oneBody f 2 (spinOp sZ) v F := by
      unfold oneBody
      rw [mul_sum, ← sum_add_distrib]
      refine sum_congr rfl fun x _ => ?_
      unfold hDotS spinOp
      push_cast
      ring
    rw [spinZ_apply] at h3
    unfold pdHamiltonian
    rw [h2, ← hf, h3]
    push_cast
    ring
  have hst : ∀ F ∈ ({F ∈ (range (nTotal (pdSystem b))).powerset | IsConfiguration [(1, b 1), (2, b 2)] (pdSystem b) P F} :
      Finset (Finset ℕ)), F ⊆ range (nTotal (pdSystem b)) := fun F hF => mem_powerset.1 (mem_filter.1 hF).1
  have hQ : ∀ F : Finset ℕ, |(hz' - hz) * spinOf f F + ed * (F ∩ impOrbs (pdSystem b) 2).card| ≤ 5 * |hz' - hz| + 10 * |ed| := by
    intro F
    refine (abs_add_le _ _).trans ?_
    rw [abs_mul, abs_mul, Nat.abs_cast]
    have h1 := mul_le_mul_of_nonneg_left (spinOf_le f F) (abs_nonneg (hz' - hz))
    have h2 : ((F ∩ impOrbs (pdSystem b) 2).card : ℝ) ≤ 10 := by
      exact_mod_cast (card_le_card inter_subset_right).trans (by simp [impOrbs])
    have h3 := mul_le_mul_of_nonneg_left h2 (abs_nonneg ed)
    linarith
  have h4 := slope_states hrun.inside hrun'.inside hrun.dict.1 hrun'.dict.1 hrun.dict.2 hrun'.dict.2 hst (by norm_num)
    hrun.lowest hrun'.lowest hs (fun F _ => hQ F) i hi h0l
  have hsz : row.sz = ∑ F ∈ (range (nTotal (pdSystem b))).powerset, spinOf f F *
      Complex.normSq (ampl (nTotal (pdSystem b)) (psis.getD i []) F) := by
    have := hrow.sz
    rw [mean_diag _ (spinZ_apply _)] at this
    exact_mod_cast this
  have hn : row.n3d = ∑ F ∈ (range (nTotal (pdSystem b))).powerset, ((F ∩ impOrbs (pdSystem b) 2).card : ℝ) *
      Complex.normSq (ampl (nTotal (pdSystem b)) (psis.getD i []) F) := by
    have := hrow.n3d
    rw [mean_diag _ (q := fun F => ((F ∩ impOrbs (pdSystem b) 2).card : ℝ)) (fun v F => by
      rw [shellNumber_eq hsys p2]; simp)] at this
    exact_mod_cast this
  have hsum : ∑ F ∈ (range (nTotal (pdSystem b))).powerset, ((hz' - hz) * spinOf f F + ed * (F ∩ impOrbs (pdSystem b) 2).card) *
      Complex.normSq (ampl (nTotal (pdSystem b)) (psis.getD i []) F) = (hz' - hz) * row.sz + ed * row.n3d := by
    rw [hsz, hn, mul_sum, mul_sum, ← sum_add_distrib]
    exact sum_congr rfl fun F _ => by ring
  rw [hsum, sqrt_cutoff] at h4
  have hcard : (({F ∈ (range (nTotal (pdSystem b))).powerset | IsConfiguration [(1, b 1), (2, b 2)] (pdSystem b) P F} :
      Finset (Finset ℕ)).card : ℝ) = numberOfConfigurations b P := by
    unfold numberOfConfigurations
    rw [← Set.ncard_coe_finset]
    congr 2
    ext F
    simp
  rw [hcard] at h4
  unfold slopeAccuracy
  push_cast
  linarith

include hA hA' hG hord hordR hfin ho hord' hordR' hfin' ho' hL hL' hgaunt hD hD' in
/-- C95.  Two finished runs of main whose magnetic fields differ in the z direction and whose d levels differ by `ed`.  The
lowest energy of the second run is at most each energy of the first plus the change of the field times the printed `Sz` plus
`ed` times the printed number of d electrons of that state.  So a stronger field never raises the printed `Sz` of the lowest
state (the energy in the field is `h·S`), and a higher d level never raises its printed number of d electrons. -/
theorem C95_main (hI : SameInteraction A A') {ed : ℝ} (hlev : LevelsRaised b h0 h0' ed 0) :
    ∃ psis S psis' S' δ, MainRun L A b P hx hy hz h0 o.energies psis S ∧ MainRun L' A' b P hx hy hz' h0' o'.energies psis' S' ∧
      δ = slopeAccuracy (S.hOp.length + S'.hOp.length) (numberOfConfigurations b P) (hz' - hz) ed ∧
      ∃ (p : 0 < o.energies.length) (p' : 0 < o'.energies.length) (r : 0 < o.expValues.2.length) (r' : 0 < o'.expValues.2.length),
      (∀ i (hi : i < o.energies.length) (hr : i < o.expValues.2.length),
        o'.energies[0] ≤ o.energies[i] + (hz' - hz) * o.expValues.2[i].sz + ed * o.expValues.2[i].n3d + δ) ∧
      o'.energies[0] - o.energies[0] ≤ (hz' - hz) * o.expValues.2[0].sz + ed * o.expValues.2[0].n3d + δ ∧
      (hz' - hz) * o'.expValues.2[0].sz + ed * o'.expValues.2[0].n3d - δ ≤ o'.energies[0] - o.energies[0] ∧
      (hz' - hz) * (o'.expValues.2[0].sz - o.expValues.2[0].sz) + ed * (o'.expValues.2[0].n3d - o.expValues.2[0].n3d) ≤ 2 * δ := by
  have hG' : GauntLarge L'.gaunt A'.ls := by
    rw [hgaunt, hD'.ls, ← hD.ls]; exact hG
  obtain ⟨psis, S, hrun, -, hp, -⟩ := printed_run hA hG hN hord hordR hfin ho hL hD
  obtain ⟨psis', S', hrun', -, hp', -⟩ := printed_run hA' hG' hN' hord' hordR' hfin' ho' hL' hD'
  have q := List.length_pos_iff.2 hrun.nonempty.1
  have q' := List.length_pos_iff.2 hrun'.nonempty.1
  have r : 0 < o.expValues.2.length := by rw [hp.count]; exact q
  have r' : 0 < o'.expValues.2.length := by rw [hp'.count]; exact q'
  have hlev' : LevelsRaised b h0' h0 (-ed) 0 := by
    intro v F
    rw [hlev v F]
    push_cast
    ring
  have h1 := fun i (hi : i < o.energies.length) (hr : i < o.expValues.2.length) =>
    slope_run hgaunt hrun hrun' hI hlev hi (hp.table i hr).2 q'
  have h2 := slope_run hgaunt.symm hrun' hrun ⟨hI.Fdd.symm, hI.Fpp.symm, hI.Fpd.symm, hI.Gpd.symm, hI.xi2p.symm, hI.xi3d.symm,
    hI.chargeTransferCorrection.symm⟩ hlev' q' (hp'.table 0 r').2 q
  have hacc : slopeAccuracy (S'.hOp.length + S.hOp.length) (numberOfConfigurations b P) (hz - hz') (-ed)
      = slopeAccuracy (S.hOp.length + S'.hOp.length) (numberOfConfigurations b P) (hz' - hz) ed := by
    unfold slopeAccuracy
    rw [abs_sub_comm, abs_neg, Nat.add_comm]
  rw [hacc] at h2
  have h3 := h1 0 q r
  refine ⟨psis, S, psis', S', _, hrun, hrun', rfl, q, q', r, r', h1, by linarith, by linarith, by linarith⟩

end

end

end Verif
