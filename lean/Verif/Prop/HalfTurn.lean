/-
C111: magnetic fields that differ by a half turn about the x axis.  Runs that meet the hypotheses are in Verif/Prop/HalfTurnExample.lean.
-/
import Verif.Lemmas.HalfTurnMeans
import Verif.Spec.FieldReversal

namespace Verif

open Finset Mpi Psr Spec

noncomputable section

section
variable {L L' : MainLib} {A A' : MainArgs} (hA : A.Valid) (hG : GauntLarge L.gaunt A.ls) {N N' : ℕ}
  (hN : 0 < N) (hN' : 0 < N')
  {ord : Fin N → ℕ → ℕ → ℕ → SetOrders} (hord : ∀ k c t i, (ord k c t i).Valid)
  {ordRixs : Fin N → List ℕ → SetOrders} (hordR : ∀ k l, (ordRixs k l).Valid) {out : Fin N → Option MainOutput}
  (hfin : CanFinish msgSum (fun k : Fin N => mainRank L A (ord k) (ordRixs k) k.val N) out)
  {o o' : MainOutput} (ho : out ⟨0, hN⟩ = some o)
  {ord' : Fin N' → ℕ → ℕ → ℕ → SetOrders} (hord' : ∀ k c t i, (ord' k c t i).Valid)
  {ordRixs' : Fin N' → List ℕ → SetOrders} (hordR' : ∀ k l, (ordRixs' k l).Valid) {out' : Fin N' → Option MainOutput}
  (hfin' : CanFinish msgSum (fun k : Fin N' => mainRank L' A' (ord' k) (ordRixs' k) k.val N') out')
  (ho' : out' ⟨0, hN'⟩ = some o')
  (hL : SolverCorrect L.solver) (hL' : SolverCorrect L'.solver) (hAA : A' = { A with hField := A'.hField })
  {b : ℕ → ℕ} {P : BasisParams} {hx hy hz : ℝ} {h0 : Op Label ℂ} (hD : Documented A b P hx hy hz h0)
  (hD' : Documented A' b P hx (-hy) (-hz) h0) (hgaunt : L'.gaunt = L.gaunt) (hkB : L'.kB = L.kB) (hGs : GauntSymmetric L.gaunt)

include hA hG hord hordR hfin ho hord' hordR' hfin' ho' hL hL' hAA hD hD' hgaunt hkB hGs in
/-- C111.  Two finished runs of main whose magnetic fields differ by a half turn about the x axis, with a non-interacting operator that
is invariant under that turn, for some exchange of the bath states.  The energies are the same.  If the states in the printed averages do
not reach the end of the list and are normalised, then the averages of `Lz` and `Sz` change sign, those of the squares of the moments
stay the same, and the occupations of the two spins are exchanged. -/
theorem C111_printed :
    ∃ psis S psis' S', MainRun L A b P hx hy hz h0 o.energies psis S ∧
      MainRun L' A' b P hx (-hy) (-hz) h0 o'.energies psis' S' ∧
      (o.expValues.1 ∈ o.energies ∧ ∀ e ∈ o.energies, o.expValues.1 ≤ e) ∧
      ∀ π φ, HalfTurn b P π φ →
        (∀ v, operator (labelSpec (position (pdSystem b)) h0) (moveElectrons (nTotal (pdSystem b)) π φ v)
          = moveElectrons (nTotal (pdSystem b)) π φ (operator (labelSpec (position (pdSystem b)) h0) v)) →
        o'.energies = o.energies ∧ S'.es = S.es ∧ o'.expValues.1 = o.expValues.1 ∧
        ((∃ e ∈ o.energies, 10 * L.kB * 300 ≤ e - o.expValues.1) →
          (∀ i < o.energies.length, o.energies.getD i 0 - o.expValues.1 < 10 * L.kB * 300 → ∀ psi ∈ [psis.getD i [], psis'.getD i []],
            ∑ F ∈ (range (nTotal (pdSystem b))).powerset, Complex.normSq (ampl (nTotal (pdSystem b)) psi F) = 1) →
          ReversedMeans o.thermal o'.thermal) := by
  have hA' : A'.Valid := by rw [hAA]; exact ⟨hA.delta, hA.deltaNIXS, hA.deltaRIXS⟩
  have hG' : GauntLarge L'.gaunt A'.ls := by rw [hgaunt, hAA]; exact hG
  obtain ⟨psis, S, hrun, hS, hpm, -⟩ := printed_run hA hG hN hord hordR hfin ho hL hD
  obtain ⟨psis', S', hrun', -, hpm', -⟩ := printed_run hA' hG' hN' hord' hordR' hfin' ho' hL' hD'
  refine ⟨psis, S, psis', S', hrun, hrun', hpm.ground, fun π φ hR hinv => ?_⟩
  have hT := half_shellTurn hR
  have hC := half_hamiltonian hR hGs (A := A) (P.n0 2) hx hy hz hinv
  have hK : Renumbers (nTotal (pdSystem b)) (partnerMatrix π φ) ∨ (ElementsKept S ∧ ElementsKept S') := .inl ⟨π, φ, fun _ _ _ _ => rfl⟩
  obtain ⟨hE, hes, -⟩ := turn_rebased hrun hrun' hAA hT hgaunt hkB hS hC hK
  have he0 : o'.expValues.1 = o.expValues.1 := by
    have g := hpm.ground
    have g' := hpm'.ground
    rw [hE] at g'
    exact le_antisymm (g'.2 _ g.1) (g.2 _ g'.1)
  refine ⟨hE, hes, he0, fun hgap hnorm => ?_⟩
  obtain ⟨m, hm, hiff, hlt⟩ := window_prefix hrun.lowest.1 o.expValues.1 (10 * L.kB * 300) hgap
  obtain ⟨U, hU, hU0, hv⟩ := turn_mapped hrun hrun' hAA hT hgaunt hS hC hK hE hm (hlt hm)
    (fun i hi => hnorm i (by omega) ((hiff i (by omega)).2 hi) _ (by simp))
    fun i hi => hnorm i (by omega) ((hiff i (by omega)).2 hi) _ (by simp)
  rw [hkB, hE, he0] at hpm'
  obtain ⟨h1, h2, h3, h4, h5, h6, h7, h8, h9⟩ := half_means hR hpm hpm' hm hiff hU hU0 hv
  exact ⟨by rw [hpm.energy, hpm'.energy], h3.symm, by rw [h1, neg_neg], by rw [h2, neg_neg], h8.symm, h9.symm, ⟨h5.symm, h4.symm⟩,
    h7.symm, h6.symm⟩

include hA hG hord hordR hfin ho hord' hordR' hfin' ho' hL hL' hAA hD hD' hgaunt hkB hGs in
/-- C111.  Two finished runs of main whose magnetic fields differ by a half turn about the x axis, with a non-interacting operator that
is invariant under that turn, for some exchange of the bath states.  The energies are the same.  If the energies used for the spectra
do not reach the end of the list, the stored states are normalised, and the cutoffs drop nothing from the
excited states, then the averaged photoemission spectra of a spin-orbital are those of the spin-orbital with the opposite spin and
orbital momentum in the turned field, and the averaged absorption and resonant scattering spectra for each linear polarisation are the same in the
turned field: exactly if the number of Lanczos vectors is sufficient, and else up to the error of 150 Lanczos vectors. -/
theorem C111_spectra (hsph : L'.sphHarm = L.sphHarm) (hjn : L'.jn = L.jn) (hGr : GauntRules L.gaunt) (hsolve : ExactSolver L.solve)
    (hsolve' : ExactSolver L'.solve) (hf : L.f32 50 = 50) (hf' : L'.f32 50 = 50) :
    ∃ psis S psis' S', MainRun L A b P hx hy hz h0 o.energies psis S ∧
      MainRun L' A' b P hx (-hy) (-hz) h0 o'.energies psis' S' ∧
      ∀ π φ, HalfTurn b P π φ →
        (∀ v, operator (labelSpec (position (pdSystem b)) h0) (moveElectrons (nTotal (pdSystem b)) π φ v)
          = moveElectrons (nTotal (pdSystem b)) π φ (operator (labelSpec (position (pdSystem b)) h0) v)) →
        o'.energies = o.energies ∧ S'.es = S.es ∧
        (S.es.length < o.energies.length →
          (∀ psi ∈ S.psis ++ S'.psis, ∑ F ∈ (range (size S)).powerset, Complex.normSq (ampl (size S) psi F) = 1) →
          (AllResolved b S → AllResolved b S' → HalfTurnSpectra o.spectra o'.spectra) ∧
          (AllKept b S → AllKept b S' → Almost HalfTurnSpectra b S S' o.spectra o'.spectra)) := by
  have hA' : A'.Valid := by rw [hAA]; exact ⟨hA.delta, hA.deltaNIXS, hA.deltaRIXS⟩
  have hG' : GauntLarge L'.gaunt A'.ls := by rw [hgaunt, hAA]; exact hG
  obtain ⟨psis, S, hrun, hS, hsp, hn⟩ := main_both hA hG hN hord hordR hfin ho hL hD hGr hsolve hf
  obtain ⟨psis', S', hrun', hS', hsp', hn'⟩ :=
    main_both hA' hG' hN' hord' hordR' hfin' ho' hL' hD' (by rw [hgaunt]; exact hGr) hsolve' hf'
  refine ⟨psis, S, psis', S', hrun, hrun', fun π φ hR hinv => ?_⟩
  have hE := sameCall hrun hrun' hAA hgaunt hsph hjn hkB
  have hT := half_shellTurn hR
  obtain ⟨h1, h2, h3⟩ := turn_rebased hrun hrun' hAA hT hgaunt hkB hS (half_hamiltonian hR hGs (P.n0 2) hx hy hz hinv)
    (.inl ⟨π, φ, fun _ _ _ _ => rfl⟩)
  have hGS : GauntSymmetric S.gaunt := by rw [hrun.args.library.1]; exact hGs
  refine ⟨h1, h2, fun hlt hnorm => related_both hsp hsp' hn hn' hrun.args.cutoffs.1 hrun'.args.cutoffs.1
    (width_strengths hS hrun.dict) (width_strengths hS' hrun'.dict) fun hRS hRS' x x' hsp hsp' => ?_⟩
  have hM := h3 hlt hnorm
  refine ⟨fun j hj k hk => ?_, fun j hj k hk => ?_, fun t ht k hk => ?_, fun t ht c hc d hd k hk => ?_⟩
  · have := turn_ps_pair hE hsp hsp' hM hRS hRS' (τ := fun _ => j) (τ' := fun _ => 9 - j) (fun c hc => hj) (fun c hc => by omega)
      (half_create hR (l := 2) (by simp) (j := j) (by omega)) (half_annihilate hR (l := 2) (by simp) (j := j) (by omega)) hk
    simpa using this
  · have := turn_xps_pair hE hsp hsp' hM hRS hRS' (τ := fun _ => j) (τ' := fun _ => 5 - j) (fun c hc => hj) (fun c hc => by omega)
      (half_annihilate hR (l := 1) (by simp) (j := j) (by omega)) hk
    simpa using this
  · have := turn_xas hE hsp hsp' hM hRS hRS' (τ := fun _ => t) (τ' := fun _ => t) (fun c hc => ht) (fun c hc => ht)
      (half_dipolePD hR hGS ht) hk
    simpa using this
  · have := turn_rixs hE hsp hsp' hM hRS hRS' (τ := fun _ => t) (τ' := fun _ => t) (fun c hc => ht) (fun c hc => ht)
      (half_dipolePD hR hGS ht) (half_dipoleDP hR hGS) hc hd hk
    simpa using this

end

/-- C111.  The non-interacting operator of every crystal-field file is invariant under the half turn, if bath states are turned like the
d orbitals. -/
theorem C111_crystal_field {A : MainArgs} {b : ℕ → ℕ} {P : BasisParams} {hx hy hz : ℝ} {h0 : Op Label ℂ}
    (hD : Documented A b P hx hy hz h0) {parameters : Dict String ℝ} (hA : A.h0 = .crystalField parameters)
    (hC : CrystalFieldForm A) (hv1 : P.val 1 ≤ b 1) :
    ∃ π φ, HalfTurn b P π φ ∧
      ∀ v, operator (labelSpec (position (pdSystem b)) h0) (moveElectrons (nTotal (pdSystem b)) π φ v)
        = moveElectrons (nTotal (pdSystem b)) π φ (operator (labelSpec (position (pdSystem b)) h0) v) := by
  have hb := hC.bath
  have hv := hC.valence
  rw [hD.nBaths] at hb
  rw [hD.nValBaths] at hv
  simp only [List.getElem?_cons_succ, List.getElem?_cons_zero, Option.some.injEq] at hb hv
  refine ⟨_, _, cf_halfTurn hv hb hv1, fun v => ?_⟩
  rcases hD.h0 with ⟨h, -⟩ | ⟨p, -, h⟩
  · rw [hA] at h
    cases h
  · exact cf_half_invariant hv hb hv1 h v

/-- Arguments with a crystal-field file: ten valence bath states. -/
example (T : ℝ) (parameters : Dict String ℝ) : ∃ (A : MainArgs) (b : ℕ → ℕ) (P : BasisParams) (h0 : Op Label ℂ),
    Documented A b P 0 0 0 h0 ∧ A.h0 = .crystalField parameters ∧ CrystalFieldForm A ∧ P.val 1 ≤ b 1 := by
  obtain ⟨h0, u, eg, t2g, e, -⟩ := C53_meaning (nBaths := [(1, 0), (2, 10)]) (nValBaths := [(1, 0), (2, 10)])
    (readH0CFFile parameters) 10 10 rfl rfl (Or.inl (rfl : "spherical" = "spherical"))
  refine ⟨{ holeArgs 0 T [] with h0 := .crystalField parameters, nBaths := [0, 10], nValBaths := [0, 10] },
    fun l => if l = 2 then 10 else 0, { holeParams with val := fun l => if l = 2 then 10 else 0 }, h0, ?_, rfl, ?_, le_rfl⟩
  · exact ⟨rfl, rfl, rfl, rfl, rfl, rfl, rfl, rfl, rfl, rfl, rfl, rfl, Or.inr ⟨parameters, rfl, e⟩⟩
  · exact ⟨rfl, rfl, Or.inl rfl, rfl⟩

end

end Verif
