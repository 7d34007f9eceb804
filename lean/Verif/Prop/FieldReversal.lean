/-
C110: the opposite magnetic field has the same energies, the opposite moments, and the spectra of the opposite spin and orbital
momentum.
-/
import Verif.Prop.TimeReversal
import Verif.Lemmas.FieldReversal
import Verif.Lemmas.ReversedSquares
import Verif.Spec.FieldReversal
import Verif.Lemmas.ClosedShellRun

namespace Verif

open Finset Mpi Psr Spec

noncomputable section

/-- The spectra of two runs in opposite fields. -/
theorem reversed_spectra {b : ℕ → ℕ} {P : BasisParams} {π : ℕ → ℕ} {φ : ℕ → ℂ} (hR : TimeReversal b P π φ) {L L' : MainLib}
    {A A' : MainArgs} {hx hy hz : ℝ} {h0 : Op Label ℂ} {energies energies' : List ℝ} {psis psis' : List (Psi ℂ)} {S S' : SimulateArgs}
    (hrun : MainRun L A b P hx hy hz h0 energies psis S) (hrun' : MainRun L' A' b P (-hx) (-hy) (-hz) h0 energies' psis' S')
    (hE : SameCall b S S') (hgaunt : L'.gaunt = L.gaunt) (hkB : L'.kB = L.kB) (hAA : A' = { A with hField := A'.hField })
    (hinv : ∀ v, operator (labelSpec (position (pdSystem b)) h0) (reverse (nTotal (pdSystem b)) π φ v)
      = reverse (nTotal (pdSystem b)) π φ (operator (labelSpec (position (pdSystem b)) h0) v))
    (hG : GauntSymmetric L.gaunt) (hGr : GauntRules L.gaunt) (hY : HarmonicsSymmetric L.sphHarm) (hA : A.Valid) {s s' : Simulated} (hsp : PDSpectra b S s) (hsp' : PDSpectra b S' s')
    (hlt : S.es.length < energies.length)
    (hnorm : ∀ psi ∈ S.psis, ∑ F ∈ (range (size S)).powerset, Complex.normSq (ampl (size S) psi F) = 1)
    (hnorm' : ∀ psi ∈ S'.psis, ∑ F ∈ (range (size S')).powerset, Complex.normSq (ampl (size S') psi F) = 1)
    (hr : AllResolved b S) (hr' : AllResolved b S') : ReversedSpectra s s' := by
  obtain ⟨-, hes⟩ := reversed_energies hR hrun hrun' hgaunt hkB hAA hinv hG
  have hkry := hrun.args.cutoffs.1
  have hkry' := hrun'.args.cutoffs.1
  have hpart : ∀ i, star (star (φ i)) * star (φ i) = 1 := fun i => by
    rw [star_star, mul_comm]; exact unit_star hR.unit i
  have hpos : ∀ l ∈ [1, 2], ∀ j < 2 * (2 * l + 1), impStart (pdSystem b) l + j < nTotal (pdSystem b) := by
    intro l hl j hj
    obtain ⟨h1, h2, h3⟩ := shell_position (b := b) hj
    rw [h3]
    exact shell_lt hl h1 h2
  have hδ : ∀ w : ℝ, ((w : ℂ) + Complex.I * S.delta).im ≠ 0 := by
    intro w
    rw [Complex.add_im, Complex.ofReal_im, Complex.I_mul_im, Complex.ofReal_re, zero_add, hrun.args.delta]
    exact hA.delta
  have hδ' : ∀ w : ℝ, (-((w : ℂ) + Complex.I * S.delta)).im ≠ 0 := by
    intro w
    rw [Complex.neg_im]
    exact neg_ne_zero.2 (hδ w)
  have hδn : ∀ w : ℝ, ((w : ℂ) + Complex.I * S.deltaNIXS).im ≠ 0 := by
    intro w
    rw [Complex.add_im, Complex.ofReal_im, Complex.I_mul_im, Complex.ofReal_re, zero_add, hrun.args.deltaNIXS]
    exact hA.deltaNIXS
  obtain ⟨t1, t2, t3, t4⟩ := hsp.tables
  obtain ⟨t1', t2', t3', t4'⟩ := hsp'.tables
  rw [hE.kB, hE.T, hes] at t1' t2' t3' t4'
  have hGS : GauntSymmetric S.gaunt := by rw [hrun.args.library.1]; exact hG
  have hlen : ∀ i < S.es.length, i < S'.es.length := fun i hi => by rw [hes]; exact hi
  have key := @reverse_response b P π φ hR L L' A A' hx hy hz h0 energies energies' psis psis' S S' hrun hrun' hgaunt hkB hAA hinv hG
    hlt hnorm hnorm'
  refine ⟨fun j hj k hk => ?_, fun j hj k hk => ?_, fun t ht k hk => ?_, fun t ht k hk => ?_⟩
  · have hk1 : k < S.w.length := by rw [hE.lw]; exact hk
    have hk2 : k < S'.w.length := by rw [hE.w]; exact hk1
    have r1 := hr.add j hj
    have r2 := hr.remove j hj
    have r1' := hr'.add (9 - j) (by omega)
    have r2' := hr'.remove (9 - j) (by omega)
    obtain ⟨g, hg⟩ := choose_lt fun i hi => hsp.photoemission i j k hi hj hk1 _ rfl (hkry ▸ (r1 i hi).2) (hkry ▸ (r2 i hi).2)
    obtain ⟨h, hh⟩ := choose_lt hg
    obtain ⟨g', hg'⟩ := choose_lt fun i hi => hsp'.photoemission i (9 - j) k hi (by omega) hk2 _ rfl (hkry' ▸ (r1' i hi).2)
      (hkry' ▸ (r2' i hi).2)
    obtain ⟨h', hh'⟩ := choose_lt hg'
    rw [hE.delta, List.getElem_of_eq hE.w hk2] at hh'
    have hπ := partner_shell hR (l := 2) (by simp) (j := j) (by omega)
    have hn := hpos 2 (by simp) j (by omega)
    refine thermal_same (g := fun i => g i - h i) (g' := fun i => g' i - h' i) (t1.thermal j k) (t1'.thermal (9 - j) k)
      (fun i hi => (hh i hi).2.2) (fun i hi => (hh' i (hlen i hi)).2.2) ?_
    simp only [mul_sub, sum_sub_distrib]
    rw [key (unit_star hR.unit _) (create_linear _) (fun v => by rw [reverse_create hR.partner hn, hπ]) r1 r1' (hδ _)
        (fun i hi => (hh i hi).1) fun i hi => (hh' i (hlen i hi)).1,
      key (hpart _) (annihilate_linear _) (fun v => by rw [reverse_annihilate hR.partner hR.unit hn, hπ]) r2 r2' (hδ' _)
        (fun i hi => (hh i hi).2.1) fun i hi => (hh' i (hlen i hi)).2.1]
  · have hk1 : k < S.w.length := by rw [hE.lw]; exact hk
    have hk2 : k < S'.w.length := by rw [hE.w]; exact hk1
    have r2 := hr.core j hj
    have r2' := hr'.core (5 - j) (by omega)
    obtain ⟨h, hh⟩ := choose_lt fun i hi => hsp.xps i j k hi hj hk1 _ rfl (hkry ▸ (r2 i hi).2)
    obtain ⟨h', hh'⟩ := choose_lt fun i hi => hsp'.xps i (5 - j) k hi (by omega) hk2 _ rfl (hkry' ▸ (r2' i hi).2)
    rw [hE.delta, List.getElem_of_eq hE.w hk2] at hh'
    have hπ := partner_shell hR (l := 1) (by simp) (j := j) (by omega)
    have hn := hpos 1 (by simp) j (by omega)
    refine thermal_same (g := fun i => -h i) (g' := fun i => -h' i) (t2.thermal j k) (t2'.thermal (5 - j) k)
      (fun i hi => by rw [(hh i hi).2, Complex.neg_im, neg_neg]) (fun i hi => by rw [(hh' i (hlen i hi)).2, Complex.neg_im, neg_neg]) ?_
    simp only [mul_neg, sum_neg_distrib]
    rw [key (hpart _) (annihilate_linear _) (fun v => by rw [reverse_annihilate hR.partner hR.unit hn, hπ]) r2 r2' (hδ' _)
      (fun i hi => (hh i hi).1) fun i hi => (hh' i (hlen i hi)).1]
  · have hk1 : k < S.w.length := by rw [hE.lw]; exact hk
    have hk2 : k < S'.w.length := by rw [hE.w]; exact hk1
    have ht1 : t < S.epsilons.length := by rw [hE.le]; exact ht
    have ht2 : t < S'.epsilons.length := by rw [hE.le']; exact ht
    have r := hr.absorb _ (List.getElem_mem ht1)
    have r' := hr'.absorb _ (List.getElem_mem ht2)
    obtain ⟨g, hg⟩ := choose_lt fun i hi => hsp.xas i t k hi ht1 hk1 (hkry ▸ (r i hi).2)
    obtain ⟨g', hg'⟩ := choose_lt fun i hi => hsp'.xas i t k hi ht2 hk2 (hkry' ▸ (r' i hi).2)
    rw [hE.axes _ ht1] at hg r
    rw [hE.delta, List.getElem_of_eq hE.w hk2, hE.axes' _ ht2, hE.gaunt] at hg'
    rw [hE.axes' _ ht2, hE.gaunt] at r'
    have hreal : star (axisPol t).x = (axisPol t).x ∧ star (axisPol t).y = (axisPol t).y ∧ star (axisPol t).z = (axisPol t).z := by
      unfold axisPol
      interval_cases t <;> simp
    refine thermal_same (g := g) (g' := g') (t4.thermal t k) (t4'.thermal t k) (fun i hi => (hg i hi).2)
      (fun i hi => (hg' i (hlen i hi)).2) ?_
    exact key (c := 1) (by simp) (between_linear _ _ _ _)
      (fun v => by rw [one_smul]; exact reverse_dipole hR hGS hreal.1 hreal.2.1 hreal.2.2 v) r r' (hδ _)
      (fun i hi => (hg i hi).1) fun i hi => (hg' i (hlen i hi)).1
  · have hk1 : k < S.wLoss.length := by rw [hE.ll]; exact hk
    have hk2 : k < S'.wLoss.length := by rw [hE.wLoss]; exact hk1
    have hq : (if t = 0 then 2 else 7 : ℝ) = 2 ∨ (if t = 0 then 2 else 7 : ℝ) = 7 := by
      split
      · exact .inl rfl
      · exact .inr rfl
    obtain ⟨r, n⟩ := hr.scatter _ hq
    obtain ⟨r', n'⟩ := hr'.scatter _ hq
    obtain ⟨g, hg⟩ := choose_lt fun i hi => hsp.nixs i t k hi ht hk1 _ rfl n (hkry ▸ (r i hi).2)
    obtain ⟨g', hg'⟩ := choose_lt fun i hi => hsp'.nixs i t k hi ht hk2 _ rfl n' (hkry' ▸ (r' i hi).2)
    rw [hE.deltaNIXS, List.getElem_of_eq hE.wLoss hk2, hE.planeWave] at hg'
    rw [hE.planeWave] at r'
    refine thermal_same (g := g) (g' := g') (t3.thermal t k) (t3'.thermal t k) (fun i hi => (hg i hi).2)
      (fun i hi => (hg' i (hlen i hi)).2) ?_
    exact key (c := 1) (by simp) (planeWaveDD_linear _ _ _)
      (fun v => by
        rw [one_smul]
        exact reverse_planeWave hR hGS (by rw [hrun.args.library.1]; exact hGr) (by rw [hrun.args.library.2.1]; exact hY)
          hrun.args.radial.2.1 hrun.args.radial.2.2 _ v) r r' (hδn _)
      (fun i hi => (hg i hi).1) fun i hi => (hg' i (hlen i hi)).1

section
variable {L L' : MainLib} {A A' : MainArgs} (hA : A.Valid) (hG : GauntLarge L.gaunt A.ls) {N N' : ℕ}
  (hN : 0 < N) (hN' : 0 < N')
  {ord : Fin N → ℕ → ℕ → ℕ → SetOrders} (hord : ∀ k c t i, (ord k c t i).Valid)
  {ordRixs : Fin N → List ℕ → SetOrders} (hordR : ∀ k l, (ordRixs k l).Valid) {out : Fin N → Option MainOutput}
  (hfin : CanFinish msgSum (fun k : Fin N => mainRank L A (ord k) (ordRixs k) k.val N) out)
  {o o' : MainOutput} (ho : out ⟨0, hN⟩ = some o)
  {ord' : Fin N' → ℕ → ℕ → ℕ → SetOrders} (hord' : ∀ k c t i, (ord' k c t i).Valid)
  {ordRixs' : Fin N' → List ℕ → SetOrders} (hordR' : ∀ k l, (ordRixs' k l).Valid) {out' : Fin N' → Option MainOutput}
  (hfin' : CanFinish msgSum (fun k : Fin N' => mainRank L' A' (ord' k) (ordRixs' k) k.val N') out')
  (ho' : out' ⟨0, hN'⟩ = some o')
  (hL : SolverCorrect L.solver) (hL' : SolverCorrect L'.solver) (hAA : A' = { A with hField := A'.hField })
  {b : ℕ → ℕ} {P : BasisParams} {hx hy hz : ℝ} {h0 : Op Label ℂ} (hD : Documented A b P hx hy hz h0)
  (hD' : Documented A' b P (-hx) (-hy) (-hz) h0) (hgaunt : L'.gaunt = L.gaunt) (hkB : L'.kB = L.kB) (hGs : GauntSymmetric L.gaunt)

include hA hG hord hordR hfin ho hord' hordR' hfin' ho' hL hL' hAA hD hD' hgaunt hkB hGs in
/-- C110.  Two finished runs of main with opposite magnetic fields, with a non-interacting operator that is invariant under time
reversal, for some partners of the bath states.  The energies are the same.  If the states in the printed averages do not reach
the end of the list and are normalised, then the averages of `Lz` and `Sz` change sign, those of the
squares of the moments stay the same, and the occupations of the two spins are exchanged. -/
theorem C110_printed :
    ∃ psis S psis' S', MainRun L A b P hx hy hz h0 o.energies psis S ∧
      MainRun L' A' b P (-hx) (-hy) (-hz) h0 o'.energies psis' S' ∧
      (o.expValues.1 ∈ o.energies ∧ ∀ e ∈ o.energies, o.expValues.1 ≤ e) ∧
      ∀ π φ, TimeReversal b P π φ →
        (∀ v, operator (labelSpec (position (pdSystem b)) h0) (reverse (nTotal (pdSystem b)) π φ v)
          = reverse (nTotal (pdSystem b)) π φ (operator (labelSpec (position (pdSystem b)) h0) v)) →
        o'.energies = o.energies ∧ S'.es = S.es ∧ o'.expValues.1 = o.expValues.1 ∧
        ((∃ e ∈ o.energies, 10 * L.kB * 300 ≤ e - o.expValues.1) →
          (∀ i < o.energies.length, o.energies.getD i 0 - o.expValues.1 < 10 * L.kB * 300 → ∀ psi ∈ [psis.getD i [], psis'.getD i []],
            ∑ F ∈ (range (nTotal (pdSystem b))).powerset, Complex.normSq (ampl (nTotal (pdSystem b)) psi F) = 1) →
          ReversedMeans o.thermal o'.thermal) := by
  have hA' : A'.Valid := by rw [hAA]; exact ⟨hA.delta, hA.deltaNIXS, hA.deltaRIXS⟩
  have hG' : GauntLarge L'.gaunt A'.ls := by rw [hgaunt, hAA]; exact hG
  obtain ⟨psis, S, hrun, -, hpm, -⟩ := printed_run hA hG hN hord hordR hfin ho hL hD
  obtain ⟨psis', S', hrun', -, hpm', -⟩ := printed_run hA' hG' hN' hord' hordR' hfin' ho' hL' hD'
  refine ⟨psis, S, psis', S', hrun, hrun', hpm.ground, fun π φ hR hinv => ?_⟩
  obtain ⟨hE, hes⟩ := reversed_energies hR hrun hrun' hgaunt hkB hAA hinv hGs
  have he0 : o'.expValues.1 = o.expValues.1 := by
    have g := hpm.ground
    have g' := hpm'.ground
    rw [hE] at g'
    exact le_antisymm (g'.2 _ g.1) (g.2 _ g'.1)
  refine ⟨hE, hes, he0, fun hgap hnorm => ?_⟩
  obtain ⟨m, hm, hiff, hlt⟩ := window_prefix hrun.lowest.1 o.expValues.1 (10 * L.kB * 300) hgap
  obtain ⟨U, hU, hU0, hv⟩ := mainRun_mapped hR hrun hrun' hgaunt hAA hinv hGs hE hm (hlt hm)
    (fun i hi => hnorm i (by omega) ((hiff i (by omega)).2 hi) _ (by simp))
    fun i hi => hnorm i (by omega) ((hiff i (by omega)).2 hi) _ (by simp)
  rw [hkB, hE, he0] at hpm'
  obtain ⟨h1, h2, h3, h4, h5, h6, h7⟩ := reversed_means hR hpm hpm' hm hiff hU hU0 hv
  obtain ⟨h8, h9⟩ := reversed_squares hR hpm hpm' hm hiff hU hU0 hv
  exact ⟨by rw [hpm.energy, hpm'.energy], h3.symm, by rw [h1, neg_neg], by rw [h2, neg_neg], h8, h9, ⟨h5.symm, h4.symm⟩, h7.symm, h6.symm⟩

include hA hG hord hordR hfin ho hord' hordR' hfin' ho' hL hL' hAA hD hD' hgaunt hkB hGs in
/-- C110.  Under the same conditions, if the energies used for the spectra do not reach the end of the list, the stored states
are normalised, and the cutoffs and the number of Lanczos vectors are harmless, then the averaged photoemission spectra of a
spin-orbital are those of the spin-orbital with the opposite spin and orbital momentum in the opposite field, and the averaged absorption
spectra for each linear polarisation and inelastic scattering spectra are the same in the opposite field. -/
theorem C110_spectra (hsph : L'.sphHarm = L.sphHarm) (hjn : L'.jn = L.jn) (hGr : GauntRules L.gaunt) (hsolve : ExactSolver L.solve)
    (hsolve' : ExactSolver L'.solve) (hf : L.f32 50 = 50) (hf' : L'.f32 50 = 50) (hY : HarmonicsSymmetric L.sphHarm) :
    ∃ psis S psis' S', MainRun L A b P hx hy hz h0 o.energies psis S ∧
      MainRun L' A' b P (-hx) (-hy) (-hz) h0 o'.energies psis' S' ∧ PDSpectra b S o.spectra ∧ PDSpectra b S' o'.spectra ∧
      ∀ π φ, TimeReversal b P π φ →
        (∀ v, operator (labelSpec (position (pdSystem b)) h0) (reverse (nTotal (pdSystem b)) π φ v)
          = reverse (nTotal (pdSystem b)) π φ (operator (labelSpec (position (pdSystem b)) h0) v)) →
        S.es.length < o.energies.length →
        (∀ psi ∈ S.psis ++ S'.psis, ∑ F ∈ (range (size S)).powerset, Complex.normSq (ampl (size S) psi F) = 1) →
        AllResolved b S → AllResolved b S' → ReversedSpectra o.spectra o'.spectra := by
  have hA' : A'.Valid := by rw [hAA]; exact ⟨hA.delta, hA.deltaNIXS, hA.deltaRIXS⟩
  have hG' : GauntLarge L'.gaunt A'.ls := by rw [hgaunt, hAA]; exact hG
  obtain ⟨psis, S, hrun, -, hsp⟩ := main_spectra hA hG hN hord hordR hfin ho hL hD hGr hsolve hf
  obtain ⟨psis', S', hrun', -, hsp'⟩ := main_spectra hA' hG' hN' hord' hordR' hfin' ho' hL' hD' (by rw [hgaunt]; exact hGr) hsolve' hf'
  refine ⟨psis, S, psis', S', hrun, hrun', hsp, hsp', fun π φ hR hinv hlt hnorm hr hr' => ?_⟩
  have hsz : size S' = size S := by unfold size; rw [hrun.system, hrun'.system]
  exact reversed_spectra hR hrun hrun' (sameCall hrun hrun' hAA hgaunt hsph hjn hkB) hgaunt hkB hAA hinv hGs hGr hY hA hsp hsp' hlt
    (fun psi h => hnorm psi (List.mem_append_left _ h)) (fun psi h => by rw [hsz]; exact hnorm psi (List.mem_append_right _ h)) hr hr'

end

end

end Verif
