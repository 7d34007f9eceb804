/-
C90-C92: systems without a preferred direction in space or of the spin.  Runs that meet the hypotheses are in Verif/Prop/IsotropyExample.lean.
-/
import Verif.Lemmas.TurnRun

namespace Verif

open Finset Mpi Psr Spec

noncomputable section

section
variable {L L' : MainLib} {A A' : MainArgs} (hA : A.Valid) (hG : GauntLarge L.gaunt A.ls) {N N' : ℕ}
  (hN : 0 < N) (hN' : 0 < N')
  {ord : Fin N → ℕ → ℕ → ℕ → SetOrders} (hord : ∀ k c t i, (ord k c t i).Valid)
  {ordRixs : Fin N → List ℕ → SetOrders} (hordR : ∀ k l, (ordRixs k l).Valid) {out : Fin N → Option MainOutput}
  (hfin : CanFinish msgSum (fun k : Fin N => mainRank L A (ord k) (ordRixs k) k.val N) out)
  {o o' : MainOutput} (ho : out ⟨0, hN⟩ = some o)
  {ord' : Fin N' → ℕ → ℕ → ℕ → SetOrders} (hord' : ∀ k c t i, (ord' k c t i).Valid)
  {ordRixs' : Fin N' → List ℕ → SetOrders} (hordR' : ∀ k l, (ordRixs' k l).Valid) {out' : Fin N' → Option MainOutput}
  (hfin' : CanFinish msgSum (fun k : Fin N' => mainRank L' A' (ord' k) (ordRixs' k) k.val N') out')
  (ho' : out' ⟨0, hN'⟩ = some o')
  (hL : SolverCorrect L.solver) (hL' : SolverCorrect L'.solver) (hAA : A' = { A with hField := A'.hField })
  {b : ℕ → ℕ} {P : BasisParams} {hx hy hz hx' hy' hz' : ℝ} {h0 : Op Label ℂ} (hD : Documented A b P hx hy hz h0)
  (hD' : Documented A' b P hx' hy' hz' h0) (hlength : hx ^ 2 + hy ^ 2 + hz ^ 2 = hx' ^ 2 + hy' ^ 2 + hz' ^ 2)

include hA hG hord hordR hfin ho hord' hordR' hfin' ho' hL hL' hAA hD hD' in
/-- Two finished runs that differ in the field only, and any rotation of the one into the other. -/
theorem isotropy_runs (hgaunt : L'.gaunt = L.gaunt) (hsph : L'.sphHarm = L.sphHarm) (hjn : L'.jn = L.jn) (hkB : L'.kB = L.kB)
    (hR : GauntRules L.gaunt) (hsolve : ExactSolver L.solve) (hsolve' : ExactSolver L'.solve) (hf : L.f32 50 = 50)
    (hf' : L'.f32 50 = 50) :
    ∃ psis S psis' S', MainRun L A b P hx hy hz h0 o.energies psis S ∧
      MainRun L' A' b P hx' hy' hz' h0 o'.energies psis' S' ∧ PDSpectra b S o.spectra ∧ PDSpectra b S' o'.spectra ∧
      PDWithin b S o.spectra ∧ PDWithin b S' o'.spectra ∧ S.Valid ∧ S'.Valid ∧
      SameCall b S S' ∧ S.gaunt = L.gaunt ∧
      ∀ K J w, ConservesMomentum b P h0 K J → Turning L.gaunt A K → Rotated w (vec3 hx hy hz) (vec3 hx' hy' hz') →
        ElementsKept S → ElementsKept S' →
        o'.energies = o.energies ∧ S'.es = S.es ∧ (S.es.length < o.energies.length →
          (∀ psi ∈ S.psis ++ S'.psis, ∑ F ∈ (range (size S)).powerset, Complex.normSq (ampl (size S) psi F) = 1) →
          Rebased S S' (turnU b J w)) := by
  have hA' : A'.Valid := by rw [hAA]; exact ⟨hA.delta, hA.deltaNIXS, hA.deltaRIXS⟩
  have hG' : GauntLarge L'.gaunt A'.ls := by rw [hgaunt, hAA]; exact hG
  obtain ⟨psis, S, hrun, hS, hsp, hn⟩ := main_both hA hG hN hord hordR hfin ho hL hD hR hsolve hf
  obtain ⟨psis', S', hrun', hS', hsp', hn'⟩ :=
    main_both hA' hG' hN' hord' hordR' hfin' ho' hL' hD' (by rw [hgaunt]; exact hR) hsolve' hf'
  refine ⟨psis, S, psis', S', hrun, hrun', hsp, hsp', hn, hn', hS, hS', sameCall hrun hrun' hAA hgaunt hsph hjn hkB, hrun.args.library.1,
    fun K J w hJ hK hw hk hk' => ?_⟩
  exact turn_rebased hrun hrun' hAA (momentum_turn hJ w) hgaunt hkB hS (momentum_hamiltonian hJ hK w (P.n0 2) hw) (.inr ⟨hk, hk'⟩)

include hA hG hord hordR hfin ho hord' hordR' hfin' ho' hL hL' hAA hD hD' hlength in
/-- C90.  Two finished runs of main whose magnetic fields have the same strength but other directions, for a non-interacting operator
without a preferred direction.  If no matrix element is dropped the energies are the same.  If moreover the energies used
for the spectra do not reach the end of the list, the stored states are normalised, and the cutoffs drop nothing, the averaged
spectra are the same after summation over the polarisations, or over the states of the shell: exactly if the number of Lanczos
vectors is sufficient, and else up to the error of 150 Lanczos vectors. -/
theorem C90_main (hgaunt : L'.gaunt = L.gaunt) (hsph : L'.sphHarm = L.sphHarm) (hjn : L'.jn = L.jn) (hkB : L'.kB = L.kB)
    (hR : GauntRules L.gaunt) (hi : GauntInvariant L.gaunt) (hs : GauntSymmetric L.gaunt)
    (hsolve : ExactSolver L.solve) (hsolve' : ExactSolver L'.solve) (hf : L.f32 50 = 50)
    (hf' : L'.f32 50 = 50) (hsym : SphericallySymmetric b P h0) :
    ∃ psis S psis' S', MainRun L A b P hx hy hz h0 o.energies psis S ∧
      MainRun L' A' b P hx' hy' hz' h0 o'.energies psis' S' ∧
      (ElementsKept S → ElementsKept S' →
        o'.energies = o.energies ∧ S'.es = S.es ∧
        (S.es.length < o.energies.length →
          (∀ psi ∈ S.psis ++ S'.psis, ∑ F ∈ (range (size S)).powerset, Complex.normSq (ampl (size S) psi F) = 1) →
          (AllResolved b S → AllResolved b S' → SameSums o.spectra o'.spectra) ∧
          (AllKept b S → AllKept b S' → Almost SameSums b S S' o.spectra o'.spectra))) := by
  obtain ⟨psis, S, psis', S', hrun, hrun', hsp, hsp', hn, hn', hS, hS', hE, hgS, hall⟩ := isotropy_runs hA hG hN hN' hord hordR hfin ho hord' hordR' hfin'
    ho' hL hL' hAA hD hD' hgaunt hsph hjn hkB hR hsolve hsolve' hf hf'
  refine ⟨psis, S, psis', S', hrun, hrun', fun hk hk' => ?_⟩
  obtain ⟨J, hJ⟩ := hsym
  obtain ⟨w, hw⟩ := exists_rotated (vec3 hx hy hz) (vec3 hx' hy' hz') hlength
  obtain ⟨h1, h2, h3⟩ := hall _ J w hJ (turning_total hi hs A) hw hk hk'
  refine ⟨h1, h2, fun hlt hnorm => related_both hsp hsp' hn hn' hrun.args.cutoffs.1 hrun'.args.cutoffs.1
    (width_strengths hS hrun.dict) (width_strengths hS' hrun'.dict) fun hRS hRS' x x' hsp hsp' => ?_⟩
  have hM := h3 hlt hnorm
  have hT := momentum_turn hJ w
  have c1 := shell_closed hT (l := 1) (by simp)
  have c2 := shell_closed hT (l := 2) (by simp)
  refine ⟨fun k hk => ?_, fun k hk => ?_, fun k hk => ?_⟩
  · exact turn_ps hE hsp hsp' hM hRS hRS' (τ := id) (fun c hc => hc) (create_family hT.unitary c2) (annihilate_family hT.unitary c2) hk
  · exact turn_xps hE hsp hsp' hM hRS hRS' (τ := id) (fun c hc => hc) (annihilate_family hT.unitary c1) hk
  · obtain ⟨Q, hQ⟩ := dipole_family (b := b) hi hs hJ w
    rw [← hgS] at hQ
    exact turn_xas hE hsp hsp' hM hRS hRS' (τ := id) (τ' := id) (fun c hc => hc) (fun c hc => hc) hQ hk

include hA hG hord hordR hfin ho hord' hordR' hfin' ho' hL hL' hAA hD hD' hlength in
/-- C92.  Without spin-orbit coupling and with a non-interacting operator that does not act on the spin, two finished runs of main whose
magnetic fields have the same strength but other directions give the same energies, absorption and scattering spectra, for each
polarisation, and the same photoemission spectra after summation over the spin: exactly if the number of Lanczos vectors is
sufficient, and else up to the error of 150 Lanczos vectors. -/
theorem C92_main (hgaunt : L'.gaunt = L.gaunt) (hsph : L'.sphHarm = L.sphHarm) (hjn : L'.jn = L.jn) (hkB : L'.kB = L.kB)
    (hR : GauntRules L.gaunt) (hsolve : ExactSolver L.solve) (hsolve' : ExactSolver L'.solve) (hf : L.f32 50 = 50)
    (hf' : L'.f32 50 = 50) (hsym : SpinSymmetric b P h0) (hp : A.xi2p = 0) (hd : A.xi3d = 0) :
    ∃ psis S psis' S', MainRun L A b P hx hy hz h0 o.energies psis S ∧
      MainRun L' A' b P hx' hy' hz' h0 o'.energies psis' S' ∧
      (ElementsKept S → ElementsKept S' →
        o'.energies = o.energies ∧ S'.es = S.es ∧
        (S.es.length < o.energies.length →
          (∀ psi ∈ S.psis ++ S'.psis, ∑ F ∈ (range (size S)).powerset, Complex.normSq (ampl (size S) psi F) = 1) →
          (AllResolved b S → AllResolved b S' → SameSpinSums o.spectra o'.spectra) ∧
          (AllKept b S → AllKept b S' → Almost SameSpinSums b S S' o.spectra o'.spectra))) := by
  obtain ⟨psis, S, psis', S', hrun, hrun', hsp, hsp', hn, hn', hS, hS', hE, hgS, hall⟩ := isotropy_runs hA hG hN hN' hord hordR hfin ho hord' hordR' hfin'
    ho' hL hL' hAA hD hD' hgaunt hsph hjn hkB hR hsolve hsolve' hf hf'
  refine ⟨psis, S, psis', S', hrun, hrun', fun hk hk' => ?_⟩
  obtain ⟨J, hJ⟩ := hsym
  obtain ⟨w, hw⟩ := exists_rotated (vec3 hx hy hz) (vec3 hx' hy' hz') hlength
  obtain ⟨h1, h2, h3⟩ := hall _ J w hJ (turning_spin L.gaunt hp hd) hw hk hk'
  refine ⟨h1, h2, fun hlt hnorm => related_both hsp hsp' hn hn' hrun.args.cutoffs.1 hrun'.args.cutoffs.1
    (width_strengths hS hrun.dict) (width_strengths hS' hrun'.dict) fun hRS hRS' x x' hsp hsp' => ?_⟩
  have hM := h3 hlt hnorm
  have hT := momentum_turn hJ w
  have p1 : 1 ∈ [1, 2] := by simp
  have p2 : 2 ∈ [1, 2] := by simp
  refine ⟨fun j hj k hk => ?_, fun j hj k hk => ?_, fun t ht k hk => ?_, fun t ht k hk => ?_, fun t ht c hc d hd k hk => ?_⟩
  · have c2 := orbital_closed hT p2 (fun x hx y hy h => spin_turn_m w hx hy h) hj
    have := turn_ps hE hsp hsp' hM hRS hRS' (τ := fun c => j + 5 * c) (fun c hc => by interval_cases c <;> omega)
      (create_family hT.unitary c2) (annihilate_family hT.unitary c2) hk
    simpa [Finset.sum_range_succ] using this
  · have c1 := orbital_closed hT p1 (fun x hx y hy h => spin_turn_m w hx hy h) hj
    have := turn_xps hE hsp hsp' hM hRS hRS' (τ := fun c => j + 3 * c) (fun c hc => by interval_cases c <;> omega)
      (annihilate_family hT.unitary c1) hk
    simpa [Finset.sum_range_succ] using this
  · have := turn_xas hE hsp hsp' hM hRS hRS' (τ := fun _ => t) (τ' := fun _ => t) (fun c hc => ht) (fun c hc => ht)
      (FamilyCarried.single (between_linear _ _ _ _) (between_linear _ _ _ _) (between_spin hJ w p2 p1 _)) hk
    simpa using this
  · refine turn_nixs hE hsp hsp' hM hRS hRS' ht ?_ hk
    exact (between_spin hJ w p2 p2 _).smul _
  · have := turn_rixs hE hsp hsp' hM hRS hRS' (τ := fun _ => t) (τ' := fun _ => t) (fun c hc => ht) (fun c hc => ht)
      (FamilyCarried.single (between_linear _ _ _ _) (between_linear _ _ _ _) (between_spin hJ w p2 p1 _))
      (between_spin hJ w p1 p2 _) hc hd hk
    simpa using this

end

section
variable {L : MainLib} {A : MainArgs} (hA : A.Valid) (hG : GauntLarge L.gaunt A.ls) {N : ℕ} (hN : 0 < N)
  {ord : Fin N → ℕ → ℕ → ℕ → SetOrders} (hord : ∀ k c t i, (ord k c t i).Valid)
  {ordRixs : Fin N → List ℕ → SetOrders} (hordR : ∀ k l, (ordRixs k l).Valid) {out : Fin N → Option MainOutput}
  (hfin : CanFinish msgSum (fun k : Fin N => mainRank L A (ord k) (ordRixs k) k.val N) out)
  {o : MainOutput} (ho : out ⟨0, hN⟩ = some o) (hL : SolverCorrect L.solver)
  {b : ℕ → ℕ} {P : BasisParams} {h0 : Op Label ℂ} (hD : Documented A b P 0 0 0 h0)

/-- A rotation that carries one axis to another one and keeps a third one. -/
theorem axes_rotated (t t' : Fin 3) : ∃ w, Rotated w (fun a => if a = t then 1 else 0) (fun a => if a = t' then 1 else 0) ∧
    ∀ r : Fin 3, r ≠ t → r ≠ t' → Rotated w (fun a => if a = r then 1 else 0) fun a => if a = r then 1 else 0 := by
  by_cases h : t = t'
  · subst h
    refine ⟨0, rotated_fixed (by simp), fun r _ _ => rotated_fixed (by simp)⟩
  have key := rotated_plane (h := fun a => if a = t then 1 else 0) (k := fun a => if a = t' then 1 else 0) (r := 1) one_ne_zero
    (by fin_cases t <;> simp) (by fin_cases t' <;> simp) (by fin_cases t <;> fin_cases t' <;> simp at h ⊢) (Real.pi / 2)
  simp only [Real.cos_pi_div_two, Real.sin_pi_div_two, zero_mul, zero_add, one_mul] at key
  refine ⟨_, key, fun r h1 h2 => ?_⟩
  · refine rotated_fixed ?_
    fin_cases t <;> fin_cases t' <;> fin_cases r <;> simp at h h1 h2 ⊢

include hA hG hord hordR hfin ho hL hD in
/-- C91.  A finished run of main without a magnetic field, for a non-interacting operator without a preferred direction.  If no
matrix element is dropped, the energies used for the spectra do not reach the end of the list, the stored states are normalised,
and the cutoffs drop nothing, the averaged absorption does not depend on the polarisation, and the
averaged resonant scattering is the same for the in-coming polarisations y and z: exactly if the number of Lanczos vectors is
sufficient, and else up to the error of 150 Lanczos vectors. -/
theorem C91_main (hR : GauntRules L.gaunt) (hi : GauntInvariant L.gaunt) (hs : GauntSymmetric L.gaunt)
    (hsolve : ExactSolver L.solve) (hf : L.f32 50 = 50) (hsym : SphericallySymmetric b P h0) :
    ∃ psis S, MainRun L A b P 0 0 0 h0 o.energies psis S ∧
      (ElementsKept S → S.es.length < o.energies.length →
        (∀ psi ∈ S.psis, ∑ F ∈ (range (size S)).powerset, Complex.normSq (ampl (size S) psi F) = 1) →
        (AllResolved b S → Unpolarised o.spectra) ∧
        (AllKept b S → StrengthIsWidth S ∧ ∀ w, Width S w → ∃ x, PDExact b S x ∧ Near b S w o.spectra x ∧ Unpolarised x)) := by
  obtain ⟨psis, S, hrun, hS, hsp, hn⟩ := main_both hA hG hN hord hordR hfin ho hL hD hR hsolve hf
  refine ⟨psis, S, hrun, fun hk hlt hnorm => ?_⟩
  suffices h : AllKept b S → ∀ x, PDExact b S x → Unpolarised x by
    refine ⟨fun hRS => h hRS.kept _ (hsp.exact hRS hrun.args.cutoffs.1), fun hRS => ⟨width_strengths hS hrun.dict, fun w hw => ?_⟩⟩
    obtain ⟨x, hx, hxn⟩ := exists_exact hsp hn hRS hw
    exact ⟨x, hx, hxn, h hRS x hx⟩
  intro hRS x hsp
  obtain ⟨J, hJ⟩ := hsym
  have hgS : S.gaunt = L.gaunt := hrun.args.library.1
  have hE : SameCall b S S := sameCall hrun hrun rfl rfl rfl rfl rfl
  have hM : ∀ w, Rebased S S (turnU b J w) := by
    intro w
    have hw : Rotated w (vec3 0 0 0) (vec3 0 0 0) := rotated_fixed (by simp [vec3])
    exact (turn_rebased hrun hrun rfl (momentum_turn hJ w) rfl rfl hS (momentum_hamiltonian hJ (turning_total hi hs A) w (P.n0 2) hw)
      (.inr ⟨hk, hk⟩)).2.2 hlt fun psi h => hnorm psi ((List.mem_append.1 h).elim id id)
  have hax : ∀ t : Fin 3, axisPol t = realPol fun a => if a = t then 1 else 0 := by
    intro t
    unfold axisPol realPol
    fin_cases t <;> simp
  have hcar : ∀ (t t' : Fin 3) w, Rotated w (fun a => if a = t then 1 else 0) (fun a => if a = t' then 1 else 0) →
      FamilyCarried (nTotal (pdSystem b)) (turnU b J w) 1 (fun _ _ => 1) (fun _ => dipolePD S.gaunt b (axisPol t))
        fun _ => dipolePD S.gaunt b (axisPol t') := by
    intro t t' w hw
    rw [hax, hax, hgS]
    exact FamilyCarried.single (between_linear _ _ _ _) (between_linear _ _ _ _) (dipolePD_turned hi hs hJ hw)
  refine ⟨fun t ht t' ht' k hk => ?_, fun c hc d hd k hk => ?_⟩
  · obtain ⟨w, hw, -⟩ := axes_rotated ⟨t, ht⟩ ⟨t', ht'⟩
    have := turn_xas hE hsp hsp (hM w) hRS hRS (τ := fun _ => t) (τ' := fun _ => t') (fun _ _ => ht) (fun _ _ => ht')
      (hcar ⟨t, ht⟩ ⟨t', ht'⟩ w hw) hk
    simpa using this
  · obtain ⟨w, hw, hfix⟩ := axes_rotated 1 2
    have hx : (⟨1, 0, 0⟩ : Vec3 ℂ) = realPol fun a => if a = 0 then 1 else 0 := by
      unfold realPol
      simp
    have := turn_rixs hE hsp hsp (hM w) hRS hRS (τ := fun _ => 1) (τ' := fun _ => 2) (fun _ _ => by omega) (fun _ _ => by omega)
      (hcar 1 2 w hw) (by
        rw [hx, hgS]
        exact dipoleDP_turned hi hs hJ (hfix 0 (by decide) (by decide))) hc hd hk
    simpa using this

end

end

end Verif
