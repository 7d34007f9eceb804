/-
C58: getSpectra on any number of ranks.  C59: what getSpectra computes.
-/
import Verif.Lemmas.MpiFinish
import Verif.Lemmas.SpectraEigen
import Verif.Prop.Green

namespace Verif

open Finset Mpi Psr Spec Matrix

noncomputable section

/-! ### C58 -/

/-- C58, one Green's function.  With `parallelization_mode="H_build"`, for any number of
ranks, any exact and disjoint parts of the stored columns, any orders of the sets and
any schedule: if the serial `getGreen` returns `g`, all ranks finish and rank 0 has
`g`; if the serial one raises, the ranks never all finish. -/
theorem C58_green {N : ℕ} (hN : 0 < N) {n : ℕ} {hOp : Op ℕ ℂ} (hop : OpInSystem n hOp) {cut : ℝ}
    (hcut : 0 < cut) (r : Option Restrictions) (hDict : Fin N → OpResult ℂ)
    (hd : ∀ k, ColumnsExact n hOp cut r (hDict k)) (hdis : DisjointKeys hDict) (ord : Fin N → SetOrders)
    (hord : ∀ k, (ord k).Valid) {psi : Psi ℂ} (hpsi : IsState n psi) (e : ℝ) (omega : List ℝ) {delta : ℝ}
    (hdelta : delta ≠ 0) {krylovSize : ℕ} (hK : 0 < krylovSize) {fuel : ℕ} (hf : 2 ^ n + 2 ≤ fuel) :
    (∀ g h', getGreen n e psi hOp omega delta krylovSize cut r [] fuel = .ok (g, h') →
      ∃ out, AllRanksFinish msgSum
          (fun k : Fin N => getGreenRank n e psi hOp omega delta krylovSize cut r (hDict k) (ord k) k.val N fuel) out ∧
        (∀ k, (out k).1 = if k.val = 0 ∨ psi = [] then g else
          omega.map fun (w : ℝ) => 1 / ((w : ℂ) + Complex.I * (delta : ℂ) + (e : ℂ))) ∧
        (∀ k, ColumnsExact n hOp cut r (out k).2) ∧ DisjointKeys fun k => (out k).2) ∧
    (∀ err, getGreen n e psi hOp omega delta krylovSize cut r [] fuel = .error err → ∀ out,
      ¬ CanFinish msgSum
        (fun k : Fin N => getGreenRank n e psi hOp omega delta krylovSize cut r (hDict k) (ord k) k.val N fuel) out) := by
  rcases getGreenRank_runs hN hop hcut r hDict hd hdis ord (fun k => (hord k).1) (fun k => (hord k).2) hpsi e omega
    hdelta hK hf with ⟨g, hs, hDict', h1, h2, h3⟩ | ⟨err, hs, h1⟩
  · obtain ⟨h0, -, hs0⟩ := hs [] (columnsExact_nil ..)
    refine ⟨fun g' h' hg => ?_, fun err he => by rw [hs0] at he; cases he⟩
    rw [hs0] at hg
    cases hg
    exact ⟨_, h3.allRanksFinish, fun k => rfl, h1, h2⟩
  · refine ⟨fun g' h' hg => ?_, fun _ _ out => RunsToFailure.not_canFinish hN h1 out⟩
    rw [hs [] (columnsExact_nil ..)] at hg
    cases hg

section
variable {A : SpectraArgs} (hA : A.Valid) {psis : List (Psi ℂ)} {es : List ℝ} (hlen : es.length ≤ psis.length)
  (hpsis : ∀ psi ∈ psis, IsState A.n psi) {tOps : List (Op ℕ ℂ)} (htOps : ∀ tOp ∈ tOps, OpInSystem A.n tOp)

include hA hlen hpsis htOps in
/-- C58, mode `H_build`.  Either all ranks finish under every schedule, whatever the
number of ranks and the orders of the sets, and rank 0 always has the same spectra; or
they never all finish, whatever the number of ranks. -/
theorem C58_hBuild :
    (∃ root other : Spectra, ∀ (N : ℕ), 0 < N → ∀ ord : Fin N → ℕ → ℕ → SetOrders, (∀ k t i, (ord k t i).Valid) →
      AllRanksFinish msgSum (fun k : Fin N => getSpectra A tOps psis es .hBuild (ord k) k.val N)
        (fun k => if k.val = 0 then root else other)) ∨
    (∀ (N : ℕ), 0 < N → ∀ ord : Fin N → ℕ → ℕ → SetOrders, (∀ k t i, (ord k t i).Valid) → ∀ out,
      ¬ CanFinish msgSum (fun k : Fin N => getSpectra A tOps psis es .hBuild (ord k) k.val N) out) := by
  cases hx : refHBuild A tOps psis es with
  | ok x =>
    left
    refine ⟨x.root, x.other, fun N hN ord hord => ?_⟩
    rcases hBuild_dichotomy hN hA hlen hpsis htOps ord hord with ⟨x', h1, h2⟩ | ⟨err, h1, -⟩
    · rw [hx] at h1
      cases h1
      exact h2.allRanksFinish
    · rw [hx] at h1; cases h1
  | error err =>
    right
    intro N hN ord hord
    rcases hBuild_dichotomy hN hA hlen hpsis htOps ord hord with ⟨x', h1, -⟩ | ⟨err, -, h2⟩
    · rw [hx] at h1; cases h1
    · exact fun out => RunsToFailure.not_canFinish hN h2 out

include hA hlen hpsis htOps in
/-- C58, mode `eigen_states`.  Either all ranks finish under every schedule with the same
spectra, which do not depend on the number of ranks; or they never all finish,
whatever the number of ranks. -/
theorem C58_eigenStates :
    (∃ gs : Spectra, ∀ (N : ℕ), 0 < N → ∀ ord : Fin N → ℕ → ℕ → SetOrders,
      AllRanksFinish msgSum (fun k : Fin N => getSpectra A tOps psis es .eigenStates (ord k) k.val N)
        (fun _ => gs)) ∨
    (∀ (N : ℕ), 0 < N → ∀ ord : Fin N → ℕ → ℕ → SetOrders, ∀ out,
      ¬ CanFinish msgSum (fun k : Fin N => getSpectra A tOps psis es .eigenStates (ord k) k.val N) out) := by
  by_cases hbad : ∃ i < es.length, ∃ tOp ∈ tOps,
      ∃ err, spectrumOf A (transitionState A tOp (psis.getD i [])) (es.getD i 0) = .error err
  · right
    exact fun N hN ord => (eigen_dichotomy hN hA hlen hpsis htOps ord).2 hbad
  · left
    have hall : ∀ i tOp, ∃ g, i < es.length → tOp ∈ tOps →
        spectrumOf A (transitionState A tOp (psis.getD i [])) (es.getD i 0) = .ok g := by
      intro i tOp
      cases hg : spectrumOf A (transitionState A tOp (psis.getD i [])) (es.getD i 0) with
      | ok g => exact ⟨g, fun _ _ => rfl⟩
      | error err => exact ⟨[], fun a b => absurd ⟨i, a, tOp, b, err, hg⟩ hbad⟩
    choose f hf using hall
    exact ⟨_, fun N hN ord => ((eigen_dichotomy hN hA hlen hpsis htOps ord).1 f
      fun i hi tOp ht => hf i tOp hi ht).allRanksFinish⟩

/-- States with the same amplitudes have the same spectrum. -/
theorem norm2_eqv {n : ℕ} {p q : Psi ℂ} (hp : IsState n p) (hq : IsState n q) (h : Dict.Eqv p q) :
    (norm2 p : ℝ) = norm2 q := by
  rw [norm2_eq hp, norm2_eq hq, ampl_congr h]

include hA in
theorem spectrumOf_congr {p q : Psi ℂ} (hp : IsState A.n p) (hq : IsState A.n q) (h : Dict.Eqv p q) (e : ℝ) :
    spectrumOf A p e = spectrumOf A q e := by
  have hn := norm2_eqv hp hq h
  have hu : Dict.Eqv (unit p) (unit q) := by
    intro k
    rw [get?_unit, get?_unit, h k, hn]
  have hg := getGreen_congr hA.hop hA.cut A.restrictions (isState_unit hp) (isState_unit hq) hu hA.fuel e A.w A.delta
    A.krylovSize (columnsExact_nil ..) (columnsExact_nil ..)
  unfold spectrumOf
  rw [hn]
  cases h1 : getGreen A.n e (unit p) A.hOp A.w A.delta A.krylovSize A.cut A.restrictions [] A.fuel with
  | error e1 =>
    cases h2 : getGreen A.n e (unit q) A.hOp A.w A.delta A.krylovSize A.cut A.restrictions [] A.fuel with
    | error e2 => rw [h1, h2] at hg; cases hg; rfl
    | ok y => rw [h1, h2] at hg; cases hg
  | ok x =>
    cases h2 : getGreen A.n e (unit q) A.hOp A.w A.delta A.krylovSize A.cut A.restrictions [] A.fuel with
    | error e2 => rw [h1, h2] at hg; cases hg
    | ok y =>
      rw [h1, h2] at hg
      have : x.1 = y.1 := by injection hg
      simp only [ok_bind, pure_ok, this]

include hA hlen hpsis htOps in
/-- The excited states of the two modes. -/
theorem hBuildStates_spec {t i : ℕ} (ht : t < tOps.length) (hi : i < es.length) :
    IsState A.n (hBuildStates A tOps psis es.length t i) ∧
    ((∀ T ⊆ range A.n, NoSmallElements A.n tOps[t] A.slaterWeightMin A.restrictions T) →
      Dict.Eqv (transitionState A tOps[t] (psis.getD i [])) (hBuildStates A tOps psis es.length t i)) := by
  have hin := htOps _ (List.getElem_mem ht)
  have hps : ∀ psi ∈ psis.take es.length, IsState A.n psi := fun p hp => hpsis p (List.mem_of_mem_take hp)
  have hi' : i < psis.length := by omega
  have hget : tOps.getD t [] = tOps[t] := List.getD_eq_getElem _ _ ht
  obtain ⟨res, c, h1, h2, h3, -⟩ := refBody_fold hA (es := es) hpsis hin t es.length 0 (by omega) (by omega)
    ⟨fun _ _ => [], fun _ _ => []⟩ [] (correct_nil ..)
  rw [List.drop_zero] at h1
  have hst : hBuildStates A tOps psis es.length t i = res[i]'(by omega) := by
    unfold hBuildStates
    rw [hget, h1]
    exact List.getD_eq_getElem _ _ _
  refine ⟨by rw [hst]; exact (h3 _ (List.getElem_mem _)).state, fun hsmall => ?_⟩
  obtain ⟨res', c', h4, h5⟩ := C16_cache_transparent_partial A.n tOps[t] hin A.slaterWeightMin hA.weight A.restrictions
    (psis.take es.length) hps hsmall
  rw [h1] at h4
  cases h4
  rw [List.forall₂_iff_get] at h5
  obtain ⟨psi', h6, h7⟩ := h5.2 i (by simp; omega) (by omega)
  have hg1 : (psis.take es.length).get ⟨i, by simp; omega⟩ = psis[i] := by simp
  rw [hg1, applyOp_eq hin (hpsis _ (List.getElem_mem hi'))] at h6
  cases h6
  rw [hst, List.getD_eq_getElem _ _ hi']
  exact h7

include hA hlen hpsis htOps in
/-- C58, the two modes.  If no matrix element of the transition operators is below
`slaterWeightMin`, the spectra of rank 0 in mode `H_build` are those of mode
`eigen_states`, for any numbers of ranks, and the ranks finish in one mode exactly if
they do in the other. -/
theorem C58_modes_agree
    (hsmall : ∀ tOp ∈ tOps, ∀ T ⊆ range A.n, NoSmallElements A.n tOp A.slaterWeightMin A.restrictions T) :
    (∃ gs other : Spectra, ∀ (N : ℕ), 0 < N → ∀ ord : Fin N → ℕ → ℕ → SetOrders, (∀ k t i, (ord k t i).Valid) →
      AllRanksFinish msgSum (fun k : Fin N => getSpectra A tOps psis es .eigenStates (ord k) k.val N) (fun _ => gs) ∧
      AllRanksFinish msgSum (fun k : Fin N => getSpectra A tOps psis es .hBuild (ord k) k.val N)
        (fun k => if k.val = 0 then gs else other)) ∨
    (∀ (N : ℕ), 0 < N → ∀ ord : Fin N → ℕ → ℕ → SetOrders, (∀ k t i, (ord k t i).Valid) → ∀ out,
      ¬ CanFinish msgSum (fun k : Fin N => getSpectra A tOps psis es .eigenStates (ord k) k.val N) out ∧
      ¬ CanFinish msgSum (fun k : Fin N => getSpectra A tOps psis es .hBuild (ord k) k.val N) out) := by
  have hsame : ∀ t i, (ht : t < tOps.length) → i < es.length →
      spectrumOf A (hBuildStates A tOps psis es.length t i) (es.getD i 0)
        = spectrumOf A (transitionState A tOps[t] (psis.getD i [])) (es.getD i 0) := by
    intro t i ht hi
    obtain ⟨h1, h2⟩ := hBuildStates_spec hA hlen hpsis htOps ht hi
    have hi' : i < psis.length := by omega
    have hst : IsState A.n (transitionState A tOps[t] (psis.getD i [])) := by
      rw [List.getD_eq_getElem _ _ hi']
      exact isState_applyOpPure (htOps _ (List.getElem_mem ht)) (hpsis _ (List.getElem_mem hi')) _ _
    exact (spectrumOf_congr hA hst h1 (h2 (hsmall _ (List.getElem_mem ht))) _).symm
  obtain ⟨hok, herr⟩ := refHBuild_spec hA hlen hpsis htOps
  cases hx : refHBuild A tOps psis es with
  | ok x =>
    left
    obtain ⟨h1, h2⟩ := hok x hx
    have hall : ∀ i tOp, ∃ g, i < es.length → tOp ∈ tOps →
        spectrumOf A (transitionState A tOp (psis.getD i [])) (es.getD i 0) = .ok g := by
      intro i tOp
      by_cases hm : i < es.length ∧ tOp ∈ tOps
      · obtain ⟨t, ht, rfl⟩ := List.mem_iff_getElem.1 hm.2
        exact ⟨_, fun a b => by rw [← hsame t i ht a]; exact (h1 t i ht a).1⟩
      · exact ⟨[], fun a b => absurd ⟨a, b⟩ hm⟩
    choose f hf using hall
    have hgs : gathered A tOps f (fun a => a < es.length) = x.root := by
      funext a b
      unfold gathered
      by_cases ha : a < es.length
      · rw [if_pos ha]
        by_cases hb : b < tOps.length
        · rw [List.getD_eq_getElem _ _ (by simpa using hb), List.getElem_map]
          have e1 := hf a tOps[b] ha (List.getElem_mem hb)
          rw [← hsame b a hb ha, (h1 b a hb ha).1] at e1
          exact (Except.ok.inj e1).symm
        · rw [List.getD_eq_default _ _ (by simpa using hb), (h2 b a (fun h => hb h.1)).1]
      · rw [if_neg ha, (h2 b a (fun h => ha h.2)).1]
    refine ⟨x.root, x.other, fun N hN ord hord => ⟨?_, ?_⟩⟩
    · rw [← hgs]
      exact ((eigen_dichotomy hN hA hlen hpsis htOps ord).1 f fun i hi tOp ht => hf i tOp hi ht).allRanksFinish
    · rcases hBuild_dichotomy hN hA hlen hpsis htOps ord hord with ⟨x', h3, h4⟩ | ⟨err, h3, -⟩
      · rw [hx] at h3
        cases h3
        exact h4.allRanksFinish
      · rw [hx] at h3; cases h3
  | error err =>
    right
    intro N hN ord hord out
    obtain ⟨t, i, ht, hi, err', he⟩ := herr ⟨err, hx⟩
    refine ⟨(eigen_dichotomy hN hA hlen hpsis htOps ord).2
      ⟨i, hi, tOps[t], List.getElem_mem ht, err', by rw [← hsame t i ht hi]; exact he⟩ out, ?_⟩
    rcases hBuild_dichotomy hN hA hlen hpsis htOps ord hord with ⟨x', h1, -⟩ | ⟨err, -, h2⟩
    · rw [hx] at h1; cases h1
    · exact RunsToFailure.not_canFinish hN h2 out

end

/-! ### C59 -/

theorem hamiltonian_smul (n : ℕ) (op : Op ℕ ℂ) (cut : ℝ) (r : Option Restrictions) (c : ℂ) (x : Vec ℂ) :
    hamiltonian n op cut r (fun S => c * x S) = fun S => c * hamiltonian n op cut r x S := by
  funext S
  unfold hamiltonian
  split
  · rw [mul_sum]
    exact sum_congr rfl fun T _ => by ring
  · simp

theorem iterate_smul (n : ℕ) (op : Op ℕ ℂ) (cut : ℝ) (r : Option Restrictions) (c : ℂ) (i : ℕ) (x : Vec ℂ) :
    (hamiltonian n op cut r)^[i] (fun S => c * x S) = fun S => c * (hamiltonian n op cut r)^[i] x S := by
  induction i generalizing x with
  | zero => rfl
  | succ i ih => rw [Function.iterate_succ_apply, hamiltonian_smul, ih, ← Function.iterate_succ_apply]

/-- The Green's function of a scaled state. -/
theorem isGreen_smul {n : ℕ} {op : Op ℕ ℂ} {cut : ℝ} {r : Option Restrictions} {z c : ℂ} (hc : c ≠ 0) {b : Vec ℂ} {g : ℂ}
    (h : IsGreen n (hamiltonian n op cut r) z (fun S => c⁻¹ * b S) g) :
    IsGreen n (hamiltonian n op cut r) z b ((Complex.normSq c : ℝ) * g) := by
  obtain ⟨x, h1, h2, h3⟩ := h
  refine ⟨fun S => c * x S, ⟨fun S hS => ?_, fun S hS => ?_⟩, fun y hy => ?_, ?_⟩
  · have := h1.inside S hS
    rw [hamiltonian_smul]
    have e : z * (c * x S) - c * hamiltonian n op cut r x S = c * (z * x S - hamiltonian n op cut r x S) := by ring
    rw [e, this, mul_inv_cancel_left₀ hc]
  · simp [h1.outside S hS]
  · have := h2 (fun S => c⁻¹ * y S) ⟨fun S hS => ?_, fun S hS => by simp [hy.outside S hS]⟩
    · funext S
      rw [← this]
      exact (mul_inv_cancel_left₀ hc _).symm
    · rw [hamiltonian_smul, ← hy.inside S hS]
      ring
  · rw [h3]
    unfold innerProduct
    rw [mul_sum]
    refine sum_congr rfl fun S _ => ?_
    have hcc : (star (c⁻¹) : ℂ) * star c = 1 := by rw [← star_mul, mul_inv_cancel₀ hc, star_one]
    rw [show ((Complex.normSq c : ℝ) : ℂ) = c * star c from (Complex.mul_conj c).symm, star_mul']
    symm
    calc star (b S) * (c * x S) = (star (c⁻¹) * star c) * (star (b S) * (c * x S)) := by rw [hcc, one_mul]
      _ = c * star c * (star (c⁻¹) * star (b S) * x S) := by ring

/-- What the spectrum of an excited state is. -/
theorem spectrumOf_meaning {A : SpectraArgs} (hA : A.Valid) (hdict : Dict.NodupKeys A.hOp) (hh : isHermitianOp A.hOp)
    {psiR : Psi ℂ} (hE : Excited A.n A.slaterWeightMin A.restrictions psiR) (e : ℝ)
    (hex : ¬ LinearIndependent ℂ (fun i : Fin (A.krylovSize + 1) =>
      (hamiltonian A.n A.hOp A.cut A.restrictions)^[i.val] (ampl A.n psiR))) {g : List ℂ}
    (hg : spectrumOf A psiR e = .ok g) :
    List.Forall₂ (fun (w : ℝ) x => IsGreen A.n (hamiltonian A.n A.hOp A.cut A.restrictions)
      ((w : ℂ) + Complex.I * (A.delta : ℂ) + (e : ℂ)) (ampl A.n psiR) x) A.w g := by
  have him : ∀ w : ℝ, ((w : ℂ) + Complex.I * (A.delta : ℂ) + (e : ℂ)).im ≠ 0 := by
    intro w; simpa using hA.delta
  unfold spectrumOf at hg
  by_cases hnil : psiR = []
  · subst hnil
    have h0 : getGreen A.n e (unit []) A.hOp A.w A.delta A.krylovSize A.cut A.restrictions [] A.fuel
        = .ok (List.replicate A.w.length 0, []) := rfl
    rw [h0] at hg
    simp only [ok_bind, pure_ok] at hg
    cases hg
    have hz : ampl A.n ([] : Psi ℂ) = fun _ => 0 := by
      funext S; unfold ampl; split <;> simp
    rw [hz]
    have hr : scaleSpectrum (Real.sqrt (norm2 ([] : Psi ℂ))) (List.replicate A.w.length 0) = A.w.map fun _ => (0 : ℂ) := by
      unfold scaleSpectrum
      simp [List.map_const']
    rw [hr, List.forall₂_map_right_iff]
    refine List.forall₂_same.2 fun w _ => ?_
    have hs : Solves A.n (hamiltonian A.n A.hOp A.cut A.restrictions) ((w : ℂ) + Complex.I * (A.delta : ℂ) + (e : ℂ))
        (fun _ => 0) (fun _ => 0) := ⟨fun S _ => by unfold hamiltonian; simp, fun _ _ => rfl⟩
    exact ⟨_, hs, fun y hy => solves_unique hA.hop hdict hh A.restrictions (him w) hs hy, by simp [innerProduct]⟩
  · have hpos := hE.norm_pos hA.weight hnil
    have hs0 : ((Real.sqrt (norm2 psiR) : ℝ) : ℂ) ≠ 0 := by
      rw [Ne, Complex.ofReal_eq_zero]; exact Real.sqrt_ne_zero'.2 hpos
    have hu : ampl A.n (unit psiR) = fun S => ((Real.sqrt (norm2 psiR) : ℝ) : ℂ)⁻¹ * ampl A.n psiR S := by
      funext S; rw [ampl_unit]; ring
    cases hx : getGreen A.n e (unit psiR) A.hOp A.w A.delta A.krylovSize A.cut A.restrictions [] A.fuel with
    | error err => rw [hx] at hg; cases hg
    | ok x =>
      obtain ⟨g0, h'⟩ := x
      rw [hx] at hg
      simp only [ok_bind, pure_ok] at hg
      cases hg
      have := C57_exact hA.hop hdict hh hA.cut A.restrictions (isState_unit hE.state)
        (fun S hS hk => hE.allowed S hS (by rwa [keys_unit] at hk)) (norm2_unit hpos) A.krylovSize (by
          intro hli
          apply hex
          have hlu := hli.units_smul (fun _ => Units.mk0 _ hs0)
          convert hlu using 1
          symm
          funext i
          rw [hu]
          funext S
          show ((Real.sqrt (norm2 psiR) : ℝ) : ℂ) * (hamiltonian A.n A.hOp A.cut A.restrictions)^[i.val] _ S = _
          rw [iterate_smul]
          exact mul_inv_cancel_left₀ hs0 _) A.fuel hA.fuel e A.w A.delta hA.delta [] (columnsExact_nil ..) g0 h' hx
      unfold scaleSpectrum
      rw [List.forall₂_map_right_iff]
      refine this.imp fun w x hgx => ?_
      rw [hu] at hgx
      have hfin := isGreen_smul hs0 hgx
      rwa [Complex.normSq_ofReal, ← sq] at hfin

theorem ampl_transitionState {A : SpectraArgs} {tOp : Op ℕ ℂ} (ht : OpInSystem A.n tOp) {psi : Psi ℂ}
    (hpsi : IsState A.n psi) :
    ampl A.n (transitionState A tOp psi) = excitation A.n tOp A.slaterWeightMin A.restrictions psi := by
  funext S
  unfold excitation transitionState
  by_cases hS : S ⊆ range A.n
  · rw [ampl_applyOpPure ht hpsi _ _ hS]
    simp only [hS, true_and]
  · rw [if_neg (fun h => hS h.1)]
    unfold ampl
    rw [if_neg hS]

section
variable {A : SpectraArgs} (hA : A.Valid) (hdict : Dict.NodupKeys A.hOp) (hh : isHermitianOp A.hOp)
  {psis : List (Psi ℂ)} {es : List ℝ} (hlen : es.length ≤ psis.length)
  (hpsis : ∀ psi ∈ psis, IsState A.n psi) {tOps : List (Op ℕ ℂ)} (htOps : ∀ tOp ∈ tOps, OpInSystem A.n tOp)

include hA hdict hh hlen hpsis htOps in
/-- C59, mode `eigen_states`.  On every rank of every execution that finishes, the entry
of eigenstate `i`, transition operator `t` and point `w` of the mesh is
`⟨T psi_i| (w + i delta + e_i - H)⁻¹ |T psi_i⟩`, if `krylovSize` exhausts the Krylov space
of `T psi_i`. -/
theorem C59_eigenStates {N : ℕ} (hN : 0 < N) (ord : Fin N → ℕ → ℕ → SetOrders) (out : Fin N → Spectra)
    (hout : CanFinish msgSum (fun k : Fin N => getSpectra A tOps psis es .eigenStates (ord k) k.val N) out)
    (k : Fin N) (i t : ℕ) (hi : i < es.length) (ht : t < tOps.length)
    (hex : ¬ LinearIndependent ℂ (fun j : Fin (A.krylovSize + 1) => (hamiltonian A.n A.hOp A.cut A.restrictions)^[j.val]
      (excitation A.n tOps[t] A.slaterWeightMin A.restrictions psis[i]))) :
    List.Forall₂ (fun (w : ℝ) x => IsGreen A.n (hamiltonian A.n A.hOp A.cut A.restrictions)
      ((w : ℂ) + Complex.I * (A.delta : ℂ) + (es[i] : ℂ))
      (excitation A.n tOps[t] A.slaterWeightMin A.restrictions psis[i]) x) A.w (out k i t) := by
  obtain ⟨hok, herr⟩ := eigen_dichotomy hN hA hlen hpsis htOps ord
  have hall : ∀ i tOp, ∃ g, i < es.length → tOp ∈ tOps →
      spectrumOf A (transitionState A tOp (psis.getD i [])) (es.getD i 0) = .ok g := by
    intro i tOp
    cases hg : spectrumOf A (transitionState A tOp (psis.getD i [])) (es.getD i 0) with
    | ok g => exact ⟨g, fun _ _ => rfl⟩
    | error err => exact ⟨[], fun a b => absurd hout (herr ⟨i, a, tOp, b, err, hg⟩ out)⟩
  choose f hf using hall
  have hru := hok f fun i hi tOp ht => hf i tOp hi ht
  have hu := AllRanksFinish.unique hru.allRanksFinish hout
  have hval : out k i t = f i tOps[t] := by
    rw [hu]
    unfold gathered
    beta_reduce
    rw [if_pos hi, List.getD_eq_getElem _ _ (by simpa using ht), List.getElem_map]
  have hi' : i < psis.length := by omega
  have h1 := hf i tOps[t] hi (List.getElem_mem ht)
  rw [List.getD_eq_getElem _ _ hi, List.getD_eq_getElem _ _ hi', ← hval] at h1
  have htin := htOps _ (List.getElem_mem ht)
  have hpin := hpsis _ (List.getElem_mem hi')
  rw [← ampl_transitionState htin hpin] at hex ⊢
  exact spectrumOf_meaning hA hdict hh (applyOp_excited htin hpin hA.weight _) es[i] hex h1

include hA hdict hh hlen hpsis htOps in
/-- C59, mode `H_build`: the same on rank 0, if no matrix element of the transition
operator is below `slaterWeightMin`. -/
theorem C59_hBuild {N : ℕ} (hN : 0 < N) (ord : Fin N → ℕ → ℕ → SetOrders) (hord : ∀ k t i, (ord k t i).Valid)
    (out : Fin N → Spectra)
    (hout : CanFinish msgSum (fun k : Fin N => getSpectra A tOps psis es .hBuild (ord k) k.val N) out)
    (i t : ℕ) (hi : i < es.length) (ht : t < tOps.length)
    (hsmall : ∀ T ⊆ range A.n, NoSmallElements A.n tOps[t] A.slaterWeightMin A.restrictions T)
    (hex : ¬ LinearIndependent ℂ (fun j : Fin (A.krylovSize + 1) => (hamiltonian A.n A.hOp A.cut A.restrictions)^[j.val]
      (excitation A.n tOps[t] A.slaterWeightMin A.restrictions psis[i]))) :
    List.Forall₂ (fun (w : ℝ) x => IsGreen A.n (hamiltonian A.n A.hOp A.cut A.restrictions)
      ((w : ℂ) + Complex.I * (A.delta : ℂ) + (es[i] : ℂ))
      (excitation A.n tOps[t] A.slaterWeightMin A.restrictions psis[i]) x) A.w (out ⟨0, hN⟩ i t) := by
  rcases hBuild_dichotomy hN hA hlen hpsis htOps ord hord with ⟨x, h1, h2⟩ | ⟨err, -, h2⟩
  swap
  · exact absurd hout (RunsToFailure.not_canFinish hN h2 out)
  have hu := AllRanksFinish.unique h2.allRanksFinish hout
  have hs := (((refHBuild_spec hA hlen hpsis htOps).1 x h1).1 t i ht hi).1
  obtain ⟨h3, h4⟩ := hBuildStates_spec hA hlen hpsis htOps ht hi
  have hi' : i < psis.length := by omega
  have htin := htOps _ (List.getElem_mem ht)
  have hpin := hpsis _ (List.getElem_mem hi')
  have heq := h4 hsmall
  rw [List.getD_eq_getElem _ _ hi'] at heq
  rw [List.getD_eq_getElem _ _ hi,
    ← spectrumOf_congr hA (isState_applyOpPure htin hpin _ _) h3 heq] at hs
  have hval : out ⟨0, hN⟩ i t = x.root i t := by rw [hu]; simp
  rw [← hval] at hs
  rw [← ampl_transitionState htin hpin] at hex ⊢
  exact spectrumOf_meaning hA hdict hh (applyOp_excited htin hpin hA.weight _) es[i] hex hs

end

section
variable {A : SpectraArgs} (hA : A.Valid)
  {psis : List (Psi ℂ)} {es : List ℝ} (hlen : es.length ≤ psis.length)
  (hpsis : ∀ psi ∈ psis, IsState A.n psi) {tOps : List (Op ℕ ℂ)} (htOps : ∀ tOp ∈ tOps, OpInSystem A.n tOp)

theorem norm2_innerProduct {n : ℕ} {psi : Psi ℂ} (hpsi : IsState n psi) :
    ((norm2 psi : ℝ) : ℂ) = innerProduct n (ampl n psi) (ampl n psi) := by
  rw [norm2_eq hpsi]
  unfold innerProduct
  push_cast
  exact sum_congr rfl fun S _ => by
    rw [mul_comm]; exact (Complex.mul_conj _).symm

include hA hlen hpsis htOps in
/-- C58, mode `H_build`, the ranks other than 0.  If no matrix element of the transition
operator is below `slaterWeightMin`, their entries are
`⟨T psi_i|T psi_i⟩ / (w + i delta + e_i)`, whatever the Hamiltonian. -/
theorem C58_other_ranks {N : ℕ} (hN : 0 < N) (ord : Fin N → ℕ → ℕ → SetOrders) (hord : ∀ k t i, (ord k t i).Valid)
    (out : Fin N → Spectra)
    (hout : CanFinish msgSum (fun k : Fin N => getSpectra A tOps psis es .hBuild (ord k) k.val N) out)
    (k : Fin N) (hk : k.val ≠ 0) (i t : ℕ) (hi : i < es.length) (ht : t < tOps.length)
    (hsmall : ∀ T ⊆ range A.n, NoSmallElements A.n tOps[t] A.slaterWeightMin A.restrictions T) :
    out k i t = A.w.map fun (w : ℝ) =>
      innerProduct A.n (excitation A.n tOps[t] A.slaterWeightMin A.restrictions psis[i])
        (excitation A.n tOps[t] A.slaterWeightMin A.restrictions psis[i])
      / ((w : ℂ) + Complex.I * (A.delta : ℂ) + (es[i] : ℂ)) := by
  rcases hBuild_dichotomy hN hA hlen hpsis htOps ord hord with ⟨x, h1, h2⟩ | ⟨err, -, h2⟩
  swap
  · exact absurd hout (RunsToFailure.not_canFinish hN h2 out)
  have hu := AllRanksFinish.unique h2.allRanksFinish hout
  have hs := (((refHBuild_spec hA hlen hpsis htOps).1 x h1).1 t i ht hi).2
  obtain ⟨h3, h4⟩ := hBuildStates_spec hA hlen hpsis htOps ht hi
  have hi' : i < psis.length := by omega
  have htin := htOps _ (List.getElem_mem ht)
  have hpin := hpsis _ (List.getElem_mem hi')
  have heq := h4 hsmall
  rw [List.getD_eq_getElem _ _ hi'] at heq
  rw [List.getD_eq_getElem _ _ hi] at hs
  have hval : out k i t = x.other i t := by rw [hu]; simp [hk]
  rw [hval, hs, ← ampl_transitionState htin hpin, ampl_congr heq, ← norm2_innerProduct h3]
  unfold otherSpectrum
  split
  · rename_i hnil
    rw [hnil]
    simp [norm2, List.map_const']
  · unfold scaleSpectrum otherRanks
    rw [List.map_map]
    refine List.map_congr_left fun w _ => ?_
    simp only [Function.comp]
    rw [Real.sq_sqrt (norm2_nonneg _), mul_one_div]

end

/-! ### Non-vacuity: adding an electron to the vacuum of two sites -/

theorem get?_applyOpPure_cast {n : ℕ} {o : Op ℕ ℤ} (ho : OpInSystem n o) {T : Finset ℕ} (hT : T ⊆ range n) {cut : ℝ}
    (h0 : 0 < cut) (h1 : cut ≤ 1) {S : Finset ℕ} (hS : S ⊆ range n) :
    Dict.get? (applyOpPure n (castOp o) [(encBytes n T, 1)] cut none) (encBytes n S)
      = if matrixElement o S T ≠ 0 then some ((matrixElement o S T : ℤ) : ℂ) else none := by
  rw [uncached_get? n (castOp o) (inSystem_castOp ho) _ (isState_single hT 1) cut h0 none hS, ampl_single hT,
    operator_single, one_mul, matrixElement_cast]
  have : (AllowedOpt none S ∧ cut ≤ abs2 ((matrixElement o S T : ℤ) : ℂ)) ↔ matrixElement o S T ≠ 0 := by
    have := connects_castOp (op := o) h0 h1 (r := none) (S := S) (T := T)
    unfold Connects at this
    rw [matrixElement_cast] at this
    rw [this]
    exact ⟨fun h => h.2, fun h => ⟨trivial, h⟩⟩
  simp only [this]

/-- Creation on the first site. -/
def exAdd : Op ℕ ℤ := [([(0, .c)], 1)]

def exArgs : SpectraArgs where
  n := 2
  hOp := castOp exTwo
  w := [0]
  delta := 1
  restrictions := none
  krylovSize := 5
  slaterWeightMin := 1 / 2
  cut := 1 / 2
  fuel := 10

theorem exArgs_valid : exArgs.Valid where
  hop := exTwo_inSystem
  cut := by norm_num [exArgs]
  weight := by norm_num [exArgs]
  delta := by norm_num [exArgs]
  krylov := by norm_num [exArgs]
  fuel := by norm_num [exArgs]

def exVacuum : Psi ℂ := [(encBytes 2 ∅, 1)]

theorem exVacuum_states : ∀ psi ∈ [exVacuum], IsState 2 psi := by
  intro psi h
  rw [List.mem_singleton.1 h]
  exact isState_single (by simp) 1

theorem exAdd_inSystem : ∀ tOp ∈ [castOp exAdd], OpInSystem 2 tOp := by
  intro tOp h
  rw [List.mem_singleton.1 h]
  exact inSystem_castOp (by unfold OpInSystem exAdd; decide)

theorem exAdd_elements : ∀ S ∈ (range 2).powerset, matrixElement exAdd S ∅ = if S = {0} then 1 else 0 := by decide

theorem exAdd_state : Dict.Eqv (transitionState exArgs (castOp exAdd) exVacuum) exTwoPsi := by
  apply eqv_of_isState (n := 2)
    (isState_applyOpPure (exAdd_inSystem _ (by simp)) (exVacuum_states _ (by simp)) _ _) exTwoPsi_state
  intro S hS
  unfold exVacuum
  rw [show exArgs.restrictions = none from rfl, show exArgs.slaterWeightMin = 1 / 2 from rfl,
    get?_applyOpPure_cast (by unfold OpInSystem exAdd; decide) (by simp) (by norm_num) (by norm_num) hS,
    exAdd_elements S (mem_powerset.2 hS)]
  unfold exTwoPsi
  rw [Dict.get?_cons]
  by_cases h : S = {0}
  · subst h; simp
  · have : ¬ encBytes 2 ({0} : Finset ℕ) = encBytes 2 S := fun he => h (encBytes_injOn hS (by decide) he.symm)
    rw [if_neg h, if_neg (by simp)]
    split
    · rename_i he; exact absurd (by simpa using he) this
    · rfl

theorem exTwo_unit : unit exTwoPsi = exTwoPsi := by
  unfold unit
  rw [exTwoPsi_norm]
  simp [exTwoPsi]

theorem exTwo_spectrum : ∃ g, spectrumOf exArgs exTwoPsi 0 = .ok g := by
  obtain ⟨g, h', hg, -⟩ := exTwo_green [0]
  refine ⟨scaleSpectrum (Real.sqrt (norm2 exTwoPsi)) g, ?_⟩
  · unfold spectrumOf
    rw [exTwo_unit]
    have : getGreen exArgs.n 0 exTwoPsi exArgs.hOp exArgs.w exArgs.delta exArgs.krylovSize exArgs.cut
        exArgs.restrictions [] exArgs.fuel = .ok (g, h') := hg
    rw [this]
    rfl

/-- The hypotheses of `C58_modes_agree` are met, and the ranks finish. -/
theorem ex_modes : ∃ gs other : Spectra, ∀ (N : ℕ), 0 < N → ∀ ord : Fin N → ℕ → ℕ → SetOrders,
    (∀ k t i, (ord k t i).Valid) →
      AllRanksFinish msgSum (fun k : Fin N => getSpectra exArgs [castOp exAdd] [exVacuum] [0] .eigenStates (ord k) k.val N)
        (fun _ => gs) ∧
      AllRanksFinish msgSum (fun k : Fin N => getSpectra exArgs [castOp exAdd] [exVacuum] [0] .hBuild (ord k) k.val N)
        (fun k => if k.val = 0 then gs else other) := by
  rcases C58_modes_agree exArgs_valid (es := [0]) (psis := [exVacuum]) (by simp) exVacuum_states exAdd_inSystem (by
    intro tOp h
    rw [List.mem_singleton.1 h]
    exact fun T _ => noSmall_castOp 2 exAdd (by norm_num [exArgs]) none T) with h | h
  · exact h
  · exfalso
    obtain ⟨g, hg⟩ := exTwo_spectrum
    have hord : ∀ k t i, ((fun (_ : Fin 1) (_ _ : ℕ) => (⟨fun _ l => l, fun l => l⟩ : SetOrders)) k t i).Valid :=
      fun _ _ _ => ⟨fun _ l => List.Perm.refl l, fun l => List.Perm.refl l⟩
    have hr := (eigen_dichotomy (N := 1) (by omega) exArgs_valid (es := [0]) (psis := [exVacuum]) (by simp) exVacuum_states
      exAdd_inSystem fun _ _ _ => ⟨fun _ l => l, fun l => l⟩).1 (fun _ _ => g) (by
        intro i hi tOp ht
        have h0 : i = 0 := by simpa using hi
        rw [List.mem_singleton.1 ht, h0, ← hg]
        exact spectrumOf_congr exArgs_valid
          (isState_applyOpPure (exAdd_inSystem _ (by simp)) (exVacuum_states _ (by simp)) _ _) exTwoPsi_state exAdd_state 0)
    exact (h 1 (by omega) _ hord _).1 hr.allRanksFinish.canFinish

/-- C58: with mode `H_build` on two ranks the spectrum of rank 1 is not that of rank 0. -/
theorem C58_only_root : ∃ (A : SpectraArgs) (tOps : List (Op ℕ ℂ)) (psis : List (Psi ℂ)) (es : List ℝ)
    (ord : Fin 2 → ℕ → ℕ → SetOrders) (out : Fin 2 → Spectra), A.Valid ∧ isHermitianOp A.hOp ∧
      (∀ k t i, (ord k t i).Valid) ∧
      AllRanksFinish msgSum (fun k : Fin 2 => getSpectra A tOps psis es .hBuild (ord k) k.val 2) out ∧
      out 0 ≠ out 1 := by
  obtain ⟨gs, other, h⟩ := ex_modes
  have hord : ∀ k t i, ((fun (_ : Fin 2) (_ _ : ℕ) => (⟨fun _ l => l, fun l => l⟩ : SetOrders)) k t i).Valid :=
    fun _ _ _ => ⟨fun _ l => List.Perm.refl l, fun l => List.Perm.refl l⟩
  have hfin := (h 2 (by omega) _ hord).2
  refine ⟨exArgs, [castOp exAdd], [exVacuum], [0], _, _, exArgs_valid, exTwo_hermitian, hord, hfin, ?_⟩
  have hexc : excitation 2 (castOp exAdd) (1 / 2) none exVacuum = ampl 2 exTwoPsi := by
    rw [← ampl_congr exAdd_state]
    exact (ampl_transitionState (A := exArgs) (exAdd_inSystem _ (by simp)) (exVacuum_states _ (by simp))).symm
  have hns : ∀ T ⊆ range 2, NoSmallElements 2 (castOp exAdd) (1 / 2) none T :=
    fun T _ => noSmall_castOp 2 exAdd (by norm_num) none T
  have h0 := C59_hBuild exArgs_valid exTwo_nodup exTwo_hermitian (es := [0]) (psis := [exVacuum]) (by simp)
    exVacuum_states exAdd_inSystem (N := 2) (by omega) _ hord _ hfin.canFinish 0 0 (by simp) (by simp) hns (by
      show ¬ LinearIndependent ℂ (fun j : Fin 6 => (hamiltonian 2 (castOp exTwo) (1 / 2) none)^[j.val]
        (excitation 2 (castOp exAdd) (1 / 2) none exVacuum))
      rw [hexc]
      exact C57_exhausted exTwo_inSystem exTwo_nodup exTwo_hermitian (by norm_num) none exTwoPsi_state (fun _ _ _ => trivial)
        exTwoPsi_norm {{0}, {1}} (fun S hS h => by rw [exTwoPsi_key hS h]; simp)
        (fun T hT S hS hc => exTwo_elements T hT S (mem_powerset.2 hS)
          ((connects_castOp (by norm_num) (by norm_num)).1 hc).2) 5 (by decide))
  have h1 := C58_other_ranks exArgs_valid (es := [0]) (psis := [exVacuum]) (by simp)
    exVacuum_states exAdd_inSystem (N := 2) (by omega) _ hord _ hfin.canFinish 1 (by decide) 0 0 (by simp) (by simp) hns
  intro heq
  have heq' := congrFun (congrFun heq 0) 0
  rw [show (⟨0, by omega⟩ : Fin 2) = 0 from rfl, heq', h1] at h0
  have hg := (List.forall₂_cons.1 h0).1
  simp only [List.getElem_cons_zero] at hg
  rw [show exArgs.n = 2 from rfl, show exArgs.restrictions = none from rfl, show exArgs.slaterWeightMin = 1 / 2 from rfl,
    show exArgs.cut = 1 / 2 from rfl, show exArgs.hOp = castOp exTwo from rfl, hexc,
    ← norm2_innerProduct exTwoPsi_state, exTwoPsi_norm, show exArgs.delta = 1 from rfl] at hg
  have hampl : ampl 2 exTwoPsi = Spec.single {0} 1 := ampl_single (by decide) 1
  obtain ⟨x, hx, -, hgx⟩ := hg
  have hin : innerProduct 2 (ampl 2 exTwoPsi) x = x {0} := by
    unfold innerProduct
    rw [hampl, Finset.sum_eq_single {0}]
    · simp [Spec.single]
    · intro b _ hb; simp [Spec.single, hb]
    · intro hb; exact absurd (by decide) hb
  rw [hin] at hgx
  have hH : ∀ S ∈ ({{0}, {1}} : Finset (Finset ℕ)), hamiltonian 2 (castOp exTwo) (1 / 2) none x S
      = (matrixElement exTwo S {0} : ℤ) * x {0} + (matrixElement exTwo S {1} : ℤ) * x {1} := by
    intro S hS
    have hS2 : S ∈ (range 2).powerset := by revert S; decide
    unfold hamiltonian
    rw [if_pos (mem_powerset.1 hS2), show (range 2).powerset = ({∅, {0}, {1}, {0, 1}} : Finset (Finset ℕ)) by decide]
    rw [Finset.sum_insert (by decide), Finset.sum_insert (by decide), Finset.sum_insert (by decide), Finset.sum_singleton]
    simp only [column_castOp (cut := 1 / 2) (by norm_num) (by norm_num), if_pos (show AllowedOpt none S from trivial)]
    have e1 : matrixElement exTwo S ∅ = 0 := by revert S; decide
    have e2 : matrixElement exTwo S {0, 1} = 0 := by revert S; decide
    rw [e1, e2]
    simp
  have i0 := hx.inside {0} (by decide)
  have i1 := hx.inside {1} (by decide)
  rw [hH _ (by decide), show matrixElement exTwo {0} {0} = 0 by decide, show matrixElement exTwo {0} {1} = 1 by decide,
    hampl] at i0
  rw [hH _ (by decide), show matrixElement exTwo {1} {0} = 1 by decide, show matrixElement exTwo {1} {1} = 3 by decide,
    hampl] at i1
  rw [← hgx] at i0 i1
  simp [Spec.single] at i0 i1
  have hx1 : x {1} = 0 := i0
  rw [hx1] at i1
  simp at i1

end

end Verif
