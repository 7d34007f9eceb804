/-
C64, C65: what main computes.
-/
import Verif.Lemmas.MainMeaning
import Verif.Lemmas.OpLength

namespace Verif

open Finset Mpi Psr Spec

noncomputable section

/-! ### C64 -/

/-- C64.  What main prints and stores does not depend on the number of ranks, the orders
of the sets on the ranks or the schedule: either there is one result such that for
every number of ranks, in all executions, all ranks finish and rank 0 has this result;
or for no number of ranks and in no execution do all ranks finish. -/
theorem C64_ranks {L : MainLib} {A : MainArgs} (hA : A.Valid) (hG : GauntLarge L.gaunt A.ls) :
    (∃ o : MainOutput, ∀ (N : ℕ), 0 < N → ∀ (ord : Fin N → ℕ → ℕ → ℕ → SetOrders), (∀ k c t i, (ord k c t i).Valid) →
      ∀ (ordRixs : Fin N → List ℕ → SetOrders), (∀ k l, (ordRixs k l).Valid) →
      AllRanksFinish msgSum (fun k : Fin N => mainRank L A (ord k) (ordRixs k) k.val N)
        (fun k => if k.val = 0 then some o else none)) ∨
    (∀ (N : ℕ), 0 < N → ∀ (ord : Fin N → ℕ → ℕ → ℕ → SetOrders), (∀ k c t i, (ord k c t i).Valid) →
      ∀ (ordRixs : Fin N → List ℕ → SetOrders), (∀ k l, (ordRixs k l).Valid) → ∀ out,
      ¬ CanFinish msgSum (fun k : Fin N => mainRank L A (ord k) (ordRixs k) k.val N) out) := by
  cases hr : refMain L A with
  | ok s =>
    left
    refine ⟨s, fun N hN ord hord ordR hordR => ?_⟩
    have := main_settles hN hA hG ord hord ordR hordR
    rw [hr] at this
    obtain ⟨out, rfl, hrun⟩ := this
    exact hrun.allRanksFinish
  | error e =>
    right
    intro N hN ord hord ordR hordR out
    have := main_settles hN hA hG ord hord ordR hordR
    rw [hr] at this
    exact RunsToFail.not_canFinish this out

/-! ### C65 -/

section
variable {L : MainLib} {A : MainArgs} (hA : A.Valid) (hG : GauntLarge L.gaunt A.ls) {N : ℕ} (hN : 0 < N)
  {ord : Fin N → ℕ → ℕ → ℕ → SetOrders} (hord : ∀ k c t i, (ord k c t i).Valid)
  {ordRixs : Fin N → List ℕ → SetOrders} (hordR : ∀ k l, (ordRixs k l).Valid) {out : Fin N → Option MainOutput}
  (hfin : CanFinish msgSum (fun k : Fin N => mainRank L A (ord k) (ordRixs k) k.val N) out)
  {o : MainOutput} (ho : out ⟨0, hN⟩ = some o)

include hA hG hord hordR hfin ho in
theorem main_steps : Nonempty (MainSteps L A o) := by
  obtain ⟨o', h1, h2⟩ := (main_settles hN hA hG ord hord ordRixs hordR).canFinish hfin
  rw [h2] at ho
  cases ho
  exact refMain_steps h1

variable (hL : SolverCorrect L.solver) {b : ℕ → ℕ} {P : BasisParams} {hx hy hz : ℝ} {h0 : Op Label ℂ}
  (hD : Documented A b P hx hy hz h0)

omit hA hG hN hord hordR hfin ho hL hD in
theorem mainSim_args (L : MainLib) (A : MainArgs) (s : Setup) (es : List ℝ) (psis : List (Psi ℂ)) :
    MainSpectraArgs L A (mainSim L A s es psis) where
  T := rfl
  w := by unfold mainSim; dsimp only; apply linspace_mesh
  delta := rfl
  epsilons := rfl
  wLoss := by unfold mainSim; dsimp only; apply linspace_mesh
  deltaNIXS := rfl
  qs := by
    refine ⟨rfl, fun i hi => ⟨_, rfl, ?_⟩⟩
    have hi : i < 2 := hi
    interval_cases i <;> simp [mainSim, mainQs]
  shells := ⟨rfl, rfl⟩
  radial := ⟨rfl, rfl, rfl⟩
  kmin := rfl
  wIn := by unfold mainSim; dsimp only; apply linspace_mesh
  deltaRIXS := rfl
  epsilonsRIXS := ⟨rfl, rfl⟩
  cutoffs := ⟨rfl, rfl, rfl⟩
  library := ⟨rfl, rfl, rfl, rfl, rfl, rfl⟩

omit hA hG hN hord hordR hfin ho hL hD in
theorem steps_nonempty (st : MainSteps L A o) : st.low.1 ≠ [] := by
  intro hnil
  obtain ⟨ss⟩ := refSimulate_steps st.spectra
  have hps := ss.psFiles
  unfold spectrumFiles at hps
  obtain ⟨a, ha, -⟩ := bind_ok hps
  rcases thermalAverage_cases (mainSim L A st.s st.low.1 st.low.2).kB (mainSim L A st.s st.low.1 st.low.2).es
    (mainSim L A st.s st.low.1 st.low.2).T (intensity (ss.gPs.root.negate.add ss.gIps.root)) with h | h
  · exact h.1 hnil
  · obtain ⟨e, he⟩ := h.2
    rw [he] at ha
    cases ha

omit hA hG hN hord hordR hfin ho hL hD in
theorem steps_energies (st : MainSteps L A o) : o.energies ≠ [] := by
  intro hE
  have hcut := st.cut
  rw [hE] at hcut
  have hcut : (([] : List ℝ), ([] : List (Psi ℂ))) = st.low := Except.ok.inj hcut
  exact steps_nonempty st (by rw [← hcut])

omit hN hL in
include hA hG hD in
/-- Everything but the accuracy of the energies and states: for any solver that returns as many energies as asked for,
in ascending order. -/
theorem steps_prepared (hcnt : ∀ (n : ℕ) (op : Op ℕ ℂ) (states : List (Finset ℕ)) (es : List ℝ) (psis : List (Psi ℂ)), OpInSystem n op →
      Dict.NodupKeys op → isHermitianOp op → states.Nodup → (∀ S ∈ states, S ⊆ range n) →
      eigensystem L.solver n op 1e-12 (states.map (encBytes n)) A.nPsiMax .lanczos 1e-7 1 = .ok (es, psis) →
      es.length = A.nPsiMax ∧ es.Pairwise (· ≤ ·) ∧ psis.length = es.length) (st : MainSteps L A o) :
    MainPrepared L A b P hx hy hz h0 o.energies st.psis (mainSim L A st.s st.low.1 st.low.2) ∧
    (mainSim L A st.s st.low.1 st.low.2).Valid ∧ (mainSim L A st.s st.low.1 st.low.2).OutLarge ∧
    ∀ psi ∈ st.psis, IsState (nTotal (pdSystem b)) psi := by
  have hgood := mainSetup_good L A st.s st.setup
  obtain ⟨hnb, hr, hop, hn0, hb⟩ := setup_documented hD st.setup
  have hsz : nSpinOrbitals st.s.nBaths = nTotal (pdSystem b) := by rw [nSpinOrbitals_eq, hnb]; rfl
  have hP := provides_documented b P
  have hnd := nodup_documented b
  -- the basis
  obtain ⟨states, hsnd, hst, hbs⟩ := hgood.basis
  rw [hsz] at hst hbs
  have hC := (C11_get_basis _ P _ _ _ _ _ hnd hP _ hb).1
  have hmem : ∀ F, F ∈ states ↔ F ⊆ range (nTotal (pdSystem b)) ∧
      IsConfiguration [(1, b 1), (2, b 2)] (pdSystem b) P F := by
    intro F
    constructor
    · intro hF
      refine ⟨hst F hF, (hC F (hst F hF)).1 ?_⟩
      rw [hbs]
      exact List.mem_map.2 ⟨F, hF, rfl⟩
    · rintro ⟨hF, hc⟩
      have := (hC F hF).2 hc
      rw [hbs] at this
      obtain ⟨F', hF', e⟩ := List.mem_map.1 this
      rwa [← encBytes_injOn (hst F' hF') hF e]
  -- the energies
  have heig := st.eig
  rw [hsz, hbs] at heig
  obtain ⟨hlen, hpsis⟩ := refEigensystem_okIn L.solver _ st.s.hOp _ states hsnd hst _ _ _ heig
  unfold refEigensystem at heig
  split at heig
  · cases heig
  rename_i hne
  have hopg := hgood.op
  rw [hsz] at hopg
  obtain ⟨hcount, h1, h2⟩ := hcnt _ st.s.hOp states _ _ hopg.1.2 hopg.1.1 hopg.2 hsnd hst heig
  -- the occupations
  have hbne : st.s.basis ≠ [] := by rw [hbs]; exact hne
  have hexc : ∃ r, some st.s.restrictions = some r ∧ ∀ F : Finset ℕ, Allowed r F ↔
      (P.n0 2 - 1 ≤ ((F ∩ impOrbs (pdSystem b) 2).card : ℤ) ∧
        ((F ∩ impOrbs (pdSystem b) 2).card : ℤ) ≤ P.n0 2 + P.tol 2 + 1) ∧
      P.val 2 - P.dnVal 2 ≤ ((F ∩ valOrbs (pdSystem b) 2 (P.val 2)).card : ℤ) ∧
      ((F ∩ conOrbs (pdSystem b) 2 (b 2) (P.val 2)).card : ℤ) ≤ P.dnCon 2 := by
    have hin : ((2 : ℕ), b 2) ∈ [((1 : ℕ), b 1), (2, b 2)] := by simp
    have hf := getBasis_fits hnd hP hb
    obtain ⟨k0, hk0⟩ := List.exists_mem_of_ne_nil _ hbne
    rw [hbs] at hk0
    obtain ⟨S0, hS0, rfl⟩ := List.mem_map.1 hk0
    obtain ⟨dv0, dc0, hch0, _, _, _⟩ := ((hmem S0).1 hS0).2 _ hin
    have hb0 := (hf _ hin).2 _ _ hch0
    have hv := (hf _ hin).1
    unfold BadOccupation at hb0
    push Not at hb0
    dsimp only at hv hb0 hch0
    have hd : 0 ≤ P.dnVal 2 := hch0.1.trans hch0.2.1
    have hc : 0 ≤ P.dnCon 2 := hch0.2.2.1.trans hch0.2.2.2.1
    have hv0 : 0 ≤ P.val 2 := by
      by_contra hneg
      have := hb0.2.2.2 (by omega)
      have := hch0.1
      omega
    obtain ⟨r, e, hr'⟩ := C55_meaning _ P _ _ _ _ _ hnd hP (b 2) hin hv0 hv hd hc
    rw [hr] at e
    cases e
    exact ⟨_, rfl, hr'⟩
  obtain ⟨h61, hham⟩ := hamiltonian_documented hD hn0 hop
  obtain ⟨hl, hm⟩ := energyCut_okIn _ _ _ st.low st.cut
  have hval : (mainSim L A st.s st.low.1 st.low.2).Valid :=
    mainSim_valid hA hgood (fun psi h => by rw [hsz]; exact hpsis psi (hm psi h)) hl
  have hout := mainSim_outLarge hG hgood st.low.1 st.low.2
  refine ⟨⟨hnb, h61, ⟨hopg.1.1, hopg.2⟩, hopg.1.2, hamiltonian_length hop, hham, hcount, ⟨states, hsnd, hmem, heig⟩, ?_, ⟨steps_energies st, steps_nonempty st⟩, hexc, ?_⟩, hval, hout, hpsis⟩
  · by_cases hnil : o.energies = []
    · have hcut := st.cut
      rw [hnil] at hcut ⊢
      have hcut : (([] : List ℝ), ([] : List (Psi ℂ))) = st.low := Except.ok.inj hcut
      rw [← hcut]
      exact ⟨rfl, by simp⟩
    · obtain ⟨e0, he0, hmin⟩ : ∃ e ∈ o.energies, ∀ e' ∈ o.energies, e ≤ e' := by
        cases hE : o.energies with
        | nil => exact absurd hE hnil
        | cons e l =>
          rw [hE, List.pairwise_cons] at h1
          refine ⟨e, by simp, fun e' he' => ?_⟩
          rcases List.mem_cons.1 he' with rfl | he'
          · exact le_rfl
          · exact h1.1 _ he'
      have key : ∀ e0 ∈ o.energies, (∀ e ∈ o.energies, e0 ≤ e) → st.low.2.length = st.low.1.length ∧
          st.low.1.zip st.low.2 = (o.energies.zip st.psis).filter
            (fun p => decide (p.1 - e0 < A.energyCut * (L.kB * A.T))) := by
        intro e0 he0 hmin
        obtain ⟨es', psis', hc, k1, k2⟩ := C52_energy_cut o.energies st.psis h1 h2 (A.energyCut * (L.kB * A.T)) e0 he0 hmin
        have hcut := st.cut
        rw [hc] at hcut
        have hcut : (es', psis') = st.low := Except.ok.inj hcut
        rw [← hcut]
        exact ⟨k1, k2⟩
      exact ⟨(key e0 he0 hmin).1, fun e he hm => (key e he hm).2⟩
  · exact mainSim_args L A st.s st.low.1 st.low.2

omit hN in
include hA hG hL hD in
theorem steps_run (st : MainSteps L A o) :
    MainRun L A b P hx hy hz h0 o.energies st.psis (mainSim L A st.s st.low.1 st.low.2) ∧
    (mainSim L A st.s st.low.1 st.low.2).Valid ∧ (mainSim L A st.s st.low.1 st.low.2).OutLarge ∧
    ∀ psi ∈ st.psis, IsState (nTotal (pdSystem b)) psi := by
  obtain ⟨hprep, hval, hout, hpsis⟩ := steps_prepared hA hG hD (fun n op states es psis a1 a2 a3 a4 a5 h => by
    obtain ⟨h1, h2, -⟩ := C51_eigensystem L.solver hL n op a1 a2 a3 1e-12 states a4 a5 A.nPsiMax .lanczos 1e-7 1 one_pos _ _ h
    exact ⟨C51_count L.solver hL n op a1 a2 a3 1e-12 states a4 a5 A.nPsiMax .lanczos 1e-7 1 one_pos _ _ h, h1, h2⟩) st
  refine ⟨⟨hprep, ?_⟩, hval, hout, hpsis⟩
  classical
  obtain ⟨states, hsnd, hmem, heig⟩ := hprep.solved
  have hfs : states.toFinset
      = {F ∈ (range (nTotal (pdSystem b))).powerset | IsConfiguration [(1, b 1), (2, b 2)] (pdSystem b) P F} := by
    ext F
    rw [List.mem_toFinset, hmem, Finset.mem_filter, Finset.mem_powerset]
  obtain ⟨h1, h2, x, h3, h4, h5, h6⟩ := C51_eigensystem L.solver hL _ _ hprep.inside hprep.dict.1 hprep.dict.2 1e-12 states hsnd
    (fun F hF => ((hmem F).1 hF).1) A.nPsiMax .lanczos 1e-7 1 one_pos _ _ heig
  rw [← hfs]
  refine ⟨h1, h2, x, h3, fun v hv F hF => h4 v hv F (List.mem_toFinset.1 hF), h5, fun v hv => ?_⟩
  obtain ⟨g1, g2, -⟩ := h6 v hv
  refine ⟨g1, fun F => ?_⟩
  rw [g2 F]
  simp only [List.mem_toFinset]

include hA hG hord hordR hfin ho hL hD in
/-- C65.  If main finishes, the p shell was full; the Hamiltonian is the documented one; the
stored energies are its lowest `nPsiMax` eigenvalues in the space of all product states
with allowed occupations; the spectra are computed from the eigenstates less than
`energy_cut · kB · T` above the lowest, with the documented meshes, broadenings,
polarisations, wave vectors and restrictions; and the stored spectra are those that
`simulate_spectra` stores for these arguments (see C63). -/
theorem C65_run : ∃ psis S, MainRun L A b P hx hy hz h0 o.energies psis S ∧ S.Valid ∧ S.OutLarge ∧
    ∀ (N : ℕ), 0 < N → ∀ (ord : Fin N → ℕ → ℕ → ℕ → SetOrders), (∀ k c t i, (ord k c t i).Valid) →
      ∀ (ordRixs : Fin N → List ℕ → SetOrders), (∀ k l, (ordRixs k l).Valid) →
      AllRanksFinish msgSum (fun k : Fin N => simulateSpectra S (ord k) (ordRixs k) k.val N)
        (fun k => if k.val = 0 then some o.spectra else none) := by
  obtain ⟨st⟩ := main_steps hA hG hN hord hordR hfin ho
  obtain ⟨hrun, hval, hout, -⟩ := steps_run hA hG hL hD st
  refine ⟨st.psis, mainSim L A st.s st.low.1 st.low.2, hrun, hval, hout, ?_⟩
  · intro N hN ord hord ordR hordR
    have := simulate_settles hN hval hout ord hord ordR hordR
    rw [st.spectra] at this
    obtain ⟨out, rfl, hrun⟩ := this
    exact hrun.allRanksFinish

omit hN ho in
include hA hG hord hordR hL hD in
/-- C65.  No eigenstate is less than nothing above the lowest one: with `energy_cut · kB · T ≤ 0`
main never finishes, on any number of ranks. -/
theorem C65_needs_temperature (hN : 0 < N) (hT : A.energyCut * (L.kB * A.T) ≤ 0) (out : Fin N → Option MainOutput) :
    ¬ CanFinish msgSum (fun k : Fin N => mainRank L A (ord k) (ordRixs k) k.val N) out := by
  intro hfin
  obtain ⟨o, h1, -⟩ := (main_settles hN hA hG ord hord ordRixs hordR).canFinish hfin
  obtain ⟨st⟩ := refMain_steps h1
  obtain ⟨hrun, -⟩ := steps_run hA hG hL hD st
  obtain ⟨hk1, hk2⟩ := hrun.kept
  have hnil : st.low.1 = [] := by
    by_cases hE : o.energies = []
    · have hcut := st.cut
      rw [hE] at hcut
      have hcut : (([] : List ℝ), ([] : List (Psi ℂ))) = st.low := Except.ok.inj hcut
      rw [← hcut]
    · obtain ⟨e, l, hel⟩ := List.exists_cons_of_ne_nil hE
      have hasc := hrun.lowest.1
      have hmin : ∀ e' ∈ o.energies, e ≤ e' := by
        rw [hel] at hasc ⊢
        rw [List.pairwise_cons] at hasc
        intro e' he'
        rcases List.mem_cons.1 he' with rfl | he'
        · exact le_rfl
        · exact hasc.1 _ he'
      have := hk2 e (by rw [hel]; simp) hmin
      have hz : st.low.1.zip st.low.2 = [] := by
        refine this.trans (List.filter_eq_nil_iff.2 fun p hp => ?_)
        have := hmin p.1 (List.of_mem_zip hp).1
        simp only [decide_eq_true_eq, not_lt]
        linarith
      have hlen := congrArg List.length hz
      have hk1 : st.low.2.length = st.low.1.length := hk1
      rw [List.length_zip, hk1, Nat.min_self] at hlen
      exact List.length_eq_zero_iff.1 hlen
  exact steps_nonempty st hnil

/-- The shells of main. -/
theorem dipole_noSmall {L : MainLib} {A : MainArgs} (hG : GauntLarge L.gaunt A.ls) (hls : A.ls = [1, 2]) (b : ℕ → ℕ)
    {v : Vec3 ℂ} (hv : v ∈ ([⟨1, 0, 0⟩, ⟨0, 1, 0⟩, ⟨0, 0, 1⟩] : List (Vec3 ℂ))) (n : ℕ) (r : Option Restrictions) :
    NoSmall n (dipolePD L.gaunt b v) 1e-7 r :=
  noSmall_between (goodSystem_two (b1 := b 1) (b2 := b 2) (by decide)) (allAngulars_two 1 2 (b 1) (b 2)).2
    (allAngulars_two 1 2 (b 1) (b 2)).1 (by decide) _
    (fun m _ m' _ => dipole_large hG (by rw [hls]; simp) (by rw [hls]; simp) hv m m') n r

/-- The angles of the direction (1,1,1). -/
theorem diagonal_angles (q : ℝ) :
    q * (Real.sin (Real.arccos (1 / Real.sqrt 3)) * Real.cos (Real.pi / 4)) = q / Real.sqrt 3 ∧
    q * (Real.sin (Real.arccos (1 / Real.sqrt 3)) * Real.sin (Real.pi / 4)) = q / Real.sqrt 3 ∧
    q * Real.cos (Real.arccos (1 / Real.sqrt 3)) = q / Real.sqrt 3 ∧
    0 < Real.arccos (1 / Real.sqrt 3) ∧ Real.arccos (1 / Real.sqrt 3) < Real.pi := by
  have h3 : (1 : ℝ) < Real.sqrt 3 := by
    rw [Real.lt_sqrt (by norm_num)]
    norm_num
  have hp : (0 : ℝ) < 1 / Real.sqrt 3 := by positivity
  have h1 : 1 / Real.sqrt 3 < 1 := by rw [div_lt_one (by linarith)]; exact h3
  have hs : Real.sin (Real.arccos (1 / Real.sqrt 3)) = Real.sqrt 2 / Real.sqrt 3 := by
    rw [Real.sin_arccos, ← Real.sqrt_div (by norm_num)]
    congr 1
    rw [div_pow, Real.sq_sqrt (by norm_num)]
    norm_num
  have h22 : Real.sqrt 2 * Real.sqrt 2 = 2 := Real.mul_self_sqrt (by norm_num)
  have key : Real.sqrt 2 / Real.sqrt 3 * (Real.sqrt 2 / 2) = 1 / Real.sqrt 3 := by
    field_simp
    linarith
  refine ⟨?_, ?_, ?_, ?_, ?_⟩
  · rw [hs, Real.cos_pi_div_four, key]; ring
  · rw [hs, Real.sin_pi_div_four, key]; ring
  · rw [Real.cos_arccos (by linarith) h1.le]; ring
  · rw [Real.arccos_pos]; exact h1
  · rw [← Real.arccos_neg_one]
    exact Real.arccos_lt_arccos le_rfl (by linarith) h1.le

omit hfin ho in
include hG hN hord hordR hD in
theorem mainRun_spectra (hR : GauntRules L.gaunt) (hsolve : ExactSolver L.solve) (hf : L.f32 50 = 50) {energies : List ℝ}
    {psis : List (Psi ℂ)} {S : SimulateArgs} (hrun : MainRun L A b P hx hy hz h0 energies psis S) (hS : S.Valid) (hout : S.OutLarge)
    (hfin : CanFinish msgSum (fun k : Fin N => simulateSpectra S (ord k) (ordRixs k) k.val N)
      (fun k => if k.val = 0 then some o.spectra else none)) : PDSpectra b S o.spectra := by
  have hs : (fun k : Fin N => if k.val = 0 then some o.spectra else none) ⟨0, hN⟩ = some o.spectra := rfl
  obtain ⟨hdict, hh⟩ := hrun.dict
  have hK : intKeys S.nBaths = pdSystem b := by rw [hrun.system]; rfl
  obtain ⟨hkry, hwt, hcut⟩ := hrun.args.cutoffs
  obtain ⟨g1, g2, g3, g4, g5, g6⟩ := hrun.args.library
  have hw1 : S.slaterWeightMin ≤ 1 := by rw [hwt]; norm_num
  have hwIn : S.wIn.length = 50 := hrun.args.wIn.1
  have hqs : S.qsNIXS.length = 2 := hrun.args.qs.1
  have hns : ∀ v ∈ ([⟨1, 0, 0⟩, ⟨0, 1, 0⟩, ⟨0, 0, 1⟩] : List (Vec3 ℂ)),
      NoSmall (size S) (dipolePD S.gaunt b v) S.slaterWeightMin S.restrictions := by
    intro v hv
    rw [hwt, g1]
    exact dipole_noSmall hG hD.ls b hv _ _
  refine ⟨?_, ?_, ?_, ?_, ?_, ?_, ?_, ?_⟩
  · have := C63_tables hS hout hN hord hordR hfin hs
    rw [hqs, hrun.args.epsilons] at this
    exact this
  · intro i j k hi hj hk x hx hadd hrem
    subst hx
    rw [← hK, ← hkry] at *
    exact C63_photoemission hS hout hN hord hordR hfin hs hdict hh hw1 i j k hi hj hk hadd hrem
  · intro i j k hi hj hk x hx hrem
    subst hx
    rw [← hK, ← hkry] at *
    exact C63_xps hS hout hN hord hordR hfin hs hdict hh hw1 i j k hi hj hk hrem
  · intro i t k hi ht hk hkr
    rw [← hkry] at hkr
    refine C63_xas hS hout hN hord hordR hfin hs hdict hh hrun.system i t k hi ht hk _ ?_ (hns _ ?_) hkr
    · rw [hK]; rfl
    · rw [← hrun.args.epsilons]
      exact List.getElem_mem _
  · intro i t k hi ht hk q hq hsm hkr
    rw [← hkry] at hkr
    have ht' : t < S.qsNIXS.length := by rw [hqs]; exact ht
    obtain ⟨c, hc, hqc⟩ := hrun.args.qs.2 t ht'
    obtain ⟨a1, a2, a3, a4, a5⟩ := diagonal_angles q
    have hcq : c = q / Real.sqrt 3 := by rw [hc, hq]
    have hq0 : 0 < q := by rw [hq]; split <;> norm_num
    obtain ⟨r1, r2, r3⟩ := hrun.args.radial
    obtain ⟨s1, s2⟩ := hrun.args.shells
    refine C63_nixs hS hout hN hord hordR hfin hs hdict hh (by rw [g1]; exact hR)
      (by rw [s1, hrun.system]; simp [Dict.keys]) (by rw [s2, hrun.system]; simp [Dict.keys])
      (by rw [r1, r2]; simp) (by rw [r1, r3]; simp) i t k hi ht' hk q _ (Real.pi / 4) hq0 a4 a5
      (by rw [abs_of_pos (by positivity)]; linarith [Real.pi_pos]) (by rw [hqc, a1, hcq]) (by rw [hqc, a2, hcq])
      (by rw [hqc, a3, hcq]) _ ?_ hsm hkr
    unfold planeWaveDD
    rw [hK, s1, s2, hrun.args.kmin, abs_of_pos (by positivity : (0 : ℝ) < Real.pi / 4)]
  · intro i a c d k hi ha hc hd hk hres
    have hc' : c < S.epsilonsRIXSout.length := by rw [hrun.args.epsilonsRIXS.2]; exact hc
    have h00 : ∀ h, S.epsilonsRIXSout[0]'h = ⟨1, 0, 0⟩ := by
      intro h
      simp only [hrun.args.epsilonsRIXS.2, List.getElem_cons_zero]
    rw [← hkry] at hres
    refine C63_rixs hS hout hN hord hordR hfin hs hdict hh hrun.system (by rw [g4]; exact hsolve) i a c d k hi ha hc' hd hk
      _ ?_ _ ?_ (hns _ ?_) hres
    · rw [hK]; rfl
    · rw [hK, h00]; rfl
    · rw [← hrun.args.epsilonsRIXS.1]
      exact List.getElem_mem _
  · exact (C63_rixs_file hS hout hN hord hordR hfin hs (by rw [hwIn, g5]; exact_mod_cast hf)).1
  · have := (C63_rixs_file hS hout hN hord hordR hfin hs (by rw [hwIn, g5]; exact_mod_cast hf)).2
    rw [hrun.args.epsilonsRIXS.1, hrun.args.epsilonsRIXS.2] at this
    exact this

include hA hG hord hordR hfin ho hL hD in
theorem main_spectra (hR : GauntRules L.gaunt) (hsolve : ExactSolver L.solve) (hf : L.f32 50 = 50) :
    ∃ psis S, MainRun L A b P hx hy hz h0 o.energies psis S ∧ S.Valid ∧ PDSpectra b S o.spectra := by
  obtain ⟨psis, S, hrun, hS, hout, hall⟩ := C65_run hA hG hN hord hordR hfin ho hL hD
  exact ⟨psis, S, hrun, hS, mainRun_spectra hG hN hord hordR hD hR hsolve hf hrun hS hout (hall N hN ord hord ordRixs hordR).canFinish⟩

include hA hG hord hordR hfin ho hL hD in
/-- C65.  If main finishes, the stored spectra are the responses of the eigenstates to the
photoemission, dipole and plane wave operators. -/
theorem C65_spectra (hR : GauntRules L.gaunt) (hsolve : ExactSolver L.solve) (hf : L.f32 50 = 50) :
    ∃ psis S, MainRun L A b P hx hy hz h0 o.energies psis S ∧ PDSpectra b S o.spectra :=
  have ⟨psis, S, h1, _, h2⟩ := main_spectra hA hG hN hord hordR hfin ho hL hD hR hsolve hf
  ⟨psis, S, h1, h2⟩

end

end

end Verif
