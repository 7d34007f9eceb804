/-
main on any number of ranks.
-/
import Verif.Lemmas.MainSetup
import Verif.Prop.Mpi
import Verif.Prop.Eigen
import Verif.Lemmas.Between

namespace Verif

open Finset Mpi Psr Spec

noncomputable section

variable {N : ℕ}

/-! ### the Hamiltonian matrix -/

theorem runs_sparseGatherMsg (hSparse : Fin N → Mat ℂ) (rs : List (Fin N)) (h : Mat ℂ) :
    Runs msgSum (fun k : Fin N => sparseGatherMsg (hSparse k) (rs.map Fin.val) h)
      (fun _ => rs.foldl (fun h s => fun i j => h i j + hSparse s i j) h) := by
  induction rs generalizing h with
  | nil => exact .ret fun k => rfl
  | cons s rs ih =>
    refine Runs.bind (P := fun k : Fin N => Mpi.bcast s.val (Msg.matrix (hSparse k)))
      (Runs.bcast _ s (fun k => Msg.matrix (hSparse k)) (fun _ => rfl)) ?_
    exact (ih _).congr (fun _ => rfl) (fun _ => rfl)

/-- All ranks have the matrix that one process computes in mode `dense_serial`. -/
theorem runs_sparseMPIMsg (hN : 0 < N) (n : ℕ) (op : Op ℕ ℂ) (hop : OpInSystem n op) (cut : ℝ)
    (states : List (Finset ℕ)) (hnd : states.Nodup) (hst : ∀ S ∈ states, S ⊆ range n) :
    ∃ H, getHamiltonianMatrix n op cut (states.map (encBytes n)) .sparseMPI 1 = .ok H ∧
      Runs msgSum (fun k : Fin N => sparseMPIMsg n op cut (states.map (encBytes n)) N k.val) (fun _ => H) := by
  obtain ⟨H, hH, -⟩ := C21_matrix_elements n op hop cut states hnd hst .sparseMPI N hN
  refine ⟨H, (C20_modes_agree n op hop cut states hnd hst .sparseMPI .sparseMPI 1 N one_pos hN).trans hH, ?_⟩
  have hbasis : ∀ b ∈ states.map (encBytes n), ∃ S ⊆ range n, b = encBytes n S := by
    intro b hb
    obtain ⟨S, hS, rfl⟩ := List.mem_map.1 hb
    exact ⟨S, hst S hS, rfl⟩
  have hloc : ∀ k : Fin N, (do
      let jobs ← getJobTasks k.val N (List.range (states.map (encBytes n)).length)
      sparseTriplets n op cut (states.map (encBytes n)) jobs)
      = .ok (matEvents (states.map (encBytes n)) (colOf n op cut (states.map (encBytes n)))
        (jobsPure N (List.range (states.map (encBytes n)).length) k.val)) := by
    intro k
    rw [getJobTasks_eq k.isLt]
    simp only [bind, Except.bind]
    exact sparseTriplets_eq hop cut hbasis _
      (fun j hj => List.mem_range.1 (mem_jobsPure hN _ k.isLt hj))
  have hlift : ∀ k : Fin N, sparseMPIMsg n op cut (states.map (encBytes n)) N k.val
      = sparseGatherMsg (csr (matEvents (states.map (encBytes n)) (colOf n op cut (states.map (encBytes n)))
        (jobsPure N (List.range (states.map (encBytes n)).length) k.val)))
        ((List.finRange N).map Fin.val) fun _ _ => 0 := by
    intro k
    unfold sparseMPIMsg
    have := hloc k
    rw [getJobTasks_eq k.isLt] at this ⊢
    simp only [bind, Except.bind] at this ⊢
    rw [this, range_eq_finRange N]
    rfl
  simp only [hlift]
  refine (runs_sparseGatherMsg _ _ _).congr (fun _ => rfl) (fun _ => ?_)
  have hH' : hamiltonianSparseMPI n op cut (states.map (encBytes n)) N = .ok H := hH
  unfold hamiltonianSparseMPI at hH'
  rw [range_eq_finRange N, List.foldlM_map, foldlM_ok _ (fun (h : Mat ℂ) (k : Fin N) =>
    fun i j => h i j + csr (matEvents (states.map (encBytes n)) (colOf n op cut (states.map (encBytes n)))
        (jobsPure N (List.range (states.map (encBytes n)).length) k.val)) i j)] at hH'
  · injection hH' with hH'
    rw [← hH']
  · intro h k _
    have := hloc k
    rw [getJobTasks_eq k.isLt] at this ⊢
    simp only [bind, Except.bind] at this ⊢
    rw [this]
    rfl

/-- The diagonalisation that the ranks carry out together. -/
def refEigensystem (S : EigenSolver) (n : ℕ) (hOp : Op ℕ ℂ) (cut : ℝ) (basis : List Bytes) (nPsiMax : ℕ)
    (slaterWeightMin : ℝ) : Py (List ℝ × List (Psi ℂ)) :=
  if basis = [] then .error .zeroDivisionError
  else eigensystem S n hOp cut basis nPsiMax .lanczos slaterWeightMin 1

theorem settles_eigensystem (hN : 0 < N) (S : EigenSolver) (n : ℕ) (op : Op ℕ ℂ) (hop : OpInSystem n op) (cut : ℝ)
    (states : List (Finset ℕ)) (hnd : states.Nodup) (hst : ∀ S ∈ states, S ⊆ range n) (nPsiMax : ℕ) (m : ℝ) :
    Settles msgSum (fun k : Fin N => eigensystemRank S n op cut (states.map (encBytes n)) nPsiMax m N k.val)
      (refEigensystem S n op cut (states.map (encBytes n)) nPsiMax m) (fun a out => out = fun _ => a) := by
  obtain ⟨H, hH, hrun⟩ := runs_sparseMPIMsg hN n op hop cut states hnd hst
  unfold refEigensystem
  split
  · next he =>
    show RunsToFail _ _
    unfold eigensystemRank
    refine RunsToFail.bind_right hrun (RunsToFail.fail (r := ⟨0, hN⟩) (e := .zeroDivisionError) ?_ rfl)
    have : (states.map (encBytes n)).length = 0 := by rw [he]; rfl
    simp only [this, and_self, if_true]
    rfl
  · next he =>
    have hl : (states.map (encBytes n)).length ≠ 0 := fun h => he (List.length_eq_zero_iff.1 h)
    have hp : ∀ k : Fin N, eigensystemRank S n op cut (states.map (encBytes n)) nPsiMax m N k.val
        = (sparseMPIMsg n op cut (states.map (encBytes n)) N k.val).bind fun h =>
          Prog.lift (do
            let p ← diagLanczos S h (states.map (encBytes n)).length nPsiMax
            return (p.es, (List.range p.es.length).map fun v =>
              eigenState (states.map (encBytes n)) m fun i => p.vecs i v)) := by
      intro k
      unfold eigensystemRank
      congr 1
      funext h
      rw [if_neg fun hc => hl hc.2]
    simp only [hp]
    have : eigensystem S n op cut (states.map (encBytes n)) nPsiMax .lanczos m 1
        = (.ok H : Py (Mat ℂ)) >>= fun h => do
            let p ← diagLanczos S h (states.map (encBytes n)).length nPsiMax
            return (p.es, (List.range p.es.length).map fun v =>
              eigenState (states.map (encBytes n)) m fun i => p.vecs i v) := by
      unfold eigensystem
      rw [hH]
    rw [this]
    have hs : Settles msgSum (fun k : Fin N => sparseMPIMsg n op cut (states.map (encBytes n)) N k.val) (.ok H)
        (fun a out => out = fun _ => a) := ⟨_, rfl, hrun⟩
    exact Settles.bind hs
      fun a out _ hrel => by subst hrel; exact Settles.lift hN _

/-- The eigenstates are states of the system, one for each energy. -/
theorem refEigensystem_okIn (S : EigenSolver) (n : ℕ) (op : Op ℕ ℂ) (cut : ℝ)
    (states : List (Finset ℕ)) (hnd : states.Nodup) (hst : ∀ S ∈ states, S ⊆ range n) (nPsiMax : ℕ) (m : ℝ) :
    OkIn (fun a => a.2.length = a.1.length ∧ ∀ psi ∈ a.2, IsState n psi)
      (refEigensystem S n op cut (states.map (encBytes n)) nPsiMax m) := by
  unfold refEigensystem
  split
  · exact OkIn.error
  · unfold eigensystem
    refine OkIn.bind OkIn.true fun h _ => ?_
    refine OkIn.bind OkIn.true fun p _ => OkIn.pure ⟨by simp, fun psi hpsi => ?_⟩
    obtain ⟨v, -, rfl⟩ := List.mem_map.1 hpsi
    exact isState_eigenState hnd hst m _

/-! ### what is printed -/

theorem settles_prints (hN : 0 < N) (L : MainLib) (A : MainArgs) (nBaths : Dict ℕ ℕ) (es : List ℝ) (psis : List (Psi ℂ)) :
    Settles msgSum (fun k : Fin N => Prog.lift (mainPrints L A nBaths es psis k.val)) (mainPrints L A nBaths es psis 0)
      (fun a out => out ⟨0, hN⟩ = a) := by
  apply Settles.local hN
  cases h : mainPrints L A nBaths es psis 0 with
  | error e => exact Or.inr ⟨⟨e, rfl⟩, e, rfl⟩
  | ok a =>
    left
    refine ⟨a, rfl, fun r => ?_⟩
    by_cases hr : r.val = 0
    · exact ⟨a, by rw [hr]; exact h, fun _ => rfl⟩
    · have ht : ∃ t, printThermalExpValues L.kB nBaths es psis r.val = .ok t := by
        unfold mainPrints at h
        cases h0 : printThermalExpValues L.kB nBaths es psis 0 with
        | error e => rw [h0] at h; cases h
        | ok t =>
          unfold printThermalExpValues at h0 ⊢
          cases h1 : pyGet es 0 with
          | error e => rw [h1] at h0; cases h0
          | ok e0 =>
            simp only [h1, ok_bind] at h0 ⊢
            by_cases hl : es.length ≠ psis.length
            · rw [if_pos hl] at h0
              cases h0
            · rw [if_neg hl] at h0 ⊢
              revert h0
              generalize (((es.map fun e => e - e0).zip psis).filter
                fun p => decide (p.1 < (10 : ℝ) * L.kB * 300)) = kept
              intro h0
              generalize hq : (List.mapM (fun psi => do
                let oc ← getEgT2gOccupation nBaths psi
                pure fun k => oc.getD k 0 : Psi ℂ → Py (ℕ → ℂ)) (List.map Prod.snd kept)) = q at h0 ⊢
              cases q with
              | error e => cases h0
              | ok occ =>
                simp only [ok_bind] at h0 ⊢
                cases hb : thermalAverage L.kB (List.map Prod.fst kept) occ 300 with
                | error e => rw [hb] at h0; cases h0
                | ok occs =>
                  simp only [ok_bind, if_neg hr]
                  exact ⟨none, rfl⟩
      obtain ⟨t, ht⟩ := ht
      have hn : printExpValues nBaths es psis r.val = .ok none := by
        unfold printExpValues
        rw [if_neg hr]
        rfl
      refine ⟨none, ?_, fun h0 => absurd h0 hr⟩
      unfold mainPrints
      rw [ht, hn]
      simp only [ok_bind, if_neg hr, pure_ok]
      try cases t <;> rfl

theorem mainPrints_some (L : MainLib) (A : MainArgs) (nBaths : Dict ℕ ℕ) (es : List ℝ) (psis : List (Psi ℂ)) :
    OkIn (fun a => ∃ p, a = some p) (mainPrints L A nBaths es psis 0) := by
  unfold mainPrints
  refine OkIn.bind (P := fun a => ∃ p, a = some p) ?_ fun t ht => ?_
  · unfold printThermalExpValues
    refine OkIn.bind OkIn.true fun _ _ => ?_
    dsimp only
    split
    · exact OkIn.error
    · refine OkIn.bind OkIn.true fun _ _ => ?_
      refine OkIn.bind OkIn.true fun _ _ => ?_
      rw [if_pos rfl]
      iterate 11 refine OkIn.bind OkIn.true fun _ _ => ?_
      exact OkIn.pure ⟨_, rfl⟩
  · refine OkIn.bind (P := fun a => ∃ p, a = some p) ?_ fun e he => ?_
    · unfold printExpValues
      rw [if_pos rfl]
      refine OkIn.bind OkIn.true fun _ _ => ?_
      refine OkIn.bind OkIn.true fun _ _ => ?_
      exact OkIn.pure ⟨_, rfl⟩
    · obtain ⟨t, rfl⟩ := ht
      obtain ⟨e, rfl⟩ := he
      simp only [if_true]
      refine OkIn.bind OkIn.true fun _ _ => ?_
      exact OkIn.pure ⟨_, rfl⟩

/-! ### the spectra -/

theorem allAngulars_two (l1 l2 b1 b2 : ℕ) : l1 ∈ allAngulars [(.int l1, b1), (.int l2, b2)] ∧
    l2 ∈ allAngulars [(.int l1, b1), (.int l2, b2)] := by
  constructor <;> simp [allAngulars, angulars]

/-- The first out-going operator of RIXS has no small matrix elements. -/
theorem mainSim_outLarge {L : MainLib} {A : MainArgs} (hG : GauntLarge L.gaunt A.ls) {s : Setup} (hs : SetupGood A.ls s)
    (es : List ℝ) (psis : List (Psi ℂ)) : (mainSim L A s es psis).OutLarge := by
  intro ts hts op0 hop0
  have hts : getDaggeredDipoleOperators L.gaunt (intKeys s.nBaths) mainEpsilons = .ok ts := hts
  have htwo : ∃ l1 b1 l2 b2, s.nBaths = [(l1, b1), (l2, b2)] := by
    rcases hn : s.nBaths with _ | ⟨p, _ | ⟨q, _ | ⟨r, rest⟩⟩⟩
    · rw [hn] at hts; cases hts
    · rw [hn] at hts; cases hts
    · exact ⟨p.1, p.2, q.1, q.2, rfl⟩
    · rw [hn] at hts; cases hts
  obtain ⟨l1, b1, l2, b2, hn⟩ := htwo
  have hne : l1 ≠ l2 := by
    have := hs.nBaths
    rw [hn] at this
    simpa [Dict.NodupKeys, Dict.keys] using this
  have hk : intKeys s.nBaths = [(.int l1, b1), (.int l2, b2)] := by rw [hn]; rfl
  have m1 : l1 ∈ A.ls := hs.shells l1 (by rw [hn]; simp [Dict.keys])
  have m2 : l2 ∈ A.ls := hs.shells l2 (by rw [hn]; simp [Dict.keys])
  rw [hk] at hts
  obtain ⟨hl, ho⟩ := daggered_spec L.gaunt hne hts
  have h0 := ho 0 (by simp [mainEpsilons])
  cases ts with
  | nil => simp at hop0
  | cons op rest =>
    simp only [List.head?_cons, Option.mem_def, Option.some.injEq] at hop0
    subst hop0
    intro F hF F' hF' hal
    have hnn : nSpinOrbitals s.nBaths = nTotal [(.int l1, b1), (.int l2, b2)] := by rw [nSpinOrbitals_eq, hk]
    have hF : F ⊆ range (nSpinOrbitals s.nBaths) := hF
    have hF' : F' ⊆ range (nSpinOrbitals s.nBaths) := hF'
    rw [hnn] at hF hF'
    have := noSmall_between (goodSystem_two (b1 := b1) (b2 := b2) hne) (allAngulars_two l1 l2 b1 b2).1
      (allAngulars_two l1 l2 b1 b2).2 hne
      (fun m' m => star (dipole L.gaunt mainEpsilons[0].x mainEpsilons[0].y mainEpsilons[0].z l2 m l1 m')) (cut := 1e-7)
      (fun m' _ m _ => by
        rcases dipole_large hG m2 m1 (v := mainEpsilons[0]) (by simp [mainEpsilons]) m m' with h | h
        · left; rw [h, star_zero]
        · right
          show (1e-7 : ℝ) ≤ Complex.normSq ((starRingEnd ℂ) _)
          rw [Complex.normSq_conj]
          exact h)
      (nTotal [(.int l1, b1), (.int l2, b2)]) (some s.restrictions) F' hF' F hF hal
    rw [← h0 (Spec.single F 1) F' hF'] at this
    exact this

theorem mainSim_valid {L : MainLib} {A : MainArgs} (hA : A.Valid) {s : Setup} (hs : SetupGood A.ls s) {es : List ℝ}
    {psis : List (Psi ℂ)} (hpsis : ∀ psi ∈ psis, IsState (nSpinOrbitals s.nBaths) psi) (hl : es.length ≤ psis.length) :
    (mainSim L A s es psis).Valid where
  nBaths := hs.nBaths
  hop := hs.op.1.2
  cut := by norm_num [mainSim]
  weight := by norm_num [mainSim]
  delta := hA.delta
  deltaNIXS := hA.deltaNIXS
  deltaRIXS := hA.deltaRIXS
  krylov := by norm_num [mainSim]
  fuel := le_rfl
  states := hpsis
  enough := hl

theorem pyGet_mem {Q : Type} {l : List Q} {i : ℤ} {q : Q} (h : pyGet l i = .ok q) : q ∈ l := by
  unfold pyGet at h
  split at h
  · cases h
  · split at h
    · cases h
    · next hx =>
      cases h
      exact List.mem_of_getElem? hx

theorem energyCut_okIn {Q : Type} (es : List ℝ) (psis : List Q) (cut : ℝ) :
    OkIn (fun a => a.1.length ≤ a.2.length ∧ ∀ q ∈ a.2, q ∈ psis) (energyCut es psis cut) := by
  unfold energyCut
  refine OkIn.bind OkIn.true fun es' _ => ?_
  refine OkIn.bind (OkIn.mapM (P := fun q => q ∈ psis) _ fun i _ q hq => pyGet_mem hq) fun ps hps => OkIn.pure ?_
  refine ⟨?_, hps.2⟩
  rw [hps.1, List.length_range]

/-! ### all together -/

/-- The computation that the ranks carry out together. -/
def refMain (L : MainLib) (A : MainArgs) : Py MainOutput := do
  let s ← mainSetup L A
  let eig ← refEigensystem L.solver (nSpinOrbitals s.nBaths) s.hOp 1e-12 s.basis A.nPsiMax 1e-7
  let prints ← mainPrints L A s.nBaths eig.1 eig.2 0
  let low ← energyCut eig.1 eig.2 (A.energyCut * (L.kB * A.T))
  let spectra ← refSimulate (mainSim L A s low.1 low.2)
  match prints with
  | some p => return ⟨p.1, p.2.1, p.2.2.1, p.2.2.2, eig.1, spectra⟩
  | none => throw .typeError

theorem main_settles (hN : 0 < N) {L : MainLib} {A : MainArgs} (hA : A.Valid) (hG : GauntLarge L.gaunt A.ls)
    (ord : Fin N → ℕ → ℕ → ℕ → SetOrders) (hord : ∀ k c t i, (ord k c t i).Valid)
    (ordRixs : Fin N → List ℕ → SetOrders) (hordR : ∀ k l, (ordRixs k l).Valid) :
    Settles msgSum (fun k : Fin N => mainRank L A (ord k) (ordRixs k) k.val N) (refMain L A)
      (fun o out => out = fun k => if k.val = 0 then some o else none) := by
  unfold mainRank refMain
  refine Settles.bind (Settles.lift hN _) fun s _ hs hrel => ?_
  subst hrel
  have hgood := mainSetup_good L A s hs
  obtain ⟨states, hnd, hst, hb⟩ := hgood.basis
  dsimp only
  rw [hb]
  refine Settles.bind (settles_eigensystem hN L.solver _ s.hOp hgood.op.1.2 _ states hnd hst _ _) fun eig _ heig hrel => ?_
  subst hrel
  obtain ⟨hlen, hpsis⟩ := refEigensystem_okIn L.solver _ s.hOp _ states hnd hst _ _ eig heig
  refine Settles.bind (settles_prints hN L A s.nBaths eig.1 eig.2) fun prints o1 hp h1 => ?_
  obtain ⟨p, rfl⟩ := mainPrints_some L A s.nBaths eig.1 eig.2 _ hp
  refine Settles.bind (Settles.lift hN _) fun low _ hlow hrel => ?_
  subst hrel
  obtain ⟨hl, hm⟩ := energyCut_okIn _ _ _ low hlow
  refine Settles.bind (simulate_settles hN (mainSim_valid hA hgood (fun psi h => hpsis psi (hm psi h)) hl)
    (mainSim_outLarge hG hgood low.1 low.2) ord hord ordRixs hordR) fun sp o2 _ h2 => ?_
  subst h2
  refine Settles.ret (fun r => rfl) ?_
  funext k
  by_cases hk : k.val = 0
  · have : k = ⟨0, hN⟩ := Fin.ext hk
    subst this
    simp only [h1, if_true]
  · simp only [if_neg hk]
    cases o1 k <;> rfl

end

end Verif
