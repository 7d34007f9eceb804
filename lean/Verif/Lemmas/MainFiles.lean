/-
What main stores, in the order in which it is stored.
-/
import Verif.Lemmas.Files
import Verif.Lemmas.MainRuns

namespace Verif

open Psr Mpi Spec

noncomputable section

/-- What is stored, then what comes after it. -/
def refStores {W X : Type} (ws : List W) (y : List W × Py X) : List W × Py X := (ws ++ y.1, y.2)

/-- What `simulate_spectra` stores. -/
def refSimulateStored (S : SimulateArgs) : List Stored × Py Simulated :=
  let nB := intKeys S.nBaths
  let negW := S.w.map fun x => -x
  refAfter (do
    let tOpsIPS ← getInversePhotoEmissionOperators nB 2
    let tOpsPS ← getPhotoEmissionOperators nB 2
    return (tOpsIPS, tOpsPS) : Py (List (Op ℕ ℂ) × List (Op ℕ ℂ))) fun ops =>
  refAfter (refHBuild (S.spectra S.w S.delta) ops.1 S.psis S.es) fun gsIPS =>
  refAfter (refHBuild (S.spectra negW (-S.delta)) ops.2 S.psis S.es) fun gsPS =>
  refAfter (spectrumFiles S.kB S.es S.T S.w ops.1.length (gsPS.root.negate.add gsIPS.root)) fun ps =>
  refStores (spectrumStored "PS" ps) <|
  refAfter (getPhotoEmissionOperators nB 1) fun tOpsPS =>
  refAfter (refHBuild (S.spectra negW (-S.delta)) tOpsPS S.psis S.es) fun gs =>
  refAfter (spectrumFiles S.kB S.es S.T S.w tOpsPS.length gs.root.negate) fun xps =>
  refStores (spectrumStored "XPS" xps) <|
  refAfter (getNIXSOperators S.gaunt S.sphHarm S.jn nB S.qsNIXS S.liNIXS S.ljNIXS S.RiNIXS S.RjNIXS S.radialMesh S.kmin)
    fun tOps =>
  refAfter (refHBuild (S.spectra S.wLoss S.deltaNIXS) tOps S.psis S.es) fun gs =>
  refAfter (spectrumFiles S.kB S.es S.T S.wLoss tOps.length gs.root) fun nixs =>
  refStores (spectrumStored "NIXS" nixs) <|
  refAfter (getDipoleOperators S.gaunt nB S.epsilons) fun tOps =>
  refAfter (refHBuild (S.spectra S.w S.delta) tOps S.psis S.es) fun gs =>
  refAfter (spectrumFiles S.kB S.es S.T S.w tOps.length gs.root) fun xas =>
  refStores (spectrumStored "XAS" xas) <|
  refAfter (do
    let tOpsIn ← getDipoleOperators S.gaunt nB S.epsilonsRIXSin
    let tOpsOut ← getDaggeredDipoleOperators S.gaunt nB S.epsilonsRIXSout
    return (tOpsIn, tOpsOut) : Py (List (Op ℕ ℂ) × List (Op ℕ ℂ))) fun ops =>
  refAfter (refRixs S.rixs ops.1 ops.2 S.psis S.es) fun gs =>
  refAfter (rixsFiles S.f32 S.kB S.es S.T S.wIn S.wLoss ops.1.length ops.2.length gs.root) fun rixs =>
  refStores (rixsStored rixs) <| refStores [.h5close] ([], .ok ⟨ps, xps, nixs, xas, rixs⟩)

/-- What main stores. -/
def refMainStored (L : MainLib) (A : MainArgs) : List Stored × Py MainOutput :=
  refAfter (mainSetup L A) fun s =>
  refAfter (refEigensystem L.solver (nSpinOrbitals s.nBaths) s.hOp 1e-12 s.basis A.nPsiMax 1e-7) fun eig =>
  refAfter (mainPrints L A s.nBaths eig.1 eig.2 0) fun prints =>
  refStores (mainStored L A s eig.1) <|
  refAfter (energyCut eig.1 eig.2 (A.energyCut * (L.kB * A.T))) fun low =>
  let r := refSimulateStored (mainSim L A s low.1 low.2)
  (r.1, r.2 >>= fun sp => match prints with
    | some p => .ok ⟨p.1, p.2.1, p.2.2.1, p.2.2.2, eig.1, sp⟩
    | none => .error .typeError)

theorem refAfter_snd {W X Y : Type} (x : Py X) (y : X → List W × Py Y) :
    (refAfter x y).2 = x >>= fun a => (y a).2 := by
  cases x <;> rfl

theorem refSimulateStored_snd (S : SimulateArgs) : (refSimulateStored S).2 = refSimulate S := by
  unfold refSimulateStored refSimulate
  simp only [refAfter_snd, refStores]
  rfl

theorem refMainStored_snd (L : MainLib) (A : MainArgs) : (refMainStored L A).2 = refMain L A := by
  unfold refMainStored refMain
  simp only [refAfter_snd, refStores, refSimulateStored_snd]
  rfl

variable {N : ℕ}

theorem simulate_fsettles (hN : 0 < N) {S : SimulateArgs} (hS : S.Valid) (hout : S.OutLarge)
    (ord : Fin N → ℕ → ℕ → ℕ → SetOrders) (hord : ∀ k c t i, (ord k c t i).Valid)
    (ordRixs : Fin N → List ℕ → SetOrders) (hordR : ∀ k l, (ordRixs k l).Valid) :
    FSettles msgSum (fun k : Fin N => simulateSpectraFiles S (ord k) (ordRixs k) k.val N) (refSimulateStored S)
      (fun _ _ => True) := by
  have hgood := hS.good
  have hn : nSpinOrbitals S.nBaths = nTotal (intKeys S.nBaths) := nSpinOrbitals_eq _
  have h0 : ∀ r : Fin N, r.val = 0 → r = ⟨0, hN⟩ := fun r hr => Fin.ext hr
  unfold simulateSpectraFiles refSimulateStored
  dsimp only
  refine FSettles.after (Settles.lift hN _) fun ops _ hops hrel => ?_
  subst hrel
  have hops12 : (∀ t ∈ ops.1, OpInSystem (nSpinOrbitals S.nBaths) t) ∧ ∀ t ∈ ops.2, OpInSystem (nSpinOrbitals S.nBaths) t := by
    rw [hn]
    exact OkIn.bind (Q := fun ops : List (Op ℕ ℂ) × List (Op ℕ ℂ) =>
      (∀ t ∈ ops.1, OpInSystem (nTotal (intKeys S.nBaths)) t) ∧ ∀ t ∈ ops.2, OpInSystem (nTotal (intKeys S.nBaths)) t)
      (inversePhoto_okIn hgood 2) (fun a ha => OkIn.bind (photo_okIn hgood 2) fun b hb => OkIn.pure ⟨ha, hb⟩) ops hops
  refine FSettles.after (settles_spectra hN (hS.spectra S.w hS.delta) hS.enough hS.states hops12.1 _
    (fun k t i => hord k 0 t i)) fun gsIPS o1 _ h1 => ?_
  refine FSettles.after (settles_spectra hN (hS.spectra (S.w.map fun x => -x) (neg_ne_zero.2 hS.delta)) hS.enough hS.states
    hops12.2 _ (fun k t i => hord k 1 t i)) fun gsPS o2 _ h2 => ?_
  refine FSettles.after (settles_files hN S.kB S.es S.T S.w ops.1.length (fun r => (o2 r).negate.add (o1 r)) _
    (by rw [h1, h2])) fun ps o3 _ h3 => ?_
  refine FSettles.stores (fun r hr => by rw [h0 r hr, h3]) ?_
  refine FSettles.after (Settles.lift hN _) fun tOpsPS _ hops hrel => ?_
  subst hrel
  have hops := photo_okIn hgood 1 _ hops
  rw [← hn] at hops
  refine FSettles.after (settles_spectra hN (hS.spectra (S.w.map fun x => -x) (neg_ne_zero.2 hS.delta)) hS.enough hS.states
    hops _ (fun k t i => hord k 2 t i)) fun gs o4 _ h4 => ?_
  refine FSettles.after (settles_files hN S.kB S.es S.T S.w tOpsPS.length (fun r => (o4 r).negate) _
    (by rw [h4])) fun xps o5 _ h5 => ?_
  refine FSettles.stores (fun r hr => by rw [h0 r hr, h5]) ?_
  refine FSettles.after (Settles.lift hN _) fun tOps _ hops hrel => ?_
  subst hrel
  have hops := nixss_okIn _ _ _ hgood _ _ _ _ _ _ _ _ hops
  rw [← hn] at hops
  refine FSettles.after (settles_spectra hN (hS.spectra S.wLoss hS.deltaNIXS) hS.enough hS.states
    hops _ (fun k t i => hord k 3 t i)) fun gs o6 _ h6 => ?_
  refine FSettles.after (settles_files hN S.kB S.es S.T S.wLoss tOps.length o6 _ h6) fun nixs o7 _ h7 => ?_
  refine FSettles.stores (fun r hr => by rw [h0 r hr, h7]) ?_
  refine FSettles.after (Settles.lift hN _) fun tOps _ hops hrel => ?_
  subst hrel
  have hops := dipoles_okIn _ hgood _ _ hops
  rw [← hn] at hops
  refine FSettles.after (settles_spectra hN (hS.spectra S.w hS.delta) hS.enough hS.states
    hops _ (fun k t i => hord k 4 t i)) fun gs o8 _ h8 => ?_
  refine FSettles.after (settles_files hN S.kB S.es S.T S.w tOps.length o8 _ h8) fun xas o9 _ h9 => ?_
  refine FSettles.stores (fun r hr => by rw [h0 r hr, h9]) ?_
  refine FSettles.after (Settles.lift hN _) fun ops _ hops hrel => ?_
  subst hrel
  have hopsR : (∀ t ∈ ops.1, OpInSystem (nSpinOrbitals S.nBaths) t) ∧ OutOps S.rixs ops.2 := by
    refine OkIn.bind (Q := fun ops : List (Op ℕ ℂ) × List (Op ℕ ℂ) =>
      (∀ t ∈ ops.1, OpInSystem (nSpinOrbitals S.nBaths) t) ∧ OutOps S.rixs ops.2)
      (hn ▸ dipoles_okIn S.gaunt hgood S.epsilonsRIXSin) (fun a ha => ?_) ops hops
    refine OkIn.bind (P := fun b => OutOps S.rixs b) (fun b hb => ?_) fun b hb => OkIn.pure ⟨ha, hb⟩
    intro op0 h0
    refine ⟨?_, hout b hb op0 h0⟩
    have := daggered_okIn _ hgood _ _ hb
    rw [← hn] at this
    exact this op0 (List.mem_of_mem_head? h0)
  refine FSettles.after (settles_rixs hN hS hopsR.1 hopsR.2 ordRixs hordR) fun gs o10 _ h10 => ?_
  simp only [h10]
  refine FSettles.after (Settles.lift hN _) fun rixs _ _ hrel => ?_
  subst hrel
  refine FSettles.stores (fun r hr => rfl) ?_
  refine FSettles.stores (fun r hr => rfl) ?_
  exact FSettles.ret (out := fun _ => ()) (fun r => rfl) trivial

theorem FSettles.mono {M W A X Y : Type} {sum : List M → M} {P : Fin N → FProg M W A} {x : List W × Py X}
    {Rel : X → (Fin N → A) → Prop} (h : FSettles sum P x Rel) {y : List W × Py Y} {Rel' : Y → (Fin N → A) → Prop}
    (h1 : y.1 = x.1) (h2 : ∀ a, x.2 = .ok a → ∃ b, y.2 = .ok b ∧ ∀ out, Rel a out → Rel' b out)
    (h3 : ∀ e, x.2 = .error e → ∃ e, y.2 = .error e) : FSettles sum P y Rel' := by
  intro l
  obtain ⟨k, σ, hk, hσ⟩ := h l
  refine ⟨k, σ, h1 ▸ hk, ?_⟩
  cases hx : x.2 with
  | ok a =>
    obtain ⟨b, hb, hr⟩ := h2 a hx
    rw [hx] at hσ
    rw [hb]
    obtain ⟨out, ho, h⟩ := hσ
    exact ⟨out, hr out ho, h⟩
  | error e =>
    obtain ⟨e', he⟩ := h3 e hx
    rw [hx] at hσ
    rw [he]
    exact hσ

theorem main_fsettles (hN : 0 < N) {L : MainLib} {A : MainArgs} (hA : A.Valid) (hG : GauntLarge L.gaunt A.ls)
    (ord : Fin N → ℕ → ℕ → ℕ → SetOrders) (hord : ∀ k c t i, (ord k c t i).Valid)
    (ordRixs : Fin N → List ℕ → SetOrders) (hordR : ∀ k l, (ordRixs k l).Valid) :
    FSettles msgSum (fun k : Fin N => mainFiles L A (ord k) (ordRixs k) k.val N) (refMainStored L A)
      (fun _ _ => True) := by
  unfold mainFiles refMainStored
  refine FSettles.after (Settles.lift hN _) fun s _ hs hrel => ?_
  subst hrel
  have hgood := mainSetup_good L A s hs
  obtain ⟨states, hnd, hst, hb⟩ := hgood.basis
  dsimp only
  rw [hb]
  refine FSettles.after (settles_eigensystem hN L.solver _ s.hOp hgood.op.1.2 _ states hnd hst _ _) fun eig _ heig hrel => ?_
  subst hrel
  obtain ⟨hlen, hpsis⟩ := refEigensystem_okIn L.solver _ s.hOp _ states hnd hst _ _ eig heig
  refine FSettles.after (settles_prints hN L A s.nBaths eig.1 eig.2) fun prints o1 hp h1 => ?_
  obtain ⟨p, rfl⟩ := mainPrints_some L A s.nBaths eig.1 eig.2 _ hp
  refine FSettles.stores (fun r hr => rfl) ?_
  refine FSettles.after (Settles.lift hN _) fun low _ hlow hrel => ?_
  subst hrel
  obtain ⟨hl, hm⟩ := energyCut_okIn _ _ _ low hlow
  refine FSettles.mono (simulate_fsettles hN (mainSim_valid hA hgood (fun psi h => hpsis psi (hm psi h)) hl)
    (mainSim_outLarge hG hgood low.1 low.2) ord hord ordRixs hordR) rfl ?_ ?_
  · intro a ha
    dsimp only
    rw [ha]
    exact ⟨_, rfl, fun _ _ => trivial⟩
  · intro e he
    dsimp only
    rw [he]
    exact ⟨e, rfl⟩

end

end Verif
