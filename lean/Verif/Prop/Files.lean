/-
C80: what is on disk at any moment of a run.
-/
import Verif.Lemmas.MainFiles
import Verif.Lemmas.MainMeaning
import Verif.Prop.MainExample
import Verif.Spec.Files

namespace Verif

open Mpi Psr Spec

noncomputable section

/-- The programs that store something are the programs of C64, with the calls that store something put in. -/
theorem C80_same_program (L : MainLib) (A : MainArgs) (ord : ℕ → ℕ → ℕ → SetOrders) (ordRixs : List ℕ → SetOrders)
    (rank ranks : ℕ) : (mainFiles L A ord ordRixs rank ranks).erase =
      (mainRank L A ord ordRixs rank ranks).bind fun _ => .ret () := by
  unfold mainFiles mainRank simulateSpectraFiles simulateSpectra
  simp only [FProg.erase_after, FProg.erase_stores, FProg.erase, Prog.bind_assoc, Prog.bind]

theorem mainFiles_quiet (L : MainLib) (A : MainArgs) (ord : ℕ → ℕ → ℕ → SetOrders) (ordRixs : List ℕ → SetOrders)
    {rank : ℕ} (hr : rank ≠ 0) (ranks : ℕ) : Quiet (mainFiles L A ord ordRixs rank ranks).next := by
  unfold mainFiles simulateSpectraFiles
  dsimp only
  repeat' first
    | exact trivial
    | refine Quiet.after _ fun _ => ?_
    | refine Quiet.stores hr _ ?_

theorem refSimulateStored_fst {S : SimulateArgs} {s : Simulated} (h : refSimulate S = .ok s) :
    (refSimulateStored S).1 = spectrumStored "PS" s.ps ++ spectrumStored "XPS" s.xps ++ spectrumStored "NIXS" s.nixs ++
      spectrumStored "XAS" s.xas ++ rixsStored s.rixs ++ [.h5close] := by
  obtain ⟨st⟩ := refSimulate_steps h
  unfold refSimulateStored
  simp only [st.ips_eq, st.ps_eq, ok_bind, pure_ok, refAfter, st.gIps_eq, st.gPs_eq, st.psFiles, st.xps_eq, st.gXps_eq,
    st.xpsFiles, st.nixs_eq, st.gNixs_eq, st.nixsFiles, st.xas_eq, st.gXas_eq, st.xasFiles, st.rin_eq, st.rout_eq,
    st.gRixs_eq, st.rixsFiles, refStores, List.append_assoc, List.append_nil]

theorem mainSetup_nBaths {L : MainLib} {A : MainArgs} {s : Setup} (h : mainSetup L A = .ok s) :
    s.nBaths = zipDict A.ls A.nBaths := by
  unfold mainSetup at h
  obtain ⟨_, -, h⟩ := bind_ok h
  dsimp only at h
  split at h
  · obtain ⟨_, -, h⟩ := bind_ok h
    obtain ⟨_, -, h⟩ := bind_ok h
    obtain ⟨_, -, h⟩ := bind_ok h
    cases h
    rfl
  · cases h

theorem refMainStored_fst {L : MainLib} {A : MainArgs} {o : MainOutput} (h : refMain L A = .ok o) :
    ∃ s d, mainSetup L A = .ok s ∧ InputsStored L A s d ∧ (refMainStored L A).1 = filesOfRun d A.radial o := by
  obtain ⟨st⟩ := refMain_steps h
  have h1 : (refMainStored L A).1 = mainStored L A st.s o.energies ++
      (refSimulateStored (mainSim L A st.s st.low.1 st.low.2)).1 := by
    unfold refMainStored
    simp only [st.setup, refAfter, st.eig, st.prints, refStores, st.cut]
  have hnb : st.s.nBaths = zipDict A.ls A.nBaths := mainSetup_nBaths st.setup
  rw [h1, refSimulateStored_fst st.spectra]
  refine ⟨st.s, _, st.setup, ?_, rfl⟩
  exact ⟨⟨rfl, hnb, rfl⟩, ⟨rfl, rfl, rfl, rfl⟩, ⟨rfl, rfl, rfl, rfl⟩, ⟨rfl, rfl, rfl, rfl⟩, ⟨rfl, rfl⟩, rfl, ⟨rfl, rfl, rfl⟩,
    ⟨rfl, rfl, rfl⟩, ⟨rfl, rfl, rfl⟩⟩

/-- C80.  Take any two runs of main with the same input: with any numbers of ranks, any orders of the sets,
any schedules, and each stopped at any moment, because it is killed or because some rank raises an exception or
because it has finished.  What one of them has stored is the beginning of what the other has stored, and only
rank 0 has stored anything. -/
theorem C80_two_runs {L : MainLib} {A : MainArgs} (hA : A.Valid) (hG : GauntLarge L.gaunt A.ls)
    {N N' : ℕ} (hN : 0 < N) (hN' : 0 < N')
    {ord : Fin N → ℕ → ℕ → ℕ → SetOrders} (hord : ∀ k c t i, (ord k c t i).Valid)
    {ordRixs : Fin N → List ℕ → SetOrders} (hordR : ∀ k l, (ordRixs k l).Valid)
    {ord' : Fin N' → ℕ → ℕ → ℕ → SetOrders} (hord' : ∀ k c t i, (ord' k c t i).Valid)
    {ordRixs' : Fin N' → List ℕ → SetOrders} (hordR' : ∀ k l, (ordRixs' k l).Valid)
    {l : Fin N → List Stored} (hl : CanHaveStored msgSum (fun k : Fin N => mainFiles L A (ord k) (ordRixs k) k.val N) l)
    {l' : Fin N' → List Stored}
    (hl' : CanHaveStored msgSum (fun k : Fin N' => mainFiles L A (ord' k) (ordRixs' k) k.val N') l') :
    (l ⟨0, hN⟩ <+: l' ⟨0, hN'⟩ ∨ l' ⟨0, hN'⟩ <+: l ⟨0, hN⟩) ∧ ∀ r : Fin N, r.val ≠ 0 → l r = [] := by
  refine ⟨?_, fun r hr => stored_nothing (mainFiles_quiet L A (ord r) (ordRixs r) hr N) hl⟩
  have h := (main_fsettles hN hA hG ord hord ordRixs hordR).prefix hl (q := ⟨0, hN⟩) rfl
  have h' := (main_fsettles hN' hA hG ord' hord' ordRixs' hordR').prefix hl' (q := ⟨0, hN'⟩) rfl
  exact List.prefix_or_prefix_of_prefix h h'

/-- C80.  Once some run of an input has finished, with output `o`, it is known what any run of the input
stores: at every moment of every schedule on any number of ranks, rank 0 has stored the beginning of
`filesOfRun`, every entry with its final value, the other ranks have stored nothing, and in the end everything is
stored. -/
theorem C80_files {L : MainLib} {A : MainArgs} (hA : A.Valid) (hG : GauntLarge L.gaunt A.ls) {N : ℕ} (hN : 0 < N)
    {ord : Fin N → ℕ → ℕ → ℕ → SetOrders} (hord : ∀ k c t i, (ord k c t i).Valid)
    {ordRixs : Fin N → List ℕ → SetOrders} (hordR : ∀ k l, (ordRixs k l).Valid) {out : Fin N → Option MainOutput}
    (hfin : CanFinish msgSum (fun k : Fin N => mainRank L A (ord k) (ordRixs k) k.val N) out)
    {o : MainOutput} (ho : out ⟨0, hN⟩ = some o) :
    ∃ s d, mainSetup L A = .ok s ∧ InputsStored L A s d ∧
      ∀ (N' : ℕ) (hN' : 0 < N') (ord' : Fin N' → ℕ → ℕ → ℕ → SetOrders), (∀ k c t i, (ord' k c t i).Valid) →
      ∀ (ordRixs' : Fin N' → List ℕ → SetOrders), (∀ k l, (ordRixs' k l).Valid) →
      AllStored msgSum (fun k : Fin N' => mainFiles L A (ord' k) (ordRixs' k) k.val N')
        (fun k => if k.val = 0 then filesOfRun d A.radial o else []) ∧
      ∀ l, CanHaveStored msgSum (fun k : Fin N' => mainFiles L A (ord' k) (ordRixs' k) k.val N') l →
        l ⟨0, hN'⟩ <+: filesOfRun d A.radial o ∧ ∀ r : Fin N', r.val ≠ 0 → l r = [] := by
  obtain ⟨o', h1, h2⟩ := (main_settles hN hA hG ord hord ordRixs hordR).canFinish hfin
  rw [h2] at ho
  cases ho
  obtain ⟨s, d, hs, hd, hfiles⟩ := refMainStored_fst h1
  refine ⟨s, d, hs, hd, fun N' hN' ord' hord' ordR' hordR' => ?_⟩
  have h := main_fsettles hN' hA hG ord' hord' ordR' hordR'
  rw [← hfiles]
  refine ⟨h.ends (by rw [refMainStored_snd]; exact h1), fun l hl => ⟨h.prefix hl rfl, fun r hr => ?_⟩⟩
  exact stored_nothing (mainFiles_quiet L A (ord' r) (ordR' r) hr N') hl

/-- C80.  No file and no data set is stored twice. -/
theorem C80_once (d : NpzData) (radial : List (ℝ × ℝ)) (o : MainOutput) :
    ((filesOfRun d radial o).filterMap storedName).Nodup := by
  show ([_, _, _, _, _, _, _, _, _, _, _, _, _, _, _, _, _, _, _, _, _, _, _, _, _] : List String).Nodup
  decide

/-- A run of C64's example with three ranks: it can be killed when any number of the 26 entries is stored. -/
example (sphHarm : SphHarm) (jn : SphericalJn) (T : ℝ) (hT : 0 < T) (radial : List (ℝ × ℝ)) :
    ∃ (L : MainLib) (o : MainOutput) (d : NpzData), L.sphHarm = sphHarm ∧ L.jn = jn ∧ d.T = T ∧
      (filesOfRun d radial o).length = 26 ∧
      ∀ k ≤ 26, ∃ l : Fin 3 → List Stored,
        CanHaveStored msgSum (fun r : Fin 3 => mainFiles L (holeArgs 0 T radial) (fun _ _ _ => holeOrders) (fun _ => holeOrders)
          r.val 3) l ∧ l 0 = (filesOfRun d radial o).take k := by
  obtain ⟨solver, hS, htot⟩ := exists_solver
  obtain ⟨o, ho⟩ := C64_example hS htot sphHarm jn one_pos hT radial
  have h1 := ho 3 (by omega) (fun _ _ _ _ => holeOrders) (fun _ _ _ _ => holeOrders_valid) (fun _ _ => holeOrders)
    (fun _ _ => holeOrders_valid)
  obtain ⟨s, d, -, hd, hall⟩ := C80_files (holeArgs_valid 0 T radial) sympyGaunt_large (N := 3) (by omega)
    (fun _ _ _ _ => holeOrders_valid) (fun _ _ => holeOrders_valid) h1.canFinish (o := o) rfl
  obtain ⟨h2, h3⟩ := hall 3 (by omega) (fun _ _ _ _ => holeOrders) (fun _ _ _ _ => holeOrders_valid)
    (fun _ _ => holeOrders) (fun _ _ => holeOrders_valid)
  refine ⟨holeLib solver sphHarm jn 1, o, d, rfl, rfl, hd.thermal.2, rfl, fun k hk => ?_⟩
  obtain ⟨σ, l, n, hsteps, hlen⟩ := h2.between (r := 0) (k := k) (by simpa using (show k ≤ (filesOfRun d (holeArgs 0 T radial).radial o).length from hk))
  have hl : CanHaveStored msgSum _ l := Or.inl ⟨n, σ, hsteps⟩
  refine ⟨l, hl, ?_⟩
  have := (h3 l hl).1
  rw [List.prefix_iff_eq_take] at this
  rw [← hlen]
  exact this

end

end Verif
