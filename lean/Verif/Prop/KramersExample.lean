/-
A run of main to which C78 and C79 apply: nine d electrons without a magnetic field, with two degenerate ground states.
-/
import Verif.Lemmas.KramersExample
import Verif.Prop.Kramers

namespace Verif

open Finset Mpi Psr Spec

noncomputable section

/-! ### Time reversal -/

def pairPartner (i : ℕ) : ℕ := if i < 6 then 5 - i else 21 - i

def pairPhase (i : ℕ) : ℤ := if i < 6 then (-1) ^ (i + 1) else (-1) ^ i

theorem pair_shell : ∀ l ∈ [1, 2], ∀ s ∈ ({0, 1} : Finset ℤ), ∀ m ∈ mRange l,
    pairPartner (position holeSystem (.imp l s m)) = position holeSystem (.imp l (1 - s) (-m)) ∧
    pairPhase (position holeSystem (.imp l s m)) = if Even (m + s) then 1 else -1 := by
  decide +kernel

theorem pair_partner : ∀ i < 16, pairPartner i < 16 ∧ pairPartner (pairPartner i) = i ∧ pairPhase (pairPartner i) = -pairPhase i ∧
    pairLevel (pairPartner i) = pairLevel i := by
  decide +kernel

theorem pair_timeReversal : TimeReversal (fun _ => 0) holeParams pairPartner fun i => (pairPhase i : ℂ) where
  shell := by
    intro l hl s hs m hm
    obtain ⟨h1, h2⟩ := pair_shell l hl s hs m hm
    refine ⟨h1, ?_⟩
    show ((pairPhase (position holeSystem (.imp l s m)) : ℤ) : ℂ) = _
    rw [h2]
    split
    · next h => rw [h.neg_one_zpow, Int.cast_one]
    · next h => rw [(Int.not_even_iff_odd.1 h).neg_one_zpow, Int.cast_neg, Int.cast_one]
  partner := by
    rw [show nTotal (pdSystem fun _ => 0) = 16 from holeSystem_size]
    exact fun i hi => ⟨(pair_partner i hi).1, (pair_partner i hi).2.1⟩
  unit := by
    intro i
    unfold pairPhase
    split <;> simp
  bath := by
    intro l hl i _
    have h1 : valOrbs (pdSystem fun _ => 0) l (holeParams.val l) = ∅ := Finset.Ico_eq_empty (by simp [holeParams])
    have h2 : conOrbs (pdSystem fun _ => 0) l 0 (holeParams.val l) = ∅ := Finset.Ico_eq_empty (by simp [holeParams])
    rw [h1, h2]
    simp

theorem pair_invariant (v : Vec ℂ) :
    operator (labelSpec (position (pdSystem fun _ => 0)) pairLevels)
      (reverse (nTotal (pdSystem fun _ => 0)) pairPartner (fun i => (pairPhase i : ℂ)) v)
    = reverse (nTotal (pdSystem fun _ => 0)) pairPartner (fun i => (pairPhase i : ℂ))
      (operator (labelSpec (position (pdSystem fun _ => 0)) pairLevels) v) := by
  have e : ∀ w, operator (labelSpec (position (pdSystem fun _ => 0)) pairLevels) w = fun F => pairEnergy F * w F :=
    fun w => funext fun F => pairLevels_operator w F
  rw [e, e]
  funext F
  have hR := pair_timeReversal
  by_cases hF : F ⊆ range (nTotal (pdSystem fun _ => 0))
  · rw [reverse_apply hR.partner hR.unit _ hF, reverse_apply hR.partner hR.unit _ hF]
    have hE : pairEnergy (F.image pairPartner) = pairEnergy F := by
      rw [show nTotal (pdSystem fun _ => 0) = 16 from holeSystem_size] at hF
      unfold pairEnergy
      rw [Finset.sum_image]
      · congr 1
        exact sum_congr rfl fun i hi => (pair_partner i (mem_range.1 (hF hi))).2.2.2
      · intro i hi j hj hij
        rw [← (pair_partner i (mem_range.1 (hF hi))).2.1, ← (pair_partner j (mem_range.1 (hF hj))).2.1, hij]
    rw [hE, star_mul', show star (pairEnergy F) = pairEnergy F from Complex.conj_natCast _]
    ring
  · rw [reverse_outside _ hF, reverse_outside _ hF, mul_zero]

/-! ### The run -/

section
variable {L : MainLib} {T : ℝ} (hL : L.gaunt = sympyGaunt) (hS : SolverCorrect L.solver) (hsep : Separates L.solver)
  {energies : List ℝ} {psis : List (Psi ℂ)} {S : SimulateArgs}
  (hrun : MainRun L (pairArgs T) (fun _ => 0) holeParams 0 0 0 pairLevels energies psis S)

include hrun in
theorem pairRun_diagonal : DiagonalOp 16 S.hOp 1e-12 pairEnergy :=
  pair_diagonal fun v F => by
    rw [hrun.hamiltonian v F]
    exact pair_pdHamiltonian L.gaunt T v F

include hL hS hsep hrun in
theorem pairRun_states :
    ∃ e2 psi0 psi1 psi2, energies = [40, 40, e2] ∧ psis = [psi0, psi1, psi2] ∧ 44 ≤ e2 ∧ PairGround psi0 ∧ PairGround psi1 := by
  obtain ⟨states, hnd, hmem, heig⟩ := hrun.solved
  have hop := hrun.inside
  rw [show nTotal (pdSystem fun _ => 0) = 16 from holeSystem_size] at hmem heig hop
  refine pairEigen hS hsep hop hrun.dict.1 hrun.dict.2 (pairRun_diagonal hrun) hnd (fun F => ?_) heig
  rw [hmem]
  constructor
  · rintro ⟨h1, h2⟩
    exact (hole_configurations hL h1).1 h2
  · intro h
    exact ⟨holeStates_sub F h, (hole_configurations hL (holeStates_sub F h)).2 h⟩

theorem pairGround_norm {psi : Psi ℂ} (h : PairGround psi) : ∑ F ∈ (range 16).powerset, Complex.normSq (ampl 16 psi F) = 1 := by
  obtain ⟨q, -, y, hy, hn⟩ := h
  rw [hy, Finset.sum_eq_single ((range 16).erase q)]
  · rw [show Spec.single ((range 16).erase q) y ((range 16).erase q) = y from if_pos rfl, hn]
  · intro F _ hne
    rw [show Spec.single ((range 16).erase q) y F = 0 from if_neg hne, Complex.normSq_zero]
  · intro hn
    exact absurd (mem_powerset.2 (erase_subset _ _)) hn

variable (hT : 0 < T) (hk : 0 < L.kB) (hcold : 10 * (L.kB * T) ≤ 4)

include hL hS hsep hrun hT hk hcold in
/-- The spectra are averages over the two ground states. -/
theorem pairRun_kept : S.es.length < energies.length ∧ S.psis.length = 2 ∧ S.es.length = 2 ∧ ∀ psi ∈ S.psis, PairGround psi := by
  obtain ⟨e2, psi0, psi1, psi2, rfl, rfl, h2, g0, g1⟩ := pairRun_states hL hS hsep hrun
  have hpos : 0 < 10 * (L.kB * T) := by positivity
  obtain ⟨k1, k2⟩ := hrun.kept
  have k3 := k2 40 (by simp) (by simp; linarith)
  have hno : ¬ e2 - 40 < 10 * (L.kB * T) := by linarith
  have k4 : S.es.zip S.psis = [(40, psi0), (40, psi1)] := by
    rw [k3]
    show List.filter (fun p => decide (p.1 - 40 < 10 * (L.kB * T))) [(40, psi0), (40, psi1), (e2, psi2)] = _
    simp [hpos, hno]
  have hes : S.es = [40, 40] := by
    have := congrArg (List.map Prod.fst) k4
    rwa [List.map_fst_zip (by omega)] at this
  have hps : S.psis = [psi0, psi1] := by
    have := congrArg (List.map Prod.snd) k4
    rwa [List.map_snd_zip (by omega)] at this
  rw [hes, hps]
  refine ⟨by simp, by simp, by simp, fun psi hp => ?_⟩
  simp only [List.mem_cons, List.not_mem_nil, or_false] at hp
  rcases hp with rfl | rfl
  · exact g0
  · exact g1

include hL hS hsep hrun hT hk hcold in
/-- No cutoff matters for photoemission. -/
theorem pairRun_ladder (i : ℕ) (c : Bool) : Resolved S (ladder i c) := by
  have hsz : size S = 16 := by unfold size; rw [hrun.system]; exact holeSystem_size
  obtain ⟨-, h2, h3, h4⟩ := pairRun_kept hL hS hsep hrun hT hk hcold
  obtain ⟨c1, c2, c3⟩ := hrun.args.cutoffs
  intro a ha
  have ha' : a < S.psis.length := by omega
  obtain ⟨q, -, y, hy, hn⟩ := h4 _ (List.getElem_mem ha')
  have hnn : (1e-7 : ℝ) ≤ abs2 (((sgn i ((range 16).erase q) : ℤ) : ℂ) * y) := by
    show _ ≤ Complex.normSq _
    rw [Complex.normSq_mul, hn, show Complex.normSq ((sgn i ((range 16).erase q) : ℤ) : ℂ) = 1 from abs2_sgn i _]
    norm_num
  obtain ⟨G, hG, hG'⟩ : ∃ G, (∀ F ⊆ range 16, F ≠ G → ladder i c (Spec.single ((range 16).erase q) y) F = 0) ∧
      (ladder i c (Spec.single ((range 16).erase q) y) G = 0 ∨
        (1e-7 : ℝ) ≤ abs2 (ladder i c (Spec.single ((range 16).erase q) y) G)) := by
    cases c with
    | false =>
      refine ⟨((range 16).erase q).erase i, fun F _ hne => ?_, ?_⟩
      · rw [ladder_single_a]
        split
        · exact if_neg hne
        · rfl
      · rw [ladder_single_a]
        split
        · right
          rw [show Spec.single (((range 16).erase q).erase i) _ (((range 16).erase q).erase i) = _ from if_pos rfl]
          exact hnn
        · exact Or.inl rfl
    | true =>
      refine ⟨insert i ((range 16).erase q), fun F _ hne => ?_, ?_⟩
      · rw [ladder_single_c]
        split
        · rfl
        · exact if_neg hne
      · rw [ladder_single_c]
        split
        · exact Or.inl rfl
        · right
          rw [show Spec.single (insert i ((range 16).erase q)) _ (insert i ((range 16).erase q)) = _ from if_pos rfl]
          exact hnn
  have hpsi : ampl 16 (S.psis.getD a []) = Spec.single ((range 16).erase q) y := by
    rw [List.getD_eq_getElem _ _ ha']; exact hy
  rw [hsz, hpsi]
  constructor
  · intro F hF _
    rw [hsz] at hF
    rw [c2]
    by_cases hFG : F = G
    · rw [hFG]; exact hG'
    · exact Or.inl (hG F hF hFG)
  · unfold excite
    rw [c1, hsz, hpsi]
    refine krylovExhausted_of_support {G} (by simp) fun j F hF => ?_
    unfold hamilton
    rw [hsz, c3]
    refine (pairRun_diagonal hrun).iterate_zero ?_ j
    unfold exciteVec excited
    rw [hsz]
    split
    · next hc => exact hG F hc.1 (by simpa using hF)
    · rfl

end

/-- C78_printed and C79 apply to such runs, which finish.  The printed moments are zero. -/
theorem C79_example (sphHarm : SphHarm) (jn : SphericalJn) : ∃ (L : MainLib) (A : MainArgs) (o : MainOutput),
    L.sphHarm = sphHarm ∧ L.jn = jn ∧ (∀ (N : ℕ), 0 < N → ∀ (ord : Fin N → ℕ → ℕ → ℕ → SetOrders), (∀ k c t i, (ord k c t i).Valid) →
      ∀ (ordRixs : Fin N → List ℕ → SetOrders), (∀ k l, (ordRixs k l).Valid) →
      AllRanksFinish msgSum (fun k : Fin N => mainRank L A (ord k) (ordRixs k) k.val N)
        (fun k => if k.val = 0 then some o else none)) ∧
    o.energies.length = 3 ∧ o.energies[0]? = o.energies[1]? ∧ o.thermal.lz = 0 ∧ o.thermal.sz = 0 ∧
      (∀ j < 10, ∀ k < 3000, o.spectra.ps.thermal j k = o.spectra.ps.thermal (9 - j) k) ∧
      ∀ j < 6, ∀ k < 3000, o.spectra.xps.thermal j k = o.spectra.xps.thermal (5 - j) k := by
  obtain ⟨solver, hS, htot, hsep⟩ := exists_separating
  set L := holeLib solver sphHarm jn (1 / 1000) with hL
  obtain ⟨o, ho⟩ := pair_finishes hS htot hsep sphHarm jn (kB := 1 / 1000) (T := 300) (by norm_num) (by norm_num) (by norm_num)
  refine ⟨L, pairArgs 300, o, rfl, rfl, ho, ?_⟩
  have hfin := (ho 3 (by decide) (fun _ _ _ _ => holeOrders) (fun _ _ _ _ => holeOrders_valid) (fun _ _ => holeOrders)
    (fun _ _ => holeOrders_valid)).canFinish
  have hodd : ∀ i < nTotal (pdSystem fun _ => 0), ((pairPhase (pairPartner i) : ℤ) : ℂ) = -((pairPhase i : ℤ) : ℂ) := by
    rw [show nTotal (pdSystem fun _ => 0) = 16 from holeSystem_size]
    intro i hi
    rw [(pair_partner i hi).2.2.1, Int.cast_neg]
  have h79 := C79_main (L := L) (pairArgs_valid 300) sympyGaunt_large (N := 3) (by decide) (fun _ _ _ _ => holeOrders_valid)
    (fun _ _ => holeOrders_valid) hfin rfl hS (pairArgs_documented 300) sympyGaunt_symmetric (by decide) (by decide)
    pair_timeReversal hodd pair_invariant
  obtain ⟨psis, S, hrun, hpm, h78⟩ := C78_printed (L := L) (pairArgs_valid 300) sympyGaunt_large (N := 3) (by decide)
    (fun _ _ _ _ => holeOrders_valid) (fun _ _ => holeOrders_valid) hfin rfl hS (pairArgs_documented 300) sympyGaunt_symmetric
  obtain ⟨psis', S', hrun', -, h78'⟩ := C78_photoemission (L := L) (pairArgs_valid 300) sympyGaunt_large (N := 3) (by decide)
    (fun _ _ _ _ => holeOrders_valid) (fun _ _ => holeOrders_valid) hfin rfl hS (pairArgs_documented 300) sympyGaunt_symmetric
    sympyGaunt_rules (holeSolve_exact solver sphHarm jn (1 / 1000)) rfl
  obtain ⟨e2, psi0, psi1, psi2, he, rfl, h2, g0, g1⟩ := pairRun_states rfl hS hsep hrun
  have hground := hpm.ground
  have hlen : o.energies.length = 3 := by rw [he]; rfl
  have h79 := h79 0 (by omega)
  rw [he] at h78 hground
  have hk : L.kB = 1 / 1000 := rfl
  have he0 : o.expValues.1 = 40 := by
    simp only [List.mem_cons, List.not_mem_nil, or_false, forall_eq_or_imp, forall_eq] at hground
    rcases hground.1 with h | h | h
    · exact h
    · exact h
    · linarith [hground.2.1]
  have hm := h78 _ _ pair_timeReversal pair_invariant ⟨e2, by simp, by rw [he0, hk]; linarith⟩ (by
    rw [show nTotal (pdSystem fun _ => 0) = 16 from holeSystem_size, he0, hk]
    intro i hi h
    have hi : i < 3 := hi
    interval_cases i
    · exact pairGround_norm g0
    · exact pairGround_norm g1
    · have h : e2 - 40 < _ := h
      linarith)
  obtain ⟨k1, k2, k3, k4⟩ := pairRun_kept rfl hS hsep hrun' (by norm_num) (by rw [hk]; norm_num) (by rw [hk]; norm_num)
  have hsz : size S' = 16 := by unfold size; rw [hrun'.system]; exact holeSystem_size
  have hres := pairRun_ladder rfl hS hsep hrun' (by norm_num) (by rw [hk]; norm_num) (by rw [hk]; norm_num)
  obtain ⟨hp, hx⟩ := h78' _ _ pair_timeReversal pair_invariant k1 (by rw [hsz]; exact fun psi h => pairGround_norm (k4 psi h))
  refine ⟨hlen, by rw [List.getElem?_eq_getElem (by omega), List.getElem?_eq_getElem (by omega)]; exact congrArg some h79, hm.1, hm.2.1, fun j hj k hk => hp j hj k hk fun j' _ => ⟨hres _ true, hres _ false⟩,
    fun j hj k hk => hx j hj k hk fun j' _ => hres _ false⟩

end

end Verif
