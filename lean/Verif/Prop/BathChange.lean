/-
C89: the energies and the averaged spectra do not depend on the choice of the bath states.
-/
import Verif.Lemmas.BathShell
import Verif.Prop.Levels

namespace Verif

open Finset Mpi Psr Spec

noncomputable section

/-- C89.  A one-electron operator for another choice of the states: its matrix is `u t u†`. -/
theorem C89_matrix {n : ℕ} {u : ℕ → ℕ → ℂ} (hu : UnitaryOn n u) (t : ℕ → ℕ → ℂ) (v : Vec ℂ) :
    hopping n (transformed n u t) (changeOrbitals n u v) = changeOrbitals n u (hopping n t v) := by
  have h1 : hopping n t v = fun F => ∑ x ∈ range n ×ˢ range n, t x.1 x.2 * create x.1 (annihilate x.2 v) F := by
    funext F
    unfold hopping
    rw [sum_product]
  rw [h1, linear_apply_sum (changeOrbitals_linear n u)]
  funext F
  have h2 : ∀ x ∈ range n ×ˢ range n, t x.1 x.2 * changeOrbitals n u (create x.1 (annihilate x.2 v)) F
      = ∑ i ∈ range n, ∑ j ∈ range n, u i x.1 * t x.1 x.2 * star (u j x.2)
        * create i (annihilate j (changeOrbitals n u v)) F := by
    intro x hx
    obtain ⟨hk, hl⟩ := mem_product.1 hx
    rw [changeOrbitals_create (mem_range.1 hk), changeOrbitals_annihilate hu (mem_range.1 hl)]
    unfold createOrb annihilateOrb
    rw [mul_sum]
    refine sum_congr rfl fun i _ => ?_
    rw [linear_apply_sum (create_linear i), mul_sum, mul_sum]
    exact sum_congr rfl fun j _ => by ring
  rw [sum_congr rfl h2, sum_comm]
  unfold hopping transformed
  refine sum_congr rfl fun i _ => ?_
  rw [sum_comm]
  refine sum_congr rfl fun j _ => ?_
  rw [sum_mul, sum_product]
  refine sum_congr rfl fun k _ => ?_
  rw [sum_mul]

theorem operator_hopping {sys : NBaths} {h : Op Label ℂ} (hh : OneElectron sys h) (v : Vec ℂ) :
    operator (labelSpec (position sys) h) v = hopping (nTotal sys) (oneMatrix sys h) v := by
  funext F
  induction h with
  | nil => simp [operator, labelSpec, hopping, oneMatrix]
  | cons q h ih =>
    obtain ⟨x, y, hq, hx, hy⟩ := hh q List.mem_cons_self
    have e1 : operator (labelSpec (position sys) (q :: h)) v F
        = q.2 * create (position sys x) (annihilate (position sys y) v) F + operator (labelSpec (position sys) h) v F := by
      unfold operator labelSpec
      rw [List.map_cons, List.map_cons, List.sum_cons, hq]
      simp [product, ladder]
    have e2 : ∀ i j, oneMatrix sys (q :: h) i j = (if position sys x = i ∧ position sys y = j then q.2 else 0) + oneMatrix sys h i j := by
      intro i j
      unfold oneMatrix
      rw [List.map_cons, List.sum_cons, hq]
      simp
    rw [e1, ih fun q' hq' => hh q' (List.mem_cons_of_mem _ hq')]
    unfold hopping
    simp only [e2, add_mul, sum_add_distrib]
    congr 1
    rw [sum_eq_single_of_mem (position sys x) (mem_range.2 hx), sum_eq_single_of_mem (position sys y) (mem_range.2 hy),
      if_pos ⟨rfl, rfl⟩]
    · intro j _ hj
      rw [if_neg fun h => hj h.2.symm, zero_mul]
    · intro i _ hi
      exact sum_eq_zero fun j _ => by rw [if_neg fun h => hi h.1.symm, zero_mul]

/-- C89.  Two files with one-electron operators of which the second one has the matrix `u t u†`. -/
theorem C89_carried {b : ℕ → ℕ} {u : ℕ → ℕ → ℂ} (hu : UnitaryOn (nTotal (pdSystem b)) u) {h0 h0' : Op Label ℂ}
    (h1 : OneElectron (pdSystem b) h0) (h2 : OneElectron (pdSystem b) h0')
    (h : ∀ i < nTotal (pdSystem b), ∀ j < nTotal (pdSystem b),
      oneMatrix (pdSystem b) h0' i j = transformed (nTotal (pdSystem b)) u (oneMatrix (pdSystem b) h0) i j) (v : Vec ℂ) :
    operator (labelSpec (position (pdSystem b)) h0') (changeOrbitals (nTotal (pdSystem b)) u v)
      = changeOrbitals (nTotal (pdSystem b)) u (operator (labelSpec (position (pdSystem b)) h0) v) := by
  rw [operator_hopping h1, operator_hopping h2, ← C89_matrix hu]
  funext F
  unfold hopping
  exact sum_congr rfl fun i hi => sum_congr rfl fun j hj => by rw [h i (mem_range.1 hi) j (mem_range.1 hj)]

section
variable {b : ℕ → ℕ} {P : BasisParams} {h0 h0' : Op Label ℂ} {u : ℕ → ℕ → ℂ} (hB : BathChange b P u h0 h0')
  {L L' : MainLib} {A A' : MainArgs} {hx hy hz : ℝ} {energies energies' : List ℝ} {psis psis' : List (Psi ℂ)}
  {S S' : SimulateArgs} (hrun : MainRun L A b P hx hy hz h0 energies psis S)
  (hrun' : MainRun L' A' b P hx hy hz h0' energies' psis' S')
  (hAA : A' = { A with h0 := A'.h0 })

include hB hrun hrun' hAA in
theorem spectra_rebased {s s' : Simulated}
    (hgaunt : L'.gaunt = L.gaunt) (hsph : L'.sphHarm = L.sphHarm) (hjn : L'.jn = L.jn) (hkB : L'.kB = L.kB)
    (hs : PDExact b S s) (hs' : PDExact b S' s') (hM : Rebased S S' u)
    (hR : AllKept b S) (hR' : AllKept b S') : SameThermal s s' := by
  have a := hrun.args
  have a' := hrun'.args
  rw [hAA] at a'
  have hes := hM.es
  have hsz : size S = nTotal (pdSystem b) := by unfold size; rw [hrun.system]; rfl
  have hmem : ∀ l j, j < 2 * (2 * l + 1) → impStart (pdSystem b) l + j ∈ impOrbs (pdSystem b) l := by
    intro l j hj
    unfold impOrbs
    rw [Finset.mem_Ico]
    omega
  have m1 : 1 ∈ [1, 2] := by simp
  have m2 : 2 ∈ [1, 2] := by simp
  have hw := mesh_eq a.w a'.w
  have hwl := mesh_eq a.wLoss a'.wLoss
  have hwi := mesh_eq a.wIn a'.wIn
  have lw : S.w.length = 3000 := a.w.1
  have ll : S.wLoss.length = 4000 := a.wLoss.1
  have li : S.wIn.length = 50 := a.wIn.1
  have hδ : S'.delta = S.delta := by rw [a.delta, a'.delta]
  have hδn : S'.deltaNIXS = S.deltaNIXS := by rw [a.deltaNIXS, a'.deltaNIXS]
  have hδr : S'.deltaRIXS = S.deltaRIXS := by rw [a.deltaRIXS, a'.deltaRIXS]
  have hT : S'.T = S.T := by rw [a.T, a'.T]
  have hk : S'.kB = S.kB := by rw [a.library.2.2.2.2.2, a'.library.2.2.2.2.2, hkB]
  have hgS : S'.gaunt = S.gaunt := by rw [a.library.1, a'.library.1, hgaunt]
  have hpw : ∀ q, planeWaveDD S' b q = planeWaveDD S b q := by
    intro q
    unfold planeWaveDD
    rw [hgS, a.library.2.1, a'.library.2.1, hsph, a.library.2.2.1, a'.library.2.2.1, hjn, a.radial.1, a'.radial.1, a.radial.2.1,
      a'.radial.2.1, a.radial.2.2, a'.radial.2.2]
  have hε := a.epsilons
  have hε' := a'.epsilons
  have hεr := a.epsilonsRIXS.1
  have hεr' := a'.epsilonsRIXS.1
  obtain ⟨t1, t2, t3, t4⟩ := hs.tables
  obtain ⟨t1', t2', t3', t4'⟩ := hs'.tables
  rw [hk, hT, hes] at t1' t2' t3' t4'
  have hth : ∀ a c d k, IsThermal S.kB S.T S.es (fun i => s'.rixs.data i a c d k) (s'.rixs.thermal a c d k) := by
    intro a c d k
    have := hs'.rixsThermal a c d k
    rwa [hk, hT, hes] at this
  have hlen : S'.es.length = S.es.length := by rw [hes]
  have lw' : S'.w.length = 3000 := a'.w.1
  have ll' : S'.wLoss.length = 4000 := a'.wLoss.1
  have li' : S'.wIn.length = 50 := a'.wIn.1
  constructor
  · intro j hj k hk'
    have hk1 : k < S.w.length := by rw [lw]; exact hk'
    have hk2 : k < S'.w.length := by rw [lw']; exact hk'
    obtain ⟨f, hf⟩ := choose_lt fun i hi => hs.photoemission i j k hi hj hk1 _ rfl
    obtain ⟨g, hg⟩ := choose_lt hf
    obtain ⟨f', hf'⟩ := choose_lt fun i hi => hs'.photoemission i j k hi hj hk2 _ rfl
    obtain ⟨g', hg'⟩ := choose_lt hf'
    rw [hδ, List.getElem_of_eq hw hk2] at hg'
    refine thermal_same (t1.thermal j k) (t1'.thermal j k) (fun i hi => (hg i hi).2.2)
      (fun i hi => (hg' i (hlen ▸ hi)).2.2) ?_
    have e1 := hM.response (create_linear _) (hsz ▸ unchanged_create hB m2 (hmem 2 j hj)) (fun i hi => hR.add j hj i hi) (fun i hi => hR'.add j hj i hi)
      (fun e => (Real.exp (-e / (S.kB * S.T)) : ℂ)) _ (fun i hi => (hg i hi).1) fun i hi => (hg' i hi).1
    have e2 := hM.response (annihilate_linear _) (hsz ▸ unchanged_annihilate hB m2 (hmem 2 j hj)) (fun i hi => hR.remove j hj i hi)
      (fun i hi => hR'.remove j hj i hi)
      (fun e => (Real.exp (-e / (S.kB * S.T)) : ℂ)) _ (fun i hi => (hg i hi).2.1) fun i hi => (hg' i hi).2.1
    simp only [mul_sub, Finset.sum_sub_distrib]
    rw [e1, e2]
  · intro j hj k hk'
    have hk1 : k < S.w.length := by rw [lw]; exact hk'
    have hk2 : k < S'.w.length := by rw [lw']; exact hk'
    obtain ⟨g, hg⟩ := choose_lt fun i hi => hs.xps i j k hi hj hk1 _ rfl
    obtain ⟨g', hg'⟩ := choose_lt fun i hi => hs'.xps i j k hi hj hk2 _ rfl
    rw [hδ, List.getElem_of_eq hw hk2] at hg'
    refine thermal_same (g := fun i => -g i) (g' := fun i => -g' i) (t2.thermal j k) (t2'.thermal j k)
      (fun i hi => by rw [(hg i hi).2, Complex.neg_im, neg_neg])
      (fun i hi => by rw [(hg' i (hlen ▸ hi)).2, Complex.neg_im, neg_neg]) ?_
    have e2 := hM.response (annihilate_linear _) (hsz ▸ unchanged_annihilate hB m1 (hmem 1 j hj)) (fun i hi => hR.core j hj i hi)
      (fun i hi => hR'.core j hj i hi)
      (fun e => (Real.exp (-e / (S.kB * S.T)) : ℂ)) _ (fun i hi => (hg i hi).1) fun i hi => (hg' i hi).1
    simp only [mul_neg, Finset.sum_neg_distrib]
    rw [e2]
  · intro t ht k hk'
    have hk1 : k < S.w.length := by rw [lw]; exact hk'
    have hk2 : k < S'.w.length := by rw [lw']; exact hk'
    have ht1 : t < S.epsilons.length := by rw [hε]; exact ht
    have ht2 : t < S'.epsilons.length := by rw [hε']; exact ht
    have hr := hR.absorb _ (List.getElem_mem ht1)
    have hr' := hR'.absorb _ (List.getElem_mem ht2)
    obtain ⟨g, hg⟩ := choose_lt fun i hi => hs.xas i t k hi ht1 hk1
    obtain ⟨g', hg'⟩ := choose_lt fun i hi => hs'.xas i t k hi ht2 hk2
    rw [hδ, List.getElem_of_eq hw hk2, hgS, List.getElem_of_eq (hε'.trans hε.symm) ht2] at hg'
    rw [hgS, List.getElem_of_eq (hε'.trans hε.symm) ht2] at hr'
    exact thermal_same (t4.thermal t k) (t4'.thermal t k) (fun i hi => (hg i hi).2) (fun i hi => (hg' i (hlen ▸ hi)).2)
      (hM.response (between_linear _ _ _ _) (hsz ▸ unchanged_between hB m2 m1 _) hr hr'
        (fun e => (Real.exp (-e / (S.kB * S.T)) : ℂ)) _ (fun i hi => (hg i hi).1) fun i hi => (hg' i hi).1)
  · intro t ht k hk'
    have hk1 : k < S.wLoss.length := by rw [ll]; exact hk'
    have hk2 : k < S'.wLoss.length := by rw [ll']; exact hk'
    have hq : ((if t = 0 then 2 else 7 : ℝ)) = 2 ∨ ((if t = 0 then 2 else 7 : ℝ)) = 7 := by
      split
      · exact .inl rfl
      · exact .inr rfl
    obtain ⟨hr, -⟩ := hR.scatter _ hq
    obtain ⟨hr', -⟩ := hR'.scatter _ hq
    obtain ⟨g, hg⟩ := choose_lt fun i hi => hs.nixs i t k hi ht hk1 _ rfl
    obtain ⟨g', hg'⟩ := choose_lt fun i hi => hs'.nixs i t k hi ht hk2 _ rfl
    rw [hδn, List.getElem_of_eq hwl hk2, hpw] at hg'
    rw [hpw] at hr'
    exact thermal_same (t3.thermal t k) (t3'.thermal t k) (fun i hi => (hg i hi).2) (fun i hi => (hg' i (hlen ▸ hi)).2)
      (hM.response (planeWaveDD_linear _ _ _) (hsz ▸ unchanged_planeWave hB S _) hr hr'
        (fun e => (Real.exp (-e / (S.kB * S.T)) : ℂ)) _ (fun i hi => (hg i hi).1) fun i hi => (hg' i hi).1)
  · intro t hu c hc d hd k hk'
    have hk1 : k < S.wLoss.length := by rw [ll]; exact hk'
    have hk2 : k < S'.wLoss.length := by rw [ll']; exact hk'
    have hd1 : d < S.wIn.length := by rw [li]; exact hd
    have hd2 : d < S'.wIn.length := by rw [li']; exact hd
    have hu1 : t < S.epsilonsRIXSin.length := by rw [hεr]; exact hu
    have hu2 : t < S'.epsilonsRIXSin.length := by rw [hεr']; exact hu
    have hr := hR.resonant _ (List.getElem_mem hu1) _ (List.getElem_mem hd1)
    have hr' := hR'.resonant _ (List.getElem_mem hu2) _ (List.getElem_mem hd2)
    obtain ⟨g, hg⟩ := choose_lt fun i hi => hs.rixs i t c d k hi hu1 hc hd1 hk1
    obtain ⟨g', hg'⟩ := choose_lt fun i hi => hs'.rixs i t c d k hi hu2 hc hd2 hk2
    unfold KeptRixs at hr hr'
    rw [hδ, hδr, List.getElem_of_eq hwl hk2, List.getElem_of_eq hwi hd2, hgS,
      List.getElem_of_eq (hεr'.trans hεr.symm) hu2] at hg'
    rw [hδ, List.getElem_of_eq hwi hd2, hgS, List.getElem_of_eq (hεr'.trans hεr.symm) hu2] at hr'
    exact thermal_same (hs.rixsThermal t c d k) (hth t c d k) (fun i hi => (hg i hi).2) (fun i hi => (hg' i (hlen ▸ hi)).2)
      (hM.rixs (between_linear _ _ _ _) (between_linear _ _ _ _) (hsz ▸ unchanged_between hB m2 m1 _)
        (hsz ▸ unchanged_between hB m1 m2 _)
        (fun e => (Real.exp (-e / (S.kB * S.T)) : ℂ)) _ _
        (fun i hi => ⟨(hr i hi).1, fun x hx => ((hr i hi).2 x hx).1⟩)
        (fun i hi => ⟨(hr' i hi).1, fun x hx => ((hr' i hi).2 x hx).1⟩) (fun i hi => (hg i hi).1) fun i hi => (hg' i hi).1)

include hB hrun hrun' hAA in
/-- The Hamiltonians of the two runs. -/
theorem bath_hamiltonian (hgaunt : L'.gaunt = L.gaunt) (hc : Renumbers (size S) u ∨ (ElementsKept S ∧ ElementsKept S')) (v : Vec ℂ) :
    hamiltonian (nTotal (pdSystem b)) S'.hOp 1e-12 none (changeOrbitals (nTotal (pdSystem b)) u v)
      = changeOrbitals (nTotal (pdSystem b)) u (hamiltonian (nTotal (pdSystem b)) S.hOp 1e-12 none v) := by
  have hsz : size S = nTotal (pdSystem b) := by unfold size; rw [hrun.system]; rfl
  have hsz' : size S' = nTotal (pdSystem b) := by unfold size; rw [hrun'.system]; rfl
  refine hamiltonian_change hB.unitary (fun v F hF => ?_) ?_ v
  · have e : operator (opSpec S.hOp) v = pdHamiltonian L.gaunt (position (pdSystem b)) A (P.n0 2) hx hy hz h0 v :=
      funext fun F => hrun.hamiltonian v F
    rw [hrun'.hamiltonian, e, hgaunt, hAA]
    exact pdHamiltonian_change hB L.gaunt A (P.n0 2) hx hy hz v hF
  · refine hc.imp (fun h => hsz ▸ h) fun h => ?_
    have h1 := h.1
    have h2 := h.2
    unfold ElementsKept at h1 h2
    rw [hsz, hrun.args.cutoffs.2.2] at h1
    rw [hsz', hrun'.args.cutoffs.2.2] at h2
    exact ⟨h1, h2⟩

include hB hrun hrun' in
theorem bath_same (hD : ∀ v, hamiltonian (nTotal (pdSystem b)) S'.hOp 1e-12 none (changeOrbitals (nTotal (pdSystem b)) u v)
      = changeOrbitals (nTotal (pdSystem b)) u (hamiltonian (nTotal (pdSystem b)) S.hOp 1e-12 none v)) :
    SameOperator (size S) u (hamilton S) (hamilton S') := by
  have hsz : size S = nTotal (pdSystem b) := by unfold size; rw [hrun.system]; rfl
  have hsz' : size S' = nTotal (pdSystem b) := by unfold size; rw [hrun'.system]; rfl
  unfold hamilton
  rw [hsz, hsz', hrun.args.cutoffs.2.2, hrun'.args.cutoffs.2.2]
  refine ⟨hamiltonian_linear _ _ _ _, fun v => ?_, hamiltonian_inside _ _ _, hamiltonian_outside _ _ _⟩
  rw [hamiltonian_part, hD, hamiltonian_part S.hOp 1e-12 S.restrictions,
    changeOrbitals_part (Q := AllowedOpt S.restrictions) fun T hT F _ h => slater_allowed hB hrun hT h]
  funext F
  unfold onlyIn
  simp only [levels_allowed hrun hrun' F]

end

section
variable {L L' : MainLib} {A A' : MainArgs} (hA : A.Valid) (hG : GauntLarge L.gaunt A.ls) {N N' : ℕ}
  (hN : 0 < N) (hN' : 0 < N')
  {ord : Fin N → ℕ → ℕ → ℕ → SetOrders} (hord : ∀ k c t i, (ord k c t i).Valid)
  {ordRixs : Fin N → List ℕ → SetOrders} (hordR : ∀ k l, (ordRixs k l).Valid) {out : Fin N → Option MainOutput}
  (hfin : CanFinish msgSum (fun k : Fin N => mainRank L A (ord k) (ordRixs k) k.val N) out)
  {o o' : MainOutput} (ho : out ⟨0, hN⟩ = some o)
  {ord' : Fin N' → ℕ → ℕ → ℕ → SetOrders} (hord' : ∀ k c t i, (ord' k c t i).Valid)
  {ordRixs' : Fin N' → List ℕ → SetOrders} (hordR' : ∀ k l, (ordRixs' k l).Valid) {out' : Fin N' → Option MainOutput}
  (hfin' : CanFinish msgSum (fun k : Fin N' => mainRank L' A' (ord' k) (ordRixs' k) k.val N') out')
  (ho' : out' ⟨0, hN'⟩ = some o')
  (hL : SolverCorrect L.solver) (hL' : SolverCorrect L'.solver) (hAA : A' = { A with h0 := A'.h0 })
  {b : ℕ → ℕ} {P : BasisParams} {hx hy hz : ℝ} {h0 h0' : Op Label ℂ} (hD : Documented A b P hx hy hz h0)
  (hD' : Documented A' b P hx hy hz h0')

include hA hG hord hordR hfin ho hord' hordR' hfin' ho' hL hL' hAA hD hD' in
/-- C89.  Two finished runs of main whose non-interacting operators differ by another choice of the bath states, with other
solvers, numbers of ranks and orders of sets.  If the states are only numbered in another order, or no matrix element
is dropped, the energies are the same.  If moreover the energies used for the spectra do not reach the end of the list, the
stored states are normalised, and the cutoffs drop nothing, all averaged spectra are the same: exactly if the number of Lanczos
vectors is sufficient, and else up to the error of 150 Lanczos vectors. -/
theorem C89_main (hgaunt : L'.gaunt = L.gaunt) (hsph : L'.sphHarm = L.sphHarm) (hjn : L'.jn = L.jn) (hkB : L'.kB = L.kB)
    (hR : GauntRules L.gaunt) (hsolve : ExactSolver L.solve) (hsolve' : ExactSolver L'.solve) (hf : L.f32 50 = 50)
    (hf' : L'.f32 50 = 50) :
    ∃ psis S psis' S', MainRun L A b P hx hy hz h0 o.energies psis S ∧
      MainRun L' A' b P hx hy hz h0' o'.energies psis' S' ∧ PDSpectra b S o.spectra ∧ PDSpectra b S' o'.spectra ∧
      ∀ u, BathChange b P u h0 h0' → Renumbers (size S) u ∨ (ElementsKept S ∧ ElementsKept S') →
        o'.energies = o.energies ∧ S'.es = S.es ∧
        (S.es.length < o.energies.length →
          (∀ psi ∈ S.psis ++ S'.psis, ∑ F ∈ (range (size S)).powerset, Complex.normSq (ampl (size S) psi F) = 1) →
          (AllResolved b S → AllResolved b S' → SameThermal o.spectra o'.spectra) ∧
          (AllKept b S → AllKept b S' → Almost SameThermal b S S' o.spectra o'.spectra)) := by
  classical
  have hA' : A'.Valid := by rw [hAA]; exact ⟨hA.delta, hA.deltaNIXS, hA.deltaRIXS⟩
  have hG' : GauntLarge L'.gaunt A'.ls := by rw [hgaunt, hAA]; exact hG
  obtain ⟨psis, S, hrun, hS, hsp, hn⟩ := main_both hA hG hN hord hordR hfin ho hL hD hR hsolve hf
  obtain ⟨psis', S', hrun', hS', hsp', hn'⟩ :=
    main_both hA' hG' hN' hord' hordR' hfin' ho' hL' hD' (by rw [hgaunt]; exact hR) hsolve' hf'
  refine ⟨psis, S, psis', S', hrun, hrun', hsp, hsp', fun u hB hc => ?_⟩
  have hsz : size S = nTotal (pdSystem b) := by unfold size; rw [hrun.system]; rfl
  have hsz' : nSpinOrbitals S.nBaths = nTotal (pdSystem b) := by
    rw [nSpinOrbitals_eq, hrun.system]; rfl
  set states : Finset (Finset ℕ) := {F ∈ (range (nTotal (pdSystem b))).powerset |
    IsConfiguration [(1, b 1), (2, b 2)] (pdSystem b) P F} with hstates
  have hst : ∀ F ∈ states, F ⊆ range (nTotal (pdSystem b)) ∧ IsConfiguration [(1, b 1), (2, b 2)] (pdSystem b) P F :=
    fun F hF => ⟨Finset.mem_powerset.1 (Finset.mem_filter.1 hF).1, (Finset.mem_filter.1 hF).2⟩
  have hlow : LowestStates (nTotal (pdSystem b)) S.hOp 1e-12 1e-7 states o.energies psis := by convert hrun.lowest
  have hlow' : LowestStates (nTotal (pdSystem b)) S'.hOp 1e-12 1e-7 states o'.energies psis' := by convert hrun'.lowest
  have hHam := bath_hamiltonian hB hrun hrun' hAA hgaunt hc
  have hsu : ∀ T ⊆ range (nTotal (pdSystem b)), ∀ F ⊆ range (nTotal (pdSystem b)), slater (nTotal (pdSystem b)) u T F ≠ 0 →
      (F ∈ states ↔ T ∈ states) := by
    intro T hT F hF h
    rw [hstates, mem_filter, mem_filter, slater_configuration hB hT h]
    exact and_congr_left fun _ => iff_of_true (mem_powerset.2 hF) (mem_powerset.2 hT)
  have hherm := storedElement_hermitian hrun.dict.1 hS.hop hrun.dict.2 (1e-12 : ℝ) (s := states)
    fun F hF => by rw [hsz']; exact (hst F hF).1
  have hlen : o'.energies.length = o.energies.length := by
    rw [hrun'.count, hrun.count, hAA]
  have hE : o'.energies = o.energies := by
    obtain ⟨x, h1⟩ := lowestIn_of hlow
    obtain ⟨x', h2⟩ := lowestIn_of hlow'
    have h2 := change_lowest hB.unitary hHam (fun F hF => (hst F hF).1) hsu h2
    refine List.ext_getElem hlen fun i hi hi' => ?_
    exact le_antisymm (h1.antitone h2 (fun _ h => h) hherm i hi' hi) (h2.antitone h1 (fun _ h => h) hherm i hi hi')
  have hkept : S'.es = S.es ∧ S'.psis = psis'.take S.es.length := by
    have hsort := hrun.lowest.1
    obtain ⟨e0, rest, hE0⟩ := List.exists_cons_of_ne_nil hrun.nonempty.1
    have hmem : e0 ∈ o.energies := by rw [hE0]; exact List.mem_cons_self
    have hmin : ∀ e ∈ o.energies, e0 ≤ e := by
      rw [hE0] at hsort ⊢
      intro e he
      rcases List.mem_cons.1 he with rfl | he
      · exact le_rfl
      · exact (List.pairwise_cons.1 hsort).1 e he
    have h1 := hrun.kept.2 e0 hmem hmin
    have h2 := hrun'.kept.2 e0 (by rw [hE]; exact hmem) (by rw [hE]; exact hmin)
    have e1 := kept_filter hrun.lowest.2.1 hrun.kept.1 h1
    have e2 := kept_filter hrun'.lowest.2.1 hrun'.kept.1 h2
    have e3 : S'.es = S.es := by rw [e2, e1, hE, hkB, hAA]
    obtain ⟨-, k2, -⟩ := kept_take hrun'.lowest.1 hrun'.lowest.2.1 hrun'.kept.1 h2
    refine ⟨e3, ?_⟩
    rw [e3] at k2
    exact k2
  refine ⟨hE, hkept.1, fun hlt hnorm => ?_⟩
  obtain ⟨k1, k2, k3⟩ := mainRun_kept hrun
  have hmix : ∃ U : ℕ → ℕ → ℂ,
      (∀ j < S.es.length, ∀ k < S.es.length, ∑ i ∈ range S.es.length, star (U i j) * U i k = if j = k then 1 else 0) ∧
      (∀ i < S.es.length, ∀ j < S.es.length, S.es.getD i 0 ≠ S.es.getD j 0 → U i j = 0) ∧
      ∀ i < S.es.length, ampl (size S) (S'.psis.getD i [])
        = changeOrbitals (size S) u (mix S.es.length U (fun j => ampl (size S) (S.psis.getD j [])) i) := by
    rw [hsz] at hnorm ⊢
    rw [hE] at hlow'
    exact lowest_rebased (weight := 1e-7) hB.unitary (fun F hF => (hst F hF).1) hHam hsu hherm hlow hlow' k1 k2 hkept.2 hlt (k3 hlt)
      (fun psi h => hnorm psi (List.mem_append_left _ h)) fun psi h => hnorm psi (List.mem_append_right _ h)
  exact related_both hsp hsp' hn hn' hrun.args.cutoffs.1 hrun'.args.cutoffs.1
    (width_strengths hS hrun.dict) (width_strengths hS' hrun'.dict) fun h h' x x' hx' hx'' =>
    spectra_rebased hB hrun hrun' hAA hgaunt hsph hjn hkB hx' hx''
    ⟨levels_size hrun hrun', hsz ▸ hB.unitary, bath_same hB hrun hrun' hHam, levels_allowed hrun hrun',
      fun T hT F _ h => slater_allowed hB hrun (hsz ▸ hT) (hsz ▸ h), hkept.1, hmix⟩ h h'

end

end

end Verif
