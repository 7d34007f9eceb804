/-
The energies and the spectra of two runs of main that differ by a rotation.
-/
import Verif.Lemmas.IsotropyRun

namespace Verif

open Finset Mpi Psr Spec

noncomputable section

theorem thermal_family {kB T : ℝ} {es : List ℝ} {p : ℕ} {d d' : ℕ → ℕ → ℝ} {avg avg' : ℕ → ℝ}
    (h : ∀ c < p, IsThermal kB T es (d c) (avg c)) (h' : ∀ c < p, IsThermal kB T es (d' c) (avg' c)) {g g' : ℕ → ℕ → ℂ}
    (hd : ∀ c < p, ∀ i < es.length, d c i = -(g c i).im) (hd' : ∀ c < p, ∀ i < es.length, d' c i = -(g' c i).im)
    (hs : ∑ c ∈ range p, ∑ i ∈ range es.length, (Real.exp (-es.getD i 0 / (kB * T)) : ℂ) * g' c i
      = ∑ c ∈ range p, ∑ i ∈ range es.length, (Real.exp (-es.getD i 0 / (kB * T)) : ℂ) * g c i) :
    ∑ c ∈ range p, avg' c = ∑ c ∈ range p, avg c := by
  have key : ∀ {d : ℕ → ℕ → ℝ} {avg : ℕ → ℝ}, (∀ c < p, IsThermal kB T es (d c) (avg c)) →
      IsThermal kB T es (fun i => ∑ c ∈ range p, d c i) (∑ c ∈ range p, avg c) := by
    intro d avg h
    unfold IsThermal
    rw [sum_congr rfl fun c hc => h c (mem_range.1 hc), ← Finset.sum_div, sum_comm]
    congr 1
    exact sum_congr rfl fun i _ => by rw [mul_sum]
  refine thermal_same (g := fun i => ∑ c ∈ range p, g c i) (g' := fun i => ∑ c ∈ range p, g' c i) (key h) (key h') ?_ ?_ ?_
  · intro i hi
    rw [Complex.im_sum, ← sum_neg_distrib]
    exact sum_congr rfl fun c hc => hd c (mem_range.1 hc) i hi
  · intro i hi
    rw [Complex.im_sum, ← sum_neg_distrib]
    exact sum_congr rfl fun c hc => hd' c (mem_range.1 hc) i hi
  · simp only [mul_sum]
    rw [sum_comm, hs, sum_comm]

section
variable {b : ℕ → ℕ} {P : BasisParams} {h0 : Op Label ℂ} {u : ℕ → ℕ → ℂ} {D : ℕ → ℤ × ℤ → ℤ × ℤ → ℂ}
  {L L' : MainLib} {A A' : MainArgs} {hx hy hz hx' hy' hz' : ℝ} {energies energies' : List ℝ} {psis psis' : List (Psi ℂ)}
  {S S' : SimulateArgs} (hrun : MainRun L A b P hx hy hz h0 energies psis S)
  (hrun' : MainRun L' A' b P hx' hy' hz' h0 energies' psis' S') (hAA : A' = { A with hField := A'.hField })

include hrun hrun' in
theorem turn_size : size S' = size S := by unfold size; rw [hrun.system, hrun'.system]

include hrun hrun' in
theorem turn_allowed (F : Finset ℕ) : AllowedOpt S'.restrictions F ↔ AllowedOpt S.restrictions F := by
  obtain ⟨r, hr, hall⟩ := hrun.excited
  obtain ⟨r', hr', hall'⟩ := hrun'.excited
  rw [hr, hr']
  exact (hall' F).trans (hall F).symm

include hrun hrun' hAA in
/-- The Hamiltonians of the two runs. -/
theorem turn_hamiltonian (hT : ShellTurn b P u D) (hgaunt : L'.gaunt = L.gaunt) (hC : Carried (nTotal (pdSystem b)) u
      (pdHamiltonian L.gaunt (position (pdSystem b)) A (P.n0 2) hx hy hz h0)
      (pdHamiltonian L.gaunt (position (pdSystem b)) A (P.n0 2) hx' hy' hz' h0))
    (hk : Renumbers (nTotal (pdSystem b)) u ∨ (ElementsKept S ∧ ElementsKept S')) (v : Vec ℂ) :
    hamiltonian (nTotal (pdSystem b)) S'.hOp 1e-12 none (changeOrbitals (nTotal (pdSystem b)) u v)
      = changeOrbitals (nTotal (pdSystem b)) u (hamiltonian (nTotal (pdSystem b)) S.hOp 1e-12 none v) := by
  have hsz : size S = nTotal (pdSystem b) := by unfold size; rw [hrun.system]; rfl
  have hsz' : size S' = nTotal (pdSystem b) := by unfold size; rw [hrun'.system]; rfl
  refine hamiltonian_change hT.unitary (fun v F hF => ?_) (hk.imp_right fun hk => ?_) v
  · have e : operator (opSpec S.hOp) v = pdHamiltonian L.gaunt (position (pdSystem b)) A (P.n0 2) hx hy hz h0 v :=
      funext fun F => hrun.hamiltonian v F
    rw [hrun'.hamiltonian, e, hgaunt, hAA]
    exact congrFun (hC v) F
  · obtain ⟨hk, hk'⟩ := hk
    unfold ElementsKept at hk hk'
    rw [hsz, hrun.args.cutoffs.2.2] at hk
    rw [hsz', hrun'.args.cutoffs.2.2] at hk'
    exact ⟨hk, hk'⟩

include hrun hrun' in
theorem turn_same (hT : ShellTurn b P u D)
    (hD : ∀ v, hamiltonian (nTotal (pdSystem b)) S'.hOp 1e-12 none (changeOrbitals (nTotal (pdSystem b)) u v)
      = changeOrbitals (nTotal (pdSystem b)) u (hamiltonian (nTotal (pdSystem b)) S.hOp 1e-12 none v)) :
    SameOperator (size S) u (hamilton S) (hamilton S') := by
  have hsz : size S = nTotal (pdSystem b) := by unfold size; rw [hrun.system]; rfl
  have hsz' : size S' = nTotal (pdSystem b) := by unfold size; rw [hrun'.system]; rfl
  unfold hamilton
  rw [hsz, hsz', hrun.args.cutoffs.2.2, hrun'.args.cutoffs.2.2]
  refine ⟨hamiltonian_linear _ _ _ _, fun v => ?_, hamiltonian_inside _ _ _, hamiltonian_outside _ _ _⟩
  rw [hamiltonian_part, hD, hamiltonian_part S.hOp 1e-12 S.restrictions,
    changeOrbitals_part (Q := AllowedOpt S.restrictions) fun T hT' F _ h => shellTurn_allowed hT hrun hT' h]
  funext F
  unfold onlyIn
  simp only [turn_allowed hrun hrun' F]

include hrun hrun' hAA in
/-- The energies, and the states that are used for the spectra. -/
theorem turn_rebased (hT : ShellTurn b P u D) (hgaunt : L'.gaunt = L.gaunt) (hkB : L'.kB = L.kB)
    (hS : S.Valid) (hC : Carried (nTotal (pdSystem b)) u
      (pdHamiltonian L.gaunt (position (pdSystem b)) A (P.n0 2) hx hy hz h0)
      (pdHamiltonian L.gaunt (position (pdSystem b)) A (P.n0 2) hx' hy' hz' h0))
    (hk : Renumbers (nTotal (pdSystem b)) u ∨ (ElementsKept S ∧ ElementsKept S')) :
    energies' = energies ∧ S'.es = S.es ∧ (S.es.length < energies.length →
      (∀ psi ∈ S.psis ++ S'.psis, ∑ F ∈ (range (size S)).powerset, Complex.normSq (ampl (size S) psi F) = 1) →
      Rebased S S' u) := by
  classical
  have hsz : size S = nTotal (pdSystem b) := by unfold size; rw [hrun.system]; rfl
  have hsz' : nSpinOrbitals S.nBaths = nTotal (pdSystem b) := by
    rw [nSpinOrbitals_eq, hrun.system]; rfl
  set states : Finset (Finset ℕ) := {F ∈ (range (nTotal (pdSystem b))).powerset |
    IsConfiguration [(1, b 1), (2, b 2)] (pdSystem b) P F} with hstates
  have hst : ∀ F ∈ states, F ⊆ range (nTotal (pdSystem b)) ∧ IsConfiguration [(1, b 1), (2, b 2)] (pdSystem b) P F :=
    fun F hF => ⟨Finset.mem_powerset.1 (Finset.mem_filter.1 hF).1, (Finset.mem_filter.1 hF).2⟩
  have hlow : LowestStates (nTotal (pdSystem b)) S.hOp 1e-12 1e-7 states energies psis := by convert hrun.lowest
  have hlow' : LowestStates (nTotal (pdSystem b)) S'.hOp 1e-12 1e-7 states energies' psis' := by convert hrun'.lowest
  have hHam := turn_hamiltonian hrun hrun' hAA hT hgaunt hC hk
  have hsu : ∀ T ⊆ range (nTotal (pdSystem b)), ∀ F ⊆ range (nTotal (pdSystem b)), slater (nTotal (pdSystem b)) u T F ≠ 0 →
      (F ∈ states ↔ T ∈ states) := by
    intro T hT' F hF h
    rw [hstates, mem_filter, mem_filter, shellTurn_configuration hT hT' h]
    exact and_congr_left fun _ => iff_of_true (mem_powerset.2 hF) (mem_powerset.2 hT')
  have hherm := storedElement_hermitian hrun.dict.1 hS.hop hrun.dict.2 (1e-12 : ℝ) (s := states)
    fun F hF => by rw [hsz']; exact (hst F hF).1
  have hlen : energies'.length = energies.length := by
    rw [hrun'.count, hrun.count, hAA]
  have hE : energies' = energies := by
    obtain ⟨x, h1⟩ := lowestIn_of hlow
    obtain ⟨x', h2⟩ := lowestIn_of hlow'
    have h2 := change_lowest hT.unitary hHam (fun F hF => (hst F hF).1) hsu h2
    refine List.ext_getElem hlen fun i hi hi' => ?_
    exact le_antisymm (h1.antitone h2 (fun _ h => h) hherm i hi' hi) (h2.antitone h1 (fun _ h => h) hherm i hi hi')
  have hkept : S'.es = S.es ∧ S'.psis = psis'.take S.es.length := by
    have hsort := hrun.lowest.1
    obtain ⟨e0, rest, hE0⟩ := List.exists_cons_of_ne_nil hrun.nonempty.1
    have hmem : e0 ∈ energies := by rw [hE0]; exact List.mem_cons_self
    have hmin : ∀ e ∈ energies, e0 ≤ e := by
      rw [hE0] at hsort ⊢
      intro e he
      rcases List.mem_cons.1 he with rfl | he
      · exact le_rfl
      · exact (List.pairwise_cons.1 hsort).1 e he
    have h1 := hrun.kept.2 e0 hmem hmin
    have h2 := hrun'.kept.2 e0 (by rw [hE]; exact hmem) (by rw [hE]; exact hmin)
    have e1 := kept_filter hrun.lowest.2.1 hrun.kept.1 h1
    have e2 := kept_filter hrun'.lowest.2.1 hrun'.kept.1 h2
    have e3 : S'.es = S.es := by rw [e2, e1, hE, hkB, hAA]
    obtain ⟨-, k2, -⟩ := kept_take hrun'.lowest.1 hrun'.lowest.2.1 hrun'.kept.1 h2
    refine ⟨e3, ?_⟩
    rw [e3] at k2
    exact k2
  refine ⟨hE, hkept.1, fun hlt hnorm => ?_⟩
  obtain ⟨k1, k2, k3⟩ := mainRun_kept hrun
  have hmix : ∃ U : ℕ → ℕ → ℂ,
      (∀ j < S.es.length, ∀ k < S.es.length, ∑ i ∈ range S.es.length, star (U i j) * U i k = if j = k then 1 else 0) ∧
      (∀ i < S.es.length, ∀ j < S.es.length, S.es.getD i 0 ≠ S.es.getD j 0 → U i j = 0) ∧
      ∀ i < S.es.length, ampl (size S) (S'.psis.getD i [])
        = changeOrbitals (size S) u (mix S.es.length U (fun j => ampl (size S) (S.psis.getD j [])) i) := by
    rw [hsz] at hnorm ⊢
    rw [hE] at hlow'
    exact lowest_rebased (weight := 1e-7) hT.unitary (fun F hF => (hst F hF).1) hHam hsu hherm hlow hlow' k1 k2 hkept.2 hlt (k3 hlt)
      (fun psi h => hnorm psi (List.mem_append_left _ h)) fun psi h => hnorm psi (List.mem_append_right _ h)
  exact ⟨turn_size hrun hrun', hsz ▸ hT.unitary, turn_same hrun hrun' hT hHam, turn_allowed hrun hrun',
      fun T hT' F _ h => shellTurn_allowed hT hrun (hsz ▸ hT') (hsz ▸ h), hkept.1, hmix⟩

/-- The arguments of the two calls of simulate_spectra that are the same. -/
structure SameCall (b : ℕ → ℕ) (S S' : SimulateArgs) : Prop where
  w : S'.w = S.w
  wLoss : S'.wLoss = S.wLoss
  wIn : S'.wIn = S.wIn
  lw : S.w.length = 3000
  ll : S.wLoss.length = 4000
  li : S.wIn.length = 50
  delta : S'.delta = S.delta
  deltaNIXS : S'.deltaNIXS = S.deltaNIXS
  deltaRIXS : S'.deltaRIXS = S.deltaRIXS
  T : S'.T = S.T
  kB : S'.kB = S.kB
  gaunt : S'.gaunt = S.gaunt
  planeWave : ∀ q, planeWaveDD S' b q = planeWaveDD S b q
  axes : ∀ t (ht : t < S.epsilons.length), S.epsilons[t] = axisPol t
  axes' : ∀ t (ht : t < S'.epsilons.length), S'.epsilons[t] = axisPol t
  le : S.epsilons.length = 3
  le' : S'.epsilons.length = 3
  axesR : ∀ t (ht : t < S.epsilonsRIXSin.length), S.epsilonsRIXSin[t] = axisPol t
  axesR' : ∀ t (ht : t < S'.epsilonsRIXSin.length), S'.epsilonsRIXSin[t] = axisPol t
  leR : S.epsilonsRIXSin.length = 3
  leR' : S'.epsilonsRIXSin.length = 3
  nbaths : size S = nTotal (pdSystem b)

include hrun hrun' hAA in
theorem sameCall (hgaunt : L'.gaunt = L.gaunt) (hsph : L'.sphHarm = L.sphHarm) (hjn : L'.jn = L.jn) (hkB : L'.kB = L.kB) :
    SameCall b S S' := by
  have a := hrun.args
  have a' := hrun'.args
  rw [hAA] at a'
  have hgS : S'.gaunt = S.gaunt := by rw [a.library.1, a'.library.1, hgaunt]
  have hax : ∀ l : List (Vec3 ℂ), l = [⟨1, 0, 0⟩, ⟨0, 1, 0⟩, ⟨0, 0, 1⟩] → ∀ t (ht : t < l.length), l[t] = axisPol t := by
    rintro l rfl t ht
    have : t < 3 := ht
    unfold axisPol
    interval_cases t <;> simp
  exact {
    w := mesh_eq a.w a'.w
    wLoss := mesh_eq a.wLoss a'.wLoss
    wIn := mesh_eq a.wIn a'.wIn
    lw := a.w.1
    ll := a.wLoss.1
    li := a.wIn.1
    delta := by rw [a.delta, a'.delta]
    deltaNIXS := by rw [a.deltaNIXS, a'.deltaNIXS]
    deltaRIXS := by rw [a.deltaRIXS, a'.deltaRIXS]
    T := by rw [a.T, a'.T]
    kB := by rw [a.library.2.2.2.2.2, a'.library.2.2.2.2.2, hkB]
    gaunt := hgS
    planeWave := fun q => by
      unfold planeWaveDD
      rw [hgS, a.library.2.1, a'.library.2.1, hsph, a.library.2.2.1, a'.library.2.2.1, hjn, a.radial.1, a'.radial.1, a.radial.2.1,
        a'.radial.2.1, a.radial.2.2, a'.radial.2.2]
    axes := hax _ a.epsilons
    axes' := hax _ a'.epsilons
    le := by rw [a.epsilons]; rfl
    le' := by rw [a'.epsilons]; rfl
    axesR := hax _ a.epsilonsRIXS.1
    axesR' := hax _ a'.epsilonsRIXS.1
    leR := by rw [a.epsilonsRIXS.1]; rfl
    leR' := by rw [a'.epsilonsRIXS.1]; rfl
    nbaths := by unfold size; rw [hrun.system]; rfl }

end

section
variable {b : ℕ → ℕ} {P : BasisParams} {u : ℕ → ℕ → ℂ} {S S' : SimulateArgs} {s s' : Simulated} (hE : SameCall b S S')
  (hs : PDExact b S s) (hs' : PDExact b S' s') (hM : Rebased S S' u) (hR : AllKept b S) (hR' : AllKept b S')
  {p : ℕ} {Q : ℕ → ℕ → ℂ} {τ τ' : ℕ → ℕ}

include hE hs hs' hM hR hR' in
/-- Absorption with the polarisations `τ c` in the one run and `τ' c` in the other. -/
theorem turn_xas (hτ : ∀ c < p, τ c < 3) (hτ' : ∀ c < p, τ' c < 3) (hF : FamilyCarried (nTotal (pdSystem b)) u p Q
      (fun c => dipolePD S.gaunt b (axisPol (τ c))) fun c => dipolePD S.gaunt b (axisPol (τ' c))) {k : ℕ} (hk : k < 3000) :
    ∑ c ∈ range p, s'.xas.thermal (τ' c) k = ∑ c ∈ range p, s.xas.thermal (τ c) k := by
  obtain ⟨-, -, -, t4⟩ := hs.tables
  obtain ⟨-, -, -, t4'⟩ := hs'.tables
  rw [hE.kB, hE.T, hM.es] at t4'
  rw [← hE.nbaths] at hF
  have hk1 : k < S.w.length := by rw [hE.lw]; exact hk
  have hk2 : k < S'.w.length := by rw [hE.w]; exact hk1
  have hlen : S'.es.length = S.es.length := by rw [hM.es]
  have ht1 : ∀ c < p, τ c < S.epsilons.length := fun c hc => by rw [hE.le]; exact hτ c hc
  have ht2 : ∀ c < p, τ' c < S'.epsilons.length := fun c hc => by rw [hE.le']; exact hτ' c hc
  have hr : ∀ c (hc : c < p), Kept S (dipolePD S.gaunt b (axisPol (τ c))) := fun c hc => by
    rw [← hE.axes _ (ht1 c hc)]
    exact hR.absorb _ (List.getElem_mem _)
  have hr' : ∀ c (hc : c < p), Kept S' (dipolePD S.gaunt b (axisPol (τ' c))) := fun c hc => by
    rw [← hE.axes' _ (ht2 c hc), ← hE.gaunt]
    exact hR'.absorb _ (List.getElem_mem _)
  have x1 : ∀ c < p, ∀ i < S.es.length, ∃ g, IsResponse S (dipolePD S.gaunt b (axisPol (τ c))) i
      ((S.w[k] : ℂ) + Complex.I * S.delta) g ∧ s.xas.data i (τ c) k = -g.im := by
    intro c hc i hi
    have := hs.xas i (τ c) k hi (ht1 c hc) hk1
    rw [hE.axes _ (ht1 c hc)] at this
    exact this
  have x2 : ∀ c < p, ∀ i < S'.es.length, ∃ g, IsResponse S' (dipolePD S.gaunt b (axisPol (τ' c))) i
      ((S.w[k] : ℂ) + Complex.I * S.delta) g ∧ s'.xas.data i (τ' c) k = -g.im := by
    intro c hc i hi
    have := hs'.xas i (τ' c) k hi (ht2 c hc) hk2
    rw [hE.axes' _ (ht2 c hc), hE.delta, List.getElem_of_eq hE.w hk2, hE.gaunt] at this
    exact this
  obtain ⟨g, hg⟩ := choose_lt fun c (hc : c < p) => choose_lt (x1 c hc)
  obtain ⟨g', hg'⟩ := choose_lt fun c (hc : c < p) => choose_lt (x2 c hc)
  refine thermal_family (d := fun c i => s.xas.data i (τ c) k) (d' := fun c i => s'.xas.data i (τ' c) k) (g := g) (g' := g')
    (fun c _ => t4.thermal (τ c) k) (fun c _ => t4'.thermal (τ' c) k) (fun c hc i hi => (hg c hc i hi).2)
    (fun c hc i hi => (hg' c hc i (hlen ▸ hi)).2) ?_
  exact family_response hM hF hr hr'
    (fun e => (Real.exp (-e / (S.kB * S.T)) : ℂ)) _
    (fun c hc i hi => (hg c hc i hi).1) fun c hc i hi => (hg' c hc i hi).1

include hE hs hs' hM hR hR' in
/-- Photoemission and inverse photoemission, summed over the states `τ` of the d shell in the one run and `τ'` in the other. -/
theorem turn_ps_pair {Q' : ℕ → ℕ → ℂ} (hτ : ∀ c < p, τ c < 10) (hτ' : ∀ c < p, τ' c < 10)
    (hF : FamilyCarried (nTotal (pdSystem b)) u p Q (fun c => create (impStart (pdSystem b) 2 + τ c))
      fun c => create (impStart (pdSystem b) 2 + τ' c))
    (hF' : FamilyCarried (nTotal (pdSystem b)) u p Q' (fun c => annihilate (impStart (pdSystem b) 2 + τ c))
      fun c => annihilate (impStart (pdSystem b) 2 + τ' c)) {k : ℕ} (hk : k < 3000) :
    ∑ c ∈ range p, s'.ps.thermal (τ' c) k = ∑ c ∈ range p, s.ps.thermal (τ c) k := by
  obtain ⟨t1, -, -, -⟩ := hs.tables
  obtain ⟨t1', -, -, -⟩ := hs'.tables
  rw [hE.kB, hE.T, hM.es] at t1'
  rw [← hE.nbaths] at hF hF'
  have hk1 : k < S.w.length := by rw [hE.lw]; exact hk
  have hk2 : k < S'.w.length := by rw [hE.w]; exact hk1
  have hlen : S'.es.length = S.es.length := by rw [hM.es]
  obtain ⟨f, hf⟩ := choose_lt fun c (hc : c < p) => choose_lt fun i hi => hs.photoemission i (τ c) k hi (hτ c hc) hk1 _ rfl
  obtain ⟨g, hg⟩ := choose_lt fun c (hc : c < p) => choose_lt fun i (hi : i < S.es.length) => hf c hc i hi
  obtain ⟨f', hf'⟩ := choose_lt fun c (hc : c < p) => choose_lt fun i hi => hs'.photoemission i (τ' c) k hi (hτ' c hc) hk2 _ rfl
  obtain ⟨g', hg'⟩ := choose_lt fun c (hc : c < p) => choose_lt fun i (hi : i < S'.es.length) => hf' c hc i hi
  rw [hE.delta, List.getElem_of_eq hE.w hk2] at hg'
  refine thermal_family (d := fun c i => s.ps.data i (τ c) k) (d' := fun c i => s'.ps.data i (τ' c) k)
    (g := fun c i => f c i - g c i) (g' := fun c i => f' c i - g' c i)
    (fun c _ => t1.thermal (τ c) k) (fun c _ => t1'.thermal (τ' c) k) (fun c hc i hi => (hg c hc i hi).2.2)
    (fun c hc i hi => (hg' c hc i (hlen ▸ hi)).2.2) ?_
  have e1 := family_response hM hF (fun c hc i hi => hR.add (τ c) (hτ c hc) i hi) (fun c hc i hi => hR'.add (τ' c) (hτ' c hc) i hi)
    (fun e => (Real.exp (-e / (S.kB * S.T)) : ℂ)) _ (fun c hc i hi => (hg c hc i hi).1) fun c hc i hi => (hg' c hc i hi).1
  have e2 := family_response hM hF' (fun c hc i hi => hR.remove (τ c) (hτ c hc) i hi)
    (fun c hc i hi => hR'.remove (τ' c) (hτ' c hc) i hi)
    (fun e => (Real.exp (-e / (S.kB * S.T)) : ℂ)) _ (fun c hc i hi => (hg c hc i hi).2.1) fun c hc i hi => (hg' c hc i hi).2.1
  simp only [mul_sub, Finset.sum_sub_distrib]
  rw [e1, e2]

include hE hs hs' hM hR hR' in
/-- Photoemission and inverse photoemission, summed over the states `τ` of the d shell. -/
theorem turn_ps {Q' : ℕ → ℕ → ℂ} (hτ : ∀ c < p, τ c < 10)
    (hF : FamilyCarried (nTotal (pdSystem b)) u p Q (fun c => create (impStart (pdSystem b) 2 + τ c))
      fun c => create (impStart (pdSystem b) 2 + τ c))
    (hF' : FamilyCarried (nTotal (pdSystem b)) u p Q' (fun c => annihilate (impStart (pdSystem b) 2 + τ c))
      fun c => annihilate (impStart (pdSystem b) 2 + τ c)) {k : ℕ} (hk : k < 3000) :
    ∑ c ∈ range p, s'.ps.thermal (τ c) k = ∑ c ∈ range p, s.ps.thermal (τ c) k :=
  turn_ps_pair hE hs hs' hM hR hR' hτ hτ hF hF' hk

include hE hs hs' hM hR hR' in
/-- Photoemission of the p shell, summed over the states `τ` in the one run and `τ'` in the other. -/
theorem turn_xps_pair (hτ : ∀ c < p, τ c < 6) (hτ' : ∀ c < p, τ' c < 6) (hF : FamilyCarried (nTotal (pdSystem b)) u p Q
      (fun c => annihilate (impStart (pdSystem b) 1 + τ c)) fun c => annihilate (impStart (pdSystem b) 1 + τ' c)) {k : ℕ} (hk : k < 3000) :
    ∑ c ∈ range p, s'.xps.thermal (τ' c) k = ∑ c ∈ range p, s.xps.thermal (τ c) k := by
  obtain ⟨-, t2, -, -⟩ := hs.tables
  obtain ⟨-, t2', -, -⟩ := hs'.tables
  rw [hE.kB, hE.T, hM.es] at t2'
  rw [← hE.nbaths] at hF
  have hk1 : k < S.w.length := by rw [hE.lw]; exact hk
  have hk2 : k < S'.w.length := by rw [hE.w]; exact hk1
  have hlen : S'.es.length = S.es.length := by rw [hM.es]
  obtain ⟨g, hg⟩ := choose_lt fun c (hc : c < p) => choose_lt fun i hi => hs.xps i (τ c) k hi (hτ c hc) hk1 _ rfl
  obtain ⟨g', hg'⟩ := choose_lt fun c (hc : c < p) => choose_lt fun i hi => hs'.xps i (τ' c) k hi (hτ' c hc) hk2 _ rfl
  rw [hE.delta, List.getElem_of_eq hE.w hk2] at hg'
  refine thermal_family (d := fun c i => s.xps.data i (τ c) k) (d' := fun c i => s'.xps.data i (τ' c) k)
    (g := fun c i => -g c i) (g' := fun c i => -g' c i)
    (fun c _ => t2.thermal (τ c) k) (fun c _ => t2'.thermal (τ' c) k)
    (fun c hc i hi => by rw [(hg c hc i hi).2, Complex.neg_im, neg_neg])
    (fun c hc i hi => by rw [(hg' c hc i (hlen ▸ hi)).2, Complex.neg_im, neg_neg]) ?_
  have e2 := family_response hM hF (fun c hc i hi => hR.core (τ c) (hτ c hc) i hi) (fun c hc i hi => hR'.core (τ' c) (hτ' c hc) i hi)
    (fun e => (Real.exp (-e / (S.kB * S.T)) : ℂ)) _ (fun c hc i hi => (hg c hc i hi).1) fun c hc i hi => (hg' c hc i hi).1
  simp only [mul_neg, Finset.sum_neg_distrib]
  rw [e2]

include hE hs hs' hM hR hR' in
/-- Photoemission of the p shell, summed over the states `τ`. -/
theorem turn_xps (hτ : ∀ c < p, τ c < 6) (hF : FamilyCarried (nTotal (pdSystem b)) u p Q
      (fun c => annihilate (impStart (pdSystem b) 1 + τ c)) fun c => annihilate (impStart (pdSystem b) 1 + τ c)) {k : ℕ} (hk : k < 3000) :
    ∑ c ∈ range p, s'.xps.thermal (τ c) k = ∑ c ∈ range p, s.xps.thermal (τ c) k :=
  turn_xps_pair hE hs hs' hM hR hR' hτ hτ hF hk

include hE hs hs' hM hR hR' in
/-- Scattering with an operator that the rotation does not change. -/
theorem turn_nixs {t : ℕ} (ht : t < 2)
    (hF : Carried (nTotal (pdSystem b)) u (planeWaveDD S b (if t = 0 then 2 else 7)) (planeWaveDD S b (if t = 0 then 2 else 7)))
    {k : ℕ} (hk : k < 4000) : s'.nixs.thermal t k = s.nixs.thermal t k := by
  obtain ⟨-, -, t3, -⟩ := hs.tables
  obtain ⟨-, -, t3', -⟩ := hs'.tables
  rw [hE.kB, hE.T, hM.es] at t3'
  rw [← hE.nbaths] at hF
  have hk1 : k < S.wLoss.length := by rw [hE.ll]; exact hk
  have hk2 : k < S'.wLoss.length := by rw [hE.wLoss]; exact hk1
  have hlen : S'.es.length = S.es.length := by rw [hM.es]
  have hq : ((if t = 0 then 2 else 7 : ℝ)) = 2 ∨ ((if t = 0 then 2 else 7 : ℝ)) = 7 := by
    split
    · exact .inl rfl
    · exact .inr rfl
  obtain ⟨hr, -⟩ := hR.scatter _ hq
  obtain ⟨hr', -⟩ := hR'.scatter _ hq
  obtain ⟨g, hg⟩ := choose_lt fun i hi => hs.nixs i t k hi ht hk1 _ rfl
  obtain ⟨g', hg'⟩ := choose_lt fun i hi => hs'.nixs i t k hi ht hk2 _ rfl
  rw [hE.deltaNIXS, List.getElem_of_eq hE.wLoss hk2, hE.planeWave] at hg'
  rw [hE.planeWave] at hr'
  refine thermal_same (g := g) (g' := g') (t3.thermal t k) (t3'.thermal t k) (fun i hi => (hg i hi).2) (fun i hi => (hg' i (hlen ▸ hi)).2) ?_
  have := family_response hM (FamilyCarried.single (planeWaveDD_linear _ _ _) (planeWaveDD_linear _ _ _) hF)
    (fun _ _ => hr) (fun _ _ => hr') (fun e => (Real.exp (-e / (S.kB * S.T)) : ℂ)) _
    (g := fun _ => g) (g' := fun _ => g') (fun _ _ i hi => (hg i hi).1) fun _ _ i hi => (hg' i hi).1
  simpa using this

include hE hs hs' hM hR hR' in
/-- Resonant scattering with the in-coming polarisations `τ c` in the one run and `τ' c` in the other, and a rotation that does
not change the out-going polarisation. -/
theorem turn_rixs (hτ : ∀ c < p, τ c < 3) (hτ' : ∀ c < p, τ' c < 3) (hF : FamilyCarried (nTotal (pdSystem b)) u p Q
      (fun c => dipolePD S.gaunt b (axisPol (τ c))) fun c => dipolePD S.gaunt b (axisPol (τ' c)))
    (hout : Carried (nTotal (pdSystem b)) u (dipoleDP S.gaunt b ⟨1, 0, 0⟩) (dipoleDP S.gaunt b ⟨1, 0, 0⟩))
    {a d k : ℕ} (ha : a < 3) (hd : d < 50) (hk : k < 4000) :
    ∑ c ∈ range p, s'.rixs.thermal (τ' c) a d k = ∑ c ∈ range p, s.rixs.thermal (τ c) a d k := by
  have hth : ∀ t, IsThermal S.kB S.T S.es (fun i => s'.rixs.data i t a d k) (s'.rixs.thermal t a d k) := by
    intro t
    have := hs'.rixsThermal t a d k
    rwa [hE.kB, hE.T, hM.es] at this
  rw [← hE.nbaths] at hF hout
  have hk1 : k < S.wLoss.length := by rw [hE.ll]; exact hk
  have hk2 : k < S'.wLoss.length := by rw [hE.wLoss]; exact hk1
  have hd1 : d < S.wIn.length := by rw [hE.li]; exact hd
  have hd2 : d < S'.wIn.length := by rw [hE.wIn]; exact hd1
  have hlen : S'.es.length = S.es.length := by rw [hM.es]
  have ht1 : ∀ c < p, τ c < S.epsilonsRIXSin.length := fun c hc => by rw [hE.leR]; exact hτ c hc
  have ht2 : ∀ c < p, τ' c < S'.epsilonsRIXSin.length := fun c hc => by rw [hE.leR']; exact hτ' c hc
  have hr : ∀ c (hc : c < p), KeptRixs S S.wIn[d] (dipolePD S.gaunt b (axisPol (τ c))) (dipoleDP S.gaunt b ⟨1, 0, 0⟩) := fun c hc => by
    rw [← hE.axesR _ (ht1 c hc)]
    exact hR.resonant _ (List.getElem_mem _) _ (List.getElem_mem _)
  have hr' : ∀ c (hc : c < p), KeptRixs S' S'.wIn[d] (dipolePD S'.gaunt b (axisPol (τ' c))) (dipoleDP S'.gaunt b ⟨1, 0, 0⟩) := fun c hc => by
    rw [← hE.axesR' _ (ht2 c hc)]
    exact hR'.resonant _ (List.getElem_mem _) _ (List.getElem_mem _)
  have x1 : ∀ c < p, ∀ i < S.es.length, ∃ g, IsRixs (size S) (hamilton S) ((S.wIn[d] : ℂ) + Complex.I * S.delta + (S.es.getD i 0 : ℂ))
      ((S.wLoss[k] : ℂ) + Complex.I * S.deltaRIXS + (S.es.getD i 0 : ℂ)) (excite S (dipolePD S.gaunt b (axisPol (τ c))) i)
      (exciteVec S (dipoleDP S.gaunt b ⟨1, 0, 0⟩)) g ∧ s.rixs.data i (τ c) a d k = -g.im := by
    intro c hc i hi
    have := hs.rixs i (τ c) a d k hi (ht1 c hc) ha hd1 hk1
    rw [hE.axesR _ (ht1 c hc)] at this
    exact this
  have x2 : ∀ c < p, ∀ i < S'.es.length, ∃ g, IsRixs (size S') (hamilton S') ((S.wIn[d] : ℂ) + Complex.I * S.delta + (S'.es.getD i 0 : ℂ))
      ((S.wLoss[k] : ℂ) + Complex.I * S.deltaRIXS + (S'.es.getD i 0 : ℂ)) (excite S' (dipolePD S.gaunt b (axisPol (τ' c))) i)
      (exciteVec S' (dipoleDP S.gaunt b ⟨1, 0, 0⟩)) g ∧ s'.rixs.data i (τ' c) a d k = -g.im := by
    intro c hc i hi
    have := hs'.rixs i (τ' c) a d k hi (ht2 c hc) ha hd2 hk2
    rw [hE.axesR' _ (ht2 c hc)] at this
    have := this
    rwa [hE.delta, hE.deltaRIXS, List.getElem_of_eq hE.wLoss hk2, List.getElem_of_eq hE.wIn hd2, hE.gaunt] at this
  obtain ⟨g, hg⟩ := choose_lt fun c (hc : c < p) => choose_lt (x1 c hc)
  obtain ⟨g', hg'⟩ := choose_lt fun c (hc : c < p) => choose_lt (x2 c hc)
  unfold KeptRixs at hr hr'
  rw [hE.delta, List.getElem_of_eq hE.wIn hd2, hE.gaunt] at hr'
  refine thermal_family (d := fun c i => s.rixs.data i (τ c) a d k) (d' := fun c i => s'.rixs.data i (τ' c) a d k) (g := g) (g' := g')
    (fun c _ => hs.rixsThermal (τ c) a d k) (fun c _ => hth (τ' c)) (fun c hc i hi => (hg c hc i hi).2)
    (fun c hc i hi => (hg' c hc i (hlen ▸ hi)).2) ?_
  exact family_rixs hM hF (between_linear _ _ _ _) (between_linear _ _ _ _) hout
    (fun e => (Real.exp (-e / (S.kB * S.T)) : ℂ)) _ _
    (fun c hc i hi => ⟨(hr c hc i hi).1, fun x hx => ((hr c hc i hi).2 x hx).1⟩)
    (fun c hc i hi => ⟨(hr' c hc i hi).1, fun x hx => ((hr' c hc i hi).2 x hx).1⟩)
    (fun c hc i hi => (hg c hc i hi).1) fun c hc i hi => (hg' c hc i hi).1

end

end

end Verif
