/-
A run of main that prints two energies and uses one of them for the spectra, where all cutoffs are
harmless.
-/
import Verif.Lemmas.MainExample
import Verif.Prop.Degenerate
import Verif.Prop.MainExample

namespace Verif

open Finset Mpi Psr Spec Matrix

noncomputable section

/-- The arguments of the example, now with two energies. -/
def hole2Args (lev T : ℝ) : MainArgs := { holeArgs lev T [] with nPsiMax := 2 }

theorem hole2Args_valid (lev T : ℝ) : (hole2Args lev T).Valid := ⟨(holeArgs_valid lev T []).1, (holeArgs_valid lev T []).2, (holeArgs_valid lev T []).3⟩

theorem hole2Args_documented (lev T : ℝ) : Documented (hole2Args lev T) (fun _ => 0) holeParams 0 0 0 (holeLevels lev) where
  ls := rfl
  nBaths := rfl
  nValBaths := rfl
  n0imps := rfl
  dnTols := rfl
  dnValBaths := rfl
  dnConBaths := rfl
  hField := rfl
  Fdd := rfl
  Fpp := rfl
  Fpd := rfl
  Gpd := rfl
  h0 := Or.inl ⟨rfl, holeLevels_nodup⟩

variable {lev : ℝ}

/-! ### Diagonal Hamiltonians -/

/-- As many Lanczos vectors as product states exhaust the Krylov space. -/
theorem krylovExhausted_of_support {H : Vec ℂ → Vec ℂ} {b : Vec ℂ} {K : ℕ} (X : Finset (Finset ℕ)) (hX : X.card ≤ K)
    (h : ∀ j, ∀ F, F ∉ X → H^[j] b F = 0) : KrylovExhausted H K b := by
  intro hli
  have : LinearIndependent ℂ fun j : Fin (K + 1) => fun F : X => H^[j.val] b F.val := by
    rw [Fintype.linearIndependent_iff] at hli ⊢
    intro g hg
    refine hli g ?_
    funext F
    by_cases hF : F ∈ X
    · have := congrFun hg ⟨F, hF⟩
      rw [Finset.sum_apply] at this ⊢
      exact this
    · rw [Finset.sum_apply]
      refine sum_eq_zero fun j _ => ?_
      rw [Pi.smul_apply, h j.val F hF, smul_zero]
  have := this.fintype_card_le_finrank
  rw [Fintype.card_fin, Module.finrank_fintype_fun_eq_card, Fintype.card_coe] at this
  omega

theorem DiagonalOp.iterate_zero {n : ℕ} {op : Op ℕ ℂ} {cut : ℝ} {E : Finset ℕ → ℂ} (hD : DiagonalOp n op cut E)
    {r : Option Restrictions} {b : Vec ℂ} {F : Finset ℕ} (hF : b F = 0) (j : ℕ) :
    (Spec.hamiltonian n op cut r)^[j] b F = 0 := by
  by_cases hn : F ⊆ range n
  · by_cases hr : AllowedOpt r F
    · rw [hD.iterate hn hr, hF, mul_zero]
    · cases j with
      | zero => exact hF
      | succ j =>
        rw [Function.iterate_succ_apply']
        unfold Spec.hamiltonian
        rw [if_pos hn]
        refine sum_eq_zero fun T _ => ?_
        unfold Spec.column
        rw [if_neg (fun h => hr h.1), zero_mul]
  · cases j with
    | zero => exact hF
    | succ j =>
      rw [Function.iterate_succ_apply']
      unfold Spec.hamiltonian
      rw [if_neg hn]

/-! ### The eigenstates -/

section
variable {op : Op ℕ ℂ} (hD : DiagonalOp 16 op 1e-12 (holeEnergy lev))

include hD in
theorem hole_sum {S : Finset ℕ} (hS : S ∈ holeStates.toFinset) (y : Finset ℕ → ℂ) :
    ∑ T ∈ holeStates.toFinset, storedElement op (1e-12 : ℝ) S T * y T = (holeEnergy lev) S * y S := by
  have hSm := List.mem_toFinset.1 hS
  rw [Finset.sum_eq_single S]
  · rw [hD.stored S S (holeStates_sub S hSm) (holeStates_sub S hSm), if_pos rfl]
  · intro T hT hne
    rw [hD.stored S T (holeStates_sub S hSm) (holeStates_sub T (List.mem_toFinset.1 hT)), if_neg (Ne.symm hne), zero_mul]
  · intro h; exact absurd hS h

include hD in
/-- The lowest state has the hole in the highest orbital, the others are at least 4 above it. -/
theorem hole_lowest [CoreLevel lev] {es : List ℝ} {psis : List (Psi ℂ)} (h : LowestStates 16 op 1e-12 1e-7 holeStates.toFinset es psis)
    (hpos : 0 < es.length) (hpos' : 0 < psis.length) :
    es[0] = ((holeEnergy lev) (range 15)).re ∧ (∃ x, ampl 16 psis[0] = Spec.single (range 15) x ∧ Complex.normSq x = 1) ∧
      ∀ i (hi : i < es.length), 0 < i → es[0] + 4 ≤ es[i] := by
  obtain ⟨h1, h2, x, h3, h4, h5, h6⟩ := h
  have hlow : range 15 ∈ holeStates.toFinset := by decide +kernel
  have heS : ∀ v (hv : v < es.length), ∀ S ∈ holeStates.toFinset, x v S ≠ 0 → (holeEnergy lev) S = es[v] := by
    intro v hv S hS hx
    have := h4 v hv S hS
    rw [hole_sum hD hS] at this
    exact mul_right_cancel₀ hx this
  have hn1 : ∀ v < es.length, ∑ S ∈ holeStates.toFinset, star (x v S) * x v S = 1 :=
    fun v hv => (h3 v hv v hv).trans (if_pos rfl)
  have hex : ∀ v < es.length, ∃ S ∈ holeStates.toFinset, x v S ≠ 0 := by
    intro v hv
    by_contra hc
    push Not at hc
    have := hn1 v hv
    rw [sum_eq_zero fun S hS => by rw [hc S hS, mul_zero]] at this
    exact zero_ne_one this
  have hgap : ∀ S ∈ holeStates, S ≠ range 15 → ∑ i ∈ range 15, 2 ^ i + 16384 ≤ ∑ i ∈ S, 2 ^ i := by decide +kernel
  have hgap' : ∀ S ∈ holeStates.toFinset, S ≠ range 15 → ((holeEnergy lev) (range 15)).re + 4 ≤ ((holeEnergy lev) S).re := by
    intro S hS hne
    have := hgap S (List.mem_toFinset.1 hS) hne
    have : ((∑ i ∈ range 15, 2 ^ i : ℕ) : ℝ) + 16384 ≤ ((∑ i ∈ S, 2 ^ i : ℕ) : ℝ) := by exact_mod_cast this
    have hcore : ∀ S ∈ holeStates, {i ∈ S | i < 6}.card = {i ∈ range 15 | i < 6}.card := by decide +kernel
    unfold holeEnergy
    rw [Complex.ofReal_re, Complex.ofReal_re, hcore S (List.mem_toFinset.1 hS)]
    generalize ((∑ i ∈ range 15, 2 ^ i : ℕ) : ℝ) = a at *
    generalize ((∑ i ∈ S, 2 ^ i : ℕ) : ℝ) = c at *
    linarith
  have hsupp : ∀ v < es.length, ∀ S ∈ holeStates.toFinset, x v S ≠ 0 → ∀ S' ∈ holeStates.toFinset, S' ≠ S → x v S' = 0 := by
    intro v hv S hS hx S' hS' hne
    by_contra hx'
    exact hne (holeEnergy_inj ((heS v hv S' hS' hx').trans (heS v hv S hS hx).symm))
  have hre : ∀ v (hv : v < es.length), ∀ S ∈ holeStates.toFinset, x v S ≠ 0 → es[v] = ((holeEnergy lev) S).re := by
    intro v hv S hS hx
    rw [heS v hv S hS hx]; simp
  -- some state has a component in `range 15`
  have hsome : ∃ v < es.length, x v (range 15) ≠ 0 := by
    by_contra hc
    push Not at hc
    have hy := h5 (Spec.single (range 15) 1) (by
      intro v hv
      refine sum_eq_zero fun S hS => ?_
      unfold Spec.single
      by_cases h : S = range 15
      · rw [h, hc v hv, star_zero, zero_mul]
      · rw [if_neg h, mul_zero]) 0 hpos
    have e1 : ∑ S ∈ holeStates.toFinset, Complex.normSq (Spec.single (range 15) 1 S) = 1 := by
      rw [Finset.sum_eq_single (range 15)]
      · simp [Spec.single]
      · intro S _ h; simp [Spec.single, h]
      · intro h; exact absurd hlow h
    have e2 : ∑ S ∈ holeStates.toFinset, ∑ T ∈ holeStates.toFinset, star (Spec.single (range 15) 1 S)
        * storedElement op (1e-12 : ℝ) S T * Spec.single (range 15) 1 T = (holeEnergy lev) (range 15) := by
      rw [Finset.sum_eq_single (range 15)]
      · simp only [mul_assoc]
        rw [← Finset.mul_sum, hole_sum hD hlow]
        simp [Spec.single]
      · intro S _ h; simp [Spec.single, h]
      · intro h; exact absurd hlow h
    rw [e1, e2, mul_one] at hy
    obtain ⟨S0, hS0, hx0⟩ := hex 0 hpos
    have hne : S0 ≠ range 15 := by rintro rfl; exact hx0 (hc 0 hpos)
    have := hgap' S0 hS0 hne
    rw [hre 0 hpos S0 hS0 hx0] at hy
    linarith
  -- it is the first one
  obtain ⟨v, hv, hxv⟩ := hsome
  have hx0 : x 0 (range 15) ≠ 0 := by
    rcases Nat.eq_zero_or_pos v with rfl | hv0
    · exact hxv
    · obtain ⟨S0, hS0, hx0⟩ := hex 0 hpos
      by_cases hne : S0 = range 15
      · rwa [hne] at hx0
      · have := hgap' S0 hS0 hne
        have hle : es[0] ≤ es[v] := (List.pairwise_iff_getElem.1 h1) 0 v hpos hv hv0
        rw [hre 0 hpos S0 hS0 hx0, hre v hv _ hlow hxv] at hle
        linarith
  have he0 := hre 0 hpos _ hlow hx0
  refine ⟨he0, ⟨x 0 (range 15), ?_⟩, ?_⟩
  · have hs0 := hsupp 0 hpos _ hlow hx0
    have hnorm : Complex.normSq (x 0 (range 15)) = 1 := by
      have hn := hn1 0 hpos
      rw [Finset.sum_eq_single (range 15) (fun S hS hne => by rw [hs0 S hS hne, mul_zero])
        (fun h => absurd hlow h)] at hn
      have : ((Complex.normSq (x 0 (range 15)) : ℝ) : ℂ) = 1 := by
        rw [← hn, Complex.normSq_eq_conj_mul_self]; rfl
      exact_mod_cast this
    refine ⟨?_, hnorm⟩
    funext S
    rw [(h6 0 hpos').2 S]
    unfold Spec.single
    by_cases h : S = range 15
    · subst h
      rw [if_pos rfl, if_pos ⟨hlow, by rw [hnorm]; norm_num⟩]
    · rw [if_neg h]
      split
      · next hm => exact hs0 S hm.1 h
      · rfl
  · intro i hi hi0
    obtain ⟨S, hS, hx⟩ := hex i hi
    have hne : S ≠ range 15 := by
      rintro rfl
      have := h3 0 hpos i hi
      rw [if_neg (by omega), Finset.sum_eq_single (range 15)
        (fun S hS hne => by rw [hsupp 0 hpos _ hlow hx0 S hS hne, star_zero, zero_mul]) (fun h => absurd hlow h)] at this
      exact (mul_ne_zero (star_ne_zero.2 hx0) hx) this
    rw [he0, hre i hi S hS hx]
    exact hgap' S hS hne

end

/-! ### The run -/

theorem refEigensystem_ok {S : EigenSolver} (hS : SolverCorrect S) (htot : ∀ H d k, k < d → ∃ p, S.eigsh H d k = .ok p) {n : ℕ}
    {op : Op ℕ ℂ} (hop : OpInSystem n op) (hdict : Dict.NodupKeys op) (hh : isHermitianOp op) (cut weight : ℝ)
    {states : List (Finset ℕ)} (hnd : states.Nodup) (hst : ∀ S ∈ states, S ⊆ range n) {k : ℕ} (hk : k < states.length) :
    ∃ es psis, refEigensystem S n op cut (states.map (encBytes n)) k weight = .ok (es, psis) := by
  obtain ⟨H, hH, -⟩ := C21_matrix_elements n op hop cut states hnd hst .sparseMPI 1 one_pos
  obtain ⟨H', hH', hherm⟩ := C19_matrix_hermitian n op hop hdict hh cut states hnd hst .sparseMPI 1 one_pos
  rw [hH] at hH'
  cases hH'
  obtain ⟨p, hp⟩ := htot H (states.map (encBytes n)).length k (by rw [List.length_map]; exact hk)
  obtain ⟨-, hlen, -⟩ := hS.eigsh _ _ _ _ hherm hp
  obtain ⟨es, hes⟩ := mapM_exists (l := S.argsort p.es) (f := fun (i : ℕ) => pyGet p.es (i : ℤ)) fun i hi => by
    have := List.mem_range.1 ((hS.argsort p.es).1.mem_iff.1 hi)
    exact ⟨_, pyGet_ofNat _ _ this⟩
  unfold refEigensystem
  rw [if_neg (by
    intro h
    rw [List.map_eq_nil_iff] at h
    rw [h] at hk
    simp at hk)]
  unfold eigensystem diagLanczos
  rw [hH]
  simp only [ok_bind]
  rw [hp]
  simp only [ok_bind]
  rw [hes]
  exact ⟨_, _, rfl⟩

theorem hole2Setup (L : MainLib) (lev T : ℝ) : mainSetup L (hole2Args lev T) = mainSetup L (holeArgs lev T []) := rfl

theorem hole_configurations {L : MainLib} (hL : L.gaunt = sympyGaunt) {F : Finset ℕ} (hF : F ⊆ range 16) :
    IsConfiguration [(1, 0), (2, 0)] holeSystem holeParams F ↔ F ∈ holeStates := by
  obtain ⟨hOp, hs⟩ := holeSetup_ok L hL 0 1 []
  obtain ⟨hnb, hr, hop, hn0, hb⟩ := setup_documented (holeArgs_documented 0 1 []) hs
  have hC := (C11_get_basis _ holeParams _ _ _ _ _ (nodup_documented (fun _ => 0)) (provides_documented (fun _ => 0) holeParams)
    _ hb).1 F hF
  refine hC.symm.trans ?_
  constructor
  · intro h
    obtain ⟨F', hF', e⟩ := List.mem_map.1 h
    rwa [← encBytes_injOn (holeStates_sub F' hF') hF e]
  · intro h
    exact List.mem_map.2 ⟨F, h, rfl⟩

open Classical in
theorem hole_filter {L : MainLib} (hL : L.gaunt = sympyGaunt) :
    ({F ∈ (range 16).powerset | IsConfiguration [(1, 0), (2, 0)] holeSystem holeParams F} : Finset (Finset ℕ))
      = holeStates.toFinset := by
  ext F
  rw [Finset.mem_filter, Finset.mem_powerset, List.mem_toFinset]
  constructor
  · rintro ⟨h1, h2⟩
    exact (hole_configurations hL h1).1 h2
  · intro h
    exact ⟨holeStates_sub F h, (hole_configurations hL (holeStates_sub F h)).2 h⟩

/-- `main` succeeds. -/
theorem hole2Main_ok [CoreLevel lev] {L : MainLib} {T : ℝ} (hL : L.gaunt = sympyGaunt) (hT : 0 < T) (hk : 0 < L.kB) (hcold : 10 * (L.kB * T) ≤ 4)
    (hsolve : ExactSolver L.solve) (hS : SolverCorrect L.solver)
    (htot : ∀ H d k, k < d → ∃ p, L.solver.eigsh H d k = .ok p) : ∃ o, refMain L (hole2Args lev T) = .ok o := by
  obtain ⟨hOp, hs⟩ := holeSetup_ok L hL lev T []
  have hgood := mainSetup_good L (holeArgs lev T []) _ hs
  have hn : nSpinOrbitals [((1 : ℕ), 0), (2, 0)] = 16 := by
    rw [nSpinOrbitals_eq]; exact holeSystem_size
  have hgop := hgood.op
  rw [hn] at hgop
  obtain ⟨es, psis, heig⟩ := refEigensystem_ok hS htot hgop.1.2 hgop.1.1 hgop.2 1e-12 1e-7 holeStates_nodup holeStates_sub
    (k := 2) (by decide)
  have heig' := heig
  unfold refEigensystem at heig'
  rw [if_neg (by decide)] at heig'
  obtain ⟨h1, h2, x, h3, h4, h5, h6⟩ := C51_eigensystem L.solver hS 16 hOp hgop.1.2 hgop.1.1 hgop.2 1e-12 holeStates
    holeStates_nodup holeStates_sub 2 .lanczos 1e-7 1 one_pos _ _ heig'
  have hcount : es.length = 2 := C51_count L.solver hS 16 hOp hgop.1.2 hgop.1.1 hgop.2 1e-12 holeStates
    holeStates_nodup holeStates_sub 2 .lanczos 1e-7 1 one_pos _ _ heig'
  have hlow : LowestStates 16 hOp 1e-12 1e-7 holeStates.toFinset es psis := by
    refine ⟨h1, h2, x, h3, fun v hv F hF => h4 v hv F (List.mem_toFinset.1 hF), h5, fun v hv => ?_⟩
    obtain ⟨g1, g2, -⟩ := h6 v hv
    refine ⟨g1, fun F => ?_⟩
    rw [g2 F]
    simp only [List.mem_toFinset]
  obtain ⟨-, ⟨y, hy, -⟩, hgap⟩ := hole_lowest (holeSetup_diagonal hs) hlow (by omega) (by omega)
  have hst : ∀ psi ∈ psis, IsState 16 psi := by
    intro psi hp
    obtain ⟨v, hv, rfl⟩ := List.getElem_of_mem hp
    exact (h6 v hv).1
  obtain ⟨e0, e1, rfl⟩ := List.length_eq_two.1 hcount
  obtain ⟨psi0, psi1, rfl⟩ := List.length_eq_two.1 (h2.trans hcount)
  have hgap : e0 + 4 ≤ e1 := hgap 1 (by simp) one_pos
  obtain ⟨p, hp⟩ := mainPrints_ok (L := L) (nBaths := [(1, 0), (2, 0)]) hgood.nBaths (by decide) (es := [e0, e1])
    (psis := [psi0, psi1]) (by simp) rfl (by rw [hn]; exact hst) hk (hole2Args lev T)
  have hcut : energyCut [e0, e1] [psi0, psi1] ((hole2Args lev T).energyCut * (L.kB * (hole2Args lev T).T)) = .ok ([e0], [psi0]) := by
    show energyCut [e0, e1] [psi0, psi1] (10 * (L.kB * T)) = _
    have hpos : 0 < 10 * (L.kB * T) := by positivity
    unfold energyCut
    have g0 : pyGet [e0, e1] 0 = .ok e0 := rfl
    have g1 : pyGet [psi0, psi1] ((0 : ℕ) : ℤ) = .ok psi0 := rfl
    have hno : ¬ e1 - e0 < 10 * (L.kB * T) := by linarith
    simp only [List.foldlM_cons, List.foldlM_nil, g0, ok_bind, pure_ok, sub_self, if_pos hpos, if_neg hno, List.nil_append,
      List.length_cons, List.length_nil, Nat.zero_add, List.range_one, List.mapM_cons, List.mapM_nil, g1]
  obtain ⟨sp, hsp⟩ := holeSim_ok hs hL hT hk hsolve (hst psi0 (by simp)) hy e0
  refine ⟨⟨p.1, p.2.1, p.2.2.1, p.2.2.2, [e0, e1], sp⟩, ?_⟩
  unfold refMain
  rw [hole2Setup, hs]
  simp only [ok_bind, hn]
  rw [show (hole2Args lev T).nPsiMax = 2 from rfl, heig]
  simp only [ok_bind]
  rw [hp]
  simp only [ok_bind]
  rw [hcut]
  simp only [ok_bind]
  rw [show mainSim L (hole2Args lev T) = mainSim L (holeArgs lev T []) from rfl, hsp]
  rfl

/-- All ranks finish. -/
theorem hole2_finishes (lev : ℝ) [CoreLevel lev] {solver : EigenSolver} (hS : SolverCorrect solver)
    (htot : ∀ H d k, k < d → ∃ p, solver.eigsh H d k = .ok p) (sphHarm : SphHarm) (jn : SphericalJn) {kB T : ℝ}
    (hk : 0 < kB) (hT : 0 < T) (hcold : 10 * (kB * T) ≤ 4) :
    ∃ o : MainOutput, ∀ (N : ℕ), 0 < N → ∀ (ord : Fin N → ℕ → ℕ → ℕ → SetOrders), (∀ k c t i, (ord k c t i).Valid) →
      ∀ (ordRixs : Fin N → List ℕ → SetOrders), (∀ k l, (ordRixs k l).Valid) →
      AllRanksFinish msgSum
        (fun k : Fin N => mainRank (holeLib solver sphHarm jn kB) (hole2Args lev T) (ord k) (ordRixs k) k.val N)
        (fun k => if k.val = 0 then some o else none) := by
  obtain ⟨o, ho⟩ := hole2Main_ok (lev := lev) (L := holeLib solver sphHarm jn kB) rfl hT hk hcold (holeSolve_exact solver sphHarm jn kB) hS htot
  refine ⟨o, fun N hN ord hord ordR hordR => ?_⟩
  have := main_settles hN (L := holeLib solver sphHarm jn kB) (hole2Args_valid lev T) sympyGaunt_large ord hord ordR hordR
  rw [ho] at this
  obtain ⟨out, rfl, hrun⟩ := this
  exact hrun.allRanksFinish

/-! ### All cutoffs are harmless -/

/-- The arguments of the spectra of the example. -/
structure HoleSim (lev : ℝ) (S : SimulateArgs) (y : ℂ) : Prop where
  size : size S = 16
  diag : DiagonalOp 16 S.hOp 1e-12 (holeEnergy lev)
  cutoffs : S.krylovSize = 150 ∧ S.slaterWeightMin = 1e-7 ∧ S.cut = 1e-12
  gaunt : S.gaunt = sympyGaunt
  epsilons : S.epsilons = [⟨1, 0, 0⟩, ⟨0, 1, 0⟩, ⟨0, 0, 1⟩] ∧ S.epsilonsRIXSin = [⟨1, 0, 0⟩, ⟨0, 1, 0⟩, ⟨0, 0, 1⟩]
  wIn : Mesh S.wIn (-10) 20 50
  delta : S.delta = 1 / 5
  radial : S.radialMesh = []
  es : S.es = [((holeEnergy lev) (range 15)).re]
  psi : ampl 16 (S.psis.getD 0 []) = Spec.single (range 15) y
  norm : Complex.normSq y = 1

theorem single_smul (F : Finset ℕ) (y : ℂ) : Spec.single F y = fun T => y * Spec.single F 1 T := by
  funext T; unfold Spec.single; split <;> simp

theorem between_smul (f : Label → ℕ) (l l' : ℕ) (M : ℤ → ℤ → ℂ) (F : Finset ℕ) (y : ℂ) (S : Finset ℕ) :
    between f l l' M (Spec.single F y) S = y * between f l l' M (Spec.single F 1) S := by
  have h : ∀ i j, create i (annihilate j (Spec.single F y)) S = y * create i (annihilate j (Spec.single F 1)) S := by
    intro i j
    rw [single_smul]
    unfold create annihilate
    split
    · split
      · ring
      · ring
    · ring
  unfold between
  simp only [Finset.mul_sum, h]
  refine sum_congr rfl fun s _ => sum_congr rfl fun m _ => sum_congr rfl fun m' _ => ?_
  ring

section
variable {S : SimulateArgs} {y : ℂ} [CoreLevel lev] (h : HoleSim lev S y)
include h

theorem HoleSim.exhausted {b : Vec ℂ} (X : Finset (Finset ℕ)) (hX : X.card ≤ 150) (hb : ∀ F, F ∉ X → b F = 0) :
    KrylovExhausted (hamilton S) S.krylovSize b := by
  rw [h.cutoffs.1]
  refine krylovExhausted_of_support X hX fun j F hF => ?_
  unfold hamilton
  rw [h.size, h.cutoffs.2.2]
  exact h.diag.iterate_zero (hb F hF) j

theorem HoleSim.exhausted_excite {T : Vec ℂ → Vec ℂ} {x : Vec ℂ} (X : Finset (Finset ℕ)) (hX : X.card ≤ 150)
    (hb : ∀ F ⊆ range 16, F ∉ X → T x F = 0) : KrylovExhausted (hamilton S) S.krylovSize (exciteVec S T x) := by
  refine h.exhausted X hX fun F hF => ?_
  unfold exciteVec excited
  rw [h.size]
  split
  · next hc => exact hb F hc.1 hF
  · rfl

theorem HoleSim.resolved_single {T : Vec ℂ → Vec ℂ} (F : Finset ℕ)
    (hT : ∀ G ⊆ range 16, G ≠ F → T (Spec.single (range 15) y) G = 0)
    (hF : T (Spec.single (range 15) y) F = 0 ∨ (1e-7 : ℝ) ≤ abs2 (T (Spec.single (range 15) y) F)) : Resolved S T := by
  intro i hi
  obtain rfl : i = 0 := by rw [h.es] at hi; simpa using hi
  rw [h.size, h.psi]
  refine ⟨?_, ?_⟩
  · intro G hG _
    rw [h.size] at hG
    rw [h.cutoffs.2.1]
    by_cases hGF : G = F
    · rw [hGF]; exact hF
    · exact Or.inl (hT G hG hGF)
  · unfold excite
    rw [h.size, h.psi]
    refine h.exhausted_excite {F} (by simp) fun G hG hne => hT G hG (by simpa using hne)

theorem HoleSim.ladder (i : ℕ) (c : Bool) : Resolved S (ladder i c) := by
  have hn : (1e-7 : ℝ) ≤ abs2 (((sgn i (range 15) : ℤ) : ℂ) * y) := by
    show _ ≤ Complex.normSq _
    rw [Complex.normSq_mul, h.norm, show Complex.normSq ((sgn i (range 15) : ℤ) : ℂ) = 1 from abs2_sgn i (range 15)]
    norm_num
  cases c with
  | false =>
    refine h.resolved_single ((range 15).erase i) ?_ ?_
    · intro G _ hne
      rw [ladder_single_a]
      split
      · exact if_neg hne
      · rfl
    · rw [ladder_single_a]
      split
      · right
        rw [show Spec.single ((range 15).erase i) _ ((range 15).erase i) = _ from if_pos rfl]
        exact hn
      · exact Or.inl rfl
  | true =>
    refine h.resolved_single (insert i (range 15)) ?_ ?_
    · intro G _ hne
      rw [ladder_single_c]
      split
      · rfl
      · exact if_neg hne
    · rw [ladder_single_c]
      split
      · exact Or.inl rfl
      · right
        rw [show Spec.single (insert i (range 15)) _ (insert i (range 15)) = _ from if_pos rfl]
        exact hn

/-- The dipole transition from the ground state. -/
theorem HoleSim.dipole {ε : Vec3 ℂ} (hε : ε ∈ ([⟨1, 0, 0⟩, ⟨0, 1, 0⟩, ⟨0, 0, 1⟩] : List (Vec3 ℂ))) :
    (∀ G ⊆ range 16, G ≠ (range 16).erase 5 → dipolePD S.gaunt (fun _ => 0) ε (Spec.single (range 15) y) G = 0) ∧
    (dipolePD S.gaunt (fun _ => 0) ε (Spec.single (range 15) y) ((range 16).erase 5) = 0 ∨
      1 / 30 ≤ Complex.normSq (dipolePD S.gaunt (fun _ => 0) ε (Spec.single (range 15) y) ((range 16).erase 5))) := by
  unfold dipolePD
  rw [h.gaunt]
  constructor
  · intro G hG hne
    rw [between_smul]
    by_contra hc
    exact hne (hole_dipole sympyGaunt ε.x ε.y ε.z hG (right_ne_zero_of_mul hc))
  · rw [between_smul]
    rcases between_element (goodSystem_two (by decide) : GoodSystem holeSystem) (l := 2) (l' := 1) (by decide) (by decide) (by decide)
      (fun m m' => Spec.dipole sympyGaunt ε.x ε.y ε.z 2 m 1 m') ((range 16).erase 5) (range 15)
      with h0 | ⟨s, -, m, -, m', -, he, -, -⟩
    · left
      exact mul_eq_zero_of_right _ h0
    · rw [Complex.normSq_mul, h.norm, one_mul]
      have he : Complex.normSq _ = Complex.normSq _ := he
      rcases dipole_ge hε m m' (c := 1 / 15) (by norm_num) ((ck_bounds m m').imp_right And.left) with h0 | h0
      · left
        rw [h0, Complex.normSq_zero] at he
        exact mul_eq_zero_of_right _ (Complex.normSq_eq_zero.1 he)
      · right
        have h0 : 1 / 15 / 2 ≤ Complex.normSq _ := h0
        refine le_trans ?_ (le_trans h0 (le_of_eq he.symm))
        norm_num

theorem HoleSim.absorb {ε : Vec3 ℂ} (hε : ε ∈ ([⟨1, 0, 0⟩, ⟨0, 1, 0⟩, ⟨0, 0, 1⟩] : List (Vec3 ℂ))) :
    Resolved S (dipolePD S.gaunt (fun _ => 0) ε) := by
  obtain ⟨h1, h2⟩ := h.dipole hε
  refine h.resolved_single _ h1 (h2.imp_right fun h2 => ?_)
  show _ ≤ Complex.normSq _
  exact le_trans (by norm_num) h2

theorem HoleSim.planeWave (q : ℝ) (v : Vec ℂ) (F : Finset ℕ) : planeWaveDD S (fun _ => 0) q v F = 0 := by
  have hr : radialIntegral S.jn S.RiNIXS S.RjNIXS S.radialMesh q = fun _ => 0 := by
    funext k
    unfold radialIntegral
    rw [h.radial]
    simp [trapezoid]
  unfold planeWaveDD
  rw [hr]
  simp [between, Spec.planeWave]

theorem HoleSim.scatter (q : ℝ) : Resolved S (planeWaveDD S (fun _ => 0) q) ∧
    NoSmall (Spec.size S) (planeWaveDD S (fun _ => 0) q) S.slaterWeightMin S.restrictions :=
  ⟨h.resolved_single ∅ (fun _ _ _ => h.planeWave q _ _) (Or.inl (h.planeWave q _ _)),
    fun _ _ _ _ _ => Or.inl (h.planeWave q _ _)⟩

/-- The intermediate state of resonant scattering. -/
theorem HoleSim.intermediate {ε : Vec3 ℂ} (hε : ε ∈ ([⟨1, 0, 0⟩, ⟨0, 1, 0⟩, ⟨0, 0, 1⟩] : List (Vec3 ℂ))) {w : ℝ}
    (hw : -10 ≤ w ∧ w ≤ 20) {x : Vec ℂ}
    (hx : Solves 16 (hamilton S) ((w : ℂ) + Complex.I * S.delta + (S.es.getD 0 0 : ℂ))
      (excite S (dipolePD S.gaunt (fun _ => 0) ε) 0) x) :
    ∃ c, x = Spec.single ((range 16).erase 5) c ∧ (c = 0 ∨ 1e-4 ≤ Complex.normSq c) := by
  obtain ⟨h1, h2⟩ := h.dipole hε
  set T := dipolePD S.gaunt (fun _ => 0) ε with hT
  set z := (w : ℂ) + Complex.I * S.delta + (S.es.getD 0 0 : ℂ) with hz
  have hzim : z.im = 1 / 5 := by rw [hz, h.delta]; simp
  have hzre : z.re = w + ((holeEnergy lev) (range 15)).re := by rw [hz, h.delta, h.es]; simp
  have hz0 : z ≠ 0 := by intro h0; rw [h0] at hzim; norm_num at hzim
  have hb : ∀ G ⊆ range 16, excite S T 0 G = if AllowedOpt S.restrictions G ∧ (1e-7 : ℝ) ≤ abs2 (T (Spec.single (range 15) y) G)
      then T (Spec.single (range 15) y) G else 0 := by
    intro G hG
    unfold excite exciteVec excited
    rw [h.size, h.psi, h.cutoffs.2.1]
    simp only [hG, true_and]
  have key : ∀ G ⊆ range 16, x G ≠ 0 → (z - (holeEnergy lev) G) * x G = T (Spec.single (range 15) y) G ∧
      T (Spec.single (range 15) y) G ≠ 0 := by
    intro G hG hne
    have e1 := hx.inside G hG
    rw [hb G hG] at e1
    by_cases hr : AllowedOpt S.restrictions G
    · have e2 : hamilton S x G = (holeEnergy lev) G * x G := by
        unfold hamilton
        rw [h.size, h.cutoffs.2.2]
        exact h.diag.hamiltonian hG hr
      rw [e2, ← sub_mul] at e1
      have hn : (z - (holeEnergy lev) G) * x G ≠ 0 := by
        refine mul_ne_zero (fun h0 => ?_) hne
        have := congrArg Complex.im h0
        rw [Complex.sub_im, hzim, holeEnergy, Complex.ofReal_im, Complex.zero_im] at this
        norm_num at this
      split at e1
      · exact ⟨e1, e1 ▸ hn⟩
      · exact absurd e1 hn
    · exfalso
      rw [if_neg (fun hc => hr hc.1)] at e1
      have h0 : hamilton S x G = 0 := by
        unfold hamilton Spec.hamiltonian
        rw [h.size, if_pos hG]
        refine sum_eq_zero fun T _ => ?_
        unfold Spec.column
        rw [if_neg (fun h => hr h.1), zero_mul]
      rw [h0, sub_zero] at e1
      exact (mul_ne_zero hz0 hne) e1
  have hsub : (range 16).erase 5 ⊆ range 16 := erase_subset _ _
  refine ⟨x ((range 16).erase 5), ?_, ?_⟩
  · funext G
    unfold Spec.single
    split
    · next hG => rw [hG]
    · next hne =>
      by_cases hG : G ⊆ range 16
      · by_contra hc
        exact (key G hG hc).2 (h1 G hG hne)
      · exact hx.outside G hG
  · by_cases hc : x ((range 16).erase 5) = 0
    · exact Or.inl hc
    · right
      obtain ⟨e1, e2⟩ := key _ hsub hc
      have e3 := h2.resolve_left e2
      rw [← e1, Complex.normSq_mul] at e3
      have hgap : ((holeEnergy lev) ((range 16).erase 5)).re = ((holeEnergy lev) (range 15)).re + 1023 / 128 - lev := by
        have : ∑ i ∈ (range 16).erase 5, 2 ^ i = ∑ i ∈ range 15, 2 ^ i + 32736 := by decide +kernel
        unfold holeEnergy
        rw [Complex.ofReal_re, Complex.ofReal_re, this, show {i ∈ (range 16).erase 5 | i < 6}.card = 5 from by decide +kernel,
          show {i ∈ range 15 | i < 6}.card = 6 from by decide +kernel]
        push_cast
        ring
      have hlt : Complex.normSq (z - (holeEnergy lev) ((range 16).erase 5)) ≤ 333 := by
        rw [Complex.normSq_apply, Complex.sub_re, Complex.sub_im, hzim, hzre, hgap]
        have : ((holeEnergy lev) ((range 16).erase 5)).im = 0 := Complex.ofReal_im _
        rw [this]
        have h3 : (w + ((holeEnergy lev) (range 15)).re - (((holeEnergy lev) (range 15)).re + 1023 / 128 - lev)) = w - 1023 / 128 + lev := by ring
        rw [h3]
        have hl := CoreLevel.nonneg (lev := lev)
        have hl' := CoreLevel.le (lev := lev)
        nlinarith [hw.1, hw.2]
      have hnn := Complex.normSq_nonneg (x ((range 16).erase 5))
      nlinarith

theorem HoleSim.resonant {ε : Vec3 ℂ} (hε : ε ∈ ([⟨1, 0, 0⟩, ⟨0, 1, 0⟩, ⟨0, 0, 1⟩] : List (Vec3 ℂ))) {w : ℝ}
    (hw : -10 ≤ w ∧ w ≤ 20) :
    ResolvedRixs S w (dipolePD S.gaunt (fun _ => 0) ε) (dipoleDP S.gaunt (fun _ => 0) ⟨1, 0, 0⟩) := by
  intro i hi
  refine ⟨(h.absorb hε i hi).1, fun x hx => ?_⟩
  obtain rfl : i = 0 := by rw [h.es] at hi; simpa using hi
  rw [h.size] at hx
  obtain ⟨c, rfl, hc⟩ := h.intermediate hε hw hx
  have hval : ∀ G, dipoleDP S.gaunt (fun _ => 0) ⟨1, 0, 0⟩ (Spec.single ((range 16).erase 5) c) G
      = c * between (position holeSystem) 1 2 (fun m' m => star (Spec.dipole sympyGaunt 1 0 0 2 m 1 m'))
        (Spec.single ((range 16).erase 5) 1) G := by
    intro G
    unfold dipoleDP
    rw [h.gaunt, between_smul]
  have hlost : ∀ G, dipoleDP S.gaunt (fun _ => 0) ⟨1, 0, 0⟩ (Spec.single ((range 16).erase 5) c) G = 0 ∨
      (1e-7 ≤ Complex.normSq (dipoleDP S.gaunt (fun _ => 0) ⟨1, 0, 0⟩ (Spec.single ((range 16).erase 5) c) G) ∧
        Complex.normSq c / 30 ≤ Complex.normSq (dipoleDP S.gaunt (fun _ => 0) ⟨1, 0, 0⟩ (Spec.single ((range 16).erase 5) c) G)) := by
    intro G
    rw [hval]
    rcases hc with rfl | hc
    · left; rw [zero_mul]
    · rcases hole_back (S := G) with h0 | ⟨h0, -⟩
      · left; rw [h0, mul_zero]
      · right
        rw [Complex.normSq_mul]
        constructor <;> nlinarith
  have hle : ∀ G, Complex.normSq (dipoleDP S.gaunt (fun _ => 0) ⟨1, 0, 0⟩ (Spec.single ((range 16).erase 5) c) G)
      ≤ Complex.normSq c := by
    intro G
    rw [hval, Complex.normSq_mul]
    have hnn := Complex.normSq_nonneg c
    rcases hole_back (S := G) with h0 | ⟨-, h0⟩
    · rw [h0, Complex.normSq_zero, mul_zero]; exact hnn
    · nlinarith
  refine ⟨fun G _ _ => ?_, fun G hG => ?_, ?_⟩
  · rw [h.cutoffs.2.1]
    exact (hlost G).imp_right And.left
  · have hex : ∀ F, Complex.normSq (exciteVec S (dipoleDP S.gaunt (fun _ => 0) ⟨1, 0, 0⟩) (Spec.single ((range 16).erase 5) c) F)
        ≤ Complex.normSq c := by
      intro F
      unfold exciteVec excited
      split
      · exact hle F
      · rw [Complex.normSq_zero]; exact Complex.normSq_nonneg c
    have hsum : ∑ F ∈ (range (Spec.size S)).powerset,
        Complex.normSq (exciteVec S (dipoleDP S.gaunt (fun _ => 0) ⟨1, 0, 0⟩) (Spec.single ((range 16).erase 5) c) F)
        ≤ 2 ^ 16 * Complex.normSq c := by
      refine (sum_le_sum fun F _ => hex F).trans ?_
      rw [Finset.sum_const, card_powerset, card_range, h.size, nsmul_eq_mul]
      norm_num
    by_cases h0 : exciteVec S (dipoleDP S.gaunt (fun _ => 0) ⟨1, 0, 0⟩) (Spec.single ((range 16).erase 5) c) G = 0
    · exact Or.inl h0
    · right
      have e1 : exciteVec S (dipoleDP S.gaunt (fun _ => 0) ⟨1, 0, 0⟩) (Spec.single ((range 16).erase 5) c) G
          = dipoleDP S.gaunt (fun _ => 0) ⟨1, 0, 0⟩ (Spec.single ((range 16).erase 5) c) G := by
        unfold exciteVec excited at h0 ⊢
        split at h0
        · next hc => rw [if_pos hc]
        · exact absurd rfl h0
      rw [e1] at h0 ⊢
      have e2 := ((hlost G).resolve_left h0).2
      rw [h.cutoffs.2.1]
      refine le_trans (mul_le_mul_of_nonneg_left hsum (by norm_num)) (le_trans ?_ e2)
      have hnn := Complex.normSq_nonneg c
      nlinarith
  · refine h.exhausted_excite ((range 16).image fun q => (range 16).erase q) (card_image_le.trans (by simp)) ?_
    intro G hG hne
    rw [hval]
    refine mul_eq_zero_of_right _ ?_
    by_contra hc
    obtain ⟨p, q, a1, a2⟩ : ∃ p q, G \ (range 16).erase 5 = {p} ∧ (range 16).erase 5 \ G = {q} := by
      obtain ⟨s, -, m', -, m, -, -, a1, a2⟩ := (between_element (goodSystem_two (by decide) : GoodSystem holeSystem)
      (l := 1) (l' := 2) (by decide) (by decide) (by decide)
      (fun m' m => star (Spec.dipole sympyGaunt 1 0 0 2 m 1 m')) G ((range 16).erase 5)).resolve_left hc
      exact ⟨_, _, a1, a2⟩
    have hp : p ∈ G \ (range 16).erase 5 := a1 ▸ mem_singleton_self p
    rw [mem_sdiff, mem_erase] at hp
    have hp16 := hG hp.1
    obtain rfl : p = 5 := by by_contra h5; exact hp.2 ⟨h5, hp16⟩
    have hq : q ∈ (range 16).erase 5 \ G := a2 ▸ mem_singleton_self q
    rw [mem_sdiff, mem_erase] at hq
    refine hne (mem_image.2 ⟨q, hq.1.2, ?_⟩)
    ext i
    have b1 := Finset.ext_iff.1 a2 i
    simp only [mem_sdiff, mem_erase, mem_singleton] at b1 ⊢
    constructor
    · rintro ⟨c1, c2⟩
      by_contra hi
      by_cases h5 : i = 5
      · rw [h5] at hi; exact hi hp.1
      · exact c1 (b1.1 ⟨⟨h5, c2⟩, hi⟩)
    · intro hi
      exact ⟨fun hiq => hq.2 (hiq ▸ hi), hG hi⟩

theorem HoleSim.allResolved : AllResolved (fun _ => 0) S where
  add j _ := h.ladder _ true
  remove j _ := h.ladder _ false
  core j _ := h.ladder _ false
  absorb ε hε := h.absorb (by rw [← h.epsilons.1]; exact hε)
  scatter q _ := h.scatter q
  resonant ε hε w hw := h.resonant (by rw [← h.epsilons.2]; exact hε) (by
    obtain ⟨k, hk, rfl⟩ := List.getElem_of_mem hw
    rw [h.wIn.2 k hk]
    have hk' : (k : ℝ) ≤ 49 := by
      have := h.wIn.1
      have : k ≤ 49 := by omega
      exact_mod_cast this
    have : (0 : ℝ) ≤ k := Nat.cast_nonneg k
    push_cast
    constructor <;> linarith)

end

/-- In every such run of `main` the cutoffs are harmless. -/
theorem hole2_resolved [CoreLevel lev] {L : MainLib} {T : ℝ} (hL : L.gaunt = sympyGaunt) (hT : 0 < T) (hk : 0 < L.kB) (hcold : 10 * (L.kB * T) ≤ 4)
    {energies : List ℝ} {psis : List (Psi ℂ)} {S : SimulateArgs}
    (hrun : MainRun L (hole2Args lev T) (fun _ => 0) holeParams 0 0 0 (holeLevels lev) energies psis S) :
    S.es.length < energies.length ∧
    (∀ psi ∈ S.psis, ∑ F ∈ (range (size S)).powerset, Complex.normSq (ampl (size S) psi F) = 1) ∧
    AllResolved (fun _ => 0) S := by
  classical
  have hcount : energies.length = 2 := hrun.count
  have hlow := hrun.lowest
  rw [show nTotal (pdSystem fun _ => 0) = 16 from holeSystem_size] at hlow
  have hD : DiagonalOp 16 S.hOp 1e-12 (holeEnergy lev) := hole_diagonal fun v F hF => by
    rw [hrun.hamiltonian v F]
    exact hole_pdHamiltonian L.gaunt lev T [] v hF
  have hlow' : LowestStates 16 S.hOp 1e-12 1e-7 holeStates.toFinset energies psis := by
    rw [← hole_filter hL]
    convert hlow
  have hlp := hlow'.2.1
  obtain ⟨he0, ⟨y, hy, hy1⟩, hgap⟩ := hole_lowest hD hlow' (by omega) (by omega)
  obtain ⟨e0, e1, rfl⟩ := List.length_eq_two.1 hcount
  obtain ⟨psi0, psi1, rfl⟩ := List.length_eq_two.1 (hlp.trans hcount)
  have hgap : e0 + 4 ≤ e1 := hgap 1 (by simp) one_pos
  have hpos : 0 < 10 * (L.kB * T) := by positivity
  obtain ⟨k1, k2⟩ := hrun.kept
  have k3 := k2 e0 (by simp) (by simp; linarith)
  have hno : ¬ e1 - e0 < 10 * (L.kB * T) := by linarith
  have k4 : S.es.zip S.psis = [(e0, psi0)] := by
    rw [k3]
    show List.filter (fun p => decide (p.1 - e0 < 10 * (L.kB * T))) [(e0, psi0), (e1, psi1)] = _
    simp [hpos, hno]
  have hes : S.es = [e0] := by
    have := congrArg (List.map Prod.fst) k4
    rwa [List.map_fst_zip (by omega)] at this
  have hps : S.psis = [psi0] := by
    have := congrArg (List.map Prod.snd) k4
    rwa [List.map_snd_zip (by omega)] at this
  have hy : ampl 16 psi0 = Spec.single (range 15) y := hy
  have hsz : size S = 16 := by unfold size; rw [hrun.system]; exact holeSystem_size
  refine ⟨by rw [hes]; simp, ?_, ?_⟩
  · rw [hps, hsz]
    intro psi hp
    obtain rfl := List.mem_singleton.1 hp
    rw [hy, Finset.sum_eq_single (range 15)]
    · rw [show Spec.single (range 15) y (range 15) = y from if_pos rfl, hy1]
    · intro F _ hne
      rw [show Spec.single (range 15) y F = 0 from if_neg hne, Complex.normSq_zero]
    · intro hn
      exact absurd (mem_powerset.2 (range_subset_range.2 (by norm_num))) hn
  · exact HoleSim.allResolved (y := y) {
      size := hsz
      diag := hD
      cutoffs := hrun.args.cutoffs
      gaunt := hrun.args.library.1.trans hL
      epsilons := ⟨hrun.args.epsilons, hrun.args.epsilonsRIXS.1⟩
      wIn := hrun.args.wIn
      delta := hrun.args.delta
      radial := hrun.args.radial.1
      es := by rw [hes]; exact congrArg (fun e => [e]) he0
      psi := by rw [hps]; exact hy
      norm := hy1 }

end

end Verif
