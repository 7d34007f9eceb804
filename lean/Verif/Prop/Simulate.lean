/-
C62: simulate_spectra on any number of ranks.  C63: what simulate_spectra stores.
-/
import Verif.Lemmas.SimulateValue
import Verif.Lemmas.SimulateExample
import Verif.Prop.SpectraSign
import Verif.Prop.Spectra
import Verif.Prop.Rixs

namespace Verif

open Finset Mpi Psr Spec Matrix

noncomputable section

/-! ### C62 -/

section
variable {S : SimulateArgs} (hS : S.Valid) (hout : S.OutLarge)

include hS hout in
/-- C62.  What `simulate_spectra` stores does not depend on the number of ranks, the
orders of the sets on the ranks or the schedule: either there is one collection of
data, files and tables such that for every number of ranks, in all executions, all
ranks finish, rank 0 stores it and the other ranks store nothing; or for no number of
ranks and in no execution do all ranks finish. -/
theorem C62_ranks :
    (∃ s : Simulated, ∀ (N : ℕ), 0 < N → ∀ (ord : Fin N → ℕ → ℕ → ℕ → SetOrders), (∀ k c t i, (ord k c t i).Valid) →
      ∀ (ordRixs : Fin N → List ℕ → SetOrders), (∀ k l, (ordRixs k l).Valid) →
      AllRanksFinish msgSum (fun k : Fin N => simulateSpectra S (ord k) (ordRixs k) k.val N)
        (fun k => if k.val = 0 then some s else none)) ∨
    (∀ (N : ℕ), 0 < N → ∀ (ord : Fin N → ℕ → ℕ → ℕ → SetOrders), (∀ k c t i, (ord k c t i).Valid) →
      ∀ (ordRixs : Fin N → List ℕ → SetOrders), (∀ k l, (ordRixs k l).Valid) → ∀ out,
      ¬ CanFinish msgSum (fun k : Fin N => simulateSpectra S (ord k) (ordRixs k) k.val N) out) := by
  cases hr : refSimulate S with
  | ok s =>
    left
    refine ⟨s, fun N hN ord hord ordR hordR => ?_⟩
    have := simulate_settles hN hS hout ord hord ordR hordR
    rw [hr] at this
    obtain ⟨out, rfl, hrun⟩ := this
    exact hrun.allRanksFinish
  | error e =>
    right
    intro N hN ord hord ordR hordR out
    have := simulate_settles hN hS hout ord hord ordR hordR
    rw [hr] at this
    exact RunsToFail.not_canFinish this out

end

/-! ### C63 -/

section
variable {S : SimulateArgs} (hS : S.Valid) (hout : S.OutLarge) {N : ℕ} (hN : 0 < N)
  {ord : Fin N → ℕ → ℕ → ℕ → SetOrders} (hord : ∀ k c t i, (ord k c t i).Valid)
  {ordRixs : Fin N → List ℕ → SetOrders} (hordR : ∀ k l, (ordRixs k l).Valid) {out : Fin N → Option Simulated}
  (hfin : CanFinish msgSum (fun k : Fin N => simulateSpectra S (ord k) (ordRixs k) k.val N) out)

include hS hout hord hordR hfin in
/-- The steps of an execution that finishes. -/
theorem simulate_steps : ∃ s, out ⟨0, hN⟩ = some s ∧ Nonempty (SimulateSteps S s) := by
  obtain ⟨s, h1, h2⟩ := (simulate_settles hN hS hout ord hord ordRixs hordR).canFinish hfin
  exact ⟨s, by rw [h2]; rfl, refSimulate_steps h1⟩

variable {s : Simulated} (hs : out ⟨0, hN⟩ = some s)

include hS hout hord hordR hfin hs in
theorem simulate_steps' : Nonempty (SimulateSteps S s) := by
  obtain ⟨s', h1, h2⟩ := simulate_steps hS hout hN hord hordR hfin
  rw [hs] at h1
  cases h1
  exact h2

include hS hout hord hordR hfin hs in
/-- C63, the averages and tables.  For photoemission (10 operators), XPS (6 operators),
NIXS (one operator per vector `q`) and XAS (one operator per polarisation), the
thermal data set is the Boltzmann average of the data set of the eigenstates, and
the table has for each point of the mesh one row: the point, the sum over the
operators, the value of each operator. -/
theorem C63_tables :
    FilesOf S.kB S.T S.es S.w 10 s.ps ∧ FilesOf S.kB S.T S.es S.w 6 s.xps ∧
    FilesOf S.kB S.T S.es S.wLoss S.qsNIXS.length s.nixs ∧ FilesOf S.kB S.T S.es S.w S.epsilons.length s.xas := by
  obtain ⟨st⟩ := simulate_steps' hS hout hN hord hordR hfin hs
  have h1 := (spectrumFiles_spec st.psFiles).2
  have h2 := (spectrumFiles_spec st.xpsFiles).2
  have h3 := (spectrumFiles_spec st.nixsFiles).2
  have h4 := (spectrumFiles_spec st.xasFiles).2
  have e1 : st.ips.length = 10 := by rw [inversePhoto_spec hS.good st.ips_eq]; simp
  have e2 : st.xps.length = 6 := by rw [photo_spec hS.good st.xps_eq]; simp
  have e3 : st.nixs.length = S.qsNIXS.length := collect_length st.nixs_eq
  have e4 : st.xas.length = S.epsilons.length := collect_length st.xas_eq
  rw [e1] at h1
  rw [e2] at h2
  rw [e3] at h3
  rw [e4] at h4
  exact ⟨h1, h2, h3, h4⟩

variable (hdict : Dict.NodupKeys S.hOp) (hh : isHermitianOp S.hOp)

include hS hout hord hordR hfin hs hdict hh in
/-- C63, photoemission and inverse photoemission.  The value of eigenstate `i`, the
`j`-th spin-orbital of the shell `l = 2` and the `k`-th energy `w` is
`-Im (⟨c† psi| (w + i delta + e - H)⁻¹ |c† psi⟩ - ⟨c psi| (-(w + i delta) + e - H)⁻¹ |c psi⟩)`. -/
theorem C63_photoemission (hw : S.slaterWeightMin ≤ 1) (i j k : ℕ) (hi : i < S.es.length) (hj : j < 10)
    (hk : k < S.w.length)
    (hadd : KrylovExhausted (hamilton S) S.krylovSize (excite S (create (impStart (intKeys S.nBaths) 2 + j)) i))
    (hrem : KrylovExhausted (hamilton S) S.krylovSize (excite S (annihilate (impStart (intKeys S.nBaths) 2 + j)) i)) :
    ∃ add rem, IsResponse S (create (impStart (intKeys S.nBaths) 2 + j)) i ((S.w[k] : ℂ) + Complex.I * S.delta) add ∧
      IsResponse S (annihilate (impStart (intKeys S.nBaths) 2 + j)) i (-((S.w[k] : ℂ) + Complex.I * S.delta)) rem ∧
      s.ps.data i j k = -(add - rem).im := by
  obtain ⟨st⟩ := simulate_steps' hS hout hN hord hordR hfin hs
  have p1 := inversePhoto_spec hS.good st.ips_eq
  have p2 := photo_spec hS.good st.ps_eq
  have j1 : j < st.ips.length := by rw [p1]; simpa using hj
  have j2 : j < st.ps.length := by rw [p2]; simpa using hj
  have o1 : st.ips[j] = [([(impStart (intKeys S.nBaths) 2 + j, .c)], 1)] := by simp [p1]
  have o2 : st.ps[j] = [([(impStart (intKeys S.nBaths) 2 + j, .a)], 1)] := by simp [p2]
  have t1 : operator (opSpec st.ips[j]) = create (impStart (intKeys S.nBaths) 2 + j) := by
    rw [o1]; funext v; exact operator_photo _ .c v
  have t2 : operator (opSpec st.ps[j]) = annihilate (impStart (intKeys S.nBaths) 2 + j) := by
    rw [o2]; funext v; exact operator_photo _ .a v
  obtain ⟨l1, g1⟩ := response_of hS hdict hh hS.delta (inversePhoto_okIn hS.good 2 _ st.ips_eq) st.gIps_eq hi j1 hk t1
    (by rw [← t1, o1]; exact noSmall_photo _ _ .c hw _) hadd
  have hk' : k < (S.w.map fun x => -x).length := by simpa using hk
  obtain ⟨l2, g2⟩ := response_of hS hdict hh (neg_ne_zero.2 hS.delta) (photo_okIn hS.good 2 _ st.ps_eq) st.gPs_eq hi j2 hk' t2
    (by rw [← t2, o2]; exact noSmall_photo _ _ .a hw _) hrem
  refine ⟨_, (st.gPs.root i j).getD k 0, g1, ?_, ?_⟩
  · convert g2 using 1
    rw [List.getElem_map]
    push_cast
    ring
  · rw [(spectrumFiles_spec st.psFiles).1, add_getD, negate_getD]
    · simp only [Complex.add_im, Complex.neg_im, Complex.sub_im]
      ring
    · rw [l1]
      unfold Spectra.negate
      rw [List.length_map, l2, List.length_map]

include hS hout hord hordR hfin hs hdict hh in
/-- C63, XPS.  The value of eigenstate `i`, the `j`-th spin-orbital of the shell `l = 1` and
the `k`-th energy `w` is `Im ⟨c psi| (-(w + i delta) + e - H)⁻¹ |c psi⟩`. -/
theorem C63_xps (hw : S.slaterWeightMin ≤ 1) (i j k : ℕ) (hi : i < S.es.length) (hj : j < 6) (hk : k < S.w.length)
    (hrem : KrylovExhausted (hamilton S) S.krylovSize (excite S (annihilate (impStart (intKeys S.nBaths) 1 + j)) i)) :
    ∃ rem, IsResponse S (annihilate (impStart (intKeys S.nBaths) 1 + j)) i (-((S.w[k] : ℂ) + Complex.I * S.delta)) rem ∧
      s.xps.data i j k = rem.im := by
  obtain ⟨st⟩ := simulate_steps' hS hout hN hord hordR hfin hs
  have p2 := photo_spec hS.good st.xps_eq
  have j2 : j < st.xps.length := by rw [p2]; simpa using hj
  have o2 : st.xps[j] = [([(impStart (intKeys S.nBaths) 1 + j, .a)], 1)] := by simp [p2]
  have t2 : operator (opSpec st.xps[j]) = annihilate (impStart (intKeys S.nBaths) 1 + j) := by
    rw [o2]; funext v; exact operator_photo _ .a v
  have hk' : k < (S.w.map fun x => -x).length := by simpa using hk
  obtain ⟨-, g2⟩ := response_of hS hdict hh (neg_ne_zero.2 hS.delta) (photo_okIn hS.good 1 _ st.xps_eq) st.gXps_eq hi j2 hk' t2
    (by rw [← t2, o2]; exact noSmall_photo _ _ .a hw _) hrem
  refine ⟨(st.gXps.root i j).getD k 0, ?_, ?_⟩
  · convert g2 using 1
    rw [List.getElem_map]
    push_cast
    ring
  · rw [(spectrumFiles_spec st.xpsFiles).1, negate_getD, Complex.neg_im, neg_neg]

variable {l1 l2 b1 b2 : ℕ} (hsys : S.nBaths = [(l1, b1), (l2, b2)])

include hS hout hord hordR hfin hs hdict hh hsys in
/-- C63, XAS.  The value of eigenstate `i`, the `t`-th polarisation `ε` and the `k`-th
energy `w` is `-Im ⟨T psi| (w + i delta + e - H)⁻¹ |T psi⟩` with the dipole operator `T = ε·r/|r|`
from the first to the second shell. -/
theorem C63_xas (i t k : ℕ) (hi : i < S.es.length) (ht : t < S.epsilons.length) (hk : k < S.w.length)
    (T : Vec ℂ → Vec ℂ) (hT : T = between (position (intKeys S.nBaths)) l2 l1
      (fun m m' => dipole S.gaunt S.epsilons[t].x S.epsilons[t].y S.epsilons[t].z l2 m l1 m'))
    (hsmall : NoSmall (size S) T S.slaterWeightMin S.restrictions)
    (hkry : KrylovExhausted (hamilton S) S.krylovSize (excite S T i)) :
    ∃ g, IsResponse S T i ((S.w[k] : ℂ) + Complex.I * S.delta) g ∧ s.xas.data i t k = -g.im := by
  obtain ⟨st⟩ := simulate_steps' hS hout hN hord hordR hfin hs
  have hne : l1 ≠ l2 := by
    have := hS.nBaths
    rw [hsys] at this
    simpa [Dict.NodupKeys, Dict.keys] using this
  have he := st.xas_eq
  have hiK : intKeys S.nBaths = [(.int l1, b1), (.int l2, b2)] := by rw [hsys]; rfl
  rw [hiK] at he hT
  obtain ⟨hl, ho⟩ := dipoles_spec S.gaunt hne he
  obtain ⟨-, g⟩ := response_of hS hdict hh hS.delta (dipoles_okIn S.gaunt hS.good _ _ st.xas_eq) st.gXas_eq hi (hl ▸ ht) hk
    ((ho t ht).trans hT.symm) hsmall hkry
  exact ⟨_, g, (spectrumFiles_spec st.xasFiles).1 i t k⟩

include hS hout hord hordR hfin hs hdict hh in
/-- C63, NIXS.  The value of eigenstate `i`, the `t`-th vector `q` and the `k`-th energy
loss `w` is `-Im ⟨T psi| (w + i deltaNIXS + e - H)⁻¹ |T psi⟩`, where `T` is `1/√4π` times the operator
`exp(i q·r)` between the shells, with the azimuth `|φ|` instead of `φ` (C46). -/
theorem C63_nixs (hG : GauntRules S.gaunt) (hli : S.liNIXS ∈ Dict.keys S.nBaths) (hlj : S.ljNIXS ∈ Dict.keys S.nBaths)
    (h1 : S.RiNIXS.length = S.radialMesh.length) (h2 : S.RjNIXS.length = S.radialMesh.length)
    (i t k : ℕ) (hi : i < S.es.length) (ht : t < S.qsNIXS.length) (hk : k < S.wLoss.length)
    (qn θ φ : ℝ) (hq : 0 < qn) (hθ : 0 < θ) (hθ' : θ < Real.pi) (hφ : |φ| ≤ Real.pi)
    (hx : S.qsNIXS[t].x = qn * (Real.sin θ * Real.cos φ)) (hy : S.qsNIXS[t].y = qn * (Real.sin θ * Real.sin φ))
    (hz : S.qsNIXS[t].z = qn * Real.cos θ)
    (T : Vec ℂ → Vec ℂ) (hT : T = fun v F => ((Real.sqrt (4 * Real.pi) : ℝ) : ℂ)⁻¹ *
      between (position (intKeys S.nBaths)) S.liNIXS S.ljNIXS (fun mi mj =>
        planeWave S.gaunt S.sphHarm (radialIntegral S.jn S.RiNIXS S.RjNIXS S.radialMesh qn) θ |φ| S.kmin
          (S.liNIXS + S.ljNIXS) S.liNIXS mi S.ljNIXS mj) v F)
    (hsmall : NoSmall (size S) T S.slaterWeightMin S.restrictions)
    (hkry : KrylovExhausted (hamilton S) S.krylovSize (excite S T i)) :
    ∃ g, IsResponse S T i ((S.wLoss[k] : ℂ) + Complex.I * S.deltaNIXS) g ∧ s.nixs.data i t k = -g.im := by
  obtain ⟨st⟩ := simulate_steps' hS hout hN hord hordR hfin hs
  have hcol := collect_get st.nixs_eq
  have ht' : t < st.nixs.length := hcol.length_eq ▸ ht
  have heq := (List.forall₂_iff_get.1 hcol).2 t ht ht'
  simp only [List.get_eq_getElem] at heq
  obtain ⟨tOp, e, -, -, -, hm⟩ := C46_operator S.gaunt hG S.sphHarm S.jn (intKeys S.nBaths) hS.good S.liNIXS S.ljNIXS
    (by rw [allAngulars_intKeys]; exact hli) (by rw [allAngulars_intKeys]; exact hlj)
    S.RiNIXS S.RjNIXS S.radialMesh h1 h2 S.kmin _ le_rfl _ qn θ φ hq hθ hθ' hφ hx hy hz
  rw [e] at heq
  have heq := Except.ok.inj heq
  obtain ⟨-, g⟩ := response_of hS hdict hh hS.deltaNIXS (nixss_okIn _ _ _ hS.good _ _ _ _ _ _ _ _ st.nixs_eq) st.gNixs_eq hi
    ht' hk (T := T) (by
      rw [← heq, hT]
      funext v F
      rw [← hm v F, inv_mul_cancel_left₀]
      rw [Ne, Complex.ofReal_eq_zero]
      exact Real.sqrt_ne_zero'.2 (by positivity)) hsmall hkry
  exact ⟨_, g, (spectrumFiles_spec st.nixsFiles).1 i t k⟩

include hS hout hord hordR hfin hs hdict hh hsys in
/-- C63, RIXS.  The value of eigenstate `i`, in-coming polarisation `ε`, any out-going
polarisation, in-coming energy `wIn` and energy loss `wLoss` is
`-Im ⟨x| T'⁺ (wLoss + i deltaRIXS + e - H)⁻¹ T' |x⟩` with `x = (wIn + i delta + e - H)⁻¹ T |psi⟩`,
the dipole operator `T` of `ε` and the adjoint `T'` of the dipole operator of the *first*
out-going polarisation (C44). -/
theorem C63_rixs (hsolve : ExactSolver S.solve) (i a c d k : ℕ) (hi : i < S.es.length)
    (ha : a < S.epsilonsRIXSin.length) (hc : c < S.epsilonsRIXSout.length) (hd : d < S.wIn.length)
    (hk : k < S.wLoss.length)
    (T : Vec ℂ → Vec ℂ) (hT : T = between (position (intKeys S.nBaths)) l2 l1 (fun m m' =>
      dipole S.gaunt S.epsilonsRIXSin[a].x S.epsilonsRIXSin[a].y S.epsilonsRIXSin[a].z l2 m l1 m'))
    (T' : Vec ℂ → Vec ℂ) (hT' : T' = between (position (intKeys S.nBaths)) l1 l2 (fun m' m =>
      star (dipole S.gaunt (S.epsilonsRIXSout[0]'(Nat.zero_lt_of_lt hc)).x (S.epsilonsRIXSout[0]'(Nat.zero_lt_of_lt hc)).y
        (S.epsilonsRIXSout[0]'(Nat.zero_lt_of_lt hc)).z l2 m l1 m')))
    (hsmall : NoSmall (size S) T S.slaterWeightMin S.restrictions)
    (hres : ∀ x, Solves (size S) (hamilton S) ((S.wIn[d] : ℂ) + Complex.I * S.delta + (S.es.getD i 0 : ℂ)) (excite S T i) x →
      NoneDropped (size S) S.slaterWeightMin (exciteVec S T' x) ∧
      KrylovExhausted (hamilton S) S.krylovSize (exciteVec S T' x)) :
    ∃ g, IsRixs (size S) (hamilton S) ((S.wIn[d] : ℂ) + Complex.I * S.delta + (S.es.getD i 0 : ℂ))
        ((S.wLoss[k] : ℂ) + Complex.I * S.deltaRIXS + (S.es.getD i 0 : ℂ)) (excite S T i) (exciteVec S T') g ∧
      s.rixs.data i a c d k = -g.im := by
  obtain ⟨st⟩ := simulate_steps' hS hout hN hord hordR hfin hs
  have hne : l1 ≠ l2 := by
    have := hS.nBaths
    rw [hsys] at this
    simpa [Dict.NodupKeys, Dict.keys] using this
  have he := st.rin_eq
  have he' := st.rout_eq
  have hn : nSpinOrbitals S.nBaths = size S := nSpinOrbitals_eq _
  have hin : ∀ op ∈ st.rin, OpInSystem (nSpinOrbitals S.nBaths) op := by
    rw [hn]; exact dipoles_okIn S.gaunt hS.good _ _ st.rin_eq
  have hrout : ∀ op ∈ st.rout, OpInSystem (nSpinOrbitals S.nBaths) op := by
    rw [hn]; exact daggered_okIn S.gaunt hS.good _ _ st.rout_eq
  have hiK : intKeys S.nBaths = [(.int l1, b1), (.int l2, b2)] := by rw [hsys]; rfl
  rw [hiK] at he he' hT hT'
  obtain ⟨hl, ho⟩ := dipoles_spec S.gaunt hne he
  obtain ⟨hl', ho'⟩ := daggered_spec S.gaunt hne he'
  have hx := st.gRixs_eq
  have hfiles := (rixsFiles_spec st.rixsFiles).1
  have h0 := ho' 0 (Nat.zero_lt_of_lt hc)
  have hc' : c < st.rout.length := hl' ▸ hc
  obtain ⟨op0, rest, hro⟩ : ∃ op0 rest, st.rout = op0 :: rest := by
    cases h : st.rout with
    | nil => rw [h] at hc'; simp at hc'
    | cons op0 rest => exact ⟨op0, rest, rfl⟩
  have hop0 : st.rout[0]'(Nat.zero_lt_of_lt hc') = op0 := by simp [hro]
  rw [hop0] at h0
  rw [hro] at hx hrout hc'
  have hTe : operator (opSpec (st.rin[a]'(hl ▸ ha))) = T := (ho a ha).trans hT.symm
  have hT0 : exciteVec S T' = transition (size S) op0 S.slaterWeightMin S.restrictions := by
    refine (excited_congr (fun v F hF => ?_) _ _ : _ = excited (size S) (operator (opSpec op0)) _ _)
    rw [hT']
    refine (h0 v F ?_).symm
    unfold size at hF
    rwa [hiK] at hF
  rw [hT0] at hres ⊢
  subst hTe
  have key := refRixs_meaning (A := S.rixs) hS.rixs hin hS.enough hS.states hdict hh hS.delta hsolve
    (hrout op0 (by simp)) hx i a c d hi (hl ▸ ha) hc' hd (by
      intro F hF F' hF' hal
      have hF : F ⊆ range (nSpinOrbitals S.nBaths) := hF
      have hF' : F' ⊆ range (nSpinOrbitals S.nBaths) := hF'
      rw [hn] at hF hF'
      exact hsmall F' hF' F hF hal) (by
      show ∀ x, Solves (nSpinOrbitals S.nBaths) (hamiltonian (nSpinOrbitals S.nBaths) S.hOp S.cut S.restrictions)
          ((S.wIn[d] : ℂ) + Complex.I * (S.delta : ℂ) + (S.es.getD i 0 : ℂ))
          (excitation (nSpinOrbitals S.nBaths) (st.rin[a]'(hl ▸ ha)) S.slaterWeightMin S.restrictions (S.psis.getD i [])) x →
        NoneDropped (nSpinOrbitals S.nBaths) S.slaterWeightMin
          (transition (nSpinOrbitals S.nBaths) op0 S.slaterWeightMin S.restrictions x) ∧
        ¬ LinearIndependent ℂ (fun i : Fin (S.krylovSize + 1) =>
          (hamiltonian (nSpinOrbitals S.nBaths) S.hOp S.cut S.restrictions)^[i.val]
            (transition (nSpinOrbitals S.nBaths) op0 S.slaterWeightMin S.restrictions x))
      rw [hn]
      exact hres)
  have key := forall2_getD key 0 hk
  have key : IsRixs (nSpinOrbitals S.nBaths) (hamiltonian (nSpinOrbitals S.nBaths) S.hOp S.cut S.restrictions)
      ((S.wIn[d] : ℂ) + Complex.I * S.delta + (S.es.getD i 0 : ℂ))
      ((S.wLoss[k] : ℂ) + Complex.I * S.deltaRIXS + (S.es.getD i 0 : ℂ))
      (excitation (nSpinOrbitals S.nBaths) (st.rin[a]'(hl ▸ ha)) S.slaterWeightMin S.restrictions (S.psis.getD i []))
      (transition (nSpinOrbitals S.nBaths) op0 S.slaterWeightMin S.restrictions)
      ((st.gRixs.root i a c d).getD k 0) := key
  rw [hn] at key
  exact ⟨_, key, hfiles i a c d k⟩

include hS hout hord hordR hfin hs in
/-- C63, the RIXS averages and the file: the thermal data set is the Boltzmann average,
and `plotRIXS.py` reads from `RIXS.bin` the energy losses, the in-coming energies and, for
each pair, the sum over both polarisations, all as `float32`. -/
theorem C63_rixs_file (hf : S.f32 S.wIn.length = S.wIn.length) :
    (∀ a c d k, IsThermal S.kB S.T S.es (fun i => s.rixs.data i a c d k) (s.rixs.thermal a c d k)) ∧
    readRIXS s.rixs.file = .ok (S.wLoss.map S.f32, S.wIn.map S.f32,
      (List.range S.wLoss.length).map fun k => (List.range S.wIn.length).map fun d =>
        S.f32 (∑ a ∈ range S.epsilonsRIXSin.length, ∑ c ∈ range S.epsilonsRIXSout.length, s.rixs.thermal a c d k)) := by
  obtain ⟨st⟩ := simulate_steps' hS hout hN hord hordR hfin hs
  obtain ⟨-, h2, h3⟩ := rixsFiles_spec st.rixsFiles
  have e1 : st.rin.length = S.epsilonsRIXSin.length := collect_length st.rin_eq
  have e2 : st.rout.length = S.epsilonsRIXSout.length := collect_length st.rout_eq
  refine ⟨h2, ?_⟩
  rw [h3, C48_rixs_file _ _ _ hf, e1, e2]
  congr 2
  · apply List.ext_getElem <;> simp
  · congr 1
    · apply List.ext_getElem <;> simp
    · apply List.ext_getElem
      · simp
      · intro k hk hk'
        apply List.ext_getElem <;> simp

end

/-! ### The hypotheses are met -/

theorem exSim_response {gaunt : GauntFun} {sphHarm : SphHarm} {jn : SphericalJn} {c : ℝ} {T : Vec ℂ → Vec ℂ} {m : ℕ} {z g : ℂ}
    (hz : z.im ≠ 0) (hv : Electrons m (excite (exSim gaunt sphHarm jn c) T 0))
    (h : IsResponse (exSim gaunt sphHarm jn c) T 0 z g) :
    g = innerProduct 16 (excite (exSim gaunt sphHarm jn c) T 0) (excite (exSim gaunt sphHarm jn c) T 0) / (z - m) := by
  obtain ⟨x, -, hu, hg⟩ := h
  rw [exSim_size] at hu hg
  have hz' : z - m ≠ 0 := fun h => hz (by have := congrArg Complex.im h; simpa using this)
  have hv' : Electrons m (fun F => excite (exSim gaunt sphHarm jn c) T 0 F / (z - m)) :=
    fun F hF => hv F (div_ne_zero_iff.1 hF).1
  have hx := hu (fun F => excite (exSim gaunt sphHarm jn c) T 0 F / (z - m)) (by
    refine ⟨fun F _ => ?_, fun F hF => ?_⟩
    · rw [exSim_hamilton gaunt sphHarm jn c hv']
      have : ((exSim gaunt sphHarm jn c).es.getD 0 0 : ℝ) = 0 := rfl
      rw [this, Complex.ofReal_zero, add_zero, ← sub_mul, mul_div_cancel₀ _ hz']
    · by_contra h
      exact hF (hv' F h).1)
  rw [hg, ← hx]
  unfold innerProduct
  rw [Finset.sum_div]
  exact Finset.sum_congr rfl fun F _ => by rw [mul_div_assoc]

/-- The hypotheses of `C62_ranks` and of all parts of C63 are met together: for a p^6 d^1
configuration with a Hamiltonian that counts the electrons and a small cutoff, on any
number of ranks, all ranks finish.  A value that is stored is not zero: adding an
electron to the second d spin-orbital costs the energy 8, and the mesh point is at 8. -/
theorem exSim_meets {gaunt : GauntFun} (hG : GauntRules gaunt) (sphHarm : SphHarm) (jn : SphericalJn) :
    ∃ c : ℝ, ∃ S : SimulateArgs, S = exSim gaunt sphHarm jn c ∧ S.Valid ∧ S.OutLarge ∧ Dict.NodupKeys S.hOp ∧
      isHermitianOp S.hOp ∧ ExactSolver S.solve ∧ S.slaterWeightMin ≤ 1 ∧ S.f32 S.wIn.length = S.wIn.length ∧
      (∀ i, KrylovExhausted (hamilton S) S.krylovSize (excite S (create i) 0)) ∧
      (∀ i, KrylovExhausted (hamilton S) S.krylovSize (excite S (annihilate i) 0)) ∧
      (NoSmall (size S) (exDip gaunt) S.slaterWeightMin S.restrictions ∧
        KrylovExhausted (hamilton S) S.krylovSize (excite S (exDip gaunt) 0)) ∧
      (NoSmall (size S) (exNixs gaunt sphHarm jn) S.slaterWeightMin S.restrictions ∧
        KrylovExhausted (hamilton S) S.krylovSize (excite S (exNixs gaunt sphHarm jn) 0)) ∧
      (∀ x, Solves (size S) (hamilton S) (((7 : ℝ) : ℂ) + Complex.I * ((1 : ℝ) : ℂ) + ((0 : ℝ) : ℂ)) (excite S (exDip gaunt) 0) x →
        NoneDropped (size S) S.slaterWeightMin (exciteVec S (exDip' gaunt) x) ∧
        KrylovExhausted (hamilton S) S.krylovSize (exciteVec S (exDip' gaunt) x)) ∧
      ∃ s : Simulated, s.ps.data 0 1 0 = 1 ∧
        ∀ (N : ℕ), 0 < N → ∀ (ord : Fin N → ℕ → ℕ → ℕ → SetOrders), (∀ k c t i, (ord k c t i).Valid) →
        ∀ (ordRixs : Fin N → List ℕ → SetOrders), (∀ k l, (ordRixs k l).Valid) →
        AllRanksFinish msgSum (fun k : Fin N => simulateSpectra S (ord k) (ordRixs k) k.val N)
          (fun k => if k.val = 0 then some s else none) := by
  obtain ⟨c, hc⟩ := exists_exCut gaunt sphHarm jn
  have hS := exSim_valid gaunt sphHarm jn c hc.pos
  have hout := exSim_outLarge hc
  have hdict : Dict.NodupKeys (exSim gaunt sphHarm jn c).hOp := nodup_castOp countAll_nodup
  have hh : isHermitianOp (exSim gaunt sphHarm jn c).hOp := hermitian_castOp countAll_hermitian
  have hcr : ∀ i, Electrons 8 (excite (exSim gaunt sphHarm jn c) (create i) 0) := by
    intro i
    unfold excite
    rw [exSim_psi]
    exact exSim_exciteVec gaunt sphHarm jn c fun F hF => card_create single_card hF
  have han : ∀ i, Electrons 6 (excite (exSim gaunt sphHarm jn c) (annihilate i) 0) := by
    intro i
    unfold excite
    rw [exSim_psi]
    exact exSim_exciteVec gaunt sphHarm jn c fun F hF => by have := card_annihilate single_card hF; omega
  refine ⟨c, _, rfl, hS, hout, hdict, hh, ?_, hc.le_one, rfl,
    fun i => exSim_krylov gaunt sphHarm jn c (hcr i), fun i => exSim_krylov gaunt sphHarm jn c (han i),
    ⟨?_, ?_⟩, ⟨?_, ?_⟩, ?_, ?_⟩
  · intro d a y ha
    show a *ᵥ (a⁻¹ *ᵥ y) = y
    rw [Matrix.mulVec_mulVec, Matrix.mul_nonsing_inv a ((Matrix.isUnit_iff_isUnit_det a).1 ha), Matrix.one_mulVec]
  · rw [exSim_size]; exact hc.dip
  · refine exSim_krylov gaunt sphHarm jn c (m := 7) ?_
    unfold excite
    rw [exSim_psi]
    exact exSim_exciteVec gaunt sphHarm jn c fun F hF => card_between single_card hF
  · rw [exSim_size]; exact hc.nixs
  · refine exSim_krylov gaunt sphHarm jn c (m := 7) ?_
    unfold excite
    rw [exSim_psi]
    exact exSim_exciteVec gaunt sphHarm jn c fun F hF => card_between single_card (right_ne_zero_of_mul hF)
  · intro x hx
    rw [show (((7 : ℝ) : ℂ) + Complex.I * ((1 : ℝ) : ℂ) + ((0 : ℝ) : ℂ)) = 7 + Complex.I by push_cast; ring] at hx
    rw [exSim_size] at hx ⊢
    exact exSim_rixs hc hx
  · obtain ⟨s, hs⟩ := exSim_ok hc hG
    have hfin : ∀ (N : ℕ), 0 < N → ∀ (ord : Fin N → ℕ → ℕ → ℕ → SetOrders), (∀ k c t i, (ord k c t i).Valid) →
        ∀ (ordRixs : Fin N → List ℕ → SetOrders), (∀ k l, (ordRixs k l).Valid) →
        AllRanksFinish msgSum (fun k : Fin N => simulateSpectra (exSim gaunt sphHarm jn c) (ord k) (ordRixs k) k.val N)
          (fun k => if k.val = 0 then some s else none) := by
      intro N hN ord hord ordR hordR
      have := simulate_settles hN hS hout ord hord ordR hordR
      rw [hs] at this
      obtain ⟨out, rfl, hrun⟩ := this
      exact hrun.allRanksFinish
    refine ⟨s, ?_, hfin⟩
    have hf := hfin 1 one_pos (fun _ _ _ _ => ⟨fun _ l => l, fun l => l⟩)
      (fun _ _ _ _ => ⟨fun _ l => List.Perm.refl l, fun l => List.Perm.refl l⟩) (fun _ _ => ⟨fun _ l => l, fun l => l⟩)
      (fun _ _ => ⟨fun _ l => List.Perm.refl l, fun l => List.Perm.refl l⟩)
    obtain ⟨add, rem, h1, h2, h3⟩ := C63_photoemission hS hout one_pos
      (fun _ _ _ _ => ⟨fun _ l => List.Perm.refl l, fun l => List.Perm.refl l⟩)
      (fun _ _ => ⟨fun _ l => List.Perm.refl l, fun l => List.Perm.refl l⟩) hf.canFinish rfl hdict hh hc.le_one 0 1 0
      (by simp [exSim]) (by norm_num) (by simp [exSim]) (exSim_krylov gaunt sphHarm jn c (hcr _))
      (exSim_krylov gaunt sphHarm jn c (han _))
    have hi : impStart (intKeys (exSim gaunt sphHarm jn c).nBaths) 2 + 1 = 7 := by
      show impStart (intKeys [(1, 0), (2, 0)]) 2 + 1 = 7; decide
    have hz : (((exSim gaunt sphHarm jn c).w[0]'(by simp [exSim]) : ℂ) + Complex.I * (exSim gaunt sphHarm jn c).delta)
        = 8 + Complex.I := by
      show (((8 : ℝ) : ℂ) + Complex.I * ((1 : ℝ) : ℂ)) = _
      push_cast; ring
    rw [hi, hz] at h1 h2
    have g1 := exSim_response (by simp) (hcr 7) h1
    have g2 := exSim_response (by simp) (han 7) h2
    have e1 : excite (exSim gaunt sphHarm jn c) (create 7) 0 = Spec.single (range 8) (-1) := by
      unfold excite exciteVec excited
      rw [exSim_psi, exSim_size]
      funext F
      have hv : create 7 (Spec.single (range 7) (1 : ℂ)) F = if F = range 8 then -1 else 0 := by
        unfold create Spec.single
        by_cases hF : F = range 8
        · subst hF
          rw [if_pos (by decide), if_pos (by decide), if_pos rfl, show sgn 7 (range 8) = -1 by decide]
          simp
        · rw [if_neg hF]
          split
          · next h7 =>
            rw [if_neg, mul_zero]
            intro he
            apply hF
            rw [← insert_erase h7, he]
            decide
          · rfl
      rw [hv]
      by_cases hF : F = range 8
      · subst hF
        have h1 : c ≤ abs2 (-1 : ℂ) := by
          show c ≤ Complex.normSq (-1)
          simpa using hc.le_one
        rw [if_pos rfl, if_pos ⟨by decide, trivial, h1⟩]
        simp [Spec.single]
      · rw [if_neg hF]
        simp [Spec.single, hF]
    have e2 : excite (exSim gaunt sphHarm jn c) (annihilate 7) 0 = fun _ => 0 := by
      unfold excite exciteVec excited
      rw [exSim_psi, exSim_size]
      funext F
      have : annihilate 7 (Spec.single (range 7) (1 : ℂ)) F = 0 := by
        unfold annihilate Spec.single
        split
        · rfl
        · rw [if_neg, mul_zero]
          intro h
          have : 7 ∈ range 7 := h ▸ mem_insert_self 7 F
          simp at this
      rw [this]
      split <;> rfl
    have i1 : innerProduct 16 (Spec.single (range 8) (-1)) (Spec.single (range 8) (-1 : ℂ)) = 1 := by
      unfold innerProduct
      rw [Finset.sum_eq_single (range 8)]
      · simp [Spec.single]
      · intro F _ hF
        simp [Spec.single, hF]
      · intro h
        exact absurd (mem_powerset.2 (by decide)) h
    have i2 : innerProduct 16 (fun _ => (0 : ℂ)) (fun _ => 0) = 0 := by simp [innerProduct]
    rw [h3, g1, g2, e1, e2, i1, i2]
    simp

/-- The hypothesis of `C43_simulate`, that an execution finishes, is met on three ranks. -/
example {gaunt : GauntFun} (hG : GauntRules gaunt) (sphHarm : SphHarm) (jn : SphericalJn) :
    ∃ (S : SimulateArgs) (ord : Fin 3 → ℕ → ℕ → ℕ → SetOrders) (ordRixs : Fin 3 → List ℕ → SetOrders)
      (out : Fin 3 → Option Simulated), 0 < S.delta ∧ 0 < S.deltaNIXS ∧ 0 < S.deltaRIXS ∧
      CanFinish msgSum (fun k : Fin 3 => simulateSpectra S (ord k) (ordRixs k) k.val 3) out := by
  obtain ⟨c, S, rfl, -, -, -, -, -, -, -, -, -, -, -, -, s, -, h⟩ := exSim_meets hG sphHarm jn
  exact ⟨exSim gaunt sphHarm jn c, fun _ _ _ _ => ⟨fun _ l => l, fun l => l⟩, fun _ _ => ⟨fun _ l => l, fun l => l⟩, _, one_pos, one_pos, one_pos,
    (h 3 (by omega) _ (fun _ _ _ _ => ⟨fun _ l => List.Perm.refl l, fun l => List.Perm.refl l⟩) _
      (fun _ _ => ⟨fun _ l => List.Perm.refl l, fun l => List.Perm.refl l⟩)).canFinish⟩

/-- The hypothesis of `C43_spectra` is met on three ranks in both modes. -/
example (mode : SpectraMode) (hm : mode ≠ .other) : ∃ (A : SpectraArgs) (tOps : List (Op ℕ ℂ)) (psis : List (Psi ℂ)) (es : List ℝ)
    (ord : Fin 3 → ℕ → ℕ → SetOrders) (out : Fin 3 → Spectra), A.delta ≠ 0 ∧
    CanFinish msgSum (fun k : Fin 3 => getSpectra A tOps psis es mode (ord k) k.val 3) out := by
  obtain ⟨gs, other, h⟩ := ex_modes
  obtain ⟨h1, h2⟩ := h 3 (by omega) (fun _ _ _ => ⟨fun _ l => l, fun l => l⟩)
    (fun _ _ _ => ⟨fun _ l => List.Perm.refl l, fun l => List.Perm.refl l⟩)
  cases mode with
  | eigenStates => exact ⟨exArgs, _, _, _, _, _, exArgs_valid.delta, h1.canFinish⟩
  | hBuild => exact ⟨exArgs, _, _, _, _, _, exArgs_valid.delta, h2.canFinish⟩
  | other => exact absurd rfl hm

/-- The hypothesis of `C43_rixs` is met on three ranks in all modes. -/
example (mode : RixsMode) (hm : mode ≠ .other) : ∃ (A : RixsArgs) (tIn tOut : List (Op ℕ ℂ)) (psis : List (Psi ℂ)) (es : List ℝ)
    (hG : Fin 3 → OpResult ℂ) (ord : Fin 3 → List ℕ → SetOrders) (out : Fin 3 → RixsMap × OpResult ℂ), A.delta2 ≠ 0 ∧
    CanFinish msgSum (fun k : Fin 3 => getRIXSmap A tIn tOut psis es (hG k) mode (ord k) k.val 3) out := by
  obtain ⟨out, h, -⟩ := exRixs_map removes_one [] 3 (by omega) mode hm (fun _ => [])
    ⟨fun _ => columnsExact_nil .., fun _ _ _ _ _ h => by simp at h⟩ (fun _ _ => ⟨fun _ l => l, fun l => l⟩)
    (fun _ _ => ⟨fun _ l => List.Perm.refl l, fun l => List.Perm.refl l⟩)
  exact ⟨exRixs, _, _, _, _, _, _, out, exRixs_valid.delta, h.canFinish⟩

end

end Verif
