/-
C97: how far the spectra of simulate_spectra and main can move when the input changes.
-/
import Verif.Lemmas.SpectraChange
import Verif.Prop.Convergence
import Verif.Prop.PerturbExample

namespace Verif

open Finset Mpi Psr Spec Matrix

noncomputable section

theorem hamiltonian_allowed {n : ℕ} (op : Op ℕ ℂ) (cut : ℝ) {r r' : Option Restrictions}
    (h : ∀ F, AllowedOpt r' F ↔ AllowedOpt r F) : hamiltonian n op cut r' = hamiltonian n op cut r := by
  funext x S
  unfold hamiltonian column
  simp only [h]

/-- The responses of two calculations. -/
theorem response_change {S S' : SimulateArgs} (hS : S.Valid) (hS' : S'.Valid) (hm : SameSystem S S')
    (hdict : Dict.NodupKeys S.hOp) (hh : isHermitianOp S.hOp) (hdict' : Dict.NodupKeys S'.hOp) (hh' : isHermitianOp S'.hOp)
    {T T' : Vec ℂ → Vec ℂ} {i : ℕ} {z g g' : ℂ} (hz : z.im ≠ 0) (h : IsResponse S T i z g) (h' : IsResponse S' T' i z g') :
    ‖g - g'‖ ≤ responseChange (size S) (excite S T i) (excite S' T' i)
      (strengthChange S.hOp S'.hOp + S.hOp.length * Real.sqrt S.cut + S'.hOp.length * Real.sqrt S'.cut
        + |S.es.getD i 0 - S'.es.getD i 0|) z.im := by
  have hn : nSpinOrbitals S.nBaths = size S := nSpinOrbitals_eq _
  have hsz : size S' = size S := by unfold size; rw [hm.system]
  unfold IsResponse hamilton at h h'
  rw [hsz, hamiltonian_allowed _ _ hm.restrictions] at h'
  have e : ‖(z + (S.es.getD i 0 : ℂ)) - (z + (S'.es.getD i 0 : ℂ))‖ = |S.es.getD i 0 - S'.es.getD i 0| := by
    rw [add_sub_add_left_eq_sub, ← Complex.ofReal_sub, Complex.norm_real, Real.norm_eq_abs]
  rw [← e]
  have him : (z + (S.es.getD i 0 : ℂ)).im = z.im := by simp
  have him' : (z + (S'.es.getD i 0 : ℂ)).im = z.im := by simp
  rw [← him]
  refine green_change (n := size S) ?_ hdict hh ?_ hdict' hh' S.restrictions (by rw [him]; exact hz) (by rw [him, him']) ?_ ?_ h h'
  · have := (hS.spectra [] hS.delta).hop
    rw [← hn]; exact this
  · have := (hS'.spectra [] hS'.delta).hop
    have h2 : nSpinOrbitals S'.nBaths = size S := by rw [nSpinOrbitals_eq]; exact hsz
    rw [← h2]; exact this
  · intro F hF
    unfold excite exciteVec excited
    rw [if_neg fun hc => hF ⟨hc.1, hc.2.1⟩]
  · intro F hF
    unfold excite exciteVec excited
    rw [hsz, if_neg fun hc => hF ⟨hc.1, (hm.restrictions F).1 hc.2.1⟩]

theorem responseChange_neg (n : ℕ) (v v' : Vec ℂ) (c delta : ℝ) : responseChange n v v' c (-delta) = responseChange n v v' c delta := by
  unfold responseChange
  rw [abs_neg, neg_sq]

theorem hamilton_within {S : SimulateArgs} (hS : S.Valid) (hdict : Dict.NodupKeys S.hOp) (hh : isHermitianOp S.hOp) {w : ℝ}
    (hw : strengthSum S.hOp ≤ w) : EnergiesWithin (size S) (hamilton S) Set.univ 0 w := by
  have hn : nSpinOrbitals S.nBaths = size S := nSpinOrbitals_eq _
  have := (hS.spectra [] hS.delta).hop
  exact energiesWithin_all (by rw [← hn]; exact this) hdict hh _ _ _ hw

section
variable {S S' : SimulateArgs} (hS : S.Valid) (hS' : S'.Valid) (hm : SameSystem S S') (hout : S.OutLarge) (hout' : S'.OutLarge)
  {N N' : ℕ} (hN : 0 < N) (hN' : 0 < N')
  {ord : Fin N → ℕ → ℕ → ℕ → SetOrders} (hord : ∀ k c t i, (ord k c t i).Valid)
  {ord' : Fin N' → ℕ → ℕ → ℕ → SetOrders} (hord' : ∀ k c t i, (ord' k c t i).Valid)
  {ordRixs : Fin N → List ℕ → SetOrders} (hordR : ∀ k l, (ordRixs k l).Valid)
  {ordRixs' : Fin N' → List ℕ → SetOrders} (hordR' : ∀ k l, (ordRixs' k l).Valid)
  {out : Fin N → Option Simulated} {out' : Fin N' → Option Simulated}
  (hfin : CanFinish msgSum (fun k : Fin N => simulateSpectra S (ord k) (ordRixs k) k.val N) out)
  (hfin' : CanFinish msgSum (fun k : Fin N' => simulateSpectra S' (ord' k) (ordRixs' k) k.val N') out')
  {s s' : Simulated} (hs : out ⟨0, hN⟩ = some s) (hs' : out' ⟨0, hN'⟩ = some s')
  (hdict : Dict.NodupKeys S.hOp) (hh : isHermitianOp S.hOp) (hdict' : Dict.NodupKeys S'.hOp) (hh' : isHermitianOp S'.hOp)
  {w w' : ℝ} (hw0 : 0 < w) (hw : strengthSum S.hOp ≤ w) (hw0' : 0 < w') (hw' : strengthSum S'.hOp ≤ w')

include hS hS' hm hout hout' hord hord' hordR hordR' hfin hfin' hs hs' hdict hdict' hh hh' hw0 hw hw0' hw' in
/-- C97, photoemission and inverse photoemission in two finished runs of `simulate_spectra`. -/
theorem C97_photoemission (hc : S.slaterWeightMin ≤ 1) (hc' : S'.slaterWeightMin ≤ 1) (i j k : ℕ) (hi : i < S.es.length)
    (hi' : i < S'.es.length) (hj : j < 10) (hk : k < S.w.length) (x : ℕ) (hx : x = impStart (intKeys S.nBaths) 2 + j) :
    |s.ps.data i j k - s'.ps.data i j k| ≤ stateChange S S' (create x) (create x) i S.delta w w'
      + stateChange S S' (annihilate x) (annihilate x) i S.delta w w' := by
  have hsz : size S' = size S := by unfold size; rw [hm.system]
  obtain ⟨a, r, h1, h2, h3⟩ := C82_photoemission hS hout hN hord hordR hfin hs hdict hh hc i j k hi hj hk x hx Set.univ Set.univ 0 w 0 w
    hw0 ⟨fun _ _ => trivial, fun _ _ _ _ _ _ => trivial⟩ (hamilton_within hS hdict hh hw)
    hw0 ⟨fun _ _ => trivial, fun _ _ _ _ _ _ => trivial⟩ (hamilton_within hS hdict hh hw)
  obtain ⟨a', r', h1', h2', h3'⟩ := C82_photoemission hS' hout' hN' hord' hordR' hfin' hs' hdict' hh' hc' i j k hi' hj
    (by rw [hm.mesh]; exact hk) x (by rw [hm.system]; exact hx) Set.univ Set.univ 0 w' 0 w'
    hw0' ⟨fun _ _ => trivial, fun _ _ _ _ _ _ => trivial⟩ (hamilton_within hS' hdict' hh' hw')
    hw0' ⟨fun _ _ => trivial, fun _ _ _ _ _ _ => trivial⟩ (hamilton_within hS' hdict' hh' hw')
  simp only [hm.mesh, hm.broadening, hsz] at h1' h2' h3'
  have im1 : ((S.w[k] : ℂ) + Complex.I * S.delta).im = S.delta := by simp
  have im2 : (-((S.w[k] : ℂ) + Complex.I * S.delta)).im = -S.delta := by simp
  have c1 := im_close (response_change hS hS' hm hdict hh hdict' hh' (by rw [im1]; exact hS.delta) h1 h1')
  have c2 := im_close (response_change hS hS' hm hdict hh hdict' hh' (by rw [im2]; exact neg_ne_zero.2 hS.delta) h2 h2')
  rw [im1] at c1
  rw [im2, responseChange_neg] at c2
  rw [Complex.sub_im] at h3 h3'
  unfold stateChange
  rw [_root_.abs_le] at *
  constructor <;> linarith [c1.1, c1.2, c2.1, c2.2, h3.1, h3.2, h3'.1, h3'.2]

include hS hS' hm hout hout' hord hord' hordR hordR' hfin hfin' hs hs' hdict hdict' hh hh' hw0 hw hw0' hw' in
/-- C97, XPS in two finished runs of `simulate_spectra`. -/
theorem C97_xps (hc : S.slaterWeightMin ≤ 1) (hc' : S'.slaterWeightMin ≤ 1) (i j k : ℕ) (hi : i < S.es.length)
    (hi' : i < S'.es.length) (hj : j < 6) (hk : k < S.w.length) (x : ℕ) (hx : x = impStart (intKeys S.nBaths) 1 + j) :
    |s.xps.data i j k - s'.xps.data i j k| ≤ stateChange S S' (annihilate x) (annihilate x) i S.delta w w' := by
  have hsz : size S' = size S := by unfold size; rw [hm.system]
  obtain ⟨r, h2, h3⟩ := C82_xps hS hout hN hord hordR hfin hs hdict hh hc i j k hi hj hk x hx Set.univ 0 w
    hw0 ⟨fun _ _ => trivial, fun _ _ _ _ _ _ => trivial⟩ (hamilton_within hS hdict hh hw)
  obtain ⟨r', h2', h3'⟩ := C82_xps hS' hout' hN' hord' hordR' hfin' hs' hdict' hh' hc' i j k hi' hj
    (by rw [hm.mesh]; exact hk) x (by rw [hm.system]; exact hx) Set.univ 0 w'
    hw0' ⟨fun _ _ => trivial, fun _ _ _ _ _ _ => trivial⟩ (hamilton_within hS' hdict' hh' hw')
  simp only [hm.mesh, hm.broadening, hsz] at h2' h3'
  have im2 : (-((S.w[k] : ℂ) + Complex.I * S.delta)).im = -S.delta := by simp
  have c2 := im_close (response_change hS hS' hm hdict hh hdict' hh' (by rw [im2]; exact neg_ne_zero.2 hS.delta) h2 h2')
  rw [im2, responseChange_neg] at c2
  unfold stateChange
  rw [_root_.abs_le] at *
  constructor <;> linarith [c2.1, c2.2, h3.1, h3.2, h3'.1, h3'.2]

variable {l1 l2 b1 b2 : ℕ} (hsys : S.nBaths = [(l1, b1), (l2, b2)])

include hS hS' hm hout hout' hord hord' hordR hordR' hfin hfin' hs hs' hdict hdict' hh hh' hw0 hw hw0' hw' hsys in
/-- C97, XAS in two finished runs of `simulate_spectra`. -/
theorem C97_xas (i t k : ℕ) (hi : i < S.es.length) (hi' : i < S'.es.length) (ht : t < S.epsilons.length)
    (ht' : t < S'.epsilons.length) (hk : k < S.w.length)
    (T T' : Vec ℂ → Vec ℂ) (hT : T = between (position (intKeys S.nBaths)) l2 l1
      (fun m m' => dipole S.gaunt S.epsilons[t].x S.epsilons[t].y S.epsilons[t].z l2 m l1 m'))
    (hT' : T' = between (position (intKeys S.nBaths)) l2 l1
      (fun m m' => dipole S'.gaunt S'.epsilons[t].x S'.epsilons[t].y S'.epsilons[t].z l2 m l1 m'))
    (hsmall : NoSmall (size S) T S.slaterWeightMin S.restrictions)
    (hsmall' : NoSmall (size S') T' S'.slaterWeightMin S'.restrictions) :
    |s.xas.data i t k - s'.xas.data i t k| ≤ stateChange S S' T T' i S.delta w w' := by
  have hsz : size S' = size S := by unfold size; rw [hm.system]
  obtain ⟨r, h2, h3⟩ := C82_xas hS hout hN hord hordR hfin hs hdict hh hsys i t k hi ht hk T hT hsmall Set.univ 0 w
    hw0 ⟨fun _ _ => trivial, fun _ _ _ _ _ _ => trivial⟩ (hamilton_within hS hdict hh hw)
  obtain ⟨r', h2', h3'⟩ := C82_xas hS' hout' hN' hord' hordR' hfin' hs' hdict' hh' (hm.system.trans hsys) i t k hi' ht'
    (by rw [hm.mesh]; exact hk) T' (by rw [hm.system]; exact hT') hsmall' Set.univ 0 w'
    hw0' ⟨fun _ _ => trivial, fun _ _ _ _ _ _ => trivial⟩ (hamilton_within hS' hdict' hh' hw')
  simp only [hm.mesh, hm.broadening, hsz] at h2' h3'
  have im1 : ((S.w[k] : ℂ) + Complex.I * S.delta).im = S.delta := by simp
  have c2 := im_close (response_change hS hS' hm hdict hh hdict' hh' (by rw [im1]; exact hS.delta) h2 h2')
  rw [im1] at c2
  unfold stateChange
  rw [_root_.abs_le] at *
  constructor <;> linarith [c2.1, c2.2, h3.1, h3.2, h3'.1, h3'.2]

omit hsys in
include hS hS' hm hout hout' hord hord' hordR hordR' hfin hfin' hs hs' hdict hdict' hh hh' hw0 hw hw0' hw' in
/-- C97, NIXS in two finished runs of `simulate_spectra`: `T` and `T'` are the operators of the two runs. -/
theorem C97_nixs (hG : GauntRules S.gaunt) (hG' : GauntRules S'.gaunt)
    (hli : S.liNIXS ∈ Dict.keys S.nBaths) (hlj : S.ljNIXS ∈ Dict.keys S.nBaths)
    (hli' : S'.liNIXS ∈ Dict.keys S.nBaths) (hlj' : S'.ljNIXS ∈ Dict.keys S.nBaths)
    (h1 : S.RiNIXS.length = S.radialMesh.length) (h2 : S.RjNIXS.length = S.radialMesh.length)
    (h1' : S'.RiNIXS.length = S'.radialMesh.length) (h2' : S'.RjNIXS.length = S'.radialMesh.length)
    (i t k : ℕ) (hi : i < S.es.length) (hi' : i < S'.es.length) (ht : t < S.qsNIXS.length) (ht' : t < S'.qsNIXS.length)
    (hk : k < S.wLoss.length)
    (qn θ φ qn' θ' φ' : ℝ) (hq : 0 < qn) (hθ : 0 < θ) (hθp : θ < Real.pi) (hφ : |φ| ≤ Real.pi)
    (hq' : 0 < qn') (hθ' : 0 < θ') (hθp' : θ' < Real.pi) (hφ' : |φ'| ≤ Real.pi)
    (hqs : S.qsNIXS[t] = ⟨qn * (Real.sin θ * Real.cos φ), qn * (Real.sin θ * Real.sin φ), qn * Real.cos θ⟩)
    (hqs' : S'.qsNIXS[t] = ⟨qn' * (Real.sin θ' * Real.cos φ'), qn' * (Real.sin θ' * Real.sin φ'), qn' * Real.cos θ'⟩)
    (T T' : Vec ℂ → Vec ℂ) (hT : T = fun v F => ((Real.sqrt (4 * Real.pi) : ℝ) : ℂ)⁻¹ *
      between (position (intKeys S.nBaths)) S.liNIXS S.ljNIXS (fun mi mj =>
        planeWave S.gaunt S.sphHarm (radialIntegral S.jn S.RiNIXS S.RjNIXS S.radialMesh qn) θ |φ| S.kmin
          (S.liNIXS + S.ljNIXS) S.liNIXS mi S.ljNIXS mj) v F)
    (hT' : T' = fun v F => ((Real.sqrt (4 * Real.pi) : ℝ) : ℂ)⁻¹ *
      between (position (intKeys S.nBaths)) S'.liNIXS S'.ljNIXS (fun mi mj =>
        planeWave S'.gaunt S'.sphHarm (radialIntegral S'.jn S'.RiNIXS S'.RjNIXS S'.radialMesh qn') θ' |φ'| S'.kmin
          (S'.liNIXS + S'.ljNIXS) S'.liNIXS mi S'.ljNIXS mj) v F)
    (hsmall : NoSmall (size S) T S.slaterWeightMin S.restrictions)
    (hsmall' : NoSmall (size S') T' S'.slaterWeightMin S'.restrictions) :
    |s.nixs.data i t k - s'.nixs.data i t k| ≤ stateChange S S' T T' i S.deltaNIXS w w' := by
  have hsz : size S' = size S := by unfold size; rw [hm.system]
  obtain ⟨r, e2, e3⟩ := C82_nixs hS hout hN hord hordR hfin hs hdict hh hG hli hlj h1 h2 i t k hi ht hk qn θ φ hq hθ hθp hφ
    (by rw [hqs]) (by rw [hqs]) (by rw [hqs]) T hT hsmall Set.univ 0 w
    hw0 ⟨fun _ _ => trivial, fun _ _ _ _ _ _ => trivial⟩ (hamilton_within hS hdict hh hw)
  obtain ⟨r', e2', e3'⟩ := C82_nixs hS' hout' hN' hord' hordR' hfin' hs' hdict' hh' hG' (by rw [hm.system]; exact hli')
    (by rw [hm.system]; exact hlj') h1' h2' i t k hi' ht' (by rw [hm.meshNIXS]; exact hk) qn' θ' φ' hq' hθ' hθp' hφ'
    (by rw [hqs']) (by rw [hqs']) (by rw [hqs']) T' (by rw [hm.system]; exact hT') hsmall' Set.univ 0 w'
    hw0' ⟨fun _ _ => trivial, fun _ _ _ _ _ _ => trivial⟩ (hamilton_within hS' hdict' hh' hw')
  simp only [hm.meshNIXS, hm.broadeningNIXS, hsz] at e2' e3'
  have im1 : ((S.wLoss[k] : ℂ) + Complex.I * S.deltaNIXS).im = S.deltaNIXS := by simp
  have c2 := im_close (response_change hS hS' hm hdict hh hdict' hh' (by rw [im1]; exact hS.deltaNIXS) e2 e2')
  rw [im1] at c2
  unfold stateChange
  rw [_root_.abs_le] at *
  constructor <;> linarith [c2.1, c2.2, e3.1, e3.2, e3'.1, e3'.2]

end

/-! ### main -/

section
variable {L L' : MainLib} {A A' : MainArgs} (hA : A.Valid) (hA' : A'.Valid) (hG : GauntLarge L.gaunt A.ls)
  (hG' : GauntLarge L'.gaunt A'.ls) {N N' : ℕ} (hN : 0 < N) (hN' : 0 < N')
  {ord : Fin N → ℕ → ℕ → ℕ → SetOrders} (hord : ∀ k c t i, (ord k c t i).Valid)
  {ordRixs : Fin N → List ℕ → SetOrders} (hordR : ∀ k l, (ordRixs k l).Valid) {out : Fin N → Option MainOutput}
  (hfin : CanFinish msgSum (fun k : Fin N => mainRank L A (ord k) (ordRixs k) k.val N) out)
  {o : MainOutput} (ho : out ⟨0, hN⟩ = some o)
  {ord' : Fin N' → ℕ → ℕ → ℕ → SetOrders} (hord' : ∀ k c t i, (ord' k c t i).Valid)
  {ordRixs' : Fin N' → List ℕ → SetOrders} (hordR' : ∀ k l, (ordRixs' k l).Valid) {out' : Fin N' → Option MainOutput}
  (hfin' : CanFinish msgSum (fun k : Fin N' => mainRank L' A' (ord' k) (ordRixs' k) k.val N') out')
  {o' : MainOutput} (ho' : out' ⟨0, hN'⟩ = some o')
variable (hL : SolverCorrect L.solver) (hL' : SolverCorrect L'.solver) {b : ℕ → ℕ} {P : BasisParams} {hx hy hz hx' hy' hz' : ℝ}
  {h0 h0' : Op Label ℂ} (hD : Documented A b P hx hy hz h0) (hD' : Documented A' b P hx' hy' hz' h0')

theorem mainRun_nixs {L : MainLib} {A : MainArgs} {b : ℕ → ℕ} {P : BasisParams} {hx hy hz : ℝ} {h0 : Op Label ℂ}
    {energies : List ℝ} {psis : List (Psi ℂ)} {S : SimulateArgs} (hrun : MainRun L A b P hx hy hz h0 energies psis S)
    {t : ℕ} (ht : t < 2) {q : ℝ} (hq : q = (if t = 0 then 2 else 7)) : ∃ ht' : t < S.qsNIXS.length, 0 < q ∧
      S.qsNIXS[t] = ⟨q * (Real.sin (Real.arccos (1 / Real.sqrt 3)) * Real.cos (Real.pi / 4)),
        q * (Real.sin (Real.arccos (1 / Real.sqrt 3)) * Real.sin (Real.pi / 4)), q * Real.cos (Real.arccos (1 / Real.sqrt 3))⟩ ∧
      planeWaveDD S b q = fun v F => ((Real.sqrt (4 * Real.pi) : ℝ) : ℂ)⁻¹ *
        between (position (intKeys S.nBaths)) S.liNIXS S.ljNIXS (fun mi mj =>
        planeWave S.gaunt S.sphHarm (radialIntegral S.jn S.RiNIXS S.RjNIXS S.radialMesh q) (Real.arccos (1 / Real.sqrt 3))
          |Real.pi / 4| S.kmin (S.liNIXS + S.ljNIXS) S.liNIXS mi S.ljNIXS mj) v F := by
  have ht' : t < S.qsNIXS.length := by rw [hrun.args.qs.1]; exact ht
  obtain ⟨c, hc, hqc⟩ := hrun.args.qs.2 t ht'
  obtain ⟨a1, a2, a3, a4, a5⟩ := diagonal_angles q
  have hcq : c = q / Real.sqrt 3 := by rw [hc, hq]
  have hq0 : 0 < q := by rw [hq]; split <;> norm_num
  obtain ⟨s1, s2⟩ := hrun.args.shells
  have hK : intKeys S.nBaths = pdSystem b := by rw [hrun.system]; rfl
  refine ⟨ht', hq0, ?_, ?_⟩
  · rw [hqc, a1, a2, a3, hcq]
  · unfold planeWaveDD
    rw [hK, s1, s2, hrun.args.kmin, abs_of_pos (by positivity : (0 : ℝ) < Real.pi / 4)]

theorem mainRun_same {L L' : MainLib} {A A' : MainArgs} {b : ℕ → ℕ} {P : BasisParams} {hx hy hz hx' hy' hz' : ℝ} {h0 h0' : Op Label ℂ}
    {energies energies' : List ℝ} {psis psis' : List (Psi ℂ)} {S S' : SimulateArgs}
    (hrun : MainRun L A b P hx hy hz h0 energies psis S) (hrun' : MainRun L' A' b P hx' hy' hz' h0' energies' psis' S')
    (hdelta : A'.delta = A.delta) (hdeltaN : A'.deltaNIXS = A.deltaNIXS) : SameSystem S S' := by
  obtain ⟨r, e, hr⟩ := hrun.excited
  obtain ⟨r', e', hr'⟩ := hrun'.excited
  refine ⟨by rw [hrun.system, hrun'.system], fun F => ?_, mesh_eq hrun.args.w hrun'.args.w,
    by rw [hrun.args.delta, hrun'.args.delta, hdelta], mesh_eq hrun.args.wLoss hrun'.args.wLoss,
    by rw [hrun.args.deltaNIXS, hrun'.args.deltaNIXS, hdeltaN]⟩
  rw [e, e']
  exact (hr' F).trans (hr F).symm

omit hfin hfin' in
include hG hG' hN hN' hord hord' hordR hordR' hD hD' in
theorem mainRun_change (hR : GauntRules L.gaunt) (hR' : GauntRules L'.gaunt) {energies energies' : List ℝ}
    {psis psis' : List (Psi ℂ)} {S S' : SimulateArgs} (hrun : MainRun L A b P hx hy hz h0 energies psis S)
    (hrun' : MainRun L' A' b P hx' hy' hz' h0' energies' psis' S') (hm : SameSystem S S')
    (hS : S.Valid) (hS' : S'.Valid) (hout : S.OutLarge) (hout' : S'.OutLarge) {s s' : Simulated}
    (hfin1 : CanFinish msgSum (fun k : Fin N => simulateSpectra S (ord k) (ordRixs k) k.val N)
      (fun k => if k.val = 0 then some s else none))
    (hfin1' : CanFinish msgSum (fun k : Fin N' => simulateSpectra S' (ord' k) (ordRixs' k) k.val N')
      (fun k => if k.val = 0 then some s' else none)) {w w' : ℝ} (hw0 : 0 < w) (hw : strengthSum S.hOp ≤ w) (hw0' : 0 < w')
    (hw' : strengthSum S'.hOp ≤ w') : PDChange b S S' s s' w w' := by
  obtain ⟨hdict, hh⟩ := hrun.dict
  obtain ⟨hdict', hh'⟩ := hrun'.dict
  have hK : intKeys S.nBaths = pdSystem b := by rw [hrun.system]; rfl
  obtain ⟨hkry, hwt, hcut⟩ := hrun.args.cutoffs
  obtain ⟨hkry', hwt', hcut'⟩ := hrun'.args.cutoffs
  have hc : S.slaterWeightMin ≤ 1 := by rw [hwt]; norm_num
  have hc' : S'.slaterWeightMin ≤ 1 := by rw [hwt']; norm_num
  have hns : ∀ v ∈ ([⟨1, 0, 0⟩, ⟨0, 1, 0⟩, ⟨0, 0, 1⟩] : List (Vec3 ℂ)),
      NoSmall (size S) (dipolePD S.gaunt b v) S.slaterWeightMin S.restrictions := by
    intro v hv
    rw [hwt, hrun.args.library.1]
    exact dipole_noSmall hG hD.ls b hv _ _
  have hns' : ∀ v ∈ ([⟨1, 0, 0⟩, ⟨0, 1, 0⟩, ⟨0, 0, 1⟩] : List (Vec3 ℂ)),
      NoSmall (size S') (dipolePD S'.gaunt b v) S'.slaterWeightMin S'.restrictions := by
    intro v hv
    rw [hwt', hrun'.args.library.1]
    exact dipole_noSmall hG' hD'.ls b hv _ _
  refine ⟨?_, ?_, ?_, ?_⟩
  · intro i j k hi hi' hj hk x hx
    exact C97_photoemission hS hS' hm hout hout' hN hN' hord hord' hordR hordR' hfin1 hfin1' rfl rfl hdict hh hdict' hh' hw0 hw hw0' hw'
      hc hc' i j k hi hi' hj hk x (by rw [hK]; exact hx)
  · intro i j k hi hi' hj hk x hx
    exact C97_xps hS hS' hm hout hout' hN hN' hord hord' hordR hordR' hfin1 hfin1' rfl rfl hdict hh hdict' hh' hw0 hw hw0' hw'
      hc hc' i j k hi hi' hj hk x (by rw [hK]; exact hx)
  · intro i t k hi hi' ht ht' hk
    refine C97_xas hS hS' hm hout hout' hN hN' hord hord' hordR hordR' hfin1 hfin1' rfl rfl hdict hh hdict' hh' hw0 hw hw0' hw'
      hrun.system i t k hi hi' ht ht' hk _ _ ?_ ?_ (hns _ ?_) (hns' _ ?_)
    · rw [hK]; rfl
    · rw [hK]; rfl
    · rw [← hrun.args.epsilons]
      exact List.getElem_mem _
    · rw [← hrun'.args.epsilons]
      exact List.getElem_mem _
  · intro i t k hi hi' ht hk q hq hsm hsm'
    obtain ⟨ht1, hq0, n1, n2⟩ := mainRun_nixs hrun ht hq
    obtain ⟨ht1', -, n1', n2'⟩ := mainRun_nixs hrun' ht hq
    obtain ⟨-, -, -, a4, a5⟩ := diagonal_angles q
    obtain ⟨r1, r2, r3⟩ := hrun.args.radial
    obtain ⟨r1', r2', r3'⟩ := hrun'.args.radial
    obtain ⟨s1, s2⟩ := hrun.args.shells
    obtain ⟨s1', s2'⟩ := hrun'.args.shells
    have hpi : |Real.pi / 4| ≤ Real.pi := by rw [abs_of_pos (by positivity)]; linarith [Real.pi_pos]
    exact C97_nixs hS hS' hm hout hout' hN hN' hord hord' hordR hordR' hfin1 hfin1' rfl rfl hdict hh hdict' hh' hw0 hw hw0' hw'
      (by rw [hrun.args.library.1]; exact hR) (by rw [hrun'.args.library.1]; exact hR')
      (by rw [s1, hrun.system]; simp [Dict.keys]) (by rw [s2, hrun.system]; simp [Dict.keys])
      (by rw [s1', hrun.system]; simp [Dict.keys]) (by rw [s2', hrun.system]; simp [Dict.keys])
      (by rw [r1, r2]; simp) (by rw [r1, r3]; simp) (by rw [r1', r2']; simp) (by rw [r1', r3']; simp)
      i t k hi hi' ht1 ht1' hk q _ _ q _ _ hq0 a4 a5 hpi hq0 a4 a5 hpi n1 n1' _ _ n2
      (n2'.trans (by rw [hm.system])) hsm hsm'

include hA hA' hG hG' hord hord' hordR hordR' hfin hfin' ho ho' hL hL' hD hD' in
/-- C97, main.  Two finished runs of main with the same system, occupations and broadenings, and any other parameters: the values
stored for eigenstate `i` differ by at most a sum of terms of first order in the distance of the excited states and in the changes
of the strengths of the Hamiltonian and of the energy, and the errors of the Lanczos vectors. -/
theorem C97_main (hR : GauntRules L.gaunt) (hR' : GauntRules L'.gaunt) (hdelta : A'.delta = A.delta)
    (hdeltaN : A'.deltaNIXS = A.deltaNIXS) :
    ∃ psis S psis' S', MainRun L A b P hx hy hz h0 o.energies psis S ∧ MainRun L' A' b P hx' hy' hz' h0' o'.energies psis' S' ∧
      ∀ w w', 0 < w → strengthSum S.hOp ≤ w → 0 < w' → strengthSum S'.hOp ≤ w' → PDChange b S S' o.spectra o'.spectra w w' := by
  obtain ⟨psis, S, hrun, hS, hout, hall⟩ := C65_run hA hG hN hord hordR hfin ho hL hD
  obtain ⟨psis', S', hrun', hS', hout', hall'⟩ := C65_run hA' hG' hN' hord' hordR' hfin' ho' hL' hD'
  exact ⟨psis, S, psis', S', hrun, hrun', fun w w' hw0 hw hw0' hw' => mainRun_change hG hG' hN hN' hord hordR hord' hordR' hD hD' hR hR'
    hrun hrun' (mainRun_same hrun hrun' hdelta hdeltaN) hS hS' hout hout' (hall N hN ord hord ordRixs hordR).canFinish
    (hall' N' hN' ord' hord' ordRixs' hordR').canFinish hw0 hw hw0' hw'⟩

end

/-- The hypotheses of `C97_main` are met: three ranks and five, the p shell of the second run 30/49 higher. -/
example {solver : EigenSolver} (hS : SolverCorrect solver) (htot : ∀ H d k, k < d → ∃ p, solver.eigsh H d k = .ok p)
    (sphHarm : SphHarm) (jn : SphericalJn) {T : ℝ} (hT : 0 < T) (hcold : 10 * (1 * T) ≤ 4) :
    ∃ (o o' : MainOutput) (psis psis' : _) (S S' : _),
      MainRun (holeLib solver sphHarm jn 1) (hole2Args 0 T) (fun _ => 0) holeParams 0 0 0 (holeLevels 0) o.energies psis S ∧
      MainRun (holeLib solver sphHarm jn 1) (hole2Args (30 / 49) T) (fun _ => 0) holeParams 0 0 0 (holeLevels (30 / 49)) o'.energies
        psis' S' ∧
      ∀ w w', 0 < w → strengthSum S.hOp ≤ w → 0 < w' → strengthSum S'.hOp ≤ w' →
        PDChange (fun _ => 0) S S' o.spectra o'.spectra w w' := by
  obtain ⟨o, ho⟩ := hole2_finishes 0 hS htot sphHarm jn one_pos hT hcold
  obtain ⟨o', ho'⟩ := hole2_finishes (30 / 49) hS htot sphHarm jn one_pos hT hcold
  have h1 := (ho 3 (by decide) (fun _ _ _ _ => holeOrders) (fun _ _ _ _ => holeOrders_valid) (fun _ _ => holeOrders)
    (fun _ _ => holeOrders_valid)).canFinish
  have h2 := (ho' 5 (by decide) (fun _ _ _ _ => holeOrders) (fun _ _ _ _ => holeOrders_valid) (fun _ _ => holeOrders)
    (fun _ _ => holeOrders_valid)).canFinish
  obtain ⟨psis, S, psis', S', r, r', c⟩ := C97_main (hole2Args_valid 0 T) (hole2Args_valid (30 / 49) T) sympyGaunt_large
    sympyGaunt_large (by decide) (by decide) (fun _ _ _ _ => holeOrders_valid) (fun _ _ => holeOrders_valid) h1 rfl
    (fun _ _ _ _ => holeOrders_valid) (fun _ _ => holeOrders_valid) h2 rfl hS hS (hole2Args_documented 0 T)
    (hole2Args_documented (30 / 49) T) sympyGaunt_rules sympyGaunt_rules rfl rfl
  exact ⟨o, o', psis, psis', S, S', r, r', c⟩

end

end Verif
