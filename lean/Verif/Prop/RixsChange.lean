/-
C97: how far RIXS maps and thermal averages can move when the input changes.
-/
import Verif.Spec.RixsChange
import Verif.Lemmas.RixsChange
import Verif.Prop.SpectraChangeMain
import Verif.Prop.RixsConvergence

namespace Verif

open Finset Mpi Psr Spec Matrix

noncomputable section

/-- C97, thermal averages: they differ by at most the largest difference of the values of the eigenstates, and by `exp(2η) - 1`
times the largest difference between the eigenstates. -/
theorem C97_thermal {kB T T' : ℝ} {es es' : List ℝ} (hne : es ≠ []) {x x' : ℕ → ℝ} {a a' ε η D : ℝ} (h : IsThermal kB T es x a)
    (h' : IsThermal kB T' es' x' a') (hE : EnergiesShifted kB T T' es es' η) (hV : ValuesClose es.length x x' ε D) :
    |a - a'| ≤ ε + (Real.exp (2 * η) - 1) * D := by
  obtain ⟨hlen, s, hs⟩ := hE
  set p : Fin es.length → ℝ := fun i => Real.exp (-es[i] / (kB * T)) with hp
  set p' : Fin es.length → ℝ := fun i => Real.exp (-es'[i.val]'(hlen ▸ i.isLt) / (kB * T') - s) with hp'
  have e' : a' = (∑ i, p' i * x' i) / ∑ i, p' i := by
    have h0 : a' = (∑ i : Fin es.length, Real.exp (-es'[i.val]'(hlen ▸ i.isLt) / (kB * T')) * x' i)
        / ∑ i : Fin es.length, Real.exp (-es'[i.val]'(hlen ▸ i.isLt) / (kB * T')) := by
      rw [h']
      congr 1
      · exact (Fintype.sum_equiv (finCongr hlen) _ _ fun i => rfl).symm
      · exact (Fintype.sum_equiv (finCongr hlen) _ _ fun i => rfl).symm
    have h1 : ∀ i, p' i = Real.exp (-es'[i.val]'(hlen ▸ i.isLt) / (kB * T')) * Real.exp (-s) := by
      intro i
      rw [hp', ← Real.exp_add]
      rfl
    rw [h0]
    simp only [h1, mul_right_comm _ (Real.exp (-s)), ← sum_mul]
    rw [mul_div_mul_right _ _ (Real.exp_ne_zero _)]
  have e : a = (∑ i, p i * x i) / ∑ i, p i := h
  rw [e, e']
  have hr : Real.exp (2 * η) = Real.exp η ^ 2 := by rw [← Real.exp_nat_mul]; norm_num
  rw [hr]
  refine boltzmann_close (List.length_pos_iff.2 hne) (fun i => Real.exp_pos _) (fun i => Real.exp_pos _) (fun i => ?_)
    (fun i => hV.close i i.isLt) (fun i j => hV.spread i i.isLt j j.isLt)
  have hi := hs i.val i.isLt
  rw [List.getD_eq_getElem _ _ i.isLt, List.getD_eq_getElem _ _ (hlen ▸ i.isLt), _root_.abs_le] at hi
  rw [← Real.exp_add, ← Real.exp_add, Real.exp_le_exp, Real.exp_le_exp]
  have q1 : -es[i.val] / (kB * T) = -(es[i.val] / (kB * T)) := by ring
  have q2 : -es'[i.val]'(hlen ▸ i.isLt) / (kB * T') = -(es'[i.val]'(hlen ▸ i.isLt) / (kB * T')) := by ring
  simp only [Fin.getElem_fin, q1, q2]
  constructor <;> linarith [hi.1, hi.2]

/-- Two temperatures, energies that are shifted, and values that change. -/
example (a a' : ℝ) (h : IsThermal 1 1 [0, 1] (fun i => i) a) (h' : IsThermal 1 2 [3, 5 + 1 / 5] (fun i => i + 1 / 10) a') :
    |a - a'| ≤ 1 / 10 + (Real.exp (2 * (1 / 10)) - 1) * 1 := by
  refine C97_thermal (by simp) h h' ⟨rfl, -3 / 2, ?_⟩ ⟨?_, ?_⟩
  · intro i hi
    have : i = 0 ∨ i = 1 := by simp at hi; omega
    rcases this with rfl | rfl <;> norm_num [_root_.abs_le]
  · intro i _
    norm_num [_root_.abs_le]
  · intro i hi j hj
    have h1 : i = 0 ∨ i = 1 := by simp at hi; omega
    have h2 : j = 0 ∨ j = 1 := by simp at hj; omega
    rcases h1 with rfl | rfl <;> rcases h2 with rfl | rfl <;> norm_num

section
variable {S S' : SimulateArgs} (hS : S.Valid) (hS' : S'.Valid) (hm : SameSystem S S') (hout : S.OutLarge) (hout' : S'.OutLarge)
  {N N' : ℕ} (hN : 0 < N) (hN' : 0 < N')
  {ord : Fin N → ℕ → ℕ → ℕ → SetOrders} (hord : ∀ k c t i, (ord k c t i).Valid)
  {ord' : Fin N' → ℕ → ℕ → ℕ → SetOrders} (hord' : ∀ k c t i, (ord' k c t i).Valid)
  {ordRixs : Fin N → List ℕ → SetOrders} (hordR : ∀ k l, (ordRixs k l).Valid)
  {ordRixs' : Fin N' → List ℕ → SetOrders} (hordR' : ∀ k l, (ordRixs' k l).Valid)
  {out : Fin N → Option Simulated} {out' : Fin N' → Option Simulated}
  (hfin : CanFinish msgSum (fun k : Fin N => simulateSpectra S (ord k) (ordRixs k) k.val N) out)
  (hfin' : CanFinish msgSum (fun k : Fin N' => simulateSpectra S' (ord' k) (ordRixs' k) k.val N') out')
  {s s' : Simulated} (hs : out ⟨0, hN⟩ = some s) (hs' : out' ⟨0, hN'⟩ = some s')

include hS hS' hout hout' hord hord' hordR hordR' hfin hfin' hs hs' in
/-- C97, the thermal averages that two runs of `simulate_spectra` store. -/
theorem C97_averages (hne : S.es ≠ []) (hkB : S'.kB = S.kB) {η : ℝ} (hE : EnergiesShifted S.kB S.T S'.T S.es S'.es η) (t k : ℕ)
    (ε D : ℝ) :
    (ValuesClose S.es.length (fun i => s.ps.data i t k) (fun i => s'.ps.data i t k) ε D →
      |s.ps.thermal t k - s'.ps.thermal t k| ≤ ε + (Real.exp (2 * η) - 1) * D) ∧
    (ValuesClose S.es.length (fun i => s.xps.data i t k) (fun i => s'.xps.data i t k) ε D →
      |s.xps.thermal t k - s'.xps.thermal t k| ≤ ε + (Real.exp (2 * η) - 1) * D) ∧
    (ValuesClose S.es.length (fun i => s.nixs.data i t k) (fun i => s'.nixs.data i t k) ε D →
      |s.nixs.thermal t k - s'.nixs.thermal t k| ≤ ε + (Real.exp (2 * η) - 1) * D) ∧
    (ValuesClose S.es.length (fun i => s.xas.data i t k) (fun i => s'.xas.data i t k) ε D →
      |s.xas.thermal t k - s'.xas.thermal t k| ≤ ε + (Real.exp (2 * η) - 1) * D) := by
  obtain ⟨a1, a2, a3, a4⟩ := C63_tables hS hout hN hord hordR hfin hs
  obtain ⟨b1, b2, b3, b4⟩ := C63_tables hS' hout' hN' hord' hordR' hfin' hs'
  rw [hkB] at b1 b2 b3 b4
  exact ⟨C97_thermal hne (a1.thermal t k) (b1.thermal t k) hE, C97_thermal hne (a2.thermal t k) (b2.thermal t k) hE,
    C97_thermal hne (a3.thermal t k) (b3.thermal t k) hE, C97_thermal hne (a4.thermal t k) (b4.thermal t k) hE⟩

variable (hdict : Dict.NodupKeys S.hOp) (hh : isHermitianOp S.hOp) (hdict' : Dict.NodupKeys S'.hOp) (hh' : isHermitianOp S'.hOp)
  {w w' : ℝ} (hw0 : 0 < w) (hw : strengthSum S.hOp ≤ w) (hw0' : 0 < w') (hw' : strengthSum S'.hOp ≤ w')
  {l1 l2 b1 b2 : ℕ} (hsys : S.nBaths = [(l1, b1), (l2, b2)])

include hS hS' hm hout hout' hord hord' hordR hordR' hfin hfin' hs hs' hdict hdict' hh hh' hw0 hw hw0' hw' hsys in
/-- C97, RIXS in two finished runs of `simulate_spectra`.  `T` and `T'` absorb, `U` and `U'` emit; the latter always belong to the
first out-going polarisation (C44). -/
theorem C97_rixs (hr : SameRixs S S') (hsolve : ExactSolver S.solve) (hsolve' : ExactSolver S'.solve) (i a c d k : ℕ)
    (hi : i < S.es.length) (hi' : i < S'.es.length) (ha : a < S.epsilonsRIXSin.length) (ha' : a < S'.epsilonsRIXSin.length)
    (hc : c < S.epsilonsRIXSout.length) (hc' : c < S'.epsilonsRIXSout.length) (hd : d < S.wIn.length) (hk : k < S.wLoss.length)
    (T U T' U' : Vec ℂ → Vec ℂ) (hT : T = between (position (intKeys S.nBaths)) l2 l1 (fun m m' =>
      dipole S.gaunt S.epsilonsRIXSin[a].x S.epsilonsRIXSin[a].y S.epsilonsRIXSin[a].z l2 m l1 m'))
    (hU : U = between (position (intKeys S.nBaths)) l1 l2 (fun m' m =>
      star (dipole S.gaunt (S.epsilonsRIXSout[0]'(Nat.zero_lt_of_lt hc)).x (S.epsilonsRIXSout[0]'(Nat.zero_lt_of_lt hc)).y
        (S.epsilonsRIXSout[0]'(Nat.zero_lt_of_lt hc)).z l2 m l1 m')))
    (hT' : T' = between (position (intKeys S.nBaths)) l2 l1 (fun m m' =>
      dipole S'.gaunt S'.epsilonsRIXSin[a].x S'.epsilonsRIXSin[a].y S'.epsilonsRIXSin[a].z l2 m l1 m'))
    (hU' : U' = between (position (intKeys S.nBaths)) l1 l2 (fun m' m =>
      star (dipole S'.gaunt (S'.epsilonsRIXSout[0]'(Nat.zero_lt_of_lt hc')).x (S'.epsilonsRIXSout[0]'(Nat.zero_lt_of_lt hc')).y
        (S'.epsilonsRIXSout[0]'(Nat.zero_lt_of_lt hc')).z l2 m l1 m')))
    (hsmall : NoSmall (size S) T S.slaterWeightMin S.restrictions)
    (hsmall' : NoSmall (size S') T' S'.slaterWeightMin S'.restrictions)
    (hkeep : EmissionKept S T U i S.wIn[d]) (hkeep' : EmissionKept S' T' U' i S.wIn[d]) :
    RixsClose S S' T U T' U' i S.wIn[d] w w' (s.rixs.data i a c d k) (s'.rixs.data i a c d k) := by
  have hsz : size S' = size S := by unfold size; rw [hm.system]
  have hn : nSpinOrbitals S.nBaths = size S := nSpinOrbitals_eq _
  have hop : OpInSystem (size S) S.hOp := by
    have := (hS.spectra [] hS.delta).hop
    rw [← hn]; exact this
  have hop' : OpInSystem (size S) S'.hOp := by
    have := (hS'.spectra [] hS'.delta).hop
    have h2 : nSpinOrbitals S'.nBaths = size S := by rw [nSpinOrbitals_eq]; exact hsz
    rw [← h2]; exact this
  have hdw : d < S'.wIn.length := by rw [hr.mesh]; exact hd
  have hwd : S'.wIn[d] = S.wIn[d] := by simp only [hr.mesh]
  have hkw : k < S'.wLoss.length := by rw [hm.meshNIXS]; exact hk
  have hwk : S'.wLoss[k] = S.wLoss[k] := by simp only [hm.meshNIXS]
  obtain ⟨g, ⟨x, hx, -, hg⟩, hval⟩ := C82_rixs hS hout hN hord hordR hfin hs hdict hh hsys hsolve i a c d k hi ha hc hd hk T hT U hU
    hsmall (X := Set.univ) (fun x hx => ⟨hkeep x hx, fun _ _ => trivial, fun _ _ _ _ _ _ => trivial⟩) hw0
    (hamilton_within hS hdict hh hw)
  obtain ⟨g', ⟨x', hx', -, hg'⟩, hval'⟩ := C82_rixs hS' hout' hN' hord' hordR' hfin' hs' hdict' hh' (hm.system.trans hsys) hsolve' i a c d
    k hi' ha' hc' hdw hkw T' (by rw [hm.system]; exact hT') U' (by rw [hm.system]; exact hU')
    hsmall' (X := Set.univ) (fun x hx => ⟨hkeep' x (by rw [hwd] at hx; exact hx), fun _ _ => trivial, fun _ _ _ _ _ _ => trivial⟩) hw0'
    (hamilton_within hS' hdict' hh' hw')
  have v := hval x hx
  have v' := hval' x' hx'
  rw [hwd] at hx'
  rw [hwk] at hg'
  have hI : IsIntermediate S T i S.wIn[d] x := hx
  have hI' : IsIntermediate S' T' i S.wIn[d] x' := hx'
  refine ⟨x, x', hI, hI', ?_, ?_⟩
  all_goals unfold hamilton at hx hx' hg hg'
  all_goals rw [hsz, hamiltonian_allowed _ _ hm.restrictions] at hx' hg'
  · have e : ‖((S.wIn[d] : ℂ) + Complex.I * S.delta + (S.es.getD i 0 : ℂ)) - ((S.wIn[d] : ℂ) + Complex.I * S.delta
        + (S'.es.getD i 0 : ℂ))‖ = |S.es.getD i 0 - S'.es.getD i 0| := by
      rw [add_sub_add_left_eq_sub, ← Complex.ofReal_sub, Complex.norm_real, Real.norm_eq_abs]
    rw [hm.broadening] at hx'
    have im : ∀ y : ℝ, ((S.wIn[d] : ℂ) + Complex.I * S.delta + (y : ℂ)).im = S.delta := fun y => by simp
    have := solves_change hop hdict hh hop' hdict' hh' S.restrictions (by rw [im]; exact hS.delta) (by rw [im, im]) ?_ ?_ hx hx'
    · rw [im, e] at this
      exact this
    · intro F hF
      unfold excite exciteVec excited
      rw [if_neg fun hc => hF ⟨hc.1, hc.2.1⟩]
    · intro F hF
      unfold excite exciteVec excited
      rw [hsz, if_neg fun hc => hF ⟨hc.1, (hm.restrictions F).1 hc.2.1⟩]
  · have e : ‖((S.wLoss[k] : ℂ) + Complex.I * S.deltaRIXS + (S.es.getD i 0 : ℂ)) - ((S.wLoss[k] : ℂ) + Complex.I * S.deltaRIXS
        + (S'.es.getD i 0 : ℂ))‖ = |S.es.getD i 0 - S'.es.getD i 0| := by
      rw [add_sub_add_left_eq_sub, ← Complex.ofReal_sub, Complex.norm_real, Real.norm_eq_abs]
    rw [hr.broadening] at hg' v'
    rw [hsz] at v'
    have im : ∀ y : ℝ, ((S.wLoss[k] : ℂ) + Complex.I * S.deltaRIXS + (y : ℂ)).im = S.deltaRIXS := fun y => by simp
    have := green_change hop hdict hh hop' hdict' hh' S.restrictions (by rw [im]; exact hS.deltaRIXS) (by rw [im, im]) ?_ ?_ hg hg'
    · rw [im, e] at this
      have c1 := im_close this
      unfold emissionChange energyChange
      rw [_root_.abs_le] at *
      constructor <;> linarith [c1.1, c1.2, v.1, v.2, v'.1, v'.2]
    · intro F hF
      unfold exciteVec excited
      rw [if_neg fun hc => hF ⟨hc.1, hc.2.1⟩]
    · intro F hF
      unfold exciteVec excited
      rw [hsz, if_neg fun hc => hF ⟨hc.1, (hm.restrictions F).1 hc.2.1⟩]

end

section
variable {L L' : MainLib} {A A' : MainArgs} (hA : A.Valid) (hA' : A'.Valid) (hG : GauntLarge L.gaunt A.ls)
  (hG' : GauntLarge L'.gaunt A'.ls) {N N' : ℕ} (hN : 0 < N) (hN' : 0 < N')
  {ord : Fin N → ℕ → ℕ → ℕ → SetOrders} (hord : ∀ k c t i, (ord k c t i).Valid)
  {ordRixs : Fin N → List ℕ → SetOrders} (hordR : ∀ k l, (ordRixs k l).Valid) {out : Fin N → Option MainOutput}
  (hfin : CanFinish msgSum (fun k : Fin N => mainRank L A (ord k) (ordRixs k) k.val N) out)
  {o : MainOutput} (ho : out ⟨0, hN⟩ = some o)
  {ord' : Fin N' → ℕ → ℕ → ℕ → SetOrders} (hord' : ∀ k c t i, (ord' k c t i).Valid)
  {ordRixs' : Fin N' → List ℕ → SetOrders} (hordR' : ∀ k l, (ordRixs' k l).Valid) {out' : Fin N' → Option MainOutput}
  (hfin' : CanFinish msgSum (fun k : Fin N' => mainRank L' A' (ord' k) (ordRixs' k) k.val N') out')
  {o' : MainOutput} (ho' : out' ⟨0, hN'⟩ = some o')
variable (hL : SolverCorrect L.solver) (hL' : SolverCorrect L'.solver) {b : ℕ → ℕ} {P : BasisParams} {hx hy hz hx' hy' hz' : ℝ}
  {h0 h0' : Op Label ℂ} (hD : Documented A b P hx hy hz h0) (hD' : Documented A' b P hx' hy' hz' h0')

include hA hA' hG hG' hord hord' hordR hordR' hfin hfin' ho ho' hL hL' hD hD' in
/-- C97, main, including the maps of RIXS and the averages. -/
theorem C97_mainMore (hR : GauntRules L.gaunt) (hR' : GauntRules L'.gaunt) (hsolve : ExactSolver L.solve) (hsolve' : ExactSolver L'.solve)
    (hdelta : A'.delta = A.delta) (hdeltaN : A'.deltaNIXS = A.deltaNIXS) (hdeltaR : A'.deltaRIXS = A.deltaRIXS) :
    ∃ psis S psis' S', MainRun L A b P hx hy hz h0 o.energies psis S ∧ MainRun L' A' b P hx' hy' hz' h0' o'.energies psis' S' ∧
      ∀ w w', 0 < w → strengthSum S.hOp ≤ w → 0 < w' → strengthSum S'.hOp ≤ w' →
        PDChange b S S' o.spectra o'.spectra w w' ∧ PDMoreChange b S S' o.spectra o'.spectra w w' := by
  obtain ⟨psis, S, hrun, hS, hout, hall⟩ := C65_run hA hG hN hord hordR hfin ho hL hD
  obtain ⟨psis', S', hrun', hS', hout', hall'⟩ := C65_run hA' hG' hN' hord' hordR' hfin' ho' hL' hD'
  have hm := mainRun_same hrun hrun' hdelta hdeltaN
  have hfin1 := (hall N hN ord hord ordRixs hordR).canFinish
  have hfin1' := (hall' N' hN' ord' hord' ordRixs' hordR').canFinish
  refine ⟨psis, S, psis', S', hrun, hrun', fun w w' hw0 hw hw0' hw' => ⟨mainRun_change hG hG' hN hN' hord hordR hord' hordR' hD hD' hR hR'
    hrun hrun' hm hS hS' hout hout' hfin1 hfin1' hw0 hw hw0' hw', ?_, ?_⟩⟩
  · intro i a c d k hi hi' ha ha' hc hd hk hkeep hkeep'
    obtain ⟨hdict, hh⟩ := hrun.dict
    obtain ⟨hdict', hh'⟩ := hrun'.dict
    have hK : intKeys S.nBaths = pdSystem b := by rw [hrun.system]; rfl
    have hcS : c < S.epsilonsRIXSout.length := by rw [hrun.args.epsilonsRIXS.2]; exact hc
    have hcS' : c < S'.epsilonsRIXSout.length := by rw [hrun'.args.epsilonsRIXS.2]; exact hc
    have h00 : ∀ h, S.epsilonsRIXSout[0]'h = ⟨1, 0, 0⟩ := by
      intro h
      simp only [hrun.args.epsilonsRIXS.2, List.getElem_cons_zero]
    have h00' : ∀ h, S'.epsilonsRIXSout[0]'h = ⟨1, 0, 0⟩ := by
      intro h
      simp only [hrun'.args.epsilonsRIXS.2, List.getElem_cons_zero]
    have hsm : NoSmall (size S) (dipolePD S.gaunt b S.epsilonsRIXSin[a]) S.slaterWeightMin S.restrictions := by
      rw [hrun.args.cutoffs.2.1, hrun.args.library.1]
      exact dipole_noSmall hG hD.ls b (by rw [← hrun.args.epsilonsRIXS.1]; exact List.getElem_mem _) _ _
    have hsm' : NoSmall (size S') (dipolePD S'.gaunt b S'.epsilonsRIXSin[a]) S'.slaterWeightMin S'.restrictions := by
      rw [hrun'.args.cutoffs.2.1, hrun'.args.library.1]
      exact dipole_noSmall hG' hD'.ls b (by rw [← hrun'.args.epsilonsRIXS.1]; exact List.getElem_mem _) _ _
    refine C97_rixs hS hS' hm hout hout' hN hN' hord hord' hordR hordR' hfin1 hfin1' rfl rfl hdict hh hdict' hh' hw0 hw hw0' hw'
      hrun.system ⟨mesh_eq hrun.args.wIn hrun'.args.wIn, by rw [hrun.args.deltaRIXS, hrun'.args.deltaRIXS, hdeltaR]⟩
      (by rw [hrun.args.library.2.2.2.1]; exact hsolve) (by rw [hrun'.args.library.2.2.2.1]; exact hsolve')
      i a c d k hi hi' ha ha' hcS hcS' hd hk _ _ _ _ ?_ ?_ ?_ ?_ hsm hsm' hkeep hkeep'
    · rw [hK]; rfl
    · rw [hK, h00]; rfl
    · rw [hK]; rfl
    · rw [hK, h00']; rfl
  · intro hkB η hE t k ε D f hf hV
    have hne : S.es ≠ [] := hrun.nonempty.2
    obtain ⟨a1, a2, a3, a4⟩ := C97_averages hS hS' hout hout' hN hN' hord hord' hordR hordR' hfin1 hfin1' rfl rfl hne hkB hE t k ε D
    simp only [List.mem_cons, List.not_mem_nil, or_false] at hf
    rcases hf with rfl | rfl | rfl | rfl
    · exact a1 hV
    · exact a2 hV
    · exact a3 hV
    · exact a4 hV

end

/-- A smaller cutoff serves as well. -/
theorem ExCut.half {gaunt : GauntFun} {sphHarm : SphHarm} {jn : SphericalJn} {c : ℝ} (h : ExCut gaunt sphHarm jn c) :
    ExCut gaunt sphHarm jn (c / 2) := by
  have hp := h.pos
  have hle : c / 2 ≤ c := by linarith
  refine ⟨by linarith, by linarith [h.le_one], ?_, ?_, ?_, ?_, ?_⟩
  · exact fun S hS T hT ha => (h.dip S hS T hT ha).imp id hle.trans
  · exact fun S hS T hT ha => (h.dip' S hS T hT ha).imp id hle.trans
  · exact fun S hS T hT ha => (h.nixs S hS T hT ha).imp id hle.trans
  · exact fun F hF => (h.rixs F hF).imp id hle.trans
  · exact fun F hF => (h.drop F hF).imp id fun h1 =>
      (mul_le_mul_of_nonneg_right hle (sum_nonneg fun _ _ => Complex.normSq_nonneg _)).trans h1

/-- The hypotheses of `C97_rixs` and `C97_averages` are met: two cutoffs, any numbers of ranks. -/
example {gaunt : GauntFun} (hG : GauntRules gaunt) (sphHarm : SphHarm) (jn : SphericalJn) (N N' : ℕ) (hN : 0 < N) (hN' : 0 < N') :
    ∃ c : ℝ, 0 < c ∧ ∃ s s' : Simulated, ∃ w, 0 < w ∧
      CanFinish msgSum (fun k : Fin N => simulateSpectra (exSim gaunt sphHarm jn c) (fun _ _ _ => holeOrders) (fun _ => holeOrders)
        k.val N) (fun k => if k.val = 0 then some s else none) ∧
      CanFinish msgSum (fun k : Fin N' => simulateSpectra (exSim gaunt sphHarm jn (c / 2)) (fun _ _ _ => holeOrders)
        (fun _ => holeOrders) k.val N') (fun k => if k.val = 0 then some s' else none) ∧
      RixsClose (exSim gaunt sphHarm jn c) (exSim gaunt sphHarm jn (c / 2)) (exDip gaunt) (exDip' gaunt) (exDip gaunt) (exDip' gaunt)
        0 7 w w (s.rixs.data 0 0 0 0 0) (s'.rixs.data 0 0 0 0 0) ∧
      ∀ ε D, ValuesClose 1 (fun i => s.ps.data i 0 0) (fun i => s'.ps.data i 0 0) ε D →
        |s.ps.thermal 0 0 - s'.ps.thermal 0 0| ≤ ε + (Real.exp (2 * 0) - 1) * D := by
  obtain ⟨c, hc⟩ := exists_exCut gaunt sphHarm jn
  have hc2 := hc.half
  have hrun : ∀ {c : ℝ} (hc : ExCut gaunt sphHarm jn c), ∃ s, ∀ N, 0 < N →
      CanFinish msgSum (fun k : Fin N => simulateSpectra (exSim gaunt sphHarm jn c) (fun _ _ _ => holeOrders) (fun _ => holeOrders)
        k.val N) (fun k => if k.val = 0 then some s else none) := by
    intro c hc
    obtain ⟨s, hs⟩ := exSim_ok hc hG
    refine ⟨s, fun N hN => ?_⟩
    have := simulate_settles hN (exSim_valid gaunt sphHarm jn c hc.pos) (exSim_outLarge hc) (fun _ _ _ _ => holeOrders)
      (fun _ _ _ _ => holeOrders_valid) (fun _ _ => holeOrders) (fun _ _ => holeOrders_valid)
    rw [hs] at this
    obtain ⟨out, rfl, hrun⟩ := this
    exact hrun.allRanksFinish.canFinish
  obtain ⟨s, hs⟩ := hrun hc
  obtain ⟨s', hs'⟩ := hrun hc2
  have hdict : Dict.NodupKeys (castOp countAll) := nodup_castOp countAll_nodup
  have hh : isHermitianOp (castOp countAll) := hermitian_castOp countAll_hermitian
  have hw : 0 < strengthSum (castOp countAll) + 1 := by
    have : 0 ≤ strengthSum (castOp countAll) := List.sum_nonneg (by
      intro x hx
      obtain ⟨q, -, rfl⟩ := List.mem_map.1 hx
      exact norm_nonneg _)
    linarith
  have hsolve : ∀ {c : ℝ}, ExactSolver (exSim gaunt sphHarm jn c).solve := by
    intro c d a y ha
    show a *ᵥ (a⁻¹ *ᵥ y) = y
    rw [Matrix.mulVec_mulVec, Matrix.mul_nonsing_inv a ((Matrix.isUnit_iff_isUnit_det a).1 ha), Matrix.one_mulVec]
  have hle : strengthSum (castOp countAll) ≤ strengthSum (castOp countAll) + 1 := by linarith
  have hkeep : ∀ {c : ℝ}, ExCut gaunt sphHarm jn c → EmissionKept (exSim gaunt sphHarm jn c) (exDip gaunt) (exDip' gaunt) 0 7 := by
    intro c hc x hx
    unfold IsIntermediate at hx
    rw [show ((((7 : ℝ) : ℂ)) + Complex.I * ((exSim gaunt sphHarm jn c).delta : ℂ) + ((exSim gaunt sphHarm jn c).es.getD 0 0 : ℂ))
      = 7 + Complex.I by
        rw [show (exSim gaunt sphHarm jn c).delta = 1 from rfl, show (exSim gaunt sphHarm jn c).es.getD 0 0 = 0 from rfl]
        push_cast; ring] at hx
    rw [exSim_size] at hx ⊢
    exact (exSim_rixs hc hx).1
  refine ⟨c, hc.pos, s, s', strengthSum (castOp countAll) + 1, hw, hs N hN, hs' N' hN', ?_, ?_⟩
  · exact C97_rixs (S := exSim gaunt sphHarm jn c) (S' := exSim gaunt sphHarm jn (c / 2)) (exSim_valid gaunt sphHarm jn c hc.pos)
      (exSim_valid gaunt sphHarm jn (c / 2) hc2.pos) ⟨rfl, fun _ => Iff.rfl, rfl, rfl, rfl, rfl⟩ (exSim_outLarge hc) (exSim_outLarge hc2)
      hN hN' (fun _ _ _ _ => holeOrders_valid) (fun _ _ _ _ => holeOrders_valid) (fun _ _ => holeOrders_valid)
      (fun _ _ => holeOrders_valid) (hs N hN) (hs' N' hN') rfl rfl hdict hh hdict hh hw hle hw hle rfl ⟨rfl, rfl⟩
      hsolve hsolve 0 0 0 0 0 one_pos one_pos one_pos one_pos one_pos one_pos one_pos one_pos
      _ _ _ _ rfl rfl rfl rfl (by rw [exSim_size]; exact hc.dip) (by rw [exSim_size]; exact hc2.dip) (hkeep hc) (hkeep hc2)
  · intro ε D
    exact (C97_averages (S := exSim gaunt sphHarm jn c) (S' := exSim gaunt sphHarm jn (c / 2)) (exSim_valid gaunt sphHarm jn c hc.pos)
      (exSim_valid gaunt sphHarm jn (c / 2) hc2.pos) (exSim_outLarge hc) (exSim_outLarge hc2)
      hN hN' (fun _ _ _ _ => holeOrders_valid) (fun _ _ _ _ => holeOrders_valid) (fun _ _ => holeOrders_valid)
      (fun _ _ => holeOrders_valid) (hs N hN) (hs' N' hN') rfl rfl (by simp [exSim]) rfl
      (η := 0) ⟨rfl, 0, fun i _ => by simp [exSim]⟩ 0 0 ε D).1

/-- The hypotheses of `C97_mainMore` are met: three ranks and five, the p shell of the second run 30/49 higher. -/
example {solver : EigenSolver} (hS : SolverCorrect solver) (htot : ∀ H d k, k < d → ∃ p, solver.eigsh H d k = .ok p)
    (sphHarm : SphHarm) (jn : SphericalJn) {T : ℝ} (hT : 0 < T) (hcold : 10 * (1 * T) ≤ 4) :
    ∃ (o o' : MainOutput) (psis psis' : _) (S S' : _),
      MainRun (holeLib solver sphHarm jn 1) (hole2Args 0 T) (fun _ => 0) holeParams 0 0 0 (holeLevels 0) o.energies psis S ∧
      MainRun (holeLib solver sphHarm jn 1) (hole2Args (30 / 49) T) (fun _ => 0) holeParams 0 0 0 (holeLevels (30 / 49)) o'.energies
        psis' S' ∧
      ∀ w w', 0 < w → strengthSum S.hOp ≤ w → 0 < w' → strengthSum S'.hOp ≤ w' →
        PDChange (fun _ => 0) S S' o.spectra o'.spectra w w' ∧ PDMoreChange (fun _ => 0) S S' o.spectra o'.spectra w w' := by
  obtain ⟨o, ho⟩ := hole2_finishes 0 hS htot sphHarm jn one_pos hT hcold
  obtain ⟨o', ho'⟩ := hole2_finishes (30 / 49) hS htot sphHarm jn one_pos hT hcold
  have h1 := (ho 3 (by decide) (fun _ _ _ _ => holeOrders) (fun _ _ _ _ => holeOrders_valid) (fun _ _ => holeOrders)
    (fun _ _ => holeOrders_valid)).canFinish
  have h2 := (ho' 5 (by decide) (fun _ _ _ _ => holeOrders) (fun _ _ _ _ => holeOrders_valid) (fun _ _ => holeOrders)
    (fun _ _ => holeOrders_valid)).canFinish
  have hsolve : ExactSolver (holeLib solver sphHarm jn 1).solve := by
    intro d a y ha
    show a *ᵥ (a⁻¹ *ᵥ y) = y
    rw [Matrix.mulVec_mulVec, Matrix.mul_nonsing_inv a ((Matrix.isUnit_iff_isUnit_det a).1 ha), Matrix.one_mulVec]
  obtain ⟨psis, S, psis', S', r, r', c⟩ := C97_mainMore (hole2Args_valid 0 T) (hole2Args_valid (30 / 49) T) sympyGaunt_large
    sympyGaunt_large (by decide) (by decide) (fun _ _ _ _ => holeOrders_valid) (fun _ _ => holeOrders_valid) h1 rfl
    (fun _ _ _ _ => holeOrders_valid) (fun _ _ => holeOrders_valid) h2 rfl hS hS (hole2Args_documented 0 T)
    (hole2Args_documented (30 / 49) T) sympyGaunt_rules sympyGaunt_rules hsolve hsolve rfl rfl rfl
  exact ⟨o, o', psis, psis', S, S', r, r', c⟩

end

end Verif
