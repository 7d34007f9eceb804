/-
C97: how far spectra can move when the input of a calculation changes.
-/
import Verif.Lemmas.SpectraChange
import Verif.Prop.Spectra

namespace Verif

open Finset Mpi Psr Spec Matrix

noncomputable section

section
variable {A A' : SpectraArgs} (hA : A.Valid) (hA' : A'.Valid) (hm : SameMesh A A') (hdict : Dict.NodupKeys A.hOp)
  (hh : isHermitianOp A.hOp) (hdict' : Dict.NodupKeys A'.hOp) (hh' : isHermitianOp A'.hOp)
  {psis psis' : List (Psi ℂ)} {es es' : List ℝ} (hlen : es.length ≤ psis.length) (hlen' : es'.length ≤ psis'.length)
  (hpsis : ∀ psi ∈ psis, IsState A.n psi) (hpsis' : ∀ psi ∈ psis', IsState A'.n psi)
  {tOps tOps' : List (Op ℕ ℂ)} (htOps : ∀ tOp ∈ tOps, OpInSystem A.n tOp) (htOps' : ∀ tOp ∈ tOps', OpInSystem A'.n tOp)

include hA hA' hm hdict hh hdict' hh' hlen hlen' hpsis hpsis' htOps htOps' in
/-- C97, `getSpectra` in mode `eigen_states`.  Two finished calculations for Hermitian Hamiltonians on the same mesh, with any numbers
of ranks: the values for eigenstate `i` and transition operator `t` differ by at most the sum of a term of first order in the
distance of the excited states, one of first order in the changes of the Hamiltonian and of the energy, and the errors of the
Lanczos vectors. -/
theorem C97_eigenStates {N N' : ℕ} (hN : 0 < N) (hN' : 0 < N') (ord : Fin N → ℕ → ℕ → SetOrders) (ord' : Fin N' → ℕ → ℕ → SetOrders)
    (out : Fin N → Spectra) (out' : Fin N' → Spectra)
    (hout : CanFinish msgSum (fun k : Fin N => getSpectra A tOps psis es .eigenStates (ord k) k.val N) out)
    (hout' : CanFinish msgSum (fun k : Fin N' => getSpectra A' tOps' psis' es' .eigenStates (ord' k) k.val N') out')
    (j : Fin N) (j' : Fin N') (i t : ℕ) (hi : i < es.length) (ht : t < tOps.length) (hi' : i < es'.length) (ht' : t < tOps'.length)
    (v v' : Vec ℂ) (hv : v = excitation A.n tOps[t] A.slaterWeightMin A.restrictions psis[i])
    (hv' : v' = excitation A.n tOps'[t] A'.slaterWeightMin A.restrictions psis'[i])
    (w w' : ℝ) (hw0 : 0 < w) (hw : strengthSum A.hOp ≤ w) (hw0' : 0 < w') (hw' : strengthSum A'.hOp ≤ w') :
    (out j i t).length = A.w.length ∧ (out' j' i t).length = A.w.length ∧ ∀ k < A.w.length,
      ‖(out j i t).getD k 0 - (out' j' i t).getD k 0‖ ≤ responseChange A.n v v' (hamiltonianChange A A' es[i] es'[i]) A.delta
        + krylovError A v w + krylovError A' v' w' := by
  have h1 := eigenStates_value hA hlen hpsis htOps hN hout j i t hi ht
  have h2 := eigenStates_value hA' hlen' hpsis' htOps' hN' hout' j' i t hi' ht'
  have htin := htOps _ (List.getElem_mem ht)
  have hpin := hpsis _ (List.getElem_mem (by omega : i < psis.length))
  have htin' := htOps' _ (List.getElem_mem ht')
  have hpin' := hpsis' _ (List.getElem_mem (by omega : i < psis'.length))
  have e1 := ampl_transitionState (A := A) htin hpin
  have e2 := ampl_transitionState (A := A') htin' hpin'
  rw [← hm.n, ← hm.restrictions] at hv'
  exact spectrumOf_change hA hA' hm hdict hh hdict' hh' (applyOp_excited htin hpin hA.weight _)
    (applyOp_excited htin' hpin' hA'.weight _) (hv.trans e1.symm) (hv'.trans e2.symm) hw0 hw hw0' hw' h1 h2

include hA hA' hm hdict hh hdict' hh' hlen hlen' hpsis hpsis' htOps htOps' in
/-- C97, `getSpectra` in mode `H_build`: the same for the values on rank 0, if no matrix element of the transition operators is
below `slaterWeightMin`. -/
theorem C97_hBuild {N N' : ℕ} (hN : 0 < N) (hN' : 0 < N') (ord : Fin N → ℕ → ℕ → SetOrders) (ord' : Fin N' → ℕ → ℕ → SetOrders)
    (hord : ∀ k t i, (ord k t i).Valid) (hord' : ∀ k t i, (ord' k t i).Valid) (out : Fin N → Spectra) (out' : Fin N' → Spectra)
    (hout : CanFinish msgSum (fun k : Fin N => getSpectra A tOps psis es .hBuild (ord k) k.val N) out)
    (hout' : CanFinish msgSum (fun k : Fin N' => getSpectra A' tOps' psis' es' .hBuild (ord' k) k.val N') out')
    (i t : ℕ) (hi : i < es.length) (ht : t < tOps.length) (hi' : i < es'.length) (ht' : t < tOps'.length)
    (hsmall : ∀ T ⊆ range A.n, NoSmallElements A.n tOps[t] A.slaterWeightMin A.restrictions T)
    (hsmall' : ∀ T ⊆ range A'.n, NoSmallElements A'.n tOps'[t] A'.slaterWeightMin A'.restrictions T)
    (v v' : Vec ℂ) (hv : v = excitation A.n tOps[t] A.slaterWeightMin A.restrictions psis[i])
    (hv' : v' = excitation A.n tOps'[t] A'.slaterWeightMin A.restrictions psis'[i])
    (w w' : ℝ) (hw0 : 0 < w) (hw : strengthSum A.hOp ≤ w) (hw0' : 0 < w') (hw' : strengthSum A'.hOp ≤ w') :
    (out ⟨0, hN⟩ i t).length = A.w.length ∧ (out' ⟨0, hN'⟩ i t).length = A.w.length ∧ ∀ k < A.w.length,
      ‖(out ⟨0, hN⟩ i t).getD k 0 - (out' ⟨0, hN'⟩ i t).getD k 0‖
        ≤ responseChange A.n v v' (hamiltonianChange A A' es[i] es'[i]) A.delta + krylovError A v w + krylovError A' v' w' := by
  have h1 := hBuild_value hA hlen hpsis htOps hN hord hout i t hi ht hsmall
  have h2 := hBuild_value hA' hlen' hpsis' htOps' hN' hord' hout' i t hi' ht' hsmall'
  have htin := htOps _ (List.getElem_mem ht)
  have hpin := hpsis _ (List.getElem_mem (by omega : i < psis.length))
  have htin' := htOps' _ (List.getElem_mem ht')
  have hpin' := hpsis' _ (List.getElem_mem (by omega : i < psis'.length))
  have e1 := ampl_transitionState (A := A) htin hpin
  have e2 := ampl_transitionState (A := A') htin' hpin'
  rw [← hm.n, ← hm.restrictions] at hv'
  exact spectrumOf_change hA hA' hm hdict hh hdict' hh' (applyOp_excited htin hpin hA.weight _)
    (applyOp_excited htin' hpin' hA'.weight _) (hv.trans e1.symm) (hv'.trans e2.symm) hw0 hw hw0' hw' h1 h2

end

/-! ### Non-vacuity: the level of the second site is raised and fewer Lanczos vectors are used -/

/-- `exTwo` with a higher level. -/
def exRaised : Op ℕ ℤ := [([(0, .c), (1, .a)], 1), ([(1, .c), (0, .a)], 1), ([(1, .c), (1, .a)], 4)]

theorem exRaised_inSystem : OpInSystem 2 (castOp exRaised) :=
  inSystem_castOp (by unfold OpInSystem exRaised; decide)

theorem exRaised_nodup : Dict.NodupKeys (castOp exRaised) := nodup_castOp (by unfold exRaised; decide)

theorem exRaised_hermitian : isHermitianOp (castOp exRaised) :=
  hermitian_castOp (by
    intro p
    have h : daggerOp exRaised = [([(1, .c), (0, .a)], 1), ([(0, .c), (1, .a)], 1), ([(1, .c), (1, .a)], 4)] := by decide
    rw [h]
    unfold exRaised
    simp only [Dict.get?_cons, Dict.get?_nil]
    split_ifs <;> rfl)

theorem exRaised_elements : ∀ T ∈ ({{0}, {1}} : Finset (Finset ℕ)), ∀ S ∈ (range 2).powerset,
    matrixElement exRaised S T ≠ 0 → S ∈ ({{0}, {1}} : Finset (Finset ℕ)) := by decide

theorem exRaised_smallest : SmallestInvariant 2 (castOp exRaised) (1 / 2 : ℝ) none
    {S | S ⊆ range 2 ∧ encBytes 2 S ∈ Dict.keys exTwoPsi} {S | S ∈ ({{0}, {1}} : Finset (Finset ℕ))} where
  contains := fun S hS => by rw [exTwoPsi_key hS.1 hS.2]; simp
  closed := fun T hT S hS hc => exRaised_elements T hT S (mem_powerset.2 hS)
    ((connects_castOp (by norm_num) (by norm_num)).1 hc).2
  smallest := fun X hX hc => by
    have h0 : ({0} : Finset ℕ) ∈ X := hX ⟨by decide, by simp [exTwoPsi]⟩
    intro S hS
    simp only [Set.mem_ofPred_eq, mem_insert, mem_singleton] at hS
    rcases hS with rfl | rfl
    · exact h0
    · exact hc _ h0 _ (by decide) ((connects_castOp (by norm_num) (by norm_num)).2 ⟨trivial, by decide⟩)

theorem exRaised_one : LinearIndependent ℂ (fun i : Fin (min 1 ({{0}, {1}} : Finset (Finset ℕ)).card) =>
    (hamiltonian 2 (castOp exRaised) (1 / 2) none)^[i.val] (ampl 2 exTwoPsi)) := by
  have hcard : min 1 ({{0}, {1}} : Finset (Finset ℕ)).card = 1 := by decide
  rw [hcard, Fintype.linearIndependent_iff]
  intro g hg
  rw [Fin.sum_univ_one] at hg
  have ha0 : ampl 2 exTwoPsi {0} = 1 := by simp [ampl, exTwoPsi, Dict.get?_cons]
  have e0 := congrFun hg {0}
  simp only [Fin.val_zero, Function.iterate_zero, id, Pi.smul_apply, smul_eq_mul, ha0, Pi.zero_apply, mul_one] at e0
  intro i
  fin_cases i
  exact e0

/-- The changed calculation. -/
def exRaisedArgs : SpectraArgs := { exArgs with hOp := castOp exRaised, krylovSize := 1 }

theorem exRaisedArgs_valid : exRaisedArgs.Valid where
  hop := exRaised_inSystem
  cut := by norm_num [exRaisedArgs, exArgs]
  weight := by norm_num [exRaisedArgs, exArgs]
  delta := by norm_num [exRaisedArgs, exArgs]
  krylov := by norm_num [exRaisedArgs, exArgs]
  fuel := by norm_num [exRaisedArgs, exArgs]

theorem exRaised_spectrum (e : ℝ) : ∃ g, spectrumOf exRaisedArgs exTwoPsi e = .ok g := by
  obtain ⟨hr, ht⟩ := C57_raises exRaised_inSystem exRaised_nodup exRaised_hermitian (cut := 1 / 2) (by norm_num) none exTwoPsi_state
    (fun _ _ _ => trivial) exTwoPsi_norm {{0}, {1}} exRaised_smallest 1 10 (by norm_num) e [0] 1 (by norm_num) []
    (columnsExact_nil ..)
  rcases ht with ht | ⟨g, h', hg, -, -⟩
  · rcases hr.1 ht with h | h
    · cases h
    · exact absurd exRaised_one h
  · refine ⟨scaleSpectrum (Real.sqrt (norm2 exTwoPsi)) g, ?_⟩
    unfold spectrumOf
    rw [exTwo_unit]
    have : getGreen exRaisedArgs.n e exTwoPsi exRaisedArgs.hOp exRaisedArgs.w exRaisedArgs.delta exRaisedArgs.krylovSize
        exRaisedArgs.cut exRaisedArgs.restrictions [] exRaisedArgs.fuel = .ok (g, h') := hg
    rw [this]
    rfl

theorem exRaised_modes (e : ℝ) : ∃ gs other : Spectra, ∀ (N : ℕ), 0 < N → ∀ ord : Fin N → ℕ → ℕ → SetOrders,
    (∀ k t i, (ord k t i).Valid) →
      AllRanksFinish msgSum (fun k : Fin N => getSpectra exRaisedArgs [castOp exAdd] [exVacuum] [e] .eigenStates (ord k) k.val N)
        (fun _ => gs) ∧
      AllRanksFinish msgSum (fun k : Fin N => getSpectra exRaisedArgs [castOp exAdd] [exVacuum] [e] .hBuild (ord k) k.val N)
        (fun k => if k.val = 0 then gs else other) := by
  rcases C58_modes_agree exRaisedArgs_valid (es := [e]) (psis := [exVacuum]) (by simp) exVacuum_states exAdd_inSystem (by
    intro tOp h
    rw [List.mem_singleton.1 h]
    exact fun T _ => noSmall_castOp 2 exAdd (by norm_num [exRaisedArgs, exArgs]) none T) with h | h
  · exact h
  · exfalso
    obtain ⟨g, hg⟩ := exRaised_spectrum e
    have hord : ∀ k t i, ((fun (_ : Fin 1) (_ _ : ℕ) => (⟨fun _ l => l, fun l => l⟩ : SetOrders)) k t i).Valid :=
      fun _ _ _ => ⟨fun _ l => List.Perm.refl l, fun l => List.Perm.refl l⟩
    have hr := (eigen_dichotomy (N := 1) (by omega) exRaisedArgs_valid (es := [e]) (psis := [exVacuum]) (by simp) exVacuum_states
      exAdd_inSystem fun _ _ _ => ⟨fun _ l => l, fun l => l⟩).1 (fun _ _ => g) (by
        intro i hi tOp ht
        have h0 : i = 0 := by simpa using hi
        rw [List.mem_singleton.1 ht, h0, ← hg]
        exact spectrumOf_congr exRaisedArgs_valid
          (isState_applyOpPure (exAdd_inSystem _ (by simp)) (exVacuum_states _ (by simp)) _ _) exTwoPsi_state exAdd_state e)
    exact (h 1 (by omega) _ hord _).1 hr.allRanksFinish.canFinish

/-- The hypotheses of `C97_eigenStates` and `C97_hBuild` are met: three ranks and two, a level raised from 3 to 4, an energy from 0
to 1/10, five Lanczos vectors and one. -/
example (ord : Fin 3 → ℕ → ℕ → SetOrders) (hord : ∀ k t i, (ord k t i).Valid) (ord' : Fin 2 → ℕ → ℕ → SetOrders)
    (hord' : ∀ k t i, (ord' k t i).Valid) : ∃ (gs gs' : Spectra) (v : Vec ℂ),
      AllRanksFinish msgSum (fun k : Fin 3 => getSpectra exArgs [castOp exAdd] [exVacuum] [0] .eigenStates (ord k) k.val 3)
        (fun _ => gs) ∧
      AllRanksFinish msgSum (fun k : Fin 2 => getSpectra exRaisedArgs [castOp exAdd] [exVacuum] [1 / 10] .eigenStates (ord' k) k.val 2)
        (fun _ => gs') ∧
      v ≠ 0 ∧ ∀ k < 1, ‖(gs 0 0).getD k 0 - (gs' 0 0).getD k 0‖ ≤ responseChange 2 v v (hamiltonianChange exArgs exRaisedArgs 0 (1 / 10)) 1
        + krylovError exArgs v 5 + krylovError exRaisedArgs v 6 := by
  obtain ⟨gs, other, h⟩ := ex_modes
  obtain ⟨gs', other', h'⟩ := exRaised_modes (1 / 10)
  have h1 := h 3 (by decide) ord hord
  have h2 := h' 2 (by decide) ord' hord'
  have hexc : excitation 2 (castOp exAdd) (1 / 2) none exVacuum = ampl 2 exTwoPsi := by
    rw [← ampl_congr exAdd_state]
    exact (ampl_transitionState (A := exArgs) (exAdd_inSystem _ (by simp)) (exVacuum_states _ (by simp))).symm
  have hm : SameMesh exArgs exRaisedArgs := ⟨rfl, rfl, rfl, rfl⟩
  have hs : strengthSum exArgs.hOp ≤ 5 := by
    simp [strengthSum, exArgs, castOp, exTwo]; norm_num
  have hs' : strengthSum exRaisedArgs.hOp ≤ 6 := by
    simp [strengthSum, exRaisedArgs, castOp, exRaised]; norm_num
  have ha0 : ampl 2 exTwoPsi {0} = 1 := by simp [ampl, exTwoPsi, Dict.get?_cons]
  refine ⟨gs, gs', ampl 2 exTwoPsi, h1.1, h2.1, fun hz => ?_, ?_⟩
  · rw [hz] at ha0
    simp at ha0
  · exact (C97_eigenStates exArgs_valid exRaisedArgs_valid hm exTwo_nodup exTwo_hermitian exRaised_nodup exRaised_hermitian
      (psis := [exVacuum]) (psis' := [exVacuum]) (es := [0]) (es' := [1 / 10]) (by simp) (by simp) exVacuum_states exVacuum_states
      exAdd_inSystem exAdd_inSystem (by decide) (by decide) ord ord' _ _ h1.1.canFinish h2.1.canFinish 0 0 0 0 (by simp) (by simp)
      (by simp) (by simp) _ _ hexc.symm hexc.symm 5 6 (by norm_num) hs (by norm_num) hs').2.2

example (ord : Fin 3 → ℕ → ℕ → SetOrders) (hord : ∀ k t i, (ord k t i).Valid) (ord' : Fin 2 → ℕ → ℕ → SetOrders)
    (hord' : ∀ k t i, (ord' k t i).Valid) : ∃ (out : Fin 3 → Spectra) (out' : Fin 2 → Spectra),
      AllRanksFinish msgSum (fun k : Fin 3 => getSpectra exArgs [castOp exAdd] [exVacuum] [0] .hBuild (ord k) k.val 3) out ∧
      AllRanksFinish msgSum (fun k : Fin 2 => getSpectra exRaisedArgs [castOp exAdd] [exVacuum] [1 / 10] .hBuild (ord' k) k.val 2) out' ∧
      ∀ k < 1, ‖(out 0 0 0).getD k 0 - (out' 0 0 0).getD k 0‖
        ≤ responseChange 2 (ampl 2 exTwoPsi) (ampl 2 exTwoPsi) (hamiltonianChange exArgs exRaisedArgs 0 (1 / 10)) 1
          + krylovError exArgs (ampl 2 exTwoPsi) 5 + krylovError exRaisedArgs (ampl 2 exTwoPsi) 6 := by
  obtain ⟨gs, other, h⟩ := ex_modes
  obtain ⟨gs', other', h'⟩ := exRaised_modes (1 / 10)
  have h1 := h 3 (by decide) ord hord
  have h2 := h' 2 (by decide) ord' hord'
  have hexc : excitation 2 (castOp exAdd) (1 / 2) none exVacuum = ampl 2 exTwoPsi := by
    rw [← ampl_congr exAdd_state]
    exact (ampl_transitionState (A := exArgs) (exAdd_inSystem _ (by simp)) (exVacuum_states _ (by simp))).symm
  have hs : strengthSum exArgs.hOp ≤ 5 := by
    simp [strengthSum, exArgs, castOp, exTwo]; norm_num
  have hs' : strengthSum exRaisedArgs.hOp ≤ 6 := by
    simp [strengthSum, exRaisedArgs, castOp, exRaised]; norm_num
  have hsm : ∀ T ⊆ range 2, NoSmallElements 2 (castOp exAdd) (1 / 2) none T :=
    fun T _ => noSmall_castOp 2 exAdd (by norm_num) none T
  exact ⟨_, _, h1.2, h2.2, (C97_hBuild exArgs_valid exRaisedArgs_valid ⟨rfl, rfl, rfl, rfl⟩ exTwo_nodup exTwo_hermitian exRaised_nodup
    exRaised_hermitian (psis := [exVacuum]) (psis' := [exVacuum]) (es := [0]) (es' := [1 / 10]) (by simp) (by simp) exVacuum_states
    exVacuum_states exAdd_inSystem exAdd_inSystem (by decide) (by decide) ord ord' hord hord' _ _ h1.2.canFinish h2.2.canFinish 0 0
    (by simp) (by simp) (by simp) (by simp) hsm hsm _ _ hexc.symm hexc.symm 5 6 (by norm_num) hs (by norm_num) hs').2.2⟩

end

end Verif
