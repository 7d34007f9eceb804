/-
C77: absorption spectra for light polarised along x and y are the same if the Hamiltonian is invariant under rotations by
90 degrees about the z axis.
-/
import Verif.Lemmas.SymmetryCF

namespace Verif

open Finset Mpi Psr Spec

noncomputable section

/-- The stored states that contribute to the spectra of main are eigenvectors whose rotated versions are superpositions of
them. -/
theorem lowest_turned {n : ℕ} {op : Op ℕ ℂ} {cut weight : ℝ} {states : Finset (Finset ℕ)} {energies es : List ℝ}
    {psis kept : List (Psi ℂ)} (hst : ∀ S ∈ states, S ⊆ range n)
    (hH : ∀ S ∈ states, ∀ T ∈ states, storedElement op cut S T = star (storedElement op cut T S))
    {χ : ℕ → ℂ} (hχ : ∀ i, ‖χ i‖ = 1) (hop : CommutesTurn χ (operator (opSpec op)))
    (h : LowestStates n op cut weight states energies psis)
    (hes : es = energies.take es.length) (hk : kept = psis.take es.length)
    (hlt : es.length < energies.length) (hgap : ∀ i (hi : i < es.length), energies[i] < energies[es.length])
    (hn : ∀ psi ∈ kept, ∑ S ∈ (range n).powerset, Complex.normSq (ampl n psi S) = 1) :
    ∃ U : ℕ → ℕ → ℂ,
      (∀ j < es.length, ∀ k < es.length, ∑ i ∈ range es.length, star (U i j) * U i k = if j = k then 1 else 0) ∧
      (∀ i < es.length, ∀ j < es.length, es.getD i 0 ≠ es.getD j 0 → U i j = 0) ∧
      ∀ i < es.length, ∀ F, turn χ (ampl n (kept.getD i [])) F = ∑ j ∈ range es.length, U i j * ampl n (kept.getD j []) F := by
  obtain ⟨h1, hl, x, h2, h3, h4, h5⟩ := h
  have hx0 : LowestIn states (storedElement op cut) energies x := ⟨h1, h2, h3, h4⟩
  obtain ⟨U, hU, hU0, hx⟩ := hx0.unitary (turn_lowest hχ hop hx0) hH hlt hgap
  have hget : ∀ i < es.length, es.getD i 0 = energies.getD i 0 := by
    intro i hi
    rw [hes, List.getD_eq_getElem?_getD, List.getD_eq_getElem?_getD, List.getElem?_take_of_lt hi]
  have hψ : ∀ i (hi : i < es.length) (hi' : i < psis.length), kept.getD i [] = psis[i] ∧ psis[i] ∈ kept := by
    intro i hi hi'
    have e : kept[i]? = some psis[i] := by rw [hk, List.getElem?_take_of_lt hi, List.getElem?_eq_getElem hi']
    exact ⟨by rw [List.getD_eq_getElem?_getD, e]; rfl, List.mem_of_getElem? e⟩
  have ha : ∀ i < es.length, ∀ F, ampl n (kept.getD i []) F = if F ∈ states then x i F else 0 := by
    intro i hi F
    have hi' : i < psis.length := by omega
    rw [(hψ i hi hi').1]
    exact pruned_eq hst ((h2 i (by omega) i (by omega)).trans (if_pos rfl)) (h5 i hi').2 (hn _ (hψ i hi hi').2) F
  refine ⟨U, hU, fun i hi j hj hne => hU0 i hi j hj (by rwa [← hget i hi, ← hget j hj]), fun i hi F => ?_⟩
  by_cases hF : F ∈ states
  · have e := hx i hi F hF
    unfold turn at e ⊢
    rw [ha i hi, if_pos hF, e]
    refine Finset.sum_congr rfl fun j hj => ?_
    rw [ha j (mem_range.1 hj), if_pos hF]
  · unfold turn
    rw [ha i hi, if_neg hF, mul_zero]
    refine (Finset.sum_eq_zero fun j hj => ?_).symm
    rw [ha j (mem_range.1 hj), if_neg hF, mul_zero]

/-- The energies that contribute are the first ones. -/
theorem mainRun_kept {L : MainLib} {A : MainArgs} {b : ℕ → ℕ} {P : BasisParams} {hx hy hz : ℝ} {h0 : Op Label ℂ} {energies : List ℝ}
    {psis : List (Psi ℂ)} {S : SimulateArgs} (hrun : MainRun L A b P hx hy hz h0 energies psis S) :
    S.es = energies.take S.es.length ∧ S.psis = psis.take S.es.length ∧
      ∀ h : S.es.length < energies.length, ∀ i (hi : i < S.es.length), energies[i] < energies[S.es.length] := by
  have hsort := hrun.lowest.1
  obtain ⟨e0, rest, hE0⟩ := List.exists_cons_of_ne_nil hrun.nonempty.1
  have hmem : e0 ∈ energies := by rw [hE0]; exact List.mem_cons_self
  have hmin : ∀ e ∈ energies, e0 ≤ e := by
    rw [hE0] at hsort ⊢
    intro e he
    rcases List.mem_cons.1 he with rfl | he
    · exact le_rfl
    · exact (List.pairwise_cons.1 hsort).1 e he
  exact kept_take hsort hrun.lowest.2.1 hrun.kept.1 (hrun.kept.2 e0 hmem hmin)

section
variable {L : MainLib} {A : MainArgs} (hA : A.Valid) (hG : GauntLarge L.gaunt A.ls) {N : ℕ}
  (hN : 0 < N)
  {ord : Fin N → ℕ → ℕ → ℕ → SetOrders} (hord : ∀ k c t i, (ord k c t i).Valid)
  {ordRixs : Fin N → List ℕ → SetOrders} (hordR : ∀ k l, (ordRixs k l).Valid) {out : Fin N → Option MainOutput}
  (hfin : CanFinish msgSum (fun k : Fin N => mainRank L A (ord k) (ordRixs k) k.val N) out)
  {o : MainOutput} (ho : out ⟨0, hN⟩ = some o) (hL : SolverCorrect L.solver)

include hA hG hord hordR hfin ho hL in
/-- C77.  A finished run of main with the magnetic field along z and a non-interacting operator that is invariant under
rotation by 90 degrees about z, for some phases of the bath states.  If the energies used for the spectra do not
reach the end of the list, the stored states are normalised, and the cutoffs and the number of Lanczos
vectors are harmless for x and y polarisation, then the averaged absorption spectra of both are the same. -/
theorem C77_main {b : ℕ → ℕ} {P : BasisParams} {hz : ℝ} {h0 : Op Label ℂ} (hD : Documented A b P 0 0 hz h0)
    (hR : GauntRules L.gaunt) (hsolve : ExactSolver L.solve) (hf : L.f32 50 = 50) :
    ∃ psis S, MainRun L A b P 0 0 hz h0 o.energies psis S ∧ PDSpectra b S o.spectra ∧
      ∀ χ, QuarterTurn b χ →
        (∀ v, operator (labelSpec (position (pdSystem b)) h0) (turn χ v)
          = turn χ (operator (labelSpec (position (pdSystem b)) h0) v)) →
        S.es.length < o.energies.length →
        (∀ psi ∈ S.psis, ∑ F ∈ (range (size S)).powerset, Complex.normSq (ampl (size S) psi F) = 1) →
        Resolved S (dipolePD S.gaunt b ⟨1, 0, 0⟩) → Resolved S (dipolePD S.gaunt b ⟨0, 1, 0⟩) →
        ∀ k < 3000, o.spectra.xas.thermal 0 k = o.spectra.xas.thermal 1 k := by
  classical
  obtain ⟨psis, S, hrun, hS, hsp⟩ := main_spectra hA hG hN hord hordR hfin ho hL hD hR hsolve hf
  refine ⟨psis, S, hrun, hsp, fun χ hQ hinv hlt hnorm hrx hry k hk => ?_⟩
  have hsz : size S = nTotal (pdSystem b) := by unfold size; rw [hrun.system]; rfl
  have hsz' : nSpinOrbitals S.nBaths = nTotal (pdSystem b) := by
    rw [nSpinOrbitals_eq, hrun.system]; rfl
  have hop : CommutesTurn χ (operator (opSpec S.hOp)) := by
    have h := pdHamiltonian_turn (gaunt := L.gaunt) (A := A) (n3d := P.n0 2) (hz := hz) hQ (h0 := h0)
      fun v F => congrFun (hinv v) F
    intro v F
    rw [hrun.hamiltonian, h v F]
    unfold turn
    rw [hrun.hamiltonian]
  obtain ⟨k1, k2, k3⟩ := mainRun_kept hrun
  have hst : ∀ F ∈ ({F ∈ (range (nTotal (pdSystem b))).powerset |
      IsConfiguration [(1, b 1), (2, b 2)] (pdSystem b) P F} : Finset (Finset ℕ)), F ⊆ range (nTotal (pdSystem b)) :=
    fun F hF => Finset.mem_powerset.1 (Finset.mem_filter.1 hF).1
  obtain ⟨U, hU, hU0, hψ⟩ := lowest_turned (weight := 1e-7) hst
    (storedElement_hermitian hrun.dict.1 hS.hop hrun.dict.2 1e-12 fun F hF => by rw [hsz']; exact hst F hF) hQ.unit hop
    (by convert hrun.lowest) k1 k2 hlt (k3 hlt) (by rw [← hsz]; exact hnorm)
  rw [← hsz] at hψ
  obtain ⟨hs, hs'⟩ := turn_symmetry hQ.unit hop (size S) S.cut S.restrictions
  obtain ⟨-, -, -, t4⟩ := hsp.tables
  have hε := hrun.args.epsilons
  have hkry := hrun.args.cutoffs.1
  have hk1 : k < S.w.length := by rw [hrun.args.w.1]; exact hk
  have ht0 : 0 < S.epsilons.length := by rw [hε]; decide
  have ht1 : 1 < S.epsilons.length := by rw [hε]; decide
  have e0 : S.epsilons[0] = ⟨1, 0, 0⟩ := by rw [List.getElem_of_eq hε ht0]; rfl
  have e1 : S.epsilons[1] = ⟨0, 1, 0⟩ := by rw [List.getElem_of_eq hε ht1]; rfl
  obtain ⟨g, hg⟩ := choose_lt fun i hi => hsp.xas i 0 k hi ht0 hk1 (by rw [e0]; exact hkry ▸ (hrx i hi).2)
  obtain ⟨g', hg'⟩ := choose_lt fun i hi => hsp.xas i 1 k hi ht1 hk1 (by rw [e1]; exact hkry ▸ (hry i hi).2)
  rw [e0] at hg
  rw [e1] at hg'
  refine thermal_same (t4.thermal 1 k) (t4.thermal 0 k) (fun i hi => (hg' i hi).2) (fun i hi => (hg i hi).2) ?_
  refine response_symmetric hs hs' hU hU0 hψ (T := dipolePD S.gaunt b ⟨0, 1, 0⟩) (T' := dipolePD S.gaunt b ⟨1, 0, 0⟩)
    (between_linear _ _ _ _) (fun v => ?_) (fun i hi => (hry i hi).1) (fun i hi => (hrx i hi).1)
    (fun e => (Real.exp (-e / (S.kB * S.T)) : ℂ)) _ (fun i hi => (hg' i hi).1) fun i hi => (hg i hi).1
  funext F
  conv_rhs => unfold turn
  by_cases h1 : F ⊆ range (size S) ∧ AllowedOpt S.restrictions F
  · rw [if_pos h1, dipole_turn hQ]
    unfold turn
    simp only [if_pos h1]
  · simp only [if_neg h1, mul_zero]

end

/-- C77.  The non-interacting operator of every crystal-field file is invariant under rotation by 90 degrees about z, if the
bath states are turned like the d orbitals. -/
theorem C77_crystal_field {A : MainArgs} {b : ℕ → ℕ} {P : BasisParams} {hx hy hz : ℝ} {h0 : Op Label ℂ}
    (hD : Documented A b P hx hy hz h0) {parameters : Dict String ℝ} (hA : A.h0 = .crystalField parameters)
    (hC : CrystalFieldForm A) :
    ∃ χ, QuarterTurn b χ ∧ ∀ v, operator (labelSpec (position (pdSystem b)) h0) (turn χ v)
      = turn χ (operator (labelSpec (position (pdSystem b)) h0) v) := by
  have hb := hC.bath
  have hv := hC.valence
  rw [hD.nBaths] at hb
  rw [hD.nValBaths] at hv
  simp only [List.getElem?_cons_succ, List.getElem?_cons_zero, Option.some.injEq] at hb hv
  refine ⟨quarterPhase b, quarterPhase_turn b, fun v => funext fun F => ?_⟩
  rcases hD.h0 with ⟨h, -⟩ | ⟨p, -, h⟩
  · rw [hA] at h
    cases h
  · exact cf_invariant hv hb h v F

end

end Verif
