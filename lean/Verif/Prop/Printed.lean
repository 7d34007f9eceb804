/-
C66, C67: what main prints about the eigenstates.
-/
import Verif.Prop.Main
import Verif.Lemmas.PrintedStates

namespace Verif

open Finset Mpi Psr Spec

noncomputable section

/-- The elements of the result of a loop. -/
theorem mapM_getElem {α β : Type} {f : α → Py β} : ∀ {l : List α} {m : List β}, l.mapM f = .ok m →
    ∀ i (hi : i < l.length) (hj : i < m.length), f l[i] = .ok m[i] := by
  intro l
  induction l with
  | nil => intro m _ i hi; exact absurd hi (by simp)
  | cons a l ih =>
    intro m h i hi hj
    rw [List.mapM_cons] at h
    obtain ⟨x, hx, h⟩ := bind_ok h
    obtain ⟨xs, hxs, h⟩ := bind_ok h
    have h : x :: xs = m := Except.ok.inj h
    subst h
    cases i with
    | zero => exact hx
    | succ i => exact ih hxs i (by simpa using hi) (by simpa using hj)

section
variable {L : MainLib} {A : MainArgs} (hA : A.Valid) (hG : GauntLarge L.gaunt A.ls) {N : ℕ} (hN : 0 < N)
  {ord : Fin N → ℕ → ℕ → ℕ → SetOrders} (hord : ∀ k c t i, (ord k c t i).Valid)
  {ordRixs : Fin N → List ℕ → SetOrders} (hordR : ∀ k l, (ordRixs k l).Valid) {out : Fin N → Option MainOutput}
  (hfin : CanFinish msgSum (fun k : Fin N => mainRank L A (ord k) (ordRixs k) k.val N) out)
  {o : MainOutput} (ho : out ⟨0, hN⟩ = some o)
  (hL : SolverCorrect L.solver) {b : ℕ → ℕ} {P : BasisParams} {hx hy hz : ℝ} {h0 : Op Label ℂ}
  (hD : Documented A b P hx hy hz h0)

include hA hG hord hordR hfin ho hL hD in
theorem printed_run : ∃ psis S, MainRun L A b P hx hy hz h0 o.energies psis S ∧ S.Valid ∧
    PrintedMeans L.kB (nTotal (pdSystem b)) (position (pdSystem b)) o.energies psis o.thermal o.expValues.1 o.expValues.2 ∧
    o.weights.length = psis.length ∧
    (∀ i (hi : i < o.weights.length),
      PrintedWeights (nTotal (pdSystem b)) A.nPrintSlaterWeights (psis.getD i []) o.weights[i]) ∧
    (0 ≤ A.tolPrintOccupation → o.density.length = psis.length ∧ ∀ i (hi : i < o.density.length),
      PrintedDensity A.tolPrintOccupation (nTotal (pdSystem b)) (position (pdSystem b))
        (ampl (nTotal (pdSystem b)) (psis.getD i [])) o.density[i]) := by
  obtain ⟨st⟩ := main_steps hA hG hN hord hordR hfin ho
  obtain ⟨hrun, hv, -, hpsis⟩ := steps_run hA hG hL hD st
  refine ⟨st.psis, _, hrun, hv, ?_⟩
  have hnb : st.s.nBaths = [(1, b 1), (2, b 2)] := hrun.system
  have hsz : nSpinOrbitals st.s.nBaths = nTotal (pdSystem b) := by rw [nSpinOrbitals_eq, hnb]; rfl
  have hpos : position (intKeys st.s.nBaths) = position (pdSystem b) := by rw [hnb]; rfl
  have hn : Dict.NodupKeys st.s.nBaths := by rw [hnb]; exact nodup_documented b
  have hl : 2 ∈ Dict.keys st.s.nBaths := by rw [hnb]; simp [Dict.keys]
  have hasc := hrun.lowest.1
  have hlen : o.energies.length = st.psis.length := hrun.lowest.2.1.symm
  have hps : ∀ psi ∈ st.psis, IsState (nSpinOrbitals st.s.nBaths) psi := by rw [hsz]; exact hpsis
  have hget : ∀ i < st.psis.length, IsState (nSpinOrbitals st.s.nBaths) (st.psis.getD i []) := by
    intro i hi
    rw [List.getD_eq_getElem _ _ hi]
    exact hps _ (List.getElem_mem _)
  have hpr := st.prints
  unfold mainPrints at hpr
  obtain ⟨t, h1, hpr⟩ := bind_ok hpr
  obtain ⟨e, h2, hpr⟩ := bind_ok hpr
  dsimp only at hpr
  rw [if_pos rfl] at hpr
  obtain ⟨d, h3, hpr⟩ := bind_ok hpr
  cases t with
  | none => cases hpr
  | some t =>
  cases e with
  | none => cases hpr
  | some e =>
  have hpr : some (t, e, st.psis.map (printWeights L.solver.argsort A.nPrintSlaterWeights), d)
      = some (o.thermal, o.expValues, o.weights, o.density) := Except.ok.inj hpr
  simp only [Option.some.injEq, Prod.mk.injEq] at hpr
  obtain ⟨g1, g2, g3, g4⟩ := hpr
  refine ⟨?_, by rw [← g3, List.length_map], ?_, ?_⟩
  · have := printedMeans hn hl hlen hps hasc h1 h2
    rw [hsz, hpos, g1, g2] at this
    exact this
  · intro i hi
    have hi' : i < st.psis.length := by rwa [← g3, List.length_map] at hi
    have := printedWeights (fun l => hL.argsort l) A.nPrintSlaterWeights (hget i hi')
    rw [hsz] at this
    simp only [← g3, List.getElem_map]
    rwa [List.getD_eq_getElem _ _ hi'] at this ⊢
  · intro htol
    have hl3 := mapM_length h3
    refine ⟨by rw [← g4, hl3], fun i hi => ?_⟩
    have hi' : i < st.psis.length := by rwa [← g4, hl3] at hi
    have := printedDensity hn hl (hget i hi') htol (p := o.density[i]) (by
      rw [List.getD_eq_getElem _ _ hi']
      simp only [← g4]
      exact mapM_getElem h3 i hi' _)
    rw [hsz, hpos] at this
    exact this

include hA hG hord hordR hfin ho hL hD in
/-- C66 and C67.  If main finishes, then for the eigenstates of which it computes the spectra (C65):
the printed table has the expectation values of the eigenstates and the printed thermal values
are its Boltzmann averages at 300 K (C66); the printed product states are those with the
highest weights, and the printed density matrix elements are those between real d orbitals
that exceed `tolPrintOccupation` (C67). -/
theorem C66_printed : ∃ psis S, MainRun L A b P hx hy hz h0 o.energies psis S ∧
    PrintedMeans L.kB (nTotal (pdSystem b)) (position (pdSystem b)) o.energies psis o.thermal o.expValues.1 o.expValues.2 ∧
    o.weights.length = psis.length ∧
    (∀ i (hi : i < o.weights.length),
      PrintedWeights (nTotal (pdSystem b)) A.nPrintSlaterWeights (psis.getD i []) o.weights[i]) ∧
    (0 ≤ A.tolPrintOccupation → o.density.length = psis.length ∧ ∀ i (hi : i < o.density.length),
      PrintedDensity A.tolPrintOccupation (nTotal (pdSystem b)) (position (pdSystem b))
        (ampl (nTotal (pdSystem b)) (psis.getD i [])) o.density[i]) := by
  obtain ⟨psis, S, h1, -, h2⟩ := printed_run hA hG hN hord hordR hfin ho hL hD
  exact ⟨psis, S, h1, h2⟩

end

/-- C66.  The temperature given to main has no effect on the printed values or on the stored
energies: the thermal averages are printed for 300 K. -/
theorem C66_temperature {L : MainLib} {A : MainArgs} (hA : A.Valid) (hG : GauntLarge L.gaunt A.ls) (T : ℝ) {N : ℕ} (hN : 0 < N)
    {ord : Fin N → ℕ → ℕ → ℕ → SetOrders} (hord : ∀ k c t i, (ord k c t i).Valid)
    {ordRixs : Fin N → List ℕ → SetOrders} (hordR : ∀ k l, (ordRixs k l).Valid) {out out' : Fin N → Option MainOutput}
    (hfin : CanFinish msgSum (fun k : Fin N => mainRank L A (ord k) (ordRixs k) k.val N) out)
    (hfin' : CanFinish msgSum (fun k : Fin N => mainRank L { A with T := T } (ord k) (ordRixs k) k.val N) out')
    {o o' : MainOutput} (ho : out ⟨0, hN⟩ = some o) (ho' : out' ⟨0, hN⟩ = some o') :
    o'.thermal = o.thermal ∧ o'.expValues = o.expValues ∧ o'.weights = o.weights ∧ o'.density = o.density ∧
      o'.energies = o.energies := by
  obtain ⟨st⟩ := main_steps hA hG hN hord hordR hfin ho
  obtain ⟨st'⟩ := main_steps (A := { A with T := T }) ⟨hA.delta, hA.deltaNIXS, hA.deltaRIXS⟩ hG hN hord hordR hfin' ho'
  have hs : st'.s = st.s := by
    have h1 : mainSetup L A = .ok st'.s := st'.setup
    rw [st.setup] at h1
    exact (Except.ok.inj h1).symm
  have h2 := st'.eig
  rw [hs] at h2
  have h2 : refEigensystem L.solver (nSpinOrbitals st.s.nBaths) st.s.hOp 1e-12 st.s.basis A.nPsiMax 1e-7
    = .ok (o'.energies, st'.psis) := h2
  rw [st.eig] at h2
  have h2 := Except.ok.inj h2
  rw [Prod.mk.injEq] at h2
  have h3 := st'.prints
  rw [hs, ← h2.1, ← h2.2] at h3
  have h3 : mainPrints L A st.s.nBaths o.energies st.psis 0 = _ := h3
  rw [st.prints] at h3
  have h3 := Except.ok.inj h3
  simp only [Option.some.injEq, Prod.mk.injEq] at h3
  exact ⟨h3.1.symm, h3.2.1.symm, h3.2.2.1.symm, h3.2.2.2.symm, h2.1.symm⟩

/-- C67.  The printed byte strings, although without trailing zero bytes, are different for
different product states. -/
theorem C67_identifies {n : ℕ} {F G : Finset ℕ} (hF : F ⊆ range n) (hG : G ⊆ range n)
    (h : npBytes (encBytes n F) = npBytes (encBytes n G)) : F = G :=
  encBytes_injOn hF hG (npBytes_inj (by unfold encBytes; simp) h)

end

end Verif
