/-
C79: without a magnetic field the energies of an odd number of electrons come in pairs.
-/
import Verif.Lemmas.Kramers
import Verif.Prop.TimeReversal

namespace Verif

open Finset Mpi Psr Spec

noncomputable section

section
variable {L : MainLib} {A : MainArgs} (hL : SolverCorrect L.solver) {b : ℕ → ℕ} {P : BasisParams} {h0 : Op Label ℂ}
  (hD : Documented A b P 0 0 0 h0) (hG : GauntSymmetric L.gaunt) {s : Setup} (hs : mainSetup L A = .ok s)

include hL hD hG hs in
/-- C79.  Arguments of main without a magnetic field, whose non-interacting operator is invariant under a time reversal that
changes the sign of every spin-orbital if it is applied twice, and that describe an odd number of electrons.  (Electrons
may only leave valence baths that exist.)  Then the lowest energies come in pairs, whatever eigenvectors are found. -/
theorem C79_eigensystem (hbath : ∀ l ∈ [1, 2], P.val l = 0 → P.dnVal l ≤ 0)
    (hcount : Odd (P.n0 1 + P.n0 2 + P.val 1 + P.val 2)) {π : ℕ → ℕ} {φ : ℕ → ℂ} (hR : TimeReversal b P π φ)
    (hodd : ∀ i < nTotal (pdSystem b), φ (π i) = -φ i)
    (hinv : ∀ v, operator (labelSpec (position (pdSystem b)) h0) (reverse (nTotal (pdSystem b)) π φ v)
      = reverse (nTotal (pdSystem b)) π φ (operator (labelSpec (position (pdSystem b)) h0) v))
    {energies : List ℝ} {psis : List (Psi ℂ)}
    (heig : eigensystem L.solver (nSpinOrbitals s.nBaths) s.hOp 1e-12 s.basis A.nPsiMax .lanczos 1e-7 1 = .ok (energies, psis))
    (k : ℕ) (hk : 2 * k + 1 < energies.length) : energies[2 * k] = energies[2 * k + 1] := by
  have hgood := mainSetup_good L A s hs
  obtain ⟨hnb, hr, hop, hn0, hb⟩ := setup_documented hD hs
  have hsz : nSpinOrbitals s.nBaths = nTotal (pdSystem b) := by rw [nSpinOrbitals_eq, hnb]; rfl
  have hP := provides_documented b P
  have hnd := nodup_documented b
  obtain ⟨states, hsnd, hst, hbs⟩ := hgood.basis
  rw [hsz] at hst hbs
  have hC := (C11_get_basis _ P _ _ _ _ _ hnd hP _ hb).1
  have hcard : ∀ F ∈ states, Odd F.card := by
    intro F hF
    have h := C13_electron_number_partial _ P _ _ _ _ _ hnd hP _ (fun p hp => hbath p.1 (by
      simp only [List.mem_cons, List.not_mem_nil, or_false] at hp
      rcases hp with rfl | rfl <;> simp)) hb F (hst F hF) (by rw [hbs]; exact List.mem_map.2 ⟨F, hF, rfl⟩)
    simp only [List.map_cons, List.map_nil, List.sum_cons, List.sum_nil, add_zero] at h
    have h2 : Odd (F.card : ℤ) := by
      rw [h]
      rw [show P.n0 1 + P.val 1 + (P.n0 2 + P.val 2) = P.n0 1 + P.n0 2 + P.val 1 + P.val 2 by ring]
      exact hcount
    exact_mod_cast h2
  have hmem : ∀ F ∈ states, F.image π ∈ states := by
    intro F hF
    have h1 : IsConfiguration [(1, b 1), (2, b 2)] (pdSystem b) P F := (hC F (hst F hF)).1 (by
      rw [hbs]; exact List.mem_map.2 ⟨F, hF, rfl⟩)
    have h2 := image_subset' hR.partner (hst F hF)
    have h3 := (hC _ h2).2 (partner_configuration hR (hst F hF) h1)
    rw [hbs] at h3
    obtain ⟨F', hF', e⟩ := List.mem_map.1 h3
    rwa [← encBytes_injOn (hst F' hF') h2 e]
  obtain ⟨-, hham⟩ := hamiltonian_documented hD hn0 hop
  have hopg := hgood.op
  rw [hsz] at hopg heig
  rw [hbs] at heig
  obtain ⟨h1, h2, x, h3, h4, h5, -⟩ := C51_eigensystem L.solver hL _ s.hOp hopg.1.2 hopg.1.1 hopg.2 1e-12 states hsnd hst
    A.nPsiMax .lanczos 1e-7 1 one_pos _ _ heig
  have hst' : ∀ F ∈ states.toFinset, F ⊆ range (nTotal (pdSystem b)) := fun F hF => hst F (List.mem_toFinset.1 hF)
  refine kramers_pairs (op := s.hOp) (s := states.toFinset) (x := x) (cut := 1e-12) hR.partner hR.unit hodd (fun v F _ => ?_) hst'
    (fun F hF => List.mem_toFinset.2 (hmem F (List.mem_toFinset.1 hF))) (fun F hF => hcard F (List.mem_toFinset.1 hF))
    (storedElement_hermitian hopg.1.1 hopg.1.2 hopg.2 1e-12 hst') ⟨h1, h3, fun v hv F hF => h4 v hv F (List.mem_toFinset.1 hF), h5⟩ hk
  have e : operator (opSpec s.hOp) v = pdHamiltonian L.gaunt (position (pdSystem b)) A (P.n0 2) 0 0 0 h0 v :=
    funext fun F => hham v F
  rw [hham, e, pdHamiltonian_reverse hR hG hinv]

end

section
variable {L : MainLib} {A : MainArgs} (hA : A.Valid) (hG : GauntLarge L.gaunt A.ls) {N : ℕ}
  (hN : 0 < N)
  {ord : Fin N → ℕ → ℕ → ℕ → SetOrders} (hord : ∀ k c t i, (ord k c t i).Valid)
  {ordRixs : Fin N → List ℕ → SetOrders} (hordR : ∀ k l, (ordRixs k l).Valid) {out : Fin N → Option MainOutput}
  (hfin : CanFinish msgSum (fun k : Fin N => mainRank L A (ord k) (ordRixs k) k.val N) out)
  {o : MainOutput} (ho : out ⟨0, hN⟩ = some o) (hL : SolverCorrect L.solver)

include hA hG hord hordR hfin ho hL in
/-- C79.  The same for the energies that a finished run of main prints. -/
theorem C79_main {b : ℕ → ℕ} {P : BasisParams} {h0 : Op Label ℂ} (hD : Documented A b P 0 0 0 h0)
    (hGs : GauntSymmetric L.gaunt) (hbath : ∀ l ∈ [1, 2], P.val l = 0 → P.dnVal l ≤ 0)
    (hcount : Odd (P.n0 1 + P.n0 2 + P.val 1 + P.val 2)) {π : ℕ → ℕ} {φ : ℕ → ℂ} (hR : TimeReversal b P π φ)
    (hodd : ∀ i < nTotal (pdSystem b), φ (π i) = -φ i)
    (hinv : ∀ v, operator (labelSpec (position (pdSystem b)) h0) (reverse (nTotal (pdSystem b)) π φ v)
      = reverse (nTotal (pdSystem b)) π φ (operator (labelSpec (position (pdSystem b)) h0) v))
    (k : ℕ) (hk : 2 * k + 1 < o.energies.length) : o.energies[2 * k] = o.energies[2 * k + 1] := by
  obtain ⟨st⟩ := main_steps hA hG hN hord hordR hfin ho
  have heig := st.eig
  unfold refEigensystem at heig
  split at heig
  · cases heig
  exact C79_eigensystem hL hD hGs st.setup hbath hcount hR hodd hinv heig k hk

include hA hG hord hordR hfin ho hL in
/-- C79.  For crystal-field files without p bath states an odd number of electrons is enough. -/
theorem C79_crystal_field {b : ℕ → ℕ} {P : BasisParams} {h0 : Op Label ℂ} (hD : Documented A b P 0 0 0 h0)
    (hGs : GauntSymmetric L.gaunt) {parameters : Dict String ℝ} (hA0 : A.h0 = .crystalField parameters) (hC : CrystalFieldForm A)
    (hb1 : b 1 = 0) (hbath : ∀ l ∈ [1, 2], P.val l = 0 → P.dnVal l ≤ 0)
    (hcount : Odd (P.n0 1 + P.n0 2 + P.val 1 + P.val 2))
    (k : ℕ) (hk : 2 * k + 1 < o.energies.length) : o.energies[2 * k] = o.energies[2 * k + 1] := by
  obtain ⟨st⟩ := main_steps hA hG hN hord hordR hfin ho
  obtain ⟨-, -, hfit, -⟩ := (C73_setup_iff hGs hD).1 ⟨st.s, st.setup⟩
  obtain ⟨π, φ, hR, hinv, hodd⟩ := C78_crystal_field hD hA0 hC hfit.1
  exact C79_main hA hG hN hord hordR hfin ho hL hD hGs hbath hcount hR (hodd hb1) hinv k hk

end

end

end Verif
