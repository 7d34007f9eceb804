/-
The steps of main.
-/
import Verif.Lemmas.MainRuns
import Verif.Prop.Assemble
import Verif.Prop.CrystalField
import Verif.Prop.Restrictions
import Verif.Prop.Average
import Verif.Prop.Shell
import Verif.Prop.Simulate

namespace Verif

open Finset Mpi Psr Spec

noncomputable section

theorem zipDict_two {V : Type} (x y : V) : zipDict [1, 2] [x, y] = [(1, x), (2, y)] := by
  simp [zipDict, Dict.update, Dict.set]

theorem linspace_mesh (a b : ℝ) (k : ℕ) : Mesh (linspace a b k) a b k := by
  refine ⟨by simp [linspace], fun i hi => ?_⟩
  simp only [linspace, List.getElem_map, List.getElem_range]
  ring

/-- The steps before the spectra. -/
structure MainSteps (L : MainLib) (A : MainArgs) (o : MainOutput) where
  s : Setup
  psis : List (Psi ℂ)
  low : List ℝ × List (Psi ℂ)
  setup : mainSetup L A = .ok s
  eig : refEigensystem L.solver (nSpinOrbitals s.nBaths) s.hOp 1e-12 s.basis A.nPsiMax 1e-7 = .ok (o.energies, psis)
  prints : mainPrints L A s.nBaths o.energies psis 0 = .ok (some (o.thermal, o.expValues, o.weights, o.density))
  cut : energyCut o.energies psis (A.energyCut * (L.kB * A.T)) = .ok low
  spectra : refSimulate (mainSim L A s low.1 low.2) = .ok o.spectra

theorem refMain_steps {L : MainLib} {A : MainArgs} {o : MainOutput} (h : refMain L A = .ok o) :
    Nonempty (MainSteps L A o) := by
  unfold refMain at h
  obtain ⟨s, e1, h⟩ := bind_ok h
  obtain ⟨eig, e2, h⟩ := bind_ok h
  obtain ⟨prints, e3, h⟩ := bind_ok h
  obtain ⟨low, e4, h⟩ := bind_ok h
  obtain ⟨sp, e5, h⟩ := bind_ok h
  cases prints with
  | none => cases h
  | some p =>
    cases h
    exact ⟨⟨s, eig.2, low, e1, e2, e3, e4, e5⟩⟩

/-- The setup for a p and a d shell. -/
theorem setup_documented {L : MainLib} {A : MainArgs} {b : ℕ → ℕ} {P : BasisParams} {hx hy hz : ℝ} {h0 : Op Label ℂ}
    (hD : Documented A b P hx hy hz h0) {s : Setup} (h : mainSetup L A = .ok s) :
    s.nBaths = [(1, b 1), (2, b 2)] ∧
    mainRestrictions [(1, b 1), (2, b 2)] [(1, P.val 1), (2, P.val 2)] [(1, P.n0 1), (2, P.n0 2)]
      [(1, P.tol 1), (2, P.tol 2)] [(1, P.dnVal 1), (2, P.dnVal 2)] [(1, P.dnCon 1), (2, P.dnCon 2)] = .ok s.restrictions ∧
    getHamiltonianOperator L.gaunt (pdSystem b) A.Fdd A.Fpp A.Fpd A.Gpd A.xi2p A.xi3d [(1, P.n0 1), (2, P.n0 2)]
      A.chargeTransferCorrection hx hy hz h0 = .ok s.hOp ∧ Dict.NodupKeys h0 ∧
    getBasis [(1, b 1), (2, b 2)] [(1, P.val 1), (2, P.val 2)] [(1, P.dnVal 1), (2, P.dnVal 2)]
      [(1, P.dnCon 1), (2, P.dnCon 2)] [(1, P.tol 1), (2, P.tol 2)] [(1, P.n0 1), (2, P.n0 2)] = .ok s.basis := by
  unfold mainSetup at h
  simp only [hD.ls, hD.nBaths, hD.nValBaths, hD.n0imps, hD.dnTols, hD.dnValBaths, hD.dnConBaths, hD.hField,
    zipDict_two] at h
  obtain ⟨r, e1, h⟩ := bind_ok h
  obtain ⟨q, e2, h⟩ := bind_ok h
  cases e2
  obtain ⟨op, e3, h⟩ := bind_ok h
  obtain ⟨basis, e4, h⟩ := bind_ok h
  cases h
  refine ⟨rfl, e1, ?_, ?_, e4⟩
  · unfold mainHamiltonian at e3
    rcases hD.h0 with ⟨hp, -⟩ | ⟨params, hp, hcf⟩
    · rw [hp] at e3
      exact e3
    · rw [hp] at e3
      dsimp only [getHamiltonianOperatorUsingCF] at e3
      rw [hcf] at e3
      exact e3
  · rcases hD.h0 with ⟨-, hn⟩ | ⟨params, -, hcf⟩
    · exact hn
    · obtain ⟨h0', -, -, -, he, -, -, -, hn, -⟩ := C53_meaning (nBaths := [(1, b 1), (2, b 2)]) (nValBaths := [(1, P.val 1), (2, P.val 2)])
        (basis := "spherical") (readH0CFFile params) (b 2) (P.val 2) rfl rfl (Or.inl rfl)
      rw [he] at hcf
      cases hcf
      exact hn

theorem provides_documented (b : ℕ → ℕ) (P : BasisParams) :
    ProvidesAll [(1, b 1), (2, b 2)] P [(1, P.val 1), (2, P.val 2)] [(1, P.dnVal 1), (2, P.dnVal 2)]
      [(1, P.dnCon 1), (2, P.dnCon 2)] [(1, P.tol 1), (2, P.tol 2)] [(1, P.n0 1), (2, P.n0 2)] := by
  constructor <;>
  · intro l hl
    simp only [Dict.keys, List.map_cons, List.map_nil, List.mem_cons, List.not_mem_nil, or_false] at hl
    rcases hl with rfl | rfl <;> simp [Dict.get?]

theorem nodup_documented (b : ℕ → ℕ) : Dict.NodupKeys [((1 : ℕ), b 1), (2, b 2)] := by
  simp [Dict.NodupKeys, Dict.keys]

/-- The p shell is full and the Hamiltonian is the documented one. -/
theorem hamiltonian_documented {L : MainLib} {A : MainArgs} {b : ℕ → ℕ} {P : BasisParams} {hx hy hz : ℝ}
    {h0 : Op Label ℂ} (hD : Documented A b P hx hy hz h0) (hn : Dict.NodupKeys h0) {op : Op ℕ ℂ}
    (h : getHamiltonianOperator L.gaunt (pdSystem b) A.Fdd A.Fpp A.Fpd A.Gpd A.xi2p A.xi3d [(1, P.n0 1), (2, P.n0 2)]
      A.chargeTransferCorrection hx hy hz h0 = .ok op) :
    P.n0 1 = 6 ∧ ∀ v F, operator (opSpec op) v F
      = pdHamiltonian L.gaunt (position (pdSystem b)) A (P.n0 2) hx hy hz h0 v F := by
  have hl1 : 5 ≤ A.Fdd.length := hD.Fdd.ge
  have hl2 : ∀ F ∈ some A.Fpd, 3 ≤ F.length := by
    intro F hF; cases hF; exact hD.Fpd.ge
  have hl3 : ∀ G ∈ some A.Gpd, 4 ≤ G.length := by
    intro F hF; cases hF; exact hD.Gpd.ge
  obtain ⟨c1, -, c3⟩ := C39_double_counting (P.n0 2) A.chargeTransferCorrection A.Fdd (some (P.n0 1 : ℝ)) (some A.Fpd)
    (some A.Gpd) hl1 hl2 hl3
  have h6 : P.n0 1 = 6 := by
    by_contra hne
    have herr := c1.2 (by
      rintro ⟨-, -, ⟨h, -⟩ | ⟨h, -⟩⟩
      · cases h
      · apply hne
        exact_mod_cast Option.some.inj h)
    unfold getHamiltonianOperator at h
    simp only [Dict.get, Dict.get?] at h
    norm_num at h
    simp only [ok_bind] at h
    rw [herr] at h
    cases h
  refine ⟨h6, fun v F => ?_⟩
  have hdc := c3 A.Fpd A.Gpd ⟨P.n0 2, rfl⟩ (by rw [h6]; norm_num) rfl rfl
  have hsys : GoodSystem (pdSystem b) := goodSystem_two (by decide)
  obtain ⟨-, -, -, -, hop⟩ := C54_meaning A.Fdd A.Fpp A.Fpd A.Gpd A.xi2p A.xi3d A.chargeTransferCorrection hx hy hz hsys
    (P.n0 2) (P.n0 1) (by simp [Dict.get?]) (by simp [Dict.get?]) _ _ hdc hn op h
  rw [hop, C30_slater_condon_meaning]
  rfl

end

end Verif
