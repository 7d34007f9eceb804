/-
C83: spectra from inexact Lanczos coefficients.
-/
import Verif.Spec.Stability
import Verif.Lemmas.Stability
import Verif.Prop.Convergence

namespace Verif

open Finset Psr Spec Matrix

noncomputable section

/-- C83, the continued fraction.  Coefficients within `ε` give a value within `3ε/delta²`, whatever follows after the chain
should have ended. -/
theorem C83_fraction {ε : ℝ} {k K : ℕ} {alpha beta alpha' beta' : List ℝ} (hk : 0 < k)
    (h : CloseChain ε k K alpha beta alpha' beta') {z : ℂ} (hz : z.im ≠ 0) :
    ∃ g g', continuedFraction alpha beta k z = .ok g ∧ continuedFraction alpha' beta' K z = .ok g' ∧
      ‖g - g'‖ ≤ 3 * ε / z.im ^ 2 := by
  obtain ⟨l1, l2, l3, l4⟩ := h.lengths
  exact ⟨_, _, continuedFraction_eq l1 l2 hz, continuedFraction_eq l3 l4 hz,
    fraction_breakdown hk h.le ((abs_nonneg _).trans (h.alpha 0 hk)) h.alpha h.beta h.stops hz⟩

/-- C83, with truncation: `krylovSize` coefficients within `ε` of the exact ones have both errors. -/
theorem C83_truncated {n : ℕ} {H : Matrix (Fin n) (Fin n) ℂ} (hH : H.IsHermitian) {psi0 : Fin n → ℂ}
    (hnorm : star psi0 ⬝ᵥ psi0 = 1) {K : ℕ} {alpha beta alpha' beta' : List ℝ}
    (h : tridiagonalKrylov H psi0 K = .ok (alpha, beta)) {ε : ℝ}
    (hclose : CloseChain ε (min K n) (min K n) alpha beta alpha' beta')
    {c w : ℝ} (hw : 0 < w) (hband : ∀ u : Fin n → ℂ, star u ⬝ᵥ u = 1 → |(star u ⬝ᵥ (H *ᵥ u)).re - c| ≤ w)
    {z : ℂ} (hz : z.im ≠ 0) :
    ∃ g, continuedFraction alpha' beta' (min K n) z = .ok g ∧
      ‖g - Spec.resolvent H psi0 z‖ ≤ lanczosError w z.im K + 3 * ε / z.im ^ 2 := by
  obtain ⟨g0, h1, h2⟩ := krylov_error hH hnorm h hw hband hz
  obtain ⟨g, g', h3, h4, h5⟩ := C83_fraction (tridiagonalKrylov_length h).1 hclose hz
  rw [h1] at h3
  cases h3
  refine ⟨g', h4, ?_⟩
  have e : g' - Spec.resolvent H psi0 z = -(g0 - g') + (g0 - Spec.resolvent H psi0 z) := by ring
  rw [e]
  refine (norm_add_le _ _).trans ?_
  rw [norm_neg, add_comm]
  exact add_le_add h2 h5

section
variable {n : ℕ} {op : Op ℕ ℂ} (hop : OpInSystem n op) (hdict : Dict.NodupKeys op) (hh : isHermitianOp op) {cut : ℝ}
  (hcut : 0 < cut) (r : Option Restrictions) {psi : Psi ℂ} (hpsi : IsState n psi)
  (hall : ∀ S ⊆ range n, encBytes n S ∈ Dict.keys psi → AllowedOpt r S) (hnorm : norm2 psi = (1 : ℝ))

include hop hdict hh hcut hpsi hall hnorm in
/-- C83, the Green's function.  For every state there is a chain of Lanczos coefficients, those of `getGreen` with a certain
`krylovSize = k`, that ends after `k` steps.  Whatever `K ≥ k` coefficients agree with it up to `ε`, the Green's
function calculated from them is for every energy within `3ε/delta²` of the exact one.  This also holds where
`getGreen` in exact arithmetic raises, because the chain ends before `krylovSize` (`C57_raises`). -/
theorem C83_green (fuel : ℕ) (hf : 2 ^ n + 2 ≤ fuel) : ∃ k alpha beta, 0 < k ∧ alpha.length = k ∧ beta.length = k - 1 ∧
    LinearIndependent ℂ (fun i : Fin k => (hamiltonian n op cut r)^[i.val] (ampl n psi)) ∧
    ¬ LinearIndependent ℂ (fun i : Fin (k + 1) => (hamiltonian n op cut r)^[i.val] (ampl n psi)) ∧
    (∀ hDict, ColumnsExact n op cut r hDict → ∃ hDict', ∀ (e : ℝ) (omega : List ℝ) (delta : ℝ),
      getGreen n e psi op omega delta k cut r hDict fuel =
        (do let g ← greenOnMesh alpha beta k omega delta e; return (g, hDict'))) ∧
    ∀ ε K alpha' beta', CloseChain ε k K alpha beta alpha' beta' → ∀ (e : ℝ) (omega : List ℝ) (delta : ℝ), delta ≠ 0 →
      ∃ g, greenOnMesh alpha' beta' K omega delta e = .ok g ∧
        List.Forall₂ (fun (ω : ℝ) x => ∃ g₀, IsGreen n (hamiltonian n op cut r)
          ((ω : ℂ) + Complex.I * (delta : ℂ) + (e : ℂ)) (ampl n psi) g₀ ∧ ‖x - g₀‖ ≤ 3 * ε / delta ^ 2) omega g := by
  classical
  have hex : ∃ k, ¬ LinearIndependent ℂ (fun i : Fin (k + 1) => (hamiltonian n op cut r)^[i.val] (ampl n psi)) := by
    obtain ⟨states, d, hlen, M, v, hnd, hsm, hherm, hvn, hli, -⟩ :=
      getGreen_matrix_full hop hdict hh hcut r hpsi (norm_one_ne_nil hnorm) hall hnorm hf 0
    refine ⟨d, fun h => ?_⟩
    rw [hli] at h
    have := h.fintype_card_le_finrank
    simp at this
  set k := Nat.find hex with hk
  have hdep : ¬ LinearIndependent ℂ (fun i : Fin (k + 1) => (hamiltonian n op cut r)^[i.val] (ampl n psi)) := Nat.find_spec hex
  obtain ⟨states, d, hlen, M, v, hnd, hsm, hherm, hvn, hli, hgr, -, -, -, -, hser⟩ :=
    getGreen_matrix_full hop hdict hh hcut r hpsi (norm_one_ne_nil hnorm) hall hnorm hf k
  have hkpos : 0 < k := by
    rcases Nat.eq_zero_or_pos k with h0 | h0
    · exfalso
      refine hdep ?_
      rw [h0, hli]
      have hv : v ≠ 0 := by
        rintro rfl
        simp at hvn
      have h1 : LinearIndependent ℂ (fun i : Fin 1 => (M ^ i.val) *ᵥ v) := by
        rw [linearIndependent_unique_iff]
        simpa using hv
      exact h1
    · exact h0
  have hind : LinearIndependent ℂ (fun i : Fin k => (hamiltonian n op cut r)^[i.val] (ampl n psi)) := by
    obtain ⟨m, hm⟩ : ∃ m, k = m + 1 := ⟨k - 1, by omega⟩
    have := Nat.find_min hex (m := m) (by omega)
    rw [not_not] at this
    rw [hm]
    exact this
  have hkd : k ≤ d := by
    have := ((hli k).1 hind).fintype_card_le_finrank
    simpa using this
  have hmin : min k d = k := by omega
  have hok : ∃ alpha beta, tridiagonalKrylov M v k = .ok (alpha, beta) := by
    rcases C41_total M hherm v hvn k with h | h
    · exfalso
      rcases (C41_raises M hherm v hvn k).1 h with h | h
      · omega
      · rw [hmin] at h
        exact h ((hli k).1 hind)
    · exact h
  obtain ⟨alpha, beta, hab⟩ := hok
  obtain ⟨-, la, lb⟩ := tridiagonalKrylov_length hab
  rw [hmin] at la lb
  refine ⟨k, alpha, beta, hkpos, la, lb, hind, hdep, fun hDict hd => ?_, ?_⟩
  · obtain ⟨h', -, hx⟩ := hser hDict hd
    refine ⟨h', fun e omega delta => ?_⟩
    rw [hx, hmin, hab]
    rfl
  · intro ε K alpha' beta' hclose e omega delta hdelta
    have him : ∀ ω : ℝ, ((ω : ℂ) + Complex.I * (delta : ℂ) + (e : ℂ)).im = delta := by
      intro ω; simp
    have hcf : ∀ ω : ℝ, ∃ y, continuedFraction alpha' beta' K ((ω : ℂ) + Complex.I * (delta : ℂ) + (e : ℂ)) = .ok y ∧
        ‖y - Spec.resolvent M v ((ω : ℂ) + Complex.I * (delta : ℂ) + (e : ℂ))‖ ≤ 3 * ε / delta ^ 2 := by
      intro ω
      have hz : ((ω : ℂ) + Complex.I * (delta : ℂ) + (e : ℂ)).im ≠ 0 := by rw [him]; exact hdelta
      obtain ⟨g, g', h1, h2, h3⟩ := C83_fraction hkpos hclose hz
      have hexact := C41_exact M hherm v hvn k alpha beta hab (Or.inr (by rw [hmin, ← hli]; exact hdep)) _ hz
      rw [hmin, h1] at hexact
      cases hexact
      rw [norm_sub_rev, him] at h3
      exact ⟨g', h2, h3⟩
    choose f hf1 hf2 using hcf
    refine ⟨omega.map f, ?_, ?_⟩
    · unfold greenOnMesh
      exact mapM_ok _ _ _ fun ω _ => hf1 ω
    · rw [List.forall₂_map_right_iff]
      exact List.forall₂_same.2 fun ω _ => ⟨_, hgr _ (by rw [him]; exact hdelta), hf2 ω⟩

end

/-! ### Non-vacuity: one site coupled to two equal ones -/

/-- Hopping between spin-orbital 0 and each of the spin-orbitals 1 and 2. -/
def exStar : Op ℕ ℤ :=
  [([(0, .c), (1, .a)], 1), ([(1, .c), (0, .a)], 1), ([(0, .c), (2, .a)], 1), ([(2, .c), (0, .a)], 1)]

def exStarPsi : Psi ℂ := [(encBytes 3 {0}, 1)]

theorem exStar_inSystem : OpInSystem 3 (castOp exStar) := inSystem_castOp (by unfold OpInSystem exStar; decide)

theorem exStar_nodup : Dict.NodupKeys (castOp exStar) := nodup_castOp (by unfold exStar; decide)

theorem exStar_hermitian : isHermitianOp (castOp exStar) :=
  hermitian_castOp (by
    intro p
    have h : daggerOp exStar =
      [([(1, .c), (0, .a)], 1), ([(0, .c), (1, .a)], 1), ([(2, .c), (0, .a)], 1), ([(0, .c), (2, .a)], 1)] := by decide
    rw [h]
    unfold exStar
    simp only [Dict.get?_cons, Dict.get?_nil]
    split_ifs <;> simp_all)

theorem exStarPsi_state : IsState 3 exStarPsi := isState_single (by decide) 1

theorem exStarPsi_norm : norm2 exStarPsi = (1 : ℝ) := by
  simp [exStarPsi, norm2, abs2]

theorem exStarPsi_key {S : Finset ℕ} (hS : S ⊆ range 3) (h : encBytes 3 S ∈ Dict.keys exStarPsi) : S = {0} :=
  encBytes_injOn hS (by decide) (by simpa [exStarPsi] using h)

theorem exStar_elements : ∀ T ∈ ({{0}, {1}, {2}} : Finset (Finset ℕ)), ∀ S ∈ (range 3).powerset,
    matrixElement exStar S T ≠ 0 → S ∈ ({{0}, {1}, {2}} : Finset (Finset ℕ)) := by decide

theorem exStar_smallest : SmallestInvariant 3 (castOp exStar) (1 / 2 : ℝ) none
    {S | S ⊆ range 3 ∧ encBytes 3 S ∈ Dict.keys exStarPsi} {S | S ∈ ({{0}, {1}, {2}} : Finset (Finset ℕ))} where
  contains := fun S hS => by rw [exStarPsi_key hS.1 hS.2]; simp
  closed := fun T hT S hS hc => exStar_elements T hT S (mem_powerset.2 hS)
    ((connects_castOp (by norm_num) (by norm_num)).1 hc).2
  smallest := fun X hX hc => by
    have h0 : ({0} : Finset ℕ) ∈ X := hX ⟨by decide, by simp [exStarPsi]⟩
    intro S hS
    simp only [Set.mem_ofPred_eq, mem_insert, mem_singleton] at hS
    rcases hS with rfl | rfl | rfl
    · exact h0
    · exact hc _ h0 _ (by decide) ((connects_castOp (by norm_num) (by norm_num)).2 ⟨trivial, by decide⟩)
    · exact hc _ h0 _ (by decide) ((connects_castOp (by norm_num) (by norm_num)).2 ⟨trivial, by decide⟩)

theorem exStarPsi_ampl : ampl 3 exStarPsi = single {0} 1 := by
  funext S
  unfold Spec.single ampl
  by_cases h : S = {0}
  · subst h
    rw [if_pos (by decide), if_pos rfl]
    simp [exStarPsi, Dict.get?_cons]
  · rw [if_neg h]
    by_cases hS : S ⊆ range 3
    · rw [if_pos hS, (Dict.get?_eq_none_iff _ _).2 fun hk => h (exStarPsi_key hS hk)]
      rfl
    · rw [if_neg hS]

theorem exStar_twice : ∀ S ∈ (range 3).powerset, ∑ T ∈ (range 3).powerset,
    matrixElement exStar S T * matrixElement exStar T {0} = if S = {0} then 2 else 0 := by decide

/-- The third Lanczos vector vanishes. -/
theorem exStar_dependent : ¬ LinearIndependent ℂ (fun i : Fin (min 5 ({{0}, {1}, {2}} : Finset (Finset ℕ)).card) =>
    (hamiltonian 3 (castOp exStar) (1 / 2) none)^[i.val] (ampl 3 exStarPsi)) := by
  have hcard : min 5 ({{0}, {1}, {2}} : Finset (Finset ℕ)).card = 3 := by decide
  rw [hcard, Fintype.linearIndependent_iff]
  intro hli
  have hcol : ∀ T S, column (castOp exStar) (1 / 2) none T S = ((matrixElement exStar S T : ℤ) : ℂ) := by
    intro T S
    rw [column_castOp (by norm_num) (by norm_num), if_pos (show AllowedOpt none _ from trivial)]
  have h2 : (hamiltonian 3 (castOp exStar) (1 / 2) none)^[2] (ampl 3 exStarPsi) = fun S => 2 * ampl 3 exStarPsi S := by
    rw [exStarPsi_ampl]
    funext S
    show hamiltonian 3 (castOp exStar) (1 / 2) none (hamiltonian 3 (castOp exStar) (1 / 2) none (single {0} 1)) S = _
    by_cases hS : S ⊆ range 3
    · have := exStar_twice S (mem_powerset.2 hS)
      rw [hamiltonian, if_pos hS]
      have e : ∑ T ∈ (range 3).powerset, column (castOp exStar) (1 / 2) none T S
          * hamiltonian 3 (castOp exStar) (1 / 2) none (single {0} 1) T
          = ((∑ T ∈ (range 3).powerset, matrixElement exStar S T * matrixElement exStar T {0} : ℤ) : ℂ) := by
        push_cast
        refine sum_congr rfl fun T hT => ?_
        rw [hamiltonian_single 3 _ _ _ (by decide) (mem_powerset.1 hT), hcol, hcol]
      rw [e, this]
      unfold Spec.single
      split <;> simp
    · have hne : S ≠ {0} := by rintro rfl; exact hS (by decide)
      rw [hamiltonian, if_neg hS]
      unfold Spec.single
      rw [if_neg hne, mul_zero]
  have := hli ![2, 0, -1] (by
    rw [Fin.sum_univ_three]
    show (2 : ℂ) • (ampl 3 exStarPsi) + (0 : ℂ) • _ + (-1 : ℂ) • (hamiltonian 3 (castOp exStar) (1 / 2) none)^[2] (ampl 3 exStarPsi) = 0
    rw [h2]
    funext S
    simp) 2
  have h3 : (-1 : ℂ) = 0 := this
  norm_num at h3

/-- In exact arithmetic `getGreen` raises for the start vector on site 0.  Coefficients of rounded arithmetic, which go on with
whatever comes after a coupling `ε`, still give the Green's function. -/
theorem C83_example (omega : List ℝ) (ε x : ℝ) (hε : 0 ≤ ε) :
    getGreen 3 0 exStarPsi (castOp exStar) omega 1 5 (1 / 2) none [] 10 = .error .valueError ∧
    ∃ k alpha beta, CloseChain ε k (k + 1) alpha beta (alpha ++ [x]) (beta ++ [ε]) ∧
      ∃ g, greenOnMesh (alpha ++ [x]) (beta ++ [ε]) (k + 1) omega 1 0 = .ok g ∧
        List.Forall₂ (fun (ω : ℝ) y => ∃ g₀, IsGreen 3 (hamiltonian 3 (castOp exStar) (1 / 2) none)
          ((ω : ℂ) + Complex.I * ((1 : ℝ) : ℂ) + ((0 : ℝ) : ℂ)) (ampl 3 exStarPsi) g₀ ∧ ‖y - g₀‖ ≤ 3 * ε / 1 ^ 2) omega g := by
  constructor
  · exact (C57_raises exStar_inSystem exStar_nodup exStar_hermitian (cut := 1 / 2) (by norm_num) none exStarPsi_state
      (fun _ _ _ => trivial) exStarPsi_norm {{0}, {1}, {2}} exStar_smallest 5 10 (by norm_num) 0 omega 1 (by norm_num) []
      (columnsExact_nil ..)).1.2 (Or.inr exStar_dependent)
  · obtain ⟨k, alpha, beta, hk, la, lb, -, -, -, hstab⟩ := C83_green exStar_inSystem exStar_nodup exStar_hermitian (cut := 1 / 2)
      (by norm_num) none exStarPsi_state (fun _ _ _ => trivial) exStarPsi_norm 10 (by norm_num)
    have hclose : CloseChain ε k (k + 1) alpha beta (alpha ++ [x]) (beta ++ [ε]) := by
      refine ⟨by omega, ⟨la, lb, by simp [la], by simp [lb]; omega⟩, fun i hi => ?_, fun i hi => ?_, fun _ => ?_⟩
      · rw [List.getD_append _ _ _ _ (by omega), sub_self, abs_zero]
        exact hε
      · rw [List.getD_append _ _ _ _ (by omega), sub_self, abs_zero]
        exact hε
      · rw [List.getD_append_right _ _ _ _ (by omega), lb, Nat.sub_self]
        simp [abs_of_nonneg hε]
    exact ⟨k, alpha, beta, hclose, hstab ε (k + 1) _ _ hclose 0 omega 1 (by norm_num)⟩

end

end Verif
