/-
C57: what getGreen computes.
-/
import Verif.Lemmas.GreenMeaning
import Verif.Lemmas.IntOp
import Verif.Prop.SpectraSign

namespace Verif

open Finset Mpi Psr Spec Matrix

noncomputable section

variable {n : ℕ} {op : Op ℕ ℂ} (hop : OpInSystem n op) (hdict : Dict.NodupKeys op) (hh : isHermitianOp op) {cut : ℝ}
  (hcut : 0 < cut) (r : Option Restrictions) {psi : Psi ℂ} (hpsi : IsState n psi)
  (hall : ∀ S ⊆ range n, encBytes n S ∈ Dict.keys psi → AllowedOpt r S) (hnorm : norm2 psi = (1 : ℝ))

theorem norm_one_ne_nil {psi : Psi ℂ} (hnorm : norm2 psi = (1 : ℝ)) : psi ≠ [] := by
  rintro rfl
  simp [norm2] at hnorm

include hop hdict hh hcut hpsi hall hnorm in
/-- C57.  If `krylovSize` exhausts the Krylov space of the state — `psi, H psi, …,
H^krylovSize psi` are linearly dependent — a Green's function that `getGreen` returns is
`⟨psi| (w + i delta + e - H)⁻¹ |psi⟩` at every point `w` of the mesh, whatever exact
columns of the Hamiltonian were stored before. -/
theorem C57_exact (krylovSize : ℕ)
    (hex : ¬ LinearIndependent ℂ (fun i : Fin (krylovSize + 1) => (hamiltonian n op cut r)^[i.val] (ampl n psi)))
    (fuel : ℕ) (hf : 2 ^ n + 2 ≤ fuel) (e : ℝ) (omega : List ℝ) (delta : ℝ) (hdelta : delta ≠ 0)
    (hDict : OpResult ℂ) (hd : ColumnsExact n op cut r hDict) (g : List ℂ) (hDict' : OpResult ℂ)
    (hg : getGreen n e psi op omega delta krylovSize cut r hDict fuel = .ok (g, hDict')) :
    List.Forall₂ (fun (w : ℝ) x => IsGreen n (hamiltonian n op cut r)
      ((w : ℂ) + Complex.I * (delta : ℂ) + (e : ℂ)) (ampl n psi) x) omega g := by
  obtain ⟨states, d, hlen, M, v, hnd, hsm, hherm, hvn, hli, hgr, -, hser⟩ :=
    getGreen_matrix hop hdict hh hcut r hpsi (norm_one_ne_nil hnorm) hall hnorm hf krylovSize
  obtain ⟨h', -, hx⟩ := hser hDict hd
  rw [hx] at hg
  cases hkr : tridiagonalKrylov M v (min krylovSize d) with
  | error err => rw [hkr] at hg; cases hg
  | ok ab =>
    rw [hkr] at hg
    simp only [ok_bind] at hg
    have hcf : ∀ z : ℂ, z.im ≠ 0 → continuedFraction ab.1 ab.2 (min krylovSize d) z = .ok (Spec.resolvent M v z) := by
      intro z hz
      have hm : min (min krylovSize d) d = min krylovSize d := by omega
      have := C41_exact M hherm v hvn (min krylovSize d) ab.1 ab.2 hkr (by
        by_cases hc : d ≤ krylovSize
        · left; omega
        · right
          rw [hm, show min krylovSize d = krylovSize by omega, ← hli]
          exact hex) z hz
      rwa [hm] at this
    have him : ∀ w : ℝ, ((w : ℂ) + Complex.I * (delta : ℂ) + (e : ℂ)).im ≠ 0 := by
      intro w; simpa using hdelta
    have hmesh : greenOnMesh ab.1 ab.2 (min krylovSize d) omega delta e
        = .ok (omega.map fun (w : ℝ) => Spec.resolvent M v ((w : ℂ) + Complex.I * (delta : ℂ) + (e : ℂ))) := by
      unfold greenOnMesh
      exact mapM_ok _ _ _ fun w _ => hcf _ (him w)
    rw [hmesh] at hg
    cases hg
    rw [List.forall₂_map_right_iff]
    exact List.forall₂_same.2 fun w _ => hgr _ (him w)

include hop hdict hh hcut hpsi hall hnorm in
/-- C57, when a result exists.  `X` is the set of product states that the Hamiltonian
reaches from those of the state.  `getGreen` raises a `ValueError` exactly if
`krylovSize` is 0 or the first `min krylovSize |X|` Krylov vectors are linearly
dependent.  Otherwise it returns a value for every point of the mesh. -/
theorem C57_raises (X : Finset (Finset ℕ))
    (hX : SmallestInvariant n op cut r {S | S ⊆ range n ∧ encBytes n S ∈ Dict.keys psi} {S | S ∈ X})
    (krylovSize fuel : ℕ) (hf : 2 ^ n + 2 ≤ fuel) (e : ℝ) (omega : List ℝ) (delta : ℝ) (hdelta : delta ≠ 0)
    (hDict : OpResult ℂ) (hd : ColumnsExact n op cut r hDict) :
    (getGreen n e psi op omega delta krylovSize cut r hDict fuel = .error .valueError ↔
      krylovSize = 0 ∨ ¬ LinearIndependent ℂ
        (fun i : Fin (min krylovSize X.card) => (hamiltonian n op cut r)^[i.val] (ampl n psi))) ∧
    (getGreen n e psi op omega delta krylovSize cut r hDict fuel = .error .valueError ∨
      ∃ g hDict', getGreen n e psi op omega delta krylovSize cut r hDict fuel = .ok (g, hDict') ∧
        g.length = omega.length ∧ ColumnsExact n op cut r hDict') := by
  obtain ⟨states, d, hlen, M, v, hnd, hsm, hherm, hvn, hli, hgr, -, hser⟩ :=
    getGreen_matrix hop hdict hh hcut r hpsi (norm_one_ne_nil hnorm) hall hnorm hf krylovSize
  obtain ⟨h', hh', hx⟩ := hser hDict hd
  have hcard : X.card = d := by
    have hset := SmallestInvariant.unique hX hsm
    have : X = states.toFinset := by
      ext S
      rw [List.mem_toFinset]
      exact (Set.ext_iff.1 hset) S
    rw [this, List.toFinset_card_of_nodup hnd, hlen]
  have hm : min (min krylovSize d) d = min krylovSize d := by omega
  have hdpos := dim_pos M hherm v hvn
  have hk0 : min krylovSize d = 0 ↔ krylovSize = 0 := by omega
  have hraise := C41_raises M hherm v hvn (min krylovSize d)
  rw [hm, ← hli, hk0] at hraise
  rw [hx, hcard]
  rcases C41_total M hherm v hvn (min krylovSize d) with h | ⟨alpha, beta, h⟩
  · rw [h] at hraise ⊢
    exact ⟨⟨fun _ => hraise.1 rfl, fun _ => rfl⟩, Or.inl rfl⟩
  · rw [h] at hraise ⊢
    simp only [ok_bind]
    have hkpos : 0 < min krylovSize d := by
      by_contra hc
      have := hraise.2 (Or.inl (by omega))
      cases this
    have htri := C41_tridiagonal M hherm v hvn (min krylovSize d) alpha beta h
    rw [hm] at htri
    obtain ⟨g, hg⟩ := greenOnMesh_total hkpos htri.1 htri.2.1 omega delta e hdelta
    rw [hg]
    simp only [ok_bind, pure_ok]
    refine ⟨Iff.intro (fun h => by cases h) (fun h => by have := hraise.2 h; cases this), Or.inr ⟨g, h', rfl, ?_, hh'⟩⟩
    have hg' : getGreen n e psi op omega delta krylovSize cut r hDict fuel = .ok (g, h') := by
      rw [hx, h]; simp only [ok_bind, hg, pure_ok]
    exact (C43_green n e psi op omega delta hdelta krylovSize cut r hDict fuel g h' hg').1

include hop hdict hh hcut hpsi hall hnorm in
/-- C57, a sufficient size.  A `krylovSize` not smaller than the number of product states
in a set that contains those of the state and that the Hamiltonian does not lead out
of exhausts the Krylov space. -/
theorem C57_exhausted (X : Finset (Finset ℕ)) (hX : ∀ S ⊆ range n, encBytes n S ∈ Dict.keys psi → S ∈ X)
    (hXc : ∀ T ∈ X, ∀ S ⊆ range n, Connects op cut r T S → S ∈ X) (krylovSize : ℕ) (hK : X.card ≤ krylovSize) :
    ¬ LinearIndependent ℂ (fun i : Fin (krylovSize + 1) => (hamiltonian n op cut r)^[i.val] (ampl n psi)) := by
  obtain ⟨states, d, hlen, M, v, hnd, hsm, -, -, hli, -⟩ :=
    getGreen_matrix hop hdict hh hcut r hpsi (norm_one_ne_nil hnorm) hall hnorm (le_refl _) krylovSize
  rw [hli]
  intro h
  have h1 := h.fintype_card_le_finrank
  simp at h1
  have hsub : {S | S ∈ states} ⊆ {S | S ∈ X} := hsm.smallest _ (fun S hS => hX S hS.1 hS.2) hXc
  have h2 : states.toFinset ⊆ X := fun S hS => hsub (List.mem_toFinset.1 hS)
  have h3 := card_le_card h2
  rw [List.toFinset_card_of_nodup hnd, ← hlen] at h3
  omega

/-- Without restrictions, if no matrix element is below the cutoff, the Hamiltonian
that `getGreen` uses is the second-quantised operator. -/
theorem hamiltonian_eq_operator (hsmall : ∀ T ⊆ range n, NoSmallElements n op cut none T) (x : Vec ℂ)
    (hx : ∀ S, ¬ S ⊆ range n → x S = 0) (S : Finset ℕ) (hS : S ⊆ range n) :
    hamiltonian n op cut none x S = operator (opSpec op) x S := by
  have h1 : x = fun S => ((range n).powerset.toList.map fun T => single T (x T) S).sum := by
    funext S
    rw [Finset.sum_map_toList]
    unfold Spec.single
    by_cases hS : S ⊆ range n
    · rw [Finset.sum_ite_eq, if_pos (mem_powerset.2 hS)]
    · rw [Finset.sum_ite_eq, if_neg (fun h => hS (mem_powerset.1 h)), hx S hS]
  conv_rhs => rw [h1, operator_list_sum, Finset.sum_map_toList]
  unfold hamiltonian
  rw [if_pos hS]
  refine sum_congr rfl fun T hT => ?_
  rw [operator_single, column_of_noSmall (hsmall T (mem_powerset.1 hT)) hS trivial, mul_comm]

include hop hdict hh hcut hpsi hnorm in
/-- C57 for the second-quantised Hamiltonian itself: without restrictions, and with no
matrix element below the cutoff, the Green's function is
`⟨psi| (w + i delta + e - hOp)⁻¹ |psi⟩`. -/
theorem C57_exact_operator (hsmall : ∀ T ⊆ range n, NoSmallElements n op cut none T) (krylovSize : ℕ)
    (X : Finset (Finset ℕ)) (hX : ∀ S ⊆ range n, encBytes n S ∈ Dict.keys psi → S ∈ X)
    (hXc : ∀ T ∈ X, ∀ S ⊆ range n, matrixElement op S T ≠ 0 → S ∈ X) (hK : X.card ≤ krylovSize)
    (fuel : ℕ) (hf : 2 ^ n + 2 ≤ fuel) (e : ℝ) (omega : List ℝ) (delta : ℝ) (hdelta : delta ≠ 0)
    (hDict : OpResult ℂ) (hd : ColumnsExact n op cut none hDict) (g : List ℂ) (hDict' : OpResult ℂ)
    (hg : getGreen n e psi op omega delta krylovSize cut none hDict fuel = .ok (g, hDict')) :
    List.Forall₂ (fun (w : ℝ) x => IsGreen n (operator (opSpec op))
      ((w : ℂ) + Complex.I * (delta : ℂ) + (e : ℂ)) (ampl n psi) x) omega g := by
  have hex := C57_exhausted hop hdict hh hcut none hpsi (fun _ _ _ => trivial) hnorm X hX
    (fun T hT S hS hc => hXc T hT S hS (by
      intro h0
      have := hc.2
      rw [h0, Amp.abs2_zero] at this
      linarith)) krylovSize hK
  refine (C57_exact hop hdict hh hcut none hpsi (fun _ _ _ => trivial) hnorm krylovSize hex fuel hf e omega delta
    hdelta hDict hd g hDict' hg).imp ?_
  intro w x hx
  have hiff : ∀ y, Solves n (operator (opSpec op)) ((w : ℂ) + Complex.I * (delta : ℂ) + (e : ℂ)) (ampl n psi) y ↔
      Solves n (hamiltonian n op cut none) ((w : ℂ) + Complex.I * (delta : ℂ) + (e : ℂ)) (ampl n psi) y := by
    intro y
    constructor
    · rintro ⟨h1, h2⟩
      exact ⟨fun S hS => by rw [hamiltonian_eq_operator hsmall y h2 S hS]; exact h1 S hS, h2⟩
    · rintro ⟨h1, h2⟩
      exact ⟨fun S hS => by rw [← hamiltonian_eq_operator hsmall y h2 S hS]; exact h1 S hS, h2⟩
  obtain ⟨y, h1, h2, h3⟩ := hx
  exact ⟨y, (hiff y).2 h1, fun y' h => h2 y' ((hiff y').1 h), h3⟩

/-! ### Non-vacuity: one electron on two sites -/

/-- Hopping between two spin-orbitals, and a level. -/
def exTwo : Op ℕ ℤ := [([(0, .c), (1, .a)], 1), ([(1, .c), (0, .a)], 1), ([(1, .c), (1, .a)], 3)]

def exTwoPsi : Psi ℂ := [(encBytes 2 {0}, 1)]

theorem exTwo_inSystem : OpInSystem 2 (castOp exTwo) :=
  inSystem_castOp (by unfold OpInSystem exTwo; decide)

theorem exTwo_nodup : Dict.NodupKeys (castOp exTwo) := nodup_castOp (by unfold exTwo; decide)

theorem exTwo_hermitian : isHermitianOp (castOp exTwo) :=
  hermitian_castOp (by
    intro p
    have h : daggerOp exTwo = [([(1, .c), (0, .a)], 1), ([(0, .c), (1, .a)], 1), ([(1, .c), (1, .a)], 3)] := by decide
    rw [h]
    unfold exTwo
    simp only [Dict.get?_cons, Dict.get?_nil]
    split_ifs <;> rfl)

theorem exTwoPsi_state : IsState 2 exTwoPsi := isState_single (by decide) 1

theorem exTwoPsi_norm : norm2 exTwoPsi = (1 : ℝ) := by
  simp [exTwoPsi, norm2, abs2]

theorem exTwoPsi_key {S : Finset ℕ} (hS : S ⊆ range 2) (h : encBytes 2 S ∈ Dict.keys exTwoPsi) : S = {0} :=
  encBytes_injOn hS (by decide) (by simpa [exTwoPsi] using h)

theorem exTwo_elements : ∀ T ∈ ({{0}, {1}} : Finset (Finset ℕ)), ∀ S ∈ (range 2).powerset,
    matrixElement exTwo S T ≠ 0 → S ∈ ({{0}, {1}} : Finset (Finset ℕ)) := by decide

theorem exTwo_smallest : SmallestInvariant 2 (castOp exTwo) (1 / 2 : ℝ) none
    {S | S ⊆ range 2 ∧ encBytes 2 S ∈ Dict.keys exTwoPsi} {S | S ∈ ({{0}, {1}} : Finset (Finset ℕ))} where
  contains := fun S hS => by rw [exTwoPsi_key hS.1 hS.2]; simp
  closed := fun T hT S hS hc => exTwo_elements T hT S (mem_powerset.2 hS)
    ((connects_castOp (by norm_num) (by norm_num)).1 hc).2
  smallest := fun X hX hc => by
    have h0 : ({0} : Finset ℕ) ∈ X := hX ⟨by decide, by simp [exTwoPsi]⟩
    intro S hS
    simp only [Set.mem_ofPred_eq, mem_insert, mem_singleton] at hS
    rcases hS with rfl | rfl
    · exact h0
    · exact hc _ h0 _ (by decide) ((connects_castOp (by norm_num) (by norm_num)).2 ⟨trivial, by decide⟩)

theorem exTwo_independent : LinearIndependent ℂ (fun i : Fin (min 5 ({{0}, {1}} : Finset (Finset ℕ)).card) =>
    (hamiltonian 2 (castOp exTwo) (1 / 2) none)^[i.val] (ampl 2 exTwoPsi)) := by
  have hcard : min 5 ({{0}, {1}} : Finset (Finset ℕ)).card = 2 := by decide
  rw [hcard, Fintype.linearIndependent_iff]
  intro g hg
  rw [Fin.sum_univ_two] at hg
  have ha0 : ampl 2 exTwoPsi {0} = 1 := by simp [ampl, exTwoPsi, Dict.get?_cons]
  have ha : ∀ S ⊆ range 2, S ≠ {0} → ampl 2 exTwoPsi S = 0 := by
    intro S hS hn
    rw [ampl, if_pos hS, (Dict.get?_eq_none_iff _ _).2 fun h => hn (exTwoPsi_key hS h)]
    rfl
  have hH1 : hamiltonian 2 (castOp exTwo) (1 / 2) none (ampl 2 exTwoPsi) {1} = 1 := by
    unfold hamiltonian
    rw [if_pos (by decide), Finset.sum_eq_single {0}]
    · rw [column_castOp (by norm_num) (by norm_num), if_pos (show AllowedOpt none _ from trivial), ha0,
        show matrixElement exTwo {1} {0} = 1 by decide]
      simp
    · intro T hT hn
      rw [ha T (mem_powerset.1 hT) hn, mul_zero]
    · intro h; exact absurd (by decide) h
  have e1 := congrFun hg {1}
  have e0 := congrFun hg {0}
  simp only [Fin.val_zero, Fin.val_one, Function.iterate_zero, id, Function.iterate_one, Pi.add_apply, Pi.smul_apply,
    smul_eq_mul, hH1, ha {1} (by decide) (by decide), ha0, Pi.zero_apply, mul_zero, zero_add, mul_one] at e1 e0
  rw [e1] at e0
  simp only [zero_mul, add_zero] at e0
  intro i
  fin_cases i
  · exact e0
  · exact e1

/-- The hypotheses of `C57_exact_operator` are met, and its result is not zero. -/
theorem exTwo_green (omega : List ℝ) : ∃ g hDict',
    getGreen 2 0 exTwoPsi (castOp exTwo) omega 1 5 (1 / 2) none [] 10 = .ok (g, hDict') ∧
      List.Forall₂ (fun (w : ℝ) x => IsGreen 2 (operator (opSpec (castOp exTwo)))
        ((w : ℂ) + Complex.I * ((1 : ℝ) : ℂ) + ((0 : ℝ) : ℂ)) (ampl 2 exTwoPsi) x) omega g := by
  obtain ⟨hr, ht⟩ := C57_raises exTwo_inSystem exTwo_nodup exTwo_hermitian (cut := 1 / 2) (by norm_num) none exTwoPsi_state
    (fun _ _ _ => trivial) exTwoPsi_norm {{0}, {1}} exTwo_smallest 5 10 (by norm_num) 0 omega 1 (by norm_num) []
    (columnsExact_nil ..)
  rcases ht with ht | ⟨g, h', hg, -, -⟩
  · rcases hr.1 ht with h | h
    · cases h
    · exact absurd exTwo_independent h
  · exact ⟨g, h', hg, C57_exact_operator exTwo_inSystem exTwo_nodup exTwo_hermitian (by norm_num) exTwoPsi_state
      exTwoPsi_norm (fun T _ => noSmall_castOp 2 exTwo (by norm_num) none T) 5 {{0}, {1}}
      (fun S hS h => by rw [exTwoPsi_key hS h]; simp)
      (fun T hT S hS hm => exTwo_elements T hT S (mem_powerset.2 hS) (by
        intro h0; apply hm; rw [matrixElement_cast, h0]; simp))
      (by decide) 10 (by norm_num) 0 omega 1 (by norm_num) [] (columnsExact_nil ..) g h' hg⟩

end

end Verif
