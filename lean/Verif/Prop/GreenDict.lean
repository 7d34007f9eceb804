/-
C71: getGreen with dictionaries.
-/
import Verif.Lemmas.GreenDict
import Verif.Lemmas.SimulateValue
import Verif.Prop.Green

namespace Verif

open Finset Psr Spec Matrix

noncomputable section

variable {n : ℕ} {op : Op ℕ ℂ} (hop : OpInSystem n op) (hdict : Dict.NodupKeys op) (hh : isHermitianOp op) {cut : ℝ}
  (hcut : 0 < cut) {r : Option Restrictions} (hsmall : ∀ T ⊆ range n, NoSmallElements n op cut r T)
  {weight : ℝ} (hw : weight ≤ 0) {psi : Psi ℂ} (hpsi : IsState n psi)
  (hall : ∀ S ⊆ range n, encBytes n S ∈ Dict.keys psi → AllowedOpt r S) (hnorm : norm2 psi = (1 : ℝ))

include hop hdict hh hcut hsmall hw hpsi hall hnorm in
/-- C71, when a result exists.  With `slaterWeightMin ≤ 0`, `mode="dict"` raises exactly if
the first `krylovSize` Krylov vectors are linearly dependent.  Otherwise it returns a value for
every point of the mesh, and `h_dict` stays correct. -/
theorem C71_raises (krylovSize : ℕ) (hK : 0 < krylovSize) (e : ℝ) (omega : List ℝ) (delta : ℝ) (hdelta : delta ≠ 0)
    (hDict : OpResult ℂ) (hc : CacheCorrect n op weight r hDict) :
    (getGreenDict n e psi op omega delta krylovSize weight r hDict true = .error .attributeError ↔
      ¬ LinearIndependent ℂ (fun i : Fin krylovSize => (hamiltonian n op cut r)^[i.val] (ampl n psi))) ∧
    (getGreenDict n e psi op omega delta krylovSize weight r hDict true = .error .attributeError ∨
      ∃ g hDict', getGreenDict n e psi op omega delta krylovSize weight r hDict true = .ok (g, hDict') ∧
        g.length = omega.length ∧ CacheCorrect n op weight r hDict') := by
  have hne := norm_one_ne_nil hnorm
  obtain ⟨states, d, hlen, M, v, hnd, hsm, hherm, hvn, hli, hgr, -, hs, hv, hM, hser⟩ :=
    getGreen_matrix_full hop hdict hh hcut r hpsi hne hall hnorm (le_refl _) krylovSize
  obtain ⟨h1, h2⟩ := getGreenDict_matrix hnd hs hop hw hsmall hM hherm hvn hne ⟨hpsi, hv⟩ hK hc
  rw [hli]
  by_cases hi : LinearIndependent ℂ (fun i : Fin krylovSize => (M ^ i.val) *ᵥ v)
  · obtain ⟨hKd, hDict', hc', heq⟩ := h1 hi
    have hm : min krylovSize d = krylovSize := Nat.min_eq_left hKd
    rw [heq]
    have hraise := C41_raises M hherm v hvn krylovSize
    rw [hm] at hraise
    rcases C41_total M hherm v hvn krylovSize with h | ⟨alpha, beta, h⟩
    · rcases hraise.1 h with h | h
      · omega
      · exact absurd hi h
    · have htri := C41_tridiagonal M hherm v hvn krylovSize alpha beta h
      rw [hm] at htri
      obtain ⟨g, hg⟩ := greenOnMesh_total hK htri.1 htri.2.1 omega delta e hdelta
      rw [h]
      simp only [ok_bind, hg, pure_ok]
      refine ⟨Iff.intro (fun h => by cases h) (fun h => absurd hi h), Or.inr ⟨g, hDict', rfl, ?_, hc'⟩⟩
      unfold greenOnMesh at hg
      exact (mapM_length hg)
  · rw [h2 hi]
    exact ⟨⟨fun _ => hi, fun _ => rfl⟩, Or.inl rfl⟩

include hop hdict hh hcut hsmall hw hpsi hall hnorm in
/-- C71.  With `slaterWeightMin ≤ 0`, what `mode="dict"` returns `mode="sparse"` returns too. -/
theorem C71_same (krylovSize : ℕ) (e : ℝ) (omega : List ℝ) (delta : ℝ) (hDict : OpResult ℂ)
    (hc : CacheCorrect n op weight r hDict) (g : List ℂ) (hDict' : OpResult ℂ)
    (hg : getGreenDict n e psi op omega delta krylovSize weight r hDict true = .ok (g, hDict'))
    (fuel : ℕ) (hf : 2 ^ n + 2 ≤ fuel) (hDict₂ : OpResult ℂ) (hd : ColumnsExact n op cut r hDict₂) :
    ∃ hDict₂', getGreen n e psi op omega delta krylovSize cut r hDict₂ fuel = .ok (g, hDict₂') := by
  have hne := norm_one_ne_nil hnorm
  have hK : 0 < krylovSize := by
    by_contra h0
    unfold getGreenDict at hg
    rw [if_neg (fun h => hne (List.length_eq_zero_iff.1 h)), if_neg (by simp), if_pos (by omega)] at hg
    cases hg
  obtain ⟨states, d, hlen, M, v, hnd, hsm, hherm, hvn, hli, hgr, -, hs, hv, hM, hser⟩ :=
    getGreen_matrix_full hop hdict hh hcut r hpsi hne hall hnorm hf krylovSize
  obtain ⟨h1, h2⟩ := getGreenDict_matrix hnd hs hop hw hsmall hM hherm hvn hne ⟨hpsi, hv⟩ hK hc
  by_cases hi : LinearIndependent ℂ (fun i : Fin krylovSize => (M ^ i.val) *ᵥ v)
  · obtain ⟨hKd, hDict'', -, heq⟩ := h1 hi
    obtain ⟨h', -, hx⟩ := hser hDict₂ hd
    refine ⟨h', ?_⟩
    rw [hx, Nat.min_eq_left hKd]
    rw [heq] at hg
    cases hkr : tridiagonalKrylov M v krylovSize with
    | error err => rw [hkr] at hg; cases hg
    | ok ab =>
      rw [hkr] at hg
      simp only [ok_bind] at hg ⊢
      cases hgm : greenOnMesh ab.1 ab.2 krylovSize omega delta e with
      | error err => rw [hgm] at hg; cases hg
      | ok g' => rw [hgm] at hg; cases hg; rfl
  · rw [h2 hi] at hg; cases hg

include hop hdict hh hcut hsmall hw hpsi hall hnorm in
/-- C71, exactness.  If `krylovSize` exhausts the Krylov space, a result of `mode="dict"` is
`⟨psi| (w + i delta + e - H)⁻¹ |psi⟩` at every point of the mesh. -/
theorem C71_exact (krylovSize : ℕ)
    (hex : ¬ LinearIndependent ℂ (fun i : Fin (krylovSize + 1) => (hamiltonian n op cut r)^[i.val] (ampl n psi)))
    (e : ℝ) (omega : List ℝ) (delta : ℝ) (hdelta : delta ≠ 0) (hDict : OpResult ℂ)
    (hc : CacheCorrect n op weight r hDict) (g : List ℂ) (hDict' : OpResult ℂ)
    (hg : getGreenDict n e psi op omega delta krylovSize weight r hDict true = .ok (g, hDict')) :
    List.Forall₂ (fun (w : ℝ) x => IsGreen n (hamiltonian n op cut r)
      ((w : ℂ) + Complex.I * (delta : ℂ) + (e : ℂ)) (ampl n psi) x) omega g := by
  obtain ⟨h', hx⟩ := C71_same hop hdict hh hcut hsmall hw hpsi hall hnorm krylovSize e omega delta hDict hc g hDict' hg _
    (le_refl _) [] (columnsExact_nil ..)
  exact C57_exact hop hdict hh hcut r hpsi hall hnorm krylovSize hex _ (le_refl _) e omega delta hdelta [] (columnsExact_nil ..)
    g h' hx

include hop hdict hh hcut hsmall hw hpsi hall hnorm in
/-- C71, where the modes differ.  If `krylovSize` is larger than the number of product states in a set
that contains those of the state and that the Hamiltonian does not lead out of, `mode="dict"`
raises, since it does not reduce `krylovSize`. -/
theorem C71_too_large (X : Finset (Finset ℕ)) (hX : ∀ S ⊆ range n, encBytes n S ∈ Dict.keys psi → S ∈ X)
    (hXc : ∀ T ∈ X, ∀ S ⊆ range n, Connects op cut r T S → S ∈ X) (krylovSize : ℕ) (hK : X.card < krylovSize)
    (e : ℝ) (omega : List ℝ) (delta : ℝ) (hdelta : delta ≠ 0) (hDict : OpResult ℂ) (hc : CacheCorrect n op weight r hDict) :
    getGreenDict n e psi op omega delta krylovSize weight r hDict true = .error .attributeError := by
  obtain ⟨k, rfl⟩ : ∃ k, krylovSize = k + 1 := ⟨krylovSize - 1, by omega⟩
  exact (C71_raises hop hdict hh hcut hsmall hw hpsi hall hnorm (k + 1) (by omega) e omega delta hdelta hDict hc).1.2
    (C57_exhausted hop hdict hh hcut r hpsi hall hnorm X hX hXc k (by omega))

/-- C71, the other cases: an empty state gives zeros, a distributed Hamiltonian and `krylovSize = 0`
are refused. -/
theorem C71_refused (n : ℕ) (op : Op ℕ ℂ) (weight : ℝ) (r : Option Restrictions) (psi : Psi ℂ) (e : ℝ) (omega : List ℝ)
    (delta : ℝ) (krylovSize : ℕ) (hDict : OpResult ℂ) (serial : Bool) :
    (psi = [] → getGreenDict n e psi op omega delta krylovSize weight r hDict serial
      = .ok (List.replicate omega.length 0, hDict)) ∧
    (psi ≠ [] → serial = false → getGreenDict n e psi op omega delta krylovSize weight r hDict serial
      = .error .assertionError) ∧
    (psi ≠ [] → serial = true → krylovSize = 0 → getGreenDict n e psi op omega delta krylovSize weight r hDict serial
      = .error .indexError) := by
  have hl : psi ≠ [] → psi.length ≠ 0 := fun h h0 => h (List.length_eq_zero_iff.1 h0)
  refine ⟨?_, ?_, ?_⟩
  · rintro rfl; rfl
  · rintro h rfl
    unfold getGreenDict
    rw [if_neg (hl h), if_pos (by simp)]
  · rintro h rfl rfl
    unfold getGreenDict
    rw [if_neg (hl h), if_neg (by simp), if_pos rfl]

/-! ### Non-vacuity: one electron on two sites -/

/-- With two Krylov vectors, `mode="dict"` gives the exact Green's function; with five, it raises, where
`mode="sparse"` gives the exact Green's function (`exTwo_green`). -/
theorem exTwo_dict (omega : List ℝ) : (∃ g hDict',
    getGreenDict 2 0 exTwoPsi (castOp exTwo) omega 1 2 0 none [] true = .ok (g, hDict') ∧
      List.Forall₂ (fun (w : ℝ) x => IsGreen 2 (hamiltonian 2 (castOp exTwo) (1 / 2) none)
        ((w : ℂ) + Complex.I * ((1 : ℝ) : ℂ) + ((0 : ℝ) : ℂ)) (ampl 2 exTwoPsi) x) omega g) ∧
    getGreenDict 2 0 exTwoPsi (castOp exTwo) omega 1 5 0 none [] true = .error .attributeError := by
  have hsm : ∀ T ⊆ range 2, NoSmallElements 2 (castOp exTwo) (1 / 2 : ℝ) none T :=
    fun T _ => noSmall_castOp 2 exTwo (by norm_num) none T
  have hli : LinearIndependent ℂ (fun i : Fin 2 => (hamiltonian 2 (castOp exTwo) (1 / 2) none)^[i.val] (ampl 2 exTwoPsi)) := by
    have := exTwo_independent
    rwa [show min 5 ({{0}, {1}} : Finset (Finset ℕ)).card = 2 by decide] at this
  have hX : ∀ S ⊆ range 2, encBytes 2 S ∈ Dict.keys exTwoPsi → S ∈ ({{0}, {1}} : Finset (Finset ℕ)) :=
    fun S hS h => by rw [exTwoPsi_key hS h]; simp
  refine ⟨?_, C71_too_large exTwo_inSystem exTwo_nodup exTwo_hermitian (by norm_num) hsm (le_refl _) exTwoPsi_state
    (fun _ _ _ => trivial) exTwoPsi_norm {{0}, {1}} hX exTwo_smallest.closed 5 (by decide) 0 omega 1 (by norm_num) []
    (correct_nil ..)⟩
  obtain ⟨hr, ht⟩ := C71_raises exTwo_inSystem exTwo_nodup exTwo_hermitian (by norm_num) hsm (le_refl _) exTwoPsi_state
    (fun _ _ _ => trivial) exTwoPsi_norm 2 (by norm_num) 0 omega 1 (by norm_num) [] (correct_nil ..)
  rcases ht with ht | ⟨g, h', hg, -, -⟩
  · exact absurd hli (hr.1 ht)
  · exact ⟨g, h', hg, C71_exact exTwo_inSystem exTwo_nodup exTwo_hermitian (by norm_num) hsm (le_refl _) exTwoPsi_state
      (fun _ _ _ => trivial) exTwoPsi_norm 2 (C57_exhausted exTwo_inSystem exTwo_nodup exTwo_hermitian (by norm_num) none
        exTwoPsi_state (fun _ _ _ => trivial) exTwoPsi_norm {{0}, {1}} hX exTwo_smallest.closed 2 (by decide))
      0 omega 1 (by norm_num) [] (correct_nil ..) g h' hg⟩

end

end Verif
