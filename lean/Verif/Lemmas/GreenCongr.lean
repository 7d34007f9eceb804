/-
The Green's function does not depend on the order of the product states.
-/
import Verif.Lemmas.Green

namespace Verif

open Finset Mpi Psr Spec Matrix

noncomputable section

section krylov
variable {n m : ℕ} (σ : Fin n ≃ Fin m)

/-- Two states of the Krylov loop that differ in the numbering of the basis. -/
structure KrylovRel (s : Krylov n) (s' : Krylov m) : Prop where
  alpha : s.alpha = s'.alpha
  beta : s.beta = s'.beta
  v0 : s.v0 = s'.v0 ∘ σ
  v1 : s.v1 = s'.v1 ∘ σ
  w : s.w = s'.w ∘ σ

theorem mulVec_rel {H : Matrix (Fin n) (Fin n) ℂ} {H' : Matrix (Fin m) (Fin m) ℂ}
    (hH : ∀ i j, H i j = H' (σ i) (σ j)) (v : Fin m → ℂ) : H *ᵥ (v ∘ σ) = (H' *ᵥ v) ∘ σ := by
  funext i
  simp only [Function.comp, Matrix.mulVec, dotProduct]
  rw [← Equiv.sum_comp σ]
  exact sum_congr rfl fun j _ => by rw [hH]

theorem dot_rel (v w : Fin m → ℂ) : star (v ∘ σ) ⬝ᵥ (w ∘ σ) = star v ⬝ᵥ w := by
  simp only [dotProduct]
  rw [← Equiv.sum_comp σ]
  rfl

theorem krylovFirst_rel {s : Krylov n} {s' : Krylov m} (h : KrylovRel σ s s') (wp : Fin m → ℂ) :
    KrylovRel σ (krylovFirst s (wp ∘ σ)) (krylovFirst s' wp) := by
  unfold krylovFirst
  rw [h.v0, dot_rel]
  exact ⟨by simp only [h.alpha], h.beta, rfl, h.v1, by funext i; simp⟩

theorem krylovAlpha_rel {s : Krylov n} {s' : Krylov m} (h : KrylovRel σ s s') (j : ℕ) (wp : Fin m → ℂ) :
    KrylovRel σ (krylovAlpha j s (wp ∘ σ)) (krylovAlpha j s' wp) := by
  unfold krylovAlpha
  rw [h.v1, h.v0, dot_rel, h.beta, h.alpha]
  exact ⟨rfl, rfl, rfl, rfl, by funext i; simp⟩

theorem krylovVector_rel {s : Krylov n} {s' : Krylov m} (h : KrylovRel σ s s') (j : ℕ) :
    (∃ t t', krylovVector j s = .ok t ∧ krylovVector j s' = .ok t' ∧ KrylovRel σ t t') ∨
      ∃ e, krylovVector j s = .error e ∧ krylovVector j s' = .error e := by
  have hw : ∑ i, Complex.normSq (s.w i) = ∑ i, Complex.normSq (s'.w i) := by
    rw [h.w, ← Equiv.sum_comp σ]
    rfl
  unfold krylovVector
  rw [hw]
  by_cases hb : Real.sqrt (∑ i, Complex.normSq (s'.w i)) = 0
  · right
    exact ⟨.valueError, by simp [hb], by simp [hb]⟩
  · left
    refine ⟨_, _, if_pos hb, if_pos hb, ⟨h.alpha, by simp only [h.beta], h.v0, ?_, h.w⟩⟩
    funext i
    simp only [h.w, Function.comp]

theorem krylovLoop_rel {H : Matrix (Fin n) (Fin n) ℂ} {H' : Matrix (Fin m) (Fin m) ℂ}
    (hH : ∀ i j, H i j = H' (σ i) (σ j)) : ∀ (k j : ℕ) (s : Krylov n) (s' : Krylov m), KrylovRel σ s s' →
    (∃ t t', krylovLoop H k j s = .ok t ∧ krylovLoop H' k j s' = .ok t' ∧ KrylovRel σ t t') ∨
      ∃ e, krylovLoop H k j s = .error e ∧ krylovLoop H' k j s' = .error e
  | 0, _, s, s', h => Or.inl ⟨s, s', rfl, rfl, h⟩
  | k + 1, j, s, s', h => by
    unfold krylovLoop
    rcases krylovVector_rel σ h j with ⟨t, t', h1, h2, h3⟩ | ⟨e, h1, h2⟩
    · rw [h1, h2]
      simp only [bind, Except.bind]
      refine krylovLoop_rel hH k (j + 1) _ _ ?_
      rw [h3.v1, mulVec_rel σ hH]
      exact krylovAlpha_rel σ h3 j _
    · rw [h1, h2]
      exact Or.inr ⟨e, rfl, rfl⟩

/-- The tridiagonal matrix does not depend on the numbering of the basis. -/
theorem tridiagonalKrylov_reindex {H : Matrix (Fin n) (Fin n) ℂ} {H' : Matrix (Fin m) (Fin m) ℂ}
    (hH : ∀ i j, H i j = H' (σ i) (σ j)) (v : Fin m → ℂ) (K : ℕ) :
    tridiagonalKrylov H (v ∘ σ) K = tridiagonalKrylov H' v K := by
  have hnm : n = m := by simpa using Fintype.card_congr σ
  have hKm : min K n = min K m := by rw [hnm]
  unfold tridiagonalKrylov krylovAlloc
  rw [hKm]
  by_cases hk : min K m = 0
  · simp only [hk, if_true]
    rfl
  · simp only [if_neg hk, bind, Except.bind]
    have h0 : KrylovRel σ ⟨List.replicate (min K m) 0, List.replicate (min K m - 1) 0, v ∘ σ, 0, 0⟩
        ⟨List.replicate (min K m) 0, List.replicate (min K m - 1) 0, v, 0, 0⟩ := ⟨rfl, rfl, rfl, rfl, rfl⟩
    have h1 := krylovFirst_rel σ h0 (H' *ᵥ v)
    rw [← mulVec_rel σ hH] at h1
    rcases krylovLoop_rel σ hH (min K m - 1) 1 _ _ h1 with ⟨t, t', h2, h3, h4⟩ | ⟨e, h2, h3⟩
    · simp only [h2, h3, pure, Except.pure, h4.alpha, h4.beta]
    · simp only [h2, h3]

end krylov

theorem SmallestInvariant.unique {n : ℕ} {op : Op ℕ ℂ} {cut : ℝ} {r : Option Restrictions} {X A B : Set (Finset ℕ)}
    (hA : SmallestInvariant n op cut r X A) (hB : SmallestInvariant n op cut r X B) : A = B :=
  Set.Subset.antisymm (hA.smallest B hB.contains hB.closed) (hB.smallest A hA.contains hA.closed)

/-- Two lists with the same elements, each once. -/
def listEquiv {α : Type} [DecidableEq α] {l l' : List α} (h : l.Nodup) (h' : l'.Nodup) (hm : ∀ x, x ∈ l ↔ x ∈ l') :
    Fin l.length ≃ Fin l'.length :=
  (List.Nodup.getEquiv l h).trans ((Equiv.subtypeEquivRight hm).trans (List.Nodup.getEquiv l' h').symm)

theorem getElem_listEquiv {α : Type} [DecidableEq α] {l l' : List α} (h : l.Nodup) (h' : l'.Nodup)
    (hm : ∀ x, x ∈ l ↔ x ∈ l') (i : Fin l.length) : l'[(listEquiv h h' hm i).val] = l[i.val] := by
  have h1 : List.Nodup.getEquiv l' h' (listEquiv h h' hm i) = ⟨l[i.val], (hm _).1 (List.getElem_mem _)⟩ := by
    unfold listEquiv
    simp only [Equiv.trans_apply, Equiv.apply_symm_apply]
    rfl
  exact congrArg Subtype.val h1

/-- Serial expansion of a state's product states. -/
theorem serial_expansion {n : ℕ} {hOp : Op ℕ ℂ} (hop : OpInSystem n hOp) {cut : ℝ} (hcut : 0 < cut)
    (r : Option Restrictions) {psi : Psi ℂ} (hpsi : IsState n psi) {fuel : ℕ} (hf : 2 ^ n + 2 ≤ fuel) :
    ∃ (H : Mat ℂ) (states : List (Finset ℕ)), states.Nodup ∧ (∀ S ∈ states, S ⊆ range n) ∧
      SmallestInvariant n hOp cut r {S | S ⊆ range n ∧ encBytes n S ∈ Dict.keys psi} {S | S ∈ states} ∧
      (∀ i j, H i j = if h : i < states.length ∧ j < states.length then
        column hOp cut r states[j] states[i] else 0) ∧
      ∀ hSer, ColumnsExact n hOp cut r hSer → ∃ hSer', ColumnsExact n hOp cut r hSer' ∧
        expandBasisAndHamiltonianSerial n hSer hOp cut (Dict.keys psi) r fuel
          = .ok (H, basisIndex (states.map (encBytes n)), hSer') := by
  obtain ⟨states0, hkeys, hst, hnd0⟩ := IsState.exists_states hpsi
  obtain ⟨H, states, hnd, hs, hsm, hent, hser, -⟩ :=
    distributed_hamiltonian (N := 1) (by omega) hop hcut r (fun _ => []) (fun _ => columnsExact_nil ..)
      (fun k l hkl => absurd (Subsingleton.elim k l) hkl) (fun _ _ l => l) (fun _ _ l => List.Perm.refl l)
      (fun _ l => l) (fun _ l => List.Perm.refl l) (fun _ => .none) states0 hst hnd0 fuel hf
  refine ⟨H, states, hnd, hs, ?_, hent, by rw [hkeys]; exact hser⟩
  have : {S | S ⊆ range n ∧ encBytes n S ∈ Dict.keys psi} = {S | S ∈ states0} := by
    ext S
    simp only [Set.mem_setOf_eq, hkeys, List.mem_map]
    constructor
    · rintro ⟨hS, T, hT, he⟩
      rwa [← encBytes_injOn (hst T hT) hS he]
    · intro hS
      exact ⟨hst S hS, S, hS, rfl⟩
  rw [this]
  exact hsm

/-- `psiVector` in terms of amplitudes. -/
theorem psiVector_ampl {n : ℕ} {states : List (Finset ℕ)} (hnd : states.Nodup) (hs : ∀ S ∈ states, S ⊆ range n)
    {psi : Psi ℂ} (hpsi : IsState n psi) (hk : ∀ S ⊆ range n, encBytes n S ∈ Dict.keys psi → S ∈ states)
    (hlen : (basisIndex (states.map (encBytes n))).length = states.length) :
    psiVector (basisIndex (states.map (encBytes n))) psi
      = .ok fun i => ampl n psi (states[i.val]'(lt_of_lt_of_eq i.isLt hlen)) := by
  have hndB : (states.map (encBytes n)).Nodup := (nodup_map_enc hs).2 hnd
  rw [psiVector_eq hndB psi hpsi.nodup]
  · congr 1
    funext i
    have hi : i.val < states.length := lt_of_lt_of_eq i.isLt hlen
    rw [ampl, if_pos (hs _ (List.getElem_mem hi)), List.getD_eq_getElem _ _ (by simpa using hi), List.getElem_map]
  · intro k hkk
    obtain ⟨S, hS, rfl⟩ := hpsi.keys k hkk
    exact List.mem_map.2 ⟨S, hk S hS hkk, rfl⟩

theorem ampl_congr {n : ℕ} {psi psi' : Psi ℂ} (h : Dict.Eqv psi psi') : ampl n psi = ampl n psi' := by
  funext S
  unfold ampl
  rw [h]

theorem eqv_nil {psi : Psi ℂ} (h : Dict.Eqv psi []) : psi = [] := by
  cases psi with
  | nil => rfl
  | cons p psi =>
    have := h p.1
    rw [show (p :: psi) = ((p.1, p.2) :: psi) from rfl, Dict.get?_cons] at this
    simp at this

/-- `getGreen` depends on the dict `psi` only up to order, and not on the columns
that are already in `h_dict`. -/
theorem getGreen_congr {n : ℕ} {hOp : Op ℕ ℂ} (hop : OpInSystem n hOp) {cut : ℝ} (hcut : 0 < cut)
    (r : Option Restrictions) {psi psi' : Psi ℂ} (hpsi : IsState n psi) (hpsi' : IsState n psi')
    (he : Dict.Eqv psi psi') {fuel : ℕ} (hf : 2 ^ n + 2 ≤ fuel) (e : ℝ) (omega : List ℝ) (delta : ℝ) (K : ℕ)
    {h1 h2 : OpResult ℂ} (hh1 : ColumnsExact n hOp cut r h1) (hh2 : ColumnsExact n hOp cut r h2) :
    (getGreen n e psi hOp omega delta K cut r h1 fuel).map Prod.fst
      = (getGreen n e psi' hOp omega delta K cut r h2 fuel).map Prod.fst := by
  by_cases hp : psi.length = 0
  · have hnil : psi = [] := List.length_eq_zero_iff.1 hp
    have hnil' : psi' = [] := eqv_nil fun k => by rw [← he k, hnil]
    subst hnil hnil'
    rfl
  have hp' : psi'.length ≠ 0 := by
    intro h0
    have hnil' : psi' = [] := List.length_eq_zero_iff.1 h0
    have : psi = [] := eqv_nil fun k => by rw [he k, hnil']
    exact hp (by rw [this]; rfl)
  have hkeys : ∀ k, k ∈ Dict.keys psi ↔ k ∈ Dict.keys psi' := by
    intro k
    rw [Dict.mem_keys_iff, Dict.mem_keys_iff, he]
  obtain ⟨H, states, hnd, hs, hsm, hent, hser⟩ := serial_expansion hop hcut r hpsi hf
  obtain ⟨H', states', hnd', hs', hsm', hent', hser'⟩ := serial_expansion hop hcut r hpsi' hf
  obtain ⟨h1', -, hx⟩ := hser h1 hh1
  obtain ⟨h2', -, hx'⟩ := hser' h2 hh2
  rw [getGreen_of_expand hp hx, getGreen_of_expand hp' hx']
  simp only [hkeys] at hsm
  have hset := SmallestInvariant.unique hsm hsm'
  have hm : ∀ S, S ∈ states ↔ S ∈ states' := fun S => by
    have := Set.ext_iff.1 hset S
    exact this
  have hlen := length_basisIndex ((nodup_map_enc hs).2 hnd)
  have hlen' := length_basisIndex ((nodup_map_enc hs').2 hnd')
  rw [List.length_map] at hlen hlen'
  have hv := psiVector_ampl hnd hs hpsi (fun S hS hk => hsm.contains ⟨hS, (hkeys _).1 hk⟩) hlen
  have hv' := psiVector_ampl hnd' hs' hpsi' (fun S hS hk => hsm'.contains ⟨hS, hk⟩) hlen'
  let σ : Fin (basisIndex (states.map (encBytes n))).length ≃ Fin (basisIndex (states'.map (encBytes n))).length :=
    (finCongr hlen).trans ((listEquiv hnd hnd' hm).trans (finCongr hlen').symm)
  have hσ : ∀ i : Fin (basisIndex (states.map (encBytes n))).length,
      states'[(σ i).val]'(lt_of_lt_of_eq (σ i).isLt hlen') = states[i.val]'(lt_of_lt_of_eq i.isLt hlen) :=
    fun i => getElem_listEquiv hnd hnd' hm (finCongr hlen i)
  have hH : ∀ i j, H.toMatrix (basisIndex (states.map (encBytes n))).length i j
      = H'.toMatrix (basisIndex (states'.map (encBytes n))).length (σ i) (σ j) := by
    intro i j
    unfold Mat.toMatrix
    rw [hent, hent', dif_pos ⟨lt_of_lt_of_eq i.isLt hlen, lt_of_lt_of_eq j.isLt hlen⟩,
      dif_pos ⟨lt_of_lt_of_eq (σ i).isLt hlen', lt_of_lt_of_eq (σ j).isLt hlen'⟩, hσ, hσ]
  have hl : (basisIndex (states.map (encBytes n))).length = (basisIndex (states'.map (encBytes n))).length := by
    simpa using Fintype.card_congr σ
  have hvv : (fun i : Fin (basisIndex (states.map (encBytes n))).length =>
        ampl n psi (states[i.val]'(lt_of_lt_of_eq i.isLt hlen)))
      = (fun i : Fin (basisIndex (states'.map (encBytes n))).length =>
        ampl n psi' (states'[i.val]'(lt_of_lt_of_eq i.isLt hlen'))) ∘ σ := by
    funext i
    simp only [Function.comp]
    rw [hσ, ampl_congr he]
  have key : greenTail H (basisIndex (states.map (encBytes n))) psi K omega delta e
      = greenTail H' (basisIndex (states'.map (encBytes n))) psi' K omega delta e := by
    unfold greenTail
    rw [hv, hv', hvv]
    simp only [ok_bind]
    rw [tridiagonalKrylov_reindex σ hH, hl]
  rw [key]
  cases greenTail H' (basisIndex (states'.map (encBytes n))) psi' K omega delta e with
  | error e => rfl
  | ok g => rfl

end

end Verif
