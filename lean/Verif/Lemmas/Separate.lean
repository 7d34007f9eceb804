/-
A solver that finds product states if the Hamiltonian is diagonal.
-/
import Verif.Lemmas.Diagonal
import Verif.Prop.Eigen

namespace Verif

open Finset Psr Spec

noncomputable section

/-- The eigenvectors of a diagonal matrix can be unit vectors. -/
theorem exists_eigenOf_diagonal (H : Mat ℂ) (d : ℕ) (hH : ∀ i j, H i j = star (H j i)) (hd : ∀ i < d, ∀ j < d, i ≠ j → H i j = 0) :
    ∃ p, EigenOf H d p ∧ p.es.Pairwise (· ≤ ·) ∧ p.es.length = d ∧ ∀ v < d, ∃ i < d, ∀ j, j ≠ i → p.vecs j v = 0 := by
  let f : Fin d → ℝ := fun i => (H i i).re
  have hre : ∀ i : Fin d, H i i = (f i : ℂ) := fun i => (Complex.conj_eq_iff_re.1 (hH i i).symm).symm
  let σ := Tuple.sort f
  have hmono : Monotone (f ∘ σ) := Tuple.monotone_sort _
  refine ⟨⟨List.ofFn (f ∘ σ), fun i v => if h : v < d then if i = (σ ⟨v, h⟩ : Fin d).val then 1 else 0 else 0⟩, ⟨?_, ?_⟩, ?_, by simp, ?_⟩
  · intro v hv i hi
    simp only [List.length_ofFn] at hv
    simp only [dif_pos hv, List.getElem_ofFn, Function.comp_apply]
    rw [Finset.sum_eq_single (σ ⟨v, hv⟩).val]
    · by_cases h : i = (σ ⟨v, hv⟩).val
      · rw [if_pos rfl, if_pos h, h, hre]
      · rw [if_pos rfl, if_neg h, hd i hi _ (σ ⟨v, hv⟩).2 h, zero_mul, mul_zero]
    · intro j _ hj
      rw [if_neg hj, mul_zero]
    · intro h
      exact absurd (mem_range.2 (σ ⟨v, hv⟩).2) h
  · intro v hv w hw
    simp only [List.length_ofFn] at hv hw
    simp only [dif_pos hv, dif_pos hw]
    rw [Finset.sum_eq_single (σ ⟨v, hv⟩).val]
    · rw [if_pos rfl, star_one, one_mul]
      have : (σ ⟨v, hv⟩).val = (σ ⟨w, hw⟩).val ↔ v = w := by
        rw [← Fin.ext_iff, σ.injective.eq_iff, Fin.mk.injEq]
      simp only [this]
    · intro j _ hj
      rw [if_neg hj, star_zero, zero_mul]
    · intro h
      exact absurd (mem_range.2 (σ ⟨v, hv⟩).2) h
  · rw [List.pairwise_ofFn]
    intro i j hij
    exact hmono hij.le
  · intro v hv
    refine ⟨(σ ⟨v, hv⟩).val, (σ ⟨v, hv⟩).2, fun j hj => ?_⟩
    simp only [dif_pos hv, if_neg hj]

/-- For diagonal matrices the solver returns unit vectors. -/
def Separates (S : EigenSolver) : Prop :=
  ∀ (H : Mat ℂ) (d k : ℕ) (p : EigenPairs), (∀ i j, H i j = star (H j i)) → (∀ i < d, ∀ j < d, i ≠ j → H i j = 0) →
    S.eigsh H d k = .ok p → ∀ v < p.es.length, ∃ i < d, ∀ j, j ≠ i → p.vecs j v = 0

theorem exists_separating : ∃ S, SolverCorrect S ∧ (∀ H d k, k < d → ∃ p, S.eigsh H d k = .ok p) ∧ Separates S := by
  classical
  have hch : ∀ (H : Mat ℂ) (d : ℕ), ∃ p : EigenPairs, (∀ i j, H i j = star (H j i)) →
      (EigenOf H d p ∧ p.es.Pairwise (· ≤ ·) ∧ p.es.length = d) ∧
      ((∀ i < d, ∀ j < d, i ≠ j → H i j = 0) → ∀ v < d, ∃ i < d, ∀ j, j ≠ i → p.vecs j v = 0) := by
    intro H d
    by_cases hH : ∀ i j, H i j = star (H j i)
    · by_cases hd : ∀ i < d, ∀ j < d, i ≠ j → H i j = 0
      · obtain ⟨p, h1, h2, h3, h4⟩ := exists_eigenOf_diagonal H d hH hd
        exact ⟨p, fun _ => ⟨⟨h1, h2, h3⟩, fun _ => h4⟩⟩
      · obtain ⟨p, hp⟩ := exists_eigenOf H d hH
        exact ⟨p, fun _ => ⟨hp, fun h => absurd h hd⟩⟩
    · exact ⟨⟨[], fun _ _ => 0⟩, fun h => absurd h hH⟩
  choose eigh heigh using hch
  obtain ⟨S, h1, h2, h3⟩ := solver_of fun H d hH => (heigh H d hH).1
  refine ⟨S, h1, h2, fun H d k p hH hd hp v hv => ?_⟩
  obtain ⟨e1, e2⟩ := h3 H d k p hp
  rw [e1]
  refine (heigh H d hH).2 hd v ?_
  rw [e2, List.length_take, (heigh H d hH).1.2.2] at hv
  omega

/-- The eigenstates of a diagonal Hamiltonian are then product states. -/
theorem separated_states {S : EigenSolver} (hS : SolverCorrect S) (hsep : Separates S) {n : ℕ} {op : Op ℕ ℂ}
    (hop : OpInSystem n op) (hdict : Dict.NodupKeys op) (hh : isHermitianOp op) {cut : ℝ} {E : Finset ℕ → ℂ}
    (hD : DiagonalOp n op cut E) {states : List (Finset ℕ)} (hnd : states.Nodup) (hst : ∀ S ∈ states, S ⊆ range n) {k : ℕ}
    {weight : ℝ} (hw : weight ≤ 1) {ranks : ℕ} (hr : 0 < ranks) {es : List ℝ} {psis : List (Psi ℂ)}
    (h : eigensystem S n op cut (states.map (encBytes n)) k .lanczos weight ranks = .ok (es, psis)) :
    ∃ g : ℕ → Finset ℕ,
      (∀ v (hv : v < es.length) (hv' : v < psis.length), g v ∈ states ∧ E (g v) = es[v] ∧
        ∃ y, ampl n psis[v] = Spec.single (g v) y ∧ Complex.normSq y = 1) ∧
      (∀ v < es.length, ∀ w < es.length, g v = g w → v = w) ∧
      ∀ F ∈ states, (∀ v < es.length, g v ≠ F) → ∀ v (hv : v < es.length), es[v] ≤ (E F).re := by
  obtain ⟨H, hH, hent, -⟩ := C21_matrix_elements n op hop cut states hnd hst .sparseMPI ranks hr
  have hherm : ∀ i j, H i j = star (H j i) := by
    obtain ⟨H', hH', hs⟩ := C19_matrix_hermitian n op hop hdict hh cut states hnd hst .sparseMPI ranks hr
    rw [hH] at hH'
    cases hH'
    exact hs
  have hval : ∀ i (hi : i < states.length), ∀ j (hj : j < states.length), H i j = if i = j then E states[j] else 0 := by
    intro i hi j hj
    rw [hent i j hi hj, hD.stored _ _ (hst _ (List.getElem_mem hi)) (hst _ (List.getElem_mem hj))]
    simp only [hnd.getElem_inj_iff]
  unfold eigensystem at h
  rw [hH] at h
  simp only [bind, Except.bind, List.length_map] at h
  split at h
  · cases h
  rename_i p hp
  cases h
  obtain ⟨heig, hsort, hlow⟩ := diag_spec hS hherm states.length k .lanczos hp
  have hunit : ∀ v < p.es.length, ∃ i < states.length, ∀ j, j ≠ i → p.vecs j v = 0 := by
    simp only [diagLanczos, bind, Except.bind] at hp
    cases hq : S.eigsh H states.length k with
    | error e => rw [hq] at hp; cases hp
    | ok q =>
      rw [hq] at hp
      simp only at hp
      split at hp
      · cases hp
      rename_i es hes
      cases hp
      intro v hv
      have hlen : es.length = (S.argsort q.es).length := mapM_length hes
      have hv : v < es.length := hv
      obtain ⟨h2, -⟩ := hS.argsort q.es
      refine hsep H _ _ q hherm (fun i hi j hj hne => ?_) hq _ ?_
      · rw [hval i hi j hj, if_neg hne]
      · rw [List.getD_eq_getElem _ _ (by omega)]
        exact List.mem_range.1 (h2.mem_iff.1 (List.getElem_mem (by omega : v < (S.argsort q.es).length)))
  have hch : ∀ v, ∃ i, v < p.es.length → i < states.length ∧ ∀ j, j ≠ i → p.vecs j v = 0 := by
    intro v
    by_cases hv : v < p.es.length
    · obtain ⟨i, h1, h2⟩ := hunit v hv
      exact ⟨i, fun _ => ⟨h1, h2⟩⟩
    · exact ⟨0, fun h => absurd h hv⟩
  choose i hi using hch
  have hn1 : ∀ v < p.es.length, star (p.vecs (i v) v) * p.vecs (i v) v = 1 := by
    intro v hv
    have := heig.ortho v hv v hv
    rwa [if_pos rfl, Finset.sum_eq_single (i v) (fun j _ hj => by rw [(hi v hv).2 j hj, mul_zero])
      (fun h => absurd (mem_range.2 (hi v hv).1) h)] at this
  have hne : ∀ v < p.es.length, p.vecs (i v) v ≠ 0 := by
    intro v hv h0
    have := hn1 v hv
    rw [h0, mul_zero] at this
    exact zero_ne_one this
  have hnorm : ∀ v < p.es.length, Complex.normSq (p.vecs (i v) v) = 1 := by
    intro v hv
    have h := hn1 v hv
    have h2 : ((Complex.normSq (p.vecs (i v) v) : ℝ) : ℂ) = 1 := by
      rw [← h, Complex.normSq_eq_conj_mul_self]
      rfl
    exact_mod_cast h2
  have hget : ∀ v < p.es.length, states.getD (i v) ∅ ∈ states ∧ states.idxOf (states.getD (i v) ∅) = i v := by
    intro v hv
    have h1 := (hi v hv).1
    rw [List.getD_eq_getElem _ _ h1]
    exact ⟨List.getElem_mem h1, hnd.idxOf_getElem _ h1⟩
  refine ⟨fun v => states.getD (i v) ∅, ?_, ?_, ?_⟩
  · intro v hv hv'
    refine ⟨(hget v hv).1, ?_, p.vecs (i v) v, ?_, hnorm v hv⟩
    · have h1 := (hi v hv).1
      have h := heig.eigen v hv (i v) h1
      rw [Finset.sum_eq_single (i v) (fun j _ hj => by rw [(hi v hv).2 j hj, mul_zero])
        (fun h => absurd (mem_range.2 h1) h), hval _ h1 _ h1, if_pos rfl] at h
      show E (states.getD (i v) ∅) = _
      rw [List.getD_eq_getElem _ _ h1]
      exact mul_right_cancel₀ (hne v hv) h
    · simp only [List.getElem_map, List.getElem_range]
      funext F
      rw [ampl_eigenState hnd hst]
      show _ = Spec.single (states.getD (i v) ∅) _ F
      unfold Spec.single
      by_cases hF : F = states.getD (i v) ∅
      · rw [if_pos hF, hF, (hget v hv).2, if_pos ⟨(hget v hv).1, by rw [hnorm v hv]; exact hw⟩]
      · rw [if_neg hF]
        split
        · rename_i hc
          refine (hi v hv).2 _ fun e => hF ?_
          rw [← e, List.getD_eq_getElem _ _ (List.idxOf_lt_length_of_mem hc.1), List.getElem_idxOf]
        · rfl
  · intro v hv w hw e
    have e : states.getD (i v) ∅ = states.getD (i w) ∅ := e
    have hiw : i v = i w := by rw [← (hget v hv).2, e, (hget w hw).2]
    by_contra hvw
    have := heig.ortho v hv w hw
    rw [if_neg hvw, Finset.sum_eq_single (i v) (fun j _ hj => by rw [(hi v hv).2 j hj, star_zero, zero_mul])
      (fun h => absurd (mem_range.2 (hi v hv).1) h)] at this
    refine mul_ne_zero (star_ne_zero.2 (hne v hv)) ?_ this
    rw [hiw]
    exact hne w hw
  · intro F hF hno v hv
    have hv : v < p.es.length := hv
    have hlt := List.idxOf_lt_length_of_mem hF
    have h := hlow (fun j => if j = states.idxOf F then 1 else 0) (fun w hw => by
      rw [Finset.sum_eq_single (states.idxOf F) (fun j _ hj => by rw [if_neg hj, mul_zero])
        (fun h => absurd (mem_range.2 hlt) h), (hi w hw).2, star_zero, zero_mul]
      intro e
      refine hno w hw ?_
      show states.getD (i w) ∅ = F
      rw [← e, List.getD_eq_getElem _ _ hlt, List.getElem_idxOf]) v hv
    rw [Finset.sum_eq_single (states.idxOf F) (fun j _ hj => by rw [if_neg hj, Complex.normSq_zero])
        (fun h => absurd (mem_range.2 hlt) h), if_pos rfl, Complex.normSq_one, mul_one] at h
    refine h.trans_eq ?_
    unfold energyOf
    dsimp only
    rw [Finset.sum_eq_single (states.idxOf F) (fun j _ hj => sum_eq_zero fun l _ => by rw [if_neg hj, star_zero, zero_mul, zero_mul])
        (fun h => absurd (mem_range.2 hlt) h), Finset.sum_eq_single (states.idxOf F) (fun j _ hj => by rw [if_neg hj, mul_zero])
        (fun h => absurd (mem_range.2 hlt) h), if_pos rfl, star_one, one_mul, mul_one, hval _ hlt _ hlt, if_pos rfl, List.getElem_idxOf]

end

end Verif
