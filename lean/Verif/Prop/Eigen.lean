/-
C51, C52: the eigenstates of the ground-state Hamiltonian and the energy cut.
-/
import Verif.Lemmas.Eigen
import Verif.Lemmas.EigenLowest
import Verif.Lemmas.OkIn
import Mathlib.Analysis.Matrix.Spectrum
import Mathlib.Data.Fin.Tuple.Sort

namespace Verif

open Finset Psr Spec

/-- The diagonalisation returns eigenpairs in ascending order. -/
theorem diag_spec {S : EigenSolver} (hS : SolverCorrect S) {H : Mat ℂ} (hH : ∀ i j, H i j = star (H j i))
    (d nPsiMax : ℕ) (mode : DiagMode) {p : EigenPairs}
    (h : (match mode with
      | .full => .ok (diagFull S H d nPsiMax)
      | .lanczos => diagLanczos S H d nPsiMax
      | .other => .error .unboundLocalError : Py EigenPairs) = .ok p) :
    EigenOf H d p ∧ p.es.Pairwise (· ≤ ·) ∧ IsLowest H d p := by
  cases mode with
  | full =>
    cases h
    obtain ⟨h1, h2, h3⟩ := hS.eigh H d hH
    unfold diagFull
    refine ⟨⟨?_, ?_⟩, h2.sublist (List.take_sublist _ _), isLowest_take h1 h3 h2 nPsiMax⟩
    · intro v hv i hi
      simp only [List.length_take, lt_min_iff] at hv
      rw [h1.eigen v hv.2 i hi]
      simp
    · intro v hv w hw
      simp only [List.length_take, lt_min_iff] at hv hw
      exact h1.ortho v hv.2 w hw.2
  | lanczos =>
    simp only [diagLanczos, bind, Except.bind] at h
    cases hq : S.eigsh H d nPsiMax with
    | error e => rw [hq] at h; cases h
    | ok q =>
      rw [hq] at h
      simp only at h
      obtain ⟨h1, -, h4⟩ := hS.eigsh H d nPsiMax q hH hq
      obtain ⟨h2, h3⟩ := hS.argsort q.es
      have hlt : ∀ i ∈ S.argsort q.es, i < q.es.length := fun i hi => List.mem_range.1 (h2.mem_iff.1 hi)
      have hm : ∀ l : List ℕ, (∀ i ∈ l, i < q.es.length) →
          l.mapM (fun (i : ℕ) => (pyGet q.es (i : ℤ) : Py ℝ)) = .ok (l.map fun i => q.es.getD i 0) := by
        intro l hl
        induction l with
        | nil => rfl
        | cons i l ih =>
          have hi := hl i (by simp)
          have hg : pyGet q.es (i : ℤ) = .ok (q.es.getD i 0) := by
            simp [pyGet, pyIndex, hi]
          rw [List.mapM_cons, hg, ih fun j hj => hl j (by simp [hj])]
          rfl
      rw [hm _ hlt] at h
      cases h
      have hlen : (S.argsort q.es).length = q.es.length := by rw [h2.length_eq, List.length_range]
      have hlt' : ∀ v < (S.argsort q.es).length, (S.argsort q.es).getD v 0 < q.es.length := by
        intro v hv
        rw [List.getD_eq_getElem _ _ hv]
        exact hlt _ (List.getElem_mem _)
      refine ⟨⟨?_, ?_⟩, h3, ?_⟩
      · intro v hv i hi
        simp only [List.length_map] at hv
        have := h1.eigen _ (hlt' v hv) i hi
        simp only [List.getElem_map]
        rw [this]
        congr 2
        rw [List.getD_eq_getElem _ _ (hlt _ (List.getElem_mem hv))]
        congr 1
        exact List.getD_eq_getElem _ _ hv
      · intro v hv w hw
        simp only [List.length_map] at hv hw
        have := h1.ortho _ (hlt' v hv) _ (hlt' w hw)
        simp only at this ⊢
        rw [this]
        have hnd : (S.argsort q.es).Nodup := h2.nodup_iff.2 List.nodup_range
        have : ((S.argsort q.es).getD v 0 = (S.argsort q.es).getD w 0) ↔ v = w := by
          rw [List.getD_eq_getElem _ _ hv, List.getD_eq_getElem _ _ hw]
          exact hnd.getElem_inj_iff
        simp only [this]
      · intro y hy v hv
        simp only [List.length_map] at hv hy
        simp only [List.getElem_map]
        rw [List.getD_eq_getElem _ _ (hlt _ (List.getElem_mem hv))]
        refine h4 y (fun w hw => ?_) _ _
        obtain ⟨u, hu, rfl⟩ := List.mem_iff_getElem.1 (h2.mem_iff.2 (List.mem_range.2 hw))
        have := hy u hu
        rwa [List.getD_eq_getElem _ _ hu] at this
  | other => cases h

/-- C51.  Let numpy and scipy work correctly and let `hOp` pass `assert_hermitian`.
If `eigensystem` returns, the energies are in ascending order and there is one
state per energy.  There are orthonormal vectors `x v` in the space of the basis
with `H x_v = es[v] x_v`, `H` the Hamiltonian between the product states of the
basis; no vector orthogonal to them has a lower energy, so these are the lowest
eigenstates; and state `v` is `x_v` without the product states of weight below
`slaterWeightMin`; what is lost of the norm is less than
`len(basis) * slaterWeightMin`. -/
theorem C51_eigensystem (S : EigenSolver) (hS : SolverCorrect S) (n : ℕ) (op : Op ℕ ℂ)
    (hop : OpInSystem n op) (hdict : Dict.NodupKeys op) (hh : isHermitianOp op) (cut : ℝ)
    (states : List (Finset ℕ)) (hnd : states.Nodup) (hst : ∀ S ∈ states, S ⊆ range n)
    (nPsiMax : ℕ) (mode : DiagMode) (slaterWeightMin : ℝ) (ranks : ℕ) (hr : 0 < ranks)
    (es : List ℝ) (psis : List (Psi ℂ))
    (h : eigensystem S n op cut (states.map (encBytes n)) nPsiMax mode slaterWeightMin ranks = .ok (es, psis)) :
    es.Pairwise (· ≤ ·) ∧ psis.length = es.length ∧
    ∃ x : ℕ → Finset ℕ → ℂ,
      (∀ v < es.length, ∀ w < es.length,
        ∑ S ∈ states.toFinset, star (x v S) * x w S = if v = w then 1 else 0) ∧
      (∀ v (hv : v < es.length), ∀ S ∈ states,
        ∑ T ∈ states.toFinset, storedElement op cut S T * x v T = es[v] * x v S) ∧
      (∀ y : Finset ℕ → ℂ, (∀ v < es.length, ∑ S ∈ states.toFinset, star (x v S) * y S = 0) → ∀ v (hv : v < es.length),
        es[v] * ∑ S ∈ states.toFinset, Complex.normSq (y S)
          ≤ (∑ S ∈ states.toFinset, ∑ T ∈ states.toFinset, star (y S) * storedElement op cut S T * y T).re) ∧
      ∀ v (hv : v < psis.length), IsState n psis[v] ∧
        (∀ S, ampl n psis[v] S
          = if S ∈ states ∧ slaterWeightMin ≤ Complex.normSq (x v S) then x v S else 0) ∧
        (norm2 psis[v] : ℝ) ≤ 1 ∧
        (0 < slaterWeightMin → 1 - states.length * slaterWeightMin < (norm2 psis[v] : ℝ)) := by
  obtain ⟨H, hH, hent, hout⟩ := C21_matrix_elements n op hop cut states hnd hst .sparseMPI ranks hr
  have hherm : ∀ i j, H i j = star (H j i) := by
    obtain ⟨H', hH', hs⟩ := C19_matrix_hermitian n op hop hdict hh cut states hnd hst .sparseMPI ranks hr
    rw [hH] at hH'
    cases hH'
    exact hs
  unfold eigensystem at h
  rw [hH] at h
  simp only [bind, Except.bind, List.length_map] at h
  split at h
  · cases h
  rename_i p hp
  cases h
  obtain ⟨heig, hsort, hlow⟩ := diag_spec hS hherm states.length nPsiMax mode hp
  refine ⟨hsort, by simp, fun v S => p.vecs (states.idxOf S) v, ?_, ?_, ?_, ?_⟩
  · intro v hv w hw
    rw [sum_states states hnd fun _ i => star (p.vecs i v) * p.vecs i w]
    exact heig.ortho v hv w hw
  · intro v hv S hS'
    rw [sum_states states hnd fun T i => storedElement op cut S T * p.vecs i v]
    have hi := List.idxOf_lt_length_of_mem hS'
    rw [← heig.eigen v hv _ hi]
    apply Finset.sum_congr rfl
    intro j hj
    have hj' := mem_range.1 hj
    rw [hent _ j hi hj', List.getElem_idxOf, List.getD_eq_getElem _ _ hj']
  · intro y hy v hv
    have h1 := hlow (fun i => y (states.getD i ∅)) (fun w hw => by
      rw [← sum_states states hnd fun S i => star (p.vecs i w) * y S]
      exact hy w hw) v hv
    rw [← sum_states states hnd fun S _ => Complex.normSq (y S)] at h1
    refine h1.trans_eq ?_
    unfold energyOf
    congr 1
    rw [sum_states states hnd fun S _ => ∑ T ∈ states.toFinset, star (y S) * storedElement op cut S T * y T]
    refine Finset.sum_congr rfl fun i hi => ?_
    rw [sum_states states hnd fun T _ => star (y (states.getD i ∅)) * storedElement op cut (states.getD i ∅) T * y T]
    refine Finset.sum_congr rfl fun j hj => ?_
    have hi' := mem_range.1 hi
    have hj' := mem_range.1 hj
    dsimp only
    rw [hent i j hi' hj', List.getD_eq_getElem _ _ hi', List.getD_eq_getElem _ _ hj']
  · intro v hv
    simp only [List.length_map, List.length_range] at hv
    simp only [List.getElem_map, List.getElem_range]
    have hnorm : ∑ i ∈ range states.length, Complex.normSq (p.vecs i v) = 1 := by
      have := heig.ortho v hv v hv
      rw [if_pos rfl] at this
      have h2 : ((∑ i ∈ range states.length, Complex.normSq (p.vecs i v) : ℝ) : ℂ) = 1 := by
        rw [← this, Complex.ofReal_sum]
        apply Finset.sum_congr rfl
        intro i _
        rw [Complex.normSq_eq_conj_mul_self]
        rfl
      exact_mod_cast h2
    refine ⟨isState_eigenState hnd hst _ _, fun S => ampl_eigenState hnd hst _ _ S, ?_, ?_⟩
    · rw [norm2_eigenState hnd hst, ← hnorm]
      apply Finset.sum_le_sum
      intro i _
      split
      · exact le_refl _
      · exact Complex.normSq_nonneg _
    · intro hpos
      rw [norm2_eigenState hnd hst, sub_lt_iff_lt_add]
      nth_rewrite 1 [← hnorm]
      have hne : (range states.length).Nonempty := by
        by_contra hc
        rw [Finset.not_nonempty_iff_eq_empty] at hc
        rw [hc] at hnorm
        simp at hnorm
      have : (states.length : ℝ) * slaterWeightMin = ∑ _i ∈ range states.length, slaterWeightMin := by
        rw [Finset.sum_const, card_range, nsmul_eq_mul]
      rw [this, ← Finset.sum_add_distrib]
      apply Finset.sum_lt_sum_of_nonempty hne
      intro i _
      split
      · linarith
      · linarith

/-- C51, errors: only an unknown mode and a failure of `eigsh` make
`eigensystem` raise. -/
theorem C51_returns (S : EigenSolver) (hS : SolverCorrect S) (n : ℕ) (op : Op ℕ ℂ)
    (hop : OpInSystem n op) (hdict : Dict.NodupKeys op) (hh : isHermitianOp op) (cut : ℝ)
    (states : List (Finset ℕ)) (hnd : states.Nodup) (hst : ∀ S ∈ states, S ⊆ range n)
    (nPsiMax : ℕ) (slaterWeightMin : ℝ) (ranks : ℕ) (hr : 0 < ranks) :
    (∃ es psis, eigensystem S n op cut (states.map (encBytes n)) nPsiMax .full slaterWeightMin ranks
      = .ok (es, psis) ∧ es.length = min nPsiMax states.length) ∧
    eigensystem S n op cut (states.map (encBytes n)) nPsiMax .other slaterWeightMin ranks
      = .error .unboundLocalError := by
  obtain ⟨H, hH, -, -⟩ := C21_matrix_elements n op hop cut states hnd hst .sparseMPI ranks hr
  have hherm : ∀ i j, H i j = star (H j i) := by
    obtain ⟨H', hH', hs⟩ := C19_matrix_hermitian n op hop hdict hh cut states hnd hst .sparseMPI ranks hr
    rw [hH] at hH'
    cases hH'
    exact hs
  unfold eigensystem
  rw [hH]
  refine ⟨⟨_, _, rfl, ?_⟩, rfl⟩
  obtain ⟨-, -, h3⟩ := hS.eigh H states.length hherm
  simp [diagFull, h3]

/-! ### C52 -/

theorem foldlM_cut (a : ℝ) (l : List ℝ) (cut : ℝ) (es kept : List ℝ) :
    es.foldlM (fun (kept : List ℝ) e => (do
      let e0 ← pyGet (a :: l) 0
      return if e - e0 < cut then kept ++ [e] else kept : Py (List ℝ))) kept
      = .ok (kept ++ es.filter fun e => decide (e - a < cut)) := by
  have hg : pyGet (a :: l) 0 = .ok a := by
    have : ((0 : ℤ) < ((a :: l).length : ℤ)) := by simp
    simp only [pyGet, pyIndex, le_refl, if_true, this]
    rfl
  induction es generalizing kept with
  | nil => simp [pure, Except.pure]
  | cons e es ih =>
    rw [List.foldlM_cons, List.filter_cons]
    simp only [hg, bind, Except.bind, pure, Except.pure] at ih ⊢
    rw [ih]
    by_cases h : e - a < cut <;> simp [h]

theorem filter_eq_take {Q : Type} (c : ℝ) : ∀ (es : List ℝ) (psis : List Q), es.Pairwise (· ≤ ·) →
    psis.length = es.length →
    (es.zip psis).filter (fun p => decide (p.1 < c))
      = (es.filter fun e => decide (e < c)).zip (psis.take (es.filter fun e => decide (e < c)).length) := by
  intro es
  induction es with
  | nil => intro psis _ _; simp
  | cons e es ih =>
    intro psis hs hl
    cases psis with
    | nil => simp at hl
    | cons q psis =>
      rw [List.pairwise_cons] at hs
      by_cases h : e < c
      · simp only [List.zip_cons_cons, List.filter_cons, h, decide_true, if_true, List.length_cons, List.take_succ_cons]
        rw [ih psis hs.2 (by simpa using hl)]
      · have hz : ∀ x ∈ es, ¬ x < c := fun x hx => not_lt.2 ((not_lt.1 h).trans (hs.1 x hx))
        have e1 : es.filter (fun e => decide (e < c)) = [] := by
          rw [List.filter_eq_nil_iff]
          intro x hx
          simpa using hz x hx
        have e2 : (es.zip psis).filter (fun p => decide (p.1 < c)) = [] := by
          rw [List.filter_eq_nil_iff]
          rintro ⟨x, y⟩ hx
          simpa using hz x (List.of_mem_zip hx).1
        simp [h, e1, e2]

theorem mapM_pyGet_take {Q : Type} (psis : List Q) (k : ℕ) (hk : k ≤ psis.length) :
    (List.range k).mapM (fun (i : ℕ) => (pyGet psis (i : ℤ) : Py Q)) = .ok (psis.take k) := by
  have hm : ∀ l : List ℕ, (∀ i ∈ l, i < psis.length) → l.mapM (fun (i : ℕ) => (pyGet psis (i : ℤ) : Py Q))
      = .ok (l.filterMap fun i => psis[i]?) := by
    intro l hl
    induction l with
    | nil => rfl
    | cons i l ih =>
      have hi := hl i (by simp)
      have hg : pyGet psis (i : ℤ) = .ok psis[i] := by simp [pyGet, pyIndex, hi]
      rw [List.mapM_cons, hg, ih fun j hj => hl j (by simp [hj])]
      simp [hi, bind, Except.bind, pure, Except.pure]
  rw [hm _ fun i hi => lt_of_lt_of_le (List.mem_range.1 hi) hk]
  congr 1
  clear hm
  induction k with
  | zero => simp
  | succ k ih =>
    rw [List.range_succ, List.filterMap_append, ih (by omega), List.take_add_one]
    have : k < psis.length := by omega
    simp [this]

/-- C51.  With the Lanczos method there are exactly as many energies as asked for; with the full
diagonalisation as many as asked for, or as there are basis states. -/
theorem C51_count (S : EigenSolver) (hS : SolverCorrect S) (n : ℕ) (op : Op ℕ ℂ)
    (hop : OpInSystem n op) (hdict : Dict.NodupKeys op) (hh : isHermitianOp op) (cut : ℝ)
    (states : List (Finset ℕ)) (hnd : states.Nodup) (hst : ∀ S ∈ states, S ⊆ range n)
    (nPsiMax : ℕ) (mode : DiagMode) (slaterWeightMin : ℝ) (ranks : ℕ) (hr : 0 < ranks)
    (es : List ℝ) (psis : List (Psi ℂ))
    (h : eigensystem S n op cut (states.map (encBytes n)) nPsiMax mode slaterWeightMin ranks = .ok (es, psis)) :
    es.length = match mode with
      | .full => min nPsiMax states.length
      | _ => nPsiMax := by
  obtain ⟨H, hH, hs⟩ := C19_matrix_hermitian n op hop hdict hh cut states hnd hst .sparseMPI ranks hr
  unfold eigensystem at h
  rw [hH] at h
  simp only [bind, Except.bind, List.length_map] at h
  split at h
  · cases h
  rename_i p hp
  cases h
  cases mode with
  | full =>
    cases hp
    simp [diagFull, (hS.eigh H states.length hs).2.2]
  | other => cases hp
  | lanczos =>
    unfold diagLanczos at hp
    simp only [bind, Except.bind] at hp
    split at hp
    · cases hp
    rename_i q hq
    split at hp
    · cases hp
    rename_i es' hes
    cases hp
    obtain ⟨-, hl, -⟩ := hS.eigsh H states.length nPsiMax q hs hq
    show es'.length = nPsiMax
    rw [← hl, ← List.length_range (n := q.es.length), ← (hS.argsort q.es).1.length_eq]
    exact ((OkIn.mapM (P := fun _ => True) _ fun _ _ => OkIn.true) _ hes).1

/-- C52.  For energies in ascending order, the pairs of energy and state that main
goes on with are exactly the pairs whose energy is less than the cut above the
lowest energy, in the same order. -/
theorem C52_energy_cut {Q : Type} (es : List ℝ) (psis : List Q) (hsort : es.Pairwise (· ≤ ·))
    (hlen : psis.length = es.length) (cut lowest : ℝ) (hmem : lowest ∈ es) (hmin : ∀ e ∈ es, lowest ≤ e) :
    ∃ es' psis', energyCut es psis cut = .ok (es', psis') ∧ psis'.length = es'.length ∧
      es'.zip psis' = (es.zip psis).filter (fun p => decide (p.1 - lowest < cut)) := by
  cases es with
  | nil => cases hmem
  | cons a l =>
    have ha : a = lowest := by
      refine le_antisymm ?_ (hmin a (by simp))
      rw [List.pairwise_cons] at hsort
      rcases List.mem_cons.1 hmem with rfl | h
      · exact le_refl _
      · exact hsort.1 _ h
    subst ha
    set es' := (a :: l).filter fun e => decide (e - a < cut) with hes'
    have hle : es'.length ≤ psis.length := by rw [hlen]; exact List.length_filter_le _ _
    refine ⟨es', psis.take es'.length, ?_, by simp [hle], ?_⟩
    · unfold energyCut
      rw [foldlM_cut a l cut (a :: l) [], List.nil_append, ← hes']
      simp only [bind, Except.bind]
      rw [mapM_pyGet_take psis _ hle]
      rfl
    · have hfe : ∀ e : ℝ, (e - a < cut) ↔ e < cut + a := fun e => sub_lt_iff_lt_add
      simp only [hfe] at hes' ⊢
      rw [hes', ← filter_eq_take (cut + a) (a :: l) psis hsort hlen]

/-- C52, why the order matters: for energies that are not ascending the states
kept are not those of the energies kept. -/
theorem C52_needs_order : energyCut [1, 5, 0] ["a", "b", "c"] 2 = .ok ([1, 0], ["a", "b"]) := by
  unfold energyCut
  rw [foldlM_cut 1 [5, 0] 2 [1, 5, 0] []]
  have : ([1, 5, 0] : List ℝ).filter (fun e => decide (e - 1 < 2)) = [1, 0] := by
    norm_num [List.filter_cons]
  rw [this]
  rfl

/-- C51 and C52 together: after the cut the energies are those of `eigensystem`
that are low enough, each with its state. -/
theorem C52_after_eigensystem (S : EigenSolver) (hS : SolverCorrect S) (n : ℕ) (op : Op ℕ ℂ)
    (hop : OpInSystem n op) (hdict : Dict.NodupKeys op) (hh : isHermitianOp op) (cut : ℝ)
    (states : List (Finset ℕ)) (hnd : states.Nodup) (hst : ∀ S ∈ states, S ⊆ range n)
    (nPsiMax : ℕ) (mode : DiagMode) (slaterWeightMin : ℝ) (ranks : ℕ) (hr : 0 < ranks)
    (es : List ℝ) (psis : List (Psi ℂ))
    (h : eigensystem S n op cut (states.map (encBytes n)) nPsiMax mode slaterWeightMin ranks = .ok (es, psis))
    (energy_cut lowest : ℝ) (hmem : lowest ∈ es) (hmin : ∀ e ∈ es, lowest ≤ e) :
    ∃ es' psis', energyCut es psis energy_cut = .ok (es', psis') ∧ psis'.length = es'.length ∧
      es'.zip psis' = (es.zip psis).filter (fun p => decide (p.1 - lowest < energy_cut)) := by
  obtain ⟨h1, h2, -⟩ := C51_eigensystem S hS n op hop hdict hh cut states hnd hst nPsiMax mode
    slaterWeightMin ranks hr es psis h
  exact C52_energy_cut es psis h1 h2 energy_cut lowest hmem hmin

example : ∃ es' psis', energyCut [0, 1, 3] ["a", "b", "c"] 2 = .ok (es', psis') ∧
    es'.zip psis' = [(0, "a"), (1, "b")] := by
  obtain ⟨es', psis', h, -, hz⟩ := C52_energy_cut [0, 1, 3] ["a", "b", "c"] (by norm_num [List.pairwise_cons])
    rfl 2 0 (by simp) (by norm_num)
  refine ⟨es', psis', h, hz.trans ?_⟩
  norm_num [List.filter_cons]

/-- Every Hermitian matrix has eigenpairs as numpy promises them. -/
theorem exists_eigenOf (H : Mat ℂ) (d : ℕ) (hH : ∀ i j, H i j = star (H j i)) :
    ∃ p, EigenOf H d p ∧ p.es.Pairwise (· ≤ ·) ∧ p.es.length = d := by
  let A : Matrix (Fin d) (Fin d) ℂ := fun i j => H i j
  have hA : A.IsHermitian := by
    ext i j
    exact (hH i j).symm
  let σ := Tuple.sort hA.eigenvalues
  have hmono : Monotone (hA.eigenvalues ∘ σ) := Tuple.monotone_sort _
  refine ⟨⟨List.ofFn (hA.eigenvalues ∘ σ), fun i v => if h : i < d ∧ v < d then
    hA.eigenvectorBasis (σ ⟨v, h.2⟩) ⟨i, h.1⟩ else 0⟩, ⟨?_, ?_⟩, ?_, by simp⟩
  · intro v hv i hi
    simp only [List.length_ofFn] at hv
    have := congrFun (hA.mulVec_eigenvectorBasis (σ ⟨v, hv⟩)) ⟨i, hi⟩
    simp only [Matrix.mulVec, dotProduct, Pi.smul_apply] at this
    rw [Finset.sum_range]
    simp only [hv, hi, and_self, and_true, dif_pos, Fin.is_lt, List.getElem_ofFn]
    refine this.trans ?_
    rw [Complex.real_smul]
    rfl
  · intro v hv w hw
    simp only [List.length_ofFn] at hv hw
    have := orthonormal_iff_ite.1 hA.eigenvectorBasis.orthonormal (σ ⟨v, hv⟩) (σ ⟨w, hw⟩)
    rw [EuclideanSpace.inner_eq_star_dotProduct] at this
    rw [Finset.sum_range]
    simp only [hv, hw, and_true, dif_pos, Fin.is_lt]
    have h2 : (σ ⟨v, hv⟩ = σ ⟨w, hw⟩) ↔ v = w := by simp
    simp only [h2] at this
    rw [← this, dotProduct]
    apply Finset.sum_congr rfl
    intro i _
    rw [mul_comm]
    rfl
  · rw [List.pairwise_ofFn]
    intro i j hij
    exact hmono hij.le

/-- A correct solver from eigenpairs. -/
theorem solver_of {eigh : Mat ℂ → ℕ → EigenPairs} (heigh : ∀ H d, (∀ i j, H i j = star (H j i)) →
      EigenOf H d (eigh H d) ∧ (eigh H d).es.Pairwise (· ≤ ·) ∧ (eigh H d).es.length = d) :
    ∃ S, SolverCorrect S ∧ (∀ H d k, k < d → ∃ p, S.eigsh H d k = .ok p) ∧
      ∀ H d k p, S.eigsh H d k = .ok p → p.vecs = (eigh H d).vecs ∧ p.es = (eigh H d).es.take k := by
  refine ⟨⟨eigh, fun H d k => if k < d then .ok ⟨(eigh H d).es.take k, (eigh H d).vecs⟩ else .error .valueError,
    fun l => (List.range l.length).insertionSort fun i j => l.getD i 0 ≤ l.getD j 0⟩, ⟨heigh, ?_, ?_⟩,
    fun H d k hk => ⟨_, if_pos hk⟩, ?_⟩
  · intro H d k p hH h
    simp only at h
    split at h
    · rename_i hk
      cases h
      obtain ⟨h1, h2, h3⟩ := heigh H d hH
      refine ⟨⟨?_, ?_⟩, by simp [h3, hk.le], isLowest_take h1 h3 h2 k⟩
      · intro v hv i hi
        simp only [List.length_take, lt_min_iff] at hv
        rw [h1.eigen v hv.2 i hi]
        simp
      · intro v hv w hw
        simp only [List.length_take, lt_min_iff] at hv hw
        exact h1.ortho v hv.2 w hw.2
    · cases h
  · intro l
    refine ⟨List.perm_insertionSort _ _, ?_⟩
    rw [List.pairwise_map]
    have : Std.Total (fun i j : ℕ => l.getD i 0 ≤ l.getD j 0) := ⟨fun i j => le_total _ _⟩
    have : IsTrans ℕ (fun i j : ℕ => l.getD i 0 ≤ l.getD j 0) := ⟨fun i j k => le_trans⟩
    exact List.pairwise_insertionSort _ _
  · intro H d k p h
    simp only at h
    split at h
    · cases h
      exact ⟨rfl, rfl⟩
    · cases h

/-- A correct solver exists; it finds any number of states less than the dimension. -/
theorem exists_solver : ∃ S, SolverCorrect S ∧ ∀ H d k, k < d → ∃ p, S.eigsh H d k = .ok p := by
  classical
  have hch : ∀ (H : Mat ℂ) (d : ℕ), ∃ p : EigenPairs, (∀ i j, H i j = star (H j i)) →
      EigenOf H d p ∧ p.es.Pairwise (· ≤ ·) ∧ p.es.length = d := by
    intro H d
    by_cases hH : ∀ i j, H i j = star (H j i)
    · obtain ⟨p, hp⟩ := exists_eigenOf H d hH
      exact ⟨p, fun _ => hp⟩
    · exact ⟨⟨[], fun _ _ => 0⟩, fun h => absurd h hH⟩
  choose eigh heigh using hch
  obtain ⟨S, h1, h2, -⟩ := solver_of heigh
  exact ⟨S, h1, h2⟩

/-- A correct solver exists, so the hypothesis of C51 can be met. -/
theorem exists_solverCorrect : ∃ S, SolverCorrect S := exists_solver.imp fun _ h => h.1

/-- The Hermitian operator `c†_0 c_1 + c†_1 c_0` in the basis `{0}, {1}`: two
states come back. -/
def exHop : Op ℕ ℂ := [([(0, .c), (1, .a)], 1), ([(1, .c), (0, .a)], 1)]

theorem exHop_inSystem : OpInSystem 2 exHop := by
  intro q hq x hx
  simp only [exHop, List.mem_cons, List.not_mem_nil, or_false] at hq
  rcases hq with rfl | rfl <;> simp at hx <;> rcases hx with rfl | rfl <;> norm_num

theorem exHop_nodup : Dict.NodupKeys exHop := by simp [Dict.NodupKeys, Dict.keys, exHop]

theorem exHop_hermitian : isHermitianOp exHop := by
  intro k
  simp only [exHop, daggerOp, List.foldl_cons, List.foldl_nil, Dict.set, List.reverse_cons, List.reverse_nil,
    List.nil_append, List.cons_append, List.map_cons, List.map_nil, Action.dagger, star_one, Dict.get?_cons, Dict.get?_nil]
  by_cases ha : k = [(0, .c), (1, .a)] <;> by_cases hb : k = [(1, .c), (0, .a)] <;> simp_all [Dict.get?_cons, eq_comm]

example : ∃ S, SolverCorrect S ∧ ∃ es psis,
    eigensystem S 2 exHop 1e-12 ([{0}, {1}].map (encBytes 2)) 5 .full 1e-7 3 = .ok (es, psis) ∧ es.length = 2 := by
  obtain ⟨S, hS⟩ := exists_solverCorrect
  have h1 := exHop_inSystem
  have h2 := exHop_nodup
  have h3 := exHop_hermitian
  obtain ⟨⟨es, psis, h, hl⟩, -⟩ := C51_returns S hS 2 exHop h1 h2 h3 1e-12 [{0}, {1}] (by decide) (by decide)
    5 1e-7 3 (by norm_num)
  exact ⟨S, hS, es, psis, h, by simpa using hl⟩

end Verif
