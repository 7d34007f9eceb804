/-
C88: energies and states from an eigensolver that stops at a small residual.
-/
import Verif.Lemmas.InexactOrder
import Verif.Prop.Perturb
import Verif.Prop.Cutoff

namespace Verif

open Finset Mpi Psr Spec

noncomputable section

/-- The diagonalisation returns normalised vectors with small residuals, in ascending order of their energies; with
Lanczos and a complete solver also orthogonal vectors, and no state is missing. -/
theorem diag_near {S : EigenSolver} {δ : ℝ → ℝ} (hS : SolverWithin S δ) {H : Mat ℂ} (hH : ∀ i j, H i j = star (H j i))
    (d nPsiMax : ℕ) (mode : DiagMode) {p : EigenPairs}
    (h : (match mode with
      | .full => .ok (diagFull S H d nPsiMax)
      | .lanczos => diagLanczos S H d nPsiMax
      | .other => .error .unboundLocalError : Py EigenPairs) = .ok p) :
    NearEigen H d δ p ∧ p.es.Pairwise (· ≤ ·) ∧ (mode = .lanczos → p.es.length = nPsiMax) ∧
    (mode = .lanczos → SolverComplete S δ →
      (∀ v < p.es.length, ∀ w < p.es.length, ∑ i ∈ range d, star (p.vecs i v) * p.vecs i w = if v = w then 1 else 0) ∧
      ∀ y : ℕ → ℂ, (∀ v < p.es.length, ∑ i ∈ range d, star (p.vecs i v) * y i = 0) → ∀ v (hv : v < p.es.length),
        (p.es[v] - δ p.es[v]) * ∑ i ∈ range d, Complex.normSq (y i) ≤ energyOf H d y) := by
  cases mode with
  | full =>
    cases h
    obtain ⟨h1, h2, h3⟩ := hS.eigh H d hH
    unfold diagFull
    refine ⟨⟨?_, ?_⟩, h2.sublist (List.take_sublist _ _), (fun hm => nomatch hm), (fun hm => nomatch hm)⟩
    · intro v hv
      simp only [List.length_take, lt_min_iff] at hv
      exact h1.unit v hv.2
    · intro v hv
      simp only [List.length_take, lt_min_iff] at hv
      have := h1.residual v hv.2
      simpa using this
  | lanczos =>
    simp only [diagLanczos, bind, Except.bind] at h
    cases hq : S.eigsh H d nPsiMax with
    | error e => rw [hq] at h; cases h
    | ok q =>
      rw [hq] at h
      simp only at h
      obtain ⟨h1, hlenq⟩ := hS.eigsh H d nPsiMax q hH hq
      obtain ⟨h2, h3⟩ := hS.argsort q.es
      have hlt : ∀ i ∈ S.argsort q.es, i < q.es.length := fun i hi => List.mem_range.1 (h2.mem_iff.1 hi)
      have hm : ∀ l : List ℕ, (∀ i ∈ l, i < q.es.length) →
          l.mapM (fun (i : ℕ) => (pyGet q.es (i : ℤ) : Py ℝ)) = .ok (l.map fun i => q.es.getD i 0) := by
        intro l hl
        induction l with
        | nil => rfl
        | cons i l ih =>
          have hi := hl i (by simp)
          have hg : pyGet q.es (i : ℤ) = .ok (q.es.getD i 0) := by
            simp [pyGet, pyIndex, hi]
          rw [List.mapM_cons, hg, ih fun j hj => hl j (by simp [hj])]
          rfl
      rw [hm _ hlt] at h
      cases h
      have hlen : (S.argsort q.es).length = q.es.length := by rw [h2.length_eq, List.length_range]
      have hlt' : ∀ v < (S.argsort q.es).length, (S.argsort q.es).getD v 0 < q.es.length := by
        intro v hv
        rw [List.getD_eq_getElem _ _ hv]
        exact hlt _ (List.getElem_mem _)
      have hval : ∀ v (hv : v < (S.argsort q.es).length),
          q.es.getD (S.argsort q.es)[v] 0 = q.es[(S.argsort q.es).getD v 0]'(hlt' v hv) := by
        intro v hv
        rw [List.getD_eq_getElem _ _ (hlt _ (List.getElem_mem hv))]
        congr 1
        exact (List.getD_eq_getElem _ _ hv).symm
      refine ⟨⟨?_, ?_⟩, h3, fun _ => by rw [List.length_map, hlen, hlenq], fun _ hC => ⟨?_, ?_⟩⟩
      · intro v hv
        simp only [List.length_map] at hv
        exact h1.unit _ (hlt' v hv)
      · intro v hv
        simp only [List.length_map] at hv
        simp only [List.getElem_map]
        rw [hval v hv]
        exact h1.residual _ (hlt' v hv)
      · intro v hv w hw
        simp only [List.length_map] at hv hw
        have := hC.ortho H d nPsiMax q hH hq _ (hlt' v hv) _ (hlt' w hw)
        simp only at this ⊢
        rw [this]
        have hnd : (S.argsort q.es).Nodup := h2.nodup_iff.2 List.nodup_range
        have : ((S.argsort q.es).getD v 0 = (S.argsort q.es).getD w 0) ↔ v = w := by
          rw [List.getD_eq_getElem _ _ hv, List.getD_eq_getElem _ _ hw]
          exact hnd.getElem_inj_iff
        simp only [this]
      · intro y hy v hv
        simp only [List.length_map] at hv hy
        simp only [List.getElem_map]
        rw [hval v hv]
        refine hC.low H d nPsiMax q hH hq y (fun w hw => ?_) _ _
        obtain ⟨u, hu, rfl⟩ := List.mem_iff_getElem.1 (h2.mem_iff.2 (List.mem_range.2 hw))
        have := hy u hu
        rwa [List.getD_eq_getElem _ _ hu] at this
  | other => cases h

/-- A correct solver has no residual and misses nothing. -/
theorem SolverCorrect.within {S : EigenSolver} (hS : SolverCorrect S) : SolverWithin S (fun _ => 0) ∧ SolverComplete S (fun _ => 0) := by
  have key : ∀ {H : Mat ℂ} {d : ℕ} {p : EigenPairs}, EigenOf H d p → NearEigen H d (fun _ => 0) p := by
    intro H d p hp
    refine ⟨fun v hv => ?_, fun v hv => ?_⟩
    · have h1 := hp.ortho v hv v hv
      rw [if_pos rfl] at h1
      have h2 : ((∑ i ∈ range d, Complex.normSq (p.vecs i v) : ℝ) : ℂ) = 1 := by
        rw [← h1, Complex.ofReal_sum]
        exact sum_congr rfl fun i _ => Complex.normSq_eq_conj_mul_self
      exact_mod_cast h2
    · rw [sum_eq_zero fun i hi => ?_]
      · norm_num
      · rw [hp.eigen v hv i (mem_range.1 hi), sub_self, Complex.normSq_zero]
  refine ⟨⟨fun _ => le_rfl, fun H d hH => ?_, fun H d k p hH h => ?_, hS.argsort⟩, ⟨fun H d k p hH h => ?_, fun H d k p hH h y hy v hv => ?_⟩⟩
  · obtain ⟨h1, h2, h3⟩ := hS.eigh H d hH
    exact ⟨key h1, h2, h3⟩
  · obtain ⟨h1, h2, -⟩ := hS.eigsh H d k p hH h
    exact ⟨key h1, h2⟩
  · exact (hS.eigsh H d k p hH h).1.ortho
  · have := (hS.eigsh H d k p hH h).2.2 y hy v hv
    rwa [sub_zero]

theorem stored_column {s : Finset (Finset ℕ)} (op : Op ℕ ℂ) (cut : ℝ) (T : Finset ℕ) :
    ∑ S ∈ s, ‖storedElement op cut S T - matrixElement op S T‖ ≤ op.length * Real.sqrt cut := by
  have h := dropped_column s op (cut := cut) none T
  refine le_trans (le_of_eq (sum_congr rfl fun S _ => ?_)) h
  have h0 : (0 : ℝ) ≤ abs2 (matrixElement op S T) := Complex.normSq_nonneg _
  unfold storedElement column
  simp only [AllowedOpt, true_and, h0, if_true]

section
variable {n : ℕ} {op : Op ℕ ℂ} (hop : OpInSystem n op) (hdict : Dict.NodupKeys op) (hh : isHermitianOp op) {cut : ℝ}
  {solver : EigenSolver} {δ : ℝ → ℝ} (hS : SolverWithin solver δ)
  {states : List (Finset ℕ)} (hnd : states.Nodup) (hst : ∀ S ∈ states, S ⊆ range n) {nPsiMax : ℕ}
  {mode : DiagMode} {weight : ℝ} {ranks : ℕ} (hr : 0 < ranks) {es : List ℝ} {psis : List (Psi ℂ)}

include hop hdict hh hS hnd hst hr in
/-- What `eigensystem` returns with an inexact solver. -/
theorem eigensystem_near
    (h : eigensystem solver n op cut (states.map (encBytes n)) nPsiMax mode weight ranks = .ok (es, psis)) :
    (mode = .lanczos → es.length = nPsiMax) ∧ es.Pairwise (· ≤ ·) ∧ psis.length = es.length ∧
    ∃ x : ℕ → Finset ℕ → ℂ,
      (∀ v < es.length, ∑ S ∈ states.toFinset, Complex.normSq (x v S) = 1) ∧
      (∀ v (hv : v < es.length), ∑ S ∈ states.toFinset,
        Complex.normSq (∑ T ∈ states.toFinset, storedElement op cut S T * x v T - es[v] * x v S) ≤ δ es[v] ^ 2) ∧
      (∀ v (hv : v < psis.length), IsState n psis[v] ∧
        ∀ S, ampl n psis[v] S = if S ∈ states ∧ weight ≤ Complex.normSq (x v S) then x v S else 0) ∧
      (mode = .lanczos → SolverComplete solver δ →
        (∀ v < es.length, ∀ w < es.length, ∑ S ∈ states.toFinset, star (x v S) * x w S = if v = w then 1 else 0) ∧
        ∀ y : Finset ℕ → ℂ, (∀ v < es.length, ∑ S ∈ states.toFinset, star (x v S) * y S = 0) → ∀ v (hv : v < es.length),
          (es[v] - δ es[v]) * ∑ S ∈ states.toFinset, Complex.normSq (y S)
            ≤ (∑ S ∈ states.toFinset, ∑ T ∈ states.toFinset, star (y S) * storedElement op cut S T * y T).re) := by
  obtain ⟨H, hH, hent, hout⟩ := C21_matrix_elements n op hop cut states hnd hst .sparseMPI ranks hr
  have hherm : ∀ i j, H i j = star (H j i) := by
    obtain ⟨H', hH', hs⟩ := C19_matrix_hermitian n op hop hdict hh cut states hnd hst .sparseMPI ranks hr
    rw [hH] at hH'
    cases hH'
    exact hs
  unfold eigensystem at h
  rw [hH] at h
  simp only [bind, Except.bind, List.length_map] at h
  split at h
  · cases h
  rename_i p hp
  cases h
  obtain ⟨hnear, hsort, hlen, hcomp⟩ := diag_near hS hherm states.length nPsiMax mode hp
  refine ⟨hlen, hsort, by simp, fun v S => p.vecs (states.idxOf S) v, ?_, ?_, ?_, fun hm hC => ⟨?_, ?_⟩⟩
  · intro v hv
    rw [sum_states states hnd fun _ i => Complex.normSq (p.vecs i v)]
    exact hnear.unit v hv
  · intro v hv
    have h1 := hnear.residual v hv
    rw [sum_states states hnd fun S i => Complex.normSq
      (∑ T ∈ states.toFinset, storedElement op cut S T * p.vecs (states.idxOf T) v - p.es[v] * p.vecs i v)]
    refine le_trans (le_of_eq (sum_congr rfl fun i hi => ?_)) h1
    have hi' := mem_range.1 hi
    rw [sum_states states hnd fun T j => storedElement op cut (states.getD i ∅) T * p.vecs j v]
    congr 2
    refine sum_congr rfl fun j hj => ?_
    have hj' := mem_range.1 hj
    rw [hent i j hi' hj', List.getD_eq_getElem _ _ hi', List.getD_eq_getElem _ _ hj']
  · intro v hv
    simp only [List.length_map, List.length_range] at hv
    simp only [List.getElem_map, List.getElem_range]
    exact ⟨isState_eigenState hnd hst _ _, fun S => ampl_eigenState hnd hst _ _ S⟩
  · intro v hv w hw
    rw [sum_states states hnd fun _ i => star (p.vecs i v) * p.vecs i w]
    exact (hcomp hm hC).1 v hv w hw
  · intro y hy v hv
    have h1 := (hcomp hm hC).2 (fun i => y (states.getD i ∅)) (fun w hw => by
      rw [← sum_states states hnd fun S i => star (p.vecs i w) * y S]
      exact hy w hw) v hv
    rw [← sum_states states hnd fun S _ => Complex.normSq (y S)] at h1
    refine h1.trans_eq ?_
    unfold energyOf
    congr 1
    rw [sum_states states hnd fun S _ => ∑ T ∈ states.toFinset, star (y S) * storedElement op cut S T * y T]
    refine Finset.sum_congr rfl fun i hi => ?_
    rw [sum_states states hnd fun T _ => star (y (states.getD i ∅)) * storedElement op cut (states.getD i ∅) T * y T]
    refine Finset.sum_congr rfl fun j hj => ?_
    have hi' := mem_range.1 hi
    have hj' := mem_range.1 hj
    dsimp only
    rw [hent i j hi' hj', List.getD_eq_getElem _ _ hi', List.getD_eq_getElem _ _ hj']

include hop hdict hh hS hnd hst hr in
/-- C88.  Whatever solver is used: the states are normalised vectors without their small components, and for the operator
without cutoff their residual is at most that of the solver plus the effect of the dropped matrix elements. -/
theorem C88_near_states
    (h : eigensystem solver n op cut (states.map (encBytes n)) nPsiMax mode weight ranks = .ok (es, psis)) :
    NearStates n op cut weight δ states.toFinset es psis := by
  obtain ⟨-, h1, h2, x, h3, h4, h5, -⟩ := eigensystem_near hop hdict hh hS hnd hst hr h
  have hst' : ∀ S ∈ states.toFinset, S ⊆ range n := fun S hS => hst S (List.mem_toFinset.1 hS)
  refine ⟨h1, h2, x, h3, fun v hv => ?_, fun v hv => ⟨(h5 v hv).1, fun S => by rw [(h5 v hv).2 S]; simp only [List.mem_toFinset]⟩⟩
  exact residual_close (storedElement_hermitian hdict hop hh cut hst')
    (fun S hS T hT => matrixElement_hermitian hdict hop hh (hst' S hS) (hst' T hT)) (by positivity)
    (fun T _ => stored_column op cut T) (h3 v hv) (hS.nonneg _) (h4 v hv)

end

section
variable {n : ℕ} {op : Op ℕ ℂ} (hop : OpInSystem n op) (hdict : Dict.NodupKeys op) (hh : isHermitianOp op) {cut weight : ℝ}
  {δ : ℝ → ℝ} (hδ : ∀ e, 0 ≤ δ e) {states : Finset (Finset ℕ)} (hst : ∀ S ∈ states, S ⊆ range n) {es : List ℝ}
  {psis : List (Psi ℂ)} (h : NearStates n op cut weight δ states es psis)

theorem onStates_eigenvector {s : Finset (Finset ℕ)} {m : Finset ℕ → Finset ℕ → ℂ} {lam : ℝ} {z : EuclideanSpace ℂ s} (hz : ‖z‖ = 1)
    (he : matrixOn s m z = (lam : ℂ) • z) : ∃ y, IsEigenvector s m lam y ∧ z = onStates s y := by
  classical
  obtain ⟨y, rfl⟩ := onStates_surj z
  have hcut : onStates s (fun F => if F ∈ s then y F else 0) = onStates s y := by
    apply PiLp.ext
    intro S
    simp [onStates]
  refine ⟨fun F => if F ∈ s then y F else 0, ⟨fun F hF => if_neg hF, ?_, ?_⟩, hcut.symm⟩
  · rw [← norm_onStates, hcut, hz, one_pow]
  · intro F hF
    have h1 : matrixOn s m (onStates s fun F => if F ∈ s then y F else 0) = (lam : ℂ) • onStates s fun F => if F ∈ s then y F else 0 := by
      rw [hcut, he]
    rw [matrixOn_apply] at h1
    have h2 := congrArg (fun z : EuclideanSpace ℂ s => z ⟨F, hF⟩) h1
    exact h2

theorem IsEigenvector.onStates {s : Finset (Finset ℕ)} {m : Finset ℕ → Finset ℕ → ℂ} {lam : ℝ} {y : Vec ℂ}
    (H : IsEigenvector s m lam y) : matrixOn s m (onStates s y) = (lam : ℂ) • onStates s y := by
  rw [matrixOn_apply]
  apply PiLp.ext
  intro S
  exact H.eigen S.1 S.2

theorem onStates_residual {s : Finset (Finset ℕ)} {m : Finset ℕ → Finset ℕ → ℂ} {e r : ℝ} (hr : 0 ≤ r) {y : Finset ℕ → ℂ}
    (hy : ∑ S ∈ s, Complex.normSq (∑ T ∈ s, m S T * y T - e * y S) ≤ r ^ 2) :
    ‖matrixOn s m (onStates s y) - (e : ℂ) • onStates s y‖ ≤ r := by
  rw [← norm_onStates] at hy
  refine le_trans (le_of_eq ?_) (le_of_sq_le_sq hy hr)
  congr 1
  rw [matrixOn_apply]
  apply PiLp.ext
  intro S
  rfl

include hop hdict hh hδ hst h in
/-- C88.  Every energy is close to an eigenvalue of the operator without cutoff: the distance is at most the residual plus
the effect of the dropped matrix elements. -/
theorem C88_each_energy (v : ℕ) (hv : v < es.length) :
    ∃ lam y, IsEigenvector states (matrixElement op) lam y ∧ |es[v] - lam| ≤ δ es[v] + op.length * Real.sqrt cut := by
  obtain ⟨-, -, x, h3, h4, -⟩ := h
  have hr0 : 0 ≤ δ es[v] + op.length * Real.sqrt cut := add_nonneg (hδ _) (by positivity)
  have hn : ‖onStates states (x v)‖ = 1 := by
    have := norm_onStates (s := states) (x v)
    rw [h3 v hv] at this
    nlinarith [norm_nonneg (onStates states (x v))]
  obtain ⟨lam, z, h5, h6, h7⟩ := near_eigenvalue hn (onStates_residual hr0 (h4 v hv))
    (matrixOn_symmetric fun S hS T hT => matrixElement_hermitian hdict hop hh (hst S hS) (hst T hT))
  obtain ⟨y, hy, -⟩ := onStates_eigenvector h5 h6
  exact ⟨lam, y, hy, by rw [abs_sub_comm]; exact h7⟩

include hop hdict hh hδ hst h in
/-- C88.  If the only eigenvalue closer than `g` to the energy of a state is `lam`, there is an eigenvector for `lam` close to
the state. -/
theorem C88_each_state (hw : 0 ≤ weight) (v : ℕ) (hv : v < es.length) (hv' : v < psis.length) {lam g : ℝ}
    (hiso : Isolated states (matrixElement op) es[v] lam g) (hg : δ es[v] + op.length * Real.sqrt cut < g) :
    ∃ y, IsEigenvector states (matrixElement op) lam y ∧
      Spec.normSq n (ampl n psis[v] - y) ≤ stateError (δ es[v] + op.length * Real.sqrt cut) g states.card weight ^ 2 := by
  classical
  obtain ⟨-, -, x, h3, h4, h5⟩ := h
  have hr0 : 0 ≤ δ es[v] + op.length * Real.sqrt cut := add_nonneg (hδ _) (by positivity)
  have hn : ‖onStates states (x v)‖ = 1 := by
    have := norm_onStates (s := states) (x v)
    rw [h3 v hv] at this
    nlinarith [norm_nonneg (onStates states (x v))]
  obtain ⟨z, h6, h7, h8⟩ := near_eigenvector hn (onStates_residual hr0 (h4 v hv))
    (matrixOn_symmetric fun S hS T hT => matrixElement_hermitian hdict hop hh (hst S hS) (hst T hT)) hg
    (fun mu z h1 h2 => by
      obtain ⟨y, hy, -⟩ := onStates_eigenvector h1 h2
      exact hiso mu y hy)
  obtain ⟨y, hy, rfl⟩ := onStates_eigenvector h6 h7
  refine ⟨y, hy, ?_⟩
  -- both errors, as vectors on `states`
  have hnorm : ∀ u : Vec ℂ, (∀ F, F ∉ states → u F = 0) → Spec.normSq n u = ‖onStates states u‖ ^ 2 := by
    intro u hu
    rw [norm_onStates]
    unfold Spec.normSq
    exact (sum_subset (fun F hF => mem_powerset.2 (hst F hF)) fun F _ hF => by rw [hu F hF, Complex.normSq_zero]).symm
  have hamp : ∀ F, F ∉ states → ampl n psis[v] F = 0 := fun F hF => by
    rw [(h5 v hv').2, if_neg fun h => hF h.1]
  rw [hnorm _ fun F hF => by rw [Pi.sub_apply, hamp F hF, hy.inside F hF, sub_zero]]
  have e1 : onStates states (ampl n psis[v] - y) = (onStates states (ampl n psis[v]) - onStates states (x v))
      + (onStates states (x v) - onStates states y) := by
    rw [sub_add_sub_cancel]
    rfl
  rw [e1]
  refine pow_le_pow_left₀ (norm_nonneg _) ((norm_add_le _ _).trans ?_) 2
  unfold stateError
  rw [add_comm (Real.sqrt 2 * _)]
  refine add_le_add ?_ ?_
  · refine le_of_sq_le_sq ?_ (Real.sqrt_nonneg _)
    have hp := pruned_close (n := n) (x := fun F => if F ∈ states then x v F else 0) (psi := ampl n psis[v]) hw hst
      (fun F hF => if_neg hF) (fun F => by
        rw [(h5 v hv').2]
        by_cases hF : F ∈ states
        · simp only [hF, true_and, if_true]
        · simp only [hF, false_and, if_false])
    rw [hnorm _ fun F hF => by rw [Pi.sub_apply, hamp F hF, if_neg hF, sub_zero]] at hp
    refine le_trans (le_of_eq ?_) hp
    congr 2
    apply PiLp.ext
    intro S
    simp [onStates]
  · refine le_of_sq_le_sq ?_ (mul_nonneg (Real.sqrt_nonneg _) (div_nonneg hr0 (hr0.trans hg.le)))
    rw [mul_pow, Real.sq_sqrt (by norm_num)]
    exact h8

end

section
variable {n : ℕ} {op : Op ℕ ℂ} (hop : OpInSystem n op) (hdict : Dict.NodupKeys op) (hh : isHermitianOp op) {cut : ℝ}
  {solver solver' : EigenSolver} {δ : ℝ → ℝ} (hS : SolverWithin solver δ) (hC : SolverComplete solver δ) (hS' : SolverCorrect solver')
  {states : List (Finset ℕ)} (hnd : states.Nodup) (hst : ∀ S ∈ states, S ⊆ range n) {nPsiMax nPsiMax' : ℕ}
  {mode' : DiagMode} {weight weight' : ℝ} {ranks ranks' : ℕ} (hr : 0 < ranks) (hr' : 0 < ranks') {es es' : List ℝ}
  {psis psis' : List (Psi ℂ)}

include hop hdict hh hS hC hS' hnd hst hr hr' in
/-- C88.  If the Lanczos solver also misses no state, its `i`-th energy is close to the `i`-th one of an exact
diagonalisation. -/
theorem C88_energies
    (h : eigensystem solver n op cut (states.map (encBytes n)) nPsiMax .lanczos weight ranks = .ok (es, psis))
    (h' : eigensystem solver' n op cut (states.map (encBytes n)) nPsiMax' mode' weight' ranks' = .ok (es', psis'))
    {D : ℝ} (hD : ∀ e ∈ es, δ e ≤ D) (i : ℕ) (hi : i < es.length) (hi' : i < es'.length) :
    |es[i] - es'[i]| ≤ (2 * Real.sqrt nPsiMax + 1) * D := by
  obtain ⟨hlen, hsort, -, x, h3, h4, -, h5⟩ := eigensystem_near hop hdict hh hS hnd hst hr h
  obtain ⟨h6, h7⟩ := h5 rfl hC
  obtain ⟨x', H'⟩ := eigensystem_lowest hS' hop hdict hh hr' hnd hst h'
  have hst' : ∀ S ∈ states.toFinset, S ⊆ range n := fun S hS => hst S (List.mem_toFinset.1 hS)
  have hD0 : 0 ≤ D := (hS.nonneg _).trans (hD es[i] (List.getElem_mem _))
  have hmono : Monotone fun v : Fin es.length => es[v.val] := by
    intro v w hvw
    rcases hvw.lt_or_eq with h | h
    · exact List.pairwise_iff_getElem.1 hsort _ _ _ _ h
    · rw [h]
  have hx : Orthonormal ℂ fun v : Fin es.length => onStates states.toFinset (x v.val) := by
    rw [orthonormal_iff_ite]
    intro v w
    rw [inner_onStates, h6 v v.isLt w w.isLt]
    simp only [Fin.ext_iff]
  rw [← hlen rfl]
  refine near_order (matrixOn_symmetric (storedElement_hermitian hdict hop hh cut hst')) hD0 hx (e := fun v => es[v.val])
    (fun v => ?_) hmono (fun z hz v => ?_) H'.orthonormal H'.map H'.mono H'.lowest i hi hi'
  · exact (onStates_residual (hS.nonneg _) (h4 v.val v.isLt)).trans (hD _ (List.getElem_mem _))
  · obtain ⟨y, rfl⟩ := onStates_surj z
    rw [norm_onStates, form_onStates]
    have h8 := h7 y (fun w hw => by rw [← inner_onStates]; exact hz ⟨w, hw⟩) v v.isLt
    refine le_trans (mul_le_mul_of_nonneg_right ?_ (sum_nonneg fun S _ => Complex.normSq_nonneg _)) h8
    have := hD es[v.val] (List.getElem_mem _)
    linarith

end

end

end Verif
