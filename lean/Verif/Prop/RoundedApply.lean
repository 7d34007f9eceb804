/-
C102: rounding in applyOp and in the Hamiltonian matrix.
-/
import Verif.Lemmas.RoundedApply
import Verif.Prop.RoundedStates
import Verif.Prop.Cutoff

namespace Verif

open Spec Finset

noncomputable section

variable {u : ℝ} {fl : FloatOps} {absC : ℂ → ℝ}

/-- C102, `applyOp`.  In rounded arithmetic `applyOp` returns a state.  The amplitude of every allowed product state is
that of the operator applied to the state, up to `2 (N + 2)` roundings of the sizes of the terms, `N` the number of terms
of the operator (it does not depend on the number of product states), and up to the cutoff.  Product states that no term
reaches, and those that break the restrictions, have no amplitude. -/
theorem C102_apply (hfl : Accurate u fl) (habs : AccurateAbs u absC) (hu : (1 + u) ^ 3 < 2) {n : ℕ} {op : Op ℕ ℂ}
    (hop : OpInSystem n op) {psi : Psi ℂ} (hpsi : IsState n psi) (cut : ℝ) (r : Option Restrictions) :
    ∃ psi', roundedApplyOp fl absC n op psi cut r = .ok psi' ∧ IsState n psi' ∧
      (∀ S ⊆ range n, AllowedOpt r S →
        ‖ampl n psi' S - operator (opSpec op) (ampl n psi) S‖
          ≤ 2 * relError u (op.length + 2) * absoluteAction op (ampl n psi) S + cutAmplitude u cut) ∧
      (∀ S ⊆ range n, absoluteAction op (ampl n psi) S = 0 → ampl n psi' S = 0) ∧
      ∀ S ⊆ range n, ¬ AllowedOpt r S → ampl n psi' S = 0 := by
  classical
  have hcut : 0 ≤ cutAmplitude u cut := Real.sqrt_nonneg _
  refine ⟨_, roundedApplyOp_eq hop hpsi cut r, isState_roundedApply hop hpsi cut r, fun S hS h => ?_, fun S hS h0 => ?_,
    fun S hS h => ampl_roundedApply_forbidden cut r hS h⟩
  · refine (ampl_roundedApply hfl habs hu hop hpsi cut r hS h).trans (add_le_add_right ?_ _)
    split
    · exact hcut
    · exact le_rfl
  · by_cases h : AllowedOpt r S
    · have h1 := ampl_roundedApply hfl habs hu hop hpsi cut r hS h
      have h2 := (operator_le_absoluteAction op (ampl n psi) S).trans h0.le
      rw [h0, if_pos rfl, mul_zero, add_zero, norm_le_zero_iff.1 h2, sub_zero] at h1
      exact norm_le_zero_iff.1 h1
    · exact ampl_roundedApply_forbidden cut r hS h

/-- C102, the Hamiltonian matrix.  The computed matrix exists, and the errors of its elements in each column and in each
row add up to at most `lineError`. -/
theorem C102_matrix (hfl : Accurate u fl) (habs : AccurateAbs u absC) (hu : (1 + u) ^ 3 < 2) {n : ℕ} {op : Op ℕ ℂ}
    (hop : OpInSystem n op) (cut : ℝ) {states : List (Finset ℕ)} (hnd : states.Nodup)
    (hst : ∀ S ∈ states, S ⊆ range n) :
    ∃ h, roundedDenseSerial fl absC n op cut (states.map (encBytes n)) = .ok h ∧
      (∀ i < states.length, ∀ j < states.length,
        ‖h i j - matrixElement op (states.getD i ∅) (states.getD j ∅)‖
          ≤ elementError u cut op (states.getD i ∅) (states.getD j ∅)) ∧
      (∀ j < states.length, ∑ i ∈ range states.length,
        ‖h i j - matrixElement op (states.getD i ∅) (states.getD j ∅)‖ ≤ lineError u cut op) ∧
      ∀ i < states.length, ∑ j ∈ range states.length,
        ‖h i j - matrixElement op (states.getD i ∅) (states.getD j ∅)‖ ≤ lineError u cut op := by
  classical
  obtain ⟨h, h1, h2⟩ := roundedDenseSerial_get (fl := fl) (absC := absC) hop cut hnd hst
  have hel : ∀ i < states.length, ∀ j < states.length,
      ‖h i j - matrixElement op (states.getD i ∅) (states.getD j ∅)‖
        ≤ elementError u cut op (states.getD i ∅) (states.getD j ∅) := by
    intro i hi j hj
    rw [h2 i hi j hj, List.getD_eq_getElem _ _ hi, List.getD_eq_getElem _ _ hj]
    have hT := hst _ (List.getElem_mem hj)
    have := ampl_roundedApply hfl habs hu hop (isState_single hT (1 : ℂ)) cut none (hst _ (List.getElem_mem hi)) trivial
    rw [ampl_single hT] at this
    exact this
  refine ⟨h, h1, hel, fun j hj => ?_, fun i hi => ?_⟩
  · refine (sum_le_sum fun i hi => hel i (mem_range.1 hi) j hj).trans ?_
    rw [← sum_states states hnd fun S _ => elementError u cut op S (states.getD j ∅)]
    exact column_error hfl.nonneg cut op _ _
  · refine (sum_le_sum fun j hj => hel i hi j (mem_range.1 hj)).trans ?_
    rw [← sum_states states hnd fun T _ => elementError u cut op (states.getD i ∅) T]
    exact row_error hfl.nonneg cut op _ _

/-- The lower triangle of a matrix defines a Hermitian matrix. -/
theorem lowerTriangle_symmetrised (d : ℕ) (h : Mat ℂ) : Symmetrised d h (lowerTriangle h) := by
  refine ⟨fun i j => ?_, fun i _ j _ => ?_⟩
  · unfold lowerTriangle
    rcases lt_trichotomy i j with h1 | rfl | h1
    · rw [if_neg h1.asymm, if_pos h1, if_pos h1]
    · simp
    · rw [if_pos h1, if_neg h1.asymm, if_pos h1, star_star]
  · unfold lowerTriangle
    rcases lt_trichotomy i j with h1 | rfl | h1
    · exact ⟨0, le_rfl, zero_le_one, by rw [if_neg h1.asymm, if_pos h1]; simp⟩
    · refine ⟨1 / 2, by norm_num, by norm_num, ?_⟩
      rw [if_neg (lt_irrefl _), if_neg (lt_irrefl _)]
      apply Complex.ext <;> simp <;> ring
    · exact ⟨1, zero_le_one, le_rfl, by rw [if_pos h1]; simp⟩

/-- C102, energies.  `M` is any Hermitian matrix made from the computed Hamiltonian matrix, such as the lower triangle.
Its lowest eigenvalues differ from those of the exact operator, without cutoff, by at most `2 lineError`. -/
theorem C102_energies (hfl : Accurate u fl) (habs : AccurateAbs u absC) (hu : (1 + u) ^ 3 < 2) {n : ℕ} {op : Op ℕ ℂ}
    (hop : OpInSystem n op) (hdict : Dict.NodupKeys op) (hh : isHermitianOp op) (cut : ℝ) {states : List (Finset ℕ)}
    (hnd : states.Nodup) (hst : ∀ S ∈ states, S ⊆ range n) {h M : Mat ℂ}
    (hm : roundedDenseSerial fl absC n op cut (states.map (encBytes n)) = .ok h)
    (hM : Symmetrised states.length h M) {solver solver' : EigenSolver} (hS : SolverCorrect solver)
    (hS' : SolverCorrect solver') {nPsiMax nPsiMax' : ℕ} {p : EigenPairs}
    (hp : diagFull solver M states.length nPsiMax = p ∨ diagLanczos solver M states.length nPsiMax = .ok p)
    {mode' : DiagMode} {weight' : ℝ} {ranks' : ℕ} (hr' : 0 < ranks') {es' : List ℝ} {psis' : List (Psi ℂ)}
    (h' : eigensystem solver' n op 0 (states.map (encBytes n)) nPsiMax' mode' weight' ranks' = .ok (es', psis'))
    (i : ℕ) (hi : i < p.es.length) (hi' : i < es'.length) : |p.es[i] - es'[i]| ≤ 2 * lineError u cut op := by
  obtain ⟨h0, e0, -, hcol, hrow⟩ := C102_matrix hfl habs hu hop cut hnd hst
  rw [hm] at e0
  cases e0
  obtain ⟨x', H'⟩ := eigensystem_lowest hS' hop hdict hh hr' hnd hst h'
  obtain ⟨heig, hsort, hlow⟩ : EigenOf M states.length p ∧ p.es.Pairwise (· ≤ ·) ∧ IsLowest M states.length p := by
    rcases hp with hp | hp
    · exact diag_spec hS hM.hermitian states.length nPsiMax .full (by rw [hp])
    · exact diag_spec hS hM.hermitian states.length nPsiMax .lanczos hp
  -- the matrix, indexed by product states
  set m : Finset ℕ → Finset ℕ → ℂ := fun S T => M (states.idxOf S) (states.idxOf T) with hmdef
  have hidx : ∀ j < states.length, states.idxOf (states.getD j ∅) = j := by
    intro j hj
    rw [List.getD_eq_getElem _ _ hj]
    exact hnd.idxOf_getElem j hj
  have H : LowestIn states.toFinset m p.es (fun v S => p.vecs (states.idxOf S) v) := by
    refine ⟨hsort, fun v hv w hw => ?_, fun v hv S hS => ?_, fun y hy v hv => ?_⟩
    · rw [sum_states states hnd fun _ i => star (p.vecs i v) * p.vecs i w]
      exact heig.ortho v hv w hw
    · rw [sum_states states hnd fun _ j => M (states.idxOf S) j * p.vecs j v]
      exact heig.eigen v hv _ (List.idxOf_lt_length_of_mem (List.mem_toFinset.1 hS))
    · have h1 := hlow (fun i => y (states.getD i ∅)) (fun w hw => by
        rw [← sum_states states hnd fun S i => star (p.vecs i w) * y S]
        exact hy w hw) v hv
      rw [← sum_states states hnd fun S _ => Complex.normSq (y S)] at h1
      refine h1.trans_eq ?_
      unfold energyOf
      congr 1
      rw [sum_states states hnd fun S i => ∑ T ∈ states.toFinset, star (y S) * M i (states.idxOf T) * y T]
      refine sum_congr rfl fun i _ => ?_
      rw [sum_states states hnd fun T j => star (y (states.getD i ∅)) * M i j * y T]
  have hmh : ∀ S ∈ states.toFinset, ∀ T ∈ states.toFinset, m S T = star (m T S) := fun S _ T _ => hM.hermitian _ _
  have hst' : ∀ S ∈ states.toFinset, S ⊆ range n := fun S hS => hst S (List.mem_toFinset.1 hS)
  have hx := storedElement_hermitian hdict hop hh (0 : ℝ) hst'
  have e0 : ∀ S T, storedElement op (0 : ℝ) S T = matrixElement op S T := by
    intro S T
    unfold storedElement
    rw [if_pos (show (0 : ℝ) ≤ abs2 (matrixElement op S T) from Complex.normSq_nonneg _)]
  have hc : ∀ T ∈ states.toFinset, ∑ S ∈ states.toFinset, ‖m S T - storedElement op (0 : ℝ) S T‖ ≤ 2 * lineError u cut op := by
    intro T hT
    have hT := List.mem_toFinset.1 hT
    set j := states.idxOf T with hj
    have hjl : j < states.length := List.idxOf_lt_length_of_mem hT
    have hTj : states.getD j ∅ = T := by rw [List.getD_eq_getElem _ _ hjl]; exact List.getElem_idxOf _
    have hTs := hst T hT
    simp only [e0, hmdef, ← hj]
    rw [sum_states states hnd fun S i => ‖M i j - matrixElement op S T‖, two_mul]
    refine le_trans ?_ (add_le_add (hcol j hjl) (hrow j hjl))
    rw [← sum_add_distrib]
    refine sum_le_sum fun i hi => ?_
    have hil := mem_range.1 hi
    have hSs : states.getD i ∅ ⊆ range n := by
      rw [List.getD_eq_getElem _ _ hil]; exact hst _ (List.getElem_mem hil)
    obtain ⟨t, ht0, ht1, ht⟩ := hM.between i hil j hjl
    have hherm := matrixElement_hermitian hdict hop hh hSs hTs
    rw [hTj, ht]
    have e : (t : ℂ) * h i j + (1 - t) * star (h j i) - matrixElement op (states.getD i ∅) T
        = t * (h i j - matrixElement op (states.getD i ∅) T)
          + ((1 - t : ℝ) : ℂ) * star (h j i - matrixElement op T (states.getD i ∅)) := by
      rw [star_sub, ← hherm]
      push_cast
      ring
    rw [e]
    refine (norm_add_le _ _).trans (add_le_add ?_ ?_)
    · rw [norm_mul, Complex.norm_real, Real.norm_eq_abs, abs_of_nonneg ht0]
      exact mul_le_of_le_one_left (norm_nonneg _) ht1
    · rw [norm_mul, norm_star, Complex.norm_real, Real.norm_eq_abs, abs_of_nonneg (by linarith)]
      exact mul_le_of_le_one_left (norm_nonneg _) (by linarith)
  have hc' : ∀ T ∈ states.toFinset, ∑ S ∈ states.toFinset, ‖storedElement op (0 : ℝ) S T - m S T‖ ≤ 2 * lineError u cut op := by
    intro T hT
    simp only [norm_sub_rev (storedElement op 0 _ _)]
    exact hc T hT
  have a1 := H.weyl H' hmh (form_close hmh hx hc) i hi hi'
  have a2 := H'.weyl H hx (form_close hx hmh hc') i hi' hi
  rw [_root_.abs_le]
  constructor <;> linarith

/-- C102, without rounding `roundedApplyOp` is `applyOp`, the function that the other properties are about. -/
theorem C102_exact (n : ℕ) (op : Op ℕ ℂ) (psi : Psi ℂ) (cut : ℝ) (r : Option Restrictions) :
    applyOp n op psi cut r none
      = (roundedApplyOp exactOps (fun z => ‖z‖) n op psi cut r).map fun psi' => (psi', none) := by
  have hc : ∀ x y, exactOps.cadd x y = x + y := fun x y => rfl
  have hm : ∀ x y (s : ℤ), roundedTerm exactOps x y s = x * y * (s : ℂ) := by
    intro x y s
    unfold roundedTerm
    congr 1
  have ha : ∀ z, roundedAbs2 exactOps (fun z => ‖z‖) z = abs2 z := by
    intro z
    show ‖z‖ * ‖z‖ = Complex.normSq z
    rw [Complex.normSq_eq_norm_sq, sq]
  have hp : ∀ d, roundedPrune exactOps (fun z => ‖z‖) cut d = prune cut d := by
    intro d
    unfold roundedPrune prune
    simp only [ha]
  have h1 : ∀ r, roundedApplyRestricted exactOps n op psi r = applyOpRestricted n op psi r := by
    intro r
    unfold roundedApplyRestricted applyOpRestricted
    congr 1
    funext d p
    dsimp only
    congr 1
    funext d q
    cases runProcess q.1 (Psr.bytes2bitarray p.1 n) with
    | error e => rfl
    | ok v =>
      cases v with
      | none => rfl
      | some v =>
        simp only [bind, Except.bind, hc, hm]
        cases Dict.get? d (Psr.bitarray2bytes v.1) <;> rfl
  have h2 : roundedApplyPlain exactOps n op psi = applyOpPlain n op psi := by
    unfold roundedApplyPlain applyOpPlain
    congr 1
    funext d p
    dsimp only
    congr 1
    funext d q
    cases runProcess q.1 (Psr.bytes2bitarray p.1 n) with
    | error e => rfl
    | ok v =>
      cases v with
      | none => rfl
      | some v =>
        simp only [bind, Except.bind, Dict.addAt, hc, hm]
        cases Dict.get? d (Psr.bitarray2bytes v.1) <;> rfl
  unfold applyOp roundedApplyOp
  cases r with
  | none =>
    simp only [h2]
    cases applyOpPlain n op psi <;> simp [bind, Except.bind, pure, Except.pure, Except.map, hp]
  | some r =>
    simp only [h1]
    cases applyOpRestricted n op psi r <;> simp [bind, Except.bind, pure, Except.pure, Except.map, hp]

/-- In double precision, for operators of up to a million terms. -/
theorem C102_double {op : Op ℕ ℂ} (hop : op.length + 2 ≤ 10 ^ 6) {cut : ℝ} (hcut : 0 ≤ cut) :
    lineError ((2 : ℝ) ^ (-(53 : ℕ) : ℤ)) cut op
      ≤ 24 / 10 ^ 11 * absoluteSum op + 1.001 * (op.length * Real.sqrt cut) := by
  have h1 := C101_double hop
  have h2 : cutAmplitude ((2 : ℝ) ^ (-(53 : ℕ) : ℤ)) cut ≤ 1.001 * Real.sqrt cut := by
    unfold cutAmplitude
    rw [show (1.001 : ℝ) = Real.sqrt (1.001 ^ 2) by rw [Real.sqrt_sq (by norm_num)], ← Real.sqrt_mul (by norm_num)]
    refine Real.sqrt_le_sqrt ?_
    rw [div_le_iff₀ (by norm_num [zpow_neg])]
    have : (1 : ℝ) ≤ 1.001 ^ 2 * (2 - (1 + (2 : ℝ) ^ (-(53 : ℕ) : ℤ)) ^ 3) := by norm_num [zpow_neg]
    nlinarith
  have h3 : 0 ≤ absoluteSum op := List.sum_nonneg fun y hy => by
    obtain ⟨q, _, rfl⟩ := List.mem_map.1 hy
    positivity
  unfold lineError
  have h4 : (op.length : ℝ) * cutAmplitude ((2 : ℝ) ^ (-(53 : ℕ) : ℤ)) cut ≤ 1.001 * (op.length * Real.sqrt cut) := by
    rw [mul_left_comm]
    exact mul_le_mul_of_nonneg_left h2 (Nat.cast_nonneg _)
  refine add_le_add (mul_le_mul_of_nonneg_right ?_ h3) h4
  linarith

/-! ### Non-vacuity -/

theorem binary_small : (1 + (2 : ℝ) ^ (-(53 : ℕ) : ℤ)) ^ 3 < 2 := by norm_num [zpow_neg]

/-- A hopping between two spin-orbitals in double precision: the matrix is computed, its lower triangle is diagonalised, and
the energies are close to those of the operator. -/
example : ∃ S h es' psis', SolverCorrect S ∧
    roundedDenseSerial (binaryOps 53) (binaryAbs 53) 2 exHop 1e-12 ([{0}, {1}].map (encBytes 2)) = .ok h ∧
    eigensystem S 2 exHop 0 ([{0}, {1}].map (encBytes 2)) 5 .full 1e-7 3 = .ok (es', psis') ∧ es'.length = 2 ∧
    (diagFull S (lowerTriangle h) 2 5).es.length = 2 ∧
    ∀ i (hi : i < (diagFull S (lowerTriangle h) 2 5).es.length) (hi' : i < es'.length),
      |(diagFull S (lowerTriangle h) 2 5).es[i] - es'[i]|
        ≤ 2 * lineError ((2 : ℝ) ^ (-(53 : ℕ) : ℤ)) 1e-12 exHop := by
  obtain ⟨S, hS⟩ := exists_solverCorrect
  have hnd : ([{0}, {1}] : List (Finset ℕ)).Nodup := by decide
  have hst : ∀ T ∈ ([{0}, {1}] : List (Finset ℕ)), T ⊆ range 2 := by decide
  obtain ⟨h, hm, -⟩ := C102_matrix (binaryOps_accurate 53) (binaryAbs_accurate 53) binary_small exHop_inSystem 1e-12 hnd hst
  obtain ⟨⟨es', psis', h', hl'⟩, -⟩ := C51_returns S hS 2 exHop exHop_inSystem exHop_nodup exHop_hermitian 0 [{0}, {1}]
    hnd hst 5 1e-7 3 (by norm_num)
  have hsym := lowerTriangle_symmetrised 2 h
  refine ⟨S, h, es', psis', hS, hm, h', by simpa using hl', ?_, fun i hi hi' => ?_⟩
  · simp [diagFull, (hS.eigh (lowerTriangle h) 2 hsym.hermitian).2.2]
  · exact C102_energies (binaryOps_accurate 53) (binaryAbs_accurate 53) binary_small exHop_inSystem exHop_nodup
      exHop_hermitian 1e-12 hnd hst hm hsym hS hS (Or.inl rfl) (by norm_num) h' i hi hi'

/-- A state with two product states, with restrictions. -/
example : ∃ psi', roundedApplyOp (binaryOps 53) (binaryAbs 53) 2 exHop [(encBytes 2 {0}, 3), (encBytes 2 {1}, 4)] 1e-12
    (some []) = .ok psi' ∧ IsState 2 psi' := by
  have hpsi : IsState 2 ([(encBytes 2 {0}, 3), (encBytes 2 {1}, 4)] : Psi ℂ) :=
    ⟨by simp only [Dict.NodupKeys, Dict.keys, List.map_cons, List.map_nil]; decide, fun k hk => by
      simp only [Dict.keys, List.map_cons, List.map_nil, List.mem_cons, List.not_mem_nil, or_false] at hk
      rcases hk with rfl | rfl
      · exact ⟨{0}, by decide, rfl⟩
      · exact ⟨{1}, by decide, rfl⟩⟩
  obtain ⟨psi', h1, h2, _⟩ := C102_apply (binaryOps_accurate 53) (binaryAbs_accurate 53) binary_small exHop_inSystem hpsi
    1e-12 (some [])
  exact ⟨psi', h1, h2⟩

end

end Verif
