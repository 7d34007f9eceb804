/-
C84: what the cutoffs change.
-/
import Verif.Spec.MainCutoff
import Verif.Lemmas.Bounded
import Verif.Lemmas.RixsCutoff
import Verif.Prop.Variational
import Verif.Prop.MainConvergence

namespace Verif

open Finset Mpi Psr Spec Matrix

noncomputable section

theorem lowest_close {n : ℕ} {op : Op ℕ ℂ} (hop : OpInSystem n op) (hdict : Dict.NodupKeys op) (hh : isHermitianOp op)
    {cut : ℝ} {states : Finset (Finset ℕ)} (hst : ∀ S ∈ states, S ⊆ range n) {es es' : List ℝ} {x x' : ℕ → Finset ℕ → ℂ}
    (H : LowestIn states (storedElement op cut) es x) (H' : LowestIn states (storedElement op 0) es' x')
    (i : ℕ) (hi : i < es.length) (hi' : i < es'.length) : |es[i] - es'[i]| ≤ op.length * Real.sqrt cut := by
  have h1 := storedElement_hermitian hdict hop hh cut hst
  have h2 := storedElement_hermitian hdict hop hh 0 hst
  have hcol : ∀ (c : ℝ) (S T : Finset ℕ), storedElement op c S T = column op c none T S := by
    intro c S T
    unfold storedElement column
    simp only [AllowedOpt, true_and]
  have hc : ∀ T ∈ states, ∑ S ∈ states, ‖storedElement op cut S T - storedElement op 0 S T‖ ≤ op.length * Real.sqrt cut := by
    intro T _
    simp only [hcol]
    exact dropped_column states op none T
  have hc' : ∀ T ∈ states, ∑ S ∈ states, ‖storedElement op 0 S T - storedElement op cut S T‖ ≤ op.length * Real.sqrt cut := by
    intro T hT
    simp only [norm_sub_rev (storedElement op 0 _ _)]
    exact hc T hT
  have a1 := H.weyl H' h1 (form_close h1 h2 hc) i hi hi'
  have a2 := H'.weyl H h2 (form_close h2 h1 hc') i hi' hi
  rw [abs_le]
  constructor <;> linarith

/-- C84, energies.  The lowest eigenvalues that are computed without the matrix elements of weight below `cut` differ from
those of the full operator by at most the number of terms of the operator times `√cut`. -/
theorem C84_energies {n : ℕ} {op : Op ℕ ℂ} (hop : OpInSystem n op) (hdict : Dict.NodupKeys op) (hh : isHermitianOp op)
    {cut weight weight' : ℝ} {states : Finset (Finset ℕ)} (hst : ∀ S ∈ states, S ⊆ range n) {es es' : List ℝ}
    {psis psis' : List (Psi ℂ)} (h : LowestStates n op cut weight states es psis)
    (h' : LowestStates n op 0 weight' states es' psis') (i : ℕ) (hi : i < es.length) (hi' : i < es'.length) :
    |es[i] - es'[i]| ≤ op.length * Real.sqrt cut := by
  obtain ⟨x, H⟩ := lowestIn_of h
  obtain ⟨x', H'⟩ := lowestIn_of h'
  exact lowest_close hop hdict hh hst H H' i hi hi'

/-- C84, `eigensystem`.  Two calls for the same operator and product states, with and without cutoff. -/
theorem C84_eigensystem {solver solver' : EigenSolver} (hS : SolverCorrect solver) (hS' : SolverCorrect solver') {n : ℕ}
    {op : Op ℕ ℂ} (hop : OpInSystem n op) (hdict : Dict.NodupKeys op) (hh : isHermitianOp op) {cut : ℝ}
    {states : List (Finset ℕ)} (hnd : states.Nodup) (hst : ∀ S ∈ states, S ⊆ range n) {nPsiMax nPsiMax' : ℕ}
    {mode mode' : DiagMode} {weight weight' : ℝ} {ranks ranks' : ℕ} (hr : 0 < ranks) (hr' : 0 < ranks') {es es' : List ℝ}
    {psis psis' : List (Psi ℂ)}
    (h : eigensystem solver n op cut (states.map (encBytes n)) nPsiMax mode weight ranks = .ok (es, psis))
    (h' : eigensystem solver' n op 0 (states.map (encBytes n)) nPsiMax' mode' weight' ranks' = .ok (es', psis'))
    (i : ℕ) (hi : i < es.length) (hi' : i < es'.length) : |es[i] - es'[i]| ≤ op.length * Real.sqrt cut := by
  obtain ⟨x, H⟩ := eigensystem_lowest hS hop hdict hh hr hnd hst h
  obtain ⟨x', H'⟩ := eigensystem_lowest hS' hop hdict hh hr' hnd hst h'
  exact lowest_close hop hdict hh (fun S hS => hst S (List.mem_toFinset.1 hS)) H H' i hi hi'

theorem hop_hermitian {t : ℂ} (ht : star t = t) : isHermitianOp ([([(0, .c), (1, .a)], t), ([(1, .c), (0, .a)], t)] : Op ℕ ℂ) := by
  intro k
  simp only [daggerOp, List.foldl_cons, List.foldl_nil, Dict.set, List.reverse_cons, List.reverse_nil,
    List.nil_append, List.cons_append, List.map_cons, List.map_nil, Action.dagger, ht, Dict.get?_cons, Dict.get?_nil]
  clear ht
  by_cases ha : k = [(0, .c), (1, .a)] <;> by_cases hb : k = [(1, .c), (0, .a)] <;> simp_all [Dict.get?_cons, eq_comm]

/-- A hopping of strength 1e-7, which is dropped with the cutoff 1e-12. -/
def exWeak : Op ℕ ℂ := [([(0, .c), (1, .a)], 1e-7), ([(1, .c), (0, .a)], 1e-7)]

theorem exWeak_hermitian : isHermitianOp exWeak := by
  refine hop_hermitian ?_
  rw [show (1e-7 : ℂ) = ((1e-7 : ℝ) : ℂ) by push_cast; norm_num]
  exact Complex.conj_ofReal _

/-- The hypotheses of `C84_eigensystem` are met in a case where the cutoff drops a matrix element. -/
theorem C84_example : ∃ S es psis es' psis', SolverCorrect S ∧
    eigensystem S 2 exWeak 1e-12 ([{0}, {1}].map (encBytes 2)) 5 .full 1e-7 3 = .ok (es, psis) ∧ es.length = 2 ∧
    eigensystem S 2 exWeak 0 ([{0}, {1}].map (encBytes 2)) 5 .full 1e-7 3 = .ok (es', psis') ∧ es'.length = 2 ∧
    storedElement exWeak (1e-12 : ℝ) {0} {1} = 0 ∧ storedElement exWeak (0 : ℝ) {0} {1} = 1e-7 ∧
    ∀ i (hi : i < es.length) (hi' : i < es'.length), |es[i] - es'[i]| ≤ 2 * 1e-6 := by
  obtain ⟨S, hS⟩ := exists_solverCorrect
  have h1 : OpInSystem 2 exWeak := by
    intro q hq x hx
    simp only [exWeak, List.mem_cons, List.not_mem_nil, or_false] at hq
    rcases hq with rfl | rfl <;> simp at hx <;> rcases hx with rfl | rfl <;> norm_num
  have h2 : Dict.NodupKeys exWeak := by simp [Dict.NodupKeys, Dict.keys, exWeak]
  have h3 := exWeak_hermitian
  obtain ⟨⟨es, psis, h, hl⟩, -⟩ := C51_returns S hS 2 exWeak h1 h2 h3 1e-12 [{0}, {1}] (by decide) (by decide) 5 1e-7 3
    (by norm_num)
  obtain ⟨⟨es', psis', h', hl'⟩, -⟩ := C51_returns S hS 2 exWeak h1 h2 h3 0 [{0}, {1}] (by decide) (by decide) 5 1e-7 3
    (by norm_num)
  have hm : matrixElement exWeak {0} {1} = 1e-7 := by
    simp [matrixElement, operator, opSpec, exWeak, processSpec, product, ladder, create, annihilate, Spec.single, sgn,
      show below 0 {0} = 0 by decide, show below 1 ∅ = 0 by decide]
  have hn : abs2 (matrixElement exWeak {0} {1}) = (1e-14 : ℝ) := by
    rw [hm]
    show Complex.normSq _ = _
    rw [show (1e-7 : ℂ) = ((1e-7 : ℝ) : ℂ) by push_cast; norm_num, Complex.normSq_ofReal]
    norm_num
  refine ⟨S, es, psis, es', psis', hS, h, by simpa using hl, h', by simpa using hl', ?_, ?_, fun i hi hi' => ?_⟩
  · unfold storedElement
    rw [hn, if_neg (by norm_num)]
  · unfold storedElement
    rw [hn, if_pos (by norm_num), hm]
  · have := C84_eigensystem hS hS h1 h2 h3 (by decide) (by decide) (by norm_num) (by norm_num) h h' i hi hi'
    rwa [show Real.sqrt (1e-12) = 1e-6 by
      rw [show (1e-12 : ℝ) = 1e-6 ^ 2 by norm_num]
      exact Real.sqrt_sq (by norm_num), show ((exWeak.length : ℕ) : ℝ) = 2 by simp [exWeak]] at this

/-- C84, one response.  `x` is any vector of length up to 1, at most `eta` away from the stored `psi_i`, and `T` makes vectors
longer by at most the factor `t`.  Then `⟨T x| (z + e_i - H)⁻¹ |T x⟩` without cutoffs exists, and the one with
cutoffs differs from it by at most `cutoffError`. -/
theorem C84_response {S : SimulateArgs} (hS : S.Valid) (hdict : Dict.NodupKeys S.hOp) (hh : isHermitianOp S.hOp)
    {T : Vec ℂ → Vec ℂ} {t : ℝ} (hT : BoundedBy (size S) T t) (i : ℕ) {x : Vec ℂ} (hx : ∀ F, ¬ F ⊆ range (size S) → x F = 0)
    (hx1 : Spec.normSq (size S) x ≤ 1) {eta : ℝ} (h0 : 0 ≤ eta)
    (heta : Spec.normSq (size S) (ampl (size S) (S.psis.getD i []) - x) ≤ eta ^ 2) {z : ℂ} (hz : z.im ≠ 0) :
    ∃ g', IsUncut (size S) S.restrictions (operator (opSpec S.hOp)) T x (z + (S.es.getD i 0 : ℂ)) g' ∧
      ∀ g, IsResponse S T i z g → ‖g - g'‖ ≤ cutoffError t (vectorError t eta S.slaterWeightMin
        (dropped (size S) T S.slaterWeightMin (ampl (size S) (S.psis.getD i [])))) S.cut S.hOp.length z.im := by
  have hop : OpInSystem (size S) S.hOp := by
    have h := hS.hop
    rw [nSpinOrbitals_eq] at h
    exact h
  have hzi : (z + (S.es.getD i 0 : ℂ)).im = z.im := by simp
  have hw : 0 ≤ S.slaterWeightMin := hS.weight.le
  have hpsi : ∀ F, ¬ F ⊆ range (size S) → ampl (size S) (S.psis.getD i []) F = 0 := by
    intro F hF
    unfold ampl
    rw [if_neg hF]
  set rho := vectorError t eta S.slaterWeightMin (dropped (size S) T S.slaterWeightMin (ampl (size S) (S.psis.getD i []))) with hrho
  have hd := excited_close hT hw S.restrictions hpsi hx h0 heta
  rw [← hrho] at hd
  have hrho0 : 0 ≤ rho := (len_nonneg _ _).trans hd
  have ha' : len (size S) (allowedPart (size S) S.restrictions T x) ≤ t := by
    refine (len_allowedPart T _ x).trans ((hT.stretch hx).trans ?_)
    have := len_le zero_le_one (by rw [one_pow]; exact hx1 : Spec.normSq (size S) x ≤ 1 ^ 2)
    calc t * len (size S) x ≤ t * 1 := mul_le_mul_of_nonneg_left this hT.nonneg
      _ = t := mul_one t
  have ha : len (size S) (excite S T i) ≤ t + rho := by
    have e : excite S T i = allowedPart (size S) S.restrictions T x + (excite S T i - allowedPart (size S) S.restrictions T x) := by
      abel
    rw [e]
    exact (len_add _ _ _).trans (add_le_add ha' hd)
  obtain ⟨g', hg', hclose⟩ := green_close (cut := S.cut) hop hdict hh S.restrictions (z := z + (S.es.getD i 0 : ℂ))
    (z' := z + (S.es.getD i 0 : ℂ)) (by rw [hzi]; exact hz) rfl (b := excite S T i)
    (b' := allowedPart (size S) S.restrictions T x)
    (by
      intro F hF
      show (if _ then _ else _) = _
      rw [if_neg (fun h => hF ⟨h.1, h.2.1⟩)])
    (by
      intro F hF
      unfold allowedPart
      rw [if_neg hF])
    (add_nonneg hT.nonneg hrho0) hT.nonneg hrho0 (normSq_le_of_len ha) (normSq_le_of_len ha') (normSq_le_of_len hd)
  refine ⟨g', hg', fun g hg => (hclose g hg).trans (le_of_eq ?_)⟩
  unfold cutoffError
  rw [hzi, sub_self, norm_zero, add_zero]
  ring

/-- C84, resonant scattering. -/
theorem C84_rixs {S : SimulateArgs} (hS : S.Valid) (hdict : Dict.NodupKeys S.hOp) (hh : isHermitianOp S.hOp)
    {T T' : Vec ℂ → Vec ℂ} {t t' : ℝ} (hT : BoundedBy (size S) T t) (hT' : BoundedBy (size S) T' t') (i : ℕ) {x : Vec ℂ}
    (hx : ∀ F, ¬ F ⊆ range (size S) → x F = 0) (hx1 : Spec.normSq (size S) x ≤ 1) {eta : ℝ} (h0 : 0 ≤ eta)
    (heta : Spec.normSq (size S) (ampl (size S) (S.psis.getD i []) - x) ≤ eta ^ 2) {z z' : ℂ} (hz : z.im ≠ 0) (hz' : z'.im ≠ 0) :
    ∃ g', IsUncutRixs (size S) S.restrictions (operator (opSpec S.hOp)) T T' x z z' g' ∧
      ∀ y, Solves (size S) (hamilton S) z (excite S T i) y → ∀ g, IsRixs (size S) (hamilton S) z z' (excite S T i) (exciteVec S T') g →
        ‖g - g'‖ ≤ rixsError S T T' i t t' eta y z.im z'.im := by
  have hop : OpInSystem (size S) S.hOp := by
    have h := hS.hop
    rw [nSpinOrbitals_eq] at h
    exact h
  have hw : 0 ≤ S.slaterWeightMin := hS.weight.le
  have hpsi : ∀ F, ¬ F ⊆ range (size S) → ampl (size S) (S.psis.getD i []) F = 0 := by
    intro F hF
    unfold ampl
    rw [if_neg hF]
  set rho := vectorError t eta S.slaterWeightMin (dropped (size S) T S.slaterWeightMin (ampl (size S) (S.psis.getD i []))) with hrho
  have hd := excited_close hT hw S.restrictions hpsi hx h0 heta
  rw [← hrho] at hd
  have ha' : len (size S) (allowedPart (size S) S.restrictions T x) ≤ t := by
    refine (len_allowedPart T _ x).trans ((hT.stretch hx).trans ?_)
    have := len_le zero_le_one (by rw [one_pow]; exact hx1 : Spec.normSq (size S) x ≤ 1 ^ 2)
    calc t * len (size S) x ≤ t * 1 := mul_le_mul_of_nonneg_left this hT.nonneg
      _ = t := mul_one t
  have hal : ∀ (T : Vec ℂ → Vec ℂ) x F, ¬ (F ⊆ range (size S) ∧ AllowedOpt S.restrictions F) →
      allowedPart (size S) S.restrictions T x F = 0 := by
    intro T x F hF
    unfold allowedPart
    rw [if_neg hF]
  have hex : ∀ (T : Vec ℂ → Vec ℂ) x F, ¬ (F ⊆ range (size S) ∧ AllowedOpt S.restrictions F) → exciteVec S T x F = 0 := by
    intro T x F hF
    show (if _ then _ else _) = _
    rw [if_neg (fun h => hF ⟨h.1, h.2.1⟩)]
  have hcong : ∀ x : Vec ℂ, (∀ F, ¬ F ⊆ range (size S) → x F = 0) →
      hamiltonian (size S) S.hOp 0 S.restrictions x = allowedPart (size S) S.restrictions (operator (opSpec S.hOp)) x :=
    fun x hx => hamiltonian_zero_cut _ _ _ hx
  -- the intermediate state without cutoff
  obtain ⟨-, ⟨y', hy', -⟩, -⟩ := green_close (cut := 0) hop hdict hh S.restrictions hz rfl (b := 0)
    (b' := allowedPart (size S) S.restrictions T x) (fun _ _ => rfl) (hal T x) le_rfl hT.nonneg
    (len_nonneg (size S) (0 - allowedPart (size S) S.restrictions T x))
    (by unfold Spec.normSq; simp) (normSq_le_of_len ha') (normSq_le_of_len le_rfl)
  have hy0 : Solves (size S) (hamiltonian (size S) S.hOp 0 S.restrictions) z (allowedPart (size S) S.restrictions T x) y' :=
    ⟨fun F hF => by rw [hcong y' hy'.outside]; exact hy'.inside F hF, hy'.outside⟩
  have hylen : len (size S) y' ≤ t / |z.im| :=
    (solves_len hop hdict hh S.restrictions hz (hal T x) hy0).trans (div_le_div_of_nonneg_right ha' (abs_nonneg _))
  have hb2 : len (size S) (allowedPart (size S) S.restrictions T' y') ≤ t' * (t / |z.im|) :=
    (len_allowedPart T' _ y').trans ((hT'.stretch hy'.outside).trans (mul_le_mul_of_nonneg_left hylen hT'.nonneg))
  have htt : 0 ≤ t' * (t / |z.im|) := (len_nonneg _ _).trans hb2
  obtain ⟨g', hg', -⟩ := green_close (cut := 0) hop hdict hh S.restrictions hz' rfl (b := 0)
    (b' := allowedPart (size S) S.restrictions T' y') (fun _ _ => rfl) (hal T' y') le_rfl htt
    (len_nonneg (size S) (0 - allowedPart (size S) S.restrictions T' y'))
    (by unfold Spec.normSq; simp) (normSq_le_of_len hb2) (normSq_le_of_len le_rfl)
  refine ⟨g', ⟨y', hy', fun u hu => ?_, hg'⟩, ?_⟩
  · exact solves_unique hop hdict hh S.restrictions hz hy0
      ⟨fun F hF => by rw [hcong u hu.outside]; exact hu.inside F hF, hu.outside⟩
  intro y hy g hg
  obtain ⟨u, hu, huniq, hgu⟩ := hg
  obtain rfl := huniq y hy
  have hyy : len (size S) (y - y') ≤ solutionError t rho S.cut S.hOp.length z.im :=
    solves_close hop hdict hh S.restrictions hz (hex T _) (hal T x) hy hy0 ha' hd
  have hs0 : 0 ≤ solutionError t rho S.cut S.hOp.length z.im := (len_nonneg _ _).trans hyy
  have hd2 := excited_close hT' hw S.restrictions hy.outside hy'.outside hs0 (normSq_le_of_len hyy)
  set rho' := vectorError t' (solutionError t rho S.cut S.hOp.length z.im) S.slaterWeightMin
    (dropped (size S) T' S.slaterWeightMin y) with hrho'
  have hrho0 : 0 ≤ rho' := (len_nonneg _ _).trans hd2
  have ha2 : len (size S) (exciteVec S T' y) ≤ t' * (t / |z.im|) + rho' := by
    have e : exciteVec S T' y = allowedPart (size S) S.restrictions T' y'
        + (exciteVec S T' y - allowedPart (size S) S.restrictions T' y') := by abel
    rw [e]
    exact (len_add _ _ _).trans (add_le_add hb2 hd2)
  obtain ⟨g'', hg'', hclose⟩ := green_close (cut := S.cut) hop hdict hh S.restrictions hz' rfl (b := exciteVec S T' y)
    (b' := allowedPart (size S) S.restrictions T' y') (hex T' y) (hal T' y')
    (add_nonneg htt hrho0) htt hrho0 (normSq_le_of_len ha2) (normSq_le_of_len hb2) (normSq_le_of_len hd2)
  rw [isGreen_unique hg' hg'']
  refine (hclose g hgu).trans (le_of_eq ?_)
  unfold rixsError cutoffError
  rw [sub_self, norm_zero, add_zero, ← hrho, ← hrho']
  ring

/-- C84, several eigenvectors: the responses of exact eigenvectors. -/
theorem C84_states {S : SimulateArgs} (hS : S.Valid) (hdict : Dict.NodupKeys S.hOp) (hh : isHermitianOp S.hOp)
    {configs : Finset (Finset ℕ)} (hc : ∀ F ∈ configs, F ⊆ range (size S)) {x : ℕ → Vec ℂ} {eta : ℝ} (h0 : 0 ≤ eta)
    (hx : CloseStates S configs x eta) {T : Vec ℂ → Vec ℂ} {t : ℝ} (hT : BoundedBy (size S) T t) (i : ℕ) (hi : i < S.es.length)
    {z : ℂ} (hz : z.im ≠ 0) {g : ℂ} (hg : IsResponse S T i z g) :
    ∃ g', UncutResponse S (operator (opSpec S.hOp)) T x i z g' ∧ ‖g - g'‖ ≤ cutoffError t (vectorError t eta S.slaterWeightMin
        (dropped (size S) T S.slaterWeightMin (ampl (size S) (S.psis.getD i [])))) S.cut S.hOp.length z.im := by
  obtain ⟨g', h1, h2⟩ := C84_response hS hdict hh hT i (x := x i) (fun F hF => hx.inside i F fun h => hF (hc F h))
    (hx.normalised i hi).le h0 (hx.close i hi) hz
  exact ⟨g', h1, h2 g hg⟩

/-- Dropping components of weight below `weight` from a vector. -/
theorem pruned_close {n : ℕ} {configs : Finset (Finset ℕ)} {x psi : Vec ℂ} {weight : ℝ} (hw : 0 ≤ weight)
    (hc : ∀ F ∈ configs, F ⊆ range n) (hx : ∀ F, F ∉ configs → x F = 0)
    (hpsi : ∀ F, psi F = if F ∈ configs ∧ weight ≤ Complex.normSq (x F) then x F else 0) :
    Spec.normSq n (psi - x) ≤ Real.sqrt (configs.card * weight) ^ 2 := by
  rw [Real.sq_sqrt (by positivity)]
  unfold Spec.normSq
  rw [← sum_subset (s₁ := configs) (fun F hF => mem_powerset.2 (hc F hF))]
  · calc ∑ F ∈ configs, Complex.normSq ((psi - x) F) ≤ ∑ F ∈ configs, weight := by
          refine sum_le_sum fun F hF => ?_
          rw [Pi.sub_apply, hpsi]
          by_cases h : weight ≤ Complex.normSq (x F)
          · rw [if_pos ⟨hF, h⟩, sub_self, Complex.normSq_zero]; exact hw
          · rw [if_neg (fun h' => h h'.2), zero_sub, Complex.normSq_neg]
            exact (not_le.1 h).le
      _ = configs.card * weight := by rw [sum_const, nsmul_eq_mul]
  · intro F _ hF
    rw [Pi.sub_apply, hpsi, if_neg (fun h => hF h.1), hx F hF, sub_zero, Complex.normSq_zero]

theorem im_sub_le {a : ℝ} {g g' : ℂ} {e e' : ℝ} (h : |a - -g.im| ≤ e) (h' : ‖g - g'‖ ≤ e') : |a - -g'.im| ≤ e + e' := by
  have h1 := (Complex.abs_im_le_norm (g - g')).trans h'
  rw [Complex.sub_im] at h1
  rw [abs_le] at *
  constructor <;> linarith [h.1, h.2, h1.1, h1.2]

section
variable {L : MainLib} {A : MainArgs} (hA : A.Valid) (hG : GauntLarge L.gaunt A.ls) {N : ℕ} (hN : 0 < N)
  {ord : Fin N → ℕ → ℕ → ℕ → SetOrders} (hord : ∀ k c t i, (ord k c t i).Valid)
  {ordRixs : Fin N → List ℕ → SetOrders} (hordR : ∀ k l, (ordRixs k l).Valid) {out : Fin N → Option MainOutput}
  (hfin : CanFinish msgSum (fun k : Fin N => mainRank L A (ord k) (ordRixs k) k.val N) out)
  {o : MainOutput} (ho : out ⟨0, hN⟩ = some o)
variable (hL : SolverCorrect L.solver) {b : ℕ → ℕ} {P : BasisParams} {hx hy hz : ℝ} {h0 : Op Label ℂ}
  (hD : Documented A b P hx hy hz h0)

/-- The exact eigenvectors behind the vectors that main uses. -/
theorem mainRun_states {energies : List ℝ} {psis : List (Psi ℂ)} {S : SimulateArgs}
    (hrun : MainRun L A b P hx hy hz h0 energies psis S) {configs : Finset (Finset ℕ)}
    (hconf : ∀ F, F ∈ configs ↔ F ⊆ range (nTotal (pdSystem b)) ∧ IsConfiguration [(1, b 1), (2, b 2)] (pdSystem b) P F) :
    ∃ x, ExactStates S configs x (Real.sqrt (configs.card * 1e-7)) := by
  classical
  have hsz : size S = nTotal (pdSystem b) := by unfold size; rw [hrun.system]; rfl
  have hcfg : {F ∈ (range (nTotal (pdSystem b))).powerset | IsConfiguration [(1, b 1), (2, b 2)] (pdSystem b) P F} = configs := by
    ext F
    rw [mem_filter, mem_powerset, hconf]
  have hlow := hrun.lowest
  have hlow : LowestStates (nTotal (pdSystem b)) S.hOp 1e-12 1e-7 configs energies psis := by
    rw [← hcfg]
    convert hlow
  obtain ⟨hasc, hlen, x, ho, he, -, hp⟩ := hlow
  -- which eigenvector belongs to the `i`-th kept state
  have hidx : ∀ i, ∃ v, ∀ hi : i < S.es.length, ∃ (hv : v < energies.length) (hv' : v < psis.length),
      S.es[i] = energies[v] ∧ S.psis.getD i [] = psis[v] := by
    intro i
    by_cases hi : i < S.es.length
    · obtain ⟨hne, -⟩ := hrun.nonempty
      obtain ⟨low, hlm, hlow⟩ : ∃ low ∈ energies, ∀ e ∈ energies, low ≤ e := by
        obtain ⟨e0, tl, rfl⟩ := List.exists_cons_of_ne_nil hne
        refine ⟨e0, List.mem_cons_self, fun e he => ?_⟩
        rcases List.mem_cons.1 he with rfl | h
        · exact le_rfl
        · exact (List.pairwise_cons.1 hasc).1 e h
      have hz := hrun.kept.2 low hlm hlow
      have hi' : i < S.psis.length := by rw [hrun.kept.1]; exact hi
      have hmem : (S.es[i], S.psis[i]) ∈ S.es.zip S.psis := by
        rw [← List.getElem_zip (h := by rw [List.length_zip]; omega)]
        exact List.getElem_mem _
      rw [hz] at hmem
      obtain ⟨v, hv, hev⟩ := List.mem_iff_getElem.1 (List.mem_filter.1 hmem).1
      rw [List.length_zip] at hv
      refine ⟨v, fun _ => ⟨by omega, by omega, ?_, ?_⟩⟩
      · rw [List.getElem_zip] at hev
        exact (congrArg Prod.fst hev).symm
      · rw [List.getD_eq_getElem _ _ hi']
        rw [List.getElem_zip] at hev
        exact (congrArg Prod.snd hev).symm
    · exact ⟨0, fun h => absurd h hi⟩
  choose idx hidx using hidx
  refine ⟨fun i F => if F ∈ configs then x (idx i) F else 0, ⟨?_, ?_, ?_⟩, ?_⟩
  · intro i F hF
    rw [if_neg hF]
  · intro i hi
    obtain ⟨hv, -⟩ := hidx i hi
    have h1 := ho _ hv _ hv
    rw [if_pos rfl] at h1
    unfold Spec.normSq
    rw [← sum_subset (s₁ := configs) (fun F hF => mem_powerset.2 (by rw [hsz]; exact ((hconf F).1 hF).1))]
    · have : ((∑ F ∈ configs, Complex.normSq (if F ∈ configs then x (idx i) F else 0) : ℝ) : ℂ) = 1 := by
        rw [Complex.ofReal_sum, ← h1]
        refine sum_congr rfl fun F hF => ?_
        rw [if_pos hF]
        exact Complex.normSq_eq_conj_mul_self
      exact_mod_cast this
    · intro F _ hF
      dsimp only
      rw [if_neg hF, Complex.normSq_zero]
  · intro i hi
    obtain ⟨hv, hv', -, e2⟩ := hidx i hi
    refine pruned_close (by norm_num) (fun F hF => by rw [hsz]; exact ((hconf F).1 hF).1) (fun F hF => by rw [if_neg hF]) ?_
    intro F
    rw [e2, hsz, (hp _ hv').2]
    by_cases hF : F ∈ configs
    · simp only [hF, true_and, if_true]
    · simp only [hF, false_and, if_false]
  · intro i hi F hF
    obtain ⟨hv, -, e1, -⟩ := hidx i hi
    rw [if_pos hF, e1, ← he _ hv F hF, hrun.args.cutoffs.2.2]
    exact sum_congr rfl fun G hG => by rw [if_pos hG]

omit hN in
/-- What main stores, from the responses with cutoffs to those without. -/
theorem uncut_of_within {S : SimulateArgs} (hS : S.Valid) (hdict : Dict.NodupKeys S.hOp) (hh : isHermitianOp S.hOp) {s : Simulated}
    (hW : PDWithin b S s) {configs : Finset (Finset ℕ)} (hc : ∀ F ∈ configs, F ⊆ range (size S)) {x : ℕ → Vec ℂ} {eta : ℝ}
    (heta : 0 ≤ eta) (hex : CloseStates S configs x eta) : PDUncut b S (operator (opSpec S.hOp)) x eta s := by
  have him : ∀ (w delta : ℝ), ((w : ℂ) + Complex.I * delta).im = delta := by intro w delta; simp
  have himn : ∀ (w delta : ℝ), (-((w : ℂ) + Complex.I * delta)).im = -delta := by intro w delta; simp
  have hneg : ∀ t rho cut m delta, cutoffError t rho cut m (-delta) = cutoffError t rho cut m delta := by
    intro t rho cut m delta
    unfold cutoffError
    rw [abs_neg, neg_sq]
  refine ⟨?_, ?_, ?_, ?_, ?_⟩
  · intro i j k hi hj hk p hp w w' hr hr'
    obtain ⟨add, rem, h1, h2, h3⟩ := hW.photoemission i j k hi hj hk p hp w w' hr hr'
    obtain ⟨add', a1, a2⟩ := C84_states hS hdict hh hc heta hex (boundedBy_create (size S) p) i hi
      (by rw [him]; exact hS.delta) h1
    obtain ⟨rem', b1, b2⟩ := C84_states hS hdict hh hc heta hex (boundedBy_annihilate (size S) p) i hi
      (by rw [himn]; exact neg_ne_zero.2 hS.delta) h2
    refine ⟨add', rem', a1, b1, ?_⟩
    rw [him] at a2
    rw [himn, hneg] at b2
    unfold totalError
    have h4 := im_sub_le h3 (g' := add' - rem') (e' := _ + _) (by
      rw [sub_sub_sub_comm]
      exact (norm_sub_le _ _).trans (add_le_add a2 b2))
    refine h4.trans (le_of_eq ?_)
    ring
  · intro i j k hi hj hk p hp w hr
    obtain ⟨rem, h2, h3⟩ := hW.xps i j k hi hj hk p hp w hr
    obtain ⟨rem', b1, b2⟩ := C84_states hS hdict hh hc heta hex (boundedBy_annihilate (size S) p) i hi
      (by rw [himn]; exact neg_ne_zero.2 hS.delta) h2
    refine ⟨rem', b1, ?_⟩
    rw [himn, hneg] at b2
    unfold totalError
    have h5 := (Complex.abs_im_le_norm (rem - rem')).trans b2
    rw [Complex.sub_im] at h5
    exact (abs_sub_le _ rem.im _).trans (add_le_add h3 h5)
  · intro i t k hi ht hk w c hr hb
    obtain ⟨g, h1, h3⟩ := hW.xas i t k hi ht hk w hr
    obtain ⟨g', a1, a2⟩ := C84_states hS hdict hh hc heta hex hb i hi (by rw [him]; exact hS.delta) h1
    rw [him] at a2
    exact ⟨g', a1, im_sub_le h3 a2⟩
  · intro i t k hi ht hk q hq hsm w c hr hb
    obtain ⟨g, h1, h3⟩ := hW.nixs i t k hi ht hk q hq hsm w hr
    obtain ⟨g', a1, a2⟩ := C84_states hS hdict hh hc heta hex hb i hi (by rw [him]; exact hS.deltaNIXS) h1
    rw [him] at a2
    exact ⟨g', a1, im_sub_le h3 a2⟩
  · intro i a c d k hi ha hcc hd hk X c₀ w hw hband t t' hb hb' y hy hnd hX
    have hreal : ∀ (w delta e : ℝ), ((w : ℂ) + Complex.I * delta + (e : ℂ)).im = delta := by intro w delta e; simp
    have huniq : ∀ u, Solves (size S) (hamilton S) ((S.wIn[d] : ℂ) + Complex.I * S.delta + (S.es.getD i 0 : ℂ))
        (excite S (dipolePD S.gaunt b S.epsilonsRIXSin[a]) i) u → u = y := fun u hu =>
      solves_unique (by have h := hS.hop; rw [nSpinOrbitals_eq] at h; exact h) hdict hh S.restrictions
        (by rw [hreal]; exact hS.delta) hy hu
    obtain ⟨g, h1, h3⟩ := hW.rixs i a c d k hi ha hcc hd hk X c₀ w hw hband fun u hu => by
      rw [huniq u hu]; exact ⟨hnd, hX⟩
    obtain ⟨g', a1, a2⟩ := C84_rixs hS hdict hh hb hb' i (x := x i) (fun F hF => hex.inside i F fun h => hF (hc F h))
      (hex.normalised i hi).le heta (hex.close i hi)
      (z := (S.wIn[d] : ℂ) + Complex.I * S.delta + (S.es.getD i 0 : ℂ))
      (z' := (S.wLoss[k] : ℂ) + Complex.I * S.deltaRIXS + (S.es.getD i 0 : ℂ))
      (by rw [hreal]; exact hS.delta) (by rw [hreal]; exact hS.deltaRIXS)
    have := a2 y hy g h1
    rw [hreal, hreal] at this
    exact ⟨g', a1, im_sub_le (h3 y hy) this⟩

include hA hG hord hordR hfin ho hL hD in
/-- C84, main.  There are normalised eigenvectors such that everything main stores for photoemission, XPS, XAS and NIXS is, up to
the stated errors, their response for the Hamiltonian without any cutoff; and the energies are, up to 1e-6 times the
number of terms of the Hamiltonian, the lowest ones without cutoff. -/
theorem C84_main (hR : GauntRules L.gaunt) (hsolve : ExactSolver L.solve) {configs : Finset (Finset ℕ)}
    (hconf : ∀ F, F ∈ configs ↔ F ⊆ range (nTotal (pdSystem b)) ∧ IsConfiguration [(1, b 1), (2, b 2)] (pdSystem b) P F) :
    ∃ psis S x, MainRun L A b P hx hy hz h0 o.energies psis S ∧
      ExactStates S configs x (Real.sqrt (configs.card * 1e-7)) ∧
      PDUncut b S (pdHamiltonian L.gaunt (position (pdSystem b)) A (P.n0 2) hx hy hz h0) x
        (Real.sqrt (configs.card * 1e-7)) o.spectra ∧
      ∀ weight es' psis', LowestStates (nTotal (pdSystem b)) S.hOp 0 weight configs es' psis' →
        ∀ i (hi : i < o.energies.length) (hi' : i < es'.length), |o.energies[i] - es'[i]| ≤ S.hOp.length * 1e-6 := by
  obtain ⟨psis, S, hrun, hS, hout, hall⟩ := C65_run hA hG hN hord hordR hfin ho hL hD
  have hW := mainRun_within hG hN hord hordR hD hR hsolve hrun.toMainPrepared hS hout (hall N hN ord hord ordRixs hordR).canFinish
  obtain ⟨hdict, hh⟩ := hrun.dict
  obtain ⟨x, hex⟩ := mainRun_states hrun hconf
  have hsz : size S = nTotal (pdSystem b) := by unfold size; rw [hrun.system]; rfl
  have hc : ∀ F ∈ configs, F ⊆ range (size S) := fun F hF => by rw [hsz]; exact ((hconf F).1 hF).1
  have hH : pdHamiltonian L.gaunt (position (pdSystem b)) A (P.n0 2) hx hy hz h0 = operator (opSpec S.hOp) := by
    funext v F
    exact (hrun.hamiltonian v F).symm
  rw [hH]
  refine ⟨psis, S, x, hrun, hex, uncut_of_within hS hdict hh hW hc (Real.sqrt_nonneg _) hex.toCloseStates, ?_⟩
  · intro weight es' psis' hlow' i hi hi'
    classical
    have hlow := hrun.lowest
    have hcfg : {F ∈ (range (nTotal (pdSystem b))).powerset | IsConfiguration [(1, b 1), (2, b 2)] (pdSystem b) P F} = configs := by
      ext F
      rw [mem_filter, mem_powerset, hconf]
    have hlow : LowestStates (nTotal (pdSystem b)) S.hOp 1e-12 1e-7 configs o.energies psis := by
      rw [← hcfg]
      convert hlow
    have := C84_energies hrun.inside hdict hh (fun F hF => ((hconf F).1 hF).1) hlow hlow' i hi hi'
    rwa [show Real.sqrt (1e-12) = 1e-6 by
      rw [show (1e-12 : ℝ) = 1e-6 ^ 2 by norm_num]
      exact Real.sqrt_sq (by norm_num)] at this

end

/-- C84: by which factors the operators make vectors longer. -/
theorem C84_bounded (n : ℕ) (gaunt : ℕ → ℕ → ℕ → ℤ → ℤ → ℤ → ℝ) (b : ℕ → ℕ) (ε : Vec3 ℂ) (S : SimulateArgs) (q : ℝ) :
    (∀ i, BoundedBy n (create i) 1 ∧ BoundedBy n (annihilate i) 1) ∧
    (∃ t, BoundedBy n (dipolePD gaunt b ε) t) ∧ (∃ t, BoundedBy n (dipoleDP gaunt b ε) t) ∧
    ∃ t, BoundedBy n (planeWaveDD S b q) t :=
  ⟨fun i => ⟨boundedBy_create n i, boundedBy_annihilate n i⟩, ⟨_, boundedBy_between _ _ _ _ _⟩,
    ⟨_, boundedBy_between _ _ _ _ _⟩, ⟨_, (boundedBy_between _ _ _ _ _).smul _⟩⟩

/-- The hypotheses of `C84_main` are met: three ranks, any temperature. -/
example (sphHarm : SphHarm) (jn : SphericalJn) (T : ℝ) (hT : 0 < T) (radial : List (ℝ × ℝ)) (configs : Finset (Finset ℕ))
    (hconf : ∀ F, F ∈ configs ↔ F ⊆ range (nTotal (pdSystem fun _ => 0)) ∧
      IsConfiguration [(1, 0), (2, 0)] (pdSystem fun _ => 0) holeParams F) :
    ∃ (L : MainLib) (o : MainOutput) (psis : _) (S : _) (x : ℕ → Vec ℂ),
      MainRun L (holeArgs 0 T radial) (fun _ => 0) holeParams 0 0 0 (holeLevels 0) o.energies psis S ∧
      PDUncut (fun _ => 0) S (pdHamiltonian L.gaunt (position (pdSystem fun _ => 0)) (holeArgs 0 T radial) (holeParams.n0 2) 0 0 0
        (holeLevels 0)) x (Real.sqrt (configs.card * 1e-7)) o.spectra := by
  obtain ⟨solver, hS, htot⟩ := exists_solver
  obtain ⟨o, ho⟩ := C64_example hS htot sphHarm jn one_pos hT radial
  have h1 := (ho 3 (by decide) (fun _ _ _ _ => holeOrders) (fun _ _ _ _ => holeOrders_valid) (fun _ _ => holeOrders)
    (fun _ _ => holeOrders_valid)).canFinish
  have hsolve : ExactSolver (holeLib solver sphHarm jn 1).solve := by
    intro d a y ha
    show a *ᵥ (a⁻¹ *ᵥ y) = y
    rw [Matrix.mulVec_mulVec, Matrix.mul_nonsing_inv a ((Matrix.isUnit_iff_isUnit_det a).1 ha), Matrix.one_mulVec]
  obtain ⟨psis, S, x, hrun, -, hsp, -⟩ := C84_main (holeArgs_valid 0 T radial) sympyGaunt_large (by decide)
    (fun _ _ _ _ => holeOrders_valid) (fun _ _ => holeOrders_valid) h1 rfl hS (holeArgs_documented 0 T radial)
    sympyGaunt_rules hsolve hconf
  exact ⟨_, o, psis, S, x, hrun, hsp⟩

end

end Verif
