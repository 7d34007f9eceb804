/-
C86: how the energies change with the Hamiltonian.
-/
import Verif.Lemmas.PerturbMain
import Verif.Prop.Variational

namespace Verif

open Finset Mpi Psr Spec

noncomputable section

section
variable {n : ℕ} {op op' : Op ℕ ℂ} (hop : OpInSystem n op) (hop' : OpInSystem n op') (hdict : Dict.NodupKeys op)
  (hdict' : Dict.NodupKeys op') (hh : isHermitianOp op) (hh' : isHermitianOp op') {cut cut' : ℝ}

include hop hop' hdict hdict' hh hh' in
theorem lowest_below {states : Finset (Finset ℕ)} (hst : ∀ S ∈ states, S ⊆ range n) {es es' : List ℝ}
    {x x' : ℕ → Finset ℕ → ℂ} (H : LowestIn states (storedElement op cut) es x)
    (H' : LowestIn states (storedElement op' cut') es' x') {c : ℝ}
    (hc : ∀ y : Finset ℕ → ℂ, (∑ S ∈ states, ∑ T ∈ states, star (y S) * matrixElement op S T * y T).re
      ≤ (∑ S ∈ states, ∑ T ∈ states, star (y S) * matrixElement op' S T * y T).re + c * ∑ S ∈ states, Complex.normSq (y S))
    (i : ℕ) (hi : i < es.length) (hi' : i < es'.length) :
    es[i] ≤ es'[i] + (c + (op.length * Real.sqrt cut + op'.length * Real.sqrt cut')) := by
  refine H.weyl H' (storedElement_hermitian hdict hop hh cut hst) (fun y => ?_) i hi hi'
  have h1 := (form_cut hop hdict hh cut hst y).1
  have h2 := (form_cut hop' hdict' hh' cut' hst y).2
  have h3 := hc y
  linarith

include hdict hdict' in
theorem form_strengths (hop : OpInSystem n op) (hop' : OpInSystem n op') (hh : isHermitianOp op) (hh' : isHermitianOp op')
    {s : Finset (Finset ℕ)} (hs : ∀ S ∈ s, S ⊆ range n) (y : Finset ℕ → ℂ) :
    (∑ S ∈ s, ∑ T ∈ s, star (y S) * matrixElement op S T * y T).re
      ≤ (∑ S ∈ s, ∑ T ∈ s, star (y S) * matrixElement op' S T * y T).re
        + strengthChange op op' * ∑ S ∈ s, Complex.normSq (y S) :=
  form_close (fun S hS T hT => matrixElement_hermitian hdict hop hh (hs S hS) (hs T hT))
    (fun S hS T hT => matrixElement_hermitian hdict' hop' hh' (hs S hS) (hs T hT))
    (fun T _ => matrixElement_change hdict hdict' s T) y

theorem strengthChange_comm (op op' : Op ℕ ℂ) : strengthChange op' op = strengthChange op op' := by
  unfold strengthChange
  rw [union_comm]
  exact sum_congr rfl fun p _ => norm_sub_rev _ _

include hop hop' hdict hdict' hh hh' in
theorem lowest_strengths {states : Finset (Finset ℕ)} (hst : ∀ S ∈ states, S ⊆ range n) {es es' : List ℝ}
    {x x' : ℕ → Finset ℕ → ℂ} (H : LowestIn states (storedElement op cut) es x)
    (H' : LowestIn states (storedElement op' cut') es' x') (i : ℕ) (hi : i < es.length) (hi' : i < es'.length) :
    |es[i] - es'[i]| ≤ strengthChange op op' + (op.length * Real.sqrt cut + op'.length * Real.sqrt cut') := by
  have h1 := lowest_below hop hop' hdict hdict' hh hh' hst H H' (form_strengths hdict hdict' hop hop' hh hh' hst) i hi hi'
  have h2 := lowest_below hop' hop hdict' hdict hh' hh hst H' H (form_strengths hdict' hdict hop' hop hh' hh hst) i hi' hi
  rw [strengthChange_comm] at h2
  rw [abs_le]
  constructor <;> linarith

/-- The lowest energy is a concave function of the operator. -/
theorem lowest_concave {states : Finset (Finset ℕ)} {opm : Op ℕ ℂ} {cutm t : ℝ} (hop : OpInSystem n op) (hop' : OpInSystem n op')
    (hopm : OpInSystem n opm) (hdict : Dict.NodupKeys op) (hdict' : Dict.NodupKeys op') (hdictm : Dict.NodupKeys opm)
    (hh : isHermitianOp op) (hh' : isHermitianOp op') (hhm : isHermitianOp opm) (hst : ∀ S ∈ states, S ⊆ range n)
    (ht : 0 ≤ t) (ht1 : t ≤ 1) (hm : OperatorBetween t (operator (opSpec op)) (operator (opSpec op')) (operator (opSpec opm)))
    {es es' esm : List ℝ} {x x' xm : ℕ → Finset ℕ → ℂ} (H : LowestIn states (storedElement op cut) es x)
    (H' : LowestIn states (storedElement op' cut') es' x') (Hm : LowestIn states (storedElement opm cutm) esm xm)
    (h0 : 0 < es.length) (h0' : 0 < es'.length) (h0m : 0 < esm.length) :
    t * es[0] + (1 - t : ℝ) * es'[0]
      ≤ esm[0] + (t * (op.length * Real.sqrt cut) + (1 - t) * (op'.length * Real.sqrt cut') + opm.length * Real.sqrt cutm) := by
  have hn : ∑ S ∈ states, Complex.normSq (xm 0 S) = 1 := by
    have h1 := Hm.ortho 0 h0m 0 h0m
    rw [if_pos rfl] at h1
    have h2 : ((∑ S ∈ states, Complex.normSq (xm 0 S) : ℝ) : ℂ) = 1 := by
      rw [← h1, Complex.ofReal_sum]
      exact sum_congr rfl fun S _ => Complex.normSq_eq_conj_mul_self
    exact_mod_cast h2
  have he : (∑ S ∈ states, ∑ T ∈ states, star (xm 0 S) * storedElement opm cutm S T * xm 0 T).re = esm[0] := by
    have h1 : ∀ S ∈ states, ∑ T ∈ states, star (xm 0 S) * storedElement opm cutm S T * xm 0 T
        = ((esm[0] * Complex.normSq (xm 0 S) : ℝ) : ℂ) := by
      intro S hS
      simp only [mul_assoc]
      rw [← mul_sum, Hm.eigen 0 h0m S hS]
      push_cast
      rw [Complex.normSq_eq_conj_mul_self]
      change star (xm 0 S) * _ = _ * (star (xm 0 S) * _)
      ring
    rw [sum_congr rfl h1, ← Complex.ofReal_sum, Complex.ofReal_re, ← mul_sum, hn, mul_one]
  have v1 := H.variational (storedElement_hermitian hdict hop hh cut hst) h0 (xm 0)
  have v2 := H'.variational (storedElement_hermitian hdict' hop' hh' cut' hst) h0' (xm 0)
  have c1 := (form_cut hop hdict hh cut hst (xm 0)).1
  have c2 := (form_cut hop' hdict' hh' cut' hst (xm 0)).1
  have c3 := (form_cut hopm hdictm hhm cutm hst (xm 0)).2
  rw [he] at c3
  rw [form_between hm (xm 0)] at c3
  rw [hn] at v1 v2 c1 c2 c3
  have m1 := mul_le_mul_of_nonneg_left (v1.trans c1) ht
  have m2 := mul_le_mul_of_nonneg_left (v2.trans c2) (sub_nonneg.2 ht1)
  simp only [mul_one, mul_add] at m1 m2 c3 ⊢
  linarith

include hop hop' hdict hdict' hh hh' in
/-- Energies that only depend on the product states. -/
theorem lowest_shifted {states : Finset (Finset ℕ)} (hst : ∀ S ∈ states, S ⊆ range n) {es es' : List ℝ} {x x' : ℕ → Finset ℕ → ℂ}
    (H : LowestIn states (storedElement op cut) es x) (H' : LowestIn states (storedElement op' cut') es' x') {q : Finset ℕ → ℝ}
    (hq : ShiftedBy (operator (opSpec op)) (operator (opSpec op')) q) {lo hi : ℝ} (hlo : ∀ S ∈ states, lo ≤ q S)
    (hhi : ∀ S ∈ states, q S ≤ hi) (i : ℕ) (hi' : i < es.length) (hi'' : i < es'.length) :
    lo - (op.length * Real.sqrt cut + op'.length * Real.sqrt cut') ≤ es'[i] - es[i] ∧
    es'[i] - es[i] ≤ hi + (op.length * Real.sqrt cut + op'.length * Real.sqrt cut') := by
  have h1 := lowest_below hop hop' hdict hdict' hh hh' hst H H' (c := -lo) (fun y => by
    rw [form_shifted hq y]
    have : lo * ∑ S ∈ states, Complex.normSq (y S) ≤ ∑ S ∈ states, q S * Complex.normSq (y S) := by
      rw [mul_sum]
      exact sum_le_sum fun S hS => mul_le_mul_of_nonneg_right (hlo S hS) (Complex.normSq_nonneg _)
    linarith) i hi' hi''
  have h2 := lowest_below hop' hop hdict' hdict hh' hh hst H' H (c := hi) (fun y => by
    rw [form_shifted hq y]
    have : ∑ S ∈ states, q S * Complex.normSq (y S) ≤ hi * ∑ S ∈ states, Complex.normSq (y S) := by
      rw [mul_sum]
      exact sum_le_sum fun S hS => mul_le_mul_of_nonneg_right (hhi S hS) (Complex.normSq_nonneg _)
    linarith) i hi'' hi'
  constructor <;> linarith

variable {solver solver' : EigenSolver} (hS : SolverCorrect solver) (hS' : SolverCorrect solver')
  {states : List (Finset ℕ)} (hnd : states.Nodup) (hst : ∀ S ∈ states, S ⊆ range n) {nPsiMax nPsiMax' : ℕ}
  {mode mode' : DiagMode} {weight weight' : ℝ} {ranks ranks' : ℕ} (hr : 0 < ranks) (hr' : 0 < ranks') {es es' : List ℝ}
  {psis psis' : List (Psi ℂ)}

include hop hop' hdict hdict' hh hh' hS hS' hnd hst hr hr' in
/-- C86, `eigensystem`.  If the strengths of the processes of the operator are changed, by whatever amounts, no energy changes
by more than the sum of these amounts, apart from the dropped matrix elements. -/
theorem C86_eigensystem
    (h : eigensystem solver n op cut (states.map (encBytes n)) nPsiMax mode weight ranks = .ok (es, psis))
    (h' : eigensystem solver' n op' cut' (states.map (encBytes n)) nPsiMax' mode' weight' ranks' = .ok (es', psis'))
    (i : ℕ) (hi : i < es.length) (hi' : i < es'.length) :
    |es[i] - es'[i]| ≤ strengthChange op op' + (op.length * Real.sqrt cut + op'.length * Real.sqrt cut') := by
  obtain ⟨x, H⟩ := eigensystem_lowest hS hop hdict hh hr hnd hst h
  obtain ⟨x', H'⟩ := eigensystem_lowest hS' hop' hdict' hh' hr' hnd hst h'
  exact lowest_strengths hop hop' hdict hdict' hh hh' (fun S hS => hst S (List.mem_toFinset.1 hS)) H H' i hi hi'

include hop hop' hdict hdict' hh hh' hS hS' hnd hst hr hr' in
/-- C86, `eigensystem`.  If an energy between `lo` and `hi` is added for each product state, all energies rise by at least `lo`
and at most `hi`, apart from the dropped matrix elements. -/
theorem C86_shifted
    (h : eigensystem solver n op cut (states.map (encBytes n)) nPsiMax mode weight ranks = .ok (es, psis))
    (h' : eigensystem solver' n op' cut' (states.map (encBytes n)) nPsiMax' mode' weight' ranks' = .ok (es', psis'))
    {q : Finset ℕ → ℝ} (hq : ShiftedBy (operator (opSpec op)) (operator (opSpec op')) q) {lo hi : ℝ}
    (hlo : ∀ S ∈ states, lo ≤ q S) (hhi : ∀ S ∈ states, q S ≤ hi) (i : ℕ) (hi' : i < es.length) (hi'' : i < es'.length) :
    lo - (op.length * Real.sqrt cut + op'.length * Real.sqrt cut') ≤ es'[i] - es[i] ∧
    es'[i] - es[i] ≤ hi + (op.length * Real.sqrt cut + op'.length * Real.sqrt cut') := by
  obtain ⟨x, H⟩ := eigensystem_lowest hS hop hdict hh hr hnd hst h
  obtain ⟨x', H'⟩ := eigensystem_lowest hS' hop' hdict' hh' hr' hnd hst h'
  exact lowest_shifted hop hop' hdict hdict' hh hh' (fun S hS => hst S (List.mem_toFinset.1 hS)) H H' hq
    (fun S hS => hlo S (List.mem_toFinset.1 hS)) (fun S hS => hhi S (List.mem_toFinset.1 hS)) i hi' hi''

include hop hop' hdict hdict' hh hh' hS hS' hnd hst hr hr' in
/-- C86, `eigensystem`.  The lowest energy is a concave function of the operator, apart from the dropped matrix elements. -/
theorem C86_concave {opm : Op ℕ ℂ} (hopm : OpInSystem n opm) (hdictm : Dict.NodupKeys opm) (hhm : isHermitianOp opm) {cutm t : ℝ}
    {solverm : EigenSolver} (hSm : SolverCorrect solverm) {nPsiMaxm : ℕ} {modem : DiagMode} {weightm : ℝ} {ranksm : ℕ}
    (hrm : 0 < ranksm) {esm : List ℝ} {psism : List (Psi ℂ)} (ht : 0 ≤ t) (ht1 : t ≤ 1)
    (hm : OperatorBetween t (operator (opSpec op)) (operator (opSpec op')) (operator (opSpec opm)))
    (h : eigensystem solver n op cut (states.map (encBytes n)) nPsiMax mode weight ranks = .ok (es, psis))
    (h' : eigensystem solver' n op' cut' (states.map (encBytes n)) nPsiMax' mode' weight' ranks' = .ok (es', psis'))
    (h'' : eigensystem solverm n opm cutm (states.map (encBytes n)) nPsiMaxm modem weightm ranksm = .ok (esm, psism))
    (h0 : 0 < es.length) (h0' : 0 < es'.length) (h0m : 0 < esm.length) :
    t * es[0] + (1 - t : ℝ) * es'[0]
      ≤ esm[0] + (t * (op.length * Real.sqrt cut) + (1 - t) * (op'.length * Real.sqrt cut') + opm.length * Real.sqrt cutm) := by
  obtain ⟨x, H⟩ := eigensystem_lowest hS hop hdict hh hr hnd hst h
  obtain ⟨x', H'⟩ := eigensystem_lowest hS' hop' hdict' hh' hr' hnd hst h'
  obtain ⟨xm, Hm⟩ := eigensystem_lowest hSm hopm hdictm hhm hrm hnd hst h''
  exact lowest_concave hop hop' hopm hdict hdict' hdictm hh hh' hhm (fun S hS => hst S (List.mem_toFinset.1 hS)) ht ht1 hm H H' Hm
    h0 h0' h0m

end

/-! ### main -/

theorem sqrt_cutoff : Real.sqrt (1e-12) = 1e-6 := by
  rw [show (1e-12 : ℝ) = 1e-6 ^ 2 by norm_num, Real.sqrt_sq (by norm_num)]

section
variable {L L' : MainLib} {A A' : MainArgs} (hA : A.Valid) (hA' : A'.Valid) (hG : GauntLarge L.gaunt A.ls) {N N' : ℕ}
  (hN : 0 < N) (hN' : 0 < N')
  {ord : Fin N → ℕ → ℕ → ℕ → SetOrders} (hord : ∀ k c t i, (ord k c t i).Valid)
  {ordRixs : Fin N → List ℕ → SetOrders} (hordR : ∀ k l, (ordRixs k l).Valid) {out : Fin N → Option MainOutput}
  (hfin : CanFinish msgSum (fun k : Fin N => mainRank L A (ord k) (ordRixs k) k.val N) out)
  {o o' : MainOutput} (ho : out ⟨0, hN⟩ = some o)
  {ord' : Fin N' → ℕ → ℕ → ℕ → SetOrders} (hord' : ∀ k c t i, (ord' k c t i).Valid)
  {ordRixs' : Fin N' → List ℕ → SetOrders} (hordR' : ∀ k l, (ordRixs' k l).Valid) {out' : Fin N' → Option MainOutput}
  (hfin' : CanFinish msgSum (fun k : Fin N' => mainRank L' A' (ord' k) (ordRixs' k) k.val N') out')
  (ho' : out' ⟨0, hN'⟩ = some o')
  (hL : SolverCorrect L.solver) (hL' : SolverCorrect L'.solver) (hgaunt : L'.gaunt = L.gaunt)
  {b : ℕ → ℕ} {P : BasisParams} {hx hy hz hx' hy' hz' : ℝ} {h0 h0' : Op Label ℂ}
  (hD : Documented A b P hx hy hz h0) (hD' : Documented A' b P hx' hy' hz' h0')

include hA hA' hG hord hordR hfin ho hord' hordR' hfin' ho' hL hL' hgaunt hD hD' in
/-- C86.  Two finished runs of main with different magnetic fields, spin-orbit couplings and non-interacting operators: no
energy differs by more than the sum of the magnitudes of the changes, plus `1e-6` for each process of the two Hamiltonians. -/
theorem C86_main (hI : SameInteraction { A with xi2p := A'.xi2p, xi3d := A'.xi3d } A') (hnd : Dict.NodupKeys h0)
    (hnd' : Dict.NodupKeys h0') :
    ∃ psis S psis' S', MainRun L A b P hx hy hz h0 o.energies psis S ∧ MainRun L' A' b P hx' hy' hz' h0' o'.energies psis' S' ∧
      ∀ i (hi : i < o.energies.length) (hi' : i < o'.energies.length), |o.energies[i] - o'.energies[i]|
        ≤ oneBodyChange hx hy hz hx' hy' hz' A.xi2p A.xi3d A'.xi2p A'.xi3d h0 h0' + (S.hOp.length + S'.hOp.length) * 1e-6 := by
  classical
  have hG' : GauntLarge L'.gaunt A'.ls := by
    rw [hgaunt, hD'.ls, ← hD.ls]; exact hG
  obtain ⟨psis, S, hrun, -⟩ := C65_run hA hG hN hord hordR hfin ho hL hD
  obtain ⟨psis', S', hrun', -⟩ := C65_run hA' hG' hN' hord' hordR' hfin' ho' hL' hD'
  obtain ⟨x, H⟩ := lowestIn_of hrun.lowest
  obtain ⟨x', H'⟩ := lowestIn_of hrun'.lowest
  refine ⟨psis, S, psis', S', hrun, hrun', fun i hi hi' => ?_⟩
  have hst : ∀ F ∈ ({F ∈ (range (nTotal (pdSystem b))).powerset | IsConfiguration [(1, b 1), (2, b 2)] (pdSystem b) P F} :
      Finset (Finset ℕ)), F ⊆ range (nTotal (pdSystem b)) := fun F hF => mem_powerset.1 (mem_filter.1 hF).1
  set states : Finset (Finset ℕ) := {F ∈ (range (nTotal (pdSystem b))).powerset |
    IsConfiguration [(1, b 1), (2, b 2)] (pdSystem b) P F} with hstates
  have hcol : ∀ T ∈ states, ∑ F ∈ states, ‖matrixElement S.hOp F T - matrixElement S'.hOp F T‖
      ≤ oneBodyChange hx hy hz hx' hy' hz' A.xi2p A.xi3d A'.xi2p A'.xi3d h0 h0' := by
    intro T _
    refine le_trans (le_of_eq (sum_congr rfl fun F _ => ?_))
      (pdHamiltonian_oneBody (b := b) (gaunt := L.gaunt) hI (P.n0 2) hnd hnd' states T)
    unfold matrixElement
    rw [hrun.hamiltonian, hrun'.hamiltonian, hgaunt]
  have hher : ∀ F ∈ states, ∀ G ∈ states, matrixElement S.hOp F G = star (matrixElement S.hOp G F) := fun F hF G hG =>
    matrixElement_hermitian hrun.dict.1 hrun.inside hrun.dict.2 (hst F hF) (hst G hG)
  have hher' : ∀ F ∈ states, ∀ G ∈ states, matrixElement S'.hOp F G = star (matrixElement S'.hOp G F) := fun F hF G hG =>
    matrixElement_hermitian hrun'.dict.1 hrun'.inside hrun'.dict.2 (hst F hF) (hst G hG)
  have h1 := lowest_below hrun.inside hrun'.inside hrun.dict.1 hrun'.dict.1 hrun.dict.2 hrun'.dict.2 hst H H'
    (form_close hher hher' hcol) i hi hi'
  have h2 := lowest_below hrun'.inside hrun.inside hrun'.dict.1 hrun.dict.1 hrun'.dict.2 hrun.dict.2 hst H' H
    (form_close hher' hher fun T hT => by
      simp only [norm_sub_rev (matrixElement S'.hOp _ _)]
      exact hcol T hT) i hi' hi
  rw [sqrt_cutoff] at h1 h2
  rw [abs_le]
  constructor <;> linarith

include hA hA' hG hord hordR hfin ho hord' hordR' hfin' ho' hL hL' hD hD' in
/-- C86.  Two finished runs of main whose parameters `F⁰`, charge-transfer corrections and shell levels differ: all energies
rise by at least the smallest and at most the largest cost of an allowed configuration, apart from `1e-6` for each process of
the two Hamiltonians. -/
theorem C86_monopoles (hgaunt : L.gaunt = sympyGaunt) (hgaunt' : L'.gaunt = sympyGaunt) {udd upp upd c ed ep : ℝ}
    (hI : SameInteraction (raiseMonopoles A udd upp upd c) A') (hfield : (hx', hy', hz') = (hx, hy, hz))
    (hlev : LevelsRaised b h0 h0' ed ep) :
    ∃ psis S psis' S', MainRun L A b P hx hy hz h0 o.energies psis S ∧ MainRun L' A' b P hx' hy' hz' h0' o'.energies psis' S' ∧
      ∀ lo hi : ℝ, (∀ F ⊆ range (nTotal (pdSystem b)), IsConfiguration [(1, b 1), (2, b 2)] (pdSystem b) P F →
        ∀ nd np : ℕ, nd = (F ∩ impOrbs (pdSystem b) 2).card → np = (F ∩ impOrbs (pdSystem b) 1).card →
        lo ≤ monopoleEnergy udd upp upd c (P.n0 2) nd np + ed * nd + ep * np ∧
        monopoleEnergy udd upp upd c (P.n0 2) nd np + ed * nd + ep * np ≤ hi) →
      ∀ i (hi1 : i < o.energies.length) (hi2 : i < o'.energies.length),
        lo - (S.hOp.length + S'.hOp.length) * 1e-6 ≤ o'.energies[i] - o.energies[i] ∧
        o'.energies[i] - o.energies[i] ≤ hi + (S.hOp.length + S'.hOp.length) * 1e-6 := by
  classical
  obtain ⟨rfl, rfl, rfl⟩ := by simpa using hfield
  have hG' : GauntLarge L'.gaunt A'.ls := by
    rw [hgaunt', ← hgaunt, hD'.ls, ← hD.ls]; exact hG
  obtain ⟨psis, S, hrun, -⟩ := C65_run hA hG hN hord hordR hfin ho hL hD
  obtain ⟨psis', S', hrun', -⟩ := C65_run hA' hG' hN' hord' hordR' hfin' ho' hL' hD'
  obtain ⟨x, H⟩ := lowestIn_of hrun.lowest
  obtain ⟨x', H'⟩ := lowestIn_of hrun'.lowest
  refine ⟨psis, S, psis', S', hrun, hrun', fun lo hi hq i hi1 hi2 => ?_⟩
  have hst : ∀ F ∈ ({F ∈ (range (nTotal (pdSystem b))).powerset | IsConfiguration [(1, b 1), (2, b 2)] (pdSystem b) P F} :
      Finset (Finset ℕ)), F ⊆ range (nTotal (pdSystem b)) := fun F hF => mem_powerset.1 (mem_filter.1 hF).1
  have hF1 : A.Fdd ≠ [] := fun e => by have := hD.Fdd; rw [e] at this; simp at this
  have hF2 : A.Fpp ≠ [] := fun e => by have := hD.Fpp; rw [e] at this; simp at this
  have hF3 : A.Fpd ≠ [] := fun e => by have := hD.Fpd; rw [e] at this; simp at this
  have hs : ShiftedBy (operator (opSpec S.hOp)) (operator (opSpec S'.hOp)) fun F =>
      monopoleEnergy udd upp upd c (P.n0 2) (F ∩ impOrbs (pdSystem b) 2).card (F ∩ impOrbs (pdSystem b) 1).card
        + ed * (F ∩ impOrbs (pdSystem b) 2).card + ep * (F ∩ impOrbs (pdSystem b) 1).card := by
    intro v F
    rw [hrun.hamiltonian, hrun'.hamiltonian, hgaunt, hgaunt', pdHamiltonian_same hI]
    have h1 := pdHamiltonian_raise (b := b) hF1 hF2 hF3 udd upp upd c (P.n0 2) hx' hy' hz' h0 v F
    have h2 := hlev v F
    unfold pdHamiltonian at h1 ⊢
    rw [h2]
    push_cast at h1 ⊢
    linear_combination h1
  have := lowest_shifted hrun.inside hrun'.inside hrun.dict.1 hrun'.dict.1 hrun.dict.2 hrun'.dict.2 hst H H' hs
    (fun F hF => (hq F (hst F hF) (mem_filter.1 hF).2 _ _ rfl rfl).1)
    (fun F hF => (hq F (hst F hF) (mem_filter.1 hF).2 _ _ rfl rfl).2) i hi1 hi2
  rw [sqrt_cutoff] at this
  constructor <;> linarith [this.1, this.2]

end

/-- C86.  The lowest energy of main is a concave function of all parameters of the Hamiltonian together: Slater-Condon
parameters, spin-orbit couplings, magnetic field, charge-transfer correction and non-interacting operator, apart from `1e-6`
for each process of the Hamiltonians. -/
theorem C86_main_concave {L L' Lm : MainLib} {A A' Am : MainArgs} {b : ℕ → ℕ} {P : BasisParams}
    {hx hy hz hx' hy' hz' t : ℝ} {h0 h0' h0m : Op Label ℂ} {es es' esm : List ℝ} {psis psis' psism : List (Psi ℂ)}
    {S S' Sm : SimulateArgs} (hrun : MainRun L A b P hx hy hz h0 es psis S)
    (hrun' : MainRun L' A' b P hx' hy' hz' h0' es' psis' S')
    (hrunm : MainRun Lm Am b P (t * hx + (1 - t) * hx') (t * hy + (1 - t) * hy') (t * hz + (1 - t) * hz') h0m esm psism Sm)
    (hgaunt : L'.gaunt = L.gaunt) (hgauntm : Lm.gaunt = L.gaunt) (ht : 0 ≤ t) (ht1 : t ≤ 1) (hI : InteractionBetween t A A' Am)
    (hb : OperatorBetween t (operator (labelSpec (position (pdSystem b)) h0)) (operator (labelSpec (position (pdSystem b)) h0'))
      (operator (labelSpec (position (pdSystem b)) h0m))) :
    ∃ (p : 0 < es.length) (p' : 0 < es'.length) (pm : 0 < esm.length),
      t * es[0] + (1 - t : ℝ) * es'[0]
        ≤ esm[0] + (t * S.hOp.length + (1 - t : ℝ) * S'.hOp.length + Sm.hOp.length) * 1e-6 := by
  classical
  obtain ⟨x, H⟩ := lowestIn_of hrun.lowest
  obtain ⟨x', H'⟩ := lowestIn_of hrun'.lowest
  obtain ⟨xm, Hm⟩ := lowestIn_of hrunm.lowest
  have q := List.length_pos_iff.2 hrun.nonempty.1
  have q' := List.length_pos_iff.2 hrun'.nonempty.1
  have qm := List.length_pos_iff.2 hrunm.nonempty.1
  refine ⟨q, q', qm, ?_⟩
  have := lowest_concave hrun.inside hrun'.inside hrunm.inside hrun.dict.1 hrun'.dict.1 hrunm.dict.1 hrun.dict.2 hrun'.dict.2
    hrunm.dict.2 (fun F hF => mem_powerset.1 (mem_filter.1 hF).1) ht ht1 (fun v F => by
      rw [hrun.hamiltonian, hrun'.hamiltonian, hrunm.hamiltonian, hgaunt, hgauntm]
      exact pdHamiltonian_between hI hb _ _ _ _ _ _ _ v F) H H' Hm q q' qm
  rw [sqrt_cutoff] at this
  linarith

end

end Verif
