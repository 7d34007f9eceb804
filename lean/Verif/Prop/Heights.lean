/-
C108: how high and how steep a spectrum can be.
-/
import Verif.Lemmas.Heights
import Verif.Prop.Thresholds

namespace Verif

open Spec Finset Psr Mpi

noncomputable section

/-! ### Lanczos vectors -/

/-- C108, the curve.  A spectrum with the weights of C96 is at no energy negative or higher than its weight divided by the broadening,
and between two energies it changes by at most its weight times their distance divided by the square of the broadening. -/
theorem C108_curve {n : ℕ} {H : Vec ℂ → Vec ℂ} {v : Vec ℂ} {k : ℕ} (hk : 0 < k) {L : List (ℝ × ℝ)} (hL : IsGauss n H v k L) {δ : ℝ}
    (hδ : 0 < δ) (f : ℝ → ℝ) (hf : ∀ x : ℝ, f x = -(lehmann L ((x : ℂ) + Complex.I * δ)).im) :
    (∀ x, 0 ≤ f x ∧ f x ≤ Spec.normSq n v / δ) ∧ ∀ x x', |f x - f x'| ≤ Spec.normSq n v * |x - x'| / δ ^ 2 := by
  have h := gentle_lehmann hδ hL.2.1
  rw [gauss_weight hk hL, ← funext hf] at h
  exact ⟨fun x => ⟨h.low x, h.high x⟩, h.slope⟩

/-! ### main -/

/-- The states that contribute to the spectra have at most norm 1. -/
theorem kept_norm {L : MainLib} {A : MainArgs} {b : ℕ → ℕ} {P : BasisParams} {hx hy hz : ℝ} {h0 : Op Label ℂ} {energies : List ℝ}
    {psis : List (Psi ℂ)} {S : SimulateArgs} (hrun : MainRun L A b P hx hy hz h0 energies psis S) {i : ℕ} (hi : i < S.es.length) :
    Spec.normSq (size S) (ampl (size S) (S.psis.getD i [])) ≤ 1 := by
  classical
  have hi' : i < S.psis.length := by rw [hrun.kept.1]; exact hi
  obtain ⟨lowest, hm, hle⟩ : ∃ e ∈ energies, ∀ e' ∈ energies, e ≤ e' := by
    have hne : energies.toFinset.Nonempty := by
      rw [List.toFinset_nonempty_iff]; exact hrun.nonempty.1
    exact ⟨energies.toFinset.min' hne, List.mem_toFinset.1 (min'_mem _ _), fun e' he => min'_le _ _ (List.mem_toFinset.2 he)⟩
  have hz := hrun.kept.2 lowest hm hle
  have hmem : (S.es[i], S.psis[i]) ∈ S.es.zip S.psis := by
    have : (S.es.zip S.psis)[i]'(by rw [List.length_zip]; omega) = (S.es[i], S.psis[i]) := List.getElem_zip ..
    rw [← this]
    exact List.getElem_mem _
  rw [hz] at hmem
  have h1 := (List.of_mem_zip (List.mem_filter.1 hmem).1).2
  obtain ⟨j, hj, he⟩ := List.mem_iff_getElem.1 h1
  obtain ⟨-, hlen, x, x1, -, -, x2⟩ := hrun.lowest
  have hsz : size S = nTotal (pdSystem b) := by
    unfold size
    rw [hrun.system]
    rfl
  rw [List.getD_eq_getElem _ _ hi', ← he, hsz]
  have h1 := x1 j (by omega) j (by omega)
  rw [if_pos rfl] at h1
  have hsq : ∀ z : ℂ, (star z * z).re = Complex.normSq z := by
    intro z
    have := congrArg Complex.re (Complex.normSq_eq_conj_mul_self (z := z))
    rw [Complex.ofReal_re] at this
    exact this.symm
  have h2 := congrArg Complex.re h1
  rw [Complex.re_sum, sum_filter, Complex.one_re] at h2
  rw [← h2]
  unfold Spec.normSq
  refine sum_le_sum fun F hF => ?_
  rw [(x2 j hj).2 F, hsq]
  by_cases hc : IsConfiguration [(1, b 1), (2, b 2)] (pdSystem b) P F
  · rw [if_pos hc]
    split
    · exact le_rfl
    · simp [Complex.normSq_nonneg]
  · rw [if_neg hc, if_neg (by simp [hc])]
    simp

section
variable {L : MainLib} {A : MainArgs} (hA : A.Valid) (hG : GauntLarge L.gaunt A.ls) {N : ℕ} (hN : 0 < N)
  {ord : Fin N → ℕ → ℕ → ℕ → SetOrders} (hord : ∀ k c t i, (ord k c t i).Valid)
  {ordRixs : Fin N → List ℕ → SetOrders} (hordR : ∀ k l, (ordRixs k l).Valid) {out : Fin N → Option MainOutput}
  (hfin : CanFinish msgSum (fun k : Fin N => mainRank L A (ord k) (ordRixs k) k.val N) out)
  {o : MainOutput} (ho : out ⟨0, hN⟩ = some o)
variable (hL : SolverCorrect L.solver) {b : ℕ → ℕ} {P : BasisParams} {hx hy hz : ℝ} {h0 : Op Label ℂ}
  (hD : Documented A b P hx hy hz h0)

include hA hG hord hordR hfin ho hL hD in
/-- C108, the files of main.  In a finished run with broadening `delta` no column of the text files of photoemission and XPS is higher
than `1/delta`, their sums are at most `10/delta` and `6/delta`, and their slopes at most `1/delta²`, `10/delta²` and `6/delta²`.
If the p shell is full in all configurations, the same holds for XAS with 4. -/
theorem C108_main (hR : GauntRules L.gaunt) (hδ : 0 < A.delta) :
    BoundedTable 10 A.delta 1 10 o.spectra.ps.table ∧ BoundedTable 6 A.delta 1 6 o.spectra.xps.table ∧
    (DipoleTable L.gaunt → P.tol 1 = 0 → BoundedTable 3 A.delta 4 4 o.spectra.xas.table) := by
  obtain ⟨psis, S, hrun, hS, hout, hall⟩ := C65_run hA hG hN hord hordR hfin ho hL hD
  have hfin' := (hall N hN ord hord ordRixs hordR).canFinish
  have hM := mainRun_moments hG hN hord hordR hD hR hrun.toMainPrepared hS hout hfin'
  obtain ⟨f1, f2, -, f3⟩ := C63_tables hS hout hN hord hordR hfin' rfl
  have hlen : S.epsilons.length = 3 := by rw [hrun.args.epsilons]; rfl
  rw [hlen] at f3
  have hne : S.es ≠ [] := hrun.nonempty.2
  have hd := hrun.args.delta
  have hsz : size S = nTotal (pdSystem b) := by unfold size; rw [hrun.system]; rfl
  have z1 : ∀ w e : ℝ, (w : ℂ) + Complex.I * (A.delta : ℂ) + (e : ℂ) = ((w + e : ℝ) : ℂ) + Complex.I * (A.delta : ℂ) := fun w e => by
    push_cast; ring
  have z2 : ∀ w e : ℝ, -((w : ℂ) + Complex.I * (A.delta : ℂ)) + (e : ℂ) = ((-w + e : ℝ) : ℂ) - Complex.I * (A.delta : ℂ) := fun w e => by
    push_cast; ring
  have s1 : ∀ e x x' : ℝ, |(x + e) - (x' + e)| = |x - x'| := fun e x x' => by rw [add_sub_add_right_eq_sub]
  have s2 : ∀ e x x' : ℝ, |(-x + e) - (-x' + e)| = |x - x'| := fun e x x' => by
    rw [add_sub_add_right_eq_sub, neg_sub_neg, abs_sub_comm]
  refine ⟨?_, ?_, fun hT htol => ?_⟩
  · have key : ∀ i, ∃ F : ℕ → ℝ → ℝ, i < S.es.length → ∀ j < 10, Gentle A.delta 1 (F j) ∧
        ∀ k (hk : k < S.w.length), o.spectra.ps.data i j k = F j S.w[k] := by
      intro i
      have : ∀ j, ∃ F : ℝ → ℝ, i < S.es.length → j < 10 → Gentle A.delta 1 F ∧
          ∀ k (hk : k < S.w.length), o.spectra.ps.data i j k = F S.w[k] := by
        intro j
        by_cases hi : i < S.es.length
        swap
        · exact ⟨fun _ => 0, fun h => absurd h hi⟩
        by_cases hj : j < 10
        swap
        · exact ⟨fun _ => 0, fun _ h => absurd h hj⟩
        obtain ⟨add, rem, g1, g2, g3⟩ := hM.photoemission i j hi hj _ rfl
        have hxs : impStart (pdSystem b) 2 + j < size S := by
          rw [hsz, pd_total, pd_start2]; omega
        have hsum := (C72_sum_rule S i _ hxs).1
        have a := (gentle_lehmann hδ g1.2.1).comp (s1 (S.es.getD i 0))
        have r := (gentle_lehmann hδ g2.2.1).comp (s2 (S.es.getD i 0))
        rw [gauss_weight (by norm_num) g1] at a
        rw [gauss_weight (by norm_num) g2] at r
        refine ⟨_, fun _ _ => ⟨(a.add r).mono hδ (hsum.trans (kept_norm hrun hi)), fun k hk => ?_⟩⟩
        rw [g3 k hk, hd, z1, z2, lehmann_conj_im]
      choose F hF using this
      exact ⟨F, fun hi j hj => hF j hi hj⟩
    choose F hF using key
    refine bounded_table f1 hne (fun i hi t ht k hk => (hF i hi t ht).2 k hk) (fun i hi t ht => (hF i hi t ht).1) fun i hi => ?_
    have := gentle_sum 10 fun t ht => (hF i hi t ht).1
    simpa using this
  · have key : ∀ i, ∃ F : ℕ → ℝ → ℝ, i < S.es.length → ∀ j < 6, Gentle A.delta 1 (F j) ∧
        ∀ k (hk : k < S.w.length), o.spectra.xps.data i j k = F j S.w[k] := by
      intro i
      have : ∀ j, ∃ F : ℝ → ℝ, i < S.es.length → j < 6 → Gentle A.delta 1 F ∧
          ∀ k (hk : k < S.w.length), o.spectra.xps.data i j k = F S.w[k] := by
        intro j
        by_cases hi : i < S.es.length
        swap
        · exact ⟨fun _ => 0, fun h => absurd h hi⟩
        by_cases hj : j < 6
        swap
        · exact ⟨fun _ => 0, fun _ h => absurd h hj⟩
        obtain ⟨rem, g2, g3⟩ := hM.xps i j hi hj _ rfl
        have hxs : impStart (pdSystem b) 1 + j < size S := by
          rw [hsz, pd_total, pd_start1]; omega
        have hsum := (le_add_of_nonneg_left (normSq_nonneg _ _)).trans (C72_sum_rule S i _ hxs).1
        have r := (gentle_lehmann hδ g2.2.1).comp (s2 (S.es.getD i 0))
        rw [gauss_weight (by norm_num) g2] at r
        refine ⟨_, fun _ _ => ⟨r.mono hδ (hsum.trans (kept_norm hrun hi)), fun k hk => ?_⟩⟩
        rw [g3 k hk, hd, z2, lehmann_conj_im]
      choose F hF using this
      exact ⟨F, fun hi j hj => hF j hi hj⟩
    choose F hF using key
    refine bounded_table f2 hne (fun i hi t ht k hk => (hF i hi t ht).2 k hk) (fun i hi t ht => (hF i hi t ht).1) fun i hi => ?_
    have := gentle_sum 6 fun t ht => (hF i hi t ht).1
    simpa using this
  · have key : ∀ i, ∃ X : ℕ → List (ℝ × ℝ), i < S.es.length → (∀ c < 3, (∀ p ∈ X c, 0 ≤ p.2) ∧
        ∀ k (hk : k < S.w.length), o.spectra.xas.data i c k
            = -(lehmann (X c) ((S.w[k] : ℂ) + Complex.I * S.delta + (S.es.getD i 0 : ℂ))).im) ∧
        totalWeight (X 0) + totalWeight (X 1) + totalWeight (X 2) ≤ 4 := by
      intro i
      by_cases hi : i < S.es.length
      swap
      · exact ⟨fun _ => [], fun h => absurd h hi⟩
      obtain ⟨t, X, ht, hX, hle, -⟩ := xas_weights hrun hM hT htol hi
      refine ⟨X, fun _ => ⟨fun c hc => ⟨(hX c hc).1, (hX c hc).2.1⟩, hle.trans ?_⟩⟩
      obtain ⟨hst, -⟩ := kept_configuration hrun hi
      have hn : (norm2 (S.psis.getD i []) : ℝ) ≤ 1 := by
        rw [show (norm2 (S.psis.getD i []) : ℝ) = _ from norm2_eq hst]
        exact kept_norm hrun hi
      have hnd : Dict.NodupKeys S.nBaths := by rw [hrun.system]; simp [Dict.NodupKeys, Dict.keys]
      have hl : 2 ∈ Dict.keys S.nBaths := by rw [hrun.system]; simp [Dict.keys]
      have hsz' : nSpinOrbitals S.nBaths = size S := nSpinOrbitals_eq _
      have htr := getTraceDensityMatrix_spec hnd hl (psi := S.psis.getD i []) (by rw [hsz']; exact hst)
      rw [ht] at htr
      have h0 : 0 ≤ t := by
        injection htr with e
        rw [e]
        exact sum_nonneg fun F _ => mul_nonneg (sum_nonneg fun x _ => by split <;> norm_num) (Complex.normSq_nonneg _)
      linarith
    choose X hX using key
    have hF : ∀ i < S.es.length, ∀ c < 3, Gentle A.delta (totalWeight (X i c)) fun x =>
        -(lehmann (X i c) (((x + S.es.getD i 0 : ℝ) : ℂ) + Complex.I * A.delta)).im :=
      fun i hi c hc => (gentle_lehmann hδ ((hX i hi).1 c hc).1).comp (s1 (S.es.getD i 0))
    have hw : ∀ i < S.es.length, ∀ c < 3, 0 ≤ totalWeight (X i c) := fun i hi c hc => by
      unfold totalWeight
      refine List.sum_nonneg fun y hy => ?_
      obtain ⟨p, hp, rfl⟩ := List.mem_map.1 hy
      exact ((hX i hi).1 c hc).1 p hp
    refine bounded_table (F := fun i c x => -(lehmann (X i c) (((x + S.es.getD i 0 : ℝ) : ℂ) + Complex.I * A.delta)).im) f3 hne
      (fun i hi c hc k hk => ?_) (fun i hi c hc => ?_) fun i hi => ?_
    · rw [((hX i hi).1 c hc).2 k hk, hd, z1]
    · refine (hF i hi c hc).mono hδ ?_
      have := (hX i hi).2
      have w0 := hw i hi 0 (by norm_num)
      have w1 := hw i hi 1 (by norm_num)
      have w2 := hw i hi 2 (by norm_num)
      interval_cases c <;> linarith
    · refine (gentle_sum 3 fun c hc => hF i hi c hc).mono hδ ?_
      simp only [sum_range_succ, range_zero, sum_empty, zero_add]
      exact (hX i hi).2

include hA hG hord hordR hfin ho hL hD in
/-- C108, XAS and the d holes.  If the p shell is full in all configurations, the XAS of an eigenstate, summed over the three
polarisations, is at no energy higher than 2/5 times its number of d holes divided by the broadening: an eigenstate with a full
d shell absorbs nothing. -/
theorem C108_holes (hR : GauntRules L.gaunt) (hT : DipoleTable L.gaunt) (htol : P.tol 1 = 0) (hδ : 0 < A.delta) :
    ∃ psis S, MainRun L A b P hx hy hz h0 o.energies psis S ∧ ∀ i < S.es.length,
      ∃ d : ℝ, getTraceDensityMatrix S.nBaths (S.psis.getD i []) 2 = .ok d ∧ ∀ k < S.w.length,
        (∀ c < 3, 0 ≤ o.spectra.xas.data i c k) ∧
        ∑ c ∈ range 3, o.spectra.xas.data i c k ≤ 2 / 5 * (10 * norm2 (S.psis.getD i []) - d) / A.delta := by
  obtain ⟨psis, S, hrun, hM⟩ := C96_main hA hG hN hord hordR hfin ho hL hD hR
  refine ⟨psis, S, hrun, fun i hi => ?_⟩
  obtain ⟨d, X, hd, hX, hle, -⟩ := xas_weights hrun hM hT htol hi
  refine ⟨d, hd, fun k hk => ?_⟩
  have z1 : ∀ w e : ℝ, (w : ℂ) + Complex.I * (A.delta : ℂ) + (e : ℂ) = ((w + e : ℝ) : ℂ) + Complex.I * (A.delta : ℂ) := fun w e => by
    push_cast; ring
  have hv : ∀ c < 3, o.spectra.xas.data i c k
      = -(lehmann (X c) (((S.w[k] + S.es.getD i 0 : ℝ) : ℂ) + Complex.I * A.delta)).im := fun c hc => by
    rw [(hX c hc).2.1 k hk, hrun.args.delta, z1]
  have hg : ∀ c < 3, Gentle A.delta (totalWeight (X c)) _ := fun c hc => gentle_lehmann hδ (hX c hc).1
  have h0 : ∀ c < 3, 0 ≤ o.spectra.xas.data i c k := fun c hc => by rw [hv c hc]; exact (hg c hc).low _
  have h1 : ∑ c ∈ range 3, o.spectra.xas.data i c k ≤ 2 / 5 * (10 * norm2 (S.psis.getD i []) - d) / A.delta := by
    have := ((gentle_sum 3 hg).mono hδ (by
      simp only [sum_range_succ, range_zero, sum_empty, zero_add]
      exact hle)).high (S.w[k] + S.es.getD i 0)
    rw [sum_congr rfl fun c hc => hv c (mem_range.1 hc)]
    exact this
  exact ⟨h0, h1⟩

end

/-! ### Non-vacuity -/

/-- The hypotheses of `C108_main` and `C108_holes` are met: three ranks, any temperature, one d hole.  The broadening is 1/5, so that no
column of photoemission exceeds 5, and XAS is at most 20. -/
example (sphHarm : SphHarm) (jn : SphericalJn) (T : ℝ) (hT : 0 < T) (radial : List (ℝ × ℝ)) :
    ∃ (L : MainLib) (o : MainOutput) (psis : _) (S : _),
      MainRun L (holeArgs 0 T radial) (fun _ => 0) holeParams 0 0 0 (holeLevels 0) o.energies psis S ∧ 0 < S.es.length ∧
      BoundedTable 10 (1 / 5) 1 10 o.spectra.ps.table ∧ BoundedTable 3 (1 / 5) 4 4 o.spectra.xas.table ∧
      ∀ i < S.es.length, ∃ d : ℝ, getTraceDensityMatrix S.nBaths (S.psis.getD i []) 2 = .ok d ∧ ∀ k < S.w.length,
        ∑ c ∈ range 3, o.spectra.xas.data i c k ≤ 2 / 5 * (10 * norm2 (S.psis.getD i []) - d) / (1 / 5) := by
  obtain ⟨solver, hS, htot⟩ := exists_solver
  obtain ⟨o, ho⟩ := C64_example hS htot sphHarm jn one_pos hT radial
  have h1 := (ho 3 (by decide) (fun _ _ _ _ => holeOrders) (fun _ _ _ _ => holeOrders_valid) (fun _ _ => holeOrders)
    (fun _ _ => holeOrders_valid)).canFinish
  have hδ : 0 < (holeArgs 0 T radial).delta := by change (0 : ℝ) < 1 / 5; norm_num
  obtain ⟨psis, S, hrun, hsp⟩ := C108_holes (holeArgs_valid 0 T radial) sympyGaunt_large (by decide)
    (fun _ _ _ _ => holeOrders_valid) (fun _ _ => holeOrders_valid) h1 rfl hS (holeArgs_documented 0 T radial)
    sympyGaunt_rules sympyGaunt_table rfl hδ
  obtain ⟨p1, -, p2⟩ := C108_main (holeArgs_valid 0 T radial) sympyGaunt_large (by decide)
    (fun _ _ _ _ => holeOrders_valid) (fun _ _ => holeOrders_valid) h1 rfl hS (holeArgs_documented 0 T radial) sympyGaunt_rules hδ
  refine ⟨_, o, psis, S, hrun, List.length_pos_iff.2 hrun.nonempty.2, p1, p2 sympyGaunt_table rfl, fun i hi => ?_⟩
  obtain ⟨d, hd, h⟩ := hsp i hi
  exact ⟨d, hd, fun k hk => (h k hk).2⟩

end

end Verif
