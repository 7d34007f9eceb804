/-
C76: the thermally averaged spectra do not depend on which eigenvectors of degenerate energies the
solver returns.
-/
import Verif.Lemmas.Degenerate
import Verif.Lemmas.ExactSpectra
import Verif.Prop.Variational

namespace Verif

open Finset Mpi Psr Spec

noncomputable section

/-- Two calculations with the same Hamiltonian, restrictions and energies. -/
structure Twin (S S' : SimulateArgs) : Prop where
  size : size S' = size S
  ham : hamilton S' = hamilton S
  exc : ∀ T, exciteVec S' T = exciteVec S T
  lost : ∀ T x, NothingLost S' T x ↔ NothingLost S T x
  es : S'.es = S.es

section
variable {S S' : SimulateArgs} (hTw : Twin S S')

theorem boltzmann_congr {m : ℕ} {U : ℕ → ℕ → ℂ} {es : List ℝ} (h : ∀ i < m, ∀ j < m, es.getD i 0 ≠ es.getD j 0 → U i j = 0)
    (f : ℝ → ℂ) : ∀ i < m, ∀ j < m, U i j ≠ 0 → f (es.getD i 0) = f (es.getD j 0) := by
  intro i hi j hj hne
  by_cases he : es.getD i 0 = es.getD j 0
  · rw [he]
  · exact absurd (h i hi j hj he) hne

include hTw in
theorem excite_mix {T : Vec ℂ → Vec ℂ} (hT : IsLinearMap ℂ T) {U : ℕ → ℕ → ℂ}
    (hU : ∀ i < S.es.length, ∀ F, ampl (size S) (S'.psis.getD i []) F
      = ∑ j ∈ range S.es.length, U i j * ampl (size S) (S.psis.getD j []) F)
    (hr : ∀ i < S.es.length, NothingLost S T (ampl (size S) (S.psis.getD i [])))
    (hr' : ∀ i < S'.es.length, NothingLost S' T (ampl (size S') (S'.psis.getD i []))) (i : ℕ) (hi : i < S.es.length) :
    excite S' T i = mix S.es.length U (fun j => excite S T j) i := by
  have hm : ampl (size S) (S'.psis.getD i []) = mix S.es.length U (fun j => ampl (size S) (S.psis.getD j [])) i :=
    funext fun F => hU i hi F
  have h1 := hr' i (by rw [hTw.es]; exact hi)
  rw [hTw.lost, hTw.size, hm] at h1
  unfold excite
  rw [hTw.exc, hTw.size, hm, exciteVec_mix hT hr h1]

include hTw in
/-- Sums of responses with weights that depend on the energy. -/
theorem response_mixed (hM : Mixed (size S) S.es S.psis S'.psis) {T : Vec ℂ → Vec ℂ} (hT : IsLinearMap ℂ T)
    (hr : ∀ i < S.es.length, NothingLost S T (ampl (size S) (S.psis.getD i [])))
    (hr' : ∀ i < S'.es.length, NothingLost S' T (ampl (size S') (S'.psis.getD i []))) (weight : ℝ → ℂ) (z : ℂ) {g g' : ℕ → ℂ}
    (hg : ∀ i < S.es.length, IsResponse S T i z (g i)) (hg' : ∀ i < S'.es.length, IsResponse S' T i z (g' i)) :
    ∑ i ∈ range S.es.length, weight (S.es.getD i 0) * g' i = ∑ i ∈ range S.es.length, weight (S.es.getD i 0) * g i := by
  obtain ⟨U, hU, h0, hψ⟩ := hM
  refine green_mix (H := hamilton S) (n := size S) (hamiltonian_linear _ _ _ _) hU (boltzmann_congr h0 weight)
    (boltzmann_congr h0 fun e => z + (e : ℂ)) (excite_mix hTw hT hψ hr hr') hg fun i hi => ?_
  have := hg' i (by rw [hTw.es]; exact hi)
  unfold IsResponse at this
  rwa [hTw.size, hTw.ham, hTw.es] at this

include hTw in
/-- The same for resonant scattering. -/
theorem rixs_mixed (hM : Mixed (size S) S.es S.psis S'.psis) {T T' : Vec ℂ → Vec ℂ} (hT : IsLinearMap ℂ T)
    (hT' : IsLinearMap ℂ T') (weight : ℝ → ℂ) (z₁ z₂ : ℂ)
    (hr : ∀ i < S.es.length, NothingLost S T (ampl (size S) (S.psis.getD i [])) ∧
      ∀ x, Solves (size S) (hamilton S) (z₁ + (S.es.getD i 0 : ℂ)) (excite S T i) x → NothingLost S T' x)
    (hr' : ∀ i < S'.es.length, NothingLost S' T (ampl (size S') (S'.psis.getD i [])) ∧
      ∀ x, Solves (size S') (hamilton S') (z₁ + (S'.es.getD i 0 : ℂ)) (excite S' T i) x → NothingLost S' T' x)
    {g g' : ℕ → ℂ}
    (hg : ∀ i < S.es.length, IsRixs (size S) (hamilton S) (z₁ + (S.es.getD i 0 : ℂ)) (z₂ + (S.es.getD i 0 : ℂ)) (excite S T i)
      (exciteVec S T') (g i))
    (hg' : ∀ i < S'.es.length, IsRixs (size S') (hamilton S') (z₁ + (S'.es.getD i 0 : ℂ)) (z₂ + (S'.es.getD i 0 : ℂ))
      (excite S' T i) (exciteVec S' T') (g' i)) :
    ∑ i ∈ range S.es.length, weight (S.es.getD i 0) * g' i = ∑ i ∈ range S.es.length, weight (S.es.getD i 0) * g i := by
  classical
  obtain ⟨U, hU, h0, hψ⟩ := hM
  rw [hTw.size, hTw.ham, hTw.es] at hr' hg'
  have hb := excite_mix hTw hT hψ (fun i hi => (hr i hi).1) (by rw [hTw.size, hTw.es]; exact fun i hi => (hr' i hi).1)
  choose x hx hu hgr using hg
  let y : ℕ → Vec ℂ := fun j => if h : j < S.es.length then x j h else 0
  have hy : ∀ j (hj : j < S.es.length), y j = x j hj := fun j hj => dif_pos hj
  have hsol : ∀ i < S.es.length, Solves (size S) (hamilton S) (z₁ + (S.es.getD i 0 : ℂ)) (excite S' T i)
      (mix S.es.length U y i) := by
    intro i hi
    rw [hb i hi]
    refine solves_mix (hamiltonian_linear _ _ _ _) (z := fun j => z₁ + (S.es.getD j 0 : ℂ))
      (fun j hj hne => boltzmann_congr h0 (fun e => z₁ + (e : ℂ)) i hi j hj hne) fun j hj => ?_
    rw [hy j hj]
    exact hx j hj
  refine green_mix (H := hamilton S) (n := size S) (hamiltonian_linear _ _ _ _) hU (boltzmann_congr h0 weight)
    (boltzmann_congr h0 fun e => z₂ + (e : ℂ)) (b := fun j => exciteVec S T' (y j))
    (b' := fun i => exciteVec S T' (mix S.es.length U y i)) ?_ ?_ ?_
  · intro i hi
    refine exciteVec_mix hT' (fun j hj => ?_) ?_
    · rw [hy j hj]
      exact (hr j hj).2 _ (hx j hj)
    · exact (hTw.lost _ _).1 ((hr' i hi).2 _ (hsol i hi))
  · intro i hi
    rw [hy i hi]
    exact hgr i hi
  · intro i hi
    obtain ⟨x', h1, h2, h3⟩ := hg' i hi
    rw [hTw.exc, ← h2 _ (hsol i hi)] at h3
    exact h3

end

theorem thermal_same {kB T : ℝ} {es : List ℝ} {d d' : ℕ → ℝ} {avg avg' : ℝ} (h : IsThermal kB T es d avg)
    (h' : IsThermal kB T es d' avg') {g g' : ℕ → ℂ} (hd : ∀ i < es.length, d i = -(g i).im)
    (hd' : ∀ i < es.length, d' i = -(g' i).im)
    (hs : ∑ i ∈ range es.length, (Real.exp (-es.getD i 0 / (kB * T)) : ℂ) * g' i
      = ∑ i ∈ range es.length, (Real.exp (-es.getD i 0 / (kB * T)) : ℂ) * g i) : avg' = avg := by
  have key : ∀ (d : ℕ → ℝ) (g : ℕ → ℂ), (∀ i < es.length, d i = -(g i).im) →
      ∑ i : Fin es.length, Real.exp (-es[i] / (kB * T)) * d i
        = -(∑ i ∈ range es.length, (Real.exp (-es.getD i 0 / (kB * T)) : ℂ) * g i).im := by
    intro d g hd
    rw [Complex.im_sum, ← Finset.sum_neg_distrib, Finset.sum_range]
    refine Finset.sum_congr rfl fun i _ => ?_
    rw [List.getD_eq_getElem _ _ i.isLt, hd i i.isLt, Complex.im_ofReal_mul, mul_neg]
    rfl
  unfold IsThermal at h h'
  rw [key d g hd] at h
  rw [key d' g' hd'] at h'
  rw [h, h', hs]

/-- C76.  Replacing the states by superpositions of states of the same energy does not change any
thermal average of exact responses, at any temperature. -/
theorem C76_responses (S : SimulateArgs) (psis' : List (Psi ℂ)) (hM : Mixed (size S) S.es S.psis psis') {T : Vec ℂ → Vec ℂ}
    (hT : IsLinearMap ℂ T) (hr : ∀ i < S.es.length, NothingLost S T (ampl (size S) (S.psis.getD i [])))
    (hr' : ∀ i < S.es.length, NothingLost S T (ampl (size S) (psis'.getD i []))) (z : ℂ) {g g' : ℕ → ℂ}
    (hg : ∀ i < S.es.length, IsResponse S T i z (g i))
    (hg' : ∀ i < S.es.length, IsResponse { S with psis := psis' } T i z (g' i)) (kB temperature avg avg' : ℝ)
    (ha : IsThermal kB temperature S.es (fun i => -(g i).im) avg)
    (ha' : IsThermal kB temperature S.es (fun i => -(g' i).im) avg') : avg' = avg := by
  have h := response_mixed (S := S) (S' := { S with psis := psis' }) ⟨rfl, rfl, fun _ => rfl, fun _ _ => Iff.rfl, rfl⟩ hM hT
    hr hr' (fun e => (Real.exp (-e / (kB * temperature)) : ℂ)) z hg hg'
  exact thermal_same ha ha' (fun _ _ => rfl) (fun _ _ => rfl) h

/-! ### main -/

theorem sorted_filter {β : Type} (e0 c : ℝ) : ∀ l : List (ℝ × β), (l.map Prod.fst).Pairwise (· ≤ ·) →
    ∃ m ≤ l.length, l.filter (fun p => decide (p.1 - e0 < c)) = l.take m ∧
      (∀ i (hi : i < l.length), i < m → l[i].1 - e0 < c) ∧ ∀ hm : m < l.length, c ≤ l[m].1 - e0 := by
  intro l
  induction l with
  | nil => exact fun _ => ⟨0, le_rfl, rfl, fun i hi => absurd hi (by simp), fun h => absurd h (by simp)⟩
  | cons p l ih =>
    intro hs
    rw [List.map_cons, List.pairwise_cons] at hs
    by_cases hp : p.1 - e0 < c
    · obtain ⟨m, hm, h1, h2, h3⟩ := ih hs.2
      refine ⟨m + 1, by simpa using hm, ?_, ?_, ?_⟩
      · rw [List.filter_cons_of_pos (by simpa using hp), h1, List.take_succ_cons]
      · rintro (_ | i) hi hlt
        · exact hp
        · exact h2 i (by simpa using hi) (by omega)
      · intro h
        exact h3 (by simpa using h)
    · refine ⟨0, Nat.zero_le _, ?_, fun i _ h => absurd h (by omega), fun _ => not_lt.1 hp⟩
      rw [List.take_zero, List.filter_eq_nil_iff]
      intro q hq
      rcases List.mem_cons.1 hq with rfl | hq
      · simpa using hp
      · have := hs.1 q.1 (List.mem_map_of_mem hq)
        simp only [decide_eq_true_eq, not_lt]
        linarith [not_lt.1 hp]

theorem mesh_eq {xs ys : List ℝ} {a c : ℝ} {k : ℕ} (h : Mesh xs a c k) (h' : Mesh ys a c k) : ys = xs :=
  List.ext_getElem (h'.1.trans h.1.symm) fun i h1 h2 => by rw [h'.2 i h1, h.2 i h2]

theorem kept_take {energies es : List ℝ} {psis kept : List (Psi ℂ)} {e0 c : ℝ} (hs : energies.Pairwise (· ≤ ·))
    (hl : psis.length = energies.length) (hk : kept.length = es.length)
    (hz : es.zip kept = (energies.zip psis).filter (fun p => decide (p.1 - e0 < c))) :
    es = energies.take es.length ∧ kept = psis.take es.length ∧
      ∀ h : es.length < energies.length, ∀ i (hi : i < es.length), energies[i] < energies[es.length] := by
  obtain ⟨m, hm, h1, h2, h3⟩ := sorted_filter e0 c (energies.zip psis) (by
    rw [List.map_fst_zip (by omega)]; exact hs)
  rw [h1] at hz
  have hlen : (energies.zip psis).length = energies.length := by rw [List.length_zip, hl, min_self]
  have hm' : es.length = m := by
    have := congrArg List.length hz
    rw [List.length_zip, hk, min_self, List.length_take, hlen] at this
    omega
  subst hm'
  have e1 := congrArg (List.map Prod.fst) hz
  have e2 := congrArg (List.map Prod.snd) hz
  rw [List.map_fst_zip (by omega), List.map_take, List.map_fst_zip (by omega)] at e1
  rw [List.map_snd_zip (by omega), List.map_take, List.map_snd_zip (by omega)] at e2
  refine ⟨e1, e2, fun h i hi => ?_⟩
  have h4 := h2 i (by omega) hi
  have h5 := h3 (by omega)
  rw [List.getElem_zip] at h4 h5
  dsimp only at h4 h5
  linarith

theorem kept_filter {energies es : List ℝ} {psis kept : List (Psi ℂ)} {e0 c : ℝ} (hl : psis.length = energies.length)
    (hk : kept.length = es.length)
    (hz : es.zip kept = (energies.zip psis).filter (fun p => decide (p.1 - e0 < c))) :
    es = energies.filter fun e => decide (e - e0 < c) := by
  have e1 := congrArg (List.map Prod.fst) hz
  rw [List.map_fst_zip (by omega)] at e1
  rw [e1]
  conv_rhs => rw [← List.map_fst_zip (l₁ := energies) (l₂ := psis) (by omega), List.filter_map]
  rfl

/-- A normalised state lost nothing. -/
theorem pruned_eq {n : ℕ} {states : Finset (Finset ℕ)} (hst : ∀ S ∈ states, S ⊆ range n) {x : Finset ℕ → ℂ} {f : Finset ℕ → ℂ}
    {weight : ℝ} (hx : ∑ S ∈ states, star (x S) * x S = 1)
    (hf : ∀ S, f S = if S ∈ states ∧ weight ≤ Complex.normSq (x S) then x S else 0)
    (hn : ∑ S ∈ (range n).powerset, Complex.normSq (f S) = 1) (S : Finset ℕ) : f S = if S ∈ states then x S else 0 := by
  have h1 : ∑ S ∈ states, Complex.normSq (x S) = 1 := by
    have h2 : ((∑ S ∈ states, Complex.normSq (x S) : ℝ) : ℂ) = 1 := by
      rw [← hx, Complex.ofReal_sum]
      refine Finset.sum_congr rfl fun S _ => ?_
      rw [Complex.normSq_eq_conj_mul_self]
      rfl
    exact_mod_cast h2
  have h3 : ∑ S ∈ states, Complex.normSq (f S) = 1 := by
    rw [← hn]
    refine Finset.sum_subset (fun S hS => Finset.mem_powerset.2 (hst S hS)) fun S _ hS => ?_
    rw [hf, if_neg fun h => hS h.1, map_zero]
  have hle : ∀ S ∈ states, Complex.normSq (f S) ≤ Complex.normSq (x S) := by
    intro S _
    rw [hf]
    split
    · exact le_rfl
    · rw [map_zero]; exact Complex.normSq_nonneg _
  have heq := (Finset.sum_eq_sum_iff_of_le hle).1 (h3.trans h1.symm)
  by_cases hS : S ∈ states
  · rw [if_pos hS]
    have h5 := heq S hS
    rw [hf] at h5 ⊢
    split
    · rfl
    · rename_i hne
      rw [if_neg hne, map_zero] at h5
      exact (Complex.normSq_eq_zero.1 h5.symm).symm
  · rw [if_neg hS, hf, if_neg fun h => hS h.1]

/-- The eigenvectors of two correct solvers. -/
theorem lowest_mixed {n : ℕ} {op op' : Op ℕ ℂ} {cut weight : ℝ} {states : Finset (Finset ℕ)} {energies es : List ℝ}
    {psis psis' kept kept' : List (Psi ℂ)} (hst : ∀ S ∈ states, S ⊆ range n)
    (hH : ∀ S ∈ states, ∀ T ∈ states, storedElement op cut S T = star (storedElement op cut T S))
    (hop : storedElement op' cut = storedElement op cut)
    (h : LowestStates n op cut weight states energies psis) (h' : LowestStates n op' cut weight states energies psis')
    (hes : es = energies.take es.length) (hk : kept = psis.take es.length) (hk' : kept' = psis'.take es.length)
    (hlt : es.length < energies.length) (hgap : ∀ i (hi : i < es.length), energies[i] < energies[es.length])
    (hn : ∀ psi ∈ kept, ∑ S ∈ (range n).powerset, Complex.normSq (ampl n psi S) = 1)
    (hn' : ∀ psi ∈ kept', ∑ S ∈ (range n).powerset, Complex.normSq (ampl n psi S) = 1) : Mixed n es kept kept' := by
  obtain ⟨h1, hl, x, h2, h3, h4, h5⟩ := h
  obtain ⟨h1', hl', x', h2', h3', h4', h5'⟩ := h'
  rw [hop] at h3' h4'
  obtain ⟨U, hU, hU0, hx⟩ := (⟨h1, h2, h3, h4⟩ : LowestIn states (storedElement op cut) energies x).unitary
    ⟨h1', h2', h3', h4'⟩ hH hlt hgap
  have hget : ∀ i < es.length, es.getD i 0 = energies.getD i 0 := by
    intro i hi
    rw [hes, List.getD_eq_getElem?_getD, List.getD_eq_getElem?_getD, List.getElem?_take_of_lt hi]
  have hψ : ∀ i (hi : i < es.length) (hi' : i < psis.length), kept.getD i [] = psis[i] ∧ psis[i] ∈ kept := by
    intro i hi hi'
    have e : kept[i]? = some psis[i] := by rw [hk, List.getElem?_take_of_lt hi, List.getElem?_eq_getElem hi']
    exact ⟨by rw [List.getD_eq_getElem?_getD, e]; rfl, List.mem_of_getElem? e⟩
  have hψ' : ∀ i (hi : i < es.length) (hi' : i < psis'.length), kept'.getD i [] = psis'[i] ∧ psis'[i] ∈ kept' := by
    intro i hi hi'
    have e : kept'[i]? = some psis'[i] := by rw [hk', List.getElem?_take_of_lt hi, List.getElem?_eq_getElem hi']
    exact ⟨by rw [List.getD_eq_getElem?_getD, e]; rfl, List.mem_of_getElem? e⟩
  have ha : ∀ i < es.length, ∀ F, ampl n (kept.getD i []) F = if F ∈ states then x i F else 0 := by
    intro i hi F
    have hi' : i < psis.length := by omega
    rw [(hψ i hi hi').1]
    exact pruned_eq hst ((h2 i (by omega) i (by omega)).trans (if_pos rfl)) (h5 i hi').2 (hn _ (hψ i hi hi').2) F
  have ha' : ∀ i < es.length, ∀ F, ampl n (kept'.getD i []) F = if F ∈ states then x' i F else 0 := by
    intro i hi F
    have hi' : i < psis'.length := by omega
    rw [(hψ' i hi hi').1]
    exact pruned_eq hst ((h2' i (by omega) i (by omega)).trans (if_pos rfl)) (h5' i hi').2 (hn' _ (hψ' i hi hi').2) F
  refine ⟨U, hU, fun i hi j hj hne => hU0 i hi j hj (by rwa [← hget i hi, ← hget j hj]), fun i hi F => ?_⟩
  rw [ha' i hi]
  by_cases hF : F ∈ states
  · rw [if_pos hF, hx i hi F hF]
    refine Finset.sum_congr rfl fun j hj => ?_
    rw [ha j (mem_range.1 hj), if_pos hF]
  · rw [if_neg hF]
    refine (Finset.sum_eq_zero fun j hj => ?_).symm
    rw [ha j (mem_range.1 hj), if_neg hF, mul_zero]

section
variable {L L' : MainLib} {A : MainArgs} (hA : A.Valid) (hG : GauntLarge L.gaunt A.ls) {N N' : ℕ}
  (hN : 0 < N) (hN' : 0 < N')
  {ord : Fin N → ℕ → ℕ → ℕ → SetOrders} (hord : ∀ k c t i, (ord k c t i).Valid)
  {ordRixs : Fin N → List ℕ → SetOrders} (hordR : ∀ k l, (ordRixs k l).Valid) {out : Fin N → Option MainOutput}
  (hfin : CanFinish msgSum (fun k : Fin N => mainRank L A (ord k) (ordRixs k) k.val N) out)
  {o o' : MainOutput} (ho : out ⟨0, hN⟩ = some o)
  {ord' : Fin N' → ℕ → ℕ → ℕ → SetOrders} (hord' : ∀ k c t i, (ord' k c t i).Valid)
  {ordRixs' : Fin N' → List ℕ → SetOrders} (hordR' : ∀ k l, (ordRixs' k l).Valid) {out' : Fin N' → Option MainOutput}
  (hfin' : CanFinish msgSum (fun k : Fin N' => mainRank L' A (ord' k) (ordRixs' k) k.val N') out')
  (ho' : out' ⟨0, hN'⟩ = some o')
  (hL : SolverCorrect L.solver) (hL' : SolverCorrect L'.solver)
  {b : ℕ → ℕ} {P : BasisParams} {hx hy hz : ℝ} {h0 : Op Label ℂ} (hD : Documented A b P hx hy hz h0)

omit hA hG hN hN' hord hordR hfin ho hord' hordR' hfin' ho' hL hL' hD in
theorem twin_of {energies : List ℝ} {psis psis' : List (Psi ℂ)} {S S' : SimulateArgs} (hgaunt : L'.gaunt = L.gaunt)
    (hrun : MainRun L A b P hx hy hz h0 energies psis S) (hrun' : MainRun L' A b P hx hy hz h0 energies psis' S')
    (hes : S'.es = S.es) : Twin S S' := by
  obtain ⟨r, hr, hall⟩ := hrun.excited
  obtain ⟨r', hr', hall'⟩ := hrun'.excited
  have hal : ∀ F, AllowedOpt S'.restrictions F ↔ AllowedOpt S.restrictions F := by
    intro F
    rw [hr, hr']
    exact (hall' F).trans (hall F).symm
  have hsz : size S' = size S := by unfold size; rw [hrun.system, hrun'.system]
  obtain ⟨-, hw, hc⟩ := hrun.args.cutoffs
  obtain ⟨-, hw', hc'⟩ := hrun'.args.cutoffs
  refine ⟨hsz, ?_, ?_, ?_, hes⟩
  · unfold hamilton hamiltonian
    rw [hsz]
    funext x F
    refine if_congr Iff.rfl (Finset.sum_congr rfl fun G _ => ?_) rfl
    unfold column matrixElement
    rw [hc', hc]
    simp only [hrun'.hamiltonian, hrun.hamiltonian, hgaunt, hal]
  · intro T
    unfold exciteVec excited
    rw [hsz, hw', hw]
    simp only [hal]
  · intro T x
    unfold NothingLost
    rw [hsz, hw', hw]
    simp only [hal]

theorem choose_lt {α : Type} [Inhabited α] {m : ℕ} {p : ℕ → α → Prop} (h : ∀ i < m, ∃ a, p i a) :
    ∃ f : ℕ → α, ∀ i < m, p i (f i) := by
  classical
  refine ⟨fun i => if hi : i < m then (h i hi).choose else default, fun i hi => ?_⟩
  dsimp only
  rw [dif_pos hi]
  exact (h i hi).choose_spec

omit hA hG hN hN' hord hordR hfin ho hord' hordR' hfin' ho' hL hL' hD in
theorem spectra_same {energies : List ℝ} {psis psis' : List (Psi ℂ)} {S S' : SimulateArgs} {s s' : Simulated}
    (hgaunt : L'.gaunt = L.gaunt) (hsph : L'.sphHarm = L.sphHarm) (hjn : L'.jn = L.jn) (hkB : L'.kB = L.kB)
    (hrun : MainRun L A b P hx hy hz h0 energies psis S) (hrun' : MainRun L' A b P hx hy hz h0 energies psis' S')
    (hs : PDExact b S s) (hs' : PDExact b S' s') (hes : S'.es = S.es) (hM : Mixed (size S) S.es S.psis S'.psis)
    (hR : AllKept b S) (hR' : AllKept b S') : SameThermal s s' := by
  have hTw := twin_of hgaunt hrun hrun' hes
  have a := hrun.args
  have a' := hrun'.args
  have hw := mesh_eq a.w a'.w
  have hwl := mesh_eq a.wLoss a'.wLoss
  have hwi := mesh_eq a.wIn a'.wIn
  have lw : S.w.length = 3000 := a.w.1
  have ll : S.wLoss.length = 4000 := a.wLoss.1
  have li : S.wIn.length = 50 := a.wIn.1
  have hδ : S'.delta = S.delta := by rw [a.delta, a'.delta]
  have hδn : S'.deltaNIXS = S.deltaNIXS := by rw [a.deltaNIXS, a'.deltaNIXS]
  have hδr : S'.deltaRIXS = S.deltaRIXS := by rw [a.deltaRIXS, a'.deltaRIXS]
  have hT : S'.T = S.T := by rw [a.T, a'.T]
  have hk : S'.kB = S.kB := by rw [a.library.2.2.2.2.2, a'.library.2.2.2.2.2, hkB]
  have hgS : S'.gaunt = S.gaunt := by rw [a.library.1, a'.library.1, hgaunt]
  have hpw : ∀ q, planeWaveDD S' b q = planeWaveDD S b q := by
    intro q
    unfold planeWaveDD
    rw [hgS, a.library.2.1, a'.library.2.1, hsph, a.library.2.2.1, a'.library.2.2.1, hjn, a.radial.1, a'.radial.1, a.radial.2.1,
      a'.radial.2.1, a.radial.2.2, a'.radial.2.2]
  have hε := a.epsilons
  have hε' := a'.epsilons
  have hεr := a.epsilonsRIXS.1
  have hεr' := a'.epsilonsRIXS.1
  obtain ⟨t1, t2, t3, t4⟩ := hs.tables
  obtain ⟨t1', t2', t3', t4'⟩ := hs'.tables
  rw [hk, hT, hes] at t1' t2' t3' t4'
  have hth : ∀ a c d k, IsThermal S.kB S.T S.es (fun i => s'.rixs.data i a c d k) (s'.rixs.thermal a c d k) := by
    intro a c d k
    have := hs'.rixsThermal a c d k
    rwa [hk, hT, hes] at this
  have hlen : S'.es.length = S.es.length := by rw [hes]
  have lw' : S'.w.length = 3000 := a'.w.1
  have ll' : S'.wLoss.length = 4000 := a'.wLoss.1
  have li' : S'.wIn.length = 50 := a'.wIn.1
  constructor
  · intro j hj k hk'
    have hk1 : k < S.w.length := by rw [lw]; exact hk'
    have hk2 : k < S'.w.length := by rw [lw']; exact hk'
    obtain ⟨f, hf⟩ := choose_lt fun i hi => hs.photoemission i j k hi hj hk1 _ rfl
    obtain ⟨g, hg⟩ := choose_lt hf
    obtain ⟨f', hf'⟩ := choose_lt fun i hi => hs'.photoemission i j k hi hj hk2 _ rfl
    obtain ⟨g', hg'⟩ := choose_lt hf'
    rw [hδ, List.getElem_of_eq hw hk2] at hg'
    refine thermal_same (t1.thermal j k) (t1'.thermal j k) (fun i hi => (hg i hi).2.2)
      (fun i hi => (hg' i (hlen ▸ hi)).2.2) ?_
    have e1 := response_mixed hTw hM (create_linear _) (fun i hi => hR.add j hj i hi) (fun i hi => hR'.add j hj i hi)
      (fun e => (Real.exp (-e / (S.kB * S.T)) : ℂ)) _ (fun i hi => (hg i hi).1) fun i hi => (hg' i hi).1
    have e2 := response_mixed hTw hM (annihilate_linear _) (fun i hi => hR.remove j hj i hi)
      (fun i hi => hR'.remove j hj i hi)
      (fun e => (Real.exp (-e / (S.kB * S.T)) : ℂ)) _ (fun i hi => (hg i hi).2.1) fun i hi => (hg' i hi).2.1
    simp only [mul_sub, Finset.sum_sub_distrib]
    rw [e1, e2]
  · intro j hj k hk'
    have hk1 : k < S.w.length := by rw [lw]; exact hk'
    have hk2 : k < S'.w.length := by rw [lw']; exact hk'
    obtain ⟨g, hg⟩ := choose_lt fun i hi => hs.xps i j k hi hj hk1 _ rfl
    obtain ⟨g', hg'⟩ := choose_lt fun i hi => hs'.xps i j k hi hj hk2 _ rfl
    rw [hδ, List.getElem_of_eq hw hk2] at hg'
    refine thermal_same (g := fun i => -g i) (g' := fun i => -g' i) (t2.thermal j k) (t2'.thermal j k)
      (fun i hi => by rw [(hg i hi).2, Complex.neg_im, neg_neg])
      (fun i hi => by rw [(hg' i (hlen ▸ hi)).2, Complex.neg_im, neg_neg]) ?_
    have e2 := response_mixed hTw hM (annihilate_linear _) (fun i hi => hR.core j hj i hi)
      (fun i hi => hR'.core j hj i hi)
      (fun e => (Real.exp (-e / (S.kB * S.T)) : ℂ)) _ (fun i hi => (hg i hi).1) fun i hi => (hg' i hi).1
    simp only [mul_neg, Finset.sum_neg_distrib]
    rw [e2]
  · intro t ht k hk'
    have hk1 : k < S.w.length := by rw [lw]; exact hk'
    have hk2 : k < S'.w.length := by rw [lw']; exact hk'
    have ht1 : t < S.epsilons.length := by rw [hε]; exact ht
    have ht2 : t < S'.epsilons.length := by rw [hε']; exact ht
    have hr := hR.absorb _ (List.getElem_mem ht1)
    have hr' := hR'.absorb _ (List.getElem_mem ht2)
    obtain ⟨g, hg⟩ := choose_lt fun i hi => hs.xas i t k hi ht1 hk1
    obtain ⟨g', hg'⟩ := choose_lt fun i hi => hs'.xas i t k hi ht2 hk2
    rw [hδ, List.getElem_of_eq hw hk2, hgS, List.getElem_of_eq (hε'.trans hε.symm) ht2] at hg'
    rw [hgS, List.getElem_of_eq (hε'.trans hε.symm) ht2] at hr'
    exact thermal_same (t4.thermal t k) (t4'.thermal t k) (fun i hi => (hg i hi).2) (fun i hi => (hg' i (hlen ▸ hi)).2)
      (response_mixed hTw hM (between_linear _ _ _ _) hr hr'
        (fun e => (Real.exp (-e / (S.kB * S.T)) : ℂ)) _ (fun i hi => (hg i hi).1) fun i hi => (hg' i hi).1)
  · intro t ht k hk'
    have hk1 : k < S.wLoss.length := by rw [ll]; exact hk'
    have hk2 : k < S'.wLoss.length := by rw [ll']; exact hk'
    have hq : ((if t = 0 then 2 else 7 : ℝ)) = 2 ∨ ((if t = 0 then 2 else 7 : ℝ)) = 7 := by
      split
      · exact .inl rfl
      · exact .inr rfl
    obtain ⟨hr, -⟩ := hR.scatter _ hq
    obtain ⟨hr', -⟩ := hR'.scatter _ hq
    obtain ⟨g, hg⟩ := choose_lt fun i hi => hs.nixs i t k hi ht hk1 _ rfl
    obtain ⟨g', hg'⟩ := choose_lt fun i hi => hs'.nixs i t k hi ht hk2 _ rfl
    rw [hδn, List.getElem_of_eq hwl hk2, hpw] at hg'
    rw [hpw] at hr'
    exact thermal_same (t3.thermal t k) (t3'.thermal t k) (fun i hi => (hg i hi).2) (fun i hi => (hg' i (hlen ▸ hi)).2)
      (response_mixed hTw hM (planeWaveDD_linear _ _ _) hr hr'
        (fun e => (Real.exp (-e / (S.kB * S.T)) : ℂ)) _ (fun i hi => (hg i hi).1) fun i hi => (hg' i hi).1)
  · intro u hu c hc d hd k hk'
    have hk1 : k < S.wLoss.length := by rw [ll]; exact hk'
    have hk2 : k < S'.wLoss.length := by rw [ll']; exact hk'
    have hd1 : d < S.wIn.length := by rw [li]; exact hd
    have hd2 : d < S'.wIn.length := by rw [li']; exact hd
    have hu1 : u < S.epsilonsRIXSin.length := by rw [hεr]; exact hu
    have hu2 : u < S'.epsilonsRIXSin.length := by rw [hεr']; exact hu
    have hr := hR.resonant _ (List.getElem_mem hu1) _ (List.getElem_mem hd1)
    have hr' := hR'.resonant _ (List.getElem_mem hu2) _ (List.getElem_mem hd2)
    obtain ⟨g, hg⟩ := choose_lt fun i hi => hs.rixs i u c d k hi hu1 hc hd1 hk1
    obtain ⟨g', hg'⟩ := choose_lt fun i hi => hs'.rixs i u c d k hi hu2 hc hd2 hk2
    unfold KeptRixs at hr hr'
    rw [hδ, hδr, List.getElem_of_eq hwl hk2, List.getElem_of_eq hwi hd2, hgS,
      List.getElem_of_eq (hεr'.trans hεr.symm) hu2] at hg'
    rw [hδ, List.getElem_of_eq hwi hd2, hgS, List.getElem_of_eq (hεr'.trans hεr.symm) hu2] at hr'
    exact thermal_same (hs.rixsThermal u c d k) (hth u c d k) (fun i hi => (hg i hi).2) (fun i hi => (hg' i (hlen ▸ hi)).2)
      (rixs_mixed hTw hM (between_linear _ _ _ _) (between_linear _ _ _ _)
        (fun e => (Real.exp (-e / (S.kB * S.T)) : ℂ)) _ _
        (fun i hi => ⟨(hr i hi).1, fun x hx => ((hr i hi).2 x hx).1⟩)
        (fun i hi => ⟨(hr' i hi).1, fun x hx => ((hr' i hi).2 x hx).1⟩) (fun i hi => (hg i hi).1) fun i hi => (hg' i hi).1)

include hA hG hord hordR hfin ho hord' hordR' hfin' ho' hL hL' hD in
/-- C76.  Two finished runs of main with the same arguments and different solvers and numbers of
ranks print the same energies and use the same ones for the spectra.  If these do not reach the end of the list and the
stored states are normalised, the states are the same up to a unitary mixing of degenerate ones, and
if moreover the cutoffs drop nothing, all averaged spectra are the same: exactly if the number of Lanczos vectors is
sufficient, and else up to the error of 150 Lanczos vectors. -/
theorem C76_main (hgaunt : L'.gaunt = L.gaunt) (hsph : L'.sphHarm = L.sphHarm) (hjn : L'.jn = L.jn) (hkB : L'.kB = L.kB)
    (hR : GauntRules L.gaunt) (hsolve : ExactSolver L.solve) (hsolve' : ExactSolver L'.solve) (hf : L.f32 50 = 50)
    (hf' : L'.f32 50 = 50) :
    ∃ psis S psis' S', MainRun L A b P hx hy hz h0 o.energies psis S ∧
      MainRun L' A b P hx hy hz h0 o'.energies psis' S' ∧ PDSpectra b S o.spectra ∧ PDSpectra b S' o'.spectra ∧
      o'.energies = o.energies ∧ S'.es = S.es ∧
      (S.es.length < o.energies.length →
        (∀ psi ∈ S.psis ++ S'.psis, ∑ F ∈ (range (size S)).powerset, Complex.normSq (ampl (size S) psi F) = 1) →
        Mixed (size S) S.es S.psis S'.psis ∧
        (AllResolved b S → AllResolved b S' → SameThermal o.spectra o'.spectra) ∧
        (AllKept b S → AllKept b S' → Almost SameThermal b S S' o.spectra o'.spectra)) := by
  classical
  have hG' : GauntLarge L'.gaunt A.ls := by rw [hgaunt]; exact hG
  obtain ⟨psis, S, hrun, hS, hsp, hn⟩ := main_both hA hG hN hord hordR hfin ho hL hD hR hsolve hf
  obtain ⟨psis', S', hrun', hS', hsp', hn'⟩ :=
    main_both hA hG' hN' hord' hordR' hfin' ho' hL' hD (by rw [hgaunt]; exact hR) hsolve' hf'
  have hE : o'.energies = o.energies := by
    refine List.ext_getElem (hrun'.count.trans hrun.count.symm) fun i h1 h2 => ?_
    exact (C75_unique hA hA hG hN hN' hord hordR hfin ho hord' hordR' hfin' ho' hL hL' hgaunt hD hD
      ⟨rfl, rfl, rfl, rfl, rfl, rfl, rfl⟩ rfl rfl rfl rfl rfl i h2 h1).symm
  rw [hE] at hrun'
  have hsz : size S = nTotal (pdSystem b) := by unfold size; rw [hrun.system]; rfl
  have hsz' : nSpinOrbitals S.nBaths = nTotal (pdSystem b) := by
    rw [nSpinOrbitals_eq, hrun.system]; rfl
  have hel : storedElement S'.hOp (1e-12 : ℝ) = storedElement S.hOp (1e-12 : ℝ) := by
    funext F G
    unfold storedElement matrixElement
    rw [hrun'.hamiltonian, hrun.hamiltonian, hgaunt]
  have hes : S'.es = S.es ∧ (∀ h : S.es.length < o.energies.length, S.es = o.energies.take S.es.length ∧
      S.psis = psis.take S.es.length ∧ S'.psis = psis'.take S.es.length ∧
      ∀ i (hi : i < S.es.length), o.energies[i] < o.energies[S.es.length]) := by
    have hsort := hrun.lowest.1
    have hl := hrun.lowest.2.1
    have hl' := hrun'.lowest.2.1
    obtain ⟨e0, rest, hE0⟩ := List.exists_cons_of_ne_nil hrun.nonempty.1
    · have hmem : e0 ∈ o.energies := by rw [hE0]; exact List.mem_cons_self
      have hmin : ∀ e ∈ o.energies, e0 ≤ e := by
        rw [hE0] at hsort ⊢
        intro e he
        rcases List.mem_cons.1 he with rfl | he
        · exact le_rfl
        · exact (List.pairwise_cons.1 hsort).1 e he
      have hz := hrun.kept.2 e0 hmem hmin
      have hz' := hrun'.kept.2 e0 hmem hmin
      rw [hkB] at hz'
      obtain ⟨k1, k2, k3⟩ := kept_take hsort hl hrun.kept.1 hz
      obtain ⟨-, k2', -⟩ := kept_take hsort hl' hrun'.kept.1 hz'
      have hee : S'.es = S.es :=
        (kept_filter hl' hrun'.kept.1 hz').trans (kept_filter hl hrun.kept.1 hz).symm
      rw [hee] at k2'
      exact ⟨hee, fun h => ⟨k1, k2, k2', k3 h⟩⟩
  refine ⟨psis, S, psis', S', hrun, hE ▸ hrun', hsp, hsp', hE, hes.1, fun hlt hnorm => ?_⟩
  obtain ⟨k1, k2, k3, k4⟩ := hes.2 hlt
  have hM : Mixed (size S) S.es S.psis S'.psis := by
    have hst : ∀ F ∈ ({F ∈ (range (nTotal (pdSystem b))).powerset |
        IsConfiguration [(1, b 1), (2, b 2)] (pdSystem b) P F} : Finset (Finset ℕ)), F ⊆ range (nTotal (pdSystem b)) :=
      fun F hF => Finset.mem_powerset.1 (Finset.mem_filter.1 hF).1
    rw [hsz] at hnorm ⊢
    refine lowest_mixed (weight := 1e-7) hst (storedElement_hermitian hrun.dict.1 hS.hop hrun.dict.2 _ fun F hF => ?_) hel ?_ ?_
      k1 k2 k3 hlt k4 (fun psi h => hnorm psi (List.mem_append_left _ h)) fun psi h => hnorm psi (List.mem_append_right _ h)
    · rw [hsz']; exact hst F hF
    · convert hrun.lowest
    · convert hrun'.lowest
  exact ⟨hM, related_both hsp hsp' hn hn' hrun.args.cutoffs.1 hrun'.args.cutoffs.1
    (width_strengths hS hrun.dict) (width_strengths hS' hrun'.dict) fun h h' x x' hx' hx'' =>
    spectra_same hgaunt hsph hjn hkB hrun hrun' hx' hx'' hes.1 hM h h'⟩

end

end

end Verif
