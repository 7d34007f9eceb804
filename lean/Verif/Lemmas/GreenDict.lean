/-
The Krylov recursion on dictionaries is the one on vectors.
-/
import Verif.Model.GreenDict
import Verif.Lemmas.GreenMeaning
import Verif.Lemmas.Lanczos

namespace Verif

open Finset Psr Spec Matrix

noncomputable section

/-- `applyOp` without pruning is the Hamiltonian. -/
theorem applyWithDict_spec {n : ℕ} {op : Op ℕ ℂ} (hop : OpInSystem n op) {weight cut : ℝ} (hw : weight ≤ 0)
    {r : Option Restrictions} (hsmall : ∀ T ⊆ range n, NoSmallElements n op cut r T) {psi : Psi ℂ} (hpsi : IsState n psi)
    {cache : OpResult ℂ} (hc : CacheCorrect n op weight r cache) :
    ∃ wp cache', applyWithDict n op psi weight r cache = .ok (wp, cache') ∧ IsState n wp ∧
      CacheCorrect n op weight r cache' ∧ ampl n wp = hamiltonian n op cut r (ampl n psi) := by
  refine ⟨_, _, by unfold applyWithDict; rw [applyOp_cached_eq hop hpsi weight r cache hc]; rfl,
    isState_cached hop hc hpsi, correct_cachedLoop hop hpsi hc, ?_⟩
  funext S
  unfold Spec.hamiltonian
  by_cases hS : S ⊆ range n
  · have hnd := nodupKeys_foldl_addIf (okKey n r) (psi.flatMap (evsCached n op cache)) [] Dict.nodupKeys_nil
    rw [if_pos hS, ampl, if_pos hS, get?_prune _ _ hnd, foldl_addIf_nil]
    simp only [okKey_enc r hS]
    have htot := total_cached hop hc hpsi hS
    by_cases ha : AllowedOpt r S
    · have h1 : total (psi.flatMap (evsCached n op cache)) (encBytes n S)
          = ∑ T ∈ (range n).powerset, column op cut r T S * ampl n psi T := by
        rw [htot]
        refine sum_congr rfl fun T hT => ?_
        have hel : matrixElement op S T = column op cut r T S := by
          unfold column
          rcases hsmall T (mem_powerset.1 hT) S hS ha with h0 | h0
          · rw [h0]; simp
          · rw [if_pos ⟨ha, h0⟩]
        have hel' : column op weight r T S = matrixElement op S T := by
          unfold column
          rw [if_pos ⟨ha, hw.trans (Complex.normSq_nonneg _)⟩]
        rw [hel', ite_self, hel, mul_comm]
      rw [← h1]
      by_cases hm : encBytes n S ∈ List.map Prod.fst (psi.flatMap (evsCached n op cache))
      · rw [if_pos ⟨by simpa using ha, hm⟩]
        have : ¬ (abs2 (total (psi.flatMap (evsCached n op cache)) (encBytes n S)) < weight) :=
          not_lt.2 (hw.trans (Complex.normSq_nonneg _))
        simp [Option.filter, this]
      · rw [if_neg fun h => hm h.2, total_of_notMem hm]
        rfl
    · rw [if_neg fun h => ha (by simpa using h.1)]
      refine (sum_eq_zero fun T _ => ?_).symm
      unfold column
      rw [if_neg fun h => ha h.1, zero_mul]
  · rw [if_neg hS, ampl_of_not_subset hS]

/-- A state as a vector in a basis. -/
structure Represents (n : ℕ) {d : ℕ} (states : List (Finset ℕ)) (hd : d = states.length) (psi : Psi ℂ) (u : Fin d → ℂ) : Prop where
  state : IsState n psi
  ampl : ampl n psi = spread states hd u

section
variable {n d : ℕ} {states : List (Finset ℕ)} {hd : d = states.length} (hnd : states.Nodup)
  (hs : ∀ S ∈ states, S ⊆ range n)

theorem Represents.add {p q : Psi ℂ} {u w : Fin d → ℂ} (hp : Represents n states hd p u) (hq : Represents n states hd q w) (c : ℂ) :
    Represents n states hd (Verif.add p q c) (u + c • w) where
  state := isState_addFold (fun x => c * x) hp.state hq.state
  ampl := by
    funext S
    rw [show Spec.ampl n (Verif.add p q c) S = _ from ampl_addFold (fun x => c * x) (by simp) hq.state S, hp.ampl, hq.ampl]
    have h1 := (spreadMap states hd).map_add u (c • w)
    rw [(spreadMap states hd).map_smul] at h1
    exact (congrFun h1 S).symm

theorem Represents.scale {p : Psi ℂ} {u : Fin d → ℂ} (hp : Represents n states hd p u) (c : ℂ) :
    Represents n states hd (p.map fun x => (x.1, c * x.2)) (c • u) where
  state := by
    have hk : Dict.keys (p.map fun x => (x.1, c * x.2)) = Dict.keys p := by
      unfold Dict.keys; rw [List.map_map]; rfl
    exact ⟨by unfold Dict.NodupKeys; rw [hk]; exact hp.state.nodup, by rw [hk]; exact hp.state.keys⟩
  ampl := by
    funext S
    have hg : ∀ k, Dict.get? (p.map fun x => (x.1, c * x.2)) k = (Dict.get? p k).map fun x => c * x := by
      intro k
      clear hp
      induction p with
      | nil => rfl
      | cons q psi ih =>
        obtain ⟨a, x⟩ := q
        simp only [List.map_cons, Dict.get?_cons] at ih ⊢
        split
        · rfl
        · exact ih
    have h1 := (spreadMap states hd).map_smul c u
    have h2 : spread states hd (c • u) S = c * Spec.ampl n p S := by
      rw [hp.ampl]; exact congrFun h1 S
    rw [h2]
    unfold Spec.ampl
    split
    · rw [hg]; cases Dict.get? p _ <;> simp
    · simp

include hnd hs in
theorem Represents.inner {p q : Psi ℂ} {u w : Fin d → ℂ} (hp : Represents n states hd p u) (hq : Represents n states hd q w) :
    Verif.inner p q = star u ⬝ᵥ w := by
  rw [inner_eq hq.state, hp.ampl, hq.ampl]
  unfold innerProduct
  rw [← sum_over_states hnd hs hd (fun S => star (spread states hd u S) * spread states hd w S)
    (fun S _ hS => by rw [spread_zero hd w hS, mul_zero])]
  simp only [dotProduct]
  exact sum_congr rfl fun i _ => by rw [spread_get hnd hd, spread_get hnd hd]; rfl

include hnd hs in
theorem Represents.norm2 {p : Psi ℂ} {u : Fin d → ℂ} (hp : Represents n states hd p u) :
    (Verif.norm2 p : ℝ) = ∑ i, Complex.normSq (u i) := by
  rw [norm2_eq hp.state, hp.ampl]
  have : ∑ S ∈ (range n).powerset, Complex.normSq (spread states hd u S) = ∑ i, Complex.normSq (u i) := by
    have h1 := sum_over_states hnd hs hd (fun S => ((Complex.normSq (spread states hd u S) : ℝ) : ℂ))
      (fun S _ hS => by rw [spread_zero hd u hS]; simp)
    have h2 : ∑ i : Fin d, ((Complex.normSq (spread states hd u (states[i.val]'(lt_of_lt_of_eq i.isLt hd))) : ℝ) : ℂ)
        = ∑ i, ((Complex.normSq (u i) : ℝ) : ℂ) := sum_congr rfl fun i _ => by rw [spread_get hnd hd]
    rw [h2] at h1
    exact_mod_cast h1.symm
  exact this

/-- The loop on dictionaries and the loop on vectors are in the same state. -/
structure SameKrylov (n : ℕ) {d : ℕ} (op : Op ℕ ℂ) (weight : ℝ) (r : Option Restrictions) (states : List (Finset ℕ))
    (hd : d = states.length) (s : DictKrylov) (t : Krylov d) : Prop where
  alpha : s.alpha = t.alpha
  beta : s.beta = t.beta
  v : Represents n states hd s.v t.v0
  w : Represents n states hd s.w t.w
  cache : CacheCorrect n op weight r s.hDict

variable {op : Op ℕ ℂ} (hop : OpInSystem n op) {weight cut : ℝ} (hw : weight ≤ 0) {r : Option Restrictions}
  (hsmall : ∀ T ⊆ range n, NoSmallElements n op cut r T) {M : Matrix (Fin d) (Fin d) ℂ}
  (hM : ∀ u, hamiltonian n op cut r (spread states hd u) = spread states hd (M *ᵥ u))

include hop hw hsmall hM in
theorem Represents.apply {p : Psi ℂ} {u : Fin d → ℂ} (hp : Represents n states hd p u) {cache : OpResult ℂ}
    (hc : CacheCorrect n op weight r cache) :
    ∃ wp cache', applyWithDict n op p weight r cache = .ok (wp, cache') ∧ Represents n states hd wp (M *ᵥ u) ∧
      CacheCorrect n op weight r cache' := by
  obtain ⟨wp, c', h1, h2, h3, h4⟩ := applyWithDict_spec hop hw hsmall hp.state hc
  exact ⟨wp, c', h1, ⟨h2, by rw [h4, hp.ampl, hM]⟩, h3⟩

include hnd hs hop hw hsmall hM in
/-- The loop on dictionaries follows the loop on vectors. -/
theorem dictKrylovLoop_eq : ∀ (m j : ℕ) (s : DictKrylov) (t : Krylov d), SameKrylov n op weight r states hd s t → 0 < j →
    j + m ≤ s.beta.length + 1 →
    (∃ s' t', dictKrylovLoop n op weight r m j s = .ok s' ∧ krylovLoop M m j t = .ok t' ∧
      SameKrylov n op weight r states hd s' t') ∨
    (dictKrylovLoop n op weight r m j s = .error .attributeError ∧ krylovLoop M m j t = .error .valueError) := by
  intro m
  induction m with
  | zero => exact fun j s t h _ _ => Or.inl ⟨s, t, rfl, rfl, h⟩
  | succ m ih =>
    intro j s t h hj hlen
    have hb := h.w.norm2 hnd hs
    rw [dictKrylovLoop, krylovLoop]
    unfold krylovVector
    dsimp only
    rw [hb]
    set b := Real.sqrt (∑ i, Complex.normSq (t.w i)) with hbdef
    by_cases h0 : b = 0
    · right
      simp only [h0, ne_eq, not_true_eq_false, if_false]
      exact ⟨rfl, rfl⟩
    · simp only [h0, ne_eq, not_false_eq_true, if_true, ok_bind]
      have hv : Represents n states hd (s.w.map fun p => (p.1, 1 / (b : ℂ) * p.2)) (fun i => t.w i / b) := by
        have := h.w.scale (1 / (b : ℂ))
        have he : (1 / (b : ℂ)) • t.w = fun i => t.w i / b := by
          funext i; rw [Pi.smul_apply, smul_eq_mul]; ring
        rwa [he] at this
      obtain ⟨wp, c', h1, h2, h3⟩ := hv.apply hop hw hsmall hM h.cache
      rw [h1]
      simp only [ok_bind]
      refine ih (j + 1) _ _ ⟨?_, ?_, ?_, ?_, h3⟩ (by omega) (by rw [List.length_set]; omega)
      · rw [h.alpha, h2.inner hnd hs hv]; rfl
      · rw [h.beta]; rfl
      · exact hv
      · have ha := h2.inner hnd hs hv
        have h5 := (h2.add hv (-(((Verif.inner wp (s.w.map fun p => (p.1, 1 / (b : ℂ) * p.2))).re : ℝ) : ℂ))).add h.v (-(b : ℂ))
        rw [ha] at h5
        have h6 : (t.beta.set (j - 1) b).getD (j - 1) 0 = b := by
          rw [getD_set, if_pos ⟨rfl, by rw [← h.beta]; omega⟩]
        convert h5 using 1
        · rw [ha]
        · unfold krylovAlpha
          dsimp only
          rw [h6, neg_smul, neg_smul, ← sub_eq_add_neg, ← sub_eq_add_neg]

include hnd hs hop hw hsmall hM in
/-- `getGreen` with `mode="dict"` in terms of the matrix in a closed basis. -/
theorem getGreenDict_matrix (hherm : M.IsHermitian) {v : Fin d → ℂ} (hvn : star v ⬝ᵥ v = 1) {psi : Psi ℂ} (hne : psi ≠ [])
    (hv : Represents n states hd psi v) {K : ℕ} (hK : 0 < K) {hDict : OpResult ℂ} (hc : CacheCorrect n op weight r hDict) :
    (LinearIndependent ℂ (fun i : Fin K => (M ^ i.val) *ᵥ v) → K ≤ d ∧ ∃ hDict', CacheCorrect n op weight r hDict' ∧
      ∀ (e : ℝ) (omega : List ℝ) (delta : ℝ), getGreenDict n e psi op omega delta K weight r hDict true = (do
          let (alpha, beta) ← tridiagonalKrylov M v K
          let g ← greenOnMesh alpha beta K omega delta e
          return (g, hDict'))) ∧
    (¬ LinearIndependent ℂ (fun i : Fin K => (M ^ i.val) *ᵥ v) → ∀ (e : ℝ) (omega : List ℝ) (delta : ℝ),
      getGreenDict n e psi op omega delta K weight r hDict true = .error .attributeError) := by
  have hp : psi.length ≠ 0 := fun h => hne (List.length_eq_zero_iff.1 h)
  obtain ⟨wp, c', h1, h2, h3⟩ := hv.apply hop hw hsmall hM hc
  have ha := h2.inner hnd hs hv
  set t : Krylov d := krylovFirst ⟨List.replicate K 0, List.replicate (K - 1) 0, v, 0, 0⟩ (M *ᵥ v) with ht
  set s : DictKrylov := ⟨(List.replicate K 0).set 0 (Verif.inner wp psi).re, List.replicate (K - 1) 0, psi,
      Verif.add wp psi (-(((Verif.inner wp psi).re : ℝ) : ℂ)), c'⟩ with hsdef
  have hsame : SameKrylov n op weight r states hd s t := by
    refine ⟨?_, rfl, hv, ?_, h3⟩
    · rw [hsdef, ha]; rfl
    · have h5 := h2.add hv (-(((Verif.inner wp psi).re : ℝ) : ℂ))
      convert h5 using 1
      rw [ht, ha, neg_smul, ← sub_eq_add_neg]
      rfl
  have hgreen : ∀ (e : ℝ) (omega : List ℝ) (delta : ℝ), getGreenDict n e psi op omega delta K weight r hDict true
      = (do
        let s ← dictKrylovLoop n op weight r (K - 1) 1 s
        let g ← greenOnMesh s.alpha s.beta K omega delta e
        return (g, s.hDict)) := by
    intro e omega delta
    unfold getGreenDict
    rw [if_neg hp, if_neg (by simp), if_neg hK.ne', h1]
    rfl
  have hdec : Decomp M (fun _ => v) t.alpha t.beta t.w 1 := decomp_first hherm hvn (by simpa using hK)
  have hla : t.alpha.length = K := by rw [ht, krylovFirst, List.length_set, List.length_replicate]
  have hlb : t.beta.length = K - 1 := by rw [ht, krylovFirst, List.length_replicate]
  have hK1 : 1 + (K - 1) = K := by omega
  have hspec := krylovLoop_spec hherm (K - 1) 1 t _ hdec rfl (by omega) (by omega)
  rw [hK1] at hspec
  have hloop := dictKrylovLoop_eq hnd hs hop hw hsmall hM (K - 1) 1 s t hsame one_pos (by rw [hsame.beta]; omega)
  constructor
  · intro hli
    have hKd : K ≤ d := by
      have := hli.fintype_card_le_finrank
      simpa using this
    refine ⟨hKd, ?_⟩
    rcases hspec with ⟨t', V, g1, -⟩ | ⟨-, j', V, al, be, -, g3, g4, g5⟩
    · rcases hloop with ⟨s', t'', e1, e2, e3⟩ | ⟨-, e2⟩
      · refine ⟨s'.hDict, e3.cache, fun e omega delta => ?_⟩
        rw [hgreen, e1]
        have htri : tridiagonalKrylov M v K = .ok (t''.alpha, t''.beta) := by
          unfold tridiagonalKrylov krylovAlloc
          rw [Nat.min_eq_left hKd]
          simp only [if_neg hK.ne', ok_bind]
          rw [← ht, e2]
          rfl
        rw [htri]
        simp only [ok_bind, e3.alpha, e3.beta]
      · rw [e2] at g1; cases g1
    · exact absurd (by rw [g5]; exact hli) (g4.dependent g3)
  · intro hli e omega delta
    rcases hspec with ⟨t', V, g1, g2, g3, -⟩ | ⟨g1, -⟩
    · exact absurd (by have := g2.independent; rwa [g3] at this) hli
    · rcases hloop with ⟨s', t'', e1, e2, e3⟩ | ⟨e1, -⟩
      · rw [e2] at g1; cases g1
      · rw [hgreen, e1]; rfl

end

end

end Verif
