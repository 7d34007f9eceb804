/-
C16, C17: the opResult cache of applyOp.
-/
import Verif.Lemmas.Cache
import Verif.Prop.ApplyOp

namespace Verif

open Finset Psr Spec

section
variable {R F : Type} [CommRing R] [StarRing R] [CommRing F] [LinearOrder F]
  [IsStrictOrderedRing F] [Amp R F]

/-- A program that calls `applyOp` for a list of states, always with the same
operator, cutoff and restrictions, sharing one `opResult` dictionary. -/
def applyHistory (n : ℕ) (op : Op ℕ R) (cut : F) (r : Option Restrictions) :
    List (Psi R) → OpResult R → Py (List (Psi R) × OpResult R)
  | [], o => .ok ([], o)
  | psi :: rest, o => do
    let (psi', o') ← applyOp n op psi cut r (some o)
    let (res, o'') ← applyHistory n op cut r rest (o'.getD [])
    return (psi' :: res, o'')

/-- C17.  One call: a correct cache stays correct, keeps its entries and gets an
entry for each product state of `psi`. -/
theorem C17_cache_step (n : ℕ) (op : Op ℕ R) (hop : OpInSystem n op) (psi : Psi R)
    (hpsi : IsState n psi) (cut : F) (r : Option Restrictions) (cache : OpResult R)
    (hc : CacheCorrect n op cut r cache) :
    ∃ psi' cache', applyOp n op psi cut r (some cache) = .ok (psi', some cache') ∧
      CacheCorrect n op cut r cache' ∧
      (∀ k, k ∈ Dict.keys cache' ↔ k ∈ Dict.keys cache ∨ k ∈ Dict.keys psi) ∧
      ∀ k ∈ Dict.keys cache, Dict.get? cache' k = Dict.get? cache k := by
  refine ⟨_, _, applyOp_cached_eq hop hpsi cut r cache hc, correct_cachedLoop hop hpsi hc, ?_, ?_⟩
  · intro k
    rw [Dict.mem_keys_iff, cachedLoop_snd_get? n op cut r psi hpsi.nodup,
      Dict.mem_keys_iff cache]
    cases Dict.get? cache k with
    | some _ => simp
    | none => by_cases h : k ∈ Dict.keys psi <;> simp [h]
  · intro k hk
    rw [cachedLoop_snd_get? n op cut r psi hpsi.nodup]
    rw [Dict.mem_keys_iff] at hk
    cases hg : Dict.get? cache k with
    | some _ => rfl
    | none => rw [hg] at hk; simp at hk

/-- C17, any history of calls that share an initially correct cache. -/
theorem applyHistory_correct (n : ℕ) (op : Op ℕ R) (hop : OpInSystem n op) (cut : F)
    (r : Option Restrictions) (psis : List (Psi R)) (hpsis : ∀ psi ∈ psis, IsState n psi)
    (cache : OpResult R) (hc : CacheCorrect n op cut r cache) :
    ∃ res cache', applyHistory n op cut r psis cache = .ok (res, cache') ∧
      CacheCorrect n op cut r cache' ∧
      ∀ k, k ∈ Dict.keys cache' ↔ k ∈ Dict.keys cache ∨ ∃ psi ∈ psis, k ∈ Dict.keys psi := by
  induction psis generalizing cache with
  | nil => exact ⟨[], cache, rfl, hc, by simp⟩
  | cons psi psis ih =>
    obtain ⟨psi', c1, h1, hc1, hk1, -⟩ := C17_cache_step n op hop psi (hpsis psi (by simp)) cut r cache hc
    obtain ⟨res, c2, h2, hc2, hk2⟩ := ih (fun p hp => hpsis p (by simp [hp])) c1 hc1
    refine ⟨psi' :: res, c2, ?_, hc2, ?_⟩
    · unfold applyHistory
      rw [h1]
      simp only [bind, Except.bind, Option.getD_some]
      rw [h2]
      rfl
    · intro k
      rw [hk2, hk1]
      simp [or_assoc]

/-- C17.  After any history of calls starting from the empty dictionary, each
entry of `opResult` is the pruned, restricted result of the operator on its key,
and exactly the product states passed in have an entry. -/
theorem C17_cache_history (n : ℕ) (op : Op ℕ R) (hop : OpInSystem n op) (cut : F)
    (r : Option Restrictions) (psis : List (Psi R)) (hpsis : ∀ psi ∈ psis, IsState n psi) :
    ∃ res cache, applyHistory n op cut r psis [] = .ok (res, cache) ∧
      CacheCorrect n op cut r cache ∧
      ∀ k, k ∈ Dict.keys cache ↔ ∃ psi ∈ psis, k ∈ Dict.keys psi := by
  obtain ⟨res, cache, h1, h2, h3⟩ :=
    applyHistory_correct n op hop cut r psis hpsis [] (correct_nil n op cut r)
  exact ⟨res, cache, h1, h2, by simpa using h3⟩

/-- What a cached call returns exactly: for product states found in the cache the
pruned column is used in place of the matrix elements. -/
theorem C16_cached_call (n : ℕ) (op : Op ℕ R) (hop : OpInSystem n op) (psi : Psi R)
    (hpsi : IsState n psi) (cut : F) (hcut : 0 < cut) (r : Option Restrictions) (cache : OpResult R)
    (hc : CacheCorrect n op cut r cache) :
    ∃ psi' cache', applyOp n op psi cut r (some cache) = .ok (psi', some cache') ∧ IsState n psi' ∧
      ∀ S ⊆ range n, ∀ x, x = ∑ T ∈ (range n).powerset, ampl n psi T *
          (if encBytes n T ∈ Dict.keys cache then column op cut r T S else matrixElement op S T) →
        Dict.get? psi' (encBytes n S) = if AllowedOpt r S ∧ cut ≤ abs2 x then some x else none := by
  refine ⟨_, _, applyOp_cached_eq hop hpsi cut r cache hc, isState_cached hop hc hpsi, ?_⟩
  intro S hS x hx
  rw [get?_cached hcut hS, total_cached hop hc hpsi hS, ← hx]

theorem uncached_get? (n : ℕ) (op : Op ℕ R) (hop : OpInSystem n op) (psi : Psi R)
    (hpsi : IsState n psi) (cut : F) (hcut : 0 < cut) (r : Option Restrictions) {S : Finset ℕ}
    (hS : S ⊆ range n) :
    Dict.get? (applyOpPure n op psi cut r) (encBytes n S)
      = if AllowedOpt r S ∧ cut ≤ abs2 (operator (opSpec op) (ampl n psi) S)
        then some (operator (opSpec op) (ampl n psi) S) else none := by
  rw [get?_applyOpPure hop hpsi cut r hS]
  by_cases hm : encBytes n S ∈ List.map Prod.fst (allContributions n op psi)
  · simp [hm]
  · rw [← total_allContributions hop hpsi hS, total_of_notMem hm, Amp.abs2_zero,
      if_neg (fun h => hm h.2.1), if_neg (fun h => not_le.2 hcut h.2)]

omit [CommRing R] [StarRing R] in
theorem eqv_of_isState {n : ℕ} {a b : Psi R} (ha : IsState n a) (hb : IsState n b)
    (h : ∀ S ⊆ range n, Dict.get? a (encBytes n S) = Dict.get? b (encBytes n S)) : Dict.Eqv a b := by
  intro k
  by_cases hk : ∃ S ⊆ range n, k = encBytes n S
  · obtain ⟨S, hS, rfl⟩ := hk; exact h S hS
  · rw [(Dict.get?_eq_none_iff a k).2 (fun hm => hk (ha.keys k hm)),
      (Dict.get?_eq_none_iff b k).2 (fun hm => hk (hb.keys k hm))]

theorem column_of_noSmall {n : ℕ} {op : Op ℕ R} {cut : F} {r : Option Restrictions} {S T : Finset ℕ}
    (h : NoSmallElements n op cut r T) (hS : S ⊆ range n) (ha : AllowedOpt r S) :
    column op cut r T S = matrixElement op S T := by
  unfold column
  rcases h S hS ha with h0 | hc
  · rw [h0]; simp
  · rw [if_pos ⟨ha, hc⟩]

/-- C16, one call.  Missing for the full property: the hypothesis
`NoSmallElements` on the cached product states of `psi`; without it the claim is
false, see `C16_cache_not_transparent`. -/
theorem C16_cache_transparent_step_partial (n : ℕ) (op : Op ℕ R) (hop : OpInSystem n op)
    (psi : Psi R) (hpsi : IsState n psi) (cut : F) (hcut : 0 < cut) (r : Option Restrictions)
    (cache : OpResult R) (hc : CacheCorrect n op cut r cache)
    (hsmall : ∀ T ⊆ range n, encBytes n T ∈ Dict.keys cache → encBytes n T ∈ Dict.keys psi →
      NoSmallElements n op cut r T) :
    ∃ psi' psi'' cache', applyOp n op psi cut r none = .ok (psi', none) ∧
      applyOp n op psi cut r (some cache) = .ok (psi'', some cache') ∧ Dict.Eqv psi' psi'' := by
  refine ⟨_, _, _, applyOp_eq hop hpsi cut r, applyOp_cached_eq hop hpsi cut r cache hc, ?_⟩
  apply eqv_of_isState (isState_applyOpPure hop hpsi cut r) (isState_cached hop hc hpsi)
  intro S hS
  rw [uncached_get? n op hop psi hpsi cut hcut r hS, get?_cached hcut hS]
  by_cases ha : AllowedOpt r S
  · have : total (psi.flatMap (evsCached n op cache)) (encBytes n S)
        = operator (opSpec op) (ampl n psi) S := by
      rw [total_cached hop hc hpsi hS, operator_eq_sum hpsi]
      apply sum_congr rfl
      intro T hT
      rw [mem_powerset] at hT
      split
      · rename_i hmc
        by_cases hmp : encBytes n T ∈ Dict.keys psi
        · rw [column_of_noSmall (hsmall T hT hmc hmp) hS ha]
        · rw [ampl_of_subset hT, (Dict.get?_eq_none_iff psi _).2 hmp]; simp
      · rfl
    rw [this]
  · rw [if_neg (fun h => ha h.1), if_neg (fun h => ha h.1)]

/-- C16, any history.  Missing for the full property: the hypothesis that no
matrix element is below the cutoff. -/
theorem C16_cache_transparent_partial (n : ℕ) (op : Op ℕ R) (hop : OpInSystem n op) (cut : F)
    (hcut : 0 < cut) (r : Option Restrictions) (psis : List (Psi R))
    (hpsis : ∀ psi ∈ psis, IsState n psi)
    (hsmall : ∀ T ⊆ range n, NoSmallElements n op cut r T) :
    ∃ res cache, applyHistory n op cut r psis [] = .ok (res, cache) ∧
      List.Forall₂ (fun psi psi'' => ∃ psi', applyOp n op psi cut r none = .ok (psi', none) ∧
        Dict.Eqv psi' psi'') psis res := by
  have key : ∀ cache : OpResult R, CacheCorrect n op cut r cache →
      ∃ res cache', applyHistory n op cut r psis cache = .ok (res, cache') ∧
      List.Forall₂ (fun psi psi'' => ∃ psi', applyOp n op psi cut r none = .ok (psi', none) ∧
        Dict.Eqv psi' psi'') psis res := by
    induction psis with
    | nil => intro cache _; exact ⟨[], cache, rfl, .nil⟩
    | cons psi psis ih =>
      intro cache hc
      have hpsi := hpsis psi (by simp)
      obtain ⟨p1, p2, c1, h1, h2, h3⟩ := C16_cache_transparent_step_partial n op hop psi hpsi cut hcut r
        cache hc (fun T hT _ _ => hsmall T hT)
      obtain ⟨q, c1', h4, hc1, -⟩ := C17_cache_step n op hop psi hpsi cut r cache hc
      rw [h2] at h4
      injection h4 with h4
      injection h4 with h4 h5
      injection h5 with h5
      subst h4 h5
      obtain ⟨res, c2, h6, h7⟩ := ih (fun p hp => hpsis p (by simp [hp])) c1 hc1
      refine ⟨p2 :: res, c2, ?_, .cons ⟨p1, h1, h3⟩ h7⟩
      unfold applyHistory
      rw [h2]
      simp only [bind, Except.bind, Option.getD_some]
      rw [h6]
      rfl
  exact key [] (correct_nil n op cut r)

/-- C16, the first call (more generally: a call on product states that are not
yet in the cache) is always transparent. -/
theorem C16_cache_transparent_fresh (n : ℕ) (op : Op ℕ R) (hop : OpInSystem n op)
    (psi : Psi R) (hpsi : IsState n psi) (cut : F) (hcut : 0 < cut) (r : Option Restrictions)
    (cache : OpResult R) (hc : CacheCorrect n op cut r cache)
    (hfresh : ∀ k ∈ Dict.keys psi, k ∉ Dict.keys cache) :
    ∃ psi' psi'' cache', applyOp n op psi cut r none = .ok (psi', none) ∧
      applyOp n op psi cut r (some cache) = .ok (psi'', some cache') ∧ Dict.Eqv psi' psi'' :=
  C16_cache_transparent_step_partial n op hop psi hpsi cut hcut r cache hc
    (fun _ _ h1 h2 => absurd h1 (hfresh _ h2))

end

/-! ### C16 is false of the code in general -/

/-- `3/5 |0> + 3/5 |1>` for three spin-orbitals. -/
def smallPsi : Psi ℚ := [([128], 3/5), ([64], 3/5)]

/-- `h c2† c0 + h c2† c1` with `h = 9·10⁻⁷`. -/
def smallOp : Op ℕ ℚ :=
  [([(2, .c), (0, .a)], 9/10000000), ([(2, .c), (1, .a)], 9/10000000)]

theorem smallPsi_isState : IsState 3 smallPsi :=
  ⟨by decide +kernel, by
    intro k hk
    simp only [smallPsi, Dict.keys, List.map_cons, List.map_nil, List.mem_cons, List.not_mem_nil,
      or_false] at hk
    rcases hk with rfl | rfl
    · exact ⟨{0}, by decide, by decide⟩
    · exact ⟨{1}, by decide, by decide⟩⟩

/-- C16 fails: calling `applyOp` twice with the same arguments and a shared cache
(and a cutoff `10⁻¹²`, the value used for the columns in finite.py) returns the
correct state first and the empty state afterwards. -/
theorem C16_cache_not_transparent :
    OpInSystem 3 smallOp ∧ IsState 3 smallPsi ∧
    applyOp 3 smallOp smallPsi (1/10^12) none none = .ok ([([32], 27/25000000)], none) ∧
    ∃ cache, applyHistory 3 smallOp (1/10^12) none [smallPsi, smallPsi] []
      = .ok ([[([32], 27/25000000)], []], cache) := by
  refine ⟨?_, smallPsi_isState, ?_, [([128], []), ([64], [])], ?_⟩
  · unfold OpInSystem smallOp; decide +kernel
  · decide +kernel
  · decide +kernel

/-! Non-vacuity of the transparency theorem: exOp has only integer elements, so
with cutoff 1 nothing is small. -/

theorem exOp_noSmall (r : Option Restrictions) (T : Finset ℕ) :
    NoSmallElements 3 exOp (1 : ℤ) r T := by
  intro S _ _
  by_cases h : matrixElement exOp S T = 0
  · exact Or.inl h
  · right
    change 1 ≤ matrixElement exOp S T * matrixElement exOp S T
    have : 0 < matrixElement exOp S T * matrixElement exOp S T := mul_self_pos.2 h
    omega

example : ∃ cache, applyHistory 3 exOp (1 : ℤ) none [exPsi, exPsi] []
    = .ok ([[([32], 10), ([128], -2), ([96], -21), ([160], -3)],
        [([32], 10), ([128], -2), ([96], -21), ([160], -3)]], cache) :=
  ⟨_, rfl⟩

example : ∃ res cache, applyHistory 3 exOp (1 : ℤ) none [exPsi, exPsi] [] = .ok (res, cache) ∧
    List.Forall₂ (fun psi psi'' => ∃ psi', applyOp 3 exOp psi (1 : ℤ) none none = .ok (psi', none) ∧
      Dict.Eqv psi' psi'') [exPsi, exPsi] res :=
  C16_cache_transparent_partial 3 exOp exOp_inSystem 1 (by decide) none _
    (by intro p hp; simp at hp; subst hp; exact exPsi_isState) (fun T _ => exOp_noSmall none T)

end Verif
