import Verif.Lemmas.States
import Verif.Spec.Cache

set_option linter.unusedSectionVars false
set_option linter.unusedSimpArgs false

namespace Verif

open Finset Spec Psr

theorem foldlM_ok_inv {α β : Type*} (Inv : β → Prop) (f : β → α → Py β) (g : β → α → β) (l : List α)
    (b : β) (hb : Inv b) (h : ∀ b, Inv b → ∀ a ∈ l, f b a = .ok (g b a) ∧ Inv (g b a)) :
    l.foldlM f b = .ok (l.foldl g b) ∧ Inv (l.foldl g b) := by
  induction l generalizing b with
  | nil => exact ⟨rfl, hb⟩
  | cons a l ih =>
    obtain ⟨h1, h2⟩ := h b hb a (by simp)
    rw [List.foldlM_cons, h1, List.foldl_cons]
    exact ih _ h2 (fun b hb a ha => h b hb a (by simp [ha]))

section
variable {R F : Type} [CommRing R] [StarRing R] [CommRing F] [LinearOrder F]
  [IsStrictOrderedRing F] [Amp R F]

/-- The column computed for the product state `T`. -/
def colPure (n : ℕ) (op : Op ℕ R) (cut : F) (r : Option Restrictions) (T : Finset ℕ) : Psi R :=
  prune cut ((contributions n op T 1).foldl (addIf (okKey n r)) [])

/-- What one product state of psi contributes, with a cache. -/
def evsCached (n : ℕ) (op : Op ℕ R) (cache : OpResult R) (p : Bytes × R) : List (Bytes × R) :=
  match Dict.get? cache p.1 with
  | some col => col.map fun e => (e.1, e.2 * p.2)
  | none => contributions n op (dec n p.1) p.2

/-- One step of the cached loops. -/
def cachedStep (n : ℕ) (op : Op ℕ R) (cut : F) (r : Option Restrictions)
    (acc : Psi R × OpResult R) (p : Bytes × R) : Psi R × OpResult R :=
  ((evsCached n op acc.2 p).foldl (addIf (okKey n r)) acc.1,
    match Dict.get? acc.2 p.1 with
    | some _ => acc.2
    | none => Dict.set acc.2 p.1 (colPure n op cut r (dec n p.1)))

theorem addToFirst_eq (psi col : Psi R) (amp : R) :
    addToFirst psi col amp = (col.map fun e => (e.1, e.2 * amp)).foldl (addIf fun _ => true) psi := by
  unfold addToFirst
  rw [List.foldl_map]
  congr 1

theorem foldl_addIf_true {ok : Bytes → Bool} (evs : List (Bytes × R)) (h : ∀ e ∈ evs, ok e.1 = true)
    (d : Psi R) : evs.foldl (addIf fun _ => true) d = evs.foldl (addIf ok) d := by
  induction evs generalizing d with
  | nil => rfl
  | cons e evs ih =>
    rw [List.foldl_cons, List.foldl_cons, ih (fun e he => h e (by simp [he]))]
    congr 1
    unfold addIf
    simp [h e (by simp)]

/-- contributions with amplitude 1 folded process by process. -/
theorem foldl_contributions_one (n : ℕ) (ok : Bytes → Bool) (op : Op ℕ R) (T : Finset ℕ) (d : Psi R) :
    (contributions n op T 1).foldl (addIf ok) d
      = op.foldl (fun d q => match setActs q.1.reverse T 1 with
        | none => d
        | some r => addIf ok d (encBytes n r.1, q.2 * (r.2 : R))) d := by
  rw [foldl_contributions]
  simp only [one_mul]
  rfl

theorem applyOpCached_eq {n : ℕ} {op : Op ℕ R} (hop : OpInSystem n op) {psi : Psi R}
    (hpsi : IsState n psi) (cut : F) (cache : OpResult R) :
    applyOpCached n op psi cut cache = .ok (psi.foldl (cachedStep n op cut none) ([], cache)) := by
  unfold applyOpCached
  apply foldlM_ok
  rintro ⟨d, cache⟩ ⟨k, amp⟩ hp
  obtain ⟨T, hT, hk⟩ := hpsi.keys k (List.mem_map.2 ⟨_, hp, rfl⟩)
  subst hk
  dsimp only
  unfold cachedStep evsCached
  cases hg : Dict.get? cache (encBytes n T) with
  | some col =>
    simp only [addToFirst_eq]
    rfl
  | none =>
    simp only
    rw [foldlM_ok _ (fun (acc : Psi R × Psi R) q =>
      match setActs q.1.reverse T 1 with
      | none => acc
      | some r => (addIf (okKey n none) acc.1 (encBytes n r.1, amp * q.2 * (r.2 : R)),
          addIf (okKey n none) acc.2 (encBytes n r.1, q.2 * (r.2 : R))))]
    · simp only [bind, Except.bind, pure, Except.pure]
      rw [dec_enc hT, colPure, foldl_contributions, foldl_contributions_one]
      have hsplit : ∀ (l : Op ℕ R) (x y : Psi R),
          l.foldl (fun (acc : Psi R × Psi R) q =>
            match setActs q.1.reverse T 1 with
            | none => acc
            | some r => (addIf (okKey n none) acc.1 (encBytes n r.1, amp * q.2 * (r.2 : R)),
                addIf (okKey n none) acc.2 (encBytes n r.1, q.2 * (r.2 : R)))) (x, y)
          = (l.foldl (fun d q => match setActs q.1.reverse T 1 with
              | none => d
              | some r => addIf (okKey n none) d (encBytes n r.1, amp * q.2 * (r.2 : R))) x,
             l.foldl (fun d q => match setActs q.1.reverse T 1 with
              | none => d
              | some r => addIf (okKey n none) d (encBytes n r.1, q.2 * (r.2 : R))) y) := by
        intro l
        induction l with
        | nil => intro x y; rfl
        | cons q l ih =>
          intro x y
          rw [List.foldl_cons, List.foldl_cons, List.foldl_cons]
          cases setActs q.1.reverse T 1 with
          | none => exact ih x y
          | some r => exact ih _ _
      rw [hsplit]
      rfl
    · rintro ⟨x, y⟩ q hq
      dsimp only
      rw [runProcess_enc hop hq]
      cases hr : setActs q.1.reverse T 1 with
      | none => rfl
      | some r' =>
        obtain ⟨S, t⟩ := r'
        simp only [Option.map_some, bind, Except.bind, pure, Except.pure, bitarray2bytes,
          tobytes_encBits, addAt_eq_addIf]
        rfl

/-- All keys of all cached columns pass the restrictions. -/
def ColsOk (n : ℕ) (r : Option Restrictions) (cache : OpResult R) : Prop :=
  ∀ k col, Dict.get? cache k = some col → KeysOk (okKey n r) col

theorem keysOk_colPure (n : ℕ) (op : Op ℕ R) (cut : F) (r : Option Restrictions) (T : Finset ℕ) :
    KeysOk (okKey n r) (colPure n op cut r T) := by
  intro k hk
  have := mem_keys_prune _ _ (nodupKeys_foldl_addIf _ _ _ Dict.nodupKeys_nil) _ hk
  exact keysOk_foldl_addIf _ (by intro k hk; simp at hk) k this

theorem colsOk_cachedStep {n : ℕ} {op : Op ℕ R} {cut : F} {r : Option Restrictions}
    {acc : Psi R × OpResult R} (p : Bytes × R) (h : ColsOk n r acc.2) :
    ColsOk n r (cachedStep n op cut r acc p).2 := by
  unfold cachedStep
  dsimp only
  cases hg : Dict.get? acc.2 p.1 with
  | some c => exact h
  | none =>
    intro k col hk
    rw [Dict.get?_set] at hk
    split at hk
    · simp only [Option.some.injEq] at hk; subst hk; exact keysOk_colPure _ _ _ _ _
    · exact h k col hk

theorem applyOpCachedRestricted_eq {n : ℕ} {op : Op ℕ R} (hop : OpInSystem n op) {psi : Psi R}
    (hpsi : IsState n psi) (cut : F) (r : Restrictions) (cache : OpResult R)
    (hc : ColsOk n (some r) cache) :
    applyOpCachedRestricted n op psi cut r cache
      = .ok (psi.foldl (cachedStep n op cut (some r)) ([], cache)) := by
  unfold applyOpCachedRestricted
  refine (foldlM_ok_inv (fun acc : Psi R × OpResult R => KeysOk (okKey n (some r)) acc.1 ∧
    ColsOk n (some r) acc.2) _ _ _ _ ⟨by intro k hk; simp at hk, hc⟩ ?_).1
  rintro ⟨d, cache⟩ ⟨hd, hcols⟩ ⟨k, amp⟩ hp
  refine ⟨?_, keysOk_foldl_addIf _ hd, colsOk_cachedStep _ hcols⟩
  simp only at hd hcols
  obtain ⟨T, hT, hk⟩ := hpsi.keys k (List.mem_map.2 ⟨_, hp, rfl⟩)
  subst hk
  dsimp only
  unfold cachedStep evsCached
  cases hg : Dict.get? cache (encBytes n T) with
  | some col =>
    simp only [addToFirst_eq]
    rw [foldl_addIf_true (ok := okKey n (some r))]
    · rfl
    · intro e he
      obtain ⟨e', he', rfl⟩ := List.mem_map.1 he
      exact hcols _ _ hg _ (List.mem_map.2 ⟨e', he', rfl⟩)
  | none =>
    simp only
    have hsplit : ∀ (l : Op ℕ R) (x y : Psi R),
        l.foldl (fun (acc : Psi R × Psi R) q =>
          match setActs q.1.reverse T 1 with
          | none => acc
          | some r' => (addIf (okKey n (some r)) acc.1 (encBytes n r'.1, amp * q.2 * (r'.2 : R)),
              addIf (okKey n (some r)) acc.2 (encBytes n r'.1, q.2 * (r'.2 : R)))) (x, y)
        = (l.foldl (fun d q => match setActs q.1.reverse T 1 with
            | none => d
            | some r' => addIf (okKey n (some r)) d (encBytes n r'.1, amp * q.2 * (r'.2 : R))) x,
           l.foldl (fun d q => match setActs q.1.reverse T 1 with
            | none => d
            | some r' => addIf (okKey n (some r)) d (encBytes n r'.1, q.2 * (r'.2 : R))) y) := by
      intro l
      induction l with
      | nil => intro x y; rfl
      | cons q l ih =>
        intro x y
        rw [List.foldl_cons, List.foldl_cons, List.foldl_cons]
        cases setActs q.1.reverse T 1 with
        | none => exact ih x y
        | some r => exact ih _ _
    rw [(foldlM_ok_inv (fun acc : Psi R × Psi R => KeysOk (okKey n (some r)) acc.1 ∧
        ∀ k ∈ Dict.keys acc.2, k ∈ Dict.keys acc.1) _ (fun (acc : Psi R × Psi R) q =>
      match setActs q.1.reverse T 1 with
      | none => acc
      | some r' => (addIf (okKey n (some r)) acc.1 (encBytes n r'.1, amp * q.2 * (r'.2 : R)),
          addIf (okKey n (some r)) acc.2 (encBytes n r'.1, q.2 * (r'.2 : R)))) _ _
        ⟨hd, by intro k hk; simp at hk⟩ ?_).1]
    · simp only [bind, Except.bind, pure, Except.pure]
      rw [dec_enc hT, colPure, foldl_contributions, foldl_contributions_one, hsplit]
      rfl
    · rintro ⟨x, y⟩ ⟨hx, hyx⟩ q hq
      simp only at hx hyx
      dsimp only
      rw [runProcess_enc hop hq]
      cases hr : setActs q.1.reverse T 1 with
      | none => exact ⟨rfl, hx, hyx⟩
      | some r' =>
        obtain ⟨S, t⟩ := r'
        have hkeys : ∀ k ∈ Dict.keys (addIf (okKey n (some r)) y (encBytes n S, q.2 * (t : R))),
            k ∈ Dict.keys (addIf (okKey n (some r)) x (encBytes n S, amp * q.2 * (t : R))) := by
          intro k hk
          rw [Dict.mem_keys_iff, get?_addIf] at hk ⊢
          have hyxk : Dict.get? x k = none → Dict.get? y k = none := by
            intro hxn
            rw [Dict.get?_eq_none_iff] at hxn ⊢
            exact fun h => hxn (hyx k h)
          split
          · rename_i he
            rw [if_pos he] at hk
            cases hgx : Dict.get? x k with
            | some v => rfl
            | none => rw [hyxk hgx] at hk; simpa using hk
          · rename_i he
            rw [if_neg he] at hk
            cases hgx : Dict.get? x k with
            | some v => rfl
            | none => rw [hyxk hgx] at hk; simp at hk
        refine ⟨?_, keysOk_addIf hx _, hkeys⟩
        simp only [Option.map_some, bind, Except.bind, pure, Except.pure, bitarray2bytes,
          tobytes_encBits, bitarray2tuple_encBits]
        cases hgx : Dict.get? x (encBytes n S) with
        | some v =>
          have hok : okKey n (some r) (encBytes n S) = true :=
            hx _ (by rw [Dict.mem_keys_iff, hgx]; rfl)
          simp only [addIf, hgx, Dict.addAt, hok, if_true]
          rfl
        | none =>
          have hgy : Dict.get? y (encBytes n S) = none := by
            rw [Dict.get?_eq_none_iff] at hgx ⊢
            exact fun h => hgx (hyx _ h)
          simp only [addIf, hgx, hgy]
          have : okKey n (some r) (encBytes n S) = fulfils r (bytes2tuple (encBytes n S) n) := rfl
          rw [this]
          split <;> rfl

/-! ### analysis of the cached loop -/

theorem cachedLoop_snd_get? (n : ℕ) (op : Op ℕ R) (cut : F) (r : Option Restrictions) (psi : Psi R)
    (hnd : Dict.NodupKeys psi) (d : Psi R) (cache : OpResult R) (k : Bytes) :
    Dict.get? (psi.foldl (cachedStep n op cut r) (d, cache)).2 k
      = match Dict.get? cache k with
        | some col => some col
        | none => if k ∈ Dict.keys psi then some (colPure n op cut r (dec n k)) else none := by
  induction psi generalizing d cache with
  | nil => cases h : Dict.get? cache k <;> simp [h]
  | cons p psi ih =>
    unfold Dict.NodupKeys at hnd
    rw [Dict.keys_cons, List.nodup_cons] at hnd
    rw [List.foldl_cons, show cachedStep n op cut r (d, cache) p
      = ((cachedStep n op cut r (d, cache) p).1, (cachedStep n op cut r (d, cache) p).2) from rfl,
      ih hnd.2]
    unfold cachedStep
    dsimp only
    cases hg : Dict.get? cache p.1 with
    | some c =>
      by_cases hk : p.1 = k
      · subst hk; simp [hg]
      · cases hc : Dict.get? cache k with
        | some _ => simp [hc]
        | none => simp [hc, Ne.symm hk]
    | none =>
      by_cases hk : p.1 = k
      · subst hk; simp [hg, Dict.get?_set]
      · cases hc : Dict.get? cache k with
        | some _ => simp [hc, Dict.get?_set, hk]
        | none => simp [hc, Dict.get?_set, hk, Ne.symm hk]

theorem nodup_cachedLoop_snd (n : ℕ) (op : Op ℕ R) (cut : F) (r : Option Restrictions) (psi : Psi R)
    (d : Psi R) (cache : OpResult R) (hc : Dict.NodupKeys cache) :
    Dict.NodupKeys (psi.foldl (cachedStep n op cut r) (d, cache)).2 := by
  induction psi generalizing d cache with
  | nil => exact hc
  | cons p psi ih =>
    rw [List.foldl_cons]
    apply ih
    dsimp only
    split
    · exact hc
    · exact Dict.nodupKeys_set hc _ _

theorem evsCached_congr (n : ℕ) (op : Op ℕ R) (c1 c2 : OpResult R) (p : Bytes × R)
    (h : Dict.get? c1 p.1 = Dict.get? c2 p.1) : evsCached n op c1 p = evsCached n op c2 p := by
  unfold evsCached; rw [h]

theorem cachedLoop_fst (n : ℕ) (op : Op ℕ R) (cut : F) (r : Option Restrictions) (psi : Psi R)
    (hnd : Dict.NodupKeys psi) (d : Psi R) (cache : OpResult R) :
    (psi.foldl (cachedStep n op cut r) (d, cache)).1
      = (psi.flatMap (evsCached n op cache)).foldl (addIf (okKey n r)) d := by
  induction psi generalizing d cache with
  | nil => rfl
  | cons p psi ih =>
    unfold Dict.NodupKeys at hnd
    rw [Dict.keys_cons, List.nodup_cons] at hnd
    rw [List.foldl_cons, show cachedStep n op cut r (d, cache) p
      = ((cachedStep n op cut r (d, cache) p).1, (cachedStep n op cut r (d, cache) p).2) from rfl,
      ih hnd.2, List.flatMap_cons, List.foldl_append]
    unfold cachedStep
    dsimp only
    have : List.flatMap (evsCached n op (match Dict.get? cache p.1 with
        | some _ => cache
        | none => Dict.set cache p.1 (colPure n op cut r (dec n p.1)))) psi
        = List.flatMap (evsCached n op cache) psi := by
      unfold List.flatMap
      congr 1
      apply List.map_congr_left
      intro q hq
      apply evsCached_congr
      cases hg : Dict.get? cache p.1 with
      | some c => rfl
      | none =>
        dsimp only
        rw [Dict.get?_set, if_neg]
        rintro h
        exact hnd.1 (h ▸ List.mem_map.2 ⟨q, hq, rfl⟩)
    rw [this]

/-! ### correctness of columns -/

theorem isState_single {n : ℕ} {T : Finset ℕ} (hT : T ⊆ range n) (x : R) :
    IsState n ([(encBytes n T, x)] : Psi R) :=
  ⟨by simp [Dict.NodupKeys], by intro k hk; simp at hk; exact ⟨T, hT, hk⟩⟩

theorem ampl_single {n : ℕ} {T : Finset ℕ} (hT : T ⊆ range n) (x : R) :
    ampl n ([(encBytes n T, x)] : Psi R) = single T x := by
  rw [ampl_eq_sum (isState_single hT x)]
  funext S
  simp [dec_enc hT]

theorem colPure_eq_applyOpPure {n : ℕ} {op : Op ℕ R} {cut : F} {r : Option Restrictions}
    {T : Finset ℕ} (hT : T ⊆ range n) :
    colPure n op cut r T = applyOpPure n op [(encBytes n T, 1)] cut r := by
  unfold colPure applyOpPure allContributions
  simp [dec_enc hT]

theorem isState_colPure {n : ℕ} {op : Op ℕ R} (hop : OpInSystem n op) (cut : F)
    (r : Option Restrictions) {T : Finset ℕ} (hT : T ⊆ range n) : IsState n (colPure n op cut r T) := by
  rw [colPure_eq_applyOpPure hT]
  exact isState_applyOpPure hop (isState_single hT 1) cut r

theorem ampl_colPure {n : ℕ} {op : Op ℕ R} (hop : OpInSystem n op) (cut : F)
    (r : Option Restrictions) {T : Finset ℕ} (hT : T ⊆ range n) {S : Finset ℕ} (hS : S ⊆ range n) :
    ampl n (colPure n op cut r T) S = column op cut r T S := by
  rw [colPure_eq_applyOpPure hT, ampl_applyOpPure hop (isState_single hT 1) cut r hS, ampl_single hT]
  rfl

theorem colsOk_of_correct {n : ℕ} {op : Op ℕ R} {cut : F} {r : Option Restrictions}
    {cache : OpResult R} (h : CacheCorrect n op cut r cache) : ColsOk n r cache := by
  intro k col hk k' hk'
  obtain ⟨T, hT, -, hst, hal, -⟩ := h.entries k col hk
  obtain ⟨S, hS, rfl⟩ := hst.keys k' hk'
  rw [okKey_enc r hS]
  exact hal S hS hk'

theorem correct_cachedLoop {n : ℕ} {op : Op ℕ R} (hop : OpInSystem n op) {cut : F}
    {r : Option Restrictions} {psi : Psi R} (hpsi : IsState n psi) {d : Psi R} {cache : OpResult R}
    (h : CacheCorrect n op cut r cache) :
    CacheCorrect n op cut r (psi.foldl (cachedStep n op cut r) (d, cache)).2 := by
  refine ⟨nodup_cachedLoop_snd n op cut r psi d cache h.nodup, ?_⟩
  intro k col hk
  rw [cachedLoop_snd_get? n op cut r psi hpsi.nodup] at hk
  cases hc : Dict.get? cache k with
  | some c => rw [hc] at hk; simp only [Option.some.injEq] at hk; subst hk; exact h.entries k c hc
  | none =>
    rw [hc] at hk
    simp only at hk
    split at hk
    · rename_i hmem
      simp only [Option.some.injEq] at hk
      subst hk
      obtain ⟨T, hT, rfl⟩ := hpsi.keys k hmem
      rw [dec_enc hT]
      refine ⟨T, hT, rfl, isState_colPure hop cut r hT, ?_, fun S hS => ampl_colPure hop cut r hT hS⟩
      intro S hS hm
      rw [← okKey_enc r hS]
      exact keysOk_colPure n op cut r T _ hm
    · simp at hk

theorem correct_nil (n : ℕ) (op : Op ℕ R) (cut : F) (r : Option Restrictions) :
    CacheCorrect n op cut r [] :=
  ⟨Dict.nodupKeys_nil, by intro k col h; simp at h⟩

/-! ### the cached applyOp -/

theorem applyOp_cached_eq {n : ℕ} {op : Op ℕ R} (hop : OpInSystem n op) {psi : Psi R}
    (hpsi : IsState n psi) (cut : F) (r : Option Restrictions) (cache : OpResult R)
    (hc : CacheCorrect n op cut r cache) :
    applyOp n op psi cut r (some cache)
      = .ok (prune cut ((psi.flatMap (evsCached n op cache)).foldl (addIf (okKey n r)) []),
          some (psi.foldl (cachedStep n op cut r) ([], cache)).2) := by
  unfold applyOp
  cases r with
  | none =>
    simp only [applyOpCached_eq hop hpsi, bind, Except.bind, pure, Except.pure]
    rw [cachedLoop_fst n op cut none psi hpsi.nodup]
  | some r =>
    simp only [applyOpCachedRestricted_eq hop hpsi cut r cache (colsOk_of_correct hc), bind,
      Except.bind, pure, Except.pure]
    rw [cachedLoop_fst n op cut (some r) psi hpsi.nodup]

end

end Verif

namespace Verif

open Finset Spec Psr

section
variable {R F : Type} [CommRing R] [StarRing R] [CommRing F] [LinearOrder F]
  [IsStrictOrderedRing F] [Amp R F]

theorem operator_single (op : Op ℕ R) (T S : Finset ℕ) (v : R) :
    operator (opSpec op) (single T v) S = v * matrixElement op S T := by
  unfold matrixElement
  rw [← operator_smul]
  congr 1
  funext S'
  unfold single
  split <;> simp

theorem total_evsCached {n : ℕ} {op : Op ℕ R} (hop : OpInSystem n op) {cut : F}
    {r : Option Restrictions} {cache : OpResult R} (hc : CacheCorrect n op cut r cache)
    {T : Finset ℕ} (hT : T ⊆ range n) (v : R) {S : Finset ℕ} (hS : S ⊆ range n) :
    total (evsCached n op cache (encBytes n T, v)) (encBytes n S)
      = v * if encBytes n T ∈ Dict.keys cache then column op cut r T S else matrixElement op S T := by
  unfold evsCached
  cases hg : Dict.get? cache (encBytes n T) with
  | some col =>
    have hm : encBytes n T ∈ Dict.keys cache := by rw [Dict.mem_keys_iff, hg]; rfl
    rw [if_pos hm]
    obtain ⟨T', hT', he, hst, -, hcol⟩ := hc.entries _ _ hg
    have := encBytes_injOn hT hT' he
    subst this
    rw [← hcol S hS, ampl, if_pos hS]
    unfold total
    simp only [List.map_map]
    have h := Dict.sum_items_eq col hst.nodup (encBytes n S) (fun x => x * v)
    simp only [Function.comp_def]
    rw [h]
    cases Dict.get? col (encBytes n S) <;> simp [mul_comm]
  | none =>
    have hm : encBytes n T ∉ Dict.keys cache := by rw [← Dict.get?_eq_none_iff]; exact hg
    rw [if_neg hm]
    simp only
    rw [dec_enc hT, total_contributions hop hT v hS, operator_single]

theorem mem_evsCached {n : ℕ} {op : Op ℕ R} (hop : OpInSystem n op) {cut : F}
    {r : Option Restrictions} {cache : OpResult R} (hc : CacheCorrect n op cut r cache)
    {psi : Psi R} (hpsi : IsState n psi) {e : Bytes × R}
    (he : e ∈ psi.flatMap (evsCached n op cache)) : ∃ S ⊆ range n, e.1 = encBytes n S := by
  obtain ⟨⟨k, v⟩, hp, he⟩ := List.mem_flatMap.1 he
  obtain ⟨T, hT, hk⟩ := hpsi.keys k (List.mem_map.2 ⟨_, hp, rfl⟩)
  subst hk
  unfold evsCached at he
  cases hg : Dict.get? cache (encBytes n T) with
  | some col =>
    simp only [hg] at he
    obtain ⟨e', he', rfl⟩ := List.mem_map.1 he
    obtain ⟨_, _, _, hst, _⟩ := hc.entries _ _ hg
    exact hst.keys _ (List.mem_map.2 ⟨e', he', rfl⟩)
  | none =>
    simp only [hg] at he
    rw [dec_enc hT] at he
    exact mem_contributions hop hT he

/-- The state before pruning, cached. -/
theorem total_cached {n : ℕ} {op : Op ℕ R} (hop : OpInSystem n op) {cut : F}
    {r : Option Restrictions} {cache : OpResult R} (hc : CacheCorrect n op cut r cache)
    {psi : Psi R} (hpsi : IsState n psi) {S : Finset ℕ} (hS : S ⊆ range n) :
    total (psi.flatMap (evsCached n op cache)) (encBytes n S)
      = ∑ T ∈ (range n).powerset, ampl n psi T *
        (if encBytes n T ∈ Dict.keys cache then column op cut r T S else matrixElement op S T) := by
  rw [total_flatMap]
  have h1 : (psi.map fun p => total (evsCached n op cache p) (encBytes n S))
      = psi.map fun p => p.2 * (if p.1 ∈ Dict.keys cache then column op cut r (dec n p.1) S
          else matrixElement op S (dec n p.1)) := by
    apply List.map_congr_left
    rintro ⟨k, v⟩ hp
    obtain ⟨T, hT, hk⟩ := hpsi.keys k (List.mem_map.2 ⟨_, hp, rfl⟩)
    subst hk
    rw [total_evsCached hop hc hT v hS]
    simp only [dec_enc hT]
  rw [h1, sum_items_powerset hpsi (fun k v => v * (if k ∈ Dict.keys cache then
    column op cut r (dec n k) S else matrixElement op S (dec n k)))]
  apply sum_congr rfl
  intro T hT
  rw [mem_powerset] at hT
  rw [ampl_of_subset hT, dec_enc hT]
  cases Dict.get? psi (encBytes n T) <;> simp

theorem operator_eq_sum {n : ℕ} {op : Op ℕ R} {psi : Psi R} (hpsi : IsState n psi) (S : Finset ℕ) :
    operator (opSpec op) (ampl n psi) S
      = ∑ T ∈ (range n).powerset, ampl n psi T * matrixElement op S T := by
  conv_lhs => rw [ampl_eq_sum hpsi, operator_list_sum]
  simp only [operator_single]
  rw [sum_items_powerset hpsi (fun k v => v * matrixElement op S (dec n k))]
  apply sum_congr rfl
  intro T hT
  rw [mem_powerset] at hT
  rw [ampl_of_subset hT, dec_enc hT]
  cases Dict.get? psi (encBytes n T) <;> simp

theorem isState_cached {n : ℕ} {op : Op ℕ R} (hop : OpInSystem n op) {cut : F}
    {r : Option Restrictions} {cache : OpResult R} (hc : CacheCorrect n op cut r cache)
    {psi : Psi R} (hpsi : IsState n psi) :
    IsState n (prune cut ((psi.flatMap (evsCached n op cache)).foldl (addIf (okKey n r)) [])) := by
  have hnd := nodupKeys_foldl_addIf (okKey n r) (psi.flatMap (evsCached n op cache)) []
    Dict.nodupKeys_nil
  refine ⟨nodupKeys_prune _ _ hnd, ?_⟩
  intro k hk
  have hk := mem_keys_prune _ _ hnd _ hk
  rw [Dict.mem_keys_iff, foldl_addIf_nil] at hk
  split at hk
  · rename_i h
    obtain ⟨e, he, rfl⟩ := List.mem_map.1 h.2
    exact mem_evsCached hop hc hpsi he
  · simp at hk

/-- Result of the cached call for a positive cutoff. -/
theorem get?_cached {n : ℕ} {op : Op ℕ R} {cut : F} (hcut : 0 < cut)
    {r : Option Restrictions} {cache : OpResult R} {psi : Psi R} {S : Finset ℕ} (hS : S ⊆ range n) :
    Dict.get? (prune cut ((psi.flatMap (evsCached n op cache)).foldl (addIf (okKey n r)) []))
        (encBytes n S)
      = if AllowedOpt r S ∧ cut ≤ abs2 (total (psi.flatMap (evsCached n op cache)) (encBytes n S))
        then some (total (psi.flatMap (evsCached n op cache)) (encBytes n S)) else none := by
  have hnd := nodupKeys_foldl_addIf (okKey n r) (psi.flatMap (evsCached n op cache)) []
    Dict.nodupKeys_nil
  rw [get?_prune _ _ hnd, foldl_addIf_nil]
  simp only [okKey_enc r hS]
  by_cases hm : encBytes n S ∈ List.map Prod.fst (psi.flatMap (evsCached n op cache))
  · by_cases ha : AllowedOpt r S
    · by_cases hc : cut ≤ abs2 (total (psi.flatMap (evsCached n op cache)) (encBytes n S))
      · simp [hm, ha, hc, Option.filter]
      · simp [hm, ha, hc, not_le.1 hc, Option.filter]
    · simp [ha]
  · rw [if_neg (fun h => hm h.2), total_of_notMem hm, Amp.abs2_zero, if_neg (fun h => not_le.2 hcut h.2)]
    rfl

end

end Verif
