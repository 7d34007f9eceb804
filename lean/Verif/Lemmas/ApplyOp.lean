import Verif.Lemmas.Events

set_option linter.unusedSectionVars false
set_option linter.unusedSimpArgs false

namespace Verif

open Finset Spec Psr

/-! ### processes on sets -/

/-- Set-level version of `runActions`. -/
def setActs : List (ℕ × Action) → Finset ℕ → ℤ → Option (Finset ℕ × ℤ)
  | [], S, s => some (S, s)
  | (i, .a) :: rest, S, s => if i ∈ S then setActs rest (S.erase i) (s * sgn i S) else none
  | (i, .c) :: rest, S, s => if i ∈ S then none else setActs rest (insert i S) (s * sgn i S)

theorem sgn_ne_zero (i : ℕ) (S : Finset ℕ) : sgn i S ≠ 0 := by
  unfold sgn; exact pow_ne_zero _ (by decide)

theorem runActions_enc {n : ℕ} (acts : List (ℕ × Action)) (h : ∀ x ∈ acts, x.1 < n) (S : Finset ℕ)
    (s : ℤ) :
    runActions acts (encBits n S) s
      = .ok ((setActs acts S s).map fun r => (encBits n r.1, r.2)) := by
  induction acts generalizing S s with
  | nil => rfl
  | cons x rest ih =>
    obtain ⟨i, act⟩ := x
    have hi : i < n := h (i, act) (by simp)
    have hrest : ∀ x ∈ rest, x.1 < n := fun x hx => h x (by simp [hx])
    cases act with
    | a =>
      rw [runActions, setActs]
      by_cases hS : i ∈ S
      · simp [remove_ubitarray hi, hS, bind, Except.bind, pure, Except.pure, sgn_ne_zero, ih hrest]
      · simp [remove_ubitarray hi, hS, bind, Except.bind, pure, Except.pure]
    | c =>
      rw [runActions, setActs]
      by_cases hS : i ∈ S
      · simp [create_ubitarray hi, hS, bind, Except.bind, pure, Except.pure]
      · simp [create_ubitarray hi, hS, bind, Except.bind, pure, Except.pure, sgn_ne_zero, ih hrest]

theorem setActs_subset {n : ℕ} (acts : List (ℕ × Action)) (h : ∀ x ∈ acts, x.1 < n) (S : Finset ℕ)
    (hS : S ⊆ range n) (s : ℤ) (T : Finset ℕ) (t : ℤ) (hr : setActs acts S s = some (T, t)) :
    T ⊆ range n := by
  induction acts generalizing S s with
  | nil =>
    simp only [setActs, Option.some.injEq, Prod.mk.injEq] at hr
    rw [← hr.1]; exact hS
  | cons x rest ih =>
    obtain ⟨i, act⟩ := x
    have hi : i < n := h (i, act) (by simp)
    have hrest : ∀ x ∈ rest, x.1 < n := fun x hx => h x (by simp [hx])
    cases act with
    | a =>
      rw [setActs] at hr
      split at hr
      · exact ih hrest _ ((erase_subset _ _).trans hS) _ hr
      · simp at hr
    | c =>
      rw [setActs] at hr
      split at hr
      · simp at hr
      · exact ih hrest _ (insert_subset (mem_range.2 hi) hS) _ hr

section
variable {R : Type} [CommRing R]

theorem single_zero (T : Finset ℕ) : single T (0 : R) = 0 := by
  funext S; simp [single]

theorem ladder_single_a (i : ℕ) (T : Finset ℕ) (x : R) :
    ladder i false (single T x) = if i ∈ T then single (T.erase i) ((sgn i T : R) * x) else 0 := by
  funext S
  unfold ladder annihilate single
  simp only [Bool.false_eq_true, if_false]
  by_cases hT : i ∈ T
  · rw [if_pos hT]
    by_cases hS : i ∈ S
    · rw [if_pos hS, if_neg]
      rintro rfl; exact notMem_erase i T hS
    · rw [if_neg hS]
      by_cases h : insert i S = T
      · subst h
        rw [if_pos rfl, if_pos (erase_insert hS).symm, sgn_insert_self]
      · rw [if_neg h, if_neg, mul_zero]
        rintro rfl; exact h (insert_erase hT)
  · rw [if_neg hT]
    by_cases hS : i ∈ S
    · simp [hS]
    · rw [if_neg hS, if_neg]
      · simp
      · rintro rfl; exact hT (mem_insert_self _ _)

theorem ladder_single_c (i : ℕ) (T : Finset ℕ) (x : R) :
    ladder i true (single T x) = if i ∈ T then 0 else single (insert i T) ((sgn i T : R) * x) := by
  funext S
  unfold ladder create single
  simp only [if_true]
  by_cases hT : i ∈ T
  · rw [if_pos hT]
    split
    · rw [if_neg]
      · simp
      · rintro rfl; exact notMem_erase i S hT
    · simp
  · rw [if_neg hT]
    by_cases hS : i ∈ S
    · rw [if_pos hS]
      by_cases h : S.erase i = T
      · subst h
        rw [if_pos rfl, if_pos (insert_erase hS).symm, sgn_erase_self]
      · rw [if_neg h, if_neg, mul_zero]
        rintro rfl; exact h (erase_insert hT)
    · rw [if_neg hS, if_neg]
      rintro rfl; exact hS (mem_insert_self _ _)

theorem product_single_aux (acts : List (ℕ × Action)) (T : Finset ℕ) (s : ℤ) (x : R) :
    product (processSpec acts.reverse) (single T ((s : R) * x))
      = match setActs acts T s with
        | none => 0
        | some (S', t) => single S' ((t : R) * x) := by
  induction acts generalizing T s with
  | nil => rfl
  | cons y rest ih =>
    obtain ⟨i, act⟩ := y
    have hap : processSpec ((i, act) :: rest).reverse
        = processSpec rest.reverse ++ [(i, decide (act = .c))] := by
      simp [processSpec]
    rw [hap, product_append, product_cons]
    simp only [product, List.foldr_nil]
    cases act with
    | a =>
      rw [setActs]
      simp only [reduceCtorEq, decide_false]
      rw [ladder_single_a]
      by_cases hT : i ∈ T
      · rw [if_pos hT, if_pos hT, ← ih]
        rw [show (sgn i T : R) * ((s : R) * x) = ((s * sgn i T : ℤ) : R) * x by push_cast; ring]
        rfl
      · rw [if_neg hT, if_neg hT]
        exact product_zero _
    | c =>
      rw [setActs]
      simp only [decide_true]
      rw [ladder_single_c]
      by_cases hT : i ∈ T
      · rw [if_pos hT, if_pos hT]
        exact product_zero _
      · rw [if_neg hT, if_neg hT, ← ih]
        rw [show (sgn i T : R) * ((s : R) * x) = ((s * sgn i T : ℤ) : R) * x by push_cast; ring]
        rfl

/-- A process acting on one product state. -/
theorem product_single (p : Process ℕ) (T : Finset ℕ) (x : R) :
    product (processSpec p) (single T x)
      = match setActs p.reverse T 1 with
        | none => 0
        | some (S', t) => single S' ((t : R) * x) := by
  have := product_single_aux p.reverse T 1 x
  rw [List.reverse_reverse] at this
  simpa using this

/-! ### events -/

/-- The product state encoded by a byte string. -/
def dec (n : ℕ) (k : Bytes) : Finset ℕ := (bytes2tuple k n).toFinset

theorem dec_enc {n : ℕ} {S : Finset ℕ} (hS : S ⊆ range n) : dec n (encBytes n S) = S := by
  unfold dec
  rw [bytes2tuple, bytes2bitarray_encBytes, bitarray2tuple, bitarray2str, to01_encBits,
    str2tuple_encStr]
  ext i
  rw [List.mem_toFinset, mem_encTuple]
  exact ⟨fun h => h.2, fun h => ⟨mem_range.1 (hS h), h⟩⟩

/-- What a product state `k` with amplitude `amp` contributes. -/
def contributions (n : ℕ) (op : Op ℕ R) (T : Finset ℕ) (amp : R) : List (Bytes × R) :=
  op.filterMap fun q =>
    (setActs q.1.reverse T 1).map fun r => (encBytes n r.1, amp * q.2 * (r.2 : R))

theorem mem_contributions {n : ℕ} {op : Op ℕ R} (hop : OpInSystem n op) {T : Finset ℕ}
    (hT : T ⊆ range n) {amp : R} {e : Bytes × R} (he : e ∈ contributions n op T amp) :
    ∃ S ⊆ range n, e.1 = encBytes n S := by
  unfold contributions at he
  rw [List.mem_filterMap] at he
  obtain ⟨q, hq, hr⟩ := he
  rw [Option.map_eq_some_iff] at hr
  obtain ⟨⟨S, t⟩, hS, rfl⟩ := hr
  exact ⟨S, setActs_subset _ (fun x hx => hop q hq x (by simpa using hx)) T hT _ _ _ hS, rfl⟩

theorem operator_nil (f : Vec R) (S : Finset ℕ) : operator [] f S = 0 := rfl

theorem total_contributions {n : ℕ} {op : Op ℕ R} (hop : OpInSystem n op) {T : Finset ℕ}
    (hT : T ⊆ range n) (amp : R) {S : Finset ℕ} (hS : S ⊆ range n) :
    total (contributions n op T amp) (encBytes n S) = operator (opSpec op) (single T amp) S := by
  unfold contributions operator opSpec
  induction op with
  | nil => rfl
  | cons q op ih =>
    have ih := ih (fun q hq => hop q (by simp [hq]))
    rw [List.filterMap_cons, List.map_cons, List.map_cons, List.sum_cons, ← ih, product_single]
    cases hr : setActs q.1.reverse T 1 with
    | none => simp
    | some r =>
      obtain ⟨S', t⟩ := r
      simp only [Option.map_some]
      rw [total_cons]
      congr 1
      have hS' : S' ⊆ range n :=
        setActs_subset _ (fun x hx => hop q (by simp) x (by simpa using hx)) T hT _ _ _ hr
      unfold single
      by_cases h : S = S'
      · subst h; simp; ring
      · rw [if_neg, if_neg h, mul_zero]
        intro he; exact h (encBytes_injOn hS hS' he.symm)

/-- All contributions of a state. -/
def allContributions (n : ℕ) (op : Op ℕ R) (psi : Psi R) : List (Bytes × R) :=
  psi.flatMap fun p => contributions n op (dec n p.1) p.2

theorem ampl_eq_sum {n : ℕ} {psi : Psi R} (hpsi : IsState n psi) :
    ampl n psi = fun S => (psi.map fun p => single (dec n p.1) p.2 S).sum := by
  funext S
  unfold ampl
  by_cases hS : S ⊆ range n
  · rw [if_pos hS]
    have h := Dict.sum_items_eq psi hpsi.nodup (encBytes n S) (fun v => v)
    simp only [Option.map_id'] at h
    rw [← h]
    congr 1
    apply List.map_congr_left
    intro p hp
    obtain ⟨T, hT, hk⟩ := hpsi.keys p.1 (List.mem_map.2 ⟨p, hp, rfl⟩)
    rw [hk, dec_enc hT, single]
    by_cases h : S = T
    · subst h; simp
    · rw [if_neg h, if_neg]
      intro he; exact h (encBytes_injOn hS hT he.symm)
  · rw [if_neg hS]
    symm
    apply List.sum_eq_zero
    intro x hx
    obtain ⟨p, hp, rfl⟩ := List.mem_map.1 hx
    obtain ⟨T, hT, hk⟩ := hpsi.keys p.1 (List.mem_map.2 ⟨p, hp, rfl⟩)
    rw [hk, dec_enc hT, single, if_neg]
    rintro rfl; exact hS hT

theorem operator_list_sum {α : Type*} (op : List (List (ℕ × Bool) × R)) (l : List α) (f : α → Vec R)
    (S : Finset ℕ) :
    operator op (fun S => (l.map fun x => f x S).sum) S = (l.map fun x => operator op (f x) S).sum := by
  induction l with
  | nil =>
    have := operator_smul op 0 (0 : Vec R) S
    simp only [zero_mul] at this
    simpa using this
  | cons x l ih =>
    have : (fun S => ((x :: l).map fun x => f x S).sum) = f x + fun S => (l.map fun x => f x S).sum := by
      funext S; simp
    rw [this, operator_add, ih]; simp

theorem total_flatMap {α : Type*} (l : List α) (f : α → List (Bytes × R)) (k : Bytes) :
    total (l.flatMap f) k = (l.map fun x => total (f x) k).sum := by
  induction l with
  | nil => rfl
  | cons x l ih => rw [List.flatMap_cons, total_append, ih]; simp

theorem total_allContributions {n : ℕ} {op : Op ℕ R} (hop : OpInSystem n op) {psi : Psi R}
    (hpsi : IsState n psi) {S : Finset ℕ} (hS : S ⊆ range n) :
    total (allContributions n op psi) (encBytes n S) = operator (opSpec op) (ampl n psi) S := by
  rw [ampl_eq_sum hpsi, operator_list_sum, allContributions, total_flatMap]
  congr 1
  apply List.map_congr_left
  intro p hp
  obtain ⟨T, hT, hk⟩ := hpsi.keys p.1 (List.mem_map.2 ⟨p, hp, rfl⟩)
  rw [hk, dec_enc hT, total_contributions hop hT _ hS]

theorem mem_allContributions {n : ℕ} {op : Op ℕ R} (hop : OpInSystem n op) {psi : Psi R}
    (hpsi : IsState n psi) {e : Bytes × R} (he : e ∈ allContributions n op psi) :
    ∃ S ⊆ range n, e.1 = encBytes n S := by
  unfold allContributions at he
  rw [List.mem_flatMap] at he
  obtain ⟨p, hp, he⟩ := he
  obtain ⟨T, hT, hk⟩ := hpsi.keys p.1 (List.mem_map.2 ⟨p, hp, rfl⟩)
  rw [hk, dec_enc hT] at he
  exact mem_contributions hop hT he

/-! ### restrictions -/

/-- The key-level test of the restrictions. -/
def okKey (n : ℕ) (r : Option Restrictions) (k : Bytes) : Bool :=
  match r with
  | none => true
  | some r => fulfils r (bytes2tuple k n)

theorem fulfils_iff (r : Restrictions) (t : List ℕ) : fulfils r t = true ↔ Allowed r t.toFinset := by
  unfold fulfils Allowed
  rw [List.all_eq_true]
  apply forall_congr'
  intro q
  apply imp_congr_right
  intro _
  simp

theorem okKey_enc {n : ℕ} (r : Option Restrictions) {S : Finset ℕ} (hS : S ⊆ range n) :
    okKey n r (encBytes n S) = true ↔ AllowedOpt r S := by
  cases r with
  | none => simp [okKey, AllowedOpt]
  | some r =>
    simp only [okKey, AllowedOpt]
    rw [fulfils_iff]
    have := dec_enc hS
    rw [dec] at this
    rw [this]

theorem bitarray2tuple_encBits (n : ℕ) (S : Finset ℕ) :
    bitarray2tuple (encBits n S) = bytes2tuple (encBytes n S) n := by
  rw [bytes2tuple, bytes2bitarray_encBytes]

end

/-! ### the plain and the restricted mode -/

section
variable {R F : Type} [CommRing R] [StarRing R] [CommRing F] [LinearOrder F]
  [IsStrictOrderedRing F] [Amp R F]

theorem foldl_contributions (n : ℕ) (ok : Bytes → Bool) (op : Op ℕ R) (T : Finset ℕ) (amp : R)
    (d : Psi R) :
    (contributions n op T amp).foldl (addIf ok) d
      = op.foldl (fun d q => match setActs q.1.reverse T 1 with
        | none => d
        | some r => addIf ok d (encBytes n r.1, amp * q.2 * (r.2 : R))) d := by
  unfold contributions
  induction op generalizing d with
  | nil => rfl
  | cons q op ih =>
    rw [List.filterMap_cons, List.foldl_cons]
    cases hr : setActs q.1.reverse T 1 with
    | none => simp only [Option.map_none]; exact ih d
    | some r => simp only [Option.map_some, List.foldl_cons]; exact ih _

theorem runProcess_enc {n : ℕ} {op : Op ℕ R} (hop : OpInSystem n op) {q : Process ℕ × R} (hq : q ∈ op)
    (T : Finset ℕ) :
    runProcess q.1 (bytes2bitarray (encBytes n T) n)
      = .ok ((setActs q.1.reverse T 1).map fun r => (encBits n r.1, r.2)) := by
  rw [runProcess, bytes2bitarray_encBytes,
    runActions_enc _ (fun x hx => hop q hq x (by simpa using hx))]

theorem applyOpRestricted_eq {n : ℕ} {op : Op ℕ R} (hop : OpInSystem n op) {psi : Psi R}
    (hpsi : IsState n psi) (r : Restrictions) :
    applyOpRestricted n op psi r
      = .ok ((allContributions n op psi).foldl (addIf (okKey n (some r))) []) := by
  unfold applyOpRestricted allContributions
  rw [foldlM_ok _ (fun d p => (contributions n op (dec n p.1) p.2).foldl
    (addIf (okKey n (some r))) d), List.foldl_flatMap]
  intro d p hp
  obtain ⟨T, hT, hk⟩ := hpsi.keys p.1 (List.mem_map.2 ⟨p, hp, rfl⟩)
  obtain ⟨k, amp⟩ := p
  simp only at hk
  subst hk
  dsimp only
  rw [dec_enc hT, foldl_contributions]
  apply foldlM_ok
  intro d q hq
  rw [runProcess_enc hop hq]
  cases hr : setActs q.1.reverse T 1 with
  | none => rfl
  | some r' =>
    obtain ⟨S, t⟩ := r'
    simp only [Option.map_some, bind, Except.bind, addIf, pure, Except.pure, bitarray2bytes,
      tobytes_encBits]
    cases hg : Dict.get? d (encBytes n S) with
    | some v => rfl
    | none =>
      simp only [okKey, bitarray2tuple_encBits]
      split <;> simp_all

theorem applyOpPlain_eq {n : ℕ} {op : Op ℕ R} (hop : OpInSystem n op) {psi : Psi R}
    (hpsi : IsState n psi) :
    applyOpPlain n op psi
      = .ok ((allContributions n op psi).foldl (addIf (okKey n none)) []) := by
  unfold applyOpPlain allContributions
  rw [foldlM_ok _ (fun d p => (contributions n op (dec n p.1) p.2).foldl
    (addIf (okKey n none)) d), List.foldl_flatMap]
  intro d p hp
  obtain ⟨T, hT, hk⟩ := hpsi.keys p.1 (List.mem_map.2 ⟨p, hp, rfl⟩)
  obtain ⟨k, amp⟩ := p
  simp only at hk
  subst hk
  dsimp only
  rw [dec_enc hT, foldl_contributions]
  apply foldlM_ok
  intro d q hq
  rw [runProcess_enc hop hq]
  cases hr : setActs q.1.reverse T 1 with
  | none => rfl
  | some r' =>
    obtain ⟨S, t⟩ := r'
    simp only [Option.map_some, bind, Except.bind, pure, Except.pure, bitarray2bytes,
      tobytes_encBits, addAt_eq_addIf]
    rfl

/-- The dict `applyOp` returns without cache. -/
def applyOpPure (n : ℕ) (op : Op ℕ R) (psi : Psi R) (cut : F) (r : Option Restrictions) : Psi R :=
  prune cut ((allContributions n op psi).foldl (addIf (okKey n r)) [])

theorem applyOp_eq {n : ℕ} {op : Op ℕ R} (hop : OpInSystem n op) {psi : Psi R}
    (hpsi : IsState n psi) (cut : F) (r : Option Restrictions) :
    applyOp n op psi cut r none = .ok (applyOpPure n op psi cut r, none) := by
  unfold applyOp applyOpPure
  cases r with
  | none => simp [applyOpPlain_eq hop hpsi, bind, Except.bind, pure, Except.pure]
  | some r => simp [applyOpRestricted_eq hop hpsi, bind, Except.bind, pure, Except.pure]

theorem get?_applyOpPure {n : ℕ} {op : Op ℕ R} (hop : OpInSystem n op) {psi : Psi R}
    (hpsi : IsState n psi) (cut : F) (r : Option Restrictions) {S : Finset ℕ} (hS : S ⊆ range n) :
    Dict.get? (applyOpPure n op psi cut r) (encBytes n S)
      = if AllowedOpt r S ∧ encBytes n S ∈ (allContributions n op psi).map Prod.fst ∧
          cut ≤ abs2 (operator (opSpec op) (ampl n psi) S)
        then some (operator (opSpec op) (ampl n psi) S) else none := by
  unfold applyOpPure
  rw [get?_prune _ _ (nodupKeys_foldl_addIf _ _ _ Dict.nodupKeys_nil), foldl_addIf_nil,
    total_allContributions hop hpsi hS]
  simp only [okKey_enc r hS]
  by_cases h1 : AllowedOpt r S <;>
    by_cases h2 : encBytes n S ∈ (allContributions n op psi).map Prod.fst <;>
    simp only [h1, h2, true_and, false_and, and_false, if_false, and_self, if_true, Option.filter_none]
  by_cases h3 : cut ≤ abs2 (operator (opSpec op) (ampl n psi) S)
  · simp [h3, Option.filter, not_lt.2 h3]
  · simp [h3, Option.filter, not_le.1 h3]

theorem isState_applyOpPure {n : ℕ} {op : Op ℕ R} (hop : OpInSystem n op) {psi : Psi R}
    (hpsi : IsState n psi) (cut : F) (r : Option Restrictions) :
    IsState n (applyOpPure n op psi cut r) := by
  have hnd := nodupKeys_foldl_addIf (okKey n r) (allContributions n op psi) []
    Dict.nodupKeys_nil
  refine ⟨nodupKeys_prune _ _ hnd, ?_⟩
  intro k hk
  have := mem_keys_prune _ _ hnd _ hk
  rw [Dict.mem_keys_iff, foldl_addIf_nil] at this
  split at this
  · rename_i h
    obtain ⟨e, he, rfl⟩ := List.mem_map.1 h.2
    exact mem_allContributions hop hpsi he
  · simp at this

theorem ampl_applyOpPure {n : ℕ} {op : Op ℕ R} (hop : OpInSystem n op) {psi : Psi R}
    (hpsi : IsState n psi) (cut : F) (r : Option Restrictions) {S : Finset ℕ} (hS : S ⊆ range n) :
    ampl n (applyOpPure n op psi cut r) S
      = if AllowedOpt r S ∧ cut ≤ abs2 (operator (opSpec op) (ampl n psi) S)
        then operator (opSpec op) (ampl n psi) S else 0 := by
  rw [ampl, if_pos hS, get?_applyOpPure hop hpsi cut r hS]
  by_cases h2 : encBytes n S ∈ (allContributions n op psi).map Prod.fst
  · simp only [h2, true_and]
    split <;> rfl
  · have h0 : operator (opSpec op) (ampl n psi) S = 0 := by
      rw [← total_allContributions hop hpsi hS, total_of_notMem h2]
    simp [h2, h0]

end

end Verif
