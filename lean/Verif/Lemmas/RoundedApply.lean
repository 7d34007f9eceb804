/-
Rounded application of an operator.
-/
import Verif.Spec.RoundedApply
import Verif.Model.RoundedApply
import Verif.Lemmas.RoundedStates
import Verif.Lemmas.Hamiltonian

namespace Verif

open Spec Finset Psr

noncomputable section

variable {u : ℝ} {fl : FloatOps} {absC : ℂ → ℝ}

/-! ### processes -/

theorem setActs_inj (acts : List (ℕ × Action)) {T T' S : Finset ℕ} {s s' t t' : ℤ}
    (h : setActs acts T s = some (S, t)) (h' : setActs acts T' s' = some (S, t')) : T = T' := by
  induction acts generalizing T T' s s' with
  | nil => simp only [setActs, Option.some.injEq, Prod.mk.injEq] at h h'; rw [h.1, h'.1]
  | cons x rest ih =>
    obtain ⟨i, act⟩ := x
    cases act with
    | a =>
      rw [setActs] at h h'
      split at h
      · split at h'
        · rename_i h1 h2
          rw [← insert_erase h1, ih h h', insert_erase h2]
        · cases h'
      · cases h
    | c =>
      rw [setActs] at h h'
      split at h
      · cases h
      · split at h'
        · cases h'
        · rename_i h1 h2
          rw [← erase_insert h1, ih h h', erase_insert h2]

theorem setActs_sign (acts : List (ℕ × Action)) {T S : Finset ℕ} {s t : ℤ} (hs : s.natAbs = 1)
    (h : setActs acts T s = some (S, t)) : t.natAbs = 1 := by
  induction acts generalizing T s with
  | nil => simp only [setActs, Option.some.injEq, Prod.mk.injEq] at h; rw [← h.2]; exact hs
  | cons x rest ih =>
    have hs' : ∀ i (T : Finset ℕ), (s * sgn i T).natAbs = 1 := by
      intro i T
      unfold sgn
      rw [Int.natAbs_mul, hs, Int.natAbs_pow]
      simp
    obtain ⟨i, act⟩ := x
    cases act with
    | a =>
      rw [setActs] at h
      split at h
      · exact ih (hs' _ _) h
      · cases h
    | c =>
      rw [setActs] at h
      split at h
      · cases h
      · exact ih (hs' _ _) h

theorem norm_sign {t : ℤ} (h : t.natAbs = 1) : ‖(t : ℂ)‖ = 1 := by
  rcases Int.natAbs_eq t with e | e <;> rw [e, h] <;> simp

/-- The process takes the product state `T` to `S`. -/
def Leads (p : Process ℕ) (T S : Finset ℕ) : Prop := ∃ t, setActs p.reverse T 1 = some (S, t)

theorem Leads.inj {p : Process ℕ} {T T' S : Finset ℕ} (h : Leads p T S) (h' : Leads p T' S) : T = T' := by
  obtain ⟨_, h⟩ := h
  obtain ⟨_, h'⟩ := h'
  exact setActs_inj _ h h'

open Classical in
theorem norm_product_single (p : Process ℕ) (T S : Finset ℕ) (x : ℂ) :
    ‖product (processSpec p) (single T x) S‖ = if Leads p T S then ‖x‖ else 0 := by
  rw [product_single]
  cases h : setActs p.reverse T 1 with
  | none =>
    rw [if_neg]
    · simp
    · rintro ⟨t, ht⟩; rw [h] at ht; cases ht
  | some r =>
    obtain ⟨S', t⟩ := r
    simp only
    unfold Spec.single
    by_cases e : S = S'
    · subst e
      rw [if_pos rfl, if_pos ⟨t, h⟩, norm_mul, norm_sign (setActs_sign _ (by simp) h), one_mul]
    · rw [if_neg e, if_neg, norm_zero]
      rintro ⟨t', ht⟩
      rw [h] at ht
      simp only [Option.some.injEq, Prod.mk.injEq] at ht
      exact e ht.1.symm

/-! ### lists in which at most one element counts -/

section
variable {α : Type}

theorem norm_sum_exclusive {f : α → ℂ} {L : List α} (h : L.Pairwise fun a b => f a = 0 ∨ f b = 0) :
    ‖(L.map f).sum‖ = (L.map fun a => ‖f a‖).sum := by
  induction L with
  | nil => simp
  | cons a L ih =>
    rw [List.pairwise_cons] at h
    rw [List.map_cons, List.sum_cons, List.map_cons, List.sum_cons]
    by_cases h0 : f a = 0
    · rw [h0, zero_add, norm_zero, zero_add, ih h.2]
    · have hz : ∀ b ∈ L, f b = 0 := fun b hb => (h.1 b hb).resolve_left h0
      rw [← ih h.2, List.sum_eq_zero (l := L.map f), norm_zero]
      · simp
      · intro x hx
        obtain ⟨b, hb, rfl⟩ := List.mem_map.1 hx
        exact hz b hb

theorem count_exclusive {P : α → Prop} [DecidablePred P] {L : List α} (h : L.Pairwise fun a b => ¬ P a ∨ ¬ P b) :
    (L.map fun a => if P a then 1 else 0).sum ≤ 1 := by
  induction L with
  | nil => simp
  | cons a L ih =>
    rw [List.pairwise_cons] at h
    rw [List.map_cons, List.sum_cons]
    by_cases h0 : P a
    · rw [List.sum_eq_zero (l := L.map _)]
      · simp [h0]
      · intro x hx
        obtain ⟨b, hb, rfl⟩ := List.mem_map.1 hx
        rw [if_neg ((h.1 b hb).resolve_left (not_not.2 h0))]
    · rw [if_neg h0, zero_add]; exact ih h.2

theorem list_sum_comm {β M : Type} [AddCommMonoid M] (L : List α) (K : List β) (f : α → β → M) :
    (L.map fun a => (K.map fun b => f a b).sum).sum = (K.map fun b => (L.map fun a => f a b).sum).sum := by
  induction L with
  | nil => simp
  | cons a L ih => simp only [List.map_cons, List.sum_cons, ih, List.sum_map_add]

end

theorem states_exclusive {n : ℕ} {psi : Psi ℂ} (hpsi : IsState n psi) (p : Process ℕ) (S : Finset ℕ) :
    psi.Pairwise fun a b => ¬ Leads p (dec n a.1) S ∨ ¬ Leads p (dec n b.1) S := by
  have h1 : psi.Pairwise fun a b => a.1 ≠ b.1 := by
    have := hpsi.nodup
    unfold Dict.NodupKeys Dict.keys at this
    exact List.pairwise_map.1 this
  have hdec : ∀ a ∈ psi, ∀ b ∈ psi, a.1 ≠ b.1 → dec n a.1 ≠ dec n b.1 := by
    intro a ha b hb hne he
    obtain ⟨A, hA, eA⟩ := hpsi.keys a.1 (List.mem_map_of_mem ha)
    obtain ⟨B, hB, eB⟩ := hpsi.keys b.1 (List.mem_map_of_mem hb)
    rw [eA, eB, dec_enc hA, dec_enc hB] at he
    exact hne (by rw [eA, eB, he])
  refine h1.imp_of_mem fun {a b} ha hb hne => ?_
  by_contra hc
  rw [not_or, not_not, not_not] at hc
  exact hdec a ha b hb hne (hc.1.inj hc.2)

theorem product_list_sum (p : Process ℕ) {n : ℕ} {psi : Psi ℂ} (hpsi : IsState n psi) (S : Finset ℕ) :
    product (processSpec p) (ampl n psi) S
      = (psi.map fun a => product (processSpec p) (single (dec n a.1) a.2) S).sum := by
  have h := operator_list_sum [(processSpec p, (1 : ℂ))] psi (fun a => single (dec n a.1) a.2) S
  rw [← ampl_eq_sum hpsi] at h
  simpa [operator] using h

open Classical in
theorem norm_product_state {n : ℕ} {psi : Psi ℂ} (hpsi : IsState n psi) (p : Process ℕ) (S : Finset ℕ) :
    ‖product (processSpec p) (ampl n psi) S‖ = (psi.map fun a => if Leads p (dec n a.1) S then ‖a.2‖ else 0).sum := by
  rw [product_list_sum p hpsi, norm_sum_exclusive]
  · simp only [norm_product_single]
  · refine (states_exclusive hpsi p S).imp fun {a b} h => ?_
    rw [← norm_eq_zero, ← norm_eq_zero (a := product _ (single (dec n b.1) b.2) S), norm_product_single, norm_product_single]
    rcases h with h | h
    · exact Or.inl (if_neg h)
    · exact Or.inr (if_neg h)

/-! ### events -/

/-- What `applyOp` adds up: the new product state, amplitude, coefficient and sign. -/
def rawEvents (n : ℕ) (op : Op ℕ ℂ) (psi : Psi ℂ) : List (Bytes × ℂ × ℂ × ℤ) :=
  psi.flatMap fun p => op.filterMap fun q =>
    (setActs q.1.reverse (dec n p.1) 1).map fun r => (encBytes n r.1, p.2, q.2, r.2)

theorem allContributions_raw (n : ℕ) (op : Op ℕ ℂ) (psi : Psi ℂ) :
    allContributions n op psi = (rawEvents n op psi).map fun e => (e.1, e.2.1 * e.2.2.1 * (e.2.2.2 : ℂ)) := by
  unfold allContributions rawEvents contributions
  rw [List.map_flatMap]
  congr 1
  funext p
  rw [List.map_filterMap]
  congr 1
  funext q
  rw [Option.map_map]
  rfl

theorem sum_flatMap' {α M : Type} [AddCommMonoid M] (L : List α) (f : α → List M) :
    (L.flatMap f).sum = (L.map fun a => (f a).sum).sum := by
  induction L with
  | nil => rfl
  | cons a L ih => rw [List.flatMap_cons, List.sum_append, ih, List.map_cons, List.sum_cons]

/-- A sum over the events of one product state. -/
theorem sum_raw {M : Type} [AddCommMonoid M] {n : ℕ} {op : Op ℕ ℂ} (hop : OpInSystem n op) {psi : Psi ℂ}
    (hpsi : IsState n psi) {S : Finset ℕ} (hS : S ⊆ range n) (f : ℂ → ℂ → M) [∀ q T, Decidable (Leads q T S)] :
    (((rawEvents n op psi).filter fun e => e.1 = encBytes n S).map fun e => f e.2.1 e.2.2.1).sum
      = (op.map fun q => (psi.map fun p => if Leads q.1 (dec n p.1) S then f p.2 q.2 else 0).sum).sum := by
  rw [← list_sum_comm]
  unfold rawEvents
  rw [List.filter_flatMap, List.map_flatMap, sum_flatMap']
  congr 1
  refine List.map_congr_left fun p hp => ?_
  obtain ⟨T, hT, hk⟩ := hpsi.keys p.1 (List.mem_map.2 ⟨p, hp, rfl⟩)
  rw [hk, dec_enc hT]
  clear hp hk
  induction op with
  | nil => simp
  | cons q op ih =>
    have ih := ih (fun q hq => hop q (by simp [hq]))
    rw [List.filterMap_cons, List.map_cons, List.sum_cons, ← ih]
    cases hr : setActs q.1.reverse T 1 with
    | none =>
      rw [if_neg, zero_add]
      · rfl
      · rintro ⟨t, ht⟩; rw [hr] at ht; cases ht
    | some r =>
      obtain ⟨S', t⟩ := r
      have hS' : S' ⊆ range n :=
        setActs_subset _ (fun x hx => hop q (by simp) x (by simpa using hx)) T hT _ _ _ hr
      simp only [Option.map_some]
      by_cases e : S' = S
      · subst e
        rw [if_pos ⟨t, hr⟩, List.filter_cons_of_pos (by simp), List.map_cons, List.sum_cons]
      · rw [if_neg, List.filter_cons_of_neg, zero_add]
        · simp only [decide_eq_true_eq]
          exact fun he => e (encBytes_injOn hS' hS he)
        · rintro ⟨t', ht⟩
          rw [hr] at ht
          simp only [Option.some.injEq, Prod.mk.injEq] at ht
          exact e ht.1

theorem raw_sizes {n : ℕ} {op : Op ℕ ℂ} (hop : OpInSystem n op) {psi : Psi ℂ} (hpsi : IsState n psi) {S : Finset ℕ}
    (hS : S ⊆ range n) :
    (((rawEvents n op psi).filter fun e => e.1 = encBytes n S).map fun e => ‖e.2.1‖ * ‖e.2.2.1‖).sum
      = absoluteAction op (ampl n psi) S := by
  classical
  rw [sum_raw hop hpsi hS (fun a h => ‖a‖ * ‖h‖)]
  unfold absoluteAction
  congr 1
  refine List.map_congr_left fun q _ => ?_
  rw [norm_product_state hpsi, ← List.sum_map_mul_left]
  congr 1
  refine List.map_congr_left fun p _ => ?_
  split
  · ring
  · ring

theorem raw_count {n : ℕ} {op : Op ℕ ℂ} (hop : OpInSystem n op) {psi : Psi ℂ} (hpsi : IsState n psi) {S : Finset ℕ}
    (hS : S ⊆ range n) : ((rawEvents n op psi).filter fun e => e.1 = encBytes n S).length ≤ op.length := by
  classical
  have h := sum_raw hop hpsi hS (fun _ _ => 1)
  have e : ∀ L : List (Bytes × ℂ × ℂ × ℤ), (L.map fun _ => 1).sum = L.length := by
    intro L; simp
  rw [e] at h
  rw [h]
  have h2 : (op.map fun q => (psi.map fun p => if Leads q.1 (dec n p.1) S then 1 else 0).sum).sum ≤ (op.map fun _ => 1).sum :=
    List.sum_le_sum fun q _ => count_exclusive (states_exclusive hpsi q.1 S)
  refine h2.trans ?_
  simp

/-! ### the computed amplitudes -/

/-- `if k in d: d[k] += x elif ok(k): d[k] = x`, rounded. -/
def roundedAddIf (fl : FloatOps) (ok : Bytes → Bool) (d : Psi ℂ) (e : Bytes × ℂ × ℂ × ℤ) : Psi ℂ :=
  match Dict.get? d e.1 with
  | some v => Dict.set d e.1 (fl.cadd v (roundedTerm fl e.2.1 e.2.2.1 e.2.2.2))
  | none => if ok e.1 then Dict.set d e.1 (roundedTerm fl e.2.1 e.2.2.1 e.2.2.2) else d

theorem nodupKeys_roundedAddIf (ok : Bytes → Bool) (L : List (Bytes × ℂ × ℂ × ℤ)) (d : Psi ℂ) (hd : Dict.NodupKeys d) :
    Dict.NodupKeys (L.foldl (roundedAddIf fl ok) d) := by
  induction L generalizing d with
  | nil => exact hd
  | cons e L ih =>
    refine ih _ ?_
    unfold roundedAddIf
    split
    · exact Dict.nodupKeys_set hd _ _
    · split
      · exact Dict.nodupKeys_set hd _ _
      · exact hd

/-- What happens at one key. -/
def roundedHit (fl : FloatOps) (s : Option ℂ) (e : Bytes × ℂ × ℂ × ℤ) : Option ℂ :=
  match s with
  | some v => some (fl.cadd v (roundedTerm fl e.2.1 e.2.2.1 e.2.2.2))
  | none => some (roundedTerm fl e.2.1 e.2.2.1 e.2.2.2)

theorem get?_roundedAddIf (ok : Bytes → Bool) (L : List (Bytes × ℂ × ℂ × ℤ)) (d : Psi ℂ) (k : Bytes)
    (hd : ok k = false → Dict.get? d k = none) :
    Dict.get? (L.foldl (roundedAddIf fl ok) d) k
      = if ok k then (L.filter fun e => e.1 = k).foldl (roundedHit fl) (Dict.get? d k) else none := by
  induction L generalizing d with
  | nil =>
    by_cases h : ok k
    · simp [h]
    · simp [h, hd (by simpa using h)]
  | cons e L ih =>
    have hget : Dict.get? (roundedAddIf fl ok d e) k = if e.1 = k ∧ ok k then roundedHit fl (Dict.get? d k) e
        else Dict.get? d k := by
      unfold roundedAddIf
      by_cases h : e.1 = k
      · subst h
        by_cases hok : ok e.1
        · cases hg : Dict.get? d e.1 <;> simp [hok, Dict.get?_set, roundedHit]
        · have := hd (by simpa using hok)
          simp [hok, this]
      · have h3 : ¬ (e.1 = k ∧ ok k = true) := fun h' => h h'.1
        rw [if_neg h3]
        cases hg : Dict.get? d e.1 with
        | some v => simp [Dict.get?_set, h]
        | none =>
          by_cases hok : ok e.1
          · simp [hok, Dict.get?_set, h]
          · simp [hok]
    rw [List.foldl_cons, ih _ (fun hf => by rw [hget, hf]; simp [hd hf]), hget]
    by_cases hok : ok k
    · by_cases h : e.1 = k
      · simp [hok, h]
      · simp [hok, h]
    · simp [hok]

/-- A sum whose first term is stored as it is. -/
theorem hits_near (hfl : Accurate u fl) (L : List (Bytes × ℂ × ℂ × ℤ)) (hL : ∀ e ∈ L, e.2.2.2.natAbs = 1) :
    ‖(L.foldl (roundedHit fl) none).getD 0 - (L.map fun e => e.2.1 * e.2.2.1 * (e.2.2.2 : ℂ)).sum‖
      ≤ 2 * relError u (L.length + 2) * (L.map fun e => ‖e.2.1‖ * ‖e.2.2.1‖).sum := by
  have hu := hfl.nonneg
  have hg := relError_nonneg hu 2
  have hterm : ∀ e ∈ L, ‖roundedTerm fl e.2.1 e.2.2.1 e.2.2.2 - e.2.1 * e.2.2.1 * (e.2.2.2 : ℂ)‖
      ≤ 2 * relError u 2 * (‖e.2.1‖ * ‖e.2.2.1‖) := by
    intro e he
    unfold roundedTerm
    rw [← sub_mul, norm_mul, norm_sign (hL e he), mul_one]
    exact cmul_error hfl _ _
  cases L with
  | nil => simp
  | cons e L =>
    have hs : ∀ (L : List (Bytes × ℂ × ℂ × ℤ)) (v : ℂ), L.foldl (roundedHit fl) (some v)
        = some (L.foldl (fun s e => fl.cadd s (roundedTerm fl e.2.1 e.2.2.1 e.2.2.2)) v) := by
      intro L
      induction L with
      | nil => intro v; rfl
      | cons a L ih => intro v; exact ih _
    have gen := sum_near_from (E := ℂ) hu (add := fl.cadd) (cadd_near hfl) (Q := 1 + 2 * relError u 2) (by linarith)
      (fun s e => fl.cadd s (roundedTerm fl e.2.1 e.2.2.1 e.2.2.2)) (fun e => e.2.1 * e.2.2.1 * (e.2.2.2 : ℂ))
      (fun e => ‖e.2.1‖ * ‖e.2.2.1‖) L (roundedTerm fl e.2.1 e.2.2.1 e.2.2.2) (e.2.1 * e.2.2.1 * (e.2.2.2 : ℂ))
      (1 + 2 * relError u 2) (‖e.2.1‖ * ‖e.2.2.1‖) le_rfl (by positivity)
      (by rw [add_sub_cancel_left]; exact hterm e (by simp))
      (by rw [norm_mul, norm_mul, norm_sign (hL e (by simp)), mul_one])
      (fun a ha => by rw [norm_mul, norm_mul, norm_sign (hL a (by simp [ha])), mul_one])
      (fun a ha s => Or.inr ⟨_, rfl, by rw [add_sub_cancel_left]; exact hterm a (by simp [ha])⟩)
    rw [List.foldl_cons, show roundedHit fl none e = some (roundedTerm fl e.2.1 e.2.2.1 e.2.2.2) from rfl, hs,
      Option.getD_some, List.map_cons, List.sum_cons, List.map_cons, List.sum_cons]
    refine gen.trans (mul_le_mul_of_nonneg_right ?_ ?_)
    · unfold relError
      have h1 : 1 ≤ (1 + u) ^ L.length := one_le_pow₀ (by linarith)
      have h2 : (1 + u) ^ (L.length + 2) ≤ (1 + u) ^ ((e :: L).length + 2) :=
        pow_le_pow_right₀ (by linarith) (by simp)
      rw [pow_add] at h2
      nlinarith
    · refine add_nonneg (by positivity) (List.sum_nonneg fun y hy => ?_)
      obtain ⟨p, _, rfl⟩ := List.mem_map.1 hy
      positivity

/-! ### pruning -/

open Classical in
theorem roundedPrune_eq_filter (cut : ℝ) (d : Psi ℂ) (hd : Dict.NodupKeys d) :
    roundedPrune fl absC cut d = d.filter fun p => ¬ roundedAbs2 fl absC p.2 < cut := by
  have key : ∀ (l acc : Psi ℂ), Dict.NodupKeys acc → (∀ p ∈ l, p ∈ acc) → Dict.NodupKeys l →
      l.foldl (fun acc p => if roundedAbs2 fl absC p.2 < cut then Dict.pop acc p.1 else acc) acc
        = acc.filter fun p => decide (¬ (p.1 ∈ Dict.keys l ∧ roundedAbs2 fl absC p.2 < cut)) := by
    intro l
    induction l with
    | nil => intro acc _ _ _; simp
    | cons q l ih =>
      intro acc hacc hsub hl
      unfold Dict.NodupKeys at hl
      rw [Dict.keys_cons, List.nodup_cons] at hl
      rw [List.foldl_cons]
      by_cases hq : roundedAbs2 fl absC q.2 < cut
      · rw [if_pos hq, ih _ (Dict.nodupKeys_pop hacc _) _ hl.2, Dict.pop, List.filter_filter]
        · apply List.filter_congr
          intro p hp
          by_cases hpq : p.1 = q.1
          · have : p = q := by
              have h1 := Dict.get?_of_mem hacc hp
              have h2 := Dict.get?_of_mem hacc (hsub q (by simp))
              rw [hpq, h2] at h1
              simp only [Option.some.injEq] at h1
              exact Prod.ext hpq h1.symm
            subst this
            simp [hq]
          · simp [hpq]
        · intro p hp
          rw [Dict.pop, List.mem_filter]
          refine ⟨hsub p (by simp [hp]), ?_⟩
          have : p.1 ≠ q.1 := by
            intro h
            apply hl.1
            rw [← h]
            exact List.mem_map.2 ⟨p, hp, rfl⟩
          simpa using this
      · rw [if_neg hq, ih _ hacc (fun p hp => hsub p (by simp [hp])) hl.2]
        apply List.filter_congr
        intro p hp
        by_cases hpq : p.1 = q.1
        · have : p = q := by
            have h1 := Dict.get?_of_mem hacc hp
            have h2 := Dict.get?_of_mem hacc (hsub q (by simp))
            rw [hpq, h2] at h1
            simp only [Option.some.injEq] at h1
            exact Prod.ext hpq h1.symm
          subst this; simp [hq]
        · simp [hpq]
  rw [roundedPrune, key d d hd (fun _ h => h) hd]
  apply List.filter_congr
  intro p hp
  have : p.1 ∈ Dict.keys d := List.mem_map.2 ⟨p, hp, rfl⟩
  simp [this]

open Classical in
theorem get?_roundedPrune (cut : ℝ) (d : Psi ℂ) (hd : Dict.NodupKeys d) (k : Bytes) :
    Dict.get? (roundedPrune fl absC cut d) k = (Dict.get? d k).filter fun v => ¬ roundedAbs2 fl absC v < cut := by
  rw [roundedPrune_eq_filter cut d hd, Dict.get?_filter d hd]

theorem nodupKeys_roundedPrune (cut : ℝ) (d : Psi ℂ) (hd : Dict.NodupKeys d) :
    Dict.NodupKeys (roundedPrune fl absC cut d) := by
  classical
  rw [roundedPrune_eq_filter cut d hd]; exact Dict.nodupKeys_filter hd _

/-- A number whose computed square is below the cutoff is small. -/
theorem pruned_small (hfl : Accurate u fl) (habs : AccurateAbs u absC) (hu : (1 + u) ^ 3 < 2) {cut : ℝ} {v : ℂ}
    (h : roundedAbs2 fl absC v < cut) : ‖v‖ ≤ cutAmplitude u cut := by
  obtain ⟨p, hp, e⟩ := roundedAbs2_near hfl habs v
  have hp' : 2 - (1 + u) ^ 3 ≤ p := by
    have := (_root_.abs_le.1 hp).1
    linarith
  have h0 : 0 < 2 - (1 + u) ^ 3 := by linarith
  unfold cutAmplitude
  refine Real.le_sqrt_of_sq_le ?_
  rw [le_div_iff₀ h0, ← Complex.normSq_eq_norm_sq]
  rw [e] at h
  exact (mul_le_mul_of_nonneg_left hp' (Complex.normSq_nonneg v)).trans h.le

/-! ### applyOp -/

theorem foldl_rawEvents (n : ℕ) (ok : Bytes → Bool) (op : Op ℕ ℂ) (T : Finset ℕ) (amp : ℂ) (d : Psi ℂ) :
    (op.filterMap fun q => (setActs q.1.reverse T 1).map fun r => (encBytes n r.1, amp, q.2, r.2)).foldl
        (roundedAddIf fl ok) d
      = op.foldl (fun d q => match setActs q.1.reverse T 1 with
        | none => d
        | some r => roundedAddIf fl ok d (encBytes n r.1, amp, q.2, r.2)) d := by
  induction op generalizing d with
  | nil => rfl
  | cons q op ih =>
    rw [List.filterMap_cons, List.foldl_cons]
    cases hr : setActs q.1.reverse T 1 with
    | none => simp only [Option.map_none]; exact ih d
    | some r => simp only [Option.map_some, List.foldl_cons]; exact ih _

theorem roundedApplyRestricted_eq {n : ℕ} {op : Op ℕ ℂ} (hop : OpInSystem n op) {psi : Psi ℂ}
    (hpsi : IsState n psi) (r : Restrictions) :
    roundedApplyRestricted fl n op psi r
      = .ok ((rawEvents n op psi).foldl (roundedAddIf fl (okKey n (some r))) []) := by
  unfold roundedApplyRestricted rawEvents
  rw [List.foldl_flatMap]
  apply foldlM_ok
  intro d p hp
  obtain ⟨T, hT, hk⟩ := hpsi.keys p.1 (List.mem_map.2 ⟨p, hp, rfl⟩)
  obtain ⟨k, amp⟩ := p
  simp only at hk
  subst hk
  dsimp only
  rw [dec_enc hT, foldl_rawEvents]
  apply foldlM_ok
  intro d q hq
  rw [runProcess_enc hop hq]
  cases hr : setActs q.1.reverse T 1 with
  | none => rfl
  | some r' =>
    obtain ⟨S, t⟩ := r'
    simp only [Option.map_some, bind, Except.bind, roundedAddIf, pure, Except.pure, bitarray2bytes,
      tobytes_encBits]
    cases hg : Dict.get? d (encBytes n S) with
    | some v => rfl
    | none =>
      simp only [okKey, bitarray2tuple_encBits]
      split <;> simp_all

theorem roundedApplyPlain_eq {n : ℕ} {op : Op ℕ ℂ} (hop : OpInSystem n op) {psi : Psi ℂ}
    (hpsi : IsState n psi) :
    roundedApplyPlain fl n op psi
      = .ok ((rawEvents n op psi).foldl (roundedAddIf fl (okKey n none)) []) := by
  unfold roundedApplyPlain rawEvents
  rw [List.foldl_flatMap]
  apply foldlM_ok
  intro d p hp
  obtain ⟨T, hT, hk⟩ := hpsi.keys p.1 (List.mem_map.2 ⟨p, hp, rfl⟩)
  obtain ⟨k, amp⟩ := p
  simp only at hk
  subst hk
  dsimp only
  rw [dec_enc hT, foldl_rawEvents]
  apply foldlM_ok
  intro d q hq
  rw [runProcess_enc hop hq]
  cases hr : setActs q.1.reverse T 1 with
  | none => rfl
  | some r' =>
    obtain ⟨S, t⟩ := r'
    simp only [Option.map_some, bind, Except.bind, roundedAddIf, pure, Except.pure, bitarray2bytes,
      tobytes_encBits]
    cases hg : Dict.get? d (encBytes n S) with
    | some v => rfl
    | none => rfl

/-- What `roundedApplyOp` returns. -/
def roundedApplyPure (fl : FloatOps) (absC : ℂ → ℝ) (n : ℕ) (op : Op ℕ ℂ) (psi : Psi ℂ) (cut : ℝ)
    (r : Option Restrictions) : Psi ℂ :=
  roundedPrune fl absC cut ((rawEvents n op psi).foldl (roundedAddIf fl (okKey n r)) [])

theorem roundedApplyOp_eq {n : ℕ} {op : Op ℕ ℂ} (hop : OpInSystem n op) {psi : Psi ℂ}
    (hpsi : IsState n psi) (cut : ℝ) (r : Option Restrictions) :
    roundedApplyOp fl absC n op psi cut r = .ok (roundedApplyPure fl absC n op psi cut r) := by
  unfold roundedApplyOp roundedApplyPure
  cases r with
  | none => simp [roundedApplyPlain_eq hop hpsi, bind, Except.bind, pure, Except.pure]
  | some r => simp [roundedApplyRestricted_eq hop hpsi, bind, Except.bind, pure, Except.pure]

theorem nodupKeys_roundedApply (n : ℕ) (op : Op ℕ ℂ) (psi : Psi ℂ) (cut : ℝ) (r : Option Restrictions) :
    Dict.NodupKeys (roundedApplyPure fl absC n op psi cut r) :=
  nodupKeys_roundedPrune _ _ (nodupKeys_roundedAddIf _ _ _ Dict.nodupKeys_nil)

theorem mem_rawEvents {n : ℕ} {op : Op ℕ ℂ} (hop : OpInSystem n op) {psi : Psi ℂ} (hpsi : IsState n psi)
    {e : Bytes × ℂ × ℂ × ℤ} (he : e ∈ rawEvents n op psi) :
    (∃ S ⊆ range n, e.1 = encBytes n S) ∧ e.2.2.2.natAbs = 1 := by
  unfold rawEvents at he
  obtain ⟨p, hp, he⟩ := List.mem_flatMap.1 he
  obtain ⟨q, hq, hm⟩ := List.mem_filterMap.1 he
  obtain ⟨r, hr, rfl⟩ := Option.map_eq_some_iff.1 hm
  obtain ⟨T, hT, hk⟩ := hpsi.keys p.1 (List.mem_map.2 ⟨p, hp, rfl⟩)
  rw [hk, dec_enc hT] at hr
  obtain ⟨S, t⟩ := r
  exact ⟨⟨S, setActs_subset _ (fun x hx => hop q hq x (by simpa using hx)) T hT _ _ _ hr, rfl⟩,
    setActs_sign _ (by simp) hr⟩

open Classical in
theorem get?_roundedApply (n : ℕ) (op : Op ℕ ℂ) (psi : Psi ℂ) (cut : ℝ) (r : Option Restrictions) (k : Bytes) :
    Dict.get? (roundedApplyPure fl absC n op psi cut r) k
      = (if okKey n r k then ((rawEvents n op psi).filter fun e => e.1 = k).foldl (roundedHit fl) none else none).filter
          fun v => ¬ roundedAbs2 fl absC v < cut := by
  unfold roundedApplyPure
  rw [get?_roundedPrune _ _ (nodupKeys_roundedAddIf _ _ _ Dict.nodupKeys_nil), get?_roundedAddIf _ _ _ _ (fun _ => rfl)]
  rfl

theorem isState_roundedApply {n : ℕ} {op : Op ℕ ℂ} (hop : OpInSystem n op) {psi : Psi ℂ} (hpsi : IsState n psi)
    (cut : ℝ) (r : Option Restrictions) : IsState n (roundedApplyPure fl absC n op psi cut r) := by
  refine ⟨nodupKeys_roundedApply _ _ _ _ _, fun k hk => ?_⟩
  rw [Dict.mem_keys_iff, get?_roundedApply] at hk
  by_cases h : okKey n r k
  · rw [if_pos h] at hk
    by_cases hL : (rawEvents n op psi).filter (fun e => e.1 = k) = []
    · rw [hL] at hk
      simp at hk
    · obtain ⟨e, he⟩ := List.exists_mem_of_ne_nil _ hL
      rw [List.mem_filter] at he
      have := (mem_rawEvents hop hpsi he.1).1
      rwa [of_decide_eq_true he.2] at this
  · rw [if_neg h] at hk
    simp at hk

theorem ampl_roundedApply_forbidden {n : ℕ} {op : Op ℕ ℂ} {psi : Psi ℂ}
    (cut : ℝ) (r : Option Restrictions) {S : Finset ℕ} (hS : S ⊆ range n) (h : ¬ AllowedOpt r S) :
    ampl n (roundedApplyPure fl absC n op psi cut r) S = 0 := by
  rw [ampl, if_pos hS, get?_roundedApply, if_neg (fun h' => h ((okKey_enc r hS).1 h'))]
  rfl

theorem absoluteAction_nonneg (op : Op ℕ ℂ) (v : Vec ℂ) (S : Finset ℕ) : 0 ≤ absoluteAction op v S :=
  List.sum_nonneg fun y hy => by
    obtain ⟨q, _, rfl⟩ := List.mem_map.1 hy
    positivity

theorem operator_le_absoluteAction (op : Op ℕ ℂ) (v : Vec ℂ) (S : Finset ℕ) :
    ‖operator (opSpec op) v S‖ ≤ absoluteAction op v S := by
  unfold operator absoluteAction opSpec
  induction op with
  | nil => simp
  | cons q op ih =>
    simp only [List.map_cons, List.sum_cons] at ih ⊢
    refine (norm_add_le _ _).trans (add_le_add ?_ ih)
    rw [norm_mul]

open Classical in
theorem ampl_roundedApply (hfl : Accurate u fl) (habs : AccurateAbs u absC) (hu : (1 + u) ^ 3 < 2) {n : ℕ} {op : Op ℕ ℂ}
    (hop : OpInSystem n op) {psi : Psi ℂ} (hpsi : IsState n psi) (cut : ℝ) (r : Option Restrictions) {S : Finset ℕ}
    (hS : S ⊆ range n) (h : AllowedOpt r S) :
    ‖ampl n (roundedApplyPure fl absC n op psi cut r) S - operator (opSpec op) (ampl n psi) S‖
      ≤ 2 * relError u (op.length + 2) * absoluteAction op (ampl n psi) S
        + if absoluteAction op (ampl n psi) S = 0 then 0 else cutAmplitude u cut := by
  have hcut : 0 ≤ cutAmplitude u cut := Real.sqrt_nonneg _
  have hA := absoluteAction_nonneg op (ampl n psi) S
  have hrel := relError_nonneg hfl.nonneg (op.length + 2)
  set L := (rawEvents n op psi).filter fun e => e.1 = encBytes n S with hL
  have hnear := hits_near (fl := fl) hfl L (fun e he => (mem_rawEvents hop hpsi (List.mem_filter.1 he).1).2)
  have e1 : (L.map fun e => e.2.1 * e.2.2.1 * (e.2.2.2 : ℂ)).sum = operator (opSpec op) (ampl n psi) S := by
    rw [← total_allContributions hop hpsi hS, allContributions_raw, total, hL, List.map_map]
    generalize rawEvents n op psi = K
    induction K with
    | nil => rfl
    | cons a K ih =>
      rw [List.filter_cons, List.map_cons, List.sum_cons, ← ih]
      by_cases ha : a.1 = encBytes n S <;> simp [ha]
  rw [e1, hL, raw_sizes hop hpsi hS, ← hL] at hnear
  have hlen := raw_count hop hpsi hS
  rw [← hL] at hlen
  have hnear : ‖(L.foldl (roundedHit fl) none).getD 0 - operator (opSpec op) (ampl n psi) S‖
      ≤ 2 * relError u (op.length + 2) * absoluteAction op (ampl n psi) S := by
    refine hnear.trans (mul_le_mul_of_nonneg_right ?_ hA)
    have := relError_mono hfl.nonneg (Nat.add_le_add_right hlen 2)
    linarith
  have hval : ampl n (roundedApplyPure fl absC n op psi cut r) S = (L.foldl (roundedHit fl) none).getD 0 ∨
      (ampl n (roundedApplyPure fl absC n op psi cut r) S = 0 ∧
        ‖(L.foldl (roundedHit fl) none).getD 0‖ ≤ cutAmplitude u cut) := by
    rw [ampl, if_pos hS, get?_roundedApply, if_pos ((okKey_enc r hS).2 h), ← hL]
    cases hv : L.foldl (roundedHit fl) none with
    | none => exact Or.inl rfl
    | some v =>
      by_cases hp : roundedAbs2 fl absC v < cut
      · exact Or.inr ⟨by simp [hp, Option.filter], pruned_small hfl habs hu hp⟩
      · exact Or.inl (by simp [hp, Option.filter])
  rcases hval with hv | ⟨hv, hs⟩
  · rw [hv]
    refine hnear.trans (le_add_of_nonneg_right ?_)
    split
    · exact le_rfl
    · exact hcut
  · rw [hv]
    split
    · next h0 =>
      rw [zero_sub, norm_neg, add_zero, h0, mul_zero]
      exact (operator_le_absoluteAction op _ S).trans h0.le
    · have e : (0 : ℂ) - operator (opSpec op) (ampl n psi) S
          = ((L.foldl (roundedHit fl) none).getD 0 - operator (opSpec op) (ampl n psi) S)
            - (L.foldl (roundedHit fl) none).getD 0 := by ring
      rw [e]
      exact (norm_sub_le _ _).trans (add_le_add hnear hs)

/-! ### rows and columns -/

theorem Leads.right_unique {p : Process ℕ} {T S S' : Finset ℕ} (h : Leads p T S) (h' : Leads p T S') : S = S' := by
  obtain ⟨_, h⟩ := h
  obtain ⟨_, h'⟩ := h'
  rw [h] at h'
  simp only [Option.some.injEq, Prod.mk.injEq] at h'
  exact h'.1

open Classical in
theorem linkSize_eq (op : Op ℕ ℂ) (S T : Finset ℕ) :
    linkSize op S T = (op.map fun q => if Leads q.1 T S then ‖q.2‖ else 0).sum := by
  unfold linkSize absoluteAction
  congr 1
  refine List.map_congr_left fun q _ => ?_
  rw [norm_product_single]
  split <;> simp

open Classical in
/-- One of the two product states is fixed: the terms lead to at most one other product state each. -/
theorem link_sum (op : Op ℕ ℂ) (s : Finset (Finset ℕ)) (P : Process ℕ → Finset ℕ → Prop)
    (hP : ∀ q S S', P q S → P q S' → S = S') :
    ∑ S ∈ s, (op.map fun q => if P q.1 S then ‖q.2‖ else 0).sum ≤ absoluteSum op ∧
      #{S ∈ s | (op.map fun q => if P q.1 S then ‖q.2‖ else 0).sum ≠ 0} ≤ op.length := by
  have one : ∀ q : Process ℕ × ℂ, #{S ∈ s | P q.1 S} ≤ 1 := by
    intro q
    rw [card_le_one]
    intro S hS S' hS'
    exact hP q.1 S S' (mem_filter.1 hS).2 (mem_filter.1 hS').2
  induction op with
  | nil => simp [absoluteSum]
  | cons q op ih =>
    constructor
    · simp only [List.map_cons, List.sum_cons, sum_add_distrib, absoluteSum] at ih ⊢
      refine add_le_add ?_ ih.1
      rw [← sum_filter, sum_const, nsmul_eq_mul]
      have h1 : ((#{S ∈ s | P q.1 S} : ℕ) : ℝ) ≤ 1 := by exact_mod_cast one q
      calc ((#{S ∈ s | P q.1 S} : ℕ) : ℝ) * ‖q.2‖ ≤ 1 * ‖q.2‖ := mul_le_mul_of_nonneg_right h1 (norm_nonneg _)
        _ = ‖q.2‖ := one_mul _
    · have hsub : {S ∈ s | ((q :: op).map fun q => if P q.1 S then ‖q.2‖ else 0).sum ≠ 0}
          ⊆ {S ∈ s | P q.1 S} ∪ {S ∈ s | (op.map fun q => if P q.1 S then ‖q.2‖ else 0).sum ≠ 0} := by
        intro S hS
        rw [mem_filter] at hS
        rw [mem_union, mem_filter, mem_filter]
        by_cases h : P q.1 S
        · exact Or.inl ⟨hS.1, h⟩
        · refine Or.inr ⟨hS.1, fun h0 => hS.2 ?_⟩
          rw [List.map_cons, List.sum_cons, h0, if_neg h, add_zero]
      refine (card_le_card hsub).trans ((card_union_le _ _).trans ?_)
      have := one q
      have := ih.2
      rw [List.length_cons]
      omega

theorem line_sum (hu : 0 ≤ u) (cut : ℝ) (op : Op ℕ ℂ) (s : Finset (Finset ℕ)) (f : Finset ℕ → ℝ)
    (h1 : ∑ S ∈ s, f S ≤ absoluteSum op) (h2 : #{S ∈ s | f S ≠ 0} ≤ op.length) :
    ∑ S ∈ s, (2 * relError u (op.length + 2) * f S + if f S = 0 then 0 else cutAmplitude u cut)
      ≤ lineError u cut op := by
  unfold lineError
  rw [sum_add_distrib, ← mul_sum]
  refine add_le_add (mul_le_mul_of_nonneg_left h1 (mul_nonneg (by norm_num) (relError_nonneg hu _))) ?_
  have e : ∀ S ∈ s, (if f S = 0 then 0 else cutAmplitude u cut) = if f S ≠ 0 then cutAmplitude u cut else 0 := by
    intro S _
    by_cases h : f S = 0 <;> simp [h]
  rw [sum_congr rfl e, ← sum_filter, sum_const, nsmul_eq_mul]
  exact mul_le_mul_of_nonneg_right (by exact_mod_cast h2) (Real.sqrt_nonneg _)

theorem column_error (hu : 0 ≤ u) (cut : ℝ) (op : Op ℕ ℂ) (s : Finset (Finset ℕ)) (T : Finset ℕ) :
    ∑ S ∈ s, elementError u cut op S T ≤ lineError u cut op := by
  classical
  have h := link_sum op s (fun q S => Leads q T S) (fun q S S' h h' => h.right_unique h')
  simp only [← linkSize_eq] at h
  exact line_sum hu cut op s (fun S => linkSize op S T) h.1 h.2

theorem row_error (hu : 0 ≤ u) (cut : ℝ) (op : Op ℕ ℂ) (s : Finset (Finset ℕ)) (S : Finset ℕ) :
    ∑ T ∈ s, elementError u cut op S T ≤ lineError u cut op := by
  classical
  have h := link_sum op s (fun q T => Leads q T S) (fun q T T' h h' => h.inj h')
  simp only [← linkSize_eq] at h
  exact line_sum hu cut op s (fun T => linkSize op S T) h.1 h.2

/-! ### the matrix -/

/-- Column `j`. -/
def roundedColOf (fl : FloatOps) (absC : ℂ → ℝ) (n : ℕ) (op : Op ℕ ℂ) (cut : ℝ) (basis : List Bytes) (j : ℕ) : Psi ℂ :=
  roundedApplyPure fl absC n op [(basis.getD j [], 1)] cut none

theorem roundedColumnOf_eq {n : ℕ} {op : Op ℕ ℂ} (hop : OpInSystem n op) (cut : ℝ) {basis : List Bytes}
    (hbasis : ∀ b ∈ basis, ∃ S ⊆ range n, b = encBytes n S) {j : ℕ} (hj : j < basis.length) :
    roundedColumnOf fl absC n op cut basis j = .ok (roundedColOf fl absC n op cut basis j) := by
  unfold roundedColumnOf roundedColOf
  rw [pyGet_ofNat _ _ hj]
  obtain ⟨S, hS, he⟩ := hbasis basis[j] (List.getElem_mem hj)
  simp only [bind, Except.bind]
  rw [he, roundedApplyOp_eq hop (isState_single hS 1), List.getD_eq_getElem _ _ hj, he]

theorem roundedDenseSerial_eq {n : ℕ} {op : Op ℕ ℂ} (hop : OpInSystem n op) (cut : ℝ) {basis : List Bytes}
    (hbasis : ∀ b ∈ basis, ∃ S ⊆ range n, b = encBytes n S) :
    roundedDenseSerial fl absC n op cut basis
      = .ok ((matEvents basis (roundedColOf fl absC n op cut basis) (List.range basis.length)).foldl
          (fun (h : Mat ℂ) e => h.put e.1.1 e.1.2 e.2) (fun _ _ => 0)) := by
  unfold roundedDenseSerial matEvents
  rw [foldlM_ok _ (fun h j => (colEvents basis (roundedColOf fl absC n op cut basis j) j).foldl
    (fun (h : Mat ℂ) e => h.put e.1.1 e.1.2 e.2) h), List.foldl_flatMap]
  intro h j hj
  rw [roundedColumnOf_eq hop cut hbasis (List.mem_range.1 hj)]
  simp only [bind, Except.bind, pure, Except.pure]
  exact congrArg _ (foldl_put_cols basis _ j h)

/-- The elements of the computed matrix are the amplitudes of the computed columns. -/
theorem roundedDenseSerial_get {n : ℕ} {op : Op ℕ ℂ} (hop : OpInSystem n op) (cut : ℝ) {states : List (Finset ℕ)}
    (hnd : states.Nodup) (hst : ∀ S ∈ states, S ⊆ range n) :
    ∃ h, roundedDenseSerial fl absC n op cut (states.map (encBytes n)) = .ok h ∧
      ∀ i (hi : i < states.length) j (hj : j < states.length),
        h i j = ampl n (roundedApplyPure fl absC n op [(encBytes n states[j], 1)] cut none) states[i] := by
  have hb : (states.map (encBytes n)).Nodup :=
    List.Nodup.map_on (fun S hS T hT h => encBytes_injOn (hst S hS) (hst T hT) h) hnd
  have hbasis : ∀ b ∈ states.map (encBytes n), ∃ S ⊆ range n, b = encBytes n S := by
    intro b hb
    obtain ⟨S, hS, rfl⟩ := List.mem_map.1 hb
    exact ⟨S, hst S hS, rfl⟩
  refine ⟨_, roundedDenseSerial_eq hop cut hbasis, fun i hi j hj => ?_⟩
  have hc : ∀ j ∈ List.range (states.map (encBytes n)).length,
      Dict.NodupKeys (roundedColOf fl absC n op cut (states.map (encBytes n)) j) :=
    fun j _ => nodupKeys_roundedApply _ _ _ _ _
  rw [foldl_put _ (nodupKeys_matEvents hb hc List.nodup_range), get?_matEvents hb hc List.nodup_range,
    if_pos (by simpa using hj)]
  rw [List.getElem?_eq_getElem (by simpa using hi)]
  simp only [List.getElem_map]
  rw [ampl, if_pos (hst _ (List.getElem_mem hi))]
  unfold roundedColOf
  rw [List.getD_eq_getElem _ _ (by simpa using hj), List.getElem_map]

end

end Verif
