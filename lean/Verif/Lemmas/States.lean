import Verif.Lemmas.ApplyOp

set_option linter.unusedSectionVars false
set_option linter.unusedSimpArgs false

namespace Verif

open Finset Spec Psr

section
variable {R F : Type} [CommRing R] [StarRing R] [CommRing F] [LinearOrder F]
  [IsStrictOrderedRing F] [Amp R F]

/-! ### ampl -/

theorem ampl_of_not_subset {n : ℕ} {psi : Psi R} {S : Finset ℕ} (hS : ¬ S ⊆ range n) :
    ampl n psi S = 0 := by rw [ampl, if_neg hS]

theorem ampl_of_subset {n : ℕ} {psi : Psi R} {S : Finset ℕ} (hS : S ⊆ range n) :
    ampl n psi S = (Dict.get? psi (encBytes n S)).getD 0 := by rw [ampl, if_pos hS]

theorem insert_subset_range {n i : ℕ} (hi : i < n) {S : Finset ℕ} :
    insert i S ⊆ range n ↔ S ⊆ range n := by
  rw [insert_subset_iff]; simp [hi]

theorem erase_subset_range {n i : ℕ} (hi : i < n) {S : Finset ℕ} :
    S.erase i ⊆ range n ↔ S ⊆ range n := by
  constructor
  · intro h x hx
    by_cases hxi : x = i
    · subst hxi; simpa using hi
    · exact h (mem_erase.2 ⟨hxi, hx⟩)
  · exact fun h => (erase_subset _ _).trans h

/-! ### finite.a and finite.c -/

/-- A loop `if P S: ret[f S] = g S * amp` with injective `f`. -/
theorem get?_foldl_setIf {n : ℕ} (P : Finset ℕ → Prop) [DecidablePred P] (f : Finset ℕ → Finset ℕ)
    (f' : Finset ℕ → Finset ℕ) (s : Finset ℕ → ℤ)
    (hf : ∀ T ⊆ range n, P T → f T ⊆ range n ∧ f' (f T) = T)
    (l : Psi R) (hl : IsState n l) (acc : Psi R) (S : Finset ℕ) (hS : S ⊆ range n) :
    Dict.get? (l.foldl (fun ret p => if P (dec n p.1) then
        Dict.set ret (encBytes n (f (dec n p.1))) (p.2 * (s (dec n p.1) : R)) else ret) acc)
        (encBytes n S)
      = if P (f' S) ∧ f (f' S) = S ∧ f' S ⊆ range n then
          match Dict.get? l (encBytes n (f' S)) with
          | some v => some (v * (s (f' S) : R))
          | none => Dict.get? acc (encBytes n S)
        else Dict.get? acc (encBytes n S) := by
  induction l generalizing acc with
  | nil => simp
  | cons p l ih =>
    have hnd := hl.nodup
    unfold Dict.NodupKeys at hnd
    rw [Dict.keys_cons, List.nodup_cons] at hnd
    obtain ⟨T, hT, hp⟩ := hl.keys p.1 (by simp)
    obtain ⟨k, v⟩ := p
    simp only at hp
    subst hp
    rw [List.foldl_cons, ih ⟨hnd.2, fun k hk => hl.keys k (by simp [hk])⟩]
    simp only [dec_enc hT, Dict.get?_cons]
    by_cases hPT : P T
    · rw [if_pos hPT]
      obtain ⟨hfT, hfT'⟩ := hf T hT hPT
      by_cases hc : P (f' S) ∧ f (f' S) = S ∧ f' S ⊆ range n
      · rw [if_pos hc, if_pos hc]
        by_cases hTS : T = f' S
        · subst hTS
          rw [if_pos rfl]
          have : Dict.get? l (encBytes n (f' S)) = none := by
            rw [Dict.get?_eq_none_iff]; exact hnd.1
          rw [this]
          simp only [Dict.get?_set]
          rw [if_pos (by rw [hc.2.1])]
        · rw [if_neg (fun h => hTS (encBytes_injOn hT hc.2.2 h))]
          cases Dict.get? l (encBytes n (f' S)) with
          | some v => rfl
          | none =>
            simp only [Dict.get?_set]
            rw [if_neg]
            intro h
            have := encBytes_injOn hfT hS h
            apply hTS; rw [← this, hfT']
      · rw [if_neg hc, if_neg hc, Dict.get?_set, if_neg]
        intro h
        have := encBytes_injOn hfT hS h
        apply hc
        rw [← this, hfT']
        exact ⟨hPT, rfl, hT⟩
    · rw [if_neg hPT]
      by_cases hc : P (f' S) ∧ f (f' S) = S ∧ f' S ⊆ range n
      · rw [if_pos hc, if_pos hc, if_neg]
        intro h
        have := encBytes_injOn hT hc.2.2 h
        subst this
        exact hPT hc.1
      · rw [if_neg hc, if_neg hc]

theorem isState_foldl_setIf {n : ℕ} (P : Finset ℕ → Prop) [DecidablePred P] (f : Finset ℕ → Finset ℕ)
    (s : Finset ℕ → ℤ) (hf : ∀ T ⊆ range n, P T → f T ⊆ range n)
    (l : Psi R) (hl : ∀ k ∈ Dict.keys l, ∃ S ⊆ range n, k = encBytes n S) (acc : Psi R)
    (hacc : IsState n acc) :
    IsState n (l.foldl (fun ret p => if P (dec n p.1) then
        Dict.set ret (encBytes n (f (dec n p.1))) (p.2 * (s (dec n p.1) : R)) else ret) acc) := by
  induction l generalizing acc with
  | nil => exact hacc
  | cons p l ih =>
    rw [List.foldl_cons]
    apply ih (fun k hk => hl k (by simp [hk]))
    obtain ⟨T, hT, hp⟩ := hl p.1 (by simp)
    split
    · rename_i h
      refine ⟨Dict.nodupKeys_set hacc.nodup _ _, ?_⟩
      intro k hk
      rw [Dict.mem_keys_set] at hk
      rcases hk with rfl | hk
      · rw [hp, dec_enc hT] at h
        exact ⟨_, hf T hT h, by rw [hp, dec_enc hT]⟩
      · exact hacc.keys k hk
    · exact hacc

theorem isState_nil (n : ℕ) : IsState n ([] : Psi R) :=
  ⟨Dict.nodupKeys_nil, by intro k hk; simp at hk⟩

theorem opA_eq {n i : ℕ} (hi : i < n) {psi : Psi R} (hpsi : IsState n psi) :
    opA n i psi = .ok (psi.foldl (fun ret p => if i ∈ dec n p.1 then
        Dict.set ret (encBytes n ((dec n p.1).erase i)) (p.2 * (sgn i (dec n p.1) : R)) else ret) []) := by
  unfold opA
  apply foldlM_ok
  rintro d ⟨k, amp⟩ hp
  obtain ⟨T, hT, hk⟩ := hpsi.keys k (List.mem_map.2 ⟨_, hp, rfl⟩)
  subst hk
  simp only [dec_enc hT, remove_ubytes hi]
  by_cases h : i ∈ T
  · simp [h, sgn_ne_zero, bind, Except.bind, pure, Except.pure]
  · simp [h, bind, Except.bind, pure, Except.pure]

theorem opC_eq {n i : ℕ} (hi : i < n) {psi : Psi R} (hpsi : IsState n psi) :
    opC n i psi = .ok (psi.foldl (fun ret p => if i ∉ dec n p.1 then
        Dict.set ret (encBytes n (insert i (dec n p.1))) (p.2 * (sgn i (dec n p.1) : R)) else ret) []) := by
  unfold opC
  apply foldlM_ok
  rintro d ⟨k, amp⟩ hp
  obtain ⟨T, hT, hk⟩ := hpsi.keys k (List.mem_map.2 ⟨_, hp, rfl⟩)
  subst hk
  simp only [dec_enc hT, create_ubytes hi]
  by_cases h : i ∈ T
  · simp [h, bind, Except.bind, pure, Except.pure]
  · simp [h, sgn_ne_zero, bind, Except.bind, pure, Except.pure]

theorem opA_spec {n i : ℕ} (hi : i < n) {psi : Psi R} (hpsi : IsState n psi) :
    ∃ psi', opA n i psi = .ok psi' ∧ IsState n psi' ∧ (∀ S ⊆ range n, Dict.get? psi' (encBytes n S)
      = if i ∈ S then none else
        (Dict.get? psi (encBytes n (insert i S))).map fun x => x * (sgn i S : R)) ∧
      ampl n psi' = annihilate i (ampl n psi) := by
  refine ⟨_, opA_eq hi hpsi, isState_foldl_setIf (fun T => i ∈ T) (fun T => T.erase i) (sgn i)
    (fun T hT _ => (erase_subset_range hi).2 hT) psi hpsi.keys [] (isState_nil n), ?_⟩
  have key : ∀ S ⊆ range n, Dict.get? (psi.foldl (fun ret p => if i ∈ dec n p.1 then
        Dict.set ret (encBytes n ((dec n p.1).erase i)) (p.2 * (sgn i (dec n p.1) : R)) else ret) [])
        (encBytes n S)
      = if i ∈ S then none else
        (Dict.get? psi (encBytes n (insert i S))).map fun x => x * (sgn i S : R) := by
    intro S hS
    rw [get?_foldl_setIf (fun T => i ∈ T) (fun T => T.erase i) (insert i) (sgn i)
      (fun T hT h => ⟨(erase_subset_range hi).2 hT, insert_erase h⟩) psi hpsi [] S hS]
    by_cases h : i ∈ S
    · rw [if_pos h, if_neg]
      · rfl
      · rintro ⟨-, h2, -⟩
        have : i ∈ (insert i S).erase i := by rw [h2]; exact h
        simp at this
    · rw [if_neg h, if_pos ⟨mem_insert_self _ _, erase_insert h, (insert_subset_range hi).2 hS⟩]
      cases Dict.get? psi (encBytes n (insert i S)) <;> simp [sgn_insert_self]
  refine ⟨key, ?_⟩
  funext S
  unfold annihilate
  by_cases hS : S ⊆ range n
  · rw [ampl_of_subset hS, key S hS, ampl_of_subset ((insert_subset_range hi).2 hS)]
    split
    · rfl
    · cases Dict.get? psi (encBytes n (insert i S)) <;> simp [mul_comm]
  · rw [ampl_of_not_subset hS, ampl_of_not_subset (fun h => hS ((insert_subset_range hi).1 h))]
    simp

theorem opC_spec {n i : ℕ} (hi : i < n) {psi : Psi R} (hpsi : IsState n psi) :
    ∃ psi', opC n i psi = .ok psi' ∧ IsState n psi' ∧ (∀ S ⊆ range n, Dict.get? psi' (encBytes n S)
      = if i ∈ S then
        (Dict.get? psi (encBytes n (S.erase i))).map (fun x => x * (sgn i S : R)) else none) ∧
      ampl n psi' = create i (ampl n psi) := by
  refine ⟨_, opC_eq hi hpsi, isState_foldl_setIf (fun T => i ∉ T) (fun T => insert i T) (sgn i)
    (fun T hT _ => (insert_subset_range hi).2 hT) psi hpsi.keys [] (isState_nil n), ?_⟩
  have key : ∀ S ⊆ range n, Dict.get? (psi.foldl (fun ret p => if i ∉ dec n p.1 then
        Dict.set ret (encBytes n (insert i (dec n p.1))) (p.2 * (sgn i (dec n p.1) : R)) else ret) [])
        (encBytes n S)
      = if i ∈ S then
        (Dict.get? psi (encBytes n (S.erase i))).map (fun x => x * (sgn i S : R)) else none := by
    intro S hS
    rw [get?_foldl_setIf (fun T => i ∉ T) (fun T => insert i T) (fun S => S.erase i) (sgn i)
      (fun T hT h => ⟨(insert_subset_range hi).2 hT, erase_insert h⟩) psi hpsi [] S hS]
    by_cases h : i ∈ S
    · rw [if_pos h, if_pos ⟨notMem_erase _ _, insert_erase h, (erase_subset_range hi).2 hS⟩]
      cases Dict.get? psi (encBytes n (S.erase i)) <;> simp [sgn_erase_self]
    · rw [if_neg h, if_neg]
      · rfl
      · rintro ⟨-, h2, -⟩
        exact h (by rw [← h2]; exact mem_insert_self _ _)
  refine ⟨key, ?_⟩
  funext S
  unfold create
  by_cases hS : S ⊆ range n
  · rw [ampl_of_subset hS, key S hS, ampl_of_subset ((erase_subset_range hi).2 hS)]
    split
    · cases Dict.get? psi (encBytes n (S.erase i)) <;> simp [mul_comm]
    · rfl
  · rw [ampl_of_not_subset hS, ampl_of_not_subset (fun h => hS ((erase_subset_range hi).1 h))]
    simp

/-! ### inner, add, addToFirst, norm2 -/

theorem sum_items_powerset {M : Type*} [AddCommMonoid M] {n : ℕ} {psi : Psi R} (hpsi : IsState n psi)
    (f : Bytes → R → M) :
    (psi.map fun p => f p.1 p.2).sum
      = ∑ S ∈ (range n).powerset, match Dict.get? psi (encBytes n S) with
        | some v => f (encBytes n S) v
        | none => 0 := by
  have h1 : ∀ S ∈ (range n).powerset, (match Dict.get? psi (encBytes n S) with
        | some v => f (encBytes n S) v
        | none => 0) = (psi.map fun p => if p.1 = encBytes n S then f p.1 p.2 else 0).sum := by
    intro S _
    rw [show (psi.map fun p => if p.1 = encBytes n S then f p.1 p.2 else 0)
      = psi.map fun p => if p.1 = encBytes n S then f (encBytes n S) p.2 else 0 from ?_,
      Dict.sum_items_eq psi hpsi.nodup]
    · cases Dict.get? psi (encBytes n S) <;> rfl
    · apply List.map_congr_left
      intro p _
      split
      · rename_i h; rw [h]
      · rfl
  rw [sum_congr rfl h1]
  have h2 : ∀ l : Psi R, (∀ k ∈ Dict.keys l, ∃ S ⊆ range n, k = encBytes n S) →
      (l.map fun p => f p.1 p.2).sum = ∑ S ∈ (range n).powerset,
        (l.map fun p => if p.1 = encBytes n S then f p.1 p.2 else 0).sum := by
    intro l hl
    induction l with
    | nil => simp
    | cons p l ih =>
      simp only [List.map_cons, List.sum_cons, sum_add_distrib]
      rw [ih (fun k hk => hl k (by simp [hk]))]
      congr 1
      obtain ⟨T, hT, hp⟩ := hl p.1 (by simp)
      rw [sum_eq_single T]
      · rw [if_pos hp]
      · intro S hS hne
        rw [if_neg]
        intro h
        rw [hp] at h
        exact hne (encBytes_injOn hT (mem_powerset.1 hS) h).symm
      · intro h; exact absurd (mem_powerset.2 hT) h
  exact h2 psi hpsi.keys

theorem inner_foldl (a l : Psi R) (acc : R) :
    l.foldl (fun acc p =>
      match Dict.get? a p.1 with
      | some x => acc + star x * p.2
      | none => acc) acc
    = acc + (l.map fun p => star ((Dict.get? a p.1).getD 0) * p.2).sum := by
  induction l generalizing acc with
  | nil => simp
  | cons p l ih =>
    rw [List.foldl_cons, ih]
    cases hg : Dict.get? a p.1 <;> simp [hg, add_assoc]

theorem inner_eq {n : ℕ} {a b : Psi R} (hb : IsState n b) :
    inner a b = innerProduct n (ampl n a) (ampl n b) := by
  refine (inner_foldl a b 0).trans ?_
  rw [zero_add, sum_items_powerset hb (fun k v => star ((Dict.get? a k).getD 0) * v)]
  unfold innerProduct
  apply sum_congr rfl
  intro S hS
  rw [mem_powerset] at hS
  rw [ampl_of_subset hS, ampl_of_subset hS]
  cases Dict.get? b (encBytes n S) <;> simp

theorem get?_addFold (f : R → R) (psi1 psi2 : Psi R) (h2 : Dict.NodupKeys psi2) (k : Bytes) :
    Dict.get? (psi2.foldl (fun psi p => Dict.addAt psi p.1 (f p.2)) psi1) k
      = match Dict.get? psi1 k, Dict.get? psi2 k with
        | some v, some w => some (v + f w)
        | some v, none => some v
        | none, some w => some (f w)
        | none, none => none := by
  have hfold : psi2.foldl (fun psi p => Dict.addAt psi p.1 (f p.2)) psi1
      = (psi2.map fun p => (p.1, f p.2)).foldl (addIf fun _ => true) psi1 := by
    rw [List.foldl_map]; congr 1
  have ht : total (psi2.map fun p => (p.1, f p.2)) k = ((Dict.get? psi2 k).map f).getD 0 := by
    unfold total
    rw [List.map_map]
    exact Dict.sum_items_eq psi2 h2 k f
  rw [hfold, get?_foldl_addIf, ht]
  have hm : k ∈ (psi2.map fun p => (p.1, f p.2)).map Prod.fst ↔ k ∈ Dict.keys psi2 := by
    rw [List.map_map]; rfl
  simp only [hm, Dict.mem_keys_iff]
  cases Dict.get? psi1 k <;> cases Dict.get? psi2 k <;> simp

theorem isState_addFold {n : ℕ} (f : R → R) {psi1 psi2 : Psi R} (h1 : IsState n psi1)
    (h2 : IsState n psi2) :
    IsState n (psi2.foldl (fun psi p => Dict.addAt psi p.1 (f p.2)) psi1) := by
  constructor
  · have hfold : psi2.foldl (fun psi p => Dict.addAt psi p.1 (f p.2)) psi1
      = (psi2.map fun p => (p.1, f p.2)).foldl (addIf fun _ => true) psi1 := by
      rw [List.foldl_map]; congr 1
    rw [hfold]
    exact nodupKeys_foldl_addIf _ _ _ h1.nodup
  · intro k hk
    rw [Dict.mem_keys_iff, get?_addFold f psi1 psi2 h2.nodup] at hk
    by_cases h : k ∈ Dict.keys psi1
    · exact h1.keys k h
    · apply h2.keys
      rw [Dict.mem_keys_iff]
      rw [← Dict.get?_eq_none_iff] at h
      rw [h] at hk
      cases hg : Dict.get? psi2 k with
      | none => rw [hg] at hk; simp at hk
      | some v => rfl

theorem ampl_addFold {n : ℕ} (f : R → R) (hf : f 0 = 0) {psi1 psi2 : Psi R}
    (h2 : IsState n psi2) (S : Finset ℕ) :
    ampl n (psi2.foldl (fun psi p => Dict.addAt psi p.1 (f p.2)) psi1) S
      = ampl n psi1 S + f (ampl n psi2 S) := by
  by_cases hS : S ⊆ range n
  · rw [ampl_of_subset hS, get?_addFold f psi1 psi2 h2.nodup, ampl_of_subset hS, ampl_of_subset hS]
    cases Dict.get? psi1 (encBytes n S) <;> cases Dict.get? psi2 (encBytes n S) <;> simp [hf]
  · rw [ampl_of_not_subset hS, ampl_of_not_subset hS, ampl_of_not_subset hS, hf, add_zero]

theorem norm2_eq {n : ℕ} {psi : Psi R} (hpsi : IsState n psi) :
    (norm2 psi : F) = ∑ S ∈ (range n).powerset, abs2 (ampl n psi S) := by
  unfold norm2
  rw [sum_items_powerset hpsi (fun _ v => (abs2 v : F))]
  apply sum_congr rfl
  intro S hS
  rw [ampl_of_subset (mem_powerset.1 hS)]
  cases Dict.get? psi (encBytes n S) <;> simp [Amp.abs2_zero]

end

end Verif
