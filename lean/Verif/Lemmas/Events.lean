import Verif.Spec.State
import Verif.Lemmas.Fock

set_option linter.unusedSectionVars false
set_option linter.unusedSimpArgs false

namespace Verif

open Finset Spec Psr

theorem foldlM_ok {α β : Type*} (f : β → α → Py β) (g : β → α → β) (l : List α) (b : β)
    (h : ∀ b, ∀ a ∈ l, f b a = .ok (g b a)) : l.foldlM f b = .ok (l.foldl g b) := by
  induction l generalizing b with
  | nil => rfl
  | cons a l ih =>
    rw [List.foldlM_cons, h b a (by simp), List.foldl_cons]
    exact ih _ (fun b a ha => h b a (by simp [ha]))

/-! ### addIf: add at a key, creating new keys only when allowed -/

section
variable {κ M : Type*} [DecidableEq κ] [AddCommMonoid M]

/-- `if k in d: d[k] += x elif ok(k): d[k] = x`. -/
def addIf (ok : κ → Bool) (d : Dict κ M) (e : κ × M) : Dict κ M :=
  match Dict.get? d e.1 with
  | some v => Dict.set d e.1 (v + e.2)
  | none => if ok e.1 then Dict.set d e.1 e.2 else d

/-- The total added at key `k` by a list of events. -/
def total (evs : List (κ × M)) (k : κ) : M := (evs.map fun e => if e.1 = k then e.2 else 0).sum

theorem total_cons (e : κ × M) (evs : List (κ × M)) (k : κ) :
    total (e :: evs) k = (if e.1 = k then e.2 else 0) + total evs k := by simp [total]

theorem total_append (e f : List (κ × M)) (k : κ) : total (e ++ f) k = total e k + total f k := by
  simp [total]

theorem total_of_notMem {evs : List (κ × M)} {k : κ} (h : k ∉ evs.map Prod.fst) : total evs k = 0 := by
  induction evs with
  | nil => rfl
  | cons e evs ih =>
    simp only [List.map_cons, List.mem_cons, not_or] at h
    rw [total_cons, if_neg (Ne.symm h.1), ih h.2, add_zero]

theorem total_eq_of_nodup (d : Dict κ M) (hd : Dict.NodupKeys d) (k : κ) :
    total d k = (Dict.get? d k).getD 0 := by
  rw [total, Dict.sum_items_eq d hd k (fun v => v)]; simp

theorem addAt_eq_addIf (d : Dict κ M) (k : κ) (x : M) :
    Dict.addAt d k x = addIf (fun _ => true) d (k, x) := by
  unfold Dict.addAt addIf; rfl

theorem get?_addIf (ok : κ → Bool) (d : Dict κ M) (e : κ × M) (k : κ) :
    Dict.get? (addIf ok d e) k =
      if e.1 = k then
        match Dict.get? d k with
        | some v => some (v + e.2)
        | none => if ok k then some e.2 else none
      else Dict.get? d k := by
  unfold addIf
  by_cases h : e.1 = k
  · subst h
    rw [if_pos rfl]
    cases hg : Dict.get? d e.1 with
    | some v => simp [Dict.get?_set]
    | none =>
      by_cases hok : ok e.1
      · simp [hok, Dict.get?_set]
      · simp [hok, hg]
  · rw [if_neg h]
    cases hg : Dict.get? d e.1 with
    | some v => simp [Dict.get?_set, h]
    | none =>
      by_cases hok : ok e.1
      · simp [hok, Dict.get?_set, h]
      · simp [hok]

theorem nodupKeys_addIf (ok : κ → Bool) (d : Dict κ M) (hd : Dict.NodupKeys d) (e : κ × M) :
    Dict.NodupKeys (addIf ok d e) := by
  unfold addIf
  split
  · exact Dict.nodupKeys_set hd _ _
  · split
    · exact Dict.nodupKeys_set hd _ _
    · exact hd

theorem nodupKeys_foldl_addIf (ok : κ → Bool) (evs : List (κ × M)) (d : Dict κ M)
    (hd : Dict.NodupKeys d) : Dict.NodupKeys (evs.foldl (addIf ok) d) := by
  induction evs generalizing d with
  | nil => exact hd
  | cons e evs ih => exact ih _ (nodupKeys_addIf ok d hd e)

/-- All keys of `d` satisfy `ok`. -/
def KeysOk (ok : κ → Bool) (d : Dict κ M) : Prop := ∀ k ∈ Dict.keys d, ok k = true

theorem keysOk_addIf {ok : κ → Bool} {d : Dict κ M} (h : KeysOk ok d) (e : κ × M) :
    KeysOk ok (addIf ok d e) := by
  intro k hk
  rw [Dict.mem_keys_iff, get?_addIf] at hk
  split at hk
  · cases hg : Dict.get? d k with
    | some v => exact h k (by rw [Dict.mem_keys_iff, hg]; rfl)
    | none =>
      rw [hg] at hk
      by_contra hok
      simp [hok] at hk
  · exact h k (by rwa [Dict.mem_keys_iff])

theorem keysOk_foldl_addIf {ok : κ → Bool} (evs : List (κ × M)) {d : Dict κ M} (h : KeysOk ok d) :
    KeysOk ok (evs.foldl (addIf ok) d) := by
  induction evs generalizing d with
  | nil => exact h
  | cons e evs ih => exact ih (keysOk_addIf h e)

theorem get?_foldl_addIf (ok : κ → Bool) (evs : List (κ × M)) (d : Dict κ M) (k : κ) :
    Dict.get? (evs.foldl (addIf ok) d) k =
      match Dict.get? d k with
      | some v => some (v + total evs k)
      | none => if ok k ∧ k ∈ evs.map Prod.fst then some (total evs k) else none := by
  induction evs generalizing d with
  | nil => cases h : Dict.get? d k <;> simp [total, h]
  | cons e evs ih =>
    rw [List.foldl_cons, ih, get?_addIf]
    by_cases h : e.1 = k
    · rw [if_pos h]
      cases hg : Dict.get? d k with
      | some v => simp [total_cons, h, add_assoc]
      | none =>
        by_cases hok : ok k
        · simp [hok, total_cons, h]
        · simp [hok]
    · rw [if_neg h]
      cases hg : Dict.get? d k with
      | some v => simp [total_cons, h]
      | none => simp only [total_cons, h, if_false, zero_add, List.map_cons, List.mem_cons, Ne.symm h, false_or]

theorem foldl_addIf_nil (ok : κ → Bool) (evs : List (κ × M)) (k : κ) :
    Dict.get? (evs.foldl (addIf ok) []) k =
      if ok k ∧ k ∈ evs.map Prod.fst then some (total evs k) else none := by
  rw [get?_foldl_addIf]; rfl

end

/-! ### prune -/

section
variable {R F : Type} [CommRing R] [StarRing R] [CommRing F] [LinearOrder F]
  [IsStrictOrderedRing F] [Amp R F]

theorem prune_eq_filter (cut : F) (d : Psi R) (hd : Dict.NodupKeys d) :
    prune cut d = d.filter fun p => ¬ abs2 p.2 < cut := by
  have key : ∀ (l acc : Psi R), Dict.NodupKeys acc → (∀ p ∈ l, p ∈ acc) → Dict.NodupKeys l →
      l.foldl (fun acc p => if abs2 p.2 < cut then Dict.pop acc p.1 else acc) acc
        = acc.filter fun p => decide (¬ (p.1 ∈ Dict.keys l ∧ abs2 p.2 < cut)) := by
    intro l
    induction l with
    | nil => intro acc _ _ _; simp
    | cons q l ih =>
      intro acc hacc hsub hl
      unfold Dict.NodupKeys at hl
      rw [Dict.keys_cons, List.nodup_cons] at hl
      rw [List.foldl_cons]
      by_cases hq : abs2 q.2 < cut
      · rw [if_pos hq, ih _ (Dict.nodupKeys_pop hacc _) _ hl.2, Dict.pop, List.filter_filter]
        · apply List.filter_congr
          intro p hp
          by_cases hpq : p.1 = q.1
          · have : p = q := by
              have h1 := Dict.get?_of_mem hacc hp
              have h2 := Dict.get?_of_mem hacc (hsub q (by simp))
              rw [hpq, h2] at h1
              simp only [Option.some.injEq] at h1
              exact Prod.ext hpq h1.symm
            subst this
            simp [hq]
          · simp [hpq]
        · intro p hp
          rw [Dict.pop, List.mem_filter]
          refine ⟨hsub p (by simp [hp]), ?_⟩
          have : p.1 ≠ q.1 := by
            intro h
            apply hl.1
            rw [← h]
            exact List.mem_map.2 ⟨p, hp, rfl⟩
          simpa using this
      · rw [if_neg hq, ih _ hacc (fun p hp => hsub p (by simp [hp])) hl.2]
        apply List.filter_congr
        intro p hp
        by_cases hpq : p.1 = q.1
        · have : p = q := by
            have h1 := Dict.get?_of_mem hacc hp
            have h2 := Dict.get?_of_mem hacc (hsub q (by simp))
            rw [hpq, h2] at h1
            simp only [Option.some.injEq] at h1
            exact Prod.ext hpq h1.symm
          subst this; simp [hq]
        · simp [hpq]
  rw [prune, key d d hd (fun _ h => h) hd]
  apply List.filter_congr
  intro p hp
  have : p.1 ∈ Dict.keys d := List.mem_map.2 ⟨p, hp, rfl⟩
  simp [this]

theorem get?_prune (cut : F) (d : Psi R) (hd : Dict.NodupKeys d) (k : Bytes) :
    Dict.get? (prune cut d) k = (Dict.get? d k).filter fun v => ¬ abs2 v < cut := by
  rw [prune_eq_filter cut d hd, Dict.get?_filter d hd]

theorem nodupKeys_prune (cut : F) (d : Psi R) (hd : Dict.NodupKeys d) :
    Dict.NodupKeys (prune cut d) := by
  rw [prune_eq_filter cut d hd]; exact Dict.nodupKeys_filter hd _

theorem mem_keys_prune (cut : F) (d : Psi R) (hd : Dict.NodupKeys d) (k : Bytes)
    (h : k ∈ Dict.keys (prune cut d)) : k ∈ Dict.keys d := by
  rw [Dict.mem_keys_iff, get?_prune cut d hd] at h
  rw [Dict.mem_keys_iff]
  cases hg : Dict.get? d k with
  | none => rw [hg] at h; simp at h
  | some v => rfl

end

end Verif
