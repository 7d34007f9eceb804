/-
Python dictionaries as insertion-ordered association lists.
-/
import Verif.Py.Basic
import Mathlib.Algebra.BigOperators.Group.List.Basic
import Mathlib.Data.List.Nodup

set_option linter.unusedSectionVars false

namespace Verif

/-- A Python dict: the items in insertion order. -/
abbrev Dict (κ ν : Type*) := List (κ × ν)

namespace Dict

variable {κ ν : Type*} [DecidableEq κ]

/-- `d.keys()` -/
def keys (d : Dict κ ν) : List κ := d.map Prod.fst

/-- `d.values()` -/
def values (d : Dict κ ν) : List ν := d.map Prod.snd

/-- `d.get(k)` -/
def get? : Dict κ ν → κ → Option ν
  | [], _ => none
  | (a, v) :: d, k => if a = k then some v else get? d k

/-- `k in d` -/
def has (d : Dict κ ν) (k : κ) : Bool := (get? d k).isSome

/-- `d[k]`, a `KeyError` if `k` is missing. -/
def get (d : Dict κ ν) (k : κ) : Py ν :=
  match get? d k with
  | some v => .ok v
  | none => .error .keyError

/-- `d[k] = v`: overwrite in place, or append. -/
def set : Dict κ ν → κ → ν → Dict κ ν
  | [], k, v => [(k, v)]
  | (a, w) :: d, k, v => if a = k then (a, v) :: d else (a, w) :: set d k v

/-- `d.pop(k)` for a key that is present. -/
def pop (d : Dict κ ν) (k : κ) : Dict κ ν := d.filter fun p => p.1 ≠ k

/-- `d.update(e)` -/
def update (d e : Dict κ ν) : Dict κ ν := e.foldl (fun d p => set d p.1 p.2) d

/-- Equality of Python dicts: the same keys with the same values, in any order. -/
def Eqv (d e : Dict κ ν) : Prop := ∀ k, get? d k = get? e k

/-- Every Python dict has distinct keys. -/
def NodupKeys (d : Dict κ ν) : Prop := (keys d).Nodup

instance (d : Dict κ ν) : Decidable (NodupKeys d) := by unfold NodupKeys; infer_instance

@[simp] theorem keys_nil : keys ([] : Dict κ ν) = [] := rfl
@[simp] theorem keys_cons (p : κ × ν) (d : Dict κ ν) : keys (p :: d) = p.1 :: keys d := rfl
@[simp] theorem keys_append (d e : Dict κ ν) : keys (d ++ e) = keys d ++ keys e := by simp [keys]
@[simp] theorem get?_nil (k : κ) : get? ([] : Dict κ ν) k = none := rfl
theorem get?_cons (a : κ) (v : ν) (d : Dict κ ν) (k : κ) :
    get? ((a, v) :: d) k = if a = k then some v else get? d k := rfl

theorem mem_keys_iff (d : Dict κ ν) (k : κ) : k ∈ keys d ↔ (get? d k).isSome := by
  induction d with
  | nil => simp
  | cons p d ih =>
    obtain ⟨a, v⟩ := p
    rw [keys_cons, List.mem_cons, ih, get?_cons]
    by_cases h : a = k
    · simp [h]
    · simp [h, Ne.symm h]

theorem get?_eq_none_iff (d : Dict κ ν) (k : κ) : get? d k = none ↔ k ∉ keys d := by
  rw [mem_keys_iff]; cases get? d k <;> simp

theorem mem_of_get? {d : Dict κ ν} {k : κ} {v : ν} (h : get? d k = some v) : (k, v) ∈ d := by
  induction d with
  | nil => simp at h
  | cons p d ih =>
    obtain ⟨a, w⟩ := p
    rw [get?_cons] at h
    split at h
    · rename_i hak; simp only [Option.some.injEq] at h; subst hak h; simp
    · exact List.mem_cons_of_mem _ (ih h)

theorem get?_of_mem {d : Dict κ ν} (hd : NodupKeys d) {k : κ} {v : ν} (h : (k, v) ∈ d) :
    get? d k = some v := by
  induction d with
  | nil => simp at h
  | cons p d ih =>
    obtain ⟨a, w⟩ := p
    unfold NodupKeys at hd
    rw [keys_cons, List.nodup_cons] at hd
    rw [get?_cons]
    rcases List.mem_cons.1 h with h | h
    · simp only [Prod.mk.injEq] at h; simp [h.1, h.2]
    · rw [if_neg, ih hd.2 h]
      rintro rfl
      exact hd.1 (List.mem_map.2 ⟨_, h, rfl⟩)

theorem get?_set (d : Dict κ ν) (k : κ) (v : ν) (k' : κ) :
    get? (set d k v) k' = if k = k' then some v else get? d k' := by
  induction d with
  | nil => simp [set, get?_cons]
  | cons p d ih =>
    obtain ⟨a, w⟩ := p
    rw [set]
    by_cases h : a = k
    · subst h; simp only [if_true, get?_cons]; split <;> rfl
    · rw [if_neg h, get?_cons, ih, get?_cons]
      by_cases h2 : a = k'
      · subst h2; rw [if_pos rfl, if_pos rfl, if_neg (Ne.symm h)]
      · rw [if_neg h2, if_neg h2]

theorem mem_keys_set (d : Dict κ ν) (k : κ) (v : ν) (k' : κ) :
    k' ∈ keys (set d k v) ↔ k' = k ∨ k' ∈ keys d := by
  rw [mem_keys_iff, get?_set, mem_keys_iff]
  by_cases h : k = k'
  · simp [h]
  · simp [h, Ne.symm h]

theorem nodupKeys_nil : NodupKeys ([] : Dict κ ν) := List.nodup_nil

theorem nodupKeys_set {d : Dict κ ν} (hd : NodupKeys d) (k : κ) (v : ν) : NodupKeys (set d k v) := by
  induction d with
  | nil => simp [set, NodupKeys]
  | cons p d ih =>
    obtain ⟨a, w⟩ := p
    unfold NodupKeys at hd ih ⊢
    rw [keys_cons, List.nodup_cons] at hd
    rw [set]
    by_cases h : a = k
    · rw [if_pos h, keys_cons, List.nodup_cons]; exact hd
    · rw [if_neg h, keys_cons, List.nodup_cons]
      refine ⟨?_, ih hd.2⟩
      rw [mem_keys_set]
      rintro (h' | h')
      · exact h h'
      · exact hd.1 h'

theorem get?_pop (d : Dict κ ν) (k k' : κ) :
    get? (pop d k) k' = if k = k' then none else get? d k' := by
  induction d with
  | nil => simp [pop]
  | cons p d ih =>
    obtain ⟨a, w⟩ := p
    unfold pop at ih ⊢
    rw [List.filter_cons]
    by_cases h : a = k
    · subst h
      simp only [ne_eq, not_true_eq_false, decide_false, Bool.false_eq_true, if_false]
      rw [ih, get?_cons]
      split <;> rfl
    · simp only [ne_eq, h, not_false_eq_true, decide_true, if_true]
      rw [get?_cons, ih, get?_cons]
      by_cases h2 : a = k'
      · subst h2; rw [if_pos rfl, if_pos rfl, if_neg (Ne.symm h)]
      · rw [if_neg h2, if_neg h2]

theorem nodupKeys_filter {d : Dict κ ν} (hd : NodupKeys d) (p : κ × ν → Bool) :
    NodupKeys (d.filter p) :=
  hd.sublist (List.Sublist.map _ List.filter_sublist)

theorem nodupKeys_pop {d : Dict κ ν} (hd : NodupKeys d) (k : κ) : NodupKeys (pop d k) :=
  nodupKeys_filter hd _

theorem nodupKeys_update {d : Dict κ ν} (hd : NodupKeys d) (e : Dict κ ν) :
    NodupKeys (update d e) := by
  unfold update
  induction e generalizing d with
  | nil => exact hd
  | cons p e ih => exact ih (nodupKeys_set hd _ _)

theorem get?_update (d e : Dict κ ν) (he : NodupKeys e) (k : κ) :
    get? (update d e) k = (get? e k).or (get? d k) := by
  unfold update
  induction e generalizing d with
  | nil => simp
  | cons p e ih =>
    obtain ⟨a, v⟩ := p
    unfold NodupKeys at he
    rw [keys_cons, List.nodup_cons] at he
    rw [List.foldl_cons, ih _ he.2, get?_set, get?_cons]
    by_cases h : a = k
    · subst h
      rw [(get?_eq_none_iff e a).2 he.1]; simp
    · simp [h]

theorem get?_filter (d : Dict κ ν) (hd : NodupKeys d) (p : κ × ν → Bool) (k : κ) :
    get? (d.filter p) k = (get? d k).filter fun v => p (k, v) := by
  induction d with
  | nil => rfl
  | cons q d ih =>
    obtain ⟨a, v⟩ := q
    unfold NodupKeys at hd
    rw [keys_cons, List.nodup_cons] at hd
    rw [List.filter_cons, get?_cons]
    by_cases h : a = k
    · subst h
      simp only [if_true]
      by_cases hp : p (a, v)
      · simp [hp, get?_cons, Option.filter]
      · simp only [hp, Bool.false_eq_true, if_false]
        rw [ih hd.2, (get?_eq_none_iff d a).2 hd.1]; simp [hp, Option.filter]
    · simp only [h, if_false]
      split
      · rw [get?_cons, if_neg h, ih hd.2]
      · rw [ih hd.2]

/-- Sum over the items with a given key. -/
theorem sum_items_eq {M : Type*} [AddCommMonoid M] (d : Dict κ ν) (hd : NodupKeys d) (k : κ)
    (f : ν → M) :
    (d.map fun p => if p.1 = k then f p.2 else 0).sum = ((get? d k).map f).getD 0 := by
  induction d with
  | nil => rfl
  | cons q d ih =>
    obtain ⟨a, v⟩ := q
    unfold NodupKeys at hd
    rw [keys_cons, List.nodup_cons] at hd
    rw [List.map_cons, List.sum_cons, ih hd.2, get?_cons]
    by_cases h : a = k
    · subst h
      rw [(get?_eq_none_iff d a).2 hd.1]; simp
    · simp [h]

end Dict

end Verif
