/-
Helper lemmas for `c2i` and `i2c`: both are searches in the list of all labels.
-/
import Verif.Spec.Index
import Mathlib.Algebra.BigOperators.Group.List.Basic
import Mathlib.Data.List.Nodup
import Mathlib.Tactic

set_option linter.unusedSectionVars false
set_option linter.unusedSimpArgs false

namespace Verif

open Spec

theorem mem_pyRange {a b x : ℤ} : x ∈ pyRange a b ↔ a ≤ x ∧ x < b := by
  simp only [pyRange, List.mem_map, List.mem_range]
  constructor
  · rintro ⟨k, hk, rfl⟩; omega
  · rintro ⟨h1, h2⟩; exact ⟨(x - a).toNat, by omega, by omega⟩

theorem nodup_pyRange (a b : ℤ) : (pyRange a b).Nodup :=
  List.Nodup.map (fun x y h => by simpa using h) List.nodup_range

@[simp] theorem length_pyRange (a b : ℤ) : (pyRange a b).length = (b - a).toNat := by
  simp [pyRange]

/-- Labels of a shell in loop order. -/
def shellLabels (l : ℕ) : List Label :=
  (pyRange 0 2).flatMap fun s => (pyRange (-l) (l + 1)).map fun m => Label.imp l s m

theorem length_shellLabels (l : ℕ) : (shellLabels l).length = 2 * (2 * l + 1) := by
  have h : ((l : ℤ) + 1 - -(l : ℤ)).toNat = 2 * l + 1 := by omega
  have hr : pyRange 0 2 = [0, 1] := by decide
  simp [shellLabels, hr]
  omega

def impLabels (nBaths : NBaths) : List Label := (allAngulars nBaths).flatMap shellLabels

def bathLabelsOf (p : LKey × ℕ) : List Label :=
  (List.range p.2).map fun (b : ℕ) => Label.bath p.1 (b : ℤ)

def bathLabels (nBaths : NBaths) : List Label := nBaths.flatMap bathLabelsOf

def labels (nBaths : NBaths) : List Label := impLabels nBaths ++ bathLabels nBaths

theorem length_impLabels (nBaths : NBaths) : (impLabels nBaths).length = nImpurity nBaths := by
  simp [impLabels, nImpurity, shellsSize, List.length_flatMap, length_shellLabels]

theorem length_bathLabels (nBaths : NBaths) : (bathLabels nBaths).length = nBath nBaths := by
  simp [bathLabels, nBath, List.length_flatMap, bathLabelsOf]

theorem length_labels (nBaths : NBaths) : (labels nBaths).length = nTotal nBaths := by
  simp [labels, length_impLabels, length_bathLabels, nTotal]

theorem mem_labels (nBaths : NBaths) (lab : Label) : lab ∈ labels nBaths ↔ InSystem nBaths lab := by
  cases lab with
  | imp l s m =>
    simp only [labels, impLabels, bathLabels, bathLabelsOf, shellLabels, List.mem_append,
      List.mem_flatMap, List.mem_map, mem_pyRange, InSystem, Label.imp.injEq, reduceCtorEq, and_false,
      exists_false, or_false]
    constructor
    · rintro ⟨l', hl, s', hs, m', hm, rfl, rfl, rfl⟩
      exact ⟨hl, hs.1, hs.2, hm.1, by omega⟩
    · rintro ⟨hl, h1, h2, h3, h4⟩
      exact ⟨l, hl, s, ⟨h1, h2⟩, m, ⟨h3, by omega⟩, rfl, rfl, rfl⟩
  | bath lp b =>
    simp only [labels, impLabels, bathLabels, bathLabelsOf, shellLabels, List.mem_append,
      List.mem_flatMap, List.mem_map, InSystem, Label.bath.injEq, reduceCtorEq, and_false,
      exists_false, false_or, List.mem_range, Prod.exists]
    constructor
    · rintro ⟨lp', nb, h, b', hb, rfl, rfl⟩
      exact ⟨nb, h, by omega, by omega⟩
    · rintro ⟨nb, h, h1, h2⟩
      exact ⟨lp, nb, h, b.toNat, by omega, rfl, by omega⟩

theorem nodup_shellLabels (l : ℕ) : (shellLabels l).Nodup := by
  rw [shellLabels, List.nodup_flatMap]
  constructor
  · intro s _
    exact List.Nodup.map (fun x y h => by simpa using h) (nodup_pyRange _ _)
  · refine (nodup_pyRange 0 2).imp ?_
    intro s s' hne x h1 h2
    simp only [List.mem_map] at h1 h2
    obtain ⟨m, _, rfl⟩ := h1
    obtain ⟨m', _, h⟩ := h2
    simp only [Label.imp.injEq] at h
    exact hne h.2.1.symm

theorem nodup_labels {nBaths : NBaths} (h : GoodSystem nBaths) : (labels nBaths).Nodup := by
  rw [labels, List.nodup_append]
  refine ⟨?_, ?_, ?_⟩
  · rw [impLabels, List.nodup_flatMap]
    refine ⟨fun l _ => nodup_shellLabels l, h.angulars.imp ?_⟩
    intro l l' hne x h1 h2
    simp only [shellLabels, List.mem_flatMap, List.mem_map] at h1 h2
    obtain ⟨s, _, m, _, rfl⟩ := h1
    obtain ⟨s', _, m', _, h⟩ := h2
    simp only [Label.imp.injEq] at h
    exact hne h.1.symm
  · rw [bathLabels, List.nodup_flatMap]
    constructor
    · intro p _
      exact List.Nodup.map (fun x y h => by simpa using h) List.nodup_range
    · have := h.keys
      unfold Dict.NodupKeys Dict.keys at this
      rw [List.nodup_iff_pairwise_ne, List.pairwise_map] at this
      refine this.imp ?_
      intro p p' hne x h1 h2
      simp only [bathLabelsOf, List.mem_map] at h1 h2
      obtain ⟨b, _, rfl⟩ := h1
      obtain ⟨b', _, h⟩ := h2
      simp only [Label.bath.injEq] at h
      exact hne h.1.symm
  · intro x hx y hy hxy
    subst hxy
    simp only [impLabels, shellLabels, bathLabels, bathLabelsOf, List.mem_flatMap, List.mem_map] at hx hy
    obtain ⟨l, _, s, _, m, _, rfl⟩ := hx
    obtain ⟨p, _, b, _, h⟩ := hy
    simp at h

/-- Linear search with a counter. -/
def search (lab : Label) (i : ℕ) (L : List Label) : Loop ℕ ℕ :=
  L.foldlM (fun i x => if x = lab then .error i else .ok (i + 1)) i

theorem search_append (lab : Label) (i : ℕ) (L M : List Label) :
    search lab i (L ++ M) = (search lab i L >>= fun i => search lab i M) := by
  simp [search, List.foldlM_append]

theorem search_map {α : Type*} (lab : Label) (i : ℕ) (f : α → Label) (L : List α) :
    search lab i (L.map f) = L.foldlM (fun i x => if f x = lab then .error i else .ok (i + 1)) i := by
  simp [search, List.foldlM_map]

theorem search_flatMap {α : Type*} (lab : Label) (f : α → List Label) (L : List α) (i : ℕ) :
    search lab i (L.flatMap f) = L.foldlM (fun i x => search lab i (f x)) i := by
  induction L generalizing i with
  | nil => rfl
  | cons x L ih =>
    rw [List.flatMap_cons, search_append, List.foldlM_cons]
    congr 1; funext j; exact ih j

theorem search_eq (lab : Label) (i : ℕ) (L : List Label) :
    search lab i L = if lab ∈ L then .error (i + L.idxOf lab) else .ok (i + L.length) := by
  induction L generalizing i with
  | nil => simp [search, pure, Except.pure]
  | cons x L ih =>
    have : search lab i (x :: L) = if x = lab then .error i else search lab (i + 1) L := by
      simp only [search, List.foldlM_cons]
      split <;> rfl
    rw [this, ih]
    by_cases h : x = lab
    · simp [h]
    · have h' : ¬ lab = x := fun e => h e.symm
      simp only [h, if_false, List.mem_cons, h', false_or, List.idxOf_cons_ne _ h, List.length_cons]
      split
      · congr 1; omega
      · congr 1; omega

theorem c2i_shell_eq (lab : Label) (i l : ℕ) : C2i.shell lab i l = search lab i (shellLabels l) := by
  rw [shellLabels, search_flatMap, C2i.shell]
  congr 1; funext j s
  rw [search_map]

theorem c2i_key_eq (lab : Label) (i : ℕ) (k : LKey) :
    C2i.key lab i k = search lab i ((angulars k).flatMap shellLabels) := by
  cases k with
  | int l => simp [C2i.key, angulars, c2i_shell_eq]
  | tup ls =>
    simp only [C2i.key, angulars, search_flatMap]
    congr 1; funext j l; exact c2i_shell_eq _ _ _

theorem c2i_keys_eq (lab : Label) (i : ℕ) (d : NBaths) :
    (Dict.keys d).foldlM (C2i.key lab) i = search lab i (impLabels d) := by
  have : impLabels d = (Dict.keys d).flatMap fun k => (angulars k).flatMap shellLabels := by
    simp [impLabels, allAngulars, Dict.keys, List.flatMap_assoc, List.flatMap_map]
  rw [this, search_flatMap]
  congr 1; funext j k; exact c2i_key_eq _ _ _

theorem c2i_baths_eq (lab : Label) (i : ℕ) (d : NBaths) :
    C2i.baths lab i d = search lab i (bathLabels d) := by
  rw [bathLabels, search_flatMap, C2i.baths]
  congr 1; funext j p
  rw [bathLabelsOf, search_map]

theorem c2i_eq (d : NBaths) (lab : Label) :
    c2i d lab = if lab ∈ labels d then .ok ((labels d).idxOf lab) else .error .exception := by
  have : c2i d lab = match search lab 0 (labels d) with
      | .error i => .ok i
      | .ok _ => .error .exception := by
    rw [labels, search_append, c2i, c2i_keys_eq]
    simp only [c2i_baths_eq]
    rfl
  rw [this, search_eq]
  by_cases h : lab ∈ labels d
  · simp [h]
  · simp [h]

/-- Looking up position `i` of `L` with a counter `k`. -/
def lookup (i k : ℤ) (L : List Label) : Loop Label ℤ :=
  L.foldlM (fun k x => if k = i then .error x else .ok (k + 1)) k

theorem lookup_append (i k : ℤ) (L M : List Label) :
    lookup i k (L ++ M) = (lookup i k L >>= fun k => lookup i k M) := by
  simp [lookup, List.foldlM_append]

theorem lookup_flatMap {α : Type*} (i : ℤ) (f : α → List Label) (L : List α) (k : ℤ) :
    lookup i k (L.flatMap f) = L.foldlM (fun k x => lookup i k (f x)) k := by
  induction L generalizing k with
  | nil => rfl
  | cons x L ih =>
    rw [List.flatMap_cons, lookup_append, List.foldlM_cons]
    congr 1; funext j; exact ih j

theorem lookup_eq (i k : ℤ) (hk : k ≤ i) (L : List Label) :
    lookup i k L = match L[(i - k).toNat]? with
      | some x => .error x
      | none => .ok (k + L.length) := by
  induction L generalizing k with
  | nil => simp [lookup, pure, Except.pure]
  | cons x L ih =>
    have : lookup i k (x :: L) = if k = i then .error x else lookup i (k + 1) L := by
      simp only [lookup, List.foldlM_cons]
      split <;> rfl
    rw [this]
    by_cases h : k = i
    · simp [h]
    · rw [if_neg h, ih (k + 1) (by omega)]
      have e : (i - k).toNat = (i - (k + 1)).toNat + 1 := by omega
      rw [e, List.getElem?_cons_succ]
      cases L[(i - (k + 1)).toNat]? with
      | some y => rfl
      | none => simp; omega

theorem lookup_lt (i k : ℤ) (hk : i < k) (L : List Label) : lookup i k L = .ok (k + L.length) := by
  induction L generalizing k with
  | nil => simp [lookup, pure, Except.pure]
  | cons x L ih =>
    have : lookup i k (x :: L) = if k = i then .error x else lookup i (k + 1) L := by
      simp only [lookup, List.foldlM_cons]
      split <;> rfl
    rw [this, if_neg (by omega), ih (k + 1) (by omega)]
    simp; omega

theorem i2c_shell_loop (i k : ℤ) (l : ℕ) :
    (pyRange 0 2).foldlM (fun k s =>
        (pyRange (-l) (l + 1)).foldlM (fun k m =>
          if k = i then (.error (Label.imp l s m) : Loop Label ℤ) else .ok (k + 1)) k) k
      = lookup i k (shellLabels l) := by
  rw [shellLabels, lookup_flatMap]
  congr 1; funext j s
  simp [lookup, List.foldlM_map]

theorem i2c_shell_eq (i k : ℤ) (hk : k ≤ i) (l : ℕ) :
    I2c.shell i k l = lookup i k (shellLabels l) := by
  rw [I2c.shell, i2c_shell_loop]
  have hlen : ((shellLabels l).length : ℤ) = 2 * (2 * l + 1) := by
    rw [length_shellLabels]; push_cast; ring
  rw [lookup_eq i k hk]
  by_cases h : i - k < 2 * (2 * l + 1)
  · rw [if_pos h]
    have : (i - k).toNat < (shellLabels l).length := by omega
    rw [List.getElem?_eq_getElem this]
    rfl
  · rw [if_neg h]
    have : (shellLabels l).length ≤ (i - k).toNat := by omega
    rw [List.getElem?_eq_none this]
    simp only [hlen]; rfl

theorem lookup_ok_le {i k k' : ℤ} {L : List Label} (hk : k ≤ i) (h : lookup i k L = .ok k') :
    k' ≤ i := by
  rw [lookup_eq i k hk] at h
  cases hL : L[(i - k).toNat]? with
  | some x => rw [hL] at h; simp at h
  | none =>
    rw [hL] at h
    simp only [Except.ok.injEq] at h
    have := List.getElem?_eq_none_iff.1 hL
    omega

theorem foldlM_lookup {α : Type*} (i : ℤ) (g : ℤ → α → Loop Label ℤ) (f : α → List Label)
    (hg : ∀ k ≤ i, ∀ x, g k x = lookup i k (f x)) (L : List α) (k : ℤ) (hk : k ≤ i) :
    L.foldlM g k = lookup i k (L.flatMap f) := by
  induction L generalizing k with
  | nil => rfl
  | cons x L ih =>
    rw [List.flatMap_cons, lookup_append, List.foldlM_cons, hg k hk]
    cases h : lookup i k (f x) with
    | error e => rfl
    | ok k' => exact ih k' (lookup_ok_le hk h)

theorem i2c_key_eq (i k : ℤ) (hk : k ≤ i) (key : LKey) :
    I2c.key i k key = lookup i k ((angulars key).flatMap shellLabels) := by
  cases key with
  | int l => simp [I2c.key, angulars, i2c_shell_eq i k hk]
  | tup ls => exact foldlM_lookup i _ _ (fun k hk l => i2c_shell_eq i k hk l) ls k hk

theorem i2c_baths_step (i k : ℤ) (hk : k ≤ i) (p : LKey × ℕ) :
    (if i - k < p.2 then (.error (Label.bath p.1 (i - k)) : Loop Label ℤ) else .ok (k + p.2))
      = lookup i k (bathLabelsOf p) := by
  rw [lookup_eq i k hk]
  by_cases h : i - k < p.2
  · rw [if_pos h]
    have : (i - k).toNat < p.2 := by omega
    simp [bathLabelsOf, this]
    omega
  · rw [if_neg h]
    have : ¬ (i - k).toNat < p.2 := by omega
    simp [bathLabelsOf, this]

theorem i2c_eq (d : NBaths) (i : ℕ) :
    i2c d i = match (labels d)[i]? with
      | some x => .ok x
      | none => .error .exception := by
  have hk : (0 : ℤ) ≤ (i : ℤ) := by omega
  have h1 : (Dict.keys d).foldlM (I2c.key i) 0 = lookup i 0 (impLabels d) := by
    have : impLabels d = (Dict.keys d).flatMap fun k => (angulars k).flatMap shellLabels := by
      simp [impLabels, allAngulars, Dict.keys, List.flatMap_assoc, List.flatMap_map]
    rw [this]
    exact foldlM_lookup _ _ _ (fun k hk key => i2c_key_eq _ k hk key) _ _ hk
  have h2 : (do let k ← (Dict.keys d).foldlM (I2c.key i) 0
                I2c.baths i k d : Loop Label ℤ) = lookup i 0 (labels d) := by
    rw [labels, lookup_append, h1]
    cases h : lookup (i : ℤ) 0 (impLabels d) with
    | error e => rfl
    | ok k =>
      exact foldlM_lookup _ _ _ (fun k hk p => i2c_baths_step _ k hk p) _ _ (lookup_ok_le hk h)
  rw [i2c, h2, lookup_eq _ _ hk]
  simp only [sub_zero, Int.toNat_natCast]
  cases (labels d)[i]? <;> rfl

/-! ### Positions -/

theorem shellLabels_idx (l : ℕ) (s m : ℤ) (hs : 0 ≤ s) (hs2 : s < 2) (h1 : -(l : ℤ) ≤ m) (h2 : m ≤ l) :
    (shellLabels l)[s.toNat * (2 * l + 1) + (m + l).toNat]? = some (Label.imp l s m) := by
  have hr : pyRange 0 2 = [0, 1] := by decide
  have hlen : (pyRange (-l) (l + 1)).length = 2 * l + 1 := by rw [length_pyRange]; omega
  have hm : (pyRange (-(l : ℤ)) (l + 1))[(m + l).toNat]? = some m := by
    have : (m + l).toNat < (l + 1 - -(l : ℤ)).toNat := by omega
    rw [pyRange, List.getElem?_map, List.getElem?_range this]
    simp only [Option.map_some, Option.some.injEq]
    omega
  have hlt : (m + l).toNat < 2 * l + 1 := by omega
  rw [shellLabels, hr]
  obtain rfl | rfl : s = 0 ∨ s = 1 := by omega
  · simp only [List.flatMap_cons, List.flatMap_nil, List.append_nil, Int.toNat_zero, zero_mul, zero_add]
    rw [List.getElem?_append_left (by simp only [List.length_map, hlen]; exact hlt)]
    rw [List.getElem?_map, hm]; rfl
  · simp only [List.flatMap_cons, List.flatMap_nil, List.append_nil, Int.toNat_one, one_mul]
    rw [List.getElem?_append_right (by simp only [List.length_map, hlen]; omega)]
    simp only [List.length_map, hlen, Nat.add_sub_cancel_left]
    rw [List.getElem?_map, hm]; rfl

theorem flatMap_getElem? {α β : Type*} [DecidableEq α] (f : α → List β) (L : List α) (p : α → Bool)
    (x : α) (hx : p x = false) (hp : ∀ y ∈ L, p y = false → y = x) (hm : x ∈ L) (j : ℕ)
    (hj : j < (f x).length) :
    (L.flatMap f)[((L.takeWhile p).map fun y => (f y).length).sum + j]? = (f x)[j]? := by
  induction L with
  | nil => simp at hm
  | cons y L ih =>
    by_cases h : p y = false
    · obtain rfl := hp y List.mem_cons_self h
      rw [List.takeWhile_cons, hx, List.flatMap_cons]
      simp only [Bool.false_eq_true, if_false, List.map_nil, List.sum_nil, zero_add]
      rw [List.getElem?_append_left hj]
    · have h' : p y = true := by simpa using h
      have hxy : x ≠ y := by rintro rfl; exact h hx
      rw [List.takeWhile_cons, h', List.flatMap_cons]
      simp only [if_true, List.map_cons, List.sum_cons]
      rw [List.getElem?_append_right (by omega)]
      rw [← ih (fun z hz => hp z (List.mem_cons_of_mem _ hz)) (by simpa [hxy] using hm)]
      congr 1; omega

theorem labels_imp {d : NBaths} {l : ℕ} (hl : l ∈ allAngulars d) {s m : ℤ} (hs : 0 ≤ s) (hs2 : s < 2)
    (h1 : -(l : ℤ) ≤ m) (h2 : m ≤ l) :
    (labels d)[impStart d l + (s.toNat * (2 * l + 1) + (m + l).toNat)]? = some (Label.imp l s m) := by
  have hidx := shellLabels_idx l s m hs hs2 h1 h2
  have hlt := (List.getElem?_eq_some_iff.1 hidx).1
  have := flatMap_getElem? shellLabels (allAngulars d) (fun x => decide (x ≠ l)) l (by simp)
    (fun y _ h => by simpa using h) hl _ hlt
  rw [hidx] at this
  simp only [length_shellLabels] at this
  have hb := (List.getElem?_eq_some_iff.1 this).1
  exact (List.getElem?_append_left (l₁ := impLabels d) hb).trans this

theorem labels_bath {d : NBaths} (hd : Dict.NodupKeys d) {lp : LKey} {nb : ℕ} (hl : (lp, nb) ∈ d) {b : ℤ}
    (hb : 0 ≤ b) (hb2 : b < nb) :
    (labels d)[bathStart d lp + b.toNat]? = some (Label.bath lp b) := by
  have hlt : b.toNat < (bathLabelsOf (lp, nb)).length := by simp [bathLabelsOf]; omega
  have := flatMap_getElem? bathLabelsOf d (fun x => decide (x.1 ≠ lp)) (lp, nb) (by simp)
    (fun y hy h => by
      have hk : y.1 = lp := by simpa using h
      have h1 := Dict.get?_of_mem hd hl
      have h2 := Dict.get?_of_mem (k := y.1) (v := y.2) hd hy
      rw [hk, h1] at h2
      exact Prod.ext hk (by simpa using h2.symm)) hl _ hlt
  have e : (bathLabelsOf (lp, nb))[b.toNat]? = some (Label.bath lp b) := by
    have : b.toNat < nb := by omega
    simp [bathLabelsOf, this]; omega
  rw [e] at this
  have hlen : ∀ y : LKey × ℕ, (bathLabelsOf y).length = y.2 := fun y => by simp [bathLabelsOf]
  simp only [hlen] at this
  rw [labels, List.getElem?_append_right (by rw [length_impLabels, bathStart]; omega), length_impLabels]
  rw [← this, bathLabels, bathStart, Nat.add_assoc, Nat.add_sub_cancel_left]

theorem c2i_of_getElem? {d : NBaths} (h : GoodSystem d) {i : ℕ} {lab : Label}
    (hi : (labels d)[i]? = some lab) : c2i d lab = .ok i := by
  obtain ⟨hlt, e⟩ := List.getElem?_eq_some_iff.1 hi
  rw [c2i_eq, if_pos (e ▸ List.getElem_mem hlt), ← e, (nodup_labels h).idxOf_getElem]

end Verif

namespace Verif

/-! ### Negative indices -/

theorem i2c_shell_neg (i k : ℤ) (hk : i < k) (l : ℕ) : ∃ k', i < k' ∧ I2c.shell i k l = .ok k' := by
  rw [I2c.shell, i2c_shell_loop, if_pos (by omega), lookup_lt i k hk]
  exact ⟨_, by rw [length_shellLabels]; push_cast; omega, rfl⟩

theorem foldlM_neg {α : Type*} (i : ℤ) (g : ℤ → α → Loop Label ℤ)
    (hg : ∀ k, i < k → ∀ x, ∃ k', i < k' ∧ g k x = .ok k') (L : List α) (k : ℤ) (hk : i < k) :
    ∃ k', i < k' ∧ L.foldlM g k = .ok k' := by
  induction L generalizing k with
  | nil => exact ⟨k, hk, rfl⟩
  | cons x L ih =>
    obtain ⟨k', h1, h2⟩ := hg k hk x
    rw [List.foldlM_cons, h2]
    exact ih k' h1

theorem i2c_neg (lp : LKey) (nb : ℕ) (d : NBaths) (i : ℤ) (hi : i < 0) :
    ∃ b < 0, i2c ((lp, nb) :: d) i = .ok (.bath lp b) := by
  obtain ⟨k, hk, h⟩ := foldlM_neg i (I2c.key i) (fun k hk key => by
    cases key with
    | int l => exact i2c_shell_neg i k hk l
    | tup ls => exact foldlM_neg i _ (fun k hk l => i2c_shell_neg i k hk l) ls k hk)
    (Dict.keys ((lp, nb) :: d)) 0 hi
  refine ⟨i - k, by omega, ?_⟩
  rw [i2c, h]
  simp only [I2c.baths, List.foldlM_cons, bind, Except.bind]
  rw [if_pos (by omega)]

end Verif
