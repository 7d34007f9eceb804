/-
Helper lemmas for `get_basis`.
-/
import Verif.Lemmas.Index
import Verif.Lemmas.Loops
import Verif.Lemmas.Psr
import Verif.Model.GetBasis
import Verif.Spec.GetBasis

set_option linter.unusedSectionVars false
set_option linter.unusedSimpArgs false

namespace Verif

open Spec Psr Finset

/-! ### itertools -/

theorem mem_combinations {α : Type*} (L : List α) (r : ℕ) (t : List α) :
    t ∈ combinations L r ↔ t.Sublist L ∧ t.length = r := by
  induction L generalizing r t with
  | nil =>
    cases r with
    | zero => simp [combinations]
    | succ r =>
      simp only [combinations, List.not_mem_nil, List.sublist_nil, false_iff, not_and]
      rintro rfl; simp
  | cons x L ih =>
    cases r with
    | zero =>
      simp only [combinations, List.mem_singleton, List.length_eq_zero_iff]
      constructor
      · rintro rfl; simp
      · exact fun h => h.2
    | succ r =>
      simp only [combinations, List.mem_append, List.mem_map, ih]
      constructor
      · rintro (⟨t', ⟨h1, h2⟩, rfl⟩ | ⟨h1, h2⟩)
        · exact ⟨h1.cons_cons x, by simp [h2]⟩
        · exact ⟨h1.cons x, h2⟩
      · rintro ⟨h1, h2⟩
        cases h1 with
        | cons _ h => exact Or.inr ⟨h, h2⟩
        | cons_cons _ h => exact Or.inl ⟨_, ⟨h, by simpa using h2⟩, rfl⟩

theorem nodup_combinations {α : Type*} (L : List α) (hL : L.Nodup) (r : ℕ) :
    (combinations L r).Nodup := by
  induction L generalizing r with
  | nil => cases r <;> simp [combinations]
  | cons x L ih =>
    cases r with
    | zero => simp [combinations]
    | succ r =>
      rw [List.nodup_cons] at hL
      simp only [combinations]
      rw [List.nodup_append]
      refine ⟨(ih hL.2 r).map (fun a b h => by simpa using h), ih hL.2 (r + 1), ?_⟩
      intro t ht t' ht' e
      subst e
      rw [List.mem_map] at ht
      obtain ⟨t', _, rfl⟩ := ht
      rw [mem_combinations] at ht'
      exact hL.1 (ht'.1.subset (by simp))

theorem mem_pyProduct {α : Type*} (Ls : List (List α)) (c : List α) :
    c ∈ pyProduct Ls ↔ List.Forall₂ (· ∈ ·) c Ls := by
  induction Ls generalizing c with
  | nil => simp [pyProduct]
  | cons L Ls ih =>
    simp only [pyProduct, List.mem_flatMap, List.mem_map, ih, List.forall₂_cons_right_iff]
    constructor
    · rintro ⟨x, hx, c', hc, rfl⟩; exact ⟨x, c', hx, hc, rfl⟩
    · rintro ⟨x, c', hx, hc, rfl⟩; exact ⟨x, hx, c', hc, rfl⟩

theorem nodup_pyProduct {α : Type*} (Ls : List (List α)) (h : ∀ L ∈ Ls, L.Nodup) :
    (pyProduct Ls).Nodup := by
  induction Ls with
  | nil => simp [pyProduct]
  | cons L Ls ih =>
    rw [pyProduct, List.nodup_flatMap]
    refine ⟨fun x _ => (ih fun M hM => h M (by simp [hM])).map fun a b h => by simpa using h,
      (h L (by simp)).imp ?_⟩
    intro x y hxy t h1 h2
    simp only [List.mem_map] at h1 h2
    obtain ⟨a, _, rfl⟩ := h1
    obtain ⟨b, _, h⟩ := h2
    simp only [List.cons.injEq] at h
    exact hxy h.1.symm

/-! ### Sublists of a list without repetition -/

theorem sublist_eq_filter {G t : List ℕ} (hG : G.Nodup) (h : t.Sublist G) (p : ℕ → Bool)
    (hp : ∀ x ∈ G, p x = true ↔ x ∈ t) : t = G.filter p := by
  induction h with
  | slnil => rfl
  | @cons t G x h ih =>
    rw [List.nodup_cons] at hG
    have hx : x ∉ t := fun hm => hG.1 (h.subset hm)
    have : p x = false := by
      rw [← Bool.not_eq_true, hp x (by simp)]; exact hx
    rw [List.filter_cons, this]
    exact ih hG.2 fun y hy => hp y (by simp [hy])
  | @cons_cons t G x h ih =>
    rw [List.nodup_cons] at hG
    have : p x = true := (hp x (by simp)).2 (by simp)
    rw [List.filter_cons, this]
    simp only [if_true, List.cons.injEq, true_and]
    refine ih hG.2 fun y hy => ?_
    rw [hp y (by simp [hy])]
    have : y ≠ x := by rintro rfl; exact hG.1 hy
    simp [this]

/-! ### Configurations of one partition -/

/-- The configurations of one partition occupation. -/
def partPure (I V C : List ℕ) (i v c : ℕ) : List (List ℕ) :=
  (combinations I i).flatMap fun a => (combinations V v).flatMap fun b =>
    (combinations C c).map fun d => a ++ b ++ d

theorem mem_partPure {I V C : List ℕ} {i v c : ℕ} {t : List ℕ} :
    t ∈ partPure I V C i v c ↔ ∃ a b d, (a.Sublist I ∧ a.length = i) ∧ (b.Sublist V ∧ b.length = v) ∧
      (d.Sublist C ∧ d.length = c) ∧ t = a ++ b ++ d := by
  simp only [partPure, List.mem_flatMap, List.mem_map, mem_combinations]
  constructor
  · rintro ⟨a, ha, b, hb, d, hd, rfl⟩; exact ⟨a, b, d, ha, hb, hd, rfl⟩
  · rintro ⟨a, b, d, ha, hb, hd, rfl⟩; exact ⟨a, ha, b, hb, d, hd, rfl⟩

theorem partPure_sublist {I V C : List ℕ} {i v c : ℕ} {t : List ℕ} (h : t ∈ partPure I V C i v c) :
    t.Sublist (I ++ V ++ C) := by
  obtain ⟨a, b, d, ha, hb, hd, rfl⟩ := mem_partPure.1 h
  exact (ha.1.append hb.1).append hd.1

theorem card_inter_of_mem {X a rest : List ℕ} (hX : X.Nodup) (ha : a.Sublist X)
    (hr : ∀ x ∈ rest, x ∉ X) (S : Finset ℕ) (hS : ∀ x, x ∈ S ↔ x ∈ a ∨ x ∈ rest) :
    (S ∩ X.toFinset).card = a.length := by
  have : S ∩ X.toFinset = a.toFinset := by
    ext x
    simp only [mem_inter, hS, List.mem_toFinset]
    constructor
    · rintro ⟨h | h, hx⟩
      · exact h
      · exact absurd hx (hr x h)
    · exact fun h => ⟨Or.inl h, ha.subset h⟩
  rw [this, List.toFinset_card_of_nodup (ha.nodup hX)]

theorem partPure_card {I V C : List ℕ} {i v c : ℕ} {t : List ℕ} (hG : (I ++ V ++ C).Nodup)
    (h : t ∈ partPure I V C i v c) (S : Finset ℕ) (hS : ∀ x ∈ I ++ V ++ C, x ∈ S ↔ x ∈ t) :
    (S ∩ I.toFinset).card = i ∧ (S ∩ V.toFinset).card = v ∧ (S ∩ C.toFinset).card = c := by
  obtain ⟨a, b, d, ⟨ha, rfl⟩, ⟨hb, rfl⟩, ⟨hd, rfl⟩, rfl⟩ := mem_partPure.1 h
  rw [List.nodup_append, List.nodup_append] at hG
  obtain ⟨⟨hI, hV, hIV⟩, hC, hIVC⟩ := hG
  have key : ∀ X : List ℕ, (∀ x ∈ X, x ∈ I ++ V ++ C) →
      S ∩ X.toFinset = (a ++ b ++ d).toFinset ∩ X.toFinset := by
    intro X hX
    ext x
    simp only [mem_inter, List.mem_toFinset, and_congr_left_iff]
    exact fun hx => hS x (hX x hx)
  refine ⟨?_, ?_, ?_⟩
  · rw [key I (by simp +contextual)]
    refine card_inter_of_mem hI ha (rest := b ++ d) ?_ _ (fun x => by simp)
    intro x hx hI
    rcases List.mem_append.1 hx with hx | hx
    · exact hIV x hI x (hb.subset hx) rfl
    · exact hIVC x (by simp [hI]) x (hd.subset hx) rfl
  · rw [key V (by simp +contextual)]
    refine card_inter_of_mem hV hb (rest := a ++ d) ?_ _ (fun x => by simp; tauto)
    intro x hx hV
    rcases List.mem_append.1 hx with hx | hx
    · exact hIV x (ha.subset hx) x hV rfl
    · exact hIVC x (by simp [hV]) x (hd.subset hx) rfl
  · rw [key C (by simp +contextual)]
    refine card_inter_of_mem hC hd (rest := a ++ b) ?_ _ (fun x => by simp; tauto)
    intro x hx hC
    rcases List.mem_append.1 hx with hx | hx
    · exact hIVC x (by simp [ha.subset hx]) x hC rfl
    · exact hIVC x (by simp [hb.subset hx]) x hC rfl

theorem filter_length_card {X : List ℕ} (hX : X.Nodup) (S : Finset ℕ) :
    (X.filter (· ∈ S)).length = (S ∩ X.toFinset).card := by
  rw [← List.toFinset_card_of_nodup (hX.filter _)]
  congr 1
  ext x; simp [and_comm]

theorem filter_mem_partPure {I V C : List ℕ} {i v c : ℕ} (hG : (I ++ V ++ C).Nodup) (S : Finset ℕ)
    (hi : (S ∩ I.toFinset).card = i) (hv : (S ∩ V.toFinset).card = v)
    (hc : (S ∩ C.toFinset).card = c) : (I ++ V ++ C).filter (· ∈ S) ∈ partPure I V C i v c := by
  rw [List.nodup_append, List.nodup_append] at hG
  obtain ⟨⟨hI, hV, _⟩, hC, _⟩ := hG
  rw [mem_partPure]
  refine ⟨I.filter (· ∈ S), V.filter (· ∈ S), C.filter (· ∈ S), ⟨List.filter_sublist, ?_⟩,
    ⟨List.filter_sublist, ?_⟩, ⟨List.filter_sublist, ?_⟩, by simp⟩
  · rw [filter_length_card hI, hi]
  · rw [filter_length_card hV, hv]
  · rw [filter_length_card hC, hc]

theorem nodup_partPure {I V C : List ℕ} (hG : (I ++ V ++ C).Nodup) (i v c : ℕ) :
    (partPure I V C i v c).Nodup := by
  rw [List.nodup_append, List.nodup_append] at hG
  obtain ⟨⟨hI, hV, _⟩, hC, _⟩ := hG
  rw [partPure, List.nodup_flatMap]
  constructor
  · intro a _
    rw [List.nodup_flatMap]
    constructor
    · intro b _
      exact (nodup_combinations C hC c).map fun x y h => by simpa using h
    · refine (nodup_combinations V hV v).imp_of_mem ?_
      intro b b' hb hb' hne t h1 h2
      simp only [List.mem_map] at h1 h2
      obtain ⟨d, _, rfl⟩ := h1
      obtain ⟨d', _, h⟩ := h2
      rw [mem_combinations] at hb hb'
      rw [List.append_assoc, List.append_assoc] at h
      have := List.append_inj_left (List.append_cancel_left h) (by rw [hb.2, hb'.2])
      exact hne this.symm
  · refine (nodup_combinations I hI i).imp_of_mem ?_
    intro a a' ha ha' hne t h1 h2
    simp only [List.mem_flatMap, List.mem_map] at h1 h2
    obtain ⟨b, _, d, _, rfl⟩ := h1
    obtain ⟨b', _, d', _, h⟩ := h2
    rw [mem_combinations] at ha ha'
    rw [List.append_assoc, List.append_assoc] at h
    exact hne (List.append_inj_left h (by rw [ha.2, ha'.2])).symm

/-! ### Positions of the spin-orbitals -/

theorem labels_shell {d : NBaths} {l : ℕ} (hl : l ∈ allAngulars d) {j : ℕ} (hj : j < 2 * (2 * l + 1)) :
    (labels d)[impStart d l + j]? = (shellLabels l)[j]? := by
  have hlt : j < (shellLabels l).length := by rwa [length_shellLabels]
  have := flatMap_getElem? shellLabels (allAngulars d) (fun x => decide (x ≠ l)) l (by simp)
    (fun y _ h => by simpa using h) hl _ hlt
  simp only [length_shellLabels] at this
  have hb := (List.getElem?_eq_some_iff.1 (this.trans (List.getElem?_eq_getElem hlt))).1
  exact (List.getElem?_append_left (l₁ := impLabels d) hb).trans this

theorem mapM_c2i {d : NBaths} (h : GoodSystem d) (a : ℕ) (L : List Label)
    (hL : ∀ j, j < L.length → (labels d)[a + j]? = L[j]?) :
    L.mapM (c2i d) = .ok (List.range' a L.length) := by
  induction L generalizing a with
  | nil => rfl
  | cons x L ih =>
    have h0 := hL 0 (by simp)
    simp only [add_zero, List.length_cons, List.getElem?_cons_zero] at h0
    rw [List.mapM_cons, c2i_of_getElem? h h0, ih (a + 1) (fun j hj => by
      have := hL (j + 1) (by simpa using hj)
      rw [List.getElem?_cons_succ] at this
      rw [← this]; congr 1; omega)]
    rfl

section system

variable {nBaths : Dict ℕ ℕ} (hn : Dict.NodupKeys nBaths)

theorem allAngulars_intKeys (nBaths : Dict ℕ ℕ) : allAngulars (intKeys nBaths) = Dict.keys nBaths := by
  simp [allAngulars, intKeys, Dict.keys, List.flatMap_map, angulars]
  induction nBaths with
  | nil => rfl
  | cons p d ih => simp [List.flatMap_cons, ih]

include hn in
theorem goodSystem_intKeys : GoodSystem (intKeys nBaths) := by
  refine ⟨?_, by rw [allAngulars_intKeys]; exact hn⟩
  unfold Dict.NodupKeys Dict.keys intKeys at *
  rw [List.map_map]
  have : (Prod.fst ∘ fun p : ℕ × ℕ => (LKey.int p.1, p.2)) = LKey.int ∘ Prod.fst := rfl
  rw [this, ← List.map_map]
  exact hn.map fun a b h => by simpa using h

theorem nTotal_intKeys (nBaths : Dict ℕ ℕ) :
    (nBaths.map fun p => 2 * (2 * p.1 + 1) + p.2).sum = nTotal (intKeys nBaths) := by
  rw [nTotal, nImpurity, allAngulars_intKeys, shellsSize, nBath, Dict.keys, intKeys, List.map_map,
    List.map_map]
  induction nBaths with
  | nil => rfl
  | cons p d ih => simp at ih ⊢; omega

/-- The impurity, valence and conduction indices of `l`. -/
def impIdx (sys : NBaths) (l : ℕ) : List ℕ := List.range' (impStart sys l) (2 * (2 * l + 1))
def valIdx (sys : NBaths) (l : ℕ) (v : ℤ) : List ℕ := List.range' (bathStart sys (.int l)) v.toNat
def conIdx (sys : NBaths) (l nb : ℕ) (v : ℤ) : List ℕ :=
  List.range' (bathStart sys (.int l) + v.toNat) (nb - v.toNat)
def groupIdx (sys : NBaths) (l nb : ℕ) (v : ℤ) : List ℕ :=
  impIdx sys l ++ valIdx sys l v ++ conIdx sys l nb v

theorem impIdx_toFinset (sys : NBaths) (l : ℕ) : (impIdx sys l).toFinset = impOrbs sys l := by
  ext x; simp [impIdx, impOrbs, List.mem_range'_1]

theorem valIdx_toFinset (sys : NBaths) (l : ℕ) (v : ℤ) :
    (valIdx sys l v).toFinset = valOrbs sys l v := by
  ext x; simp [valIdx, valOrbs, List.mem_range'_1]

theorem conIdx_toFinset (sys : NBaths) (l nb : ℕ) (v : ℤ) :
    (conIdx sys l nb v).toFinset = conOrbs sys l nb v := by
  ext x; simp [conIdx, conOrbs, List.mem_range'_1]; omega

theorem mem_groupIdx (sys : NBaths) (l nb : ℕ) (v : ℤ) (hv : v ≤ nb) (x : ℕ) :
    x ∈ groupIdx sys l nb v ↔
      (impStart sys l ≤ x ∧ x < impStart sys l + 2 * (2 * l + 1)) ∨
      (bathStart sys (.int l) ≤ x ∧ x < bathStart sys (.int l) + nb) := by
  simp only [groupIdx, impIdx, valIdx, conIdx, List.mem_append, List.mem_range'_1]
  omega

theorem mem_allAngulars {l nb : ℕ} (hl : (l, nb) ∈ nBaths) : l ∈ allAngulars (intKeys nBaths) := by
  rw [allAngulars_intKeys]; exact List.mem_map.2 ⟨_, hl, rfl⟩

theorem mem_intKeys {l nb : ℕ} (hl : (l, nb) ∈ nBaths) : (LKey.int l, nb) ∈ intKeys nBaths :=
  List.mem_map.2 ⟨_, hl, rfl⟩

/-- The angular momentum a label belongs to. -/
def Label.ang : Label → LKey
  | .imp l _ _ => .int l
  | .bath lp _ => lp

include hn in
/-- An index is in the group of `l` iff its label belongs to `l`. -/
theorem mem_groupIdx_iff {l nb : ℕ} (hl : (l, nb) ∈ nBaths) {v : ℤ} (hv : v ≤ nb) (x : ℕ) :
    x ∈ groupIdx (intKeys nBaths) l nb v ↔ ∃ lab, (labels (intKeys nBaths))[x]? = some lab ∧
      lab.ang = .int l := by
  have hg := goodSystem_intKeys hn
  have inj : ∀ {i j : ℕ} {lab : Label}, (labels (intKeys nBaths))[i]? = some lab →
      (labels (intKeys nBaths))[j]? = some lab → i = j := by
    intro i j lab h1 h2
    have e1 := c2i_of_getElem? hg h1
    rw [c2i_of_getElem? hg h2] at e1
    simpa using e1.symm
  rw [mem_groupIdx _ _ _ _ hv]
  constructor
  · rintro (⟨h1, h2⟩ | ⟨h1, h2⟩)
    · have := labels_shell (mem_allAngulars hl) (j := x - impStart (intKeys nBaths) l) (by omega)
      rw [Nat.add_sub_cancel' h1] at this
      have hlt : x - impStart (intKeys nBaths) l < (shellLabels l).length := by
        rw [length_shellLabels]; omega
      rw [List.getElem?_eq_getElem hlt] at this
      refine ⟨_, this, ?_⟩
      have hm := List.getElem_mem hlt
      generalize (shellLabels l)[x - impStart (intKeys nBaths) l] = y at hm
      simp only [shellLabels, List.mem_flatMap, List.mem_map] at hm
      obtain ⟨s, _, m, _, rfl⟩ := hm
      rfl
    · have := labels_bath hg.keys (mem_intKeys hl) (b := ((x - bathStart (intKeys nBaths) (.int l) : ℕ) : ℤ))
        (by omega) (by omega)
      rw [Int.toNat_natCast, Nat.add_sub_cancel' h1] at this
      exact ⟨_, this, rfl⟩
  · rintro ⟨lab, hx, ha⟩
    have hm : InSystem (intKeys nBaths) lab := (mem_labels _ _).1 (List.mem_of_getElem? hx)
    cases lab with
    | imp l' s m =>
      simp only [Label.ang, LKey.int.injEq] at ha
      subst ha
      obtain ⟨h0, h1, h2, h3, h4⟩ := hm
      have := inj (labels_imp h0 h1 h2 h3 h4) hx
      have hs : s.toNat = 0 ∨ s.toNat = 1 := by omega
      left
      rcases hs with hs | hs <;> rw [hs] at this <;> omega
    | bath lp b =>
      simp only [Label.ang] at ha
      subst ha
      obtain ⟨nb', h0, h1, h2⟩ := hm
      have := inj (labels_bath hg.keys h0 h1 h2) hx
      obtain ⟨p, hp, e⟩ := List.mem_map.1 h0
      simp only [Prod.mk.injEq, LKey.int.injEq] at e
      have e1 := Dict.get?_of_mem hn (k := p.1) (v := p.2) hp
      have e2 := Dict.get?_of_mem hn hl
      rw [e.1, e2] at e1
      simp only [Option.some.injEq] at e1
      right
      omega

include hn in
theorem group_disjoint {l nb l' nb' : ℕ} (hl : (l, nb) ∈ nBaths) (hl' : (l', nb') ∈ nBaths) {v v' : ℤ}
    (hv : v ≤ nb) (hv' : v' ≤ nb') {x : ℕ} (h : x ∈ groupIdx (intKeys nBaths) l nb v)
    (h' : x ∈ groupIdx (intKeys nBaths) l' nb' v') : l = l' := by
  rw [mem_groupIdx_iff hn hl hv] at h
  rw [mem_groupIdx_iff hn hl' hv'] at h'
  obtain ⟨lab, h1, h2⟩ := h
  obtain ⟨lab', h1', h2'⟩ := h'
  rw [h1] at h1'
  cases h1'
  rw [h2] at h2'
  simpa using h2'

include hn in
theorem group_cover {x : ℕ} (hx : x < nTotal (intKeys nBaths)) :
    ∃ p ∈ nBaths, ∀ v : ℤ, v ≤ p.2 → x ∈ groupIdx (intKeys nBaths) p.1 p.2 v := by
  rw [← length_labels] at hx
  have hm := (mem_labels _ _).1 (List.getElem_mem hx)
  have hx' := List.getElem?_eq_getElem hx
  generalize (labels (intKeys nBaths))[x] = lab at hm hx'
  cases lab with
  | imp l s m =>
    have := hm.1
    rw [allAngulars_intKeys] at this
    obtain ⟨p, hp, rfl⟩ := List.mem_map.1 this
    exact ⟨p, hp, fun v hv => (mem_groupIdx_iff hn hp hv x).2 ⟨_, hx', rfl⟩⟩
  | bath lp b =>
    obtain ⟨nb, h0, _⟩ := hm
    obtain ⟨p, hp, e⟩ := List.mem_map.1 h0
    refine ⟨p, hp, fun v hv => (mem_groupIdx_iff hn hp hv x).2 ⟨_, hx', ?_⟩⟩
    simp only [Prod.mk.injEq] at e
    exact e.1.symm

include hn in
theorem group_lt {l nb : ℕ} (hl : (l, nb) ∈ nBaths) {v : ℤ} (hv : v ≤ nb) {x : ℕ}
    (h : x ∈ groupIdx (intKeys nBaths) l nb v) : x < nTotal (intKeys nBaths) := by
  rw [mem_groupIdx_iff hn hl hv] at h
  obtain ⟨lab, h, _⟩ := h
  rw [← length_labels]
  exact (List.getElem?_eq_some_iff.1 h).1

theorem impStart_bound {l nb : ℕ} (hl : (l, nb) ∈ nBaths) :
    impStart (intKeys nBaths) l + 2 * (2 * l + 1) ≤ nImpurity (intKeys nBaths) := by
  have hm := mem_allAngulars hl
  have : ∀ L : List ℕ, l ∈ L → shellsSize (L.takeWhile (· ≠ l)) + 2 * (2 * l + 1) ≤ shellsSize L := by
    intro L hL
    induction L with
    | nil => simp at hL
    | cons y L ih =>
      by_cases h : y = l
      · subst h; simp [shellsSize]
      · have := ih (by simpa [Ne.symm h] using hL)
        rw [List.takeWhile_cons]
        simp only [shellsSize, h, ne_eq, not_false_eq_true, decide_true, if_true, List.map_cons,
          List.sum_cons] at this ⊢
        omega
  exact this _ hm

theorem nodup_groupIdx {l nb : ℕ} (hl : (l, nb) ∈ nBaths) (v : ℤ) :
    (groupIdx (intKeys nBaths) l nb v).Nodup := by
  have h1 := impStart_bound hl
  have h2 : nImpurity (intKeys nBaths) ≤ bathStart (intKeys nBaths) (.int l) := by
    rw [bathStart]; omega
  rw [groupIdx, List.nodup_append, List.nodup_append]
  refine ⟨⟨List.nodup_range', List.nodup_range', ?_⟩, List.nodup_range', ?_⟩
  · intro a ha b hb
    simp only [impIdx, valIdx, List.mem_range'_1] at ha hb
    omega
  · intro a ha b hb
    simp only [impIdx, valIdx, conIdx, List.mem_append, List.mem_range'_1] at ha hb
    omega

end system

end Verif
