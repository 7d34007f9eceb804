/-
Helper lemmas for the operators of a shell.
-/
import Verif.Model.Operators
import Verif.Spec.Shell
import Verif.Lemmas.Operators
import Verif.Lemmas.Index
import Verif.Lemmas.Fock
import Verif.Lemmas.Loops

set_option linter.unusedSectionVars false
set_option linter.unusedSimpArgs false

namespace Verif

open Spec Finset

/-! ### Dicts -/

section
variable {κ ν α : Type*} [DecidableEq κ]

theorem Dict.update_nil_of_nodup (L : Dict κ ν) (h : Dict.NodupKeys L) : Dict.update [] L = L := by
  have := Dict.foldl_set_fresh L Prod.fst Prod.snd h [] (by simp)
  simpa [Dict.update] using this

theorem Dict.update_of_nodup (d L : Dict κ ν) (h : Dict.NodupKeys (d ++ L)) : Dict.update d L = d ++ L := by
  unfold Dict.NodupKeys at h
  rw [Dict.keys_append, List.nodup_append] at h
  have := Dict.foldl_set_fresh L Prod.fst Prod.snd h.2.1 d
    (fun x hx hc => h.2.2 _ hc _ (List.mem_map.2 ⟨x, hx, rfl⟩) rfl)
  simpa [Dict.update] using this

theorem nodupKeys_flatMap (L : List α) (hL : L.Nodup) (f : α → Dict κ ν) (π : κ → α)
    (h : ∀ x ∈ L, ∀ q ∈ f x, π q.1 = x) (h2 : ∀ x ∈ L, Dict.NodupKeys (f x)) :
    Dict.NodupKeys (L.flatMap f) := by
  unfold Dict.NodupKeys Dict.keys at *
  rw [List.map_flatMap, List.nodup_flatMap]
  refine ⟨h2, hL.imp_of_mem ?_⟩
  intro x y hx hy hne k h1 h2
  obtain ⟨q, hq, rfl⟩ := List.mem_map.1 h1
  obtain ⟨q', hq', e⟩ := List.mem_map.1 h2
  exact hne (by rw [← h x hx q hq, ← h y hy q' hq', e])

theorem nodupKeys_singleton (k : κ) (v : ν) : Dict.NodupKeys [(k, v)] := by
  simp [Dict.NodupKeys]

theorem nodupKeys_nil : Dict.NodupKeys ([] : Dict κ ν) := by simp [Dict.NodupKeys]

theorem Dict.get?_eq_some_iff {d : Dict κ ν} (hd : Dict.NodupKeys d) (k : κ) (v : ν) :
    Dict.get? d k = some v ↔ (k, v) ∈ d :=
  ⟨Dict.mem_of_get?, Dict.get?_of_mem hd⟩

/-- A sum over a dict, rearranged as a sum over parameters of its keys. -/
theorem sum_dict_eq {R : Type*} [CommRing R] (d : Dict κ R) (hd : Dict.NodupKeys d) (F : κ → R)
    (T : Finset α) (g : α → κ) (hg : Set.InjOn g T) (hk : ∀ k ∈ Dict.keys d, ∃ a ∈ T, g a = k)
    (w : α → R) (hw : ∀ a ∈ T, (Dict.get? d (g a)).getD 0 * F (g a) = w a) :
    (d.map fun q => q.2 * F q.1).sum = ∑ a ∈ T, w a := by
  classical
  rw [← sum_congr rfl hw, ← sum_image (g := g) (f := fun k => (Dict.get? d k).getD 0 * F k) hg]
  have h1 : (d.map fun q => q.2 * F q.1).sum = ∑ k ∈ (Dict.keys d).toFinset, (Dict.get? d k).getD 0 * F k := by
    rw [List.sum_toFinset _ hd, Dict.keys, List.map_map]
    congr 1
    apply List.map_congr_left
    intro q hq
    rw [Function.comp, Dict.get?_of_mem hd (k := q.1) (v := q.2) hq]
    rfl
  rw [h1]
  apply sum_subset
  · intro k hk'
    obtain ⟨a, ha, rfl⟩ := hk k (List.mem_toFinset.1 hk')
    exact mem_image_of_mem _ ha
  · intro k _ hk'
    rw [List.mem_toFinset, ← Dict.get?_eq_none_iff] at hk'
    rw [hk']; simp

end

/-! ### Adjoints of sums -/

section
variable {ι R : Type} [DecidableEq ι] [CommRing R] [StarRing R]

theorem get?_daggerOp (op : Op ι R) (hop : Dict.NodupKeys op) (p : Process ι) :
    Dict.get? (daggerOp op) p = (Dict.get? op (dagProcess p)).map star := by
  rw [daggerOp_eq op hop]
  conv_lhs => rw [← dagProcess_dagProcess p]
  generalize dagProcess p = q
  clear hop
  induction op with
  | nil => rfl
  | cons e op ih =>
    obtain ⟨k, v⟩ := e
    rw [List.map_cons, Dict.get?_cons, Dict.get?_cons, ih]
    simp only [dagProcess_injective.eq_iff]
    split <;> rfl

variable [DecidableEq R]

theorem eqv_of_getD_keys {κ : Type} [DecidableEq κ] {d e : Dict κ R} (h1 : ∀ k, (Dict.get? d k).getD 0 = (Dict.get? e k).getD 0)
    (h2 : ∀ k, k ∈ Dict.keys d ↔ k ∈ Dict.keys e) : Dict.Eqv d e := by
  intro k
  have a := h1 k
  have b := h2 k
  rw [Dict.mem_keys_iff, Dict.mem_keys_iff] at b
  cases hd : Dict.get? d k <;> cases he : Dict.get? e k <;> simp_all

/-- The adjoint of a sum is the sum of the adjoints. -/
theorem daggerOp_addOps (ops ops' : List (Op ι R)) (h : ∀ op ∈ ops, Dict.NodupKeys op)
    (h' : ∀ op ∈ ops', Dict.NodupKeys op)
    (hd : List.Forall₂ (fun op op' => Dict.Eqv (daggerOp op) op') ops ops') :
    Dict.Eqv (daggerOp (addOps ops)) (addOps ops') := by
  have key : ∀ p, List.Forall₂ (fun op op' => star ((Dict.get? op (dagProcess p)).getD 0)
      = (Dict.get? op' p).getD 0) ops ops' := by
    intro p
    rw [List.forall₂_iff_zip] at hd ⊢
    refine ⟨hd.1, fun {op op'} hz => ?_⟩
    have := hd.2 hz p
    rw [get?_daggerOp op (h op (List.of_mem_zip hz).1)] at this
    rw [← this]
    cases Dict.get? op (dagProcess p) <;> simp
  have hn := nodupKeys_addOps ops
  apply eqv_of_getD_keys
  · intro p
    rw [get?_daggerOp _ hn, (addOps_get? ops' h' p).1]
    have e : ((Dict.get? (addOps ops) (dagProcess p)).map star).getD 0
        = star ((Dict.get? (addOps ops) (dagProcess p)).getD 0) := by
      cases Dict.get? (addOps ops) (dagProcess p) <;> simp
    rw [e, (addOps_get? ops h (dagProcess p)).1]
    have := key p
    clear e h h' hd key hn
    induction this with
    | nil => simp
    | cons hab _ ih => simp [hab, ih]
  · intro p
    rw [Dict.mem_keys_iff, get?_daggerOp _ hn, Option.isSome_map, ← Dict.mem_keys_iff,
      (addOps_get? ops h (dagProcess p)).2, (addOps_get? ops' h' p).2]
    have := key p
    constructor
    · rintro ⟨op, ho, hne⟩
      obtain ⟨i, hi, rfl⟩ := List.getElem_of_mem ho
      rw [List.forall₂_iff_get] at this
      refine ⟨ops'[i]'(by rw [← this.1]; exact hi), List.getElem_mem _, ?_⟩
      have e := this.2 i hi (by rw [← this.1]; exact hi)
      simp only [List.get_eq_getElem] at e
      rw [← e]
      simpa using hne
    · rintro ⟨op, ho, hne⟩
      obtain ⟨i, hi, rfl⟩ := List.getElem_of_mem ho
      rw [List.forall₂_iff_get] at this
      refine ⟨ops[i]'(by rw [this.1]; exact hi), List.getElem_mem _, ?_⟩
      have e := this.2 i (by rw [this.1]; exact hi) hi
      simp only [List.get_eq_getElem] at e
      intro hz
      rw [hz] at e
      exact hne (by rw [← e]; simp)

theorem addOps_perm {ops ops' : List (Op ι R)} (hp : ops.Perm ops') (h : ∀ op ∈ ops, Dict.NodupKeys op) :
    Dict.Eqv (addOps ops) (addOps ops') := by
  have h' : ∀ op ∈ ops', Dict.NodupKeys op := fun op ho => h op (hp.mem_iff.2 ho)
  apply eqv_of_getD_keys
  · intro p
    rw [(addOps_get? ops h p).1, (addOps_get? ops' h' p).1]
    exact (hp.map _).sum_eq
  · intro p
    rw [(addOps_get? ops h p).2, (addOps_get? ops' h' p).2]
    simp only [hp.mem_iff]

theorem Dict.Eqv.trans' {κ ν : Type} [DecidableEq κ] {d e f : Dict κ ν} (h : Dict.Eqv d e)
    (h' : Dict.Eqv e f) : Dict.Eqv d f := fun k => (h k).trans (h' k)

end

/-! ### getUop -/

section
variable (gaunt : GauntFun)

variable {gaunt}

theorem gauntC_symm (h : GauntSymmetric gaunt) (k l : ℕ) (m : ℤ) (lp : ℕ) (mp : ℤ) :
    gauntC gaunt k lp mp l m = (-1) ^ (m - mp) * gauntC gaunt k l m lp mp := by
  unfold gauntC
  have e : gaunt lp k l (-mp) (mp - m) m = gaunt l k lp (-m) (m - mp) mp := by
    rw [h.swap l k lp, ← h.flip lp k l mp]
    simp
  rw [e]
  have h1 : ((-1 : ℝ) ^ (m - mp)) * (-1) ^ m = (-1) ^ mp := by
    rw [← zpow_add₀ (by norm_num : (-1 : ℝ) ≠ 0), show m - mp + m = mp + 2 * (m - mp) by ring,
      zpow_add₀ (by norm_num : (-1 : ℝ) ≠ 0), zpow_mul]
    norm_num
  rw [← h1]
  ring

theorem getU_symm (h : GauntSymmetric gaunt) (l1 : ℕ) (m1 : ℤ) (l2 : ℕ) (m2 : ℤ) (l3 : ℕ) (m3 : ℤ)
    (l4 : ℕ) (m4 : ℤ) (R : List ℝ) :
    getU gaunt l4 m4 l3 m3 l2 m2 l1 m1 R = getU gaunt l1 m1 l2 m2 l3 m3 l4 m4 R := by
  unfold getU
  by_cases hm : m1 + m2 = m3 + m4
  · rw [if_pos hm, if_pos (by omega)]
    congr 1
    funext u p
    rw [gauntC_symm h p.2 l1 m1 l4 m4, gauntC_symm h p.2 l3 m3 l2 m2]
    have e : ((-1 : ℝ) ^ (m1 - m4)) * (-1) ^ (m3 - m2) = 1 := by
      rw [← zpow_add₀ (by norm_num : (-1 : ℝ) ≠ 0), show m1 - m4 + (m3 - m2) = 2 * (m1 - m4) by omega,
        zpow_mul]
      norm_num
    calc u + p.1 * ((-1) ^ (m1 - m4) * gauntC gaunt p.2 l1 m1 l4 m4) *
          ((-1) ^ (m3 - m2) * gauntC gaunt p.2 l3 m3 l2 m2)
        = u + p.1 * gauntC gaunt p.2 l1 m1 l4 m4 * gauntC gaunt p.2 l3 m3 l2 m2 *
          ((-1 : ℝ) ^ (m1 - m4) * (-1) ^ (m3 - m2)) := by ring
      _ = _ := by rw [e, mul_one]
  · rw [if_neg hm, if_neg (by omega)]

variable (gaunt)
variable (l1 l2 l3 l4 : ℕ) (R : List ℝ)

/-- The assignments that `getUop` performs. -/
noncomputable def uList : Op Label ℂ :=
  (pyRange (-l1) (l1 + 1)).flatMap fun (m1 : ℤ) => (pyRange (-l2) (l2 + 1)).flatMap fun (m2 : ℤ) =>
    (pyRange (-l3) (l3 + 1)).flatMap fun (m3 : ℤ) => (pyRange (-l4) (l4 + 1)).flatMap fun (m4 : ℤ) =>
      let u := getU gaunt l1 m1 l2 m2 l3 m3 l4 m4 R
      if u ≠ 0 then
        (pyRange 0 2).flatMap fun (s : ℤ) => (pyRange 0 2).flatMap fun (sp : ℤ) =>
          if ¬ (s = sp ∧ ((l1, m1) = (l2, m2) ∨ (l3, m3) = (l4, m4))) then
            [(uProcess l1 l2 l3 l4 m1 m2 m3 m4 s sp, ((u / 2 : ℝ) : ℂ))]
          else []
      else []

def mAt (i : ℕ) (p : Process Label) : ℤ := match p[i]? with
  | some (.imp _ _ m, _) => m
  | _ => 0

def sAt (i : ℕ) (p : Process Label) : ℤ := match p[i]? with
  | some (.imp _ s _, _) => s
  | _ => 0

/-- The parameters and conditions of an entry of `getUop`. -/
def UEntry (q : Process Label × ℂ) (m1 m2 m3 m4 s sp : ℤ) : Prop :=
  (-(l1 : ℤ) ≤ m1 ∧ m1 ≤ l1) ∧ (-(l2 : ℤ) ≤ m2 ∧ m2 ≤ l2) ∧ (-(l3 : ℤ) ≤ m3 ∧ m3 ≤ l3) ∧
  (-(l4 : ℤ) ≤ m4 ∧ m4 ≤ l4) ∧ (0 ≤ s ∧ s < 2) ∧ (0 ≤ sp ∧ sp < 2) ∧
  getU gaunt l1 m1 l2 m2 l3 m3 l4 m4 R ≠ 0 ∧
  ¬ (s = sp ∧ ((l1, m1) = (l2, m2) ∨ (l3, m3) = (l4, m4))) ∧
  q = (uProcess l1 l2 l3 l4 m1 m2 m3 m4 s sp, ((getU gaunt l1 m1 l2 m2 l3 m3 l4 m4 R / 2 : ℝ) : ℂ))

theorem mem_uList (q : Process Label × ℂ) :
    q ∈ uList gaunt l1 l2 l3 l4 R ↔ ∃ m1 m2 m3 m4 s sp, UEntry gaunt l1 l2 l3 l4 R q m1 m2 m3 m4 s sp := by
  simp only [uList, List.mem_flatMap, mem_pyRange, UEntry]
  constructor
  · rintro ⟨m1, h1, m2, h2, m3, h3, m4, h4, h⟩
    split at h
    next hu =>
      simp only [List.mem_flatMap, mem_pyRange] at h
      obtain ⟨s, hs, sp, hsp, h⟩ := h
      split at h
      next hp =>
        exact ⟨m1, m2, m3, m4, s, sp, ⟨h1.1, by omega⟩, ⟨h2.1, by omega⟩, ⟨h3.1, by omega⟩,
          ⟨h4.1, by omega⟩, hs, hsp, hu, hp, List.mem_singleton.1 h⟩
      next => simp at h
    next => simp at h
  · rintro ⟨m1, m2, m3, m4, s, sp, h1, h2, h3, h4, hs, hsp, hu, hp, h⟩
    refine ⟨m1, ⟨h1.1, by omega⟩, m2, ⟨h2.1, by omega⟩, m3, ⟨h3.1, by omega⟩, m4, ⟨h4.1, by omega⟩, ?_⟩
    rw [if_pos hu]
    simp only [List.mem_flatMap, mem_pyRange]
    refine ⟨s, hs, sp, hsp, ?_⟩
    rw [if_pos hp, h]
    simp

theorem nodup_uList : Dict.NodupKeys (uList gaunt l1 l2 l3 l4 R) := by
  unfold uList
  refine nodupKeys_flatMap _ (nodup_pyRange _ _) _ (mAt 0) ?_ fun m1 _ =>
    nodupKeys_flatMap _ (nodup_pyRange _ _) _ (mAt 1) ?_ fun m2 _ =>
    nodupKeys_flatMap _ (nodup_pyRange _ _) _ (mAt 2) ?_ fun m3 _ =>
    nodupKeys_flatMap _ (nodup_pyRange _ _) _ (mAt 3) ?_ fun m4 _ => ?_
  · intro m1 _ q hq
    simp only [List.mem_flatMap] at hq
    obtain ⟨m2, _, m3, _, m4, _, hq⟩ := hq
    split at hq
    · simp only [List.mem_flatMap] at hq
      obtain ⟨s, _, sp, _, hq⟩ := hq
      split at hq
      · rw [List.mem_singleton.1 hq]; rfl
      · simp at hq
    · simp at hq
  · intro m2 _ q hq
    simp only [List.mem_flatMap] at hq
    obtain ⟨m3, _, m4, _, hq⟩ := hq
    split at hq
    · simp only [List.mem_flatMap] at hq
      obtain ⟨s, _, sp, _, hq⟩ := hq
      split at hq
      · rw [List.mem_singleton.1 hq]; rfl
      · simp at hq
    · simp at hq
  · intro m3 _ q hq
    simp only [List.mem_flatMap] at hq
    obtain ⟨m4, _, hq⟩ := hq
    split at hq
    · simp only [List.mem_flatMap] at hq
      obtain ⟨s, _, sp, _, hq⟩ := hq
      split at hq
      · rw [List.mem_singleton.1 hq]; rfl
      · simp at hq
    · simp at hq
  · intro m4 _ q hq
    dsimp only at hq
    split at hq
    · simp only [List.mem_flatMap] at hq
      obtain ⟨s, _, sp, _, hq⟩ := hq
      split at hq
      · rw [List.mem_singleton.1 hq]; rfl
      · simp at hq
    · simp at hq
  · dsimp only
    split
    · refine nodupKeys_flatMap _ (nodup_pyRange _ _) _ (sAt 0) ?_ fun s _ =>
        nodupKeys_flatMap _ (nodup_pyRange _ _) _ (sAt 1) ?_ fun sp _ => ?_
      · intro s _ q hq
        simp only [List.mem_flatMap] at hq
        obtain ⟨sp, _, hq⟩ := hq
        split at hq
        · rw [List.mem_singleton.1 hq]; rfl
        · simp at hq
      · intro sp _ q hq
        split at hq
        · rw [List.mem_singleton.1 hq]; rfl
        · simp at hq
      · split
        · exact nodupKeys_singleton _ _
        · exact nodupKeys_nil
    · exact nodupKeys_nil

theorem getUop_eq : getUop gaunt l1 l2 l3 l4 R = uList gaunt l1 l2 l3 l4 R :=
  Dict.update_nil_of_nodup _ (nodup_uList gaunt l1 l2 l3 l4 R)

theorem nodup_getUop : Dict.NodupKeys (getUop gaunt l1 l2 l3 l4 R) := by
  rw [getUop_eq]; exact nodup_uList gaunt l1 l2 l3 l4 R

theorem mem_getUop (q : Process Label × ℂ) :
    q ∈ getUop gaunt l1 l2 l3 l4 R ↔ ∃ m1 m2 m3 m4 s sp, UEntry gaunt l1 l2 l3 l4 R q m1 m2 m3 m4 s sp := by
  rw [getUop_eq]; exact mem_uList gaunt l1 l2 l3 l4 R q

/-- The assignments of `getNoSpinUop` have different keys. -/
theorem nodup_noSpinList : Dict.NodupKeys
    ((pyRange (-l1) (l1 + 1)).flatMap fun (m1 : ℤ) => (pyRange (-l2) (l2 + 1)).flatMap fun (m2 : ℤ) =>
    (pyRange (-l3) (l3 + 1)).flatMap fun (m3 : ℤ) => (pyRange (-l4) (l4 + 1)).flatMap fun (m4 : ℤ) =>
      let u := getU gaunt l1 m1 l2 m2 l3 m3 l4 m4 R
      if u ≠ 0 then [(((l1, m1), (l2, m2), (l3, m3), (l4, m4)), u / 2)] else []) := by
  have hm : ∀ m1 m2 m3 m4 : ℤ, ∀ q ∈ (if getU gaunt l1 m1 l2 m2 l3 m3 l4 m4 R ≠ 0 then
      [(((l1, m1), (l2, m2), (l3, m3), (l4, m4)), getU gaunt l1 m1 l2 m2 l3 m3 l4 m4 R / 2)] else []),
      q.1 = ((l1, m1), (l2, m2), (l3, m3), (l4, m4)) := by
    intro m1 m2 m3 m4 q hq
    split at hq
    · rw [List.mem_singleton.1 hq]
    · simp at hq
  refine nodupKeys_flatMap _ (nodup_pyRange _ _) _ (fun k => k.1.2) ?_ fun m1 _ =>
    nodupKeys_flatMap _ (nodup_pyRange _ _) _ (fun k => k.2.1.2) ?_ fun m2 _ =>
    nodupKeys_flatMap _ (nodup_pyRange _ _) _ (fun k => k.2.2.1.2) ?_ fun m3 _ =>
    nodupKeys_flatMap _ (nodup_pyRange _ _) _ (fun k => k.2.2.2.2) ?_ fun m4 _ => ?_
  · intro m1 _ q hq
    simp only [List.mem_flatMap] at hq
    obtain ⟨m2, _, m3, _, m4, _, hq⟩ := hq
    rw [hm _ _ _ _ q hq]
  · intro m2 _ q hq
    simp only [List.mem_flatMap] at hq
    obtain ⟨m3, _, m4, _, hq⟩ := hq
    rw [hm _ _ _ _ q hq]
  · intro m3 _ q hq
    simp only [List.mem_flatMap] at hq
    obtain ⟨m4, _, hq⟩ := hq
    rw [hm _ _ _ _ q hq]
  · intro m4 _ q hq
    rw [hm _ _ _ _ q hq]
  · dsimp only
    split
    · exact nodupKeys_singleton _ _
    · exact nodupKeys_nil

variable {gaunt l1 l2 l3 l4 R}

theorem dag_uProcess (m1 m2 m3 m4 s sp : ℤ) :
    dagProcess (uProcess l1 l2 l3 l4 m1 m2 m3 m4 s sp) = uProcess l4 l3 l2 l1 m4 m3 m2 m1 s sp := rfl

theorem getUop_dagger (h : GauntSymmetric gaunt) :
    Dict.Eqv (daggerOp (getUop gaunt l1 l2 l3 l4 R)) (getUop gaunt l4 l3 l2 l1 R) := by
  have aux : ∀ (l1 l2 l3 l4 : ℕ) (p : Process Label) (v : ℂ), (p, v) ∈ getUop gaunt l1 l2 l3 l4 R →
      (dagProcess p, star v) ∈ getUop gaunt l4 l3 l2 l1 R := by
    intro l1 l2 l3 l4 p v hm
    rw [mem_getUop] at hm ⊢
    obtain ⟨m1, m2, m3, m4, s, sp, h1, h2, h3, h4, hs, hsp, hu, hp, e⟩ := hm
    rw [Prod.mk.injEq] at e
    refine ⟨m4, m3, m2, m1, s, sp, h4, h3, h2, h1, hs, hsp, by rwa [getU_symm h], ?_, ?_⟩
    · rintro ⟨rfl, hc⟩
      exact hp ⟨rfl, by rcases hc with hc | hc <;> [right; left] <;> exact hc.symm⟩
    · rw [e.1, e.2, dag_uProcess, getU_symm h]
      congr 1
      exact Complex.conj_ofReal _
  intro p
  rw [get?_daggerOp _ (nodup_getUop gaunt l1 l2 l3 l4 R)]
  ext v
  rw [Dict.get?_eq_some_iff (nodup_getUop gaunt l4 l3 l2 l1 R)]
  constructor
  · intro hv
    obtain ⟨w, hw, rfl⟩ := Option.map_eq_some_iff.1 hv
    have := aux _ _ _ _ _ _ (Dict.mem_of_get? hw)
    rwa [dagProcess_dagProcess] at this
  · intro hv
    have := aux _ _ _ _ _ _ hv
    rw [Dict.get?_of_mem (nodup_getUop gaunt l1 l2 l3 l4 R) this]
    simp

end

end Verif
