/-
What `get_basis` returns and when it raises.
-/
import Verif.Lemmas.GetBasis

set_option linter.unusedSectionVars false
set_option linter.unusedSimpArgs false

namespace Verif

open Spec Psr Finset

variable {nBaths : Dict ℕ ℕ} (hn : Dict.NodupKeys nBaths) {P : BasisParams}

/-- `AssertionError` or `ValueError`. -/
def AssertOrValue (e : PyErr) : Prop := e = .assertionError ∨ e = .valueError

theorem errIn_assert (b : Prop) [Decidable b] : ErrIn AssertOrValue (pyAssert b) := by
  intro e h
  rw [pyAssert] at h
  split at h <;> cases h
  exact Or.inl rfl

theorem errIn_combinations {α : Type} (L : List α) (r : ℤ) : ErrIn AssertOrValue (pyCombinations L r) := by
  intro e h
  rw [pyCombinations] at h
  split at h <;> cases h
  exact Or.inr rfl

include hn in
theorem imp_mapM {l nb : ℕ} (hl : (l, nb) ∈ nBaths) :
    ((pyRange 0 2).flatMap fun s => (pyRange (-l) (l + 1)).map fun m => Label.imp l s m).mapM
      (c2i (intKeys nBaths)) = .ok (impIdx (intKeys nBaths) l) := by
  have := mapM_c2i (goodSystem_intKeys hn) (impStart (intKeys nBaths) l) (shellLabels l) (fun j hj =>
    labels_shell (mem_allAngulars hl) (by rwa [length_shellLabels] at hj))
  rw [length_shellLabels] at this
  exact this

include hn in
theorem bath_mapM {l nb : ℕ} (hl : (l, nb) ∈ nBaths) {a b : ℤ} (ha : 0 ≤ a) (hb : b ≤ nb) :
    ((pyRange a b).map fun x => Label.bath (.int l) x).mapM (c2i (intKeys nBaths)) =
      .ok (List.range' (bathStart (intKeys nBaths) (.int l) + a.toNat) (b - a).toNat) := by
  have hg := goodSystem_intKeys hn
  have := mapM_c2i hg (bathStart (intKeys nBaths) (.int l) + a.toNat)
    ((pyRange a b).map fun x => Label.bath (.int l) x) (fun j hj => by
      have hj' : j < (b - a).toNat := by simpa using hj
      have h1 := labels_bath hg.keys (mem_intKeys hl) (b := a + j) (by omega) (by omega)
      rw [add_assoc]
      have e : (a + (j : ℤ)).toNat = a.toNat + j := by omega
      rw [e] at h1
      rw [h1, List.getElem?_map, pyRange, List.getElem?_map, List.getElem?_range hj']
      rfl)
  rw [this]
  simp

/-- The configurations of `l` for one choice of `dv`, `dc`. -/
def partOf (nBaths : Dict ℕ ℕ) (P : BasisParams) (l nb : ℕ) (dv dc : ℤ) : List (List ℕ) :=
  partPure (impIdx (intKeys nBaths) l) (valIdx (intKeys nBaths) l (P.val l))
    (conIdx (intKeys nBaths) l nb (P.val l)) (P.n0 l + (dv - dc)).toNat (P.val l - dv).toNat dc.toNat

include hn in
theorem getBasisPartition_ok {l nb : ℕ} (hl : (l, nb) ∈ nBaths) {dv dc : ℤ} (hdv : 0 ≤ dv)
    (hdc : 0 ≤ dc) (hv : P.val l ≤ nb) (hb : ¬ BadOccupation P l nb dv dc) :
    getBasisPartition nBaths l nb (P.val l) (P.n0 l) dv dc = .ok (partOf nBaths P l nb dv dc) := by
  unfold BadOccupation at hb
  push Not at hb
  obtain ⟨h1, h2, h3, h4⟩ := hb
  have hval0 : 0 ≤ P.val l := by
    by_cases h : P.val l = 0
    · omega
    · have := h4 h; omega
  have hV : getBasisVal nBaths l (P.val l) (P.val l - dv) =
      .ok (combinations (valIdx (intKeys nBaths) l (P.val l)) (P.val l - dv).toNat) := by
    unfold getBasisVal
    by_cases h : P.val l = 0
    · rw [if_pos h]
      have e : (P.val l - dv).toNat = 0 := by omega
      rw [e]
      simp [combinations]
    · rw [if_neg h, bath_mapM hn hl (le_refl 0) hv]
      have := h4 h
      simp only [bind, Except.bind, pyCombinations, if_neg (not_lt.2 this)]
      simp [valIdx]
  have hC : getBasisCon nBaths l nb (P.val l) dc =
      .ok (combinations (conIdx (intKeys nBaths) l nb (P.val l)) dc.toNat) := by
    unfold getBasisCon
    by_cases h : (nb : ℤ) - P.val l = 0
    · rw [if_pos h]
      have e : dc.toNat = 0 := by omega
      rw [e]
      simp [combinations]
    · rw [if_neg h, bath_mapM hn hl hval0 (le_refl _)]
      simp only [bind, Except.bind, pyCombinations, if_neg (not_lt.2 hdc)]
      have e : ((nb : ℤ) - P.val l).toNat = nb - (P.val l).toNat := by omega
      rw [e]
      simp [conIdx]
  unfold getBasisPartition
  simp only [imp_mapM hn hl]
  simp only [pyAssert, if_pos (show P.val l - dv ≤ P.val l by omega), if_pos (show dc ≤ nb - P.val l by omega),
    if_pos (show P.n0 l + (dv - dc) ≤ 2 * (2 * l + 1) by omega), pyCombinations,
    if_neg (show ¬ P.n0 l + (dv - dc) < 0 by omega)]
  simp only [hV, hC]
  rfl

include hn in
theorem getBasisPartition_bad {l nb : ℕ} (hl : (l, nb) ∈ nBaths) {dv dc : ℤ}
    (hv : P.val l ≤ nb) (hb : BadOccupation P l nb dv dc) (r : List (List ℕ)) :
    getBasisPartition nBaths l nb (P.val l) (P.n0 l) dv dc ≠ .ok r := by
  intro h
  unfold getBasisPartition at h
  simp only [imp_mapM hn hl] at h
  simp only [pyAssert, pyCombinations, getBasisVal, bind, Except.bind] at h
  split at h
  · cases h
  next h1 =>
  split at h
  · cases h
  next h2 =>
  split at h
  · cases h
  next h3 =>
  split at h
  · cases h
  next h4 =>
  have a2 : dc ≤ nb - P.val l := by by_contra hc; rw [if_neg hc] at h2; cases h2
  have a3 : P.n0 l + (dv - dc) ≤ 2 * (2 * l + 1) := by by_contra hc; rw [if_neg hc] at h3; cases h3
  have a4 : ¬ P.n0 l + (dv - dc) < 0 := by intro hc; rw [if_pos hc] at h4; cases h4
  rcases hb with hb | hb | hb | hb
  · omega
  · omega
  · omega
  · rw [if_neg hb.1, bath_mapM hn hl (le_refl 0) hv] at h
    simp only [if_pos hb.2] at h
    cases h

include hn in
theorem getBasisPartition_err {l nb : ℕ} (hl : (l, nb) ∈ nBaths) (dv dc : ℤ)
    (hv : P.val l ≤ nb) (hdv : 0 ≤ dv) :
    ErrIn AssertOrValue (getBasisPartition nBaths l nb (P.val l) (P.n0 l) dv dc) := by
  unfold getBasisPartition
  refine ErrIn.bind (errIn_assert _) fun _ _ => ErrIn.bind (errIn_assert _) fun _ _ =>
    ErrIn.bind (errIn_assert _) fun _ _ => ?_
  rw [imp_mapM hn hl]
  refine ErrIn.bind (ErrIn.ok _) fun _ _ => ErrIn.bind (errIn_combinations _ _) fun _ _ => ?_
  refine ErrIn.bind ?_ fun bV hbV => ErrIn.bind ?_ fun _ _ => ErrIn.ok _
  · unfold getBasisVal
    split
    · exact ErrIn.ok _
    · rw [bath_mapM hn hl (le_refl 0) hv]
      exact ErrIn.bind (ErrIn.ok _) fun _ _ => errIn_combinations _ _
  · unfold getBasisCon
    split
    · exact ErrIn.ok _
    · have hval0 : 0 ≤ P.val l := by
        by_contra hc
        rw [getBasisVal, if_neg (by omega), bath_mapM hn hl (le_refl 0) hv] at hbV
        simp only [bind, Except.bind, pyCombinations, if_pos (show P.val l - dv < 0 by omega)] at hbV
        cases hbV
      rw [bath_mapM hn hl hval0 (le_refl _)]
      exact ErrIn.bind (ErrIn.ok _) fun _ _ => errIn_combinations _ _

/-! ### One angular momentum -/

/-- All configurations of `l`. -/
def basisLPure (nBaths : Dict ℕ ℕ) (P : BasisParams) (l nb : ℕ) : List (List ℕ) :=
  (pyRange 0 (P.dnVal l + 1)).flatMap fun dv => (pyRange 0 (P.dnCon l + 1)).flatMap fun dc =>
    if |dv - dc| ≤ P.tol l then partOf nBaths P l nb dv dc else []

variable {valBaths dnValBaths dnConBaths dnTol n0imp : Dict ℕ ℤ}
  (hP : ProvidesAll nBaths P valBaths dnValBaths dnConBaths dnTol n0imp)

theorem get_of_provides {d : Dict ℕ ℤ} {f : ℕ → ℤ} (h : Provides nBaths d f) {l nb : ℕ}
    (hl : (l, nb) ∈ nBaths) : Dict.get d l = .ok (f l) := by
  rw [Dict.get, h l (List.mem_map.2 ⟨_, hl, rfl⟩)]

include hP in
theorem getBasisL_unfold {l nb : ℕ} (hl : (l, nb) ∈ nBaths) :
    getBasisL nBaths valBaths dnValBaths dnConBaths dnTol n0imp l nb =
      (pyRange 0 (P.dnVal l + 1)).foldlM (fun basisL dnVal =>
        (pyRange 0 (P.dnCon l + 1)).foldlM (fun basisL dnCon =>
          if |dnVal - dnCon| ≤ P.tol l then do
            return basisL ++ (← getBasisPartition nBaths l nb (P.val l) (P.n0 l) dnVal dnCon)
          else return basisL) basisL) [] := by
  unfold getBasisL
  simp only [get_of_provides hP.val hl, get_of_provides hP.dnVal hl, get_of_provides hP.dnCon hl,
    get_of_provides hP.tol hl, get_of_provides hP.n0 hl]
  rfl

include hn hP in
theorem getBasisL_ok {l nb : ℕ} (hl : (l, nb) ∈ nBaths) (hv : P.val l ≤ nb)
    (hb : ∀ dv dc, Chosen P l dv dc → ¬ BadOccupation P l nb dv dc) :
    getBasisL nBaths valBaths dnValBaths dnConBaths dnTol n0imp l nb =
      .ok (basisLPure nBaths P l nb) := by
  rw [getBasisL_unfold hP hl, basisLPure]
  refine (foldlM_append_ok _ (fun dv => (pyRange 0 (P.dnCon l + 1)).flatMap fun dc =>
    if |dv - dc| ≤ P.tol l then partOf nBaths P l nb dv dc else []) _ _ fun acc dv hdv => ?_).trans
    (by simp)
  refine foldlM_append_ok _ _ _ _ fun acc dc hdc => ?_
  rw [mem_pyRange] at hdv hdc
  split
  next h =>
    rw [getBasisPartition_ok hn hl hdv.1 hdc.1 hv
      (hb dv dc ⟨hdv.1, by omega, hdc.1, by omega, h⟩)]
    rfl
  next h => simp [pure, Except.pure]

include hn hP in
theorem getBasisL_bad {l nb : ℕ} (hl : (l, nb) ∈ nBaths) (hv : P.val l ≤ nb) {dv dc : ℤ}
    (hc : Chosen P l dv dc) (hb : BadOccupation P l nb dv dc) (r : List (List ℕ)) :
    getBasisL nBaths valBaths dnValBaths dnConBaths dnTol n0imp l nb ≠ .ok r := by
  intro h
  rw [getBasisL_unfold hP hl] at h
  obtain ⟨h1, h2, h3, h4, h5⟩ := hc
  obtain ⟨b, r', h⟩ := foldlM_isOk _ _ _ _ h dv (mem_pyRange.2 ⟨h1, by omega⟩)
  obtain ⟨b, r', h⟩ := foldlM_isOk _ _ _ _ h dc (mem_pyRange.2 ⟨h3, by omega⟩)
  rw [if_pos h5] at h
  cases hp : getBasisPartition nBaths l nb (P.val l) (P.n0 l) dv dc with
  | error e => rw [hp] at h; cases h
  | ok x => exact getBasisPartition_bad hn hl hv hb x hp

include hn hP in
theorem getBasisL_err {l nb : ℕ} (hl : (l, nb) ∈ nBaths) (hv : P.val l ≤ nb) :
    ErrIn AssertOrValue (getBasisL nBaths valBaths dnValBaths dnConBaths dnTol n0imp l nb) := by
  rw [getBasisL_unfold hP hl]
  refine ErrIn.foldlM fun b dv hdv => ErrIn.foldlM fun b dc hdc => ?_
  split
  · exact ErrIn.bind (getBasisPartition_err hn hl dv dc hv (mem_pyRange.1 hdv).1) fun _ _ => ErrIn.ok _
  · exact ErrIn.ok _

theorem mem_basisLPure {l nb : ℕ} {t : List ℕ} :
    t ∈ basisLPure nBaths P l nb ↔ ∃ dv dc, Chosen P l dv dc ∧ t ∈ partOf nBaths P l nb dv dc := by
  simp only [basisLPure, List.mem_flatMap, mem_pyRange, Chosen]
  constructor
  · rintro ⟨dv, hdv, dc, hdc, h⟩
    split at h
    next ht => exact ⟨dv, dc, ⟨hdv.1, by omega, hdc.1, by omega, ht⟩, h⟩
    next => simp at h
  · rintro ⟨dv, dc, ⟨h1, h2, h3, h4, h5⟩, h⟩
    exact ⟨dv, ⟨h1, by omega⟩, dc, ⟨h3, by omega⟩, by rw [if_pos h5]; exact h⟩

theorem basisLPure_sublist {l nb : ℕ} {t : List ℕ} (h : t ∈ basisLPure nBaths P l nb) :
    t.Sublist (groupIdx (intKeys nBaths) l nb (P.val l)) := by
  obtain ⟨dv, dc, _, h⟩ := mem_basisLPure.1 h
  exact partPure_sublist h

theorem nodup_basisLPure {l nb : ℕ} (hl : (l, nb) ∈ nBaths)
    (hb : ∀ dv dc, Chosen P l dv dc → ¬ BadOccupation P l nb dv dc) :
    (basisLPure nBaths P l nb).Nodup := by
  have hG := nodup_groupIdx hl (P.val l)
  -- a configuration determines `dv` and `dc`
  have key : ∀ dv dc dv' dc' t, Chosen P l dv dc → Chosen P l dv' dc' →
      t ∈ partOf nBaths P l nb dv dc → t ∈ partOf nBaths P l nb dv' dc' → dv = dv' ∧ dc = dc' := by
    intro dv dc dv' dc' t hc hc' h h'
    have b1 := hb dv dc hc
    have b2 := hb dv' dc' hc'
    unfold BadOccupation at b1 b2
    push Not at b1 b2
    have c1 := partPure_card hG h t.toFinset (fun x _ => by simp)
    have c2 := partPure_card hG h' t.toFinset (fun x _ => by simp)
    obtain ⟨h1, h2, h3, h4, h5⟩ := hc
    obtain ⟨h1', h2', h3', h4', h5'⟩ := hc'
    have e1 := c1.1.symm.trans c2.1
    have e3 := c1.2.2.symm.trans c2.2.2
    omega
  rw [basisLPure, List.nodup_flatMap]
  constructor
  · intro dv hdv
    rw [List.nodup_flatMap]
    constructor
    · intro dc _
      split
      · exact nodup_partPure hG _ _ _
      · exact List.nodup_nil
    · refine (nodup_pyRange _ _).imp_of_mem ?_
      intro dc dc' hdc hdc' hne t h h'
      rw [mem_pyRange] at hdv hdc hdc'
      beta_reduce at h h'
      split at h
      next ht =>
        split at h'
        next ht' =>
          exact hne (key dv dc dv dc' t ⟨hdv.1, by omega, hdc.1, by omega, ht⟩
            ⟨hdv.1, by omega, hdc'.1, by omega, ht'⟩ h h').2
        next => simp at h'
      next => simp at h
  · refine (nodup_pyRange _ _).imp_of_mem ?_
    intro dv dv' hdv hdv' hne t h h'
    simp only [List.mem_flatMap] at h h'
    obtain ⟨dc, hdc, h⟩ := h
    obtain ⟨dc', hdc', h'⟩ := h'
    rw [mem_pyRange] at hdv hdv' hdc hdc'
    split at h
    next ht =>
      split at h'
      next ht' =>
        exact hne (key dv dc dv' dc' t ⟨hdv.1, by omega, hdc.1, by omega, ht⟩
          ⟨hdv'.1, by omega, hdc'.1, by omega, ht'⟩ h h').1
      next => simp at h'
    next => simp at h

/-! ### The whole basis -/

/-- The parameters fit. -/
def Fits (nBaths : Dict ℕ ℕ) (P : BasisParams) : Prop :=
  ∀ p ∈ nBaths, P.val p.1 ≤ p.2 ∧ ∀ dv dc, Chosen P p.1 dv dc → ¬ BadOccupation P p.1 p.2 dv dc

def configs (nBaths : Dict ℕ ℕ) (P : BasisParams) : List (List (List ℕ)) :=
  pyProduct (nBaths.map fun p => basisLPure nBaths P p.1 p.2)

theorem tuple2bytes_eq (t : List ℕ) (n : ℕ) (S : Finset ℕ) (h : ∀ i < n, i ∈ t ↔ i ∈ S) :
    tuple2bytes t n = .ok (encBytes n S) := by
  rw [tuple2bytes, tuple2bitarray, tuple2str_eq t n S h, bitarrayOfStr_encStr]
  simp [bind, Except.bind, pure, Except.pure, tobytes_encBits]

include hn hP in
theorem getBasis_ok (hf : Fits nBaths P) :
    getBasis nBaths valBaths dnValBaths dnConBaths dnTol n0imp =
      .ok ((configs nBaths P).map fun c => encBytes (nTotal (intKeys nBaths)) c.flatten.toFinset) := by
  unfold getBasis
  rw [forM_ok _ _ (fun p hp => by
    rw [get_of_provides hP.val (l := p.1) (nb := p.2) hp]
    simp only [bind, Except.bind, pyAssert, if_pos (hf p hp).1])]
  simp only [nTotal_intKeys]
  rw [mapM_okL _ (fun p : ℕ × ℕ => basisLPure nBaths P p.1 p.2) _ (fun p hp =>
    getBasisL_ok hn hP hp (hf p hp).1 (hf p hp).2)]
  refine mapM_okL _ _ _ fun c _ => ?_
  exact tuple2bytes_eq _ _ _ fun i _ => by rw [List.mem_insertionSort, List.mem_toFinset]

include hn hP in
theorem getBasis_fits {r : List Bytes}
    (h : getBasis nBaths valBaths dnValBaths dnConBaths dnTol n0imp = .ok r) : Fits nBaths P := by
  unfold getBasis at h
  cases h1 : nBaths.forM fun p => (do
      let val ← Dict.get valBaths p.1
      pyAssert (val ≤ p.2) : Py Unit) with
  | error e => rw [h1] at h; cases h
  | ok u =>
    rw [h1] at h
    have hv : ∀ p ∈ nBaths, P.val p.1 ≤ p.2 := by
      intro p hp
      have := forM_isOk _ _ h1 p hp
      rw [get_of_provides hP.val (l := p.1) (nb := p.2) hp] at this
      simp only [bind, Except.bind, pyAssert] at this
      by_contra hc
      rw [if_neg hc] at this
      cases this
    cases h2 : nBaths.mapM fun p =>
        getBasisL nBaths valBaths dnValBaths dnConBaths dnTol n0imp p.1 p.2 with
    | error e => rw [h2] at h; cases h
    | ok L =>
      intro p hp
      refine ⟨hv p hp, fun dv dc hc hb => ?_⟩
      obtain ⟨x, hx⟩ := mapM_isOk _ _ _ h2 p hp
      exact getBasisL_bad hn hP hp (hv p hp) hc hb x hx

include hn hP in
theorem getBasis_err : ErrIn AssertOrValue (getBasis nBaths valBaths dnValBaths dnConBaths dnTol n0imp) := by
  unfold getBasis
  refine ErrIn.bind (ErrIn.forM fun p hp => ?_) fun u hu => ?_
  · rw [get_of_provides hP.val (l := p.1) (nb := p.2) hp]
    exact ErrIn.bind (ErrIn.ok _) fun _ _ => errIn_assert _
  · have hv : ∀ p ∈ nBaths, P.val p.1 ≤ p.2 := by
      intro p hp
      have := forM_isOk _ _ hu p hp
      rw [get_of_provides hP.val (l := p.1) (nb := p.2) hp] at this
      simp only [bind, Except.bind, pyAssert] at this
      by_contra hc
      rw [if_neg hc] at this
      cases this
    refine ErrIn.bind (ErrIn.mapM fun p hp => getBasisL_err hn hP hp (hv p hp)) fun L hL => ?_
    refine ErrIn.mapM fun c _ => ?_
    rw [tuple2bytes_eq _ _ c.flatten.toFinset fun i _ => by
      rw [List.mem_insertionSort, List.mem_toFinset]]
    exact ErrIn.ok _

theorem mem_configs {c : List (List ℕ)} :
    c ∈ configs nBaths P ↔
      List.Forall₂ (fun t (p : ℕ × ℕ) => t ∈ basisLPure nBaths P p.1 p.2) c nBaths := by
  rw [configs, mem_pyProduct, List.forall₂_map_right_iff]

theorem forall₂_left {α β : Type*} {R : α → β → Prop} {l₁ : List α} {l₂ : List β}
    (h : List.Forall₂ R l₁ l₂) : ∀ a ∈ l₁, ∃ b ∈ l₂, R a b := by
  induction h with
  | nil => simp
  | cons hab _ ih =>
    intro x hx
    rcases List.mem_cons.1 hx with rfl | hx
    · exact ⟨_, by simp, hab⟩
    · obtain ⟨b, hb, hr⟩ := ih x hx; exact ⟨b, by simp [hb], hr⟩

theorem forall₂_right {α β : Type*} {R : α → β → Prop} {l₁ : List α} {l₂ : List β}
    (h : List.Forall₂ R l₁ l₂) : ∀ b ∈ l₂, ∃ a ∈ l₁, R a b := by
  induction h with
  | nil => simp
  | cons hab _ ih =>
    intro x hx
    rcases List.mem_cons.1 hx with rfl | hx
    · exact ⟨_, by simp, hab⟩
    · obtain ⟨b, hb, hr⟩ := ih x hx; exact ⟨b, by simp [hb], hr⟩

theorem zip_fst_unique {α β : Type*} {l₁ : List α} {l₂ : List β} (h : l₂.Nodup) {a a' : α} {b : β}
    (h1 : (a, b) ∈ l₁.zip l₂) (h2 : (a', b) ∈ l₁.zip l₂) : a = a' := by
  induction l₁ generalizing l₂ with
  | nil => simp at h1
  | cons x l₁ ih =>
    cases l₂ with
    | nil => simp at h1
    | cons y l₂ =>
      rw [List.nodup_cons] at h
      rw [List.zip_cons_cons, List.mem_cons, Prod.mk.injEq] at h1 h2
      rcases h1 with ⟨rfl, rfl⟩ | h1
      · rcases h2 with ⟨rfl, _⟩ | h2
        · rfl
        · exact absurd (List.of_mem_zip h2).2 h.1
      · rcases h2 with ⟨rfl, rfl⟩ | h2
        · exact absurd (List.of_mem_zip h1).2 h.1
        · exact ih h.2 h1 h2

theorem mem_zip_of_left {α β : Type*} {l₁ : List α} {l₂ : List β} (h : l₁.length = l₂.length) {a : α}
    (ha : a ∈ l₁) : ∃ b, (a, b) ∈ l₁.zip l₂ := by
  obtain ⟨i, hi, rfl⟩ := List.getElem_of_mem ha
  exact ⟨l₂[i]'(by omega), List.mem_iff_getElem.2 ⟨i, by simp; omega, by simp⟩⟩

theorem mem_zip_of_right {α β : Type*} {l₁ : List α} {l₂ : List β} (h : l₁.length = l₂.length) {b : β}
    (hb : b ∈ l₂) : ∃ a, (a, b) ∈ l₁.zip l₂ := by
  obtain ⟨i, hi, rfl⟩ := List.getElem_of_mem hb
  exact ⟨l₁[i]'(by omega), List.mem_iff_getElem.2 ⟨i, by simp; omega, by simp⟩⟩

include hn in
/-- The part of a configuration in the group of `q` is its entry for `q`. -/
theorem mem_flatten_iff (hf : Fits nBaths P) {c : List (List ℕ)} (hc : c ∈ configs nBaths P) {q : ℕ × ℕ}
    {t : List ℕ} (ht : (t, q) ∈ c.zip nBaths) {x : ℕ}
    (hx : x ∈ groupIdx (intKeys nBaths) q.1 q.2 (P.val q.1)) : x ∈ c.flatten ↔ x ∈ t := by
  have hq := (List.of_mem_zip ht).2
  have hc' := mem_configs.1 hc
  rw [List.forall₂_iff_zip] at hc'
  constructor
  · intro h
    obtain ⟨t', ht', hxt⟩ := List.mem_flatten.1 h
    obtain ⟨p, hp⟩ := mem_zip_of_left hc'.1 ht'
    have hpn := (List.of_mem_zip hp).2
    have hxp := (basisLPure_sublist (hc'.2 hp)).subset hxt
    have e := group_disjoint hn hpn hq (hf p hpn).1 (hf q hq).1 hxp hx
    have e1 := Dict.get?_of_mem hn (k := p.1) (v := p.2) hpn
    have e2 := Dict.get?_of_mem hn (k := q.1) (v := q.2) hq
    rw [e, e2] at e1
    obtain rfl : p = q := Prod.ext e (by simpa using e1.symm)
    have hnd : nBaths.Nodup := List.Nodup.of_map _ hn
    rwa [zip_fst_unique hnd ht hp]
  · intro h
    exact List.mem_flatten.2 ⟨t, (List.of_mem_zip ht).1, h⟩

include hn in
theorem flatten_subset (hf : Fits nBaths P) {c : List (List ℕ)} (hc : c ∈ configs nBaths P) :
    c.flatten.toFinset ⊆ range (nTotal (intKeys nBaths)) := by
  intro x hx
  rw [List.mem_toFinset, List.mem_flatten] at hx
  obtain ⟨t, ht, hxt⟩ := hx
  obtain ⟨p, hp, hm⟩ := forall₂_left (mem_configs.1 hc) t ht
  rw [mem_range]
  exact group_lt hn hp (hf p hp).1 ((basisLPure_sublist hm).subset hxt)

include hn in
/-- A configuration is determined by its set of spin-orbitals. -/
theorem config_eq (hf : Fits nBaths P) {c : List (List ℕ)} (hc : c ∈ configs nBaths P) :
    c = nBaths.map fun p => (groupIdx (intKeys nBaths) p.1 p.2 (P.val p.1)).filter
      (· ∈ c.flatten.toFinset) := by
  have hc' := mem_configs.1 hc
  rw [List.forall₂_iff_zip] at hc'
  apply List.ext_getElem
  · simp [hc'.1]
  · intro i h1 h2
    have hi : i < nBaths.length := by simpa using h2
    have hz : (c[i], nBaths[i]) ∈ c.zip nBaths :=
      List.mem_iff_getElem.2 ⟨i, by simp; omega, by simp⟩
    rw [List.getElem_map]
    refine sublist_eq_filter (nodup_groupIdx (List.getElem_mem hi) _) (basisLPure_sublist (hc'.2 hz)) _ ?_
    intro x hx
    simp only [decide_eq_true_eq, List.mem_toFinset]
    exact mem_flatten_iff hn hf hc hz hx

include hn in
theorem nodup_bytes (hf : Fits nBaths P) :
    ((configs nBaths P).map fun c =>
      encBytes (nTotal (intKeys nBaths)) c.flatten.toFinset).Nodup := by
  refine List.Nodup.map_on ?_ (nodup_pyProduct _ ?_)
  · intro c hc c' hc' h
    have := encBytes_injOn (flatten_subset hn hf hc) (flatten_subset hn hf hc') h
    rw [config_eq hn hf hc, config_eq hn hf hc', this]
  · intro L hL
    obtain ⟨p, hp, rfl⟩ := List.mem_map.1 hL
    exact nodup_basisLPure hp (hf p hp).2

include hn in
theorem config_isConfiguration (hf : Fits nBaths P) {c : List (List ℕ)} (hc : c ∈ configs nBaths P) :
    IsConfiguration nBaths (intKeys nBaths) P c.flatten.toFinset := by
  intro p hp
  have hc' := mem_configs.1 hc
  rw [List.forall₂_iff_zip] at hc'
  obtain ⟨t, ht⟩ := mem_zip_of_right hc'.1 hp
  obtain ⟨dv, dc, hch, hm⟩ := mem_basisLPure.1 (hc'.2 ht)
  have hb := (hf p hp).2 dv dc hch
  unfold BadOccupation at hb
  push Not at hb
  obtain ⟨k1, k2, k3⟩ := partPure_card (nodup_groupIdx hp (P.val p.1)) hm c.flatten.toFinset
    (fun x hx => by rw [List.mem_toFinset]; exact mem_flatten_iff hn hf hc ht hx)
  rw [impIdx_toFinset] at k1
  rw [valIdx_toFinset] at k2
  rw [conIdx_toFinset] at k3
  refine ⟨dv, dc, hch, ?_, ?_, ?_⟩
  · rw [k1]; omega
  · intro h; rw [k2]; have := hb.2.2.2 h; omega
  · rw [k3]; have := hch.2.2.1; omega

include hn in
theorem exists_config (hf : Fits nBaths P) {S : Finset ℕ} (hS : S ⊆ range (nTotal (intKeys nBaths)))
    (h : IsConfiguration nBaths (intKeys nBaths) P S) :
    ∃ c ∈ configs nBaths P, c.flatten.toFinset = S := by
  refine ⟨nBaths.map fun p => (groupIdx (intKeys nBaths) p.1 p.2 (P.val p.1)).filter (· ∈ S), ?_, ?_⟩
  · rw [mem_configs, List.forall₂_map_left_iff, List.forall₂_same]
    intro p hp
    obtain ⟨dv, dc, hch, h1, h2, h3⟩ := h p hp
    rw [mem_basisLPure]
    refine ⟨dv, dc, hch, ?_⟩
    have hb := (hf p hp).2 dv dc hch
    unfold BadOccupation at hb
    push Not at hb
    refine filter_mem_partPure (nodup_groupIdx hp (P.val p.1)) S ?_ ?_ ?_
    · rw [impIdx_toFinset]; omega
    · rw [valIdx_toFinset]
      by_cases hv : P.val p.1 = 0
      · have : valOrbs (intKeys nBaths) p.1 (P.val p.1) = ∅ := by simp [valOrbs, hv]
        rw [this, inter_empty, card_empty, hv]
        have := hch.1
        omega
      · have := h2 hv; omega
    · rw [conIdx_toFinset]; omega
  · ext x
    simp only [List.mem_toFinset, List.mem_flatten, List.mem_map]
    constructor
    · rintro ⟨_, ⟨p, hp, rfl⟩, hx⟩
      simpa using (List.mem_filter.1 hx).2
    · intro hx
      obtain ⟨p, hp, hg⟩ := group_cover hn (mem_range.1 (hS hx))
      exact ⟨_, ⟨p, hp, rfl⟩, List.mem_filter.2 ⟨hg _ (hf p hp).1, by simpa using hx⟩⟩

include hn in
theorem card_config (hf : Fits nBaths P) {c : List (List ℕ)} (hc : c ∈ configs nBaths P) :
    c.flatten.toFinset.card = (c.map List.length).sum := by
  have hnd : c.flatten.Nodup := by
    have e := config_eq hn hf hc
    generalize hS : c.flatten.toFinset = S at e
    rw [e, List.nodup_flatten]
    constructor
    · intro t ht
      obtain ⟨p, hp, rfl⟩ := List.mem_map.1 ht
      exact (nodup_groupIdx hp _).filter _
    · rw [List.pairwise_map]
      have : nBaths.Pairwise fun p q => p.1 ≠ q.1 := by
        have := hn
        unfold Dict.NodupKeys Dict.keys at this
        rwa [List.nodup_iff_pairwise_ne, List.pairwise_map] at this
      refine this.imp_of_mem ?_
      intro p q hp hq hne x h1 h2
      exact hne (group_disjoint hn hp hq (hf p hp).1 (hf q hq).1 (List.mem_filter.1 h1).1
        (List.mem_filter.1 h2).1)
  rw [List.toFinset_card_of_nodup hnd, List.length_flatten]

theorem partPure_length {I V C : List ℕ} {i v c : ℕ} {t : List ℕ} (h : t ∈ partPure I V C i v c) :
    t.length = i + v + c := by
  obtain ⟨a, b, d, ⟨_, rfl⟩, ⟨_, rfl⟩, ⟨_, rfl⟩, rfl⟩ := mem_partPure.1 h
  simp [add_assoc]

theorem sum_of_forall₂ {α β : Type*} {f : α → ℕ} {g : β → ℤ} {l₁ : List α} {l₂ : List β}
    (h : List.Forall₂ (fun a b => (f a : ℤ) = g b) l₁ l₂) :
    (((l₁.map f).sum : ℕ) : ℤ) = (l₂.map g).sum := by
  induction h with
  | nil => rfl
  | cons hab _ ih => simp [hab, ih]

include hn in
theorem card_config_eq (hf : Fits nBaths P) (h0 : ∀ p ∈ nBaths, P.val p.1 = 0 → P.dnVal p.1 ≤ 0)
    {c : List (List ℕ)} (hc : c ∈ configs nBaths P) :
    (c.flatten.toFinset.card : ℤ) = (nBaths.map fun p => P.n0 p.1 + P.val p.1).sum := by
  rw [card_config hn hf hc]
  apply sum_of_forall₂
  have hc' := mem_configs.1 hc
  rw [List.forall₂_iff_zip] at hc' ⊢
  refine ⟨hc'.1, fun {t p} hz => ?_⟩
  have hp := (List.of_mem_zip hz).2
  obtain ⟨dv, dc, hch, hm⟩ := mem_basisLPure.1 (hc'.2 hz)
  rw [partPure_length hm]
  have hb := (hf p hp).2 dv dc hch
  unfold BadOccupation at hb
  push Not at hb
  obtain ⟨h1, h2, h3, h4, h5⟩ := hch
  by_cases hv : P.val p.1 = 0
  · have := h0 p hp hv; omega
  · have := hb.2.2.2 hv; omega

end Verif
