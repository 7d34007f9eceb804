/-
Helper lemmas for the crystal-field Hamiltonian.
-/
import Verif.Model.CrystalField
import Verif.Spec.CrystalField
import Verif.Lemmas.Assemble
import Verif.Lemmas.Cubic

namespace Verif

open Spec Finset

/-! ### Hermitian dicts -/

theorem hermitian_of_closed {op : Op Label ℂ} (hn : Dict.NodupKeys op)
    (h : ∀ q ∈ op, (dagProcess q.1, star q.2) ∈ op) : isHermitianOp op := by
  intro p
  rw [get?_daggerOp _ hn]
  cases hg : Dict.get? op p with
  | some v =>
    have := Dict.get?_of_mem hn (h _ (Dict.mem_of_get? hg))
    dsimp only at this
    rw [this]
    simp
  | none =>
    cases hg' : Dict.get? op (dagProcess p) with
    | none => rfl
    | some w =>
      exfalso
      have := Dict.get?_of_mem hn (h _ (Dict.mem_of_get? hg'))
      dsimp only at this
      rw [dagProcess_dagProcess, hg] at this
      simp at this

theorem addOps_hermitian (ops : List (Op Label ℂ)) (hn : ∀ op ∈ ops, Dict.NodupKeys op)
    (hh : ∀ op ∈ ops, isHermitianOp op) : isHermitianOp (addOps ops) := by
  refine daggerOp_addOps ops ops hn hn ?_
  rw [List.forall₂_same]
  exact hh

/-! ### matrices -/

section
variable {a b : CMat} (ha : a.cols = 5) (hb : b.cols = 5)

include ha hb in
theorem rot_val (eg t2g : ℝ) (i j : ℕ) : (a.dot ((egT2gDiagonal eg t2g).dot b.conjT)).val i j
    = ∑ c ∈ range 5, (egT2g eg t2g c : ℂ) * (a.val i c * star (b.val j c)) := by
  simp only [CMat.dot, CMat.conjT, egT2gDiagonal, ha]
  refine sum_congr rfl fun c hc => ?_
  rw [sum_eq_single c]
  · rw [if_pos rfl]
    have hc' := mem_range.1 hc
    have : ([eg, eg, t2g, t2g, t2g] : List ℝ).getD c 0 = egT2g eg t2g c := by
      unfold egT2g
      interval_cases c <;> simp
    rw [this]; ring
  · intro k _ hk
    rw [if_neg hk.symm, zero_mul]
  · intro h; exact absurd hc h

include ha hb in
theorem rot_star (eg t2g : ℝ) (i j : ℕ) : star ((a.dot ((egT2gDiagonal eg t2g).dot b.conjT)).val i j)
    = (b.dot ((egT2gDiagonal eg t2g).dot a.conjT)).val j i := by
  rw [rot_val ha hb, rot_val hb ha, star_sum]
  refine sum_congr rfl fun c _ => ?_
  simp only [star_mul', star_star]
  rw [show star ((egT2g eg t2g c : ℝ) : ℂ) = ((egT2g eg t2g c : ℝ) : ℂ) from Complex.conj_ofReal _]
  ring

end

theorem create_annihilate_in (p q : ℕ → ℕ) (x y : ℕ → ℂ) (v : Vec ℂ) (S : Finset ℕ) :
    createIn (range 5) p x (annihilateIn (range 5) q y v) S
      = ∑ i ∈ range 5, ∑ j ∈ range 5, x i * star (y j) * create (p i) (annihilate (q j) v) S := by
  unfold createIn annihilateIn
  refine sum_congr rfl fun i _ => ?_
  unfold create
  split
  · rw [mul_sum, mul_sum]
    refine sum_congr rfl fun j _ => ?_
    ring
  · simp

/-- A rotated diagonal matrix in operator form. -/
theorem rot_hopSum {a b : CMat} (ha : a.cols = 5) (hb : b.cols = 5) (eg t2g : ℝ) (p q : ℕ → ℕ) (v : Vec ℂ)
    (S : Finset ℕ) :
    ∑ i ∈ range 5, ∑ j ∈ range 5, (a.dot ((egT2gDiagonal eg t2g).dot b.conjT)).val i j *
        create (p i) (annihilate (q j) v) S
      = hopSum ⟨p, a.val⟩ ⟨q, b.val⟩ (egT2g eg t2g) v S := by
  unfold hopSum
  simp only [create_annihilate_in, mul_sum, rot_val ha hb, sum_mul]
  conv_rhs => rw [sum_comm]
  refine sum_congr rfl fun i _ => ?_
  conv_rhs => rw [sum_comm]
  refine sum_congr rfl fun j _ => ?_
  refine sum_congr rfl fun c _ => ?_
  ring

/-! ### lists of assignments -/

theorem enumD_eq : enumD = (List.range 5).map fun (i : ℕ) => ((i : ℤ) - 2, i) := by decide

theorem sublist_flatMap {α β : Type} (L : List α) (f g : α → List β) (h : ∀ x ∈ L, (f x).Sublist (g x)) :
    (L.flatMap f).Sublist (L.flatMap g) := by
  induction L with
  | nil => simp
  | cons x L ih =>
    rw [List.flatMap_cons, List.flatMap_cons]
    exact (h x (by simp)).append (ih fun y hy => h y (by simp [hy]))

theorem keys_flatMap {κ ν α : Type} (L : List α) (f : α → Dict κ ν) :
    Dict.keys (L.flatMap f) = L.flatMap fun x => Dict.keys (f x) := by
  simp [Dict.keys, List.map_flatMap]

theorem hImp_nodup (h : CMat) : Dict.NodupKeys (enumD.flatMap fun i => enumD.flatMap fun j =>
    if h.val i.2 j.2 ≠ 0 then
      (pyRange 0 2).map fun s => (oneProcess (.imp 2 s i.1) (.imp 2 s j.1), h.val i.2 j.2)
    else []) := by
  rw [Dict.NodupKeys, keys_flatMap]
  refine List.Nodup.sublist (l₂ := enumD.flatMap fun i => enumD.flatMap fun j => (pyRange 0 2).map fun s =>
    oneProcess (.imp 2 s i.1) (.imp 2 s j.1)) ?_ (by decide +kernel)
  refine sublist_flatMap _ _ _ fun i _ => ?_
  rw [keys_flatMap]
  refine sublist_flatMap _ _ _ fun j _ => ?_
  split
  · simp [Dict.keys, Function.comp_def]
  · simp

theorem hHopp_nodup (vVal vCon : CMat) (con : Bool) : Dict.NodupKeys
    ((pyRange 0 2).flatMap fun s => enumD.flatMap fun i => enumD.flatMap fun j =>
    (if vVal.val i.2 j.2 ≠ 0 then
      [(oneProcess (bathLabel (biVal s i.2)) (.imp 2 s j.1), vVal.val i.2 j.2),
       (oneProcess (.imp 2 s j.1) (bathLabel (biVal s i.2)), star (vVal.val i.2 j.2))] else []) ++
    (if con then
      if vCon.val i.2 j.2 ≠ 0 then
        [(oneProcess (bathLabel (biCon s i.2)) (.imp 2 s j.1), vCon.val i.2 j.2),
         (oneProcess (.imp 2 s j.1) (bathLabel (biCon s i.2)), star (vCon.val i.2 j.2))] else []
    else [])) := by
  rw [Dict.NodupKeys, keys_flatMap]
  refine List.Nodup.sublist (l₂ := (pyRange 0 2).flatMap fun s => enumD.flatMap fun i => enumD.flatMap fun j =>
    [oneProcess (bathLabel (biVal s i.2)) (.imp 2 s j.1), oneProcess (.imp 2 s j.1) (bathLabel (biVal s i.2))] ++
    [oneProcess (bathLabel (biCon s i.2)) (.imp 2 s j.1), oneProcess (.imp 2 s j.1) (bathLabel (biCon s i.2))]) ?_
    (by decide +kernel)
  refine sublist_flatMap _ _ _ fun s _ => ?_
  rw [keys_flatMap]
  refine sublist_flatMap _ _ _ fun i _ => ?_
  rw [keys_flatMap]
  refine sublist_flatMap _ _ _ fun j _ => ?_
  rw [Dict.keys_append]
  refine List.Sublist.append ?_ ?_
  · split <;> simp [Dict.keys]
  · cases con
    · simp [Dict.keys]
    · simp only [if_true]
      split <;> simp [Dict.keys]

theorem eBath_nodup (eVal eCon : CMat) (con : Bool) : Dict.NodupKeys
    ((pyRange 0 2).flatMap fun s => enumD.flatMap fun i => enumD.flatMap fun j =>
    (if eVal.val i.2 j.2 ≠ 0 then
      [(oneProcess (bathLabel (biVal s i.2)) (bathLabel (biVal s j.2)), eVal.val i.2 j.2)] else []) ++
    (if con then
      if eCon.val i.2 j.2 ≠ 0 then
        [(oneProcess (bathLabel (biCon s i.2)) (bathLabel (biCon s j.2)), eCon.val i.2 j.2)] else []
    else [])) := by
  rw [Dict.NodupKeys, keys_flatMap]
  refine List.Nodup.sublist (l₂ := (pyRange 0 2).flatMap fun s => enumD.flatMap fun i => enumD.flatMap fun j =>
    [oneProcess (bathLabel (biVal s i.2)) (bathLabel (biVal s j.2))] ++
    [oneProcess (bathLabel (biCon s i.2)) (bathLabel (biCon s j.2))]) ?_
    (by decide +kernel)
  refine sublist_flatMap _ _ _ fun s _ => ?_
  rw [keys_flatMap]
  refine sublist_flatMap _ _ _ fun i _ => ?_
  rw [keys_flatMap]
  refine sublist_flatMap _ _ _ fun j _ => ?_
  rw [Dict.keys_append]
  refine List.Sublist.append ?_ ?_
  · split <;> simp [Dict.keys]
  · cases con
    · simp [Dict.keys]
    · simp only [if_true]
      split <;> simp [Dict.keys]

theorem mem_enumD (x : ℤ × ℕ) : x ∈ enumD ↔ x.2 < 5 ∧ x.1 = (x.2 : ℤ) - 2 := by
  rw [enumD_eq]
  simp only [List.mem_map, List.mem_range]
  constructor
  · rintro ⟨i, hi, rfl⟩; exact ⟨hi, rfl⟩
  · rintro ⟨h, e⟩; exact ⟨x.2, h, by rw [← e]⟩

theorem mem_hImp (h : CMat) (q : Process Label × ℂ) : q ∈ hImpOperator h ↔
    ∃ s : ℤ, (0 ≤ s ∧ s < 2) ∧ ∃ i < 5, ∃ j < 5, h.val i j ≠ 0 ∧
      q = (oneProcess (.imp 2 s ((i : ℤ) - 2)) (.imp 2 s ((j : ℤ) - 2)), h.val i j) := by
  rw [hImpOperator, Dict.update_nil_of_nodup _ (hImp_nodup h)]
  simp only [List.mem_flatMap, mem_enumD]
  constructor
  · rintro ⟨⟨m, i⟩, ⟨hi, e⟩, ⟨m', j⟩, ⟨hj, e'⟩, hq⟩
    dsimp only at *
    subst e e'
    split at hq
    · rename_i hne
      simp only [List.mem_map, mem_pyRange] at hq
      obtain ⟨s, hs, rfl⟩ := hq
      exact ⟨s, hs, i, hi, j, hj, hne, rfl⟩
    · simp at hq
  · rintro ⟨s, hs, i, hi, j, hj, hne, rfl⟩
    refine ⟨((i : ℤ) - 2, i), ⟨hi, rfl⟩, ((j : ℤ) - 2, j), ⟨hj, rfl⟩, ?_⟩
    rw [if_pos hne]
    simp only [List.mem_map, mem_pyRange]
    exact ⟨s, hs, rfl⟩

/-- One pair of hopping terms. -/
def HoppEntry (w : CMat) (b : ℤ → ℕ → ℤ) (q : Process Label × ℂ) : Prop :=
  ∃ s : ℤ, (0 ≤ s ∧ s < 2) ∧ ∃ i < 5, ∃ j < 5, w.val i j ≠ 0 ∧
    (q = (oneProcess (bathLabel (b s i)) (.imp 2 s ((j : ℤ) - 2)), w.val i j) ∨
     q = (oneProcess (.imp 2 s ((j : ℤ) - 2)) (bathLabel (b s i)), star (w.val i j)))

theorem mem_hHopp (vVal vCon : CMat) (con : Bool) (q : Process Label × ℂ) : q ∈ hHoppOperator vVal vCon con ↔
    HoppEntry vVal biVal q ∨ (con = true ∧ HoppEntry vCon biCon q) := by
  rw [hHoppOperator, Dict.update_nil_of_nodup _ (hHopp_nodup vVal vCon con)]
  simp only [List.mem_flatMap, mem_enumD, mem_pyRange, List.mem_append]
  constructor
  · rintro ⟨s, hs, ⟨m, i⟩, ⟨hi, e⟩, ⟨m', j⟩, ⟨hj, e'⟩, hq⟩
    dsimp only at *
    subst e e'
    rcases hq with hq | hq
    · split at hq
      · rename_i hne
        simp only [List.mem_cons, List.not_mem_nil, or_false] at hq
        exact Or.inl ⟨s, hs, i, hi, j, hj, hne, hq⟩
      · simp at hq
    · split at hq
      · rename_i hc
        split at hq
        · rename_i hne
          simp only [List.mem_cons, List.not_mem_nil, or_false] at hq
          exact Or.inr ⟨hc, s, hs, i, hi, j, hj, hne, hq⟩
        · simp at hq
      · simp at hq
  · rintro (⟨s, hs, i, hi, j, hj, hne, hq⟩ | ⟨hc, s, hs, i, hi, j, hj, hne, hq⟩)
    · refine ⟨s, hs, ((i : ℤ) - 2, i), ⟨hi, rfl⟩, ((j : ℤ) - 2, j), ⟨hj, rfl⟩, Or.inl ?_⟩
      rw [if_pos hne]
      simpa using hq
    · refine ⟨s, hs, ((i : ℤ) - 2, i), ⟨hi, rfl⟩, ((j : ℤ) - 2, j), ⟨hj, rfl⟩, Or.inr ?_⟩
      rw [if_pos hc, if_pos hne]
      simpa using hq

/-- One bath level or hopping between bath states. -/
def BathEntry (e : CMat) (b : ℤ → ℕ → ℤ) (q : Process Label × ℂ) : Prop :=
  ∃ s : ℤ, (0 ≤ s ∧ s < 2) ∧ ∃ i < 5, ∃ j < 5, e.val i j ≠ 0 ∧
    q = (oneProcess (bathLabel (b s i)) (bathLabel (b s j)), e.val i j)

theorem mem_eBath (eVal eCon : CMat) (con : Bool) (q : Process Label × ℂ) : q ∈ eBathOperator eVal eCon con ↔
    BathEntry eVal biVal q ∨ (con = true ∧ BathEntry eCon biCon q) := by
  rw [eBathOperator, Dict.update_nil_of_nodup _ (eBath_nodup eVal eCon con)]
  simp only [List.mem_flatMap, mem_enumD, mem_pyRange, List.mem_append]
  constructor
  · rintro ⟨s, hs, ⟨m, i⟩, ⟨hi, e⟩, ⟨m', j⟩, ⟨hj, e'⟩, hq⟩
    dsimp only at *
    rcases hq with hq | hq
    · split at hq
      · rename_i hne
        rw [List.mem_singleton] at hq
        exact Or.inl ⟨s, hs, i, hi, j, hj, hne, hq⟩
      · simp at hq
    · split at hq
      · rename_i hc
        split at hq
        · rename_i hne
          rw [List.mem_singleton] at hq
          exact Or.inr ⟨hc, s, hs, i, hi, j, hj, hne, hq⟩
        · simp at hq
      · simp at hq
  · rintro (⟨s, hs, i, hi, j, hj, hne, hq⟩ | ⟨hc, s, hs, i, hi, j, hj, hne, hq⟩)
    · refine ⟨s, hs, ((i : ℤ) - 2, i), ⟨hi, rfl⟩, ((j : ℤ) - 2, j), ⟨hj, rfl⟩, Or.inl ?_⟩
      rw [if_pos hne]
      simpa using hq
    · refine ⟨s, hs, ((i : ℤ) - 2, i), ⟨hi, rfl⟩, ((j : ℤ) - 2, j), ⟨hj, rfl⟩, Or.inr ?_⟩
      rw [if_pos hc, if_pos hne]
      simpa using hq

/-! ### meaning -/

theorem sum_range_eq_list (G : ℕ → ℂ) (n : ℕ) : ((List.range n).map G).sum = ∑ i ∈ range n, G i := by
  rw [← List.sum_toFinset _ List.nodup_range]
  congr 1
  ext x
  simp

theorem sum_enumD (G : ℤ × ℕ → ℂ) : (enumD.map G).sum = ∑ i ∈ range 5, G ((i : ℤ) - 2, i) := by
  rw [enumD_eq, List.map_map]
  exact (sum_range_eq_list _ _)

theorem sum_if_ne {α : Type} (x : ℂ) (L : List α) (F : α → ℂ) :
    ((if x ≠ 0 then L else []).map F).sum = if x ≠ 0 then (L.map F).sum else 0 := by
  split <;> simp

theorem hImp_meaning (h : CMat) (f : Label → ℕ) (v : Vec ℂ) (S : Finset ℕ) :
    operator (labelSpec f (hImpOperator h)) v S
      = ∑ s ∈ ({0, 1} : Finset ℤ), ∑ i ∈ range 5, ∑ j ∈ range 5, h.val i j *
          create (f (.imp 2 s ((i : ℤ) - 2))) (annihilate (f (.imp 2 s ((j : ℤ) - 2))) v) S := by
  rw [operator_labelSpec, hImpOperator, Dict.update_nil_of_nodup _ (hImp_nodup h), sum_map_flatMap, sum_enumD]
  simp only [sum_map_flatMap, sum_enumD, sum_if_ne, List.map_map, sum_pyRange, Ico_zero_two]
  rw [sum_comm' (t' := range 5) (s' := fun _ => ({0, 1} : Finset ℤ)) (by simp)]
  refine sum_congr rfl fun i _ => ?_
  rw [sum_comm]
  refine sum_congr rfl fun j _ => ?_
  split
  · refine sum_congr rfl fun s _ => ?_
    simp [oneProcess, product, ladder]
  · rename_i hz
    push Not at hz
    simp [hz]

theorem hHopp_meaning (vVal vCon : CMat) (con : Bool) (f : Label → ℕ) (v : Vec ℂ) (S : Finset ℕ) :
    operator (labelSpec f (hHoppOperator vVal vCon con)) v S
      = (∑ s ∈ ({0, 1} : Finset ℤ), ((∑ i ∈ range 5, ∑ j ∈ range 5, vVal.val i j *
            create (f (bathLabel (biVal s i))) (annihilate (f (.imp 2 s ((j : ℤ) - 2))) v) S)
          + ∑ i ∈ range 5, ∑ j ∈ range 5, star (vVal.val i j) *
            create (f (.imp 2 s ((j : ℤ) - 2))) (annihilate (f (bathLabel (biVal s i))) v) S))
        + if con then (∑ s ∈ ({0, 1} : Finset ℤ), ((∑ i ∈ range 5, ∑ j ∈ range 5, vCon.val i j *
            create (f (bathLabel (biCon s i))) (annihilate (f (.imp 2 s ((j : ℤ) - 2))) v) S)
          + ∑ i ∈ range 5, ∑ j ∈ range 5, star (vCon.val i j) *
            create (f (.imp 2 s ((j : ℤ) - 2))) (annihilate (f (bathLabel (biCon s i))) v) S)) else 0 := by
  rw [operator_labelSpec, hHoppOperator, Dict.update_nil_of_nodup _ (hHopp_nodup vVal vCon con), sum_map_flatMap]
  have e : ∀ (x : ℂ) (A B : ℂ), (if x ≠ 0 then x * A + star x * B else 0) = x * A + star x * B := by
    intro x A B
    split
    · rfl
    · rename_i hz; push Not at hz; simp [hz]
  simp only [sum_map_flatMap, sum_enumD, sum_pyRange, Ico_zero_two, List.map_append, List.sum_append, sum_if_ne]
  have e2 : ∀ (c : Bool) (x : ℂ) (L : List (Process Label × ℂ)) (F : Process Label × ℂ → ℂ),
      ((if c then (if x ≠ 0 then L else []) else []).map F).sum
        = if c then (if x ≠ 0 then (L.map F).sum else 0) else 0 := by
    intro c x L F
    cases c
    · simp
    · simp only [if_true, sum_if_ne]
  simp only [e2, List.map_cons, List.map_nil, List.sum_cons, List.sum_nil, add_zero]
  simp only [e]
  simp only [sum_add_distrib]
  cases con <;> simp [oneProcess, product, ladder, sum_add_distrib]

theorem eBath_meaning (eVal eCon : CMat) (con : Bool) (f : Label → ℕ) (v : Vec ℂ) (S : Finset ℕ) :
    operator (labelSpec f (eBathOperator eVal eCon con)) v S
      = (∑ s ∈ ({0, 1} : Finset ℤ), ∑ i ∈ range 5, ∑ j ∈ range 5, eVal.val i j *
            create (f (bathLabel (biVal s i))) (annihilate (f (bathLabel (biVal s j))) v) S)
        + if con then (∑ s ∈ ({0, 1} : Finset ℤ), ∑ i ∈ range 5, ∑ j ∈ range 5, eCon.val i j *
            create (f (bathLabel (biCon s i))) (annihilate (f (bathLabel (biCon s j))) v) S) else 0 := by
  rw [operator_labelSpec, eBathOperator, Dict.update_nil_of_nodup _ (eBath_nodup eVal eCon con), sum_map_flatMap]
  have e : ∀ (x : ℂ) (A : ℂ), (if x ≠ 0 then x * A else 0) = x * A := by
    intro x A
    split
    · rfl
    · rename_i hz; push Not at hz; simp [hz]
  simp only [sum_map_flatMap, sum_enumD, sum_pyRange, Ico_zero_two, List.map_append, List.sum_append, sum_if_ne]
  have e2 : ∀ (c : Bool) (x : ℂ) (L : List (Process Label × ℂ)) (F : Process Label × ℂ → ℂ),
      ((if c then (if x ≠ 0 then L else []) else []).map F).sum
        = if c then (if x ≠ 0 then (L.map F).sum else 0) else 0 := by
    intro c x L F
    cases c
    · simp
    · simp only [if_true, sum_if_ne]
  simp only [e2, List.map_cons, List.map_nil, List.sum_cons, List.sum_nil, add_zero]
  simp only [e]
  simp only [sum_add_distrib]
  cases con <;> simp [oneProcess, product, ladder]

end Verif
