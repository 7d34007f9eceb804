/-
Helper lemmas: dipole and NIXS operators.
-/
import Verif.Lemmas.Photo
import Verif.Lemmas.Operators

set_option linter.unusedSectionVars false
set_option linter.unusedSimpArgs false

namespace Verif

open Spec Finset Psr

/-! ### positions in a system with arbitrary keys -/

section
variable {nBaths : NBaths} (h : GoodSystem nBaths)
include h

theorem c2i_imp {l : ℕ} {s m : ℤ} (hx : InSystem nBaths (.imp l s m)) :
    c2i nBaths (.imp l s m) = .ok (position nBaths (.imp l s m)) :=
  ((C09_positions _ h).1 l s m hx).1

theorem position_imp_lt {l : ℕ} {s m : ℤ} (hx : InSystem nBaths (.imp l s m)) :
    position nBaths (.imp l s m) < nTotal nBaths := by
  have := ((C09_positions _ h).1 l s m hx).2
  rw [nTotal]
  exact Nat.lt_of_lt_of_le this (Nat.le_add_right _ _)

theorem position_imp_inj {l l' : ℕ} {s m s' m' : ℤ} (hx : InSystem nBaths (.imp l s m))
    (hy : InSystem nBaths (.imp l' s' m'))
    (e : position nBaths (.imp l s m) = position nBaths (.imp l' s' m')) : l = l' ∧ s = s' ∧ m = m' := by
  obtain ⟨i, _, h1, h2⟩ := (C09_bijection _ h).1 _ hx
  obtain ⟨j, _, h3, h4⟩ := (C09_bijection _ h).1 _ hy
  rw [c2i_imp h hx] at h1
  rw [c2i_imp h hy] at h3
  cases h1
  cases h3
  rw [e, h4] at h2
  simp only [Except.ok.injEq, Label.imp.injEq] at h2
  exact ⟨h2.1.symm, h2.2.1.symm, h2.2.2.symm⟩

end

theorem sum_pyRange {M : Type} [AddCommMonoid M] (a b : ℤ) (F : ℤ → M) :
    ((pyRange a b).map F).sum = ∑ x ∈ Ico a b, F x := by
  rw [← List.sum_toFinset _ (nodup_pyRange a b)]
  refine sum_congr ?_ fun _ _ => rfl
  ext x
  simp [mem_pyRange]

theorem sum_map_flatMap {M α β : Type} [AddCommMonoid M] (L : List α) (g : α → List β) (F : β → M) :
    ((L.flatMap g).map F).sum = (L.map fun a => ((g a).map F).sum).sum := by
  induction L with
  | nil => rfl
  | cons a L ih => rw [List.flatMap_cons, List.map_append, List.sum_append, ih, List.map_cons, List.sum_cons]

theorem Ico_eq_mRange (l : ℕ) : Ico (-(l : ℤ)) (l + 1) = mRange l := by
  ext x
  simp only [mRange, mem_Ico, mem_Icc]
  omega

theorem Ico_zero_two : Ico (0 : ℤ) 2 = {0, 1} := by decide

theorem foldl_cond_set {α κ ν : Type} [DecidableEq κ] (L : List α) (p : α → Prop) [DecidablePred p]
    (f : α → κ) (g : α → ν) (d : Dict κ ν) :
    L.foldl (fun d x => if p x then Dict.set d (f x) (g x) else d) d
      = (L.filter p).foldl (fun d x => Dict.set d (f x) (g x)) d := by
  induction L generalizing d with
  | nil => rfl
  | cons x L ih =>
    rw [List.foldl_cons, ih]
    by_cases hx : p x
    · simp [hx]
    · simp [hx]

theorem sum_filter_ne_zero {α : Type} (L : List α) (t : α → ℂ) (F : α → ℂ) :
    (((L.filter fun x => t x ≠ 0).map fun x => t x * F x)).sum = (L.map fun x => t x * F x).sum := by
  induction L with
  | nil => rfl
  | cons x L ih =>
    by_cases hx : t x = 0
    · rw [List.filter_cons_of_neg (by simpa using hx), ih, List.map_cons, List.sum_cons, hx, zero_mul, zero_add]
    · rw [List.filter_cons_of_pos (by simpa using hx), List.map_cons, List.sum_cons, ih, List.map_cons, List.sum_cons]

theorem foldlM_eq_foldl {α σ : Type} (step : σ → α → Py σ) (f : σ → α → σ) (L : List α)
    (h : ∀ x ∈ L, ∀ d, step d x = .ok (f d x)) (d : σ) : L.foldlM step d = .ok (L.foldl f d) := by
  induction L generalizing d with
  | nil => rfl
  | cons x L ih =>
    rw [List.foldlM_cons, h x (by simp) d, List.foldl_cons]
    exact ih (fun y hy => h y (by simp [hy])) _

/-! ### the dipole operator -/

section
variable (gaunt : GauntFun) (nBaths : NBaths) (n : Vec3 ℂ) (l1 l2 : ℕ)

/-- The loop variables `(m, mp, s)` in loop order. -/
def dipList (l1 l2 : ℕ) : List (ℤ × ℤ × ℤ) :=
  (pyRange (-l2) (l2 + 1)).flatMap fun m => (pyRange (-l1) (l1 + 1)).flatMap fun mp =>
    (pyRange 0 2).map fun s => (m, mp, s)

theorem mem_dipList {x : ℤ × ℤ × ℤ} : x ∈ dipList l1 l2 ↔
    (-(l2 : ℤ) ≤ x.1 ∧ x.1 ≤ l2) ∧ (-(l1 : ℤ) ≤ x.2.1 ∧ x.2.1 ≤ l1) ∧ (0 ≤ x.2.2 ∧ x.2.2 < 2) := by
  obtain ⟨m, mp, s⟩ := x
  simp only [dipList, List.mem_flatMap, List.mem_map, mem_pyRange, Prod.mk.injEq]
  constructor
  · rintro ⟨m', h1, mp', h2, s', h3, rfl, rfl, rfl⟩; omega
  · rintro ⟨h1, h2, h3⟩; exact ⟨m, by omega, mp, by omega, s, h3, rfl, rfl, rfl⟩

theorem nodup_dipList : (dipList l1 l2).Nodup := by
  rw [dipList, List.nodup_flatMap]
  constructor
  · intro m _
    rw [List.nodup_flatMap]
    constructor
    · intro mp _
      exact List.Nodup.map (fun x y h => by simpa using h) (nodup_pyRange _ _)
    · refine (nodup_pyRange _ _).imp ?_
      intro a b hne x h1 h2
      simp only [List.mem_map] at h1 h2
      obtain ⟨s, _, rfl⟩ := h1
      obtain ⟨s', _, h⟩ := h2
      simp only [Prod.mk.injEq] at h
      exact hne h.2.1.symm
  · refine (nodup_pyRange _ _).imp ?_
    intro a b hne x h1 h2
    simp only [List.mem_map, List.mem_flatMap] at h1 h2
    obtain ⟨s, _, t, _, rfl⟩ := h1
    obtain ⟨s', _, t', _, h⟩ := h2
    simp only [Prod.mk.injEq] at h
    exact hne h.1.symm

/-- The process of one round. -/
def dipKey (x : ℤ × ℤ × ℤ) : Process ℕ :=
  [(position nBaths (.imp l2 x.2.2 x.1), .c), (position nBaths (.imp l1 x.2.2 x.2.1), .a)]

/-- The amplitude of one round. -/
noncomputable def dipVal (x : ℤ × ℤ × ℤ) : ℂ := dipole gaunt n.x n.y n.z l2 x.1 l1 x.2.1

theorem gauntC_eq_ck (k l : ℕ) (m : ℤ) (l' : ℕ) (m' : ℤ) : gauntC gaunt k l m l' m' = ck gaunt k l m l' m' := by
  unfold gauntC ck; ring

theorem dipole_of_far {m m' : ℤ} (h : ¬ |m - m'| ≤ 1) (nx ny nz : ℂ) : dipole gaunt nx ny nz l2 m l1 m' = 0 := by
  rw [abs_le] at h
  have h1 : ¬ m - m' = -1 := by omega
  have h2 : ¬ m - m' = 1 := by omega
  have h3 : ¬ m - m' = 0 := by omega
  simp [dipole, c1, h1, h2, h3]

theorem dipole_of_near {m m' : ℤ} (h : |m - m'| ≤ 1) :
    ∃ nq, Dict.get (nDict n) (m - m') = .ok nq ∧
      (gauntC gaunt 1 l2 m l1 m' : ℂ) * nq = dipole gaunt n.x n.y n.z l2 m l1 m' := by
  rw [abs_le] at h
  rw [gauntC_eq_ck]
  obtain h0 | h0 | h0 : m - m' = -1 ∨ m - m' = 0 ∨ m - m' = 1 := by omega
  · refine ⟨_, by rw [h0]; rfl, ?_⟩
    simp [dipole, c1, h0]
    ring
  · refine ⟨_, by rw [h0]; rfl, ?_⟩
    simp [dipole, c1, h0]
    ring
  · refine ⟨_, by rw [h0]; rfl, ?_⟩
    simp [dipole, c1, h0]
    ring

variable {nBaths} {l1 l2} (h : GoodSystem nBaths) (h1 : l1 ∈ allAngulars nBaths) (h2 : l2 ∈ allAngulars nBaths)
include h h1 h2

open Classical in
theorem dipoleStep_eq {x : ℤ × ℤ × ℤ} (hx : x ∈ dipList l1 l2) (d : Op ℕ ℂ) :
    dipoleStep gaunt nBaths n l1 l2 d x.1 x.2.1 x.2.2
      = .ok (if dipVal gaunt n l1 l2 x ≠ 0 then
          Dict.set d (dipKey nBaths l1 l2 x) (dipVal gaunt n l1 l2 x) else d) := by
  obtain ⟨m, mp, s⟩ := x
  rw [mem_dipList] at hx
  dsimp only at hx ⊢
  unfold dipoleStep dipVal dipKey
  by_cases hm : |m - mp| ≤ 1
  · obtain ⟨nq, e1, e2⟩ := dipole_of_near gaunt n l1 l2 hm
    rw [if_pos hm, e1]
    simp only [bind, Except.bind, e2]
    by_cases h0 : dipole gaunt n.x n.y n.z l2 m l1 mp = 0
    · simp only [h0, ne_eq, not_true, if_false]; rfl
    · rw [if_pos h0, if_pos h0, c2i_imp h ⟨h2, by omega⟩, c2i_imp h ⟨h1, by omega⟩]
      rfl
  · rw [if_neg hm, if_neg (by simp [dipole_of_far gaunt l1 l2 hm])]; rfl

theorem inSystem_dip {x : ℤ × ℤ × ℤ} (hx : x ∈ dipList l1 l2) :
    InSystem nBaths (.imp l2 x.2.2 x.1) ∧ InSystem nBaths (.imp l1 x.2.2 x.2.1) := by
  rw [mem_dipList] at hx
  exact ⟨⟨h2, by omega⟩, ⟨h1, by omega⟩⟩

theorem dipKey_inj {x y : ℤ × ℤ × ℤ} (hx : x ∈ dipList l1 l2) (hy : y ∈ dipList l1 l2)
    (e : dipKey nBaths l1 l2 x = dipKey nBaths l1 l2 y) : x = y := by
  obtain ⟨a1, a2⟩ := inSystem_dip h h1 h2 hx
  obtain ⟨b1, b2⟩ := inSystem_dip h h1 h2 hy
  simp only [dipKey, List.cons.injEq, Prod.mk.injEq, and_true] at e
  have e1 := position_imp_inj h a1 b1 e.1
  have e2 := position_imp_inj h a2 b2 e.2
  exact Prod.ext e1.2.2 (Prod.ext e2.2.2 e1.2.1)

open Classical in
theorem dipole_loop :
    (pyRange (-l2) (l2 + 1)).foldlM (fun (tOp : Op ℕ ℂ) m =>
      (pyRange (-l1) (l1 + 1)).foldlM (fun (tOp : Op ℕ ℂ) mp =>
        (pyRange 0 2).foldlM (fun (tOp : Op ℕ ℂ) s =>
          dipoleStep gaunt nBaths n l1 l2 tOp m mp s) tOp) tOp) []
      = .ok (((dipList l1 l2).filter fun x => dipVal gaunt n l1 l2 x ≠ 0).map fun x =>
          (dipKey nBaths l1 l2 x, dipVal gaunt n l1 l2 x)) := by
  have e1 := foldlM_eq_foldl
    (fun (d : Op ℕ ℂ) (x : ℤ × ℤ × ℤ) => dipoleStep gaunt nBaths n l1 l2 d x.1 x.2.1 x.2.2)
    (fun d x => if dipVal gaunt n l1 l2 x ≠ 0 then
          Dict.set d (dipKey nBaths l1 l2 x) (dipVal gaunt n l1 l2 x) else d) (dipList l1 l2)
    (fun x hx d => dipoleStep_eq gaunt n h h1 h2 hx d) []
  rw [foldl_cond_set, Dict.foldl_set_fresh _ _ _ ?_ _ (by simp)] at e1
  · rw [dipList, foldlM_flatMap] at e1
    simp only [foldlM_flatMap, List.foldlM_map, List.nil_append] at e1
    exact e1
  · refine List.Nodup.map_on ?_ ((nodup_dipList l1 l2).filter _)
    intro x hx y hy e
    exact dipKey_inj h h1 h2 (List.mem_filter.1 hx).1 (List.mem_filter.1 hy).1 e

end

theorem operator_two_sum (L : List (ℤ × ℤ × ℤ)) (key1 key2 : ℤ × ℤ × ℤ → ℕ) (t : ℤ × ℤ × ℤ → ℂ) (v : Vec ℂ)
    (S : Finset ℕ) :
    operator (opSpec (L.map fun x => ([(key1 x, Action.c), (key2 x, Action.a)], t x))) v S
      = (L.map fun x => t x * create (key1 x) (annihilate (key2 x) v) S).sum := by
  simp only [operator, opSpec, List.map_map]
  congr 1

theorem sum_dipList (l1 l2 : ℕ) (F : ℤ × ℤ × ℤ → ℂ) :
    ((dipList l1 l2).map F).sum
      = ∑ s ∈ ({0, 1} : Finset ℤ), ∑ m ∈ mRange l2, ∑ mp ∈ mRange l1, F (m, mp, s) := by
  rw [dipList, sum_map_flatMap]
  simp only [sum_map_flatMap, List.map_map, Function.comp_def, sum_pyRange, Ico_eq_mRange, Ico_zero_two]
  rw [sum_congr rfl fun m _ => sum_comm]
  rw [sum_comm]

theorem hop_single (i j a b : ℕ) :
    create i (annihilate j (single {a} (1 : ℂ))) {b} = if i = b ∧ j = a then 1 else 0 := by
  unfold create annihilate single
  by_cases hi : i = b
  · subst hi
    by_cases hj : j = a
    · subst hj
      have e1 : below i {i} = 0 := by simp [below, filter_singleton]
      have e2 : below j ∅ = 0 := by simp [below]
      simp [sgn, e1, e2]
    · simp [hj]
  · simp [hi]

/-- Only the label with the given position contributes. -/
theorem between_single {nBaths : NBaths} (h : GoodSystem nBaths) {li lj : ℕ} (hi : li ∈ allAngulars nBaths)
    (hj : lj ∈ allAngulars nBaths) (M : ℤ → ℤ → ℂ) {s m m' : ℤ} (hs : s = 0 ∨ s = 1) (hm : |m| ≤ li)
    (hm' : |m'| ≤ lj) :
    between (position nBaths) li lj M (single {position nBaths (.imp lj s m')} 1) {position nBaths (.imp li s m)}
      = M m m' := by
  have hin : ∀ {l : ℕ}, l ∈ allAngulars nBaths → ∀ s ∈ ({0, 1} : Finset ℤ), ∀ m ∈ mRange l,
      InSystem nBaths (.imp l s m) := by
    intro l hl s hs m hm
    simp only [mem_insert, mem_singleton] at hs
    simp only [mRange, mem_Icc] at hm
    exact ⟨hl, by omega⟩
  have hs' : s ∈ ({0, 1} : Finset ℤ) := by simpa using hs
  have hm1 : m ∈ mRange li := by rw [abs_le] at hm; simp only [mRange, mem_Icc]; omega
  have hm2 : m' ∈ mRange lj := by rw [abs_le] at hm'; simp only [mRange, mem_Icc]; omega
  unfold between
  rw [sum_eq_single s, sum_eq_single m, sum_eq_single m', hop_single, if_pos ⟨rfl, rfl⟩, mul_one]
  · intro x hx hne
    rw [hop_single, if_neg, mul_zero]
    rintro ⟨-, e⟩
    exact hne (position_imp_inj h (hin hj s hs' x hx) (hin hj s hs' m' hm2) e).2.2
  · intro hn; exact absurd hm2 hn
  · intro x hx hne
    refine sum_eq_zero fun y hy => ?_
    rw [hop_single, if_neg, mul_zero]
    rintro ⟨e, -⟩
    exact hne (position_imp_inj h (hin hi s hs' x hx) (hin hi s hs' m hm1) e).2.2
  · intro hn; exact absurd hm1 hn
  · intro x hx hne
    refine sum_eq_zero fun y hy => sum_eq_zero fun z hz => ?_
    rw [hop_single, if_neg, mul_zero]
    rintro ⟨e, -⟩
    exact hne (position_imp_inj h (hin hi x hx y hy) (hin hi s hs' m hm1) e).2.1
  · intro hn; exact absurd hs' hn

end Verif
