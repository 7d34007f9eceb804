/-
Helper lemmas: expectation values and angular momentum operators.
-/
import Verif.Model.Observables
import Verif.Spec.Observables
import Verif.Lemmas.OneBodyAlg
import Verif.Lemmas.States
import Verif.Lemmas.Index
import Verif.Lemmas.GetBasis
import Verif.Lemmas.Cache
import Verif.Prop.Index

set_option linter.unusedSectionVars false
set_option linter.unusedSimpArgs false

namespace Verif

open Spec Finset Psr

section
variable (nBaths : Dict ℕ ℕ)

/-- The spin-orbital number of a label in a system with integer keys. -/
abbrev pos (nBaths : Dict ℕ ℕ) : Label → ℕ := position (intKeys nBaths)

theorem nSpinOrbitals_eq : nSpinOrbitals nBaths = nTotal (intKeys nBaths) := nTotal_intKeys nBaths

variable {nBaths} (hn : Dict.NodupKeys nBaths) {l : ℕ} (hl : l ∈ Dict.keys nBaths)
include hn hl

theorem inSystem_shell {x : ℤ × ℤ} (hx : x ∈ shell l) : InSystem (intKeys nBaths) (.imp l x.1 x.2) := by
  rw [mem_shell] at hx
  refine ⟨by rw [allAngulars_intKeys]; exact hl, ?_⟩
  omega

theorem c2i_shell {x : ℤ × ℤ} (hx : x ∈ shell l) :
    c2i (intKeys nBaths) (.imp l x.1 x.2) = .ok (pos nBaths (.imp l x.1 x.2)) :=
  ((C09_positions _ (goodSystem_intKeys hn)).1 l x.1 x.2 (inSystem_shell hn hl hx)).1

theorem pos_lt {x : ℤ × ℤ} (hx : x ∈ shell l) : pos nBaths (.imp l x.1 x.2) < nSpinOrbitals nBaths := by
  have := ((C09_positions _ (goodSystem_intKeys hn)).1 l x.1 x.2 (inSystem_shell hn hl hx)).2
  rw [nSpinOrbitals_eq, nTotal]
  exact Nat.lt_of_lt_of_le this (Nat.le_add_right _ _)

theorem i2c_pos {x : ℤ × ℤ} (hx : x ∈ shell l) :
    i2c (intKeys nBaths) (pos nBaths (.imp l x.1 x.2)) = .ok (.imp l x.1 x.2) := by
  obtain ⟨i, _, h1, h2⟩ := (C09_bijection _ (goodSystem_intKeys hn)).1 _ (inSystem_shell hn hl hx)
  rw [c2i_shell hn hl hx] at h1
  cases h1
  exact h2

theorem pos_inj {x y : ℤ × ℤ} (hx : x ∈ shell l) (hy : y ∈ shell l)
    (h : pos nBaths (.imp l x.1 x.2) = pos nBaths (.imp l y.1 y.2)) : x = y := by
  have h1 := i2c_pos hn hl hx
  rw [h, i2c_pos hn hl hy] at h1
  simp only [Except.ok.injEq, Label.imp.injEq, true_and] at h1
  exact Prod.ext h1.1.symm h1.2.symm

end

/-! ### `c(n, i, a(n, j, psi))` -/

theorem hop_spec {n i j : ℕ} (hi : i < n) (hj : j < n) {psi : Psi ℂ} (hpsi : IsState n psi) :
    ∃ psi', hop n i j psi = .ok psi' ∧ IsState n psi' ∧
      ampl n psi' = create i (annihilate j (ampl n psi)) := by
  obtain ⟨p1, h1, s1, _, a1⟩ := opA_spec hj hpsi
  obtain ⟨p2, h2, s2, _, a2⟩ := opC_spec hi s1
  refine ⟨p2, ?_, s2, ?_⟩
  · simp only [hop, h1]; exact h2
  · rw [a2, a1]

theorem create_annihilate_self (i : ℕ) (v : Vec ℂ) (S : Finset ℕ) :
    create i (annihilate i v) S = if i ∈ S then v S else 0 := by
  unfold create annihilate
  split
  · next h =>
    rw [if_neg (notMem_erase i S), insert_erase h, sgn_erase_self, ← mul_assoc, sgn_sq, one_mul]
  · rfl

section
variable {nBaths : Dict ℕ ℕ} (hn : Dict.NodupKeys nBaths) {l : ℕ} (hl : l ∈ Dict.keys nBaths)
  {psi : Psi ℂ} (hpsi : IsState (nSpinOrbitals nBaths) psi)
include hn hl hpsi

theorem hopStep_spec {x y : ℤ × ℤ} (hx : x ∈ shell l) (hy : y ∈ shell l) (c : ℂ) {acc : Psi ℂ}
    (hacc : IsState (nSpinOrbitals nBaths) acc) :
    ∃ psi', hopStep nBaths psi (.imp l x.1 x.2) (.imp l y.1 y.2) c acc = .ok psi' ∧
      IsState (nSpinOrbitals nBaths) psi' ∧
      ∀ S, ampl (nSpinOrbitals nBaths) psi' S = ampl (nSpinOrbitals nBaths) acc S
        + c * create (pos nBaths (.imp l x.1 x.2)) (annihilate (pos nBaths (.imp l y.1 y.2))
          (ampl (nSpinOrbitals nBaths) psi)) S := by
  obtain ⟨p, h1, s1, a1⟩ := hop_spec (pos_lt hn hl hx) (pos_lt hn hl hy) hpsi
  refine ⟨addToFirst acc p c, ?_, isState_addFold (fun v => v * c) hacc s1, ?_⟩
  · simp only [hopStep, c2i_shell hn hl hx, c2i_shell hn hl hy, bind, Except.bind, h1]
    rfl
  · intro S
    have := ampl_addFold (n := nSpinOrbitals nBaths) (fun v => v * c) (by simp) (psi1 := acc) s1 S
    refine Eq.trans this ?_
    simp only [a1]
    rw [mul_comm]

theorem terms_spec (L : List (ℤ × ℤ)) (g : ℤ × ℤ → ℤ × ℤ) (c : ℤ × ℤ → ℂ)
    (hL : ∀ y ∈ L, y ∈ shell l ∧ g y ∈ shell l) (acc : Psi ℂ)
    (hacc : IsState (nSpinOrbitals nBaths) acc) :
    ∃ psi', L.foldlM (fun a (y : ℤ × ℤ) =>
        hopStep nBaths psi (.imp l (g y).1 (g y).2) (.imp l y.1 y.2) (c y) a) acc = .ok psi' ∧
      IsState (nSpinOrbitals nBaths) psi' ∧
      ∀ S, ampl (nSpinOrbitals nBaths) psi' S = ampl (nSpinOrbitals nBaths) acc S
        + (L.map fun (y : ℤ × ℤ) => c y * create (pos nBaths (.imp l (g y).1 (g y).2))
            (annihilate (pos nBaths (.imp l y.1 y.2)) (ampl (nSpinOrbitals nBaths) psi)) S).sum := by
  induction L generalizing acc with
  | nil => exact ⟨acc, rfl, hacc, fun S => by simp⟩
  | cons y L ih =>
    obtain ⟨p, h1, s1, a1⟩ := hopStep_spec hn hl hpsi (hL y (by simp)).2 (hL y (by simp)).1 (c y) hacc
    obtain ⟨q, h2, s2, a2⟩ := ih (fun z hz => hL z (by simp [hz])) p s1
    refine ⟨q, ?_, s2, ?_⟩
    · rw [List.foldlM_cons, h1]; exact h2
    · intro S
      rw [a2, a1, List.map_cons, List.sum_cons, add_assoc]

theorem graph_spec (L : List (ℤ × ℤ)) (hnd : L.Nodup) (g : ℤ × ℤ → ℤ × ℤ) (c : ℤ × ℤ → ℂ)
    (hL : ∀ y ∈ L, y ∈ shell l ∧ g y ∈ shell l) (M : ℤ × ℤ → ℤ × ℤ → ℂ)
    (hM : ∀ x ∈ shell l, ∀ y ∈ shell l, M x y = if y ∈ L ∧ x = g y then c y else 0) :
    ∃ psi', L.foldlM (fun a (y : ℤ × ℤ) =>
        hopStep nBaths psi (.imp l (g y).1 (g y).2) (.imp l y.1 y.2) (c y) a) [] = .ok psi' ∧
      IsState (nSpinOrbitals nBaths) psi' ∧
      ampl (nSpinOrbitals nBaths) psi' = oneBody (pos nBaths) l M (ampl (nSpinOrbitals nBaths) psi) := by
  obtain ⟨p, h1, s1, a1⟩ := terms_spec hn hl hpsi L g c hL [] (isState_nil _)
  refine ⟨p, h1, s1, ?_⟩
  funext S
  rw [a1 S]
  have h0 : ampl (nSpinOrbitals nBaths) ([] : Psi ℂ) S = 0 := by
    unfold ampl; split <;> rfl
  rw [h0, zero_add, ← List.sum_toFinset _ hnd]
  unfold oneBody
  rw [sum_product, sum_comm]
  have hsub : L.toFinset ⊆ shell l := by
    intro y hy; exact (hL y (List.mem_toFinset.1 hy)).1
  rw [← sum_subset hsub]
  · refine sum_congr rfl fun y hy => ?_
    have hy' := List.mem_toFinset.1 hy
    rw [sum_eq_single (g y)]
    · rw [hM _ (hL y hy').2 _ (hL y hy').1, if_pos ⟨hy', rfl⟩]
    · intro x hx hne
      rw [hM _ hx _ (hL y hy').1, if_neg (fun h => hne h.2), zero_mul]
    · intro h; exact absurd (hL y hy').2 h
  · intro y hy hny
    apply sum_eq_zero
    intro x hx
    rw [hM _ hx _ hy, if_neg (fun h => hny (List.mem_toFinset.2 h.1)), zero_mul]

end

theorem foldlM_flatMap {α β γ : Type} (f : β → γ → Py β) (g : α → List γ) (L : List α) (b : β) :
    (L.flatMap g).foldlM f b = L.foldlM (fun b a => (g a).foldlM f b) b := by
  induction L generalizing b with
  | nil => rfl
  | cons x L ih =>
    rw [List.flatMap_cons, List.foldlM_append, List.foldlM_cons]
    congr 1; funext c; exact ih c

/-- The pairs `(s, m)` in loop order. -/
def shellList (a b : ℤ) : List (ℤ × ℤ) := (pyRange 0 2).flatMap fun s => (pyRange a b).map fun m => (s, m)

theorem mem_shellList {a b : ℤ} {y : ℤ × ℤ} :
    y ∈ shellList a b ↔ (y.1 = 0 ∨ y.1 = 1) ∧ a ≤ y.2 ∧ y.2 < b := by
  obtain ⟨s, m⟩ := y
  simp only [shellList, List.mem_flatMap, List.mem_map, mem_pyRange, Prod.mk.injEq]
  constructor
  · rintro ⟨s', h1, m', h2, rfl, rfl⟩; omega
  · rintro ⟨h1, h2⟩; exact ⟨s, by omega, m, h2, rfl, rfl⟩

theorem nodup_shellList (a b : ℤ) : (shellList a b).Nodup := by
  rw [shellList, List.nodup_flatMap]
  constructor
  · intro s _
    exact List.Nodup.map (fun x y h => by simpa using h) (nodup_pyRange _ _)
  · refine (nodup_pyRange 0 2).imp ?_
    intro s s' hne x h1 h2
    simp only [List.mem_map] at h1 h2
    obtain ⟨m, _, rfl⟩ := h1
    obtain ⟨m', _, h⟩ := h2
    exact hne (by simpa using (congrArg Prod.fst h).symm)

theorem foldlM_shellList {β : Type} (f : β → ℤ × ℤ → Py β) (a b : ℤ) (x : β) :
    (shellList a b).foldlM f x
      = (pyRange 0 2).foldlM (fun x s => (pyRange a b).foldlM (fun x m => f x (s, m)) x) x := by
  rw [shellList, foldlM_flatMap]
  congr 1; funext y s
  rw [List.foldlM_map]

section
variable {nBaths : Dict ℕ ℕ} (hn : Dict.NodupKeys nBaths) (hl : 2 ∈ Dict.keys nBaths)
  {psi : Psi ℂ} (hpsi : IsState (nSpinOrbitals nBaths) psi)
include hn hl hpsi

theorem applySz3d_spec : ∃ psi', applySz3d nBaths psi = .ok psi' ∧ IsState (nSpinOrbitals nBaths) psi' ∧
    ampl (nSpinOrbitals nBaths) psi'
      = oneBody (pos nBaths) 2 (spinOp sZ) (ampl (nSpinOrbitals nBaths) psi) := by
  have := graph_spec hn hl hpsi (shellList (-2) 3) (nodup_shellList _ _) id
    (fun y => if y.1 = 1 then 1 / 2 else -1 / 2) (fun y hy => by
      rw [mem_shellList] at hy; simp only [id, mem_shell]; push_cast; omega) (spinOp sZ) (by
      intro x hx y hy
      have : y ∈ shellList (-2) 3 := by
        rw [mem_shell] at hy; rw [mem_shellList]; push_cast at hy; omega
      simp only [this, true_and, id, spinOp, sZ, delta, Prod.ext_iff]
      by_cases h1 : x.1 = y.1 <;> by_cases h2 : x.2 = y.2 <;> simp [h1, h2])
  rw [foldlM_shellList] at this
  exact this

theorem applyLz3d_spec : ∃ psi', applyLz3d nBaths psi = .ok psi' ∧ IsState (nSpinOrbitals nBaths) psi' ∧
    ampl (nSpinOrbitals nBaths) psi'
      = oneBody (pos nBaths) 2 (orbOp lZ) (ampl (nSpinOrbitals nBaths) psi) := by
  have := graph_spec hn hl hpsi (shellList (-2) 3) (nodup_shellList _ _) id
    (fun y => (y.2 : ℂ)) (fun y hy => by
      rw [mem_shellList] at hy; simp only [id, mem_shell]; push_cast; omega) (orbOp lZ) (by
      intro x hx y hy
      have : y ∈ shellList (-2) 3 := by
        rw [mem_shell] at hy; rw [mem_shellList]; push_cast at hy; omega
      simp only [this, true_and, id, orbOp, lZ, delta, Prod.ext_iff]
      by_cases h1 : x.1 = y.1 <;> by_cases h2 : x.2 = y.2 <;> simp [h1, h2])
  rw [foldlM_shellList] at this
  exact this

theorem applySplus3d_spec : ∃ psi', applySplus3d nBaths psi = .ok psi' ∧ IsState (nSpinOrbitals nBaths) psi' ∧
    ampl (nSpinOrbitals nBaths) psi'
      = oneBody (pos nBaths) 2 (spinOp sPlus) (ampl (nSpinOrbitals nBaths) psi) := by
  have := graph_spec hn hl hpsi ((pyRange (-2) 3).map fun m => ((0 : ℤ), m))
    (List.Nodup.map (fun x y h => by simpa using h) (nodup_pyRange _ _)) (fun y => (1, y.2))
    (fun y => 1) (fun y hy => by
      simp only [List.mem_map, mem_pyRange] at hy
      obtain ⟨m, hm, rfl⟩ := hy
      constructor <;> rw [mem_shell] <;> push_cast <;> exact ⟨by simp, by omega, by omega⟩) (spinOp sPlus) (by
      intro x hx y hy
      have : y ∈ ((pyRange (-2) 3).map fun m => ((0 : ℤ), m)) ↔ y.1 = 0 := by
        rw [mem_shell] at hy
        simp only [List.mem_map, mem_pyRange]
        push_cast at hy
        constructor
        · rintro ⟨m, hm, rfl⟩; rfl
        · intro h; exact ⟨y.2, by omega, by rw [← h]⟩
      simp only [this, spinOp, sPlus, delta, Prod.ext_iff]
      by_cases h1 : x.1 = 1 <;> by_cases h2 : x.2 = y.2 <;> by_cases h3 : y.1 = 0 <;> simp [h1, h2, h3])
  rw [List.foldlM_map] at this
  exact this

theorem applySminus3d_spec : ∃ psi', applySminus3d nBaths psi = .ok psi' ∧ IsState (nSpinOrbitals nBaths) psi' ∧
    ampl (nSpinOrbitals nBaths) psi'
      = oneBody (pos nBaths) 2 (spinOp sMinus) (ampl (nSpinOrbitals nBaths) psi) := by
  have := graph_spec hn hl hpsi ((pyRange (-2) 3).map fun m => ((1 : ℤ), m))
    (List.Nodup.map (fun x y h => by simpa using h) (nodup_pyRange _ _)) (fun y => (0, y.2))
    (fun y => 1) (fun y hy => by
      simp only [List.mem_map, mem_pyRange] at hy
      obtain ⟨m, hm, rfl⟩ := hy
      constructor <;> rw [mem_shell] <;> push_cast <;> exact ⟨by simp, by omega, by omega⟩) (spinOp sMinus) (by
      intro x hx y hy
      have : y ∈ ((pyRange (-2) 3).map fun m => ((1 : ℤ), m)) ↔ y.1 = 1 := by
        rw [mem_shell] at hy
        simp only [List.mem_map, mem_pyRange]
        push_cast at hy
        constructor
        · rintro ⟨m, hm, rfl⟩; rfl
        · intro h; exact ⟨y.2, by omega, by rw [← h]⟩
      simp only [this, spinOp, sMinus, delta, Prod.ext_iff]
      by_cases h1 : x.1 = 0 <;> by_cases h2 : x.2 = y.2 <;> by_cases h3 : y.1 = 1 <;> simp [h1, h2, h3])
  rw [List.foldlM_map] at this
  exact this

theorem applyLplus3d_spec : ∃ psi', applyLplus3d nBaths psi = .ok psi' ∧ IsState (nSpinOrbitals nBaths) psi' ∧
    ampl (nSpinOrbitals nBaths) psi'
      = oneBody (pos nBaths) 2 (orbOp (lPlus 2)) (ampl (nSpinOrbitals nBaths) psi) := by
  have := graph_spec hn hl hpsi (shellList (-2) 2) (nodup_shellList _ _) (fun y => (y.1, y.2 + 1))
    (fun y => ((Real.sqrt ((2 - y.2) * (2 + y.2 + 1)) : ℝ) : ℂ)) (fun y hy => by
      rw [mem_shellList] at hy; simp only [mem_shell]; push_cast; omega) (orbOp (lPlus 2)) (by
      intro x hx y hy
      rw [mem_shell] at hy hx
      push_cast at hy hx
      simp only [mem_shellList, orbOp, lPlus, delta, Prod.ext_iff]
      by_cases h1 : x.1 = y.1 <;> by_cases h2 : x.2 = y.2 + 1
      · rw [if_pos h1, if_pos h2, if_pos ⟨⟨hy.1, by omega, by omega⟩, h1, h2⟩]; simp
      · simp [h1, h2]
      · simp [h1, h2]
      · simp [h1, h2])
  rw [foldlM_shellList] at this
  exact this

theorem applyLminus3d_spec : ∃ psi', applyLminus3d nBaths psi = .ok psi' ∧ IsState (nSpinOrbitals nBaths) psi' ∧
    ampl (nSpinOrbitals nBaths) psi'
      = oneBody (pos nBaths) 2 (orbOp (lMinus 2)) (ampl (nSpinOrbitals nBaths) psi) := by
  have := graph_spec hn hl hpsi (shellList (-2 + 1) 3) (nodup_shellList _ _) (fun y => (y.1, y.2 - 1))
    (fun y => ((Real.sqrt ((2 + y.2) * (2 - y.2 + 1)) : ℝ) : ℂ)) (fun y hy => by
      rw [mem_shellList] at hy; simp only [mem_shell]; push_cast; omega) (orbOp (lMinus 2)) (by
      intro x hx y hy
      rw [mem_shell] at hy hx
      push_cast at hy hx
      simp only [mem_shellList, orbOp, lMinus, delta, Prod.ext_iff]
      by_cases h1 : x.1 = y.1 <;> by_cases h2 : x.2 = y.2 - 1
      · rw [if_pos h1, if_pos h2, if_pos ⟨⟨hy.1, by omega, by omega⟩, h1, h2⟩]; simp
      · simp [h1, h2]
      · simp [h1, h2]
      · simp [h1, h2])
  rw [foldlM_shellList] at this
  exact this

end

end Verif
