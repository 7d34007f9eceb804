/-
C09, C10: the numbering of spin-orbitals and bath states.
-/
import Verif.Lemmas.Index

namespace Verif

open Spec

/-- A system with a shared bath: a p shell with 2 bath states, and an s and a d
shell that share 3 bath states. -/
def exSystem : NBaths := [(.int 1, 2), (.tup [0, 2], 3)]

theorem exSystem_good : GoodSystem exSystem := ⟨by decide, by decide⟩

/-- C09.  For every system with distinct angular momenta (integer keys and
tuple keys), `c2i` maps the labels of the system into `0, …, N-1` and `i2c`
maps back, and every index below `N` is hit. -/
theorem C09_bijection (nBaths : NBaths) (h : GoodSystem nBaths) :
    (∀ lab, InSystem nBaths lab →
      ∃ i : ℕ, i < nTotal nBaths ∧ c2i nBaths lab = .ok i ∧ i2c nBaths i = .ok lab) ∧
    (∀ i : ℕ, i < nTotal nBaths →
      ∃ lab, InSystem nBaths lab ∧ i2c nBaths i = .ok lab ∧ c2i nBaths lab = .ok i) := by
  constructor
  · intro lab hl
    rw [← mem_labels] at hl
    have hlt := List.idxOf_lt_length_of_mem hl
    refine ⟨(labels nBaths).idxOf lab, by rwa [← length_labels], ?_, ?_⟩
    · rw [c2i_eq, if_pos hl]
    · rw [i2c_eq, List.getElem?_eq_getElem hlt, List.getElem_idxOf]
  · intro i hi
    rw [← length_labels] at hi
    refine ⟨(labels nBaths)[i], ?_, ?_, ?_⟩
    · rw [← mem_labels]; exact List.getElem_mem hi
    · rw [i2c_eq, List.getElem?_eq_getElem hi]
    · exact c2i_of_getElem? h (List.getElem?_eq_getElem hi)

/-- C09, the order: the impurity spin-orbitals come first, shell by shell in the
order of the dict, spin by spin, `m` increasing; then the bath states, key by
key. -/
theorem C09_positions (nBaths : NBaths) (h : GoodSystem nBaths) :
    (∀ (l : ℕ) (s m : ℤ), InSystem nBaths (.imp l s m) →
      c2i nBaths (.imp l s m) = .ok (impStart nBaths l + (s.toNat * (2 * l + 1) + (m + l).toNat)) ∧
      impStart nBaths l + (s.toNat * (2 * l + 1) + (m + l).toNat) < nImpurity nBaths) ∧
    (∀ (lp : LKey) (b : ℤ), InSystem nBaths (.bath lp b) →
      c2i nBaths (.bath lp b) = .ok (bathStart nBaths lp + b.toNat) ∧
      nImpurity nBaths ≤ bathStart nBaths lp + b.toNat) := by
  constructor
  · rintro l s m ⟨hl, h1, h2, h3, h4⟩
    have := labels_imp (d := nBaths) hl h1 h2 h3 h4
    refine ⟨c2i_of_getElem? h this, ?_⟩
    by_contra hc
    rw [labels, List.getElem?_append_right (by rw [length_impLabels]; omega)] at this
    have hm := List.mem_of_getElem? this
    simp [bathLabels, bathLabelsOf] at hm
  · rintro lp b ⟨nb, hl, h1, h2⟩
    exact ⟨c2i_of_getElem? h (labels_bath h.keys hl h1 h2), by rw [bathStart]; omega⟩

example : ∃ i : ℕ, i < nTotal exSystem ∧ c2i exSystem (.imp 2 1 (-1)) = .ok i ∧
    i2c exSystem i = .ok (.imp 2 1 (-1)) :=
  (C09_bijection exSystem exSystem_good).1 _ (by simp [InSystem]; decide)

/-- The index of a d orbital of spin 1 in the example, computed by the model. -/
example : c2i exSystem (.imp 2 1 (-1)) = .ok 14 ∧ c2i exSystem (.bath (.tup [0, 2]) 1) = .ok 21 ∧
    i2c exSystem 21 = .ok (.bath (.tup [0, 2]) 1) ∧ nTotal exSystem = 23 := by decide +kernel

/-- C10.  For every dict, `c2i` raises exactly for labels outside the system and
`i2c` raises exactly for indices `≥ N`. -/
theorem C10_rejects (nBaths : NBaths) :
    (∀ lab, c2i nBaths lab = .error .exception ↔ ¬ InSystem nBaths lab) ∧
    (∀ lab, (∃ i, c2i nBaths lab = .ok i) ↔ InSystem nBaths lab) ∧
    (∀ i : ℕ, i2c nBaths i = .error .exception ↔ nTotal nBaths ≤ i) ∧
    (∀ i : ℕ, (∃ lab, i2c nBaths i = .ok lab) ↔ i < nTotal nBaths) := by
  refine ⟨fun lab => ?_, fun lab => ?_, fun i => ?_, fun i => ?_⟩
  · rw [c2i_eq, ← mem_labels]; split <;> simp_all
  · rw [c2i_eq, ← mem_labels]; split <;> simp_all
  · rw [i2c_eq, ← length_labels, ← List.getElem?_eq_none_iff]
    cases (labels nBaths)[i]? <;> simp
  · rw [i2c_eq, ← length_labels, ← not_le, ← List.getElem?_eq_none_iff]
    cases (labels nBaths)[i]? <;> simp

example : c2i exSystem (.imp 2 2 0) = .error .exception ∧ c2i exSystem (.bath (.int 0) 0) = .error .exception ∧
    i2c exSystem 23 = .error .exception := by decide +kernel

/-- What `i2c` does with a negative index: it does not raise, it returns a bath
state with a negative number, which no `c2i` accepts. -/
theorem C10_negative_index (lp : LKey) (nb : ℕ) (nBaths : NBaths) (i : ℤ) (hi : i < 0) :
    ∃ lab, i2c ((lp, nb) :: nBaths) i = .ok lab ∧ ¬ InSystem ((lp, nb) :: nBaths) lab ∧
      c2i ((lp, nb) :: nBaths) lab = .error .exception := by
  obtain ⟨b, hb, h⟩ := i2c_neg lp nb nBaths i hi
  have : ¬ InSystem ((lp, nb) :: nBaths) (.bath lp b) := by
    rintro ⟨nb', _, h1, _⟩; omega
  exact ⟨_, h, this, ((C10_rejects _).1 _).2 this⟩

example : i2c exSystem (-1) = .ok (.bath (.int 1) (-37)) := by decide +kernel

end Verif
