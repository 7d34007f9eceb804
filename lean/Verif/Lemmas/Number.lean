import Verif.Spec.Expand
import Verif.Lemmas.Fock

set_option linter.unusedSectionVars false

namespace Verif

open Finset Spec

section
variable {R F : Type} [CommRing R] [StarRing R] [CommRing F] [LinearOrder F]
  [IsStrictOrderedRing F] [Amp R F]

theorem product_card (p : List (ℕ × Bool)) (f : Vec R) (S : Finset ℕ) (h : product p f S ≠ 0) :
    ∃ T, f T ≠ 0 ∧ S.card + p.countP (fun x => !x.2) = T.card + p.countP (fun x => x.2) := by
  induction p generalizing S with
  | nil => exact ⟨S, h, by simp⟩
  | cons x p ih =>
    obtain ⟨i, b⟩ := x
    have h : ladder i b (product p f) S ≠ 0 := h
    unfold ladder at h
    cases b with
    | true =>
      simp only [if_true] at h
      unfold create at h
      split at h
      · rename_i hi
        obtain ⟨T, hT, hc⟩ := ih (S.erase i) (fun h0 => h (by rw [h0, mul_zero]))
        refine ⟨T, hT, ?_⟩
        have := card_erase_add_one hi
        simp only [List.countP_cons]
        simp
        omega
      · exact absurd rfl h
    | false =>
      simp only [Bool.false_eq_true, if_false] at h
      unfold annihilate at h
      split at h
      · exact absurd rfl h
      · rename_i hi
        obtain ⟨T, hT, hc⟩ := ih (insert i S) (fun h0 => h (by rw [h0, mul_zero]))
        refine ⟨T, hT, ?_⟩
        have := card_insert_of_notMem hi
        simp only [List.countP_cons]
        simp
        omega

theorem operator_card {op : Op ℕ R} (hop : NumberConserving op) (f : Vec R) (S : Finset ℕ)
    (h : operator (opSpec op) f S ≠ 0) : ∃ T, f T ≠ 0 ∧ S.card = T.card := by
  unfold operator opSpec at h
  rw [List.map_map] at h
  by_contra hno
  push Not at hno
  apply h
  apply List.sum_eq_zero
  intro x hx
  obtain ⟨q, hq, rfl⟩ := List.mem_map.1 hx
  simp only [Function.comp]
  by_cases h0 : product (processSpec q.1) f S = 0
  · rw [h0, mul_zero]
  · obtain ⟨T, hT, hc⟩ := product_card _ _ _ h0
    have hcc := hop q hq
    unfold processSpec at hc
    rw [List.countP_map, List.countP_map] at hc
    have e1 : ((fun x : ℕ × Bool => x.2) ∘ fun x : ℕ × Action => (x.1, decide (x.2 = .c)))
        = fun x => decide (x.2 = .c) := rfl
    have e2 : ((fun x : ℕ × Bool => !x.2) ∘ fun x : ℕ × Action => (x.1, decide (x.2 = .c)))
        = fun x => decide (x.2 = .a) := by
      funext x
      obtain ⟨i, act⟩ := x
      cases act <;> rfl
    rw [e1, e2] at hc
    exact absurd (by omega) (hno T hT)

theorem matrixElement_card {op : Op ℕ R} (hop : NumberConserving op) {S T : Finset ℕ}
    (h : matrixElement op S T ≠ 0) : S.card = T.card := by
  obtain ⟨T', hT', hc⟩ := operator_card hop _ _ h
  unfold single at hT'
  by_cases hTT : T' = T
  · rw [hc, hTT]
  · rw [if_neg hTT] at hT'; exact absurd rfl hT'

end
end Verif
