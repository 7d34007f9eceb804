/-
Helper lemmas: photoemission operators.
-/
import Verif.Model.Transitions
import Verif.Spec.Transitions
import Verif.Lemmas.Observables
import Verif.Lemmas.ApplyOp

set_option linter.unusedSectionVars false
set_option linter.unusedSimpArgs false

namespace Verif

open Spec Finset Psr

theorem foldlM_collect {α β γ : Type} (f : α → Py β) (g : β → γ) (L : List α) (acc : List γ) :
    L.foldlM (fun (acc : List γ) x => do let i ← f x; return acc ++ [g i]) acc
      = (do let is ← L.mapM f; return acc ++ is.map g : Py (List γ)) := by
  induction L generalizing acc with
  | nil => simp [bind, Except.bind, pure, Except.pure]
  | cons x L ih =>
    rw [List.foldlM_cons, List.mapM_cons]
    cases hf : f x with
    | error e => rfl
    | ok i =>
      simp only [bind, Except.bind, pure, Except.pure] at ih ⊢
      rw [ih]
      cases L.mapM f with
      | error e => rfl
      | ok is => simp

theorem photo_loop (nBaths : NBaths) (l : ℕ) (x : Action) :
    (pyRange 0 2).foldlM (fun (tOps : List (Op ℕ ℂ)) s =>
      (pyRange (-l) (l + 1)).foldlM (fun (tOps : List (Op ℕ ℂ)) m => do
        let i ← c2i nBaths (.imp l s m)
        return tOps ++ [[([(i, x)], 1)]]) tOps) []
      = (do let is ← (shellLabels l).mapM (c2i nBaths)
            return is.map fun i => [([(i, x)], 1)] : Py (List (Op ℕ ℂ))) := by
  have := foldlM_collect (c2i nBaths) (fun i => ([([(i, x)], 1)] : Op ℕ ℂ)) (shellLabels l) []
  rw [shellLabels, foldlM_flatMap] at this
  simp only [List.foldlM_map, List.nil_append] at this
  exact this

theorem shell_mapM_c2i {nBaths : NBaths} (h : GoodSystem nBaths) {l : ℕ} (hl : l ∈ allAngulars nBaths) :
    (shellLabels l).mapM (c2i nBaths) = .ok (List.range' (impStart nBaths l) (2 * (2 * l + 1))) := by
  have := mapM_c2i h (impStart nBaths l) (shellLabels l) (fun j hj =>
    labels_shell hl (by rwa [length_shellLabels] at hj))
  rwa [length_shellLabels] at this

theorem mapM_error_first {α β : Type} (f : α → Py β) (x : α) (L : List α) (e : PyErr) (h : f x = .error e) :
    (x :: L).mapM f = .error e := by
  rw [List.mapM_cons, h]; rfl

theorem shell_mapM_error {nBaths : NBaths} {l : ℕ} (hl : l ∉ allAngulars nBaths) :
    (shellLabels l).mapM (c2i nBaths) = .error .exception := by
  cases hs : shellLabels l with
  | nil => have := length_shellLabels l; rw [hs] at this; simp at this
  | cons x L =>
    have hx : x ∈ shellLabels l := by rw [hs]; simp
    simp only [shellLabels, List.mem_flatMap, List.mem_map] at hx
    obtain ⟨s, _, m, _, rfl⟩ := hx
    exact mapM_error_first _ _ _ _ (((C10_rejects nBaths).1 _).2 fun h => hl h.1)

/-! ### weights -/

theorem weight_annihilate {n i : ℕ} (hi : i < n) (v : Vec ℂ) :
    ∑ S ∈ (range n).powerset, (abs2 (annihilate i v S) : ℝ)
      = ∑ S ∈ (range n).powerset, if i ∈ S then (abs2 (v S) : ℝ) else 0 := by
  have hsg : ∀ S : Finset ℕ, (abs2 ((sgn i S : ℂ)) : ℝ) = 1 := by
    intro S
    have h := congrArg (fun z => (abs2 z : ℝ)) (sgn_sq (R := ℂ) i S)
    simp only [Amp.abs2_mul, Amp.abs2_one] at h
    have h0 := Amp.abs2_nonneg (F := ℝ) (sgn i S : ℂ)
    nlinarith
  have e1 : ∀ S ∈ (range n).powerset, (abs2 (annihilate i v S) : ℝ)
      = if i ∉ S then (abs2 (v (insert i S)) : ℝ) else 0 := by
    intro S _
    unfold annihilate
    by_cases h : i ∈ S
    · simp [h, Amp.abs2_zero]
    · simp only [h, if_false, not_false_iff, if_true, Amp.abs2_mul, hsg, one_mul]
  rw [sum_congr rfl e1, ← sum_filter, ← sum_filter]
  refine sum_bij' (fun S _ => insert i S) (fun S _ => S.erase i) ?_ ?_ ?_ ?_ ?_
  · intro S hS
    simp only [mem_filter, mem_powerset] at hS ⊢
    exact ⟨insert_subset (mem_range.2 hi) hS.1, mem_insert_self _ _⟩
  · intro S hS
    simp only [mem_filter, mem_powerset] at hS ⊢
    exact ⟨(erase_subset _ _).trans hS.1, notMem_erase _ _⟩
  · intro S hS
    exact erase_insert (mem_filter.1 hS).2
  · intro S hS
    exact insert_erase (mem_filter.1 hS).2
  · intro S _; rfl

theorem weight_create {n i : ℕ} (hi : i < n) (v : Vec ℂ) :
    ∑ S ∈ (range n).powerset, (abs2 (create i v S) : ℝ)
      = ∑ S ∈ (range n).powerset, if i ∉ S then (abs2 (v S) : ℝ) else 0 := by
  have hsg : ∀ S : Finset ℕ, (abs2 ((sgn i S : ℂ)) : ℝ) = 1 := by
    intro S
    have h := congrArg (fun z => (abs2 z : ℝ)) (sgn_sq (R := ℂ) i S)
    simp only [Amp.abs2_mul, Amp.abs2_one] at h
    have h0 := Amp.abs2_nonneg (F := ℝ) (sgn i S : ℂ)
    nlinarith
  have e1 : ∀ S ∈ (range n).powerset, (abs2 (create i v S) : ℝ)
      = if i ∈ S then (abs2 (v (S.erase i)) : ℝ) else 0 := by
    intro S _
    unfold create
    by_cases h : i ∈ S
    · simp only [h, if_true, Amp.abs2_mul, hsg, one_mul]
    · simp [h, Amp.abs2_zero]
  rw [sum_congr rfl e1, ← sum_filter, ← sum_filter]
  refine sum_bij' (fun S _ => S.erase i) (fun S _ => insert i S) ?_ ?_ ?_ ?_ ?_
  · intro S hS
    simp only [mem_filter, mem_powerset] at hS ⊢
    exact ⟨(erase_subset _ _).trans hS.1, notMem_erase _ _⟩
  · intro S hS
    simp only [mem_filter, mem_powerset] at hS ⊢
    exact ⟨insert_subset (mem_range.2 hi) hS.1, mem_insert_self _ _⟩
  · intro S hS
    exact insert_erase (mem_filter.1 hS).2
  · intro S hS
    exact erase_insert (mem_filter.1 hS).2
  · intro S _; rfl

theorem operator_singleton (i : ℕ) (x : Action) (v : Vec ℂ) :
    operator (opSpec ([([(i, x)], 1)] : Op ℕ ℂ)) v = ladder i (x = .c) v := by
  funext S
  simp [operator, opSpec, processSpec, product]

theorem applyOp_one {n i : ℕ} (hi : i < n) (x : Action) {psi : Psi ℂ} (hpsi : IsState n psi) (cut : ℝ) :
    ∃ psi', applyOp n ([([(i, x)], 1)] : Op ℕ ℂ) psi cut none none = .ok (psi', none) ∧
      (norm2 psi' : ℝ) ≤ ∑ S ∈ (range n).powerset, (abs2 (ladder i (x = .c) (ampl n psi) S) : ℝ) ∧
      (cut ≤ 0 → (norm2 psi' : ℝ) = ∑ S ∈ (range n).powerset, (abs2 (ladder i (x = .c) (ampl n psi) S) : ℝ)) := by
  have hop : OpInSystem n ([([(i, x)], 1)] : Op ℕ ℂ) := by
    intro q hq y hy
    simp only [List.mem_singleton] at hq
    subst hq
    simp only [List.mem_singleton] at hy
    subst hy
    exact hi
  refine ⟨_, applyOp_eq hop hpsi cut none, ?_, ?_⟩
  · rw [norm2_eq (isState_applyOpPure hop hpsi cut none)]
    refine sum_le_sum fun S hS => ?_
    rw [ampl_applyOpPure hop hpsi cut none (mem_powerset.1 hS), operator_singleton]
    split
    · exact le_refl _
    · rw [Amp.abs2_zero]; exact Amp.abs2_nonneg _
  · intro hc
    rw [norm2_eq (isState_applyOpPure hop hpsi cut none)]
    refine sum_congr rfl fun S hS => ?_
    rw [ampl_applyOpPure hop hpsi cut none (mem_powerset.1 hS), operator_singleton, if_pos]
    exact ⟨trivial, hc.trans (Amp.abs2_nonneg _)⟩

theorem applyOp_all {n : ℕ} (is : List ℕ) (his : ∀ i ∈ is, i < n) (x : Action) {psi : Psi ℂ}
    (hpsi : IsState n psi) (cut : ℝ) :
    ∃ outs : List (Psi ℂ × Option (OpResult ℂ)),
      (is.map fun i => ([([(i, x)], 1)] : Op ℕ ℂ)).mapM (fun op => applyOp n op psi cut none none) = .ok outs ∧
      (outs.map fun o => (norm2 o.1 : ℝ)).sum ≤ (is.map fun i =>
        ∑ S ∈ (range n).powerset, (abs2 (ladder i (x = .c) (ampl n psi) S) : ℝ)).sum ∧
      (cut ≤ 0 → (outs.map fun o => (norm2 o.1 : ℝ)).sum = (is.map fun i =>
        ∑ S ∈ (range n).powerset, (abs2 (ladder i (x = .c) (ampl n psi) S) : ℝ)).sum) := by
  induction is with
  | nil => exact ⟨[], rfl, by simp, by simp⟩
  | cons i is ih =>
    obtain ⟨outs, h1, h2, h3⟩ := ih (fun j hj => his j (by simp [hj]))
    obtain ⟨p, g1, g2, g3⟩ := applyOp_one (his i (by simp)) x hpsi cut
    refine ⟨(p, none) :: outs, ?_, ?_, ?_⟩
    · rw [List.map_cons, List.mapM_cons, g1, h1]; rfl
    · simp only [List.map_cons, List.sum_cons]; linarith
    · intro hc
      simp only [List.map_cons, List.sum_cons]; rw [g3 hc, h3 hc]

theorem sum_range'_Ico (a k : ℕ) (F : ℕ → ℝ) :
    ((List.range' a k).map F).sum = ∑ i ∈ Ico a (a + k), F i := by
  induction k with
  | zero => simp
  | succ k ih =>
    rw [List.range'_concat, List.map_append, List.sum_append, ih, ← add_assoc, sum_Ico_succ_top (by omega)]
    simp

theorem shellSet_lt {nBaths : NBaths} (h : GoodSystem nBaths) {l : ℕ} (hl : l ∈ allAngulars nBaths) {i : ℕ}
    (hi : i ∈ shellSet nBaths l) : i < nTotal nBaths := by
  rw [shellSet, mem_Ico] at hi
  have := ((C09_positions _ h).1 l 1 l ⟨hl, by omega, by omega, by omega, by omega⟩).2
  simp only [Int.toNat_one, one_mul] at this
  rw [nTotal]
  omega

end Verif
