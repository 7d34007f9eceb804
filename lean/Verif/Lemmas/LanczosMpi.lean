/-
The distributed Lanczos recursion.
-/
import Verif.Model.Lanczos
import Verif.Lemmas.Mpi

set_option linter.unusedSimpArgs false

namespace Verif

open Matrix Mpi

noncomputable section

variable {n N : ℕ}

/-- Rank 0 has raised `e` and all other ranks wait in a broadcast from rank 0. -/
def RootFailed {M A : Type} (e : PyErr) (f : Fin N → Prog M A) : Prop :=
  ∀ r : Fin N, (r.val = 0 → f r = .fail e) ∧ (r.val ≠ 0 → ∃ v k, f r = .coll (.bcast 0) v k)

/-- Some schedule leads to `RootFailed`. -/
def RunsToFailure {M A : Type} (sum : List M → M) (P : Fin N → Prog M A) (e : PyErr) : Prop :=
  ∃ k f, Steps (SyncStep sum) k P f ∧ RootFailed e f

theorem RunsToFailure.bind_left {M A B : Type} {sum : List M → M} {P : Fin N → Prog M A} {e : PyErr}
    (h : RunsToFailure sum P e) (f : Fin N → A → Prog M B) :
    RunsToFailure sum (fun r => (P r).bind (f r)) e := by
  obtain ⟨k, g, hk, hg⟩ := h
  refine ⟨k, fun r => (g r).bind (f r), ?_, ?_⟩
  · clear hg
    induction hk with
    | refl a => exact .refl _
    | head h1 _ ih => exact .head (h1.bind f) ih
  · intro r
    refine ⟨fun h0 => by simp only [(hg r).1 h0, Prog.bind], fun h0 => ?_⟩
    obtain ⟨v, k, hv⟩ := (hg r).2 h0
    exact ⟨v, _, by simp only [hv, Prog.bind]; rfl⟩

theorem RunsToFailure.bind_right {M A B : Type} {sum : List M → M} {P : Fin N → Prog M A} {out : Fin N → A}
    (h : Runs sum P out) {f : Fin N → A → Prog M B} {e : PyErr}
    (h' : RunsToFailure sum (fun r => f r (out r)) e) :
    RunsToFailure sum (fun r => (P r).bind (f r)) e := by
  obtain ⟨k, τ, hk, hτ⟩ := h
  induction hk with
  | refl a =>
    convert h' using 2 with r
    rw [hτ r]; rfl
  | head h1 _ ih =>
    obtain ⟨k', g, hk', hg⟩ := ih hτ
    exact ⟨k' + 1, g, .head (h1.bind f) hk', hg⟩

theorem RunsToFailure.congr {M A : Type} {sum : List M → M} {P Q : Fin N → Prog M A} {e : PyErr}
    (h : RunsToFailure sum P e) (hP : ∀ r, Q r = P r) : RunsToFailure sum Q e := by
  rw [show Q = P from funext hP]; exact h

/-- A failed root is the end of the synchronous semantics. -/
theorem rootFailed_terminal {M A : Type} {sum : List M → M} (hN : 0 < N) {e : PyErr} {f : Fin N → Prog M A}
    (h : RootFailed e f) (t) : ¬ SyncStep sum f t := by
  intro hs
  have h0 := (h ⟨0, hN⟩).1 rfl
  cases hs with
  | coll c vs ks hpos hc hroot => rw [hc] at h0; cases h0
  | msg s d tag v k k' hsd hs hd =>
    by_cases hs0 : s.val = 0
    · rw [(h s).1 hs0] at hs; cases hs
    · obtain ⟨v, k, hv⟩ := (h s).2 hs0
      rw [hv] at hs; cases hs

theorem bufStep_fail {M A : Type} {sum : List M → M} {σ τ : BufState M A N} {r : Fin N} {e : PyErr}
    (h : BufStep sum σ τ) (hr : σ.prog r = .fail e) : τ.prog r = .fail e := by
  obtain ⟨s, hs⟩ := h
  have hne : r ≠ s := by
    rintro rfl
    unfold bufStep at hs
    rw [hr] at hs
    cases hs
  unfold bufStep at hs
  split at hs
  · cases hs
  · cases hs
  · split at hs
    · split at hs
      · cases hs; simpa [Function.update, hne] using hr
      · cases hs
    · split at hs
      · cases hs
      · cases hs; exact hr
  · split at hs
    · split at hs
      · cases hs
      · cases hs; simpa [Function.update, hne] using hr
    · cases hs
  · split at hs
    · split at hs
      · cases hs
      · cases hs; simpa [Function.update, hne] using hr
    · cases hs

theorem bufSteps_fail {M A : Type} {sum : List M → M} {k : ℕ} {σ τ : BufState M A N} {r : Fin N} {e : PyErr}
    (h : Steps (BufStep sum) k σ τ) (hr : σ.prog r = .fail e) : τ.prog r = .fail e := by
  induction h with
  | refl a => exact hr
  | head h1 _ ih => exact ih (bufStep_fail h1 hr)

/-- Once the root has failed, the ranks cannot all finish any more, in any schedule. -/
theorem RunsToFailure.not_canFinish {M A : Type} {sum : List M → M} (hN : 0 < N) {P : Fin N → Prog M A} {e : PyErr}
    (h : RunsToFailure sum P e) (out : Fin N → A) : ¬ CanFinish sum P out := by
  obtain ⟨k, f, hk, hf⟩ := h
  rintro (⟨k', f', hk', hf'⟩ | ⟨k', f', hk', hf'⟩)
  · obtain ⟨L, hL⟩ := alwaysReaches_of_steps (final := fun σ => ∀ r, σ r = .ret (out r)) syncStep_diamond
      (syncStep_terminal hf') hk' hf'
    obtain ⟨h1, h2, h3⟩ := hL k f hk
    have : k = L := by
      by_contra hne
      obtain ⟨t, ht⟩ := h3 (by omega)
      exact rootFailed_terminal hN hf t ht
    have h4 := (h2 this).1 ⟨0, hN⟩
    rw [(hf ⟨0, hN⟩).1 rfl] at h4
    cases h4
  · obtain ⟨L, hL⟩ := alwaysReaches_of_steps (final := fun σ : BufState M A N => ∀ r, σ.prog r = .ret (out r))
      bufStep_diamond (bufStep_terminal hf') hk' hf'
    obtain ⟨kb, c, slot, hb⟩ := simulate_steps hk 0 (fun _ _ => none) (by simp)
    -- go on as long as possible
    have hgo : ∀ d m s, Steps (BufStep sum) m (bufInit P) s → s.prog ⟨0, hN⟩ = .fail e → L - m = d → False := by
      intro d
      induction d with
      | zero =>
        intro m s hs hsf hd
        obtain ⟨h1, h2, h3⟩ := hL m s hs
        have h4 := (h2 (by omega)).1 ⟨0, hN⟩
        rw [hsf] at h4
        cases h4
      | succ d ih =>
        intro m s hs hsf hd
        obtain ⟨h1, h2, h3⟩ := hL m s hs
        obtain ⟨t, ht⟩ := h3 (by omega)
        exact ih (m + 1) t (hs.tail ht) (bufStep_fail ht hsf) (by omega)
    exact hgo (L - kb) kb _ hb ((hf ⟨0, hN⟩).1 rfl) rfl

/-! ### the loop -/

variable (hs : Fin N → Matrix (Fin n) (Fin n) ℂ) {H : Matrix (Fin n) (Fin n) ℂ} (hH : ∑ r, hs r = H)

include hH in
theorem sum_local (v : Fin n → ℂ) : List.sum (List.ofFn fun r => hs r *ᵥ v) = H *ᵥ v := by
  rw [List.sum_ofFn, ← Matrix.sum_mulVec, hH]

include hH in
theorem krylovLoopRank_spec (hN : 0 < N) : ∀ (m j : ℕ) (st : Fin N → Krylov n),
    (∀ s', krylovLoop H m j (st ⟨0, hN⟩) = .ok s' →
      ∃ st', Runs List.sum (fun r : Fin N => krylovLoopRank (hs r) r.val m j (st r)) st' ∧ st' ⟨0, hN⟩ = s' ∧
        ∀ r : Fin N, r.val ≠ 0 → (st' r).alpha = (st r).alpha ∧ (st' r).beta = (st r).beta) ∧
    (∀ e, krylovLoop H m j (st ⟨0, hN⟩) = .error e →
      RunsToFailure List.sum (fun r : Fin N => krylovLoopRank (hs r) r.val m j (st r)) e) := by
  intro m
  induction m with
  | zero =>
    intro j st
    refine ⟨fun s' h => ?_, fun e h => by cases h⟩
    cases h
    exact ⟨st, .ret fun r => rfl, rfl, fun r _ => ⟨rfl, rfl⟩⟩
  | succ m ih =>
    intro j st
    cases hv : krylovVector j (st ⟨0, hN⟩) with
    | error e0 =>
      have hl : krylovLoop H (m + 1) j (st ⟨0, hN⟩) = .error e0 := by rw [krylovLoop, hv]; rfl
      refine ⟨fun s' h => (by rw [hl] at h; cases h), fun e h => ?_⟩
      rw [hl] at h
      cases h
      refine ⟨0, _, .refl _, fun r => ⟨fun h0 => ?_, fun h0 => ?_⟩⟩
      · have hr : r = ⟨0, hN⟩ := Fin.ext h0
        subst hr
        rw [krylovLoopRank]
        simp only [if_true, hv, Prog.lift, Prog.bind]
      · rw [krylovLoopRank]
        simp only [h0, if_false, Prog.bind, Mpi.bcast]
        exact ⟨_, _, rfl⟩
    | ok s1 =>
      -- the states after the local part
      let st1 : Fin N → Krylov n := fun r => if r.val = 0 then s1 else st r
      let v1 : Fin n → ℂ := s1.v1
      let st2 : Fin N → Krylov n := fun r =>
        if r.val = 0 then krylovAlpha j { s1 with v1 := v1 } (H *ᵥ v1) else { st r with v1 := v1 }
      have hl : krylovLoop H (m + 1) j (st ⟨0, hN⟩) = krylovLoop H m (j + 1) (st2 ⟨0, hN⟩) := by
        rw [krylovLoop, hv]
        rfl
      have hprog : ∀ r : Fin N, krylovLoopRank (hs r) r.val (m + 1) j (st r)
          = (Mpi.bcast 0 (st1 r).v1).bind fun w => (Mpi.reduce 0 (hs r *ᵥ w)).bind fun wp =>
            krylovLoopRank (hs r) r.val m (j + 1)
              (if r.val = 0 then krylovAlpha j { st1 r with v1 := w } (wp.getD 0) else { st1 r with v1 := w }) := by
        intro r
        rw [krylovLoopRank]
        by_cases h0 : r.val = 0
        · have hr : r = ⟨0, hN⟩ := Fin.ext h0
          subst hr
          simp only [if_true, hv, Prog.lift, Prog.bind, st1]
        · simp only [h0, if_false, Prog.bind, st1]
      have hbc : Runs (List.sum (α := Fin n → ℂ)) (fun r : Fin N => Mpi.bcast 0 (st1 r).v1) (fun _ => v1) := by
        have := Runs.bcast (sum := List.sum (α := Fin n → ℂ)) (fun r : Fin N => Mpi.bcast 0 (st1 r).v1) ⟨0, hN⟩
          (fun r => (st1 r).v1) (fun _ => rfl)
        simpa [st1] using this
      have hred : Runs (List.sum (α := Fin n → ℂ)) (fun r : Fin N => Mpi.reduce 0 (hs r *ᵥ v1))
          (fun r => if r = ⟨0, hN⟩ then some (H *ᵥ v1) else none) := by
        have := Runs.reduce (sum := List.sum (α := Fin n → ℂ)) (fun r : Fin N => Mpi.reduce 0 (hs r *ᵥ v1)) ⟨0, hN⟩
          (fun r => hs r *ᵥ v1) (fun _ => rfl)
        rw [sum_local hs hH] at this
        exact this
      have hst2 : ∀ r : Fin N, (if r.val = 0 then
            krylovAlpha j { st1 r with v1 := v1 } ((if r = ⟨0, hN⟩ then some (H *ᵥ v1) else none).getD 0)
          else { st1 r with v1 := v1 }) = st2 r := by
        intro r
        by_cases h0 : r.val = 0
        · have hr : r = ⟨0, hN⟩ := Fin.ext h0
          simp [st1, st2, h0, hr]
        · simp [st1, st2, h0]
      obtain ⟨ihok, iherr⟩ := ih (j + 1) st2
      constructor
      · intro s' h
        rw [hl] at h
        obtain ⟨st', h1, h2, h3⟩ := ihok s' h
        refine ⟨st', ?_, h2, fun r hr => ?_⟩
        · refine Runs.congr (Runs.bind hbc (Runs.bind hred ?_)) hprog fun _ => rfl
          exact h1.congr (fun r => by rw [hst2 r]) (fun _ => rfl)
        · have := h3 r hr
          simpa [st2, hr] using this
      · intro e h
        rw [hl] at h
        refine RunsToFailure.congr (RunsToFailure.bind_right hbc (RunsToFailure.bind_right hred ?_)) hprog
        exact (iherr e h).congr (fun r => by rw [hst2 r])

end

end Verif
