/-
Programs in which some rank raises an exception.
-/
import Verif.Lemmas.SpectraEigen
import Verif.Lemmas.MpiFinish

namespace Verif

open Mpi

variable {N : ℕ} {M A B : Type} {sum : List M → M}

/-- The program does not return before it has got a broadcast of rank `k`. -/
def Mpi.Prog.Awaits (k : ℕ) : Prog M A → Prop
  | .ret _ => False
  | .fail _ => True
  | .coll c _ f => c = .bcast k ∨ ∀ m, (f m).Awaits k
  | .send _ _ _ p => p.Awaits k
  | .recv _ _ f => ∀ m, (f m).Awaits k

theorem Mpi.Prog.Awaits.bind {k : ℕ} {p : Prog M A} (h : p.Awaits k) (f : A → Prog M B) : (p.bind f).Awaits k := by
  induction p with
  | ret a => exact h.elim
  | fail e => trivial
  | coll c v g ih => exact h.imp id fun h m => ih m (h m)
  | send d t v p ih => exact ih h
  | recv s t g ih => exact fun m => ih m (h m)

theorem Mpi.Prog.Awaits.bind_right {k : ℕ} (p : Prog M A) {f : A → Prog M B} (h : ∀ a, (f a).Awaits k) :
    (p.bind f).Awaits k := by
  induction p with
  | ret a => exact h a
  | fail e => trivial
  | coll c v g ih => exact Or.inr fun m => ih m
  | send d t v p ih => exact ih
  | recv s t g ih => exact fun m => ih m

/-- Some schedule leads to a state in which a rank has raised an exception, and rank 0 is this rank or
waits for it. -/
def RunsToFail (sum : List M → M) (P : Fin N → Prog M A) : Prop :=
  ∃ k f, Steps (SyncStep sum) k P f ∧ ∃ r e, f r = .fail e ∧ ∀ q : Fin N, q.val = 0 → q = r ∨ (f q).Awaits r.val

theorem RunsToFailure.runsToFail (hN : 0 < N) {P : Fin N → Prog M A} {e : PyErr} (h : RunsToFailure sum P e) :
    RunsToFail sum P := by
  obtain ⟨k, f, hk, hf⟩ := h
  exact ⟨k, f, hk, ⟨0, hN⟩, e, (hf ⟨0, hN⟩).1 rfl, fun q hq => Or.inl (Fin.ext hq)⟩

theorem RunsToFail.fail {P : Fin N → Prog M A} {r : Fin N} {e : PyErr} (h : P r = .fail e) (hr : r.val = 0) :
    RunsToFail sum P :=
  ⟨0, P, .refl P, r, e, h, fun q hq => Or.inl (Fin.ext (hq.trans hr.symm))⟩

theorem RunsToFail.awaits {P : Fin N → Prog M A} {r : Fin N} {e : PyErr} (h : P r = .fail e)
    (ha : ∀ q : Fin N, q.val = 0 → (P q).Awaits r.val) : RunsToFail sum P :=
  ⟨0, P, .refl P, r, e, h, fun q hq => Or.inr (ha q hq)⟩

theorem RunsToFail.bind_left {P : Fin N → Prog M A} (h : RunsToFail sum P) (f : Fin N → A → Prog M B) :
    RunsToFail sum (fun r => (P r).bind (f r)) := by
  obtain ⟨k, g, hk, r, e, hg, hq⟩ := h
  refine ⟨k, fun r => (g r).bind (f r), ?_, r, e, by simp only [hg, Prog.bind],
    fun q h0 => (hq q h0).imp id fun h => h.bind _⟩
  clear hg hq
  induction hk with
  | refl a => exact .refl _
  | head h1 _ ih => exact .head (h1.bind f) ih

theorem RunsToFail.bind_right {P : Fin N → Prog M A} {out : Fin N → A} (h : Runs sum P out)
    {f : Fin N → A → Prog M B} (h' : RunsToFail sum (fun r => f r (out r))) :
    RunsToFail sum (fun r => (P r).bind (f r)) := by
  obtain ⟨k, τ, hk, hτ⟩ := h
  induction hk with
  | refl a =>
    convert h' using 2 with r
    rw [hτ r]; rfl
  | head h1 _ ih =>
    obtain ⟨k', g, hk', hg⟩ := ih hτ
    exact ⟨k' + 1, g, .head (h1.bind f) hk', hg⟩

theorem RunsToFail.congr {P Q : Fin N → Prog M A} (h : RunsToFail sum P) (hP : ∀ r, Q r = P r) : RunsToFail sum Q := by
  rw [show Q = P from funext hP]; exact h

/-- Once a rank has failed, the ranks cannot all finish any more, in any schedule. -/
theorem RunsToFail.not_canFinish {P : Fin N → Prog M A} (h : RunsToFail sum P) (out : Fin N → A) :
    ¬ CanFinish sum P out := by
  obtain ⟨k, f, hk, r, e, hf, -⟩ := h
  rintro (⟨k', f', hk', hf'⟩ | ⟨k', f', hk', hf'⟩)
  · obtain ⟨L, hL⟩ := alwaysReaches_of_steps (final := fun σ => ∀ r, σ r = .ret (out r)) syncStep_diamond
      (syncStep_terminal hf') hk' hf'
    have hgo : ∀ d m s, Steps (SyncStep sum) m P s → s r = .fail e → L - m = d → False := by
      intro d
      induction d with
      | zero =>
        intro m s hs hsf hd
        obtain ⟨h1, h2, h3⟩ := hL m s hs
        have h4 := (h2 (by omega)).1 r
        rw [hsf] at h4
        cases h4
      | succ d ih =>
        intro m s hs hsf hd
        obtain ⟨h1, h2, h3⟩ := hL m s hs
        obtain ⟨t, ht⟩ := h3 (by omega)
        exact ih (m + 1) t (hs.tail ht) (syncStep_fail ht hsf) (by omega)
    exact hgo (L - k) k f hk hf rfl
  · obtain ⟨L, hL⟩ := alwaysReaches_of_steps (final := fun σ : BufState M A N => ∀ r, σ.prog r = .ret (out r))
      bufStep_diamond (bufStep_terminal hf') hk' hf'
    obtain ⟨kb, c, slot, hb⟩ := simulate_steps hk 0 (fun _ _ => none) (by simp)
    have hgo : ∀ d m s, Steps (BufStep sum) m (bufInit P) s → s.prog r = .fail e → L - m = d → False := by
      intro d
      induction d with
      | zero =>
        intro m s hs hsf hd
        obtain ⟨h1, h2, h3⟩ := hL m s hs
        have h4 := (h2 (by omega)).1 r
        rw [hsf] at h4
        cases h4
      | succ d ih =>
        intro m s hs hsf hd
        obtain ⟨h1, h2, h3⟩ := hL m s hs
        obtain ⟨t, ht⟩ := h3 (by omega)
        exact ih (m + 1) t (hs.tail ht) (bufStep_fail ht hsf) (by omega)
    exact hgo (L - kb) kb _ hb hf rfl

/-- Loops of the ranks and a reference loop, with failures of any rank. -/
theorem loop_dichotomy' {α β ρ : Type} (f : Fin N → β → α → Prog M β) (ref : ρ → α → Py ρ)
    (Rel : ρ → (Fin N → β) → Prop) :
    ∀ (l : List α) (x : ρ) (acc : Fin N → β), Rel x acc →
    (∀ a ∈ l, ∀ x acc, Rel x acc →
      (∃ x', ref x a = .ok x' ∧ ∃ acc', Rel x' acc' ∧ Runs sum (fun k => f k (acc k) a) acc') ∨
      ((∃ err, ref x a = .error err) ∧ RunsToFail sum (fun k => f k (acc k) a))) →
    (∃ x', l.foldlM ref x = .ok x' ∧ ∃ acc', Rel x' acc' ∧ Runs sum (fun k => Prog.loop (f k) l (acc k)) acc') ∨
    ((∃ err, l.foldlM ref x = .error err) ∧ RunsToFail sum (fun k => Prog.loop (f k) l (acc k))) := by
  intro l
  induction l with
  | nil => intro x acc h _; exact Or.inl ⟨x, rfl, acc, h, .ret fun _ => rfl⟩
  | cons a l ih =>
    intro x acc h hstep
    rcases hstep a (by simp) x acc h with ⟨x', h1, acc', h2, h3⟩ | ⟨⟨err, h1⟩, h2⟩
    · rcases ih x' acc' h2 (fun b hb => hstep b (by simp [hb])) with ⟨x'', h4, acc'', h5, h6⟩ | ⟨⟨err, h4⟩, h5⟩
      · left
        refine ⟨x'', ?_, acc'', h5, ?_⟩
        · rw [List.foldlM_cons, h1]; exact h4
        · exact Runs.bind h3 h6
      · right
        refine ⟨⟨err, ?_⟩, ?_⟩
        · rw [List.foldlM_cons, h1]; exact h4
        · exact RunsToFail.bind_right h3 h5
    · right
      refine ⟨⟨err, ?_⟩, ?_⟩
      · rw [List.foldlM_cons, h1]; rfl
      · exact RunsToFail.bind_left h2 _

end Verif
