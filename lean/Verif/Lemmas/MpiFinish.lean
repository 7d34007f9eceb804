/-
A program that always finishes can finish.
-/
import Verif.Lemmas.Mpi

namespace Verif.Mpi

theorem Steps.last {σ : Type} {step : σ → σ → Prop} {n : ℕ} {a b c : σ} (h : Steps step n a b) (hs : step b c) :
    Steps step (n + 1) a c := by
  induction h with
  | refl a => exact Steps.head hs (Steps.refl c)
  | head h1 _ ih => exact Steps.head h1 (ih hs)

theorem AllRanksFinish.canFinish {M A : Type} {N : ℕ} {sum : List M → M} {P : Fin N → Prog M A} {out : Fin N → A}
    (h : AllRanksFinish sum P out) : CanFinish sum P out := by
  obtain ⟨L, hL⟩ := h.sync
  have : ∀ m ≤ L, ∃ s, Steps (SyncStep sum) m P s := by
    intro m
    induction m with
    | zero => exact fun _ => ⟨P, Steps.refl P⟩
    | succ m ih =>
      intro hm
      obtain ⟨s, hs⟩ := ih (by omega)
      obtain ⟨t, ht⟩ := (hL m s hs).2.2 (by omega)
      exact ⟨t, hs.last ht⟩
  obtain ⟨s, hs⟩ := this L (le_refl L)
  exact Or.inl ⟨L, s, hs, ((hL L s hs).2.1 rfl).1⟩

end Verif.Mpi
