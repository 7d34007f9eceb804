/-
Loops in the `Except` monad.
-/
import Verif.Py.Basic
import Mathlib.Data.List.Basic
import Mathlib.Tactic

namespace Verif

variable {ε α β : Type}

theorem foldlM_append_ok {γ : Type} (f : List γ → α → Except ε (List γ)) (g : α → List γ) (L : List α)
    (acc : List γ) (h : ∀ acc, ∀ x ∈ L, f acc x = .ok (acc ++ g x)) :
    L.foldlM f acc = .ok (acc ++ L.flatMap g) := by
  induction L generalizing acc with
  | nil => simp [pure, Except.pure]
  | cons x L ih =>
    rw [List.foldlM_cons, h acc x (by simp)]
    simp only [bind, Except.bind]
    rw [ih _ (fun acc y hy => h acc y (by simp [hy])), List.flatMap_cons, List.append_assoc]

theorem foldlM_isOk (f : β → α → Except ε β) (L : List α) (b r : β) (h : L.foldlM f b = .ok r) :
    ∀ x ∈ L, ∃ b' r', f b' x = .ok r' := by
  induction L generalizing b with
  | nil => simp
  | cons y L ih =>
    rw [List.foldlM_cons] at h
    cases hy : f b y with
    | error e => rw [hy] at h; cases h
    | ok b' =>
      rw [hy] at h
      intro x hx
      rcases List.mem_cons.1 hx with rfl | hx
      · exact ⟨b, b', hy⟩
      · exact ih b' h x hx

theorem mapM_okL (f : α → Except ε β) (g : α → β) (L : List α) (h : ∀ x ∈ L, f x = .ok (g x)) :
    L.mapM f = .ok (L.map g) := by
  induction L with
  | nil => rfl
  | cons x L ih =>
    rw [List.mapM_cons, h x (by simp), ih (fun y hy => h y (by simp [hy]))]
    rfl

theorem mapM_isOk (f : α → Except ε β) (L : List α) (r : List β) (h : L.mapM f = .ok r) :
    ∀ x ∈ L, ∃ y, f x = .ok y := by
  induction L generalizing r with
  | nil => simp
  | cons y L ih =>
    rw [List.mapM_cons] at h
    cases hy : f y with
    | error e => rw [hy] at h; cases h
    | ok b =>
      rw [hy] at h
      cases hL : L.mapM f with
      | error e => rw [hL] at h; cases h
      | ok bs =>
        intro x hx
        rcases List.mem_cons.1 hx with rfl | hx
        · exact ⟨b, hy⟩
        · exact ih bs hL x hx

theorem forM_ok (f : α → Except ε PUnit) (L : List α) (h : ∀ x ∈ L, f x = .ok ⟨⟩) :
    L.forM f = .ok ⟨⟩ := by
  induction L with
  | nil => rfl
  | cons x L ih =>
    rw [List.forM_eq_forM, List.forM_cons, h x (by simp)]
    exact ih (fun y hy => h y (by simp [hy]))

theorem forM_isOk (f : α → Except ε PUnit) (L : List α) (h : L.forM f = .ok ⟨⟩) :
    ∀ x ∈ L, f x = .ok ⟨⟩ := by
  induction L with
  | nil => simp
  | cons y L ih =>
    rw [List.forM_eq_forM, List.forM_cons] at h
    cases hy : f y with
    | error e => rw [hy] at h; cases h
    | ok b =>
      rw [hy] at h
      intro x hx
      rcases List.mem_cons.1 hx with rfl | hx
      · exact hy
      · exact ih h x hx

/-- The computation raises only errors that satisfy `E`. -/
def ErrIn (E : ε → Prop) (x : Except ε α) : Prop := ∀ e, x = .error e → E e

theorem ErrIn.ok {E : ε → Prop} (a : α) : ErrIn E (.ok a : Except ε α) := by intro e h; cases h

theorem ErrIn.bind {E : ε → Prop} {x : Except ε α} {f : α → Except ε β} (hx : ErrIn E x)
    (hf : ∀ a, x = .ok a → ErrIn E (f a)) : ErrIn E (x >>= f) := by
  intro e h
  cases hx' : x with
  | error e' => rw [hx'] at h; cases h; exact hx _ hx'
  | ok a => rw [hx'] at h; exact hf a hx' e h

theorem ErrIn.foldlM {E : ε → Prop} {f : β → α → Except ε β} {L : List α} {b : β}
    (h : ∀ b, ∀ x ∈ L, ErrIn E (f b x)) : ErrIn E (L.foldlM f b) := by
  induction L generalizing b with
  | nil => exact ErrIn.ok _
  | cons x L ih =>
    rw [List.foldlM_cons]
    exact ErrIn.bind (h b x (by simp)) fun a _ => ih fun b y hy => h b y (by simp [hy])

theorem ErrIn.mapM {E : ε → Prop} {f : α → Except ε β} {L : List α}
    (h : ∀ x ∈ L, ErrIn E (f x)) : ErrIn E (L.mapM f) := by
  induction L with
  | nil => exact ErrIn.ok _
  | cons x L ih =>
    rw [List.mapM_cons]
    exact ErrIn.bind (h x (by simp)) fun a _ =>
      ErrIn.bind (ih fun y hy => h y (by simp [hy])) fun _ _ => ErrIn.ok _

theorem ErrIn.forM {E : ε → Prop} {f : α → Except ε PUnit} {L : List α}
    (h : ∀ x ∈ L, ErrIn E (f x)) : ErrIn E (L.forM f) := by
  induction L with
  | nil => exact ErrIn.ok _
  | cons x L ih =>
    rw [List.forM_eq_forM, List.forM_cons]
    exact ErrIn.bind (h x (by simp)) fun a _ => ih fun y hy => h y (by simp [hy])

end Verif
