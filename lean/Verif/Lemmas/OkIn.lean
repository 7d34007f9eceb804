/-
Properties of the results of code that may raise.
-/
import Verif.Py.Basic

namespace Verif

variable {α β : Type}

/-- If the code returns, its result satisfies `Q`. -/
def OkIn (Q : α → Prop) (x : Py α) : Prop := ∀ a, x = .ok a → Q a

theorem OkIn.ok {Q : α → Prop} {a : α} (h : Q a) : OkIn Q (.ok a) := by
  intro b hb
  cases hb
  exact h

theorem OkIn.pure {Q : α → Prop} {a : α} (h : Q a) : OkIn Q (Pure.pure a) := OkIn.ok h

theorem OkIn.error {Q : α → Prop} {e : PyErr} : OkIn Q (.error e) := by
  intro b hb
  cases hb

theorem OkIn.true {x : Py α} : OkIn (fun _ => True) x := fun _ _ => trivial

theorem OkIn.mono {Q Q' : α → Prop} (h : ∀ a, Q a → Q' a) {x : Py α} (hx : OkIn Q x) : OkIn Q' x :=
  fun a ha => h a (hx a ha)

theorem OkIn.bind {P : α → Prop} {Q : β → Prop} {x : Py α} {f : α → Py β} (hx : OkIn P x)
    (hf : ∀ a, P a → OkIn Q (f a)) : OkIn Q (x >>= f) := by
  cases x with
  | error e => exact OkIn.error
  | ok a => exact hf a (hx a rfl)

theorem OkIn.foldlM {Q : β → Prop} {f : β → α → Py β} : ∀ (l : List α) (b : β), Q b →
    (∀ a ∈ l, ∀ b, Q b → OkIn Q (f b a)) → OkIn Q (l.foldlM f b)
  | [], _, h, _ => by rw [List.foldlM_nil]; exact OkIn.pure h
  | a :: l, b, h, hf => by
    rw [List.foldlM_cons]
    exact OkIn.bind (hf a List.mem_cons_self b h)
      fun b' hb' => OkIn.foldlM l b' hb' fun a ha => hf a (List.mem_cons_of_mem _ ha)

theorem OkIn.mapM {P : β → Prop} {f : α → Py β} : ∀ (l : List α), (∀ a ∈ l, OkIn P (f a)) →
    OkIn (fun r => r.length = l.length ∧ ∀ y ∈ r, P y) (l.mapM f)
  | [], _ => by rw [List.mapM_nil]; exact OkIn.pure ⟨rfl, by simp⟩
  | a :: l, h => by
    rw [List.mapM_cons]
    refine OkIn.bind (h a List.mem_cons_self) fun b hb => ?_
    refine OkIn.bind (OkIn.mapM l fun a ha => h a (List.mem_cons_of_mem _ ha)) fun r hr => ?_
    refine OkIn.pure ⟨by simp [hr.1], fun y hy => ?_⟩
    rcases List.mem_cons.1 hy with rfl | hy
    · exact hb
    · exact hr.2 y hy

end Verif
