/-
Properties that all ranks' results have whatever the messages are.
-/
import Verif.Lemmas.Mpi
import Verif.Model.Simulate

namespace Verif

open Mpi

variable {M A B : Type} {N : ℕ}

/-- If all messages a rank gets satisfy `I`, so do all it sends, and its result
satisfies `Q`. -/
def Mpi.Prog.Safe (I : M → Prop) (Q : A → Prop) : Prog M A → Prop
  | .ret a => Q a
  | .fail _ => True
  | .coll _ v k => I v ∧ (k none).Safe I Q ∧ ∀ m, I m → (k (some m)).Safe I Q
  | .send _ _ v k => I v ∧ k.Safe I Q
  | .recv _ _ k => ∀ m, I m → (k m).Safe I Q

variable {I : M → Prop}

theorem Safe.bind {Q : A → Prop} {Q' : B → Prop} {f : A → Prog M B} (hf : ∀ a, Q a → (f a).Safe I Q') :
    ∀ p : Prog M A, p.Safe I Q → (p.bind f).Safe I Q'
  | .ret a, h => hf a h
  | .fail _, _ => trivial
  | .coll _ _ k, h => ⟨h.1, Safe.bind hf _ h.2.1, fun m hm => Safe.bind hf _ (h.2.2 m hm)⟩
  | .send _ _ _ k, h => ⟨h.1, Safe.bind hf _ h.2⟩
  | .recv _ _ k, h => fun m hm => Safe.bind hf _ (h m hm)

theorem Safe.mono {Q Q' : A → Prop} (hq : ∀ a, Q a → Q' a) : ∀ p : Prog M A, p.Safe I Q → p.Safe I Q'
  | .ret a, h => hq a h
  | .fail _, _ => trivial
  | .coll _ _ k, h => ⟨h.1, Safe.mono hq _ h.2.1, fun m hm => Safe.mono hq _ (h.2.2 m hm)⟩
  | .send _ _ _ k, h => ⟨h.1, Safe.mono hq _ h.2⟩
  | .recv _ _ k, h => fun m hm => Safe.mono hq _ (h m hm)

theorem Safe.lift {Q : A → Prop} {x : Py A} (h : ∀ a, x = .ok a → Q a) :
    (Prog.lift x : Prog M A).Safe I Q := by
  cases x with
  | ok a => exact h a rfl
  | error e => trivial

theorem Safe.bcast {Q : M → Prop} (root : ℕ) (v : M) (hv : I v) (hq : ∀ m, I m → Q m) :
    (Mpi.bcast root v).Safe I Q := ⟨hv, hq v hv, fun m hm => hq m hm⟩

theorem Safe.reduce (root : ℕ) (v : M) (hv : I v) : (Mpi.reduce root v).Safe I fun _ => True :=
  ⟨hv, trivial, fun _ _ => trivial⟩

theorem Safe.loop {α β : Type} {Q : β → Prop} {f : β → α → Prog M β} :
    ∀ (l : List α) (b : β), (∀ a ∈ l, ∀ b, Q b → (f b a).Safe I Q) → Q b → (Prog.loop f l b).Safe I Q
  | [], _, _, h => h
  | a :: l, b, hf, h => Safe.bind (fun b' hb' => Safe.loop l b' (fun a ha => hf a (List.mem_cons_of_mem _ ha)) hb') _
      (hf a List.mem_cons_self b h)

section
variable {sum : List M → M} (hsum : ∀ l, (∀ m ∈ l, I m) → I (sum l)) {Q : Fin N → A → Prop}
include hsum

theorem Safe.syncStep {σ τ : Fin N → Prog M A} (h : SyncStep sum σ τ) (hσ : ∀ r, (σ r).Safe I (Q r)) (r : Fin N) :
    (τ r).Safe I (Q r) := by
  cases h with
  | coll c vs ks hpos hc hroot =>
    have hr := hσ r
    rw [hc r] at hr
    have hv : ∀ s, I (vs s) := fun s => by
      have := hσ s
      rw [hc s] at this
      exact this.1
    show (ks r (collResult sum c vs r)).Safe I (Q r)
    cases hres : collResult sum c vs r with
    | none => exact hr.2.1
    | some m =>
      refine hr.2.2 m ?_
      unfold collResult at hres
      cases c with
      | bcast root =>
        simp only at hres
        split at hres
        · cases hres; exact hv _
        · cases hres
      | reduce root =>
        simp only at hres
        split at hres
        · cases hres
          apply hsum
          intro m hm
          obtain ⟨s, rfl⟩ := (List.mem_ofFn' _ _).1 hm
          exact hv s
        · cases hres
  | msg s d tag v k k' hsd hs hd =>
    have h1 := hσ s
    rw [hs] at h1
    have h2 := hσ d
    rw [hd] at h2
    by_cases hrd : r = d
    · subst hrd
      rw [Function.update_self]
      exact h2 v h1.1
    · rw [Function.update_of_ne hrd]
      by_cases hrs : r = s
      · subst hrs
        rw [Function.update_self]
        exact h1.2
      · rw [Function.update_of_ne hrs]
        exact hσ r

omit hsum in
theorem mapM_option_mem {α β : Type} (f : α → Option β) : ∀ (l : List α) (vs : List β), l.mapM f = some vs →
    ∀ m ∈ vs, ∃ x ∈ l, f x = some m
  | [], vs, h => by
    simp at h
    subst h
    simp
  | x :: l, vs, h => by
    rw [List.mapM_cons] at h
    cases hx : f x with
    | none => rw [hx] at h; simp at h
    | some y =>
      cases hm : l.mapM f with
      | none => rw [hx, hm] at h; simp at h
      | some ws =>
        rw [hx, hm] at h
        simp at h
        subst h
        intro m hmem
        rcases List.mem_cons.1 hmem with rfl | hmem
        · exact ⟨x, List.mem_cons_self, hx⟩
        · obtain ⟨x', hx', he⟩ := mapM_option_mem f l ws hm m hmem
          exact ⟨x', List.mem_cons_of_mem _ hx', he⟩

omit hsum in
theorem gathered_mem {slot : ℕ → Fin N → Option (Coll × M)} {i : ℕ} {c : Coll} {vs : List M}
    (h : gathered slot i c = some vs) (hI : ∀ s c v, slot i s = some (c, v) → I v) : ∀ m ∈ vs, I m := by
  intro m hm
  obtain ⟨x, hx, he⟩ := mapM_option_mem _ _ _ h m hm
  obtain ⟨s, rfl⟩ := (List.mem_ofFn' _ _).1 hx
  cases hs : slot i s with
  | none => rw [hs] at he; cases he
  | some p =>
    rw [hs] at he
    simp only at he
    split at he
    · cases he; exact hI s _ _ hs
    · cases he

/-- The invariant of the buffered semantics. -/
structure BufSafe (I : M → Prop) (Q : Fin N → A → Prop) (σ : BufState M A N) : Prop where
  prog : ∀ r, (σ.prog r).Safe I (Q r)
  chan : ∀ s d t, ∀ m ∈ σ.chan s d t, I m
  slot : ∀ i s c v, σ.slot i s = some (c, v) → I v

theorem BufSafe.step {σ τ : BufState M A N} (h : BufStep sum σ τ) (hσ : BufSafe I Q σ) : BufSafe I Q τ := by
  obtain ⟨r, hr⟩ := h
  rw [bufStep_iff] at hr
  have hp := hσ.prog r
  cases hr with
  | leave c v k m hpr he ha =>
    rw [hpr] at hp
    refine ⟨fun s => ?_, hσ.chan, hσ.slot⟩
    by_cases hs : s = r
    · subst hs
      simp only [Function.update_self]
      cases m with
      | none => exact hp.2.1
      | some m =>
        refine hp.2.2 m ?_
        unfold available at ha
        cases c with
        | bcast root =>
          simp only at ha
          split at ha
          · split at ha
            · rename_i hsl
              split at ha
              · cases ha; exact hσ.slot _ _ _ _ hsl
              · cases ha
            · cases ha
          · cases ha
        | reduce root =>
          simp only at ha
          split at ha
          · split at ha
            · split at ha
              · rename_i hg
                cases ha
                exact hsum _ (gathered_mem hg fun s c v hs => hσ.slot _ _ _ _ hs)
              · cases ha
            · cases ha
          · cases ha
    · simp only [Function.update_of_ne hs]
      exact hσ.prog s
  | enter c v k hpr he hs =>
    rw [hpr] at hp
    refine ⟨hσ.prog, hσ.chan, fun i s c' v' h' => ?_⟩
    simp only at h'
    split at h'
    · cases h'; exact hp.1
    · exact hσ.slot _ _ _ _ h'
  | send d t v k hpr hne =>
    rw [hpr] at hp
    refine ⟨fun s => ?_, fun s d' t' m hm => ?_, hσ.slot⟩
    · by_cases hs : s = r
      · subst hs
        simp only [Function.update_self]
        exact hp.2
      · simp only [Function.update_of_ne hs]
        exact hσ.prog s
    · simp only at hm
      split at hm
      · rcases List.mem_append.1 hm with hm | hm
        · exact hσ.chan _ _ _ _ hm
        · rw [List.mem_singleton.1 hm]; exact hp.1
      · exact hσ.chan _ _ _ _ hm
  | recv s t k v rest hpr hc =>
    rw [hpr] at hp
    have hv : I v := hσ.chan s r t v (by rw [hc]; exact List.mem_cons_self)
    refine ⟨fun s' => ?_, fun s' d' t' m hm => ?_, hσ.slot⟩
    · by_cases hs : s' = r
      · subst hs
        simp only [Function.update_self]
        exact hp v hv
      · simp only [Function.update_of_ne hs]
        exact hσ.prog s'
    · simp only at hm
      split at hm
      · exact hσ.chan s r t m (by rw [hc]; exact List.mem_cons_of_mem _ hm)
      · exact hσ.chan _ _ _ _ hm

/-- Whatever schedule ends, the results satisfy `Q`. -/
theorem Safe.canFinish {P : Fin N → Prog M A} (h : ∀ r, (P r).Safe I (Q r)) {out : Fin N → A}
    (hout : CanFinish sum P out) (r : Fin N) : Q r (out r) := by
  rcases hout with ⟨k, f, hk, hf⟩ | ⟨k, f, hk, hf⟩
  · have : ∀ r, (f r).Safe I (Q r) := by
      induction hk with
      | refl a => exact h
      | head h1 _ ih => exact ih (fun r => Safe.syncStep hsum h1 h r) hf
    have := this r
    rw [hf r] at this
    exact this
  · have h0 : BufSafe I Q (bufInit P) := ⟨h, (by intro s d t m hm; cases hm), (by intro i s c v hv; cases hv)⟩
    have : BufSafe I Q f := by
      generalize bufInit P = init at hk h0
      induction hk with
      | refl a => exact h0
      | head h1 _ ih => exact ih hf (BufSafe.step hsum h1 h0)
    have := this.prog r
    rw [hf r] at this
    exact this

end

end Verif
