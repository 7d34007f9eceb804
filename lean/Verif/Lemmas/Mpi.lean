/-
The MPI semantics: one complete run settles all schedules.
-/
import Verif.Model.Mpi
import Mathlib.Tactic.Basic
import Mathlib.Data.Finset.Card
import Mathlib.Data.Fintype.Card

set_option linter.unusedSectionVars false
set_option linter.unusedSimpArgs false

namespace Verif.Mpi

/-! ### the diamond property -/

def Diamond {σ : Type} (step : σ → σ → Prop) : Prop :=
  ∀ a b c, step a b → step a c → b = c ∨ ∃ d, step b d ∧ step c d

theorem Steps.trans {σ : Type} {step : σ → σ → Prop} {n m : ℕ} {a b c : σ}
    (h1 : Steps step n a b) (h2 : Steps step m b c) : Steps step (n + m) a c := by
  induction h1 with
  | refl a => simpa using h2
  | head h _ ih =>
    have := Steps.head h (ih h2)
    rwa [Nat.add_right_comm] at this

theorem Steps.strip {σ : Type} {step : σ → σ → Prop} (hd : Diamond step) {f : σ}
    (hf : ∀ t, ¬ step f t) (n : ℕ) : ∀ {a b : σ}, Steps step (n + 1) a f → step a b →
      Steps step n b f := by
  induction n with
  | zero =>
    intro a b h hb
    cases h with
    | head h h' =>
      cases h'
      rcases hd _ _ _ hb h with rfl | ⟨d, -, h2⟩
      · exact .refl _
      · exact absurd h2 (hf d)
  | succ n ih =>
    intro a b h hb
    cases h with
    | head h h' =>
      rcases hd _ _ _ hb h with rfl | ⟨d, h1, h2⟩
      · exact h'
      · exact .head h1 (ih h' h2)

theorem Steps.all_schedules {σ : Type} {step : σ → σ → Prop} (hd : Diamond step) {f : σ}
    (hf : ∀ t, ¬ step f t) (L : ℕ) {a : σ} (h : Steps step L a f) {m : ℕ} {s : σ}
    (hs : Steps step m a s) : ∃ k, m + k = L ∧ Steps step k s f := by
  induction hs generalizing L with
  | refl a => exact ⟨L, by simp, h⟩
  | head h1 _ ih =>
    cases L with
    | zero =>
      cases h
      exact absurd h1 (hf _)
    | succ L =>
      obtain ⟨k, hk, hs⟩ := ih L (Steps.strip hd hf L h h1)
      exact ⟨k, by omega, hs⟩

theorem alwaysReaches_of_steps {σ : Type} {step : σ → σ → Prop} (hd : Diamond step) {f : σ}
    (hf : ∀ t, ¬ step f t) {L : ℕ} {a : σ} (h : Steps step L a f) {final : σ → Prop}
    (hfin : final f) : AlwaysReaches step a final := by
  refine ⟨L, fun m s hs => ?_⟩
  obtain ⟨k, hk, hsk⟩ := Steps.all_schedules hd hf L h hs
  refine ⟨by omega, fun hm => ?_, fun hm => ?_⟩
  · have : k = 0 := by omega
    subst this
    cases hsk
    exact ⟨hfin, hf⟩
  · cases hsk with
    | refl => omega
    | head h1 _ => exact ⟨_, h1⟩

variable {M A : Type} {N : ℕ} {sum : List M → M}

theorem syncStep_diamond : Diamond (SyncStep (A := A) (N := N) sum) := by
  intro a b c hb hc
  cases hb with
  | coll c1 vs ks hpos h hroot =>
    cases hc with
    | coll c2 vs' ks' hpos' h' hroot' =>
      left
      have h1 : ∀ r, c1 = c2 ∧ vs r = vs' r ∧ ks r = ks' r := by
        intro r
        have := (h r).symm.trans (h' r)
        injection this with e1 e2 e3
        exact ⟨e1, e2, e3⟩
      have e1 : c1 = c2 := (h1 ⟨0, hpos⟩).1
      have e2 : vs = vs' := funext fun r => (h1 r).2.1
      have e3 : ks = ks' := funext fun r => (h1 r).2.2
      rw [e1, e2, e3]
    | msg s d tag v k k' hsd hs hd =>
      rw [h s] at hs; cases hs
  | msg s d tag v k k' hsd hs hd =>
    cases hc with
    | coll c2 vs' ks' hpos' h' hroot' =>
      rw [h' s] at hs; cases hs
    | msg s' d' tag' v' k1 k1' hsd' hs' hd' =>
      by_cases e : s = s'
      · subst e
        rw [hs] at hs'
        injection hs' with e1 e2 e3 e4
        have : d = d' := Fin.ext e1
        subst this
        rw [hd] at hd'
        injection hd' with _ _ e5
        left; rw [e3, e4, e5]
      · right
        have hdd : d ≠ d' := by
          intro h; subst h; rw [hd] at hd'; injection hd' with e1; exact e (Fin.ext e1)
        have hsd2 : s ≠ d' := by intro h; subst h; rw [hs] at hd'; cases hd'
        have hsd3 : s' ≠ d := by intro h; subst h; rw [hs'] at hd; cases hd
        refine ⟨Function.update (Function.update (Function.update (Function.update a s k) d (k' v)) s' k1) d' (k1' v'), ?_, ?_⟩
        · exact .msg _ s' d' tag' v' k1 k1' hsd' (by
            rw [Function.update_of_ne hsd3, Function.update_of_ne (Ne.symm e)]; exact hs') (by
            rw [Function.update_of_ne hdd.symm, Function.update_of_ne hsd2.symm]; exact hd')
        · have := SyncStep.msg (sum := sum) (Function.update (Function.update a s' k1) d' (k1' v')) s d tag v k k' hsd (by
            rw [Function.update_of_ne hsd2, Function.update_of_ne e]; exact hs) (by
            rw [Function.update_of_ne hdd, Function.update_of_ne hsd3.symm]; exact hd)
          convert this using 1
          funext x
          by_cases x1 : x = s
          · subst x1; simp [Function.update, hsd, hsd2, e]
          by_cases x2 : x = d
          · subst x2; simp [Function.update, hdd, hsd3.symm]
          by_cases x3 : x = s'
          · subst x3; simp [Function.update, x1, x2, hsd']
          by_cases x4 : x = d'
          · subst x4; simp [Function.update, x1, x2, x3]
          simp [Function.update, x1, x2, x3, x4]

theorem syncStep_terminal {out : Fin N → A} {σ : Fin N → Prog M A} (h : ∀ r, σ r = .ret (out r)) (t) :
    ¬ SyncStep sum σ t := by
  intro hs
  cases hs with
  | coll c vs ks hpos h' => have := h ⟨0, hpos⟩; rw [h' _] at this; cases this
  | msg s d tag v k k' hsd hs hd => have := h s; rw [hs] at this; cases this

/-! ### buffered semantics -/

theorem mapM_option_mono {α β : Type} (f : α → Option β) {l l' : List α}
    (h : List.Forall₂ (fun a a' => ∀ b, f a = some b → f a' = some b) l l') {vs : List β}
    (hv : l.mapM f = some vs) : l'.mapM f = some vs := by
  induction h generalizing vs with
  | nil => exact hv
  | cons hab _ ih =>
    rw [List.mapM_cons] at hv ⊢
    simp only [bind, Option.bind_eq_some_iff, pure, Option.some.injEq] at hv ⊢
    obtain ⟨x, hx, xs, hxs, rfl⟩ := hv
    exact ⟨x, hab x hx, xs, ih hxs, rfl⟩

theorem gathered_mono {slot slot' : ℕ → Fin N → Option (Coll × M)}
    (h : ∀ i s x, slot i s = some x → slot' i s = some x) {i : ℕ} {c : Coll} {vs : List M}
    (hg : gathered slot i c = some vs) : gathered slot' i c = some vs := by
  unfold gathered at *
  refine mapM_option_mono _ ?_ hg
  rw [List.forall₂_iff_get]
  simp only [List.length_ofFn, List.get_eq_getElem, List.getElem_ofFn, true_and]
  intro j h1 h2 b hb
  cases hx : slot i ⟨j, h1⟩ with
  | none => rw [hx] at hb; simp at hb
  | some x => rw [hx] at hb; rw [h _ _ _ hx]; exact hb

theorem available_mono {slot slot' : ℕ → Fin N → Option (Coll × M)}
    (h : ∀ i s x, slot i s = some x → slot' i s = some x) {i : ℕ} {c : Coll} {r : Fin N}
    {m : Option M} (ha : available sum slot i c r = some m) : available sum slot' i c r = some m := by
  unfold available at *
  cases c with
  | bcast root =>
    simp only at *
    split at ha
    · rename_i hr
      rw [dif_pos hr]
      cases hx : slot i ⟨root, hr⟩ with
      | none => rw [hx] at ha; simp at ha
      | some x => rw [hx] at ha; rw [h _ _ _ hx]; exact ha
    · cases ha
  | reduce root =>
    simp only at *
    split at ha
    · rename_i hr
      rw [if_pos hr]
      split at ha
      · rename_i hr2
        rw [if_pos hr2]
        cases hx : gathered slot i (.reduce root) with
        | none => rw [hx] at ha; simp at ha
        | some x => rw [hx] at ha; rw [gathered_mono h hx]; exact ha
      · rename_i hr2
        rw [if_neg hr2]; exact ha
    · cases ha

@[ext] theorem BufState.ext' {a b : BufState M A N} (h1 : a.prog = b.prog) (h2 : a.chan = b.chan)
    (h3 : a.count = b.count) (h4 : a.entered = b.entered) (h5 : a.slot = b.slot) : a = b := by
  cases a; cases b; simp at *; exact ⟨h1, h2, h3, h4, h5⟩

/-- A step of `r` as a relation. -/
inductive BufCase (sum : List M → M) (σ : BufState M A N) (r : Fin N) : BufState M A N → Prop where
  | leave (c v k m) (hp : σ.prog r = .coll c v k) (he : σ.entered r = true)
      (ha : available sum σ.slot (σ.count r) c r = some m) :
      BufCase sum σ r { σ with
          prog := Function.update σ.prog r (k m)
          count := Function.update σ.count r (σ.count r + 1)
          entered := Function.update σ.entered r false }
  | enter (c v k) (hp : σ.prog r = .coll c v k) (he : σ.entered r = false)
      (hs : σ.slot (σ.count r) r = none) :
      BufCase sum σ r { σ with
          entered := Function.update σ.entered r true
          slot := fun i s => if i = σ.count r ∧ s = r then some (c, v) else σ.slot i s }
  | send (d : Fin N) (t v k) (hp : σ.prog r = .send d t v k) (hne : d ≠ r) :
      BufCase sum σ r { σ with
        prog := Function.update σ.prog r k
        chan := fun a b t' => if a = r ∧ b = d ∧ t' = t then σ.chan a b t' ++ [v]
          else σ.chan a b t' }
  | recv (s : Fin N) (t k v rest) (hp : σ.prog r = .recv s t k) (hc : σ.chan s r t = v :: rest) :
      BufCase sum σ r { σ with
          prog := Function.update σ.prog r (k v)
          chan := fun a b t' => if a = s ∧ b = r ∧ t' = t then rest else σ.chan a b t' }

theorem bufStep_iff {σ τ : BufState M A N} {r : Fin N} :
    bufStep sum σ r = some τ ↔ BufCase sum σ r τ := by
  constructor
  · intro h
    unfold bufStep at h
    split at h
    · cases h
    · cases h
    · rename_i c v k hp
      split at h
      · rename_i he
        split at h
        · rename_i m ha
          injection h with h; subst h
          exact .leave c v k m hp he ha
        · cases h
      · rename_i he
        split at h
        · cases h
        · rename_i hs
          injection h with h; subst h
          exact .enter c v k hp (by simpa using he) hs
    · rename_i d t v k hp
      split at h
      · rename_i hd
        split at h
        · cases h
        · rename_i hne
          injection h with h; subst h
          exact .send ⟨d, hd⟩ t v k hp (fun e => hne (congrArg Fin.val e))
      · cases h
    · rename_i s t k hp
      split at h
      · rename_i hs
        split at h
        · cases h
        · rename_i v rest hc
          injection h with h; subst h
          exact .recv ⟨s, hs⟩ t k v rest hp hc
      · cases h
  · intro h
    cases h with
    | leave c v k m hp he ha => simp only [bufStep, hp, he, ha, if_true]
    | enter c v k hp he hs => simp [bufStep, hp, he, hs]
    | send d t v k hp hne =>
      have : ¬ d.val = r.val := fun e => hne (Fin.ext e)
      simp [bufStep, hp, this, d.isLt]
    | recv s t k v rest hp hc =>
      simp only [bufStep, hp, s.isLt, dif_pos, Fin.eta, hc]

theorem slot_mono {slot : ℕ → Fin N → Option (Coll × M)} {i₀ : ℕ} {s : Fin N} {x₀ : Coll × M}
    (h : slot i₀ s = none) : ∀ i x y, slot i x = some y →
      (if i = i₀ ∧ x = s then some x₀ else slot i x) = some y := by
  intro i x y hy
  split
  · rename_i hh; obtain ⟨rfl, rfl⟩ := hh; rw [h] at hy; cases hy
  · exact hy

theorem bufStep_comm {σ τ₁ τ₂ : BufState M A N} {r s : Fin N} (hrs : r ≠ s)
    (h1 : BufCase sum σ r τ₁) (h2 : BufCase sum σ s τ₂) :
    ∃ ρ, BufCase sum τ₁ s ρ ∧ BufCase sum τ₂ r ρ := by
  have hsr := hrs.symm
  cases h1 with
  | leave c v k m hp he ha =>
    cases h2 with
    | leave c' v' k' m' hp' he' ha' =>
      refine ⟨_, .leave c' v' k' m' (by simpa [Function.update, hsr] using hp') (by simpa [Function.update, hsr] using he') (by simpa [Function.update, hsr] using ha'), ?_⟩
      convert BufCase.leave (sum := sum) c v k m _ _ _ using 1
      · ext1 <;> simp [Function.update_comm hrs, Function.update_of_ne hrs, Function.update_of_ne hsr]
      · simpa [Function.update, hrs] using hp
      · simpa [Function.update, hrs] using he
      · simpa [Function.update, hrs] using ha
    | enter c' v' k' hp' he' hs' =>
      refine ⟨_, .enter c' v' k' (by simpa [Function.update, hsr] using hp') (by simpa [Function.update, hsr] using he') (by simpa [Function.update, hsr] using hs'), ?_⟩
      convert BufCase.leave (sum := sum) c v k m _ _ _ using 1
      · ext1 <;> simp [Function.update_comm hrs, Function.update_of_ne hrs, Function.update_of_ne hsr]
      · simpa [Function.update, hrs] using hp
      · simpa [Function.update, hrs] using he
      · simp only; exact available_mono (slot_mono hs') ha
    | send d' t' v' k' hp' hne' =>
      refine ⟨_, .send d' t' v' k' (by simpa [Function.update, hsr] using hp') (by exact hne'), ?_⟩
      convert BufCase.leave (sum := sum) c v k m _ _ _ using 1
      · ext1 <;> simp [Function.update_comm hrs, Function.update_of_ne hrs, Function.update_of_ne hsr]
      · simpa [Function.update, hrs] using hp
      · simpa [Function.update, hrs] using he
      · simpa [Function.update, hrs] using ha
    | recv d' t' k' v' rest' hp' hc' =>
      refine ⟨_, .recv d' t' k' v' rest' (by simpa [Function.update, hsr] using hp') (by simpa [Function.update, hsr] using hc'), ?_⟩
      convert BufCase.leave (sum := sum) c v k m _ _ _ using 1
      · ext1 <;> simp [Function.update_comm hrs, Function.update_of_ne hrs, Function.update_of_ne hsr]
      · simpa [Function.update, hrs] using hp
      · simpa [Function.update, hrs] using he
      · simpa [Function.update, hrs] using ha
  | enter c v k hp he hs =>
    cases h2 with
    | leave c' v' k' m' hp' he' ha' =>
      refine ⟨_, .leave c' v' k' m' (by simpa [Function.update, hsr] using hp') (by simpa [Function.update, hsr] using he') (by simp only; exact available_mono (slot_mono hs) ha'), ?_⟩
      convert BufCase.enter (sum := sum) c v k _ _ _ using 1
      · ext1 <;> simp [Function.update_comm hrs, Function.update_of_ne hrs, Function.update_of_ne hsr]
      · simpa [Function.update, hrs] using hp
      · simpa [Function.update, hrs] using he
      · simpa [Function.update, hrs] using hs
    | enter c' v' k' hp' he' hs' =>
      refine ⟨_, .enter c' v' k' (by simpa [Function.update, hsr] using hp') (by simpa [Function.update, hsr] using he') (by simpa [Function.update, hsr] using hs'), ?_⟩
      convert BufCase.enter (sum := sum) c v k _ _ _ using 1
      · ext1 <;> try simp [Function.update_comm hrs, Function.update_of_ne hrs, Function.update_of_ne hsr]
        funext i x
        by_cases h1 : i = σ.count r ∧ x = r
        · obtain ⟨rfl, rfl⟩ := h1; simp [hrs]
        · simp [h1]
      · simpa [Function.update, hrs] using hp
      · simpa [Function.update, hrs] using he
      · simpa [Function.update, hrs] using hs
    | send d' t' v' k' hp' hne' =>
      refine ⟨_, .send d' t' v' k' (by simpa [Function.update, hsr] using hp') (by exact hne'), ?_⟩
      convert BufCase.enter (sum := sum) c v k _ _ _ using 1
      · simpa [Function.update, hrs] using hp
      · simpa [Function.update, hrs] using he
      · simpa [Function.update, hrs] using hs
    | recv d' t' k' v' rest' hp' hc' =>
      refine ⟨_, .recv d' t' k' v' rest' (by simpa [Function.update, hsr] using hp') (by simpa [Function.update, hsr] using hc'), ?_⟩
      convert BufCase.enter (sum := sum) c v k _ _ _ using 1
      · simpa [Function.update, hrs] using hp
      · simpa [Function.update, hrs] using he
      · simpa [Function.update, hrs] using hs
  | send d t v k hp hne =>
    cases h2 with
    | leave c' v' k' m' hp' he' ha' =>
      refine ⟨_, .leave c' v' k' m' (by simpa [Function.update, hsr] using hp') (by simpa [Function.update, hsr] using he') (by simpa [Function.update, hsr] using ha'), ?_⟩
      convert BufCase.send (sum := sum) d t v k _ _ using 1
      · ext1 <;> simp [Function.update_comm hrs, Function.update_of_ne hrs, Function.update_of_ne hsr]
      · simpa [Function.update, hrs] using hp
      · exact hne
    | enter c' v' k' hp' he' hs' =>
      refine ⟨_, .enter c' v' k' (by simpa [Function.update, hsr] using hp') (by simpa [Function.update, hsr] using he') (by simpa [Function.update, hsr] using hs'), ?_⟩
      convert BufCase.send (sum := sum) d t v k _ _ using 1
      · simpa [Function.update, hrs] using hp
      · exact hne
    | send d' t' v' k' hp' hne' =>
      refine ⟨_, .send d' t' v' k' (by simpa [Function.update, hsr] using hp') (by exact hne'), ?_⟩
      convert BufCase.send (sum := sum) d t v k _ _ using 1
      · ext1 <;> try simp [Function.update_comm hrs, Function.update_of_ne hrs, Function.update_of_ne hsr]
        funext a b t
        by_cases h1 : a = r
        · subst h1; simp [hrs]
        · simp [h1]
      · simpa [Function.update, hrs] using hp
      · exact hne
    | recv d' t' k' v' rest' hp' hc' =>
      refine ⟨{ σ with
        prog := Function.update (Function.update σ.prog r k) s (k' v')
        chan := fun a b u => if a = d' ∧ b = s ∧ u = t' then
            (if d' = r ∧ s = d ∧ t' = t then rest' ++ [v] else rest')
          else if a = r ∧ b = d ∧ u = t then σ.chan a b u ++ [v] else σ.chan a b u }, ?_, ?_⟩
      · convert BufCase.recv (sum := sum) d' t' k' v'
          (if d' = r ∧ s = d ∧ t' = t then rest' ++ [v] else rest') _ _ using 1
        · simpa [Function.update, hsr] using hp'
        · simp only
          split
          · rename_i hh; obtain ⟨h1, h2, h3⟩ := hh; rw [hc']; rfl
          · exact hc'
      · convert BufCase.send (sum := sum) d t v k _ hne using 1
        · ext1
          · simp [Function.update_comm hrs]
          · funext a b u
            simp only
            by_cases h1 : a = d' ∧ b = s ∧ u = t'
            · obtain ⟨rfl, rfl, rfl⟩ := h1
              simp
            · simp [h1]
          · rfl
          · rfl
          · rfl
        · simpa [Function.update, hrs] using hp
  | recv d t k v rest hp hc =>
    cases h2 with
    | leave c' v' k' m' hp' he' ha' =>
      refine ⟨_, .leave c' v' k' m' (by simpa [Function.update, hsr] using hp') (by simpa [Function.update, hsr] using he') (by simpa [Function.update, hsr] using ha'), ?_⟩
      convert BufCase.recv (sum := sum) d t k v rest _ _ using 1
      · ext1 <;> simp [Function.update_comm hrs, Function.update_of_ne hrs, Function.update_of_ne hsr]
      · simpa [Function.update, hrs] using hp
      · simpa [Function.update, hrs] using hc
    | enter c' v' k' hp' he' hs' =>
      refine ⟨_, .enter c' v' k' (by simpa [Function.update, hsr] using hp') (by simpa [Function.update, hsr] using he') (by simpa [Function.update, hsr] using hs'), ?_⟩
      convert BufCase.recv (sum := sum) d t k v rest _ _ using 1
      · simpa [Function.update, hrs] using hp
      · simpa [Function.update, hrs] using hc
    | send d' t' v' k' hp' hne' =>
      refine ⟨{ σ with
        prog := Function.update (Function.update σ.prog s k') r (k v)
        chan := fun a b u => if a = d ∧ b = r ∧ u = t then
            (if d = s ∧ r = d' ∧ t = t' then rest ++ [v'] else rest)
          else if a = s ∧ b = d' ∧ u = t' then σ.chan a b u ++ [v'] else σ.chan a b u }, ?_, ?_⟩
      · convert BufCase.send (sum := sum) d' t' v' k' _ hne' using 1
        · ext1
          · simp [Function.update_comm hsr]
          · funext a b u
            simp only
            by_cases h1 : a = d ∧ b = r ∧ u = t
            · obtain ⟨rfl, rfl, rfl⟩ := h1
              simp
            · simp [h1]
          · rfl
          · rfl
          · rfl
        · simpa [Function.update, hsr] using hp'
      · convert BufCase.recv (sum := sum) d t k v
          (if d = s ∧ r = d' ∧ t = t' then rest ++ [v'] else rest) _ _ using 1
        · simpa [Function.update, hrs] using hp
        · simp only
          split
          · rename_i hh; obtain ⟨h1, h2, h3⟩ := hh; rw [hc]; rfl
          · exact hc
    | recv d' t' k' v' rest' hp' hc' =>
      refine ⟨_, .recv d' t' k' v' rest' (by simpa [Function.update, hsr] using hp') (by simpa [Function.update, hsr] using hc'), ?_⟩
      convert BufCase.recv (sum := sum) d t k v rest _ _ using 1
      · ext1 <;> try simp [Function.update_comm hrs, Function.update_of_ne hrs, Function.update_of_ne hsr]
        funext a b t
        by_cases h1 : b = r
        · subst h1; simp [hrs]
        · simp [h1]
      · simpa [Function.update, hrs] using hp
      · simpa [Function.update, hrs] using hc

theorem bufStep_diamond : Diamond (BufStep (A := A) (N := N) sum) := by
  rintro a b c ⟨r, hr⟩ ⟨s, hs⟩
  by_cases h : r = s
  · subst h
    rw [hr] at hs
    injection hs with hs
    exact Or.inl hs
  · obtain ⟨d, h1, h2⟩ := bufStep_comm h (bufStep_iff.1 hr) (bufStep_iff.1 hs)
    exact Or.inr ⟨d, ⟨s, bufStep_iff.2 h1⟩, ⟨r, bufStep_iff.2 h2⟩⟩

theorem bufStep_terminal {out : Fin N → A} {σ : BufState M A N} (h : ∀ r, σ.prog r = .ret (out r)) (t) :
    ¬ BufStep sum σ t := by
  rintro ⟨r, hr⟩
  unfold bufStep at hr
  rw [h r] at hr
  cases hr

/-- Between two operations: no message on the way, all ranks equally far. -/
def clean (σ : Fin N → Prog M A) (c : ℕ) (slot : ℕ → Fin N → Option (Coll × M)) : BufState M A N where
  prog := σ
  chan := fun _ _ _ => []
  count := fun _ => c
  entered := fun _ => false
  slot := slot

theorem Steps.one {σ : Type} {step : σ → σ → Prop} {a b : σ} (h : step a b) : Steps step 1 a b :=
  .head h (.refl b)

theorem Steps.tail {σ : Type} {step : σ → σ → Prop} {n : ℕ} {a b c : σ} (h : Steps step n a b)
    (h' : step b c) : Steps step (n + 1) a c := h.trans (.one h')

theorem gathered_full {slot : ℕ → Fin N → Option (Coll × M)} {i : ℕ} {c : Coll} {vs : Fin N → M}
    (h : ∀ s, slot i s = some (c, vs s)) : gathered slot i c = some (List.ofFn vs) := by
  unfold gathered
  have h1 : List.ofFn (slot i) = (List.ofFn vs).map fun v => some (c, v) := by
    rw [List.map_ofFn]
    congr 1
    funext s
    exact h s
  rw [h1]
  generalize List.ofFn vs = l
  induction l with
  | nil => rfl
  | cons a l ih =>
    rw [List.map_cons, List.mapM_cons, ih]
    simp

theorem available_full {slot : ℕ → Fin N → Option (Coll × M)} {i : ℕ} {c : Coll} {vs : Fin N → M}
    (hroot : ∀ root, c = .bcast root ∨ c = .reduce root → root < N)
    (h : ∀ s, slot i s = some (c, vs s)) (r : Fin N) :
    available sum slot i c r = some (collResult sum c vs r) := by
  unfold available collResult
  cases c with
  | bcast root =>
    have := hroot root (Or.inl rfl)
    simp [this, h]
  | reduce root =>
    have := hroot root (Or.inr rfl)
    simp only [this, if_true, gathered_full h]
    split <;> rfl

theorem simulate {σ τ : Fin N → Prog M A} (h : SyncStep sum σ τ) (c : ℕ)
    (slot : ℕ → Fin N → Option (Coll × M)) (hslot : ∀ i ≥ c, ∀ s, slot i s = none) :
    ∃ k c' slot', Steps (BufStep sum) k (clean σ c slot) (clean τ c' slot') ∧
      ∀ i ≥ c', ∀ s, slot' i s = none := by
  cases h with
  | msg s d tag v k k' hsd hs hd =>
    refine ⟨2, c, slot, ?_, hslot⟩
    have h1 : BufStep sum (clean σ c slot) { clean (Function.update σ s k) c slot with
        chan := fun a b t' => if a = s ∧ b = d ∧ t' = tag then [v] else [] } := by
      refine ⟨s, bufStep_iff.2 ?_⟩
      convert BufCase.send (sum := sum) d tag v k _ hsd.symm using 1
      · ext1 <;> rfl
      · exact hs
    have h2 : BufStep sum { clean (Function.update σ s k) c slot with
        chan := fun a b t' => if a = s ∧ b = d ∧ t' = tag then [v] else [] }
        (clean (Function.update (Function.update σ s k) d (k' v)) c slot) := by
      refine ⟨d, bufStep_iff.2 ?_⟩
      convert BufCase.recv (sum := sum) s tag k' v [] _ _ using 1
      · ext1 <;> try rfl
        funext a b t
        simp only [clean]
        split <;> simp_all
      · simp only [clean]
        rw [Function.update_of_ne hsd.symm]; exact hd
      · simp
    exact .head h1 (.one h2)
  | coll C vs ks hpos h hroot =>
    -- all ranks contribute
    let E : Finset (Fin N) → BufState M A N := fun D =>
      { prog := σ, chan := fun _ _ _ => [], count := fun _ => c,
        entered := fun r => decide (r ∈ D),
        slot := fun i s => if i = c ∧ s ∈ D then some (C, vs s) else slot i s }
    have hE : ∀ D : Finset (Fin N), Steps (BufStep sum) D.card (E ∅) (E D) := by
      intro D
      induction D using Finset.induction_on with
      | empty => exact .refl _
      | insert r D hr ih =>
        rw [Finset.card_insert_of_notMem hr]
        refine ih.tail ⟨r, bufStep_iff.2 ?_⟩
        convert BufCase.enter (sum := sum) C (vs r) (ks r) _ _ _ using 1
        · simp only [E]
          ext1 <;> try rfl
          · funext x
            by_cases hx : x = r
            · subst hx; simp
            · simp [Function.update, hx]
          · funext i x
            by_cases hx : x = r
            · subst hx
              by_cases hi : i = c <;> simp [hi]
            · simp [hx]
        · exact h r
        · simpa [E] using hr
        · simp [E, hr, hslot c le_rfl]
    -- all ranks leave
    let slot' : ℕ → Fin N → Option (Coll × M) := fun i s => if i = c then some (C, vs s) else slot i s
    let Lv : Finset (Fin N) → BufState M A N := fun D =>
      { prog := fun r => if r ∈ D then ks r (collResult sum C vs r) else σ r,
        chan := fun _ _ _ => [], count := fun r => if r ∈ D then c + 1 else c,
        entered := fun r => decide (r ∉ D), slot := slot' }
    have hL : ∀ D : Finset (Fin N), Steps (BufStep sum) D.card (Lv ∅) (Lv D) := by
      intro D
      induction D using Finset.induction_on with
      | empty => exact .refl _
      | insert r D hr ih =>
        rw [Finset.card_insert_of_notMem hr]
        refine ih.tail ⟨r, bufStep_iff.2 ?_⟩
        convert BufCase.leave (sum := sum) C (vs r) (ks r) (collResult sum C vs r) _ _ _ using 1
        · simp only [Lv]
          ext1 <;> try rfl
          · funext x
            by_cases hx : x = r
            · subst hx; simp
            · simp [Function.update, hx]
          · funext x
            by_cases hx : x = r
            · subst hx; simp [hr]
            · simp [Function.update, hx]
          · funext x
            by_cases hx : x = r
            · subst hx; simp
            · simp [Function.update, hx]
        · simp only [Lv, hr, if_false]; exact h r
        · simp [Lv, hr]
        · simp only [Lv, hr, if_false]
          exact available_full hroot (by intro s; simp [slot']) r
    have e0 : clean σ c slot = E ∅ := by
      ext1 <;> try rfl
      funext i s; simp [clean, E]
    have e1 : E Finset.univ = Lv ∅ := by
      ext1 <;> try rfl
      all_goals simp [E, Lv, slot']
    have e2 : Lv Finset.univ = clean (fun r => ks r (collResult sum C vs r)) (c + 1) slot' := by
      ext1 <;> try rfl
      all_goals simp [Lv, clean]
    have hrun := (hE Finset.univ).trans (e1 ▸ hL Finset.univ)
    rw [e2, ← e0] at hrun
    refine ⟨_, c + 1, slot', hrun, ?_⟩
    · intro i hi s
      have : i ≠ c := by omega
      simp only [slot', if_neg this]
      exact hslot i (by omega) s

/-! ### programs that run to the end -/

/-- The ranks run to the end in the synchronous semantics. -/
def Runs (sum : List M → M) (P : Fin N → Prog M A) (out : Fin N → A) : Prop :=
  ∃ k f, Steps (SyncStep sum) k P f ∧ ∀ r, f r = .ret (out r)

theorem simulate_steps {k : ℕ} {σ τ : Fin N → Prog M A} (h : Steps (SyncStep sum) k σ τ) :
    ∀ (c : ℕ) (slot : ℕ → Fin N → Option (Coll × M)), (∀ i ≥ c, ∀ s, slot i s = none) →
    ∃ k c' slot', Steps (BufStep sum) k (clean σ c slot) (clean τ c' slot') := by
  induction h with
  | refl a => intro c slot _; exact ⟨0, c, slot, .refl _⟩
  | head h _ ih =>
    intro c slot hslot
    obtain ⟨k1, c1, s1, hs1, hn1⟩ := simulate h c slot hslot
    obtain ⟨k2, c2, s2, hs2⟩ := ih c1 s1 hn1
    exact ⟨_, c2, s2, hs1.trans hs2⟩

/-- A run to the end in one schedule settles all schedules of both semantics. -/
theorem Runs.allRanksFinish {P : Fin N → Prog M A} {out : Fin N → A} (h : Runs sum P out) :
    AllRanksFinish sum P out := by
  obtain ⟨k, f, hk, hf⟩ := h
  refine ⟨alwaysReaches_of_steps syncStep_diamond (syncStep_terminal hf) hk hf, ?_⟩
  obtain ⟨k', c', slot', hk'⟩ := simulate_steps hk 0 (fun _ _ => none) (by simp)
  exact alwaysReaches_of_steps bufStep_diamond (bufStep_terminal (σ := clean f c' slot') hf) hk'
    ⟨hf, by intros; rfl⟩

theorem Runs.ret {P : Fin N → Prog M A} {out : Fin N → A} (h : ∀ r, P r = .ret (out r)) :
    Runs sum P out := ⟨0, P, .refl _, h⟩

theorem Runs.step {P Q : Fin N → Prog M A} {out : Fin N → A} (h : SyncStep sum P Q)
    (hq : Runs sum Q out) : Runs sum P out := by
  obtain ⟨k, f, hk, hf⟩ := hq
  exact ⟨k + 1, f, .head h hk, hf⟩

theorem Prog.bind_ret (p : Prog M A) : p.bind .ret = p := by
  induction p with
  | ret a => rfl
  | fail e => rfl
  | coll c v k ih => simp only [Prog.bind]; congr 1; funext m; exact ih m
  | send d t v k ih => simp only [Prog.bind, ih]
  | recv s t k ih => simp only [Prog.bind]; congr 1; funext m; exact ih m

theorem Prog.bind_assoc {B C : Type} (p : Prog M A) (f : A → Prog M B) (g : B → Prog M C) :
    (p.bind f).bind g = p.bind fun a => (f a).bind g := by
  induction p with
  | ret a => rfl
  | fail e => rfl
  | coll c v k ih => simp only [Prog.bind]; congr 1; funext m; exact ih m
  | send d t v k ih => simp only [Prog.bind, ih]
  | recv s t k ih => simp only [Prog.bind]; congr 1; funext m; exact ih m

/-- A step goes through under sequential composition. -/
theorem SyncStep.bind {B : Type} {σ τ : Fin N → Prog M A} (h : SyncStep sum σ τ)
    (f : Fin N → A → Prog M B) :
    SyncStep sum (fun r => (σ r).bind (f r)) (fun r => (τ r).bind (f r)) := by
  cases h with
  | coll c vs ks hpos h hroot =>
    exact .coll _ c vs (fun r m => (ks r m).bind (f r)) hpos (fun r => by simp only [h r, Prog.bind]) hroot
  | msg s d tag v k k' hsd hs hd =>
    have := SyncStep.msg (sum := sum) (fun r => (σ r).bind (f r)) s d tag v (k.bind (f s))
      (fun m => (k' m).bind (f d)) hsd (by simp only [hs, Prog.bind]) (by simp only [hd, Prog.bind])
    convert this using 1
    funext r
    by_cases h1 : r = d
    · subst h1; simp
    · by_cases h2 : r = s
      · subst h2; simp [Function.update, h1]
      · simp [Function.update, h1, h2]

/-- Sequential composition. -/
theorem Runs.bind {B : Type} {P : Fin N → Prog M A} {out : Fin N → A} (h : Runs sum P out)
    {f : Fin N → A → Prog M B} {out' : Fin N → B} (h' : Runs sum (fun r => f r (out r)) out') :
    Runs sum (fun r => (P r).bind (f r)) out' := by
  obtain ⟨k, τ, hk, hτ⟩ := h
  induction hk with
  | refl a =>
    convert h' using 2 with r
    rw [hτ r]; rfl
  | head h1 _ ih => exact .step (h1.bind f) (ih hτ)

theorem Runs.bcast (P : Fin N → Prog M M) (root : Fin N) (vs : Fin N → M)
    (h : ∀ r, P r = Mpi.bcast root.val (vs r)) :
    Runs sum P (fun _ => vs root) := by
  refine .step (.coll _ (.bcast root.val) vs _ (by have := root.isLt; omega) h ?_) (.ret fun r => ?_)
  · rintro r (h | h)
    · injection h with h; rw [← h]; exact root.isLt
    · cases h
  · simp [collResult, root.isLt]

theorem Runs.reduce (P : Fin N → Prog M (Option M)) (root : Fin N) (vs : Fin N → M)
    (h : ∀ r, P r = Mpi.reduce root.val (vs r)) :
    Runs sum P (fun r => if r = root then some (sum (List.ofFn vs)) else none) := by
  refine .step (.coll _ (.reduce root.val) vs _ (by have := root.isLt; omega) h ?_) (.ret fun r => ?_)
  · rintro r (h | h)
    · cases h
    · injection h with h; rw [← h]; exact root.isLt
  · simp [collResult, Fin.ext_iff]

theorem Runs.congr {P Q : Fin N → Prog M A} {out out' : Fin N → A} (h : Runs sum P out)
    (hP : ∀ r, Q r = P r) (ho : ∀ r, out' r = out r) : Runs sum Q out' := by
  rw [show Q = P from funext hP, show out' = out from funext ho]; exact h

theorem AllRanksFinish.unique {P : Fin N → Prog M A} {out out' : Fin N → A}
    (h : AllRanksFinish sum P out) (h' : CanFinish sum P out') : out' = out := by
  rcases h' with ⟨k, f, hk, hf⟩ | ⟨k, f, hk, hf⟩
  · obtain ⟨L, hL⟩ := h.sync
    obtain ⟨h1, h2, h3⟩ := hL k f hk
    have : k = L := by
      by_contra hne
      obtain ⟨t, ht⟩ := h3 (by omega)
      exact syncStep_terminal hf t ht
    funext r
    have := (h2 this).1 r
    rw [hf r] at this
    injection this
  · obtain ⟨L, hL⟩ := h.buffered
    obtain ⟨h1, h2, h3⟩ := hL k f hk
    have : k = L := by
      by_contra hne
      obtain ⟨t, ht⟩ := h3 (by omega)
      exact bufStep_terminal hf t ht
    funext r
    have := (h2 this).1.1 r
    rw [hf r] at this
    injection this

theorem Runs.canFinish {P : Fin N → Prog M A} {out : Fin N → A} (h : Runs sum P out) :
    CanFinish sum P out := Or.inl h

end Verif.Mpi
