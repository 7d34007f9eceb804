/-
Programs that store something: at every moment of every schedule, each rank has stored
the beginning of what it stores in the end.
-/
import Verif.Model.Files
import Verif.Lemmas.SimulateRuns

set_option linter.unusedSectionVars false

namespace Verif.Mpi

variable {N : ℕ} {M W A B X : Type} {sum : List M → M}

/-! ### steps commute -/

/-- Two runs from the same state can be joined. -/
theorem Steps.join {σ : Type} {step : σ → σ → Prop} (hd : Diamond step) {n m : ℕ} {a b c : σ}
    (hb : Steps step n a b) (hc : Steps step m a c) : ∃ k l d, Steps step k b d ∧ Steps step l c d := by
  have one : ∀ {m : ℕ} {a b c : σ}, step a b → Steps step m a c → ∃ k l d, Steps step k b d ∧ Steps step l c d := by
    intro m a b c hb hc
    induction hc generalizing b with
    | refl a => exact ⟨0, 1, b, .refl b, .one hb⟩
    | head h hs ih =>
      rcases hd _ _ _ hb h with rfl | ⟨d, h1, h2⟩
      · exact ⟨_, 0, _, hs, .refl _⟩
      · obtain ⟨k, l, e, h3, h4⟩ := ih h2
        exact ⟨_, l, e, .head h1 h3, h4⟩
  induction hb generalizing m c with
  | refl a => exact ⟨_, 0, _, hc, .refl _⟩
  | head h _ ih =>
    obtain ⟨k, l, d, h1, h2⟩ := one h hc
    obtain ⟨k', l', d', h3, h4⟩ := ih h1
    exact ⟨k', l + l', d', h3, h2.trans h4⟩

theorem SyncStep.update_ret {σ τ : Fin N → Prog M A} (h : SyncStep sum σ τ) {r : Fin N} {a : A} (hr : σ r = .ret a)
    (p : Prog M A) : τ r = .ret a ∧ SyncStep sum (Function.update σ r p) (Function.update τ r p) := by
  cases h with
  | coll c vs ks hpos h' hroot => rw [h' r] at hr; cases hr
  | msg s d tag v k k' hsd hs hd =>
    have h1 : r ≠ s := by rintro rfl; rw [hs] at hr; cases hr
    have h2 : r ≠ d := by rintro rfl; rw [hd] at hr; cases hr
    refine ⟨by rw [Function.update_of_ne h2, Function.update_of_ne h1]; exact hr, ?_⟩
    have := SyncStep.msg (sum := sum) (Function.update σ r p) s d tag v k k' hsd
      (by rw [Function.update_of_ne h1.symm]; exact hs) (by rw [Function.update_of_ne h2.symm]; exact hd)
    rwa [Function.update_comm h1, Function.update_comm h2] at this

theorem syncFStep_diamond : Diamond (SyncFStep (W := W) (A := A) (N := N) sum) := by
  rintro ⟨σ, l⟩ b c hb hc
  cases hb with
  | mpi _ h1 =>
    cases hc with
    | mpi _ h2 =>
      rcases syncStep_diamond _ _ _ h1 h2 with rfl | ⟨d, h3, h4⟩
      · exact Or.inl rfl
      · exact Or.inr ⟨(d, l), .mpi l h3, .mpi l h4⟩
    | store _ _ r w k h2 =>
      obtain ⟨h3, h4⟩ := h1.update_ret h2 k.next
      exact Or.inr ⟨_, .store _ _ r w k h3, .mpi _ h4⟩
  | store _ _ r w k h1 =>
    cases hc with
    | mpi _ h2 =>
      obtain ⟨h3, h4⟩ := h2.update_ret h1 k.next
      exact Or.inr ⟨_, .mpi _ h4, .store _ _ r w k h3⟩
    | store _ _ r' w' k' h2 =>
      by_cases hrr : r = r'
      · subst hrr
        rw [h1] at h2
        cases h2
        exact Or.inl rfl
      · refine Or.inr ⟨_, .store _ _ r' w' k' (by rw [Function.update_of_ne (Ne.symm hrr)]; exact h2), ?_⟩
        have := SyncFStep.store (sum := sum) (Function.update σ r' k'.next) (Function.update l r' (l r' ++ [w'])) r w k
          (by rw [Function.update_of_ne hrr]; exact h1)
        rwa [Function.update_comm hrr, Function.update_of_ne hrr, Function.update_comm hrr,
          Function.update_of_ne (Ne.symm hrr)] at *

theorem BufCase.update_ret {σ τ : BufState M A N} {s : Fin N} (h : BufCase sum σ s τ) {r : Fin N} {a : A}
    (hr : σ.prog r = .ret a) (p : Prog M A) : τ.prog r = .ret a ∧
      BufCase sum { σ with prog := Function.update σ.prog r p } s { τ with prog := Function.update τ.prog r p } := by
  have hrs : r ≠ s := by
    rintro rfl
    cases h with
    | leave c v k m hp he ha => rw [hp] at hr; cases hr
    | enter c v k hp he hs => rw [hp] at hr; cases hr
    | send d t v k hp hne => rw [hp] at hr; cases hr
    | recv d t k v rest hp hc => rw [hp] at hr; cases hr
  cases h with
  | leave c v k m hp he ha =>
    refine ⟨by simpa [Function.update_of_ne hrs] using hr, ?_⟩
    have := BufCase.leave (sum := sum) (σ := { σ with prog := Function.update σ.prog r p }) (r := s) c v k m
      (by simpa [Function.update_of_ne hrs.symm] using hp) he ha
    simpa only [Function.update_comm hrs] using this
  | enter c v k hp he hs =>
    refine ⟨hr, ?_⟩
    exact BufCase.enter (sum := sum) (σ := { σ with prog := Function.update σ.prog r p }) (r := s) c v k
      (by simpa [Function.update_of_ne hrs.symm] using hp) he hs
  | send d t v k hp hne =>
    refine ⟨by simpa [Function.update_of_ne hrs] using hr, ?_⟩
    have := BufCase.send (sum := sum) (σ := { σ with prog := Function.update σ.prog r p }) (r := s) d t v k
      (by simpa [Function.update_of_ne hrs.symm] using hp) hne
    simpa only [Function.update_comm hrs] using this
  | recv d t k v rest hp hc =>
    refine ⟨by simpa [Function.update_of_ne hrs] using hr, ?_⟩
    have := BufCase.recv (sum := sum) (σ := { σ with prog := Function.update σ.prog r p }) (r := s) d t k v rest
      (by simpa [Function.update_of_ne hrs.symm] using hp) hc
    simpa only [Function.update_comm hrs] using this

theorem BufStep.update_ret {σ τ : BufState M A N} (h : BufStep sum σ τ) {r : Fin N} {a : A}
    (hr : σ.prog r = .ret a) (p : Prog M A) : τ.prog r = .ret a ∧
      BufStep sum { σ with prog := Function.update σ.prog r p } { τ with prog := Function.update τ.prog r p } := by
  obtain ⟨s, h⟩ := h
  obtain ⟨h1, h2⟩ := (bufStep_iff.1 h).update_ret hr p
  exact ⟨h1, s, bufStep_iff.2 h2⟩

theorem bufFStep_diamond : Diamond (BufFStep (W := W) (A := A) (N := N) sum) := by
  rintro ⟨σ, l⟩ b c hb hc
  cases hb with
  | mpi _ h1 =>
    cases hc with
    | mpi _ h2 =>
      rcases bufStep_diamond _ _ _ h1 h2 with rfl | ⟨d, h3, h4⟩
      · exact Or.inl rfl
      · exact Or.inr ⟨(d, l), .mpi l h3, .mpi l h4⟩
    | store _ _ r w k h2 =>
      obtain ⟨h3, h4⟩ := h1.update_ret h2 k.next
      exact Or.inr ⟨_, .store _ _ r w k h3, .mpi _ h4⟩
  | store _ _ r w k h1 =>
    cases hc with
    | mpi _ h2 =>
      obtain ⟨h3, h4⟩ := h2.update_ret h1 k.next
      exact Or.inr ⟨_, .mpi _ h4, .store _ _ r w k h3⟩
    | store _ _ r' w' k' h2 =>
      by_cases hrr : r = r'
      · subst hrr
        rw [h1] at h2
        cases h2
        exact Or.inl rfl
      · refine Or.inr ⟨_, .store _ _ r' w' k' (by simpa only [Function.update_of_ne (Ne.symm hrr)] using h2), ?_⟩
        have := BufFStep.store (sum := sum) { σ with prog := Function.update σ.prog r' k'.next }
          (Function.update l r' (l r' ++ [w'])) r w k (by simpa only [Function.update_of_ne hrr] using h1)
        simpa only [Function.update_comm hrr, Function.update_of_ne hrr, Function.update_of_ne (Ne.symm hrr)] using this

/-! ### what has been stored stays -/

theorem SyncFStep.grows {a b : (Fin N → Prog M (FProg M W A)) × (Fin N → List W)} (h : SyncFStep sum a b) (r : Fin N) :
    a.2 r <+: b.2 r := by
  cases h with
  | mpi l h => exact List.prefix_rfl
  | store σ l s w k h =>
    by_cases hr : r = s
    · subst hr
      simp
    · simp [Function.update_of_ne hr]

theorem BufFStep.grows {a b : BufState M (FProg M W A) N × (Fin N → List W)} (h : BufFStep sum a b) (r : Fin N) :
    a.2 r <+: b.2 r := by
  cases h with
  | mpi l h => exact List.prefix_rfl
  | store σ l s w k h =>
    by_cases hr : r = s
    · subst hr
      simp
    · simp [Function.update_of_ne hr]

theorem Steps.grows {σ : Type} {step : σ → σ → Prop} {f : σ → List W} (h : ∀ a b, step a b → f a <+: f b) {n : ℕ} {a b : σ}
    (hs : Steps step n a b) : f a <+: f b := by
  induction hs with
  | refl a => exact List.prefix_rfl
  | head h1 _ ih => exact (h _ _ h1).trans ih

theorem Steps.keeps {σ : Type} {step : σ → σ → Prop} {I : σ → Prop} (h : ∀ a b, step a b → I a → I b) {n : ℕ} {a b : σ}
    (hs : Steps step n a b) (ha : I a) : I b := by
  induction hs with
  | refl a => exact ha
  | head h1 _ ih => exact ih (h _ _ h1 ha)

/-! ### states in which rank 0 stores nothing any more -/

/-- Rank `q` has finished, has raised an exception, or waits for a rank that has raised one. -/
def Halted (σ : Fin N → Prog M (FProg M W A)) (q : Fin N) : Prop :=
  (∃ a, σ q = .ret (.ret a)) ∨ ∃ r e, σ r = .fail e ∧ (q = r ∨ (σ q).Awaits r.val)

theorem SyncStep.ret_eq {σ τ : Fin N → Prog M A} (h : SyncStep sum σ τ) {r : Fin N} {a : A} (hr : σ r = .ret a) :
    τ r = .ret a := (h.update_ret hr (σ r)).1

theorem halted_sync {σ : Fin N → Prog M (FProg M W A)} {l : Fin N → List W} {q : Fin N} (h : Halted σ q)
    {b : (Fin N → Prog M (FProg M W A)) × (Fin N → List W)} (hs : SyncFStep sum (σ, l) b) :
    Halted b.1 q ∧ b.2 q = l q := by
  cases hs with
  | mpi _ h1 =>
    refine ⟨?_, rfl⟩
    rcases h with ⟨a, ha⟩ | ⟨r, e, hr, hq⟩
    · exact Or.inl ⟨a, h1.ret_eq ha⟩
    · refine Or.inr ⟨r, e, syncStep_fail h1 hr, hq.imp id fun hq => ?_⟩
      cases h1 with
      | coll c vs ks hpos h' hroot => rw [h' r] at hr; cases hr
      | msg s d tag v k k' hsd hs hd =>
        by_cases h2 : q = d
        · subst h2
          rw [hd] at hq
          simpa using hq v
        · by_cases h3 : q = s
          · subst h3
            rw [hs] at hq
            replace hq : k.Awaits r.val := hq
            simpa [Function.update_of_ne h2] using hq
          · simpa [Function.update_of_ne h2, Function.update_of_ne h3] using hq
  | store _ _ s w k h1 =>
    rcases h with ⟨a, ha⟩ | ⟨r, e, hr, hq⟩
    · have : q ≠ s := by rintro rfl; rw [h1] at ha; cases ha
      exact ⟨Or.inl ⟨a, by simpa [Function.update_of_ne this] using ha⟩, by simp [Function.update_of_ne this]⟩
    · have h2 : r ≠ s := by rintro rfl; rw [h1] at hr; cases hr
      have h3 : q ≠ s := by
        rintro rfl
        rcases hq with rfl | hq
        · exact h2 rfl
        · rw [h1] at hq; exact hq
      refine ⟨Or.inr ⟨r, e, by simpa [Function.update_of_ne h2] using hr, hq.imp id fun hq => ?_⟩,
        by simp [Function.update_of_ne h3]⟩
      simpa [Function.update_of_ne h3] using hq

/-- `Halted` in the buffered semantics: the rank that raised an exception contributes to no later
collective. -/
def BufHalted (σ : BufState M (FProg M W A) N) (q : Fin N) : Prop :=
  (∃ a, σ.prog q = .ret (.ret a)) ∨ ∃ r e, σ.prog r = .fail e ∧
    (q = r ∨ (σ.prog q).Awaits r.val ∧ ∃ c, c ≤ σ.count q ∧ ∀ i ≥ c, σ.slot i r = none)

theorem halted_buf {σ : BufState M (FProg M W A) N} {l : Fin N → List W} {q : Fin N} (h : BufHalted σ q)
    {b : BufState M (FProg M W A) N × (Fin N → List W)} (hs : BufFStep sum (σ, l) b) :
    BufHalted b.1 q ∧ b.2 q = l q := by
  cases hs with
  | mpi _ h1 =>
    refine ⟨?_, rfl⟩
    rcases h with ⟨a, ha⟩ | ⟨r, e, hr, hq⟩
    · exact Or.inl ⟨a, (h1.update_ret ha (σ.prog q)).1⟩
    · refine Or.inr ⟨r, e, bufStep_fail h1 hr, hq.imp id ?_⟩
      rintro ⟨hw, c, hc, hsl⟩
      obtain ⟨s, h1⟩ := h1
      have hrs : r ≠ s := by
        rintro rfl
        simp [bufStep, hr] at h1
      cases bufStep_iff.1 h1 with
      | leave c' v k m hp he ha =>
        by_cases hqs : q = s
        · subst hqs
          rw [hp] at hw
          rcases hw with hw | hw
          · exfalso
            subst hw
            simp only [available, r.isLt, dif_pos, Fin.eta, hsl _ hc] at ha
            cases ha
          · exact ⟨by simpa using hw m, c, by simp; omega, hsl⟩
        · exact ⟨by simpa [Function.update_of_ne hqs] using hw, c, by simpa [Function.update_of_ne hqs] using hc, hsl⟩
      | enter c' v k hp he hs' =>
        refine ⟨hw, c, hc, fun i hi => ?_⟩
        have : ¬ (i = σ.count s ∧ r = s) := fun h => hrs h.2
        simp only [this, if_false]
        exact hsl i hi
      | send d t v k hp hne =>
        by_cases hqs : q = s
        · subst hqs
          rw [hp] at hw
          replace hw : k.Awaits r.val := hw
          exact ⟨by simpa using hw, c, hc, hsl⟩
        · exact ⟨by simpa [Function.update_of_ne hqs] using hw, c, hc, hsl⟩
      | recv d t k v rest hp hc' =>
        by_cases hqs : q = s
        · subst hqs
          rw [hp] at hw
          exact ⟨by simpa using hw v, c, hc, hsl⟩
        · exact ⟨by simpa [Function.update_of_ne hqs] using hw, c, hc, hsl⟩
  | store _ _ s w k h1 =>
    rcases h with ⟨a, ha⟩ | ⟨r, e, hr, hq⟩
    · have : q ≠ s := by rintro rfl; rw [h1] at ha; cases ha
      exact ⟨Or.inl ⟨a, by simpa [Function.update_of_ne this] using ha⟩, by simp [Function.update_of_ne this]⟩
    · have h2 : r ≠ s := by rintro rfl; rw [h1] at hr; cases hr
      have h3 : q ≠ s := by
        rintro rfl
        rcases hq with rfl | ⟨hq, -⟩
        · exact h2 rfl
        · rw [h1] at hq; exact hq
      refine ⟨Or.inr ⟨r, e, by simpa [Function.update_of_ne h2] using hr, hq.imp id fun hq => ?_⟩,
        by simp [Function.update_of_ne h3]⟩
      exact ⟨by simpa [Function.update_of_ne h3] using hq.1, hq.2⟩

/-! ### one run settles what is stored in all schedules -/

theorem simulate_fsteps {k : ℕ} {a b : (Fin N → Prog M (FProg M W A)) × (Fin N → List W)}
    (h : Steps (SyncFStep sum) k a b) :
    ∀ (c : ℕ) (slot : ℕ → Fin N → Option (Coll × M)), (∀ i ≥ c, ∀ s, slot i s = none) →
    ∃ k c' slot', Steps (BufFStep sum) k (clean a.1 c slot, a.2) (clean b.1 c' slot', b.2) ∧
      ∀ i ≥ c', ∀ s, slot' i s = none := by
  induction h with
  | refl a => intro c slot hs; exact ⟨0, c, slot, .refl _, hs⟩
  | head h _ ih =>
    intro c slot hslot
    cases h with
    | mpi l h =>
      obtain ⟨k1, c1, s1, hs1, hn1⟩ := simulate h c slot hslot
      obtain ⟨k2, c2, s2, hs2, hn2⟩ := ih c1 s1 hn1
      have lift : ∀ {n : ℕ} {x y : BufState M (FProg M W A) N}, Steps (BufStep sum) n x y →
          Steps (BufFStep sum) n (x, l) (y, l) := by
        intro n x y hxy
        induction hxy with
        | refl a => exact .refl _
        | head h1 _ ih => exact .head (.mpi l h1) ih
      exact ⟨_, c2, s2, (lift hs1).trans hs2, hn2⟩
    | store σ l r w k h =>
      obtain ⟨k2, c2, s2, hs2, hn2⟩ := ih c slot hslot
      exact ⟨_, c2, s2, .head (.store (clean σ c slot) l r w k h) hs2, hn2⟩

/-- If one run halts rank `q` with `l q` stored, then at every moment of every schedule `q` has stored
the beginning of `l q`. -/
theorem stored_prefix {P : Fin N → FProg M W A} {k : ℕ} {σ : Fin N → Prog M (FProg M W A)} {l : Fin N → List W}
    (h : Steps (SyncFStep sum) k ((fun r => (P r).next), fun _ => []) (σ, l)) {q : Fin N} (hq : Halted σ q)
    {l' : Fin N → List W} (h' : CanHaveStored sum P l') : l' q <+: l q := by
  rcases h' with ⟨k', σ', h'⟩ | ⟨k', σ', h'⟩
  · obtain ⟨_, _, d, h1, h2⟩ := Steps.join syncFStep_diamond h h'
    have hI := h1.keeps (I := fun a => Halted a.1 q ∧ a.2 q = l q)
      (fun a b hab ha => by
        obtain ⟨h3, h4⟩ := halted_sync (l := a.2) ha.1 hab
        exact ⟨h3, h4.trans ha.2⟩) ⟨hq, rfl⟩
    rw [← hI.2]
    exact h2.grows (f := fun a => a.2 q) fun a b hab => hab.grows q
  · obtain ⟨kb, c, slot, hb, hn⟩ := simulate_fsteps h 0 (fun _ _ => none) (by simp)
    obtain ⟨_, _, d, h1, h2⟩ := Steps.join bufFStep_diamond hb h'
    have hB : BufHalted (clean σ c slot) q := hq.imp id fun ⟨r, e, h3, h4⟩ =>
      ⟨r, e, h3, h4.imp id fun h5 => ⟨h5, c, le_rfl, fun i hi => hn i hi r⟩⟩
    have hI := h1.keeps (I := fun a => BufHalted a.1 q ∧ a.2 q = l q)
      (fun a b hab ha => by
        obtain ⟨h3, h4⟩ := halted_buf (l := a.2) ha.1 hab
        exact ⟨h3, h4.trans ha.2⟩) ⟨hB, rfl⟩
    rw [← hI.2]
    exact h2.grows (f := fun a => a.2 q) fun a b hab => hab.grows q

/-! ### programs put together -/

theorem FProg.next_after (p : Prog M A) (f : A → FProg M W B) : (FProg.after p f).next = p.bind fun a => (f a).next := by
  induction p with
  | ret a => rfl
  | fail e => rfl
  | coll c v k ih => simp only [FProg.after, FProg.next, Prog.bind, ih]
  | send d t v k ih => simp only [FProg.after, FProg.next, Prog.bind, ih]
  | recv s t k ih => simp only [FProg.after, FProg.next, Prog.bind, ih]

theorem FProg.erase_after (p : Prog M A) (f : A → FProg M W B) : (FProg.after p f).erase = p.bind fun a => (f a).erase := by
  induction p with
  | ret a => rfl
  | fail e => rfl
  | coll c v k ih => simp only [FProg.after, FProg.erase, Prog.bind, ih]
  | send d t v k ih => simp only [FProg.after, FProg.erase, Prog.bind, ih]
  | recv s t k ih => simp only [FProg.after, FProg.erase, Prog.bind, ih]

theorem FProg.erase_stores (rank : ℕ) (ws : List W) (k : FProg M W A) : (FProg.stores rank ws k).erase = k.erase := by
  unfold FProg.stores
  split
  · induction ws with
    | nil => rfl
    | cons w ws ih => exact ih
  · rfl

theorem Steps.mpi {n : ℕ} {x y : Fin N → Prog M (FProg M W A)} (l : Fin N → List W) (h : Steps (SyncStep sum) n x y) :
    Steps (SyncFStep sum) n (x, l) (y, l) := by
  induction h with
  | refl a => exact .refl _
  | head h1 _ ih => exact .head (.mpi l h1) ih

/-- The ranks carry out the computation `x` and store, one after the other, the things of the first component; the
second component is its result. -/
def FSettles (sum : List M → M) (P : Fin N → FProg M W A) (x : List W × Py X) (Rel : X → (Fin N → A) → Prop) : Prop :=
  ∀ l : Fin N → List W, ∃ k σ, Steps (SyncFStep sum) k ((fun r => (P r).next), l)
      (σ, fun r => if r.val = 0 then l r ++ x.1 else l r) ∧
    match x.2 with
    | .ok a => ∃ out, Rel a out ∧ ∀ r, σ r = .ret (.ret (out r))
    | .error _ => (∃ r e, σ r = .fail e) ∧ ∀ q : Fin N, q.val = 0 → Halted σ q

/-- Computations with stores, one after the other. -/
def refAfter {Y : Type} (x : Py X) (y : X → List W × Py Y) : List W × Py Y :=
  match x with
  | .ok a => y a
  | .error e => ([], .error e)

theorem FSettles.after {P : Fin N → Prog M A} {x : Py X} {Rel : X → (Fin N → A) → Prop} (h : Settles sum P x Rel)
    {Y : Type} {f : Fin N → A → FProg M W B} {y : X → List W × Py Y} {Rel' : Y → (Fin N → B) → Prop}
    (h' : ∀ a out, x = .ok a → Rel a out → FSettles sum (fun r => f r (out r)) (y a) Rel') :
    FSettles sum (fun r => FProg.after (P r) (f r)) (refAfter x y) Rel' := by
  intro l
  simp only [FProg.next_after]
  have hsteps : ∀ {k : ℕ} {τ : Fin N → Prog M A}, Steps (SyncStep sum) k P τ →
      Steps (SyncFStep sum) k ((fun r => (P r).bind fun a => (f r a).next), l)
        ((fun r => (τ r).bind fun a => (f r a).next), l) := by
    intro k τ hk
    refine Steps.mpi l ?_
    clear h
    induction hk with
    | refl a => exact .refl _
    | head h1 _ ih => exact .head (h1.bind _) ih
  cases x with
  | error e =>
    obtain ⟨k, τ, hk, r, e', hr, hq⟩ := h
    refine ⟨k, fun r => (τ r).bind fun a => (f r a).next, ?_, ⟨r, e', by simp only [hr, Prog.bind]⟩, fun q h0 => Or.inr ⟨r, e', by simp only [hr, Prog.bind], (hq q h0).imp id fun h => h.bind _⟩⟩
    simpa [refAfter] using hsteps hk
  | ok a =>
    obtain ⟨out, hrel, k, τ, hk, hτ⟩ := h
    obtain ⟨k', σ, hk', hσ⟩ := h' a out rfl hrel l
    refine ⟨k + k', σ, (hsteps hk).trans ?_, hσ⟩
    simp only [hτ, Prog.bind]
    exact hk'

theorem FSettles.stores {f : Fin N → FProg M W B} {ws : Fin N → List W} {ws' : List W} (hw : ∀ r : Fin N, r.val = 0 → ws r = ws')
    {y : List W × Py X} {Rel : X → (Fin N → B) → Prop} (h : FSettles sum f y Rel) :
    FSettles sum (fun r => FProg.stores r.val (ws r) (f r)) (ws' ++ y.1, y.2) Rel := by
  intro l
  obtain ⟨k', σ, hk', hσ⟩ := h (fun r => if r.val = 0 then l r ++ ws' else l r)
  have key : ∃ k, Steps (SyncFStep sum) k ((fun r => (FProg.stores r.val (ws r) (f r)).next), l)
      ((fun r => (f r).next), fun r => if r.val = 0 then l r ++ ws' else l r) := by
    by_cases hN : 0 < N
    · have hP : ∀ r : Fin N, FProg.stores r.val (ws r) (f r) = if r.val = 0 then ws'.foldr .store (f r) else f r := by
        intro r
        unfold FProg.stores
        split
        · next h0 => rw [hw r h0]
        · rfl
      simp only [hP]
      clear hw hP hk' hσ h
      induction ws' generalizing l with
      | nil => exact ⟨0, by simpa using .refl _⟩
      | cons w ws' ih =>
        obtain ⟨k, hk⟩ := ih (fun r => if r.val = 0 then l r ++ [w] else l r)
        refine ⟨k + 1, .head (b := (_, _)) (.store _ _ ⟨0, hN⟩ w (ws'.foldr .store (f ⟨0, hN⟩)) ?_) ?_⟩
        · rfl
        · convert hk using 2
          · funext r
            by_cases hr : r = ⟨0, hN⟩
            · subst hr; simp
            · have : r.val ≠ 0 := fun h => hr (Fin.ext h)
              simp [Function.update_of_ne hr, this]
          · funext r
            by_cases hr : r = ⟨0, hN⟩
            · subst hr; simp
            · have : r.val ≠ 0 := fun h => hr (Fin.ext h)
              simp [Function.update_of_ne hr, this]
          · funext r
            split <;> simp
    · refine ⟨0, ?_⟩
      have : IsEmpty (Fin N) := ⟨fun r => hN (by have := r.isLt; omega)⟩
      convert Steps.refl (step := SyncFStep (sum := sum)) _ using 2
  obtain ⟨k, hk⟩ := key
  refine ⟨k + k', σ, hk.trans ?_, hσ⟩
  convert hk' using 3 with r
  split <;> simp

theorem FSettles.ret {P : Fin N → FProg M W A} {a : X} {out : Fin N → A} (h : ∀ r, P r = .ret (out r))
    {Rel : X → (Fin N → A) → Prop} (hr : Rel a out) : FSettles sum P ([], .ok a) Rel := by
  intro l
  refine ⟨0, fun r => (P r).next, ?_, out, hr, fun r => by simp only [h r, FProg.next]⟩
  simpa using .refl _

/-- At every moment of every schedule, rank 0 has stored the beginning of what the computation stores, and the other
ranks have stored nothing. -/
theorem FSettles.prefix {P : Fin N → FProg M W A} {x : List W × Py X} {Rel : X → (Fin N → A) → Prop}
    (h : FSettles sum P x Rel) {l : Fin N → List W} (hl : CanHaveStored sum P l) {q : Fin N} (hq : q.val = 0) :
    l q <+: x.1 := by
  obtain ⟨k, σ, hk, hσ⟩ := h (fun _ => [])
  have := stored_prefix hk (q := q) (by
    cases hx : x.2 with
    | ok a =>
      rw [hx] at hσ
      obtain ⟨out, -, ho⟩ := hσ
      exact Or.inl ⟨_, ho q⟩
    | error e =>
      rw [hx] at hσ
      exact hσ.2 q hq) hl
  simpa [hq] using this

end Verif.Mpi

namespace Verif.Mpi

variable {N : ℕ} {M W A B X : Type} {sum : List M → M}

/-! ### ranks that store nothing -/

/-- The program stores nothing. -/
def Quiet : Prog M (FProg M W A) → Prop
  | .ret (.ret _) => True
  | .ret _ => False
  | .fail _ => True
  | .coll _ _ k => ∀ m, Quiet (k m)
  | .send _ _ _ k => Quiet k
  | .recv _ _ k => ∀ m, Quiet (k m)

theorem Quiet.after (p : Prog M A) {f : A → FProg M W B} (h : ∀ a, Quiet (f a).next) : Quiet (FProg.after p f).next := by
  rw [FProg.next_after]
  induction p with
  | ret a => exact h a
  | fail e => trivial
  | coll c v k ih => exact ih
  | send d t v k ih => exact ih
  | recv s t k ih => exact ih

theorem Quiet.stores {rank : ℕ} (hr : rank ≠ 0) (ws : List W) {k : FProg M W A} (h : Quiet k.next) :
    Quiet (FProg.stores rank ws k).next := by
  rw [FProg.stores, if_neg hr]
  exact h

theorem quiet_sync {r : Fin N} {a b : (Fin N → Prog M (FProg M W A)) × (Fin N → List W)} (hs : SyncFStep sum a b)
    (h : Quiet (a.1 r) ∧ a.2 r = []) : Quiet (b.1 r) ∧ b.2 r = [] := by
  obtain ⟨h, hl⟩ := h
  cases hs with
  | mpi l h1 =>
    refine ⟨?_, hl⟩
    cases h1 with
    | coll c vs ks hpos h' hroot =>
      dsimp only at h
      rw [h' r] at h
      exact h _
    | msg s d tag v k k' hsd hs hd =>
      dsimp only at h ⊢
      by_cases h2 : r = d
      · subst h2
        rw [hd] at h
        simpa using h v
      · by_cases h3 : r = s
        · subst h3
          rw [hs] at h
          replace h : Quiet k := h
          simpa [Function.update_of_ne h2] using h
        · simpa [Function.update_of_ne h2, Function.update_of_ne h3] using h
  | store σ l s w k h1 =>
    have h3 : r ≠ s := by
      rintro rfl
      dsimp only at h
      rw [h1] at h
      exact h
    dsimp only at *
    exact ⟨by simpa [Function.update_of_ne h3] using h, by simpa [Function.update_of_ne h3] using hl⟩

theorem quiet_buf {r : Fin N} {a b : BufState M (FProg M W A) N × (Fin N → List W)} (hs : BufFStep sum a b)
    (h : Quiet (a.1.prog r) ∧ a.2 r = []) : Quiet (b.1.prog r) ∧ b.2 r = [] := by
  obtain ⟨h, hl⟩ := h
  cases hs with
  | @mpi σ τ l h1 =>
    refine ⟨?_, hl⟩
    dsimp only at h ⊢
    obtain ⟨s, h1⟩ := h1
    by_cases hrs : r = s
    · subst hrs
      cases bufStep_iff.1 h1 with
      | leave c v k m hp he ha => rw [hp] at h; simpa using h m
      | enter c v k hp he hs => exact h
      | send d t v k hp hne => rw [hp] at h; replace h : Quiet k := h; simpa using h
      | recv s t k v rest hp hc => rw [hp] at h; simpa using h v
    · cases bufStep_iff.1 h1 with
      | leave c v k m hp he ha => simpa [Function.update_of_ne hrs] using h
      | enter c v k hp he hs => exact h
      | send d t v k hp hne => simpa [Function.update_of_ne hrs] using h
      | recv s t k v rest hp hc => simpa [Function.update_of_ne hrs] using h
  | store σ l s w k h1 =>
    have h3 : r ≠ s := by
      rintro rfl
      dsimp only at h
      rw [h1] at h
      exact h
    dsimp only at *
    exact ⟨by simpa [Function.update_of_ne h3] using h, by simpa [Function.update_of_ne h3] using hl⟩

theorem stored_nothing {P : Fin N → FProg M W A} {r : Fin N} (h : Quiet (P r).next) {l : Fin N → List W}
    (hl : CanHaveStored sum P l) : l r = [] := by
  rcases hl with ⟨k, σ, hs⟩ | ⟨k, σ, hs⟩
  · exact (hs.keeps (I := fun a => Quiet (a.1 r) ∧ a.2 r = []) (fun a b => quiet_sync) ⟨h, rfl⟩).2
  · exact (hs.keeps (I := fun a => Quiet (a.1.prog r) ∧ a.2 r = []) (fun a b => quiet_buf) ⟨h, rfl⟩).2

/-! ### runs that finish -/

theorem syncFStep_terminal {out : Fin N → A} {σ : Fin N → Prog M (FProg M W A)} (h : ∀ r, σ r = .ret (.ret (out r)))
    (l : Fin N → List W) (t) : ¬ SyncFStep sum (σ, l) t := by
  intro hs
  cases hs with
  | mpi _ h1 => exact syncStep_terminal h _ h1
  | store _ _ r w k h1 => rw [h r] at h1; cases h1

theorem bufFStep_terminal {out : Fin N → A} {σ : BufState M (FProg M W A) N} (h : ∀ r, σ.prog r = .ret (.ret (out r)))
    (l : Fin N → List W) (t) : ¬ BufFStep sum (σ, l) t := by
  intro hs
  cases hs with
  | mpi _ h1 => exact bufStep_terminal h _ h1
  | store _ _ r w k h1 => rw [h r] at h1; cases h1

/-- If the computation succeeds, every schedule of both semantics ends with everything stored. -/
theorem FSettles.ends {P : Fin N → FProg M W A} {x : List W × Py X} {Rel : X → (Fin N → A) → Prop}
    (h : FSettles sum P x Rel) {a : X} (hx : x.2 = .ok a) :
    AllStored sum P fun r => if r.val = 0 then x.1 else [] := by
  obtain ⟨k, σ, hk, hσ⟩ := h (fun _ => [])
  rw [hx] at hσ
  obtain ⟨out, -, ho⟩ := hσ
  have hl : (fun r : Fin N => if r.val = 0 then ([] : List W) ++ x.1 else []) = fun r => if r.val = 0 then x.1 else [] := by
    simp
  rw [hl] at hk
  refine ⟨alwaysReaches_of_steps syncFStep_diamond (syncFStep_terminal ho _) hk ⟨fun r => ⟨_, ho r⟩, rfl⟩, ?_⟩
  obtain ⟨kb, c, slot, hb, -⟩ := simulate_fsteps hk 0 (fun _ _ => none) (by simp)
  exact alwaysReaches_of_steps bufFStep_diamond (bufFStep_terminal (σ := clean σ c slot) ho _) hb ⟨fun r => ⟨_, ho r⟩, rfl⟩

/-- On the way to the end, every number of stored entries occurs. -/
theorem AllStored.between {P : Fin N → FProg M W A} {L : Fin N → List W} (h : AllStored sum P L) {r : Fin N} {k : ℕ}
    (hk : k ≤ (L r).length) : ∃ σ l n, Steps (SyncFStep sum) n ((fun r => (P r).next), fun _ => []) (σ, l) ∧
      (l r).length = k := by
  obtain ⟨n, hn⟩ := h.sync
  have hrun : ∀ m ≤ n, ∃ s, Steps (SyncFStep sum) m ((fun r => (P r).next), fun _ => []) s := by
    intro m
    induction m with
    | zero => exact fun _ => ⟨_, .refl _⟩
    | succ m ih =>
      intro hm
      obtain ⟨s, hs⟩ := ih (by omega)
      obtain ⟨t, ht⟩ := (hn m s hs).2.2 (by omega)
      exact ⟨t, hs.tail ht⟩
  obtain ⟨s, hs⟩ := hrun n le_rfl
  have hend : s.2 = L := ((hn n s hs).2.1 rfl).1.2
  have key : ∀ {n : ℕ} {a b : (Fin N → Prog M (FProg M W A)) × (Fin N → List W)}, Steps (SyncFStep sum) n a b →
      (a.2 r).length ≤ k → k ≤ (b.2 r).length → ∃ m c, Steps (SyncFStep sum) m a c ∧ (c.2 r).length = k := by
    intro n a b hab
    induction hab with
    | refl a => exact fun h1 h2 => ⟨0, a, .refl a, le_antisymm h1 h2⟩
    | @head n a b c hstep _ ih =>
      intro h1 h2
      by_cases h3 : (a.2 r).length = k
      · exact ⟨0, a, .refl a, h3⟩
      · have h4 : (b.2 r).length ≤ (a.2 r).length + 1 := by
          cases hstep with
          | mpi l h => simp
          | store σ l s w q h =>
            by_cases hr : r = s
            · subst hr; simp
            · simp [Function.update_of_ne hr]
        obtain ⟨m, d, hm, hd⟩ := ih (by omega) h2
        exact ⟨m + 1, d, .head hstep hm, hd⟩
  obtain ⟨m, c, hm, hc⟩ := key hs (by simp) (by rw [hend]; exact hk)
  exact ⟨c.1, c.2, m, hm, hc⟩

end Verif.Mpi
