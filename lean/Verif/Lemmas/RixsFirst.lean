/-
The first rows of the map depend on the first out-going operator only.
-/
import Verif.Lemmas.RixsMeaning

namespace Verif

open Finset Mpi Psr Spec Matrix

noncomputable section

/-- Two results that are both errors, or are related. -/
def PyRel {α β : Type} (R : α → β → Prop) (x : Py α) (y : Py β) : Prop :=
  (∃ a b, x = .ok a ∧ y = .ok b ∧ R a b) ∨ ∃ e e', x = .error e ∧ y = .error e'

theorem PyRel.bind {α β γ δ : Type} {R : α → β → Prop} {S : γ → δ → Prop} {x : Py α} {y : Py β} (h : PyRel R x y)
    {f : α → Py γ} {g : β → Py δ} (hfg : ∀ a b, R a b → PyRel S (f a) (g b)) : PyRel S (x >>= f) (y >>= g) := by
  rcases h with ⟨a, b, rfl, rfl, h⟩ | ⟨e, e', rfl, rfl⟩
  · exact hfg a b h
  · exact .inr ⟨e, e', rfl, rfl⟩

theorem PyRel.ok {α β : Type} {R : α → β → Prop} {a : α} {b : β} (h : R a b) : PyRel R (.ok a) (.ok b) :=
  .inl ⟨a, b, rfl, rfl, h⟩

theorem PyRel.refl {α : Type} (x : Py α) : PyRel (· = ·) x x := by
  cases x with
  | ok a => exact .inl ⟨a, a, rfl, rfl, rfl⟩
  | error e => exact .inr ⟨e, e, rfl, rfl⟩

theorem PyRel.foldlM {ι α β : Type} {R : α → β → Prop} {f : α → ι → Py α} {g : β → ι → Py β} :
    ∀ (l : List ι), (∀ p ∈ l, ∀ a b, R a b → PyRel R (f a p) (g b p)) → ∀ a b, R a b →
      PyRel R (l.foldlM f a) (l.foldlM g b) := by
  intro l
  induction l with
  | nil => intro _ a b h; exact PyRel.ok h
  | cons p l ih =>
    intro hl a b h
    rw [List.foldlM_cons, List.foldlM_cons]
    exact (hl p (by simp) a b h).bind fun a' b' h' => ih (fun p hp => hl p (by simp [hp])) a' b' h'

/-- The rows of the first out-going operator agree. -/
def SameFirst (x y : RefRixs) : Prop :=
  ∀ a b d, x.root a b 0 d = y.root a b 0 d ∧ x.other a b 0 d = y.other a b 0 d

theorem putRows_first {gs gs' : RixsMap} {iE tIn iw : ℕ} {r r' : List (List ℂ)}
    (h : ∀ a b d, gs a b 0 d = gs' a b 0 d) (hr : ∀ z, r.getD 0 z = r'.getD 0 z) (a b d : ℕ) :
    gs.putRows iE tIn iw r a b 0 d = gs'.putRows iE tIn iw r' a b 0 d := by
  unfold RixsMap.putRows
  rw [h a b d, hr]

theorem refRixs_first (A : RixsArgs) (tOpsIn : List (Op ℕ ℂ)) (op0 : Op ℕ ℂ) (rest : List (Op ℕ ℂ))
    (psis : List (Psi ℂ)) (es : List ℝ) :
    PyRel SameFirst (refRixs A tOpsIn (op0 :: rest) psis es) (refRixs A tOpsIn [op0] psis es) := by
  unfold refRixs
  apply PyRel.foldlM (R := SameFirst) _ _ _ _ fun _ _ _ => ⟨rfl, rfl⟩
  intro q _ x y hxy
  unfold refRixsOps
  refine PyRel.bind (R := fun (x y : RefRixs × OpResult ℂ) => SameFirst x.1 y.1 ∧ x.2 = y.2) ?_
    fun x y h => PyRel.ok h.1
  apply PyRel.foldlM _ _ _ _ ⟨hxy, rfl⟩
  rintro iE _ ⟨x, bx⟩ ⟨y, b⟩ ⟨h1, h2⟩
  simp only at h2
  subst h2
  unfold refRixsBody
  refine (PyRel.refl _).bind fun psi _ hp => ?_
  subst hp
  refine (PyRel.refl _).bind fun e _ hp => ?_
  subst hp
  refine (PyRel.refl _).bind fun p _ hp => ?_
  subst hp
  refine (PyRel.refl _).bind fun sys _ hp => ?_
  subst hp
  refine PyRel.bind (R := SameFirst) ?_ fun x y h => PyRel.ok ⟨h, rfl⟩
  unfold refEnergies
  apply PyRel.foldlM _ _ _ _ h1
  intro p _ x y hxy
  unfold refPoint
  refine PyRel.bind (R := fun (r r' : List (List ℂ) × List (List ℂ)) =>
    ∀ z, r.1.getD 0 z = r'.1.getD 0 z ∧ r.2.getD 0 z = r'.2.getD 0 z) ?_ fun r r' h => PyRel.ok fun a b d =>
      ⟨putRows_first (fun a b d => (hxy a b d).1) (fun z => (h z).1) a b d,
        putRows_first (fun a b d => (hxy a b d).2) (fun z => (h z).2) a b d⟩
  unfold rixsPoint
  refine (PyRel.refl _).bind fun psi2 _ hp => ?_
  subst hp
  unfold rixsRows rixsOtherRows
  dsimp only
  cases rixsRow A e (rixsOutState A op0 psi2) with
  | error err => exact .inr ⟨err, err, rfl, rfl⟩
  | ok g => exact .inl ⟨_, _, rfl, rfl, fun z => ⟨rfl, rfl⟩⟩

theorem foldlM_finishes {ι α : Type} {f : α → ι → Py α} (Inv : α → Prop) : ∀ (l : List ι),
    (∀ p ∈ l, ∀ a, Inv a → ∃ a', f a p = .ok a' ∧ Inv a') → ∀ a, Inv a → ∃ a', l.foldlM f a = .ok a' ∧ Inv a' := by
  intro l
  induction l with
  | nil => intro _ a h; exact ⟨a, rfl, h⟩
  | cons p l ih =>
    intro hl a h
    obtain ⟨a', h1, h2⟩ := hl p (by simp) a h
    rw [List.foldlM_cons, h1]
    exact ih (fun p hp => hl p (by simp [hp])) a' h2

/-- The map is computed if the rows at all points are. -/
theorem refRixs_ok {A : RixsArgs} (hA : A.Valid) {tOpsIn tOpsOut : List (Op ℕ ℂ)}
    (hin : ∀ op ∈ tOpsIn, OpInSystem A.n op) {psis : List (Psi ℂ)} {es : List ℝ}
    (hlen : es.length ≤ psis.length) (hpsis : ∀ psi ∈ psis, IsState A.n psi)
    (hrow : ∀ op ∈ tOpsIn, ∀ a (ha : a < es.length), ∀ w ∈ A.wIns, ∀ psi1 big big' sys,
      CacheCorrect A.n op A.slaterWeightMin A.restrictions big →
      applyOp A.n op (psis[a]'(lt_of_lt_of_le ha hlen)) A.slaterWeightMin A.restrictions (some big) = .ok (psi1, some big') →
      Excited A.n A.slaterWeightMin A.restrictions psi1 → rixsSystem A psi1 = .ok sys →
      ∃ r, rixsPoint A tOpsOut sys es[a] w = .ok r) :
    ∃ x, refRixs A tOpsIn tOpsOut psis es = .ok x := by
  have : ∃ x, refRixs A tOpsIn tOpsOut psis es = .ok x ∧ True := by
    unfold refRixs
    refine foldlM_finishes (fun _ => True) _ ?_ _ trivial
    intro q hq x _
    have hq1 : q.1 ∈ tOpsIn := List.fst_mem_of_mem_zipIdx hq
    unfold refRixsOps
    have := foldlM_finishes (f := refRixsBody A tOpsOut psis es q.2 q.1)
      (fun y => CacheCorrect A.n q.1 A.slaterWeightMin A.restrictions y.2) (List.range es.length) (by
        rintro a ha ⟨y, big⟩ hc
        have ha' : a < es.length := List.mem_range.1 ha
        have hap : a < psis.length := lt_of_lt_of_le ha' hlen
        obtain ⟨psi1, big', h1, hc', hex⟩ := applyOp_cached_excited (hin _ hq1) (hpsis _ (List.getElem_mem hap))
          hA.weight A.restrictions hc
        obtain ⟨H, states, v, -, -, -, -, -, hsys, -⟩ := rixsSystem_spec (N := 1) (by omega) hA hex.state .serial
          (fun _ => ⟨fun _ l => l, fun l => l⟩) (fun _ => ⟨fun _ l => List.Perm.refl l, fun l => List.Perm.refl l⟩)
          (fun _ => []) (fun _ => columnsExact_nil ..) (fun h => h.elim)
        have he := foldlM_finishes (f := refPoint A tOpsOut _ es[a] q.2 a) (fun _ => True) A.wIns.zipIdx (by
          intro p hp z _
          obtain ⟨r, hr⟩ := hrow q.1 hq1 a ha' p.1 (List.fst_mem_of_mem_zipIdx hp) psi1 big big' _ hc h1 hex hsys
          unfold refPoint
          rw [hr]
          exact ⟨_, rfl, trivial⟩) y trivial
        obtain ⟨z, hz, -⟩ := he
        refine ⟨(z, big'), ?_, hc'⟩
        unfold refRixsBody
        rw [pyGet_ofNat _ _ hap, pyGet_ofNat _ _ ha']
        simp only [ok_bind]
        rw [h1]
        simp only [ok_bind]
        rw [hsys]
        simp only [ok_bind]
        unfold refEnergies
        rw [hz]
        rfl) (x, []) (correct_nil ..)
    obtain ⟨z, hz, -⟩ := this
    rw [hz]
    exact ⟨_, rfl, trivial⟩
  exact this.imp fun _ h => h.1

end

end Verif
