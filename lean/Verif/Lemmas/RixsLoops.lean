/-
The loops of getRIXSmap over in-coming energies, eigenstates and in-coming operators.
-/
import Verif.Lemmas.RixsOut

namespace Verif

open Finset Mpi Psr Spec Matrix

noncomputable section

/-- The core-hole system: the Hamiltonian, the index and the vector. -/
abbrev RixsSys := Mat ℂ × (index : Dict Bytes ℕ) × (Fin index.length → ℂ)

/-- The intermediate states of the core-hole system are states. -/
def SysOk (A : RixsArgs) (sys : RixsSys) : Prop :=
  ∀ e w, ∃ psi2, rixsIntermediate A sys.1 sys.2.1 sys.2.2 e w = .ok psi2 ∧ IsState A.n psi2

/-- The rows for one in-coming energy, on the root and on the other ranks. -/
def rixsPoint (A : RixsArgs) (tOpsOut : List (Op ℕ ℂ)) (sys : RixsSys) (e w : ℝ) :
    Py (List (List ℂ) × List (List ℂ)) := do
  let psi2 ← rixsIntermediate A sys.1 sys.2.1 sys.2.2 e w
  let rows ← rixsRows A tOpsOut e psi2
  return (rows, rixsOtherRows A tOpsOut e psi2)

/-- The maps of the root and of the other ranks. -/
structure RefRixs where
  root : RixsMap
  other : RixsMap

/-- The maps after one more energy. -/
def refPoint (A : RixsArgs) (tOpsOut : List (Op ℕ ℂ)) (sys : RixsSys) (e : ℝ) (tIn iE : ℕ) (x : RefRixs) (p : ℝ × ℕ) :
    Py RefRixs := do
  let r ← rixsPoint A tOpsOut sys e p.1
  return ⟨x.root.putRows iE tIn p.2 r.1, x.other.putRows iE tIn p.2 r.2⟩

/-- The maps after all energies. -/
def refEnergies (A : RixsArgs) (tOpsOut : List (Op ℕ ℂ)) (sys : RixsSys) (e : ℝ) (tIn iE : ℕ) (x : RefRixs) :
    Py RefRixs :=
  A.wIns.zipIdx.foldlM (refPoint A tOpsOut sys e tIn iE) x

/-- The map after the rows of the energies in `done` have been stored. -/
def RixsMap.putAll (gs : RixsMap) (iE tIn : ℕ) (f : ℕ → List (List ℂ)) (done : ℕ → Prop) [DecidablePred done] : RixsMap :=
  fun a b c d => if a = iE ∧ b = tIn ∧ done d then (f d).getD c (gs a b c d) else gs a b c d

theorem putRows_putAll (gs : RixsMap) (iE tIn : ℕ) (f : ℕ → List (List ℂ)) (done : ℕ → Prop) [DecidablePred done]
    (i : ℕ) : (gs.putAll iE tIn f done).putRows iE tIn i (f i) = gs.putAll iE tIn f fun d => done d ∨ d = i := by
  funext a b c d
  unfold RixsMap.putRows RixsMap.putAll
  by_cases h1 : a = iE ∧ b = tIn
  · by_cases h2 : d = i
    · subst h2
      simp only [h1, true_and, and_self, if_true, or_true]
      by_cases h3 : done d
      · rw [if_pos h3]
        by_cases h4 : c < (f d).length
        · rw [List.getD_eq_getElem _ _ h4, List.getD_eq_getElem _ _ h4]
        · rw [List.getD_eq_default _ _ (by omega)]
      · rw [if_neg h3]
    · simp [h1, h2]
  · rw [if_neg (by tauto), if_neg (by tauto), if_neg (by tauto)]

theorem putAll_congr (gs : RixsMap) (iE tIn : ℕ) {f f' : ℕ → List (List ℂ)} {done done' : ℕ → Prop}
    [DecidablePred done] [DecidablePred done'] (h : ∀ d, done d ↔ done' d) (hf : ∀ d, done d → f d = f' d) :
    gs.putAll iE tIn f done = gs.putAll iE tIn f' done' := by
  funext a b c d
  unfold RixsMap.putAll
  by_cases h1 : a = iE ∧ b = tIn ∧ done d
  · rw [if_pos h1, if_pos ⟨h1.1, h1.2.1, (h d).1 h1.2.2⟩, hf d h1.2.2]
  · rw [if_neg h1, if_neg (fun h2 => h1 ⟨h2.1, h2.2.1, (h d).2 h2.2.2⟩)]

theorem putAll_none (gs : RixsMap) (iE tIn : ℕ) (f : ℕ → List (List ℂ)) : gs.putAll iE tIn f (fun _ => False) = gs := by
  funext a b c d
  simp [RixsMap.putAll]

theorem refEnergies_cases (A : RixsArgs) (tOpsOut : List (Op ℕ ℂ)) (sys : RixsSys) (e : ℝ) (tIn iE : ℕ) (x : RefRixs) :
    (∀ F : ℕ → List (List ℂ) × List (List ℂ), (∀ i (h : i < A.wIns.length),
        rixsPoint A tOpsOut sys e A.wIns[i] = .ok (F i)) →
      refEnergies A tOpsOut sys e tIn iE x
        = .ok ⟨x.root.putAll iE tIn (fun d => (F d).1) (· < A.wIns.length),
            x.other.putAll iE tIn (fun d => (F d).2) (· < A.wIns.length)⟩) ∧
    ((∃ w ∈ A.wIns, ∃ err, rixsPoint A tOpsOut sys e w = .error err) →
      ∃ err, refEnergies A tOpsOut sys e tIn iE x = .error err) := by
  have key : ∀ (l : List ℝ) (s : ℕ) (x : RefRixs),
      (∀ F : ℕ → List (List ℂ) × List (List ℂ), (∀ i (h : i < l.length), rixsPoint A tOpsOut sys e l[i] = .ok (F (s + i))) →
        ∀ (gs gs' : RixsMap), x = ⟨gs.putAll iE tIn (fun d => (F d).1) (· < s), gs'.putAll iE tIn (fun d => (F d).2) (· < s)⟩ →
        (l.zipIdx s).foldlM (refPoint A tOpsOut sys e tIn iE) x
          = .ok ⟨gs.putAll iE tIn (fun d => (F d).1) (· < s + l.length),
              gs'.putAll iE tIn (fun d => (F d).2) (· < s + l.length)⟩) ∧
      ((∃ w ∈ l, ∃ err, rixsPoint A tOpsOut sys e w = .error err) →
        ∃ err, (l.zipIdx s).foldlM (refPoint A tOpsOut sys e tIn iE) x = .error err) := by
    intro l
    induction l with
    | nil => intro s x; exact ⟨fun F _ gs gs' hx => by subst hx; rfl, by simp⟩
    | cons w l ih =>
      intro s x
      refine ⟨fun F hF gs gs' hx => ?_, ?_⟩
      · have h0 := hF 0 (by simp)
        simp only [List.getElem_cons_zero, Nat.add_zero] at h0
        rw [List.zipIdx_cons, List.foldlM_cons]
        have hst : refPoint A tOpsOut sys e tIn iE x (w, s)
            = .ok ⟨gs.putAll iE tIn (fun d => (F d).1) (· < s + 1), gs'.putAll iE tIn (fun d => (F d).2) (· < s + 1)⟩ := by
          unfold refPoint
          simp only [h0, ok_bind, pure_ok]
          rw [hx, putRows_putAll _ _ _ (fun d => (F d).1), putRows_putAll _ _ _ (fun d => (F d).2),
            putAll_congr (done' := (· < s + 1)) gs iE tIn (f' := fun d => (F d).1) (fun d => by omega) (fun _ _ => rfl),
            putAll_congr (done' := (· < s + 1)) gs' iE tIn (f' := fun d => (F d).2) (fun d => by omega) (fun _ _ => rfl)]
        rw [hst]
        simp only [ok_bind]
        have h2 := (ih (s + 1) _).1 F (fun i h => by
          have := hF (i + 1) (by simpa using h)
          simp only [List.getElem_cons_succ] at this
          rw [this]; congr 2; omega) gs gs' rfl
        rw [h2]
        rw [putAll_congr (done' := (· < s + (w :: l).length)) gs iE tIn (f' := fun d => (F d).1)
            (fun d => by simp only [List.length_cons]; omega) (fun _ _ => rfl),
          putAll_congr (done' := (· < s + (w :: l).length)) gs' iE tIn (f' := fun d => (F d).2)
            (fun d => by simp only [List.length_cons]; omega) (fun _ _ => rfl)]
      · rintro ⟨w', hw, err, he⟩
        rw [List.zipIdx_cons, List.foldlM_cons]
        cases hp : rixsPoint A tOpsOut sys e w with
        | error err' =>
          refine ⟨err', ?_⟩
          unfold refPoint
          simp only [hp]; rfl
        | ok r =>
          have : refPoint A tOpsOut sys e tIn iE x (w, s)
              = .ok ⟨x.root.putRows iE tIn s r.1, x.other.putRows iE tIn s r.2⟩ := by
            unfold refPoint
            simp only [hp, ok_bind, pure_ok]
          rw [this]
          simp only [ok_bind]
          refine (ih (s + 1) _).2 ?_
          rcases List.mem_cons.1 hw with rfl | hw
          · rw [hp] at he; cases he
          · exact ⟨w', hw, err, he⟩
  refine ⟨fun F hF => ?_, fun h => (key A.wIns 0 x).2 h⟩
  have := (key A.wIns 0 x).1 F (fun i h => by rw [hF i h]; congr 2; omega) x.root x.other (by
    rw [putAll_congr (done' := fun _ => False) x.root iE tIn (f' := fun d => (F d).1) (by simp) (by simp),
      putAll_congr (done' := fun _ => False) x.other iE tIn (f' := fun d => (F d).2) (by simp) (by simp),
      putAll_none, putAll_none])
  rw [putAll_congr (done' := (· < A.wIns.length)) x.root iE tIn (f' := fun d => (F d).1) (fun d => by omega)
      (fun _ _ => rfl),
    putAll_congr (done' := (· < A.wIns.length)) x.other iE tIn (f' := fun d => (F d).2) (fun d => by omega)
      (fun _ _ => rfl)] at this
  exact this

/-! ### Modes serial and H_build -/

/-- The variables of the ranks in the loops. -/
structure StRel (A : RixsArgs) (mode : RixsMode) (tOpsOut : List (Op ℕ ℂ)) {N : ℕ} (x : RefRixs)
    (st : Fin N → RixsState) : Prop where
  gs : ∀ k, (st k).gs = if mode = .hBuild ∧ k.val ≠ 0 then x.other else x.root
  exc : ∀ k, ColumnsExact A.n A.hOp A.cut A.restrictions (st k).hExcited
  excDis : mode.shared → DisjointKeys fun k => (st k).hExcited
  heap : ∃ c : Fin N → OpResult ℂ, (∀ k, (st k).heap = [c k]) ∧ (∀ k, OutHeap A tOpsOut (c k)) ∧
    (mode = .hBuild → ∀ k l, c k = c l)
  gr : ∀ k, ColumnsExact A.n A.hOp A.cut A.restrictions (st k).hGround
  grDis : mode = .hBuild → DisjointKeys fun k => (st k).hGround

theorem allEnergies_dichotomy {N : ℕ} (hN : 0 < N) {A : RixsArgs} (hA : A.Valid) {mode : RixsMode}
    {tOpsOut : List (Op ℕ ℂ)} (ho : OutOps A tOpsOut) (ord : Fin N → ℕ → ℕ → SetOrders)
    (hord : ∀ k i j, (ord k i j).Valid) {sys : RixsSys} (hsys : SysOk A sys) (e : ℝ) (tIn iE : ℕ) {x : RefRixs}
    {st : Fin N → RixsState} (hrel : StRel A mode tOpsOut x st) :
    (∃ x', refEnergies A tOpsOut sys e tIn iE x = .ok x' ∧ ∃ st', StRel A mode tOpsOut x' st' ∧
      Runs msgSum (fun k : Fin N => rixsAllEnergies A mode tOpsOut (ord k) k.val N (List.replicate tOpsOut.length 0)
        tIn iE e sys (st k)) st') ∨
    ((∃ err, refEnergies A tOpsOut sys e tIn iE x = .error err) ∧
      RunsToFail msgSum (fun k : Fin N => rixsAllEnergies A mode tOpsOut (ord k) k.val N
        (List.replicate tOpsOut.length 0) tIn iE e sys (st k))) := by
  refine loop_dichotomy' (N := N) (sum := msgSum) (fun k (st : RixsState) (p : ℝ × ℕ) =>
    (Prog.lift (rixsIntermediate A sys.1 sys.2.1 sys.2.2 e p.1)).bind fun psi2 =>
    (Prog.loop (rixsOutgoing A mode (ord k p.2) k.val N (List.replicate tOpsOut.length 0) e psi2) tOpsOut.zipIdx
      ⟨[], st.heap, st.hGround⟩).bind fun o =>
    .ret { st with gs := st.gs.putRows iE tIn p.2 o.rows, heap := o.heap, hGround := o.hGround })
    (refPoint A tOpsOut sys e tIn iE) (StRel A mode tOpsOut) A.wIns.zipIdx x st hrel ?_
  rintro ⟨w, i⟩ - x st hrel
  obtain ⟨psi2, hpsi, hst2⟩ := hsys e w
  obtain ⟨c, hheap, hcache, hsame⟩ := hrel.heap
  have href : refPoint A tOpsOut sys e tIn iE x (w, i) = (do
      let rows ← rixsRows A tOpsOut e psi2
      return ⟨x.root.putRows iE tIn i rows, x.other.putRows iE tIn i (rixsOtherRows A tOpsOut e psi2)⟩) := by
    unfold refPoint rixsPoint
    simp only [hpsi, ok_bind]
    cases rixsRows A tOpsOut e psi2 <;> rfl
  have hprog : ∀ k : Fin N, (Prog.lift (rixsIntermediate A sys.1 sys.2.1 sys.2.2 e w)).bind (fun psi2 =>
      (Prog.loop (rixsOutgoing A mode (ord k i) k.val N (List.replicate tOpsOut.length 0) e psi2) tOpsOut.zipIdx
        ⟨[], (st k).heap, (st k).hGround⟩).bind fun o =>
      (.ret { st k with gs := (st k).gs.putRows iE tIn i o.rows, heap := o.heap, hGround := o.hGround }
        : Prog (Msg ℂ) RixsState))
      = (Prog.loop (rixsOutgoing A mode (ord k i) k.val N (List.replicate tOpsOut.length 0) e psi2) tOpsOut.zipIdx
        ⟨[], [c k], (st k).hGround⟩).bind fun o =>
      .ret { st k with gs := (st k).gs.putRows iE tIn i o.rows, heap := o.heap, hGround := o.hGround } := by
    intro k
    rw [hpsi, hheap k]
    rfl
  by_cases hm : mode = .hBuild
  · subst hm
    have hc0 : ∀ k, c k = c ⟨0, hN⟩ := fun k => hsame rfl _ _
    rcases outLoop_shared hN hA (fun k => ord k i) (fun k => hord k i) ho e hst2 (fun k => (st k).hGround)
      (hcache ⟨0, hN⟩) hrel.gr (hrel.grDis rfl) with ⟨rows, hr, c', hG', h1, h2, h3, hruns⟩ | ⟨err, hr, hfail⟩
    · left
      refine ⟨_, by rw [href, hr]; simp only [ok_bind, pure_ok]; rfl, fun k => { st k with
        gs := (st k).gs.putRows iE tIn i (if k.val = 0 then rows else rixsOtherRows A tOpsOut e psi2),
        heap := [c'], hGround := hG' k }, ?_, Runs.congr (Runs.bind hruns
          (f := fun k o => .ret { st k with gs := (st k).gs.putRows iE tIn i o.rows, heap := o.heap, hGround := o.hGround })
          (.ret fun k => rfl)) (fun k => ?_) fun _ => rfl⟩
      · refine ⟨fun k => ?_, hrel.exc, hrel.excDis, ⟨fun _ => c', fun _ => rfl, fun _ => h1, fun _ _ _ => rfl⟩, h2, fun _ => h3⟩
        show (st k).gs.putRows iE tIn i _ = _
        rw [hrel.gs k]
        by_cases h0 : k.val = 0 <;> simp [h0]
      · rw [hprog k, hc0 k]
    · right
      refine ⟨⟨err, by rw [href, hr]; rfl⟩, RunsToFail.congr (RunsToFailure.runsToFail hN
        (RunsToFailure.bind_left hfail (fun k o => .ret { st k with gs := (st k).gs.putRows iE tIn i o.rows, heap := o.heap, hGround := o.hGround }))) fun k => ?_⟩
      rw [hprog k, hc0 k]
  · have hloc := fun k : Fin N => outLoop_local hA hm (ord := ord k i) (rank := k.val) (ranks := N) ho e hst2
      (hcache k) (hrel.gr k)
    cases hr : rixsRows A tOpsOut e psi2 with
    | ok rows =>
      left
      have : ∀ k : Fin N, ∃ c' hG', OutHeap A tOpsOut c' ∧ ColumnsExact A.n A.hOp A.cut A.restrictions hG' ∧
          Prog.loop (rixsOutgoing A mode (ord k i) k.val N (List.replicate tOpsOut.length 0) e psi2) tOpsOut.zipIdx
            ⟨[], [c k], (st k).hGround⟩ = .ret ⟨rows, [c'], hG'⟩ := by
        intro k
        rcases hloc k with ⟨rows', h1, h2⟩ | ⟨err, h1, -⟩
        · rw [hr] at h1; cases h1; exact h2
        · rw [hr] at h1; cases h1
      choose c' hG' h1 h2 h3 using this
      refine ⟨_, by rw [href, hr]; simp only [ok_bind, pure_ok]; rfl, fun k => { st k with
        gs := (st k).gs.putRows iE tIn i rows, heap := [c' k], hGround := hG' k }, ?_, .ret fun k => ?_⟩
      · refine ⟨fun k => ?_, hrel.exc, hrel.excDis, ⟨c', fun _ => rfl, h1, fun h => absurd h hm⟩, h2, fun h => absurd h hm⟩
        show (st k).gs.putRows iE tIn i _ = _
        rw [hrel.gs k]
        simp [hm]
      · exact (hprog k).trans (by rw [h3 k]; rfl)
    | error err =>
      right
      refine ⟨⟨err, by rw [href, hr]; rfl⟩, RunsToFail.fail (r := ⟨0, hN⟩) (e := err) ?_ rfl⟩
      refine (hprog _).trans ?_
      rcases hloc ⟨0, hN⟩ with ⟨rows', h1, h2⟩ | ⟨err', h1, h2⟩
      · rw [hr] at h1; cases h1
      · rw [hr] at h1; cases h1; rw [h2]; rfl

end

end Verif
