/-
getSpectra in the mode "eigen_states".
-/
import Verif.Lemmas.SpectraRef

namespace Verif

open Finset Mpi Psr Spec Matrix

noncomputable section

/-! ### A rank that has failed -/

theorem syncStep_fail {M A : Type} {N : ℕ} {sum : List M → M} {σ τ : Fin N → Prog M A} {r : Fin N} {e : PyErr}
    (h : SyncStep sum σ τ) (hr : σ r = .fail e) : τ r = .fail e := by
  cases h with
  | coll c vs ks hpos hc hroot => rw [hc] at hr; cases hr
  | msg s d tag v k k' hsd hs hd =>
    have h1 : r ≠ s := by rintro rfl; rw [hs] at hr; cases hr
    have h2 : r ≠ d := by rintro rfl; rw [hd] at hr; cases hr
    rw [Function.update_of_ne h2, Function.update_of_ne h1, hr]

/-- If one rank raises at the start, the ranks never all finish. -/
theorem not_canFinish_of_fail {M A : Type} {N : ℕ} {sum : List M → M} {P : Fin N → Prog M A} {r : Fin N} {e : PyErr}
    (h : P r = .fail e) (out : Fin N → A) : ¬ CanFinish sum P out := by
  rintro (⟨k, f, hk, hf⟩ | ⟨k, f, hk, hf⟩)
  · have : ∀ {k : ℕ} {σ τ : Fin N → Prog M A}, Steps (SyncStep sum) k σ τ → σ r = .fail e → τ r = .fail e := by
      intro k σ τ hs
      induction hs with
      | refl a => exact id
      | head h1 _ ih => exact fun h => ih (syncStep_fail h1 h)
    have h1 := this hk h
    rw [hf r] at h1
    cases h1
  · have h1 := bufSteps_fail (r := r) (e := e) hk h
    rw [hf r] at h1
    cases h1

/-! ### Local computation -/

/-- The result of `getGreen` does not depend on the exact columns in `h_dict`. -/
theorem getGreen_any {A : SpectraArgs} (hA : A.Valid) {psi : Psi ℂ} (hpsi : IsState A.n psi) (e : ℝ) :
    (∃ g, ∀ hSer, ColumnsExact A.n A.hOp A.cut A.restrictions hSer →
      ∃ hSer', ColumnsExact A.n A.hOp A.cut A.restrictions hSer' ∧
        getGreen A.n e psi A.hOp A.w A.delta A.krylovSize A.cut A.restrictions hSer A.fuel = .ok (g, hSer')) ∨
    (∃ err, ∀ hSer, ColumnsExact A.n A.hOp A.cut A.restrictions hSer →
        getGreen A.n e psi A.hOp A.w A.delta A.krylovSize A.cut A.restrictions hSer A.fuel = .error err) := by
  rcases getGreenRank_runs (N := 1) (by omega) hA.hop hA.cut A.restrictions (fun _ => []) (fun _ => columnsExact_nil ..)
    (fun k l hkl => absurd (Subsingleton.elim k l) hkl) (fun _ => ⟨fun _ l => l, fun l => l⟩)
    (fun _ _ l => List.Perm.refl l) (fun _ l => List.Perm.refl l) hpsi e A.w hA.delta hA.krylov hA.fuel
    with ⟨g, h, -⟩ | ⟨err, h, -⟩
  · exact Or.inl ⟨g, h⟩
  · exact Or.inr ⟨err, h⟩

/-- The excited state `T_t psi_i` of mode `eigen_states`. -/
def transitionState (A : SpectraArgs) (tOp : Op ℕ ℂ) (psi : Psi ℂ) : Psi ℂ :=
  applyOpPure A.n tOp psi A.slaterWeightMin A.restrictions

theorem eigenStateRow_ok {A : SpectraArgs} (hA : A.Valid) {tOp : Op ℕ ℂ} (ht : OpInSystem A.n tOp) {psi : Psi ℂ}
    (hpsi : IsState A.n psi) (e : ℝ) {g : List ℂ} (hg : spectrumOf A (transitionState A tOp psi) e = .ok g)
    (rows : List (List ℂ)) {h : OpResult ℂ} (hh : ColumnsExact A.n A.hOp A.cut A.restrictions h) :
    ∃ h', ColumnsExact A.n A.hOp A.cut A.restrictions h' ∧
      eigenStateRow A psi e (rows, h) tOp = .ok (rows ++ [g], h') := by
  have hex := applyOp_excited ht hpsi hA.weight A.restrictions
  rcases getGreen_any hA (isState_unit hex.state) e with ⟨g', hs⟩ | ⟨err, hs⟩
  · obtain ⟨h0, -, hs0⟩ := hs [] (columnsExact_nil ..)
    obtain ⟨h1, hh1, hs1⟩ := hs h hh
    refine ⟨h1, hh1, ?_⟩
    unfold spectrumOf transitionState at hg
    rw [hs0] at hg
    simp only [ok_bind, pure_ok] at hg
    cases hg
    unfold eigenStateRow
    simp only [applyOp_eq ht hpsi, ok_bind, normalise_eq hA.weight hex, hs1, pure_ok]
  · unfold spectrumOf transitionState at hg
    rw [hs [] (columnsExact_nil ..)] at hg
    cases hg

theorem eigenStateRow_error {A : SpectraArgs} (hA : A.Valid) {tOp : Op ℕ ℂ} (ht : OpInSystem A.n tOp) {psi : Psi ℂ}
    (hpsi : IsState A.n psi) (e : ℝ) {err : PyErr} (hg : spectrumOf A (transitionState A tOp psi) e = .error err)
    (rows : List (List ℂ)) {h : OpResult ℂ} (hh : ColumnsExact A.n A.hOp A.cut A.restrictions h) :
    ∃ err, eigenStateRow A psi e (rows, h) tOp = .error err := by
  have hex := applyOp_excited ht hpsi hA.weight A.restrictions
  rcases getGreen_any hA (isState_unit hex.state) e with ⟨g', hs⟩ | ⟨err', hs⟩
  · obtain ⟨h0, -, hs0⟩ := hs [] (columnsExact_nil ..)
    unfold spectrumOf transitionState at hg
    rw [hs0] at hg
    cases hg
  · refine ⟨err', ?_⟩
    unfold eigenStateRow
    simp only [applyOp_eq ht hpsi, ok_bind, normalise_eq hA.weight hex, hs h hh]
    rfl

theorem eigenRows {A : SpectraArgs} (hA : A.Valid) {psi : Psi ℂ} (hpsi : IsState A.n psi) (e : ℝ) :
    ∀ (tOps : List (Op ℕ ℂ)), (∀ tOp ∈ tOps, OpInSystem A.n tOp) → ∀ (rows : List (List ℂ)) (h : OpResult ℂ),
    ColumnsExact A.n A.hOp A.cut A.restrictions h →
    (∀ f : Op ℕ ℂ → List ℂ, (∀ tOp ∈ tOps, spectrumOf A (transitionState A tOp psi) e = .ok (f tOp)) →
      ∃ h', ColumnsExact A.n A.hOp A.cut A.restrictions h' ∧
        tOps.foldlM (eigenStateRow A psi e) (rows, h) = .ok (rows ++ tOps.map f, h')) ∧
    ((∃ tOp ∈ tOps, ∃ err, spectrumOf A (transitionState A tOp psi) e = .error err) →
      ∃ err, tOps.foldlM (eigenStateRow A psi e) (rows, h) = .error err) := by
  intro tOps
  induction tOps with
  | nil =>
    intro _ rows h hh
    exact ⟨fun f _ => ⟨h, hh, by simp [pure_ok]⟩, by simp⟩
  | cons tOp tOps ih =>
    intro hin rows h hh
    have ht := hin tOp (by simp)
    refine ⟨fun f hf => ?_, ?_⟩
    · obtain ⟨h1, hh1, e1⟩ := eigenStateRow_ok hA ht hpsi e (hf tOp (by simp)) rows hh
      obtain ⟨h2, hh2, e2⟩ := (ih (fun q hq => hin q (by simp [hq])) (rows ++ [f tOp]) h1 hh1).1 f
        fun q hq => hf q (by simp [hq])
      refine ⟨h2, hh2, ?_⟩
      rw [List.foldlM_cons, e1]
      simp only [ok_bind, e2]
      simp
    · rintro ⟨q, hq, err, he⟩
      rw [List.foldlM_cons]
      cases hg : spectrumOf A (transitionState A tOp psi) e with
      | error err' =>
        obtain ⟨err'', e1⟩ := eigenStateRow_error hA ht hpsi e hg rows hh
        exact ⟨err'', by rw [e1]; rfl⟩
      | ok g =>
        obtain ⟨h1, hh1, e1⟩ := eigenStateRow_ok hA ht hpsi e hg rows hh
        rw [e1]
        simp only [ok_bind]
        refine (ih (fun q hq => hin q (by simp [hq])) (rows ++ [g]) h1 hh1).2 ?_
        rcases List.mem_cons.1 hq with rfl | hq
        · rw [hg] at he; cases he
        · exact ⟨q, hq, err, he⟩

/-- The body of the loop over the eigenstates of a rank. -/
def eigenBody (A : SpectraArgs) (tOps : List (Op ℕ ℂ)) (psis : List (Psi ℂ)) (es : List ℝ)
    (acc : Dict ℕ (List (List ℂ)) × OpResult ℂ) (i : ℕ) : Py (Dict ℕ (List (List ℂ)) × OpResult ℂ) := do
  let psi ← pyGet psis (i : ℤ)
  let e ← pyGet es (i : ℤ)
  let (rows, h) ← tOps.foldlM (eigenStateRow A psi e) ([], acc.2)
  return (Dict.set acc.1 i rows, h)

theorem eigenJobs {A : SpectraArgs} (hA : A.Valid) {psis : List (Psi ℂ)} {es : List ℝ}
    (hlen : es.length ≤ psis.length) (hpsis : ∀ psi ∈ psis, IsState A.n psi) {tOps : List (Op ℕ ℂ)}
    (htOps : ∀ tOp ∈ tOps, OpInSystem A.n tOp) :
    ∀ (jobs : List ℕ), (∀ i ∈ jobs, i < es.length) → ∀ (d : Dict ℕ (List (List ℂ))) (h : OpResult ℂ),
    ColumnsExact A.n A.hOp A.cut A.restrictions h →
    (∀ f : ℕ → Op ℕ ℂ → List ℂ, (∀ i ∈ jobs, ∀ tOp ∈ tOps,
        spectrumOf A (transitionState A tOp (psis.getD i [])) (es.getD i 0) = .ok (f i tOp)) →
      (∀ p ∈ d, p.2 = tOps.map (f p.1)) →
      ∃ d' h', jobs.foldlM (eigenBody A tOps psis es) (d, h) = .ok (d', h') ∧
        (∀ p ∈ d', p.2 = tOps.map (f p.1)) ∧ ∀ i, i ∈ Dict.keys d' ↔ i ∈ Dict.keys d ∨ i ∈ jobs) ∧
    ((∃ i ∈ jobs, ∃ tOp ∈ tOps, ∃ err, spectrumOf A (transitionState A tOp (psis.getD i [])) (es.getD i 0) = .error err) →
      ∃ err, jobs.foldlM (eigenBody A tOps psis es) (d, h) = .error err) := by
  intro jobs
  induction jobs with
  | nil =>
    intro _ d h _
    exact ⟨fun f _ hd => ⟨d, h, rfl, hd, by simp⟩, by simp⟩
  | cons i jobs ih =>
    intro hj d h hh
    have hi := hj i (by simp)
    have hi' : i < psis.length := by omega
    have hpsi := hpsis _ (List.getElem_mem hi')
    have hpD : psis.getD i [] = psis[i] := List.getD_eq_getElem _ _ hi'
    have heD : es.getD i 0 = es[i] := List.getD_eq_getElem _ _ hi
    have hbody : eigenBody A tOps psis es (d, h) i = (do
        let (rows, h) ← tOps.foldlM (eigenStateRow A psis[i] es[i]) ([], h)
        return (Dict.set d i rows, h)) := by
      unfold eigenBody
      rw [pyGet_ofNat psis i hi', pyGet_ofNat es i hi]
      simp only [ok_bind]
    obtain ⟨hok, herr⟩ := eigenRows hA hpsi es[i] tOps htOps [] h hh
    refine ⟨fun f hf hd => ?_, ?_⟩
    · obtain ⟨h1, hh1, e1⟩ := hok (f i) fun tOp ht => by
        have := hf i (by simp) tOp ht
        rwa [hpD, heD] at this
      have hstep : eigenBody A tOps psis es (d, h) i = .ok (Dict.set d i (tOps.map (f i)), h1) := by
        rw [hbody, e1]
        simp only [ok_bind, pure_ok, List.nil_append]
      obtain ⟨d', h', e2, h3, h4⟩ := (ih (fun j hj' => hj j (by simp [hj'])) (Dict.set d i (tOps.map (f i))) h1 hh1).1 f
        (fun j hj' => hf j (by simp [hj'])) (by
          intro p hp
          rcases dict_mem_set hp with rfl | hp
          · rfl
          · exact hd p hp)
      refine ⟨d', h', by rw [List.foldlM_cons, hstep]; exact e2, h3, fun j => ?_⟩
      rw [h4, Dict.mem_keys_set, List.mem_cons]
      tauto
    · rintro ⟨j, hj', tOp, ht, err, he⟩
      rw [List.foldlM_cons]
      by_cases hbad : ∃ tOp ∈ tOps, ∃ err, spectrumOf A (transitionState A tOp psis[i]) es[i] = .error err
      · obtain ⟨err', e1⟩ := herr hbad
        refine ⟨err', ?_⟩
        rw [hbody, e1]; rfl
      · have hall : ∀ tOp, ∃ g, tOp ∈ tOps → spectrumOf A (transitionState A tOp psis[i]) es[i] = .ok g := by
          intro tOp
          cases hg : spectrumOf A (transitionState A tOp psis[i]) es[i] with
          | ok g => exact ⟨g, fun _ => rfl⟩
          | error err => exact ⟨[], fun hm => absurd ⟨tOp, hm, err, hg⟩ hbad⟩
        choose f hf using hall
        obtain ⟨h1, hh1, e1⟩ := hok f hf
        rw [hbody, e1]
        simp only [ok_bind, pure_ok]
        refine (ih (fun j hj' => hj j (by simp [hj'])) _ h1 hh1).2 ?_
        rcases List.mem_cons.1 hj' with rfl | hj'
        · rw [hpD, heD] at he
          exact absurd ⟨tOp, ht, err, he⟩ hbad
        · exact ⟨j, hj', tOp, ht, err, he⟩

/-! ### Gathering -/

/-- The array after the eigenstates in `done` have been stored. -/
def gathered (A : SpectraArgs) (tOps : List (Op ℕ ℂ)) (f : ℕ → Op ℕ ℂ → List ℂ) (done : ℕ → Prop)
    [DecidablePred done] : Spectra :=
  fun a b => if done a then (tOps.map (f a)).getD b (List.replicate A.w.length 0) else List.replicate A.w.length 0

theorem foldl_putRows (A : SpectraArgs) (tOps : List (Op ℕ ℂ)) (f : ℕ → Op ℕ ℂ → List ℂ) (d : Dict ℕ (List (List ℂ)))
    (hd : ∀ p ∈ d, p.2 = tOps.map (f p.1)) (done : ℕ → Prop) [DecidablePred done] :
    d.foldl (fun (gs : Spectra) p => gs.putRows p.1 p.2) (gathered A tOps f done)
      = gathered A tOps f fun a => done a ∨ a ∈ Dict.keys d := by
  induction d generalizing done with
  | nil =>
    funext a b
    simp [gathered]
  | cons p d ih =>
    rw [List.foldl_cons]
    have h1 : (gathered A tOps f done).putRows p.1 p.2 = gathered A tOps f fun a => done a ∨ a = p.1 := by
      funext a b
      unfold Spectra.putRows gathered
      rw [hd p (by simp)]
      by_cases ha : a = p.1
      · subst ha
        by_cases hdone : done p.1
        · simp only [if_true, if_pos hdone, if_pos (Or.inl hdone)]
          by_cases hb : b < (tOps.map (f p.1)).length
          · rw [List.getD_eq_getElem _ _ hb, List.getD_eq_getElem _ _ hb]
          · rw [List.getD_eq_default _ _ (by omega)]
        · simp [hdone]
      · simp [ha]
    rw [h1, ih (fun q hq => hd q (by simp [hq]))]
    funext a b
    unfold gathered
    congr 1
    simp [Dict.keys, or_assoc]

theorem gatherSpectra_runs {N : ℕ} (A : SpectraArgs) (tOps : List (Op ℕ ℂ)) (f : ℕ → Op ℕ ℂ → List ℂ)
    (d : Fin N → Dict ℕ (List (List ℂ))) (hd : ∀ k, ∀ p ∈ d k, p.2 = tOps.map (f p.1)) :
    ∀ (rs : List ℕ), (∀ r ∈ rs, r < N) → ∀ (done : ℕ → Prop) [DecidablePred done],
    ∃ (done' : ℕ → Prop) (_ : DecidablePred done'),
      (∀ a, done' a ↔ done a ∨ ∃ k : Fin N, k.val ∈ rs ∧ a ∈ Dict.keys (d k)) ∧
      Runs msgSum (fun k : Fin N => gatherSpectra (d k) rs (gathered A tOps f done))
        (fun _ => gathered A tOps f done') := by
  intro rs
  induction rs with
  | nil =>
    intro _ done _
    exact ⟨done, inferInstance, by simp, .ret fun _ => rfl⟩
  | cons r rs ih =>
    intro hr done _
    have hrN := hr r (by simp)
    obtain ⟨done', hdec, hiff, hruns⟩ := ih (fun q hq => hr q (by simp [hq])) (fun a => done a ∨ a ∈ Dict.keys (d ⟨r, hrN⟩))
    refine ⟨done', hdec, fun a => ?_, ?_⟩
    · rw [hiff]
      constructor
      · rintro ((h | h) | ⟨k, h1, h2⟩)
        · exact Or.inl h
        · exact Or.inr ⟨⟨r, hrN⟩, by simp, h⟩
        · exact Or.inr ⟨k, by simp [h1], h2⟩
      · rintro (h | ⟨k, h1, h2⟩)
        · exact Or.inl (Or.inl h)
        · rcases List.mem_cons.1 h1 with h1 | h1
          · have : k = ⟨r, hrN⟩ := Fin.ext h1
            subst this
            exact Or.inl (Or.inr h2)
          · exact Or.inr ⟨k, h1, h2⟩
    · refine Runs.congr (Runs.bind (Runs.bcast (sum := msgSum) (fun k : Fin N => bcast r (.spectra (d k)))
        ⟨r, hrN⟩ (fun k => .spectra (d k)) fun _ => rfl) (f := fun k m => (asSpectra m).bind fun gTmp =>
          gatherSpectra (d k) rs (gTmp.foldl (fun gs p => gs.putRows p.1 p.2) (gathered A tOps f done)))
        (out' := fun _ => gathered A tOps f done') ?_) (fun _ => rfl) fun _ => rfl
      simp only [asSpectra, Prog.bind]
      rw [foldl_putRows A tOps f (d ⟨r, hrN⟩) (hd _) done]
      exact hruns

/-- `getSpectra` in mode `eigen_states`: the outcome does not depend on the ranks. -/
theorem eigen_dichotomy {N : ℕ} (hN : 0 < N) {A : SpectraArgs} (hA : A.Valid) {psis : List (Psi ℂ)} {es : List ℝ}
    (hlen : es.length ≤ psis.length) (hpsis : ∀ psi ∈ psis, IsState A.n psi) {tOps : List (Op ℕ ℂ)}
    (htOps : ∀ tOp ∈ tOps, OpInSystem A.n tOp) (ord : Fin N → ℕ → ℕ → SetOrders) :
    (∀ f : ℕ → Op ℕ ℂ → List ℂ, (∀ i < es.length, ∀ tOp ∈ tOps,
        spectrumOf A (transitionState A tOp (psis.getD i [])) (es.getD i 0) = .ok (f i tOp)) →
      Runs msgSum (fun k : Fin N => getSpectra A tOps psis es .eigenStates (ord k) k.val N)
        (fun _ => gathered A tOps f fun a => a < es.length)) ∧
    ((∃ i < es.length, ∃ tOp ∈ tOps,
        ∃ err, spectrumOf A (transitionState A tOp (psis.getD i [])) (es.getD i 0) = .error err) →
      ∀ out, ¬ CanFinish msgSum (fun k : Fin N => getSpectra A tOps psis es .eigenStates (ord k) k.val N) out) := by
  have hjobs : ∀ k : Fin N, eigenStatesLocal A tOps psis es k.val N
      = (jobsPure N (List.range es.length) k.val).foldlM (eigenBody A tOps psis es) ([], []) := by
    intro k
    unfold eigenStatesLocal
    rw [getJobTasks_eq k.isLt]
    rfl
  have hmem : ∀ (k : Fin N), ∀ i ∈ jobsPure N (List.range es.length) k.val, i < es.length :=
    fun k i hi => List.mem_range.1 (mem_jobsPure hN _ k.isLt hi)
  have hcover : ∀ i < es.length, ∃ k : Fin N, i ∈ jobsPure N (List.range es.length) k.val := by
    intro i hi
    have := (jobsPure_perm hN (List.range es.length)).mem_iff.2 (List.mem_range.2 hi)
    obtain ⟨r, hr, hir⟩ := List.mem_flatMap.1 this
    exact ⟨⟨r, List.mem_range.1 hr⟩, hir⟩
  refine ⟨fun f hf => ?_, ?_⟩
  · have hloc : ∀ k : Fin N, ∃ d h', eigenStatesLocal A tOps psis es k.val N = .ok (d, h') ∧
        (∀ p ∈ d, p.2 = tOps.map (f p.1)) ∧ ∀ i, i ∈ Dict.keys d ↔ i ∈ jobsPure N (List.range es.length) k.val := by
      intro k
      obtain ⟨d, h', h1, h2, h3⟩ := (eigenJobs hA hlen hpsis htOps _ (hmem k) [] [] (columnsExact_nil ..)).1 f
        (fun i hi => hf i (hmem k i hi)) (by simp)
      exact ⟨d, h', by rw [hjobs, h1], h2, fun i => by rw [h3]; simp⟩
    choose d h' hd hrows hkeys using hloc
    obtain ⟨done', hdec, hiff, hruns⟩ := gatherSpectra_runs A tOps f d hrows (List.range N)
      (fun r hr => List.mem_range.1 hr) (fun _ => False)
    refine Runs.congr hruns (fun k => ?_) fun _ => ?_
    · unfold getSpectra
      simp only [hd k, Prog.lift, Prog.bind]
      congr 1
    · funext a b
      unfold gathered
      have : a < es.length ↔ done' a := by
        rw [hiff]
        constructor
        · intro ha
          obtain ⟨k, hk⟩ := hcover a ha
          exact Or.inr ⟨k, List.mem_range.2 k.isLt, (hkeys k a).2 hk⟩
        · rintro (h | ⟨k, -, hk⟩)
          · exact h.elim
          · exact hmem k a ((hkeys k a).1 hk)
      by_cases ha : a < es.length
      · rw [if_pos ha, if_pos (this.1 ha)]
      · rw [if_neg ha, if_neg (fun h => ha (this.2 h))]
  · rintro ⟨i, hi, tOp, ht, err, he⟩ out
    obtain ⟨k, hk⟩ := hcover i hi
    obtain ⟨err', h1⟩ := (eigenJobs hA hlen hpsis htOps _ (hmem k) [] [] (columnsExact_nil ..)).2
      ⟨i, hk, tOp, ht, err, he⟩
    refine not_canFinish_of_fail (r := k) (e := err') ?_ out
    unfold getSpectra
    simp only [hjobs k, h1, Prog.lift, Prog.bind]

end

end Verif
