/-
getRIXSmap on all ranks.
-/
import Verif.Lemmas.RixsLoops

namespace Verif

open Finset Mpi Psr Spec Matrix

noncomputable section

/-! ### Modes wIn and H_build_wIn -/

/-- The body of the loop of one rank over its in-coming energies. -/
def localBody (A : RixsArgs) (mode : RixsMode) (tOpsOut : List (Op ℕ ℂ)) (rank ranks : ℕ) (e : ℝ) (sys : RixsSys)
    (acc : Dict ℕ (List (List ℂ)) × List (OpResult ℂ) × OpResult ℂ) (iwIn : ℕ) :
    Prog (Msg ℂ) (Dict ℕ (List (List ℂ)) × List (OpResult ℂ) × OpResult ℂ) :=
  (Prog.lift (do
      let w ← pyGet A.wIns (iwIn : ℤ)
      rixsIntermediate A sys.1 sys.2.1 sys.2.2 e w)).bind fun psi2 =>
    (Prog.loop (rixsOutgoing A mode (fun _ => ⟨fun _ l => l, fun l => l⟩) rank ranks (List.replicate tOpsOut.length 0)
      e psi2) tOpsOut.zipIdx ⟨[], acc.2.1, acc.2.2⟩).bind fun o =>
    .ret (Dict.set acc.1 iwIn o.rows, o.heap, o.hGround)

theorem localBody_cases {A : RixsArgs} (hA : A.Valid) {mode : RixsMode} (hm : mode ≠ .hBuild) {rank ranks : ℕ}
    {tOpsOut : List (Op ℕ ℂ)} (ho : OutOps A tOpsOut) (e : ℝ) {sys : RixsSys} (hsys : SysOk A sys)
    (d : Dict ℕ (List (List ℂ))) {c hG : OpResult ℂ} (hc : OutHeap A tOpsOut c)
    (hG' : ColumnsExact A.n A.hOp A.cut A.restrictions hG) {i : ℕ} (hi : i < A.wIns.length) :
    (∃ r, rixsPoint A tOpsOut sys e A.wIns[i] = .ok r ∧ ∃ c' hG', OutHeap A tOpsOut c' ∧
      ColumnsExact A.n A.hOp A.cut A.restrictions hG' ∧
      localBody A mode tOpsOut rank ranks e sys (d, [c], hG) i = .ret (Dict.set d i r.1, [c'], hG')) ∨
    (∃ err, rixsPoint A tOpsOut sys e A.wIns[i] = .error err ∧
      localBody A mode tOpsOut rank ranks e sys (d, [c], hG) i = .fail err) := by
  obtain ⟨psi2, hpsi, hst2⟩ := hsys e A.wIns[i]
  have hprog : localBody A mode tOpsOut rank ranks e sys (d, [c], hG) i
      = (Prog.loop (rixsOutgoing A mode (fun _ => ⟨fun _ l => l, fun l => l⟩) rank ranks
          (List.replicate tOpsOut.length 0) e psi2) tOpsOut.zipIdx ⟨[], [c], hG⟩).bind fun o =>
        .ret (Dict.set d i o.rows, o.heap, o.hGround) := by
    unfold localBody
    rw [pyGet_ofNat A.wIns i hi]
    simp only [ok_bind, hpsi]
    rfl
  have href : rixsPoint A tOpsOut sys e A.wIns[i] = (do
      let rows ← rixsRows A tOpsOut e psi2
      return (rows, rixsOtherRows A tOpsOut e psi2)) := by
    unfold rixsPoint
    simp only [hpsi, ok_bind]
  rw [hprog, href]
  rcases outLoop_local hA hm (ord := fun _ => ⟨fun _ l => l, fun l => l⟩) (rank := rank) (ranks := ranks) ho e hst2 hc hG'
    with ⟨rows, h1, c', hG'', h2, h3, h4⟩ | ⟨err, h1, h2⟩
  · left
    exact ⟨_, by rw [h1]; rfl, c', hG'', h2, h3, by rw [h4]; rfl⟩
  · right
    exact ⟨err, by rw [h1]; rfl, by rw [h2]; rfl⟩

theorem localLoop_cases {A : RixsArgs} (hA : A.Valid) {mode : RixsMode} (hm : mode ≠ .hBuild) {rank ranks : ℕ}
    {tOpsOut : List (Op ℕ ℂ)} (ho : OutOps A tOpsOut) (e : ℝ) {sys : RixsSys} (hsys : SysOk A sys) :
    ∀ (jobs : List ℕ), (∀ i ∈ jobs, i < A.wIns.length) → ∀ (d : Dict ℕ (List (List ℂ))) (c hG : OpResult ℂ),
    OutHeap A tOpsOut c → ColumnsExact A.n A.hOp A.cut A.restrictions hG →
    (∀ F : ℕ → List (List ℂ) × List (List ℂ), (∀ i ∈ jobs, ∀ h : i < A.wIns.length,
        rixsPoint A tOpsOut sys e A.wIns[i] = .ok (F i)) → (∀ p ∈ d, p.2 = (F p.1).1) →
      ∃ d' c' hG', OutHeap A tOpsOut c' ∧ ColumnsExact A.n A.hOp A.cut A.restrictions hG' ∧
        (∀ p ∈ d', p.2 = (F p.1).1) ∧ (∀ i, i ∈ Dict.keys d' ↔ i ∈ Dict.keys d ∨ i ∈ jobs) ∧
        Prog.loop (localBody A mode tOpsOut rank ranks e sys) jobs (d, [c], hG) = .ret (d', [c'], hG')) ∧
    ((∃ i ∈ jobs, ∃ h : i < A.wIns.length, ∃ err, rixsPoint A tOpsOut sys e A.wIns[i] = .error err) →
      ∃ err, Prog.loop (localBody A mode tOpsOut rank ranks e sys) jobs (d, [c], hG) = .fail err) := by
  intro jobs
  induction jobs with
  | nil =>
    intro _ d c hG hc hG'
    exact ⟨fun F _ hd => ⟨d, c, hG, hc, hG', hd, by simp, rfl⟩, by simp⟩
  | cons i jobs ih =>
    intro hj d c hG hc hG'
    have hi := hj i (by simp)
    have hcase := localBody_cases hA hm (rank := rank) (ranks := ranks) ho e hsys d hc hG' hi
    refine ⟨fun F hF hd => ?_, ?_⟩
    · rcases hcase with ⟨r, h1, c1, hG1, h2, h3, h4⟩ | ⟨err, h1, -⟩
      · rw [hF i (by simp) hi] at h1
        cases h1
        obtain ⟨d', c', hG'', h5, h6, h7, h8, h9⟩ := (ih (fun j hj' => hj j (by simp [hj'])) (Dict.set d i (F i).1) c1 hG1
          h2 h3).1 F (fun j hj' => hF j (by simp [hj'])) (by
            intro p hp
            rcases dict_mem_set hp with rfl | hp
            · rfl
            · exact hd p hp)
        refine ⟨d', c', hG'', h5, h6, h7, fun j => ?_, ?_⟩
        · rw [h8, Dict.mem_keys_set, List.mem_cons]
          tauto
        · unfold Prog.loop
          rw [h4]
          exact h9
      · rw [hF i (by simp) hi] at h1
        cases h1
    · rintro ⟨j, hj', hlt, err, he⟩
      unfold Prog.loop
      rcases hcase with ⟨r, h1, c1, hG1, h2, h3, h4⟩ | ⟨err', h1, h2⟩
      · rw [h4]
        refine (ih (fun j hj' => hj j (by simp [hj'])) _ c1 hG1 h2 h3).2 ?_
        rcases List.mem_cons.1 hj' with rfl | hj'
        · rw [h1] at he; cases he
        · exact ⟨j, hj', hlt, err, he⟩
      · exact ⟨err', by rw [h2]; rfl⟩

theorem foldl_putRows_rixs (gs : RixsMap) (iE tIn : ℕ) (F : ℕ → List (List ℂ)) (d : Dict ℕ (List (List ℂ)))
    (hd : ∀ p ∈ d, p.2 = F p.1) (done : ℕ → Prop) [DecidablePred done] :
    d.foldl (fun (gs : RixsMap) p => gs.putRows iE tIn p.1 p.2) (gs.putAll iE tIn F done)
      = gs.putAll iE tIn F fun a => done a ∨ a ∈ Dict.keys d := by
  induction d generalizing done with
  | nil => exact putAll_congr _ _ _ (by simp) (fun _ _ => rfl)
  | cons p d ih =>
    rw [List.foldl_cons, hd p (by simp), putRows_putAll, ih (fun q hq => hd q (by simp [hq]))]
    exact putAll_congr _ _ _ (fun a => by simp [Dict.keys, or_assoc]) (fun _ _ => rfl)

theorem gatherRixs_runs {N : ℕ} (gs : RixsMap) (iE tIn : ℕ) (F : ℕ → List (List ℂ))
    (d : Fin N → Dict ℕ (List (List ℂ))) (hd : ∀ k, ∀ p ∈ d k, p.2 = F p.1) :
    ∀ (rs : List ℕ), (∀ r ∈ rs, r < N) → ∀ (done : ℕ → Prop) [DecidablePred done],
    ∃ (done' : ℕ → Prop) (_ : DecidablePred done'),
      (∀ a, done' a ↔ done a ∨ ∃ k : Fin N, k.val ∈ rs ∧ a ∈ Dict.keys (d k)) ∧
      Runs msgSum (fun k : Fin N => gatherRixs iE tIn (d k) rs (gs.putAll iE tIn F done))
        (fun _ => gs.putAll iE tIn F done') := by
  intro rs
  induction rs with
  | nil =>
    intro _ done _
    exact ⟨done, inferInstance, by simp, .ret fun _ => rfl⟩
  | cons r rs ih =>
    intro hr done _
    have hrN := hr r (by simp)
    obtain ⟨done', hdec, hiff, hruns⟩ := ih (fun q hq => hr q (by simp [hq])) (fun a => done a ∨ a ∈ Dict.keys (d ⟨r, hrN⟩))
    refine ⟨done', hdec, fun a => ?_, ?_⟩
    · rw [hiff]
      constructor
      · rintro ((h | h) | ⟨k, h1, h2⟩)
        · exact Or.inl h
        · exact Or.inr ⟨⟨r, hrN⟩, by simp, h⟩
        · exact Or.inr ⟨k, by simp [h1], h2⟩
      · rintro (h | ⟨k, h1, h2⟩)
        · exact Or.inl (Or.inl h)
        · rcases List.mem_cons.1 h1 with h1 | h1
          · have : k = ⟨r, hrN⟩ := Fin.ext h1
            subst this
            exact Or.inl (Or.inr h2)
          · exact Or.inr ⟨k, h1, h2⟩
    · refine Runs.congr (Runs.bind (Runs.bcast (sum := msgSum) (fun k : Fin N => bcast r (.spectra (d k)))
        ⟨r, hrN⟩ (fun k => .spectra (d k)) fun _ => rfl) (f := fun k m => (asSpectra m).bind fun gTmp =>
          gatherRixs iE tIn (d k) rs (gTmp.foldl (fun gs p => gs.putRows iE tIn p.1 p.2) (gs.putAll iE tIn F done)))
        (out' := fun _ => gs.putAll iE tIn F done') ?_) (fun _ => rfl) fun _ => rfl
      simp only [asSpectra, Prog.bind]
      rw [foldl_putRows_rixs gs iE tIn F (d ⟨r, hrN⟩) (hd _) done]
      exact hruns

theorem gatherRixs_awaits (iE tIn : ℕ) (d : Dict ℕ (List (List ℂ))) {r : ℕ} {rs : List ℕ} (hr : r ∈ rs) :
    ∀ gs : RixsMap, (gatherRixs iE tIn d rs gs).Awaits r := by
  induction rs with
  | nil => simp at hr
  | cons r' rs ih =>
    intro gs
    by_cases h : r' = r
    · subst h
      exact Or.inl rfl
    · refine Or.inr fun m => Prog.Awaits.bind_right _ fun g => Prog.Awaits.bind_right _ fun g => ih ?_ _
      rcases List.mem_cons.1 hr with h' | h'
      · exact absurd h'.symm h
      · exact h'

/-- The end of the body of the loop over eigenstates in modes `wIn` and `H_build_wIn`. -/
def rixsScattered (A : RixsArgs) (mode : RixsMode) (tOpsOut : List (Op ℕ ℂ)) (rank ranks : ℕ) (tIn iE : ℕ) (e : ℝ)
    (sys : RixsSys) (st : RixsState) : Prog (Msg ℂ) RixsState :=
  (rixsLocalEnergies A mode tOpsOut rank ranks (List.replicate tOpsOut.length 0) e sys st).bind fun g =>
  (gatherRixs iE tIn g.1 (List.range ranks) st.gs).bind fun gs =>
  .ret { st with gs := gs, heap := g.2.1, hGround := g.2.2 }

theorem scattered_dichotomy {N : ℕ} (hN : 0 < N) {A : RixsArgs} (hA : A.Valid) {mode : RixsMode} (hm : mode ≠ .hBuild)
    {tOpsOut : List (Op ℕ ℂ)} (ho : OutOps A tOpsOut) {sys : RixsSys} (hsys : SysOk A sys) (e : ℝ) (tIn iE : ℕ)
    {x : RefRixs} {st : Fin N → RixsState} (hrel : StRel A mode tOpsOut x st) :
    (∃ x', refEnergies A tOpsOut sys e tIn iE x = .ok x' ∧ ∃ st', StRel A mode tOpsOut x' st' ∧
      Runs msgSum (fun k : Fin N => rixsScattered A mode tOpsOut k.val N tIn iE e sys (st k)) st') ∨
    ((∃ err, refEnergies A tOpsOut sys e tIn iE x = .error err) ∧
      RunsToFail msgSum (fun k : Fin N => rixsScattered A mode tOpsOut k.val N tIn iE e sys (st k))) := by
  obtain ⟨c, hheap, hcache, -⟩ := hrel.heap
  obtain ⟨hok, herr⟩ := refEnergies_cases A tOpsOut sys e tIn iE x
  have hmem : ∀ (k : Fin N), ∀ i ∈ jobsPure N (List.range A.wIns.length) k.val, i < A.wIns.length :=
    fun k i hi => List.mem_range.1 (mem_jobsPure hN _ k.isLt hi)
  have hcover : ∀ i < A.wIns.length, ∃ k : Fin N, i ∈ jobsPure N (List.range A.wIns.length) k.val := by
    intro i hi
    have := (jobsPure_perm hN (List.range A.wIns.length)).mem_iff.2 (List.mem_range.2 hi)
    obtain ⟨r, hr, hir⟩ := List.mem_flatMap.1 this
    exact ⟨⟨r, List.mem_range.1 hr⟩, hir⟩
  have hprog : ∀ k : Fin N, rixsLocalEnergies A mode tOpsOut k.val N (List.replicate tOpsOut.length 0) e sys (st k)
      = Prog.loop (localBody A mode tOpsOut k.val N e sys) (jobsPure N (List.range A.wIns.length) k.val)
        ([], [c k], (st k).hGround) := by
    intro k
    unfold rixsLocalEnergies
    rw [getJobTasks_eq k.isLt, hheap k]
    rfl
  have hgs : ∀ k, (st k).gs = x.root := fun k => by rw [hrel.gs k]; simp [hm]
  have hloc := fun k : Fin N => localLoop_cases hA hm (rank := k.val) (ranks := N) ho e hsys
    (jobsPure N (List.range A.wIns.length) k.val) (hmem k) [] (c k) (st k).hGround (hcache k) (hrel.gr k)
  by_cases hbad : ∃ w ∈ A.wIns, ∃ err, rixsPoint A tOpsOut sys e w = .error err
  · right
    refine ⟨herr hbad, ?_⟩
    obtain ⟨w, hw, err, he⟩ := hbad
    obtain ⟨i, hi, rfl⟩ := List.getElem_of_mem hw
    obtain ⟨k, hk⟩ := hcover i hi
    obtain ⟨err', hf⟩ := (hloc k).2 ⟨i, hk, hi, err, he⟩
    refine RunsToFail.awaits (r := k) (e := err') ?_ fun q _ => ?_
    · unfold rixsScattered
      rw [hprog k, hf]; rfl
    · exact Prog.Awaits.bind_right _ fun g => (gatherRixs_awaits iE tIn _ (List.mem_range.2 k.isLt) _).bind _
  · left
    have hall : ∀ i, ∃ r, ∀ h : i < A.wIns.length, rixsPoint A tOpsOut sys e A.wIns[i] = .ok r := by
      intro i
      by_cases hi : i < A.wIns.length
      · cases hp : rixsPoint A tOpsOut sys e A.wIns[i] with
        | ok r => exact ⟨r, fun _ => hp⟩
        | error err => exact absurd ⟨_, List.getElem_mem hi, err, hp⟩ hbad
      · exact ⟨([], []), fun h => absurd h hi⟩
    choose F hF using hall
    have := fun k : Fin N => (hloc k).1 F (fun i _ h => hF i h) (by simp)
    choose d c' hG' h1 h2 h3 h4 h5 using this
    obtain ⟨done', hdec, hiff, hruns⟩ := gatherRixs_runs x.root iE tIn (fun i => (F i).1) d h3 (List.range N)
      (fun r hr => List.mem_range.1 hr) (fun _ => False)
    rw [putAll_none] at hruns
    have hdone : ∀ a, done' a ↔ a < A.wIns.length := by
      intro a
      rw [hiff]
      constructor
      · rintro (h | ⟨k, -, hk⟩)
        · exact h.elim
        · rcases (h4 k a).1 hk with h | h
          · simp [Dict.keys] at h
          · exact hmem k a h
      · intro ha
        obtain ⟨k, hk⟩ := hcover a ha
        exact Or.inr ⟨k, List.mem_range.2 k.isLt, (h4 k a).2 (Or.inr hk)⟩
    have hval : x.root.putAll iE tIn (fun i => (F i).1) done'
        = x.root.putAll iE tIn (fun i => (F i).1) (· < A.wIns.length) := putAll_congr _ _ _ hdone (fun _ _ => rfl)
    rw [hval] at hruns
    refine ⟨_, hok F hF, fun k => { st k with
      gs := x.root.putAll iE tIn (fun i => (F i).1) (· < A.wIns.length), heap := [c' k], hGround := hG' k },
      ⟨fun k => by simp [hm], hrel.exc, hrel.excDis, ⟨c', fun _ => rfl, h1, fun h => absurd h hm⟩, h2,
        fun h => absurd h hm⟩,
      Runs.congr (Runs.bind hruns (f := fun k gs => .ret { st k with gs := gs, heap := [c' k], hGround := hG' k })
        (.ret fun k => rfl)) (fun k => ?_) fun _ => rfl⟩
    unfold rixsScattered
    rw [hprog k, h5 k, hgs k]
    rfl

/-! ### Eigenstates -/

/-- The maps and `tIn_big` after one more eigenstate. -/
def refRixsBody (A : RixsArgs) (tOpsOut : List (Op ℕ ℂ)) (psis : List (Psi ℂ)) (es : List ℝ) (tIn : ℕ) (tOpIn : Op ℕ ℂ)
    (x : RefRixs × OpResult ℂ) (iE : ℕ) : Py (RefRixs × OpResult ℂ) := do
  let psi ← pyGet psis (iE : ℤ)
  let e ← pyGet es (iE : ℤ)
  let (psi1, big) ← applyOp A.n tOpIn psi A.slaterWeightMin A.restrictions (some x.2)
  let sys ← rixsSystem A psi1
  let m ← refEnergies A tOpsOut sys e tIn iE x.1
  return (m, big.getD [])

/-- The accumulators of the ranks in the loop over eigenstates. -/
def RixsBodyRel (A : RixsArgs) (mode : RixsMode) (tOpsOut : List (Op ℕ ℂ)) (tOpIn : Op ℕ ℂ) {N : ℕ}
    (x : RefRixs × OpResult ℂ) (acc : Fin N → RixsState × OpResult ℂ) : Prop :=
  StRel A mode tOpsOut x.1 (fun k => (acc k).1) ∧ CacheCorrect A.n tOpIn A.slaterWeightMin A.restrictions x.2 ∧
  ∀ k, (acc k).2 = x.2

theorem rixsBody_dichotomy {N : ℕ} (hN : 0 < N) {A : RixsArgs} (hA : A.Valid) {mode : RixsMode}
    {tOpsOut : List (Op ℕ ℂ)} (ho : OutOps A tOpsOut) {psis : List (Psi ℂ)} {es : List ℝ}
    (hlen : es.length ≤ psis.length) (hpsis : ∀ psi ∈ psis, IsState A.n psi) {tOpIn : Op ℕ ℂ} (ht : OpInSystem A.n tOpIn)
    (ord : Fin N → List ℕ → SetOrders) (hord : ∀ k l, (ord k l).Valid) (tIn : ℕ) {iE : ℕ} (hi : iE < es.length)
    (x : RefRixs × OpResult ℂ) (acc : Fin N → RixsState × OpResult ℂ) (hrel : RixsBodyRel A mode tOpsOut tOpIn x acc) :
    (∃ x', refRixsBody A tOpsOut psis es tIn tOpIn x iE = .ok x' ∧ ∃ acc', RixsBodyRel A mode tOpsOut tOpIn x' acc' ∧
      Runs msgSum (fun k : Fin N => rixsEigenState A mode tOpsOut psis es (ord k) k.val N
        (List.replicate tOpsOut.length 0) tIn tOpIn (acc k) iE) acc') ∨
    ((∃ err, refRixsBody A tOpsOut psis es tIn tOpIn x iE = .error err) ∧
      RunsToFail msgSum (fun k : Fin N => rixsEigenState A mode tOpsOut psis es (ord k) k.val N
        (List.replicate tOpsOut.length 0) tIn tOpIn (acc k) iE)) := by
  obtain ⟨hst, hc, hbig⟩ := hrel
  have hi' : iE < psis.length := by omega
  have hpsi := hpsis _ (List.getElem_mem hi')
  obtain ⟨psi1, cache', happ, hc', hex⟩ := applyOp_cached_excited ht hpsi hA.weight A.restrictions hc
  obtain ⟨H, states, y, hnd, hs, -, -, -, hsys, hE', hex', hdis', hruns⟩ := rixsSystem_spec hN hA hex.state mode
    (fun k => ord k [tIn, iE]) (fun k => hord k _) (fun k => (acc k).1.hExcited) hst.exc hst.excDis
  have hruns := hruns tOpIn psis[iE] x.2 cache' happ
  have hsysok : SysOk A (H, ⟨basisIndex (states.map (encBytes A.n)), y⟩) := by
    intro e w
    obtain ⟨psi2, h1, h2, -⟩ := rixsIntermediate_spec A H hnd hs y e w
    exact ⟨psi2, h1, h2⟩
  generalize (H, (⟨basisIndex (states.map (encBytes A.n)), y⟩ : (index : Dict Bytes ℕ) × (Fin index.length → ℂ))) = sys
    at hsys hruns hsysok
  have href : refRixsBody A tOpsOut psis es tIn tOpIn x iE = (do
      let m ← refEnergies A tOpsOut sys es[iE] tIn iE x.1
      return (m, cache')) := by
    unfold refRixsBody
    rw [pyGet_ofNat psis iE hi', pyGet_ofNat es iE hi]
    simp only [ok_bind, happ, hsys, Option.getD_some]
  have hst' : StRel A mode tOpsOut x.1 (fun k => { (acc k).1 with hExcited := hE' k }) :=
    ⟨hst.gs, hex', hdis', hst.heap, hst.gr, hst.grDis⟩
  -- the part after the core-hole system
  have hcont : (∃ x', refEnergies A tOpsOut sys es[iE] tIn iE x.1 = .ok x' ∧ ∃ st', StRel A mode tOpsOut x' st' ∧
      Runs msgSum (fun k : Fin N => match mode with
        | .serial | .hBuild => rixsAllEnergies A mode tOpsOut (fun iw t => ord k [tIn, iE, iw, t]) k.val N
            (List.replicate tOpsOut.length 0) tIn iE es[iE] sys { (acc k).1 with hExcited := hE' k }
        | _ => rixsScattered A mode tOpsOut k.val N tIn iE es[iE] sys { (acc k).1 with hExcited := hE' k }) st') ∨
    ((∃ err, refEnergies A tOpsOut sys es[iE] tIn iE x.1 = .error err) ∧
      RunsToFail msgSum (fun k : Fin N => match mode with
        | .serial | .hBuild => rixsAllEnergies A mode tOpsOut (fun iw t => ord k [tIn, iE, iw, t]) k.val N
            (List.replicate tOpsOut.length 0) tIn iE es[iE] sys { (acc k).1 with hExcited := hE' k }
        | _ => rixsScattered A mode tOpsOut k.val N tIn iE es[iE] sys { (acc k).1 with hExcited := hE' k })) := by
    cases mode with
    | serial =>
      exact allEnergies_dichotomy hN hA ho (fun k iw t => ord k [tIn, iE, iw, t]) (fun k i j => hord k _) hsysok
        (es[iE]) tIn iE hst'
    | hBuild =>
      exact allEnergies_dichotomy hN hA ho (fun k iw t => ord k [tIn, iE, iw, t]) (fun k i j => hord k _) hsysok
        (es[iE]) tIn iE hst'
    | wIn => exact scattered_dichotomy hN hA (by decide) ho hsysok (es[iE]) tIn iE hst'
    | hBuildWIn => exact scattered_dichotomy hN hA (by decide) ho hsysok (es[iE]) tIn iE hst'
    | other => exact scattered_dichotomy hN hA (by decide) ho hsysok (es[iE]) tIn iE hst'
  have hprog : ∀ k : Fin N, rixsEigenState A mode tOpsOut psis es (ord k) k.val N
        (List.replicate tOpsOut.length 0) tIn tOpIn (acc k) iE
      = (rixsExcited A mode (ord k [tIn, iE]) k.val N tOpIn psis[iE] x.2 (acc k).1.hExcited).bind fun y =>
        (match mode with
        | .serial | .hBuild => rixsAllEnergies A mode tOpsOut (fun iw t => ord k [tIn, iE, iw, t]) k.val N
            (List.replicate tOpsOut.length 0) tIn iE es[iE] y.1 { (acc k).1 with hExcited := y.2.2 }
        | _ => rixsScattered A mode tOpsOut k.val N tIn iE es[iE] y.1 { (acc k).1 with hExcited := y.2.2 }).bind
        fun st => .ret (st, y.2.1) := by
    intro k
    unfold rixsEigenState
    rw [pyGet_ofNat psis iE hi', pyGet_ofNat es iE hi, hbig k]
    simp only [ok_bind, pure_ok, Prog.lift, Prog.bind]
    congr 1
    funext y
    cases mode <;> simp only [rixsScattered, Prog.bind_assoc] <;> rfl
  rcases hcont with ⟨x', h1, st', h2, h3⟩ | ⟨⟨err, h1⟩, h2⟩
  · left
    refine ⟨(x', cache'), by rw [href, h1]; rfl, fun k => (st' k, cache'), ⟨h2, hc', fun _ => rfl⟩,
      Runs.congr (Runs.bind hruns (Runs.bind h3 (f := fun k st => .ret (st, cache')) (.ret fun _ => rfl))) hprog fun _ => rfl⟩
  · right
    refine ⟨⟨err, by rw [href, h1]; rfl⟩, RunsToFail.congr (RunsToFail.bind_right hruns
      (RunsToFail.bind_left h2 (fun k st => .ret (st, cache')))) hprog⟩

/-! ### The whole function -/

/-- The maps after one more in-coming operator. -/
def refRixsOps (A : RixsArgs) (tOpsOut : List (Op ℕ ℂ)) (psis : List (Psi ℂ)) (es : List ℝ) (x : RefRixs)
    (q : Op ℕ ℂ × ℕ) : Py RefRixs := do
  let r ← (List.range es.length).foldlM (refRixsBody A tOpsOut psis es q.2 q.1) (x, [])
  return r.1

/-- The maps on the root and on the other ranks. -/
def refRixs (A : RixsArgs) (tOpsIn tOpsOut : List (Op ℕ ℂ)) (psis : List (Psi ℂ)) (es : List ℝ) : Py RefRixs :=
  tOpsIn.zipIdx.foldlM (refRixsOps A tOpsOut psis es)
    ⟨fun _ _ _ _ => List.replicate A.wLoss.length 0, fun _ _ _ _ => List.replicate A.wLoss.length 0⟩

theorem rixs_dichotomy {N : ℕ} (hN : 0 < N) {A : RixsArgs} (hA : A.Valid) {mode : RixsMode} (hm : mode ≠ .other)
    {tOpsIn tOpsOut : List (Op ℕ ℂ)} (hin : ∀ op ∈ tOpsIn, OpInSystem A.n op) (ho : OutOps A tOpsOut)
    {psis : List (Psi ℂ)} {es : List ℝ} (hlen : es.length ≤ psis.length) (hpsis : ∀ psi ∈ psis, IsState A.n psi)
    {hGround : Fin N → OpResult ℂ} (hg : GroundOk A mode hGround)
    (ord : Fin N → List ℕ → SetOrders) (hord : ∀ k l, (ord k l).Valid) :
    (∃ x, refRixs A tOpsIn tOpsOut psis es = .ok x ∧ ∃ hG' : Fin N → OpResult ℂ, GroundOk A mode hG' ∧
      Runs msgSum (fun k : Fin N => getRIXSmap A tOpsIn tOpsOut psis es (hGround k) mode (ord k) k.val N)
        (fun k => (if mode = .hBuild ∧ k.val ≠ 0 then x.other else x.root, hG' k))) ∨
    ((∃ err, refRixs A tOpsIn tOpsOut psis es = .error err) ∧
      RunsToFail msgSum (fun k : Fin N => getRIXSmap A tOpsIn tOpsOut psis es (hGround k) mode (ord k) k.val N)) := by
  have key := loop_dichotomy' (N := N) (sum := msgSum)
    (fun k (st : RixsState) (q : Op ℕ ℂ × ℕ) =>
      (Prog.loop (rixsEigenState A mode tOpsOut psis es (ord k) k.val N (List.replicate tOpsOut.length 0) q.2 q.1)
        (List.range es.length) (st, [])).bind fun r => .ret r.1)
    (refRixsOps A tOpsOut psis es) (StRel A mode tOpsOut) tOpsIn.zipIdx
    ⟨fun _ _ _ _ => List.replicate A.wLoss.length 0, fun _ _ _ _ => List.replicate A.wLoss.length 0⟩
    (fun k => ⟨fun _ _ _ _ => List.replicate A.wLoss.length 0, [], [[]], hGround k⟩)
    ⟨fun k => by split <;> rfl, fun _ => columnsExact_nil .., fun _ _ _ _ b hb => by simp at hb,
      ⟨fun _ => [], fun _ => rfl, fun _ _ _ => correct_nil .., fun _ _ _ => rfl⟩, hg.exact, hg.disjoint⟩
    (by
      rintro ⟨tOpIn, tIn⟩ hq x st hst
      have htOp : OpInSystem A.n tOpIn := hin tOpIn (List.fst_mem_of_mem_zipIdx hq)
      have inner := loop_dichotomy' (N := N) (sum := msgSum)
        (fun k => rixsEigenState A mode tOpsOut psis es (ord k) k.val N (List.replicate tOpsOut.length 0) tIn tOpIn)
        (refRixsBody A tOpsOut psis es tIn tOpIn) (RixsBodyRel A mode tOpsOut tOpIn)
        (List.range es.length) (x, []) (fun k => (st k, [])) ⟨hst, correct_nil .., fun _ => rfl⟩
        (fun i hi x acc hrel => rixsBody_dichotomy hN hA ho hlen hpsis htOp ord hord tIn (List.mem_range.1 hi) x acc hrel)
      rcases inner with ⟨x', h1, acc', ⟨h2, -, -⟩, h3⟩ | ⟨⟨err, h1⟩, h2⟩
      · left
        refine ⟨x'.1, ?_, fun k => (acc' k).1, h2, Runs.bind h3 (.ret fun _ => rfl)⟩
        unfold refRixsOps
        simp only [h1, ok_bind, pure_ok]
      · right
        refine ⟨⟨err, ?_⟩, RunsToFail.bind_left h2 _⟩
        unfold refRixsOps
        simp only [h1]; rfl)
  have hprog : ∀ k : Fin N, getRIXSmap A tOpsIn tOpsOut psis es (hGround k) mode (ord k) k.val N
      = (Prog.loop (fun (st : RixsState) (q : Op ℕ ℂ × ℕ) =>
      (Prog.loop (rixsEigenState A mode tOpsOut psis es (ord k) k.val N (List.replicate tOpsOut.length 0) q.2 q.1)
        (List.range es.length) (st, [])).bind fun r => .ret r.1) tOpsIn.zipIdx
        ⟨fun _ _ _ _ => List.replicate A.wLoss.length 0, [], [[]], hGround k⟩).bind fun st => .ret (st.gs, st.hGround) := by
    intro k
    unfold getRIXSmap
    cases mode <;> first | exact absurd rfl hm | rfl
  rcases key with ⟨x', h1, acc', h2, h3⟩ | ⟨h1, h2⟩
  · left
    refine ⟨x', h1, fun k => (acc' k).hGround, ⟨h2.gr, h2.grDis⟩, Runs.congr (Runs.bind h3
      (f := fun k st => .ret (st.gs, st.hGround)) (out' := fun k => ((acc' k).gs, (acc' k).hGround))
      (.ret fun _ => rfl)) hprog fun k => ?_⟩
    rw [h2.gs k]
  · right
    exact ⟨h1, RunsToFail.congr (RunsToFail.bind_left h2 (fun k st => .ret (st.gs, st.hGround))) hprog⟩

end

end Verif
