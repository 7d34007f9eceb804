/-
C44: the rows of getRIXSmap.  C60: getRIXSmap on any number of ranks and in any mode.
C61: what getRIXSmap computes.
-/
import Verif.Lemmas.RixsFirst

namespace Verif

open Finset Mpi Psr Spec Matrix

noncomputable section

variable {A : RixsArgs} (hA : A.Valid) {tOpsIn tOpsOut : List (Op ℕ ℂ)} (hin : ∀ op ∈ tOpsIn, OpInSystem A.n op)
  (ho : OutOps A tOpsOut) {psis : List (Psi ℂ)} {es : List ℝ} (hlen : es.length ≤ psis.length)
  (hpsis : ∀ psi ∈ psis, IsState A.n psi)

/-! ### C60 -/

include hA hin ho hlen hpsis in
/-- C60.  Either there is one map that all ranks have in the modes `serial`, `wIn` and
`H_build_wIn`, and rank 0 has in mode `H_build`, for every number of ranks, every
schedule, all orders of the sets and all exact parts of `h_dict_ground`; or in no such
run all ranks finish.  `OutOps` asks that no matrix element of the first out-going
operator is below `slaterWeightMin`. -/
theorem C60_ranks_and_modes :
    (∃ gs other : RixsMap, ∀ (N : ℕ), 0 < N → ∀ mode : RixsMode, mode ≠ .other →
      ∀ hGround : Fin N → OpResult ℂ, GroundOk A mode hGround → ∀ ord : Fin N → List ℕ → SetOrders,
      (∀ k l, (ord k l).Valid) → ∃ hG' : Fin N → OpResult ℂ, GroundOk A mode hG' ∧
        AllRanksFinish msgSum
          (fun k : Fin N => getRIXSmap A tOpsIn tOpsOut psis es (hGround k) mode (ord k) k.val N)
          (fun k => (if mode = .hBuild ∧ k.val ≠ 0 then other else gs, hG' k))) ∨
    (∀ (N : ℕ), 0 < N → ∀ mode : RixsMode, mode ≠ .other →
      ∀ hGround : Fin N → OpResult ℂ, GroundOk A mode hGround → ∀ ord : Fin N → List ℕ → SetOrders,
      (∀ k l, (ord k l).Valid) → ∀ out, ¬ CanFinish msgSum
        (fun k : Fin N => getRIXSmap A tOpsIn tOpsOut psis es (hGround k) mode (ord k) k.val N) out) := by
  cases hr : refRixs A tOpsIn tOpsOut psis es with
  | ok x =>
    left
    refine ⟨x.root, x.other, fun N hN mode hm hG hg ord hord => ?_⟩
    rcases rixs_dichotomy hN hA hm hin ho hlen hpsis hg ord hord with ⟨y, hy, hG', hg', hrun⟩ | ⟨⟨err, he⟩, -⟩
    · rw [hr] at hy
      cases hy
      exact ⟨hG', hg', hrun.allRanksFinish⟩
    · rw [hr] at he
      cases he
  | error err =>
    right
    intro N hN mode hm hG hg ord hord out
    rcases rixs_dichotomy hN hA hm hin ho hlen hpsis hg ord hord with ⟨y, hy, -⟩ | ⟨-, hf⟩
    · rw [hr] at hy
      cases hy
    · exact hf.not_canFinish out

/-- C60.  A mode that is none of the four known ones is accepted: all ranks return zeros. -/
theorem C60_unknown_mode (A : RixsArgs) (tOpsIn tOpsOut : List (Op ℕ ℂ)) (psis : List (Psi ℂ)) (es : List ℝ) {N : ℕ}
    (hGround : Fin N → OpResult ℂ) (ord : Fin N → List ℕ → SetOrders) :
    AllRanksFinish msgSum (fun k : Fin N => getRIXSmap A tOpsIn tOpsOut psis es (hGround k) .other (ord k) k.val N)
      (fun k => (fun _ _ _ _ => List.replicate A.wLoss.length 0, hGround k)) := by
  have h : Runs msgSum (fun k : Fin N => getRIXSmap A tOpsIn tOpsOut psis es (hGround k) .other (ord k) k.val N)
      (fun k => ((fun _ _ _ _ => List.replicate A.wLoss.length 0 : RixsMap), hGround k)) := Runs.ret fun _ => rfl
  exact h.allRanksFinish

/-! ### C44 -/

include hA hin ho hlen hpsis in
/-- When all ranks finish, the maps are those of `refRixs`. -/
theorem rixs_value {N : ℕ} (hN : 0 < N) {mode : RixsMode} (hm : mode ≠ .other) {hGround : Fin N → OpResult ℂ}
    (hg : GroundOk A mode hGround) {ord : Fin N → List ℕ → SetOrders} (hord : ∀ k l, (ord k l).Valid)
    {out : Fin N → RixsMap × OpResult ℂ} (hfin : CanFinish msgSum
      (fun k : Fin N => getRIXSmap A tOpsIn tOpsOut psis es (hGround k) mode (ord k) k.val N) out) :
    ∃ x, refRixs A tOpsIn tOpsOut psis es = .ok x ∧
      ∀ k, (out k).1 = if mode = .hBuild ∧ k.val ≠ 0 then x.other else x.root := by
  rcases rixs_dichotomy hN hA hm hin ho hlen hpsis hg ord hord with ⟨x, hx, hG', -, hrun⟩ | ⟨-, hf⟩
  · refine ⟨x, hx, fun k => ?_⟩
    rw [hrun.allRanksFinish.unique hfin]
  · exact absurd hfin (hf.not_canFinish out)

include hA hin ho hlen hpsis in
/-- C44.  All out-going operators get the row of the first one, on every rank and in
every mode. -/
theorem C44_all_rows_equal {N : ℕ} (hN : 0 < N) {mode : RixsMode} (hm : mode ≠ .other)
    {hGround : Fin N → OpResult ℂ} (hg : GroundOk A mode hGround) {ord : Fin N → List ℕ → SetOrders}
    (hord : ∀ k l, (ord k l).Valid) {out : Fin N → RixsMap × OpResult ℂ} (hfin : CanFinish msgSum
      (fun k : Fin N => getRIXSmap A tOpsIn tOpsOut psis es (hGround k) mode (ord k) k.val N) out)
    (k : Fin N) (a b c d : ℕ) (hc : c < tOpsOut.length) : (out k).1 a b c d = (out k).1 a b 0 d := by
  obtain ⟨x, hx, hout⟩ := rixs_value hA hin ho hlen hpsis hN hm hg hord hfin
  obtain ⟨hv1, hv2⟩ := refRixs_value hA hin hlen hpsis hx
  rw [hout k]
  have key : x.root a b c d = x.root a b 0 d ∧ x.other a b c d = x.other a b 0 d := by
    by_cases h : a < es.length ∧ b < tOpsIn.length ∧ d < A.wIns.length
    · obtain ⟨r, ⟨psi1, big, big', sys, -, -, -, hp⟩, hr⟩ := hv1 a h.1 b h.2.1 d h.2.2
      match tOpsOut, hc with
      | op0 :: rest, hc =>
        obtain ⟨psi2, g, -, -, h1, h2⟩ := rixsPoint_rows hp
        rw [(hr c).1, (hr 0).1, (hr c).2, (hr 0).2, h1, h2]
        simp only [List.getD_eq_getElem?_getD, List.getElem?_replicate]
        simp only [if_pos hc, if_pos (show 0 < (op0 :: rest).length by simp)]
        exact ⟨trivial, trivial⟩
    · have := fun c => hv2 a b c d h
      rw [(this c).1, (this 0).1, (this c).2, (this 0).2]
      exact ⟨rfl, rfl⟩
  split
  · exact key.2
  · exact key.1

include hA hin hlen hpsis in
/-- C44 holds of the first out-going operator: its rows are those of the map with this
operator alone, and the two maps are finished in the same cases.  Missing: the other
out-going operators, for which the claim is false (`C44_violated`). -/
theorem C44_first_operator_partial {op0 : Op ℕ ℂ} {rest : List (Op ℕ ℂ)} (ho0 : OutOps A [op0])
    {N N' : ℕ} (hN : 0 < N) (hN' : 0 < N')
    {mode mode' : RixsMode} (hm : mode ≠ .other) (hm' : mode' ≠ .other)
    {hGround : Fin N → OpResult ℂ} (hg : GroundOk A mode hGround)
    {hGround' : Fin N' → OpResult ℂ} (hg' : GroundOk A mode' hGround')
    {ord : Fin N → List ℕ → SetOrders} (hord : ∀ k l, (ord k l).Valid)
    {ord' : Fin N' → List ℕ → SetOrders} (hord' : ∀ k l, (ord' k l).Valid) :
    ((∃ out, CanFinish msgSum
        (fun k : Fin N => getRIXSmap A tOpsIn (op0 :: rest) psis es (hGround k) mode (ord k) k.val N) out) ↔
      ∃ out', CanFinish msgSum
        (fun k : Fin N' => getRIXSmap A tOpsIn [op0] psis es (hGround' k) mode' (ord' k) k.val N') out') ∧
    ∀ out out', CanFinish msgSum
        (fun k : Fin N => getRIXSmap A tOpsIn (op0 :: rest) psis es (hGround k) mode (ord k) k.val N) out →
      CanFinish msgSum
        (fun k : Fin N' => getRIXSmap A tOpsIn [op0] psis es (hGround' k) mode' (ord' k) k.val N') out' →
      ∀ k k', (mode = .hBuild → k.val = 0) → (mode' = .hBuild → k'.val = 0) → ∀ a b d,
        (out k).1 a b 0 d = (out' k').1 a b 0 d := by
  have ho1 : OutOps A (op0 :: rest) := ho0
  have key := refRixs_first A tOpsIn op0 rest psis es
  have hd := rixs_dichotomy hN hA hm hin ho1 hlen hpsis hg ord hord
  have hd' := rixs_dichotomy hN' hA hm' hin ho0 hlen hpsis hg' ord' hord'
  constructor
  · rcases key with ⟨x, y, h1, h2, -⟩ | ⟨e1, e2, h1, h2⟩
    · rcases hd with ⟨_, -, _, -, hr⟩ | ⟨⟨err, he⟩, -⟩
      · rcases hd' with ⟨_, -, _, -, hr'⟩ | ⟨⟨err, he⟩, -⟩
        · exact ⟨fun _ => ⟨_, hr'.allRanksFinish.canFinish⟩, fun _ => ⟨_, hr.allRanksFinish.canFinish⟩⟩
        · rw [h2] at he; cases he
      · rw [h1] at he; cases he
    · rcases hd with ⟨_, hx, -⟩ | ⟨-, hf⟩
      · rw [h1] at hx; cases hx
      · rcases hd' with ⟨_, hx, -⟩ | ⟨-, hf'⟩
        · rw [h2] at hx; cases hx
        · exact ⟨fun ⟨o, h⟩ => absurd h (hf.not_canFinish o), fun ⟨o, h⟩ => absurd h (hf'.not_canFinish o)⟩
  · intro out out' hfin hfin' k k' hk hk' a b d
    obtain ⟨x, hx, hout⟩ := rixs_value hA hin ho1 hlen hpsis hN hm hg hord hfin
    obtain ⟨y, hy, hout'⟩ := rixs_value hA hin ho0 hlen hpsis hN' hm' hg' hord' hfin'
    rw [hx, hy] at key
    rcases key with ⟨_, _, h1, h2, hs⟩ | ⟨_, _, h1, _⟩
    · cases h1
      cases h2
      rw [hout k, hout' k', if_neg fun h => h.2 (hk h.1), if_neg fun h => h.2 (hk' h.1)]
      exact (hs a b d).1
    · cases h1

/-! ### C61 -/

theorem ampl_rixsOutState {tOp : Op ℕ ℂ} (ht : OpInSystem A.n tOp) {psi : Psi ℂ} (hpsi : IsState A.n psi) :
    ampl A.n (rixsOutState A tOp psi) = transition A.n tOp A.slaterWeightMin A.restrictions (ampl A.n psi) := by
  funext S
  unfold transition rixsOutState
  by_cases hS : S ⊆ range A.n
  · rw [ampl_applyOpPure ht hpsi _ _ hS]
    simp only [hS, true_and]
  · rw [if_neg (fun h => hS h.1)]
    unfold ampl
    rw [if_neg hS]

theorem cached_excitation (hA : A.Valid) {op : Op ℕ ℂ} (hop : OpInSystem A.n op) (hlarge : A.Large op) {psi : Psi ℂ}
    (hpsi : IsState A.n psi) {big : OpResult ℂ} (hc : CacheCorrect A.n op A.slaterWeightMin A.restrictions big)
    {psi1 : Psi ℂ} {big' : OpResult ℂ}
    (h1 : applyOp A.n op psi A.slaterWeightMin A.restrictions (some big) = .ok (psi1, some big')) :
    ampl A.n psi1 = excitation A.n op A.slaterWeightMin A.restrictions psi := by
  obtain ⟨p, q, c, hp, hq, heq⟩ := C16_cache_transparent_step_partial A.n _ hop _ hpsi _ hA.weight A.restrictions big hc
    fun T hT _ _ => hlarge T hT
  rw [applyOp_eq hop hpsi] at hp
  rw [h1] at hq
  cases hp
  cases hq
  rw [← ampl_congr heq]
  exact ampl_transitionState (A := A.spectra) hop hpsi

/-- The first row at one energy, in Fock space. -/
theorem rixsPoint_meaning (hA : A.Valid) (hdict : Dict.NodupKeys A.hOp) (hh : isHermitianOp A.hOp)
    (hd1 : A.delta1 ≠ 0) (hsolve : ExactSolver A.solve) {op0 : Op ℕ ℂ} (hop0 : OpInSystem A.n op0)
    {psi1 : Psi ℂ} (hE : Excited A.n A.slaterWeightMin A.restrictions psi1) {sys : RixsSys}
    (hsys : rixsSystem A psi1 = .ok sys) {e w : ℝ} {psi2 : Psi ℂ}
    (h2 : rixsIntermediate A sys.1 sys.2.1 sys.2.2 e w = .ok psi2) {g : List ℂ}
    (hg : rixsRow A e (rixsOutState A op0 psi2) = .ok g)
    (hT : ∀ x, Solves A.n (hamiltonian A.n A.hOp A.cut A.restrictions)
        ((w : ℂ) + Complex.I * (A.delta1 : ℂ) + (e : ℂ)) (ampl A.n psi1) x →
      NoneDropped A.n A.slaterWeightMin (transition A.n op0 A.slaterWeightMin A.restrictions x) ∧
      ¬ LinearIndependent ℂ (fun i : Fin (A.krylovSize + 1) =>
        (hamiltonian A.n A.hOp A.cut A.restrictions)^[i.val]
          (transition A.n op0 A.slaterWeightMin A.restrictions x))) :
    List.Forall₂ (fun (v : ℝ) y => IsRixs A.n (hamiltonian A.n A.hOp A.cut A.restrictions)
      ((w : ℂ) + Complex.I * (A.delta1 : ℂ) + (e : ℂ)) ((v : ℂ) + Complex.I * (A.delta2 : ℂ) + (e : ℂ))
      (ampl A.n psi1) (transition A.n op0 A.slaterWeightMin A.restrictions) y) A.wLoss g := by
  obtain ⟨hst, hsol⟩ := intermediate_solves hA hdict hh hd1 hsolve hE hsys h2
  obtain ⟨hn, hk⟩ := hT _ hsol
  rw [← ampl_rixsOutState hop0 hst] at hn hk
  have hex : Excited A.n A.slaterWeightMin A.restrictions (rixsOutState A op0 psi2) :=
    applyOp_excited hop0 hst hA.weight A.restrictions
  rw [rixsRow_eq_spectrum hA hex hn] at hg
  have hm := spectrumOf_meaning (A := A.spectra) hA.spectra hdict hh hex e hk hg
  have hz : ((w : ℂ) + Complex.I * (A.delta1 : ℂ) + (e : ℂ)).im ≠ 0 := by simpa using hd1
  refine hm.imp fun v y hy => ⟨_, hsol, fun u hu => solves_unique hA.hop hdict hh A.restrictions hz hsol hu, ?_⟩
  rw [← ampl_rixsOutState hop0 hst]
  exact hy

include hA hin hlen hpsis in
/-- C61.  In every run that finishes, on every rank (in mode `H_build`: on rank 0), the
row of the first out-going operator `T'` holds
`⟨x| T'⁺ (wLoss + i delta2 + e - H)⁻¹ T' |x⟩` with
`x = (wIn + i delta1 + e - H)⁻¹ T |psi⟩`.  The linear solver is assumed to
solve systems with an invertible matrix; `krylovSize` exhausts the Krylov space of
`T' x`; and normalising `T' x` does not push an amplitude below `slaterWeightMin`. -/
theorem C61_rixs (hdict : Dict.NodupKeys A.hOp) (hh : isHermitianOp A.hOp) (hd1 : A.delta1 ≠ 0)
    (hsolve : ExactSolver A.solve) {op0 : Op ℕ ℂ} {rest : List (Op ℕ ℂ)} (ho0 : OutOps A (op0 :: rest))
    {N : ℕ} (hN : 0 < N) {mode : RixsMode} (hm : mode ≠ .other)
    {hGround : Fin N → OpResult ℂ} (hg : GroundOk A mode hGround) {ord : Fin N → List ℕ → SetOrders}
    (hord : ∀ k l, (ord k l).Valid) {out : Fin N → RixsMap × OpResult ℂ} (hfin : CanFinish msgSum
      (fun k : Fin N => getRIXSmap A tOpsIn (op0 :: rest) psis es (hGround k) mode (ord k) k.val N) out)
    (k : Fin N) (hk : mode = .hBuild → k.val = 0) (a b d : ℕ) (ha : a < es.length) (hb : b < tOpsIn.length)
    (hd : d < A.wIns.length) (hlarge : A.Large tOpsIn[b])
    (hT : ∀ x, Solves A.n (hamiltonian A.n A.hOp A.cut A.restrictions)
        ((A.wIns[d] : ℂ) + Complex.I * (A.delta1 : ℂ) + (es[a] : ℂ))
        (excitation A.n tOpsIn[b] A.slaterWeightMin A.restrictions psis[a]) x →
      NoneDropped A.n A.slaterWeightMin (transition A.n op0 A.slaterWeightMin A.restrictions x) ∧
      ¬ LinearIndependent ℂ (fun i : Fin (A.krylovSize + 1) =>
        (hamiltonian A.n A.hOp A.cut A.restrictions)^[i.val]
          (transition A.n op0 A.slaterWeightMin A.restrictions x))) :
    List.Forall₂ (fun (v : ℝ) y => IsRixs A.n (hamiltonian A.n A.hOp A.cut A.restrictions)
      ((A.wIns[d] : ℂ) + Complex.I * (A.delta1 : ℂ) + (es[a] : ℂ)) ((v : ℂ) + Complex.I * (A.delta2 : ℂ) + (es[a] : ℂ))
      (excitation A.n tOpsIn[b] A.slaterWeightMin A.restrictions psis[a])
      (transition A.n op0 A.slaterWeightMin A.restrictions) y) A.wLoss ((out k).1 a b 0 d) := by
  obtain ⟨x, hx, hout⟩ := rixs_value hA hin ho0 hlen hpsis hN hm hg hord hfin
  rw [hout k, if_neg fun h => h.2 (hk h.1)]
  obtain ⟨r, ⟨psi1, big, big', sys, hc, h1, hsys, hp⟩, hr⟩ := (refRixs_value hA hin hlen hpsis hx).1 a ha b hb d hd
  obtain ⟨psi2, g, h2, hrow, hr1, -⟩ := rixsPoint_rows hp
  have hap : a < psis.length := lt_of_lt_of_le ha hlen
  have hpsi : IsState A.n psis[a] := hpsis _ (List.getElem_mem _)
  have hop : OpInSystem A.n tOpsIn[b] := hin _ (List.getElem_mem _)
  rw [List.getD_eq_getElem _ _ hap] at h1
  rw [List.getD_eq_getElem _ _ ha] at h2 hrow
  rw [(hr 0).1, hr1]
  have hex : Excited A.n A.slaterWeightMin A.restrictions psi1 := by
    obtain ⟨p, c, hp, -, hex⟩ := applyOp_cached_excited hop hpsi hA.weight A.restrictions hc
    rw [h1] at hp
    cases hp
    exact hex
  have hampl := cached_excitation hA hop hlarge hpsi hc h1
  rw [← hampl] at hT ⊢
  exact rixsPoint_meaning hA hdict hh hd1 hsolve (ho0 op0 rfl).1 hex hsys h2 hrow hT

/-! ### Non-vacuity: one spin-orbital -/

/-- A level. -/
def exLevel : Op ℕ ℤ := [([(0, .c), (0, .a)], 3)]

/-- Removal of the electron. -/
def exRemove (m : ℤ) : Op ℕ ℤ := [([(0, .a)], m)]

def exRixs : RixsArgs where
  n := 1
  hOp := castOp exLevel
  wIns := [3]
  wLoss := [0]
  delta1 := 1
  delta2 := 1
  restrictions := none
  krylovSize := 1
  slaterWeightMin := 1 / 2
  cut := 1 / 2
  fuel := 10
  solve := fun _ a y => a⁻¹ *ᵥ y

def exVac : Psi ℂ := [(encBytes 1 ∅, 1)]

theorem exLevel_nodup : Dict.NodupKeys (castOp exLevel) := nodup_castOp (by unfold exLevel; decide)

theorem exLevel_hermitian : isHermitianOp (castOp exLevel) :=
  hermitian_castOp (by
    intro p
    rw [show daggerOp exLevel = exLevel by decide])

theorem exRixs_valid : exRixs.Valid where
  hop := inSystem_castOp (by unfold OpInSystem exLevel; decide)
  cut := by norm_num [exRixs]
  weight := by norm_num [exRixs]
  delta := by norm_num [exRixs]
  krylov := by norm_num [exRixs]
  fuel := by norm_num [exRixs]

theorem exRixs_solver : ExactSolver exRixs.solve := by
  intro d a y ha
  show a *ᵥ (a⁻¹ *ᵥ y) = y
  rw [Matrix.mulVec_mulVec, Matrix.mul_nonsing_inv a ((Matrix.isUnit_iff_isUnit_det a).1 ha), Matrix.one_mulVec]

theorem exVac_states : ∀ psi ∈ [exVac], IsState 1 psi := by
  intro psi h
  rw [List.mem_singleton.1 h]
  exact isState_single (by simp) 1

theorem exAdd_inOne : OpInSystem 1 (castOp exAdd) := inSystem_castOp (by unfold OpInSystem exAdd; decide)

theorem exRixs_large (o : Op ℕ ℤ) : exRixs.Large (castOp o) :=
  fun T _ => noSmall_castOp 1 o (by norm_num [exRixs]) none T

theorem range_one_powerset : (range 1).powerset = ({∅, {0}} : Finset (Finset ℕ)) := by decide

theorem exRixs_hamiltonian (x : Vec ℂ) :
    hamiltonian 1 (castOp exLevel) (1 / 2) none x ∅ = 0 ∧ hamiltonian 1 (castOp exLevel) (1 / 2) none x {0} = 3 * x {0} := by
  have h : ∀ S ⊆ range 1, hamiltonian 1 (castOp exLevel) (1 / 2) none x S
      = ((matrixElement exLevel S ∅ : ℤ) : ℂ) * x ∅ + ((matrixElement exLevel S {0} : ℤ) : ℂ) * x {0} := by
    intro S hS
    unfold hamiltonian
    rw [if_pos hS, range_one_powerset, Finset.sum_insert (by decide), Finset.sum_singleton]
    simp only [column_castOp (cut := 1 / 2) (by norm_num) (by norm_num), if_pos (show AllowedOpt none S from trivial)]
  rw [h _ (by decide), h _ (by decide), show matrixElement exLevel ∅ ∅ = 0 by decide,
    show matrixElement exLevel ∅ {0} = 0 by decide, show matrixElement exLevel {0} ∅ = 0 by decide,
    show matrixElement exLevel {0} {0} = 3 by decide]
  simp

theorem exRixs_excitation : excitation 1 (castOp exAdd) (1 / 2) none exVac = Spec.single {0} 1 := by
  have hel : ∀ S ∈ (range 1).powerset, matrixElement exAdd S ∅ = if S = {0} then 1 else 0 := by decide
  funext S
  unfold excitation exVac
  rw [ampl_single (by simp), operator_single, one_mul, matrixElement_cast]
  by_cases hS : S ⊆ range 1
  · rw [hel S (mem_powerset.2 hS)]
    by_cases h : S = {0}
    · subst h
      rw [if_pos ⟨hS, trivial, by simp [abs2]; norm_num⟩]
      simp [Spec.single]
    · rw [if_neg h]
      simp [Spec.single, h]
  · rw [if_neg fun h => hS h.1]
    have : S ≠ {0} := by rintro rfl; exact hS (by decide)
    simp [Spec.single, this]

theorem exRixs_solution {x : Vec ℂ} (hx : Solves 1 (hamiltonian 1 (castOp exLevel) (1 / 2) none)
    (((3 : ℝ) : ℂ) + Complex.I * ((1 : ℝ) : ℂ) + ((0 : ℝ) : ℂ)) (Spec.single {0} 1) x) : x = Spec.single {0} (-Complex.I) := by
  have h0 := hx.inside ∅ (by simp)
  have h1 := hx.inside {0} (by decide)
  rw [(exRixs_hamiltonian x).1] at h0
  rw [(exRixs_hamiltonian x).2] at h1
  simp [Spec.single] at h0 h1
  funext S
  by_cases hS : S ⊆ range 1
  · have : S ∈ ({∅, {0}} : Finset (Finset ℕ)) := by rw [← range_one_powerset]; exact mem_powerset.2 hS
    simp only [mem_insert, mem_singleton] at this
    rcases this with rfl | rfl
    · have hz : (3 : ℂ) + Complex.I ≠ 0 := fun h => by have := congrArg Complex.im h; simp at this
      rcases h0 with h | h
      · exact absurd h hz
      · rw [h]; simp [Spec.single]
    · simp only [Spec.single, if_true]
      linear_combination (-Complex.I) * h1 + x {0} * Complex.I_mul_I
  · rw [hx.outside S hS]
    have : S ≠ {0} := by rintro rfl; exact hS (by decide)
    simp [Spec.single, this]

/-- The out-going operator removes the electron, with an amplitude. -/
structure Removes (o : Op ℕ ℤ) (m : ℤ) : Prop where
  inSystem : OpInSystem 1 o
  nonzero : m ≠ 0
  elements : ∀ S ∈ (range 1).powerset, matrixElement o S {0} = if S = ∅ then m else 0

theorem removes_one : Removes (exRemove 1) 1 :=
  ⟨by unfold OpInSystem exRemove; decide, by decide, by decide⟩

theorem removes_two : Removes (exRemove 2) 2 :=
  ⟨by unfold OpInSystem exRemove; decide, by decide, by decide⟩

theorem abs2_amplitude (m : ℤ) : abs2 ((m : ℂ) * -Complex.I) = ((m : ℝ) * m : ℝ) := by
  show Complex.normSq _ = _
  rw [Complex.normSq_mul, Complex.normSq_neg, Complex.normSq_I, mul_one, Complex.normSq_intCast]

theorem one_le_sq {m : ℤ} (hm : m ≠ 0) : (1 : ℝ) ≤ (m : ℝ) * m := by
  have : (1 : ℤ) ≤ m * m := by
    rcases lt_or_gt_of_ne hm with h | h <;> nlinarith
  exact_mod_cast this

section
variable {o : Op ℕ ℤ} {m : ℤ} (hr : Removes o m)
include hr

theorem exRixs_operator (S : Finset ℕ) (hS : S ⊆ range 1) :
    operator (opSpec (castOp o)) (Spec.single {0} (-Complex.I)) S = if S = ∅ then (m : ℂ) * -Complex.I else 0 := by
  rw [operator_single, matrixElement_cast, hr.elements S (mem_powerset.2 hS)]
  split <;> simp [mul_comm]

theorem exRixs_transition : transition 1 (castOp o) (1 / 2) none (Spec.single {0} (-Complex.I))
    = Spec.single ∅ ((m : ℂ) * -Complex.I) := by
  funext S
  unfold transition
  by_cases hS : S ⊆ range 1
  · rw [exRixs_operator hr S hS]
    by_cases h : S = ∅
    · subst h
      rw [if_pos rfl, if_pos ⟨hS, trivial, by
        rw [abs2_amplitude]
        exact le_trans (by norm_num) (one_le_sq hr.nonzero)⟩]
      simp [Spec.single]
    · rw [if_neg h]
      simp [Spec.single, h]
  · rw [if_neg fun h => hS h.1]
    have : S ≠ ∅ := by rintro rfl; exact hS (by simp)
    simp [Spec.single, this]

omit hr in
theorem exRixs_smallest (c : ℂ) : SmallestInvariant 1 (castOp exLevel) (1 / 2 : ℝ) none
    {S | S ⊆ range 1 ∧ encBytes 1 S ∈ Dict.keys ([(encBytes 1 ∅, c)] : Psi ℂ)} {S | S ∈ ({∅} : Finset (Finset ℕ))} where
  contains := fun S hS => by
    have : S = ∅ := encBytes_injOn hS.1 (by simp) (by simpa using hS.2)
    simp [this]
  closed := fun T hT S hS hc => by
    have h := ((connects_castOp (by norm_num) (by norm_num)).1 hc).2
    have key : ∀ S ∈ (range 1).powerset, matrixElement exLevel S ∅ = 0 := by decide
    simp only [Set.mem_ofPred_eq, mem_singleton] at hT
    subst hT
    exact absurd (key S (mem_powerset.2 hS)) h
  smallest := fun X hX _ S hS => by
    simp only [Set.mem_ofPred_eq, mem_singleton] at hS
    subst hS
    exact hX ⟨by simp, by simp⟩

theorem exRixs_row {psi2 : Psi ℂ} (hst : IsState 1 psi2) (ha : ampl 1 psi2 = Spec.single {0} (-Complex.I)) :
    ∃ g, rixsRow exRixs 0 (rixsOutState exRixs (castOp o) psi2) = .ok g := by
  have hop := inSystem_castOp hr.inSystem
  have hE : Excited 1 (1 / 2) none (rixsOutState exRixs (castOp o) psi2) :=
    applyOp_excited hop hst exRixs_valid.weight none
  have heq : Dict.Eqv (rixsOutState exRixs (castOp o) psi2) [(encBytes 1 ∅, (m : ℂ) * -Complex.I)] := by
    apply eqv_of_isState hE.state (isState_single (by simp) _)
    intro S hS
    have := uncached_get? 1 (castOp o) hop psi2 hst (1 / 2 : ℝ) (by norm_num) none hS
    rw [ha, exRixs_operator hr S hS] at this
    refine this.trans ?_
    rw [Dict.get?_cons]
    by_cases h : S = ∅
    · subst h
      rw [if_pos rfl, if_pos ⟨trivial, by
        rw [abs2_amplitude]
        exact le_trans (by norm_num) (one_le_sq hr.nonzero)⟩]
      simp
    · have hne : ¬ encBytes 1 (∅ : Finset ℕ) = encBytes 1 S := fun he => h (encBytes_injOn hS (by simp) he.symm)
      rw [if_neg h, if_neg (by simp [abs2])]
      split
      · rename_i he; exact absurd (by simpa using he) hne
      · rfl
  rw [(rixsRow_congr exRixs_valid hE.state (isState_single (by simp) _) heq 0).1]
  have hn : norm2 ([(encBytes 1 ∅, (m : ℂ) * -Complex.I)] : Psi ℂ) = (m : ℝ) * m := by
    unfold norm2
    simp only [List.map_cons, List.map_nil, List.sum_cons, List.sum_nil, add_zero]
    exact abs2_amplitude m
  have hpos : (0 : ℝ) < norm2 ([(encBytes 1 ∅, (m : ℂ) * -Complex.I)] : Psi ℂ) := by
    rw [hn]; exact lt_of_lt_of_le one_pos (one_le_sq hr.nonzero)
  obtain ⟨c, hc⟩ : ∃ c, unit ([(encBytes 1 ∅, (m : ℂ) * -Complex.I)] : Psi ℂ) = [(encBytes 1 ∅, c)] := ⟨_, rfl⟩
  have hu := norm2_unit hpos
  rw [hc] at hu
  have hc1 : abs2 c = (1 : ℝ) := by
    unfold norm2 at hu
    simpa using hu
  unfold rixsRow
  rw [show unit [(encBytes exRixs.n ∅, (m : ℂ) * -Complex.I)] = [(encBytes 1 ∅, c)] from hc, prune_eq_self (by
    intro p hp
    rw [List.mem_singleton.1 hp]
    show (1 / 2 : ℝ) ≤ abs2 c
    rw [hc1]; norm_num)]
  obtain ⟨hre, ht⟩ := C57_raises (n := 1) (op := castOp exLevel) exRixs_valid.hop exLevel_nodup exLevel_hermitian (cut := 1 / 2) (by norm_num) none
    (isState_single (n := 1) (T := ∅) (by simp) c) (fun _ _ _ => trivial) hu {∅} (exRixs_smallest c) 1 10
    (by norm_num) 0 [0] 1 (by norm_num) [] (columnsExact_nil ..)
  rcases ht with ht | ⟨g, h', hg, -, -⟩
  · exfalso
    rcases hre.1 ht with h | h
    · cases h
    · apply h
      rw [show min 1 ({∅} : Finset (Finset ℕ)).card = 1 by decide]
      rw [linearIndependent_unique_iff]
      intro h0
      have := congrFun h0 ∅
      rw [show (default : Fin 1).val = 0 from rfl, Function.iterate_zero, id, ampl_single (by simp)] at this
      simp [Spec.single] at this
      rw [this] at hc1
      simp [abs2] at hc1
  · refine ⟨scaleSpectrum (Real.sqrt (norm2 [(encBytes exRixs.n ∅, (m : ℂ) * -Complex.I)])) g, ?_⟩
    have : getGreen exRixs.n 0 [(encBytes 1 ∅, c)] exRixs.hOp exRixs.wLoss exRixs.delta2 exRixs.krylovSize exRixs.cut
        exRixs.restrictions [] exRixs.fuel = .ok (g, h') := hg
    rw [this]
    rfl

/-- The hypotheses of `C60_ranks_and_modes` and `C61_rixs` are met, and the map is not
zero. -/
theorem exRixs_map (rest : List (Op ℕ ℂ)) : ∀ (N : ℕ), 0 < N → ∀ mode : RixsMode, mode ≠ .other →
    ∀ hGround : Fin N → OpResult ℂ, GroundOk exRixs mode hGround → ∀ ord : Fin N → List ℕ → SetOrders,
      (∀ k l, (ord k l).Valid) → ∃ out, AllRanksFinish msgSum
        (fun k : Fin N => getRIXSmap exRixs [castOp exAdd] (castOp o :: rest) [exVac] [0] (hGround k) mode (ord k) k.val N)
        out ∧ ∀ k, (mode = .hBuild → k.val = 0) → (out k).1 0 0 0 0 = [-Complex.I * (m * m : ℤ)] := by
  intro N hN mode hm hG hg ord hord
  have hin : ∀ op ∈ [castOp exAdd], OpInSystem exRixs.n op := by
    intro op h; rw [List.mem_singleton.1 h]; exact exAdd_inOne
  have ho : OutOps exRixs (castOp o :: rest) := by
    intro op h
    cases h
    exact ⟨inSystem_castOp hr.inSystem, exRixs_large o⟩
  have hok : ∃ x, refRixs exRixs [castOp exAdd] (castOp o :: rest) [exVac] [0] = .ok x := by
    apply refRixs_ok exRixs_valid hin (by simp) exVac_states
    intro op hop a ha w hw psi1 big big' sys hc h1 hex hsys
    obtain rfl := List.mem_singleton.1 hop
    obtain rfl : a = 0 := by simpa using ha
    obtain rfl := List.mem_singleton.1 (show w ∈ [(3 : ℝ)] from hw)
    have hpsi1 := cached_excitation exRixs_valid exAdd_inOne (exRixs_large exAdd) (exVac_states _ (by simp)) hc h1
    obtain ⟨H, states, y, hnd, hs, -, -, -, hsys', -⟩ := rixsSystem_spec (N := 1) (by omega) exRixs_valid hex.state .serial
      (fun _ => ⟨fun _ l => l, fun l => l⟩) (fun _ => ⟨fun _ l => List.Perm.refl l, fun l => List.Perm.refl l⟩)
      (fun _ => []) (fun _ => columnsExact_nil ..) (fun h => h.elim)
    have hse := Except.ok.inj (hsys.symm.trans hsys')
    subst hse
    obtain ⟨psi2, h2, -⟩ := rixsIntermediate_spec exRixs H hnd hs y 0 3
    obtain ⟨hst, hsol⟩ := intermediate_solves exRixs_valid exLevel_nodup exLevel_hermitian (by norm_num [exRixs])
      exRixs_solver hex hsys h2
    rw [hpsi1] at hsol
    have hx := exRixs_solution (by rw [← exRixs_excitation]; exact hsol)
    obtain ⟨g, hg⟩ := exRixs_row hr hst hx
    refine ⟨(List.replicate (castOp o :: rest).length g, rixsOtherRows exRixs (castOp o :: rest) 0 psi2), ?_⟩
    unfold rixsPoint
    rw [List.getElem_cons_zero, h2]
    simp only [ok_bind, rixsRows]
    rw [hg]
    rfl
  obtain ⟨x, hx⟩ := hok
  rcases rixs_dichotomy hN exRixs_valid hm hin ho (es := [0]) (by simp) exVac_states hg ord hord with
    ⟨_, -, hG', -, hrun⟩ | ⟨⟨err, he⟩, -⟩
  rotate_left
  · rw [hx] at he; cases he
  refine ⟨_, hrun.allRanksFinish, fun k hk => ?_⟩
  have := C61_rixs exRixs_valid hin (es := [0]) (by simp) exVac_states exLevel_nodup exLevel_hermitian (by norm_num [exRixs])
    exRixs_solver ho hN hm hg hord hrun.allRanksFinish.canFinish k hk 0 0 0 (by simp) (by simp) (by simp [exRixs])
    (exRixs_large exAdd) (by
      intro x hx
      have hx' := exRixs_solution (x := x) (by rw [← exRixs_excitation]; exact hx)
      subst hx'
      have ht : transition exRixs.n (castOp o) exRixs.slaterWeightMin exRixs.restrictions (Spec.single {0} (-Complex.I))
        = Spec.single ∅ ((m : ℂ) * -Complex.I) := exRixs_transition hr
      rw [ht]
      constructor
      · intro S hS
        by_cases h : S = ∅
        · right
          subst h
          show (1 / 2 : ℝ) * ∑ T ∈ (range 1).powerset, _ ≤ _
          rw [range_one_powerset, Finset.sum_insert (by decide), Finset.sum_singleton]
          simp only [Spec.single, if_true]
          rw [if_neg (by decide), Complex.normSq_zero, add_zero]
          have := Complex.normSq_nonneg ((m : ℂ) * -Complex.I)
          linarith
        · left; simp [Spec.single, h]
      · intro hli
        have h1 := hli.ne_zero (⟨1, by simp [exRixs]⟩ : Fin (exRixs.krylovSize + 1))
        apply h1
        show hamiltonian 1 (castOp exLevel) (1 / 2) none (Spec.single ∅ ((m : ℂ) * -Complex.I)) = 0
        funext S
        by_cases hS : S ⊆ range 1
        · have : S ∈ ({∅, {0}} : Finset (Finset ℕ)) := by rw [← range_one_powerset]; exact mem_powerset.2 hS
          simp only [mem_insert, mem_singleton] at this
          rcases this with rfl | rfl
          · exact (exRixs_hamiltonian _).1
          · rw [(exRixs_hamiltonian _).2]; simp [Spec.single]
        · unfold hamiltonian; rw [if_neg hS]; rfl)
  dsimp only at this ⊢
  generalize (if mode = .hBuild ∧ k.val ≠ 0 then _ else _ : RixsMap) 0 0 0 0 = row at this ⊢
  rw [show exRixs.wLoss = [0] from rfl] at this
  obtain ⟨y, l, ⟨x, hsx, -, u, hu, -, hy⟩, hl, rfl⟩ := List.forall₂_cons_left_iff.1 this
  rw [List.forall₂_nil_left_iff.1 hl]
  have hx' := exRixs_solution (x := x) (by rw [← exRixs_excitation]; exact hsx)
  subst hx'
  have ht : transition exRixs.n (castOp o) exRixs.slaterWeightMin exRixs.restrictions (Spec.single {0} (-Complex.I))
    = Spec.single ∅ ((m : ℂ) * -Complex.I) := exRixs_transition hr
  rw [ht] at hu hy
  have h0 : (((0 : ℝ) : ℂ) + Complex.I * ((1 : ℝ) : ℂ) + (([0] : List ℝ)[0] : ℂ)) * u ∅
      - hamiltonian 1 (castOp exLevel) (1 / 2) none u ∅ = Spec.single ∅ ((m : ℂ) * -Complex.I) ∅ := hu.inside ∅ (by simp)
  rw [(exRixs_hamiltonian u).1] at h0
  simp [Spec.single] at h0
  have hy' : y = star ((m : ℂ) * -Complex.I) * u ∅ := by
    rw [hy]
    show ∑ S ∈ (range 1).powerset, _ = _
    rw [range_one_powerset, Finset.sum_insert (by decide), Finset.sum_singleton]
    simp [Spec.single]
  have hu0 : u ∅ = -(m : ℂ) := by linear_combination (-Complex.I) * h0 + (u ∅ + (m : ℂ)) * Complex.I_mul_I
  rw [hy', hu0]
  simp
  ring

end

/-- C44 is false of the code: with two out-going operators the second row is not that of
the second operator alone, in every mode and on every number of ranks. -/
theorem C44_violated : ∃ (A : RixsArgs) (tOpsIn : List (Op ℕ ℂ)) (op0 op1 : Op ℕ ℂ) (psis : List (Psi ℂ)) (es : List ℝ),
    A.Valid ∧ isHermitianOp A.hOp ∧ ExactSolver A.solve ∧ ∀ (N : ℕ), 0 < N → ∀ mode : RixsMode, mode ≠ .other →
    ∀ hGround : Fin N → OpResult ℂ, GroundOk A mode hGround → ∀ ord : Fin N → List ℕ → SetOrders,
      (∀ k l, (ord k l).Valid) → ∃ out alone,
        AllRanksFinish msgSum
          (fun k : Fin N => getRIXSmap A tOpsIn [op0, op1] psis es (hGround k) mode (ord k) k.val N) out ∧
        AllRanksFinish msgSum
          (fun k : Fin N => getRIXSmap A tOpsIn [op1] psis es (hGround k) mode (ord k) k.val N) alone ∧
        ∀ k, (mode = .hBuild → k.val = 0) → (out k).1 0 0 1 0 ≠ (alone k).1 0 0 0 0 := by
  refine ⟨exRixs, [castOp exAdd], castOp (exRemove 1), castOp (exRemove 2), [exVac], [0], exRixs_valid,
    exLevel_hermitian, exRixs_solver, fun N hN mode hm hG hg ord hord => ?_⟩
  obtain ⟨out, h1, h2⟩ := exRixs_map removes_one [castOp (exRemove 2)] N hN mode hm hG hg ord hord
  obtain ⟨alone, h3, h4⟩ := exRixs_map removes_two [] N hN mode hm hG hg ord hord
  refine ⟨out, alone, h1, h3, fun k hk => ?_⟩
  rw [C44_all_rows_equal exRixs_valid (by
      intro op h; rw [List.mem_singleton.1 h]; exact exAdd_inOne) (by
      intro op h
      cases h
      exact ⟨inSystem_castOp removes_one.inSystem, exRixs_large _⟩) (es := [0]) (by simp) exVac_states hN hm hg hord
    h1.canFinish k 0 0 1 0 (by simp), h2 k hk, h4 k hk]
  intro h
  have := congrArg Complex.im (List.cons.inj h).1
  norm_num at this

end

end Verif
