/-
The loop of getRIXSmap over out-going operators.
-/
import Verif.Lemmas.RixsRef
import Verif.Prop.Spectra

namespace Verif

open Finset Mpi Psr Spec Matrix

noncomputable section

/-- The row of the map for a state `psi3`. -/
def rixsRow (A : RixsArgs) (e : ℝ) (psi3 : Psi ℂ) : Py (List ℂ) := do
  let (g, _) ← getGreen A.n e (prune A.slaterWeightMin (unit psi3)) A.hOp A.wLoss A.delta2 A.krylovSize A.cut
    A.restrictions [] A.fuel
  return scaleSpectrum (Real.sqrt (norm2 psi3)) g

/-- The row on the ranks other than the root in mode `H_build`. -/
def rixsOtherRow (A : RixsArgs) (e : ℝ) (psi3 : Psi ℂ) : List ℂ :=
  if prune A.slaterWeightMin (unit psi3) = [] then List.replicate A.wLoss.length 0
  else scaleSpectrum (Real.sqrt (norm2 psi3)) (otherRanks A.wLoss A.delta2 e)

theorem isState_prune {n : ℕ} {cut : ℝ} {psi : Psi ℂ} (h : IsState n psi) : IsState n (prune cut psi) :=
  ⟨nodupKeys_prune cut psi h.nodup, fun k hk => h.keys k (mem_keys_prune cut psi h.nodup k hk)⟩

theorem eqv_unit {n : ℕ} {p q : Psi ℂ} (hp : IsState n p) (hq : IsState n q) (h : Dict.Eqv p q) :
    Dict.Eqv (unit p) (unit q) := by
  intro k
  rw [get?_unit, get?_unit, h k, norm2_eqv hp hq h]

theorem eqv_prune {n : ℕ} {cut : ℝ} {p q : Psi ℂ} (hp : IsState n p) (hq : IsState n q) (h : Dict.Eqv p q) :
    Dict.Eqv (prune cut p) (prune cut q) := by
  intro k
  rw [get?_prune cut p hp.nodup, get?_prune cut q hq.nodup, h k]

theorem rixsRow_congr {A : RixsArgs} (hA : A.Valid) {p q : Psi ℂ} (hp : IsState A.n p) (hq : IsState A.n q)
    (h : Dict.Eqv p q) (e : ℝ) : rixsRow A e p = rixsRow A e q ∧ rixsOtherRow A e p = rixsOtherRow A e q := by
  have hn := norm2_eqv hp hq h
  have hu := eqv_prune (cut := A.slaterWeightMin) (isState_unit hp) (isState_unit hq) (eqv_unit hp hq h)
  have hg := getGreen_congr hA.hop hA.cut A.restrictions (isState_prune (cut := A.slaterWeightMin) (isState_unit hp))
    (isState_prune (cut := A.slaterWeightMin) (isState_unit hq)) hu hA.fuel e A.wLoss A.delta2
    A.krylovSize (columnsExact_nil ..) (columnsExact_nil ..)
  constructor
  · unfold rixsRow
    rw [hn]
    cases h1 : getGreen A.n e (prune A.slaterWeightMin (unit p)) A.hOp A.wLoss A.delta2 A.krylovSize A.cut
        A.restrictions [] A.fuel with
    | error e1 =>
      cases h2 : getGreen A.n e (prune A.slaterWeightMin (unit q)) A.hOp A.wLoss A.delta2 A.krylovSize A.cut
          A.restrictions [] A.fuel with
      | error e2 => rw [h1, h2] at hg; cases hg; rfl
      | ok y => rw [h1, h2] at hg; cases hg
    | ok x =>
      cases h2 : getGreen A.n e (prune A.slaterWeightMin (unit q)) A.hOp A.wLoss A.delta2 A.krylovSize A.cut
          A.restrictions [] A.fuel with
      | error e2 => rw [h1, h2] at hg; cases hg
      | ok y =>
        rw [h1, h2] at hg
        have : x.1 = y.1 := by injection hg
        simp only [ok_bind, pure_ok, this]
  · unfold rixsOtherRow
    have : prune A.slaterWeightMin (unit p) = [] ↔ prune A.slaterWeightMin (unit q) = [] :=
      ⟨fun h0 => eqv_nil fun k => by rw [← hu k, h0], fun h0 => eqv_nil fun k => by rw [hu k, h0]⟩
    simp only [this, hn]

/-- The state `tOp |psi2⟩`. -/
def rixsOutState (A : RixsArgs) (tOp : Op ℕ ℂ) (psi2 : Psi ℂ) : Psi ℂ :=
  applyOpPure A.n tOp psi2 A.slaterWeightMin A.restrictions

theorem foldlM_same {β S : Type} {f g : β × S → Bytes × ℂ → Py (β × S)} {c : S} :
    ∀ (l : List (Bytes × ℂ)), (∀ p ∈ l, ∀ acc, ∃ acc', f (acc, c) p = .ok (acc', c) ∧ g (acc, c) p = .ok (acc', c)) →
    ∀ acc, l.foldlM f (acc, c) = l.foldlM g (acc, c) := by
  intro l
  induction l with
  | nil => intro _ _; rfl
  | cons p l ih =>
    intro h acc
    obtain ⟨acc', h1, h2⟩ := h p (by simp) acc
    rw [List.foldlM_cons, List.foldlM_cons, h1, h2]
    exact ih (fun p hp => h p (by simp [hp])) acc'

/-- With all columns stored, the operator is not used. -/
theorem applyOp_hit (n : ℕ) (op op' : Op ℕ ℂ) (psi : Psi ℂ) (cut : ℝ) (r : Option Restrictions) (cache : OpResult ℂ)
    (h : ∀ k ∈ Dict.keys psi, k ∈ Dict.keys cache) :
    applyOp n op psi cut r (some cache) = applyOp n op' psi cut r (some cache) := by
  have hit : ∀ p ∈ psi, ∃ col, Dict.get? cache p.1 = some col := by
    intro p hp
    have := h p.1 (List.mem_map.2 ⟨p, hp, rfl⟩)
    rw [Dict.mem_keys_iff] at this
    exact Option.isSome_iff_exists.1 this
  unfold applyOp
  cases r with
  | none =>
    have key : applyOpCached n op psi cut cache = applyOpCached n op' psi cut cache := by
      unfold applyOpCached
      refine foldlM_same psi (fun p hp acc => ?_) []
      obtain ⟨col, hc⟩ := hit p hp
      exact ⟨addToFirst acc col p.2, by simp only [hc, pure_ok], by simp only [hc, pure_ok]⟩
    simp only [key]
  | some r =>
    have key : applyOpCachedRestricted n op psi cut r cache = applyOpCachedRestricted n op' psi cut r cache := by
      unfold applyOpCachedRestricted
      refine foldlM_same psi (fun p hp acc => ?_) []
      obtain ⟨col, hc⟩ := hit p hp
      exact ⟨addToFirst acc col p.2, by simp only [hc, pure_ok], by simp only [hc, pure_ok]⟩
    simp only [key]

theorem outgoing_apply {A : RixsArgs} (hA : A.Valid) {op0 : Op ℕ ℂ} (hop0 : OpInSystem A.n op0) (hl : A.Large op0)
    {psi2 : Psi ℂ} (hpsi2 : IsState A.n psi2) {c : OpResult ℂ}
    (hc : CacheCorrect A.n op0 A.slaterWeightMin A.restrictions c) {op : Op ℕ ℂ}
    (h : op = op0 ∨ ∀ k ∈ Dict.keys psi2, k ∈ Dict.keys c) :
    ∃ psi3 c', applyOp A.n op psi2 A.slaterWeightMin A.restrictions (some c) = .ok (psi3, some c') ∧
      CacheCorrect A.n op0 A.slaterWeightMin A.restrictions c' ∧ (∀ k ∈ Dict.keys psi2, k ∈ Dict.keys c') ∧
      Excited A.n A.slaterWeightMin A.restrictions psi3 ∧ Dict.Eqv psi3 (rixsOutState A op0 psi2) := by
  have h0 : applyOp A.n op psi2 A.slaterWeightMin A.restrictions (some c)
      = applyOp A.n op0 psi2 A.slaterWeightMin A.restrictions (some c) := by
    rcases h with rfl | h
    · rfl
    · exact applyOp_hit _ _ _ _ _ _ _ h
  obtain ⟨p1, c1, h1, hc1, hk1, -⟩ := C17_cache_step A.n op0 hop0 psi2 hpsi2 A.slaterWeightMin A.restrictions c hc
  obtain ⟨p2, c2, h2, -, hex⟩ := applyOp_cached_excited hop0 hpsi2 hA.weight A.restrictions hc
  obtain ⟨q1, q2, c3, h3, h4, h5⟩ := C16_cache_transparent_step_partial A.n op0 hop0 psi2 hpsi2 A.slaterWeightMin
    hA.weight A.restrictions c hc fun T hT _ _ => hl T hT
  rw [h1] at h2 h4
  obtain ⟨rfl, e2⟩ := Prod.mk.inj (Except.ok.inj h2)
  obtain ⟨rfl, e4⟩ := Prod.mk.inj (Except.ok.inj h4)
  rw [applyOp_eq hop0 hpsi2] at h3
  obtain ⟨rfl, -⟩ := Prod.mk.inj (Except.ok.inj h3)
  exact ⟨p1, c1, by rw [h0, h1], hc1, fun k hk => (hk1 k).2 (Or.inr hk), hex, fun k => (h5 k).symm⟩

/-- The condition on the dict that all out-going operators share. -/
def OutCache (A : RixsArgs) (op0 : Op ℕ ℂ) (c : OpResult ℂ) : Prop :=
  CacheCorrect A.n op0 A.slaterWeightMin A.restrictions c

theorem rixsOutgoing_eq {A : RixsArgs} (hA : A.Valid) {mode : RixsMode} {ord : ℕ → SetOrders} {rank ranks m : ℕ}
    {e : ℝ} {psi2 : Psi ℂ} {rows : List (List ℂ)} {c : OpResult ℂ} {hG : OpResult ℂ} {q : Op ℕ ℂ × ℕ} (hq : q.2 < m)
    {psi3 : Psi ℂ} {c' : OpResult ℂ}
    (happ : applyOp A.n q.1 psi2 A.slaterWeightMin A.restrictions (some c) = .ok (psi3, some c'))
    (hex : Excited A.n A.slaterWeightMin A.restrictions psi3) :
    rixsOutgoing A mode ord rank ranks (List.replicate m 0) e psi2 ⟨rows, [c], hG⟩ q
      = (rixsGreen A mode (ord q.2) rank ranks e (prune A.slaterWeightMin (unit psi3)) hG).bind fun gh =>
        .ret ⟨rows ++ [scaleSpectrum (Real.sqrt (norm2 psi3)) gh.1], [c'], gh.2⟩ := by
  unfold rixsOutgoing
  rw [pyGet_ofNat (List.replicate m 0) q.2 (by simpa using hq)]
  simp only [List.getElem_replicate, ok_bind]
  rw [pyGet_ofNat [c] 0 (by simp)]
  simp only [List.getElem_cons_zero, ok_bind, happ, normalise_eq hA.weight hex, pure_ok, Prog.lift, Prog.bind,
    Option.getD_some, List.set_cons_zero]

theorem rixsGreen_any {A : RixsArgs} (hA : A.Valid) {psi : Psi ℂ} (hpsi : IsState A.n psi) (e : ℝ) :
    (∃ g, ∀ hSer, ColumnsExact A.n A.hOp A.cut A.restrictions hSer →
      ∃ hSer', ColumnsExact A.n A.hOp A.cut A.restrictions hSer' ∧
        getGreen A.n e psi A.hOp A.wLoss A.delta2 A.krylovSize A.cut A.restrictions hSer A.fuel = .ok (g, hSer')) ∨
    (∃ err, ∀ hSer, ColumnsExact A.n A.hOp A.cut A.restrictions hSer →
        getGreen A.n e psi A.hOp A.wLoss A.delta2 A.krylovSize A.cut A.restrictions hSer A.fuel = .error err) := by
  rcases getGreenRank_runs (N := 1) (by omega) hA.hop hA.cut A.restrictions (fun _ => []) (fun _ => columnsExact_nil ..)
    (fun k l hkl => absurd (Subsingleton.elim k l) hkl) (fun _ => ⟨fun _ l => l, fun l => l⟩)
    (fun _ _ l => List.Perm.refl l) (fun _ l => List.Perm.refl l) hpsi e A.wLoss hA.delta hA.krylov hA.fuel
    with ⟨g, h, -⟩ | ⟨err, h, -⟩
  · exact Or.inl ⟨g, h⟩
  · exact Or.inr ⟨err, h⟩

/-- One out-going operator on one rank, in the modes in which `getGreen` is local. -/
theorem outgoing_local {A : RixsArgs} (hA : A.Valid) {mode : RixsMode} (hm : mode ≠ .hBuild) {ord : ℕ → SetOrders}
    {rank ranks m : ℕ} {op0 : Op ℕ ℂ} (hop0 : OpInSystem A.n op0) (hl : A.Large op0) (e : ℝ) {psi2 : Psi ℂ}
    (hpsi2 : IsState A.n psi2) {q : Op ℕ ℂ × ℕ} (hq : q.2 < m) (rows : List (List ℂ)) {c hG : OpResult ℂ}
    (hc : OutCache A op0 c) (hG' : ColumnsExact A.n A.hOp A.cut A.restrictions hG)
    (h : q.1 = op0 ∨ ∀ k ∈ Dict.keys psi2, k ∈ Dict.keys c) :
    (∃ g, rixsRow A e (rixsOutState A op0 psi2) = .ok g ∧ ∃ c' hG', OutCache A op0 c' ∧
      (∀ k ∈ Dict.keys psi2, k ∈ Dict.keys c') ∧ ColumnsExact A.n A.hOp A.cut A.restrictions hG' ∧
      rixsOutgoing A mode ord rank ranks (List.replicate m 0) e psi2 ⟨rows, [c], hG⟩ q = .ret ⟨rows ++ [g], [c'], hG'⟩) ∨
    (∃ err, rixsRow A e (rixsOutState A op0 psi2) = .error err ∧
      rixsOutgoing A mode ord rank ranks (List.replicate m 0) e psi2 ⟨rows, [c], hG⟩ q = .fail err) := by
  obtain ⟨psi3, c', happ, hc', hk, hex, heq⟩ := outgoing_apply hA hop0 hl hpsi2 hc h
  have hprog := rixsOutgoing_eq hA (mode := mode) (ord := ord) (rank := rank) (ranks := ranks) (e := e) (rows := rows)
    (hG := hG) hq happ hex
  have hrow := (rixsRow_congr hA hex.state (applyOp_excited hop0 hpsi2 hA.weight A.restrictions).state heq e).1
  have hgreen : rixsGreen A mode (ord q.2) rank ranks e (prune A.slaterWeightMin (unit psi3)) hG
      = Prog.lift (getGreen A.n e (prune A.slaterWeightMin (unit psi3)) A.hOp A.wLoss A.delta2 A.krylovSize A.cut
        A.restrictions hG A.fuel) := by
    cases mode <;> first | exact absurd rfl hm | rfl
  change rixsRow A e psi3 = rixsRow A e (rixsOutState A op0 psi2) at hrow
  rw [← hrow, hprog, hgreen]
  unfold rixsRow
  rcases rixsGreen_any hA (isState_prune (cut := A.slaterWeightMin) (isState_unit hex.state)) e with ⟨g, hg⟩ | ⟨err, hg⟩
  · left
    obtain ⟨h0, -, hs0⟩ := hg [] (columnsExact_nil ..)
    obtain ⟨h1, hh1, hs1⟩ := hg hG hG'
    refine ⟨scaleSpectrum (Real.sqrt (norm2 psi3)) g, by simp only [hs0, ok_bind, pure_ok], c', h1, hc', hk, hh1, ?_⟩
    simp only [hs1, Prog.lift, Prog.bind]
  · right
    refine ⟨err, by rw [hg [] (columnsExact_nil ..)]; rfl, ?_⟩
    simp only [hg hG hG', Prog.lift, Prog.bind]

/-- One out-going operator on all ranks, in mode `H_build`. -/
theorem outgoing_shared {N : ℕ} (hN : 0 < N) {A : RixsArgs} (hA : A.Valid) (ord : Fin N → ℕ → SetOrders)
    (hord : ∀ k i, (ord k i).Valid) {m : ℕ} {op0 : Op ℕ ℂ} (hop0 : OpInSystem A.n op0) (hl : A.Large op0) (e : ℝ)
    {psi2 : Psi ℂ} (hpsi2 : IsState A.n psi2) {q : Op ℕ ℂ × ℕ} (hq : q.2 < m) (rows : Fin N → List (List ℂ))
    {c : OpResult ℂ} (hG : Fin N → OpResult ℂ) (hc : OutCache A op0 c)
    (hG' : ∀ k, ColumnsExact A.n A.hOp A.cut A.restrictions (hG k)) (hdis : DisjointKeys hG)
    (h : q.1 = op0 ∨ ∀ k ∈ Dict.keys psi2, k ∈ Dict.keys c) :
    (∃ g, rixsRow A e (rixsOutState A op0 psi2) = .ok g ∧ ∃ (c' : OpResult ℂ) (hG' : Fin N → OpResult ℂ),
      OutCache A op0 c' ∧ (∀ k ∈ Dict.keys psi2, k ∈ Dict.keys c') ∧
      (∀ k, ColumnsExact A.n A.hOp A.cut A.restrictions (hG' k)) ∧ DisjointKeys hG' ∧
      Runs msgSum (fun k : Fin N => rixsOutgoing A .hBuild (ord k) k.val N (List.replicate m 0) e psi2
          ⟨rows k, [c], hG k⟩ q)
        (fun k => ⟨rows k ++ [if k.val = 0 then g else rixsOtherRow A e (rixsOutState A op0 psi2)], [c'], hG' k⟩)) ∨
    (∃ err, rixsRow A e (rixsOutState A op0 psi2) = .error err ∧
      RunsToFailure msgSum (fun k : Fin N => rixsOutgoing A .hBuild (ord k) k.val N (List.replicate m 0) e psi2
          ⟨rows k, [c], hG k⟩ q) err) := by
  obtain ⟨psi3, c', happ, hc', hk, hex, heq⟩ := outgoing_apply hA hop0 hl hpsi2 hc h
  have hprog := fun k : Fin N => rixsOutgoing_eq hA (mode := .hBuild) (ord := ord k) (rank := k.val) (ranks := N)
    (e := e) (rows := rows k) (hG := hG k) hq happ hex
  obtain ⟨hrow, hoth⟩ := rixsRow_congr hA hex.state (applyOp_excited hop0 hpsi2 hA.weight A.restrictions).state heq e
  change rixsRow A e psi3 = rixsRow A e (rixsOutState A op0 psi2) at hrow
  change rixsOtherRow A e psi3 = rixsOtherRow A e (rixsOutState A op0 psi2) at hoth
  rw [← hrow, ← hoth]
  have hst := isState_prune (cut := A.slaterWeightMin) (isState_unit hex.state)
  rcases getGreenRank_runs hN hA.hop hA.cut A.restrictions hG hG' hdis (fun k => ord k q.2)
    (fun k => (hord k q.2).1) (fun k => (hord k q.2).2) hst e A.wLoss hA.delta hA.krylov hA.fuel
    with ⟨g, hser, hD, hd', hdis', hruns⟩ | ⟨err, hser, hfail⟩
  · left
    obtain ⟨h0, -, hs0⟩ := hser [] (columnsExact_nil ..)
    refine ⟨scaleSpectrum (Real.sqrt (norm2 psi3)) g, by unfold rixsRow; simp only [hs0, ok_bind, pure_ok], c', hD, hc',
      hk, hd', hdis', Runs.congr (Runs.bind hruns (out' := fun k =>
        ⟨rows k ++ [scaleSpectrum (Real.sqrt (norm2 psi3)) (greenOnRank (prune A.slaterWeightMin (unit psi3)) A.wLoss
          A.delta2 e g k)], [c'], hD k⟩) (.ret fun k => rfl)) hprog fun k => ?_⟩
    congr 3
    by_cases h0 : k.val = 0
    · rw [if_pos h0, greenOnRank, if_pos (Or.inl h0)]
    · rw [if_neg h0, greenOnRank]
      unfold rixsOtherRow
      by_cases hnil : prune A.slaterWeightMin (unit psi3) = []
      · rw [if_pos (Or.inr hnil), if_pos hnil]
        have hg0 : g = List.replicate A.wLoss.length 0 := by
          rw [hnil] at hs0
          unfold getGreen at hs0
          rw [if_pos (by simp)] at hs0
          cases hs0; rfl
        rw [hg0]
        unfold scaleSpectrum
        simp
      · rw [if_neg hnil, if_neg (by simp [h0, hnil])]
  · right
    refine ⟨err, ?_, RunsToFailure.congr (RunsToFailure.bind_left hfail _) hprog⟩
    unfold rixsRow
    rw [hser [] (columnsExact_nil ..)]; rfl

/-! ### All out-going operators -/

/-- The rows for all out-going operators: they all are the row of the first one. -/
def rixsRows (A : RixsArgs) (tOpsOut : List (Op ℕ ℂ)) (e : ℝ) (psi2 : Psi ℂ) : Py (List (List ℂ)) :=
  match tOpsOut with
  | [] => .ok []
  | op0 :: _ => do
    let g ← rixsRow A e (rixsOutState A op0 psi2)
    return List.replicate tOpsOut.length g

/-- The rows on the ranks other than the root in mode `H_build`. -/
def rixsOtherRows (A : RixsArgs) (tOpsOut : List (Op ℕ ℂ)) (e : ℝ) (psi2 : Psi ℂ) : List (List ℂ) :=
  match tOpsOut with
  | [] => []
  | op0 :: _ => List.replicate tOpsOut.length (rixsOtherRow A e (rixsOutState A op0 psi2))

/-- The shared dict holds columns of the first out-going operator. -/
def OutHeap (A : RixsArgs) (tOpsOut : List (Op ℕ ℂ)) (c : OpResult ℂ) : Prop :=
  ∀ op0 ∈ tOpsOut.head?, OutCache A op0 c

theorem rest_local {A : RixsArgs} (hA : A.Valid) {mode : RixsMode} (hm : mode ≠ .hBuild) {ord : ℕ → SetOrders}
    {rank ranks m : ℕ} {op0 : Op ℕ ℂ} (hop0 : OpInSystem A.n op0) (hl : A.Large op0) (e : ℝ) {psi2 : Psi ℂ}
    (hpsi2 : IsState A.n psi2) {g : List ℂ} (hg : rixsRow A e (rixsOutState A op0 psi2) = .ok g) :
    ∀ (l : List (Op ℕ ℂ × ℕ)), (∀ q ∈ l, q.2 < m) → ∀ (rows : List (List ℂ)) (c hG : OpResult ℂ), OutCache A op0 c →
    ColumnsExact A.n A.hOp A.cut A.restrictions hG → (∀ k ∈ Dict.keys psi2, k ∈ Dict.keys c) →
    ∃ c' hG', OutCache A op0 c' ∧ ColumnsExact A.n A.hOp A.cut A.restrictions hG' ∧
      Prog.loop (rixsOutgoing A mode ord rank ranks (List.replicate m 0) e psi2) l ⟨rows, [c], hG⟩
        = .ret ⟨rows ++ List.replicate l.length g, [c'], hG'⟩ := by
  intro l
  induction l with
  | nil => intro _ rows c hG hc hG' _; exact ⟨c, hG, hc, hG', by simp [Prog.loop]⟩
  | cons q l ih =>
    intro hq rows c hG hc hG' hk
    rcases outgoing_local hA hm (ord := ord) (rank := rank) (ranks := ranks) hop0 hl e hpsi2 (hq q (by simp)) rows hc hG'
      (Or.inr hk) with ⟨g', hg', c1, hG1, h1, h2, h3, h4⟩ | ⟨err, h1, -⟩
    · rw [hg] at hg'
      cases hg'
      obtain ⟨c2, hG2, h5, h6, h7⟩ := ih (fun q hq' => hq q (by simp [hq'])) (rows ++ [g]) c1 hG1 h1 h3 h2
      refine ⟨c2, hG2, h5, h6, ?_⟩
      unfold Prog.loop
      rw [h4]
      simp only [Prog.bind]
      rw [h7]
      simp [List.replicate_succ]
    · rw [hg] at h1; cases h1

theorem outLoop_local {A : RixsArgs} (hA : A.Valid) {mode : RixsMode} (hm : mode ≠ .hBuild) {ord : ℕ → SetOrders}
    {rank ranks : ℕ} {tOpsOut : List (Op ℕ ℂ)} (ho : OutOps A tOpsOut) (e : ℝ) {psi2 : Psi ℂ}
    (hpsi2 : IsState A.n psi2) {c hG : OpResult ℂ} (hc : OutHeap A tOpsOut c)
    (hG' : ColumnsExact A.n A.hOp A.cut A.restrictions hG) :
    (∃ rows, rixsRows A tOpsOut e psi2 = .ok rows ∧ ∃ c' hG', OutHeap A tOpsOut c' ∧
      ColumnsExact A.n A.hOp A.cut A.restrictions hG' ∧
      Prog.loop (rixsOutgoing A mode ord rank ranks (List.replicate tOpsOut.length 0) e psi2) tOpsOut.zipIdx
        ⟨[], [c], hG⟩ = .ret ⟨rows, [c'], hG'⟩) ∨
    (∃ err, rixsRows A tOpsOut e psi2 = .error err ∧
      Prog.loop (rixsOutgoing A mode ord rank ranks (List.replicate tOpsOut.length 0) e psi2) tOpsOut.zipIdx
        ⟨[], [c], hG⟩ = .fail err) := by
  cases tOpsOut with
  | nil => exact Or.inl ⟨[], rfl, c, hG, hc, hG', rfl⟩
  | cons op0 rest =>
    obtain ⟨hop0, hl⟩ := ho op0 (by simp)
    have hc0 := hc op0 (by simp)
    have hz : (op0 :: rest).zipIdx = (op0, 0) :: rest.zipIdx 1 := by rw [List.zipIdx_cons]
    rw [hz]
    rcases outgoing_local hA hm (ord := ord) (rank := rank) (ranks := ranks) (m := (op0 :: rest).length) hop0 hl e hpsi2
      (q := (op0, 0)) (by simp) [] hc0 hG' (Or.inl rfl) with ⟨g, hg, c1, hG1, h1, h2, h3, h4⟩ | ⟨err, hg, h1⟩
    · left
      obtain ⟨c2, hG2, h5, h6, h7⟩ := rest_local hA hm (ord := ord) (rank := rank) (ranks := ranks)
        (m := (op0 :: rest).length) hop0 hl e hpsi2 hg (rest.zipIdx 1) (by
          rintro ⟨a, i⟩ hq
          have := List.snd_lt_of_mem_zipIdx hq
          simp at this ⊢; omega) ([] ++ [g]) c1 hG1 h1 h3 h2
      refine ⟨List.replicate (op0 :: rest).length g, by simp only [rixsRows, hg, ok_bind, pure_ok], c2, hG2, ?_, h6, ?_⟩
      · intro op hop
        simp at hop
        subst hop; exact h5
      · unfold Prog.loop
        rw [h4]
        simp only [Prog.bind]
        rw [h7]
        simp [List.replicate_succ]
    · right
      refine ⟨err, by simp only [rixsRows, hg]; rfl, ?_⟩
      unfold Prog.loop
      rw [h1]; rfl

theorem rest_shared {N : ℕ} (hN : 0 < N) {A : RixsArgs} (hA : A.Valid) (ord : Fin N → ℕ → SetOrders)
    (hord : ∀ k i, (ord k i).Valid) {m : ℕ} {op0 : Op ℕ ℂ} (hop0 : OpInSystem A.n op0) (hl : A.Large op0) (e : ℝ)
    {psi2 : Psi ℂ} (hpsi2 : IsState A.n psi2) {g : List ℂ} (hg : rixsRow A e (rixsOutState A op0 psi2) = .ok g) :
    ∀ (l : List (Op ℕ ℂ × ℕ)), (∀ q ∈ l, q.2 < m) → ∀ (rows : Fin N → List (List ℂ)) (c : OpResult ℂ)
    (hG : Fin N → OpResult ℂ), OutCache A op0 c → (∀ k, ColumnsExact A.n A.hOp A.cut A.restrictions (hG k)) →
    DisjointKeys hG → (∀ k ∈ Dict.keys psi2, k ∈ Dict.keys c) →
    ∃ (c' : OpResult ℂ) (hG' : Fin N → OpResult ℂ), OutCache A op0 c' ∧
      (∀ k, ColumnsExact A.n A.hOp A.cut A.restrictions (hG' k)) ∧ DisjointKeys hG' ∧
      Runs msgSum (fun k : Fin N => Prog.loop (rixsOutgoing A .hBuild (ord k) k.val N (List.replicate m 0) e psi2) l
          ⟨rows k, [c], hG k⟩)
        (fun k => ⟨rows k ++ List.replicate l.length
          (if k.val = 0 then g else rixsOtherRow A e (rixsOutState A op0 psi2)), [c'], hG' k⟩) := by
  intro l
  induction l with
  | nil => intro _ rows c hG hc hG' hdis _; exact ⟨c, hG, hc, hG', hdis, .ret fun k => by simp [Prog.loop]⟩
  | cons q l ih =>
    intro hq rows c hG hc hG' hdis hk
    rcases outgoing_shared hN hA ord hord hop0 hl e hpsi2 (hq q (by simp)) rows hG hc hG' hdis (Or.inr hk)
      with ⟨g', hg', c1, hG1, h1, h2, h3, h3', h4⟩ | ⟨err, h1, -⟩
    · rw [hg] at hg'
      cases hg'
      obtain ⟨c2, hG2, h5, h6, h6', h7⟩ := ih (fun q hq' => hq q (by simp [hq']))
        (fun k => rows k ++ [if k.val = 0 then g else rixsOtherRow A e (rixsOutState A op0 psi2)]) c1 hG1 h1 h3 h3' h2
      refine ⟨c2, hG2, h5, h6, h6', Runs.congr (Runs.bind h4 h7) (fun k => rfl) fun k => ?_⟩
      simp [List.replicate_succ]
    · rw [hg] at h1; cases h1

theorem outLoop_shared {N : ℕ} (hN : 0 < N) {A : RixsArgs} (hA : A.Valid) (ord : Fin N → ℕ → SetOrders)
    (hord : ∀ k i, (ord k i).Valid) {tOpsOut : List (Op ℕ ℂ)} (ho : OutOps A tOpsOut) (e : ℝ) {psi2 : Psi ℂ}
    (hpsi2 : IsState A.n psi2) {c : OpResult ℂ} (hG : Fin N → OpResult ℂ) (hc : OutHeap A tOpsOut c)
    (hG' : ∀ k, ColumnsExact A.n A.hOp A.cut A.restrictions (hG k)) (hdis : DisjointKeys hG) :
    (∃ rows, rixsRows A tOpsOut e psi2 = .ok rows ∧ ∃ (c' : OpResult ℂ) (hG' : Fin N → OpResult ℂ),
      OutHeap A tOpsOut c' ∧ (∀ k, ColumnsExact A.n A.hOp A.cut A.restrictions (hG' k)) ∧ DisjointKeys hG' ∧
      Runs msgSum (fun k : Fin N => Prog.loop (rixsOutgoing A .hBuild (ord k) k.val N
          (List.replicate tOpsOut.length 0) e psi2) tOpsOut.zipIdx ⟨[], [c], hG k⟩)
        (fun k => ⟨if k.val = 0 then rows else rixsOtherRows A tOpsOut e psi2, [c'], hG' k⟩)) ∨
    (∃ err, rixsRows A tOpsOut e psi2 = .error err ∧
      RunsToFailure msgSum (fun k : Fin N => Prog.loop (rixsOutgoing A .hBuild (ord k) k.val N
          (List.replicate tOpsOut.length 0) e psi2) tOpsOut.zipIdx ⟨[], [c], hG k⟩) err) := by
  cases tOpsOut with
  | nil =>
    refine Or.inl ⟨[], rfl, c, hG, hc, hG', hdis, .ret fun k => ?_⟩
    simp [Prog.loop, rixsOtherRows]
  | cons op0 rest =>
    obtain ⟨hop0, hl⟩ := ho op0 (by simp)
    have hc0 := hc op0 (by simp)
    have hz : (op0 :: rest).zipIdx = (op0, 0) :: rest.zipIdx 1 := by rw [List.zipIdx_cons]
    rw [hz]
    rcases outgoing_shared hN hA ord hord (m := (op0 :: rest).length) hop0 hl e hpsi2
      (q := (op0, 0)) (by simp) (fun _ => []) hG hc0 hG' hdis (Or.inl rfl)
      with ⟨g, hg, c1, hG1, h1, h2, h3, h3', h4⟩ | ⟨err, hg, h1⟩
    · left
      obtain ⟨c2, hG2, h5, h6, h6', h7⟩ := rest_shared hN hA ord hord
        (m := (op0 :: rest).length) hop0 hl e hpsi2 hg (rest.zipIdx 1) (by
          rintro ⟨a, i⟩ hq
          have := List.snd_lt_of_mem_zipIdx hq
          simp at this ⊢; omega)
        (fun k => [] ++ [if k.val = 0 then g else rixsOtherRow A e (rixsOutState A op0 psi2)]) c1 hG1 h1 h3 h3' h2
      refine ⟨List.replicate (op0 :: rest).length g, by simp only [rixsRows, hg, ok_bind, pure_ok], c2, hG2, ?_, h6, h6',
        Runs.congr (Runs.bind h4 h7) (fun k => rfl) fun k => ?_⟩
      · intro op hop
        simp at hop
        subst hop; exact h5
      · simp only [rixsOtherRows]
        split <;> simp [List.replicate_succ]
    · right
      exact ⟨err, by simp only [rixsRows, hg]; rfl, RunsToFailure.congr (RunsToFailure.bind_left h1 _) fun _ => rfl⟩

end

end Verif
