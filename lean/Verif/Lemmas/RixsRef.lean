/-
The parts of getRIXSmap.
-/
import Verif.Lemmas.Failure
import Verif.Prop.Green

namespace Verif

open Finset Mpi Psr Spec Matrix

noncomputable section

/-! ### The core-hole system -/

/-- The Hamiltonian of the core-hole system and `psi1` as a vector. -/
def rixsSystem (A : RixsArgs) (psi1 : Psi ℂ) : Py (Mat ℂ × (index : Dict Bytes ℕ) × (Fin index.length → ℂ)) := do
  let (h, index, _) ← expandBasisAndHamiltonianSerial A.n [] A.hOp A.cut (Dict.keys psi1) A.restrictions A.fuel
  let y ← psiVector index psi1
  return (h, ⟨index, y⟩)

/-- The modes in which the Hamiltonian of the core-hole system is distributed. -/
def RixsMode.shared : RixsMode → Prop
  | .hBuild | .hBuildWIn => True
  | _ => False

theorem rixsSystem_spec {N : ℕ} (hN : 0 < N) {A : RixsArgs} (hA : A.Valid) {psi1 : Psi ℂ} (hpsi1 : IsState A.n psi1)
    (mode : RixsMode) (ord : Fin N → SetOrders) (hord : ∀ k, (ord k).Valid) (hE : Fin N → OpResult ℂ)
    (hex : ∀ k, ColumnsExact A.n A.hOp A.cut A.restrictions (hE k)) (hdis : mode.shared → DisjointKeys hE) :
    ∃ (H : Mat ℂ) (states : List (Finset ℕ)) (y : Fin (basisIndex (states.map (encBytes A.n))).length → ℂ),
      states.Nodup ∧ (∀ S ∈ states, S ⊆ range A.n) ∧
      SmallestInvariant A.n A.hOp A.cut A.restrictions {S | S ⊆ range A.n ∧ encBytes A.n S ∈ Dict.keys psi1}
        {S | S ∈ states} ∧
      (∀ i j, H i j = if h : i < states.length ∧ j < states.length then
        column A.hOp A.cut A.restrictions states[j] states[i] else 0) ∧
      (∀ i, y i = (Dict.get? psi1 ((states.map (encBytes A.n)).getD i.val [])).getD 0) ∧
      rixsSystem A psi1 = .ok (H, ⟨basisIndex (states.map (encBytes A.n)), y⟩) ∧
      ∃ hE' : Fin N → OpResult ℂ, (∀ k, ColumnsExact A.n A.hOp A.cut A.restrictions (hE' k)) ∧
        (mode.shared → DisjointKeys hE') ∧
        ∀ (tOpIn : Op ℕ ℂ) (psi : Psi ℂ) (big big' : OpResult ℂ),
          applyOp A.n tOpIn psi A.slaterWeightMin A.restrictions (some big) = .ok (psi1, some big') →
          Runs msgSum (fun k : Fin N => rixsExcited A mode (ord k) k.val N tOpIn psi big (hE k))
            (fun k => ((H, ⟨basisIndex (states.map (encBytes A.n)), y⟩), big', hE' k)) := by
  obtain ⟨states0, hkeys, hst, hnd0⟩ := IsState.exists_states hpsi1
  have hset : {S | S ⊆ range A.n ∧ encBytes A.n S ∈ Dict.keys psi1} = {S | S ∈ states0} := by
    ext S
    simp only [Set.mem_ofPred_eq, hkeys, List.mem_map]
    constructor
    · rintro ⟨hS, T, hT, he⟩
      rw [← encBytes_injOn (hst T hT) hS he]; exact hT
    · exact fun h => ⟨hst S h, S, h, rfl⟩
  -- the serial result, and the distributed one for disjoint parts
  have main : ∀ hE0 : Fin N → OpResult ℂ, (∀ k, ColumnsExact A.n A.hOp A.cut A.restrictions (hE0 k)) →
      DisjointKeys hE0 → ∃ (H : Mat ℂ) (states : List (Finset ℕ))
      (y : Fin (basisIndex (states.map (encBytes A.n))).length → ℂ), states.Nodup ∧ (∀ S ∈ states, S ⊆ range A.n) ∧
      SmallestInvariant A.n A.hOp A.cut A.restrictions {S | S ∈ states0} {S | S ∈ states} ∧
      (∀ i j, H i j = if h : i < states.length ∧ j < states.length then
        column A.hOp A.cut A.restrictions states[j] states[i] else 0) ∧
      (∀ i, y i = (Dict.get? psi1 ((states.map (encBytes A.n)).getD i.val [])).getD 0) ∧
      (∀ hSer, ColumnsExact A.n A.hOp A.cut A.restrictions hSer → ∃ hSer',
        ColumnsExact A.n A.hOp A.cut A.restrictions hSer' ∧
        expandBasisAndHamiltonianSerial A.n hSer A.hOp A.cut (Dict.keys psi1) A.restrictions A.fuel
          = .ok (H, basisIndex (states.map (encBytes A.n)), hSer')) ∧
      psiVector (basisIndex (states.map (encBytes A.n))) psi1 = .ok y ∧
      ∃ hE' : Fin N → OpResult ℂ, (∀ k, ColumnsExact A.n A.hOp A.cut A.restrictions (hE' k)) ∧ DisjointKeys hE' ∧
        Runs msgSum (fun k : Fin N => expandBasisAndHamiltonianHBuild A.n (hE0 k) A.hOp A.cut (Dict.keys psi1)
          A.restrictions (ord k).expand (ord k).matrix false k.val N A.fuel)
          (fun k => (H, basisIndex (states.map (encBytes A.n)), hE' k)) := by
    intro hE0 hex0 hdis0
    obtain ⟨H, states, hnd, hs, hsm, hent, hser, hDict', hd', hdis', hruns, -⟩ :=
      distributed_hamiltonian hN hA.hop hA.cut A.restrictions hE0 hex0 hdis0 (fun k => (ord k).expand)
        (fun k => (hord k).1) (fun k => (ord k).matrix) (fun k => (hord k).2) msgSum states0 hst hnd0 A.fuel hA.fuel
    rw [← hkeys] at hser hruns
    have hndB : (states.map (encBytes A.n)).Nodup := (nodup_map_enc hs).2 hnd
    have hkB : ∀ k ∈ Dict.keys psi1, k ∈ states.map (encBytes A.n) := by
      intro k hk
      rw [hkeys] at hk
      obtain ⟨S, hS, rfl⟩ := List.mem_map.1 hk
      exact List.mem_map.2 ⟨S, hsm.contains hS, rfl⟩
    exact ⟨H, states, _, hnd, hs, hsm, hent, fun _ => rfl, hser, psiVector_eq hndB psi1 hpsi1.nodup hkB, hDict', hd',
      hdis', hruns⟩
  have hsys : ∀ {H : Mat ℂ} {index : Dict Bytes ℕ} {y : Fin index.length → ℂ},
      (∀ hSer, ColumnsExact A.n A.hOp A.cut A.restrictions hSer → ∃ hSer',
        ColumnsExact A.n A.hOp A.cut A.restrictions hSer' ∧
        expandBasisAndHamiltonianSerial A.n hSer A.hOp A.cut (Dict.keys psi1) A.restrictions A.fuel
          = .ok (H, index, hSer')) → psiVector index psi1 = .ok y → rixsSystem A psi1 = .ok (H, ⟨index, y⟩) := by
    intro H index y h1 h2
    obtain ⟨h', -, hx⟩ := h1 [] (columnsExact_nil ..)
    unfold rixsSystem
    simp only [hx, ok_bind, h2, pure_ok]
  by_cases hsh : mode.shared
  · obtain ⟨H, states, y, hnd, hs, hsm, hent, hy, hser, hvec, hE', hex', hdis', hruns⟩ := main hE hex (hdis hsh)
    refine ⟨H, states, y, hnd, hs, hset ▸ hsm, hent, hy, hsys hser hvec, hE', hex', fun _ => hdis', ?_⟩
    intro tOpIn psi big big' happ
    have hprog : ∀ k : Fin N, rixsExcited A mode (ord k) k.val N tOpIn psi big (hE k)
        = (expandBasisAndHamiltonianHBuild A.n (hE k) A.hOp A.cut (Dict.keys psi1)
          A.restrictions (ord k).expand (ord k).matrix false k.val N A.fuel).bind fun res =>
          (Prog.lift (psiVector res.2.1 psi1)).bind fun y => .ret ((res.1, ⟨res.2.1, y⟩), big', res.2.2) := by
      intro k
      unfold rixsExcited
      rw [happ]
      cases mode <;> first | exact absurd hsh id | rfl
    refine Runs.congr (Runs.bind hruns (.ret fun k => ?_)) hprog fun _ => rfl
    simp only [hvec, Prog.lift, Prog.bind]
  · obtain ⟨H, states, y, hnd, hs, hsm, hent, hy, hser, hvec, -⟩ := main (fun _ => []) (fun _ => columnsExact_nil ..)
      (fun k l hkl b hb => absurd hb (by simp [Dict.keys]))
    choose f hf1 hf2 using hser
    refine ⟨H, states, y, hnd, hs, hset ▸ hsm, hent, hy, hsys (fun h hh => ⟨f h hh, hf1 h hh, hf2 h hh⟩) hvec,
      fun k => f (hE k) (hex k), fun k => hf1 _ _, fun h => absurd h hsh, ?_⟩
    intro tOpIn psi big big' happ
    refine .ret fun k => ?_
    have hprog : rixsExcited A mode (ord k) k.val N tOpIn psi big (hE k)
        = (Prog.lift (expandBasisAndHamiltonianSerial A.n (hE k) A.hOp A.cut (Dict.keys psi1)
          A.restrictions A.fuel)).bind fun res =>
          (Prog.lift (psiVector res.2.1 psi1)).bind fun y => .ret ((res.1, ⟨res.2.1, y⟩), big', res.2.2) := by
      unfold rixsExcited
      rw [happ]
      cases mode <;> first | exact absurd trivial hsh | rfl
    rw [hprog, hf2 _ (hex k)]
    simp only [hvec, Prog.lift, Prog.bind]

/-! ### The intermediate state -/

theorem basisState_get {basis : List Bytes} (hb : basis.Nodup) {i : ℕ} (hi : i < basis.length) :
    Dict.get ((basisIndex basis).foldl (fun d p => Dict.set d p.2 p.1) ([] : Dict ℕ Bytes)) i = .ok basis[i] := by
  rw [basisIndex_eq basis hb]
  have aux : ∀ (l : List Bytes) (s : ℕ) (d : Dict ℕ Bytes) (j : ℕ),
      Dict.get? ((l.zipIdx s).foldl (fun d p => Dict.set d p.2 p.1) d) j
        = if h : s ≤ j ∧ j < s + l.length then some (l[j - s]'(by omega)) else Dict.get? d j := by
    intro l
    induction l with
    | nil => intro s d j; simp
    | cons b l ih =>
      intro s d j
      rw [List.zipIdx_cons, List.foldl_cons, ih, Dict.get?_set]
      by_cases h1 : s + 1 ≤ j ∧ j < s + 1 + l.length
      · rw [dif_pos h1, dif_pos (by simp; omega)]
        congr 1
        rw [List.getElem_cons, dif_neg (by omega)]
        congr 1
      · rw [dif_neg h1]
        by_cases h2 : j = s
        · subst h2
          simp
        · rw [if_neg (by omega), dif_neg (by simp; omega)]
  unfold Dict.get
  rw [aux, dif_pos (by omega)]
  rfl

/-- The vector that the solver returns, for the product states in `states`. -/
def rixsSolution (A : RixsArgs) (H : Mat ℂ) (index : Dict Bytes ℕ) (y : Fin index.length → ℂ) (e wIn : ℝ) :
    Fin index.length → ℂ :=
  A.solve index.length (((wIn : ℂ) + Complex.I * (A.delta1 : ℂ) + (e : ℂ)) • (1 : Matrix _ _ ℂ)
    - H.toMatrix index.length) y

theorem rixsIntermediate_spec (A : RixsArgs) (H : Mat ℂ) {states : List (Finset ℕ)} (hnd : states.Nodup)
    (hs : ∀ S ∈ states, S ⊆ range A.n) (y : Fin (basisIndex (states.map (encBytes A.n))).length → ℂ) (e wIn : ℝ) :
    ∃ psi2, rixsIntermediate A H (basisIndex (states.map (encBytes A.n))) y e wIn = .ok psi2 ∧ IsState A.n psi2 ∧
      (∀ S, S ∉ states → ampl A.n psi2 S = 0) ∧
      ∀ i : Fin (basisIndex (states.map (encBytes A.n))).length, ampl A.n psi2 (states.getD i.val ∅)
        = rixsSolution A H (basisIndex (states.map (encBytes A.n))) y e wIn i := by
  have hndB : (states.map (encBytes A.n)).Nodup := (nodup_map_enc hs).2 hnd
  have hlen := length_basisIndex hndB
  have hlen' : (basisIndex (states.map (encBytes A.n))).length = states.length := by rw [hlen, List.length_map]
  generalize hx : rixsSolution A H (basisIndex (states.map (encBytes A.n))) y e wIn = x
  have hstep : ∀ (psi2 : Psi ℂ) (i : Fin (basisIndex (states.map (encBytes A.n))).length),
      (if x i ≠ 0 then do
        let ps ← Dict.get ((basisIndex (states.map (encBytes A.n))).foldl (fun d p => Dict.set d p.2 p.1) []) i.val
        return Dict.set psi2 ps (x i)
      else return psi2 : Py (Psi ℂ))
        = .ok (if x i ≠ 0 then Dict.set psi2 (encBytes A.n (states.getD i.val ∅)) (x i) else psi2) := by
    intro psi2 i
    have hi : i.val < states.length := lt_of_lt_of_eq i.isLt hlen'
    split
    · rw [basisState_get hndB (by rw [List.length_map]; exact hi)]
      simp only [ok_bind, pure_ok]
      rw [List.getElem_map, List.getD_eq_getElem _ _ hi]
    · rfl
  have hfold : ∀ (l : List (Fin (basisIndex (states.map (encBytes A.n))).length)) (psi2 : Psi ℂ),
      l.foldlM (fun (psi2 : Psi ℂ) i => if x i ≠ 0 then do
        let ps ← Dict.get ((basisIndex (states.map (encBytes A.n))).foldl (fun d p => Dict.set d p.2 p.1) []) i.val
        return Dict.set psi2 ps (x i)
      else return psi2) psi2
        = (.ok (l.foldl (fun psi2 i => if x i ≠ 0 then Dict.set psi2 (encBytes A.n (states.getD i.val ∅)) (x i)
            else psi2) psi2) : Py (Psi ℂ)) := by
    intro l
    induction l with
    | nil => intro _; rfl
    | cons i l ih =>
      intro psi2
      rw [List.foldlM_cons, hstep]
      simp only [ok_bind]
      rw [ih, List.foldl_cons]
  have hmem : ∀ i : Fin (basisIndex (states.map (encBytes A.n))).length, states.getD i.val ∅ ∈ states := by
    intro i
    have hi : i.val < states.length := lt_of_lt_of_eq i.isLt hlen'
    rw [List.getD_eq_getElem _ _ hi]; exact List.getElem_mem hi
  have hinj : ∀ i j : Fin (basisIndex (states.map (encBytes A.n))).length,
      encBytes A.n (states.getD i.val ∅) = encBytes A.n (states.getD j.val ∅) → i = j := by
    intro i j h
    have h1 := encBytes_injOn (hs _ (hmem i)) (hs _ (hmem j)) h
    have hi : i.val < states.length := lt_of_lt_of_eq i.isLt hlen'
    have hj : j.val < states.length := lt_of_lt_of_eq j.isLt hlen'
    rw [List.getD_eq_getElem _ _ hi, List.getD_eq_getElem _ _ hj] at h1
    exact Fin.ext ((List.Nodup.getElem_inj_iff hnd).1 h1)
  have hinv : ∀ (l : List (Fin (basisIndex (states.map (encBytes A.n))).length)) (psi2 : Psi ℂ), l.Nodup →
      IsState A.n psi2 → (∀ k ∈ Dict.keys psi2, ∃ S ∈ states, k = encBytes A.n S) →
      (∀ i ∈ l, Dict.get? psi2 (encBytes A.n (states.getD i.val ∅)) = none) →
      IsState A.n (l.foldl (fun psi2 i => if x i ≠ 0 then Dict.set psi2 (encBytes A.n (states.getD i.val ∅)) (x i)
            else psi2) psi2) ∧
      (∀ k ∈ Dict.keys (l.foldl (fun psi2 i => if x i ≠ 0 then
          Dict.set psi2 (encBytes A.n (states.getD i.val ∅)) (x i) else psi2) psi2), ∃ S ∈ states, k = encBytes A.n S) ∧
      ∀ i, (Dict.get? (l.foldl (fun psi2 i => if x i ≠ 0 then
          Dict.set psi2 (encBytes A.n (states.getD i.val ∅)) (x i) else psi2) psi2)
            (encBytes A.n (states.getD i.val ∅))).getD 0
        = if i ∈ l then x i else (Dict.get? psi2 (encBytes A.n (states.getD i.val ∅))).getD 0 := by
    intro l
    induction l with
    | nil => intro psi2 _ h1 h2 _; exact ⟨h1, h2, fun i => by simp⟩
    | cons j l ih =>
      intro psi2 hl h1 h2 h3
      obtain ⟨hjl, hl'⟩ := List.nodup_cons.1 hl
      rw [List.foldl_cons]
      have hset : IsState A.n (if x j ≠ 0 then Dict.set psi2 (encBytes A.n (states.getD j.val ∅)) (x j) else psi2) ∧
          (∀ k ∈ Dict.keys (if x j ≠ 0 then Dict.set psi2 (encBytes A.n (states.getD j.val ∅)) (x j) else psi2),
            ∃ S ∈ states, k = encBytes A.n S) := by
        split
        · refine ⟨⟨Dict.nodupKeys_set h1.nodup _ _, fun k hk => ?_⟩, fun k hk => ?_⟩
          · rw [Dict.mem_keys_set] at hk
            rcases hk with rfl | hk
            · exact ⟨_, hs _ (hmem j), rfl⟩
            · exact h1.keys k hk
          · rw [Dict.mem_keys_set] at hk
            rcases hk with rfl | hk
            · exact ⟨_, hmem j, rfl⟩
            · exact h2 k hk
        · exact ⟨h1, h2⟩
      have hget : ∀ i, Dict.get? (if x j ≠ 0 then Dict.set psi2 (encBytes A.n (states.getD j.val ∅)) (x j) else psi2)
          (encBytes A.n (states.getD i.val ∅)) = if i = j ∧ x j ≠ 0 then some (x j)
            else Dict.get? psi2 (encBytes A.n (states.getD i.val ∅)) := by
        intro i
        by_cases hxj : x j ≠ 0
        · rw [if_pos hxj, Dict.get?_set]
          by_cases hij : i = j
          · subst hij; simp [hxj]
          · rw [if_neg (fun h => hij (hinj _ _ h).symm), if_neg (fun h => hij h.1)]
        · rw [if_neg hxj, if_neg (fun h => hxj h.2)]
      obtain ⟨i1, i2, i3⟩ := ih _ hl' hset.1 hset.2 (by
        intro i hi
        rw [hget, if_neg (by rintro ⟨rfl, -⟩; exact hjl hi)]
        exact h3 i (by simp [hi]))
      refine ⟨i1, i2, fun i => ?_⟩
      rw [i3 i, hget]
      by_cases hil : i ∈ l
      · simp [hil]
      · by_cases hij : i = j
        · subst hij
          by_cases hxi : x i = 0
          · rw [if_neg hil, if_neg (fun h => h.2 hxi), if_pos (by simp), h3 i (by simp), hxi]
            rfl
          · rw [if_neg hil, if_pos ⟨rfl, hxi⟩, if_pos (by simp)]
            rfl
        · simp [hil, hij]
  obtain ⟨h1, h2, h3⟩ := hinv (List.finRange _) [] (List.nodup_finRange _) ⟨by simp [Dict.NodupKeys, Dict.keys],
    fun k hk => absurd hk (by simp [Dict.keys])⟩ (fun k hk => absurd hk (by simp [Dict.keys])) (fun i _ => rfl)
  refine ⟨_, ?_, h1, fun S hS => ?_, fun i => ?_⟩
  · unfold rixsIntermediate
    show List.foldlM _ _ _ = _
    have : A.solve (basisIndex (states.map (encBytes A.n))).length
        (((wIn : ℂ) + Complex.I * (A.delta1 : ℂ) + (e : ℂ)) • (1 : Matrix _ _ ℂ)
          - H.toMatrix (basisIndex (states.map (encBytes A.n))).length) y = x := hx
    rw [this]
    exact hfold _ _
  · unfold ampl
    split
    · rename_i hS'
      rw [(Dict.get?_eq_none_iff _ _).2]
      · rfl
      · intro hk
        obtain ⟨T, hT, he⟩ := h2 _ hk
        exact hS (by rw [encBytes_injOn hS' (hs T hT) he]; exact hT)
    · rfl
  · have := h3 i
    simp only [List.mem_finRange, if_true] at this
    unfold ampl
    rw [if_pos (hs _ (hmem i)), this]

end

end Verif
