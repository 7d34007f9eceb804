import Verif.Lemmas.ExpandLoop

set_option linter.unusedSectionVars false
set_option linter.unusedSimpArgs false

namespace Verif

open Finset Spec Psr Mpi

section
variable {R F : Type} [CommRing R] [StarRing R] [CommRing F] [LinearOrder F]
  [IsStrictOrderedRing F] [Amp R F]
variable {n : ℕ} {op : Op ℕ R} {cut : F} {r : Option Restrictions} {N : ℕ}
  {sum : List (Msg R) → Msg R}

/-! ### local code -/

theorem knownFold {h : OpResult R} (hg : GoodDict n op cut r h) (basis l : List Bytes)
    (hl : ∀ b ∈ l, b ∈ Dict.keys h) (new : List Bytes) (hnew : new.Nodup) :
    ∃ new', l.foldlM (knownBody h basis) new = .ok new' ∧ new'.Nodup ∧
      ∀ x, x ∈ new' ↔ x ∈ new ∨ x ∉ basis ∧ ∃ b ∈ l, x ∈ succB n op cut r b := by
  induction l generalizing new with
  | nil => exact ⟨new, rfl, hnew, by simp⟩
  | cons b l ih =>
    have hb := hl b (by simp)
    rw [Dict.mem_keys_iff, Option.isSome_iff_exists] at hb
    obtain ⟨col, hcol⟩ := hb
    rw [List.foldlM_cons]
    have : knownBody h basis new b = .ok (setUpdate new (setDiff (Dict.keys col) basis)) := by
      unfold knownBody Dict.get
      rw [hcol]; rfl
    rw [this]
    simp only [bind, Except.bind]
    obtain ⟨new', h1, h2, h3⟩ := ih (fun b hb => hl b (by simp [hb])) _ (nodup_setUpdate hnew _)
    refine ⟨new', h1, h2, ?_⟩
    intro x
    rw [h3, mem_setUpdate, mem_setDiff, hg.mem_keys_col hcol]
    simp only [List.mem_cons, exists_eq_or_imp]
    tauto

/-- New columns of one rank. -/
def addCols (n : ℕ) (op : Op ℕ R) (cut : F) (r : Option Restrictions) (h : OpResult R)
    (l : List Bytes) : OpResult R :=
  l.foldl (fun h b => Dict.set h b (colB n op cut r b)) h

theorem addCols_append (h : OpResult R) (l l' : List Bytes) :
    addCols n op cut r h (l ++ l') = addCols n op cut r (addCols n op cut r h l) l' := by
  unfold addCols; rw [List.foldl_append]

theorem addCols_nil {l : List Bytes} (hl : l.Nodup) :
    addCols n op cut r ([] : OpResult R) l = l.map fun b => (b, colB n op cut r b) := by
  unfold addCols
  rw [Dict.foldl_set_fresh l (fun b => b) _ (by simpa using hl) _ (by simp)]
  rfl

theorem unknownFold (hop : OpInSystem n op) (basis tB : List Bytes) (idx : List ℕ)
    (hidx : ∀ i ∈ idx, i < tB.length) (hl : ∀ b ∈ tB, ValidState n b)
    (h : OpResult R) (new : List Bytes) (hnew : new.Nodup) :
    ∃ new', idx.foldlM (unknownBody n op cut r basis tB) (h, new)
        = .ok (addCols n op cut r h (idx.map fun i => tB.getD i []), new') ∧ new'.Nodup ∧
      ∀ x, x ∈ new' ↔ x ∈ new ∨ x ∉ basis ∧
        ∃ b ∈ idx.map (fun i => tB.getD i []), x ∈ succB n op cut r b := by
  induction idx generalizing h new with
  | nil => exact ⟨new, rfl, hnew, by simp⟩
  | cons i idx ih =>
    have hi := hidx i (by simp)
    have hv : ValidState n tB[i] := hl _ (List.getElem_mem hi)
    have e : tB.getD i [] = tB[i] := by simp [hi]
    rw [List.foldlM_cons]
    have : unknownBody n op cut r basis tB (h, new) i
        = .ok (Dict.set h tB[i] (colB n op cut r tB[i]),
            setUpdate new (setDiff (succB n op cut r tB[i]) basis)) := by
      unfold unknownBody
      rw [pyGet_ofNat _ _ hi]
      simp only [bind, Except.bind, applyOp_colB hop hv, pure, Except.pure]
      rfl
    rw [this]
    simp only [bind, Except.bind]
    obtain ⟨new', h1, h2, h3⟩ := ih (fun b hb => hidx b (by simp [hb])) _ _ (nodup_setUpdate hnew _)
    refine ⟨new', ?_, h2, ?_⟩
    · rw [h1, List.map_cons, e]; rfl
    · intro x
      rw [h3, mem_setUpdate, mem_setDiff, List.map_cons, e]
      simp only [List.mem_cons, exists_eq_or_imp]
      tauto

theorem getD_perm_jobs {ranks : ℕ} (tB : List Bytes) (hr : 0 < ranks) :
    ((List.range ranks).flatMap fun k =>
      (jobsPure ranks (List.range tB.length) k).map fun i => tB.getD i []).Perm tB := by
  rw [← List.map_flatMap]
  refine ((jobsPure_perm hr (List.range tB.length)).map _).trans ?_
  have : (List.range tB.length).map (fun i => tB.getD i []) = tB := by
    apply List.ext_getElem
    · simp
    · intro i h1 h2
      simp [h2]
  rw [this]

/-! ### communication -/

/-- Rank 0 collects the known states. -/
theorem runs_recvKnown (hN : 0 < N) (A : Fin N → List Bytes) (f : List Bytes → Msg R)
    (rs : List (Fin N)) (hnd : rs.Nodup) (h0 : (⟨0, hN⟩ : Fin N) ∉ rs) (setB : List Bytes) :
    Runs sum (fun k : Fin N => if k.val = 0 then
        (recvKnown (rs.map Fin.val) setB).bind fun b => .ret (f b)
      else if k ∈ rs then (send 0 0 (.states (A k))).bind fun _ => .ret Msg.none
      else .ret Msg.none)
      (fun k => if k.val = 0 then f (setB.filter fun x => ∀ k ∈ rs, x ∉ A k) else Msg.none) := by
  induction rs generalizing setB with
  | nil =>
    refine .ret fun k => ?_
    by_cases hk : k.val = 0
    · simp [hk, recvKnown, Prog.bind]
    · simp [hk]
  | cons s rs ih =>
    rw [List.nodup_cons] at hnd
    have hs0 : s ≠ ⟨0, hN⟩ := fun e => h0 (by simp [e])
    have hs0' : s.val ≠ 0 := fun e => hs0 (Fin.ext e)
    have hstep : SyncStep sum (fun k : Fin N => if k.val = 0 then
        (recvKnown ((s :: rs).map Fin.val) setB).bind fun b => .ret (f b)
      else if k ∈ s :: rs then (send 0 0 (.states (A k))).bind fun _ => .ret Msg.none
      else .ret Msg.none)
      (fun k : Fin N => if k.val = 0 then
        (recvKnown (rs.map Fin.val) (setB.filter fun x => x ∉ A s)).bind fun b => .ret (f b)
      else if k ∈ rs then (send 0 0 (.states (A k))).bind fun _ => .ret Msg.none
      else .ret Msg.none) := by
      have := SyncStep.msg (sum := sum) (fun k : Fin N => if k.val = 0 then
        (recvKnown ((s :: rs).map Fin.val) setB).bind fun b => .ret (f b)
      else if k ∈ s :: rs then (send 0 0 (.states (A k))).bind fun _ => .ret Msg.none
      else .ret Msg.none) s ⟨0, hN⟩ 0 (.states (A s)) (.ret Msg.none)
        (fun m => ((asStates m).bind fun l => recvKnown (rs.map Fin.val)
          (setB.filter fun x => x ∉ l)).bind fun b => .ret (f b)) hs0
        (by simp [hs0', send, Prog.bind]) (by simp [recvKnown, recv, Prog.bind])
      convert this using 1
      funext k
      by_cases hk0 : k = ⟨0, hN⟩
      · subst hk0
        simp [asStates, Prog.bind]
      · have hk0' : k.val ≠ 0 := fun e => hk0 (Fin.ext e)
        rw [Function.update_of_ne hk0]
        by_cases hks : k = s
        · subst hks
          simp [hk0', hnd.1]
        · rw [Function.update_of_ne hks]
          simp [hk0', hks]
    refine .step hstep ((ih hnd.2 (fun h => h0 (by simp [h])) _).congr (fun _ => rfl) ?_)
    intro k
    by_cases hk : k.val = 0
    · simp only [hk, if_true]
      congr 1
      rw [List.filter_filter]
      congr 1
      funext x
      simp [Bool.and_comm]
    · simp [hk]

theorem runs_gatherNew (rs : List (Fin N)) (L : Fin N → List Bytes) (acc : List Bytes) :
    Runs sum (fun k : Fin N => gatherNew (R := R) (L k) (rs.map Fin.val) acc)
      (fun _ => rs.foldl (fun acc s => setUpdate acc (L s)) acc) := by
  induction rs generalizing acc with
  | nil => exact .ret fun k => rfl
  | cons s rs ih =>
    refine Runs.bind (P := fun k : Fin N => Mpi.bcast s.val (Msg.states (R := R) (L k)))
      (Runs.bcast _ s (fun k => Msg.states (L k)) (fun _ => rfl)) ?_
    exact (ih (setUpdate acc (L s))).congr (fun _ => rfl) (fun _ => rfl)

theorem mem_foldl_setUpdate {α : Type*} (rs : List α) (L : α → List Bytes) (acc : List Bytes) (x : Bytes) :
    x ∈ rs.foldl (fun acc s => setUpdate acc (L s)) acc ↔ x ∈ acc ∨ ∃ s ∈ rs, x ∈ L s := by
  induction rs generalizing acc with
  | nil => simp
  | cons s rs ih =>
    rw [List.foldl_cons, ih, mem_setUpdate]
    simp [or_assoc]

theorem nodup_foldl_setUpdate {α : Type*} (rs : List α) (L : α → List Bytes) {acc : List Bytes}
    (h : acc.Nodup) : (rs.foldl (fun acc s => setUpdate acc (L s)) acc).Nodup := by
  induction rs generalizing acc with
  | nil => exact h
  | cons s rs ih => exact ih (nodup_setUpdate h _)

theorem lift_bind_ok {M A B : Type} (a : A) (f : A → Prog M B) :
    (Prog.lift (.ok a)).bind f = f a := rfl

theorem finRange_map_val (N : ℕ) : (List.finRange N).map Fin.val = List.range N := by
  simp

theorem finRange_tail (hN : 0 < N) : ∃ rs : List (Fin N), rs.map Fin.val = List.range' 1 (N - 1) ∧
    rs.Nodup ∧ (⟨0, hN⟩ : Fin N) ∉ rs ∧ ∀ k : Fin N, k.val ≠ 0 → k ∈ rs := by
  obtain ⟨m, rfl⟩ : ∃ m, N = m + 1 := ⟨N - 1, by omega⟩
  refine ⟨(List.finRange m).map Fin.succ, ?_, ?_, ?_, ?_⟩
  · rw [List.map_map]
    have : (Fin.val ∘ Fin.succ : Fin m → ℕ) = (fun x => 1 + x) ∘ Fin.val := by
      funext x; simp [Nat.add_comm]
    rw [this, ← List.map_map, finRange_map_val, Nat.add_sub_cancel, List.range_eq_range',
      List.map_add_range']
  · exact (List.nodup_finRange m).map (Fin.succ_injective m)
  · intro h
    obtain ⟨x, -, hx⟩ := List.mem_map.1 h
    exact absurd (congrArg Fin.val hx) (by simp)
  · intro k hk
    refine List.mem_map.2 ⟨k.pred (fun e => hk (congrArg Fin.val e)), by simp, by simp⟩

/-! ### the loop -/

/-- What the ranks have added at the end: `parts k` are the product states whose
columns rank `k` has computed. -/
theorem hBuildLoop_runs (hop : OpInSystem n op) (hN : 0 < N)
    (ord : Fin N → ℕ → List Bytes → List Bytes) (hord : ∀ k i l, (ord k i l).Perm l)
    (hDict : Fin N → OpResult R) (hg : ∀ k, GoodDict n op cut r (hDict k))
    (fuel : ℕ) (basis : List Bytes) (hb : ∀ b ∈ basis, ValidState n b) (i : ℕ)
    (hi : i ≤ basis.length) (hNew : Fin N → OpResult R) (B : List Bytes)
    (hB : growLoop (succB n op cut r) fuel basis i = some B) :
    ∃ parts : Fin N → List Bytes,
      Runs sum (fun k : Fin N => hBuildLoop n op cut r (ord k) k.val N (hDict k) fuel basis i (hNew k))
        (fun k => (B, Dict.update (hDict k) (addCols n op cut r (hNew k) (parts k)))) ∧
      ((List.finRange N).flatMap parts).Nodup ∧
      ∀ x, x ∈ (List.finRange N).flatMap parts ↔ x ∈ B.drop i ∧ ∀ k, x ∉ Dict.keys (hDict k) := by
  induction fuel generalizing basis i hNew with
  | zero => cases hB
  | succ fuel ih =>
    unfold growLoop at hB
    unfold hBuildLoop
    by_cases hlt : i < basis.length
    · rw [if_pos hlt] at hB
      simp only [if_pos hlt]
      set slice := basis.drop i with hslice
      have hsl : ∀ b ∈ slice, ValidState n b := fun b hb' => hb b (List.mem_of_mem_drop hb')
      let A : Fin N → List Bytes := fun k => (setOf slice).filter fun b => b ∈ Dict.keys (hDict k)
      have hA : ∀ k x, x ∈ A k ↔ x ∈ slice ∧ x ∈ Dict.keys (hDict k) := by
        intro k x; simp [A, mem_setOf]
      -- known states
      have hk : ∀ k, ∃ new', (ord k (2 * i) (A k)).foldlM (knownBody (hDict k) basis) [] = .ok new' ∧
          new'.Nodup ∧ ∀ x, x ∈ new' ↔ x ∉ basis ∧ ∃ b ∈ A k, x ∈ succB n op cut r b := by
        intro k
        obtain ⟨new', h1, h2, h3⟩ := knownFold (hg k) basis (ord k (2 * i) (A k))
          (fun b hb' => ((hA k b).1 ((hord k _ _).mem_iff.1 hb')).2) [] List.nodup_nil
        refine ⟨new', h1, h2, fun x => ?_⟩
        rw [h3]
        simp only [List.not_mem_nil, false_or, (hord k (2 * i) (A k)).mem_iff]
      choose new1 hn1 hn1d hn1m using hk
      -- unknown states
      obtain ⟨rs, hrs, hrsd, hrs0, hrsall⟩ := finRange_tail hN
      let zero : Fin N := ⟨0, hN⟩
      let setB := (setDiff slice (A zero)).filter fun x => ∀ k ∈ rs, x ∉ A k
      let tB := ord zero (2 * i + 1) setB
      have hsetB : ∀ x, x ∈ setB ↔ x ∈ slice ∧ ∀ k, x ∉ Dict.keys (hDict k) := by
        intro x
        simp only [setB, List.mem_filter, mem_setDiff, decide_eq_true_eq, hA, not_and]
        constructor
        · rintro ⟨⟨h1, h2⟩, h3⟩
          refine ⟨h1, fun k => ?_⟩
          by_cases hk0 : k.val = 0
          · have : k = zero := Fin.ext hk0
            subst this; exact h2 h1
          · exact h3 k (hrsall k hk0) h1
        · rintro ⟨h1, h2⟩
          exact ⟨⟨h1, fun _ => h2 zero⟩, fun k _ _ => h2 k⟩
      have htB : ∀ x, x ∈ tB ↔ x ∈ slice ∧ ∀ k, x ∉ Dict.keys (hDict k) := by
        intro x; rw [← hsetB]; exact (hord zero _ _).mem_iff
      have htBd : tB.Nodup := (hord zero _ _).nodup_iff.2 (((nodup_setDiff _ _)).filter _)
      have htBv : ∀ b ∈ tB, ValidState n b := fun b hb' => hsl b ((htB b).1 hb').1
      let part1 : Fin N → List Bytes := fun k =>
        (jobsPure N (List.range tB.length) k.val).map fun j => tB.getD j []
      have hpart1 : ((List.finRange N).flatMap part1).Perm tB := by
        have h1 := getD_perm_jobs tB hN
        rw [← finRange_map_val N, List.flatMap_map] at h1
        exact h1
      have hu : ∀ k : Fin N, ∃ new', (do
          let jobs ← getJobTasks k.val N (List.range tB.length)
          jobs.foldlM (unknownBody n op cut r basis tB) (hNew k, new1 k))
            = .ok (addCols n op cut r (hNew k) (part1 k), new') ∧ new'.Nodup ∧
          ∀ x, x ∈ new' ↔ x ∈ new1 k ∨ x ∉ basis ∧ ∃ b ∈ part1 k, x ∈ succB n op cut r b := by
        intro k
        rw [getJobTasks_eq k.isLt]
        simp only [bind, Except.bind]
        exact unknownFold hop basis tB _
          (fun j hj => List.mem_range.1 (mem_jobsPure hN _ k.isLt hj)) htBv _ _ (hn1d k)
      choose new2 hn2 hn2d hn2m using hu
      -- all new states
      let new3 := (List.finRange N).foldl (fun acc s => setUpdate acc (new2 s)) []
      have hnew3 : sortedBytes new3 = newStates (succB n op cut r) basis i := by
        refine sortedBytes_eq_newStates _ (nodup_foldl_setUpdate _ _ List.nodup_nil) ?_
        intro x
        rw [mem_foldl_setUpdate]
        simp only [List.not_mem_nil, false_or, List.mem_finRange, true_and, hn2m, hn1m]
        constructor
        · rintro ⟨k, ⟨h1, b, hb', hx⟩ | ⟨h1, b, hb', hx⟩⟩
          · exact ⟨h1, b, ((hA k b).1 hb').1, hx⟩
          · refine ⟨h1, b, ?_, hx⟩
            exact ((htB b).1 (hpart1.mem_iff.1 (List.mem_flatMap.2 ⟨k, by simp, hb'⟩))).1
        · rintro ⟨h1, b, hb', hx⟩
          by_cases hkn : ∃ k, b ∈ Dict.keys (hDict k)
          · obtain ⟨k, hkn⟩ := hkn
            exact ⟨k, Or.inl ⟨h1, b, (hA k b).2 ⟨hb', hkn⟩, hx⟩⟩
          · have : b ∈ tB := (htB b).2 ⟨hb', fun k hk' => hkn ⟨k, hk'⟩⟩
            obtain ⟨k, -, hbk⟩ := List.mem_flatMap.1 (hpart1.mem_iff.2 this)
            exact ⟨k, Or.inr ⟨h1, b, hbk, hx⟩⟩
      obtain ⟨parts, hruns, hpd, hpm⟩ := ih (basis ++ newStates (succB n op cut r) basis i)
        (valid_newStates hop hb i) basis.length (by simp)
        (fun k => addCols n op cut r (hNew k) (part1 k)) hB
      obtain ⟨rest, hBr, hrestd, hrestb⟩ := growLoop_prefix _ _ _ _ _ hB
      have hdrop : B.drop i = slice ++ B.drop basis.length := by
        rw [hBr, List.append_assoc, List.drop_append_of_le_length hi,
          List.drop_append_of_le_length le_rfl]
        simp [hslice]
      have hperm : ((List.finRange N).flatMap fun k => part1 k ++ parts k).Perm
          (((List.finRange N).flatMap part1) ++ (List.finRange N).flatMap parts) :=
        (List.flatMap_append_perm _ _ _).symm
      refine ⟨fun k => part1 k ++ parts k, ?_, ?_, ?_⟩
      · -- the run
        have h1 : ∀ k, (Prog.lift ((ord k (2 * i) (A k)).foldlM (knownBody (hDict k) basis) []) :
            Prog (Msg R) _) = .ret (new1 k) := by
          intro k; rw [hn1 k]; rfl
        simp only [A] at h1
        simp only [h1]
        simp only [Prog.bind]
        -- collect
        have hstage := runs_recvKnown (sum := sum) (R := R) hN A
          (fun b => Msg.states (ord zero (2 * i + 1) b)) rs hrsd hrs0 (setDiff slice (A zero))
        rw [hrs] at hstage
        refine Runs.bind (out := fun k : Fin N => if k.val = 0 then Msg.states tB else Msg.none)
          (hstage.congr ?_ (fun _ => rfl)) ?_
        · intro k
          by_cases hk0 : k.val = 0
          · have : k = zero := Fin.ext hk0
            subst this
            simp [zero, A]
          · simp [hk0, hrsall k hk0, A]
        -- broadcast of the tuple
        refine Runs.bind (Runs.bcast (N := N) _ zero
          (fun k : Fin N => if k.val = 0 then Msg.states tB else Msg.none) (fun _ => rfl)) ?_
        have e0 : (if zero.val = 0 then Msg.states tB else (Msg.none : Msg R)) = Msg.states tB := if_pos rfl
        simp only [e0, asStates, Prog.bind]
        -- unknown states
        have h2 : ∀ k : Fin N, (Prog.lift (do
          let jobs ← getJobTasks k.val N (List.range tB.length)
          jobs.foldlM (unknownBody n op cut r basis tB) (hNew k, new1 k)) : Prog (Msg R) _)
            = .ret (addCols n op cut r (hNew k) (part1 k), new2 k) := by
          intro k; rw [hn2 k]; rfl
        simp only [h2, Prog.bind]
        have hgather := runs_gatherNew (sum := sum) (R := R) (List.finRange N) new2 []
        rw [finRange_map_val] at hgather
        refine Runs.bind hgather ?_
        change Runs sum (fun k : Fin N => hBuildLoop n op cut r (ord k) k.val N (hDict k) fuel
          (basis ++ sortedBytes new3) basis.length (addCols n op cut r (hNew k) (part1 k))) _
        rw [hnew3]
        refine hruns.congr (fun _ => rfl) (fun k => ?_)
        rw [addCols_append]
      · rw [hperm.nodup_iff, List.nodup_append]
        refine ⟨hpart1.nodup_iff.2 htBd, hpd, ?_⟩
        rintro x hx y hy rfl
        have h1 := ((htB x).1 (hpart1.mem_iff.1 hx)).1
        have h2 := ((hpm x).1 hy).1
        rw [hBr, List.append_assoc, List.drop_left] at h2
        have hxb : x ∈ basis := List.mem_of_mem_drop h1
        rcases List.mem_append.1 h2 with h2 | h2
        · exact ((mem_newStates _ _ _ _).1 h2).1 hxb
        · exact hrestb x h2 (List.mem_append_left _ hxb)
      · intro x
        rw [hperm.mem_iff, List.mem_append, hpart1.mem_iff, htB, hpm, hdrop, List.mem_append]
        tauto
    · rw [if_neg hlt] at hB
      injection hB with hB
      subst hB
      simp only [if_neg hlt]
      have e : (List.finRange N).flatMap (fun _ => ([] : List Bytes)) = [] := by simp
      refine ⟨fun _ => [], .ret fun k => rfl, ?_, ?_⟩
      · rw [e]; exact List.nodup_nil
      intro x
      rw [e, List.drop_of_length_le (by omega)]
      simp

end

end Verif
