/-
C22-C26, C29: expansion of the basis and the Hamiltonian in it, serial and
MPI-parallel.

`cut` is the cutoff of `applyOp` (1e-12 in these functions).  `fuel` bounds the
passes of the `while` loop; the theorems hold for every large enough bound, so
the loop ends by itself.
-/
import Verif.Lemmas.ExpandResult
import Verif.Prop.Hamiltonian

namespace Verif

open Finset Psr Spec Mpi

section
variable {R F : Type} [CommRing R] [StarRing R] [CommRing F] [LinearOrder F]
  [IsStrictOrderedRing F] [Amp R F]

/-- C22.  `expand_basis` terminates.  Its result starts with `basis0`, has no
repetitions if `basis0` has none, and is the smallest set of product states that
contains `basis0` and that the pruned, restricted operator does not lead out of.
`h_dict` keeps its entries and gets exactly the missing columns of the basis. -/
theorem C22_expand_basis (n : ℕ) (op : Op ℕ R) (hop : OpInSystem n op) (cut : F) (hcut : 0 < cut)
    (r : Option Restrictions) (hDict : Dict Bytes (Psi R)) (hd : ColumnsExact n op cut r hDict)
    (states0 : List (Finset ℕ)) (hst : ∀ S ∈ states0, S ⊆ range n) :
    ∃ (states : List (Finset ℕ)) (hDict' : Dict Bytes (Psi R)),
      (∀ fuel ≥ 2 ^ n + 2, expandBasisSerial n hDict op cut (states0.map (encBytes n)) r fuel
        = .ok (states.map (encBytes n), hDict')) ∧
      (∀ S ∈ states, S ⊆ range n) ∧ states0 <+: states ∧ (states0.Nodup → states.Nodup) ∧
      SmallestInvariant n op cut r {S | S ∈ states0} {S | S ∈ states} ∧
      ColumnsExact n op cut r hDict' ∧
      (∀ k, k ∈ Dict.keys hDict' ↔ k ∈ Dict.keys hDict ∨ k ∈ states.map (encBytes n)) ∧
      ∀ k col, Dict.get? hDict k = some col → Dict.get? hDict' k = some col := by
  obtain ⟨states, hs, hgrow, hpre, hnd, hsm⟩ := expansion hop hcut r states0 hst
  have hg := (goodDict_iff hop hcut hDict).1 hd
  refine ⟨states, extendCols n op cut r hDict (states.map (encBytes n)), ?_, hs, hpre, hnd, hsm, ?_, ?_, ?_⟩
  · intro fuel hf
    unfold expandBasisSerial
    rw [expandSerialLoop_eq hop fuel _ (valid_map hst) 0 (by simp) hDict hg _ (hgrow fuel hf)]
    simp
  · rw [goodDict_iff hop hcut]
    exact goodDict_extendCols hop hg (valid_map hs)
  · intro k
    rw [Dict.mem_keys_iff, Dict.mem_keys_iff, get?_extendCols]
    cases Dict.get? hDict k with
    | some c => simp
    | none => by_cases hk : k ∈ states.map (encBytes n) <;> simp [hk]
  · intro k col hk
    rw [get?_extendCols, hk]

/-- The result of an `H_build` expansion, with the keys of the dictionaries. -/
theorem hBuild_keys {N : ℕ} (hN : 0 < N) {n : ℕ} {op : Op ℕ R} (hop : OpInSystem n op) {cut : F}
    (hcut : 0 < cut) (r : Option Restrictions) (hDict : Fin N → Dict Bytes (Psi R))
    (hd : ∀ k, ColumnsExact n op cut r (hDict k))
    (ord : Fin N → ℕ → List Bytes → List Bytes) (hord : ∀ k i l, (ord k i l).Perm l)
    (sum : List (Msg R) → Msg R)
    (states0 : List (Finset ℕ)) (hst : ∀ S ∈ states0, S ⊆ range n) (fuel : ℕ)
    (hf : 2 ^ n + 2 ≤ fuel) :
    ∃ (states : List (Finset ℕ)) (hDict' : Fin N → Dict Bytes (Psi R)),
      Runs sum (fun k : Fin N => expandBasisHBuild n (hDict k) op cut (states0.map (encBytes n)) r
        (ord k) k.val N fuel) (fun k => (states.map (encBytes n), hDict' k)) ∧
      (∀ S ∈ states, S ⊆ range n) ∧ (states0.Nodup → states.Nodup) ∧
      SmallestInvariant n op cut r {S | S ∈ states0} {S | S ∈ states} ∧
      growLoop (succB n op cut r) fuel (states0.map (encBytes n)) 0 = some (states.map (encBytes n)) ∧
      (∀ k, ColumnsExact n op cut r (hDict' k)) ∧
      (DisjointKeys hDict → DisjointKeys hDict') ∧
      (∀ b, b ∈ states.map (encBytes n) → ∃ k, b ∈ Dict.keys (hDict' k)) ∧
      (∀ b, (∃ k, b ∈ Dict.keys (hDict' k)) ↔
        (∃ k, b ∈ Dict.keys (hDict k)) ∨ b ∈ states.map (encBytes n)) := by
  obtain ⟨states, hs, hgrow, -, hnd, hsm⟩ := expansion hop hcut r states0 hst
  have hg : ∀ k, GoodDict n op cut r (hDict k) := fun k => (goodDict_iff hop hcut _).1 (hd k)
  obtain ⟨parts, hruns, hpd, hpm⟩ := hBuildLoop_runs (sum := sum) hop hN ord hord hDict hg fuel _
    (valid_map hst) 0 (by simp) (fun _ => []) _ (hgrow fuel hf)
  simp only [List.drop_zero] at hpm
  have hmem : ∀ k x, x ∈ parts k → x ∈ states.map (encBytes n) ∧ ∀ l, x ∉ Dict.keys (hDict l) :=
    fun k x hx => (hpm x).1 (List.mem_flatMap.2 ⟨k, by simp, hx⟩)
  refine ⟨states, _, hruns, hs, hnd, hsm, hgrow fuel hf, ?_, ?_, ?_, ?_⟩
  · intro k
    rw [goodDict_iff hop hcut]
    exact goodDict_update_addCols hop (hg k) (fun b hb => valid_map hs b (hmem k b hb).1)
  · intro hdis k l hkl b hbk hbl
    simp only [mem_keys_update_addCols] at hbk hbl
    have hpw : ∀ x, x ∈ parts k → x ∈ parts l → False := by
      intro x hxk hxl
      rw [List.nodup_flatMap] at hpd
      have hsym : Std.Symm (Function.onFun List.Disjoint parts) := ⟨fun a b h => h.symm⟩
      exact (hpd.2.forall (List.mem_finRange k) (List.mem_finRange l) hkl) hxk hxl
    rcases hbk with hbk | hbk <;> rcases hbl with hbl | hbl
    · exact hpw b hbk hbl
    · exact (hmem k b hbk).2 l hbl
    · exact (hmem l b hbl).2 k hbk
    · exact hdis k l hkl b hbk hbl
  · intro b hb
    by_cases hk : ∃ k, b ∈ Dict.keys (hDict k)
    · obtain ⟨k, hk⟩ := hk
      exact ⟨k, (mem_keys_update_addCols _ _ _).2 (Or.inr hk)⟩
    · obtain ⟨k, -, hbk⟩ := List.mem_flatMap.1 ((hpm b).2 ⟨hb, fun k h => hk ⟨k, h⟩⟩)
      exact ⟨k, (mem_keys_update_addCols _ _ _).2 (Or.inl hbk)⟩
  · intro b
    constructor
    · rintro ⟨k, hk⟩
      rcases (mem_keys_update_addCols _ _ _).1 hk with h | h
      · exact Or.inr (hmem k b h).1
      · exact Or.inl ⟨k, h⟩
    · intro h
      by_cases hk : ∃ k, b ∈ Dict.keys (hDict k)
      · obtain ⟨k, hk⟩ := hk
        exact ⟨k, (mem_keys_update_addCols _ _ _).2 (Or.inr hk)⟩
      · obtain ⟨k, -, hbk⟩ := List.mem_flatMap.1
          ((hpm b).2 ⟨h.resolve_left hk, fun k h => hk ⟨k, h⟩⟩)
        exact ⟨k, (mem_keys_update_addCols _ _ _).2 (Or.inl hbk)⟩

/-- The result of an `H_build` expansion. -/
theorem hBuild_result {N : ℕ} (hN : 0 < N) {n : ℕ} {op : Op ℕ R} (hop : OpInSystem n op) {cut : F}
    (hcut : 0 < cut) (r : Option Restrictions) (hDict : Fin N → Dict Bytes (Psi R))
    (hd : ∀ k, ColumnsExact n op cut r (hDict k))
    (ord : Fin N → ℕ → List Bytes → List Bytes) (hord : ∀ k i l, (ord k i l).Perm l)
    (sum : List (Msg R) → Msg R)
    (states0 : List (Finset ℕ)) (hst : ∀ S ∈ states0, S ⊆ range n) (fuel : ℕ)
    (hf : 2 ^ n + 2 ≤ fuel) :
    ∃ (states : List (Finset ℕ)) (hDict' : Fin N → Dict Bytes (Psi R)),
      Runs sum (fun k : Fin N => expandBasisHBuild n (hDict k) op cut (states0.map (encBytes n)) r
        (ord k) k.val N fuel) (fun k => (states.map (encBytes n), hDict' k)) ∧
      (∀ S ∈ states, S ⊆ range n) ∧ (states0.Nodup → states.Nodup) ∧
      SmallestInvariant n op cut r {S | S ∈ states0} {S | S ∈ states} ∧
      growLoop (succB n op cut r) fuel (states0.map (encBytes n)) 0 = some (states.map (encBytes n)) ∧
      (∀ k, ColumnsExact n op cut r (hDict' k)) ∧
      (DisjointKeys hDict → DisjointKeys hDict') ∧
      (∀ b, b ∈ states.map (encBytes n) → ∃ k, b ∈ Dict.keys (hDict' k)) := by
  obtain ⟨states, hDict', h1, h2, h3, h4, h5, h6, h7, h8, -⟩ :=
    hBuild_keys hN hop hcut r hDict hd ord hord sum states0 hst fuel hf
  exact ⟨states, hDict', h1, h2, h3, h4, h5, h6, h7, h8⟩

/-- C23, C50.  In mode `H_build`, for any number of ranks, any distribution of
already known columns, any iteration order of sets on any rank and any schedule of
the ranks, all ranks finish, and all return the basis (in the same order) that the
serial mode returns. -/
theorem C23_parallel_expand {N : ℕ} (hN : 0 < N) (n : ℕ) (op : Op ℕ R) (hop : OpInSystem n op)
    (cut : F) (hcut : 0 < cut) (r : Option Restrictions) (hDict : Fin N → Dict Bytes (Psi R))
    (hd : ∀ k, ColumnsExact n op cut r (hDict k))
    (ord : Fin N → ℕ → List Bytes → List Bytes) (hord : ∀ k i l, (ord k i l).Perm l)
    (sum : List (Msg R) → Msg R)
    (states0 : List (Finset ℕ)) (hst : ∀ S ∈ states0, S ⊆ range n) (fuel : ℕ)
    (hf : 2 ^ n + 2 ≤ fuel) :
    ∃ (basis : List Bytes) (hDict' : Fin N → Dict Bytes (Psi R)),
      AllRanksFinish sum (fun k : Fin N => expandBasisHBuild n (hDict k) op cut
        (states0.map (encBytes n)) r (ord k) k.val N fuel) (fun k => (basis, hDict' k)) ∧
      ∀ hSerial, ColumnsExact n op cut r hSerial → ∃ hSerial',
        expandBasisSerial n hSerial op cut (states0.map (encBytes n)) r fuel = .ok (basis, hSerial') := by
  obtain ⟨states, hDict', hruns, -, -, -, hgrow, -⟩ :=
    hBuild_result hN hop hcut r hDict hd ord hord sum states0 hst fuel hf
  refine ⟨_, hDict', hruns.allRanksFinish, ?_⟩
  intro hSer hSd
  have hg := (goodDict_iff hop hcut hSer).1 hSd
  exact ⟨_, expandSerialLoop_eq hop fuel _ (valid_map hst) 0 (by simp) hSer hg _ hgrow⟩

/-- The dictionaries of the ranks, and the basis returned last, after any number
of `H_build` expansions from empty dictionaries.  Start states, set orders and
schedules differ from call to call. -/
inductive HBuildHistory (N n : ℕ) (op : Op ℕ R) (cut : F) (r : Option Restrictions)
    (sum : List (Msg R) → Msg R) : (Fin N → Dict Bytes (Psi R)) → List Bytes → Prop where
  | start : HBuildHistory N n op cut r sum (fun _ => []) []
  | call (hDict : Fin N → Dict Bytes (Psi R)) (basis : List Bytes)
      (prev : HBuildHistory N n op cut r sum hDict basis)
      (states0 : List (Finset ℕ)) (hst : ∀ S ∈ states0, S ⊆ range n)
      (ord : Fin N → ℕ → List Bytes → List Bytes) (hord : ∀ k i l, (ord k i l).Perm l)
      (fuel : ℕ) (hf : 2 ^ n + 2 ≤ fuel) (basis' : Fin N → List Bytes)
      (hDict' : Fin N → Dict Bytes (Psi R))
      (run : CanFinish sum (fun k : Fin N => expandBasisHBuild n (hDict k) op cut
        (states0.map (encBytes n)) r (ord k) k.val N fuel) (fun k => (basis' k, hDict' k)))
      (k : Fin N) : HBuildHistory N n op cut r sum hDict' (basis' k)

/-- C24.  After any history of `H_build` expansions no product state is a key on
two ranks, every stored column is exact, and each product state of the last basis
is a key on exactly one rank. -/
theorem C24_one_rank {N : ℕ} (n : ℕ) (op : Op ℕ R) (hop : OpInSystem n op) (cut : F)
    (hcut : 0 < cut) (r : Option Restrictions) (sum : List (Msg R) → Msg R)
    (hDict : Fin N → Dict Bytes (Psi R)) (basis : List Bytes)
    (h : HBuildHistory N n op cut r sum hDict basis) :
    DisjointKeys hDict ∧ (∀ k, ColumnsExact n op cut r (hDict k)) ∧
      ∀ b ∈ basis, ∃! k, b ∈ Dict.keys (hDict k) := by
  induction h with
  | start =>
    refine ⟨fun k l _ b hb => by simp at hb, fun k => ?_, by simp⟩
    exact (goodDict_iff hop hcut _).2 goodDict_nil
  | call hDict basis prev states0 hst ord hord fuel hf basis' hDict' run k ih =>
    obtain ⟨hdis, hd, -⟩ := ih
    have hN : 0 < N := by have := k.isLt; omega
    obtain ⟨states, h'', hruns, hs, hnd, hsm, hgrow, hcol, hdis', hall⟩ :=
      hBuild_result hN hop hcut r hDict hd ord hord sum states0 hst fuel hf
    have he := hruns.allRanksFinish.unique run
    have e1 : ∀ k, basis' k = states.map (encBytes n) := fun k => congrArg Prod.fst (congrFun he k)
    have e2 : hDict' = h'' := funext fun k => congrArg Prod.snd (congrFun he k)
    rw [e1, e2]
    refine ⟨hdis' hdis, hcol, ?_⟩
    intro b hb
    obtain ⟨l, hl⟩ := hall b hb
    refine ⟨l, hl, ?_⟩
    intro m hm
    by_contra hne
    exact hdis' hdis m l hne b hm hl

omit [StarRing R] in
/-- The sum of local entries when exactly one rank has the column. -/
theorem sum_unique {N : ℕ} (p : Fin N → Prop) [DecidablePred p] (k₀ : Fin N) (h0 : p k₀)
    (hu : ∀ k, p k → k = k₀) (x : R) :
    ∑ k, (if p k then x else 0) = x := by
  rw [Finset.sum_eq_single k₀]
  · rw [if_pos h0]
  · intro k _ hk
    rw [if_neg (fun h => hk (hu k h))]
  · intro h; exact absurd (mem_univ _) h

/-- `expand_basis_and_hamiltonian` in terms of runs; C25 follows. -/
theorem distributed_hamiltonian {N : ℕ} (hN : 0 < N) {n : ℕ} {op : Op ℕ R}
    (hop : OpInSystem n op) {cut : F} (hcut : 0 < cut) (r : Option Restrictions)
    (hDict : Fin N → Dict Bytes (Psi R)) (hd : ∀ k, ColumnsExact n op cut r (hDict k))
    (hdis : DisjointKeys hDict)
    (ord : Fin N → ℕ → List Bytes → List Bytes) (hord : ∀ k i l, (ord k i l).Perm l)
    (ordH : Fin N → List Bytes → List Bytes) (hordH : ∀ k l, (ordH k l).Perm l)
    (sum : List (Msg R) → Msg R) (states0 : List (Finset ℕ)) (hst : ∀ S ∈ states0, S ⊆ range n)
    (hnd0 : states0.Nodup) (fuel : ℕ) (hf : 2 ^ n + 2 ≤ fuel) :
    ∃ (H : Mat R) (states : List (Finset ℕ)), states.Nodup ∧ (∀ S ∈ states, S ⊆ range n) ∧
      SmallestInvariant n op cut r {S | S ∈ states0} {S | S ∈ states} ∧
      (∀ i j, H i j = if h : i < states.length ∧ j < states.length then
        column op cut r states[j] states[i] else 0) ∧
      (∀ hSerial, ColumnsExact n op cut r hSerial → ∃ hSerial', ColumnsExact n op cut r hSerial' ∧
        expandBasisAndHamiltonianSerial n hSerial op cut (states0.map (encBytes n)) r fuel
          = .ok (H, basisIndex (states.map (encBytes n)), hSerial')) ∧
      ∃ hDict' : Fin N → Dict Bytes (Psi R), (∀ k, ColumnsExact n op cut r (hDict' k)) ∧ DisjointKeys hDict' ∧
        Runs sum (fun k : Fin N => expandBasisAndHamiltonianHBuild n (hDict k) op cut
          (states0.map (encBytes n)) r (ord k) (ordH k) false k.val N fuel)
          (fun k => (H, basisIndex (states.map (encBytes n)), hDict' k)) ∧
        ∃ L : Fin N → Mat R,
          Runs sum (fun k : Fin N => expandBasisAndHamiltonianHBuild n (hDict k) op cut
            (states0.map (encBytes n)) r (ord k) (ordH k) true k.val N fuel)
            (fun k => (L k, basisIndex (states.map (encBytes n)), hDict' k)) ∧
          ∀ i j, ∑ k, L k i j = H i j := by
  obtain ⟨states, hDict', hruns, hs, hnd, hsm, hgrow, hcol, hdis', hall⟩ :=
    hBuild_result hN hop hcut r hDict hd ord hord sum states0 hst fuel hf
  have hdis' := hdis' hdis
  have hnd := hnd hnd0
  have hndB := (nodup_map_enc hs).2 hnd
  have hclosed := SmallestInvariant.closedB hop hcut hs hsm
  have hg' : ∀ k, GoodDict n op cut r (hDict' k) := fun k => (goodDict_iff hop hcut _).1 (hcol k)
  let B := states.map (encBytes n)
  let L : Fin N → Mat R := fun k i j =>
    if B.getD j [] ∈ Dict.keys (hDict' k) then entryB n op cut r B i j else 0
  have hlocal : ∀ k, fromDictLocal (ordH k) (hDict' k) B = .ok (L k) :=
    fun k => fromDictLocal_entry hndB (hg' k) (ordH k) (hordH k) hclosed
  have hsum : ∀ i j, ∑ k, L k i j = entryB n op cut r B i j := by
    intro i j
    by_cases hj : j < B.length
    · have hm : B.getD j [] ∈ B := by
        rw [List.getD_eq_getElem _ _ hj]; exact List.getElem_mem hj
      obtain ⟨k₀, hk₀⟩ := hall _ hm
      refine sum_unique (fun k => B.getD j [] ∈ Dict.keys (hDict' k)) k₀ hk₀ ?_ _
      intro k hk
      by_contra hne
      exact hdis' k k₀ hne _ hk hk₀
    · have h0 : entryB n op cut r B i j = 0 := by
        unfold entryB
        rw [List.getElem?_eq_none (not_lt.1 hj)]
        cases B[i]? <;> rfl
      rw [h0]
      apply Finset.sum_eq_zero
      intro k _
      simp only [L, h0, ite_self]
  have hreduce : ∀ (M : Fin N → Mat R), Runs sum (fun k : Fin N =>
      (Mpi.reduce 0 (Msg.number (hDict' k).length)).bind fun _ =>
        Prog.ret (M k, basisIndex B, hDict' k)) (fun k => (M k, basisIndex B, hDict' k)) := by
    intro M
    exact Runs.bind (Runs.reduce _ ⟨0, hN⟩ (fun k => Msg.number (hDict' k).length) (fun _ => rfl))
      (.ret fun _ => rfl)
  refine ⟨entryB n op cut r B, states, hnd, hs, hsm, entryB_eq hop hcut hs, ?_, hDict', hcol, hdis', ?_, L, ?_, hsum⟩
  · intro hSer hSd
    have hg := (goodDict_iff hop hcut hSer).1 hSd
    refine ⟨extendCols n op cut r hSer B, (goodDict_iff hop hcut _).2 (goodDict_extendCols hop hg (valid_map hs)), ?_⟩
    unfold expandBasisAndHamiltonianSerial expandBasisSerial
    rw [expandSerialLoop_eq hop fuel _ (valid_map hst) 0 (by simp) hSer hg _ hgrow]
    simp only [bind, Except.bind, List.drop_zero]
    rw [fromDictSerial_entry hndB (goodDict_extendCols hop hg (valid_map hs)) ?_ hclosed]
    · rfl
    · intro b hb
      rw [Dict.mem_keys_iff, get?_extendCols]
      cases Dict.get? hSer b with
      | some c => rfl
      | none => simp only; rw [if_pos hb]; rfl
  · refine Runs.bind hruns ?_
    unfold hMatrixHBuild
    refine Runs.bind (out := fun _ => entryB n op cut r B) ?_ (hreduce _)
    have h1 : ∀ k, (Prog.lift (fromDictLocal (ordH k) (hDict' k) B) : Prog (Msg R) _)
        = .ret (L k) := by
      intro k; rw [hlocal k]; rfl
    simp only [B] at h1
    simp only [h1, Prog.bind, Bool.false_eq_true, if_false]
    have := runs_sumLocal (sum := sum) (List.finRange N) L (fun _ _ => 0)
    rw [finRange_map_val] at this
    refine this.congr (fun _ => rfl) (fun _ => ?_)
    funext i j
    rw [zero_add, ← hsum, Fin.sum_univ_def]
  · refine Runs.bind hruns ?_
    unfold hMatrixHBuild
    refine Runs.bind (out := L) (.ret fun k => ?_) (hreduce _)
    have := hlocal k
    simp only [B] at this
    rw [this]
    rfl

/-- C25, C50.  `expand_basis_and_hamiltonian` for dictionaries whose columns are
exact and on one rank each (C24): the serial mode gives a matrix `H` without
KeyError; in mode `H_build` all ranks finish under every schedule; with
`return_h_local=False` each has `H`, and with `return_h_local=True` the ranks'
matrices sum to `H`.  Entry `(i, j)` of `H` is the pruned, restricted matrix
element between product states `i` and `j` of the basis. -/
theorem C25_distributed_hamiltonian {N : ℕ} (hN : 0 < N) (n : ℕ) (op : Op ℕ R)
    (hop : OpInSystem n op) (cut : F) (hcut : 0 < cut) (r : Option Restrictions)
    (hDict : Fin N → Dict Bytes (Psi R)) (hd : ∀ k, ColumnsExact n op cut r (hDict k))
    (hdis : DisjointKeys hDict)
    (ord : Fin N → ℕ → List Bytes → List Bytes) (hord : ∀ k i l, (ord k i l).Perm l)
    (ordH : Fin N → List Bytes → List Bytes) (hordH : ∀ k l, (ordH k l).Perm l)
    (sum : List (Msg R) → Msg R) (states0 : List (Finset ℕ)) (hst : ∀ S ∈ states0, S ⊆ range n)
    (hnd0 : states0.Nodup) (fuel : ℕ) (hf : 2 ^ n + 2 ≤ fuel) :
    ∃ (H : Mat R) (states : List (Finset ℕ)), states.Nodup ∧
      SmallestInvariant n op cut r {S | S ∈ states0} {S | S ∈ states} ∧
      (∀ i j, H i j = if h : i < states.length ∧ j < states.length then
        column op cut r states[j] states[i] else 0) ∧
      (∀ hSerial, ColumnsExact n op cut r hSerial → ∃ hSerial',
        expandBasisAndHamiltonianSerial n hSerial op cut (states0.map (encBytes n)) r fuel
          = .ok (H, basisIndex (states.map (encBytes n)), hSerial')) ∧
      ∃ hDict' : Fin N → Dict Bytes (Psi R),
        AllRanksFinish sum (fun k : Fin N => expandBasisAndHamiltonianHBuild n (hDict k) op cut
          (states0.map (encBytes n)) r (ord k) (ordH k) false k.val N fuel)
          (fun k => (H, basisIndex (states.map (encBytes n)), hDict' k)) ∧
        ∃ L : Fin N → Mat R,
          AllRanksFinish sum (fun k : Fin N => expandBasisAndHamiltonianHBuild n (hDict k) op cut
            (states0.map (encBytes n)) r (ord k) (ordH k) true k.val N fuel)
            (fun k => (L k, basisIndex (states.map (encBytes n)), hDict' k)) ∧
          ∀ i j, ∑ k, L k i j = H i j := by
  obtain ⟨H, states, hnd, -, hsm, hent, hser, hDict', -, -, hr, L, hrL, hsum⟩ :=
    distributed_hamiltonian hN hop hcut r hDict hd hdis ord hord ordH hordH sum states0 hst hnd0 fuel hf
  refine ⟨H, states, hnd, hsm, hent, fun hS hSd => ?_, hDict', hr.allRanksFinish, L, hrL.allRanksFinish, hsum⟩
  obtain ⟨h', -, he⟩ := hser hS hSd
  exact ⟨h', he⟩

/-- C26.  For an operator that passes `assert_hermitian` and start states that
fulfil the restrictions, the matrix of `expand_basis_and_hamiltonian` is
Hermitian. -/
theorem C26_expanded_hermitian (n : ℕ) (op : Op ℕ R) (hop : OpInSystem n op)
    (hdict : Dict.NodupKeys op) (hh : isHermitianOp op) (cut : F) (hcut : 0 < cut)
    (r : Option Restrictions) (hDict : Dict Bytes (Psi R)) (hd : ColumnsExact n op cut r hDict)
    (states0 : List (Finset ℕ)) (hst : ∀ S ∈ states0, S ⊆ range n) (hnd0 : states0.Nodup)
    (hr : ∀ S ∈ states0, AllowedOpt r S) (fuel : ℕ) (hf : 2 ^ n + 2 ≤ fuel) :
    ∃ H index hDict', expandBasisAndHamiltonianSerial n hDict op cut (states0.map (encBytes n)) r fuel
        = .ok (H, index, hDict') ∧ ∀ i j, H i j = star (H j i) := by
  obtain ⟨H, states, hnd, hsm, hent, hser, -⟩ := C25_distributed_hamiltonian (N := 1) (by omega) n op
    hop cut hcut r (fun _ => hDict) (fun _ => hd) (fun k l hkl => absurd (Subsingleton.elim k l) hkl)
    (fun _ _ l => l) (fun _ _ l => List.Perm.refl l) (fun _ l => l) (fun _ l => List.Perm.refl l)
    (fun _ => .none) states0 hst hnd0 fuel hf
  obtain ⟨hDict', hrun⟩ := hser hDict hd
  refine ⟨H, _, hDict', hrun, fun i j => ?_⟩
  -- all states of the basis are allowed
  have hall : {S | S ∈ states} ⊆ {S | S ⊆ range n ∧ AllowedOpt r S} := by
    apply hsm.smallest
    · intro S hS; exact ⟨hst S hS, hr S hS⟩
    · intro T _ S hS hc; exact ⟨hS, hc.1⟩
  rw [hent i j, hent j i]
  by_cases hij : i < states.length ∧ j < states.length
  · rw [dif_pos hij, dif_pos hij.symm]
    obtain ⟨hi1, hi2⟩ := hall (List.getElem_mem hij.1)
    obtain ⟨hj1, hj2⟩ := hall (List.getElem_mem hij.2)
    unfold column
    rw [matrixElement_hermitian hdict hop hh hi1 hj1, Amp.abs2_star]
    by_cases hc : cut ≤ abs2 (matrixElement op states[j] states[i])
    · rw [if_pos ⟨hi2, hc⟩, if_pos ⟨hj2, hc⟩]
    · rw [if_neg (fun h => hc h.2), if_neg (fun h => hc h.2), star_zero]
  · rw [dif_neg hij, dif_neg (fun h => hij h.symm), star_zero]

/-- C29.  A number-conserving operator gives, on a state whose product states all
have `N` electrons, only product states with `N` electrons. -/
theorem C29_applyOp (n : ℕ) (op : Op ℕ R) (hop : OpInSystem n op) (hc : NumberConserving op)
    (cut : F) (hcut : 0 < cut) (r : Option Restrictions) (psi : Psi R) (hpsi : IsState n psi) (N : ℕ)
    (hN : ∀ S ⊆ range n, encBytes n S ∈ Dict.keys psi → S.card = N) :
    ∃ res, applyOp n op psi cut r none = .ok (res, none) ∧ IsState n res ∧
      ∀ S ⊆ range n, encBytes n S ∈ Dict.keys res → S.card = N := by
  refine ⟨_, applyOp_eq hop hpsi cut r, isState_applyOpPure hop hpsi cut r, ?_⟩
  intro S hS hk
  rw [Dict.mem_keys_iff, Option.isSome_iff_exists] at hk
  obtain ⟨v, hv⟩ := hk
  rw [get?_applyOpPure hop hpsi cut r hS] at hv
  split at hv
  · rename_i hcond
    have h0 : operator (opSpec op) (ampl n psi) S ≠ 0 := by
      intro h0
      have := hcond.2.2
      rw [h0, Amp.abs2_zero] at this
      exact absurd this (not_le.2 hcut)
    obtain ⟨T, hT, hcard⟩ := operator_card hc _ _ h0
    unfold ampl at hT
    split at hT
    · rename_i hTn
      rw [hcard]
      apply hN T hTn
      rw [Dict.mem_keys_iff]
      cases hg : Dict.get? psi (encBytes n T) with
      | none => rw [hg] at hT; exact absurd rfl hT
      | some x => rfl
    · exact absurd rfl hT
  · cases hv

/-- C29.  Every product state found by `expand_basis` has the electron number of
a start state. -/
theorem C29_expand_basis (n : ℕ) (op : Op ℕ R) (hop : OpInSystem n op) (hc : NumberConserving op)
    (cut : F) (hcut : 0 < cut) (r : Option Restrictions) (hDict : Dict Bytes (Psi R))
    (hd : ColumnsExact n op cut r hDict) (states0 : List (Finset ℕ))
    (hst : ∀ S ∈ states0, S ⊆ range n) (fuel : ℕ) (hf : 2 ^ n + 2 ≤ fuel) :
    ∃ (states : List (Finset ℕ)) (hDict' : Dict Bytes (Psi R)),
      expandBasisSerial n hDict op cut (states0.map (encBytes n)) r fuel
        = .ok (states.map (encBytes n), hDict') ∧
      ∀ S ∈ states, ∃ T ∈ states0, S.card = T.card := by
  obtain ⟨states, h', hrun, hs, -, -, hsm, -⟩ := C22_expand_basis n op hop cut hcut r hDict hd states0 hst
  refine ⟨states, h', hrun fuel hf, ?_⟩
  have : {S | S ∈ states} ⊆ {S | ∃ T ∈ states0, S.card = T.card} := by
    apply hsm.smallest
    · intro S hS; exact ⟨S, hS, rfl⟩
    · rintro T ⟨T0, hT0, he⟩ S hS hcon
      refine ⟨T0, hT0, ?_⟩
      rw [← he]
      apply matrixElement_card hc
      intro h0
      have := hcon.2
      rw [h0, Amp.abs2_zero] at this
      exact absurd this (not_le.2 hcut)
  exact fun S hS => this hS

end

/-! Non-vacuity and a counterexample. -/

/-- Spin-orbital 0 must be empty. -/
def exRestr : Restrictions := [({0}, (0, 0))]

/-- The expansion of `exHerm` from `{0, 2}`. -/
example : (expandBasisSerial 3 [] exHerm 1 [encBytes 3 {0, 2}] none 10).toOption.map Prod.fst
    = some [encBytes 3 {0, 2}, encBytes 3 {1, 2}] := by decide

theorem columnsExact_nil {R F : Type} [CommRing R] [StarRing R] [CommRing F] [LinearOrder F]
    [IsStrictOrderedRing F] [Amp R F] (n : ℕ) (op : Op ℕ R) (cut : F) (r : Option Restrictions) :
    ColumnsExact n op cut r [] := ⟨Dict.nodupKeys_nil, by simp⟩

example := C22_expand_basis 3 exHerm exHerm_inSystem 1 (by decide) none [] (columnsExact_nil ..)
  [{0, 2}] (by decide)

/-- Three ranks, sets iterated in different orders. -/
example := C23_parallel_expand (N := 3) (by decide) 3 exHerm exHerm_inSystem 1 (by decide) (some exRestr)
  (fun _ => []) (fun _ => columnsExact_nil ..)
  (fun k _ l => if k = 1 then l.reverse else l)
  (by intro k i l; split; exacts [List.reverse_perm l, List.Perm.refl l])
  (fun _ => .none) [{1, 2}, {2}] (by decide) 10 (by decide)

/-- A history with two calls exists. -/
example : ∃ hDict basis, HBuildHistory 2 3 exHerm 1 none (fun _ => .none) hDict basis ∧
    encBytes 3 {0, 2} ∈ basis := by
  have hst1 : ∀ S ∈ [({2} : Finset ℕ)], S ⊆ range 3 := by decide
  have hst2 : ∀ S ∈ [({0, 2} : Finset ℕ)], S ⊆ range 3 := by decide
  obtain ⟨s1, h1, r1, -, -, -, -, c1, -⟩ := hBuild_result (N := 2) (by decide) exHerm_inSystem (cut := 1)
    (by decide) none (fun _ => []) (fun _ => columnsExact_nil ..) (fun _ _ l => l)
    (fun _ _ l => List.Perm.refl l) (fun _ => .none) [{2}] hst1 10 (by decide)
  obtain ⟨s2, h2, r2, -, -, hsm, -⟩ := hBuild_result (N := 2) (by decide) exHerm_inSystem (cut := 1)
    (by decide) none h1 c1 (fun _ _ l => l)
    (fun _ _ l => List.Perm.refl l) (fun _ => .none) [{0, 2}] hst2 10 (by decide)
  refine ⟨h2, _, .call h1 _ (.call _ [] .start [{2}] hst1 _ (fun _ _ l => List.Perm.refl l) 10
    (by decide) _ h1 r1.canFinish 0) [{0, 2}] hst2 _ (fun _ _ l => List.Perm.refl l) 10 (by decide) _
    h2 r2.canFinish 0, ?_⟩
  exact List.mem_map.2 ⟨{0, 2}, hsm.contains (by simp), rfl⟩

example := C25_distributed_hamiltonian (N := 3) (by decide) 3 exHerm exHerm_inSystem 1 (by decide) none
  (fun _ => []) (fun _ => columnsExact_nil ..) (fun _ _ _ b hb => by simp at hb)
  (fun _ _ l => l) (fun _ _ l => List.Perm.refl l) (fun _ l => l.reverse)
  (fun _ l => List.reverse_perm l) (fun _ => .none) [{0, 2}] (by decide) (by decide) 10 (by decide)

example := C26_expanded_hermitian 3 exHerm exHerm_inSystem exHerm_nodup exHerm_hermitian 1 (by decide)
  (some exRestr) [] (columnsExact_nil ..) [{1, 2}] (by decide) (by decide) (by decide) 10 (by decide)

/-- C26, counterexample: with a start state that violates the restrictions the
matrix of a Hermitian operator is not Hermitian. -/
theorem C26_not_hermitian_outside_restrictions :
    isHermitianOp exHerm ∧ ∃ (H : Mat ℤ) (index : Dict Bytes ℕ) (hDict' : OpResult ℤ),
      expandBasisAndHamiltonianSerial 3 [] exHerm 1 [encBytes 3 {0, 2}] (some exRestr) 10
        = .ok (H, index, hDict') ∧ H 1 0 = 3 ∧ H 0 1 = 0 := by
  refine ⟨exHerm_hermitian, ?_⟩
  have h : ((expandBasisAndHamiltonianSerial 3 [] exHerm 1 [encBytes 3 {0, 2}] (some exRestr) 10).toOption.map
      fun x => (x.1 1 0, x.1 0 1)) = some (3, 0) := by decide
  cases he : expandBasisAndHamiltonianSerial 3 [] exHerm 1 [encBytes 3 {0, 2}] (some exRestr) 10 with
  | error e => rw [he] at h; cases h
  | ok x =>
    rw [he] at h
    simp only [Except.toOption, Option.map_some, Option.some.injEq, Prod.mk.injEq] at h
    exact ⟨x.1, x.2.1, x.2.2, rfl, h.1, h.2⟩

theorem exHerm_conserving : NumberConserving exHerm := by unfold NumberConserving exHerm; decide

example := C29_expand_basis 3 exHerm exHerm_inSystem exHerm_conserving 1 (by decide) none []
  (columnsExact_nil ..) [{0, 2}] (by decide) 10 (by decide)
example := C29_applyOp 3 exHerm exHerm_inSystem exHerm_conserving 1 (by decide) none
  [(encBytes 3 {0, 2}, 1)] (isState_single (by decide) 1) 2 (by
    intro S hS h
    have : S = {0, 2} := encBytes_injOn hS (by decide) (by simpa using h)
    rw [this]; decide)

end Verif
