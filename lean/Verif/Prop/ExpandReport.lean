/-
C93: the sizes printed by `expand_basis_and_hamiltonian`.
-/
import Verif.Model.ExpandReport
import Verif.Model.Green
import Verif.Prop.Expand
import Verif.Prop.Green
import Mathlib.Data.Finset.Union

namespace Verif

open Finset Psr Spec Mpi

/-- `comm.reduce` of numbers is their sum. -/
theorem msgSum_numbers {N : ℕ} (k : Fin N → ℕ) (hN : 0 < N) :
    msgSum (List.ofFn fun i => Msg.number (k i)) = .number (∑ i, k i) := by
  have h1 : ∀ l : List ℕ, allNumbers (l.map Msg.number) = some l := by
    intro l
    induction l with
    | nil => rfl
    | cons a l ih => simp only [allNumbers, List.map_cons, List.mapM_cons] at ih ⊢; rw [ih]; rfl
  obtain ⟨N, rfl⟩ : ∃ M, N = M + 1 := ⟨N - 1, by omega⟩
  have h2 : allVectors (List.ofFn fun i => (Msg.number (k i) : Msg ℂ)) = none := by
    rw [List.ofFn_succ]; rfl
  have h3 : (List.ofFn fun i => (Msg.number (k i) : Msg ℂ)) = (List.ofFn k).map Msg.number := by
    rw [List.map_ofFn]; rfl
  unfold msgSum
  rw [h2, h3, h1]
  simp only [List.sum_ofFn]

section
variable {F : Type} [CommRing F] [LinearOrder F] [IsStrictOrderedRing F] [Amp ℂ F]

/-- The number of different keys on all ranks, if no key is on two. -/
theorem sum_length_eq_card {N : ℕ} (hDict : Fin N → Dict Bytes (Psi ℂ))
    (hnd : ∀ k, Dict.NodupKeys (hDict k)) (hdis : DisjointKeys hDict) :
    ∑ k, (hDict k).length = (univ.biUnion fun k => (Dict.keys (hDict k)).toFinset).card := by
  rw [Finset.card_biUnion]
  · refine Finset.sum_congr rfl fun k _ => ?_
    rw [List.toFinset_card_of_nodup (hnd k)]
    simp [Dict.keys]
  · intro k _ l _ hkl
    rw [Function.onFun, Finset.disjoint_left]
    intro b hb hb'
    exact hdis k l hkl b (by simpa using hb) (by simpa using hb')

/-- C93.  `expand_basis_and_hamiltonian` in mode `H_build`, for dictionaries whose
columns are exact and on one rank each (C24), and for both values of
`return_h_local`: under every schedule all ranks finish, and only rank 0 prints.
The printed `len(basis_index)` and `np.shape(h)[0]` are the number of product
states of the basis, `len(h_dict)` is the number of columns on rank 0, and
`len(h_dict_total)` is the number of different product states that had a column on
some rank before the call or are in the basis.  What is returned is what the
function returns without printing. -/
theorem C93_printed_sizes {N : ℕ} (hN : 0 < N) (n : ℕ) (op : Op ℕ ℂ)
    (hop : OpInSystem n op) (cut : F) (hcut : 0 < cut) (r : Option Restrictions)
    (hDict : Fin N → Dict Bytes (Psi ℂ)) (hd : ∀ k, ColumnsExact n op cut r (hDict k))
    (hdis : DisjointKeys hDict)
    (ord : Fin N → ℕ → List Bytes → List Bytes) (hord : ∀ k i l, (ord k i l).Perm l)
    (ordH : Fin N → List Bytes → List Bytes) (hordH : ∀ k l, (ordH k l).Perm l)
    (states0 : List (Finset ℕ)) (hst : ∀ S ∈ states0, S ⊆ range n)
    (hnd0 : states0.Nodup) (fuel : ℕ) (hf : 2 ^ n + 2 ≤ fuel) (returnLocal : Bool) :
    ∃ (out : Fin N → Mat ℂ × Dict Bytes ℕ × OpResult ℂ) (states : Finset (Finset ℕ)),
      SmallestInvariant n op cut r {S | S ∈ states0} {S | S ∈ states} ∧
      AllRanksFinish msgSum (fun k : Fin N => expandBasisAndHamiltonianHBuild n (hDict k) op cut
        (states0.map (encBytes n)) r (ord k) (ordH k) returnLocal k.val N fuel) out ∧
      AllRanksFinish msgSum (fun k : Fin N => expandBasisAndHamiltonianHBuildPrint n (hDict k) op cut
        (states0.map (encBytes n)) r (ord k) (ordH k) returnLocal k.val N fuel)
        (fun k => (out k, if k.val = 0 then some
          { basisIndex := states.card, hRows := states.card, hDict := (out k).2.2.length,
            hDictTotal := some ((univ.biUnion fun l => (Dict.keys (hDict l)).toFinset)
              ∪ states.image (encBytes n)).card } else none)) := by
  obtain ⟨states, hDict', hruns, hs, hnd, hsm, hgrow, hcol, hdis', hall, hkeys⟩ :=
    hBuild_keys hN hop hcut r hDict hd ord hord msgSum states0 hst fuel hf
  have hdis' := hdis' hdis
  have hnd := hnd hnd0
  have hndB := (nodup_map_enc hs).2 hnd
  have hclosed := SmallestInvariant.closedB hop hcut hs hsm
  have hg' : ∀ k, GoodDict n op cut r (hDict' k) := fun k => (goodDict_iff hop hcut _).1 (hcol k)
  set B := states.map (encBytes n) with hB
  obtain ⟨M, hM⟩ : ∃ M : Fin N → Mat ℂ, Runs msgSum
      (fun k : Fin N => hMatrixHBuild (hDict' k) B (ordH k) N returnLocal) M := by
    let L : Fin N → Mat ℂ := fun k i j =>
      if B.getD j [] ∈ Dict.keys (hDict' k) then entryB n op cut r B i j else 0
    have hlocal : ∀ k, fromDictLocal (ordH k) (hDict' k) B = .ok (L k) :=
      fun k => fromDictLocal_entry hndB (hg' k) (ordH k) (hordH k) hclosed
    have h1 : ∀ k, (Prog.lift (fromDictLocal (ordH k) (hDict' k) B) : Prog (Msg ℂ) _)
        = .ret (L k) := by
      intro k; rw [hlocal k]; rfl
    unfold hMatrixHBuild
    simp only [h1, Prog.bind]
    cases returnLocal with
    | true => exact ⟨L, .ret fun _ => rfl⟩
    | false =>
      have := runs_sumLocal (sum := msgSum) (List.finRange N) L (fun _ _ => 0)
      rw [finRange_map_val] at this
      exact ⟨_, this⟩
  have hred := Runs.reduce (sum := msgSum) (fun k => Mpi.reduce 0 (Msg.number (hDict' k).length)) ⟨0, hN⟩
    (fun k => Msg.number (hDict' k).length) (fun _ => rfl)
  have htotal : msgSum (List.ofFn fun k => Msg.number (hDict' k).length)
      = .number ((univ.biUnion fun l => (Dict.keys (hDict l)).toFinset)
        ∪ states.toFinset.image (encBytes n)).card := by
    rw [msgSum_numbers _ hN, sum_length_eq_card hDict' (fun k => (hcol k).nodup) hdis']
    congr 2
    ext b
    have := hkeys b
    simp only [hB, List.mem_map] at this
    simpa using this
  have hcard : states.toFinset.card = states.length := List.toFinset_card_of_nodup hnd
  refine ⟨fun k => (M k, basisIndex B, hDict' k), states.toFinset, by simpa using hsm, ?_, ?_⟩
  · refine Runs.allRanksFinish ?_
    exact Runs.bind hruns (Runs.bind hM (Runs.bind hred (.ret fun _ => rfl)))
  · refine Runs.allRanksFinish ?_
    refine Runs.bind hruns (Runs.bind hM (Runs.bind hred (.ret fun k => ?_)))
    congr 2
    by_cases hk : k.val = 0
    · have hk' : k = ⟨0, hN⟩ := Fin.ext hk
      rw [if_pos hk, if_pos hk, if_pos hk', htotal, hcard, length_basisIndex hndB]
      simp [reducedNumber, hB]
    · rw [if_neg hk, if_neg hk]

/-- C93, serial mode: the sizes are those of the basis and of the dictionary with
the columns of the basis added. -/
theorem C93_serial (n : ℕ) (op : Op ℕ ℂ)
    (hop : OpInSystem n op) (cut : F) (hcut : 0 < cut) (r : Option Restrictions)
    (hDict : Dict Bytes (Psi ℂ)) (hd : ColumnsExact n op cut r hDict)
    (states0 : List (Finset ℕ)) (hst : ∀ S ∈ states0, S ⊆ range n)
    (hnd0 : states0.Nodup) (fuel : ℕ) (hf : 2 ^ n + 2 ≤ fuel) (rank : ℕ) :
    ∃ (out : Mat ℂ × Dict Bytes ℕ × OpResult ℂ) (states : Finset (Finset ℕ)),
      SmallestInvariant n op cut r {S | S ∈ states0} {S | S ∈ states} ∧
      expandBasisAndHamiltonianSerial n hDict op cut (states0.map (encBytes n)) r fuel = .ok out ∧
      expandBasisAndHamiltonianSerialPrint n hDict op cut (states0.map (encBytes n)) r rank fuel
        = .ok (out, if rank = 0 then some
          { basisIndex := states.card, hRows := states.card,
            hDict := ((Dict.keys hDict).toFinset ∪ states.image (encBytes n)).card,
            hDictTotal := none } else none) := by
  obtain ⟨states, hs, hgrow, hpre, hnd, hsm⟩ := expansion hop hcut r states0 hst
  have hnd := hnd hnd0
  have hndB := (nodup_map_enc hs).2 hnd
  have hg := (goodDict_iff hop hcut hDict).1 hd
  have hg' := goodDict_extendCols hop hg (valid_map hs)
  have hclosed := SmallestInvariant.closedB hop hcut hs hsm
  have hexp : expandBasisSerial n hDict op cut (states0.map (encBytes n)) r fuel
      = .ok (states.map (encBytes n), extendCols n op cut r hDict (states.map (encBytes n))) := by
    unfold expandBasisSerial
    rw [expandSerialLoop_eq hop fuel _ (valid_map hst) 0 (by simp) hDict hg _ (hgrow fuel hf)]
    simp
  have hkeys : ∀ b, b ∈ Dict.keys (extendCols n op cut r hDict (states.map (encBytes n))) ↔
      b ∈ Dict.keys hDict ∨ b ∈ states.map (encBytes n) := by
    intro b
    rw [Dict.mem_keys_iff, Dict.mem_keys_iff, get?_extendCols]
    cases Dict.get? hDict b with
    | some c => simp
    | none => by_cases hk : b ∈ states.map (encBytes n) <;> simp [hk]
  have hmat := fromDictSerial_entry hndB hg' (fun b hb => (hkeys b).2 (Or.inr hb)) hclosed
  have hlen : (extendCols n op cut r hDict (states.map (encBytes n))).length
      = ((Dict.keys hDict).toFinset ∪ states.toFinset.image (encBytes n)).card := by
    have h1 := ((goodDict_iff hop hcut _).2 hg').nodup
    have h2 := List.toFinset_card_of_nodup h1
    rw [show (Dict.keys (extendCols n op cut r hDict (states.map (encBytes n)))).length
      = (extendCols n op cut r hDict (states.map (encBytes n))).length by simp [Dict.keys]] at h2
    rw [← h2]
    congr 1
    ext b
    have := hkeys b
    simp only [List.mem_map] at this
    simpa using this
  refine ⟨(entryB n op cut r (states.map (encBytes n)), basisIndex (states.map (encBytes n)),
    extendCols n op cut r hDict (states.map (encBytes n))), states.toFinset, by simpa using hsm, ?_, ?_⟩
  · unfold expandBasisAndHamiltonianSerial
    rw [hexp]
    simp only [bind, Except.bind]
    rw [hmat]; rfl
  · unfold expandBasisAndHamiltonianSerialPrint
    rw [hexp]
    simp only [bind, Except.bind]
    rw [hmat]
    simp only [pure, Except.pure]
    rw [length_basisIndex hndB, hlen, List.toFinset_card_of_nodup hnd, List.length_map]

end

/-- Three ranks, of which the second one knows the column of the empty state
already; the basis is grown from one electron in the first spin-orbital. -/
example : ∃ hDict : Fin 3 → Dict Bytes (Psi ℂ), Dict.keys (hDict 1) = [encBytes 2 ∅] ∧
    ∃ (out : Fin 3 → Mat ℂ × Dict Bytes ℕ × OpResult ℂ) (states : Finset (Finset ℕ)), {0} ∈ states ∧
      AllRanksFinish msgSum (fun k : Fin 3 => expandBasisAndHamiltonianHBuildPrint 2 (hDict k)
        (castOp exTwo) (1 / 2 : ℝ) [encBytes 2 {0}] none (fun _ l => l.reverse) (fun l => l) false k.val 3 10)
        (fun k => (out k, if k.val = 0 then some ⟨states.card, states.card, (out k).2.2.length,
          some (({encBytes 2 ∅} : Finset Bytes) ∪ states.image (encBytes 2)).card⟩ else none)) := by
  have hempty : ColumnsExact 2 (castOp exTwo) (1 / 2 : ℝ) none [(encBytes 2 ∅, ([] : Psi ℂ))] := by
    have hz : ∀ S ⊆ range 2, matrixElement exTwo S ∅ = 0 := by
      have h : ∀ S ∈ (range 2).powerset, matrixElement exTwo S ∅ = 0 := by decide
      exact fun S hS => h S (mem_powerset.2 hS)
    refine ⟨by simp [Dict.NodupKeys, Dict.keys], ?_⟩
    intro k col hk
    have hk2 : k = encBytes 2 ∅ ∧ col = [] := by
      by_cases hke : k = encBytes 2 ∅
      · subst hke; simpa [Dict.get?, eq_comm] using hk
      · exact absurd hk (by simp [Dict.get?, Ne.symm hke])
    obtain ⟨rfl, rfl⟩ := hk2
    refine ⟨∅, by simp, rfl, ⟨by simp [Dict.NodupKeys], by simp⟩, fun S hS => ⟨fun hc => ?_, fun _ => rfl⟩⟩
    have := hc.2
    rw [matrixElement_cast, hz S hS] at this
    norm_num [abs2] at this
  have hd : ∀ k : Fin 3, ColumnsExact 2 (castOp exTwo) (1 / 2 : ℝ) none
      (if k = 1 then [(encBytes 2 ∅, ([] : Psi ℂ))] else []) := by
    intro k; split
    · exact hempty
    · exact columnsExact_nil ..
  obtain ⟨out, states, hsm, -, h⟩ := C93_printed_sizes (N := 3) (by decide) 2 (castOp exTwo) exTwo_inSystem (1 / 2 : ℝ) (by norm_num)
    none (fun k => if k = 1 then [(encBytes 2 ∅, ([] : Psi ℂ))] else []) hd
    (by
      intro k l hkl b hb hb'
      dsimp only at hb hb'
      split at hb
      · split at hb'
        · exact hkl (by simp_all)
        · simp at hb'
      · simp at hb)
    (fun _ _ l => l.reverse) (fun _ _ l => List.reverse_perm l) (fun _ l => l)
    (fun _ l => List.Perm.refl l) [{0}] (by decide) (by decide) 10 (by decide) false
  refine ⟨fun k => if k = 1 then [(encBytes 2 ∅, ([] : Psi ℂ))] else [], by simp [Dict.keys], out, states, hsm.contains (by simp), ?_⟩
  have e : (univ.biUnion fun l : Fin 3 => (Dict.keys (if l = 1 then [(encBytes 2 ∅, ([] : Psi ℂ))]
      else [])).toFinset) = {encBytes 2 ∅} := by
    decide
  rw [e] at h
  exact h

end Verif
