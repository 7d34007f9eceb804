import Verif.Model.Allgather
import Verif.Lemmas.Mpi
import Mathlib.Tactic.Ring
import Mathlib.Data.List.FinRange

set_option linter.unusedSectionVars false
set_option linter.unusedSimpArgs false

namespace Verif

open Mpi

variable {κ ν : Type} [DecidableEq κ] {N : ℕ} {sum : List (GatherMsg κ ν) → GatherMsg κ ν}

theorem runs_gatherLengths (data : Fin N → Dict κ ν) (rs : List (Fin N)) (acc : List ℕ) :
    Runs sum (fun k : Fin N => gatherLengths (data k) (rs.map Fin.val) acc)
      (fun _ => acc ++ rs.map fun s => (data s).length) := by
  induction rs generalizing acc with
  | nil => exact .ret fun k => by simp [gatherLengths]
  | cons s rs ih =>
    refine Runs.bind (P := fun k : Fin N => Mpi.bcast s.val (GatherMsg.number (κ := κ) (ν := ν) (data k).length))
      (Runs.bcast _ s (fun k => GatherMsg.number (data k).length) (fun _ => rfl)) ?_
    refine (ih (acc ++ [(data s).length])).congr (fun _ => rfl) (fun _ => ?_)
    simp

theorem runs_gatherAll (data : Fin N → Dict κ ν) (rs : List (Fin N)) (total : Fin N → Dict κ ν) :
    Runs sum (fun k : Fin N => gatherAll (data k) (rs.map Fin.val) (total k))
      (fun k => rs.foldl (fun t s => Dict.update t (data s)) (total k)) := by
  induction rs generalizing total with
  | nil => exact .ret fun k => rfl
  | cons s rs ih =>
    refine Runs.bind (P := fun k : Fin N => Mpi.bcast s.val (GatherMsg.dict (data k)))
      (Runs.bcast _ s (fun k => GatherMsg.dict (data k)) (fun _ => rfl)) ?_
    exact (ih (fun k => Dict.update (total k) (data s))).congr (fun _ => rfl) (fun _ => rfl)

theorem update_append (d e f : Dict κ ν) :
    Dict.update (Dict.update d e) f = Dict.update d (e ++ f) := by
  unfold Dict.update
  rw [List.foldl_append]

theorem length_isliceChunks (chunk count : ℕ) (rest : Dict κ ν) :
    (isliceChunks chunk count rest).length = count := by
  induction count generalizing rest with
  | zero => rfl
  | succ count ih => rw [isliceChunks, List.length_cons, ih]

theorem flatten_isliceChunks (chunk count : ℕ) (rest : Dict κ ν) (h : rest.length ≤ count * chunk) :
    (isliceChunks chunk count rest).flatten = rest := by
  induction count generalizing rest with
  | zero => exact (List.eq_nil_of_length_eq_zero (by omega : rest.length = 0)).symm
  | succ count ih =>
    rw [isliceChunks, List.flatten_cons, ih, List.take_append_drop]
    rw [List.length_drop]
    have : (count + 1) * chunk = count * chunk + chunk := by ring
    omega

theorem mem_isliceChunks {chunk count : ℕ} {rest c : Dict κ ν} (h : c ∈ isliceChunks chunk count rest) :
    c.length ≤ chunk := by
  induction count generalizing rest with
  | zero => cases h
  | succ count ih =>
    rw [isliceChunks, List.mem_cons] at h
    rcases h with rfl | h
    · rw [List.length_take]; exact min_le_left _ _
    · exact ih h

theorem ceilDiv_mul {len chunk : ℕ} (hc : 0 < chunk) : len ≤ (len + chunk - 1) / chunk * chunk := by
  have := Nat.div_add_mod (len + chunk - 1) chunk
  have h2 := Nat.mod_lt (len + chunk - 1) hc
  rw [mul_comm] at this
  omega

/-- The chunks of rank `s`. -/
def chunksOf (chunk : ℕ) (d : Dict κ ν) : List (Dict κ ν) :=
  isliceChunks chunk ((d.length + chunk - 1) / chunk) d

theorem runs_dictChunks (data : Fin N → Dict κ ν) {chunk : ℕ} (hc : 0 < chunk) (s : Fin N) :
    Runs sum (fun k : Fin N => dictChunksFromOneRank (data k) chunk s.val k.val)
      (fun k => if k = s then (chunksOf chunk (data s)).map .dict
        else (chunksOf chunk (data s)).map fun _ => .none) := by
  let cnt := ((data s).length + chunk - 1) / chunk
  have hP : ∀ k : Fin N, dictChunksFromOneRank (data k) chunk s.val k.val
      = (Mpi.bcast s.val (if k = s then GatherMsg.number cnt else GatherMsg.none)).bind fun m =>
        (asNumber m).bind fun nChunks =>
          .ret (if k.val = s.val then (isliceChunks chunk nChunks (data k)).map .dict
            else List.replicate nChunks .none) := by
    intro k
    rw [dictChunksFromOneRank]
    by_cases hk : k = s
    · subst hk
      simp [ceilDiv, hc.ne', Prog.lift, Prog.bind, cnt]
    · have : k.val ≠ s.val := fun h => hk (Fin.ext h)
      simp [hk, this, Prog.bind]
  simp only [hP]
  refine Runs.bind (Runs.bcast _ s
    (fun k => if k = s then GatherMsg.number cnt else GatherMsg.none) (fun _ => rfl)) ?_
  simp only [if_true, asNumber, Prog.bind]
  refine .ret fun k => ?_
  by_cases hk : k = s
  · subst hk
    simp [chunksOf, cnt]
  · have : k.val ≠ s.val := fun h => hk (Fin.ext h)
    simp [hk, this, chunksOf, length_isliceChunks, cnt, List.map_const']

theorem runs_gatherChunks (s : Fin N) (chunks : List (Dict κ ν)) (total : Fin N → Dict κ ν) :
    Runs sum (fun k : Fin N => gatherChunks s.val
        (if k = s then chunks.map .dict else chunks.map fun _ => .none) (total k))
      (fun k => Dict.update (total k) chunks.flatten) := by
  induction chunks generalizing total with
  | nil => exact .ret fun k => by simp [gatherChunks]; rfl
  | cons c cs ih =>
    have hP : ∀ k : Fin N, gatherChunks s.val
        (if k = s then (c :: cs).map .dict else (c :: cs).map fun _ => .none) (total k)
        = (Mpi.bcast s.val (if k = s then GatherMsg.dict c else .none)).bind fun m =>
          (asDict m).bind fun d => gatherChunks s.val
            (if k = s then cs.map .dict else cs.map fun _ => .none) (Dict.update (total k) d) := by
      intro k
      by_cases hk : k = s <;> simp [hk, gatherChunks]
    simp only [hP]
    refine Runs.bind (Runs.bcast _ s (fun k => if k = s then GatherMsg.dict c else .none)
      (fun _ => rfl)) ?_
    simp only [if_true, asDict, Prog.bind]
    refine (ih (fun k => Dict.update (total k) c)).congr (fun _ => rfl) (fun k => ?_)
    rw [update_append, List.flatten_cons]

theorem runs_gatherChunked (data : Fin N → Dict κ ν) {chunk : ℕ} (hc : 0 < chunk) (rs : List (Fin N))
    (total : Fin N → Dict κ ν) :
    Runs sum (fun k : Fin N => gatherChunked (data k) chunk k.val (rs.map Fin.val) (total k))
      (fun k => rs.foldl (fun t s => Dict.update t (data s)) (total k)) := by
  induction rs generalizing total with
  | nil => exact .ret fun k => rfl
  | cons s rs ih =>
    refine Runs.bind (runs_dictChunks data hc s) ?_
    refine Runs.bind (runs_gatherChunks s (chunksOf chunk (data s)) total) ?_
    refine (ih (fun k => Dict.update (total k) (data s))).congr (fun _ => ?_) (fun _ => rfl)
    rw [chunksOf, flatten_isliceChunks _ _ _ (ceilDiv_mul hc)]

theorem le_foldl_max (l : List ℕ) (a : ℕ) : a ≤ l.foldl max a ∧ ∀ x ∈ l, x ≤ l.foldl max a := by
  induction l generalizing a with
  | nil => simp
  | cons b l ih =>
    obtain ⟨h1, h2⟩ := ih (max a b)
    simp only [List.foldl_cons, List.mem_cons]
    refine ⟨le_trans (le_max_left _ _) h1, ?_⟩
    rintro x (rfl | hx)
    · exact le_trans (le_max_right _ _) h1
    · exact h2 x hx

theorem runs_allgatherDict (data total : Fin N → Dict κ ν) {chunk : ℕ} (hc : 0 < chunk) :
    Runs sum (fun k : Fin N => allgatherDict (data k) (total k) chunk k.val N)
      (fun k => (List.finRange N).foldl (fun t s => Dict.update t (data s)) (total k)) := by
  have hr : List.range N = (List.finRange N).map Fin.val := by simp
  unfold allgatherDict
  rw [hr]
  refine Runs.bind (runs_gatherLengths data (List.finRange N) []) ?_
  split
  · exact runs_gatherAll data _ total
  · exact runs_gatherChunked data hc _ total

end Verif
