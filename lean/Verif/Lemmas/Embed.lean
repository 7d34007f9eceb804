/-
Programs whose messages are vectors, inside programs with general messages.
-/
import Verif.Model.Green
import Verif.Lemmas.LanczosMpi

namespace Verif

open Mpi

noncomputable section

theorem msgVector_vectorMsg {n : ℕ} (v : Fin n → ℂ) : msgVector n (vectorMsg v) = some v := by
  unfold msgVector vectorMsg
  simp only [List.length_ofFn, if_true, Option.some.injEq]
  funext i
  rw [List.getD_eq_getElem _ _ (by simp)]
  simp

theorem allVectors_map {n : ℕ} (l : List (Fin n → ℂ)) : allVectors (l.map vectorMsg) = some (l.map List.ofFn) := by
  unfold allVectors
  induction l with
  | nil => rfl
  | cons v l ih =>
    rw [List.map_cons, List.mapM_cons, ih]
    rfl

theorem zipWith_ofFn {n : ℕ} (a b : Fin n → ℂ) :
    List.zipWith (· + ·) (List.ofFn a) (List.ofFn b) = List.ofFn (a + b) := by
  apply List.ext_getElem
  · simp
  · intro i h1 h2
    simp

theorem foldl_zipWith {n : ℕ} : ∀ (l : List (Fin n → ℂ)) (v : Fin n → ℂ),
    (l.map List.ofFn).foldl (List.zipWith (· + ·)) (List.ofFn v) = List.ofFn (v + l.sum)
  | [], v => by simp
  | a :: l, v => by
    rw [List.map_cons, List.foldl_cons, zipWith_ofFn, foldl_zipWith l, List.sum_cons, add_assoc]

theorem msgSum_vectors {n : ℕ} (l : List (Fin n → ℂ)) (h : l ≠ []) :
    msgSum (l.map vectorMsg) = vectorMsg l.sum := by
  obtain ⟨v, l, rfl⟩ := List.exists_cons_of_ne_nil h
  unfold msgSum
  rw [allVectors_map, List.map_cons]
  simp only
  rw [foldl_zipWith, List.sum_cons]
  rfl

variable {N : ℕ} {A : Type} {n : ℕ}

theorem embed_syncStep {σ τ : Fin N → Prog (Fin n → ℂ) A} (h : SyncStep List.sum σ τ) :
    SyncStep msgSum (fun r => embedVectors n (σ r)) (fun r => embedVectors n (τ r)) := by
  cases h with
  | coll c vs ks hpos h hroot =>
    have := SyncStep.coll (sum := msgSum) (fun r => embedVectors n (σ r)) c (fun r => vectorMsg (vs r))
      (fun r m => match m with
        | none => embedVectors n (ks r none)
        | some m => match msgVector n m with
          | some v => embedVectors n (ks r (some v))
          | none => .fail .typeError) hpos (fun r => by rw [h r, embedVectors]; rfl) hroot
    convert this using 2 with r
    unfold collResult
    cases c with
    | bcast root =>
      have hr := hroot root (Or.inl rfl)
      simp only [hr, dif_pos, msgVector_vectorMsg]
    | reduce root =>
      simp only
      by_cases hr : r.val = root
      · simp only [if_pos hr]
        have e : List.ofFn (fun r => vectorMsg (vs r)) = (List.ofFn vs).map vectorMsg := by
          rw [List.map_ofFn]; rfl
        have hne : List.ofFn vs ≠ [] := by
          intro h0
          have := congrArg List.length h0
          simp at this
          omega
        rw [e, msgSum_vectors _ hne, msgVector_vectorMsg]
      · simp only [if_neg hr]
  | msg s d tag v k k' hsd hs hd =>
    have := SyncStep.msg (sum := msgSum) (fun r => embedVectors n (σ r)) s d tag (vectorMsg v) (embedVectors n k)
      (fun m => match msgVector n m with
        | some v => embedVectors n (k' v)
        | none => .fail .typeError) hsd (by rw [hs, embedVectors]) (by rw [hd, embedVectors]; rfl)
    simp only [msgVector_vectorMsg] at this
    convert this using 1
    funext r
    by_cases h1 : r = d
    · subst h1; simp
    · by_cases h2 : r = s
      · subst h2; simp [Function.update, h1]
      · simp [Function.update, h1, h2]

theorem embed_steps {m : ℕ} {σ τ : Fin N → Prog (Fin n → ℂ) A} (h : Steps (SyncStep List.sum) m σ τ) :
    Steps (SyncStep msgSum) m (fun r => embedVectors n (σ r)) (fun r => embedVectors n (τ r)) := by
  induction h with
  | refl a => exact .refl _
  | head h1 _ ih => exact .head (embed_syncStep h1) ih

theorem Runs.embed {P : Fin N → Prog (Fin n → ℂ) A} {out : Fin N → A} (h : Runs List.sum P out) :
    Runs msgSum (fun r => embedVectors n (P r)) out := by
  obtain ⟨k, f, hk, hf⟩ := h
  exact ⟨k, _, embed_steps hk, fun r => by rw [hf r, embedVectors]⟩

theorem RunsToFailure.embed {P : Fin N → Prog (Fin n → ℂ) A} {e : PyErr} (h : RunsToFailure List.sum P e) :
    RunsToFailure msgSum (fun r => embedVectors n (P r)) e := by
  obtain ⟨k, f, hk, hf⟩ := h
  refine ⟨k, _, embed_steps hk, fun r => ⟨fun h0 => by rw [(hf r).1 h0, embedVectors], fun h0 => ?_⟩⟩
  obtain ⟨v, k', hv⟩ := (hf r).2 h0
  exact ⟨_, _, by rw [hv, embedVectors]⟩

end

end Verif
