/-
What is known after the setup in main.
-/
import Verif.Model.Main
import Verif.Lemmas.OkIn
import Verif.Lemmas.SimulateRuns
import Verif.Prop.GetBasis

namespace Verif

open Finset Psr Spec Mpi

theorem zipDict_nodup {V : Type} (ls : List ℕ) (xs : List V) : Dict.NodupKeys (zipDict ls xs) :=
  Dict.nodupKeys_update Dict.nodupKeys_nil _

theorem mem_keys_update' {V : Type} (e : Dict ℕ V) (l : ℕ) : ∀ d : Dict ℕ V, l ∈ Dict.keys (Dict.update d e) →
    l ∈ Dict.keys d ∨ l ∈ Dict.keys e := by
  induction e with
  | nil => intro d h; exact Or.inl h
  | cons q e ih =>
    intro d h
    rcases ih (Dict.set d q.1 q.2) h with h | h
    · rcases (Dict.mem_keys_set d q.1 q.2 l).1 h with rfl | h
      · exact Or.inr List.mem_cons_self
      · exact Or.inl h
    · exact Or.inr (List.mem_cons_of_mem _ h)

theorem zipDict_keys {V : Type} (ls : List ℕ) (xs : List V) : ∀ l ∈ Dict.keys (zipDict ls xs), l ∈ ls := by
  intro l hl
  unfold zipDict at hl
  rcases mem_keys_update' _ _ _ hl with hl | hl
  · simp [Dict.keys] at hl
  · obtain ⟨p, hp, rfl⟩ := List.mem_map.1 hl
    exact (List.of_mem_zip hp).1

/-! ### the Hamiltonian -/

theorem relabel_okIn {nBaths : NBaths} (h : GoodSystem nBaths) (op : Op Label ℂ) :
    OkIn (OpGood (nTotal nBaths)) (relabel nBaths op) := by
  unfold relabel
  refine OkIn.foldlM _ _ ⟨Dict.nodupKeys_nil, by intro q hq; simp at hq⟩ fun q _ d hd => ?_
  refine OkIn.bind (P := fun p : Process ℕ => ∀ x ∈ p, x.1 < nTotal nBaths) ?_ fun p hp =>
    OkIn.pure ⟨Dict.nodupKeys_set hd.1 _ _, opInSystem_set hd.2 hp _⟩
  refine (OkIn.mapM (P := fun x : ℕ × Action => x.1 < nTotal nBaths) q.1 fun e _ => ?_).mono fun _ h => h.2
  exact OkIn.bind (c2i_okIn h _) fun i hi => OkIn.pure hi

/-- An operator that passed the checks. -/
def OpAccepted (n : ℕ) (op : Op ℕ ℂ) : Prop := OpGood n op ∧ isHermitianOp op

theorem getHamiltonianOperator_okIn (gaunt : GauntFun) {nBaths : NBaths} (h : GoodSystem nBaths) (Fdd Fpp Fpd Gpd : List ℝ)
    (xi2p xi3d : ℝ) (n0imps : Dict ℕ ℤ) (c hx hy hz : ℝ) (h0 : Op Label ℂ) :
    OkIn (OpAccepted (nTotal nBaths))
      (getHamiltonianOperator gaunt nBaths Fdd Fpp Fpd Gpd xi2p xi3d n0imps c hx hy hz h0) := by
  unfold getHamiltonianOperator
  dsimp only
  refine OkIn.bind OkIn.true fun _ _ => ?_
  refine OkIn.bind OkIn.true fun _ _ => ?_
  refine OkIn.bind OkIn.true fun dc _ => ?_
  cases dc with
  | one d => exact OkIn.error
  | two d p =>
    dsimp only
    refine OkIn.bind OkIn.true fun dc _ => ?_
    refine OkIn.bind (relabel_okIn h _) fun op hop => ?_
    split
    · next hh => exact OkIn.pure ⟨hop, hh⟩
    · exact OkIn.error

theorem mainHamiltonian_okIn (L : MainLib) (A : MainArgs) {nBaths : Dict ℕ ℕ} (h : Dict.NodupKeys nBaths)
    (nValBaths n0imps : Dict ℕ ℤ) (hx hy hz : ℝ) :
    OkIn (OpAccepted (nTotal (intKeys nBaths))) (mainHamiltonian L A nBaths nValBaths n0imps hx hy hz) := by
  unfold mainHamiltonian
  split
  · exact getHamiltonianOperator_okIn _ (goodSystem_intKeys h) _ _ _ _ _ _ _ _ _ _ _ _
  · unfold getHamiltonianOperatorUsingCF
    exact OkIn.bind OkIn.true fun _ _ => getHamiltonianOperator_okIn _ (goodSystem_intKeys h) _ _ _ _ _ _ _ _ _ _ _ _

/-! ### the basis -/

theorem pyProduct_nil_mem {α : Type} : ∀ (ls : List (List α)), [] ∈ ls → pyProduct ls = []
  | [], h => by simp at h
  | l :: ls, h => by
    rcases List.mem_cons.1 h with h | h
    · rw [← h]
      rfl
    · unfold pyProduct
      rw [pyProduct_nil_mem ls h]
      simp

/-- The values of a dict as a function. -/
def lookupD (d : Dict ℕ ℤ) (l : ℕ) : ℤ := (Dict.get? d l).getD 0

theorem get_ok {V : Type} {d : Dict ℕ V} {l : ℕ} {v : V} (h : Dict.get d l = .ok v) : Dict.get? d l = some v := by
  unfold Dict.get at h
  split at h
  · next hv => cases h; assumption
  · cases h

theorem get?_lookupD {d : Dict ℕ ℤ} {l : ℕ} {v : ℤ} (h : Dict.get? d l = some v) :
    Dict.get? d l = some (lookupD d l) := by
  unfold lookupD
  rw [h]
  rfl

theorem pyRange_neg {a b : ℤ} (h : b ≤ a) : pyRange a b = [] := by
  unfold pyRange
  have : (b - a).toNat = 0 := by omega
  simp [this]

theorem foldlM_ok_cons {α β : Type} {f : β → α → Py β} {b r : β} {a : α} {l : List α}
    (h : (a :: l).foldlM f b = .ok r) : ∃ c, f b a = .ok c := by
  rw [List.foldlM_cons] at h
  cases hc : f b a with
  | error e => rw [hc] at h; cases h
  | ok c => exact ⟨c, rfl⟩

theorem pyRange_cons {a b : ℤ} (h : a < b) : ∃ rest, pyRange a b = a :: rest := by
  unfold pyRange
  obtain ⟨k, hk⟩ : ∃ k, (b - a).toNat = k + 1 := ⟨(b - a).toNat - 1, by omega⟩
  rw [hk, List.range_succ_eq_map]
  exact ⟨_, by simp; rfl⟩

theorem foldlM_id {α β : Type} {f : β → α → Py β} {b : β} : ∀ {l : List α}, (∀ a ∈ l, ∀ b, f b a = .ok b) →
    l.foldlM f b = .ok b
  | [], _ => rfl
  | a :: l, h => by
    rw [List.foldlM_cons, h a List.mem_cons_self b]
    exact foldlM_id fun a ha => h a (List.mem_cons_of_mem _ ha)

section
variable {nBaths : Dict ℕ ℕ} {valBaths dnValBaths dnConBaths dnTol n0imp : Dict ℕ ℤ}

/-- If the loops over one angular momentum give anything, all its parameters are there. -/
theorem getBasisL_provided {l nb : ℕ} {r : List (List ℕ)}
    (h : getBasisL nBaths valBaths dnValBaths dnConBaths dnTol n0imp l nb = .ok r) (hr : r ≠ []) :
    (∃ v, Dict.get? dnValBaths l = some v) ∧ (∃ v, Dict.get? dnConBaths l = some v) ∧
    (∃ v, Dict.get? dnTol l = some v) ∧ (∃ v, Dict.get? n0imp l = some v) := by
  unfold getBasisL at h
  cases hdv : Dict.get dnValBaths l with
  | error e => rw [hdv] at h; cases h
  | ok dv =>
    rw [hdv] at h
    refine ⟨⟨dv, get_ok hdv⟩, ?_⟩
    replace h : ((pyRange 0 (dv + 1)).foldlM _ [] : Py (List (List ℕ))) = .ok r := h
    by_cases hneg : dv + 1 ≤ 0
    · rw [pyRange_neg hneg] at h
      cases h
      exact absurd rfl hr
    have hpos : (0 : ℤ) < dv + 1 := by omega
    obtain ⟨rest, hrest⟩ := pyRange_cons hpos
    have h1 := h
    rw [hrest] at h1
    obtain ⟨c, hc⟩ := foldlM_ok_cons h1
    cases hdc : Dict.get dnConBaths l with
    | error e => rw [hdc] at hc; cases hc
    | ok dc =>
      rw [hdc] at hc
      refine ⟨⟨dc, get_ok hdc⟩, ?_⟩
      replace hc : ((pyRange 0 (dc + 1)).foldlM _ [] : Py (List (List ℕ))) = .ok c := hc
      by_cases hneg' : dc + 1 ≤ 0
      · exfalso
        apply hr
        have : (pyRange 0 (dv + 1)).foldlM (fun (basisL : List (List ℕ)) (dnVal : ℤ) => do
            let dc ← Dict.get dnConBaths l
            (pyRange 0 (dc + 1)).foldlM (fun basisL dnCon => do
              let tol ← Dict.get dnTol l
              if |dnVal - dnCon| ≤ tol then do
                let n0 ← Dict.get n0imp l
                let val ← Dict.get valBaths l
                return basisL ++ (← getBasisPartition nBaths l nb val n0 dnVal dnCon)
              else return basisL) basisL) [] = .ok ([] : List (List ℕ)) := by
          refine foldlM_id fun a _ b => ?_
          rw [hdc]
          show (pyRange 0 (dc + 1)).foldlM _ b = _
          rw [pyRange_neg hneg']
          rfl
        rw [this] at h
        cases h
        rfl
      have hpos' : (0 : ℤ) < dc + 1 := by omega
      obtain ⟨rest', hrest'⟩ := pyRange_cons hpos'
      rw [hrest'] at hc
      obtain ⟨c', hc'⟩ := foldlM_ok_cons hc
      cases htol : Dict.get dnTol l with
      | error e => rw [htol] at hc'; cases hc'
      | ok tol =>
        rw [htol] at hc'
        refine ⟨⟨tol, get_ok htol⟩, ?_⟩
        replace hc' : (if |(0 : ℤ) - 0| ≤ tol then (do
          let n0 ← Dict.get n0imp l
          let val ← Dict.get valBaths l
          return [] ++ (← getBasisPartition nBaths l nb val n0 0 0) : Py (List (List ℕ))) else return []) = .ok c' := hc'
        by_cases ht : |(0 : ℤ) - 0| ≤ tol
        · rw [if_pos ht] at hc'
          cases hn : Dict.get n0imp l with
          | error e => rw [hn] at hc'; cases hc'
          | ok n0 => exact ⟨n0, get_ok hn⟩
        · exfalso
          apply hr
          have htn : tol < 0 := by simpa using ht
          have : (pyRange 0 (dv + 1)).foldlM (fun (basisL : List (List ℕ)) (dnVal : ℤ) => do
              let dc ← Dict.get dnConBaths l
              (pyRange 0 (dc + 1)).foldlM (fun basisL dnCon => do
                let tol ← Dict.get dnTol l
                if |dnVal - dnCon| ≤ tol then do
                  let n0 ← Dict.get n0imp l
                  let val ← Dict.get valBaths l
                  return basisL ++ (← getBasisPartition nBaths l nb val n0 dnVal dnCon)
                else return basisL) basisL) [] = .ok ([] : List (List ℕ)) := by
            refine foldlM_id fun a _ b => ?_
            rw [hdc]
            show (pyRange 0 (dc + 1)).foldlM _ b = _
            refine foldlM_id fun a' _ b' => ?_
            rw [htol]
            show (if |a - a'| ≤ tol then _ else _) = _
            rw [if_neg]
            · rfl
            · have := abs_nonneg (a - a')
              omega
          rw [this] at h
          cases h
          rfl

/-- A basis that is not empty was made with all parameters given. -/
theorem getBasis_provided {basis : List Bytes}
    (h : getBasis nBaths valBaths dnValBaths dnConBaths dnTol n0imp = .ok basis) (hne : basis ≠ []) :
    ProvidesAll nBaths ⟨lookupD valBaths, lookupD dnValBaths, lookupD dnConBaths, lookupD dnTol, lookupD n0imp⟩
      valBaths dnValBaths dnConBaths dnTol n0imp := by
  unfold getBasis at h
  cases hv : nBaths.forM (fun p => do
      let val ← Dict.get valBaths p.1
      pyAssert (val ≤ p.2)) with
  | error e =>
    rw [hv] at h
    cases h
  | ok u =>
    rw [hv] at h
    cases hm : nBaths.mapM (fun p => getBasisL nBaths valBaths dnValBaths dnConBaths dnTol n0imp p.1 p.2) with
    | error e =>
      replace h : (nBaths.mapM (fun p => getBasisL nBaths valBaths dnValBaths dnConBaths dnTol n0imp p.1 p.2) >>= _)
        = .ok basis := h
      rw [hm] at h
      cases h
    | ok bs =>
      replace h : (nBaths.mapM (fun p => getBasisL nBaths valBaths dnValBaths dnConBaths dnTol n0imp p.1 p.2) >>= _)
        = .ok basis := h
      rw [hm] at h
      have hval : ∀ l ∈ Dict.keys nBaths, Dict.get? valBaths l = some (lookupD valBaths l) := by
        intro l hl
        obtain ⟨p, hp, rfl⟩ := List.mem_map.1 hl
        clear h hm hne
        induction nBaths with
        | nil => simp at hp
        | cons q rest ih =>
          cases hg : Dict.get valBaths q.1 with
          | error e =>
            have : (q :: rest).forM (fun p => do
              let val ← Dict.get valBaths p.1
              pyAssert (val ≤ p.2)) = (.error e : Py Unit) := by
              rw [List.forM_eq_forM, List.forM_cons, hg]
              rfl
            rw [this] at hv
            cases hv
          | ok v =>
            rcases List.mem_cons.1 hp with rfl | hp
            · exact get?_lookupD (get_ok hg)
            · refine ih ?_ hp (List.mem_map.2 ⟨p, hp, rfl⟩)
              rw [List.forM_eq_forM, List.forM_cons, hg] at hv
              replace hv : (pyAssert (v ≤ q.2) >>= fun _ => rest.forM _) = (.ok u : Py Unit) := hv
              cases ha : pyAssert (v ≤ (q.2 : ℤ)) with
              | error e => rw [ha] at hv; cases hv
              | ok _ => rw [ha] at hv; exact hv
      have hall : ∀ p ∈ nBaths, ∃ r, r ≠ [] ∧
          getBasisL nBaths valBaths dnValBaths dnConBaths dnTol n0imp p.1 p.2 = .ok r := by
        have hnil : [] ∉ bs := by
          intro hc
          apply hne
          replace h : ((pyProduct bs).mapM _ : Py (List Bytes)) = .ok basis := h
          rw [pyProduct_nil_mem bs hc] at h
          cases h
          rfl
        intro p hp
        have hmem : ∀ (L : Dict ℕ ℕ) (bs : List (List (List ℕ))),
            L.mapM (fun p => getBasisL nBaths valBaths dnValBaths dnConBaths dnTol n0imp p.1 p.2) = .ok bs →
            p ∈ L → ∃ r ∈ bs, getBasisL nBaths valBaths dnValBaths dnConBaths dnTol n0imp p.1 p.2 = .ok r := by
          intro L
          induction L with
          | nil => intro _ _ hp; simp at hp
          | cons q rest ih =>
            intro bs hb hp
            rw [List.mapM_cons] at hb
            cases hq : getBasisL nBaths valBaths dnValBaths dnConBaths dnTol n0imp q.1 q.2 with
            | error e => rw [hq] at hb; cases hb
            | ok r =>
              rw [hq] at hb
              cases hr : rest.mapM (fun p => getBasisL nBaths valBaths dnValBaths dnConBaths dnTol n0imp p.1 p.2) with
              | error e =>
                replace hb : (rest.mapM (fun p => getBasisL nBaths valBaths dnValBaths dnConBaths dnTol n0imp p.1 p.2)
                  >>= _) = .ok bs := hb
                rw [hr] at hb
                cases hb
              | ok rs =>
                replace hb : (rest.mapM (fun p => getBasisL nBaths valBaths dnValBaths dnConBaths dnTol n0imp p.1 p.2)
                  >>= _) = .ok bs := hb
                rw [hr] at hb
                cases hb
                rcases List.mem_cons.1 hp with rfl | hp
                · exact ⟨r, List.mem_cons_self, hq⟩
                · obtain ⟨r', h1, h2⟩ := ih rs hr hp
                  exact ⟨r', List.mem_cons_of_mem _ h1, h2⟩
        obtain ⟨r, h1, h2⟩ := hmem nBaths bs hm hp
        exact ⟨r, fun hc => hnil (hc ▸ h1), h2⟩
      refine ⟨hval, ?_, ?_, ?_, ?_⟩ <;>
      · intro l hl
        obtain ⟨p, hp, rfl⟩ := List.mem_map.1 hl
        obtain ⟨r, h1, h2⟩ := hall p hp
        obtain ⟨⟨a, ha⟩, ⟨b, hb⟩, ⟨c, hc⟩, ⟨d, hd⟩⟩ := getBasisL_provided h2 h1
        first | exact get?_lookupD ha | exact get?_lookupD hb | exact get?_lookupD hc | exact get?_lookupD hd

/-- The basis that `get_basis` returns is a list of distinct product states of the system. -/
theorem getBasis_states (hn : Dict.NodupKeys nBaths) {basis : List Bytes}
    (h : getBasis nBaths valBaths dnValBaths dnConBaths dnTol n0imp = .ok basis) :
    ∃ states : List (Finset ℕ), states.Nodup ∧ (∀ S ∈ states, S ⊆ range (nTotal (intKeys nBaths))) ∧
      basis = states.map (encBytes (nTotal (intKeys nBaths))) := by
  by_cases hne : basis = []
  · exact ⟨[], List.nodup_nil, by simp, by simp [hne]⟩
  · have hP := getBasis_provided h hne
    have hnd := C12_no_duplicates nBaths _ _ _ _ _ _ hn hP basis h
    have hc := (C11_get_basis nBaths _ _ _ _ _ _ hn hP basis h).2
    have key : ∀ basis : List Bytes, basis.Nodup → (∀ k ∈ basis, ∃ S ⊆ range (nTotal (intKeys nBaths)),
        k = encBytes (nTotal (intKeys nBaths)) S) → ∃ states : List (Finset ℕ), states.Nodup ∧
          (∀ S ∈ states, S ⊆ range (nTotal (intKeys nBaths))) ∧
          basis = states.map (encBytes (nTotal (intKeys nBaths))) := by
      intro basis
      induction basis with
      | nil => exact fun _ _ => ⟨[], List.nodup_nil, by simp, rfl⟩
      | cons b basis ih =>
        intro hnd hc
        obtain ⟨hb, hnd⟩ := List.nodup_cons.1 hnd
        obtain ⟨states, h1, h2, rfl⟩ := ih hnd fun k hk => hc k (List.mem_cons_of_mem _ hk)
        obtain ⟨S, hS, rfl⟩ := hc b List.mem_cons_self
        refine ⟨S :: states, List.nodup_cons.2 ⟨fun hm => hb (List.mem_map.2 ⟨S, hm, rfl⟩), h1⟩, ?_, rfl⟩
        intro T hT
        rcases List.mem_cons.1 hT with rfl | hT
        · exact hS
        · exact h2 T hT
    exact key basis hnd hc

end

/-! ### together -/

/-- What the setup guarantees. -/
structure SetupGood (ls : List ℕ) (s : Setup) : Prop where
  nBaths : Dict.NodupKeys s.nBaths
  shells : ∀ l ∈ Dict.keys s.nBaths, l ∈ ls
  op : OpAccepted (nSpinOrbitals s.nBaths) s.hOp
  basis : ∃ states : List (Finset ℕ), states.Nodup ∧ (∀ S ∈ states, S ⊆ range (nSpinOrbitals s.nBaths)) ∧
    s.basis = states.map (encBytes (nSpinOrbitals s.nBaths))

theorem mainSetup_good (L : MainLib) (A : MainArgs) : OkIn (SetupGood A.ls) (mainSetup L A) := by
  unfold mainSetup
  dsimp only
  refine OkIn.bind OkIn.true fun r _ => ?_
  split
  case' h_2 => exact OkIn.error
  refine OkIn.bind OkIn.true fun h _ => ?_
  refine OkIn.bind (mainHamiltonian_okIn L A (zipDict_nodup _ _) _ _ _ _ _) fun hOp hop => ?_
  refine OkIn.bind (P := fun basis => ∃ states : List (Finset ℕ), states.Nodup ∧
    (∀ S ∈ states, S ⊆ range (nTotal (intKeys (zipDict A.ls A.nBaths)))) ∧
    basis = states.map (encBytes (nTotal (intKeys (zipDict A.ls A.nBaths)))))
    (fun basis hb => getBasis_states (zipDict_nodup _ _) hb) fun basis hb => OkIn.pure ⟨zipDict_nodup _ _, zipDict_keys _ _, ?_, ?_⟩
  · rw [nSpinOrbitals_eq]
    exact hop
  · rw [nSpinOrbitals_eq]
    exact hb

end Verif
