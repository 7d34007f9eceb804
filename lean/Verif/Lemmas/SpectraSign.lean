/-
The sign of the imaginary part of Green's functions.
-/
import Verif.Lemmas.Safe
import Verif.Spec.Simulate
import Verif.Lemmas.OkIn
import Verif.Prop.Lanczos

namespace Verif

open Mpi Matrix Spec

noncomputable section

/-- The messages without spectra satisfy `I`. -/
structure PlainMsgs (I : Msg ℂ → Prop) : Prop where
  states : ∀ l, I (.states l)
  matrix : ∀ m, I (.matrix m)
  number : ∀ k, I (.number k)
  vector : ∀ v, I (.vector v)
  none : I .none

theorem msgSum_safe {I : Msg ℂ → Prop} (hI : PlainMsgs I) (l : List (Msg ℂ)) : I (msgSum l) := by
  unfold msgSum
  split
  · exact hI.vector _
  · split
    · exact hI.number _
    · exact hI.none

section
variable {I : Msg ℂ → Prop} (hI : PlainMsgs I)
include hI

omit hI in
theorem safe_asStates (m : Msg ℂ) : (asStates m).Safe I fun _ => True := by
  cases m <;> trivial

omit hI in
theorem safe_asMatrix (m : Msg ℂ) : (asMatrix m).Safe I fun _ => True := by
  cases m <;> trivial

omit hI in
theorem safe_recvKnown : ∀ (rs : List ℕ) (setB : List Psr.Bytes), (recvKnown rs setB : Prog (Msg ℂ) _).Safe I fun _ => True
  | [], _ => trivial
  | _ :: rs, _ => fun m _ => Safe.bind (fun _ _ => safe_recvKnown rs _) _ (safe_asStates m)

theorem safe_gatherNew (loc : List Psr.Bytes) : ∀ (rs : List ℕ) (acc : List Psr.Bytes),
    (gatherNew loc rs acc : Prog (Msg ℂ) _).Safe I fun _ => True
  | [], _ => trivial
  | _ :: rs, _ => Safe.bind (Q := fun _ => True)
      (fun m _ => Safe.bind (fun _ _ => safe_gatherNew loc rs _) _ (safe_asStates m)) _
      (Safe.bcast _ _ (hI.states _) fun _ _ => trivial)

theorem safe_hBuildLoop (n : ℕ) (hOp : Op ℕ ℂ) (cut : ℝ) (r : Option Restrictions)
    (ord : ℕ → List Psr.Bytes → List Psr.Bytes) (rank ranks : ℕ) (hDict : OpResult ℂ) :
    ∀ (fuel : ℕ) (basis : List Psr.Bytes) (i : ℕ) (hNew : OpResult ℂ),
      (hBuildLoop n hOp cut r ord rank ranks hDict fuel basis i hNew).Safe I fun _ => True
  | 0, _, _, _ => trivial
  | fuel + 1, basis, i, hNew => by
    unfold hBuildLoop
    split
    · refine Safe.bind (Q := fun _ => True) (fun new1 _ => ?_) _ (Safe.lift fun _ _ => trivial)
      refine Safe.bind (Q := I) (fun tB htB => ?_) _ ?_
      · refine Safe.bind (Q := fun _ => True) (fun m _ => ?_) _ (Safe.bcast _ _ htB fun _ _ => trivial)
        refine Safe.bind (Q := fun _ => True) (fun tupleB _ => ?_) _ (safe_asStates m)
        refine Safe.bind (Q := fun _ => True) (fun acc _ => ?_) _ (Safe.lift fun _ _ => trivial)
        refine Safe.bind (Q := fun _ => True) (fun new _ => ?_) _ (safe_gatherNew hI _ _ _)
        exact safe_hBuildLoop n hOp cut r ord rank ranks hDict fuel _ _ _
      · split
        · refine Safe.bind (Q := fun _ => True) (fun _ _ => ?_) _ (safe_recvKnown _ _)
          exact hI.states _
        · exact ⟨hI.states _, hI.none⟩
    · trivial

theorem safe_sumLocal (loc : Mat ℂ) : ∀ (rs : List ℕ) (h : Mat ℂ),
    (sumLocal loc rs h).Safe I fun _ => True
  | [], _ => trivial
  | _ :: rs, _ => Safe.bind (Q := fun _ => True)
      (fun m _ => Safe.bind (fun _ _ => safe_sumLocal loc rs _) _ (safe_asMatrix m)) _
      (Safe.bcast _ _ (hI.matrix _) fun _ _ => trivial)

theorem safe_expandHBuild (n : ℕ) (hDict : OpResult ℂ) (hOp : Op ℕ ℂ) (cut : ℝ) (basis0 : List Psr.Bytes)
    (r : Option Restrictions) (ord : ℕ → List Psr.Bytes → List Psr.Bytes) (ordH : List Psr.Bytes → List Psr.Bytes)
    (loc : Bool) (rank ranks fuel : ℕ) :
    (expandBasisAndHamiltonianHBuild n hDict hOp cut basis0 r ord ordH loc rank ranks fuel).Safe I fun _ => True := by
  unfold expandBasisAndHamiltonianHBuild expandBasisHBuild
  refine Safe.bind (Q := fun _ => True) (fun res _ => ?_) _ (safe_hBuildLoop hI _ _ _ _ _ _ _ _ _ _ _ _)
  refine Safe.bind (Q := fun _ => True) (fun h _ => ?_) _ ?_
  · refine Safe.bind (Q := fun _ => True) (fun _ _ => ?_) _ (Safe.reduce _ _ (hI.number _))
    trivial
  · unfold hMatrixHBuild
    refine Safe.bind (Q := fun _ => True) (fun l _ => ?_) _ (Safe.lift fun _ _ => trivial)
    split
    · trivial
    · exact safe_sumLocal hI _ _ _

theorem safe_embedVectors {A : Type} {Q : A → Prop} (n : ℕ) : ∀ p : Prog (Fin n → ℂ) A,
    p.Safe (fun _ => True) Q → (embedVectors n p).Safe I Q
  | .ret _, h => h
  | .fail _, _ => trivial
  | .coll _ _ k, h => by
    unfold embedVectors
    refine ⟨hI.vector _, safe_embedVectors n _ h.2.1, fun m _ => ?_⟩
    show Prog.Safe I Q (match msgVector n m with
      | some v => embedVectors n (k (some v))
      | none => .fail .typeError)
    cases msgVector n m with
    | none => trivial
    | some v => exact safe_embedVectors n _ (h.2.2 v trivial)
  | .send _ _ _ k, h => by
    unfold embedVectors
    exact ⟨hI.vector _, safe_embedVectors n _ h.2⟩
  | .recv _ _ k, h => by
    unfold embedVectors
    intro m _
    show Prog.Safe I Q (match msgVector n m with
      | some v => embedVectors n (k v)
      | none => .fail .typeError)
    cases msgVector n m with
    | none => trivial
    | some v => exact safe_embedVectors n _ (h v trivial)

end

/-! ### lengths of the arrays of the Krylov algorithm -/

theorem krylovVector_length {n : ℕ} {j : ℕ} {s s' : Krylov n} (h : krylovVector j s = .ok s') :
    s'.alpha.length = s.alpha.length ∧ s'.beta.length = s.beta.length := by
  unfold krylovVector at h
  simp only at h
  split at h
  · cases h; simp
  · cases h

theorem krylovLoop_length {n : ℕ} (h : Matrix (Fin n) (Fin n) ℂ) : ∀ (m j : ℕ) (s s' : Krylov n),
    krylovLoop h m j s = .ok s' → s'.alpha.length = s.alpha.length ∧ s'.beta.length = s.beta.length
  | 0, _, s, s', he => by
    unfold krylovLoop at he
    cases he; exact ⟨rfl, rfl⟩
  | m + 1, j, s, s', he => by
    unfold krylovLoop at he
    cases hv : krylovVector j s with
    | error e => rw [hv] at he; cases he
    | ok s1 =>
      rw [hv] at he
      have h1 := krylovVector_length hv
      have h2 := krylovLoop_length h m (j + 1) _ s' he
      simp only [krylovAlpha, List.length_set] at h2
      exact ⟨h2.1.trans h1.1, h2.2.trans h1.2⟩

theorem tridiagonalKrylov_length {n : ℕ} {h : Matrix (Fin n) (Fin n) ℂ} {psi0 : Fin n → ℂ} {K : ℕ}
    {ab : List ℝ × List ℝ} (he : tridiagonalKrylov h psi0 K = .ok ab) :
    0 < min K n ∧ ab.1.length = min K n ∧ ab.2.length = min K n - 1 := by
  unfold tridiagonalKrylov krylovAlloc at he
  simp only at he
  split at he
  · cases he
  · rename_i hk
    simp only [bind, Except.bind] at he
    cases hl : krylovLoop h (min K n - 1) 1 (krylovFirst ⟨List.replicate (min K n) 0, List.replicate (min K n - 1) 0,
      psi0, 0, 0⟩ (h *ᵥ psi0)) with
    | error e => rw [hl] at he; cases he
    | ok s =>
      rw [hl] at he
      cases he
      have := krylovLoop_length h _ _ _ _ hl
      simp only [krylovFirst, List.length_set, List.length_replicate] at this
      exact ⟨by omega, this.1, this.2⟩

theorem safe_krylovLoopRank {n : ℕ} (h : Matrix (Fin n) (Fin n) ℂ) (rank a b : ℕ) : ∀ (m j : ℕ) (s : Krylov n),
    s.alpha.length = a → s.beta.length = b →
    (krylovLoopRank h rank m j s).Safe (fun _ => True) fun s => s.alpha.length = a ∧ s.beta.length = b
  | 0, _, _, ha, hb => ⟨ha, hb⟩
  | m + 1, j, s, ha, hb => by
    unfold krylovLoopRank
    refine Safe.bind (Q := fun s => s.alpha.length = a ∧ s.beta.length = b) (fun s hs => ?_) _ ?_
    · refine Safe.bind (Q := fun _ => True) (fun v1 _ => ?_) _ (Safe.bcast _ _ trivial fun _ _ => trivial)
      refine Safe.bind (Q := fun _ => True) (fun wp _ => ?_) _ (Safe.reduce _ _ trivial)
      refine safe_krylovLoopRank h rank a b m (j + 1) _ ?_ ?_
      · split
        · simp only [krylovAlpha, List.length_set]; exact hs.1
        · exact hs.1
      · split
        · exact hs.2
        · exact hs.2
    · split
      · refine Safe.lift fun s' hs' => ?_
        have := krylovVector_length hs'
        exact ⟨this.1.trans ha, this.2.trans hb⟩
      · exact ⟨ha, hb⟩

theorem safe_tridiagonalKrylovRank {n : ℕ} (h : Matrix (Fin n) (Fin n) ℂ) (psi0 : Fin n → ℂ) (K rank : ℕ) :
    (tridiagonalKrylovRank h psi0 K rank).Safe (fun _ => True)
      fun ab => 0 < min K n ∧ ab.1.length = min K n ∧ ab.2.length = min K n - 1 := by
  unfold tridiagonalKrylovRank
  refine Safe.bind (Q := fun s => 0 < min K n ∧ s.alpha.length = min K n ∧ s.beta.length = min K n - 1)
    (fun s hs => ?_) _ (Safe.lift fun s hs => ?_)
  · refine Safe.bind (Q := fun _ => True) (fun wp _ => ?_) _ (Safe.reduce _ _ trivial)
    refine Safe.bind (fun s' hs' => ?_) _ (safe_krylovLoopRank h rank (min K n) (min K n - 1) _ _ _ ?_ ?_)
    · exact ⟨hs.1, hs'.1, hs'.2⟩
    · split
      · simp only [krylovFirst, List.length_set]; exact hs.2.1
      · exact hs.2.1
    · split
      · simp only [krylovFirst]; exact hs.2.2
      · exact hs.2.2
  · unfold krylovAlloc at hs
    split at hs
    · cases hs
    · cases hs
      simp
      omega

/-! ### signs -/

/-- A spectrum of the right length whose imaginary parts have the sign of `-delta`
or vanish. -/
def RowSign (delta : ℝ) (nW : ℕ) (g : List ℂ) : Prop := g.length = nW ∧ ∀ x ∈ g, delta * x.im ≤ 0

theorem rowSign_zeros (delta : ℝ) (nW : ℕ) : RowSign delta nW (List.replicate nW 0) := by
  refine ⟨by simp, fun x hx => ?_⟩
  rw [List.eq_of_mem_replicate hx]
  simp

theorem rowSign_scale {delta : ℝ} {nW : ℕ} {g : List ℂ} (c : ℝ) (h : RowSign delta nW g) :
    RowSign delta nW (scaleSpectrum c g) := by
  refine ⟨by simp [scaleSpectrum, h.1], fun x hx => ?_⟩
  obtain ⟨y, hy, rfl⟩ := List.mem_map.1 hx
  rw [Complex.im_ofReal_mul]
  have := h.2 y hy
  nlinarith [sq_nonneg c]

theorem greenOnMesh_sign {alpha beta : List ℝ} {k : ℕ} (hk : 0 < k) (ha : alpha.length = k)
    (hb : beta.length = k - 1) (omega : List ℝ) {delta : ℝ} (hd : delta ≠ 0) (e : ℝ) :
    OkIn (RowSign delta omega.length) (greenOnMesh alpha beta k omega delta e) := by
  unfold greenOnMesh
  refine OkIn.mapM omega fun w _ g hg => ?_
  obtain ⟨g', h1, h2, h3, _⟩ := C40_continued_fraction alpha beta k hk ha hb w delta e hd
  rw [h1] at hg
  cases hg
  rcases lt_or_gt_of_ne hd with hd | hd
  · have := h3 hd
    nlinarith
  · have := h2 hd
    nlinarith

theorem getGreen_sign (n : ℕ) (e : ℝ) (psi : Psi ℂ) (hOp : Op ℕ ℂ) (omega : List ℝ) {delta : ℝ} (hd : delta ≠ 0)
    (K : ℕ) (cut : ℝ) (r : Option Restrictions) (hDict : OpResult ℂ) (fuel : ℕ) :
    OkIn (fun gh => RowSign delta omega.length gh.1) (getGreen n e psi hOp omega delta K cut r hDict fuel) := by
  unfold getGreen
  split
  · exact OkIn.ok (rowSign_zeros _ _)
  · refine OkIn.bind OkIn.true fun ⟨h, index, hDict'⟩ _ => ?_
    refine OkIn.bind OkIn.true fun psi0 _ => ?_
    refine OkIn.bind (fun ab hab => tridiagonalKrylov_length hab) fun ⟨alpha, beta⟩ hab => ?_
    have hm : min (min K index.length) index.length = min K index.length := by omega
    rw [hm] at hab
    exact OkIn.bind (greenOnMesh_sign hab.1 hab.2.1 hab.2.2 omega hd e) fun g hg => OkIn.pure hg

theorem safe_getGreenRank {I : Msg ℂ → Prop} (hI : PlainMsgs I) (n : ℕ) (e : ℝ) (psi : Psi ℂ) (hOp : Op ℕ ℂ)
    (omega : List ℝ) {delta : ℝ} (hd : delta ≠ 0) (K : ℕ) (cut : ℝ) (r : Option Restrictions)
    (hDict : OpResult ℂ) (ord : SetOrders) (rank ranks fuel : ℕ) :
    (getGreenRank n e psi hOp omega delta K cut r hDict ord rank ranks fuel).Safe I
      fun gh => RowSign delta omega.length gh.1 := by
  unfold getGreenRank
  split
  · exact rowSign_zeros _ _
  · refine Safe.bind (Q := fun _ => True) (fun res _ => ?_) _ (safe_expandHBuild hI _ _ _ _ _ _ _ _ _ _ _ _)
    refine Safe.bind (Q := fun _ => True) (fun psi0 _ => ?_) _ (Safe.lift fun _ _ => trivial)
    refine Safe.bind (fun ab hab => ?_) _ (safe_embedVectors hI _ _ (safe_tridiagonalKrylovRank _ _ _ _))
    have hm : min (min K res.2.1.length) res.2.1.length = min K res.2.1.length := by omega
    rw [hm] at hab
    refine Safe.bind (fun g hg => ?_) _ (Safe.lift (greenOnMesh_sign hab.1 hab.2.1 hab.2.2 omega hd e))
    exact hg

/-! ### getSpectra -/

/-- All spectra of an array have the right sign. -/
def SpectraSign (delta : ℝ) (nW : ℕ) (gs : Spectra) : Prop := ∀ i t, RowSign delta nW (gs i t)

/-- All spectra of a dict have the right sign. -/
def DictSign (delta : ℝ) (nW : ℕ) (d : Dict ℕ (List (List ℂ))) : Prop :=
  ∀ p ∈ d, ∀ row ∈ p.2, RowSign delta nW row

/-- All spectra in a message have the right sign. -/
def MsgSign (delta : ℝ) (nW : ℕ) : Msg ℂ → Prop
  | .spectra d => DictSign delta nW d
  | _ => True

theorem plainMsgs_sign (delta : ℝ) (nW : ℕ) : PlainMsgs (MsgSign delta nW) :=
  ⟨fun _ => trivial, fun _ => trivial, fun _ => trivial, fun _ => trivial, trivial⟩

theorem dict_mem_set {κ ν : Type} [DecidableEq κ] {d : Dict κ ν} {k : κ} {v : ν} {p : κ × ν}
    (h : p ∈ Dict.set d k v) : p = (k, v) ∨ p ∈ d := by
  induction d with
  | nil => simpa [Dict.set] using h
  | cons q d ih =>
    unfold Dict.set at h
    split at h
    · rename_i hk
      rcases List.mem_cons.1 h with h | h
      · exact Or.inl (by rw [h, hk])
      · exact Or.inr (List.mem_cons_of_mem _ h)
    · rcases List.mem_cons.1 h with h | h
      · exact Or.inr (h ▸ List.mem_cons_self)
      · rcases ih h with h | h
        · exact Or.inl h
        · exact Or.inr (List.mem_cons_of_mem _ h)

theorem dictSign_set {delta : ℝ} {nW : ℕ} {d : Dict ℕ (List (List ℂ))} (h : DictSign delta nW d) (i : ℕ)
    {rows : List (List ℂ)} (hr : ∀ row ∈ rows, RowSign delta nW row) : DictSign delta nW (Dict.set d i rows) := by
  intro p hp row hrow
  rcases dict_mem_set hp with rfl | hp
  · exact hr row hrow
  · exact h p hp row hrow

theorem rowSign_getD {delta : ℝ} {nW : ℕ} {rows : List (List ℂ)} (hr : ∀ row ∈ rows, RowSign delta nW row)
    {g : List ℂ} (hg : RowSign delta nW g) (b : ℕ) : RowSign delta nW (rows.getD b g) := by
  rw [List.getD_eq_getElem?_getD]
  cases h : rows[b]? with
  | none => exact hg
  | some row => exact hr row (List.mem_of_getElem? h)

theorem spectraSign_putRows {delta : ℝ} {nW : ℕ} {gs : Spectra} (h : SpectraSign delta nW gs) (i : ℕ)
    {rows : List (List ℂ)} (hr : ∀ row ∈ rows, RowSign delta nW row) :
    SpectraSign delta nW (gs.putRows i rows) := by
  intro a b
  unfold Spectra.putRows
  split
  · exact rowSign_getD hr (h a b) b
  · exact h a b

theorem spectraSign_put {delta : ℝ} {nW : ℕ} {gs : Spectra} (h : SpectraSign delta nW gs) (i t : ℕ)
    {g : List ℂ} (hg : RowSign delta nW g) : SpectraSign delta nW (gs.put i t g) := by
  intro a b
  unfold Spectra.put
  split
  · exact hg
  · exact h a b

theorem foldl_inv {α β : Type} {Q : β → Prop} {f : β → α → β} : ∀ (l : List α) (b : β), Q b →
    (∀ a ∈ l, ∀ b, Q b → Q (f b a)) → Q (l.foldl f b)
  | [], _, h, _ => h
  | a :: l, b, h, hf => foldl_inv l _ (hf a List.mem_cons_self b h) fun a ha => hf a (List.mem_cons_of_mem _ ha)

section
variable (A : SpectraArgs) (hd : A.delta ≠ 0)
include hd

theorem eigenStateRow_sign (psi : Psi ℂ) (e : ℝ) (acc : List (List ℂ) × OpResult ℂ) (tOp : Op ℕ ℂ)
    (h : ∀ row ∈ acc.1, RowSign A.delta A.w.length row) :
    OkIn (fun acc => ∀ row ∈ acc.1, RowSign A.delta A.w.length row) (eigenStateRow A psi e acc tOp) := by
  unfold eigenStateRow
  refine OkIn.bind OkIn.true fun ⟨psiR, _⟩ _ => ?_
  refine OkIn.bind OkIn.true fun ⟨nrm, psiR⟩ _ => ?_
  refine OkIn.bind (getGreen_sign _ _ _ _ _ hd _ _ _ _ _) fun ⟨g, h'⟩ hg => ?_
  refine OkIn.pure fun row hrow => ?_
  rcases List.mem_append.1 hrow with hrow | hrow
  · exact h row hrow
  · rw [List.mem_singleton.1 hrow]
    exact rowSign_scale _ hg

theorem eigenStatesLocal_sign (tOps : List (Op ℕ ℂ)) (psis : List (Psi ℂ)) (es : List ℝ) (rank ranks : ℕ) :
    OkIn (fun acc => DictSign A.delta A.w.length acc.1) (eigenStatesLocal A tOps psis es rank ranks) := by
  unfold eigenStatesLocal
  refine OkIn.bind OkIn.true fun jobs _ => ?_
  refine OkIn.foldlM jobs _ (fun p hp => by cases hp) fun i _ acc hacc => ?_
  refine OkIn.bind OkIn.true fun psi _ => ?_
  refine OkIn.bind OkIn.true fun e _ => ?_
  refine OkIn.bind (P := fun (rh : List (List ℂ) × OpResult ℂ) => ∀ row ∈ rh.1, RowSign A.delta A.w.length row) ?_
    fun ⟨rows, h⟩ hrows => ?_
  · refine OkIn.foldlM tOps _ (fun p hp => by cases hp) fun tOp _ acc hacc => ?_
    exact eigenStateRow_sign A hd psi e acc tOp hacc
  · exact OkIn.pure (dictSign_set hacc i hrows)

omit hd in
theorem safe_gatherSpectra {delta : ℝ} {nW : ℕ} (g : Dict ℕ (List (List ℂ))) (hg : DictSign delta nW g) :
    ∀ (rs : List ℕ) (gs : Spectra), SpectraSign delta nW gs →
      (gatherSpectra g rs gs).Safe (MsgSign delta nW) (SpectraSign delta nW)
  | [], _, h => h
  | r :: rs, gs, h => by
    unfold gatherSpectra
    refine Safe.bind (Q := MsgSign delta nW) (fun m hm => ?_) _ (Safe.bcast _ _ hg fun _ h => h)
    refine Safe.bind (Q := DictSign delta nW) (fun d hd => ?_) _ ?_
    · refine safe_gatherSpectra g hg rs _ ?_
      exact foldl_inv (Q := SpectraSign delta nW) d gs h fun p hp gs hgs => spectraSign_putRows hgs _ (hd p hp)
    · cases m <;> exact hm

theorem safe_getSpectra (tOps : List (Op ℕ ℂ)) (psis : List (Psi ℂ)) (es : List ℝ)
    (mode : SpectraMode) (ord : ℕ → ℕ → SetOrders) (rank ranks : ℕ) {I : Msg ℂ → Prop} (hI : PlainMsgs I)
    (hI' : mode = .eigenStates → I = MsgSign A.delta A.w.length) :
    (getSpectra A tOps psis es mode ord rank ranks).Safe I (SpectraSign A.delta A.w.length) := by
  have h0 : SpectraSign A.delta A.w.length (fun _ _ => List.replicate A.w.length 0) := fun _ _ => rowSign_zeros _ _
  unfold getSpectra
  cases mode with
  | other => trivial
  | eigenStates =>
    rw [hI' rfl]
    exact Safe.bind (fun g hg => safe_gatherSpectra g.1 hg _ _ h0) _
      (Safe.lift (eigenStatesLocal_sign A hd tOps psis es rank ranks))
  | hBuild =>
    refine Safe.bind (Q := fun r => SpectraSign A.delta A.w.length r.1) (fun r hr => by exact hr) _ ?_
    refine Safe.loop _ _ (fun q _ acc hacc => ?_) h0
    refine Safe.bind (Q := fun r => SpectraSign A.delta A.w.length r.1) (fun r hr => by exact hr) _ ?_
    refine Safe.loop _ _ (fun i _ acc hacc => ?_) hacc
    unfold hBuildBody
    refine Safe.bind (Q := fun _ => True) (fun x _ => ?_) _ (Safe.lift fun _ _ => trivial)
    refine Safe.bind (fun gh hgh => ?_) _ (safe_getGreenRank hI _ _ _ _ _ hd _ _ _ _ _ _ _ _)
    exact spectraSign_put hacc i q.2 (rowSign_scale _ hgh)

end

/-! ### getRIXSmap -/

/-- All spectra of a RIXS map have the right sign. -/
def RixsSign (delta : ℝ) (nW : ℕ) (gs : RixsMap) : Prop := ∀ a b c d, RowSign delta nW (gs a b c d)

theorem rixsSign_putRows {delta : ℝ} {nW : ℕ} {gs : RixsMap} (h : RixsSign delta nW gs) (iE tIn iwIn : ℕ)
    {rows : List (List ℂ)} (hr : ∀ row ∈ rows, RowSign delta nW row) :
    RixsSign delta nW (gs.putRows iE tIn iwIn rows) := by
  intro a b c d
  unfold RixsMap.putRows
  split
  · exact rowSign_getD hr (h a b c d) c
  · exact h a b c d

section
variable (A : RixsArgs) (hd : A.delta2 ≠ 0) {I : Msg ℂ → Prop} (hI : PlainMsgs I)
include hd hI

theorem safe_rixsOutgoing (mode : RixsMode) (ord : ℕ → SetOrders) (rank ranks : ℕ) (refs : List ℕ)
    (e : ℝ) (psi2 : Psi ℂ) (st : RixsOutState) (q : Op ℕ ℂ × ℕ)
    (h : ∀ row ∈ st.rows, RowSign A.delta2 A.wLoss.length row) :
    (rixsOutgoing A mode ord rank ranks refs e psi2 st q).Safe I
      fun st => ∀ row ∈ st.rows, RowSign A.delta2 A.wLoss.length row := by
  unfold rixsOutgoing
  refine Safe.bind (Q := fun _ => True) (fun x _ => ?_) _ (Safe.lift fun _ _ => trivial)
  refine Safe.bind (Q := fun gh => RowSign A.delta2 A.wLoss.length gh.1) (fun gh hgh => ?_) _ ?_
  · intro row hrow
    rcases List.mem_append.1 hrow with hrow | hrow
    · exact h row hrow
    · rw [List.mem_singleton.1 hrow]
      exact rowSign_scale _ hgh
  · unfold rixsGreen
    split
    · exact safe_getGreenRank hI _ _ _ _ _ hd _ _ _ _ _ _ _ _
    · exact Safe.lift (getGreen_sign _ _ _ _ _ hd _ _ _ _ _)

theorem safe_rixsOut (mode : RixsMode) (tOpsOut : List (Op ℕ ℂ)) (ord : ℕ → SetOrders) (rank ranks : ℕ) (refs : List ℕ)
    (e : ℝ) (psi2 : Psi ℂ) (heap : List (OpResult ℂ)) (hG : OpResult ℂ) :
    (Prog.loop (rixsOutgoing A mode ord rank ranks refs e psi2) tOpsOut.zipIdx ⟨[], heap, hG⟩).Safe I
      fun st => ∀ row ∈ st.rows, RowSign A.delta2 A.wLoss.length row :=
  Safe.loop _ _ (fun q _ st hst => safe_rixsOutgoing A hd hI mode ord rank ranks refs e psi2 st q hst)
    (fun row hrow => by cases hrow)

omit hd in
theorem safe_rixsExcited (mode : RixsMode) (ord : SetOrders) (rank ranks : ℕ) (tOpIn : Op ℕ ℂ)
    (psi : Psi ℂ) (tInBig hExcited : OpResult ℂ) :
    (rixsExcited A mode ord rank ranks tOpIn psi tInBig hExcited).Safe I fun _ => True := by
  unfold rixsExcited
  refine Safe.bind (Q := fun _ => True) (fun p1 _ => ?_) _ (Safe.lift fun _ _ => trivial)
  refine Safe.bind (Q := fun _ => True) (fun res _ => ?_) _ ?_
  · refine Safe.bind (Q := fun _ => True) (fun y _ => ?_) _ (Safe.lift fun _ _ => trivial)
    trivial
  · split
    · exact safe_expandHBuild hI _ _ _ _ _ _ _ _ _ _ _ _
    · exact safe_expandHBuild hI _ _ _ _ _ _ _ _ _ _ _ _
    · exact Safe.lift fun _ _ => trivial

theorem safe_rixsAllEnergies (mode : RixsMode) (tOpsOut : List (Op ℕ ℂ)) (ord : ℕ → ℕ → SetOrders)
    (rank ranks : ℕ) (refs : List ℕ) (tIn iE : ℕ) (e : ℝ)
    (sys : Mat ℂ × (index : Dict Psr.Bytes ℕ) × (Fin index.length → ℂ)) (st : RixsState)
    (h : RixsSign A.delta2 A.wLoss.length st.gs) :
    (rixsAllEnergies A mode tOpsOut ord rank ranks refs tIn iE e sys st).Safe I
      fun st => RixsSign A.delta2 A.wLoss.length st.gs := by
  unfold rixsAllEnergies
  refine Safe.loop _ _ (fun p _ st hst => ?_) h
  refine Safe.bind (Q := fun _ => True) (fun psi2 _ => ?_) _ (Safe.lift fun _ _ => trivial)
  refine Safe.bind (fun o ho => ?_) _ (safe_rixsOut A hd hI _ _ _ _ _ _ _ _ _ _)
  exact rixsSign_putRows hst _ _ _ ho

theorem safe_rixsLocalEnergies (mode : RixsMode) (tOpsOut : List (Op ℕ ℂ)) (rank ranks : ℕ) (refs : List ℕ) (e : ℝ)
    (sys : Mat ℂ × (index : Dict Psr.Bytes ℕ) × (Fin index.length → ℂ)) (st : RixsState) :
    (rixsLocalEnergies A mode tOpsOut rank ranks refs e sys st).Safe I
      fun g => DictSign A.delta2 A.wLoss.length g.1 := by
  unfold rixsLocalEnergies
  refine Safe.bind (Q := fun _ => True) (fun jobs _ => ?_) _ (Safe.lift fun _ _ => trivial)
  refine Safe.loop _ _ (fun iw _ acc hacc => ?_) (fun p hp => by cases hp)
  refine Safe.bind (Q := fun _ => True) (fun psi2 _ => ?_) _ (Safe.lift fun _ _ => trivial)
  refine Safe.bind (fun o ho => ?_) _ (safe_rixsOut A hd hI _ _ _ _ _ _ _ _ _ _)
  exact dictSign_set hacc _ ho

end

theorem safe_gatherRixs {delta : ℝ} {nW : ℕ} (iE tIn : ℕ) (g : Dict ℕ (List (List ℂ))) (hg : DictSign delta nW g) :
    ∀ (rs : List ℕ) (gs : RixsMap), RixsSign delta nW gs →
      (gatherRixs iE tIn g rs gs).Safe (MsgSign delta nW) (RixsSign delta nW)
  | [], _, h => h
  | r :: rs, gs, h => by
    unfold gatherRixs
    refine Safe.bind (Q := MsgSign delta nW) (fun m hm => ?_) _ (Safe.bcast _ _ hg fun _ h => h)
    refine Safe.bind (Q := DictSign delta nW) (fun d hd => ?_) _ ?_
    · refine safe_gatherRixs iE tIn g hg rs _ ?_
      exact foldl_inv (Q := RixsSign delta nW) d gs h fun p hp gs hgs => rixsSign_putRows hgs _ _ _ (hd p hp)
    · cases m <;> exact hm

theorem safe_getRIXSmap (A : RixsArgs) (hd : A.delta2 ≠ 0) (tOpsIn tOpsOut : List (Op ℕ ℂ)) (psis : List (Psi ℂ))
    (es : List ℝ) (hGround : OpResult ℂ) (mode : RixsMode) (ord : List ℕ → SetOrders) (rank ranks : ℕ) :
    (getRIXSmap A tOpsIn tOpsOut psis es hGround mode ord rank ranks).Safe (MsgSign A.delta2 A.wLoss.length)
      fun r => RixsSign A.delta2 A.wLoss.length r.1 := by
  have h0 : RixsSign A.delta2 A.wLoss.length (fun _ _ _ _ => List.replicate A.wLoss.length 0) :=
    fun _ _ _ _ => rowSign_zeros _ _
  have hI := plainMsgs_sign A.delta2 A.wLoss.length
  unfold getRIXSmap
  simp only
  split
  · exact h0
  · refine Safe.bind (Q := fun st => RixsSign A.delta2 A.wLoss.length st.gs) (fun st hst => by exact hst) _ ?_
    refine Safe.loop _ _ (fun q _ st hst => ?_) h0
    refine Safe.bind (Q := fun r => RixsSign A.delta2 A.wLoss.length r.1.gs) (fun r hr => by exact hr) _ ?_
    refine Safe.loop _ _ (fun iE _ acc hacc => ?_) hst
    unfold rixsEigenState
    refine Safe.bind (Q := fun _ => True) (fun pe _ => ?_) _ (Safe.lift fun _ _ => trivial)
    refine Safe.bind (Q := fun _ => True) (fun x _ => ?_) _ (safe_rixsExcited A hI _ _ _ _ _ _ _ _)
    simp only
    split
    · exact Safe.bind (fun st hst => hst) _ (safe_rixsAllEnergies A hd hI _ _ _ _ _ _ _ _ _ _ _ hacc)
    · exact Safe.bind (fun st hst => hst) _ (safe_rixsAllEnergies A hd hI _ _ _ _ _ _ _ _ _ _ _ hacc)
    · refine Safe.bind (fun g hg => ?_) _ (safe_rixsLocalEnergies A hd hI _ _ _ _ _ _ _ _)
      refine Safe.bind (fun gs hgs => ?_) _ (safe_gatherRixs _ _ _ hg _ _ hacc)
      exact hgs

/-! ### simulate_spectra -/

theorem thermalAverage_cone {E : Type} [AddCommGroup E] [Module ℝ E] (P : E → Prop) (h0 : P 0)
    (hadd : ∀ x y, P x → P y → P (x + y)) (hsmul : ∀ (c : ℝ) x, 0 ≤ c → P x → P (c • x))
    (kB : ℝ) (es : List ℝ) (obs : List E) (T : ℝ) (h : ∀ o ∈ obs, P o) :
    OkIn P (thermalAverage kB es obs T) := by
  unfold thermalAverage
  by_cases hlen : es.length = obs.length
  swap
  · intro a ha
    simp only [hlen, ne_eq, not_false_eq_true, if_true, bind, Except.bind] at ha
    cases ha
  simp only [hlen, ne_eq, not_true_eq_false, if_false]
  refine OkIn.bind OkIn.true fun shift _ => ?_
  by_cases hT : kB * T = 0
  · intro a ha
    simp only [hT, if_true, bind, Except.bind] at ha
    cases ha
  simp only [hT, if_false]
  refine OkIn.pure ?_
  have := foldl_inv (Q := fun acc : ℝ × E => 0 ≤ acc.1 ∧ P acc.2)
    (f := fun (acc : ℝ × E) (p : ℝ × E) =>
      (acc.1 + Real.exp (-(p.1 - shift) / (kB * T)), acc.2 + Real.exp (-(p.1 - shift) / (kB * T)) • p.2))
    (es.zip obs) (0, 0) ⟨le_refl _, h0⟩ (fun p hp acc hacc =>
      ⟨add_nonneg hacc.1 (Real.exp_pos _).le, hadd _ _ hacc.2 (hsmul _ _ (Real.exp_pos _).le (h _ (List.of_mem_zip hp).2))⟩)
  exact hsmul _ _ (inv_nonneg.2 this.1) this.2

theorem intensity_nonneg {delta : ℝ} (hd : 0 < delta) {nW : ℕ} {gs : Spectra} (h : SpectraSign delta nW gs) (i t k : ℕ) :
    0 ≤ intensity gs i t k := by
  unfold intensity
  rw [List.getD_eq_getElem?_getD]
  cases hk : (gs i t)[k]? with
  | none => simp
  | some x =>
    have := (h i t).2 x (List.mem_of_getElem? hk)
    simp only [Option.getD_some]
    by_contra hc
    nlinarith

theorem spectrumFiles_nonneg {delta : ℝ} (hd : 0 < delta) (kB : ℝ) (es : List ℝ) (T : ℝ) (w : List ℝ) (nOps nW : ℕ)
    (gs : Spectra) (h : SpectraSign delta nW gs) :
    OkIn SpectrumNonneg (spectrumFiles kB es T w nOps gs) := by
  unfold spectrumFiles
  refine OkIn.bind (thermalAverage_cone (fun a : ℕ → ℕ → ℝ => ∀ t k, 0 ≤ a t k) (fun _ _ => le_refl _)
    (fun x y hx hy t k => add_nonneg (hx t k) (hy t k)) (fun c x hc hx t k => mul_nonneg hc (hx t k)) _ _ _ _ ?_)
    fun a ha => OkIn.pure ⟨intensity_nonneg hd h, ha, ?_⟩
  · intro o ho
    obtain ⟨i, -, rfl⟩ := List.mem_map.1 ho
    exact intensity_nonneg hd h i
  · intro row hrow x hx
    obtain ⟨p, -, rfl⟩ := List.mem_map.1 hrow
    simp only [List.tail_cons, List.mem_cons, List.mem_map] at hx
    rcases hx with rfl | ⟨t, -, rfl⟩
    · apply List.sum_nonneg
      intro y hy
      obtain ⟨t, -, rfl⟩ := List.mem_map.1 hy
      exact ha t p.2
    · exact ha t p.2

theorem spectraSign_negate {delta : ℝ} {nW : ℕ} {gs : Spectra} (h : SpectraSign (-delta) nW gs) :
    SpectraSign delta nW gs.negate := by
  intro i t
  refine ⟨by simp [Spectra.negate, (h i t).1], fun x hx => ?_⟩
  obtain ⟨y, hy, rfl⟩ := List.mem_map.1 hx
  have := (h i t).2 y hy
  simp
  linarith

theorem spectraSign_add {delta : ℝ} {nW : ℕ} {a b : Spectra} (ha : SpectraSign delta nW a)
    (hb : SpectraSign delta nW b) : SpectraSign delta nW (a.add b) := by
  intro i t
  refine ⟨by simp [Spectra.add, (ha i t).1, (hb i t).1], fun x hx => ?_⟩
  unfold Spectra.add at hx
  obtain ⟨k, hk, rfl⟩ := List.mem_iff_getElem.1 hx
  rw [List.getElem_zipWith]
  have h1 := (ha i t).2 _ (List.getElem_mem (by simp at hk; omega : k < (a i t).length))
  have h2 := (hb i t).2 _ (List.getElem_mem (by simp at hk; omega : k < (b i t).length))
  simp only [Complex.add_im]
  linarith

theorem rixsFiles_nonneg {delta : ℝ} (hd : 0 < delta) (f32 : ℝ → ℝ) (kB : ℝ) (es : List ℝ) (T : ℝ) (wIn wLoss : List ℝ)
    (nIn nOut nW : ℕ) (gs : RixsMap) (h : RixsSign delta nW gs) :
    OkIn RixsNonneg (rixsFiles f32 kB es T wIn wLoss nIn nOut gs) := by
  have hdata : ∀ iE i o iw k, 0 ≤ -((gs iE i o iw).getD k 0).im := by
    intro iE i o iw k
    rw [List.getD_eq_getElem?_getD]
    cases hk : (gs iE i o iw)[k]? with
    | none => simp
    | some x =>
      have := (h iE i o iw).2 x (List.mem_of_getElem? hk)
      simp only [Option.getD_some]
      by_contra hc
      nlinarith
  unfold rixsFiles
  refine OkIn.bind (thermalAverage_cone (fun a : ℕ → ℕ → ℕ → ℕ → ℝ => ∀ i o iw k, 0 ≤ a i o iw k)
    (fun _ _ _ _ => le_refl _)
    (fun x y hx hy i o iw k => add_nonneg (hx i o iw k) (hy i o iw k))
    (fun c x hc hx i o iw k => mul_nonneg hc (hx i o iw k)) _ _ _ _ ?_)
    fun a ha => OkIn.pure ⟨hdata, ha⟩
  intro o ho
  obtain ⟨iE, -, rfl⟩ := List.mem_map.1 ho
  exact hdata iE

theorem safe_simulateSpectra (S : SimulateArgs) (hd : 0 < S.delta) (hdN : 0 < S.deltaNIXS) (hdR : 0 < S.deltaRIXS)
    (ord : ℕ → ℕ → ℕ → SetOrders) (ordRixs : List ℕ → SetOrders) (rank ranks : ℕ) :
    (simulateSpectra S ord ordRixs rank ranks).Safe (MsgSign S.deltaRIXS S.wLoss.length)
      fun o => (rank = 0 → ∃ s, o = some s ∧ SimulatedNonneg s) ∧ (rank ≠ 0 → o = none) := by
  have hI := plainMsgs_sign S.deltaRIXS S.wLoss.length
  have hL : (S.w.map fun x => -x).length = S.w.length := by simp
  have hneg : ∀ {gs}, SpectraSign (-S.delta) (S.w.map fun x => -x).length gs → SpectraSign S.delta S.w.length gs.negate := by
    intro gs h
    rw [hL] at h
    exact spectraSign_negate h
  unfold simulateSpectra
  refine Safe.bind (Q := fun _ => True) (fun ops _ => ?_) _ (Safe.lift fun _ _ => trivial)
  refine Safe.bind (fun gsIPS hIPS => ?_) _ (safe_getSpectra (S.spectra S.w S.delta) hd.ne' _ _ _ .hBuild _ _ _ hI (by simp))
  refine Safe.bind (fun gsPS hPS => ?_) _ (safe_getSpectra (S.spectra (S.w.map fun x => -x) (-S.delta))
    (by simpa [SimulateArgs.spectra] using hd.ne') _ _ _ .hBuild _ _ _ hI (by simp))
  refine Safe.bind (fun ps hps => ?_) _ (Safe.lift (spectrumFiles_nonneg hd _ _ _ _ _ _ _
    (spectraSign_add (hneg hPS) hIPS)))
  refine Safe.bind (Q := fun _ => True) (fun tOps _ => ?_) _ (Safe.lift fun _ _ => trivial)
  refine Safe.bind (fun gs hgs => ?_) _ (safe_getSpectra (S.spectra (S.w.map fun x => -x) (-S.delta))
    (by simpa [SimulateArgs.spectra] using hd.ne') _ _ _ .hBuild _ _ _ hI (by simp))
  refine Safe.bind (fun xps hxps => ?_) _ (Safe.lift (spectrumFiles_nonneg hd _ _ _ _ _ _ _ (hneg hgs)))
  refine Safe.bind (Q := fun _ => True) (fun tOps _ => ?_) _ (Safe.lift fun _ _ => trivial)
  refine Safe.bind (fun gs hgs => ?_) _ (safe_getSpectra (S.spectra S.wLoss S.deltaNIXS) hdN.ne' _ _ _ .hBuild _ _ _ hI (by simp))
  refine Safe.bind (fun nixs hnixs => ?_) _ (Safe.lift (spectrumFiles_nonneg hdN _ _ _ _ _ _ _ hgs))
  refine Safe.bind (Q := fun _ => True) (fun tOps _ => ?_) _ (Safe.lift fun _ _ => trivial)
  refine Safe.bind (fun gs hgs => ?_) _ (safe_getSpectra (S.spectra S.w S.delta) hd.ne' _ _ _ .hBuild _ _ _ hI (by simp))
  refine Safe.bind (fun xas hxas => ?_) _ (Safe.lift (spectrumFiles_nonneg hd _ _ _ _ _ _ _ hgs))
  refine Safe.bind (Q := fun _ => True) (fun ops _ => ?_) _ (Safe.lift fun _ _ => trivial)
  refine Safe.bind (fun gs hgs => ?_) _ (safe_getRIXSmap S.rixs hdR.ne' _ _ _ _ _ _ _ _ _)
  refine Safe.bind (fun rixs hrixs => ?_) _ (Safe.lift (rixsFiles_nonneg hdR _ _ _ _ _ _ _ _ _ _ hgs))
  refine ⟨fun h => ⟨_, if_pos h, ⟨hps, hxps, hnixs, hxas, hrixs⟩⟩, fun h => if_neg h⟩

end

end Verif
