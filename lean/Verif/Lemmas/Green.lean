/-
getGreen: the vector of a state, the serial and the distributed calculation.
-/
import Verif.Lemmas.Embed
import Verif.Lemmas.SpectraSign
import Verif.Prop.Expand
import Verif.Prop.CrystalField

namespace Verif

open Finset Mpi Psr Spec Matrix

noncomputable section

theorem IsState.exists_states {n : ℕ} {psi : Psi ℂ} (h : IsState n psi) :
    ∃ states0 : List (Finset ℕ), Dict.keys psi = states0.map (encBytes n) ∧ (∀ S ∈ states0, S ⊆ range n) ∧
      states0.Nodup := by
  have aux : ∀ l : List Bytes, (∀ k ∈ l, ∃ S ⊆ range n, k = encBytes n S) →
      ∃ s : List (Finset ℕ), l = s.map (encBytes n) ∧ ∀ S ∈ s, S ⊆ range n := by
    intro l
    induction l with
    | nil => intro _; exact ⟨[], rfl, by simp⟩
    | cons k l ih =>
      intro hl
      obtain ⟨s, hs, hs'⟩ := ih fun k hk => hl k (List.mem_cons_of_mem _ hk)
      obtain ⟨S, hS, hk⟩ := hl k List.mem_cons_self
      refine ⟨S :: s, by rw [List.map_cons, ← hs, ← hk], ?_⟩
      intro T hT
      rcases List.mem_cons.1 hT with rfl | hT
      · exact hS
      · exact hs' T hT
  obtain ⟨s, hs, hs'⟩ := aux _ h.keys
  refine ⟨s, hs, hs', ?_⟩
  have := h.nodup
  unfold Dict.NodupKeys at this
  rw [hs] at this
  exact List.Nodup.of_map _ this

theorem length_basisIndex {basis : List Bytes} (h : basis.Nodup) : (basisIndex basis).length = basis.length := by
  rw [basisIndex_eq basis h, List.length_zipIdx]

/-- `psiVector` returns the amplitudes. -/
theorem psiVector_eq {basis : List Bytes} (hb : basis.Nodup) (psi : Psi ℂ) (hnd : Dict.NodupKeys psi)
    (hk : ∀ k ∈ Dict.keys psi, k ∈ basis) :
    psiVector (basisIndex basis) psi
      = .ok fun i => (Dict.get? psi (basis.getD i.val [])).getD 0 := by
  have aux : ∀ (l : Psi ℂ) (v : Fin (basisIndex basis).length → ℂ), Dict.NodupKeys l → (∀ k ∈ Dict.keys l, k ∈ basis) →
      (l.foldlM (fun (v : Fin (basisIndex basis).length → ℂ) p => do
        let i ← Dict.get (basisIndex basis) p.1
        if h : i < (basisIndex basis).length then return Function.update v ⟨i, h⟩ p.2 else throw .indexError) v : Py _)
      = .ok fun i => (Dict.get? l (basis.getD i.val [])).getD (v i) := by
    intro l
    induction l with
    | nil => intro v _ _; rfl
    | cons p l ih =>
      intro v hl hkl
      obtain ⟨b, x⟩ := p
      have hbm : b ∈ basis := hkl b (by simp)
      have hlt : basis.idxOf b < (basisIndex basis).length := by
        rw [length_basisIndex hb]; exact List.idxOf_lt_length_of_mem hbm
      have hl' : Dict.NodupKeys l := by
        unfold Dict.NodupKeys at hl ⊢
        rw [Dict.keys_cons] at hl
        exact (List.nodup_cons.1 hl).2
      have hbl : b ∉ Dict.keys l := by
        unfold Dict.NodupKeys at hl
        rw [Dict.keys_cons] at hl
        exact (List.nodup_cons.1 hl).1
      have hstep : (do
          let i ← Dict.get (basisIndex basis) b
          if h : i < (basisIndex basis).length then return Function.update v ⟨i, h⟩ x else throw .indexError : Py _)
          = .ok (Function.update v ⟨basis.idxOf b, hlt⟩ x) := by
        rw [get_basisIndex hb hbm]
        simp only [bind, Except.bind, hlt, dite_true, pure, Except.pure]
      rw [List.foldlM_cons]
      simp only [hstep, ok_bind]
      rw [ih (Function.update v ⟨basis.idxOf b, hlt⟩ x) hl'
        fun k hk => hkl k (by rw [Dict.keys_cons]; exact List.mem_cons_of_mem _ hk)]
      congr 1
      funext i
      have hi : i.val < basis.length := lt_of_lt_of_eq i.isLt (length_basisIndex hb)
      rw [Dict.get?_cons, List.getD_eq_getElem _ _ hi]
      by_cases he : b = basis[i.val]
      · rw [if_pos he]
        have hidx : i = ⟨basis.idxOf b, hlt⟩ := by
          apply Fin.ext
          simp only
          rw [he, List.Nodup.idxOf_getElem hb]
        rw [(Dict.get?_eq_none_iff l _).2 (he ▸ hbl), hidx]
        simp
      · rw [if_neg he]
        have hidx : i ≠ ⟨basis.idxOf b, hlt⟩ := by
          rintro rfl
          apply he
          simp
        rw [Function.update_of_ne hidx]
  unfold psiVector
  rw [aux psi 0 hnd hk]
  rfl

/-- The part of `getGreen` after the expansion of the basis. -/
def greenTail (h : Mat ℂ) (index : Dict Bytes ℕ) (psi : Psi ℂ) (krylovSize : ℕ) (omega : List ℝ) (delta e : ℝ) :
    Py (List ℂ) := do
  let psi0 ← psiVector index psi
  let ab ← tridiagonalKrylov (h.toMatrix index.length) psi0 (min krylovSize index.length)
  greenOnMesh ab.1 ab.2 (min krylovSize index.length) omega delta e

theorem getGreen_of_expand {n : ℕ} {e : ℝ} {psi : Psi ℂ} {hOp : Op ℕ ℂ} {omega : List ℝ} {delta : ℝ} {K : ℕ}
    {cut : ℝ} {r : Option Restrictions} {hDict hDict' : OpResult ℂ} {fuel : ℕ} {h : Mat ℂ} {index : Dict Bytes ℕ}
    (hpsi : psi.length ≠ 0)
    (hx : expandBasisAndHamiltonianSerial n hDict hOp cut (Dict.keys psi) r fuel = .ok (h, index, hDict')) :
    getGreen n e psi hOp omega delta K cut r hDict fuel
      = (greenTail h index psi K omega delta e).bind fun g => .ok (g, hDict') := by
  unfold getGreen greenTail
  rw [if_neg hpsi, hx]
  simp only [bind, Except.bind]
  cases psiVector index psi with
  | error e => rfl
  | ok v =>
    simp only
    cases tridiagonalKrylov (h.toMatrix index.length) v (min K index.length) with
    | error e => rfl
    | ok ab => rfl

theorem continuedFraction_zeros {k : ℕ} (hk : 0 < k) (w delta e : ℝ) (hd : delta ≠ 0) :
    continuedFraction (List.replicate k 0) (List.replicate (k - 1) 0) k
      ((w : ℂ) + Complex.I * (delta : ℂ) + (e : ℂ)) = .ok (1 / ((w : ℂ) + Complex.I * (delta : ℂ) + (e : ℂ))) := by
  obtain ⟨g, h1, -, -, -, hu, h2⟩ := C40_continued_fraction (List.replicate k 0) (List.replicate (k - 1) 0) k hk
    (by simp) (by simp) w delta e hd
  have h0 : tridiagonal (List.replicate k 0) (List.replicate (k - 1) 0) k = 0 := by
    have hz : ∀ m i : ℕ, (List.replicate m (0 : ℝ)).getD i 0 = 0 := by
      intro m i
      rw [List.getD_eq_getElem?_getD, List.getElem?_replicate]
      split <;> rfl
    ext i j
    unfold tridiagonal
    simp only [hz]
    simp
  rw [h1, h2, h0, sub_zero]
  have hz : (w : ℂ) + Complex.I * (delta : ℂ) + (e : ℂ) ≠ 0 := by
    intro hc
    have := congrArg Complex.im hc
    simp at this
    exact hd this
  have hinv : (((w : ℂ) + Complex.I * (delta : ℂ) + (e : ℂ)) • (1 : Matrix (Fin k) (Fin k) ℂ))⁻¹
      = (1 / ((w : ℂ) + Complex.I * (delta : ℂ) + (e : ℂ))) • (1 : Matrix (Fin k) (Fin k) ℂ) := by
    apply Matrix.inv_eq_left_inv
    rw [smul_mul_smul_comm, one_mul, one_div, inv_mul_cancel₀ hz, one_smul]
  rw [hinv]
  simp

/-- The spectrum that all ranks but the root compute in mode `H_build`. -/
def otherRanks (omega : List ℝ) (delta e : ℝ) : List ℂ :=
  omega.map fun (w : ℝ) => 1 / ((w : ℂ) + Complex.I * (delta : ℂ) + (e : ℂ))

theorem greenOnMesh_zeros {k : ℕ} (hk : 0 < k) (omega : List ℝ) (delta e : ℝ) (hd : delta ≠ 0) :
    greenOnMesh (List.replicate k 0) (List.replicate (k - 1) 0) k omega delta e = .ok (otherRanks omega delta e) := by
  unfold greenOnMesh
  exact mapM_ok _ _ _ fun w _ => continuedFraction_zeros hk w delta e hd

theorem greenOnMesh_total {alpha beta : List ℝ} {k : ℕ} (hk : 0 < k) (ha : alpha.length = k)
    (hb : beta.length = k - 1) (omega : List ℝ) (delta e : ℝ) (hd : delta ≠ 0) :
    ∃ g, greenOnMesh alpha beta k omega delta e = .ok g := by
  have : ∀ w : ℝ, ∃ g, continuedFraction alpha beta k ((w : ℂ) + Complex.I * (delta : ℂ) + (e : ℂ)) = .ok g := by
    intro w
    obtain ⟨g, h1, -⟩ := C40_continued_fraction alpha beta k hk ha hb w delta e hd
    exact ⟨g, h1⟩
  choose f hf using this
  exact ⟨_, mapM_ok _ f _ fun w _ => hf w⟩

/-- What `getGreen` returns on the ranks, given the root's spectrum. -/
def greenOnRank {N : ℕ} (psi : Psi ℂ) (omega : List ℝ) (delta e : ℝ) (g : List ℂ) (k : Fin N) : List ℂ :=
  if k.val = 0 ∨ psi = [] then g else otherRanks omega delta e

theorem toMatrix_sum {N d : ℕ} (L : Fin N → Mat ℂ) (H : Mat ℂ) (h : ∀ i j, ∑ k, L k i j = H i j) :
    ∑ k, (L k).toMatrix d = H.toMatrix d := by
  ext i j
  rw [Matrix.sum_apply]
  exact h i j

/-- Serial and distributed `getGreen`. -/
theorem getGreenRank_runs {N : ℕ} (hN : 0 < N) {n : ℕ} {hOp : Op ℕ ℂ} (hop : OpInSystem n hOp) {cut : ℝ}
    (hcut : 0 < cut) (r : Option Restrictions) (hDict : Fin N → OpResult ℂ)
    (hd : ∀ k, ColumnsExact n hOp cut r (hDict k)) (hdis : DisjointKeys hDict) (ord : Fin N → SetOrders)
    (hord : ∀ k i l, ((ord k).expand i l).Perm l) (hordH : ∀ k l, ((ord k).matrix l).Perm l)
    {psi : Psi ℂ} (hpsi : IsState n psi) (e : ℝ) (omega : List ℝ) {delta : ℝ} (hdelta : delta ≠ 0)
    {K : ℕ} (hK : 0 < K) {fuel : ℕ} (hf : 2 ^ n + 2 ≤ fuel) :
    (∃ g, (∀ hSer, ColumnsExact n hOp cut r hSer → ∃ hSer', ColumnsExact n hOp cut r hSer' ∧
        getGreen n e psi hOp omega delta K cut r hSer fuel = .ok (g, hSer')) ∧
      ∃ hDict' : Fin N → OpResult ℂ, (∀ k, ColumnsExact n hOp cut r (hDict' k)) ∧ DisjointKeys hDict' ∧
        Runs msgSum (fun k : Fin N => getGreenRank n e psi hOp omega delta K cut r (hDict k) (ord k) k.val N fuel)
          (fun k => (greenOnRank psi omega delta e g k, hDict' k))) ∨
    (∃ err, (∀ hSer, ColumnsExact n hOp cut r hSer →
        getGreen n e psi hOp omega delta K cut r hSer fuel = .error err) ∧
      RunsToFailure msgSum
        (fun k : Fin N => getGreenRank n e psi hOp omega delta K cut r (hDict k) (ord k) k.val N fuel) err) := by
  by_cases hp : psi.length = 0
  · left
    have hnil : psi = [] := List.length_eq_zero_iff.1 hp
    refine ⟨List.replicate omega.length 0, fun hSer hS => ⟨hSer, hS, ?_⟩, hDict, hd, hdis, .ret fun k => ?_⟩
    · unfold getGreen; rw [if_pos hp]
    · unfold getGreenRank greenOnRank
      rw [if_pos hp, if_pos (Or.inr hnil)]
  obtain ⟨states0, hkeys, hst, hnd0⟩ := IsState.exists_states hpsi
  obtain ⟨H, states, hnd, hs, hsm, hent, hser, hDict', hd', hdis', -, L, hrL, hsum⟩ :=
    distributed_hamiltonian hN hop hcut r hDict hd hdis (fun k => (ord k).expand) hord (fun k => (ord k).matrix)
      hordH msgSum states0 hst hnd0 fuel hf
  rw [← hkeys] at hser hrL
  set B := states.map (encBytes n) with hB
  have hndB : B.Nodup := (nodup_map_enc hs).2 hnd
  have hkB : ∀ k ∈ Dict.keys psi, k ∈ B := by
    intro k hk
    rw [hkeys] at hk
    obtain ⟨S, hS, rfl⟩ := List.mem_map.1 hk
    exact List.mem_map.2 ⟨S, hsm.contains hS, rfl⟩
  have hvec := psiVector_eq hndB psi hpsi.nodup hkB
  set v : Fin (basisIndex B).length → ℂ := fun i => (Dict.get? psi (B.getD i.val [])).getD 0 with hv
  have hlen : 0 < (basisIndex B).length := by
    rw [length_basisIndex hndB]
    obtain ⟨p, hpm⟩ := List.exists_mem_of_length_pos (by omega : 0 < psi.length)
    exact List.length_pos_of_mem (hkB p.1 (List.mem_map.2 ⟨p, hpm, rfl⟩))
  have hk : 0 < min K (basisIndex B).length := by omega
  have hkm : min (min K (basisIndex B).length) (basisIndex B).length = min K (basisIndex B).length := by omega
  have hsumM : ∑ k, (L k).toMatrix (basisIndex B).length = H.toMatrix (basisIndex B).length := toMatrix_sum L H hsum
  have hpnil : psi ≠ [] := by rintro rfl; exact hp rfl
  have hrank : ∀ k : Fin N, getGreenRank n e psi hOp omega delta K cut r (hDict k) (ord k) k.val N fuel
      = (expandBasisAndHamiltonianHBuild n (hDict k) hOp cut (Dict.keys psi) r (ord k).expand (ord k).matrix true
          k.val N fuel).bind fun res =>
        (Prog.lift (psiVector res.2.1 psi)).bind fun psi0 =>
        (embedVectors res.2.1.length (tridiagonalKrylovRank (res.1.toMatrix res.2.1.length) psi0
          (min K res.2.1.length) k.val)).bind fun ab =>
        (Prog.lift (greenOnMesh ab.1 ab.2 (min K res.2.1.length) omega delta e)).bind fun g =>
        .ret (g, res.2.2) := by
    intro k
    unfold getGreenRank
    rw [if_neg hp]
  cases hkr : tridiagonalKrylov (H.toMatrix (basisIndex B).length) v (min K (basisIndex B).length) with
  | ok ab =>
    left
    obtain ⟨alpha, beta⟩ := ab
    obtain ⟨-, hla, hlb⟩ := tridiagonalKrylov_length hkr
    rw [hkm] at hla hlb
    obtain ⟨g, hg⟩ := greenOnMesh_total hk hla hlb omega delta e hdelta
    refine ⟨g, ?_, hDict', hd', hdis', ?_⟩
    · intro hSer hS
      obtain ⟨hSer', hS', hx⟩ := hser hSer hS
      refine ⟨hSer', hS', ?_⟩
      rw [getGreen_of_expand hp hx]
      unfold greenTail
      rw [hvec]
      simp only [bind, Except.bind, hkr, hg]
    · have hkry := Runs.embed (tridiagonalKrylovRank_runs hN (fun k => (L k).toMatrix (basisIndex B).length) v
        (min K (basisIndex B).length) alpha beta (by rw [hsumM]; exact hkr))
      rw [hkm] at hkry
      refine Runs.congr (Runs.bind hrL
        (out' := fun k => (greenOnRank psi omega delta e g k, hDict' k)) ?_) hrank (fun _ => rfl)
      simp only [hvec, Prog.lift, Prog.bind]
      refine Runs.bind hkry (.ret fun k => ?_)
      by_cases h0 : k.val = 0
      · simp only [h0, if_true, hg, Prog.lift, Prog.bind, greenOnRank, true_or]
      · simp only [h0, if_false, greenOnRank, hpnil, or_self]
        rw [greenOnMesh_zeros hk omega delta e hdelta]
        rfl
  | error err =>
    right
    refine ⟨err, ?_, ?_⟩
    · intro hSer hS
      obtain ⟨hSer', hS', hx⟩ := hser hSer hS
      rw [getGreen_of_expand hp hx]
      unfold greenTail
      rw [hvec]
      simp only [bind, Except.bind, hkr]
    · have hkry := RunsToFailure.embed (tridiagonalKrylovRank_fails hN
        (fun k => (L k).toMatrix (basisIndex B).length) v (min K (basisIndex B).length) (by rw [hkm]; exact hk) err
        (by rw [hsumM]; exact hkr))
      refine RunsToFailure.congr (RunsToFailure.bind_right hrL ?_) hrank
      simp only [hvec, Prog.lift, Prog.bind]
      exact RunsToFailure.bind_left hkry _

end

end Verif
