/-
The core-hole state and the rows of getRIXSmap in Fock space.
-/
import Verif.Lemmas.RixsValue

namespace Verif

open Finset Mpi Psr Spec Matrix

noncomputable section

/-- A solution in a closed basis is a solution in Fock space. -/
theorem solves_spread {n : ℕ} {op : Op ℕ ℂ} {cut : ℝ} (r : Option Restrictions) {states : List (Finset ℕ)}
    (hnd : states.Nodup) (hs : ∀ S ∈ states, S ⊆ range n)
    (hclosed : ∀ T ∈ states, ∀ S ⊆ range n, Connects op cut r T S → S ∈ states)
    {d : ℕ} (hd : d = states.length) (M : Matrix (Fin d) (Fin d) ℂ)
    (hM : ∀ i j : Fin d, M i j = column op cut r (states[j.val]'(lt_of_lt_of_eq j.isLt hd)) (states[i.val]'(lt_of_lt_of_eq i.isLt hd)))
    (b : Vec ℂ) (hb : ∀ S, S ∉ states → b S = 0) {z : ℂ} {u : Fin d → ℂ}
    (hu : (z • (1 : Matrix (Fin d) (Fin d) ℂ) - M) *ᵥ u = fun i : Fin d => b (states[i.val]'(lt_of_lt_of_eq i.isLt hd))) :
    Solves n (hamiltonian n op cut r) z b (spread states hd u) := by
  refine ⟨fun S hS => ?_, fun S hS => spread_zero hd u fun h => hS (hs S h)⟩
  rw [hamiltonian_spread r hnd hs hclosed hd M hM]
  by_cases hS' : S ∈ states
  · obtain ⟨i, hi, rfl⟩ := List.mem_iff_getElem.1 hS'
    have h1 := congrFun hu ⟨i, lt_of_lt_of_eq hi hd.symm⟩
    rw [Matrix.sub_mulVec, Matrix.smul_mulVec, Matrix.one_mulVec] at h1
    simp only [Pi.sub_apply, Pi.smul_apply, smul_eq_mul] at h1
    rw [show spread states hd u states[i] = u ⟨i, lt_of_lt_of_eq hi hd.symm⟩ from
        spread_get hnd hd u ⟨i, lt_of_lt_of_eq hi hd.symm⟩,
      show spread states hd (M *ᵥ u) states[i] = (M *ᵥ u) ⟨i, lt_of_lt_of_eq hi hd.symm⟩ from
        spread_get hnd hd _ ⟨i, lt_of_lt_of_eq hi hd.symm⟩]
    exact h1
  · rw [spread_zero hd u hS', spread_zero hd _ hS', hb S hS', mul_zero, sub_zero]

/-- The intermediate state solves the linear system in Fock space. -/
theorem intermediate_solves {A : RixsArgs} (hA : A.Valid) (hdict : Dict.NodupKeys A.hOp) (hh : isHermitianOp A.hOp)
    (hd1 : A.delta1 ≠ 0) (hsolve : ExactSolver A.solve) {psi1 : Psi ℂ}
    (hE : Excited A.n A.slaterWeightMin A.restrictions psi1) {sys : RixsSys} (hsys : rixsSystem A psi1 = .ok sys)
    {e w : ℝ} {psi2 : Psi ℂ} (h2 : rixsIntermediate A sys.1 sys.2.1 sys.2.2 e w = .ok psi2) :
    IsState A.n psi2 ∧ Solves A.n (hamiltonian A.n A.hOp A.cut A.restrictions)
      ((w : ℂ) + Complex.I * (A.delta1 : ℂ) + (e : ℂ)) (ampl A.n psi1) (ampl A.n psi2) := by
  obtain ⟨H, states, y, hnd, hs, hsm, hent, hy, hsys', -⟩ := rixsSystem_spec (N := 1) (by omega) hA hE.state .serial
    (fun _ => ⟨fun _ l => l, fun l => l⟩) (fun _ => ⟨fun _ l => List.Perm.refl l, fun l => List.Perm.refl l⟩)
    (fun _ => []) (fun _ => columnsExact_nil ..) (fun h => h.elim)
  rw [hsys] at hsys'
  have hse := Except.ok.inj hsys'
  subst hse
  obtain ⟨psi2', h3, hst, hout, hval⟩ := rixsIntermediate_spec A H hnd hs y e w
  have h23 : psi2' = psi2 := Except.ok.inj (h3.symm.trans h2)
  subst h23
  refine ⟨hst, ?_⟩
  have hlen := length_basisIndex ((nodup_map_enc hs).2 hnd)
  rw [List.length_map] at hlen
  let d := (basisIndex (states.map (encBytes A.n))).length
  have hgetD : ∀ i : Fin d, states.getD i.val ∅ = states[i.val]'(lt_of_lt_of_eq i.isLt hlen) :=
    fun i => List.getD_eq_getElem _ _ _
  have hM : ∀ i j : Fin d, H.toMatrix d i j = column A.hOp A.cut A.restrictions
      (states[j.val]'(lt_of_lt_of_eq j.isLt hlen)) (states[i.val]'(lt_of_lt_of_eq i.isLt hlen)) := by
    intro i j
    show H i.val j.val = _
    rw [hent, dif_pos ⟨lt_of_lt_of_eq i.isLt hlen, lt_of_lt_of_eq j.isLt hlen⟩]
  have hallS : ∀ S ∈ states, AllowedOpt A.restrictions S := by
    have : {S | S ∈ states} ⊆ {S | AllowedOpt A.restrictions S} :=
      hsm.smallest _ (fun S hS => hE.allowed S hS.1 hS.2) fun T _ S _ hc => hc.1
    exact fun S hS => this hS
  have hherm : (H.toMatrix d).IsHermitian := by
    ext i j
    rw [Matrix.conjTranspose_apply, hM, hM]
    exact (column_hermitian hA.hop hdict hh A.restrictions (hs _ (List.getElem_mem _)) (hs _ (List.getElem_mem _))
      (hallS _ (List.getElem_mem _)) (hallS _ (List.getElem_mem _))).symm
  have hz : ((w : ℂ) + Complex.I * (A.delta1 : ℂ) + (e : ℂ)).im ≠ 0 := by simpa using hd1
  have hb : ∀ S, S ∉ states → ampl A.n psi1 S = 0 := by
    intro S hn
    unfold ampl
    split
    · rename_i hS
      rw [(Dict.get?_eq_none_iff psi1 _).2 fun hk => hn (hsm.contains ⟨hS, hk⟩)]
      rfl
    · rfl
  have hyb : y = fun i : Fin d => ampl A.n psi1 (states[i.val]'(lt_of_lt_of_eq i.isLt hlen)) := by
    funext i
    have hi : i.val < states.length := lt_of_lt_of_eq i.isLt hlen
    rw [hy i, List.getD_eq_getElem _ _ (by simpa using hi), List.getElem_map, ampl,
      if_pos (hs _ (List.getElem_mem _))]
  have hpsi2 : ampl A.n psi2' = spread states hlen (rixsSolution A H (basisIndex (states.map (encBytes A.n))) y e w) := by
    funext S
    by_cases hS : S ∈ states
    · obtain ⟨i, hi, rfl⟩ := List.mem_iff_getElem.1 hS
      have h4 := hval ⟨i, lt_of_lt_of_eq hi hlen.symm⟩
      rw [List.getD_eq_getElem _ _ hi] at h4
      rw [h4]
      exact (spread_get hnd hlen _ ⟨i, lt_of_lt_of_eq hi hlen.symm⟩).symm
    · rw [hout S hS, spread_zero hlen _ hS]
  rw [hpsi2]
  refine solves_spread A.restrictions hnd hs (fun T hT S hS hc => hsm.closed T hT S hS hc) hlen (H.toMatrix d) hM
    (ampl A.n psi1) hb ?_
  rw [← hyb]
  exact hsolve d _ y (isUnit_resolvent hherm hz)

/-- The arguments of `getGreen` for the rows. -/
def RixsArgs.spectra (A : RixsArgs) : SpectraArgs where
  n := A.n
  hOp := A.hOp
  w := A.wLoss
  delta := A.delta2
  restrictions := A.restrictions
  krylovSize := A.krylovSize
  slaterWeightMin := A.slaterWeightMin
  cut := A.cut
  fuel := A.fuel

theorem RixsArgs.Valid.spectra {A : RixsArgs} (hA : A.Valid) : A.spectra.Valid :=
  ⟨hA.hop, hA.cut, hA.weight, hA.delta, hA.krylov, hA.fuel⟩

theorem prune_eq_self {cut : ℝ} {psi : Psi ℂ} (h : ∀ p ∈ psi, cut ≤ abs2 p.2) : prune cut psi = psi := by
  unfold prune
  have : ∀ (l : Psi ℂ), (∀ p ∈ l, cut ≤ abs2 p.2) → ∀ acc : Psi ℂ,
      l.foldl (fun acc p => if abs2 p.2 < cut then Dict.pop acc p.1 else acc) acc = acc := by
    intro l
    induction l with
    | nil => intro _ _; rfl
    | cons p l ih =>
      intro hl acc
      rw [List.foldl_cons, if_neg (not_lt.2 (hl p (by simp)))]
      exact ih (fun p hp => hl p (by simp [hp])) acc
  exact this psi h psi

theorem rixsRow_eq_spectrum {A : RixsArgs} (hA : A.Valid) {psi3 : Psi ℂ}
    (hE : Excited A.n A.slaterWeightMin A.restrictions psi3) (hn : NoneDropped A.n A.slaterWeightMin (ampl A.n psi3))
    (e : ℝ) : rixsRow A e psi3 = spectrumOf A.spectra psi3 e := by
  have hp : prune A.slaterWeightMin (unit psi3) = unit psi3 := by
    apply prune_eq_self
    intro p hp
    unfold unit at hp
    obtain ⟨q, hq, rfl⟩ := List.mem_map.1 hp
    have hne : psi3 ≠ [] := by rintro rfl; cases hq
    have hpos := hE.norm_pos hA.weight hne
    obtain ⟨S, hS, hk⟩ := hE.state.keys q.1 (List.mem_map.2 ⟨q, hq, rfl⟩)
    have hg := Dict.get?_of_mem hE.state.nodup (show (q.1, q.2) ∈ psi3 from hq)
    have ha : ampl A.n psi3 S = q.2 := by
      unfold ampl
      rw [if_pos hS, ← hk, hg]; rfl
    have hl := hE.large q hq
    have hnz : q.2 ≠ 0 := by
      intro h0
      rw [h0] at hl
      have : (abs2 (0 : ℂ) : ℝ) = 0 := Amp.abs2_zero
      rw [this] at hl
      exact absurd hA.weight (not_lt.2 hl)
    rcases hn S hS with h0 | h1
    · rw [ha] at h0; exact absurd h0 hnz
    · have hsum : ∑ T ∈ (range A.n).powerset, Complex.normSq (ampl A.n psi3 T) = norm2 psi3 := (norm2_eq hE.state).symm
      rw [hsum, ha] at h1
      show A.slaterWeightMin ≤ Complex.normSq (q.2 / ((Real.sqrt (norm2 psi3) : ℝ) : ℂ))
      rw [Complex.normSq_div, Complex.normSq_ofReal, Real.mul_self_sqrt hpos.le, le_div_iff₀ hpos]
      exact h1
  unfold rixsRow spectrumOf
  rw [hp]
  rfl

end

end Verif
