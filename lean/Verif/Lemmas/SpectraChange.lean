/-
Green's functions of two Hamiltonians that are close.
-/
import Verif.Spec.SpectraChange
import Verif.Lemmas.Perturb
import Verif.Prop.Convergence

namespace Verif

open Finset Mpi Psr Spec Matrix

noncomputable section

theorem column_change {op op' : Op ℕ ℂ} (hnd : Dict.NodupKeys op) (hnd' : Dict.NodupKeys op') {cut cut' : ℝ}
    (r : Option Restrictions) (s : Finset (Finset ℕ)) (T : Finset ℕ) :
    ∑ S ∈ s, ‖column op cut r T S - column op' cut' r T S‖
      ≤ strengthChange op op' + op.length * Real.sqrt cut + op'.length * Real.sqrt cut' := by
  have h0 : ∑ S ∈ s, ‖column op 0 r T S - column op' 0 r T S‖ ≤ strengthChange op op' := by
    refine le_trans (sum_le_sum fun S _ => ?_) (matrixElement_change hnd hnd' s T)
    have e : ∀ o : Op ℕ ℂ, column o (0 : ℝ) r T S = if AllowedOpt r S then matrixElement o S T else 0 := by
      intro o
      have : (0 : ℝ) ≤ abs2 (matrixElement o S T) := Complex.normSq_nonneg _
      unfold column
      simp [this]
    rw [e, e]
    split
    · exact le_refl _
    · rw [sub_zero, norm_zero]; exact norm_nonneg _
  have h1 := dropped_column s op (cut := cut) r T
  have h2 := dropped_column s op' (cut := cut') r T
  calc ∑ S ∈ s, ‖column op cut r T S - column op' cut' r T S‖
      ≤ ∑ S ∈ s, (‖column op cut r T S - column op 0 r T S‖ + ‖column op 0 r T S - column op' 0 r T S‖
          + ‖column op' cut' r T S - column op' 0 r T S‖) := by
        refine sum_le_sum fun S _ => ?_
        have e : column op cut r T S - column op' cut' r T S = (column op cut r T S - column op 0 r T S)
            + (column op 0 r T S - column op' 0 r T S) - (column op' cut' r T S - column op' 0 r T S) := by ring
        rw [e]
        exact (norm_sub_le _ _).trans (add_le_add_left (norm_add_le _ _) _)
    _ ≤ _ := by
        rw [sum_add_distrib, sum_add_distrib]
        linarith

theorem strengthChange_nonneg {ι : Type} [DecidableEq ι] (op op' : Op ι ℂ) : 0 ≤ strengthChange op op' :=
  sum_nonneg fun _ _ => norm_nonneg _

theorem green_change {n : ℕ} {op op' : Op ℕ ℂ} (hop : OpInSystem n op) (hdict : Dict.NodupKeys op) (hh : isHermitianOp op)
    (hop' : OpInSystem n op') (hdict' : Dict.NodupKeys op') (hh' : isHermitianOp op')
    (r : Option Restrictions) {cut cut' : ℝ} {z z' : ℂ} (hz : z.im ≠ 0) (him : z'.im = z.im) {b b' : Vec ℂ}
    (hb : ∀ S, ¬ (S ⊆ range n ∧ AllowedOpt r S) → b S = 0) (hb' : ∀ S, ¬ (S ⊆ range n ∧ AllowedOpt r S) → b' S = 0)
    {g g' : ℂ} (h : IsGreen n (hamiltonian n op cut r) z b g) (h' : IsGreen n (hamiltonian n op' cut' r) z' b' g') :
    ‖g - g'‖ ≤ responseChange n b b'
      (strengthChange op op' + op.length * Real.sqrt cut + op'.length * Real.sqrt cut' + ‖z - z'‖) z.im := by
  classical
  set sts := {S ∈ (range n).powerset | AllowedOpt r S} with hsts
  set states := sts.toList with hstates
  have hmem : ∀ S, S ∈ states ↔ S ⊆ range n ∧ AllowedOpt r S := by
    intro S
    rw [hstates, mem_toList, hsts, mem_filter, mem_powerset]
  have hnd : states.Nodup := nodup_toList _
  have hsub : ∀ S ∈ states, S ⊆ range n := fun S h => ((hmem S).1 h).1
  have hall : ∀ S ∈ states, AllowedOpt r S := fun S h => ((hmem S).1 h).2
  have hcl : ∀ (o : Op ℕ ℂ) (c : ℝ), ∀ T ∈ states, ∀ S ⊆ range n, Connects o c r T S → S ∈ states :=
    fun o c T _ S hS h => (hmem S).2 ⟨hS, h.1⟩
  let M : Op ℕ ℂ → ℝ → Matrix (Fin states.length) (Fin states.length) ℂ :=
    fun o c i j => column o c r states[j.val] states[i.val]
  let v : Vec ℂ → Fin states.length → ℂ := fun f i => f states[i.val]
  have hvs : ∀ f : Vec ℂ, (∀ S, ¬ (S ⊆ range n ∧ AllowedOpt r S) → f S = 0) → ∑ i, ‖v f i‖ ^ 2 = Spec.normSq n f := by
    intro f hf
    unfold Spec.normSq
    rw [← sum_over_states_real hnd hsub rfl (fun S => Complex.normSq (f S)) (fun S hS hn => by
      rw [hf S (fun h => hn ((hmem S).2 h)), Complex.normSq_zero])]
    exact sum_congr rfl fun i _ => (Complex.normSq_eq_norm_sq _).symm
  have hz' : z'.im ≠ 0 := by rw [him]; exact hz
  obtain ⟨hM, hg⟩ := resolvent_isGreen hop hdict hh (r := r) hnd hsub hall (hcl op cut) rfl (M op cut) (fun _ _ => rfl) b
    (fun S hS hn => hb S (fun h => hn ((hmem S).2 h))) hz
  obtain ⟨hM', hg'⟩ := resolvent_isGreen hop' hdict' hh' (r := r) hnd hsub hall (hcl op' cut') rfl (M op' cut') (fun _ _ => rfl) b'
    (fun S hS hn => hb' S (fun h => hn ((hmem S).2 h))) hz'
  rw [isGreen_unique h hg, isGreen_unique h' hg']
  have hnn : ∀ f : Vec ℂ, 0 ≤ Spec.normSq n f := fun f => sum_nonneg fun _ _ => Complex.normSq_nonneg _
  have key := resolvent_all_close hM hM' hz him
    (c := strengthChange op op' + op.length * Real.sqrt cut + op'.length * Real.sqrt cut')
    (add_nonneg (add_nonneg (strengthChange_nonneg _ _) (mul_nonneg (Nat.cast_nonneg _) (Real.sqrt_nonneg _)))
      (mul_nonneg (Nat.cast_nonneg _) (Real.sqrt_nonneg _))) ?_ (v b) (v b')
    (Real.sqrt_nonneg (Spec.normSq n b)) (Real.sqrt_nonneg (Spec.normSq n b')) (Real.sqrt_nonneg (Spec.normSq n (b - b')))
    (by rw [hvs b hb, Real.sq_sqrt (hnn _)]) (by rw [hvs b' hb', Real.sq_sqrt (hnn _)]) ?_
  · unfold responseChange
    rwa [Real.sq_sqrt (hnn b')] at key
  · intro j
    rw [show ∑ i, ‖M op cut i j - M op' cut' i j‖
        = ∑ S ∈ (range n).powerset, ‖column op cut r states[j.val] S - column op' cut' r states[j.val] S‖ from
      sum_over_states_real hnd hsub rfl (fun S => ‖column op cut r states[j.val] S - column op' cut' r states[j.val] S‖) (by
        intro S hS hn
        have hna : ¬ AllowedOpt r S := fun h => hn ((hmem S).2 ⟨hS, h⟩)
        unfold column
        rw [if_neg (fun h => hna h.1), if_neg (fun h => hna h.1), sub_zero, norm_zero])]
    exact column_change hdict hdict' r _ _
  · have := hvs (b - b') (fun S hS => by rw [Pi.sub_apply, hb S hS, hb' S hS, sub_zero])
    rw [Real.sq_sqrt (hnn _), ← this]
    exact le_refl _

theorem excited_outside {n : ℕ} {cut : ℝ} {r : Option Restrictions} {psi : Psi ℂ} (hE : Excited n cut r psi) (S : Finset ℕ)
    (hS : ¬ (S ⊆ range n ∧ AllowedOpt r S)) : ampl n psi S = 0 := by
  unfold ampl
  split
  · rename_i h
    cases hg : Dict.get? psi (encBytes n S) with
    | none => rfl
    | some x =>
      exact absurd ⟨h, hE.allowed S h (by
        by_contra hk
        rw [(Dict.get?_eq_none_iff psi _).2 hk] at hg
        cases hg)⟩ hS
  · rfl

/-- The spectra of two excited states. -/
theorem spectrumOf_change {A A' : SpectraArgs} (hA : A.Valid) (hA' : A'.Valid) (hm : SameMesh A A') (hdict : Dict.NodupKeys A.hOp)
    (hh : isHermitianOp A.hOp) (hdict' : Dict.NodupKeys A'.hOp) (hh' : isHermitianOp A'.hOp) {psiR psiR' : Psi ℂ}
    (hE : Excited A.n A.slaterWeightMin A.restrictions psiR) (hE' : Excited A'.n A'.slaterWeightMin A'.restrictions psiR')
    {v v' : Vec ℂ} (hv : v = ampl A.n psiR) (hv' : v' = ampl A'.n psiR') {e e' w w' : ℝ} (hw0 : 0 < w) (hw : strengthSum A.hOp ≤ w) (hw0' : 0 < w') (hw' : strengthSum A'.hOp ≤ w') {g g' : List ℂ}
    (hg : spectrumOf A psiR e = .ok g) (hg' : spectrumOf A' psiR' e' = .ok g') :
    g.length = A.w.length ∧ g'.length = A.w.length ∧ ∀ k < A.w.length, ‖g.getD k 0 - g'.getD k 0‖
      ≤ responseChange A.n v v' (hamiltonianChange A A' e e') A.delta
        + krylovError A v w + krylovError A' v' w' := by
  have f1 := spectrumOf_error hA hdict hh hE e (X := Set.univ) ⟨fun _ _ => trivial, fun _ _ _ _ _ _ => trivial⟩ hw0
    (energiesWithin_all hA.hop hdict hh _ _ _ hw) hg
  have f2 := spectrumOf_error hA' hdict' hh' hE' e' (X := Set.univ) ⟨fun _ _ => trivial, fun _ _ _ _ _ _ => trivial⟩ hw0'
    (energiesWithin_all hA'.hop hdict' hh' _ _ _ hw') hg'
  rw [← hv] at f1
  rw [← hv'] at f2
  have o1 := excited_outside hE
  have o2 := excited_outside hE'
  rw [← hv] at o1
  rw [← hv'] at o2
  obtain ⟨m1, m2, m3, m4⟩ := hm
  have hop' := hA'.hop
  unfold krylovError
  rw [m1, m2, m3, m4] at f2
  rw [m1] at hop' ⊢
  rw [m1, m2] at o2
  rw [m4]
  refine ⟨f1.length_eq.symm, f2.length_eq.symm, fun k hk => ?_⟩
  obtain ⟨x, x1, x2⟩ := forall2_getD f1 0 hk
  obtain ⟨y, y1, y2⟩ := forall2_getD f2 0 hk
  have key := green_change hA.hop hdict hh hop' hdict' hh' A.restrictions (cut := A.cut) (cut' := A'.cut) (by simpa using hA.delta)
    (by simp) o1 o2 x1 y1
  have hzz : ((A.w[k] : ℂ) + Complex.I * (A.delta : ℂ) + (e : ℂ)) - ((A.w[k] : ℂ) + Complex.I * (A.delta : ℂ) + (e' : ℂ))
      = ((e - e' : ℝ) : ℂ) := by push_cast; ring
  have him : ((A.w[k] : ℂ) + Complex.I * (A.delta : ℂ) + (e : ℂ)).im = A.delta := by simp
  rw [hzz, him, Complex.norm_real, Real.norm_eq_abs] at key
  unfold hamiltonianChange
  calc ‖g.getD k 0 - g'.getD k 0‖ = ‖(g.getD k 0 - x) + (x - y) - (g'.getD k 0 - y)‖ := by congr 1; ring
    _ ≤ ‖g.getD k 0 - x‖ + ‖x - y‖ + ‖g'.getD k 0 - y‖ := (norm_sub_le _ _).trans (add_le_add_left (norm_add_le _ _) _)
    _ ≤ _ := by linarith

theorem eigenStates_value {A : SpectraArgs} (hA : A.Valid) {psis : List (Psi ℂ)} {es : List ℝ} (hlen : es.length ≤ psis.length)
    (hpsis : ∀ psi ∈ psis, IsState A.n psi) {tOps : List (Op ℕ ℂ)} (htOps : ∀ tOp ∈ tOps, OpInSystem A.n tOp) {N : ℕ} (hN : 0 < N)
    {ord : Fin N → ℕ → ℕ → SetOrders} {out : Fin N → Spectra}
    (hout : CanFinish msgSum (fun k : Fin N => getSpectra A tOps psis es .eigenStates (ord k) k.val N) out)
    (k : Fin N) (i t : ℕ) (hi : i < es.length) (ht : t < tOps.length) :
    spectrumOf A (transitionState A tOps[t] (psis[i]'(by omega))) es[i] = .ok (out k i t) := by
  obtain ⟨hok, herr⟩ := eigen_dichotomy hN hA hlen hpsis htOps ord
  have hall : ∀ i tOp, ∃ g, i < es.length → tOp ∈ tOps →
      spectrumOf A (transitionState A tOp (psis.getD i [])) (es.getD i 0) = .ok g := by
    intro i tOp
    cases hg : spectrumOf A (transitionState A tOp (psis.getD i [])) (es.getD i 0) with
    | ok g => exact ⟨g, fun _ _ => rfl⟩
    | error err => exact ⟨[], fun a b => absurd hout (herr ⟨i, a, tOp, b, err, hg⟩ out)⟩
  choose f hf using hall
  have hru := hok f fun i hi tOp ht => hf i tOp hi ht
  have hu := AllRanksFinish.unique hru.allRanksFinish hout
  have hval : out k i t = f i tOps[t] := by
    rw [hu]
    unfold gathered
    beta_reduce
    rw [if_pos hi, List.getD_eq_getElem _ _ (by simpa using ht), List.getElem_map]
  have h1 := hf i tOps[t] hi (List.getElem_mem ht)
  rwa [List.getD_eq_getElem _ _ hi, List.getD_eq_getElem _ _ (by omega), ← hval] at h1

theorem hBuild_value {A : SpectraArgs} (hA : A.Valid) {psis : List (Psi ℂ)} {es : List ℝ} (hlen : es.length ≤ psis.length)
    (hpsis : ∀ psi ∈ psis, IsState A.n psi) {tOps : List (Op ℕ ℂ)} (htOps : ∀ tOp ∈ tOps, OpInSystem A.n tOp) {N : ℕ} (hN : 0 < N)
    {ord : Fin N → ℕ → ℕ → SetOrders} (hord : ∀ k t i, (ord k t i).Valid) {out : Fin N → Spectra}
    (hout : CanFinish msgSum (fun k : Fin N => getSpectra A tOps psis es .hBuild (ord k) k.val N) out)
    (i t : ℕ) (hi : i < es.length) (ht : t < tOps.length)
    (hsmall : ∀ T ⊆ range A.n, NoSmallElements A.n tOps[t] A.slaterWeightMin A.restrictions T) :
    spectrumOf A (transitionState A tOps[t] (psis[i]'(by omega))) es[i] = .ok (out ⟨0, hN⟩ i t) := by
  rcases hBuild_dichotomy hN hA hlen hpsis htOps ord hord with ⟨x, h1, h2⟩ | ⟨err, -, h2⟩
  swap
  · exact absurd hout (RunsToFailure.not_canFinish hN h2 out)
  have hu := AllRanksFinish.unique h2.allRanksFinish hout
  have hval : out ⟨0, hN⟩ i t = x.root i t := by rw [hu]; simp
  have hs := (((refHBuild_spec hA hlen hpsis htOps).1 x h1).1 t i ht hi).1
  obtain ⟨h3, h4⟩ := hBuildStates_spec hA hlen hpsis htOps ht hi
  have hi' : i < psis.length := by omega
  have htin := htOps _ (List.getElem_mem ht)
  have hpin := hpsis _ (List.getElem_mem hi')
  have heq := h4 hsmall
  rw [List.getD_eq_getElem _ _ hi'] at heq
  rw [← spectrumOf_congr hA (isState_applyOpPure htin hpin _ _) h3 heq, List.getD_eq_getElem _ _ hi] at hs
  rw [hval]
  exact hs

end

end Verif
