/-
C81: raising the energies of spin-orbitals whose number of electrons is conserved moves the energies and the spectra
rigidly.
-/
import Verif.Lemmas.Levels
import Verif.Prop.Symmetry

namespace Verif

open Finset Mpi Psr Spec

noncomputable section

section
variable {b : ℕ → ℕ} {P : BasisParams} {h0 h0' : Op Label ℂ} {O : Finset ℕ} {c : ℝ} {m p d : ℤ}
  (hV : LevelShift b P h0 h0' O c m p d)
  {L L' : MainLib} {A A' : MainArgs} {hx hy hz : ℝ} {energies energies' : List ℝ} {psis psis' : List (Psi ℂ)}
  {S S' : SimulateArgs} (hrun : MainRun L A b P hx hy hz h0 energies psis S)
  (hrun' : MainRun L' A' b P hx hy hz h0' energies' psis' S') (hgaunt : L'.gaunt = L.gaunt)
  (hAA : A' = { A with h0 := A'.h0 })

include hV hrun hrun' hgaunt hAA in
theorem levels_hamiltonian (v : Vec ℂ) (F : Finset ℕ) :
    operator (opSpec S'.hOp) v F = operator (opSpec S.hOp) v F + (c : ℂ) * ((F ∩ O).card : ℂ) * v F := by
  rw [hrun.hamiltonian, hrun'.hamiltonian, hgaunt, hAA]
  unfold pdHamiltonian
  rw [hV.raised]
  ring

include hV hrun hrun' hgaunt hAA in
theorem levels_element (F G : Finset ℕ) : matrixElement S'.hOp F G
    = matrixElement S.hOp F G + if F = G then (c : ℂ) * ((F ∩ O).card : ℂ) else 0 := by
  unfold matrixElement
  rw [levels_hamiltonian hV hrun hrun' hgaunt hAA]
  congr 1
  unfold Spec.single
  split
  · rw [mul_one]
  · rw [mul_zero]

include hV hrun in
theorem levels_conserved : Carries O 0 (operator (opSpec S.hOp)) := by
  intro k v hv
  have h1 := pdHamiltonian_carries (gaunt := L.gaunt) (A := A) (n3d := P.n0 2) (hx := hx) (hy := hy) (hz := hz) hV.core hV.valence
    (h0 := h0) (fun k v hv => by rw [add_zero]; exact hV.conserved k v hv) k v hv
  exact h1.mono fun F h => by rw [← hrun.hamiltonian]; exact h

include hV hrun in
theorem levels_sector {F G : Finset ℕ} (h : matrixElement S.hOp F G ≠ 0) : (F ∩ O).card = (G ∩ O).card := by
  have h1 : InSector O ((G ∩ O).card : ℤ) (Spec.single G 1) := by
    intro F hF
    unfold Spec.single at hF
    split at hF
    · rename_i h; rw [h]
    · exact absurd rfl hF
  have h2 := levels_conserved hV hrun _ _ h1 F h
  rw [add_zero] at h2
  exact_mod_cast h2

omit hV in
include hrun hrun' in
theorem levels_size : size S' = size S := by unfold size; rw [hrun.system, hrun'.system]

omit hV in
include hrun hrun' in
theorem levels_allowed (F : Finset ℕ) : AllowedOpt S'.restrictions F ↔ AllowedOpt S.restrictions F := by
  obtain ⟨r, hr, hall⟩ := hrun.excited
  obtain ⟨r', hr', hall'⟩ := hrun'.excited
  rw [hr, hr']
  exact (hall' F).trans (hall F).symm

include hV hrun hrun' hgaunt hAA in
/-- The Hamiltonians of the two runs. -/
theorem levels_raised (hk : DiagonalKept S) (hk' : DiagonalKept S') :
    Raised (size S) O (AllowedOpt S.restrictions) c (hamilton S) (hamilton S') := by
  classical
  have hsz := levels_size hrun hrun'
  have hal := levels_allowed hrun hrun'
  have hc := hrun.args.cutoffs.2.2
  have hc' := hrun'.args.cutoffs.2.2
  have hdis : ∀ x, ∀ F ⊆ range (size S), ¬ AllowedOpt S.restrictions F → hamilton S x F = 0 := by
    intro x F hF ha
    unfold hamilton hamiltonian
    rw [if_pos hF]
    refine Finset.sum_eq_zero fun G _ => ?_
    unfold column
    rw [if_neg fun h => ha h.1, zero_mul]
  refine ⟨hamiltonian_linear _ _ _ _, hamiltonian_linear _ _ _ _, ?_, ?_, hdis, ?_⟩
  · intro x y F hxy
    unfold hamilton hamiltonian
    split
    · refine Finset.sum_congr rfl fun G _ => ?_
      by_cases h : column S.hOp S.cut S.restrictions G F = 0
      · rw [h, zero_mul, zero_mul]
      · unfold column at h
        rw [hxy G (levels_sector hV hrun (F := F) (G := G) fun h1 => h (by rw [h1, ite_self])).symm]
    · rfl
  · intro x F hF ha
    unfold hamilton hamiltonian
    rw [hsz, if_pos hF, if_pos hF]
    have key : ∀ G, column S'.hOp S'.cut S'.restrictions G F
        = column S.hOp S.cut S.restrictions G F + if F = G then (c : ℂ) * ((F ∩ O).card : ℂ) else 0 := by
      intro G
      have he := levels_element hV hrun hrun' hgaunt hAA F G
      unfold column
      by_cases hFG : F = G
      · subst hFG
        have e1 : (if AllowedOpt S'.restrictions F ∧ S'.cut ≤ abs2 (matrixElement S'.hOp F F) then matrixElement S'.hOp F F else 0)
            = matrixElement S'.hOp F F := by
          rcases hk' F (by rw [hsz]; exact hF) with h | h
          · rw [h, ite_self]
          · rw [if_pos ⟨(hal F).2 ha, h⟩]
        have e2 : (if AllowedOpt S.restrictions F ∧ S.cut ≤ abs2 (matrixElement S.hOp F F) then matrixElement S.hOp F F else 0)
            = matrixElement S.hOp F F := by
          rcases hk F hF with h | h
          · rw [h, ite_self]
          · rw [if_pos ⟨ha, h⟩]
        rw [e1, e2, he]
      · rw [if_neg hFG, add_zero] at he
        rw [if_neg hFG, add_zero, he, hc, hc']
        simp only [hal]
    simp only [key, add_mul, Finset.sum_add_distrib]
    congr 1
    rw [Finset.sum_eq_single F]
    · rw [if_pos rfl]
    · intro G _ hne
      rw [if_neg (Ne.symm hne), zero_mul]
    · intro h
      exact absurd (Finset.mem_powerset.2 hF) h
  · intro x F hF ha
    unfold hamilton hamiltonian
    rw [hsz, if_pos hF]
    refine Finset.sum_eq_zero fun G _ => ?_
    unfold column
    rw [if_neg fun h => ha ((hal F).1 h.1), zero_mul]

omit hV in
include hrun hrun' in
/-- The second run with the Hamiltonian and the energies of the first one. -/
theorem levels_twin : Twin S { S' with hOp := S.hOp, es := S.es } := by
  have hsz0 := levels_size hrun hrun'
  have hsz : size { S' with hOp := S.hOp, es := S.es } = size S := hsz0
  have hal := levels_allowed hrun hrun'
  obtain ⟨-, hw, hc⟩ := hrun.args.cutoffs
  obtain ⟨-, hw', hc'⟩ := hrun'.args.cutoffs
  refine ⟨hsz, ?_, ?_, ?_, rfl⟩
  · unfold hamilton hamiltonian
    rw [hsz]
    funext x F
    refine if_congr Iff.rfl (Finset.sum_congr rfl fun G _ => ?_) rfl
    unfold column
    dsimp only
    rw [hc', hc]
    simp only [hal]
  · intro T
    unfold exciteVec excited
    rw [hsz]
    dsimp only
    rw [hw', hw]
    simp only [hal]
  · intro T x
    unfold NothingLost
    rw [hsz]
    dsimp only
    rw [hw', hw]
    simp only [hal]

include hV hrun hrun' hgaunt hAA in
/-- The eigenvectors of the second run are eigenvectors of the first Hamiltonian. -/
theorem levels_lowest (hk : DiagonalKept S) (hk' : DiagonalKept S') {states : Finset (Finset ℕ)}
    (hst : ∀ F ∈ states, F ⊆ range (nTotal (pdSystem b)) ∧ IsConfiguration [(1, b 1), (2, b 2)] (pdSystem b) P F)
    {n : ℕ} {weight : ℝ} {psi : List (Psi ℂ)} {es : List ℝ} (h : LowestStates n S'.hOp 1e-12 weight states es psi) :
    LowestStates n S.hOp 1e-12 weight states (es.map fun e => e - c * m) psi := by
  have hsz' : size S' = nTotal (pdSystem b) := by unfold size; rw [hrun'.system]; rfl
  have hsz : size S = nTotal (pdSystem b) := by unfold size; rw [hrun.system]; rfl
  have hc := hrun.args.cutoffs.2.2
  have hc' := hrun'.args.cutoffs.2.2
  have key : ∀ F ∈ states, ∀ G ∈ states, storedElement S'.hOp (1e-12 : ℝ) F G
      = storedElement S.hOp (1e-12 : ℝ) F G + if F = G then (c * m : ℂ) else 0 := by
    intro F hF G hG
    have he := levels_element hV hrun hrun' hgaunt hAA F G
    unfold storedElement
    by_cases hFG : F = G
    · subst hFG
      have e1 : (if (1e-12 : ℝ) ≤ abs2 (matrixElement S'.hOp F F) then matrixElement S'.hOp F F else 0)
          = matrixElement S'.hOp F F := by
        rcases hk' F (by rw [hsz']; exact (hst F hF).1) with h | h
        · rw [h, ite_self]
        · rw [if_pos (hc' ▸ h)]
      have e2 : (if (1e-12 : ℝ) ≤ abs2 (matrixElement S.hOp F F) then matrixElement S.hOp F F else 0)
          = matrixElement S.hOp F F := by
        rcases hk F (by rw [hsz]; exact (hst F hF).1) with h | h
        · rw [h, ite_self]
        · rw [if_pos (hc ▸ h)]
      rw [e1, e2, he, if_pos rfl, if_pos rfl, ← hV.filling F (hst F hF).1 (hst F hF).2]
      push_cast
      ring
    · rw [if_neg hFG, add_zero] at he
      rw [if_neg hFG, add_zero, he]
  have hsum : ∀ F ∈ states, ∀ y : Finset ℕ → ℂ, ∑ G ∈ states, storedElement S'.hOp (1e-12 : ℝ) F G * y G
      = ∑ G ∈ states, storedElement S.hOp (1e-12 : ℝ) F G * y G + (c * m : ℂ) * y F := by
    intro F hF y
    rw [Finset.sum_congr rfl fun G hG => by rw [key F hF G hG, add_mul], Finset.sum_add_distrib]
    congr 1
    rw [Finset.sum_eq_single F]
    · rw [if_pos rfl]
    · intro G _ hne
      rw [if_neg (Ne.symm hne), zero_mul]
    · intro h
      exact absurd hF h
  obtain ⟨h1, h2, x, h3, h4, h5, h6⟩ := h
  refine ⟨?_, by rw [List.length_map]; exact h2, x, by rw [List.length_map]; exact h3, ?_, ?_, h6⟩
  · exact h1.map _ fun a b h => by linarith
  · intro v hv F hF
    rw [List.length_map] at hv
    have e := h4 v hv F hF
    rw [hsum F hF] at e
    rw [List.getElem_map]
    push_cast
    linear_combination e
  · intro y hy v hv
    rw [List.length_map] at hy hv
    have e := h5 y hy v hv
    rw [List.getElem_map]
    have h7 : ∀ op : Op ℕ ℂ, ∑ F ∈ states, ∑ G ∈ states, star (y F) * storedElement op (1e-12 : ℝ) F G * y G
        = ∑ F ∈ states, star (y F) * ∑ G ∈ states, storedElement op (1e-12 : ℝ) F G * y G := by
      intro op
      refine Finset.sum_congr rfl fun F _ => ?_
      rw [Finset.mul_sum]
      exact Finset.sum_congr rfl fun G _ => mul_assoc _ _ _
    have h9 : ∑ F ∈ states, ∑ G ∈ states, star (y F) * storedElement S'.hOp (1e-12 : ℝ) F G * y G
        = ∑ F ∈ states, ∑ G ∈ states, star (y F) * storedElement S.hOp (1e-12 : ℝ) F G * y G
          + ∑ F ∈ states, star (y F) * ((c * m : ℂ) * y F) := by
      rw [h7, h7, ← Finset.sum_add_distrib]
      exact Finset.sum_congr rfl fun F hF => by rw [hsum F hF y, mul_add]
    have h8 : ∑ F ∈ states, star (y F) * ((c * m : ℂ) * y F) = ((c * m * ∑ F ∈ states, Complex.normSq (y F) : ℝ) : ℂ) := by
      push_cast
      rw [Finset.mul_sum]
      refine Finset.sum_congr rfl fun F _ => ?_
      rw [Complex.normSq_eq_conj_mul_self]
      change (starRingEnd ℂ) (y F) * _ = _
      ring
    rw [h9, h8, Complex.add_re, Complex.ofReal_re] at e
    linarith

end

theorem isThermal_shift {kB T a : ℝ} {es es' : List ℝ} {d : ℕ → ℝ} {avg : ℝ} (hes : es' = es.map fun e => e + a)
    (h : IsThermal kB T es' d avg) : IsThermal kB T es d avg := by
  unfold IsThermal at h ⊢
  have hl : es'.length = es.length := by rw [hes, List.length_map]
  have hw : ∀ i (hi : i < es'.length), Real.exp (-es'[i] / (kB * T))
      = Real.exp (-a / (kB * T)) * Real.exp (-(es[i]'(hl ▸ hi)) / (kB * T)) := by
    intro i hi
    rw [← Real.exp_add]
    congr 1
    rw [List.getElem_of_eq hes hi, List.getElem_map]
    ring
  have hsum : ∀ f : ℕ → ℝ, ∑ i : Fin es'.length, Real.exp (-es'[i] / (kB * T)) * f i
      = Real.exp (-a / (kB * T)) * ∑ i : Fin es.length, Real.exp (-es[i] / (kB * T)) * f i := by
    intro f
    rw [Finset.mul_sum]
    refine Fintype.sum_equiv (finCongr hl) _ _ fun i => ?_
    have := hw i i.isLt
    simp only [Fin.getElem_fin, finCongr_apply, Fin.val_cast] at this ⊢
    rw [this, mul_assoc]
  have h1 := hsum d
  have h2 := hsum fun _ => 1
  simp only [mul_one] at h2
  rw [h, h1, h2, mul_div_mul_left _ _ (Real.exp_ne_zero _)]

/-! ### Responses -/

section
variable {S S' : SimulateArgs} {O : Finset ℕ} {c : ℝ} {m : ℤ}

/-- What is known of the two runs. -/
structure Moved (S S' : SimulateArgs) (O : Finset ℕ) (c : ℝ) (m : ℤ) : Prop where
  raised : Raised (size S) O (AllowedOpt S.restrictions) c (hamilton S) (hamilton S')
  twin : Twin S { S' with hOp := S.hOp, es := S.es }
  allowed : ∀ F, AllowedOpt S'.restrictions F ↔ AllowedOpt S.restrictions F
  es : S'.es = S.es.map fun e => e + c * m
  sector : ∀ i < S.es.length, InSector O m (ampl (size S) (S'.psis.getD i []))
  mixed : Mixed (size S) S.es S.psis S'.psis

theorem im_ne_zero {z : ℂ} (h : z.im ≠ 0) : z ≠ 0 := fun h' => h (by rw [h']; rfl)

variable (hM : Moved S S' O c m)
include hM

theorem Moved.size : size S' = size S := hM.twin.size

theorem Moved.energy {i : ℕ} (hi : i < S.es.length) : S'.es.getD i 0 = S.es.getD i 0 + c * m := by
  rw [hM.es, List.getD_eq_getElem _ _ (by rw [List.length_map]; exact hi), List.getElem_map, List.getD_eq_getElem _ _ hi]

theorem Moved.excite_sector {T : Vec ℂ → Vec ℂ} {q : ℤ} (hT : Carries O q T) {i : ℕ} (hi : i < S.es.length) :
    InSector O (m + q) (excite S' T i) := by
  refine exciteVec_carries hT _ _ ?_
  rw [hM.size]
  exact hM.sector i hi

theorem Moved.excite_allowed {T : Vec ℂ → Vec ℂ} {v : Vec ℂ} :
    ∀ F ⊆ range (Spec.size S), ¬ AllowedOpt S.restrictions F → exciteVec S' T v F = 0 := by
  intro F hF ha
  unfold exciteVec excited
  rw [if_neg fun h => ha ((hM.allowed F).1 h.2.1)]

/-- Averages of the responses. -/
theorem Moved.response {T : Vec ℂ → Vec ℂ} (hlin : IsLinearMap ℂ T) {q : ℤ} (hT : Carries O q T) (weight : ℝ → ℂ) {z z' : ℂ}
    (hz : z.im ≠ 0) (h : z' = z + c * q)
    (hr : ∀ i < S.es.length, NothingLost S T (ampl (Spec.size S) (S.psis.getD i [])))
    (hr' : ∀ i < S'.es.length, NothingLost S' T (ampl (Spec.size S') (S'.psis.getD i [])))
    {g g' : ℕ → ℂ} (hg : ∀ i < S.es.length, IsResponse S T i z (g i)) (hg' : ∀ i < S'.es.length, IsResponse S' T i z' (g' i)) :
    ∑ i ∈ range S.es.length, weight (S.es.getD i 0) * g' i = ∑ i ∈ range S.es.length, weight (S.es.getD i 0) * g i := by
  have hlen : S'.es.length = S.es.length := by rw [hM.es, List.length_map]
  refine response_mixed hM.twin hM.mixed hlin hr (fun i hi => hr' i (hlen ▸ hi)) weight z hg fun i hi => ?_
  replace hi : i < S.es.length := hi
  have h1 := hg' i (hlen ▸ hi)
  have h2 := hg i hi
  unfold IsResponse at h1 h2 ⊢
  rw [hM.twin.size, hM.twin.ham]
  rw [hM.size, hM.energy hi] at h1
  refine hM.raised.green (k := m + q) (z' := z' + ((S.es.getD i 0 + c * m : ℝ) : ℂ)) (im_ne_zero ?_) (im_ne_zero ?_) ?_ h2
    (hM.excite_sector hT hi) hM.excite_allowed h1
  · rw [Complex.add_im, Complex.ofReal_im, add_zero]; exact hz
  · rw [h]
    simpa using hz
  · rw [h]; push_cast; ring

/-- Averages of resonant scattering. -/
theorem Moved.rixs {T T' : Vec ℂ → Vec ℂ} (hlin : IsLinearMap ℂ T) (hlin' : IsLinearMap ℂ T') {q : ℤ} (hT : Carries O q T)
    (hT' : Carries O (-q) T') (weight : ℝ → ℂ) {z₁ z₁' z₂ : ℂ} (hz₁ : z₁.im ≠ 0) (hz₂ : z₂.im ≠ 0) (h : z₁' = z₁ + c * q)
    (hr : ∀ i < S.es.length, NothingLost S T (ampl (Spec.size S) (S.psis.getD i [])) ∧
      ∀ x, Solves (Spec.size S) (hamilton S) (z₁ + (S.es.getD i 0 : ℂ)) (excite S T i) x → NothingLost S T' x)
    (hr' : ∀ i < S'.es.length, NothingLost S' T (ampl (Spec.size S') (S'.psis.getD i [])) ∧
      ∀ x, Solves (Spec.size S') (hamilton S') (z₁' + (S'.es.getD i 0 : ℂ)) (excite S' T i) x → NothingLost S' T' x)
    {g g' : ℕ → ℂ}
    (hg : ∀ i < S.es.length, IsRixs (Spec.size S) (hamilton S) (z₁ + (S.es.getD i 0 : ℂ)) (z₂ + (S.es.getD i 0 : ℂ)) (excite S T i)
      (exciteVec S T') (g i))
    (hg' : ∀ i < S'.es.length, IsRixs (Spec.size S') (hamilton S') (z₁' + (S'.es.getD i 0 : ℂ)) (z₂ + (S'.es.getD i 0 : ℂ))
      (excite S' T i) (exciteVec S' T') (g' i)) :
    ∑ i ∈ range S.es.length, weight (S.es.getD i 0) * g' i = ∑ i ∈ range S.es.length, weight (S.es.getD i 0) * g i := by
  have hlen : S'.es.length = S.es.length := by rw [hM.es, List.length_map]
  have key : ∀ i (hi : i < S.es.length), ∃ x, Solves (Spec.size S) (hamilton S) (z₁ + (S.es.getD i 0 : ℂ)) (excite S' T i) x ∧
      InSector O (m + q) x ∧ (∀ y, Solves (Spec.size S) (hamilton S) (z₁ + (S.es.getD i 0 : ℂ)) (excite S' T i) y → y = x) ∧
      Solves (Spec.size S') (hamilton S') (z₁' + (S'.es.getD i 0 : ℂ)) (excite S' T i) x ∧
      IsGreen (Spec.size S) (hamilton S) (z₂ + (S.es.getD i 0 : ℂ)) (exciteVec S' T' x) (g' i) := by
    intro i hi
    obtain ⟨x₀, h1, h2, h3⟩ := hg i hi
    obtain ⟨x', h4, h5, h6⟩ := hg' i (hlen ▸ hi)
    have h4' := h4
    rw [hM.size] at h4 h5 h6
    rw [hM.energy hi] at h4 h5 h6
    obtain ⟨h7, h8, h9⟩ := hM.raised.unique (k := m + q) (z := z₁ + (S.es.getD i 0 : ℂ))
      (z' := z₁' + ((S.es.getD i 0 + c * m : ℝ) : ℂ)) (im_ne_zero (by rw [Complex.add_im, Complex.ofReal_im, add_zero]; exact hz₁))
      (im_ne_zero (by rw [h]; simpa using hz₁)) (by rw [h]; push_cast; ring) h1 h2 (hM.excite_sector hT hi) hM.excite_allowed h4 h5
    refine ⟨x', h7, h8, h9, h4', ?_⟩
    refine hM.raised.green (k := m) (z' := z₂ + ((S.es.getD i 0 + c * m : ℝ) : ℂ)) (im_ne_zero ?_) (im_ne_zero ?_) ?_ h3
      ?_ hM.excite_allowed h6
    · rw [Complex.add_im, Complex.ofReal_im, add_zero]; exact hz₂
    · simpa using hz₂
    · push_cast; ring
    · have := exciteVec_carries (S := S') hT' _ _ h8
      convert this using 1
      ring
  refine rixs_mixed hM.twin hM.mixed hlin hlin' weight z₁ z₂ hr (fun i hi => ?_) hg fun i hi => ?_
  · replace hi : i < S.es.length := hi
    refine ⟨(hr' i (hlen ▸ hi)).1, fun x hx => ?_⟩
    obtain ⟨x', h1, -, h2, h3, -⟩ := key i hi
    rw [hM.twin.size, hM.twin.ham] at hx
    rw [h2 x hx]
    exact (hr' i (hlen ▸ hi)).2 x' h3
  · replace hi : i < S.es.length := hi
    obtain ⟨x', h1, -, h2, -, h3⟩ := key i hi
    rw [hM.twin.size, hM.twin.ham]
    exact ⟨x', h1, h2, h3⟩

end

section
variable {b : ℕ → ℕ} {P : BasisParams} {h0 h0' : Op Label ℂ} {O : Finset ℕ} {c : ℝ} {m p d : ℤ}
  (hV : LevelShift b P h0 h0' O c m p d)
  {L L' : MainLib} {A A' : MainArgs} {hx hy hz : ℝ} {energies energies' : List ℝ} {psis psis' : List (Psi ℂ)}
  {S S' : SimulateArgs} (hrun : MainRun L A b P hx hy hz h0 energies psis S)
  (hrun' : MainRun L' A' b P hx hy hz h0' energies' psis' S')
  (hAA : A' = { A with h0 := A'.h0 }) (hA : A.Valid)

include hV hrun hrun' hAA hA in
theorem spectra_shifted {s s' : Simulated}
    (hgaunt : L'.gaunt = L.gaunt) (hsph : L'.sphHarm = L.sphHarm) (hjn : L'.jn = L.jn) (hkB : L'.kB = L.kB)
    (hs : PDExact b S s) (hs' : PDExact b S' s') (hM : Moved S S' O c m)
    (hR : AllKept b S) (hR' : AllKept b S') : ShiftedThermal S.w S.wIn c p d s s' := by
  have a := hrun.args
  have a' := hrun'.args
  rw [hAA] at a'
  have hes := hM.es
  have hw := mesh_eq a.w a'.w
  have hwl := mesh_eq a.wLoss a'.wLoss
  have hwi := mesh_eq a.wIn a'.wIn
  have lw : S.w.length = 3000 := a.w.1
  have ll : S.wLoss.length = 4000 := a.wLoss.1
  have li : S.wIn.length = 50 := a.wIn.1
  have hδ : S'.delta = S.delta := by rw [a.delta, a'.delta]
  have hδn : S'.deltaNIXS = S.deltaNIXS := by rw [a.deltaNIXS, a'.deltaNIXS]
  have hδr : S'.deltaRIXS = S.deltaRIXS := by rw [a.deltaRIXS, a'.deltaRIXS]
  have hδ0 : S.delta ≠ 0 := by rw [a.delta]; exact hA.delta
  have hδn0 : S.deltaNIXS ≠ 0 := by rw [a.deltaNIXS]; exact hA.deltaNIXS
  have hδr0 : S.deltaRIXS ≠ 0 := by rw [a.deltaRIXS]; exact hA.deltaRIXS
  have hT : S'.T = S.T := by rw [a.T, a'.T]
  have hk : S'.kB = S.kB := by rw [a.library.2.2.2.2.2, a'.library.2.2.2.2.2, hkB]
  have hgS : S'.gaunt = S.gaunt := by rw [a.library.1, a'.library.1, hgaunt]
  have hpw : ∀ q, planeWaveDD S' b q = planeWaveDD S b q := by
    intro q
    unfold planeWaveDD
    rw [hgS, a.library.2.1, a'.library.2.1, hsph, a.library.2.2.1, a'.library.2.2.1, hjn, a.radial.1, a'.radial.1, a.radial.2.1,
      a'.radial.2.1, a.radial.2.2, a'.radial.2.2]
  have hε := a.epsilons
  have hε' := a'.epsilons
  have hεr := a.epsilonsRIXS.1
  have hεr' := a'.epsilonsRIXS.1
  obtain ⟨t1, t2, t3, t4⟩ := hs.tables
  obtain ⟨t1', t2', t3', t4'⟩ := hs'.tables
  rw [hk, hT] at t1' t2' t3' t4'
  have hth : ∀ a c d k, IsThermal S.kB S.T S'.es (fun i => s'.rixs.data i a c d k) (s'.rixs.thermal a c d k) := by
    intro a c d k
    have := hs'.rixsThermal a c d k
    rwa [hk, hT] at this
  have hlen : S'.es.length = S.es.length := by rw [hes, List.length_map]
  have lw' : S'.w.length = 3000 := a'.w.1
  have ll' : S'.wLoss.length = 4000 := a'.wLoss.1
  have li' : S'.wIn.length = 50 := a'.wIn.1
  have hmem : ∀ l j, j < 2 * (2 * l + 1) → impStart (pdSystem b) l + j ∈ impOrbs (pdSystem b) l := by
    intro l j hj
    unfold impOrbs
    rw [Finset.mem_Ico]
    omega
  constructor
  · intro j hj k k' hk2 hk1 hww
    rw [lw] at hk2
    rw [← lw'] at hk2
    obtain ⟨f, hf⟩ := choose_lt fun i hi => hs.photoemission i j k' hi hj hk1 _ rfl
    obtain ⟨g, hg⟩ := choose_lt hf
    obtain ⟨f', hf'⟩ := choose_lt fun i hi => hs'.photoemission i j k hi hj hk2 _ rfl
    obtain ⟨g', hg'⟩ := choose_lt hf'
    rw [hδ, List.getElem_of_eq hw hk2] at hg'
    refine thermal_same (t1.thermal j k') (isThermal_shift hes (t1'.thermal j k)) (fun i hi => (hg i hi).2.2)
      (fun i hi => (hg' i (hlen ▸ hi)).2.2) ?_
    have hch := hV.valence.value (hmem 2 j hj)
    have e1 := hM.response (create_linear _) (create_carries (impStart (pdSystem b) 2 + j))
      (fun e => (Real.exp (-e / (S.kB * S.T)) : ℂ)) (z := (S.w[k'] : ℂ) + Complex.I * S.delta)
      (z' := (S.w[k] : ℂ) + Complex.I * S.delta) (by simpa using hδ0) (by rw [hch, hww]; push_cast; ring)
      (fun i hi => hR.add j hj i hi) (fun i hi => hR'.add j hj i hi)
      (fun i hi => (hg i hi).1) fun i hi => (hg' i hi).1
    have e2 := hM.response (annihilate_linear _) (annihilate_carries (impStart (pdSystem b) 2 + j))
      (fun e => (Real.exp (-e / (S.kB * S.T)) : ℂ)) (z := -((S.w[k'] : ℂ) + Complex.I * S.delta))
      (z' := -((S.w[k] : ℂ) + Complex.I * S.delta)) (by simpa using hδ0) (by rw [hch, hww]; push_cast; ring)
      (fun i hi => hR.remove j hj i hi) (fun i hi => hR'.remove j hj i hi)
      (fun i hi => (hg i hi).2.1) fun i hi => (hg' i hi).2.1
    simp only [mul_sub, Finset.sum_sub_distrib]
    rw [e1, e2]
  · intro j hj k k' hk2 hk1 hww
    rw [lw] at hk2
    rw [← lw'] at hk2
    obtain ⟨g, hg⟩ := choose_lt fun i hi => hs.xps i j k' hi hj hk1 _ rfl
    obtain ⟨g', hg'⟩ := choose_lt fun i hi => hs'.xps i j k hi hj hk2 _ rfl
    rw [hδ, List.getElem_of_eq hw hk2] at hg'
    refine thermal_same (g := fun i => -g i) (g' := fun i => -g' i) (t2.thermal j k') (isThermal_shift hes (t2'.thermal j k))
      (fun i hi => by rw [(hg i hi).2, Complex.neg_im, neg_neg])
      (fun i hi => by rw [(hg' i (hlen ▸ hi)).2, Complex.neg_im, neg_neg]) ?_
    have hch := hV.core.value (hmem 1 j hj)
    have e2 := hM.response (annihilate_linear _) (annihilate_carries (impStart (pdSystem b) 1 + j))
      (fun e => (Real.exp (-e / (S.kB * S.T)) : ℂ)) (z := -((S.w[k'] : ℂ) + Complex.I * S.delta))
      (z' := -((S.w[k] : ℂ) + Complex.I * S.delta)) (by simpa using hδ0) (by rw [hch, hww]; push_cast; ring)
      (fun i hi => hR.core j hj i hi) (fun i hi => hR'.core j hj i hi)
      (fun i hi => (hg i hi).1) fun i hi => (hg' i hi).1
    simp only [mul_neg, Finset.sum_neg_distrib]
    rw [e2]
  · intro t ht k k' hk2 hk1 hww
    rw [lw] at hk2
    rw [← lw'] at hk2
    have ht1 : t < S.epsilons.length := by rw [hε]; exact ht
    have ht2 : t < S'.epsilons.length := by rw [hε']; exact ht
    have hr := hR.absorb _ (List.getElem_mem ht1)
    have hr' := hR'.absorb _ (List.getElem_mem ht2)
    obtain ⟨g, hg⟩ := choose_lt fun i hi => hs.xas i t k' hi ht1 hk1
    obtain ⟨g', hg'⟩ := choose_lt fun i hi => hs'.xas i t k hi ht2 hk2
    rw [hδ, List.getElem_of_eq hw hk2, hgS, List.getElem_of_eq (hε'.trans hε.symm) ht2] at hg'
    rw [hgS, List.getElem_of_eq (hε'.trans hε.symm) ht2] at hr'
    exact thermal_same (t4.thermal t k') (isThermal_shift hes (t4'.thermal t k)) (fun i hi => (hg i hi).2)
      (fun i hi => (hg' i (hlen ▸ hi)).2)
      (hM.response (between_linear _ _ _ _) (between_carries hV.valence hV.core _)
        (fun e => (Real.exp (-e / (S.kB * S.T)) : ℂ)) (z := (S.w[k'] : ℂ) + Complex.I * S.delta)
        (z' := (S.w[k] : ℂ) + Complex.I * S.delta) (by simpa using hδ0) (by rw [hww]; push_cast; ring)
        hr hr' (fun i hi => (hg i hi).1) fun i hi => (hg' i hi).1)
  · intro t ht k hk'
    have hk1 : k < S.wLoss.length := by rw [ll]; exact hk'
    have hk2 : k < S'.wLoss.length := by rw [ll']; exact hk'
    have hq : ((if t = 0 then 2 else 7 : ℝ)) = 2 ∨ ((if t = 0 then 2 else 7 : ℝ)) = 7 := by
      split
      · exact .inl rfl
      · exact .inr rfl
    obtain ⟨hr, -⟩ := hR.scatter _ hq
    obtain ⟨hr', -⟩ := hR'.scatter _ hq
    obtain ⟨g, hg⟩ := choose_lt fun i hi => hs.nixs i t k hi ht hk1 _ rfl
    obtain ⟨g', hg'⟩ := choose_lt fun i hi => hs'.nixs i t k hi ht hk2 _ rfl
    rw [hδn, List.getElem_of_eq hwl hk2, hpw] at hg'
    rw [hpw] at hr'
    exact thermal_same (t3.thermal t k) (isThermal_shift hes (t3'.thermal t k)) (fun i hi => (hg i hi).2)
      (fun i hi => (hg' i (hlen ▸ hi)).2)
      (hM.response (planeWaveDD_linear _ _ _) (planeWaveDD_carries hV.valence _)
        (fun e => (Real.exp (-e / (S.kB * S.T)) : ℂ)) (z := (S.wLoss[k] : ℂ) + Complex.I * S.deltaNIXS)
        (by simpa using hδn0) (by push_cast; ring) hr hr'
        (fun i hi => (hg i hi).1) fun i hi => (hg' i hi).1)
  · intro u hu e he i i' hd2 hd1 hww k hk'
    have hk1 : k < S.wLoss.length := by rw [ll]; exact hk'
    have hk2 : k < S'.wLoss.length := by rw [ll']; exact hk'
    rw [li] at hd2
    rw [← li'] at hd2
    have hu1 : u < S.epsilonsRIXSin.length := by rw [hεr]; exact hu
    have hu2 : u < S'.epsilonsRIXSin.length := by rw [hεr']; exact hu
    have hr := hR.resonant _ (List.getElem_mem hu1) _ (List.getElem_mem hd1)
    have hr' := hR'.resonant _ (List.getElem_mem hu2) _ (List.getElem_mem hd2)
    obtain ⟨g, hg⟩ := choose_lt fun j hj => hs.rixs j u e i' k hj hu1 he hd1 hk1
    obtain ⟨g', hg'⟩ := choose_lt fun j hj => hs'.rixs j u e i k hj hu2 he hd2 hk2
    unfold KeptRixs at hr hr'
    rw [hδ, hδr, List.getElem_of_eq hwl hk2, List.getElem_of_eq hwi hd2, hgS,
      List.getElem_of_eq (hεr'.trans hεr.symm) hu2] at hg'
    rw [hδ, List.getElem_of_eq hwi hd2, hgS, List.getElem_of_eq (hεr'.trans hεr.symm) hu2] at hr'
    refine thermal_same (hs.rixsThermal u e i' k) (isThermal_shift hes (hth u e i k)) (fun j hj => (hg j hj).2)
      (fun j hj => (hg' j (hlen ▸ hj)).2) ?_
    refine hM.rixs (between_linear _ _ _ _) (between_linear _ _ _ _) (between_carries hV.valence hV.core _)
        (by rw [neg_sub]; exact between_carries hV.core hV.valence _)
        (fun e => (Real.exp (-e / (S.kB * S.T)) : ℂ)) (z₁ := (S.wIn[i'] : ℂ) + Complex.I * S.delta)
        (z₁' := (S.wIn[i] : ℂ) + Complex.I * S.delta) (z₂ := (S.wLoss[k] : ℂ) + Complex.I * S.deltaRIXS)
        (by simpa using hδ0) (by simpa using hδr0) (by rw [hww]; push_cast; ring)
        (fun i hi => ⟨(hr i hi).1, fun x hx => ((hr i hi).2 x hx).1⟩)
        (fun i hi => ⟨(hr' i hi).1, fun x hx => ((hr' i hi).2 x hx).1⟩) (fun i hi => (hg i hi).1) fun i hi => (hg' i hi).1

end

section
variable {L L' : MainLib} {A A' : MainArgs} (hA : A.Valid) (hG : GauntLarge L.gaunt A.ls) {N N' : ℕ}
  (hN : 0 < N) (hN' : 0 < N')
  {ord : Fin N → ℕ → ℕ → ℕ → SetOrders} (hord : ∀ k c t i, (ord k c t i).Valid)
  {ordRixs : Fin N → List ℕ → SetOrders} (hordR : ∀ k l, (ordRixs k l).Valid) {out : Fin N → Option MainOutput}
  (hfin : CanFinish msgSum (fun k : Fin N => mainRank L A (ord k) (ordRixs k) k.val N) out)
  {o o' : MainOutput} (ho : out ⟨0, hN⟩ = some o)
  {ord' : Fin N' → ℕ → ℕ → ℕ → SetOrders} (hord' : ∀ k c t i, (ord' k c t i).Valid)
  {ordRixs' : Fin N' → List ℕ → SetOrders} (hordR' : ∀ k l, (ordRixs' k l).Valid) {out' : Fin N' → Option MainOutput}
  (hfin' : CanFinish msgSum (fun k : Fin N' => mainRank L' A' (ord' k) (ordRixs' k) k.val N') out')
  (ho' : out' ⟨0, hN'⟩ = some o')
  (hL : SolverCorrect L.solver) (hL' : SolverCorrect L'.solver) (hAA : A' = { A with h0 := A'.h0 })
  {b : ℕ → ℕ} {P : BasisParams} {hx hy hz : ℝ} {h0 h0' : Op Label ℂ} (hD : Documented A b P hx hy hz h0)
  (hD' : Documented A' b P hx hy hz h0')

include hA hG hord hordR hfin ho hord' hordR' hfin' ho' hL hL' hAA hD hD' in
/-- C81.  Two finished runs of main whose non-interacting operators differ by `c` in the energies of the spin-orbitals `O`,
in which the number of electrons is conserved and is `m` in all configurations.  If no diagonal matrix
element is dropped, all energies of the second run are those of the first one plus `c m`.  If moreover the
energies used for the spectra do not reach the end of the list, the stored states are normalised, and the cutoffs drop
nothing, then the averaged spectra are those of the first run on axes moved by `c` for
each electron that the excitation adds to `O`: nothing but the labels of the axes changes.  This is exact if the number of Lanczos
vectors is sufficient, and holds else up to the error of 150 Lanczos vectors. -/
theorem C81_main (hgaunt : L'.gaunt = L.gaunt) (hsph : L'.sphHarm = L.sphHarm) (hjn : L'.jn = L.jn) (hkB : L'.kB = L.kB)
    (hR : GauntRules L.gaunt) (hsolve : ExactSolver L.solve) (hsolve' : ExactSolver L'.solve) (hf : L.f32 50 = 50)
    (hf' : L'.f32 50 = 50) :
    ∃ psis S psis' S', MainRun L A b P hx hy hz h0 o.energies psis S ∧
      MainRun L' A' b P hx hy hz h0' o'.energies psis' S' ∧ PDSpectra b S o.spectra ∧ PDSpectra b S' o'.spectra ∧
      ∀ O c m p d, LevelShift b P h0 h0' O c m p d → DiagonalKept S → DiagonalKept S' →
        o'.energies = o.energies.map (fun e => e + c * m) ∧ S'.es = S.es.map (fun e => e + c * m) ∧
        (S.es.length < o.energies.length →
          (∀ psi ∈ S.psis ++ S'.psis, ∑ F ∈ (range (size S)).powerset, Complex.normSq (ampl (size S) psi F) = 1) →
          (AllResolved b S → AllResolved b S' → ShiftedThermal S.w S.wIn c p d o.spectra o'.spectra) ∧
          (AllKept b S → AllKept b S' → Almost (ShiftedThermal S.w S.wIn c p d) b S S' o.spectra o'.spectra)) := by
  classical
  have hA' : A'.Valid := by rw [hAA]; exact ⟨hA.delta, hA.deltaNIXS, hA.deltaRIXS⟩
  have hG' : GauntLarge L'.gaunt A'.ls := by rw [hgaunt, hAA]; exact hG
  obtain ⟨psis, S, hrun, hS, hsp, hn⟩ := main_both hA hG hN hord hordR hfin ho hL hD hR hsolve hf
  obtain ⟨psis', S', hrun', hS', hsp', hn'⟩ :=
    main_both hA' hG' hN' hord' hordR' hfin' ho' hL' hD' (by rw [hgaunt]; exact hR) hsolve' hf'
  refine ⟨psis, S, psis', S', hrun, hrun', hsp, hsp', fun O c m p d hV hk hk' => ?_⟩
  have hsz : size S = nTotal (pdSystem b) := by unfold size; rw [hrun.system]; rfl
  have hsz' : nSpinOrbitals S.nBaths = nTotal (pdSystem b) := by
    rw [nSpinOrbitals_eq, hrun.system]; rfl
  set states : Finset (Finset ℕ) := {F ∈ (range (nTotal (pdSystem b))).powerset |
    IsConfiguration [(1, b 1), (2, b 2)] (pdSystem b) P F} with hstates
  have hst : ∀ F ∈ states, F ⊆ range (nTotal (pdSystem b)) ∧ IsConfiguration [(1, b 1), (2, b 2)] (pdSystem b) P F :=
    fun F hF => ⟨Finset.mem_powerset.1 (Finset.mem_filter.1 hF).1, (Finset.mem_filter.1 hF).2⟩
  have hlow : LowestStates (nTotal (pdSystem b)) S.hOp 1e-12 1e-7 states o.energies psis := by convert hrun.lowest
  have hlow0 : LowestStates (nTotal (pdSystem b)) S'.hOp 1e-12 1e-7 states o'.energies psis' := by convert hrun'.lowest
  have hlow' := levels_lowest hV hrun hrun' hgaunt hAA hk hk' hst hlow0
  have hherm := storedElement_hermitian hrun.dict.1 hS.hop hrun.dict.2 (1e-12 : ℝ) (s := states)
    fun F hF => by rw [hsz']; exact (hst F hF).1
  have hlen : o'.energies.length = o.energies.length := by
    rw [hrun'.count, hrun.count, hAA]
  have hEm : o'.energies.map (fun e => e - c * m) = o.energies := by
    obtain ⟨x, h1⟩ := lowestIn_of hlow
    obtain ⟨x', h2⟩ := lowestIn_of hlow'
    refine List.ext_getElem (by rw [List.length_map]; exact hlen) fun i hi hi' => ?_
    exact le_antisymm (h1.antitone h2 (fun _ h => h) hherm i hi' hi) (h2.antitone h1 (fun _ h => h) hherm i hi hi')
  have hE : o'.energies = o.energies.map fun e => e + c * m := by
    rw [← hEm, List.map_map]
    conv_lhs => rw [← List.map_id o'.energies]
    exact List.map_congr_left fun e _ => by simp
  rw [hEm] at hlow'
  have hkept : S'.es = S.es.map (fun e => e + c * m) ∧ S'.psis = psis'.take S.es.length := by
    have hsort := hrun.lowest.1
    obtain ⟨e0, rest, hE0⟩ := List.exists_cons_of_ne_nil hrun.nonempty.1
    have hmem : e0 ∈ o.energies := by rw [hE0]; exact List.mem_cons_self
    have hmin : ∀ e ∈ o.energies, e0 ≤ e := by
      rw [hE0] at hsort ⊢
      intro e he
      rcases List.mem_cons.1 he with rfl | he
      · exact le_rfl
      · exact (List.pairwise_cons.1 hsort).1 e he
    have h1 := hrun.kept.2 e0 hmem hmin
    have h2 := hrun'.kept.2 (e0 + c * m) (by rw [hE]; exact List.mem_map_of_mem hmem) (by
      rw [hE]
      intro e he
      obtain ⟨e1, he1, rfl⟩ := List.mem_map.1 he
      linarith [hmin e1 he1])
    have e1 := kept_filter hrun.lowest.2.1 hrun.kept.1 h1
    have e2 := kept_filter hrun'.lowest.2.1 hrun'.kept.1 h2
    have e3 : S'.es = S.es.map fun e => e + c * m := by
      rw [e2, e1, hE, List.filter_map, hkB, hAA]
      refine congrArg _ (List.filter_congr fun e _ => ?_)
      simp only [Function.comp_apply, add_sub_add_right_eq_sub]
    obtain ⟨-, k2, -⟩ := kept_take hrun'.lowest.1 hrun'.lowest.2.1 hrun'.kept.1 h2
    refine ⟨e3, ?_⟩
    rw [e3, List.length_map] at k2
    exact k2
  refine ⟨hE, hkept.1, fun hlt hnorm => ?_⟩
  obtain ⟨k1, k2, k3⟩ := mainRun_kept hrun
  have hmix : Mixed (size S) S.es S.psis S'.psis := by
    rw [hsz] at hnorm ⊢
    exact lowest_mixed (weight := 1e-7) (fun F hF => (hst F hF).1) hherm rfl hlow hlow' k1 k2 hkept.2 hlt (k3 hlt)
      (fun psi h => hnorm psi (List.mem_append_left _ h)) fun psi h => hnorm psi (List.mem_append_right _ h)
  have hsec : ∀ i < S.es.length, InSector O m (ampl (size S) (S'.psis.getD i [])) := by
    intro i hi F hF
    obtain ⟨-, hl, x, -, -, -, h6⟩ := hlow'
    have hi' : i < psis'.length := by omega
    have e : S'.psis.getD i [] = psis'[i] := by
      rw [List.getD_eq_getElem?_getD, hkept.2, List.getElem?_take_of_lt hi, List.getElem?_eq_getElem hi']
      rfl
    rw [e, hsz, (h6 i hi').2] at hF
    split at hF
    · rename_i h
      exact hV.filling F (hst F h.1).1 (hst F h.1).2
    · exact absurd rfl hF
  exact related_both hsp hsp' hn hn' hrun.args.cutoffs.1 hrun'.args.cutoffs.1
    (width_strengths hS hrun.dict) (width_strengths hS' hrun'.dict) fun h h' x x' hx' hx'' =>
    spectra_shifted hV hrun hrun' hAA hA hgaunt hsph hjn hkB hx' hx''
    ⟨levels_raised hV hrun hrun' hgaunt hAA hk hk', levels_twin hrun hrun', levels_allowed hrun hrun', hkept.1, hsec, hmix⟩ h h'

end

end

end Verif
