/-
C78: without a magnetic field there is no net moment, and spin-orbitals that time reversal maps to each other have the same
occupation and the same photoemission spectrum.
-/
import Verif.Lemmas.TimeReversalShell
import Verif.Lemmas.TimeReversalCF
import Verif.Prop.Symmetry
import Verif.Prop.Printed
import Verif.Lemmas.MainExample

namespace Verif

open Finset Mpi Psr Spec

noncomputable section

/-- A map that maps lowest eigenvectors of one operator to lowest eigenvectors of another maps the first stored states of the
one, up to a gap, to superpositions of the stored states of the other. -/
theorem lowest_mapped {n : ℕ} {op op' : Op ℕ ℂ} {cut weight : ℝ} {states : Finset (Finset ℕ)} {energies : List ℝ}
    {psis psis' : List (Psi ℂ)} (hst : ∀ S ∈ states, S ⊆ range n)
    (hH : ∀ S ∈ states, ∀ T ∈ states, storedElement op' cut S T = star (storedElement op' cut T S)) {R : Vec ℂ → Vec ℂ}
    (hR : ∀ x, LowestIn states (storedElement op cut) energies x → LowestIn states (storedElement op' cut) energies fun i => R (x i))
    (hcongr : ∀ v w : Vec ℂ, (∀ F ∈ states, v F = w F) → ∀ F ∈ states, R v F = R w F)
    (hout : ∀ v : Vec ℂ, (∀ F ∉ states, v F = 0) → ∀ F ∉ states, R v F = 0)
    (h : LowestStates n op cut weight states energies psis) (h' : LowestStates n op' cut weight states energies psis') {m : ℕ}
    (hlt : m < energies.length) (hgap : ∀ i (_ : i < m), energies[i] < energies[m])
    (hn : ∀ i < m, ∑ S ∈ (range n).powerset, Complex.normSq (ampl n (psis.getD i []) S) = 1)
    (hn' : ∀ i < m, ∑ S ∈ (range n).powerset, Complex.normSq (ampl n (psis'.getD i []) S) = 1) :
    ∃ U : ℕ → ℕ → ℂ,
      (∀ j < m, ∀ k < m, ∑ i ∈ range m, star (U i j) * U i k = if j = k then 1 else 0) ∧
      (∀ i < m, ∀ j < m, energies.getD i 0 ≠ energies.getD j 0 → U i j = 0) ∧
      ∀ i < m, ∀ F, R (ampl n (psis.getD i [])) F = ∑ j ∈ range m, U i j * ampl n (psis'.getD j []) F := by
  obtain ⟨h1, hl, x, h2, h3, h4, h5⟩ := h
  obtain ⟨h1', hl', x', h2', h3', h4', h5'⟩ := h'
  have hx0 : LowestIn states (storedElement op cut) energies x := ⟨h1, h2, h3, h4⟩
  have hx0' : LowestIn states (storedElement op' cut) energies x' := ⟨h1', h2', h3', h4'⟩
  obtain ⟨U, hU, hU0, hx⟩ := hx0'.unitary (hR x hx0) hH hlt hgap
  have ha : ∀ i < m, ∀ F, ampl n (psis.getD i []) F = if F ∈ states then x i F else 0 := by
    intro i hi F
    have hi' : i < psis.length := by omega
    have e : psis.getD i [] = psis[i] := by rw [List.getD_eq_getElem _ _ hi']
    have hn' := hn i hi
    rw [e] at hn' ⊢
    exact pruned_eq hst ((h2 i (by omega) i (by omega)).trans (if_pos rfl)) (h5 i hi').2 hn' F
  have ha' : ∀ i < m, ∀ F, ampl n (psis'.getD i []) F = if F ∈ states then x' i F else 0 := by
    intro i hi F
    have hi' : i < psis'.length := by omega
    have e : psis'.getD i [] = psis'[i] := by rw [List.getD_eq_getElem _ _ hi']
    have hn2 := hn' i hi
    rw [e] at hn2 ⊢
    exact pruned_eq hst ((h2' i (by omega) i (by omega)).trans (if_pos rfl)) (h5' i hi').2 hn2 F
  refine ⟨U, hU, hU0, fun i hi F => ?_⟩
  by_cases hF : F ∈ states
  · rw [hcongr _ (x i) (fun F hF => by rw [ha i hi, if_pos hF]) F hF, hx i hi F hF]
    refine Finset.sum_congr rfl fun j hj => ?_
    rw [ha' j (mem_range.1 hj), if_pos hF]
  · rw [hout _ (fun F hF => by rw [ha i hi, if_neg hF]) F hF]
    refine (Finset.sum_eq_zero fun j hj => ?_).symm
    rw [ha' j (mem_range.1 hj), if_neg hF, mul_zero]

/-- The energies less than `c` above `e0` are the first ones. -/
theorem window_prefix {energies : List ℝ} (hs : energies.Pairwise (· ≤ ·)) (e0 c : ℝ) (h : ∃ e ∈ energies, c ≤ e - e0) :
    ∃ m < energies.length, (∀ i < energies.length, (energies.getD i 0 - e0 < c ↔ i < m)) ∧
      ∀ (hm : m < energies.length) i (_ : i < m), energies[i] < energies[m] := by
  classical
  have h' : ∃ i, ∃ hi : i < energies.length, c ≤ energies[i] - e0 := by
    obtain ⟨e, he, hc⟩ := h
    obtain ⟨i, hi, rfl⟩ := List.getElem_of_mem he
    exact ⟨i, hi, hc⟩
  obtain ⟨hm, hmc⟩ := Nat.find_spec h'
  have hlow : ∀ i (hi : i < energies.length), i < Nat.find h' → energies[i] - e0 < c := fun i hi hlt =>
    not_le.1 fun hc => Nat.find_min h' hlt ⟨hi, hc⟩
  refine ⟨Nat.find h', hm, fun i hi => ?_, fun hm i hi => ?_⟩
  · rw [List.getD_eq_getElem _ _ hi]
    refine ⟨fun hc => ?_, hlow i hi⟩
    by_contra hle
    rcases Nat.lt_or_eq_of_le (not_lt.1 hle) with h1 | h1
    · have h2 := List.pairwise_iff_getElem.1 hs _ _ hm hi h1
      linarith
    · have h2 : energies[i] = energies[Nat.find h'] := by simp only [← h1]
      rw [h2] at hc
      linarith
  · have h1 := hlow i (by omega) hi
    linarith

theorem thermalMean_prefix {E : Type} [AddCommGroup E] [Module ℝ E] {kB T window e0 : ℝ} {energies : List ℝ} {m : ℕ}
    (hm : m < energies.length) (h : ∀ i < energies.length, (energies.getD i 0 - e0 < window ↔ i < m)) (x : ℕ → E) :
    thermalMean kB T window e0 energies x = (∑ i ∈ range m, Real.exp (-energies.getD i 0 / (kB * T)))⁻¹
      • ∑ i ∈ range m, Real.exp (-energies.getD i 0 / (kB * T)) • x i := by
  have key : ∀ {E : Type} [AddCommGroup E] (f : ℕ → E),
      (∑ i ∈ range energies.length, if energies.getD i 0 - e0 < window then f i else 0) = ∑ i ∈ range m, f i := by
    intro E _ f
    rw [← sum_filter]
    refine sum_congr ?_ fun _ _ => rfl
    ext i
    rw [mem_filter, mem_range, mem_range]
    refine ⟨fun h1 => (h i h1.1).1 h1.2, fun h1 => ⟨by omega, (h i (by omega)).2 h1⟩⟩
  unfold thermalMean
  simp only [key]

section
variable {n : ℕ} {m : ℕ} {U : ℕ → ℕ → ℂ} (hU : ∀ j < m, ∀ k < m, ∑ i ∈ range m, star (U i j) * U i k = if j = k then 1 else 0)
  {wt : ℕ → ℝ} (hwt : ∀ i < m, ∀ j < m, U i j ≠ 0 → wt i = wt j) {v v' : ℕ → Vec ℂ} {R R' : Vec ℂ → Vec ℂ} (hA : IsAnti n R R')
  (hv : ∀ i < m, R (v i) = mix m U v' i)

include hU hwt hA hv in
/-- Sums of inner products in states that an antiunitary map maps to superpositions of other states. -/
theorem trace_anti {A B A' B' : Vec ℂ → Vec ℂ} (hA' : IsLinearMap ℂ A') (hB' : IsLinearMap ℂ B') {c d : ℂ}
    (h1 : ∀ v, R (A v) = c • A' (R v)) (h2 : ∀ v, R (B v) = d • B' (R v)) :
    star (∑ i ∈ range m, (wt i : ℂ) * innerProduct n (A (v i)) (B (v i)))
      = star c * d * ∑ i ∈ range m, (wt i : ℂ) * innerProduct n (A' (v' i)) (B' (v' i)) := by
  rw [← trace_mix hU (wt := fun i => (wt i : ℂ)) (fun i hi j hj h => by rw [hwt i hi j hj h]) (fun j => A' (v' j)) fun j => B' (v' j),
    star_sum, mul_sum]
  refine sum_congr rfl fun i hi => ?_
  have hi := mem_range.1 hi
  rw [star_mul', star_ofReal, ← hA.inner, h1, h2, hv i hi, linear_mix hA', linear_mix hB', innerProduct_smul_left,
    show ∀ (f g : Vec ℂ), innerProduct n f (d • g) = d * innerProduct n f g from fun f g => innerProduct_smul_right n f g d]
  ring

end

section
variable {b : ℕ → ℕ} {P : BasisParams} {π : ℕ → ℕ} {φ : ℕ → ℂ} (hR : TimeReversal b P π φ) {L L' : MainLib} {A A' : MainArgs}
  {hx hy hz : ℝ} {h0 : Op Label ℂ} {energies energies' : List ℝ} {psis psis' : List (Psi ℂ)} {S S' : SimulateArgs}
  (hrun : MainRun L A b P hx hy hz h0 energies psis S) (hrun' : MainRun L' A' b P (-hx) (-hy) (-hz) h0 energies' psis' S')
  (hgaunt : L'.gaunt = L.gaunt) (hkB : L'.kB = L.kB) (hAA : A' = { A with hField := A'.hField })
  (hinv : ∀ v, operator (labelSpec (position (pdSystem b)) h0) (reverse (nTotal (pdSystem b)) π φ v)
    = reverse (nTotal (pdSystem b)) π φ (operator (labelSpec (position (pdSystem b)) h0) v))
  (hG : GauntSymmetric L.gaunt)

include hR hrun hrun' hgaunt hAA hinv hG in
/-- Time reversal maps the Hamiltonian to the one with the opposite field. -/
theorem mainRun_reverse (v : Vec ℂ) (F : Finset ℕ) : operator (opSpec S'.hOp) (reverse (nTotal (pdSystem b)) π φ v) F
    = reverse (nTotal (pdSystem b)) π φ (operator (opSpec S.hOp) v) F := by
  have e : operator (opSpec S.hOp) v = pdHamiltonian L.gaunt (position (pdSystem b)) A (P.n0 2) hx hy hz h0 v :=
    funext fun F => hrun.hamiltonian v F
  rw [hrun'.hamiltonian, e, ← pdHamiltonian_reverse_field hR hx hy hz hG hinv, hgaunt, hAA]
  rfl

open Classical in
/-- The product states with allowed occupations. -/
abbrev allowedStates (b : ℕ → ℕ) (P : BasisParams) : Finset (Finset ℕ) :=
  {F ∈ (range (nTotal (pdSystem b))).powerset | IsConfiguration [(1, b 1), (2, b 2)] (pdSystem b) P F}

open Classical in
theorem allowedStates_sub (b : ℕ → ℕ) (P : BasisParams) : ∀ F ∈ allowedStates b P, F ⊆ range (nTotal (pdSystem b)) :=
  fun _ hF => Finset.mem_powerset.1 (Finset.mem_filter.1 hF).1

open Classical in
include hR in
theorem allowedStates_partner : ∀ F ∈ allowedStates b P, F.image π ∈ allowedStates b P := by
  intro F hF
  rw [mem_filter, mem_powerset] at hF ⊢
  exact ⟨image_subset' hR.partner hF.1, partner_configuration hR hF.1 hF.2⟩

include hR hrun hrun' hgaunt hkB hAA hinv hG in
/-- The opposite field has the same energies. -/
theorem reversed_energies : energies' = energies ∧ S'.es = S.es := by
  classical
  have hlow : LowestStates (nTotal (pdSystem b)) S.hOp 1e-12 1e-7 (allowedStates b P) energies psis := by convert hrun.lowest
  have hlow' : LowestStates (nTotal (pdSystem b)) S'.hOp 1e-12 1e-7 (allowedStates b P) energies' psis' := by convert hrun'.lowest
  have hherm := storedElement_hermitian hrun'.dict.1 hrun'.inside hrun'.dict.2 (1e-12 : ℝ) (s := allowedStates b P) (allowedStates_sub b P)
  have hlen : energies'.length = energies.length := by
    rw [hrun'.count, hrun.count, hAA]
  have hE : energies' = energies := by
    obtain ⟨x, h1⟩ := lowestIn_of hlow
    obtain ⟨x', h2⟩ := lowestIn_of hlow'
    have h1 := reverse_lowest hR.partner hR.unit (fun v F _ => mainRun_reverse hR hrun hrun' hgaunt hAA hinv hG v F)
      (allowedStates_sub b P) (allowedStates_partner hR) h1
    refine List.ext_getElem hlen fun i hi hi' => ?_
    exact le_antisymm (h1.antitone h2 (fun _ h => h) hherm i hi' hi) (h2.antitone h1 (fun _ h => h) hherm i hi hi')
  refine ⟨hE, ?_⟩
  have hsort := hrun.lowest.1
  obtain ⟨e0, rest, hE0⟩ := List.exists_cons_of_ne_nil hrun.nonempty.1
  have hmem : e0 ∈ energies := by rw [hE0]; exact List.mem_cons_self
  have hmin : ∀ e ∈ energies, e0 ≤ e := by
    rw [hE0] at hsort ⊢
    intro e he
    rcases List.mem_cons.1 he with rfl | he
    · exact le_rfl
    · exact (List.pairwise_cons.1 hsort).1 e he
  have e1 := kept_filter hrun.lowest.2.1 hrun.kept.1 (hrun.kept.2 e0 hmem hmin)
  have e2 := kept_filter hrun'.lowest.2.1 hrun'.kept.1 (hrun'.kept.2 e0 (by rw [hE]; exact hmem) (by rw [hE]; exact hmin))
  rw [e2, e1, hE, hkB, hAA]

include hR hrun hrun' hgaunt hAA hinv hG in
/-- Time reversal maps the first states, up to a gap, to superpositions of those with the opposite field. -/
theorem mainRun_mapped (hE : energies' = energies) {m : ℕ} (hlt : m < energies.length)
    (hgap : ∀ i (_ : i < m), energies[i] < energies[m])
    (hn : ∀ i < m, ∑ F ∈ (range (nTotal (pdSystem b))).powerset,
      Complex.normSq (ampl (nTotal (pdSystem b)) (psis.getD i []) F) = 1)
    (hn' : ∀ i < m, ∑ F ∈ (range (nTotal (pdSystem b))).powerset,
      Complex.normSq (ampl (nTotal (pdSystem b)) (psis'.getD i []) F) = 1) :
    ∃ U : ℕ → ℕ → ℂ,
      (∀ j < m, ∀ k < m, ∑ i ∈ range m, star (U i j) * U i k = if j = k then 1 else 0) ∧
      (∀ i < m, ∀ j < m, energies.getD i 0 ≠ energies.getD j 0 → U i j = 0) ∧
      ∀ i < m, reverse (nTotal (pdSystem b)) π φ (ampl (nTotal (pdSystem b)) (psis.getD i []))
        = mix m U (fun j => ampl (nTotal (pdSystem b)) (psis'.getD j [])) i := by
  classical
  have hst := allowedStates_sub b P
  have hπ := allowedStates_partner hR
  obtain ⟨U, h1, h2, h3⟩ := lowest_mapped (weight := 1e-7) (R := reverse (nTotal (pdSystem b)) π φ) hst
    (storedElement_hermitian hrun'.dict.1 hrun'.inside hrun'.dict.2 1e-12 hst)
    (fun x hx => reverse_lowest hR.partner hR.unit (fun v F _ => mainRun_reverse hR hrun hrun' hgaunt hAA hinv hG v F) hst hπ hx)
    (fun v w h F hF => by
      rw [reverse_apply hR.partner hR.unit _ (hst F hF), reverse_apply hR.partner hR.unit _ (hst F hF), h _ (hπ F hF)])
    (fun v h F hF => by
      by_cases hF' : F ⊆ range (nTotal (pdSystem b))
      · rw [reverse_apply hR.partner hR.unit _ hF', h _ fun hc => hF ?_, star_zero, mul_zero]
        have := hπ _ hc
        rwa [image_image' hR.partner hF'] at this
      · exact reverse_outside _ hF')
    (by convert hrun.lowest) (by rw [← hE]; convert hrun'.lowest) hlt hgap hn hn'
  exact ⟨U, h1, h2, fun i hi => funext (h3 i hi)⟩

include hR hrun in
theorem excited_reverse {F : Finset ℕ} (hF : F ⊆ range (nTotal (pdSystem b))) :
    AllowedOpt S.restrictions (F.image π) ↔ AllowedOpt S.restrictions F := by
  obtain ⟨r, hr, hall⟩ := hrun.excited
  obtain ⟨c1, c2, c3⟩ := partner_cards hR (l := 2) (by simp) hF
  rw [hr]
  show Allowed r _ ↔ Allowed r _
  rw [hall, hall, c1, c2, c3]

include hrun hrun' in
theorem excited_same (F : Finset ℕ) : AllowedOpt S'.restrictions F ↔ AllowedOpt S.restrictions F := by
  obtain ⟨r, hr, hall⟩ := hrun.excited
  obtain ⟨r', hr', hall'⟩ := hrun'.excited
  rw [hr, hr']
  show Allowed r' _ ↔ Allowed r _
  rw [hall, hall']

include hrun hrun' hR in
/-- Time reversal of an excited state. -/
theorem reverse_restrict {T T' : Vec ℂ → Vec ℂ} {c : ℂ} (hc : star c * c = 1)
    (hT : ∀ v, reverse (nTotal (pdSystem b)) π φ (T v) = c • T' (reverse (nTotal (pdSystem b)) π φ v)) (v : Vec ℂ) :
    (fun F => if F ⊆ range (nTotal (pdSystem b)) ∧ AllowedOpt S'.restrictions F
      then T' (reverse (nTotal (pdSystem b)) π φ v) F else 0)
      = star c • reverse (nTotal (pdSystem b)) π φ fun F =>
        if F ⊆ range (nTotal (pdSystem b)) ∧ AllowedOpt S.restrictions F then T v F else 0 := by
  funext F
  rw [Pi.smul_apply, smul_eq_mul]
  simp only [excited_same hrun hrun']
  by_cases hF : F ⊆ range (nTotal (pdSystem b))
  · have hF' := image_subset' hR.partner hF
    have h := congrFun (hT v) F
    rw [Pi.smul_apply, smul_eq_mul, reverse_apply hR.partner hR.unit _ hF] at h
    rw [reverse_apply hR.partner hR.unit _ hF]
    by_cases h1 : AllowedOpt S.restrictions F
    · rw [if_pos ⟨hF, h1⟩, if_pos ⟨hF', (excited_reverse hR hrun hF).2 h1⟩, h, ← mul_assoc, hc, one_mul]
    · rw [if_neg fun e => h1 e.2, if_neg fun e => h1 ((excited_reverse hR hrun hF).1 e.2), star_zero, mul_zero, mul_zero]
  · rw [if_neg fun e => hF e.1, reverse_outside _ hF, mul_zero]

include hR hrun hrun' hgaunt hkB hAA hinv hG in
/-- The averages of the responses to two operators that time reversal maps to each other, in opposite fields. -/
theorem reverse_response (hlt : S.es.length < energies.length)
    (hnorm : ∀ psi ∈ S.psis, ∑ F ∈ (range (size S)).powerset, Complex.normSq (ampl (size S) psi F) = 1)
    (hnorm' : ∀ psi ∈ S'.psis, ∑ F ∈ (range (size S')).powerset, Complex.normSq (ampl (size S') psi F) = 1)
    {T T' : Vec ℂ → Vec ℂ} {c : ℂ} (hc : star c * c = 1) (hT' : IsLinearMap ℂ T')
    (hTT : ∀ v, reverse (nTotal (pdSystem b)) π φ (T v) = c • T' (reverse (nTotal (pdSystem b)) π φ v))
    (hr : Resolved S T) (hr' : Resolved S' T') {z : ℂ} (hz : z.im ≠ 0) {g g' : ℕ → ℂ}
    (hg : ∀ i < S.es.length, IsResponse S T i z (g i)) (hg' : ∀ i < S.es.length, IsResponse S' T' i z (g' i)) :
    ∑ i ∈ range S.es.length, (Real.exp (-S.es.getD i 0 / (S.kB * S.T)) : ℂ) * g' i
      = ∑ i ∈ range S.es.length, (Real.exp (-S.es.getD i 0 / (S.kB * S.T)) : ℂ) * g i := by
  obtain ⟨hE, hes'⟩ := reversed_energies hR hrun hrun' hgaunt hkB hAA hinv hG
  have hsz : size S = nTotal (pdSystem b) := by unfold size; rw [hrun.system]; rfl
  have hsz' : size S' = nTotal (pdSystem b) := by unfold size; rw [hrun'.system]; rfl
  obtain ⟨k1, k2, k3⟩ := mainRun_kept hrun
  obtain ⟨-, k2', -⟩ := mainRun_kept hrun'
  rw [hes'] at k2'
  have hψ : ∀ i < S.es.length, S.psis.getD i [] = psis.getD i [] := by
    intro i hi
    rw [k2, List.getD_eq_getElem?_getD, List.getD_eq_getElem?_getD, List.getElem?_take_of_lt hi]
  have hψ' : ∀ i < S.es.length, S'.psis.getD i [] = psis'.getD i [] := by
    intro i hi
    rw [k2', List.getD_eq_getElem?_getD, List.getD_eq_getElem?_getD, List.getElem?_take_of_lt hi]
  have hes : ∀ i < S.es.length, S.es.getD i 0 = energies.getD i 0 := by
    intro i hi
    rw [k1, List.getD_eq_getElem?_getD, List.getD_eq_getElem?_getD, List.getElem?_take_of_lt hi]
  obtain ⟨U, hU, hU0, hv⟩ := mainRun_mapped hR hrun hrun' hgaunt hAA hinv hG hE hlt (k3 hlt) (fun i hi => by
    rw [← hψ i hi, ← hsz]
    refine hnorm _ ?_
    rw [List.getD_eq_getElem _ _ (by rw [hrun.kept.1]; exact hi)]
    exact List.getElem_mem _) (fun i hi => by
    rw [← hψ' i hi, ← hsz']
    refine hnorm' _ ?_
    rw [List.getD_eq_getElem _ _ (by rw [hrun'.kept.1, hes']; exact hi)]
    exact List.getElem_mem _)
  have hU0' : ∀ i < S.es.length, ∀ j < S.es.length, S.es.getD i 0 ≠ S.es.getD j 0 → U i j = 0 := fun i hi j hj h =>
    hU0 i hi j hj (by rwa [← hes i hi, ← hes j hj])
  have hv' : ∀ i < S.es.length, ∀ F, reverse (nTotal (pdSystem b)) π φ (ampl (size S) (S.psis.getD i [])) F
      = ∑ j ∈ range S.es.length, U i j * ampl (size S) (S'.psis.getD j []) F := by
    intro i hi F
    rw [hψ i hi, hsz, hv i hi]
    exact sum_congr rfl fun j hj => by rw [hψ' j (mem_range.1 hj)]
  have hcut : S'.cut = S.cut := by rw [hrun.args.cutoffs.2.2, hrun'.args.cutoffs.2.2]
  have hcomm : ∀ v, ∀ F ⊆ range (size S), hamilton S (reverse' (nTotal (pdSystem b)) π φ v) F
      = reverse' (nTotal (pdSystem b)) π φ (hamilton S' v) F := by
    intro v F hF
    have h1 : hamilton S' v = Spec.hamiltonian (nTotal (pdSystem b)) S'.hOp S.cut S.restrictions v := by
      unfold hamilton
      rw [hsz', hcut]
      funext G
      unfold Spec.hamiltonian column
      simp only [excited_same hrun hrun']
    rw [h1]
    unfold hamilton
    rw [hsz] at hF ⊢
    exact hamiltonian_reverse' hR.partner hR.unit (fun v F _ => mainRun_reverse hR hrun hrun' hgaunt hAA hinv hG v F) S.cut
      (fun F hF => excited_reverse hR hrun hF) v F hF
  have hanti : IsAnti (size S) (reverse (nTotal (pdSystem b)) π φ) (reverse' (nTotal (pdSystem b)) π φ) := by
    rw [hsz]
    exact reverse_anti hR.partner hR.unit
  refine response_anti (hsz'.trans hsz.symm) hes' hrun.dict.1 (by rw [hsz]; exact hrun.inside) hrun.dict.2 hanti hcomm hU hU0' hv' hT'
    (c := star c) (by rw [star_star, mul_comm]; exact hc) (fun v => ?_) (fun i hi => (hr i hi).1)
    (fun i hi => by rw [hsz, ← hsz']; exact (hr' i (by rw [hes']; exact hi)).1)
    (fun e => (Real.exp (-e / (S.kB * S.T)) : ℂ)) hz hg hg'
  rw [hsz]
  exact reverse_restrict hR hrun hrun' hc hTT v

end

/-- The occupations in a row of the table. -/
theorem row_occ {n : ℕ} {f : Label → ℕ} {v : Vec ℂ} {row : ExpRow} (h : RowMeans n f v row) :
    row.occ.getD 0 0 = ((realOccupation n f v 0 0 : ℝ) : ℂ) + (realOccupation n f v 0 1 : ℝ) ∧
    row.occ.getD 1 0 = ((realOccupation n f v 1 0 : ℝ) : ℂ) + (realOccupation n f v 1 1 : ℝ) ∧
    row.occ.getD 2 0 = ((realOccupation n f v 0 2 : ℝ) : ℂ) + (realOccupation n f v 0 3 : ℝ) + (realOccupation n f v 0 4 : ℝ) ∧
    row.occ.getD 3 0 = ((realOccupation n f v 1 2 : ℝ) : ℂ) + (realOccupation n f v 1 3 : ℝ) + (realOccupation n f v 1 4 : ℝ) := by
  rw [h.occ]
  refine ⟨?_, ?_, ?_, ?_⟩ <;> simp [List.getD]

theorem annihilateReal_linear (f : Label → ℕ) (s : ℤ) (i : ℕ) : IsLinearMap ℂ (annihilateReal f s i) := by
  constructor
  · intro v w
    funext F
    unfold annihilateReal annihilateIn
    simp only [(annihilate_linear _).map_add, Pi.add_apply, mul_add, sum_add_distrib]
  · intro c v
    funext F
    unfold annihilateReal annihilateIn
    simp only [(annihilate_linear _).map_smul, Pi.smul_apply, smul_eq_mul, mul_sum]
    exact sum_congr rfl fun _ _ => by ring

theorem oneBody_isLinear (f : Label → ℕ) (l : ℕ) (M : ℤ × ℤ → ℤ × ℤ → ℂ) : IsLinearMap ℂ (oneBody f l M) := by
  constructor
  · intro v w
    funext F
    unfold oneBody
    simp only [(annihilate_linear _).map_add, (create_linear _).map_add, Pi.add_apply, mul_add, sum_add_distrib]
  · intro c v
    funext F
    unfold oneBody
    simp only [(annihilate_linear _).map_smul, (create_linear _).map_smul, Pi.smul_apply, smul_eq_mul, mul_sum]
    exact sum_congr rfl fun _ _ => by ring

theorem shellNumber_isLinear (f : Label → ℕ) (l : ℕ) : IsLinearMap ℂ (shellNumber f l) := by
  constructor
  · intro v w
    funext F
    unfold shellNumber
    simp only [(annihilate_linear _).map_add, (create_linear _).map_add, Pi.add_apply, sum_add_distrib]
  · intro c v
    funext F
    unfold shellNumber
    simp only [(annihilate_linear _).map_smul, (create_linear _).map_smul, Pi.smul_apply, smul_eq_mul, mul_sum]

section
variable {b : ℕ → ℕ} {P : BasisParams} {π : ℕ → ℕ} {φ : ℕ → ℂ} (hR : TimeReversal b P π φ) {m : ℕ} {U : ℕ → ℕ → ℂ}
  (hU : ∀ j < m, ∀ k < m, ∑ i ∈ range m, star (U i j) * U i k = if j = k then 1 else 0)
  {wt : ℕ → ℝ} (hwt : ∀ i < m, ∀ j < m, U i j ≠ 0 → wt i = wt j) {v v' : ℕ → Vec ℂ}
  (hv : ∀ i < m, reverse (nTotal (pdSystem b)) π φ (v i) = mix m U v' i)

include hR hU hwt hv in
/-- Sums of expectation values of operators that change sign. -/
theorem odd_trace {M : ℤ × ℤ → ℤ × ℤ → ℂ} (hM : ∀ x ∈ shell 2, ∀ y ∈ shell 2, flipMatrix M x y = -M x y) {r r' : ℕ → ℝ}
    (hr : ∀ i < m, (r i : ℂ) = expect (nTotal (pdSystem b)) (oneBody (position (pdSystem b)) 2 M) (v i))
    (hr' : ∀ i < m, (r' i : ℂ) = expect (nTotal (pdSystem b)) (oneBody (position (pdSystem b)) 2 M) (v' i)) :
    ∑ i ∈ range m, wt i * r i = -∑ i ∈ range m, wt i * r' i := by
  have e : ∀ (v : ℕ → Vec ℂ) (r : ℕ → ℝ), (∀ i < m, (r i : ℂ) = expect (nTotal (pdSystem b)) (oneBody (position (pdSystem b)) 2 M) (v i)) →
      ((∑ i ∈ range m, wt i * r i : ℝ) : ℂ)
      = ∑ i ∈ range m, (wt i : ℂ) * innerProduct (nTotal (pdSystem b)) (id (v i)) (oneBody (position (pdSystem b)) 2 M (v i)) := by
    intro v r hr
    rw [Complex.ofReal_sum]
    refine sum_congr rfl fun i hi => ?_
    rw [Complex.ofReal_mul, hr i (mem_range.1 hi)]
    rfl
  have h := trace_anti hU hwt (reverse_anti hR.partner hR.unit) hv (A := id) (A' := id)
    (B := oneBody (position (pdSystem b)) 2 M) (B' := oneBody (position (pdSystem b)) 2 M) (c := 1) (d := -1)
    ⟨fun _ _ => rfl, fun _ _ => rfl⟩ (oneBody_isLinear _ _ _) (fun w => (one_smul ℂ _).symm) fun w => by
      rw [reverse_oneBody hR (by simp), oneBody_shell hM]
      funext F
      unfold oneBody
      rw [Pi.smul_apply, smul_eq_mul, mul_sum]
      exact sum_congr rfl fun _ _ => by ring
  rw [← e v r hr, ← e v' r' hr', star_ofReal, star_one] at h
  have h2 : ((∑ i ∈ range m, wt i * r i : ℝ) : ℂ) = ((-∑ i ∈ range m, wt i * r' i : ℝ) : ℂ) := by
    rw [Complex.ofReal_neg]
    linear_combination h
  exact_mod_cast h2

include hR hU hwt hv in
/-- Opposite spins have the same sum of occupations. -/
theorem occ_trace {s : ℤ} (hs : s ∈ ({0, 1} : Finset ℤ)) {i : ℕ} (hi : i < 5) :
    ∑ k ∈ range m, (wt k : ℂ) * (realOccupation (nTotal (pdSystem b)) (position (pdSystem b)) (v k) s i : ℝ)
      = ∑ k ∈ range m, (wt k : ℂ) * (realOccupation (nTotal (pdSystem b)) (position (pdSystem b)) (v' k) (1 - s) i : ℝ) := by
  have h := trace_anti hU hwt (reverse_anti hR.partner hR.unit) hv (A := annihilateReal (position (pdSystem b)) s i)
    (B := annihilateReal (position (pdSystem b)) s i) (A' := annihilateReal (position (pdSystem b)) (1 - s) i)
    (B' := annihilateReal (position (pdSystem b)) (1 - s) i) (annihilateReal_linear _ _ _) (annihilateReal_linear _ _ _)
    (fun w => reverse_real hR hs hi w) (fun w => reverse_real hR hs hi w)
  simp only [innerProduct_self] at h
  rw [star_sum, star_neg_one_zpow, ← zpow_add₀ (by norm_num : (-1 : ℂ) ≠ 0), neg_one_zpow_even (by omega), one_mul] at h
  simp only [star_mul', star_ofReal] at h
  exact h

include hR hU hwt hv in
/-- The sums of the numbers of d electrons. -/
theorem number_trace {r r' : ℕ → ℝ}
    (hr : ∀ i < m, (r i : ℂ) = expect (nTotal (pdSystem b)) (shellNumber (position (pdSystem b)) 2) (v i))
    (hr' : ∀ i < m, (r' i : ℂ) = expect (nTotal (pdSystem b)) (shellNumber (position (pdSystem b)) 2) (v' i)) :
    ∑ i ∈ range m, wt i * r i = ∑ i ∈ range m, wt i * r' i := by
  have e : ∀ (v : ℕ → Vec ℂ) (r : ℕ → ℝ),
      (∀ i < m, (r i : ℂ) = expect (nTotal (pdSystem b)) (shellNumber (position (pdSystem b)) 2) (v i)) →
      ((∑ i ∈ range m, wt i * r i : ℝ) : ℂ)
      = ∑ i ∈ range m, (wt i : ℂ) * innerProduct (nTotal (pdSystem b)) (id (v i)) (shellNumber (position (pdSystem b)) 2 (v i)) := by
    intro v r hr
    rw [Complex.ofReal_sum]
    refine sum_congr rfl fun i hi => ?_
    rw [Complex.ofReal_mul, hr i (mem_range.1 hi)]
    rfl
  have h := trace_anti hU hwt (reverse_anti hR.partner hR.unit) hv (A := id) (A' := id)
    (B := shellNumber (position (pdSystem b)) 2) (B' := shellNumber (position (pdSystem b)) 2) (c := 1) (d := 1)
    ⟨fun _ _ => rfl, fun _ _ => rfl⟩ (shellNumber_isLinear _ _) (fun w => (one_smul ℂ _).symm) fun w => by
      rw [reverse_shellNumber hR (by simp), one_smul]
  rw [← e v r hr, ← e v' r' hr', star_ofReal, star_one, one_mul, one_mul] at h
  exact_mod_cast h

end

/-- Both averages agree if the weighted sums do. -/
theorem mean_congr {kB T window e0 : ℝ} {energies : List ℝ} {m : ℕ} (hm : m < energies.length)
    (h : ∀ i < energies.length, (energies.getD i 0 - e0 < window ↔ i < m)) {x y : ℕ → ℂ}
    (hxy : ∑ i ∈ range m, (Real.exp (-energies.getD i 0 / (kB * T)) : ℂ) * x i
      = ∑ i ∈ range m, (Real.exp (-energies.getD i 0 / (kB * T)) : ℂ) * y i) :
    thermalMean kB T window e0 energies x = thermalMean kB T window e0 energies y := by
  rw [thermalMean_prefix hm h, thermalMean_prefix hm h]
  congr 1

/-- The printed averages of two runs, if time reversal maps the states in the averages of one run to superpositions of those of
the other. -/
theorem reversed_means {b : ℕ → ℕ} {P : BasisParams} {π : ℕ → ℕ} {φ : ℕ → ℂ} (hR : TimeReversal b P π φ) {kB e0 : ℝ}
    {energies : List ℝ} {psis psis' : List (Psi ℂ)} {thermal thermal' : ThermalValues} {rows rows' : List ExpRow}
    (hpm : PrintedMeans kB (nTotal (pdSystem b)) (position (pdSystem b)) energies psis thermal e0 rows)
    (hpm' : PrintedMeans kB (nTotal (pdSystem b)) (position (pdSystem b)) energies psis' thermal' e0 rows') {m : ℕ}
    (hm : m < energies.length) (hiff : ∀ i < energies.length, (energies.getD i 0 - e0 < 10 * kB * 300 ↔ i < m)) {U : ℕ → ℕ → ℂ}
    (hU : ∀ j < m, ∀ k < m, ∑ i ∈ range m, star (U i j) * U i k = if j = k then 1 else 0)
    (hU0 : ∀ i < m, ∀ j < m, energies.getD i 0 ≠ energies.getD j 0 → U i j = 0)
    (hv : ∀ i < m, reverse (nTotal (pdSystem b)) π φ (ampl (nTotal (pdSystem b)) (psis.getD i []))
      = mix m U (fun j => ampl (nTotal (pdSystem b)) (psis'.getD j [])) i) :
    thermal.lz = -thermal'.lz ∧ thermal.sz = -thermal'.sz ∧ thermal.n3d = thermal'.n3d ∧
    thermal.occ 0 = thermal'.occ 1 ∧ thermal.occ 1 = thermal'.occ 0 ∧ thermal.occ 2 = thermal'.occ 3 ∧
    thermal.occ 3 = thermal'.occ 2 := by
  have hwt : ∀ i < m, ∀ j < m, U i j ≠ 0 → Real.exp (-energies.getD i 0 / (kB * 300))
      = Real.exp (-energies.getD j 0 / (kB * 300)) := by
    intro i hi j hj hne
    by_cases he : energies.getD i 0 = energies.getD j 0
    · rw [he]
    · exact absurd (hU0 i hi j hj he) hne
  have hget : ∀ {β : Type} (rows : List ExpRow) (g : ExpRow → β) (d : β) i (hi : i < rows.length),
      (rows.map g).getD i d = g rows[i] := by
    intro β rows g d i hi
    rw [List.getD_eq_getElem _ _ (by rw [List.length_map]; exact hi), List.getElem_map]
  have hsum : ∀ {psis : List (Psi ℂ)} {thermal : ThermalValues} {rows : List ExpRow},
      PrintedMeans kB (nTotal (pdSystem b)) (position (pdSystem b)) energies psis thermal e0 rows →
      ∀ (k : ℕ) (g : ℕ → ℂ), (∀ i (hi : i < rows.length),
      RowMeans (nTotal (pdSystem b)) (position (pdSystem b)) (ampl (nTotal (pdSystem b)) (psis.getD i [])) rows[i] →
        rows[i].occ.getD k 0 = g i) →
      ∑ i ∈ range m, (Real.exp (-energies.getD i 0 / (kB * 300)) : ℂ) * (rows.map fun r => r.occ.getD k 0).getD i 0
        = ∑ i ∈ range m, (Real.exp (-energies.getD i 0 / (kB * 300)) : ℂ) * g i := by
    intro psis thermal rows hpm k g hg
    refine sum_congr rfl fun i hi => ?_
    have hi' : i < rows.length := by rw [hpm.count]; exact (mem_range.1 hi).trans hm
    rw [hget _ _ _ i hi', hg i hi' (hpm.table i hi').2]
  have hrow : ∀ {psis : List (Psi ℂ)} {thermal : ThermalValues} {rows : List ExpRow},
      PrintedMeans kB (nTotal (pdSystem b)) (position (pdSystem b)) energies psis thermal e0 rows → ∀ (g : ExpRow → ℝ)
      (Q : Vec ℂ → ℂ), (∀ v row, RowMeans (nTotal (pdSystem b)) (position (pdSystem b)) v row → (g row : ℂ) = Q v) →
      ∀ i < m, (((rows.map g).getD i 0 : ℝ) : ℂ) = Q (ampl (nTotal (pdSystem b)) (psis.getD i [])) := by
    intro psis thermal rows hpm g Q hQ i hi
    have hi' : i < rows.length := by rw [hpm.count]; exact hi.trans hm
    rw [hget _ _ _ i hi']
    exact hQ _ _ (hpm.table i hi').2
  have hocc0 : ∀ i < 5, _ := fun i hi => occ_trace hR hU hwt hv (s := 0) (by simp) hi
  have hocc1 : ∀ i < 5, _ := fun i hi => occ_trace hR hU hwt hv (s := 1) (by simp) hi
  simp only [sub_zero, sub_self] at hocc0 hocc1
  refine ⟨?_, ?_, ?_, ?_, ?_, ?_, ?_⟩
  · rw [hpm.lz, hpm'.lz, thermalMean_prefix hm hiff, thermalMean_prefix hm hiff]
    simp only [smul_eq_mul]
    rw [odd_trace hR hU hwt hv (fun x _ y _ => orbZ_flip x y) (hrow hpm _ _ fun v row h => h.lz) (hrow hpm' _ _ fun v row h => h.lz),
      mul_neg]
  · rw [hpm.sz, hpm'.sz, thermalMean_prefix hm hiff, thermalMean_prefix hm hiff]
    simp only [smul_eq_mul]
    rw [odd_trace hR hU hwt hv (fun x hx y hy => spinZ_flip (shell_spin hx) (shell_spin hy)) (hrow hpm _ _ fun v row h => h.sz)
      (hrow hpm' _ _ fun v row h => h.sz), mul_neg]
  · rw [hpm.n3d, hpm'.n3d, thermalMean_prefix hm hiff, thermalMean_prefix hm hiff]
    simp only [smul_eq_mul]
    rw [number_trace hR hU hwt hv (hrow hpm _ _ fun v row h => h.n3d) (hrow hpm' _ _ fun v row h => h.n3d)]
  · rw [hpm.occ, hpm'.occ]
    refine mean_congr hm hiff ?_
    rw [hsum hpm 0 _ fun i hi h => (row_occ h).1, hsum hpm' 1 _ fun i hi h => (row_occ h).2.1]
    simp only [mul_add, sum_add_distrib]
    rw [hocc0 0 (by norm_num), hocc0 1 (by norm_num)]
  · rw [hpm.occ, hpm'.occ]
    refine mean_congr hm hiff ?_
    rw [hsum hpm 1 _ fun i hi h => (row_occ h).2.1, hsum hpm' 0 _ fun i hi h => (row_occ h).1]
    simp only [mul_add, sum_add_distrib]
    rw [hocc1 0 (by norm_num), hocc1 1 (by norm_num)]
  · rw [hpm.occ, hpm'.occ]
    refine mean_congr hm hiff ?_
    rw [hsum hpm 2 _ fun i hi h => (row_occ h).2.2.1, hsum hpm' 3 _ fun i hi h => (row_occ h).2.2.2]
    simp only [mul_add, sum_add_distrib]
    rw [hocc0 2 (by norm_num), hocc0 3 (by norm_num), hocc0 4 (by norm_num)]
  · rw [hpm.occ, hpm'.occ]
    refine mean_congr hm hiff ?_
    rw [hsum hpm 3 _ fun i hi h => (row_occ h).2.2.2, hsum hpm' 2 _ fun i hi h => (row_occ h).2.2.1]
    simp only [mul_add, sum_add_distrib]
    rw [hocc1 2 (by norm_num), hocc1 3 (by norm_num), hocc1 4 (by norm_num)]

section
variable {L : MainLib} {A : MainArgs} (hA : A.Valid) (hG : GauntLarge L.gaunt A.ls) {N : ℕ}
  (hN : 0 < N)
  {ord : Fin N → ℕ → ℕ → ℕ → SetOrders} (hord : ∀ k c t i, (ord k c t i).Valid)
  {ordRixs : Fin N → List ℕ → SetOrders} (hordR : ∀ k l, (ordRixs k l).Valid) {out : Fin N → Option MainOutput}
  (hfin : CanFinish msgSum (fun k : Fin N => mainRank L A (ord k) (ordRixs k) k.val N) out)
  {o : MainOutput} (ho : out ⟨0, hN⟩ = some o) (hL : SolverCorrect L.solver)

include hA hG hord hordR hfin ho hL in
/-- C78.  A finished run of main without a magnetic field, with a non-interacting operator that is invariant under
time reversal, for some partners of the bath states.  If the states in the printed averages do not reach the end of
the list and are normalised, then the averages of `Lz` and `Sz` are zero, and both spins have the same occupation of the
e_g and of the t_2g orbitals. -/
theorem C78_printed {b : ℕ → ℕ} {P : BasisParams} {h0 : Op Label ℂ} (hD : Documented A b P 0 0 0 h0)
    (hGs : GauntSymmetric L.gaunt) :
    ∃ psis S, MainRun L A b P 0 0 0 h0 o.energies psis S ∧
      PrintedMeans L.kB (nTotal (pdSystem b)) (position (pdSystem b)) o.energies psis o.thermal o.expValues.1 o.expValues.2 ∧
      ∀ π φ, TimeReversal b P π φ →
        (∀ v, operator (labelSpec (position (pdSystem b)) h0) (reverse (nTotal (pdSystem b)) π φ v)
          = reverse (nTotal (pdSystem b)) π φ (operator (labelSpec (position (pdSystem b)) h0) v)) →
        (∃ e ∈ o.energies, 10 * L.kB * 300 ≤ e - o.expValues.1) →
        (∀ i < o.energies.length, o.energies.getD i 0 - o.expValues.1 < 10 * L.kB * 300 →
          ∑ F ∈ (range (nTotal (pdSystem b))).powerset, Complex.normSq (ampl (nTotal (pdSystem b)) (psis.getD i []) F) = 1) →
        o.thermal.lz = 0 ∧ o.thermal.sz = 0 ∧ o.thermal.occ 0 = o.thermal.occ 1 ∧ o.thermal.occ 2 = o.thermal.occ 3 := by
  obtain ⟨psis, S, hrun, -, hpm, -⟩ := printed_run hA hG hN hord hordR hfin ho hL hD
  refine ⟨psis, S, hrun, hpm, fun π φ hR hinv hgap hnorm => ?_⟩
  obtain ⟨m, hm, hiff, hlt⟩ := window_prefix hrun.lowest.1 o.expValues.1 (10 * L.kB * 300) hgap
  obtain ⟨U, hU, hU0, hv⟩ := mainRun_mapped hR hrun (by rw [neg_zero]; exact hrun) rfl rfl hinv hGs rfl hm (hlt hm)
    (fun i hi => hnorm i (by omega) ((hiff i (by omega)).2 hi)) fun i hi => hnorm i (by omega) ((hiff i (by omega)).2 hi)
  obtain ⟨h1, h2, -, h3, -, h4, -⟩ := reversed_means hR hpm hpm hm hiff hU hU0 hv
  exact ⟨self_eq_neg.1 h1, self_eq_neg.1 h2, h3, h4⟩

include hA hG hord hordR hfin ho hL in
/-- C78.  Under the same conditions, if the energies used for the spectra do not reach the end of the list, the stored
states are normalised, and the cutoffs and the number of Lanczos vectors are harmless, then the averaged photoemission
spectra of spin-orbitals with opposite spin and orbital momentum are the same, for the d and for the p shell. -/
theorem C78_photoemission {b : ℕ → ℕ} {P : BasisParams} {h0 : Op Label ℂ} (hD : Documented A b P 0 0 0 h0)
    (hGs : GauntSymmetric L.gaunt) (hGr : GauntRules L.gaunt) (hsolve : ExactSolver L.solve) (hf : L.f32 50 = 50) :
    ∃ psis S, MainRun L A b P 0 0 0 h0 o.energies psis S ∧ PDSpectra b S o.spectra ∧
      ∀ π φ, TimeReversal b P π φ →
        (∀ v, operator (labelSpec (position (pdSystem b)) h0) (reverse (nTotal (pdSystem b)) π φ v)
          = reverse (nTotal (pdSystem b)) π φ (operator (labelSpec (position (pdSystem b)) h0) v)) →
        S.es.length < o.energies.length →
        (∀ psi ∈ S.psis, ∑ F ∈ (range (size S)).powerset, Complex.normSq (ampl (size S) psi F) = 1) →
        (∀ j < 10, ∀ k < 3000,
          (∀ j' ∈ [j, 9 - j], Resolved S (create (impStart (pdSystem b) 2 + j')) ∧
            Resolved S (annihilate (impStart (pdSystem b) 2 + j'))) →
          o.spectra.ps.thermal j k = o.spectra.ps.thermal (9 - j) k) ∧
        ∀ j < 6, ∀ k < 3000, (∀ j' ∈ [j, 5 - j], Resolved S (annihilate (impStart (pdSystem b) 1 + j'))) →
          o.spectra.xps.thermal j k = o.spectra.xps.thermal (5 - j) k := by
  obtain ⟨psis, S, hrun, -, hsp⟩ := main_spectra hA hG hN hord hordR hfin ho hL hD hGr hsolve hf
  refine ⟨psis, S, hrun, hsp, fun π φ hR hinv hlt hnorm => ?_⟩
  have hlen := hrun.args.w.1
  have hkry := hrun.args.cutoffs.1
  have hpart : ∀ i, star (star (φ i)) * star (φ i) = 1 := fun i => by
    rw [star_star, mul_comm]; exact unit_star hR.unit i
  have hx : ∀ l ∈ [1, 2], ∀ j < 2 * (2 * l + 1), impStart (pdSystem b) l + j < nTotal (pdSystem b) := by
    intro l hl j hj
    obtain ⟨h1, h2, h3⟩ := shell_position (b := b) hj
    rw [h3]
    exact shell_lt hl h1 h2
  have hδ : ∀ w : ℝ, ((w : ℂ) + Complex.I * S.delta).im ≠ 0 := by
    intro w
    rw [Complex.add_im, Complex.ofReal_im, Complex.I_mul_im, Complex.ofReal_re, zero_add, hrun.args.delta]
    exact hA.delta
  have hδ' : ∀ w : ℝ, (-((w : ℂ) + Complex.I * S.delta)).im ≠ 0 := by
    intro w
    rw [Complex.neg_im]
    exact neg_ne_zero.2 (hδ w)
  have key : ∀ (T T' : Vec ℂ → Vec ℂ) (c : ℂ), star c * c = 1 → IsLinearMap ℂ T' →
      (∀ v, reverse (nTotal (pdSystem b)) π φ (T v) = c • T' (reverse (nTotal (pdSystem b)) π φ v)) → Resolved S T → Resolved S T' →
      ∀ (z : ℂ), z.im ≠ 0 → ∀ g g' : ℕ → ℂ,
      (∀ i < S.es.length, IsResponse S T i z (g i)) → (∀ i < S.es.length, IsResponse S T' i z (g' i)) →
      ∑ i ∈ range S.es.length, (Real.exp (-S.es.getD i 0 / (S.kB * S.T)) : ℂ) * g' i
        = ∑ i ∈ range S.es.length, (Real.exp (-S.es.getD i 0 / (S.kB * S.T)) : ℂ) * g i := by
    intro T T' c hc hT' hTT hr hr' z hz g g' hg hg'
    exact reverse_response hR hrun (by rw [neg_zero]; exact hrun) rfl rfl rfl hinv hGs hlt hnorm hnorm hc hT' hTT hr hr' hz hg hg'
  obtain ⟨t1, t2, -, -⟩ := hsp.tables
  refine ⟨fun j hj k hk hres => ?_, fun j hj k hk hres => ?_⟩
  · have hk1 : k < S.w.length := by rw [hlen]; exact hk
    obtain ⟨r1, r2⟩ := hres j (by simp)
    obtain ⟨r1', r2'⟩ := hres (9 - j) (by simp)
    obtain ⟨g, hg⟩ := choose_lt fun i hi => hsp.photoemission i j k hi hj hk1 _ rfl (hkry ▸ (r1 i hi).2) (hkry ▸ (r2 i hi).2)
    obtain ⟨h, hh⟩ := choose_lt hg
    obtain ⟨g', hg'⟩ := choose_lt fun i hi => hsp.photoemission i (9 - j) k hi (by omega) hk1 _ rfl (hkry ▸ (r1' i hi).2)
      (hkry ▸ (r2' i hi).2)
    obtain ⟨h', hh'⟩ := choose_lt hg'
    have hπ := partner_shell hR (l := 2) (by simp) (j := j) (by omega)
    have hn := hx 2 (by simp) j (by omega)
    refine thermal_same (g' := fun i => g i - h i) (g := fun i => g' i - h' i) (t1.thermal (9 - j) k) (t1.thermal j k)
      (fun i hi => (hh' i hi).2.2) (fun i hi => (hh i hi).2.2) ?_
    simp only [mul_sub, sum_sub_distrib]
    rw [key _ _ _ (unit_star hR.unit _) (create_linear _)
        (fun v => by rw [reverse_create hR.partner hn, hπ]) r1 r1' _ (hδ _) g g' (fun i hi => (hh i hi).1) fun i hi => (hh' i hi).1,
      key _ _ _ (hpart _) (annihilate_linear _)
        (fun v => by rw [reverse_annihilate hR.partner hR.unit hn, hπ]) r2 r2' _ (hδ' _) h h' (fun i hi => (hh i hi).2.1)
        fun i hi => (hh' i hi).2.1]
  · have hk1 : k < S.w.length := by rw [hlen]; exact hk
    have r2 := hres j (by simp)
    have r2' := hres (5 - j) (by simp)
    obtain ⟨h, hh⟩ := choose_lt fun i hi => hsp.xps i j k hi hj hk1 _ rfl (hkry ▸ (r2 i hi).2)
    obtain ⟨h', hh'⟩ := choose_lt fun i hi => hsp.xps i (5 - j) k hi (by omega) hk1 _ rfl (hkry ▸ (r2' i hi).2)
    have hπ := partner_shell hR (l := 1) (by simp) (j := j) (by omega)
    have hn := hx 1 (by simp) j (by omega)
    refine thermal_same (g' := fun i => -h i) (g := fun i => -h' i) (t2.thermal (5 - j) k) (t2.thermal j k)
      (fun i hi => by rw [(hh' i hi).2, Complex.neg_im, neg_neg]) (fun i hi => by rw [(hh i hi).2, Complex.neg_im, neg_neg]) ?_
    simp only [mul_neg, sum_neg_distrib]
    rw [key _ _ _ (hpart _) (annihilate_linear _)
        (fun v => by rw [reverse_annihilate hR.partner hR.unit hn, hπ]) r2 r2' _ (hδ' _) h h' (fun i hi => (hh i hi).1)
        fun i hi => (hh' i hi).1]

end

/-- C78.  The non-interacting operator of every crystal-field file is invariant under time reversal, if bath states are
reversed like the d orbitals.  Without p bath states, time reversal applied twice changes the sign of each spin-orbital. -/
theorem C78_crystal_field {A : MainArgs} {b : ℕ → ℕ} {P : BasisParams} {hx hy hz : ℝ} {h0 : Op Label ℂ}
    (hD : Documented A b P hx hy hz h0) {parameters : Dict String ℝ} (hA : A.h0 = .crystalField parameters)
    (hC : CrystalFieldForm A) (hv1 : P.val 1 ≤ b 1) :
    ∃ π φ, TimeReversal b P π φ ∧
      (∀ v, operator (labelSpec (position (pdSystem b)) h0) (reverse (nTotal (pdSystem b)) π φ v)
        = reverse (nTotal (pdSystem b)) π φ (operator (labelSpec (position (pdSystem b)) h0) v)) ∧
      (b 1 = 0 → ∀ i < nTotal (pdSystem b), φ (π i) = -φ i) := by
  have hb := hC.bath
  have hv := hC.valence
  rw [hD.nBaths] at hb
  rw [hD.nValBaths] at hv
  simp only [List.getElem?_cons_succ, List.getElem?_cons_zero, Option.some.injEq] at hb hv
  refine ⟨_, _, cf_timeReversal hv hb hv1, fun v => ?_, fun h1 => cf_partner_phase h1⟩
  rcases hD.h0 with ⟨h, -⟩ | ⟨p, -, h⟩
  · rw [hA] at h
    cases h
  · exact cf_reverse hv hb hv1 h v

/-- Arguments with a crystal-field file: ten valence bath states. -/
example (T : ℝ) (parameters : Dict String ℝ) : ∃ (A : MainArgs) (b : ℕ → ℕ) (P : BasisParams) (h0 : Op Label ℂ),
    Documented A b P 0 0 0 h0 ∧ A.h0 = .crystalField parameters ∧ CrystalFieldForm A ∧ P.val 1 ≤ b 1 ∧ b 1 = 0 := by
  obtain ⟨h0, u, eg, t2g, e, -⟩ := C53_meaning (nBaths := [(1, 0), (2, 10)]) (nValBaths := [(1, 0), (2, 10)])
    (readH0CFFile parameters) 10 10 rfl rfl (Or.inl (rfl : "spherical" = "spherical"))
  refine ⟨{ holeArgs 0 T [] with h0 := .crystalField parameters, nBaths := [0, 10], nValBaths := [0, 10] },
    fun l => if l = 2 then 10 else 0, { holeParams with val := fun l => if l = 2 then 10 else 0 }, h0, ?_, rfl, ?_, le_rfl, rfl⟩
  · exact ⟨rfl, rfl, rfl, rfl, rfl, rfl, rfl, rfl, rfl, rfl, rfl, rfl, Or.inr ⟨parameters, rfl, e⟩⟩
  · exact ⟨rfl, rfl, Or.inl rfl, rfl⟩

end

end Verif
