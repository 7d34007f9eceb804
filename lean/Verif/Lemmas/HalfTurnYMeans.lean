/-
The half turn about the y axis of the printed averages.
-/
import Verif.Lemmas.HalfTurnY
import Verif.Lemmas.HalfTurnMeans

namespace Verif

open Finset Mpi Psr Spec

noncomputable section

/-- The phases of states with the same parity. -/
theorem yPhase_same {x y : ℤ × ℤ} (h : (x.2 + x.1 + (y.2 + y.1)) % 2 = 0) : yPhase x * yPhase y = 1 := by
  rw [yPhase_mul, neg_one_zpow_even h]

/-- The phases of states with different parities. -/
theorem yPhase_other {x y : ℤ × ℤ} (h : (x.2 + x.1 + (y.2 + y.1)) % 2 = 1) : yPhase x * yPhase y = -1 := by
  rw [yPhase_mul, neg_one_zpow_congr (k' := 1) (by omega), zpow_one]

theorem orbZ_halfY {x y : ℤ × ℤ} (_ : x.1 = 0 ∨ x.1 = 1) (_ : y.1 = 0 ∨ y.1 = 1) :
    yPhase x * yPhase y * orbOp lZ (flipState x) (flipState y) = -orbOp lZ x y := by
  rw [orbZ_half]
  by_cases h : x.1 = y.1 ∧ x.2 = y.2
  · rw [yPhase_same (by omega), one_mul]
  · have : orbOp lZ x y = 0 := by
      unfold orbOp lZ delta
      split_ifs <;> first | (exfalso; omega) | simp
    rw [this, neg_zero, mul_zero]

theorem spinZ_halfY {x y : ℤ × ℤ} (hx : x.1 = 0 ∨ x.1 = 1) (hy : y.1 = 0 ∨ y.1 = 1) :
    yPhase x * yPhase y * spinOp sZ (flipState x) (flipState y) = -spinOp sZ x y := by
  rw [spinZ_half hx hy]
  by_cases h : x.1 = y.1 ∧ x.2 = y.2
  · rw [yPhase_same (by omega), one_mul]
  · have : spinOp sZ x y = 0 := by
      unfold spinOp sZ delta
      split_ifs <;> first | (exfalso; omega) | simp
    rw [this, neg_zero, mul_zero]

theorem orb_ladder_halfY (l : ℕ) {x y : ℤ × ℤ} (_ : x.1 = 0 ∨ x.1 = 1) (_ : y.1 = 0 ∨ y.1 = 1) :
    yPhase x * yPhase y * orbOp (lPlus l) (flipState x) (flipState y) = -orbOp (lMinus l) x y ∧
    yPhase x * yPhase y * orbOp (lMinus l) (flipState x) (flipState y) = -orbOp (lPlus l) x y := by
  rw [(orb_ladder_half l x y).1, (orb_ladder_half l x y).2]
  by_cases h : (x.2 + x.1 + (y.2 + y.1)) % 2 = 1
  · rw [yPhase_other h, neg_one_mul, neg_one_mul]
    exact ⟨rfl, rfl⟩
  · have h1 : orbOp (lMinus l) x y = 0 := by
      unfold orbOp lMinus delta
      split_ifs <;> first | (exfalso; omega) | simp
    have h2 : orbOp (lPlus l) x y = 0 := by
      unfold orbOp lPlus delta
      split_ifs <;> first | (exfalso; omega) | simp
    rw [h1, h2, neg_zero, mul_zero]
    exact ⟨rfl, rfl⟩

theorem spin_ladder_halfY {x y : ℤ × ℤ} (_ : x.1 = 0 ∨ x.1 = 1) (_ : y.1 = 0 ∨ y.1 = 1) :
    yPhase x * yPhase y * spinOp sPlus (flipState x) (flipState y) = -spinOp sMinus x y ∧
    yPhase x * yPhase y * spinOp sMinus (flipState x) (flipState y) = -spinOp sPlus x y := by
  rw [(spin_ladder_half x y).1, (spin_ladder_half x y).2]
  by_cases h : (x.2 + x.1 + (y.2 + y.1)) % 2 = 1
  · rw [yPhase_other h, neg_one_mul, neg_one_mul]
    exact ⟨rfl, rfl⟩
  · have h1 : spinOp sMinus x y = 0 := by
      unfold spinOp sMinus delta
      split_ifs <;> first | (exfalso; omega) | simp
    have h2 : spinOp sPlus x y = 0 := by
      unfold spinOp sPlus delta
      split_ifs <;> first | (exfalso; omega) | simp
    rw [h1, h2, neg_zero, mul_zero]
    exact ⟨rfl, rfl⟩

section
variable {b : ℕ → ℕ} {P : BasisParams} {π : ℕ → ℕ} {φ : ℕ → ℂ} (hR : TimeReversal b P π φ)

include hR in
theorem halfY_oneBody {l : ℕ} (hl : l ∈ [1, 2]) {N N' : ℤ × ℤ → ℤ × ℤ → ℂ}
    (h : ∀ x ∈ shell l, ∀ y ∈ shell l, yPhase x * yPhase y * N (flipState x) (flipState y) = N' x y) :
    Carried (nTotal (pdSystem b)) (partnerMatrix π φ) (oneBody (position (pdSystem b)) l N) (oneBody (position (pdSystem b)) l N') := by
  rw [← hopShell_oneBody, ← hopShell_oneBody]
  refine halfY_hop hR hl hl fun x hx y hy => ?_
  exact (h x hx y hy).symm

include hR in
/-- The square of an angular momentum does not change. -/
theorem halfY_square {Z Pm Mm : ℤ × ℤ → ℤ × ℤ → ℂ} (hZ : ∀ x ∈ shell 2, ∀ y ∈ shell 2, yPhase x * yPhase y * Z (flipState x) (flipState y) = -Z x y)
    (hP : ∀ x ∈ shell 2, ∀ y ∈ shell 2, yPhase x * yPhase y * Pm (flipState x) (flipState y) = -Mm x y)
    (hM : ∀ x ∈ shell 2, ∀ y ∈ shell 2, yPhase x * yPhase y * Mm (flipState x) (flipState y) = -Pm x y)
    (hcom : ∀ x ∈ shell 2, ∀ z ∈ shell 2, mmul 2 Pm Mm x z - mmul 2 Mm Pm x z = 2 * Z x z) :
    Carried (nTotal (pdSystem b)) (partnerMatrix π φ)
      (squareOf (oneBody (position (pdSystem b)) 2 Z) (oneBody (position (pdSystem b)) 2 Pm) (oneBody (position (pdSystem b)) 2 Mm))
      (squareOf (oneBody (position (pdSystem b)) 2 Z) (oneBody (position (pdSystem b)) 2 Pm) (oneBody (position (pdSystem b)) 2 Mm)) := by
  intro v
  have m2 : 2 ∈ [1, 2] := by simp
  have kN : ∀ {M M' : ℤ × ℤ → ℤ × ℤ → ℂ}, (∀ x ∈ shell 2, ∀ y ∈ shell 2, yPhase x * yPhase y * M (flipState x) (flipState y) = -M' x y) →
      ∀ w, changeOrbitals (nTotal (pdSystem b)) (partnerMatrix π φ) (oneBody (position (pdSystem b)) 2 M w)
        = -oneBody (position (pdSystem b)) 2 M' (changeOrbitals (nTotal (pdSystem b)) (partnerMatrix π φ) w) := by
    intro M M' h w
    rw [← halfY_oneBody hR m2 h w]
    exact funext fun F => oneBody_neg _ _ _ _ F
  have kP := kN hP
  have kM := kN hM
  have kZ := kN hZ
  have hneg : ∀ (M : ℤ × ℤ → ℤ × ℤ → ℂ) (w : Vec ℂ), oneBody (position (pdSystem b)) 2 M (-w) = -oneBody (position (pdSystem b)) 2 M w :=
    fun M w => (oneBody_isLinear _ _ M).map_neg w
  have hsq : ∀ w : Vec ℂ, squareOf (oneBody (position (pdSystem b)) 2 Z) (oneBody (position (pdSystem b)) 2 Pm)
      (oneBody (position (pdSystem b)) 2 Mm) w = oneBody (position (pdSystem b)) 2 Mm (oneBody (position (pdSystem b)) 2 Pm w)
        + oneBody (position (pdSystem b)) 2 Z (oneBody (position (pdSystem b)) 2 Z w) + oneBody (position (pdSystem b)) 2 Z w := fun _ => rfl
  rw [hsq, hsq, (changeOrbitals_linear _ _).map_add, (changeOrbitals_linear _ _).map_add, kM, kP, kZ, kZ, hneg, hneg, neg_neg, neg_neg]
  funext F
  have h := oneBody_commutator (f := position (pdSystem b)) (l := 2) (fun x hx y hy => pd_position_inj (by simp) hx hy) Pm Mm
    (changeOrbitals (nTotal (pdSystem b)) (partnerMatrix π φ) v) F
  rw [oneBody_shell hcom] at h
  have h2 : oneBody (position (pdSystem b)) 2 (fun x z => 2 * Z x z) (changeOrbitals (nTotal (pdSystem b)) (partnerMatrix π φ) v) F
      = 2 * oneBody (position (pdSystem b)) 2 Z (changeOrbitals (nTotal (pdSystem b)) (partnerMatrix π φ) v) F := by
    unfold oneBody
    rw [mul_sum]
    exact sum_congr rfl fun _ _ => by ring
  rw [h2] at h
  simp only [Pi.add_apply, Pi.neg_apply]
  linear_combination -h

/-- The components of a real orbital have the same parity. -/
theorem realOrbital_halfY (s : ℤ) : ∀ i < 5, ∃ σ : ℂ, star σ * σ = 1 ∧
    ∀ m ∈ Icc (-2 : ℤ) 2, realOrbital i (-m) = σ * ((-1) ^ (m + s) * realOrbital i m) := by
  intro i hi
  obtain ⟨σ, hσ, h⟩ := realOrbital_half i hi
  have hp : ∃ k : ℤ, ∀ m ∈ Icc (-2 : ℤ) 2, realOrbital i m ≠ 0 → (m + k) % 2 = 0 := by
    have e : i = 0 ∨ i = 1 ∨ i = 2 ∨ i = 3 ∨ i = 4 := by omega
    rcases e with rfl | rfl | rfl | rfl | rfl
    · exact ⟨0, fun m hm hne => by obtain ⟨h, h'⟩ := mem_Icc.1 hm; interval_cases m <;> simp_all [realOrbital]⟩
    · exact ⟨0, fun m hm hne => by obtain ⟨h, h'⟩ := mem_Icc.1 hm; interval_cases m <;> simp_all [realOrbital]⟩
    · exact ⟨1, fun m hm hne => by obtain ⟨h, h'⟩ := mem_Icc.1 hm; interval_cases m <;> simp_all [realOrbital]⟩
    · exact ⟨1, fun m hm hne => by obtain ⟨h, h'⟩ := mem_Icc.1 hm; interval_cases m <;> simp_all [realOrbital]⟩
    · exact ⟨0, fun m hm hne => by obtain ⟨h, h'⟩ := mem_Icc.1 hm; interval_cases m <;> simp_all [realOrbital]⟩
  obtain ⟨k, hk⟩ := hp
  refine ⟨σ * (-1) ^ (k + s), ?_, fun m hm => ?_⟩
  · rw [star_mul', star_neg_one_zpow, mul_mul_mul_comm, hσ, one_mul, ← zpow_add₀ (by norm_num : (-1 : ℂ) ≠ 0), neg_one_zpow_even (by omega)]
  · rw [h m hm]
    by_cases h0 : realOrbital i m = 0
    · rw [h0, mul_zero, mul_zero, mul_zero]
    · have e := hk m hm h0
      have : ((-1 : ℂ) ^ (k + s)) * (-1) ^ (m + s) = 1 := by
        rw [← zpow_add₀ (by norm_num : (-1 : ℂ) ≠ 0), neg_one_zpow_even (by omega)]
      linear_combination (-(σ * realOrbital i m)) * this

include hR in
/-- Removing an electron from a real orbital and turning. -/
theorem halfY_real {s : ℤ} (hs : s ∈ ({0, 1} : Finset ℤ)) {i : ℕ} (hi : i < 5) : ∃ σ : ℂ, star σ * σ = 1 ∧ ∀ v : Vec ℂ,
    changeOrbitals (nTotal (pdSystem b)) (partnerMatrix π φ) (annihilateReal (position (pdSystem b)) s i v)
      = σ • annihilateReal (position (pdSystem b)) (1 - s) i (changeOrbitals (nTotal (pdSystem b)) (partnerMatrix π φ) v) := by
  have p2 : 2 ∈ [1, 2] := by simp
  obtain ⟨σ, hσ, h⟩ := realOrbital_halfY s i hi
  refine ⟨σ, hσ, fun v => ?_⟩
  unfold annihilateReal annihilateIn
  rw [linear_apply_sum (changeOrbitals_linear _ _)]
  funext F
  rw [Pi.smul_apply, smul_eq_mul, mul_sum]
  refine sum_bij' (fun m _ => -m) (fun m _ => -m) (fun m hm => ?_) (fun m hm => ?_) (fun m _ => neg_neg m) (fun m _ => neg_neg m)
    fun m hm => ?_
  · rw [mem_Icc] at hm ⊢; omega
  · rw [mem_Icc] at hm ⊢; omega
  · have hm' : m ∈ mRange 2 := hm
    have hlt := shell_lt (b := b) p2 hs hm'
    rw [changeOrbitals_annihilate (partner_unitary hR.partner hR.unit) hlt, annihilateOrb_partner (hR.partner _ hlt).1,
      (hR.shell 2 p2 s hs m hm').1, (hR.shell 2 p2 s hs m hm').2, h m hm, star_mul', star_mul', star_neg_one_zpow]
    simp only [Pi.smul_apply, smul_eq_mul]
    linear_combination (-((-1) ^ (m + s) * star (realOrbital i m) * annihilate (position (pdSystem b) (.imp 2 (1 - s) (-m)))
      (changeOrbitals (nTotal (pdSystem b)) (partnerMatrix π φ) v) F)) * hσ

section
variable {m : ℕ} {U : ℕ → ℕ → ℂ}
  (hU : ∀ j < m, ∀ k < m, ∑ i ∈ range m, star (U i j) * U i k = if j = k then 1 else 0)
  {wt : ℕ → ℝ} (hwt : ∀ i < m, ∀ j < m, U i j ≠ 0 → wt i = wt j) {v v' : ℕ → Vec ℂ}
  (hv : ∀ i < m, v' i = changeOrbitals (nTotal (pdSystem b)) (partnerMatrix π φ) (mix m U v i))

include hR hU hwt hv in
/-- Sums of inner products in states that are superpositions of turned states. -/
theorem halfY_trace {A B A' B' : Vec ℂ → Vec ℂ} (hA : IsLinearMap ℂ A) (hB : IsLinearMap ℂ B) {c d : ℂ}
    (h1 : ∀ w, changeOrbitals (nTotal (pdSystem b)) (partnerMatrix π φ) (A w) = c • A' (changeOrbitals (nTotal (pdSystem b)) (partnerMatrix π φ) w))
    (h2 : ∀ w, changeOrbitals (nTotal (pdSystem b)) (partnerMatrix π φ) (B w) = d • B' (changeOrbitals (nTotal (pdSystem b)) (partnerMatrix π φ) w)) :
    ∑ i ∈ range m, (wt i : ℂ) * innerProduct (nTotal (pdSystem b)) (A (v i)) (B (v i))
      = star c * d * ∑ i ∈ range m, (wt i : ℂ) * innerProduct (nTotal (pdSystem b)) (A' (v' i)) (B' (v' i)) := by
  rw [← trace_mix hU (wt := fun i => (wt i : ℂ)) (fun i hi j hj h => by rw [hwt i hi j hj h]) (fun j => A (v j)) fun j => B (v j), mul_sum]
  refine sum_congr rfl fun i hi => ?_
  have hi := mem_range.1 hi
  rw [← linear_mix hA, ← linear_mix hB, ← changeOrbitals_inner (partner_unitary hR.partner hR.unit), h1, h2, ← hv i hi,
    innerProduct_smul_left,
    show ∀ (f g : Vec ℂ), innerProduct (nTotal (pdSystem b)) f (d • g) = d * innerProduct (nTotal (pdSystem b)) f g from
      fun f g => innerProduct_smul_right _ f g d]
  ring

include hR hU hwt hv in
theorem halfY_even_trace {B : Vec ℂ → Vec ℂ} (hB : IsLinearMap ℂ B) (hC : Carried (nTotal (pdSystem b)) (partnerMatrix π φ) B B) {r r' : ℕ → ℝ}
    (hr : ∀ i < m, (r i : ℂ) = Spec.expect (nTotal (pdSystem b)) B (v i))
    (hr' : ∀ i < m, (r' i : ℂ) = Spec.expect (nTotal (pdSystem b)) B (v' i)) :
    ∑ i ∈ range m, wt i * r i = ∑ i ∈ range m, wt i * r' i := by
  have e : ∀ (v : ℕ → Vec ℂ) (r : ℕ → ℝ), (∀ i < m, (r i : ℂ) = Spec.expect (nTotal (pdSystem b)) B (v i)) →
      ((∑ i ∈ range m, wt i * r i : ℝ) : ℂ) = ∑ i ∈ range m, (wt i : ℂ) * innerProduct (nTotal (pdSystem b)) (id (v i)) (B (v i)) := by
    intro v r hr
    rw [Complex.ofReal_sum]
    refine sum_congr rfl fun i hi => ?_
    rw [Complex.ofReal_mul, hr i (mem_range.1 hi)]
    rfl
  have h := halfY_trace hR hU hwt hv (A := id) (A' := id) (B := B) (B' := B) (c := 1) (d := 1)
    ⟨fun _ _ => rfl, fun _ _ => rfl⟩ hB (fun w => (one_smul ℂ _).symm) fun w => by rw [← hC, one_smul]
  rw [← e v r hr, ← e v' r' hr', star_one, one_mul, one_mul] at h
  exact_mod_cast h

include hR hU hwt hv in
/-- Sums of expectation values of operators that change sign. -/
theorem halfY_odd_trace {M : ℤ × ℤ → ℤ × ℤ → ℂ} (hM : ∀ x ∈ shell 2, ∀ y ∈ shell 2, yPhase x * yPhase y * M (flipState x) (flipState y) = -M x y) {r r' : ℕ → ℝ}
    (hr : ∀ i < m, (r i : ℂ) = Spec.expect (nTotal (pdSystem b)) (oneBody (position (pdSystem b)) 2 M) (v i))
    (hr' : ∀ i < m, (r' i : ℂ) = Spec.expect (nTotal (pdSystem b)) (oneBody (position (pdSystem b)) 2 M) (v' i)) :
    ∑ i ∈ range m, wt i * r i = -∑ i ∈ range m, wt i * r' i := by
  have e : ∀ (v : ℕ → Vec ℂ) (r : ℕ → ℝ), (∀ i < m, (r i : ℂ) = Spec.expect (nTotal (pdSystem b)) (oneBody (position (pdSystem b)) 2 M) (v i)) →
      ((∑ i ∈ range m, wt i * r i : ℝ) : ℂ)
      = ∑ i ∈ range m, (wt i : ℂ) * innerProduct (nTotal (pdSystem b)) (id (v i)) (oneBody (position (pdSystem b)) 2 M (v i)) := by
    intro v r hr
    rw [Complex.ofReal_sum]
    refine sum_congr rfl fun i hi => ?_
    rw [Complex.ofReal_mul, hr i (mem_range.1 hi)]
    rfl
  have h := halfY_trace hR hU hwt hv (A := id) (A' := id) (B := oneBody (position (pdSystem b)) 2 M)
    (B' := oneBody (position (pdSystem b)) 2 M) (c := 1) (d := -1)
    ⟨fun _ _ => rfl, fun _ _ => rfl⟩ (oneBody_isLinear _ _ _) (fun w => (one_smul ℂ _).symm) fun w => by
      rw [← halfY_oneBody hR (by simp) hM w]
      funext F
      rw [oneBody_neg, Pi.smul_apply, smul_eq_mul, neg_one_mul]
  rw [← e v r hr, ← e v' r' hr', star_one] at h
  have h2 : ((∑ i ∈ range m, wt i * r i : ℝ) : ℂ) = ((-∑ i ∈ range m, wt i * r' i : ℝ) : ℂ) := by
    rw [Complex.ofReal_neg]
    linear_combination h
  exact_mod_cast h2

include hR hU hwt hv in
/-- Opposite spins have the same sum of occupations. -/
theorem halfY_occ_trace {s : ℤ} (hs : s ∈ ({0, 1} : Finset ℤ)) {i : ℕ} (hi : i < 5) :
    ∑ k ∈ range m, (wt k : ℂ) * (realOccupation (nTotal (pdSystem b)) (position (pdSystem b)) (v k) s i : ℝ)
      = ∑ k ∈ range m, (wt k : ℂ) * (realOccupation (nTotal (pdSystem b)) (position (pdSystem b)) (v' k) (1 - s) i : ℝ) := by
  obtain ⟨σ, hσ, hw⟩ := halfY_real hR hs hi
  have h := halfY_trace hR hU hwt hv (A := annihilateReal (position (pdSystem b)) s i)
    (B := annihilateReal (position (pdSystem b)) s i) (A' := annihilateReal (position (pdSystem b)) (1 - s) i)
    (B' := annihilateReal (position (pdSystem b)) (1 - s) i) (annihilateReal_linear _ _ _) (annihilateReal_linear _ _ _) hw hw
  simp only [innerProduct_self] at h
  rw [hσ, one_mul] at h
  exact h

end

end

/-- The printed averages of two runs, if the states in the averages of one run are superpositions of the turned states of the
other. -/
theorem halfY_means {b : ℕ → ℕ} {P : BasisParams} {π : ℕ → ℕ} {φ : ℕ → ℂ} (hR : TimeReversal b P π φ) {kB e0 : ℝ}
    {energies : List ℝ} {psis psis' : List (Psi ℂ)} {thermal thermal' : ThermalValues} {rows rows' : List ExpRow}
    (hpm : PrintedMeans kB (nTotal (pdSystem b)) (position (pdSystem b)) energies psis thermal e0 rows)
    (hpm' : PrintedMeans kB (nTotal (pdSystem b)) (position (pdSystem b)) energies psis' thermal' e0 rows') {m : ℕ}
    (hm : m < energies.length) (hiff : ∀ i < energies.length, (energies.getD i 0 - e0 < 10 * kB * 300 ↔ i < m)) {U : ℕ → ℕ → ℂ}
    (hU : ∀ j < m, ∀ k < m, ∑ i ∈ range m, star (U i j) * U i k = if j = k then 1 else 0)
    (hU0 : ∀ i < m, ∀ j < m, energies.getD i 0 ≠ energies.getD j 0 → U i j = 0)
    (hv : ∀ i < m, ampl (nTotal (pdSystem b)) (psis'.getD i [])
      = changeOrbitals (nTotal (pdSystem b)) (partnerMatrix π φ) (mix m U (fun j => ampl (nTotal (pdSystem b)) (psis.getD j [])) i)) :
    thermal.lz = -thermal'.lz ∧ thermal.sz = -thermal'.sz ∧ thermal.n3d = thermal'.n3d ∧
    thermal.occ 0 = thermal'.occ 1 ∧ thermal.occ 1 = thermal'.occ 0 ∧ thermal.occ 2 = thermal'.occ 3 ∧
    thermal.occ 3 = thermal'.occ 2 ∧ thermal.lsqr = thermal'.lsqr ∧ thermal.ssqr = thermal'.ssqr := by
  have hwt : ∀ i < m, ∀ j < m, U i j ≠ 0 → Real.exp (-energies.getD i 0 / (kB * 300))
      = Real.exp (-energies.getD j 0 / (kB * 300)) := by
    intro i hi j hj hne
    by_cases he : energies.getD i 0 = energies.getD j 0
    · rw [he]
    · exact absurd (hU0 i hi j hj he) hne
  have hget : ∀ {β : Type} (rows : List ExpRow) (g : ExpRow → β) (d : β) i (hi : i < rows.length),
      (rows.map g).getD i d = g rows[i] := by
    intro β rows g d i hi
    rw [List.getD_eq_getElem _ _ (by rw [List.length_map]; exact hi), List.getElem_map]
  have hsum : ∀ {psis : List (Psi ℂ)} {thermal : ThermalValues} {rows : List ExpRow},
      PrintedMeans kB (nTotal (pdSystem b)) (position (pdSystem b)) energies psis thermal e0 rows →
      ∀ (k : ℕ) (g : ℕ → ℂ), (∀ i (hi : i < rows.length),
      RowMeans (nTotal (pdSystem b)) (position (pdSystem b)) (ampl (nTotal (pdSystem b)) (psis.getD i [])) rows[i] →
        rows[i].occ.getD k 0 = g i) →
      ∑ i ∈ range m, (Real.exp (-energies.getD i 0 / (kB * 300)) : ℂ) * (rows.map fun r => r.occ.getD k 0).getD i 0
        = ∑ i ∈ range m, (Real.exp (-energies.getD i 0 / (kB * 300)) : ℂ) * g i := by
    intro psis thermal rows hpm k g hg
    refine sum_congr rfl fun i hi => ?_
    have hi' : i < rows.length := by rw [hpm.count]; exact (mem_range.1 hi).trans hm
    rw [hget _ _ _ i hi', hg i hi' (hpm.table i hi').2]
  have hrow : ∀ {psis : List (Psi ℂ)} {thermal : ThermalValues} {rows : List ExpRow},
      PrintedMeans kB (nTotal (pdSystem b)) (position (pdSystem b)) energies psis thermal e0 rows → ∀ (g : ExpRow → ℝ)
      (Q : Vec ℂ → ℂ), (∀ v row, RowMeans (nTotal (pdSystem b)) (position (pdSystem b)) v row → (g row : ℂ) = Q v) →
      ∀ i < m, (((rows.map g).getD i 0 : ℝ) : ℂ) = Q (ampl (nTotal (pdSystem b)) (psis.getD i [])) := by
    intro psis thermal rows hpm g Q hQ i hi
    have hi' : i < rows.length := by rw [hpm.count]; exact hi.trans hm
    rw [hget _ _ _ i hi']
    exact hQ _ _ (hpm.table i hi').2
  have hocc0 : ∀ i < 5, _ := fun i hi => halfY_occ_trace hR hU hwt hv (s := 0) (by simp) hi
  have hocc1 : ∀ i < 5, _ := fun i hi => halfY_occ_trace hR hU hwt hv (s := 1) (by simp) hi
  simp only [sub_zero, sub_self] at hocc0 hocc1
  refine ⟨?_, ?_, ?_, ?_, ?_, ?_, ?_, ?_, ?_⟩
  · rw [hpm.lz, hpm'.lz, thermalMean_prefix hm hiff, thermalMean_prefix hm hiff]
    simp only [smul_eq_mul]
    rw [halfY_odd_trace hR hU hwt hv (fun x hx y hy => orbZ_halfY (shell_spin hx) (shell_spin hy)) (hrow hpm _ _ fun v row h => h.lz) (hrow hpm' _ _ fun v row h => h.lz),
      mul_neg]
  · rw [hpm.sz, hpm'.sz, thermalMean_prefix hm hiff, thermalMean_prefix hm hiff]
    simp only [smul_eq_mul]
    rw [halfY_odd_trace hR hU hwt hv (fun x hx y hy => spinZ_halfY (shell_spin hx) (shell_spin hy)) (hrow hpm _ _ fun v row h => h.sz)
      (hrow hpm' _ _ fun v row h => h.sz), mul_neg]
  · rw [hpm.n3d, hpm'.n3d, thermalMean_prefix hm hiff, thermalMean_prefix hm hiff]
    simp only [smul_eq_mul]
    rw [halfY_even_trace hR hU hwt hv (shellNumber_isLinear _ _) (shellTurn_number (halfY_shellTurn hR) (by simp)) (hrow hpm _ _ fun v row h => h.n3d) (hrow hpm' _ _ fun v row h => h.n3d)]
  · rw [hpm.occ, hpm'.occ]
    refine mean_congr hm hiff ?_
    rw [hsum hpm 0 _ fun i hi h => (row_occ h).1, hsum hpm' 1 _ fun i hi h => (row_occ h).2.1]
    simp only [mul_add, sum_add_distrib]
    rw [hocc0 0 (by norm_num), hocc0 1 (by norm_num)]
  · rw [hpm.occ, hpm'.occ]
    refine mean_congr hm hiff ?_
    rw [hsum hpm 1 _ fun i hi h => (row_occ h).2.1, hsum hpm' 0 _ fun i hi h => (row_occ h).1]
    simp only [mul_add, sum_add_distrib]
    rw [hocc1 0 (by norm_num), hocc1 1 (by norm_num)]
  · rw [hpm.occ, hpm'.occ]
    refine mean_congr hm hiff ?_
    rw [hsum hpm 2 _ fun i hi h => (row_occ h).2.2.1, hsum hpm' 3 _ fun i hi h => (row_occ h).2.2.2]
    simp only [mul_add, sum_add_distrib]
    rw [hocc0 2 (by norm_num), hocc0 3 (by norm_num), hocc0 4 (by norm_num)]
  · rw [hpm.occ, hpm'.occ]
    refine mean_congr hm hiff ?_
    rw [hsum hpm 3 _ fun i hi h => (row_occ h).2.2.2, hsum hpm' 2 _ fun i hi h => (row_occ h).2.2.1]
    simp only [mul_add, sum_add_distrib]
    rw [hocc1 2 (by norm_num), hocc1 3 (by norm_num), hocc1 4 (by norm_num)]
  · rw [hpm.lsqr, hpm'.lsqr, thermalMean_prefix hm hiff, thermalMean_prefix hm hiff]
    simp only [smul_eq_mul]
    rw [halfY_even_trace hR hU hwt hv
      (squareOf_linear (oneBody_isLinear _ _ _) (oneBody_isLinear _ _ _) (oneBody_isLinear _ _ _))
      (halfY_square hR (fun x hx y hy => orbZ_halfY (shell_spin hx) (shell_spin hy)) (fun x hx y hy => (orb_ladder_halfY 2 (shell_spin hx) (shell_spin hy)).1)
        (fun x hx y hy => (orb_ladder_halfY 2 (shell_spin hx) (shell_spin hy)).2) fun x hx z hz => orb_pm hx hz)
      (hrow hpm _ _ fun v row h => h.lsqr) (hrow hpm' _ _ fun v row h => h.lsqr)]
  · rw [hpm.ssqr, hpm'.ssqr, thermalMean_prefix hm hiff, thermalMean_prefix hm hiff]
    simp only [smul_eq_mul]
    rw [halfY_even_trace hR hU hwt hv
      (squareOf_linear (oneBody_isLinear _ _ _) (oneBody_isLinear _ _ _) (oneBody_isLinear _ _ _))
      (halfY_square hR (fun x hx y hy => spinZ_halfY (shell_spin hx) (shell_spin hy)) (fun x hx y hy => (spin_ladder_halfY (shell_spin hx) (shell_spin hy)).1)
        (fun x hx y hy => (spin_ladder_halfY (shell_spin hx) (shell_spin hy)).2) fun x hx z hz => spin_pm hx hz)
      (hrow hpm _ _ fun v row h => h.ssqr) (hrow hpm' _ _ fun v row h => h.ssqr)]

end

end Verif
