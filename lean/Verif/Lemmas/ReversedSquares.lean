/-
Time reversal of the squares of the moments.
-/
import Verif.Prop.TimeReversal
import Verif.Lemmas.FieldReversal
import Verif.Lemmas.TurnExp

namespace Verif

open Finset Mpi Psr Spec

noncomputable section

theorem orb_ladder_flip (l : ℕ) (x y : ℤ × ℤ) : flipMatrix (orbOp (lPlus l)) x y = -orbOp (lMinus l) x y ∧
    flipMatrix (orbOp (lMinus l)) x y = -orbOp (lPlus l) x y := by
  unfold flipMatrix orbOp
  dsimp only
  rw [star_mul', star_mul', delta_flip', lPlus_flip, lMinus_flip]
  unfold delta
  by_cases h1 : x.1 = y.1
  · rw [if_pos h1]
    constructor
    · by_cases h : x.2 = y.2 - 1
      · rw [neg_one_zpow_congr (k' := 1) (by omega)]; ring
      · unfold lMinus; rw [if_neg h]; ring
    · by_cases h : x.2 = y.2 + 1
      · rw [neg_one_zpow_congr (k' := 1) (by omega)]; ring
      · unfold lPlus; rw [if_neg h]; ring
  · rw [if_neg h1]; constructor <;> ring

theorem spin_ladder_flip (x y : ℤ × ℤ) : flipMatrix (spinOp sPlus) x y = -spinOp sMinus x y ∧
    flipMatrix (spinOp sMinus) x y = -spinOp sPlus x y := by
  unfold flipMatrix spinOp
  dsimp only
  rw [star_mul', star_mul', delta_flip, sPlus_flip, sMinus_flip]
  unfold delta
  by_cases h1 : x.2 = y.2
  · rw [if_pos h1]
    constructor
    · by_cases h : x.1 = 0 ∧ y.1 = 1
      · rw [neg_one_zpow_congr (k' := 1) (by omega)]; ring
      · unfold sMinus; rw [if_neg h]; ring
    · by_cases h : x.1 = 1 ∧ y.1 = 0
      · rw [neg_one_zpow_congr (k' := 1) (by omega)]; ring
      · unfold sPlus; rw [if_neg h]; ring
  · rw [if_neg h1]; constructor <;> ring

theorem oneBody_neg (f : Label → ℕ) (l : ℕ) (M : ℤ × ℤ → ℤ × ℤ → ℂ) (v : Vec ℂ) (F : Finset ℕ) :
    oneBody f l (fun x y => -M x y) v F = -oneBody f l M v F := by
  unfold oneBody
  rw [← sum_neg_distrib]
  exact sum_congr rfl fun _ _ => by ring

/-- The square of an angular momentum does not change. -/
theorem reverse_square {b : ℕ → ℕ} {P : BasisParams} {π : ℕ → ℕ} {φ : ℕ → ℂ} (hR : TimeReversal b P π φ)
    {Z Pm Mm : ℤ × ℤ → ℤ × ℤ → ℂ} (hZ : ∀ x ∈ shell 2, ∀ y ∈ shell 2, flipMatrix Z x y = -Z x y)
    (hP : ∀ x ∈ shell 2, ∀ y ∈ shell 2, flipMatrix Pm x y = -Mm x y)
    (hM : ∀ x ∈ shell 2, ∀ y ∈ shell 2, flipMatrix Mm x y = -Pm x y)
    (hcom : ∀ x ∈ shell 2, ∀ z ∈ shell 2, mmul 2 Pm Mm x z - mmul 2 Mm Pm x z = 2 * Z x z) (v : Vec ℂ) :
    reverse (nTotal (pdSystem b)) π φ (squareOf (oneBody (position (pdSystem b)) 2 Z) (oneBody (position (pdSystem b)) 2 Pm)
      (oneBody (position (pdSystem b)) 2 Mm) v)
      = squareOf (oneBody (position (pdSystem b)) 2 Z) (oneBody (position (pdSystem b)) 2 Pm)
      (oneBody (position (pdSystem b)) 2 Mm) (reverse (nTotal (pdSystem b)) π φ v) := by
  have key : ∀ {M M' : ℤ × ℤ → ℤ × ℤ → ℂ}, (∀ x ∈ shell 2, ∀ y ∈ shell 2, flipMatrix M x y = -M' x y) → ∀ w : Vec ℂ,
      reverse (nTotal (pdSystem b)) π φ (oneBody (position (pdSystem b)) 2 M w)
        = -oneBody (position (pdSystem b)) 2 M' (reverse (nTotal (pdSystem b)) π φ w) := by
    intro M M' h w
    rw [reverse_oneBody hR (by simp), oneBody_shell h]
    exact funext fun F => oneBody_neg _ _ _ _ F
  have hneg : ∀ (M : ℤ × ℤ → ℤ × ℤ → ℂ) (w : Vec ℂ), oneBody (position (pdSystem b)) 2 M (-w) = -oneBody (position (pdSystem b)) 2 M w :=
    fun M w => (oneBody_isLinear _ _ M).map_neg w
  have hsq : ∀ w : Vec ℂ, squareOf (oneBody (position (pdSystem b)) 2 Z) (oneBody (position (pdSystem b)) 2 Pm)
      (oneBody (position (pdSystem b)) 2 Mm) w = oneBody (position (pdSystem b)) 2 Mm (oneBody (position (pdSystem b)) 2 Pm w)
        + oneBody (position (pdSystem b)) 2 Z (oneBody (position (pdSystem b)) 2 Z w) + oneBody (position (pdSystem b)) 2 Z w := fun _ => rfl
  rw [hsq, hsq, reverse_add, reverse_add, key hM, key hP, key hZ, key hZ, hneg, hneg, neg_neg, neg_neg]
  funext F
  have h := oneBody_commutator (f := position (pdSystem b)) (l := 2) (fun x hx y hy => pd_position_inj (by simp) hx hy) Pm Mm
    (reverse (nTotal (pdSystem b)) π φ v) F
  rw [oneBody_shell hcom] at h
  have h2 : oneBody (position (pdSystem b)) 2 (fun x z => 2 * Z x z) (reverse (nTotal (pdSystem b)) π φ v) F
      = 2 * oneBody (position (pdSystem b)) 2 Z (reverse (nTotal (pdSystem b)) π φ v) F := by
    unfold oneBody
    rw [mul_sum]
    exact sum_congr rfl fun _ _ => by ring
  rw [h2] at h
  simp only [Pi.add_apply, Pi.neg_apply]
  linear_combination h

/-- The sums of the expectation values of an operator that does not change. -/
theorem even_trace {n : ℕ} {m : ℕ} {U : ℕ → ℕ → ℂ}
    (hU : ∀ j < m, ∀ k < m, ∑ i ∈ range m, star (U i j) * U i k = if j = k then 1 else 0)
    {wt : ℕ → ℝ} (hwt : ∀ i < m, ∀ j < m, U i j ≠ 0 → wt i = wt j) {v v' : ℕ → Vec ℂ} {R R' : Vec ℂ → Vec ℂ} (hA : IsAnti n R R')
    (hv : ∀ i < m, R (v i) = mix m U v' i) {B : Vec ℂ → Vec ℂ} (hB : IsLinearMap ℂ B) (hRB : ∀ w, R (B w) = B (R w)) {r r' : ℕ → ℝ}
    (hr : ∀ i < m, (r i : ℂ) = Spec.expect n B (v i)) (hr' : ∀ i < m, (r' i : ℂ) = Spec.expect n B (v' i)) :
    ∑ i ∈ range m, wt i * r i = ∑ i ∈ range m, wt i * r' i := by
  have e : ∀ (v : ℕ → Vec ℂ) (r : ℕ → ℝ), (∀ i < m, (r i : ℂ) = Spec.expect n B (v i)) →
      ((∑ i ∈ range m, wt i * r i : ℝ) : ℂ) = ∑ i ∈ range m, (wt i : ℂ) * innerProduct n (id (v i)) (B (v i)) := by
    intro v r hr
    rw [Complex.ofReal_sum]
    refine sum_congr rfl fun i hi => ?_
    rw [Complex.ofReal_mul, hr i (mem_range.1 hi)]
    rfl
  have h := trace_anti hU hwt hA hv (A := id) (A' := id) (B := B) (B' := B) (c := 1) (d := 1)
    ⟨fun _ _ => rfl, fun _ _ => rfl⟩ hB (fun w => (one_smul ℂ _).symm) fun w => by rw [hRB, one_smul]
  rw [← e v r hr, ← e v' r' hr', star_ofReal, star_one, one_mul, one_mul] at h
  exact_mod_cast h

theorem squareOf_linear {Jz Jp Jm : Vec ℂ → Vec ℂ} (h1 : IsLinearMap ℂ Jz) (h2 : IsLinearMap ℂ Jp) (h3 : IsLinearMap ℂ Jm) :
    IsLinearMap ℂ (squareOf Jz Jp Jm) := by
  constructor
  · intro v w
    funext F
    unfold squareOf
    simp only [h1.map_add, h2.map_add, h3.map_add, Pi.add_apply]
    ring
  · intro c v
    funext F
    unfold squareOf
    simp only [h1.map_smul, h2.map_smul, h3.map_smul, Pi.smul_apply, smul_eq_mul]
    ring

/-- The printed averages of the squares of the moments of two runs, if time reversal maps the states in the averages of one run to
superpositions of those of the other. -/
theorem reversed_squares {b : ℕ → ℕ} {P : BasisParams} {π : ℕ → ℕ} {φ : ℕ → ℂ} (hR : TimeReversal b P π φ) {kB e0 : ℝ}
    {energies : List ℝ} {psis psis' : List (Psi ℂ)} {thermal thermal' : ThermalValues} {rows rows' : List ExpRow}
    (hpm : PrintedMeans kB (nTotal (pdSystem b)) (position (pdSystem b)) energies psis thermal e0 rows)
    (hpm' : PrintedMeans kB (nTotal (pdSystem b)) (position (pdSystem b)) energies psis' thermal' e0 rows') {m : ℕ}
    (hm : m < energies.length) (hiff : ∀ i < energies.length, (energies.getD i 0 - e0 < 10 * kB * 300 ↔ i < m)) {U : ℕ → ℕ → ℂ}
    (hU : ∀ j < m, ∀ k < m, ∑ i ∈ range m, star (U i j) * U i k = if j = k then 1 else 0)
    (hU0 : ∀ i < m, ∀ j < m, energies.getD i 0 ≠ energies.getD j 0 → U i j = 0)
    (hv : ∀ i < m, reverse (nTotal (pdSystem b)) π φ (ampl (nTotal (pdSystem b)) (psis.getD i []))
      = mix m U (fun j => ampl (nTotal (pdSystem b)) (psis'.getD j [])) i) :
    thermal'.lsqr = thermal.lsqr ∧ thermal'.ssqr = thermal.ssqr := by
  have hwt : ∀ i < m, ∀ j < m, U i j ≠ 0 → Real.exp (-energies.getD i 0 / (kB * 300))
      = Real.exp (-energies.getD j 0 / (kB * 300)) := by
    intro i hi j hj hne
    by_cases he : energies.getD i 0 = energies.getD j 0
    · rw [he]
    · exact absurd (hU0 i hi j hj he) hne
  have hrow : ∀ {psis : List (Psi ℂ)} {thermal : ThermalValues} {rows : List ExpRow},
      PrintedMeans kB (nTotal (pdSystem b)) (position (pdSystem b)) energies psis thermal e0 rows → ∀ (g : ExpRow → ℝ)
      (Q : Vec ℂ → ℂ), (∀ v row, RowMeans (nTotal (pdSystem b)) (position (pdSystem b)) v row → (g row : ℂ) = Q v) →
      ∀ i < m, (((rows.map g).getD i 0 : ℝ) : ℂ) = Q (ampl (nTotal (pdSystem b)) (psis.getD i [])) := by
    intro psis thermal rows hpm g Q hQ i hi
    have hi' : i < rows.length := by rw [hpm.count]; exact hi.trans hm
    rw [List.getD_eq_getElem _ _ (by rw [List.length_map]; exact hi'), List.getElem_map]
    exact hQ _ _ (hpm.table i hi').2
  constructor
  · rw [hpm.lsqr, hpm'.lsqr, thermalMean_prefix hm hiff, thermalMean_prefix hm hiff]
    simp only [smul_eq_mul]
    rw [even_trace hU hwt (reverse_anti hR.partner hR.unit) hv
      (squareOf_linear (oneBody_isLinear _ _ _) (oneBody_isLinear _ _ _) (oneBody_isLinear _ _ _))
      (reverse_square hR (fun x _ y _ => orbZ_flip x y) (fun x _ y _ => (orb_ladder_flip 2 x y).1)
        (fun x _ y _ => (orb_ladder_flip 2 x y).2) fun x hx z hz => orb_pm hx hz)
      (hrow hpm _ _ fun v row h => h.lsqr) (hrow hpm' _ _ fun v row h => h.lsqr)]
  · rw [hpm.ssqr, hpm'.ssqr, thermalMean_prefix hm hiff, thermalMean_prefix hm hiff]
    simp only [smul_eq_mul]
    rw [even_trace hU hwt (reverse_anti hR.partner hR.unit) hv
      (squareOf_linear (oneBody_isLinear _ _ _) (oneBody_isLinear _ _ _) (oneBody_isLinear _ _ _))
      (reverse_square hR (fun x hx y hy => spinZ_flip (shell_spin hx) (shell_spin hy)) (fun x _ y _ => (spin_ladder_flip x y).1)
        (fun x _ y _ => (spin_ladder_flip x y).2) fun x hx z hz => spin_pm hx hz)
      (hrow hpm _ _ fun v row h => h.ssqr) (hrow hpm' _ _ fun v row h => h.ssqr)]

end

end Verif
