/-
The half turn of the printed averages.
-/
import Verif.Lemmas.HalfTurn
import Verif.Lemmas.ReversedSquares

namespace Verif

open Finset Mpi Psr Spec

noncomputable section

theorem orbZ_half (x y : ℤ × ℤ) : orbOp lZ (flipState x) (flipState y) = -orbOp lZ x y := by
  unfold orbOp flipState
  dsimp only
  rw [lZ_half, show delta (1 - x.1) (1 - y.1) = delta x.1 y.1 from if_congr sub_right_inj rfl rfl, mul_neg]

theorem spinZ_half {x y : ℤ × ℤ} (hx : x.1 = 0 ∨ x.1 = 1) (hy : y.1 = 0 ∨ y.1 = 1) :
    spinOp sZ (flipState x) (flipState y) = -spinOp sZ x y := by
  unfold spinOp flipState
  dsimp only
  rw [delta_half, sZ_half hy hx, neg_mul]

theorem orb_ladder_half (l : ℕ) (x y : ℤ × ℤ) : orbOp (lPlus l) (flipState x) (flipState y) = orbOp (lMinus l) x y ∧
    orbOp (lMinus l) (flipState x) (flipState y) = orbOp (lPlus l) x y := by
  unfold orbOp flipState
  dsimp only
  rw [lPlus_half, lMinus_half, show delta (1 - x.1) (1 - y.1) = delta x.1 y.1 from if_congr sub_right_inj rfl rfl]
  exact ⟨rfl, rfl⟩

theorem spin_ladder_half (x y : ℤ × ℤ) : spinOp sPlus (flipState x) (flipState y) = spinOp sMinus x y ∧
    spinOp sMinus (flipState x) (flipState y) = spinOp sPlus x y := by
  unfold spinOp flipState
  dsimp only
  rw [sPlus_half, sMinus_half, delta_half]
  exact ⟨rfl, rfl⟩

section
variable {b : ℕ → ℕ} {P : BasisParams} {π : ℕ → ℕ} {φ : ℕ → ℂ} (hR : HalfTurn b P π φ)

include hR in
theorem half_oneBody {l : ℕ} (hl : l ∈ [1, 2]) {N N' : ℤ × ℤ → ℤ × ℤ → ℂ}
    (h : ∀ x ∈ shell l, ∀ y ∈ shell l, N (flipState x) (flipState y) = N' x y) :
    Carried (nTotal (pdSystem b)) (partnerMatrix π φ) (oneBody (position (pdSystem b)) l N) (oneBody (position (pdSystem b)) l N') := by
  rw [← hopShell_oneBody, ← hopShell_oneBody]
  refine half_hop hR hl hl fun x hx y hy => ?_
  rw [← h x hx y hy, pow_add, sign_sign, one_mul]

include hR in
/-- The square of an angular momentum does not change. -/
theorem half_square {Z Pm Mm : ℤ × ℤ → ℤ × ℤ → ℂ} (hZ : ∀ x ∈ shell 2, ∀ y ∈ shell 2, Z (flipState x) (flipState y) = -Z x y)
    (hP : ∀ x ∈ shell 2, ∀ y ∈ shell 2, Pm (flipState x) (flipState y) = Mm x y)
    (hM : ∀ x ∈ shell 2, ∀ y ∈ shell 2, Mm (flipState x) (flipState y) = Pm x y)
    (hcom : ∀ x ∈ shell 2, ∀ z ∈ shell 2, mmul 2 Pm Mm x z - mmul 2 Mm Pm x z = 2 * Z x z) :
    Carried (nTotal (pdSystem b)) (partnerMatrix π φ)
      (squareOf (oneBody (position (pdSystem b)) 2 Z) (oneBody (position (pdSystem b)) 2 Pm) (oneBody (position (pdSystem b)) 2 Mm))
      (squareOf (oneBody (position (pdSystem b)) 2 Z) (oneBody (position (pdSystem b)) 2 Pm) (oneBody (position (pdSystem b)) 2 Mm)) := by
  intro v
  have m2 : 2 ∈ [1, 2] := by simp
  have kP := half_oneBody hR m2 hP
  have kM := half_oneBody hR m2 hM
  have kZ : ∀ w, changeOrbitals (nTotal (pdSystem b)) (partnerMatrix π φ) (oneBody (position (pdSystem b)) 2 Z w)
      = -oneBody (position (pdSystem b)) 2 Z (changeOrbitals (nTotal (pdSystem b)) (partnerMatrix π φ) w) := by
    intro w
    rw [← half_oneBody hR m2 hZ w]
    exact funext fun F => oneBody_neg _ _ _ _ F
  have hneg : ∀ (M : ℤ × ℤ → ℤ × ℤ → ℂ) (w : Vec ℂ), oneBody (position (pdSystem b)) 2 M (-w) = -oneBody (position (pdSystem b)) 2 M w :=
    fun M w => (oneBody_isLinear _ _ M).map_neg w
  have hsq : ∀ w : Vec ℂ, squareOf (oneBody (position (pdSystem b)) 2 Z) (oneBody (position (pdSystem b)) 2 Pm)
      (oneBody (position (pdSystem b)) 2 Mm) w = oneBody (position (pdSystem b)) 2 Mm (oneBody (position (pdSystem b)) 2 Pm w)
        + oneBody (position (pdSystem b)) 2 Z (oneBody (position (pdSystem b)) 2 Z w) + oneBody (position (pdSystem b)) 2 Z w := fun _ => rfl
  rw [hsq, hsq, (changeOrbitals_linear _ _).map_add, (changeOrbitals_linear _ _).map_add, ← kM, ← kP, kZ, kZ, hneg, neg_neg]
  funext F
  have h := oneBody_commutator (f := position (pdSystem b)) (l := 2) (fun x hx y hy => pd_position_inj (by simp) hx hy) Pm Mm
    (changeOrbitals (nTotal (pdSystem b)) (partnerMatrix π φ) v) F
  rw [oneBody_shell hcom] at h
  have h2 : oneBody (position (pdSystem b)) 2 (fun x z => 2 * Z x z) (changeOrbitals (nTotal (pdSystem b)) (partnerMatrix π φ) v) F
      = 2 * oneBody (position (pdSystem b)) 2 Z (changeOrbitals (nTotal (pdSystem b)) (partnerMatrix π φ) v) F := by
    unfold oneBody
    rw [mul_sum]
    exact sum_congr rfl fun _ _ => by ring
  rw [h2] at h
  simp only [Pi.add_apply, Pi.neg_apply]
  linear_combination -h

/-- A real orbital becomes itself or its negative. -/
theorem realOrbital_half : ∀ i < 5, ∃ σ : ℂ, star σ * σ = 1 ∧ ∀ m ∈ Icc (-2 : ℤ) 2, realOrbital i (-m) = σ * realOrbital i m := by
  intro i hi
  have key : ∀ σ : ℂ, (realOrbital i 2 = σ * realOrbital i (-2)) → (realOrbital i (-2) = σ * realOrbital i 2) →
      (realOrbital i 1 = σ * realOrbital i (-1)) → (realOrbital i (-1) = σ * realOrbital i 1) → (realOrbital i 0 = σ * realOrbital i 0) →
      ∀ m ∈ Icc (-2 : ℤ) 2, realOrbital i (-m) = σ * realOrbital i m := by
    intro σ h1 h2 h3 h4 h5 m hm
    have hm := mem_Icc.1 hm
    obtain ⟨h, h'⟩ := hm
    interval_cases m <;> simpa
  have e : i = 0 ∨ i = 1 ∨ i = 2 ∨ i = 3 ∨ i = 4 := by omega
  rcases e with rfl | rfl | rfl | rfl | rfl
  · exact ⟨1, by simp, key 1 (by simp [realOrbital]) (by simp [realOrbital]) (by simp [realOrbital]) (by simp [realOrbital]) (by simp [realOrbital])⟩
  · exact ⟨1, by simp, key 1 (by simp [realOrbital]) (by simp [realOrbital]) (by simp [realOrbital]) (by simp [realOrbital]) (by simp [realOrbital])⟩
  · exact ⟨1, by simp, key 1 (by simp [realOrbital]) (by simp [realOrbital]) (by simp [realOrbital]) (by simp [realOrbital]) (by simp [realOrbital])⟩
  · exact ⟨-1, by simp, key (-1) (by simp [realOrbital]) (by simp [realOrbital]) (by simp [realOrbital]; ring) (by simp [realOrbital]; ring) (by simp [realOrbital])⟩
  · exact ⟨-1, by simp, key (-1) (by simp [realOrbital]; ring) (by simp [realOrbital]; ring) (by simp [realOrbital]) (by simp [realOrbital]) (by simp [realOrbital])⟩

include hR in
/-- Removing an electron from a real orbital and turning. -/
theorem half_real {s : ℤ} (hs : s ∈ ({0, 1} : Finset ℤ)) {i : ℕ} (hi : i < 5) : ∃ σ : ℂ, star σ * σ = 1 ∧ ∀ v : Vec ℂ,
    changeOrbitals (nTotal (pdSystem b)) (partnerMatrix π φ) (annihilateReal (position (pdSystem b)) s i v)
      = σ • annihilateReal (position (pdSystem b)) (1 - s) i (changeOrbitals (nTotal (pdSystem b)) (partnerMatrix π φ) v) := by
  have p2 : 2 ∈ [1, 2] := by simp
  obtain ⟨σ, hσ, h⟩ := realOrbital_half i hi
  refine ⟨σ, hσ, fun v => ?_⟩
  unfold annihilateReal annihilateIn
  rw [linear_apply_sum (changeOrbitals_linear _ _)]
  funext F
  rw [Pi.smul_apply, smul_eq_mul, mul_sum]
  refine sum_bij' (fun m _ => -m) (fun m _ => -m) (fun m hm => ?_) (fun m hm => ?_) (fun m _ => neg_neg m) (fun m _ => neg_neg m)
    fun m hm => ?_
  · rw [mem_Icc] at hm ⊢; omega
  · rw [mem_Icc] at hm ⊢; omega
  · have hm' : m ∈ mRange 2 := hm
    have hlt := shell_lt (b := b) p2 hs hm'
    rw [changeOrbitals_annihilate (partner_unitary hR.partner hR.unit) hlt, annihilateOrb_partner (hR.partner _ hlt).1,
      (hR.shell 2 p2 s hs m hm').1, (hR.shell 2 p2 s hs m hm').2, h m hm, star_mul']
    simp only [Pi.smul_apply, smul_eq_mul]
    rw [show star ((-1 : ℂ) ^ 2) = 1 by simp, one_mul]
    linear_combination (-(star (realOrbital i m) * annihilate (position (pdSystem b) (.imp 2 (1 - s) (-m)))
      (changeOrbitals (nTotal (pdSystem b)) (partnerMatrix π φ) v) F)) * hσ

section
variable {m : ℕ} {U : ℕ → ℕ → ℂ}
  (hU : ∀ j < m, ∀ k < m, ∑ i ∈ range m, star (U i j) * U i k = if j = k then 1 else 0)
  {wt : ℕ → ℝ} (hwt : ∀ i < m, ∀ j < m, U i j ≠ 0 → wt i = wt j) {v v' : ℕ → Vec ℂ}
  (hv : ∀ i < m, v' i = changeOrbitals (nTotal (pdSystem b)) (partnerMatrix π φ) (mix m U v i))

include hR hU hwt hv in
/-- Sums of inner products in states that are superpositions of turned states. -/
theorem half_trace {A B A' B' : Vec ℂ → Vec ℂ} (hA : IsLinearMap ℂ A) (hB : IsLinearMap ℂ B) {c d : ℂ}
    (h1 : ∀ w, changeOrbitals (nTotal (pdSystem b)) (partnerMatrix π φ) (A w) = c • A' (changeOrbitals (nTotal (pdSystem b)) (partnerMatrix π φ) w))
    (h2 : ∀ w, changeOrbitals (nTotal (pdSystem b)) (partnerMatrix π φ) (B w) = d • B' (changeOrbitals (nTotal (pdSystem b)) (partnerMatrix π φ) w)) :
    ∑ i ∈ range m, (wt i : ℂ) * innerProduct (nTotal (pdSystem b)) (A (v i)) (B (v i))
      = star c * d * ∑ i ∈ range m, (wt i : ℂ) * innerProduct (nTotal (pdSystem b)) (A' (v' i)) (B' (v' i)) := by
  rw [← trace_mix hU (wt := fun i => (wt i : ℂ)) (fun i hi j hj h => by rw [hwt i hi j hj h]) (fun j => A (v j)) fun j => B (v j), mul_sum]
  refine sum_congr rfl fun i hi => ?_
  have hi := mem_range.1 hi
  rw [← linear_mix hA, ← linear_mix hB, ← changeOrbitals_inner (partner_unitary hR.partner hR.unit), h1, h2, ← hv i hi,
    innerProduct_smul_left,
    show ∀ (f g : Vec ℂ), innerProduct (nTotal (pdSystem b)) f (d • g) = d * innerProduct (nTotal (pdSystem b)) f g from
      fun f g => innerProduct_smul_right _ f g d]
  ring

include hR hU hwt hv in
theorem half_even_trace {B : Vec ℂ → Vec ℂ} (hB : IsLinearMap ℂ B) (hC : Carried (nTotal (pdSystem b)) (partnerMatrix π φ) B B) {r r' : ℕ → ℝ}
    (hr : ∀ i < m, (r i : ℂ) = Spec.expect (nTotal (pdSystem b)) B (v i))
    (hr' : ∀ i < m, (r' i : ℂ) = Spec.expect (nTotal (pdSystem b)) B (v' i)) :
    ∑ i ∈ range m, wt i * r i = ∑ i ∈ range m, wt i * r' i := by
  have e : ∀ (v : ℕ → Vec ℂ) (r : ℕ → ℝ), (∀ i < m, (r i : ℂ) = Spec.expect (nTotal (pdSystem b)) B (v i)) →
      ((∑ i ∈ range m, wt i * r i : ℝ) : ℂ) = ∑ i ∈ range m, (wt i : ℂ) * innerProduct (nTotal (pdSystem b)) (id (v i)) (B (v i)) := by
    intro v r hr
    rw [Complex.ofReal_sum]
    refine sum_congr rfl fun i hi => ?_
    rw [Complex.ofReal_mul, hr i (mem_range.1 hi)]
    rfl
  have h := half_trace hR hU hwt hv (A := id) (A' := id) (B := B) (B' := B) (c := 1) (d := 1)
    ⟨fun _ _ => rfl, fun _ _ => rfl⟩ hB (fun w => (one_smul ℂ _).symm) fun w => by rw [← hC, one_smul]
  rw [← e v r hr, ← e v' r' hr', star_one, one_mul, one_mul] at h
  exact_mod_cast h

include hR hU hwt hv in
/-- Sums of expectation values of operators that change sign. -/
theorem half_odd_trace {M : ℤ × ℤ → ℤ × ℤ → ℂ} (hM : ∀ x ∈ shell 2, ∀ y ∈ shell 2, M (flipState x) (flipState y) = -M x y) {r r' : ℕ → ℝ}
    (hr : ∀ i < m, (r i : ℂ) = Spec.expect (nTotal (pdSystem b)) (oneBody (position (pdSystem b)) 2 M) (v i))
    (hr' : ∀ i < m, (r' i : ℂ) = Spec.expect (nTotal (pdSystem b)) (oneBody (position (pdSystem b)) 2 M) (v' i)) :
    ∑ i ∈ range m, wt i * r i = -∑ i ∈ range m, wt i * r' i := by
  have e : ∀ (v : ℕ → Vec ℂ) (r : ℕ → ℝ), (∀ i < m, (r i : ℂ) = Spec.expect (nTotal (pdSystem b)) (oneBody (position (pdSystem b)) 2 M) (v i)) →
      ((∑ i ∈ range m, wt i * r i : ℝ) : ℂ)
      = ∑ i ∈ range m, (wt i : ℂ) * innerProduct (nTotal (pdSystem b)) (id (v i)) (oneBody (position (pdSystem b)) 2 M (v i)) := by
    intro v r hr
    rw [Complex.ofReal_sum]
    refine sum_congr rfl fun i hi => ?_
    rw [Complex.ofReal_mul, hr i (mem_range.1 hi)]
    rfl
  have h := half_trace hR hU hwt hv (A := id) (A' := id) (B := oneBody (position (pdSystem b)) 2 M)
    (B' := oneBody (position (pdSystem b)) 2 M) (c := 1) (d := -1)
    ⟨fun _ _ => rfl, fun _ _ => rfl⟩ (oneBody_isLinear _ _ _) (fun w => (one_smul ℂ _).symm) fun w => by
      rw [← half_oneBody hR (by simp) hM w]
      funext F
      rw [oneBody_neg, Pi.smul_apply, smul_eq_mul, neg_one_mul]
  rw [← e v r hr, ← e v' r' hr', star_one] at h
  have h2 : ((∑ i ∈ range m, wt i * r i : ℝ) : ℂ) = ((-∑ i ∈ range m, wt i * r' i : ℝ) : ℂ) := by
    rw [Complex.ofReal_neg]
    linear_combination h
  exact_mod_cast h2

include hR hU hwt hv in
/-- Opposite spins have the same sum of occupations. -/
theorem half_occ_trace {s : ℤ} (hs : s ∈ ({0, 1} : Finset ℤ)) {i : ℕ} (hi : i < 5) :
    ∑ k ∈ range m, (wt k : ℂ) * (realOccupation (nTotal (pdSystem b)) (position (pdSystem b)) (v k) s i : ℝ)
      = ∑ k ∈ range m, (wt k : ℂ) * (realOccupation (nTotal (pdSystem b)) (position (pdSystem b)) (v' k) (1 - s) i : ℝ) := by
  obtain ⟨σ, hσ, hw⟩ := half_real hR hs hi
  have h := half_trace hR hU hwt hv (A := annihilateReal (position (pdSystem b)) s i)
    (B := annihilateReal (position (pdSystem b)) s i) (A' := annihilateReal (position (pdSystem b)) (1 - s) i)
    (B' := annihilateReal (position (pdSystem b)) (1 - s) i) (annihilateReal_linear _ _ _) (annihilateReal_linear _ _ _) hw hw
  simp only [innerProduct_self] at h
  rw [hσ, one_mul] at h
  exact h

end

end

/-- The printed averages of two runs, if the states in the averages of one run are superpositions of the turned states of the
other. -/
theorem half_means {b : ℕ → ℕ} {P : BasisParams} {π : ℕ → ℕ} {φ : ℕ → ℂ} (hR : HalfTurn b P π φ) {kB e0 : ℝ}
    {energies : List ℝ} {psis psis' : List (Psi ℂ)} {thermal thermal' : ThermalValues} {rows rows' : List ExpRow}
    (hpm : PrintedMeans kB (nTotal (pdSystem b)) (position (pdSystem b)) energies psis thermal e0 rows)
    (hpm' : PrintedMeans kB (nTotal (pdSystem b)) (position (pdSystem b)) energies psis' thermal' e0 rows') {m : ℕ}
    (hm : m < energies.length) (hiff : ∀ i < energies.length, (energies.getD i 0 - e0 < 10 * kB * 300 ↔ i < m)) {U : ℕ → ℕ → ℂ}
    (hU : ∀ j < m, ∀ k < m, ∑ i ∈ range m, star (U i j) * U i k = if j = k then 1 else 0)
    (hU0 : ∀ i < m, ∀ j < m, energies.getD i 0 ≠ energies.getD j 0 → U i j = 0)
    (hv : ∀ i < m, ampl (nTotal (pdSystem b)) (psis'.getD i [])
      = changeOrbitals (nTotal (pdSystem b)) (partnerMatrix π φ) (mix m U (fun j => ampl (nTotal (pdSystem b)) (psis.getD j [])) i)) :
    thermal.lz = -thermal'.lz ∧ thermal.sz = -thermal'.sz ∧ thermal.n3d = thermal'.n3d ∧
    thermal.occ 0 = thermal'.occ 1 ∧ thermal.occ 1 = thermal'.occ 0 ∧ thermal.occ 2 = thermal'.occ 3 ∧
    thermal.occ 3 = thermal'.occ 2 ∧ thermal.lsqr = thermal'.lsqr ∧ thermal.ssqr = thermal'.ssqr := by
  have hwt : ∀ i < m, ∀ j < m, U i j ≠ 0 → Real.exp (-energies.getD i 0 / (kB * 300))
      = Real.exp (-energies.getD j 0 / (kB * 300)) := by
    intro i hi j hj hne
    by_cases he : energies.getD i 0 = energies.getD j 0
    · rw [he]
    · exact absurd (hU0 i hi j hj he) hne
  have hget : ∀ {β : Type} (rows : List ExpRow) (g : ExpRow → β) (d : β) i (hi : i < rows.length),
      (rows.map g).getD i d = g rows[i] := by
    intro β rows g d i hi
    rw [List.getD_eq_getElem _ _ (by rw [List.length_map]; exact hi), List.getElem_map]
  have hsum : ∀ {psis : List (Psi ℂ)} {thermal : ThermalValues} {rows : List ExpRow},
      PrintedMeans kB (nTotal (pdSystem b)) (position (pdSystem b)) energies psis thermal e0 rows →
      ∀ (k : ℕ) (g : ℕ → ℂ), (∀ i (hi : i < rows.length),
      RowMeans (nTotal (pdSystem b)) (position (pdSystem b)) (ampl (nTotal (pdSystem b)) (psis.getD i [])) rows[i] →
        rows[i].occ.getD k 0 = g i) →
      ∑ i ∈ range m, (Real.exp (-energies.getD i 0 / (kB * 300)) : ℂ) * (rows.map fun r => r.occ.getD k 0).getD i 0
        = ∑ i ∈ range m, (Real.exp (-energies.getD i 0 / (kB * 300)) : ℂ) * g i := by
    intro psis thermal rows hpm k g hg
    refine sum_congr rfl fun i hi => ?_
    have hi' : i < rows.length := by rw [hpm.count]; exact (mem_range.1 hi).trans hm
    rw [hget _ _ _ i hi', hg i hi' (hpm.table i hi').2]
  have hrow : ∀ {psis : List (Psi ℂ)} {thermal : ThermalValues} {rows : List ExpRow},
      PrintedMeans kB (nTotal (pdSystem b)) (position (pdSystem b)) energies psis thermal e0 rows → ∀ (g : ExpRow → ℝ)
      (Q : Vec ℂ → ℂ), (∀ v row, RowMeans (nTotal (pdSystem b)) (position (pdSystem b)) v row → (g row : ℂ) = Q v) →
      ∀ i < m, (((rows.map g).getD i 0 : ℝ) : ℂ) = Q (ampl (nTotal (pdSystem b)) (psis.getD i [])) := by
    intro psis thermal rows hpm g Q hQ i hi
    have hi' : i < rows.length := by rw [hpm.count]; exact hi.trans hm
    rw [hget _ _ _ i hi']
    exact hQ _ _ (hpm.table i hi').2
  have hocc0 : ∀ i < 5, _ := fun i hi => half_occ_trace hR hU hwt hv (s := 0) (by simp) hi
  have hocc1 : ∀ i < 5, _ := fun i hi => half_occ_trace hR hU hwt hv (s := 1) (by simp) hi
  simp only [sub_zero, sub_self] at hocc0 hocc1
  refine ⟨?_, ?_, ?_, ?_, ?_, ?_, ?_, ?_, ?_⟩
  · rw [hpm.lz, hpm'.lz, thermalMean_prefix hm hiff, thermalMean_prefix hm hiff]
    simp only [smul_eq_mul]
    rw [half_odd_trace hR hU hwt hv (fun x _ y _ => orbZ_half x y) (hrow hpm _ _ fun v row h => h.lz) (hrow hpm' _ _ fun v row h => h.lz),
      mul_neg]
  · rw [hpm.sz, hpm'.sz, thermalMean_prefix hm hiff, thermalMean_prefix hm hiff]
    simp only [smul_eq_mul]
    rw [half_odd_trace hR hU hwt hv (fun x hx y hy => spinZ_half (shell_spin hx) (shell_spin hy)) (hrow hpm _ _ fun v row h => h.sz)
      (hrow hpm' _ _ fun v row h => h.sz), mul_neg]
  · rw [hpm.n3d, hpm'.n3d, thermalMean_prefix hm hiff, thermalMean_prefix hm hiff]
    simp only [smul_eq_mul]
    rw [half_even_trace hR hU hwt hv (shellNumber_isLinear _ _) (shellTurn_number (half_shellTurn hR) (by simp)) (hrow hpm _ _ fun v row h => h.n3d) (hrow hpm' _ _ fun v row h => h.n3d)]
  · rw [hpm.occ, hpm'.occ]
    refine mean_congr hm hiff ?_
    rw [hsum hpm 0 _ fun i hi h => (row_occ h).1, hsum hpm' 1 _ fun i hi h => (row_occ h).2.1]
    simp only [mul_add, sum_add_distrib]
    rw [hocc0 0 (by norm_num), hocc0 1 (by norm_num)]
  · rw [hpm.occ, hpm'.occ]
    refine mean_congr hm hiff ?_
    rw [hsum hpm 1 _ fun i hi h => (row_occ h).2.1, hsum hpm' 0 _ fun i hi h => (row_occ h).1]
    simp only [mul_add, sum_add_distrib]
    rw [hocc1 0 (by norm_num), hocc1 1 (by norm_num)]
  · rw [hpm.occ, hpm'.occ]
    refine mean_congr hm hiff ?_
    rw [hsum hpm 2 _ fun i hi h => (row_occ h).2.2.1, hsum hpm' 3 _ fun i hi h => (row_occ h).2.2.2]
    simp only [mul_add, sum_add_distrib]
    rw [hocc0 2 (by norm_num), hocc0 3 (by norm_num), hocc0 4 (by norm_num)]
  · rw [hpm.occ, hpm'.occ]
    refine mean_congr hm hiff ?_
    rw [hsum hpm 3 _ fun i hi h => (row_occ h).2.2.2, hsum hpm' 2 _ fun i hi h => (row_occ h).2.2.1]
    simp only [mul_add, sum_add_distrib]
    rw [hocc1 2 (by norm_num), hocc1 3 (by norm_num), hocc1 4 (by norm_num)]
  · rw [hpm.lsqr, hpm'.lsqr, thermalMean_prefix hm hiff, thermalMean_prefix hm hiff]
    simp only [smul_eq_mul]
    rw [half_even_trace hR hU hwt hv
      (squareOf_linear (oneBody_isLinear _ _ _) (oneBody_isLinear _ _ _) (oneBody_isLinear _ _ _))
      (half_square hR (fun x _ y _ => orbZ_half x y) (fun x _ y _ => (orb_ladder_half 2 x y).1)
        (fun x _ y _ => (orb_ladder_half 2 x y).2) fun x hx z hz => orb_pm hx hz)
      (hrow hpm _ _ fun v row h => h.lsqr) (hrow hpm' _ _ fun v row h => h.lsqr)]
  · rw [hpm.ssqr, hpm'.ssqr, thermalMean_prefix hm hiff, thermalMean_prefix hm hiff]
    simp only [smul_eq_mul]
    rw [half_even_trace hR hU hwt hv
      (squareOf_linear (oneBody_isLinear _ _ _) (oneBody_isLinear _ _ _) (oneBody_isLinear _ _ _))
      (half_square hR (fun x hx y hy => spinZ_half (shell_spin hx) (shell_spin hy)) (fun x _ y _ => (spin_ladder_half x y).1)
        (fun x _ y _ => (spin_ladder_half x y).2) fun x hx z hz => spin_pm hx hz)
      (hrow hpm _ _ fun v row h => h.ssqr) (hrow hpm' _ _ fun v row h => h.ssqr)]

/-- The first states of a run, up to a gap, are superpositions of the turned states of the other. -/
theorem turn_mapped {b : ℕ → ℕ} {P : BasisParams} {h0 : Op Label ℂ} {u : ℕ → ℕ → ℂ} {D : ℕ → ℤ × ℤ → ℤ × ℤ → ℂ}
    {L L' : MainLib} {A A' : MainArgs} {hx hy hz hx' hy' hz' : ℝ} {energies energies' : List ℝ} {psis psis' : List (Psi ℂ)}
    {S S' : SimulateArgs} (hrun : MainRun L A b P hx hy hz h0 energies psis S)
    (hrun' : MainRun L' A' b P hx' hy' hz' h0 energies' psis' S') (hAA : A' = { A with hField := A'.hField })
    (hT : ShellTurn b P u D) (hgaunt : L'.gaunt = L.gaunt) (hS : S.Valid) (hC : Carried (nTotal (pdSystem b)) u
      (pdHamiltonian L.gaunt (position (pdSystem b)) A (P.n0 2) hx hy hz h0)
      (pdHamiltonian L.gaunt (position (pdSystem b)) A (P.n0 2) hx' hy' hz' h0))
    (hk : Renumbers (nTotal (pdSystem b)) u ∨ (ElementsKept S ∧ ElementsKept S')) (hE : energies' = energies) {m : ℕ}
    (hlt : m < energies.length) (hgap : ∀ i (_ : i < m), energies[i] < energies[m])
    (hn : ∀ i < m, ∑ F ∈ (range (nTotal (pdSystem b))).powerset,
      Complex.normSq (ampl (nTotal (pdSystem b)) (psis.getD i []) F) = 1)
    (hn' : ∀ i < m, ∑ F ∈ (range (nTotal (pdSystem b))).powerset,
      Complex.normSq (ampl (nTotal (pdSystem b)) (psis'.getD i []) F) = 1) :
    ∃ U : ℕ → ℕ → ℂ,
      (∀ j < m, ∀ k < m, ∑ i ∈ range m, star (U i j) * U i k = if j = k then 1 else 0) ∧
      (∀ i < m, ∀ j < m, energies.getD i 0 ≠ energies.getD j 0 → U i j = 0) ∧
      ∀ i < m, ampl (nTotal (pdSystem b)) (psis'.getD i [])
        = changeOrbitals (nTotal (pdSystem b)) u (mix m U (fun j => ampl (nTotal (pdSystem b)) (psis.getD j [])) i) := by
  classical
  have hsz' : nSpinOrbitals S.nBaths = nTotal (pdSystem b) := by
    rw [nSpinOrbitals_eq, hrun.system]; rfl
  set states : Finset (Finset ℕ) := {F ∈ (range (nTotal (pdSystem b))).powerset |
    IsConfiguration [(1, b 1), (2, b 2)] (pdSystem b) P F} with hstates
  have hst : ∀ F ∈ states, F ⊆ range (nTotal (pdSystem b)) := fun F hF => Finset.mem_powerset.1 (Finset.mem_filter.1 hF).1
  have hlow : LowestStates (nTotal (pdSystem b)) S.hOp 1e-12 1e-7 states energies psis := by convert hrun.lowest
  have hlow' : LowestStates (nTotal (pdSystem b)) S'.hOp 1e-12 1e-7 states energies psis' := by rw [← hE]; convert hrun'.lowest
  have hHam := turn_hamiltonian hrun hrun' hAA hT hgaunt hC hk
  have hsu : ∀ T ⊆ range (nTotal (pdSystem b)), ∀ F ⊆ range (nTotal (pdSystem b)), slater (nTotal (pdSystem b)) u T F ≠ 0 →
      (F ∈ states ↔ T ∈ states) := by
    intro T hT' F hF h
    rw [hstates, mem_filter, mem_filter, shellTurn_configuration hT hT' h]
    exact and_congr_left fun _ => iff_of_true (mem_powerset.2 hF) (mem_powerset.2 hT')
  have hherm := storedElement_hermitian hrun.dict.1 hS.hop hrun.dict.2 (1e-12 : ℝ) (s := states)
    fun F hF => by rw [hsz']; exact hst F hF
  have hl : (energies.take m).length = m := by rw [List.length_take]; omega
  have hget : ∀ {α : Type} (l : List α) (d : α), ∀ i < m, (l.take m).getD i d = l.getD i d := by
    intro α l d i hi
    rw [List.getD_eq_getElem?_getD, List.getD_eq_getElem?_getD, List.getElem?_take_of_lt hi]
  have hmem : ∀ {ps : List (Psi ℂ)} {Q : Psi ℂ → Prop}, (∀ i < m, Q (ps.getD i [])) → ∀ psi ∈ ps.take m, Q psi := by
    intro ps Q h psi hp
    obtain ⟨i, hi, rfl⟩ := List.getElem_of_mem hp
    have hi' : i < m := by rw [List.length_take] at hi; omega
    have := h i hi'
    rwa [← hget ps [] i hi', List.getD_eq_getElem _ _ hi] at this
  obtain ⟨U, h1, h2, h3⟩ := lowest_rebased (weight := 1e-7) (es := energies.take m) (kept := psis.take m) (kept' := psis'.take m)
    hT.unitary hst hHam hsu hherm hlow hlow' (by rw [hl]) (by rw [hl]) (by rw [hl]) (by rw [hl]; exact hlt)
    (fun i hi => by simp only [hl] at hi ⊢; exact hgap i hi) (hmem hn) (hmem hn')
  rw [hl] at h1 h2 h3
  refine ⟨U, h1, fun i hi j hj h => h2 i hi j hj ?_, fun i hi => ?_⟩
  · rwa [hget _ _ i hi, hget _ _ j hj]
  · rw [← hget psis' [] i hi, h3 i hi]
    congr 1
    funext F
    unfold mix
    exact sum_congr rfl fun j hj => by dsimp only; rw [hget _ _ j (mem_range.1 hj)]

end

end Verif
