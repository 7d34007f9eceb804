/-
Another choice of the bath states in main: the operators of the shells, the occupations, and averages of responses.
-/
import Verif.Lemmas.BathResponse
import Verif.Lemmas.Levels
import Verif.Lemmas.TimeReversal
import Verif.Spec.Cutoff
import Verif.Prop.Degenerate

namespace Verif

open Finset Mpi Psr Spec

noncomputable section

section
variable {b : ℕ → ℕ} {P : BasisParams} {u : ℕ → ℕ → ℂ} {h0 h0' : Op Label ℂ} (hB : BathChange b P u h0 h0')

/-! ### The operators of the shells -/

/-- The operator acts in the same way for both choices of the states. -/
def Unchanged (n : ℕ) (u : ℕ → ℕ → ℂ) (T : Vec ℂ → Vec ℂ) : Prop :=
  ∀ v, T (changeOrbitals n u v) = changeOrbitals n u (T v)

theorem impOrbs_lt {l : ℕ} (hl : l ∈ [1, 2]) {j : ℕ} (hj : j ∈ impOrbs (pdSystem b) l) : j < nTotal (pdSystem b) := by
  have h := shell_lt (b := b) hl (s := 1) (m := l) (by simp) (by unfold mRange; rw [mem_Icc]; omega)
  unfold impOrbs at hj
  rw [mem_Ico] at hj
  unfold position at h
  simp only [Int.toNat_one, one_mul] at h
  omega

include hB in
theorem unchanged_create {l : ℕ} (hl : l ∈ [1, 2]) {j : ℕ} (hj : j ∈ impOrbs (pdSystem b) l) :
    Unchanged (nTotal (pdSystem b)) u (create j) := by
  intro v
  have hj' := impOrbs_lt hl hj
  rw [changeOrbitals_create hj']
  funext F
  unfold createOrb
  rw [sum_eq_single_of_mem j (mem_range.2 hj'), (hB.shell l hl j hj j hj').1, if_pos rfl, one_mul]
  intro i hi hne
  rw [(hB.shell l hl j hj i (mem_range.1 hi)).1, if_neg hne, zero_mul]

include hB in
theorem unchanged_annihilate {l : ℕ} (hl : l ∈ [1, 2]) {j : ℕ} (hj : j ∈ impOrbs (pdSystem b) l) :
    Unchanged (nTotal (pdSystem b)) u (annihilate j) := by
  intro v
  have hj' := impOrbs_lt hl hj
  rw [changeOrbitals_annihilate hB.unitary hj']
  funext F
  unfold annihilateOrb
  rw [sum_eq_single_of_mem j (mem_range.2 hj'), (hB.shell l hl j hj j hj').1, if_pos rfl, star_one, one_mul]
  intro i hi hne
  rw [(hB.shell l hl j hj i (mem_range.1 hi)).1, if_neg hne, star_zero, zero_mul]

theorem Unchanged.comp {n : ℕ} {T T' : Vec ℂ → Vec ℂ} (h : Unchanged n u T) (h' : Unchanged n u T') :
    Unchanged n u fun v => T (T' v) := fun v => by show T (T' _) = _; rw [h', h]

theorem Unchanged.sum {n : ℕ} {ι : Type} {s : Finset ι} {c : ι → ℂ} {T : ι → Vec ℂ → Vec ℂ} (h : ∀ i ∈ s, Unchanged n u (T i)) :
    Unchanged n u fun v F => ∑ i ∈ s, c i * T i v F := by
  intro v
  rw [linear_apply_sum (changeOrbitals_linear n u)]
  funext F
  exact sum_congr rfl fun i hi => by rw [h i hi]

theorem Unchanged.add {n : ℕ} {T T' : Vec ℂ → Vec ℂ} (h : Unchanged n u T) (h' : Unchanged n u T') :
    Unchanged n u fun v F => T v F + T' v F := by
  intro v
  have e : (fun F => T v F + T' v F) = T v + T' v := rfl
  dsimp only
  rw [h, h', e, (changeOrbitals_linear n u).map_add]
  rfl

theorem Unchanged.smul {n : ℕ} {T : Vec ℂ → Vec ℂ} (h : Unchanged n u T) (c : ℂ) : Unchanged n u fun v F => c * T v F := by
  intro v
  have e : (fun F => c * T v F) = c • T v := rfl
  dsimp only
  rw [h, e, (changeOrbitals_linear n u).map_smul]
  rfl

include hB in
theorem unchanged_between {l l' : ℕ} (hl : l ∈ [1, 2]) (hl' : l' ∈ [1, 2]) (M : ℤ → ℤ → ℂ) :
    Unchanged (nTotal (pdSystem b)) u (between (position (pdSystem b)) l l' M) := by
  have h := Unchanged.sum (u := u) (n := nTotal (pdSystem b)) (s := ({0, 1} : Finset ℤ) ×ˢ mRange l ×ˢ mRange l')
    (c := fun x => M x.2.1 x.2.2) (T := fun x v => create (position (pdSystem b) (.imp l x.1 x.2.1))
      (annihilate (position (pdSystem b) (.imp l' x.1 x.2.2)) v)) (fun x hx => by
        obtain ⟨h1, h2⟩ := mem_product.1 hx
        obtain ⟨h2, h3⟩ := mem_product.1 h2
        exact (unchanged_create hB hl (position_mem h1 h2)).comp (unchanged_annihilate hB hl' (position_mem h1 h3)))
  have e : between (position (pdSystem b)) l l' M = fun v F => ∑ x ∈ ({0, 1} : Finset ℤ) ×ˢ mRange l ×ˢ mRange l',
      M x.2.1 x.2.2 * create (position (pdSystem b) (.imp l x.1 x.2.1))
      (annihilate (position (pdSystem b) (.imp l' x.1 x.2.2)) v) F := by
    funext v F
    unfold between
    simp only [sum_product]
  rw [e]
  exact h

include hB in
theorem unchanged_oneBody {l : ℕ} (hl : l ∈ [1, 2]) (M : ℤ × ℤ → ℤ × ℤ → ℂ) :
    Unchanged (nTotal (pdSystem b)) u (oneBody (position (pdSystem b)) l M) := by
  refine Unchanged.sum (s := shell l ×ˢ shell l) (c := fun x => M x.1 x.2)
    (T := fun x v => create (position (pdSystem b) (.imp l x.1.1 x.1.2)) (annihilate (position (pdSystem b) (.imp l x.2.1 x.2.2)) v))
    fun x hx => ?_
  obtain ⟨h1, h2⟩ := mem_product.1 hx
  obtain ⟨a1, a2⟩ := mem_product.1 h1
  obtain ⟨b1, b2⟩ := mem_product.1 h2
  exact (unchanged_create hB hl (position_mem a1 a2)).comp (unchanged_annihilate hB hl (position_mem b1 b2))

include hB in
theorem unchanged_shellNumber {l : ℕ} (hl : l ∈ [1, 2]) :
    Unchanged (nTotal (pdSystem b)) u (shellNumber (position (pdSystem b)) l) := by
  have h := Unchanged.sum (u := u) (n := nTotal (pdSystem b)) (s := shell l) (c := fun _ => 1)
    (T := fun x v => create (position (pdSystem b) (.imp l x.1 x.2)) (annihilate (position (pdSystem b) (.imp l x.1 x.2)) v))
    (fun x hx => by
      obtain ⟨a1, a2⟩ := mem_product.1 hx
      exact (unchanged_create hB hl (position_mem a1 a2)).comp (unchanged_annihilate hB hl (position_mem a1 a2)))
  simp only [one_mul] at h
  exact h

include hB in
theorem unchanged_twoBody {l1 l2 l3 l4 : ℕ} (h1 : l1 ∈ [1, 2]) (h2 : l2 ∈ [1, 2]) (h3 : l3 ∈ [1, 2]) (h4 : l4 ∈ [1, 2])
    (c : ℤ → ℤ → ℤ → ℤ → ℝ) : Unchanged (nTotal (pdSystem b)) u (twoBody (position (pdSystem b)) l1 l2 l3 l4 c) := by
  have e : twoBody (position (pdSystem b)) l1 l2 l3 l4 c = fun v F =>
      ∑ x ∈ mRange l1 ×ˢ mRange l2 ×ˢ mRange l3 ×ˢ mRange l4 ×ˢ ({0, 1} : Finset ℤ) ×ˢ ({0, 1} : Finset ℤ),
        (1 / 2 * (c x.1 x.2.1 x.2.2.1 x.2.2.2.1 : ℂ)) *
        create (position (pdSystem b) (.imp l1 x.2.2.2.2.1 x.1)) (create (position (pdSystem b) (.imp l2 x.2.2.2.2.2 x.2.1))
          (annihilate (position (pdSystem b) (.imp l3 x.2.2.2.2.2 x.2.2.1))
            (annihilate (position (pdSystem b) (.imp l4 x.2.2.2.2.1 x.2.2.2.1)) v))) F := by
    funext v F
    unfold twoBody
    simp only [sum_product, mul_sum, mul_assoc]
  rw [e]
  refine Unchanged.sum fun x hx => ?_
  simp only [mem_product] at hx
  obtain ⟨a1, a2, a3, a4, a5, a6⟩ := hx
  exact (unchanged_create hB h1 (position_mem a5 a1)).comp ((unchanged_create hB h2 (position_mem a6 a2)).comp
    ((unchanged_annihilate hB h3 (position_mem a6 a3)).comp (unchanged_annihilate hB h4 (position_mem a5 a4))))

include hB in
theorem unchanged_planeWave (S : SimulateArgs) (q : ℝ) : Unchanged (nTotal (pdSystem b)) u (planeWaveDD S b q) :=
  (unchanged_between hB (by simp) (by simp) _).smul _

include hB in
/-- The Hamiltonian for the two choices of the states. -/
theorem pdHamiltonian_change (gaunt : GauntFun) (A : MainArgs) (n3d : ℤ) (hx hy hz : ℝ) (v : Vec ℂ) {F : Finset ℕ}
    (hF : F ⊆ range (nTotal (pdSystem b))) :
    pdHamiltonian gaunt (position (pdSystem b)) A n3d hx hy hz h0' (changeOrbitals (nTotal (pdSystem b)) u v) F
      = changeOrbitals (nTotal (pdSystem b)) u (pdHamiltonian gaunt (position (pdSystem b)) A n3d hx hy hz h0 v) F := by
  have m1 : 1 ∈ [1, 2] := by simp
  have m2 : 2 ∈ [1, 2] := by simp
  have hC := ((unchanged_twoBody hB m2 m2 m2 m2 (coulomb gaunt 2 2 2 2 A.Fdd)).add
    (unchanged_twoBody hB m1 m1 m1 m1 (coulomb gaunt 1 1 1 1 A.Fpp))).add
    ((unchanged_twoBody hB m1 m2 m2 m1 (coulomb gaunt 1 2 2 1 A.Fpd)).add
      (unchanged_twoBody hB m2 m1 m1 m2 (coulomb gaunt 2 1 1 2 A.Fpd)))
  have hC := hC.add ((unchanged_twoBody hB m1 m2 m1 m2 (coulomb gaunt 1 2 1 2 A.Gpd)).add
    (unchanged_twoBody hB m2 m1 m2 m1 (coulomb gaunt 2 1 2 1 A.Gpd)))
  have hO := ((hC.add (unchanged_oneBody hB m2 (hDotS hx hy hz))).add
    (unchanged_oneBody hB m1 fun x y => (A.xi2p : ℂ) * lDotS 1 x y)).add
    (unchanged_oneBody hB m2 fun x y => (A.xi3d : ℂ) * lDotS 2 x y)
  have hN := (((unchanged_shellNumber hB m2).smul
    ((averageUdd A.Fdd * n3d + averageUpd A.Fpd A.Gpd * 6 - A.chargeTransferCorrection : ℝ) : ℂ)).add
    ((unchanged_shellNumber hB m1).smul ((averageUpd A.Fpd A.Gpd * (n3d + 1) - A.chargeTransferCorrection : ℝ) : ℂ))).smul (-1)
  have hT := hO.add hN
  have e : ∀ h w, pdHamiltonian gaunt (position (pdSystem b)) A n3d hx hy hz h w
      = (fun F => (twoBody (position (pdSystem b)) 2 2 2 2 (coulomb gaunt 2 2 2 2 A.Fdd) w F
            + twoBody (position (pdSystem b)) 1 1 1 1 (coulomb gaunt 1 1 1 1 A.Fpp) w F
            + (twoBody (position (pdSystem b)) 1 2 2 1 (coulomb gaunt 1 2 2 1 A.Fpd) w F
              + twoBody (position (pdSystem b)) 2 1 1 2 (coulomb gaunt 2 1 1 2 A.Fpd) w F)
            + (twoBody (position (pdSystem b)) 1 2 1 2 (coulomb gaunt 1 2 1 2 A.Gpd) w F
              + twoBody (position (pdSystem b)) 2 1 2 1 (coulomb gaunt 2 1 2 1 A.Gpd) w F))
          + oneBody (position (pdSystem b)) 2 (hDotS hx hy hz) w F
          + oneBody (position (pdSystem b)) 1 (fun x y => (A.xi2p : ℂ) * lDotS 1 x y) w F
          + oneBody (position (pdSystem b)) 2 (fun x y => (A.xi3d : ℂ) * lDotS 2 x y) w F
          + -1 * (((averageUdd A.Fdd * n3d + averageUpd A.Fpd A.Gpd * 6 - A.chargeTransferCorrection : ℝ) : ℂ)
              * shellNumber (position (pdSystem b)) 2 w F
            + ((averageUpd A.Fpd A.Gpd * (n3d + 1) - A.chargeTransferCorrection : ℝ) : ℂ)
              * shellNumber (position (pdSystem b)) 1 w F))
        + operator (labelSpec (position (pdSystem b)) h) w := by
    intro h w
    funext F
    rw [Pi.add_apply]
    unfold pdHamiltonian
    ring
  rw [e, e, (changeOrbitals_linear _ u).map_add, Pi.add_apply, Pi.add_apply, hB.carried v F hF]
  exact congrArg (· + _) (congrFun (hT v) F)

/-! ### The occupations -/

include hB in
theorem slater_occupations {l : ℕ} (hl : l ∈ [1, 2]) {T F : Finset ℕ} (hT : T ⊆ range (nTotal (pdSystem b)))
    (h : slater (nTotal (pdSystem b)) u T F ≠ 0) :
    (F ∩ impOrbs (pdSystem b) l).card = (T ∩ impOrbs (pdSystem b) l).card ∧
    (F ∩ valOrbs (pdSystem b) l (P.val l)).card = (T ∩ valOrbs (pdSystem b) l (P.val l)).card ∧
    (F ∩ conOrbs (pdSystem b) l (b l) (P.val l)).card = (T ∩ conOrbs (pdSystem b) l (b l) (P.val l)).card := by
  refine ⟨slater_count (fun i hi j hj hne => ?_) hT h, slater_count (fun i hi j hj hne => (hB.bath l hl i hi j hj hne).1) hT h,
    slater_count (fun i hi j hj hne => (hB.bath l hl i hi j hj hne).2) hT h⟩
  constructor
  · intro hm
    have h1 := (hB.shell l hl i hm j hj).2
    rw [h1, ne_eq, ite_eq_right_iff, not_forall] at hne
    exact hne.1 ▸ hm
  · intro hm
    have h1 := (hB.shell l hl j hm i hi).1
    rw [h1, ne_eq, ite_eq_right_iff, not_forall] at hne
    exact hne.1 ▸ hm

include hB in
theorem slater_configuration {T F : Finset ℕ} (hT : T ⊆ range (nTotal (pdSystem b))) (h : slater (nTotal (pdSystem b)) u T F ≠ 0) :
    IsConfiguration [(1, b 1), (2, b 2)] (pdSystem b) P F ↔ IsConfiguration [(1, b 1), (2, b 2)] (pdSystem b) P T := by
  refine forall_congr' fun p => forall_congr' fun hp => ?_
  have hp' : p.1 ∈ [1, 2] ∧ p.2 = b p.1 := by
    simp only [List.mem_cons, List.not_mem_nil, or_false] at hp
    rcases hp with rfl | rfl <;> simp
  obtain ⟨c1, c2, c3⟩ := slater_occupations hB hp'.1 hT h
  rw [hp'.2, c1, c2, c3]

include hB in
theorem slater_allowed {L : MainLib} {A : MainArgs} {hx hy hz : ℝ} {energies : List ℝ} {psis : List (Psi ℂ)} {S : SimulateArgs}
    {h : Op Label ℂ} (hrun : MainRun L A b P hx hy hz h energies psis S) {T F : Finset ℕ} (hT : T ⊆ range (nTotal (pdSystem b)))
    (hs : slater (nTotal (pdSystem b)) u T F ≠ 0) : AllowedOpt S.restrictions F ↔ AllowedOpt S.restrictions T := by
  obtain ⟨r, hr, hall⟩ := hrun.excited
  obtain ⟨c1, c2, c3⟩ := slater_occupations hB (l := 2) (by simp) hT hs
  rw [hr]
  show Allowed r _ ↔ Allowed r _
  rw [hall, hall, c1, c2, c3]

end

/-! ### Responses -/

/-- Two calculations that differ by the choice of the states. -/
structure Rebased (S S' : SimulateArgs) (u : ℕ → ℕ → ℂ) : Prop where
  size : size S' = size S
  unitary : UnitaryOn (Spec.size S) u
  same : SameOperator (Spec.size S) u (hamilton S) (hamilton S')
  allowed : ∀ F, AllowedOpt S'.restrictions F ↔ AllowedOpt S.restrictions F
  count : ∀ T ⊆ range (Spec.size S), ∀ F ⊆ range (Spec.size S), slater (Spec.size S) u T F ≠ 0 →
    (AllowedOpt S.restrictions F ↔ AllowedOpt S.restrictions T)
  es : S'.es = S.es
  states : ∃ U : ℕ → ℕ → ℂ,
    (∀ j < S.es.length, ∀ k < S.es.length, ∑ i ∈ range S.es.length, star (U i j) * U i k = if j = k then 1 else 0) ∧
    (∀ i < S.es.length, ∀ j < S.es.length, S.es.getD i 0 ≠ S.es.getD j 0 → U i j = 0) ∧
    ∀ i < S.es.length, ampl (Spec.size S) (S'.psis.getD i [])
      = changeOrbitals (Spec.size S) u (mix S.es.length U (fun j => ampl (Spec.size S) (S.psis.getD j [])) i)

theorem allowedPart_linear (n : ℕ) (r : Option Restrictions) {T : Vec ℂ → Vec ℂ} (hT : IsLinearMap ℂ T) :
    IsLinearMap ℂ (allowedPart n r T) := by
  constructor
  · intro v w
    funext F
    unfold allowedPart
    rw [Pi.add_apply]
    split
    · rw [hT.map_add]; rfl
    · rw [add_zero]
  · intro c v
    funext F
    unfold allowedPart
    rw [Pi.smul_apply]
    split
    · rw [hT.map_smul]; rfl
    · rw [smul_zero]

section
variable {S S' : SimulateArgs} {u : ℕ → ℕ → ℂ} (hM : Rebased S S' u)

include hM in
theorem Rebased.part {T : Vec ℂ → Vec ℂ} (hT : Unchanged (Spec.size S) u T) (v : Vec ℂ) :
    allowedPart (Spec.size S) S.restrictions T (changeOrbitals (Spec.size S) u v)
      = changeOrbitals (Spec.size S) u (allowedPart (Spec.size S) S.restrictions T v) := by
  have h := changeOrbitals_part (Q := AllowedOpt S.restrictions) hM.count (T v)
  have h1 : changeOrbitals (Spec.size S) u (allowedPart (Spec.size S) S.restrictions T v)
      = changeOrbitals (Spec.size S) u (onlyIn (AllowedOpt S.restrictions) (T v)) :=
    changeOrbitals_local fun F hF => by
      unfold allowedPart onlyIn
      simp only [hF, true_and]
  rw [h1, h]
  funext F
  unfold allowedPart onlyIn
  rw [hT]
  by_cases hF : F ⊆ range (Spec.size S)
  · simp only [hF, true_and]
  · rw [if_neg fun h => hF h.1, changeOrbitals_outside _ F hF, ite_self]

include hM in
theorem Rebased.exciteVec' {T : Vec ℂ → Vec ℂ} {x : Vec ℂ} (h : NothingLost S' T x) :
    exciteVec S' T x = allowedPart (Spec.size S) S.restrictions T x := by
  rw [exciteVec_eq h]
  funext F
  unfold allowedPart
  rw [hM.size]
  simp only [hM.allowed]

theorem exciteVec_part {T : Vec ℂ → Vec ℂ} {x : Vec ℂ} (h : NothingLost S T x) :
    exciteVec S T x = allowedPart (Spec.size S) S.restrictions T x := exciteVec_eq h

include hM in
theorem Rebased.excite {T : Vec ℂ → Vec ℂ} (hlin : IsLinearMap ℂ T) (hT : Unchanged (Spec.size S) u T)
    (hr : ∀ i < S.es.length, NothingLost S T (ampl (Spec.size S) (S.psis.getD i [])))
    (hr' : ∀ i < S'.es.length, NothingLost S' T (ampl (Spec.size S') (S'.psis.getD i []))) :
    ∃ U : ℕ → ℕ → ℂ,
      (∀ j < S.es.length, ∀ k < S.es.length, ∑ i ∈ range S.es.length, star (U i j) * U i k = if j = k then 1 else 0) ∧
      (∀ i < S.es.length, ∀ j < S.es.length, S.es.getD i 0 ≠ S.es.getD j 0 → U i j = 0) ∧
      ∀ i < S.es.length, Spec.excite S' T i = changeOrbitals (Spec.size S) u (mix S.es.length U (Spec.excite S T) i) := by
  obtain ⟨U, h1, h2, h3⟩ := hM.states
  refine ⟨U, h1, h2, fun i hi => ?_⟩
  have hi' : i < S'.es.length := by rw [hM.es]; exact hi
  unfold Spec.excite
  rw [hM.exciteVec' (hr' i hi'), hM.size, h3 i hi, hM.part hT, linear_mix (allowedPart_linear _ _ hlin)]
  congr 1
  refine mix_congr fun j hj _ => ?_
  exact (exciteVec_part (hr j hj)).symm

theorem excite_outside (T : Vec ℂ → Vec ℂ) (i : ℕ) (F : Finset ℕ) (hF : ¬ F ⊆ range (Spec.size S)) : Spec.excite S T i F = 0 :=
  if_neg fun h => hF h.1

theorem mix_outside {n m : ℕ} {U : ℕ → ℕ → ℂ} {v : ℕ → Vec ℂ} (h : ∀ j F, ¬ F ⊆ range n → v j F = 0) (i : ℕ) (F : Finset ℕ)
    (hF : ¬ F ⊆ range n) : mix m U v i F = 0 :=
  sum_eq_zero fun j _ => by rw [h j F hF, mul_zero]

include hM in
theorem Rebased.response {T : Vec ℂ → Vec ℂ} (hlin : IsLinearMap ℂ T) (hT : Unchanged (Spec.size S) u T)
    (hr : ∀ i < S.es.length, NothingLost S T (ampl (Spec.size S) (S.psis.getD i [])))
    (hr' : ∀ i < S'.es.length, NothingLost S' T (ampl (Spec.size S') (S'.psis.getD i [])))
    (weight : ℝ → ℂ) (z : ℂ) {g g' : ℕ → ℂ} (hg : ∀ i < S.es.length, IsResponse S T i z (g i))
    (hg' : ∀ i < S'.es.length, IsResponse S' T i z (g' i)) :
    ∑ i ∈ range S.es.length, weight (S.es.getD i 0) * g' i = ∑ i ∈ range S.es.length, weight (S.es.getD i 0) * g i := by
  obtain ⟨U, h1, h2, h3⟩ := hM.excite hlin hT hr hr'
  refine green_mix (n := Spec.size S) (hamiltonian_linear _ _ _ _) h1 (boltzmann_congr h2 weight)
    (boltzmann_congr h2 fun e => z + (e : ℂ)) (fun i _ => rfl) hg fun i hi => ?_
  have h := hg' i (by rw [hM.es]; exact hi)
  unfold IsResponse at h
  rw [hM.size, hM.es, h3 i hi] at h
  exact hM.same.green hM.unitary (mix_outside (fun j => excite_outside T j) i) h

include hM in
theorem Rebased.rixs {T T' : Vec ℂ → Vec ℂ} (hlin : IsLinearMap ℂ T) (hlin' : IsLinearMap ℂ T')
    (hT : Unchanged (Spec.size S) u T) (hT' : Unchanged (Spec.size S) u T') (weight : ℝ → ℂ) (z₁ z₂ : ℂ)
    (hr : ∀ i < S.es.length, NothingLost S T (ampl (Spec.size S) (S.psis.getD i [])) ∧
      ∀ x, Solves (Spec.size S) (hamilton S) (z₁ + (S.es.getD i 0 : ℂ)) (Spec.excite S T i) x → NothingLost S T' x)
    (hr' : ∀ i < S'.es.length, NothingLost S' T (ampl (Spec.size S') (S'.psis.getD i [])) ∧
      ∀ x, Solves (Spec.size S') (hamilton S') (z₁ + (S'.es.getD i 0 : ℂ)) (Spec.excite S' T i) x → NothingLost S' T' x)
    {g g' : ℕ → ℂ}
    (hg : ∀ i < S.es.length, IsRixs (Spec.size S) (hamilton S) (z₁ + (S.es.getD i 0 : ℂ)) (z₂ + (S.es.getD i 0 : ℂ))
      (Spec.excite S T i) (exciteVec S T') (g i))
    (hg' : ∀ i < S'.es.length, IsRixs (Spec.size S') (hamilton S') (z₁ + (S'.es.getD i 0 : ℂ)) (z₂ + (S'.es.getD i 0 : ℂ))
      (Spec.excite S' T i) (exciteVec S' T') (g' i)) :
    ∑ i ∈ range S.es.length, weight (S.es.getD i 0) * g' i = ∑ i ∈ range S.es.length, weight (S.es.getD i 0) * g i := by
  obtain ⟨U, h1, h2, h3⟩ := hM.excite hlin hT (fun i hi => (hr i hi).1) fun i hi => (hr' i hi).1
  refine rixs_mix (n := Spec.size S) (H := hamilton S) (T := allowedPart (Spec.size S) S.restrictions T') (hamiltonian_linear _ _ _ _)
    (allowedPart_linear _ _ hlin') h1 (boltzmann_congr h2 weight)
    (boltzmann_congr h2 fun e => z₁ + (e : ℂ)) (boltzmann_congr h2 fun e => z₂ + (e : ℂ)) (b := Spec.excite S T) (fun i _ => rfl)
    (fun i hi => ?_) fun i hi => ?_
  · obtain ⟨x, k1, k2, k3⟩ := hg i hi
    refine ⟨x, k1, k2, ?_⟩
    rw [← exciteVec_part ((hr i hi).2 x k1)]
    exact k3
  · have hi' : i < S'.es.length := by rw [hM.es]; exact hi
    have h := hg' i hi'
    have h4 := (hr' i hi').2
    rw [hM.size, hM.es, h3 i hi] at h h4
    refine hM.same.rixs hM.unitary (mix_outside (fun j => excite_outside T j) i) (fun x hx => ?_) (fun v F hF => ?_) h
    · rw [hM.exciteVec' (h4 _ (hM.same.solves hx)), hM.part hT']
    · exact if_neg fun h => hF h.1

end

/-! ### Eigenvectors -/

/-- The eigenvectors of two correct solvers for the two choices of the states. -/
theorem lowest_rebased {n : ℕ} {u : ℕ → ℕ → ℂ} (hu : UnitaryOn n u) {op op' : Op ℕ ℂ} {cut weight : ℝ} {states : Finset (Finset ℕ)}
    {energies es : List ℝ} {psis psis' kept kept' : List (Psi ℂ)} (hst : ∀ S ∈ states, S ⊆ range n)
    (hD : ∀ v, hamiltonian n op' cut none (changeOrbitals n u v) = changeOrbitals n u (hamiltonian n op cut none v))
    (hsu : ∀ T ⊆ range n, ∀ F ⊆ range n, slater n u T F ≠ 0 → (F ∈ states ↔ T ∈ states))
    (hH : ∀ S ∈ states, ∀ T ∈ states, storedElement op cut S T = star (storedElement op cut T S))
    (h : LowestStates n op cut weight states energies psis) (h' : LowestStates n op' cut weight states energies psis')
    (hes : es = energies.take es.length) (hk : kept = psis.take es.length) (hk' : kept' = psis'.take es.length)
    (hlt : es.length < energies.length) (hgap : ∀ i (hi : i < es.length), energies[i] < energies[es.length])
    (hn : ∀ psi ∈ kept, ∑ S ∈ (range n).powerset, Complex.normSq (ampl n psi S) = 1)
    (hn' : ∀ psi ∈ kept', ∑ S ∈ (range n).powerset, Complex.normSq (ampl n psi S) = 1) :
    ∃ U : ℕ → ℕ → ℂ,
      (∀ j < es.length, ∀ k < es.length, ∑ i ∈ range es.length, star (U i j) * U i k = if j = k then 1 else 0) ∧
      (∀ i < es.length, ∀ j < es.length, es.getD i 0 ≠ es.getD j 0 → U i j = 0) ∧
      ∀ i < es.length, ampl n (kept'.getD i [])
        = changeOrbitals n u (mix es.length U (fun j => ampl n (kept.getD j [])) i) := by
  obtain ⟨h1, hl, x, h2, h3, h4, h5⟩ := h
  obtain ⟨h1', hl', x', h2', h3', h4', h5'⟩ := h'
  have hlow' := change_lowest hu hD hst hsu (⟨h1', h2', h3', h4'⟩ : LowestIn states (storedElement op' cut) energies x')
  obtain ⟨U, hU, hU0, hx⟩ := (⟨h1, h2, h3, h4⟩ : LowestIn states (storedElement op cut) energies x).unitary hlow' hH hlt hgap
  have hget : ∀ i < es.length, es.getD i 0 = energies.getD i 0 := by
    intro i hi
    rw [hes, List.getD_eq_getElem?_getD, List.getD_eq_getElem?_getD, List.getElem?_take_of_lt hi]
  have hψ : ∀ i (hi : i < es.length) (hi' : i < psis.length), kept.getD i [] = psis[i] ∧ psis[i] ∈ kept := by
    intro i hi hi'
    have e : kept[i]? = some psis[i] := by rw [hk, List.getElem?_take_of_lt hi, List.getElem?_eq_getElem hi']
    exact ⟨by rw [List.getD_eq_getElem?_getD, e]; rfl, List.mem_of_getElem? e⟩
  have hψ' : ∀ i (hi : i < es.length) (hi' : i < psis'.length), kept'.getD i [] = psis'[i] ∧ psis'[i] ∈ kept' := by
    intro i hi hi'
    have e : kept'[i]? = some psis'[i] := by rw [hk', List.getElem?_take_of_lt hi, List.getElem?_eq_getElem hi']
    exact ⟨by rw [List.getD_eq_getElem?_getD, e]; rfl, List.mem_of_getElem? e⟩
  have ha : ∀ i < es.length, ampl n (kept.getD i []) = onlyIn (· ∈ states) (x i) := by
    intro i hi
    funext F
    have hi' : i < psis.length := by omega
    rw [(hψ i hi hi').1]
    exact pruned_eq hst ((h2 i (by omega) i (by omega)).trans (if_pos rfl)) (h5 i hi').2 (hn _ (hψ i hi hi').2) F
  have ha' : ∀ i < es.length, ampl n (kept'.getD i []) = onlyIn (· ∈ states) (x' i) := by
    intro i hi
    funext F
    have hi' : i < psis'.length := by omega
    rw [(hψ' i hi hi').1]
    exact pruned_eq hst ((h2' i (by omega) i (by omega)).trans (if_pos rfl)) (h5' i hi').2 (hn' _ (hψ' i hi hi').2) F
  have hsu' : ∀ T ⊆ range n, ∀ F ⊆ range n, slater n (adjointOrb u) T F ≠ 0 → (F ∈ states ↔ T ∈ states) := by
    intro T hT F hF h
    rw [slater_adjoint hu hT hF] at h
    exact (hsu F hF T hT (star_ne_zero.1 h)).symm
  refine ⟨U, hU, fun i hi j hj hne => hU0 i hi j hj (by rwa [← hget i hi, ← hget j hj]), fun i hi => ?_⟩
  have e : mix es.length U (fun j => ampl n (kept.getD j [])) i
      = changeOrbitals n (adjointOrb u) (onlyIn (· ∈ states) (x' i)) := by
    rw [← onlyIn_idem, changeOrbitals_part hsu']
    funext F
    by_cases hF : F ∈ states
    · refine Eq.trans (sum_congr rfl fun j hj => ?_) ((if_pos hF).trans (hx i hi F hF)).symm
      dsimp only
      rw [ha j (mem_range.1 hj)]
      exact congrArg _ (if_pos hF)
    · refine Eq.trans (sum_eq_zero fun j hj => ?_) (if_neg hF).symm
      dsimp only
      rw [ha j (mem_range.1 hj)]
      exact (congrArg _ (if_neg hF)).trans (mul_zero _)
  rw [e, changeOrbitals_right hu, ha' i hi, inside_onlyIn hst]

end

end Verif
