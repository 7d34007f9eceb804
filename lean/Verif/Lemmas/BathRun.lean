/-
A run of main with bath states: nine electrons in a d shell above a full p shell, and two filled bath states of the
d shell, numbered in either order.
-/
import Verif.Lemmas.DegenerateExample

namespace Verif

open Finset Mpi Psr Spec Matrix

noncomputable section

/-! ### The arguments -/

/-- The label of the spin-orbital `i`. -/
def ligLabel (i : ℕ) : Label :=
  if i < 16 then holeLabel i else .bath (.int 2) ((i - 16 : ℕ) : ℤ)

/-- The energy of the spin-orbital `i`: `2 ^ σ i / 4096`. -/
def ligLevel (σ : Equiv.Perm ℕ) (i : ℕ) : ℂ := (2 : ℂ) ^ σ i / 4096

def ligLevels (σ : Equiv.Perm ℕ) : Op Label ℂ := (List.range 18).map fun i => (oneProcess (ligLabel i) (ligLabel i), ligLevel σ i)

/-- The two orders of the bath states. -/
class LigOrder (σ : Equiv.Perm ℕ) : Prop where
  cases : σ = 1 ∨ σ = Equiv.swap 16 17

instance : LigOrder 1 := ⟨.inl rfl⟩

instance : LigOrder (Equiv.swap 16 17) := ⟨.inr rfl⟩

/-- Two bath states of the d shell. -/
def ligBaths (l : ℕ) : ℕ := if l = 2 then 2 else 0

def ligArgs (σ : Equiv.Perm ℕ) (T : ℝ) : MainArgs :=
  { holeArgs 0 T [] with h0 := .pickle (ligLevels σ), nBaths := [0, 2], nValBaths := [0, 2], nPsiMax := 2 }

def ligParams : BasisParams where
  val l := if l = 2 then 2 else 0
  dnVal _ := 0
  dnCon _ := 0
  tol _ := 0
  n0 l := if l = 1 then 6 else 9

/-- The energy of a product state. -/
def ligEnergy (σ : Equiv.Perm ℕ) (F : Finset ℕ) : ℂ := (((∑ i ∈ F, 2 ^ σ i : ℕ) / 4096 : ℝ) : ℂ)

theorem ligLevel_sum (σ : Equiv.Perm ℕ) (F : Finset ℕ) : ∑ i ∈ F, ligLevel σ i = ligEnergy σ F := by
  unfold ligLevel ligEnergy
  rw [← Finset.sum_div]
  push_cast
  rfl

/-- The system. -/
abbrev ligSystem : NBaths := pdSystem ligBaths

theorem ligSystem_size : nTotal ligSystem = 18 := by decide

theorem ligArgs_valid (σ : Equiv.Perm ℕ) (T : ℝ) : (ligArgs σ T).Valid where
  delta := by norm_num [ligArgs, holeArgs]
  deltaRIXS := by norm_num [ligArgs, holeArgs]
  deltaNIXS := by norm_num [ligArgs, holeArgs]

/-- The product states of the basis: one hole in the d shell. -/
def ligStates : List (Finset ℕ) := (List.range 10).map fun i => (range 18).erase (15 - i)

def ligRestrictions : Restrictions := [(range 16 \ range 6, (8, 10)), ({16, 17}, (2, 2)), (∅, (0, 0))]

variable {σ : Equiv.Perm ℕ}

theorem ligLabel_position : ∀ i < 18, position ligSystem (ligLabel i) = i := by decide +kernel

theorem ligLabel_in : ∀ i < 18, InSystem ligSystem (ligLabel i) := by
  intro i hi
  unfold ligLabel
  split
  · unfold holeLabel
    split
    · exact ⟨by decide, by omega, by omega, by omega, by omega⟩
    · exact ⟨by decide, by omega, by omega, by omega, by omega⟩
  · exact ⟨2, by decide, by omega, by omega⟩

theorem ligLevels_keys : Dict.keys (ligLevels σ) = (List.range 18).map fun i => oneProcess (ligLabel i) (ligLabel i) := by
  unfold ligLevels Dict.keys
  rw [List.map_map]
  rfl

theorem ligLevels_nodup : Dict.NodupKeys (ligLevels σ) := by
  rw [Dict.NodupKeys, ligLevels_keys]
  decide +kernel

theorem ligLevels_get {q : Process Label} {x : ℂ} (h : Dict.get? (ligLevels σ) q = some x) :
    ∃ i < 18, q = oneProcess (ligLabel i) (ligLabel i) ∧ x = ligLevel σ i := by
  have := Dict.mem_of_get? h
  unfold ligLevels at this
  obtain ⟨i, hi, e⟩ := List.mem_map.1 this
  cases e
  exact ⟨i, List.mem_range.1 hi, rfl, rfl⟩

theorem ligLevels_hermitian : HermitianStrengths (ligLevels σ) := by
  apply strength_of_hermitian ligLevels_nodup
  intro p
  rw [get?_daggerOp _ ligLevels_nodup]
  have self : ∀ q x, Dict.get? (ligLevels σ) q = some x → dagProcess q = q := by
    intro q x h
    obtain ⟨i, -, rfl, -⟩ := ligLevels_get h
    rfl
  cases h : Dict.get? (ligLevels σ) (dagProcess p) with
  | some x =>
    have := self _ _ h
    rw [dagProcess_dagProcess] at this
    rw [← this] at h
    rw [h]
    obtain ⟨i, -, -, rfl⟩ := ligLevels_get h
    rw [Option.map_some]
    unfold ligLevel
    rw [star_div₀, star_pow, star_ofNat, star_ofNat]
  | none =>
    cases h' : Dict.get? (ligLevels σ) p with
    | none => rfl
    | some x =>
      rw [self _ _ h', h'] at h
      cases h

theorem ligArgs_documented (σ : Equiv.Perm ℕ) (T : ℝ)  : Documented (ligArgs σ T) ligBaths ligParams 0 0 0 (ligLevels σ) where
  ls := rfl
  nBaths := rfl
  nValBaths := rfl
  n0imps := rfl
  dnTols := rfl
  dnValBaths := rfl
  dnConBaths := rfl
  hField := rfl
  Fdd := rfl
  Fpp := rfl
  Fpd := rfl
  Gpd := rfl
  h0 := Or.inl ⟨rfl, ligLevels_nodup⟩

/-! ### The setup -/


section
variable (L : MainLib) (hL : L.gaunt = sympyGaunt) (σ : Equiv.Perm ℕ) (T : ℝ) 

include hL in
theorem ligSetup_ok : ∃ hOp, mainSetup L (ligArgs σ T)
    = .ok ⟨[(1, 0), (2, 2)], ligRestrictions, hOp, ligStates.map (encBytes 18)⟩ := by
  obtain ⟨d, p, hdc⟩ : ∃ d p, dcMLFT ((9 : ℤ) : ℝ) 0 [0, 0, 0, 0, 0] (some ((6 : ℤ) : ℝ)) (some [0, 0, 0])
      (some [0, 0, 0, 0]) = .ok (.two d p) := by
    exact ⟨_, _, (C39_double_counting _ _ _ _ _ _ (by simp) (by simp) (by simp)).2.2 [0, 0, 0] [0, 0, 0, 0] ⟨9, rfl⟩
      (by norm_num) rfl rfl⟩
  obtain ⟨hOp, hop⟩ := (C54_accepts [0, 0, 0, 0, 0] [0, 0, 0] [0, 0, 0] [0, 0, 0, 0] 0 0 0 0 0 0 sympyGaunt_symmetric
    (nBaths := ligSystem) ⟨by decide, by decide⟩ (by decide) (by decide) (n0imps := [(1, 6), (2, 9)]) 9 6 rfl rfl d p hdc
    ligLevels_nodup).1 (by
      intro q hq x hx
      unfold strength at hq
      cases hg : Dict.get? (ligLevels σ) q with
      | none => rw [hg] at hq; simp at hq
      | some v =>
        obtain ⟨i, hi, rfl, -⟩ := ligLevels_get hg
        have := ligLabel_in i hi
        simp only [oneProcess, List.mem_cons, List.not_mem_nil, or_false] at hx
        rcases hx with rfl | rfl <;> exact this) ligLevels_hermitian
  refine ⟨hOp, ?_⟩
  have e1 : mainRestrictions [(1, 0), (2, 2)] [(1, 0), (2, 2)] [(1, 6), (2, 9)] [(1, 0), (2, 0)] [(1, 0), (2, 0)]
      [(1, 0), (2, 0)] = .ok ligRestrictions := by decide +kernel
  have e2 : getBasis [(1, 0), (2, 2)] [(1, 0), (2, 2)] [(1, 0), (2, 0)] [(1, 0), (2, 0)] [(1, 0), (2, 0)] [(1, 6), (2, 9)]
      = .ok (ligStates.map (encBytes 18)) := by decide +kernel
  unfold mainSetup
  simp only [ligArgs, holeArgs, zipDict_two]
  rw [e1]
  simp only [ok_bind, pure_ok]
  unfold mainHamiltonian
  simp only
  rw [hL, show intKeys [((1 : ℕ), 0), (2, 2)] = ligSystem from rfl, hop]
  simp only [ok_bind]
  rw [e2]
  rfl

variable {L σ  T} {hOp : Op ℕ ℂ}
  (hs : mainSetup L (ligArgs σ T) = .ok ⟨[(1, 0), (2, 2)], ligRestrictions, hOp, ligStates.map (encBytes 18)⟩)


theorem ligEnergy_inj {S T : Finset ℕ} (h : ligEnergy σ S = ligEnergy σ T) : S = T := by
  unfold ligEnergy at h
  have h := Complex.ofReal_injective h
  rw [div_left_inj' (by norm_num)] at h
  have h : ∑ i ∈ S, 2 ^ σ i = ∑ i ∈ T, 2 ^ σ i := by exact_mod_cast h
  refine Finset.map_injective σ.toEmbedding (Finset.geomSum_injective le_rfl ?_)
  show ∑ i ∈ S.map σ.toEmbedding, 2 ^ i = ∑ i ∈ T.map σ.toEmbedding, 2 ^ i
  rw [sum_map, sum_map]
  exact h

theorem ligEnergy_large (S : Finset ℕ) : ligEnergy σ S = 0 ∨ (1e-12 : ℝ) ≤ abs2 (ligEnergy σ S) := by
  rcases Finset.eq_empty_or_nonempty S with rfl | hne
  · left; simp [ligEnergy]
  · right
    have h : 0 < ∑ i ∈ S, 2 ^ σ i := Finset.sum_pos (fun _ _ => by positivity) hne
    unfold ligEnergy
    show _ ≤ Complex.normSq _
    rw [Complex.normSq_ofReal]
    have : (1 : ℝ) ≤ ((∑ i ∈ S, 2 ^ σ i : ℕ) : ℝ) := by exact_mod_cast h
    have h2 : (1 / 4096 : ℝ) ≤ ((∑ i ∈ S, 2 ^ σ i : ℕ) : ℝ) / 4096 := div_le_div_of_nonneg_right this (by norm_num)
    generalize ((∑ i ∈ S, 2 ^ σ i : ℕ) : ℝ) / 4096 = b at *
    nlinarith


theorem lig_pdHamiltonian (gaunt : GauntFun) (σ : Equiv.Perm ℕ) (T : ℝ)  (v : Vec ℂ) {F : Finset ℕ} (hF : F ⊆ range 18) :
    pdHamiltonian gaunt (position ligSystem) (ligArgs σ T) 9 0 0 0 (ligLevels σ) v F = (ligEnergy σ) F * v F := by
  have h1 : operator (labelSpec (position ligSystem) (ligLevels σ)) v F
      = ((List.range 18).map fun i => ligLevel σ i * create i (annihilate i v) F).sum := by
    unfold operator labelSpec ligLevels
    simp only [List.map_map]
    refine congrArg List.sum (List.map_congr_left fun i hi => ?_)
    simp [oneProcess, product, ladder, ligLabel_position i (List.mem_range.1 hi)]
  have h2 : ((List.range 18).map fun i => ligLevel σ i * create i (annihilate i v) F).sum = (ligEnergy σ) F * v F := by
    simp only [create_annihilate_self]
    rw [← List.sum_toFinset _ (List.nodup_range), List.toFinset_range]
    simp only [mul_ite, mul_zero]
    rw [Finset.sum_ite_mem, Finset.inter_eq_right.2 hF, ← Finset.sum_mul]
    rw [ligLevel_sum]
  have hc : ∀ (l1 l2 l3 l4 : ℕ) (R : List ℝ), (∀ x ∈ R, x = 0) →
      twoBody (position ligSystem) l1 l2 l3 l4 (coulomb gaunt l1 l2 l3 l4 R) v F = 0 := by
    intro l1 l2 l3 l4 R hR
    have : coulomb gaunt l1 l2 l3 l4 R = fun _ _ _ _ => 0 := by
      funext m1 m2 m3 m4
      unfold coulomb
      split
      · refine sum_eq_zero fun k hk => ?_
        rw [List.getD_eq_getElem _ _ (mem_range.1 hk), hR _ (List.getElem_mem _), zero_mul]
      · rfl
    rw [this]
    unfold twoBody
    simp
  have ho : ∀ (l : ℕ) (M : ℤ × ℤ → ℤ × ℤ → ℂ), (∀ x y, M x y = 0) → oneBody (position ligSystem) l M v F = 0 := by
    intro l M hM
    unfold oneBody
    exact sum_eq_zero fun x _ => by rw [hM, zero_mul]
  unfold pdHamiltonian
  rw [h1, h2, hc, hc, hc, hc, hc, hc, ho, ho, ho]
  · simp [ligArgs, holeArgs, averageUdd, averageUpd]
  all_goals simp [ligArgs, holeArgs, hDotS]

include hs in
theorem ligSetup_operator (v : Vec ℂ) {F : Finset ℕ} (hF : F ⊆ range 18) :
    operator (opSpec hOp) v F = (ligEnergy σ) F * v F := by
  obtain ⟨-, -, hop, hn0, -⟩ := setup_documented (ligArgs_documented σ T) hs
  rw [(hamiltonian_documented (ligArgs_documented σ T) hn0 hop).2]
  exact lig_pdHamiltonian L.gaunt σ  T v hF

theorem lig_diagonal [LigOrder σ] {op : Op ℕ ℂ} (h : ∀ (v : Vec ℂ) (F : Finset ℕ), F ⊆ range 18 → operator (opSpec op) v F = (ligEnergy σ) F * v F) :
    DiagonalOp 18 op 1e-12 (ligEnergy σ) where
  element := by
    intro S hS T _
    unfold matrixElement
    rw [h _ _ hS]
    unfold Spec.single
    by_cases h : S = T
    · rw [if_pos h, if_pos h, h, mul_one]
    · rw [if_neg h, if_neg h, mul_zero]
  large := fun S _ => ligEnergy_large S

include hs in
theorem ligSetup_diagonal [LigOrder σ] : DiagonalOp 18 hOp 1e-12 (ligEnergy σ) :=
  lig_diagonal fun v _ hF => ligSetup_operator hs v hF

theorem ligStates_nodup : ligStates.Nodup := by decide +kernel

theorem ligStates_sub : ∀ S ∈ ligStates, S ⊆ range 18 := by decide +kernel


theorem lig_dipole (gaunt : GauntFun) (x y z : ℂ) {S : Finset ℕ} (hS : S ⊆ range 18)
    (h : between (position ligSystem) 2 1 (fun m m' => dipole gaunt x y z 2 m 1 m') (Spec.single ((range 18).erase 15) 1) S ≠ 0) :
    S = (range 18).erase 5 := by
  have hsys : GoodSystem ligSystem := goodSystem_two (by decide)
  obtain ⟨s, hs, m, hm, m', hm', he, h1, h2⟩ := (between_element hsys (l := 2) (l' := 1) (by decide) (by decide) (by decide)
    (fun m m' => dipole gaunt x y z 2 m 1 m') S ((range 18).erase 15)).resolve_left h
  have hpos : ∀ s ∈ ({0, 1} : Finset ℤ), ∀ m ∈ Icc (-2 : ℤ) 2, position ligSystem (.imp 2 s m) = 15 → s = 1 ∧ m = 2 := by
    decide +kernel
  have h15 : position ligSystem (.imp 2 s m) = 15 := by
    have hmem : position ligSystem (.imp 2 s m) ∈ S \ ((range 18).erase 15) := by rw [h1]; exact mem_singleton_self _
    rw [mem_sdiff, mem_erase, mem_range] at hmem
    have := mem_range.1 (hS hmem.1)
    omega
  obtain ⟨rfl, rfl⟩ := hpos s hs m hm h15
  have hne : dipole gaunt x y z 2 2 1 m' ≠ 0 := by
    intro h0
    rw [h0, Amp.abs2_zero] at he
    exact h (Complex.normSq_eq_zero.1 he)
  have hstep := dipole_step gaunt x y z 2 2 1 m' hne
  rw [mRange, mem_Icc] at hm'
  obtain rfl : m' = 1 := by push_cast at hm'; omega
  have h5 : position ligSystem (.imp 1 1 1) = 5 := by decide +kernel
  rw [h5] at h2
  rw [h15] at h1
  ext i
  have a1 := Finset.ext_iff.1 h1 i
  have a2 := Finset.ext_iff.1 h2 i
  have a3 := @hS i
  simp only [mem_sdiff, mem_range, mem_singleton, mem_erase] at *
  constructor
  · intro hi
    refine ⟨?_, a3 hi⟩
    rintro rfl
    exact (a2.2 rfl).2 hi
  · rintro ⟨hne5, hi⟩
    by_contra hc
    by_cases h15 : i = 15
    · exact hc (a1.2 h15).1
    · exact hne5 (a2.1 ⟨⟨h15, hi⟩, hc⟩)

theorem lig_back {S : Finset ℕ} : 
    between (position ligSystem) 1 2 (fun m' m => star (dipole sympyGaunt 1 0 0 2 m 1 m'))
      (Spec.single ((range 18).erase 5) 1) S = 0 ∨
    (1 / 30 ≤ Complex.normSq (between (position ligSystem) 1 2 (fun m' m => star (dipole sympyGaunt 1 0 0 2 m 1 m'))
      (Spec.single ((range 18).erase 5) 1) S) ∧
     Complex.normSq (between (position ligSystem) 1 2 (fun m' m => star (dipole sympyGaunt 1 0 0 2 m 1 m'))
      (Spec.single ((range 18).erase 5) 1) S) ≤ 1) := by
  have hsys : GoodSystem ligSystem := goodSystem_two (by decide)
  rcases between_element hsys (l := 1) (l' := 2) (by decide) (by decide) (by decide)
    (fun m' m => star (dipole sympyGaunt 1 0 0 2 m 1 m')) S ((range 18).erase 5) with h | ⟨s, -, m', -, m, -, he, -, -⟩
  · exact Or.inl h
  · have he : Complex.normSq _ = Complex.normSq (star (dipole sympyGaunt 1 0 0 2 m 1 m')) := he
    rw [show Complex.normSq (star (dipole sympyGaunt 1 0 0 2 m 1 m')) = Complex.normSq (dipole sympyGaunt 1 0 0 2 m 1 m')
      from Complex.normSq_conj _] at he
    rcases dipole_x sympyGaunt 2 m 1 m' with h0 | h0
    · left
      rw [h0, Complex.normSq_zero] at he
      exact Complex.normSq_eq_zero.1 he
    · have h0 : Complex.normSq (dipole sympyGaunt 1 0 0 2 m 1 m') = ck sympyGaunt 1 2 m 1 m' ^ 2 / 2 := h0
      rcases ck_bounds m m' with hz | ⟨hb1, hb2⟩
      · left
        rw [h0, hz] at he
        norm_num at he
        exact he
      · right
        rw [he, h0]
        constructor <;> linarith

include hs in
theorem lig_solution [LigOrder σ] {psi : Psi ℂ} {y : ℂ} (hpsi : ampl 18 psi = Spec.single ((range 18).erase 15) y) {op : Op ℕ ℂ} {gaunt : GauntFun}
    {px py pz : ℂ} (hop : operator (opSpec op) = between (position ligSystem) 2 1 fun m m' => dipole gaunt px py pz 2 m 1 m')
    {z : ℂ} (hz : z.im ≠ 0) {cut : ℝ} {r : Option Restrictions} {x : Vec ℂ}
    (hx : Solves 18 (hamiltonian 18 hOp 1e-12 r) z (excitation 18 op cut r psi) x) :
    x = Spec.single ((range 18).erase 5) (x ((range 18).erase 5)) := by
  have hD := ligSetup_diagonal hs
  have hz0 : z ≠ 0 := by rintro rfl; simp at hz
  have hexc : ∀ S ⊆ range 18, S ≠ (range 18).erase 5 → excitation 18 op cut r psi S = 0 := by
    intro S hS hne
    unfold excitation
    split
    · have h1 : Spec.single ((range 18).erase 15) y = fun T => y * Spec.single ((range 18).erase 15) 1 T := by
        funext T; unfold Spec.single; split <;> simp
      rw [hpsi, h1, operator_smul, hop]
      by_contra hc
      exact hne (lig_dipole gaunt px py pz hS (right_ne_zero_of_mul hc))
    · rfl
  funext S
  unfold Spec.single
  split
  · next h => rw [h]
  · next hne =>
    by_cases hS : S ⊆ range 18
    · have h1 := hx.inside S hS
      rw [hexc S hS hne] at h1
      by_cases hr : AllowedOpt r S
      · rw [hD.hamiltonian hS hr, ← sub_mul] at h1
        refine (mul_eq_zero.1 h1).resolve_left fun h => hz ?_
        have := congrArg Complex.im h
        rwa [Complex.sub_im, ligEnergy, Complex.ofReal_im, sub_zero, Complex.zero_im] at this
      · have h0 : hamiltonian 18 hOp 1e-12 r x S = 0 := by
          unfold Spec.hamiltonian
          rw [if_pos hS]
          refine sum_eq_zero fun T _ => ?_
          unfold Spec.column
          rw [if_neg (fun h => hr h.1), zero_mul]
        rw [h0, sub_zero] at h1
        exact (mul_eq_zero.1 h1).resolve_left hz0
    · exact hx.outside S hS


include hs in
theorem ligSim_ok [LigOrder σ] (hL : L.gaunt = sympyGaunt) (hT : 0 < T) (hk : 0 < L.kB) (hsolve : ExactSolver L.solve) {psi : Psi ℂ} {x : ℂ}
    (hst : IsState 18 psi) (hpsi : ampl 18 psi = Spec.single ((range 18).erase 15) x) (e : ℝ) :
    ∃ s, refSimulate (mainSim L (ligArgs σ T)
      ⟨[(1, 0), (2, 2)], ligRestrictions, hOp, ligStates.map (encBytes 18)⟩ [e] [psi]) = .ok s := by
  set st : Setup := ⟨[(1, 0), (2, 2)], ligRestrictions, hOp, ligStates.map (encBytes 18)⟩ with hst'
  have hgood := mainSetup_good L (ligArgs σ T) _ hs
  have hn : nSpinOrbitals st.nBaths = 18 := by
    rw [nSpinOrbitals_eq]; exact ligSystem_size
  have hS : (mainSim L (ligArgs σ T) st [e] [psi]).Valid := by
    refine mainSim_valid (ligArgs_valid σ T) hgood ?_ le_rfl
    intro p hp
    obtain rfl := List.mem_singleton.1 hp
    rw [hn]; exact hst
  have hsys : GoodSystem ligSystem := goodSystem_two (by decide)
  have hD : DiagonalOp (nSpinOrbitals st.nBaths) hOp 1e-12 (ligEnergy σ) := by rw [hn]; exact ligSetup_diagonal hs
  have hdict : Dict.NodupKeys hOp := hgood.op.1.1
  have hh : isHermitianOp hOp := hgood.op.2
  obtain ⟨tN, eNixs⟩ := mainNixs_ok (gaunt := L.gaunt) (by rw [hL]; exact sympyGaunt_rules) L.sphHarm L.jn hsys (by decide) []
  obtain ⟨ts, ds, eX, eD, -⟩ := C45_daggered L.gaunt 1 2 0 2 (by decide) mainEpsilons
  obtain ⟨hl, ho⟩ := dipoles_spec L.gaunt (by decide) eX
  obtain ⟨hl', ho'⟩ := daggered_spec L.gaunt (by decide) eD
  have hin : ∀ t ∈ ts, OpInSystem (nSpinOrbitals st.nBaths) t := by
    rw [nSpinOrbitals_eq]; exact dipoles_okIn _ hsys _ _ eX
  have hin0 : ∀ t ∈ ds, OpInSystem (nSpinOrbitals st.nBaths) t := by
    rw [nSpinOrbitals_eq]; exact daggered_okIn _ hsys _ _ eD
  refine refSimulate_of hS (by show 1 ∈ allAngulars ligSystem; decide) (by show 2 ∈ allAngulars ligSystem; decide)
    (by simp [mainSim]) (by simp [mainSim, ligArgs, holeArgs, hk.ne', hT.ne'])
    (fun w d hd psiR e' hE => spectrumOf_diagonal (hS.spectra w hd) hdict hh (by show (150 : ℕ) ≠ 0; decide) hD hE (fun _ _ _ _ h => ligEnergy_inj h) e')
    eNixs eX eX eD ?_
  obtain ⟨op0, rest, rfl⟩ : ∃ op0 rest, ds = op0 :: rest := by
    cases ds with
    | nil => simp [mainEpsilons] at hl'
    | cons a b => exact ⟨a, b, rfl⟩
  refine refRixs_of hS.rixs hdict hh hS.delta hsolve
    (fun _ e' hE => spectrumOf_diagonal hS.rixs.spectra hdict hh (by show (150 : ℕ) ≠ 0; decide) hD hE (fun _ _ _ _ h => ligEnergy_inj h) e')
    hin ?_ (hin0 op0 (by simp)) hS.enough hS.states ?_
  · intro op hop F hF F' hF' hal
    obtain ⟨t, ht, rfl⟩ := List.getElem_of_mem hop
    have := dipole_noSmall (L := L) (A := ligArgs σ T) (by rw [hL]; exact sympyGaunt_large) rfl ligBaths
      (v := mainEpsilons[t]'(hl ▸ ht)) (List.getElem_mem (l := mainEpsilons) (hl ▸ ht)) (nSpinOrbitals st.nBaths) (some st.restrictions) F' hF' F hF hal
    have e1 := ho t (hl ▸ ht)
    unfold dipolePD at this
    rw [show pdSystem ligBaths = [(.int 1, 0), (.int 2, 2)] from rfl] at this
    rw [← e1] at this
    exact this
  · intro op hop a ha w hw v hv
    obtain ⟨t, ht, rfl⟩ := List.getElem_of_mem hop
    obtain rfl : a = 0 := by simpa [mainSim] using ha
    have hv : Solves (nSpinOrbitals st.nBaths) (hamiltonian (nSpinOrbitals st.nBaths) hOp 1e-12 (some st.restrictions))
      ((w : ℂ) + Complex.I * (((1 / 5 : ℝ)) : ℂ) + (e : ℂ))
      (excitation (nSpinOrbitals st.nBaths) ts[t] 1e-7 (some st.restrictions) psi) v := hv
    show NoneDropped (nSpinOrbitals st.nBaths) 1e-7 (transition (nSpinOrbitals st.nBaths) op0 1e-7 (some st.restrictions) v)
    rw [hn] at hv ⊢
    rw [lig_solution hs hpsi (ho t (hl ▸ ht)) (by simp) hv]
    refine noneDropped_single (lo := 1 / 30) (hi := 1) (by norm_num) (fun S hS' => ?_) zero_le_one (by norm_num) _ _
    have e0 := ho' 0 (by simp [mainEpsilons]) (Spec.single ((range 18).erase 5) 1) S (by
      rw [show nTotal [(.int 1, 0), (.int 2, 2)] = 18 from ligSystem_size]; exact hS')
    have e0 : operator (opSpec op0) (Spec.single ((range 18).erase 5) 1) S = between (position ligSystem) 1 2
      (fun m' m => star (dipole L.gaunt 1 0 0 2 m 1 m')) (Spec.single ((range 18).erase 5) 1) S := e0
    rw [e0, hL]
    exact lig_back


end


/-! ### The eigenstates -/

section
variable {op : Op ℕ ℂ} (hD : DiagonalOp 18 op 1e-12 (ligEnergy σ))

include hD in
theorem lig_sum {S : Finset ℕ} (hS : S ∈ ligStates.toFinset) (y : Finset ℕ → ℂ) :
    ∑ T ∈ ligStates.toFinset, storedElement op (1e-12 : ℝ) S T * y T = (ligEnergy σ) S * y S := by
  have hSm := List.mem_toFinset.1 hS
  rw [Finset.sum_eq_single S]
  · rw [hD.stored S S (ligStates_sub S hSm) (ligStates_sub S hSm), if_pos rfl]
  · intro T hT hne
    rw [hD.stored S T (ligStates_sub S hSm) (ligStates_sub T (List.mem_toFinset.1 hT)), if_neg (Ne.symm hne), zero_mul]
  · intro h; exact absurd hS h

include hD in
/-- The lowest state has the lig in the highest orbital, the others are at least 4 above it. -/
theorem lig_lowest [LigOrder σ] {es : List ℝ} {psis : List (Psi ℂ)} (h : LowestStates 18 op 1e-12 1e-7 ligStates.toFinset es psis)
    (hpos : 0 < es.length) (hpos' : 0 < psis.length) :
    es[0] = ((ligEnergy σ) ((range 18).erase 15)).re ∧ (∃ x, ampl 18 psis[0] = Spec.single ((range 18).erase 15) x ∧ Complex.normSq x = 1) ∧
      ∀ i (hi : i < es.length), 0 < i → es[0] + 4 ≤ es[i] := by
  obtain ⟨h1, h2, x, h3, h4, h5, h6⟩ := h
  have hlow : ((range 18).erase 15) ∈ ligStates.toFinset := by decide +kernel
  have heS : ∀ v (hv : v < es.length), ∀ S ∈ ligStates.toFinset, x v S ≠ 0 → (ligEnergy σ) S = es[v] := by
    intro v hv S hS hx
    have := h4 v hv S hS
    rw [lig_sum hD hS] at this
    exact mul_right_cancel₀ hx this
  have hn1 : ∀ v < es.length, ∑ S ∈ ligStates.toFinset, star (x v S) * x v S = 1 :=
    fun v hv => (h3 v hv v hv).trans (if_pos rfl)
  have hex : ∀ v < es.length, ∃ S ∈ ligStates.toFinset, x v S ≠ 0 := by
    intro v hv
    by_contra hc
    push Not at hc
    have := hn1 v hv
    rw [sum_eq_zero fun S hS => by rw [hc S hS, mul_zero]] at this
    exact zero_ne_one this
  have hgap : ∀ S ∈ ligStates, S ≠ (range 18).erase 15 → ∑ i ∈ (range 18).erase 15, 2 ^ σ i + 16384 ≤ ∑ i ∈ S, 2 ^ σ i := by
    rcases LigOrder.cases (σ := σ) with rfl | rfl <;> decide +kernel
  have hgap' : ∀ S ∈ ligStates.toFinset, S ≠ ((range 18).erase 15) → ((ligEnergy σ) ((range 18).erase 15)).re + 4 ≤ ((ligEnergy σ) S).re := by
    intro S hS hne
    have := hgap S (List.mem_toFinset.1 hS) hne
    have : ((∑ i ∈ ((range 18).erase 15), 2 ^ σ i : ℕ) : ℝ) + 16384 ≤ ((∑ i ∈ S, 2 ^ σ i : ℕ) : ℝ) := by exact_mod_cast this
    unfold ligEnergy
    rw [Complex.ofReal_re, Complex.ofReal_re]
    generalize ((∑ i ∈ ((range 18).erase 15), 2 ^ σ i : ℕ) : ℝ) = a at *
    generalize ((∑ i ∈ S, 2 ^ σ i : ℕ) : ℝ) = c at *
    linarith
  have hsupp : ∀ v < es.length, ∀ S ∈ ligStates.toFinset, x v S ≠ 0 → ∀ S' ∈ ligStates.toFinset, S' ≠ S → x v S' = 0 := by
    intro v hv S hS hx S' hS' hne
    by_contra hx'
    exact hne (ligEnergy_inj ((heS v hv S' hS' hx').trans (heS v hv S hS hx).symm))
  have hre : ∀ v (hv : v < es.length), ∀ S ∈ ligStates.toFinset, x v S ≠ 0 → es[v] = ((ligEnergy σ) S).re := by
    intro v hv S hS hx
    rw [heS v hv S hS hx]; simp
  -- some state has a component in `(range 18).erase 15`
  have hsome : ∃ v < es.length, x v ((range 18).erase 15) ≠ 0 := by
    by_contra hc
    push Not at hc
    have hy := h5 (Spec.single ((range 18).erase 15) 1) (by
      intro v hv
      refine sum_eq_zero fun S hS => ?_
      unfold Spec.single
      by_cases h : S = (range 18).erase 15
      · rw [h, hc v hv, star_zero, zero_mul]
      · rw [if_neg h, mul_zero]) 0 hpos
    have e1 : ∑ S ∈ ligStates.toFinset, Complex.normSq (Spec.single ((range 18).erase 15) 1 S) = 1 := by
      rw [Finset.sum_eq_single ((range 18).erase 15)]
      · simp [Spec.single]
      · intro S _ h; simp [Spec.single, h]
      · intro h; exact absurd hlow h
    have e2 : ∑ S ∈ ligStates.toFinset, ∑ T ∈ ligStates.toFinset, star (Spec.single ((range 18).erase 15) 1 S)
        * storedElement op (1e-12 : ℝ) S T * Spec.single ((range 18).erase 15) 1 T = (ligEnergy σ) ((range 18).erase 15) := by
      rw [Finset.sum_eq_single ((range 18).erase 15)]
      · simp only [mul_assoc]
        rw [← Finset.mul_sum, lig_sum hD hlow]
        simp [Spec.single]
      · intro S _ h; simp [Spec.single, h]
      · intro h; exact absurd hlow h
    rw [e1, e2, mul_one] at hy
    obtain ⟨S0, hS0, hx0⟩ := hex 0 hpos
    have hne : S0 ≠ ((range 18).erase 15) := by rintro rfl; exact hx0 (hc 0 hpos)
    have := hgap' S0 hS0 hne
    rw [hre 0 hpos S0 hS0 hx0] at hy
    linarith
  -- it is the first one
  obtain ⟨v, hv, hxv⟩ := hsome
  have hx0 : x 0 ((range 18).erase 15) ≠ 0 := by
    rcases Nat.eq_zero_or_pos v with rfl | hv0
    · exact hxv
    · obtain ⟨S0, hS0, hx0⟩ := hex 0 hpos
      by_cases hne : S0 = (range 18).erase 15
      · rwa [hne] at hx0
      · have := hgap' S0 hS0 hne
        have hle : es[0] ≤ es[v] := (List.pairwise_iff_getElem.1 h1) 0 v hpos hv hv0
        rw [hre 0 hpos S0 hS0 hx0, hre v hv _ hlow hxv] at hle
        linarith
  have he0 := hre 0 hpos _ hlow hx0
  refine ⟨he0, ⟨x 0 ((range 18).erase 15), ?_⟩, ?_⟩
  · have hs0 := hsupp 0 hpos _ hlow hx0
    have hnorm : Complex.normSq (x 0 ((range 18).erase 15)) = 1 := by
      have hn := hn1 0 hpos
      rw [Finset.sum_eq_single ((range 18).erase 15) (fun S hS hne => by rw [hs0 S hS hne, mul_zero])
        (fun h => absurd hlow h)] at hn
      have : ((Complex.normSq (x 0 ((range 18).erase 15)) : ℝ) : ℂ) = 1 := by
        rw [← hn, Complex.normSq_eq_conj_mul_self]; rfl
      exact_mod_cast this
    refine ⟨?_, hnorm⟩
    funext S
    rw [(h6 0 hpos').2 S]
    unfold Spec.single
    by_cases h : S = (range 18).erase 15
    · subst h
      rw [if_pos rfl, if_pos ⟨hlow, by rw [hnorm]; norm_num⟩]
    · rw [if_neg h]
      split
      · next hm => exact hs0 S hm.1 h
      · rfl
  · intro i hi hi0
    obtain ⟨S, hS, hx⟩ := hex i hi
    have hne : S ≠ ((range 18).erase 15) := by
      rintro rfl
      have := h3 0 hpos i hi
      rw [if_neg (by omega), Finset.sum_eq_single ((range 18).erase 15)
        (fun S hS hne => by rw [hsupp 0 hpos _ hlow hx0 S hS hne, star_zero, zero_mul]) (fun h => absurd hlow h)] at this
      exact (mul_ne_zero (star_ne_zero.2 hx0) hx) this
    rw [he0, hre i hi S hS hx]
    exact hgap' S hS hne

end


theorem lig_configurations {L : MainLib} (hL : L.gaunt = sympyGaunt) {F : Finset ℕ} (hF : F ⊆ range 18) :
    IsConfiguration [(1, 0), (2, 2)] ligSystem ligParams F ↔ F ∈ ligStates := by
  obtain ⟨hOp, hs⟩ := ligSetup_ok L hL 1 1
  obtain ⟨hnb, hr, hop, hn0, hb⟩ := setup_documented (ligArgs_documented 1 1) hs
  have hC := (C11_get_basis _ ligParams _ _ _ _ _ (nodup_documented ligBaths) (provides_documented ligBaths ligParams)
    _ hb).1 F hF
  refine hC.symm.trans ?_
  constructor
  · intro h
    obtain ⟨F', hF', e⟩ := List.mem_map.1 h
    rwa [← encBytes_injOn (ligStates_sub F' hF') hF e]
  · intro h
    exact List.mem_map.2 ⟨F, h, rfl⟩

open Classical in
theorem lig_filter {L : MainLib} (hL : L.gaunt = sympyGaunt) :
    ({F ∈ (range 18).powerset | IsConfiguration [(1, 0), (2, 2)] ligSystem ligParams F} : Finset (Finset ℕ))
      = ligStates.toFinset := by
  ext F
  rw [Finset.mem_filter, Finset.mem_powerset, List.mem_toFinset]
  constructor
  · rintro ⟨h1, h2⟩
    exact (lig_configurations hL h1).1 h2
  · intro h
    exact ⟨ligStates_sub F h, (lig_configurations hL (ligStates_sub F h)).2 h⟩

/-- `main` succeeds. -/
theorem ligMain_ok [LigOrder σ] {L : MainLib} {T : ℝ} (hL : L.gaunt = sympyGaunt) (hT : 0 < T) (hk : 0 < L.kB) (hcold : 10 * (L.kB * T) ≤ 4)
    (hsolve : ExactSolver L.solve) (hS : SolverCorrect L.solver)
    (htot : ∀ H d k, k < d → ∃ p, L.solver.eigsh H d k = .ok p) : ∃ o, refMain L (ligArgs σ T) = .ok o := by
  obtain ⟨hOp, hs⟩ := ligSetup_ok L hL σ T
  have hgood := mainSetup_good L (ligArgs σ T) _ hs
  have hn : nSpinOrbitals [((1 : ℕ), 0), (2, 2)] = 18 := by
    rw [nSpinOrbitals_eq]; exact ligSystem_size
  have hgop := hgood.op
  rw [hn] at hgop
  obtain ⟨es, psis, heig⟩ := refEigensystem_ok hS htot hgop.1.2 hgop.1.1 hgop.2 1e-12 1e-7 ligStates_nodup ligStates_sub
    (k := 2) (by decide)
  have heig' := heig
  unfold refEigensystem at heig'
  rw [if_neg (by decide)] at heig'
  obtain ⟨h1, h2, x, h3, h4, h5, h6⟩ := C51_eigensystem L.solver hS 18 hOp hgop.1.2 hgop.1.1 hgop.2 1e-12 ligStates
    ligStates_nodup ligStates_sub 2 .lanczos 1e-7 1 one_pos _ _ heig'
  have hcount : es.length = 2 := C51_count L.solver hS 18 hOp hgop.1.2 hgop.1.1 hgop.2 1e-12 ligStates
    ligStates_nodup ligStates_sub 2 .lanczos 1e-7 1 one_pos _ _ heig'
  have hlow : LowestStates 18 hOp 1e-12 1e-7 ligStates.toFinset es psis := by
    refine ⟨h1, h2, x, h3, fun v hv F hF => h4 v hv F (List.mem_toFinset.1 hF), h5, fun v hv => ?_⟩
    obtain ⟨g1, g2, -⟩ := h6 v hv
    refine ⟨g1, fun F => ?_⟩
    rw [g2 F]
    simp only [List.mem_toFinset]
  obtain ⟨-, ⟨y, hy, -⟩, hgap⟩ := lig_lowest (ligSetup_diagonal hs) hlow (by omega) (by omega)
  have hst : ∀ psi ∈ psis, IsState 18 psi := by
    intro psi hp
    obtain ⟨v, hv, rfl⟩ := List.getElem_of_mem hp
    exact (h6 v hv).1
  obtain ⟨e0, e1, rfl⟩ := List.length_eq_two.1 hcount
  obtain ⟨psi0, psi1, rfl⟩ := List.length_eq_two.1 (h2.trans hcount)
  have hgap : e0 + 4 ≤ e1 := hgap 1 (by simp) one_pos
  obtain ⟨p, hp⟩ := mainPrints_ok (L := L) (nBaths := [(1, 0), (2, 2)]) hgood.nBaths (by decide) (es := [e0, e1])
    (psis := [psi0, psi1]) (by simp) rfl (by rw [hn]; exact hst) hk (ligArgs σ T)
  have hcut : energyCut [e0, e1] [psi0, psi1] ((ligArgs σ T).energyCut * (L.kB * (ligArgs σ T).T)) = .ok ([e0], [psi0]) := by
    show energyCut [e0, e1] [psi0, psi1] (10 * (L.kB * T)) = _
    have hpos : 0 < 10 * (L.kB * T) := by positivity
    unfold energyCut
    have g0 : pyGet [e0, e1] 0 = .ok e0 := rfl
    have g1 : pyGet [psi0, psi1] ((0 : ℕ) : ℤ) = .ok psi0 := rfl
    have hno : ¬ e1 - e0 < 10 * (L.kB * T) := by linarith
    simp only [List.foldlM_cons, List.foldlM_nil, g0, ok_bind, pure_ok, sub_self, if_pos hpos, if_neg hno, List.nil_append,
      List.length_cons, List.length_nil, Nat.zero_add, List.range_one, List.mapM_cons, List.mapM_nil, g1]
  obtain ⟨sp, hsp⟩ := ligSim_ok hs hL hT hk hsolve (hst psi0 (by simp)) hy e0
  refine ⟨⟨p.1, p.2.1, p.2.2.1, p.2.2.2, [e0, e1], sp⟩, ?_⟩
  unfold refMain
  rw [hs]
  simp only [ok_bind, hn]
  rw [show (ligArgs σ T).nPsiMax = 2 from rfl, heig]
  simp only [ok_bind]
  rw [hp]
  simp only [ok_bind]
  rw [hcut]
  simp only [ok_bind]
  rw [show mainSim L (ligArgs σ T) = mainSim L (ligArgs σ T) from rfl, hsp]
  rfl

/-- All ranks finish. -/
theorem lig_finishes (σ : Equiv.Perm ℕ) [LigOrder σ] {solver : EigenSolver} (hS : SolverCorrect solver)
    (htot : ∀ H d k, k < d → ∃ p, solver.eigsh H d k = .ok p) (sphHarm : SphHarm) (jn : SphericalJn) {kB T : ℝ}
    (hk : 0 < kB) (hT : 0 < T) (hcold : 10 * (kB * T) ≤ 4) :
    ∃ o : MainOutput, ∀ (N : ℕ), 0 < N → ∀ (ord : Fin N → ℕ → ℕ → ℕ → SetOrders), (∀ k c t i, (ord k c t i).Valid) →
      ∀ (ordRixs : Fin N → List ℕ → SetOrders), (∀ k l, (ordRixs k l).Valid) →
      AllRanksFinish msgSum
        (fun k : Fin N => mainRank (holeLib solver sphHarm jn kB) (ligArgs σ T) (ord k) (ordRixs k) k.val N)
        (fun k => if k.val = 0 then some o else none) := by
  obtain ⟨o, ho⟩ := ligMain_ok (σ := σ) (L := holeLib solver sphHarm jn kB) rfl hT hk hcold (holeSolve_exact solver sphHarm jn kB) hS htot
  refine ⟨o, fun N hN ord hord ordR hordR => ?_⟩
  have := main_settles hN (L := holeLib solver sphHarm jn kB) (ligArgs_valid σ T) sympyGaunt_large ord hord ordR hordR
  rw [ho] at this
  obtain ⟨out, rfl, hrun⟩ := this
  exact hrun.allRanksFinish

/-! ### All cutoffs are harmless -/

/-- The arguments of the spectra of the example. -/
structure LigSim (σ : Equiv.Perm ℕ) (S : SimulateArgs) (y : ℂ) : Prop where
  size : size S = 18
  diag : DiagonalOp 18 S.hOp 1e-12 (ligEnergy σ)
  cutoffs : S.krylovSize = 150 ∧ S.slaterWeightMin = 1e-7 ∧ S.cut = 1e-12
  gaunt : S.gaunt = sympyGaunt
  epsilons : S.epsilons = [⟨1, 0, 0⟩, ⟨0, 1, 0⟩, ⟨0, 0, 1⟩] ∧ S.epsilonsRIXSin = [⟨1, 0, 0⟩, ⟨0, 1, 0⟩, ⟨0, 0, 1⟩]
  wIn : Mesh S.wIn (-10) 20 50
  delta : S.delta = 1 / 5
  radial : S.radialMesh = []
  es : S.es = [((ligEnergy σ) ((range 18).erase 15)).re]
  psi : ampl 18 (S.psis.getD 0 []) = Spec.single ((range 18).erase 15) y
  norm : Complex.normSq y = 1


section
variable {S : SimulateArgs} {y : ℂ} (h : LigSim σ S y)
include h

theorem LigSim.exhausted {b : Vec ℂ} (X : Finset (Finset ℕ)) (hX : X.card ≤ 150) (hb : ∀ F, F ∉ X → b F = 0) :
    KrylovExhausted (hamilton S) S.krylovSize b := by
  rw [h.cutoffs.1]
  refine krylovExhausted_of_support X hX fun j F hF => ?_
  unfold hamilton
  rw [h.size, h.cutoffs.2.2]
  exact h.diag.iterate_zero (hb F hF) j

theorem LigSim.exhausted_excite {T : Vec ℂ → Vec ℂ} {x : Vec ℂ} (X : Finset (Finset ℕ)) (hX : X.card ≤ 150)
    (hb : ∀ F ⊆ range 18, F ∉ X → T x F = 0) : KrylovExhausted (hamilton S) S.krylovSize (exciteVec S T x) := by
  refine h.exhausted X hX fun F hF => ?_
  unfold exciteVec excited
  rw [h.size]
  split
  · next hc => exact hb F hc.1 hF
  · rfl

theorem LigSim.resolved_single {T : Vec ℂ → Vec ℂ} (F : Finset ℕ)
    (hT : ∀ G ⊆ range 18, G ≠ F → T (Spec.single ((range 18).erase 15) y) G = 0)
    (hF : T (Spec.single ((range 18).erase 15) y) F = 0 ∨ (1e-7 : ℝ) ≤ abs2 (T (Spec.single ((range 18).erase 15) y) F)) : Resolved S T := by
  intro i hi
  obtain rfl : i = 0 := by rw [h.es] at hi; simpa using hi
  rw [h.size, h.psi]
  refine ⟨?_, ?_⟩
  · intro G hG _
    rw [h.size] at hG
    rw [h.cutoffs.2.1]
    by_cases hGF : G = F
    · rw [hGF]; exact hF
    · exact Or.inl (hT G hG hGF)
  · unfold excite
    rw [h.size, h.psi]
    refine h.exhausted_excite {F} (by simp) fun G hG hne => hT G hG (by simpa using hne)

theorem LigSim.ladder (i : ℕ) (c : Bool) : Resolved S (ladder i c) := by
  have hn : (1e-7 : ℝ) ≤ abs2 (((sgn i ((range 18).erase 15) : ℤ) : ℂ) * y) := by
    show _ ≤ Complex.normSq _
    rw [Complex.normSq_mul, h.norm, show Complex.normSq ((sgn i ((range 18).erase 15) : ℤ) : ℂ) = 1 from abs2_sgn i ((range 18).erase 15)]
    norm_num
  cases c with
  | false =>
    refine h.resolved_single (((range 18).erase 15).erase i) ?_ ?_
    · intro G _ hne
      rw [ladder_single_a]
      split
      · exact if_neg hne
      · rfl
    · rw [ladder_single_a]
      split
      · right
        rw [show Spec.single (((range 18).erase 15).erase i) _ (((range 18).erase 15).erase i) = _ from if_pos rfl]
        exact hn
      · exact Or.inl rfl
  | true =>
    refine h.resolved_single (insert i ((range 18).erase 15)) ?_ ?_
    · intro G _ hne
      rw [ladder_single_c]
      split
      · rfl
      · exact if_neg hne
    · rw [ladder_single_c]
      split
      · exact Or.inl rfl
      · right
        rw [show Spec.single (insert i ((range 18).erase 15)) _ (insert i ((range 18).erase 15)) = _ from if_pos rfl]
        exact hn

/-- The dipole transition from the ground state. -/
theorem LigSim.dipole {ε : Vec3 ℂ} (hε : ε ∈ ([⟨1, 0, 0⟩, ⟨0, 1, 0⟩, ⟨0, 0, 1⟩] : List (Vec3 ℂ))) :
    (∀ G ⊆ range 18, G ≠ (range 18).erase 5 → dipolePD S.gaunt ligBaths ε (Spec.single ((range 18).erase 15) y) G = 0) ∧
    (dipolePD S.gaunt ligBaths ε (Spec.single ((range 18).erase 15) y) ((range 18).erase 5) = 0 ∨
      1 / 30 ≤ Complex.normSq (dipolePD S.gaunt ligBaths ε (Spec.single ((range 18).erase 15) y) ((range 18).erase 5))) := by
  unfold dipolePD
  rw [h.gaunt]
  constructor
  · intro G hG hne
    rw [between_smul]
    by_contra hc
    exact hne (lig_dipole sympyGaunt ε.x ε.y ε.z hG (right_ne_zero_of_mul hc))
  · rw [between_smul]
    rcases between_element (goodSystem_two (by decide) : GoodSystem ligSystem) (l := 2) (l' := 1) (by decide) (by decide) (by decide)
      (fun m m' => Spec.dipole sympyGaunt ε.x ε.y ε.z 2 m 1 m') ((range 18).erase 5) ((range 18).erase 15)
      with h0 | ⟨s, -, m, -, m', -, he, -, -⟩
    · left
      exact mul_eq_zero_of_right _ h0
    · rw [Complex.normSq_mul, h.norm, one_mul]
      have he : Complex.normSq _ = Complex.normSq _ := he
      rcases dipole_ge hε m m' (c := 1 / 15) (by norm_num) ((ck_bounds m m').imp_right And.left) with h0 | h0
      · left
        rw [h0, Complex.normSq_zero] at he
        exact mul_eq_zero_of_right _ (Complex.normSq_eq_zero.1 he)
      · right
        have h0 : 1 / 15 / 2 ≤ Complex.normSq _ := h0
        refine le_trans ?_ (le_trans h0 (le_of_eq he.symm))
        norm_num

theorem LigSim.absorb {ε : Vec3 ℂ} (hε : ε ∈ ([⟨1, 0, 0⟩, ⟨0, 1, 0⟩, ⟨0, 0, 1⟩] : List (Vec3 ℂ))) :
    Resolved S (dipolePD S.gaunt ligBaths ε) := by
  obtain ⟨h1, h2⟩ := h.dipole hε
  refine h.resolved_single _ h1 (h2.imp_right fun h2 => ?_)
  show _ ≤ Complex.normSq _
  exact le_trans (by norm_num) h2

theorem LigSim.planeWave (q : ℝ) (v : Vec ℂ) (F : Finset ℕ) : planeWaveDD S ligBaths q v F = 0 := by
  have hr : radialIntegral S.jn S.RiNIXS S.RjNIXS S.radialMesh q = fun _ => 0 := by
    funext k
    unfold radialIntegral
    rw [h.radial]
    simp [trapezoid]
  unfold planeWaveDD
  rw [hr]
  simp [between, Spec.planeWave]

theorem LigSim.scatter (q : ℝ) : Resolved S (planeWaveDD S ligBaths q) ∧
    NoSmall (Spec.size S) (planeWaveDD S ligBaths q) S.slaterWeightMin S.restrictions :=
  ⟨h.resolved_single ∅ (fun _ _ _ => h.planeWave q _ _) (Or.inl (h.planeWave q _ _)),
    fun _ _ _ _ _ => Or.inl (h.planeWave q _ _)⟩

/-- The intermediate state of resonant scattering. -/
theorem LigSim.intermediate [LigOrder σ] {ε : Vec3 ℂ} (hε : ε ∈ ([⟨1, 0, 0⟩, ⟨0, 1, 0⟩, ⟨0, 0, 1⟩] : List (Vec3 ℂ))) {w : ℝ}
    (hw : -10 ≤ w ∧ w ≤ 20) {x : Vec ℂ}
    (hx : Solves 18 (hamilton S) ((w : ℂ) + Complex.I * S.delta + (S.es.getD 0 0 : ℂ))
      (excite S (dipolePD S.gaunt ligBaths ε) 0) x) :
    ∃ c, x = Spec.single ((range 18).erase 5) c ∧ (c = 0 ∨ 1e-4 ≤ Complex.normSq c) := by
  obtain ⟨h1, h2⟩ := h.dipole hε
  set T := dipolePD S.gaunt ligBaths ε with hT
  set z := (w : ℂ) + Complex.I * S.delta + (S.es.getD 0 0 : ℂ) with hz
  have hzim : z.im = 1 / 5 := by rw [hz, h.delta]; simp
  have hzre : z.re = w + ((ligEnergy σ) ((range 18).erase 15)).re := by rw [hz, h.delta, h.es]; simp
  have hz0 : z ≠ 0 := by intro h0; rw [h0] at hzim; norm_num at hzim
  have hb : ∀ G ⊆ range 18, excite S T 0 G = if AllowedOpt S.restrictions G ∧ (1e-7 : ℝ) ≤ abs2 (T (Spec.single ((range 18).erase 15) y) G)
      then T (Spec.single ((range 18).erase 15) y) G else 0 := by
    intro G hG
    unfold excite exciteVec excited
    rw [h.size, h.psi, h.cutoffs.2.1]
    simp only [hG, true_and]
  have key : ∀ G ⊆ range 18, x G ≠ 0 → (z - (ligEnergy σ) G) * x G = T (Spec.single ((range 18).erase 15) y) G ∧
      T (Spec.single ((range 18).erase 15) y) G ≠ 0 := by
    intro G hG hne
    have e1 := hx.inside G hG
    rw [hb G hG] at e1
    by_cases hr : AllowedOpt S.restrictions G
    · have e2 : hamilton S x G = (ligEnergy σ) G * x G := by
        unfold hamilton
        rw [h.size, h.cutoffs.2.2]
        exact h.diag.hamiltonian hG hr
      rw [e2, ← sub_mul] at e1
      have hn : (z - (ligEnergy σ) G) * x G ≠ 0 := by
        refine mul_ne_zero (fun h0 => ?_) hne
        have := congrArg Complex.im h0
        rw [Complex.sub_im, hzim, ligEnergy, Complex.ofReal_im, Complex.zero_im] at this
        norm_num at this
      split at e1
      · exact ⟨e1, e1 ▸ hn⟩
      · exact absurd e1 hn
    · exfalso
      rw [if_neg (fun hc => hr hc.1)] at e1
      have h0 : hamilton S x G = 0 := by
        unfold hamilton Spec.hamiltonian
        rw [h.size, if_pos hG]
        refine sum_eq_zero fun T _ => ?_
        unfold Spec.column
        rw [if_neg (fun h => hr h.1), zero_mul]
      rw [h0, sub_zero] at e1
      exact (mul_ne_zero hz0 hne) e1
  have hsub : (range 18).erase 5 ⊆ range 18 := erase_subset _ _
  refine ⟨x ((range 18).erase 5), ?_, ?_⟩
  · funext G
    unfold Spec.single
    split
    · next hG => rw [hG]
    · next hne =>
      by_cases hG : G ⊆ range 18
      · by_contra hc
        exact (key G hG hc).2 (h1 G hG hne)
      · exact hx.outside G hG
  · by_cases hc : x ((range 18).erase 5) = 0
    · exact Or.inl hc
    · right
      obtain ⟨e1, e2⟩ := key _ hsub hc
      have e3 := h2.resolve_left e2
      rw [← e1, Complex.normSq_mul] at e3
      have hgap : ((ligEnergy σ) ((range 18).erase 5)).re = ((ligEnergy σ) ((range 18).erase 15)).re + 1023 / 128 := by
        have : ∑ i ∈ (range 18).erase 5, 2 ^ σ i = ∑ i ∈ (range 18).erase 15, 2 ^ σ i + 32736 := by
          rcases LigOrder.cases (σ := σ) with rfl | rfl <;> decide +kernel
        unfold ligEnergy
        rw [Complex.ofReal_re, Complex.ofReal_re, this]
        push_cast
        ring
      have hlt : Complex.normSq (z - (ligEnergy σ) ((range 18).erase 5)) ≤ 333 := by
        rw [Complex.normSq_apply, Complex.sub_re, Complex.sub_im, hzim, hzre, hgap]
        have : ((ligEnergy σ) ((range 18).erase 5)).im = 0 := Complex.ofReal_im _
        rw [this]
        have h3 : (w + ((ligEnergy σ) ((range 18).erase 15)).re - (((ligEnergy σ) ((range 18).erase 15)).re + 1023 / 128)) = w - 1023 / 128 := by ring
        rw [h3]
        nlinarith [hw.1, hw.2]
      have hnn := Complex.normSq_nonneg (x ((range 18).erase 5))
      nlinarith

theorem LigSim.resonant [LigOrder σ] {ε : Vec3 ℂ} (hε : ε ∈ ([⟨1, 0, 0⟩, ⟨0, 1, 0⟩, ⟨0, 0, 1⟩] : List (Vec3 ℂ))) {w : ℝ}
    (hw : -10 ≤ w ∧ w ≤ 20) :
    ResolvedRixs S w (dipolePD S.gaunt ligBaths ε) (dipoleDP S.gaunt ligBaths ⟨1, 0, 0⟩) := by
  intro i hi
  refine ⟨(h.absorb hε i hi).1, fun x hx => ?_⟩
  obtain rfl : i = 0 := by rw [h.es] at hi; simpa using hi
  rw [h.size] at hx
  obtain ⟨c, rfl, hc⟩ := h.intermediate hε hw hx
  have hval : ∀ G, dipoleDP S.gaunt ligBaths ⟨1, 0, 0⟩ (Spec.single ((range 18).erase 5) c) G
      = c * between (position ligSystem) 1 2 (fun m' m => star (Spec.dipole sympyGaunt 1 0 0 2 m 1 m'))
        (Spec.single ((range 18).erase 5) 1) G := by
    intro G
    unfold dipoleDP
    rw [h.gaunt, between_smul]
  have hlost : ∀ G, dipoleDP S.gaunt ligBaths ⟨1, 0, 0⟩ (Spec.single ((range 18).erase 5) c) G = 0 ∨
      (1e-7 ≤ Complex.normSq (dipoleDP S.gaunt ligBaths ⟨1, 0, 0⟩ (Spec.single ((range 18).erase 5) c) G) ∧
        Complex.normSq c / 30 ≤ Complex.normSq (dipoleDP S.gaunt ligBaths ⟨1, 0, 0⟩ (Spec.single ((range 18).erase 5) c) G)) := by
    intro G
    rw [hval]
    rcases hc with rfl | hc
    · left; rw [zero_mul]
    · rcases lig_back (S := G) with h0 | ⟨h0, -⟩
      · left; rw [h0, mul_zero]
      · right
        rw [Complex.normSq_mul]
        constructor <;> nlinarith
  have hle : ∀ G, Complex.normSq (dipoleDP S.gaunt ligBaths ⟨1, 0, 0⟩ (Spec.single ((range 18).erase 5) c) G)
      ≤ Complex.normSq c := by
    intro G
    rw [hval, Complex.normSq_mul]
    have hnn := Complex.normSq_nonneg c
    rcases lig_back (S := G) with h0 | ⟨-, h0⟩
    · rw [h0, Complex.normSq_zero, mul_zero]; exact hnn
    · nlinarith
  refine ⟨fun G _ _ => ?_, fun G hG => ?_, ?_⟩
  · rw [h.cutoffs.2.1]
    exact (hlost G).imp_right And.left
  · have hex : ∀ F, Complex.normSq (exciteVec S (dipoleDP S.gaunt ligBaths ⟨1, 0, 0⟩) (Spec.single ((range 18).erase 5) c) F)
        ≤ Complex.normSq c := by
      intro F
      unfold exciteVec excited
      split
      · exact hle F
      · rw [Complex.normSq_zero]; exact Complex.normSq_nonneg c
    have hsum : ∑ F ∈ (range (Spec.size S)).powerset,
        Complex.normSq (exciteVec S (dipoleDP S.gaunt ligBaths ⟨1, 0, 0⟩) (Spec.single ((range 18).erase 5) c) F)
        ≤ 2 ^ 18 * Complex.normSq c := by
      refine (sum_le_sum fun F _ => hex F).trans ?_
      rw [Finset.sum_const, card_powerset, card_range, h.size, nsmul_eq_mul]
      norm_num
    by_cases h0 : exciteVec S (dipoleDP S.gaunt ligBaths ⟨1, 0, 0⟩) (Spec.single ((range 18).erase 5) c) G = 0
    · exact Or.inl h0
    · right
      have e1 : exciteVec S (dipoleDP S.gaunt ligBaths ⟨1, 0, 0⟩) (Spec.single ((range 18).erase 5) c) G
          = dipoleDP S.gaunt ligBaths ⟨1, 0, 0⟩ (Spec.single ((range 18).erase 5) c) G := by
        unfold exciteVec excited at h0 ⊢
        split at h0
        · next hc => rw [if_pos hc]
        · exact absurd rfl h0
      rw [e1] at h0 ⊢
      have e2 := ((hlost G).resolve_left h0).2
      rw [h.cutoffs.2.1]
      refine le_trans (mul_le_mul_of_nonneg_left hsum (by norm_num)) (le_trans ?_ e2)
      have hnn := Complex.normSq_nonneg c
      nlinarith
  · refine h.exhausted_excite ((range 18).image fun q => (range 18).erase q) (card_image_le.trans (by simp)) ?_
    intro G hG hne
    rw [hval]
    refine mul_eq_zero_of_right _ ?_
    by_contra hc
    obtain ⟨p, q, a1, a2⟩ : ∃ p q, G \ (range 18).erase 5 = {p} ∧ (range 18).erase 5 \ G = {q} := by
      obtain ⟨s, -, m', -, m, -, -, a1, a2⟩ := (between_element (goodSystem_two (by decide) : GoodSystem ligSystem)
      (l := 1) (l' := 2) (by decide) (by decide) (by decide)
      (fun m' m => star (Spec.dipole sympyGaunt 1 0 0 2 m 1 m')) G ((range 18).erase 5)).resolve_left hc
      exact ⟨_, _, a1, a2⟩
    have hp : p ∈ G \ (range 18).erase 5 := a1 ▸ mem_singleton_self p
    rw [mem_sdiff, mem_erase] at hp
    have hp16 := hG hp.1
    obtain rfl : p = 5 := by by_contra h5; exact hp.2 ⟨h5, hp16⟩
    have hq : q ∈ (range 18).erase 5 \ G := a2 ▸ mem_singleton_self q
    rw [mem_sdiff, mem_erase] at hq
    refine hne (mem_image.2 ⟨q, hq.1.2, ?_⟩)
    ext i
    have b1 := Finset.ext_iff.1 a2 i
    simp only [mem_sdiff, mem_erase, mem_singleton] at b1 ⊢
    constructor
    · rintro ⟨c1, c2⟩
      by_contra hi
      by_cases h5 : i = 5
      · rw [h5] at hi; exact hi hp.1
      · exact c1 (b1.1 ⟨⟨h5, c2⟩, hi⟩)
    · intro hi
      exact ⟨fun hiq => hq.2 (hiq ▸ hi), hG hi⟩

theorem LigSim.allResolved [LigOrder σ] : AllResolved ligBaths S where
  add j _ := h.ladder _ true
  remove j _ := h.ladder _ false
  core j _ := h.ladder _ false
  absorb ε hε := h.absorb (by rw [← h.epsilons.1]; exact hε)
  scatter q _ := h.scatter q
  resonant ε hε w hw := h.resonant (by rw [← h.epsilons.2]; exact hε) (by
    obtain ⟨k, hk, rfl⟩ := List.getElem_of_mem hw
    rw [h.wIn.2 k hk]
    have hk' : (k : ℝ) ≤ 49 := by
      have := h.wIn.1
      have : k ≤ 49 := by omega
      exact_mod_cast this
    have : (0 : ℝ) ≤ k := Nat.cast_nonneg k
    push_cast
    constructor <;> linarith)

end

/-- In every such run of `main` the cutoffs are harmless. -/
theorem lig_resolved [LigOrder σ] {L : MainLib} {T : ℝ} (hL : L.gaunt = sympyGaunt) (hT : 0 < T) (hk : 0 < L.kB) (hcold : 10 * (L.kB * T) ≤ 4)
    {energies : List ℝ} {psis : List (Psi ℂ)} {S : SimulateArgs}
    (hrun : MainRun L (ligArgs σ T) ligBaths ligParams 0 0 0 (ligLevels σ) energies psis S) :
    S.es.length < energies.length ∧
    (∀ psi ∈ S.psis, ∑ F ∈ (range (size S)).powerset, Complex.normSq (ampl (size S) psi F) = 1) ∧
    AllResolved ligBaths S := by
  classical
  have hcount : energies.length = 2 := hrun.count
  have hlow := hrun.lowest
  rw [show nTotal (pdSystem ligBaths) = 18 from ligSystem_size] at hlow
  have hD : DiagonalOp 18 S.hOp 1e-12 (ligEnergy σ) := lig_diagonal fun v F hF => by
    rw [hrun.hamiltonian v F]
    exact lig_pdHamiltonian L.gaunt σ T v hF
  have hlow' : LowestStates 18 S.hOp 1e-12 1e-7 ligStates.toFinset energies psis := by
    rw [← lig_filter hL]
    convert hlow using 2
    exact Iff.rfl
  have hlp := hlow'.2.1
  obtain ⟨he0, ⟨y, hy, hy1⟩, hgap⟩ := lig_lowest hD hlow' (by omega) (by omega)
  obtain ⟨e0, e1, rfl⟩ := List.length_eq_two.1 hcount
  obtain ⟨psi0, psi1, rfl⟩ := List.length_eq_two.1 (hlp.trans hcount)
  have hgap : e0 + 4 ≤ e1 := hgap 1 (by simp) one_pos
  have hpos : 0 < 10 * (L.kB * T) := by positivity
  obtain ⟨k1, k2⟩ := hrun.kept
  have k3 := k2 e0 (by simp) (by simp; linarith)
  have hno : ¬ e1 - e0 < 10 * (L.kB * T) := by linarith
  have k4 : S.es.zip S.psis = [(e0, psi0)] := by
    rw [k3]
    show List.filter (fun p => decide (p.1 - e0 < 10 * (L.kB * T))) [(e0, psi0), (e1, psi1)] = _
    simp [hpos, hno]
  have hes : S.es = [e0] := by
    have := congrArg (List.map Prod.fst) k4
    rwa [List.map_fst_zip (by omega)] at this
  have hps : S.psis = [psi0] := by
    have := congrArg (List.map Prod.snd) k4
    rwa [List.map_snd_zip (by omega)] at this
  have hy : ampl 18 psi0 = Spec.single ((range 18).erase 15) y := hy
  have hsz : size S = 18 := by unfold size; rw [hrun.system]; exact ligSystem_size
  refine ⟨by rw [hes]; simp, ?_, ?_⟩
  · rw [hps, hsz]
    intro psi hp
    obtain rfl := List.mem_singleton.1 hp
    rw [hy, Finset.sum_eq_single ((range 18).erase 15)]
    · rw [show Spec.single ((range 18).erase 15) y ((range 18).erase 15) = y from if_pos rfl, hy1]
    · intro F _ hne
      rw [show Spec.single ((range 18).erase 15) y F = 0 from if_neg hne, Complex.normSq_zero]
    · intro hn
      exact absurd (mem_powerset.2 (erase_subset _ _)) hn
  · exact LigSim.allResolved (y := y) {
      size := hsz
      diag := hD
      cutoffs := hrun.args.cutoffs
      gaunt := hrun.args.library.1.trans hL
      epsilons := ⟨hrun.args.epsilons, hrun.args.epsilonsRIXS.1⟩
      wIn := hrun.args.wIn
      delta := hrun.args.delta
      radial := hrun.args.radial.1
      es := by rw [hes]; exact congrArg (fun e => [e]) he0
      psi := by rw [hps]; exact hy
      norm := hy1 }

end

end Verif
