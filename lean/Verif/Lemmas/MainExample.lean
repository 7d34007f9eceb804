/-
A run of main that finishes: nine electrons in a d shell above a full p shell, no bath
states, and a Hamiltonian with different orbital energies.
-/
import Verif.Prop.Main
import Verif.Lemmas.Diagonal
import Verif.Lemmas.Gaunt
import Verif.Lemmas.Printed
import Mathlib.Combinatorics.Colex

namespace Verif

open Finset Mpi Psr Spec Matrix

noncomputable section

/-! ### The arguments -/

/-- The label of the spin-orbital `i`. -/
def holeLabel (i : ℕ) : Label :=
  if i < 6 then .imp 1 ((i / 3 : ℕ) : ℤ) (((i % 3 : ℕ) : ℤ) - 1)
  else .imp 2 (((i - 6) / 5 : ℕ) : ℤ) ((((i - 6) % 5 : ℕ) : ℤ) - 2)

/-- The energy of the spin-orbital `i`: `2 ^ i / 4096`, for the p shell raised by `lev`. -/
def holeLevel (lev : ℝ) (i : ℕ) : ℂ := (2 : ℂ) ^ i / 4096 + if i < 6 then (lev : ℂ) else 0

def holeLevels (lev : ℝ) : Op Label ℂ := (List.range 16).map fun i => (oneProcess (holeLabel i) (holeLabel i), holeLevel lev i)

/-- The positions of the p shell for which all energies of product states differ. -/
class CoreLevel (lev : ℝ) : Prop where
  nonneg : 0 ≤ lev
  le : lev ≤ 6
  apart : ∀ n m : ℤ, |n| ≤ 6 → lev * n = m / 4096 → m = 0

instance : CoreLevel 0 where
  nonneg := le_rfl
  le := by norm_num
  apart n m _ h := by
    rw [zero_mul, eq_comm, div_eq_zero_iff] at h
    rcases h with h | h
    · exact_mod_cast h
    · norm_num at h

def holeArgs (lev T : ℝ) (radial : List (ℝ × ℝ)) : MainArgs where
  h0 := .pickle (holeLevels lev)
  radial := radial
  ls := [1, 2]
  nBaths := [0, 0]
  nValBaths := [0, 0]
  n0imps := [6, 9]
  dnTols := [0, 0]
  dnValBaths := [0, 0]
  dnConBaths := [0, 0]
  Fdd := [0, 0, 0, 0, 0]
  Fpp := [0, 0, 0]
  Fpd := [0, 0, 0]
  Gpd := [0, 0, 0, 0]
  xi2p := 0
  xi3d := 0
  chargeTransferCorrection := 0
  hField := [0, 0, 0]
  nPsiMax := 1
  nPrintSlaterWeights := 3
  tolPrintOccupation := 1 / 2
  T := T
  energyCut := 10
  delta := 1 / 5
  deltaRIXS := 1 / 20
  deltaNIXS := 1 / 10

def holeParams : BasisParams where
  val _ := 0
  dnVal _ := 0
  dnCon _ := 0
  tol _ := 0
  n0 l := if l = 1 then 6 else 9

/-- The energy of a product state. -/
def holeEnergy (lev : ℝ) (F : Finset ℕ) : ℂ :=
  (((∑ i ∈ F, 2 ^ i : ℕ) / 4096 + lev * ({i ∈ F | i < 6}.card : ℝ) : ℝ) : ℂ)

theorem holeLevel_sum (lev : ℝ) (F : Finset ℕ) : ∑ i ∈ F, holeLevel lev i = holeEnergy lev F := by
  unfold holeLevel holeEnergy
  rw [Finset.sum_add_distrib, ← Finset.sum_filter, Finset.sum_const, ← Finset.sum_div]
  push_cast
  rw [nsmul_eq_mul, mul_comm (lev : ℂ)]

/-- The system. -/
abbrev holeSystem : NBaths := pdSystem fun _ => 0

theorem holeSystem_size : nTotal holeSystem = 16 := by decide

theorem holeArgs_valid (lev T : ℝ) (radial : List (ℝ × ℝ)) : (holeArgs lev T radial).Valid where
  delta := by norm_num [holeArgs]
  deltaRIXS := by norm_num [holeArgs]
  deltaNIXS := by norm_num [holeArgs]

variable {lev : ℝ}

theorem holeLabel_position : ∀ i < 16, position holeSystem (holeLabel i) = i := by decide +kernel

theorem holeLabel_in : ∀ i < 16, InSystem holeSystem (holeLabel i) := by
  intro i hi
  unfold holeLabel
  split
  · exact ⟨by decide, by omega, by omega, by omega, by omega⟩
  · exact ⟨by decide, by omega, by omega, by omega, by omega⟩

theorem holeLevels_keys : Dict.keys (holeLevels lev) = (List.range 16).map fun i => oneProcess (holeLabel i) (holeLabel i) := by
  unfold holeLevels Dict.keys
  rw [List.map_map]
  rfl

theorem holeLevels_nodup : Dict.NodupKeys (holeLevels lev) := by
  rw [Dict.NodupKeys, holeLevels_keys]
  decide +kernel

theorem holeLevels_get {q : Process Label} {x : ℂ} (h : Dict.get? (holeLevels lev) q = some x) :
    ∃ i < 16, q = oneProcess (holeLabel i) (holeLabel i) ∧ x = holeLevel lev i := by
  have := Dict.mem_of_get? h
  unfold holeLevels at this
  obtain ⟨i, hi, e⟩ := List.mem_map.1 this
  cases e
  exact ⟨i, List.mem_range.1 hi, rfl, rfl⟩

theorem holeLevels_hermitian : HermitianStrengths (holeLevels lev) := by
  apply strength_of_hermitian holeLevels_nodup
  intro p
  rw [get?_daggerOp _ holeLevels_nodup]
  have self : ∀ q x, Dict.get? (holeLevels lev) q = some x → dagProcess q = q := by
    intro q x h
    obtain ⟨i, -, rfl, -⟩ := holeLevels_get h
    rfl
  cases h : Dict.get? (holeLevels lev) (dagProcess p) with
  | some x =>
    have := self _ _ h
    rw [dagProcess_dagProcess] at this
    rw [← this] at h
    rw [h]
    obtain ⟨i, -, -, rfl⟩ := holeLevels_get h
    rw [Option.map_some]
    unfold holeLevel
    rw [star_add, star_div₀, star_pow, star_ofNat, star_ofNat]
    split
    · rw [show star (lev : ℂ) = lev from Complex.conj_ofReal lev]
    · rw [star_zero]
  | none =>
    cases h' : Dict.get? (holeLevels lev) p with
    | none => rfl
    | some x =>
      rw [self _ _ h', h'] at h
      cases h

theorem holeArgs_documented (lev T : ℝ) (radial : List (ℝ × ℝ)) : Documented (holeArgs lev T radial) (fun _ => 0) holeParams 0 0 0 (holeLevels lev) where
  ls := rfl
  nBaths := rfl
  nValBaths := rfl
  n0imps := rfl
  dnTols := rfl
  dnValBaths := rfl
  dnConBaths := rfl
  hField := rfl
  Fdd := rfl
  Fpp := rfl
  Fpd := rfl
  Gpd := rfl
  h0 := Or.inl ⟨rfl, holeLevels_nodup⟩

/-! ### The setup -/

/-- The product states of the basis: one hole in the d shell. -/
def holeStates : List (Finset ℕ) := (List.range 10).map fun i => (range 16).erase (15 - i)

def holeRestrictions : Restrictions := [(range 16 \ range 6, (8, 10)), (∅, (0, 0))]

section
variable (L : MainLib) (hL : L.gaunt = sympyGaunt) (lev T : ℝ) (radial : List (ℝ × ℝ))

include hL in
theorem holeSetup_ok : ∃ hOp, mainSetup L (holeArgs lev T radial)
    = .ok ⟨[(1, 0), (2, 0)], holeRestrictions, hOp, holeStates.map (encBytes 16)⟩ := by
  obtain ⟨d, p, hdc⟩ : ∃ d p, dcMLFT ((9 : ℤ) : ℝ) 0 [0, 0, 0, 0, 0] (some ((6 : ℤ) : ℝ)) (some [0, 0, 0])
      (some [0, 0, 0, 0]) = .ok (.two d p) := by
    exact ⟨_, _, (C39_double_counting _ _ _ _ _ _ (by simp) (by simp) (by simp)).2.2 [0, 0, 0] [0, 0, 0, 0] ⟨9, rfl⟩
      (by norm_num) rfl rfl⟩
  obtain ⟨hOp, hop⟩ := (C54_accepts [0, 0, 0, 0, 0] [0, 0, 0] [0, 0, 0] [0, 0, 0, 0] 0 0 0 0 0 0 sympyGaunt_symmetric
    (nBaths := holeSystem) ⟨by decide, by decide⟩ (by decide) (by decide) (n0imps := [(1, 6), (2, 9)]) 9 6 rfl rfl d p hdc
    holeLevels_nodup).1 (by
      intro q hq x hx
      unfold strength at hq
      cases hg : Dict.get? (holeLevels lev) q with
      | none => rw [hg] at hq; simp at hq
      | some v =>
        obtain ⟨i, hi, rfl, -⟩ := holeLevels_get hg
        have := holeLabel_in i hi
        simp only [oneProcess, List.mem_cons, List.not_mem_nil, or_false] at hx
        rcases hx with rfl | rfl <;> exact this) holeLevels_hermitian
  refine ⟨hOp, ?_⟩
  have e1 : mainRestrictions [(1, 0), (2, 0)] [(1, 0), (2, 0)] [(1, 6), (2, 9)] [(1, 0), (2, 0)] [(1, 0), (2, 0)]
      [(1, 0), (2, 0)] = .ok holeRestrictions := by decide +kernel
  have e2 : getBasis [(1, 0), (2, 0)] [(1, 0), (2, 0)] [(1, 0), (2, 0)] [(1, 0), (2, 0)] [(1, 0), (2, 0)] [(1, 6), (2, 9)]
      = .ok (holeStates.map (encBytes 16)) := by decide +kernel
  unfold mainSetup
  simp only [holeArgs, zipDict_two]
  rw [e1]
  simp only [ok_bind, pure_ok]
  unfold mainHamiltonian
  simp only
  rw [hL, show intKeys [((1 : ℕ), 0), (2, 0)] = holeSystem from rfl, hop]
  simp only [ok_bind]
  rw [e2]
  rfl

variable {L lev T radial} {hOp : Op ℕ ℂ}
  (hs : mainSetup L (holeArgs lev T radial) = .ok ⟨[(1, 0), (2, 0)], holeRestrictions, hOp, holeStates.map (encBytes 16)⟩)

omit L T radial in
theorem card_core_le (F : Finset ℕ) : {i ∈ F | i < 6}.card ≤ 6 := by
  refine (card_le_card fun i hi => ?_).trans_eq (card_range 6)
  exact mem_range.2 (mem_filter.1 hi).2

omit L T radial in
theorem holeEnergy_inj [CoreLevel lev] {S T : Finset ℕ} (h : (holeEnergy lev) S = (holeEnergy lev) T) : S = T := by
  unfold holeEnergy at h
  have h := Complex.ofReal_injective h
  have h0 := CoreLevel.apart (lev := lev) (({i ∈ S | i < 6}.card : ℤ) - ({i ∈ T | i < 6}.card : ℤ))
    (((∑ i ∈ T, 2 ^ i : ℕ) : ℤ) - ((∑ i ∈ S, 2 ^ i : ℕ) : ℤ)) (by
      have := card_core_le S
      have := card_core_le T
      rw [abs_le]; omega) (by
      rw [Int.cast_sub, Int.cast_sub, Int.cast_natCast, Int.cast_natCast, Int.cast_natCast, Int.cast_natCast]
      linarith)
  exact Finset.geomSum_injective le_rfl (by
    show ∑ i ∈ S, 2 ^ i = ∑ i ∈ T, 2 ^ i
    omega)

omit L T radial in
theorem holeEnergy_large [CoreLevel lev] (S : Finset ℕ) : (holeEnergy lev) S = 0 ∨ (1e-12 : ℝ) ≤ abs2 ((holeEnergy lev) S) := by
  rcases Finset.eq_empty_or_nonempty S with rfl | hne
  · left; simp [holeEnergy]
  · right
    have h : 0 < ∑ i ∈ S, 2 ^ i := Finset.sum_pos (fun _ _ => by positivity) hne
    have h3 : 0 ≤ lev * ({i ∈ S | i < 6}.card : ℝ) := mul_nonneg CoreLevel.nonneg (Nat.cast_nonneg _)
    unfold holeEnergy
    show _ ≤ Complex.normSq _
    rw [Complex.normSq_ofReal]
    have : (1 : ℝ) ≤ ((∑ i ∈ S, 2 ^ i : ℕ) : ℝ) := by exact_mod_cast h
    have h2 : (1 / 4096 : ℝ) ≤ ((∑ i ∈ S, 2 ^ i : ℕ) : ℝ) / 4096 := div_le_div_of_nonneg_right this (by norm_num)
    generalize lev * ({i ∈ S | i < 6}.card : ℝ) = a at *
    generalize ((∑ i ∈ S, 2 ^ i : ℕ) : ℝ) / 4096 = b at *
    nlinarith

omit L T radial in
theorem hole_pdHamiltonian (gaunt : GauntFun) (lev T : ℝ) (radial : List (ℝ × ℝ)) (v : Vec ℂ) {F : Finset ℕ} (hF : F ⊆ range 16) :
    pdHamiltonian gaunt (position holeSystem) (holeArgs lev T radial) 9 0 0 0 (holeLevels lev) v F = (holeEnergy lev) F * v F := by
  have h1 : operator (labelSpec (position holeSystem) (holeLevels lev)) v F
      = ((List.range 16).map fun i => holeLevel lev i * create i (annihilate i v) F).sum := by
    unfold operator labelSpec holeLevels
    simp only [List.map_map]
    refine congrArg List.sum (List.map_congr_left fun i hi => ?_)
    simp [oneProcess, product, ladder, holeLabel_position i (List.mem_range.1 hi)]
  have h2 : ((List.range 16).map fun i => holeLevel lev i * create i (annihilate i v) F).sum = (holeEnergy lev) F * v F := by
    simp only [create_annihilate_self]
    rw [← List.sum_toFinset _ (List.nodup_range), List.toFinset_range]
    simp only [mul_ite, mul_zero]
    rw [Finset.sum_ite_mem, Finset.inter_eq_right.2 hF, ← Finset.sum_mul]
    rw [holeLevel_sum]
  have hc : ∀ (l1 l2 l3 l4 : ℕ) (R : List ℝ), (∀ x ∈ R, x = 0) →
      twoBody (position holeSystem) l1 l2 l3 l4 (coulomb gaunt l1 l2 l3 l4 R) v F = 0 := by
    intro l1 l2 l3 l4 R hR
    have : coulomb gaunt l1 l2 l3 l4 R = fun _ _ _ _ => 0 := by
      funext m1 m2 m3 m4
      unfold coulomb
      split
      · refine sum_eq_zero fun k hk => ?_
        rw [List.getD_eq_getElem _ _ (mem_range.1 hk), hR _ (List.getElem_mem _), zero_mul]
      · rfl
    rw [this]
    unfold twoBody
    simp
  have ho : ∀ (l : ℕ) (M : ℤ × ℤ → ℤ × ℤ → ℂ), (∀ x y, M x y = 0) → oneBody (position holeSystem) l M v F = 0 := by
    intro l M hM
    unfold oneBody
    exact sum_eq_zero fun x _ => by rw [hM, zero_mul]
  unfold pdHamiltonian
  rw [h1, h2, hc, hc, hc, hc, hc, hc, ho, ho, ho]
  · simp [holeArgs, averageUdd, averageUpd]
  all_goals simp [holeArgs, hDotS]

include hs in
theorem holeSetup_operator (v : Vec ℂ) {F : Finset ℕ} (hF : F ⊆ range 16) :
    operator (opSpec hOp) v F = (holeEnergy lev) F * v F := by
  obtain ⟨-, -, hop, hn0, -⟩ := setup_documented (holeArgs_documented lev T radial) hs
  rw [(hamiltonian_documented (holeArgs_documented lev T radial) hn0 hop).2]
  exact hole_pdHamiltonian L.gaunt lev T radial v hF

omit L T radial in
theorem hole_diagonal [CoreLevel lev] {op : Op ℕ ℂ} (h : ∀ (v : Vec ℂ) (F : Finset ℕ), F ⊆ range 16 → operator (opSpec op) v F = (holeEnergy lev) F * v F) :
    DiagonalOp 16 op 1e-12 (holeEnergy lev) where
  element := by
    intro S hS T _
    unfold matrixElement
    rw [h _ _ hS]
    unfold Spec.single
    by_cases h : S = T
    · rw [if_pos h, if_pos h, h, mul_one]
    · rw [if_neg h, if_neg h, mul_zero]
  large := fun S _ => holeEnergy_large S

include hs in
theorem holeSetup_diagonal [CoreLevel lev] : DiagonalOp 16 hOp 1e-12 (holeEnergy lev) :=
  hole_diagonal fun v _ hF => holeSetup_operator hs v hF

theorem holeStates_nodup : holeStates.Nodup := by decide +kernel

theorem holeStates_sub : ∀ S ∈ holeStates, S ⊆ range 16 := by decide +kernel

/-! ### The eigenstate -/

include hs in
theorem holeEigen [CoreLevel lev] (hS : SolverCorrect L.solver) (htot : ∀ H d k, k < d → ∃ p, L.solver.eigsh H d k = .ok p) :
    ∃ e psi x, refEigensystem L.solver 16 hOp 1e-12 (holeStates.map (encBytes 16)) 1 1e-7 = .ok ([e], [psi]) ∧
      IsState 16 psi ∧ ampl 16 psi = Spec.single (range 15) x ∧ Complex.normSq x = 1 ∧ holeEnergy lev (range 15) = e := by
  have hgood := (mainSetup_good L (holeArgs lev T radial) _ hs).op
  rw [nSpinOrbitals_eq, show nTotal (intKeys [((1 : ℕ), 0), (2, 0)]) = 16 from holeSystem_size] at hgood
  have hD := holeSetup_diagonal hs
  have hok : ∃ es psis, refEigensystem L.solver 16 hOp 1e-12 (holeStates.map (encBytes 16)) 1 1e-7 = .ok (es, psis) ∧
      es.length = 1 := by
    obtain ⟨H, hH, -⟩ := C21_matrix_elements 16 hOp hgood.1.2 (1e-12 : ℝ) holeStates holeStates_nodup holeStates_sub
      .sparseMPI 1 one_pos
    obtain ⟨H', hH', hherm⟩ := C19_matrix_hermitian 16 hOp hgood.1.2 hgood.1.1 hgood.2 (1e-12 : ℝ) holeStates
      holeStates_nodup holeStates_sub .sparseMPI 1 one_pos
    rw [hH] at hH'
    cases hH'
    obtain ⟨p, hp⟩ := htot H (holeStates.map (encBytes 16)).length 1 (by
      rw [List.length_map]; decide)
    obtain ⟨-, hlen, -⟩ := hS.eigsh _ _ _ _ hherm hp
    have hsort := (hS.argsort p.es).1
    rw [hlen] at hsort
    have hsort : L.solver.argsort p.es = [0] := List.perm_singleton.1 hsort
    obtain ⟨e, he⟩ := List.length_eq_one_iff.1 hlen
    have hl : diagLanczos L.solver H (holeStates.map (encBytes 16)).length 1
        = .ok ⟨[e], fun i v => p.vecs i ([0].getD v 0)⟩ := by
      unfold diagLanczos
      rw [hp]
      simp only [ok_bind, hsort]
      rw [he]
      rfl
    unfold refEigensystem
    rw [if_neg (by decide)]
    unfold eigensystem
    rw [hH]
    simp only [ok_bind]
    rw [hl]
    exact ⟨_, _, rfl, rfl⟩
  obtain ⟨es, psis, heig, hlen⟩ := hok
  have heig' := heig
  unfold refEigensystem at heig'
  rw [if_neg (by decide)] at heig'
  obtain ⟨-, h2, x, h3, h4, h5, h6⟩ := C51_eigensystem L.solver hS 16 hOp hgood.1.2 hgood.1.1 hgood.2 1e-12 holeStates
    holeStates_nodup holeStates_sub 1 .lanczos 1e-7 1 one_pos _ _ heig'
  obtain ⟨e, rfl⟩ := List.length_eq_one_iff.1 hlen
  obtain ⟨psi, rfl⟩ := List.length_eq_one_iff.1 h2
  have hsum : ∀ S ∈ holeStates, ∀ y : Finset ℕ → ℂ, ∑ T ∈ holeStates.toFinset, storedElement hOp (1e-12 : ℝ) S T * y T
      = (holeEnergy lev) S * y S := by
    intro S hSm y
    rw [Finset.sum_eq_single S]
    · rw [hD.stored S S (holeStates_sub S hSm) (holeStates_sub S hSm), if_pos rfl]
    · intro T hT hne
      rw [hD.stored S T (holeStates_sub S hSm) (holeStates_sub T (List.mem_toFinset.1 hT)), if_neg (Ne.symm hne), zero_mul]
    · intro h; exact absurd (List.mem_toFinset.2 hSm) h
  -- a component that is not zero
  have hn1 : ∑ S ∈ holeStates.toFinset, star (x 0 S) * x 0 S = 1 := h3 0 one_pos 0 one_pos
  obtain ⟨S0, hS0, hx0⟩ : ∃ S ∈ holeStates.toFinset, x 0 S ≠ 0 := by
    by_contra hc
    push_neg at hc
    rw [sum_eq_zero fun S hS => by rw [hc S hS, mul_zero]] at hn1
    exact zero_ne_one hn1
  have heS : ∀ S ∈ holeStates.toFinset, x 0 S ≠ 0 → (holeEnergy lev) S = e := by
    intro S hS hx
    have := h4 0 one_pos S (List.mem_toFinset.1 hS)
    rw [hsum S (List.mem_toFinset.1 hS)] at this
    exact mul_right_cancel₀ hx this
  have hsupp : ∀ S ∈ holeStates.toFinset, S ≠ S0 → x 0 S = 0 := by
    intro S hS hne
    by_contra hx
    exact hne (holeEnergy_inj ((heS S hS hx).trans (heS S0 hS0 hx0).symm))
  have hlow : range 15 ∈ holeStates.toFinset := by decide +kernel
  have hS0e : S0 = range 15 := by
    by_contra hne
    have hy := h5 (Spec.single (range 15) 1) (by
      intro v hv
      obtain rfl : v = 0 := by simpa using hv
      refine sum_eq_zero fun S hS => ?_
      unfold Spec.single
      by_cases h : S = range 15
      · rw [hsupp S hS (fun h' => hne (h'.symm.trans h)), star_zero, zero_mul]
      · rw [if_neg h, mul_zero]) 0 one_pos
    have e1 : ∑ S ∈ holeStates.toFinset, Complex.normSq (Spec.single (range 15) 1 S) = 1 := by
      rw [Finset.sum_eq_single (range 15)]
      · simp [Spec.single]
      · intro S _ h; simp [Spec.single, h]
      · intro h; exact absurd hlow h
    have e2 : ∑ S ∈ holeStates.toFinset, ∑ T ∈ holeStates.toFinset, star (Spec.single (range 15) 1 S)
        * storedElement hOp (1e-12 : ℝ) S T * Spec.single (range 15) 1 T = (holeEnergy lev) (range 15) := by
      rw [Finset.sum_eq_single (range 15)]
      · simp only [mul_assoc]
        rw [← Finset.mul_sum, hsum _ (List.mem_toFinset.1 hlow)]
        simp [Spec.single]
      · intro S _ h; simp [Spec.single, h]
      · intro h; exact absurd hlow h
    rw [e1, e2, mul_one] at hy
    have hy : e ≤ ((holeEnergy lev) (range 15)).re := hy
    have he : e = ((holeEnergy lev) S0).re := by rw [heS S0 hS0 hx0]; simp
    rw [he] at hy
    unfold holeEnergy at hy
    have hcore : ∀ S ∈ holeStates, {i ∈ S | i < 6}.card = {i ∈ range 15 | i < 6}.card := by decide +kernel
    rw [Complex.ofReal_re, Complex.ofReal_re, hcore S0 (List.mem_toFinset.1 hS0), add_le_add_iff_right,
      div_le_div_iff_of_pos_right (by norm_num)] at hy
    have hy : ∑ i ∈ S0, 2 ^ i ≤ ∑ i ∈ range 15, 2 ^ i := by exact_mod_cast hy
    have : ∀ S ∈ holeStates, S ≠ range 15 → ∑ i ∈ range 15, 2 ^ i < ∑ i ∈ S, 2 ^ i := by decide +kernel
    exact absurd hy (not_le.2 (this S0 (List.mem_toFinset.1 hS0) hne))
  subst hS0e
  have hnorm : Complex.normSq (x 0 (range 15)) = 1 := by
    rw [Finset.sum_eq_single (range 15) (fun S hS hne => by rw [hsupp S hS hne, mul_zero])
      (fun h => absurd hlow h)] at hn1
    have : ((Complex.normSq (x 0 (range 15)) : ℝ) : ℂ) = 1 := by
      rw [← hn1, Complex.normSq_eq_conj_mul_self]; rfl
    exact_mod_cast this
  obtain ⟨g1, g2, -⟩ := h6 0 one_pos
  refine ⟨e, psi, x 0 (range 15), heig, g1, ?_, hnorm, heS _ hS0 hx0⟩
  funext S
  rw [show ampl 16 psi S = _ from g2 S]
  unfold Spec.single
  by_cases h : S = range 15
  · subst h
    rw [if_pos rfl, if_pos ⟨List.mem_toFinset.1 hlow, by rw [hnorm]; norm_num⟩]
  · rw [if_neg h]
    split
    · next hm => exact hsupp S (List.mem_toFinset.2 hm.1) h
    · rfl

/-! ### What is printed -/

theorem thermalAverage_some {E : Type} [AddCommGroup E] [Module ℝ E] {kB T : ℝ} (h : kB * T ≠ 0) {es : List ℝ} {xs : List E}
    (hl : es.length = xs.length) (hne : es ≠ []) : ∃ y, thermalAverage kB es xs T = .ok y :=
  ⟨_, C38_boltzmann kB es xs T hl hne h⟩

theorem mapM_exists {α β : Type} {f : α → Py β} {l : List α} (h : ∀ a ∈ l, ∃ b, f a = .ok b) : ∃ r, l.mapM f = .ok r := by
  induction l with
  | nil => exact ⟨[], rfl⟩
  | cons a l ih =>
    obtain ⟨b, hb⟩ := h a List.mem_cons_self
    obtain ⟨r, hr⟩ := ih fun x hx => h x (List.mem_cons_of_mem _ hx)
    refine ⟨b :: r, ?_⟩
    rw [List.mapM_cons, hb, ok_bind, hr]
    rfl

theorem mapM_exists_len {α β : Type} {f : α → Py β} {l : List α} (h : ∀ a ∈ l, ∃ b, f a = .ok b) :
    ∃ r, l.mapM f = .ok r ∧ r.length = l.length := by
  obtain ⟨r, hr⟩ := mapM_exists h
  exact ⟨r, hr, mapM_length hr⟩

/-- Whatever the states are, they can be printed. -/
theorem mainPrints_ok {nBaths : Dict ℕ ℕ} (hn : Dict.NodupKeys nBaths) (hl : 2 ∈ Dict.keys nBaths) {es : List ℝ}
    {psis : List (Psi ℂ)} (hne : es ≠ []) (hlen : psis.length = es.length)
    (hpsi : ∀ psi ∈ psis, IsState (nSpinOrbitals nBaths) psi) (hk : 0 < L.kB) (A : MainArgs) :
    ∃ p, mainPrints L A nBaths es psis 0 = .ok (some p) := by
  have hT : L.kB * 300 ≠ 0 := by positivity
  have hrow : ∀ psi ∈ psis, ∀ e : ℝ, ∃ row, expRow nBaths e psi = .ok row ∧
      getEgT2gOccupation nBaths psi = .ok row.occ ∧ getTraceDensityMatrix nBaths psi 2 = .ok row.n3d ∧
      getLz3d nBaths psi = .ok row.lz ∧ getSz3d nBaths psi = .ok row.sz ∧
      getLsqr3d nBaths psi = .ok row.lsqr ∧ getSsqr3d nBaths psi = .ok row.ssqr := by
    intro psi hp e
    obtain ⟨row, h1, -, h2, h3, h4, h5, h6, h7, -⟩ := expRow_means hn hl (hpsi psi hp) e
    exact ⟨row, h1, h2, h3, h4, h5, h6, h7⟩
  obtain ⟨e0, rest, rfl⟩ := List.exists_cons_of_ne_nil hne
  obtain ⟨psi0, psis0, rfl⟩ := List.exists_cons_of_length_eq_add_one (hlen.trans List.length_cons)
  have h0 : pyGet (e0 :: rest) 0 = .ok e0 := pyGet_ofNat (e0 :: rest) 0 (by simp)
  have ht : ∃ t, printThermalExpValues L.kB nBaths (e0 :: rest) (psi0 :: psis0) 0 = .ok (some t) := by
    unfold printThermalExpValues
    rw [h0]
    simp only [ok_bind, hlen, ne_eq, not_true, if_false, if_true, pure_ok]
    generalize hkept : (List.filter _ (List.zip _ _) : List (ℝ × Psi ℂ)) = kept
    have hkne : kept.map Prod.fst ≠ [] := by
      have : (e0 - e0, psi0) ∈ kept := by
        rw [← hkept, List.mem_filter]
        refine ⟨by rw [List.map_cons, List.zip_cons_cons]; exact List.mem_cons_self, ?_⟩
        have hp : e0 - e0 < 10 * L.kB * 300 := by rw [sub_self]; positivity
        exact decide_eq_true hp
      intro h
      rw [List.map_eq_nil_iff] at h
      rw [h] at this
      cases this
    have hmem : ∀ psi ∈ kept.map Prod.snd, psi ∈ psi0 :: psis0 := by
      intro psi hp
      obtain ⟨q, hq, rfl⟩ := List.mem_map.1 hp
      rw [← hkept] at hq
      exact (List.of_mem_zip (List.mem_of_mem_filter hq)).2
    obtain ⟨r1, e1, l1⟩ := mapM_exists_len (l := kept.map Prod.snd) (f := fun psi => do
        let oc ← getEgT2gOccupation nBaths psi
        return fun (k : ℕ) => oc.getD k 0) fun psi hp => by
      obtain ⟨row, _, h, _⟩ := hrow psi (hmem psi hp) 0
      exact ⟨_, by rw [h]; rfl⟩
    obtain ⟨r3, e3, l3⟩ := mapM_exists_len (l := kept.map Prod.snd) (f := fun psi => getTraceDensityMatrix nBaths psi 2)
      fun psi hp => by
        obtain ⟨row, _, _, h, _⟩ := hrow psi (hmem psi hp) 0
        exact ⟨_, h⟩
    obtain ⟨r4, e4, l4⟩ := mapM_exists_len (l := kept.map Prod.snd) (f := fun psi => getLz3d nBaths psi)
      fun psi hp => by
        obtain ⟨row, _, _, _, h, _⟩ := hrow psi (hmem psi hp) 0
        exact ⟨_, h⟩
    obtain ⟨r5, e5, l5⟩ := mapM_exists_len (l := kept.map Prod.snd) (f := fun psi => getSz3d nBaths psi)
      fun psi hp => by
        obtain ⟨row, _, _, _, _, h, _⟩ := hrow psi (hmem psi hp) 0
        exact ⟨_, h⟩
    obtain ⟨r6, e6, l6⟩ := mapM_exists_len (l := kept.map Prod.snd) (f := fun psi => getLsqr3d nBaths psi)
      fun psi hp => by
        obtain ⟨row, _, _, _, _, _, h, _⟩ := hrow psi (hmem psi hp) 0
        exact ⟨_, h⟩
    obtain ⟨r7, e7, l7⟩ := mapM_exists_len (l := kept.map Prod.snd) (f := fun psi => getSsqr3d nBaths psi)
      fun psi hp => by
        obtain ⟨row, _, _, _, _, _, _, h⟩ := hrow psi (hmem psi hp) 0
        exact ⟨_, h⟩
    rw [List.length_map] at l1 l3 l4 l5 l6 l7
    obtain ⟨y1, f1⟩ := thermalAverage_some hT (es := kept.map Prod.fst) (xs := r1) (by rw [List.length_map, l1]) hkne
    obtain ⟨y2, f2⟩ := thermalAverage_some hT (es := kept.map Prod.fst) (xs := kept.map Prod.fst) rfl hkne
    obtain ⟨y3, f3⟩ := thermalAverage_some hT (es := kept.map Prod.fst) (xs := r3) (by rw [List.length_map, l3]) hkne
    obtain ⟨y4, f4⟩ := thermalAverage_some hT (es := kept.map Prod.fst) (xs := r4) (by rw [List.length_map, l4]) hkne
    obtain ⟨y5, f5⟩ := thermalAverage_some hT (es := kept.map Prod.fst) (xs := r5) (by rw [List.length_map, l5]) hkne
    obtain ⟨y6, f6⟩ := thermalAverage_some hT (es := kept.map Prod.fst) (xs := r6) (by rw [List.length_map, l6]) hkne
    obtain ⟨y7, f7⟩ := thermalAverage_some hT (es := kept.map Prod.fst) (xs := r7) (by rw [List.length_map, l7]) hkne
    refine ⟨⟨y2, y3, y1, y4, y5, y6, y7⟩, ?_⟩
    simp only [pure_ok] at e1
    rw [e1]
    simp only [ok_bind, f1, f2, e3, f3, e4, f4, e5, f5, e6, f6, e7, f7]
  obtain ⟨t, ht⟩ := ht
  obtain ⟨rows, hrows⟩ := mapM_exists (l := ((e0 :: rest).map fun e => e - e0).zip (psi0 :: psis0))
    (f := fun p => expRow nBaths p.1 p.2) fun p hp => by
      obtain ⟨row, h, _⟩ := hrow p.2 (List.of_mem_zip hp).2 p.1
      exact ⟨row, h⟩
  have he : printExpValues nBaths (e0 :: rest) (psi0 :: psis0) 0 = .ok (some (e0, rows)) := by
    unfold printExpValues
    rw [if_pos rfl, h0]
    simp only [ok_bind, hrows, pure_ok]
  obtain ⟨dens, hdens⟩ := mapM_exists (l := psi0 :: psis0) (f := printDensity A.tolPrintOccupation nBaths) fun psi hp => by
    obtain ⟨d, hd, -⟩ := getDensityMatrixCubic_spec hn hl (hpsi psi hp)
    refine ⟨d.filter fun p => decide (A.tolPrintOccupation < ‖p.2‖), ?_⟩
    unfold printDensity
    rw [hd]
    rfl
  unfold mainPrints
  rw [ht]
  simp only [ok_bind, he, if_true, hdens, pure_ok]
  exact ⟨_, rfl⟩

/-! ### The spectra -/

theorem noneDropped_single {n : ℕ} {op : Op ℕ ℂ} {cut lo hi : ℝ} {F : Finset ℕ} (hcut : 0 ≤ cut)
    (h : ∀ S ⊆ range n, operator (opSpec op) (Spec.single F 1) S = 0 ∨
      lo ≤ Complex.normSq (operator (opSpec op) (Spec.single F 1) S) ∧
      Complex.normSq (operator (opSpec op) (Spec.single F 1) S) ≤ hi) (hhi : 0 ≤ hi)
    (hb : cut * (2 ^ n * hi) ≤ lo) (r : Option Restrictions) (y : ℂ) :
    NoneDropped n cut (transition n op cut r (Spec.single F y)) := by
  have hy : ∀ S, operator (opSpec op) (Spec.single F y) S = y * operator (opSpec op) (Spec.single F 1) S := by
    intro S
    have : Spec.single F y = fun T => y * Spec.single F 1 T := by
      funext T; unfold Spec.single; split <;> simp
    rw [this, operator_smul]
  have hle : ∀ S, Complex.normSq (transition n op cut r (Spec.single F y) S) ≤ Complex.normSq y * hi := by
    intro S
    unfold transition
    split
    · next hc =>
      rw [hy, Complex.normSq_mul]
      apply mul_le_mul_of_nonneg_left _ (Complex.normSq_nonneg _)
      rcases h S hc.1 with h0 | h0
      · rw [h0]; simpa using hhi
      · exact h0.2
    · rw [Complex.normSq_zero]
      exact mul_nonneg (Complex.normSq_nonneg _) hhi
  have hsum : ∑ S ∈ (range n).powerset, Complex.normSq (transition n op cut r (Spec.single F y) S)
      ≤ 2 ^ n * (Complex.normSq y * hi) := by
    refine (sum_le_sum fun S _ => hle S).trans ?_
    rw [Finset.sum_const, card_powerset, card_range, nsmul_eq_mul]
    push_cast
    exact le_rfl
  intro S hS
  by_cases h0 : transition n op cut r (Spec.single F y) S = 0
  · exact Or.inl h0
  · right
    have hval : transition n op cut r (Spec.single F y) S = y * operator (opSpec op) (Spec.single F 1) S := by
      unfold transition at h0 ⊢
      split at h0
      · next hc => rw [if_pos hc, hy]
      · exact absurd rfl h0
    rw [hval] at h0 ⊢
    rw [Complex.normSq_mul]
    have h1 := ((h S hS).resolve_left (right_ne_zero_of_mul h0)).1
    calc cut * _ ≤ cut * (2 ^ n * (Complex.normSq y * hi)) := mul_le_mul_of_nonneg_left hsum hcut
      _ = Complex.normSq y * (cut * (2 ^ n * hi)) := by ring
      _ ≤ Complex.normSq y * lo := mul_le_mul_of_nonneg_left hb (Complex.normSq_nonneg _)
      _ ≤ _ := mul_le_mul_of_nonneg_left h1 (Complex.normSq_nonneg _)

/-- The squares of the dipole matrix elements between p and d orbitals. -/
theorem ck_bounds (m m' : ℤ) : ck sympyGaunt 1 2 m 1 m' = 0 ∨
    (1 / 15 ≤ ck sympyGaunt 1 2 m 1 m' ^ 2 ∧ ck sympyGaunt 1 2 m 1 m' ^ 2 ≤ 1) := by
  have hfin : ∀ m ∈ ([-2, -1, 0, 1, 2] : List ℤ), ∀ m' ∈ ([-1, 0, 1] : List ℤ),
      gauntZero (2 : ℕ) (1 : ℕ) (1 : ℕ) (-m) (m - m') m' = true ∨
      (1 / 15 ≤ gauntArg (2 : ℕ) (1 : ℕ) (1 : ℕ) (-m) (m - m') m' * gauntRational (2 : ℕ) (1 : ℕ) (1 : ℕ) (-m) (m - m') ^ 2 / (2 * (1 : ℕ) + 1) ∧
       gauntArg (2 : ℕ) (1 : ℕ) (1 : ℕ) (-m) (m - m') m' * gauntRational (2 : ℕ) (1 : ℕ) (1 : ℕ) (-m) (m - m') ^ 2 / (2 * (1 : ℕ) + 1) ≤ 1) := by
    decide +kernel
  by_cases h : gauntZero (2 : ℕ) (1 : ℕ) (1 : ℕ) (-m) (m - m') m' = true
  · left
    unfold ck sympyGaunt
    rw [if_pos h]
    simp
  · right
    have h0 := gauntZero_eq_false.1 (by simpa using h)
    simp only [abs_le] at h0
    have hm : m ∈ ([-2, -1, 0, 1, 2] : List ℤ) := by
      simp only [List.mem_cons, List.not_mem_nil, or_false]; omega
    have hm' : m' ∈ ([-1, 0, 1] : List ℤ) := by
      simp only [List.mem_cons, List.not_mem_nil, or_false]; omega
    rcases hfin m hm m' hm' with h1 | ⟨h1, h2⟩
    · exact absurd h1 h
    · rw [ck_sq, if_neg h]
      constructor
      · have : ((1 / 15 : ℚ) : ℝ) ≤ _ := Rat.cast_le.2 h1
        refine le_trans (le_of_eq ?_) this
        norm_num
      · have : _ ≤ ((1 : ℚ) : ℝ) := Rat.cast_le.2 h2
        exact this.trans (le_of_eq Rat.cast_one)

theorem hole_dipole (gaunt : GauntFun) (x y z : ℂ) {S : Finset ℕ} (hS : S ⊆ range 16)
    (h : between (position holeSystem) 2 1 (fun m m' => dipole gaunt x y z 2 m 1 m') (Spec.single (range 15) 1) S ≠ 0) :
    S = (range 16).erase 5 := by
  have hsys : GoodSystem holeSystem := goodSystem_two (by decide)
  obtain ⟨s, hs, m, hm, m', hm', he, h1, h2⟩ := (between_element hsys (l := 2) (l' := 1) (by decide) (by decide) (by decide)
    (fun m m' => dipole gaunt x y z 2 m 1 m') S (range 15)).resolve_left h
  have hpos : ∀ s ∈ ({0, 1} : Finset ℤ), ∀ m ∈ Icc (-2 : ℤ) 2, position holeSystem (.imp 2 s m) = 15 → s = 1 ∧ m = 2 := by
    decide +kernel
  have h15 : position holeSystem (.imp 2 s m) = 15 := by
    have hmem : position holeSystem (.imp 2 s m) ∈ S \ range 15 := by rw [h1]; exact mem_singleton_self _
    rw [mem_sdiff, mem_range] at hmem
    have := mem_range.1 (hS hmem.1)
    omega
  obtain ⟨rfl, rfl⟩ := hpos s hs m hm h15
  have hne : dipole gaunt x y z 2 2 1 m' ≠ 0 := by
    intro h0
    rw [h0, Amp.abs2_zero] at he
    exact h (Complex.normSq_eq_zero.1 he)
  have hstep := dipole_step gaunt x y z 2 2 1 m' hne
  rw [mRange, mem_Icc] at hm'
  obtain rfl : m' = 1 := by push_cast at hm'; omega
  have h5 : position holeSystem (.imp 1 1 1) = 5 := by decide +kernel
  rw [h5] at h2
  rw [h15] at h1
  ext i
  have a1 := Finset.ext_iff.1 h1 i
  have a2 := Finset.ext_iff.1 h2 i
  have a3 := @hS i
  simp only [mem_sdiff, mem_range, mem_singleton, mem_erase] at *
  constructor
  · intro hi
    refine ⟨?_, a3 hi⟩
    rintro rfl
    exact (a2.2 rfl).2 hi
  · rintro ⟨hne5, hi⟩
    by_contra hc
    by_cases h14 : i < 15
    · exact hne5 (a2.1 ⟨h14, hc⟩)
    · exact hc (a1.2 (by omega)).1

theorem hole_back {S : Finset ℕ} : 
    between (position holeSystem) 1 2 (fun m' m => star (dipole sympyGaunt 1 0 0 2 m 1 m'))
      (Spec.single ((range 16).erase 5) 1) S = 0 ∨
    (1 / 30 ≤ Complex.normSq (between (position holeSystem) 1 2 (fun m' m => star (dipole sympyGaunt 1 0 0 2 m 1 m'))
      (Spec.single ((range 16).erase 5) 1) S) ∧
     Complex.normSq (between (position holeSystem) 1 2 (fun m' m => star (dipole sympyGaunt 1 0 0 2 m 1 m'))
      (Spec.single ((range 16).erase 5) 1) S) ≤ 1) := by
  have hsys : GoodSystem holeSystem := goodSystem_two (by decide)
  rcases between_element hsys (l := 1) (l' := 2) (by decide) (by decide) (by decide)
    (fun m' m => star (dipole sympyGaunt 1 0 0 2 m 1 m')) S ((range 16).erase 5) with h | ⟨s, -, m', -, m, -, he, -, -⟩
  · exact Or.inl h
  · have he : Complex.normSq _ = Complex.normSq (star (dipole sympyGaunt 1 0 0 2 m 1 m')) := he
    rw [show Complex.normSq (star (dipole sympyGaunt 1 0 0 2 m 1 m')) = Complex.normSq (dipole sympyGaunt 1 0 0 2 m 1 m')
      from Complex.normSq_conj _] at he
    rcases dipole_x sympyGaunt 2 m 1 m' with h0 | h0
    · left
      rw [h0, Complex.normSq_zero] at he
      exact Complex.normSq_eq_zero.1 he
    · have h0 : Complex.normSq (dipole sympyGaunt 1 0 0 2 m 1 m') = ck sympyGaunt 1 2 m 1 m' ^ 2 / 2 := h0
      rcases ck_bounds m m' with hz | ⟨hb1, hb2⟩
      · left
        rw [h0, hz] at he
        norm_num at he
        exact he
      · right
        rw [he, h0]
        constructor <;> linarith

include hs in
theorem hole_solution [CoreLevel lev] {psi : Psi ℂ} {y : ℂ} (hpsi : ampl 16 psi = Spec.single (range 15) y) {op : Op ℕ ℂ} {gaunt : GauntFun}
    {px py pz : ℂ} (hop : operator (opSpec op) = between (position holeSystem) 2 1 fun m m' => dipole gaunt px py pz 2 m 1 m')
    {z : ℂ} (hz : z.im ≠ 0) {cut : ℝ} {r : Option Restrictions} {x : Vec ℂ}
    (hx : Solves 16 (hamiltonian 16 hOp 1e-12 r) z (excitation 16 op cut r psi) x) :
    x = Spec.single ((range 16).erase 5) (x ((range 16).erase 5)) := by
  have hD := holeSetup_diagonal hs
  have hz0 : z ≠ 0 := by rintro rfl; simp at hz
  have hexc : ∀ S ⊆ range 16, S ≠ (range 16).erase 5 → excitation 16 op cut r psi S = 0 := by
    intro S hS hne
    unfold excitation
    split
    · have h1 : Spec.single (range 15) y = fun T => y * Spec.single (range 15) 1 T := by
        funext T; unfold Spec.single; split <;> simp
      rw [hpsi, h1, operator_smul, hop]
      by_contra hc
      exact hne (hole_dipole gaunt px py pz hS (right_ne_zero_of_mul hc))
    · rfl
  funext S
  unfold Spec.single
  split
  · next h => rw [h]
  · next hne =>
    by_cases hS : S ⊆ range 16
    · have h1 := hx.inside S hS
      rw [hexc S hS hne] at h1
      by_cases hr : AllowedOpt r S
      · rw [hD.hamiltonian hS hr, ← sub_mul] at h1
        refine (mul_eq_zero.1 h1).resolve_left fun h => hz ?_
        have := congrArg Complex.im h
        rwa [Complex.sub_im, holeEnergy, Complex.ofReal_im, sub_zero, Complex.zero_im] at this
      · have h0 : hamiltonian 16 hOp 1e-12 r x S = 0 := by
          unfold Spec.hamiltonian
          rw [if_pos hS]
          refine sum_eq_zero fun T _ => ?_
          unfold Spec.column
          rw [if_neg (fun h => hr h.1), zero_mul]
        rw [h0, sub_zero] at h1
        exact (mul_eq_zero.1 h1).resolve_left hz0
    · exact hx.outside S hS

/-- The operators of NIXS. -/
theorem mainNixs_ok {gaunt : GauntFun} (hG : GauntRules gaunt) (sphHarm : SphHarm) (jn : SphericalJn) {nBaths : NBaths}
    (h : GoodSystem nBaths) (h2 : 2 ∈ allAngulars nBaths) (radial : List (ℝ × ℝ)) :
    ∃ tN, getNIXSOperators gaunt sphHarm jn nBaths mainQs 2 2 (radial.map fun p => (p.2 : ℂ)) (radial.map fun p => (p.2 : ℂ))
      (radial.map Prod.fst) 1 = .ok tN := by
  have key : ∀ q : ℝ, 0 < q → ∃ t, getNIXSOperator gaunt sphHarm jn nBaths
      ⟨q * 1 / Real.sqrt 3, q * 1 / Real.sqrt 3, q * 1 / Real.sqrt 3⟩ 2 2 (radial.map fun p => (p.2 : ℂ))
      (radial.map fun p => (p.2 : ℂ)) (radial.map Prod.fst) 1 = .ok t := by
    intro q hq
    obtain ⟨d1, d2, d3, d4, d5⟩ := diagonal_angles q
    obtain ⟨t, ht, -⟩ := C46_operator gaunt hG sphHarm jn nBaths h 2 2 h2 h2 (radial.map fun p => (p.2 : ℂ))
      (radial.map fun p => (p.2 : ℂ)) (radial.map Prod.fst) (by simp) (by simp) 1 4 le_rfl
      ⟨q * 1 / Real.sqrt 3, q * 1 / Real.sqrt 3, q * 1 / Real.sqrt 3⟩ q (Real.arccos (1 / Real.sqrt 3)) (Real.pi / 4) hq d4 d5
      (by rw [abs_of_pos (by positivity)]; linarith [Real.pi_pos]) (by rw [d1, mul_one]) (by rw [d2, mul_one]) (by rw [d3, mul_one])
    exact ⟨t, ht⟩
  obtain ⟨t1, e1⟩ := key 2 (by norm_num)
  obtain ⟨t2, e2⟩ := key 7 (by norm_num)
  refine ⟨[t1, t2], ?_⟩
  unfold getNIXSOperators mainQs
  simp only [List.foldlM_cons, List.foldlM_nil, e1, e2, ok_bind, pure_ok, List.nil_append, List.cons_append]

theorem energyCut_one {Q : Type} (e : ℝ) (psi : Q) {cut : ℝ} (h : 0 < cut) : energyCut [e] [psi] cut = .ok ([e], [psi]) := by
  unfold energyCut
  have h0 : pyGet [e] 0 = .ok e := rfl
  have h1 : pyGet [psi] ((0 : ℕ) : ℤ) = .ok psi := rfl
  simp only [List.foldlM_cons, List.foldlM_nil, h0, ok_bind, pure_ok, sub_self, if_pos h, List.nil_append, List.length_cons,
    List.length_nil, Nat.zero_add, List.range_one, List.mapM_cons, List.mapM_nil, h1]

include hs in
theorem holeSim_ok [CoreLevel lev] (hL : L.gaunt = sympyGaunt) (hT : 0 < T) (hk : 0 < L.kB) (hsolve : ExactSolver L.solve) {psi : Psi ℂ} {x : ℂ}
    (hst : IsState 16 psi) (hpsi : ampl 16 psi = Spec.single (range 15) x) (e : ℝ) :
    ∃ s, refSimulate (mainSim L (holeArgs lev T radial)
      ⟨[(1, 0), (2, 0)], holeRestrictions, hOp, holeStates.map (encBytes 16)⟩ [e] [psi]) = .ok s := by
  set st : Setup := ⟨[(1, 0), (2, 0)], holeRestrictions, hOp, holeStates.map (encBytes 16)⟩ with hst'
  have hgood := mainSetup_good L (holeArgs lev T radial) _ hs
  have hn : nSpinOrbitals st.nBaths = 16 := by
    rw [nSpinOrbitals_eq]; exact holeSystem_size
  have hS : (mainSim L (holeArgs lev T radial) st [e] [psi]).Valid := by
    refine mainSim_valid (holeArgs_valid lev T radial) hgood ?_ le_rfl
    intro p hp
    obtain rfl := List.mem_singleton.1 hp
    rw [hn]; exact hst
  have hsys : GoodSystem holeSystem := goodSystem_two (by decide)
  have hD : DiagonalOp (nSpinOrbitals st.nBaths) hOp 1e-12 (holeEnergy lev) := by rw [hn]; exact holeSetup_diagonal hs
  have hdict : Dict.NodupKeys hOp := hgood.op.1.1
  have hh : isHermitianOp hOp := hgood.op.2
  obtain ⟨tN, eNixs⟩ := mainNixs_ok (gaunt := L.gaunt) (by rw [hL]; exact sympyGaunt_rules) L.sphHarm L.jn hsys (by decide) radial
  obtain ⟨ts, ds, eX, eD, -⟩ := C45_daggered L.gaunt 1 2 0 0 (by decide) mainEpsilons
  obtain ⟨hl, ho⟩ := dipoles_spec L.gaunt (by decide) eX
  obtain ⟨hl', ho'⟩ := daggered_spec L.gaunt (by decide) eD
  have hin : ∀ t ∈ ts, OpInSystem (nSpinOrbitals st.nBaths) t := by
    rw [nSpinOrbitals_eq]; exact dipoles_okIn _ hsys _ _ eX
  have hin0 : ∀ t ∈ ds, OpInSystem (nSpinOrbitals st.nBaths) t := by
    rw [nSpinOrbitals_eq]; exact daggered_okIn _ hsys _ _ eD
  refine refSimulate_of hS (by show 1 ∈ allAngulars holeSystem; decide) (by show 2 ∈ allAngulars holeSystem; decide)
    (by simp [mainSim]) (by simp [mainSim, holeArgs, hk.ne', hT.ne'])
    (fun w d hd psiR e' hE => spectrumOf_diagonal (hS.spectra w hd) hdict hh (by show (150 : ℕ) ≠ 0; decide) hD hE (fun _ _ _ _ h => holeEnergy_inj h) e')
    eNixs eX eX eD ?_
  obtain ⟨op0, rest, rfl⟩ : ∃ op0 rest, ds = op0 :: rest := by
    cases ds with
    | nil => simp [mainEpsilons] at hl'
    | cons a b => exact ⟨a, b, rfl⟩
  refine refRixs_of hS.rixs hdict hh hS.delta hsolve
    (fun _ e' hE => spectrumOf_diagonal hS.rixs.spectra hdict hh (by show (150 : ℕ) ≠ 0; decide) hD hE (fun _ _ _ _ h => holeEnergy_inj h) e')
    hin ?_ (hin0 op0 (by simp)) hS.enough hS.states ?_
  · intro op hop F hF F' hF' hal
    obtain ⟨t, ht, rfl⟩ := List.getElem_of_mem hop
    have := dipole_noSmall (L := L) (A := holeArgs lev T radial) (by rw [hL]; exact sympyGaunt_large) rfl (fun _ => 0)
      (v := mainEpsilons[t]'(hl ▸ ht)) (List.getElem_mem (l := mainEpsilons) (hl ▸ ht)) (nSpinOrbitals st.nBaths) (some st.restrictions) F' hF' F hF hal
    have e1 := ho t (hl ▸ ht)
    unfold dipolePD at this
    rw [show pdSystem (fun _ => 0) = [(.int 1, 0), (.int 2, 0)] from rfl] at this
    rw [← e1] at this
    exact this
  · intro op hop a ha w hw v hv
    obtain ⟨t, ht, rfl⟩ := List.getElem_of_mem hop
    obtain rfl : a = 0 := by simpa [mainSim] using ha
    have hv : Solves (nSpinOrbitals st.nBaths) (hamiltonian (nSpinOrbitals st.nBaths) hOp 1e-12 (some st.restrictions))
      ((w : ℂ) + Complex.I * (((1 / 5 : ℝ)) : ℂ) + (e : ℂ))
      (excitation (nSpinOrbitals st.nBaths) ts[t] 1e-7 (some st.restrictions) psi) v := hv
    show NoneDropped (nSpinOrbitals st.nBaths) 1e-7 (transition (nSpinOrbitals st.nBaths) op0 1e-7 (some st.restrictions) v)
    rw [hn] at hv ⊢
    rw [hole_solution hs hpsi (ho t (hl ▸ ht)) (by simp) hv]
    refine noneDropped_single (lo := 1 / 30) (hi := 1) (by norm_num) (fun S hS' => ?_) zero_le_one (by norm_num) _ _
    have e0 := ho' 0 (by simp [mainEpsilons]) (Spec.single ((range 16).erase 5) 1) S (by
      rw [show nTotal [(.int 1, 0), (.int 2, 0)] = 16 from holeSystem_size]; exact hS')
    have e0 : operator (opSpec op0) (Spec.single ((range 16).erase 5) 1) S = between (position holeSystem) 1 2
      (fun m' m => star (dipole L.gaunt 1 0 0 2 m 1 m')) (Spec.single ((range 16).erase 5) 1) S := e0
    rw [e0, hL]
    exact hole_back

/-- `main` succeeds if the eigensolver returns the lowest product state. -/
theorem holeMain_ok_of [CoreLevel lev] (hL : L.gaunt = sympyGaunt) (hT : 0 < T) (hk : 0 < L.kB) (hsolve : ExactSolver L.solve)
    {hOp : Op ℕ ℂ} (hs : mainSetup L (holeArgs lev T radial) = .ok ⟨[(1, 0), (2, 0)], holeRestrictions, hOp, holeStates.map (encBytes 16)⟩)
    {e : ℝ} {psi : Psi ℂ} {x : ℂ}
    (h1 : refEigensystem L.solver 16 hOp 1e-12 (holeStates.map (encBytes 16)) 1 1e-7 = .ok ([e], [psi]))
    (h2 : IsState 16 psi) (h3 : ampl 16 psi = Spec.single (range 15) x) :
    ∃ o, refMain L (holeArgs lev T radial) = .ok o ∧ o.energies = [e] := by
  have hgood := mainSetup_good L (holeArgs lev T radial) _ hs
  have hn : nSpinOrbitals [((1 : ℕ), 0), (2, 0)] = 16 := by
    rw [nSpinOrbitals_eq]; exact holeSystem_size
  obtain ⟨p, hp⟩ := mainPrints_ok (L := L) (nBaths := [(1, 0), (2, 0)]) hgood.nBaths (by decide) (es := [e]) (psis := [psi])
    (by simp) rfl (by rw [hn]; simpa using h2) hk (holeArgs lev T radial)
  obtain ⟨sp, hsp⟩ := holeSim_ok hs hL hT hk hsolve h2 h3 e
  have hc : energyCut [e] [psi] ((holeArgs lev T radial).energyCut * (L.kB * (holeArgs lev T radial).T)) = .ok ([e], [psi]) := by
    refine energyCut_one e psi ?_
    show 0 < (10 : ℝ) * (L.kB * T)
    positivity
  refine ⟨⟨p.1, p.2.1, p.2.2.1, p.2.2.2, [e], sp⟩, ?_, rfl⟩
  unfold refMain
  rw [hs]
  simp only [ok_bind, hn]
  rw [show (holeArgs lev T radial).nPsiMax = 1 from rfl, h1]
  simp only [ok_bind]
  rw [hp]
  simp only [ok_bind]
  rw [hc]
  simp only [ok_bind]
  rw [hsp]
  rfl

/-- `main` succeeds. -/
theorem holeMain_ok [CoreLevel lev] (hL : L.gaunt = sympyGaunt) (hT : 0 < T) (hk : 0 < L.kB) (hsolve : ExactSolver L.solve) (hS : SolverCorrect L.solver)
    (htot : ∀ H d k, k < d → ∃ p, L.solver.eigsh H d k = .ok p) : ∃ o, refMain L (holeArgs lev T radial) = .ok o := by
  obtain ⟨hOp, hs⟩ := holeSetup_ok L hL lev T radial
  obtain ⟨e, psi, x, h1, h2, h3, -⟩ := holeEigen hs hS htot
  obtain ⟨o, ho, -⟩ := holeMain_ok_of hL hT hk hsolve hs h1 h2 h3
  exact ⟨o, ho⟩

end

end

end Verif
