/-
A run of main for a system without a preferred direction: full p and d shells and one empty conduction bath state, in a magnetic field.
-/
import Verif.Lemmas.KramersExample

namespace Verif

open Finset Mpi Psr Spec Matrix

noncomputable section

/-- What solves the equation with the right side zero is zero. -/
theorem DiagonalOp.solution_zero {n : ℕ} {op : Op ℕ ℂ} {cut : ℝ} {E : Finset ℕ → ℂ} (hD : DiagonalOp n op cut E)
    (hE : ∀ F, (E F).im = 0) {r : Option Restrictions} {z : ℂ} (hz : z.im ≠ 0) {b x : Vec ℂ}
    (hx : Solves n (Spec.hamiltonian n op cut r) z b x) (hb : ∀ S ⊆ range n, b S = 0) : x = fun _ => 0 := by
  have h := hD.solution hE hz hx (G := {n}) fun S hS _ => hb S hS
  rw [hx.outside {n} (by simp)] at h
  refine h.trans (funext fun S => ?_)
  unfold Spec.single
  split <;> rfl

/-! ### The arguments -/

/-- The label of the spin-orbital `i`. -/
def cloLabel (i : ℕ) : Label :=
  if i < 16 then holeLabel i else .bath (.int 2) ((i - 16 : ℕ) : ℤ)

/-- The energy of the spin-orbital `i`: -5 in the p shell, 0 in the d shell, 8 for the bath state. -/
def cloLevel (i : ℕ) : ℂ := if i < 6 then -5 else if i < 16 then 0 else 8

def cloLevels : Op Label ℂ := (List.range 17).map fun i => (oneProcess (cloLabel i) (cloLabel i), cloLevel i)

/-- Twice the energy of the spin-orbital `i` in the field `μ` along z. -/
def cloWeight (μ : ℤ) (i : ℕ) : ℤ := if i < 6 then -10 else if i < 11 then -μ else if i < 16 then μ else 16

/-- The fields of the example. -/
class CloField (μ : ℤ) : Prop where
  cases : μ = 0 ∨ μ = 1 ∨ μ = -1

instance : CloField 0 := ⟨.inl rfl⟩

instance : CloField 1 := ⟨.inr (.inl rfl)⟩

instance : CloField (-1) := ⟨.inr (.inr rfl)⟩

/-- One bath state of the d shell. -/
def cloBaths (l : ℕ) : ℕ := if l = 2 then 1 else 0

def cloArgs (μ : ℤ) (T : ℝ) : MainArgs :=
  { holeArgs 0 T [] with
    h0 := .pickle cloLevels, nBaths := [0, 1], n0imps := [6, 10], dnTols := [0, 1], dnConBaths := [0, 1], nPsiMax := 2,
    hField := [0, 0, (μ : ℝ)] }

def cloParams : BasisParams where
  val _ := 0
  dnVal _ := 0
  dnCon l := if l = 2 then 1 else 0
  tol l := if l = 2 then 1 else 0
  n0 l := if l = 1 then 6 else 10

/-- The energy of a product state. -/
def cloEnergy (μ : ℤ) (F : Finset ℕ) : ℂ := (((∑ i ∈ F, cloWeight μ i : ℤ) / 2 : ℝ) : ℂ)

/-- The system. -/
abbrev cloSystem : NBaths := pdSystem cloBaths

theorem cloSystem_size : nTotal cloSystem = 17 := by decide

theorem cloArgs_valid (μ : ℤ) (T : ℝ) : (cloArgs μ T).Valid where
  delta := by norm_num [cloArgs, holeArgs]
  deltaRIXS := by norm_num [cloArgs, holeArgs]
  deltaNIXS := by norm_num [cloArgs, holeArgs]

/-- The product states of the basis: the full d shell, and one electron in the bath state. -/
def cloStates : List (Finset ℕ) := range 16 :: (List.range 10).map fun i => (range 17).erase (15 - i)

/-- The restrictions. -/
def cloRestrictions : Restrictions := ((mainRestrictions [(1, 0), (2, 1)] [(1, 0), (2, 0)] [(1, 6), (2, 10)] [(1, 0), (2, 1)]
  [(1, 0), (2, 0)] [(1, 0), (2, 1)]).toOption).getD []

variable {μ : ℤ}

theorem cloLabel_position : ∀ i < 17, position cloSystem (cloLabel i) = i := by decide +kernel

theorem cloLabel_in : ∀ i < 17, InSystem cloSystem (cloLabel i) := by
  intro i hi
  unfold cloLabel
  split
  · unfold holeLabel
    split
    · exact ⟨by decide, by omega, by omega, by omega, by omega⟩
    · exact ⟨by decide, by omega, by omega, by omega, by omega⟩
  · exact ⟨1, by decide, by omega, by omega⟩

theorem cloLevels_keys : Dict.keys cloLevels = (List.range 17).map fun i => oneProcess (cloLabel i) (cloLabel i) := by
  unfold cloLevels Dict.keys
  rw [List.map_map]
  rfl

theorem cloLevels_nodup : Dict.NodupKeys cloLevels := by
  rw [Dict.NodupKeys, cloLevels_keys]
  decide +kernel

theorem cloLevels_get {q : Process Label} {x : ℂ} (h : Dict.get? cloLevels q = some x) :
    ∃ i < 17, q = oneProcess (cloLabel i) (cloLabel i) ∧ x = cloLevel i := by
  have := Dict.mem_of_get? h
  unfold cloLevels at this
  obtain ⟨i, hi, e⟩ := List.mem_map.1 this
  cases e
  exact ⟨i, List.mem_range.1 hi, rfl, rfl⟩

theorem cloLevels_hermitian : HermitianStrengths cloLevels := by
  apply strength_of_hermitian cloLevels_nodup
  intro p
  rw [get?_daggerOp _ cloLevels_nodup]
  have self : ∀ q x, Dict.get? cloLevels q = some x → dagProcess q = q := by
    intro q x h
    obtain ⟨i, -, rfl, -⟩ := cloLevels_get h
    rfl
  cases h : Dict.get? cloLevels (dagProcess p) with
  | some x =>
    have := self _ _ h
    rw [dagProcess_dagProcess] at this
    rw [← this] at h
    rw [h]
    obtain ⟨i, -, -, rfl⟩ := cloLevels_get h
    rw [Option.map_some]
    unfold cloLevel
    split_ifs <;> simp
  | none =>
    cases h' : Dict.get? cloLevels p with
    | none => rfl
    | some x =>
      rw [self _ _ h', h'] at h
      cases h

theorem cloArgs_documented (μ : ℤ) (T : ℝ) : Documented (cloArgs μ T) cloBaths cloParams 0 0 (μ : ℝ) cloLevels where
  ls := rfl
  nBaths := rfl
  nValBaths := rfl
  n0imps := rfl
  dnTols := rfl
  dnValBaths := rfl
  dnConBaths := rfl
  hField := rfl
  Fdd := rfl
  Fpp := rfl
  Fpd := rfl
  Gpd := rfl
  h0 := Or.inl ⟨rfl, cloLevels_nodup⟩

/-! ### The setup -/


section
variable (L : MainLib) (hL : L.gaunt = sympyGaunt) (μ : ℤ) (T : ℝ) 

include hL in
theorem cloSetup_ok : ∃ hOp, mainSetup L (cloArgs μ T)
    = .ok ⟨[(1, 0), (2, 1)], cloRestrictions, hOp, cloStates.map (encBytes 17)⟩ := by
  obtain ⟨d, p, hdc⟩ : ∃ d p, dcMLFT ((10 : ℤ) : ℝ) 0 [0, 0, 0, 0, 0] (some ((6 : ℤ) : ℝ)) (some [0, 0, 0])
      (some [0, 0, 0, 0]) = .ok (.two d p) := by
    exact ⟨_, _, (C39_double_counting _ _ _ _ _ _ (by simp) (by simp) (by simp)).2.2 [0, 0, 0] [0, 0, 0, 0] ⟨10, rfl⟩
      (by norm_num) rfl rfl⟩
  obtain ⟨hOp, hop⟩ := (C54_accepts [0, 0, 0, 0, 0] [0, 0, 0] [0, 0, 0] [0, 0, 0, 0] 0 0 0 0 0 (μ : ℝ) sympyGaunt_symmetric
    (nBaths := cloSystem) ⟨by decide, by decide⟩ (by decide) (by decide) (n0imps := [(1, 6), (2, 10)]) 10 6 rfl rfl d p hdc
    cloLevels_nodup).1 (by
      intro q hq x hx
      unfold strength at hq
      cases hg : Dict.get? cloLevels q with
      | none => rw [hg] at hq; simp at hq
      | some v =>
        obtain ⟨i, hi, rfl, -⟩ := cloLevels_get hg
        have := cloLabel_in i hi
        simp only [oneProcess, List.mem_cons, List.not_mem_nil, or_false] at hx
        rcases hx with rfl | rfl <;> exact this) cloLevels_hermitian
  refine ⟨hOp, ?_⟩
  have e1 : mainRestrictions [(1, 0), (2, 1)] [(1, 0), (2, 0)] [(1, 6), (2, 10)] [(1, 0), (2, 1)] [(1, 0), (2, 0)]
      [(1, 0), (2, 1)] = .ok cloRestrictions := by decide +kernel
  have e2 : getBasis [(1, 0), (2, 1)] [(1, 0), (2, 0)] [(1, 0), (2, 0)] [(1, 0), (2, 1)] [(1, 0), (2, 1)] [(1, 6), (2, 10)]
      = .ok (cloStates.map (encBytes 17)) := by decide +kernel
  unfold mainSetup
  simp only [cloArgs, holeArgs, zipDict_two]
  rw [e1]
  simp only [ok_bind, pure_ok]
  unfold mainHamiltonian
  simp only
  rw [hL, show intKeys [((1 : ℕ), 0), (2, 1)] = cloSystem from rfl, hop]
  simp only [ok_bind]
  rw [e2]
  rfl

variable {L μ  T} {hOp : Op ℕ ℂ}
  (hs : mainSetup L (cloArgs μ T) = .ok ⟨[(1, 0), (2, 1)], cloRestrictions, hOp, cloStates.map (encBytes 17)⟩)


theorem cloEnergy_im (F : Finset ℕ) : (cloEnergy μ F).im = 0 := Complex.ofReal_im _

theorem cloEnergy_large (S : Finset ℕ) : cloEnergy μ S = 0 ∨ (1e-12 : ℝ) ≤ abs2 (cloEnergy μ S) := by
  unfold cloEnergy
  generalize ∑ i ∈ S, cloWeight μ i = z
  by_cases hz : z = 0
  · left; simp [hz]
  · right
    show _ ≤ Complex.normSq _
    rw [Complex.normSq_ofReal]
    have h : (1 : ℝ) ≤ (z : ℝ) * z := by
      have : 1 ≤ z * z := by
        rcases lt_or_gt_of_ne hz with h | h <;> nlinarith
      exact_mod_cast this
    norm_num
    linarith

/-- The energy in the field. -/
theorem clo_field (μ : ℤ) (v : Vec ℂ) (F : Finset ℕ) : oneBody (position cloSystem) 2 (hDotS 0 0 (μ : ℝ)) v F
    = (∑ i ∈ range 17, if i ∈ F then (if i < 6 then 0 else if i < 11 then -(μ : ℂ) / 2 else if i < 16 then (μ : ℂ) / 2 else 0) else 0)
      * v F := by
  have hs : shell 2 = ({0, 1} : Finset ℤ) ×ˢ ({-2, -1, 0, 1, 2} : Finset ℤ) := by unfold shell; rfl
  have hd : ∀ x y : ℤ × ℤ, hDotS 0 0 (μ : ℝ) x y = if x = y then (μ : ℂ) * (if x.1 = 1 then 1 / 2 else -1 / 2) else 0 := by
    rintro ⟨s, m⟩ ⟨s', m'⟩
    unfold hDotS sZ delta
    by_cases h1 : s = s'
    · subst h1
      by_cases h2 : m = m'
      · subst h2; simp
      · simp [h2]
    · simp [h1]
  unfold oneBody
  rw [sum_product]
  have h1 : ∀ x ∈ shell 2, ∑ y ∈ shell 2, hDotS 0 0 (μ : ℝ) x y *
      create (position cloSystem (.imp 2 x.1 x.2)) (annihilate (position cloSystem (.imp 2 y.1 y.2)) v) F
      = (μ : ℂ) * (if x.1 = 1 then 1 / 2 else -1 / 2) * if position cloSystem (.imp 2 x.1 x.2) ∈ F then v F else 0 := by
    intro x hx
    rw [sum_eq_single_of_mem x hx]
    · rw [hd, if_pos rfl, create_annihilate_self]
    · intro y _ hy
      rw [hd, if_neg (Ne.symm hy), zero_mul]
  have five : ∀ f : ℤ → ℂ, ∑ m ∈ ({-2, -1, 0, 1, 2} : Finset ℤ), f m = f (-2) + f (-1) + f 0 + f 1 + f 2 := by
    intro f
    rw [sum_insert (by decide), sum_insert (by decide), sum_insert (by decide), sum_insert (by decide), sum_singleton]
    ring
  rw [sum_congr rfl h1, hs, sum_product, sum_pair (by decide), five, five]
  dsimp only
  rw [show position cloSystem (.imp 2 0 (-2)) = 6 by decide +kernel,
    show position cloSystem (.imp 2 0 (-1)) = 7 by decide +kernel,
    show position cloSystem (.imp 2 0 0) = 8 by decide +kernel,
    show position cloSystem (.imp 2 0 1) = 9 by decide +kernel,
    show position cloSystem (.imp 2 0 2) = 10 by decide +kernel,
    show position cloSystem (.imp 2 1 (-2)) = 11 by decide +kernel,
    show position cloSystem (.imp 2 1 (-1)) = 12 by decide +kernel,
    show position cloSystem (.imp 2 1 0) = 13 by decide +kernel,
    show position cloSystem (.imp 2 1 1) = 14 by decide +kernel,
    show position cloSystem (.imp 2 1 2) = 15 by decide +kernel, Finset.sum_mul]
  have key : ∀ (i : ℕ) (c : ℂ), (if i ∈ F then c else 0) * v F = c * if i ∈ F then v F else 0 := by
    intro i c
    split <;> simp
  simp only [key, Finset.sum_range_succ, Finset.sum_range_zero]
  norm_num [-mul_ite, -ite_mul]
  ring

theorem cloEnergy_sum (μ : ℤ) {F : Finset ℕ} (hF : F ⊆ range 17) :
    ∑ i ∈ F, cloLevel i + ∑ i ∈ F, (if i < 6 then 0 else if i < 11 then -(μ : ℂ) / 2 else if i < 16 then (μ : ℂ) / 2 else 0)
      = cloEnergy μ F := by
  unfold cloEnergy
  rw [← sum_add_distrib]
  push_cast
  rw [Finset.sum_div]
  refine sum_congr rfl fun i hi => ?_
  have := mem_range.1 (hF hi)
  unfold cloLevel cloWeight
  split_ifs <;> first | omega | (push_cast; ring)

theorem clo_pdHamiltonian (gaunt : GauntFun) (μ : ℤ) (T : ℝ)  (v : Vec ℂ) {F : Finset ℕ} (hF : F ⊆ range 17) :
    pdHamiltonian gaunt (position cloSystem) (cloArgs μ T) 10 0 0 (μ : ℝ) cloLevels v F = (cloEnergy μ) F * v F := by
  have h1 : operator (labelSpec (position cloSystem) cloLevels) v F
      = ((List.range 17).map fun i => cloLevel i * create i (annihilate i v) F).sum := by
    unfold operator labelSpec cloLevels
    simp only [List.map_map]
    refine congrArg List.sum (List.map_congr_left fun i hi => ?_)
    simp [oneProcess, product, ladder, cloLabel_position i (List.mem_range.1 hi)]
  have h2 : ((List.range 17).map fun i => cloLevel i * create i (annihilate i v) F).sum = (∑ i ∈ F, cloLevel i) * v F := by
    simp only [create_annihilate_self]
    rw [← List.sum_toFinset _ (List.nodup_range), List.toFinset_range]
    simp only [mul_ite, mul_zero]
    rw [Finset.sum_ite_mem, Finset.inter_eq_right.2 hF, ← Finset.sum_mul]
  have hc : ∀ (l1 l2 l3 l4 : ℕ) (R : List ℝ), (∀ x ∈ R, x = 0) →
      twoBody (position cloSystem) l1 l2 l3 l4 (coulomb gaunt l1 l2 l3 l4 R) v F = 0 := by
    intro l1 l2 l3 l4 R hR
    have : coulomb gaunt l1 l2 l3 l4 R = fun _ _ _ _ => 0 := by
      funext m1 m2 m3 m4
      unfold coulomb
      split
      · refine sum_eq_zero fun k hk => ?_
        rw [List.getD_eq_getElem _ _ (mem_range.1 hk), hR _ (List.getElem_mem _), zero_mul]
      · rfl
    rw [this]
    unfold twoBody
    simp
  have ho : ∀ (l : ℕ) (M : ℤ × ℤ → ℤ × ℤ → ℂ), (∀ x y, M x y = 0) → oneBody (position cloSystem) l M v F = 0 := by
    intro l M hM
    unfold oneBody
    exact sum_eq_zero fun x _ => by rw [hM, zero_mul]
  unfold pdHamiltonian
  rw [h1, h2, hc, hc, hc, hc, hc, hc, clo_field, ho 1, ho 2, sum_ite_mem, inter_eq_right.2 hF, ← cloEnergy_sum μ hF]
  · simp [cloArgs, holeArgs, averageUdd, averageUpd]
    ring
  all_goals simp [cloArgs, holeArgs]

include hs in
theorem cloSetup_operator (v : Vec ℂ) {F : Finset ℕ} (hF : F ⊆ range 17) :
    operator (opSpec hOp) v F = (cloEnergy μ) F * v F := by
  obtain ⟨-, -, hop, hn0, -⟩ := setup_documented (cloArgs_documented μ T) hs
  rw [(hamiltonian_documented (cloArgs_documented μ T) hn0 hop).2]
  exact clo_pdHamiltonian L.gaunt μ  T v hF

theorem clo_diagonal [CloField μ] {op : Op ℕ ℂ} (h : ∀ (v : Vec ℂ) (F : Finset ℕ), F ⊆ range 17 → operator (opSpec op) v F = (cloEnergy μ) F * v F) :
    DiagonalOp 17 op 1e-12 (cloEnergy μ) where
  element := by
    intro S hS T _
    unfold matrixElement
    rw [h _ _ hS]
    unfold Spec.single
    by_cases h : S = T
    · rw [if_pos h, if_pos h, h, mul_one]
    · rw [if_neg h, if_neg h, mul_zero]
  large := fun S _ => cloEnergy_large S

include hs in
theorem cloSetup_diagonal [CloField μ] : DiagonalOp 17 hOp 1e-12 (cloEnergy μ) :=
  clo_diagonal fun v _ hF => cloSetup_operator hs v hF

theorem cloStates_nodup : cloStates.Nodup := by decide +kernel

theorem cloStates_sub : ∀ S ∈ cloStates, S ⊆ range 17 := by decide +kernel


theorem clo_dipole (gaunt : GauntFun) (x y z : ℂ) (c : ℂ) (S : Finset ℕ) :
    between (position cloSystem) 2 1 (fun m m' => dipole gaunt x y z 2 m 1 m') (Spec.single (range 16) c) S = 0 := by
  have hsys : GoodSystem cloSystem := goodSystem_two (by decide)
  rw [between_smul]
  refine mul_eq_zero_of_right _ ?_
  by_contra h
  obtain ⟨s, hs, m, hm, m', hm', he, h1, h2⟩ := (between_element hsys (l := 2) (l' := 1) (by decide) (by decide) (by decide)
    (fun m m' => dipole gaunt x y z 2 m 1 m') S (range 16)).resolve_left h
  have hpos : ∀ s ∈ ({0, 1} : Finset ℤ), ∀ m ∈ Icc (-2 : ℤ) 2, position cloSystem (.imp 2 s m) < 16 := by
    decide +kernel
  have hmem : position cloSystem (.imp 2 s m) ∈ S \ range 16 := by rw [h1]; exact mem_singleton_self _
  rw [mem_sdiff, mem_range] at hmem
  exact hmem.2 (hpos s hs m hm)

include hs in
theorem cloSim_ok [CloField μ] (hL : L.gaunt = sympyGaunt) (hT : 0 < T) (hk : 0 < L.kB) (hsolve : ExactSolver L.solve)
    {psi : Psi ℂ} {x : ℂ} (hst : IsState 17 psi) (hpsi : ampl 17 psi = Spec.single (range 16) x) (e : ℝ) :
    ∃ s, refSimulate (mainSim L (cloArgs μ T)
      ⟨[(1, 0), (2, 1)], cloRestrictions, hOp, cloStates.map (encBytes 17)⟩ [e] [psi]) = .ok s := by
  set st : Setup := ⟨[(1, 0), (2, 1)], cloRestrictions, hOp, cloStates.map (encBytes 17)⟩ with hst'
  have hgood := mainSetup_good L (cloArgs μ T) _ hs
  have hn : nSpinOrbitals st.nBaths = 17 := by
    rw [nSpinOrbitals_eq]; exact cloSystem_size
  have hS : (mainSim L (cloArgs μ T) st [e] [psi]).Valid := by
    refine mainSim_valid (cloArgs_valid μ T) hgood ?_ le_rfl
    intro p hp
    obtain rfl := List.mem_singleton.1 hp
    rw [hn]; exact hst
  have hsys : GoodSystem cloSystem := goodSystem_two (by decide)
  have hD : DiagonalOp (nSpinOrbitals st.nBaths) hOp 1e-12 (cloEnergy μ) := by rw [hn]; exact cloSetup_diagonal hs
  have hdict : Dict.NodupKeys hOp := hgood.op.1.1
  have hh : isHermitianOp hOp := hgood.op.2
  obtain ⟨tN, eNixs⟩ := mainNixs_ok (gaunt := L.gaunt) (by rw [hL]; exact sympyGaunt_rules) L.sphHarm L.jn hsys (by decide) []
  have hN := nixs_zero (gaunt := L.gaunt) (by rw [hL]; exact sympyGaunt_rules) L.sphHarm L.jn hsys (by decide) eNixs
  obtain ⟨ts, ds, eX, eD, -⟩ := C45_daggered L.gaunt 1 2 0 1 (by decide) mainEpsilons
  obtain ⟨hl, ho⟩ := dipoles_spec L.gaunt (by decide) eX
  obtain ⟨hl', ho'⟩ := daggered_spec L.gaunt (by decide) eD
  have hin : ∀ t ∈ ts, OpInSystem (nSpinOrbitals st.nBaths) t := by
    rw [nSpinOrbitals_eq]; exact dipoles_okIn _ hsys _ _ eX
  have hin0 : ∀ t ∈ ds, OpInSystem (nSpinOrbitals st.nBaths) t := by
    rw [nSpinOrbitals_eq]; exact daggered_okIn _ hsys _ _ eD
  -- the transition operators have no small elements
  have large : ∀ op ∈ ts, ∀ F ⊆ range (nSpinOrbitals st.nBaths),
      NoSmallElements (nSpinOrbitals st.nBaths) op 1e-7 (some st.restrictions) F := by
    intro op hop F hF F' hF' hal
    obtain ⟨t, ht, rfl⟩ := List.getElem_of_mem hop
    have := dipole_noSmall (L := L) (A := cloArgs μ T) (by rw [hL]; exact sympyGaunt_large) rfl cloBaths
      (v := mainEpsilons[t]'(hl ▸ ht)) (List.getElem_mem (l := mainEpsilons) (hl ▸ ht)) (nSpinOrbitals st.nBaths) (some st.restrictions) F' hF' F hF hal
    have e1 := ho t (hl ▸ ht)
    unfold dipolePD at this
    rw [show pdSystem cloBaths = [(.int 1, 0), (.int 2, 1)] from rfl] at this
    rw [← e1] at this
    exact this
  have core : ∀ op ∈ ts, ∀ F, operator (opSpec op) (Spec.single (range 16) 1) F = 0 := by
    intro op hop F
    obtain ⟨t, ht, rfl⟩ := List.getElem_of_mem hop
    rw [ho t (hl ▸ ht)]
    exact clo_dipole L.gaunt _ _ _ 1 F
  have build : ∀ {w : List ℝ} {d : ℝ}, d ≠ 0 → ∀ {tOps : List (Op ℕ ℂ)}, (∀ t ∈ tOps, OpInSystem (nSpinOrbitals st.nBaths) t) →
      (∀ t ∈ tOps, ∀ F ⊆ range (nSpinOrbitals st.nBaths), NoSmallElements (nSpinOrbitals st.nBaths) t 1e-7 (some st.restrictions) F) →
      (∀ t ∈ tOps, ∃ G, ∀ F, F ≠ G → operator (opSpec t) (Spec.single (range 16) 1) F = 0) →
      ∃ x, refHBuild ((mainSim L (cloArgs μ T) st [e] [psi]).spectra w d) tOps [psi] [e] = .ok x := by
    intro w d hd tOps h1 h2 h3
    refine refHBuild_large (hS.spectra w hd) le_rfl (by
      intro p hp
      obtain rfl := List.mem_singleton.1 hp
      show IsState (nSpinOrbitals st.nBaths) p
      rw [hn]; exact hst) h1 h2 ?_
    intro t ht i hi psiR hE hR
    obtain rfl : i = 0 := by simpa using hi
    refine spectrumOf_diagonal (hS.spectra w hd) hdict hh (by show (150 : ℕ) ≠ 0; decide) hD hE ?_ _
    obtain ⟨G, hG⟩ := h3 _ (List.getElem_mem ht)
    have hzero : ∀ F, ampl (nSpinOrbitals st.nBaths) psiR F ≠ 0 → F = G := by
      intro F hF
      by_contra hne
      refine hF ?_
      rw [show ampl (nSpinOrbitals st.nBaths) psiR
        = excitation (nSpinOrbitals st.nBaths) tOps[t] 1e-7 (some st.restrictions) psi from hR]
      unfold excitation
      split
      · rw [hn, hpsi, operator_single_smul, hG F hne, mul_zero]
      · rfl
    intro F F' hF hF' _
    rw [hzero F hF, hzero F' hF']
  refine refSimulate_core hS (by show 1 ∈ allAngulars cloSystem; decide) (by show 2 ∈ allAngulars cloSystem; decide)
    (by simp [mainSim]) (by simp [mainSim, cloArgs, holeArgs, hk.ne', hT.ne']) eNixs eX eX eD ?_ ?_
  · intro w d hd tOps hin' hc
    have hin' : ∀ t ∈ tOps, OpInSystem (nSpinOrbitals st.nBaths) t := by rw [nSpinOrbitals_eq]; exact hin'
    have photo : ∀ (l : ℕ) (a : Action), tOps = ((List.range (2 * (2 * l + 1))).map fun j => [([(impStart cloSystem l + j, a)], 1)]) →
        ∃ x, refHBuild ((mainSim L (cloArgs μ T) st [e] [psi]).spectra w d) tOps [psi] [e] = .ok x := by
      rintro l a rfl
      refine build hd hin' ?_ ?_
      · intro t ht F hF F' hF' hal
        obtain ⟨j, -, rfl⟩ := List.mem_map.1 ht
        exact noSmall_photo _ _ _ (by norm_num) _ F' hF' F hF hal
      · intro t ht
        obtain ⟨j, -, rfl⟩ := List.mem_map.1 ht
        cases a with
        | a =>
          refine ⟨(range 16).erase (impStart cloSystem l + j), fun F hF => ?_⟩
          rw [operator_photo]
          have := congrFun (ladder_single_a (impStart cloSystem l + j) (range 16) (1 : ℂ)) F
          refine Eq.trans this ?_
          split
          · exact if_neg hF
          · rfl
        | c =>
          refine ⟨insert (impStart cloSystem l + j) (range 16), fun F hF => ?_⟩
          rw [operator_photo]
          have := congrFun (ladder_single_c (impStart cloSystem l + j) (range 16) (1 : ℂ)) F
          refine Eq.trans this ?_
          split
          · rfl
          · exact if_neg hF
    rcases hc with hc | hc | hc | hc | hc
    · exact photo 2 .c (inversePhoto_spec hsys hc)
    · exact photo 2 .a (photo_spec hsys hc)
    · exact photo 1 .a (photo_spec hsys hc)
    · subst hc
      exact build hd hin' (fun t ht F _ F' _ _ => Or.inl (hN t ht _ _)) fun t ht => ⟨∅, fun F _ => hN t ht _ _⟩
    · subst hc
      exact build hd hin' large fun t ht => ⟨∅, fun F _ => core t ht F⟩
  · obtain ⟨op0, rest, rfl⟩ : ∃ op0 rest, ds = op0 :: rest := by
      cases ds with
      | nil => simp [mainEpsilons] at hl'
      | cons a b => exact ⟨a, b, rfl⟩
    refine refRixs_core hS.rixs hdict hh hS.delta hsolve hin large (hin0 op0 (by simp)) hS.enough hS.states ?_
    intro op hop a ha w hw v hv
    obtain rfl : a = 0 := by simpa [mainSim] using ha
    have hv : Solves (nSpinOrbitals st.nBaths) (hamiltonian (nSpinOrbitals st.nBaths) hOp 1e-12 (some st.restrictions))
      ((w : ℂ) + Complex.I * (((1 / 5 : ℝ)) : ℂ) + (e : ℂ))
      (excitation (nSpinOrbitals st.nBaths) op 1e-7 (some st.restrictions) psi) v := hv
    have hv0 : v = fun _ => 0 := by
      refine hD.solution_zero cloEnergy_im (by simp) hv fun F hF => ?_
      unfold excitation
      split
      · rw [hn, hpsi, operator_single_smul, core op hop F, mul_zero]
      · rfl
    have hz : transition (nSpinOrbitals st.nBaths) op0 1e-7 (some st.restrictions) v = fun _ => 0 := by
      funext F
      unfold transition
      split
      · rw [hv0]
        have := operator_smul (opSpec op0) (0 : ℂ) (fun _ => 0) F
        simpa using this
      · rfl
    constructor
    · show NoneDropped (nSpinOrbitals st.nBaths) 1e-7 (transition (nSpinOrbitals st.nBaths) op0 1e-7 (some st.restrictions) v)
      rw [hz]
      exact fun _ _ => Or.inl rfl
    · intro psiR hE hR
      refine spectrumOf_diagonal hS.rixs.spectra hdict hh (by show (150 : ℕ) ≠ 0; decide) hD hE ?_ _
      intro F F' hF _ _
      refine absurd ?_ hF
      show ampl (nSpinOrbitals st.nBaths) psiR F = 0
      rw [show ampl (nSpinOrbitals st.nBaths) psiR
          = transition (nSpinOrbitals st.nBaths) op0 1e-7 (some st.restrictions) v from hR, hz]

end

/-! ### The eigenstates -/

section
variable {op : Op ℕ ℂ} (hD : DiagonalOp 17 op 1e-12 (cloEnergy μ))

include hD in
theorem clo_sum {S : Finset ℕ} (hS : S ∈ cloStates.toFinset) (y : Finset ℕ → ℂ) :
    ∑ T ∈ cloStates.toFinset, storedElement op (1e-12 : ℝ) S T * y T = (cloEnergy μ) S * y S := by
  have hSm := List.mem_toFinset.1 hS
  rw [Finset.sum_eq_single S]
  · rw [hD.stored S S (cloStates_sub S hSm) (cloStates_sub S hSm), if_pos rfl]
  · intro T hT hne
    rw [hD.stored S T (cloStates_sub S hSm) (cloStates_sub T (List.mem_toFinset.1 hT)), if_neg (Ne.symm hne), zero_mul]
  · intro h; exact absurd hS h

include hD in
/-- The lowest state has a full d shell, the others are at least 4 above it. -/
theorem clo_lowest [CloField μ] {es : List ℝ} {psis : List (Psi ℂ)} (h : LowestStates 17 op 1e-12 1e-7 cloStates.toFinset es psis)
    (hpos : 0 < es.length) (hpos' : 0 < psis.length) :
    es[0] = ((cloEnergy μ) (range 16)).re ∧ (∃ x, ampl 17 psis[0] = Spec.single (range 16) x ∧ Complex.normSq x = 1) ∧
      ∀ i (hi : i < es.length), 0 < i → es[0] + 4 ≤ es[i] := by
  obtain ⟨h1, h2, x, h3, h4, h5, h6⟩ := h
  have hlow : (range 16) ∈ cloStates.toFinset := by decide +kernel
  have heS : ∀ v (hv : v < es.length), ∀ S ∈ cloStates.toFinset, x v S ≠ 0 → (cloEnergy μ) S = es[v] := by
    intro v hv S hS hx
    have := h4 v hv S hS
    rw [clo_sum hD hS] at this
    exact mul_right_cancel₀ hx this
  have hn1 : ∀ v < es.length, ∑ S ∈ cloStates.toFinset, star (x v S) * x v S = 1 :=
    fun v hv => (h3 v hv v hv).trans (if_pos rfl)
  have hex : ∀ v < es.length, ∃ S ∈ cloStates.toFinset, x v S ≠ 0 := by
    intro v hv
    by_contra hc
    push Not at hc
    have := hn1 v hv
    rw [sum_eq_zero fun S hS => by rw [hc S hS, mul_zero]] at this
    exact zero_ne_one this
  have hgap : ∀ S ∈ cloStates, S ≠ range 16 → ∑ i ∈ range 16, cloWeight μ i + 8 ≤ ∑ i ∈ S, cloWeight μ i := by
    rcases CloField.cases (μ := μ) with rfl | rfl | rfl <;> decide +kernel
  have hgap' : ∀ S ∈ cloStates.toFinset, S ≠ range 16 → (cloEnergy μ (range 16)).re + 4 ≤ (cloEnergy μ S).re := by
    intro S hS hne
    have := hgap S (List.mem_toFinset.1 hS) hne
    have : ((∑ i ∈ range 16, cloWeight μ i : ℤ) : ℝ) + 8 ≤ ((∑ i ∈ S, cloWeight μ i : ℤ) : ℝ) := by exact_mod_cast this
    unfold cloEnergy
    rw [Complex.ofReal_re, Complex.ofReal_re]
    linarith
  have hre : ∀ v (hv : v < es.length), ∀ S ∈ cloStates.toFinset, x v S ≠ 0 → es[v] = (cloEnergy μ S).re := by
    intro v hv S hS hx
    rw [heS v hv S hS hx]; simp
  have hsupp : ∀ v < es.length, x v (range 16) ≠ 0 → ∀ S' ∈ cloStates.toFinset, S' ≠ range 16 → x v S' = 0 := by
    intro v hv hx S' hS' hne
    by_contra hx'
    have := hgap' S' hS' hne
    rw [← hre v hv S' hS' hx', ← hre v hv _ hlow hx] at this
    linarith
  -- some state has a component in `range 16`
  have hsome : ∃ v < es.length, x v (range 16) ≠ 0 := by
    by_contra hc
    push Not at hc
    have hy := h5 (Spec.single (range 16) 1) (by
      intro v hv
      refine sum_eq_zero fun S hS => ?_
      unfold Spec.single
      by_cases h : S = range 16
      · rw [h, hc v hv, star_zero, zero_mul]
      · rw [if_neg h, mul_zero]) 0 hpos
    have e1 : ∑ S ∈ cloStates.toFinset, Complex.normSq (Spec.single (range 16) 1 S) = 1 := by
      rw [Finset.sum_eq_single (range 16)]
      · simp [Spec.single]
      · intro S _ h; simp [Spec.single, h]
      · intro h; exact absurd hlow h
    have e2 : ∑ S ∈ cloStates.toFinset, ∑ T ∈ cloStates.toFinset, star (Spec.single (range 16) 1 S)
        * storedElement op (1e-12 : ℝ) S T * Spec.single (range 16) 1 T = (cloEnergy μ) (range 16) := by
      rw [Finset.sum_eq_single (range 16)]
      · simp only [mul_assoc]
        rw [← Finset.mul_sum, clo_sum hD hlow]
        simp [Spec.single]
      · intro S _ h; simp [Spec.single, h]
      · intro h; exact absurd hlow h
    rw [e1, e2, mul_one] at hy
    obtain ⟨S0, hS0, hx0⟩ := hex 0 hpos
    have hne : S0 ≠ (range 16) := by rintro rfl; exact hx0 (hc 0 hpos)
    have := hgap' S0 hS0 hne
    rw [hre 0 hpos S0 hS0 hx0] at hy
    linarith
  -- it is the first one
  obtain ⟨v, hv, hxv⟩ := hsome
  have hx0 : x 0 (range 16) ≠ 0 := by
    rcases Nat.eq_zero_or_pos v with rfl | hv0
    · exact hxv
    · obtain ⟨S0, hS0, hx0⟩ := hex 0 hpos
      by_cases hne : S0 = range 16
      · rwa [hne] at hx0
      · have := hgap' S0 hS0 hne
        have hle : es[0] ≤ es[v] := (List.pairwise_iff_getElem.1 h1) 0 v hpos hv hv0
        rw [hre 0 hpos S0 hS0 hx0, hre v hv _ hlow hxv] at hle
        linarith
  have he0 := hre 0 hpos _ hlow hx0
  refine ⟨he0, ⟨x 0 (range 16), ?_⟩, ?_⟩
  · have hs0 := hsupp 0 hpos hx0
    have hnorm : Complex.normSq (x 0 (range 16)) = 1 := by
      have hn := hn1 0 hpos
      rw [Finset.sum_eq_single (range 16) (fun S hS hne => by rw [hs0 S hS hne, mul_zero])
        (fun h => absurd hlow h)] at hn
      have : ((Complex.normSq (x 0 (range 16)) : ℝ) : ℂ) = 1 := by
        rw [← hn, Complex.normSq_eq_conj_mul_self]; rfl
      exact_mod_cast this
    refine ⟨?_, hnorm⟩
    funext S
    rw [(h6 0 hpos').2 S]
    unfold Spec.single
    by_cases h : S = range 16
    · subst h
      rw [if_pos rfl, if_pos ⟨hlow, by rw [hnorm]; norm_num⟩]
    · rw [if_neg h]
      split
      · next hm => exact hs0 S hm.1 h
      · rfl
  · intro i hi hi0
    obtain ⟨S, hS, hx⟩ := hex i hi
    have hne : S ≠ (range 16) := by
      rintro rfl
      have := h3 0 hpos i hi
      rw [if_neg (by omega), Finset.sum_eq_single (range 16)
        (fun S hS hne => by rw [hsupp 0 hpos hx0 S hS hne, star_zero, zero_mul]) (fun h => absurd hlow h)] at this
      exact (mul_ne_zero (star_ne_zero.2 hx0) hx) this
    rw [he0, hre i hi S hS hx]
    exact hgap' S hS hne

end


theorem clo_configurations {L : MainLib} (hL : L.gaunt = sympyGaunt) {F : Finset ℕ} (hF : F ⊆ range 17) :
    IsConfiguration [(1, 0), (2, 1)] cloSystem cloParams F ↔ F ∈ cloStates := by
  obtain ⟨hOp, hs⟩ := cloSetup_ok L hL 1 1
  obtain ⟨hnb, hr, hop, hn0, hb⟩ := setup_documented (cloArgs_documented 1 1) hs
  have hC := (C11_get_basis _ cloParams _ _ _ _ _ (nodup_documented cloBaths) (provides_documented cloBaths cloParams)
    _ hb).1 F hF
  refine hC.symm.trans ?_
  constructor
  · intro h
    obtain ⟨F', hF', e⟩ := List.mem_map.1 h
    rwa [← encBytes_injOn (cloStates_sub F' hF') hF e]
  · intro h
    exact List.mem_map.2 ⟨F, h, rfl⟩

open Classical in
theorem clo_filter {L : MainLib} (hL : L.gaunt = sympyGaunt) :
    ({F ∈ (range 17).powerset | IsConfiguration [(1, 0), (2, 1)] cloSystem cloParams F} : Finset (Finset ℕ))
      = cloStates.toFinset := by
  ext F
  rw [Finset.mem_filter, Finset.mem_powerset, List.mem_toFinset]
  constructor
  · rintro ⟨h1, h2⟩
    exact (clo_configurations hL h1).1 h2
  · intro h
    exact ⟨cloStates_sub F h, (clo_configurations hL (cloStates_sub F h)).2 h⟩

/-- `main` succeeds. -/
theorem cloMain_ok [CloField μ] {L : MainLib} {T : ℝ} (hL : L.gaunt = sympyGaunt) (hT : 0 < T) (hk : 0 < L.kB) (hcold : 10 * (L.kB * T) ≤ 4)
    (hsolve : ExactSolver L.solve) (hS : SolverCorrect L.solver)
    (htot : ∀ H d k, k < d → ∃ p, L.solver.eigsh H d k = .ok p) : ∃ o, refMain L (cloArgs μ T) = .ok o := by
  obtain ⟨hOp, hs⟩ := cloSetup_ok L hL μ T
  have hgood := mainSetup_good L (cloArgs μ T) _ hs
  have hn : nSpinOrbitals [((1 : ℕ), 0), (2, 1)] = 17 := by
    rw [nSpinOrbitals_eq]; exact cloSystem_size
  have hgop := hgood.op
  rw [hn] at hgop
  obtain ⟨es, psis, heig⟩ := refEigensystem_ok hS htot hgop.1.2 hgop.1.1 hgop.2 1e-12 1e-7 cloStates_nodup cloStates_sub
    (k := 2) (by decide)
  have heig' := heig
  unfold refEigensystem at heig'
  rw [if_neg (by decide)] at heig'
  obtain ⟨h1, h2, x, h3, h4, h5, h6⟩ := C51_eigensystem L.solver hS 17 hOp hgop.1.2 hgop.1.1 hgop.2 1e-12 cloStates
    cloStates_nodup cloStates_sub 2 .lanczos 1e-7 1 one_pos _ _ heig'
  have hcount : es.length = 2 := C51_count L.solver hS 17 hOp hgop.1.2 hgop.1.1 hgop.2 1e-12 cloStates
    cloStates_nodup cloStates_sub 2 .lanczos 1e-7 1 one_pos _ _ heig'
  have hlow : LowestStates 17 hOp 1e-12 1e-7 cloStates.toFinset es psis := by
    refine ⟨h1, h2, x, h3, fun v hv F hF => h4 v hv F (List.mem_toFinset.1 hF), h5, fun v hv => ?_⟩
    obtain ⟨g1, g2, -⟩ := h6 v hv
    refine ⟨g1, fun F => ?_⟩
    rw [g2 F]
    simp only [List.mem_toFinset]
  obtain ⟨-, ⟨y, hy, -⟩, hgap⟩ := clo_lowest (cloSetup_diagonal hs) hlow (by omega) (by omega)
  have hst : ∀ psi ∈ psis, IsState 17 psi := by
    intro psi hp
    obtain ⟨v, hv, rfl⟩ := List.getElem_of_mem hp
    exact (h6 v hv).1
  obtain ⟨e0, e1, rfl⟩ := List.length_eq_two.1 hcount
  obtain ⟨psi0, psi1, rfl⟩ := List.length_eq_two.1 (h2.trans hcount)
  have hgap : e0 + 4 ≤ e1 := hgap 1 (by simp) one_pos
  obtain ⟨p, hp⟩ := mainPrints_ok (L := L) (nBaths := [(1, 0), (2, 1)]) hgood.nBaths (by decide) (es := [e0, e1])
    (psis := [psi0, psi1]) (by simp) rfl (by rw [hn]; exact hst) hk (cloArgs μ T)
  have hcut : energyCut [e0, e1] [psi0, psi1] ((cloArgs μ T).energyCut * (L.kB * (cloArgs μ T).T)) = .ok ([e0], [psi0]) := by
    show energyCut [e0, e1] [psi0, psi1] (10 * (L.kB * T)) = _
    have hpos : 0 < 10 * (L.kB * T) := by positivity
    unfold energyCut
    have g0 : pyGet [e0, e1] 0 = .ok e0 := rfl
    have g1 : pyGet [psi0, psi1] ((0 : ℕ) : ℤ) = .ok psi0 := rfl
    have hno : ¬ e1 - e0 < 10 * (L.kB * T) := by linarith
    simp only [List.foldlM_cons, List.foldlM_nil, g0, ok_bind, pure_ok, sub_self, if_pos hpos, if_neg hno, List.nil_append,
      List.length_cons, List.length_nil, Nat.zero_add, List.range_one, List.mapM_cons, List.mapM_nil, g1]
  obtain ⟨sp, hsp⟩ := cloSim_ok hs hL hT hk hsolve (hst psi0 (by simp)) hy e0
  refine ⟨⟨p.1, p.2.1, p.2.2.1, p.2.2.2, [e0, e1], sp⟩, ?_⟩
  unfold refMain
  rw [hs]
  simp only [ok_bind, hn]
  rw [show (cloArgs μ T).nPsiMax = 2 from rfl, heig]
  simp only [ok_bind]
  rw [hp]
  simp only [ok_bind]
  rw [hcut]
  simp only [ok_bind]
  rw [show mainSim L (cloArgs μ T) = mainSim L (cloArgs μ T) from rfl, hsp]
  rfl

/-- All ranks finish. -/
theorem clo_finishes (μ : ℤ) [CloField μ] {solver : EigenSolver} (hS : SolverCorrect solver)
    (htot : ∀ H d k, k < d → ∃ p, solver.eigsh H d k = .ok p) (sphHarm : SphHarm) (jn : SphericalJn) {kB T : ℝ}
    (hk : 0 < kB) (hT : 0 < T) (hcold : 10 * (kB * T) ≤ 4) :
    ∃ o : MainOutput, ∀ (N : ℕ), 0 < N → ∀ (ord : Fin N → ℕ → ℕ → ℕ → SetOrders), (∀ k c t i, (ord k c t i).Valid) →
      ∀ (ordRixs : Fin N → List ℕ → SetOrders), (∀ k l, (ordRixs k l).Valid) →
      AllRanksFinish msgSum
        (fun k : Fin N => mainRank (holeLib solver sphHarm jn kB) (cloArgs μ T) (ord k) (ordRixs k) k.val N)
        (fun k => if k.val = 0 then some o else none) := by
  obtain ⟨o, ho⟩ := cloMain_ok (μ := μ) (L := holeLib solver sphHarm jn kB) rfl hT hk hcold (holeSolve_exact solver sphHarm jn kB) hS htot
  refine ⟨o, fun N hN ord hord ordR hordR => ?_⟩
  have := main_settles hN (L := holeLib solver sphHarm jn kB) (cloArgs_valid μ T) sympyGaunt_large ord hord ordR hordR
  rw [ho] at this
  obtain ⟨out, rfl, hrun⟩ := this
  exact hrun.allRanksFinish

/-! ### All cutoffs are harmless -/

/-- The arguments of the spectra of the example. -/
structure CloSim (μ : ℤ) (S : SimulateArgs) (y : ℂ) : Prop where
  size : size S = 17
  diag : DiagonalOp 17 S.hOp 1e-12 (cloEnergy μ)
  cutoffs : S.krylovSize = 150 ∧ S.slaterWeightMin = 1e-7 ∧ S.cut = 1e-12
  gaunt : S.gaunt = sympyGaunt
  epsilons : S.epsilons = [⟨1, 0, 0⟩, ⟨0, 1, 0⟩, ⟨0, 0, 1⟩] ∧ S.epsilonsRIXSin = [⟨1, 0, 0⟩, ⟨0, 1, 0⟩, ⟨0, 0, 1⟩]
  wIn : Mesh S.wIn (-10) 20 50
  delta : S.delta = 1 / 5
  radial : S.radialMesh = []
  es : S.es = [((cloEnergy μ) (range 16)).re]
  psi : ampl 17 (S.psis.getD 0 []) = Spec.single (range 16) y
  norm : Complex.normSq y = 1


section
variable {S : SimulateArgs} {y : ℂ} (h : CloSim μ S y)
include h

theorem CloSim.exhausted {b : Vec ℂ} (X : Finset (Finset ℕ)) (hX : X.card ≤ 150) (hb : ∀ F, F ∉ X → b F = 0) :
    KrylovExhausted (hamilton S) S.krylovSize b := by
  rw [h.cutoffs.1]
  refine krylovExhausted_of_support X hX fun j F hF => ?_
  unfold hamilton
  rw [h.size, h.cutoffs.2.2]
  exact h.diag.iterate_zero (hb F hF) j

theorem CloSim.exhausted_excite {T : Vec ℂ → Vec ℂ} {x : Vec ℂ} (X : Finset (Finset ℕ)) (hX : X.card ≤ 150)
    (hb : ∀ F ⊆ range 17, F ∉ X → T x F = 0) : KrylovExhausted (hamilton S) S.krylovSize (exciteVec S T x) := by
  refine h.exhausted X hX fun F hF => ?_
  unfold exciteVec excited
  rw [h.size]
  split
  · next hc => exact hb F hc.1 hF
  · rfl

theorem CloSim.resolved_single {T : Vec ℂ → Vec ℂ} (F : Finset ℕ)
    (hT : ∀ G ⊆ range 17, G ≠ F → T (Spec.single (range 16) y) G = 0)
    (hF : T (Spec.single (range 16) y) F = 0 ∨ (1e-7 : ℝ) ≤ abs2 (T (Spec.single (range 16) y) F)) : Resolved S T := by
  intro i hi
  obtain rfl : i = 0 := by rw [h.es] at hi; simpa using hi
  rw [h.size, h.psi]
  refine ⟨?_, ?_⟩
  · intro G hG _
    rw [h.size] at hG
    rw [h.cutoffs.2.1]
    by_cases hGF : G = F
    · rw [hGF]; exact hF
    · exact Or.inl (hT G hG hGF)
  · unfold excite
    rw [h.size, h.psi]
    refine h.exhausted_excite {F} (by simp) fun G hG hne => hT G hG (by simpa using hne)

theorem CloSim.ladder (i : ℕ) (c : Bool) : Resolved S (ladder i c) := by
  have hn : (1e-7 : ℝ) ≤ abs2 (((sgn i (range 16) : ℤ) : ℂ) * y) := by
    show _ ≤ Complex.normSq _
    rw [Complex.normSq_mul, h.norm, show Complex.normSq ((sgn i (range 16) : ℤ) : ℂ) = 1 from abs2_sgn i (range 16)]
    norm_num
  cases c with
  | false =>
    refine h.resolved_single ((range 16).erase i) ?_ ?_
    · intro G _ hne
      rw [ladder_single_a]
      split
      · exact if_neg hne
      · rfl
    · rw [ladder_single_a]
      split
      · right
        rw [show Spec.single ((range 16).erase i) _ ((range 16).erase i) = _ from if_pos rfl]
        exact hn
      · exact Or.inl rfl
  | true =>
    refine h.resolved_single (insert i (range 16)) ?_ ?_
    · intro G _ hne
      rw [ladder_single_c]
      split
      · rfl
      · exact if_neg hne
    · rw [ladder_single_c]
      split
      · exact Or.inl rfl
      · right
        rw [show Spec.single (insert i (range 16)) _ (insert i (range 16)) = _ from if_pos rfl]
        exact hn

omit h in
theorem CloSim.dipole (S : SimulateArgs) (ε : Vec3 ℂ) (c : ℂ) (G : Finset ℕ) : dipolePD S.gaunt cloBaths ε (Spec.single (range 16) c) G = 0 :=
  clo_dipole S.gaunt ε.x ε.y ε.z c G

theorem CloSim.absorb (ε : Vec3 ℂ) : Resolved S (dipolePD S.gaunt cloBaths ε) :=
  h.resolved_single ∅ (fun _ _ _ => CloSim.dipole S ε y _) (Or.inl (CloSim.dipole S ε y _))

theorem CloSim.resonant (ε : Vec3 ℂ) (w : ℝ) :
    ResolvedRixs S w (dipolePD S.gaunt cloBaths ε) (dipoleDP S.gaunt cloBaths ⟨1, 0, 0⟩) := by
  intro i hi
  refine ⟨(h.absorb ε i hi).1, fun x hx => ?_⟩
  obtain rfl : i = 0 := by rw [h.es] at hi; simpa using hi
  unfold hamilton at hx
  rw [h.size, h.cutoffs.2.2] at hx
  have hx0 : x = fun _ => 0 := by
    refine h.diag.solution_zero cloEnergy_im (by rw [h.delta]; simp) hx fun F hF => ?_
    unfold excite exciteVec excited
    split
    · rw [h.size, h.psi]; exact CloSim.dipole S ε y F
    · rfl
  have hT : ∀ G, dipoleDP S.gaunt cloBaths ⟨1, 0, 0⟩ x G = 0 := by
    intro G
    rw [hx0]
    simp [dipoleDP, between, create, annihilate]
  have hE : exciteVec S (dipoleDP S.gaunt cloBaths ⟨1, 0, 0⟩) x = fun _ => 0 := by
    funext G
    unfold exciteVec excited
    split
    · exact hT G
    · rfl
  refine ⟨fun G _ _ => Or.inl (hT G), fun G _ => Or.inl (congrFun hE G), ?_⟩
  exact h.exhausted_excite ∅ (by simp) fun G _ _ => hT G

theorem CloSim.planeWave (q : ℝ) (v : Vec ℂ) (F : Finset ℕ) : planeWaveDD S cloBaths q v F = 0 := by
  have hr : radialIntegral S.jn S.RiNIXS S.RjNIXS S.radialMesh q = fun _ => 0 := by
    funext k
    unfold radialIntegral
    rw [h.radial]
    simp [trapezoid]
  unfold planeWaveDD
  rw [hr]
  simp [between, Spec.planeWave]

theorem CloSim.scatter (q : ℝ) : Resolved S (planeWaveDD S cloBaths q) ∧
    NoSmall (Spec.size S) (planeWaveDD S cloBaths q) S.slaterWeightMin S.restrictions :=
  ⟨h.resolved_single ∅ (fun _ _ _ => h.planeWave q _ _) (Or.inl (h.planeWave q _ _)),
    fun _ _ _ _ _ => Or.inl (h.planeWave q _ _)⟩

theorem CloSim.allResolved : AllResolved cloBaths S where
  add _ _ := h.ladder _ true
  remove _ _ := h.ladder _ false
  core _ _ := h.ladder _ false
  absorb ε _ := h.absorb ε
  scatter q _ := h.scatter q
  resonant ε _ w _ := h.resonant ε w

end

/-- In every such run of `main` the cutoffs are harmless. -/
theorem clo_resolved [CloField μ] {L : MainLib} {T : ℝ} (hL : L.gaunt = sympyGaunt) (hT : 0 < T) (hk : 0 < L.kB) (hcold : 10 * (L.kB * T) ≤ 4)
    {energies : List ℝ} {psis : List (Psi ℂ)} {S : SimulateArgs}
    (hrun : MainRun L (cloArgs μ T) cloBaths cloParams 0 0 (μ : ℝ) cloLevels energies psis S) :
    S.es.length < energies.length ∧
    (∀ psi ∈ S.psis, ∑ F ∈ (range (size S)).powerset, Complex.normSq (ampl (size S) psi F) = 1) ∧
    AllResolved cloBaths S := by
  classical
  have hcount : energies.length = 2 := hrun.count
  have hlow := hrun.lowest
  rw [show nTotal (pdSystem cloBaths) = 17 from cloSystem_size] at hlow
  have hD : DiagonalOp 17 S.hOp 1e-12 (cloEnergy μ) := clo_diagonal fun v F hF => by
    rw [hrun.hamiltonian v F]
    exact clo_pdHamiltonian L.gaunt μ T v hF
  have hlow' : LowestStates 17 S.hOp 1e-12 1e-7 cloStates.toFinset energies psis := by
    rw [← clo_filter hL]
    convert hlow using 2
    exact Iff.rfl
  have hlp := hlow'.2.1
  obtain ⟨he0, ⟨y, hy, hy1⟩, hgap⟩ := clo_lowest hD hlow' (by omega) (by omega)
  obtain ⟨e0, e1, rfl⟩ := List.length_eq_two.1 hcount
  obtain ⟨psi0, psi1, rfl⟩ := List.length_eq_two.1 (hlp.trans hcount)
  have hgap : e0 + 4 ≤ e1 := hgap 1 (by simp) one_pos
  have hpos : 0 < 10 * (L.kB * T) := by positivity
  obtain ⟨k1, k2⟩ := hrun.kept
  have k3 := k2 e0 (by simp) (by simp; linarith)
  have hno : ¬ e1 - e0 < 10 * (L.kB * T) := by linarith
  have k4 : S.es.zip S.psis = [(e0, psi0)] := by
    rw [k3]
    show List.filter (fun p => decide (p.1 - e0 < 10 * (L.kB * T))) [(e0, psi0), (e1, psi1)] = _
    simp [hpos, hno]
  have hes : S.es = [e0] := by
    have := congrArg (List.map Prod.fst) k4
    rwa [List.map_fst_zip (by omega)] at this
  have hps : S.psis = [psi0] := by
    have := congrArg (List.map Prod.snd) k4
    rwa [List.map_snd_zip (by omega)] at this
  have hy : ampl 17 psi0 = Spec.single (range 16) y := hy
  have hsz : size S = 17 := by unfold size; rw [hrun.system]; exact cloSystem_size
  refine ⟨by rw [hes]; simp, ?_, ?_⟩
  · rw [hps, hsz]
    intro psi hp
    obtain rfl := List.mem_singleton.1 hp
    rw [hy, Finset.sum_eq_single (range 16)]
    · rw [show Spec.single (range 16) y (range 16) = y from if_pos rfl, hy1]
    · intro F _ hne
      rw [show Spec.single (range 16) y F = 0 from if_neg hne, Complex.normSq_zero]
    · intro hn
      exact absurd (mem_powerset.2 (range_subset_range.2 (by norm_num))) hn
  · exact CloSim.allResolved (y := y) {
      size := hsz
      diag := hD
      cutoffs := hrun.args.cutoffs
      gaunt := hrun.args.library.1.trans hL
      epsilons := ⟨hrun.args.epsilons, hrun.args.epsilonsRIXS.1⟩
      wIn := hrun.args.wIn
      delta := hrun.args.delta
      radial := hrun.args.radial.1
      es := by rw [hes]; exact congrArg (fun e => [e]) he0
      psi := by rw [hps]; exact hy
      norm := hy1 }

end

end Verif
