/-
A run of main that finishes with two degenerate states: nine electrons in a d shell above a full p shell, without a magnetic field,
and orbital energies that are the same for a spin-orbital and its partner under time reversal.
-/
import Verif.Lemmas.DegenerateExample
import Verif.Lemmas.Separate

namespace Verif

open Finset Mpi Psr Spec Matrix

noncomputable section

/-! ### The arguments -/

/-- The energy of the spin-orbital `i`. -/
def pairLevel (i : ℕ) : ℕ := ([3, 2, 1, 1, 2, 3, 8, 4, 3, 2, 1, 1, 2, 3, 4, 8] : List ℕ).getD i 0

def pairLevels : Op Label ℂ := (List.range 16).map fun i => (oneProcess (holeLabel i) (holeLabel i), (pairLevel i : ℂ))

def pairArgs (T : ℝ) : MainArgs := { holeArgs 0 T [] with h0 := .pickle pairLevels, nPsiMax := 3 }

/-- The energy of a product state. -/
def pairEnergy (F : Finset ℕ) : ℂ := ((∑ i ∈ F, pairLevel i : ℕ) : ℂ)

theorem pairArgs_valid (T : ℝ) : (pairArgs T).Valid := ⟨(holeArgs_valid 0 T []).1, (holeArgs_valid 0 T []).2, (holeArgs_valid 0 T []).3⟩

theorem pairLevels_keys : Dict.keys pairLevels = (List.range 16).map fun i => oneProcess (holeLabel i) (holeLabel i) := by
  unfold pairLevels Dict.keys
  rw [List.map_map]
  rfl

theorem pairLevels_nodup : Dict.NodupKeys pairLevels := by
  rw [Dict.NodupKeys, pairLevels_keys]
  decide +kernel

theorem pairLevels_get {q : Process Label} {x : ℂ} (h : Dict.get? pairLevels q = some x) :
    ∃ i < 16, q = oneProcess (holeLabel i) (holeLabel i) ∧ x = pairLevel i := by
  have := Dict.mem_of_get? h
  unfold pairLevels at this
  obtain ⟨i, hi, e⟩ := List.mem_map.1 this
  cases e
  exact ⟨i, List.mem_range.1 hi, rfl, rfl⟩

theorem pairLevels_hermitian : HermitianStrengths pairLevels := by
  apply strength_of_hermitian pairLevels_nodup
  intro p
  rw [get?_daggerOp _ pairLevels_nodup]
  have self : ∀ q x, Dict.get? pairLevels q = some x → dagProcess q = q := by
    intro q x h
    obtain ⟨i, -, rfl, -⟩ := pairLevels_get h
    rfl
  cases h : Dict.get? pairLevels (dagProcess p) with
  | some x =>
    have := self _ _ h
    rw [dagProcess_dagProcess] at this
    rw [← this] at h
    rw [h]
    obtain ⟨i, -, -, rfl⟩ := pairLevels_get h
    rw [Option.map_some, star_natCast]
  | none =>
    cases h' : Dict.get? pairLevels p with
    | none => rfl
    | some x =>
      rw [self _ _ h', h'] at h
      cases h

theorem pairArgs_documented (T : ℝ) : Documented (pairArgs T) (fun _ => 0) holeParams 0 0 0 pairLevels where
  ls := rfl
  nBaths := rfl
  nValBaths := rfl
  n0imps := rfl
  dnTols := rfl
  dnValBaths := rfl
  dnConBaths := rfl
  hField := rfl
  Fdd := rfl
  Fpp := rfl
  Fpd := rfl
  Gpd := rfl
  h0 := Or.inl ⟨rfl, pairLevels_nodup⟩

/-! ### The setup -/

theorem pairSetup_ok (L : MainLib) (hL : L.gaunt = sympyGaunt) (T : ℝ) : ∃ hOp, mainSetup L (pairArgs T)
    = .ok ⟨[(1, 0), (2, 0)], holeRestrictions, hOp, holeStates.map (encBytes 16)⟩ := by
  obtain ⟨d, p, hdc⟩ : ∃ d p, dcMLFT ((9 : ℤ) : ℝ) 0 [0, 0, 0, 0, 0] (some ((6 : ℤ) : ℝ)) (some [0, 0, 0])
      (some [0, 0, 0, 0]) = .ok (.two d p) := by
    exact ⟨_, _, (C39_double_counting _ _ _ _ _ _ (by simp) (by simp) (by simp)).2.2 [0, 0, 0] [0, 0, 0, 0] ⟨9, rfl⟩
      (by norm_num) rfl rfl⟩
  obtain ⟨hOp, hop⟩ := (C54_accepts [0, 0, 0, 0, 0] [0, 0, 0] [0, 0, 0] [0, 0, 0, 0] 0 0 0 0 0 0 sympyGaunt_symmetric
    (nBaths := holeSystem) ⟨by decide, by decide⟩ (by decide) (by decide) (n0imps := [(1, 6), (2, 9)]) 9 6 rfl rfl d p hdc
    pairLevels_nodup).1 (by
      intro q hq x hx
      unfold strength at hq
      cases hg : Dict.get? pairLevels q with
      | none => rw [hg] at hq; simp at hq
      | some v =>
        obtain ⟨i, hi, rfl, -⟩ := pairLevels_get hg
        have := holeLabel_in i hi
        simp only [oneProcess, List.mem_cons, List.not_mem_nil, or_false] at hx
        rcases hx with rfl | rfl <;> exact this) pairLevels_hermitian
  refine ⟨hOp, ?_⟩
  have e1 : mainRestrictions [(1, 0), (2, 0)] [(1, 0), (2, 0)] [(1, 6), (2, 9)] [(1, 0), (2, 0)] [(1, 0), (2, 0)]
      [(1, 0), (2, 0)] = .ok holeRestrictions := by decide +kernel
  have e2 : getBasis [(1, 0), (2, 0)] [(1, 0), (2, 0)] [(1, 0), (2, 0)] [(1, 0), (2, 0)] [(1, 0), (2, 0)] [(1, 6), (2, 9)]
      = .ok (holeStates.map (encBytes 16)) := by decide +kernel
  unfold mainSetup
  simp only [pairArgs, holeArgs, zipDict_two]
  rw [e1]
  simp only [ok_bind, pure_ok]
  unfold mainHamiltonian
  simp only
  rw [hL, show intKeys [((1 : ℕ), 0), (2, 0)] = holeSystem from rfl, hop]
  simp only [ok_bind]
  rw [e2]
  rfl

theorem pairLevels_operator (v : Vec ℂ) (F : Finset ℕ) :
    operator (labelSpec (position holeSystem) pairLevels) v F = pairEnergy F * v F := by
  have h1 : operator (labelSpec (position holeSystem) pairLevels) v F
      = ((List.range 16).map fun i => (pairLevel i : ℂ) * create i (annihilate i v) F).sum := by
    unfold operator labelSpec pairLevels
    simp only [List.map_map]
    refine congrArg List.sum (List.map_congr_left fun i hi => ?_)
    simp [oneProcess, product, ladder, holeLabel_position i (List.mem_range.1 hi)]
  rw [h1]
  simp only [create_annihilate_self]
  rw [← List.sum_toFinset _ (List.nodup_range), List.toFinset_range]
  simp only [mul_ite, mul_zero]
  rw [Finset.sum_ite_mem, ← Finset.sum_mul]
  congr 1
  unfold pairEnergy
  push_cast
  refine sum_subset inter_subset_right fun i hi hni => ?_
  have : 16 ≤ i := by
    by_contra hc
    exact hni (mem_inter.2 ⟨mem_range.2 (by omega), hi⟩)
  unfold pairLevel
  rw [List.getD_eq_default _ _ (by simpa using this), Nat.cast_zero]

theorem pair_pdHamiltonian (gaunt : GauntFun) (T : ℝ) (v : Vec ℂ) (F : Finset ℕ) :
    pdHamiltonian gaunt (position holeSystem) (pairArgs T) 9 0 0 0 pairLevels v F = pairEnergy F * v F := by
  have hc : ∀ (l1 l2 l3 l4 : ℕ) (R : List ℝ), (∀ x ∈ R, x = 0) →
      twoBody (position holeSystem) l1 l2 l3 l4 (coulomb gaunt l1 l2 l3 l4 R) v F = 0 := by
    intro l1 l2 l3 l4 R hR
    have : coulomb gaunt l1 l2 l3 l4 R = fun _ _ _ _ => 0 := by
      funext m1 m2 m3 m4
      unfold coulomb
      split
      · refine sum_eq_zero fun k hk => ?_
        rw [List.getD_eq_getElem _ _ (mem_range.1 hk), hR _ (List.getElem_mem _), zero_mul]
      · rfl
    rw [this]
    unfold twoBody
    simp
  have ho : ∀ (l : ℕ) (M : ℤ × ℤ → ℤ × ℤ → ℂ), (∀ x y, M x y = 0) → oneBody (position holeSystem) l M v F = 0 := by
    intro l M hM
    unfold oneBody
    exact sum_eq_zero fun x _ => by rw [hM, zero_mul]
  unfold pdHamiltonian
  rw [pairLevels_operator, hc, hc, hc, hc, hc, hc, ho, ho, ho]
  · simp [pairArgs, holeArgs, averageUdd, averageUpd]
  all_goals simp [pairArgs, holeArgs, hDotS]

theorem pair_diagonal {op : Op ℕ ℂ} (h : ∀ (v : Vec ℂ) (F : Finset ℕ), operator (opSpec op) v F = pairEnergy F * v F) :
    DiagonalOp 16 op 1e-12 pairEnergy where
  element := by
    intro S hS T _
    unfold matrixElement
    rw [h]
    unfold Spec.single
    by_cases h : S = T
    · rw [if_pos h, if_pos h, h, mul_one]
    · rw [if_neg h, if_neg h, mul_zero]
  large := by
    intro S _
    unfold pairEnergy
    rcases Nat.eq_zero_or_pos (∑ i ∈ S, pairLevel i) with h | h
    · left; rw [h]; simp
    · right
      show _ ≤ Complex.normSq _
      rw [Complex.normSq_natCast]
      have : (1 : ℝ) ≤ ((∑ i ∈ S, pairLevel i : ℕ) : ℝ) := by exact_mod_cast h
      nlinarith

section
variable {L : MainLib} {T : ℝ} {hOp : Op ℕ ℂ}
  (hs : mainSetup L (pairArgs T) = .ok ⟨[(1, 0), (2, 0)], holeRestrictions, hOp, holeStates.map (encBytes 16)⟩)

include hs in
theorem pairSetup_diagonal : DiagonalOp 16 hOp 1e-12 pairEnergy := by
  refine pair_diagonal fun v F => ?_
  obtain ⟨-, -, hop, hn0, -⟩ := setup_documented (pairArgs_documented T) hs
  rw [(hamiltonian_documented (pairArgs_documented T) hn0 hop).2]
  exact pair_pdHamiltonian L.gaunt T v F

end

/-! ### The eigenstates -/

theorem pairStates_energy : ∀ F ∈ holeStates, (F = (range 16).erase 15 ∧ ∑ i ∈ F, pairLevel i = 40) ∨
    (F = (range 16).erase 6 ∧ ∑ i ∈ F, pairLevel i = 40) ∨ 44 ≤ ∑ i ∈ F, pairLevel i := by
  decide +kernel

/-- A ground state: one hole in the orbital 15 or 6. -/
def PairGround (psi : Psi ℂ) : Prop :=
  ∃ q, (q = 15 ∨ q = 6) ∧ ∃ y, ampl 16 psi = Spec.single ((range 16).erase q) y ∧ Complex.normSq y = 1

/-- The two lowest states have the same energy, the third one is above them. -/
theorem pairEigen {S : EigenSolver} (hS : SolverCorrect S) (hsep : Separates S) {op : Op ℕ ℂ} (hop : OpInSystem 16 op)
    (hdict : Dict.NodupKeys op) (hh : isHermitianOp op) (hD : DiagonalOp 16 op 1e-12 pairEnergy) {states : List (Finset ℕ)}
    (hnd : states.Nodup) (hmem : ∀ F, F ∈ states ↔ F ∈ holeStates) {es : List ℝ} {psis : List (Psi ℂ)}
    (h : eigensystem S 16 op 1e-12 (states.map (encBytes 16)) 3 .lanczos 1e-7 1 = .ok (es, psis)) :
    ∃ e2 psi0 psi1 psi2, es = [40, 40, e2] ∧ psis = [psi0, psi1, psi2] ∧ 44 ≤ e2 ∧ PairGround psi0 ∧ PairGround psi1 := by
  have hst : ∀ F ∈ states, F ⊆ range 16 := fun F hF => holeStates_sub F ((hmem F).1 hF)
  have hcount : es.length = 3 := C51_count S hS 16 op hop hdict hh 1e-12 states hnd hst 3 .lanczos 1e-7 1 one_pos _ _ h
  obtain ⟨h1, h2, -⟩ := C51_eigensystem S hS 16 op hop hdict hh 1e-12 states hnd hst 3 .lanczos 1e-7 1 one_pos _ _ h
  obtain ⟨g, hg, hinj, hlow⟩ := separated_states hS hsep hop hdict hh hD hnd hst (by norm_num) one_pos h
  obtain ⟨e0, e1, e2, rfl⟩ := List.length_eq_three.1 hcount
  obtain ⟨psi0, psi1, psi2, rfl⟩ := List.length_eq_three.1 (h2.trans hcount)
  have hA : (range 16).erase 15 ∈ states := (hmem _).2 (by decide +kernel)
  have hB : (range 16).erase 6 ∈ states := (hmem _).2 (by decide +kernel)
  have eA : (pairEnergy ((range 16).erase 15)).re = 40 := by
    unfold pairEnergy
    rw [show ∑ i ∈ (range 16).erase 15, pairLevel i = 40 by decide +kernel]; simp
  have eB : (pairEnergy ((range 16).erase 6)).re = 40 := by
    unfold pairEnergy
    rw [show ∑ i ∈ (range 16).erase 6, pairLevel i = 40 by decide +kernel]; simp
  have hAB : (range 16).erase 15 ≠ (range 16).erase 6 := by decide +kernel
  have hcase : ∀ v (hv : v < [e0, e1, e2].length),
      ((g v = (range 16).erase 15 ∨ g v = (range 16).erase 6) ∧ [e0, e1, e2][v] = 40) ∨ 44 ≤ [e0, e1, e2][v] := by
    intro v hv
    obtain ⟨m, he, -⟩ := hg v hv hv
    have he : [e0, e1, e2][v] = ((∑ i ∈ g v, pairLevel i : ℕ) : ℝ) := by
      have := congrArg Complex.re he
      unfold pairEnergy at this
      rw [Complex.natCast_re, Complex.ofReal_re] at this
      exact this.symm
    rw [he]
    rcases pairStates_energy _ ((hmem _).1 m) with ⟨a, b⟩ | ⟨a, b⟩ | b
    · left; rw [b]; exact ⟨Or.inl a, by norm_num⟩
    · left; rw [b]; exact ⟨Or.inr a, by norm_num⟩
    · right; exact_mod_cast b
  have c0 : ((g 0 = (range 16).erase 15 ∨ g 0 = (range 16).erase 6) ∧ e0 = 40) ∨ 44 ≤ e0 := hcase 0 (by simp)
  have c1 : ((g 1 = (range 16).erase 15 ∨ g 1 = (range 16).erase 6) ∧ e1 = 40) ∨ 44 ≤ e1 := hcase 1 (by simp)
  have c2 : ((g 2 = (range 16).erase 15 ∨ g 2 = (range 16).erase 6) ∧ e2 = 40) ∨ 44 ≤ e2 := hcase 2 (by simp)
  have i01 : g 0 ≠ g 1 := fun e => by have := hinj 0 (by simp) 1 (by simp) e; omega
  have i02 : g 0 ≠ g 2 := fun e => by have := hinj 0 (by simp) 2 (by simp) e; omega
  have i12 : g 1 ≠ g 2 := fun e => by have := hinj 1 (by simp) 2 (by simp) e; omega
  simp only [List.pairwise_cons, List.mem_cons, List.not_mem_nil, or_false, forall_eq_or_imp, forall_eq] at h1
  obtain ⟨⟨l01, l02⟩, l12, -⟩ := h1
  have hmiss : ∀ F ∈ states, (pairEnergy F).re = 40 → (∀ v < 3, g v ≠ F) → e1 ≤ 40 := by
    intro F hF hE hno
    have : e1 ≤ _ := hlow F hF (fun v hv => hno v (by simpa using hv)) 1 (by simp)
    rwa [hE] at this
  have d2 : 44 ≤ e2 := by
    rcases c2 with ⟨c2, he⟩ | c2
    · have g0 := (c0.resolve_right (by linarith)).1
      have g1 := (c1.resolve_right (by linarith)).1
      exfalso
      rcases g0 with g0 | g0 <;> rcases g1 with g1 | g1 <;> rcases c2 with c2 | c2 <;>
        first
        | exact i01 (g0.trans g1.symm)
        | exact i02 (g0.trans c2.symm)
        | exact i12 (g1.trans c2.symm)
    · exact c2
  have n2 : g 2 ≠ (range 16).erase 15 ∧ g 2 ≠ (range 16).erase 6 := by
    obtain ⟨-, he, -⟩ := hg 2 (by simp) (by simp)
    have he : pairEnergy (g 2) = (e2 : ℂ) := he
    have he := congrArg Complex.re he
    rw [Complex.ofReal_re] at he
    constructor
    · intro e; rw [e, eA] at he; linarith
    · intro e; rw [e, eB] at he; linarith
  have d1 : (g 1 = (range 16).erase 15 ∨ g 1 = (range 16).erase 6) ∧ e1 = 40 := by
    refine c1.resolve_right fun hc => ?_
    have n1 : g 1 ≠ (range 16).erase 15 ∧ g 1 ≠ (range 16).erase 6 := by
      obtain ⟨-, he, -⟩ := hg 1 (by simp) (by simp)
      have he : pairEnergy (g 1) = (e1 : ℂ) := he
      have he := congrArg Complex.re he
      rw [Complex.ofReal_re] at he
      constructor
      · intro e; rw [e, eA] at he; linarith
      · intro e; rw [e, eB] at he; linarith
    have : e1 ≤ 40 := by
      by_cases h0 : g 0 = (range 16).erase 15
      · refine hmiss _ hB eB fun v hv => ?_
        interval_cases v
        · rw [h0]; exact hAB
        · exact n1.2
        · exact n2.2
      · refine hmiss _ hA eA fun v hv => ?_
        interval_cases v
        · exact h0
        · exact n1.1
        · exact n2.1
    linarith
  have d0 := c0.resolve_right (by linarith [d1.2])
  obtain ⟨-, -, y0, hy0, hn0⟩ := hg 0 (by simp) (by simp)
  obtain ⟨-, -, y1, hy1, hn1⟩ := hg 1 (by simp) (by simp)
  refine ⟨e2, psi0, psi1, psi2, by rw [d0.2, d1.2], rfl, d2, ?_, ?_⟩
  · rcases d0.1 with e | e
    · exact ⟨15, Or.inl rfl, y0, e ▸ hy0, hn0⟩
    · exact ⟨6, Or.inr rfl, y0, e ▸ hy0, hn0⟩
  · rcases d1.1 with e | e
    · exact ⟨15, Or.inl rfl, y1, e ▸ hy1, hn1⟩
    · exact ⟨6, Or.inr rfl, y1, e ▸ hy1, hn1⟩

/-! ### The spectra -/

/-- Moving an electron from shell `l'` to shell `l` moves the hole. -/
theorem between_hole {l l' : ℕ} (hl : l ∈ allAngulars holeSystem) (hl' : l' ∈ allAngulars holeSystem) (hne : l ≠ l') (M : ℤ → ℤ → ℂ)
    {q : ℕ} {S : Finset ℕ} (hS : S ⊆ range 16)
    (h : between (position holeSystem) l l' M (Spec.single ((range 16).erase q) 1) S ≠ 0) :
    ∃ s ∈ ({0, 1} : Finset ℤ), ∃ m ∈ mRange l, ∃ m' ∈ mRange l', M m m' ≠ 0 ∧ position holeSystem (.imp l s m) = q ∧
      S = (range 16).erase (position holeSystem (.imp l' s m')) := by
  have hsys : GoodSystem holeSystem := goodSystem_two (by decide)
  obtain ⟨s, hs, m, hm, m', hm', he, h1, h2⟩ := (between_element hsys hl hl' hne M S ((range 16).erase q)).resolve_left h
  refine ⟨s, hs, m, hm, m', hm', ?_, ?_, ?_⟩
  · intro h0
    rw [h0, Amp.abs2_zero] at he
    exact h (Complex.normSq_eq_zero.1 he)
  · have hmem : position holeSystem (.imp l s m) ∈ S \ (range 16).erase q := by rw [h1]; exact mem_singleton_self _
    rw [mem_sdiff, mem_erase] at hmem
    by_contra hc
    exact hmem.2 ⟨hc, hS hmem.1⟩
  · have hq : q ∈ S := by
      have hmem : position holeSystem (.imp l s m) ∈ S \ (range 16).erase q := by rw [h1]; exact mem_singleton_self _
      rw [mem_sdiff, mem_erase] at hmem
      by_contra hc
      exact hmem.2 ⟨fun e => hc (e ▸ hmem.1), hS hmem.1⟩
    ext i
    have a2 := Finset.ext_iff.1 h2 i
    have a3 := @hS i
    simp only [mem_sdiff, mem_erase, mem_singleton] at a2 ⊢
    constructor
    · intro hi
      exact ⟨fun e => (a2.2 e).2 hi, a3 hi⟩
    · rintro ⟨h3, h4⟩
      by_contra hc
      exact h3 (a2.1 ⟨⟨fun e => hc (e ▸ hq), h4⟩, hc⟩)

/-- The core hole after absorption. -/
def coreHole (q : ℕ) : ℕ := if q = 15 then 5 else 0

theorem pair_dipole (gaunt : GauntFun) (x y z : ℂ) {q : ℕ} (hq : q = 15 ∨ q = 6) {S : Finset ℕ} (hS : S ⊆ range 16)
    (h : between (position holeSystem) 2 1 (fun m m' => dipole gaunt x y z 2 m 1 m') (Spec.single ((range 16).erase q) 1) S ≠ 0) :
    S = (range 16).erase (coreHole q) := by
  obtain ⟨s, hs, m, hm, m', hm', hne, hp, rfl⟩ := between_hole (by decide) (by decide) (by decide) _ hS h
  have hstep := dipole_step gaunt x y z 2 m 1 m' hne
  have hpos : ∀ s ∈ ({0, 1} : Finset ℤ), ∀ m ∈ Icc (-2 : ℤ) 2, ∀ m' ∈ Icc (-1 : ℤ) 1,
      (position holeSystem (.imp 2 s m) = 15 ∨ position holeSystem (.imp 2 s m) = 6) → |m - m'| ≤ 1 →
      position holeSystem (.imp 1 s m') = coreHole (position holeSystem (.imp 2 s m)) := by
    decide +kernel
  subst hp
  rw [hpos s hs m hm m' hm' hq (abs_le.2 hstep)]

theorem pair_back {q : ℕ} {S : Finset ℕ} (hS : S ⊆ range 16) {M : ℤ → ℤ → ℂ}
    (h : between (position holeSystem) 1 2 M (Spec.single ((range 16).erase (coreHole q)) 1) S ≠ 0) :
    ∃ m ∈ Icc (-2 : ℤ) 2, S = (range 16).erase (position holeSystem (.imp 2 (if q = 15 then 1 else 0) m)) := by
  obtain ⟨s, hs, m, hm, m', hm', hne, hp, rfl⟩ := between_hole (by decide) (by decide) (by decide) _ hS h
  refine ⟨m', hm', ?_⟩
  have hpos : ∀ s ∈ ({0, 1} : Finset ℤ), ∀ m ∈ Icc (-1 : ℤ) 1,
      (position holeSystem (.imp 1 s m) = 5 → s = 1) ∧ (position holeSystem (.imp 1 s m) = 0 → s = 0) := by
    decide +kernel
  unfold coreHole at hp
  split at hp
  · next hq => rw [if_pos hq, (hpos s hs m hm).1 hp]
  · next hq => rw [if_neg hq, (hpos s hs m hm).2 hp]

theorem pair_back_inj (q : ℕ) {m m' : ℤ} (hm : m ∈ Icc (-2 : ℤ) 2) (hm' : m' ∈ Icc (-2 : ℤ) 2)
    (h : pairEnergy ((range 16).erase (position holeSystem (.imp 2 (if q = 15 then 1 else 0) m)))
      = pairEnergy ((range 16).erase (position holeSystem (.imp 2 (if q = 15 then 1 else 0) m')))) : m = m' := by
  have key : ∀ s ∈ ({0, 1} : Finset ℤ), ∀ m ∈ Icc (-2 : ℤ) 2, ∀ m' ∈ Icc (-2 : ℤ) 2,
      ∑ i ∈ (range 16).erase (position holeSystem (.imp 2 s m)), pairLevel i
        = ∑ i ∈ (range 16).erase (position holeSystem (.imp 2 s m')), pairLevel i → m = m' := by decide +kernel
  unfold pairEnergy at h
  have h := Nat.cast_injective h
  refine key _ ?_ m hm m' hm' h
  split <;> simp

theorem back_bounds {F S : Finset ℕ} :
    between (position holeSystem) 1 2 (fun m' m => star (dipole sympyGaunt 1 0 0 2 m 1 m')) (Spec.single F 1) S = 0 ∨
    (1 / 30 ≤ Complex.normSq (between (position holeSystem) 1 2 (fun m' m => star (dipole sympyGaunt 1 0 0 2 m 1 m'))
      (Spec.single F 1) S) ∧
     Complex.normSq (between (position holeSystem) 1 2 (fun m' m => star (dipole sympyGaunt 1 0 0 2 m 1 m'))
      (Spec.single F 1) S) ≤ 1) := by
  have hsys : GoodSystem holeSystem := goodSystem_two (by decide)
  rcases between_element hsys (l := 1) (l' := 2) (by decide) (by decide) (by decide)
    (fun m' m => star (dipole sympyGaunt 1 0 0 2 m 1 m')) S F with h | ⟨s, -, m', -, m, -, he, -, -⟩
  · exact Or.inl h
  · have he : Complex.normSq _ = Complex.normSq (star (dipole sympyGaunt 1 0 0 2 m 1 m')) := he
    rw [show Complex.normSq (star (dipole sympyGaunt 1 0 0 2 m 1 m')) = Complex.normSq (dipole sympyGaunt 1 0 0 2 m 1 m')
      from Complex.normSq_conj _] at he
    rcases dipole_x sympyGaunt 2 m 1 m' with h0 | h0
    · left
      rw [h0, Complex.normSq_zero] at he
      exact Complex.normSq_eq_zero.1 he
    · have h0 : Complex.normSq (dipole sympyGaunt 1 0 0 2 m 1 m') = ck sympyGaunt 1 2 m 1 m' ^ 2 / 2 := h0
      rcases ck_bounds m m' with hz | ⟨hb1, hb2⟩
      · left
        rw [h0, hz] at he
        norm_num at he
        exact he
      · right
        rw [he, h0]
        constructor <;> linarith

/-- What solves the equation is not zero only where the right side is not zero. -/
theorem DiagonalOp.solution {n : ℕ} {op : Op ℕ ℂ} {cut : ℝ} {E : Finset ℕ → ℂ} (hD : DiagonalOp n op cut E)
    (hE : ∀ F, (E F).im = 0) {r : Option Restrictions} {z : ℂ} (hz : z.im ≠ 0) {b x : Vec ℂ}
    (hx : Solves n (Spec.hamiltonian n op cut r) z b x) {G : Finset ℕ} (hb : ∀ S ⊆ range n, S ≠ G → b S = 0) :
    x = Spec.single G (x G) := by
  have hz0 : z ≠ 0 := by rintro rfl; simp at hz
  funext S
  unfold Spec.single
  split
  · next h => rw [h]
  · next hne =>
    by_cases hS : S ⊆ range n
    · have h1 := hx.inside S hS
      rw [hb S hS hne] at h1
      by_cases hr : AllowedOpt r S
      · rw [hD.hamiltonian hS hr, ← sub_mul] at h1
        refine (mul_eq_zero.1 h1).resolve_left fun h => hz ?_
        have := congrArg Complex.im h
        rwa [Complex.sub_im, hE, sub_zero, Complex.zero_im] at this
      · have h0 : Spec.hamiltonian n op cut r x S = 0 := by
          unfold Spec.hamiltonian
          rw [if_pos hS]
          refine sum_eq_zero fun T _ => ?_
          unfold Spec.column
          rw [if_neg (fun h => hr h.1), zero_mul]
        rw [h0, sub_zero] at h1
        exact (mul_eq_zero.1 h1).resolve_left hz0
    · exact hx.outside S hS

theorem pairEnergy_im (F : Finset ℕ) : (pairEnergy F).im = 0 := Complex.natCast_im _

theorem operator_single_smul (op : List (List (ℕ × Bool) × ℂ)) (F : Finset ℕ) (y : ℂ) (S : Finset ℕ) :
    operator op (Spec.single F y) S = y * operator op (Spec.single F 1) S := by
  rw [single_smul, operator_smul]

/-- Without a radial function the operators of NIXS are zero. -/
theorem nixs_zero {gaunt : GauntFun} (hG : GauntRules gaunt) (sphHarm : SphHarm) (jn : SphericalJn) {nBaths : NBaths}
    (h : GoodSystem nBaths) (h2 : 2 ∈ allAngulars nBaths) {tN : List (Op ℕ ℂ)}
    (e : getNIXSOperators gaunt sphHarm jn nBaths mainQs 2 2 [] [] [] 1 = .ok tN) :
    ∀ t ∈ tN, ∀ v S, operator (opSpec t) v S = 0 := by
  have key : ∀ q : ℝ, 0 < q → ∃ t, getNIXSOperator gaunt sphHarm jn nBaths
      ⟨q * 1 / Real.sqrt 3, q * 1 / Real.sqrt 3, q * 1 / Real.sqrt 3⟩ 2 2 [] [] [] 1 = .ok t ∧
      ∀ v S, operator (opSpec t) v S = 0 := by
    intro q hq
    obtain ⟨d1, d2, d3, d4, d5⟩ := diagonal_angles q
    obtain ⟨t, ht, -, -, -, hv⟩ := C46_operator gaunt hG sphHarm jn nBaths h 2 2 h2 h2 [] [] [] rfl rfl 1 4 le_rfl
      ⟨q * 1 / Real.sqrt 3, q * 1 / Real.sqrt 3, q * 1 / Real.sqrt 3⟩ q (Real.arccos (1 / Real.sqrt 3)) (Real.pi / 4) hq d4 d5
      (by rw [abs_of_pos (by positivity)]; linarith [Real.pi_pos]) (by rw [d1, mul_one]) (by rw [d2, mul_one]) (by rw [d3, mul_one])
    refine ⟨t, ht, fun v S => ?_⟩
    have hr : radialIntegral jn [] [] [] q = fun _ => 0 := by
      funext k
      simp [radialIntegral, trapezoid]
    have hv := hv v S
    rw [hr] at hv
    have hz : ∀ (mi mj : ℤ), planeWave gaunt sphHarm (fun _ => 0) (Real.arccos (1 / Real.sqrt 3)) |Real.pi / 4| 1 4 2 mi 2 mj = 0 := by
      intro mi mj
      simp [Spec.planeWave]
    have h0 : between (position nBaths) 2 2 (fun mi mj => planeWave gaunt sphHarm (fun _ => 0) (Real.arccos (1 / Real.sqrt 3))
        |Real.pi / 4| 1 4 2 mi 2 mj) v S = 0 := by
      simp only [hz]
      simp [between]
    rw [h0] at hv
    refine (mul_eq_zero.1 hv).resolve_left ?_
    have : (0 : ℝ) < Real.sqrt (4 * Real.pi) := Real.sqrt_pos.2 (by positivity)
    exact_mod_cast this.ne'
  obtain ⟨t1, e1, z1⟩ := key 2 (by norm_num)
  obtain ⟨t2, e2, z2⟩ := key 7 (by norm_num)
  unfold getNIXSOperators mainQs at e
  simp only [List.foldlM_cons, List.foldlM_nil, e1, e2, ok_bind, pure_ok, List.nil_append, List.cons_append] at e
  cases e
  intro t ht
  simp only [List.mem_cons, List.not_mem_nil, or_false] at ht
  rcases ht with rfl | rfl
  · exact z1
  · exact z2

section
variable {L : MainLib} {T : ℝ} {hOp : Op ℕ ℂ}
  (hs : mainSetup L (pairArgs T) = .ok ⟨[(1, 0), (2, 0)], holeRestrictions, hOp, holeStates.map (encBytes 16)⟩)

include hs in
theorem pairSim_ok (hL : L.gaunt = sympyGaunt) (hT : 0 < T) (hk : 0 < L.kB) (hsolve : ExactSolver L.solve) {psis : List (Psi ℂ)}
    {es : List ℝ} (hne : es ≠ []) (hlen : es.length ≤ psis.length) (hst : ∀ psi ∈ psis, IsState 16 psi)
    (hpsi : ∀ psi ∈ psis, PairGround psi) :
    ∃ s, refSimulate (mainSim L (pairArgs T)
      ⟨[(1, 0), (2, 0)], holeRestrictions, hOp, holeStates.map (encBytes 16)⟩ es psis) = .ok s := by
  set st : Setup := ⟨[(1, 0), (2, 0)], holeRestrictions, hOp, holeStates.map (encBytes 16)⟩ with hst'
  have hgood := mainSetup_good L (pairArgs T) _ hs
  have hn : nSpinOrbitals st.nBaths = 16 := by
    rw [nSpinOrbitals_eq]; exact holeSystem_size
  have hS : (mainSim L (pairArgs T) st es psis).Valid := by
    refine mainSim_valid (pairArgs_valid T) hgood ?_ hlen
    intro p hp
    rw [hn]; exact hst p hp
  have hsys : GoodSystem holeSystem := goodSystem_two (by decide)
  have hD : DiagonalOp (nSpinOrbitals st.nBaths) hOp 1e-12 pairEnergy := by rw [hn]; exact pairSetup_diagonal hs
  have hdict : Dict.NodupKeys hOp := hgood.op.1.1
  have hh : isHermitianOp hOp := hgood.op.2
  obtain ⟨tN, eNixs⟩ := mainNixs_ok (gaunt := L.gaunt) (by rw [hL]; exact sympyGaunt_rules) L.sphHarm L.jn hsys (by decide) []
  have hN := nixs_zero (gaunt := L.gaunt) (by rw [hL]; exact sympyGaunt_rules) L.sphHarm L.jn hsys (by decide) eNixs
  obtain ⟨ts, ds, eX, eD, -⟩ := C45_daggered L.gaunt 1 2 0 0 (by decide) mainEpsilons
  obtain ⟨hl, ho⟩ := dipoles_spec L.gaunt (by decide) eX
  obtain ⟨hl', ho'⟩ := daggered_spec L.gaunt (by decide) eD
  have hin : ∀ t ∈ ts, OpInSystem (nSpinOrbitals st.nBaths) t := by
    rw [nSpinOrbitals_eq]; exact dipoles_okIn _ hsys _ _ eX
  have hin0 : ∀ t ∈ ds, OpInSystem (nSpinOrbitals st.nBaths) t := by
    rw [nSpinOrbitals_eq]; exact daggered_okIn _ hsys _ _ eD
  -- the transition operators have no small elements
  have large : ∀ op ∈ ts, ∀ F ⊆ range (nSpinOrbitals st.nBaths),
      NoSmallElements (nSpinOrbitals st.nBaths) op 1e-7 (some st.restrictions) F := by
    intro op hop F hF F' hF' hal
    obtain ⟨t, ht, rfl⟩ := List.getElem_of_mem hop
    have := dipole_noSmall (L := L) (A := pairArgs T) (by rw [hL]; exact sympyGaunt_large) rfl (fun _ => 0)
      (v := mainEpsilons[t]'(hl ▸ ht)) (List.getElem_mem (l := mainEpsilons) (hl ▸ ht)) (nSpinOrbitals st.nBaths) (some st.restrictions) F' hF' F hF hal
    have e1 := ho t (hl ▸ ht)
    unfold dipolePD at this
    rw [show pdSystem (fun _ => 0) = [(.int 1, 0), (.int 2, 0)] from rfl] at this
    rw [← e1] at this
    exact this
  have core : ∀ op ∈ ts, ∀ q, (q = 15 ∨ q = 6) → ∀ F ⊆ range 16, F ≠ (range 16).erase (coreHole q) →
      operator (opSpec op) (Spec.single ((range 16).erase q) 1) F = 0 := by
    intro op hop q hq F hF hne
    obtain ⟨t, ht, rfl⟩ := List.getElem_of_mem hop
    rw [ho t (hl ▸ ht)]
    by_contra hc
    exact hne (pair_dipole L.gaunt _ _ _ hq hF hc)
  have build : ∀ {w : List ℝ} {d : ℝ}, d ≠ 0 → ∀ {tOps : List (Op ℕ ℂ)}, (∀ t ∈ tOps, OpInSystem (nSpinOrbitals st.nBaths) t) →
      (∀ t ∈ tOps, ∀ F ⊆ range (nSpinOrbitals st.nBaths), NoSmallElements (nSpinOrbitals st.nBaths) t 1e-7 (some st.restrictions) F) →
      (∀ t ∈ tOps, ∀ q, (q = 15 ∨ q = 6) → ∃ G, ∀ F ⊆ range 16, F ≠ G →
        operator (opSpec t) (Spec.single ((range 16).erase q) 1) F = 0) →
      ∃ x, refHBuild ((mainSim L (pairArgs T) st es psis).spectra w d) tOps psis es = .ok x := by
    intro w d hd tOps h1 h2 h3
    refine refHBuild_large (hS.spectra w hd) hlen (by intro p hp; show IsState (nSpinOrbitals st.nBaths) p; rw [hn]; exact hst p hp) h1 h2 ?_
    intro t ht i hi psiR hE hR
    refine spectrumOf_diagonal (hS.spectra w hd) hdict hh (by show (150 : ℕ) ≠ 0; decide) hD hE ?_ _
    have hi' : i < psis.length := lt_of_lt_of_le hi hlen
    obtain ⟨q, hq, y, hy, -⟩ := hpsi _ (List.getElem_mem hi')
    obtain ⟨G, hG⟩ := h3 _ (List.getElem_mem ht) q hq
    have hzero : ∀ F, ampl (nSpinOrbitals st.nBaths) psiR F ≠ 0 → F = G := by
      intro F hF
      by_contra hne
      refine hF ?_
      rw [show ampl (nSpinOrbitals st.nBaths) psiR
        = excitation (nSpinOrbitals st.nBaths) tOps[t] 1e-7 (some st.restrictions) (psis.getD i []) from hR]
      unfold excitation
      split
      · next hc =>
        rw [List.getD_eq_getElem _ _ hi', hn, hy, operator_single_smul, hG F (by rw [← hn]; exact hc.1) hne, mul_zero]
      · rfl
    intro F F' hF hF' _
    rw [hzero F hF, hzero F' hF']
  refine refSimulate_core hS (by show 1 ∈ allAngulars holeSystem; decide) (by show 2 ∈ allAngulars holeSystem; decide)
    hne (by simp [mainSim, pairArgs, holeArgs, hk.ne', hT.ne']) eNixs eX eX eD ?_ ?_
  · intro w d hd tOps hin' hc
    have hin' : ∀ t ∈ tOps, OpInSystem (nSpinOrbitals st.nBaths) t := by rw [nSpinOrbitals_eq]; exact hin'
    have photo : ∀ (l : ℕ) (a : Action), tOps = ((List.range (2 * (2 * l + 1))).map fun j => [([(impStart holeSystem l + j, a)], 1)]) →
        ∃ x, refHBuild ((mainSim L (pairArgs T) st es psis).spectra w d) tOps psis es = .ok x := by
      rintro l a rfl
      refine build hd hin' ?_ ?_
      · intro t ht F hF F' hF' hal
        obtain ⟨j, -, rfl⟩ := List.mem_map.1 ht
        exact noSmall_photo _ _ _ (by norm_num) _ F' hF' F hF hal
      · intro t ht q _
        obtain ⟨j, -, rfl⟩ := List.mem_map.1 ht
        cases a with
        | a =>
          refine ⟨((range 16).erase q).erase (impStart holeSystem l + j), fun F _ hF => ?_⟩
          rw [operator_photo]
          have := congrFun (ladder_single_a (impStart holeSystem l + j) ((range 16).erase q) (1 : ℂ)) F
          refine Eq.trans this ?_
          split
          · exact if_neg hF
          · rfl
        | c =>
          refine ⟨insert (impStart holeSystem l + j) ((range 16).erase q), fun F _ hF => ?_⟩
          rw [operator_photo]
          have := congrFun (ladder_single_c (impStart holeSystem l + j) ((range 16).erase q) (1 : ℂ)) F
          refine Eq.trans this ?_
          split
          · rfl
          · exact if_neg hF
    rcases hc with hc | hc | hc | hc | hc
    · exact photo 2 .c (inversePhoto_spec hsys hc)
    · exact photo 2 .a (photo_spec hsys hc)
    · exact photo 1 .a (photo_spec hsys hc)
    · subst hc
      refine build hd hin' (fun t ht F _ F' _ _ => Or.inl (hN t ht _ _)) fun t ht q _ => ⟨∅, fun F _ _ => hN t ht _ _⟩
    · subst hc
      exact build hd hin' large fun t ht q hq => ⟨_, core t ht q hq⟩
  · obtain ⟨op0, rest, rfl⟩ : ∃ op0 rest, ds = op0 :: rest := by
      cases ds with
      | nil => simp [mainEpsilons] at hl'
      | cons a b => exact ⟨a, b, rfl⟩
    refine refRixs_core hS.rixs hdict hh hS.delta hsolve hin large (hin0 op0 (by simp)) hS.enough hS.states ?_
    intro op hop a ha w hw v hv
    have ha' : a < psis.length := lt_of_lt_of_le ha hlen
    obtain ⟨q, hq, y, hy, -⟩ := hpsi _ (List.getElem_mem ha')
    have hv : Solves (nSpinOrbitals st.nBaths) (hamiltonian (nSpinOrbitals st.nBaths) hOp 1e-12 (some st.restrictions))
      ((w : ℂ) + Complex.I * (((1 / 5 : ℝ)) : ℂ) + ((es[a] : ℝ) : ℂ))
      (excitation (nSpinOrbitals st.nBaths) op 1e-7 (some st.restrictions) psis[a]) v := hv
    have hv1 : v = Spec.single ((range 16).erase (coreHole q)) (v ((range 16).erase (coreHole q))) := by
      refine hD.solution pairEnergy_im (by simp) hv fun F hF hne => ?_
      unfold excitation
      split
      · rw [hn] at hF ⊢
        rw [hy, operator_single_smul, core op hop q hq F hF hne, mul_zero]
      · rfl
    have e0 : ∀ S ⊆ range 16, operator (opSpec op0) (Spec.single ((range 16).erase (coreHole q)) 1) S
        = between (position holeSystem) 1 2 (fun m' m => star (dipole sympyGaunt 1 0 0 2 m 1 m'))
          (Spec.single ((range 16).erase (coreHole q)) 1) S := by
      intro S hS'
      have e0 := ho' 0 (by simp [mainEpsilons]) (Spec.single ((range 16).erase (coreHole q)) 1) S (by
        rw [show nTotal [(.int 1, 0), (.int 2, 0)] = 16 from holeSystem_size]; exact hS')
      have e0 : operator (opSpec op0) (Spec.single ((range 16).erase (coreHole q)) 1) S = between (position holeSystem) 1 2
        (fun m' m => star (dipole L.gaunt 1 0 0 2 m 1 m')) (Spec.single ((range 16).erase (coreHole q)) 1) S := e0
      rw [e0, hL]
    constructor
    · show NoneDropped (nSpinOrbitals st.nBaths) 1e-7 (transition (nSpinOrbitals st.nBaths) op0 1e-7 (some st.restrictions) v)
      rw [hn, hv1]
      refine noneDropped_single (lo := 1 / 30) (hi := 1) (by norm_num) (fun S hS' => ?_) zero_le_one (by norm_num) _ _
      rw [e0 S hS']
      exact back_bounds
    · intro psiR hE hR
      refine spectrumOf_diagonal hS.rixs.spectra hdict hh (by show (150 : ℕ) ≠ 0; decide) hD hE ?_ _
      have hback : ∀ F, ampl (nSpinOrbitals st.nBaths) psiR F ≠ 0 → ∃ m ∈ Icc (-2 : ℤ) 2,
          F = (range 16).erase (position holeSystem (.imp 2 (if q = 15 then 1 else 0) m)) := by
        intro F hF
        rw [show ampl (nSpinOrbitals st.nBaths) psiR
          = transition (nSpinOrbitals st.nBaths) op0 1e-7 (some st.restrictions) v from hR] at hF
        unfold transition at hF
        split at hF
        · next hc =>
          have hF16 : F ⊆ range 16 := by rw [← hn]; exact hc.1
          rw [hv1, operator_single_smul, e0 F hF16] at hF
          exact pair_back hF16 (right_ne_zero_of_mul hF)
        · exact absurd rfl hF
      intro F F' hF hF' hE'
      obtain ⟨m, hm, rfl⟩ := hback F hF
      obtain ⟨m', hm', rfl⟩ := hback F' hF'
      rw [pair_back_inj q hm hm' hE']

end

/-! ### The run -/

theorem pair_energyCut {Q : Type} {e2 c : ℝ} (h2 : 44 ≤ e2) (hc : 0 < c) (hc' : c ≤ 4) (psi0 psi1 psi2 : Q) :
    energyCut [40, 40, e2] [psi0, psi1, psi2] c = .ok ([40, 40], [psi0, psi1]) := by
  unfold energyCut
  have g0 : pyGet [(40 : ℝ), 40, e2] 0 = .ok 40 := rfl
  have g1 : pyGet [psi0, psi1, psi2] ((0 : ℕ) : ℤ) = .ok psi0 := rfl
  have g2 : pyGet [psi0, psi1, psi2] ((1 : ℕ) : ℤ) = .ok psi1 := rfl
  have hno : ¬ e2 - 40 < c := by linarith
  simp only [List.foldlM_cons, List.foldlM_nil, g0, ok_bind, pure_ok, sub_self, if_pos hc, if_neg hno, List.nil_append,
    List.cons_append, List.length_cons, List.length_nil, Nat.zero_add, show List.range (1 + 1) = [0, 1] from rfl, List.mapM_cons,
    List.mapM_nil, g1, g2]

/-- `main` succeeds. -/
theorem pairMain_ok {L : MainLib} {T : ℝ} (hL : L.gaunt = sympyGaunt) (hT : 0 < T) (hk : 0 < L.kB) (hcold : 10 * (L.kB * T) ≤ 4)
    (hsolve : ExactSolver L.solve) (hS : SolverCorrect L.solver)
    (htot : ∀ H d k, k < d → ∃ p, L.solver.eigsh H d k = .ok p) (hsep : Separates L.solver) : ∃ o, refMain L (pairArgs T) = .ok o := by
  obtain ⟨hOp, hs⟩ := pairSetup_ok L hL T
  have hgood := mainSetup_good L (pairArgs T) _ hs
  have hn : nSpinOrbitals [((1 : ℕ), 0), (2, 0)] = 16 := by
    rw [nSpinOrbitals_eq]; exact holeSystem_size
  have hgop := hgood.op
  rw [hn] at hgop
  obtain ⟨es, psis, heig⟩ := refEigensystem_ok hS htot hgop.1.2 hgop.1.1 hgop.2 1e-12 1e-7 holeStates_nodup holeStates_sub
    (k := 3) (by decide)
  have heig' := heig
  unfold refEigensystem at heig'
  rw [if_neg (by decide)] at heig'
  obtain ⟨-, -, x, -, -, -, h6⟩ := C51_eigensystem L.solver hS 16 hOp hgop.1.2 hgop.1.1 hgop.2 1e-12 holeStates
    holeStates_nodup holeStates_sub 3 .lanczos 1e-7 1 one_pos _ _ heig'
  have hst : ∀ psi ∈ psis, IsState 16 psi := by
    intro psi hp
    obtain ⟨v, hv, rfl⟩ := List.getElem_of_mem hp
    exact (h6 v hv).1
  obtain ⟨e2, psi0, psi1, psi2, rfl, rfl, h2, g0, g1⟩ := pairEigen hS hsep hgop.1.2 hgop.1.1 hgop.2 (pairSetup_diagonal hs)
    holeStates_nodup (fun _ => Iff.rfl) heig'
  obtain ⟨p, hp⟩ := mainPrints_ok (L := L) (nBaths := [(1, 0), (2, 0)]) hgood.nBaths (by decide) (es := [40, 40, e2])
    (psis := [psi0, psi1, psi2]) (by simp) rfl (by rw [hn]; exact hst) hk (pairArgs T)
  have hcut : energyCut [40, 40, e2] [psi0, psi1, psi2] ((pairArgs T).energyCut * (L.kB * (pairArgs T).T))
      = .ok ([40, 40], [psi0, psi1]) :=
    pair_energyCut h2 (by show 0 < 10 * (L.kB * T); positivity) hcold _ _ _
  obtain ⟨sp, hsp⟩ := pairSim_ok hs hL hT hk hsolve (psis := [psi0, psi1]) (es := [40, 40]) (by simp) (by simp)
    (fun psi hp => hst psi (by simp at hp ⊢; tauto)) (fun psi hp => by
      simp only [List.mem_cons, List.not_mem_nil, or_false] at hp
      rcases hp with rfl | rfl
      · exact g0
      · exact g1)
  refine ⟨⟨p.1, p.2.1, p.2.2.1, p.2.2.2, [40, 40, e2], sp⟩, ?_⟩
  unfold refMain
  rw [hs]
  simp only [ok_bind, hn]
  rw [show (pairArgs T).nPsiMax = 3 from rfl, heig]
  simp only [ok_bind]
  rw [hp]
  simp only [ok_bind]
  rw [hcut]
  simp only [ok_bind]
  rw [hsp]
  rfl

/-- All ranks finish. -/
theorem pair_finishes {solver : EigenSolver} (hS : SolverCorrect solver)
    (htot : ∀ H d k, k < d → ∃ p, solver.eigsh H d k = .ok p) (hsep : Separates solver) (sphHarm : SphHarm) (jn : SphericalJn) {kB T : ℝ}
    (hk : 0 < kB) (hT : 0 < T) (hcold : 10 * (kB * T) ≤ 4) :
    ∃ o : MainOutput, ∀ (N : ℕ), 0 < N → ∀ (ord : Fin N → ℕ → ℕ → ℕ → SetOrders), (∀ k c t i, (ord k c t i).Valid) →
      ∀ (ordRixs : Fin N → List ℕ → SetOrders), (∀ k l, (ordRixs k l).Valid) →
      AllRanksFinish msgSum
        (fun k : Fin N => mainRank (holeLib solver sphHarm jn kB) (pairArgs T) (ord k) (ordRixs k) k.val N)
        (fun k => if k.val = 0 then some o else none) := by
  obtain ⟨o, ho⟩ := pairMain_ok (L := holeLib solver sphHarm jn kB) rfl hT hk hcold (holeSolve_exact solver sphHarm jn kB) hS htot hsep
  refine ⟨o, fun N hN ord hord ordR hordR => ?_⟩
  have := main_settles hN (L := holeLib solver sphHarm jn kB) (pairArgs_valid T) sympyGaunt_large ord hord ordR hordR
  rw [ho] at this
  obtain ⟨out, rfl, hrun⟩ := this
  exact hrun.allRanksFinish

end

end Verif
