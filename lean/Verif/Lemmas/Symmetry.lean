/-
Lemmas on symmetries of the Hamiltonian.
-/
import Verif.Prop.Degenerate
import Verif.Spec.Symmetry

namespace Verif

open Finset Spec

noncomputable section

/-! ### Eigenvectors -/

section
variable {s : Finset (Finset ℕ)} {h : Finset ℕ → Finset ℕ → ℂ} {es : List ℝ} {x : ℕ → Finset ℕ → ℂ}

/-- A unitary map maps the eigenvectors of `h` to those of `h'`. -/
theorem LowestIn.map_unitary {h' : Finset ℕ → Finset ℕ → ℂ} (H : LowestIn s h es x) {R R' : Vec ℂ → Vec ℂ}
    (smul : ∀ (c : ℂ) v, R (c • v) = c • R v)
    (congr : ∀ v w : Vec ℂ, (∀ S ∈ s, v S = w S) → ∀ S ∈ s, R v S = R w S)
    (inner : ∀ v w, ∑ S ∈ s, star (R v S) * R w S = ∑ S ∈ s, star (v S) * w S)
    (right : ∀ v, ∀ S ∈ s, R (R' v) S = v S)
    (comm : ∀ v, ∀ S ∈ s, ∑ T ∈ s, h' S T * R v T = R (fun S => ∑ T ∈ s, h S T * v T) S) :
    LowestIn s h' es fun i => R (x i) := by
  refine ⟨H.asc, fun v hv w hw => (inner _ _).trans (H.ortho v hv w hw), fun v hv S hS => ?_, fun y hy v hv => ?_⟩
  · rw [comm _ S hS, congr _ ((es[v] : ℂ) • x v) (fun S hS => H.eigen v hv S hS) S hS, smul]
    rfl
  · have h1 := H.low (R' y) (fun w hw => by
      rw [← inner, ← hy w hw]
      exact Finset.sum_congr rfl fun S hS => by rw [right y S hS]) v hv
    have h2 : ∑ S ∈ s, Complex.normSq (R' y S) = ∑ S ∈ s, Complex.normSq (y S) := by
      have h3 : ∀ z : Vec ℂ, ((∑ S ∈ s, Complex.normSq (z S) : ℝ) : ℂ) = ∑ S ∈ s, star (z S) * z S := by
        intro z
        rw [Complex.ofReal_sum]
        refine Finset.sum_congr rfl fun S _ => ?_
        rw [Complex.normSq_eq_conj_mul_self]
        rfl
      have h4 := inner (R' y) (R' y)
      rw [← h3, Finset.sum_congr rfl fun S hS => by rw [right y S hS], ← h3] at h4
      exact_mod_cast h4.symm
    have h5 : ∀ (h : Finset ℕ → Finset ℕ → ℂ) (z : Vec ℂ), ∑ S ∈ s, ∑ T ∈ s, star (z S) * h S T * z T = ∑ S ∈ s, star (z S) * ∑ T ∈ s, h S T * z T := by
      intro h z
      refine Finset.sum_congr rfl fun S _ => ?_
      rw [Finset.mul_sum]
      exact Finset.sum_congr rfl fun T _ => mul_assoc _ _ _
    rw [h2, h5, ← inner] at h1
    rw [h5]
    refine h1.trans_eq (congrArg Complex.re (Finset.sum_congr rfl fun S hS => ?_))
    rw [right y S hS, ← comm _ S hS]
    exact congrArg _ (Finset.sum_congr rfl fun T hT => by rw [right y T hT])

/-- A symmetry of the Hamiltonian maps the eigenvectors to other eigenvectors. -/
theorem LowestIn.map_symmetry (H : LowestIn s h es x) {R R' : Vec ℂ → Vec ℂ}
    (smul : ∀ (c : ℂ) v, R (c • v) = c • R v)
    (congr : ∀ v w : Vec ℂ, (∀ S ∈ s, v S = w S) → ∀ S ∈ s, R v S = R w S)
    (inner : ∀ v w, ∑ S ∈ s, star (R v S) * R w S = ∑ S ∈ s, star (v S) * w S)
    (right : ∀ v, ∀ S ∈ s, R (R' v) S = v S)
    (comm : ∀ v, ∀ S ∈ s, ∑ T ∈ s, h S T * R v T = R (fun S => ∑ T ∈ s, h S T * v T) S) :
    LowestIn s h es fun i => R (x i) := H.map_unitary smul congr inner right comm

end

/-! ### Responses -/

/-- A symmetry of the Hamiltonian `H` with inverse `R'`. -/
structure IsSymmetry (n : ℕ) (H R R' : Vec ℂ → Vec ℂ) : Prop where
  lin : IsLinearMap ℂ R
  lin' : IsLinearMap ℂ R'
  left : ∀ v, R' (R v) = v
  right : ∀ v, R (R' v) = v
  inner : ∀ v w, innerProduct n (R v) (R w) = innerProduct n v w
  comm : ∀ v, H (R v) = R (H v)
  local' : ∀ v w : Vec ℂ, (∀ F ⊆ range n, v F = w F) → ∀ F ⊆ range n, R v F = R w F
  supp : ∀ v : Vec ℂ, (∀ F, ¬ F ⊆ range n → v F = 0) → ∀ F, ¬ F ⊆ range n → R v F = 0

section
variable {n : ℕ} {H R R' : Vec ℂ → Vec ℂ}

theorem IsSymmetry.symm (h : IsSymmetry n H R R') (hl : ∀ v w : Vec ℂ, (∀ F ⊆ range n, v F = w F) → ∀ F ⊆ range n, R' v F = R' w F)
    (hs : ∀ v : Vec ℂ, (∀ F, ¬ F ⊆ range n → v F = 0) → ∀ F, ¬ F ⊆ range n → R' v F = 0) : IsSymmetry n H R' R :=
  ⟨h.lin', h.lin, h.right, h.left, fun v w => by rw [← h.inner, h.right, h.right], fun v => by
    rw [← h.left (H (R' v)), ← h.comm, h.right], hl, hs⟩

theorem IsSymmetry.solves (h : IsSymmetry n H R R') {z : ℂ} {b x : Vec ℂ} (hx : Solves n H z b x) :
    Solves n H z (R b) (R x) := by
  refine ⟨fun F hF => ?_, h.supp x hx.outside⟩
  rw [h.comm]
  have h1 := h.local' (z • x - H x) b (fun F hF => hx.inside F hF) F hF
  rw [h.lin.map_sub, h.lin.map_smul] at h1
  exact h1

theorem IsSymmetry.green (h : IsSymmetry n H R R') (h' : IsSymmetry n H R' R) {z : ℂ} {b : Vec ℂ} {g : ℂ}
    (hg : IsGreen n H z b g) : IsGreen n H z (R b) g := by
  obtain ⟨x, hx, hu, e⟩ := hg
  refine ⟨R x, h.solves hx, fun y hy => ?_, by rw [h.inner, e]⟩
  have h1 := h'.solves hy
  rw [h.left] at h1
  rw [← hu _ h1, h.right]

end

/-- The averages of the responses to two operators that a symmetry maps to each other. -/
theorem response_symmetric {S : SimulateArgs} {R R' : Vec ℂ → Vec ℂ} (hs : IsSymmetry (size S) (hamilton S) R R')
    (hs' : IsSymmetry (size S) (hamilton S) R' R) {U : ℕ → ℕ → ℂ}
    (hU : ∀ j < S.es.length, ∀ k < S.es.length, ∑ i ∈ range S.es.length, star (U i j) * U i k = if j = k then 1 else 0)
    (h0 : ∀ i < S.es.length, ∀ j < S.es.length, S.es.getD i 0 ≠ S.es.getD j 0 → U i j = 0)
    (hψ : ∀ i < S.es.length, ∀ F, R (ampl (size S) (S.psis.getD i [])) F
      = ∑ j ∈ range S.es.length, U i j * ampl (size S) (S.psis.getD j []) F) {T T' : Vec ℂ → Vec ℂ}
    (hT' : IsLinearMap ℂ T')
    (hTT : ∀ v : Vec ℂ, (fun F => if F ⊆ range (size S) ∧ AllowedOpt S.restrictions F then T' (R v) F else 0)
      = R fun F => if F ⊆ range (size S) ∧ AllowedOpt S.restrictions F then T v F else 0)
    (hr : ∀ i < S.es.length, NothingLost S T (ampl (size S) (S.psis.getD i [])))
    (hr' : ∀ i < S.es.length, NothingLost S T' (ampl (size S) (S.psis.getD i [])))
    (weight : ℝ → ℂ) (z : ℂ) {g g' : ℕ → ℂ}
    (hg : ∀ i < S.es.length, IsResponse S T i z (g i)) (hg' : ∀ i < S.es.length, IsResponse S T' i z (g' i)) :
    ∑ i ∈ range S.es.length, weight (S.es.getD i 0) * g' i = ∑ i ∈ range S.es.length, weight (S.es.getD i 0) * g i := by
  symm
  refine green_mix (H := hamilton S) (n := size S) (hamiltonian_linear _ _ _ _) hU (boltzmann_congr h0 weight)
    (boltzmann_congr h0 fun e => z + (e : ℂ)) (b' := fun i => R (excite S T i)) ?_ hg' fun i hi => hs.green hs' (hg i hi)
  intro i hi
  unfold excite
  rw [exciteVec_eq (hr i hi), ← hTT]
  have hm : R (ampl (size S) (S.psis.getD i [])) = mix S.es.length U (fun j => ampl (size S) (S.psis.getD j [])) i :=
    funext fun F => hψ i hi F
  rw [hm, linear_mix hT']
  funext F
  unfold mix
  by_cases h1 : F ⊆ range (size S) ∧ AllowedOpt S.restrictions F
  · rw [if_pos h1]
    refine Finset.sum_congr rfl fun j hj => ?_
    simp only [exciteVec_eq (hr' j (mem_range.1 hj)), if_pos h1]
  · rw [if_neg h1]
    refine (Finset.sum_eq_zero fun j hj => ?_).symm
    simp only [exciteVec_eq (hr' j (mem_range.1 hj)), if_neg h1, mul_zero]

/-! ### Rotations about the z axis -/

section
variable {χ : ℕ → ℂ} (hχ : ∀ i, ‖χ i‖ = 1)

theorem turn_linear (χ : ℕ → ℂ) : IsLinearMap ℂ (turn χ) := by
  constructor
  · intro v w
    funext F
    simp only [turn, Pi.add_apply, mul_add]
  · intro c v
    funext F
    simp only [turn, Pi.smul_apply, smul_eq_mul]
    ring

include hχ in
theorem phase_mul (F : Finset ℕ) : (∏ i ∈ F, star (χ i)) * ∏ i ∈ F, χ i = 1 := by
  rw [← Finset.prod_mul_distrib]
  refine Finset.prod_eq_one fun i _ => ?_
  have h := Complex.normSq_eq_conj_mul_self (z := χ i)
  rw [Complex.normSq_eq_norm_sq, hχ i] at h
  exact h.symm.trans (by norm_num)

theorem turn_create (i : ℕ) (v : Vec ℂ) (F : Finset ℕ) : turn χ (create i v) F = χ i * create i (turn χ v) F := by
  unfold turn create
  by_cases h : i ∈ F
  · rw [if_pos h, if_pos h, ← Finset.mul_prod_erase F χ h]
    ring
  · rw [if_neg h, if_neg h, mul_zero, mul_zero]

theorem annihilate_turn (i : ℕ) (v : Vec ℂ) (F : Finset ℕ) : annihilate i (turn χ v) F = χ i * turn χ (annihilate i v) F := by
  unfold turn annihilate
  by_cases h : i ∈ F
  · rw [if_pos h, if_pos h, mul_zero, mul_zero]
  · rw [if_neg h, if_neg h]
    dsimp only
    rw [Finset.prod_insert h]
    ring

include hχ in
theorem create_turn (i : ℕ) (v : Vec ℂ) (F : Finset ℕ) : create i (turn χ v) F = star (χ i) * turn χ (create i v) F := by
  have h := phase_mul hχ {i}
  simp only [Finset.prod_singleton] at h
  rw [turn_create, ← mul_assoc, h, one_mul]

include hχ in
theorem hop_turn (i j : ℕ) (v : Vec ℂ) (F : Finset ℕ) :
    create i (annihilate j (turn χ v)) F = star (χ i) * χ j * turn χ (create i (annihilate j v)) F := by
  have h : annihilate j (turn χ v) = χ j • turn χ (annihilate j v) := funext fun F => annihilate_turn j v F
  rw [h, (create_linear i).map_smul, Pi.smul_apply, smul_eq_mul, create_turn hχ]
  ring

include hχ in
theorem pair_turn (i j k l : ℕ) (v : Vec ℂ) (F : Finset ℕ) :
    create i (create j (annihilate k (annihilate l (turn χ v)))) F
      = star (χ i) * star (χ j) * χ k * χ l * turn χ (create i (create j (annihilate k (annihilate l v)))) F := by
  have h1 : annihilate l (turn χ v) = χ l • turn χ (annihilate l v) := funext fun F => annihilate_turn l v F
  have h2 : create j (annihilate k (turn χ (annihilate l v)))
      = (star (χ j) * χ k) • turn χ (create j (annihilate k (annihilate l v))) := funext fun F => hop_turn hχ j k _ F
  rw [h1, (annihilate_linear k).map_smul, (create_linear j).map_smul, h2, (create_linear i).map_smul, (create_linear i).map_smul,
    Pi.smul_apply, Pi.smul_apply, smul_eq_mul, smul_eq_mul, create_turn hχ]
  ring

end

theorem star_I_zpow (k : ℤ) : star (Complex.I ^ k) = (Complex.I ^ k)⁻¹ := by
  rw [star_zpow₀, ← inv_zpow, Complex.inv_I]
  exact congrArg (· ^ k) Complex.conj_I

/-- `A` commutes with the rotation. -/
def CommutesTurn (χ : ℕ → ℂ) (A : Vec ℂ → Vec ℂ) : Prop := ∀ v F, A (turn χ v) F = turn χ (A v) F

section
variable {b : ℕ → ℕ} {χ : ℕ → ℂ} (hQ : QuarterTurn b χ)

include hQ in
theorem quarter_hop {l l' : ℕ} (hl : l ∈ [1, 2]) (hl' : l' ∈ [1, 2]) {s s' m m' : ℤ} (hs : s ∈ ({0, 1} : Finset ℤ))
    (hs' : s' ∈ ({0, 1} : Finset ℤ)) (hm : m ∈ mRange l) (hm' : m' ∈ mRange l') (v : Vec ℂ) (F : Finset ℕ) :
    create (position (pdSystem b) (.imp l s m)) (annihilate (position (pdSystem b) (.imp l' s' m')) (turn χ v)) F
      = Complex.I ^ (m' + s' - (m + s)) *
        turn χ (create (position (pdSystem b) (.imp l s m)) (annihilate (position (pdSystem b) (.imp l' s' m')) v)) F := by
  rw [hop_turn hQ.unit, hQ.shell l hl s hs m hm, hQ.shell l' hl' s' hs' m' hm', zpow_sub₀ Complex.I_ne_zero]
  congr 1
  rw [div_eq_mul_inv, mul_comm, ← star_I_zpow]

include hQ in
theorem oneBody_turn {l : ℕ} (hl : l ∈ [1, 2]) {M : ℤ × ℤ → ℤ × ℤ → ℂ} (hM : ∀ x y, M x y ≠ 0 → x.2 + x.1 = y.2 + y.1) :
    CommutesTurn χ (oneBody (position (pdSystem b)) l M) := by
  intro v F
  unfold oneBody
  conv_rhs => unfold turn
  rw [Finset.mul_sum]
  refine Finset.sum_congr rfl fun x hx => ?_
  obtain ⟨h1, h2⟩ := Finset.mem_product.1 hx
  obtain ⟨a1, a2⟩ := Finset.mem_product.1 h1
  obtain ⟨b1, b2⟩ := Finset.mem_product.1 h2
  rw [quarter_hop hQ hl hl a1 b1 a2 b2]
  by_cases h0 : M x.1 x.2 = 0
  · rw [h0]; ring
  · rw [← hM _ _ h0, sub_self, zpow_zero, one_mul]
    unfold turn
    ring

include hQ in
theorem twoBody_turn {l1 l2 l3 l4 : ℕ} (h1 : l1 ∈ [1, 2]) (h2 : l2 ∈ [1, 2]) (h3 : l3 ∈ [1, 2]) (h4 : l4 ∈ [1, 2])
    (gaunt : ℕ → ℕ → ℕ → ℤ → ℤ → ℤ → ℝ) (R : List ℝ) :
    CommutesTurn χ (twoBody (position (pdSystem b)) l1 l2 l3 l4 (coulomb gaunt l1 l2 l3 l4 R)) := by
  intro v F
  unfold twoBody
  conv_rhs => unfold turn
  rw [mul_left_comm]
  refine congrArg _ ?_
  simp only [Finset.mul_sum]
  refine Finset.sum_congr rfl fun m1 a1 => Finset.sum_congr rfl fun m2 a2 => Finset.sum_congr rfl fun m3 a3 =>
    Finset.sum_congr rfl fun m4 a4 => Finset.sum_congr rfl fun s hs => Finset.sum_congr rfl fun s' hs' => ?_
  rw [pair_turn hQ.unit, hQ.shell l1 h1 s hs m1 a1, hQ.shell l2 h2 s' hs' m2 a2, hQ.shell l3 h3 s' hs' m3 a3,
    hQ.shell l4 h4 s hs m4 a4, star_I_zpow, star_I_zpow]
  by_cases h0 : m1 + m2 = m3 + m4
  · have e : (Complex.I ^ (m1 + s))⁻¹ * (Complex.I ^ (m2 + s'))⁻¹ * Complex.I ^ (m3 + s') * Complex.I ^ (m4 + s) = 1 := by
      rw [← zpow_neg, ← zpow_neg, ← zpow_add₀ Complex.I_ne_zero, ← zpow_add₀ Complex.I_ne_zero,
        ← zpow_add₀ Complex.I_ne_zero, show -(m1 + s) + -(m2 + s') + (m3 + s') + (m4 + s) = 0 by omega, zpow_zero]
    rw [e, one_mul]
    unfold turn
    ring
  · unfold coulomb
    rw [if_neg h0]
    push_cast
    ring

include hQ in
theorem shellNumber_turn {l : ℕ} (hl : l ∈ [1, 2]) : CommutesTurn χ (shellNumber (position (pdSystem b)) l) := by
  intro v F
  unfold shellNumber
  conv_rhs => unfold turn
  rw [Finset.mul_sum]
  refine Finset.sum_congr rfl fun x hx => ?_
  obtain ⟨a1, a2⟩ := Finset.mem_product.1 hx
  rw [quarter_hop hQ hl hl a1 a1 a2 a2, sub_self, zpow_zero, one_mul]
  rfl

theorem lDotS_conserves (l : ℕ) (x y : ℤ × ℤ) (h : lDotS l x y ≠ 0) : x.2 + x.1 = y.2 + y.1 := by
  contrapose! h
  have h1 : lZ x.2 y.2 * sZ x.1 y.1 = 0 := by
    unfold lZ sZ
    split_ifs with e1 e2 <;> first | exact absurd (by rw [e1, e2]) h | simp
  have h2 : lPlus l x.2 y.2 * sMinus x.1 y.1 = 0 := by
    unfold lPlus sMinus
    split_ifs with e1 e2 <;> first | exact absurd (by omega) h | simp
  have h3 : lMinus l x.2 y.2 * sPlus x.1 y.1 = 0 := by
    unfold lMinus sPlus
    split_ifs with e1 e2 <;> first | exact absurd (by omega) h | simp
  unfold lDotS
  rw [h1, h2, h3]
  simp

theorem hDotS_conserves (hz : ℝ) (x y : ℤ × ℤ) (h : hDotS 0 0 hz x y ≠ 0) : x.2 + x.1 = y.2 + y.1 := by
  contrapose! h
  unfold hDotS sZ delta
  by_cases e1 : x.2 = y.2 <;> by_cases e2 : x.1 = y.1 <;> simp_all

include hQ in
/-- The Hamiltonian is invariant if the field is along z and the non-interacting operator is invariant. -/
theorem pdHamiltonian_turn {gaunt : ℕ → ℕ → ℕ → ℤ → ℤ → ℤ → ℝ} {A : MainArgs} {n3d : ℤ} {hz : ℝ} {h0 : Op Label ℂ}
    (hh : CommutesTurn χ (operator (labelSpec (position (pdSystem b)) h0))) :
    CommutesTurn χ (pdHamiltonian gaunt (position (pdSystem b)) A n3d 0 0 hz h0) := by
  have p1 : 1 ∈ [1, 2] := by simp
  have p2 : 2 ∈ [1, 2] := by simp
  intro v F
  unfold pdHamiltonian
  rw [twoBody_turn hQ p2 p2 p2 p2, twoBody_turn hQ p1 p1 p1 p1, twoBody_turn hQ p1 p2 p2 p1, twoBody_turn hQ p2 p1 p1 p2,
    twoBody_turn hQ p1 p2 p1 p2, twoBody_turn hQ p2 p1 p2 p1, oneBody_turn hQ p2 (hDotS_conserves hz),
    oneBody_turn hQ p1 fun x y h => lDotS_conserves 1 x y (right_ne_zero_of_mul h),
    oneBody_turn hQ p2 fun x y h => lDotS_conserves 2 x y (right_ne_zero_of_mul h), shellNumber_turn hQ p2, shellNumber_turn hQ p1, hh]
  unfold turn
  ring

include hQ in
/-- The rotation maps the dipole operator for y polarisation to that for x polarisation. -/
theorem dipole_turn (gaunt : ℕ → ℕ → ℕ → ℤ → ℤ → ℤ → ℝ) (v : Vec ℂ) (F : Finset ℕ) :
    dipolePD gaunt b ⟨1, 0, 0⟩ (turn χ v) F = turn χ (dipolePD gaunt b ⟨0, 1, 0⟩ v) F := by
  unfold dipolePD between
  conv_rhs => unfold turn
  simp only [Finset.mul_sum]
  refine Finset.sum_congr rfl fun s hs => Finset.sum_congr rfl fun m hm => Finset.sum_congr rfl fun m' hm' => ?_
  rw [quarter_hop hQ (by simp) (by simp) hs hs hm hm']
  have e : dipole gaunt 1 0 0 2 m 1 m' * Complex.I ^ (m' + s - (m + s)) = dipole gaunt 0 1 0 2 m 1 m' := by
    unfold dipole c1
    by_cases h1 : m - m' = -1
    · rw [if_pos h1, if_neg (by omega), if_neg (by omega), show m' + s - (m + s) = 1 by omega, zpow_one]
      ring
    · by_cases h2 : m - m' = 1
      · rw [if_neg h1, if_pos h2, if_neg (by omega), show m' + s - (m + s) = -1 by omega, zpow_neg_one, Complex.inv_I]
        ring
      · rw [if_neg h1, if_neg h2]
        ring
  rw [← mul_assoc, e]
  unfold turn
  ring

end

/-! ### The diagonal rotation as a symmetry -/

section
variable {χ : ℕ → ℂ} (hχ : ∀ i, ‖χ i‖ = 1) {op : Op ℕ ℂ} (hop : CommutesTurn χ (operator (opSpec op)))

include hop in
theorem matrixElement_turn (S T : Finset ℕ) :
    matrixElement op S T * ∏ i ∈ T, χ i = (∏ i ∈ S, χ i) * matrixElement op S T := by
  have h := hop (Spec.single T 1) S
  have e : turn χ (Spec.single T 1) = (∏ i ∈ T, χ i) • Spec.single T 1 := by
    funext F
    simp only [turn, Spec.single, Pi.smul_apply, smul_eq_mul]
    split
    · rename_i h; rw [h]
    · simp
  rw [e] at h
  replace h := (operator_smul _ _ _ _).symm.trans h
  unfold matrixElement
  rw [mul_comm]
  exact h

include hop in
theorem storedElement_turn (cut : ℝ) (S T : Finset ℕ) :
    storedElement op cut S T * ∏ i ∈ T, χ i = (∏ i ∈ S, χ i) * storedElement op cut S T := by
  unfold storedElement
  split
  · exact matrixElement_turn hop S T
  · simp

include hop in
theorem column_turn (cut : ℝ) (r : Option Restrictions) (S T : Finset ℕ) :
    column op cut r T S * ∏ i ∈ T, χ i = (∏ i ∈ S, χ i) * column op cut r T S := by
  unfold column
  split
  · exact matrixElement_turn hop S T
  · simp

include hop in
theorem hamiltonian_turn (n : ℕ) (cut : ℝ) (r : Option Restrictions) (v : Vec ℂ) :
    hamiltonian n op cut r (turn χ v) = turn χ (hamiltonian n op cut r v) := by
  funext F
  unfold hamiltonian turn
  by_cases h : F ⊆ range n
  · simp only [if_pos h]
    rw [Finset.mul_sum]
    refine Finset.sum_congr rfl fun T _ => ?_
    rw [← mul_assoc, column_turn hop, mul_assoc]
  · simp only [if_neg h, mul_zero]

include hχ in
theorem turn_star_turn (v : Vec ℂ) : turn (fun i => star (χ i)) (turn χ v) = v := by
  funext F
  unfold turn
  rw [← mul_assoc, phase_mul hχ, one_mul]

include hχ in
theorem turn_turn_star (v : Vec ℂ) : turn χ (turn (fun i => star (χ i)) v) = v := by
  funext F
  unfold turn
  rw [← mul_assoc, mul_comm (∏ i ∈ F, χ i), phase_mul hχ, one_mul]

include hχ in
theorem turn_inner (s : Finset (Finset ℕ)) (v w : Vec ℂ) :
    ∑ S ∈ s, star (turn χ v S) * turn χ w S = ∑ S ∈ s, star (v S) * w S := by
  refine Finset.sum_congr rfl fun S _ => ?_
  unfold turn
  rw [star_mul, star_prod]
  linear_combination star (v S) * w S * phase_mul hχ S

include hχ hop in
theorem turn_symmetry (n : ℕ) (cut : ℝ) (r : Option Restrictions) :
    IsSymmetry n (hamiltonian n op cut r) (turn χ) (turn fun i => star (χ i)) ∧
    IsSymmetry n (hamiltonian n op cut r) (turn fun i => star (χ i)) (turn χ) := by
  have hl : ∀ (ξ : ℕ → ℂ) (v w : Vec ℂ), (∀ F ⊆ range n, v F = w F) → ∀ F ⊆ range n, turn ξ v F = turn ξ w F := by
    intro ξ v w h F hF
    unfold turn
    rw [h F hF]
  have hs : ∀ (ξ : ℕ → ℂ) (v : Vec ℂ), (∀ F, ¬ F ⊆ range n → v F = 0) → ∀ F, ¬ F ⊆ range n → turn ξ v F = 0 := by
    intro ξ v h F hF
    unfold turn
    rw [h F hF, mul_zero]
  have h : IsSymmetry n (hamiltonian n op cut r) (turn χ) (turn fun i => star (χ i)) :=
    ⟨turn_linear _, turn_linear _, turn_star_turn hχ, turn_turn_star hχ, fun v w => turn_inner hχ _ v w,
      hamiltonian_turn hop n cut r, hl χ, hs χ⟩
  exact ⟨h, h.symm (hl _) (hs _)⟩

include hχ hop in
theorem turn_lowest {s : Finset (Finset ℕ)} {cut : ℝ} {es : List ℝ} {x : ℕ → Finset ℕ → ℂ}
    (H : LowestIn s (storedElement op cut) es x) : LowestIn s (storedElement op cut) es fun i => turn χ (x i) := by
  refine H.map_symmetry (R' := turn fun i => star (χ i)) (fun c v => (turn_linear χ).map_smul c v) (fun v w h S hS => ?_)
    (turn_inner hχ s) (fun v S _ => by rw [turn_turn_star hχ]) fun v S _ => ?_
  · unfold turn
    rw [h S hS]
  · unfold turn
    rw [Finset.mul_sum]
    refine Finset.sum_congr rfl fun T _ => ?_
    rw [← mul_assoc, storedElement_turn hop, mul_assoc]

end

end

end Verif
