/-
C33–C37: density matrices, expectation values, angular momentum operators,
cubic harmonics.
-/
import Verif.Spec.Cubic
import Verif.Lemmas.CubicOcc
import Mathlib.LinearAlgebra.UnitaryGroup

set_option linter.unusedSectionVars false
set_option linter.unusedSimpArgs false
set_option linter.unusedTactic false
set_option linter.unreachableTactic false

namespace Verif

open Spec Finset

/-! ### a concrete system: a d shell with one bath state -/

def exObsBaths : Dict ℕ ℕ := [(2, 1)]

theorem exObsBaths_nodup : Dict.NodupKeys exObsBaths := by decide

theorem exObsBaths_mem : 2 ∈ Dict.keys exObsBaths := by decide

/-- `3 |{0}⟩ + 4i |{6}⟩`. -/
noncomputable def exObsPsi : Psi ℂ := [(encBytes 11 {0}, 3), (encBytes 11 {6}, 4 * Complex.I)]

theorem exObsPsi_state : IsState (nSpinOrbitals exObsBaths) exObsPsi := by
  have h : nSpinOrbitals exObsBaths = 11 := by decide
  rw [h]
  refine ⟨by unfold Dict.NodupKeys Dict.keys exObsPsi; simp only [List.map_cons, List.map_nil]; decide +kernel, ?_⟩
  intro k hk
  simp only [Dict.keys, exObsPsi, List.map_cons, List.map_nil, List.mem_cons, List.not_mem_nil, or_false] at hk
  rcases hk with rfl | rfl
  · exact ⟨{0}, by decide, rfl⟩
  · exact ⟨{6}, by decide, rfl⟩

section
variable (nBaths : Dict ℕ ℕ) (hn : Dict.NodupKeys nBaths) (l : ℕ) (hl : l ∈ Dict.keys nBaths)
  (psi : Psi ℂ) (hpsi : IsState (nSpinOrbitals nBaths) psi)
include hn hl hpsi

theorem norm2_normSq' : norm2 psi = normSq (nSpinOrbitals nBaths) (ampl (nSpinOrbitals nBaths) psi) :=
  norm2_eq hpsi

/-- C33, the elements.  `getDensityMatrix` returns a dict with distinct keys
whose element `((l,s,m),(l,s',m'))` is `⟨psi| c†_{ls'm'} c_{lsm} |psi⟩`; exactly
the non-zero elements of the shell are stored. -/
theorem C33_elements : ∃ dm, getDensityMatrix nBaths psi l = .ok dm ∧ Dict.NodupKeys dm ∧
    (∀ x ∈ shell l, ∀ y ∈ shell l, (Dict.get? dm (.imp l x.1 x.2, .imp l y.1 y.2)).getD 0
      = correl (nSpinOrbitals nBaths) (ampl (nSpinOrbitals nBaths) psi)
          (position (intKeys nBaths) (.imp l x.1 x.2)) (position (intKeys nBaths) (.imp l y.1 y.2))) ∧
    (∀ k v, Dict.get? dm k = some v → v ≠ 0 ∧
      ∃ x ∈ shell l, ∃ y ∈ shell l, k = (.imp l x.1 x.2, .imp l y.1 y.2)) := by
  classical
  obtain ⟨dm, h1, h2, h3⟩ := getDensityMatrix_spec hn hl hpsi
  refine ⟨dm, h1, h2, ?_, ?_⟩
  · intro x hx y hy
    rw [h3]
    by_cases hv : dmVal nBaths psi (.imp l x.1 x.2, .imp l y.1 y.2) = 0
    · rw [if_neg (fun h => h.2 hv)]
      exact hv.symm
    · rw [if_pos ⟨⟨x, hx, y, hy, rfl⟩, hv⟩]
      rfl
  · intro k v hv
    rw [h3] at hv
    split at hv
    · next h =>
      cases hv
      exact ⟨h.2, h.1⟩
    · cases hv

/-- C33, Hermiticity, also of the set of stored elements. -/
theorem C33_hermitian (dm : DensityMatrix) (h : getDensityMatrix nBaths psi l = .ok dm) (a b : Label) :
    Dict.get? dm (b, a) = (Dict.get? dm (a, b)).map star := by
  classical
  obtain ⟨dm', h1, _, h3⟩ := getDensityMatrix_spec hn hl hpsi
  rw [h] at h1
  cases h1
  rw [h3, h3]
  by_cases hk : ∃ x ∈ shell l, ∃ y ∈ shell l, (a, b) = (Label.imp l x.1 x.2, Label.imp l y.1 y.2)
  · obtain ⟨x, hx, y, hy, e⟩ := hk
    cases e
    have hs : dmVal nBaths psi (.imp l y.1 y.2, .imp l x.1 x.2)
        = star (dmVal nBaths psi (.imp l x.1 x.2, .imp l y.1 y.2)) :=
      (correl_star (pos_lt hn hl hx) (pos_lt hn hl hy) _).symm
    by_cases hv : dmVal nBaths psi (.imp l x.1 x.2, .imp l y.1 y.2) = 0
    · rw [if_neg (fun h => h.2 (by rw [hs, hv, star_zero])), if_neg (fun h => h.2 hv)]
      rfl
    · rw [if_pos ⟨⟨y, hy, x, hx, rfl⟩, by rw [hs]; simpa using hv⟩, if_pos ⟨⟨x, hx, y, hy, rfl⟩, hv⟩, hs]
      rfl
  · have hk' : ¬ ∃ x ∈ shell l, ∃ y ∈ shell l, (b, a) = (Label.imp l x.1 x.2, Label.imp l y.1 y.2) := by
      rintro ⟨x, hx, y, hy, e⟩
      cases e
      exact hk ⟨y, hy, x, hx, rfl⟩
    rw [if_neg (fun h => hk' h.1), if_neg (fun h => hk h.1)]
    rfl

/-- C33, the diagonal: real, between `0` and `⟨psi|psi⟩`, and its sum is what
`getTraceDensityMatrix` returns. -/
theorem C33_diagonal (dm : DensityMatrix) (h : getDensityMatrix nBaths psi l = .ok dm) :
    (∀ x ∈ shell l, ∃ r : ℝ, (Dict.get? dm (.imp l x.1 x.2, .imp l x.1 x.2)).getD 0 = (r : ℂ) ∧
      0 ≤ r ∧ r ≤ norm2 psi) ∧
    ∃ t : ℝ, getTraceDensityMatrix nBaths psi l = .ok t ∧
      (t : ℂ) = ∑ x ∈ shell l, (Dict.get? dm (.imp l x.1 x.2, .imp l x.1 x.2)).getD 0 := by
  obtain ⟨dm', h1, _, h3, _⟩ := C33_elements nBaths hn l hl psi hpsi
  rw [h] at h1
  cases h1
  constructor
  · intro x hx
    refine ⟨_, (h3 x hx x hx).trans (correl_self _ _ _), ?_, ?_⟩
    · exact sum_nonneg fun S _ => by split; exacts [Complex.normSq_nonneg _, le_refl _]
    · rw [norm2_normSq' nBaths hn l hl psi hpsi]
      refine sum_le_sum fun S _ => ?_
      split
      · exact le_refl _
      · exact Complex.normSq_nonneg _
  · refine ⟨_, getTraceDensityMatrix_spec hn hl hpsi, ?_⟩
    rw [sum_congr rfl fun x hx => (h3 x hx x hx).trans (correl_self _ _ _), ← Complex.ofReal_sum]
    congr 1
    rw [sum_comm]
    refine sum_congr rfl fun S _ => ?_
    rw [sum_mul]
    refine sum_congr rfl fun x _ => ?_
    split <;> simp

/-- C33, every orbital of the shell has an occupation between `0` and
`⟨psi|psi⟩`, not only the ones of the basis: for coefficients `u`, the density
matrix gives the occupation `∑ u_y u_x^* n_xy ∈ [0, (∑|u|²) ⟨psi|psi⟩]`. -/
theorem C33_occupation_bounds (dm : DensityMatrix) (h : getDensityMatrix nBaths psi l = .ok dm)
    (u : ℤ × ℤ → ℂ) :
    ∃ r : ℝ, ∑ y ∈ shell l, ∑ x ∈ shell l, u y * star (u x) *
        (Dict.get? dm (.imp l x.1 x.2, .imp l y.1 y.2)).getD 0 = (r : ℂ) ∧
      0 ≤ r ∧ r ≤ (∑ x ∈ shell l, Complex.normSq (u x)) * norm2 psi := by
  obtain ⟨dm', h1, _, h3, _⟩ := C33_elements nBaths hn l hl psi hpsi
  rw [h] at h1
  cases h1
  have e1 : ∑ y ∈ shell l, ∑ x ∈ shell l, u y * star (u x) *
        (Dict.get? dm (.imp l x.1 x.2, .imp l y.1 y.2)).getD 0
      = ∑ y ∈ shell l, ∑ x ∈ shell l, u y * star (u x) *
        correl (nSpinOrbitals nBaths) (ampl (nSpinOrbitals nBaths) psi)
          (pos nBaths (.imp l x.1 x.2)) (pos nBaths (.imp l y.1 y.2)) :=
    sum_congr rfl fun y hy => sum_congr rfl fun x hx => by rw [h3 x hx y hy]
  rw [e1, sum_correl (shell l) (fun x => pos nBaths (.imp l x.1 x.2)) (fun k hk => pos_lt hn hl hk),
    innerProduct_self]
  refine ⟨_, rfl, normSq_nonneg _ _, ?_⟩
  rw [norm2_normSq' nBaths hn l hl psi hpsi]
  exact annihilateIn_le (fun k hk => pos_lt hn hl hk) (fun x hx y hy e => pos_inj hn hl hx hy e) u _

end

example : ∃ dm, getDensityMatrix exObsBaths exObsPsi 2 = .ok dm ∧
    ∀ a b, Dict.get? dm (b, a) = (Dict.get? dm (a, b)).map star := by
  obtain ⟨dm, h, _⟩ := C33_elements exObsBaths exObsBaths_nodup 2 exObsBaths_mem exObsPsi exObsPsi_state
  exact ⟨dm, h, C33_hermitian exObsBaths exObsBaths_nodup 2 exObsBaths_mem exObsPsi exObsPsi_state dm h⟩

section
variable (nBaths : Dict ℕ ℕ) (hn : Dict.NodupKeys nBaths) (hl : 2 ∈ Dict.keys nBaths)
  (psi : Psi ℂ) (hpsi : IsState (nSpinOrbitals nBaths) psi)
include hn hl hpsi

/-! ### C34, C35: angular momentum -/

/-- C35, what the six functions do: they apply the second-quantised spin and
orbital momentum of the d shell, `∑ ⟨x|A|y⟩ c†_x c_y`. -/
theorem C35_meaning (A : Dict ℕ ℕ → Psi ℂ → Py (Psi ℂ)) (M : ℤ × ℤ → ℤ × ℤ → ℂ)
    (hA : (A, M) ∈ [(applySz3d, spinOp sZ), (applySplus3d, spinOp sPlus), (applySminus3d, spinOp sMinus),
      (applyLz3d, orbOp lZ), (applyLplus3d, orbOp (lPlus 2)), (applyLminus3d, orbOp (lMinus 2))]) :
    ∃ psi', A nBaths psi = .ok psi' ∧ IsState (nSpinOrbitals nBaths) psi' ∧
      ampl (nSpinOrbitals nBaths) psi'
        = oneBody (position (intKeys nBaths)) 2 M (ampl (nSpinOrbitals nBaths) psi) := by
  simp only [List.mem_cons, Prod.mk.injEq, List.not_mem_nil, or_false] at hA
  rcases hA with ⟨rfl, rfl⟩ | ⟨rfl, rfl⟩ | ⟨rfl, rfl⟩ | ⟨rfl, rfl⟩ | ⟨rfl, rfl⟩ | ⟨rfl, rfl⟩
  · exact applySz3d_spec hn hl hpsi
  · exact applySplus3d_spec hn hl hpsi
  · exact applySminus3d_spec hn hl hpsi
  · exact applyLz3d_spec hn hl hpsi
  · exact applyLplus3d_spec hn hl hpsi
  · exact applyLminus3d_spec hn hl hpsi

/-- C34.  `getLz3d` and `getSz3d` are the expectation values of the operators
that `applyLz3d` and `applySz3d` apply; in particular real. -/
theorem C34_expectation :
    (∃ (r : ℝ) (psi' : Psi ℂ), getLz3d nBaths psi = .ok r ∧ applyLz3d nBaths psi = .ok psi' ∧
      inner psi psi' = (r : ℂ)) ∧
    (∃ (r : ℝ) (psi' : Psi ℂ), getSz3d nBaths psi = .ok r ∧ applySz3d nBaths psi = .ok psi' ∧
      inner psi psi' = (r : ℂ)) := by
  constructor
  · obtain ⟨p, h1, s1, a1⟩ := applyLz3d_spec hn hl hpsi
    refine ⟨_, p, getLz3d_spec hn hpsi hl, h1, ?_⟩
    rw [inner_eq s1, a1, oneBody_diag (pos nBaths) 2 (orbOp lZ) (fun x : ℤ × ℤ => ((x.2 : ℝ) : ℂ))]
    · exact sum_diag (nSpinOrbitals nBaths) (shell 2) (fun x : ℤ × ℤ => pos nBaths (.imp 2 x.1 x.2))
        (fun x : ℤ × ℤ => (x.2 : ℝ)) (ampl (nSpinOrbitals nBaths) psi)
    · intro x _ y _
      unfold orbOp lZ delta
      simp only [Prod.ext_iff]
      by_cases h1 : x.1 = y.1 <;> by_cases h2 : x.2 = y.2 <;> simp [h1, h2]
  · obtain ⟨p, h1, s1, a1⟩ := applySz3d_spec hn hl hpsi
    refine ⟨_, p, getSz3d_spec hn hpsi hl, h1, ?_⟩
    rw [inner_eq s1, a1, oneBody_diag (pos nBaths) 2 (spinOp sZ) (fun x : ℤ × ℤ => ((if x.1 = 0 then -1 / 2 else 1 / 2 : ℝ) : ℂ))]
    · exact sum_diag (nSpinOrbitals nBaths) (shell 2) (fun x : ℤ × ℤ => pos nBaths (.imp 2 x.1 x.2))
        (fun x : ℤ × ℤ => (if x.1 = 0 then -1 / 2 else 1 / 2 : ℝ)) (ampl (nSpinOrbitals nBaths) psi)
    · intro x hx y hy
      rw [mem_shell] at hx hy
      unfold spinOp sZ delta
      simp only [Prod.ext_iff]
      by_cases h1 : x.1 = y.1 <;> by_cases h2 : x.2 = y.2 <;> rcases hx.1 with h | h <;>
        rcases hy.1 with h' | h' <;> simp [h2, h, h']

/-- C34, the values: the mean over the product states, with weights `|psi_S|²`, of
the sum of `m` (of `±1/2`) over the occupied spin-orbitals of the d shell. -/
theorem C34_mean (c : ℤ × ℤ → ℝ) (G : Dict ℕ ℕ → Psi ℂ → Py ℝ)
    (hG : (G, c) ∈ [(getLz3d, fun x : ℤ × ℤ => (x.2 : ℝ)),
      (getSz3d, fun x : ℤ × ℤ => if x.1 = 0 then -1 / 2 else 1 / 2)]) :
    G nBaths psi = .ok (∑ S ∈ (range (nSpinOrbitals nBaths)).powerset,
      (∑ x ∈ shell 2, if position (intKeys nBaths) (.imp 2 x.1 x.2) ∈ S then c x else 0)
        * Complex.normSq (ampl (nSpinOrbitals nBaths) psi S)) := by
  simp only [List.mem_cons, Prod.mk.injEq, List.not_mem_nil, or_false] at hG
  rcases hG with ⟨rfl, rfl⟩ | ⟨rfl, rfl⟩
  · exact getLz3d_spec hn hpsi hl
  · exact getSz3d_spec hn hpsi hl

end

/-- C35, adjoints: `S₊† = S₋`, `L₊† = L₋`, `Sz† = Sz`, `Lz† = Lz`. -/
theorem C35_adjoint (nBaths : Dict ℕ ℕ) (hn : Dict.NodupKeys nBaths) (hl : 2 ∈ Dict.keys nBaths)
    (phi psi : Psi ℂ) (hphi : IsState (nSpinOrbitals nBaths) phi)
    (hpsi : IsState (nSpinOrbitals nBaths) psi) (A B : Dict ℕ ℕ → Psi ℂ → Py (Psi ℂ))
    (hAB : (A, B) ∈ [(applySplus3d, applySminus3d), (applySminus3d, applySplus3d),
      (applyLplus3d, applyLminus3d), (applyLminus3d, applyLplus3d), (applySz3d, applySz3d),
      (applyLz3d, applyLz3d)]) :
    ∃ psi' phi', A nBaths psi = .ok psi' ∧ B nBaths phi = .ok phi' ∧ inner phi psi' = inner phi' psi := by
  have key : ∀ (M N : ℤ × ℤ → ℤ × ℤ → ℂ), (∀ x y, star (M y x) = N x y) →
      (∃ psi', A nBaths psi = .ok psi' ∧ IsState (nSpinOrbitals nBaths) psi' ∧
        ampl (nSpinOrbitals nBaths) psi' = oneBody (pos nBaths) 2 M (ampl (nSpinOrbitals nBaths) psi)) →
      (∃ phi', B nBaths phi = .ok phi' ∧ IsState (nSpinOrbitals nBaths) phi' ∧
        ampl (nSpinOrbitals nBaths) phi' = oneBody (pos nBaths) 2 N (ampl (nSpinOrbitals nBaths) phi)) →
      ∃ psi' phi', A nBaths psi = .ok psi' ∧ B nBaths phi = .ok phi' ∧ inner phi psi' = inner phi' psi := by
    rintro M N hMN ⟨p, h1, s1, a1⟩ ⟨q, h2, s2, a2⟩
    refine ⟨p, q, h1, h2, ?_⟩
    rw [inner_eq s1, inner_eq hpsi, a1, a2, innerProduct_oneBody (fun x hx => pos_lt hn hl hx)]
    simp only [hMN]
  simp only [List.mem_cons, Prod.mk.injEq, List.not_mem_nil, or_false] at hAB
  rcases hAB with ⟨rfl, rfl⟩ | ⟨rfl, rfl⟩ | ⟨rfl, rfl⟩ | ⟨rfl, rfl⟩ | ⟨rfl, rfl⟩ | ⟨rfl, rfl⟩
  · exact key _ _ (fun x y => by rw [spinOp_star]; simp only [sPlus_star])
      (applySplus3d_spec hn hl hpsi) (applySminus3d_spec hn hl hphi)
  · exact key _ _ (fun x y => by rw [spinOp_star]; simp only [sMinus_star])
      (applySminus3d_spec hn hl hpsi) (applySplus3d_spec hn hl hphi)
  · exact key _ _ (fun x y => by rw [orbOp_star]; simp only [lPlus_star])
      (applyLplus3d_spec hn hl hpsi) (applyLminus3d_spec hn hl hphi)
  · exact key _ _ (fun x y => by rw [orbOp_star]; simp only [lMinus_star])
      (applyLminus3d_spec hn hl hpsi) (applyLplus3d_spec hn hl hphi)
  · exact key _ _ (fun x y => by rw [spinOp_star]; simp only [sZ_star])
      (applySz3d_spec hn hl hpsi) (applySz3d_spec hn hl hphi)
  · exact key _ _ (fun x y => by rw [orbOp_star]; simp only [lZ_star])
      (applyLz3d_spec hn hl hpsi) (applyLz3d_spec hn hl hphi)

theorem algebra_of_matrices (n : ℕ) (f : Label → ℕ)
    (hf : ∀ x ∈ shell 2, ∀ y ∈ shell 2, f (.imp 2 x.1 x.2) = f (.imp 2 y.1 y.2) → x = y)
    (Jz Jp Jm : Psi ℂ → Py (Psi ℂ)) (Z P M : ℤ × ℤ → ℤ × ℤ → ℂ)
    (hz : ∀ psi, IsState n psi → ∃ psi', Jz psi = .ok psi' ∧ IsState n psi' ∧ ampl n psi' = oneBody f 2 Z (ampl n psi))
    (hp : ∀ psi, IsState n psi → ∃ psi', Jp psi = .ok psi' ∧ IsState n psi' ∧ ampl n psi' = oneBody f 2 P (ampl n psi))
    (hm : ∀ psi, IsState n psi → ∃ psi', Jm psi = .ok psi' ∧ IsState n psi' ∧ ampl n psi' = oneBody f 2 M (ampl n psi))
    (e1 : ∀ x ∈ shell 2, ∀ z ∈ shell 2, mmul 2 P M x z - mmul 2 M P x z = 2 * Z x z)
    (e2 : ∀ x ∈ shell 2, ∀ z ∈ shell 2, mmul 2 Z P x z - mmul 2 P Z x z = P x z)
    (e3 : ∀ x ∈ shell 2, ∀ z ∈ shell 2, mmul 2 Z M x z - mmul 2 M Z x z = - M x z) :
    AngularMomentumAlgebra n Jz Jp Jm := by
  intro psi hpsi
  obtain ⟨z, z1, z2, z3⟩ := hz psi hpsi
  obtain ⟨p, p1, p2, p3⟩ := hp psi hpsi
  obtain ⟨m, m1, m2, m3⟩ := hm psi hpsi
  obtain ⟨pm, a1, _, a3⟩ := hp m m2
  obtain ⟨mp, b1, _, b3⟩ := hm p p2
  obtain ⟨zp, c1, _, c3⟩ := hz p p2
  obtain ⟨pz, d1, _, d3⟩ := hp z z2
  obtain ⟨zm, f1, _, f3⟩ := hz m m2
  obtain ⟨mz, g1, _, g3⟩ := hm z z2
  refine ⟨z, p, m, pm, mp, zp, pz, zm, mz, z1, p1, m1, a1, b1, c1, d1, f1, g1, fun S => ⟨?_, ?_, ?_⟩⟩
  · rw [a3, b3, p3, m3, z3, oneBody_commutator hf, oneBody_congr e1]
    unfold oneBody
    rw [mul_sum]
    exact sum_congr rfl fun _ _ => by ring
  · rw [c3, d3, p3, z3, oneBody_commutator hf, oneBody_congr e2]
  · rw [f3, g3, m3, z3, oneBody_commutator hf, oneBody_congr e3]
    unfold oneBody
    rw [← sum_neg_distrib]
    exact sum_congr rfl fun _ _ => by ring

/-- C35, the commutators: `(Sz, S₊, S₋)` and `(Lz, L₊, L₋)` are angular momenta. -/
theorem C35_commutators (nBaths : Dict ℕ ℕ) (hn : Dict.NodupKeys nBaths) (hl : 2 ∈ Dict.keys nBaths) :
    AngularMomentumAlgebra (nSpinOrbitals nBaths) (applySz3d nBaths) (applySplus3d nBaths)
      (applySminus3d nBaths) ∧
    AngularMomentumAlgebra (nSpinOrbitals nBaths) (applyLz3d nBaths) (applyLplus3d nBaths)
      (applyLminus3d nBaths) := by
  constructor
  · exact algebra_of_matrices _ (pos nBaths) (fun x hx y hy => pos_inj hn hl hx hy) _ _ _ _ _ _
      (fun psi h => applySz3d_spec hn hl h) (fun psi h => applySplus3d_spec hn hl h)
      (fun psi h => applySminus3d_spec hn hl h) (fun x hx z hz => spin_pm hx hz)
      (fun x hx z hz => spin_zp hx hz) (fun x hx z hz => spin_zm hx hz)
  · exact algebra_of_matrices _ (pos nBaths) (fun x hx y hy => pos_inj hn hl hx hy) _ _ _ _ _ _
      (fun psi h => applyLz3d_spec hn hl h) (fun psi h => applyLplus3d_spec hn hl h)
      (fun psi h => applyLminus3d_spec hn hl h) (fun x hx z hz => orb_pm hx hz)
      (fun x hx z hz => orb_zp hx hz) (fun x hx z hz => orb_zm hx hz)

theorem norm2_complex {n : ℕ} {psi : Psi ℂ} (h : IsState n psi) : ((norm2 psi : ℝ) : ℂ) = inner psi psi := by
  rw [inner_eq h, innerProduct_self]
  exact congrArg _ (norm2_eq h)

/-- C35, the squares: `getSsqr3d = ⟨S₋S₊ + Sz² + Sz⟩` and
`getLsqr3d = ⟨L₋L₊ + Lz² + Lz⟩`. -/
theorem C35_squares (nBaths : Dict ℕ ℕ) (hn : Dict.NodupKeys nBaths) (hl : 2 ∈ Dict.keys nBaths)
    (psi : Psi ℂ) (hpsi : IsState (nSpinOrbitals nBaths) psi)
    (sq : Dict ℕ ℕ → Psi ℂ → Py ℝ) (Jz Jp Jm : Dict ℕ ℕ → Psi ℂ → Py (Psi ℂ))
    (h : (sq, Jz, Jp, Jm) ∈ [(getSsqr3d, applySz3d, applySplus3d, applySminus3d),
      (getLsqr3d, applyLz3d, applyLplus3d, applyLminus3d)]) :
    ∃ (r : ℝ) (z p mp zz : Psi ℂ), sq nBaths psi = .ok r ∧ Jz nBaths psi = .ok z ∧ Jz nBaths z = .ok zz ∧
      Jp nBaths psi = .ok p ∧ Jm nBaths p = .ok mp ∧
      (r : ℂ) = inner psi mp + inner psi zz + inner psi z := by
  have key : ∀ (Jz Jp Jm : Psi ℂ → Py (Psi ℂ)),
      AngularMomentumAlgebra (nSpinOrbitals nBaths) Jz Jp Jm →
      (∀ psi, IsState (nSpinOrbitals nBaths) psi → ∃ psi', Jz psi = .ok psi' ∧ IsState (nSpinOrbitals nBaths) psi') →
      (∀ psi, IsState (nSpinOrbitals nBaths) psi → ∃ psi', Jp psi = .ok psi' ∧ IsState (nSpinOrbitals nBaths) psi') →
      (∀ psi, IsState (nSpinOrbitals nBaths) psi → ∃ psi', Jm psi = .ok psi' ∧ IsState (nSpinOrbitals nBaths) psi') →
      (∀ a b a' b', IsState (nSpinOrbitals nBaths) a → IsState (nSpinOrbitals nBaths) b → Jz b = .ok b' →
        Jz a = .ok a' → inner a b' = inner a' b) →
      (∀ a b a' b', IsState (nSpinOrbitals nBaths) a → IsState (nSpinOrbitals nBaths) b → Jm b = .ok b' →
        Jp a = .ok a' → inner a b' = inner a' b) →
      (∀ a b a' b', IsState (nSpinOrbitals nBaths) a → IsState (nSpinOrbitals nBaths) b → Jp b = .ok b' →
        Jm a = .ok a' → inner a b' = inner a' b) →
      ∃ (z p m mp zz : Psi ℂ), Jz psi = .ok z ∧ Jz z = .ok zz ∧ Jp psi = .ok p ∧ Jm psi = .ok m ∧ Jm p = .ok mp ∧
        ((norm2 z + 1 / 2 * (norm2 p + norm2 m) : ℝ) : ℂ) = inner psi mp + inner psi zz + inner psi z := by
    intro Jz Jp Jm hal hz hp hm az am ap
    obtain ⟨z, p, m, pm, mp, _, _, _, _, z1, p1, m1, pm1, mp1, _, _, _, _, hS⟩ := hal psi hpsi
    obtain ⟨z', z1', zs⟩ := hz psi hpsi
    obtain ⟨p', p1', ps⟩ := hp psi hpsi
    obtain ⟨m', m1', ms⟩ := hm psi hpsi
    rw [z1] at z1'; cases z1'
    rw [p1] at p1'; cases p1'
    rw [m1] at m1'; cases m1'
    obtain ⟨zz, zz1, zzs⟩ := hz z zs
    obtain ⟨mp', mp1', mps⟩ := hm p ps
    obtain ⟨pm', pm1', pms⟩ := hp m ms
    rw [mp1] at mp1'; cases mp1'
    rw [pm1] at pm1'; cases pm1'
    refine ⟨z, p, m, mp, zz, z1, zz1, p1, m1, mp1, ?_⟩
    have e1 : inner psi zz = ((norm2 z : ℝ) : ℂ) := by
      rw [norm2_complex zs]; exact az psi z z zz hpsi zs zz1 z1
    have e2 : inner psi mp = ((norm2 p : ℝ) : ℂ) := by
      rw [norm2_complex ps]; exact am psi p p mp hpsi ps mp1 p1
    have e3 : inner psi pm = ((norm2 m : ℝ) : ℂ) := by
      rw [norm2_complex ms]; exact ap psi m m pm hpsi ms pm1 m1
    have e4 : inner psi pm = inner psi mp + 2 * inner psi z := by
      rw [inner_eq pms, inner_eq mps, inner_eq zs]
      unfold innerProduct
      rw [mul_sum, ← sum_add_distrib]
      refine sum_congr rfl fun S _ => ?_
      have := (hS S).1
      rw [sub_eq_iff_eq_add] at this
      rw [this]; ring
    push_cast
    rw [← e1, ← e2, ← e3, e4]
    ring
  have adj := fun (A B : Dict ℕ ℕ → Psi ℂ → Py (Psi ℂ)) hAB (a b a' b' : Psi ℂ)
      (ha : IsState (nSpinOrbitals nBaths) a) (hb : IsState (nSpinOrbitals nBaths) b)
      (h1 : A nBaths b = .ok b') (h2 : B nBaths a = .ok a') => show inner a b' = inner a' b by
    obtain ⟨p, q, e1, e2, e3⟩ := C35_adjoint nBaths hn hl a b ha hb A B hAB
    rw [h1] at e1; cases e1
    rw [h2] at e2; cases e2
    exact e3
  have st := fun (A : Dict ℕ ℕ → Psi ℂ → Py (Psi ℂ)) (M : ℤ × ℤ → ℤ × ℤ → ℂ) hA (a : Psi ℂ)
      (ha : IsState (nSpinOrbitals nBaths) a) => show ∃ a', A nBaths a = .ok a' ∧ IsState (nSpinOrbitals nBaths) a' by
    obtain ⟨a', h1, h2, _⟩ := C35_meaning nBaths hn hl a ha A M hA
    exact ⟨a', h1, h2⟩
  simp only [List.mem_cons, Prod.mk.injEq, List.not_mem_nil, or_false] at h
  rcases h with ⟨rfl, rfl, rfl, rfl⟩ | ⟨rfl, rfl, rfl, rfl⟩
  · obtain ⟨z, p, m, mp, zz, z1, zz1, p1, m1, mp1, e⟩ := key (applySz3d nBaths) (applySplus3d nBaths)
      (applySminus3d nBaths) (C35_commutators nBaths hn hl).1
      (st _ (spinOp sZ) (by simp)) (st _ (spinOp sPlus) (by simp)) (st _ (spinOp sMinus) (by simp))
      (adj _ _ (by simp)) (adj _ _ (by simp)) (adj _ _ (by simp))
    refine ⟨_, z, p, mp, zz, ?_, z1, zz1, p1, mp1, e⟩
    simp only [getSsqr3d, z1, p1, m1]
    rfl
  · obtain ⟨z, p, m, mp, zz, z1, zz1, p1, m1, mp1, e⟩ := key (applyLz3d nBaths) (applyLplus3d nBaths)
      (applyLminus3d nBaths) (C35_commutators nBaths hn hl).2
      (st _ (orbOp lZ) (by simp)) (st _ (orbOp (lPlus 2)) (by simp)) (st _ (orbOp (lMinus 2)) (by simp))
      (adj _ _ (by simp)) (adj _ _ (by simp)) (adj _ _ (by simp))
    refine ⟨_, z, p, mp, zz, ?_, z1, zz1, p1, mp1, e⟩
    simp only [getLsqr3d, z1, p1, m1]
    rfl

example : ∃ r, getSsqr3d exObsBaths exObsPsi = .ok r := by
  obtain ⟨r, _, _, _, _, h, _⟩ := C35_squares exObsBaths exObsBaths_nodup exObsBaths_mem exObsPsi exObsPsi_state
    getSsqr3d applySz3d applySplus3d applySminus3d (by simp)
  exact ⟨r, h⟩

/-! ### C36: cubic harmonics -/

/-- C36.  For p and d orbitals, with and without spin, the matrix from spherical
to cubic harmonics is unitary; for other `l` the function raises. -/
theorem C36_unitary (spinpol : Bool) (l : ℕ) :
    (l = 1 ∨ l = 2 → ∃ u, getSpherical2CubicMatrix spinpol l = .ok u ∧
      u.rows = (if spinpol then 2 else 1) * (2 * l + 1) ∧ u.cols = (if spinpol then 2 else 1) * (2 * l + 1) ∧
      (Matrix.of fun a b : Fin ((if spinpol then 2 else 1) * (2 * l + 1)) => u.val a b)
        ∈ Matrix.unitaryGroup (Fin ((if spinpol then 2 else 1) * (2 * l + 1))) ℂ) ∧
    (¬ (l = 1 ∨ l = 2) → getSpherical2CubicMatrix spinpol l = .error .unboundLocalError) := by
  have key : ∀ (u : CMat) (n : ℕ), IsUnitary u → u.cols = n →
      (Matrix.of fun a b : Fin n => u.val a b) ∈ Matrix.unitaryGroup (Fin n) ℂ := by
    intro u n hu hn
    rw [Matrix.mem_unitaryGroup_iff']
    ext a b
    rw [Matrix.mul_apply, Matrix.one_apply]
    have h1 := hu.2.1 a (by rw [hn]; exact a.2) b (by rw [hn]; exact b.2)
    rw [hu.1, hn, ← Fin.sum_univ_eq_sum_range (fun k => star (u.val k a) * u.val k b)] at h1
    have h2 : (a = b) = ((a : ℕ) = (b : ℕ)) := by simp [Fin.ext_iff]
    simp only [h2]
    exact h1
  constructor
  · rintro (rfl | rfl)
    · cases spinpol
      · exact ⟨cubicP, rfl, rfl, rfl, key _ _ unitary_cubicP rfl⟩
      · exact ⟨spinDouble cubicP, rfl, rfl, rfl, key _ _ (unitary_spinDouble unitary_cubicP) rfl⟩
    · cases spinpol
      · exact ⟨cubicD, rfl, rfl, rfl, key _ _ unitary_cubicD rfl⟩
      · exact ⟨spinDouble cubicD, rfl, rfl, rfl, key _ _ (unitary_spinDouble unitary_cubicD) rfl⟩
  · intro h
    have : cubicBase l = .error .unboundLocalError := by
      unfold cubicBase
      rw [if_neg (fun h' => h (Or.inl h')), if_neg (fun h' => h (Or.inr h'))]
    unfold getSpherical2CubicMatrix
    rw [this]
    rfl

/-- C36, which orbitals the columns are: for p orbitals `y`, `x`, `z`; for d
orbitals `2z²-x²-y²`, `x²-y²`, `yz`, `xz`, `xy`, as real functions of the
position, up to a real factor (`√2`, …; the factor of `yz` is negative). -/
theorem C36_columns (x y z : ℝ) :
    (∃ u, getSpherical2CubicMatrix false 1 = .ok u ∧
      (∀ b < 3, ∑ k ∈ range 3, u.val k b * solidP x y z ((k : ℤ) - 1)
        = ((Real.sqrt 2 * [y, x, z].getD b 0 : ℝ) : ℂ))) ∧
    (∃ u, getSpherical2CubicMatrix false 2 = .ok u ∧
      (∀ b < 5, ∑ k ∈ range 5, u.val k b * solidD x y z ((k : ℤ) - 2)
        = (([Real.sqrt (2 / 3) * (2 * z ^ 2 - x ^ 2 - y ^ 2), Real.sqrt 2 * (x ^ 2 - y ^ 2),
            -(2 * Real.sqrt 2) * (y * z), 2 * Real.sqrt 2 * (x * z), 2 * Real.sqrt 2 * (x * y)].getD b 0 : ℝ) : ℂ))) := by
  have hr : rsqrt2 = (Real.sqrt 2 : ℝ) / 2 := by
    unfold rsqrt2
    have : (1 / Real.sqrt 2 : ℝ) = Real.sqrt 2 / 2 := by
      rw [div_eq_div_iff (by positivity) (by norm_num), Real.mul_self_sqrt (by norm_num)]; norm_num
    rw [this]; push_cast; ring
  have hI := Complex.I_mul_I
  have hI2 := Complex.I_sq
  have hI3 : Complex.I ^ 3 = - Complex.I := by rw [pow_succ, Complex.I_sq]; ring
  constructor
  · refine ⟨cubicP, rfl, ?_⟩
    intro b hb
    simp only [sum_range_succ, sum_range_zero, cubicP_val 0 (by norm_num) _ hb, cubicP_val 1 (by norm_num) _ hb,
      cubicP_val 2 (by norm_num) _ hb, hr]
    norm_num
    interval_cases b <;> simp [solidP] <;> ring_nf <;> simp [hI2] <;> ring
  · refine ⟨cubicD, rfl, ?_⟩
    intro b hb
    simp only [sum_range_succ, sum_range_zero, cubicD_val 0 (by norm_num) _ hb, cubicD_val 1 (by norm_num) _ hb,
      cubicD_val 2 (by norm_num) _ hb, cubicD_val 3 (by norm_num) _ hb, cubicD_val 4 (by norm_num) _ hb, hr]
    norm_num
    interval_cases b <;> simp [solidD] <;> ring_nf <;> simp [hI2, hI3] <;> ring

/-! ### C37: occupations in cubic harmonics -/

section
variable (nBaths : Dict ℕ ℕ) (hn : Dict.NodupKeys nBaths) (hl : 2 ∈ Dict.keys nBaths)
  (psi : Psi ℂ) (hpsi : IsState (nSpinOrbitals nBaths) psi)

include hn hl hpsi

/-- C37, the density matrix in cubic harmonics: its elements are
`⟨psi| d†_{s'j} d_{si} |psi⟩` with the cubic orbitals `d`, which is the
density matrix in spherical harmonics transformed with the unitary matrix. -/
theorem C37_cubic_density : ∃ d u, getDensityMatrixCubic nBaths psi = .ok d ∧
    getSpherical2CubicMatrix false 2 = .ok u ∧
    ∀ i j : ℕ, i < 5 → j < 5 → ∀ s s' : ℤ, s = 0 ∨ s = 1 → s' = 0 ∨ s' = 1 →
      (∃ dm, getDensityMatrix nBaths psi 2 = .ok dm ∧
        (Dict.get? d ((s, (i : ℤ)), (s', (j : ℤ)))).getD 0
          = ∑ k ∈ range 5, ∑ m ∈ range 5, star (u.val m i) *
            (Dict.get? dm (.imp 2 s ((m : ℤ) - 2), .imp 2 s' ((k : ℤ) - 2))).getD 0 * u.val k j) ∧
      (Dict.get? d ((s, (i : ℤ)), (s', (j : ℤ)))).getD 0
        = innerProduct (nSpinOrbitals nBaths)
            (annihilateCubic nBaths u s' j (ampl (nSpinOrbitals nBaths) psi))
            (annihilateCubic nBaths u s i (ampl (nSpinOrbitals nBaths) psi)) := by
  obtain ⟨d, h1, h2⟩ := getDensityMatrixCubic_spec hn hl hpsi
  refine ⟨d, cubicD, h1, rfl, ?_⟩
  intro i j hi hj s s' hs hs'
  rw [h2 i j hi hj s s' hs hs']
  constructor
  · obtain ⟨dm, e1, _, e2, _⟩ := C33_elements nBaths hn 2 hl psi hpsi
    refine ⟨dm, e1, ?_⟩
    refine sum_congr rfl fun k hk => sum_congr rfl fun m hm => ?_
    rw [e2 _ (shell_row hs hm) _ (shell_row hs' hk)]
    rfl
  · unfold annihilateCubic annihilateIn
    rw [innerProduct_sum_left]
    refine sum_congr rfl fun k hk => ?_
    rw [innerProduct_sum_right]
    refine sum_congr rfl fun m hm => ?_
    rw [innerProduct_smul_right, innerProduct_smul_left]
    have hlt : pos nBaths (.imp 2 s' ((k : ℤ) - 2)) < nSpinOrbitals nBaths := pos_lt hn hl (shell_row hs' hk)
    rw [dmVal, correl_eq hlt]
    ring

/-- C37, the occupations: the four numbers are real and non-negative — each is
the sum over its cubic orbitals of `‖d psi‖²` — and they add up to the number of
d electrons that `getTraceDensityMatrix` returns. -/
theorem C37_occupations : ∃ u, getSpherical2CubicMatrix false 2 = .ok u ∧
    ∃ egDn egUp t2gDn t2gUp t : ℝ,
    getEgT2gOccupation nBaths psi = .ok [(egDn : ℂ), (egUp : ℂ), (t2gDn : ℂ), (t2gUp : ℂ)] ∧
    (egDn = cubicOccupation nBaths psi u 0 0 + cubicOccupation nBaths psi u 0 1 ∧
      egUp = cubicOccupation nBaths psi u 1 0 + cubicOccupation nBaths psi u 1 1 ∧
      t2gDn = cubicOccupation nBaths psi u 0 2 + cubicOccupation nBaths psi u 0 3
        + cubicOccupation nBaths psi u 0 4 ∧
      t2gUp = cubicOccupation nBaths psi u 1 2 + cubicOccupation nBaths psi u 1 3
        + cubicOccupation nBaths psi u 1 4) ∧
    0 ≤ egDn ∧ 0 ≤ egUp ∧ 0 ≤ t2gDn ∧ 0 ≤ t2gUp ∧
    getTraceDensityMatrix nBaths psi 2 = .ok t ∧ egDn + egUp + t2gDn + t2gUp = t := by
  obtain ⟨o, h1, h2⟩ := occLoop_val hn hl hpsi
  refine ⟨cubicD, rfl, ?_⟩
  let occ := cubicOccupation nBaths psi cubicD
  have hocc : ∀ s : ℤ, s = 0 ∨ s = 1 → ∀ i : ℕ, (∑ j ∈ range 5, ∑ k ∈ range 5, cubicD.val j i * star (cubicD.val k i) *
        dmVal nBaths psi (.imp 2 s ((k : ℤ) - 2), .imp 2 s ((j : ℤ) - 2))) = (occ s i : ℂ) := by
    intro s hs i
    refine (sum_correl (range 5) (fun k => posD nBaths s k)
      (fun k hk => pos_lt hn hl (shell_row hs hk)) (fun k => cubicD.val k i) (fun k => cubicD.val k i)
      (ampl (nSpinOrbitals nBaths) psi)).trans ?_
    rw [innerProduct_self]
    rfl
  have e1 : o.egDn = ((occ 0 0 + occ 0 1 : ℝ) : ℂ) := by
    have := h2 true true
    simp only [if_true, hocc 0 (Or.inl rfl)] at this
    refine this.trans ?_
    simp [sum_range_succ]
  have e2 : o.egUp = ((occ 1 0 + occ 1 1 : ℝ) : ℂ) := by
    have := h2 true false
    simp only [Bool.false_eq_true, if_false, hocc 1 (Or.inr rfl)] at this
    refine this.trans ?_
    simp [sum_range_succ]
  have e3 : o.t2gDn = ((occ 0 2 + occ 0 3 + occ 0 4 : ℝ) : ℂ) := by
    have := h2 false true
    simp only [if_true, hocc 0 (Or.inl rfl)] at this
    refine this.trans ?_
    simp [sum_range_succ]
  have e4 : o.t2gUp = ((occ 1 2 + occ 1 3 + occ 1 4 : ℝ) : ℂ) := by
    have := h2 false false
    simp only [Bool.false_eq_true, if_false, hocc 1 (Or.inr rfl)] at this
    refine this.trans ?_
    simp [sum_range_succ]
  have hrc : ∀ r : ℝ, realIfClose (r : ℂ) = (r : ℂ) := by
    intro r; unfold realIfClose; simp
  have hpos : ∀ s i, 0 ≤ occ s i := fun s i => normSq_nonneg _ _
  refine ⟨_, _, _, _, _, ?_, ⟨rfl, rfl, rfl, rfl⟩, ?_, ?_, ?_, ?_, getTraceDensityMatrix_spec hn hl hpsi, ?_⟩
  · unfold getEgT2gOccupation
    change (do let o ← _; return _ : Py _) = _
    rw [h1]
    change Except.ok [realIfClose o.egDn, realIfClose o.egUp, realIfClose o.t2gDn, realIfClose o.t2gUp] = _
    rw [e1, e2, e3, e4, hrc, hrc, hrc, hrc]
  · exact add_nonneg (hpos _ _) (hpos _ _)
  · exact add_nonneg (hpos _ _) (hpos _ _)
  · exact add_nonneg (add_nonneg (hpos _ _) (hpos _ _)) (hpos _ _)
  · exact add_nonneg (add_nonneg (hpos _ _) (hpos _ _)) (hpos _ _)
  · -- the trace
    obtain ⟨dm, d1, _, d2, _⟩ := C33_elements nBaths hn 2 hl psi hpsi
    obtain ⟨_, t, ht, htr⟩ := C33_diagonal nBaths hn 2 hl psi hpsi dm d1
    rw [getTraceDensityMatrix_spec hn hl hpsi] at ht
    have ht' := Except.ok.inj ht
    rw [ht']
    have hsum : ∀ s : ℤ, s = 0 ∨ s = 1 → ((∑ i ∈ range 5, occ s i : ℝ) : ℂ)
        = ∑ j ∈ range 5, dmVal nBaths psi (.imp 2 s ((j : ℤ) - 2), .imp 2 s ((j : ℤ) - 2)) := by
      intro s hs
      rw [Complex.ofReal_sum, sum_congr rfl fun i _ => (hocc s hs i).symm, sum_comm]
      refine sum_congr rfl fun j hj => ?_
      rw [sum_comm, sum_eq_single j]
      · rw [← sum_mul, (show ∑ i ∈ range 5, cubicD.val j i * star (cubicD.val j i) = _ from
          unitary_cubicD.2.2 j (mem_range.1 hj) j (mem_range.1 hj)), if_pos rfl, one_mul]
      · intro k hk hne
        rw [← sum_mul, (show ∑ i ∈ range 5, cubicD.val j i * star (cubicD.val k i) = _ from
          unitary_cubicD.2.2 j (mem_range.1 hj) k (mem_range.1 hk)), if_neg (Ne.symm hne), zero_mul]
      · intro h; exact absurd hj h
    have hshell : ∑ x ∈ shell 2, (Dict.get? dm (.imp 2 x.1 x.2, .imp 2 x.1 x.2)).getD 0
        = ∑ s ∈ ({0, 1} : Finset ℤ), ∑ j ∈ range 5,
          dmVal nBaths psi (.imp 2 s ((j : ℤ) - 2), .imp 2 s ((j : ℤ) - 2)) := by
      rw [sum_congr rfl fun x hx => d2 x hx x hx]
      unfold shell
      rw [sum_product]
      refine sum_congr rfl fun s _ => ?_
      refine sum_bij' (fun m _ => (m + 2).toNat) (fun j _ => (j : ℤ) - 2) ?_ ?_ ?_ ?_ ?_
      · intro m hm; rw [mem_Icc] at hm; rw [mem_range]; push_cast at hm; omega
      · intro j hj; rw [mem_range] at hj; rw [mem_Icc]; push_cast; omega
      · intro m hm; rw [mem_Icc] at hm; push_cast at hm ⊢; omega
      · intro j hj; omega
      · intro m hm
        rw [mem_Icc] at hm
        have : (((m + 2).toNat : ℕ) : ℤ) - 2 = m := by push_cast at hm ⊢; omega
        rw [this]
        rfl
    have : ((occ 0 0 + occ 0 1 + (occ 1 0 + occ 1 1) + (occ 0 2 + occ 0 3 + occ 0 4)
        + (occ 1 2 + occ 1 3 + occ 1 4) : ℝ) : ℂ) = (t : ℂ) := by
      rw [htr, hshell, sum_pair (by norm_num), ← hsum 0 (Or.inl rfl), ← hsum 1 (Or.inr rfl)]
      simp only [sum_range_succ, sum_range_zero]
      push_cast
      ring
    exact_mod_cast this

end

example : ∃ a b c d : ℝ, getEgT2gOccupation exObsBaths exObsPsi = .ok [(a : ℂ), (b : ℂ), (c : ℂ), (d : ℂ)] := by
  obtain ⟨_, _, a, b, c, d, _, h, _⟩ := C37_occupations exObsBaths exObsBaths_nodup exObsBaths_mem exObsPsi exObsPsi_state
  exact ⟨a, b, c, d, h⟩

end Verif
