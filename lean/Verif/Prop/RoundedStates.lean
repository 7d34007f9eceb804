/-
C101: rounding in norms, overlaps, occupations, moments and density matrices.
-/
import Verif.Lemmas.RoundedStates
import Verif.Prop.Rounded
import Verif.Prop.Observables

namespace Verif

open Spec Finset

noncomputable section

variable {u : ℝ} {fl : FloatOps} {absC : ℂ → ℝ}

/-- C101, norms.  The computed squared norm of a state with `K` product states has a relative error of at most `K + 3`
roundings: there is no cancellation, whatever the amplitudes are. -/
theorem C101_norm (hfl : Accurate u fl) (habs : AccurateAbs u absC) {n : ℕ} {psi : Psi ℂ} (hpsi : IsState n psi) :
    |roundedNorm2 fl absC psi - Spec.normSq n (ampl n psi)|
      ≤ relError u (psi.length + 3) * Spec.normSq n (ampl n psi) := by
  have := roundedNorm2_near hfl habs psi
  rwa [show (norm2 psi : ℝ) = Spec.normSq n (ampl n psi) from norm2_eq hpsi] at this

/-- C101, overlaps.  The computed overlap of two states is right up to `2 (K + 2)` roundings times the lengths of the
states, `K` the number of product states of the second one. -/
theorem C101_overlap (hfl : Accurate u fl) {n : ℕ} {a b : Psi ℂ} (ha : IsState n a) (hb : IsState n b) :
    ‖roundedInner fl a b - innerProduct n (ampl n a) (ampl n b)‖ ≤ 2 * relError u (b.length + 2) *
      (Real.sqrt (Spec.normSq n (ampl n a)) * Real.sqrt (Spec.normSq n (ampl n b))) := by
  rw [← inner_eq hb]
  refine (roundedInner_near hfl a b).trans (mul_le_mul_of_nonneg_left (overlap_terms_le ha hb) ?_)
  have := relError_nonneg hfl.nonneg (b.length + 2)
  linarith

section
variable {nBaths : Dict ℕ ℕ} (hn : Dict.NodupKeys nBaths) {psi : Psi ℂ} (hpsi : IsState (nSpinOrbitals nBaths) psi)
include hn hpsi

/-- C101, occupations.  The computed number of electrons of a shell has a relative error of at most `K + 4` roundings. -/
theorem C101_occupation (hfl : Accurate u fl) (habs : AccurateAbs u absC) {l : ℕ} (hl : l ∈ Dict.keys nBaths) :
    ∃ t t', getTraceDensityMatrix nBaths psi l = .ok t ∧ roundedTrace fl absC nBaths psi l = .ok t' ∧
      t = diagonalValue (nSpinOrbitals nBaths) (shellCount nBaths l) (ampl (nSpinOrbitals nBaths) psi) ∧
      |t' - t| ≤ relError u (psi.length + 4) * t := by
  obtain ⟨r, h1, h2⟩ := rounded_loop hfl habs hpsi
    (fun k => (do let nState ← countOfState nBaths l k; return (nState : ℝ))) (shellCount nBaths l)
    (fun S hS => by
      beta_reduce
      rw [count_spec hn hl S]
      simp only [bind, Except.bind, pure, Except.pure]
      unfold shellCount
      push_cast
      rfl)
  refine ⟨_, r, getTraceDensityMatrix_spec hn hl hpsi, ?_, rfl, ?_⟩
  · rw [← h1]
    unfold roundedTrace
    congr 1
    funext acc p
    cases countOfState nBaths l p.1 <;> rfl
  · have e : (fun S => |shellCount nBaths l S|) = shellCount nBaths l :=
      funext fun S => abs_of_nonneg (shellCount_nonneg nBaths l S)
    rw [e] at h2
    exact h2

/-- C101, the orbital moment: right up to `6 (K + 4)` roundings, times the squared norm. -/
theorem C101_orbital (hfl : Accurate u fl) (habs : AccurateAbs u absC) (hl : 2 ∈ Dict.keys nBaths) :
    ∃ t t', getLz3d nBaths psi = .ok t ∧ roundedLz3d fl absC nBaths psi = .ok t' ∧
      t = diagonalValue (nSpinOrbitals nBaths) (orbitalMoment nBaths) (ampl (nSpinOrbitals nBaths) psi) ∧
      |t' - t| ≤ relError u (psi.length + 4) *
        (6 * Spec.normSq (nSpinOrbitals nBaths) (ampl (nSpinOrbitals nBaths) psi)) := by
  obtain ⟨r, h1, h2⟩ := rounded_loop hfl habs hpsi (lzOfState nBaths) (orbitalMoment nBaths)
    fun S hS => lzOfState_spec hn hl hS
  exact ⟨_, r, getLz3d_spec hn hpsi hl, h1, rfl, h2.trans (mul_le_mul_of_nonneg_left
    (diagonalValue_le (orbitalMoment_le nBaths) _) (relError_nonneg hfl.nonneg _))⟩

/-- C101, the spin moment: right up to `5/2 (K + 4)` roundings, times the squared norm. -/
theorem C101_spin (hfl : Accurate u fl) (habs : AccurateAbs u absC) (hl : 2 ∈ Dict.keys nBaths) :
    ∃ t t', getSz3d nBaths psi = .ok t ∧ roundedSz3d fl absC nBaths psi = .ok t' ∧
      t = diagonalValue (nSpinOrbitals nBaths) (spinMoment nBaths) (ampl (nSpinOrbitals nBaths) psi) ∧
      |t' - t| ≤ relError u (psi.length + 4) *
        (5 / 2 * Spec.normSq (nSpinOrbitals nBaths) (ampl (nSpinOrbitals nBaths) psi)) := by
  obtain ⟨r, h1, h2⟩ := rounded_loop hfl habs hpsi (szOfState nBaths) (spinMoment nBaths)
    fun S hS => szOfState_spec hn hl hS
  exact ⟨_, r, getSz3d_spec hn hpsi hl, h1, rfl, h2.trans (mul_le_mul_of_nonneg_left
    (diagonalValue_le (spinMoment_le nBaths) _) (relError_nonneg hfl.nonneg _))⟩

/-- C101, density matrices.  Every element `⟨c†_y c_x⟩` is right up to `2 (K + 2)` roundings times the squared norm; no
element outside the shell appears. -/
theorem C101_density (hfl : Accurate u fl) {l : ℕ} (hl : l ∈ Dict.keys nBaths) :
    ∃ dm', roundedDensityMatrix fl nBaths psi l = .ok dm' ∧
      (∀ x ∈ shell l, ∀ y ∈ shell l,
        ‖(Dict.get? dm' (.imp l x.1 x.2, .imp l y.1 y.2)).getD 0
            - correl (nSpinOrbitals nBaths) (ampl (nSpinOrbitals nBaths) psi)
              (position (intKeys nBaths) (.imp l x.1 x.2)) (position (intKeys nBaths) (.imp l y.1 y.2))‖
          ≤ 2 * relError u (psi.length + 2) *
            Spec.normSq (nSpinOrbitals nBaths) (ampl (nSpinOrbitals nBaths) psi)) ∧
      ∀ k v, Dict.get? dm' k = some v → ∃ x ∈ shell l, ∃ y ∈ shell l, k = (.imp l x.1 x.2, .imp l y.1 y.2) := by
  classical
  obtain ⟨dm, h1, _, h3⟩ := roundedDensityMatrix_spec hn hl hpsi hfl
  refine ⟨dm, h1, fun x hx y hy => ?_, fun k v hv => ?_⟩
  · have h4 := (roundedDmVal_near hn hl hpsi hfl hx hy).2
    rw [h3]
    by_cases hv : roundedDmVal fl nBaths psi (.imp l x.1 x.2, .imp l y.1 y.2) = 0
    · rw [if_neg (fun h => h.2 hv)]
      rw [hv] at h4
      exact h4
    · rw [if_pos ⟨⟨x, hx, y, hy, rfl⟩, hv⟩]
      exact h4
  · rw [h3] at hv
    split at hv
    · next h => exact h.1
    · cases hv

end

theorem relError_zero (k : ℕ) : relError 0 k = 0 := by simp [relError]

theorem exactOps_accurate : Accurate 0 exactOps := by
  constructor <;> intros <;> simp [exactOps]

theorem norm_accurateAbs : AccurateAbs 0 (fun z => ‖z‖) := fun z => by simp

/-- C101, without rounding: with exact operations the computed values are those of the functions that the other
properties are about. -/
theorem C101_exact {nBaths : Dict ℕ ℕ} (hn : Dict.NodupKeys nBaths) {psi phi : Psi ℂ}
    (hpsi : IsState (nSpinOrbitals nBaths) psi) (hphi : IsState (nSpinOrbitals nBaths) phi) (hl : 2 ∈ Dict.keys nBaths) :
    roundedNorm2 exactOps (fun z => ‖z‖) psi = norm2 psi ∧ roundedInner exactOps psi phi = inner psi phi ∧
    roundedLz3d exactOps (fun z => ‖z‖) nBaths psi = getLz3d nBaths psi ∧
    roundedSz3d exactOps (fun z => ‖z‖) nBaths psi = getSz3d nBaths psi ∧
    ∀ l ∈ Dict.keys nBaths,
      roundedTrace exactOps (fun z => ‖z‖) nBaths psi l = getTraceDensityMatrix nBaths psi l := by
  have eq_of : ∀ {x y : ℝ}, |x - y| ≤ 0 → x = y := fun h => sub_eq_zero.1 (abs_nonpos_iff.1 h)
  refine ⟨eq_of ?_, ?_, ?_, ?_, fun l hl => ?_⟩
  · simpa [relError_zero] using roundedNorm2_near exactOps_accurate norm_accurateAbs psi
  · have := C101_overlap exactOps_accurate hpsi hphi
    rw [relError_zero, mul_zero, zero_mul] at this
    rw [inner_eq hphi]
    exact sub_eq_zero.1 (norm_le_zero_iff.1 this)
  · obtain ⟨t, t', h1, h2, _, h3⟩ := C101_orbital hn hpsi exactOps_accurate norm_accurateAbs hl
    rw [relError_zero, zero_mul] at h3
    rw [h1, h2, eq_of h3]
  · obtain ⟨t, t', h1, h2, _, h3⟩ := C101_spin hn hpsi exactOps_accurate norm_accurateAbs hl
    rw [relError_zero, zero_mul] at h3
    rw [h1, h2, eq_of h3]
  · obtain ⟨t, t', h1, h2, _, h3⟩ := C101_occupation hn hpsi exactOps_accurate norm_accurateAbs hl
    rw [relError_zero, zero_mul] at h3
    rw [h1, h2, eq_of h3]

/-- In double precision a million product states cost less than ten digits: the relative errors above are below
`1.2e-10`. -/
theorem C101_double {k : ℕ} (hk : k ≤ 10 ^ 6) : relError ((2 : ℝ) ^ (-(53 : ℕ) : ℤ)) k ≤ 12 / 10 ^ 11 := by
  have hu : (0 : ℝ) ≤ (2 : ℝ) ^ (-(53 : ℕ) : ℤ) := by positivity
  have h1 : 1 + (2 : ℝ) ^ (-(53 : ℕ) : ℤ) ≤ Real.exp ((2 : ℝ) ^ (-(53 : ℕ) : ℤ)) := by
    linarith [Real.add_one_le_exp ((2 : ℝ) ^ (-(53 : ℕ) : ℤ))]
  have h2 : (1 + (2 : ℝ) ^ (-(53 : ℕ) : ℤ)) ^ k ≤ Real.exp (k * (2 : ℝ) ^ (-(53 : ℕ) : ℤ)) := by
    rw [Real.exp_nat_mul]
    exact pow_le_pow_left₀ (by linarith) h1 k
  set x := (k : ℝ) * (2 : ℝ) ^ (-(53 : ℕ) : ℤ) with hx
  have hx0 : 0 ≤ x := by positivity
  have hx1 : x ≤ 1.12 / 10 ^ 10 := by
    have hk' : (k : ℝ) ≤ 10 ^ 6 := by exact_mod_cast hk
    calc x ≤ 10 ^ 6 * (2 : ℝ) ^ (-(53 : ℕ) : ℤ) := mul_le_mul_of_nonneg_right hk' hu
      _ ≤ 1.12 / 10 ^ 10 := by norm_num [zpow_neg]
  have h3 : Real.exp x ≤ 1 + x + x ^ 2 := by
    have := Real.abs_exp_sub_one_sub_id_le (x := x) (by rw [abs_of_nonneg hx0]; linarith)
    have := (_root_.abs_le.1 this).2
    linarith
  unfold relError
  have h4 : x ^ 2 ≤ x * (1 / 100) := by nlinarith
  refine (sub_le_sub_right h2 1).trans ?_
  norm_num at hx1 ⊢
  linarith

/-! ### Non-vacuity -/

/-- The absolute value in double precision. -/
def binaryAbs (p : ℕ) (z : ℂ) : ℝ := binaryRound p ‖z‖

theorem binaryAbs_accurate (p : ℕ) : AccurateAbs ((2 : ℝ) ^ (-(p : ℤ))) (binaryAbs p) := fun z => by
  have := binaryRound_accurate p ‖z‖
  rwa [abs_of_nonneg (norm_nonneg z)] at this

/-- A d shell with a bath state in double precision: the number of d electrons of `3 |{0}⟩ + 4i |{6}⟩`. -/
example : ∃ t t', getTraceDensityMatrix exObsBaths exObsPsi 2 = .ok t ∧
    roundedTrace (binaryOps 53) (binaryAbs 53) exObsBaths exObsPsi 2 = .ok t' ∧ |t' - t| ≤ 12 / 10 ^ 11 * t := by
  obtain ⟨t, t', h1, h2, h3, h4⟩ := C101_occupation exObsBaths_nodup exObsPsi_state (binaryOps_accurate 53)
    (binaryAbs_accurate 53) exObsBaths_mem
  refine ⟨t, t', h1, h2, h4.trans (mul_le_mul_of_nonneg_right (C101_double (by simp [exObsPsi])) ?_)⟩
  rw [h3]
  exact sum_nonneg fun S _ => mul_nonneg (shellCount_nonneg _ _ _) (Complex.normSq_nonneg _)

/-- The same state: its norm, its overlap with itself, its moments and its density matrix. -/
example :
    |roundedNorm2 (binaryOps 53) (binaryAbs 53) exObsPsi - Spec.normSq (nSpinOrbitals exObsBaths)
        (ampl (nSpinOrbitals exObsBaths) exObsPsi)|
      ≤ relError ((2 : ℝ) ^ (-(53 : ℕ) : ℤ)) 5 * Spec.normSq (nSpinOrbitals exObsBaths)
        (ampl (nSpinOrbitals exObsBaths) exObsPsi) ∧
    (∃ t t', getLz3d exObsBaths exObsPsi = .ok t ∧
      roundedLz3d (binaryOps 53) (binaryAbs 53) exObsBaths exObsPsi = .ok t') ∧
    (∃ t t', getSz3d exObsBaths exObsPsi = .ok t ∧
      roundedSz3d (binaryOps 53) (binaryAbs 53) exObsBaths exObsPsi = .ok t') ∧
    ∃ dm, roundedDensityMatrix (binaryOps 53) exObsBaths exObsPsi 2 = .ok dm := by
  obtain ⟨a, a', h1, h1', _⟩ := C101_orbital exObsBaths_nodup exObsPsi_state (binaryOps_accurate 53)
    (binaryAbs_accurate 53) exObsBaths_mem
  obtain ⟨b, b', h2, h2', _⟩ := C101_spin exObsBaths_nodup exObsPsi_state (binaryOps_accurate 53)
    (binaryAbs_accurate 53) exObsBaths_mem
  obtain ⟨dm, h3, _⟩ := C101_density exObsBaths_nodup exObsPsi_state (binaryOps_accurate 53) exObsBaths_mem
  exact ⟨C101_norm (binaryOps_accurate 53) (binaryAbs_accurate 53) exObsPsi_state, ⟨a, a', h1, h1'⟩, ⟨b, b', h2, h2'⟩,
    dm, h3⟩

example := C101_exact exObsBaths_nodup exObsPsi_state exObsPsi_state exObsBaths_mem

example := C101_overlap (binaryOps_accurate 53) exObsPsi_state exObsPsi_state

end

end Verif
