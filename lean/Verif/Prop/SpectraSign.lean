/-
C43: spectra are non-negative.
-/
import Verif.Lemmas.SpectraSign

namespace Verif

open Mpi Spec

noncomputable section

/-- What the sign means for one number. -/
theorem sign_split {delta : ℝ} {x : ℂ} (h : delta * x.im ≤ 0) :
    (0 < delta → 0 ≤ -x.im) ∧ (delta < 0 → 0 ≤ x.im) :=
  ⟨fun hd => by by_contra hc; nlinarith, fun hd => by by_contra hc; nlinarith⟩

/-- C43, `getGreen`.  For any state, Hamiltonian (Hermitian or not), restrictions,
`h_dict` and Krylov size, `-Im` of the Green's function is non-negative for
`delta > 0`, and `Im` for `delta < 0`, at every point of the mesh. -/
theorem C43_green (n : ℕ) (e : ℝ) (psi : Psi ℂ) (hOp : Op ℕ ℂ) (omega : List ℝ) (delta : ℝ) (hd : delta ≠ 0)
    (krylovSize : ℕ) (cut : ℝ) (r : Option Restrictions) (hDict : OpResult ℂ) (fuel : ℕ)
    (g : List ℂ) (hDict' : OpResult ℂ)
    (h : getGreen n e psi hOp omega delta krylovSize cut r hDict fuel = .ok (g, hDict')) :
    g.length = omega.length ∧ ∀ x ∈ g, (0 < delta → 0 ≤ -x.im) ∧ (delta < 0 → 0 ≤ x.im) := by
  have := getGreen_sign n e psi hOp omega hd krylovSize cut r hDict fuel _ h
  exact ⟨this.1, fun x hx => sign_split (this.2 x hx)⟩

/-- C43, `getSpectra`, for any number of ranks, both parallelization modes, any set
orders and any schedule of the ranks: whatever a rank returns has the sign. -/
theorem C43_spectra {N : ℕ} (A : SpectraArgs) (hd : A.delta ≠ 0) (tOps : List (Op ℕ ℂ)) (psis : List (Psi ℂ))
    (es : List ℝ) (mode : SpectraMode) (ord : Fin N → ℕ → ℕ → SetOrders) (out : Fin N → Spectra)
    (h : CanFinish msgSum (fun k : Fin N => getSpectra A tOps psis es mode (ord k) k.val N) out)
    (k : Fin N) (i t : ℕ) :
    (out k i t).length = A.w.length ∧
      ∀ x ∈ out k i t, (0 < A.delta → 0 ≤ -x.im) ∧ (A.delta < 0 → 0 ≤ x.im) := by
  have hI := plainMsgs_sign A.delta A.w.length
  have := Safe.canFinish (fun l _ => msgSum_safe hI l)
    (fun k : Fin N => safe_getSpectra A hd tOps psis es mode (ord k) k.val N hI fun _ => rfl) h k i t
  exact ⟨this.1, fun x hx => sign_split (this.2 x hx)⟩

/-- C43, `getRIXSmap`, for any number of ranks, all modes and whatever the solver of
linear equations returns. -/
theorem C43_rixs {N : ℕ} (A : RixsArgs) (hd : A.delta2 ≠ 0) (tOpsIn tOpsOut : List (Op ℕ ℂ)) (psis : List (Psi ℂ))
    (es : List ℝ) (hGround : Fin N → OpResult ℂ) (mode : RixsMode) (ord : Fin N → List ℕ → SetOrders)
    (out : Fin N → RixsMap × OpResult ℂ)
    (h : CanFinish msgSum
      (fun k : Fin N => getRIXSmap A tOpsIn tOpsOut psis es (hGround k) mode (ord k) k.val N) out)
    (k : Fin N) (iE tIn tOut iwIn : ℕ) :
    ((out k).1 iE tIn tOut iwIn).length = A.wLoss.length ∧
      ∀ x ∈ (out k).1 iE tIn tOut iwIn, (0 < A.delta2 → 0 ≤ -x.im) ∧ (A.delta2 < 0 → 0 ≤ x.im) := by
  have hI := plainMsgs_sign A.delta2 A.wLoss.length
  have := Safe.canFinish (fun l _ => msgSum_safe hI l)
    (fun k : Fin N => safe_getRIXSmap A hd tOpsIn tOpsOut psis es (hGround k) mode (ord k) k.val N) h k iE tIn tOut iwIn
  exact ⟨this.1, fun x hx => sign_split (this.2 x hx)⟩

/-- C43, `simulate_spectra`: all intensities that rank 0 stores, for PS, XPS, NIXS, XAS
and RIXS, per eigenstate, thermally averaged and in the tables, are non-negative,
for any number of ranks and any schedule.  The other ranks store nothing. -/
theorem C43_simulate {N : ℕ} (S : SimulateArgs) (hd : 0 < S.delta) (hdN : 0 < S.deltaNIXS) (hdR : 0 < S.deltaRIXS)
    (ord : Fin N → ℕ → ℕ → ℕ → SetOrders) (ordRixs : Fin N → List ℕ → SetOrders)
    (out : Fin N → Option Simulated)
    (h : CanFinish msgSum (fun k : Fin N => simulateSpectra S (ord k) (ordRixs k) k.val N) out) (k : Fin N) :
    (k.val = 0 → ∃ s, out k = some s ∧ SimulatedNonneg s) ∧ (k.val ≠ 0 → out k = none) :=
  Safe.canFinish (fun l _ => msgSum_safe (plainMsgs_sign S.deltaRIXS S.wLoss.length) l)
    (fun k : Fin N => safe_simulateSpectra S hd hdN hdR (ord k) (ordRixs k) k.val N) h k

end

end Verif
