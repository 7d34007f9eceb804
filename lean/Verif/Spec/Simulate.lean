/-
Specification of the data that simulate_spectra stores.
-/
import Verif.Model.Simulate
import Verif.Spec.Green
import Verif.Spec.Transitions

namespace Verif.Spec

open Finset

/-- All values that are stored for a spectrum are non-negative. -/
structure SpectrumNonneg (s : SpectrumFiles) : Prop where
  data : ∀ i t k, 0 ≤ s.data i t k
  thermal : ∀ t k, 0 ≤ s.thermal t k
  table : ∀ row ∈ s.table, ∀ x ∈ row.tail, 0 ≤ x

/-- All values that are stored for RIXS are non-negative. -/
structure RixsNonneg (s : RixsFiles) : Prop where
  data : ∀ iE i o iw k, 0 ≤ s.data iE i o iw k
  thermal : ∀ i o iw k, 0 ≤ s.thermal i o iw k

/-- All values that rank 0 stores are non-negative. -/
structure SimulatedNonneg (s : Simulated) : Prop where
  ps : SpectrumNonneg s.ps
  xps : SpectrumNonneg s.xps
  nixs : SpectrumNonneg s.nixs
  xas : SpectrumNonneg s.xas
  rixs : RixsNonneg s.rixs

/-! ### What the values mean -/

/-- The amplitudes of `T x` in the product states that fulfil the restrictions, if their
weight reaches the cutoff. -/
noncomputable def excited (n : ℕ) (T : Vec ℂ → Vec ℂ) (cut : ℝ) (r : Option Restrictions) (x : Vec ℂ) : Vec ℂ :=
  fun S => if S ⊆ range n ∧ AllowedOpt r S ∧ cut ≤ abs2 (T x S) then T x S else 0

/-- No matrix element of `T` is dropped by the cutoff. -/
def NoSmall (n : ℕ) (T : Vec ℂ → Vec ℂ) (cut : ℝ) (r : Option Restrictions) : Prop :=
  ∀ S ⊆ range n, ∀ S' ⊆ range n, AllowedOpt r S → T (single S' 1) S = 0 ∨ cut ≤ abs2 (T (single S' 1) S)

/-- `b, H b, ..., H^K b` are linearly dependent: `K` Lanczos vectors exhaust the Krylov
space of `b`. -/
def KrylovExhausted (H : Vec ℂ → Vec ℂ) (K : ℕ) (b : Vec ℂ) : Prop :=
  ¬ LinearIndependent ℂ fun j : Fin (K + 1) => H^[j.val] b

noncomputable section

/-- The number of spin-orbitals. -/
def size (S : SimulateArgs) : ℕ := nTotal (intKeys S.nBaths)

/-- The Hamiltonian. -/
def hamilton (S : SimulateArgs) : Vec ℂ → Vec ℂ := hamiltonian (size S) S.hOp S.cut S.restrictions

/-- `T x` as computed with the cutoff `slaterWeightMin`. -/
def exciteVec (S : SimulateArgs) (T : Vec ℂ → Vec ℂ) : Vec ℂ → Vec ℂ :=
  excited (size S) T S.slaterWeightMin S.restrictions

/-- `T |psi_i⟩`. -/
def excite (S : SimulateArgs) (T : Vec ℂ → Vec ℂ) (i : ℕ) : Vec ℂ :=
  exciteVec S T (ampl (size S) (S.psis.getD i []))

/-- `g = ⟨T psi_i| (z + e_i - H)⁻¹ |T psi_i⟩`. -/
def IsResponse (S : SimulateArgs) (T : Vec ℂ → Vec ℂ) (i : ℕ) (z g : ℂ) : Prop :=
  IsGreen (size S) (hamilton S) (z + (S.es.getD i 0 : ℂ)) (excite S T i) g

/-- `avg` is the Boltzmann average of the values `x i`, one for each energy. -/
def IsThermal (kB T : ℝ) (es : List ℝ) (x : ℕ → ℝ) (avg : ℝ) : Prop :=
  avg = (∑ i : Fin es.length, Real.exp (-es[i] / (kB * T)) * x i) / ∑ i : Fin es.length, Real.exp (-es[i] / (kB * T))

/-- The thermal average and the table belong to the data: for each point of the mesh
one row with the point, the sum over all operators and the `nOps` values. -/
structure FilesOf (kB T : ℝ) (es w : List ℝ) (nOps : ℕ) (s : SpectrumFiles) : Prop where
  thermal : ∀ t k, IsThermal kB T es (fun i => s.data i t k) (s.thermal t k)
  rows : s.table.length = w.length
  row : ∀ k (hk : k < w.length), s.table[k]? =
    some (w[k] :: (∑ t ∈ range nOps, s.thermal t k) :: (List.range nOps).map fun t => s.thermal t k)

end

end Verif.Spec
