/-
Specification of the figures that plotSpectra.py shows for a file written by main.
-/
import Verif.Model.PlotSpectra
import Verif.Spec.Main

namespace Verif.Spec

open Finset

/-- The curve has one point for each of the `k` equidistant energies from `a` to `b`, with the values `y`. -/
structure ShowsOn (c : Curve) (a b : ℝ) (k : ℕ) (y : ℕ → ℝ) : Prop where
  x : Mesh c.x a b k
  length : c.y.length = k
  y : ∀ i (hi : i < c.y.length), c.y[i] = y i

/-- The in-coming energies and the energy losses. -/
noncomputable def inEnergy (d : ℕ) : ℝ := -10 + (20 - -10) * d / (50 - 1)
noncomputable def lossEnergy (k : ℕ) : ℝ := -2 + (12 - -2) * k / (4000 - 1)

/-- The RIXS intensity summed over the polarisations. -/
noncomputable def totalRixs (s : Simulated) (d k : ℕ) : ℝ := ∑ a ∈ range 3, ∑ c ∈ range 3, s.rixs.thermal a c d k

/-- A curve for the in-coming energy `e`: the RIXS spectrum at the nearest of the energies, shifted up. -/
def ShowsLoss (s : Simulated) (c : Curve) (e shift : ℝ) : Prop :=
  ∃ d < 50, (∀ d' < 50, |inEnergy d - e| ≤ |inEnergy d' - e|) ∧ |inEnergy d - e| ≤ 15 / 49 ∧
    ShowsOn c (-2) 12 4000 fun k => shift + totalRixs s d k

/-- A map of `y`, energy losses upwards and in-coming energies to the right, one pixel around each point of the
meshes; values below `1e-6` are not drawn. -/
structure ShowsMap (m : PlotMap) (y : ℕ → ℕ → ℝ) : Prop where
  left : m.extent.1 = inEnergy 0 - (inEnergy 1 - inEnergy 0) / 2
  right : m.extent.2.1 = inEnergy 49 + (inEnergy 1 - inEnergy 0) / 2
  bottom : m.extent.2.2.1 = lossEnergy 0 - (lossEnergy 1 - lossEnergy 0) / 2
  top : m.extent.2.2.2 = lossEnergy 3999 + (lossEnergy 1 - lossEnergy 0) / 2
  rows : m.value.length = 4000
  cols : ∀ r ∈ m.value, r.length = 50
  pixel : ∀ k < 4000, ∀ d < 50, ∃ r p, m.value[k]? = some r ∧ r[d]? = some p ∧
    (p = none ↔ y d k < 1e-6) ∧ ∀ v, p = some v → v = y d k

/-- What the figures show. -/
def ShowsSpectra (s : Simulated) (figs : List Figure) : Prop :=
  ∃ ps xps xas fy elastic q2 q7 l3 l2 total maps,
    figs = [.curves [ps], .curves [xps], .curves [xas, fy, elastic], .curves [q2, q7], .panels l3 l2, .map total,
      .grid maps] ∧
    ShowsOn ps (-25) 25 3000 (fun k => ∑ t ∈ range 10, s.ps.thermal t k) ∧
    ShowsOn xps (-25) 25 3000 (fun k => ∑ t ∈ range 6, s.xps.thermal t k) ∧
    ShowsOn xas (-25) 25 3000 (fun k => ∑ t ∈ range 3, s.xas.thermal t k) ∧
    -- fluorescence yield: integral over the energy loss, divided by π and the number of polarisations
    ShowsOn fy (-10) 20 50 (fun d => 14 / 3999 * (∑ k ∈ range 4000, totalRixs s d k) / (3 * Real.pi)) ∧
    ShowsOn elastic (-10) 20 50 (fun d =>
      14 / 3999 * (∑ k ∈ range 4000 with lossEnergy k < 0.2, totalRixs s d k) / (3 * Real.pi)) ∧
    ShowsOn q2 (-2) 12 4000 (fun k => s.nixs.thermal 0 k) ∧
    ShowsOn q7 (-2) 12 4000 (fun k => s.nixs.thermal 1 k) ∧
    l3.length = 9 ∧ (∀ n (hn : n < l3.length), ShowsLoss s l3[n] (1 - n) (1.5 * (8 - n))) ∧
    l2.length = 5 ∧ (∀ n (hn : n < l2.length), ShowsLoss s l2[n] (15 - n) (4 - n)) ∧
    ShowsMap total (totalRixs s) ∧
    maps.length = 3 ∧ (∀ i (hi : i < maps.length), maps[i].length = 3 ∧
      ∀ j (hj : j < maps[i].length), ShowsMap maps[i][j] (s.rixs.thermal i j))

end Verif.Spec
