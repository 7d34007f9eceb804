/-
Model of the data sets of the file spectra.h5 that main writes (impurityModel/ed/get_spectra.py:288-298
and impurityModel/ed/spectra.py:147-148, 177-178, 206-207, 236-237, 281-282) and of
plot_spectra_in_file, impurityModel/plotScripts/plotSpectra.py:15-216.  A figure is the list of the
curves and maps drawn in it; labels, titles, colours and printing are left out.
-/
import Verif.Model.Main
import Verif.Model.Average

namespace Verif

noncomputable section

/-- A two-dimensional array. -/
structure Array2 where
  rows : ℕ
  cols : ℕ
  val : ℕ → ℕ → ℝ

/-- A four-dimensional array. -/
structure Array4 where
  d0 : ℕ
  d1 : ℕ
  d2 : ℕ
  d3 : ℕ
  val : ℕ → ℕ → ℕ → ℕ → ℝ

/-- The data sets of `spectra.h5` that plotSpectra.py uses; `none` if the data set is not there. -/
structure H5File where
  w : Option (List ℝ)
  wIn : Option (List ℝ)
  wLoss : Option (List ℝ)
  qs : Option (List (Vec3 ℝ))
  ps : Option Array2
  xps : Option Array2
  xas : Option Array2
  rixs : Option Array4
  nixs : Option Array2

/-- What main and simulate_spectra store: the meshes `w`, `wIn`, `wLoss` and the wave vectors
(get_spectra.py:292-295), and the thermally averaged spectra (spectra.py:148, 178, 207, 237, 282), one row
for each transition operator. -/
def mainH5 (o : MainOutput) : H5File where
  w := some (linspace (-25) 25 3000)
  wIn := some (linspace (-10) 20 50)
  wLoss := some (linspace (-2) 12 4000)
  qs := some mainQs
  ps := some ⟨10, 3000, o.spectra.ps.thermal⟩
  xps := some ⟨6, 3000, o.spectra.xps.thermal⟩
  xas := some ⟨3, 3000, o.spectra.xas.thermal⟩
  rixs := some ⟨3, 3, 50, 4000, o.spectra.rixs.thermal⟩
  nixs := some ⟨2, 4000, o.spectra.nixs.thermal⟩

/-- A curve. -/
structure Curve where
  x : List ℝ
  y : List ℝ

/-- `plt.plot(x, y)`: the sizes have to agree. -/
def pltPlot (x y : List ℝ) : Py Curve := if x.length = y.length then .ok ⟨x, y⟩ else .error .valueError

/-- A local variable that is only assigned if the data set exists. -/
def local' {α : Type} (x : Option α) : Py α := match x with
  | some a => .ok a
  | none => .error .unboundLocalError

/-- `np.sum(a, axis=0)` of a two-dimensional array. -/
def Array2.sum0 (a : Array2) : List ℝ := (List.range a.cols).map fun k => ((List.range a.rows).map fun t => a.val t k).sum

/-- `np.sum(a, axis=(0, 1))[i]` of a four-dimensional array. -/
def Array4.sum01 (a : Array4) (d k : ℕ) : ℝ :=
  ((List.range a.d0).map fun i => ((List.range a.d1).map fun o => a.val i o d k).sum).sum

/-- `np.sum(a[:, :, :, mask], axis=(0, 1, 3))`: a mask of another length is an `IndexError`. -/
def Array4.sum013 (a : Array4) (mask : List Bool) : Py (List ℝ) :=
  if mask.length = a.d3 then
    .ok ((List.range a.d2).map fun d => ((List.range a.d3).map fun k => if mask.getD k false then a.sum01 d k else 0).sum)
  else .error .indexError

/-- `np.argmin`: the first position of the smallest value; an empty array is a `ValueError`. -/
def argmin : List ℝ → Py ℕ
  | [] => .error .valueError
  | x :: xs => .ok ((xs.zipIdx 1).foldl (fun (best : ℕ × ℝ) p => if p.1 < best.2 then (p.2, p.1) else best) (0, x)).1

/-- A map: the extent of the axes and the values, rows first; `none` is not drawn. -/
structure PlotMap where
  extent : ℝ × ℝ × ℝ × ℝ
  value : List (List (Option ℝ))

/-- The figures. -/
inductive Figure where
  | curves (cs : List Curve)
  /-- energy loss spectra in two panels -/
  | panels (upper lower : List Curve)
  | map (m : PlotMap)
  | grid (ms : List (List PlotMap))

/-- plotSpectra.py:137-143 (150-156): the energy loss spectra for the in-coming energies `es`, in
reversed order, each above the next. -/
def lossCurves (rixs : Array4) (wIn wLoss : List ℝ) (es : List ℝ) (offset : ℝ) : Py (List Curve) :=
  es.reverse.zipIdx.mapM fun p => do
    let i ← argmin (wIn.map fun x => |x - p.1|)
    if rixs.d2 ≤ i then throw .indexError
    pltPlot wLoss ((List.range rixs.d3).map fun k => offset * ((es.length : ℝ) - 1 - (p.2 : ℝ)) + rixs.sum01 i k)

/-- plotSpectra.py:173-175 (198-200): values below the cutoff are replaced by `nan`. -/
def masked (rows cols : ℕ) (val : ℕ → ℕ → ℝ) (cutOff : ℝ) : List (List (Option ℝ)) :=
  (List.range rows).map fun k => (List.range cols).map fun d => if val k d < cutOff then none else some (val k d)

/-- plotSpectra.py:165-214: the RIXS maps.  `plt.subplots` gives a two-dimensional array of axes
only for at least two rows and columns; line 209 needs a third row. -/
def rixsMaps (rixs : Array4) (wIn wLoss : List ℝ) : Py (List Figure) := do
  let dx := (← pyGet wIn 1) - (← pyGet wIn 0)
  let dy := (← pyGet wLoss 1) - (← pyGet wLoss 0)
  let plotCutOff : ℝ := 1e-6
  let left := (← pyGet wIn 0) - dx / 2
  let right := (← pyGet wIn (-1)) + dx / 2
  let bottom := (← pyGet wLoss 0) - dy / 2
  let top := (← pyGet wLoss (-1)) + dy / 2
  let total : Figure := .map ⟨(left, right, bottom, top), masked rixs.d3 rixs.d2 (fun k d => rixs.sum01 d k) plotCutOff⟩
  if rixs.d0 = 1 ∧ rixs.d1 = 1 then return [total]
  if rixs.d0 = 0 ∨ rixs.d1 = 0 then throw .valueError
  if rixs.d0 = 1 ∨ rixs.d1 = 1 then throw .indexError
  let maps := (List.range rixs.d0).map fun i => (List.range rixs.d1).map fun j =>
    (⟨(left, right, bottom, top), masked rixs.d3 rixs.d2 (fun k d => rixs.val i j d k) plotCutOff⟩ : PlotMap)
  if rixs.d0 ≤ 2 then throw .indexError
  return [total, .grid maps]

/-- plotSpectra.py:93-104: the fluorescence yield. -/
def fluorescence (rixs : Array4) (h : H5File) : Py (List Curve) := do
  if rixs.d0 = 0 then throw .zeroDivisionError
  let scaleFY := 1 / (Real.pi * rixs.d0)
  let wIn ← local' h.wIn
  let wLoss ← local' h.wLoss
  let step := (← pyGet wLoss 1) - (← pyGet wLoss 0)
  let total ← rixs.sum013 ((List.range rixs.d3).map fun _ => true)
  let fy ← pltPlot wIn (total.map fun x => step * x * scaleFY)
  let y ← rixs.sum013 (wLoss.map fun x => decide (x < 0.2))
  let quasi ← pltPlot wIn (y.map fun x => step * x * scaleFY)
  return [fy, quasi]

/-- plotSpectra.py:62-73 (75-86): the total photoemission (XPS) spectrum. -/
def plotTotal (h : H5File) (a : Option Array2) : Py (List Figure) :=
  match a with
  | some a => do
    let c ← pltPlot (← local' h.w) a.sum0
    return [.curves [c]]
  | none => return []

/-- plotSpectra.py:88-111: absorption and fluorescence yield. -/
def plotXas (h : H5File) : Py (List Figure) :=
  match h.xas with
  | some a => do
    let c ← pltPlot (← local' h.w) a.sum0
    let fy ← match h.rixs with
      | some r => fluorescence r h
      | none => pure []
    return [.curves (c :: fy)]
  | none => return []

/-- plotSpectra.py:113-126: NIXS.  A missing label is an `IndexError`. -/
def plotNixs (h : H5File) : Py (List Figure) :=
  match h.nixs with
  | some a => do
    let nLabels := match h.qs with
      | some qs => qs.length
      | none => a.rows
    let cs ← (List.range a.rows).mapM fun i => do
      let wLoss ← local' h.wLoss
      if nLabels ≤ i then throw .indexError
      pltPlot wLoss ((List.range a.cols).map fun k => a.val i k)
    return [.curves cs]
  | none => return []

/-- plotSpectra.py:128-216: RIXS. -/
def plotRixs (h : H5File) : Py (List Figure) :=
  match h.rixs with
  | some r => do
    let wIn ← local' h.wIn
    let wLoss ← local' h.wLoss
    let l3 ← lossCurves r wIn wLoss ((List.range 9).map fun (i : ℕ) => -7 + (i : ℝ)) 1.5
    let l2 ← lossCurves r wIn wLoss ((List.range 5).map fun (i : ℕ) => 11 + (i : ℝ)) 1
    let maps ← rixsMaps r wIn wLoss
    return .panels l3 l2 :: maps
  | none => return []

/-- plotSpectra.py:15-216 `plot_spectra_in_file`: the figures in the order in which they are shown. -/
def plotSpectra (h : H5File) : Py (List Figure) := do
  let ps ← plotTotal h h.ps
  let xps ← plotTotal h h.xps
  let xas ← plotXas h
  let nixs ← plotNixs h
  let rixs ← plotRixs h
  return ps ++ xps ++ xas ++ nixs ++ rixs

end

end Verif
