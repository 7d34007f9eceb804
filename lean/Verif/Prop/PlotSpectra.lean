/-
C74: the figures that plotSpectra.py shows for the file that main writes.
-/
import Verif.Lemmas.PlotSpectra
import Verif.Prop.Main
import Verif.Prop.SpectraSign

namespace Verif

open Spec Finset Mpi

theorem showsOn_of {x : List ℝ} {a b : ℝ} {k : ℕ} (hx : Mesh x a b k) {f g : ℕ → ℝ} (h : ∀ i < k, f i = g i) {n : ℕ}
    (hn : n = k) : ShowsOn ⟨x, (List.range n).map f⟩ a b k g := by
  subst hn
  refine ⟨hx, by simp, fun i hi => ?_⟩
  simp only [List.getElem_map, List.getElem_range]
  exact h i (by simpa using hi)

theorem sum_range_list (f : ℕ → ℝ) (n : ℕ) : ((List.range n).map f).sum = ∑ i ∈ range n, f i := by
  induction n with
  | zero => simp
  | succ n ih => rw [List.range_succ, List.map_append, List.sum_append, ih, Finset.sum_range_succ]; simp

theorem plotSpectra_of {w wIn wLoss : List ℝ} {qs : List (Vec3 ℝ)} {ps xps xas nixs : Array2} {R : Array4}
    {FY NX c3 c2 : List Curve} {MP : List Figure}
    (h1 : pltPlot w ps.sum0 = .ok ⟨w, ps.sum0⟩) (h2 : pltPlot w xps.sum0 = .ok ⟨w, xps.sum0⟩)
    (h3 : pltPlot w xas.sum0 = .ok ⟨w, xas.sum0⟩)
    (hF : fluorescence R ⟨some w, some wIn, some wLoss, some qs, some ps, some xps, some xas, some R, some nixs⟩ = .ok FY)
    (hN : ((List.range nixs.rows).mapM fun i => (do
      let wLoss ← local' (some wLoss)
      if qs.length ≤ i then throw .indexError
      pltPlot wLoss ((List.range nixs.cols).map fun k => nixs.val i k) : Py Curve)) = .ok NX)
    (hc3 : lossCurves R wIn wLoss ((List.range 9).map fun (i : ℕ) => -7 + (i : ℝ)) 1.5 = .ok c3)
    (hc2 : lossCurves R wIn wLoss ((List.range 5).map fun (i : ℕ) => 11 + (i : ℝ)) 1 = .ok c2)
    (hM : rixsMaps R wIn wLoss = .ok MP) :
    plotSpectra ⟨some w, some wIn, some wLoss, some qs, some ps, some xps, some xas, some R, some nixs⟩
      = .ok ([.curves [⟨w, ps.sum0⟩]] ++ [.curves [⟨w, xps.sum0⟩]] ++ [.curves (⟨w, xas.sum0⟩ :: FY)] ++ [.curves NX]
        ++ (.panels c3 c2 :: MP)) := by
  unfold plotSpectra plotTotal plotXas plotNixs plotRixs
  simp only [local', ok_bind, h1, h2, h3, hF, pure_ok]
  simp only [local', ok_bind] at hN
  simp only [ok_bind, pure_ok, hN, hc3, hc2, hM]

/-- C74.  For every file that main writes, plotSpectra.py shows seven figures: the total photoemission,
XPS and absorption spectra, the latter with the total and the quasi-elastic fluorescence yield,
the two NIXS spectra, energy loss spectra at the in-coming energies nearest to the chosen ones, and the
RIXS maps. -/
theorem C74_figures (o : MainOutput) : ∃ figs, plotSpectra (mainH5 o) = .ok figs ∧ ShowsSpectra o.spectra figs := by
  have mw := linspace_mesh (-25) 25 3000
  have mi := linspace_mesh (-10) 20 50
  have ml := linspace_mesh (-2) 12 4000
  unfold mainH5
  generalize linspace (-25) 25 3000 = w at *
  generalize linspace (-10) 20 50 = wIn at *
  generalize linspace (-2) 12 4000 = wLoss at *
  have i0 := pyGet_mesh mi (i := 0) (by norm_num)
  have i1 := pyGet_mesh mi (i := 1) (by norm_num)
  have iN := pyGet_mesh_last mi (by norm_num)
  have l0 := pyGet_mesh ml (i := 0) (by norm_num)
  have l1 := pyGet_mesh ml (i := 1) (by norm_num)
  have lN := pyGet_mesh_last ml (by norm_num)
  rw [Nat.cast_zero] at i0 l0
  rw [Nat.cast_one] at i1 l1
  have hil := mi.1
  have hll := ml.1
  have hwl := mw.1
  have hne : wIn ≠ [] := by rintro rfl; simp at hil
  set R : Array4 := ⟨3, 3, 50, 4000, o.spectra.rixs.thermal⟩ with hR
  have hsum : ∀ d k, R.sum01 d k = totalRixs o.spectra d k := by
    intro d k
    unfold Array4.sum01 totalRixs
    rw [sum_range_list]
    exact Finset.sum_congr rfl fun a _ => sum_range_list _ _
  have hF := fluorescence_ok wIn wLoss R ⟨some w, some wIn, some wLoss, some mainQs, some ⟨10, 3000, o.spectra.ps.thermal⟩,
    some ⟨6, 3000, o.spectra.xps.thermal⟩, some ⟨3, 3000, o.spectra.xas.thermal⟩, some R,
    some ⟨2, 4000, o.spectra.nixs.thermal⟩⟩ rfl rfl (by rw [hR]; norm_num) (by rw [hil]) (by rw [hll]) _ _ l0 l1
  obtain ⟨c3, hc3, n3, s3⟩ := lossCurves_ok wIn wLoss R (by rw [hil]) (by rw [hll]) hne ((List.range 9).map fun (i : ℕ) => -7 + (i : ℝ)) 1.5
  obtain ⟨c2, hc2, n2, s2⟩ := lossCurves_ok wIn wLoss R (by rw [hil]) (by rw [hll]) hne ((List.range 5).map fun (i : ℕ) => 11 + (i : ℝ)) 1
  have hM := rixsMaps_ok wIn wLoss R rfl rfl _ _ _ _ _ _ i0 i1 iN l0 l1 lN
  have hN : ((List.range 2).mapM fun i => (do
      let wLoss ← local' (some wLoss)
      if mainQs.length ≤ i then throw .indexError
      pltPlot wLoss ((List.range 4000).map fun k => o.spectra.nixs.thermal i k) : Py Curve))
      = .ok ((List.range 2).map fun i => ⟨wLoss, (List.range 4000).map fun k => o.spectra.nixs.thermal i k⟩) := by
    refine mapM_ok _ _ _ fun i hi => ?_
    have hi : i < 2 := List.mem_range.1 hi
    simp only [local', ok_bind]
    rw [if_neg (by simpa [mainQs] using hi), pltPlot_ok (by rw [hll, List.length_map, List.length_range])]
  have hplot : ∀ rows (v : ℕ → ℕ → ℝ), pltPlot w (Array2.sum0 ⟨rows, 3000, v⟩) = .ok ⟨w, Array2.sum0 ⟨rows, 3000, v⟩⟩ := by
    intro rows v
    exact pltPlot_ok (by rw [hwl, Array2.sum0, List.length_map, List.length_range])
  refine ⟨_, plotSpectra_of (hplot _ _) (hplot _ _) (hplot _ _) hF hN hc3 hc2 hM, ?_⟩
  · have hloss : ∀ d : ℕ, -2 + (12 - -2) * (d : ℝ) / ((4000 : ℕ) - 1) = lossEnergy d := by
      intro d; unfold lossEnergy; norm_num
    have hin : ∀ d : ℕ, -10 + (20 - -10) * (d : ℝ) / ((50 : ℕ) - 1) = inEnergy d := by
      intro d; unfold inEnergy; norm_num
    have hshow : ∀ c d, ∀ hd : d < wIn.length, ∀ e shift : ℝ, -10 ≤ e → e ≤ 20 → (∀ x ∈ wIn, |wIn[d] - e| ≤ |x - e|) →
        c = (⟨wLoss, (List.range wLoss.length).map fun k => shift + R.sum01 d k⟩ : Curve) → ShowsLoss o.spectra c e shift := by
      intro c d hd e shift h1 h2 h3 h4
      subst h4
      rw [mi.2, hin] at h3
      have hd : d < 50 := by rw [← hil]; exact hd
      refine ⟨d, hd, fun d' hd' => ?_, ?_, showsOn_of ml (fun k _ => by rw [hsum]) hll⟩
      · have := h3 _ (mem_mesh mi hd')
        rwa [hin] at this
      · obtain ⟨d', hd', h⟩ := nearest_in e h1 h2
        have h5 := h3 _ (mem_mesh mi hd')
        rw [hin] at h5
        linarith
    refine ⟨_, _, _, _, _, _, _, _, _, _, _, rfl, ?_, ?_, ?_, ?_, ?_, ?_, ?_, ?_, ?_, ?_, ?_, ?_, ?_, ?_⟩
    · exact showsOn_of mw (fun k _ => sum_range_list _ _) rfl
    · exact showsOn_of mw (fun k _ => sum_range_list _ _) rfl
    · exact showsOn_of mw (fun k _ => sum_range_list _ _) rfl
    · refine showsOn_of mi (fun d _ => ?_) rfl
      rw [sum_range_list]
      simp only [hsum]
      norm_num
      ring
    · refine showsOn_of mi (fun d _ => ?_) rfl
      rw [sum_range_list, Finset.sum_filter]
      have : ∀ k ∈ range 4000, (if wLoss.getD k 1 < 0.2 then R.sum01 d k else 0)
          = if lossEnergy k < 0.2 then totalRixs o.spectra d k else 0 := by
        intro k hk
        have hk : k < wLoss.length := by rw [hll]; exact mem_range.1 hk
        rw [List.getD_eq_getElem _ _ hk, ml.2, hloss, hsum]
      rw [show R.d3 = 4000 from rfl, Finset.sum_congr rfl this]
      norm_num
      ring
    · exact showsOn_of ml (fun k _ => rfl) rfl
    · exact showsOn_of ml (fun k _ => rfl) rfl
    · rw [n3]; simp
    · intro n hn
      have hn9 : n < 9 := by rw [n3] at hn; simpa using hn
      obtain ⟨d, hd, h1, h2⟩ := s3 n hn
      have he : ((List.range 9).map fun (i : ℕ) => -7 + (i : ℝ)).getD (((List.range 9).map fun (i : ℕ) => -7 + (i : ℝ)).length - 1 - n) 0
          = 1 - n := by
        rw [List.getD_eq_getElem _ _ (by simp; omega)]
        simp only [List.getElem_map, List.getElem_range, List.length_map, List.length_range]
        rw [Nat.cast_sub (by omega)]
        push_cast
        ring
      rw [he] at h1
      have h9 : (n : ℝ) < 9 := by exact_mod_cast hn9
      have h0 : (0 : ℝ) ≤ n := by positivity
      refine hshow _ d hd _ _ (by linarith) (by linarith) h1 ?_
      rw [h2]
      simp only [List.length_map, List.length_range]
      norm_num
    · rw [n2]; simp
    · intro n hn
      have hn5 : n < 5 := by rw [n2] at hn; simpa using hn
      obtain ⟨d, hd, h1, h2⟩ := s2 n hn
      have he : ((List.range 5).map fun (i : ℕ) => 11 + (i : ℝ)).getD (((List.range 5).map fun (i : ℕ) => 11 + (i : ℝ)).length - 1 - n) 0
          = 15 - n := by
        rw [List.getD_eq_getElem _ _ (by simp; omega)]
        simp only [List.getElem_map, List.getElem_range, List.length_map, List.length_range]
        rw [Nat.cast_sub (by omega)]
        push_cast
        ring
      rw [he] at h1
      have h5 : (n : ℝ) < 5 := by exact_mod_cast hn5
      have h0 : (0 : ℝ) ≤ n := by positivity
      refine hshow _ d hd _ _ (by linarith) (by linarith) h1 ?_
      rw [h2]
      simp only [List.length_map, List.length_range]
      norm_num
    · simp only [hsum]
      exact showsMap_of (by rw [← hin]) (by rw [← hin]) (by rw [← hin]) (by rw [← hloss]) (by rw [← hloss])
        (by rw [← hloss]) rfl rfl
    · simp
    · intro i hi
      simp only [List.getElem_map, List.getElem_range]
      refine ⟨by simp, fun j hj => ?_⟩
      exact showsMap_of (by rw [← hin]) (by rw [← hin]) (by rw [← hin]) (by rw [← hloss]) (by rw [← hloss])
        (by rw [← hloss]) rfl rfl

/-! ### The figures of a run -/

section
variable {L : MainLib} {A : MainArgs} (hA : A.Valid) (hG : GauntLarge L.gaunt A.ls) {N : ℕ} (hN : 0 < N)
  {ord : Fin N → ℕ → ℕ → ℕ → SetOrders} (hord : ∀ k c t i, (ord k c t i).Valid)
  {ordRixs : Fin N → List ℕ → SetOrders} (hordR : ∀ k l, (ordRixs k l).Valid) {out : Fin N → Option MainOutput}
  (hfin : CanFinish msgSum (fun k : Fin N => mainRank L A (ord k) (ordRixs k) k.val N) out)
  {o : MainOutput} (ho : out ⟨0, hN⟩ = some o)
  (hL : SolverCorrect L.solver) {b : ℕ → ℕ} {P : BasisParams} {hx hy hz : ℝ} {h0 : Op Label ℂ}
  (hD : Documented A b P hx hy hz h0)

theorem curve_table {kB T : ℝ} {es w : List ℝ} {n k : ℕ} {s : SpectrumFiles} {c : Curve} {x y : ℝ}
    (hf : FilesOf kB T es w n s) (hw : Mesh w x y k) (hc : ShowsOn c x y k fun k => ∑ t ∈ range n, s.thermal t k) :
    s.table.map (fun row => row.take 2) = (c.x.zip c.y).map fun p => [p.1, p.2] := by
  apply List.ext_getElem
  · simp [hf.rows, hw.1, hc.x.1, hc.length]
  · intro i h1 h2
    have hi : i < w.length := by simpa [hf.rows] using h1
    have hi2 : i < c.x.length := by rw [hc.x.1, ← hw.1]; exact hi
    have hi3 : i < c.y.length := by rw [hc.length, ← hw.1]; exact hi
    have := hf.row i hi
    rw [List.getElem?_eq_getElem (by rw [hf.rows]; exact hi)] at this
    simp only [List.getElem_map, List.getElem_zip]
    rw [Option.some.inj this, hc.y i hi3, hc.x.2 i hi2, hw.2 i hi]
    rfl

include hA hG hord hordR hfin ho hL hD in
/-- C74.  If main finishes with positive broadenings, the curves of photoemission, XPS and
absorption are the first two columns of the files PS.dat, XPS.dat and XAS.dat, those of NIXS its
last two columns; no curve goes below zero, and the quasi-elastic fluorescence yield is not above the
total one. -/
theorem C74_run (hd : 0 < A.delta) (hdN : 0 < A.deltaNIXS) (hdR : 0 < A.deltaRIXS) :
    ∃ ps xps xas fy elastic q2 q7 rest,
      plotSpectra (mainH5 o) = .ok ([.curves [ps], .curves [xps], .curves [xas, fy, elastic], .curves [q2, q7]] ++ rest) ∧
      o.spectra.ps.table.map (fun row => row.take 2) = (ps.x.zip ps.y).map (fun p => [p.1, p.2]) ∧
      o.spectra.xps.table.map (fun row => row.take 2) = (xps.x.zip xps.y).map (fun p => [p.1, p.2]) ∧
      o.spectra.xas.table.map (fun row => row.take 2) = (xas.x.zip xas.y).map (fun p => [p.1, p.2]) ∧
      o.spectra.nixs.table.map (fun row => row.drop 2) = (q2.y.zip q7.y).map (fun p => [p.1, p.2]) ∧
      (∀ c ∈ [ps, xps, xas, fy, elastic, q2, q7], ∀ y ∈ c.y, 0 ≤ y) ∧
      ∀ p ∈ elastic.y.zip fy.y, p.1 ≤ p.2 := by
  obtain ⟨psis, S, hrun, hS, hout, hall⟩ := C65_run hA hG hN hord hordR hfin ho hL hD
  have hfin := (hall N hN ord hord ordRixs hordR).canFinish
  have hs : (fun k : Fin N => if k.val = 0 then some o.spectra else none) ⟨0, hN⟩ = some o.spectra := rfl
  have htab := C63_tables hS hout hN hord hordR hfin hs
  rw [hrun.args.qs.1, hrun.args.epsilons] at htab
  have hnn : SimulatedNonneg o.spectra := by
    obtain ⟨s, h1, h2⟩ := (C43_simulate S (by rw [hrun.args.delta]; exact hd) (by rw [hrun.args.deltaNIXS]; exact hdN)
      (by rw [hrun.args.deltaRIXS]; exact hdR) ord ordRixs _ hfin ⟨0, hN⟩).1 rfl
    cases h1
    exact h2
  obtain ⟨figs, hp, ps, xps, xas, fy, elastic, q2, q7, l3, l2, total, maps, rfl, s1, s2, s3, s4, s5, s6, s7, -⟩ := C74_figures o
  have htot : ∀ d k, 0 ≤ totalRixs o.spectra d k := fun d k =>
    Finset.sum_nonneg fun a _ => Finset.sum_nonneg fun c _ => hnn.rixs.thermal a c d k
  have hpi := Real.pi_pos
  have hnonneg : ∀ {c : Curve} {a b : ℝ} {k : ℕ} {f : ℕ → ℝ}, ShowsOn c a b k f → (∀ i, 0 ≤ f i) → ∀ y ∈ c.y, 0 ≤ y := by
    intro c a b k f h hf y hy
    obtain ⟨i, hi, rfl⟩ := List.mem_iff_getElem.1 hy
    rw [h.y]
    exact hf i
  refine ⟨ps, xps, xas, fy, elastic, q2, q7, _, hp, curve_table htab.1 hrun.args.w s1, curve_table htab.2.1 hrun.args.w s2,
    curve_table htab.2.2.2 hrun.args.w s3, ?_, ?_, ?_⟩
  · have hf := htab.2.2.1
    have hw := hrun.args.wLoss
    apply List.ext_getElem
    · simp [hf.rows, hw.1, s6.length, s7.length]
    · intro i h1 h2
      have hi : i < S.wLoss.length := by simpa [hf.rows] using h1
      have hi2 : i < q2.y.length := by rw [s6.length, ← hw.1]; exact hi
      have hi3 : i < q7.y.length := by rw [s7.length, ← hw.1]; exact hi
      have := hf.row i hi
      rw [List.getElem?_eq_getElem (by rw [hf.rows]; exact hi)] at this
      simp only [List.getElem_map, List.getElem_zip]
      rw [Option.some.inj this, s6.y i hi2, s7.y i hi3]
      rfl
  · intro c hc
    simp only [List.mem_cons, List.not_mem_nil, or_false] at hc
    rcases hc with rfl | rfl | rfl | rfl | rfl | rfl | rfl
    · exact hnonneg s1 fun k => Finset.sum_nonneg fun t _ => hnn.ps.thermal t k
    · exact hnonneg s2 fun k => Finset.sum_nonneg fun t _ => hnn.xps.thermal t k
    · exact hnonneg s3 fun k => Finset.sum_nonneg fun t _ => hnn.xas.thermal t k
    · exact hnonneg s4 fun d => div_nonneg (mul_nonneg (by norm_num) (Finset.sum_nonneg fun k _ => htot d k)) (by linarith)
    · exact hnonneg s5 fun d => div_nonneg (mul_nonneg (by norm_num) (Finset.sum_nonneg fun k _ => htot d k)) (by linarith)
    · exact hnonneg s6 fun k => hnn.nixs.thermal 0 k
    · exact hnonneg s7 fun k => hnn.nixs.thermal 1 k
  · intro p hp
    obtain ⟨i, hi, rfl⟩ := List.mem_iff_getElem.1 hp
    rw [List.getElem_zip]
    dsimp only
    rw [s4.y, s5.y]
    have : ∑ k ∈ range 4000 with lossEnergy k < 0.2, totalRixs o.spectra i k ≤ ∑ k ∈ range 4000, totalRixs o.spectra i k :=
      Finset.sum_le_sum_of_subset_of_nonneg (Finset.filter_subset _ _) fun k _ _ => htot i k
    exact div_le_div_of_nonneg_right (mul_le_mul_of_nonneg_left this (by norm_num)) (by linarith)

end

/-- C74.  Files with other numbers of polarisations: with fewer than three in-coming ones, but not one
and one, no file can be plotted to the end. -/
theorem C74_two_polarisations (h : H5File) (r : Array4) (hr : h.rixs = some r) (h3 : r.d0 < 3)
    (h1 : ¬ (r.d0 = 1 ∧ r.d1 = 1)) : ∃ e, plotSpectra h = .error e := by
  cases hp : plotSpectra h with
  | error e => exact ⟨e, rfl⟩
  | ok figs =>
    exfalso
    unfold plotSpectra at hp
    obtain ⟨_, _, hp⟩ := bind_ok hp
    obtain ⟨_, _, hp⟩ := bind_ok hp
    obtain ⟨_, _, hp⟩ := bind_ok hp
    obtain ⟨_, _, hp⟩ := bind_ok hp
    obtain ⟨_, hp, _⟩ := bind_ok hp
    unfold plotRixs at hp
    rw [hr] at hp
    obtain ⟨wIn, _, hp⟩ := bind_ok hp
    obtain ⟨wLoss, _, hp⟩ := bind_ok hp
    obtain ⟨_, _, hp⟩ := bind_ok hp
    obtain ⟨_, _, hp⟩ := bind_ok hp
    obtain ⟨_, hp, _⟩ := bind_ok hp
    unfold rixsMaps at hp
    obtain ⟨_, _, hp⟩ := bind_ok hp
    obtain ⟨_, _, hp⟩ := bind_ok hp
    obtain ⟨_, _, hp⟩ := bind_ok hp
    obtain ⟨_, _, hp⟩ := bind_ok hp
    obtain ⟨_, _, hp⟩ := bind_ok hp
    obtain ⟨_, _, hp⟩ := bind_ok hp
    obtain ⟨_, _, hp⟩ := bind_ok hp
    obtain ⟨_, _, hp⟩ := bind_ok hp
    rw [if_neg h1] at hp
    by_cases c1 : r.d0 = 0 ∨ r.d1 = 0
    · rw [if_pos c1] at hp
      exact absurd (show Except.error PyErr.valueError = Except.ok _ from hp) nofun
    · rw [if_neg c1] at hp
      by_cases c2 : r.d0 = 1 ∨ r.d1 = 1
      · rw [if_pos c2] at hp
        exact absurd (show Except.error PyErr.indexError = Except.ok _ from hp) nofun
      · rw [if_neg c2, if_pos (show r.d0 ≤ 2 by omega)] at hp
        exact absurd (show Except.error PyErr.indexError = Except.ok _ from hp) nofun

/-- A file with one in-coming and two out-going polarisations. -/
example : ∃ h : H5File, ∃ r, h.rixs = some r ∧ r.d0 < 3 ∧ ¬ (r.d0 = 1 ∧ r.d1 = 1) :=
  ⟨⟨none, some [0, 1], some [0, 1], none, none, none, none, some ⟨1, 2, 2, 2, fun _ _ _ _ => 0⟩, none⟩, _, rfl, by decide, by decide⟩

end Verif
