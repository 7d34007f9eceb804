/-
Lemmas about plotSpectra.
-/
import Verif.Spec.PlotSpectra
import Verif.Lemmas.MainMeaning
import Verif.Lemmas.Hamiltonian
import Verif.Lemmas.Dipole

namespace Verif

open Spec Finset

theorem argmin_fold (ys : List ℝ) : ∀ (m : ℕ) (best r : ℕ × ℝ),
    (ys.zipIdx m).foldl (fun (best : ℕ × ℝ) p => if p.1 < best.2 then (p.2, p.1) else best) best = r →
    r.2 ≤ best.2 ∧ (∀ y ∈ ys, r.2 ≤ y) ∧ (r = best ∨ ∃ j, ∃ hj : j < ys.length, r = (m + j, ys[j])) := by
  induction ys with
  | nil =>
    rintro m best r rfl
    simp
  | cons y ys ih =>
    intro m best r hr
    rw [List.zipIdx_cons, List.foldl_cons] at hr
    obtain ⟨h1, h2, h3⟩ := ih _ _ _ hr
    by_cases hy : y < best.2
    · simp only [hy, if_true] at h1 h3
      refine ⟨by linarith, ?_, ?_⟩
      · intro z hz
        rcases List.mem_cons.1 hz with rfl | hz
        · exact h1
        · exact h2 z hz
      · right
        rcases h3 with h3 | ⟨j, hj, h3⟩
        · exact ⟨0, by simp, by simpa using h3⟩
        · exact ⟨j + 1, by simpa using hj, by rw [h3]; simp; omega⟩
    · simp only [hy, if_false] at h1 h3
      refine ⟨h1, ?_, ?_⟩
      · intro z hz
        rcases List.mem_cons.1 hz with rfl | hz
        · push Not at hy; linarith
        · exact h2 z hz
      · rcases h3 with h3 | ⟨j, hj, h3⟩
        · exact Or.inl h3
        · exact Or.inr ⟨j + 1, by simpa using hj, by rw [h3]; simp; omega⟩

theorem argmin_spec (l : List ℝ) (hl : l ≠ []) :
    ∃ i, argmin l = .ok i ∧ ∃ hi : i < l.length, ∀ y ∈ l, l[i] ≤ y := by
  cases l with
  | nil => exact absurd rfl hl
  | cons x xs =>
    refine ⟨_, rfl, ?_⟩
    obtain ⟨h1, h2, h3⟩ := argmin_fold xs 1 (0, x) _ rfl
    generalize hr : (xs.zipIdx 1).foldl (fun (best : ℕ × ℝ) p => if p.1 < best.2 then (p.2, p.1) else best) (0, x) = r at *
    have key : ∀ y ∈ x :: xs, r.2 ≤ y := by
      intro y hy
      rcases List.mem_cons.1 hy with rfl | hy
      · exact h1
      · exact h2 y hy
    rcases h3 with h3 | ⟨j, hj, h3⟩
    · rw [h3] at key
      rw [h3]
      exact ⟨by simp, by simpa using key⟩
    · rw [h3] at key
      rw [h3]
      refine ⟨by simp; omega, fun y hy => ?_⟩
      have := key y hy
      simp only [Nat.add_comm 1 j, List.getElem_cons_succ]
      exact this

theorem pltPlot_ok {x y : List ℝ} (h : x.length = y.length) : pltPlot x y = .ok ⟨x, y⟩ := if_pos h

section
variable (wIn wLoss : List ℝ) (r : Array4)

theorem fluorescence_ok (h : H5File) (h1 : h.wIn = some wIn) (h2 : h.wLoss = some wLoss) (e0 : r.d0 ≠ 0)
    (e2 : r.d2 = wIn.length) (e3 : r.d3 = wLoss.length) (x0 x1 : ℝ) (hx0 : pyGet wLoss 0 = .ok x0)
    (hx1 : pyGet wLoss 1 = .ok x1) :
    fluorescence r h = .ok [
      ⟨wIn, (List.range r.d2).map fun d => (x1 - x0) * ((List.range r.d3).map fun k => r.sum01 d k).sum * (1 / (Real.pi * r.d0))⟩,
      ⟨wIn, (List.range r.d2).map fun d => (x1 - x0) * ((List.range r.d3).map fun k =>
        if wLoss.getD k 1 < 0.2 then r.sum01 d k else 0).sum * (1 / (Real.pi * r.d0))⟩] := by
  unfold fluorescence
  rw [h1, h2]
  have s1 : r.sum013 ((List.range r.d3).map fun _ => true) = .ok ((List.range r.d2).map fun d => ((List.range r.d3).map fun k => r.sum01 d k).sum) := by
    unfold Array4.sum013
    rw [if_pos (by simp)]
    congr 1
    refine List.map_congr_left fun d _ => ?_
    congr 1
    refine List.map_congr_left fun k hk => ?_
    rw [if_pos]
    rw [List.getD_eq_getElem _ _ (by simpa using hk)]
    simp
  have s2 : r.sum013 (wLoss.map fun x => decide (x < 0.2)) = .ok ((List.range r.d2).map fun d => ((List.range r.d3).map fun k =>
        if wLoss.getD k 1 < 0.2 then r.sum01 d k else 0).sum) := by
    unfold Array4.sum013
    rw [if_pos (by simp [e3])]
    congr 1
    refine List.map_congr_left fun d _ => ?_
    congr 1
    refine List.map_congr_left fun k hk => ?_
    have hk : k < wLoss.length := by rw [← e3]; simpa using hk
    rw [List.getD_eq_getElem _ _ (by simpa using hk), List.getD_eq_getElem _ _ hk, List.getElem_map]
    simp
  simp only [e0, if_false, local', hx0, hx1, s1, s2, ok_bind, pure_ok]
  rw [pltPlot_ok (by simp [e2]), pltPlot_ok (by simp [e2])]
  simp only [ok_bind, pure_ok, List.map_map]
  rfl

theorem lossCurves_ok (e2 : r.d2 = wIn.length) (e3 : r.d3 = wLoss.length) (hne : wIn ≠ []) (es : List ℝ) (offset : ℝ) :
    ∃ cs, lossCurves r wIn wLoss es offset = .ok cs ∧ cs.length = es.length ∧
      ∀ n (hn : n < cs.length), ∃ d, ∃ hd : d < wIn.length,
        (∀ x ∈ wIn, |wIn[d] - es.getD (es.length - 1 - n) 0| ≤ |x - es.getD (es.length - 1 - n) 0|) ∧
        cs[n] = ⟨wLoss, (List.range wLoss.length).map fun k =>
          offset * ((es.length : ℝ) - 1 - (n : ℝ)) + r.sum01 d k⟩ := by
  have hA : ∀ e : ℝ, ∃ d, argmin (wIn.map fun x => |x - e|) = .ok d ∧ ∃ hd : d < wIn.length,
      ∀ x ∈ wIn, |wIn[d] - e| ≤ |x - e| := by
    intro e
    obtain ⟨i, h1, hi, h2⟩ := argmin_spec (wIn.map fun x => |x - e|) (by simpa using hne)
    refine ⟨i, h1, by simpa using hi, fun x hx => ?_⟩
    have := h2 (|x - e|) (List.mem_map.2 ⟨x, hx, rfl⟩)
    simpa using this
  choose D hD1 hD2 hD3 using hA
  refine ⟨es.reverse.zipIdx.map fun p => ⟨wLoss, (List.range wLoss.length).map fun k =>
          offset * ((es.length : ℝ) - 1 - (p.2 : ℝ)) + r.sum01 (D p.1) k⟩, ?_, by simp, ?_⟩
  · unfold lossCurves
    refine mapM_ok _ _ _ fun p _ => ?_
    rw [hD1]
    simp only [ok_bind]
    rw [if_neg (by rw [e2]; exact not_le.2 (hD2 _)), pltPlot_ok (by simp [e3]), e3]
  · intro n hn
    have hn' : n < es.length := by simpa using hn
    have he : es.getD (es.length - 1 - n) 0 = es.reverse[n]'(by simpa using hn') := by
      rw [List.getD_eq_getElem _ _ (by omega), List.getElem_reverse]
    rw [he]
    exact ⟨D (es.reverse[n]'(by simpa using hn')), hD2 _, hD3 _, by simp⟩

theorem rixsMaps_ok (e0 : r.d0 = 3) (e1 : r.d1 = 3) (x0 x1 xn y0 y1 yn : ℝ) (hx0 : pyGet wIn 0 = .ok x0)
    (hx1 : pyGet wIn 1 = .ok x1) (hxn : pyGet wIn (-1) = .ok xn) (hy0 : pyGet wLoss 0 = .ok y0)
    (hy1 : pyGet wLoss 1 = .ok y1) (hyn : pyGet wLoss (-1) = .ok yn) :
    rixsMaps r wIn wLoss = .ok [
      .map ⟨(x0 - (x1 - x0) / 2, xn + (x1 - x0) / 2, y0 - (y1 - y0) / 2, yn + (y1 - y0) / 2),
        masked r.d3 r.d2 (fun k d => r.sum01 d k) 1e-6⟩,
      .grid ((List.range 3).map fun i => (List.range 3).map fun j =>
        ⟨(x0 - (x1 - x0) / 2, xn + (x1 - x0) / 2, y0 - (y1 - y0) / 2, yn + (y1 - y0) / 2),
        masked r.d3 r.d2 (fun k d => r.val i j d k) 1e-6⟩)] := by
  unfold rixsMaps
  simp only [hx0, hx1, hxn, hy0, hy1, hyn, ok_bind, pure_ok, e0, e1]
  norm_num

end

theorem showsMap_of {y : ℕ → ℕ → ℝ} {x0 x1 xn y0 y1 yn : ℝ} (h0 : x0 = inEnergy 0) (h1 : x1 = inEnergy 1)
    (hn : xn = inEnergy 49) (g0 : y0 = lossEnergy 0) (g1 : y1 = lossEnergy 1) (gn : yn = lossEnergy 3999)
    {rows cols : ℕ} (hr : rows = 4000) (hc : cols = 50) :
    ShowsMap ⟨(x0 - (x1 - x0) / 2, xn + (x1 - x0) / 2, y0 - (y1 - y0) / 2, yn + (y1 - y0) / 2),
        masked rows cols (fun k d => y d k) 1e-6⟩ y := by
  refine ⟨by rw [h0, h1], by rw [hn, h0, h1], by rw [g0, g1], by rw [gn, g0, g1], by simp [masked, hr], ?_, ?_⟩
  · intro l hl
    obtain ⟨k, _, rfl⟩ := List.mem_map.1 hl
    simp [hc]
  · intro k hk d hd
    refine ⟨_, _, by rw [List.getElem?_eq_getElem (by simp [masked, hr, hk])],
      by rw [List.getElem?_eq_getElem (by simp [masked, hc, hd])], ?_, ?_⟩
    · simp [masked]
    · intro v
      simp only [masked, List.getElem_map, List.getElem_range]
      split
      · intro h; cases h
      · intro h; exact (Option.some.inj h).symm

theorem mem_mesh {xs : List ℝ} {a b : ℝ} {k : ℕ} (h : Mesh xs a b k) {i : ℕ} (hi : i < k) :
    a + (b - a) * i / (k - 1) ∈ xs := by
  rw [← h.2 i (by rw [h.1]; exact hi)]
  exact List.getElem_mem _

theorem pyGet_mesh {xs : List ℝ} {a b : ℝ} {k : ℕ} (h : Mesh xs a b k) {i : ℕ} (hi : i < k) :
    pyGet xs (i : ℤ) = .ok (a + (b - a) * i / (k - 1)) := by
  rw [pyGet_ofNat xs i (by rw [h.1]; exact hi), h.2]

theorem pyGet_last {α : Type} (l : List α) (h : l ≠ []) : pyGet l (-1) = .ok (l[l.length - 1]'(by
    have := List.length_pos_iff.2 h; omega)) := by
  have hp := List.length_pos_iff.2 h
  have e : pyIndex l.length (-1) = some (l.length - 1) := by
    unfold pyIndex
    split
    · omega
    · split
      · congr 1; omega
      · omega
  unfold pyGet
  rw [e]
  simp only
  rw [List.getElem?_eq_getElem (by omega)]

theorem pyGet_mesh_last {xs : List ℝ} {a b : ℝ} {k : ℕ} (h : Mesh xs a b k) (hk : 0 < k) :
    pyGet xs (-1) = .ok (a + (b - a) * ((k - 1 : ℕ) : ℝ) / (k - 1)) := by
  rw [pyGet_last xs (by rintro rfl; have := h.1; simp at this; omega), h.2, h.1]

theorem nearest_in (e : ℝ) (h1 : -10 ≤ e) (h2 : e ≤ 20) : ∃ d < 50, |inEnergy d - e| ≤ 15 / 49 := by
  -- the integer nearest to 49 (e + 10) / 30
  have hfl := Int.floor_le (49 * (e + 10) / 30 + 1 / 2)
  have hlt := Int.lt_floor_add_one (49 * (e + 10) / 30 + 1 / 2)
  set z := ⌊49 * (e + 10) / 30 + 1 / 2⌋ with hz
  have hz0 : 0 ≤ z := by
    rw [hz]
    apply Int.floor_nonneg.2
    linarith
  obtain ⟨n, hn⟩ := Int.eq_ofNat_of_zero_le hz0
  have hn' : (z : ℝ) = n := by rw [hn]; simp
  rw [hn'] at hfl hlt
  have hn50 : n < 50 := by
    have : (n : ℝ) < 50 := by linarith
    exact_mod_cast this
  refine ⟨n, hn50, ?_⟩
  rw [abs_le]
  unfold inEnergy
  constructor <;> linarith

end Verif
