/-
Heights and slopes of sums of Lorentzians and of their averages.
-/
import Verif.Spec.Heights
import Verif.Spec.Simulate
import Verif.Lemmas.Thresholds

namespace Verif

open Finset Spec

noncomputable section

/-- A spectrum of broadening `δ` and weight at most `W`. -/
structure Gentle (δ W : ℝ) (F : ℝ → ℝ) : Prop where
  low : ∀ x, 0 ≤ F x
  high : ∀ x, F x ≤ W / δ
  slope : ∀ x x', |F x - F x'| ≤ W * |x - x'| / δ ^ 2

theorem lorentzian_slope {δ : ℝ} (hδ : 0 < δ) (y y' : ℝ) : |lorentzian δ y - lorentzian δ y'| ≤ |y - y'| / δ ^ 2 := by
  unfold lorentzian
  have hA : 0 < y ^ 2 + δ ^ 2 := by positivity
  have hB : 0 < y' ^ 2 + δ ^ 2 := by positivity
  have e : δ / (y ^ 2 + δ ^ 2) - δ / (y' ^ 2 + δ ^ 2) = (y' - y) * (δ * (y' + y)) / ((y ^ 2 + δ ^ 2) * (y' ^ 2 + δ ^ 2)) := by
    field_simp
    ring
  rw [e, abs_div, abs_mul, abs_of_pos (mul_pos hA hB), abs_sub_comm y' y, div_le_div_iff₀ (mul_pos hA hB) (by positivity), mul_assoc]
  refine mul_le_mul_of_nonneg_left ?_ (abs_nonneg _)
  have h1 : |δ * (y' + y)| ≤ ((y ^ 2 + δ ^ 2) + (y' ^ 2 + δ ^ 2)) / 2 := by
    rw [abs_le]
    constructor <;> nlinarith [sq_nonneg (y - δ), sq_nonneg (y' - δ), sq_nonneg (y + δ), sq_nonneg (y' + δ)]
  have h2 : ((y ^ 2 + δ ^ 2) + (y' ^ 2 + δ ^ 2)) / 2 * δ ^ 2 ≤ (y ^ 2 + δ ^ 2) * (y' ^ 2 + δ ^ 2) := by
    nlinarith [mul_nonneg (sq_nonneg y) (sq_nonneg y'), mul_nonneg (sq_nonneg y) (sq_nonneg δ), mul_nonneg (sq_nonneg y') (sq_nonneg δ)]
  exact (mul_le_mul_of_nonneg_right h1 (by positivity)).trans h2

theorem Gentle.add {δ W W' : ℝ} {F G : ℝ → ℝ} (h : Gentle δ W F) (h' : Gentle δ W' G) : Gentle δ (W + W') fun x => F x + G x where
  low x := add_nonneg (h.low x) (h'.low x)
  high x := by rw [add_div]; exact add_le_add (h.high x) (h'.high x)
  slope x x' := by
    rw [add_mul, add_div, add_sub_add_comm]
    exact (abs_add_le _ _).trans (add_le_add (h.slope x x') (h'.slope x x'))

theorem gentle_zero (δ : ℝ) : Gentle δ 0 fun _ => 0 where
  low _ := le_rfl
  high _ := by simp
  slope x x' := by simp

theorem gentle_sum {δ : ℝ} {F : ℕ → ℝ → ℝ} {W : ℕ → ℝ} (n : ℕ) (h : ∀ t < n, Gentle δ (W t) (F t)) :
    Gentle δ (∑ t ∈ range n, W t) fun x => ∑ t ∈ range n, F t x := by
  induction n with
  | zero => simpa using gentle_zero δ
  | succ n ih =>
    simp only [sum_range_succ]
    exact (ih fun t ht => h t (by omega)).add (h n (by omega))

theorem Gentle.mono {δ W W' : ℝ} (hδ : 0 < δ) {F : ℝ → ℝ} (h : Gentle δ W F) (hW : W ≤ W') : Gentle δ W' F where
  low := h.low
  high x := (h.high x).trans (div_le_div_of_nonneg_right hW hδ.le)
  slope x x' := (h.slope x x').trans (div_le_div_of_nonneg_right (mul_le_mul_of_nonneg_right hW (abs_nonneg _)) (by positivity))

theorem Gentle.comp {δ W : ℝ} {F : ℝ → ℝ} (h : Gentle δ W F) {g : ℝ → ℝ} (hg : ∀ x x', |g x - g x'| = |x - x'|) :
    Gentle δ W fun x => F (g x) where
  low x := h.low _
  high x := h.high _
  slope x x' := by rw [← hg x x']; exact h.slope _ _

theorem gentle_lorentzian {δ w : ℝ} (hδ : 0 < δ) (hw : 0 ≤ w) (e : ℝ) : Gentle δ w fun x => w * lorentzian δ (x - e) where
  low x := mul_nonneg hw (by unfold lorentzian; positivity)
  high x := by
    rw [div_eq_mul_inv]
    refine mul_le_mul_of_nonneg_left ?_ hw
    unfold lorentzian
    rw [div_le_iff₀ (by positivity)]
    have : δ⁻¹ * ((x - e) ^ 2 + δ ^ 2) = δ⁻¹ * (x - e) ^ 2 + δ := by field_simp
    rw [this]
    have : 0 ≤ δ⁻¹ * (x - e) ^ 2 := by positivity
    linarith
  slope x x' := by
    rw [← mul_sub, abs_mul, abs_of_nonneg hw, mul_div_assoc]
    refine mul_le_mul_of_nonneg_left ((lorentzian_slope hδ _ _).trans (le_of_eq ?_)) hw
    congr 2
    ring

theorem gentle_lehmann {δ : ℝ} (hδ : 0 < δ) {L : List (ℝ × ℝ)} (hL : ∀ p ∈ L, 0 ≤ p.2) :
    Gentle δ (totalWeight L) fun x => -(lehmann L ((x : ℂ) + Complex.I * δ)).im := by
  induction L with
  | nil => simpa [lehmann, totalWeight] using gentle_zero δ
  | cons p L ih =>
    have e : (fun x : ℝ => -(lehmann (p :: L) ((x : ℂ) + Complex.I * δ)).im)
        = fun x => p.2 * lorentzian δ (x - p.1) + -(lehmann L ((x : ℂ) + Complex.I * δ)).im := by
      funext x
      unfold lehmann
      rw [List.map_cons, List.sum_cons, Complex.add_im, lorentz_im]
      ring
    have e2 : totalWeight (p :: L) = p.2 + totalWeight L := by unfold totalWeight; simp
    rw [e, e2]
    exact (gentle_lorentzian hδ (hL p (List.mem_cons_self ..)) p.1).add (ih fun q hq => hL q (List.mem_cons_of_mem _ hq))

theorem lehmann_conj_im (L : List (ℝ × ℝ)) (x δ : ℝ) :
    (lehmann L ((x : ℂ) - Complex.I * δ)).im = -(lehmann L ((x : ℂ) + Complex.I * δ)).im := by
  induction L with
  | nil => simp [lehmann]
  | cons p L ih =>
    unfold lehmann at ih ⊢
    rw [List.map_cons, List.sum_cons, List.map_cons, List.sum_cons, Complex.add_im, Complex.add_im, ih, lorentz_im,
      show (x : ℂ) - Complex.I * δ - p.1 = (x : ℂ) + Complex.I * ((-δ : ℝ) : ℂ) - p.1 by push_cast; ring, lorentz_im]
    unfold lorentzian
    rw [neg_sq, neg_div]
    ring

/-! ### Averages -/

theorem thermal_weights {kB T : ℝ} {es : List ℝ} (hne : es ≠ []) : ∃ a : ℕ → ℝ, (∀ i, 0 ≤ a i) ∧ (∑ i ∈ range es.length, a i = 1) ∧
    ∀ x avg, IsThermal kB T es x avg → avg = ∑ i ∈ range es.length, a i * x i := by
  have hpos : 0 < ∑ i : Fin es.length, Real.exp (-es[i] / (kB * T)) := by
    have : Nonempty (Fin es.length) := ⟨⟨0, List.length_pos_iff.2 hne⟩⟩
    exact sum_pos (fun i _ => Real.exp_pos _) univ_nonempty
  refine ⟨fun i => Real.exp (-es.getD i 0 / (kB * T)) / ∑ i : Fin es.length, Real.exp (-es[i] / (kB * T)), fun i => by positivity, ?_, ?_⟩
  · rw [← Finset.sum_div, ← Fin.sum_univ_eq_sum_range (fun i => Real.exp (-es.getD i 0 / (kB * T)))]
    rw [div_eq_one_iff_eq hpos.ne']
    exact sum_congr rfl fun i _ => by simp
  · intro x avg h
    rw [h, ← Fin.sum_univ_eq_sum_range (fun i => Real.exp (-es.getD i 0 / (kB * T)) / (∑ i : Fin es.length, Real.exp (-es[i] / (kB * T))) * x i),
      Finset.sum_div]
    exact sum_congr rfl fun i _ => by rw [List.getD_eq_getElem _ _ i.2, mul_div_right_comm]; rfl

theorem gentle_mean {δ W : ℝ} {n : ℕ} {a : ℕ → ℝ} (ha : ∀ i, 0 ≤ a i) (h1 : ∑ i ∈ range n, a i = 1) {F : ℕ → ℝ → ℝ}
    (h : ∀ i < n, Gentle δ W (F i)) : Gentle δ W fun x => ∑ i ∈ range n, a i * F i x := by
  have := gentle_sum (δ := δ) (F := fun i x => a i * F i x) (W := fun i => a i * W) n fun i hi => ⟨
    fun x => mul_nonneg (ha i) ((h i hi).low x),
    fun x => by rw [mul_div_assoc]; exact mul_le_mul_of_nonneg_left ((h i hi).high x) (ha i),
    fun x x' => by
      rw [← mul_sub, abs_mul, abs_of_nonneg (ha i), mul_assoc, mul_div_assoc]
      exact mul_le_mul_of_nonneg_left ((h i hi).slope x x') (ha i)⟩
  rwa [← sum_mul, h1, one_mul] at this

/-- The text file of gentle spectra. -/
theorem bounded_table {kB T δ top total : ℝ} {es w : List ℝ} {n : ℕ} {s : SpectrumFiles} (hs : FilesOf kB T es w n s) (hne : es ≠ [])
    {F : ℕ → ℕ → ℝ → ℝ} (hF : ∀ i < es.length, ∀ t < n, ∀ k (hk : k < w.length), s.data i t k = F i t w[k])
    (h1 : ∀ i < es.length, ∀ t < n, Gentle δ top (F i t))
    (h2 : ∀ i < es.length, Gentle δ total fun x => ∑ t ∈ range n, F i t x) : BoundedTable n δ top total s.table := by
  obtain ⟨a, a0, a1, a2⟩ := thermal_weights (kB := kB) (T := T) hne
  have g1 : ∀ t < n, Gentle δ top fun x => ∑ i ∈ range es.length, a i * F i t x := fun t ht =>
    gentle_mean a0 a1 fun i hi => h1 i hi t ht
  have g2 : Gentle δ total fun x => ∑ i ∈ range es.length, a i * ∑ t ∈ range n, F i t x := gentle_mean a0 a1 h2
  have ev : ∀ t < n, ∀ k (hk : k < w.length), s.thermal t k = ∑ i ∈ range es.length, a i * F i t w[k] := by
    intro t ht k hk
    rw [a2 _ _ (hs.thermal t k)]
    exact sum_congr rfl fun i hi => by rw [hF i (mem_range.1 hi) t ht k hk]
  have es' : ∀ k (hk : k < w.length), ∑ t ∈ range n, s.thermal t k = ∑ i ∈ range es.length, a i * ∑ t ∈ range n, F i t w[k] := by
    intro k hk
    rw [sum_congr rfl fun t ht => ev t (mem_range.1 ht) k hk, sum_comm]
    exact sum_congr rfl fun i _ => by rw [mul_sum]
  have rows : ∀ r ∈ s.table, ∃ k, ∃ hk : k < w.length, r = w[k] :: (∑ t ∈ range n, s.thermal t k) :: (List.range n).map fun t => s.thermal t k := by
    intro r hr
    obtain ⟨k, hk, rfl⟩ := List.getElem_of_mem hr
    have hk' : k < w.length := by rw [← hs.rows]; exact hk
    have := hs.row k hk'
    rw [List.getElem?_eq_getElem hk, Option.some.injEq] at this
    exact ⟨k, hk', this⟩
  refine ⟨fun r hr => ?_, fun w₁ c₁ x₁ w₂ c₂ x₂ hr₁ hr₂ => ?_⟩
  · obtain ⟨k, hk, rfl⟩ := rows r hr
    refine ⟨_, _, _, rfl, by simp, ?_, ?_, fun x hx => ?_⟩
    · rw [es' k hk]; exact g2.low _
    · rw [es' k hk]; exact g2.high _
    · obtain ⟨t, ht, rfl⟩ := List.mem_map.1 hx
      rw [ev t (List.mem_range.1 ht) k hk]
      exact ⟨(g1 t (List.mem_range.1 ht)).low _, (g1 t (List.mem_range.1 ht)).high _⟩
  · obtain ⟨k, hk, e⟩ := rows _ hr₁
    obtain ⟨k', hk', e'⟩ := rows _ hr₂
    simp only [List.cons.injEq] at e e'
    obtain ⟨rfl, rfl, rfl⟩ := e
    obtain ⟨rfl, rfl, rfl⟩ := e'
    refine ⟨?_, fun t ht => ?_⟩
    · rw [es' k hk, es' k' hk']; exact g2.slope _ _
    · rw [List.getD_eq_getElem _ _ (by simpa using ht), List.getD_eq_getElem _ _ (by simpa using ht), List.getElem_map, List.getElem_map,
        List.getElem_range, ev t ht k hk, ev t ht k' hk']
      exact (g1 t ht).slope _ _

end

end Verif
