/-
Helper lemmas: the density matrix in cubic harmonics, eg and t2g occupations.
-/
import Verif.Lemmas.Cubic

set_option linter.unusedSectionVars false
set_option linter.unusedSimpArgs false

namespace Verif

open Spec Finset Psr

theorem unitary_spinDouble {u : CMat} (hu : IsUnitary u) : IsUnitary (spinDouble u) := by
  obtain ⟨h0, h1, h2⟩ := hu
  have hv : ∀ a b, (spinDouble u).val a b = if u.rows ≤ a ∧ u.cols ≤ b then u.val (a - u.rows) (b - u.cols)
      else if a < u.rows ∧ b < u.cols then u.val a b else 0 := fun a b => rfl
  refine ⟨by simp [spinDouble, CMat.zeros, h0], ?_, ?_⟩
  · intro a ha b hb
    change a < 2 * u.cols at ha; change b < 2 * u.cols at hb
    change ∑ k ∈ range (2 * u.rows), _ = _
    rw [two_mul, sum_range_add]
    have e1 : ∀ k ∈ range u.rows, star ((spinDouble u).val k a) * (spinDouble u).val k b
        = if a < u.cols ∧ b < u.cols then star (u.val k a) * u.val k b else 0 := by
      intro k hk
      rw [mem_range] at hk
      have hk' : ¬ u.rows ≤ k := by omega
      simp only [hv, hk', hk, false_and, if_false, true_and]
      by_cases x : a < u.cols <;> by_cases y : b < u.cols <;> simp [x, y]
    have e2 : ∀ k ∈ range u.rows, star ((spinDouble u).val (u.rows + k) a) * (spinDouble u).val (u.rows + k) b
        = if u.cols ≤ a ∧ u.cols ≤ b then star (u.val k (a - u.cols)) * u.val k (b - u.cols) else 0 := by
      intro k hk
      rw [mem_range] at hk
      have hk' : ¬ u.rows + k < u.rows := by omega
      have hk2 : u.rows ≤ u.rows + k := by omega
      simp only [hv, hk', hk2, false_and, if_false, true_and, Nat.add_sub_cancel_left]
      by_cases x : u.cols ≤ a <;> by_cases y : u.cols ≤ b <;> simp [x, y]
    rw [sum_congr rfl e1, sum_congr rfl e2]
    by_cases x : a < u.cols <;> by_cases y : b < u.cols
    · simp only [x, y, show ¬ u.cols ≤ a by omega, false_and, and_self, if_true, if_false, sum_const_zero, add_zero]
      rw [h1 a x b y]
    · simp [x, y, show ¬ u.cols ≤ a by omega, show ¬ a = b by omega]
    · simp [x, y, show ¬ u.cols ≤ b by omega, show ¬ a = b by omega]
    · simp only [x, y, show u.cols ≤ a by omega, show u.cols ≤ b by omega, and_self, if_true, if_false,
        sum_const_zero, zero_add]
      rw [h1 _ (by omega) _ (by omega)]
      have : a - u.cols = b - u.cols ↔ a = b := by omega
      simp only [this]
  · intro a ha b hb
    change a < 2 * u.rows at ha; change b < 2 * u.rows at hb
    change ∑ k ∈ range (2 * u.cols), _ = _
    rw [two_mul, sum_range_add]
    have e1 : ∀ k ∈ range u.cols, (spinDouble u).val a k * star ((spinDouble u).val b k)
        = if a < u.rows ∧ b < u.rows then u.val a k * star (u.val b k) else 0 := by
      intro k hk
      rw [mem_range] at hk
      have hk' : ¬ u.cols ≤ k := by omega
      simp only [hv, hk', hk, and_false, if_false, and_true]
      by_cases x : a < u.rows <;> by_cases y : b < u.rows <;> simp [x, y]
    have e2 : ∀ k ∈ range u.cols, (spinDouble u).val a (u.cols + k) * star ((spinDouble u).val b (u.cols + k))
        = if u.rows ≤ a ∧ u.rows ≤ b then u.val (a - u.rows) k * star (u.val (b - u.rows) k) else 0 := by
      intro k hk
      rw [mem_range] at hk
      have hk' : ¬ u.cols + k < u.cols := by omega
      have hk2 : u.cols ≤ u.cols + k := by omega
      simp only [hv, hk', hk2, and_false, if_false, and_true, Nat.add_sub_cancel_left]
      by_cases x : u.rows ≤ a <;> by_cases y : u.rows ≤ b <;> simp [x, y]
    rw [sum_congr rfl e1, sum_congr rfl e2]
    by_cases x : a < u.rows <;> by_cases y : b < u.rows
    · simp only [x, y, show ¬ u.rows ≤ a by omega, false_and, and_self, if_true, if_false, sum_const_zero, add_zero]
      rw [h2 a x b y]
    · simp [x, y, show ¬ u.rows ≤ a by omega, show ¬ a = b by omega]
    · simp [x, y, show ¬ u.rows ≤ b by omega, show ¬ a = b by omega]
    · simp only [x, y, show u.rows ≤ a by omega, show u.rows ≤ b by omega, and_self, if_true, if_false,
        sum_const_zero, zero_add]
      rw [h2 _ (by omega) _ (by omega)]
      have : a - u.rows = b - u.rows ↔ a = b := by omega
      simp only [this]

/-! ### accumulating loops -/

section
variable {α σ : Type} (val : σ → ℂ)

theorem foldl_val (L : List α) (step : σ → α → σ) (w : α → ℂ)
    (h : ∀ a ∈ L, ∀ d, val (step d a) = val d + w a) (d : σ) :
    val (L.foldl step d) = val d + (L.map w).sum := by
  induction L generalizing d with
  | nil => simp
  | cons a L ih =>
    rw [List.foldl_cons, ih (fun b hb => h b (by simp [hb])), h a (by simp), List.map_cons, List.sum_cons,
      add_assoc]

theorem foldlM_val {τ : Type} (val : τ → σ → ℂ) (L : List α) (step : σ → α → Py σ) (w : α → τ → ℂ)
    (h : ∀ a ∈ L, ∀ d, ∃ d', step d a = .ok d' ∧ ∀ t, val t d' = val t d + w a t) (d : σ) :
    ∃ d', L.foldlM step d = .ok d' ∧ ∀ t, val t d' = val t d + (L.map fun a => w a t).sum := by
  induction L generalizing d with
  | nil => exact ⟨d, rfl, fun t => by simp⟩
  | cons a L ih =>
    obtain ⟨d1, e1, v1⟩ := h a (by simp) d
    obtain ⟨d2, e2, v2⟩ := ih (fun b hb => h b (by simp [hb])) d1
    refine ⟨d2, ?_, fun t => ?_⟩
    · rw [List.foldlM_cons, e1]; exact e2
    · rw [v2, v1, List.map_cons, List.sum_cons, add_assoc]

end

theorem list_sum_single {α : Type} [DecidableEq α] {L : List α} (hnd : L.Nodup) {x : α} (hx : x ∈ L) (F : α → ℂ)
    (h : ∀ a ∈ L, a ≠ x → F a = 0) : (L.map F).sum = F x := by
  rw [← List.sum_toFinset _ hnd]
  exact sum_eq_single x (fun a ha => h a (List.mem_toFinset.1 ha)) (fun hn => absurd (List.mem_toFinset.2 hx) hn)

theorem list_sum_zero {α : Type} {L : List α} {F : α → ℂ} (h : ∀ a ∈ L, F a = 0) : (L.map F).sum = 0 := by
  apply List.sum_eq_zero
  intro y hy
  obtain ⟨a, ha, rfl⟩ := List.mem_map.1 hy
  exact h a ha

/-! ### getDensityMatrixCubic -/

theorem cubicStep_val (nSph : DensityMatrix) (u : CMat) (i j si sj mk mm : ℤ) (k m : ℕ)
    (key : (ℤ × ℤ) × (ℤ × ℤ)) (d : CubicDensity) :
    (Dict.get? (cubicStep nSph u i j si sj mk mm k m d) key).getD 0 = (Dict.get? d key).getD 0
      + if ((si, i), (sj, j)) = key then
          star (u.val m i.toNat) * (Dict.get? nSph (.imp 2 si mm, .imp 2 sj mk)).getD 0 * u.val k j.toNat
        else 0 := by
  unfold cubicStep
  cases h : Dict.get? nSph (.imp 2 si mm, .imp 2 sj mk) with
  | none => simp
  | some x =>
    simp only [Option.getD_some]
    split
    · next hne =>
      rw [get?_addAt]
      by_cases hk : ((si, i), (sj, j)) = key
      · subst hk
        simp only [if_true]
        cases Dict.get? d ((si, i), (sj, j)) <;> simp
      · simp [hk]
    · next hz =>
      rw [not_not.1 hz]; simp

theorem sum_m5 (F : ℤ → ℕ → ℂ) :
    ((pyRange (-2) 3).zipIdx.map fun k => F k.1 k.2).sum = ∑ k ∈ range 5, F ((k : ℤ) - 2) k := by
  have : (pyRange (-2) 3).zipIdx = [(-2, 0), (-1, 1), (0, 2), (1, 3), (2, 4)] := by decide
  rw [this]
  simp [sum_range_succ]
  ring

theorem cubicLoop_val (nSph : DensityMatrix) (u : CMat) (i j si sj : ℤ) (hi : 0 ≤ i ∧ i < 5) (hj : 0 ≤ j ∧ j < 5)
    (hsi : si = 0 ∨ si = 1) (hsj : sj = 0 ∨ sj = 1) :
    (Dict.get? ((pyRange 0 5).foldl (fun nCub i => (pyRange 0 5).foldl (fun nCub j =>
    (pyRange 0 2).foldl (fun nCub si => (pyRange 0 2).foldl (fun nCub sj =>
      (pyRange (-2) 3).zipIdx.foldl (fun nCub k => (pyRange (-2) 3).zipIdx.foldl (fun nCub m =>
        cubicStep nSph u i j si sj k.1 m.1 k.2 m.2 nCub) nCub) nCub) nCub) nCub) nCub) [])
        ((si, i), (sj, j))).getD 0
      = ∑ k ∈ range 5, ∑ m ∈ range 5, star (u.val m i.toNat) *
        (Dict.get? nSph (.imp 2 si ((m : ℤ) - 2), .imp 2 sj ((k : ℤ) - 2))).getD 0 * u.val k j.toNat := by
  let val : CubicDensity → ℂ := fun d => (Dict.get? d ((si, i), (sj, j))).getD 0
  let w : ℤ → ℤ → ℤ → ℤ → ℤ × ℕ → ℤ × ℕ → ℂ := fun i' j' si' sj' k m =>
    if ((si', i'), (sj', j')) = ((si, i), (sj, j)) then
          star (u.val m.2 i'.toNat) * (Dict.get? nSph (.imp 2 si' m.1, .imp 2 sj' k.1)).getD 0 * u.val k.2 j'.toNat
        else 0
  have key := foldl_val val (pyRange 0 5) _ _ (fun i' _ d => foldl_val val (pyRange 0 5) _ _ (fun j' _ d =>
    foldl_val val (pyRange 0 2) _ _ (fun si' _ d => foldl_val val (pyRange 0 2) _ _ (fun sj' _ d =>
      foldl_val val (pyRange (-2) 3).zipIdx _ _ (fun k _ d => foldl_val val (pyRange (-2) 3).zipIdx _ (w i' j' si' sj' k)
        (fun m _ d => cubicStep_val nSph u i' j' si' sj' k.1 m.1 k.2 m.2 ((si, i), (sj, j)) d) d) d) d) d) d) []
  refine key.trans ?_
  have hv : val [] = 0 := rfl
  rw [hv, zero_add]
  rw [list_sum_single (nodup_pyRange 0 5) (x := i) (by rw [mem_pyRange]; omega),
    list_sum_single (nodup_pyRange 0 5) (x := j) (by rw [mem_pyRange]; omega),
    list_sum_single (nodup_pyRange 0 2) (x := si) (by rw [mem_pyRange]; omega),
    list_sum_single (nodup_pyRange 0 2) (x := sj) (by rw [mem_pyRange]; omega)]
  · simp only [w, if_true]
    rw [sum_m5 (fun a b => ((pyRange (-2) 3).zipIdx.map fun m => star (u.val m.2 i.toNat) *
      (Dict.get? nSph (.imp 2 si m.1, .imp 2 sj a)).getD 0 * u.val b j.toNat).sum)]
    refine sum_congr rfl fun k _ => ?_
    rw [sum_m5 (fun a b => star (u.val b i.toNat) *
      (Dict.get? nSph (.imp 2 si a, .imp 2 sj ((k : ℤ) - 2))).getD 0 * u.val k j.toNat)]
  · intro a _ ha
    refine list_sum_zero fun k _ => list_sum_zero fun m _ => ?_
    simp [w, ha]
  · intro a _ ha
    refine list_sum_zero fun _ _ => list_sum_zero fun k _ => list_sum_zero fun m _ => ?_
    simp [w, ha]
  · intro a _ ha
    refine list_sum_zero fun _ _ => list_sum_zero fun _ _ => list_sum_zero fun k _ => list_sum_zero fun m _ => ?_
    simp [w, ha]
  · intro a _ ha
    refine list_sum_zero fun _ _ => list_sum_zero fun _ _ => list_sum_zero fun _ _ => list_sum_zero fun k _ =>
      list_sum_zero fun m _ => ?_
    simp [w, ha]

section
variable {nBaths : Dict ℕ ℕ} (hn : Dict.NodupKeys nBaths) (hl : 2 ∈ Dict.keys nBaths)
  {psi : Psi ℂ} (hpsi : IsState (nSpinOrbitals nBaths) psi)

/-- Position of the d orbital of spin `s` in row `k` of the transformation. -/
abbrev posD (nBaths : Dict ℕ ℕ) (s : ℤ) (k : ℕ) : ℕ := pos nBaths (.imp 2 s ((k : ℤ) - 2))

theorem shell_row {s : ℤ} (hs : s = 0 ∨ s = 1) {k : ℕ} (hk : k ∈ range 5) : (s, (k : ℤ) - 2) ∈ shell 2 := by
  rw [mem_range] at hk
  rw [mem_shell]
  refine ⟨hs, ?_, ?_⟩ <;> push_cast <;> omega

include hn hl hpsi

theorem getDensityMatrixCubic_spec : ∃ d, getDensityMatrixCubic nBaths psi = .ok d ∧
    ∀ i j : ℕ, i < 5 → j < 5 → ∀ si sj : ℤ, si = 0 ∨ si = 1 → sj = 0 ∨ sj = 1 →
      (Dict.get? d ((si, (i : ℤ)), (sj, (j : ℤ)))).getD 0
        = ∑ k ∈ range 5, ∑ m ∈ range 5, star (cubicD.val m i) *
          dmVal nBaths psi (.imp 2 si ((m : ℤ) - 2), .imp 2 sj ((k : ℤ) - 2)) * cubicD.val k j := by
  obtain ⟨dm, h1, h2, h3⟩ := getDensityMatrix_spec hn hl hpsi
  have e : getDensityMatrixCubic nBaths psi = .ok ((pyRange 0 5).foldl (fun nCub i => (pyRange 0 5).foldl (fun nCub j =>
    (pyRange 0 2).foldl (fun nCub si => (pyRange 0 2).foldl (fun nCub sj =>
      (pyRange (-2) 3).zipIdx.foldl (fun nCub k => (pyRange (-2) 3).zipIdx.foldl (fun nCub m =>
        cubicStep dm cubicD i j si sj k.1 m.1 k.2 m.2 nCub) nCub) nCub) nCub) nCub) nCub) []) := by
    unfold getDensityMatrixCubic
    rw [h1]
    rfl
  refine ⟨_, e, ?_⟩
  intro i j hi hj si sj hsi hsj
  rw [cubicLoop_val dm cubicD i j si sj (by omega) (by omega) hsi hsj]
  refine sum_congr rfl fun k hk => sum_congr rfl fun m hm => ?_
  simp only [Int.toNat_natCast]
  congr 2
  rw [h3]
  by_cases hv : dmVal nBaths psi (.imp 2 si ((m : ℤ) - 2), .imp 2 sj ((k : ℤ) - 2)) = 0
  · rw [if_neg (fun h => h.2 hv), hv]; rfl
  · rw [if_pos ⟨⟨_, shell_row hsi hm, _, shell_row hsj hk, rfl⟩, hv⟩]; rfl

/-! ### getEgT2gOccupation -/

/-- The component of the occupation record. -/
def Occs.comp (t : Bool × Bool) (o : Occs) : ℂ :=
  match t with
  | (true, true) => o.egDn
  | (true, false) => o.egUp
  | (false, true) => o.t2gDn
  | (false, false) => o.t2gUp

theorem occStep_val {i j k : ℕ} {s : ℤ} (hs : s = 0 ∨ s = 1) {mj mk : ℤ}
    (hj : (s, mj) ∈ shell 2) (hk : (s, mk) ∈ shell 2) (u : CMat) (o : Occs) :
    ∃ o', occStep nBaths psi u i j k mj mk s o = .ok o' ∧ ∀ t, Occs.comp t o' = Occs.comp t o +
      if t = (decide (i < 2), decide (s = 0)) then
        u.val j i * star (u.val k i) * dmVal nBaths psi (.imp 2 s mk, .imp 2 s mj) else 0 := by
  obtain ⟨p, h1, h2⟩ := inner_hop hn hl hpsi hk hj
  have e1 := c2i_shell hn hl hj
  have e2 := c2i_shell hn hl hk
  dsimp only at e1 e2 h1 h2
  simp only [occStep, e1, e2, bind, Except.bind, h1, h2, pure, Except.pure]
  by_cases hi : i < 2 <;> rcases hs with rfl | rfl
  all_goals
    simp only [hi, if_true, if_false, one_ne_zero, decide_true, decide_false]
    refine ⟨_, rfl, ?_⟩
    rintro ⟨_ | _, _ | _⟩ <;> simp [Occs.comp]

omit hn hl hpsi in
theorem occ_sum (e b : Bool) (G : ℕ → ℤ × ℕ → ℤ × ℕ → ℤ → ℂ) :
    ((List.range 5).map fun i => ((pyRange (-2) 3).zipIdx.map fun j => ((pyRange (-2) 3).zipIdx.map fun k =>
      ((pyRange 0 2).map fun s => if (e, b) = (decide (i < 2), decide (s = 0)) then G i j k s else 0).sum).sum).sum).sum
    = ∑ i ∈ range 5, if e = decide (i < 2) then
      ∑ j ∈ range 5, ∑ k ∈ range 5, G i ((j : ℤ) - 2, j) ((k : ℤ) - 2, k) (if b then 0 else 1) else 0 := by
  have hr : pyRange 0 2 = [0, 1] := by decide
  have hs : ∀ i : ℕ, ∀ F : ℤ → ℂ, ((pyRange 0 2).map fun s => if (e, b) = (decide (i < 2), decide (s = 0)) then F s else 0).sum
      = if e = decide (i < 2) then F (if b then 0 else 1) else 0 := by
    intro i F
    rw [hr]
    cases b <;> by_cases he : e = decide (i < 2) <;> simp [he]
  simp only [hs]
  rw [← List.sum_toFinset _ List.nodup_range, List.toFinset_range]
  refine sum_congr rfl fun i _ => ?_
  by_cases he : e = decide (i < 2)
  · simp only [if_pos he]
    rw [sum_m5 (fun a c => ((pyRange (-2) 3).zipIdx.map fun k => G i (a, c) k (if b then 0 else 1)).sum)]
    refine sum_congr rfl fun j _ => ?_
    rw [sum_m5 (fun a c => G i ((j : ℤ) - 2, j) (a, c) (if b then 0 else 1))]
  · simp only [if_neg he]
    exact list_sum_zero fun j _ => list_sum_zero fun k _ => rfl

theorem occLoop_val : ∃ o, (List.range 5).foldlM (fun o i =>
    (pyRange (-2) 3).zipIdx.foldlM (fun o j => (pyRange (-2) 3).zipIdx.foldlM (fun o k =>
      (pyRange 0 2).foldlM (fun o s =>
        occStep nBaths psi cubicD i j.2 k.2 j.1 k.1 s o) o) o) o) (⟨0, 0, 0, 0⟩ : Occs) = .ok o ∧
    ∀ e b, Occs.comp (e, b) o = ∑ i ∈ range 5, if e = decide (i < 2) then
      ∑ j ∈ range 5, ∑ k ∈ range 5, cubicD.val j i * star (cubicD.val k i) *
        dmVal nBaths psi (.imp 2 (if b then 0 else 1) ((k : ℤ) - 2), .imp 2 (if b then 0 else 1) ((j : ℤ) - 2))
      else 0 := by
  have hz : ∀ k ∈ (pyRange (-2) 3).zipIdx, ∀ s ∈ pyRange 0 2, (s, k.1) ∈ shell 2 := by
    intro k hk s hs
    have : (pyRange (-2) 3).zipIdx = [(-2, 0), (-1, 1), (0, 2), (1, 3), (2, 4)] := by decide
    rw [this] at hk
    rw [mem_pyRange] at hs
    rw [mem_shell]
    have h : -2 ≤ k.1 ∧ k.1 ≤ 2 := by
      simp only [List.mem_cons, List.not_mem_nil, or_false] at hk
      rcases hk with rfl | rfl | rfl | rfl | rfl <;> norm_num
    push_cast
    exact ⟨by omega, h⟩
  let w : ℕ → ℤ × ℕ → ℤ × ℕ → ℤ → Bool × Bool → ℂ := fun i j k s t =>
    if t = (decide (i < 2), decide (s = 0)) then
      cubicD.val j.2 i * star (cubicD.val k.2 i) * dmVal nBaths psi (.imp 2 s k.1, .imp 2 s j.1) else 0
  obtain ⟨o, h1, h2⟩ := foldlM_val Occs.comp (List.range 5) (fun o i =>
    (pyRange (-2) 3).zipIdx.foldlM (fun o j => (pyRange (-2) 3).zipIdx.foldlM (fun o k =>
      (pyRange 0 2).foldlM (fun o s =>
        occStep nBaths psi cubicD i j.2 k.2 j.1 k.1 s o) o) o) o)
    (fun i t => ((pyRange (-2) 3).zipIdx.map fun j => ((pyRange (-2) 3).zipIdx.map fun k =>
      ((pyRange 0 2).map fun s => w i j k s t).sum).sum).sum) (fun i _ o =>
    foldlM_val Occs.comp (pyRange (-2) 3).zipIdx (fun o j => (pyRange (-2) 3).zipIdx.foldlM (fun o k =>
      (pyRange 0 2).foldlM (fun o s =>
        occStep nBaths psi cubicD i j.2 k.2 j.1 k.1 s o) o) o)
      (fun j t => ((pyRange (-2) 3).zipIdx.map fun k => ((pyRange 0 2).map fun s => w i j k s t).sum).sum) (fun j hj o =>
      foldlM_val Occs.comp (pyRange (-2) 3).zipIdx (fun o k => (pyRange 0 2).foldlM (fun o s =>
        occStep nBaths psi cubicD i j.2 k.2 j.1 k.1 s o) o)
        (fun k t => ((pyRange 0 2).map fun s => w i j k s t).sum) (fun k hk o =>
        foldlM_val Occs.comp (pyRange 0 2) (fun o s =>
        occStep nBaths psi cubicD i j.2 k.2 j.1 k.1 s o) (fun s t => w i j k s t) (fun s hs o =>
          occStep_val hn hl hpsi (i := i) (by rw [mem_pyRange] at hs; omega) (hz j hj s hs) (hz k hk s hs) cubicD o) o) o) o)
      (⟨0, 0, 0, 0⟩ : Occs)
  refine ⟨o, h1, ?_⟩
  intro e b
  rw [h2]
  have h0 : Occs.comp (e, b) (⟨0, 0, 0, 0⟩ : Occs) = 0 := by cases e <;> cases b <;> rfl
  rw [h0, zero_add]
  exact occ_sum e b (fun i j k s => cubicD.val j.2 i * star (cubicD.val k.2 i) *
    dmVal nBaths psi (.imp 2 s k.1, .imp 2 s j.1))

end

end Verif
