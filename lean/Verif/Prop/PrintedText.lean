/-
C100: what is printed about the eigenstates can be read.
-/
import Verif.Lemmas.PrintedText
import Verif.Prop.TextTable
import Verif.Prop.TimeReversal
import Verif.Prop.Printed

namespace Verif

open Spec Finset Psr Mpi

noncomputable section

/-- The numbers of a row and the formats in which they are printed. -/
theorem expRowText_words {n : ℕ} {f : Label → ℕ} {v : Vec ℂ} {row : ExpRow} (h : RowMeans n f v row) (i : ℕ) :
    ShowsLine i (columns n f v row.energy) (expRowText i row) ∧ '\n' ∉ expRowText i row := by
  obtain ⟨o0, o1, o2, o3⟩ := row_occ h
  have hre : ∀ {x : ℝ} {z : ℂ}, (x : ℂ) = z → z.re = x := by
    rintro x z rfl
    exact Complex.ofReal_re x
  have e1 := hre h.n3d
  have e2 := hre h.lz
  have e3 := hre h.sz
  have e4 := hre h.lsqr
  have e5 := hre h.ssqr
  rw [← Complex.ofReal_add] at o0 o1 o2 o3
  rw [← Complex.ofReal_add] at o2 o3
  have ht : expRowText i row = (List.intersperse [' '] (((3, wholeDigits i) :: List.zipWith (fun k q => (k, fixedPoint q.1 q.2))
      [6, 5, 6, 7, 8, 7, 7, 6, 7, 7] (columns n f v row.energy)).map fun q : ℕ × List Char => padLeft q.1 q.2)).flatten := by
    unfold expRowText columns
    rw [o0, o1, o2, o3, e1, e2, e3, e4, e5]
    simp only [formatC_real]
    rfl
  have hch : ∀ q ∈ (3, wholeDigits i) :: List.zipWith (fun k q => (k, fixedPoint q.1 q.2)) [6, 5, 6, 7, 8, 7, 7, 6, 7, 7]
      (columns n f v row.energy), q.2 ≠ [] ∧ ∀ c ∈ q.2, c.isWhitespace = false ∧ c ≠ '\n' ∧ c ≠ '#' := by
    intro q hq
    rcases List.mem_cons.1 hq with rfl | hq
    · exact wholeDigits_chars i
    · simp only [columns, List.zipWith_cons_cons, List.zipWith_nil_left, List.mem_cons, List.not_mem_nil, or_false] at hq
      rcases hq with rfl | rfl | rfl | rfl | rfl | rfl | rfl | rfl | rfl | rfl <;> exact fixedPoint_chars _ _
  rw [ht]
  constructor
  · refine ⟨_, _, line_words _ fun q hq => ⟨(hch q hq).1, fun c hc => ((hch q hq).2 c hc).1⟩, (wholeDigits_spec i).1,
      (wholeDigits_spec i).2.1, ?_⟩
    unfold columns
    simp only [List.zipWith_cons_cons, List.zipWith_nil_left, List.map_cons, List.map_nil]
    repeat' first
      | exact List.Forall₂.nil
      | refine List.Forall₂.cons (fixedPoint_shows _ _) ?_
  · exact line_newline _ fun q hq c hc => ((hch q hq).2 c hc).2.1

/-- A line with a name. -/
theorem named_line (name : String) (full : String) (hfull : full.toList = name.toList ++ [' ', '=', ' ']) (hn : name.toList ≠ [])
    (hs : ∀ c ∈ name.toList, c.isWhitespace = false) (k p : ℕ) (x : ℝ) :
    ShowsNamed name p x (full.toList ++ formatF k p x) ∧ '\n' ∉ full.toList ++ formatF k p x := by
  have hc := fixedPoint_chars p x
  rw [hfull]
  refine ⟨⟨_, named_words hn hs k hc.1 fun c h => (hc.2 c h).1, fixedPoint_shows p x⟩, ?_⟩
  intro h
  rcases List.mem_append.1 h with h | h
  · rcases List.mem_append.1 h with h | h
    · exact absurd (hs _ h) (by decide)
    · simp at h
  · exact padLeft_newline (fun c h => (hc.2 c h).2.1) k h

/-- C100, the table of `printExpValues`: it shows the lowest energy to four decimals, and one line for each eigenstate, in order, with
its number and the values under their titles, to two or three decimals. -/
theorem C100_table {kB : ℝ} {n : ℕ} {f : Label → ℕ} {energies : List ℝ} {psis : List (Psi ℂ)} {thermal : ThermalValues} {e0 : ℝ}
    {rows : List ExpRow} (h : PrintedMeans kB n f energies psis thermal e0 rows) :
    ShowsStates n f energies e0 (fun i => ampl n (psis.getD i [])) (expValuesText (e0, rows)) := by
  obtain ⟨f1, f2⟩ := named_line "E0" "E0 = " (by decide) (by decide) (by decide) 7 4 e0
  refine ⟨"E0 = ".toList ++ formatF 7 4 e0, expHeader, rows.zipIdx.map fun q => expRowText q.2 q.1,
    ⟨("E0 = ".toList ++ formatF 7 4 e0) :: expHeader :: (rows.zipIdx.map fun q => expRowText q.2 q.1) ++ [[], []], [], by simp, ?_, ?_⟩,
    f1, ?_, ?_, ?_⟩
  · intro l hl
    simp only [List.cons_append, List.mem_cons, List.mem_append, List.mem_map, List.not_mem_nil, or_false] at hl
    rcases hl with rfl | rfl | ⟨q, hq, rfl⟩ | rfl | rfl | rfl
    · exact f2
    · decide
    · obtain ⟨r, i⟩ := q
      have hq := List.mem_zipIdx' hq
      rw [hq.2]
      exact (expRowText_words (h.table i hq.1).2 i).2
    all_goals simp
  · simp [expValuesText, List.map_map, Function.comp_def]
  · have := words_of expHeader
    rwa [show wordsFrom [] expHeader = columnTitles.map String.toList by decide +kernel] at this
  · simp [h.count]
  · intro i hi
    have hi' : i < rows.length := by simpa using hi
    have hr := h.table i hi'
    have := (expRowText_words hr.2 i).1
    rw [hr.1] at this
    simpa using this

/-- C100, the lines of `printThermalExpValues`: the averages of the columns, each behind its title, to three decimals. -/
theorem C100_averages {kB : ℝ} {n : ℕ} {f : Label → ℕ} {energies : List ℝ} {psis : List (Psi ℂ)} {thermal : ThermalValues} {e0 : ℝ}
    {rows : List ExpRow} (h : PrintedMeans kB n f energies psis thermal e0 rows) :
    ShowsAverages n f energies e0 (fun i => ampl n (psis.getD i [])) (thermalMean kB 300 (10 * kB * 300) e0 energies)
      (thermalText thermal) := by
  have hre : ∀ {x : ℝ} {z : ℂ}, (x : ℂ) = z → z.re = x := by
    rintro x z rfl
    exact Complex.ofReal_re x
  have hget : ∀ {β : Type} (g : ExpRow → β) (d : β) i (hi : i < rows.length), (rows.map g).getD i d = g rows[i] := by
    intro β g d i hi
    rw [List.getD_eq_getElem _ _ (by simpa using hi), List.getElem_map]
  have hcol : ∀ (g : ExpRow → ℝ) (c : ℕ), (∀ v row, RowMeans n f v row → g row = ((columns n f v row.energy).getD c (0, 0)).2) →
      thermalMean kB 300 (10 * kB * 300) e0 energies (fun i => (rows.map g).getD i 0)
        = thermalMean kB 300 (10 * kB * 300) e0 energies fun i =>
          ((columns n f (ampl n (psis.getD i [])) (energies.getD i 0 - e0)).getD c (0, 0)).2 := by
    intro g c hg
    refine thermalMean_congr fun i hi => ?_
    rw [← h.count] at hi
    obtain ⟨h1, h2⟩ := h.table i hi
    rw [hget g 0 i hi, hg _ _ h2, h1]
  have hocc : ∀ (k c : ℕ), (∀ v row, RowMeans n f v row → row.occ.getD k 0 = (((columns n f v row.energy).getD c (0, 0)).2 : ℂ)) →
      thermal.occ k = ((thermalMean kB 300 (10 * kB * 300) e0 energies fun i =>
        ((columns n f (ampl n (psis.getD i [])) (energies.getD i 0 - e0)).getD c (0, 0)).2 : ℝ) : ℂ) := by
    intro k c hg
    rw [h.occ k, ← thermalMean_ofReal]
    refine thermalMean_congr fun i hi => ?_
    rw [← h.count] at hi
    obtain ⟨h1, h2⟩ := h.table i hi
    rw [hget (fun r => r.occ.getD k 0) 0 i hi, hg _ _ h2, h1]
  set M : ℕ → ℝ := fun c => thermalMean kB 300 (10 * kB * 300) e0 energies fun i =>
        ((columns n f (ampl n (psis.getD i [])) (energies.getD i 0 - e0)).getD c (0, 0)).2 with hM
  have e0' : thermal.energy = M 0 := h.energy
  have e1 : thermal.n3d = M 1 := h.n3d.trans (hcol _ 1 fun v row hr => (hre hr.n3d).symm)
  have e2 : thermal.occ 0 = (M 2 : ℂ) := hocc 0 2 fun v row hr => (row_occ hr).1.trans (by simp [columns])
  have e3 : thermal.occ 1 = (M 3 : ℂ) := hocc 1 3 fun v row hr => (row_occ hr).2.1.trans (by simp [columns])
  have e4 : thermal.occ 2 = (M 4 : ℂ) := hocc 2 4 fun v row hr => (row_occ hr).2.2.1.trans (by simp [columns])
  have e5 : thermal.occ 3 = (M 5 : ℂ) := hocc 3 5 fun v row hr => (row_occ hr).2.2.2.trans (by simp [columns])
  have e6 : thermal.lz = M 6 := h.lz.trans (hcol _ 6 fun v row hr => (hre hr.lz).symm)
  have e7 : thermal.sz = M 7 := h.sz.trans (hcol _ 7 fun v row hr => (hre hr.sz).symm)
  have e8 : thermal.lsqr = M 8 := h.lsqr.trans (hcol _ 8 fun v row hr => (hre hr.lsqr).symm)
  have e9 : thermal.ssqr = M 9 := h.ssqr.trans (hcol _ 9 fun v row hr => (hre hr.ssqr).symm)
  let full : List String := ["<E-E0> = ", "<N(3d)> = ", "<N(egDn)> = ", "<N(egUp)> = ", "<N(t2gDn)> = ", "<N(t2gUp)> = ",
    "<Lz(3d)> = ", "<Sz(3d)> = ", "<L^2(3d)> = ", "<S^2(3d)> = "]
  have hline : ∀ c < 10, ShowsNamed ("<" ++ columnTitles.getD (c + 1) "" ++ ">") 3 (M c) ((full.getD c "").toList ++ formatF 4 3 (M c)) ∧
      '\n' ∉ (full.getD c "").toList ++ formatF 4 3 (M c) := by
    intro c hc
    refine named_line _ _ ?_ ?_ ?_ 4 3 (M c)
    · revert c; decide +kernel
    · revert c; decide +kernel
    · revert c; decide +kernel
  refine ⟨(List.range 10).map fun c => (full.getD c "").toList ++ formatF 4 3 (M c),
    ⟨(List.range 10).map fun c => (full.getD c "").toList ++ formatF 4 3 (M c), [], rfl, ?_, ?_⟩, by simp, ?_⟩
  · intro l hl
    rcases List.mem_append.1 hl with hl | hl
    · obtain ⟨c, hc, rfl⟩ := List.mem_map.1 hl
      exact (hline c (List.mem_range.1 hc)).2
    · simp at hl
      subst hl
      simp
  · unfold thermalText
    rw [e0', e1, e2, e3, e4, e5, e6, e7, e8, e9]
    simp only [formatC_real]
    rw [List.append_nil, show List.range 10 = [0, 1, 2, 3, 4, 5, 6, 7, 8, 9] from rfl]
    rfl
  · intro c hc
    have hc' : c < 10 := by simpa using hc
    rw [List.getElem_map, List.getElem_range]
    exact (hline c hc').1

/-! ### reading the table -/

theorem showsLine_reads {i : ℕ} {values : List (ℕ × ℝ)} {line : List Char} {nums : List ℝ} (h : ShowsLine i values line)
    (hr : ReadsAs line nums) : ∃ ys, nums = (i : ℝ) :: ys ∧ List.Forall₂ (fun y q => Nearest q.1 q.2 y) ys values := by
  obtain ⟨w, ws, h1, h2, h3, h4⟩ := h
  obtain ⟨us, h5, h6⟩ := hr
  obtain rfl := words_unique h1 h5
  cases h6 with
  | cons a h6 =>
    rename_i x ys
    have hw : w ≠ [] := by
      intro e
      cases h1 with
      | cons b hb w hne => exact hne e
    have hx : x = (i : ℝ) := by
      refine denotes_unique a ⟨[], 1, w, [], [], [], 0, .none, h2, .none, fun h => hw h.1, .none, by simp, ?_⟩
      simp [h3]
    refine ⟨ys, by rw [hx], ?_⟩
    clear h1 h2 h3 a hx h5 hw
    induction h4 generalizing ys with
    | nil => cases h6; exact .nil
    | cons b h4 ih =>
      cases h6 with
      | cons c h6 =>
        obtain ⟨y, hy1, hy2⟩ := b
        rw [denotes_unique c hy1]
        exact .cons hy2 (ih h6)

/-- C100, every line of the table can be read as eleven numbers. -/
theorem C100_read {i : ℕ} {values : List (ℕ × ℝ)} {line : List Char} (h : ShowsLine i values line) :
    ∃ ys, ReadsAs line ((i : ℝ) :: ys) ∧ List.Forall₂ (fun y q => Nearest q.1 q.2 y) ys values := by
  obtain ⟨w, ws, h1, h2, h3, h4⟩ := id h
  have hw : w ≠ [] := by
    intro e
    cases h1 with
    | cons b hb w hne => exact hne e
  have hx : Denotes w (i : ℝ) := by
    refine ⟨[], 1, w, [], [], [], 0, .none, h2, .none, fun h => hw h.1, .none, by simp, ?_⟩
    simp [h3]
  have : ∃ ys, List.Forall₂ Denotes ws ys := by
    clear h1 h2 h3 hx hw h
    induction h4 with
    | nil => exact ⟨[], .nil⟩
    | cons b _ ih =>
      obtain ⟨ys, h⟩ := ih
      obtain ⟨y, hy, -⟩ := b
      exact ⟨y :: ys, .cons hy h⟩
  obtain ⟨ys, hys⟩ := this
  have hr : ReadsAs line ((i : ℝ) :: ys) := ⟨_, h1, .cons hx hys⟩
  obtain ⟨zs, e, h6⟩ := showsLine_reads h hr
  cases e
  exact ⟨ys, hr, h6⟩

/-- C100, energies: the printed energies relative to the lowest are not negative and ascend with the lines. -/
theorem C100_ascend {n : ℕ} {f : Label → ℕ} {v v' : Vec ℂ} {e e' : ℝ} {i j : ℕ} {line line' : List Char} (h0 : 0 ≤ e) (hle : e ≤ e')
    (h : ShowsLine i (columns n f v e) line) (h' : ShowsLine j (columns n f v' e') line') {a b y z : ℝ} {ys zs : List ℝ}
    (hr : ReadsAs line (a :: y :: ys)) (hr' : ReadsAs line' (b :: z :: zs)) : 0 ≤ y ∧ y ≤ z := by
  obtain ⟨us, e1, h1⟩ := showsLine_reads h hr
  obtain ⟨us', e2, h2⟩ := showsLine_reads h' hr'
  cases e1
  cases e2
  cases h1 with
  | cons a1 _ =>
    cases h2 with
    | cons a2 _ => exact ⟨(C98_nearest a1 a2).1 h0, (C98_nearest a1 a2).2.1 hle⟩

theorem nearest_nat (p k : ℕ) : Nearest p (k : ℝ) (k : ℝ) := by
  have hp : (0 : ℝ) < 10 ^ p := by positivity
  refine ⟨k * 10 ^ p, ?_, ?_, ?_⟩
  · push_cast
    field_simp
  · rw [sub_self, abs_zero]
    positivity
  · rw [sub_self, abs_zero]
    intro h
    have : (0 : ℝ) < 1 / 2 / 10 ^ p := by positivity
    linarith

/-- C100, occupations: the printed occupations are not negative, those of the e_g orbitals at most two and those of the t_2g orbitals
at most three for each spin, and they add up to the printed number of d electrons except for the last printed digit. -/
theorem C100_occupations {n : ℕ} {f : Label → ℕ} (hf : ∀ x ∈ shell 2, f (.imp 2 x.1 x.2) < n)
    (hinj : ∀ x ∈ shell 2, ∀ y ∈ shell 2, f (.imp 2 x.1 x.2) = f (.imp 2 y.1 y.2) → x = y) {v : Vec ℂ} (hv : normSq n v ≤ 1) {e : ℝ}
    {i : ℕ} {line : List Char} (h : ShowsLine i (columns n f v e) line) {a y N egDn egUp t2gDn t2gUp : ℝ} {ys : List ℝ}
    (hr : ReadsAs line (a :: y :: N :: egDn :: egUp :: t2gDn :: t2gUp :: ys)) :
    0 ≤ egDn ∧ egDn ≤ 2 ∧ 0 ≤ egUp ∧ egUp ≤ 2 ∧ 0 ≤ t2gDn ∧ t2gDn ≤ 3 ∧ 0 ≤ t2gUp ∧ t2gUp ≤ 3 ∧ 0 ≤ N ∧ N ≤ 10 ∧
      |N - (egDn + egUp + t2gDn + t2gUp)| ≤ 0.007 := by
  have hmem : ∀ s : ℤ, s = 0 ∨ s = 1 → ∀ m ∈ Icc (-2 : ℤ) 2, (s, m) ∈ shell 2 := by
    intro s hs m hm
    unfold shell
    rw [mem_product]
    refine ⟨?_, by simpa using hm⟩
    rcases hs with rfl | rfl <;> simp
  have hocc : ∀ s : ℤ, s = 0 ∨ s = 1 → ∀ i < 5, 0 ≤ realOccupation n f v s i ∧ realOccupation n f v s i ≤ 1 := by
    intro s hs i hi
    refine ⟨normSq_nonneg _ _, ?_⟩
    have := annihilateIn_le (K := Icc (-2 : ℤ) 2) (p := fun m => f (.imp 2 s m)) (fun m hm => hf _ (hmem s hs m hm))
      (fun m hm m' hm' e => (Prod.mk.inj (hinj _ (hmem s hs m hm) _ (hmem s hs m' hm') e)).2) (realOrbital i) v
    rw [realOrbital_normSq hi, one_mul] at this
    exact this.trans hv
  have hsum := shellNumber_occupations hf v
  have hN : (Spec.expect n (shellNumber f 2) v).re = ∑ i ∈ range 5, realOccupation n f v 0 i + ∑ i ∈ range 5, realOccupation n f v 1 i := by
    rw [hsum, Complex.ofReal_re]
  simp only [sum_range_succ, sum_range_zero, zero_add] at hN
  obtain ⟨us, e1, h1⟩ := showsLine_reads h hr
  cases e1
  unfold columns at h1
  rw [hN] at h1
  simp only [List.forall₂_cons] at h1
  obtain ⟨-, n1, n2, n3, n4, n5, -⟩ := h1
  have o0 := fun i hi => hocc 0 (.inl rfl) i hi
  have o1 := fun i hi => hocc 1 (.inr rfl) i hi
  obtain ⟨a0, b0⟩ := o0 0 (by norm_num)
  obtain ⟨a1, b1⟩ := o0 1 (by norm_num)
  obtain ⟨a2, b2⟩ := o0 2 (by norm_num)
  obtain ⟨a3, b3⟩ := o0 3 (by norm_num)
  obtain ⟨a4, b4⟩ := o0 4 (by norm_num)
  obtain ⟨c0, d0⟩ := o1 0 (by norm_num)
  obtain ⟨c1, d1⟩ := o1 1 (by norm_num)
  obtain ⟨c2, d2⟩ := o1 2 (by norm_num)
  obtain ⟨c3, d3⟩ := o1 3 (by norm_num)
  obtain ⟨c4, d4⟩ := o1 4 (by norm_num)
  have up : ∀ {p k : ℕ} {x y : ℝ}, Nearest p x y → x ≤ k → y ≤ k := fun h hx => (C98_nearest h (nearest_nat _ _)).2.1 hx
  have lo : ∀ {p : ℕ} {x y : ℝ}, Nearest p x y → 0 ≤ x → 0 ≤ y := fun h hx => (C98_nearest h h).1 hx
  refine ⟨lo n2 (by linarith), by exact_mod_cast up (k := 2) n2 (by push_cast; linarith), lo n3 (by linarith),
    by exact_mod_cast up (k := 2) n3 (by push_cast; linarith), lo n4 (by linarith), by exact_mod_cast up (k := 3) n4 (by push_cast; linarith),
    lo n5 (by linarith), by exact_mod_cast up (k := 3) n5 (by push_cast; linarith), lo n1 (by linarith),
    by exact_mod_cast up (k := 10) n1 (by push_cast; linarith), ?_⟩
  have near : ∀ {p : ℕ} {x y : ℝ}, Nearest p x y → |y - x| ≤ 1 / 2 / 10 ^ p := fun ⟨_, _, h, _⟩ => h
  have q1 := _root_.abs_le.1 (near n1)
  have q2 := _root_.abs_le.1 (near n2)
  have q3 := _root_.abs_le.1 (near n3)
  have q4 := _root_.abs_le.1 (near n4)
  have q5 := _root_.abs_le.1 (near n5)
  norm_num at q1 q2 q3 q4 q5
  rw [_root_.abs_le]
  constructor <;> norm_num <;> linarith [q1.1, q1.2, q2.1, q2.2, q3.1, q3.2, q4.1, q4.2, q5.1, q5.2]

section
variable {L : MainLib} {A : MainArgs} (hA : A.Valid) (hG : GauntLarge L.gaunt A.ls) {N : ℕ} (hN : 0 < N)
  {ord : Fin N → ℕ → ℕ → ℕ → SetOrders} (hord : ∀ k c t i, (ord k c t i).Valid)
  {ordRixs : Fin N → List ℕ → SetOrders} (hordR : ∀ k l, (ordRixs k l).Valid) {out : Fin N → Option MainOutput}
  (hfin : CanFinish msgSum (fun k : Fin N => mainRank L A (ord k) (ordRixs k) k.val N) out)
  {o : MainOutput} (ho : out ⟨0, hN⟩ = some o)
  (hL : SolverCorrect L.solver) {b : ℕ → ℕ} {P : BasisParams} {hx hy hz : ℝ} {h0 : Op Label ℂ}
  (hD : Documented A b P hx hy hz h0)

include hA hG hord hordR hfin ho hL hD in
/-- C100, `main`: what a finished run prints about its eigenstates.  The table shows the lowest energy and the expectation values of
every eigenstate; the energies that are read are not negative and ascend; the occupations that are read lie in their ranges and add
up to the number of d electrons except for the last printed digit; and the averages are shown behind their titles. -/
theorem C100_main : ∃ psis S, MainRun L A b P hx hy hz h0 o.energies psis S ∧
    (o.expValues.1 ∈ o.energies ∧ ∀ e ∈ o.energies, o.expValues.1 ≤ e) ∧
    ShowsAverages (nTotal (pdSystem b)) (position (pdSystem b)) o.energies o.expValues.1
      (fun i => ampl (nTotal (pdSystem b)) (psis.getD i [])) (thermalMean L.kB 300 (10 * L.kB * 300) o.expValues.1 o.energies)
      (thermalText o.thermal) ∧
    ∃ first titles lines, IsLines (expValuesText o.expValues) (first :: titles :: lines ++ [[], [], []]) ∧
      ShowsNamed "E0" 4 o.expValues.1 first ∧ Words titles (columnTitles.map String.toList) ∧ lines.length = o.energies.length ∧
      (∀ i (hi : i < lines.length), ShowsLine i (columns (nTotal (pdSystem b)) (position (pdSystem b))
        (ampl (nTotal (pdSystem b)) (psis.getD i [])) (o.energies.getD i 0 - o.expValues.1)) lines[i]) ∧
      (∀ i j (hi : i < lines.length) (hj : j < lines.length), i ≤ j → ∀ x y ys x' y' ys', ReadsAs lines[i] (x :: y :: ys) →
        ReadsAs lines[j] (x' :: y' :: ys') → 0 ≤ y ∧ y ≤ y') ∧
      ∀ i (hi : i < lines.length) x y n egDn egUp t2gDn t2gUp ys,
        ReadsAs lines[i] (x :: y :: n :: egDn :: egUp :: t2gDn :: t2gUp :: ys) →
        0 ≤ egDn ∧ egDn ≤ 2 ∧ 0 ≤ egUp ∧ egUp ≤ 2 ∧ 0 ≤ t2gDn ∧ t2gDn ≤ 3 ∧ 0 ≤ t2gUp ∧ t2gUp ≤ 3 ∧ 0 ≤ n ∧ n ≤ 10 ∧
          |n - (egDn + egUp + t2gDn + t2gUp)| ≤ 0.007 := by
  obtain ⟨psis, S, hrun, hp, -⟩ := C66_printed hA hG hN hord hordR hfin ho hL hD
  obtain ⟨first, titles, lines, l1, l2, l3, l4, l5⟩ := C100_table hp
  obtain ⟨hasc, hlen, x, x1, -, -, x2⟩ := hrun.lowest
  have hn : Dict.NodupKeys [(1, b 1), (2, b 2)] := nodup_documented b
  have hl : 2 ∈ Dict.keys [(1, b 1), (2, b 2)] := by simp [Dict.keys]
  have hsz : nSpinOrbitals [(1, b 1), (2, b 2)] = nTotal (pdSystem b) := by rw [nSpinOrbitals_eq]; rfl
  refine ⟨psis, S, hrun, hp.ground, C100_averages hp, first, titles, lines, l1, l2, l3, l4, l5, ?_, ?_⟩
  · intro i j hi hj hij x y ys x' y' ys' h1 h2
    have hi' : i < o.energies.length := by omega
    have hj' : j < o.energies.length := by omega
    have hle : o.energies[i] ≤ o.energies[j] := by
      rcases Nat.lt_or_eq_of_le hij with h | rfl
      · exact List.pairwise_iff_getElem.1 hasc i j hi' hj' h
      · exact le_rfl
    refine C100_ascend ?_ ?_ (l5 i hi) (l5 j hj) h1 h2
    · rw [List.getD_eq_getElem _ _ hi', sub_nonneg]
      exact hp.ground.2 _ (List.getElem_mem _)
    · rw [List.getD_eq_getElem _ _ hi', List.getD_eq_getElem _ _ hj']
      linarith
  · intro i hi x' y n egDn egUp t2gDn t2gUp ys hr
    refine C100_occupations ?_ ?_ ?_ (l5 i hi) hr
    · intro q hq
      have := pos_lt hn hl hq
      rw [hsz] at this
      exact this
    · intro q hq q' hq' e
      exact pos_inj hn hl hq hq' e
    · have hi' : i < psis.length := by omega
      simp only [List.getD_eq_getElem _ _ hi']
      have h1 := x1 i (by omega) i (by omega)
      rw [if_pos rfl] at h1
      have hsq : ∀ z : ℂ, (star z * z).re = Complex.normSq z := by
        intro z
        have := congrArg Complex.re (Complex.normSq_eq_conj_mul_self (z := z))
        rw [Complex.ofReal_re] at this
        exact this.symm
      have h2 := congrArg Complex.re h1
      rw [Complex.re_sum, sum_filter, Complex.one_re] at h2
      rw [← h2]
      unfold normSq
      refine sum_le_sum fun F hF => ?_
      rw [(x2 i hi').2 F, hsq]
      by_cases hc : IsConfiguration [(1, b 1), (2, b 2)] (pdSystem b) P F
      · rw [if_pos hc]
        split
        · exact le_rfl
        · simp [Complex.normSq_nonneg]
      · rw [if_neg hc, if_neg (by simp [hc])]
        simp

end

/-- The hypotheses are met: `main` on three ranks. -/
example (sphHarm : SphHarm) (jn : SphericalJn) (T : ℝ) (hT : 0 < T) (radial : List (ℝ × ℝ)) : ∃ o : MainOutput,
    ∃ first titles lines, IsLines (expValuesText o.expValues) (first :: titles :: lines ++ [[], [], []]) ∧ 0 < lines.length ∧
      ShowsNamed "E0" 4 o.expValues.1 first := by
  obtain ⟨solver, hS, htot⟩ := exists_solver
  obtain ⟨o, ho⟩ := C64_example hS htot sphHarm jn one_pos hT radial
  have h1 := (ho 3 (by decide) (fun _ _ _ _ => holeOrders) (fun _ _ _ _ => holeOrders_valid) (fun _ _ => holeOrders)
    (fun _ _ => holeOrders_valid)).canFinish
  obtain ⟨psis, S, -, hg, -, first, titles, lines, l1, l2, l3, l4, -⟩ := C100_main (holeArgs_valid 0 T radial) sympyGaunt_large (by decide)
    (fun _ _ _ _ => holeOrders_valid) (fun _ _ => holeOrders_valid) h1 rfl hS (holeArgs_documented 0 T radial)
  exact ⟨o, first, titles, lines, l1, by rw [l4]; exact List.length_pos_of_mem hg.1, l2⟩

/-! ### Gaunt coefficients -/

/-- C100, `printGaunt`: for every `k` a title and a table with a line for every `m` and a column for every `m'`, which shows the
coefficient to two decimals. -/
theorem C100_gaunt (gaunt : GauntFun) (l lp : ℕ) : ∃ (title : ℕ → List Char) (line : ℕ → ℕ → List Char),
    IsLines (gauntText gaunt l lp)
      (((List.range (l + lp + 1)).flatMap fun k => title k :: (List.range (2 * l + 1)).map (line k) ++ [[]]) ++ [[]]) ∧
    (∀ k, ∃ w, title k = 'k' :: '=' :: w ∧ w ≠ [] ∧ Digits w ∧ numeral w = k) ∧
    ∀ k i, ∃ ws, Words (line k i) ws ∧ ws.length = 2 * lp + 1 ∧
      ∀ j (hj : j < ws.length), Shows 2 (gauntC gaunt k l ((i : ℤ) - l) lp ((j : ℤ) - lp)) ws[j] := by
  have hwords : ∀ k (m : ℤ), Words (gauntLine gaunt k l m lp)
      ((List.range (2 * lp + 1)).map fun j : ℕ => fixedPoint 2 (gauntC gaunt k l m lp ((j : ℤ) - lp))) := by
    intro k m
    have := line_words' ((List.range (2 * lp + 1)).map fun j : ℕ => (3, fixedPoint 2 (gauntC gaunt k l m lp ((j : ℤ) - lp)))) (by
      intro q hq
      obtain ⟨j, -, rfl⟩ := List.mem_map.1 hq
      exact ⟨(fixedPoint_chars _ _).1, fun c hc => ((fixedPoint_chars _ _).2 c hc).1⟩)
    rw [List.map_map, List.map_map] at this
    exact this
  refine ⟨fun k => 'k' :: '=' :: wholeDigits k, fun k i => gauntLine gaunt k l ((i : ℤ) - l) lp, ⟨_, [], rfl, ?_, ?_⟩, ?_, ?_⟩
  · intro t ht
    rw [List.mem_append, List.mem_flatMap] at ht
    rcases ht with ⟨k, -, ht⟩ | ht
    · simp only [List.cons_append, List.mem_cons, List.mem_append, List.mem_map, List.not_mem_nil, or_false] at ht
      rcases ht with rfl | ⟨i, -, rfl⟩ | rfl
      · intro h
        simp only [List.mem_cons, Char.reduceEq, false_or] at h
        exact ((wholeDigits_chars k).2 _ h).2.1 rfl
      · unfold gauntLine
        intro h
        rw [List.mem_flatten] at h
        obtain ⟨u, hu, h⟩ := h
        obtain ⟨j, -, rfl⟩ := List.mem_map.1 hu
        simp only [List.mem_cons, Char.reduceEq, false_or] at h
        exact padLeft_newline (fun c hc => ((fixedPoint_chars _ _).2 c hc).2.1) _ h
      · simp
    · simp at ht
      subst ht
      simp
  · unfold gauntText
    rw [List.append_nil, List.map_flatMap, List.flatMap_def, List.flatten_flatten, List.map_map]
    congr 1
    refine List.map_congr_left fun k _ => ?_
    simp [formatD, padLeft, List.map_map, Function.comp_def]
  · intro k
    obtain ⟨a1, a2, a3⟩ := wholeDigits_spec k
    exact ⟨_, rfl, a3, a1, a2⟩
  · intro k i
    refine ⟨_, hwords k _, by simp, ?_⟩
    intro j hj
    rw [List.getElem_map, List.getElem_range]
    exact fixedPoint_shows _ _

end

end Verif
