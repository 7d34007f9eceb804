/-
C98: the text files can be read back, and what they show.
-/
import Verif.Spec.TextTable
import Verif.Lemmas.TextTable
import Verif.Prop.PlotSpectra
import Verif.Prop.MainExample

namespace Verif

open Finset Mpi Psr Spec Matrix

noncomputable section

/-- C98, numbers: a word is read as a number exactly if it is a decimal number, and the value is the one it denotes. -/
theorem C98_word (w : List Char) (x : ℝ) : parseFloat w = .ok x ↔ Denotes w x := parseFloat_iff w x

example : Denotes "-12.5e-1".toList (-1.25) :=
  ⟨['-'], -1, ['1', '2'], ['.', '5'], ['5'], ['e', '-', '1'], -1 * numeral ['1'], .minus, by simp [Digits],
    .point _ (by simp [Digits]), by simp, .some 'e' (.inl rfl) ['-'] (-1) .minus ['1'] (by simp) (by simp [Digits]), rfl, by
      have h1 : numeral ['1'] = 1 := by decide
      have h2 : numeral (['1', '2'] ++ ['5']) = 125 := by decide
      rw [h1, h2]
      norm_num [_root_.zpow_neg]⟩

/-- C98, files: `np.loadtxt` succeeds exactly on the tables of decimal numbers with rows of equal length, and returns
their numbers. -/
theorem C98_file (text : List Char) (rows : List (List ℝ)) :
    loadtxt text = .ok rows ↔ TextRows text rows ∧ ∀ r ∈ rows, ∀ r' ∈ rows, r.length = r'.length := loadtxt_iff text rows

/-- C98, the radial file: `main` obtains exactly the pairs of numbers in the lines of the file. -/
theorem C98_radial (text : List Char) (pairs : List (ℝ × ℝ)) :
    readRadial text = .ok pairs ↔ 2 ≤ pairs.length ∧ TextRows text (pairs.map fun p => [p.1, p.2]) := by
  have hpair : ∀ (row : List ℝ) (p : ℝ × ℝ),
      radialPair row = .ok p ↔ row = [p.1, p.2] := by
    intro row p
    constructor
    · intro h
      unfold radialPair at h
      split at h
      · cases h; rfl
      · cases h
    · rintro rfl
      rfl
  have hrows : ∀ rows : List (List ℝ), rows.mapM radialPair = .ok pairs ↔ rows = pairs.map fun p => [p.1, p.2] := by
    intro rows
    rw [mapM_ok_iff]
    simp only [hpair]
    rw [← List.forall₂_map_right_iff (R := fun a b => a = b) (f := fun p : ℝ × ℝ => [p.1, p.2]), List.forall₂_eq_eq_eq]
  unfold readRadial
  constructor
  · intro h
    cases hl : loadtxt text with
    | error e => rw [hl] at h; cases h
    | ok rows =>
      rw [hl] at h
      simp only [bind, Except.bind] at h
      split at h
      · cases h
      · rename_i hn
        have hr := (hrows rows).1 (by simpa [bind, Except.bind] using h)
        have := ((loadtxt_iff _ _).1 hl).1
        rw [hr] at this hn
        exact ⟨by rw [List.length_map] at hn; omega, this⟩
  · rintro ⟨h1, h2⟩
    have hl := (loadtxt_iff text _).2 ⟨h2, by
      intro r hr r' hr'
      simp only [List.mem_map] at hr hr'
      obtain ⟨p, -, rfl⟩ := hr
      obtain ⟨p', -, rfl⟩ := hr'
      rfl⟩
    rw [hl]
    simp only [bind, Except.bind]
    rw [if_neg (by rw [List.length_map]; omega)]
    simpa [bind, Except.bind] using (hrows _).2 rfl

/-- A file with a comment, an empty line and two rows. -/
example : readRadial "# r R(r)\n\n 0.5\t 1e-1\n1 2 # last".toList = .ok [(0.5, 0.1), (1, 2)] := by
  rw [C98_radial]
  refine ⟨by simp, ["# r R(r)".toList, [], " 0.5\t 1e-1".toList, "1 2 # last".toList], [none, none, some [0.5, 0.1], some [1, 2]],
    ⟨["# r R(r)".toList, [], " 0.5\t 1e-1".toList], "1 2 # last".toList, rfl, by decide, by decide⟩,
    .cons ⟨[], ⟨by simp, "# r R(r)".toList, rfl, by simp⟩, .nil _ (by simp [Blank])⟩
      (.cons ⟨[], ⟨by simp, [], rfl, by simp⟩, .nil _ (by simp [Blank])⟩ (.cons ⟨by simp, " 0.5\t 1e-1".toList,
        ["0.5".toList, "1e-1".toList], ⟨by decide, [], by simp, by simp⟩, ?_, .cons ?_ (.cons ?_ .nil)⟩
        (.cons ⟨by simp, "1 2 ".toList, ["1".toList, "2".toList], ⟨by decide, "# last".toList, by simp, by simp⟩, ?_,
          .cons ?_ (.cons ?_ .nil)⟩ .nil))), by simp⟩
  · exact .cons [' '] (by simp [Blank]) "0.5".toList (by simp) (by simp) "\t 1e-1".toList (by simp) _
      (.cons ['\t', ' '] (by simp [Blank]) "1e-1".toList (by simp) (by simp) [] (by simp) _ (.nil _ (by simp [Blank])))
  · refine ⟨[], 1, ['0'], ['.', '5'], ['5'], [], 0, .none, by simp [Digits], .point _ (by simp [Digits]), by simp, .none, rfl, ?_⟩
    have : numeral (['0'] ++ ['5']) = 5 := by decide
    rw [this]
    norm_num [_root_.zpow_neg]
  · refine ⟨[], 1, ['1'], [], [], ['e', '-', '1'], -1 * numeral ['1'], .none, by simp [Digits], .none, by simp,
      .some 'e' (.inl rfl) ['-'] (-1) .minus ['1'] (by simp) (by simp [Digits]), rfl, ?_⟩
    have h1 : numeral ['1'] = 1 := by decide
    rw [List.append_nil, h1]
    norm_num [_root_.zpow_neg]
  · exact .cons [] (by simp [Blank]) ['1'] (by simp) (by simp) " 2 ".toList (by simp) _
      (.cons [' '] (by simp [Blank]) ['2'] (by simp) (by simp) [' '] (by simp) _ (.nil _ (by simp [Blank])))
  · refine ⟨[], 1, ['1'], [], [], [], 0, .none, by simp [Digits], .none, by simp, .none, rfl, ?_⟩
    have h1 : numeral ['1'] = 1 := by decide
    rw [List.append_nil, h1]
    norm_num
  · refine ⟨[], 1, ['2'], [], [], [], 0, .none, by simp [Digits], .none, by simp, .none, rfl, ?_⟩
    have h1 : numeral ['2'] = 2 := by decide
    rw [List.append_nil, h1]
    norm_num

/-- C98, what is printed: the text of a number with `p` decimals denotes the multiple of `10⁻ᵖ` nearest to it.  The field of
the tables is at least eight characters wide. -/
theorem C98_number (p : ℕ) (x : ℝ) : (∃ y, Denotes (fixedPoint p x) y ∧ Nearest p x y) ∧ 8 ≤ (format84 x).length := by
  refine ⟨⟨_, fixedPoint_denotes p x, printed_nearest p x⟩, ?_⟩
  simp only [format84, padLeft, List.length_append, List.length_replicate]
  omega

/-- C98, header: the first line of each file names the columns, and as a comment it is not read as numbers. -/
theorem C98_header (f : SpectrumFiles) : ∃ rest, f.text = "# E  sum  T1  T2  T3 ...\n".toList ++ rest := by
  refine ⟨(f.table.map savetxtRow).flatten, ?_⟩
  unfold SpectrumFiles.text savetxt
  simp

/-- C98, tables: what `np.savetxt` writes, `np.loadtxt` reads again, to four decimals: no columns are merged, however large the
numbers are, and no row is lost. -/
theorem C98_table (header : List Char) (hh : '\n' ∉ header) (rows : List (List ℝ)) (n : ℕ) (hn : 0 < n)
    (hr : ∀ r ∈ rows, r.length = n) :
    ∃ read, loadtxt (savetxt header rows) = .ok read ∧ List.Forall₂ (List.Forall₂ (Nearest 4)) rows read := by
  refine ⟨rows.map fun r => r.map (printed 4), (loadtxt_iff _ _).2 ⟨savetxt_rows hh ?_, ?_⟩, ?_⟩
  · intro r h e
    have := hr r h
    rw [e] at this
    simp at this
    omega
  · intro r h r' h'
    simp only [List.mem_map] at h h'
    obtain ⟨q, hq, rfl⟩ := h
    obtain ⟨q', hq', rfl⟩ := h'
    rw [List.length_map, List.length_map, hr q hq, hr q' hq']
  · rw [List.forall₂_map_right_iff, List.forall₂_same]
    intro r _
    rw [List.forall₂_map_right_iff, List.forall₂_same]
    intro x _
    exact printed_nearest 4 x

/-- Numbers that are wider than the field. -/
example : ∃ read, loadtxt (savetxt "E".toList [[-12345678.00005, 0.00004], [1, 2]]) = .ok read ∧
    List.Forall₂ (List.Forall₂ (Nearest 4)) [[-12345678.00005, 0.00004], [1, 2]] read :=
  C98_table _ (by decide) _ 2 (by norm_num) (by simp)

/-- C98, what rounding keeps: a value that is not negative stays so, larger values stay at least as large, values further apart
than a step stay different, values below half a step vanish. -/
theorem C98_nearest {p : ℕ} {x x' y y' : ℝ} (h : Nearest p x y) (h' : Nearest p x' y') :
    (0 ≤ x → 0 ≤ y) ∧ (x ≤ x' → y ≤ y') ∧ (x + 1 / 10 ^ p < x' → y < y') ∧ (|x| < 1 / 2 / 10 ^ p → y = 0) := by
  have hp : (0 : ℝ) < 10 ^ p := by positivity
  have hhalf : (1 : ℝ) / 10 ^ p = 1 / 2 / 10 ^ p + 1 / 2 / 10 ^ p := by ring
  have hmono : x ≤ x' → y ≤ y' := by
    intro hx
    obtain ⟨k, rfl, h1, h2⟩ := id h
    obtain ⟨m, rfl, h3, h4⟩ := id h'
    by_contra hlt
    rw [not_le, div_lt_div_iff_of_pos_right hp] at hlt
    have hkm : m + 1 ≤ k := by exact_mod_cast hlt
    have hd : (m : ℝ) / 10 ^ p + 1 / 10 ^ p ≤ k / 10 ^ p := by
      rw [← add_div, div_le_div_iff_of_pos_right hp]
      exact_mod_cast hkm
    have a1 := (_root_.abs_le.1 h1).2
    have a2 := (_root_.abs_le.1 h3).1
    have hxx : x = x' := by linarith
    subst hxx
    have := nearest_unique h h'
    linarith [this, hd, div_pos one_pos hp]
  refine ⟨?_, hmono, ?_, ?_⟩
  · intro hx
    obtain ⟨k, rfl, h1, -⟩ := h
    have a1 := (_root_.abs_le.1 h1).1
    have : -(1 : ℝ) < k := by
      have : -(1 / 2 / 10 ^ p) ≤ (k : ℝ) / 10 ^ p := by linarith
      rw [div_div, neg_le_iff_add_nonneg] at this
      have h2 : (0 : ℝ) ≤ (k / 10 ^ p + 1 / (2 * 10 ^ p)) * 10 ^ p := mul_nonneg this hp.le
      have h3 : ((k : ℝ) / 10 ^ p + 1 / (2 * 10 ^ p)) * 10 ^ p = k + 1 / 2 := by field_simp
      rw [h3] at h2
      linarith
    have hk : (-1 : ℤ) < k := by exact_mod_cast this
    exact div_nonneg (by exact_mod_cast (by omega : (0 : ℤ) ≤ k)) hp.le
  · intro hx
    obtain ⟨k, rfl, h1, -⟩ := h
    obtain ⟨m, rfl, h3, -⟩ := h'
    have a1 := (_root_.abs_le.1 h1).2
    have a2 := (_root_.abs_le.1 h3).1
    linarith
  · intro hx
    obtain ⟨k, rfl, h1, -⟩ := h
    have : |(k : ℝ)| / 10 ^ p < 1 / 10 ^ p := by
      rw [← abs_of_pos hp, ← abs_div, abs_of_pos hp]
      have : (k : ℝ) / 10 ^ p = (k / 10 ^ p - x) + x := by ring
      rw [this]
      exact (abs_add_le _ _).trans_lt (by linarith)
    rw [div_lt_div_iff_of_pos_right hp] at this
    have hk : |k| < 1 := by exact_mod_cast this
    have : k = 0 := Int.abs_lt_one_iff.1 hk
    rw [this]
    simp

example : Nearest 4 0.00004 0 ∧ Nearest 4 0.00005 0 ∧ Nearest 4 0.00015 0.0002 := by
  refine ⟨⟨0, by norm_num, by norm_num [_root_.abs_le], by simp⟩, ⟨0, by norm_num, by norm_num [_root_.abs_le], by simp⟩,
    ⟨2, by norm_num, by norm_num [_root_.abs_le], fun _ => ⟨1, by norm_num⟩⟩⟩

/-- C98: the column `sum` is the sum of the columns behind it, up to the rounding of each column. -/
theorem C98_sum {E : ℕ → ℝ} {n nOps : ℕ} {f : ℕ → ℕ → ℝ} {rows : List (List ℝ)} (h : ShowsTable E n nOps f rows) {k : ℕ}
    (e total : ℝ) (values : List ℝ) (hrow : rows[k]? = some (e :: total :: values)) :
    |total - values.sum| ≤ (nOps + 1) * (1 / 2 / 10 ^ 4) := by
  have hk : k < n := by
    rw [← h.length]
    exact (List.getElem?_eq_some_iff.1 hrow).1
  obtain ⟨e', total', values', h1, h2, -, h4, h5⟩ := h.row k hk
  rw [hrow] at h1
  cases h1
  have hs : |(∑ t ∈ range nOps, f t k) - values.sum| ≤ nOps * (1 / 2 / 10 ^ 4) := by
    have : values.sum = ∑ t ∈ range nOps, values.getD t 0 := by
      rw [← sum_range_list, ← h2]
      congr 1
      apply List.ext_getElem
      · simp
      · intro i a b
        simp [a]
    rw [this, ← sum_sub_distrib]
    refine (abs_sum_le_sum_abs _ _).trans ?_
    rw [← nsmul_eq_mul, ← card_range nOps, ← sum_const, card_range]
    refine sum_le_sum fun t ht => ?_
    rw [mem_range, ← h2] at ht
    obtain ⟨m, hm, hd, -⟩ := h5 t ht
    rw [List.getD_eq_getElem _ _ ht, abs_sub_comm]
    exact hd
  obtain ⟨m, -, hd, -⟩ := h4
  have : total - values.sum = (total - ∑ t ∈ range nOps, f t k) + ((∑ t ∈ range nOps, f t k) - values.sum) := by ring
  rw [this]
  refine (abs_add_le _ _).trans ?_
  linarith

/-- The table of a spectrum. -/
theorem files_text {kB T : ℝ} {es w : List ℝ} {nOps : ℕ} {s : SpectrumFiles} (h : FilesOf kB T es w nOps s) :
    ∃ read, loadtxt s.text = .ok read ∧ ShowsTable (fun k => w.getD k 0) w.length nOps s.thermal read := by
  have hget : ∀ k (hk : k < s.table.length), s.table[k] =
      w.getD k 0 :: (∑ t ∈ range nOps, s.thermal t k) :: (List.range nOps).map fun t => s.thermal t k := by
    intro k hk
    have hk' : k < w.length := by rw [← h.rows]; exact hk
    have := h.row k hk'
    rw [List.getElem?_eq_getElem hk] at this
    rw [Option.some.inj this, List.getD_eq_getElem _ _ hk']
  obtain ⟨read, h1, h2⟩ := C98_table "E  sum  T1  T2  T3 ...".toList (by decide) s.table (nOps + 2) (by omega) (by
    intro r hr
    obtain ⟨k, hk, rfl⟩ := List.mem_iff_getElem.1 hr
    rw [hget k hk]
    simp)
  refine ⟨read, h1, by rw [← h2.length_eq, h.rows], fun k hk => ?_⟩
  have hk1 : k < s.table.length := by rw [h.rows]; exact hk
  have hk2 : k < read.length := by rw [← h2.length_eq]; exact hk1
  have hrow := (List.forall₂_iff_get.1 h2).2 k hk1 hk2
  rw [List.get_eq_getElem, List.get_eq_getElem] at hrow
  simp only at hrow
  rw [hget k hk1] at hrow
  cases hr : read[k] with
  | nil => rw [hr] at hrow; cases hrow
  | cons e l =>
    rw [hr] at hrow
    cases hrow with
    | cons he hrow =>
      cases l with
      | nil => cases hrow
      | cons total values =>
        cases hrow with
        | cons ht hv =>
          refine ⟨e, total, values, by rw [List.getElem?_eq_getElem hk2, hr], by simpa using hv.length_eq.symm, he, ht,
            fun t h3 => ?_⟩
          have h4 : t < ((List.range nOps).map fun t => s.thermal t k).length := by rw [hv.length_eq]; exact h3
          simpa using (List.forall₂_iff_get.1 hv).2 t h4 h3

section
variable {S : SimulateArgs} (hS : S.Valid) (hout : S.OutLarge) {N : ℕ} (hN : 0 < N)
  {ord : Fin N → ℕ → ℕ → ℕ → SetOrders} (hord : ∀ k c t i, (ord k c t i).Valid)
  {ordRixs : Fin N → List ℕ → SetOrders} (hordR : ∀ k l, (ordRixs k l).Valid) {out : Fin N → Option Simulated}
  (hfin : CanFinish msgSum (fun k : Fin N => simulateSpectra S (ord k) (ordRixs k) k.val N) out)
  {s : Simulated} (hs : out ⟨0, hN⟩ = some s)

include hS hout hord hordR hfin hs in
/-- C98: the files `PS.dat`, `XPS.dat`, `NIXS.dat` and `XAS.dat` of a finished run of `simulate_spectra` can be read, and show
the meshes, the sums and the thermal averages to four decimals. -/
theorem C98_simulate :
    (∃ read, loadtxt s.ps.text = .ok read ∧ ShowsTable (fun k => S.w.getD k 0) S.w.length 10 s.ps.thermal read) ∧
    (∃ read, loadtxt s.xps.text = .ok read ∧ ShowsTable (fun k => S.w.getD k 0) S.w.length 6 s.xps.thermal read) ∧
    (∃ read, loadtxt s.nixs.text = .ok read ∧
      ShowsTable (fun k => S.wLoss.getD k 0) S.wLoss.length S.qsNIXS.length s.nixs.thermal read) ∧
    (∃ read, loadtxt s.xas.text = .ok read ∧
      ShowsTable (fun k => S.w.getD k 0) S.w.length S.epsilons.length s.xas.thermal read) := by
  obtain ⟨h1, h2, h3, h4⟩ := C63_tables hS hout hN hord hordR hfin hs
  exact ⟨files_text h1, files_text h2, files_text h3, files_text h4⟩

end

section
variable {L : MainLib} {A : MainArgs} (hA : A.Valid) (hG : GauntLarge L.gaunt A.ls) {N : ℕ} (hN : 0 < N)
  {ord : Fin N → ℕ → ℕ → ℕ → SetOrders} (hord : ∀ k c t i, (ord k c t i).Valid)
  {ordRixs : Fin N → List ℕ → SetOrders} (hordR : ∀ k l, (ordRixs k l).Valid) {out : Fin N → Option MainOutput}
  (hfin : CanFinish msgSum (fun k : Fin N => mainRank L A (ord k) (ordRixs k) k.val N) out)
  {o : MainOutput} (ho : out ⟨0, hN⟩ = some o)
  (hL : SolverCorrect L.solver) {b : ℕ → ℕ} {P : BasisParams} {hx hy hz : ℝ} {h0 : Op Label ℂ}
  (hD : Documented A b P hx hy hz h0)

/-- The table of a spectrum on one of the meshes of main. -/
theorem main_text {kB T : ℝ} {es w : List ℝ} {nOps n : ℕ} {s : SpectrumFiles} {x y : ℝ} (h : FilesOf kB T es w nOps s)
    (hw : Mesh w x y n) (hstep : 1 / 10 ^ 4 < (y - x) / (n - 1)) (hn : 1 < n) (hpos : ∀ t k, 0 ≤ s.thermal t k) :
    ∃ read, loadtxt s.text = .ok read ∧ ShowsTable (fun k => x + (y - x) * k / (n - 1)) n nOps s.thermal read ∧
      (read.map fun r => r.headD 0).Pairwise (· < ·) ∧ ∀ r ∈ read, ∀ v ∈ r.tail, 0 ≤ v := by
  obtain ⟨read, h1, h2⟩ := files_text h
  have hE : ∀ k < n, w.getD k 0 = x + (y - x) * k / (n - 1) := by
    intro k hk
    rw [List.getD_eq_getElem _ _ (by rw [hw.1]; exact hk), hw.2]
  have hshow : ShowsTable (fun k => x + (y - x) * k / (n - 1)) n nOps s.thermal read := by
    refine ⟨by rw [h2.length, hw.1], fun k hk => ?_⟩
    obtain ⟨e, total, values, a1, a2, a3, a4⟩ := h2.row k (by rw [hw.1]; exact hk)
    rw [hE k hk] at a3
    exact ⟨e, total, values, a1, a2, a3, a4⟩
  have hrow : ∀ k (hk : k < read.length), ∃ e total values, read[k] = e :: total :: values ∧
      Nearest 4 (x + (y - x) * k / (n - 1)) e ∧ 0 ≤ total ∧ ∀ v ∈ values, 0 ≤ v := by
    intro k hk
    obtain ⟨e, total, values, a1, a2, a3, a4, a5⟩ := hshow.row k (by rw [← hshow.length]; exact hk)
    rw [List.getElem?_eq_getElem hk] at a1
    refine ⟨e, total, values, Option.some.inj a1, a3, (C98_nearest a4 a4).1 (sum_nonneg fun t _ => hpos t k), fun v hv => ?_⟩
    obtain ⟨t, ht, rfl⟩ := List.mem_iff_getElem.1 hv
    exact (C98_nearest (a5 t ht) (a5 t ht)).1 (hpos t k)
  refine ⟨read, h1, hshow, ?_, ?_⟩
  · rw [List.pairwise_iff_getElem]
    intro i j hi hj hij
    rw [List.length_map] at hi hj
    obtain ⟨e, _, _, r1, n1, -⟩ := hrow i hi
    obtain ⟨e', _, _, r2, n2, -⟩ := hrow j hj
    simp only [List.getElem_map, r1, r2, List.headD_cons]
    refine (C98_nearest n1 n2).2.2.1 ?_
    have hn' : (0 : ℝ) < n - 1 := by
      have : (1 : ℝ) < n := by exact_mod_cast hn
      linarith
    have hle : (i : ℝ) + 1 ≤ j := by exact_mod_cast hij
    have hs0 : 0 < (y - x) / (n - 1) := lt_trans (by norm_num) hstep
    have e1 : (y - x) * (i : ℝ) / (n - 1) = (y - x) / (n - 1) * i := by ring
    have e2 : (y - x) * (j : ℝ) / (n - 1) = (y - x) / (n - 1) * j := by ring
    rw [e1, e2]
    have := mul_le_mul_of_nonneg_left hle hs0.le
    linarith
  · intro r hr v hv
    obtain ⟨k, hk, rfl⟩ := List.mem_iff_getElem.1 hr
    obtain ⟨e, total, values, r1, -, p1, p2⟩ := hrow k hk
    rw [r1] at hv
    rcases List.mem_cons.1 hv with rfl | hv
    · exact p1
    · exact p2 v hv

include hA hG hord hordR hfin ho hL hD in
/-- C98: the text files of a finished run of `main` with positive broadenings.  They show the stored averages on the documented
meshes to four decimals; the energies in the file are strictly increasing and no intensity is negative. -/
theorem C98_main (hd : 0 < A.delta) (hdN : 0 < A.deltaNIXS) (hdR : 0 < A.deltaRIXS) :
    (∀ q ∈ [(o.spectra.ps, 10), (o.spectra.xps, 6), (o.spectra.xas, 3)], ∃ read, loadtxt q.1.text = .ok read ∧
      ShowsTable (fun k => -25 + 50 * (k : ℝ) / 2999) 3000 q.2 q.1.thermal read ∧
      (read.map fun r => r.headD 0).Pairwise (· < ·) ∧ ∀ r ∈ read, ∀ v ∈ r.tail, 0 ≤ v) ∧
    ∃ read, loadtxt o.spectra.nixs.text = .ok read ∧
      ShowsTable (fun k => -2 + 14 * (k : ℝ) / 3999) 4000 2 o.spectra.nixs.thermal read ∧
      (read.map fun r => r.headD 0).Pairwise (· < ·) ∧ ∀ r ∈ read, ∀ v ∈ r.tail, 0 ≤ v := by
  obtain ⟨psis, S, hrun, hS, hout, hall⟩ := C65_run hA hG hN hord hordR hfin ho hL hD
  have hfin := (hall N hN ord hord ordRixs hordR).canFinish
  have hs : (fun k : Fin N => if k.val = 0 then some o.spectra else none) ⟨0, hN⟩ = some o.spectra := rfl
  have htab := C63_tables hS hout hN hord hordR hfin hs
  rw [hrun.args.qs.1, hrun.args.epsilons] at htab
  have hnn : SimulatedNonneg o.spectra := by
    obtain ⟨s, h1, h2⟩ := (C43_simulate S (by rw [hrun.args.delta]; exact hd) (by rw [hrun.args.deltaNIXS]; exact hdN)
      (by rw [hrun.args.deltaRIXS]; exact hdR) ord ordRixs _ hfin ⟨0, hN⟩).1 rfl
    cases h1
    exact h2
  have e1 : (fun k : ℕ => (-25 : ℝ) + (25 - -25) * k / ((3000 : ℕ) - 1)) = fun k : ℕ => (-25 : ℝ) + 50 * (k : ℝ) / 2999 := by
    funext k; norm_num
  have e2 : (fun k : ℕ => (-2 : ℝ) + (12 - -2) * k / ((4000 : ℕ) - 1)) = fun k : ℕ => (-2 : ℝ) + 14 * (k : ℝ) / 3999 := by
    funext k; norm_num
  constructor
  · intro q hq
    simp only [List.mem_cons, List.not_mem_nil, or_false] at hq
    rw [← e1]
    rcases hq with rfl | rfl | rfl
    · exact main_text htab.1 hrun.args.w (by norm_num) (by norm_num) hnn.ps.thermal
    · exact main_text htab.2.1 hrun.args.w (by norm_num) (by norm_num) hnn.xps.thermal
    · exact main_text htab.2.2.2 hrun.args.w (by norm_num) (by norm_num) hnn.xas.thermal
  · rw [← e2]
    exact main_text htab.2.2.1 hrun.args.wLoss (by norm_num) (by norm_num) hnn.nixs.thermal

end

/-- The hypotheses are met: `main` on three ranks, with any radial file of two or more pairs of numbers. -/
example (sphHarm : SphHarm) (jn : SphericalJn) (T : ℝ) (hT : 0 < T) (text : List Char) (radial : List (ℝ × ℝ))
    (_ : readRadial text = .ok radial) : ∃ o : MainOutput, ∃ read, loadtxt o.spectra.xas.text = .ok read ∧
      ShowsTable (fun k => -25 + 50 * (k : ℝ) / 2999) 3000 3 o.spectra.xas.thermal read ∧
      (read.map fun r => r.headD 0).Pairwise (· < ·) ∧ ∀ r ∈ read, ∀ v ∈ r.tail, 0 ≤ v := by
  obtain ⟨solver, hS, htot⟩ := exists_solver
  obtain ⟨o, ho⟩ := C64_example hS htot sphHarm jn one_pos hT radial
  have h1 := (ho 3 (by decide) (fun _ _ _ _ => holeOrders) (fun _ _ _ _ => holeOrders_valid) (fun _ _ => holeOrders)
    (fun _ _ => holeOrders_valid)).canFinish
  exact ⟨o, (C98_main (holeArgs_valid 0 T radial) sympyGaunt_large (by decide) (fun _ _ _ _ => holeOrders_valid)
    (fun _ _ => holeOrders_valid) h1 rfl hS (holeArgs_documented 0 T radial) (by norm_num [holeArgs]) (by norm_num [holeArgs])
    (by norm_num [holeArgs])).1 (o.spectra.xas, 3) (by simp)⟩

end

end Verif
