/-
The text of lines, for C100.
-/
import Verif.Spec.PrintedText
import Verif.Model.PrintedText
import Verif.Lemmas.TextTable
import Verif.Lemmas.Printed

namespace Verif

open Spec Finset Psr

noncomputable section

/-! ### words -/

theorem blank_nil : Blank [] := by simp [Blank]

theorem blank_one : Blank [' '] := by
  intro c hc
  simp at hc
  subst hc
  decide

theorem words_last {w : List Char} (hne : w ≠ []) (hw : ∀ c ∈ w, c.isWhitespace = false) (k : ℕ) : Words (padLeft k w) [w] := by
  have := Words.cons (List.replicate (k - w.length) ' ') (blank_replicate _) w hne hw [] (by simp) [] (.nil _ blank_nil)
  simpa [padLeft] using this

/-- The words of a line in which they are separated by blanks. -/
theorem line_words (ws : List (ℕ × List Char)) (h : ∀ q ∈ ws, q.2 ≠ [] ∧ ∀ c ∈ q.2, c.isWhitespace = false) :
    Words (List.intersperse [' '] (ws.map fun q => padLeft q.1 q.2)).flatten (ws.map Prod.snd) := by
  induction ws with
  | nil => exact .nil _ (by simp [Blank])
  | cons q ws ih =>
    obtain ⟨h1, h2⟩ := h q (by simp)
    cases ws with
    | nil => simpa using words_last h1 h2 q.1
    | cons q' ws =>
      have := Words.cons (List.replicate (q.1 - q.2.length) ' ') (blank_replicate _) q.2 h1 h2 _ (by simp) _
        (words_prepend (b := [' ']) blank_one (ih fun q hq => h q (List.mem_cons_of_mem _ hq)))
      simpa [padLeft] using this

theorem line_words' (ws : List (ℕ × List Char)) (h : ∀ q ∈ ws, q.2 ≠ [] ∧ ∀ c ∈ q.2, c.isWhitespace = false) :
    Words ((ws.map fun q => ' ' :: padLeft q.1 q.2)).flatten (ws.map Prod.snd) := by
  induction ws with
  | nil => exact .nil _ (by simp [Blank])
  | cons q ws ih =>
    obtain ⟨h1, h2⟩ := h q (by simp)
    have := Words.cons (List.replicate (q.1 - q.2.length) ' ') (blank_replicate _) q.2 h1 h2 _ (by cases ws <;> simp) _
      (ih fun q hq => h q (List.mem_cons_of_mem _ hq))
    have := words_prepend (b := [' ']) blank_one this
    simpa [padLeft] using this

theorem named_words {name w : List Char} (hn : name ≠ []) (hs : ∀ c ∈ name, c.isWhitespace = false) (k : ℕ) (hne : w ≠ [])
    (hw : ∀ c ∈ w, c.isWhitespace = false) : Words (name ++ [' ', '=', ' '] ++ padLeft k w) [name, ['='], w] := by
  have h1 := words_prepend (b := [' ']) blank_one (words_last hne hw k)
  have h2 := Words.cons [' '] blank_one ['='] (by simp) (by intro c hc; simp at hc; subst hc; decide) _ (by simp) _ h1
  have h3 := Words.cons [] blank_nil name hn hs _ (by simp) _ h2
  simpa using h3

theorem words_unique {l : List Char} {ws ws' : List (List Char)} (h : Words l ws) (h' : Words l ws') : ws = ws' :=
  (wordsFrom_spec h).symm.trans (wordsFrom_spec h')

theorem denotes_unique {w : List Char} {x y : ℝ} (h : Denotes w x) (h' : Denotes w y) : x = y := by
  have := (parseFloat_iff w x).2 h
  rw [(parseFloat_iff w y).2 h'] at this
  exact (Except.ok.inj this).symm

theorem words_of (l : List Char) : Words l (wordsFrom [] l) := by
  obtain ⟨ws, h⟩ := words_exists l
  rw [wordsFrom_spec h]
  exact h

theorem fixedPoint_shows (p : ℕ) (x : ℝ) : Shows p x (fixedPoint p x) := ⟨_, fixedPoint_denotes p x, printed_nearest p x⟩

theorem wholeDigits_chars (n : ℕ) : wholeDigits n ≠ [] ∧ ∀ c ∈ wholeDigits n, c.isWhitespace = false ∧ c ≠ '\n' ∧ c ≠ '#' :=
  ⟨(wholeDigits_spec n).2.2, fun c hc => digit_not_space ((wholeDigits_spec n).1 c hc)⟩

theorem formatC_real (w p : ℕ) (x : ℝ) : formatC w p (x : ℂ) = formatF w p x := by simp [formatC]

/-- Without white space in the words there is no end of line in the line. -/
theorem padLeft_newline {w : List Char} (hw : ∀ c ∈ w, c ≠ '\n') (k : ℕ) : '\n' ∉ padLeft k w := by
  intro h
  rcases List.mem_append.1 h with h | h
  · exact absurd (List.mem_replicate.1 h).2 (by decide)
  · exact hw _ h rfl

theorem line_newline (ws : List (ℕ × List Char)) (h : ∀ q ∈ ws, ∀ c ∈ q.2, c ≠ '\n') :
    '\n' ∉ (List.intersperse [' '] (ws.map fun q => padLeft q.1 q.2)).flatten := by
  induction ws with
  | nil => simp
  | cons q ws ih =>
    have h1 := padLeft_newline (h q (by simp)) q.1
    have h2 := ih fun q hq => h q (List.mem_cons_of_mem _ hq)
    cases ws with
    | nil => simpa using h1
    | cons q' ws => simpa [h1] using h2

/-! ### the number of d electrons -/

theorem realOrbital_complete {m m' : ℤ} (hm : m ∈ Icc (-2 : ℤ) 2) (hm' : m' ∈ Icc (-2 : ℤ) 2) :
    ∑ i ∈ range 5, realOrbital i m * star (realOrbital i m') = if m = m' then 1 else 0 := by
  rw [mem_Icc] at hm hm'
  have a : (m + 2).toNat < 5 := by omega
  have a' : (m' + 2).toNat < 5 := by omega
  have e : (((m + 2).toNat : ℕ) : ℤ) - 2 = m := by omega
  have e' : (((m' + 2).toNat : ℕ) : ℤ) - 2 = m' := by omega
  have := unitary_cubicD.2.2 (m + 2).toNat a (m' + 2).toNat a'
  rw [show (if m = m' then (1 : ℂ) else 0) = if (m + 2).toNat = (m' + 2).toNat then 1 else 0 by
    congr 1
    simp only [eq_iff_iff]
    omega]
  rw [← this]
  change _ = ∑ i ∈ range 5, _
  refine sum_congr rfl fun i hi => ?_
  rw [cubicD_real (mem_range.1 hi) a, cubicD_real (mem_range.1 hi) a', e, e']

theorem realOrbital_normSq {i : ℕ} (hi : i < 5) : ∑ m ∈ Icc (-2 : ℤ) 2, Complex.normSq (realOrbital i m) = 1 := by
  have := unitary_cubicD.2.1 i hi i hi
  rw [if_pos rfl] at this
  rw [sum_Icc5]
  apply Complex.ofReal_injective
  rw [Complex.ofReal_one, ← this, Complex.ofReal_sum]
  change _ = ∑ k ∈ range 5, _
  refine sum_congr rfl fun k hk => ?_
  rw [cubicD_real hi (mem_range.1 hk), Complex.normSq_eq_conj_mul_self]
  rfl

/-- The occupations of the real orbitals add up to the number of d electrons. -/
theorem shellNumber_occupations {n : ℕ} {f : Label → ℕ} (hf : ∀ x ∈ shell 2, f (.imp 2 x.1 x.2) < n) (v : Vec ℂ) :
    Spec.expect n (shellNumber f 2) v = ((∑ i ∈ range 5, realOccupation n f v 0 i + ∑ i ∈ range 5, realOccupation n f v 1 i : ℝ) : ℂ) := by
  have hs : ∀ s : ℤ, s = 0 ∨ s = 1 → ((∑ i ∈ range 5, realOccupation n f v s i : ℝ) : ℂ)
      = ∑ m ∈ Icc (-2 : ℤ) 2, correl n v (f (.imp 2 s m)) (f (.imp 2 s m)) := by
    intro s hs
    have hlt : ∀ m ∈ Icc (-2 : ℤ) 2, f (.imp 2 s m) < n := by
      intro m hm
      refine hf (s, m) ?_
      unfold shell
      rw [mem_product]
      refine ⟨?_, by simpa using hm⟩
      rcases hs with rfl | rfl <;> simp
    rw [Complex.ofReal_sum]
    have h1 : ∀ i ∈ range 5, ((realOccupation n f v s i : ℝ) : ℂ) = ∑ j ∈ Icc (-2 : ℤ) 2, ∑ k ∈ Icc (-2 : ℤ) 2,
        realOrbital i j * star (realOrbital i k) * correl n v (f (.imp 2 s k)) (f (.imp 2 s j)) := by
      intro i _
      rw [sum_correl (Icc (-2 : ℤ) 2) (fun m => f (.imp 2 s m)) hlt, innerProduct_self]
      rfl
    rw [sum_congr rfl h1, sum_comm]
    refine sum_congr rfl fun j hj => ?_
    rw [sum_comm, sum_eq_single j]
    · rw [← sum_mul, realOrbital_complete hj hj, if_pos rfl, one_mul]
    · intro k hk hne
      rw [← sum_mul, realOrbital_complete hj hk, if_neg (Ne.symm hne), zero_mul]
    · exact fun h => absurd hj h
  rw [Complex.ofReal_add, hs 0 (.inl rfl), hs 1 (.inr rfl)]
  unfold Spec.expect shellNumber
  rw [innerProduct_sum_right, shell, sum_product, sum_pair (by norm_num)]
  rfl

/-! ### thermal averages -/

theorem thermalMean_congr {E : Type} [AddCommGroup E] [Module ℝ E] {kB T window e0 : ℝ} {energies : List ℝ} {x y : ℕ → E}
    (h : ∀ i < energies.length, x i = y i) : thermalMean kB T window e0 energies x = thermalMean kB T window e0 energies y := by
  unfold thermalMean
  congr 1
  exact sum_congr rfl fun i hi => by rw [h i (mem_range.1 hi)]

theorem thermalMean_ofReal (kB T window e0 : ℝ) (energies : List ℝ) (x : ℕ → ℝ) :
    thermalMean kB T window e0 energies (fun i => (x i : ℂ)) = ((thermalMean kB T window e0 energies x : ℝ) : ℂ) := by
  unfold thermalMean
  rw [Complex.real_smul, smul_eq_mul, Complex.ofReal_mul, Complex.ofReal_sum]
  congr 1
  refine sum_congr rfl fun i _ => ?_
  split
  · rw [Complex.real_smul, smul_eq_mul, Complex.ofReal_mul]
  · simp

end

end Verif
