/-
Lemmas about text files with numbers.
-/
import Verif.Model.TextTable
import Verif.Spec.TextTable
import Mathlib.Tactic.Linarith
import Mathlib.Tactic.IntervalCases
import Mathlib.Tactic.FieldSimp
import Mathlib.Tactic.Ring
import Mathlib.Tactic.NormNum

namespace Verif

open Spec

/-! ### Digits -/

theorem digitsValue_concat (cs : List Char) (c : Char) : digitsValue (cs ++ [c]) = 10 * digitsValue cs + (c.toNat - 48) := by
  simp [digitsValue]

theorem numeral_concat (cs : List Char) (c : Char) : numeral (cs ++ [c]) = (c.toNat - 48) + 10 * numeral cs := by
  unfold numeral
  rw [List.map_append, List.reverse_append]
  simp [Nat.ofDigits_cons]

theorem digitsValue_eq (cs : List Char) : digitsValue cs = numeral cs := by
  induction cs using List.reverseRecOn with
  | nil => simp [digitsValue, numeral]
  | append_singleton cs c ih => rw [digitsValue_concat, numeral_concat, ih]; omega

theorem numeral_append (a b : List Char) : numeral (a ++ b) = numeral a * 10 ^ b.length + numeral b := by
  unfold numeral
  rw [List.map_append, List.reverse_append, Nat.ofDigits_append]
  simp
  ring

theorem digitChar_spec {d : ℕ} (h : d < 10) : (Nat.digitChar d).isDigit = true ∧ (Nat.digitChar d).toNat - 48 = d := by
  interval_cases d <;> decide

theorem wholeDigits_spec (n : ℕ) : Digits (wholeDigits n) ∧ numeral (wholeDigits n) = n ∧ wholeDigits n ≠ [] := by
  unfold wholeDigits
  split
  · rename_i h
    subst h
    refine ⟨?_, ?_, by simp⟩
    · intro c hc
      simp at hc
      subst hc
      decide
    · decide
  · rename_i h
    refine ⟨?_, ?_, ?_⟩
    · intro c hc
      simp only [List.mem_map, List.mem_reverse] at hc
      obtain ⟨d, hd, rfl⟩ := hc
      exact (digitChar_spec (Nat.digits_lt_base (by norm_num) hd)).1
    · unfold numeral
      rw [List.map_map, ← List.map_reverse, List.reverse_reverse]
      have : (Nat.digits 10 n).map ((fun c : Char => c.toNat - '0'.toNat) ∘ Nat.digitChar) = Nat.digits 10 n := by
        conv_rhs => rw [← List.map_id (Nat.digits 10 n)]
        apply List.map_congr_left
        intro d hd
        exact (digitChar_spec (Nat.digits_lt_base (by norm_num) hd)).2
      rw [this, Nat.ofDigits_digits]
    · simpa using Nat.digits_ne_nil_iff_ne_zero.2 h

theorem lastDigits_succ (p n : ℕ) : lastDigits (p + 1) n = Nat.digitChar (n / 10 ^ p % 10) :: lastDigits p n := by
  simp [lastDigits, List.range_succ]

theorem lastDigits_length (p n : ℕ) : (lastDigits p n).length = p := by simp [lastDigits]

theorem lastDigits_spec (p n : ℕ) : Digits (lastDigits p n) ∧ numeral (lastDigits p n) = n % 10 ^ p := by
  induction p with
  | zero => simp [lastDigits, Digits, numeral, Nat.mod_one]
  | succ p ih =>
    have hd := digitChar_spec (Nat.mod_lt (n / 10 ^ p) (by norm_num : 0 < 10))
    rw [lastDigits_succ]
    constructor
    · intro c hc
      rcases List.mem_cons.1 hc with rfl | hc
      · exact hd.1
      · exact ih.1 c hc
    · rw [← List.singleton_append, numeral_append, ih.2, lastDigits_length, Nat.mod_pow_succ]
      have : numeral [Nat.digitChar (n / 10 ^ p % 10)] = n / 10 ^ p % 10 := by
        rw [← List.nil_append [_], numeral_concat, hd.2]
        simp [numeral]
      rw [this]
      ring

/-! ### Numbers -/

theorem splitSign_spec {s : List Char} {σ : ℤ} (h : Sign s σ) {r : List Char} (hr : ∀ c, r.head? = some c → c ≠ '-' ∧ c ≠ '+') :
    splitSign (s ++ r) = (σ, r) := by
  cases h with
  | none =>
    rw [List.nil_append]
    match r with
    | [] => rfl
    | c :: r =>
      have := hr c rfl
      unfold splitSign
      split
      · rename_i h; cases h; exact absurd rfl this.1
      · rename_i h; cases h; exact absurd rfl this.2
      · rfl
  | plus => rfl
  | minus => rfl

theorem splitSign_sign (w : List Char) : ∃ s, Sign s (splitSign w).1 ∧ w = s ++ (splitSign w).2 := by
  unfold splitSign
  split
  · exact ⟨_, .minus, rfl⟩
  · exact ⟨_, .plus, rfl⟩
  · exact ⟨_, .none, rfl⟩

theorem digit_not_sign {c : Char} (h : c.isDigit = true) : c ≠ '-' ∧ c ≠ '+' := by
  constructor <;> rintro rfl <;> exact absurd h (by decide)

theorem takeWhile_digits {ds r : List Char} (hd : Digits ds) (hr : ∀ c, r.head? = some c → c.isDigit = false) :
    (ds ++ r).takeWhile Char.isDigit = ds ∧ (ds ++ r).dropWhile Char.isDigit = r := by
  induction ds with
  | nil =>
    match r with
    | [] => simp
    | c :: r => simp [hr c rfl]
  | cons d ds ih =>
    have := ih fun c hc => hd c (List.mem_cons_of_mem _ hc)
    simp [hd d (by simp), this]

theorem digits_takeWhile (l : List Char) : Digits (l.takeWhile Char.isDigit) := by
  intro c hc
  exact List.all_eq_true.1 List.all_takeWhile c hc

theorem parseExponent_iff (r : List Char) (k : ℤ) : parseExponent r = .ok k ↔ Exponent r k := by
  constructor
  · intro h
    match r with
    | [] =>
      simp [parseExponent] at h
      subst h
      exact .none
    | c :: r =>
      change (if c = 'e' ∨ c = 'E' then
        if (splitSign r).2 ≠ [] ∧ (splitSign r).2.all Char.isDigit then Except.ok ((splitSign r).1 * (digitsValue (splitSign r).2 : ℤ))
          else Except.error PyErr.valueError else Except.error PyErr.valueError) = Except.ok k at h
      split at h
      · rename_i hc
        split at h
        · rename_i hs
          cases h
          obtain ⟨s, h1, h2⟩ := splitSign_sign r
          have := Exponent.some c hc s _ h1 (splitSign r).2 hs.1 (fun x hx => by simpa using List.all_eq_true.1 hs.2 x hx)
          rw [← h2] at this
          rw [digitsValue_eq]
          exact this
        · simp at h
      · simp at h
  · intro h
    cases h with
    | none => rfl
    | some e he s σ hs ds hne hd =>
      change (if e = 'e' ∨ e = 'E' then
        if (splitSign (s ++ ds)).2 ≠ [] ∧ (splitSign (s ++ ds)).2.all Char.isDigit then
          Except.ok ((splitSign (s ++ ds)).1 * (digitsValue (splitSign (s ++ ds)).2 : ℤ))
          else Except.error PyErr.valueError else Except.error PyErr.valueError) = Except.ok _
      rw [if_pos he]
      have : splitSign (s ++ ds) = (σ, ds) := splitSign_spec hs fun c hc => digit_not_sign (hd c (List.mem_of_head? hc))
      rw [this, if_pos ⟨hne, List.all_eq_true.2 hd⟩, digitsValue_eq]

theorem exponent_head {e : List Char} {k : ℤ} (h : Exponent e k) : ∀ c, e.head? = some c → c.isDigit = false ∧ c ≠ '.' ∧ c ≠ '-' ∧ c ≠ '+' := by
  intro c hc
  cases h with
  | none => simp at hc
  | some x hx =>
    simp at hc
    subst hc
    rcases hx with rfl | rfl <;> decide

theorem splitFraction_spec (r : List Char) : ∃ f, Fraction f (splitFraction r).1 ∧ r = f ++ (splitFraction r).2 := by
  unfold splitFraction
  split
  · rename_i r
    exact ⟨_, .point _ (digits_takeWhile r), by rw [List.cons_append, List.takeWhile_append_dropWhile]⟩
  · exact ⟨_, .none, by rw [List.nil_append]⟩

theorem splitFraction_fraction {f frac e : List Char} (hf : Fraction f frac)
    (hee : ∀ c, e.head? = some c → c.isDigit = false ∧ c ≠ '.' ∧ c ≠ '-' ∧ c ≠ '+') : splitFraction (f ++ e) = (frac, e) := by
  cases hf with
  | none =>
    match e, hee with
    | [], _ => rfl
    | c :: r, hee =>
      have := (hee c rfl).2.1
      rw [List.nil_append]
      unfold splitFraction
      split
      · rename_i h; cases h; exact absurd rfl this
      · rfl
  | point ds hd =>
    have := takeWhile_digits hd (r := e) fun c hc => (hee c hc).1
    simp only [List.cons_append, splitFraction, this]

theorem parseFloat_iff (w : List Char) (x : ℝ) : parseFloat w = .ok x ↔ Denotes w x := by
  constructor
  · intro h
    obtain ⟨s, hs, hw⟩ := splitSign_sign w
    unfold parseFloat at h
    dsimp only at h
    have hsplit : (splitSign w).2 = (splitSign w).2.takeWhile Char.isDigit ++ (splitSign w).2.dropWhile Char.isDigit :=
      (List.takeWhile_append_dropWhile).symm
    set whole := (splitSign w).2.takeWhile Char.isDigit with hwhole
    set rest := (splitSign w).2.dropWhile Char.isDigit with hrest
    obtain ⟨f, h1, h2⟩ : ∃ f, Fraction f (splitFraction rest).1 ∧ rest = f ++ (splitFraction rest).2 := splitFraction_spec rest
    set frac := (splitFraction rest).1 with hfrac
    set e := (splitFraction rest).2 with he
    split at h
    · simp [throw, throwThe, MonadExceptOf.throw, bind, Except.bind] at h
    · rename_i hne
      cases hp : parseExponent e with
      | error err => rw [hp] at h; simp [bind, Except.bind, pure, Except.pure] at h
      | ok k =>
        rw [hp] at h
        simp only [bind, Except.bind, pure, Except.pure, Except.ok.injEq] at h
        refine ⟨s, _, whole, f, frac, e, k, hs, digits_takeWhile _, h1, hne, (parseExponent_iff _ _).1 hp, ?_, ?_⟩
        · rw [List.append_assoc, List.append_assoc, ← h2, ← hsplit, ← hw]
        · rw [← h, digitsValue_eq]
  · rintro ⟨s, σ, whole, f, frac, e, k, hs, hwd, hf, hne, he, rfl, rfl⟩
    have hee := exponent_head he
    have hhead : ∀ c, (f ++ e).head? = some c → c.isDigit = false ∧ c ≠ '-' ∧ c ≠ '+' := by
      intro c hc
      cases hf with
      | none => exact ⟨(hee c hc).1, (hee c hc).2.2⟩
      | point ds hd =>
        simp at hc
        subst hc
        decide
    have h1 : splitSign (s ++ (whole ++ (f ++ e))) = (σ, whole ++ (f ++ e)) := by
      apply splitSign_spec hs
      intro c hc
      match whole, hwd with
      | [], _ => exact (hhead c hc).2
      | d :: ds, hwd =>
        simp at hc
        subst hc
        exact digit_not_sign (hwd _ (by simp))
    have h2 := takeWhile_digits hwd (r := f ++ e) fun c hc => (hhead c hc).1
    have h3 : splitFraction (f ++ e) = (frac, e) := splitFraction_fraction hf hee
    unfold parseFloat
    simp only [List.append_assoc, h1, h2, h3, hne, if_false, (parseExponent_iff _ _).2 he, digitsValue_eq]
    rfl

theorem roundHalfEven_near {y : ℝ} (hy : 0 ≤ y) :
    |(roundHalfEven y : ℝ) - y| ≤ 1 / 2 ∧ (|(roundHalfEven y : ℝ) - y| = 1 / 2 → Even (roundHalfEven y)) := by
  have h1 := Nat.floor_le hy
  have h2 := Nat.lt_floor_add_one y
  unfold roundHalfEven
  dsimp only
  split
  · rename_i h
    rw [abs_sub_comm, abs_of_nonneg (by linarith)]
    exact ⟨h.le, fun e => absurd e h.ne⟩
  · rename_i h
    split
    · rename_i h'
      push_cast
      rw [abs_of_nonneg (by linarith)]
      exact ⟨by linarith, fun e => by exfalso; linarith⟩
    · rename_i h'
      have e : y - ⌊y⌋₊ = 1 / 2 := by linarith
      split
      · rename_i h''
        rw [abs_sub_comm, e]
        exact ⟨by norm_num, fun _ => Nat.even_iff.2 h''⟩
      · rename_i h''
        push_cast
        have : (⌊y⌋₊ : ℝ) + 1 - y = 1 / 2 := by linarith
        rw [this]
        exact ⟨by norm_num, fun _ => Nat.even_iff.2 (by omega)⟩

/-- The number that is read again. -/
noncomputable def printed (p : ℕ) (x : ℝ) : ℝ := (if x < 0 then -1 else 1) * roundHalfEven (|x| * 10 ^ p) / 10 ^ p

theorem fixedPoint_denotes (p : ℕ) (x : ℝ) : Denotes (fixedPoint p x) (printed p x) := by
  obtain ⟨a1, a2, a3⟩ := wholeDigits_spec (roundHalfEven (|x| * 10 ^ p) / 10 ^ p)
  obtain ⟨b1, b2⟩ := lastDigits_spec p (roundHalfEven (|x| * 10 ^ p))
  refine ⟨if x < 0 then ['-'] else [], if x < 0 then -1 else 1, wholeDigits (roundHalfEven (|x| * 10 ^ p) / 10 ^ p),
    '.' :: lastDigits p (roundHalfEven (|x| * 10 ^ p)), lastDigits p (roundHalfEven (|x| * 10 ^ p)), [], 0, ?_, a1, .point _ b1,
    fun h => a3 h.1, .none, ?_, ?_⟩
  · split
    · exact .minus
    · exact .none
  · simp [fixedPoint]
  · rw [numeral_append, a2, b2, lastDigits_length, mul_comm _ (10 ^ p), Nat.div_add_mod]
    unfold printed
    rw [zero_sub, zpow_neg, zpow_natCast, ← div_eq_mul_inv]
    split <;> push_cast <;> rfl

theorem printed_nearest (p : ℕ) (x : ℝ) : Nearest p x (printed p x) := by
  have hp : (0 : ℝ) < 10 ^ p := by positivity
  obtain ⟨h1, h2⟩ := roundHalfEven_near (y := |x| * 10 ^ p) (by positivity)
  have key : |printed p x - x| = |(roundHalfEven (|x| * 10 ^ p) : ℝ) - |x| * 10 ^ p| / 10 ^ p := by
    rw [← abs_of_pos hp, ← abs_div, abs_of_pos hp]
    unfold printed
    split
    · rename_i h
      rw [← abs_neg, abs_of_neg h]
      congr 1
      field_simp
      ring
    · rename_i h
      rw [abs_of_nonneg (not_lt.1 h)]
      congr 1
      field_simp
  refine ⟨(if x < 0 then -1 else 1) * roundHalfEven (|x| * 10 ^ p), ?_, ?_, ?_⟩
  · unfold printed
    push_cast
    split <;> rfl
  · rw [key]
    exact div_le_div_of_nonneg_right h1 hp.le
  · rw [key]
    intro h
    have : Even (roundHalfEven (|x| * 10 ^ p)) := h2 ((div_left_inj' hp.ne').1 h)
    exact Even.mul_left (by exact_mod_cast this) _

/-- A number has only one nearest multiple. -/
theorem nearest_unique {p : ℕ} {x y z : ℝ} (hy : Nearest p x y) (hz : Nearest p x z) : y = z := by
  have hp : (0 : ℝ) < 10 ^ p := by positivity
  obtain ⟨k, rfl, h1, h2⟩ := hy
  obtain ⟨m, rfl, h3, h4⟩ := hz
  by_contra hne
  have hkm : k ≠ m := fun h => hne (by rw [h])
  have hd : |((k : ℝ) - m) / 10 ^ p| ≤ 1 / 10 ^ p := by
    have : ((k : ℝ) - m) / 10 ^ p = (k / 10 ^ p - x) - (m / 10 ^ p - x) := by ring
    rw [this]
    refine (abs_sub _ _).trans ?_
    have : (1 : ℝ) / 10 ^ p = 1 / 2 / 10 ^ p + 1 / 2 / 10 ^ p := by ring
    rw [this]
    exact add_le_add h1 h3
  rw [abs_div, abs_of_pos hp, div_le_div_iff_of_pos_right hp] at hd
  have hint : |k - m| ≤ 1 := by exact_mod_cast hd
  have hone : |k - m| = 1 := by
    have : 0 < |k - m| := abs_pos.2 (sub_ne_zero.2 hkm)
    omega
  have htot : |((k : ℝ) / 10 ^ p - x) - (m / 10 ^ p - x)| = 1 / 10 ^ p := by
    have : ((k : ℝ) / 10 ^ p - x) - (m / 10 ^ p - x) = ((k - m : ℤ) : ℝ) / 10 ^ p := by push_cast; ring
    rw [this, abs_div, abs_of_pos hp, ← Int.cast_abs, hone]
    norm_num
  have hle := abs_sub ((k : ℝ) / 10 ^ p - x) (m / 10 ^ p - x)
  have hsum : (1 : ℝ) / 10 ^ p = 1 / 2 / 10 ^ p + 1 / 2 / 10 ^ p := by ring
  have e1 : |(k : ℝ) / 10 ^ p - x| = 1 / 2 / 10 ^ p := by linarith
  have e2 : |(m : ℝ) / 10 ^ p - x| = 1 / 2 / 10 ^ p := by linarith
  have q1 := h2 e1
  have q2 := h4 e2
  rcases q1 with ⟨a, ha⟩
  rcases q2 with ⟨b, hb⟩
  rw [abs_eq (by norm_num)] at hone
  omega

/-! ### Lines and words -/

theorem linesFrom_line {l : List Char} (h : '\n' ∉ l) (cur r : List Char) :
    linesFrom cur (l ++ '\n' :: r) = (cur.reverse ++ l) :: linesFrom [] r := by
  induction l generalizing cur with
  | nil => simp [linesFrom]
  | cons c l ih =>
    have hc : c ≠ '\n' := fun e => h (by simp [e])
    rw [List.cons_append, linesFrom, if_neg hc, ih (fun e => h (by simp [e]))]
    simp

theorem linesFrom_last {l : List Char} (h : '\n' ∉ l) (cur : List Char) :
    linesFrom cur l = if cur = [] ∧ l = [] then [] else [cur.reverse ++ l] := by
  induction l generalizing cur with
  | nil => simp [linesFrom]
  | cons c l ih =>
    have hc : c ≠ '\n' := fun e => h (by simp [e])
    rw [linesFrom, if_neg hc, ih (fun e => h (by simp [e]))]
    simp

theorem linesFrom_spec {text : List Char} {init : List (List Char)} {last : List Char} (h : ∀ l ∈ init ++ [last], '\n' ∉ l)
    (ht : text = (init.map fun l => l ++ ['\n']).flatten ++ last) :
    linesFrom [] text = init ++ if last = [] then [] else [last] := by
  subst ht
  induction init with
  | nil => simp [linesFrom_last (h last (by simp))]
  | cons l init ih =>
    have := linesFrom_line (h l (by simp)) [] ((init.map fun l => l ++ ['\n']).flatten ++ last)
    simp only [List.map_cons, List.flatten_cons, List.append_assoc, List.nil_append, List.cons_append]
    rw [this, ih fun m hm => h m (by simp at hm ⊢; tauto)]
    simp

theorem isLines_exists (text : List Char) : ∃ init last, (∀ l ∈ init ++ [last], '\n' ∉ l) ∧
    text = (init.map fun l => l ++ ['\n']).flatten ++ last := by
  induction text with
  | nil => exact ⟨[], [], by simp, by simp⟩
  | cons c r ih =>
    obtain ⟨init, last, h1, h2⟩ := ih
    by_cases hc : c = '\n'
    · refine ⟨[] :: init, last, ?_, by simp [hc, h2]⟩
      intro l hl
      rcases List.mem_cons.1 hl with rfl | hl
      · simp
      · exact h1 l hl
    · match init, h1, h2 with
      | [], h1, h2 =>
        refine ⟨[], c :: last, ?_, by simp [h2]⟩
        intro l hl
        simp at hl
        subst hl
        have := h1 last (by simp)
        simp [this, Ne.symm hc]
      | m :: init, h1, h2 =>
        refine ⟨(c :: m) :: init, last, ?_, by simp [h2]⟩
        intro l hl
        rcases List.mem_cons.1 hl with rfl | hl
        · have := h1 m (by simp)
          simp [this, Ne.symm hc]
        · exact h1 l (List.mem_cons_of_mem _ hl)

theorem wordsFrom_blank {b : List Char} (hb : Blank b) (r : List Char) : wordsFrom [] (b ++ r) = wordsFrom [] r := by
  induction b with
  | nil => rfl
  | cons c b ih =>
    rw [List.cons_append, wordsFrom, if_pos (hb c (by simp)), if_pos rfl, ih fun c hc => hb c (List.mem_cons_of_mem _ hc)]

theorem wordsFrom_word {w : List Char} (hw : ∀ c ∈ w, c.isWhitespace = false) (cur r : List Char) :
    wordsFrom cur (w ++ r) = wordsFrom (w.reverse ++ cur) r := by
  induction w generalizing cur with
  | nil => rfl
  | cons c w ih =>
    rw [List.cons_append, wordsFrom, if_neg (by simp [hw c (by simp)]), ih fun c hc => hw c (List.mem_cons_of_mem _ hc)]
    simp

theorem wordsFrom_spec {l : List Char} {ws : List (List Char)} (h : Words l ws) : wordsFrom [] l = ws := by
  induction h with
  | nil b hb =>
    have := wordsFrom_blank hb []
    rw [List.append_nil] at this
    rw [this]
    rfl
  | cons b hb w hne hw rest hr ws h ih =>
    rw [List.append_assoc, wordsFrom_blank hb, wordsFrom_word hw, List.append_nil, ← ih]
    match rest, hr with
    | [], _ => simp [wordsFrom, hne]
    | c :: rest, hr => simp [wordsFrom, hne, hr c rfl]

theorem words_exists (l : List Char) : ∃ ws, Words l ws := by
  induction l with
  | nil => exact ⟨[], .nil [] (by simp [Blank])⟩
  | cons c r ih =>
    obtain ⟨ws, h⟩ := ih
    by_cases hc : c.isWhitespace = true
    · cases h with
      | nil _ hb =>
        refine ⟨[], .nil _ ?_⟩
        intro x hx
        rcases List.mem_cons.1 hx with rfl | hx
        · exact hc
        · exact hb x hx
      | cons b hb w hne hw rest hr ws h =>
        refine ⟨_, .cons (c :: b) ?_ w hne hw rest hr ws h⟩
        intro x hx
        rcases List.mem_cons.1 hx with rfl | hx
        · exact hc
        · exact hb x hx
    · have hc' : c.isWhitespace = false := by simpa using hc
      cases h with
      | nil _ hb =>
        refine ⟨_, .cons [] (by simp [Blank]) [c] (by simp) (by simp [hc']) r ?_ [] (.nil r hb)⟩
        intro x hx
        exact hb x (List.mem_of_head? hx)
      | cons b hb w hne hw rest hr ws h =>
        match b, hb with
        | [], _ =>
          refine ⟨_, .cons [] (by simp [Blank]) (c :: w) (by simp) ?_ rest hr ws h⟩
          intro x hx
          rcases List.mem_cons.1 hx with rfl | hx
          · exact hc'
          · exact hw x hx
        | x :: b, hb =>
          refine ⟨_, .cons [] (by simp [Blank]) [c] (by simp) (by simp [hc']) (x :: b ++ w ++ rest) ?_ _
            (.cons (x :: b) hb w hne hw rest hr ws h)⟩
          intro y hy
          simp at hy
          subst hy
          exact hb _ (by simp)

theorem content_spec {l c : List Char} (h : Content l c) : l.takeWhile (· ≠ '#') = c := by
  obtain ⟨h1, r, rfl, h2⟩ := h
  induction c with
  | nil =>
    match r, h2 with
    | [], _ => rfl
    | x :: r, h2 => simp [h2 x rfl]
  | cons x c ih =>
    have hx : x ≠ '#' := fun e => h1 (by simp [e])
    simpa [hx] using ih fun e => h1 (List.mem_cons_of_mem _ e)

theorem content_exists (l : List Char) : Content l (l.takeWhile (· ≠ '#')) := by
  refine ⟨fun h => by simpa using List.all_eq_true.1 List.all_takeWhile _ h, l.dropWhile (· ≠ '#'), (List.takeWhile_append_dropWhile).symm, ?_⟩
  intro x hx
  have := List.head?_dropWhile_not (fun c => decide (c ≠ '#')) l
  rw [hx] at this
  simpa using this

/-! ### Tables -/

theorem mapM_ok_iff {α β : Type} (f : α → Py β) (l : List α) (m : List β) :
    l.mapM f = .ok m ↔ List.Forall₂ (fun a b => f a = .ok b) l m := by
  induction l generalizing m with
  | nil =>
    rw [List.mapM_nil]
    constructor
    · intro h
      cases h
      exact .nil
    · intro h
      cases h
      rfl
  | cons a l ih =>
    rw [List.mapM_cons]
    cases hf : f a with
    | error e =>
      constructor
      · intro h; cases h
      · intro h
        cases h with
        | cons h1 h2 => rw [hf] at h1; cases h1
    | ok b =>
      cases hl : l.mapM f with
      | error e =>
        constructor
        · intro h; cases h
        · intro h
          cases h with
          | cons h1 h2 =>
            rw [(ih _).2 h2] at hl
            cases hl
      | ok bs =>
        constructor
        · intro h
          cases h
          exact .cons hf ((ih _).1 hl)
        · intro h
          cases h with
          | cons h1 h2 =>
            rw [hf] at h1
            cases h1
            rw [(ih _).2 h2] at hl
            cases hl
            rfl

/-- The words of a line. -/
def lineWords (l : List Char) : List (List Char) := wordsFrom [] (l.takeWhile (· ≠ '#'))

theorem lineHolds_words {l : List Char} {o : Option (List ℝ)} :
    LineHolds l o ↔ match o with
      | none => lineWords l = []
      | some xs => xs ≠ [] ∧ List.Forall₂ Denotes (lineWords l) xs := by
  have hex := content_exists l
  obtain ⟨ws, hws⟩ := words_exists (l.takeWhile (· ≠ '#'))
  have hw : lineWords l = ws := wordsFrom_spec hws
  cases o with
  | none =>
    constructor
    · rintro ⟨c, hc, h⟩
      unfold lineWords
      rw [content_spec hc, wordsFrom_spec h]
    · intro h
      simp only [hw] at h
      subst h
      exact ⟨_, hex, hws⟩
  | some xs =>
    constructor
    · rintro ⟨hne, c, ws', hc, h, hd⟩
      refine ⟨hne, ?_⟩
      unfold lineWords
      rw [content_spec hc, wordsFrom_spec h]
      exact hd
    · rintro ⟨hne, hd⟩
      rw [hw] at hd
      exact ⟨hne, _, _, hex, hws, hd⟩

theorem lines_words {lines : List (List Char)} {rows : List (List ℝ)} :
    (∃ found, List.Forall₂ LineHolds lines found ∧ rows = found.filterMap id) ↔
      List.Forall₂ (List.Forall₂ Denotes) ((lines.map lineWords).filter (· ≠ [])) rows := by
  induction lines generalizing rows with
  | nil =>
    constructor
    · rintro ⟨found, h, rfl⟩
      cases h
      exact .nil
    · intro h
      cases h
      exact ⟨[], .nil, rfl⟩
  | cons l lines ih =>
    by_cases hl : lineWords l = []
    · rw [List.map_cons, List.filter_cons_of_neg (by simp [hl]), ← ih]
      constructor
      · rintro ⟨found, h, rfl⟩
        cases h with
        | cons h1 h2 =>
          rename_i o os
          cases o with
          | none => exact ⟨os, h2, rfl⟩
          | some xs =>
            have := lineHolds_words.1 h1
            simp only [hl] at this
            obtain ⟨t1, t2⟩ := this
            cases t2
            exact absurd rfl t1
      · rintro ⟨found, h, rfl⟩
        exact ⟨none :: found, .cons (lineHolds_words.2 hl) h, rfl⟩
    · rw [List.map_cons, List.filter_cons_of_pos (by simp [hl])]
      constructor
      · rintro ⟨found, h, rfl⟩
        cases h with
        | cons h1 h2 =>
          rename_i o os
          cases o with
          | none => exact absurd (lineHolds_words.1 h1) hl
          | some xs => exact .cons (lineHolds_words.1 h1).2 (ih.1 ⟨os, h2, rfl⟩)
      · intro h
        cases h with
        | cons h1 h2 =>
          rename_i xs rows
          obtain ⟨os, h3, rfl⟩ := ih.2 h2
          refine ⟨some xs :: os, .cons (lineHolds_words.2 ⟨?_, h1⟩) h3, rfl⟩
          rintro rfl
          exact hl (List.forall₂_nil_right_iff.1 h1)

/-- The rows of words of a text. -/
def textWords (text : List Char) : List (List (List Char)) := ((linesFrom [] text).map lineWords).filter (· ≠ [])

theorem textWords_lines {text : List Char} {lines : List (List Char)} (h : IsLines text lines) :
    textWords text = (lines.map lineWords).filter (· ≠ []) := by
  obtain ⟨init, last, rfl, h1, h2⟩ := h
  unfold textWords
  rw [linesFrom_spec h1 h2, List.map_append, List.filter_append, List.map_append, List.filter_append]
  congr 1
  split
  · rename_i h
    subst h
    simp [lineWords, wordsFrom]
  · rfl

theorem textRows_words {text : List Char} {rows : List (List ℝ)} :
    TextRows text rows ↔ List.Forall₂ (List.Forall₂ Denotes) (textWords text) rows := by
  constructor
  · rintro ⟨lines, found, h1, h2, h3⟩
    rw [textWords_lines h1]
    exact lines_words.1 ⟨found, h2, h3⟩
  · intro h
    obtain ⟨init, last, h1, h2⟩ := isLines_exists text
    have hl : IsLines text (init ++ [last]) := ⟨init, last, rfl, h1, h2⟩
    rw [textWords_lines hl] at h
    obtain ⟨found, h3, h4⟩ := lines_words.2 h
    exact ⟨_, found, hl, h3, h4⟩

theorem loadtxt_iff (text : List Char) (rows : List (List ℝ)) :
    loadtxt text = .ok rows ↔ TextRows text rows ∧ ∀ r ∈ rows, ∀ r' ∈ rows, r.length = r'.length := by
  have hm : ∀ m, (textWords text).mapM (fun r => r.mapM parseFloat) = .ok m ↔ TextRows text m := by
    intro m
    rw [textRows_words, mapM_ok_iff]
    have : (fun (a : List (List Char)) (b : List ℝ) => a.mapM parseFloat = .ok b) = List.Forall₂ Denotes := by
      funext a b
      rw [mapM_ok_iff]
      have : (fun (w : List Char) (x : ℝ) => parseFloat w = .ok x) = Denotes := by
        funext w x
        exact propext (parseFloat_iff w x)
      rw [this]
    rw [this]
  have hall : ∀ m : List (List ℝ), (m.all fun r => r.length = (m.headD []).length) = true ↔
      ∀ r ∈ m, ∀ r' ∈ m, r.length = r'.length := by
    intro m
    rw [List.all_eq_true]
    cases m with
    | nil => simp
    | cons a m =>
      constructor
      · intro h r hr r' hr'
        have h1 := h r hr
        have h2 := h r' hr'
        simp at h1 h2
        rw [h1, h2]
      · intro h r hr
        simpa using h r hr a (by simp)
  change ((textWords text).mapM (fun r => r.mapM parseFloat) >>= fun numbers =>
    if numbers.all fun r => r.length = (numbers.headD []).length then return numbers else throw .valueError) = .ok rows ↔ _
  constructor
  · intro h
    cases hw : (textWords text).mapM (fun r => r.mapM parseFloat) with
    | error e => rw [hw] at h; cases h
    | ok m =>
      rw [hw] at h
      change (if m.all fun r => r.length = (m.headD []).length then Except.ok m else Except.error PyErr.valueError) = .ok rows at h
      split at h
      · rename_i ha
        cases h
        exact ⟨(hm _).1 hw, (hall _).1 ha⟩
      · cases h
  · rintro ⟨h1, h2⟩
    rw [(hm _).2 h1]
    change (if rows.all fun r => r.length = (rows.headD []).length then Except.ok rows else Except.error PyErr.valueError) = .ok rows
    rw [if_pos ((hall _).2 h2)]

/-! ### What savetxt writes -/

theorem digit_not_space {c : Char} (h : c.isDigit = true) : c.isWhitespace = false ∧ c ≠ '\n' ∧ c ≠ '#' := by
  refine ⟨?_, ?_, ?_⟩
  · by_contra hw
    rw [Bool.not_eq_false] at hw
    simp only [Char.isWhitespace, Bool.or_eq_true, decide_eq_true_eq] at hw
    rcases hw with ((rfl | rfl) | rfl) | rfl <;> exact absurd h (by decide)
  all_goals rintro rfl; exact absurd h (by decide)

theorem fixedPoint_chars (p : ℕ) (x : ℝ) : fixedPoint p x ≠ [] ∧ ∀ c ∈ fixedPoint p x, c.isWhitespace = false ∧ c ≠ '\n' ∧ c ≠ '#' := by
  refine ⟨by simp [fixedPoint], ?_⟩
  intro c hc
  simp only [fixedPoint, List.mem_append, List.mem_cons] at hc
  rcases hc with (hc | hc) | rfl | hc
  · split at hc
    · simp at hc
      subst hc
      decide
    · simp at hc
  · exact digit_not_space ((wholeDigits_spec _).1 c hc)
  · decide
  · exact digit_not_space ((lastDigits_spec _ _).1 c hc)

theorem blank_replicate (k : ℕ) : Blank (List.replicate k ' ') := by
  intro c hc
  rw [(List.mem_replicate.1 hc).2]
  decide

/-- The text of one row, without the end of line. -/
noncomputable def rowLine (row : List ℝ) : List Char := (List.intersperse [' '] (row.map format84)).flatten

theorem rowLine_cons (x : ℝ) (y : ℝ) (row : List ℝ) : rowLine (x :: y :: row) = format84 x ++ ' ' :: rowLine (y :: row) := by
  simp [rowLine]

theorem words_prepend {b l : List Char} {ws : List (List Char)} (hb : Blank b) (h : Words l ws) : Words (b ++ l) ws := by
  have happ : ∀ b', Blank b' → Blank (b ++ b') := by
    intro b' h' c hc
    rcases List.mem_append.1 hc with hc | hc
    · exact hb c hc
    · exact h' c hc
  cases h with
  | nil _ hb' => exact .nil _ (happ _ hb')
  | cons b' hb' w hne hw rest hr ws h =>
    have := Words.cons (b ++ b') (happ _ hb') w hne hw rest hr ws h
    simpa [List.append_assoc] using this

theorem rowLine_words (row : List ℝ) : Words (rowLine row) (row.map (fixedPoint 4)) := by
  induction row with
  | nil => exact .nil _ (by simp [rowLine, Blank])
  | cons x row ih =>
    have hx := fixedPoint_chars 4 x
    cases row with
    | nil =>
      have := Words.cons (List.replicate (8 - (fixedPoint 4 x).length) ' ') (blank_replicate _) (fixedPoint 4 x) hx.1
        (fun c hc => (hx.2 c hc).1) [] (by simp) [] (.nil _ (by simp [Blank]))
      simpa [rowLine, format84, padLeft] using this
    | cons y row =>
      have := Words.cons (List.replicate (8 - (fixedPoint 4 x).length) ' ') (blank_replicate _) (fixedPoint 4 x) hx.1
        (fun c hc => (hx.2 c hc).1) (' ' :: rowLine (y :: row)) (by simp) _
        (words_prepend (b := [' ']) (by intro c hc; simp at hc; subst hc; decide) ih)
      rw [rowLine_cons]
      exact this

theorem rowLine_chars (row : List ℝ) : ∀ c ∈ rowLine row, c ≠ '\n' ∧ c ≠ '#' := by
  have hf : ∀ x, ∀ c ∈ format84 x, c ≠ '\n' ∧ c ≠ '#' := by
    intro x c hc
    rcases List.mem_append.1 hc with hc | hc
    · rw [(List.mem_replicate.1 hc).2]
      decide
    · exact ((fixedPoint_chars 4 x).2 c hc).2
  induction row with
  | nil => simp [rowLine]
  | cons x row ih =>
    cases row with
    | nil => simpa [rowLine] using hf x
    | cons y row =>
      rw [rowLine_cons]
      intro c hc
      rcases List.mem_append.1 hc with hc | hc
      · exact hf x c hc
      · rcases List.mem_cons.1 hc with rfl | hc
        · decide
        · exact ih c hc

theorem savetxt_rows {header : List Char} (hh : '\n' ∉ header) {rows : List (List ℝ)} (hr : ∀ r ∈ rows, r ≠ []) :
    TextRows (savetxt header rows) (rows.map fun r => r.map (printed 4)) := by
  refine ⟨(('#' :: ' ' :: header) :: rows.map rowLine) ++ [[]], (none :: rows.map fun r => some (r.map (printed 4))) ++ [none],
    ⟨_, _, rfl, ?_, ?_⟩, ?_, ?_⟩
  · intro l hl
    simp only [List.cons_append, List.mem_cons, List.mem_append, List.mem_map, List.not_mem_nil, or_false] at hl
    rcases hl with rfl | ⟨r, -, rfl⟩ | rfl
    · simp [hh]
    · exact fun h => (rowLine_chars r _ h).1 rfl
    · simp
  · simp [savetxt, rowLine, List.map_map, Function.comp_def]
    rfl
  · rw [List.cons_append, List.cons_append]
    refine .cons ⟨[], ⟨by simp, _, rfl, by simp⟩, .nil _ (by simp [Blank])⟩ ?_
    induction rows with
    | nil => exact .cons ⟨[], ⟨by simp, [], rfl, by simp⟩, .nil _ (by simp [Blank])⟩ .nil
    | cons r rows ih =>
      rw [List.map_cons, List.map_cons, List.cons_append, List.cons_append]
      refine .cons ⟨by simpa using hr r (by simp), rowLine r, _, ⟨fun h => (rowLine_chars r _ h).2 rfl, [], by simp, by simp⟩,
        rowLine_words r, ?_⟩ (ih fun r hr' => hr r (by simp [hr']))
      rw [List.forall₂_map_left_iff, List.forall₂_map_right_iff, List.forall₂_same]
      intro x _
      exact fixedPoint_denotes 4 x
  · simp [List.filterMap_append, List.filterMap_map]

end Verif
