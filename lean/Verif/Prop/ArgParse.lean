/-
C99: the command line means what it says.
-/
import Verif.Spec.ArgParse
import Verif.Lemmas.ArgParse
import Verif.Prop.CommandLine

namespace Verif

open Spec

theorem documented_inj {q q' : String × Kind} (h : q ∈ documentedOptions) (h' : q' ∈ documentedOptions)
    (e : q.1.toList = q'.1.toList) : q = q' := by
  have : ∀ q ∈ documentedOptions, ∀ q' ∈ documentedOptions, q.1.toList = q'.1.toList → q = q' := by decide +kernel
  exact this q h q' h' e

section
variable {opts : List GivenOption} (h : ∀ g ∈ opts, g.Ok) {ns : Dict (List Char) ArgValue}
  (hns : ∀ s ∈ optTable, Dict.get? ns s.name = match given opts s.name with
    | none => none
    | some ws => convert s ws)

include h hns in
/-- The values of one option. -/
theorem option_cases {q : String × Kind} (hq : q ∈ documentedOptions) :
    (given opts q.1.toList = none ∧ Dict.get? ns q.1.toList = none) ∨
    ∃ ws, given opts q.1.toList = some ws ∧ Dict.get? ns q.1.toList = convert (specOf q) ws ∧ KindOk q.2 ws := by
  have h1 := hns _ (specOf_mem hq)
  rw [specOf_name] at h1
  cases hg : given opts q.1.toList with
  | none => rw [hg] at h1; exact .inl ⟨rfl, h1⟩
  | some ws =>
    rw [hg] at h1
    obtain ⟨q', hq', e, hk⟩ := given_ok h hg
    rw [← documented_inj hq hq' e] at hk
    exact .inr ⟨ws, rfl, h1, hk⟩

theorem forall₂_toNat {ws : List (List Char)} {l : List ℤ} (hl : List.Forall₂ IntWord ws l) (hn : ∀ w ∈ ws, ∃ n : ℕ, IntWord w n) :
    List.Forall₂ NatWord ws (l.map Int.toNat) ∧ ∀ x ∈ l, 0 ≤ x := by
  induction hl with
  | nil => exact ⟨.nil, by simp⟩
  | cons h1 h2 ih =>
    rename_i w x ws l
    obtain ⟨n, hn1⟩ := hn w (by simp)
    have hx : x = n := by
      have a := (parseInt_iff w x).2 h1
      rw [(parseInt_iff w n).2 hn1] at a
      exact (Option.some.inj a).symm
    subst hx
    obtain ⟨i1, i2⟩ := ih fun w hw => hn w (List.mem_cons_of_mem _ hw)
    refine ⟨.cons h1 i1, ?_⟩
    intro y hy
    rcases List.mem_cons.1 hy with rfl | hy
    · exact Int.natCast_nonneg n
    · exact i2 y hy

include h hns in
theorem field_nats {name : String} (hq : (name, Kind.nats) ∈ documentedOptions) :
    IsList NatWord opts name (natsOf ns name) ∧ noneNegative ns name = true := by
  rcases option_cases h hns hq with ⟨h1, h2⟩ | ⟨ws, h1, h2, -, h3⟩
  · dsimp only at h1 h2
    simp [IsList, natsOf, intsOf, noneNegative, h1, h2]
  · dsimp only at h1 h2
    obtain ⟨l, hl⟩ := forall₂_exists (R := IntWord) fun w hw => ⟨_, (h3 w hw).choose_spec⟩
    rw [convert_ints rfl hl] at h2
    obtain ⟨a1, a2⟩ := forall₂_toNat hl h3
    constructor
    · simp only [IsList, h1, natsOf, intsOf, h2, Option.map_some]
      exact ⟨_, rfl, a1⟩
    · simpa [noneNegative, intsOf, h2] using a2

include h hns in
theorem field_nat {name : String} (hq : (name, Kind.nat) ∈ documentedOptions) :
    IsNumber NatWord opts name ((natsOf ns name).bind List.head?) ∧ noneNegative ns name = true := by
  rcases option_cases h hns hq with ⟨h1, h2⟩ | ⟨ws, h1, h2, h4, h3⟩
  · dsimp only at h1 h2
    simp [IsNumber, natsOf, intsOf, noneNegative, h1, h2]
  · dsimp only at h1 h2
    obtain ⟨l, hl⟩ := forall₂_exists (R := IntWord) fun w hw => ⟨_, (h3 w hw).choose_spec⟩
    rw [convert_ints rfl hl] at h2
    obtain ⟨a1, a2⟩ := forall₂_toNat hl h3
    constructor
    · simp only [IsNumber, h1, natsOf, intsOf, h2, Option.map_some]
      obtain ⟨w, rfl⟩ := List.length_eq_one_iff.1 h4
      obtain ⟨x, rfl⟩ := List.length_eq_one_iff.1 (by rw [← hl.length_eq]; exact h4)
      cases a1 with
      | cons b1 b2 => exact ⟨w, _, rfl, rfl, b1⟩
    · simpa [noneNegative, intsOf, h2] using a2

include h hns in
theorem field_ints {name : String} (hq : (name, Kind.ints) ∈ documentedOptions) : IsList IntWord opts name (intsOf ns name) := by
  rcases option_cases h hns hq with ⟨h1, h2⟩ | ⟨ws, h1, h2, -, h3⟩
  · dsimp only at h1 h2
    simp [IsList, intsOf, h1, h2]
  · dsimp only at h1 h2
    obtain ⟨l, hl⟩ := forall₂_exists h3
    rw [convert_ints rfl hl] at h2
    simp only [IsList, h1, intsOf, h2]
    exact ⟨_, rfl, hl⟩

include h hns in
theorem field_floats {name : String} (hq : (name, Kind.floats) ∈ documentedOptions) : IsList Denotes opts name (floatsOf ns name) := by
  rcases option_cases h hns hq with ⟨h1, h2⟩ | ⟨ws, h1, h2, -, h3⟩
  · dsimp only at h1 h2
    simp [IsList, floatsOf, h1, h2]
  · dsimp only at h1 h2
    obtain ⟨l, hl⟩ := forall₂_exists h3
    rw [convert_floats rfl hl] at h2
    simp only [IsList, h1, floatsOf, h2]
    exact ⟨_, rfl, hl⟩

include h hns in
theorem field_float {name : String} (hq : (name, Kind.float) ∈ documentedOptions) :
    IsNumber Denotes opts name ((floatsOf ns name).bind List.head?) := by
  rcases option_cases h hns hq with ⟨h1, h2⟩ | ⟨ws, h1, h2, h4, h3⟩
  · dsimp only at h1 h2
    simp [IsNumber, floatsOf, h1, h2]
  · dsimp only at h1 h2
    obtain ⟨l, hl⟩ := forall₂_exists h3
    rw [convert_floats rfl hl] at h2
    simp only [IsNumber, h1, floatsOf, h2]
    obtain ⟨w, rfl⟩ := List.length_eq_one_iff.1 h4
    cases hl with
    | cons b1 b2 => exact ⟨w, _, rfl, rfl, b1⟩

end

/-- C99.  The two file names, followed by documented options with numbers of the right kind as their values: the command line is accepted,
every parameter is set by its own option (by the last one if it is repeated) and to the numbers behind it, and no other parameter is set. -/
theorem C99_parse (h0 radial : List Char) (hh : ValueWord h0) (hr : ValueWord radial) (opts : List GivenOption)
    (h : ∀ g ∈ opts, g.Ok) :
    ∃ o, parseCommandLine (h0 :: radial :: opts.flatMap GivenOption.text) = some (h0, radial, o) ∧ OptionsGiven opts o := by
  obtain ⟨ns, h1, h2⟩ := parse_options opts h h0 radial []
  have hns : ∀ s ∈ optTable, Dict.get? ns s.name = match given opts s.name with
      | none => none
      | some ws => convert s ws := h2
  have hp : parseTokens ((h0 :: radial :: opts.flatMap GivenOption.text).map classify) [] [] = some ([h0, radial], ns) := by
    rw [List.map_cons, List.map_cons, classify_value hh, classify_value hr, parseTokens]
    simp only [List.length_nil, Nat.zero_lt_succ, if_true, List.nil_append]
    rw [parseTokens]
    simp only [List.length_cons, List.length_nil, zero_add, Nat.one_lt_ofNat, if_true, List.cons_append, List.nil_append]
    exact h1
  have n1 := field_nats h hns (name := "--ls") (by decide)
  have n2 := field_nats h hns (name := "--nBaths") (by decide)
  have n3 := field_nat h hns (name := "--nPsiMax") (by decide)
  have n4 := field_nat h hns (name := "--nPrintSlaterWeights") (by decide)
  refine ⟨optionsOf ns, ?_, ?_⟩
  · unfold parseCommandLine
    rw [hp]
    simp only
    rw [if_pos (by simp [n1.2, n2.2, n3.2, n4.2])]
  · constructor
    · exact n1.1
    · exact n2.1
    · exact field_ints h hns (by decide)
    · exact field_ints h hns (by decide)
    · exact field_ints h hns (by decide)
    · exact field_ints h hns (by decide)
    · exact field_ints h hns (by decide)
    · exact field_floats h hns (by decide)
    · exact field_floats h hns (by decide)
    · exact field_floats h hns (by decide)
    · exact field_floats h hns (by decide)
    · exact field_float h hns (by decide)
    · exact field_float h hns (by decide)
    · exact field_float h hns (by decide)
    · exact field_floats h hns (by decide)
    · exact n3.1
    · exact n4.1
    · exact field_float h hns (by decide)
    · exact field_float h hns (by decide)
    · exact field_float h hns (by decide)
    · exact field_float h hns (by decide)
    · exact field_float h hns (by decide)
    · exact field_float h hns (by decide)

theorem parseTokens_refused {l : List Token} (h : Token.refused ∈ l) (pos : List (List Char)) (ns : Dict (List Char) ArgValue) :
    parseTokens l pos ns = none := by
  fun_induction parseTokens l pos ns with
  | case1 => simp at h
  | case2 => simp at h
  | case3 w r pos ns hp ih => exact ih (by simpa using h)
  | case4 => rfl
  | case5 => rfl
  | case6 s v r pos ns ih =>
    cases convert s [v] with
    | none => rfl
    | some x => exact ih x (by simpa using h)
  | case7 => rfl
  | case8 s r pos ns ws rest hne ih =>
    cases convert s ws with
    | none => rfl
    | some x =>
      refine ih x ?_
      have hr : Token.refused ∈ r := by simpa using h
      by_cases hm : s.many = true
      · have e : r.takeWhile (fun t => t.word?.isSome) ++ r.dropWhile (fun t => t.word?.isSome) = r := List.takeWhile_append_dropWhile
        rw [← e] at hr
        rcases List.mem_append.1 hr with hr | hr
        · have := List.all_eq_true.1 List.all_takeWhile _ hr
          simp [Token.word?] at this
        · simpa [rest, hm] using hr
      · obtain ⟨t, r', rfl⟩ : ∃ t r', r = t :: r' := List.exists_cons_of_ne_nil (List.ne_nil_of_mem hr)
        rcases List.mem_cons.1 hr with rfl | hr
        · exact absurd (by simp [ws, hm, Token.word?]) hne
        · simpa [rest, hm] using hr

theorem partitionEq_fst (w : List Char) : (partitionEq w).1 = w.takeWhile (· ≠ '=') := by
  unfold partitionEq
  split
  · rename_i h
    have : w.takeWhile (· ≠ '=') ++ w.dropWhile (· ≠ '=') = w := List.takeWhile_append_dropWhile
    rw [h, List.append_nil] at this
    exact this.symm
  · rfl

theorem negativeNumber_value {w : List Char} (h : negativeNumber w = true) : ValueWord w := by
  unfold negativeNumber at h
  split at h
  · rename_i r
    have e : r.takeWhile Char.isDigit ++ r.dropWhile Char.isDigit = r := List.takeWhile_append_dropWhile
    split at h
    · rename_i hd
      rw [hd, List.append_nil] at e
      exact .inr (.inl ⟨r, by simpa using h, e ▸ digits_takeWhile r, rfl⟩)
    · rename_i f hd
      rw [hd] at e
      simp only [ne_eq, Bool.and_eq_true, decide_eq_true_eq] at h
      exact .inr (.inr ⟨_, f, digits_takeWhile r, h.1, fun c hc => by simpa using List.all_eq_true.1 h.2 c hc, by rw [e]⟩)
    · simp at h
  · simp at h

theorem classify_unknown {w : List Char} (hu : Unknown w) : classify w = .refused := by
  have hopt : ∀ s ∈ optTable, ¬ (partitionEq w).1 <+: s.name := by
    intro s hs hp
    obtain ⟨q, hq, rfl⟩ := table_documented hs
    rw [partitionEq_fst, specOf_name] at hp
    exact hu.noOption q hq hp
  have hexact : optTable.find? (fun s => s.name = w) = none := by
    rw [List.find?_eq_none]
    intro s hs e
    simp only [decide_eq_true_eq] at e
    refine hopt s hs ?_
    rw [e, partitionEq_fst]
    exact List.takeWhile_prefix _
  have hexp : explicitOption (partitionEq w) = none := by
    cases hp : partitionEq w with
    | mk n v =>
      cases v with
      | none => rfl
      | some v =>
        simp only [explicitOption, Option.map_eq_none_iff, List.find?_eq_none]
        intro s hs e
        simp only [decide_eq_true_eq] at e
        refine hopt s hs ?_
        rw [hp, e]
  have hfil : optTable.filter (fun s => (partitionEq w).1.isPrefixOf s.name) = [] := by
    rw [List.filter_eq_nil_iff]
    intro s hs e
    exact hopt s hs (List.isPrefixOf_iff_prefix.1 e)
  have hneg : negativeNumber w = false := by
    rw [← Bool.not_eq_true]
    exact fun e => hu.noNumber (negativeNumber_value e)
  have hm := hu.minus
  have hl := hu.long
  have hb := hu.noBlank
  obtain ⟨c, r, rfl⟩ : ∃ c r, w = c :: r := List.exists_cons_of_ne_nil (by rintro rfl; simp at hm)
  have hc : c = '-' := by simpa using hm
  subst hc
  have hr : r ≠ [] := by rintro rfl; simp at hl
  unfold classify
  simp only [ne_eq, not_true_eq_false, if_false]
  rw [hexact]
  simp only [hr, if_false, hb, hneg, Bool.false_eq_true]
  split
  · rfl
  · rw [hexp]
    simp only
    rw [hfil]
    split
    · split
      · rename_i h _; cases h
      · rfl
      · rfl
    · split
      · rfl
      · rfl

/-- C99.  A word that starts with a minus sign and is neither an option, nor short for one, nor a number without exponent: the command
line is refused, wherever the word stands. -/
theorem C99_unknown (argv : List (List Char)) (w : List Char) (hw : w ∈ argv) (hu : Unknown w) : parseCommandLine argv = none := by
  unfold parseCommandLine
  rw [parseTokens_refused]
  rw [List.mem_map]
  exact ⟨w, hw, classify_unknown hu⟩

theorem numberWord_chars {w : List Char} {x : ℝ} (h : Denotes w x) : ∀ c ∈ w, c ≠ ' ' ∧ c ≠ '=' := by
  have hdig : ∀ {c : Char}, c.isDigit = true → c ≠ ' ' ∧ c ≠ '=' := by
    intro c hc
    constructor <;> rintro rfl <;> exact absurd hc (by decide)
  have hsign : ∀ {s : List Char} {σ : ℤ}, Sign s σ → ∀ c ∈ s, c ≠ ' ' ∧ c ≠ '=' := by
    intro s σ hs c hc
    cases hs with
    | none => simp at hc
    | plus => simp at hc; subst hc; decide
    | minus => simp at hc; subst hc; decide
  obtain ⟨s, σ, whole, f, frac, e, k, hs, hwd, hf, hne, he, rfl, -⟩ := h
  intro c hc
  simp only [List.mem_append] at hc
  rcases hc with ((hc | hc) | hc) | hc
  · exact hsign hs c hc
  · exact hdig (hwd c hc)
  · cases hf with
    | none => simp at hc
    | point ds hd =>
      rcases List.mem_cons.1 hc with rfl | hc
      · decide
      · exact hdig (hd c hc)
  · cases he with
    | none => simp at hc
    | some x hx s' σ' hs' ds hne' hd =>
      rcases List.mem_cons.1 hc with rfl | hc
      · rcases hx with rfl | rfl <;> decide
      · rcases List.mem_append.1 hc with hc | hc
        · exact hsign hs' c hc
        · exact hdig (hd c hc)

/-- C99.  A negative number with an exponent, like `-1e-4`, is refused as a word of its own; it must be written with `=`. -/
theorem C99_exponent (argv : List (List Char)) (w : List Char) (x : ℝ) (hw : w ∈ argv) (hd : Denotes w x) (hm : w.head? = some '-')
    (he : 'e' ∈ w ∨ 'E' ∈ w) : parseCommandLine argv = none := by
  have hchars := numberWord_chars hd
  have hv : ¬ ValueWord w := by
    have hdig : ∀ {a : List Char}, Digits a → 'e' ∉ a ∧ 'E' ∉ a := by
      intro a ha
      exact ⟨fun h => absurd (ha _ h) (by decide), fun h => absurd (ha _ h) (by decide)⟩
    rintro (h | ⟨a, -, ha, rfl⟩ | ⟨a, b, ha, -, hb, rfl⟩)
    · exact h hm
    · have := hdig ha
      simp [this] at he
    · have h1 := hdig ha
      have h2 := hdig hb
      simp [h1, h2] at he
  have hsecond : ∃ c r, w = '-' :: c :: r ∧ c ≠ '-' := by
    obtain ⟨s, σ, whole, f, frac, e, k, hs, hwd, hf, hne, he', rfl, -⟩ := hd
    have hstart : s = ['-'] ∨ s = [] ∨ s = ['+'] := by cases hs <;> simp
    have hhead : ∃ c r, whole ++ f ++ e = c :: r ∧ c ≠ '-' := by
      match whole, hwd with
      | c :: whole, hwd =>
        exact ⟨c, whole ++ f ++ e, by simp, (digit_not_sign (hwd c (by simp))).1⟩
      | [], _ =>
        cases hf with
        | none => exact absurd ⟨rfl, rfl⟩ hne
        | point ds hd => exact ⟨'.', frac ++ e, by simp, by decide⟩
    obtain ⟨c, r, h1, h2⟩ := hhead
    rcases hstart with rfl | rfl | rfl
    · exact ⟨c, r, by rw [List.append_assoc, List.append_assoc, ← List.append_assoc whole, h1]; rfl, h2⟩
    · rw [List.nil_append, h1] at hm
      exact absurd (by simpa using hm) h2
    · simp at hm
  obtain ⟨c, r, rfl, hc⟩ := hsecond
  refine C99_unknown argv _ hw ⟨hm, by simp, fun h => (hchars _ h).1 rfl, hv, ?_⟩
  intro q hq hp
  have h1 := (table_minus (specOf_mem hq)).1
  rw [specOf_name] at h1
  have hc' : c ≠ '=' := (hchars c (by simp)).2
  rw [List.takeWhile_cons_of_pos (by decide), List.takeWhile_cons_of_pos (by simpa using hc')] at hp
  obtain ⟨t, ht⟩ := hp
  rw [← ht] at h1
  simp at h1
  exact hc h1

/-- The number `-1e` with one digit more. -/
theorem denotes_minus_one (s : List Char) (σ : ℤ) (hs : Sign s σ) (d : Char) (hd : Digits [d]) :
    Denotes ('-' :: '1' :: 'e' :: (s ++ [d])) ((-1) * 10 ^ (σ * numeral [d])) := by
  refine ⟨['-'], -1, ['1'], [], [], 'e' :: (s ++ [d]), σ * numeral [d], .minus, by simp [Digits], .none, by simp,
    .some 'e' (.inl rfl) s σ hs [d] (by simp) hd, rfl, ?_⟩
  have h2 : numeral ['1'] = 1 := by decide
  rw [List.append_nil, h2]
  simp

/-- The magnetic field of the defaults, pointing down. -/
example : parseCommandLine (["h0.pickle", "Ni3d.dat", "--hField", "0", "0", "-1e-4"].map String.toList) = none :=
  C99_exponent _ "-1e-4".toList _ (by simp) (denotes_minus_one ['-'] (-1) .minus '4' (by simp [Digits])) (by simp) (by simp)

/-- An option given twice, and a number with exponent behind `=`. -/
example : ∃ o, parseCommandLine (["h0.pickle", "Ni3d.dat", "--nBaths", "0", "60", "--nValBaths", "0", "-1", "--nBaths", "0", "20",
      "--T=-1e2"].map String.toList) = some ("h0.pickle".toList, "Ni3d.dat".toList, o) ∧
    o.nBaths = some [0, 20] ∧ o.nValBaths = some [0, -1] ∧ o.ls = none ∧ o.T ≠ none := by
  have i0 : IntWord "0".toList 0 := (parseInt_iff _ _).1 (by decide)
  have i1 : IntWord "-1".toList (-1) := (parseInt_iff _ _).1 (by decide)
  have i60 : IntWord "60".toList 60 := (parseInt_iff _ _).1 (by decide)
  have i20 : IntWord "20".toList 20 := (parseInt_iff _ _).1 (by decide)
  have uniq : ∀ {w : List Char} {m n : ℤ}, IntWord w m → IntWord w n → m = n := by
    intro w m n h1 h2
    have := (parseInt_iff w m).2 h1
    rw [(parseInt_iff w n).2 h2] at this
    exact (Option.some.inj this).symm
  obtain ⟨o, h1, h2⟩ := C99_parse "h0.pickle".toList "Ni3d.dat".toList (.inl (by decide)) (.inl (by decide))
    [⟨"--nBaths".toList, ["0".toList, "60".toList], false⟩, ⟨"--nValBaths".toList, ["0".toList, "-1".toList], false⟩,
      ⟨"--nBaths".toList, ["0".toList, "20".toList], false⟩, ⟨"--T".toList, ["-1e2".toList], true⟩] (by
    intro g hg
    simp only [List.mem_cons, List.not_mem_nil, or_false] at hg
    rcases hg with rfl | rfl | rfl | rfl
    · refine ⟨⟨("--nBaths", .nats), by decide, rfl, by simp, ?_⟩, ?_⟩
      · intro w hw
        simp only [List.mem_cons, List.not_mem_nil, or_false] at hw
        rcases hw with rfl | rfl
        · exact ⟨0, i0⟩
        · exact ⟨60, i60⟩
      · simp [ValueWord]
    · refine ⟨⟨("--nValBaths", .ints), by decide, rfl, by simp, ?_⟩, ?_⟩
      · intro w hw
        simp only [List.mem_cons, List.not_mem_nil, or_false] at hw
        rcases hw with rfl | rfl
        · exact ⟨0, i0⟩
        · exact ⟨-1, i1⟩
      · simp only [Bool.false_eq_true, if_false, List.mem_cons, List.not_mem_nil, or_false]
        rintro w (rfl | rfl)
        · exact .inl (by decide)
        · exact .inr (.inl ⟨['1'], by simp, by simp [Digits], rfl⟩)
    · refine ⟨⟨("--nBaths", .nats), by decide, rfl, by simp, ?_⟩, ?_⟩
      · intro w hw
        simp only [List.mem_cons, List.not_mem_nil, or_false] at hw
        rcases hw with rfl | rfl
        · exact ⟨0, i0⟩
        · exact ⟨20, i20⟩
      · simp [ValueWord]
    · refine ⟨⟨("--T", .float), by decide, rfl, rfl, ?_⟩, by simp⟩
      intro w hw
      simp only [List.mem_cons, List.not_mem_nil, or_false] at hw
      subst hw
      exact ⟨_, denotes_minus_one [] 1 .none '2' (by simp [Digits])⟩)
  refine ⟨o, h1, ?_, ?_, ?_, ?_⟩
  · obtain ⟨xs, e, hf⟩ := h2.nBaths
    rw [e]
    cases hf with
    | cons a hf => cases hf with
      | cons b hf =>
        cases hf
        have ha := uniq a i0
        have hb := uniq b i20
        norm_cast at ha hb
        rw [ha, hb]
  · obtain ⟨xs, e, hf⟩ := h2.nValBaths
    rw [e]
    cases hf with
    | cons a hf => cases hf with
      | cons b hf =>
        cases hf
        rw [uniq a i0, uniq b i1]
  · exact h2.ls
  · obtain ⟨w, x, -, e, -⟩ := h2.T
    rw [e]
    simp

end Verif
