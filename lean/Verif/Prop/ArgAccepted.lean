/-
C109: nothing on an accepted command line is ignored.
-/
import Verif.Spec.ArgAccepted
import Verif.Prop.ArgParse

namespace Verif

open Spec

theorem partitionEq_spec (w : List Char) :
    (w = (partitionEq w).1 ∧ (partitionEq w).2 = none) ∨ ∃ v, (partitionEq w).2 = some v ∧ w = (partitionEq w).1 ++ '=' :: v := by
  have e : w.takeWhile (· ≠ '=') ++ w.dropWhile (· ≠ '=') = w := List.takeWhile_append_dropWhile
  unfold partitionEq
  split
  · exact .inl ⟨rfl, rfl⟩
  · rename_i c v hd
    have hc : c = '=' := by
      have := List.head_dropWhile_not (p := fun x : Char => decide (x ≠ '=')) (l := w) (by rw [hd]; simp)
      simp only [hd, List.head_cons] at this
      simpa using this
    subst hc
    exact .inr ⟨v, rfl, by rw [hd] at e; exact e.symm⟩

/-- A word that is taken for a value. -/
theorem value_word {w v : List Char} (h : classify w = .value v) : v = w ∧ FileWord w := by
  unfold classify at h
  split at h
  · cases h
    exact ⟨rfl, .inl (.inl (by simp))⟩
  rename_i c r
  split at h
  · rename_i hc
    cases h
    exact ⟨rfl, .inl (.inl (by simpa using hc))⟩
  rename_i hc
  have hc' : c = '-' := by simpa using hc
  subst hc'
  split at h
  · cases h
  split at h
  · rename_i hr
    cases h
    exact ⟨rfl, .inr (.inl (by rw [hr]))⟩
  split at h
  · cases h
  split at h
  · cases h
  split at h
  · split at h
    · cases h
    · split at h
      · rename_i hb
        cases h
        exact ⟨rfl, .inr (.inr hb)⟩
      · cases h
    · cases h
  split at h
  · cases h
  split at h
  · rename_i hn
    cases h
    exact ⟨rfl, .inl (negativeNumber_value hn)⟩
  split at h
  · rename_i hb
    cases h
    exact ⟨rfl, .inr (.inr hb)⟩
  · cases h

/-- A word that is taken for an option. -/
theorem option_word {w : List Char} {s : OptSpec} {v : Option (List Char)} (h : classify w = .option s v) :
    ∃ n q, Names n q ∧ s = specOf q ∧ (v = none → w = n) ∧ ∀ x, v = some x → w = n ++ '=' :: x := by
  obtain ⟨c, r, rfl⟩ : ∃ c r, w = c :: r := List.exists_cons_of_ne_nil (by rintro rfl; cases h)
  unfold classify at h
  simp only at h
  split at h
  · cases h
  rename_i hc
  have hc' : c = '-' := by simpa using hc
  subst hc'
  split at h
  · rename_i s' hf
    cases h
    obtain ⟨q, hq, rfl⟩ := table_documented (List.mem_of_find?_eq_some hf)
    have he : (specOf q).name = '-' :: r := by simpa using List.find?_some hf
    exact ⟨_, q, ⟨hq, .inl rfl⟩, rfl, fun _ => by rw [← specOf_name, he], by simp⟩
  split at h
  · cases h
  split at h
  · cases h
  split at h
  · rename_i s' v' hf
    cases h
    rcases partitionEq_spec ('-' :: r) with ⟨h1, h2⟩ | ⟨v'', h1, h2⟩
    · rw [Prod.eta (partitionEq ('-' :: r)) |>.symm, h2] at hf
      simp [explicitOption] at hf
    · rw [Prod.eta (partitionEq ('-' :: r)) |>.symm, h1] at hf
      simp only [explicitOption, Option.map_eq_some_iff, Prod.mk.injEq] at hf
      obtain ⟨t, hf, rfl, rfl⟩ := hf
      obtain ⟨q, hq, rfl⟩ := table_documented (List.mem_of_find?_eq_some hf)
      have he : (specOf q).name = (partitionEq ('-' :: r)).1 := by simpa using List.find?_some hf
      exact ⟨_, q, ⟨hq, .inl rfl⟩, rfl, by simp, fun x hx => by cases hx; rw [← specOf_name, he]; exact h2⟩
  split at h
  · rename_i hr
    split at h
    · rename_i s' hf hh
      cases h
      have hmem : s ∈ optTable.filter (fun s => (partitionEq ('-' :: r)).1.isPrefixOf s.name) := by rw [hf]; simp
      obtain ⟨h1, h2⟩ := List.mem_filter.1 hmem
      obtain ⟨q, hq, rfl⟩ := table_documented h1
      refine ⟨(partitionEq ('-' :: r)).1, q, ⟨hq, .inr ⟨?_, ?_, ?_, ?_⟩⟩, rfl, ?_⟩
      · obtain ⟨r', rfl⟩ : ∃ r', r = '-' :: r' := by
          match r, hr with
          | x :: r', hr => exact ⟨r', by simpa using hr⟩
        rw [partitionEq_fst, List.takeWhile_cons_of_pos (by decide), List.takeWhile_cons_of_pos (by decide)]
        exact ⟨_, rfl⟩
      · rw [← specOf_name]
        exact List.isPrefixOf_iff_prefix.1 h2
      · intro q' hq' hp
        have : specOf q' ∈ optTable.filter (fun s => (partitionEq ('-' :: r)).1.isPrefixOf s.name) := by
          refine List.mem_filter.2 ⟨specOf_mem hq', ?_⟩
          rw [specOf_name]
          exact List.isPrefixOf_iff_prefix.2 hp
        rw [hf, List.mem_singleton] at this
        refine documented_inj hq' hq ?_
        rw [← specOf_name, ← specOf_name, this]
      · intro hp
        rw [List.isPrefixOf_iff_prefix.2 hp] at hh
        cases hh
      · rcases partitionEq_spec ('-' :: r) with ⟨h1, h2⟩ | ⟨v'', h1, h2⟩
        · exact ⟨fun _ => h1, fun x hx => by rw [h2] at hx; cases hx⟩
        · exact ⟨fun hx => (by rw [h1] at hx; cases hx), fun x hx => (by rw [h1] at hx; cases hx; exact h2)⟩
    · split at h <;> cases h
    · cases h
  split at h
  · cases h
  split at h
  · cases h
  split at h <;> cases h

theorem convert_takes {q : String × Kind} {ws : List (List Char)} {x : ArgValue} (h : convert (specOf q) ws = some x) (hne : ws ≠ [])
    (hone : (specOf q).many = false → ws.length = 1) : Takes q.2 ws := by
  have hint : (specOf q).isInt = true → ∀ w ∈ ws, ∃ n, IntWord w n := by
    intro hi w hw
    unfold convert at h
    rw [if_pos hi, Option.map_eq_some_iff] at h
    obtain ⟨l, hl, -⟩ := h
    obtain ⟨b, -, hb⟩ := forall₂_left ((option_mapM_iff _ _ _).1 hl) w hw
    exact ⟨b, (parseInt_iff _ _).1 hb⟩
  have hfloat : (specOf q).isInt = false → ∀ w ∈ ws, ∃ n, Denotes w n := by
    intro hi w hw
    unfold convert at h
    rw [if_neg (by simp [hi]), Option.map_eq_some_iff] at h
    obtain ⟨l, hl, -⟩ := h
    obtain ⟨b, -, hb⟩ := forall₂_left ((option_mapM_iff _ _ _).1 hl) w hw
    refine ⟨b, (parseFloat_iff _ _).1 ?_⟩
    cases hp : parseFloat w with
    | ok y => rw [hp] at hb; cases hb; rfl
    | error e => rw [hp] at hb; cases hb
  obtain ⟨n, k⟩ := q
  cases k with
  | nat => exact ⟨hone rfl, hint rfl⟩
  | float => exact ⟨hone rfl, hfloat rfl⟩
  | nats => exact ⟨hne, hint rfl⟩
  | ints => exact ⟨hne, hint rfl⟩
  | floats => exact ⟨hne, hfloat rfl⟩

theorem number_value {w : List Char} (hf : FileWord w) (hn : (∃ n, IntWord w n) ∨ ∃ x, Denotes w x) : ValueWord w := by
  have hd : ∃ x, Denotes w x := by
    rcases hn with ⟨n, s, σ, ds, hs, hne, hd, rfl, -⟩ | hn
    · exact ⟨_, s, σ, ds, [], [], [], 0, hs, hd, .none, by simp [hne], .none, by simp, rfl⟩
    · exact hn
  obtain ⟨x, hx⟩ := hd
  rcases hf with hf | rfl | hf
  · exact hf
  · exfalso
    have := (parseFloat_iff _ _).2 hx
    simp [parseFloat, splitSign, splitFraction, throw, throwThe, MonadExceptOf.throw] at this
    cases this
  · exact absurd rfl ((numberWord_chars hx _ hf).1)

theorem takes_number {k : Kind} {ws : List (List Char)} (h : Takes k ws) : ∀ w ∈ ws, (∃ n, IntWord w n) ∨ ∃ x, Denotes w x := by
  intro w hw
  cases k with
  | nat => exact .inl (h.2 w hw)
  | float => exact .inr (h.2 w hw)
  | nats => exact .inl (h.2 w hw)
  | ints => exact .inl (h.2 w hw)
  | floats => exact .inr (h.2 w hw)

/-- The words that argparse takes for values, at the beginning of the command line. -/
theorem leading_values (argv : List (List Char)) :
    ∃ ws r, argv = ws ++ r ∧ ((argv.map classify).takeWhile fun t => t.word?.isSome).filterMap Token.word? = ws ∧
      ((argv.map classify).dropWhile fun t => t.word?.isSome) = r.map classify ∧ (∀ w ∈ ws, FileWord w) ∧
      ∀ w, r.head? = some w → ¬ ValueWord w := by
  induction argv with
  | nil => exact ⟨[], [], rfl, rfl, rfl, by simp, by simp⟩
  | cons a argv ih =>
    cases hc : classify a with
    | value v =>
      obtain ⟨rfl, hf⟩ := value_word hc
      obtain ⟨ws, r, h1, h2, h3, h4, h5⟩ := ih
      refine ⟨v :: ws, r, by rw [h1, List.cons_append], ?_, ?_, ?_, h5⟩
      · rw [List.map_cons, hc, List.takeWhile_cons_of_pos rfl, List.filterMap_cons_some (f := Token.word?) (b := v) rfl, h2]
      · rw [List.map_cons, hc, List.dropWhile_cons_of_pos rfl, h3]
      · intro w hw
        rcases List.mem_cons.1 hw with rfl | hw
        · exact hf
        · exact h4 w hw
    | option s v =>
      refine ⟨[], a :: argv, rfl, ?_, ?_, by simp, ?_⟩
      · rw [List.map_cons, hc, List.takeWhile_cons_of_neg (by simp [Token.word?])]; rfl
      · rw [List.map_cons, hc, List.dropWhile_cons_of_neg (by simp [Token.word?])]
      · intro w hw hv
        cases hw
        rw [classify_value hv] at hc
        cases hc
    | refused =>
      refine ⟨[], a :: argv, rfl, ?_, ?_, by simp, ?_⟩
      · rw [List.map_cons, hc, List.takeWhile_cons_of_neg (by simp [Token.word?])]; rfl
      · rw [List.map_cons, hc, List.dropWhile_cons_of_neg (by simp [Token.word?])]
      · intro w hw hv
        cases hw
        rw [classify_value hv] at hc
        cases hc

theorem several_many {q : String × Kind} : Several q.2 ↔ (specOf q).many = true := by
  obtain ⟨n, k⟩ := q
  cases k <;> simp [Several, specOf]

/-- One more option in front. -/
theorem given_step {q : String × Kind} (hq : q ∈ documentedOptions) {ws : List (List Char)} {x : ArgValue} {b : Bool}
    (hx : convert (specOf q) ws = some x) {opts : List GivenOption} {ns ns' : Dict (List Char) ArgValue}
    (h : ∀ s ∈ optTable, Dict.get? ns' s.name = match given opts s.name with
        | none => Dict.get? (Dict.set ns (specOf q).name x) s.name
        | some ws => convert s ws) :
    ∀ s ∈ optTable, Dict.get? ns' s.name = match given (⟨q.1.toList, ws, b⟩ :: opts) s.name with
        | none => Dict.get? ns s.name
        | some ws => convert s ws := by
  intro s hs
  rw [h s hs]
  simp only [given]
  cases hg : given opts s.name with
  | some ws => rfl
  | none =>
    simp only
    rw [← specOf_name]
    by_cases he : (specOf q).name = s.name
    · rw [if_pos he]
      have : specOf q = s := table_inj (specOf_mem hq) hs he
      subst this
      simp [hx, Dict.get?_set]
    · rw [if_neg he]
      simp only
      rw [Dict.get?_set, if_neg he]

theorem parse_reads (k : ℕ) (argv : List (List Char)) (hk : argv.length ≤ k) (pos : List (List Char)) (ns : Dict (List Char) ArgValue)
    (pos' : List (List Char)) (ns' : Dict (List Char) ArgValue) (h : parseTokens (argv.map classify) pos ns = some (pos', ns')) :
    ∃ files opts, Reads argv files opts ∧ pos' = pos ++ files ∧
      ∀ s ∈ optTable, Dict.get? ns' s.name = match given opts s.name with
        | none => Dict.get? ns s.name
        | some ws => convert s ws := by
  induction k generalizing argv pos ns with
  | zero =>
    obtain rfl := List.length_eq_zero_iff.1 (Nat.le_zero.1 hk)
    rw [List.map_nil, parseTokens] at h
    split at h
    · cases h
      exact ⟨[], [], .nil, by simp, by simp [given]⟩
    · cases h
  | succ k ih =>
    match argv, hk with
    | [], _ =>
      rw [List.map_nil, parseTokens] at h
      split at h
      · cases h
        exact ⟨[], [], .nil, by simp, by simp [given]⟩
      · cases h
    | a :: argv, hk =>
      have hk' : argv.length ≤ k := by simpa using hk
      rw [List.map_cons] at h
      cases hc : classify a with
      | value v =>
        obtain ⟨rfl, hf⟩ := value_word hc
        rw [hc, parseTokens] at h
        split at h
        · obtain ⟨files, opts, h1, h2, h3⟩ := ih argv hk' _ _ h
          exact ⟨v :: files, opts, .file hf h1, by rw [h2]; simp, h3⟩
        · cases h
      | refused =>
        rw [hc, parseTokens] at h
        cases h
      | option s v =>
        obtain ⟨n, q, hn, rfl, hw⟩ := option_word hc
        cases v with
        | some v =>
          have hw := hw.2 v rfl
          subst hw
          rw [hc, parseTokens] at h
          cases hx : convert (specOf q) [v] with
          | none => rw [hx] at h; cases h
          | some x =>
            rw [hx] at h
            obtain ⟨files, opts, h1, h2, h3⟩ := ih argv hk' _ _ h
            exact ⟨files, _, .equals hn (convert_takes hx (by simp) (by simp)) h1, h2, given_step hn.1 hx h3⟩
        | none =>
          have hw := hw.1 rfl
          subst hw
          rw [hc, parseTokens] at h
          by_cases hm : (specOf q).many = true
          · obtain ⟨ws, r, e, e1, e2, e3, e4⟩ := leading_values argv
            simp only [hm, if_true, e1, e2] at h
            split at h
            · cases h
            rename_i hne
            cases hx : convert (specOf q) ws with
            | none => rw [hx] at h; cases h
            | some x =>
              rw [hx] at h
              have hlen : r.length ≤ k := by
                rw [e, List.length_append] at hk'
                omega
              obtain ⟨files, opts, h1, h2, h3⟩ := ih r hlen _ _ h
              have ht := convert_takes hx hne (by simp [hm])
              subst e
              exact ⟨files, _, .option hn ht (fun w hw => number_value (e3 w hw) (takes_number ht w hw)) (fun _ => e4) h1, h2,
                given_step hn.1 hx h3⟩
          · simp only [hm, Bool.false_eq_true, if_false] at h
            match argv, hk' with
            | [], _ => simp at h
            | b :: argv, hk' =>
              cases hb : classify b with
              | option s v => simp [hb, Token.word?] at h
              | refused => simp [hb, Token.word?] at h
              | value v =>
                obtain ⟨rfl, hf⟩ := value_word hb
                simp only [List.map_cons, hb, List.take_succ_cons, List.take_zero, List.drop_succ_cons, List.drop_zero,
                  List.filterMap_cons, Token.word?, List.filterMap_nil, List.cons_ne_nil, if_false] at h
                cases hx : convert (specOf q) [v] with
                | none => rw [hx] at h; cases h
                | some x =>
                  rw [hx] at h
                  obtain ⟨files, opts, h1, h2, h3⟩ := ih argv (by simp at hk'; omega) _ _ h
                  have ht := convert_takes hx (by simp) (by simp)
                  refine ⟨files, _, .option (ws := [v]) hn ht (fun w hw => ?_) (fun hs => absurd (several_many.1 hs) hm) h1, h2,
                    given_step hn.1 hx h3⟩
                  rw [List.mem_singleton] at hw
                  subst hw
                  exact number_value hf (takes_number ht _ (by simp))

theorem given_takes {argv files : List (List Char)} {opts : List GivenOption} (h : Reads argv files opts) {q : String × Kind}
    (hq : q ∈ documentedOptions) {ws : List (List Char)} (hg : given opts q.1.toList = some ws) : Takes q.2 ws := by
  induction h with
  | nil => simp [given] at hg
  | file _ _ ih => exact ih hg
  | equals hn ht _ ih =>
    simp only [given] at hg
    split at hg
    · rename_i hg'
      cases hg
      exact ih hg'
    · split at hg
      · rename_i he
        cases hg
        rw [← documented_inj hn.1 hq he]
        exact ht
      · cases hg
  | option hn ht _ _ _ ih =>
    simp only [given] at hg
    split at hg
    · rename_i hg'
      cases hg
      exact ih hg'
    · split at hg
      · rename_i he
        cases hg
        rw [← documented_inj hn.1 hq he]
        exact ht
      · cases hg

section
variable {argv files : List (List Char)} {opts : List GivenOption} (h : Reads argv files opts) {ns : Dict (List Char) ArgValue}
  (hns : ∀ s ∈ optTable, Dict.get? ns s.name = match given opts s.name with
    | none => none
    | some ws => convert s ws)

include h hns in
theorem read_cases {q : String × Kind} (hq : q ∈ documentedOptions) :
    (given opts q.1.toList = none ∧ Dict.get? ns q.1.toList = none) ∨
    ∃ ws, given opts q.1.toList = some ws ∧ Dict.get? ns q.1.toList = convert (specOf q) ws ∧ Takes q.2 ws := by
  have h1 := hns _ (specOf_mem hq)
  rw [specOf_name] at h1
  cases hg : given opts q.1.toList with
  | none => rw [hg] at h1; exact .inl ⟨rfl, h1⟩
  | some ws => rw [hg] at h1; exact .inr ⟨ws, rfl, h1, given_takes h hq hg⟩

theorem forall₂_natWord {ws : List (List Char)} {l : List ℤ} (hl : List.Forall₂ IntWord ws l) (hn : ∀ x ∈ l, 0 ≤ x) :
    List.Forall₂ NatWord ws (l.map Int.toNat) := by
  induction hl with
  | nil => exact .nil
  | cons h1 h2 ih =>
    refine .cons ?_ (ih fun x hx => hn x (List.mem_cons_of_mem _ hx))
    unfold NatWord
    rw [Int.toNat_of_nonneg (hn _ (by simp))]
    exact h1

include h hns in
theorem read_nats {name : String} (hq : (name, Kind.nats) ∈ documentedOptions) (hn : noneNegative ns name = true) :
    IsList NatWord opts name (natsOf ns name) := by
  rcases read_cases h hns hq with ⟨h1, h2⟩ | ⟨ws, h1, h2, -, h3⟩
  · dsimp only at h1 h2
    simp [IsList, natsOf, intsOf, h1, h2]
  · dsimp only at h1 h2
    obtain ⟨l, hl⟩ := forall₂_exists h3
    rw [convert_ints rfl hl] at h2
    simp only [IsList, h1, natsOf, intsOf, h2, Option.map_some]
    exact ⟨_, rfl, forall₂_natWord hl (by simpa [noneNegative, intsOf, h2] using hn)⟩

include h hns in
theorem read_nat {name : String} (hq : (name, Kind.nat) ∈ documentedOptions) (hn : noneNegative ns name = true) :
    IsNumber NatWord opts name ((natsOf ns name).bind List.head?) := by
  rcases read_cases h hns hq with ⟨h1, h2⟩ | ⟨ws, h1, h2, h4, h3⟩
  · dsimp only at h1 h2
    simp [IsNumber, natsOf, intsOf, h1, h2]
  · dsimp only at h1 h2
    obtain ⟨l, hl⟩ := forall₂_exists h3
    rw [convert_ints rfl hl] at h2
    have a1 := forall₂_natWord hl (by simpa [noneNegative, intsOf, h2] using hn)
    simp only [IsNumber, h1, natsOf, intsOf, h2, Option.map_some]
    obtain ⟨w, rfl⟩ := List.length_eq_one_iff.1 h4
    obtain ⟨x, rfl⟩ := List.length_eq_one_iff.1 (by rw [← hl.length_eq]; exact h4)
    cases a1 with
    | cons b1 b2 => exact ⟨w, _, rfl, rfl, b1⟩

include h hns in
theorem read_ints {name : String} (hq : (name, Kind.ints) ∈ documentedOptions) : IsList IntWord opts name (intsOf ns name) := by
  rcases read_cases h hns hq with ⟨h1, h2⟩ | ⟨ws, h1, h2, -, h3⟩
  · dsimp only at h1 h2
    simp [IsList, intsOf, h1, h2]
  · dsimp only at h1 h2
    obtain ⟨l, hl⟩ := forall₂_exists h3
    rw [convert_ints rfl hl] at h2
    simp only [IsList, h1, intsOf, h2]
    exact ⟨_, rfl, hl⟩

include h hns in
theorem read_floats {name : String} (hq : (name, Kind.floats) ∈ documentedOptions) : IsList Denotes opts name (floatsOf ns name) := by
  rcases read_cases h hns hq with ⟨h1, h2⟩ | ⟨ws, h1, h2, -, h3⟩
  · dsimp only at h1 h2
    simp [IsList, floatsOf, h1, h2]
  · dsimp only at h1 h2
    obtain ⟨l, hl⟩ := forall₂_exists h3
    rw [convert_floats rfl hl] at h2
    simp only [IsList, h1, floatsOf, h2]
    exact ⟨_, rfl, hl⟩

include h hns in
theorem read_float {name : String} (hq : (name, Kind.float) ∈ documentedOptions) :
    IsNumber Denotes opts name ((floatsOf ns name).bind List.head?) := by
  rcases read_cases h hns hq with ⟨h1, h2⟩ | ⟨ws, h1, h2, h4, h3⟩
  · dsimp only at h1 h2
    simp [IsNumber, floatsOf, h1, h2]
  · dsimp only at h1 h2
    obtain ⟨l, hl⟩ := forall₂_exists h3
    rw [convert_floats rfl hl] at h2
    simp only [IsNumber, h1, floatsOf, h2]
    obtain ⟨w, rfl⟩ := List.length_eq_one_iff.1 h4
    cases hl with
    | cons b1 b2 => exact ⟨w, _, rfl, rfl, b1⟩

end

/-- C109.  An accepted command line consists of exactly two file names, in this order, and of documented options with numbers of the
right kind, in any order; no word is ignored, and every parameter is what its last option says, or is missing. -/
theorem C109_accepted (argv : List (List Char)) (h0 radial : List Char) (o : Options)
    (h : parseCommandLine argv = some (h0, radial, o)) : ∃ opts, Reads argv [h0, radial] opts ∧ OptionsGiven opts o := by
  unfold parseCommandLine at h
  split at h
  · rename_i h0' radial' ns hp
    split at h
    · rename_i hneg
      cases h
      obtain ⟨files, opts, h1, h2, hns⟩ := parse_reads argv.length argv le_rfl [] [] _ _ hp
      rw [List.nil_append] at h2
      subst h2
      have hneg' : ∀ n ∈ ["--ls", "--nBaths", "--nPsiMax", "--nPrintSlaterWeights"], noneNegative ns n = true :=
        List.all_eq_true.1 hneg
      refine ⟨opts, h1, ?_⟩
      constructor
      · exact read_nats h1 hns (by decide) (hneg' _ (by simp))
      · exact read_nats h1 hns (by decide) (hneg' _ (by simp))
      · exact read_ints h1 hns (by decide)
      · exact read_ints h1 hns (by decide)
      · exact read_ints h1 hns (by decide)
      · exact read_ints h1 hns (by decide)
      · exact read_ints h1 hns (by decide)
      · exact read_floats h1 hns (by decide)
      · exact read_floats h1 hns (by decide)
      · exact read_floats h1 hns (by decide)
      · exact read_floats h1 hns (by decide)
      · exact read_float h1 hns (by decide)
      · exact read_float h1 hns (by decide)
      · exact read_float h1 hns (by decide)
      · exact read_floats h1 hns (by decide)
      · exact read_nat h1 hns (by decide) (hneg' _ (by simp))
      · exact read_nat h1 hns (by decide) (hneg' _ (by simp))
      · exact read_float h1 hns (by decide)
      · exact read_float h1 hns (by decide)
      · exact read_float h1 hns (by decide)
      · exact read_float h1 hns (by decide)
      · exact read_float h1 hns (by decide)
      · exact read_float h1 hns (by decide)
    · cases h
  · cases h

/-- A word that names an option is taken for it. -/
theorem classify_names {n : List Char} {q : String × Kind} (h : Names n q) :
    classify n = .option (specOf q) none ∧ ∀ v, classify (n ++ '=' :: v) = .option (specOf q) (some v) := by
  obtain ⟨hq, rfl | ⟨⟨r, rfl⟩, hp, hu, hh⟩⟩ := h
  · rw [← specOf_name]
    exact ⟨classify_name (specOf_mem hq), classify_eq (specOf_mem hq)⟩
  by_cases hfull : ['-', '-'] ++ r = q.1.toList
  · rw [hfull, ← specOf_name]
    exact ⟨classify_name (specOf_mem hq), classify_eq (specOf_mem hq)⟩
  simp only [List.cons_append, List.nil_append] at *
  have hr : r ≠ [] := by
    rintro rfl
    exact hh ⟨"help".toList, rfl⟩
  have heq : '=' ∉ '-' :: '-' :: r := by
    intro he
    have := (table_minus (specOf_mem hq)).2.1
    rw [specOf_name] at this
    exact this (hp.subset he)
  have huniq : ∀ s ∈ optTable, '-' :: '-' :: r <+: s.name ↔ s = specOf q := by
    intro s hs
    obtain ⟨q', hq', rfl⟩ := table_documented hs
    rw [specOf_name]
    constructor
    · intro hp'
      rw [hu q' hq' hp']
    · intro e
      have := congrArg OptSpec.name e
      rw [specOf_name, specOf_name] at this
      rw [this]
      exact hp
  have hnot : ∀ s ∈ optTable, s.name ≠ '-' :: '-' :: r := by
    intro s hs e
    have := (huniq s hs).1 (by rw [e])
    rw [this, specOf_name] at e
    exact hfull e.symm
  have hfilter : optTable.filter (fun s => ('-' :: '-' :: r).isPrefixOf s.name) = [specOf q] := by
    have h1 : optTable.filter (fun s => ('-' :: '-' :: r).isPrefixOf s.name) = optTable.filter (fun s => decide (s = specOf q)) := by
      refine List.filter_congr fun s hs => ?_
      rw [Bool.eq_iff_iff, List.isPrefixOf_iff_prefix, huniq s hs, decide_eq_true_iff]
    rw [h1]
    have h2 : ∀ t ∈ optTable, optTable.filter (fun s => decide (s = t)) = [t] := by decide
    exact h2 _ (specOf_mem hq)
  have hhelp : ('-' :: '-' :: r).isPrefixOf "--help".toList = false := by
    rw [← Bool.not_eq_true, List.isPrefixOf_iff_prefix]
    exact hh
  constructor
  · have hnone : optTable.find? (fun s' => s'.name = '-' :: '-' :: r) = none := by
      rw [List.find?_eq_none]
      intro t ht e
      exact hnot t ht (by simpa using e)
    unfold classify
    simp only [ne_eq, not_true_eq_false, if_false, reduceCtorEq]
    rw [hnone]
    simp only
    rw [if_neg (by simp [hr]), partitionEq_none heq]
    simp only [explicitOption, List.head?_cons, if_true]
    rw [hfilter, hhelp]
  · intro v
    have hnone : optTable.find? (fun s' => s'.name = '-' :: '-' :: (r ++ '=' :: v)) = none := by
      rw [List.find?_eq_none]
      intro t ht e
      simp only [decide_eq_true_eq] at e
      have := (table_minus ht).2.1
      rw [e] at this
      simp at this
    have hpart := partitionEq_some (v := v) heq
    simp only [List.cons_append] at hpart
    have hexact : optTable.find? (fun s' => s'.name = '-' :: '-' :: r) = none := by
      rw [List.find?_eq_none]
      intro t ht e
      exact hnot t ht (by simpa using e)
    unfold classify
    simp only [ne_eq, not_true_eq_false, if_false, reduceCtorEq]
    rw [hnone]
    simp only
    rw [if_neg (by simp), hpart]
    simp only [explicitOption, hexact, Option.map_none, List.head?_cons, if_true]
    rw [hfilter, hhelp]

/-- C109.  The name of an option may be abbreviated, as long as no other option starts like this: the command line means the same,
whether the value is the next word or is written behind `=`. -/
theorem C109_short (l r : List (List Char)) (n : List Char) (q : String × Kind) (h : Names n q) :
    parseCommandLine (l ++ n :: r) = parseCommandLine (l ++ q.1.toList :: r) ∧
    ∀ v, parseCommandLine (l ++ (n ++ '=' :: v) :: r) = parseCommandLine (l ++ (q.1.toList ++ '=' :: v) :: r) := by
  have h1 := classify_names h
  have h2 := classify_names (n := q.1.toList) (q := q) ⟨h.1, .inl rfl⟩
  constructor
  · simp only [parseCommandLine, List.map_append, List.map_cons, h1.1, h2.1]
  · intro v
    simp only [parseCommandLine, List.map_append, List.map_cons, h1.2 v, h2.2 v]

theorem dropWhile_option {l : List Token} {t : Token} {r : List Token} (ht : t.word? = none) :
    (l ++ t :: r).dropWhile (fun t => t.word?.isSome) = l.dropWhile (fun t => t.word?.isSome) ++ t :: r := by
  induction l with
  | nil => simp [ht]
  | cons a l ih =>
    by_cases ha : a.word?.isSome = true
    · simp only [List.cons_append, List.dropWhile_cons, ha, if_true, ih]
    · simp only [List.cons_append, List.dropWhile_cons, ha, Bool.false_eq_true, if_false]

/-- An option whose values cannot be converted is refused wherever it stands. -/
theorem parseTokens_bad {s : OptSpec} {rest : List Token} (hm : s.many = true)
    (hbad : convert s ((rest.takeWhile fun t => t.word?.isSome).filterMap Token.word?) = none) (k : ℕ) (l : List Token) (hk : l.length ≤ k)
    (pos : List (List Char)) (ns : Dict (List Char) ArgValue) : parseTokens (l ++ .option s none :: rest) pos ns = none := by
  induction k generalizing l pos ns with
  | zero =>
    obtain rfl := List.length_eq_zero_iff.1 (Nat.le_zero.1 hk)
    rw [List.nil_append, parseTokens]
    simp only [hm, if_true, hbad]
    split <;> rfl
  | succ k ih =>
    match l, hk with
    | [], _ =>
      rw [List.nil_append, parseTokens]
      simp only [hm, if_true, hbad]
      split <;> rfl
    | a :: l, hk =>
      have hk' : l.length ≤ k := by simpa using hk
      cases a with
      | value w =>
        rw [List.cons_append, parseTokens]
        split
        · exact ih l hk' _ _
        · rfl
      | refused => rw [List.cons_append, parseTokens]
      | option s' v =>
        cases v with
        | some v =>
          rw [List.cons_append, parseTokens]
          cases convert s' [v] with
          | none => rfl
          | some x => exact ih l hk' _ _
        | none =>
          rw [List.cons_append, parseTokens]
          by_cases hm' : s'.many = true
          · simp only [hm', if_true]
            split
            · rfl
            · rw [dropWhile_option (t := .option s none) rfl]
              cases convert s' _ with
              | none => rfl
              | some x => exact ih _ ((List.dropWhile_suffix _).length_le.trans hk') _ _
          · simp only [hm', Bool.false_eq_true, if_false]
            match l, hk' with
            | [], _ => simp [Token.word?]
            | b :: l, hk' =>
              simp only [List.cons_append, List.drop_succ_cons, List.drop_zero]
              split
              · rfl
              · cases convert s' _ with
                | none => rfl
                | some x => exact ih l (by simp at hk'; omega) _ _

/-- C109.  An option that takes several values takes all words up to the next option, also those that were meant as the names of the
files: if one of them is not a number of the right kind, then the command line is refused. -/
theorem C109_swallow (l r : List (List Char)) (n w : List Char) (q : String × Kind) (ws : List (List Char)) (hn : Names n q)
    (hs : Several q.2) (hv : ∀ x ∈ ws, ValueWord x) (hw : ValueWord w) (hbad : ¬ Takes q.2 [w]) :
    parseCommandLine (l ++ n :: (ws ++ w :: r)) = none := by
  have hm := several_many.1 hs
  have hval : (ws ++ w :: r).map classify = (ws ++ [w]).map Token.value ++ r.map classify := by
    simp only [List.map_append, List.map_cons, List.map_nil, classify_value hw, List.append_assoc, List.singleton_append]
    rw [List.map_congr_left fun x hx => classify_value (hv x hx)]
  have hconv : convert (specOf q) ((((ws ++ w :: r).map classify).takeWhile fun t => t.word?.isSome).filterMap Token.word?) = none := by
    obtain ⟨more, hmore⟩ : ∃ more, (((ws ++ w :: r).map classify).takeWhile fun t => t.word?.isSome).filterMap Token.word? = ws ++ w :: more := by
      rw [hval, List.takeWhile_append_of_pos (by
        intro t ht
        obtain ⟨x, -, rfl⟩ := List.mem_map.1 ht
        rfl), List.filterMap_append, List.filterMap_map]
      have : Token.word? ∘ Token.value = some := rfl
      rw [this, List.filterMap_some]
      exact ⟨_, by rw [List.append_assoc, List.singleton_append]⟩
    rw [hmore]
    cases hx : convert (specOf q) (ws ++ w :: more) with
    | none => rfl
    | some x =>
      exfalso
      have ht := convert_takes hx (by simp) (by simp [hm])
      apply hbad
      obtain ⟨name, k⟩ := q
      cases k with
      | nat => exact hs.elim
      | float => exact hs.elim
      | nats => exact ⟨by simp, by simpa using ht.2 w (by simp)⟩
      | ints => exact ⟨by simp, by simpa using ht.2 w (by simp)⟩
      | floats => exact ⟨by simp, by simpa using ht.2 w (by simp)⟩
  unfold parseCommandLine
  rw [List.map_append, List.map_cons, (classify_names hn).1, parseTokens_bad hm hconv _ _ le_rfl]

/-- The names of the files may not stand behind `--ls 2 1`. -/
example : parseCommandLine (["--ls", "2", "1", "h0.pickle", "Ni3d.dat"].map String.toList) = none :=
  C109_swallow [] ["Ni3d.dat".toList] "--ls".toList "h0.pickle".toList ("--ls", .nats) ["2".toList, "1".toList] ⟨by decide, .inl rfl⟩
    trivial (by simp [ValueWord]) (.inl (by decide)) (by
      rintro ⟨-, h⟩
      obtain ⟨n, hn⟩ := h "h0.pickle".toList (by simp)
      have := (parseInt_iff _ _).2 hn
      exact absurd this (by rw [show parseInt "h0.pickle".toList = none by decide]; simp))

/-- `--hF` is short for `--hField`; `--h` would be the help. -/
theorem names_hField : Names "--hF".toList ("--hField", .floats) :=
  ⟨by decide, .inr ⟨⟨['h', 'F'], rfl⟩, ⟨"ield".toList, rfl⟩, by decide +kernel, by decide⟩⟩

/-- A command line that is accepted, with an abbreviated option, and how it is read. -/
example : ∃ o opts, parseCommandLine (["h0.pickle", "Ni3d.dat", "--hF", "0", "0", "1"].map String.toList) =
      some ("h0.pickle".toList, "Ni3d.dat".toList, o) ∧
    Reads (["h0.pickle", "Ni3d.dat", "--hF", "0", "0", "1"].map String.toList) ["h0.pickle".toList, "Ni3d.dat".toList] opts ∧
    OptionsGiven opts o := by
  have hd : ∀ c : Char, c.isDigit = true → ∃ x, Denotes [c] x := fun c hc =>
    ⟨_, [], 1, [c], [], [], [], 0, .none, by simp [Digits, hc], .none, by simp, .none, by simp, rfl⟩
  obtain ⟨o, h1, -⟩ := C99_parse "h0.pickle".toList "Ni3d.dat".toList (.inl (by decide)) (.inl (by decide))
    [⟨"--hField".toList, ["0".toList, "0".toList, "1".toList], false⟩] (by
    intro g hg
    rw [List.mem_singleton] at hg
    subst hg
    refine ⟨⟨("--hField", .floats), by decide, rfl, by simp, ?_⟩, ?_⟩
    · intro w hw
      simp only [List.mem_cons, List.not_mem_nil, or_false] at hw
      rcases hw with rfl | rfl | rfl
      · exact hd _ (by decide)
      · exact hd _ (by decide)
      · exact hd _ (by decide)
    · simp [ValueWord])
  have h2 := (C109_short ["h0.pickle".toList, "Ni3d.dat".toList] ["0".toList, "0".toList, "1".toList] _ _ names_hField).1
  have h3 : parseCommandLine (["h0.pickle", "Ni3d.dat", "--hF", "0", "0", "1"].map String.toList) =
      some ("h0.pickle".toList, "Ni3d.dat".toList, o) := h2.trans h1
  obtain ⟨opts, h4, h5⟩ := C109_accepted _ _ _ _ h3
  exact ⟨o, opts, h3, h4, h5⟩

end Verif
