/-
Lemmas about the command line.
-/
import Verif.Model.ArgParse
import Verif.Spec.ArgParse
import Verif.Lemmas.TextTable
import Verif.Py.Dict

namespace Verif

open Spec

theorem table_find {s : OptSpec} (hs : s ∈ optTable) : optTable.find? (fun s' => s'.name = s.name) = some s := by
  revert hs s
  decide

theorem table_minus {s : OptSpec} (hs : s ∈ optTable) : s.name.take 2 = ['-', '-'] ∧ '=' ∉ s.name ∧ 3 ≤ s.name.length := by
  revert hs s
  decide

theorem table_inj {s t : OptSpec} (hs : s ∈ optTable) (ht : t ∈ optTable) (h : s.name = t.name) : s = t := by
  have h1 := table_find hs
  rw [h, table_find ht] at h1
  exact (Option.some.inj h1).symm

theorem partitionEq_none {w : List Char} (h : '=' ∉ w) : partitionEq w = (w, none) := by
  unfold partitionEq
  have : w.dropWhile (· ≠ '=') = [] := by
    rw [← List.append_nil w, List.dropWhile_append_of_pos]
    · rfl
    intro x hx
    simp only [ne_eq, decide_not, Bool.not_eq_true', decide_eq_false_iff_not]
    rintro rfl
    exact h hx
  rw [this]

theorem partitionEq_some {w v : List Char} (h : '=' ∉ w) : partitionEq (w ++ '=' :: v) = (w, some v) := by
  have hall : ∀ x ∈ w, (decide (x ≠ '=')) = true := by
    intro x hx
    simp only [ne_eq, decide_not, Bool.not_eq_true', decide_eq_false_iff_not]
    rintro rfl
    exact h hx
  unfold partitionEq
  rw [List.dropWhile_append_of_pos hall, List.takeWhile_append_of_pos hall]
  simp

theorem classify_name {s : OptSpec} (hs : s ∈ optTable) : classify s.name = .option s none := by
  have h1 := table_find hs
  obtain ⟨h2, -, h3⟩ := table_minus hs
  generalize s.name = w at *
  match w, h2 with
  | c :: r, h2 =>
    have hc : c = '-' := by
      match r with
      | [] => simp at h3
      | d :: r => simpa using And.left (by simpa using h2)
    unfold classify
    simp only [hc, ne_eq, not_true_eq_false, if_false]
    rw [hc] at h1
    rw [h1]

theorem classify_eq {s : OptSpec} (hs : s ∈ optTable) (v : List Char) : classify (s.name ++ '=' :: v) = .option s (some v) := by
  have h1 := table_find hs
  obtain ⟨h2, h4, h3⟩ := table_minus hs
  have hnone : optTable.find? (fun s' => s'.name = s.name ++ '=' :: v) = none := by
    rw [List.find?_eq_none]
    intro t ht e
    simp only [decide_eq_true_eq] at e
    have := (table_minus ht).2.1
    rw [e] at this
    simp at this
  have hpart := partitionEq_some (v := v) h4
  generalize hn : s.name = w at *
  match w, h2 with
  | c :: d :: r, h2 =>
    have hcd : c = '-' ∧ d = '-' := by simpa using h2
    obtain ⟨rfl, rfl⟩ := hcd
    match r with
    | [] => simp at h3
    | x :: r =>
      unfold classify
      simp only [List.cons_append, ne_eq, not_true_eq_false, if_false] at *
      rw [hnone]
      simp only [reduceCtorEq, if_false]
      rw [if_neg (by simp), hpart]
      simp only [explicitOption, h1, Option.map_some]

theorem classify_value {w : List Char} (h : ValueWord w) : classify w = .value w := by
  match w with
  | [] => rfl
  | c :: r =>
    by_cases hc : c = '-'
    · subst hc
      have hr : r ≠ [] ∧ r.head? ≠ some '-' ∧ r.head? ≠ some 'h' ∧ '=' ∉ r ∧ negativeNumber ('-' :: r) = true := by
        rcases h with h | ⟨a, hne, ha, he⟩ | ⟨a, b, ha, hne, hb, he⟩
        · simp at h
        · obtain rfl : r = a := by simpa using he
          have hd := takeWhile_digits ha (r := []) (by simp)
          rw [List.append_nil] at hd
          refine ⟨hne, ?_, ?_, ?_, ?_⟩
          · intro e
            have := ha _ (List.mem_of_head? e)
            exact absurd this (by decide)
          · intro e
            have := ha _ (List.mem_of_head? e)
            exact absurd this (by decide)
          · intro e
            exact absurd (ha _ e) (by decide)
          · simp [negativeNumber, hd.2, hne]
        · obtain rfl : r = a ++ '.' :: b := by simpa using he
          have hd := takeWhile_digits ha (r := '.' :: b) (by simp)
          have hhead : ∀ x, (a ++ '.' :: b).head? = some x → x.isDigit = true ∨ x = '.' := by
            intro x hx
            match a, ha with
            | [], _ => simp at hx; exact .inr hx.symm
            | y :: a, ha => simp at hx; subst hx; exact .inl (ha _ (by simp))
          refine ⟨by simp, ?_, ?_, ?_, ?_⟩
          · intro e
            rcases hhead _ e with e | e <;> exact absurd e (by decide)
          · intro e
            rcases hhead _ e with e | e <;> exact absurd e (by decide)
          · intro e
            simp only [List.mem_append, List.mem_cons] at e
            rcases e with e | e | e
            · exact absurd (ha _ e) (by decide)
            · exact absurd e (by decide)
            · exact absurd (hb _ e) (by decide)
          · have hall : b.all Char.isDigit = true := List.all_eq_true.2 hb
            simp [negativeNumber, hd.2, hne, hall]
      obtain ⟨r1, r2, r3, r4, r5⟩ := hr
      have hnone : optTable.find? (fun s' => s'.name = '-' :: r) = none := by
        rw [List.find?_eq_none]
        intro t ht e
        simp only [decide_eq_true_eq] at e
        have := (table_minus ht).1
        rw [e] at this
        match r, r1 with
        | x :: r, _ => simp at this; subst this; exact r2 rfl
      unfold classify
      simp only [ne_eq, not_true_eq_false, if_false]
      rw [hnone]
      simp only [r1, if_false]
      have hw : ('-' :: r) ≠ "--".toList := by
        intro e
        have : r = ['-'] := by simpa using e
        rw [this] at r2
        exact r2 rfl
      rw [if_neg hw, partitionEq_none (by simp [r4])]
      simp [explicitOption, r2, r3, r5]
    · simp [classify, hc]

theorem parseInt_iff (w : List Char) (n : ℤ) : parseInt w = some n ↔ IntWord w n := by
  unfold parseInt
  dsimp only
  constructor
  · intro h
    split at h
    · rename_i hs
      obtain ⟨s, h1, h2⟩ := splitSign_sign w
      exact ⟨s, _, _, h1, hs.1, fun c hc => by simpa using List.all_eq_true.1 hs.2 c hc, h2, by
        rw [← Option.some.inj h, digitsValue_eq]⟩
    · simp at h
  · rintro ⟨s, σ, ds, hs, hne, hd, rfl, rfl⟩
    have : splitSign (s ++ ds) = (σ, ds) := splitSign_spec hs fun c hc => digit_not_sign (hd c (List.mem_of_head? hc))
    rw [this, if_pos ⟨hne, List.all_eq_true.2 hd⟩, digitsValue_eq]

theorem option_mapM_iff {α β : Type} (f : α → Option β) (l : List α) (m : List β) :
    l.mapM f = some m ↔ List.Forall₂ (fun a b => f a = some b) l m := by
  induction l generalizing m with
  | nil =>
    rw [List.mapM_nil]
    constructor
    · intro h
      cases h
      exact .nil
    · intro h
      cases h
      rfl
  | cons a l ih =>
    rw [List.mapM_cons]
    cases hf : f a with
    | none =>
      constructor
      · intro h; cases h
      · intro h
        cases h with
        | cons h1 h2 => rw [hf] at h1; cases h1
    | some b =>
      cases hl : l.mapM f with
      | none =>
        constructor
        · intro h; cases h
        · intro h
          cases h with
          | cons h1 h2 =>
            rw [(ih _).2 h2] at hl
            cases hl
      | some bs =>
        constructor
        · intro h
          cases h
          exact .cons hf ((ih _).1 hl)
        · intro h
          cases h with
          | cons h1 h2 =>
            rw [hf] at h1
            cases h1
            rw [(ih _).2 h2] at hl
            cases hl
            rfl

theorem convert_ints {s : OptSpec} (hs : s.isInt = true) {ws : List (List Char)} {l : List ℤ} (h : List.Forall₂ IntWord ws l) :
    convert s ws = some (.ints l) := by
  unfold convert
  rw [if_pos hs, (option_mapM_iff parseInt ws l).2 (h.imp fun a b hab => (parseInt_iff a b).2 hab)]
  rfl

theorem convert_floats {s : OptSpec} (hs : s.isInt = false) {ws : List (List Char)} {l : List ℝ} (h : List.Forall₂ Denotes ws l) :
    convert s ws = some (.floats l) := by
  unfold convert
  rw [if_neg (by simp [hs]), (option_mapM_iff _ ws l).2 (h.imp fun a b hab => by rw [(parseFloat_iff a b).2 hab]; rfl)]
  rfl

theorem forall₂_exists {α β : Type} {R : α → β → Prop} {l : List α} (h : ∀ a ∈ l, ∃ b, R a b) : ∃ m, List.Forall₂ R l m := by
  induction l with
  | nil => exact ⟨[], .nil⟩
  | cons a l ih =>
    obtain ⟨m, hm⟩ := ih fun x hx => h x (List.mem_cons_of_mem _ hx)
    obtain ⟨b, hb⟩ := h a (by simp)
    exact ⟨b :: m, .cons hb hm⟩

/-- The entry of the table for a documented option. -/
def specOf (q : String × Kind) : OptSpec :=
  match q.2 with
  | .nat => ⟨q.1.toList, true, false⟩
  | .float => ⟨q.1.toList, false, false⟩
  | .nats => ⟨q.1.toList, true, true⟩
  | .ints => ⟨q.1.toList, true, true⟩
  | .floats => ⟨q.1.toList, false, true⟩

theorem specOf_mem {q : String × Kind} (hq : q ∈ documentedOptions) : specOf q ∈ optTable := by
  have : optTable = documentedOptions.map specOf := by decide
  rw [this]
  exact List.mem_map_of_mem hq

theorem specOf_name (q : String × Kind) : (specOf q).name = q.1.toList := by
  unfold specOf
  split <;> rfl

theorem table_documented {s : OptSpec} (hs : s ∈ optTable) : ∃ q ∈ documentedOptions, s = specOf q := by
  have : optTable = documentedOptions.map specOf := by decide
  rw [this] at hs
  obtain ⟨q, hq, rfl⟩ := List.mem_map.1 hs
  exact ⟨q, hq, rfl⟩

theorem kindOk_convert {q : String × Kind} {ws : List (List Char)} (h : KindOk q.2 ws) :
    (∃ x, convert (specOf q) ws = some x) ∧ ws ≠ [] ∧ ((specOf q).many = false → ws.length = 1) := by
  obtain ⟨n, k⟩ := q
  cases k with
  | nat =>
    obtain ⟨h1, h2⟩ := h
    obtain ⟨m, hm⟩ := forall₂_exists (R := IntWord) fun w hw => ⟨_, (h2 w hw).choose_spec⟩
    exact ⟨⟨_, convert_ints rfl hm⟩, by rintro rfl; simp at h1, fun _ => h1⟩
  | float =>
    obtain ⟨h1, h2⟩ := h
    obtain ⟨m, hm⟩ := forall₂_exists h2
    exact ⟨⟨_, convert_floats rfl hm⟩, by rintro rfl; simp at h1, fun _ => h1⟩
  | nats =>
    obtain ⟨h1, h2⟩ := h
    obtain ⟨m, hm⟩ := forall₂_exists (R := IntWord) fun w hw => ⟨_, (h2 w hw).choose_spec⟩
    exact ⟨⟨_, convert_ints rfl hm⟩, h1, by simp [specOf]⟩
  | ints =>
    obtain ⟨h1, h2⟩ := h
    obtain ⟨m, hm⟩ := forall₂_exists h2
    exact ⟨⟨_, convert_ints rfl hm⟩, h1, by simp [specOf]⟩
  | floats =>
    obtain ⟨h1, h2⟩ := h
    obtain ⟨m, hm⟩ := forall₂_exists h2
    exact ⟨⟨_, convert_floats rfl hm⟩, h1, by simp [specOf]⟩

/-- The tokens of the options. -/
def optTokens (opts : List GivenOption) : List Token := (opts.flatMap GivenOption.text).map classify

theorem optTokens_cons (g : GivenOption) (opts : List GivenOption) : optTokens (g :: opts) = g.text.map classify ++ optTokens opts := by
  simp [optTokens]

theorem optTokens_head (opts : List GivenOption) (h : ∀ g ∈ opts, g.Ok) : ∀ t, (optTokens opts).head? = some t → t.word? = none := by
  intro t ht
  match opts, h with
  | [], _ => simp [optTokens] at ht
  | g :: opts, h =>
    obtain ⟨⟨q, hq, hn, -⟩, -⟩ := h g (by simp)
    have hs := specOf_mem hq
    rw [← specOf_name] at hn
    rw [optTokens_cons] at ht
    unfold GivenOption.text at ht
    split at ht
    · simp [hn, classify_eq hs] at ht
      subst ht
      rfl
    · simp [hn, classify_name hs] at ht
      subst ht
      rfl

theorem takeWhile_values {ws : List (List Char)} {r : List Token} (hr : ∀ t, r.head? = some t → t.word? = none) :
    (ws.map Token.value ++ r).takeWhile (fun t => t.word?.isSome) = ws.map Token.value ∧
    (ws.map Token.value ++ r).dropWhile (fun t => t.word?.isSome) = r := by
  induction ws with
  | nil =>
    match r with
    | [] => simp
    | t :: r => simp [hr t rfl]
  | cons w ws ih => simpa [Token.word?] using ih

/-- What the options leave behind. -/
theorem parse_options (opts : List GivenOption) (h : ∀ g ∈ opts, g.Ok) (a b : List Char) (ns : Dict (List Char) ArgValue) :
    ∃ ns', parseTokens (optTokens opts) [a, b] ns = some ([a, b], ns') ∧
      ∀ s ∈ optTable, Dict.get? ns' s.name = match given opts s.name with
        | none => Dict.get? ns s.name
        | some ws => convert s ws := by
  induction opts generalizing ns with
  | nil => exact ⟨ns, by simp [optTokens, parseTokens], by simp [given]⟩
  | cons g opts ih =>
    obtain ⟨⟨q, hq, hn, hk⟩, hform⟩ := h g (by simp)
    have hs := specOf_mem hq
    rw [← specOf_name] at hn
    obtain ⟨⟨x, hx⟩, hne, hone⟩ := kindOk_convert hk
    have hopts : ∀ g ∈ opts, g.Ok := fun g hg => h g (List.mem_cons_of_mem _ hg)
    obtain ⟨ns', h1, h2⟩ := ih hopts (Dict.set ns (specOf q).name x)
    refine ⟨ns', ?_, ?_⟩
    · rw [optTokens_cons]
      unfold GivenOption.text
      split
      · rename_i he
        rw [if_pos he] at hform
        obtain ⟨v, hv⟩ := List.length_eq_one_iff.1 hform
        rw [hv] at hx ⊢
        simp only [hn, List.flatten_cons, List.flatten_nil, List.append_nil, List.map_cons, List.map_nil, classify_eq hs,
          List.cons_append, List.nil_append]
        rw [parseTokens, hx]
        exact h1
      · rename_i he
        rw [if_neg he] at hform
        have hvals : g.words.map classify = g.words.map Token.value :=
          List.map_congr_left fun w hw => classify_value (hform w hw)
        simp only [hn, List.map_cons, classify_name hs, hvals, List.cons_append]
        rw [parseTokens]
        have hfm : (g.words.map Token.value).filterMap Token.word? = g.words := by
          rw [List.filterMap_map]
          have : Token.word? ∘ Token.value = some := rfl
          rw [this, List.filterMap_some]
        by_cases hm : (specOf q).many = true
        · obtain ⟨t1, t2⟩ := takeWhile_values (ws := g.words) (optTokens_head opts hopts)
          simp only [hm, if_true, t1, t2, hfm, hne, if_false, hx]
          exact h1
        · obtain ⟨v, hv⟩ := List.length_eq_one_iff.1 (hone (by simpa using hm))
          rw [hv] at hx ⊢
          simp only [hm, List.map_cons, List.map_nil, List.cons_append, List.nil_append]
          simp [Token.word?, hx]
          exact h1
    · intro s hs'
      rw [h2 s hs']
      simp only [given]
      cases hg : given opts s.name with
      | some ws => rfl
      | none =>
        simp only
        by_cases he : g.name = s.name
        · rw [if_pos he]
          have : specOf q = s := table_inj hs hs' (by rw [← hn, he])
          rw [this] at hx ⊢
          simp [hx, Dict.get?_set]
        · rw [if_neg he]
          simp only
          rw [Dict.get?_set]
          rw [if_neg (by rw [← hn]; exact he)]

theorem given_ok {opts : List GivenOption} (h : ∀ g ∈ opts, g.Ok) {n : List Char} {ws : List (List Char)}
    (hg : given opts n = some ws) : ∃ q ∈ documentedOptions, n = q.1.toList ∧ KindOk q.2 ws := by
  induction opts with
  | nil => simp [given] at hg
  | cons g opts ih =>
    simp only [given] at hg
    split at hg
    · rename_i hg'
      cases hg
      exact ih (fun g hg => h g (List.mem_cons_of_mem _ hg)) hg'
    · split at hg
      · rename_i he
        cases hg
        obtain ⟨⟨q, hq, hn, hk⟩, -⟩ := h g (by simp)
        exact ⟨q, hq, by rw [← he, hn], hk⟩
      · cases hg

end Verif
