/-
Helper lemmas: spin-orbit coupling and magnetic field.
-/
import Verif.Lemmas.ShellMeaning

set_option linter.unusedSectionVars false
set_option linter.unusedSimpArgs false

namespace Verif

open Spec Finset

section
variable (xi : ℝ) (l : ℕ)

noncomputable def socDiag : Op Label ℂ :=
  (pyRange (-l) (l + 1)).flatMap fun (m : ℤ) => (pyRange 0 2).map fun (s : ℤ) =>
      (oneProcess (.imp l s m) (.imp l s m),
        ((xi * m * (if s = 1 then 1 / 2 else -1 / 2) : ℝ) : ℂ))

noncomputable def socValue (m : ℤ) : ℂ := ((xi / 2 * Real.sqrt ((l - m) * (l + m + 1)) : ℝ) : ℂ)

noncomputable def socOff : Op Label ℂ :=
  (pyRange (-l) l).flatMap fun (m : ℤ) =>
      [(oneProcess (.imp l 1 m) (.imp l 0 (m + 1)), socValue xi l m),
       (oneProcess (.imp l 0 (m + 1)) (.imp l 1 m), socValue xi l m)]

theorem mem_socDiag (q : Process Label × ℂ) : q ∈ socDiag xi l ↔ ∃ m s : ℤ, (-(l : ℤ) ≤ m ∧ m ≤ l) ∧
    (s = 0 ∨ s = 1) ∧ q = (oneProcess (.imp l s m) (.imp l s m),
        ((xi * m * (if s = 1 then 1 / 2 else -1 / 2) : ℝ) : ℂ)) := by
  simp only [socDiag, List.mem_flatMap, List.mem_map, mem_pyRange]
  constructor
  · rintro ⟨m, hm, s, hs, rfl⟩
    exact ⟨m, s, by omega, by omega, rfl⟩
  · rintro ⟨m, s, hm, hs, rfl⟩
    exact ⟨m, by omega, s, by omega, rfl⟩

theorem mem_socOff (q : Process Label × ℂ) : q ∈ socOff xi l ↔ ∃ m : ℤ, (-(l : ℤ) ≤ m ∧ m < l) ∧
    (q = (oneProcess (.imp l 1 m) (.imp l 0 (m + 1)), socValue xi l m) ∨
     q = (oneProcess (.imp l 0 (m + 1)) (.imp l 1 m), socValue xi l m)) := by
  simp only [socOff, List.mem_flatMap, mem_pyRange, List.mem_cons, List.not_mem_nil, or_false]

theorem nodup_socDiag : Dict.NodupKeys (socDiag xi l) := by
  unfold socDiag
  refine nodupKeys_flatMap _ (nodup_pyRange _ _) _ (mAt 0) ?_ fun m _ => ?_
  · intro m _ q hq
    obtain ⟨s, _, rfl⟩ := List.mem_map.1 hq
    rfl
  · unfold Dict.NodupKeys Dict.keys
    rw [List.map_map]
    refine (nodup_pyRange _ _).map ?_
    intro s s' h
    simp only [Function.comp, oneProcess_inj, Label.imp.injEq] at h
    exact h.1.2.1

theorem nodup_socOff : Dict.NodupKeys (socOff xi l) := by
  unfold socOff
  refine nodupKeys_flatMap _ (nodup_pyRange _ _) _
    (fun p => if sAt 0 p = 1 then mAt 0 p else mAt 1 p) ?_ fun m _ => ?_
  · intro m _ q hq
    simp only [List.mem_cons, List.not_mem_nil, or_false] at hq
    rcases hq with rfl | rfl <;> simp [sAt, mAt, oneProcess]
  · simp [Dict.NodupKeys, Dict.keys, oneProcess_inj]

theorem nodup_soc : Dict.NodupKeys (socDiag xi l ++ socOff xi l) := by
  unfold Dict.NodupKeys
  rw [Dict.keys_append, List.nodup_append]
  refine ⟨nodup_socDiag xi l, nodup_socOff xi l, ?_⟩
  intro a ha b hb hab
  obtain ⟨q, hq, rfl⟩ := List.mem_map.1 ha
  obtain ⟨q', hq', rfl⟩ := List.mem_map.1 hb
  obtain ⟨m, s, _, _, rfl⟩ := (mem_socDiag _ _ _).1 hq
  obtain ⟨m', _, h⟩ := (mem_socOff _ _ _).1 hq'
  rcases h with rfl | rfl <;>
  · simp only [oneProcess_inj, Label.imp.injEq] at hab
    omega

theorem getSOCop_eq : getSOCop xi l = socDiag xi l ++ socOff xi l := by
  change Dict.update (Dict.update [] (socDiag xi l)) (socOff xi l) = _
  rw [Dict.update_nil_of_nodup _ (nodup_socDiag xi l)]
  exact Dict.update_of_nodup _ _ (nodup_soc xi l)

theorem mem_getSOCop (q : Process Label × ℂ) : q ∈ getSOCop xi l ↔
    (∃ m s : ℤ, (-(l : ℤ) ≤ m ∧ m ≤ l) ∧
      (s = 0 ∨ s = 1) ∧ q = (oneProcess (.imp l s m) (.imp l s m),
        ((xi * m * (if s = 1 then 1 / 2 else -1 / 2) : ℝ) : ℂ))) ∨
    ∃ m : ℤ, (-(l : ℤ) ≤ m ∧ m < l) ∧
    (q = (oneProcess (.imp l 1 m) (.imp l 0 (m + 1)), socValue xi l m) ∨
     q = (oneProcess (.imp l 0 (m + 1)) (.imp l 1 m), socValue xi l m)) := by
  rw [getSOCop_eq, List.mem_append, mem_socDiag, mem_socOff]

theorem nodup_getSOCop : Dict.NodupKeys (getSOCop xi l) := by
  rw [getSOCop_eq]; exact nodup_soc xi l

theorem soc_none {x y : ℤ × ℤ} 
    (h1 : x ≠ y) (h2 : ¬ (x.1 = 1 ∧ y.1 = 0 ∧ y.2 = x.2 + 1)) (h3 : ¬ (x.1 = 0 ∧ y.1 = 1 ∧ x.2 = y.2 + 1)) :
    Dict.get? (getSOCop xi l) (oneProcess (.imp l x.1 x.2) (.imp l y.1 y.2)) = none := by
  by_contra hne
  obtain ⟨w, hw⟩ := Option.ne_none_iff_exists'.1 hne
  rcases (mem_getSOCop _ _ _).1 (Dict.mem_of_get? hw) with ⟨m, s, _, _, e⟩ | ⟨m, _, e | e⟩ <;>
  · simp only [Prod.mk.injEq, oneProcess_inj, Label.imp.injEq] at e
    obtain ⟨⟨⟨_, a, b⟩, ⟨_, c, d⟩⟩, _⟩ := e
    have h1' : ¬ (x.1 = y.1 ∧ x.2 = y.2) := fun h => h1 (Prod.ext h.1 h.2)
    omega

theorem isMatrix_soc : IsMatrix l (getSOCop xi l) (fun x y => (xi : ℂ) * lDotS l x y) := by
  refine ⟨nodup_getSOCop xi l, ?_, ?_⟩
  · intro k hk
    obtain ⟨q, hq, rfl⟩ := List.mem_map.1 hk
    rcases (mem_getSOCop _ _ _).1 hq with ⟨m, s, hm, hs, rfl⟩ | ⟨m, hm, rfl | rfl⟩
    · exact ⟨(s, m), (mem_shell _).2 ⟨hs, hm⟩, (s, m), (mem_shell _).2 ⟨hs, hm⟩, rfl⟩
    · exact ⟨(1, m), (mem_shell _).2 ⟨by simp, by dsimp; omega⟩,
        (0, m + 1), (mem_shell _).2 ⟨by simp, by dsimp; omega⟩, rfl⟩
    · exact ⟨(0, m + 1), (mem_shell _).2 ⟨by simp, by dsimp; omega⟩,
        (1, m), (mem_shell _).2 ⟨by simp, by dsimp; omega⟩, rfl⟩
  · rintro ⟨s, m⟩ hx ⟨s', m'⟩ hy
    have hx' := (mem_shell _).1 hx
    have hy' := (mem_shell _).1 hy
    dsimp only at hx' hy' ⊢
    by_cases h1 : (s, m) = (s', m')
    · rw [Prod.mk.injEq] at h1
      obtain ⟨rfl, rfl⟩ := h1
      rw [Dict.get?_of_mem (nodup_getSOCop xi l) ((mem_getSOCop _ _ _).2
        (Or.inl ⟨m, s, hx'.2, hx'.1, rfl⟩))]
      simp only [Option.getD_some, lDotS, lZ, sZ, lPlus, lMinus]
      rw [if_neg (by omega : ¬ m = m + 1), if_neg (by omega : ¬ m = m - 1)]
      rcases hx'.1 with rfl | rfl <;> simp <;> ring
    by_cases h2 : s = 1 ∧ s' = 0 ∧ m' = m + 1
    · obtain ⟨rfl, rfl, rfl⟩ := h2
      rw [Dict.get?_of_mem (nodup_getSOCop xi l) ((mem_getSOCop _ _ _).2
        (Or.inr ⟨m, by omega, Or.inl rfl⟩))]
      simp only [Option.getD_some, lDotS, lZ, sZ, lPlus, lMinus, sPlus, sMinus, socValue]
      rw [if_neg (by omega : ¬ m = m + 1), if_pos (by omega : m = m + 1 - 1)]
      simp
      have : ((l : ℝ) + (m + 1)) * (l - (m + 1) + 1) = (l - m) * (l + m + 1) := by ring
      rw [this]
      ring
    by_cases h3 : s = 0 ∧ s' = 1 ∧ m = m' + 1
    · obtain ⟨rfl, rfl, rfl⟩ := h3
      rw [Dict.get?_of_mem (nodup_getSOCop xi l) ((mem_getSOCop _ _ _).2
        (Or.inr ⟨m', by omega, Or.inr rfl⟩))]
      simp only [Option.getD_some, lDotS, lZ, sZ, lPlus, lMinus, sPlus, sMinus, socValue]
      rw [if_neg (by omega : ¬ m' + 1 = m')]
      simp
      ring
    · rw [soc_none xi l h1 h2 h3]
      simp only [Option.getD_none, lDotS, lZ, sZ, lPlus, lMinus, sPlus, sMinus]
      have e1 : (if m = m' then (m' : ℂ) else 0) * (if s = s' then if s' = 1 then 1 / 2 else -1 / 2 else 0) = 0 := by
        by_cases hm : m = m'
        · rw [if_neg (show ¬ s = s' from fun hs => h1 (by rw [hm, hs]))]; simp
        · rw [if_neg hm]; simp
      have e2 : (if m = m' + 1 then ((Real.sqrt ((l - m') * (l + m' + 1)) : ℝ) : ℂ) else 0) *
          (if s = 0 ∧ s' = 1 then (1 : ℂ) else 0) = 0 := by
        by_cases hm : m = m' + 1
        · rw [if_neg (show ¬ (s = 0 ∧ s' = 1) from fun hs => h3 ⟨hs.1, hs.2, hm⟩)]; simp
        · rw [if_neg hm]; simp
      have e3 : (if m = m' - 1 then ((Real.sqrt ((l + m') * (l - m' + 1)) : ℝ) : ℂ) else 0) *
          (if s = 1 ∧ s' = 0 then (1 : ℂ) else 0) = 0 := by
        by_cases hm : m = m' - 1
        · rw [if_neg (show ¬ (s = 1 ∧ s' = 0) from fun hs => h2 ⟨hs.1, hs.2, by omega⟩)]; simp
        · rw [if_neg hm]; simp
      rw [e1, e2, e3]
      simp

theorem lZ_star (m m' : ℤ) : star (lZ m m') = lZ m' m := by
  unfold lZ
  by_cases h : m = m'
  · subst h; simp
  · rw [if_neg h, if_neg (Ne.symm h)]; simp

theorem sZ_star (s s' : ℤ) : star (sZ s s') = sZ s' s := by
  unfold sZ
  by_cases h : s = s'
  · subst h
    rw [if_pos rfl]
    split <;> simp [Complex.ext_iff]
  · rw [if_neg h, if_neg (Ne.symm h)]; simp

theorem sPlus_star (s s' : ℤ) : star (sPlus s s') = sMinus s' s := by
  unfold sPlus sMinus
  by_cases h : s = 1 ∧ s' = 0
  · rw [if_pos h, if_pos ⟨h.2, h.1⟩]; simp
  · rw [if_neg h, if_neg (fun hc => h ⟨hc.2, hc.1⟩)]; simp

theorem sMinus_star (s s' : ℤ) : star (sMinus s s') = sPlus s' s := by
  rw [← sPlus_star, star_star]

theorem lPlus_star (m m' : ℤ) : star (lPlus l m m') = lMinus l m' m := by
  unfold lPlus lMinus
  by_cases h : m = m' + 1
  · rw [if_pos h, if_pos (eq_sub_iff_add_eq.2 h.symm), h]
    have : ((l : ℝ) + ((m' + 1 : ℤ) : ℝ)) * (l - ((m' + 1 : ℤ) : ℝ) + 1) = (l - m') * (l + m' + 1) := by
      push_cast; ring
    rw [this]
    exact Complex.conj_ofReal _
  · rw [if_neg h, if_neg (fun hc => h (by rw [hc]; ring))]; simp

theorem lMinus_star (m m' : ℤ) : star (lMinus l m m') = lPlus l m' m := by
  rw [← lPlus_star, star_star]

theorem lDotS_star (x y : ℤ × ℤ) : star (lDotS l x y) = lDotS l y x := by
  unfold lDotS
  rw [star_add, star_mul', lZ_star, sZ_star, star_div₀, star_add, star_mul', star_mul', lPlus_star,
    lMinus_star, sPlus_star, sMinus_star]
  have : star (2 : ℂ) = 2 := by simp [Complex.ext_iff]
  rw [this]
  ring

theorem getSOCop_hermitian : Dict.Eqv (daggerOp (getSOCop xi l)) (getSOCop xi l) := by
  apply (isMatrix_soc xi l).hermitian
  · intro x _ y _
    rw [star_mul', lDotS_star]
    simp
  · intro x _ y _ hk
    obtain ⟨q, hq, e⟩ := List.mem_map.1 hk
    rcases (mem_getSOCop _ _ _).1 hq with ⟨m, s, hm, hs, rfl⟩ | ⟨m, hm, rfl | rfl⟩
    · rw [oneProcess_inj] at e
      rw [← e.1, ← e.2]
      exact List.mem_map.2 ⟨_, hq, rfl⟩
    · rw [oneProcess_inj] at e
      rw [← e.1, ← e.2]
      exact List.mem_map.2 ⟨_, (mem_getSOCop _ _ _).2 (Or.inr ⟨m, hm, Or.inr rfl⟩), rfl⟩
    · rw [oneProcess_inj] at e
      rw [← e.1, ← e.2]
      exact List.mem_map.2 ⟨_, (mem_getSOCop _ _ _).2 (Or.inr ⟨m, hm, Or.inl rfl⟩), rfl⟩

end

/-! ### Magnetic field -/

section
variable (hx hy hz : ℝ) (l : ℕ)

/-- The entries written in the round for `m`. -/
noncomputable def hVal (m : ℤ) (k : Process Label) : Option ℂ :=
  if k = oneProcess (.imp l 1 m) (.imp l 0 m) then some ((hx / 2 : ℝ) + -hy * Complex.I / 2)
  else if k = oneProcess (.imp l 0 m) (.imp l 1 m) then some ((hx / 2 : ℝ) + hy * Complex.I / 2)
  else if k = oneProcess (.imp l 1 m) (.imp l 1 m) then some ((hz / 2 : ℝ) : ℂ)
  else if k = oneProcess (.imp l 0 m) (.imp l 0 m) then some ((-hz / 2 : ℝ) : ℂ)
  else none

theorem get?_hfieldStep (op : Op Label ℂ) (m : ℤ) (k : Process Label) :
    Dict.get? (hfieldStep hx hy hz l op m) k = (hVal hx hy hz l m k).or (Dict.get? op k) := by
  have hr : pyRange 0 2 = [0, 1] := by decide
  unfold hfieldStep hVal
  rw [hr]
  simp only [List.foldl_cons, List.foldl_nil, Dict.get?_set, get?_addAt]
  have n1 : oneProcess (.imp l 1 m) (.imp l 0 m) ≠ oneProcess (.imp l 0 m) (.imp l 1 m) := by
    simp [oneProcess_inj]
  have n2 : oneProcess (.imp l 1 m) (.imp l 0 m) ≠ oneProcess (.imp l 0 m) (.imp l 0 m) := by
    simp [oneProcess_inj]
  have n3 : oneProcess (.imp l 1 m) (.imp l 0 m) ≠ oneProcess (.imp l 1 m) (.imp l 1 m) := by
    simp [oneProcess_inj]
  have n4 : oneProcess (.imp l 0 m) (.imp l 1 m) ≠ oneProcess (.imp l 0 m) (.imp l 0 m) := by
    simp [oneProcess_inj]
  have n5 : oneProcess (.imp l 0 m) (.imp l 1 m) ≠ oneProcess (.imp l 1 m) (.imp l 1 m) := by
    simp [oneProcess_inj]
  have n6 : oneProcess (.imp l 1 m) (.imp l 1 m) ≠ oneProcess (.imp l 0 m) (.imp l 0 m) := by
    simp [oneProcess_inj]
  by_cases c1 : k = oneProcess (.imp l 1 m) (.imp l 0 m)
  · subst c1; simp [n1, n2, n3, n4, n5, n6, n1.symm, n2.symm, n3.symm]
  by_cases c2 : k = oneProcess (.imp l 0 m) (.imp l 1 m)
  · subst c2; simp [n1, n2, n3, n4, n5, n6, n1.symm, n4.symm, n5.symm]
  by_cases c3 : k = oneProcess (.imp l 1 m) (.imp l 1 m)
  · subst c3; simp [n1, n2, n3, n4, n5, n6, n3.symm, n5.symm]
  by_cases c4 : k = oneProcess (.imp l 0 m) (.imp l 0 m)
  · subst c4; simp [n1, n2, n3, n4, n5, n6, n2.symm, n4.symm, n6.symm]
  simp [c1, c2, c3, c4, Ne.symm c1, Ne.symm c2, Ne.symm c3, Ne.symm c4]

theorem nodup_hfieldStep (op : Op Label ℂ) (h : Dict.NodupKeys op) (m : ℤ) :
    Dict.NodupKeys (hfieldStep hx hy hz l op m) := by
  have hr : pyRange 0 2 = [0, 1] := by decide
  unfold hfieldStep
  rw [hr]
  exact Dict.nodupKeys_set (Dict.nodupKeys_set (nodupKeys_addAt (nodupKeys_addAt
    (Dict.nodupKeys_set (Dict.nodupKeys_set h _ _) _ _) _ _) _ _) _ _) _ _

theorem nodup_gethHfieldop : Dict.NodupKeys (gethHfieldop hx hy hz l) := by
  unfold gethHfieldop
  generalize pyRange (-l) (l + 1) = L
  have : ∀ (L : List ℤ) (op : Op Label ℂ), Dict.NodupKeys op →
      Dict.NodupKeys (L.foldl (hfieldStep hx hy hz l) op) := by
    intro L
    induction L with
    | nil => exact fun _ h => h
    | cons m L ih => exact fun op h => ih _ (nodup_hfieldStep hx hy hz l op h m)
  exact this L [] Dict.nodupKeys_nil

/-- Matrix of the field operator where it is not zero by construction. -/
noncomputable def fieldEntry (s s' : ℤ) : ℂ :=
  if s = 1 ∧ s' = 0 then (hx / 2 : ℝ) + -hy * Complex.I / 2
  else if s = 0 ∧ s' = 1 then (hx / 2 : ℝ) + hy * Complex.I / 2
  else if s = 1 then ((hz / 2 : ℝ) : ℂ)
  else ((-hz / 2 : ℝ) : ℂ)

theorem hVal_one (m : ℤ) (x y : ℤ × ℤ) (hx' : x.1 = 0 ∨ x.1 = 1) (hy' : y.1 = 0 ∨ y.1 = 1) :
    hVal hx hy hz l m (oneProcess (.imp l x.1 x.2) (.imp l y.1 y.2))
      = if x.2 = m ∧ y.2 = m then some (fieldEntry hx hy hz x.1 y.1) else none := by
  unfold hVal fieldEntry
  simp only [oneProcess_inj, Label.imp.injEq, true_and]
  by_cases hm : x.2 = m ∧ y.2 = m
  · obtain ⟨h1, h2⟩ := hm
    rcases hx' with a | a <;> rcases hy' with b | b <;> simp [a, b, h1, h2]
  · rw [if_neg hm]
    have : ∀ s s', ¬ ((x.1 = s ∧ x.2 = m) ∧ y.1 = s' ∧ y.2 = m) := fun s s' h => hm ⟨h.1.2, h.2.2⟩
    simp [this]

theorem get?_gethHfieldop (x y : ℤ × ℤ) (hxs : x ∈ shell l) (hys : y ∈ shell l) :
    Dict.get? (gethHfieldop hx hy hz l) (oneProcess (.imp l x.1 x.2) (.imp l y.1 y.2))
      = if x.2 = y.2 then some (fieldEntry hx hy hz x.1 y.1) else none := by
  have hx' := (mem_shell _).1 hxs
  have hy' := (mem_shell _).1 hys
  have : ∀ (L : List ℤ) (op : Op Label ℂ),
      Dict.get? (L.foldl (hfieldStep hx hy hz l) op) (oneProcess (.imp l x.1 x.2) (.imp l y.1 y.2))
        = if x.2 = y.2 ∧ x.2 ∈ L then some (fieldEntry hx hy hz x.1 y.1)
          else Dict.get? op (oneProcess (.imp l x.1 x.2) (.imp l y.1 y.2)) := by
    intro L
    induction L with
    | nil => intro op; simp
    | cons m L ih =>
      intro op
      rw [List.foldl_cons, ih, get?_hfieldStep, hVal_one _ _ _ _ _ _ _ hx'.1 hy'.1]
      by_cases hxy : x.2 = y.2
      · by_cases hL : x.2 ∈ L
        · simp [hxy, hxy ▸ hL]
        · by_cases hm : x.2 = m
          · simp [← hm, hxy]
          · rw [if_neg (by tauto), if_neg (by tauto), if_neg (by simp [hL, hm])]
            rfl
      · rw [if_neg (by tauto), if_neg (by omega), if_neg (by tauto)]
        rfl
  rw [gethHfieldop, this]
  have hm : x.2 ∈ pyRange (-(l : ℤ)) (l + 1) := by rw [mem_pyRange]; omega
  simp [hm]

theorem keys_gethHfieldop (k : Process Label) (hk : k ∈ Dict.keys (gethHfieldop hx hy hz l)) :
    ∃ x ∈ shell l, ∃ y ∈ shell l, k = oneProcess (.imp l x.1 x.2) (.imp l y.1 y.2) := by
  have : ∀ (L : List ℤ) (op : Op Label ℂ),
      k ∈ Dict.keys (L.foldl (hfieldStep hx hy hz l) op) → k ∈ Dict.keys op ∨ ∃ m ∈ L, (hVal hx hy hz l m k).isSome := by
    intro L
    induction L with
    | nil => exact fun _ h => Or.inl h
    | cons m L ih =>
      intro op h
      rcases ih _ h with h | ⟨m', hm', h⟩
      · rw [Dict.mem_keys_iff, get?_hfieldStep, Option.isSome_or, Bool.or_eq_true] at h
        rcases h with h | h
        · exact Or.inr ⟨m, by simp, h⟩
        · exact Or.inl ((Dict.mem_keys_iff _ _).2 h)
      · exact Or.inr ⟨m', by simp [hm'], h⟩
  rcases this _ _ hk with h | ⟨m, hm, h⟩
  · simp at h
  · rw [mem_pyRange] at hm
    have hs : ∀ s : ℤ, s = 0 ∨ s = 1 → (s, m) ∈ shell l := fun s hs => (mem_shell _).2 ⟨hs, by dsimp; omega⟩
    unfold hVal at h
    split at h
    next e => exact ⟨(1, m), hs 1 (by simp), (0, m), hs 0 (by simp), e⟩
    split at h
    next e => exact ⟨(0, m), hs 0 (by simp), (1, m), hs 1 (by simp), e⟩
    split at h
    next e => exact ⟨(1, m), hs 1 (by simp), (1, m), hs 1 (by simp), e⟩
    split at h
    next e => exact ⟨(0, m), hs 0 (by simp), (0, m), hs 0 (by simp), e⟩
    simp at h

theorem isMatrix_field : IsMatrix l (gethHfieldop hx hy hz l) (hDotS hx hy hz) := by
  refine ⟨nodup_gethHfieldop hx hy hz l, keys_gethHfieldop hx hy hz l, ?_⟩
  intro x hxs y hys
  rw [get?_gethHfieldop hx hy hz l x y hxs hys]
  have hx' := (mem_shell _).1 hxs
  have hy' := (mem_shell _).1 hys
  unfold hDotS delta fieldEntry sX sY sZ sPlus sMinus
  have hI : (1 : ℂ) / (2 * Complex.I) = -Complex.I / 2 := by
    field_simp
    simp
  by_cases hm : x.2 = y.2
  · rw [if_pos hm, if_pos hm, Option.getD_some]
    rcases hx'.1 with a | a <;> rcases hy'.1 with b | b <;> simp [a, b]
    all_goals first | ring1 | (simp only [div_eq_mul_inv, mul_inv, Complex.inv_I]; ring1)
  · rw [if_neg hm, if_neg hm]; simp

theorem gethHfieldop_hermitian : Dict.Eqv (daggerOp (gethHfieldop hx hy hz l)) (gethHfieldop hx hy hz l) := by
  apply (isMatrix_field hx hy hz l).hermitian
  · intro x _ y _
    unfold hDotS sX sY
    have h2 : star (2 : ℂ) = 2 := by simp [Complex.ext_iff]
    have hI : star Complex.I = - Complex.I := Complex.conj_I
    have hr : ∀ a : ℝ, star (a : ℂ) = (a : ℂ) := Complex.conj_ofReal
    have hd : star (delta x.2 y.2) = delta y.2 x.2 := by
      unfold delta
      by_cases h : x.2 = y.2
      · rw [if_pos h, if_pos h.symm]; simp
      · rw [if_neg h, if_neg (Ne.symm h)]; simp
    simp only [star_mul', star_add, star_sub, star_div₀, sPlus_star, sMinus_star, sZ_star, hr, h2, hI, hd]
    field_simp
    ring
  · intro x hxs y hys hk
    rw [Dict.mem_keys_iff, get?_gethHfieldop hx hy hz l x y hxs hys] at hk
    rw [Dict.mem_keys_iff, get?_gethHfieldop hx hy hz l y x hys hxs]
    by_cases h : x.2 = y.2
    · rw [if_pos h.symm]; rfl
    · rw [if_neg h] at hk; simp at hk

end

end Verif
