/-
Helper lemmas: what the operators of a shell mean in Fock space.
-/
import Verif.Lemmas.ShellOps

set_option linter.unusedSectionVars false
set_option linter.unusedSimpArgs false

namespace Verif

open Spec Finset

section
variable {R : Type} [CommRing R]

theorem create_self (i : ℕ) (v : Vec R) : create i (create i v) = 0 := by
  funext S
  simp [create]

theorem annihilate_self (i : ℕ) (v : Vec R) : annihilate i (annihilate i v) = 0 := by
  funext S
  simp [annihilate]

theorem create_zero (i : ℕ) : create i (0 : Vec R) = 0 := by funext S; simp [create]

theorem annihilate_zero (i : ℕ) : annihilate i (0 : Vec R) = 0 := by funext S; simp [annihilate]

theorem operator_labelSpec (f : Label → ℕ) (op : Op Label R) (v : Vec R) (S : Finset ℕ) :
    operator (labelSpec f op) v S
      = (op.map fun q => q.2 * product (q.1.map fun x => (f x.1, (x.2 = .c : Bool))) v S).sum := by
  simp [operator, labelSpec, List.map_map, Function.comp_def]

end

/-! ### Sums over `addOps` -/

section
variable {ι R : Type} [DecidableEq ι] [CommRing R] (F : Process ι → R)

theorem sum_addAt (o : Op ι R) (p : Process ι) (x : R) :
    ((Dict.addAt o p x).map fun q => q.2 * F q.1).sum = (o.map fun q => q.2 * F q.1).sum + x * F p := by
  unfold Dict.addAt
  induction o with
  | nil => simp [Dict.set]
  | cons q o ih =>
    obtain ⟨k, v⟩ := q
    rw [Dict.get?_cons]
    by_cases h : k = p
    · subst h
      simp only [if_true, Dict.set, List.map_cons, List.sum_cons]
      ring
    · rw [if_neg h]
      cases hg : Dict.get? o p <;>
      · rw [hg] at ih
        simp only at ih ⊢
        simp only [Dict.set, if_neg h, List.map_cons, List.sum_cons]
        rw [ih]; ring

theorem sum_addOps [DecidableEq R] (ops : List (Op ι R)) :
    ((addOps ops).map fun q => q.2 * F q.1).sum
      = (ops.map fun (op : Op ι R) => (op.map fun q => q.2 * F q.1).sum).sum := by
  have inner : ∀ (op o : Op ι R),
      ((op.foldl (fun opSum q => if q.2 ≠ 0 then Dict.addAt opSum q.1 q.2 else opSum) o).map
        fun q => q.2 * F q.1).sum = (o.map fun q => q.2 * F q.1).sum + (op.map fun q => q.2 * F q.1).sum := by
    intro op
    induction op with
    | nil => intro o; simp
    | cons q op ih =>
      intro o
      rw [List.foldl_cons, ih]
      by_cases h : q.2 = 0
      · rw [if_neg (not_not.2 h)]
        simp [h]
      · rw [if_pos h, sum_addAt]
        simp only [List.map_cons, List.sum_cons]
        ring
  unfold addOps
  have : ∀ o : Op ι R, ((ops.foldl (fun opSum op =>
    op.foldl (fun opSum q => if q.2 ≠ 0 then Dict.addAt opSum q.1 q.2 else opSum) opSum) o).map
        fun q => q.2 * F q.1).sum
      = (o.map fun q => q.2 * F q.1).sum + (ops.map fun (op : Op ι R) => (op.map fun q => q.2 * F q.1).sum).sum := by
    induction ops with
    | nil => intro o; simp
    | cons op ops ih =>
      intro o
      rw [List.foldl_cons, ih, inner]
      simp [add_assoc]
  rw [this]
  simp

end

theorem operator_labelSpec_addOps {R : Type} [CommRing R] [DecidableEq R] (f : Label → ℕ)
    (ops : List (Op Label R)) (v : Vec R) (S : Finset ℕ) :
    operator (labelSpec f (addOps ops)) v S = (ops.map fun op => operator (labelSpec f op) v S).sum := by
  rw [operator_labelSpec]
  refine (sum_addOps (fun p => product (p.map fun x => (f x.1, (x.2 = .c : Bool))) v S) ops).trans ?_
  simp only [operator_labelSpec]

section
variable (gaunt : GauntFun) (l1 l2 l3 l4 : ℕ) (R : List ℝ)

theorem uProcess_inj {m1 m2 m3 m4 s sp m1' m2' m3' m4' s' sp' : ℤ}
    (h : uProcess l1 l2 l3 l4 m1 m2 m3 m4 s sp = uProcess l1 l2 l3 l4 m1' m2' m3' m4' s' sp') :
    m1 = m1' ∧ m2 = m2' ∧ m3 = m3' ∧ m4 = m4' ∧ s = s' ∧ sp = sp' := by
  simp only [uProcess, List.cons.injEq, Prod.mk.injEq, Label.imp.injEq] at h
  tauto

theorem getUop_twoBody (f : Label → ℕ) (v : Vec ℂ) :
    operator (labelSpec f (getUop gaunt l1 l2 l3 l4 R)) v = twoBody f l1 l2 l3 l4
      (fun m1 m2 m3 m4 => getU gaunt l1 m1 l2 m2 l3 m3 l4 m4 R) v := by
  funext S
  rw [operator_labelSpec]
  rw [sum_dict_eq _ (nodup_getUop gaunt l1 l2 l3 l4 R)
    (fun p => product (p.map fun x => (f x.1, (x.2 = .c : Bool))) v S)
    (mRange l1 ×ˢ mRange l2 ×ˢ mRange l3 ×ˢ mRange l4 ×ˢ ({0, 1} : Finset ℤ) ×ˢ ({0, 1} : Finset ℤ))
    (fun a => uProcess l1 l2 l3 l4 a.1 a.2.1 a.2.2.1 a.2.2.2.1 a.2.2.2.2.1 a.2.2.2.2.2) ?_ ?_
    (fun a => (1 / 2 : ℂ) * ((getU gaunt l1 a.1 l2 a.2.1 l3 a.2.2.1 l4 a.2.2.2.1 R : ℂ) *
      create (f (.imp l1 a.2.2.2.2.1 a.1)) (create (f (.imp l2 a.2.2.2.2.2 a.2.1))
        (annihilate (f (.imp l3 a.2.2.2.2.2 a.2.2.1)) (annihilate (f (.imp l4 a.2.2.2.2.1 a.2.2.2.1)) v))) S)) ?_]
  · simp only [twoBody, sum_product, mul_sum]
  · rintro ⟨m1, m2, m3, m4, s, sp⟩ _ ⟨m1', m2', m3', m4', s', sp'⟩ _ h
    obtain ⟨rfl, rfl, rfl, rfl, rfl, rfl⟩ := uProcess_inj l1 l2 l3 l4 h
    rfl
  · intro k hk
    obtain ⟨q, hq, rfl⟩ := List.mem_map.1 hk
    obtain ⟨m1, m2, m3, m4, s, sp, h1, h2, h3, h4, hs, hsp, hu, hp, e⟩ := (mem_getUop _ _ _ _ _ _ _).1 hq
    refine ⟨(m1, m2, m3, m4, s, sp), ?_, by rw [e]⟩
    simp only [mem_product, mRange, mem_Icc, mem_insert, mem_singleton]
    exact ⟨h1, h2, h3, h4, by omega, by omega⟩
  · rintro ⟨m1, m2, m3, m4, s, sp⟩ ha
    simp only [mem_product, mRange, mem_Icc, mem_insert, mem_singleton] at ha
    obtain ⟨h1, h2, h3, h4, hs, hsp⟩ := ha
    dsimp only
    have hprod : product ((uProcess l1 l2 l3 l4 m1 m2 m3 m4 s sp).map fun x => (f x.1, (x.2 = .c : Bool))) v S
        = create (f (.imp l1 s m1)) (create (f (.imp l2 sp m2))
          (annihilate (f (.imp l3 sp m3)) (annihilate (f (.imp l4 s m4)) v))) S := by
      simp [uProcess, product, ladder]
    rw [hprod]
    by_cases hu : getU gaunt l1 m1 l2 m2 l3 m3 l4 m4 R = 0
    · have : Dict.get? (getUop gaunt l1 l2 l3 l4 R) (uProcess l1 l2 l3 l4 m1 m2 m3 m4 s sp) = none := by
        by_contra hne
        obtain ⟨w, hw⟩ := Option.ne_none_iff_exists'.1 hne
        obtain ⟨m1', m2', m3', m4', s', sp', _, _, _, _, _, _, hu', _, e⟩ :=
          (mem_getUop _ _ _ _ _ _ _).1 (Dict.mem_of_get? hw)
        rw [Prod.mk.injEq] at e
        obtain ⟨rfl, rfl, rfl, rfl, rfl, rfl⟩ := uProcess_inj l1 l2 l3 l4 e.1
        exact hu' hu
      rw [this, hu]
      simp
    · by_cases hp : s = sp ∧ ((l1, m1) = (l2, m2) ∨ (l3, m3) = (l4, m4))
      · have : create (f (.imp l1 s m1)) (create (f (.imp l2 sp m2))
          (annihilate (f (.imp l3 sp m3)) (annihilate (f (.imp l4 s m4)) v))) = 0 := by
          obtain ⟨rfl, hc⟩ := hp
          simp only [Prod.mk.injEq] at hc
          rcases hc with ⟨rfl, rfl⟩ | ⟨rfl, rfl⟩
          · exact create_self _ _
          · rw [annihilate_self, create_zero, create_zero]
        rw [this]
        simp
      · have : Dict.get? (getUop gaunt l1 l2 l3 l4 R) (uProcess l1 l2 l3 l4 m1 m2 m3 m4 s sp)
            = some ((getU gaunt l1 m1 l2 m2 l3 m3 l4 m4 R / 2 : ℝ) : ℂ) := by
          apply Dict.get?_of_mem (nodup_getUop gaunt l1 l2 l3 l4 R)
          rw [mem_getUop]
          exact ⟨m1, m2, m3, m4, s, sp, h1, h2, h3, h4, by omega, by omega, hu, hp, rfl⟩
        rw [this]
        simp only [Option.getD_some]
        push_cast
        ring

theorem mem_addOps {ι : Type} [DecidableEq ι] (ops : List (Op ι ℂ)) (h : ∀ op ∈ ops, Dict.NodupKeys op)
    (q : Process ι × ℂ) (hq : q ∈ addOps ops) : ∃ op ∈ ops, ∃ v, (q.1, v) ∈ op := by
  have hk : q.1 ∈ Dict.keys (addOps ops) := List.mem_map.2 ⟨q, hq, rfl⟩
  obtain ⟨op, hop, hne⟩ := (addOps_get? ops h q.1).2.1 hk
  cases hg : Dict.get? op q.1 with
  | none => rw [hg] at hne; simp at hne
  | some v => exact ⟨op, hop, v, Dict.mem_of_get? hg⟩

/-- Every process of the 2p-3d operator belongs to one of its six parts. -/
theorem mem_get2p3d (Fdd Fpp Fpd Gpd : List ℝ) (q : Process Label × ℂ)
    (hq : q ∈ get2p3dSlaterCondonUop gaunt Fdd Fpp Fpd Gpd) :
    ∃ l1 l2 l3 l4 R v, (q.1, v) ∈ getUop gaunt l1 l2 l3 l4 R ∧
      (l1 = 1 ∨ l1 = 2) ∧ (l2 = 1 ∨ l2 = 2) ∧ (l3 = 1 ∨ l3 = 2) ∧ (l4 = 1 ∨ l4 = 2) := by
  unfold get2p3dSlaterCondonUop at hq
  obtain ⟨op, hop, v, hv⟩ := mem_addOps _ (by
    simp only [List.mem_cons, List.not_mem_nil, or_false]
    rintro op (rfl | rfl | rfl | rfl) <;> first | exact nodup_getUop _ _ _ _ _ _ | exact nodupKeys_addOps _) q hq
  simp only [List.mem_cons, List.not_mem_nil, or_false] at hop
  have hn : ∀ a b c d R, ∀ a' b' c' d' R', ∀ op ∈ [getUop gaunt a b c d R, getUop gaunt a' b' c' d' R'], Dict.NodupKeys op := by
    intro a b c d R a' b' c' d' R' op ho
    simp only [List.mem_cons, List.not_mem_nil, or_false] at ho
    rcases ho with rfl | rfl <;> exact nodup_getUop _ _ _ _ _ _
  rcases hop with rfl | rfl | rfl | rfl
  · exact ⟨2, 2, 2, 2, _, v, hv, by simp⟩
  · exact ⟨1, 1, 1, 1, _, v, hv, by simp⟩
  · obtain ⟨op, hop, w, hw⟩ := mem_addOps _ (hn _ _ _ _ _ _ _ _ _ _) _ hv
    simp only [List.mem_cons, List.not_mem_nil, or_false] at hop
    rcases hop with rfl | rfl
    · exact ⟨1, 2, 2, 1, _, w, hw, by simp⟩
    · exact ⟨2, 1, 1, 2, _, w, hw, by simp⟩
  · obtain ⟨op, hop, w, hw⟩ := mem_addOps _ (hn _ _ _ _ _ _ _ _ _ _) _ hv
    simp only [List.mem_cons, List.not_mem_nil, or_false] at hop
    rcases hop with rfl | rfl
    · exact ⟨1, 2, 1, 2, _, w, hw, by simp⟩
    · exact ⟨2, 1, 2, 1, _, w, hw, by simp⟩

variable {gaunt}

theorem get2p3d_hermitian (h : GauntSymmetric gaunt) (Fdd Fpp Fpd Gpd : List ℝ) :
    Dict.Eqv (daggerOp (get2p3dSlaterCondonUop gaunt Fdd Fpp Fpd Gpd))
      (get2p3dSlaterCondonUop gaunt Fdd Fpp Fpd Gpd) := by
  have hn : ∀ a b c d R, ∀ a' b' c' d' R', ∀ op ∈ [getUop gaunt a b c d R, getUop gaunt a' b' c' d' R'], Dict.NodupKeys op := by
    intro a b c d R a' b' c' d' R' op ho
    simp only [List.mem_cons, List.not_mem_nil, or_false] at ho
    rcases ho with rfl | rfl <;> exact nodup_getUop _ _ _ _ _ _
  have hN : ∀ op ∈ [getUop gaunt 2 2 2 2 Fdd, getUop gaunt 1 1 1 1 Fpp,
      addOps [getUop gaunt 1 2 2 1 Fpd, getUop gaunt 2 1 1 2 Fpd],
      addOps [getUop gaunt 1 2 1 2 Gpd, getUop gaunt 2 1 2 1 Gpd]], Dict.NodupKeys op := by
    simp only [List.mem_cons, List.not_mem_nil, or_false]
    rintro op (rfl | rfl | rfl | rfl) <;> first | exact nodup_getUop _ _ _ _ _ _ | exact nodupKeys_addOps _
  unfold get2p3dSlaterCondonUop
  apply daggerOp_addOps _ _ hN hN
  refine .cons (getUop_dagger h) (.cons (getUop_dagger h) (.cons ?_ (.cons ?_ .nil)))
  · exact daggerOp_addOps _ _ (hn _ _ _ _ _ _ _ _ _ _) (hn _ _ _ _ _ _ _ _ _ _)
      (.cons (getUop_dagger h) (.cons (getUop_dagger h) .nil))
  · refine (daggerOp_addOps _ _ (hn _ _ _ _ _ _ _ _ _ _) (hn _ _ _ _ _ _ _ _ _ _)
      (.cons (getUop_dagger h) (.cons (getUop_dagger h) .nil))).trans' (addOps_perm (List.Perm.swap _ _ _) ?_)
    exact hn _ _ _ _ _ _ _ _ _ _

end

/-! ### One-particle operators -/

section
variable (l : ℕ)

/-- `op` has exactly the one-particle terms of the matrix `M` of the shell,
except that some zero terms may be missing. -/
structure IsMatrix (op : Op Label ℂ) (M : ℤ × ℤ → ℤ × ℤ → ℂ) : Prop where
  nodup : Dict.NodupKeys op
  keys : ∀ k ∈ Dict.keys op, ∃ x ∈ shell l, ∃ y ∈ shell l,
    k = oneProcess (.imp l x.1 x.2) (.imp l y.1 y.2)
  value : ∀ x ∈ shell l, ∀ y ∈ shell l,
    (Dict.get? op (oneProcess (.imp l x.1 x.2) (.imp l y.1 y.2))).getD 0 = M x y

variable {l}

theorem IsMatrix.operator_eq {op : Op Label ℂ} {M : ℤ × ℤ → ℤ × ℤ → ℂ} (h : IsMatrix l op M)
    (f : Label → ℕ) (v : Vec ℂ) : operator (labelSpec f op) v = oneBody f l M v := by
  funext S
  rw [operator_labelSpec, sum_dict_eq _ h.nodup
    (fun p => product (p.map fun x => (f x.1, (x.2 = .c : Bool))) v S) (shell l ×ˢ shell l)
    (fun a => oneProcess (.imp l a.1.1 a.1.2) (.imp l a.2.1 a.2.2)) ?_ ?_ _ ?_]
  · rfl
  · rintro ⟨⟨a, b⟩, ⟨c, d⟩⟩ _ ⟨⟨a', b'⟩, ⟨c', d'⟩⟩ _ e
    simp only [oneProcess, List.cons.injEq, Prod.mk.injEq, Label.imp.injEq] at e
    simp only [Prod.mk.injEq]
    tauto
  · intro k hk
    obtain ⟨x, hx, y, hy, rfl⟩ := h.keys k hk
    exact ⟨(x, y), mem_product.2 ⟨hx, hy⟩, rfl⟩
  · rintro ⟨x, y⟩ hxy
    obtain ⟨hx, hy⟩ := mem_product.1 hxy
    dsimp only
    rw [h.value x hx y hy]
    simp [oneProcess, product, ladder]

theorem dag_oneProcess (x y : Label) : dagProcess (oneProcess x y) = oneProcess y x := rfl

theorem oneProcess_inj {x y x' y' : Label} : oneProcess x y = oneProcess x' y' ↔ x = x' ∧ y = y' := by
  simp [oneProcess]

theorem IsMatrix.hermitian {op : Op Label ℂ} {M : ℤ × ℤ → ℤ × ℤ → ℂ} (h : IsMatrix l op M)
    (hM : ∀ x ∈ shell l, ∀ y ∈ shell l, star (M x y) = M y x)
    (hk : ∀ x ∈ shell l, ∀ y ∈ shell l, oneProcess (.imp l x.1 x.2) (.imp l y.1 y.2) ∈ Dict.keys op →
      oneProcess (.imp l y.1 y.2) (.imp l x.1 x.2) ∈ Dict.keys op) :
    Dict.Eqv (daggerOp op) op := by
  intro p
  rw [get?_daggerOp _ h.nodup]
  by_cases hp : p ∈ Dict.keys op
  · obtain ⟨x, hx, y, hy, rfl⟩ := h.keys p hp
    have hp' := hk x hx y hy hp
    rw [dag_oneProcess]
    rw [Dict.mem_keys_iff] at hp hp'
    obtain ⟨a, ha⟩ := Option.isSome_iff_exists.1 hp
    obtain ⟨b, hb⟩ := Option.isSome_iff_exists.1 hp'
    have h1 := h.value x hx y hy
    have h2 := h.value y hy x hx
    rw [ha] at h1 ⊢
    rw [hb] at h2 ⊢
    simp only [Option.getD_some] at h1 h2
    rw [Option.map_some, h1, h2, hM y hy x hx]
  · rw [(Dict.get?_eq_none_iff _ _).2 hp]
    by_cases hp' : dagProcess p ∈ Dict.keys op
    · exfalso
      obtain ⟨x, hx, y, hy, e⟩ := h.keys _ hp'
      have := hk x hx y hy (e ▸ hp')
      rw [← dag_oneProcess, ← e, dagProcess_dagProcess] at this
      exact hp this
    · rw [(Dict.get?_eq_none_iff _ _).2 hp']; rfl

theorem mem_shell (x : ℤ × ℤ) : x ∈ shell l ↔ (x.1 = 0 ∨ x.1 = 1) ∧ -(l : ℤ) ≤ x.2 ∧ x.2 ≤ l := by
  simp [shell, mem_product]

end

end Verif
