/-
Helper lemmas for the assembly of the Hamiltonian.
-/
import Verif.Model.Assemble
import Verif.Spec.Assemble
import Verif.Lemmas.ShellMeaning
import Verif.Lemmas.OneBody
import Verif.Lemmas.Dipole
import Verif.Prop.Index

namespace Verif

open Spec Finset

theorem reverseProcess_eq {ι : Type} (p : Process ι) : reverseProcess p = dagProcess p := by
  unfold reverseProcess dagProcess
  rw [List.map_reverse]
  congr 1
  apply List.map_congr_left
  rintro ⟨i, a⟩ -
  cases a <;> rfl

/-! ### relabelling -/

section
variable {nBaths : NBaths}

/-- All labels of a process belong to the system. -/
def ProcIn (nBaths : NBaths) (p : Process Label) : Prop := ∀ x ∈ p, InSystem nBaths x.1

/-- The process with labels replaced by positions. -/
def toPos (nBaths : NBaths) (p : Process Label) : Process ℕ := p.map fun x => (position nBaths x.1, x.2)

theorem c2i_position (h : GoodSystem nBaths) {x : Label} (hx : InSystem nBaths x) :
    c2i nBaths x = .ok (position nBaths x) := by
  cases x with
  | imp l s m => exact ((C09_positions _ h).1 l s m hx).1
  | bath lp b => exact ((C09_positions _ h).2 lp b hx).1

theorem position_lt (h : GoodSystem nBaths) {x : Label} (hx : InSystem nBaths x) :
    position nBaths x < nTotal nBaths := by
  obtain ⟨i, hi, e, _⟩ := (C09_bijection _ h).1 x hx
  rw [c2i_position h hx] at e
  obtain rfl := Except.ok.inj e
  exact hi

theorem position_inj (h : GoodSystem nBaths) {x y : Label} (hx : InSystem nBaths x) (hy : InSystem nBaths y)
    (e : position nBaths x = position nBaths y) : x = y := by
  obtain ⟨i, _, e1, f1⟩ := (C09_bijection _ h).1 x hx
  obtain ⟨j, _, e2, f2⟩ := (C09_bijection _ h).1 y hy
  rw [c2i_position h hx] at e1
  rw [c2i_position h hy] at e2
  obtain rfl := Except.ok.inj e1
  obtain rfl := Except.ok.inj e2
  rw [e, f2] at f1
  exact (Except.ok.inj f1).symm

theorem toPos_inj (h : GoodSystem nBaths) {p q : Process Label} (hp : ProcIn nBaths p) (hq : ProcIn nBaths q)
    (e : toPos nBaths p = toPos nBaths q) : p = q := by
  induction p generalizing q with
  | nil =>
    cases q with
    | nil => rfl
    | cons b q => simp [toPos] at e
  | cons a p ih =>
    cases q with
    | nil => simp [toPos] at e
    | cons b q =>
      simp only [toPos, List.map_cons, List.cons.injEq, Prod.mk.injEq] at e
      have := position_inj h (hp a (by simp)) (hq b (by simp)) e.1.1
      rw [ih (fun x hx => hp x (by simp [hx])) (fun x hx => hq x (by simp [hx])) e.2]
      congr 1
      exact Prod.ext this e.1.2

theorem toPos_dag (p : Process Label) : toPos nBaths (dagProcess p) = dagProcess (toPos nBaths p) := by
  simp [toPos, dagProcess, List.map_reverse]

theorem procIn_dag {p : Process Label} : ProcIn nBaths (dagProcess p) ↔ ProcIn nBaths p := by
  simp only [ProcIn, dagProcess, List.mem_map, List.mem_reverse]
  constructor
  · intro h x hx
    exact h (x.1, x.2.dagger) ⟨x, hx, rfl⟩
  · rintro h _ ⟨x, hx, rfl⟩
    exact h x hx

theorem process_mapM (h : GoodSystem nBaths) {p : Process Label} (hp : ProcIn nBaths p) :
    (p.mapM fun e => do
      let i ← c2i nBaths e.1
      return (i, e.2) : Py (Process ℕ)) = .ok (toPos nBaths p) := by
  induction p with
  | nil => rfl
  | cons a p ih =>
    rw [List.mapM_cons, ih (fun x hx => hp x (by simp [hx])), c2i_position h (hp a (by simp))]
    rfl

theorem process_mapM_error {p : Process Label} (hp : ¬ ProcIn nBaths p) :
    (p.mapM fun e => do
      let i ← c2i nBaths e.1
      return (i, e.2) : Py (Process ℕ)) = .error .exception := by
  induction p with
  | nil => simp [ProcIn] at hp
  | cons a p ih =>
    rw [List.mapM_cons]
    by_cases ha : InSystem nBaths a.1
    · obtain ⟨i, e⟩ := ((C10_rejects nBaths).2.1 a.1).2 ha
      rw [e, ih]
      · rfl
      · intro hp'
        apply hp
        intro x hx
        rcases List.mem_cons.1 hx with rfl | hx
        exacts [ha, hp' x hx]
    · rw [((C10_rejects nBaths).1 a.1).2 ha]
      rfl

variable {R : Type}

/-- The relabelled dict. -/
def mapPos (nBaths : NBaths) (op : Op Label R) : Op ℕ R := op.map fun q => (toPos nBaths q.1, q.2)

theorem nodupKeys_mapPos (h : GoodSystem nBaths) {op : Op Label R} (hn : Dict.NodupKeys op)
    (hin : ∀ k ∈ Dict.keys op, ProcIn nBaths k) : Dict.NodupKeys (mapPos nBaths op) := by
  have : Dict.keys (mapPos nBaths op) = (Dict.keys op).map (toPos nBaths) := by
    simp [mapPos, Dict.keys]
  rw [Dict.NodupKeys, this]
  exact List.Nodup.map_on (fun x hx y hy e => toPos_inj h (hin x hx) (hin y hy) e) hn

theorem relabel_ok (h : GoodSystem nBaths) {op : Op Label R} (hn : Dict.NodupKeys op)
    (hin : ∀ k ∈ Dict.keys op, ProcIn nBaths k) : relabel nBaths op = .ok (mapPos nBaths op) := by
  have key : ∀ (L : Op Label R) (d : Op ℕ R), (∀ k ∈ Dict.keys L, ProcIn nBaths k) →
      L.foldlM (fun hOp q => (do
        let process ← q.1.mapM fun e => do
          let i ← c2i nBaths e.1
          return (i, e.2)
        return Dict.set hOp process q.2 : Py (Op ℕ R))) d
      = .ok ((mapPos nBaths L).foldl (fun d q => Dict.set d q.1 q.2) d) := by
    intro L
    induction L with
    | nil => intro d _; rfl
    | cons q L ih =>
      intro d hL
      rw [List.foldlM_cons, process_mapM h (hL q.1 (by simp [Dict.keys]))]
      exact ih _ (fun k hk => hL k (by simp [Dict.keys] at hk ⊢; exact Or.inr hk))
  rw [relabel, key op [] hin]
  congr 1
  exact Dict.update_nil_of_nodup _ (nodupKeys_mapPos h hn hin)

theorem relabel_error {op : Op Label R} (hin : ∃ k ∈ Dict.keys op, ¬ ProcIn nBaths k) :
    relabel nBaths op = .error .exception := by
  have key : ∀ (L : Op Label R) (d : Op ℕ R), (∃ k ∈ Dict.keys L, ¬ ProcIn nBaths k) →
      L.foldlM (fun hOp q => (do
        let process ← q.1.mapM fun e => do
          let i ← c2i nBaths e.1
          return (i, e.2)
        return Dict.set hOp process q.2 : Py (Op ℕ R))) d
      = .error .exception := by
    intro L
    induction L with
    | nil => rintro d ⟨k, hk, _⟩; simp [Dict.keys] at hk
    | cons q L ih =>
      rintro d ⟨k, hk, hk'⟩
      rw [List.foldlM_cons]
      by_cases hq : ProcIn nBaths q.1
      · have : k ∈ Dict.keys L := by
          rw [Dict.keys_cons, List.mem_cons] at hk
          rcases hk with rfl | hk
          exacts [absurd hq hk', hk]
        have ok : ∃ p', (q.1.mapM fun e => (do
            let i ← c2i nBaths e.1
            return (i, e.2) : Py (ℕ × Action))) = .ok p' := by
          generalize q.1 = p at hq
          clear * - hq
          induction p with
          | nil => exact ⟨_, rfl⟩
          | cons a p ih =>
            obtain ⟨p', e⟩ := ih (fun x hx => hq x (by simp [hx]))
            obtain ⟨i, ei⟩ := ((C10_rejects nBaths).2.1 a.1).2 (hq a (by simp))
            rw [List.mapM_cons, e, ei]
            exact ⟨_, rfl⟩
        obtain ⟨p', e⟩ := ok
        rw [e]
        exact ih _ ⟨k, this, hk'⟩
      · rw [process_mapM_error hq]; rfl
  exact key op [] hin

theorem get?_mapPos (h : GoodSystem nBaths) {op : Op Label R}
    (hin : ∀ k ∈ Dict.keys op, ProcIn nBaths k) {p : Process Label} (hp : ProcIn nBaths p) :
    Dict.get? (mapPos nBaths op) (toPos nBaths p) = Dict.get? op p := by
  induction op with
  | nil => rfl
  | cons q op ih =>
    obtain ⟨k, v⟩ := q
    have hk := hin k (by simp [Dict.keys])
    have : mapPos nBaths ((k, v) :: op) = (toPos nBaths k, v) :: mapPos nBaths op := rfl
    rw [this, Dict.get?_cons, Dict.get?_cons, ih (fun k hk => hin k (by simp [Dict.keys] at hk ⊢; exact Or.inr hk))]
    have e : (toPos nBaths k = toPos nBaths p) ↔ (k = p) :=
      ⟨fun e => toPos_inj h hk hp e, fun e => by rw [e]⟩
    simp only [e]

theorem mem_keys_mapPos {op : Op Label R} {p' : Process ℕ} (hp : p' ∈ Dict.keys (mapPos nBaths op)) :
    ∃ p ∈ Dict.keys op, p' = toPos nBaths p := by
  have : Dict.keys (mapPos nBaths op) = (Dict.keys op).map (toPos nBaths) := by
    simp [mapPos, Dict.keys]
  rw [this, List.mem_map] at hp
  obtain ⟨p, hp, rfl⟩ := hp
  exact ⟨p, hp, rfl⟩

theorem opSpec_mapPos (op : Op Label R) : opSpec (mapPos nBaths op) = labelSpec (position nBaths) op := by
  simp [opSpec, mapPos, labelSpec, processSpec, toPos, List.map_map, Function.comp_def]

end

section
variable {nBaths : NBaths} {R : Type} [CommRing R] [StarRing R]

/-- Hermiticity survives relabelling, and relabelling creates none. -/
theorem isHermitianOp_mapPos (h : GoodSystem nBaths) {op : Op Label R} (hn : Dict.NodupKeys op)
    (hin : ∀ k ∈ Dict.keys op, ProcIn nBaths k) :
    isHermitianOp (mapPos nBaths op) ↔ isHermitianOp op := by
  have hn' := nodupKeys_mapPos h hn hin
  unfold isHermitianOp Dict.Eqv
  constructor
  · intro hh p
    by_cases hp : ProcIn nBaths p
    · have := hh (toPos nBaths p)
      rw [get?_daggerOp _ hn', ← toPos_dag, get?_mapPos h hin (procIn_dag.2 hp), get?_mapPos h hin hp] at this
      rw [get?_daggerOp _ hn, this]
    · rw [get?_daggerOp _ hn, (Dict.get?_eq_none_iff _ _).2 fun hk => hp (hin p hk),
        (Dict.get?_eq_none_iff _ _).2 fun hk => hp (procIn_dag.1 (hin _ hk))]
      rfl
  · intro hh p'
    rw [get?_daggerOp _ hn']
    by_cases hp : ∃ p, ProcIn nBaths p ∧ p' = toPos nBaths p
    · obtain ⟨p, hp, rfl⟩ := hp
      have := hh p
      rw [get?_daggerOp _ hn] at this
      rw [← toPos_dag, get?_mapPos h hin (procIn_dag.2 hp), get?_mapPos h hin hp, this]
    · rw [(Dict.get?_eq_none_iff (mapPos nBaths op) p').2, (Dict.get?_eq_none_iff _ _).2]
      · rfl
      · intro hk
        obtain ⟨p, hk, e⟩ := mem_keys_mapPos hk
        refine hp ⟨dagProcess p, procIn_dag.2 (hin p hk), ?_⟩
        rw [toPos_dag, ← e, dagProcess_dagProcess]
      · intro hk
        obtain ⟨p, hk, e⟩ := mem_keys_mapPos hk
        exact hp ⟨p, hin p hk, e⟩

end

/-! ### strengths -/

theorem strength_of_hermitian {op : Op Label ℂ} (hn : Dict.NodupKeys op) (hh : isHermitianOp op) :
    HermitianStrengths op := by
  intro p
  have := hh (dagProcess p)
  rw [get?_daggerOp _ hn, dagProcess_dagProcess] at this
  rw [reverseProcess_eq, strength, ← this, strength]
  cases Dict.get? op p <;> simp

/-- A sum of Hermitian terms and one more term is Hermitian exactly if that term is. -/
theorem isHermitianOp_addOps (ops : List (Op Label ℂ)) (hn : ∀ op ∈ ops, Dict.NodupKeys op)
    (hh : ∀ op ∈ ops, isHermitianOp op) (h0 : Op Label ℂ) (hn0 : Dict.NodupKeys h0) :
    isHermitianOp (addOps (ops ++ [h0])) ↔ HermitianStrengths h0 := by
  have hN : ∀ op ∈ ops ++ [h0], Dict.NodupKeys op := by
    intro op ho
    rcases List.mem_append.1 ho with ho | ho
    · exact hn op ho
    · rw [List.mem_singleton.1 ho]; exact hn0
  have tot := fun p => (addOps_get? (ops ++ [h0]) hN p).1
  have hk := fun p => (addOps_get? (ops ++ [h0]) hN p).2
  have hsum : ∀ p, ((ops.map fun op => (Dict.get? op (dagProcess p)).getD 0).sum : ℂ)
      = star ((ops.map fun op => (Dict.get? op p).getD 0).sum) := by
    intro p
    clear hN tot hk
    induction ops with
    | nil => simp
    | cons op ops ih =>
      have e := strength_of_hermitian (hn op (by simp)) (hh op (by simp)) p
      rw [reverseProcess_eq] at e
      unfold strength at e
      rw [List.map_cons, List.sum_cons, e, ih (fun o ho => hn o (by simp [ho])) (fun o ho => hh o (by simp [ho])),
        List.map_cons, List.sum_cons, star_add]
  constructor
  · intro hall p
    have e := strength_of_hermitian (nodupKeys_addOps _) hall p
    unfold strength at e
    rw [reverseProcess_eq, tot, tot] at e
    simp only [List.map_append, List.sum_append, List.map_singleton, List.sum_singleton, star_add, hsum] at e
    rw [reverseProcess_eq]
    exact add_left_cancel e
  · intro h0h
    apply eqv_of_getD_keys
    · intro p
      rw [get?_daggerOp _ (nodupKeys_addOps _)]
      have e : ∀ o : Option ℂ, (o.map star).getD 0 = star (o.getD 0) := by intro o; cases o <;> simp
      have := h0h p
      rw [reverseProcess_eq] at this
      unfold strength at this
      rw [e, tot, tot]
      simp only [List.map_append, List.sum_append, List.map_singleton, List.sum_singleton, star_add, hsum,
        star_star, this]
    · intro p
      rw [Dict.mem_keys_iff, get?_daggerOp _ (nodupKeys_addOps _), Option.isSome_map, ← Dict.mem_keys_iff, hk, hk]
      have each : ∀ op ∈ ops ++ [h0], ((Dict.get? op (dagProcess p)).getD 0 : ℂ) ≠ 0 ↔ (Dict.get? op p).getD 0 ≠ 0 := by
        intro op ho
        have : HermitianStrengths op := by
          rcases List.mem_append.1 ho with ho | ho
          · exact strength_of_hermitian (hn op ho) (hh op ho)
          · rw [List.mem_singleton.1 ho]; exact h0h
        have := this p
        rw [reverseProcess_eq] at this
        unfold strength at this
        rw [this, star_ne_zero]
      constructor
      · rintro ⟨op, ho, hne⟩; exact ⟨op, ho, (each op ho).1 hne⟩
      · rintro ⟨op, ho, hne⟩; exact ⟨op, ho, (each op ho).2 hne⟩

/-! ### the double counting operator -/

theorem eDCOperator_eq (dc : ℝ × ℝ) : eDCOperator dc =
    [((2 : ℕ), dc.1), (1, dc.2)].flatMap fun p => (pyRange 0 2).flatMap fun s =>
      (pyRange (-(p.1 : ℤ)) (p.1 + 1)).map fun m =>
        (oneProcess (.imp p.1 s m) (.imp p.1 s m), ((-p.2 : ℝ) : ℂ)) := by
  apply Dict.update_nil_of_nodup
  have : (Dict.keys <| [((2 : ℕ), dc.1), (1, dc.2)].flatMap fun p => (pyRange 0 2).flatMap fun s =>
      (pyRange (-(p.1 : ℤ)) (p.1 + 1)).map fun m =>
        (oneProcess (.imp p.1 s m) (.imp p.1 s m), ((-p.2 : ℝ) : ℂ))) =
      ([2, 1] : List ℕ).flatMap fun (l : ℕ) => (pyRange 0 2).flatMap fun s => (pyRange (-(l : ℤ)) (l + 1)).map fun m =>
        oneProcess (.imp l s m) (.imp l s m) := by
    simp [Dict.keys, List.map_flatMap, Function.comp_def]
  rw [Dict.NodupKeys, this]
  decide

theorem nodup_eDC (dc : ℝ × ℝ) : Dict.NodupKeys (eDCOperator dc) := by
  unfold eDCOperator
  exact Dict.nodupKeys_update Dict.nodupKeys_nil _

theorem mem_eDC (dc : ℝ × ℝ) (q : Process Label × ℂ) : q ∈ eDCOperator dc ↔
    ∃ l : ℕ, ∃ x ∈ shell l, ((l = 2 ∧ q.2 = ((-dc.1 : ℝ) : ℂ)) ∨ (l = 1 ∧ q.2 = ((-dc.2 : ℝ) : ℂ))) ∧
      q.1 = oneProcess (.imp l x.1 x.2) (.imp l x.1 x.2) := by
  rw [eDCOperator_eq]
  simp only [List.mem_flatMap, List.mem_map, List.mem_cons, List.not_mem_nil, or_false, mem_pyRange, mem_shell]
  constructor
  · rintro ⟨p, hp, s, hs, m, hm, rfl⟩
    refine ⟨p.1, (s, m), ⟨by omega, by omega, by omega⟩, ?_, rfl⟩
    rcases hp with rfl | rfl
    · exact Or.inl ⟨rfl, rfl⟩
    · exact Or.inr ⟨rfl, rfl⟩
  · rintro ⟨l, x, ⟨h1, h2, h3⟩, h | h, e⟩
    · obtain ⟨rfl, hv⟩ := h
      refine ⟨(2, dc.1), Or.inl rfl, x.1, by omega, x.2, by push_cast at h2 h3 ⊢; omega, ?_⟩
      exact Prod.ext e.symm hv.symm
    · obtain ⟨rfl, hv⟩ := h
      refine ⟨(1, dc.2), Or.inr rfl, x.1, by omega, x.2, by push_cast at h2 h3 ⊢; omega, ?_⟩
      exact Prod.ext e.symm hv.symm

theorem eDC_hermitian (dc : ℝ × ℝ) : isHermitianOp (eDCOperator dc) := by
  have hn := nodup_eDC dc
  intro p
  rw [get?_daggerOp _ hn]
  cases hg : Dict.get? (eDCOperator dc) p with
  | some v =>
    have hm := Dict.mem_of_get? hg
    obtain ⟨l, x, hx, hv, e⟩ := (mem_eDC dc _).1 hm
    dsimp only at e hv
    have : dagProcess p = p := by rw [e, dag_oneProcess]
    rw [this, hg, Option.map_some]
    rcases hv with ⟨_, rfl⟩ | ⟨_, rfl⟩ <;> simp
  | none =>
    cases hg' : Dict.get? (eDCOperator dc) (dagProcess p) with
    | none => rfl
    | some v =>
      exfalso
      have hm := Dict.mem_of_get? hg'
      obtain ⟨l, x, hx, hv, e⟩ := (mem_eDC dc _).1 hm
      dsimp only at e
      have : p = dagProcess p := by
        conv_lhs => rw [← dagProcess_dagProcess p, e, dag_oneProcess]
        rw [e]
      rw [← this, hg] at hg'
      simp at hg'

end Verif
