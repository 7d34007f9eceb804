import Verif.Lemmas.States
import Verif.Spec.Cache

set_option linter.unusedSectionVars false
set_option linter.unusedSimpArgs false

namespace Verif

open Finset Spec Psr

/-! ### dict building -/

section
variable {κ ν : Type*} [DecidableEq κ]

theorem Dict.set_of_notMem (d : Dict κ ν) (k : κ) (v : ν) (h : k ∉ Dict.keys d) :
    Dict.set d k v = d ++ [(k, v)] := by
  induction d with
  | nil => rfl
  | cons p d ih =>
    obtain ⟨a, w⟩ := p
    simp only [Dict.keys_cons, List.mem_cons, not_or] at h
    simp [Dict.set, Ne.symm h.1, ih h.2]

theorem Dict.foldl_set_fresh {α : Type*} (l : List α) (f : α → κ) (g : α → ν)
    (h : (l.map f).Nodup) (d : Dict κ ν) (hd : ∀ x ∈ l, f x ∉ Dict.keys d) :
    l.foldl (fun d x => Dict.set d (f x) (g x)) d = d ++ l.map fun x => (f x, g x) := by
  induction l generalizing d with
  | nil => simp
  | cons x l ih =>
    rw [List.map_cons, List.nodup_cons] at h
    rw [List.foldl_cons, Dict.set_of_notMem _ _ _ (hd x (by simp)), ih h.2]
    · simp
    · intro y hy hm
      simp only [Dict.keys_append, List.mem_append, Dict.keys_cons, Dict.keys_nil,
        List.mem_singleton] at hm
      rcases hm with hm | hm
      · exact hd y (by simp [hy]) hm
      · exact h.1 (List.mem_map.2 ⟨y, hy, hm⟩)

theorem Dict.perm_of_eqv {d e : Dict κ ν} (hd : Dict.NodupKeys d) (he : Dict.NodupKeys e)
    (h : Dict.Eqv d e) : d.Perm e := by
  have nd : d.Nodup := List.Nodup.of_map _ hd
  have ne : e.Nodup := List.Nodup.of_map _ he
  rw [List.perm_ext_iff_of_nodup nd ne]
  rintro ⟨k, v⟩
  constructor
  · intro hm
    have := Dict.get?_of_mem hd hm
    rw [h k] at this
    exact Dict.mem_of_get? this
  · intro hm
    have := Dict.get?_of_mem he hm
    rw [← h k] at this
    exact Dict.mem_of_get? this

end

/-! ### daggerOp -/

section
variable {ι R : Type} [DecidableEq ι]

/-- The adjoint of a process. -/
def dagProcess (p : Process ι) : Process ι := p.reverse.map fun e => (e.1, e.2.dagger)

theorem dagger_dagger (x : Action) : x.dagger.dagger = x := by cases x <;> rfl

theorem dagProcess_dagProcess (p : Process ι) : dagProcess (dagProcess p) = p := by
  unfold dagProcess
  rw [← List.map_reverse, List.reverse_reverse, List.map_map]
  conv_rhs => rw [← List.map_id p]
  apply List.map_congr_left
  intro e _
  simp [dagger_dagger]

theorem dagProcess_injective : Function.Injective (dagProcess (ι := ι)) := by
  intro p q h
  rw [← dagProcess_dagProcess p, h, dagProcess_dagProcess]

variable [Star R]

theorem daggerOp_eq (op : Op ι R) (hop : Dict.NodupKeys op) :
    daggerOp op = op.map fun q => (dagProcess q.1, star q.2) := by
  have := Dict.foldl_set_fresh op (fun q => dagProcess q.1) (fun q => star q.2)
    (by
      have : op.map (fun q => dagProcess q.1) = (Dict.keys op).map dagProcess := by
        unfold Dict.keys; rw [List.map_map]; rfl
      rw [this]
      exact List.Nodup.map dagProcess_injective hop) ([] : Op ι R) (by simp)
  rw [List.nil_append] at this
  exact this

theorem nodupKeys_daggerOp (op : Op ι R) : Dict.NodupKeys (daggerOp op) := by
  unfold daggerOp
  have : ∀ d : Op ι R, Dict.NodupKeys d → Dict.NodupKeys (op.foldl (fun opDagger q =>
    Dict.set opDagger (q.1.reverse.map fun e => (e.1, e.2.dagger)) (star q.2)) d) := by
    induction op with
    | nil => intro d hd; exact hd
    | cons q op ih => intro d hd; exact ih _ (Dict.nodupKeys_set hd _ _)
  exact this [] Dict.nodupKeys_nil

end

section
variable {R F : Type} [CommRing R] [StarRing R] [CommRing F] [LinearOrder F]
  [IsStrictOrderedRing F] [Amp R F]

theorem daggerOp_daggerOp {ι : Type} [DecidableEq ι] (op : Op ι R) (hop : Dict.NodupKeys op) :
    daggerOp (daggerOp op) = op := by
  rw [daggerOp_eq (daggerOp op) (nodupKeys_daggerOp op), daggerOp_eq op hop, List.map_map]
  conv_rhs => rw [← List.map_id op]
  apply List.map_congr_left
  intro q _
  simp [dagProcess_dagProcess]

theorem processSpec_dagProcess (p : Process ℕ) :
    processSpec (dagProcess p) = adjointProduct (processSpec p) := by
  unfold processSpec dagProcess adjointProduct
  rw [List.map_map, ← List.map_reverse, List.map_map]
  apply List.map_congr_left
  rintro ⟨i, act⟩ _
  cases act <;> rfl

theorem opSpec_daggerOp (op : Op ℕ R) (hop : Dict.NodupKeys op) :
    opSpec (daggerOp op) = adjointOperator (opSpec op) := by
  rw [daggerOp_eq op hop]
  unfold opSpec adjointOperator
  rw [List.map_map, List.map_map]
  apply List.map_congr_left
  intro q _
  simp [processSpec_dagProcess]

theorem opInSystem_daggerOp {n : ℕ} {op : Op ℕ R} (hnd : Dict.NodupKeys op) (hop : OpInSystem n op) :
    OpInSystem n (daggerOp op) := by
  rw [daggerOp_eq op hnd]
  intro q hq x hx
  obtain ⟨q', hq', rfl⟩ := List.mem_map.1 hq
  simp only [dagProcess, List.mem_map, List.mem_reverse] at hx
  obtain ⟨e, he, rfl⟩ := hx
  exact hop q' hq' e he

theorem opSpec_inSystem {n : ℕ} {op : Op ℕ R} (hop : OpInSystem n op) :
    ∀ q ∈ opSpec op, ∀ x ∈ q.1, x.1 < n := by
  intro q hq x hx
  obtain ⟨q', hq', rfl⟩ := List.mem_map.1 hq
  obtain ⟨e, he, rfl⟩ := List.mem_map.1 hx
  exact hop q' hq' e he

theorem innerProduct_daggerOp {n : ℕ} {op : Op ℕ R} (hnd : Dict.NodupKeys op) (hop : OpInSystem n op)
    (f g : Vec R) :
    innerProduct n f (operator (opSpec op) g) = innerProduct n (operator (opSpec (daggerOp op)) f) g := by
  rw [opSpec_daggerOp op hnd, innerProduct_operator n _ (opSpec_inSystem hop)]

theorem operator_perm {o1 o2 : List (List (ℕ × Bool) × R)} (h : o1.Perm o2) (f : Vec R) :
    operator o1 f = operator o2 f := by
  funext S
  exact (h.map _).sum_eq

theorem operator_eqv {o1 o2 : Op ℕ R} (h1 : Dict.NodupKeys o1) (h2 : Dict.NodupKeys o2)
    (h : Dict.Eqv o1 o2) (f : Vec R) : operator (opSpec o1) f = operator (opSpec o2) f :=
  operator_perm ((Dict.perm_of_eqv h1 h2 h).map _) f

theorem innerProduct_single_left {n : ℕ} {S : Finset ℕ} (hS : S ⊆ range n) (x : R) (f : Vec R) :
    innerProduct n (single S x) f = star x * f S := by
  unfold innerProduct single
  rw [sum_eq_single S]
  · simp
  · intro T _ hT; simp [hT]
  · intro h; exact absurd (mem_powerset.2 hS) h

theorem innerProduct_single_right {n : ℕ} {S : Finset ℕ} (hS : S ⊆ range n) (x : R) (f : Vec R) :
    innerProduct n f (single S x) = star (f S) * x := by
  rw [← innerProduct_star, innerProduct_single_left hS]
  simp [mul_comm]

theorem matrixElement_daggerOp {n : ℕ} {op : Op ℕ R} (hnd : Dict.NodupKeys op)
    (hop : OpInSystem n op) {S T : Finset ℕ} (hS : S ⊆ range n) (hT : T ⊆ range n) :
    matrixElement (daggerOp op) S T = star (matrixElement op T S) := by
  have h := innerProduct_daggerOp hnd hop (single T 1) (single S 1)
  rw [innerProduct_single_left hT, innerProduct_single_right hS] at h
  simp only [star_one, one_mul, mul_one] at h
  unfold matrixElement
  rw [h, star_star]

theorem matrixElement_hermitian {n : ℕ} {op : Op ℕ R} (hnd : Dict.NodupKeys op)
    (hop : OpInSystem n op) (hh : isHermitianOp op) {S T : Finset ℕ} (hS : S ⊆ range n)
    (hT : T ⊆ range n) : matrixElement op S T = star (matrixElement op T S) := by
  rw [← matrixElement_daggerOp hnd hop hS hT]
  unfold matrixElement
  rw [operator_eqv (nodupKeys_daggerOp op) hnd hh]

/-! ### addOps -/

theorem operator_append (o1 o2 : List (List (ℕ × Bool) × R)) (f : Vec R) (S : Finset ℕ) :
    operator (o1 ++ o2) f S = operator o1 f S + operator o2 f S := by
  simp [operator]

theorem operator_opSpec_set {o : Op ℕ R} (p : Process ℕ) (x : R) (f : Vec R)
    (S : Finset ℕ) :
    operator (opSpec (Dict.addAt o p x)) f S
      = operator (opSpec o) f S + x * product (processSpec p) f S := by
  unfold Dict.addAt
  induction o with
  | nil => simp [operator, opSpec, Dict.set]
  | cons q o ih =>
    obtain ⟨k, v⟩ := q
    rw [Dict.get?_cons]
    by_cases h : k = p
    · subst h
      simp only [if_true, Dict.set]
      simp [operator, opSpec]
      ring
    · rw [if_neg h]
      cases hg : Dict.get? o p with
      | none =>
        rw [hg] at ih
        simp only at ih ⊢
        simp only [Dict.set, if_neg h]
        simp only [operator, opSpec, List.map_cons, List.sum_cons] at ih ⊢
        rw [ih]; ring
      | some v =>
        rw [hg] at ih
        simp only at ih ⊢
        simp only [Dict.set, if_neg h]
        simp only [operator, opSpec, List.map_cons, List.sum_cons] at ih ⊢
        rw [ih]; ring

theorem addOps_inner [DecidableEq R] (op o : Op ℕ R) (f : Vec R) (S : Finset ℕ) :
    operator (opSpec (op.foldl (fun opSum q => if q.2 ≠ 0 then Dict.addAt opSum q.1 q.2 else opSum) o)) f S
      = operator (opSpec o) f S + operator (opSpec op) f S := by
  induction op generalizing o with
  | nil => simp [operator, opSpec]
  | cons q op ih =>
    rw [List.foldl_cons, ih]
    by_cases h : q.2 = 0
    · rw [if_neg (not_not.2 h)]
      simp [operator, opSpec, h]
    · rw [if_pos h, operator_opSpec_set]
      simp only [operator, opSpec, List.map_cons, List.sum_cons]
      ring

theorem operator_addOps [DecidableEq R] (ops : List (Op ℕ R)) (f : Vec R) (S : Finset ℕ) :
    operator (opSpec (addOps ops)) f S = (ops.map fun op => operator (opSpec op) f S).sum := by
  unfold addOps
  have : ∀ o : Op ℕ R, operator (opSpec (ops.foldl (fun opSum op =>
    op.foldl (fun opSum q => if q.2 ≠ 0 then Dict.addAt opSum q.1 q.2 else opSum) opSum) o)) f S
      = operator (opSpec o) f S + (ops.map fun op => operator (opSpec op) f S).sum := by
    induction ops with
    | nil => intro o; simp
    | cons op ops ih =>
      intro o
      rw [List.foldl_cons, ih, addOps_inner]
      simp [add_assoc]
  rw [this]
  simp [operator, opSpec]

end

section
variable {ι R : Type} [DecidableEq ι] [DecidableEq R] [CommRing R]

theorem nodupKeys_addAt {κ M : Type*} [DecidableEq κ] [Add M] {d : Dict κ M} (h : Dict.NodupKeys d)
    (k : κ) (x : M) : Dict.NodupKeys (Dict.addAt d k x) := by
  unfold Dict.addAt; split <;> exact Dict.nodupKeys_set h _ _

theorem mem_keys_addAt {κ M : Type*} [DecidableEq κ] [Add M] (d : Dict κ M)
    (k : κ) (x : M) (k' : κ) : k' ∈ Dict.keys (Dict.addAt d k x) ↔ k' = k ∨ k' ∈ Dict.keys d := by
  unfold Dict.addAt; split <;> rw [Dict.mem_keys_set]

theorem get?_addAt {κ M : Type*} [DecidableEq κ] [AddMonoid M] (d : Dict κ M)
    (k : κ) (x : M) (k' : κ) : Dict.get? (Dict.addAt d k x) k'
      = if k = k' then some ((Dict.get? d k).getD 0 + x) else Dict.get? d k' := by
  unfold Dict.addAt
  cases h : Dict.get? d k <;> simp [Dict.get?_set]

theorem addOps_foldl_get? (op o : Op ι R) (hop : Dict.NodupKeys op) (p : Process ι) :
    ((Dict.get? (op.foldl (fun opSum q => if q.2 ≠ 0 then Dict.addAt opSum q.1 q.2 else opSum) o) p).getD 0
      = (Dict.get? o p).getD 0 + (Dict.get? op p).getD 0) ∧
    (p ∈ Dict.keys (op.foldl (fun opSum q => if q.2 ≠ 0 then Dict.addAt opSum q.1 q.2 else opSum) o)
      ↔ p ∈ Dict.keys o ∨ (Dict.get? op p).getD 0 ≠ 0) := by
  induction op generalizing o with
  | nil => simp
  | cons q op ih =>
    obtain ⟨k, v⟩ := q
    unfold Dict.NodupKeys at hop
    rw [Dict.keys_cons, List.nodup_cons] at hop
    rw [List.foldl_cons]
    obtain ⟨h1, h2⟩ := ih (if v ≠ 0 then Dict.addAt o k v else o) hop.2
    refine ⟨h1.trans ?_, h2.trans ?_⟩
    · rw [Dict.get?_cons]
      by_cases hk : k = p
      · subst hk
        rw [(Dict.get?_eq_none_iff op k).2 hop.1, if_pos rfl]
        by_cases hv : v = 0
        · simp [hv]
        · rw [if_pos hv, get?_addAt, if_pos rfl]; simp
      · rw [if_neg hk]
        by_cases hv : v = 0
        · simp [hv]
        · rw [if_pos hv, get?_addAt, if_neg hk]
    · rw [Dict.get?_cons]
      by_cases hk : k = p
      · subst hk
        rw [(Dict.get?_eq_none_iff op k).2 hop.1, if_pos rfl]
        by_cases hv : v = 0
        · simp [hv]
        · rw [if_pos hv, mem_keys_addAt]; simp [hv]
      · rw [if_neg hk]
        by_cases hv : v = 0
        · simp [hv]
        · rw [if_pos hv, mem_keys_addAt]; simp [Ne.symm hk]

theorem nodupKeys_addOps_foldl (op o : Op ι R) (ho : Dict.NodupKeys o) :
    Dict.NodupKeys (op.foldl (fun opSum q => if q.2 ≠ 0 then Dict.addAt opSum q.1 q.2 else opSum) o) := by
  induction op generalizing o with
  | nil => exact ho
  | cons q op ih =>
    rw [List.foldl_cons]
    apply ih
    split
    · exact nodupKeys_addAt ho _ _
    · exact ho

theorem nodupKeys_addOps (ops : List (Op ι R)) : Dict.NodupKeys (addOps ops) := by
  unfold addOps
  have : ∀ o : Op ι R, Dict.NodupKeys o → Dict.NodupKeys (ops.foldl (fun opSum op =>
    op.foldl (fun opSum q => if q.2 ≠ 0 then Dict.addAt opSum q.1 q.2 else opSum) opSum) o) := by
    induction ops with
    | nil => intro o h; exact h
    | cons op ops ih => intro o h; exact ih _ (nodupKeys_addOps_foldl op o h)
  exact this [] Dict.nodupKeys_nil

theorem addOps_get? (ops : List (Op ι R)) (hops : ∀ op ∈ ops, Dict.NodupKeys op) (p : Process ι) :
    ((Dict.get? (addOps ops) p).getD 0 = (ops.map fun op => (Dict.get? op p).getD 0).sum) ∧
    (p ∈ Dict.keys (addOps ops) ↔ ∃ op ∈ ops, (Dict.get? op p).getD 0 ≠ 0) := by
  unfold addOps
  have : ∀ o : Op ι R,
    ((Dict.get? (ops.foldl (fun opSum op =>
      op.foldl (fun opSum q => if q.2 ≠ 0 then Dict.addAt opSum q.1 q.2 else opSum) opSum) o) p).getD 0
      = (Dict.get? o p).getD 0 + (ops.map fun op => (Dict.get? op p).getD 0).sum) ∧
    (p ∈ Dict.keys (ops.foldl (fun opSum op =>
      op.foldl (fun opSum q => if q.2 ≠ 0 then Dict.addAt opSum q.1 q.2 else opSum) opSum) o)
      ↔ p ∈ Dict.keys o ∨ ∃ op ∈ ops, (Dict.get? op p).getD 0 ≠ 0) := by
    induction ops with
    | nil => intro o; simp
    | cons op ops ih =>
      intro o
      rw [List.foldl_cons]
      obtain ⟨h1, h2⟩ := ih (fun op h => hops op (by simp [h])) (List.foldl (fun (opSum : Op ι R) (q : Process ι × R) =>
        if q.2 ≠ 0 then Dict.addAt opSum q.1 q.2 else opSum) o op)
      obtain ⟨h3, h4⟩ := addOps_foldl_get? op o (hops op (by simp)) p
      rw [h1, h2, h3, h4]
      constructor
      · simp [add_assoc]
      · simp [or_assoc]
  have h := this []
  simpa using h

end

/-! ### daggerOpRaw -/

section
variable {ι R : Type} [DecidableEq ι] [Star R]

theorem parseAction_str (x : Action) : parseAction x.str = .ok x := by
  cases x <;> rfl

theorem parseAction_error (s : String) (h1 : s ≠ "a") (h2 : s ≠ "c") :
    parseAction s = .error .exception := by
  simp [parseAction, h1, h2]

/-- One element of a process. -/
def rawElem (e : ι × String) : Py (ι × Action) := do
  let act ← parseAction e.2
  return (e.1, act.dagger)

/-- One process. -/
def rawStep (opDagger : Op ι R) (q : List (ι × String) × R) : Py (Op ι R) := do
  let processNew ← q.1.reverse.mapM rawElem
  return Dict.set opDagger processNew (star q.2)

theorem daggerOpRaw_def (op : Dict (List (ι × String)) R) :
    daggerOpRaw op = op.foldlM rawStep [] := rfl

theorem mapM_parse_ok (p : Process ι) :
    (p.map fun e => (e.1, e.2.str)).mapM rawElem = .ok (p.map fun e => (e.1, e.2.dagger)) := by
  induction p with
  | nil => rfl
  | cons e p ih =>
    rw [List.map_cons, List.mapM_cons, ih, rawElem, parseAction_str]
    rfl

theorem daggerOpRaw_ok (op : Op ι R) :
    daggerOpRaw (op.map fun q => (q.1.map fun e => (e.1, e.2.str), q.2)) = .ok (daggerOp op) := by
  rw [daggerOpRaw_def]
  unfold daggerOp
  have : ∀ d : Op ι R, List.foldlM rawStep d (op.map fun q => (q.1.map fun e => (e.1, e.2.str), q.2))
      = .ok (op.foldl (fun opDagger q =>
      Dict.set opDagger (q.1.reverse.map fun e => (e.1, e.2.dagger)) (star q.2)) d) := by
    induction op with
    | nil => intro d; rfl
    | cons q op ih =>
      intro d
      rw [List.map_cons, List.foldlM_cons, rawStep]
      simp only
      rw [← List.map_reverse, mapM_parse_ok]
      exact ih _
  exact this []

theorem mapM_parse_error (p : List (ι × String)) (h : ∃ e ∈ p, e.2 ≠ "a" ∧ e.2 ≠ "c") :
    p.mapM rawElem = .error .exception := by
  induction p with
  | nil => obtain ⟨e, he, -⟩ := h; simp at he
  | cons e p ih =>
    rw [List.mapM_cons]
    by_cases he : e.2 ≠ "a" ∧ e.2 ≠ "c"
    · rw [rawElem, parseAction_error _ he.1 he.2]; rfl
    · have hrest : ∃ e ∈ p, e.2 ≠ "a" ∧ e.2 ≠ "c" := by
        obtain ⟨e', he', h'⟩ := h
        rcases List.mem_cons.1 he' with rfl | hm
        · exact absurd h' he
        · exact ⟨e', hm, h'⟩
      rw [ih hrest, rawElem]
      unfold parseAction
      split
      · rfl
      · split
        · rfl
        · rfl

theorem mapM_parse_known (p : List (ι × String)) (hp : ∀ e ∈ p, e.2 = "a" ∨ e.2 = "c") :
    ∃ r, p.mapM rawElem = .ok r := by
  induction p with
  | nil => exact ⟨[], rfl⟩
  | cons e p ihp =>
    obtain ⟨r, hr⟩ := ihp (fun e he => hp e (by simp [he]))
    rw [List.mapM_cons, hr, rawElem]
    rcases hp e (by simp) with h | h <;> rw [h]
    · exact ⟨_, rfl⟩
    · exact ⟨_, rfl⟩

theorem daggerOpRaw_error (op : Dict (List (ι × String)) R)
    (h : ∃ q ∈ op, ∃ e ∈ q.1, e.2 ≠ "a" ∧ e.2 ≠ "c") : daggerOpRaw op = .error .exception := by
  rw [daggerOpRaw_def]
  have : ∀ d : Op ι R, List.foldlM rawStep d op = .error .exception := by
    induction op with
    | nil => obtain ⟨q, hq, -⟩ := h; simp at hq
    | cons q op ih =>
      intro d
      rw [List.foldlM_cons, rawStep]
      by_cases hq : ∃ e ∈ q.1, e.2 ≠ "a" ∧ e.2 ≠ "c"
      · rw [mapM_parse_error]
        · rfl
        · obtain ⟨e, he, h'⟩ := hq; exact ⟨e, by simpa using he, h'⟩
      · have hrest : ∃ q ∈ op, ∃ e ∈ q.1, e.2 ≠ "a" ∧ e.2 ≠ "c" := by
          obtain ⟨q', hq', h'⟩ := h
          rcases List.mem_cons.1 hq' with rfl | hm
          · exact absurd h' hq
          · exact ⟨q', hm, h'⟩
        have hall : ∀ e ∈ q.1.reverse, e.2 = "a" ∨ e.2 = "c" := by
          intro e he
          by_contra hc
          exact hq ⟨e, by simpa using he, not_or.1 hc⟩
        obtain ⟨r, hr⟩ := mapM_parse_known _ hall
        rw [hr]
        exact ih hrest _
  exact this []

end

end Verif
