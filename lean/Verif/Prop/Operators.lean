/-
C18, C28: daggerOp and addOps.
-/
import Verif.Spec.Cache
import Verif.Lemmas.Operators
import Verif.Prop.ApplyOp

namespace Verif

open Finset Psr Spec

section
variable {ι R : Type} [DecidableEq ι] [CommRing R] [StarRing R]

/-- C18.  `daggerOp` is an involution. -/
theorem C18_involution (op : Op ι R) (hop : Dict.NodupKeys op) : daggerOp (daggerOp op) = op :=
  daggerOp_daggerOp op hop

/-- C18.  `daggerOp` loses no process: each process, reversed and with creation
and annihilation exchanged, occurs with the conjugated strength, and nothing else. -/
theorem C18_processes (op : Op ι R) (hop : Dict.NodupKeys op) (p : Process ι) :
    Dict.get? (daggerOp op) (p.reverse.map fun e => (e.1, e.2.dagger)) = (Dict.get? op p).map star := by
  rw [daggerOp_eq op hop]
  change Dict.get? (op.map fun q => (dagProcess q.1, star q.2)) (dagProcess p) = _
  clear hop
  induction op with
  | nil => rfl
  | cons q op ih =>
    obtain ⟨k, v⟩ := q
    rw [List.map_cons, Dict.get?_cons, Dict.get?_cons, ih]
    simp only [dagProcess_injective.eq_iff]
    split <;> rfl

end

/-- C18.  `daggerOp` raises exactly when some process contains an action other
than `'a'` and `'c'`. -/
theorem C18_raises_iff {ι R : Type} [DecidableEq ι] [Star R] (op : Dict (List (ι × String)) R) :
    (∃ e, daggerOpRaw op = .error e) ↔ ∃ q ∈ op, ∃ x ∈ q.1, x.2 ≠ "a" ∧ x.2 ≠ "c" := by
  constructor
  · rintro ⟨e, he⟩
    by_contra hc
    have : ∃ op' : Op ι R, op = op'.map fun q => (q.1.map fun e => (e.1, e.2.str), q.2) := by
      clear he
      induction op with
      | nil => exact ⟨[], rfl⟩
      | cons q op ih =>
        obtain ⟨op', h'⟩ := ih (by
          rintro ⟨q', hq', x, hx⟩
          exact hc ⟨q', by simp [hq'], x, hx⟩)
        have hq : ∃ p : Process ι, q.1 = p.map fun e => (e.1, e.2.str) := by
          have hall : ∀ x ∈ q.1, x.2 = "a" ∨ x.2 = "c" := by
            intro x hx
            by_contra hn
            exact hc ⟨q, by simp, x, hx, not_or.1 hn⟩
          generalize q.1 = l at hall
          induction l with
          | nil => exact ⟨[], rfl⟩
          | cons x l ihl =>
            obtain ⟨p, hp⟩ := ihl (fun y hy => hall y (by simp [hy]))
            rcases hall x (by simp) with h | h
            · exact ⟨(x.1, .a) :: p, by simp [hp, Action.str, ← h]⟩
            · exact ⟨(x.1, .c) :: p, by simp [hp, Action.str, ← h]⟩
        obtain ⟨p, hp⟩ := hq
        exact ⟨(p, q.2) :: op', by simp [h', ← hp]⟩
    obtain ⟨op', rfl⟩ := this
    rw [daggerOpRaw_ok] at he
    cases he
  · intro h
    exact ⟨_, daggerOpRaw_error op h⟩

/-- C18.  On well-formed operators the version with action strings is the model
used everywhere else. -/
theorem C18_raw_agrees {ι R : Type} [DecidableEq ι] [Star R] (op : Op ι R) :
    daggerOpRaw (op.map fun q => (q.1.map fun e => (e.1, e.2.str), q.2)) = .ok (daggerOp op) :=
  daggerOpRaw_ok op

section
variable {R F : Type} [CommRing R] [StarRing R] [CommRing F] [LinearOrder F]
  [IsStrictOrderedRing F] [Amp R F]

/-- A cutoff of 0 drops nothing. -/
theorem nothingPruned_zero (n : ℕ) (op : Op ℕ R) (psi : Psi R) (cut : F) (h : cut ≤ 0) :
    NothingPruned n op psi cut := fun _ _ => Or.inr (h.trans (Amp.abs2_nonneg _))

/-- C18.  `inner(phi, applyOp(op, psi)) = inner(applyOp(daggerOp(op), phi), psi)`
when the cutoff drops nothing. -/
theorem C18_adjoint (n : ℕ) (op : Op ℕ R) (hnd : Dict.NodupKeys op) (hop : OpInSystem n op)
    (phi psi : Psi R) (hphi : IsState n phi) (hpsi : IsState n psi) (cut : F)
    (h1 : NothingPruned n op psi cut) (h2 : NothingPruned n (daggerOp op) phi cut) :
    ∃ opPsi opPhi, applyOp n op psi cut none none = .ok (opPsi, none) ∧
      applyOp n (daggerOp op) phi cut none none = .ok (opPhi, none) ∧
      inner phi opPsi = inner opPhi psi := by
  have hop' := opInSystem_daggerOp hnd hop
  refine ⟨_, _, applyOp_eq hop hpsi cut none, applyOp_eq hop' hphi cut none, ?_⟩
  rw [inner_eq (isState_applyOpPure hop hpsi cut none), inner_eq hpsi]
  have e1 : innerProduct n (ampl n phi) (ampl n (applyOpPure n op psi cut none))
      = innerProduct n (ampl n phi) (operator (opSpec op) (ampl n psi)) := by
    unfold innerProduct
    apply sum_congr rfl
    intro S hS
    rw [ampl_applyOpPure hop hpsi cut none (mem_powerset.1 hS)]
    rcases h1 S (mem_powerset.1 hS) with h | h
    · rw [h]; simp
    · rw [if_pos ⟨trivial, h⟩]
  have e2 : innerProduct n (ampl n (applyOpPure n (daggerOp op) phi cut none)) (ampl n psi)
      = innerProduct n (operator (opSpec (daggerOp op)) (ampl n phi)) (ampl n psi) := by
    unfold innerProduct
    apply sum_congr rfl
    intro S hS
    rw [ampl_applyOpPure hop' hphi cut none (mem_powerset.1 hS)]
    rcases h2 S (mem_powerset.1 hS) with h | h
    · rw [h]; simp
    · rw [if_pos ⟨trivial, h⟩]
  rw [e1, e2, innerProduct_daggerOp hnd hop]

variable [DecidableEq R]

/-- C28.  The operator returned by `addOps` is the sum of the operators. -/
theorem C28_addOps_sum (ops : List (Op ℕ R)) (f : Vec R) (S : Finset ℕ) :
    operator (opSpec (addOps ops)) f S = (ops.map fun op => operator (opSpec op) f S).sum :=
  operator_addOps ops f S

/-- C28, through `applyOp` (cutoff 0): the amplitudes add up. -/
theorem C28_addOps_applyOp (n : ℕ) (ops : List (Op ℕ R)) (hnd : ∀ op ∈ ops, Dict.NodupKeys op)
    (hops : ∀ op ∈ ops, OpInSystem n op)
    (psi : Psi R) (hpsi : IsState n psi) :
    ∃ total, applyOp n (addOps ops) psi (0 : F) none none = .ok (total, none) ∧
      ∃ parts : List (Psi R), List.Forall₂ (fun op part => applyOp n op psi (0 : F) none none
        = .ok (part, none)) ops parts ∧
      ∀ S ⊆ range n, ampl n total S = (parts.map fun p => ampl n p S).sum := by
  have hsum : OpInSystem n (addOps ops) := by
    intro q hq x hx
    have hk : q.1 ∈ Dict.keys (addOps ops) := List.mem_map.2 ⟨q, hq, rfl⟩
    obtain ⟨op, hop, hne⟩ := (addOps_get? ops hnd q.1).2.1 hk
    cases hg : Dict.get? op q.1 with
    | none => rw [hg] at hne; simp at hne
    | some v => exact hops op hop _ (Dict.mem_of_get? hg) x hx
  refine ⟨_, applyOp_eq hsum hpsi 0 none, ops.map fun op => applyOpPure n op psi (0 : F) none, ?_, ?_⟩
  · rw [List.forall₂_map_right_iff, List.forall₂_same]
    intro op hop
    exact applyOp_eq (hops op hop) hpsi 0 none
  · intro S hS
    rw [ampl_applyOpPure hsum hpsi 0 none hS, if_pos ⟨trivial, Amp.abs2_nonneg _⟩, operator_addOps,
      List.map_map]
    congr 1
    apply List.map_congr_left
    intro op hop
    simp only [Function.comp]
    rw [ampl_applyOpPure (hops op hop) hpsi 0 none hS, if_pos ⟨trivial, Amp.abs2_nonneg _⟩]

omit [StarRing R] in
/-- C28.  Strengths add up process by process; a process is present exactly when
one of the operators has it with a non-zero strength. -/
theorem C28_addOps_strengths {ι : Type} [DecidableEq ι] (ops : List (Op ι R))
    (hops : ∀ op ∈ ops, Dict.NodupKeys op) (p : Process ι) :
    Dict.NodupKeys (addOps ops) ∧
    (Dict.get? (addOps ops) p).getD 0 = (ops.map fun op => (Dict.get? op p).getD 0).sum ∧
    (p ∈ Dict.keys (addOps ops) ↔ ∃ op ∈ ops, (Dict.get? op p).getD 0 ≠ 0) :=
  ⟨nodupKeys_addOps ops, addOps_get? ops hops p⟩

end

/-! Non-vacuity. -/

example : daggerOp exOp =
    [([(0, .c), (2, .a)], 5), ([(2, .c), (0, .c), (2, .a), (1, .a)], 7), ([(0, .c), (0, .a)], -1)] := by
  decide
example : Dict.NodupKeys exOp := by decide
example : ∃ opPsi opPhi, applyOp 3 exOp exPsi (0 : ℤ) none none = .ok (opPsi, none) ∧
    applyOp 3 (daggerOp exOp) exPsi (0 : ℤ) none none = .ok (opPhi, none) ∧
    inner exPsi opPsi = inner opPhi exPsi :=
  C18_adjoint 3 exOp (by decide) exOp_inSystem exPsi exPsi exPsi_isState exPsi_isState 0
    (nothingPruned_zero _ _ _ _ le_rfl) (nothingPruned_zero _ _ _ _ le_rfl)
example : daggerOpRaw (ι := ℕ) (R := ℤ) [([(0, "c"), (1, "x")], 1)] = .error .exception := by decide
/-- A process that cancels stays as an explicit zero. -/
example : addOps [([([(0, .c), (0, .a)], 2)] : Op ℕ ℤ), [([(0, .c), (0, .a)], -2), ([], 0)]]
    = [([(0, .c), (0, .a)], 0)] := by decide

end Verif
