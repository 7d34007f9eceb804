/-
A model of the MPI calls used in /repo: bcast, Bcast, reduce, Reduce, send, recv
(impurityModel/ed/finite.py, mpi_comm.py, spectra.py).

A rank is a sequential program that stops at each MPI call.  Two semantics are
given for a family of ranks.  In the synchronous one a message is handed over
when sender and receiver are both ready, and a collective completes when all
ranks have reached it.  In the buffered one a sender never waits, the root of a
bcast never waits and only the root of a reduce waits.  MPI allows both.
-/
import Verif.Py.Basic
import Mathlib.Logic.Function.Basic
import Mathlib.Data.Fintype.Basic
import Mathlib.Data.List.OfFn

namespace Verif.Mpi

/-- The collective operations. -/
inductive Coll where
  /-- `comm.bcast(v, root)`, `comm.Bcast(v, root)` -/
  | bcast (root : ℕ)
  /-- `comm.reduce(v)`, `comm.Reduce(v, out)` (sum, to `root`) -/
  | reduce (root : ℕ)
  deriving DecidableEq, Repr

/-- A rank's program.  `M` are the messages, `A` the results. -/
inductive Prog (M A : Type) : Type where
  | ret (a : A)
  /-- a raised exception -/
  | fail (e : PyErr)
  /-- A collective with this rank's contribution.  The continuation gets the
  broadcast value; for a reduce it gets the sum on the root, and `none` on the
  other ranks. -/
  | coll (c : Coll) (v : M) (k : Option M → Prog M A)
  /-- `comm.send(v, dest, tag)` -/
  | send (dest tag : ℕ) (v : M) (k : Prog M A)
  /-- `comm.recv(source, tag)` -/
  | recv (source tag : ℕ) (k : M → Prog M A)

/-- Sequential composition. -/
def Prog.bind {M A B : Type} : Prog M A → (A → Prog M B) → Prog M B
  | .ret a, f => f a
  | .fail e, _ => .fail e
  | .coll c v k, f => .coll c v fun m => (k m).bind f
  | .send d t v k, f => .send d t v (k.bind f)
  | .recv s t k, f => .recv s t fun m => (k m).bind f

instance {M : Type} : Monad (Prog M) where
  pure := .ret
  bind := Prog.bind

/-- Local Python code inside a rank's program. -/
def Prog.lift {M A : Type} : Py A → Prog M A
  | .ok a => .ret a
  | .error e => .fail e

/-- `comm.bcast(v, root)`. -/
def bcast {M : Type} (root : ℕ) (v : M) : Prog M M :=
  .coll (.bcast root) v fun m => .ret (m.getD v)

/-- `comm.reduce(v)`; `none` on all ranks but the root. -/
def reduce {M : Type} (root : ℕ) (v : M) : Prog M (Option M) :=
  .coll (.reduce root) v .ret

/-- `comm.send`. -/
def send {M : Type} (dest tag : ℕ) (v : M) : Prog M Unit := .send dest tag v (.ret ())

/-- `comm.recv`. -/
def recv {M : Type} (source tag : ℕ) : Prog M M := .recv source tag .ret

variable {M A : Type} {N : ℕ}

/-- What a collective gives to rank `r` when the ranks contribute `vs`.  `sum` is
the reduction. -/
def collResult (sum : List M → M) (c : Coll) (vs : Fin N → M) (r : Fin N) : Option M :=
  match c with
  | .bcast root => if h : root < N then some (vs ⟨root, h⟩) else none
  | .reduce root => if r.val = root then some (sum (List.ofFn vs)) else none

/-! ### synchronous semantics -/

/-- One step of the ranks together. -/
inductive SyncStep (sum : List M → M) : (Fin N → Prog M A) → (Fin N → Prog M A) → Prop where
  /-- All ranks have reached the same collective. -/
  | coll (σ : Fin N → Prog M A) (c : Coll) (vs : Fin N → M) (ks : Fin N → Option M → Prog M A)
      (hpos : 0 < N) (h : ∀ r, σ r = .coll c (vs r) (ks r))
      (hroot : ∀ root, c = .bcast root ∨ c = .reduce root → root < N) :
      SyncStep sum σ (fun r => ks r (collResult sum c vs r))
  /-- Sender and receiver are both ready. -/
  | msg (σ : Fin N → Prog M A) (s d : Fin N) (tag : ℕ) (v : M) (k : Prog M A)
      (k' : M → Prog M A) (hsd : s ≠ d) (hs : σ s = .send d tag v k) (hd : σ d = .recv s tag k') :
      SyncStep sum σ (Function.update (Function.update σ s k) d (k' v))

/-! ### buffered semantics -/

/-- State of the buffered semantics. -/
structure BufState (M A : Type) (N : ℕ) where
  prog : Fin N → Prog M A
  /-- messages on the way: source, destination, tag -/
  chan : Fin N → Fin N → ℕ → List M
  /-- number of collectives this rank has completed -/
  count : Fin N → ℕ
  /-- this rank has contributed to the collective it is at -/
  entered : Fin N → Bool
  /-- contribution of a rank to its `i`-th collective -/
  slot : ℕ → Fin N → Option (Coll × M)

/-- The contributions of all ranks to the `i`-th collective, if all are there and
all are for `c`. -/
def gathered (slot : ℕ → Fin N → Option (Coll × M)) (i : ℕ) (c : Coll) : Option (List M) :=
  (List.ofFn (slot i)).mapM fun x => match x with
    | some (c', v) => if c' = c then some v else none
    | none => none

/-- What a rank gets from a collective as soon as the contributions it needs are
there; `none` while it has to wait. -/
def available (sum : List M → M) (slot : ℕ → Fin N → Option (Coll × M)) (i : ℕ) (c : Coll)
    (r : Fin N) : Option (Option M) :=
  match c with
  | .bcast root =>
    if h : root < N then
      match slot i ⟨root, h⟩ with
      | some (c', v) => if c' = .bcast root then some (some v) else none
      | none => none
    else none
  | .reduce root =>
    if root < N then
      if r.val = root then
        match gathered slot i c with
        | some vs => some (some (sum vs))
        | none => none
      else some none
    else none

/-- One step of rank `r`, or `none` if it has finished or must wait. -/
def bufStep (sum : List M → M) (σ : BufState M A N) (r : Fin N) : Option (BufState M A N) :=
  match σ.prog r with
  | .ret _ => none
  | .fail _ => none
  | .coll c v k =>
    if σ.entered r then
      match available sum σ.slot (σ.count r) c r with
      | some m => some { σ with
          prog := Function.update σ.prog r (k m)
          count := Function.update σ.count r (σ.count r + 1)
          entered := Function.update σ.entered r false }
      | none => none
    else
      match σ.slot (σ.count r) r with
      | some _ => none
      | none => some { σ with
          entered := Function.update σ.entered r true
          slot := fun i s => if i = σ.count r ∧ s = r then some (c, v) else σ.slot i s }
  | .send d t v k =>
    if h : d < N then
      if d = r.val then none
      else some { σ with
        prog := Function.update σ.prog r k
        chan := fun a b t' => if a = r ∧ b = ⟨d, h⟩ ∧ t' = t then σ.chan a b t' ++ [v]
          else σ.chan a b t' }
    else none
  | .recv s t k =>
    if h : s < N then
      match σ.chan ⟨s, h⟩ r t with
      | [] => none
      | v :: rest => some { σ with
          prog := Function.update σ.prog r (k v)
          chan := fun a b t' => if a = ⟨s, h⟩ ∧ b = r ∧ t' = t then rest else σ.chan a b t' }
    else none

/-- Some rank makes a step. -/
def BufStep (sum : List M → M) (σ τ : BufState M A N) : Prop := ∃ r, bufStep sum σ r = some τ

/-- The start of the buffered semantics. -/
def bufInit (P : Fin N → Prog M A) : BufState M A N where
  prog := P
  chan := fun _ _ _ => []
  count := fun _ => 0
  entered := fun _ => false
  slot := fun _ _ => none

/-! ### every schedule completes -/

/-- `n` steps. -/
inductive Steps {σ : Type} (step : σ → σ → Prop) : ℕ → σ → σ → Prop where
  | refl (a : σ) : Steps step 0 a a
  | head {n : ℕ} {a b c : σ} : step a b → Steps step n b c → Steps step (n + 1) a c

/-- Whatever steps are chosen from `init`, the run has at most `L` steps, never
gets stuck before the end, and every run that goes on as long as it can ends in a
state that satisfies `final`. -/
def AlwaysReaches {σ : Type} (step : σ → σ → Prop) (init : σ) (final : σ → Prop) : Prop :=
  ∃ L, ∀ m s, Steps step m init s → m ≤ L ∧ (m = L → final s ∧ ∀ t, ¬ step s t) ∧
    (m < L → ∃ t, step s t)

/-- Under every schedule of both semantics all ranks finish, rank `r` with the
result `out r`, and no message is left over. -/
structure AllRanksFinish (sum : List M → M) (P : Fin N → Prog M A) (out : Fin N → A) : Prop where
  sync : AlwaysReaches (SyncStep sum) P (fun σ => ∀ r, σ r = .ret (out r))
  buffered : AlwaysReaches (BufStep sum) (bufInit P)
    (fun σ => (∀ r, σ.prog r = .ret (out r)) ∧ ∀ s d t, σ.chan s d t = [])

/-- Some schedule of one of the semantics ends with the results `out`. -/
def CanFinish (sum : List M → M) (P : Fin N → Prog M A) (out : Fin N → A) : Prop :=
  (∃ k f, Steps (SyncStep sum) k P f ∧ ∀ r, f r = .ret (out r)) ∨
  (∃ k f, Steps (BufStep sum) k (bufInit P) f ∧ ∀ r, f.prog r = .ret (out r))

end Verif.Mpi
