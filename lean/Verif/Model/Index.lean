/-
Model of the spin-orbital numbering, impurityModel/ed/finite.py:731-840
(`c2i`, `i2c`).
-/
import Verif.Py.Dict
import Mathlib.Algebra.Order.Group.Int

namespace Verif

/-- Python `range(a, b)`. -/
def pyRange (a b : ℤ) : List ℤ := (List.range (b - a).toNat).map fun (k : ℕ) => a + (k : ℤ)

/-- A key of `nBaths` (finite.py:737-743): an angular momentum, or a tuple of
angular momenta that share bath states.  Angular momenta are natural numbers. -/
inductive LKey where
  | int (l : ℕ)
  | tup (ls : List ℕ)
  deriving DecidableEq, Repr

/-- A spin-orbital label (finite.py:744-745): `(l, s, m)`, or `(key, b)`.
`s`, `m`, `b` are arbitrary Python ints. -/
inductive Label where
  | imp (l : ℕ) (s m : ℤ)
  | bath (lp : LKey) (b : ℤ)
  deriving DecidableEq, Repr

/-- The ordered dict `nBaths`; the numbers of bath states are natural numbers. -/
abbrev NBaths := Dict LKey ℕ

/-- A loop body that may `return r` from the enclosing function (`.error r`) or
go on with the value `s` of the loop variable (`.ok s`). -/
abbrev Loop (ρ σ : Type*) := Except ρ σ

namespace C2i

/-- finite.py:757-761, and 765-769: the loops over `sp` and `mp`. -/
def shell (spinOrb : Label) (i : ℕ) (l : ℕ) : Loop ℕ ℕ :=
  (pyRange 0 2).foldlM (fun i s =>
    (pyRange (-l) (l + 1)).foldlM (fun i m =>
      if Label.imp l s m = spinOrb then .error i else .ok (i + 1)) i) i

/-- finite.py:755-769: one round of the loop over the keys. -/
def key (spinOrb : Label) (i : ℕ) : LKey → Loop ℕ ℕ
  | .int l => shell spinOrb i l
  | .tup ls => ls.foldlM (shell spinOrb) i

/-- finite.py:772-776: the loop over the bath states. -/
def baths (spinOrb : Label) (i : ℕ) (d : NBaths) : Loop ℕ ℕ :=
  d.foldlM (fun i p =>
    (List.range p.2).foldlM (fun i (b : ℕ) =>
      if Label.bath p.1 (b : ℤ) = spinOrb then .error i else .ok (i + 1)) i) i

end C2i

/-- finite.py:731-778 `c2i`. -/
def c2i (nBaths : NBaths) (spinOrb : Label) : Py ℕ :=
  match (do let i ← (Dict.keys nBaths).foldlM (C2i.key spinOrb) 0
            C2i.baths spinOrb i nBaths : Loop ℕ ℕ) with
  | .error i => .ok i
  | .ok _ => .error .exception

namespace I2c

/-- finite.py:812-819, and 823-830: one angular momentum.  The inner loops also
advance `k` when they do not return. -/
def shell (i : ℤ) (k : ℤ) (l : ℕ) : Loop Label ℤ := do
  let k ← if i - k < 2 * (2 * l + 1) then
      (pyRange 0 2).foldlM (fun k s =>
        (pyRange (-l) (l + 1)).foldlM (fun k m =>
          if k = i then .error (Label.imp l s m) else .ok (k + 1)) k) k
    else .ok k
  .ok (k + 2 * (2 * l + 1))

/-- finite.py:810-830: one round of the loop over the keys. -/
def key (i : ℤ) (k : ℤ) : LKey → Loop Label ℤ
  | .int l => shell i k l
  | .tup ls => ls.foldlM (shell i) k

/-- finite.py:833-839: the loop over the bath states. -/
def baths (i : ℤ) (k : ℤ) (d : NBaths) : Loop Label ℤ :=
  d.foldlM (fun k p => if i - k < p.2 then .error (Label.bath p.1 (i - k)) else .ok (k + p.2)) k

end I2c

/-- finite.py:783-841 `i2c`. -/
def i2c (nBaths : NBaths) (i : ℤ) : Py Label :=
  match (do let k ← (Dict.keys nBaths).foldlM (I2c.key i) 0
            I2c.baths i k nBaths : Loop Label ℤ) with
  | .error lab => .ok lab
  | .ok _ => .error .exception

end Verif
