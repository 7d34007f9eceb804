/-
Specification of the spin-orbital numbering: which labels exist in a system and
where each group of spin-orbitals lies.
-/
import Verif.Model.Index

namespace Verif.Spec

/-- The angular momenta of a key. -/
def angulars : LKey → List ℕ
  | .int l => [l]
  | .tup ls => ls

/-- The angular momenta of the system in order. -/
def allAngulars (nBaths : NBaths) : List ℕ := nBaths.flatMap fun p => angulars p.1

/-- A sensible system: a dict (distinct keys), and no angular momentum occurs twice. -/
structure GoodSystem (nBaths : NBaths) : Prop where
  keys : Dict.NodupKeys nBaths
  angulars : (allAngulars nBaths).Nodup

/-- The label belongs to the system. -/
def InSystem (nBaths : NBaths) : Label → Prop
  | .imp l s m => l ∈ allAngulars nBaths ∧ 0 ≤ s ∧ s < 2 ∧ -(l : ℤ) ≤ m ∧ m ≤ l
  | .bath lp b => ∃ nb, (lp, nb) ∈ nBaths ∧ 0 ≤ b ∧ b < nb

/-- Number of spin-orbitals in the shells `ls`. -/
def shellsSize (ls : List ℕ) : ℕ := (ls.map fun l => 2 * (2 * l + 1)).sum

/-- Number of impurity spin-orbitals. -/
def nImpurity (nBaths : NBaths) : ℕ := shellsSize (allAngulars nBaths)

/-- Number of bath states. -/
def nBath (nBaths : NBaths) : ℕ := (nBaths.map Prod.snd).sum

/-- Number of spin-orbitals. -/
def nTotal (nBaths : NBaths) : ℕ := nImpurity nBaths + nBath nBaths

/-- Index of the first spin-orbital of shell `l`: the shells before it. -/
def impStart (nBaths : NBaths) (l : ℕ) : ℕ :=
  shellsSize ((allAngulars nBaths).takeWhile (· ≠ l))

/-- Index of the first bath state of key `lp`: all impurity spin-orbitals and
the bath states of the keys before it. -/
def bathStart (nBaths : NBaths) (lp : LKey) : ℕ :=
  nImpurity nBaths + ((nBaths.takeWhile (·.1 ≠ lp)).map Prod.snd).sum

end Verif.Spec
