/-
Model of the occupation restrictions for the excited states,
impurityModel/ed/get_spectra.py:153-169 (the same lines occur in
get_spectra_using_CF.py).
-/
import Verif.Model.State
import Verif.Model.GetBasis

namespace Verif

/-- get_spectra.py:153-169: the restrictions for the excited states, `l = 2`.
A dict with frozensets as keys; an assignment to an existing key overwrites. -/
def mainRestrictions (nBaths : Dict ℕ ℕ) (nValBaths n0imps dnTols dnValBaths dnConBaths : Dict ℕ ℤ) :
    Py Restrictions := do
  let l := 2
  let indices ← ((pyRange 0 2).flatMap fun s =>
    (pyRange (-l) (l + 1)).map fun m => Label.imp 2 s m).mapM (c2i (intKeys nBaths))
  let n0 ← Dict.get n0imps 2
  let tol ← Dict.get dnTols 2
  let r : Restrictions := Dict.set [] indices.toFinset (n0 - 1, n0 + tol + 1)
  let nVal ← Dict.get nValBaths 2
  let indices ← ((pyRange 0 nVal).map fun b => Label.bath (.int 2) b).mapM (c2i (intKeys nBaths))
  let dnVal ← Dict.get dnValBaths 2
  let r : Restrictions := Dict.set r indices.toFinset (nVal - dnVal, nVal)
  let nb ← Dict.get nBaths 2
  let indices ← ((pyRange nVal nb).map fun b => Label.bath (.int 2) b).mapM (c2i (intKeys nBaths))
  let dnCon ← Dict.get dnConBaths 2
  return Dict.set r indices.toFinset (0, dnCon)

end Verif
