/-
Model of the assembly of the Hamiltonian operator,
impurityModel/ed/get_spectra.py:335-418 and get_spectra_using_CF.py:335-430.
-/
import Verif.Model.Operators
import Verif.Model.Average

namespace Verif

noncomputable section

/-- get_spectra.py:388-392: the double counting operator. -/
def eDCOperator (dc : ℝ × ℝ) : Op Label ℂ :=
  Dict.update [] <| [((2 : ℕ), dc.1), (1, dc.2)].flatMap fun p => (pyRange 0 2).flatMap fun s =>
    (pyRange (-(p.1 : ℤ)) (p.1 + 1)).map fun m =>
      (oneProcess (.imp p.1 s m) (.imp p.1 s m), ((-p.2 : ℝ) : ℂ))

/-- get_spectra.py:412-414: spin-orbital labels are replaced by indices. -/
def relabel {R : Type} (nBaths : NBaths) (op : Op Label R) : Py (Op ℕ R) :=
  op.foldlM (fun hOp q => do
    let process ← q.1.mapM fun e => do
      let i ← c2i nBaths e.1
      return (i, e.2)
    return Dict.set hOp process q.2) []

open Classical in
/-- get_spectra.py:335-418 `get_hamiltonian_operator` and the common part of
get_spectra_using_CF.py:335-430 `get_hamiltonian_operator_using_CF`.  `h0` is the
non-interacting operator, read from a pickle file (line 398) or made from crystal field
parameters.  A single number from `dc_MLFT` cannot be indexed (it is never returned,
since the 2p arguments are given). -/
def getHamiltonianOperator (gaunt : GauntFun) (nBaths : NBaths) (Fdd Fpp Fpd Gpd : List ℝ) (xi2p xi3d : ℝ)
    (n0imps : Dict ℕ ℤ) (c hx hy hz : ℝ) (h0 : Op Label ℂ) : Py (Op ℕ ℂ) := do
  let uOperator := get2p3dSlaterCondonUop gaunt Fdd Fpp Fpd Gpd
  let SOC2pOperator := getSOCop xi2p 1
  let SOC3dOperator := getSOCop xi3d 2
  let n3d ← Dict.get n0imps 2
  let n2p ← Dict.get n0imps 1
  let dc ← dcMLFT n3d c Fdd (some (n2p : ℝ)) (some Fpd) (some Gpd)
  let dc ← match dc with
    | .one _ => throw .typeError
    | .two d p => pure (d, p)
  let hHfieldOperator := gethHfieldop hx hy hz 2
  let hOperator := addOps [uOperator, hHfieldOperator, SOC2pOperator, SOC3dOperator, eDCOperator dc, h0]
  let hOp ← relabel nBaths hOperator
  if isHermitianOp hOp then return hOp else throw .assertionError

end

end Verif
