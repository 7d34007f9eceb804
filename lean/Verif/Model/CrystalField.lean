/-
Model of the crystal-field Hamiltonian, impurityModel/ed/get_spectra_using_CF.py:335-640.
-/
import Verif.Model.Assemble
import Verif.Model.Observables

namespace Verif

noncomputable section

/-- The ten crystal-field parameters in the order of the tuple, lines 459-470. -/
structure CFParams where
  eImp : ℝ
  eDeltaO : ℝ
  eValEg : ℝ
  eValT2g : ℝ
  eConEg : ℝ
  eConT2g : ℝ
  vValEg : ℝ
  vValT2g : ℝ
  vConEg : ℝ
  vConT2g : ℝ

/-- get_spectra_using_CF.py:566-640 `read_h0_CF_file`; `parameters` is the content of the
json file. -/
def readH0CFFile (parameters : Dict String ℝ) : CFParams where
  eImp := (Dict.get? parameters "e_imp").getD (-1.31796)
  eDeltaO := (Dict.get? parameters "e_deltaO_imp").getD 0.60422
  eValEg := (Dict.get? parameters "e_val_eg").getD (-4.4)
  eValT2g := (Dict.get? parameters "e_val_t2g").getD (-6.5)
  eConEg := (Dict.get? parameters "e_con_eg").getD 3
  eConT2g := (Dict.get? parameters "e_con_t2g").getD 2
  vValEg := (Dict.get? parameters "v_val_eg").getD 1.883
  vValT2g := (Dict.get? parameters "v_val_t2g").getD 1.395
  vConEg := (Dict.get? parameters "v_con_eg").getD 0.6
  vConT2g := (Dict.get? parameters "v_con_t2g").getD 0.4

/-- `np.dot(a, b)` of two matrices of matching sizes. -/
def CMat.dot (a b : CMat) : CMat :=
  ⟨a.rows, b.cols, fun i j => ∑ k ∈ Finset.range a.cols, a.val i k * b.val k j⟩

/-- `np.conj(a.T)`. -/
def CMat.conjT (a : CMat) : CMat := ⟨a.cols, a.rows, fun i j => star (a.val j i)⟩

/-- `np.eye(n)`. -/
def CMat.eye (n : ℕ) : CMat := ⟨n, n, fun i j => if i = j then 1 else 0⟩

/-- Lines 478-479, 505-512: a zero 5×5 matrix with diagonal `(eg, eg, t2g, t2g, t2g)`. -/
def egT2gDiagonal (eg t2g : ℝ) : CMat :=
  ⟨5, 5, fun i j => if i = j then (([eg, eg, t2g, t2g, t2g].getD i 0 : ℝ) : ℂ) else 0⟩

/-- `enumerate(range(-l, l + 1))` for `l = 2`. -/
def enumD : List (ℤ × ℕ) := (pyRange (-2) 3).zipIdx

/-- Lines 485-490: the impurity operator. -/
def hImpOperator (h : CMat) : Op Label ℂ :=
  Dict.update [] <| enumD.flatMap fun i => enumD.flatMap fun j =>
    if h.val i.2 j.2 ≠ 0 then
      (pyRange 0 2).map fun s => (oneProcess (.imp 2 s i.1) (.imp 2 s j.1), h.val i.2 j.2)
    else []

/-- Bath state `bi_val` (line 540). -/
def biVal (s : ℤ) (i : ℕ) : ℤ := s * (2 * 2 + 1) + i
/-- Bath state `bi_con` (line 542). -/
def biCon (s : ℤ) (i : ℕ) : ℤ := 2 * (2 * 2 + 1) + biVal s i

/-- The label of a bath state. -/
def bathLabel (b : ℤ) : Label := .bath (.int 2) b

/-- Lines 533-567, the assignments to `h_hopp_operator`.  The loop also fills
`e_bath_3d_operator`, a different dict, see below. -/
def hHoppOperator (vVal vCon : CMat) (con : Bool) : Op Label ℂ :=
  Dict.update [] <| (pyRange 0 2).flatMap fun s => enumD.flatMap fun i => enumD.flatMap fun j =>
    (if vVal.val i.2 j.2 ≠ 0 then
      [(oneProcess (bathLabel (biVal s i.2)) (.imp 2 s j.1), vVal.val i.2 j.2),
       (oneProcess (.imp 2 s j.1) (bathLabel (biVal s i.2)), star (vVal.val i.2 j.2))] else []) ++
    (if con then
      if vCon.val i.2 j.2 ≠ 0 then
        [(oneProcess (bathLabel (biCon s i.2)) (.imp 2 s j.1), vCon.val i.2 j.2),
         (oneProcess (.imp 2 s j.1) (bathLabel (biCon s i.2)), star (vCon.val i.2 j.2))] else []
    else [])

/-- Lines 533-567, the assignments to `e_bath_3d_operator`. -/
def eBathOperator (eVal eCon : CMat) (con : Bool) : Op Label ℂ :=
  Dict.update [] <| (pyRange 0 2).flatMap fun s => enumD.flatMap fun i => enumD.flatMap fun j =>
    (if eVal.val i.2 j.2 ≠ 0 then
      [(oneProcess (bathLabel (biVal s i.2)) (bathLabel (biVal s j.2)), eVal.val i.2 j.2)] else []) ++
    (if con then
      if eCon.val i.2 j.2 ≠ 0 then
        [(oneProcess (bathLabel (biCon s i.2)) (bathLabel (biCon s j.2)), eCon.val i.2 j.2)] else []
    else [])

/-- get_spectra_using_CF.py:433-571 `get_CF_hamiltonian`.  `nBaths[l]` and `nValBaths[l]` are
looked up in every round of the loop; the lookups are done once here. -/
def getCFHamiltonian (nBaths : Dict ℕ ℕ) (nValBaths : Dict ℕ ℤ) (P : CFParams) (bathStateBasis : String) :
    Py (Op Label ℂ) := do
  let eImpEg := P.eImp + 3 / 5 * P.eDeltaO
  let eImpT2g := P.eImp - 2 / 5 * P.eDeltaO
  let u ← getSpherical2CubicMatrix false 2
  let hImp := u.dot ((egT2gDiagonal eImpEg eImpT2g).dot u.conjT)
  let uBath ← if bathStateBasis = "spherical" then pure u
    else if bathStateBasis = "cubic" then pure (CMat.eye u.rows)
    else throw .exception
  let vVal := uBath.dot ((egT2gDiagonal P.vValEg P.vValT2g).dot u.conjT)
  let vCon := uBath.dot ((egT2gDiagonal P.vConEg P.vConT2g).dot u.conjT)
  let eBathVal := uBath.dot ((egT2gDiagonal P.eValEg P.eValT2g).dot uBath.conjT)
  let eBathCon := uBath.dot ((egT2gDiagonal P.eConEg P.eConT2g).dot uBath.conjT)
  let nb ← Dict.get nBaths 2
  let nVal ← Dict.get nValBaths 2
  let con : Bool := (nb : ℤ) - nVal = 10
  return addOps [hImpOperator hImp, hHoppOperator vVal vCon con, eBathOperator eBathVal eBathCon con]

/-- get_spectra_using_CF.py:335-430 `get_hamiltonian_operator_using_CF`: all steps other than
line 404 are those of `get_hamiltonian_operator`.  Simplification: the crystal-field operator is made
first, which only matters for which exception is raised when `dc_MLFT` also raises. -/
def getHamiltonianOperatorUsingCF (gaunt : GauntFun) (nBaths : Dict ℕ ℕ) (nValBaths : Dict ℕ ℤ)
    (Fdd Fpp Fpd Gpd : List ℝ) (xi2p xi3d : ℝ) (n0imps : Dict ℕ ℤ) (c hx hy hz : ℝ)
    (parameters : Dict String ℝ) (bathStateBasis : String) : Py (Op ℕ ℂ) := do
  let h0 ← getCFHamiltonian nBaths nValBaths (readH0CFFile parameters) bathStateBasis
  getHamiltonianOperator gaunt (intKeys nBaths) Fdd Fpp Fpd Gpd xi2p xi3d n0imps c hx hy hz h0

end

end Verif
