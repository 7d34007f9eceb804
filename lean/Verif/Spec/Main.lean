/-
Specification of main.
-/
import Verif.Model.Main
import Verif.Spec.Simulate
import Verif.Spec.Shell
import Verif.Spec.Assemble
import Verif.Spec.GetBasis
import Verif.Spec.Cache

namespace Verif.Spec

open Finset

/-- The matrix elements `⟨l m| C¹ |l' m'⟩` between the shells are zero or not tiny.  For
`l = 2`, `l' = 1` their smallest square is 1/15. -/
def GauntLarge (gaunt : ℕ → ℕ → ℕ → ℤ → ℤ → ℤ → ℝ) (ls : List ℕ) : Prop :=
  ∀ l ∈ ls, ∀ l' ∈ ls, ∀ m m', ck gaunt 1 l m l' m' = 0 ∨ 2e-7 ≤ ck gaunt 1 l m l' m' ^ 2

/-- The arguments describe a p shell with `b 1` and a d shell with `b 2` bath states, with the occupation
parameters `P` and the magnetic field `(hx, hy, hz)`; the non-interacting operator is `h0`. -/
structure Documented (A : MainArgs) (b : ℕ → ℕ) (P : BasisParams) (hx hy hz : ℝ) (h0 : Op Label ℂ) : Prop where
  ls : A.ls = [1, 2]
  nBaths : A.nBaths = [b 1, b 2]
  nValBaths : A.nValBaths = [P.val 1, P.val 2]
  n0imps : A.n0imps = [P.n0 1, P.n0 2]
  dnTols : A.dnTols = [P.tol 1, P.tol 2]
  dnValBaths : A.dnValBaths = [P.dnVal 1, P.dnVal 2]
  dnConBaths : A.dnConBaths = [P.dnCon 1, P.dnCon 2]
  hField : A.hField = [hx, hy, hz]
  Fdd : A.Fdd.length = 5
  Fpp : A.Fpp.length = 3
  Fpd : A.Fpd.length = 3
  Gpd : A.Gpd.length = 4
  h0 : (A.h0 = .pickle h0 ∧ Dict.NodupKeys h0) ∨ ∃ parameters, A.h0 = .crystalField parameters ∧
    getCFHamiltonian [(1, b 1), (2, b 2)] [(1, P.val 1), (2, P.val 2)] (readH0CFFile parameters) "spherical" = .ok h0

/-- The system with its bath states. -/
def pdSystem (b : ℕ → ℕ) : NBaths := [(.int 1, b 1), (.int 2, b 2)]

noncomputable section

/-- The average Coulomb energies `U_dd` and `U_pd`. -/
def averageUdd (Fdd : List ℝ) : ℝ := Fdd.getD 0 0 - 14 / 441 * (Fdd.getD 2 0 + Fdd.getD 4 0)

def averageUpd (Fpd Gpd : List ℝ) : ℝ := Fpd.getD 0 0 - 1 / 15 * Gpd.getD 1 0 - 3 / 70 * Gpd.getD 3 0

/-- The Hamiltonian: Coulomb interaction in and between the shells, magnetic field on the d
electrons, spin-orbit coupling, double counting for `n3d` d electrons and a full p shell, and the
non-interacting operator. -/
def pdHamiltonian (gaunt : ℕ → ℕ → ℕ → ℤ → ℤ → ℤ → ℝ) (f : Label → ℕ) (A : MainArgs) (n3d : ℤ) (hx hy hz : ℝ)
    (h0 : Op Label ℂ) (v : Vec ℂ) : Vec ℂ := fun S =>
  (twoBody f 2 2 2 2 (coulomb gaunt 2 2 2 2 A.Fdd) v S + twoBody f 1 1 1 1 (coulomb gaunt 1 1 1 1 A.Fpp) v S
    + (twoBody f 1 2 2 1 (coulomb gaunt 1 2 2 1 A.Fpd) v S + twoBody f 2 1 1 2 (coulomb gaunt 2 1 1 2 A.Fpd) v S)
    + (twoBody f 1 2 1 2 (coulomb gaunt 1 2 1 2 A.Gpd) v S + twoBody f 2 1 2 1 (coulomb gaunt 2 1 2 1 A.Gpd) v S))
  + oneBody f 2 (hDotS hx hy hz) v S
  + oneBody f 1 (fun x y => (A.xi2p : ℂ) * lDotS 1 x y) v S
  + oneBody f 2 (fun x y => (A.xi3d : ℂ) * lDotS 2 x y) v S
  - (((averageUdd A.Fdd * n3d + averageUpd A.Fpd A.Gpd * 6 - A.chargeTransferCorrection : ℝ) : ℂ) * shellNumber f 2 v S
    + ((averageUpd A.Fpd A.Gpd * (n3d + 1) - A.chargeTransferCorrection : ℝ) : ℂ) * shellNumber f 1 v S)
  + operator (labelSpec f h0) v S

/-- `es` are the lowest eigenvalues of the operator `op` in the space of the product states `states`, in
ascending order, and `psis` the corresponding eigenvectors `x` without components of weight less
than `weight`. -/
def LowestStates (n : ℕ) (op : Op ℕ ℂ) (cut weight : ℝ) (states : Finset (Finset ℕ)) (es : List ℝ)
    (psis : List (Psi ℂ)) : Prop :=
  es.Pairwise (· ≤ ·) ∧ psis.length = es.length ∧
  ∃ x : ℕ → Finset ℕ → ℂ,
    (∀ v < es.length, ∀ w < es.length, ∑ S ∈ states, star (x v S) * x w S = if v = w then 1 else 0) ∧
    (∀ v (hv : v < es.length), ∀ S ∈ states, ∑ T ∈ states, storedElement op cut S T * x v T = es[v] * x v S) ∧
    (∀ y : Finset ℕ → ℂ, (∀ v < es.length, ∑ S ∈ states, star (x v S) * y S = 0) → ∀ v (hv : v < es.length),
      es[v] * ∑ S ∈ states, Complex.normSq (y S)
        ≤ (∑ S ∈ states, ∑ T ∈ states, star (y S) * storedElement op cut S T * y T).re) ∧
    ∀ v (hv : v < psis.length), IsState n psis[v] ∧
      ∀ S, ampl n psis[v] S = if S ∈ states ∧ weight ≤ Complex.normSq (x v S) then x v S else 0

/-- `xs` are `k` equidistant points from `a` to `b`. -/
def Mesh (xs : List ℝ) (a b : ℝ) (k : ℕ) : Prop :=
  xs.length = k ∧ ∀ i (hi : i < xs.length), xs[i] = a + (b - a) * i / (k - 1)

/-- The meshes, broadenings, polarisations, wave vectors, cutoffs and library functions of the
spectra of main. -/
structure MainSpectraArgs (L : MainLib) (A : MainArgs) (S : SimulateArgs) : Prop where
  T : S.T = A.T
  w : Mesh S.w (-25) 25 3000
  delta : S.delta = A.delta
  epsilons : S.epsilons = [⟨1, 0, 0⟩, ⟨0, 1, 0⟩, ⟨0, 0, 1⟩]
  wLoss : Mesh S.wLoss (-2) 12 4000
  deltaNIXS : S.deltaNIXS = A.deltaNIXS
  qs : S.qsNIXS.length = 2 ∧ ∀ i (hi : i < S.qsNIXS.length), ∃ c, c = (if i = 0 then 2 else 7) / Real.sqrt 3 ∧
    S.qsNIXS[i] = ⟨c, c, c⟩
  shells : S.liNIXS = 2 ∧ S.ljNIXS = 2
  radial : S.radialMesh = A.radial.map Prod.fst ∧ S.RiNIXS = A.radial.map (fun p => (p.2 : ℂ)) ∧
    S.RjNIXS = A.radial.map (fun p => (p.2 : ℂ))
  kmin : S.kmin = 1
  wIn : Mesh S.wIn (-10) 20 50
  deltaRIXS : S.deltaRIXS = A.deltaRIXS
  epsilonsRIXS : S.epsilonsRIXSin = [⟨1, 0, 0⟩, ⟨0, 1, 0⟩, ⟨0, 0, 1⟩] ∧
    S.epsilonsRIXSout = [⟨1, 0, 0⟩, ⟨0, 1, 0⟩, ⟨0, 0, 1⟩]
  cutoffs : S.krylovSize = 150 ∧ S.slaterWeightMin = 1e-7 ∧ S.cut = 1e-12
  library : S.gaunt = L.gaunt ∧ S.sphHarm = L.sphHarm ∧ S.jn = L.jn ∧ S.solve = L.solve ∧ S.f32 = L.f32 ∧ S.kB = L.kB

/-- What main computes before the spectra, and the arguments of the spectra, whatever the eigensolver does. -/
structure MainPrepared (L : MainLib) (A : MainArgs) (b : ℕ → ℕ) (P : BasisParams) (hx hy hz : ℝ) (h0 : Op Label ℂ)
    (energies : List ℝ) (psis : List (Psi ℂ)) (S : SimulateArgs) : Prop where
  system : S.nBaths = [(1, b 1), (2, b 2)]
  /-- the p shell is full -/
  fullP : P.n0 1 = 6
  /-- the Hamiltonian -/
  dict : Dict.NodupKeys S.hOp ∧ isHermitianOp S.hOp
  inside : OpInSystem (nTotal (pdSystem b)) S.hOp
  /-- the cutoff 1e-12 acts on each of its terms -/
  terms : S.hOp.length ≤ 1082 + h0.length
  hamiltonian : ∀ v F, operator (opSpec S.hOp) v F
    = pdHamiltonian L.gaunt (position (pdSystem b)) A (P.n0 2) hx hy hz h0 v F
  /-- as many energies as asked for -/
  count : energies.length = A.nPsiMax
  /-- these energies and states are what `eigensystem` returns for a list of all product states with allowed
  occupations -/
  solved : ∃ states : List (Finset ℕ), states.Nodup ∧ (∀ F, F ∈ states ↔ F ⊆ range (nTotal (pdSystem b)) ∧
      IsConfiguration [(1, b 1), (2, b 2)] (pdSystem b) P F) ∧
    eigensystem L.solver (nTotal (pdSystem b)) S.hOp 1e-12 (states.map (encBytes (nTotal (pdSystem b)))) A.nPsiMax .lanczos
      1e-7 1 = .ok (energies, psis)
  /-- the states that contribute to the spectra -/
  kept : S.psis.length = S.es.length ∧ ∀ lowest ∈ energies, (∀ e ∈ energies, lowest ≤ e) →
    S.es.zip S.psis = (energies.zip psis).filter (fun p => decide (p.1 - lowest < A.energyCut * (L.kB * A.T)))
  nonempty : energies ≠ [] ∧ S.es ≠ []
  /-- the allowed occupations of the excited states -/
  excited : ∃ r, S.restrictions = some r ∧ ∀ F : Finset ℕ, Allowed r F ↔
    (P.n0 2 - 1 ≤ ((F ∩ impOrbs (pdSystem b) 2).card : ℤ) ∧
      ((F ∩ impOrbs (pdSystem b) 2).card : ℤ) ≤ P.n0 2 + P.tol 2 + 1) ∧
    P.val 2 - P.dnVal 2 ≤ ((F ∩ valOrbs (pdSystem b) 2 (P.val 2)).card : ℤ) ∧
    ((F ∩ conOrbs (pdSystem b) 2 (b 2) (P.val 2)).card : ℤ) ≤ P.dnCon 2
  args : MainSpectraArgs L A S

open Classical in
/-- What main computes before the spectra with a correct eigensolver: the energies are the lowest ones in the space
of all product states with allowed occupations. -/
structure MainRun (L : MainLib) (A : MainArgs) (b : ℕ → ℕ) (P : BasisParams) (hx hy hz : ℝ) (h0 : Op Label ℂ)
    (energies : List ℝ) (psis : List (Psi ℂ)) (S : SimulateArgs) : Prop
    extends MainPrepared L A b P hx hy hz h0 energies psis S where
  lowest : LowestStates (nTotal (pdSystem b)) S.hOp 1e-12 1e-7
    {F ∈ (range (nTotal (pdSystem b))).powerset | IsConfiguration [(1, b 1), (2, b 2)] (pdSystem b) P F} energies psis

/-- The dipole operator `ε·r/|r|` from the p to the d shell, and its adjoint. -/
def dipolePD (gaunt : ℕ → ℕ → ℕ → ℤ → ℤ → ℤ → ℝ) (b : ℕ → ℕ) (ε : Vec3 ℂ) : Vec ℂ → Vec ℂ :=
  between (position (pdSystem b)) 2 1 fun m m' => dipole gaunt ε.x ε.y ε.z 2 m 1 m'

def dipoleDP (gaunt : ℕ → ℕ → ℕ → ℤ → ℤ → ℤ → ℝ) (b : ℕ → ℕ) (ε : Vec3 ℂ) : Vec ℂ → Vec ℂ :=
  between (position (pdSystem b)) 1 2 fun m' m => star (dipole gaunt ε.x ε.y ε.z 2 m 1 m')

/-- `1/√4π` times the operator `exp(i q·r)` in the d shell without its monopole part, for a vector `q` of length
`q` in the direction (1,1,1). -/
def planeWaveDD (S : SimulateArgs) (b : ℕ → ℕ) (q : ℝ) : Vec ℂ → Vec ℂ := fun v F =>
  ((Real.sqrt (4 * Real.pi) : ℝ) : ℂ)⁻¹ * between (position (pdSystem b)) 2 2 (fun m m' =>
    planeWave S.gaunt S.sphHarm (radialIntegral S.jn S.RiNIXS S.RjNIXS S.radialMesh q) (Real.arccos (1 / Real.sqrt 3))
      (Real.pi / 4) 1 4 2 m 2 m') v F

/-- What the stored spectra of main are.  Whenever 150 Lanczos vectors exhaust the Krylov space, each value
is the exact response of an eigenstate to the respective operator. -/
structure PDSpectra (b : ℕ → ℕ) (S : SimulateArgs) (s : Simulated) : Prop where
  tables : FilesOf S.kB S.T S.es S.w 10 s.ps ∧ FilesOf S.kB S.T S.es S.w 6 s.xps ∧
    FilesOf S.kB S.T S.es S.wLoss 2 s.nixs ∧ FilesOf S.kB S.T S.es S.w 3 s.xas
  /-- photoemission and inverse photoemission of the d shell -/
  photoemission : ∀ i j k (_ : i < S.es.length) (_ : j < 10) (hk : k < S.w.length) (x : ℕ),
    x = impStart (pdSystem b) 2 + j →
    KrylovExhausted (hamilton S) 150 (excite S (create x) i) → KrylovExhausted (hamilton S) 150 (excite S (annihilate x) i) →
    ∃ add rem, IsResponse S (create x) i ((S.w[k] : ℂ) + Complex.I * S.delta) add ∧
      IsResponse S (annihilate x) i (-((S.w[k] : ℂ) + Complex.I * S.delta)) rem ∧
      s.ps.data i j k = -(add - rem).im
  /-- photoemission of the p shell -/
  xps : ∀ i j k (_ : i < S.es.length) (_ : j < 6) (hk : k < S.w.length) (x : ℕ),
    x = impStart (pdSystem b) 1 + j → KrylovExhausted (hamilton S) 150 (excite S (annihilate x) i) →
    ∃ rem, IsResponse S (annihilate x) i (-((S.w[k] : ℂ) + Complex.I * S.delta)) rem ∧ s.xps.data i j k = rem.im
  /-- absorption of light of polarisation x, y, z -/
  xas : ∀ i t k (_ : i < S.es.length) (ht : t < S.epsilons.length) (hk : k < S.w.length),
    KrylovExhausted (hamilton S) 150 (excite S (dipolePD S.gaunt b S.epsilons[t]) i) →
    ∃ g, IsResponse S (dipolePD S.gaunt b S.epsilons[t]) i ((S.w[k] : ℂ) + Complex.I * S.delta) g ∧
      s.xas.data i t k = -g.im
  /-- scattering with momentum transfer 2 and 7 along (1,1,1) -/
  nixs : ∀ i t k (_ : i < S.es.length) (_ : t < 2) (hk : k < S.wLoss.length) (q : ℝ), q = (if t = 0 then 2 else 7) →
    NoSmall (size S) (planeWaveDD S b q) S.slaterWeightMin S.restrictions →
    KrylovExhausted (hamilton S) 150 (excite S (planeWaveDD S b q) i) →
    ∃ g, IsResponse S (planeWaveDD S b q) i ((S.wLoss[k] : ℂ) + Complex.I * S.deltaNIXS) g ∧ s.nixs.data i t k = -g.im
  /-- resonant scattering; the out-going polarisation is always x (C44) -/
  rixs : ∀ i a c d k (_ : i < S.es.length) (ha : a < S.epsilonsRIXSin.length) (_ : c < 3) (hd : d < S.wIn.length)
    (hk : k < S.wLoss.length), 
    (∀ x, Solves (size S) (hamilton S) ((S.wIn[d] : ℂ) + Complex.I * S.delta + (S.es.getD i 0 : ℂ))
        (excite S (dipolePD S.gaunt b S.epsilonsRIXSin[a]) i) x →
      NoneDropped (size S) S.slaterWeightMin (exciteVec S (dipoleDP S.gaunt b ⟨1, 0, 0⟩) x) ∧
      KrylovExhausted (hamilton S) 150 (exciteVec S (dipoleDP S.gaunt b ⟨1, 0, 0⟩) x)) →
    ∃ g, IsRixs (size S) (hamilton S) ((S.wIn[d] : ℂ) + Complex.I * S.delta + (S.es.getD i 0 : ℂ))
        ((S.wLoss[k] : ℂ) + Complex.I * S.deltaRIXS + (S.es.getD i 0 : ℂ))
        (excite S (dipolePD S.gaunt b S.epsilonsRIXSin[a]) i) (exciteVec S (dipoleDP S.gaunt b ⟨1, 0, 0⟩)) g ∧
      s.rixs.data i a c d k = -g.im
  rixsThermal : ∀ a c d k, IsThermal S.kB S.T S.es (fun i => s.rixs.data i a c d k) (s.rixs.thermal a c d k)
  /-- what plotRIXS.py reads -/
  rixsFile : readRIXS s.rixs.file = .ok (S.wLoss.map S.f32, S.wIn.map S.f32,
      (List.range S.wLoss.length).map fun k => (List.range S.wIn.length).map fun d =>
        S.f32 (∑ a ∈ range 3, ∑ c ∈ range 3, s.rixs.thermal a c d k))

end

end Verif.Spec
