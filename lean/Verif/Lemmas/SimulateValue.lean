/-
What simulate_spectra computes.
-/
import Verif.Lemmas.SimulateRuns
import Verif.Spec.Simulate
import Verif.Prop.Spectra
import Verif.Prop.Rixs
import Verif.Prop.Output

namespace Verif

open Finset Mpi Psr Spec Matrix

noncomputable section

theorem Settles.canFinish {N : ℕ} {M A X : Type} {sum : List M → M} {P : Fin N → Prog M A} {x : Py X}
    {Rel : X → (Fin N → A) → Prop} (h : Settles sum P x Rel) {out : Fin N → A} (hf : CanFinish sum P out) :
    ∃ a, x = .ok a ∧ Rel a out := by
  cases x with
  | error e => exact absurd hf (RunsToFail.not_canFinish h out)
  | ok a =>
    obtain ⟨out', hr, hrun⟩ := h
    rw [← hrun.allRanksFinish.unique hf] at hr
    exact ⟨a, rfl, hr⟩

theorem bind_ok {α β : Type} {x : Py α} {f : α → Py β} {b : β} (h : x >>= f = .ok b) : ∃ a, x = .ok a ∧ f a = .ok b := by
  cases x with
  | error e => cases h
  | ok a => exact ⟨a, rfl, h⟩

/-- The steps of a run that returns. -/
structure SimulateSteps (S : SimulateArgs) (s : Simulated) where
  ips : List (Op ℕ ℂ)
  ps : List (Op ℕ ℂ)
  xps : List (Op ℕ ℂ)
  nixs : List (Op ℕ ℂ)
  xas : List (Op ℕ ℂ)
  rin : List (Op ℕ ℂ)
  rout : List (Op ℕ ℂ)
  gIps : RefSpectra
  gPs : RefSpectra
  gXps : RefSpectra
  gNixs : RefSpectra
  gXas : RefSpectra
  gRixs : RefRixs
  ips_eq : getInversePhotoEmissionOperators (intKeys S.nBaths) 2 = .ok ips
  ps_eq : getPhotoEmissionOperators (intKeys S.nBaths) 2 = .ok ps
  gIps_eq : refHBuild (S.spectra S.w S.delta) ips S.psis S.es = .ok gIps
  gPs_eq : refHBuild (S.spectra (S.w.map fun x => -x) (-S.delta)) ps S.psis S.es = .ok gPs
  psFiles : spectrumFiles S.kB S.es S.T S.w ips.length (gPs.root.negate.add gIps.root) = .ok s.ps
  xps_eq : getPhotoEmissionOperators (intKeys S.nBaths) 1 = .ok xps
  gXps_eq : refHBuild (S.spectra (S.w.map fun x => -x) (-S.delta)) xps S.psis S.es = .ok gXps
  xpsFiles : spectrumFiles S.kB S.es S.T S.w xps.length gXps.root.negate = .ok s.xps
  nixs_eq : getNIXSOperators S.gaunt S.sphHarm S.jn (intKeys S.nBaths) S.qsNIXS S.liNIXS S.ljNIXS S.RiNIXS S.RjNIXS
    S.radialMesh S.kmin = .ok nixs
  gNixs_eq : refHBuild (S.spectra S.wLoss S.deltaNIXS) nixs S.psis S.es = .ok gNixs
  nixsFiles : spectrumFiles S.kB S.es S.T S.wLoss nixs.length gNixs.root = .ok s.nixs
  xas_eq : getDipoleOperators S.gaunt (intKeys S.nBaths) S.epsilons = .ok xas
  gXas_eq : refHBuild (S.spectra S.w S.delta) xas S.psis S.es = .ok gXas
  xasFiles : spectrumFiles S.kB S.es S.T S.w xas.length gXas.root = .ok s.xas
  rin_eq : getDipoleOperators S.gaunt (intKeys S.nBaths) S.epsilonsRIXSin = .ok rin
  rout_eq : getDaggeredDipoleOperators S.gaunt (intKeys S.nBaths) S.epsilonsRIXSout = .ok rout
  gRixs_eq : refRixs S.rixs rin rout S.psis S.es = .ok gRixs
  rixsFiles : rixsFiles S.f32 S.kB S.es S.T S.wIn S.wLoss rin.length rout.length gRixs.root = .ok s.rixs

theorem refSimulate_steps {S : SimulateArgs} {s : Simulated} (h : refSimulate S = .ok s) : Nonempty (SimulateSteps S s) := by
  unfold refSimulate at h
  dsimp only at h
  obtain ⟨ops, e0, h⟩ := bind_ok h
  obtain ⟨ips, e1, e0⟩ := bind_ok e0
  obtain ⟨ps, e2, e0⟩ := bind_ok e0
  cases e0
  obtain ⟨gIps, e3, h⟩ := bind_ok h
  obtain ⟨gPs, e4, h⟩ := bind_ok h
  obtain ⟨fPs, e5, h⟩ := bind_ok h
  obtain ⟨xps, e6, h⟩ := bind_ok h
  obtain ⟨gXps, e7, h⟩ := bind_ok h
  obtain ⟨fXps, e8, h⟩ := bind_ok h
  obtain ⟨nixs, e9, h⟩ := bind_ok h
  obtain ⟨gNixs, e10, h⟩ := bind_ok h
  obtain ⟨fNixs, e11, h⟩ := bind_ok h
  obtain ⟨xas, e12, h⟩ := bind_ok h
  obtain ⟨gXas, e13, h⟩ := bind_ok h
  obtain ⟨fXas, e14, h⟩ := bind_ok h
  obtain ⟨ops, e0, h⟩ := bind_ok h
  obtain ⟨rin, e15, e0⟩ := bind_ok e0
  obtain ⟨rout, e16, e0⟩ := bind_ok e0
  cases e0
  obtain ⟨gRixs, e17, h⟩ := bind_ok h
  obtain ⟨fRixs, e18, h⟩ := bind_ok h
  cases h
  exact ⟨⟨ips, ps, xps, nixs, xas, rin, rout, gIps, gPs, gXps, gNixs, gXas, gRixs, e1, e2, e3, e4, e5, e6, e7, e8, e9,
    e10, e11, e12, e13, e14, e15, e16, e17, e18⟩⟩

/-! ### Thermal averages and tables -/

theorem boltzmannSum_range {E : Type} [AddCommGroup E] [Module ℝ E] (kB : ℝ) (es : List ℝ) (T : ℝ) (f : ℕ → E) :
    boltzmannSum kB es ((List.range es.length).map f) T = ∑ i : Fin es.length, Real.exp (-es[i] / (kB * T)) • f i := by
  unfold boltzmannSum
  rw [← List.sum_ofFn]
  congr 1
  apply List.ext_getElem
  · simp
  · intro i h1 h2
    simp

theorem partitionSum_fin (kB : ℝ) (es : List ℝ) (T : ℝ) :
    partitionSum kB es T = ∑ i : Fin es.length, Real.exp (-es[i] / (kB * T)) := by
  unfold partitionSum
  rw [← List.sum_ofFn]
  congr 1
  apply List.ext_getElem
  · simp
  · intro i h1 h2
    simp

theorem thermalAverage_ok {E : Type} [AddCommGroup E] [Module ℝ E] {kB : ℝ} {es : List ℝ} {T : ℝ} {f : ℕ → E} {a : E}
    (h : thermalAverage kB es ((List.range es.length).map f) T = .ok a) :
    a = (∑ i : Fin es.length, Real.exp (-es[i] / (kB * T)))⁻¹ • ∑ i : Fin es.length, Real.exp (-es[i] / (kB * T)) • f i := by
  rcases thermalAverage_cases kB es T f with ⟨-, -, h3⟩ | ⟨-, e, h3⟩
  · rw [h] at h3
    cases h3
    rw [boltzmannSum_range, partitionSum_fin]
  · rw [h] at h3
    cases h3

theorem spectrumFiles_spec {kB : ℝ} {es : List ℝ} {T : ℝ} {w : List ℝ} {nOps : ℕ} {gs : Spectra} {s : SpectrumFiles}
    (h : spectrumFiles kB es T w nOps gs = .ok s) :
    (∀ i t k, s.data i t k = -((gs i t).getD k 0).im) ∧ FilesOf kB T es w nOps s := by
  unfold spectrumFiles at h
  obtain ⟨a, h1, h2⟩ := bind_ok h
  cases h2
  have ha := thermalAverage_ok h1
  refine ⟨fun i t k => rfl, fun t k => ?_, by simp, fun k hk => ?_⟩
  · show a t k = _
    rw [ha, Pi.smul_apply, Pi.smul_apply, Finset.sum_apply, Finset.sum_apply, smul_eq_mul, div_eq_inv_mul]
    rfl
  · simp only [List.getElem?_map, List.getElem?_zipIdx, List.getElem?_eq_getElem hk, Option.map_some, zero_add]
    congr 3

/-! ### The Green's functions -/

section
variable {A : SpectraArgs} (hA : A.Valid) (hdict : Dict.NodupKeys A.hOp) (hh : isHermitianOp A.hOp)
  {psis : List (Psi ℂ)} {es : List ℝ} (hlen : es.length ≤ psis.length)
  (hpsis : ∀ psi ∈ psis, IsState A.n psi) {tOps : List (Op ℕ ℂ)} (htOps : ∀ tOp ∈ tOps, OpInSystem A.n tOp)

include hA hdict hh hlen hpsis htOps in
theorem refHBuild_meaning {x : RefSpectra} (h1 : refHBuild A tOps psis es = .ok x)
    (i t : ℕ) (hi : i < es.length) (ht : t < tOps.length)
    (hsmall : ∀ T ⊆ range A.n, NoSmallElements A.n tOps[t] A.slaterWeightMin A.restrictions T)
    (hex : ¬ LinearIndependent ℂ (fun j : Fin (A.krylovSize + 1) => (hamiltonian A.n A.hOp A.cut A.restrictions)^[j.val]
      (excitation A.n tOps[t] A.slaterWeightMin A.restrictions (psis.getD i [])))) :
    List.Forall₂ (fun (w : ℝ) x => IsGreen A.n (hamiltonian A.n A.hOp A.cut A.restrictions)
      ((w : ℂ) + Complex.I * (A.delta : ℂ) + (es.getD i 0 : ℂ))
      (excitation A.n tOps[t] A.slaterWeightMin A.restrictions (psis.getD i [])) x) A.w (x.root i t) := by
  have hs := (((refHBuild_spec hA hlen hpsis htOps).1 x h1).1 t i ht hi).1
  obtain ⟨h3, h4⟩ := hBuildStates_spec hA hlen hpsis htOps ht hi
  have hi' : i < psis.length := by omega
  have htin := htOps _ (List.getElem_mem ht)
  have hpin := hpsis _ (List.getElem_mem hi')
  have heq := h4 hsmall
  rw [List.getD_eq_getElem _ _ hi'] at heq hex ⊢
  rw [← spectrumOf_congr hA (isState_applyOpPure htin hpin _ _) h3 heq] at hs
  rw [← ampl_transitionState htin hpin] at hex ⊢
  exact spectrumOf_meaning hA hdict hh (applyOp_excited htin hpin hA.weight _) _ hex hs

end

theorem forall2_getD {α β : Type} {R : α → β → Prop} {l : List α} {m : List β} (h : List.Forall₂ R l m) (d : β) {k : ℕ}
    (hk : k < l.length) : R l[k] (m.getD k d) := by
  have hm : k < m.length := h.length_eq ▸ hk
  rw [List.getD_eq_getElem _ _ hm]
  exact (List.forall₂_iff_get.1 h).2 k hk hm

section
variable {S : SimulateArgs} (hS : S.Valid) (hdict : Dict.NodupKeys S.hOp) (hh : isHermitianOp S.hOp)

include hS hdict hh in
/-- One value of a spectrum. -/
theorem response_of {w : List ℝ} {delta : ℝ} (hd : delta ≠ 0) {tOps : List (Op ℕ ℂ)}
    (htOps : ∀ tOp ∈ tOps, OpInSystem (nTotal (intKeys S.nBaths)) tOp) {x : RefSpectra}
    (hx : refHBuild (S.spectra w delta) tOps S.psis S.es = .ok x) {i t k : ℕ} (hi : i < S.es.length)
    (ht : t < tOps.length) (hk : k < w.length) {T : Vec ℂ → Vec ℂ} (hT : operator (opSpec tOps[t]) = T)
    (hsmall : NoSmall (size S) T S.slaterWeightMin S.restrictions)
    (hex : KrylovExhausted (hamilton S) S.krylovSize (excite S T i)) :
    (x.root i t).length = w.length ∧
      IsResponse S T i ((w[k] : ℂ) + Complex.I * (delta : ℂ)) ((x.root i t).getD k 0) := by
  subst hT
  have hn : nSpinOrbitals S.nBaths = size S := nSpinOrbitals_eq _
  have hst := hS.states
  have hva := hS.spectra w hd
  have key := refHBuild_meaning (A := S.spectra w delta) hva hdict hh hS.enough hst (tOps := tOps)
    (by intro tOp h; show OpInSystem (nSpinOrbitals S.nBaths) tOp; rw [hn]; exact htOps tOp h) hx i t hi ht
    (by
      intro T hT S' hS' ha
      have hT : T ⊆ range (nSpinOrbitals S.nBaths) := hT
      have hS' : S' ⊆ range (nSpinOrbitals S.nBaths) := hS'
      rw [hn] at hT hS'
      exact hsmall S' hS' T hT ha)
    (by
      show ¬ LinearIndependent ℂ (fun j : Fin (S.krylovSize + 1) =>
        (hamiltonian (nSpinOrbitals S.nBaths) S.hOp S.cut S.restrictions)^[j.val]
        (excitation (nSpinOrbitals S.nBaths) tOps[t] S.slaterWeightMin S.restrictions (S.psis.getD i [])))
      rw [hn]
      exact hex)
  have hl : w.length = (x.root i t).length := key.length_eq
  refine ⟨hl.symm, ?_⟩
  have key := forall2_getD key 0 hk
  have key : IsGreen (nSpinOrbitals S.nBaths) (hamiltonian (nSpinOrbitals S.nBaths) S.hOp S.cut S.restrictions)
      ((w[k] : ℂ) + Complex.I * (delta : ℂ) + (S.es.getD i 0 : ℂ))
      (excitation (nSpinOrbitals S.nBaths) tOps[t] S.slaterWeightMin S.restrictions (S.psis.getD i []))
      ((x.root i t).getD k 0) := key
  rw [hn] at key
  exact key

end

/-! ### The operators -/

theorem operator_photo (i : ℕ) (x : Action) (v : Vec ℂ) :
    operator (opSpec ([([(i, x)], 1)] : Op ℕ ℂ)) v = match x with
      | .c => create i v
      | .a => annihilate i v := by
  funext S
  cases x <;> simp [operator, opSpec, processSpec, product, ladder]

theorem noSmall_photo (n i : ℕ) (x : Action) {cut : ℝ} (hcut : cut ≤ 1) (r : Option Restrictions) :
    NoSmall n (operator (opSpec ([([(i, x)], 1)] : Op ℕ ℂ))) cut r := by
  intro S hS T _ ha
  have := noSmall_castOp n [([(i, x)], 1)] hcut r T S hS ha
  simpa [castOp, matrixElement] using this

theorem between_adjoint {nBaths : NBaths} (h : GoodSystem nBaths) {li lj : ℕ} (hi : li ∈ allAngulars nBaths)
    (hj : lj ∈ allAngulars nBaths) (M : ℤ → ℤ → ℂ) (v w : Vec ℂ) :
    innerProduct (nTotal nBaths) (between (position nBaths) lj li (fun m' m => star (M m m')) v) w
      = innerProduct (nTotal nBaths) v (between (position nBaths) li lj M w) := by
  have hlt : ∀ l ∈ allAngulars nBaths, ∀ s ∈ ({0, 1} : Finset ℤ), ∀ m ∈ mRange l,
      position nBaths (.imp l s m) < nTotal nBaths := by
    intro l hl s hs m hm
    rw [mRange, mem_Icc] at hm
    refine position_imp_lt h ⟨hl, ?_, ?_, hm.1, hm.2⟩ <;> (simp at hs; omega)
  unfold between
  rw [innerProduct_sum_left, innerProduct_sum_right]
  refine sum_congr rfl fun s hs => ?_
  rw [innerProduct_sum_left, innerProduct_sum_right]
  simp only [innerProduct_sum_left, innerProduct_sum_right]
  rw [sum_comm]
  refine sum_congr rfl fun m hm => sum_congr rfl fun m' hm' => ?_
  rw [innerProduct_smul_right, innerProduct_smul_left, innerProduct_create _ _ (hlt _ hi s hs m hm),
    innerProduct_annihilate _ _ (hlt _ hj s hs m' hm')]

theorem eq_of_innerProduct {n : ℕ} {a b : Vec ℂ} (h : ∀ w, innerProduct n a w = innerProduct n b w) {S : Finset ℕ}
    (hS : S ⊆ range n) : a S = b S := by
  have := h (single S 1)
  rw [innerProduct_single_right hS, innerProduct_single_right hS, mul_one, mul_one] at this
  exact star_injective this

theorem excited_congr {n : ℕ} {T T' : Vec ℂ → Vec ℂ} (h : ∀ v, ∀ S ⊆ range n, T v S = T' v S) (cut : ℝ)
    (r : Option Restrictions) : excited n T cut r = excited n T' cut r := by
  funext v S
  unfold excited
  by_cases hS : S ⊆ range n
  · rw [h v S hS]
  · rw [if_neg fun h => hS h.1, if_neg fun h => hS h.1]

theorem noSmall_congr {n : ℕ} {T T' : Vec ℂ → Vec ℂ} (h : ∀ v, ∀ S ⊆ range n, T v S = T' v S) {cut : ℝ}
    {r : Option Restrictions} (hT : NoSmall n T cut r) : NoSmall n T' cut r := by
  intro S hS S' hS' ha
  rw [← h _ S hS]
  exact hT S hS S' hS' ha

/-- The dipole operators of a list of polarisations. -/
theorem dipoles_spec (gaunt : GauntFun) {l1 l2 b1 b2 : ℕ} (hne : l1 ≠ l2) {vs : List (Vec3 ℂ)} {ts : List (Op ℕ ℂ)}
    (h : getDipoleOperators gaunt [(.int l1, b1), (.int l2, b2)] vs = .ok ts) :
    ∃ hlen : ts.length = vs.length, ∀ t (ht : t < vs.length), operator (opSpec (ts[t]'(hlen ▸ ht)))
      = between (position [(.int l1, b1), (.int l2, b2)]) l2 l1
          (fun m m' => dipole gaunt vs[t].x vs[t].y vs[t].z l2 m l1 m') := by
  obtain ⟨ts', ds, h1, -, h3, -⟩ := C45_daggered gaunt l1 l2 b1 b2 hne vs
  rw [h] at h1
  cases h1
  refine ⟨h3.length_eq.symm, fun t ht => ?_⟩
  have := (List.forall₂_iff_get.1 h3).2 t ht (h3.length_eq ▸ ht)
  obtain ⟨tOp, e, -, -, -, hm⟩ := C45_dipole gaunt l1 l2 b1 b2 hne vs[t]
  simp only [List.get_eq_getElem] at this
  rw [e] at this
  cases this
  funext v
  exact hm v

/-- The adjoint dipole operators. -/
theorem daggered_spec (gaunt : GauntFun) {l1 l2 b1 b2 : ℕ} (hne : l1 ≠ l2) {vs : List (Vec3 ℂ)} {ds : List (Op ℕ ℂ)}
    (h : getDaggeredDipoleOperators gaunt [(.int l1, b1), (.int l2, b2)] vs = .ok ds) :
    ∃ hlen : ds.length = vs.length, ∀ t (ht : t < vs.length), ∀ v, ∀ S ⊆ range (nTotal [(.int l1, b1), (.int l2, b2)]),
      operator (opSpec (ds[t]'(hlen ▸ ht))) v S
      = between (position [(.int l1, b1), (.int l2, b2)]) l1 l2
          (fun m' m => star (dipole gaunt vs[t].x vs[t].y vs[t].z l2 m l1 m')) v S := by
  obtain ⟨ts, ds', h1, h2, h3, h4⟩ := C45_daggered gaunt l1 l2 b1 b2 hne vs
  rw [h] at h2
  cases h2
  obtain ⟨hl, hd⟩ := dipoles_spec gaunt hne h1
  refine ⟨h4.length_eq.symm.trans hl, fun t ht v S hS => ?_⟩
  have := (List.forall₂_iff_get.1 h4).2 t (hl ▸ ht) (h4.length_eq ▸ hl ▸ ht)
  simp only [List.get_eq_getElem] at this
  refine eq_of_innerProduct (fun w => ?_) hS
  rw [this, hd t ht, between_adjoint (goodSystem_two hne) (by simp [allAngulars, angulars]) (by simp [allAngulars, angulars])]

theorem mapM_length {α β : Type} {f : α → Py β} : ∀ {l : List α} {m : List β}, l.mapM f = .ok m → m.length = l.length := by
  intro l
  induction l with
  | nil => intro m h; cases h; rfl
  | cons a l ih =>
    intro m h
    rw [List.mapM_cons] at h
    obtain ⟨b, -, h⟩ := bind_ok h
    obtain ⟨bs, h2, h⟩ := bind_ok h
    cases h
    simp [ih h2]

theorem collect_length {α β γ : Type} {f : α → Py β} {g : β → γ} {l : List α} {m : List γ}
    (h : l.foldlM (fun (acc : List γ) x => do let i ← f x; return acc ++ [g i]) [] = .ok m) : m.length = l.length := by
  rw [foldlM_collect] at h
  obtain ⟨is, h1, h2⟩ := bind_ok h
  cases h2
  simp [mapM_length h1]

theorem collect_get {α β : Type} {f : α → Py β} {l : List α} {m : List β}
    (h : l.foldlM (fun (acc : List β) x => do let i ← f x; return acc ++ [i]) [] = .ok m) :
    List.Forall₂ (fun a b => f a = .ok b) l m := by
  rw [foldlM_collect f (fun b => b) l []] at h
  obtain ⟨is, h1, h2⟩ := bind_ok h
  cases h2
  rw [List.nil_append, List.map_id']
  clear h
  induction l generalizing is with
  | nil => cases h1; exact .nil
  | cons a l ih =>
    rw [List.mapM_cons] at h1
    obtain ⟨b, hb, h1⟩ := bind_ok h1
    obtain ⟨bs, h2, h1⟩ := bind_ok h1
    cases h1
    exact .cons hb (ih bs h2)

/-- The photoemission operators of a shell. -/
theorem photo_spec {nBaths : NBaths} (h : GoodSystem nBaths) {l : ℕ} {ts : List (Op ℕ ℂ)}
    (hts : getPhotoEmissionOperators nBaths l = .ok ts) :
    ts = (List.range (2 * (2 * l + 1))).map fun j => [([(impStart nBaths l + j, .a)], 1)] := by
  by_cases hl : l ∈ allAngulars nBaths
  · have := ((C47_enumerate nBaths h l).1 hl).1
    rw [hts] at this
    cases this
    rfl
  · have := ((C47_enumerate nBaths h l).2 hl).1
    rw [hts] at this
    cases this

theorem inversePhoto_spec {nBaths : NBaths} (h : GoodSystem nBaths) {l : ℕ} {ts : List (Op ℕ ℂ)}
    (hts : getInversePhotoEmissionOperators nBaths l = .ok ts) :
    ts = (List.range (2 * (2 * l + 1))).map fun j => [([(impStart nBaths l + j, .c)], 1)] := by
  by_cases hl : l ∈ allAngulars nBaths
  · have := ((C47_enumerate nBaths h l).1 hl).2
    rw [hts] at this
    cases this
    rfl
  · have := ((C47_enumerate nBaths h l).2 hl).2
    rw [hts] at this
    cases this

theorem negate_getD (gs : Spectra) (i t k : ℕ) : (gs.negate i t).getD k 0 = -((gs i t).getD k 0) := by
  unfold Spectra.negate
  by_cases hk : k < (gs i t).length
  · rw [List.getD_eq_getElem _ _ (by simpa using hk), List.getD_eq_getElem _ _ hk, List.getElem_map]
    ring
  · rw [List.getD_eq_default _ _ (by simpa using hk), List.getD_eq_default _ _ (by simpa using hk), neg_zero]

theorem add_getD (a b : Spectra) (i t k : ℕ) (h : (a i t).length = (b i t).length) :
    ((a.add b) i t).getD k 0 = (a i t).getD k 0 + (b i t).getD k 0 := by
  unfold Spectra.add
  by_cases hk : k < (a i t).length
  · rw [List.getD_eq_getElem _ _ (by simp; omega), List.getD_eq_getElem _ _ hk, List.getD_eq_getElem _ _ (h ▸ hk),
      List.getElem_zipWith]
  · rw [List.getD_eq_default _ _ (by simp; omega), List.getD_eq_default _ _ (by omega),
      List.getD_eq_default _ _ (by omega), add_zero]

/-! ### RIXS -/

section
variable {A : RixsArgs} (hA : A.Valid) {tOpsIn : List (Op ℕ ℂ)} (hin : ∀ op ∈ tOpsIn, OpInSystem A.n op)
  {psis : List (Psi ℂ)} {es : List ℝ} (hlen : es.length ≤ psis.length) (hpsis : ∀ psi ∈ psis, IsState A.n psi)

include hA hin hlen hpsis in
theorem refRixs_meaning (hdict : Dict.NodupKeys A.hOp) (hh : isHermitianOp A.hOp) (hd1 : A.delta1 ≠ 0)
    (hsolve : ExactSolver A.solve) {op0 : Op ℕ ℂ} {rest : List (Op ℕ ℂ)} (ho0 : OpInSystem A.n op0)
    {x : RefRixs} (hx : refRixs A tOpsIn (op0 :: rest) psis es = .ok x)
    (a b c d : ℕ) (ha : a < es.length) (hb : b < tOpsIn.length) (hc : c < (op0 :: rest).length)
    (hd : d < A.wIns.length) (hlarge : A.Large tOpsIn[b])
    (hT : ∀ x, Solves A.n (hamiltonian A.n A.hOp A.cut A.restrictions)
        ((A.wIns[d] : ℂ) + Complex.I * (A.delta1 : ℂ) + (es.getD a 0 : ℂ))
        (excitation A.n tOpsIn[b] A.slaterWeightMin A.restrictions (psis.getD a [])) x →
      NoneDropped A.n A.slaterWeightMin (transition A.n op0 A.slaterWeightMin A.restrictions x) ∧
      ¬ LinearIndependent ℂ (fun i : Fin (A.krylovSize + 1) =>
        (hamiltonian A.n A.hOp A.cut A.restrictions)^[i.val]
          (transition A.n op0 A.slaterWeightMin A.restrictions x))) :
    List.Forall₂ (fun (v : ℝ) y => IsRixs A.n (hamiltonian A.n A.hOp A.cut A.restrictions)
      ((A.wIns[d] : ℂ) + Complex.I * (A.delta1 : ℂ) + (es.getD a 0 : ℂ))
      ((v : ℂ) + Complex.I * (A.delta2 : ℂ) + (es.getD a 0 : ℂ))
      (excitation A.n tOpsIn[b] A.slaterWeightMin A.restrictions (psis.getD a []))
      (transition A.n op0 A.slaterWeightMin A.restrictions) y) A.wLoss (x.root a b c d) := by
  obtain ⟨r, ⟨psi1, big, big', sys, hcc, h1, hsys, hp⟩, hr⟩ := (refRixs_value hA hin hlen hpsis hx).1 a ha b hb d hd
  obtain ⟨psi2, g, h2, hrow, hr1, -⟩ := rixsPoint_rows hp
  have hap : a < psis.length := lt_of_lt_of_le ha hlen
  have hpsi : IsState A.n psis[a] := hpsis _ (List.getElem_mem _)
  have hop : OpInSystem A.n tOpsIn[b] := hin _ (List.getElem_mem _)
  rw [List.getD_eq_getElem _ _ hap] at h1 hT ⊢
  have hcg : (List.replicate (op0 :: rest).length g).getD c (List.replicate A.wLoss.length 0) = g := by
    rw [List.getD_eq_getElem _ _ (by simpa using hc), List.getElem_replicate]
  rw [(hr c).1, hr1, hcg]
  have hex : Excited A.n A.slaterWeightMin A.restrictions psi1 := by
    obtain ⟨p, c, hp, -, hex⟩ := applyOp_cached_excited hop hpsi hA.weight A.restrictions hcc
    rw [h1] at hp
    cases hp
    exact hex
  have hampl := cached_excitation hA hop hlarge hpsi hcc h1
  rw [← hampl] at hT ⊢
  exact rixsPoint_meaning hA hdict hh hd1 hsolve ho0 hex hsys h2 hrow hT

end

theorem rixsFiles_spec {f32 : ℝ → ℝ} {kB : ℝ} {es : List ℝ} {T : ℝ} {wIn wLoss : List ℝ} {nIn nOut : ℕ} {gs : RixsMap}
    {s : RixsFiles} (h : rixsFiles f32 kB es T wIn wLoss nIn nOut gs = .ok s) :
    (∀ i a c d k, s.data i a c d k = -((gs i a c d).getD k 0).im) ∧
    (∀ a c d k, IsThermal kB T es (fun i => s.data i a c d k) (s.thermal a c d k)) ∧
    s.file = rixsFile f32 wIn.get wLoss.get fun d k => ∑ a ∈ range nIn, ∑ c ∈ range nOut, s.thermal a c d k := by
  unfold rixsFiles at h
  obtain ⟨a, h1, h2⟩ := bind_ok h
  cases h2
  have ha := thermalAverage_ok h1
  refine ⟨fun i t k _ _ => rfl, fun t c d k => ?_, rfl⟩
  show a t c d k = _
  rw [ha]
  simp only [Pi.smul_apply, Finset.sum_apply, smul_eq_mul]
  rw [div_eq_inv_mul]

end

end Verif
