/-
simulate_spectra on any number of ranks.
-/
import Verif.Model.Simulate
import Verif.Lemmas.RixsRuns
import Verif.Lemmas.Photo
import Verif.Lemmas.OkIn
import Verif.Prop.Average
import Verif.Prop.Transitions

namespace Verif

open Finset Mpi Psr Spec Matrix

noncomputable section

/-! ### Programs and the computation they carry out together -/

section
variable {N : ℕ} {M A B X Y : Type} {sum : List M → M}

/-- The ranks carry out the computation `x`: if it returns `a`, they finish with results
in the relation `Rel a`; if it raises, some rank raises. -/
def Settles (sum : List M → M) (P : Fin N → Prog M A) (x : Py X) (Rel : X → (Fin N → A) → Prop) : Prop :=
  match x with
  | .ok a => ∃ out, Rel a out ∧ Runs sum P out
  | .error _ => RunsToFail sum P

theorem Settles.bind {P : Fin N → Prog M A} {x : Py X} {Rel : X → (Fin N → A) → Prop} (h : Settles sum P x Rel)
    {f : Fin N → A → Prog M B} {y : X → Py Y} {Rel' : Y → (Fin N → B) → Prop}
    (h' : ∀ a out, x = .ok a → Rel a out → Settles sum (fun r => f r (out r)) (y a) Rel') :
    Settles sum (fun r => (P r).bind (f r)) (x >>= y) Rel' := by
  cases x with
  | error e => exact RunsToFail.bind_left h f
  | ok a =>
    obtain ⟨out, hr, hrun⟩ := h
    have h2 := h' a out rfl hr
    show Settles sum _ (y a) Rel'
    cases hy : y a with
    | error e =>
      rw [hy] at h2
      exact RunsToFail.bind_right hrun h2
    | ok b =>
      rw [hy] at h2
      obtain ⟨out', hr', hrun'⟩ := h2
      exact ⟨out', hr', Runs.bind hrun hrun'⟩

theorem Settles.ret {P : Fin N → Prog M A} {a : X} {out : Fin N → A} (h : ∀ r, P r = .ret (out r))
    {Rel : X → (Fin N → A) → Prop} (hr : Rel a out) : Settles sum P (.ok a) Rel :=
  ⟨out, hr, Runs.ret h⟩

/-- A computation without communication that differs between the ranks in its result only. -/
theorem Settles.local (hN : 0 < N) {p : Fin N → Py A} {x : Py A}
    (h : (∃ a, x = .ok a ∧ ∀ r, ∃ b, p r = .ok b ∧ (r.val = 0 → b = a)) ∨ (∃ e, x = .error e) ∧ ∃ e, p ⟨0, hN⟩ = .error e) :
    Settles sum (fun r => Prog.lift (p r)) x (fun a out => out ⟨0, hN⟩ = a) := by
  rcases h with ⟨a, hx, hp⟩ | ⟨⟨e, hx⟩, e', hp⟩
  · subst hx
    choose b hb hb0 using hp
    exact ⟨b, hb0 ⟨0, hN⟩ rfl, Runs.ret fun r => by rw [hb r]; rfl⟩
  · subst hx
    exact RunsToFail.fail (r := ⟨0, hN⟩) (e := e') (by rw [hp]; rfl) rfl

/-- A computation that is the same on all ranks. -/
theorem Settles.lift (hN : 0 < N) (p : Py A) :
    Settles sum (fun _ : Fin N => Prog.lift p) p (fun a out => out = fun _ => a) := by
  cases p with
  | ok a => exact ⟨_, rfl, Runs.ret fun _ => rfl⟩
  | error e => exact RunsToFail.fail (r := ⟨0, hN⟩) (e := e) rfl rfl

end

/-! ### The transition operators stay inside the system -/

theorem c2i_okIn {nBaths : NBaths} (h : GoodSystem nBaths) (lab : Label) : OkIn (· < nTotal nBaths) (c2i nBaths lab) := by
  intro i hi
  have hin := ((C10_rejects nBaths).2.1 lab).1 ⟨i, hi⟩
  have hm := (mem_labels nBaths lab).2 hin
  rw [c2i_eq, if_pos hm] at hi
  cases hi
  rw [← length_labels]
  exact List.idxOf_lt_length_iff.2 hm

theorem opInSystem_of_keys {n : ℕ} {op : Op ℕ ℂ} (h : ∀ p ∈ Dict.keys op, ∀ x ∈ p, x.1 < n) : OpInSystem n op :=
  fun q hq => h q.1 (List.mem_map.2 ⟨q, hq, rfl⟩)

theorem opInSystem_keys {n : ℕ} {op : Op ℕ ℂ} (h : OpInSystem n op) : ∀ p ∈ Dict.keys op, ∀ x ∈ p, x.1 < n := by
  intro p hp
  obtain ⟨q, hq, rfl⟩ := List.mem_map.1 hp
  exact h q hq

theorem opInSystem_set {n : ℕ} {op : Op ℕ ℂ} (h : OpInSystem n op) {p : Process ℕ} (hp : ∀ x ∈ p, x.1 < n) (v : ℂ) :
    OpInSystem n (Dict.set op p v) := by
  refine opInSystem_of_keys fun k hk => ?_
  rcases (Dict.mem_keys_set op p v k).1 hk with rfl | hk
  · exact hp
  · exact opInSystem_keys h k hk

theorem two_in {n i j : ℕ} (hi : i < n) (hj : j < n) : ∀ x ∈ ([(i, .c), (j, .a)] : Process ℕ), x.1 < n := by
  intro x hx
  simp only [List.mem_cons, List.not_mem_nil, or_false] at hx
  rcases hx with rfl | rfl <;> assumption

/-- A dict whose processes stay inside the system. -/
def OpGood (n : ℕ) (op : Op ℕ ℂ) : Prop := Dict.NodupKeys op ∧ OpInSystem n op

theorem dipole_okIn (gaunt : GauntFun) {nBaths : NBaths} (h : GoodSystem nBaths) (v : Vec3 ℂ) :
    OkIn (OpGood (nTotal nBaths)) (getDipoleOperator gaunt nBaths v) := by
  unfold getDipoleOperator
  split
  · next l1 l2 _ =>
    refine OkIn.foldlM _ _ ⟨Dict.nodupKeys_nil, by intro q hq; simp at hq⟩ fun m _ d hd => ?_
    refine OkIn.foldlM _ _ hd fun mp _ d hd => ?_
    refine OkIn.foldlM _ _ hd fun s _ d hd => ?_
    unfold dipoleStep
    split
    · refine OkIn.bind OkIn.true fun nq _ => ?_
      dsimp only
      split
      · refine OkIn.bind (c2i_okIn h _) fun i hi => ?_
        refine OkIn.bind (c2i_okIn h _) fun j hj => ?_
        exact OkIn.pure ⟨Dict.nodupKeys_set hd.1 _ _, opInSystem_set hd.2 (two_in hi hj) _⟩
      · exact OkIn.pure hd
    · exact OkIn.pure hd
  · exact OkIn.error
  · exact OkIn.error

theorem dipoles_okIn (gaunt : GauntFun) {nBaths : NBaths} (h : GoodSystem nBaths) (vs : List (Vec3 ℂ)) :
    OkIn (fun ts => ∀ t ∈ ts, OpInSystem (nTotal nBaths) t) (getDipoleOperators gaunt nBaths vs) := by
  unfold getDipoleOperators
  refine OkIn.foldlM _ _ (by simp) fun v _ ts hts => ?_
  refine OkIn.bind (dipole_okIn gaunt h v) fun t ht => OkIn.pure fun t' ht' => ?_
  rcases List.mem_append.1 ht' with h' | h'
  · exact hts _ h'
  · rw [List.mem_singleton.1 h']; exact ht.2

theorem daggered_okIn (gaunt : GauntFun) {nBaths : NBaths} (h : GoodSystem nBaths) (vs : List (Vec3 ℂ)) :
    OkIn (fun ts => ∀ t ∈ ts, OpInSystem (nTotal nBaths) t) (getDaggeredDipoleOperators gaunt nBaths vs) := by
  unfold getDaggeredDipoleOperators
  refine OkIn.foldlM _ _ (by simp) fun v _ ts hts => ?_
  refine OkIn.bind (dipole_okIn gaunt h v) fun t ht => OkIn.pure fun t' ht' => ?_
  rcases List.mem_append.1 ht' with h' | h'
  · exact hts _ h'
  · rw [List.mem_singleton.1 h']; exact opInSystem_daggerOp ht.1 ht.2

theorem opInSystem_addAt {n : ℕ} {op : Op ℕ ℂ} (h : OpInSystem n op) {p : Process ℕ} (hp : ∀ x ∈ p, x.1 < n) (v : ℂ) :
    OpInSystem n (Dict.addAt op p v) := by
  unfold Dict.addAt
  split
  · exact opInSystem_set h hp _
  · exact opInSystem_set h hp _

theorem nixs_okIn (gaunt : GauntFun) (sphHarm : SphHarm) (jn : SphericalJn) {nBaths : NBaths} (h : GoodSystem nBaths)
    (q : Vec3 ℝ) (li lj : ℕ) (Ri Rj : List ℂ) (r : List ℝ) (kmin : ℕ) :
    OkIn (OpInSystem (nTotal nBaths)) (getNIXSOperator gaunt sphHarm jn nBaths q li lj Ri Rj r kmin) := by
  unfold getNIXSOperator
  dsimp only
  split
  · exact OkIn.error
  · split
    · exact OkIn.error
    · refine OkIn.foldlM _ _ (by intro q hq; simp at hq) fun k _ d hd => ?_
      split
      · split
        · refine OkIn.foldlM _ _ hd fun mi _ d hd => ?_
          refine OkIn.foldlM _ _ hd fun mj _ d hd => ?_
          unfold nixsStep
          dsimp only
          split
          · split
            · refine OkIn.foldlM _ _ hd fun s _ d hd => ?_
              refine OkIn.bind (c2i_okIn h _) fun i hi => ?_
              refine OkIn.bind (c2i_okIn h _) fun j hj => ?_
              exact OkIn.pure (opInSystem_addAt hd (two_in hi hj) _)
            · exact OkIn.pure hd
          · exact OkIn.pure hd
        · exact OkIn.error
      · exact OkIn.pure hd

theorem nixss_okIn (gaunt : GauntFun) (sphHarm : SphHarm) (jn : SphericalJn) {nBaths : NBaths} (h : GoodSystem nBaths)
    (qs : List (Vec3 ℝ)) (li lj : ℕ) (Ri Rj : List ℂ) (r : List ℝ) (kmin : ℕ) :
    OkIn (fun ts => ∀ t ∈ ts, OpInSystem (nTotal nBaths) t)
      (getNIXSOperators gaunt sphHarm jn nBaths qs li lj Ri Rj r kmin) := by
  unfold getNIXSOperators
  refine OkIn.foldlM _ _ (by simp) fun q _ ts hts => ?_
  refine OkIn.bind (nixs_okIn gaunt sphHarm jn h q li lj Ri Rj r kmin) fun t ht => OkIn.pure fun t' ht' => ?_
  rcases List.mem_append.1 ht' with h' | h'
  · exact hts _ h'
  · rw [List.mem_singleton.1 h']; exact ht

theorem photo_okIn {nBaths : NBaths} (h : GoodSystem nBaths) (l : ℕ) :
    OkIn (fun ts => ∀ t ∈ ts, OpInSystem (nTotal nBaths) t) (getPhotoEmissionOperators nBaths l) := by
  unfold getPhotoEmissionOperators
  refine OkIn.foldlM _ _ (by simp) fun s _ ts hts => ?_
  refine OkIn.foldlM _ _ hts fun m _ ts hts => ?_
  refine OkIn.bind (c2i_okIn h _) fun i hi => OkIn.pure fun t' ht' => ?_
  rcases List.mem_append.1 ht' with h' | h'
  · exact hts _ h'
  · rw [List.mem_singleton.1 h']
    intro q hq x hx
    rw [List.mem_singleton.1 hq] at hx
    rw [List.mem_singleton.1 hx]
    exact hi

theorem inversePhoto_okIn {nBaths : NBaths} (h : GoodSystem nBaths) (l : ℕ) :
    OkIn (fun ts => ∀ t ∈ ts, OpInSystem (nTotal nBaths) t) (getInversePhotoEmissionOperators nBaths l) := by
  unfold getInversePhotoEmissionOperators
  refine OkIn.foldlM _ _ (by simp) fun s _ ts hts => ?_
  refine OkIn.foldlM _ _ hts fun m _ ts hts => ?_
  refine OkIn.bind (c2i_okIn h _) fun i hi => OkIn.pure fun t' ht' => ?_
  rcases List.mem_append.1 ht' with h' | h'
  · exact hts _ h'
  · rw [List.mem_singleton.1 h']
    intro q hq x hx
    rw [List.mem_singleton.1 hq] at hx
    rw [List.mem_singleton.1 hx]
    exact hi

/-! ### Files -/

theorem thermalAverage_cases {E : Type} [AddCommGroup E] [Module ℝ E] (kB : ℝ) (es : List ℝ) (T : ℝ) (f : ℕ → E) :
    (es ≠ [] ∧ kB * T ≠ 0 ∧ thermalAverage kB es ((List.range es.length).map f) T
      = .ok ((partitionSum kB es T)⁻¹ • boltzmannSum kB es ((List.range es.length).map f) T)) ∨
    (¬ (es ≠ [] ∧ kB * T ≠ 0) ∧ ∃ e, thermalAverage kB es ((List.range es.length).map f) T = .error e) := by
  by_cases h : es ≠ [] ∧ kB * T ≠ 0
  · exact Or.inl ⟨h.1, h.2, C38_boltzmann kB es _ T (by simp) h.1 h.2⟩
  · refine Or.inr ⟨h, ?_⟩
    by_cases he : es = []
    · exact ⟨_, (C38_raises kB es _ T).2 (Or.inr he)⟩
    · have hT : kB * T = 0 := by by_contra hT; exact h ⟨he, hT⟩
      cases es with
      | nil => exact absurd rfl he
      | cons e l =>
        unfold thermalAverage
        have hm : ∃ shift, npMin (e :: l) = .ok shift := ⟨_, rfl⟩
        obtain ⟨shift, hs⟩ := hm
        simp [hs, hT, bind, Except.bind, throw, throwThe, MonadExceptOf.throw]

theorem spectrumFiles_isOk (kB : ℝ) (es : List ℝ) (T : ℝ) (w w' : List ℝ) (n n' : ℕ) (gs gs' : Spectra) :
    ((∃ f, spectrumFiles kB es T w n gs = .ok f) ∧ ∃ f, spectrumFiles kB es T w' n' gs' = .ok f) ∨
    ((∃ e, spectrumFiles kB es T w n gs = .error e) ∧ ∃ e, spectrumFiles kB es T w' n' gs' = .error e) := by
  unfold spectrumFiles
  rcases thermalAverage_cases kB es T (intensity gs) with ⟨h1, h2, h3⟩ | ⟨h1, e, h3⟩
  · rcases thermalAverage_cases kB es T (intensity gs') with ⟨_, _, h3'⟩ | ⟨h1', _⟩
    · left
      simp only [h3, h3', ok_bind, pure_ok]
      exact ⟨⟨_, rfl⟩, ⟨_, rfl⟩⟩
    · exact absurd ⟨h1, h2⟩ h1'
  · rcases thermalAverage_cases kB es T (intensity gs') with ⟨h1', h2', h3'⟩ | ⟨h1', e', h3'⟩
    · exact absurd ⟨h1', h2'⟩ h1
    · right
      simp only [h3, h3']
      exact ⟨⟨_, rfl⟩, ⟨_, rfl⟩⟩

theorem settles_files {N : ℕ} (hN : 0 < N) (kB : ℝ) (es : List ℝ) (T : ℝ) (w : List ℝ) (n : ℕ) (gs : Fin N → Spectra)
    (root : Spectra) (h0 : gs ⟨0, hN⟩ = root) :
    Settles msgSum (fun r => Prog.lift (spectrumFiles kB es T w n (gs r))) (spectrumFiles kB es T w n root)
      (fun a out => out ⟨0, hN⟩ = a) := by
  apply Settles.local hN
  subst h0
  cases hr : spectrumFiles kB es T w n (gs ⟨0, hN⟩) with
  | ok a =>
    left
    refine ⟨a, rfl, fun r => ?_⟩
    rcases spectrumFiles_isOk kB es T w w n n (gs ⟨0, hN⟩) (gs r) with ⟨_, b, hb⟩ | ⟨⟨e, he⟩, _⟩
    · refine ⟨b, hb, fun hr0 => ?_⟩
      have : r = ⟨0, hN⟩ := Fin.ext hr0
      subst this
      rw [hr] at hb
      cases hb
      rfl
    · rw [hr] at he; cases he
  | error e => exact Or.inr ⟨⟨e, rfl⟩, e, rfl⟩

/-! ### The whole function -/

theorem SimulateArgs.Valid.spectra {S : SimulateArgs} (h : S.Valid) (w : List ℝ) {delta : ℝ} (hd : delta ≠ 0) :
    (S.spectra w delta).Valid where
  hop := h.hop
  cut := h.cut
  weight := h.weight
  delta := hd
  krylov := h.krylov
  fuel := h.fuel

theorem SimulateArgs.Valid.rixs {S : SimulateArgs} (h : S.Valid) : S.rixs.Valid where
  hop := h.hop
  cut := h.cut
  weight := h.weight
  delta := h.deltaRIXS
  krylov := h.krylov
  fuel := h.fuel

theorem SimulateArgs.Valid.good {S : SimulateArgs} (h : S.Valid) : GoodSystem (intKeys S.nBaths) :=
  goodSystem_intKeys h.nBaths

/-- The computation that the ranks carry out together. -/
def refSimulate (S : SimulateArgs) : Py Simulated := do
  let nB := intKeys S.nBaths
  let negW := S.w.map fun x => -x
  let ops ← (do
    let tOpsIPS ← getInversePhotoEmissionOperators nB 2
    let tOpsPS ← getPhotoEmissionOperators nB 2
    return (tOpsIPS, tOpsPS) : Py (List (Op ℕ ℂ) × List (Op ℕ ℂ)))
  let gsIPS ← refHBuild (S.spectra S.w S.delta) ops.1 S.psis S.es
  let gsPS ← refHBuild (S.spectra negW (-S.delta)) ops.2 S.psis S.es
  let ps ← spectrumFiles S.kB S.es S.T S.w ops.1.length (gsPS.root.negate.add gsIPS.root)
  let tOpsPS ← getPhotoEmissionOperators nB 1
  let gs ← refHBuild (S.spectra negW (-S.delta)) tOpsPS S.psis S.es
  let xps ← spectrumFiles S.kB S.es S.T S.w tOpsPS.length gs.root.negate
  let tOps ← getNIXSOperators S.gaunt S.sphHarm S.jn nB S.qsNIXS S.liNIXS S.ljNIXS S.RiNIXS S.RjNIXS S.radialMesh S.kmin
  let gs ← refHBuild (S.spectra S.wLoss S.deltaNIXS) tOps S.psis S.es
  let nixs ← spectrumFiles S.kB S.es S.T S.wLoss tOps.length gs.root
  let tOps ← getDipoleOperators S.gaunt nB S.epsilons
  let gs ← refHBuild (S.spectra S.w S.delta) tOps S.psis S.es
  let xas ← spectrumFiles S.kB S.es S.T S.w tOps.length gs.root
  let ops ← (do
    let tOpsIn ← getDipoleOperators S.gaunt nB S.epsilonsRIXSin
    let tOpsOut ← getDaggeredDipoleOperators S.gaunt nB S.epsilonsRIXSout
    return (tOpsIn, tOpsOut) : Py (List (Op ℕ ℂ) × List (Op ℕ ℂ)))
  let gs ← refRixs S.rixs ops.1 ops.2 S.psis S.es
  let rixs ← rixsFiles S.f32 S.kB S.es S.T S.wIn S.wLoss ops.1.length ops.2.length gs.root
  return ⟨ps, xps, nixs, xas, rixs⟩

theorem settles_spectra {N : ℕ} (hN : 0 < N) {A : SpectraArgs} (hA : A.Valid) {psis : List (Psi ℂ)} {es : List ℝ}
    (hlen : es.length ≤ psis.length) (hpsis : ∀ psi ∈ psis, IsState A.n psi) {tOps : List (Op ℕ ℂ)}
    (htOps : ∀ tOp ∈ tOps, OpInSystem A.n tOp) (ord : Fin N → ℕ → ℕ → SetOrders) (hord : ∀ k t i, (ord k t i).Valid) :
    Settles msgSum (fun k : Fin N => getSpectra A tOps psis es .hBuild (ord k) k.val N) (refHBuild A tOps psis es)
      (fun x out => out ⟨0, hN⟩ = x.root) := by
  rcases hBuild_dichotomy hN hA hlen hpsis htOps ord hord with ⟨x, hx, hrun⟩ | ⟨e, hx, hf⟩
  · rw [hx]
    exact ⟨_, if_pos rfl, hrun⟩
  · rw [hx]
    exact RunsToFailure.runsToFail hN hf

theorem settles_rixs {N : ℕ} (hN : 0 < N) {S : SimulateArgs} (hS : S.Valid) {tOpsIn tOpsOut : List (Op ℕ ℂ)}
    (hin : ∀ op ∈ tOpsIn, OpInSystem (nSpinOrbitals S.nBaths) op) (ho : OutOps S.rixs tOpsOut)
    (ord : Fin N → List ℕ → SetOrders) (hord : ∀ k l, (ord k l).Valid) :
    Settles msgSum (fun k : Fin N => getRIXSmap S.rixs tOpsIn tOpsOut S.psis S.es [] .hBuildWIn (ord k) k.val N)
      (refRixs S.rixs tOpsIn tOpsOut S.psis S.es) (fun x out => ∀ k, (out k).1 = x.root) := by
  have hg : GroundOk S.rixs .hBuildWIn (fun _ : Fin N => []) :=
    ⟨fun _ => columnsExact_nil .., fun h => by cases h⟩
  rcases rixs_dichotomy hN hS.rixs (mode := .hBuildWIn) (by simp) (tOpsIn := tOpsIn) (tOpsOut := tOpsOut) hin ho
    hS.enough hS.states hg ord hord with ⟨x, hx, hG', -, hrun⟩ | ⟨⟨e, hx⟩, hf⟩
  · rw [hx]
    refine ⟨_, fun k => ?_, hrun⟩
    dsimp only
    rw [if_neg]
    rintro ⟨h, -⟩
    cases h
  · rw [hx]
    exact hf

theorem simulate_settles {N : ℕ} (hN : 0 < N) {S : SimulateArgs} (hS : S.Valid) (hout : S.OutLarge)
    (ord : Fin N → ℕ → ℕ → ℕ → SetOrders) (hord : ∀ k c t i, (ord k c t i).Valid)
    (ordRixs : Fin N → List ℕ → SetOrders) (hordR : ∀ k l, (ordRixs k l).Valid) :
    Settles msgSum (fun k : Fin N => simulateSpectra S (ord k) (ordRixs k) k.val N) (refSimulate S)
      (fun s out => out = fun k => if k.val = 0 then some s else none) := by
  have hgood := hS.good
  have hn : nSpinOrbitals S.nBaths = nTotal (intKeys S.nBaths) := nSpinOrbitals_eq _
  unfold simulateSpectra refSimulate
  dsimp only
  refine Settles.bind (Settles.lift hN _) fun ops _ hops hrel => ?_
  subst hrel
  have hops12 : (∀ t ∈ ops.1, OpInSystem (nSpinOrbitals S.nBaths) t) ∧ ∀ t ∈ ops.2, OpInSystem (nSpinOrbitals S.nBaths) t := by
    rw [hn]
    exact OkIn.bind (Q := fun ops : List (Op ℕ ℂ) × List (Op ℕ ℂ) =>
      (∀ t ∈ ops.1, OpInSystem (nTotal (intKeys S.nBaths)) t) ∧ ∀ t ∈ ops.2, OpInSystem (nTotal (intKeys S.nBaths)) t)
      (inversePhoto_okIn hgood 2) (fun a ha => OkIn.bind (photo_okIn hgood 2) fun b hb => OkIn.pure ⟨ha, hb⟩) ops hops
  refine Settles.bind (settles_spectra hN (hS.spectra S.w hS.delta) hS.enough hS.states hops12.1 _
    (fun k t i => hord k 0 t i)) fun gsIPS o1 _ h1 => ?_
  refine Settles.bind (settles_spectra hN (hS.spectra (S.w.map fun x => -x) (neg_ne_zero.2 hS.delta)) hS.enough hS.states
    hops12.2 _ (fun k t i => hord k 1 t i)) fun gsPS o2 _ h2 => ?_
  refine Settles.bind (settles_files hN S.kB S.es S.T S.w ops.1.length (fun r => (o2 r).negate.add (o1 r)) _
    (by rw [h1, h2])) fun ps o3 _ h3 => ?_
  refine Settles.bind (Settles.lift hN _) fun tOpsPS _ hops hrel => ?_
  subst hrel
  have hops := photo_okIn hgood 1 _ hops
  rw [← hn] at hops
  refine Settles.bind (settles_spectra hN (hS.spectra (S.w.map fun x => -x) (neg_ne_zero.2 hS.delta)) hS.enough hS.states
    hops _ (fun k t i => hord k 2 t i)) fun gs o4 _ h4 => ?_
  refine Settles.bind (settles_files hN S.kB S.es S.T S.w tOpsPS.length (fun r => (o4 r).negate) _
    (by rw [h4])) fun xps o5 _ h5 => ?_
  refine Settles.bind (Settles.lift hN _) fun tOps _ hops hrel => ?_
  subst hrel
  have hops := nixss_okIn _ _ _ hgood _ _ _ _ _ _ _ _ hops
  rw [← hn] at hops
  refine Settles.bind (settles_spectra hN (hS.spectra S.wLoss hS.deltaNIXS) hS.enough hS.states
    hops _ (fun k t i => hord k 3 t i)) fun gs o6 _ h6 => ?_
  refine Settles.bind (settles_files hN S.kB S.es S.T S.wLoss tOps.length o6 _ h6) fun nixs o7 _ h7 => ?_
  refine Settles.bind (Settles.lift hN _) fun tOps _ hops hrel => ?_
  subst hrel
  have hops := dipoles_okIn _ hgood _ _ hops
  rw [← hn] at hops
  refine Settles.bind (settles_spectra hN (hS.spectra S.w hS.delta) hS.enough hS.states
    hops _ (fun k t i => hord k 4 t i)) fun gs o8 _ h8 => ?_
  refine Settles.bind (settles_files hN S.kB S.es S.T S.w tOps.length o8 _ h8) fun xas o9 _ h9 => ?_
  refine Settles.bind (Settles.lift hN _) fun ops _ hops hrel => ?_
  subst hrel
  have hopsR : (∀ t ∈ ops.1, OpInSystem (nSpinOrbitals S.nBaths) t) ∧ OutOps S.rixs ops.2 := by
    refine OkIn.bind (Q := fun ops : List (Op ℕ ℂ) × List (Op ℕ ℂ) =>
      (∀ t ∈ ops.1, OpInSystem (nSpinOrbitals S.nBaths) t) ∧ OutOps S.rixs ops.2)
      (hn ▸ dipoles_okIn S.gaunt hgood S.epsilonsRIXSin) (fun a ha => ?_) ops hops
    refine OkIn.bind (P := fun b => OutOps S.rixs b) (fun b hb => ?_) fun b hb => OkIn.pure ⟨ha, hb⟩
    intro op0 h0
    refine ⟨?_, hout b hb op0 h0⟩
    have := daggered_okIn _ hgood _ _ hb
    rw [← hn] at this
    exact this op0 (List.mem_of_mem_head? h0)
  refine Settles.bind (settles_rixs hN hS hopsR.1 hopsR.2 ordRixs hordR) fun gs o10 _ h10 => ?_
  simp only [h10]
  refine Settles.bind (Settles.lift hN _) fun rixs _ _ hrel => ?_
  subst hrel
  refine Settles.ret (fun r => rfl) ?_
  funext k
  dsimp only
  split
  · next hk =>
    have : k = ⟨0, hN⟩ := Fin.ext hk
    subst this
    rw [h3, h5, h7, h9]
  · rfl

end

end Verif
