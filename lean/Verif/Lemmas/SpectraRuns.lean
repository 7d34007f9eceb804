/-
The loops of getSpectra on all ranks.
-/
import Verif.Spec.Arguments
import Verif.Lemmas.GreenMeaning
import Verif.Prop.Cache

namespace Verif

open Finset Mpi Psr Spec Matrix

noncomputable section

/-! ### Excited states -/

/-- What is known of the result of `applyOp` with cutoff `cut` and restrictions `r`. -/
structure Excited (n : ℕ) (cut : ℝ) (r : Option Restrictions) (psi : Psi ℂ) : Prop where
  state : IsState n psi
  allowed : ∀ S ⊆ range n, encBytes n S ∈ Dict.keys psi → AllowedOpt r S
  large : ∀ p ∈ psi, cut ≤ abs2 p.2

theorem excited_of_get {n : ℕ} {cut : ℝ} {r : Option Restrictions} {psi : Psi ℂ} (hpsi : IsState n psi)
    (h : ∀ S ⊆ range n, ∃ x : ℂ, Dict.get? psi (encBytes n S) = if AllowedOpt r S ∧ cut ≤ abs2 x then some x else none) :
    Excited n cut r psi := by
  refine ⟨hpsi, fun S hS hk => ?_, fun p hp => ?_⟩
  · obtain ⟨x, hx⟩ := h S hS
    rw [Dict.mem_keys_iff, hx] at hk
    split at hk
    · rename_i hc; exact hc.1
    · simp at hk
  · obtain ⟨S, hS, hk⟩ := hpsi.keys p.1 (List.mem_map.2 ⟨p, hp, rfl⟩)
    obtain ⟨x, hx⟩ := h S hS
    have hg := Dict.get?_of_mem hpsi.nodup (show (p.1, p.2) ∈ psi from hp)
    rw [hk, hx] at hg
    split at hg
    · rename_i hc
      cases hg
      exact hc.2
    · cases hg

theorem applyOp_cached_excited {n : ℕ} {op : Op ℕ ℂ} (hop : OpInSystem n op) {psi : Psi ℂ} (hpsi : IsState n psi)
    {cut : ℝ} (hcut : 0 < cut) (r : Option Restrictions) {cache : OpResult ℂ} (hc : CacheCorrect n op cut r cache) :
    ∃ psi' cache', applyOp n op psi cut r (some cache) = .ok (psi', some cache') ∧
      CacheCorrect n op cut r cache' ∧ Excited n cut r psi' := by
  obtain ⟨p1, c1, h1, hc1, -⟩ := C17_cache_step n op hop psi hpsi cut r cache hc
  obtain ⟨p2, c2, h2, hs, hg⟩ := C16_cached_call n op hop psi hpsi cut hcut r cache hc
  rw [h1] at h2
  cases h2
  exact ⟨p1, c1, h1, hc1, excited_of_get hs fun S hS => ⟨_, hg S hS _ rfl⟩⟩

theorem applyOp_excited {n : ℕ} {op : Op ℕ ℂ} (hop : OpInSystem n op) {psi : Psi ℂ} (hpsi : IsState n psi)
    {cut : ℝ} (hcut : 0 < cut) (r : Option Restrictions) : Excited n cut r (applyOpPure n op psi cut r) :=
  excited_of_get (isState_applyOpPure hop hpsi cut r) fun _ hS => ⟨_, uncached_get? n op hop psi hpsi cut hcut r hS⟩

/-- The normalised state. -/
def unit (psi : Psi ℂ) : Psi ℂ := psi.map fun p => (p.1, p.2 / ((Real.sqrt (norm2 psi) : ℝ) : ℂ))

theorem keys_unit (psi : Psi ℂ) : Dict.keys (unit psi) = Dict.keys psi := by
  unfold unit Dict.keys
  rw [List.map_map]; rfl

theorem norm2_nonneg (psi : Psi ℂ) : (0 : ℝ) ≤ norm2 psi := by
  unfold norm2
  apply List.sum_nonneg
  intro x hx
  obtain ⟨p, -, rfl⟩ := List.mem_map.1 hx
  exact Complex.normSq_nonneg _

theorem Excited.norm_pos {n : ℕ} {cut : ℝ} (hcut : 0 < cut) {r : Option Restrictions} {psi : Psi ℂ}
    (h : Excited n cut r psi) (hne : psi ≠ []) : (0 : ℝ) < norm2 psi := by
  cases psi with
  | nil => exact absurd rfl hne
  | cons p psi =>
    have h1 : (norm2 (p :: psi) : ℝ) = abs2 p.2 + norm2 psi := by
      unfold norm2
      rw [List.map_cons, List.sum_cons]
    rw [h1]
    have := h.large p (by simp)
    have := norm2_nonneg psi
    linarith

theorem normalise_eq {n : ℕ} {cut : ℝ} (hcut : 0 < cut) {r : Option Restrictions} {psi : Psi ℂ}
    (h : Excited n cut r psi) : normalise psi = .ok (Real.sqrt (norm2 psi), unit psi) := by
  unfold normalise
  have : (psi.mapM fun p => do
      let a ← pyDiv p.2 (Real.sqrt (norm2 psi))
      return (p.1, a)) = (.ok (unit psi) : Py (Psi ℂ)) := by
    refine mapM_ok _ _ _ fun p hp => ?_
    have hpos := h.norm_pos hcut (by rintro rfl; cases hp)
    unfold pyDiv
    rw [if_neg (Real.sqrt_ne_zero'.2 hpos)]
    rfl
  simp only [this, ok_bind]
  rfl

theorem get?_unit (psi : Psi ℂ) (k : Bytes) :
    Dict.get? (unit psi) k = (Dict.get? psi k).map fun x => x / ((Real.sqrt (norm2 psi) : ℝ) : ℂ) := by
  unfold unit
  generalize ((Real.sqrt (norm2 psi) : ℝ) : ℂ) = c
  induction psi with
  | nil => rfl
  | cons q psi ih =>
    obtain ⟨a, x⟩ := q
    simp only [List.map_cons, Dict.get?_cons] at ih ⊢
    split
    · rfl
    · exact ih

theorem ampl_unit (n : ℕ) (psi : Psi ℂ) (S : Finset ℕ) :
    ampl n (unit psi) S = ampl n psi S / ((Real.sqrt (norm2 psi) : ℝ) : ℂ) := by
  unfold ampl
  split
  · rw [get?_unit]
    cases Dict.get? psi (encBytes n S) <;> simp
  · simp

theorem isState_unit {n : ℕ} {psi : Psi ℂ} (h : IsState n psi) : IsState n (unit psi) := by
  refine ⟨?_, ?_⟩
  · unfold Dict.NodupKeys
    rw [keys_unit]; exact h.nodup
  · rw [keys_unit]; exact h.keys

theorem norm2_unit {psi : Psi ℂ} (h : (0 : ℝ) < norm2 psi) : norm2 (unit psi) = (1 : ℝ) := by
  have h1 : (norm2 (unit psi) : ℝ) = (psi.map fun p => (abs2 p.2 : ℝ) * (norm2 psi)⁻¹).sum := by
    unfold unit
    generalize hc : (norm2 psi : ℝ) = c at h
    unfold norm2
    rw [List.map_map]
    congr 1
    apply List.map_congr_left
    intro p _
    show Complex.normSq (p.2 / ((Real.sqrt c : ℝ) : ℂ)) = Complex.normSq p.2 * c⁻¹
    rw [Complex.normSq_div, Complex.normSq_ofReal, Real.mul_self_sqrt h.le, div_eq_mul_inv]
  rw [h1, List.sum_map_mul_right]
  exact mul_inv_cancel₀ h.ne'

theorem unit_eq_nil {psi : Psi ℂ} : unit psi = [] ↔ psi = [] := by
  unfold unit; simp

/-! ### One spectrum -/

/-- The spectrum for one excited state, with an empty `h_dict`. -/
def spectrumOf (A : SpectraArgs) (psiR : Psi ℂ) (e : ℝ) : Py (List ℂ) := do
  let (g, _) ← getGreen A.n e (unit psiR) A.hOp A.w A.delta A.krylovSize A.cut A.restrictions [] A.fuel
  return scaleSpectrum (Real.sqrt (norm2 psiR)) g

/-- The spectrum on the ranks other than the root in mode `H_build`. -/
def otherSpectrum (A : SpectraArgs) (psiR : Psi ℂ) (e : ℝ) : List ℂ :=
  if psiR = [] then List.replicate A.w.length 0
  else scaleSpectrum (Real.sqrt (norm2 psiR)) (otherRanks A.w A.delta e)

/-! ### Loops -/

theorem loop_dichotomy {N : ℕ} {M α β ρ : Type} {sum : List M → M} (f : Fin N → β → α → Prog M β)
    (ref : ρ → α → Py ρ) (Rel : ρ → (Fin N → β) → Prop) :
    ∀ (l : List α) (x : ρ) (acc : Fin N → β), Rel x acc →
    (∀ a ∈ l, ∀ x acc, Rel x acc →
      (∃ x', ref x a = .ok x' ∧ ∃ acc', Rel x' acc' ∧ Runs sum (fun k => f k (acc k) a) acc') ∨
      (∃ err, ref x a = .error err ∧ RunsToFailure sum (fun k => f k (acc k) a) err)) →
    (∃ x', l.foldlM ref x = .ok x' ∧ ∃ acc', Rel x' acc' ∧ Runs sum (fun k => Prog.loop (f k) l (acc k)) acc') ∨
    (∃ err, l.foldlM ref x = .error err ∧ RunsToFailure sum (fun k => Prog.loop (f k) l (acc k)) err) := by
  intro l
  induction l with
  | nil => intro x acc h _; exact Or.inl ⟨x, rfl, acc, h, .ret fun _ => rfl⟩
  | cons a l ih =>
    intro x acc h hstep
    rcases hstep a (by simp) x acc h with ⟨x', h1, acc', h2, h3⟩ | ⟨err, h1, h2⟩
    · rcases ih x' acc' h2 (fun b hb => hstep b (by simp [hb])) with ⟨x'', h4, acc'', h5, h6⟩ | ⟨err, h4, h5⟩
      · left
        refine ⟨x'', ?_, acc'', h5, ?_⟩
        · rw [List.foldlM_cons, h1]; exact h4
        · exact Runs.bind h3 h6
      · right
        refine ⟨err, ?_, ?_⟩
        · rw [List.foldlM_cons, h1]; exact h4
        · exact RunsToFailure.bind_right h3 h5
    · right
      refine ⟨err, ?_, ?_⟩
      · rw [List.foldlM_cons, h1]; rfl
      · exact RunsToFailure.bind_left h2 _

/-! ### Mode H_build -/

/-- The arrays of the root and of the other ranks. -/
structure RefSpectra where
  root : Spectra
  other : Spectra

/-- Reference for the loop over eigenstates: the arrays and `t_big`. -/
def refBody (A : SpectraArgs) (psis : List (Psi ℂ)) (es : List ℝ) (t : ℕ) (tOp : Op ℕ ℂ)
    (x : RefSpectra × OpResult ℂ) (i : ℕ) : Py (RefSpectra × OpResult ℂ) := do
  let psi ← pyGet psis (i : ℤ)
  let e ← pyGet es (i : ℤ)
  let (psiR, tBig) ← applyOp A.n tOp psi A.slaterWeightMin A.restrictions (some x.2)
  let g ← spectrumOf A psiR e
  return (⟨x.1.root.put i t g, x.1.other.put i t (otherSpectrum A psiR e)⟩, tBig.getD [])

/-- The accumulators of the ranks in the loop over eigenstates. -/
def BodyRel (A : SpectraArgs) (tOp : Op ℕ ℂ) {N : ℕ} (x : RefSpectra × OpResult ℂ)
    (acc : Fin N → Spectra × OpResult ℂ × OpResult ℂ) : Prop :=
  CacheCorrect A.n tOp A.slaterWeightMin A.restrictions x.2 ∧
  (∀ k, ColumnsExact A.n A.hOp A.cut A.restrictions (acc k).2.1) ∧ DisjointKeys (fun k => (acc k).2.1) ∧
  (∀ k, (acc k).2.2 = x.2) ∧ ∀ k, (acc k).1 = if k.val = 0 then x.1.root else x.1.other

theorem body_dichotomy {N : ℕ} (hN : 0 < N) {A : SpectraArgs} (hA : A.Valid) {psis : List (Psi ℂ)} {es : List ℝ}
    (hlen : es.length ≤ psis.length) (hpsis : ∀ psi ∈ psis, IsState A.n psi) {tOp : Op ℕ ℂ} (ht : OpInSystem A.n tOp)
    (ord : Fin N → ℕ → ℕ → SetOrders) (hord : ∀ k t i, (ord k t i).Valid) (t : ℕ)
    {i : ℕ} (hi : i < es.length) (x : RefSpectra × OpResult ℂ) (acc : Fin N → Spectra × OpResult ℂ × OpResult ℂ)
    (hrel : BodyRel A tOp x acc) :
    (∃ x', refBody A psis es t tOp x i = .ok x' ∧ ∃ acc', BodyRel A tOp x' acc' ∧
      Runs msgSum (fun k : Fin N => hBuildBody A psis es (ord k) k.val N t tOp (acc k) i) acc') ∨
    (∃ err, refBody A psis es t tOp x i = .error err ∧
      RunsToFailure msgSum (fun k : Fin N => hBuildBody A psis es (ord k) k.val N t tOp (acc k) i) err) := by
  obtain ⟨hc, hd, hdis, htb, hgs⟩ := hrel
  have hi' : i < psis.length := by omega
  have hpsi := hpsis _ (List.getElem_mem hi')
  obtain ⟨psiR, cache', happ, hc', hex⟩ := applyOp_cached_excited ht hpsi hA.weight A.restrictions hc
  have hnrm := normalise_eq hA.weight hex
  have href : refBody A psis es t tOp x i = (do
      let g ← spectrumOf A psiR es[i]
      return (⟨x.1.root.put i t g, x.1.other.put i t (otherSpectrum A psiR es[i])⟩, cache')) := by
    unfold refBody
    rw [pyGet_ofNat psis i hi', pyGet_ofNat es i hi]
    simp only [ok_bind, happ, Option.getD_some]
  have hbody : ∀ k : Fin N, hBuildBody A psis es (ord k) k.val N t tOp (acc k) i
      = (getGreenRank A.n es[i] (unit psiR) A.hOp A.w A.delta A.krylovSize A.cut A.restrictions (acc k).2.1
          (ord k t i) k.val N A.fuel).bind fun gh =>
        .ret ((acc k).1.put i t (scaleSpectrum (Real.sqrt (norm2 psiR)) gh.1), gh.2, cache') := by
    intro k
    unfold hBuildBody
    rw [pyGet_ofNat psis i hi', pyGet_ofNat es i hi, htb k]
    simp only [ok_bind, happ, hnrm, pure_ok, Option.getD_some, Prog.lift, Prog.bind]
  rcases getGreenRank_runs hN hA.hop hA.cut A.restrictions (fun k => (acc k).2.1) hd hdis (fun k => ord k t i)
    (fun k => (hord k t i).1) (fun k => (hord k t i).2) (isState_unit hex.state) es[i] A.w hA.delta hA.krylov hA.fuel
    with ⟨g, hser, hDict', hd', hdis', hruns⟩ | ⟨err, hser, hfail⟩
  · left
    obtain ⟨h', -, hs⟩ := hser [] (columnsExact_nil ..)
    have hspec : spectrumOf A psiR es[i] = .ok (scaleSpectrum (Real.sqrt (norm2 psiR)) g) := by
      unfold spectrumOf
      simp only [hs, ok_bind, pure_ok]
    refine ⟨(⟨x.1.root.put i t (scaleSpectrum (Real.sqrt (norm2 psiR)) g),
        x.1.other.put i t (otherSpectrum A psiR es[i])⟩, cache'),
      by rw [href, hspec]; simp only [ok_bind, pure_ok],
      fun k => ((acc k).1.put i t (scaleSpectrum (Real.sqrt (norm2 psiR))
        (greenOnRank (unit psiR) A.w A.delta es[i] g k)), hDict' k, cache'),
      ⟨hc', hd', hdis', fun _ => rfl, fun k => ?_⟩, Runs.congr (Runs.bind hruns (.ret fun k => rfl)) hbody fun _ => rfl⟩
    show (acc k).1.put i t _ = _
    rw [hgs k]
    by_cases h0 : k.val = 0
    · rw [if_pos h0, if_pos h0, greenOnRank, if_pos (Or.inl h0)]
    · rw [if_neg h0, if_neg h0, greenOnRank]
      congr 1
      unfold otherSpectrum
      by_cases hnil : psiR = []
      · rw [if_pos (Or.inr (unit_eq_nil.2 hnil)), if_pos hnil]
        have hg0 : g = List.replicate A.w.length 0 := by
          rw [hnil] at hs
          unfold getGreen at hs
          rw [if_pos (by simp [unit])] at hs
          cases hs; rfl
        rw [hg0]
        unfold scaleSpectrum
        simp
      · rw [if_neg (by simp [h0, unit_eq_nil, hnil]), if_neg hnil]
  · right
    have hs := hser [] (columnsExact_nil ..)
    refine ⟨err, ?_, RunsToFailure.congr (RunsToFailure.bind_left hfail _) hbody⟩
    rw [href]
    unfold spectrumOf
    rw [hs]; rfl

/-- Reference for the loop over operators. -/
def refOps (A : SpectraArgs) (psis : List (Psi ℂ)) (es : List ℝ) (x : RefSpectra) (q : Op ℕ ℂ × ℕ) : Py RefSpectra := do
  let r ← (List.range es.length).foldlM (refBody A psis es q.2 q.1) (x, [])
  return r.1

/-- The result of `getSpectra` in mode `H_build` on the root and on the other ranks. -/
def refHBuild (A : SpectraArgs) (tOps : List (Op ℕ ℂ)) (psis : List (Psi ℂ)) (es : List ℝ) : Py RefSpectra :=
  tOps.zipIdx.foldlM (refOps A psis es)
    ⟨fun _ _ => List.replicate A.w.length 0, fun _ _ => List.replicate A.w.length 0⟩

/-- `getSpectra` in mode `H_build`: the outcome does not depend on the ranks. -/
theorem hBuild_dichotomy {N : ℕ} (hN : 0 < N) {A : SpectraArgs} (hA : A.Valid) {psis : List (Psi ℂ)} {es : List ℝ}
    (hlen : es.length ≤ psis.length) (hpsis : ∀ psi ∈ psis, IsState A.n psi) {tOps : List (Op ℕ ℂ)}
    (htOps : ∀ tOp ∈ tOps, OpInSystem A.n tOp)
    (ord : Fin N → ℕ → ℕ → SetOrders) (hord : ∀ k t i, (ord k t i).Valid) :
    (∃ x, refHBuild A tOps psis es = .ok x ∧
      Runs msgSum (fun k : Fin N => getSpectra A tOps psis es .hBuild (ord k) k.val N)
        (fun k => if k.val = 0 then x.root else x.other)) ∨
    (∃ err, refHBuild A tOps psis es = .error err ∧
      RunsToFailure msgSum (fun k : Fin N => getSpectra A tOps psis es .hBuild (ord k) k.val N) err) := by
  have key := loop_dichotomy (N := N) (sum := msgSum)
    (fun k (acc : Spectra × OpResult ℂ) (q : Op ℕ ℂ × ℕ) =>
      (Prog.loop (hBuildBody A psis es (ord k) k.val N q.2 q.1) (List.range es.length)
        (acc.1, acc.2, [])).bind fun r => .ret (r.1, r.2.1))
    (refOps A psis es)
    (fun (x : RefSpectra) (acc : Fin N → Spectra × OpResult ℂ) =>
      (∀ k, ColumnsExact A.n A.hOp A.cut A.restrictions (acc k).2) ∧ DisjointKeys (fun k => (acc k).2) ∧
      ∀ k, (acc k).1 = if k.val = 0 then x.root else x.other)
    tOps.zipIdx ⟨fun _ _ => List.replicate A.w.length 0, fun _ _ => List.replicate A.w.length 0⟩
    (fun _ => (fun _ _ => List.replicate A.w.length 0, []))
    ⟨fun _ => columnsExact_nil .., fun _ _ _ b hb => by simp at hb, fun k => by split <;> rfl⟩
    (by
      rintro ⟨tOp, t⟩ hq x acc ⟨hd, hdis, hgs⟩
      have htOp : OpInSystem A.n tOp := htOps tOp (List.fst_mem_of_mem_zipIdx hq)
      have inner := loop_dichotomy (N := N) (sum := msgSum)
        (fun k => hBuildBody A psis es (ord k) k.val N t tOp) (refBody A psis es t tOp) (BodyRel A tOp)
        (List.range es.length) (x, []) (fun k => ((acc k).1, (acc k).2, []))
        ⟨correct_nil .., hd, hdis, fun _ => rfl, hgs⟩
        (fun i hi x acc hrel => body_dichotomy hN hA hlen hpsis htOp ord hord t (List.mem_range.1 hi) x acc hrel)
      rcases inner with ⟨x', h1, acc', ⟨-, hd', hdis', -, hgs'⟩, h3⟩ | ⟨err, h1, h2⟩
      · left
        refine ⟨x'.1, ?_, fun k => ((acc' k).1, (acc' k).2.1), ⟨hd', hdis', hgs'⟩, Runs.bind h3 (.ret fun _ => rfl)⟩
        unfold refOps
        simp only [h1, ok_bind, pure_ok]
      · right
        refine ⟨err, ?_, RunsToFailure.bind_left h2 _⟩
        unfold refOps
        simp only [h1]; rfl)
  rcases key with ⟨x', h1, acc', ⟨-, -, hgs'⟩, h3⟩ | ⟨err, h1, h2⟩
  · left
    refine ⟨x', h1, Runs.congr (Runs.bind h3 (out' := fun k => (acc' k).1) (.ret fun _ => rfl)) (fun _ => rfl) ?_⟩
    intro k
    exact (hgs' k).symm
  · right
    exact ⟨err, h1, RunsToFailure.congr (RunsToFailure.bind_left h2 _) fun _ => rfl⟩

end

end Verif
