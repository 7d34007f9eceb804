/-
The exact spectra behind the stored ones.
-/
import Verif.Spec.ExactSpectra
import Verif.Prop.MainConvergence

namespace Verif

open Finset Mpi Psr Spec Matrix

noncomputable section

theorem Spec.AllResolved.kept {b : ℕ → ℕ} {S : SimulateArgs} (h : AllResolved b S) : AllKept b S where
  add j hj i hi := (h.add j hj i hi).1
  remove j hj i hi := (h.remove j hj i hi).1
  core j hj i hi := (h.core j hj i hi).1
  absorb ε hε i hi := (h.absorb ε hε i hi).1
  scatter q hq := ⟨fun i hi => ((h.scatter q hq).1 i hi).1, (h.scatter q hq).2⟩
  resonant ε hε w hw i hi := ⟨(h.resonant ε hε w hw i hi).1, fun x hx =>
    ⟨((h.resonant ε hε w hw i hi).2 x hx).1, ((h.resonant ε hε w hw i hi).2 x hx).2.1⟩⟩

theorem ite_q (t : ℕ) : ((if t = 0 then 2 else 7 : ℝ)) = 2 ∨ ((if t = 0 then 2 else 7 : ℝ)) = 7 := by
  split
  · exact .inl rfl
  · exact .inr rfl

/-- If the Krylov spaces are exhausted the stored spectra are exact. -/
theorem Spec.PDSpectra.exact {b : ℕ → ℕ} {S : SimulateArgs} {s : Simulated} (hs : PDSpectra b S s) (h : AllResolved b S)
    (hkry : S.krylovSize = 150) : PDExact b S s where
  tables := ⟨⟨hs.tables.1.thermal⟩, ⟨hs.tables.2.1.thermal⟩, ⟨hs.tables.2.2.1.thermal⟩, ⟨hs.tables.2.2.2.thermal⟩⟩
  photoemission i j k hi hj hk p hp := hs.photoemission i j k hi hj hk p hp (by subst hp; exact hkry ▸ (h.add j hj i hi).2)
    (by subst hp; exact hkry ▸ (h.remove j hj i hi).2)
  xps i j k hi hj hk p hp := hs.xps i j k hi hj hk p hp (by subst hp; exact hkry ▸ (h.core j hj i hi).2)
  xas i t k hi ht hk := hs.xas i t k hi ht hk (hkry ▸ (h.absorb _ (List.getElem_mem _) i hi).2)
  nixs i t k hi ht hk q hq := by
    obtain ⟨h1, h2⟩ := h.scatter q (hq ▸ ite_q t)
    exact hs.nixs i t k hi ht hk q hq h2 (hkry ▸ (h1 i hi).2)
  rixs i a c d k hi ha hc hd hk := hs.rixs i a c d k hi ha hc hd hk
    (hkry ▸ fun x hx => ((h.resonant _ (List.getElem_mem ha) _ (List.getElem_mem hd) i hi).2 x hx).2)
  rixsThermal := hs.rixsThermal

theorem boltzmannMean_isThermal (S : SimulateArgs) (f : ℕ → ℝ) : IsThermal S.kB S.T S.es f (boltzmannMean S f) := rfl

/-- Errors of the values and errors of the average. -/
theorem boltzmannMean_near {S : SimulateArgs} {d d' e : ℕ → ℝ} {avg : ℝ} (h : IsThermal S.kB S.T S.es d avg)
    (hd : ∀ i < S.es.length, |d i - d' i| ≤ e i) : |avg - boltzmannMean S d'| ≤ boltzmannMean S e := by
  unfold IsThermal at h
  unfold boltzmannMean
  rw [h, ← sub_div, ← Finset.sum_sub_distrib, abs_div]
  have h0 : 0 ≤ ∑ i : Fin S.es.length, Real.exp (-S.es[i] / (S.kB * S.T)) := sum_nonneg fun _ _ => (Real.exp_pos _).le
  rw [abs_of_nonneg h0]
  refine div_le_div_of_nonneg_right ((abs_sum_le_sum_abs _ _).trans (sum_le_sum fun i _ => ?_)) h0
  rw [← mul_sub, abs_mul, abs_of_pos (Real.exp_pos _)]
  exact mul_le_mul_of_nonneg_left (hd i i.isLt) (Real.exp_pos _).le

theorem Spec.Width.reaches {S : SimulateArgs} {w : ℝ} (h : Width S w) (T : Vec ℂ → Vec ℂ) (i : ℕ) : Reaches S T i w := by
  obtain ⟨h0, c, hc⟩ := h
  exact ⟨h0, Set.univ, c, ⟨fun _ _ => trivial, fun _ _ _ _ _ _ => trivial⟩, hc⟩

/-- The sum of the magnitudes of the strengths of the Hamiltonian is a width. -/
theorem width_strengths {S : SimulateArgs} (hS : S.Valid) (hd : Dict.NodupKeys S.hOp ∧ isHermitianOp S.hOp) : StrengthIsWidth S :=
  fun _ hw0 hw => ⟨hw0, 0, energiesWithin_all (by have h := hS.hop; rw [nSpinOrbitals_eq] at h; exact h) hd.1 hd.2 _ _ _ hw⟩

/-- A function that chooses a number under a condition on the index. -/
theorem choose_data {α : Type} {p : α → ℝ → Prop} {c : α → Prop} (h : ∀ a, c a → ∃ r, p a r) : ∃ f : α → ℝ, ∀ a, c a → p a (f a) := by
  classical
  refine ⟨fun a => if ha : c a then (h a ha).choose else 0, fun a ha => ?_⟩
  dsimp only
  rw [dif_pos ha]
  exact (h a ha).choose_spec

/-- Exact spectra exist near the stored ones. -/
theorem exists_exact {b : ℕ → ℕ} {S : SimulateArgs} {s : Simulated} (hs : PDSpectra b S s) (hn : PDWithin b S s) (hK : AllKept b S)
    {w : ℝ} (hw : Width S w) : ∃ x, PDExact b S x ∧ Near b S w s x := by
  have e1 : ∀ a : ℕ × ℕ × ℕ, (a.1 < S.es.length ∧ a.2.1 < 10 ∧ a.2.2 < S.w.length) → ∃ r : ℝ, ∃ hk : a.2.2 < S.w.length, ∃ add rem,
      IsResponse S (create (impStart (pdSystem b) 2 + a.2.1)) a.1 ((S.w[a.2.2] : ℂ) + Complex.I * S.delta) add ∧
      IsResponse S (annihilate (impStart (pdSystem b) 2 + a.2.1)) a.1 (-((S.w[a.2.2] : ℂ) + Complex.I * S.delta)) rem ∧
      r = -(add - rem).im ∧ |s.ps.data a.1 a.2.1 a.2.2 - r| ≤ error150 S (create (impStart (pdSystem b) 2 + a.2.1)) a.1 S.delta w
        + error150 S (annihilate (impStart (pdSystem b) 2 + a.2.1)) a.1 S.delta w := by
    rintro ⟨i, j, k⟩ ⟨hi, hj, hk⟩
    obtain ⟨add, rem, h1, h2, h3⟩ := hn.photoemission i j k hi hj hk _ rfl w w (hw.reaches _ _) (hw.reaches _ _)
    exact ⟨_, hk, add, rem, h1, h2, rfl, h3⟩
  have e2 : ∀ a : ℕ × ℕ × ℕ, (a.1 < S.es.length ∧ a.2.1 < 6 ∧ a.2.2 < S.w.length) → ∃ r : ℝ, ∃ hk : a.2.2 < S.w.length, ∃ rem,
      IsResponse S (annihilate (impStart (pdSystem b) 1 + a.2.1)) a.1 (-((S.w[a.2.2] : ℂ) + Complex.I * S.delta)) rem ∧
      r = rem.im ∧ |s.xps.data a.1 a.2.1 a.2.2 - r| ≤ error150 S (annihilate (impStart (pdSystem b) 1 + a.2.1)) a.1 S.delta w := by
    rintro ⟨i, j, k⟩ ⟨hi, hj, hk⟩
    obtain ⟨rem, h1, h2⟩ := hn.xps i j k hi hj hk _ rfl w (hw.reaches _ _)
    exact ⟨_, hk, rem, h1, rfl, h2⟩
  have e3 : ∀ a : ℕ × ℕ × ℕ, (a.1 < S.es.length ∧ a.2.1 < S.epsilons.length ∧ a.2.2 < S.w.length) → ∃ r : ℝ,
      ∃ (ht : a.2.1 < S.epsilons.length) (hk : a.2.2 < S.w.length), ∃ g,
      IsResponse S (dipolePD S.gaunt b S.epsilons[a.2.1]) a.1 ((S.w[a.2.2] : ℂ) + Complex.I * S.delta) g ∧
      r = -g.im ∧ |s.xas.data a.1 a.2.1 a.2.2 - r| ≤ error150 S (dipolePD S.gaunt b S.epsilons[a.2.1]) a.1 S.delta w := by
    rintro ⟨i, t, k⟩ ⟨hi, ht, hk⟩
    obtain ⟨g, h1, h2⟩ := hn.xas i t k hi ht hk w (hw.reaches _ _)
    exact ⟨_, ht, hk, g, h1, rfl, h2⟩
  have e4 : ∀ a : ℕ × ℕ × ℕ, (a.1 < S.es.length ∧ a.2.1 < 2 ∧ a.2.2 < S.wLoss.length) → ∃ r : ℝ, ∃ hk : a.2.2 < S.wLoss.length, ∃ g,
      IsResponse S (planeWaveDD S b (if a.2.1 = 0 then 2 else 7)) a.1 ((S.wLoss[a.2.2] : ℂ) + Complex.I * S.deltaNIXS) g ∧
      r = -g.im ∧ |s.nixs.data a.1 a.2.1 a.2.2 - r| ≤ error150 S (planeWaveDD S b (if a.2.1 = 0 then 2 else 7)) a.1 S.deltaNIXS w := by
    rintro ⟨i, t, k⟩ ⟨hi, ht, hk⟩
    obtain ⟨g, h1, h2⟩ := hn.nixs i t k hi ht hk _ rfl (hK.scatter _ (ite_q t)).2 w (hw.reaches _ _)
    exact ⟨_, hk, g, h1, rfl, h2⟩
  have e5 : ∀ a : ℕ × ℕ × ℕ × ℕ × ℕ, (a.1 < S.es.length ∧ a.2.1 < S.epsilonsRIXSin.length ∧ a.2.2.1 < 3 ∧ a.2.2.2.1 < S.wIn.length ∧
      a.2.2.2.2 < S.wLoss.length) → ∃ r : ℝ, ∃ (ha : a.2.1 < S.epsilonsRIXSin.length) (hd : a.2.2.2.1 < S.wIn.length)
      (hk : a.2.2.2.2 < S.wLoss.length), ∃ g,
      IsRixs (size S) (hamilton S) ((S.wIn[a.2.2.2.1] : ℂ) + Complex.I * S.delta + (S.es.getD a.1 0 : ℂ))
        ((S.wLoss[a.2.2.2.2] : ℂ) + Complex.I * S.deltaRIXS + (S.es.getD a.1 0 : ℂ))
        (excite S (dipolePD S.gaunt b S.epsilonsRIXSin[a.2.1]) a.1) (exciteVec S (dipoleDP S.gaunt b ⟨1, 0, 0⟩)) g ∧
      r = -g.im ∧ ∀ x, Solves (size S) (hamilton S) ((S.wIn[a.2.2.2.1] : ℂ) + Complex.I * S.delta + (S.es.getD a.1 0 : ℂ))
          (excite S (dipolePD S.gaunt b S.epsilonsRIXSin[a.2.1]) a.1) x →
        |s.rixs.data a.1 a.2.1 a.2.2.1 a.2.2.2.1 a.2.2.2.2 - r| ≤
          normSq (size S) (exciteVec S (dipoleDP S.gaunt b ⟨1, 0, 0⟩) x) * lanczosError w S.deltaRIXS 150 := by
    rintro ⟨i, a, c, d, k⟩ ⟨hi, ha, hc, hd, hk⟩
    obtain ⟨h0, c₀, hc₀⟩ := hw
    obtain ⟨g, h1, h2⟩ := hn.rixs i a c d k hi ha hc hd hk Set.univ c₀ w h0 hc₀ fun x hx =>
      ⟨((hK.resonant _ (List.getElem_mem ha) _ (List.getElem_mem hd) i hi).2 x hx).2,
        ⟨fun _ _ => trivial, fun _ _ _ _ _ _ => trivial⟩⟩
    exact ⟨_, ha, hd, hk, g, h1, rfl, h2⟩
  obtain ⟨f1, h1⟩ := choose_data e1
  obtain ⟨f2, h2⟩ := choose_data e2
  obtain ⟨f3, h3⟩ := choose_data e3
  obtain ⟨f4, h4⟩ := choose_data e4
  obtain ⟨f5, h5⟩ := choose_data e5
  refine ⟨⟨⟨fun i j k => f1 (i, j, k), fun j k => boltzmannMean S fun i => f1 (i, j, k), []⟩,
    ⟨fun i j k => f2 (i, j, k), fun j k => boltzmannMean S fun i => f2 (i, j, k), []⟩,
    ⟨fun i j k => f4 (i, j, k), fun j k => boltzmannMean S fun i => f4 (i, j, k), []⟩,
    ⟨fun i j k => f3 (i, j, k), fun j k => boltzmannMean S fun i => f3 (i, j, k), []⟩,
    ⟨fun i a c d k => f5 (i, a, c, d, k), fun a c d k => boltzmannMean S fun i => f5 (i, a, c, d, k), []⟩⟩, ?_, ?_⟩
  · refine ⟨⟨⟨fun _ _ => rfl⟩, ⟨fun _ _ => rfl⟩, ⟨fun _ _ => rfl⟩, ⟨fun _ _ => rfl⟩⟩, ?_, ?_, ?_, ?_, ?_, fun _ _ _ _ => rfl⟩
    · rintro i j k hi hj hk p rfl
      obtain ⟨_, add, rem, g1, g2, g3, -⟩ := h1 (i, j, k) ⟨hi, hj, hk⟩
      exact ⟨add, rem, g1, g2, g3⟩
    · rintro i j k hi hj hk p rfl
      obtain ⟨_, rem, g1, g2, -⟩ := h2 (i, j, k) ⟨hi, hj, hk⟩
      exact ⟨rem, g1, g2⟩
    · intro i t k hi ht hk
      obtain ⟨_, _, g, g1, g2, -⟩ := h3 (i, t, k) ⟨hi, ht, hk⟩
      exact ⟨g, g1, g2⟩
    · rintro i t k hi ht hk q rfl
      obtain ⟨_, g, g1, g2, -⟩ := h4 (i, t, k) ⟨hi, ht, hk⟩
      exact ⟨g, g1, g2⟩
    · intro i a c d k hi ha hc hd hk
      obtain ⟨_, _, _, g, g1, g2, -⟩ := h5 (i, a, c, d, k) ⟨hi, ha, hc, hd, hk⟩
      exact ⟨g, g1, g2⟩
  · refine ⟨fun j hj k hk => ?_, fun j hj k hk => ?_, fun t ht k hk => ?_, fun t ht k hk => ?_, fun a ha c hc d hd k hk ys hys => ?_⟩
    · refine boltzmannMean_near (d := fun i => s.ps.data i j k) (d' := fun i => f1 (i, j, k)) (hs.tables.1.thermal j k) fun i hi => ?_
      obtain ⟨_, _, _, _, _, _, g⟩ := h1 (i, j, k) ⟨hi, hj, hk⟩
      exact g
    · refine boltzmannMean_near (d := fun i => s.xps.data i j k) (d' := fun i => f2 (i, j, k)) (hs.tables.2.1.thermal j k) fun i hi => ?_
      obtain ⟨_, _, _, _, g⟩ := h2 (i, j, k) ⟨hi, hj, hk⟩
      exact g
    · refine boltzmannMean_near (d := fun i => s.xas.data i t k) (d' := fun i => f3 (i, t, k)) (hs.tables.2.2.2.thermal t k) fun i hi => ?_
      obtain ⟨_, _, _, _, _, g⟩ := h3 (i, t, k) ⟨hi, ht, hk⟩
      exact g
    · refine boltzmannMean_near (d := fun i => s.nixs.data i t k) (d' := fun i => f4 (i, t, k)) (hs.tables.2.2.1.thermal t k) fun i hi => ?_
      obtain ⟨_, _, _, _, g⟩ := h4 (i, t, k) ⟨hi, ht, hk⟩
      exact g
    · refine boltzmannMean_near (d := fun i => s.rixs.data i a c d k) (d' := fun i => f5 (i, a, c, d, k)) (hs.rixsThermal a c d k) fun i hi => ?_
      obtain ⟨_, _, _, _, _, _, g⟩ := h5 (i, a, c, d, k) ⟨hi, ha, hc, hd, hk⟩
      exact g _ (hys i hi)

/-- A relation between exact spectra, for the stored ones. -/
theorem related_both {b : ℕ → ℕ} {S S' : SimulateArgs} {s s' : Simulated} (hs : PDSpectra b S s) (hs' : PDSpectra b S' s')
    (hn : PDWithin b S s) (hn' : PDWithin b S' s') (hkry : S.krylovSize = 150) (hkry' : S'.krylovSize = 150)
    (hS : StrengthIsWidth S) (hS' : StrengthIsWidth S')
    {R : Simulated → Simulated → Prop}
    (hR : AllKept b S → AllKept b S' → ∀ x x', PDExact b S x → PDExact b S' x' → R x x') :
    (AllResolved b S → AllResolved b S' → R s s') ∧ (AllKept b S → AllKept b S' → Almost R b S S' s s') := by
  refine ⟨fun h h' => hR h.kept h'.kept _ _ (hs.exact h hkry) (hs'.exact h' hkry'), fun h h' => ⟨hS, hS', fun w w' hw hw' => ?_⟩⟩
  obtain ⟨x, hx, hxn⟩ := exists_exact hs hn h hw
  obtain ⟨x', hx', hxn'⟩ := exists_exact hs' hn' h' hw'
  exact ⟨x, x', hx, hx', hxn, hxn', hR h h' x x' hx hx'⟩

section
variable {L : MainLib} {A : MainArgs} (hA : A.Valid) (hG : GauntLarge L.gaunt A.ls) {N : ℕ} (hN : 0 < N)
  {ord : Fin N → ℕ → ℕ → ℕ → SetOrders} (hord : ∀ k c t i, (ord k c t i).Valid)
  {ordRixs : Fin N → List ℕ → SetOrders} (hordR : ∀ k l, (ordRixs k l).Valid) {out : Fin N → Option MainOutput}
  (hfin : CanFinish msgSum (fun k : Fin N => mainRank L A (ord k) (ordRixs k) k.val N) out)
  {o : MainOutput} (ho : out ⟨0, hN⟩ = some o) (hL : SolverCorrect L.solver) {b : ℕ → ℕ} {P : BasisParams} {hx hy hz : ℝ}
  {h0 : Op Label ℂ} (hD : Documented A b P hx hy hz h0)

include hA hG hord hordR hfin ho hL hD in
/-- What main stores: exact if the Krylov spaces are exhausted, and else within the error of 150 Lanczos vectors. -/
theorem main_both (hR : GauntRules L.gaunt) (hsolve : ExactSolver L.solve) (hf : L.f32 50 = 50) :
    ∃ psis S, MainRun L A b P hx hy hz h0 o.energies psis S ∧ S.Valid ∧ PDSpectra b S o.spectra ∧ PDWithin b S o.spectra := by
  obtain ⟨psis, S, hrun, hS, hout, hall⟩ := C65_run hA hG hN hord hordR hfin ho hL hD
  exact ⟨psis, S, hrun, hS, mainRun_spectra hG hN hord hordR hD hR hsolve hf hrun hS hout (hall N hN ord hord ordRixs hordR).canFinish,
    mainRun_within hG hN hord hordR hD hR hsolve hrun.toMainPrepared hS hout (hall N hN ord hord ordRixs hordR).canFinish⟩

end

end

end Verif
