/-
The values that main prints.
-/
import Verif.Spec.Printed
import Verif.Lemmas.MainMeaning
import Verif.Prop.Observables
import Verif.Prop.Average

namespace Verif

open Finset Psr Spec

noncomputable section

/-! ### one row -/

theorem cubicD_real {i : ℕ} (hi : i < 5) {k : ℕ} (hk : k < 5) : cubicD.val k i = realOrbital i ((k : ℤ) - 2) := by
  rw [cubicD_val k hk i hi]
  have hr : rsqrt2 = 1 / ((Real.sqrt 2 : ℝ) : ℂ) := by unfold rsqrt2; push_cast; ring
  unfold realOrbital
  have : ((k : ℤ) - 2 + 2).toNat = k := by omega
  rw [this]
  interval_cases i <;> interval_cases k <;> simp [hr] <;> ring

theorem sum_Icc5 {M : Type} [AddCommMonoid M] (F : ℤ → M) :
    ∑ m ∈ Icc (-2 : ℤ) 2, F m = ∑ k ∈ range 5, F ((k : ℤ) - 2) := by
  refine (sum_bij (s := range 5) (g := F) (fun (k : ℕ) _ => (k : ℤ) - 2) ?_ ?_ ?_ fun _ _ => rfl).symm
  · intro k hk
    rw [mem_range] at hk
    rw [mem_Icc]
    omega
  · intro a _ b _ h
    have h : (a : ℤ) - 2 = b - 2 := h
    omega
  · intro m hm
    rw [mem_Icc] at hm
    refine ⟨(m + 2).toNat, by rw [mem_range]; omega, ?_⟩
    omega

theorem annihilateReal_eq (nBaths : Dict ℕ ℕ) (s : ℤ) {i : ℕ} (hi : i < 5) (v : Vec ℂ) :
    annihilateReal (position (intKeys nBaths)) s i v = annihilateCubic nBaths cubicD s i v := by
  funext S
  unfold annihilateReal annihilateCubic annihilateIn
  rw [sum_Icc5]
  refine sum_congr rfl fun k hk => ?_
  dsimp only
  rw [cubicD_real hi (mem_range.1 hk)]

section
variable {nBaths : Dict ℕ ℕ} (hn : Dict.NodupKeys nBaths) (hl : 2 ∈ Dict.keys nBaths)
  {psi : Psi ℂ} (hpsi : IsState (nSpinOrbitals nBaths) psi)
include hn hl hpsi

theorem square_expect (sq : Dict ℕ ℕ → Psi ℂ → Py ℝ) (Jz Jp Jm : Dict ℕ ℕ → Psi ℂ → Py (Psi ℂ)) (Mz Mp Mm : ℤ × ℤ → ℤ × ℤ → ℂ)
    (h : (sq, Jz, Jp, Jm) ∈ [(getSsqr3d, applySz3d, applySplus3d, applySminus3d),
      (getLsqr3d, applyLz3d, applyLplus3d, applyLminus3d)])
    (hz : (Jz, Mz) ∈ [(applySz3d, spinOp sZ), (applySplus3d, spinOp sPlus), (applySminus3d, spinOp sMinus),
      (applyLz3d, orbOp lZ), (applyLplus3d, orbOp (lPlus 2)), (applyLminus3d, orbOp (lMinus 2))])
    (hp : (Jp, Mp) ∈ [(applySz3d, spinOp sZ), (applySplus3d, spinOp sPlus), (applySminus3d, spinOp sMinus),
      (applyLz3d, orbOp lZ), (applyLplus3d, orbOp (lPlus 2)), (applyLminus3d, orbOp (lMinus 2))])
    (hm : (Jm, Mm) ∈ [(applySz3d, spinOp sZ), (applySplus3d, spinOp sPlus), (applySminus3d, spinOp sMinus),
      (applyLz3d, orbOp lZ), (applyLplus3d, orbOp (lPlus 2)), (applyLminus3d, orbOp (lMinus 2))]) :
    ∃ r : ℝ, sq nBaths psi = .ok r ∧ (r : ℂ) = Spec.expect (nSpinOrbitals nBaths)
      (squareOf (oneBody (position (intKeys nBaths)) 2 Mz) (oneBody (position (intKeys nBaths)) 2 Mp)
        (oneBody (position (intKeys nBaths)) 2 Mm)) (ampl (nSpinOrbitals nBaths) psi) := by
  obtain ⟨r, z, p, mp, zz, h1, z1, zz1, p1, mp1, e⟩ := C35_squares nBaths hn hl psi hpsi sq Jz Jp Jm h
  obtain ⟨z', z2, zs, za⟩ := C35_meaning nBaths hn hl psi hpsi Jz Mz hz
  rw [z1] at z2; cases z2
  obtain ⟨p', p2, ps, pa⟩ := C35_meaning nBaths hn hl psi hpsi Jp Mp hp
  rw [p1] at p2; cases p2
  obtain ⟨zz', zz2, zzs, zza⟩ := C35_meaning nBaths hn hl z zs Jz Mz hz
  rw [zz1] at zz2; cases zz2
  obtain ⟨mp', mp2, mps, mpa⟩ := C35_meaning nBaths hn hl p ps Jm Mm hm
  rw [mp1] at mp2; cases mp2
  refine ⟨r, h1, ?_⟩
  rw [e, inner_eq mps, inner_eq zzs, inner_eq zs, mpa, zza, pa, za]
  unfold Spec.expect squareOf innerProduct
  rw [← sum_add_distrib, ← sum_add_distrib]
  exact sum_congr rfl fun S _ => by ring

theorem expRow_means (e : ℝ) : ∃ row, expRow nBaths e psi = .ok row ∧ row.energy = e ∧
    getEgT2gOccupation nBaths psi = .ok row.occ ∧ getTraceDensityMatrix nBaths psi 2 = .ok row.n3d ∧
    getLz3d nBaths psi = .ok row.lz ∧ getSz3d nBaths psi = .ok row.sz ∧
    getLsqr3d nBaths psi = .ok row.lsqr ∧ getSsqr3d nBaths psi = .ok row.ssqr ∧
    RowMeans (nSpinOrbitals nBaths) (position (intKeys nBaths)) (ampl (nSpinOrbitals nBaths) psi) row := by
  obtain ⟨u, hu, a, b, c, d, t, h1, ⟨ea, eb, ec, ed⟩, -, -, -, -, h2, -⟩ := C37_occupations nBaths hn hl psi hpsi
  have hu : cubicD = u := Except.ok.inj hu
  subst hu
  obtain ⟨⟨lz, plz, h3, l1, l2⟩, ⟨sz, psz, h4, s1, s2⟩⟩ := C34_expectation nBaths hn hl psi hpsi
  obtain ⟨plz', l3, l4, l5⟩ := C35_meaning nBaths hn hl psi hpsi applyLz3d (orbOp lZ) (by simp)
  rw [l1] at l3; cases l3
  obtain ⟨psz', s3, s4, s5⟩ := C35_meaning nBaths hn hl psi hpsi applySz3d (spinOp sZ) (by simp)
  rw [s1] at s3; cases s3
  obtain ⟨lsq, h5, e5⟩ := square_expect hn hl hpsi getLsqr3d applyLz3d applyLplus3d applyLminus3d (orbOp lZ)
    (orbOp (lPlus 2)) (orbOp (lMinus 2)) (by simp) (by simp) (by simp) (by simp)
  obtain ⟨ssq, h6, e6⟩ := square_expect hn hl hpsi getSsqr3d applySz3d applySplus3d applySminus3d (spinOp sZ)
    (spinOp sPlus) (spinOp sMinus) (by simp) (by simp) (by simp) (by simp)
  refine ⟨⟨e, t, [(a : ℂ), b, c, d], lz, sz, lsq, ssq⟩, ?_, rfl, h1, h2, h3, h4, h5, h6, ?_, ?_, ?_, ?_, e5, e6⟩
  · unfold expRow
    rw [h1, h2, h3, h4, h5, h6]
    rfl
  · obtain ⟨dm, d1, _, d2, _⟩ := C33_elements nBaths hn 2 hl psi hpsi
    obtain ⟨_, t', ht, htr⟩ := C33_diagonal nBaths hn 2 hl psi hpsi dm d1
    rw [h2] at ht
    have ht : t = t' := Except.ok.inj ht
    subst ht
    refine htr.trans ?_
    unfold Spec.expect shellNumber
    rw [innerProduct_sum_right]
    exact sum_congr rfl fun x hx => d2 x hx x hx
  · have ho : ∀ s : ℤ, ∀ i < 5, realOccupation (nSpinOrbitals nBaths) (position (intKeys nBaths))
        (ampl (nSpinOrbitals nBaths) psi) s i = cubicOccupation nBaths psi cubicD s i := by
      intro s i hi
      unfold realOccupation cubicOccupation
      rw [annihilateReal_eq nBaths s hi]
    rw [ho 0 0 (by norm_num), ho 0 1 (by norm_num), ho 0 2 (by norm_num), ho 0 3 (by norm_num), ho 0 4 (by norm_num),
      ho 1 0 (by norm_num), ho 1 1 (by norm_num), ho 1 2 (by norm_num), ho 1 3 (by norm_num), ho 1 4 (by norm_num),
      ← ea, ← eb, ← ec, ← ed]
    rfl
  · unfold Spec.expect
    rw [← l5, ← inner_eq l4, l2]
  · unfold Spec.expect
    rw [← s5, ← inner_eq s4, s2]

end

/-! ### thermal averages -/

theorem sum_filter_range {E : Type} [AddCommGroup E] (p : ℕ → Prop) [DecidablePred p] (f : ℕ → E) (n : ℕ) :
    (((List.range n).filter fun i => decide (p i)).map f).sum = ∑ i ∈ range n, if p i then f i else 0 := by
  induction n with
  | zero => simp
  | succ n ih =>
    rw [List.range_succ, List.filter_append, List.map_append, List.sum_append, ih, Finset.sum_range_succ]
    congr 1
    by_cases h : p n <;> simp [h]

theorem thermalAverage_defined {E : Type} [AddCommGroup E] [Module ℝ E] {kB : ℝ} {es : List ℝ} {obs : List E} {T : ℝ} {r : E}
    (h : thermalAverage kB es obs T = .ok r) : es.length = obs.length ∧ es ≠ [] ∧ kB * T ≠ 0 := by
  unfold thermalAverage at h
  by_cases h1 : es.length = obs.length
  · by_cases h2 : es = []
    · have h' := (C38_raises kB es obs T).2 (Or.inr h2)
      unfold thermalAverage at h'
      rw [h'] at h
      cases h
    · by_cases h3 : kB * T = 0
      · have hm : ∃ shift, npMin es = .ok shift := by
          cases es with
          | nil => exact absurd rfl h2
          | cons e es => exact ⟨_, rfl⟩
        obtain ⟨shift, hs⟩ := hm
        simp [h1, h3, hs, bind, Except.bind, throw, throwThe, MonadExceptOf.throw] at h
      · exact ⟨h1, h2, h3⟩
  · simp [h1, bind, Except.bind, throw, throwThe, MonadExceptOf.throw] at h

theorem thermalAverage_mean {E : Type} [AddCommGroup E] [Module ℝ E] {kB T window e0 : ℝ} {energies : List ℝ} {x : ℕ → E} {r : E}
    {idx : List ℕ} (hidx : idx = (List.range energies.length).filter fun i => decide (energies.getD i 0 - e0 < window))
    (h : thermalAverage kB (idx.map fun i => energies.getD i 0 - e0) (idx.map x) T = .ok r) :
    r = thermalMean kB T window e0 energies x := by
  obtain ⟨h1, h2, h3⟩ := thermalAverage_defined h
  have e1 : (idx.map fun i => energies.getD i 0 - e0) = (idx.map fun i => energies.getD i 0).map (· + -e0) := by
    rw [List.map_map]
    rfl
  rw [e1, C38_shift, C38_boltzmann kB _ _ T (by simp) (by simpa using h2) h3] at h
  rw [← Except.ok.inj h]
  unfold thermalMean partitionSum boltzmannSum
  rw [List.map_map, List.zipWith_map, List.zipWith_self, hidx, sum_filter_range, sum_filter_range]
  rfl

/-- The states that enter the thermal averages. -/
theorem kept_eq (es : List ℝ) (psis : List (Psi ℂ)) (hlen : es.length = psis.length) (e0 window : ℝ) :
    ((es.map fun e => e - e0).zip psis).filter (fun p => decide (p.1 < window))
      = ((List.range es.length).filter fun i => decide (es.getD i 0 - e0 < window)).map
        fun i => (es.getD i 0 - e0, psis.getD i []) := by
  have : (es.map fun e => e - e0).zip psis = (List.range es.length).map fun i => (es.getD i 0 - e0, psis.getD i []) := by
    apply List.ext_getElem
    · simp [hlen]
    · intro i h1 h2
      have a : i < es.length := by simpa using h2
      have b : i < psis.length := by omega
      simp [a, b]
  rw [this, List.filter_map]
  rfl

section
variable {nBaths : Dict ℕ ℕ} (hn : Dict.NodupKeys nBaths) (hl : 2 ∈ Dict.keys nBaths)
  {es : List ℝ} {psis : List (Psi ℂ)} (hlen : es.length = psis.length)
  (hpsis : ∀ psi ∈ psis, IsState (nSpinOrbitals nBaths) psi)
include hn hl hlen hpsis

theorem printedMeans {kB e0 : ℝ} {rows : List ExpRow} {thermal : ThermalValues} (hasc : es.Pairwise (· ≤ ·))
    (ht : printThermalExpValues kB nBaths es psis 0 = .ok (some thermal))
    (hr : printExpValues nBaths es psis 0 = .ok (some (e0, rows))) :
    PrintedMeans kB (nSpinOrbitals nBaths) (position (intKeys nBaths)) es psis thermal e0 rows := by
  have hst : ∀ i < es.length, IsState (nSpinOrbitals nBaths) (psis.getD i []) := by
    intro i hi
    have hi : i < psis.length := by omega
    rw [List.getD_eq_getElem _ _ hi]
    exact hpsis _ (List.getElem_mem _)
  -- the lowest energy
  cases hes : es with
  | nil => rw [hes] at hr; cases hr
  | cons e0' rest =>
  have hg : pyGet es 0 = .ok e0' := by rw [hes]; exact pyGet_ofNat (e0' :: rest) 0 (by simp)
  rw [← hes]
  unfold printExpValues at hr
  rw [if_pos rfl, hg, ok_bind] at hr
  obtain ⟨rows', hrows, hr⟩ := bind_ok hr
  have hr : some (e0', rows') = some (e0, rows) := Except.ok.inj hr
  cases hr
  have hground : e0 ∈ es ∧ ∀ e ∈ es, e0 ≤ e := by
    rw [hes] at hasc ⊢
    rw [List.pairwise_cons] at hasc
    refine ⟨by simp, fun e he => ?_⟩
    rcases List.mem_cons.1 he with rfl | he
    · exact le_rfl
    · exact hasc.1 _ he
  -- the rows
  have hrow : ∀ i, ∃ row, i < es.length → expRow nBaths (es.getD i 0 - e0) (psis.getD i []) = .ok row ∧
      row.energy = es.getD i 0 - e0 ∧
      getEgT2gOccupation nBaths (psis.getD i []) = .ok row.occ ∧ getTraceDensityMatrix nBaths (psis.getD i []) 2 = .ok row.n3d ∧
      getLz3d nBaths (psis.getD i []) = .ok row.lz ∧ getSz3d nBaths (psis.getD i []) = .ok row.sz ∧
      getLsqr3d nBaths (psis.getD i []) = .ok row.lsqr ∧ getSsqr3d nBaths (psis.getD i []) = .ok row.ssqr ∧
      RowMeans (nSpinOrbitals nBaths) (position (intKeys nBaths)) (ampl (nSpinOrbitals nBaths) (psis.getD i [])) row := by
    intro i
    by_cases hi : i < es.length
    · obtain ⟨row, h⟩ := expRow_means hn hl (hst i hi) (es.getD i 0 - e0)
      exact ⟨row, fun _ => h⟩
    · exact ⟨⟨0, 0, [], 0, 0, 0, 0⟩, fun h => absurd h hi⟩
  choose R hR using hrow
  have hzip : (es.map fun e => e - e0).zip psis = (List.range es.length).map fun i => (es.getD i 0 - e0, psis.getD i []) := by
    apply List.ext_getElem
    · simp [hlen]
    · intro i h1 h2
      have a : i < es.length := by simpa using h2
      have b : i < psis.length := by omega
      simp [a, b]
  rw [hzip, List.mapM_map] at hrows
  have hmap : (List.range es.length).mapM ((fun p : ℝ × Psi ℂ => expRow nBaths p.1 p.2) ∘
      fun i => (es.getD i 0 - e0, psis.getD i [])) = .ok ((List.range es.length).map R) := by
    refine mapM_okL _ _ _ fun i hi => ?_
    exact (hR i (List.mem_range.1 hi)).1
  rw [hmap] at hrows
  have hrows : (List.range es.length).map R = rows := Except.ok.inj hrows
  subst hrows
  have hcol : ∀ {E : Type} (g : ExpRow → E) (d : E) (i : ℕ), i < es.length →
      (((List.range es.length).map R).map g).getD i d = g (R i) := by
    intro E g d i hi
    rw [List.getD_eq_getElem _ _ (by simpa using hi)]
    simp
  -- the averages
  unfold printThermalExpValues at ht
  rw [hg] at ht
  rw [ok_bind, if_neg (by simpa using hlen)] at ht
  dsimp only at ht
  rw [kept_eq es psis hlen] at ht
  simp only [List.map_map] at ht
  obtain ⟨idx, hidx⟩ : ∃ idx, idx = (List.range es.length).filter fun i => decide (es.getD i 0 - e0 < 10 * kB * 300) :=
    ⟨_, rfl⟩
  rw [← hidx] at ht
  have hlt : ∀ i ∈ idx, i < es.length := by
    intro i hi
    rw [hidx] at hi
    exact List.mem_range.1 (List.mem_filter.1 hi).1
  have hm : ∀ {E : Type} (G : Psi ℂ → Py E) (g : ExpRow → E), (∀ i < es.length, G (psis.getD i []) = .ok (g (R i))) →
      (idx.map (Prod.snd ∘ fun i => (es.getD i 0 - e0, psis.getD i []))).mapM G = .ok (idx.map fun i => g (R i)) := by
    intro E G g hG
    rw [List.mapM_map]
    exact mapM_okL _ _ _ fun i hi => hG i (hlt i hi)
  have hmean : ∀ {E : Type} [AddCommGroup E] [Module ℝ E] (g : ExpRow → E) (r : E),
      thermalAverage kB (idx.map (Prod.fst ∘ fun i => (es.getD i 0 - e0, psis.getD i []))) (idx.map fun i => g (R i)) 300
        = .ok r → r = thermalMean kB 300 (10 * kB * 300) e0 es fun i => (((List.range es.length).map R).map g).getD i 0 := by
    intro E _ _ g r h
    have h := thermalAverage_mean hidx (x := fun i => g (R i)) h
    rw [h]
    unfold thermalMean
    congr 1
    refine sum_congr rfl fun i hi => ?_
    dsimp only
    rw [hcol g 0 i (mem_range.1 hi)]
  rw [hm (E := ℕ → ℂ) _ (fun row k => row.occ.getD k 0) (fun i hi => by rw [(hR i hi).2.2.1]; rfl), ok_bind] at ht
  obtain ⟨occs, h1, ht⟩ := bind_ok ht
  rw [if_pos trivial] at ht
  obtain ⟨en, h2, ht⟩ := bind_ok ht
  rw [hm (fun psi => getTraceDensityMatrix nBaths psi 2) (fun row => row.n3d) (fun i hi => (hR i hi).2.2.2.1), ok_bind] at ht
  obtain ⟨n3, h3, ht⟩ := bind_ok ht
  rw [hm (fun psi => getLz3d nBaths psi) (fun row => row.lz) (fun i hi => (hR i hi).2.2.2.2.1), ok_bind] at ht
  obtain ⟨lz, h4, ht⟩ := bind_ok ht
  rw [hm (fun psi => getSz3d nBaths psi) (fun row => row.sz) (fun i hi => (hR i hi).2.2.2.2.2.1), ok_bind] at ht
  obtain ⟨sz, h5, ht⟩ := bind_ok ht
  rw [hm (fun psi => getLsqr3d nBaths psi) (fun row => row.lsqr) (fun i hi => (hR i hi).2.2.2.2.2.2.1), ok_bind] at ht
  obtain ⟨lsq, h6, ht⟩ := bind_ok ht
  rw [hm (fun psi => getSsqr3d nBaths psi) (fun row => row.ssqr) (fun i hi => (hR i hi).2.2.2.2.2.2.2.1), ok_bind] at ht
  obtain ⟨ssq, h7, ht⟩ := bind_ok ht
  have ht : some (⟨en, n3, occs, lz, sz, lsq, ssq⟩ : ThermalValues) = some thermal := Except.ok.inj ht
  cases ht
  refine ⟨hground, by simp, ?_, thermalAverage_mean hidx h2, hmean (fun r => r.n3d) _ h3, ?_, hmean (fun r => r.lz) _ h4,
    hmean (fun r => r.sz) _ h5, hmean (fun r => r.lsqr) _ h6, hmean (fun r => r.ssqr) _ h7⟩
  · intro i hi
    have hi' : i < es.length := by simpa using hi
    simp only [List.getElem_map, List.getElem_range]
    exact ⟨(hR i hi').2.1, (hR i hi').2.2.2.2.2.2.2.2⟩
  · intro k
    dsimp only
    rw [hmean (fun row k => row.occ.getD k 0) _ h1]
    unfold thermalMean
    rw [Pi.smul_apply, Finset.sum_apply]
    congr 1
    refine sum_congr rfl fun i hi => ?_
    dsimp only
    rw [hcol _ 0 i (mem_range.1 hi), hcol _ 0 i (mem_range.1 hi)]
    split <;> rfl

end

end

end Verif
