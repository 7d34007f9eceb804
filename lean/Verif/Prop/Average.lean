/-
C38, C39: thermal averages and the double counting.
-/
import Verif.Spec.Average
import Verif.Model.Average
import Mathlib.Analysis.Convex.Combination
import Mathlib.Tactic.FieldSimp
import Mathlib.Tactic.Linarith

set_option linter.unusedSimpArgs false

namespace Verif

/-! ### C38 -/

section
variable {E : Type} [AddCommGroup E] [Module ℝ E] (kB : ℝ) (energies : List ℝ) (observable : List E) (T : ℝ)

theorem thermal_fold (shift b : ℝ) : ∀ (es : List ℝ) (os : List E), es.length = os.length → ∀ (z : ℝ) (a : E),
    (es.zip os).foldl (fun (acc : ℝ × E) (p : ℝ × E) =>
      (acc.1 + Real.exp (-(p.1 - shift) / b), acc.2 + Real.exp (-(p.1 - shift) / b) • p.2)) (z, a)
    = (z + Real.exp (shift / b) * (es.map fun e => Real.exp (-e / b)).sum,
       a + Real.exp (shift / b) • (List.zipWith (fun e o => Real.exp (-e / b) • o) es os).sum) := by
  intro es
  induction es with
  | nil => intro os _ z a; simp
  | cons e es ih =>
    intro os h z a
    cases os with
    | nil => cases h
    | cons o os =>
      rw [List.zip_cons_cons, List.foldl_cons, ih os (by simpa using h)]
      have hw : Real.exp (-(e - shift) / b) = Real.exp (shift / b) * Real.exp (-e / b) := by
        rw [← Real.exp_add]; congr 1; ring
      ext
      · simp only [List.map_cons, List.sum_cons, hw]; ring
      · simp only [List.zipWith_cons_cons, List.sum_cons, hw, smul_add, smul_smul, add_assoc]

theorem partitionSum_pos (h : energies ≠ []) : 0 < partitionSum kB energies T := by
  unfold partitionSum
  cases energies with
  | nil => exact absurd rfl h
  | cons e es =>
    rw [List.map_cons, List.sum_cons]
    refine add_pos_of_pos_of_nonneg (Real.exp_pos _) (List.sum_nonneg ?_)
    intro x hx
    obtain ⟨e, _, rfl⟩ := List.mem_map.1 hx
    exact (Real.exp_pos _).le

/-- C38, the formula: for at least one state and `T ≠ 0`, the result is
`(∑ exp(-e_i/kT) o_i) / (∑ exp(-e_i/kT))`. -/
theorem C38_boltzmann (hlen : energies.length = observable.length) (hne : energies ≠ []) (hT : kB * T ≠ 0) :
    thermalAverage kB energies observable T
      = .ok ((partitionSum kB energies T)⁻¹ • boltzmannSum kB energies observable T) := by
  unfold thermalAverage
  cases he : energies with
  | nil => exact absurd he hne
  | cons e es =>
    rw [← he]
    have hm : ∃ shift, npMin energies = .ok shift := by rw [he]; exact ⟨_, rfl⟩
    obtain ⟨shift, hs⟩ := hm
    simp only [hlen, ne_eq, not_true_eq_false, if_false, hs, hT, bind, Except.bind, pure, Except.pure]
    rw [thermal_fold shift (kB * T) energies observable hlen, zero_add, zero_add]
    simp only [smul_smul, mul_inv]
    congr 2
    unfold partitionSum
    have := Real.exp_pos (shift / (kB * T))
    field_simp

/-- C38, the error cases: `ValueError` exactly when the lengths differ or there
is no state. -/
theorem C38_raises : thermalAverage kB energies observable T = .error .valueError ↔
    energies.length ≠ observable.length ∨ energies = [] := by
  constructor
  · intro h
    by_contra hc
    rw [not_or, not_not] at hc
    by_cases hT : kB * T = 0
    · unfold thermalAverage at h
      cases he : energies with
      | nil => exact hc.2 he
      | cons e es =>
        have hm : ∃ shift, npMin energies = .ok shift := by rw [he]; exact ⟨_, rfl⟩
        obtain ⟨shift, hs⟩ := hm
        simp [hc.1, hs, hT, bind, Except.bind, throw, throwThe, MonadExceptOf.throw] at h
    · rw [C38_boltzmann kB energies observable T hc.1 hc.2 hT] at h
      cases h
  · intro h
    unfold thermalAverage
    by_cases hl : energies.length = observable.length
    · have he : energies = [] := h.resolve_left (fun h => h hl)
      simp only [hl, ne_eq, not_true_eq_false, if_false, bind, Except.bind]
      rw [he]
      rfl
    · simp [hl, bind, Except.bind, throw, throwThe, MonadExceptOf.throw]

/-- C38, only energy differences matter. -/
theorem C38_shift (c : ℝ) :
    thermalAverage kB (energies.map (· + c)) observable T = thermalAverage kB energies observable T := by
  by_cases hlen : energies.length = observable.length
  · by_cases hne : energies = []
    · subst hne
      rfl
    · by_cases hT : kB * T = 0
      · have : ∀ es : List ℝ, es.length = observable.length → es ≠ [] →
            thermalAverage kB es observable T = .error .nan := by
          intro es h1 h2
          unfold thermalAverage
          have hm : ∃ shift, npMin es = .ok shift := by
            cases es with
            | nil => exact absurd rfl h2
            | cons e es => exact ⟨_, rfl⟩
          obtain ⟨shift, hs⟩ := hm
          simp [h1, hs, hT, bind, Except.bind, throw, throwThe, MonadExceptOf.throw]
        rw [this energies hlen hne, this _ (by simpa using hlen) (by simpa using hne)]
      · rw [C38_boltzmann kB energies observable T hlen hne hT,
          C38_boltzmann kB _ observable T (by simpa using hlen) (by simpa using hne) hT]
        have h1 : ∀ e : ℝ, Real.exp (-(e + c) / (kB * T)) = Real.exp (-c / (kB * T)) * Real.exp (-e / (kB * T)) := by
          intro e; rw [← Real.exp_add]; congr 1; ring
        have h2 : partitionSum kB (energies.map (· + c)) T = Real.exp (-c / (kB * T)) * partitionSum kB energies T := by
          unfold partitionSum
          rw [List.map_map, ← List.sum_map_mul_left]
          congr 1
          exact List.map_congr_left fun e _ => h1 e
        have h3 : boltzmannSum kB (energies.map (· + c)) observable T
            = Real.exp (-c / (kB * T)) • boltzmannSum kB energies observable T := by
          unfold boltzmannSum
          rw [List.smul_sum, List.zipWith_map_left, List.map_zipWith]
          congr 1
          congr 1
          funext e o
          rw [h1, smul_smul]
        rw [h2, h3, smul_smul, mul_inv]
        have := Real.exp_pos (-c / (kB * T))
        congr 2
        field_simp
  · rw [(C38_raises kB energies observable T).2 (Or.inl hlen),
      (C38_raises kB _ observable T).2 (Or.inl (by simpa using hlen))]

/-- The formula as a sum over the states. -/
theorem boltzmann_sums (hlen : energies.length = observable.length) :
    partitionSum kB energies T = ∑ i : Fin energies.length, Real.exp (-energies[i] / (kB * T)) ∧
    boltzmannSum kB energies observable T
      = ∑ i : Fin energies.length, Real.exp (-energies[i] / (kB * T)) • observable[i.1]'(hlen ▸ i.2) := by
  constructor
  · unfold partitionSum
    exact (Fin.sum_univ_fun_getElem energies fun e => Real.exp (-e / (kB * T))).symm
  · unfold boltzmannSum
    conv_lhs => rw [← List.ofFn_getElem (xs := List.zipWith (fun e o => Real.exp (-e / (kB * T)) • o) energies observable)]
    rw [List.sum_ofFn]
    have hL : (List.zipWith (fun e o => Real.exp (-e / (kB * T)) • o) energies observable).length
        = energies.length := by rw [List.length_zipWith, ← hlen, min_self]
    refine Fintype.sum_equiv (finCongr hL) _ _ fun i => ?_
    rw [List.getElem_zipWith]
    rfl

/-- C38, the result is in the convex hull of the observables of the states: it
is a weighted mean. -/
theorem C38_convex (hlen : energies.length = observable.length) (hne : energies ≠ []) (hT : kB * T ≠ 0) :
    ∃ r, thermalAverage kB energies observable T = .ok r ∧ r ∈ convexHull ℝ {o | o ∈ observable} := by
  refine ⟨_, C38_boltzmann kB energies observable T hlen hne hT, ?_⟩
  have hz := partitionSum_pos kB energies T hne
  obtain ⟨h1, h2⟩ := boltzmann_sums kB energies observable T hlen
  rw [h2, Finset.smul_sum]
  simp only [smul_smul]
  refine (convex_convexHull ℝ _).sum_mem (fun i _ => ?_) ?_ fun i _ => ?_
  · exact mul_nonneg (inv_nonneg.2 hz.le) (Real.exp_pos _).le
  · rw [← Finset.mul_sum, ← h1, inv_mul_cancel₀ hz.ne']
  · exact subset_convexHull ℝ _ (List.getElem_mem _)

/-- C38, bounds: a mean of numbers between `a` and `b` is between `a` and `b`. -/
theorem C38_bounds (obs : List ℝ) (a b : ℝ) (hlen : energies.length = obs.length) (hne : energies ≠ [])
    (hT : kB * T ≠ 0) (h : ∀ o ∈ obs, a ≤ o ∧ o ≤ b) :
    ∃ r, thermalAverage kB energies obs T = .ok r ∧ a ≤ r ∧ r ≤ b := by
  obtain ⟨r, h1, h2⟩ := C38_convex kB energies obs T hlen hne hT
  refine ⟨r, h1, ?_⟩
  have : convexHull ℝ {o | o ∈ obs} ⊆ Set.Icc a b := convexHull_min (fun o ho => h o ho) (convex_Icc a b)
  exact this h2

/-- C38, constants are reproduced. -/
theorem C38_constant (o : E) (hne : energies ≠ []) (hT : kB * T ≠ 0) :
    thermalAverage kB energies (List.replicate energies.length o) T = .ok o := by
  obtain ⟨r, h1, h2⟩ := C38_convex kB energies (List.replicate energies.length o) T (by simp) hne hT
  rw [h1]
  have : convexHull ℝ {x | x ∈ List.replicate energies.length o} ⊆ {o} :=
    convexHull_min (fun x hx => by simpa using (List.eq_of_mem_replicate hx)) (convex_singleton o)
  rw [this h2]

/-- C38, the order of the states does not matter. -/
theorem C38_order (energies' : List ℝ) (observable' : List E) (hlen : energies.length = observable.length)
    (hlen' : energies'.length = observable'.length)
    (hp : (energies.zip observable).Perm (energies'.zip observable')) (hT : kB * T ≠ 0) :
    thermalAverage kB energies observable T = thermalAverage kB energies' observable' T := by
  have hpe : energies.Perm energies' := by
    have := hp.map Prod.fst
    rwa [List.map_fst_zip (by omega), List.map_fst_zip (by omega)] at this
  by_cases hne : energies = []
  · have hne' : energies' = [] := by rw [hne] at hpe; exact hpe.symm.eq_nil
    rw [(C38_raises kB energies observable T).2 (Or.inr hne), (C38_raises kB energies' observable' T).2 (Or.inr hne')]
  · have hne' : energies' ≠ [] := by rintro rfl; exact hne hpe.eq_nil
    rw [C38_boltzmann kB _ _ T hlen hne hT, C38_boltzmann kB _ _ T hlen' hne' hT]
    have h1 : partitionSum kB energies T = partitionSum kB energies' T := (hpe.map _).sum_eq
    have h2 : boltzmannSum kB energies observable T = boltzmannSum kB energies' observable' T := by
      unfold boltzmannSum
      rw [← List.map_uncurry_zip_eq_zipWith, ← List.map_uncurry_zip_eq_zipWith]
      exact (hp.map _).sum_eq
    rw [h1, h2]

end

/-- Two degenerate states: the mean of the two observables. -/
example : thermalAverage (1 / 11604) [5, 5] [(1 : ℝ), 3] 300 = .ok 2 := by
  refine (C38_boltzmann (1 / 11604) [5, 5] [(1 : ℝ), 3] 300 rfl (by simp) (by norm_num)).trans ?_
  congr 1
  have := Real.exp_pos (-5 / (1 / 11604 * 300))
  simp only [partitionSum, boltzmannSum, List.map_cons, List.map_nil, List.sum_cons, List.sum_nil,
    List.zipWith_cons_cons, List.zipWith_nil_right, smul_eq_mul]
  field_simp
  norm_num
  ring

/-! ### C39 -/

theorem pyInt_iff (x : ℝ) : ((pyInt x : ℤ) : ℝ) = x ↔ ∃ k : ℤ, (k : ℝ) = x := by
  constructor
  · intro h; exact ⟨_, h⟩
  · rintro ⟨k, rfl⟩
    unfold pyInt
    split <;> simp

theorem pyGet_getD {l : List ℝ} {i : ℕ} (h : i < l.length) : pyGet l (i : ℤ) = .ok (l.getD i 0) := by
  unfold pyGet pyIndex
  rw [if_pos (by omega), if_pos (by exact_mod_cast h)]
  simp [h]

/-- C39.  With Slater integral lists of the documented lengths, `dc_MLFT` raises
`ValueError` exactly for undocumented input; otherwise it returns
`Udd n3d - c`, or `[Udd n3d + 6 Upd - c, Upd (n3d+1) - c]`. -/
theorem C39_double_counting (n3d c : ℝ) (Fdd : List ℝ) (n2p : Option ℝ) (Fpd Gpd : Option (List ℝ))
    (hF : 5 ≤ Fdd.length) (hFp : ∀ F ∈ Fpd, 3 ≤ F.length) (hG : ∀ G ∈ Gpd, 4 ≤ G.length) :
    (dcMLFT n3d c Fdd n2p Fpd Gpd = .error .valueError ↔ ¬ DocumentedInput n3d n2p Fpd Gpd) ∧
    ((∃ k : ℤ, (k : ℝ) = n3d) → n2p = none → Fpd = none → Gpd = none →
      dcMLFT n3d c Fdd n2p Fpd Gpd
        = .ok (.one ((Fdd.getD 0 0 - 14 / 441 * (Fdd.getD 2 0 + Fdd.getD 4 0)) * n3d - c))) ∧
    (∀ F G, (∃ k : ℤ, (k : ℝ) = n3d) → n2p = some 6 → Fpd = some F → Gpd = some G →
      dcMLFT n3d c Fdd n2p Fpd Gpd = .ok (.two
        ((Fdd.getD 0 0 - 14 / 441 * (Fdd.getD 2 0 + Fdd.getD 4 0)) * n3d
          + (F.getD 0 0 - 1 / 15 * G.getD 1 0 - 3 / 70 * G.getD 3 0) * 6 - c)
        ((F.getD 0 0 - 1 / 15 * G.getD 1 0 - 3 / 70 * G.getD 3 0) * (n3d + 1) - c))) := by
  have f0 : pyGet Fdd 0 = .ok (Fdd.getD 0 0) := pyGet_getD (i := 0) (by omega)
  have f2 : pyGet Fdd 2 = .ok (Fdd.getD 2 0) := pyGet_getD (i := 2) (by omega)
  have f4 : pyGet Fdd 4 = .ok (Fdd.getD 4 0) := pyGet_getD (i := 4) (by omega)
  have h6 : ((pyInt 6 : ℤ) : ℝ) = 6 := (pyInt_iff 6).2 ⟨6, by norm_num⟩
  have hone : (∃ k : ℤ, (k : ℝ) = n3d) → n2p = none → Fpd = none → Gpd = none →
      dcMLFT n3d c Fdd n2p Fpd Gpd
        = .ok (.one ((Fdd.getD 0 0 - 14 / 441 * (Fdd.getD 2 0 + Fdd.getD 4 0)) * n3d - c)) := by
    rintro hk rfl rfl rfl
    simp only [dcMLFT, (pyInt_iff n3d).2 hk, f0, f2, f4, ne_eq, not_true_eq_false, if_false, bind, Except.bind,
      pure, Except.pure]
  have htwo : ∀ F G, (∃ k : ℤ, (k : ℝ) = n3d) → n2p = some 6 → Fpd = some F → Gpd = some G →
      dcMLFT n3d c Fdd n2p Fpd Gpd = .ok (.two
        ((Fdd.getD 0 0 - 14 / 441 * (Fdd.getD 2 0 + Fdd.getD 4 0)) * n3d
          + (F.getD 0 0 - 1 / 15 * G.getD 1 0 - 3 / 70 * G.getD 3 0) * 6 - c)
        ((F.getD 0 0 - 1 / 15 * G.getD 1 0 - 3 / 70 * G.getD 3 0) * (n3d + 1) - c)) := by
    rintro F G hk rfl rfl rfl
    have hFl := hFp F rfl
    have hGl := hG G rfl
    have g0 : pyGet F 0 = .ok (F.getD 0 0) := pyGet_getD (i := 0) (by omega)
    have g1 : pyGet G 1 = .ok (G.getD 1 0) := pyGet_getD (i := 1) (by omega)
    have g3 : pyGet G 3 = .ok (G.getD 3 0) := pyGet_getD (i := 3) (by omega)
    simp only [dcMLFT, (pyInt_iff n3d).2 hk, h6, f0, f2, f4, g0, g1, g3, ne_eq, not_true_eq_false, if_false,
      if_true, bind, Except.bind, pure, Except.pure]
  refine ⟨⟨?_, ?_⟩, hone, htwo⟩
  · rintro h ⟨hk, _, ⟨a, b, d⟩ | ⟨a, b, d⟩⟩
    · rw [hone hk a b d] at h; cases h
    · obtain ⟨F, hF⟩ := Option.ne_none_iff_exists'.1 b
      obtain ⟨G, hG⟩ := Option.ne_none_iff_exists'.1 d
      rw [htwo F G hk a hF hG] at h; cases h
  · intro h
    by_cases hk : ∃ k : ℤ, (k : ℝ) = n3d
    · have hk' := (pyInt_iff n3d).2 hk
      cases n2p with
      | none =>
        cases Fpd <;> cases Gpd
        · exact absurd ⟨hk, by simp, Or.inl ⟨rfl, rfl, rfl⟩⟩ h
        all_goals
          simp [dcMLFT, hk', f0, f2, f4, bind, Except.bind, pure, Except.pure, throw, throwThe, MonadExceptOf.throw]
      | some x =>
        by_cases hx : ∃ k : ℤ, (k : ℝ) = x
        · have hx' := (pyInt_iff x).2 hx
          cases Fpd <;> cases Gpd
          case some.some F G =>
            by_cases h6 : x = 6
            · subst h6
              exact absurd ⟨hk, by rintro y ⟨⟩; exact hx, Or.inr ⟨rfl, by simp, by simp⟩⟩ h
            · simp [dcMLFT, hk', hx', f0, f2, f4, h6, bind, Except.bind, pure, Except.pure, throw, throwThe,
                MonadExceptOf.throw]
          all_goals
            simp [dcMLFT, hk', hx', f0, f2, f4, bind, Except.bind, pure, Except.pure, throw, throwThe,
              MonadExceptOf.throw]
        · have hx' : ¬ ((pyInt x : ℤ) : ℝ) = x := fun h => hx ((pyInt_iff x).1 h)
          simp [dcMLFT, hk', hx', bind, Except.bind, pure, Except.pure, throw, throwThe, MonadExceptOf.throw]
    · have hk' : ¬ ((pyInt n3d : ℤ) : ℝ) = n3d := fun h => hk ((pyInt_iff n3d).1 h)
      simp [dcMLFT, hk', bind, Except.bind, throw, throwThe, MonadExceptOf.throw]

/-- Nickel oxide: `n3d = 8`, with a full 2p shell. -/
example : DocumentedInput 8 (some 6) (some [8.9, 0, 6.8]) (some [0, 5, 0, 2.8]) :=
  ⟨⟨8, by norm_num⟩, by rintro x ⟨⟩; exact ⟨6, by norm_num⟩, Or.inr ⟨rfl, by simp, by simp⟩⟩

example : dcMLFT 8 1.5 [7.3, 0, 11.14, 0, 6.87] (some 5) (some [8.9, 0, 6.8]) (some [0, 5, 0, 2.8])
    = .error .valueError := by
  refine ((C39_double_counting _ _ _ _ _ _ (by simp) (by rintro _ ⟨⟩; simp) (by rintro _ ⟨⟩; simp)).1).2 ?_
  rintro ⟨_, _, ⟨h, _⟩ | ⟨h, _⟩⟩
  · cases h
  · norm_num at h

end Verif
