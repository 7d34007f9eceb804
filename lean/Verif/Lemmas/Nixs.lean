/-
Helper lemmas: NIXS operators.
-/
import Verif.Lemmas.Dipole

set_option linter.unusedSectionVars false
set_option linter.unusedSimpArgs false

namespace Verif

open Spec Finset Psr

theorem foldlM_inv {α σ τ : Type} (P : σ → Prop) (val : τ → σ → ℂ) (L : List α) (step : σ → α → Py σ)
    (w : α → τ → ℂ)
    (h : ∀ a ∈ L, ∀ d, P d → ∃ d', step d a = .ok d' ∧ P d' ∧ ∀ t, val t d' = val t d + w a t) (d : σ) (hd : P d) :
    ∃ d', L.foldlM step d = .ok d' ∧ P d' ∧ ∀ t, val t d' = val t d + (L.map fun a => w a t).sum := by
  induction L generalizing d with
  | nil => exact ⟨d, rfl, hd, fun t => by simp⟩
  | cons a L ih =>
    obtain ⟨d1, e1, p1, v1⟩ := h a (by simp) d hd
    obtain ⟨d2, e2, p2, v2⟩ := ih (fun b hb => h b (by simp [hb])) d1 p1
    refine ⟨d2, ?_, p2, fun t => ?_⟩
    · rw [List.foldlM_cons, e1]; exact e2
    · rw [v2, v1, List.map_cons, List.sum_cons, add_assoc]

/-- One radial integral of the plane wave expansion. -/
noncomputable def nixsRadial (jn : SphericalJn) (Ri Rj : List ℂ) (r : List ℝ) (qn : ℝ) (k : ℕ) : ℂ :=
  trapezoid r.length (fun i => star (Ri.getD i 0) * (jn k (qn * r.getD i 0) : ℝ) * Rj.getD i 0
    * ((r.getD i 0 ^ 2 : ℝ) : ℂ)) (fun i => r.getD i 0)

theorem trapz_eq (y : List ℂ) (x : List ℝ) (h : y.length = x.length) :
    trapz y x = trapezoid x.length (fun i => y.getD i 0) (fun i => x.getD i 0) := by
  induction x generalizing y with
  | nil =>
    cases y with
    | nil => simp [trapz, trapezoid]
    | cons a y => simp at h
  | cons x0 xs ih =>
    cases y with
    | nil => simp at h
    | cons y0 ys =>
      cases xs with
      | nil =>
        have : ys = [] := by simpa using h
        subst this
        simp [trapz, trapezoid]
      | cons x1 xs =>
        cases ys with
        | nil => simp at h
        | cons y1 ys =>
          rw [trapz, ih (y1 :: ys) (by simpa using h)]
          unfold trapezoid
          simp only [List.length_cons, Nat.add_sub_cancel]
          rw [sum_range_succ']
          rw [add_comm]
          simp

theorem trapz_nixs (jn : SphericalJn) (Ri Rj : List ℂ) (r : List ℝ) (k : ℕ) (qn : ℝ)
    (h1 : Ri.length = r.length) (h2 : Rj.length = r.length) :
    trapz (nixsIntegrand jn Ri Rj r k qn) r = nixsRadial jn Ri Rj r qn k := by
  have hlen : (nixsIntegrand jn Ri Rj r k qn).length = r.length := by
    simp [nixsIntegrand, h1, h2]
  rw [trapz_eq _ _ hlen]
  unfold nixsRadial trapezoid
  have hval : ∀ i, i < r.length → (nixsIntegrand jn Ri Rj r k qn).getD i 0
      = star (Ri.getD i 0) * (jn k (qn * r.getD i 0) : ℝ) * Rj.getD i 0 * ((r.getD i 0 ^ 2 : ℝ) : ℂ) := by
    intro i hi
    have e1 : i < Ri.length := by omega
    have e2 : i < Rj.length := by omega
    rw [List.getD_eq_getElem _ _ (by rw [hlen]; exact hi), List.getD_eq_getElem _ _ e1,
      List.getD_eq_getElem _ _ e2, List.getD_eq_getElem _ _ hi]
    simp [nixsIntegrand]
  refine sum_congr rfl fun i hi => ?_
  rw [mem_range] at hi
  beta_reduce
  rw [hval i (by omega), hval (i + 1) (by omega)]

section
variable (gaunt : GauntFun) (sphHarm : SphHarm) {nBaths : NBaths} (h : GoodSystem nBaths) {li lj : ℕ}
  (hi : li ∈ allAngulars nBaths) (hj : lj ∈ allAngulars nBaths)

/-- What holds of the operator during the loops. -/
def NixsInv (nBaths : NBaths) (li lj : ℕ) (d : Op ℕ ℂ) : Prop :=
  Dict.NodupKeys d ∧ ∀ k ∈ Dict.keys d, ∃ s mi mj : ℤ, (s = 0 ∨ s = 1) ∧ |mi| ≤ li ∧ |mj| ≤ lj ∧
    k = [(position nBaths (.imp li s mi), .c), (position nBaths (.imp lj s mj), .a)]

/-- The amplitude of one round. -/
noncomputable def nixsAmp (R : ℂ) (theta phi : ℝ) (li lj k : ℕ) (mi mj : ℤ) : ℂ :=
  if |mi - mj| ≤ k then
    R * (Complex.I ^ k * (Real.sqrt (2 * k + 1) : ℝ)) * star (sphHarm (mi - mj) k phi theta)
      * (gauntC gaunt k li mi lj mj : ℝ)
  else 0

/-- The term of one round. -/
noncomputable def hopTerm (nBaths : NBaths) (li lj : ℕ) (s mi mj : ℤ) (t : Vec ℂ × Finset ℕ) : ℂ :=
  create (position nBaths (.imp li s mi)) (annihilate (position nBaths (.imp lj s mj)) t.1) t.2

include h hi hj

theorem nixsStep_spec (R : ℂ) (theta phi : ℝ) (k : ℕ) {mi mj : ℤ} (hmi : -(li : ℤ) ≤ mi ∧ mi ≤ li)
    (hmj : -(lj : ℤ) ≤ mj ∧ mj ≤ lj) (d : Op ℕ ℂ) (hd : NixsInv nBaths li lj d) :
    ∃ d', nixsStep gaunt sphHarm nBaths R theta phi li lj k d mi mj = .ok d' ∧ NixsInv nBaths li lj d' ∧
      ∀ t : Vec ℂ × Finset ℕ, operator (opSpec d') t.1 t.2 = operator (opSpec d) t.1 t.2
        + ∑ s ∈ ({0, 1} : Finset ℤ), nixsAmp gaunt sphHarm R theta phi li lj k mi mj
            * hopTerm nBaths li lj s mi mj t := by
  unfold nixsStep
  dsimp only
  by_cases hm : |mi - mj| ≤ k
  · rw [if_pos hm]
    have ha : nixsAmp gaunt sphHarm R theta phi li lj k mi mj
        = R * (Complex.I ^ k * (Real.sqrt (2 * k + 1) : ℝ)) * star (sphHarm (mi - mj) k phi theta)
      * (gauntC gaunt k li mi lj mj : ℝ) := by rw [nixsAmp, if_pos hm]
    rw [← ha]
    by_cases h0 : nixsAmp gaunt sphHarm R theta phi li lj k mi mj = 0
    · rw [if_neg (not_not.2 h0)]
      exact ⟨d, rfl, hd, fun t => by simp [h0]⟩
    · rw [if_pos h0]
      obtain ⟨d', e1, e2, e3⟩ := foldlM_inv (NixsInv nBaths li lj)
        (fun (t : Vec ℂ × Finset ℕ) (d : Op ℕ ℂ) => operator (opSpec d) t.1 t.2) (pyRange 0 2)
        (fun (tOp : Op ℕ ℂ) s => do
          let i ← c2i nBaths (.imp li s mi)
          let j ← c2i nBaths (.imp lj s mj)
          return Dict.addAt tOp [(i, .c), (j, .a)] (nixsAmp gaunt sphHarm R theta phi li lj k mi mj))
        (fun s t => nixsAmp gaunt sphHarm R theta phi li lj k mi mj * hopTerm nBaths li lj s mi mj t)
        (by
          intro s hs d hd
          rw [mem_pyRange] at hs
          rw [c2i_imp h ⟨hi, by omega⟩, c2i_imp h ⟨hj, by omega⟩]
          refine ⟨_, rfl, ⟨nodupKeys_addAt hd.1 _ _, ?_⟩, ?_⟩
          · intro k hk
            rw [mem_keys_addAt] at hk
            rcases hk with rfl | hk
            · exact ⟨s, mi, mj, by omega, abs_le.2 hmi, abs_le.2 hmj, rfl⟩
            · exact hd.2 k hk
          · intro t
            rw [operator_opSpec_set]
            rfl) d hd
      refine ⟨d', e1, e2, fun t => ?_⟩
      rw [e3 t, sum_pyRange, Ico_zero_two]
  · rw [if_neg hm]
    exact ⟨d, rfl, hd, fun t => by simp [nixsAmp, hm]⟩

theorem nixs_shell_spec (R : ℂ) (theta phi : ℝ) (k : ℕ) (d : Op ℕ ℂ) (hd : NixsInv nBaths li lj d) :
    ∃ d', (pyRange (-li) (li + 1)).foldlM (fun (tOp : Op ℕ ℂ) mi =>
              (pyRange (-lj) (lj + 1)).foldlM (fun (tOp : Op ℕ ℂ) mj =>
                nixsStep gaunt sphHarm nBaths R theta phi li lj k tOp mi mj) tOp) d = .ok d' ∧
      NixsInv nBaths li lj d' ∧
      ∀ t : Vec ℂ × Finset ℕ, operator (opSpec d') t.1 t.2 = operator (opSpec d) t.1 t.2
        + ∑ mi ∈ mRange li, ∑ mj ∈ mRange lj, ∑ s ∈ ({0, 1} : Finset ℤ),
            nixsAmp gaunt sphHarm R theta phi li lj k mi mj * hopTerm nBaths li lj s mi mj t := by
  obtain ⟨d', e1, e2, e3⟩ := foldlM_inv (NixsInv nBaths li lj)
    (fun (t : Vec ℂ × Finset ℕ) (d : Op ℕ ℂ) => operator (opSpec d) t.1 t.2) (pyRange (-li) (li + 1))
    (fun (tOp : Op ℕ ℂ) mi =>
              (pyRange (-lj) (lj + 1)).foldlM (fun (tOp : Op ℕ ℂ) mj =>
                nixsStep gaunt sphHarm nBaths R theta phi li lj k tOp mi mj) tOp)
    (fun mi t => ∑ mj ∈ mRange lj, ∑ s ∈ ({0, 1} : Finset ℤ),
            nixsAmp gaunt sphHarm R theta phi li lj k mi mj * hopTerm nBaths li lj s mi mj t)
    (by
      intro mi hmi d hd
      rw [mem_pyRange] at hmi
      obtain ⟨d', e1, e2, e3⟩ := foldlM_inv (NixsInv nBaths li lj)
        (fun (t : Vec ℂ × Finset ℕ) (d : Op ℕ ℂ) => operator (opSpec d) t.1 t.2) (pyRange (-lj) (lj + 1))
        (fun (tOp : Op ℕ ℂ) mj => nixsStep gaunt sphHarm nBaths R theta phi li lj k tOp mi mj)
        (fun mj t => ∑ s ∈ ({0, 1} : Finset ℤ),
            nixsAmp gaunt sphHarm R theta phi li lj k mi mj * hopTerm nBaths li lj s mi mj t)
        (by
          intro mj hmj d hd
          rw [mem_pyRange] at hmj
          exact nixsStep_spec gaunt sphHarm h hi hj R theta phi k (by omega) (by omega) d hd) d hd
      refine ⟨d', e1, e2, fun t => ?_⟩
      rw [e3 t, sum_pyRange, Ico_eq_mRange]) d hd
  refine ⟨d', e1, e2, fun t => ?_⟩
  rw [e3 t, sum_pyRange, Ico_eq_mRange]

theorem nixs_loop_spec (jn : SphericalJn) (Ri Rj : List ℂ) (r : List ℝ) (h1 : Ri.length = r.length)
    (h2 : Rj.length = r.length) (qn theta phi : ℝ) (kmin : ℕ) :
    ∃ d', (pyRange kmin (|(li + lj : ℤ)| + 1)).foldlM (fun (tOp : Op ℕ ℂ) (k : ℤ) =>
        if (li + lj + k) % 2 = 0 then
          if Ri.length = r.length ∧ Rj.length = r.length then
            let Rintegral := trapz (nixsIntegrand jn Ri Rj r k.toNat qn) r
            (pyRange (-li) (li + 1)).foldlM (fun (tOp : Op ℕ ℂ) mi =>
              (pyRange (-lj) (lj + 1)).foldlM (fun (tOp : Op ℕ ℂ) mj =>
                nixsStep gaunt sphHarm nBaths Rintegral theta phi li lj k.toNat tOp mi mj) tOp) tOp
          else .error .valueError
        else return tOp) [] = .ok d' ∧
      NixsInv nBaths li lj d' ∧
      ∀ t : Vec ℂ × Finset ℕ, operator (opSpec d') t.1 t.2
        = ∑ k ∈ Icc kmin (li + lj), if (li + lj + k) % 2 = 0 then
            ∑ mi ∈ mRange li, ∑ mj ∈ mRange lj, ∑ s ∈ ({0, 1} : Finset ℤ),
              nixsAmp gaunt sphHarm (nixsRadial jn Ri Rj r qn k) theta phi li lj k mi mj
                * hopTerm nBaths li lj s mi mj t
          else 0 := by
  obtain ⟨d', e1, e2, e3⟩ := foldlM_inv (NixsInv nBaths li lj)
    (fun (t : Vec ℂ × Finset ℕ) (d : Op ℕ ℂ) => operator (opSpec d) t.1 t.2) (pyRange kmin (|(li + lj : ℤ)| + 1))
    (fun (tOp : Op ℕ ℂ) (k : ℤ) =>
        if (li + lj + k) % 2 = 0 then
          if Ri.length = r.length ∧ Rj.length = r.length then
            let Rintegral := trapz (nixsIntegrand jn Ri Rj r k.toNat qn) r
            (pyRange (-li) (li + 1)).foldlM (fun (tOp : Op ℕ ℂ) mi =>
              (pyRange (-lj) (lj + 1)).foldlM (fun (tOp : Op ℕ ℂ) mj =>
                nixsStep gaunt sphHarm nBaths Rintegral theta phi li lj k.toNat tOp mi mj) tOp) tOp
          else .error .valueError
        else return tOp)
    (fun k t => if (li + lj + k) % 2 = 0 then
            ∑ mi ∈ mRange li, ∑ mj ∈ mRange lj, ∑ s ∈ ({0, 1} : Finset ℤ),
              nixsAmp gaunt sphHarm (nixsRadial jn Ri Rj r qn k.toNat) theta phi li lj k.toNat mi mj
                * hopTerm nBaths li lj s mi mj t
          else 0)
    (by
      intro k hk d hd
      by_cases hk2 : ((li : ℤ) + lj + k) % 2 = 0
      · simp only [if_pos hk2, if_pos (And.intro h1 h2), trapz_nixs jn Ri Rj r _ qn h1 h2]
        exact nixs_shell_spec gaunt sphHarm h hi hj _ theta phi _ d hd
      · simp only [if_neg hk2]
        exact ⟨d, rfl, hd, fun t => by simp⟩) []
    ⟨Dict.nodupKeys_nil, by simp⟩
  refine ⟨d', e1, e2, fun t => ?_⟩
  rw [e3 t, sum_pyRange]
  have e0 : operator (opSpec ([] : Op ℕ ℂ)) t.1 t.2 = 0 := by simp [operator, opSpec]
  rw [e0, zero_add]
  have habs : |((li : ℤ) + lj)| = ((li + lj : ℕ) : ℤ) := by rw [abs_of_nonneg (by omega)]; push_cast; rfl
  rw [habs]
  refine sum_bij' (fun k _ => k.toNat) (fun k _ => (k : ℤ)) ?_ ?_ ?_ ?_ ?_
  · intro k hk; simp only [mem_Ico] at hk; simp only [mem_Icc]; omega
  · intro k hk; simp only [mem_Icc] at hk; simp only [mem_Ico]; omega
  · intro k hk; simp only [mem_Ico] at hk; omega
  · intro k hk; simp
  · intro k hk
    simp only [mem_Ico] at hk
    have : ((li : ℤ) + lj + k) % 2 = 0 ↔ (li + lj + k.toNat) % 2 = 0 := by omega
    simp only [this]

omit h hi hj

theorem nixsAmp_planeWave (hG : GauntRules gaunt) (R : ℂ) (theta phi : ℝ) (k : ℕ) (mi mj : ℤ) :
    ((Real.sqrt (4 * Real.pi) : ℝ) : ℂ) * (if (li + lj + k) % 2 = 0 then
        nixsAmp gaunt sphHarm R theta phi li lj k mi mj else 0)
      = 4 * (Real.pi : ℂ) * Complex.I ^ k * R * star (sphHarm (mi - mj) k phi theta)
        * (yElement gaunt k li mi lj mj : ℂ) := by
  by_cases hp : (li + lj + k) % 2 = 0
  · rw [if_pos hp]
    by_cases hm : |mi - mj| ≤ k
    · rw [nixsAmp, if_pos hm]
      have hs : Real.sqrt (4 * Real.pi) * Real.sqrt (2 * k + 1) * Real.sqrt (4 * Real.pi / (2 * k + 1))
          = 4 * Real.pi := by
        have hk : (0 : ℝ) < 2 * k + 1 := by positivity
        have hpi := Real.pi_pos
        rw [mul_assoc, ← Real.sqrt_mul hk.le, mul_div_cancel₀ _ hk.ne', ← Real.sqrt_mul (by positivity)]
        exact Real.sqrt_mul_self (by positivity)
      have hs' : ((Real.sqrt (4 * Real.pi) : ℝ) : ℂ) * ((Real.sqrt (2 * k + 1) : ℝ) : ℂ)
          * ((Real.sqrt (4 * Real.pi / (2 * k + 1)) : ℝ) : ℂ) = 4 * (Real.pi : ℂ) := by
        exact_mod_cast hs
      rw [← hs']
      simp only [gauntC, yElement]
      push_cast
      ring
    · rw [nixsAmp, if_neg hm, yElement, hG.large _ _ _ _ _ _ (not_le.1 hm)]
      simp
  · rw [if_neg hp, yElement, hG.odd _ _ _ _ _ _ (by omega)]
    simp

end

/-! ### angles -/

theorem polar_angles {qn θ φ : ℝ} (hq : 0 < qn) (hθ : 0 < θ) (hθ' : θ < Real.pi) (hφ : |φ| ≤ Real.pi) {q : Vec3 ℝ}
    (hx : q.x = qn * (Real.sin θ * Real.cos φ)) (hy : q.y = qn * (Real.sin θ * Real.sin φ))
    (hz : q.z = qn * Real.cos θ) :
    Real.sqrt (q.x ^ 2 + q.y ^ 2 + q.z ^ 2) = qn ∧ Real.arccos (q.z / qn) = θ ∧
      qn * Real.sin θ ≠ 0 ∧ Real.arccos (q.x / (qn * Real.sin θ)) = |φ| := by
  have hs : 0 < Real.sin θ := Real.sin_pos_of_pos_of_lt_pi hθ hθ'
  refine ⟨?_, ?_, (mul_pos hq hs).ne', ?_⟩
  · have : q.x ^ 2 + q.y ^ 2 + q.z ^ 2 = qn * qn := by
      rw [hx, hy, hz]
      have h1 := Real.sin_sq_add_cos_sq θ
      have h2 := Real.sin_sq_add_cos_sq φ
      have : (qn * (Real.sin θ * Real.cos φ)) ^ 2 + (qn * (Real.sin θ * Real.sin φ)) ^ 2 + (qn * Real.cos θ) ^ 2
        = qn * qn * (Real.sin θ ^ 2 * (Real.sin φ ^ 2 + Real.cos φ ^ 2) + Real.cos θ ^ 2) := by ring
      rw [this, h2, mul_one, h1, mul_one]
    rw [this, Real.sqrt_mul_self hq.le]
  · rw [hz, mul_div_cancel_left₀ _ hq.ne', Real.arccos_cos hθ.le hθ'.le]
  · rw [hx, ← mul_assoc, mul_div_cancel_left₀ _ (mul_pos hq hs).ne', ← Real.cos_abs,
      Real.arccos_cos (abs_nonneg _) hφ]

end Verif
