/-
Responses to several operators at once, for two calculations that differ by the choice of the states.
-/
import Verif.Lemmas.BathShell

namespace Verif

open Finset Mpi Psr Spec

noncomputable section

section
variable {ι : Type} [DecidableEq ι] {s : Finset ι} {U : ι → ι → ℂ} {n : ℕ} {H : Vec ℂ → Vec ℂ}

/-- Superpositions of the vectors of a family. -/
def mixS (s : Finset ι) (U : ι → ι → ℂ) (v : ι → Vec ℂ) (i : ι) : Vec ℂ := fun F => ∑ j ∈ s, U i j * v j F

omit [DecidableEq ι] in
theorem mixS_eq (v : ι → Vec ℂ) (i : ι) : mixS s U v i = ∑ j ∈ s, U i j • v j := by
  funext F
  simp [mixS, Finset.sum_apply]

omit [DecidableEq ι] in
theorem linear_mixS {T : Vec ℂ → Vec ℂ} (hT : IsLinearMap ℂ T) (v : ι → Vec ℂ) (i : ι) :
    T (mixS s U v i) = mixS s U (fun j => T (v j)) i := by
  rw [mixS_eq, mixS_eq, ← hT.mk'_apply, map_sum]
  exact sum_congr rfl fun j _ => by rw [map_smul]; rfl

omit [DecidableEq ι] in
theorem mixS_congr {v w : ι → Vec ℂ} {i : ι} (h : ∀ j ∈ s, v j = w j) : mixS s U v i = mixS s U w i := by
  funext F
  exact sum_congr rfl fun j hj => by rw [h j hj]

omit [DecidableEq ι] in
theorem mixS_outside {v : ι → Vec ℂ} (h : ∀ j F, ¬ F ⊆ range n → v j F = 0) (i : ι) (F : Finset ℕ)
    (hF : ¬ F ⊆ range n) : mixS s U v i F = 0 :=
  sum_eq_zero fun j _ => by rw [h j F hF, mul_zero]

omit [DecidableEq ι] in
theorem innerProduct_mixS (v w : ι → Vec ℂ) (i : ι) :
    innerProduct n (mixS s U v i) (mixS s U w i) = ∑ j ∈ s, ∑ k ∈ s, star (U i j) * U i k * innerProduct n (v j) (w k) := by
  unfold innerProduct mixS
  have e : ∀ F ∈ (range n).powerset, star (∑ j ∈ s, U i j * v j F) * ∑ j ∈ s, U i j * w j F
      = ∑ j ∈ s, ∑ k ∈ s, star (U i j) * U i k * (star (v j F) * w k F) := by
    intro F _
    rw [star_sum, sum_mul_sum]
    refine sum_congr rfl fun j _ => sum_congr rfl fun k _ => ?_
    rw [star_mul]
    ring
  rw [sum_congr rfl e, sum_comm]
  refine sum_congr rfl fun j _ => ?_
  rw [sum_comm]
  refine sum_congr rfl fun k _ => ?_
  rw [mul_sum]

variable (hU : ∀ j ∈ s, ∀ k ∈ s, ∑ i ∈ s, star (U i j) * U i k = if j = k then 1 else 0)

include hU in
theorem trace_mixS {wt : ι → ℂ} (hwt : ∀ i ∈ s, ∀ j ∈ s, U i j ≠ 0 → wt i = wt j) (v w : ι → Vec ℂ) :
    ∑ i ∈ s, wt i * innerProduct n (mixS s U v i) (mixS s U w i) = ∑ j ∈ s, wt j * innerProduct n (v j) (w j) := by
  have h1 : ∀ i ∈ s, wt i * innerProduct n (mixS s U v i) (mixS s U w i)
      = ∑ j ∈ s, ∑ k ∈ s, star (U i j) * U i k * (wt j * innerProduct n (v j) (w k)) := by
    intro i hi
    rw [innerProduct_mixS, mul_sum]
    refine sum_congr rfl fun j hj => ?_
    rw [mul_sum]
    refine sum_congr rfl fun k _ => ?_
    by_cases h0 : U i j = 0
    · rw [h0]; simp
    · rw [hwt i hi j hj h0]; ring
  rw [sum_congr rfl h1, sum_comm]
  refine sum_congr rfl fun j hj => ?_
  rw [sum_comm]
  have h2 : ∀ k ∈ s, ∑ i ∈ s, star (U i j) * U i k * (wt j * innerProduct n (v j) (w k))
      = (if j = k then 1 else 0) * (wt j * innerProduct n (v j) (w k)) := by
    intro k hk
    rw [← sum_mul, hU j hj k hk]
  rw [sum_congr rfl h2]
  simp only [ite_mul, one_mul, zero_mul]
  rw [sum_ite_eq, if_pos hj]

omit [DecidableEq ι] in
theorem solves_mixS (hH : IsLinearMap ℂ H) {z : ι → ℂ} {b x : ι → Vec ℂ} {i : ι}
    (hz : ∀ j ∈ s, U i j ≠ 0 → z i = z j) (hx : ∀ j ∈ s, Solves n H (z j) (b j) (x j)) :
    Solves n H (z i) (mixS s U b i) (mixS s U x i) := by
  constructor
  · intro F hF
    rw [linear_mixS hH]
    unfold mixS
    rw [mul_sum, ← sum_sub_distrib]
    refine sum_congr rfl fun j hj => ?_
    rw [← (hx j hj).inside F hF]
    by_cases h0 : U i j = 0
    · rw [h0]; ring
    · rw [hz j hj h0]; ring
  · intro F hF
    refine sum_eq_zero fun j hj => ?_
    rw [(hx j hj).outside F hF, mul_zero]

include hU in
theorem green_mixS (hH : IsLinearMap ℂ H)
    {wt z : ι → ℂ} (hwt : ∀ i ∈ s, ∀ j ∈ s, U i j ≠ 0 → wt i = wt j) (hz : ∀ i ∈ s, ∀ j ∈ s, U i j ≠ 0 → z i = z j)
    {b b' : ι → Vec ℂ} (hb : ∀ i ∈ s, b' i = mixS s U b i) {g g' : ι → ℂ}
    (hg : ∀ j ∈ s, IsGreen n H (z j) (b j) (g j)) (hg' : ∀ j ∈ s, IsGreen n H (z j) (b' j) (g' j)) :
    ∑ i ∈ s, wt i * g' i = ∑ i ∈ s, wt i * g i := by
  classical
  choose x hx using hg
  let y : ι → Vec ℂ := fun j => if h : j ∈ s then x j h else 0
  have hy : ∀ j ∈ s, Solves n H (z j) (b j) (y j) ∧ g j = innerProduct n (b j) (y j) := by
    intro j hj
    simp only [y, dif_pos hj]
    exact ⟨(hx j hj).1, (hx j hj).2.2⟩
  rw [← sum_congr rfl (fun j hj => by rw [(hy j hj).2] : ∀ j ∈ s,
    wt j * innerProduct n (b j) (y j) = wt j * g j), ← trace_mixS hU hwt]
  refine sum_congr rfl fun i hi => ?_
  obtain ⟨x', -, hu, e⟩ := hg' i hi
  have := hu (mixS s U y i) (by
    rw [hb i hi]
    exact solves_mixS hH (hz i hi) fun j hj => (hy j hj).1)
  rw [e, ← this, hb i hi]

include hU in
theorem rixs_mixS {T : Vec ℂ → Vec ℂ} (hH : IsLinearMap ℂ H) (hT : IsLinearMap ℂ T)
    {wt z₁ z₂ : ι → ℂ} (hwt : ∀ i ∈ s, ∀ j ∈ s, U i j ≠ 0 → wt i = wt j) (hz₁ : ∀ i ∈ s, ∀ j ∈ s, U i j ≠ 0 → z₁ i = z₁ j)
    (hz₂ : ∀ i ∈ s, ∀ j ∈ s, U i j ≠ 0 → z₂ i = z₂ j)
    {b b' : ι → Vec ℂ} (hb : ∀ i ∈ s, b' i = mixS s U b i) {g g' : ι → ℂ}
    (hg : ∀ j ∈ s, IsRixs n H (z₁ j) (z₂ j) (b j) T (g j)) (hg' : ∀ j ∈ s, IsRixs n H (z₁ j) (z₂ j) (b' j) T (g' j)) :
    ∑ i ∈ s, wt i * g' i = ∑ i ∈ s, wt i * g i := by
  classical
  choose x hx hu hgr using hg
  let y : ι → Vec ℂ := fun j => if h : j ∈ s then x j h else 0
  have hy : ∀ j (hj : j ∈ s), y j = x j hj := fun j hj => dif_pos hj
  have hsol : ∀ i ∈ s, Solves n H (z₁ i) (b' i) (mixS s U y i) := by
    intro i hi
    rw [hb i hi]
    refine solves_mixS hH (z := z₁) (fun j hj hne => hz₁ i hi j hj hne) fun j hj => ?_
    rw [hy j hj]
    exact hx j hj
  refine green_mixS (n := n) hU hH hwt hz₂ (b := fun j => T (y j)) (b' := fun i => T (mixS s U y i)) (fun i _ => linear_mixS hT _ _) ?_ ?_
  · intro i hi
    rw [hy i hi]
    exact hgr i hi
  · intro i hi
    obtain ⟨x', h1, h2, h3⟩ := hg' i hi
    rw [← h2 _ (hsol i hi)] at h3
    exact h3

end

/-- The operators `T' c` of the second calculation act as the superpositions `Q` of the operators `T a` of the first one. -/
structure FamilyCarried (n : ℕ) (u : ℕ → ℕ → ℂ) (p : ℕ) (Q : ℕ → ℕ → ℂ) (T T' : ℕ → Vec ℂ → Vec ℂ) : Prop where
  linear : ∀ a < p, IsLinearMap ℂ (T a)
  linear' : ∀ a < p, IsLinearMap ℂ (T' a)
  unitary : ∀ a < p, ∀ a' < p, ∑ c ∈ range p, star (Q c a) * Q c a' = if a = a' then 1 else 0
  carried : ∀ c < p, ∀ v, T' c (changeOrbitals n u v) = changeOrbitals n u fun F => ∑ a ∈ range p, Q c a * T a v F

theorem FamilyCarried.single {n : ℕ} {u : ℕ → ℕ → ℂ} {T T' : Vec ℂ → Vec ℂ} (hT : IsLinearMap ℂ T) (hT' : IsLinearMap ℂ T')
    (h : ∀ v, T' (changeOrbitals n u v) = changeOrbitals n u (T v)) :
    FamilyCarried n u 1 (fun _ _ => 1) (fun _ => T) fun _ => T' where
  linear _ _ := hT
  linear' _ _ := hT'
  unitary a ha a' ha' := by
    have : a = a' := by omega
    simp [this]
  carried c _ v := by
    rw [h]
    congr 1
    funext F
    simp

section
variable {S S' : SimulateArgs} {u : ℕ → ℕ → ℂ} (hM : Rebased S S' u) {p : ℕ} {Q : ℕ → ℕ → ℂ} {T T' : ℕ → Vec ℂ → Vec ℂ}
  (hT : FamilyCarried (Spec.size S) u p Q T T')

include hM hT in
theorem family_part {c : ℕ} (hc : c < p) (v : Vec ℂ) :
    allowedPart (Spec.size S) S.restrictions (T' c) (changeOrbitals (Spec.size S) u v)
      = changeOrbitals (Spec.size S) u fun F => ∑ a ∈ range p, Q c a * allowedPart (Spec.size S) S.restrictions (T a) v F := by
  have h := changeOrbitals_part (Q := AllowedOpt S.restrictions) hM.count fun F => ∑ a ∈ range p, Q c a * T a v F
  have h1 : changeOrbitals (Spec.size S) u (fun F => ∑ a ∈ range p, Q c a * allowedPart (Spec.size S) S.restrictions (T a) v F)
      = changeOrbitals (Spec.size S) u (onlyIn (AllowedOpt S.restrictions) fun F => ∑ a ∈ range p, Q c a * T a v F) :=
    changeOrbitals_local fun F hF => by
      unfold allowedPart onlyIn
      simp only [hF, true_and]
      split
      · rfl
      · simp
  rw [h1, h]
  funext F
  unfold allowedPart onlyIn
  rw [hT.carried c hc]
  by_cases hF : F ⊆ range (Spec.size S)
  · simp only [hF, true_and]
  · rw [if_neg fun h => hF h.1, changeOrbitals_outside _ F hF, ite_self]

variable (hr : ∀ c < p, ∀ i < S.es.length, NothingLost S (T c) (ampl (Spec.size S) (S.psis.getD i [])))
  (hr' : ∀ c < p, ∀ i < S'.es.length, NothingLost S' (T' c) (ampl (Spec.size S') (S'.psis.getD i [])))

include hM hT hr hr' in
theorem family_excite : ∃ V : ℕ × ℕ → ℕ × ℕ → ℂ,
    (∀ j ∈ range p ×ˢ range S.es.length, ∀ k ∈ range p ×ˢ range S.es.length,
      ∑ i ∈ range p ×ˢ range S.es.length, star (V i j) * V i k = if j = k then 1 else 0) ∧
    (∀ i ∈ range p ×ˢ range S.es.length, ∀ j ∈ range p ×ˢ range S.es.length, V i j ≠ 0 → S.es.getD i.2 0 = S.es.getD j.2 0) ∧
    ∀ i ∈ range p ×ˢ range S.es.length, Spec.excite S' (T' i.1) i.2
      = changeOrbitals (Spec.size S) u (mixS (range p ×ˢ range S.es.length) V (fun j => Spec.excite S (T j.1) j.2) i) := by
  obtain ⟨U, h1, h2, h3⟩ := hM.states
  refine ⟨fun i j => Q i.1 j.1 * U i.2 j.2, ?_, ?_, ?_⟩
  · rintro ⟨a, j⟩ hj ⟨a', k⟩ hk
    obtain ⟨ha, hj⟩ := mem_product.1 hj
    obtain ⟨ha', hk⟩ := mem_product.1 hk
    rw [mem_range] at ha hj ha' hk
    have e : ∀ i : ℕ × ℕ, star (Q i.1 a * U i.2 j) * (Q i.1 a' * U i.2 k)
        = (star (Q i.1 a) * Q i.1 a') * (star (U i.2 j) * U i.2 k) := by
      intro i
      rw [star_mul']
      ring
    simp only [e]
    rw [sum_product]
    simp only [← mul_sum]
    rw [← sum_mul]
    dsimp only at ha hj ha' hk
    rw [hT.unitary a ha a' ha', h1 j hj k hk]
    by_cases e1 : a = a' <;> by_cases e2 : j = k <;> simp [e1, e2]
  · rintro ⟨a, i⟩ hi ⟨a', j⟩ hj hne
    obtain ⟨ha, hi⟩ := mem_product.1 hi
    obtain ⟨ha', hj⟩ := mem_product.1 hj
    by_contra h
    refine hne ?_
    dsimp only
    rw [h2 i (mem_range.1 hi) j (mem_range.1 hj) h, mul_zero]
  · rintro ⟨c, i⟩ hi
    obtain ⟨hc, hi⟩ := mem_product.1 hi
    rw [mem_range] at hc hi
    dsimp only at hc hi ⊢
    have hi' : i < S'.es.length := by rw [hM.es]; exact hi
    unfold Spec.excite
    rw [hM.exciteVec' (hr' c hc i hi'), hM.size, h3 i hi, family_part hM hT hc]
    congr 1
    funext F
    have e : ∀ a ∈ range p, Q c a * allowedPart (Spec.size S) S.restrictions (T a)
          (mix S.es.length U (fun j => ampl (Spec.size S) (S.psis.getD j [])) i) F
        = ∑ j ∈ range S.es.length, Q c a * U i j * exciteVec S (T a) (ampl (Spec.size S) (S.psis.getD j [])) F := by
      intro a ha
      rw [linear_mix (allowedPart_linear _ _ (hT.linear a (mem_range.1 ha)))]
      unfold mix
      rw [mul_sum]
      refine sum_congr rfl fun j hj => ?_
      rw [exciteVec_part (hr a (mem_range.1 ha) j (mem_range.1 hj))]
      ring
    rw [sum_congr rfl e]
    unfold mixS
    rw [sum_product]

include hM hT hr hr' in
/-- The weighted sums of all responses. -/
theorem family_response (weight : ℝ → ℂ) (z : ℂ) {g g' : ℕ → ℕ → ℂ}
    (hg : ∀ c < p, ∀ i < S.es.length, IsResponse S (T c) i z (g c i))
    (hg' : ∀ c < p, ∀ i < S'.es.length, IsResponse S' (T' c) i z (g' c i)) :
    ∑ c ∈ range p, ∑ i ∈ range S.es.length, weight (S.es.getD i 0) * g' c i
      = ∑ c ∈ range p, ∑ i ∈ range S.es.length, weight (S.es.getD i 0) * g c i := by
  obtain ⟨V, h1, h2, h3⟩ := family_excite hM hT hr hr'
  have k1 : ∀ i ∈ range p ×ˢ range S.es.length,
      IsGreen (Spec.size S) (hamilton S) (z + (S.es.getD i.2 0 : ℂ)) (Spec.excite S (T i.1) i.2) (g i.1 i.2) := fun i hi =>
    hg i.1 (mem_range.1 (mem_product.1 hi).1) i.2 (mem_range.1 (mem_product.1 hi).2)
  have k2 : ∀ i ∈ range p ×ˢ range S.es.length, IsGreen (Spec.size S) (hamilton S) (z + (S.es.getD i.2 0 : ℂ))
      (mixS (range p ×ˢ range S.es.length) V (fun j => Spec.excite S (T j.1) j.2) i) (g' i.1 i.2) := by
    intro i hi
    have k := mem_product.1 hi
    have h := hg' i.1 (mem_range.1 k.1) i.2 (by rw [hM.es]; exact mem_range.1 k.2)
    unfold IsResponse at h
    rw [hM.size, hM.es, h3 i hi] at h
    have hout := mixS_outside (n := Spec.size S) (s := range p ×ˢ range S.es.length) (U := V)
      (v := fun j => Spec.excite S (T j.1) j.2) (fun j F hF => excite_outside (T j.1) j.2 F hF) i
    exact hM.same.green hM.unitary hout h
  have hH : IsLinearMap ℂ (hamilton S) := hamiltonian_linear _ _ _ _
  have w1 : ∀ i ∈ range p ×ˢ range S.es.length, ∀ j ∈ range p ×ˢ range S.es.length, V i j ≠ 0 →
      weight (S.es.getD i.2 0) = weight (S.es.getD j.2 0) := fun i hi j hj hne => by rw [h2 i hi j hj hne]
  have w2 : ∀ i ∈ range p ×ˢ range S.es.length, ∀ j ∈ range p ×ˢ range S.es.length, V i j ≠ 0 →
      z + (S.es.getD i.2 0 : ℂ) = z + (S.es.getD j.2 0 : ℂ) := fun i hi j hj hne => by rw [h2 i hi j hj hne]
  have h := green_mixS (wt := fun i : ℕ × ℕ => weight (S.es.getD i.2 0)) (z := fun i : ℕ × ℕ => z + (S.es.getD i.2 0 : ℂ))
    (b := fun i : ℕ × ℕ => Spec.excite S (T i.1) i.2)
    (b' := mixS (range p ×ˢ range S.es.length) V (fun j => Spec.excite S (T j.1) j.2))
    (g := fun i : ℕ × ℕ => g i.1 i.2) (g' := fun i : ℕ × ℕ => g' i.1 i.2) h1 hH w1 w2 (fun i _ => rfl) k1 k2
  rw [sum_product, sum_product] at h
  exact h

include hM hT in
/-- The weighted sums of resonant scattering, with a second step that is the same for all. -/
theorem family_rixs {R R' : Vec ℂ → Vec ℂ} (hlin : IsLinearMap ℂ R) (hlin' : IsLinearMap ℂ R')
    (hR : ∀ v, R' (changeOrbitals (Spec.size S) u v) = changeOrbitals (Spec.size S) u (R v)) (weight : ℝ → ℂ) (z₁ z₂ : ℂ)
    (hr : ∀ c < p, ∀ i < S.es.length, NothingLost S (T c) (ampl (Spec.size S) (S.psis.getD i [])) ∧
      ∀ x, Solves (Spec.size S) (hamilton S) (z₁ + (S.es.getD i 0 : ℂ)) (Spec.excite S (T c) i) x → NothingLost S R x)
    (hr' : ∀ c < p, ∀ i < S'.es.length, NothingLost S' (T' c) (ampl (Spec.size S') (S'.psis.getD i [])) ∧
      ∀ x, Solves (Spec.size S') (hamilton S') (z₁ + (S'.es.getD i 0 : ℂ)) (Spec.excite S' (T' c) i) x → NothingLost S' R' x)
    {g g' : ℕ → ℕ → ℂ}
    (hg : ∀ c < p, ∀ i < S.es.length, IsRixs (Spec.size S) (hamilton S) (z₁ + (S.es.getD i 0 : ℂ)) (z₂ + (S.es.getD i 0 : ℂ))
      (Spec.excite S (T c) i) (exciteVec S R) (g c i))
    (hg' : ∀ c < p, ∀ i < S'.es.length, IsRixs (Spec.size S') (hamilton S') (z₁ + (S'.es.getD i 0 : ℂ)) (z₂ + (S'.es.getD i 0 : ℂ))
      (Spec.excite S' (T' c) i) (exciteVec S' R') (g' c i)) :
    ∑ c ∈ range p, ∑ i ∈ range S.es.length, weight (S.es.getD i 0) * g' c i
      = ∑ c ∈ range p, ∑ i ∈ range S.es.length, weight (S.es.getD i 0) * g c i := by
  obtain ⟨V, h1, h2, h3⟩ := family_excite hM hT (fun c hc i hi => (hr c hc i hi).1) fun c hc i hi => (hr' c hc i hi).1
  have k1 : ∀ i ∈ range p ×ˢ range S.es.length, IsRixs (Spec.size S) (hamilton S) (z₁ + (S.es.getD i.2 0 : ℂ))
      (z₂ + (S.es.getD i.2 0 : ℂ)) (Spec.excite S (T i.1) i.2) (allowedPart (Spec.size S) S.restrictions R) (g i.1 i.2) := by
    intro i hi
    have k := mem_product.1 hi
    obtain ⟨x, k1, k2, k3⟩ := hg i.1 (mem_range.1 k.1) i.2 (mem_range.1 k.2)
    refine ⟨x, k1, k2, ?_⟩
    rw [← exciteVec_part ((hr i.1 (mem_range.1 k.1) i.2 (mem_range.1 k.2)).2 x k1)]
    exact k3
  have k2 : ∀ i ∈ range p ×ˢ range S.es.length, IsRixs (Spec.size S) (hamilton S) (z₁ + (S.es.getD i.2 0 : ℂ))
      (z₂ + (S.es.getD i.2 0 : ℂ)) (mixS (range p ×ˢ range S.es.length) V (fun j => Spec.excite S (T j.1) j.2) i)
      (allowedPart (Spec.size S) S.restrictions R) (g' i.1 i.2) := by
    intro i hi
    have k := mem_product.1 hi
    have hi' : i.2 < S'.es.length := by rw [hM.es]; exact mem_range.1 k.2
    have h := hg' i.1 (mem_range.1 k.1) i.2 hi'
    have h4 := (hr' i.1 (mem_range.1 k.1) i.2 hi').2
    rw [hM.size, hM.es, h3 i hi] at h h4
    have hout := mixS_outside (n := Spec.size S) (s := range p ×ˢ range S.es.length) (U := V)
      (v := fun j => Spec.excite S (T j.1) j.2) (fun j F hF => excite_outside (T j.1) j.2 F hF) i
    refine hM.same.rixs hM.unitary hout (fun x hx => ?_) (fun v F hF => ?_) h
    · rw [hM.exciteVec' (h4 _ (hM.same.solves hx)), family_part hM (FamilyCarried.single hlin hlin' hR) zero_lt_one]
      congr 1
      funext F
      simp
    · exact if_neg fun h => hF h.1
  have hH : IsLinearMap ℂ (hamilton S) := hamiltonian_linear _ _ _ _
  have w1 : ∀ i ∈ range p ×ˢ range S.es.length, ∀ j ∈ range p ×ˢ range S.es.length, V i j ≠ 0 →
      weight (S.es.getD i.2 0) = weight (S.es.getD j.2 0) := fun i hi j hj hne => by rw [h2 i hi j hj hne]
  have w2 : ∀ z : ℂ, ∀ i ∈ range p ×ˢ range S.es.length, ∀ j ∈ range p ×ˢ range S.es.length, V i j ≠ 0 →
      z + (S.es.getD i.2 0 : ℂ) = z + (S.es.getD j.2 0 : ℂ) := fun z i hi j hj hne => by rw [h2 i hi j hj hne]
  have h := rixs_mixS (wt := fun i : ℕ × ℕ => weight (S.es.getD i.2 0)) (z₁ := fun i : ℕ × ℕ => z₁ + (S.es.getD i.2 0 : ℂ))
    (z₂ := fun i : ℕ × ℕ => z₂ + (S.es.getD i.2 0 : ℂ)) (b := fun i : ℕ × ℕ => Spec.excite S (T i.1) i.2)
    (b' := mixS (range p ×ˢ range S.es.length) V (fun j => Spec.excite S (T j.1) j.2))
    (g := fun i : ℕ × ℕ => g i.1 i.2) (g' := fun i : ℕ × ℕ => g' i.1 i.2) h1 hH (allowedPart_linear _ _ hlin) w1 (w2 z₁) (w2 z₂)
    (fun i _ => rfl) k1 k2
  rw [sum_product, sum_product] at h
  exact h

end

end

end Verif
