/-
Lemmas on antiunitary symmetries of the Hamiltonian.
-/
import Verif.Lemmas.Symmetry
import Verif.Lemmas.OrbitalChange

namespace Verif

open Finset Spec

noncomputable section

/-! ### Eigenvectors -/

section
variable {s : Finset (Finset ℕ)} {h : Finset ℕ → Finset ℕ → ℂ} {es : List ℝ} {x : ℕ → Finset ℕ → ℂ}

/-- An antiunitary map between two Hamiltonians maps the eigenvectors of one to eigenvectors of the other. -/
theorem LowestIn.map_anti (H : LowestIn s h es x) {h' : Finset ℕ → Finset ℕ → ℂ} {R R' : Vec ℂ → Vec ℂ}
    (smul : ∀ (c : ℂ) v, R (c • v) = star c • R v)
    (congr : ∀ v w : Vec ℂ, (∀ S ∈ s, v S = w S) → ∀ S ∈ s, R v S = R w S)
    (inner : ∀ v w, ∑ S ∈ s, star (R v S) * R w S = star (∑ S ∈ s, star (v S) * w S))
    (right : ∀ v, ∀ S ∈ s, R (R' v) S = v S)
    (comm : ∀ v, ∀ S ∈ s, ∑ T ∈ s, h' S T * R v T = R (fun S => ∑ T ∈ s, h S T * v T) S) :
    LowestIn s h' es fun i => R (x i) := by
  refine ⟨H.asc, fun v hv w hw => ?_, fun v hv S hS => ?_, fun y hy v hv => ?_⟩
  · refine (inner _ _).trans ?_
    rw [H.ortho v hv w hw]
    split
    · exact star_one ℂ
    · exact star_zero ℂ
  · rw [comm _ S hS, congr _ ((es[v] : ℂ) • x v) (fun S hS => H.eigen v hv S hS) S hS, smul]
    rw [show star ((es[v] : ℝ) : ℂ) = ((es[v] : ℝ) : ℂ) from Complex.conj_ofReal _]
    rfl
  · have h1 := H.low (R' y) (fun w hw => by
      rw [← star_star (∑ S ∈ s, star (x w S) * R' y S), ← inner, ← star_zero, ← hy w hw]
      exact congrArg star (Finset.sum_congr rfl fun S hS => by rw [right y S hS])) v hv
    have h2 : ∑ S ∈ s, Complex.normSq (R' y S) = ∑ S ∈ s, Complex.normSq (y S) := by
      have h3 : ∀ z : Vec ℂ, ((∑ S ∈ s, Complex.normSq (z S) : ℝ) : ℂ) = ∑ S ∈ s, star (z S) * z S := by
        intro z
        rw [Complex.ofReal_sum]
        refine Finset.sum_congr rfl fun S _ => ?_
        rw [Complex.normSq_eq_conj_mul_self]
        rfl
      have h4 := inner (R' y) (R' y)
      rw [← h3, Finset.sum_congr rfl fun S hS => by rw [right y S hS], ← h3,
        show ∀ r : ℝ, star (r : ℂ) = (r : ℂ) from fun r => Complex.conj_ofReal r] at h4
      exact_mod_cast h4.symm
    have h5 : ∀ (h : Finset ℕ → Finset ℕ → ℂ) (z : Vec ℂ), ∑ S ∈ s, ∑ T ∈ s, star (z S) * h S T * z T
        = ∑ S ∈ s, star (z S) * ∑ T ∈ s, h S T * z T := by
      intro h z
      refine Finset.sum_congr rfl fun S _ => ?_
      rw [Finset.mul_sum]
      exact Finset.sum_congr rfl fun T _ => mul_assoc _ _ _
    rw [h2, h5, ← star_star (∑ S ∈ s, star (R' y S) * _), ← inner] at h1
    rw [h5]
    refine h1.trans_eq ((Complex.conj_re _).trans (congrArg Complex.re (Finset.sum_congr rfl fun S hS => ?_)))
    rw [right y S hS, ← comm _ S hS]
    exact congrArg _ (Finset.sum_congr rfl fun T hT => by rw [right y T hT])

end

/-! ### Responses -/

/-- An antiunitary map of the states of `n` spin-orbitals, with its inverse. -/
structure IsAnti (n : ℕ) (R R' : Vec ℂ → Vec ℂ) : Prop where
  smul : ∀ (c : ℂ) v, R (c • v) = star c • R v
  sub' : ∀ v w, R' (v - w) = R' v - R' w
  smul' : ∀ (c : ℂ) v, R' (c • v) = star c • R' v
  left : ∀ v, R' (R v) = inside n v
  right : ∀ v, R (R' v) = inside n v
  inner : ∀ v w, innerProduct n (R v) (R w) = star (innerProduct n v w)
  outside' : ∀ v F, ¬ F ⊆ range n → R' v F = 0
  local' : ∀ v w : Vec ℂ, (∀ F ⊆ range n, v F = w F) → R' v = R' w

section
variable {n : ℕ} {H H' R R' : Vec ℂ → Vec ℂ}

theorem innerProduct_sub_right (f g h : Vec ℂ) : innerProduct n f (g - h) = innerProduct n f g - innerProduct n f h := by
  simp only [innerProduct, Pi.sub_apply, mul_sub, sum_sub_distrib]

theorem innerProduct_sub_left (f g h : Vec ℂ) : innerProduct n (f - g) h = innerProduct n f h - innerProduct n g h := by
  simp only [innerProduct, Pi.sub_apply, star_sub, sub_mul, sum_sub_distrib]

theorem innerProduct_smul_left (c : ℂ) (f g : Vec ℂ) : innerProduct n (c • f) g = star c * innerProduct n f g := by
  simp only [innerProduct, Pi.smul_apply, smul_eq_mul, star_mul', mul_sum, mul_assoc]

/-- The responses at two states that an antiunitary map between two Hamiltonians maps to each other.  `Q` are the allowed product states. -/
theorem green_anti (h : IsAnti n R R') {Q : Finset ℕ → Prop} (comm : ∀ v, ∀ F ⊆ range n, H (R' v) F = R' (H' v) F)
    (hH : ∀ x y : Vec ℂ, (∀ F, ¬ Q F → x F = 0) → (∀ F, ¬ Q F → y F = 0) → innerProduct n (H y) x = innerProduct n y (H x))
    (hQ : ∀ F, Q F → F ⊆ range n) (h0 : ∀ v F, ¬ Q F → H v F = 0) {z : ℂ} (hz : z ≠ 0) {b : Vec ℂ} (hb : ∀ F, ¬ Q F → b F = 0)
    {g g' : ℂ} (hg : IsGreen n H z b g) (hg' : IsGreen n H' z (R b) g') : g' = g := by
  obtain ⟨x, hx, -, rfl⟩ := hg
  obtain ⟨x', hx', -, rfl⟩ := hg'
  have hy : ∀ F ⊆ range n, star z * R' x' F - H (R' x') F = b F := by
    intro F hF
    have h1 := congrFun (h.local' (z • x' - H' x') (R b) fun F hF => hx'.inside F hF) F
    rw [h.sub', h.smul', h.left, Pi.sub_apply, Pi.smul_apply, smul_eq_mul] at h1
    rw [comm _ F hF, h1]
    exact if_pos hF
  have hsupp : ∀ (z : ℂ) (x : Vec ℂ), z ≠ 0 → (∀ F ⊆ range n, z * x F - H x F = b F) → (∀ F, ¬ F ⊆ range n → x F = 0) →
      ∀ F, ¬ Q F → x F = 0 := by
    intro z x hz h1 h2 F hF
    by_cases hF' : F ⊆ range n
    · have h3 := h1 F hF'
      rw [h0 x F hF, hb F hF, sub_zero] at h3
      exact (mul_eq_zero.1 h3).resolve_left hz
    · exact h2 F hF'
  have hxQ := hsupp z x hz hx.inside hx.outside
  have hyQ := hsupp (star z) (R' x') (star_ne_zero.2 hz) hy (h.outside' x')
  have e1 : innerProduct n (R b) x' = star (innerProduct n b (R' x')) := by
    rw [← h.inner, h.right]
    exact innerProduct_local (fun _ _ => rfl) fun F hF => (if_pos hF).symm
  have e2 : innerProduct n (R' x') b = z * innerProduct n (R' x') x - innerProduct n (R' x') (H x) := by
    rw [← innerProduct_smul_right, ← innerProduct_sub_right]
    exact innerProduct_local (fun _ _ => rfl) fun F hF => (hx.inside F hF).symm
  have e3 : innerProduct n b x = z * innerProduct n (R' x') x - innerProduct n (H (R' x')) x := by
    rw [← star_star z, ← innerProduct_smul_left, ← innerProduct_sub_left]
    exact innerProduct_local (fun F hF => (hy F hF).symm) fun _ _ => rfl
  rw [e1, innerProduct_star, e2, e3, hH x (R' x') hxQ hyQ]

/-- Superpositions of states with the same `z`. -/
theorem green_of_mix {m : ℕ} {U : ℕ → ℕ → ℂ} (hH : IsLinearMap ℂ H) {z : ℕ → ℂ}
    (hz : ∀ i < m, ∀ j < m, U i j ≠ 0 → z i = z j) {b : ℕ → Vec ℂ} {b' : Vec ℂ} {i : ℕ} (hi : i < m) (hb : b' = mix m U b i)
    {g : ℕ → ℂ} (hg : ∀ j < m, IsGreen n H (z j) (b j) (g j)) : ∃ g', IsGreen n H (z i) b' g' := by
  classical
  choose x hx using hg
  let y : ℕ → Vec ℂ := fun j => if h : j < m then x j h else 0
  have hy : ∀ j < m, Solves n H (z j) (b j) (y j) := by
    intro j hj
    simp only [y, dif_pos hj]
    exact (hx j hj).1
  have hs : Solves n H (z i) b' (mix m U y i) := by
    constructor
    · intro F hF
      rw [linear_mix hH, hb]
      unfold mix
      rw [mul_sum, ← sum_sub_distrib]
      refine sum_congr rfl fun j hj => ?_
      rw [← (hy j (mem_range.1 hj)).inside F hF]
      by_cases h0 : U i j = 0
      · rw [h0]; ring
      · rw [hz i hi j (mem_range.1 hj) h0]; ring
    · intro F hF
      exact sum_eq_zero fun j hj => by rw [(hy j (mem_range.1 hj)).outside F hF, mul_zero]
  refine ⟨_, _, hs, fun w hw => ?_, rfl⟩
  have h1 : Solves n H (z i) (b i) (y i + (w - mix m U y i)) := by
    constructor
    · intro F hF
      have a1 := (hy i hi).inside F hF
      have a2 := hw.inside F hF
      have a3 := hs.inside F hF
      rw [hH.map_add, hH.map_sub]
      simp only [Pi.add_apply, Pi.sub_apply]
      linear_combination a1 + a2 - a3
    · intro F hF
      simp only [Pi.add_apply, Pi.sub_apply]
      rw [(hy i hi).outside F hF, hw.outside F hF, hs.outside F hF]
      ring
  have h2 := (hx i hi).2.1 _ h1
  have h3 : y i = x i hi := dif_pos hi
  rw [h3, add_eq_left] at h2
  exact sub_eq_zero.1 h2

end

theorem green_phase {n : ℕ} {H : Vec ℂ → Vec ℂ} (hH : IsLinearMap ℂ H) {z c : ℂ} (hc : star c * c = 1) {b : Vec ℂ} {g : ℂ}
    (hg : IsGreen n H z b g) : IsGreen n H z (c • b) g := by
  obtain ⟨x, hx, hu, rfl⟩ := hg
  have hc' : c ≠ 0 := right_ne_zero_of_mul (hc ▸ one_ne_zero)
  have hs : ∀ (c : ℂ) {b x : Vec ℂ}, Solves n H z b x → Solves n H z (c • b) (c • x) := by
    intro c b x hx
    refine ⟨fun F hF => ?_, fun F hF => ?_⟩
    · rw [hH.map_smul]
      simp only [Pi.smul_apply, smul_eq_mul]
      rw [← hx.inside F hF]
      ring
    · rw [Pi.smul_apply, hx.outside F hF, smul_zero]
  refine ⟨c • x, hs c hx, fun y hy => ?_, ?_⟩
  · have h1 := hs c⁻¹ hy
    rw [smul_smul, inv_mul_cancel₀ hc', one_smul] at h1
    rw [← hu _ h1, smul_smul, mul_inv_cancel₀ hc', one_smul]
  · rw [innerProduct_smul_left, show c • x = fun S => c * x S from rfl, innerProduct_smul_right, ← mul_assoc, hc, one_mul]

/-- The Hamiltonian is Hermitian on the allowed product states. -/
theorem hamiltonian_symmetric {n : ℕ} {op : Op ℕ ℂ} (hdict : Dict.NodupKeys op) (hop : OpInSystem n op) (hh : isHermitianOp op)
    (cut : ℝ) (r : Option Restrictions) {x y : Vec ℂ} (hx : ∀ F, ¬ (F ⊆ range n ∧ AllowedOpt r F) → x F = 0)
    (hy : ∀ F, ¬ (F ⊆ range n ∧ AllowedOpt r F) → y F = 0) :
    innerProduct n (hamiltonian n op cut r y) x = innerProduct n y (hamiltonian n op cut r x) := by
  unfold innerProduct hamiltonian
  have e1 : ∀ S ∈ (range n).powerset, star (if S ⊆ range n then ∑ T ∈ (range n).powerset, column op cut r T S * y T else 0) * x S
      = ∑ T ∈ (range n).powerset, star (column op cut r T S * y T) * x S := by
    intro S hS
    rw [if_pos (mem_powerset.1 hS), star_sum, sum_mul]
  have e2 : ∀ S ∈ (range n).powerset, star (y S) * (if S ⊆ range n then ∑ T ∈ (range n).powerset, column op cut r T S * x T else 0)
      = ∑ T ∈ (range n).powerset, star (y S) * (column op cut r T S * x T) := by
    intro S hS
    rw [if_pos (mem_powerset.1 hS), mul_sum]
  rw [sum_congr rfl e1, sum_congr rfl e2, sum_comm]
  refine sum_congr rfl fun T hT => sum_congr rfl fun S hS => ?_
  by_cases h1 : AllowedOpt r S
  · by_cases h2 : AllowedOpt r T
    · rw [column_hermitian hop hdict hh (cut := cut) r (mem_powerset.1 hS) (mem_powerset.1 hT) h1 h2, star_mul', star_star]
      ring
    · rw [hy T fun h => h2 h.2]
      simp
  · rw [hx S fun h => h1 h.2]
    simp

/-- The averages of the responses to two operators, of two systems, that an antiunitary map maps to each other. -/
theorem response_anti {S S' : SimulateArgs} (hsz : size S' = size S) (hes : S'.es = S.es) (hdict : Dict.NodupKeys S.hOp) (hop : OpInSystem (size S) S.hOp)
    (hh : isHermitianOp S.hOp) {R R' : Vec ℂ → Vec ℂ} (hs : IsAnti (size S) R R')
    (hcomm : ∀ v, ∀ F ⊆ range (size S), hamilton S (R' v) F = R' (hamilton S' v) F) {U : ℕ → ℕ → ℂ}
    (hU : ∀ j < S.es.length, ∀ k < S.es.length, ∑ i ∈ range S.es.length, star (U i j) * U i k = if j = k then 1 else 0)
    (h0 : ∀ i < S.es.length, ∀ j < S.es.length, S.es.getD i 0 ≠ S.es.getD j 0 → U i j = 0)
    (hψ : ∀ i < S.es.length, ∀ F, R (ampl (size S) (S.psis.getD i [])) F
      = ∑ j ∈ range S.es.length, U i j * ampl (size S) (S'.psis.getD j []) F) {T T' : Vec ℂ → Vec ℂ}
    (hT' : IsLinearMap ℂ T') {c : ℂ} (hc : star c * c = 1)
    (hTT : ∀ v : Vec ℂ, (fun F => if F ⊆ range (size S) ∧ AllowedOpt S'.restrictions F then T' (R v) F else 0)
      = c • R fun F => if F ⊆ range (size S) ∧ AllowedOpt S.restrictions F then T v F else 0)
    (hr : ∀ i < S.es.length, NothingLost S T (ampl (size S) (S.psis.getD i [])))
    (hr' : ∀ i < S.es.length, NothingLost S' T' (ampl (size S) (S'.psis.getD i [])))
    (weight : ℝ → ℂ) {z : ℂ} (hz : z.im ≠ 0) {g g' : ℕ → ℂ}
    (hg : ∀ i < S.es.length, IsResponse S T i z (g i)) (hg' : ∀ i < S.es.length, IsResponse S' T' i z (g' i)) :
    ∑ i ∈ range S.es.length, weight (S.es.getD i 0) * g' i = ∑ i ∈ range S.es.length, weight (S.es.getD i 0) * g i := by
  have hlin : IsLinearMap ℂ (hamilton S') := hamiltonian_linear _ _ _ _
  have hr2 : ∀ i < S.es.length, NothingLost S' T' (ampl (size S') (S'.psis.getD i [])) := by rw [hsz]; exact hr'
  have hg2 : ∀ i < S.es.length, IsGreen (size S) (hamilton S') (z + (S.es.getD i 0 : ℂ)) (excite S' T' i) (g' i) := by
    intro i hi
    have := hg' i hi
    unfold IsResponse at this
    rwa [hsz, hes] at this
  have hb : ∀ i < S.es.length, c • R (excite S T i) = mix S.es.length U (fun j => excite S' T' j) i := by
    intro i hi
    unfold excite
    rw [exciteVec_eq (hr i hi), ← hTT]
    have hm : R (ampl (size S) (S.psis.getD i [])) = mix S.es.length U (fun j => ampl (size S) (S'.psis.getD j [])) i :=
      funext fun F => hψ i hi F
    rw [hm, linear_mix hT']
    funext F
    unfold mix
    by_cases h1 : F ⊆ range (size S) ∧ AllowedOpt S'.restrictions F
    · rw [if_pos h1]
      refine Finset.sum_congr rfl fun j hj => ?_
      dsimp only
      rw [exciteVec_eq (hr2 j (mem_range.1 hj)), hsz]
      exact congrArg _ (if_pos h1).symm
    · rw [if_neg h1]
      refine (Finset.sum_eq_zero fun j hj => ?_).symm
      dsimp only
      rw [exciteVec_eq (hr2 j (mem_range.1 hj)), hsz]
      exact (congrArg _ (if_neg h1)).trans (mul_zero _)
  have hzc := boltzmann_congr h0 fun e => z + (e : ℂ)
  have hgc : ∀ i < S.es.length, IsGreen (size S) (hamilton S') (z + (S.es.getD i 0 : ℂ)) (c • R (excite S T i)) (g i) := by
    intro i hi
    obtain ⟨g'', h2⟩ := green_of_mix hlin hzc hi (hb i hi) hg2
    have h3 : g'' = g i := by
      have hc' : star (star c) * star c = 1 := by rw [star_star, mul_comm]; exact hc
      have h4 := green_phase hlin hc' h2
      rw [smul_smul, hc, one_smul] at h4
      refine green_anti hs (Q := fun F => F ⊆ range (size S) ∧ AllowedOpt S.restrictions F) hcomm
        (fun x y hx hy => hamiltonian_symmetric hdict hop hh S.cut S.restrictions hx hy) (fun F hF => hF.1) (fun v F hF => ?_)
        (fun e => ?_) (fun F hF => ?_) (hg i hi) h4
      · unfold hamilton hamiltonian
        by_cases hF' : F ⊆ range (size S)
        · rw [if_pos hF']
          refine sum_eq_zero fun T _ => ?_
          unfold column
          rw [if_neg fun h => hF ⟨hF', h.1⟩, zero_mul]
        · rw [if_neg hF']
      · have h5 := congrArg Complex.im e
        rw [Complex.add_im, Complex.ofReal_im, add_zero, Complex.zero_im] at h5
        exact hz h5
      · unfold excite
        rw [exciteVec_eq (hr i hi)]
        exact if_neg hF
    rw [← h3]
    exact h2
  exact (green_mix hlin hU (boltzmann_congr h0 weight) hzc hb hg2 hgc).symm

end

end Verif
