/-
The Green's function as a matrix element of the resolvent in Fock space.
-/
import Verif.Lemmas.GreenCongr
import Verif.Spec.Green

namespace Verif

open Finset Mpi Psr Spec Matrix

noncomputable section

/-- Sum over a basis. -/
theorem sum_over_states {n d : ℕ} {states : List (Finset ℕ)} (hnd : states.Nodup) (hs : ∀ S ∈ states, S ⊆ range n)
    (hd : d = states.length) (f : Finset ℕ → ℂ) (hf : ∀ S ⊆ range n, S ∉ states → f S = 0) :
    ∑ i : Fin d, f (states[i.val]'(lt_of_lt_of_eq i.isLt hd)) = ∑ S ∈ (range n).powerset, f S := by
  subst hd
  have h1 : ∑ S ∈ (range n).powerset, f S = ∑ S ∈ states.toFinset, f S := by
    symm
    apply sum_subset
    · intro S hS
      rw [mem_powerset]
      exact hs S (List.mem_toFinset.1 hS)
    · intro S hS hn
      exact hf S (mem_powerset.1 hS) fun h => hn (List.mem_toFinset.2 h)
  rw [h1]
  refine Finset.sum_bij (fun i _ => states[i.val]) (fun i _ => List.mem_toFinset.2 (List.getElem_mem _)) ?_ ?_ ?_
  · intro i _ j _ he
    exact Fin.ext ((List.Nodup.getElem_inj_iff hnd).1 he)
  · intro S hS
    obtain ⟨i, hi, he⟩ := List.mem_iff_getElem.1 (List.mem_toFinset.1 hS)
    exact ⟨⟨i, hi⟩, mem_univ _, he⟩
  · intro i _; rfl

/-- A vector over a basis as a vector of Fock space. -/
def spread {d : ℕ} (states : List (Finset ℕ)) (hd : d = states.length) (u : Fin d → ℂ) : Vec ℂ :=
  fun S => ∑ i : Fin d, if states[i.val]'(lt_of_lt_of_eq i.isLt hd) = S then u i else 0

theorem spread_get {d : ℕ} {states : List (Finset ℕ)} (hnd : states.Nodup) (hd : d = states.length) (u : Fin d → ℂ)
    (i : Fin d) : spread states hd u (states[i.val]'(lt_of_lt_of_eq i.isLt hd)) = u i := by
  unfold spread
  rw [Finset.sum_eq_single i]
  · rw [if_pos rfl]
  · intro j _ hj
    rw [if_neg]
    intro he
    exact hj (Fin.ext ((List.Nodup.getElem_inj_iff hnd).1 he))
  · intro h; exact absurd (mem_univ _) h

theorem spread_zero {d : ℕ} {states : List (Finset ℕ)} (hd : d = states.length) (u : Fin d → ℂ) {S : Finset ℕ}
    (hS : S ∉ states) : spread states hd u S = 0 := by
  unfold spread
  apply Finset.sum_eq_zero
  intro i _
  rw [if_neg]
  rintro rfl
  exact hS (List.getElem_mem _)

variable {n : ℕ} {op : Op ℕ ℂ} (hop : OpInSystem n op) (hdict : Dict.NodupKeys op) (hh : isHermitianOp op) {cut : ℝ}
  (hcut : 0 < cut) (r : Option Restrictions)

include hop hdict hh in
theorem column_hermitian {S T : Finset ℕ} (hS : S ⊆ range n) (hT : T ⊆ range n) (haS : AllowedOpt r S)
    (haT : AllowedOpt r T) : column op cut r T S = star (column op cut r S T) := by
  unfold column
  rw [matrixElement_hermitian hdict hop hh hS hT, Amp.abs2_star]
  by_cases hc : cut ≤ abs2 (matrixElement op T S)
  · rw [if_pos ⟨haS, hc⟩, if_pos ⟨haT, hc⟩]
  · rw [if_neg (fun h => hc h.2), if_neg (fun h => hc h.2), star_zero]

include hop hdict hh in
/-- `z - H` is injective for `z` off the real axis. -/
theorem solves_unique {z : ℂ} (hz : z.im ≠ 0) {b x y : Vec ℂ} (hx : Solves n (hamiltonian n op cut r) z b x)
    (hy : Solves n (hamiltonian n op cut r) z b y) : y = x := by
  let d : Vec ℂ := fun S => y S - x S
  have hd : ∀ S ⊆ range n, z * d S = hamiltonian n op cut r d S := by
    intro S hS
    have h1 := hx.inside S hS
    have h2 := hy.inside S hS
    have h3 : hamiltonian n op cut r d S = hamiltonian n op cut r y S - hamiltonian n op cut r x S := by
      unfold hamiltonian
      rw [if_pos hS, if_pos hS, if_pos hS, ← Finset.sum_sub_distrib]
      exact sum_congr rfl fun T _ => by simp only [d]; ring
    rw [h3]
    simp only [d]
    linear_combination h2 - h1
  have hz0 : z ≠ 0 := by rintro rfl; simp at hz
  have hna : ∀ S ⊆ range n, ¬ AllowedOpt r S → d S = 0 := by
    intro S hS ha
    have h1 := hd S hS
    have h0 : hamiltonian n op cut r d S = 0 := by
      unfold hamiltonian
      rw [if_pos hS]
      apply Finset.sum_eq_zero
      intro T _
      unfold column
      rw [if_neg (fun h => ha h.1), zero_mul]
    rw [h0] at h1
    exact (mul_eq_zero.1 h1).resolve_left hz0
  let q : ℂ := ∑ S ∈ (range n).powerset, ∑ T ∈ (range n).powerset, star (d S) * (column op cut r T S * d T)
  have hq1 : q = z * ∑ S ∈ (range n).powerset, star (d S) * d S := by
    simp only [q]
    rw [Finset.mul_sum]
    refine sum_congr rfl fun S hS => ?_
    rw [← Finset.mul_sum]
    have := hd S (mem_powerset.1 hS)
    unfold hamiltonian at this
    rw [if_pos (mem_powerset.1 hS)] at this
    rw [← this]
    ring
  have hq2 : star q = q := by
    simp only [q]
    rw [star_sum]
    simp only [star_sum]
    rw [Finset.sum_comm]
    refine sum_congr rfl fun S hS => sum_congr rfl fun T hT => ?_
    rw [mem_powerset] at hS hT
    by_cases haS : AllowedOpt r S
    · by_cases haT : AllowedOpt r T
      · rw [column_hermitian hop hdict hh r hS hT haS haT]
        simp only [star_mul', star_star]
        ring
      · rw [hna T hT haT]; simp
    · rw [hna S hS haS]; simp
  have hN : ∑ S ∈ (range n).powerset, star (d S) * d S = ((∑ S ∈ (range n).powerset, Complex.normSq (d S) : ℝ) : ℂ) := by
    rw [Complex.ofReal_sum]
    exact sum_congr rfl fun S _ => Complex.normSq_eq_conj_mul_self.symm
  have him : q.im = 0 := by
    have := congrArg Complex.im hq2
    simp at this
    linarith
  rw [hq1, hN, Complex.im_mul_ofReal] at him
  have hsum := (mul_eq_zero.1 him).resolve_left hz
  rw [sum_eq_zero_iff_of_nonneg (fun S _ => Complex.normSq_nonneg _)] at hsum
  funext S
  by_cases hS : S ⊆ range n
  · have := Complex.normSq_eq_zero.1 (hsum S (mem_powerset.2 hS))
    exact sub_eq_zero.1 this
  · rw [hx.outside S hS, hy.outside S hS]

include hop hdict hh in
/-- The resolvent of the matrix in a closed basis is the resolvent in Fock space. -/
theorem resolvent_isGreen {states : List (Finset ℕ)} (hnd : states.Nodup) (hs : ∀ S ∈ states, S ⊆ range n)
    (hall : ∀ S ∈ states, AllowedOpt r S)
    (hclosed : ∀ T ∈ states, ∀ S ⊆ range n, Connects op cut r T S → S ∈ states)
    {d : ℕ} (hd : d = states.length) (M : Matrix (Fin d) (Fin d) ℂ)
    (hM : ∀ i j, M i j = column op cut r (states[j.val]'(lt_of_lt_of_eq j.isLt hd)) (states[i.val]'(lt_of_lt_of_eq i.isLt hd)))
    (b : Vec ℂ) (hb : ∀ S ⊆ range n, S ∉ states → b S = 0) {z : ℂ} (hz : z.im ≠ 0) :
    M.IsHermitian ∧ IsGreen n (hamiltonian n op cut r) z b
      (resolvent M (fun i => b (states[i.val]'(lt_of_lt_of_eq i.isLt hd))) z) := by
  have hherm : M.IsHermitian := by
    ext i j
    rw [Matrix.conjTranspose_apply, hM, hM]
    exact (column_hermitian hop hdict hh r (hs _ (List.getElem_mem _)) (hs _ (List.getElem_mem _))
      (hall _ (List.getElem_mem _)) (hall _ (List.getElem_mem _))).symm
  refine ⟨hherm, ?_⟩
  set v : Fin d → ℂ := fun i => b (states[i.val]'(lt_of_lt_of_eq i.isLt hd)) with hv
  have hu := isUnit_resolvent hherm hz
  have hdet := (Matrix.isUnit_iff_isUnit_det _).1 hu
  set u : Fin d → ℂ := (z • (1 : Matrix (Fin d) (Fin d) ℂ) - M)⁻¹ *ᵥ v with hudef
  have hsolve : (z • (1 : Matrix (Fin d) (Fin d) ℂ) - M) *ᵥ u = v := by
    rw [hudef, Matrix.mulVec_mulVec, Matrix.mul_nonsing_inv _ hdet, Matrix.one_mulVec]
  have hcol0 : ∀ T ∈ states, ∀ S ⊆ range n, S ∉ states → column op cut r T S = 0 := by
    intro T hT S hS hn
    unfold column
    rw [if_neg]
    intro hc
    exact hn (hclosed T hT S hS hc)
  have hx : Solves n (hamiltonian n op cut r) z b (spread states hd u) := by
    refine ⟨fun S hS => ?_, fun S hS => spread_zero hd u fun h => hS (hs S h)⟩
    have hham : hamiltonian n op cut r (spread states hd u) S
        = ∑ j : Fin d, column op cut r (states[j.val]'(lt_of_lt_of_eq j.isLt hd)) S * u j := by
      unfold hamiltonian
      rw [if_pos hS, ← sum_over_states hnd hs hd (fun T => column op cut r T S * spread states hd u T)
        (fun T _ hT => by rw [spread_zero hd u hT, mul_zero])]
      exact sum_congr rfl fun j _ => by rw [spread_get hnd hd]
    rw [hham]
    by_cases hS' : S ∈ states
    · obtain ⟨i, hi, rfl⟩ := List.mem_iff_getElem.1 hS'
      have h1 := congrFun hsolve ⟨i, lt_of_lt_of_eq hi hd.symm⟩
      rw [Matrix.sub_mulVec, Matrix.smul_mulVec, Matrix.one_mulVec] at h1
      simp only [Pi.sub_apply, Pi.smul_apply, smul_eq_mul, Matrix.mulVec, dotProduct] at h1
      rw [show spread states hd u states[i] = u ⟨i, lt_of_lt_of_eq hi hd.symm⟩ from
        spread_get hnd hd u ⟨i, lt_of_lt_of_eq hi hd.symm⟩]
      simp only [hM] at h1
      exact h1
    · rw [spread_zero hd u hS', hb S hS hS', mul_zero, zero_sub, neg_eq_zero]
      apply Finset.sum_eq_zero
      intro j _
      rw [hcol0 _ (List.getElem_mem _) S hS hS', zero_mul]
  refine ⟨_, hx, fun y hy => solves_unique hop hdict hh r hz hx hy, ?_⟩
  unfold innerProduct
  rw [← sum_over_states hnd hs hd (fun S => star (b S) * spread states hd u S)
    (fun S _ hS => by rw [spread_zero hd u hS, mul_zero])]
  unfold Spec.resolvent
  simp only [dotProduct]
  exact sum_congr rfl fun i _ => by rw [spread_get hnd hd]; rfl

/-- `spread` as a linear map. -/
def spreadMap {d : ℕ} (states : List (Finset ℕ)) (hd : d = states.length) : (Fin d → ℂ) →ₗ[ℂ] Vec ℂ where
  toFun := spread states hd
  map_add' u w := by
    funext S
    show spread states hd (u + w) S = spread states hd u S + spread states hd w S
    unfold spread
    rw [← Finset.sum_add_distrib]
    exact sum_congr rfl fun i _ => by split <;> simp
  map_smul' c u := by
    funext S
    show spread states hd (c • u) S = c * spread states hd u S
    unfold spread
    rw [Finset.mul_sum]
    exact sum_congr rfl fun i _ => by split <;> simp

theorem spreadMap_injective {d : ℕ} {states : List (Finset ℕ)} (hnd : states.Nodup) (hd : d = states.length) :
    Function.Injective (spreadMap states hd) := by
  intro u w h
  funext i
  have := congrFun h (states[i.val]'(lt_of_lt_of_eq i.isLt hd))
  rwa [show spreadMap states hd u (states[i.val]'(lt_of_lt_of_eq i.isLt hd)) = u i from spread_get hnd hd u i,
    show spreadMap states hd w (states[i.val]'(lt_of_lt_of_eq i.isLt hd)) = w i from spread_get hnd hd w i] at this

theorem spread_restrict {n d : ℕ} {states : List (Finset ℕ)} (hnd : states.Nodup) (hs : ∀ S ∈ states, S ⊆ range n)
    (hd : d = states.length) {b : Vec ℂ} (hb : ∀ S, S ∉ states → b S = 0) :
    spread states hd (fun i => b (states[i.val]'(lt_of_lt_of_eq i.isLt hd))) = b := by
  funext S
  by_cases hS : S ∈ states
  · obtain ⟨i, hi, rfl⟩ := List.mem_iff_getElem.1 hS
    exact spread_get hnd hd _ ⟨i, lt_of_lt_of_eq hi hd.symm⟩
  · rw [spread_zero hd _ hS, hb S hS]

/-- In a closed basis the Hamiltonian acts as its matrix. -/
theorem hamiltonian_spread {states : List (Finset ℕ)} (hnd : states.Nodup) (hs : ∀ S ∈ states, S ⊆ range n)
    (hclosed : ∀ T ∈ states, ∀ S ⊆ range n, Connects op cut r T S → S ∈ states)
    {d : ℕ} (hd : d = states.length) (M : Matrix (Fin d) (Fin d) ℂ)
    (hM : ∀ i j, M i j = column op cut r (states[j.val]'(lt_of_lt_of_eq j.isLt hd)) (states[i.val]'(lt_of_lt_of_eq i.isLt hd)))
    (u : Fin d → ℂ) : hamiltonian n op cut r (spread states hd u) = spread states hd (M *ᵥ u) := by
  funext S
  by_cases hS : S ⊆ range n
  · have hham : hamiltonian n op cut r (spread states hd u) S
        = ∑ j : Fin d, column op cut r (states[j.val]'(lt_of_lt_of_eq j.isLt hd)) S * u j := by
      unfold hamiltonian
      rw [if_pos hS, ← sum_over_states hnd hs hd (fun T => column op cut r T S * spread states hd u T)
        (fun T _ hT => by rw [spread_zero hd u hT, mul_zero])]
      exact sum_congr rfl fun j _ => by rw [spread_get hnd hd]
    rw [hham]
    by_cases hS' : S ∈ states
    · obtain ⟨i, hi, rfl⟩ := List.mem_iff_getElem.1 hS'
      rw [show spread states hd (M *ᵥ u) states[i] = (M *ᵥ u) ⟨i, lt_of_lt_of_eq hi hd.symm⟩ from
        spread_get hnd hd _ ⟨i, lt_of_lt_of_eq hi hd.symm⟩]
      simp only [Matrix.mulVec, dotProduct, hM]
    · rw [spread_zero hd _ hS']
      apply Finset.sum_eq_zero
      intro j _
      unfold column
      rw [if_neg, zero_mul]
      intro hc
      exact hS' (hclosed _ (List.getElem_mem _) S hS hc)
  · unfold hamiltonian
    rw [if_neg hS, spread_zero hd _ fun h => hS (hs S h)]

theorem iterate_spread {states : List (Finset ℕ)} (hnd : states.Nodup) (hs : ∀ S ∈ states, S ⊆ range n)
    (hclosed : ∀ T ∈ states, ∀ S ⊆ range n, Connects op cut r T S → S ∈ states)
    {d : ℕ} (hd : d = states.length) (M : Matrix (Fin d) (Fin d) ℂ)
    (hM : ∀ i j, M i j = column op cut r (states[j.val]'(lt_of_lt_of_eq j.isLt hd)) (states[i.val]'(lt_of_lt_of_eq i.isLt hd)))
    (u : Fin d → ℂ) (m : ℕ) :
    (hamiltonian n op cut r)^[m] (spread states hd u) = spread states hd ((M ^ m) *ᵥ u) := by
  induction m with
  | zero => simp
  | succ m ih =>
    rw [Function.iterate_succ_apply', ih, hamiltonian_spread r hnd hs hclosed hd M hM, Matrix.mulVec_mulVec, pow_succ']

/-- Krylov vectors in the basis and in Fock space. -/
theorem independent_spread {states : List (Finset ℕ)} (hnd : states.Nodup) (hs : ∀ S ∈ states, S ⊆ range n)
    (hclosed : ∀ T ∈ states, ∀ S ⊆ range n, Connects op cut r T S → S ∈ states)
    {d : ℕ} (hd : d = states.length) (M : Matrix (Fin d) (Fin d) ℂ)
    (hM : ∀ i j, M i j = column op cut r (states[j.val]'(lt_of_lt_of_eq j.isLt hd)) (states[i.val]'(lt_of_lt_of_eq i.isLt hd)))
    {b : Vec ℂ} (hb : ∀ S, S ∉ states → b S = 0) (k : ℕ) :
    LinearIndependent ℂ (fun i : Fin k => (hamiltonian n op cut r)^[i.val] b) ↔
      LinearIndependent ℂ (fun i : Fin k => (M ^ i.val) *ᵥ
        (fun i : Fin d => b (states[i.val]'(lt_of_lt_of_eq i.isLt hd)))) := by
  have h1 : (fun i : Fin k => (hamiltonian n op cut r)^[i.val] b)
      = spreadMap states hd ∘ fun i : Fin k => (M ^ i.val) *ᵥ
        (fun i : Fin d => b (states[i.val]'(lt_of_lt_of_eq i.isLt hd))) := by
    funext i
    conv_lhs => rw [← spread_restrict hnd hs hd hb]
    exact iterate_spread r hnd hs hclosed hd M hM _ _
  rw [h1]
  exact LinearMap.linearIndependent_iff _ (LinearMap.ker_eq_bot.2 (spreadMap_injective hnd hd))

include hop hdict hh hcut in
/-- `getGreen` in terms of the matrix in a closed basis. -/
theorem getGreen_matrix_full {psi : Psi ℂ} (hpsi : IsState n psi) (hne : psi ≠ [])
    (hall : ∀ S ⊆ range n, encBytes n S ∈ Dict.keys psi → AllowedOpt r S) (hnorm : norm2 psi = (1 : ℝ))
    {fuel : ℕ} (hf : 2 ^ n + 2 ≤ fuel) (K : ℕ) :
    ∃ (states : List (Finset ℕ)) (d : ℕ) (hd : d = states.length) (M : Matrix (Fin d) (Fin d) ℂ) (v : Fin d → ℂ),
      states.Nodup ∧
      SmallestInvariant n op cut r {S | S ⊆ range n ∧ encBytes n S ∈ Dict.keys psi} {S | S ∈ states} ∧
      M.IsHermitian ∧ star v ⬝ᵥ v = 1 ∧
      (∀ k, LinearIndependent ℂ (fun i : Fin k => (hamiltonian n op cut r)^[i.val] (ampl n psi)) ↔
        LinearIndependent ℂ (fun i : Fin k => (M ^ i.val) *ᵥ v)) ∧
      (∀ z : ℂ, z.im ≠ 0 → IsGreen n (hamiltonian n op cut r) z (ampl n psi) (Spec.resolvent M v z)) ∧
      (∀ m, innerProduct n (ampl n psi) ((hamiltonian n op cut r)^[m] (ampl n psi)) = star v ⬝ᵥ ((M ^ m) *ᵥ v)) ∧
      (∀ S ∈ states, S ⊆ range n) ∧ ampl n psi = spread states hd v ∧
      (∀ u, hamiltonian n op cut r (spread states hd u) = spread states hd (M *ᵥ u)) ∧
      ∀ hDict, ColumnsExact n op cut r hDict → ∃ hDict', ColumnsExact n op cut r hDict' ∧
        ∀ (e : ℝ) (omega : List ℝ) (delta : ℝ),
        getGreen n e psi op omega delta K cut r hDict fuel = (do
          let (alpha, beta) ← tridiagonalKrylov M v (min K d)
          let g ← greenOnMesh alpha beta (min K d) omega delta e
          return (g, hDict')) := by
  have hp : psi.length ≠ 0 := fun h => hne (List.length_eq_zero_iff.1 h)
  obtain ⟨H, states, hnd, hs, hsm, hent, hser⟩ := serial_expansion hop hcut r hpsi hf
  have hlen := length_basisIndex ((nodup_map_enc hs).2 hnd)
  rw [List.length_map] at hlen
  have hv := psiVector_ampl hnd hs hpsi (fun S hS hk => hsm.contains ⟨hS, hk⟩) hlen
  have hallS : ∀ S ∈ states, AllowedOpt r S := by
    have : {S | S ∈ states} ⊆ {S | AllowedOpt r S} :=
      hsm.smallest _ (fun S hS => hall S hS.1 hS.2) fun T _ S _ hc => hc.1
    exact fun S hS => this hS
  have hb : ∀ S, S ∉ states → ampl n psi S = 0 := by
    intro S hn
    unfold ampl
    split
    · rename_i hS
      rw [(Dict.get?_eq_none_iff psi _).2 fun hk => hn (hsm.contains ⟨hS, hk⟩)]
      rfl
    · rfl
  set d := (basisIndex (states.map (encBytes n))).length with hdd
  have hM : ∀ i j : Fin d, H.toMatrix d i j = column op cut r (states[j.val]'(lt_of_lt_of_eq j.isLt hlen))
      (states[i.val]'(lt_of_lt_of_eq i.isLt hlen)) := by
    intro i j
    unfold Mat.toMatrix
    rw [hent, dif_pos ⟨lt_of_lt_of_eq i.isLt hlen, lt_of_lt_of_eq j.isLt hlen⟩]
  have hres := fun {z : ℂ} (hz : z.im ≠ 0) => resolvent_isGreen hop hdict hh (cut := cut) r hnd hs hallS hsm.closed hlen
    (H.toMatrix d) hM (ampl n psi) (fun S _ h => hb S h) hz
  set v : Fin d → ℂ := fun i => ampl n psi (states[i.val]'(lt_of_lt_of_eq i.isLt hlen)) with hvdef
  have hinner : ∀ m, innerProduct n (ampl n psi) ((hamiltonian n op cut r)^[m] (ampl n psi))
      = star v ⬝ᵥ ((H.toMatrix d ^ m) *ᵥ v) := by
    intro m
    have h1 : (hamiltonian n op cut r)^[m] (ampl n psi) = spread states hlen ((H.toMatrix d ^ m) *ᵥ v) := by
      conv_lhs => rw [← spread_restrict hnd hs hlen hb]
      exact iterate_spread r hnd hs hsm.closed hlen _ hM _ _
    rw [h1]
    unfold innerProduct
    rw [← sum_over_states hnd hs hlen (fun S => star (ampl n psi S) * spread states hlen ((H.toMatrix d ^ m) *ᵥ v) S)
      (fun S _ hS => by rw [spread_zero hlen _ hS, mul_zero])]
    simp only [dotProduct]
    exact sum_congr rfl fun i _ => by rw [spread_get hnd hlen]; rfl
  refine ⟨states, d, hlen, H.toMatrix d, v, hnd, hsm, (hres (z := Complex.I) (by simp)).1, ?_,
    fun k => independent_spread r hnd hs hsm.closed hlen _ hM hb k, fun z hz => (hres hz).2, hinner,
    hs, (spread_restrict hnd hs hlen hb).symm, fun u => hamiltonian_spread r hnd hs hsm.closed hlen _ hM u, ?_⟩
  · have h0 := hinner 0
    simp only [Function.iterate_zero, id, pow_zero, Matrix.one_mulVec] at h0
    rw [← h0]
    unfold innerProduct
    have h2 := norm2_eq (F := ℝ) hpsi
    rw [hnorm] at h2
    have h3 : ∑ S ∈ (range n).powerset, star (ampl n psi S) * ampl n psi S
        = ((∑ S ∈ (range n).powerset, abs2 (ampl n psi S) : ℝ) : ℂ) := by
      rw [Complex.ofReal_sum]
      exact sum_congr rfl fun S _ => Complex.normSq_eq_conj_mul_self.symm
    rw [h3, ← h2, Complex.ofReal_one]
  · intro hDict hdd'
    obtain ⟨h', hh', hx⟩ := hser hDict hdd'
    refine ⟨h', hh', fun e omega delta => ?_⟩
    rw [getGreen_of_expand hp hx]
    unfold greenTail
    rw [hv]
    simp only [bind, Except.bind]
    cases tridiagonalKrylov (H.toMatrix d) v (min K d) with
    | error err => rfl
    | ok ab => rfl

include hop hdict hh hcut in
/-- `getGreen` in terms of the matrix in a closed basis. -/
theorem getGreen_matrix {psi : Psi ℂ} (hpsi : IsState n psi) (hne : psi ≠ [])
    (hall : ∀ S ⊆ range n, encBytes n S ∈ Dict.keys psi → AllowedOpt r S) (hnorm : norm2 psi = (1 : ℝ))
    {fuel : ℕ} (hf : 2 ^ n + 2 ≤ fuel) (K : ℕ) :
    ∃ (states : List (Finset ℕ)) (d : ℕ) (hd : d = states.length) (M : Matrix (Fin d) (Fin d) ℂ) (v : Fin d → ℂ),
      states.Nodup ∧
      SmallestInvariant n op cut r {S | S ⊆ range n ∧ encBytes n S ∈ Dict.keys psi} {S | S ∈ states} ∧
      M.IsHermitian ∧ star v ⬝ᵥ v = 1 ∧
      (∀ k, LinearIndependent ℂ (fun i : Fin k => (hamiltonian n op cut r)^[i.val] (ampl n psi)) ↔
        LinearIndependent ℂ (fun i : Fin k => (M ^ i.val) *ᵥ v)) ∧
      (∀ z : ℂ, z.im ≠ 0 → IsGreen n (hamiltonian n op cut r) z (ampl n psi) (Spec.resolvent M v z)) ∧
      (∀ m, innerProduct n (ampl n psi) ((hamiltonian n op cut r)^[m] (ampl n psi)) = star v ⬝ᵥ ((M ^ m) *ᵥ v)) ∧
      ∀ hDict, ColumnsExact n op cut r hDict → ∃ hDict', ColumnsExact n op cut r hDict' ∧
        ∀ (e : ℝ) (omega : List ℝ) (delta : ℝ),
        getGreen n e psi op omega delta K cut r hDict fuel = (do
          let (alpha, beta) ← tridiagonalKrylov M v (min K d)
          let g ← greenOnMesh alpha beta (min K d) omega delta e
          return (g, hDict')) := by
  obtain ⟨states, d, hd, M, v, h1, h2, h3, h4, h5, h6, h7, -, -, -, h8⟩ :=
    getGreen_matrix_full hop hdict hh hcut r hpsi hne hall hnorm hf K
  exact ⟨states, d, hd, M, v, h1, h2, h3, h4, h5, h6, h7, h8⟩

end

end Verif
