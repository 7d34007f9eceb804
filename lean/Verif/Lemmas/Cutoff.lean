/-
Lemmas for C84: the effect of cutoffs on responses.
-/
import Verif.Spec.Cutoff
import Verif.Lemmas.GreenMeaning
import Verif.Lemmas.EnergyBound
import Verif.Lemmas.Stability
import Verif.Lemmas.Degenerate

namespace Verif

open Finset Psr Spec Matrix

noncomputable section

theorem card_product_le (s : Finset (Finset ℕ)) (p : List (ℕ × Bool)) (T : Finset ℕ) :
    #{S ∈ s | product p (single T (1 : ℂ)) S ≠ 0} ≤ 1 := by
  rcases product_single_or p T 1 with h | ⟨U, y, hy, h⟩
  · rw [h]; simp
  · rw [h]
    refine (card_le_card (t := {U}) fun S hS => ?_).trans (by simp)
    rw [mem_singleton]
    by_contra hne
    exact (mem_filter.1 hS).2 (by unfold Spec.single; rw [if_neg hne])

/-- A column of an operator has at most as many elements as the operator has terms. -/
theorem card_matrixElement_le (s : Finset (Finset ℕ)) (op : Op ℕ ℂ) (T : Finset ℕ) :
    #{S ∈ s | matrixElement op S T ≠ 0} ≤ op.length := by
  unfold matrixElement operator opSpec
  induction op with
  | nil => simp
  | cons q op ih =>
    have hsub : {S ∈ s | ((q :: op).map (fun q => (processSpec q.1, q.2)) |>.map
          fun q => q.2 * product q.1 (single T (1 : ℂ)) S).sum ≠ 0}
        ⊆ {S ∈ s | product (processSpec q.1) (single T (1 : ℂ)) S ≠ 0} ∪
          {S ∈ s | ((op.map fun q => (processSpec q.1, q.2)).map fun q => q.2 * product q.1 (single T (1 : ℂ)) S).sum ≠ 0} := by
      intro S hS
      rw [mem_filter] at hS
      rw [mem_union, mem_filter, mem_filter]
      by_cases h : product (processSpec q.1) (single T (1 : ℂ)) S = 0
      · refine Or.inr ⟨hS.1, fun h0 => hS.2 ?_⟩
        rw [List.map_cons, List.map_cons, List.sum_cons, h0]
        simp only [h, mul_zero, add_zero]
      · exact Or.inl ⟨hS.1, h⟩
    refine (card_le_card hsub).trans ((card_union_le _ _).trans ?_)
    have := card_product_le s (processSpec q.1) T
    rw [List.length_cons]
    omega

/-- The matrix elements that are dropped from a column. -/
theorem dropped_column (s : Finset (Finset ℕ)) (op : Op ℕ ℂ) {cut : ℝ} (r : Option Restrictions) (T : Finset ℕ) :
    ∑ S ∈ s, ‖column op cut r T S - column op 0 r T S‖ ≤ op.length * Real.sqrt cut := by
  have h1 : ∀ S ∈ s, ‖column op cut r T S - column op 0 r T S‖ ≤ if matrixElement op S T ≠ 0 then Real.sqrt cut else 0 := by
    intro S _
    have h0 : (0 : ℝ) ≤ abs2 (matrixElement op S T) := Complex.normSq_nonneg _
    unfold column
    by_cases ha : AllowedOpt r S
    · simp only [ha, true_and, h0, if_true]
      by_cases hm : matrixElement op S T = 0
      · simp [hm]
      · rw [if_pos hm]
        by_cases hc : cut ≤ abs2 (matrixElement op S T)
        · rw [if_pos hc, sub_self, norm_zero]; exact Real.sqrt_nonneg _
        · rw [if_neg hc, zero_sub, norm_neg]
          refine Real.le_sqrt_of_sq_le ?_
          rw [← Complex.normSq_eq_norm_sq]
          exact (not_le.1 hc).le
    · simp only [ha, false_and, if_false, sub_self, norm_zero]
      split
      · exact Real.sqrt_nonneg _
      · exact le_rfl
  refine (sum_le_sum h1).trans ?_
  rw [← sum_filter, sum_const, nsmul_eq_mul]
  exact mul_le_mul_of_nonneg_right (by exact_mod_cast card_matrixElement_le s op T) (Real.sqrt_nonneg _)

/-- Without cutoff. -/
theorem hamiltonian_zero_cut (n : ℕ) (op : Op ℕ ℂ) (r : Option Restrictions) {x : Vec ℂ}
    (hx : ∀ S, ¬ S ⊆ range n → x S = 0) : hamiltonian n op 0 r x = allowedPart n r (operator (opSpec op)) x := by
  funext S
  unfold hamiltonian allowedPart
  by_cases hS : S ⊆ range n
  · rw [if_pos hS]
    by_cases ha : AllowedOpt r S
    · rw [if_pos ⟨hS, ha⟩]
      have e : x = ∑ T ∈ (range n).powerset, single T (x T) := by
        funext F
        rw [Finset.sum_apply]
        unfold Spec.single
        by_cases hF : F ⊆ range n
        · rw [sum_ite_eq, if_pos (mem_powerset.2 hF)]
        · rw [sum_ite_eq, if_neg (fun h => hF (mem_powerset.1 h)), hx F hF]
      have hsum : ∀ s : Finset (Finset ℕ), operator (opSpec op) (∑ T ∈ s, single T (x T)) S
          = ∑ T ∈ s, matrixElement op S T * x T := by
        intro s
        induction s using Finset.induction_on with
        | empty =>
          rw [sum_empty, sum_empty]
          have := operator_smul (opSpec op) (0 : ℂ) (0 : Vec ℂ) S
          rw [zero_mul] at this
          simp only [zero_mul] at this
          exact this
        | insert T s hT ih =>
          rw [sum_insert hT, sum_insert hT, operator_add, ih]
          congr 1
          have e1 : (Spec.single T (x T) : Vec ℂ) = fun F => x T * (Spec.single T (1 : ℂ) : Vec ℂ) F := by
            funext F
            unfold Spec.single
            split <;> simp
          rw [e1, operator_smul, mul_comm]
          rfl
      rw [show operator (opSpec op) x S = operator (opSpec op) (∑ T ∈ (range n).powerset, single T (x T)) S by rw [← e], hsum]
      refine sum_congr rfl fun T _ => ?_
      unfold column
      rw [if_pos ⟨ha, Complex.normSq_nonneg _⟩]
    · rw [if_neg (fun h => ha h.2)]
      refine sum_eq_zero fun T _ => ?_
      unfold column
      rw [if_neg (fun h => ha h.1), zero_mul]
  · rw [if_neg hS, if_neg (fun h => hS h.1)]

theorem isGreen_congr {n : ℕ} {H H' : Vec ℂ → Vec ℂ} (h : ∀ x : Vec ℂ, (∀ S, ¬ S ⊆ range n → x S = 0) → H x = H' x) {z : ℂ}
    {b : Vec ℂ} {g : ℂ} (hg : IsGreen n H z b g) : IsGreen n H' z b g := by
  have hs : ∀ {A B : Vec ℂ → Vec ℂ}, (∀ x : Vec ℂ, (∀ S, ¬ S ⊆ range n → x S = 0) → A x = B x) → ∀ {x}, Solves n A z b x →
      Solves n B z b x := fun hAB x hx => ⟨fun S hS => by rw [← hAB x hx.outside]; exact hx.inside S hS, hx.outside⟩
  obtain ⟨x, hx, hu, rfl⟩ := hg
  exact ⟨x, hs h hx, fun y hy => hu y (hs (fun x hx => (h x hx).symm) hy), rfl⟩

theorem isGreen_unique {n : ℕ} {H : Vec ℂ → Vec ℂ} {z : ℂ} {b : Vec ℂ} {g g' : ℂ} (h : IsGreen n H z b g) (h' : IsGreen n H z b g') :
    g = g' := by
  obtain ⟨x, -, hu, rfl⟩ := h
  obtain ⟨y, hy, -, rfl⟩ := h'
  rw [hu y hy]

theorem sum_over_states_real {n d : ℕ} {states : List (Finset ℕ)} (hnd : states.Nodup) (hs : ∀ S ∈ states, S ⊆ range n)
    (hd : d = states.length) (f : Finset ℕ → ℝ) (hf : ∀ S ⊆ range n, S ∉ states → f S = 0) :
    ∑ i : Fin d, f (states[i.val]'(lt_of_lt_of_eq i.isLt hd)) = ∑ S ∈ (range n).powerset, f S := by
  have := sum_over_states hnd hs hd (fun S => (f S : ℂ)) (fun S h1 h2 => by rw [hf S h1 h2, Complex.ofReal_zero])
  exact_mod_cast this

/-- Resolvents of two matrices for two vectors and two energies. -/
theorem resolvent_all_close {d : ℕ} {M M' : Matrix (Fin d) (Fin d) ℂ} (hM : M.IsHermitian) (hM' : M'.IsHermitian) {z z' : ℂ}
    (hz : z.im ≠ 0) (him : z'.im = z.im) {c : ℝ} (hc0 : 0 ≤ c) (hc : ∀ j, ∑ i, ‖M i j - M' i j‖ ≤ c) (v v' : Fin d → ℂ)
    {a a' ρ : ℝ} (ha0 : 0 ≤ a) (ha0' : 0 ≤ a') (hρ : 0 ≤ ρ) (ha : ∑ i, ‖v i‖ ^ 2 ≤ a ^ 2) (ha' : ∑ i, ‖v' i‖ ^ 2 ≤ a' ^ 2)
    (hd : ∑ i, ‖v i - v' i‖ ^ 2 ≤ ρ ^ 2) :
    ‖Spec.resolvent M v z - Spec.resolvent M' v' z'‖ ≤ ρ * (a + a') / |z.im| + (c + ‖z - z'‖) * a' ^ 2 / z.im ^ 2 := by
  have hzz : z - z' = ((z.re - z'.re : ℝ) : ℂ) := by
    apply Complex.ext
    · simp
    · simp [him]
  set N := M' + (z - z') • (1 : Matrix (Fin d) (Fin d) ℂ) with hNdef
  have hN : N.IsHermitian := by
    refine hM'.add ?_
    rw [hzz]
    unfold Matrix.IsHermitian
    rw [conjTranspose_smul, conjTranspose_one, Complex.star_def, Complex.conj_ofReal]
  have hres : Spec.resolvent M' v' z' = Spec.resolvent N v' z := by
    unfold Spec.resolvent
    have : z' • (1 : Matrix (Fin d) (Fin d) ℂ) - M' = z • 1 - N := by
      rw [hNdef, sub_smul]; abel
    rw [this]
  rw [hres]
  have hrow : ∀ i, ∑ j, ‖M i j - N i j‖ ≤ c + ‖z - z'‖ := by
    intro i
    have h1 : ∀ j, ‖M i j - N i j‖ ≤ ‖M j i - M' j i‖ + if i = j then ‖z - z'‖ else 0 := by
      intro j
      have e : M i j - N i j = (M i j - M' i j) - (z - z') * (1 : Matrix (Fin d) (Fin d) ℂ) i j := by
        rw [hNdef, Matrix.add_apply, Matrix.smul_apply, smul_eq_mul]; ring
      rw [e]
      refine (norm_sub_le _ _).trans (add_le_add (le_of_eq ?_) ?_)
      · rw [← hM.apply i j, ← hM'.apply i j, ← star_sub, norm_star]
      · rw [Matrix.one_apply]
        split <;> simp
    refine (sum_le_sum fun j _ => h1 j).trans ?_
    rw [sum_add_distrib, sum_ite_eq, if_pos (mem_univ i)]
    exact add_le_add (hc i) le_rfl
  have h1 := resolvent_vector_close hM hz v v' ha0 ha0' hρ ha ha' hd
  have hc0' : 0 ≤ c + ‖z - z'‖ := add_nonneg hc0 (norm_nonneg _)
  have h2 := resolvent_matrix_close hM hN hz hc0' hrow v'
  refine (norm_sub_le_norm_sub_add_norm_sub _ (Spec.resolvent M v' z) _).trans (add_le_add h1 (h2.trans ?_))
  exact div_le_div_of_nonneg_right (mul_le_mul_of_nonneg_left ha' hc0') (sq_nonneg _)

/-- Two responses: with cutoff, and without cutoff for another vector and a shifted energy. -/
theorem green_close {n : ℕ} {op : Op ℕ ℂ} (hop : OpInSystem n op) (hdict : Dict.NodupKeys op) (hh : isHermitianOp op)
    (r : Option Restrictions) {cut : ℝ} {z z' : ℂ} (hz : z.im ≠ 0) (him : z'.im = z.im) {b b' : Vec ℂ}
    (hb : ∀ S, ¬ (S ⊆ range n ∧ AllowedOpt r S) → b S = 0) (hb' : ∀ S, ¬ (S ⊆ range n ∧ AllowedOpt r S) → b' S = 0)
    {a a' ρ : ℝ} (ha0 : 0 ≤ a) (ha0' : 0 ≤ a') (hρ : 0 ≤ ρ) (ha : Spec.normSq n b ≤ a ^ 2) (ha' : Spec.normSq n b' ≤ a' ^ 2)
    (hd : Spec.normSq n (b - b') ≤ ρ ^ 2) :
    ∃ g', IsGreen n (allowedPart n r (operator (opSpec op))) z' b' g' ∧ ∀ g, IsGreen n (hamiltonian n op cut r) z b g →
      ‖g - g'‖ ≤ ρ * (a + a') / |z.im| + (op.length * Real.sqrt cut + ‖z - z'‖) * a' ^ 2 / z.im ^ 2 := by
  classical
  set sts := {S ∈ (range n).powerset | AllowedOpt r S} with hsts
  set states := sts.toList with hstates
  have hmem : ∀ S, S ∈ states ↔ S ⊆ range n ∧ AllowedOpt r S := by
    intro S
    rw [hstates, mem_toList, hsts, mem_filter, mem_powerset]
  have hnd : states.Nodup := nodup_toList _
  have hsub : ∀ S ∈ states, S ⊆ range n := fun S h => ((hmem S).1 h).1
  have hall : ∀ S ∈ states, AllowedOpt r S := fun S h => ((hmem S).1 h).2
  have hcl : ∀ c : ℝ, ∀ T ∈ states, ∀ S ⊆ range n, Connects op c r T S → S ∈ states :=
    fun c T _ S hS h => (hmem S).2 ⟨hS, h.1⟩
  let M : ℝ → Matrix (Fin states.length) (Fin states.length) ℂ := fun c i j => column op c r states[j.val] states[i.val]
  let v : Vec ℂ → Fin states.length → ℂ := fun f i => f states[i.val]
  have hvs : ∀ f : Vec ℂ, (∀ S, ¬ (S ⊆ range n ∧ AllowedOpt r S) → f S = 0) → ∑ i, ‖v f i‖ ^ 2 = Spec.normSq n f := by
    intro f hf
    unfold Spec.normSq
    rw [← sum_over_states_real hnd hsub rfl (fun S => Complex.normSq (f S)) (fun S hS hn => by
      rw [hf S (fun h => hn ((hmem S).2 h)), Complex.normSq_zero])]
    exact sum_congr rfl fun i _ => (Complex.normSq_eq_norm_sq _).symm
  have hz' : z'.im ≠ 0 := by rw [him]; exact hz
  obtain ⟨hM, hg⟩ := resolvent_isGreen hop hdict hh (r := r) hnd hsub hall (hcl cut) rfl (M cut) (fun _ _ => rfl) b
    (fun S hS hn => hb S (fun h => hn ((hmem S).2 h))) hz
  obtain ⟨hM', hg'⟩ := resolvent_isGreen hop hdict hh (r := r) hnd hsub hall (hcl 0) rfl (M 0) (fun _ _ => rfl) b'
    (fun S hS hn => hb' S (fun h => hn ((hmem S).2 h))) hz'
  refine ⟨_, isGreen_congr (fun x hx => hamiltonian_zero_cut n op r hx) hg', fun g h => ?_⟩
  rw [isGreen_unique h hg]
  refine resolvent_all_close hM hM' hz him (mul_nonneg (Nat.cast_nonneg _) (Real.sqrt_nonneg _)) ?_ (v b) (v b') ha0 ha0' hρ
    (by rw [hvs b hb]; exact ha) (by rw [hvs b' hb']; exact ha') ?_
  · intro j
    rw [show ∑ i, ‖M cut i j - M 0 i j‖ = ∑ S ∈ (range n).powerset, ‖column op cut r states[j.val] S - column op 0 r states[j.val] S‖ from
      sum_over_states_real hnd hsub rfl (fun S => ‖column op cut r states[j.val] S - column op 0 r states[j.val] S‖) (by
        intro S hS hn
        have hna : ¬ AllowedOpt r S := fun h => hn ((hmem S).2 ⟨hS, h⟩)
        unfold column
        rw [if_neg (fun h => hna h.1), if_neg (fun h => hna h.1), sub_zero, norm_zero])]
    exact dropped_column _ op r _
  · have := hvs (b - b') (fun S hS => by rw [Pi.sub_apply, hb S hS, hb' S hS, sub_zero])
    rw [← this] at hd
    exact hd

end

end Verif
