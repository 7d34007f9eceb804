/-
C85: thermal averages at low and high temperatures, and what leaving out states changes.
-/
import Verif.Model.AverageLocals
import Verif.Prop.Average
import Verif.Spec.Thermal
import Mathlib.Analysis.Normed.Module.Convex
import Mathlib.Analysis.SpecialFunctions.Log.Basic
import Mathlib.Topology.Algebra.Order.LiminfLimsup
import Mathlib.Algebra.BigOperators.Field

namespace Verif

open Spec

noncomputable section

theorem npMin_spec {es : List ℝ} {m : ℝ} (h : npMin es = .ok m) : m ∈ es ∧ ∀ e ∈ es, m ≤ e := by
  cases es with
  | nil => cases h
  | cons a l =>
    obtain rfl : l.foldl min a = m := by
      unfold npMin at h
      exact Except.ok.inj h
    clear h
    have key : ∀ (l : List ℝ) (a : ℝ), (l.foldl min a = a ∨ l.foldl min a ∈ l) ∧ l.foldl min a ≤ a ∧ ∀ e ∈ l, l.foldl min a ≤ e := by
      intro l
      induction l with
      | nil => intro a; simp
      | cons b l ih =>
        intro a
        obtain ⟨h1, h2, h3⟩ := ih (min a b)
        rw [List.foldl_cons]
        refine ⟨?_, h2.trans (min_le_left _ _), ?_⟩
        · rcases h1 with h1 | h1
          · rw [h1]
            rcases min_choice a b with h | h
            · exact Or.inl h
            · exact Or.inr (by rw [h]; exact List.mem_cons_self)
          · exact Or.inr (List.mem_cons_of_mem _ h1)
        · intro e he
          rcases List.mem_cons.1 he with rfl | he
          · exact h2.trans (min_le_right _ _)
          · exact h3 e he
    obtain ⟨h1, h2, h3⟩ := key l a
    refine ⟨?_, ?_⟩
    · rcases h1 with h1 | h1
      · rw [h1]; exact List.mem_cons_self
      · exact List.mem_cons_of_mem _ h1
    · intro e he
      rcases List.mem_cons.1 he with rfl | he
      · exact h2
      · exact h3 e he

theorem npMin_ok {es : List ℝ} (h : es ≠ []) : ∃ m, npMin es = .ok m := by
  cases es with
  | nil => exact absurd rfl h
  | cons a l => exact ⟨_, rfl⟩

theorem thermalExps_ok {kB T : ℝ} {es : List ℝ} {ws : List ℝ} (h : thermalExps kB es T = .ok ws) :
    ∃ m, npMin es = .ok m ∧ kB * T ≠ 0 ∧ ws = es.map fun e => Real.exp (-(e - m) / (kB * T)) := by
  unfold thermalExps at h
  cases hm : npMin es with
  | error e => rw [hm] at h; simp [bind, Except.bind] at h
  | ok m =>
    rw [hm] at h
    by_cases hT : kB * T = 0
    · simp [bind, Except.bind, hT, throw, throwThe, MonadExceptOf.throw] at h
    · simp only [bind, Except.bind, hT, if_false, pure, Except.pure] at h
      exact ⟨m, rfl, hT, (Except.ok.inj h).symm⟩

theorem foldl_add_sum {E : Type} [AddCommMonoid E] (l : List E) : l.foldl (· + ·) 0 = l.sum := by
  rw [List.sum_eq_foldl]

/-- `thermal_average` returns the local variable `o_average`. -/
theorem thermalLocals_average {E : Type} [AddCommGroup E] [Module ℝ E] (kB : ℝ) (es : List ℝ) (os : List E) (T : ℝ) :
    thermalAverage kB es os T = (thermalLocals kB es os T).map ThermalLocals.oAverage := by
  unfold thermalAverage thermalLocals thermalExps
  by_cases hlen : es.length = os.length
  · simp only [hlen, ne_eq, not_true_eq_false, if_false, bind, Except.bind, pure, Except.pure]
    cases hm : npMin es with
    | error e => rfl
    | ok m =>
      by_cases hT : kB * T = 0
      · simp [hT, throw, throwThe, MonadExceptOf.throw, Except.map]
      · simp only [hT, if_false, Except.map]
        have := thermal_fold m (kB * T) es os hlen 0 0
        rw [this]
        rw [foldl_add_sum, foldl_add_sum, zero_add, zero_add]
        have hw : ∀ e : ℝ, Real.exp (-(e - m) / (kB * T)) = Real.exp (m / (kB * T)) * Real.exp (-e / (kB * T)) := by
          intro e
          rw [← Real.exp_add]; congr 1; ring
        congr 1
        congr 1
        · rw [← List.sum_map_mul_left]
          simp only [hw]
        · rw [List.smul_sum, List.map_zipWith, List.zipWith_map_left]
          simp only [hw, smul_smul]
  · simp [hlen, bind, Except.bind, throw, throwThe, MonadExceptOf.throw, Except.map]

/-- C85, no overflow.  For `kT > 0` and any energies, all exponentials that are evaluated are at most one, one of them is one, their sum
is between one and the number of states, and the weights are probabilities. -/
theorem C85_no_overflow {E : Type} [AddCommGroup E] [Module ℝ E] {kB T : ℝ} (hT : 0 < kB * T) {es : List ℝ} {os : List E}
    {loc : ThermalLocals E} (h : thermalLocals kB es os T = .ok loc) :
    (∃ ws, thermalExps kB es T = .ok ws ∧ ws.length = es.length ∧ (∀ w ∈ ws, 0 < w ∧ w ≤ 1) ∧ 1 ∈ ws) ∧
      1 ≤ loc.z ∧ loc.z ≤ es.length ∧ loc.weights.length = es.length ∧ (∀ w ∈ loc.weights, 0 < w ∧ w ≤ 1) ∧
      loc.weights.sum = 1 := by
  unfold thermalLocals at h
  by_cases hlen : es.length = os.length
  · simp only [hlen, ne_eq, not_true_eq_false, if_false, bind, Except.bind, pure, Except.pure] at h
    cases hw : thermalExps kB es T with
    | error e => rw [hw] at h; cases h
    | ok ws =>
      rw [hw] at h
      obtain ⟨m, hm, -, hws⟩ := thermalExps_ok hw
      obtain ⟨hmem, hlow⟩ := npMin_spec hm
      obtain rfl := Except.ok.inj h
      have h1 : ∀ w ∈ ws, 0 < w ∧ w ≤ 1 := by
        intro w hw
        rw [hws] at hw
        obtain ⟨e, he, rfl⟩ := List.mem_map.1 hw
        refine ⟨Real.exp_pos _, Real.exp_le_one_iff.2 ?_⟩
        exact div_nonpos_of_nonpos_of_nonneg (by linarith [hlow e he]) hT.le
      have h2 : (1 : ℝ) ∈ ws := by
        rw [hws]
        exact List.mem_map.2 ⟨m, hmem, by rw [sub_self, neg_zero, zero_div, Real.exp_zero]⟩
      have hl : ws.length = es.length := by rw [hws, List.length_map]
      have h3 : 1 ≤ ws.sum := List.single_le_sum (fun w hw => (h1 w hw).1.le) 1 h2
      have h4 : ws.sum ≤ es.length := by
        rw [← hl]
        have := List.sum_le_card_nsmul ws 1 fun w hw => (h1 w hw).2
        simpa using this
      have hz : 0 < ws.sum := by linarith
      dsimp only
      rw [foldl_add_sum]
      refine ⟨⟨ws, rfl, hl, h1, h2⟩, h3, h4, by rw [List.length_map, hl], ?_, ?_⟩
      · intro w hw
        obtain ⟨u, hu, rfl⟩ := List.mem_map.1 hw
        exact ⟨div_pos (h1 u hu).1 hz, (div_le_one hz).2 ((h1 u hu).2.trans h3)⟩
      · simp only [div_eq_mul_inv]
        rw [List.sum_map_mul_right, List.map_id']
        exact mul_inv_cancel₀ hz.ne'
  · simp [hlen, bind, Except.bind, throw, throwThe, MonadExceptOf.throw] at h

/-- C85, leaving out states.  If every state that is left out is at least `cut` times `kT` above some state that is not, and
observables of two states differ by at most `D`, the average changes by at most `D exp(-cut)` for each state left out. -/
theorem C85_left_out {E : Type} [NormedAddCommGroup E] [NormedSpace ℝ E] {kB T : ℝ} (hT : 0 < kB * T) {es es' : List ℝ}
    {os os' : List E} (hl : es.length = os.length) (hl' : es'.length = os'.length) {low cut : ℝ} (hlow : low ∈ es)
    (hcut : ∀ e ∈ es', cut * (kB * T) ≤ e - low) {D : ℝ} (hD : ∀ o ∈ os, ∀ o' ∈ os', ‖o - o'‖ ≤ D) {r r' : E}
    (hr : thermalAverage kB es os T = .ok r) (hr' : thermalAverage kB (es ++ es') (os ++ os') T = .ok r') :
    ‖r - r'‖ ≤ es'.length * Real.exp (-cut) * D := by
  have hne : es ≠ [] := List.ne_nil_of_mem hlow
  obtain ⟨r₁, h1, hhull⟩ := C38_convex kB es os T hl hne hT.ne'
  rw [hr] at h1
  obtain rfl := Except.ok.inj h1
  rw [C38_boltzmann kB es os T hl hne hT.ne'] at hr
  rw [C38_boltzmann kB _ _ T (by simp [hl, hl']) (by simp [hne]) hT.ne'] at hr'
  have e1 := Except.ok.inj hr
  have e2 := Except.ok.inj hr'
  have hZ := partitionSum_pos kB es T hne
  have hZ' := partitionSum_pos kB (es ++ es') T (by simp [hne])
  have hp : partitionSum kB (es ++ es') T = partitionSum kB es T + partitionSum kB es' T := by
    unfold partitionSum
    rw [List.map_append, List.sum_append]
  have hb : boltzmannSum kB (es ++ es') (os ++ os') T = boltzmannSum kB es os T + boltzmannSum kB es' os' T := by
    unfold boltzmannSum
    rw [List.zipWith_append hl, List.sum_append]
  have hB : boltzmannSum kB es os T = partitionSum kB es T • r := by
    rw [← e1, smul_smul, mul_inv_cancel₀ hZ.ne', one_smul]
  -- every observable left out is close to the average of the others
  have hnear : ∀ o' ∈ os', ‖r - o'‖ ≤ D := by
    intro o' ho'
    have : convexHull ℝ {o | o ∈ os} ⊆ Metric.closedBall o' D :=
      convexHull_min (fun o ho => by rw [mem_closedBall_iff_norm]; exact hD o ho o' ho') (convex_closedBall _ _)
    have := this hhull
    rwa [mem_closedBall_iff_norm] at this
  have hsum : ∀ (es' : List ℝ) (os' : List E), es'.length = os'.length → (∀ o' ∈ os', ‖r - o'‖ ≤ D) →
      ‖partitionSum kB es' T • r - boltzmannSum kB es' os' T‖ ≤ partitionSum kB es' T * D := by
    intro es'
    induction es' with
    | nil => intro os' _ _; simp [partitionSum, boltzmannSum]
    | cons e es' ih =>
      intro os' hl hn
      cases os' with
      | nil => cases hl
      | cons o os' =>
        have := ih os' (by simpa using hl) fun o' ho' => hn o' (List.mem_cons_of_mem _ ho')
        have hs : partitionSum kB (e :: es') T = Real.exp (-e / (kB * T)) + partitionSum kB es' T := by
          simp [partitionSum]
        have hs' : boltzmannSum kB (e :: es') (o :: os') T = Real.exp (-e / (kB * T)) • o + boltzmannSum kB es' os' T := by
          simp [boltzmannSum]
        rw [hs, hs', show (Real.exp (-e / (kB * T)) + partitionSum kB es' T) • r
            - (Real.exp (-e / (kB * T)) • o + boltzmannSum kB es' os' T)
            = Real.exp (-e / (kB * T)) • (r - o) + (partitionSum kB es' T • r - boltzmannSum kB es' os' T) by
          rw [add_smul, smul_sub]; abel]
        refine (norm_add_le _ _).trans ?_
        rw [norm_smul, Real.norm_of_nonneg (Real.exp_pos _).le, add_mul]
        exact add_le_add (mul_le_mul_of_nonneg_left (hn o List.mem_cons_self) (Real.exp_pos _).le) this
  have hdiff : r - r' = (partitionSum kB (es ++ es') T)⁻¹ • (partitionSum kB es' T • r - boltzmannSum kB es' os' T) := by
    have h3 : partitionSum kB (es ++ es') T • r' = boltzmannSum kB (es ++ es') (os ++ os') T := by
      rw [← e2, smul_smul, mul_inv_cancel₀ hZ'.ne', one_smul]
    have h4 : partitionSum kB (es ++ es') T • (r - r') = partitionSum kB es' T • r - boltzmannSum kB es' os' T := by
      rw [smul_sub, h3, hb, hB, hp, add_smul]; abel
    rw [← h4, smul_smul, inv_mul_cancel₀ hZ'.ne', one_smul]
  by_cases hem : es' = []
  · subst hem
    have : os' = [] := List.length_eq_zero_iff.1 (by simpa using hl'.symm)
    subst this
    rw [hdiff]
    simp [partitionSum, boltzmannSum]
  have hD0 : 0 ≤ D := by
    obtain ⟨o', ho'⟩ := List.exists_mem_of_ne_nil os' (by
      intro h; rw [h] at hl'; exact hem (List.length_eq_zero_iff.1 hl'))
    exact (norm_nonneg _).trans (hnear o' ho')
  have hexp : Real.exp (-low / (kB * T)) ≤ partitionSum kB (es ++ es') T := by
    rw [hp]
    have h5 : Real.exp (-low / (kB * T)) ≤ partitionSum kB es T :=
      List.single_le_sum (by
        intro x hx
        obtain ⟨e, _, rfl⟩ := List.mem_map.1 hx
        exact (Real.exp_pos _).le) _ (List.mem_map.2 ⟨low, hlow, rfl⟩)
    linarith [partitionSum_pos kB es' T hem]
  have hsmall : partitionSum kB es' T ≤ es'.length * (Real.exp (-cut) * Real.exp (-low / (kB * T))) := by
    have := List.sum_le_card_nsmul (es'.map fun e => Real.exp (-e / (kB * T))) (Real.exp (-cut) * Real.exp (-low / (kB * T))) (by
      intro x hx
      obtain ⟨e, he, rfl⟩ := List.mem_map.1 hx
      rw [← Real.exp_add]
      refine Real.exp_le_exp.2 ?_
      have := hcut e he
      rw [show -cut + -low / (kB * T) = (-cut * (kB * T) + -low) / (kB * T) by
        rw [add_div, mul_div_cancel_right₀ _ hT.ne']]
      exact div_le_div_of_nonneg_right (by linarith) hT.le)
    rw [List.length_map, nsmul_eq_mul] at this
    exact this
  rw [hdiff, norm_smul, norm_inv, Real.norm_of_nonneg hZ'.le]
  calc (partitionSum kB (es ++ es') T)⁻¹ * ‖partitionSum kB es' T • r - boltzmannSum kB es' os' T‖
      ≤ (partitionSum kB (es ++ es') T)⁻¹ * (partitionSum kB es' T * D) :=
        mul_le_mul_of_nonneg_left (hsum es' os' hl' hnear) (inv_nonneg.2 hZ'.le)
    _ ≤ (partitionSum kB (es ++ es') T)⁻¹ * ((es'.length * (Real.exp (-cut) * partitionSum kB (es ++ es') T)) * D) := by
        refine mul_le_mul_of_nonneg_left (mul_le_mul_of_nonneg_right (hsmall.trans ?_) hD0) (inv_nonneg.2 hZ'.le)
        exact mul_le_mul_of_nonneg_left (mul_le_mul_of_nonneg_left hexp (Real.exp_pos _).le) (Nat.cast_nonneg _)
    _ = es'.length * Real.exp (-cut) * D := by
        field_simp

theorem thermal_equal {E : Type} [AddCommGroup E] [Module ℝ E] {kB T : ℝ} (hT : kB * T ≠ 0) {es : List ℝ} {os : List E}
    (hl : es.length = os.length) (hne : es ≠ []) {e : ℝ} (he : ∀ e' ∈ es, e' = e) :
    thermalAverage kB es os T = .ok (plainMean os) := by
  rw [C38_boltzmann kB es os T hl hne hT]
  have hrep : es = List.replicate os.length e := List.eq_replicate_iff.2 ⟨hl, he⟩
  rw [hrep]
  have hz : partitionSum kB (List.replicate os.length e) T = os.length * Real.exp (-e / (kB * T)) := by
    unfold partitionSum
    rw [List.map_replicate, List.sum_replicate, nsmul_eq_mul]
  have hb : ∀ os : List E, boltzmannSum kB (List.replicate os.length e) os T = Real.exp (-e / (kB * T)) • os.sum := by
    intro os
    unfold boltzmannSum
    induction os with
    | nil => simp
    | cons o os ih => rw [List.length_cons, List.replicate_succ, List.zipWith_cons_cons, List.sum_cons, ih, List.sum_cons, smul_add]
  rw [hz]
  unfold plainMean
  rw [hb, smul_smul, mul_inv, mul_assoc, inv_mul_cancel₀ (Real.exp_pos _).ne', mul_one]

/-- C85, low temperatures.  With `p` marking the states of the lowest energy and all others at least `gap` above, the average differs from
the plain mean over the states of lowest energy by at most `D exp(-gap/kT)` for each of the others. -/
theorem C85_cold {E : Type} [NormedAddCommGroup E] [NormedSpace ℝ E] {kB T : ℝ} (hT : 0 < kB * T) {es : List ℝ} {os : List E}
    (hl : es.length = os.length) {low gap : ℝ} (hlow : low ∈ es) (hgap : ∀ e ∈ es, e = low ∨ gap ≤ e - low) {D : ℝ}
    (hD : ∀ o ∈ os, ∀ o' ∈ os, ‖o - o'‖ ≤ D) {r : E} (hr : thermalAverage kB es os T = .ok r) :
    ‖r - plainMean (((es.zip os).filter fun p => decide (p.1 = low)).map Prod.snd)‖
      ≤ (es.filter fun e => decide (e ≠ low)).length * Real.exp (-(gap / (kB * T))) * D := by
  set a := (es.zip os).filter fun p => decide (p.1 = low) with ha
  set c := (es.zip os).filter fun p => !decide (p.1 = low) with hc
  have hperm : (a ++ c).Perm (es.zip os) := List.filter_append_perm _ _
  have hfst : (es.zip os).map Prod.fst = es := List.map_fst_zip (by omega)
  have hsnd : (es.zip os).map Prod.snd = os := List.map_snd_zip (by omega)
  have hmem : ∀ p ∈ es.zip os, p.1 ∈ es ∧ p.2 ∈ os := fun p hp => List.of_mem_zip hp
  have hzip : ∀ l : List (ℝ × E), (l.map Prod.fst).zip (l.map Prod.snd) = l := by
    intro l
    induction l with
    | nil => rfl
    | cons p l ih => rw [List.map_cons, List.map_cons, List.zip_cons_cons, ih]
  have hord : thermalAverage kB es os T = thermalAverage kB (a.map Prod.fst ++ c.map Prod.fst) (a.map Prod.snd ++ c.map Prod.snd) T := by
    refine C38_order kB es os T _ _ hl (by simp) ?_ hT.ne'
    rw [← List.map_append, ← List.map_append, hzip]
    exact hperm.symm
  rw [hord] at hr
  have hane : low ∈ a.map Prod.fst := by
    rw [← hfst] at hlow
    obtain ⟨p, hp, hpl⟩ := List.mem_map.1 hlow
    exact List.mem_map.2 ⟨p, List.mem_filter.2 ⟨hp, by simpa using hpl⟩, hpl⟩
  have hmean := thermal_equal (kB := kB) (T := T) hT.ne' (es := a.map Prod.fst) (os := a.map Prod.snd) (by simp)
    (List.ne_nil_of_mem hane) (e := low) (by
      intro e he
      obtain ⟨p, hp, rfl⟩ := List.mem_map.1 he
      simpa using (List.mem_filter.1 hp).2)
  have hcl : (c.map Prod.fst).length = (es.filter fun e => decide (e ≠ low)).length := by
    conv_rhs => rw [← hfst, List.filter_map, List.length_map]
    rw [List.length_map, hc]
    congr 1
    refine List.filter_congr fun p _ => ?_
    simp
  have key := C85_left_out hT (es := a.map Prod.fst) (os := a.map Prod.snd) (es' := c.map Prod.fst) (os' := c.map Prod.snd)
    (by simp) (by simp) (low := low) (cut := gap / (kB * T)) hane (by
      intro e he
      obtain ⟨p, hp, rfl⟩ := List.mem_map.1 he
      obtain ⟨h1, h2⟩ := List.mem_filter.1 hp
      rw [div_mul_cancel₀ _ hT.ne']
      rcases hgap p.1 (hmem p h1).1 with h | h
      · simp [h] at h2
      · exact h) (D := D) (by
      intro o ho o' ho'
      obtain ⟨p, hp, rfl⟩ := List.mem_map.1 ho
      obtain ⟨q, hq, rfl⟩ := List.mem_map.1 ho'
      exact hD _ (hmem p (List.mem_filter.1 hp).1).2 _ (hmem q (List.mem_filter.1 hq).1).2) hmean hr
  rw [norm_sub_rev, ← hcl]
  exact key

/-- C85, high temperatures.  With all energies within `width`, the average differs from the plain mean over all states
by at most `(exp(width/kT) - 1) D`. -/
theorem C85_hot {E : Type} [NormedAddCommGroup E] [NormedSpace ℝ E] {kB T : ℝ} (hT : 0 < kB * T) {es : List ℝ} {os : List E}
    (hl : es.length = os.length) (hne : es ≠ []) {width : ℝ} (hw : ∀ e ∈ es, ∀ e' ∈ es, e - e' ≤ width) {D : ℝ}
    (hD : ∀ o ∈ os, ∀ o' ∈ os, ‖o - o'‖ ≤ D) {r : E} (hr : thermalAverage kB es os T = .ok r) :
    ‖r - plainMean os‖ ≤ (Real.exp (width / (kB * T)) - 1) * D := by
  rw [C38_boltzmann kB es os T hl hne hT.ne'] at hr
  obtain rfl := Except.ok.inj hr
  obtain ⟨h1, h2⟩ := boltzmann_sums kB es os T hl
  have hZ := partitionSum_pos kB es T hne
  set Z := partitionSum kB es T with hZd
  set N := es.length with hN
  have hN0 : (0 : ℝ) < N := by exact_mod_cast List.length_pos_iff.2 hne
  set x := width / (kB * T) with hx
  -- each Boltzmann factor is within exp(±x) of the mean one
  have hratio : ∀ i j : Fin N, Real.exp (-es[i] / (kB * T)) ≤ Real.exp x * Real.exp (-es[j] / (kB * T)) := by
    intro i j
    rw [← Real.exp_add]
    refine Real.exp_le_exp.2 ?_
    rw [hx, ← add_div]
    exact div_le_div_of_nonneg_right (by linarith [hw es[j] (List.getElem_mem _) es[i] (List.getElem_mem _)]) hT.le
  have hup : ∀ i : Fin N, Z⁻¹ * Real.exp (-es[i] / (kB * T)) ≤ Real.exp x * (N : ℝ)⁻¹ := by
    intro i
    have h3 : N * Real.exp (-es[i] / (kB * T)) ≤ Real.exp x * Z := by
      rw [h1, Finset.mul_sum]
      calc (N : ℝ) * Real.exp (-es[i] / (kB * T)) = ∑ _j : Fin N, Real.exp (-es[i] / (kB * T)) := by simp
        _ ≤ _ := Finset.sum_le_sum fun j _ => hratio i j
    rw [inv_mul_le_iff₀ hZ, ← div_eq_mul_inv, ← mul_div_assoc, le_div_iff₀ hN0]
    linarith
  have hdn : ∀ i : Fin N, (N : ℝ)⁻¹ ≤ Real.exp x * (Z⁻¹ * Real.exp (-es[i] / (kB * T))) := by
    intro i
    have h3 : Z ≤ Real.exp x * (N * Real.exp (-es[i] / (kB * T))) := by
      rw [h1]
      calc _ ≤ ∑ _j : Fin N, Real.exp x * Real.exp (-es[i] / (kB * T)) := Finset.sum_le_sum fun j _ => hratio j i
        _ = _ := by simp; ring
    rw [inv_le_iff_one_le_mul₀ hN0]
    calc (1 : ℝ) = Z⁻¹ * Z := (inv_mul_cancel₀ hZ.ne').symm
      _ ≤ Z⁻¹ * (Real.exp x * (N * Real.exp (-es[i] / (kB * T)))) := mul_le_mul_of_nonneg_left h3 (inv_nonneg.2 hZ.le)
      _ = _ := by ring
  have hx0 : 1 ≤ Real.exp x := by
    refine Real.one_le_exp (div_nonneg ?_ hT.le)
    obtain ⟨e, he⟩ := List.exists_mem_of_ne_nil es hne
    linarith [hw e he e he]
  have habs : ∀ i : Fin N, |Z⁻¹ * Real.exp (-es[i] / (kB * T)) - (N : ℝ)⁻¹| ≤ (Real.exp x - 1) * (N : ℝ)⁻¹ := by
    intro i
    have hp : 0 < Z⁻¹ * Real.exp (-es[i] / (kB * T)) := mul_pos (inv_pos.2 hZ) (Real.exp_pos _)
    have hn : 0 < (N : ℝ)⁻¹ := inv_pos.2 hN0
    rw [abs_le]
    constructor
    · have := hdn i
      by_contra hcon
      rw [not_le] at hcon
      -- p < (2 - e^x)/N and 1/N ≤ e^x p
      nlinarith [mul_le_mul_of_nonneg_left hcon.le (Real.exp_pos x).le, sq_nonneg (Real.exp x - 1),
        mul_lt_mul_of_pos_left hcon (Real.exp_pos x), mul_nonneg (sq_nonneg (Real.exp x - 1)) hn.le]
    · linarith [hup i]
  have hsum1 : ∑ i : Fin N, Z⁻¹ * Real.exp (-es[i] / (kB * T)) = 1 := by
    rw [← Finset.mul_sum, ← h1, inv_mul_cancel₀ hZ.ne']
  have hos : os.sum = ∑ i : Fin N, os[i.1]'(hl ▸ i.2) := by
    conv_lhs => rw [← List.ofFn_getElem (xs := os)]
    rw [List.sum_ofFn]
    exact Fintype.sum_equiv (finCongr hl.symm) _ _ fun i => rfl
  obtain ⟨o0, ho0⟩ := List.exists_mem_of_ne_nil os (by
    rintro rfl; exact hne (List.length_eq_zero_iff.1 hl))
  have hdiff : Z⁻¹ • boltzmannSum kB es os T - plainMean os
      = ∑ i : Fin N, (Z⁻¹ * Real.exp (-es[i] / (kB * T)) - (N : ℝ)⁻¹) • (os[i.1]'(hl ▸ i.2) - o0) := by
    have hpm : plainMean os = (N : ℝ)⁻¹ • ∑ i : Fin N, os[i.1]'(hl ▸ i.2) := by
      unfold plainMean
      have hc : ((os.length : ℕ) : ℝ) = (N : ℝ) := by rw [hl]
      rw [hos, hc]
    rw [h2, hpm, Finset.smul_sum, Finset.smul_sum, ← Finset.sum_sub_distrib]
    simp only [smul_sub, Finset.sum_sub_distrib, ← Finset.sum_smul, hsum1, sub_smul, smul_smul]
    rw [show (∑ _i : Fin N, (N : ℝ)⁻¹) = 1 by simp [mul_inv_cancel₀ hN0.ne']]
    abel
  rw [hdiff]
  calc _ ≤ ∑ i : Fin N, ‖(Z⁻¹ * Real.exp (-es[i] / (kB * T)) - (N : ℝ)⁻¹) • (os[i.1]'(hl ▸ i.2) - o0)‖ := norm_sum_le _ _
    _ ≤ ∑ _i : Fin N, (Real.exp x - 1) * (N : ℝ)⁻¹ * D := by
        refine Finset.sum_le_sum fun i _ => ?_
        rw [norm_smul, Real.norm_eq_abs]
        exact mul_le_mul (habs i) (hD _ (List.getElem_mem _) _ ho0) (norm_nonneg _)
          (mul_nonneg (by linarith) (inv_nonneg.2 hN0.le))
    _ = (Real.exp x - 1) * D := by
        rw [Finset.sum_const, Finset.card_univ, Fintype.card_fin, nsmul_eq_mul]
        field_simp

/-- C85, the mean energy never falls when the temperature rises. -/
theorem C85_warmer {kB T T' : ℝ} (hk : 0 < kB) (hT : 0 < T) (hTT : T ≤ T') {es : List ℝ} {r r' : ℝ}
    (hr : thermalAverage kB es es T = .ok r) (hr' : thermalAverage kB es es T' = .ok r') : r ≤ r' := by
  have hne : es ≠ [] := by
    rintro rfl
    rw [(C38_raises kB [] ([] : List ℝ) T).2 (Or.inr rfl)] at hr
    cases hr
  have hT' : 0 < T' := hT.trans_le hTT
  rw [C38_boltzmann kB es es T rfl hne (mul_pos hk hT).ne'] at hr
  rw [C38_boltzmann kB es es T' rfl hne (mul_pos hk hT').ne'] at hr'
  obtain rfl := Except.ok.inj hr
  obtain rfl := Except.ok.inj hr'
  have hZ := partitionSum_pos kB es T hne
  have hZ' := partitionSum_pos kB es T' hne
  obtain ⟨h1, h2⟩ := boltzmann_sums kB es es T rfl
  obtain ⟨h1', h2'⟩ := boltzmann_sums kB es es T' rfl
  rw [smul_eq_mul, smul_eq_mul, inv_mul_eq_div, inv_mul_eq_div, div_le_div_iff₀ hZ hZ', h1, h2, h1', h2']
  simp only [smul_eq_mul]
  set w : Fin es.length → ℝ := fun i => Real.exp (-es[i] / (kB * T)) with hw
  set w' : Fin es.length → ℝ := fun i => Real.exp (-es[i] / (kB * T')) with hw'
  show (∑ i, w i * es[i]) * ∑ i, w' i ≤ (∑ i, w' i * es[i]) * ∑ i, w i
  -- twice the difference is a sum of terms that are not negative
  have hterm : ∀ i j : Fin es.length, 0 ≤ (w' i * w j - w i * w' j) * (es[i] - es[j]) := by
    intro i j
    have hkey : ∀ i j : Fin es.length, es[j] ≤ es[i] → w i * w' j ≤ w' i * w j := by
      intro i j hij
      rw [hw, hw', ← Real.exp_add, ← Real.exp_add]
      refine Real.exp_le_exp.2 ?_
      have hb : 1 / (kB * T') ≤ 1 / (kB * T) :=
        one_div_le_one_div_of_le (mul_pos hk hT) (mul_le_mul_of_nonneg_left hTT hk.le)
      have e1 : ∀ (a t : ℝ), -a / t = -(a * (1 / t)) := fun a t => by ring
      rw [e1, e1, e1, e1]
      nlinarith
    rcases le_total es[j] es[i] with h | h
    · exact mul_nonneg (sub_nonneg.2 (hkey i j h)) (sub_nonneg.2 h)
    · refine mul_nonneg_of_nonpos_of_nonpos (sub_nonpos.2 ?_) (sub_nonpos.2 h)
      have := hkey j i h
      linarith
  have hsum : 0 ≤ ∑ i, ∑ j, (w' i * w j - w i * w' j) * (es[i] - es[j]) :=
    Finset.sum_nonneg fun i _ => Finset.sum_nonneg fun j _ => hterm i j
  have hexp : ∑ i, ∑ j, (w' i * w j - w i * w' j) * (es[i] - es[j])
      = 2 * ((∑ i, w' i * es[i]) * ∑ i, w i - (∑ i, w i * es[i]) * ∑ i, w' i) := by
    have e : ∀ (f g : Fin es.length → ℝ), ∑ i, ∑ j, f i * g j = (∑ i, f i) * ∑ j, g j := fun f g =>
      (Finset.sum_mul_sum _ _ _ _).symm
    have hs : ∀ i j : Fin es.length, (w' i * w j - w i * w' j) * (es[i] - es[j])
        = (w' i * es[i]) * w j - (w i * es[i]) * w' j - w' i * (w j * es[j]) + w i * (w' j * es[j]) := by
      intro i j; ring
    simp only [hs, Finset.sum_add_distrib, Finset.sum_sub_distrib]
    rw [e, e, e, e]
    ring
  linarith

/-- Two states far below zero, where `exp(-e/kT)` itself would be huge. -/
example : ∃ loc, thermalLocals (1 / 11604) [-100000, -99999] [(1 : ℝ), 3] 300 = .ok loc ∧ 1 ≤ loc.z ∧ loc.z ≤ 2 ∧ loc.weights.sum = 1 := by
  have hT : (0 : ℝ) < 1 / 11604 * 300 := by norm_num
  obtain ⟨r, h, -⟩ := C38_bounds (1 / 11604) [-100000, -99999] 300 [1, 3] 1 3 rfl (by simp) hT.ne' (by
    intro o ho
    simp only [List.mem_cons, List.not_mem_nil, or_false] at ho
    rcases ho with rfl | rfl <;> norm_num)
  rw [thermalLocals_average] at h
  cases hl : thermalLocals (1 / 11604) [-100000, -99999] [(1 : ℝ), 3] 300 with
  | error e => rw [hl] at h; cases h
  | ok loc =>
    obtain ⟨-, h1, h2, -, -, h3⟩ := C85_no_overflow hT hl
    exact ⟨loc, rfl, h1, by simpa using h2, h3⟩

/-- Two states at 0 and one at 1, with the values 1, 3 and 5: close to 2 at low and to 3 at high temperatures. -/
example {T : ℝ} (hT : 0 < T) : ∃ r, thermalAverage 1 [0, 1, 0] [(1 : ℝ), 5, 3] T = .ok r ∧ |r - 2| ≤ Real.exp (-(1 / T)) * 4 ∧
    |r - 3| ≤ (Real.exp (1 / T) - 1) * 4 := by
  have h1 : 0 < 1 * T := by rwa [one_mul]
  have hD : ∀ o ∈ [(1 : ℝ), 5, 3], ∀ o' ∈ [(1 : ℝ), 5, 3], ‖o - o'‖ ≤ 4 := by
    intro o ho o' ho'
    simp only [List.mem_cons, List.not_mem_nil, or_false] at ho ho'
    rcases ho with rfl | rfl | rfl <;> rcases ho' with rfl | rfl | rfl <;> rw [Real.norm_eq_abs, abs_le] <;> norm_num
  obtain ⟨r, h, -⟩ := C38_bounds 1 [0, 1, 0] T [1, 5, 3] 1 5 rfl (by simp) h1.ne' (by
    intro o ho
    simp only [List.mem_cons, List.not_mem_nil, or_false] at ho
    rcases ho with rfl | rfl | rfl <;> norm_num)
  refine ⟨r, h, ?_, ?_⟩
  · have := C85_cold h1 (es := [0, 1, 0]) (os := [(1 : ℝ), 5, 3]) rfl (low := 0) (gap := 1) (by simp) (by
      intro e he
      simp only [List.mem_cons, List.not_mem_nil, or_false] at he
      rcases he with rfl | rfl | rfl <;> norm_num) hD h
    norm_num [plainMean, List.filter, List.zip] at this
    rw [one_div]
    exact this
  · have := C85_hot h1 (es := [0, 1, 0]) (os := [(1 : ℝ), 5, 3]) rfl (by simp) (width := 1) (by
      intro e he e' he'
      simp only [List.mem_cons, List.not_mem_nil, or_false] at he he'
      rcases he with rfl | rfl | rfl <;> rcases he' with rfl | rfl | rfl <;> norm_num) hD h
    norm_num [plainMean] at this
    rw [one_div]
    exact this

/-- A warmer system with two states has a higher mean energy. -/
example : ∃ r r', thermalAverage 1 [0, 1] [(0 : ℝ), 1] 1 = .ok r ∧ thermalAverage 1 [0, 1] [(0 : ℝ), 1] 2 = .ok r' ∧ r ≤ r' := by
  have hb : ∀ o ∈ [(0 : ℝ), 1], 0 ≤ o ∧ o ≤ 1 := by
    intro o ho
    simp only [List.mem_cons, List.not_mem_nil, or_false] at ho
    rcases ho with rfl | rfl <;> norm_num
  obtain ⟨r, h, -⟩ := C38_bounds 1 [0, 1] 1 [0, 1] 0 1 rfl (by simp) (by norm_num) hb
  obtain ⟨r', h', -⟩ := C38_bounds 1 [0, 1] 2 [0, 1] 0 1 rfl (by simp) (by norm_num) hb
  exact ⟨r, r', h, h', C85_warmer one_pos one_pos one_le_two h h'⟩

end

end Verif
