/-
C105: spin and orbital moments stay within their limits.
-/
import Verif.Lemmas.Ladder
import Verif.Prop.PrintedText

namespace Verif

open Spec Finset Psr Mpi

noncomputable section

/-! ### any state -/

theorem possible_spin {n : ℕ} {f : Label → ℕ} (hf : ∀ x ∈ shell 2, f (.imp 2 x.1 x.2) < n)
    (hinj : ∀ x ∈ shell 2, ∀ y ∈ shell 2, f (.imp 2 x.1 x.2) = f (.imp 2 y.1 y.2) → x = y) (v : Vec ℂ) {sq z : ℝ}
    (h1 : (sq : ℂ) = Spec.expect n (squareOf (oneBody f 2 (spinOp sZ)) (oneBody f 2 (spinOp sPlus)) (oneBody f 2 (spinOp sMinus))) v)
    (h2 : (z : ℂ) = Spec.expect n (oneBody f 2 (spinOp sZ)) v) :
    Possible sMax (fun g => diagonalValue n g v) (occupiedSum f fun _ => 1) sq z := by
  have hL := ladder_spin hf hinj
  obtain ⟨e1, e2⟩ := squareOf_ladder hL spin_diag v
  have d1 := Complex.ofReal_injective (h1.trans e1)
  have d2 := Complex.ofReal_injective (h2.trans e2)
  rw [d1, d2]
  exact hL.possible (fun F _ => spin_limit F) v

theorem possible_orb {n : ℕ} {f : Label → ℕ} (hf : ∀ x ∈ shell 2, f (.imp 2 x.1 x.2) < n)
    (hinj : ∀ x ∈ shell 2, ∀ y ∈ shell 2, f (.imp 2 x.1 x.2) = f (.imp 2 y.1 y.2) → x = y) (v : Vec ℂ) {sq z : ℝ}
    (h1 : (sq : ℂ) = Spec.expect n (squareOf (oneBody f 2 (orbOp lZ)) (oneBody f 2 (orbOp (lPlus 2))) (oneBody f 2 (orbOp (lMinus 2)))) v)
    (h2 : (z : ℂ) = Spec.expect n (oneBody f 2 (orbOp lZ)) v) :
    Possible lMax (fun g => diagonalValue n g v) (occupiedSum f fun _ => 1) sq z := by
  have hL := ladder_orb hf hinj
  obtain ⟨e1, e2⟩ := squareOf_ladder hL orb_diag v
  have d1 := Complex.ofReal_injective (h1.trans e1)
  have d2 := Complex.ofReal_injective (h2.trans e2)
  rw [d1, d2]
  exact hL.possible (fun F _ => orb_limit F) v

theorem count_range (f : Label → ℕ) (F : Finset ℕ) :
    0 ≤ occupiedSum f (fun _ => 1) F ∧ occupiedSum f (fun _ => 1) F ≤ 10 := by
  constructor
  · exact sum_nonneg fun x _ => by split <;> norm_num
  · refine (occupiedSum_le (f := f) (fun _ => 1) F).trans ?_
    rw [shell_sum_two fun _ _ => max 1 0]
    norm_num

theorem sMax_le {N : ℝ} (h0 : 0 ≤ N) (h1 : N ≤ 10) : 0 ≤ sMax N ∧ sMax N ≤ 5 / 2 := by
  unfold sMax
  rcases min_cases N (10 - N) with ⟨e, h⟩ | ⟨e, h⟩ <;> rw [e] <;> constructor <;> linarith

theorem lMax_le {N : ℝ} (h0 : 0 ≤ N) (h1 : N ≤ 10) : 0 ≤ lMax N ∧ lMax N ≤ 6 := by
  unfold lMax
  constructor
  · simp only [le_min_iff]
    refine ⟨⟨?_, ?_⟩, ?_, ?_, ?_⟩ <;> linarith
  · exact (min_le_right _ _).trans (min_le_left _ _)

theorem square_mono {a b : ℝ} (h0 : 0 ≤ a) (h : a ≤ b) : Spec.square a ≤ Spec.square b := by
  unfold Spec.square
  nlinarith

/-- The limit for all numbers of electrons. -/
theorem Spec.Possible.overall {max : ℝ → ℝ} {n : ℕ} {v : Vec ℂ} {t : Finset ℕ → ℝ} {sq z j : ℝ}
    (h : Possible max (fun g => diagonalValue n g v) t sq z) (ht : ∀ F, 0 ≤ t F ∧ t F ≤ 10)
    (hj : ∀ N, 0 ≤ N → N ≤ 10 → 0 ≤ max N ∧ max N ≤ j) :
    sq ≤ Spec.square j * Spec.normSq n v ∧ |z| ≤ j * Spec.normSq n v := by
  constructor
  · refine h.square.trans ?_
    unfold diagonalValue Spec.normSq
    rw [mul_sum]
    refine sum_le_sum fun F _ => mul_le_mul_of_nonneg_right ?_ (Complex.normSq_nonneg _)
    obtain ⟨a, b⟩ := hj _ (ht F).1 (ht F).2
    exact square_mono a b
  · refine h.limit.trans ?_
    unfold diagonalValue Spec.normSq
    rw [mul_sum]
    exact sum_le_sum fun F _ => mul_le_mul_of_nonneg_right (hj _ (ht F).1 (ht F).2).2 (Complex.normSq_nonneg _)

theorem Spec.Possible.allowed {max : ℝ → ℝ} {n : ℕ} {v : Vec ℂ} {t : Finset ℕ → ℝ} {sq z j : ℝ} (hv : Spec.normSq n v ≤ 1) (hj0 : 0 ≤ j)
    (h : Possible max (fun g => diagonalValue n g v) t sq z) (ht : ∀ F, 0 ≤ t F ∧ t F ≤ 10)
    (hj : ∀ N, 0 ≤ N → N ≤ 10 → 0 ≤ max N ∧ max N ≤ j) : AllowedMoment j sq z := by
  obtain ⟨h1, h2⟩ := h.overall ht hj
  have w0 := normSq_nonneg n v
  have one : diagonalValue n (fun _ => 1) v = Spec.normSq n v := by
    unfold diagonalValue Spec.normSq; simp only [one_mul]
  have hc := h.component
  beta_reduce at hc
  rw [one] at hc
  have hs : 0 ≤ Spec.square j := mul_nonneg hj0 (by linarith)
  refine ⟨?_, h1.trans (by nlinarith)⟩
  rcases eq_or_lt_of_le w0 with e | hpos
  · rw [← e, mul_zero] at h2
    have : |z| = 0 := le_antisymm h2 (abs_nonneg _)
    rw [this, zero_mul]
    exact h.nonneg
  · have a0 := abs_nonneg z
    have : |z| * (|z| + 1) * Spec.normSq n v ≤ sq * Spec.normSq n v := by nlinarith [mul_nonneg a0 a0]
    exact le_of_mul_le_mul_right this hpos

/-! ### the functions -/

section
variable (nBaths : Dict ℕ ℕ) (hn : Dict.NodupKeys nBaths) (hl : 2 ∈ Dict.keys nBaths)
  (psi : Psi ℂ) (hpsi : IsState (nSpinOrbitals nBaths) psi)
include hn hl hpsi

/-- C105, any state: the squares and z components of spin and orbital momentum that are returned are possible for the numbers
of d electrons in the state. -/
theorem C105_moments : ∃ s2 sz l2 lz, getSsqr3d nBaths psi = .ok s2 ∧ getSz3d nBaths psi = .ok sz ∧
    getLsqr3d nBaths psi = .ok l2 ∧ getLz3d nBaths psi = .ok lz ∧
    Possible sMax (fun g => diagonalValue (nSpinOrbitals nBaths) g (ampl (nSpinOrbitals nBaths) psi)) (shellCount nBaths 2) s2 sz ∧
    Possible lMax (fun g => diagonalValue (nSpinOrbitals nBaths) g (ampl (nSpinOrbitals nBaths) psi)) (shellCount nBaths 2) l2 lz := by
  have hf : ∀ x ∈ shell 2, pos nBaths (.imp 2 x.1 x.2) < nSpinOrbitals nBaths := fun x hx => pos_lt hn hl hx
  have hinj : ∀ x ∈ shell 2, ∀ y ∈ shell 2, pos nBaths (.imp 2 x.1 x.2) = pos nBaths (.imp 2 y.1 y.2) → x = y :=
    fun x hx y hy => pos_inj hn hl hx hy
  obtain ⟨⟨lz, _, g1, a1, i1⟩, sz, _, g2, a2, i2⟩ := C34_expectation nBaths hn hl psi hpsi
  obtain ⟨s2, z, p, mp, zz, s1, s3, s4, s5, s6, s7⟩ := C35_squares nBaths hn hl psi hpsi
    getSsqr3d applySz3d applySplus3d applySminus3d (by simp)
  obtain ⟨l2, z', p', mp', zz', l1, l3, l4, l5, l6, l7⟩ := C35_squares nBaths hn hl psi hpsi
    getLsqr3d applyLz3d applyLplus3d applyLminus3d (by simp)
  refine ⟨s2, sz, l2, lz, s1, g2, l1, g1, possible_spin hf hinj _ ?_ ?_, possible_orb hf hinj _ ?_ ?_⟩
  · obtain ⟨_, c1, t1, r1⟩ := applySz3d_spec hn hl hpsi
    rw [s3] at c1; cases c1
    obtain ⟨_, c2, t2, r2⟩ := applySz3d_spec hn hl t1
    rw [s4] at c2; cases c2
    obtain ⟨_, c3, t3, r3⟩ := applySplus3d_spec hn hl hpsi
    rw [s5] at c3; cases c3
    obtain ⟨_, c4, t4, r4⟩ := applySminus3d_spec hn hl t3
    rw [s6] at c4; cases c4
    rw [s7, inner_eq t4, inner_eq t2, inner_eq t1, r4, r3, r2, r1]
    unfold Spec.expect squareOf innerProduct
    rw [← sum_add_distrib, ← sum_add_distrib]
    exact sum_congr rfl fun F _ => by ring
  · obtain ⟨_, c1, t1, r1⟩ := applySz3d_spec hn hl hpsi
    rw [a2] at c1; cases c1
    rw [← i2, inner_eq t1, r1]
    rfl
  · obtain ⟨_, c1, t1, r1⟩ := applyLz3d_spec hn hl hpsi
    rw [l3] at c1; cases c1
    obtain ⟨_, c2, t2, r2⟩ := applyLz3d_spec hn hl t1
    rw [l4] at c2; cases c2
    obtain ⟨_, c3, t3, r3⟩ := applyLplus3d_spec hn hl hpsi
    rw [l5] at c3; cases c3
    obtain ⟨_, c4, t4, r4⟩ := applyLminus3d_spec hn hl t3
    rw [l6] at c4; cases c4
    rw [l7, inner_eq t4, inner_eq t2, inner_eq t1, r4, r3, r2, r1]
    unfold Spec.expect squareOf innerProduct
    rw [← sum_add_distrib, ← sum_add_distrib]
    exact sum_congr rfl fun F _ => by ring
  · obtain ⟨_, c1, t1, r1⟩ := applyLz3d_spec hn hl hpsi
    rw [a1] at c1; cases c1
    rw [← i1, inner_eq t1, r1]
    rfl

/-- C105, a state with a given number of d electrons: its mean spin and orbital momentum are at most the largest of that
number of electrons. -/
theorem C105_fixed (N : ℕ) (hN : ∀ F ⊆ range (nSpinOrbitals nBaths), ampl (nSpinOrbitals nBaths) psi F ≠ 0 → shellCount nBaths 2 F = N) :
    ∃ s2 sz l2 lz, getSsqr3d nBaths psi = .ok s2 ∧ getSz3d nBaths psi = .ok sz ∧
      getLsqr3d nBaths psi = .ok l2 ∧ getLz3d nBaths psi = .ok lz ∧
      s2 ≤ Spec.square (sMax N) * norm2 psi ∧ |sz| ≤ sMax N * norm2 psi ∧
      l2 ≤ Spec.square (lMax N) * norm2 psi ∧ |lz| ≤ lMax N * norm2 psi := by
  obtain ⟨s2, sz, l2, lz, h1, h2, h3, h4, hS, hL⟩ := C105_moments nBaths hn hl psi hpsi
  have key : ∀ g : ℝ → ℝ, diagonalValue (nSpinOrbitals nBaths) (fun F => g (shellCount nBaths 2 F)) (ampl (nSpinOrbitals nBaths) psi)
      = g N * norm2 psi := by
    intro g
    rw [show (norm2 psi : ℝ) = _ from norm2_eq hpsi]
    unfold diagonalValue
    change _ = g N * Spec.normSq _ _
    unfold Spec.normSq
    rw [mul_sum]
    refine sum_congr rfl fun F hF => ?_
    by_cases h0 : ampl (nSpinOrbitals nBaths) psi F = 0
    · rw [h0]; simp
    · beta_reduce
      rw [hN F (mem_powerset.1 hF) h0]
  refine ⟨s2, sz, l2, lz, h1, h2, h3, h4, ?_, ?_, ?_, ?_⟩
  · exact hS.square.trans (le_of_eq (key fun x => Spec.square (sMax x)))
  · exact hS.limit.trans (le_of_eq (key sMax))
  · exact hL.square.trans (le_of_eq (key fun x => Spec.square (lMax x)))
  · exact hL.limit.trans (le_of_eq (key lMax))

end

/-! ### main -/

theorem RowMeans.allowed {n : ℕ} {f : Label → ℕ} (hf : ∀ x ∈ shell 2, f (.imp 2 x.1 x.2) < n)
    (hinj : ∀ x ∈ shell 2, ∀ y ∈ shell 2, f (.imp 2 x.1 x.2) = f (.imp 2 y.1 y.2) → x = y) {v : Vec ℂ} (hv : Spec.normSq n v ≤ 1)
    {row : ExpRow} (h : RowMeans n f v row) : AllowedMoment (5 / 2) row.ssqr row.sz ∧ AllowedMoment 6 row.lsqr row.lz :=
  ⟨(possible_spin hf hinj v h.ssqr h.sz).allowed hv (by norm_num) (count_range f) fun _ => sMax_le,
    (possible_orb hf hinj v h.lsqr h.lz).allowed hv (by norm_num) (count_range f) fun _ => lMax_le⟩

/-- Averages of allowed moments are allowed. -/
theorem allowed_mean {j kB T window e0 : ℝ} (hj : 0 ≤ j) (es : List ℝ) (sq z : ℕ → ℝ) (h : ∀ i < es.length, AllowedMoment j (sq i) (z i)) :
    AllowedMoment j (thermalMean kB T window e0 es sq) (thermalMean kB T window e0 es z) := by
  have hs : 0 ≤ Spec.square j := mul_nonneg hj (by linarith)
  obtain ⟨p, hp0, hp1, hm⟩ : ∃ p : ℕ → ℝ, (∀ i, 0 ≤ p i) ∧ ∑ i ∈ range es.length, p i ≤ 1 ∧
      ∀ x : ℕ → ℝ, thermalMean kB T window e0 es x = ∑ i ∈ range es.length, p i * x i := by
    refine ⟨fun i => (∑ i ∈ range es.length, if es.getD i 0 - e0 < window then Real.exp (-es.getD i 0 / (kB * T)) else 0)⁻¹
      * (if es.getD i 0 - e0 < window then Real.exp (-es.getD i 0 / (kB * T)) else 0), fun i => ?_, ?_, fun x => ?_⟩
    · have : ∀ i, 0 ≤ (if es.getD i 0 - e0 < window then Real.exp (-es.getD i 0 / (kB * T)) else 0) := fun i => by
        split
        · exact (Real.exp_pos _).le
        · exact le_rfl
      exact mul_nonneg (inv_nonneg.2 (sum_nonneg fun i _ => this i)) (this i)
    · rw [← mul_sum]
      by_cases h0 : (∑ i ∈ range es.length, if es.getD i 0 - e0 < window then Real.exp (-es.getD i 0 / (kB * T)) else 0) = 0
      · rw [h0, mul_zero]; norm_num
      · rw [inv_mul_cancel₀ h0]
    · unfold thermalMean
      rw [smul_eq_mul, mul_sum]
      refine sum_congr rfl fun i _ => ?_
      rw [mul_assoc, ite_mul, zero_mul]
      rfl
  rw [hm, hm]
  have a1 : |∑ i ∈ range es.length, p i * z i| ≤ ∑ i ∈ range es.length, p i * |z i| := by
    refine (abs_sum_le_sum_abs _ _).trans (le_of_eq (sum_congr rfl fun i _ => ?_))
    rw [abs_mul, abs_of_nonneg (hp0 i)]
  have a2 : (∑ i ∈ range es.length, p i * |z i|) ^ 2 ≤ ∑ i ∈ range es.length, p i * |z i| ^ 2 := by
    have cs := sum_mul_sq_le_sq_mul_sq (range es.length) (fun i => Real.sqrt (p i)) fun i => Real.sqrt (p i) * |z i|
    have e1 : ∀ i, Real.sqrt (p i) * (Real.sqrt (p i) * |z i|) = p i * |z i| := fun i => by
      rw [← mul_assoc, Real.mul_self_sqrt (hp0 i)]
    have e2 : ∀ i, (Real.sqrt (p i) * |z i|) ^ 2 = p i * |z i| ^ 2 := fun i => by rw [mul_pow, Real.sq_sqrt (hp0 i)]
    have e3 : ∀ i, Real.sqrt (p i) ^ 2 = p i := fun i => Real.sq_sqrt (hp0 i)
    simp only [e1, e2, e3] at cs
    have : 0 ≤ ∑ i ∈ range es.length, p i * |z i| ^ 2 := sum_nonneg fun i _ => mul_nonneg (hp0 i) (sq_nonneg _)
    nlinarith
  constructor
  · have a3 : ∑ i ∈ range es.length, p i * |z i| ^ 2 + ∑ i ∈ range es.length, p i * |z i| ≤ ∑ i ∈ range es.length, p i * sq i := by
      rw [← sum_add_distrib]
      refine sum_le_sum fun i hi => ?_
      rw [← mul_add]
      exact mul_le_mul_of_nonneg_left ((le_of_eq (by ring)).trans (h i (mem_range.1 hi)).1) (hp0 i)
    have a0 := abs_nonneg (∑ i ∈ range es.length, p i * z i)
    nlinarith
  · have : ∑ i ∈ range es.length, p i * sq i ≤ ∑ i ∈ range es.length, p i * Spec.square j :=
      sum_le_sum fun i hi => mul_le_mul_of_nonneg_left (h i (mem_range.1 hi)).2 (hp0 i)
    rw [← sum_mul] at this
    nlinarith

section
variable {L : MainLib} {A : MainArgs} (hA : A.Valid) (hG : GauntLarge L.gaunt A.ls) {N : ℕ} (hN : 0 < N)
  {ord : Fin N → ℕ → ℕ → ℕ → SetOrders} (hord : ∀ k c t i, (ord k c t i).Valid)
  {ordRixs : Fin N → List ℕ → SetOrders} (hordR : ∀ k l, (ordRixs k l).Valid) {out : Fin N → Option MainOutput}
  (hfin : CanFinish msgSum (fun k : Fin N => mainRank L A (ord k) (ordRixs k) k.val N) out)
  {o : MainOutput} (ho : out ⟨0, hN⟩ = some o)
  (hL : SolverCorrect L.solver) {b : ℕ → ℕ} {P : BasisParams} {hx hy hz : ℝ} {h0 : Op Label ℂ}
  (hD : Documented A b P hx hy hz h0)

include hA hG hord hordR hfin ho hL hD in
/-- C105, `main`: in a finished run, the printed spin of every eigenstate is at most that of five parallel spins, the printed
orbital momentum at most six, no z component is longer than its vector, and the same holds for the averages
at 300 K. -/
theorem C105_main : (∀ row ∈ o.expValues.2, AllowedMoment (5 / 2) row.ssqr row.sz ∧ AllowedMoment 6 row.lsqr row.lz) ∧
    AllowedMoment (5 / 2) o.thermal.ssqr o.thermal.sz ∧ AllowedMoment 6 o.thermal.lsqr o.thermal.lz := by
  obtain ⟨psis, S, hrun, hp, -⟩ := C66_printed hA hG hN hord hordR hfin ho hL hD
  obtain ⟨hasc, hlen, x, x1, -, -, x2⟩ := hrun.lowest
  have hn : Dict.NodupKeys [(1, b 1), (2, b 2)] := nodup_documented b
  have hl : 2 ∈ Dict.keys [(1, b 1), (2, b 2)] := by simp [Dict.keys]
  have hsz : nSpinOrbitals [(1, b 1), (2, b 2)] = nTotal (pdSystem b) := by rw [nSpinOrbitals_eq]; rfl
  have hnorm : ∀ i < psis.length, Spec.normSq (nTotal (pdSystem b)) (ampl (nTotal (pdSystem b)) (psis.getD i [])) ≤ 1 := by
    intro i hi'
    simp only [List.getD_eq_getElem _ _ hi']
    have h1 := x1 i (by omega) i (by omega)
    rw [if_pos rfl] at h1
    have hsq : ∀ z : ℂ, (star z * z).re = Complex.normSq z := by
      intro z
      have := congrArg Complex.re (Complex.normSq_eq_conj_mul_self (z := z))
      rw [Complex.ofReal_re] at this
      exact this.symm
    have h2 := congrArg Complex.re h1
    rw [Complex.re_sum, sum_filter, Complex.one_re] at h2
    rw [← h2]
    unfold Spec.normSq
    refine sum_le_sum fun F hF => ?_
    rw [(x2 i hi').2 F, hsq]
    by_cases hc : IsConfiguration [(1, b 1), (2, b 2)] (pdSystem b) P F
    · rw [if_pos hc]
      split
      · exact le_rfl
      · simp [Complex.normSq_nonneg]
    · rw [if_neg hc, if_neg (by simp [hc])]
      simp
  have hrow : ∀ i (hi : i < o.expValues.2.length),
      AllowedMoment (5 / 2) o.expValues.2[i].ssqr o.expValues.2[i].sz ∧ AllowedMoment 6 o.expValues.2[i].lsqr o.expValues.2[i].lz := by
    intro i hi
    have hc := hp.count
    refine RowMeans.allowed ?_ ?_ (hnorm i (by omega)) (hp.table i hi).2
    · intro q hq
      have := pos_lt hn hl hq
      rw [hsz] at this
      exact this
    · intro q hq q' hq' e
      exact pos_inj hn hl hq hq' e
  refine ⟨fun row hr => ?_, ?_, ?_⟩
  · obtain ⟨i, hi, rfl⟩ := List.getElem_of_mem hr
    exact hrow i hi
  · rw [hp.ssqr, hp.sz]
    refine allowed_mean (by norm_num) _ _ _ fun i hi => ?_
    have hi' : i < o.expValues.2.length := by rw [hp.count]; exact hi
    rw [List.getD_eq_getElem _ _ (by rw [List.length_map]; exact hi'), List.getD_eq_getElem _ _ (by rw [List.length_map]; exact hi'),
      List.getElem_map, List.getElem_map]
    exact (hrow i hi').1
  · rw [hp.lsqr, hp.lz]
    refine allowed_mean (by norm_num) _ _ _ fun i hi => ?_
    have hi' : i < o.expValues.2.length := by rw [hp.count]; exact hi
    rw [List.getD_eq_getElem _ _ (by rw [List.length_map]; exact hi'), List.getD_eq_getElem _ _ (by rw [List.length_map]; exact hi'),
      List.getElem_map, List.getElem_map]
    exact (hrow i hi').2

end

/-! ### Non-vacuity -/

/-- The hypotheses of `C105_moments` are met. -/
example : ∃ s2 sz, getSsqr3d exObsBaths exObsPsi = .ok s2 ∧ getSz3d exObsBaths exObsPsi = .ok sz ∧
    |sz| * (|sz| + diagonalValue 11 (fun _ => 1) (ampl 11 exObsPsi)) ≤ s2 * diagonalValue 11 (fun _ => 1) (ampl 11 exObsPsi) := by
  have h : nSpinOrbitals exObsBaths = 11 := by decide
  obtain ⟨s2, sz, _, _, h1, h2, -, -, hS, -⟩ := C105_moments exObsBaths exObsBaths_nodup exObsBaths_mem exObsPsi exObsPsi_state
  rw [h] at hS
  exact ⟨s2, sz, h1, h2, hS.component⟩

/-- The hypotheses of `C105_fixed` are met: one d electron has at most spin 1/2 and orbital momentum 2. -/
example : ∃ s2 l2, getSsqr3d exObsBaths [(encBytes 11 {0}, 1)] = .ok s2 ∧ getLsqr3d exObsBaths [(encBytes 11 {0}, 1)] = .ok l2 ∧
    s2 ≤ 3 / 4 ∧ l2 ≤ 6 := by
  have h : nSpinOrbitals exObsBaths = 11 := by decide
  have hs : ({0} : Finset ℕ) ⊆ range 11 := by decide
  have hst : IsState (nSpinOrbitals exObsBaths) [(encBytes 11 {0}, (1 : ℂ))] := by
    rw [h]; exact isState_single hs 1
  have h1 : (norm2 [(encBytes 11 {0}, (1 : ℂ))] : ℝ) = 1 := by
    simp only [norm2, List.map_cons, List.map_nil, List.sum_cons, List.sum_nil, add_zero]
    exact Complex.normSq_one
  obtain ⟨s2, sz, l2, lz, e1, -, e2, -, b1, -, b2, -⟩ := C105_fixed exObsBaths exObsBaths_nodup exObsBaths_mem _ hst 1 (by
    intro F hF hne
    rw [h, ampl_single hs 1] at hne
    have : F = {0} := by
      by_contra hF'
      exact hne (by unfold single; rw [if_neg hF'])
    rw [this]
    unfold shellCount
    rw [shell_sum_two fun s m => if position (intKeys exObsBaths) (.imp 2 s m) ∈ ({0} : Finset ℕ) then 1 else 0]
    rw [if_pos (by decide +kernel), if_neg (by decide +kernel), if_neg (by decide +kernel), if_neg (by decide +kernel),
      if_neg (by decide +kernel), if_neg (by decide +kernel), if_neg (by decide +kernel), if_neg (by decide +kernel),
      if_neg (by decide +kernel), if_neg (by decide +kernel)]
    norm_num)
  refine ⟨s2, l2, e1, e2, b1.trans (le_of_eq ?_), b2.trans (le_of_eq ?_)⟩
  · rw [h1]; unfold Spec.square sMax; norm_num
  · rw [h1]; unfold Spec.square lMax; norm_num

/-- The hypotheses of `C105_main` are met: three ranks, any temperature. -/
example (sphHarm : SphHarm) (jn : SphericalJn) (T : ℝ) (hT : 0 < T) (radial : List (ℝ × ℝ)) :
    ∃ o : MainOutput, 0 < o.expValues.2.length ∧
      (∀ row ∈ o.expValues.2, AllowedMoment (5 / 2) row.ssqr row.sz ∧ AllowedMoment 6 row.lsqr row.lz) := by
  obtain ⟨solver, hS, htot⟩ := exists_solver
  obtain ⟨o, ho⟩ := C64_example hS htot sphHarm jn one_pos hT radial
  have h1 := (ho 3 (by decide) (fun _ _ _ _ => holeOrders) (fun _ _ _ _ => holeOrders_valid) (fun _ _ => holeOrders)
    (fun _ _ => holeOrders_valid)).canFinish
  obtain ⟨psis, S, hrun, hp, -⟩ := C66_printed (holeArgs_valid 0 T radial) sympyGaunt_large (by decide)
    (fun _ _ _ _ => holeOrders_valid) (fun _ _ => holeOrders_valid) h1 rfl hS (holeArgs_documented 0 T radial)
  exact ⟨o, by rw [hp.count]; exact List.length_pos_of_mem hp.ground.1,
    (C105_main (holeArgs_valid 0 T radial) sympyGaunt_large (by decide)
      (fun _ _ _ _ => holeOrders_valid) (fun _ _ => holeOrders_valid) h1 rfl hS (holeArgs_documented 0 T radial)).1⟩

end

end Verif
