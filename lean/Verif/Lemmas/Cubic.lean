/-
Helper lemmas: density matrices and cubic harmonics.
-/
import Verif.Lemmas.Density

set_option linter.unusedSectionVars false
set_option linter.unusedSimpArgs false

namespace Verif

open Spec Finset Psr

/-! ### the density matrix dict -/

section
variable {κ α : Type} [DecidableEq κ] (v : κ → ℂ)

open Classical in
/-- `step` sets the keys of `K` whose value is not zero. -/
def SetsKeys (step : Dict κ ℂ → Py (Dict κ ℂ)) (K : κ → Prop) : Prop :=
  ∀ d, Dict.NodupKeys d → ∃ d', step d = .ok d' ∧ Dict.NodupKeys d' ∧
    ∀ k, Dict.get? d' k = if K k ∧ v k ≠ 0 then some (v k) else Dict.get? d k

theorem SetsKeys.foldlM (L : List α) (step : Dict κ ℂ → α → Py (Dict κ ℂ)) (K : α → κ → Prop)
    (h : ∀ a ∈ L, SetsKeys v (fun d => step d a) (K a)) :
    SetsKeys v (fun d => L.foldlM step d) (fun k => ∃ a ∈ L, K a k) := by
  induction L with
  | nil => intro d hd; exact ⟨d, rfl, hd, fun k => by simp⟩
  | cons a L ih =>
    intro d hd
    obtain ⟨d1, e1, n1, g1⟩ := h a (by simp) d hd
    obtain ⟨d2, e2, n2, g2⟩ := ih (fun b hb => h b (by simp [hb])) d1 n1
    refine ⟨d2, ?_, n2, ?_⟩
    · change step d a >>= _ = _
      dsimp only at e1
      rw [e1]; exact e2
    · intro k
      rw [g2, g1]
      by_cases hk : v k = 0
      · simp [hk]
      · by_cases h1 : ∃ a ∈ L, K a k <;> by_cases h2 : K a k <;>
          simp only [ne_eq, hk, not_false_eq_true, and_true, List.mem_cons, exists_eq_or_imp, h1, h2, or_true,
            or_false, or_self, if_true, if_false]

end

section
variable {nBaths : Dict ℕ ℕ} (hn : Dict.NodupKeys nBaths) {l : ℕ} (hl : l ∈ Dict.keys nBaths)
  {psi : Psi ℂ} (hpsi : IsState (nSpinOrbitals nBaths) psi)

/-- The value of a density matrix element. -/
noncomputable def dmVal (nBaths : Dict ℕ ℕ) (psi : Psi ℂ) (k : Label × Label) : ℂ :=
  correl (nSpinOrbitals nBaths) (ampl (nSpinOrbitals nBaths) psi) (pos nBaths k.1) (pos nBaths k.2)

include hn hl hpsi

theorem inner_hop {x y : ℤ × ℤ} (hx : x ∈ shell l) (hy : y ∈ shell l) :
    ∃ psi', hop (nSpinOrbitals nBaths) (pos nBaths (.imp l y.1 y.2)) (pos nBaths (.imp l x.1 x.2)) psi = .ok psi'
      ∧ inner psi psi' = dmVal nBaths psi (.imp l x.1 x.2, .imp l y.1 y.2) := by
  obtain ⟨p, h1, s1, a1⟩ := hop_spec (pos_lt hn hl hy) (pos_lt hn hl hx) hpsi
  refine ⟨p, h1, ?_⟩
  rw [inner_eq s1, a1]
  rfl

theorem densityStep_spec {si sj mi mj : ℤ} (hx : (si, mi) ∈ shell l) (hy : (sj, mj) ∈ shell l) :
    SetsKeys (dmVal nBaths psi) (fun d => densityStep nBaths psi l si sj mi mj d)
      (fun k => k = (.imp l si mi, .imp l sj mj)) := by
  intro d hd
  obtain ⟨p, h1, h2⟩ := inner_hop hn hl hpsi hx hy
  have e1 := c2i_shell hn hl hx
  have e2 := c2i_shell hn hl hy
  dsimp only at e1 e2 h1 h2
  simp only [densityStep, e1, e2, bind, Except.bind, h1, h2, pure, Except.pure]
  by_cases hv : dmVal nBaths psi (.imp l si mi, .imp l sj mj) = 0
  · refine ⟨d, by simp [hv], hd, fun k => ?_⟩
    rw [if_neg]
    rintro ⟨rfl, h⟩
    exact h hv
  · refine ⟨Dict.set d (.imp l si mi, .imp l sj mj) (dmVal nBaths psi (.imp l si mi, .imp l sj mj)),
      by simp [hv], Dict.nodupKeys_set hd _ _, fun k => ?_⟩
    rw [Dict.get?_set]
    by_cases hk : k = (.imp l si mi, .imp l sj mj)
    · subst hk
      rw [if_pos rfl, if_pos ⟨rfl, hv⟩]
    · rw [if_neg (Ne.symm hk), if_neg (fun h => hk h.1)]

open Classical in
theorem getDensityMatrix_spec : ∃ dm, getDensityMatrix nBaths psi l = .ok dm ∧ Dict.NodupKeys dm ∧
    ∀ k, Dict.get? dm k = if (∃ x ∈ shell l, ∃ y ∈ shell l, k = (.imp l x.1 x.2, .imp l y.1 y.2)) ∧
        dmVal nBaths psi k ≠ 0 then some (dmVal nBaths psi k) else none := by
  have hmem : ∀ s ∈ pyRange 0 2, ∀ m ∈ pyRange (-l) (l + 1), (s, m) ∈ shell l := by
    intro s hs m hm
    rw [mem_pyRange] at hs hm
    rw [mem_shell]
    dsimp only
    omega
  have := SetsKeys.foldlM (dmVal nBaths psi) (pyRange 0 2) _ _ (fun si hsi =>
    SetsKeys.foldlM (dmVal nBaths psi) (pyRange 0 2) _ _ (fun sj hsj =>
      SetsKeys.foldlM (dmVal nBaths psi) (pyRange (-l) (l + 1)) _ _ (fun mi hmi =>
        SetsKeys.foldlM (dmVal nBaths psi) (pyRange (-l) (l + 1)) _ _ (fun mj hmj =>
          densityStep_spec hn hl hpsi (hmem si hsi mi hmi) (hmem sj hsj mj hmj)))))
  obtain ⟨dm, h1, h2, h3⟩ := this [] Dict.nodupKeys_nil
  refine ⟨dm, h1, h2, fun k => ?_⟩
  rw [h3 k]
  have hiff : (∃ si ∈ pyRange 0 2, ∃ sj ∈ pyRange 0 2, ∃ mi ∈ pyRange (-l) (l + 1), ∃ mj ∈ pyRange (-l) (l + 1),
      k = (Label.imp l si mi, Label.imp l sj mj)) ↔
      ∃ x ∈ shell l, ∃ y ∈ shell l, k = (.imp l x.1 x.2, .imp l y.1 y.2) := by
    constructor
    · rintro ⟨si, hsi, sj, hsj, mi, hmi, mj, hmj, e⟩
      exact ⟨(si, mi), hmem _ hsi _ hmi, (sj, mj), hmem _ hsj _ hmj, e⟩
    · rintro ⟨x, hx, y, hy, e⟩
      rw [mem_shell] at hx hy
      exact ⟨x.1, by rw [mem_pyRange]; omega, y.1, by rw [mem_pyRange]; omega,
        x.2, by rw [mem_pyRange]; omega, y.2, by rw [mem_pyRange]; omega, e⟩
  simp only [hiff]
  rfl

end

/-! ### correlation functions -/

theorem correl_star {n i j : ℕ} (hi : i < n) (hj : j < n) (v : Vec ℂ) :
    star (correl n v i j) = correl n v j i := by
  unfold correl
  rw [innerProduct_star, innerProduct_create n i hi, ← innerProduct_annihilate n j hj]

theorem correl_eq {n j : ℕ} (hj : j < n) (i : ℕ) (v : Vec ℂ) :
    correl n v i j = innerProduct n (annihilate j v) (annihilate i v) := by
  unfold correl
  rw [innerProduct_create n j hj]

theorem correl_self (n i : ℕ) (v : Vec ℂ) :
    correl n v i i = ((∑ S ∈ (range n).powerset, if i ∈ S then Complex.normSq (v S) else 0 : ℝ) : ℂ) := by
  unfold correl innerProduct
  rw [Complex.ofReal_sum]
  refine sum_congr rfl fun S _ => ?_
  rw [create_annihilate_self]
  split
  · rw [Complex.normSq_eq_conj_mul_self]; rfl
  · simp

theorem innerProduct_self (n : ℕ) (v : Vec ℂ) : innerProduct n v v = ((normSq n v : ℝ) : ℂ) := by
  unfold innerProduct normSq
  rw [Complex.ofReal_sum]
  refine sum_congr rfl fun S _ => ?_
  rw [Complex.normSq_eq_conj_mul_self]; rfl

theorem normSq_nonneg (n : ℕ) (v : Vec ℂ) : 0 ≤ normSq n v :=
  sum_nonneg fun _ _ => Complex.normSq_nonneg _

/-- `∑_jk u_j u_k^* ⟨c†_j c_k⟩ = ‖∑_k u_k^* c_k v‖²`. -/
theorem sum_correl {κ : Type} (K : Finset κ) (p : κ → ℕ) {n : ℕ} (hp : ∀ k ∈ K, p k < n)
    (u w : κ → ℂ) (v : Vec ℂ) :
    ∑ j ∈ K, ∑ k ∈ K, u j * star (w k) * correl n v (p k) (p j)
      = innerProduct n (annihilateIn K p u v) (annihilateIn K p w v) := by
  unfold annihilateIn
  rw [innerProduct_sum_left]
  refine sum_congr rfl fun j hj => ?_
  rw [innerProduct_sum_right]
  refine sum_congr rfl fun k _ => ?_
  rw [innerProduct_smul_right, innerProduct_smul_left, correl_eq (hp j hj)]
  ring

/-! ### cubic harmonics -/

theorem rsqrt2_sq : rsqrt2 * rsqrt2 = 1 / 2 := by
  unfold rsqrt2
  rw [← Complex.ofReal_mul]
  have : (1 / Real.sqrt 2 * (1 / Real.sqrt 2) : ℝ) = 1 / 2 := by
    rw [div_mul_div_comm, Real.mul_self_sqrt (by norm_num)]; norm_num
  rw [this]; push_cast; ring

theorem rsqrt2_star : star rsqrt2 = rsqrt2 := Complex.conj_ofReal _

/-- The entries of the matrix for d orbitals: rows `m = -2 … 2`, columns
`z²`, `x²-y²`, `yz`, `xz`, `xy`. -/
theorem cubicD_val : ∀ a < 5, ∀ b < 5, cubicD.val a b =
    (([[0, rsqrt2, 0, 0, Complex.I * rsqrt2], [0, 0, -Complex.I * rsqrt2, rsqrt2, 0], [1, 0, 0, 0, 0],
      [0, 0, -Complex.I * rsqrt2, -rsqrt2, 0], [0, rsqrt2, 0, 0, -Complex.I * rsqrt2]] : List (List ℂ)).getD a []).getD b 0 := by
  intro a ha b hb
  interval_cases a <;> interval_cases b <;> simp [cubicD, CMat.put, CMat.zeros, npIdx]

theorem cubicP_val : ∀ a < 3, ∀ b < 3, cubicP.val a b =
    (([[Complex.I * rsqrt2, rsqrt2, 0], [0, 0, 1], [Complex.I * rsqrt2, -rsqrt2, 0]] : List (List ℂ)).getD a []).getD b 0 := by
  intro a ha b hb
  interval_cases a <;> interval_cases b <;> simp [cubicP, CMat.put, CMat.zeros, npIdx]

/-- Both `U†U = 1` and `UU† = 1`. -/
def IsUnitary (u : CMat) : Prop := u.rows = u.cols ∧
  (∀ a < u.cols, ∀ b < u.cols, ∑ k ∈ range u.rows, star (u.val k a) * u.val k b = if a = b then 1 else 0) ∧
  (∀ a < u.rows, ∀ b < u.rows, ∑ k ∈ range u.cols, u.val a k * star (u.val b k) = if a = b then 1 else 0)

theorem I_rr : Complex.I * rsqrt2 * (Complex.I * rsqrt2) = -(1 / 2) := by
  rw [mul_mul_mul_comm, Complex.I_mul_I, rsqrt2_sq]; ring

theorem I_star : star Complex.I = -Complex.I := Complex.conj_I

set_option linter.unusedTactic false
set_option linter.unreachableTactic false

theorem unitary_cubicD : IsUnitary cubicD := by
  refine ⟨rfl, ?_, ?_⟩
  · intro a ha b hb
    change a < 5 at ha; change b < 5 at hb
    change ∑ k ∈ range 5, _ = _
    simp only [sum_range_succ, sum_range_zero, cubicD_val 0 (by norm_num) _ ha, cubicD_val 1 (by norm_num) _ ha,
      cubicD_val 2 (by norm_num) _ ha, cubicD_val 3 (by norm_num) _ ha, cubicD_val 4 (by norm_num) _ ha,
      cubicD_val 0 (by norm_num) _ hb, cubicD_val 1 (by norm_num) _ hb,
      cubicD_val 2 (by norm_num) _ hb, cubicD_val 3 (by norm_num) _ hb, cubicD_val 4 (by norm_num) _ hb]
    have h2 := rsqrt2_sq
    have hI := Complex.I_mul_I
    interval_cases a <;> interval_cases b <;>
      simp only [List.getD_cons_zero, List.getD_cons_succ, star_zero, star_one, star_mul', star_neg, rsqrt2_star, I_star,
        mul_zero, zero_mul, add_zero, zero_add, mul_one, if_true] <;> (try simp) <;>
      first
      | linear_combination 2 * h2
      | linear_combination (-2 * rsqrt2 * rsqrt2) * hI + 2 * h2
      | ring1
  · intro a ha b hb
    change a < 5 at ha; change b < 5 at hb
    change ∑ k ∈ range 5, _ = _
    simp only [sum_range_succ, sum_range_zero, cubicD_val _ ha 0 (by norm_num), cubicD_val _ ha 1 (by norm_num),
      cubicD_val _ ha 2 (by norm_num), cubicD_val _ ha 3 (by norm_num), cubicD_val _ ha 4 (by norm_num),
      cubicD_val _ hb 0 (by norm_num), cubicD_val _ hb 1 (by norm_num),
      cubicD_val _ hb 2 (by norm_num), cubicD_val _ hb 3 (by norm_num), cubicD_val _ hb 4 (by norm_num)]
    have h2 := rsqrt2_sq
    have hI := Complex.I_mul_I
    interval_cases a <;> interval_cases b <;>
      simp only [List.getD_cons_zero, List.getD_cons_succ, star_zero, star_one, star_mul', star_neg, rsqrt2_star, I_star,
        mul_zero, zero_mul, add_zero, zero_add, mul_one, if_true] <;> (try simp) <;>
      first
      | linear_combination 2 * h2
      | linear_combination (- rsqrt2 * rsqrt2) * hI + 2 * h2
      | linear_combination (- rsqrt2 * rsqrt2) * hI
      | linear_combination (rsqrt2 * rsqrt2) * hI
      | ring1

theorem unitary_cubicP : IsUnitary cubicP := by
  refine ⟨rfl, ?_, ?_⟩
  · intro a ha b hb
    change a < 3 at ha; change b < 3 at hb
    change ∑ k ∈ range 3, _ = _
    simp only [sum_range_succ, sum_range_zero, cubicP_val 0 (by norm_num) _ ha, cubicP_val 1 (by norm_num) _ ha,
      cubicP_val 2 (by norm_num) _ ha, cubicP_val 0 (by norm_num) _ hb, cubicP_val 1 (by norm_num) _ hb,
      cubicP_val 2 (by norm_num) _ hb]
    have h2 := rsqrt2_sq
    have hI := Complex.I_mul_I
    interval_cases a <;> interval_cases b <;>
      simp only [List.getD_cons_zero, List.getD_cons_succ, star_zero, star_one, star_mul', star_neg, rsqrt2_star, I_star,
        mul_zero, zero_mul, add_zero, zero_add, mul_one, if_true] <;> (try simp) <;>
      first
      | linear_combination 2 * h2
      | linear_combination (-2 * rsqrt2 * rsqrt2) * hI + 2 * h2
      | ring1
  · intro a ha b hb
    change a < 3 at ha; change b < 3 at hb
    change ∑ k ∈ range 3, _ = _
    simp only [sum_range_succ, sum_range_zero, cubicP_val _ ha 0 (by norm_num), cubicP_val _ ha 1 (by norm_num),
      cubicP_val _ ha 2 (by norm_num), cubicP_val _ hb 0 (by norm_num), cubicP_val _ hb 1 (by norm_num),
      cubicP_val _ hb 2 (by norm_num)]
    have h2 := rsqrt2_sq
    have hI := Complex.I_mul_I
    interval_cases a <;> interval_cases b <;>
      simp only [List.getD_cons_zero, List.getD_cons_succ, star_zero, star_one, star_mul', star_neg, rsqrt2_star, I_star,
        mul_zero, zero_mul, add_zero, zero_add, mul_one, if_true] <;> (try simp) <;>
      first
      | linear_combination 2 * h2
      | linear_combination (- rsqrt2 * rsqrt2) * hI + 2 * h2
      | linear_combination (- rsqrt2 * rsqrt2) * hI
      | linear_combination (rsqrt2 * rsqrt2) * hI
      | ring1

end Verif

namespace Verif
open Spec Finset

theorem annihilateIn_le {κ : Type} [DecidableEq κ] {K : Finset κ} {p : κ → ℕ} {n : ℕ} (hp : ∀ k ∈ K, p k < n)
    (hinj : ∀ x ∈ K, ∀ y ∈ K, p x = p y → x = y) (u : κ → ℂ) (v : Vec ℂ) :
    normSq n (annihilateIn K p u v) ≤ (∑ x ∈ K, Complex.normSq (u x)) * normSq n v := by
  have h1 := sum_correl K p hp u u v
  rw [innerProduct_self] at h1
  -- the creation side
  have h2 : innerProduct n (fun S => ∑ j ∈ K, u j * create (p j) v S) (fun S => ∑ k ∈ K, u k * create (p k) v S)
      = ∑ k ∈ K, ∑ j ∈ K, u j * star (u k) * (if p k = p j then innerProduct n v v else 0)
        - ∑ j ∈ K, ∑ k ∈ K, u j * star (u k) * correl n v (p k) (p j) := by
    rw [innerProduct_sum_left]
    rw [sum_comm (s := K) (t := K) (f := fun j k => u j * star (u k) * correl n v (p k) (p j)), ← sum_sub_distrib]
    refine sum_congr rfl fun k hk => ?_
    rw [innerProduct_sum_right, ← sum_sub_distrib]
    refine sum_congr rfl fun j hj => ?_
    rw [innerProduct_smul_right]
    have e := innerProduct_smul_left n (create (p k) v) (create (p j) v) (star (u k))
    rw [star_star] at e
    rw [e, ← innerProduct_annihilate n _ (hp k hk)]
    have e2 : innerProduct n v (annihilate (p k) (create (p j) v))
        = (if p k = p j then innerProduct n v v else 0) - correl n v (p k) (p j) := by
      unfold correl innerProduct
      by_cases h : p k = p j
      · rw [if_pos h, ← sum_sub_distrib]
        refine sum_congr rfl fun S _ => ?_
        have := annihilate_create (p k) (p j) v S
        rw [if_pos h] at this
        rw [eq_sub_of_add_eq this]; ring
      · rw [if_neg h, zero_sub, ← sum_neg_distrib]
        refine sum_congr rfl fun S _ => ?_
        have := annihilate_create (p k) (p j) v S
        rw [if_neg h] at this
        rw [eq_neg_of_add_eq_zero_left this]; ring
    rw [e2]
    ring
  have h3 : ∑ k ∈ K, ∑ j ∈ K, u j * star (u k) * (if p k = p j then innerProduct n v v else 0)
      = (((∑ x ∈ K, Complex.normSq (u x)) * normSq n v : ℝ) : ℂ) := by
    rw [Complex.ofReal_mul, ← innerProduct_self, Complex.ofReal_sum, sum_mul]
    refine sum_congr rfl fun k hk => ?_
    rw [sum_eq_single k]
    · rw [if_pos rfl, Complex.normSq_eq_conj_mul_self]
      change _ = star (u k) * u k * _
      ring
    · intro j hj hne
      rw [if_neg (fun h => hne (hinj k hk j hj h).symm), mul_zero]
    · intro h; exact absurd hk h
  rw [h3, h1, innerProduct_self] at h2
  have h4 : normSq n (fun S => ∑ j ∈ K, u j * create (p j) v S)
      = (∑ x ∈ K, Complex.normSq (u x)) * normSq n v - normSq n (annihilateIn K p u v) := by
    exact_mod_cast h2
  have := normSq_nonneg n (fun S => ∑ j ∈ K, u j * create (p j) v S)
  linarith

end Verif
