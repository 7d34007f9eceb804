/-
C40–C42: continued fraction, Lanczos recursion, distributed Lanczos recursion.
-/
import Verif.Lemmas.Lanczos
import Verif.Lemmas.LanczosMpi

namespace Verif

open Matrix Spec Mpi

/-! ### C40 -/

/-- C40.  For real `alpha` (length `k ≥ 1`) and `beta` (length `k-1`) and `z` off
the real axis, no denominator of the continued fraction is zero; the result `g`
has `-Im g` of the sign of `Im z`, `|g| ≤ 1/|Im z|`, and is the `(0,0)` element of
the inverse of `z - T`, where `z - T` is invertible and `T` is the tridiagonal
matrix of `alpha` and `beta`. -/
theorem C40_continued_fraction (alpha beta : List ℝ) (k : ℕ) (hk : 0 < k) (ha : alpha.length = k)
    (hb : beta.length = k - 1) (omega delta e : ℝ) (hdelta : delta ≠ 0) :
    ∃ g, continuedFraction alpha beta k (omega + Complex.I * delta + e) = .ok g ∧
      (0 < delta → 0 < -g.im) ∧ (delta < 0 → 0 < g.im) ∧ ‖g‖ ≤ 1 / |delta| ∧
      IsUnit ((omega + Complex.I * delta + e : ℂ) • (1 : Matrix (Fin k) (Fin k) ℂ) - tridiagonal alpha beta k) ∧
      g = ((omega + Complex.I * delta + e : ℂ) • (1 : Matrix (Fin k) (Fin k) ℂ)
        - tridiagonal alpha beta k)⁻¹ ⟨0, hk⟩ ⟨0, hk⟩ := by
  have him : (omega + Complex.I * delta + e : ℂ).im = delta := by simp
  have hz : (omega + Complex.I * delta + e : ℂ).im ≠ 0 := by rw [him]; exact hdelta
  refine ⟨_, continuedFraction_eq ha hb hz, ?_⟩
  obtain ⟨m, rfl⟩ : ∃ m, k = m + 1 := ⟨k - 1, by omega⟩
  obtain ⟨_, _, h3, h4⟩ := cf_bounds (fun i => alpha.getD i 0) (fun i => beta.getD i 0) (m + 1) hz m
  rw [him] at h3 h4
  refine ⟨fun hd => ?_, fun hd => ?_, h4, isUnit_resolvent (tridiagonal_hermitian _ _ _) hz, (cf_inverse hk hz).symm⟩
  · by_contra hc
    nlinarith
  · by_contra hc
    nlinarith

example : ∃ g, continuedFraction [1, 2, 3] [1, 1] 3 ((0 : ℝ) + Complex.I * (1 / 10 : ℝ) + (2 : ℝ)) = .ok g ∧ 0 < -g.im := by
  obtain ⟨g, h1, h2, _⟩ := C40_continued_fraction [1, 2, 3] [1, 1] 3 (by norm_num) rfl rfl 0 (1 / 10) 2 (by norm_num)
  exact ⟨g, h1, h2 (by norm_num)⟩

/-- C40.  Without broadening the fraction can divide by zero: it does at the last `alpha`. -/
theorem C40_zero_width (alpha beta : List ℝ) (k : ℕ) (hk : 0 < k) (ha : alpha.length = k) (omega e : ℝ)
    (h : omega + e = alpha.getD (k - 1) 0) :
    continuedFraction alpha beta k (omega + Complex.I * (0 : ℝ) + e) = .error .nan := by
  obtain ⟨m, rfl⟩ : ∃ m, k = m + 1 := ⟨k - 1, by omega⟩
  unfold continuedFraction
  rw [List.range_succ, List.reverse_append, List.reverse_singleton, List.singleton_append, List.foldlM_cons]
  have h1 : fractionBody alpha beta (m + 1) (omega + Complex.I * (0 : ℝ) + e) 0 m = .error .nan := by
    unfold fractionBody npDiv
    rw [pyGet_nat (by omega) 0]
    rw [Nat.add_sub_cancel] at h
    change (if m = m + 1 - 1 then _ else _ : Py ℂ) = _
    rw [if_pos (by omega), if_pos]
    rw [← h]
    push_cast
    ring
  rw [h1]
  rfl

example : continuedFraction [1, 2, 3] [1, 1] 3 ((1 : ℝ) + Complex.I * (0 : ℝ) + (2 : ℝ)) = .error .nan :=
  C40_zero_width [1, 2, 3] [1, 1] 3 (by norm_num) rfl 1 2 (by norm_num)

/-! ### C41 -/

section
variable {n : ℕ} (H : Matrix (Fin n) (Fin n) ℂ) (hH : H.IsHermitian) (psi0 : Fin n → ℂ)
  (hnorm : star psi0 ⬝ᵥ psi0 = 1) (krylovSize : ℕ)
include hH hnorm

theorem dim_pos : 0 < n := by
  rcases Nat.eq_zero_or_pos n with h | h
  · subst h
    simp at hnorm
  · exact h

/-- C41, the tridiagonal form.  If `get_tridiagonal_krylov_vectors` returns
`alpha` and `beta`, there are `k = min(krylovSize, n)` orthonormal vectors, the
first of them the start vector, in which `H` is the tridiagonal matrix of `alpha`
and `beta`; all `beta` are positive. -/
theorem C41_tridiagonal (alpha beta : List ℝ) (h : tridiagonalKrylov H psi0 krylovSize = .ok (alpha, beta)) :
    alpha.length = min krylovSize n ∧ beta.length = min krylovSize n - 1 ∧ (∀ b ∈ beta, 0 < b) ∧
    ∃ V : ℕ → Fin n → ℂ, V 0 = psi0 ∧ OrthonormalUpTo V (min krylovSize n) ∧
      ∀ i j : Fin (min krylovSize n), star (V i) ⬝ᵥ (H *ᵥ V j) = tridiagonal alpha beta (min krylovSize n) i j := by
  have hK : 0 < min krylovSize n := by
    by_contra hc
    have h0 : min krylovSize n = 0 := by omega
    unfold tridiagonalKrylov krylovAlloc at h
    simp only [h0, if_true] at h
    cases h
  rcases tridiagonalKrylov_spec hH hnorm krylovSize hK with ⟨al, be, V, w, h1, h2, h3, h4, h5⟩ | ⟨h1, _⟩
  · rw [h] at h1
    cases h1
    refine ⟨h2, h3, ?_, V, h4, h5.ortho, ?_⟩
    · intro b hb
      obtain ⟨i, hi, rfl⟩ := List.mem_iff_getElem.1 hb
      have := h5.beta_pos i (by omega)
      rwa [List.getD_eq_getElem?_getD, List.getElem?_eq_getElem hi] at this
    · intro i j
      let x : ℕ → ℂ := fun m => if m = j.val then 1 else 0
      have hx : x (min krylovSize n) = 0 := if_neg (by have := j.isLt; omega)
      have hVj : V j = krylovMat V (min krylovSize n) *ᵥ fun m => x m := by
        rw [krylovMat_mulVec, Finset.sum_eq_single j]
        · simp [x]
        · intro m _ hm
          simp only [x]
          rw [if_neg (fun e => hm (Fin.ext e)), zero_smul]
        · intro h'; exact absurd (Finset.mem_univ _) h'
      rw [hVj, h5.apply x hx, dotProduct_add, h5.coord, dotProduct_smul, h5.perp i i.isLt, smul_zero, add_zero]
      have : (fun m : Fin (min krylovSize n) => x m) = Pi.single j 1 := by
        funext m
        simp only [x, Pi.single_apply, Fin.ext_iff]
      rw [this, Matrix.mulVec_single_one]
      rfl
  · rw [h] at h1; cases h1

/-- C41, when it raises: `ValueError` exactly if `krylovSize = 0` or the Krylov
space, spanned by `psi0, H psi0, H² psi0, …`, has fewer than
`min(krylovSize, n)` dimensions. -/
theorem C41_raises : tridiagonalKrylov H psi0 krylovSize = .error .valueError ↔
    krylovSize = 0 ∨ ¬ LinearIndependent ℂ (fun i : Fin (min krylovSize n) => (H ^ i.val) *ᵥ psi0) := by
  have hn := dim_pos H hH psi0 hnorm
  by_cases hK0 : krylovSize = 0
  · subst hK0
    refine ⟨fun _ => Or.inl rfl, fun _ => ?_⟩
    unfold tridiagonalKrylov krylovAlloc
    simp only [Nat.zero_min, if_true]
    rfl
  · rcases tridiagonalKrylov_spec hH hnorm krylovSize (by omega) with
      ⟨al, be, V, w, h1, h2, h3, h4, h5⟩ | ⟨h1, j, V, al, be, h2, h3, h4⟩
    · refine ⟨fun h => (by rw [h1] at h; cases h), ?_⟩
      rintro (h | h)
      · exact absurd h hK0
      · rw [← h4] at h
        exact absurd h5.independent h
    · refine ⟨fun _ => Or.inr ?_, fun _ => h1⟩
      rw [← h3]
      exact h4.dependent h2

/-- C41, no other error is possible. -/
theorem C41_total : tridiagonalKrylov H psi0 krylovSize = .error .valueError ∨
    ∃ alpha beta, tridiagonalKrylov H psi0 krylovSize = .ok (alpha, beta) := by
  by_cases hK0 : krylovSize = 0
  · exact Or.inl ((C41_raises H hH psi0 hnorm krylovSize).2 (Or.inl hK0))
  · have hn := dim_pos H hH psi0 hnorm
    rcases tridiagonalKrylov_spec hH hnorm krylovSize (by omega) with
      ⟨al, be, V, w, h1, _⟩ | ⟨h1, _⟩
    · exact Or.inr ⟨al, be, h1⟩
    · exact Or.inl h1

/-- C41, exactness.  If the Krylov space is exhausted — `psi0, H psi0, …, H^k psi0`
are linearly dependent, in particular if `krylovSize ≥ n` — the continued
fraction is `⟨psi0| (z - H)⁻¹ |psi0⟩`. -/
theorem C41_exact (alpha beta : List ℝ) (h : tridiagonalKrylov H psi0 krylovSize = .ok (alpha, beta))
    (hex : n ≤ krylovSize ∨
      ¬ LinearIndependent ℂ (fun i : Fin (min krylovSize n + 1) => (H ^ i.val) *ᵥ psi0))
    (z : ℂ) (hz : z.im ≠ 0) :
    continuedFraction alpha beta (min krylovSize n) z = .ok (resolvent H psi0 z) := by
  have hn := dim_pos H hH psi0 hnorm
  have hdep : ¬ LinearIndependent ℂ (fun i : Fin (min krylovSize n + 1) => (H ^ i.val) *ᵥ psi0) := by
    rcases hex with hex | hex
    · intro hli
      have := hli.fintype_card_le_finrank
      simp at this
      omega
    · exact hex
  have hK0 : krylovSize ≠ 0 := by
    intro h0
    rw [(C41_raises H hH psi0 hnorm krylovSize).2 (Or.inl h0)] at h
    cases h
  rcases tridiagonalKrylov_spec hH hnorm krylovSize (by omega) with
    ⟨al, be, V, w, h1, h2, h3, h4, h5⟩ | ⟨h1, _⟩
  · rw [h] at h1
    cases h1
    rw [← h4] at hdep
    have hw := h5.exhausted hdep
    subst hw
    rw [continuedFraction_eq h2 h3 hz, ← h4, h5.resolvent_eq hH hz, cf_inverse h5.pos hz]
  · rw [h] at h1; cases h1

/-- C41, the truncated Krylov space: the first `2k` moments
`⟨psi0| H^m |psi0⟩`, `m < 2k`, are those of the tridiagonal matrix. -/
theorem C41_moments (alpha beta : List ℝ) (h : tridiagonalKrylov H psi0 krylovSize = .ok (alpha, beta))
    (m : ℕ) (hm : m < 2 * min krylovSize n) :
    star psi0 ⬝ᵥ ((H ^ m) *ᵥ psi0)
      = (tridiagonal alpha beta (min krylovSize n) ^ m) ⟨0, by omega⟩ ⟨0, by omega⟩ := by
  have hK : 0 < min krylovSize n := by omega
  rcases tridiagonalKrylov_spec hH hnorm krylovSize hK with
    ⟨al, be, V, w, h1, h2, h3, h4, h5⟩ | ⟨h1, _⟩
  · rw [h] at h1
    cases h1
    rw [← h4]
    exact h5.moments hH m hm
  · rw [h] at h1; cases h1

end

/-- A two-dimensional example: `H = σ_x`, start vector `(1, 0)`. -/
def exH : Matrix (Fin 2) (Fin 2) ℂ := !![0, 1; 1, 0]

theorem exH_hermitian : exH.IsHermitian := by
  ext i j
  fin_cases i <;> fin_cases j <;> simp [exH]

theorem exH_norm : star (![1, 0] : Fin 2 → ℂ) ⬝ᵥ ![1, 0] = 1 := by
  simp [dotProduct, Fin.sum_univ_two]

theorem exH_independent : LinearIndependent ℂ (fun i : Fin 2 => (exH ^ i.val) *ᵥ (![1, 0] : Fin 2 → ℂ)) := by
  rw [Fintype.linearIndependent_iff]
  intro g hg
  rw [Fin.sum_univ_two] at hg
  have h0 := congrFun hg 0
  have h1 := congrFun hg 1
  simp [exH, Matrix.mulVec, vecHead, vecTail] at h0 h1
  intro i
  fin_cases i
  · exact h0
  · exact h1

/-- The hypotheses of the theorems above are met and the two Krylov vectors exist. -/
example : ∃ alpha beta, tridiagonalKrylov exH ![1, 0] 5 = .ok (alpha, beta) ∧
    continuedFraction alpha beta 2 Complex.I = .ok (resolvent exH ![1, 0] Complex.I) := by
  rcases C41_total exH exH_hermitian ![1, 0] exH_norm 5 with h | ⟨alpha, beta, h⟩
  · rcases (C41_raises exH exH_hermitian ![1, 0] exH_norm 5).1 h with h | h
    · cases h
    · exact absurd exH_independent h
  · exact ⟨alpha, beta, h, C41_exact exH exH_hermitian ![1, 0] exH_norm 5 alpha beta h (Or.inl (by norm_num))
      Complex.I (by simp)⟩

/-! ### C42 -/

/-- The distributed algorithm in terms of runs. -/
theorem tridiagonalKrylovRank_runs {n N : ℕ} (hN : 0 < N) (h : Fin N → Matrix (Fin n) (Fin n) ℂ) (psi0 : Fin n → ℂ)
    (krylovSize : ℕ) (alpha beta : List ℝ)
    (hser : tridiagonalKrylov (∑ r, h r) psi0 krylovSize = .ok (alpha, beta)) :
    Runs List.sum (fun r : Fin N => tridiagonalKrylovRank (h r) psi0 krylovSize r.val)
      (fun r => if r.val = 0 then (alpha, beta)
        else (List.replicate (min krylovSize n) 0, List.replicate (min krylovSize n - 1) 0)) := by
  set H := ∑ r, h r with hHdef
  set k := min krylovSize n with hk
  have hk0 : k ≠ 0 := by
    intro h0
    unfold tridiagonalKrylov krylovAlloc at hser
    simp only [← hk, h0, if_true] at hser
    cases hser
  have halloc : krylovAlloc psi0 k = .ok ⟨List.replicate k 0, List.replicate (k - 1) 0, psi0, 0, 0⟩ := by
    unfold krylovAlloc
    rw [if_neg hk0]
  set s0 : Krylov n := ⟨List.replicate k 0, List.replicate (k - 1) 0, psi0, 0, 0⟩ with hs0
  let st : Fin N → Krylov n := fun r => if r.val = 0 then krylovFirst s0 (H *ᵥ psi0) else s0
  -- the serial run
  have hloop : ∃ s', krylovLoop H (k - 1) 1 (st ⟨0, hN⟩) = .ok s' ∧ s'.alpha = alpha ∧ s'.beta = beta := by
    unfold tridiagonalKrylov at hser
    simp only [← hk, halloc, bind, Except.bind] at hser
    cases hl : krylovLoop H (k - 1) 1 (krylovFirst s0 (H *ᵥ psi0)) with
    | error e => rw [hl] at hser; cases hser
    | ok s' =>
      rw [hl] at hser
      cases hser
      exact ⟨s', hl, rfl, rfl⟩
  obtain ⟨s', hl, rfl, rfl⟩ := hloop
  obtain ⟨st', hr1, hr2, hr3⟩ := (krylovLoopRank_spec h rfl hN (k - 1) 1 st).1 s' hl
  have hred : Runs (List.sum (α := Fin n → ℂ)) (fun r : Fin N => Mpi.reduce 0 (h r *ᵥ psi0))
      (fun r => if r = ⟨0, hN⟩ then some (H *ᵥ psi0) else none) := by
    have := Runs.reduce (sum := List.sum (α := Fin n → ℂ)) (fun r : Fin N => Mpi.reduce 0 (h r *ᵥ psi0)) ⟨0, hN⟩
      (fun r => h r *ᵥ psi0) (fun _ => rfl)
    rw [sum_local h rfl] at this
    exact this
  have hst : ∀ r : Fin N, (if r.val = 0 then
        krylovFirst s0 ((if r = ⟨0, hN⟩ then some (H *ᵥ psi0) else none).getD 0) else s0) = st r := by
    intro r
    by_cases h0 : r.val = 0
    · have hr : r = ⟨0, hN⟩ := Fin.ext h0
      simp [st, h0, hr]
    · simp [st, h0]
  let K : Fin N → Option (Fin n → ℂ) → Prog (Fin n → ℂ) (List ℝ × List ℝ) := fun r wr =>
    (krylovLoopRank (h r) r.val (k - 1) 1 (if r.val = 0 then krylovFirst s0 (wr.getD 0) else s0)).bind
      fun s => .ret (s.alpha, s.beta)
  have hK : Runs (List.sum (α := Fin n → ℂ))
      (fun r : Fin N => K r (if r = ⟨0, hN⟩ then some (H *ᵥ psi0) else none))
      (fun r => ((st' r).alpha, (st' r).beta)) := by
    refine Runs.bind (hr1.congr (fun r => by rw [hst r]) (fun _ => rfl)) (Runs.ret fun r => rfl)
  refine Runs.congr (Runs.bind (f := K) hred hK) ?_ ?_
  · intro r
    unfold tridiagonalKrylovRank
    simp only [← hk, halloc, Prog.lift, Prog.bind]
    rfl
  · intro r
    by_cases h0 : r.val = 0
    · have hr : r = ⟨0, hN⟩ := Fin.ext h0
      rw [if_pos h0, hr, hr2]
    · rw [if_neg h0, (hr3 r h0).1, (hr3 r h0).2]
      simp [st, h0, hs0]

/-- C42.  Let the Hamiltonian be split over the ranks.  If the serial algorithm
returns `alpha`, `beta`, then under every schedule the distributed algorithm ends
on all ranks, rank 0 returns the same `alpha`, `beta`, and all other ranks return
arrays of zeros. -/
theorem C42_distributed {n N : ℕ} (hN : 0 < N) (h : Fin N → Matrix (Fin n) (Fin n) ℂ) (psi0 : Fin n → ℂ)
    (krylovSize : ℕ) (alpha beta : List ℝ)
    (hser : tridiagonalKrylov (∑ r, h r) psi0 krylovSize = .ok (alpha, beta)) :
    AllRanksFinish List.sum (fun r : Fin N => tridiagonalKrylovRank (h r) psi0 krylovSize r.val)
      (fun r => if r.val = 0 then (alpha, beta)
        else (List.replicate (min krylovSize n) 0, List.replicate (min krylovSize n - 1) 0)) :=
  (tridiagonalKrylovRank_runs hN h psi0 krylovSize alpha beta hser).allRanksFinish

/-- The error of the distributed algorithm in terms of runs. -/
theorem tridiagonalKrylovRank_fails {n N : ℕ} (hN : 0 < N) (h : Fin N → Matrix (Fin n) (Fin n) ℂ) (psi0 : Fin n → ℂ)
    (krylovSize : ℕ) (hk : 0 < min krylovSize n) (e : PyErr)
    (hser : tridiagonalKrylov (∑ r, h r) psi0 krylovSize = .error e) :
    RunsToFailure List.sum (fun r : Fin N => tridiagonalKrylovRank (h r) psi0 krylovSize r.val) e := by
  set H := ∑ r, h r with hHdef
  set k := min krylovSize n with hkdef
  have halloc : krylovAlloc psi0 k = .ok ⟨List.replicate k 0, List.replicate (k - 1) 0, psi0, 0, 0⟩ := by
    unfold krylovAlloc
    rw [if_neg (by omega)]
  set s0 : Krylov n := ⟨List.replicate k 0, List.replicate (k - 1) 0, psi0, 0, 0⟩ with hs0
  let st : Fin N → Krylov n := fun r => if r.val = 0 then krylovFirst s0 (H *ᵥ psi0) else s0
  have hloop : krylovLoop H (k - 1) 1 (st ⟨0, hN⟩) = .error e := by
    unfold tridiagonalKrylov at hser
    simp only [← hkdef, halloc, bind, Except.bind] at hser
    change krylovLoop H (k - 1) 1 (krylovFirst s0 (H *ᵥ psi0)) = .error e
    cases hl : krylovLoop H (k - 1) 1 (krylovFirst s0 (H *ᵥ psi0)) with
    | error e' => rw [hl] at hser; cases hser; rfl
    | ok s' => rw [hl] at hser; cases hser
  have hrun := (krylovLoopRank_spec h rfl hN (k - 1) 1 st).2 e hloop
  have hred : Runs (List.sum (α := Fin n → ℂ)) (fun r : Fin N => Mpi.reduce 0 (h r *ᵥ psi0))
      (fun r => if r = ⟨0, hN⟩ then some (H *ᵥ psi0) else none) := by
    have := Runs.reduce (sum := List.sum (α := Fin n → ℂ)) (fun r : Fin N => Mpi.reduce 0 (h r *ᵥ psi0)) ⟨0, hN⟩
      (fun r => h r *ᵥ psi0) (fun _ => rfl)
    rw [sum_local h rfl] at this
    exact this
  have hst : ∀ r : Fin N, (if r.val = 0 then
        krylovFirst s0 ((if r = ⟨0, hN⟩ then some (H *ᵥ psi0) else none).getD 0) else s0) = st r := by
    intro r
    by_cases h0 : r.val = 0
    · have hr : r = ⟨0, hN⟩ := Fin.ext h0
      simp [st, h0, hr]
    · simp [st, h0]
  let K : Fin N → Option (Fin n → ℂ) → Prog (Fin n → ℂ) (List ℝ × List ℝ) := fun r wr =>
    (krylovLoopRank (h r) r.val (k - 1) 1 (if r.val = 0 then krylovFirst s0 (wr.getD 0) else s0)).bind
      fun s => .ret (s.alpha, s.beta)
  have hK : RunsToFailure (List.sum (α := Fin n → ℂ))
      (fun r : Fin N => K r (if r = ⟨0, hN⟩ then some (H *ᵥ psi0) else none)) e :=
    RunsToFailure.bind_left (hrun.congr fun r => by rw [hst r]) fun _ s => .ret (s.alpha, s.beta)
  refine RunsToFailure.congr (RunsToFailure.bind_right (f := K) hred hK) ?_
  intro r
  unfold tridiagonalKrylovRank
  simp only [← hkdef, halloc, Prog.lift, Prog.bind]
  rfl

/-- C42, the error: if the serial algorithm raises because a Krylov vector
vanishes, rank 0 of the distributed algorithm raises the same error while all
other ranks are left waiting in `Bcast`.  The ranks cannot all finish in any
schedule. -/
theorem C42_error_hangs {n N : ℕ} (hN : 0 < N) (h : Fin N → Matrix (Fin n) (Fin n) ℂ) (psi0 : Fin n → ℂ)
    (krylovSize : ℕ) (hk : 0 < min krylovSize n) (e : PyErr)
    (hser : tridiagonalKrylov (∑ r, h r) psi0 krylovSize = .error e) :
    AlwaysReaches (SyncStep List.sum) (fun r : Fin N => tridiagonalKrylovRank (h r) psi0 krylovSize r.val)
      (fun σ => ∀ r : Fin N, (r.val = 0 → σ r = .fail e) ∧
        (r.val ≠ 0 → ∃ v k, σ r = .coll (.bcast 0) v k)) ∧
    ∀ out, ¬ CanFinish List.sum (fun r : Fin N => tridiagonalKrylovRank (h r) psi0 krylovSize r.val) out := by
  have hfail := tridiagonalKrylovRank_fails hN h psi0 krylovSize hk e hser
  refine ⟨?_, fun out => hfail.not_canFinish hN out⟩
  obtain ⟨m, f, hm, hf⟩ := hfail
  exact alwaysReaches_of_steps syncStep_diamond (rootFailed_terminal hN hf) hm hf

/-- Three ranks that share `σ_x` unevenly. -/
example : ∃ alpha beta, AllRanksFinish List.sum (fun r : Fin 3 =>
      tridiagonalKrylovRank (![!![0, 1; 0, 0], 0, !![0, 0; 1, 0]] r) ![1, 0] 5 r.val)
    (fun r => if r.val = 0 then (alpha, beta) else (List.replicate 2 0, List.replicate 1 0)) := by
  have hsum : ∑ r : Fin 3, (![!![0, 1; 0, 0], 0, !![0, 0; 1, 0]] : Fin 3 → Matrix (Fin 2) (Fin 2) ℂ) r = exH := by
    rw [Fin.sum_univ_three]
    ext i j
    fin_cases i <;> fin_cases j <;> simp [exH]
  rcases C41_total exH exH_hermitian ![1, 0] exH_norm 5 with h | ⟨alpha, beta, h⟩
  · rcases (C41_raises exH exH_hermitian ![1, 0] exH_norm 5).1 h with h | h
    · cases h
    · exact absurd exH_independent h
  · rw [← hsum] at h
    exact ⟨alpha, beta, C42_distributed (by norm_num) _ _ 5 alpha beta h⟩

/-- A start vector that is an eigenvector makes the serial algorithm raise. -/
example : tridiagonalKrylov (1 : Matrix (Fin 2) (Fin 2) ℂ) ![1, 0] 5 = .error .valueError := by
  rw [C41_raises (1 : Matrix (Fin 2) (Fin 2) ℂ) Matrix.isHermitian_one ![1, 0] exH_norm]
  right
  intro h
  have := h.injective (a₁ := (⟨0, by norm_num⟩ : Fin (min 5 2))) (a₂ := (⟨1, by norm_num⟩ : Fin (min 5 2))) (by simp)
  simp at this

end Verif
