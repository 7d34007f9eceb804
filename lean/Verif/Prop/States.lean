/-
C06, C07, C27: finite.a, finite.c and the linear algebra of multi-configurational
states.
-/
import Verif.Lemmas.States

namespace Verif

open Finset Psr Spec

section
variable {R F : Type} [CommRing R] [StarRing R] [CommRing F] [LinearOrder F]
  [IsStrictOrderedRing F] [Amp R F]

/-- C06, mixed relation `c_i c_j† + c_j† c_i = δ_ij`, for `finite.a` and
`finite.c` on any state. -/
theorem C06_anticommutator_ac (n i j : ℕ) (hi : i < n) (hj : j < n) (psi : Psi R)
    (hpsi : IsState n psi) :
    ∃ x y, (opC n j psi >>= opA n i) = .ok x ∧ (opA n i psi >>= opC n j) = .ok y ∧
      IsState n x ∧ IsState n y ∧
      ∀ S, ampl n x S + ampl n y S = if i = j then ampl n psi S else 0 := by
  obtain ⟨p, hp, hps, -, hpa⟩ := opC_spec hj hpsi
  obtain ⟨x, hx, hxs, -, hxa⟩ := opA_spec hi hps
  obtain ⟨q, hq, hqs, -, hqa⟩ := opA_spec hi hpsi
  obtain ⟨y, hy, hys, -, hya⟩ := opC_spec hj hqs
  refine ⟨x, y, by rw [hp]; exact hx, by rw [hq]; exact hy, hxs, hys, ?_⟩
  intro S
  rw [hxa, hya, hpa, hqa, annihilate_create]

/-- C06, `c_i c_j + c_j c_i = 0`. -/
theorem C06_anticommutator_aa (n i j : ℕ) (hi : i < n) (hj : j < n) (psi : Psi R)
    (hpsi : IsState n psi) :
    ∃ x y, (opA n j psi >>= opA n i) = .ok x ∧ (opA n i psi >>= opA n j) = .ok y ∧
      IsState n x ∧ IsState n y ∧ ∀ S, ampl n x S + ampl n y S = 0 := by
  obtain ⟨p, hp, hps, -, hpa⟩ := opA_spec hj hpsi
  obtain ⟨x, hx, hxs, -, hxa⟩ := opA_spec hi hps
  obtain ⟨q, hq, hqs, -, hqa⟩ := opA_spec hi hpsi
  obtain ⟨y, hy, hys, -, hya⟩ := opA_spec hj hqs
  refine ⟨x, y, by rw [hp]; exact hx, by rw [hq]; exact hy, hxs, hys, ?_⟩
  intro S
  rw [hxa, hya, hpa, hqa, annihilate_annihilate]

/-- C06, `c_i† c_j† + c_j† c_i† = 0`. -/
theorem C06_anticommutator_cc (n i j : ℕ) (hi : i < n) (hj : j < n) (psi : Psi R)
    (hpsi : IsState n psi) :
    ∃ x y, (opC n j psi >>= opC n i) = .ok x ∧ (opC n i psi >>= opC n j) = .ok y ∧
      IsState n x ∧ IsState n y ∧ ∀ S, ampl n x S + ampl n y S = 0 := by
  obtain ⟨p, hp, hps, -, hpa⟩ := opC_spec hj hpsi
  obtain ⟨x, hx, hxs, -, hxa⟩ := opC_spec hi hps
  obtain ⟨q, hq, hqs, -, hqa⟩ := opC_spec hi hpsi
  obtain ⟨y, hy, hys, -, hya⟩ := opC_spec hj hqs
  refine ⟨x, y, by rw [hp]; exact hx, by rw [hq]; exact hy, hxs, hys, ?_⟩
  intro S
  rw [hxa, hya, hpa, hqa, create_create]

/-- C07, annihilation: the result has exactly one entry for each product state of
`psi` that occupies `i`, namely the signed amplitude of that product state. -/
theorem C07_a_exact (n i : ℕ) (hi : i < n) (psi : Psi R) (hpsi : IsState n psi) :
    ∃ psi', opA n i psi = .ok psi' ∧ IsState n psi' ∧
      ∀ S ⊆ range n, Dict.get? psi' (encBytes n S)
        = if i ∈ S then none else
          (Dict.get? psi (encBytes n (insert i S))).map fun x => x * (sgn i S : R) := by
  obtain ⟨p, hp, hps, hpg, -⟩ := opA_spec hi hpsi
  exact ⟨p, hp, hps, hpg⟩

/-- C07, creation. -/
theorem C07_c_exact (n i : ℕ) (hi : i < n) (psi : Psi R) (hpsi : IsState n psi) :
    ∃ psi', opC n i psi = .ok psi' ∧ IsState n psi' ∧
      ∀ S ⊆ range n, Dict.get? psi' (encBytes n S)
        = if i ∈ S then
          (Dict.get? psi (encBytes n (S.erase i))).map (fun x => x * (sgn i S : R)) else none := by
  obtain ⟨p, hp, hps, hpg, -⟩ := opC_spec hi hpsi
  exact ⟨p, hp, hps, hpg⟩

/-- C07, `finite.a` and `finite.c` are each other's adjoint for `finite.inner`. -/
theorem C07_adjoint (n i : ℕ) (hi : i < n) (phi psi : Psi R) (hphi : IsState n phi)
    (hpsi : IsState n psi) :
    ∃ aphi cpsi, opA n i phi = .ok aphi ∧ opC n i psi = .ok cpsi ∧
      inner phi cpsi = inner aphi psi := by
  obtain ⟨p, hp, hps, -, hpa⟩ := opA_spec hi hphi
  obtain ⟨q, hq, hqs, -, hqa⟩ := opC_spec hi hpsi
  refine ⟨p, q, hp, hq, ?_⟩
  rw [inner_eq hqs, inner_eq hpsi, hpa, hqa, innerProduct_create n i hi]

/-- C27, `finite.add`. -/
theorem C27_add (n : ℕ) (psi1 psi2 : Psi R) (h1 : IsState n psi1) (h2 : IsState n psi2) (mul : R) :
    IsState n (add psi1 psi2 mul) ∧
      ∀ S, ampl n (add psi1 psi2 mul) S = ampl n psi1 S + mul * ampl n psi2 S :=
  ⟨isState_addFold (fun x => mul * x) h1 h2, ampl_addFold (fun x => mul * x) (by simp) h2⟩

/-- C27, `finite.addToFirst` (the new value of its first argument). -/
theorem C27_addToFirst (n : ℕ) (psi1 psi2 : Psi R) (h1 : IsState n psi1) (h2 : IsState n psi2)
    (mul : R) :
    IsState n (addToFirst psi1 psi2 mul) ∧
      ∀ S, ampl n (addToFirst psi1 psi2 mul) S = ampl n psi1 S + mul * ampl n psi2 S := by
  refine ⟨isState_addFold (fun x => x * mul) h1 h2, fun S => ?_⟩
  rw [mul_comm]
  exact ampl_addFold (fun x => x * mul) (by simp) h2 S

/-- C27, `finite.inner` is the inner product of the represented vectors. -/
theorem C27_inner (n : ℕ) (phi psi : Psi R) (hpsi : IsState n psi) :
    inner phi psi = ∑ S ∈ (range n).powerset, star (ampl n phi S) * ampl n psi S :=
  inner_eq hpsi

/-- C27, `inner` is conjugate-symmetric. -/
theorem C27_inner_symm (n : ℕ) (phi psi : Psi R) (hphi : IsState n phi) (hpsi : IsState n psi) :
    inner psi phi = star (inner phi psi) := by
  rw [inner_eq hphi, inner_eq hpsi, innerProduct_star]

/-- C27, `inner` is linear in its second argument. -/
theorem C27_inner_linear (n : ℕ) (phi psi1 psi2 : Psi R) (h1 : IsState n psi1) (h2 : IsState n psi2)
    (mul : R) : inner phi (add psi1 psi2 mul) = inner phi psi1 + mul * inner phi psi2 := by
  rw [C27_inner n _ _ (C27_add n psi1 psi2 h1 h2 mul).1, C27_inner n _ _ h1, C27_inner n _ _ h2,
    mul_sum, ← sum_add_distrib]
  apply sum_congr rfl
  intro S _
  rw [(C27_add n psi1 psi2 h1 h2 mul).2]
  ring

/-- C27, `norm2` is the sum of the weights and vanishes only for the zero vector. -/
theorem C27_norm2 (n : ℕ) (psi : Psi R) (hpsi : IsState n psi) :
    (norm2 psi : F) = ∑ S ∈ (range n).powerset, abs2 (ampl n psi S) ∧
      0 ≤ (norm2 psi : F) ∧ ((norm2 psi : F) = 0 ↔ ∀ S, ampl n psi S = 0) := by
  refine ⟨norm2_eq hpsi, ?_, ?_⟩
  · rw [norm2_eq hpsi]; exact sum_nonneg fun S _ => Amp.abs2_nonneg _
  · rw [norm2_eq hpsi, sum_eq_zero_iff_of_nonneg (fun S _ => Amp.abs2_nonneg _)]
    constructor
    · intro h S
      by_cases hS : S ⊆ range n
      · exact Amp.abs2_eq_zero _ (h S (mem_powerset.2 hS))
      · exact ampl_of_not_subset hS
    · intro h S _
      rw [h S, Amp.abs2_zero]

end

/-- C27, `norm2(psi) = inner(psi, psi)` for complex amplitudes. -/
theorem C27_norm2_eq_inner (n : ℕ) (psi : Psi ℂ) (hpsi : IsState n psi) :
    ((norm2 psi : ℝ) : ℂ) = inner psi psi := by
  rw [norm2_eq hpsi, C27_inner n psi psi hpsi, Complex.ofReal_sum]
  apply sum_congr rfl
  intro S _
  exact Complex.normSq_eq_conj_mul_self

/-! Non-vacuity: a state of three spin-orbitals with two product states. -/

/-- A concrete state: `2|0> + 3|0,2>`. -/
def exPsi : Psi ℤ := [([128], 2), ([160], 3)]

theorem exPsi_isState : IsState 3 exPsi :=
  ⟨by decide, by
    intro k hk
    simp only [exPsi, Dict.keys, List.map_cons, List.map_nil, List.mem_cons, List.not_mem_nil,
      or_false] at hk
    rcases hk with rfl | rfl
    · exact ⟨{0}, by decide, by decide⟩
    · exact ⟨{0, 2}, by decide, by decide⟩⟩

example : opC 3 1 exPsi = .ok [([192], -2), ([224], -3)] := by decide
example : opA 3 2 exPsi = .ok [([128], -3)] := by decide
example : ∃ x y, (opC 3 1 exPsi >>= opA 3 1) = .ok x ∧ (opA 3 1 exPsi >>= opC 3 1) = .ok y ∧
    IsState 3 x ∧ IsState 3 y ∧ ∀ S, ampl 3 x S + ampl 3 y S = ampl 3 exPsi S := by
  simpa using C06_anticommutator_ac 3 1 1 (by decide) (by decide) exPsi exPsi_isState
example : inner exPsi exPsi = 13 := by decide
example : (norm2 exPsi : ℤ) = 13 := by decide
example : add exPsi [([128], 1), ([0], 5)] 2 = [([128], 4), ([160], 3), ([0], 10)] := by decide

end Verif
