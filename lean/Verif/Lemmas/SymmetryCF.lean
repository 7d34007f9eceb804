/-
The crystal-field Hamiltonian is invariant under rotation by 90 degrees about the z axis.
-/
import Verif.Lemmas.Symmetry
import Verif.Prop.CommandLine

namespace Verif

open Finset Spec

noncomputable section

/-- The power of `i` by which an electron is multiplied.  The bath states of the d shell are numbered like the d
orbitals: spin, then `m`. -/
def quarterCharge : Label → ℤ
  | .imp _ s m => m + s
  | .bath _ k => k % 5 - 2 + k / 5 % 2

open Classical in
def quarterPhase (b : ℕ → ℕ) (p : ℕ) : ℂ :=
  if h : ∃ x, InSystem (pdSystem b) x ∧ position (pdSystem b) x = p then Complex.I ^ quarterCharge h.choose else 1

theorem pd_good (b : ℕ → ℕ) : GoodSystem (pdSystem b) := goodSystem_intKeys (nBaths := [(1, b 1), (2, b 2)]) (pd_nodup b)

theorem quarterPhase_eq {b : ℕ → ℕ} {x : Label} (hx : InSystem (pdSystem b) x) :
    quarterPhase b (position (pdSystem b) x) = Complex.I ^ quarterCharge x := by
  have h : ∃ y, InSystem (pdSystem b) y ∧ position (pdSystem b) y = position (pdSystem b) x := ⟨x, hx, rfl⟩
  unfold quarterPhase
  rw [dif_pos h, position_inj (pd_good b) h.choose_spec.1 hx h.choose_spec.2]

theorem quarterPhase_turn (b : ℕ → ℕ) : QuarterTurn b (quarterPhase b) := by
  constructor
  · intro l hl s hs m hm
    refine quarterPhase_eq (b := b) (x := .imp l s m) ?_
    have h1 := Finset.mem_Icc.1 hm
    refine ⟨?_, ?_, ?_, h1.1, h1.2⟩
    · simp only [List.mem_cons, List.not_mem_nil, or_false] at hl
      rcases hl with rfl | rfl <;> simp [pdSystem, allAngulars, angulars]
    · simp only [mem_insert, mem_singleton] at hs; omega
    · simp only [mem_insert, mem_singleton] at hs; omega
  · intro i
    unfold quarterPhase
    split
    · rw [norm_zpow, Complex.norm_I, one_zpow]
    · exact norm_one

theorem rsqrt2_conj : (starRingEnd ℂ) rsqrt2 = rsqrt2 := Complex.conj_ofReal _

/-- The matrix elements of the crystal field between `m = i - 2` and `m = j - 2`. -/
theorem cf_conserves (eg t2g : ℝ) : ∀ i : ℕ, i < 5 → ∀ j : ℕ, j < 5 → ((i : ℤ) - j) % 4 ≠ 0 →
    ∑ c ∈ range 5, (egT2g eg t2g c : ℂ) * (cubicD.val i c * star (cubicD.val j c)) = 0 := by
  intro i hi j hj h
  rw [Finset.sum_congr rfl fun c hc => by rw [cubicD_val i hi c (mem_range.1 hc), cubicD_val j hj c (mem_range.1 hc)]]
  have h2 := rsqrt2_sq
  interval_cases i <;> interval_cases j <;>
    first
    | (exfalso; revert h; decide)
    | (simp [Finset.sum_range_succ, egT2g, rsqrt2_conj]; done)
    | (simp [Finset.sum_range_succ, egT2g, rsqrt2_conj]; rw [I_rr, h2]; ring)

theorem hopSum_turn {χ : ℕ → ℂ} (hχ : ∀ i, ‖χ i‖ = 1) {p q : ℕ → ℕ} {a : ℤ} (hp : ∀ i < 5, χ (p i) = Complex.I ^ ((i : ℤ) + a))
    (hq : ∀ i < 5, χ (q i) = Complex.I ^ ((i : ℤ) + a)) (eg t2g : ℝ) (v : Vec ℂ) (F : Finset ℕ) :
    hopSum ⟨p, cubicD.val⟩ ⟨q, cubicD.val⟩ (egT2g eg t2g) (turn χ v) F
      = (∏ i ∈ F, χ i) * hopSum ⟨p, cubicD.val⟩ ⟨q, cubicD.val⟩ (egT2g eg t2g) v F := by
  have key : ∀ v : Vec ℂ, hopSum ⟨p, cubicD.val⟩ ⟨q, cubicD.val⟩ (egT2g eg t2g) v F
      = ∑ i ∈ range 5, ∑ j ∈ range 5, (∑ c ∈ range 5, (egT2g eg t2g c : ℂ) * (cubicD.val i c * star (cubicD.val j c))) *
        create (p i) (annihilate (q j) v) F := by
    intro v
    unfold hopSum
    simp only [create_annihilate_in, mul_sum, sum_mul]
    conv_lhs => rw [sum_comm]
    refine sum_congr rfl fun i _ => ?_
    conv_lhs => rw [sum_comm]
    refine sum_congr rfl fun j _ => ?_
    refine sum_congr rfl fun c _ => ?_
    ring
  rw [key, key, mul_sum]
  refine sum_congr rfl fun i hi => ?_
  rw [mul_sum]
  refine sum_congr rfl fun j hj => ?_
  by_cases h : ((i : ℤ) - j) % 4 = 0
  · rw [hop_turn hχ, hp i (mem_range.1 hi), hq j (mem_range.1 hj), star_I_zpow, ← zpow_neg, ← zpow_add₀ Complex.I_ne_zero]
    obtain ⟨k, hk⟩ := Int.dvd_of_emod_eq_zero h
    rw [show -((i : ℤ) + a) + ((j : ℤ) + a) = 4 * (-k) by omega, zpow_mul, show Complex.I ^ (4 : ℤ) = 1 from Complex.I_pow_four,
      one_zpow, one_mul]
    unfold turn
    ring
  · rw [cf_conserves eg t2g i (mem_range.1 hi) j (mem_range.1 hj) h]
    ring

/-- The operator of a crystal-field file is invariant. -/
theorem cf_invariant {b : ℕ → ℕ} {val : ℕ → ℤ} {C : CFParams} {h0 : Op Label ℂ} (hv : val 2 = 10) (hb : b 2 = 10 ∨ b 2 = 20)
    (h : getCFHamiltonian [(1, b 1), (2, b 2)] [(1, val 1), (2, val 2)] C "spherical" = .ok h0) :
    CommutesTurn (quarterPhase b) (operator (labelSpec (position (pdSystem b)) h0)) := by
  obtain ⟨h0', u, eg, t2g, e, hu, -, -, -, -, -, hm⟩ := C53_meaning (nBaths := [(1, b 1), (2, b 2)])
    (nValBaths := [(1, val 1), (2, val 2)]) C (b 2) (val 2) rfl rfl (Or.inl (rfl : "spherical" = "spherical"))
  obtain rfl := Except.ok.inj (h.symm.trans e)
  obtain rfl : cubicD = u := Except.ok.inj hu
  have hQ := quarterPhase_turn b
  intro v F
  have hspin : ∀ s ∈ ({0, 1} : Finset ℤ), s = 0 ∨ s = 1 := fun s hs => by simpa using hs
  have hd : ∀ s ∈ ({0, 1} : Finset ℤ), ∀ i < 5, quarterPhase b ((dOrbitals (position (pdSystem b)) cubicD.val s).pos i)
      = Complex.I ^ ((i : ℤ) + (s - 2)) := by
    intro s hs i hi
    refine (hQ.shell 2 (by simp) s hs ((i : ℤ) - 2) (Finset.mem_Icc.2 ⟨by push_cast; omega, by push_cast; omega⟩)).trans ?_
    congr 1
    ring
  have hbath : ∀ c : ℤ, (c = 0 ∨ (c = 10 ∧ b 2 = 20)) → ∀ s ∈ ({0, 1} : Finset ℤ), ∀ i < 5,
      quarterPhase b ((bathOrbitals (position (pdSystem b)) cubicD.val (c + 5 * s)).pos i)
      = Complex.I ^ ((i : ℤ) + (s - 2)) := by
    intro c hc s hs i hi
    have hs' := hspin s hs
    have hin : InSystem (pdSystem b) (.bath (.int 2) (c + 5 * s + i)) := by
      refine ⟨b 2, by simp [pdSystem], by omega, by omega⟩
    refine (quarterPhase_eq hin).trans ?_
    congr 1
    unfold quarterCharge
    dsimp only
    omega
  have hterms : ∀ c : ℤ, (c = 0 ∨ (c = 10 ∧ b 2 = 20)) → ∀ (e1 e2 w1 w2 : ℝ) ,
      bathTerms (position (pdSystem b)) cubicD.val cubicD.val (fun s => c + 5 * s) (egT2g e1 e2) (egT2g w1 w2)
        (turn (quarterPhase b) v) F
      = (∏ i ∈ F, quarterPhase b i) *
        bathTerms (position (pdSystem b)) cubicD.val cubicD.val (fun s => c + 5 * s) (egT2g e1 e2) (egT2g w1 w2) v F := by
    intro c hc e1 e2 w1 w2
    unfold bathTerms
    rw [mul_sum]
    refine sum_congr rfl fun s hs => ?_
    rw [mul_add, mul_add]
    refine congrArg₂ _ (hopSum_turn hQ.unit (hbath c hc s hs) (hbath c hc s hs) e1 e2 v F)
      (congrArg₂ _ (hopSum_turn hQ.unit (hbath c hc s hs) (hd s hs) w1 w2 v F)
        (hopSum_turn hQ.unit (hd s hs) (hbath c hc s hs) w1 w2 v F))
  have h1 : (∑ s ∈ ({0, 1} : Finset ℤ), hopSum (dOrbitals (position (pdSystem b)) cubicD.val s)
        (dOrbitals (position (pdSystem b)) cubicD.val s) (egT2g eg t2g) (turn (quarterPhase b) v) F)
      = (∏ i ∈ F, quarterPhase b i) * ∑ s ∈ ({0, 1} : Finset ℤ), hopSum (dOrbitals (position (pdSystem b)) cubicD.val s)
        (dOrbitals (position (pdSystem b)) cubicD.val s) (egT2g eg t2g) v F := by
    rw [mul_sum]
    exact sum_congr rfl fun s hs => hopSum_turn hQ.unit (hd s hs) (hd s hs) eg t2g v F
  have h2 := hterms 0 (Or.inl rfl)
  simp only [zero_add] at h2
  conv_rhs => unfold turn
  have hc : ¬ ("spherical" = "cubic") := by decide
  rw [hm _ (fun _ => rfl) (fun h => absurd h hc), hm _ (fun _ => rfl) (fun h => absurd h hc), h1, h2, mul_add, mul_add]
  congr 1
  split
  · rename_i h10
    exact hterms 10 (Or.inr ⟨rfl, by omega⟩) _ _ _ _
  · rw [mul_zero]

end

end Verif
