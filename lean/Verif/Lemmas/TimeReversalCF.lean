/-
The crystal-field Hamiltonian is invariant under time reversal.
-/
import Verif.Lemmas.TimeReversalShell
import Verif.Lemmas.SymmetryCF

namespace Verif

open Finset Spec

noncomputable section

/-- The partner of a spin-orbital.  Bath states of the d shell are numbered like d orbitals: spin, then `m`; bath states of
the p shell have no partner. -/
def cfPartner (b1 : ℕ) (i : ℕ) : ℕ :=
  if i < 6 then 5 - i else if i < 16 then 21 - i else if i < 16 + b1 then i
  else 16 + b1 + ((i - (16 + b1)) / 10 * 10 + (9 - (i - (16 + b1)) % 10))

/-- `m + s` of a spin-orbital. -/
def cfCharge (b1 : ℕ) (i : ℕ) : ℤ :=
  if i < 6 then ((i % 3 : ℕ) : ℤ) - 1 + (i / 3 : ℕ) else if i < 16 then (((i - 6) % 5 : ℕ) : ℤ) - 2 + ((i - 6) / 5 : ℕ)
  else if i < 16 + b1 then 0 else (((i - (16 + b1)) % 5 : ℕ) : ℤ) - 2 + ((i - (16 + b1)) / 5 % 2 : ℕ)

def cfPhase (b1 : ℕ) (i : ℕ) : ℂ := (-1) ^ cfCharge b1 i

section
variable (b : ℕ → ℕ)

theorem pd_start1 : impStart (pdSystem b) 1 = 0 := by
  simp [impStart, pdSystem, allAngulars, angulars, shellsSize]

theorem pd_start2 : impStart (pdSystem b) 2 = 6 := by
  simp [impStart, pdSystem, allAngulars, angulars, shellsSize]

theorem pd_bath1 : bathStart (pdSystem b) (.int 1) = 16 := by
  simp [bathStart, nImpurity, pdSystem, allAngulars, angulars, shellsSize]

theorem pd_bath2 : bathStart (pdSystem b) (.int 2) = 16 + b 1 := by
  simp [bathStart, nImpurity, pdSystem, allAngulars, angulars, shellsSize]

theorem pd_total : nTotal (pdSystem b) = 16 + b 1 + b 2 := by
  simp [nTotal, nImpurity, nBath, pdSystem, allAngulars, angulars, shellsSize]
  omega

end

section
variable {b : ℕ → ℕ} {P : BasisParams} (hv : P.val 2 = 10) (hb : b 2 = 10 ∨ b 2 = 20) (hv1 : P.val 1 ≤ b 1)

include hv hb hv1 in
theorem cf_timeReversal : TimeReversal b P (cfPartner (b 1)) (cfPhase (b 1)) := by
  constructor
  · intro l hl s hs m hm
    have hm := mem_Icc.1 hm
    simp only [mem_insert, mem_singleton] at hs
    simp only [List.mem_cons, List.not_mem_nil, or_false] at hl
    unfold position cfPhase
    dsimp only
    rcases hl with rfl | rfl
    · rw [pd_start1]
      push_cast at hm
      constructor
      · unfold cfPartner
        rw [if_pos (by rcases hs with rfl | rfl <;> simp <;> omega)]
        rcases hs with rfl | rfl <;> simp <;> omega
      · congr 1
        unfold cfCharge
        rw [if_pos (by rcases hs with rfl | rfl <;> simp <;> omega)]
        rcases hs with rfl | rfl <;> simp <;> omega
    · rw [pd_start2]
      push_cast at hm
      constructor
      · unfold cfPartner
        rcases hs with rfl | rfl
        · rw [if_neg (by simp), if_pos (by simp; omega)]
          simp; omega
        · rw [if_neg (by simp), if_pos (by simp; omega)]
          simp; omega
      · congr 1
        unfold cfCharge
        rcases hs with rfl | rfl
        · rw [if_neg (by simp), if_pos (by simp; omega)]
          simp; omega
        · rw [if_neg (by simp), if_pos (by simp; omega)]
          simp; omega
  · intro i hi
    rw [pd_total] at hi ⊢
    unfold cfPartner
    split_ifs <;> omega
  · intro i
    unfold cfPhase
    rw [norm_zpow, norm_neg, norm_one, one_zpow]
  · intro l hl i hi
    rw [pd_total] at hi
    simp only [List.mem_cons, List.not_mem_nil, or_false] at hl
    unfold valOrbs conOrbs cfPartner
    rcases hl with rfl | rfl
    · rw [pd_bath1]
      simp only [mem_Ico]
      split_ifs <;> omega
    · rw [pd_bath2, hv]
      simp only [mem_Ico]
      split_ifs <;> omega

theorem cf_partner_phase (h1 : b 1 = 0) (i : ℕ) (hi : i < nTotal (pdSystem b)) :
    cfPhase (b 1) (cfPartner (b 1) i) = -cfPhase (b 1) i := by
  rw [pd_total] at hi
  unfold cfPhase
  have h : (cfCharge (b 1) (cfPartner (b 1) i) - (cfCharge (b 1) i + 1)) % 2 = 0 := by
    unfold cfCharge cfPartner
    split_ifs <;> omega
  rw [neg_one_zpow_congr h, zpow_add₀ (by norm_num), zpow_one, mul_neg_one]

end

/-- The cubic orbitals are invariant. -/
theorem cubicD_flip : ∀ i < 5, ∀ c < 5, star (cubicD.val i c) = (-1) ^ i * cubicD.val (4 - i) c := by
  intro i hi c hc
  rw [cubicD_val i hi c hc, cubicD_val (4 - i) (by omega) c hc]
  interval_cases i <;> interval_cases c <;> simp [rsqrt2_conj] <;> ring

section
variable {n : ℕ} {π : ℕ → ℕ} {φ : ℕ → ℂ} (hπ : ∀ i < n, π i < n ∧ π (π i) = i) (hφ : ∀ i, ‖φ i‖ = 1)

include hπ hφ in
theorem hopSum_reverse {p q p' q' : ℕ → ℕ} {a : ℤ} (hp : ∀ i < 5, p i < n ∧ π (p i) = p' (4 - i) ∧ φ (p i) = (-1) ^ ((i : ℤ) + a))
    (hq : ∀ i < 5, q i < n ∧ π (q i) = q' (4 - i) ∧ φ (q i) = (-1) ^ ((i : ℤ) + a)) (w : ℕ → ℝ) (v : Vec ℂ) :
    reverse n π φ (hopSum ⟨p, cubicD.val⟩ ⟨q, cubicD.val⟩ w v)
      = hopSum ⟨p', cubicD.val⟩ ⟨q', cubicD.val⟩ w (reverse n π φ v) := by
  have key : ∀ (p q : ℕ → ℕ) (v : Vec ℂ), hopSum ⟨p, cubicD.val⟩ ⟨q, cubicD.val⟩ w v
      = fun F => ∑ x ∈ range 5 ×ˢ range 5, (∑ c ∈ range 5, (w c : ℂ) * (cubicD.val x.1 c * star (cubicD.val x.2 c))) *
        create (p x.1) (annihilate (q x.2) v) F := by
    intro p q v
    funext F
    unfold hopSum
    simp only [create_annihilate_in, mul_sum, sum_mul]
    rw [sum_product]
    conv_lhs => rw [sum_comm]
    refine sum_congr rfl fun i _ => ?_
    conv_lhs => rw [sum_comm]
    refine sum_congr rfl fun j _ => ?_
    refine sum_congr rfl fun c _ => ?_
    ring
  rw [key, key, reverse_sum]
  funext F
  refine sum_bij' (fun x _ => (4 - x.1, 4 - x.2)) (fun x _ => (4 - x.1, 4 - x.2)) ?_ ?_ ?_ ?_ ?_
  · intro x hx
    simp only [mem_product, mem_range] at hx ⊢
    omega
  · intro x hx
    simp only [mem_product, mem_range] at hx ⊢
    omega
  · intro x hx
    simp only [mem_product, mem_range] at hx
    refine Prod.ext ?_ ?_ <;> dsimp only <;> omega
  · intro x hx
    simp only [mem_product, mem_range] at hx
    refine Prod.ext ?_ ?_ <;> dsimp only <;> omega
  · rintro ⟨i, j⟩ hx
    simp only [mem_product, mem_range] at hx
    obtain ⟨hi, hj⟩ := hx
    obtain ⟨p1, p2, p3⟩ := hp i hi
    obtain ⟨q1, q2, q3⟩ := hq j hj
    dsimp only
    rw [reverse_hop hπ hφ p1 q1, p2, q2, p3, q3, Pi.smul_apply, smul_eq_mul, ← mul_assoc]
    congr 1
    rw [star_neg_one_zpow, ← zpow_add₀ (by norm_num : (-1 : ℂ) ≠ 0), star_sum, sum_mul]
    refine sum_congr rfl fun c hc => ?_
    have h1 : ((-1 : ℂ) ^ ((i : ℤ) + a + ((j : ℤ) + a))) = (-1) ^ i * (-1) ^ j := by
      rw [neg_one_zpow_congr (k' := (i : ℤ) + j) (by omega), zpow_add₀ (by norm_num), zpow_natCast, zpow_natCast]
    have h2 : ∀ k : ℕ, ((-1 : ℂ) ^ k) * (-1) ^ k = 1 := fun k => by rw [← mul_pow]; norm_num
    have f1 := cubicD_flip i hi c (mem_range.1 hc)
    have f2 := cubicD_flip (4 - j) (by omega) c (mem_range.1 hc)
    rw [show 4 - (4 - j) = j by omega] at f2
    have h3 : ((-1 : ℂ) ^ (4 - j)) = (-1) ^ j := by interval_cases j <;> norm_num
    rw [star_mul', star_mul', star_star, star_ofReal, f1, f2, h1, h3]
    linear_combination (w c : ℂ) * cubicD.val (4 - i) c * cubicD.val j c * (-1) ^ j * h2 i

end

/-- The operator of a crystal-field file is invariant. -/
theorem cf_reverse {b : ℕ → ℕ} {P : BasisParams} {C : CFParams} {h0 : Op Label ℂ} (hv : P.val 2 = 10) (hb : b 2 = 10 ∨ b 2 = 20)
    (hv1 : P.val 1 ≤ b 1)
    (h : getCFHamiltonian [(1, b 1), (2, b 2)] [(1, P.val 1), (2, P.val 2)] C "spherical" = .ok h0) (v : Vec ℂ) :
    operator (labelSpec (position (pdSystem b)) h0) (reverse (nTotal (pdSystem b)) (cfPartner (b 1)) (cfPhase (b 1)) v)
      = reverse (nTotal (pdSystem b)) (cfPartner (b 1)) (cfPhase (b 1)) (operator (labelSpec (position (pdSystem b)) h0) v) := by
  obtain ⟨h0', u, eg, t2g, e, hu, -, -, -, -, -, hm⟩ := C53_meaning (nBaths := [(1, b 1), (2, b 2)])
    (nValBaths := [(1, P.val 1), (2, P.val 2)]) C (b 2) (P.val 2) rfl rfl (Or.inl (rfl : "spherical" = "spherical"))
  obtain rfl := Except.ok.inj (h.symm.trans e)
  obtain rfl : cubicD = u := Except.ok.inj hu
  have hR := cf_timeReversal hv hb hv1
  have hspin : ∀ s ∈ ({0, 1} : Finset ℤ), s = 0 ∨ s = 1 := fun s hs => by simpa using hs
  let n := nTotal (pdSystem b)
  let R := reverse n (cfPartner (b 1)) (cfPhase (b 1))
  let f := position (pdSystem b)
  have hd : ∀ s ∈ ({0, 1} : Finset ℤ), ∀ i < 5, (dOrbitals f cubicD.val s).pos i < n ∧
      cfPartner (b 1) ((dOrbitals f cubicD.val s).pos i) = (dOrbitals f cubicD.val (1 - s)).pos (4 - i) ∧
      cfPhase (b 1) ((dOrbitals f cubicD.val s).pos i) = (-1) ^ ((i : ℤ) + (s - 2)) := by
    intro s hs i hi
    have hm : (i : ℤ) - 2 ∈ mRange 2 := Finset.mem_Icc.2 ⟨by push_cast; omega, by push_cast; omega⟩
    have h1 := hR.shell 2 (by simp) s hs _ hm
    refine ⟨shell_lt (by simp) hs hm, h1.1.trans ?_, h1.2.trans ?_⟩
    · show position (pdSystem b) _ = position (pdSystem b) (.imp 2 (1 - s) (((4 - i : ℕ) : ℤ) - 2))
      congr 2
      omega
    · congr 1
      ring
  have hbath : ∀ c : ℤ, (c = 0 ∨ (c = 10 ∧ b 2 = 20)) → ∀ s ∈ ({0, 1} : Finset ℤ), ∀ i < 5,
      (bathOrbitals f cubicD.val (c + 5 * s)).pos i < n ∧
      cfPartner (b 1) ((bathOrbitals f cubicD.val (c + 5 * s)).pos i)
        = (bathOrbitals f cubicD.val (c + 5 * (1 - s))).pos (4 - i) ∧
      cfPhase (b 1) ((bathOrbitals f cubicD.val (c + 5 * s)).pos i) = (-1) ^ ((i : ℤ) + (s - 2)) := by
    intro c hc s hs i hi
    have hs' := hspin s hs
    have e : ∀ k : ℤ, f (.bath (.int 2) k) = 16 + b 1 + k.toNat := fun k => by
      show bathStart (pdSystem b) (.int 2) + k.toNat = _
      rw [pd_bath2]
    show f (.bath (.int 2) _) < n ∧ cfPartner _ (f (.bath (.int 2) _)) = f (.bath (.int 2) _) ∧ cfPhase _ (f (.bath (.int 2) _)) = _
    simp only [e]
    refine ⟨?_, ?_, ?_⟩
    · show _ < nTotal (pdSystem b)
      rw [pd_total]
      omega
    · unfold cfPartner
      rw [if_neg (by omega), if_neg (by omega), if_neg (by omega)]
      omega
    · unfold cfPhase cfCharge
      rw [if_neg (by omega), if_neg (by omega), if_neg (by omega)]
      congr 1
      omega
  have hflip : ∀ g : ℤ → Vec ℂ, ∑ s ∈ ({0, 1} : Finset ℤ), g (1 - s) = ∑ s ∈ ({0, 1} : Finset ℤ), g s := by
    intro g
    rw [sum_pair (by decide), sum_pair (by decide)]
    show g 1 + g 0 = _
    rw [add_comm]
  have hadd : ∀ x y, R (x + y) = R x + R y := fun x y => reverse_add x y
  have hRsum : ∀ g : ℤ → Vec ℂ, R (∑ s ∈ ({0, 1} : Finset ℤ), g s) = ∑ s ∈ ({0, 1} : Finset ℤ), R (g s) := by
    intro g
    rw [sum_pair (by decide), sum_pair (by decide)]
    exact reverse_add _ _
  have hterms : ∀ c : ℤ, (c = 0 ∨ (c = 10 ∧ b 2 = 20)) → ∀ (e1 e2 w1 w2 : ℝ) ,
      R (bathTerms f cubicD.val cubicD.val (fun s => c + 5 * s) (egT2g e1 e2) (egT2g w1 w2) v)
      = bathTerms f cubicD.val cubicD.val (fun s => c + 5 * s) (egT2g e1 e2) (egT2g w1 w2) (R v) := by
    intro c hc e1 e2 w1 w2
    have k1 : ∀ v, bathTerms f cubicD.val cubicD.val (fun s => c + 5 * s) (egT2g e1 e2) (egT2g w1 w2) v
        = ∑ s ∈ ({0, 1} : Finset ℤ),
          (hopSum (bathOrbitals f cubicD.val (c + 5 * s)) (bathOrbitals f cubicD.val (c + 5 * s)) (egT2g e1 e2) v
          + (hopSum (bathOrbitals f cubicD.val (c + 5 * s)) (dOrbitals f cubicD.val s) (egT2g w1 w2) v
            + hopSum (dOrbitals f cubicD.val s) (bathOrbitals f cubicD.val (c + 5 * s)) (egT2g w1 w2) v)) := by
      intro v
      funext F
      rw [Finset.sum_apply]
      rfl
    rw [k1, k1, hRsum]
    refine Eq.trans (sum_congr rfl fun s hs => ?_) (hflip _)
    have r1 : R (hopSum (bathOrbitals f cubicD.val (c + 5 * s)) (bathOrbitals f cubicD.val (c + 5 * s)) (egT2g e1 e2) v)
        = hopSum (bathOrbitals f cubicD.val (c + 5 * (1 - s))) (bathOrbitals f cubicD.val (c + 5 * (1 - s))) (egT2g e1 e2) (R v) :=
      hopSum_reverse hR.partner hR.unit (hbath c hc s hs) (hbath c hc s hs) (egT2g e1 e2) v
    have r2 : R (hopSum (bathOrbitals f cubicD.val (c + 5 * s)) (dOrbitals f cubicD.val s) (egT2g w1 w2) v)
        = hopSum (bathOrbitals f cubicD.val (c + 5 * (1 - s))) (dOrbitals f cubicD.val (1 - s)) (egT2g w1 w2) (R v) :=
      hopSum_reverse hR.partner hR.unit (hbath c hc s hs) (hd s hs) (egT2g w1 w2) v
    have r3 : R (hopSum (dOrbitals f cubicD.val s) (bathOrbitals f cubicD.val (c + 5 * s)) (egT2g w1 w2) v)
        = hopSum (dOrbitals f cubicD.val (1 - s)) (bathOrbitals f cubicD.val (c + 5 * (1 - s))) (egT2g w1 w2) (R v) :=
      hopSum_reverse hR.partner hR.unit (hd s hs) (hbath c hc s hs) (egT2g w1 w2) v
    rw [hadd, hadd, r1, r2, r3]
  have h1 : R (fun F => ∑ s ∈ ({0, 1} : Finset ℤ), hopSum (dOrbitals f cubicD.val s) (dOrbitals f cubicD.val s) (egT2g eg t2g) v F)
      = fun F => ∑ s ∈ ({0, 1} : Finset ℤ), hopSum (dOrbitals f cubicD.val s) (dOrbitals f cubicD.val s) (egT2g eg t2g) (R v) F := by
    have k1 : ∀ v, (fun F => ∑ s ∈ ({0, 1} : Finset ℤ), hopSum (dOrbitals f cubicD.val s) (dOrbitals f cubicD.val s) (egT2g eg t2g) v F)
        = ∑ s ∈ ({0, 1} : Finset ℤ), hopSum (dOrbitals f cubicD.val s) (dOrbitals f cubicD.val s) (egT2g eg t2g) v := by
      intro v
      funext F
      rw [Finset.sum_apply]
    refine (congrArg R (k1 v)).trans (Eq.trans ?_ (k1 (R v)).symm)
    rw [hRsum]
    refine Eq.trans (sum_congr rfl fun s hs => ?_) (hflip _)
    exact hopSum_reverse hR.partner hR.unit (hd s hs) (hd s hs) (egT2g eg t2g) v
  have h2 := hterms 0 (Or.inl rfl)
  simp only [zero_add] at h2
  have hc : ¬ ("spherical" = "cubic") := by decide
  have hop : ∀ v, operator (labelSpec f h0) v
      = (fun F => ∑ s ∈ ({0, 1} : Finset ℤ), hopSum (dOrbitals f cubicD.val s) (dOrbitals f cubicD.val s) (egT2g eg t2g) v F)
        + bathTerms f cubicD.val cubicD.val (fun s => 5 * s) (egT2g C.eValEg C.eValT2g) (egT2g C.vValEg C.vValT2g) v
        + if (b 2 : ℤ) - P.val 2 = 10 then bathTerms f cubicD.val cubicD.val (fun s => 10 + 5 * s) (egT2g C.eConEg C.eConT2g)
          (egT2g C.vConEg C.vConT2g) v else 0 := by
    intro v
    funext F
    rw [hm _ (fun _ => rfl) (fun h => absurd h hc)]
    rw [Pi.add_apply, Pi.add_apply]
    congr 1
    split <;> rfl
  show operator (labelSpec f h0) (R v) = R (operator (labelSpec f h0) v)
  rw [hop, hop]
  rw [hadd, hadd, h1, h2]
  congr 1
  split
  · rename_i h10
    exact (hterms 10 (Or.inr ⟨rfl, by omega⟩) _ _ _ _).symm
  · exact reverse_zero.symm

end

end Verif
