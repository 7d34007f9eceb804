/-
Lemmas on electron numbers of a set of spin-orbitals, and on Hamiltonians that differ by a multiple of
such a number.
-/
import Verif.Prop.Degenerate
import Verif.Spec.Levels

namespace Verif

open Finset Spec

noncomputable section

/-! ### Sectors -/

section
variable {O : Finset ℕ}

/-- `T` adds `q` electrons to `O`. -/
def Carries (O : Finset ℕ) (q : ℤ) (T : Vec ℂ → Vec ℂ) : Prop := ∀ k v, InSector O k v → InSector O (k + q) (T v)

theorem inSector_zero (k : ℤ) : InSector O k 0 := fun F h => absurd rfl h

theorem Spec.InSector.add {k : ℤ} {v w : Vec ℂ} (hv : InSector O k v) (hw : InSector O k w) : InSector O k (fun F => v F + w F) := by
  intro F h
  by_cases h1 : v F = 0
  · exact hw F fun h2 => h (by dsimp only; rw [h1, h2, add_zero])
  · exact hv F h1

theorem Spec.InSector.smul {k : ℤ} {v : Vec ℂ} (c : ℂ) (hv : InSector O k v) : InSector O k (fun F => c * v F) :=
  fun F h => hv F (right_ne_zero_of_mul h)

theorem Spec.InSector.sub {k : ℤ} {v w : Vec ℂ} (hv : InSector O k v) (hw : InSector O k w) : InSector O k (fun F => v F - w F) := by
  intro F h
  by_cases h1 : v F = 0
  · exact hw F fun h2 => h (by dsimp only; rw [h1, h2, sub_zero])
  · exact hv F h1

theorem Spec.InSector.sum {κ : Type*} {k : ℤ} {K : Finset κ} {v : κ → Vec ℂ} (hv : ∀ x ∈ K, InSector O k (v x)) :
    InSector O k (fun F => ∑ x ∈ K, v x F) := by
  intro F h
  obtain ⟨x, hx, hne⟩ := Finset.exists_ne_zero_of_sum_ne_zero h
  exact hv x hx F hne

theorem Spec.InSector.mono {k : ℤ} {v w : Vec ℂ} (hv : InSector O k v) (h : ∀ F, w F ≠ 0 → v F ≠ 0) : InSector O k w :=
  fun F hF => hv F (h F hF)

/-- The charge of a spin-orbital. -/
def charge (O : Finset ℕ) (i : ℕ) : ℤ := if i ∈ O then 1 else 0

theorem card_erase_inter {F : Finset ℕ} {i : ℕ} (hi : i ∈ F) :
    ((F ∩ O).card : ℤ) = (((F.erase i) ∩ O).card : ℤ) + charge O i := by
  unfold charge
  by_cases h : i ∈ O
  · rw [if_pos h, Finset.erase_inter, Finset.card_erase_of_mem (Finset.mem_inter.2 ⟨hi, h⟩)]
    have : 0 < (F ∩ O).card := Finset.card_pos.2 ⟨i, Finset.mem_inter.2 ⟨hi, h⟩⟩
    omega
  · rw [if_neg h, Finset.erase_inter, Finset.erase_eq_of_notMem fun h1 => h (Finset.mem_inter.1 h1).2, add_zero]

theorem create_carries (i : ℕ) : Carries O (charge O i) (create i) := by
  intro k v hv F h
  unfold create at h
  by_cases hi : i ∈ F
  · rw [if_pos hi] at h
    rw [card_erase_inter hi, hv _ (right_ne_zero_of_mul h)]
  · rw [if_neg hi] at h
    exact absurd rfl h

theorem annihilate_carries (i : ℕ) : Carries O (-charge O i) (annihilate i) := by
  intro k v hv F h
  unfold annihilate at h
  by_cases hi : i ∈ F
  · rw [if_pos hi] at h
    exact absurd rfl h
  · rw [if_neg hi] at h
    have h1 := hv _ (right_ne_zero_of_mul h)
    rw [card_erase_inter (Finset.mem_insert_self i F), Finset.erase_insert hi] at h1
    omega

theorem Spec.Contains.value {X : Finset ℕ} {q : ℤ} (h : Contains O X q) {i : ℕ} (hi : i ∈ X) : charge O i = q := by
  unfold charge
  rcases h with ⟨rfl, h⟩ | ⟨rfl, h⟩
  · rw [if_pos (h hi)]
  · rw [if_neg (Finset.disjoint_left.1 h hi)]

theorem position_mem {sys : NBaths} {l : ℕ} {s m : ℤ} (hs : s ∈ ({0, 1} : Finset ℤ)) (hm : m ∈ mRange l) :
    position sys (.imp l s m) ∈ impOrbs sys l := by
  unfold mRange at hm
  rw [Finset.mem_Icc] at hm
  unfold impOrbs position
  rw [Finset.mem_Ico]
  rw [Finset.mem_insert, Finset.mem_singleton] at hs
  rcases hs with rfl | rfl
  · simp only [Int.toNat_zero, zero_mul]; omega
  · simp only [Int.toNat_one, one_mul]; omega

variable {sys : NBaths} {q q' : ℤ} {l l' : ℕ}

theorem hop_carries {i j : ℕ} (hi : charge O i = q) (hj : charge O j = q') {k : ℤ} {v : Vec ℂ} (hv : InSector O k v) :
    InSector O (k + (q - q')) (create i (annihilate j v)) := by
  have := create_carries i _ _ (annihilate_carries j _ _ hv)
  rw [hi, hj] at this
  convert this using 1
  ring

theorem between_carries (hl : Contains O (impOrbs sys l) q) (hl' : Contains O (impOrbs sys l') q') (M : ℤ → ℤ → ℂ) :
    Carries O (q - q') (between (position sys) l l' M) := by
  intro k v hv
  unfold between
  refine InSector.sum fun s hs => InSector.sum fun m hm => InSector.sum fun m' hm' => InSector.smul _ ?_
  exact hop_carries (hl.value (position_mem hs hm)) (hl'.value (position_mem hs hm')) hv

theorem oneBody_carries (hl : Contains O (impOrbs sys l) q) (M : ℤ × ℤ → ℤ × ℤ → ℂ) :
    Carries O 0 (oneBody (position sys) l M) := by
  intro k v hv
  unfold oneBody
  refine InSector.sum fun x hx => InSector.smul _ ?_
  obtain ⟨h1, h2⟩ := Finset.mem_product.1 hx
  obtain ⟨h3, h4⟩ := Finset.mem_product.1 h1
  obtain ⟨h5, h6⟩ := Finset.mem_product.1 h2
  have := hop_carries (hl.value (position_mem h3 h4)) (hl.value (position_mem h5 h6)) hv
  rwa [sub_self] at this

theorem shellNumber_carries (hl : Contains O (impOrbs sys l) q) : Carries O 0 (shellNumber (position sys) l) := by
  intro k v hv
  unfold shellNumber
  refine InSector.sum fun x hx => ?_
  obtain ⟨h3, h4⟩ := Finset.mem_product.1 hx
  have := hop_carries (hl.value (position_mem h3 h4)) (hl.value (position_mem h3 h4)) hv
  rwa [sub_self] at this

theorem twoBody_carries {l1 l2 l3 l4 : ℕ} {q1 q2 q3 q4 : ℤ} (h1 : Contains O (impOrbs sys l1) q1)
    (h2 : Contains O (impOrbs sys l2) q2) (h3 : Contains O (impOrbs sys l3) q3) (h4 : Contains O (impOrbs sys l4) q4)
    (hq : q1 + q2 = q3 + q4) (u : ℤ → ℤ → ℤ → ℤ → ℝ) : Carries O 0 (twoBody (position sys) l1 l2 l3 l4 u) := by
  intro k v hv
  unfold twoBody
  refine InSector.smul _ (InSector.sum fun m1 hm1 => InSector.sum fun m2 hm2 => InSector.sum fun m3 hm3 =>
    InSector.sum fun m4 hm4 => InSector.sum fun s hs => InSector.sum fun s' hs' => InSector.smul _ ?_)
  have := create_carries (position sys (.imp l1 s m1)) _ _ (create_carries (position sys (.imp l2 s' m2)) _ _
    (annihilate_carries (position sys (.imp l3 s' m3)) _ _ (annihilate_carries (position sys (.imp l4 s m4)) _ _ hv)))
  rw [h1.value (position_mem hs hm1), h2.value (position_mem hs' hm2), h3.value (position_mem hs' hm3),
    h4.value (position_mem hs hm4)] at this
  convert this using 1
  linarith

/-- The Hamiltonian of main conserves the number of electrons in `O`. -/
theorem pdHamiltonian_carries {b : ℕ → ℕ} {p d : ℤ} (hp : Contains O (impOrbs (pdSystem b) 1) p)
    (hd : Contains O (impOrbs (pdSystem b) 2) d) {gaunt : ℕ → ℕ → ℕ → ℤ → ℤ → ℤ → ℝ} {A : MainArgs} {n3d : ℤ} {hx hy hz : ℝ}
    {h0 : Op Label ℂ} (hh : Carries O 0 (operator (labelSpec (position (pdSystem b)) h0))) :
    Carries O 0 (pdHamiltonian gaunt (position (pdSystem b)) A n3d hx hy hz h0) := by
  intro k v hv
  unfold pdHamiltonian
  refine InSector.add (InSector.sub (InSector.add (InSector.add (InSector.add (InSector.add (InSector.add (InSector.add
    (twoBody_carries hd hd hd hd rfl _ _ _ hv) (twoBody_carries hp hp hp hp rfl _ _ _ hv))
    (InSector.add (twoBody_carries hp hd hd hp (add_comm _ _) _ _ _ hv) (twoBody_carries hd hp hp hd (add_comm _ _) _ _ _ hv)))
    (InSector.add (twoBody_carries hp hd hp hd rfl _ _ _ hv) (twoBody_carries hd hp hd hp rfl _ _ _ hv)))
    (oneBody_carries hd _ _ _ hv)) (oneBody_carries hp _ _ _ hv)) (oneBody_carries hd _ _ _ hv))
    (InSector.add (InSector.smul _ (shellNumber_carries hd _ _ hv)) (InSector.smul _ (shellNumber_carries hp _ _ hv)))) (hh _ _ hv)

theorem exciteVec_carries {S : SimulateArgs} {T : Vec ℂ → Vec ℂ} (hT : Carries O q T) : Carries O q (exciteVec S T) := by
  intro k v hv
  refine (hT k v hv).mono fun F h => ?_
  unfold exciteVec excited at h
  split at h
  · exact h
  · exact absurd rfl h

theorem planeWaveDD_carries {S : SimulateArgs} {b : ℕ → ℕ} {d : ℤ} (hd : Contains O (impOrbs (pdSystem b) 2) d) (x : ℝ) :
    Carries O 0 (planeWaveDD S b x) := by
  intro k v hv
  have := between_carries hd hd (fun m m' =>
    planeWave S.gaunt S.sphHarm (radialIntegral S.jn S.RiNIXS S.RjNIXS S.radialMesh x) (Real.arccos (1 / Real.sqrt 3))
      (Real.pi / 4) 1 4 2 m 2 m') k v hv
  rw [sub_self] at this
  exact InSector.smul _ this

end

/-! ### Hamiltonians that differ by a multiple of the number of electrons in a set of spin-orbitals -/

/-- `H` and `H'` act in the space of the product states in `allowed`, conserve the number of electrons in `O`, and differ by
`c` times this number. -/
structure Raised (n : ℕ) (O : Finset ℕ) (allowed : Finset ℕ → Prop) (c : ℝ) (H H' : Vec ℂ → Vec ℂ) : Prop where
  lin : IsLinearMap ℂ H
  lin' : IsLinearMap ℂ H'
  same : ∀ x y : Vec ℂ, ∀ F, (∀ G, (G ∩ O).card = (F ∩ O).card → x G = y G) → H x F = H y F
  shift : ∀ x, ∀ F ⊆ range n, allowed F → H' x F = H x F + (c : ℂ) * ((F ∩ O).card : ℂ) * x F
  out : ∀ x, ∀ F ⊆ range n, ¬ allowed F → H x F = 0
  out' : ∀ x, ∀ F ⊆ range n, ¬ allowed F → H' x F = 0

section
variable {n : ℕ} {O : Finset ℕ} {allowed : Finset ℕ → Prop} {c : ℝ} {H H' : Vec ℂ → Vec ℂ} (hR : Raised n O allowed c H H')

/-- The part of a vector with `k` electrons in `O`. -/
def sectorPart (O : Finset ℕ) (k : ℤ) (x : Vec ℂ) : Vec ℂ := fun F => if ((F ∩ O).card : ℤ) = k then x F else 0

theorem sectorPart_inSector (k : ℤ) (x : Vec ℂ) : InSector O k (sectorPart O k x) := by
  intro F h
  unfold sectorPart at h
  split at h
  · assumption
  · exact absurd rfl h

include hR in
theorem Raised.part (k : ℤ) (x : Vec ℂ) (F : Finset ℕ) : H (sectorPart O k x) F = sectorPart O k (H x) F := by
  by_cases hF : ((F ∩ O).card : ℤ) = k
  · conv_rhs => unfold sectorPart
    rw [if_pos hF]
    refine hR.same _ _ F fun G hG => ?_
    unfold sectorPart
    rw [if_pos (by rw [hG]; exact hF)]
  · conv_rhs => unfold sectorPart
    rw [if_neg hF, hR.same _ 0 F, hR.lin.map_zero]
    · rfl
    · intro G hG
      unfold sectorPart
      rw [if_neg (by rw [hG]; exact hF)]
      rfl

include hR in
theorem Raised.solves_part {z : ℂ} {b x : Vec ℂ} {k : ℤ} (hb : InSector O k b) (hx : Solves n H z b x) :
    Solves n H z b (sectorPart O k x) := by
  refine ⟨fun F hF => ?_, fun F hF => ?_⟩
  · rw [hR.part]
    unfold sectorPart
    by_cases h : ((F ∩ O).card : ℤ) = k
    · rw [if_pos h, if_pos h]
      exact hx.inside F hF
    · rw [if_neg h, if_neg h, mul_zero, sub_zero]
      by_contra hne
      exact h (hb F fun h' => hne h'.symm)
  · unfold sectorPart
    rw [hx.outside F hF, ite_self]

include hR in
theorem Raised.solves_iff {z z' : ℂ} {k : ℤ} (hz : z ≠ 0) (hz' : z' ≠ 0) (h : z' = z + c * k) {b x : Vec ℂ}
    (hb : ∀ F ⊆ range n, ¬ allowed F → b F = 0) (hx : InSector O k x) : Solves n H z b x ↔ Solves n H' z' b x := by
  have key : ∀ F ⊆ range n, (z * x F - H x F = b F ↔ z' * x F - H' x F = b F) := by
    intro F hF
    by_cases ha : allowed F
    · have : z' * x F - H' x F = z * x F - H x F := by
        rw [hR.shift x F hF ha, h]
        by_cases h0 : x F = 0
        · rw [h0]; ring
        · rw [← hx F h0]
          push_cast
          ring
      rw [this]
    · rw [hR.out x F hF ha, hR.out' x F hF ha, hb F hF ha]
      simp [hz, hz']
  exact ⟨fun hs => ⟨fun F hF => (key F hF).1 (hs.inside F hF), hs.outside⟩,
    fun hs => ⟨fun F hF => (key F hF).2 (hs.inside F hF), hs.outside⟩⟩

/-- If the equation has one solution for one right-hand side, it has at most one for every right-hand side. -/
theorem solves_unique_any (hlin : IsLinearMap ℂ H) {z : ℂ} {b₀ x₀ : Vec ℂ} (h0 : Solves n H z b₀ x₀)
    (hu : ∀ y, Solves n H z b₀ y → y = x₀) {b x y : Vec ℂ} (hx : Solves n H z b x) (hy : Solves n H z b y) : y = x := by
  have h1 : Solves n H z b₀ (x₀ + (y - x)) := by
    refine ⟨fun F hF => ?_, fun F hF => ?_⟩
    · have a := h0.inside F hF
      have b := hx.inside F hF
      have c := hy.inside F hF
      rw [hlin.map_add, hlin.map_sub]
      simp only [Pi.add_apply, Pi.sub_apply]
      linear_combination a + c - b
    · simp only [Pi.add_apply, Pi.sub_apply, h0.outside F hF, hx.outside F hF, hy.outside F hF, sub_self, add_zero]
  have h2 := hu _ h1
  have h3 : y - x = 0 := by
    have : x₀ + (y - x) = x₀ + 0 := by rw [h2, add_zero]
    exact add_left_cancel this
  exact sub_eq_zero.1 h3

include hR in
/-- The solutions of the two equations. -/
theorem Raised.unique {z z' : ℂ} {k : ℤ} (hz : z ≠ 0) (hz' : z' ≠ 0) (h : z' = z + c * k) {b₀ x₀ : Vec ℂ}
    (h0 : Solves n H z b₀ x₀) (hu : ∀ y, Solves n H z b₀ y → y = x₀) {b x' : Vec ℂ} (hin : InSector O k b)
    (hb : ∀ F ⊆ range n, ¬ allowed F → b F = 0) (hx : Solves n H' z' b x') (hu' : ∀ y, Solves n H' z' b y → y = x') :
    Solves n H z b x' ∧ InSector O k x' ∧ ∀ y, Solves n H z b y → y = x' := by
  have hsh' : ∀ x y : Vec ℂ, ∀ F, F ⊆ range n → (∀ G, (G ∩ O).card = (F ∩ O).card → x G = y G) → H' x F = H' y F := by
    intro x y F hF hxy
    by_cases ha : allowed F
    · rw [hR.shift x F hF ha, hR.shift y F hF ha, hR.same x y F hxy, hxy F rfl]
    · rw [hR.out' x F hF ha, hR.out' y F hF ha]
  have hpart : Solves n H' z' b (sectorPart O k x') := by
    refine ⟨fun F hF => ?_, fun F hF => ?_⟩
    · by_cases h : ((F ∩ O).card : ℤ) = k
      · rw [hsh' _ x' F hF fun G hG => ?_]
        · have := hx.inside F hF
          unfold sectorPart
          rwa [if_pos h]
        · unfold sectorPart
          rw [if_pos (by rw [hG]; exact h)]
      · rw [hsh' _ 0 F hF fun G hG => ?_, hR.lin'.map_zero]
        · unfold sectorPart
          rw [if_neg h, mul_zero, Pi.zero_apply, sub_zero]
          by_contra hne
          exact h (hin F fun h' => hne h'.symm)
        · unfold sectorPart
          rw [if_neg (by rw [hG]; exact h)]
          rfl
    · unfold sectorPart
      rw [hx.outside F hF, ite_self]
  have hsec : InSector O k x' := by
    rw [← hu' _ hpart]
    exact sectorPart_inSector k x'
  have hs := (hR.solves_iff hz hz' h hb hsec).2 hx
  exact ⟨hs, hsec, fun y hy => solves_unique_any hR.lin h0 hu hs hy⟩

include hR in
theorem Raised.green {z z' : ℂ} {k : ℤ} (hz : z ≠ 0) (hz' : z' ≠ 0) (h : z' = z + c * k) {b₀ : Vec ℂ} {g₀ : ℂ}
    (h0 : IsGreen n H z b₀ g₀) {b : Vec ℂ} {g : ℂ} (hin : InSector O k b)
    (hb : ∀ F ⊆ range n, ¬ allowed F → b F = 0) (hg : IsGreen n H' z' b g) : IsGreen n H z b g := by
  obtain ⟨x₀, h1, h2, -⟩ := h0
  obtain ⟨x', h3, h4, h5⟩ := hg
  obtain ⟨h6, -, h7⟩ := hR.unique hz hz' h h1 h2 hin hb h3 h4
  exact ⟨x', h6, h7, h5⟩

end

end

end Verif
