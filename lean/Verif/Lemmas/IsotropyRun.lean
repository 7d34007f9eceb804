/-
Two runs of main that differ by a rotation.
-/
import Verif.Lemmas.Rotate3
import Verif.Lemmas.TimeReversalShell

namespace Verif

open Finset Matrix NormedSpace Spec

noncomputable section

/-! ### Families of operators -/

section
variable {b : ℕ → ℕ} {P : BasisParams} {u : ℕ → ℕ → ℂ} {D : ℕ → ℤ × ℤ → ℤ × ℤ → ℂ} (hT : ShellTurn b P u D)

theorem impOrb_mem {l a : ℕ} (ha : a < 2 * (2 * l + 1)) : impStart (pdSystem b) l + a ∈ impOrbs (pdSystem b) l := by
  unfold impOrbs
  rw [Finset.mem_Ico]
  omega

theorem impOrb_lt {l a : ℕ} (hl : l ∈ [1, 2]) (ha : a < 2 * (2 * l + 1)) : impStart (pdSystem b) l + a < nTotal (pdSystem b) :=
  impOrbs_lt hl (impOrb_mem ha)

/-- States `τ` that are only mixed with one another. -/
structure ClosedUnder (n : ℕ) (u : ℕ → ℕ → ℂ) (p : ℕ) (τ : ℕ → ℕ) : Prop where
  lt : ∀ c < p, τ c < n
  inj : ∀ a < p, ∀ c < p, τ a = τ c → a = c
  row : ∀ c < p, ∀ k < n, u (τ c) k ≠ 0 → ∃ a < p, k = τ a
  col : ∀ c < p, ∀ k < n, u k (τ c) ≠ 0 → ∃ a < p, k = τ a

section
variable {n : ℕ} {p : ℕ} {τ : ℕ → ℕ} (hU : UnitaryOn n u) (hτ : ClosedUnder n u p τ)

include hτ in
theorem block_sum {f : ℕ → ℂ} (hf : ∀ k < n, (∀ a < p, k ≠ τ a) → f k = 0) :
    ∑ a ∈ range p, f (τ a) = ∑ k ∈ range n, f k := by
  rw [← Finset.sum_image (f := f) (g := τ) (s := range p) fun a ha c hc => hτ.inj a (mem_range.1 (mem_coe.1 ha)) c (mem_range.1 (mem_coe.1 hc))]
  refine sum_subset (fun k hk => ?_) fun k hk hk' => ?_
  · obtain ⟨a, ha, rfl⟩ := mem_image.1 hk
    exact mem_range.2 (hτ.lt a (mem_range.1 ha))
  · exact hf k (mem_range.1 hk) fun a ha e => hk' (mem_image.2 ⟨a, mem_range.2 ha, e.symm⟩)

include hτ in
theorem closed_row {c k : ℕ} (hc : c < p) (hk : k < n) (h : ∀ a < p, k ≠ τ a) : u (τ c) k = 0 := by
  by_contra hne
  obtain ⟨a, ha, e⟩ := hτ.row c hc k hk hne
  exact h a ha e

include hτ in
theorem closed_col {c k : ℕ} (hc : c < p) (hk : k < n) (h : ∀ a < p, k ≠ τ a) : u k (τ c) = 0 := by
  by_contra hne
  obtain ⟨a, ha, e⟩ := hτ.col c hc k hk hne
  exact h a ha e

include hU hτ in
/-- Adding an electron to the states. -/
theorem create_family : FamilyCarried n u p (fun c a => star (u (τ c) (τ a))) (fun j => create (τ j)) fun j => create (τ j) where
  linear _ _ := create_linear _
  linear' _ _ := create_linear _
  unitary a ha a' ha' := by
    have e : ∀ c, star (star (u (τ c) (τ a))) * star (u (τ c) (τ a')) = star (u (τ c) (τ a')) * u (τ c) (τ a) := by
      intro c
      rw [star_star, mul_comm]
    simp only [e]
    rw [block_sum hτ (f := fun k => star (u k (τ a')) * u k (τ a)) fun k hk hk' => by
      rw [closed_col hτ ha hk hk', mul_zero], hU.1 _ (hτ.lt a' ha') _ (hτ.lt a ha)]
    by_cases h : a = a'
    · rw [if_pos h, if_pos (by rw [h])]
    · rw [if_neg h, if_neg fun e => h (hτ.inj _ ha _ ha' e.symm)]
  carried c hc v := by
    rw [linear_apply_sum (changeOrbitals_linear _ u)]
    funext F
    rw [block_sum hτ (f := fun k => star (u (τ c) k) * changeOrbitals n u (create k v) F) fun k hk hk' => by
      rw [closed_row hτ hc hk hk', star_zero, zero_mul]]
    have e : ∀ k ∈ range n, star (u (τ c) k) * changeOrbitals n u (create k v) F
        = ∑ i ∈ range n, u i k * star (u (τ c) k) * create i (changeOrbitals n u v) F := by
      intro k hk
      rw [changeOrbitals_create (mem_range.1 hk)]
      unfold createOrb
      rw [mul_sum]
      exact sum_congr rfl fun i _ => by ring
    rw [sum_congr rfl e, sum_comm]
    have e2 : ∀ i ∈ range n, ∑ k ∈ range n, u i k * star (u (τ c) k) * create i (changeOrbitals n u v) F
          = if i = τ c then create i (changeOrbitals n u v) F else 0 := by
      intro i hi
      rw [← sum_mul, hU.2 i (mem_range.1 hi) _ (hτ.lt c hc), ite_mul, one_mul, zero_mul]
    rw [sum_congr rfl e2, sum_ite_eq', if_pos (mem_range.2 (hτ.lt c hc))]

include hU hτ in
/-- Removing an electron from the states. -/
theorem annihilate_family : FamilyCarried n u p (fun c a => u (τ c) (τ a)) (fun j => annihilate (τ j)) fun j => annihilate (τ j) where
  linear _ _ := annihilate_linear _
  linear' _ _ := annihilate_linear _
  unitary a ha a' ha' := by
    rw [block_sum hτ (f := fun k => star (u k (τ a)) * u k (τ a')) fun k hk hk' => by
      rw [closed_col hτ ha' hk hk', mul_zero], hU.1 _ (hτ.lt a ha) _ (hτ.lt a' ha')]
    by_cases h : a = a'
    · rw [if_pos h, if_pos (by rw [h])]
    · rw [if_neg h, if_neg fun e => h (hτ.inj _ ha _ ha' e)]
  carried c hc v := by
    rw [linear_apply_sum (changeOrbitals_linear _ u)]
    funext F
    rw [block_sum hτ (f := fun k => u (τ c) k * changeOrbitals n u (annihilate k v) F) fun k hk hk' => by
      rw [closed_row hτ hc hk hk', zero_mul]]
    have e : ∀ k ∈ range n, u (τ c) k * changeOrbitals n u (annihilate k v) F
        = ∑ i ∈ range n, u (τ c) k * star (u i k) * annihilate i (changeOrbitals n u v) F := by
      intro k hk
      rw [changeOrbitals_annihilate hU (mem_range.1 hk)]
      unfold annihilateOrb
      rw [mul_sum]
      exact sum_congr rfl fun i _ => by ring
    rw [sum_congr rfl e, sum_comm]
    have e2 : ∀ i ∈ range n, ∑ k ∈ range n, u (τ c) k * star (u i k) * annihilate i (changeOrbitals n u v) F
          = if τ c = i then annihilate i (changeOrbitals n u v) F else 0 := by
      intro i hi
      rw [← sum_mul, hU.2 _ (hτ.lt c hc) i (mem_range.1 hi), ite_mul, one_mul, zero_mul]
    rw [sum_congr rfl e2, sum_ite_eq, if_pos (mem_range.2 (hτ.lt c hc))]

end

include hT in
/-- The states of a shell. -/
theorem shell_closed {l : ℕ} (hl : l ∈ [1, 2]) :
    ClosedUnder (nTotal (pdSystem b)) u (2 * (2 * l + 1)) fun j => impStart (pdSystem b) l + j := by
  have key : ∀ k ∈ impOrbs (pdSystem b) l, ∃ a < 2 * (2 * l + 1), k = impStart (pdSystem b) l + a := by
    intro k hk
    unfold impOrbs at hk
    rw [Finset.mem_Ico] at hk
    exact ⟨k - impStart (pdSystem b) l, by omega, by omega⟩
  refine ⟨fun c hc => impOrb_lt hl hc, fun a _ c _ e => by omega, fun c hc k hk h => ?_, fun c hc k hk h => ?_⟩
  · exact key k ((hT.groups l hl _ (impOrb_lt hl hc) k hk h).1.1 (impOrb_mem hc))
  · exact key k ((hT.groups l hl k hk _ (impOrb_lt hl hc) h).1.2 (impOrb_mem hc))

include hT in
/-- The two states of a shell with the same `m`, if the rotation does not change `m`. -/
theorem orbital_closed {l : ℕ} (hl : l ∈ [1, 2]) (hm : ∀ x ∈ shell l, ∀ y ∈ shell l, D l x y ≠ 0 → x.2 = y.2) {j : ℕ} (hj : j < 2 * l + 1) :
    ClosedUnder (nTotal (pdSystem b)) u 2 fun c => impStart (pdSystem b) l + (j + (2 * l + 1) * c) := by
  have hlt : ∀ c < 2, j + (2 * l + 1) * c < 2 * (2 * l + 1) := by
    intro c hc
    interval_cases c <;> omega
  have hpos : ∀ c : ℕ, c < 2 → impStart (pdSystem b) l + (j + (2 * l + 1) * c) = position (pdSystem b) (.imp l c (j - l)) := by
    intro c hc
    have : ((j : ℤ) - l + l).toNat = j := by omega
    show _ = impStart (pdSystem b) l + ((c : ℤ).toNat * (2 * l + 1) + ((j : ℤ) - l + l).toNat)
    rw [this, Int.toNat_natCast]
    ring
  have hx : ∀ c : ℕ, c < 2 → ((c : ℤ), (j : ℤ) - l) ∈ shell l := by
    intro c hc
    unfold shell
    rw [mem_product, Finset.mem_Icc]
    refine ⟨?_, by omega, by omega⟩
    interval_cases c <;> simp
  have key : ∀ k ∈ impOrbs (pdSystem b) l, ∃ x ∈ shell l, k = position (pdSystem b) (.imp l x.1 x.2) := by
    intro k hk
    unfold impOrbs at hk
    rw [Finset.mem_Ico] at hk
    obtain ⟨h1, h2, h3⟩ := shell_position (b := b) (l := l) (j := k - impStart (pdSystem b) l) (by omega)
    exact ⟨(_, _), mem_product.2 ⟨h1, h2⟩, (by omega : k = impStart (pdSystem b) l + (k - impStart (pdSystem b) l)).trans h3⟩
  have hD : ∀ x ∈ shell l, ∀ y ∈ shell l, u (position (pdSystem b) (.imp l x.1 x.2)) (position (pdSystem b) (.imp l y.1 y.2)) = D l x y := by
    intro x hx y hy
    rw [hT.shell l hl y hy _ (shell_position_lt hl hx), sum_eq_single_of_mem x hx, if_pos rfl]
    intro z hz hne
    exact if_neg fun e => hne (pd_position_inj hl hx hz e).symm
  have fin : ∀ x ∈ shell l, x.2 = (j : ℤ) - l → ∃ a < 2, position (pdSystem b) (.imp l x.1 x.2) = impStart (pdSystem b) l + (j + (2 * l + 1) * a) := by
    intro x hx e
    unfold shell at hx
    rw [mem_product] at hx
    have h1 := hx.1
    rw [mem_insert, mem_singleton] at h1
    refine ⟨x.1.toNat, by omega, ?_⟩
    rw [hpos _ (by omega), e]
    congr 2
    omega
  refine ⟨fun c hc => impOrb_lt hl (hlt c hc), fun a ha c hc e => ?_, fun c hc k hk h => ?_, fun c hc k hk h => ?_⟩
  · interval_cases a <;> interval_cases c <;> simp at e <;> first | rfl | omega
  · obtain ⟨x, hx', rfl⟩ := key k ((hT.groups l hl _ (impOrb_lt hl (hlt c hc)) k hk h).1.1 (impOrb_mem (hlt c hc)))
    rw [hpos c hc, hD _ (hx c hc) x hx'] at h
    exact fin x hx' (hm _ (hx c hc) x hx' h).symm
  · obtain ⟨x, hx', rfl⟩ := key k ((hT.groups l hl k hk _ (impOrb_lt hl (hlt c hc)) h).1.2 (impOrb_mem (hlt c hc)))
    rw [hpos c hc, hD x hx' _ (hx c hc)] at h
    exact fin x hx' (hm x hx' _ (hx c hc) h)

end

/-- Rotations of the spin do not change `m`. -/
theorem spin_turn_m (w : Fin 3 → ℝ) {l : ℕ} {x y : ℤ × ℤ} (hx : x ∈ shell l) (hy : y ∈ shell l)
    (h : expShell (turnGen spinComponent w) l x y ≠ 0) : x.2 = y.2 := by
  have k := turn_fixed (K := spinComponent) (l := l) (l' := l) (N := spinKept fun m m' => if m = y.2 ∧ m' = y.2 then 1 else 0)
    (fun a => spin_dipole l l (fun _ : Unit => fun m m' => if m = y.2 ∧ m' = y.2 then 1 else 0) (![sX, sY, sZ] a)) w hx hy
  rw [sum_eq_single_of_mem y hy] at k
  · by_contra hne
    refine h ?_
    have e : ∀ z ∈ shell l, spinKept (fun m m' => if m = y.2 ∧ m' = y.2 then (1 : ℂ) else 0) x z * expShell (turnGen spinComponent w) l z y = 0 := by
      intro z _
      unfold spinKept
      simp [hne]
    rw [sum_eq_zero e] at k
    unfold spinKept at k
    simpa using k
  · intro z hz hne
    unfold spinKept
    by_cases h1 : z.1 = y.1
    · have h2 : ¬ z.2 = y.2 := fun h => hne (Prod.ext h1 h)
      simp [h2]
    · rw [if_neg h1, mul_zero]

/-- The directions x, y, z of the polarisation. -/
def axisPol (t : ℕ) : Vec3 ℂ := ⟨if t = 0 then 1 else 0, if t = 1 then 1 else 0, if t = 2 then 1 else 0⟩

/-- A real polarisation vector. -/
def realPol (h : Fin 3 → ℝ) : Vec3 ℂ := ⟨h 0, h 1, h 2⟩

theorem hopShell_sum {κ : Type} [Fintype κ] (f : Label → ℕ) (l l' : ℕ) (c : κ → ℂ) (N : κ → ℤ × ℤ → ℤ × ℤ → ℂ) (v : Vec ℂ) (F : Finset ℕ) :
    hopShell f l l' (fun x y => ∑ a, c a * N a x y) v F = ∑ a, c a * hopShell f l l' (N a) v F := by
  unfold hopShell
  simp only [sum_mul, mul_sum]
  refine Eq.trans ?_ sum_comm
  refine sum_congr rfl fun x _ => ?_
  refine Eq.trans sum_comm ?_
  exact sum_congr rfl fun a _ => sum_congr rfl fun y _ => by ring

section
variable {gaunt : GauntFun}

theorem dipole_components (l l' : ℕ) (nx ny nz : ℂ) (m m' : ℤ) :
    dipole gaunt nx ny nz l m l' m' = nx * position1 gaunt l l' 0 m m' + ny * position1 gaunt l l' 1 m m'
      + nz * position1 gaunt l l' 2 m m' := by
  unfold position1 dipole
  simp

theorem dipolePD_hop (b : ℕ → ℕ) (ε : Vec3 ℂ) :
    dipolePD gaunt b ε = hopShell (position (pdSystem b)) 2 1 (spinKept fun m m' => dipole gaunt ε.x ε.y ε.z 2 m 1 m') := by
  rw [hopShell_between]
  rfl

theorem dipoleDP_hop (b : ℕ → ℕ) (ε : Vec3 ℂ) :
    dipoleDP gaunt b ε = hopShell (position (pdSystem b)) 1 2
      (fun x y => star (spinKept (fun m m' => dipole gaunt ε.x ε.y ε.z 2 m 1 m') y x)) := by
  have e : (fun x y : ℤ × ℤ => star (spinKept (fun m m' => dipole gaunt ε.x ε.y ε.z 2 m 1 m') y x))
      = spinKept fun m' m => star (dipole gaunt ε.x ε.y ε.z 2 m 1 m') := by
    funext x y
    unfold spinKept
    by_cases h : y.1 = x.1
    · rw [if_pos h, if_pos h.symm]
    · rw [if_neg h, if_neg (Ne.symm h), star_zero]
  rw [e, hopShell_between]
  rfl

variable {b : ℕ → ℕ} {P : BasisParams} {h0 : Op Label ℂ} {J : Fin 3 → ℕ → ℕ → ℂ}

section
variable (hi : GauntInvariant gaunt) (hs : GauntSymmetric gaunt) (hJ : ConservesMomentum b P h0 totalComponent J)

theorem spinKept_realPol (h : Fin 3 → ℝ) (x y : ℤ × ℤ) :
    spinKept (fun m m' => dipole gaunt (realPol h).x (realPol h).y (realPol h).z 2 m 1 m') x y
      = ∑ a, (h a : ℂ) * spinKept (position1 gaunt 2 1 a) x y := by
  unfold spinKept
  rw [Fin.sum_univ_three]
  split
  · exact dipole_components 2 1 _ _ _ _ _
  · simp

include hi hs hJ in
theorem dipolePD_turned {w h h' : Fin 3 → ℝ} (hw : Rotated w h h') :
    Carried (nTotal (pdSystem b)) (turnU b J w) (dipolePD gaunt b (realPol h)) (dipolePD gaunt b (realPol h')) := by
  rw [dipolePD_hop, dipolePD_hop]
  refine shellTurn_hop (momentum_turn hJ w) (by simp) (by simp) fun x kx y ky => ?_
  simp only [spinKept_realPol]
  have e : ∀ a : Fin 3, ∑ z ∈ shell 2, expShell (turnGen totalComponent w) 2 x z * ((h a : ℂ) * spinKept (position1 gaunt 2 1 a) z y)
      = ∑ z ∈ shell 1, ∑ c, (exp (crossMat w) c a * (h a : ℂ)) * spinKept (position1 gaunt 2 1 c) x z
          * expShell (turnGen totalComponent w) 1 z y := by
    intro a
    have k := turn_family (total_dipole hi hs 2 1) w a kx ky
    calc _ = (h a : ℂ) * ∑ z ∈ shell 2, expShell (turnGen totalComponent w) 2 x z * spinKept (position1 gaunt 2 1 a) z y := by
            rw [mul_sum]; exact sum_congr rfl fun z _ => by ring
      _ = _ := by
            rw [k, mul_sum]
            refine sum_congr rfl fun z _ => ?_
            rw [sum_mul, mul_sum]
            exact sum_congr rfl fun c _ => by ring
  simp only [mul_sum, sum_mul]
  rw [sum_comm, sum_congr rfl fun a _ => e a, sum_comm]
  refine sum_congr rfl fun z _ => ?_
  rw [sum_comm]
  refine sum_congr rfl fun c _ => ?_
  rw [hw c, sum_mul, sum_mul]

include hi hs hJ in
theorem dipoleDP_turned {w h h' : Fin 3 → ℝ} (hw : Rotated w h h') :
    Carried (nTotal (pdSystem b)) (turnU b J w) (dipoleDP gaunt b (realPol h)) (dipoleDP gaunt b (realPol h')) := by
  rw [dipoleDP_hop, dipoleDP_hop]
  refine shellTurn_hop (momentum_turn hJ w) (by simp) (by simp) fun x kx y ky => ?_
  have hsum : ∀ (h : Fin 3 → ℝ) (x y : ℤ × ℤ), star (∑ a, (h a : ℂ) * spinKept (position1 gaunt 2 1 a) y x)
      = ∑ a, (h a : ℂ) * star (spinKept (position1 gaunt 2 1 a) y x) := by
    intro h x y
    rw [star_sum]
    refine sum_congr rfl fun a _ => ?_
    rw [star_mul', show star ((h a : ℝ) : ℂ) = h a from Complex.conj_ofReal _]
  simp only [spinKept_realPol, hsum]
  have hd : ∀ a, VecInv 1 2 (fun l => totalComponent l a) (fun c x y => star (spinKept (position1 gaunt 2 1 c) y x))
      fun c d => Complex.I * levi a d c := by
    intro a
    refine (VecInv.dagger (total_dipole hi hs 2 1 a) fun l x y => totalComponent_herm l a x y).congr rfl fun c d => ?_
    have h2 : star (2 : ℂ) = 2 := Complex.conj_ofNat 2
    have hn : ∀ m : ℕ, star (m : ℂ) = m := Complex.conj_natCast
    have hI : star Complex.I = -Complex.I := Complex.conj_I
    unfold levi
    simp only [star_div₀, star_mul', star_sub, hn, h2, hI]
    ring
  have e : ∀ a : Fin 3, ∑ z ∈ shell 1, expShell (turnGen totalComponent w) 1 x z * ((h a : ℂ) * star (spinKept (position1 gaunt 2 1 a) y z))
      = ∑ z ∈ shell 2, ∑ c, (exp (crossMat w) c a * (h a : ℂ)) * star (spinKept (position1 gaunt 2 1 c) z x)
          * expShell (turnGen totalComponent w) 2 z y := by
    intro a
    have k := turn_family hd w a kx ky
    calc _ = (h a : ℂ) * ∑ z ∈ shell 1, expShell (turnGen totalComponent w) 1 x z * star (spinKept (position1 gaunt 2 1 a) y z) := by
            rw [mul_sum]; exact sum_congr rfl fun z _ => by ring
      _ = _ := by
            rw [k, mul_sum]
            refine sum_congr rfl fun z _ => ?_
            rw [sum_mul, mul_sum]
            exact sum_congr rfl fun c _ => by ring
  simp only [mul_sum, sum_mul]
  rw [sum_comm, sum_congr rfl fun a _ => e a, sum_comm]
  refine sum_congr rfl fun z _ => ?_
  rw [sum_comm]
  refine sum_congr rfl fun c _ => ?_
  rw [hw c, sum_mul, sum_mul]

include hi hs hJ in
/-- The dipole operators of the three directions. -/
theorem dipole_family (w : Fin 3 → ℝ) : ∃ Q, FamilyCarried (nTotal (pdSystem b)) (turnU b J w) 3 Q
    (fun t => dipolePD gaunt b (axisPol t)) fun t => dipolePD gaunt b (axisPol t) := by
  obtain ⟨u1, u2⟩ := crossMat_unitary w
  have hX : ∀ t : Fin 3, dipolePD gaunt b (axisPol t) = hopShell (position (pdSystem b)) 2 1 (spinKept (position1 gaunt 2 1 t)) := by
    intro t
    rw [dipolePD_hop]
    congr 2
    funext m m'
    fin_cases t <;> rfl
  have hc : ∀ (a : Fin 3) (v : Vec ℂ) (F : Finset ℕ), changeOrbitals (nTotal (pdSystem b)) (turnU b J w) (dipolePD gaunt b (axisPol a) v) F
      = ∑ c : Fin 3, exp (crossMat w) c a * dipolePD gaunt b (axisPol c) (changeOrbitals (nTotal (pdSystem b)) (turnU b J w) v) F := by
    intro a v F
    have := shellTurn_hop (momentum_turn hJ w) (l := 2) (l' := 1) (by simp) (by simp) (N := spinKept (position1 gaunt 2 1 a))
      (N' := fun x z => ∑ c, exp (crossMat w) c a * spinKept (position1 gaunt 2 1 c) x z)
      (fun x kx y ky => turn_family (total_dipole hi hs 2 1) w a kx ky) v
    rw [hX, ← this, hopShell_sum]
    exact sum_congr rfl fun c _ => by rw [hX]
  refine ⟨fun c a => star (exp (crossMat w) (Fin.ofNat 3 c) (Fin.ofNat 3 a)), fun _ _ => between_linear _ _ _ _,
    fun _ _ => between_linear _ _ _ _, fun a ha a' ha' => ?_, fun c hc' v => ?_⟩
  · rw [Finset.sum_range]
    have := u1 (Fin.ofNat 3 a') (Fin.ofNat 3 a)
    have e : (Fin.ofNat 3 a' = Fin.ofNat 3 a) ↔ a = a' := by
      rw [Fin.ext_iff, Fin.val_ofNat, Fin.val_ofNat, Nat.mod_eq_of_lt ha, Nat.mod_eq_of_lt ha', eq_comm]
    rw [if_congr e rfl rfl] at this
    rw [← this]
    refine sum_congr rfl fun c _ => ?_
    rw [star_star, mul_comm, Fin.ofNat_val_eq_self]
  · rw [linear_apply_sum (changeOrbitals_linear _ _)]
    funext F
    rw [Finset.sum_range]
    have e0 : ∀ a : Fin 3, star (exp (crossMat w) (Fin.ofNat 3 c) (Fin.ofNat 3 (a : ℕ)))
          * changeOrbitals (nTotal (pdSystem b)) (turnU b J w) (dipolePD gaunt b (axisPol a) v) F
        = ∑ c' : Fin 3, star (exp (crossMat w) (Fin.ofNat 3 c) a)
          * (exp (crossMat w) c' a * dipolePD gaunt b (axisPol c') (changeOrbitals (nTotal (pdSystem b)) (turnU b J w) v) F) := by
      intro a
      rw [hc, mul_sum, Fin.ofNat_val_eq_self]
    rw [sum_congr rfl fun a _ => e0 a, sum_comm]
    have e : ∀ c' : Fin 3, ∑ a : Fin 3, star (exp (crossMat w) (Fin.ofNat 3 c) a)
          * (exp (crossMat w) c' a * dipolePD gaunt b (axisPol c') (changeOrbitals (nTotal (pdSystem b)) (turnU b J w) v) F)
        = if c' = Fin.ofNat 3 c then dipolePD gaunt b (axisPol c') (changeOrbitals (nTotal (pdSystem b)) (turnU b J w) v) F else 0 := by
      intro c'
      have := u2 c' (Fin.ofNat 3 c)
      calc _ = (∑ a, exp (crossMat w) c' a * star (exp (crossMat w) (Fin.ofNat 3 c) a))
            * dipolePD gaunt b (axisPol c') (changeOrbitals (nTotal (pdSystem b)) (turnU b J w) v) F := by
              rw [sum_mul]; exact sum_congr rfl fun a _ => by ring
        _ = _ := by rw [this, ite_mul, one_mul, zero_mul]
    rw [sum_congr rfl fun c' _ => e c', sum_ite_eq', if_pos (mem_univ _), Fin.val_ofNat, Nat.mod_eq_of_lt hc']

end

/-- Operators that do not act on the spin, and rotations of the spin. -/
theorem between_spin (hJ : ConservesMomentum b P h0 spinComponent J) (w : Fin 3 → ℝ) {l l' : ℕ} (hl : l ∈ [1, 2]) (hl' : l' ∈ [1, 2])
    (M : ℤ → ℤ → ℂ) : Carried (nTotal (pdSystem b)) (turnU b J w) (between (position (pdSystem b)) l l' M)
      (between (position (pdSystem b)) l l' M) := by
  rw [← hopShell_between]
  exact shellTurn_hop (momentum_turn hJ w) hl hl' fun x kx y ky => turn_fixed
    (fun a => spin_dipole l l' (fun _ : Unit => M) (![sX, sY, sZ] a)) w kx ky

end

end

end Verif
