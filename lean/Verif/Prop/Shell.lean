/-
C30, C31, C32: Coulomb interaction, spin-orbit coupling and magnetic field.
-/
import Verif.Lemmas.OneBody

namespace Verif

open Spec Finset

section
variable (gaunt : GauntFun) (l1 l2 l3 l4 : ℕ) (R : List ℝ)

/-- C30.  Every process of `getUop` conserves the electron number, the total `m` and the spin. -/
theorem C30_conserves (q : Process Label × ℂ) (hq : q ∈ getUop gaunt l1 l2 l3 l4 R) :
    change one q.1 = 0 ∧ change lz q.1 = 0 ∧ change twoSz q.1 = 0 := by
  obtain ⟨m1, m2, m3, m4, s, sp, -, -, -, -, -, -, hu, -, rfl⟩ := (mem_getUop _ _ _ _ _ _ _).1 hq
  have hm : m1 + m2 = m3 + m4 := by
    by_contra h
    exact hu (by rw [getU, if_neg h])
  simp only [change, uProcess, one, lz, twoSz, List.map_cons, List.map_nil, List.sum_cons, List.sum_nil]
  omega

/-- C30.  No process of `getUop` creates, or annihilates, twice in the same spin-orbital. -/
theorem C30_pauli (q : Process Label × ℂ) (hq : q ∈ getUop gaunt l1 l2 l3 l4 R) : q.1.Nodup := by
  obtain ⟨m1, m2, m3, m4, s, sp, -, -, -, -, -, -, hu, hp, rfl⟩ := (mem_getUop _ _ _ _ _ _ _).1 hq
  simp only [uProcess, List.nodup_cons, List.mem_cons, Prod.mk.injEq, Label.imp.injEq, reduceCtorEq,
    and_false, List.not_mem_nil, or_false, not_false_eq_true, and_true, true_and, List.nodup_nil,
    or_self] at hp ⊢
  constructor
  · rintro ⟨h1, h2, h3⟩
    exact hp ⟨h2, Or.inl ⟨h1, h3⟩⟩
  · rintro ⟨h1, h2, h3⟩
    exact hp ⟨h2.symm, Or.inr ⟨h1, h3⟩⟩

theorem getU_eq_coulomb : (fun m1 m2 m3 m4 => getU gaunt l1 m1 l2 m2 l3 m3 l4 m4 R)
    = coulomb gaunt l1 l2 l3 l4 R := by
  funext m1 m2 m3 m4
  unfold getU coulomb
  congr 1
  have key : ∀ (L : List ℝ) (n : ℕ) (u : ℝ) (F : ℕ → ℝ),
      (L.zipIdx n).foldl (fun u p => u + p.1 * F p.2) u
        = u + ∑ k ∈ range L.length, L.getD k 0 * F (n + k) := by
    intro L
    induction L with
    | nil => intro n u F; simp
    | cons a L ih =>
      intro n u F
      rw [List.zipIdx_cons, List.foldl_cons, ih, List.length_cons, sum_range_succ']
      simp only [List.getD_cons_succ, List.getD_cons_zero]
      have : ∀ k, F (n + 1 + k) = F (n + (k + 1)) := fun k => by congr 1; omega
      simp only [this]
      ring_nf
  have h := key R 0 0 (fun k => ck gaunt k l1 m1 l4 m4 * ck gaunt k l3 m3 l2 m2)
  simp only [zero_add] at h
  rw [← h]
  congr 1
  funext u p
  simp only [gauntC, ck]
  ring

/-- C30.  Each process occurs with half the Coulomb matrix element of its four orbitals,
and `getUop` is `½ ∑ ⟨12|V|43⟩ c†₁ c†₂ c₃ c₄` over all orbitals and spins: leaving out
the processes forbidden by the Pauli principle changes nothing. -/
theorem C30_meaning (f : Label → ℕ) (v : Vec ℂ) :
    operator (labelSpec f (getUop gaunt l1 l2 l3 l4 R)) v
      = twoBody f l1 l2 l3 l4 (coulomb gaunt l1 l2 l3 l4 R) v := by
  rw [getUop_twoBody, getU_eq_coulomb]

/-- C30.  `getNoSpinUop` lists, for four orbitals of the shells, half their Coulomb matrix
element whenever that is not zero, and nothing else. -/
theorem C30_no_spin (k : (ℕ × ℤ) × (ℕ × ℤ) × (ℕ × ℤ) × (ℕ × ℤ)) (x : ℝ) :
    Dict.get? (getNoSpinUop gaunt l1 l2 l3 l4 R) k = some x ↔
      ∃ m1 m2 m3 m4 : ℤ, |m1| ≤ l1 ∧ |m2| ≤ l2 ∧ |m3| ≤ l3 ∧ |m4| ≤ l4 ∧
        k = ((l1, m1), (l2, m2), (l3, m3), (l4, m4)) ∧
        coulomb gaunt l1 l2 l3 l4 R m1 m2 m3 m4 ≠ 0 ∧
        x = coulomb gaunt l1 l2 l3 l4 R m1 m2 m3 m4 / 2 := by
  have hnd := nodup_noSpinList gaunt l1 l2 l3 l4 R
  rw [getNoSpinUop, Dict.update_nil_of_nodup _ hnd, Dict.get?_eq_some_iff hnd, ← getU_eq_coulomb]
  simp only [List.mem_flatMap, mem_pyRange, abs_le]
  constructor
  · rintro ⟨m1, h1, m2, h2, m3, h3, m4, h4, h⟩
    split at h
    next hu =>
      obtain ⟨rfl, rfl⟩ := Prod.mk.injEq .. ▸ List.mem_singleton.1 h
      exact ⟨m1, m2, m3, m4, ⟨h1.1, by omega⟩, ⟨h2.1, by omega⟩, ⟨h3.1, by omega⟩,
        ⟨h4.1, by omega⟩, rfl, hu, rfl⟩
    next => simp at h
  · rintro ⟨m1, m2, m3, m4, h1, h2, h3, h4, rfl, hu, rfl⟩
    refine ⟨m1, ⟨h1.1, by omega⟩, m2, ⟨h2.1, by omega⟩, m3, ⟨h3.1, by omega⟩, m4, ⟨h4.1, by omega⟩, ?_⟩
    rw [if_pos hu]
    simp

/-- C30.  `getUop` is `getNoSpinUop` with spins: the strength of a process that does not create,
or annihilate, twice in one spin-orbital is that of its four orbitals in `getNoSpinUop`,
whatever the spins, and a process is missing in the one if the orbitals are missing in the other. -/
theorem C30_spin_independent (m1 m2 m3 m4 s s' : ℤ) (hs : s = 0 ∨ s = 1) (hs' : s' = 0 ∨ s' = 1)
    (hP : ¬ (s = s' ∧ ((l1, m1) = (l2, m2) ∨ (l3, m3) = (l4, m4)))) :
    Dict.get? (getUop gaunt l1 l2 l3 l4 R)
        [(.imp l1 s m1, .c), (.imp l2 s' m2, .c), (.imp l3 s' m3, .a), (.imp l4 s m4, .a)]
      = (Dict.get? (getNoSpinUop gaunt l1 l2 l3 l4 R) ((l1, m1), (l2, m2), (l3, m3), (l4, m4))).map
          fun x : ℝ => (x : ℂ) := by
  ext z
  rw [Option.map_eq_some_iff, Dict.get?_eq_some_iff (nodup_getUop gaunt l1 l2 l3 l4 R), mem_getUop]
  simp only [C30_no_spin, ← getU_eq_coulomb]
  constructor
  · rintro ⟨n1, n2, n3, n4, t, t', h1, h2, h3, h4, -, -, hu, -, h⟩
    simp only [uProcess, Prod.mk.injEq, List.cons.injEq, Label.imp.injEq, true_and, and_true] at h
    obtain ⟨⟨⟨-, rfl⟩, ⟨-, rfl⟩, ⟨-, rfl⟩, ⟨-, rfl⟩⟩, rfl⟩ := h
    exact ⟨_, ⟨_, _, _, _, abs_le.2 h1, abs_le.2 h2, abs_le.2 h3, abs_le.2 h4, rfl, hu, rfl⟩, rfl⟩
  · rintro ⟨x, ⟨n1, n2, n3, n4, h1, h2, h3, h4, he, hu, rfl⟩, rfl⟩
    simp only [Prod.mk.injEq, true_and] at he
    obtain ⟨rfl, rfl, rfl, rfl⟩ := he
    exact ⟨_, _, _, _, s, s', abs_le.1 h1, abs_le.1 h2, abs_le.1 h3, abs_le.1 h4, by omega, by omega, hu,
      hP, rfl⟩

variable {gaunt} in
/-- C30.  The adjoint of the operator for `(l1,l2,l3,l4)` is the operator for `(l4,l3,l2,l1)`. -/
theorem C30_adjoint (h : GauntSymmetric gaunt) :
    Dict.Eqv (daggerOp (getUop gaunt l1 l2 l3 l4 R)) (getUop gaunt l4 l3 l2 l1 R) :=
  getUop_dagger h

variable {gaunt} in
/-- C30.  With its reverse included the operator passes `assert_hermitian`. -/
theorem C30_with_reverse_hermitian (h : GauntSymmetric gaunt) :
    isHermitianOp (addOps [getUop gaunt l1 l2 l3 l4 R, getUop gaunt l4 l3 l2 l1 R]) := by
  have hn : ∀ a b c d a' b' c' d', ∀ op ∈ [getUop gaunt a b c d R, getUop gaunt a' b' c' d' R],
      Dict.NodupKeys op := by
    intro a b c d a' b' c' d' op ho
    simp only [List.mem_cons, List.not_mem_nil, or_false] at ho
    rcases ho with rfl | rfl <;> exact nodup_getUop _ _ _ _ _ _
  exact (daggerOp_addOps _ _ (hn _ _ _ _ _ _ _ _) (hn _ _ _ _ _ _ _ _)
    (.cons (getUop_dagger h) (.cons (getUop_dagger h) .nil))).trans'
    (addOps_perm (List.Perm.swap _ _ _) (hn _ _ _ _ _ _ _ _))

variable {gaunt} in
/-- C30.  The 2p-3d operator passes `assert_hermitian`, for all Slater-Condon parameters. -/
theorem C30_slater_condon_hermitian (h : GauntSymmetric gaunt) (Fdd Fpp Fpd Gpd : List ℝ) :
    isHermitianOp (get2p3dSlaterCondonUop gaunt Fdd Fpp Fpd Gpd) :=
  get2p3d_hermitian h Fdd Fpp Fpd Gpd

/-- C30.  Conservation laws and Pauli principle for the 2p-3d operator. -/
theorem C30_slater_condon_conserves (Fdd Fpp Fpd Gpd : List ℝ) (q : Process Label × ℂ)
    (hq : q ∈ get2p3dSlaterCondonUop gaunt Fdd Fpp Fpd Gpd) :
    change one q.1 = 0 ∧ change lz q.1 = 0 ∧ change twoSz q.1 = 0 ∧ q.1.Nodup := by
  obtain ⟨l1, l2, l3, l4, R, v, hv, -⟩ := mem_get2p3d gaunt Fdd Fpp Fpd Gpd q hq
  obtain ⟨h1, h2, h3⟩ := C30_conserves gaunt l1 l2 l3 l4 R (q.1, v) hv
  exact ⟨h1, h2, h3, C30_pauli gaunt l1 l2 l3 l4 R (q.1, v) hv⟩

/-- C30.  The 2p-3d operator is the sum of its six Coulomb parts. -/
theorem C30_slater_condon_meaning (f : Label → ℕ) (Fdd Fpp Fpd Gpd : List ℝ)
    (v : Vec ℂ) (S : Finset ℕ) :
    operator (labelSpec f (get2p3dSlaterCondonUop gaunt Fdd Fpp Fpd Gpd)) v S =
      twoBody f 2 2 2 2 (coulomb gaunt 2 2 2 2 Fdd) v S + twoBody f 1 1 1 1 (coulomb gaunt 1 1 1 1 Fpp) v S
      + (twoBody f 1 2 2 1 (coulomb gaunt 1 2 2 1 Fpd) v S + twoBody f 2 1 1 2 (coulomb gaunt 2 1 1 2 Fpd) v S)
      + (twoBody f 1 2 1 2 (coulomb gaunt 1 2 1 2 Gpd) v S + twoBody f 2 1 2 1 (coulomb gaunt 2 1 2 1 Gpd) v S) := by
  unfold get2p3dSlaterCondonUop
  simp only [operator_labelSpec_addOps, List.map_cons, List.map_nil, List.sum_cons, List.sum_nil,
    C30_meaning]
  ring

end

/-- A function with the symmetries of the Gaunt coefficients that is not trivial. -/
noncomputable def exGaunt : GauntFun := fun a b c α β γ =>
  if α + β + γ = 0 then (a + b + c + |α| + |β| + |γ| + 1 : ℝ) else 0

theorem exGaunt_symmetric : GauntSymmetric exGaunt := by
  constructor
  · intro a b c α β γ
    unfold exGaunt
    rw [show α + β + γ = γ + β + α by ring]
    congr 1
    ring
  · intro a b c α β γ
    unfold exGaunt
    have e : -α + -β + -γ = 0 ↔ α + β + γ = 0 := by omega
    simp only [e, abs_neg]

theorem getU_exGaunt : getU exGaunt 0 0 0 0 0 0 0 0 [1] = 4 * Real.pi := by
  simp [getU, gauntC, exGaunt]
  have h4 : Real.sqrt 4 = 2 := by
    rw [show (4 : ℝ) = 2 ^ 2 by norm_num]; exact Real.sqrt_sq (by norm_num)
  have hp := Real.mul_self_sqrt Real.pi_pos.le
  rw [h4]
  linear_combination 4 * hp

/-- A process that occurs: two electrons of opposite spin in an s shell. -/
example : (uProcess 0 0 0 0 0 0 0 0 0 1, ((2 * Real.pi : ℝ) : ℂ)) ∈ getUop exGaunt 0 0 0 0 [1] := by
  rw [mem_getUop]
  refine ⟨0, 0, 0, 0, 0, 1, by simp, by simp, by simp, by simp, by simp, by simp, ?_, by simp, ?_⟩
  · rw [getU_exGaunt]; positivity
  · rw [getU_exGaunt]
    congr 2
    ring

example : Dict.get? (getNoSpinUop exGaunt 0 0 0 0 [1]) ((0, 0), (0, 0), (0, 0), (0, 0))
    = some (2 * Real.pi) := by
  rw [C30_no_spin, ← getU_eq_coulomb]
  refine ⟨0, 0, 0, 0, by simp, by simp, by simp, by simp, rfl, ?_, ?_⟩
  · change getU exGaunt 0 0 0 0 0 0 0 0 [1] ≠ 0
    rw [getU_exGaunt]; positivity
  · change _ = getU exGaunt 0 0 0 0 0 0 0 0 [1] / 2
    rw [getU_exGaunt]; ring

section
variable (xi : ℝ) (l : ℕ)

/-- C31.  The spin-orbit operator passes `assert_hermitian`. -/
theorem C31_hermitian : isHermitianOp (getSOCop xi l) := getSOCop_hermitian xi l

/-- C31.  Every process conserves the electron number and `m` plus spin projection. -/
theorem C31_conserves (q : Process Label × ℂ) (hq : q ∈ getSOCop xi l) :
    change one q.1 = 0 ∧ change (fun x => 2 * lz x + twoSz x) q.1 = 0 := by
  rcases (mem_getSOCop _ _ _).1 hq with ⟨m, s, _, _, rfl⟩ | ⟨m, _, rfl | rfl⟩ <;>
  · simp only [change, oneProcess, one, lz, twoSz, List.map_cons, List.map_nil, List.sum_cons, List.sum_nil]
    omega

/-- C31.  `getSOCop` is `xi ∑ l·s`. -/
theorem C31_meaning (f : Label → ℕ) (v : Vec ℂ) :
    operator (labelSpec f (getSOCop xi l)) v = oneBody f l (fun x y => (xi : ℂ) * lDotS l x y) v :=
  (isMatrix_soc xi l).operator_eq f v

example : (oneProcess (.imp 2 1 1) (.imp 2 0 2), ((3 / 2 * Real.sqrt ((2 - 1) * (2 + 1 + 1)) : ℝ) : ℂ))
    ∈ getSOCop 3 2 := by
  rw [mem_getSOCop]
  refine Or.inr ⟨1, by norm_num, Or.inl ?_⟩
  simp [socValue]

end

section
variable (hx hy hz : ℝ) (l : ℕ)

/-- C32.  The magnetic field operator passes `assert_hermitian`. -/
theorem C32_hermitian : isHermitianOp (gethHfieldop hx hy hz l) := gethHfieldop_hermitian hx hy hz l

/-- C32.  `gethHfieldop` is `∑ h·s` over the electrons of the shell. -/
theorem C32_meaning (f : Label → ℕ) (v : Vec ℂ) :
    operator (labelSpec f (gethHfieldop hx hy hz l)) v = oneBody f l (hDotS hx hy hz) v :=
  (isMatrix_field hx hy hz l).operator_eq f v

/-- C32.  Exactly the four processes of every `m` occur, also when a field component is zero. -/
theorem C32_processes (p : Process Label) : p ∈ Dict.keys (gethHfieldop hx hy hz l) ↔
    ∃ m s s' : ℤ, (-(l : ℤ) ≤ m ∧ m ≤ l) ∧ (s = 0 ∨ s = 1) ∧ (s' = 0 ∨ s' = 1) ∧
      p = [(.imp l s m, .c), (.imp l s' m, .a)] := by
  constructor
  · intro hp
    obtain ⟨x, hxs, y, hys, rfl⟩ := keys_gethHfieldop hx hy hz l p hp
    rw [Dict.mem_keys_iff, get?_gethHfieldop hx hy hz l x y hxs hys] at hp
    by_cases h : x.2 = y.2
    · have h1 := (mem_shell _).1 hxs
      have h2 := (mem_shell _).1 hys
      exact ⟨x.2, x.1, y.1, h1.2, h1.1, h2.1, by rw [h]; rfl⟩
    · rw [if_neg h] at hp; simp at hp
  · rintro ⟨m, s, s', hm, hs, hs', rfl⟩
    have := get?_gethHfieldop hx hy hz l (s, m) (s', m) ((mem_shell _).2 ⟨hs, hm⟩) ((mem_shell _).2 ⟨hs', hm⟩)
    rw [Dict.mem_keys_iff]
    change (Dict.get? _ (oneProcess (.imp l s m) (.imp l s' m))).isSome
    rw [this, if_pos rfl]
    rfl

example : Dict.get? (gethHfieldop 1 2 3 2) [(.imp 2 1 0, .c), (.imp 2 0 0, .a)]
    = some ((1 / 2 : ℝ) + -(2 : ℝ) * Complex.I / 2) := by
  have := get?_gethHfieldop 1 2 3 2 (1, 0) (0, 0) ((mem_shell _).2 (by norm_num)) ((mem_shell _).2 (by norm_num))
  simpa [fieldEntry, oneProcess] using this

end

end Verif
