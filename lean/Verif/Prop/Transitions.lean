/-
C45, C46, C47: transition operators.
-/
import Verif.Lemmas.Nixs

namespace Verif

open Spec Finset Psr

/-- C47.  The (inverse) photoemission operators of shell `l` are one annihilation
(creation) operator with amplitude 1 for each of the `2(2l+1)` spin-orbitals of
the shell, in index order; a shell that is not in the system raises an exception. -/
theorem C47_enumerate (nBaths : NBaths) (h : GoodSystem nBaths) (l : ℕ) :
    (l ∈ allAngulars nBaths →
      getPhotoEmissionOperators nBaths l
        = .ok ((List.range (2 * (2 * l + 1))).map fun j => [([(impStart nBaths l + j, .a)], 1)]) ∧
      getInversePhotoEmissionOperators nBaths l
        = .ok ((List.range (2 * (2 * l + 1))).map fun j => [([(impStart nBaths l + j, .c)], 1)])) ∧
    (l ∉ allAngulars nBaths →
      getPhotoEmissionOperators nBaths l = .error .exception ∧
      getInversePhotoEmissionOperators nBaths l = .error .exception) := by
  refine ⟨fun hl => ⟨?_, ?_⟩, fun hl => ⟨?_, ?_⟩⟩
  · rw [getPhotoEmissionOperators, photo_loop, shell_mapM_c2i h hl, List.range'_eq_map_range]
    simp [bind, Except.bind, pure, Except.pure, Function.comp_def]
  · rw [getInversePhotoEmissionOperators, photo_loop, shell_mapM_c2i h hl, List.range'_eq_map_range]
    simp [bind, Except.bind, pure, Except.pure, Function.comp_def]
  · rw [getPhotoEmissionOperators, photo_loop, shell_mapM_error hl]; rfl
  · rw [getInversePhotoEmissionOperators, photo_loop, shell_mapM_error hl]; rfl

/-- C47, sum rules.  The total weight of the states with one electron removed from
shell `l` is the occupation of the shell; the total weight of the states with one
electron added is the number of holes.  Without pruning (`cut ≤ 0`) exactly, with
pruning as an upper bound. -/
theorem C47_sum_rules (nBaths : NBaths) (h : GoodSystem nBaths) (l : ℕ) (hl : l ∈ allAngulars nBaths)
    (psi : Psi ℂ) (hpsi : IsState (nTotal nBaths) psi) (cut : ℝ) :
    ∃ (tPS tIPS : List (Op ℕ ℂ)) (ps ips : List (Psi ℂ × Option (OpResult ℂ))),
      getPhotoEmissionOperators nBaths l = .ok tPS ∧
      tPS.mapM (fun op => applyOp (nTotal nBaths) op psi cut none none) = .ok ps ∧
      getInversePhotoEmissionOperators nBaths l = .ok tIPS ∧
      tIPS.mapM (fun op => applyOp (nTotal nBaths) op psi cut none none) = .ok ips ∧
      (ps.map fun o => (norm2 o.1 : ℝ)).sum ≤ ∑ S ∈ (range (nTotal nBaths)).powerset,
        ((S ∩ shellSet nBaths l).card : ℝ) * Complex.normSq (ampl (nTotal nBaths) psi S) ∧
      (ips.map fun o => (norm2 o.1 : ℝ)).sum ≤ ∑ S ∈ (range (nTotal nBaths)).powerset,
        ((2 * (2 * l + 1) : ℕ) - ((S ∩ shellSet nBaths l).card : ℝ))
          * Complex.normSq (ampl (nTotal nBaths) psi S) ∧
      (cut ≤ 0 →
        (ps.map fun o => (norm2 o.1 : ℝ)).sum = ∑ S ∈ (range (nTotal nBaths)).powerset,
          ((S ∩ shellSet nBaths l).card : ℝ) * Complex.normSq (ampl (nTotal nBaths) psi S) ∧
        (ips.map fun o => (norm2 o.1 : ℝ)).sum = ∑ S ∈ (range (nTotal nBaths)).powerset,
          ((2 * (2 * l + 1) : ℕ) - ((S ∩ shellSet nBaths l).card : ℝ))
            * Complex.normSq (ampl (nTotal nBaths) psi S)) := by
  have his : ∀ i ∈ List.range' (impStart nBaths l) (2 * (2 * l + 1)), i < nTotal nBaths := by
    intro i hi
    refine shellSet_lt h hl ?_
    simp only [List.mem_range'_1] at hi
    rw [shellSet, mem_Ico]; omega
  obtain ⟨ps, p1, p2, p3⟩ := applyOp_all _ his .a hpsi cut
  obtain ⟨ips, q1, q2, q3⟩ := applyOp_all _ his .c hpsi cut
  have ea : ((List.range' (impStart nBaths l) (2 * (2 * l + 1))).map fun i =>
        ∑ S ∈ (range (nTotal nBaths)).powerset,
          (abs2 (ladder i (Action.a = Action.c) (ampl (nTotal nBaths) psi) S) : ℝ)).sum
      = ∑ S ∈ (range (nTotal nBaths)).powerset,
        ((S ∩ shellSet nBaths l).card : ℝ) * Complex.normSq (ampl (nTotal nBaths) psi S) := by
    rw [sum_range'_Ico]
    change ∑ i ∈ shellSet nBaths l, _ = _
    rw [sum_congr rfl fun i hi => by
      simpa [ladder] using weight_annihilate (shellSet_lt h hl hi) (ampl (nTotal nBaths) psi)]
    rw [sum_comm]
    refine sum_congr rfl fun S _ => ?_
    rw [← sum_filter, sum_const, nsmul_eq_mul, filter_mem_eq_inter, inter_comm]
    rfl
  have ec : ((List.range' (impStart nBaths l) (2 * (2 * l + 1))).map fun i =>
        ∑ S ∈ (range (nTotal nBaths)).powerset,
          (abs2 (ladder i (Action.c = Action.c) (ampl (nTotal nBaths) psi) S) : ℝ)).sum
      = ∑ S ∈ (range (nTotal nBaths)).powerset,
        ((2 * (2 * l + 1) : ℕ) - ((S ∩ shellSet nBaths l).card : ℝ))
          * Complex.normSq (ampl (nTotal nBaths) psi S) := by
    rw [sum_range'_Ico]
    change ∑ i ∈ shellSet nBaths l, _ = _
    rw [sum_congr rfl fun i hi => by
      simpa only [ladder, decide_true, if_true] using weight_create (shellSet_lt h hl hi) (ampl (nTotal nBaths) psi)]
    rw [sum_comm]
    refine sum_congr rfl fun S _ => ?_
    rw [← sum_filter, sum_const, nsmul_eq_mul]
    congr 1
    have hc : (shellSet nBaths l).card = 2 * (2 * l + 1) := by simp [shellSet]
    have := card_filter_add_card_filter_not (s := shellSet nBaths l) (fun i => i ∈ S)
    rw [filter_mem_eq_inter, inter_comm, hc] at this
    rw [← this]
    push_cast; ring
  rw [ea] at p2 p3
  rw [ec] at q2 q3
  refine ⟨_, _, ps, ips, ?_, p1, ?_, q1, p2, q2, fun hc => ⟨p3 hc, q3 hc⟩⟩
  · rw [getPhotoEmissionOperators, photo_loop, shell_mapM_c2i h hl]; rfl
  · rw [getInversePhotoEmissionOperators, photo_loop, shell_mapM_c2i h hl]; rfl

/-- Two p shells' worth of operators: a p and a d shell, ten bath states. -/
example : getPhotoEmissionOperators [(.int 0, 0), (.int 1, 0), (.int 2, 10)] 1
    = .ok [[([(2, .a)], 1)], [([(3, .a)], 1)], [([(4, .a)], 1)], [([(5, .a)], 1)], [([(6, .a)], 1)],
      [([(7, .a)], 1)]] := by
  have := ((C47_enumerate [(.int 0, 0), (.int 1, 0), (.int 2, 10)] ⟨by decide, by decide⟩ 1).1 (by decide)).1
  rw [this]
  rfl

/-! ### C45 -/

theorem goodSystem_two {l1 l2 b1 b2 : ℕ} (hne : l1 ≠ l2) : GoodSystem [(.int l1, b1), (.int l2, b2)] := by
  refine ⟨?_, ?_⟩
  · simp [Dict.NodupKeys, Dict.keys, hne]
  · simp [allAngulars, angulars, hne]

/-- C45.  For a system with the shells `l1`, `l2` and any polarisation vector,
`getDipoleOperator` returns the operator `∑ ⟨l2 m|n·r/|r||l1 m'⟩ c†_{l2 s m} c_{l1 s m'}`;
each of its processes takes one electron from shell `l1` to shell `l2`, keeps the
spin and changes `m` by at most one. -/
theorem C45_dipole (gaunt : GauntFun) (l1 l2 b1 b2 : ℕ) (hne : l1 ≠ l2) (n : Vec3 ℂ) :
    ∃ tOp, getDipoleOperator gaunt [(.int l1, b1), (.int l2, b2)] n = .ok tOp ∧
      Dict.NodupKeys tOp ∧ OpInSystem (nTotal [(.int l1, b1), (.int l2, b2)]) tOp ∧
      (∀ q ∈ tOp, ∃ s m m' : ℤ, (s = 0 ∨ s = 1) ∧ |m| ≤ l2 ∧ |m'| ≤ l1 ∧ |m - m'| ≤ 1 ∧ q.2 ≠ 0 ∧
        q.1 = [(position [(.int l1, b1), (.int l2, b2)] (.imp l2 s m), .c),
               (position [(.int l1, b1), (.int l2, b2)] (.imp l1 s m'), .a)]) ∧
      ∀ v : Vec ℂ, operator (opSpec tOp) v
        = between (position [(.int l1, b1), (.int l2, b2)]) l2 l1
            (fun m m' => dipole gaunt n.x n.y n.z l2 m l1 m') v := by
  classical
  have hg := goodSystem_two (b1 := b1) (b2 := b2) hne
  have h1 : l1 ∈ allAngulars [(.int l1, b1), (.int l2, b2)] := by simp [allAngulars, angulars]
  have h2 : l2 ∈ allAngulars [(.int l1, b1), (.int l2, b2)] := by simp [allAngulars, angulars]
  refine ⟨_, dipole_loop gaunt n hg h1 h2, ?_, ?_, ?_, ?_⟩
  · unfold Dict.NodupKeys Dict.keys
    rw [List.map_map]
    refine List.Nodup.map_on ?_ ((nodup_dipList l1 l2).filter _)
    intro x hx y hy e
    exact dipKey_inj hg h1 h2 (List.mem_filter.1 hx).1 (List.mem_filter.1 hy).1 e
  · intro q hq y hy
    obtain ⟨x, hx, rfl⟩ := List.mem_map.1 hq
    obtain ⟨i1, i2⟩ := inSystem_dip hg h1 h2 (List.mem_filter.1 hx).1
    simp only [dipKey, List.mem_cons, List.not_mem_nil, or_false] at hy
    rcases hy with rfl | rfl
    · exact position_imp_lt hg i1
    · exact position_imp_lt hg i2
  · intro q hq
    obtain ⟨x, hx, rfl⟩ := List.mem_map.1 hq
    obtain ⟨hx1, hx2⟩ := List.mem_filter.1 hx
    have hx2' : dipVal gaunt n l1 l2 x ≠ 0 := by simpa using hx2
    have := (mem_dipList l1 l2).1 hx1
    refine ⟨x.2.2, x.1, x.2.1, by omega, abs_le.2 (by omega), abs_le.2 (by omega), ?_, hx2', rfl⟩
    by_contra hf
    exact hx2' (dipole_of_far gaunt l1 l2 hf _ _ _)
  · intro v
    funext S
    refine (operator_two_sum _ (fun x => position _ (.imp l2 x.2.2 x.1)) (fun x => position _ (.imp l1 x.2.2 x.2.1))
      _ v S).trans ?_
    rw [sum_filter_ne_zero, sum_dipList]
    rfl

/-- C45.  The operator is linear in the polarisation vector. -/
theorem C45_linear (gaunt : GauntFun) (l1 l2 b1 b2 : ℕ) (hne : l1 ≠ l2) (n n' : Vec3 ℂ) (a b : ℂ) :
    ∃ t t' u, getDipoleOperator gaunt [(.int l1, b1), (.int l2, b2)] n = .ok t ∧
      getDipoleOperator gaunt [(.int l1, b1), (.int l2, b2)] n' = .ok t' ∧
      getDipoleOperator gaunt [(.int l1, b1), (.int l2, b2)]
        ⟨a * n.x + b * n'.x, a * n.y + b * n'.y, a * n.z + b * n'.z⟩ = .ok u ∧
      ∀ (v : Vec ℂ) (S : Finset ℕ),
        operator (opSpec u) v S = a * operator (opSpec t) v S + b * operator (opSpec t') v S := by
  obtain ⟨t, e, _, _, _, m⟩ := C45_dipole gaunt l1 l2 b1 b2 hne n
  obtain ⟨t', e', _, _, _, m'⟩ := C45_dipole gaunt l1 l2 b1 b2 hne n'
  obtain ⟨u, eu, _, _, _, mu⟩ := C45_dipole gaunt l1 l2 b1 b2 hne
    ⟨a * n.x + b * n'.x, a * n.y + b * n'.y, a * n.z + b * n'.z⟩
  refine ⟨t, t', u, e, e', eu, fun v S => ?_⟩
  rw [m, m', mu]
  simp only [between, mul_sum, ← sum_add_distrib]
  refine sum_congr rfl fun s _ => sum_congr rfl fun x _ => sum_congr rfl fun y _ => ?_
  simp only [dipole]
  ring

/-- C45.  `getDipoleOperators` and `getDaggeredDipoleOperators` treat the
polarisation vectors one by one, and each daggered operator is the adjoint. -/
theorem C45_daggered (gaunt : GauntFun) (l1 l2 b1 b2 : ℕ) (hne : l1 ≠ l2) (ns : List (Vec3 ℂ)) :
    ∃ ts ds, getDipoleOperators gaunt [(.int l1, b1), (.int l2, b2)] ns = .ok ts ∧
      getDaggeredDipoleOperators gaunt [(.int l1, b1), (.int l2, b2)] ns = .ok ds ∧
      List.Forall₂ (fun n t => getDipoleOperator gaunt [(.int l1, b1), (.int l2, b2)] n = .ok t) ns ts ∧
      List.Forall₂ (fun t d => ∀ v w : Vec ℂ,
        innerProduct (nTotal [(.int l1, b1), (.int l2, b2)]) (operator (opSpec d) v) w
          = innerProduct (nTotal [(.int l1, b1), (.int l2, b2)]) v (operator (opSpec t) w)) ts ds := by
  unfold getDipoleOperators getDaggeredDipoleOperators
  have e1 := foldlM_collect (getDipoleOperator gaunt [(.int l1, b1), (.int l2, b2)]) (fun t : Op ℕ ℂ => t) ns []
  have e2 := foldlM_collect (getDipoleOperator gaunt [(.int l1, b1), (.int l2, b2)])
    (fun t : Op ℕ ℂ => daggerOp t) ns []
  rw [e1, e2]
  suffices hs : ∃ ts, ns.mapM (getDipoleOperator gaunt [(.int l1, b1), (.int l2, b2)]) = .ok ts ∧
      List.Forall₂ (fun n t => getDipoleOperator gaunt [(.int l1, b1), (.int l2, b2)] n = .ok t) ns ts by
    obtain ⟨ts, h1, h2⟩ := hs
    refine ⟨ts, ts.map fun t => daggerOp t, ?_, ?_, h2, ?_⟩
    · rw [h1]; simp [bind, Except.bind, pure, Except.pure]
    · rw [h1]; simp [bind, Except.bind, pure, Except.pure]
    · rw [List.forall₂_map_right_iff, List.forall₂_same]
      intro t ht v w
      have : ∃ n, getDipoleOperator gaunt [(.int l1, b1), (.int l2, b2)] n = .ok t := by
        clear h1 e1 e2
        induction h2 with
        | nil => simp at ht
        | cons hh _ ih =>
          rcases List.mem_cons.1 ht with rfl | ht
          · exact ⟨_, hh⟩
          · exact ih ht
      obtain ⟨n, hn⟩ := this
      obtain ⟨t', e, nd, ins, _, _⟩ := C45_dipole gaunt l1 l2 b1 b2 hne n
      rw [hn] at e
      cases e
      exact (innerProduct_daggerOp nd ins v w).symm
  clear e1 e2
  induction ns with
  | nil => exact ⟨[], rfl, .nil⟩
  | cons n ns ih =>
    obtain ⟨ts, h1, h2⟩ := ih
    obtain ⟨t, e, _⟩ := C45_dipole gaunt l1 l2 b1 b2 hne n
    exact ⟨t :: ts, by rw [List.mapM_cons, e, h1]; rfl, .cons e h2⟩

/-- C45.  Any other system raises an exception. -/
theorem C45_rejects (gaunt : GauntFun) (nBaths : NBaths) (n : Vec3 ℂ)
    (h : ∀ l1 l2, Dict.keys nBaths ≠ [.int l1, .int l2]) :
    (nBaths.length = 2 → getDipoleOperator gaunt nBaths n = .error .typeError) ∧
    (nBaths.length ≠ 2 → getDipoleOperator gaunt nBaths n = .error .valueError) := by
  unfold getDipoleOperator
  have hlen : (Dict.keys nBaths).length = nBaths.length := by simp [Dict.keys]
  constructor
  · intro h2
    rw [← hlen] at h2
    split
    · next l1 l2 e => exact absurd e (h l1 l2)
    · rfl
    · next h3 h4 => 
      match hk : Dict.keys nBaths, h2 with
      | [a, b], _ => exact absurd hk (h4 a b)
  · intro h2
    rw [← hlen] at h2
    split
    · next l1 l2 e => exact absurd e (h l1 l2)
    · next e => rw [e] at h2; simp at h2
    · rfl

/-- Light polarised along `x` on a p-d system: the transition p(m=0) to d(m=1). -/
example : ∃ tOp, getDipoleOperator (fun _ _ _ _ _ _ => 1) [(.int 1, 0), (.int 2, 10)] ⟨1, 0, 0⟩ = .ok tOp ∧
    operator (opSpec tOp) (single {1} 1) {9} = -(ck (fun _ _ _ _ _ _ => 1) 1 2 1 1 0 : ℂ) / (Real.sqrt 2 : ℝ) := by
  obtain ⟨t, e, _, _, _, m⟩ := C45_dipole (fun _ _ _ _ _ _ => 1) 1 2 0 10 (by decide) ⟨1, 0, 0⟩
  refine ⟨t, e, ?_⟩
  have := between_single (nBaths := [(.int 1, 0), (.int 2, 10)]) (goodSystem_two (by decide)) (li := 2) (lj := 1)
    (by decide) (by decide) (fun m m' => dipole (fun _ _ _ _ _ _ => 1) 1 0 0 2 m 1 m') (s := 0) (m := 1) (m' := 0)
    (by simp) (by simp) (by simp)
  rw [m]
  refine Eq.trans this ?_
  simp [dipole, c1]

/-! ### C46 -/

/-- C46.  For `q = |q| (sin θ cos φ, sin θ sin φ, cos θ)` not along the z-axis,
`√(4π)` times the operator that `getNIXSOperator` returns is the plane wave operator
(terms `k ≥ kmin`) of the direction `(θ, |φ|)`.  Its processes move one electron from
shell `lj` to shell `li` and keep the spin.  The truncation of the expansion at
`li + lj` loses nothing (`K` is arbitrary). -/
theorem C46_operator (gaunt : GauntFun) (hG : GauntRules gaunt) (sphHarm : SphHarm) (jn : SphericalJn)
    (nBaths : NBaths) (h : GoodSystem nBaths) (li lj : ℕ) (hi : li ∈ allAngulars nBaths)
    (hj : lj ∈ allAngulars nBaths) (Ri Rj : List ℂ) (r : List ℝ) (h1 : Ri.length = r.length)
    (h2 : Rj.length = r.length) (kmin K : ℕ) (hK : li + lj ≤ K)
    (q : Vec3 ℝ) (qn θ φ : ℝ) (hq : 0 < qn) (hθ : 0 < θ) (hθ' : θ < Real.pi) (hφ : |φ| ≤ Real.pi)
    (hx : q.x = qn * (Real.sin θ * Real.cos φ)) (hy : q.y = qn * (Real.sin θ * Real.sin φ))
    (hz : q.z = qn * Real.cos θ) :
    ∃ tOp, getNIXSOperator gaunt sphHarm jn nBaths q li lj Ri Rj r kmin = .ok tOp ∧
      Dict.NodupKeys tOp ∧ OpInSystem (nTotal nBaths) tOp ∧
      (∀ p ∈ Dict.keys tOp, ∃ s mi mj : ℤ, (s = 0 ∨ s = 1) ∧ |mi| ≤ li ∧ |mj| ≤ lj ∧
        p = [(position nBaths (.imp li s mi), .c), (position nBaths (.imp lj s mj), .a)]) ∧
      ∀ (v : Vec ℂ) (S : Finset ℕ), ((Real.sqrt (4 * Real.pi) : ℝ) : ℂ) * operator (opSpec tOp) v S
        = between (position nBaths) li lj (fun mi mj =>
            planeWave gaunt sphHarm (radialIntegral jn Ri Rj r qn) θ |φ| kmin K li mi lj mj) v S := by
  obtain ⟨e1, e2, e3, e4⟩ := polar_angles hq hθ hθ' hφ hx hy hz
  obtain ⟨d, d1, d2, d3⟩ := nixs_loop_spec gaunt sphHarm h hi hj jn Ri Rj r h1 h2 qn θ |φ| kmin
  refine ⟨d, ?_, d2.1, ?_, d2.2, ?_⟩
  · unfold getNIXSOperator
    simp only [e1, e2, e4]
    rw [if_neg hq.ne', if_neg e3]
    exact d1
  · intro p hp x hx
    obtain ⟨s, mi, mj, hs, hmi, hmj, e⟩ := d2.2 p.1 (List.mem_map.2 ⟨p, hp, rfl⟩)
    rw [e] at hx
    rw [abs_le] at hmi hmj
    simp only [List.mem_cons, List.not_mem_nil, or_false] at hx
    rcases hx with rfl | rfl
    · exact position_imp_lt h ⟨hi, by omega⟩
    · exact position_imp_lt h ⟨hj, by omega⟩
  · intro v S
    have := d3 (v, S)
    dsimp only at this
    rw [this]
    have hcut : ∀ mi mj : ℤ, planeWave gaunt sphHarm (radialIntegral jn Ri Rj r qn) θ |φ| kmin K li mi lj mj
        = planeWave gaunt sphHarm (radialIntegral jn Ri Rj r qn) θ |φ| kmin (li + lj) li mi lj mj := by
      intro mi mj
      unfold planeWave
      symm
      refine sum_subset (Icc_subset_Icc_right hK) ?_
      intro k hk hk'
      rw [mem_Icc] at hk hk'
      rw [yElement, hG.triangle _ _ _ _ _ _ (by omega)]
      simp
    simp only [between, hcut]
    simp only [planeWave, ← nixsAmp_planeWave gaunt sphHarm (li := li) (lj := lj) hG]
    simp only [mul_sum, sum_mul]
    rw [sum_congr rfl fun s _ => sum_congr rfl fun mi _ => sum_comm, sum_congr rfl fun s _ => sum_comm, sum_comm]
    refine sum_congr rfl fun k _ => ?_
    by_cases hp : (li + lj + k) % 2 = 0
    · simp only [hp, if_true, mul_sum]
      rw [sum_congr rfl fun mi _ => sum_comm, sum_comm]
      refine sum_congr rfl fun s _ => sum_congr rfl fun mi _ => sum_congr rfl fun mj _ => ?_
      simp only [hopTerm, mul_assoc]
      rfl
    · simp [hp]

/-- C46, the part that holds: for `q_y ≥ 0` (`0 ≤ φ ≤ π`), `q` not along the z-axis, the
operator is the plane wave operator for `q` (over `√(4π)`).  Missing: `q_y < 0`
(false of the code, `C46_violated`) and `q` along the z-axis (`C46_along_z`). -/
theorem C46_plane_wave_partial (gaunt : GauntFun) (hG : GauntRules gaunt) (sphHarm : SphHarm) (jn : SphericalJn)
    (nBaths : NBaths) (h : GoodSystem nBaths) (li lj : ℕ) (hi : li ∈ allAngulars nBaths)
    (hj : lj ∈ allAngulars nBaths) (Ri Rj : List ℂ) (r : List ℝ) (h1 : Ri.length = r.length)
    (h2 : Rj.length = r.length) (kmin K : ℕ) (hK : li + lj ≤ K)
    (q : Vec3 ℝ) (qn θ φ : ℝ) (hq : 0 < qn) (hθ : 0 < θ) (hθ' : θ < Real.pi) (hφ : 0 ≤ φ) (hφ' : φ ≤ Real.pi)
    (hx : q.x = qn * (Real.sin θ * Real.cos φ)) (hy : q.y = qn * (Real.sin θ * Real.sin φ))
    (hz : q.z = qn * Real.cos θ) :
    ∃ tOp, getNIXSOperator gaunt sphHarm jn nBaths q li lj Ri Rj r kmin = .ok tOp ∧
      ∀ (v : Vec ℂ) (S : Finset ℕ), ((Real.sqrt (4 * Real.pi) : ℝ) : ℂ) * operator (opSpec tOp) v S
        = between (position nBaths) li lj (fun mi mj =>
            planeWave gaunt sphHarm (radialIntegral jn Ri Rj r qn) θ φ kmin K li mi lj mj) v S := by
  obtain ⟨t, a1, _, _, _, a2⟩ := C46_operator gaunt hG sphHarm jn nBaths h li lj hi hj Ri Rj r h1 h2 kmin K hK q qn θ φ
    hq hθ hθ' (by rwa [abs_of_nonneg hφ]) hx hy hz
  rw [abs_of_nonneg hφ] at a2
  exact ⟨t, a1, a2⟩

/-- C46, what the code does instead: the sign of `q_y` is ignored. -/
theorem C46_mirror (gaunt : GauntFun) (sphHarm : SphHarm) (jn : SphericalJn) (nBaths : NBaths) (li lj : ℕ)
    (Ri Rj : List ℂ) (r : List ℝ) (kmin : ℕ) (q : Vec3 ℝ) :
    getNIXSOperator gaunt sphHarm jn nBaths ⟨q.x, -q.y, q.z⟩ li lj Ri Rj r kmin
      = getNIXSOperator gaunt sphHarm jn nBaths q li lj Ri Rj r kmin := by
  simp only [getNIXSOperator, neg_sq]

/-- C46.  For `q` along the z-axis (and for `q = 0`) the azimuth is 0/0. -/
theorem C46_along_z (gaunt : GauntFun) (sphHarm : SphHarm) (jn : SphericalJn) (nBaths : NBaths) (li lj : ℕ)
    (Ri Rj : List ℂ) (r : List ℝ) (kmin : ℕ) (qz : ℝ) :
    getNIXSOperator gaunt sphHarm jn nBaths ⟨0, 0, qz⟩ li lj Ri Rj r kmin = .error .nan := by
  unfold getNIXSOperator
  have e : Real.sqrt ((0 : ℝ) ^ 2 + 0 ^ 2 + qz ^ 2) = |qz| := by
    rw [← Real.sqrt_sq_eq_abs]; congr 1; ring
  simp only [e]
  by_cases h0 : |qz| = 0
  · rw [if_pos h0]
  · rw [if_neg h0, if_pos]
    rcases lt_or_gt_of_ne (abs_ne_zero.1 h0) with h | h
    · rw [abs_of_neg h, div_neg, div_self h.ne, Real.arccos_neg_one, Real.sin_pi, mul_zero]
    · rw [abs_of_pos h, div_self h.ne', Real.arccos_one, Real.sin_zero, mul_zero]

/-- The spherical harmonics with `k = 1`. -/
noncomputable def exY1 : SphHarm := fun m k φ θ =>
  if k = 1 then
    if m = 1 then -(Real.sqrt (3 / (8 * Real.pi)) * Real.sin θ : ℝ) * Complex.exp (φ * Complex.I)
    else if m = 0 then (Real.sqrt (3 / (4 * Real.pi)) * Real.cos θ : ℝ)
    else if m = -1 then (Real.sqrt (3 / (8 * Real.pi)) * Real.sin θ : ℝ) * Complex.exp (-φ * Complex.I)
    else 0
  else 0

/-- `∫ Y_{1,-m} Y_{1,m} Y_{0,0} = (-1)^m/√(4π)`; all other values are irrelevant here. -/
noncomputable def exGaunt110 : GauntFun := fun a b c α β γ =>
  if a = 1 ∧ b = 1 ∧ c = 0 ∧ α = -β ∧ γ = 0 ∧ |β| ≤ 1 then (-1) ^ β / Real.sqrt (4 * Real.pi) else 0

theorem exGaunt110_rules : GauntRules exGaunt110 := by
  refine ⟨?_, ?_, ?_⟩
  · intro a b c α β γ h
    rw [exGaunt110, if_neg]
    rintro ⟨rfl, rfl, rfl, _⟩
    omega
  · intro a b c α β γ h
    rw [exGaunt110, if_neg]
    rintro ⟨rfl, rfl, rfl, _, _, h'⟩
    push_cast at h
    omega
  · intro a b c α β γ h
    rw [exGaunt110, if_neg]
    rintro ⟨rfl, rfl, rfl, _⟩
    omega

/-- C46 is violated: for `q = (0, -1, 0)` (θ = π/2, φ = -π/2), excitation from an s to
a p shell, the operator that is returned is not the plane wave operator. -/
theorem C46_violated :
    ∃ tOp, getNIXSOperator exGaunt110 exY1 (fun _ _ => 1) [(.int 0, 0), (.int 1, 0)] ⟨0, -1, 0⟩ 1 0
        [1, 1] [1, 1] [0, 1] 1 = .ok tOp ∧
      ¬ ∀ (v : Vec ℂ) (S : Finset ℕ), ((Real.sqrt (4 * Real.pi) : ℝ) : ℂ) * operator (opSpec tOp) v S
        = between (position [(.int 0, 0), (.int 1, 0)]) 1 0 (fun mi mj =>
            planeWave exGaunt110 exY1 (radialIntegral (fun _ _ => 1) [1, 1] [1, 1] [0, 1] 1)
              (Real.pi / 2) (-(Real.pi / 2)) 1 1 1 mi 0 mj) v S := by
  have hpi := Real.pi_pos
  have hg : GoodSystem [(.int 0, 0), (.int 1, 0)] := goodSystem_two (by decide)
  obtain ⟨t, e, _, _, _, m⟩ := C46_operator exGaunt110 exGaunt110_rules exY1 (fun _ _ => 1)
    [(.int 0, 0), (.int 1, 0)] hg 1 0 (by decide) (by decide) [1, 1] [1, 1] [0, 1]
    rfl rfl 1 1 (by norm_num) ⟨0, -1, 0⟩ 1 (Real.pi / 2) (-(Real.pi / 2)) one_pos (by linarith) (by linarith)
    (by rw [abs_neg, abs_of_pos (by linarith)]; linarith) (by simp) (by simp) (by simp)
  refine ⟨t, e, fun hall => ?_⟩
  have := (m (single {position [(.int 0, 0), (.int 1, 0)] (.imp 0 0 0)} 1)
    {position [(.int 0, 0), (.int 1, 0)] (.imp 1 0 1)}).symm.trans (hall _ _)
  rw [between_single hg (by decide) (by decide) _ (by simp) (by simp) (by simp),
    between_single hg (by decide) (by decide) _ (by simp) (by simp) (by simp)] at this
  have hR : radialIntegral (fun _ _ => 1) [1, 1] [1, 1] [0, 1] 1 1 = 1 / 2 := by
    simp [radialIntegral, trapezoid]
  have hE1 : Complex.exp ((Real.pi / 2 : ℝ) * Complex.I) = Complex.I := by
    push_cast; exact Complex.exp_pi_div_two_mul_I
  have hE2 : Complex.exp ((-(Real.pi / 2) : ℝ) * Complex.I) = -Complex.I := by
    push_cast; rw [← neg_div]; exact Complex.exp_neg_pi_div_two_mul_I
  rw [abs_neg, abs_of_pos (by linarith : 0 < Real.pi / 2)] at this
  simp only [planeWave, Icc_self, sum_singleton, hR, exY1, yElement, exGaunt110, hE1, hE2] at this
  simp only [sub_zero, if_true, Real.sin_pi_div_two, mul_one] at this
  have hP : (Real.pi : ℂ) ≠ 0 := by exact_mod_cast hpi.ne'
  have hS : ((Real.sqrt Real.pi : ℝ) : ℂ) ≠ 0 := by exact_mod_cast (Real.sqrt_pos.2 hpi).ne'
  have h3 : ((Real.sqrt 3 : ℝ) : ℂ) ≠ 0 := by exact_mod_cast (Real.sqrt_pos.2 (by norm_num : (0 : ℝ) < 3)).ne'
  have h8 : ((Real.sqrt 8 : ℝ) : ℂ) ≠ 0 := by exact_mod_cast (Real.sqrt_pos.2 (by norm_num : (0 : ℝ) < 8)).ne'
  norm_num at this
  rw [neg_eq_self] at this
  simp [hP, hS, h3, h8, Complex.I_ne_zero] at this

/-- The hypotheses of `C46_plane_wave_partial` are met: `q = (0, 1, 0)`, s to p shell. -/
example : ∃ tOp, getNIXSOperator exGaunt110 exY1 (fun _ _ => 1) [(.int 0, 0), (.int 1, 0)] ⟨0, 1, 0⟩ 1 0
        [1, 1] [1, 1] [0, 1] 1 = .ok tOp ∧
      ∀ (v : Vec ℂ) (S : Finset ℕ), ((Real.sqrt (4 * Real.pi) : ℝ) : ℂ) * operator (opSpec tOp) v S
        = between (position [(.int 0, 0), (.int 1, 0)]) 1 0 (fun mi mj =>
            planeWave exGaunt110 exY1 (radialIntegral (fun _ _ => 1) [1, 1] [1, 1] [0, 1] 1)
              (Real.pi / 2) (Real.pi / 2) 1 1 1 mi 0 mj) v S := by
  have hpi := Real.pi_pos
  exact C46_plane_wave_partial exGaunt110 exGaunt110_rules exY1 (fun _ _ => 1)
    [(.int 0, 0), (.int 1, 0)] (goodSystem_two (by decide)) 1 0 (by decide) (by decide) [1, 1] [1, 1] [0, 1]
    rfl rfl 1 1 (by norm_num) ⟨0, 1, 0⟩ 1 (Real.pi / 2) (Real.pi / 2) one_pos (by linarith) (by linarith)
    (by linarith) (by linarith) (by simp) (by simp) (by simp)

end Verif
