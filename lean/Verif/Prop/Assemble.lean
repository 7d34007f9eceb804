/-
C54: assembling the Hamiltonian.
-/
import Verif.Lemmas.Assemble
import Verif.Prop.Shell
import Verif.Prop.Average

namespace Verif

open Spec Finset

/-- The double counting operator is `-dc_d N_d - dc_p N_p`. -/
theorem eDC_meaning (dc : ℝ × ℝ) (f : Label → ℕ) (v : Vec ℂ) (S : Finset ℕ) :
    operator (labelSpec f (eDCOperator dc)) v S
      = -(dc.1 : ℂ) * shellNumber f 2 v S + -(dc.2 : ℂ) * shellNumber f 1 v S := by
  rw [operator_labelSpec, eDCOperator_eq, sum_map_flatMap]
  simp only [List.map_cons, List.map_nil, List.sum_cons, List.sum_nil, sum_map_flatMap, List.map_map, sum_pyRange,
    shellNumber, shell, sum_product, mul_sum, Function.comp_def, Ico_zero_two, add_zero]
  congr 1
  · refine sum_congr rfl fun s _ => ?_
    refine sum_congr (by ext x; simp only [mem_Ico, mem_Icc]; omega) fun m _ => ?_
    simp [oneProcess, product, ladder]
  · refine sum_congr rfl fun s _ => ?_
    refine sum_congr (by ext x; simp only [mem_Ico, mem_Icc]; omega) fun m _ => ?_
    simp [oneProcess, product, ladder]

section
variable (gaunt : GauntFun) (nBaths : NBaths) (Fdd Fpp Fpd Gpd : List ℝ) (xi2p xi3d : ℝ) (n0imps : Dict ℕ ℤ)
  (c hx hy hz : ℝ) (h0 : Op Label ℂ)

/-- The terms that do not come from a file. -/
noncomputable def fixedTerms (dc : ℝ × ℝ) : List (Op Label ℂ) :=
  [get2p3dSlaterCondonUop gaunt Fdd Fpp Fpd Gpd, gethHfieldop hx hy hz 2, getSOCop xi2p 1, getSOCop xi3d 2,
    eDCOperator dc]

theorem fixedTerms_nodup (dc : ℝ × ℝ) :
    ∀ op ∈ fixedTerms gaunt Fdd Fpp Fpd Gpd xi2p xi3d hx hy hz dc, Dict.NodupKeys op := by
  simp only [fixedTerms, List.forall_mem_cons]
  refine ⟨?_, ?_, ?_, ?_, ?_, by simp⟩
  · exact nodupKeys_addOps _
  · exact (isMatrix_field hx hy hz 2).nodup
  · exact (isMatrix_soc xi2p 1).nodup
  · exact (isMatrix_soc xi3d 2).nodup
  · exact nodup_eDC dc

variable {gaunt} in
theorem fixedTerms_hermitian (hg : GauntSymmetric gaunt) (dc : ℝ × ℝ) :
    ∀ op ∈ fixedTerms gaunt Fdd Fpp Fpd Gpd xi2p xi3d hx hy hz dc, isHermitianOp op := by
  simp only [fixedTerms, List.forall_mem_cons]
  refine ⟨?_, ?_, ?_, ?_, ?_, by simp⟩
  · exact C30_slater_condon_hermitian hg Fdd Fpp Fpd Gpd
  · exact C32_hermitian hx hy hz 2
  · exact C31_hermitian xi2p 1
  · exact C31_hermitian xi3d 2
  · exact eDC_hermitian dc

variable {nBaths} in
theorem fixedTerms_in (h1 : 1 ∈ allAngulars nBaths) (h2 : 2 ∈ allAngulars nBaths) (dc : ℝ × ℝ) :
    ∀ op ∈ fixedTerms gaunt Fdd Fpp Fpd Gpd xi2p xi3d hx hy hz dc, ∀ k ∈ Dict.keys op, ProcIn nBaths k := by
  have hs : ∀ l, l ∈ allAngulars nBaths → ∀ x ∈ shell l, InSystem nBaths (.imp l x.1 x.2) := by
    intro l hl x hx
    rw [mem_shell] at hx
    exact ⟨hl, by omega, by omega, hx.2.1, hx.2.2⟩
  have one : ∀ l, l ∈ allAngulars nBaths → ∀ x ∈ shell l, ∀ y ∈ shell l,
      ProcIn nBaths (oneProcess (.imp l x.1 x.2) (.imp l y.1 y.2)) := by
    intro l hl x hx y hy z hz
    simp only [oneProcess, List.mem_cons, List.not_mem_nil, or_false] at hz
    rcases hz with rfl | rfl
    exacts [hs l hl x hx, hs l hl y hy]
  simp only [fixedTerms, List.forall_mem_cons]
  refine ⟨fun k hk => ?_, fun k hk => ?_, fun k hk => ?_, fun k hk => ?_, fun k hk => ?_, by simp⟩
  · obtain ⟨q, hq, rfl⟩ := List.mem_map.1 hk
    obtain ⟨l1, l2, l3, l4, R, v, hv, a1, a2, a3, a4⟩ := mem_get2p3d gaunt Fdd Fpp Fpd Gpd q hq
    obtain ⟨m1, m2, m3, m4, s, sp, b1, b2, b3, b4, b5, b6, _, _, e⟩ := (mem_getUop _ _ _ _ _ _ _).1 hv
    have hl : ∀ l : ℕ, l = 1 ∨ l = 2 → l ∈ allAngulars nBaths := by rintro l (rfl | rfl) <;> assumption
    simp only [Prod.mk.injEq] at e
    rw [e.1]
    intro x hx
    simp only [uProcess, List.mem_cons, List.not_mem_nil, or_false] at hx
    rcases hx with rfl | rfl | rfl | rfl
    · exact ⟨hl _ a1, b5.1, b5.2, b1.1, b1.2⟩
    · exact ⟨hl _ a2, b6.1, b6.2, b2.1, b2.2⟩
    · exact ⟨hl _ a3, b6.1, b6.2, b3.1, b3.2⟩
    · exact ⟨hl _ a4, b5.1, b5.2, b4.1, b4.2⟩
  · obtain ⟨x, hxs, y, hys, rfl⟩ := (isMatrix_field hx hy hz 2).keys k hk
    exact one 2 h2 x hxs y hys
  · obtain ⟨x, hxs, y, hys, rfl⟩ := (isMatrix_soc xi2p 1).keys k hk
    exact one 1 h1 x hxs y hys
  · obtain ⟨x, hxs, y, hys, rfl⟩ := (isMatrix_soc xi3d 2).keys k hk
    exact one 2 h2 x hxs y hys
  · obtain ⟨q, hq, rfl⟩ := List.mem_map.1 hk
    obtain ⟨l, x, hxs, hl, e⟩ := (mem_eDC dc q).1 hq
    rw [e]
    rcases hl with ⟨rfl, _⟩ | ⟨rfl, _⟩
    exacts [one 2 h2 x hxs x hxs, one 1 h1 x hxs x hxs]

/-- The keys of the sum belong to the system exactly if the non-zero terms of `h0` do. -/
theorem total_in (h1 : 1 ∈ allAngulars nBaths) (h2 : 2 ∈ allAngulars nBaths) (hn0 : Dict.NodupKeys h0)
    (dc : ℝ × ℝ) :
    (∀ k ∈ Dict.keys (addOps (fixedTerms gaunt Fdd Fpp Fpd Gpd xi2p xi3d hx hy hz dc ++ [h0])), ProcIn nBaths k) ↔
      ∀ p, strength h0 p ≠ 0 → ProcIn nBaths p := by
  have hN : ∀ op ∈ fixedTerms gaunt Fdd Fpp Fpd Gpd xi2p xi3d hx hy hz dc ++ [h0], Dict.NodupKeys op := by
    intro op ho
    rcases List.mem_append.1 ho with ho | ho
    · exact fixedTerms_nodup gaunt Fdd Fpp Fpd Gpd xi2p xi3d hx hy hz dc op ho
    · rw [List.mem_singleton.1 ho]; exact hn0
  constructor
  · intro h p hp
    exact h p ((addOps_get? _ hN p).2.2 ⟨h0, by simp, hp⟩)
  · intro h k hk
    obtain ⟨op, ho, hne⟩ := (addOps_get? _ hN k).2.1 hk
    rcases List.mem_append.1 ho with ho | ho
    · refine fixedTerms_in gaunt Fdd Fpp Fpd Gpd xi2p xi3d hx hy hz h1 h2 dc op ho k ?_
      rw [Dict.mem_keys_iff]
      cases hg : Dict.get? op k with
      | none => rw [hg] at hne; simp at hne
      | some v => rfl
    · rw [List.mem_singleton.1 ho] at hne
      exact h k hne

variable {nBaths n0imps} in
open Classical in
theorem getHamiltonianOperator_eq (n3d n2p : ℤ) (hn3 : Dict.get? n0imps 2 = some n3d)
    (hn2 : Dict.get? n0imps 1 = some n2p) (d p : ℝ)
    (hdc : dcMLFT n3d c Fdd (some (n2p : ℝ)) (some Fpd) (some Gpd) = .ok (.two d p)) :
    getHamiltonianOperator gaunt nBaths Fdd Fpp Fpd Gpd xi2p xi3d n0imps c hx hy hz h0
      = (do
        let hOp ← relabel nBaths (addOps (fixedTerms gaunt Fdd Fpp Fpd Gpd xi2p xi3d hx hy hz (d, p) ++ [h0]))
        if isHermitianOp hOp then return hOp else throw .assertionError) := by
  unfold getHamiltonianOperator
  simp only [Dict.get, hn3, hn2, hdc, bind, Except.bind, pure, Except.pure]
  rfl

variable {gaunt nBaths n0imps h0} in
/-- C54.  When the Hamiltonian is accepted.  For every system with a p and a d shell: if every
non-zero term of the non-interacting operator refers to spin-orbitals of the system, then the
assembly succeeds when the non-interacting operator is Hermitian and fails the final assertion
otherwise; if some term refers to a spin-orbital outside the system, the assembly raises. -/
theorem C54_accepts (hg : GauntSymmetric gaunt) (hsys : GoodSystem nBaths) (h1 : 1 ∈ allAngulars nBaths)
    (h2 : 2 ∈ allAngulars nBaths) (n3d n2p : ℤ) (hn3 : Dict.get? n0imps 2 = some n3d)
    (hn2 : Dict.get? n0imps 1 = some n2p) (d p : ℝ)
    (hdc : dcMLFT n3d c Fdd (some (n2p : ℝ)) (some Fpd) (some Gpd) = .ok (.two d p))
    (hn0 : Dict.NodupKeys h0) :
    ((∀ q, strength h0 q ≠ 0 → ∀ x ∈ q, InSystem nBaths x.1) → HermitianStrengths h0 →
      ∃ hOp, getHamiltonianOperator gaunt nBaths Fdd Fpp Fpd Gpd xi2p xi3d n0imps c hx hy hz h0 = .ok hOp) ∧
    ((∀ q, strength h0 q ≠ 0 → ∀ x ∈ q, InSystem nBaths x.1) → ¬ HermitianStrengths h0 →
      getHamiltonianOperator gaunt nBaths Fdd Fpp Fpd Gpd xi2p xi3d n0imps c hx hy hz h0
        = .error .assertionError) ∧
    ((∃ q, strength h0 q ≠ 0 ∧ ∃ x ∈ q, ¬ InSystem nBaths x.1) →
      getHamiltonianOperator gaunt nBaths Fdd Fpp Fpd Gpd xi2p xi3d n0imps c hx hy hz h0
        = .error .exception) := by
  rw [getHamiltonianOperator_eq gaunt Fdd Fpp Fpd Gpd xi2p xi3d c hx hy hz h0 n3d n2p hn3 hn2 d p hdc]
  have hin := total_in gaunt nBaths Fdd Fpp Fpd Gpd xi2p xi3d hx hy hz h0 h1 h2 hn0 (d, p)
  have hH := isHermitianOp_addOps _ (fixedTerms_nodup gaunt Fdd Fpp Fpd Gpd xi2p xi3d hx hy hz (d, p))
    (fixedTerms_hermitian Fdd Fpp Fpd Gpd xi2p xi3d hx hy hz hg (d, p)) h0 hn0
  have ok : (∀ q, strength h0 q ≠ 0 → ∀ x ∈ q, InSystem nBaths x.1) →
      relabel nBaths (addOps (fixedTerms gaunt Fdd Fpp Fpd Gpd xi2p xi3d hx hy hz (d, p) ++ [h0]))
        = .ok (mapPos nBaths (addOps (fixedTerms gaunt Fdd Fpp Fpd Gpd xi2p xi3d hx hy hz (d, p) ++ [h0]))) ∧
      (isHermitianOp (mapPos nBaths (addOps (fixedTerms gaunt Fdd Fpp Fpd Gpd xi2p xi3d hx hy hz (d, p) ++ [h0])))
        ↔ HermitianStrengths h0) := by
    intro hq
    have hk := hin.2 hq
    exact ⟨relabel_ok hsys (nodupKeys_addOps _) hk, (isHermitianOp_mapPos hsys (nodupKeys_addOps _) hk).trans hH⟩
  refine ⟨fun hq hh => ?_, fun hq hh => ?_, fun hq => ?_⟩
  · obtain ⟨e, hiff⟩ := ok hq
    rw [e]
    exact ⟨_, if_pos (hiff.2 hh)⟩
  · obtain ⟨e, hiff⟩ := ok hq
    rw [e]
    exact if_neg (fun hc => hh (hiff.1 hc))
  · rw [relabel_error]
    · rfl
    · by_contra hc
      push Not at hc
      obtain ⟨q, hq, x, hx, hns⟩ := hq
      exact hns (hin.1 hc q hq x hx)

variable {gaunt nBaths n0imps h0} in
/-- C54.  What the Hamiltonian is: no term is lost or counted twice.  Every process over labels of
the system occurs with the sum of its strengths in the six terms, all indices belong to the
system, the dict is Hermitian, and as an operator it is Coulomb interaction plus magnetic field
plus spin-orbit couplings minus double counting plus the non-interacting operator. -/
theorem C54_meaning (hsys : GoodSystem nBaths) (n3d n2p : ℤ) (hn3 : Dict.get? n0imps 2 = some n3d)
    (hn2 : Dict.get? n0imps 1 = some n2p) (d p : ℝ)
    (hdc : dcMLFT n3d c Fdd (some (n2p : ℝ)) (some Fpd) (some Gpd) = .ok (.two d p))
    (hn0 : Dict.NodupKeys h0) (hOp : Op ℕ ℂ)
    (h : getHamiltonianOperator gaunt nBaths Fdd Fpp Fpd Gpd xi2p xi3d n0imps c hx hy hz h0 = .ok hOp) :
    Dict.NodupKeys hOp ∧ OpInSystem (nTotal nBaths) hOp ∧ isHermitianOp hOp ∧
    (∀ q : Process Label, (∀ x ∈ q, InSystem nBaths x.1) →
      strength hOp (q.map fun x => (position nBaths x.1, x.2))
        = strength (get2p3dSlaterCondonUop gaunt Fdd Fpp Fpd Gpd) q + strength (gethHfieldop hx hy hz 2) q
          + strength (getSOCop xi2p 1) q + strength (getSOCop xi3d 2) q + strength (eDCOperator (d, p)) q
          + strength h0 q) ∧
    ∀ v S, operator (opSpec hOp) v S =
      operator (labelSpec (position nBaths) (get2p3dSlaterCondonUop gaunt Fdd Fpp Fpd Gpd)) v S
      + oneBody (position nBaths) 2 (hDotS hx hy hz) v S
      + oneBody (position nBaths) 1 (fun x y => (xi2p : ℂ) * lDotS 1 x y) v S
      + oneBody (position nBaths) 2 (fun x y => (xi3d : ℂ) * lDotS 2 x y) v S
      - (d * shellNumber (position nBaths) 2 v S + p * shellNumber (position nBaths) 1 v S)
      + operator (labelSpec (position nBaths) h0) v S := by
  rw [getHamiltonianOperator_eq gaunt Fdd Fpp Fpd Gpd xi2p xi3d c hx hy hz h0 n3d n2p hn3 hn2 d p hdc] at h
  have hN : ∀ op ∈ fixedTerms gaunt Fdd Fpp Fpd Gpd xi2p xi3d hx hy hz (d, p) ++ [h0], Dict.NodupKeys op := by
    intro op ho
    rcases List.mem_append.1 ho with ho | ho
    · exact fixedTerms_nodup gaunt Fdd Fpp Fpd Gpd xi2p xi3d hx hy hz (d, p) op ho
    · rw [List.mem_singleton.1 ho]; exact hn0
  by_cases hk : ∀ k ∈ Dict.keys (addOps (fixedTerms gaunt Fdd Fpp Fpd Gpd xi2p xi3d hx hy hz (d, p) ++ [h0])),
      ProcIn nBaths k
  · rw [relabel_ok hsys (nodupKeys_addOps _) hk] at h
    simp only [bind, Except.bind, pure, Except.pure] at h
    split at h
    · rename_i hherm
      obtain rfl := Except.ok.inj h
      refine ⟨nodupKeys_mapPos hsys (nodupKeys_addOps _) hk, ?_, hherm, ?_, ?_⟩
      · intro q hq x hx
        obtain ⟨q', hq', e⟩ := mem_keys_mapPos (List.mem_map.2 ⟨q, hq, rfl⟩ : q.1 ∈ Dict.keys _)
        rw [e] at hx
        obtain ⟨y, hy, rfl⟩ := List.mem_map.1 hx
        exact position_lt hsys (hk q' hq' y hy)
      · intro q hq
        change (Dict.get? _ (toPos nBaths q)).getD 0 = _
        rw [get?_mapPos hsys hk hq, (addOps_get? _ hN q).1]
        simp only [fixedTerms, List.cons_append, List.nil_append, List.map_cons, List.map_nil, List.sum_cons,
          List.sum_nil, strength]
        ring
      · intro v S
        rw [opSpec_mapPos, operator_labelSpec_addOps]
        simp only [fixedTerms, List.cons_append, List.nil_append, List.map_cons, List.map_nil, List.sum_cons,
          List.sum_nil, C31_meaning, C32_meaning, eDC_meaning]
        ring
    · simp [throw, throwThe, MonadExceptOf.throw] at h
  · push Not at hk
    rw [relabel_error hk] at h
    simp [bind, Except.bind] at h

end

/-- A hopping between a d orbital and a bath state. -/
noncomputable def exH0 : Op Label ℂ :=
  [(oneProcess (.bath (.int 2) 0) (.imp 2 0 1), 1 + Complex.I),
   (oneProcess (.imp 2 0 1) (.bath (.int 2) 0), 1 - Complex.I)]

theorem exH0_nodup : Dict.NodupKeys exH0 := by
  have : Dict.keys exH0 = [oneProcess (.bath (.int 2) 0) (.imp 2 0 1), oneProcess (.imp 2 0 1) (.bath (.int 2) 0)] := rfl
  rw [Dict.NodupKeys, this]
  decide

theorem exH0_hermitian : HermitianStrengths exH0 := by
  apply strength_of_hermitian exH0_nodup
  intro p
  rw [get?_daggerOp _ exH0_nodup]
  have e1 : (oneProcess (.bath (.int 2) 0) (.imp 2 0 1) = dagProcess p) ↔ (oneProcess (.imp 2 0 1) (.bath (.int 2) 0) = p) := by
    rw [← dag_oneProcess, dagProcess_injective.eq_iff]
  have e2 : (oneProcess (.imp 2 0 1) (.bath (.int 2) 0) = dagProcess p) ↔ (oneProcess (.bath (.int 2) 0) (.imp 2 0 1) = p) := by
    rw [← dag_oneProcess, dagProcess_injective.eq_iff]
  simp only [exH0, Dict.get?_cons, Dict.get?_nil, e1, e2]
  have hne : oneProcess (.bath (.int 2) 0) (.imp 2 0 1) ≠ oneProcess (.imp 2 0 1) (.bath (.int 2) 0) := by decide
  by_cases ha : oneProcess (.bath (.int 2) 0) (.imp 2 0 1) = p
  · have hb : ¬ oneProcess (.imp 2 0 1) (.bath (.int 2) 0) = p := fun hb => hne (ha.trans hb.symm)
    rw [if_neg hb, if_pos ha, if_pos ha]
    simp [Complex.ext_iff]
  · by_cases hb : oneProcess (.imp 2 0 1) (.bath (.int 2) 0) = p
    · rw [if_pos hb, if_neg ha, if_pos hb]
      simp [Complex.ext_iff]
    · rw [if_neg hb, if_neg ha, if_neg ha, if_neg hb]
      rfl

/-- The hypotheses are met: a p shell and a d shell with one bath state. -/
example : ∃ hOp, getHamiltonianOperator exGaunt [(.int 1, 0), (.int 2, 1)] [7, 0, 1, 0, 1] [0, 0, 0] [1, 0, 2]
    [0, 1, 0, 2] 11 (1 / 10) [(1, 6), (2, 8)] (3 / 2) 0 0 1 exH0 = .ok hOp := by
  obtain ⟨d, p, hdc⟩ : ∃ d p, dcMLFT ((8 : ℤ) : ℝ) (3 / 2) [7, 0, 1, 0, 1] (some ((6 : ℤ) : ℝ)) (some [1, 0, 2])
      (some [0, 1, 0, 2]) = .ok (.two d p) := by
    exact ⟨_, _, (C39_double_counting _ _ _ _ _ _ (by simp) (by simp) (by simp)).2.2 [1, 0, 2] [0, 1, 0, 2] ⟨8, rfl⟩
      (by norm_num) rfl rfl⟩
  refine (C54_accepts [7, 0, 1, 0, 1] [0, 0, 0] [1, 0, 2] [0, 1, 0, 2] 11 (1 / 10) (3 / 2) 0 0 1 exGaunt_symmetric
    (nBaths := [(.int 1, 0), (.int 2, 1)]) ⟨by decide, by decide⟩ (by decide) (by decide) 8 6 rfl rfl d p hdc
    exH0_nodup).1 ?_ exH0_hermitian
  intro q hq x hx
  have hmem : q ∈ Dict.keys exH0 := by
    rw [Dict.mem_keys_iff]
    unfold strength at hq
    cases hg : Dict.get? exH0 q with
    | none => rw [hg] at hq; simp at hq
    | some v => rfl
  have hk : Dict.keys exH0 = [oneProcess (.bath (.int 2) 0) (.imp 2 0 1), oneProcess (.imp 2 0 1) (.bath (.int 2) 0)] := rfl
  rw [hk] at hmem
  have hb : InSystem [(.int 1, 0), (.int 2, 1)] (.bath (.int 2) 0) := ⟨1, by decide, by decide, by decide⟩
  have hi : InSystem [(.int 1, 0), (.int 2, 1)] (.imp 2 0 1) := by
    refine ⟨by decide, by decide, by decide, by decide, by decide⟩
  simp only [List.mem_cons, List.not_mem_nil, or_false] at hmem
  rcases hmem with rfl | rfl <;>
  · simp only [oneProcess, List.mem_cons, List.not_mem_nil, or_false] at hx
    rcases hx with rfl | rfl <;> assumption

end Verif
