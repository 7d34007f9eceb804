/-
C53: the crystal-field Hamiltonian.  C56: its bath terms act on the valence and conduction bath states.
-/
import Verif.Lemmas.CrystalField
import Verif.Prop.Assemble
import Verif.Prop.Observables

namespace Verif

open Spec Finset

section
variable (nBaths : Dict ℕ ℕ) (nValBaths : Dict ℕ ℤ) (P : CFParams) (basis : String)

theorem ok_bind {α β : Type} (x : α) (k : α → Py β) : (Except.ok x >>= k : Py β) = k x := rfl

theorem pure_ok {α : Type} (x : α) : (pure x : Py α) = .ok x := rfl

/-- The bath rotation of the model. -/
noncomputable def uBathOf (basis : String) : CMat := if basis = "spherical" then cubicD else CMat.eye 5

theorem uBathOf_cols : (uBathOf basis).cols = 5 := by
  unfold uBathOf; split <;> rfl

/-- The three dicts that are added. -/
noncomputable def cfTerms (con : Bool) : List (Op Label ℂ) :=
  [hImpOperator (cubicD.dot ((egT2gDiagonal (P.eImp + 3 / 5 * P.eDeltaO) (P.eImp - 2 / 5 * P.eDeltaO)).dot cubicD.conjT)),
   hHoppOperator ((uBathOf basis).dot ((egT2gDiagonal P.vValEg P.vValT2g).dot cubicD.conjT))
    ((uBathOf basis).dot ((egT2gDiagonal P.vConEg P.vConT2g).dot cubicD.conjT)) con,
   eBathOperator ((uBathOf basis).dot ((egT2gDiagonal P.eValEg P.eValT2g).dot (uBathOf basis).conjT))
    ((uBathOf basis).dot ((egT2gDiagonal P.eConEg P.eConT2g).dot (uBathOf basis).conjT)) con]

variable {nBaths nValBaths basis} in
theorem getCFHamiltonian_eq (nb : ℕ) (nVal : ℤ) (hb : Dict.get? nBaths 2 = some nb)
    (hv : Dict.get? nValBaths 2 = some nVal) (hbasis : basis = "spherical" ∨ basis = "cubic") :
    getCFHamiltonian nBaths nValBaths P basis = .ok (addOps (cfTerms P basis (decide ((nb : ℤ) - nVal = 10)))) := by
  have hu : getSpherical2CubicMatrix false 2 = .ok cubicD := rfl
  have hr : cubicD.rows = 5 := rfl
  have hb' : Dict.get nBaths 2 = .ok nb := by rw [Dict.get, hb]
  have hv' : Dict.get nValBaths 2 = .ok nVal := by rw [Dict.get, hv]
  unfold getCFHamiltonian
  rw [hu, ok_bind]
  dsimp only
  rw [hb', hv']
  rcases hbasis with h | h
  · have hs : uBathOf basis = cubicD := by rw [uBathOf, if_pos h]
    rw [if_pos h, cfTerms, hs, pure_ok, ok_bind, ok_bind, ok_bind, pure_ok]
  · have h' : basis ≠ "spherical" := by rw [h]; decide
    have hs : uBathOf basis = CMat.eye 5 := by rw [uBathOf, if_neg h']
    rw [if_neg h', if_pos h, cfTerms, hs, hr, pure_ok, ok_bind, ok_bind, ok_bind, pure_ok]

theorem cfTerms_nodup (con : Bool) : ∀ op ∈ cfTerms P basis con, Dict.NodupKeys op := by
  simp only [cfTerms, List.forall_mem_cons]
  refine ⟨?_, ?_, ?_, by simp⟩ <;> exact Dict.nodupKeys_update Dict.nodupKeys_nil _

theorem cfTerms_hermitian (con : Bool) : ∀ op ∈ cfTerms P basis con, isHermitianOp op := by
  have hn := cfTerms_nodup P basis con
  have hd : cubicD.cols = 5 := rfl
  have hub := uBathOf_cols basis
  simp only [cfTerms, List.forall_mem_cons] at hn ⊢
  refine ⟨hermitian_of_closed hn.1 ?_, hermitian_of_closed hn.2.1 ?_, hermitian_of_closed hn.2.2.1 ?_, by simp⟩
  · intro q hq
    rw [mem_hImp] at hq ⊢
    obtain ⟨s, hs, i, hi, j, hj, hne, rfl⟩ := hq
    rw [← star_ne_zero, rot_star hd hd] at hne
    exact ⟨s, hs, j, hj, i, hi, hne, by rw [dag_oneProcess, rot_star hd hd]⟩
  · intro q hq
    rw [mem_hHopp] at hq ⊢
    have key : ∀ (w : CMat) (b : ℤ → ℕ → ℤ), HoppEntry w b q → HoppEntry w b (dagProcess q.1, star q.2) := by
      rintro w b ⟨s, hs, i, hi, j, hj, hne, rfl | rfl⟩
      · exact ⟨s, hs, i, hi, j, hj, hne, Or.inr rfl⟩
      · exact ⟨s, hs, i, hi, j, hj, hne, Or.inl (by rw [dag_oneProcess, star_star])⟩
    exact hq.imp (key _ _) (And.imp_right (key _ _))
  · intro q hq
    rw [mem_eBath] at hq ⊢
    have key : ∀ (eg t2g : ℝ) (b : ℤ → ℕ → ℤ),
        BathEntry ((uBathOf basis).dot ((egT2gDiagonal eg t2g).dot (uBathOf basis).conjT)) b q →
        BathEntry ((uBathOf basis).dot ((egT2gDiagonal eg t2g).dot (uBathOf basis).conjT)) b (dagProcess q.1, star q.2) := by
      rintro eg t2g b ⟨s, hs, i, hi, j, hj, hne, rfl⟩
      rw [← star_ne_zero, rot_star hub hub] at hne
      exact ⟨s, hs, j, hj, i, hi, hne, by rw [dag_oneProcess, rot_star hub hub]⟩
    exact hq.imp (key _ _ _) (And.imp_right (key _ _ _))

/-- Where the processes of the three dicts act: both orbitals have the same spin, bath states are
below 10 or, with conduction states, below 20. -/
theorem cfTerms_mem (con : Bool) (q : Process Label × ℂ) (hq : q ∈ addOps (cfTerms P basis con)) :
    ∃ x y, q.1 = oneProcess x y ∧ spinOf x = spinOf y ∧ ∀ z ∈ [x, y],
      (∃ s m : ℤ, (0 ≤ s ∧ s < 2) ∧ (-2 ≤ m ∧ m ≤ 2) ∧ z = .imp 2 s m) ∨
      (∃ b : ℤ, (0 ≤ b ∧ b < if con then 20 else 10) ∧ z = .bath (.int 2) b) := by
  obtain ⟨op, hop, w, hw⟩ := mem_addOps _ (cfTerms_nodup P basis con) q hq
  have himp : ∀ (s : ℤ) (j : ℕ), (0 ≤ s ∧ s < 2) → j < 5 →
      ∃ s' m : ℤ, (0 ≤ s' ∧ s' < 2) ∧ (-2 ≤ m ∧ m ≤ 2) ∧ Label.imp 2 s ((j : ℤ) - 2) = .imp 2 s' m :=
    fun s j hs hj => ⟨s, _, hs, by omega, rfl⟩
  have hval : ∀ (s : ℤ) (j : ℕ), (0 ≤ s ∧ s < 2) → j < 5 → spinOf (bathLabel (biVal s j)) = s ∧
      ∃ b : ℤ, (0 ≤ b ∧ b < if con then 20 else 10) ∧ bathLabel (biVal s j) = .bath (.int 2) b := by
    intro s j hs hj
    refine ⟨?_, _, ?_, rfl⟩
    · unfold spinOf bathLabel biVal; dsimp only; omega
    · unfold biVal; split <;> omega
  have hcon : con = true → ∀ (s : ℤ) (j : ℕ), (0 ≤ s ∧ s < 2) → j < 5 → spinOf (bathLabel (biCon s j)) = s ∧
      ∃ b : ℤ, (0 ≤ b ∧ b < if con then 20 else 10) ∧ bathLabel (biCon s j) = .bath (.int 2) b := by
    intro hc s j hs hj
    refine ⟨?_, _, ?_, rfl⟩
    · unfold spinOf bathLabel biCon biVal; dsimp only; omega
    · rw [if_pos hc]; unfold biCon biVal; omega
  have two : ∀ {A : Label → Prop} {x y : Label}, A x → A y → ∀ z ∈ [x, y], A z := by
    intro A x y hx hy z hz
    simp only [List.mem_cons, List.not_mem_nil, or_false] at hz
    rcases hz with rfl | rfl <;> assumption
  have hopp : ∀ (M : CMat) (b : ℤ → ℕ → ℤ), (∀ (s : ℤ) (j : ℕ), (0 ≤ s ∧ s < 2) → j < 5 →
      spinOf (bathLabel (b s j)) = s ∧
      ∃ c : ℤ, (0 ≤ c ∧ c < if con then 20 else 10) ∧ bathLabel (b s j) = .bath (.int 2) c) →
      HoppEntry M b (q.1, w) → ∃ x y, q.1 = oneProcess x y ∧ spinOf x = spinOf y ∧ ∀ z ∈ [x, y],
        (∃ s m : ℤ, (0 ≤ s ∧ s < 2) ∧ (-2 ≤ m ∧ m ≤ 2) ∧ z = .imp 2 s m) ∨
        (∃ b : ℤ, (0 ≤ b ∧ b < if con then 20 else 10) ∧ z = .bath (.int 2) b) := by
    rintro M b hb ⟨s, hs, i, hi, j, hj, hne, e | e⟩
    · exact ⟨_, _, (Prod.mk.inj e).1, (hb s i hs hi).1, two (Or.inr (hb s i hs hi).2) (Or.inl (himp s j hs hj))⟩
    · exact ⟨_, _, (Prod.mk.inj e).1, (hb s i hs hi).1.symm, two (Or.inl (himp s j hs hj)) (Or.inr (hb s i hs hi).2)⟩
  have bath : ∀ (M : CMat) (b : ℤ → ℕ → ℤ), (∀ (s : ℤ) (j : ℕ), (0 ≤ s ∧ s < 2) → j < 5 →
      spinOf (bathLabel (b s j)) = s ∧
      ∃ c : ℤ, (0 ≤ c ∧ c < if con then 20 else 10) ∧ bathLabel (b s j) = .bath (.int 2) c) →
      BathEntry M b (q.1, w) → ∃ x y, q.1 = oneProcess x y ∧ spinOf x = spinOf y ∧ ∀ z ∈ [x, y],
        (∃ s m : ℤ, (0 ≤ s ∧ s < 2) ∧ (-2 ≤ m ∧ m ≤ 2) ∧ z = .imp 2 s m) ∨
        (∃ b : ℤ, (0 ≤ b ∧ b < if con then 20 else 10) ∧ z = .bath (.int 2) b) := by
    rintro M b hb ⟨s, hs, i, hi, j, hj, hne, e⟩
    exact ⟨_, _, (Prod.mk.inj e).1, (hb s i hs hi).1.trans (hb s j hs hj).1.symm,
      two (Or.inr (hb s i hs hi).2) (Or.inr (hb s j hs hj).2)⟩
  simp only [cfTerms, List.mem_cons, List.not_mem_nil, or_false] at hop
  rcases hop with hop | hop | hop <;> rw [hop] at hw
  · rw [mem_hImp] at hw
    obtain ⟨s, hs, i, hi, j, hj, hne, e⟩ := hw
    exact ⟨_, _, (Prod.mk.inj e).1, rfl, two (Or.inl (himp s i hs hi)) (Or.inl (himp s j hs hj))⟩
  · rw [mem_hHopp] at hw
    rcases hw with hw | ⟨hc, hw⟩
    · exact hopp _ _ hval hw
    · exact hopp _ _ (hcon hc) hw
  · rw [mem_eBath] at hw
    rcases hw with hw | ⟨hc, hw⟩
    · exact bath _ _ hval hw
    · exact bath _ _ (hcon hc) hw

variable {nBaths nValBaths basis} in
/-- C53.  The crystal-field operator is a Hermitian dict, every process moves one electron between two
orbitals of the same spin, and as an operator it is, in cubic orbitals and for each spin: eg and t2g
levels of the d shell with barycentre `e_imp` and splitting `e_deltaO_imp`; the levels of five valence
bath states and their hopping to the five cubic d orbitals; and the same for the conduction bath states
exactly if `nBaths - nValBaths` is ten.  The bath states are the cubic orbitals themselves (`cubic`) or
rotated like spherical harmonics (`spherical`). -/
theorem C53_meaning (nb : ℕ) (nVal : ℤ) (hb : Dict.get? nBaths 2 = some nb)
    (hv : Dict.get? nValBaths 2 = some nVal) (hbasis : basis = "spherical" ∨ basis = "cubic") :
    ∃ h0 u eg t2g, getCFHamiltonian nBaths nValBaths P basis = .ok h0 ∧
      getSpherical2CubicMatrix false 2 = .ok u ∧ eg - t2g = P.eDeltaO ∧ (2 * eg + 3 * t2g) / 5 = P.eImp ∧
      Dict.NodupKeys h0 ∧ isHermitianOp h0 ∧
      (∀ q ∈ h0, ∃ x y, q.1 = [(x, .c), (y, .a)] ∧ spinOf x = spinOf y) ∧
      ∀ (uBath : ℕ → ℕ → ℂ), (basis = "spherical" → uBath = u.val) →
        (basis = "cubic" → uBath = fun i c => if i = c then 1 else 0) →
        ∀ (f : Label → ℕ) (v : Vec ℂ) (S : Finset ℕ),
          operator (labelSpec f h0) v S
            = (∑ s ∈ ({0, 1} : Finset ℤ), hopSum (dOrbitals f u.val s) (dOrbitals f u.val s) (egT2g eg t2g) v S)
              + bathTerms f u.val uBath (fun s => 5 * s) (egT2g P.eValEg P.eValT2g) (egT2g P.vValEg P.vValT2g) v S
              + if nb - nVal = 10 then
                  bathTerms f u.val uBath (fun s => 10 + 5 * s) (egT2g P.eConEg P.eConT2g)
                    (egT2g P.vConEg P.vConT2g) v S
                else 0 := by
  refine ⟨_, cubicD, P.eImp + 3 / 5 * P.eDeltaO, P.eImp - 2 / 5 * P.eDeltaO,
    getCFHamiltonian_eq P nb nVal hb hv hbasis, rfl, by ring, by ring, nodupKeys_addOps _,
    addOps_hermitian _ (cfTerms_nodup P basis _) (cfTerms_hermitian P basis _), ?_, ?_⟩
  · intro q hq
    obtain ⟨x, y, e, hs, _⟩ := cfTerms_mem P basis _ q hq
    exact ⟨x, y, e, hs⟩
  · intro uBath h1 h2 f v S
    have hd : cubicD.cols = 5 := rfl
    have hub := uBathOf_cols basis
    have e0 : (uBathOf basis).val = uBath := by
      rcases hbasis with h | h
      · rw [h1 h, uBathOf, if_pos h]
      · rw [h2 h, uBathOf, if_neg (by rw [h]; decide)]; rfl
    have swap : ∀ (M : CMat) (p q : ℕ → ℕ), ∑ i ∈ range 5, ∑ j ∈ range 5, star (M.val i j) *
        create (q j) (annihilate (p i) v) S
        = ∑ j ∈ range 5, ∑ i ∈ range 5, star (M.val i j) * create (q j) (annihilate (p i) v) S :=
      fun M p q => sum_comm
    rw [operator_labelSpec_addOps]
    simp only [cfTerms, List.map_cons, List.map_nil, List.sum_cons, List.sum_nil, hImp_meaning, hHopp_meaning,
      eBath_meaning, add_zero]
    have r1 := fun (w w' : ℝ) (p q : ℕ → ℕ) => rot_hopSum hd hd w w' p q v S
    have r2 := fun (w w' : ℝ) (p q : ℕ → ℕ) => rot_hopSum hub hd w w' p q v S
    have r3 := fun (w w' : ℝ) (p q : ℕ → ℕ) => rot_hopSum hub hub w w' p q v S
    have r4 : ∀ (w w' : ℝ) (p q : ℕ → ℕ), ∑ i ∈ range 5, ∑ j ∈ range 5,
        star (((uBathOf basis).dot ((egT2gDiagonal w w').dot cubicD.conjT)).val i j) *
          create (q j) (annihilate (p i) v) S = hopSum ⟨q, cubicD.val⟩ ⟨p, (uBathOf basis).val⟩ (egT2g w w') v S := by
      intro w w' p q
      rw [swap]
      simp only [rot_star hub hd]
      exact rot_hopSum hd hub w w' q p v S
    have l1 := fun s : ℤ => r1 (P.eImp + 3 / 5 * P.eDeltaO) (P.eImp - 2 / 5 * P.eDeltaO)
      (fun i => f (.imp 2 s ((i : ℤ) - 2))) (fun i => f (.imp 2 s ((i : ℤ) - 2)))
    have l2 := fun (b : ℤ → ℕ → ℤ) (s : ℤ) (w w' : ℝ) => r2 w w' (fun i => f (bathLabel (b s i)))
      (fun i => f (.imp 2 s ((i : ℤ) - 2)))
    have l3 := fun (b : ℤ → ℕ → ℤ) (s : ℤ) (w w' : ℝ) => r3 w w' (fun i => f (bathLabel (b s i)))
      (fun i => f (bathLabel (b s i)))
    have l4 := fun (b : ℤ → ℕ → ℤ) (s : ℤ) (w w' : ℝ) => r4 w w' (fun i => f (bathLabel (b s i)))
      (fun i => f (.imp 2 s ((i : ℤ) - 2)))
    beta_reduce at l1 l2 l3 l4
    have bv : ∀ s : ℤ, (fun i : ℕ => f (bathLabel (biVal s i))) = fun i : ℕ => f (.bath (.int 2) (5 * s + i)) := by
      intro s; funext i; unfold bathLabel biVal; congr 2; ring
    have bc : ∀ s : ℤ, (fun i : ℕ => f (bathLabel (biCon s i))) = fun i : ℕ => f (.bath (.int 2) (10 + 5 * s + i)) := by
      intro s; funext i; unfold bathLabel biCon biVal; congr 2; ring
    simp only [l1, l2, l3, l4, bv, bc, e0, bathTerms, bathOrbitals, dOrbitals, decide_eq_true_eq]
    split
    · simp only [sum_add_distrib]; ring
    · simp only [sum_add_distrib]; ring

variable {nBaths nValBaths basis} in
/-- C56.  With ten valence bath states the valence terms act on the bath states below `nValBaths` and the
conduction terms on the bath states from `nValBaths` to `nBaths`.  Missing: other numbers of valence
bath states, for which this is false (`C56_violated`). -/
theorem C56_bath_numbering_partial (nb : ℕ) (nVal : ℤ) (hb : Dict.get? nBaths 2 = some nb)
    (hv : Dict.get? nValBaths 2 = some nVal) (hbasis : basis = "spherical" ∨ basis = "cubic")
    (h10 : nVal = 10) (h20 : (nb : ℤ) = nVal + 10) :
    ∃ h0, getCFHamiltonian nBaths nValBaths P basis = .ok h0 ∧
      (∀ q ∈ h0, ∀ x ∈ q.1, ∀ b : ℤ, x.1 = .bath (.int 2) b → 0 ≤ b ∧ b < nb) ∧
      ∃ w wBath : ℕ → ℕ → ℂ, ∀ (f : Label → ℕ) (v : Vec ℂ) (S : Finset ℕ),
          operator (labelSpec f h0) v S
            = (∑ s ∈ ({0, 1} : Finset ℤ), hopSum (dOrbitals f w s) (dOrbitals f w s)
                (egT2g (P.eImp + 3 / 5 * P.eDeltaO) (P.eImp - 2 / 5 * P.eDeltaO)) v S)
              + bathTerms f w wBath (fun s => 5 * s) (egT2g P.eValEg P.eValT2g) (egT2g P.vValEg P.vValT2g) v S
              + bathTerms f w wBath (fun s => nVal + 5 * s) (egT2g P.eConEg P.eConT2g)
                  (egT2g P.vConEg P.vConT2g) v S := by
  obtain ⟨h0, u, eg, t2g, e, hu, h1, h2, _, _, _, hm⟩ := C53_meaning P nb nVal hb hv hbasis
  refine ⟨h0, e, ?_, u.val, if basis = "spherical" then u.val else fun i c => if i = c then 1 else 0, ?_⟩
  · rw [getCFHamiltonian_eq P nb nVal hb hv hbasis] at e
    obtain rfl := Except.ok.inj e
    intro q hq x hx b hxb
    obtain ⟨y, z, e1, _, hz⟩ := cfTerms_mem _ _ _ q hq
    rw [e1] at hx
    have hx1 : x.1 ∈ [y, z] := by
      simp only [oneProcess, List.mem_cons, List.not_mem_nil, or_false] at hx ⊢
      rcases hx with rfl | rfl <;> simp
    rcases hz _ hx1 with ⟨s, m, _, _, e2⟩ | ⟨k, hk, e2⟩
    · rw [e2] at hxb; cases hxb
    · rw [e2] at hxb
      cases hxb
      have := hk.2
      split at this <;> omega
  · intro f v S
    have he : eg = P.eImp + 3 / 5 * P.eDeltaO := by linarith
    have ht : t2g = P.eImp - 2 / 5 * P.eDeltaO := by linarith
    rw [hm _ (fun h => if_pos h) (fun h => if_neg (by rw [h]; decide)) f v S, if_pos (show (nb : ℤ) - nVal = 10 by omega), he, ht, h10]

/-- C53.  Any other name of a bath basis raises. -/
theorem C53_raises (h : basis ≠ "spherical") (h' : basis ≠ "cubic") :
    getCFHamiltonian nBaths nValBaths P basis = .error .exception := by
  unfold getCFHamiltonian
  have hu : getSpherical2CubicMatrix false 2 = .ok cubicD := rfl
  simp only [hu, bind, Except.bind, if_neg h, if_neg h']
  rfl

end

section
variable (gaunt : GauntFun) (nBaths : Dict ℕ ℕ) (nValBaths : Dict ℕ ℤ) (Fdd Fpp Fpd Gpd : List ℝ)
  (xi2p xi3d : ℝ) (n0imps : Dict ℕ ℤ) (c hx hy hz : ℝ) (parameters : Dict String ℝ) (basis : String)

variable {gaunt nBaths nValBaths n0imps basis} in
/-- C56.  With ten valence bath states, and no or ten conduction bath states, the complete Hamiltonian
is accepted: all labels belong to the system and the final assertion passes. -/
theorem C56_assembles (hg : GauntSymmetric gaunt) (hn : Dict.NodupKeys nBaths) (np nb : ℕ)
    (h1 : (1, np) ∈ nBaths) (h2 : (2, nb) ∈ nBaths) (hv : Dict.get? nValBaths 2 = some 10)
    (hnb : 10 ≤ nb) (n3d n2p : ℤ) (hn3 : Dict.get? n0imps 2 = some n3d)
    (hn2 : Dict.get? n0imps 1 = some n2p) (d p : ℝ)
    (hdc : dcMLFT n3d c Fdd (some (n2p : ℝ)) (some Fpd) (some Gpd) = .ok (.two d p))
    (hbasis : basis = "spherical" ∨ basis = "cubic") :
    ∃ hOp, getHamiltonianOperatorUsingCF gaunt nBaths nValBaths Fdd Fpp Fpd Gpd xi2p xi3d n0imps c hx hy hz
      parameters basis = .ok hOp := by
  unfold getHamiltonianOperatorUsingCF
  rw [getCFHamiltonian_eq _ nb 10 (Dict.get?_of_mem hn h2) hv hbasis]
  have hsys := goodSystem_intKeys hn
  have hl : ∀ l k, (l, k) ∈ nBaths → l ∈ allAngulars (intKeys nBaths) ∧ (LKey.int l, k) ∈ intKeys nBaths := by
    intro l k h
    have hm : (LKey.int l, k) ∈ intKeys nBaths := List.mem_map.2 ⟨_, h, rfl⟩
    exact ⟨List.mem_flatMap.2 ⟨_, hm, by simp [angulars]⟩, hm⟩
  refine (C54_accepts Fdd Fpp Fpd Gpd xi2p xi3d c hx hy hz hg hsys (hl _ _ h1).1 (hl _ _ h2).1 n3d n2p hn3 hn2 d p
    hdc (nodupKeys_addOps _)).1 ?_ ?_
  · intro q hq x hxq
    have hmem : q ∈ Dict.keys (addOps (cfTerms (readH0CFFile parameters) basis (decide ((nb : ℤ) - 10 = 10)))) := by
      rw [Dict.mem_keys_iff]
      unfold strength at hq
      cases hgq : Dict.get? (addOps (cfTerms (readH0CFFile parameters) basis (decide ((nb : ℤ) - 10 = 10)))) q with
      | none => rw [hgq] at hq; simp at hq
      | some v => rfl
    obtain ⟨e, he, rfl⟩ := List.mem_map.1 hmem
    obtain ⟨a, b, e1, _, hz⟩ := cfTerms_mem _ basis _ e he
    rw [e1] at hxq
    have hx1 : x.1 ∈ [a, b] := by
      simp only [oneProcess, List.mem_cons, List.not_mem_nil, or_false] at hxq ⊢
      rcases hxq with rfl | rfl <;> simp
    rcases hz _ hx1 with ⟨s, m, hs, hm, e2⟩ | ⟨k, hk, e2⟩
    · rw [e2]; exact ⟨(hl _ _ h2).1, hs.1, hs.2, by push_cast; omega, by push_cast; omega⟩
    · rw [e2]
      refine ⟨nb, (hl _ _ h2).2, hk.1, ?_⟩
      have := hk.2
      split at this <;> simp_all <;> omega
  · exact strength_of_hermitian (nodupKeys_addOps _)
      (addOps_hermitian _ (cfTerms_nodup _ basis _) (cfTerms_hermitian _ basis _))

end

/-- The first conduction term: hopping from the `z²` orbital to "conduction" bath state 10. -/
theorem cf_strength_con (P : CFParams) (nb : ℕ) (nVal : ℤ) (nBaths : Dict ℕ ℕ) (nValBaths : Dict ℕ ℤ)
    (hb : Dict.get? nBaths 2 = some nb) (hv : Dict.get? nValBaths 2 = some nVal) (hc : (nb : ℤ) - nVal = 10)
    (hne : P.vConEg ≠ 0) :
    ∃ h0, getCFHamiltonian nBaths nValBaths P "cubic" = .ok h0 ∧
      [(.bath (.int 2) 10, .c), (.imp 2 0 0, .a)] ∈ Dict.keys h0 := by
  refine ⟨_, getCFHamiltonian_eq P nb nVal hb hv (Or.inr rfl), ?_⟩
  have hdec : decide ((nb : ℤ) - nVal = 10) = true := by simpa using hc
  rw [hdec]
  rw [(addOps_get? _ (cfTerms_nodup P "cubic" true) _).2]
  have hval : ((uBathOf "cubic").dot ((egT2gDiagonal P.vConEg P.vConT2g).dot cubicD.conjT)).val 0 2 = P.vConEg := by
    rw [rot_val (uBathOf_cols _) (rfl : cubicD.cols = 5)]
    have : (uBathOf "cubic").val = fun i j => if i = j then 1 else 0 := by
      rw [uBathOf, if_neg (by decide)]; rfl
    rw [this]
    rw [sum_eq_single 0]
    · rw [cubicD_val 2 (by norm_num) 0 (by norm_num)]
      simp [egT2g]
    · intro k _ hk
      simp [hk.symm]
    · simp
  refine ⟨hHoppOperator ((uBathOf "cubic").dot ((egT2gDiagonal P.vValEg P.vValT2g).dot cubicD.conjT))
    ((uBathOf "cubic").dot ((egT2gDiagonal P.vConEg P.vConT2g).dot cubicD.conjT)) true, by simp [cfTerms], ?_⟩
  have hmem := (mem_hHopp ((uBathOf "cubic").dot ((egT2gDiagonal P.vValEg P.vValT2g).dot cubicD.conjT))
    ((uBathOf "cubic").dot ((egT2gDiagonal P.vConEg P.vConT2g).dot cubicD.conjT)) true
    ([(.bath (.int 2) 10, .c), (.imp 2 0 0, .a)], (P.vConEg : ℂ))).2
    (Or.inr ⟨rfl, 0, by norm_num, 0, by norm_num, 2, by norm_num, by rw [hval]; exact_mod_cast hne, Or.inl
      (by rw [hval]; rfl)⟩)
  have hn := cfTerms_nodup P "cubic" true _ (by simp [cfTerms] : hHoppOperator ((uBathOf "cubic").dot ((egT2gDiagonal P.vValEg P.vValT2g).dot cubicD.conjT))
    ((uBathOf "cubic").dot ((egT2gDiagonal P.vConEg P.vConT2g).dot cubicD.conjT)) true ∈ cfTerms P "cubic" true)
  rw [Dict.get?_of_mem hn hmem]
  simpa using hne

/-- C56, where the code deviates from its documentation: the number of valence bath states is hard-wired
to ten.  With 20 valence and 10 conduction bath states the terms meant for the conduction states act on
bath state 10, which is a valence state (valence states are numbered first). -/
theorem C56_violated : ∃ (nBaths : Dict ℕ ℕ) (nValBaths : Dict ℕ ℤ) (h0 : Op Label ℂ),
    getCFHamiltonian nBaths nValBaths (readH0CFFile []) "cubic" = .ok h0 ∧
    Dict.get? nBaths 2 = some 30 ∧ Dict.get? nValBaths 2 = some 20 ∧
    (∃ q ∈ h0, ∃ x ∈ q.1, x.1 = .bath (.int 2) 10) ∧
    ∀ q ∈ h0, ∀ x ∈ q.1, ∀ b : ℤ, x.1 = .bath (.int 2) b → b < 20 := by
  have hne : (readH0CFFile []).vConEg ≠ 0 := by norm_num [readH0CFFile]
  obtain ⟨h0, e, hk⟩ := cf_strength_con (readH0CFFile []) 30 20 [(1, 0), (2, 30)] [(1, 0), (2, 20)] rfl rfl
    (by norm_num) hne
  refine ⟨_, _, h0, e, rfl, rfl, ?_, ?_⟩
  · obtain ⟨q, hq, e⟩ := List.mem_map.1 hk
    exact ⟨q, hq, (.bath (.int 2) 10, .c), by rw [e]; simp, rfl⟩
  · have e2 := getCFHamiltonian_eq (nBaths := [(1, 0), (2, 30)]) (nValBaths := [(1, 0), (2, 20)])
      (readH0CFFile []) 30 20 rfl rfl (Or.inr (rfl : "cubic" = "cubic"))
    rw [e2] at e
    obtain rfl := Except.ok.inj e
    intro q hq x hx b hxb
    obtain ⟨y, z, e1, _, hz⟩ := cfTerms_mem _ _ _ q hq
    rw [e1] at hx
    have hx1 : x.1 ∈ [y, z] := by
      simp only [oneProcess, List.mem_cons, List.not_mem_nil, or_false] at hx ⊢
      rcases hx with rfl | rfl <;> simp
    rcases hz _ hx1 with ⟨s, m, _, _, e2⟩ | ⟨k, hk, e2⟩
    · rw [e2] at hxb; cases hxb
    · rw [e2] at hxb
      cases hxb
      have := hk.2
      split at this <;> omega

/-- C53.  The parameters of the json file: each has the value under its name in the file, and its
default value if the name is missing. -/
theorem C53_file (parameters : Dict String ℝ) : ∀ e ∈ ([
    ("e_imp", CFParams.eImp, -1.31796), ("e_deltaO_imp", CFParams.eDeltaO, 0.60422),
    ("e_val_eg", CFParams.eValEg, -4.4), ("e_val_t2g", CFParams.eValT2g, -6.5),
    ("e_con_eg", CFParams.eConEg, 3), ("e_con_t2g", CFParams.eConT2g, 2),
    ("v_val_eg", CFParams.vValEg, 1.883), ("v_val_t2g", CFParams.vValT2g, 1.395),
    ("v_con_eg", CFParams.vConEg, 0.6), ("v_con_t2g", CFParams.vConT2g, 0.4)] : List (String × (CFParams → ℝ) × ℝ)),
    (∀ x, Dict.get? parameters e.1 = some x → e.2.1 (readH0CFFile parameters) = x) ∧
    (e.1 ∉ Dict.keys parameters → e.2.1 (readH0CFFile parameters) = e.2.2) := by
  have key : ∀ (name : String) (f : CFParams → ℝ) (d : ℝ),
      f (readH0CFFile parameters) = (Dict.get? parameters name).getD d →
      (∀ x, Dict.get? parameters name = some x → f (readH0CFFile parameters) = x) ∧
      (name ∉ Dict.keys parameters → f (readH0CFFile parameters) = d) := by
    intro name f d h
    refine ⟨fun x hx => by rw [h, hx]; rfl, fun hn => ?_⟩
    rw [h]
    cases hg : Dict.get? parameters name with
    | none => rfl
    | some x => exact absurd ((Dict.mem_keys_iff _ _).2 (by rw [hg]; rfl)) hn
  intro e he
  simp only [List.mem_cons, List.not_mem_nil, or_false] at he
  rcases he with rfl | rfl | rfl | rfl | rfl | rfl | rfl | rfl | rfl | rfl <;> exact key _ _ _ rfl

/-- A file with two parameters. -/
example : (readH0CFFile [("e_val_eg", 1), ("v_con_eg", 2)]).eValEg = 1 ∧
    (readH0CFFile [("e_val_eg", 1), ("v_con_eg", 2)]).vConEg = 2 ∧
    (readH0CFFile [("e_val_eg", 1), ("v_con_eg", 2)]).eConEg = 3 :=
  ⟨(C53_file [("e_val_eg", 1), ("v_con_eg", 2)] ("e_val_eg", CFParams.eValEg, -4.4) (by simp)).1 1 rfl,
    (C53_file [("e_val_eg", 1), ("v_con_eg", 2)] ("v_con_eg", CFParams.vConEg, 0.6) (by simp)).1 2 (by simp [Dict.get?]),
    (C53_file [("e_val_eg", 1), ("v_con_eg", 2)] ("e_con_eg", CFParams.eConEg, 3) (by simp)).2 (by simp [Dict.keys])⟩

/-- C53 and C56, the hypotheses are met: NiO with ten valence bath states and the default parameters. -/
example : ∃ hOp, getHamiltonianOperatorUsingCF exGaunt [(1, 0), (2, 10)] [(1, 0), (2, 10)] [7, 0, 1, 0, 1]
    [0, 0, 0] [1, 0, 2] [0, 1, 0, 2] 11 (1 / 10) [(1, 6), (2, 8)] (3 / 2) 0 0 1 [] "spherical" = .ok hOp := by
  obtain ⟨d, p, hdc⟩ : ∃ d p, dcMLFT ((8 : ℤ) : ℝ) (3 / 2) [7, 0, 1, 0, 1] (some ((6 : ℤ) : ℝ)) (some [1, 0, 2])
      (some [0, 1, 0, 2]) = .ok (.two d p) :=
    ⟨_, _, (C39_double_counting _ _ _ _ _ _ (by simp) (by simp) (by simp)).2.2 [1, 0, 2] [0, 1, 0, 2] ⟨8, rfl⟩
      (by norm_num) rfl rfl⟩
  exact C56_assembles _ _ _ _ _ _ _ _ _ _ _ exGaunt_symmetric (by decide) 0 10 (by decide) (by decide) rfl
    (by norm_num) 8 6 rfl rfl d p hdc (Or.inl rfl)

end Verif
