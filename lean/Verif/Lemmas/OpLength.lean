/-
How many terms the Hamiltonian of main has.
-/
import Verif.Model.Assemble
import Verif.Lemmas.SimulateValue

namespace Verif

noncomputable section

section
variable {κ ν : Type} [DecidableEq κ]

theorem Dict.length_set (d : Dict κ ν) (k : κ) (v : ν) : (Dict.set d k v).length ≤ d.length + 1 := by
  induction d with
  | nil => simp [Dict.set]
  | cons p d ih =>
    unfold Dict.set
    split
    · simp
    · simpa using ih

theorem Dict.length_update (L d : Dict κ ν) : (Dict.update d L).length ≤ d.length + L.length := by
  unfold Dict.update
  induction L generalizing d with
  | nil => simp
  | cons p L ih =>
    have h1 := ih (Dict.set d p.1 p.2)
    have h2 := Dict.length_set d p.1 p.2
    simp only [List.foldl_cons, List.length_cons]
    omega

theorem Dict.length_addAt [Add ν] (d : Dict κ ν) (k : κ) (v : ν) : (Dict.addAt d k v).length ≤ d.length + 1 := by
  unfold Dict.addAt
  split <;> exact Dict.length_set _ _ _

end

theorem addOps_length {ι R : Type} [DecidableEq ι] [DecidableEq R] [Zero R] [Add R] (ops : List (Op ι R)) :
    (addOps ops).length ≤ (ops.map List.length).sum := by
  have h1 : ∀ (op s : Op ι R), (op.foldl (fun opSum q => if q.2 ≠ 0 then Dict.addAt opSum q.1 q.2 else opSum) s).length
      ≤ s.length + op.length := by
    intro op
    induction op with
    | nil => intro s; simp
    | cons q op ih =>
      intro s
      simp only [List.foldl_cons, List.length_cons]
      refine (ih _).trans ?_
      split
      · have := Dict.length_addAt s q.1 q.2
        omega
      · omega
  have h2 : ∀ (ops : List (Op ι R)) (s : Op ι R), (ops.foldl (fun opSum op =>
      op.foldl (fun opSum q => if q.2 ≠ 0 then Dict.addAt opSum q.1 q.2 else opSum) opSum) s).length
      ≤ s.length + (ops.map List.length).sum := by
    intro ops
    induction ops with
    | nil => intro s; simp
    | cons op ops ih =>
      intro s
      simp only [List.foldl_cons, List.map_cons, List.sum_cons]
      refine (ih _).trans ((Nat.add_le_add_right (h1 op s) _).trans ?_)
      omega
  simpa [addOps] using h2 ops []

theorem relabel_length {R : Type} (nBaths : NBaths) (op : Op Label R) {op' : Op ℕ R} (h : relabel nBaths op = .ok op') :
    op'.length ≤ op.length := by
  have key : ∀ (op : Op Label R) (s s' : Op ℕ R), (op.foldlM (fun hOp q => do
      let process ← q.1.mapM fun e => do
        let i ← c2i nBaths e.1
        return (i, e.2)
      return Dict.set hOp process q.2) s : Py (Op ℕ R)) = .ok s' → s'.length ≤ s.length + op.length := by
    intro op
    induction op with
    | nil => intro s s' h; cases h; simp
    | cons q op ih =>
      intro s s' h
      rw [List.foldlM_cons] at h
      obtain ⟨t, e1, h⟩ := bind_ok h
      obtain ⟨pr, -, e1⟩ := bind_ok e1
      cases e1
      have h1 := ih _ _ h
      have h2 := Dict.length_set s pr q.2
      rw [List.length_cons]
      omega
  simpa using key op [] op' h

theorem flatMap_length_le {α β : Type} (L : List α) (f : α → List β) (g : α → ℕ) (h : ∀ a, (f a).length ≤ g a) :
    (L.flatMap f).length ≤ (L.map g).sum := by
  rw [List.length_flatMap]
  exact List.sum_le_sum fun a _ => h a

/-- The number of terms of one Slater-Condon operator. -/
def uTerms (l1 l2 l3 l4 : ℕ) : ℕ :=
  ((pyRange (-l1) (l1 + 1)).map fun (m1 : ℤ) => ((pyRange (-l2) (l2 + 1)).map fun (m2 : ℤ) =>
    ((pyRange (-l3) (l3 + 1)).map fun (m3 : ℤ) => ((pyRange (-l4) (l4 + 1)).map fun (m4 : ℤ) =>
      if m1 + m2 = m3 + m4 then 4 else 0).sum).sum).sum).sum

theorem getUop_length (gaunt : GauntFun) (l1 l2 l3 l4 : ℕ) (R : List ℝ) : (getUop gaunt l1 l2 l3 l4 R).length ≤ uTerms l1 l2 l3 l4 := by
  unfold getUop
  refine (Dict.length_update _ _).trans ?_
  rw [List.length_nil, zero_add]
  unfold uTerms
  refine flatMap_length_le _ _ _ fun m1 => flatMap_length_le _ _ _ fun m2 => flatMap_length_le _ _ _ fun m3 =>
    flatMap_length_le _ _ _ fun m4 => ?_
  dsimp only
  by_cases hm : m1 + m2 = m3 + m4
  · rw [if_pos hm]
    split
    · refine (flatMap_length_le _ _ (fun _ => 2) fun s => (flatMap_length_le _ _ (fun _ => 1) fun sp => ?_).trans (by decide)).trans (by decide)
      split <;> simp
    · simp
  · have : getU gaunt l1 m1 l2 m2 l3 m3 l4 m4 R = 0 := by unfold getU; rw [if_neg hm]
    rw [if_neg hm, if_neg (by rw [this]; simp)]
    simp

theorem slaterCondon_length (gaunt : GauntFun) (Fdd Fpp Fpd Gpd : List ℝ) :
    (get2p3dSlaterCondonUop gaunt Fdd Fpp Fpd Gpd).length ≤ 1008 := by
  have h1 := getUop_length gaunt 2 2 2 2 Fdd
  have h2 := getUop_length gaunt 1 1 1 1 Fpp
  have h3 := getUop_length gaunt 1 2 2 1 Fpd
  have h4 := getUop_length gaunt 2 1 1 2 Fpd
  have h5 := getUop_length gaunt 1 2 1 2 Gpd
  have h6 := getUop_length gaunt 2 1 2 1 Gpd
  rw [show uTerms 2 2 2 2 = 340 by decide +kernel] at h1
  rw [show uTerms 1 1 1 1 = 76 by decide +kernel] at h2
  rw [show uTerms 1 2 2 1 = 148 by decide +kernel] at h3
  rw [show uTerms 2 1 1 2 = 148 by decide +kernel] at h4
  rw [show uTerms 1 2 1 2 = 148 by decide +kernel] at h5
  rw [show uTerms 2 1 2 1 = 148 by decide +kernel] at h6
  unfold get2p3dSlaterCondonUop
  refine (addOps_length _).trans ?_
  have h7 := addOps_length [getUop gaunt 1 2 2 1 Fpd, getUop gaunt 2 1 1 2 Fpd]
  have h8 := addOps_length [getUop gaunt 1 2 1 2 Gpd, getUop gaunt 2 1 2 1 Gpd]
  simp only [List.map_cons, List.map_nil, List.sum_cons, List.sum_nil] at h7 h8 ⊢
  omega

theorem hfield_length (hx hy hz : ℝ) : (gethHfieldop hx hy hz 2).length ≤ 30 := by
  have hstep : ∀ (op : Op Label ℂ) (m : ℤ), (hfieldStep hx hy hz 2 op m).length ≤ op.length + 6 := by
    intro op m
    unfold hfieldStep
    rw [show pyRange 0 2 = [0, 1] by decide]
    simp only [List.foldl_cons, List.foldl_nil]
    refine (Dict.length_set _ _ _).trans ?_
    refine (Nat.add_le_add_right (Dict.length_set _ _ _) 1).trans ?_
    refine (Nat.add_le_add_right (Nat.add_le_add_right (Dict.length_addAt _ _ _) 1) 1).trans ?_
    refine (Nat.add_le_add_right (Nat.add_le_add_right (Nat.add_le_add_right (Dict.length_addAt _ _ _) 1) 1) 1).trans ?_
    refine (Nat.add_le_add_right (Nat.add_le_add_right (Nat.add_le_add_right (Nat.add_le_add_right (Dict.length_set _ _ _) 1) 1) 1) 1).trans ?_
    have := Dict.length_set op (oneProcess (.imp 2 1 m) (.imp 2 0 m)) ((hx / 2 : ℝ) : ℂ)
    omega
  have key : ∀ (L : List ℤ) (op : Op Label ℂ), (L.foldl (hfieldStep hx hy hz 2) op).length ≤ op.length + 6 * L.length := by
    intro L
    induction L with
    | nil => intro op; simp
    | cons m L ih =>
      intro op
      rw [List.foldl_cons, List.length_cons]
      have h1 := ih (hfieldStep hx hy hz 2 op m)
      have h2 := hstep op m
      omega
  unfold gethHfieldop
  refine (key _ _).trans ?_
  decide

theorem SOC_length (xi : ℝ) (l : ℕ) :
    (getSOCop xi l).length ≤ ((pyRange (-l) (l + 1)).map fun _ => 2).sum + ((pyRange (-l) l).map fun _ => 2).sum := by
  unfold getSOCop
  refine (Dict.length_update _ _).trans (Nat.add_le_add ((Dict.length_update _ _).trans ?_) ?_)
  · rw [List.length_nil, zero_add]
    exact flatMap_length_le _ _ _ fun m => by rw [List.length_map]; decide
  · exact flatMap_length_le _ _ _ fun m => le_rfl

theorem eDC_length (dc : ℝ × ℝ) : (eDCOperator dc).length ≤ 16 := by
  unfold eDCOperator
  refine (Dict.length_update _ _).trans ?_
  rw [List.length_nil, zero_add]
  simp only [List.flatMap_cons, List.flatMap_nil, List.length_append, List.length_nil]
  have h1 := flatMap_length_le (pyRange 0 2) (fun s => (pyRange (-((2 : ℕ) : ℤ)) ((2 : ℕ) + 1)).map fun m =>
      (oneProcess (.imp 2 s m) (.imp 2 s m), ((-dc.1 : ℝ) : ℂ))) (fun _ => 5) fun s => by rw [List.length_map]; decide
  have h2 := flatMap_length_le (pyRange 0 2) (fun s => (pyRange (-((1 : ℕ) : ℤ)) ((1 : ℕ) + 1)).map fun m =>
      (oneProcess (.imp 1 s m) (.imp 1 s m), ((-dc.2 : ℝ) : ℂ))) (fun _ => 3) fun s => by rw [List.length_map]; decide
  rw [show ((pyRange 0 2).map fun _ => 5).sum = 10 by decide] at h1
  rw [show ((pyRange 0 2).map fun _ => 3).sum = 6 by decide] at h2
  omega

open Classical in
/-- The number of terms of the Hamiltonian. -/
theorem hamiltonian_length {gaunt : GauntFun} {nBaths : NBaths} {Fdd Fpp Fpd Gpd : List ℝ} {xi2p xi3d : ℝ} {n0imps : Dict ℕ ℤ}
    {c hx hy hz : ℝ} {h0 : Op Label ℂ} {op : Op ℕ ℂ}
    (h : getHamiltonianOperator gaunt nBaths Fdd Fpp Fpd Gpd xi2p xi3d n0imps c hx hy hz h0 = .ok op) :
    op.length ≤ 1082 + h0.length := by
  unfold getHamiltonianOperator at h
  obtain ⟨n3d, -, h⟩ := bind_ok h
  obtain ⟨n2p, -, h⟩ := bind_ok h
  obtain ⟨dc, -, h⟩ := bind_ok h
  obtain ⟨dc', op', e, h⟩ : ∃ dc' op', relabel nBaths (addOps [get2p3dSlaterCondonUop gaunt Fdd Fpp Fpd Gpd, gethHfieldop hx hy hz 2,
      getSOCop xi2p 1, getSOCop xi3d 2, eDCOperator dc', h0]) = .ok op' ∧
      (if isHermitianOp op' then pure op' else throw PyErr.assertionError : Py (Op ℕ ℂ)) = .ok op := by
    cases dc with
    | one d =>
      obtain ⟨_, e, -⟩ := bind_ok h
      cases e
    | two d p =>
      obtain ⟨dc', -, h⟩ := bind_ok h
      obtain ⟨op', e, h⟩ := bind_ok h
      exact ⟨dc', op', e, h⟩
  have hop : op' = op := by
    split at h
    · cases h; rfl
    · cases h
  subst hop
  refine (relabel_length _ _ e).trans ((addOps_length _).trans ?_)
  have h1 := slaterCondon_length gaunt Fdd Fpp Fpd Gpd
  have h2 := hfield_length hx hy hz
  have h3 := SOC_length xi2p 1
  have h4 := SOC_length xi3d 2
  have h5 := eDC_length dc'
  rw [show ((pyRange (-(1 : ℕ)) ((1 : ℕ) + 1)).map fun _ => 2).sum + ((pyRange (-(1 : ℕ)) (1 : ℕ)).map fun _ => 2).sum = 10 by decide] at h3
  rw [show ((pyRange (-(2 : ℕ)) ((2 : ℕ) + 1)).map fun _ => 2).sum + ((pyRange (-(2 : ℕ)) (2 : ℕ)).map fun _ => 2).sum = 18 by decide] at h4
  simp only [List.map_cons, List.map_nil, List.sum_cons, List.sum_nil]
  omega

end

end Verif
