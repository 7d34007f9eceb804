/-
Helper lemmas: occupation sums and density matrices.
-/
import Verif.Lemmas.AngMom
import Verif.Prop.Psr

set_option linter.unusedSectionVars false
set_option linter.unusedSimpArgs false

namespace Verif

open Spec Finset Psr

/-! ### loops over the product states -/

theorem foldlM_add {α : Type} (F : α → Py ℝ) (T : α → ℝ) (L : List α) (x : ℝ) (h : ∀ a ∈ L, F a = .ok (T a)) :
    L.foldlM (fun acc a => do let t ← F a; return acc + t) x = .ok (x + (L.map T).sum) := by
  induction L generalizing x with
  | nil => simp [pure, Except.pure]
  | cons a L ih =>
    rw [List.foldlM_cons, h a (by simp)]
    refine (ih (x + T a) (fun b hb => h b (by simp [hb]))).trans ?_
    rw [List.map_cons, List.sum_cons, add_assoc]

theorem loop_sum {n : ℕ} {psi : Psi ℂ} (hpsi : IsState n psi) (F : Bytes → Py ℝ) (T : Finset ℕ → ℝ)
    (h : ∀ S ⊆ range n, F (encBytes n S) = .ok (T S)) :
    psi.foldlM (fun acc p => do let t ← F p.1; return acc + t * abs2 p.2) (0 : ℝ)
      = .ok (∑ S ∈ (range n).powerset, T S * Complex.normSq (ampl n psi S)) := by
  have h1 : ∀ p ∈ psi, (do let t ← F p.1; return t * abs2 p.2 : Py ℝ) = .ok (T (dec n p.1) * Complex.normSq p.2) := by
    intro p hp
    obtain ⟨S, hS, e⟩ := hpsi.keys p.1 (List.mem_map_of_mem hp)
    rw [e, h S hS, dec_enc hS]
    rfl
  have h2 := foldlM_add (fun p : Bytes × ℂ => (do let t ← F p.1; return t * abs2 p.2 : Py ℝ))
    (fun p => T (dec n p.1) * Complex.normSq p.2) psi 0 h1
  have h3 : (fun (acc : ℝ) (p : Bytes × ℂ) => (do let t ← F p.1; return acc + t * abs2 p.2 : Py ℝ))
      = fun acc p => (do let t ← (do let t ← F p.1; return t * abs2 p.2 : Py ℝ); return acc + t) := by
    funext acc p
    cases F p.1 <;> rfl
  rw [h3, h2, zero_add, sum_items_powerset hpsi (fun k v => T (dec n k) * Complex.normSq v)]
  congr 1
  refine sum_congr rfl fun S hS => ?_
  rw [mem_powerset] at hS
  rw [ampl_of_subset hS]
  cases Dict.get? psi (encBytes n S) with
  | none => simp
  | some v => simp [dec_enc hS]

/-! ### diagonal operators -/

theorem sum_diag {ι : Type} (n : ℕ) (s : Finset ι) (p : ι → ℕ) (c : ι → ℝ) (v : Vec ℂ) :
    innerProduct n v (fun S => ∑ x ∈ s, (c x : ℂ) * create (p x) (annihilate (p x) v) S)
      = ((∑ S ∈ (range n).powerset, (∑ x ∈ s, if p x ∈ S then c x else 0) * Complex.normSq (v S) : ℝ) : ℂ) := by
  unfold innerProduct
  rw [Complex.ofReal_sum]
  refine sum_congr rfl fun S _ => ?_
  rw [Complex.ofReal_mul, Complex.ofReal_sum, Complex.normSq_eq_conj_mul_self, mul_sum, sum_mul]
  refine sum_congr rfl fun x _ => ?_
  rw [create_annihilate_self]
  split
  · change star (v S) * _ = _ * (star (v S) * v S); ring
  · simp

theorem oneBody_diag (f : Label → ℕ) (l : ℕ) (M : ℤ × ℤ → ℤ × ℤ → ℂ) (c : ℤ × ℤ → ℂ)
    (hM : ∀ x ∈ shell l, ∀ y ∈ shell l, M x y = if x = y then c x else 0) (v : Vec ℂ) :
    oneBody f l M v = fun S => ∑ x ∈ shell l, c x *
      create (f (.imp l x.1 x.2)) (annihilate (f (.imp l x.1 x.2)) v) S := by
  funext S
  unfold oneBody
  rw [sum_product]
  refine sum_congr rfl fun x hx => ?_
  rw [sum_eq_single x]
  · rw [hM x hx x hx, if_pos rfl]
  · intro y hy hne
    rw [hM x hx y hy, if_neg (Ne.symm hne), zero_mul]
  · intro h; exact absurd hx h

/-! ### sums over occupied spin-orbitals -/

section
variable {nBaths : Dict ℕ ℕ} (hn : Dict.NodupKeys nBaths) {l : ℕ} (hl : l ∈ Dict.keys nBaths)
include hn hl

theorem nSpinOrbitals_pos : 0 < nSpinOrbitals nBaths :=
  Nat.lt_of_le_of_lt (Nat.zero_le _) (pos_lt hn hl (x := (0, 0)) (by rw [mem_shell]; simp))

/-- The contribution of spin-orbital `i`. -/
noncomputable def contrib (nBaths : Dict ℕ ℕ) (l : ℕ) (c : ℤ × ℤ → ℝ) (i : ℕ) : ℝ :=
  match i2c (intKeys nBaths) i with
  | .ok (.imp l' s m) => if l' = l then c (s, m) else 0
  | _ => 0

omit hl in
theorem sum_occupied (hl : l ∈ Dict.keys nBaths) (c : ℤ × ℤ → ℝ) {S : Finset ℕ} (hS : S ⊆ range (nSpinOrbitals nBaths)) :
    ∑ i ∈ S, contrib nBaths l c i
      = ∑ x ∈ shell l, if pos nBaths (.imp l x.1 x.2) ∈ S then c x else 0 := by
  rw [← sum_filter]
  have hinj : ∀ x ∈ (shell l).filter (fun x => pos nBaths (.imp l x.1 x.2) ∈ S),
      ∀ y ∈ (shell l).filter (fun x => pos nBaths (.imp l x.1 x.2) ∈ S),
      pos nBaths (.imp l x.1 x.2) = pos nBaths (.imp l y.1 y.2) → x = y := by
    intro x hx y hy h
    exact pos_inj hn hl (mem_filter.1 hx).1 (mem_filter.1 hy).1 h
  have h1 : ∑ x ∈ (shell l).filter (fun x => pos nBaths (.imp l x.1 x.2) ∈ S), c x
      = ∑ i ∈ ((shell l).filter (fun x => pos nBaths (.imp l x.1 x.2) ∈ S)).image
          (fun x => pos nBaths (.imp l x.1 x.2)), contrib nBaths l c i := by
    rw [sum_image hinj]
    refine sum_congr rfl fun x hx => ?_
    rw [contrib, i2c_pos hn hl (mem_filter.1 hx).1]
    simp
  rw [h1]
  symm
  apply sum_subset
  · intro i hi
    obtain ⟨x, hx, rfl⟩ := mem_image.1 hi
    exact (mem_filter.1 hx).2
  · intro i hi hni
    have hlt : i < nTotal (intKeys nBaths) := by
      rw [← nSpinOrbitals_eq]; exact mem_range.1 (hS hi)
    obtain ⟨lab, hin, h2, h3⟩ := (C09_bijection _ (goodSystem_intKeys hn)).2 i hlt
    rw [contrib, h2]
    cases lab with
    | bath _ _ => rfl
    | imp l' s m =>
      by_cases hll : l' = l
      · exfalso
        subst hll
        apply hni
        have hx : (s, m) ∈ shell l' := by
          rw [mem_shell]
          obtain ⟨_, a, b, c, d⟩ := hin
          refine ⟨?_, c, d⟩
          change s = 0 ∨ s = 1
          omega
        have h4 := c2i_shell hn hl hx
        rw [h3] at h4
        cases h4
        exact mem_image.2 ⟨(s, m), mem_filter.2 ⟨hx, hi⟩, rfl⟩
      · simp [hll]

omit hl in
theorem tuple_sum (hl : l ∈ Dict.keys nBaths) (c : ℤ × ℤ → ℝ) (F : ℝ → ℕ → Py ℝ)
    (hF : ∀ t i, i < nSpinOrbitals nBaths → F t i = .ok (t + contrib nBaths l c i))
    {S : Finset ℕ} (hS : S ⊆ range (nSpinOrbitals nBaths)) :
    (bytes2tuple (encBytes (nSpinOrbitals nBaths) S) (nSpinOrbitals nBaths)).foldlM F 0
      = .ok (∑ x ∈ shell l, if pos nBaths (.imp l x.1 x.2) ∈ S then c x else 0) := by
  have hb : bytes2tuple (encBytes (nSpinOrbitals nBaths) S) (nSpinOrbitals nBaths)
      = encTuple (nSpinOrbitals nBaths) S :=
    (C01_conversions_agree _ (nSpinOrbitals_pos hn hl) S).2.2.2.2.2.2.2.2.2.2.2.2.2.2.2.1
  rw [hb, ← sum_occupied hn hl c hS]
  have h1 : ∀ (L : List ℕ) (t : ℝ), (∀ i ∈ L, i < nSpinOrbitals nBaths) →
      L.foldlM F t = .ok (t + (L.map (contrib nBaths l c)).sum) := by
    intro L
    induction L with
    | nil => intro t _; simp [pure, Except.pure]
    | cons i L ih =>
      intro t hL
      rw [List.foldlM_cons, hF t i (hL i (by simp))]
      refine (ih _ (fun j hj => hL j (by simp [hj]))).trans ?_
      rw [List.map_cons, List.sum_cons, add_assoc]
  rw [h1 _ _ (fun i hi => (mem_encTuple.1 hi).1), zero_add, ← List.sum_toFinset]
  · congr 2
    ext i
    rw [List.mem_toFinset, mem_encTuple]
    exact ⟨fun h => h.2, fun h => ⟨mem_range.1 (hS h), h⟩⟩
  · exact List.nodup_range.filter _

omit hl in
theorem tuple_step {i : ℕ} (hi : i < nSpinOrbitals nBaths) :
    ∃ lab, i2c (intKeys nBaths) i = .ok lab ∧ InSystem (intKeys nBaths) lab := by
  rw [nSpinOrbitals_eq] at hi
  obtain ⟨lab, h1, h2, _⟩ := (C09_bijection _ (goodSystem_intKeys hn)).2 i hi
  exact ⟨lab, h2, h1⟩

variable {psi : Psi ℂ} (hpsi : IsState (nSpinOrbitals nBaths) psi)
include hpsi

omit hl in
theorem getSz3d_spec (hl : 2 ∈ Dict.keys nBaths) : getSz3d nBaths psi
    = .ok (∑ S ∈ (range (nSpinOrbitals nBaths)).powerset,
      (∑ x ∈ shell 2, if pos nBaths (.imp 2 x.1 x.2) ∈ S then (if x.1 = 0 then -1 / 2 else 1 / 2 : ℝ) else 0)
        * Complex.normSq (ampl (nSpinOrbitals nBaths) psi S)) := by
  refine loop_sum hpsi (szOfState nBaths) _ fun S hS => ?_
  refine tuple_sum hn hl (fun x => if x.1 = 0 then -1 / 2 else 1 / 2) _ ?_ hS
  intro t i hi
  obtain ⟨lab, h, _⟩ := tuple_step hn hi
  rw [contrib, h]
  simp only [bind, Except.bind]
  cases lab with
  | bath _ _ => simp [pure, Except.pure]
  | imp l s m =>
    by_cases h : l = 2 <;> simp [h, pure, Except.pure]

omit hl in
theorem getLz3d_spec (hl : 2 ∈ Dict.keys nBaths) : getLz3d nBaths psi
    = .ok (∑ S ∈ (range (nSpinOrbitals nBaths)).powerset,
      (∑ x ∈ shell 2, if pos nBaths (.imp 2 x.1 x.2) ∈ S then (x.2 : ℝ) else 0)
        * Complex.normSq (ampl (nSpinOrbitals nBaths) psi S)) := by
  refine loop_sum hpsi (lzOfState nBaths) _ fun S hS => ?_
  refine tuple_sum hn hl (fun x => (x.2 : ℝ)) _ ?_ hS
  intro t i hi
  obtain ⟨lab, h, _⟩ := tuple_step hn hi
  rw [contrib, h]
  simp only [bind, Except.bind]
  cases lab with
  | bath _ _ => simp [pure, Except.pure]
  | imp l s m =>
    by_cases h : l = 2 <;> simp [h, pure, Except.pure]

end

/-! ### the trace -/

theorem toFinset_shellList (l : ℕ) : (shellList (-l) (l + 1)).toFinset = shell l := by
  ext x
  rw [List.mem_toFinset, mem_shellList, mem_shell]
  omega

theorem encStr_getElem? {n i : ℕ} (hi : i < n) (S : Finset ℕ) :
    (encStr n S)[i]? = some (if i ∈ S then '1' else '0') := by
  simp [encStr, hi]

section
variable {nBaths : Dict ℕ ℕ} (hn : Dict.NodupKeys nBaths) {l : ℕ} (hl : l ∈ Dict.keys nBaths)
  {psi : Psi ℂ} (hpsi : IsState (nSpinOrbitals nBaths) psi)
include hn hl

theorem count_spec (S : Finset ℕ) :
    countOfState nBaths l (encBytes (nSpinOrbitals nBaths) S)
      = .ok (∑ x ∈ shell l, if pos nBaths (.imp l x.1 x.2) ∈ S then 1 else 0) := by
  unfold countOfState
  have hb : bytes2str (encBytes (nSpinOrbitals nBaths) S) (nSpinOrbitals nBaths)
      = encStr (nSpinOrbitals nBaths) S :=
    (C01_conversions_agree _ (nSpinOrbitals_pos hn hl) S).2.2.2.2.2.2.2.2.2.2.2.2.2.2.2.2.2.1
  rw [hb]
  have h0 := foldlM_shellList (fun (nState : ℕ) (x : ℤ × ℤ) => (do
        let i ← c2i (intKeys nBaths) (.imp l x.1 x.2)
        match (encStr (nSpinOrbitals nBaths) S)[i]? with
        | none => .error .indexError
        | some ch => if ch = '1' then return nState + 1 else return nState : Py ℕ)) (-l) (l + 1) 0
  refine h0.symm.trans ?_
  have h1 : ∀ (L : List (ℤ × ℤ)) (t : ℕ), (∀ x ∈ L, x ∈ shell l) →
      L.foldlM (fun (nState : ℕ) (x : ℤ × ℤ) => (do
        let i ← c2i (intKeys nBaths) (.imp l x.1 x.2)
        match (encStr (nSpinOrbitals nBaths) S)[i]? with
        | none => .error .indexError
        | some ch => if ch = '1' then return nState + 1 else return nState : Py ℕ)) t
      = .ok (t + (L.map fun x => if pos nBaths (.imp l x.1 x.2) ∈ S then 1 else 0).sum) := by
    intro L
    induction L with
    | nil => intro t _; rfl
    | cons x L ih =>
      intro t hL
      have hx := hL x (by simp)
      rw [List.foldlM_cons]
      have e : (do
        let i ← c2i (intKeys nBaths) (.imp l x.1 x.2)
        match (encStr (nSpinOrbitals nBaths) S)[i]? with
        | none => .error .indexError
        | some ch => if ch = '1' then return t + 1 else return t : Py ℕ)
        = .ok (t + if pos nBaths (.imp l x.1 x.2) ∈ S then 1 else 0) := by
        rw [c2i_shell hn hl hx]
        simp only [bind, Except.bind]
        rw [encStr_getElem? (pos_lt hn hl hx)]
        by_cases h : pos nBaths (.imp l x.1 x.2) ∈ S <;> simp [h, pure, Except.pure]
      rw [e]
      refine (ih _ (fun y hy => hL y (by simp [hy]))).trans ?_
      rw [List.map_cons, List.sum_cons, add_assoc]
  rw [h1 _ _ (fun x hx => by rw [← toFinset_shellList]; exact List.mem_toFinset.2 hx), zero_add,
    ← List.sum_toFinset _ (nodup_shellList _ _), toFinset_shellList]

include hpsi

theorem getTraceDensityMatrix_spec : getTraceDensityMatrix nBaths psi l
    = .ok (∑ S ∈ (range (nSpinOrbitals nBaths)).powerset,
      (∑ x ∈ shell l, if pos nBaths (.imp l x.1 x.2) ∈ S then (1 : ℝ) else 0)
        * Complex.normSq (ampl (nSpinOrbitals nBaths) psi S)) := by
  have := loop_sum hpsi (fun k => (do let nState ← countOfState nBaths l k; return (nState : ℝ)))
    (fun S => ∑ x ∈ shell l, if pos nBaths (.imp l x.1 x.2) ∈ S then (1 : ℝ) else 0)
    (fun S hS => by
      beta_reduce
      rw [count_spec hn hl S]
      simp only [bind, Except.bind, pure, Except.pure]
      push_cast
      rfl)
  rw [← this]
  unfold getTraceDensityMatrix
  congr 1
  funext acc p
  cases countOfState nBaths l p.1 <;> rfl

end

end Verif
