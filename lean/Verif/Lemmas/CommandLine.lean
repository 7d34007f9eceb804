/-
Lemmas about the command line checks and the setup of main.
-/
import Verif.Model.CommandLine
import Verif.Spec.CommandLine
import Verif.Spec.Main
import Verif.Prop.CrystalField
import Verif.Prop.Restrictions
import Verif.Prop.Average
import Verif.Prop.Index
import Verif.Prop.GetBasis
import Verif.Prop.CreateRemove
import Verif.Lemmas.MainMeaning
import Verif.Lemmas.MainSetup
import Verif.Lemmas.Photo

namespace Verif

open Spec Mpi

theorem pyAssert_ok {b : Prop} [Decidable b] : pyAssert b = .ok () ↔ b := by
  unfold pyAssert
  split <;> simp_all

theorem pyAssert_err {b : Prop} [Decidable b] {e : PyErr} (h : pyAssert b = .error e) : e = .assertionError := by
  unfold pyAssert at h
  split at h
  · cases h
  · cases h; rfl

theorem unit_bind_ok {x y : Py Unit} : (do x; y) = .ok () ↔ x = .ok () ∧ y = .ok () := by
  cases x with
  | error e => simp [bind, Except.bind]
  | ok u => simp [bind, Except.bind]

theorem unit_bind_err {x y : Py Unit} {e : PyErr} (h : (do x; y) = .error e) : x = .error e ∨ y = .error e := by
  cases x with
  | error e' => left; simpa [bind, Except.bind] using h
  | ok u => right; simpa [bind, Except.bind] using h

theorem forM_ok_iff {α : Type} {f : α → Py Unit} : ∀ {l : List α}, l.forM f = .ok () ↔ ∀ a ∈ l, f a = .ok ()
  | [] => by simp [pure, Except.pure]
  | a :: l => by
    show (do f a; l.forM f) = .ok () ↔ _
    rw [unit_bind_ok, forM_ok_iff]
    simp

theorem forM_err {α : Type} {f : α → Py Unit} {e : PyErr} : ∀ {l : List α}, l.forM f = .error e → ∃ a ∈ l, f a = .error e
  | [], h => by cases h
  | a :: l, h => by
    have h : (do f a; l.forM f) = .error e := h
    rcases unit_bind_err h with h | h
    · exact ⟨a, by simp, h⟩
    · obtain ⟨b, hb, h⟩ := forM_err h
      exact ⟨b, by simp [hb], h⟩

theorem zip_forall {α β : Type} {p : α × β → Prop} {l : List α} {k : List β} :
    (∀ x ∈ l.zip k, p x) ↔ ∀ (i : ℕ) (a : α) (b : β), l[i]? = some a → k[i]? = some b → p (a, b) := by
  constructor
  · intro h i a b ha hb
    exact h _ (List.mem_of_getElem? (i := i) (by rw [List.getElem?_zip_eq_some]; exact ⟨ha, hb⟩))
  · intro h x hx
    obtain ⟨i, hi⟩ := List.mem_iff_getElem?.1 hx
    rw [List.getElem?_zip_eq_some] at hi
    exact h i _ _ hi.1 hi.2

theorem sanityChecks_ok (A : MainArgs) : sanityChecks A = .ok () ↔ DocumentedForm A := by
  unfold sanityChecks
  simp only [unit_bind_ok, pyAssert_ok, forM_ok_iff]
  rw [zip_forall, zip_forall]
  constructor
  · rintro ⟨h1, h2, h3, h4, h5, h6, h7, h8, h9⟩
    exact ⟨h1.symm, h2.symm, h3, fun i l n a b => (h4 i l n a b).symm, h5, h6, h7, h8, h9⟩
  · rintro ⟨h1, h2, h3, h4, h5, h6, h7, h8, h9⟩
    exact ⟨h1.symm, h2.symm, h3, fun i l n a b => (h4 i l n a b).symm, h5, h6, h7, h8, h9⟩

theorem sanityChecks_err {A : MainArgs} {e : PyErr} (h : sanityChecks A = .error e) : e = .assertionError := by
  unfold sanityChecks at h
  rcases unit_bind_err h with h | h
  · exact pyAssert_err h
  rcases unit_bind_err h with h | h
  · exact pyAssert_err h
  rcases unit_bind_err h with h | h
  · obtain ⟨_, _, h⟩ := forM_err h
    exact pyAssert_err h
  rcases unit_bind_err h with h | h
  · obtain ⟨_, _, h⟩ := forM_err h
    rcases unit_bind_err h with h | h <;> exact pyAssert_err h
  rcases unit_bind_err h with h | h
  · exact pyAssert_err h
  rcases unit_bind_err h with h | h
  · exact pyAssert_err h
  rcases unit_bind_err h with h | h
  · exact pyAssert_err h
  rcases unit_bind_err h with h | h <;> exact pyAssert_err h

theorem pyGet_eq {α : Type} (l : List α) (i : ℕ) :
    pyGet l (i : ℤ) = match l[i]? with
      | none => .error .indexError
      | some x => .ok x := by
  by_cases h : i < l.length
  · rw [pyGet_ofNat l i h, List.getElem?_eq_getElem h]
  · rw [pyGet_ge l i (by omega), List.getElem?_eq_none (by omega)]

theorem cfChecks_ok (A : MainArgs) : cfChecks A = .ok () ↔ CrystalFieldForm A := by
  have e0 := fun (l : List ℕ) => pyGet_eq l 0
  have e1 := fun (l : List ℕ) => pyGet_eq l 1
  have e2 := pyGet_eq A.nValBaths 1
  simp only [Nat.cast_zero, Nat.cast_one] at e0 e1 e2
  unfold cfChecks
  rw [e0, e1, e1, e2]
  constructor
  · intro h
    rcases h0 : A.ls[0]? with _ | l0 <;> rw [h0] at h
    · cases h
    have h := unit_bind_ok.1 h
    have hp := pyAssert_ok.1 h.1
    have h := h.2
    rcases h1 : A.ls[1]? with _ | l1 <;> rw [h1] at h
    · cases h
    have h := unit_bind_ok.1 h
    have hd := pyAssert_ok.1 h.1
    have h := h.2
    rcases h2 : A.nBaths[1]? with _ | nb <;> rw [h2] at h
    · cases h
    have h := unit_bind_ok.1 h
    have hb := pyAssert_ok.1 h.1
    have h := h.2
    rcases h3 : A.nValBaths[1]? with _ | v <;> rw [h3] at h
    · cases h
    have hv := pyAssert_ok.1 h
    refine ⟨by rw [h0, hp], by rw [h1, hd], ?_, by rw [h3, hv]⟩
    rw [h2]
    rcases hb with rfl | rfl <;> simp
  · rintro ⟨hp, hd, hb, hv⟩
    rw [hp, hd, hv]
    rcases hb with hb | hb <;> rw [hb] <;> rfl

theorem cfChecks_err {A : MainArgs} {e : PyErr} (h : cfChecks A = .error e) : e = .assertionError ∨ e = .indexError := by
  have e0 := fun (l : List ℕ) => pyGet_eq l 0
  have e1 := fun (l : List ℕ) => pyGet_eq l 1
  have e2 := pyGet_eq A.nValBaths 1
  simp only [Nat.cast_zero, Nat.cast_one] at e0 e1 e2
  unfold cfChecks at h
  rw [e0, e1, e1, e2] at h
  rcases h0 : A.ls[0]? with _ | l0 <;> rw [h0] at h
  · cases h; right; rfl
  rcases unit_bind_err h with h | h
  · left; exact pyAssert_err h
  rcases h1 : A.ls[1]? with _ | l1 <;> rw [h1] at h
  · cases h; right; rfl
  rcases unit_bind_err h with h | h
  · left; exact pyAssert_err h
  rcases h2 : A.nBaths[1]? with _ | nb <;> rw [h2] at h
  · cases h; right; rfl
  rcases unit_bind_err h with h | h
  · left; exact pyAssert_err h
  rcases h3 : A.nValBaths[1]? with _ | v <;> rw [h3] at h
  · cases h; right; rfl
  · left; exact pyAssert_err h

/-! ### the restrictions -/

section
variable {nBaths : Dict ℕ ℕ} {P : BasisParams} {valBaths dnValBaths dnConBaths dnTol n0imp : Dict ℕ ℤ}

theorem mainRestrictions_ok (hn : Dict.NodupKeys nBaths)
    (hP : ProvidesAll nBaths P valBaths dnValBaths dnConBaths dnTol n0imp) (nb : ℕ) (h2 : (2, nb) ∈ nBaths)
    (hv0 : 0 ≤ P.val 2) (hv : P.val 2 ≤ nb) :
    ∃ r, mainRestrictions nBaths valBaths n0imp dnTol dnValBaths dnConBaths = .ok r := by
  have hnb : Dict.get nBaths 2 = .ok nb := by rw [Dict.get, Dict.get?_of_mem hn h2]
  unfold mainRestrictions
  have i1 := imp_mapM hn h2
  simp only [Nat.cast_ofNat] at i1
  simp only [i1, get_of_provides hP.n0 h2, get_of_provides hP.tol h2, get_of_provides hP.val h2,
    get_of_provides hP.dnVal h2, get_of_provides hP.dnCon h2, hnb, bind, Except.bind,
    bath_mapM hn h2 (le_refl (0 : ℤ)) hv, bath_mapM hn h2 hv0 (le_refl (nb : ℤ))]
  exact ⟨_, rfl⟩

theorem mainRestrictions_nonneg (hn : Dict.NodupKeys nBaths) {nb : ℕ} (h2 : (2, nb) ∈ nBaths) {v : ℤ}
    (hval : Dict.get? valBaths 2 = some v) {r : Restrictions}
    (h : mainRestrictions nBaths valBaths n0imp dnTol dnValBaths dnConBaths = .ok r) : 0 ≤ v := by
  unfold mainRestrictions at h
  obtain ⟨_, _, h⟩ := bind_ok h
  obtain ⟨_, _, h⟩ := bind_ok h
  obtain ⟨_, _, h⟩ := bind_ok h
  obtain ⟨v', hv', h⟩ := bind_ok h
  obtain ⟨_, _, h⟩ := bind_ok h
  obtain ⟨_, _, h⟩ := bind_ok h
  obtain ⟨nb', hnb, h⟩ := bind_ok h
  obtain ⟨ix, hix, h⟩ := bind_ok h
  have e1 : v' = v := by
    rw [Dict.get, hval] at hv'
    cases hv'; rfl
  have e2 : nb' = nb := by
    rw [Dict.get, Dict.get?_of_mem hn h2] at hnb
    cases hnb; rfl
  subst e1 e2
  by_contra hneg
  obtain ⟨rest, hr⟩ := pyRange_cons (a := v') (b := nb') (by omega)
  rw [hr, List.map_cons, mapM_error_first _ _ _ .exception] at hix
  · cases hix
  · refine ((C10_rejects _).1 _).2 ?_
    rintro ⟨_, _, h, _⟩
    omega

/-- The four occupation lists have an entry for the d shell. -/
theorem mainRestrictions_lists {r : Restrictions}
    (h : mainRestrictions nBaths valBaths n0imp dnTol dnValBaths dnConBaths = .ok r) :
    ∀ d ∈ [n0imp, dnTol, dnValBaths, dnConBaths], (Dict.get? d 2).isSome := by
  have key : ∀ {d : Dict ℕ ℤ} {v : ℤ}, Dict.get d 2 = .ok v → (Dict.get? d 2).isSome := by
    intro d v h
    unfold Dict.get at h
    cases hg : Dict.get? d 2 with
    | none => rw [hg] at h; cases h
    | some x => rfl
  unfold mainRestrictions at h
  obtain ⟨_, _, h⟩ := bind_ok h
  obtain ⟨_, h1, h⟩ := bind_ok h
  obtain ⟨_, h2, h⟩ := bind_ok h
  obtain ⟨_, _, h⟩ := bind_ok h
  obtain ⟨_, _, h⟩ := bind_ok h
  obtain ⟨_, h3, h⟩ := bind_ok h
  obtain ⟨_, _, h⟩ := bind_ok h
  obtain ⟨_, _, h⟩ := bind_ok h
  obtain ⟨_, h4, h⟩ := bind_ok h
  intro d hd
  simp only [List.mem_cons, List.not_mem_nil, or_false] at hd
  rcases hd with rfl | rfl | rfl | rfl
  · exact key h1
  · exact key h2
  · exact key h3
  · exact key h4

end

/-! ### the double counting -/

theorem dc_iff {n3d n2p : ℤ} {c : ℝ} {Fdd Fpd Gpd : List ℝ} (hF : 5 ≤ Fdd.length) (hFp : 3 ≤ Fpd.length)
    (hG : 4 ≤ Gpd.length) :
    (n2p = 6 → ∃ d p, dcMLFT n3d c Fdd (some (n2p : ℝ)) (some Fpd) (some Gpd) = .ok (.two d p)) ∧
    (n2p ≠ 6 → dcMLFT n3d c Fdd (some (n2p : ℝ)) (some Fpd) (some Gpd) = .error .valueError) := by
  have h := C39_double_counting n3d c Fdd (some (n2p : ℝ)) (some Fpd) (some Gpd) hF (by simpa using hFp) (by simpa using hG)
  refine ⟨?_, ?_⟩
  · rintro rfl
    exact ⟨_, _, h.2.2 Fpd Gpd ⟨n3d, rfl⟩ (by norm_num) rfl rfl⟩
  · intro hne
    refine h.1.2 ?_
    rintro ⟨_, _, ⟨h, _⟩ | ⟨h, _⟩⟩
    · cases h
    · have : (n2p : ℝ) = 6 := Option.some.inj h
      exact hne (by exact_mod_cast this)

theorem pd_provides (b : ℕ → ℕ) (P : BasisParams) :
    ProvidesAll [(1, b 1), (2, b 2)] P [(1, P.val 1), (2, P.val 2)] [(1, P.dnVal 1), (2, P.dnVal 2)]
      [(1, P.dnCon 1), (2, P.dnCon 2)] [(1, P.tol 1), (2, P.tol 2)] [(1, P.n0 1), (2, P.n0 2)] := by
  constructor <;> intro l hl <;> simp only [Dict.keys, List.map_cons, List.map_nil, List.mem_cons,
    List.not_mem_nil, or_false] at hl <;> rcases hl with rfl | rfl <;> rfl

theorem pd_nodup (b : ℕ → ℕ) : Dict.NodupKeys [((1 : ℕ), b 1), (2, b 2)] := by
  unfold Dict.NodupKeys Dict.keys
  simp

/-- The setup in terms of its parts. -/
theorem setup_parts {L : MainLib} {A : MainArgs} {b : ℕ → ℕ} {P : BasisParams} {hx hy hz : ℝ} {h0 : Op Label ℂ}
    (hD : Documented A b P hx hy hz h0) :
    mainSetup L A = (do
      let r ← mainRestrictions [(1, b 1), (2, b 2)] [(1, P.val 1), (2, P.val 2)] [(1, P.n0 1), (2, P.n0 2)]
        [(1, P.tol 1), (2, P.tol 2)] [(1, P.dnVal 1), (2, P.dnVal 2)] [(1, P.dnCon 1), (2, P.dnCon 2)]
      let hOp ← getHamiltonianOperator L.gaunt (pdSystem b) A.Fdd A.Fpp A.Fpd A.Gpd A.xi2p A.xi3d
        [(1, P.n0 1), (2, P.n0 2)] A.chargeTransferCorrection hx hy hz h0
      let basis ← getBasis [(1, b 1), (2, b 2)] [(1, P.val 1), (2, P.val 2)] [(1, P.dnVal 1), (2, P.dnVal 2)]
        [(1, P.dnCon 1), (2, P.dnCon 2)] [(1, P.tol 1), (2, P.tol 2)] [(1, P.n0 1), (2, P.n0 2)]
      return ⟨[(1, b 1), (2, b 2)], r, hOp, basis⟩) := by
  have hH : ∀ hx hy hz, mainHamiltonian L A [(1, b 1), (2, b 2)] [(1, P.val 1), (2, P.val 2)] [(1, P.n0 1), (2, P.n0 2)] hx hy hz
      = getHamiltonianOperator L.gaunt (pdSystem b) A.Fdd A.Fpp A.Fpd A.Gpd A.xi2p A.xi3d
        [(1, P.n0 1), (2, P.n0 2)] A.chargeTransferCorrection hx hy hz h0 := by
    intro hx hy hz
    unfold mainHamiltonian
    rcases hD.h0 with ⟨hp, -⟩ | ⟨params, hp, hcf⟩
    · rw [hp]
      rfl
    · rw [hp]
      dsimp only [getHamiltonianOperatorUsingCF]
      rw [hcf]
      rfl
  unfold mainSetup
  simp only [hD.ls, hD.nBaths, hD.nValBaths, hD.n0imps, hD.dnTols, hD.dnValBaths, hD.dnConBaths, hD.hField,
    zipDict_two, hH, pure_bind]

theorem documented_nodup {A : MainArgs} {b : ℕ → ℕ} {P : BasisParams} {hx hy hz : ℝ} {h0 : Op Label ℂ}
    (hD : Documented A b P hx hy hz h0) : Dict.NodupKeys h0 := by
  rcases hD.h0 with ⟨-, hn⟩ | ⟨params, -, hcf⟩
  · exact hn
  · obtain ⟨h0', -, -, -, he, -, -, -, hn, -⟩ := C53_meaning (nBaths := [(1, b 1), (2, b 2)]) (nValBaths := [(1, P.val 1), (2, P.val 2)])
      (basis := "spherical") (readH0CFFile params) (b 2) (P.val 2) rfl rfl (Or.inl rfl)
    rw [hcf] at he
    cases he
    exact hn

end Verif
