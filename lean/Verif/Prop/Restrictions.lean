/-
C55: the occupation restrictions of the excited states.
-/
import Verif.Model.Restrictions
import Verif.Prop.GetBasis
import Verif.Spec.State

namespace Verif

open Spec Finset Psr

theorem impOrbs_nonempty (sys : NBaths) (l : ℕ) : (impOrbs sys l).Nonempty :=
  ⟨impStart sys l, by rw [impOrbs, mem_Ico]; omega⟩

section
variable (nBaths : Dict ℕ ℕ) (P : BasisParams) (valBaths dnValBaths dnConBaths dnTol n0imp : Dict ℕ ℤ)

theorem imp_disjoint_bath {nBaths : Dict ℕ ℕ} {l nb : ℕ} (hl : (l, nb) ∈ nBaths) {x : ℕ}
    (h : x ∈ impOrbs (intKeys nBaths) l) (h' : bathStart (intKeys nBaths) (.int l) ≤ x)
    (h'' : x < bathStart (intKeys nBaths) (.int l) + nb) : False := by
  have := nodup_groupIdx hl 0
  rw [groupIdx, List.append_assoc, List.nodup_append] at this
  refine this.2.2 x ?_ x ?_ rfl
  · rw [impOrbs, mem_Ico] at h
    rw [impIdx, List.mem_range'_1]; omega
  · simp only [valIdx, conIdx, List.mem_append, List.mem_range'_1]
    right
    simp
    omega

/-- C55.  What the restrictions of the excited states say: the d occupation is between
`n0 - 1` and `n0 + tol + 1`, at most `dnVal` electrons have left the valence bath and at
most `dnCon` have entered the conduction bath. -/
theorem C55_meaning (hn : Dict.NodupKeys nBaths)
    (hP : ProvidesAll nBaths P valBaths dnValBaths dnConBaths dnTol n0imp) (nb : ℕ) (h2 : (2, nb) ∈ nBaths)
    (hv0 : 0 ≤ P.val 2) (hv : P.val 2 ≤ nb) (hd : 0 ≤ P.dnVal 2) (hc : 0 ≤ P.dnCon 2) :
    ∃ r, mainRestrictions nBaths valBaths n0imp dnTol dnValBaths dnConBaths = .ok r ∧
      ∀ S : Finset ℕ, Allowed r S ↔
        (P.n0 2 - 1 ≤ ((S ∩ impOrbs (intKeys nBaths) 2).card : ℤ) ∧
          ((S ∩ impOrbs (intKeys nBaths) 2).card : ℤ) ≤ P.n0 2 + P.tol 2 + 1) ∧
        P.val 2 - P.dnVal 2 ≤ ((S ∩ valOrbs (intKeys nBaths) 2 (P.val 2)).card : ℤ) ∧
        ((S ∩ conOrbs (intKeys nBaths) 2 nb (P.val 2)).card : ℤ) ≤ P.dnCon 2 := by
  have e1 : (List.range' (impStart (intKeys nBaths) 2) (2 * (2 * 2 + 1))).toFinset = impOrbs (intKeys nBaths) 2 := by
    ext x; simp only [List.mem_toFinset, List.mem_range'_1, impOrbs, mem_Ico]
  have e2 : (List.range' (bathStart (intKeys nBaths) (.int 2) + (0 : ℤ).toNat) (P.val 2 - 0).toNat).toFinset
      = valOrbs (intKeys nBaths) 2 (P.val 2) := by
    ext x; simp only [List.mem_toFinset, List.mem_range'_1, valOrbs, mem_Ico]; simp
  have e3 : (List.range' (bathStart (intKeys nBaths) (.int 2) + (P.val 2).toNat) ((nb : ℤ) - P.val 2).toNat).toFinset
      = conOrbs (intKeys nBaths) 2 nb (P.val 2) := by
    ext x; simp only [List.mem_toFinset, List.mem_range'_1, conOrbs, mem_Ico]; omega
  have hIV : impOrbs (intKeys nBaths) 2 ≠ valOrbs (intKeys nBaths) 2 (P.val 2) := by
    intro e
    obtain ⟨x, hx⟩ := impOrbs_nonempty (intKeys nBaths) 2
    have hx' := e ▸ hx
    rw [valOrbs, mem_Ico] at hx'
    exact imp_disjoint_bath h2 hx hx'.1 (by omega)
  have hIC : impOrbs (intKeys nBaths) 2 ≠ conOrbs (intKeys nBaths) 2 nb (P.val 2) := by
    intro e
    obtain ⟨x, hx⟩ := impOrbs_nonempty (intKeys nBaths) 2
    have hx' := e ▸ hx
    rw [conOrbs, mem_Ico] at hx'
    exact imp_disjoint_bath h2 hx (by omega) (by omega)
  have hnb : Dict.get nBaths 2 = .ok nb := by rw [Dict.get, Dict.get?_of_mem hn h2]
  refine ⟨Dict.set (Dict.set (Dict.set [] (impOrbs (intKeys nBaths) 2) (P.n0 2 - 1, P.n0 2 + P.tol 2 + 1))
      (valOrbs (intKeys nBaths) 2 (P.val 2)) (P.val 2 - P.dnVal 2, P.val 2))
      (conOrbs (intKeys nBaths) 2 nb (P.val 2)) (0, P.dnCon 2), ?_, ?_⟩
  · unfold mainRestrictions
    have i1 := imp_mapM hn h2
    simp only [Nat.cast_ofNat] at i1
    simp only [i1, get_of_provides hP.n0 h2, get_of_provides hP.tol h2, get_of_provides hP.val h2,
      get_of_provides hP.dnVal h2, get_of_provides hP.dnCon h2, hnb, bind, Except.bind,
      bath_mapM hn h2 (le_refl (0 : ℤ)) hv, bath_mapM hn h2 hv0 (le_refl (nb : ℤ)), impIdx, e1, e2, e3]
    rfl
  · intro S
    have hcv : ((S ∩ valOrbs (intKeys nBaths) 2 (P.val 2)).card : ℤ) ≤ P.val 2 := by
      have := card_le_card (inter_subset_right (s₁ := S) (s₂ := valOrbs (intKeys nBaths) 2 (P.val 2)))
      have h : (valOrbs (intKeys nBaths) 2 (P.val 2)).card = (P.val 2).toNat := by simp [valOrbs]
      omega
    by_cases hVC : valOrbs (intKeys nBaths) 2 (P.val 2) = conOrbs (intKeys nBaths) 2 nb (P.val 2)
    · have hV : valOrbs (intKeys nBaths) 2 (P.val 2) = ∅ := by
        rw [eq_empty_iff_forall_notMem]
        intro x hx
        have hx' := hVC ▸ hx
        rw [valOrbs, mem_Ico] at hx
        rw [conOrbs, mem_Ico] at hx'
        omega
      have hval : P.val 2 = 0 := by
        have : (valOrbs (intKeys nBaths) 2 (P.val 2)).card = (P.val 2).toNat := by simp [valOrbs]
        rw [hV] at this
        simp at this
        omega
      rw [← hVC, hV]
      have hI : impOrbs (intKeys nBaths) 2 ≠ ∅ := by rw [← hV]; exact hIV
      simp only [Dict.set, hI, if_false, if_true, Allowed, List.mem_cons, List.not_mem_nil, or_false,
        forall_eq_or_imp, forall_eq, inter_empty, card_empty, hval, inter_comm _ S]
      simp only [Nat.cast_zero, le_refl, true_and]
      omega
    · simp only [Dict.set, hIV, hIC, hVC, if_false, Allowed, List.mem_cons, List.not_mem_nil, or_false,
        forall_eq_or_imp, forall_eq, inter_comm _ S]
      have : (0 : ℤ) ≤ ((S ∩ conOrbs (intKeys nBaths) 2 nb (P.val 2)).card : ℤ) := by positivity
      omega

/-- C55.  If the d shell cannot lose two electrons to the conduction bath (the
tolerance or the number of electrons in the conduction bath is at most one), every
product state of the ground-state basis fulfils the restrictions. -/
theorem C55_admits (hn : Dict.NodupKeys nBaths)
    (hP : ProvidesAll nBaths P valBaths dnValBaths dnConBaths dnTol n0imp) (nb : ℕ) (h2 : (2, nb) ∈ nBaths)
    (basis : List Bytes) (h : getBasis nBaths valBaths dnValBaths dnConBaths dnTol n0imp = .ok basis)
    (hne : basis ≠ []) :
    ∃ r, mainRestrictions nBaths valBaths n0imp dnTol dnValBaths dnConBaths = .ok r ∧
      ((∀ S ⊆ range (nTotal (intKeys nBaths)), encBytes (nTotal (intKeys nBaths)) S ∈ basis → Allowed r S) ↔
        P.tol 2 ≤ 1 ∨ P.dnCon 2 ≤ 1) := by
  have hf := getBasis_fits hn hP h
  have hC := C11_get_basis nBaths P valBaths dnValBaths dnConBaths dnTol n0imp hn hP basis h
  obtain ⟨k0, hk0⟩ := List.exists_mem_of_ne_nil _ hne
  obtain ⟨S0, hS0, rfl⟩ := hC.2 _ hk0
  have hconf0 := (hC.1 S0 hS0).1 hk0
  obtain ⟨dv0, dc0, hch0, _, _, _⟩ := hconf0 _ h2
  have hb0 := (hf _ h2).2 _ _ hch0
  have hv := (hf _ h2).1
  unfold BadOccupation at hb0
  push Not at hb0
  dsimp only at hv hb0 hch0
  have hd : 0 ≤ P.dnVal 2 := hch0.1.trans hch0.2.1
  have hc : 0 ≤ P.dnCon 2 := hch0.2.2.1.trans hch0.2.2.2.1
  have hv0 : 0 ≤ P.val 2 := by
    by_contra hneg
    have := hb0.2.2.2 (by omega)
    have := hch0.1
    omega
  obtain ⟨r, e, hr⟩ := C55_meaning nBaths P valBaths dnValBaths dnConBaths dnTol n0imp hn hP nb h2 hv0 hv hd hc
  refine ⟨r, e, ?_, ?_⟩
  · intro hall
    by_contra hcon
    push Not at hcon
    -- a state with two electrons in the conduction bath
    have hch : Chosen P 2 0 2 := ⟨le_refl _, hd, by omega, by omega, by
      have := hcon.1
      simp
      omega⟩
    have hb := (hf _ h2).2 _ _ hch
    unfold BadOccupation at hb
    push Not at hb
    dsimp only at hb
    have hex : ∃ t, t ∈ partOf nBaths P 2 nb 0 2 := by
      unfold partOf
      refine ⟨_, mem_partPure.2 ⟨(impIdx (intKeys nBaths) 2).take (P.n0 2 + (0 - 2)).toNat,
        (valIdx (intKeys nBaths) 2 (P.val 2)).take (P.val 2 - 0).toNat,
        (conIdx (intKeys nBaths) 2 nb (P.val 2)).take (2 : ℤ).toNat, ⟨List.take_sublist _ _, ?_⟩,
        ⟨List.take_sublist _ _, ?_⟩, ⟨List.take_sublist _ _, ?_⟩, rfl⟩⟩
      · simp [impIdx]; omega
      · simp [valIdx]
      · simp [conIdx]; omega
    obtain ⟨t2, ht2⟩ := hex
    have hall2 : ∀ p ∈ nBaths, ∃ t, t ∈ basisLPure nBaths P p.1 p.2 ∧ (p.1 = 2 → t = t2) := by
      intro p hp
      by_cases h2p : p.1 = 2
      · have hp2 : p.2 = nb := by
          have e1 := Dict.get?_of_mem hn (k := p.1) (v := p.2) hp
          rw [h2p, Dict.get?_of_mem hn h2] at e1
          simpa using e1.symm
        refine ⟨t2, ?_, fun _ => rfl⟩
        rw [h2p, hp2]
        exact mem_basisLPure.2 ⟨0, 2, hch, ht2⟩
      · rw [getBasis_ok hn hP hf] at h
        obtain rfl := Except.ok.inj h
        obtain ⟨c, hc, _⟩ := List.mem_map.1 hk0
        obtain ⟨t, _, ht⟩ := forall₂_right (mem_configs.1 hc) p hp
        exact ⟨t, ht, fun h => absurd h h2p⟩
    choose! f hf1 hf2 using hall2
    have hcfg : nBaths.map f ∈ configs nBaths P := by
      rw [mem_configs, List.forall₂_map_left_iff, List.forall₂_same]
      exact hf1
    have hzip : (t2, ((2, nb) : ℕ × ℕ)) ∈ (nBaths.map f).zip nBaths := by
      rw [← hf2 _ h2 rfl]
      have : (nBaths.map f).zip nBaths = nBaths.map fun p => (f p, p) := by
        clear * -
        induction nBaths with
        | nil => rfl
        | cons a t ih => simp [ih]
      rw [this]
      exact List.mem_map.2 ⟨_, h2, rfl⟩
    obtain ⟨k1, _, _⟩ := partPure_card (nodup_groupIdx h2 (P.val 2)) ht2 (nBaths.map f).flatten.toFinset
      (fun x hx => by rw [List.mem_toFinset]; exact mem_flatten_iff hn hf hcfg hzip hx)
    have hmem : encBytes (nTotal (intKeys nBaths)) (nBaths.map f).flatten.toFinset ∈ basis := by
      rw [getBasis_ok hn hP hf] at h
      obtain rfl := Except.ok.inj h
      exact List.mem_map.2 ⟨_, hcfg, rfl⟩
    have := ((hr _).1 (hall _ (flatten_subset hn hf hcfg) hmem)).1.1
    rw [impIdx_toFinset] at k1
    rw [k1] at this
    omega
  · intro hor S hS hm
    rw [hr]
    obtain ⟨dv, dc, hch, c1, c2, c3⟩ := (hC.1 S hS).1 hm _ h2
    dsimp only at hch c1 c2 c3
    obtain ⟨h1, h3, h4, h5, h6⟩ := hch
    rw [abs_le] at h6
    refine ⟨by rw [c1]; omega, ?_, by rw [c3]; exact h5⟩
    by_cases hv' : P.val 2 = 0
    · rw [hv']
      have : (0 : ℤ) ≤ ((S ∩ valOrbs (intKeys nBaths) 2 0).card : ℤ) := by positivity
      omega
    · rw [c2 hv']; omega

end

/-- NiO-like parameters: d8 with ten valence bath states. -/
def exNiO : BasisParams where
  val l := if l = 2 then 10 else 0
  dnVal l := if l = 2 then 2 else 0
  dnCon _ := 0
  tol l := if l = 2 then 2 else 0
  n0 l := if l = 2 then 8 else 6

/-- The hypotheses are met. -/
example (basis : List Bytes) (h : getBasis [(1, 0), (2, 10)] [(1, 0), (2, 10)] [(1, 0), (2, 2)] [(1, 0), (2, 0)]
    [(1, 0), (2, 2)] [(1, 6), (2, 8)] = .ok basis) (hne : basis ≠ []) :
    ∃ r, mainRestrictions [(1, 0), (2, 10)] [(1, 0), (2, 10)] [(1, 6), (2, 8)] [(1, 0), (2, 2)] [(1, 0), (2, 2)]
        [(1, 0), (2, 0)] = .ok r ∧
      ∀ S ⊆ range 26, encBytes 26 S ∈ basis → Allowed r S := by
  obtain ⟨r, e, hr⟩ := C55_admits [(1, 0), (2, 10)] exNiO [(1, 0), (2, 10)] [(1, 0), (2, 2)] [(1, 0), (2, 0)]
    [(1, 0), (2, 2)] [(1, 6), (2, 8)] (by decide)
    ⟨by unfold Provides; decide, by unfold Provides; decide, by unfold Provides; decide,
      by unfold Provides; decide, by unfold Provides; decide⟩ 10 (by decide) basis h hne
  exact ⟨r, e, hr.2 (Or.inr (by decide))⟩

end Verif
