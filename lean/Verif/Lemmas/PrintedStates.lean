/-
The weights and density matrix elements that main prints for one eigenstate.
-/
import Verif.Lemmas.Printed

namespace Verif

open Finset Psr Spec

noncomputable section

/-! ### weights -/

theorem printedWeights {argsort : List ℝ → List ℕ}
    (ha : ∀ l, (argsort l).Perm (List.range l.length) ∧ ((argsort l).map fun i => l.getD i 0).Pairwise (· ≤ ·))
    (nPrint : ℕ) {n : ℕ} {psi : Psi ℂ} (hpsi : IsState n psi) :
    PrintedWeights n nPrint psi (printWeights argsort nPrint psi) := by
  classical
  let ws : List ℝ := (Dict.values psi).map abs2
  have hlw : ws.length = psi.length := by simp [ws, Dict.values]
  obtain ⟨hperm, hasc⟩ := ha ws
  let j := (argsort ws).reverse
  have hjp : j.Perm (List.range psi.length) := by
    rw [← hlw]
    exact (List.reverse_perm _).trans hperm
  have hjlt : ∀ i ∈ j, i < psi.length := fun i hi => List.mem_range.1 (hjp.mem_iff.1 hi)
  have hjnd : j.Nodup := hjp.nodup_iff.2 List.nodup_range
  -- the product states
  have hex : ∀ i, ∃ F : Finset ℕ, F ⊆ range n ∧ ∀ (h : i < psi.length), psi[i].1 = encBytes n F := by
    intro i
    by_cases h : i < psi.length
    · obtain ⟨S, hS, e⟩ := hpsi.keys psi[i].1 (List.mem_map.2 ⟨_, List.getElem_mem h, rfl⟩)
      exact ⟨S, hS, fun _ => e⟩
    · exact ⟨∅, by simp, fun h' => absurd h' h⟩
  choose F hF hkey using hex
  have hampl : ∀ i (h : i < psi.length), ampl n psi (F i) = psi[i].2 := by
    intro i h
    rw [ampl_of_subset (hF i), ← hkey i h, (show Dict.get? psi psi[i].1 = some psi[i].2 from Dict.get?_of_mem hpsi.nodup (List.getElem_mem h))]
    rfl
  have hws : ∀ i, i < psi.length → ws.getD i 0 = Complex.normSq (ampl n psi (F i)) := by
    intro i h
    rw [List.getD_eq_getElem _ _ (by rw [hlw]; exact h), hampl i h]
    simp only [ws, Dict.values, List.getElem_map]
    rfl
  have hnames : ∀ i, i < psi.length → ((Dict.keys psi).map npBytes).getD i [] = npBytes (encBytes n (F i)) := by
    intro i h
    rw [List.getD_eq_getElem _ _ (by simpa [Dict.keys] using h), ← hkey i h]
    simp [Dict.keys]
  have hinj : ∀ i ∈ j, ∀ k ∈ j, F i = F k → i = k := by
    intro i hi k hk e
    have h1 := hkey i (hjlt i hi)
    have h2 := hkey k (hjlt k hk)
    rw [e, ← h2] at h1
    have hnd : (psi.map Prod.fst).Nodup := hpsi.nodup
    have := (List.Nodup.getElem_inj_iff hnd (hi := by simpa using hjlt i hi) (hj := by simpa using hjlt k hk)).1
      (by simpa using h1)
    exact this
  have hdesc : (j.map fun i => ws.getD i 0).Pairwise (· ≥ ·) := by
    rw [List.map_reverse]
    exact List.pairwise_reverse.2 hasc
  have e1 : (printWeights argsort nPrint psi).1 = (j.map fun i => ws.getD i 0).take nPrint := by
    unfold printWeights
    dsimp only
    split
    · rfl
    · have : nPrint = 0 := by omega
      rw [this, List.take_zero]
  have e2 : (printWeights argsort nPrint psi).2 = (j.map fun i => ((Dict.keys psi).map npBytes).getD i []).take nPrint := by
    unfold printWeights
    dsimp only
    split
    · rfl
    · have : nPrint = 0 := by omega
      rw [this, List.take_zero]
  have htake : ∀ i ∈ j.take nPrint, i ∈ j := fun i hi => List.mem_of_mem_take hi
  have e1' : (printWeights argsort nPrint psi).1 = ((j.take nPrint).map F).map fun S => Complex.normSq (ampl n psi S) := by
    rw [e1, ← List.map_take, List.map_map]
    exact List.map_congr_left fun i hi => hws i (hjlt i (htake i hi))
  refine ⟨?_, (j.take nPrint).map F, ?_, ?_, ?_, e1', ?_, ?_⟩
  · rw [e1]
    exact hdesc.sublist (List.take_sublist _ _)
  · exact List.Nodup.map_on (fun i hi k hk e => hinj i (htake i hi) k (htake k hk) e)
      (hjnd.sublist (List.take_sublist _ _))
  · rw [List.length_map, List.length_take, hjp.length_eq, List.length_range]
  · intro S hS
    obtain ⟨i, _, rfl⟩ := List.mem_map.1 hS
    exact hF i
  · rw [e2, ← List.map_take, List.map_map]
    exact List.map_congr_left fun i hi => hnames i (hjlt i (htake i hi))
  · intro S hS hnot w hw
    have hw0 : 0 ≤ w := by
      rw [e1'] at hw
      obtain ⟨_, _, rfl⟩ := List.mem_map.1 hw
      exact Complex.normSq_nonneg _
    by_cases hmem : encBytes n S ∈ Dict.keys psi
    · obtain ⟨p, hp, hpk⟩ := List.mem_map.1 hmem
      obtain ⟨i, hi, rfl⟩ := List.getElem_of_mem hp
      have hSi : S = F i := by
        rw [hkey i hi] at hpk
        exact (encBytes_injOn (hF i) hS hpk).symm
      have hij : i ∈ j := hjp.mem_iff.2 (List.mem_range.2 hi)
      rw [← List.take_append_drop nPrint j, List.mem_append] at hij
      rcases hij with h | h
      · exact absurd (List.mem_map.2 ⟨i, h, hSi.symm⟩) hnot
      · have hpw := hdesc
        rw [← List.take_append_drop nPrint j, List.map_append, List.pairwise_append] at hpw
        rw [hSi, ← hws i hi]
        rw [e1, ← List.map_take] at hw
        exact hpw.2.2 w hw _ (List.mem_map.2 ⟨i, h, rfl⟩)
    · rw [ampl_of_subset hS, (Dict.get?_eq_none_iff _ _).2 hmem]
      simpa using hw0

/-- Without the trailing zero bytes, byte strings of one length are still different. -/
theorem npBytes_inj {a b : Bytes} (hlen : a.length = b.length) (h : npBytes a = npBytes b) : a = b := by
  unfold npBytes at h
  have h := List.reverse_injective h
  have key : ∀ l : Bytes, l = List.replicate (l.length - (l.dropWhile (· = 0)).length) 0 ++ l.dropWhile (· = 0) := by
    intro l
    induction l with
    | nil => rfl
    | cons x l ih =>
      by_cases hx : x = 0
      · rw [List.dropWhile_cons_of_pos (by simpa using hx)]
        have hle : (l.dropWhile (· = 0)).length ≤ l.length := (List.dropWhile_sublist _).length_le
        rw [List.length_cons, Nat.sub_add_comm hle, List.replicate_succ, List.cons_append, ← ih, hx]
      · rw [List.dropWhile_cons_of_neg (by simpa using hx)]
        simp
  have h1 := key a.reverse
  have h2 := key b.reverse
  rw [h] at h1
  rw [List.length_reverse] at h1 h2
  rw [hlen, ← h2] at h1
  exact List.reverse_injective h1

/-! ### density matrix -/

theorem foldl_keeps {α β : Type} (P : β → Prop) (f : β → α → β) (l : List α) (h : ∀ a ∈ l, ∀ d, P d → P (f d a)) :
    ∀ d, P d → P (l.foldl f d) := by
  induction l with
  | nil => intro d hd; exact hd
  | cons a l ih =>
    intro d hd
    exact ih (fun a ha => h a (List.mem_cons_of_mem _ ha)) _ (h a List.mem_cons_self d hd)

/-- Keys of the density matrix in real orbitals. -/
def CubicKeys (d : CubicDensity) : Prop :=
  Dict.NodupKeys d ∧ ∀ k ∈ Dict.keys d, (k.1.1 = 0 ∨ k.1.1 = 1) ∧ (k.2.1 = 0 ∨ k.2.1 = 1) ∧ (0 ≤ k.1.2 ∧ k.1.2 < 5) ∧
      (0 ≤ k.2.2 ∧ k.2.2 < 5)

theorem getDensityMatrixCubic_keys {nBaths : Dict ℕ ℕ} {psi : Psi ℂ} {d : CubicDensity}
    (h : getDensityMatrixCubic nBaths psi = .ok d) :
    Dict.NodupKeys d ∧ ∀ k ∈ Dict.keys d, (k.1.1 = 0 ∨ k.1.1 = 1) ∧ (k.2.1 = 0 ∨ k.2.1 = 1) ∧ (0 ≤ k.1.2 ∧ k.1.2 < 5) ∧
      (0 ≤ k.2.2 ∧ k.2.2 < 5) := by
  unfold getDensityMatrixCubic at h
  obtain ⟨dm, -, h⟩ := bind_ok h
  obtain ⟨u, -, h⟩ := bind_ok h
  have h := Except.ok.inj h
  rw [← h]
  refine foldl_keeps CubicKeys _ _ ?_ _ ⟨Dict.nodupKeys_nil, by simp⟩
  intro i hi d hd
  refine foldl_keeps CubicKeys _ _ ?_ _ hd
  intro j hj d hd
  refine foldl_keeps CubicKeys _ _ ?_ _ hd
  intro si hsi d hd
  refine foldl_keeps CubicKeys _ _ ?_ _ hd
  intro sj hsj d hd
  refine foldl_keeps CubicKeys _ _ ?_ _ hd
  intro k _ d hd
  refine foldl_keeps CubicKeys _ _ ?_ _ hd
  intro m _ d hd
  rw [mem_pyRange] at hi hj hsi hsj
  unfold cubicStep
  split
  · dsimp only
    split
    · have hset : ∀ v, CubicKeys (Dict.set d ((si, i), (sj, j)) v) := by
        intro v
        refine ⟨Dict.nodupKeys_set hd.1 _ _, fun q hq => ?_⟩
        rw [Dict.mem_keys_set] at hq
        rcases hq with rfl | hq
        · dsimp only
          omega
        · exact hd.2 q hq
      unfold Dict.addAt
      split <;> exact hset _
    · exact hd
  · exact hd

theorem printedDensity {nBaths : Dict ℕ ℕ} (hn : Dict.NodupKeys nBaths) (hl : 2 ∈ Dict.keys nBaths)
    {psi : Psi ℂ} (hpsi : IsState (nSpinOrbitals nBaths) psi) {tol : ℝ} (htol : 0 ≤ tol)
    {p : List (((ℤ × ℤ) × (ℤ × ℤ)) × ℂ)} (h : printDensity tol nBaths psi = .ok p) :
    PrintedDensity tol (nSpinOrbitals nBaths) (position (intKeys nBaths)) (ampl (nSpinOrbitals nBaths) psi) p := by
  unfold printDensity at h
  obtain ⟨d, hd, h⟩ := bind_ok h
  have h := Except.ok.inj h
  obtain ⟨hnd, hkeys⟩ := getDensityMatrixCubic_keys hd
  obtain ⟨d', u, h1, hu, h2⟩ := C37_cubic_density nBaths hn hl psi hpsi
  rw [hd] at h1
  cases h1
  have hu : cubicD = u := Except.ok.inj hu
  subst hu
  have hval : ∀ (s i s' j : ℤ), (s = 0 ∨ s = 1) → (s' = 0 ∨ s' = 1) → (0 ≤ i ∧ i < 5) → (0 ≤ j ∧ j < 5) →
      (Dict.get? d ((s, i), (s', j))).getD 0
        = realDensity (nSpinOrbitals nBaths) (position (intKeys nBaths)) (ampl (nSpinOrbitals nBaths) psi)
          s i.toNat s' j.toNat := by
    intro s i s' j hs hs' hi hj
    have := (h2 i.toNat j.toNat (by omega) (by omega) s s' hs hs').2
    rw [Int.toNat_of_nonneg hi.1, Int.toNat_of_nonneg hj.1] at this
    rw [this]
    unfold realDensity
    rw [annihilateReal_eq nBaths s (by omega), annihilateReal_eq nBaths s' (by omega)]
  subst h
  refine ⟨Dict.nodupKeys_filter hnd _, fun s i s' j x => ?_⟩
  rw [List.mem_filter, decide_eq_true_iff]
  constructor
  · rintro ⟨hm, ht⟩
    have hk := hkeys _ (List.mem_map.2 ⟨_, hm, rfl⟩)
    dsimp only at hk
    refine ⟨hk.1, hk.2.1, hk.2.2.1, hk.2.2.2, ?_, ht⟩
    rw [← hval s i s' j hk.1 hk.2.1 hk.2.2.1 hk.2.2.2, Dict.get?_of_mem hnd hm]
    rfl
  · rintro ⟨hs, hs', hi, hj, rfl, ht⟩
    refine ⟨?_, ht⟩
    have hv := hval s i s' j hs hs' hi hj
    have hne : realDensity (nSpinOrbitals nBaths) (position (intKeys nBaths)) (ampl (nSpinOrbitals nBaths) psi)
        s i.toNat s' j.toNat ≠ 0 := by
      intro h0
      rw [h0, norm_zero] at ht
      linarith
    cases hg : Dict.get? d ((s, i), (s', j)) with
    | none => rw [hg] at hv; exact absurd hv.symm hne
    | some y =>
      rw [hg] at hv
      have hv : y = _ := hv
      rw [← hv]
      exact Dict.mem_of_get? hg

end

end Verif
