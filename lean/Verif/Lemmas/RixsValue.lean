/-
The entries of the map that getRIXSmap returns.
-/
import Verif.Lemmas.RixsRuns

namespace Verif

open Finset Mpi Psr Spec Matrix

noncomputable section

theorem foldlM_zipIdx_inv {α β : Type} {f : β → α × ℕ → Py β} (P : ℕ → β → Prop) :
    ∀ (l : List α) (s : ℕ) (b b' : β), P s b →
    (∀ i (h : i < l.length) b b', P (s + i) b → f b (l[i], s + i) = .ok b' → P (s + i + 1) b') →
    (l.zipIdx s).foldlM f b = .ok b' → P (s + l.length) b' := by
  intro l
  induction l with
  | nil => intro s b b' h _ he; cases he; exact h
  | cons a l ih =>
    intro s b b' h hstep he
    rw [List.zipIdx_cons, List.foldlM_cons] at he
    cases hf : f b (a, s) with
    | error err => rw [hf] at he; cases he
    | ok b1 =>
      rw [hf] at he
      have h1 := hstep 0 (by simp) b b1 h hf
      have := ih (s + 1) b1 b' h1 (fun i hi b b' hP hfe => by
        have := hstep (i + 1) (by simpa using hi) b b' (by rwa [← Nat.add_right_comm] at *) (by
          rw [← hfe]
          simp only [List.getElem_cons_succ]
          congr 2; omega)
        rwa [show s + 1 + i + 1 = s + (i + 1) + 1 by omega]) he
      rwa [show s + (a :: l).length = s + 1 + l.length by simp; omega]

theorem foldlM_range_inv {β : Type} {f : β → ℕ → Py β} (P : ℕ → β → Prop) (m : ℕ) {b b' : β} (h0 : P 0 b)
    (hstep : ∀ i < m, ∀ b b', P i b → f b i = .ok b' → P (i + 1) b')
    (he : (List.range m).foldlM f b = .ok b') : P m b' := by
  induction m generalizing b' with
  | zero => cases he; exact h0
  | succ m ih =>
    rw [List.range_succ, List.foldlM_append] at he
    cases hf : (List.range m).foldlM f b with
    | error err => rw [hf] at he; cases he
    | ok b1 =>
      rw [hf] at he
      have h1 := ih (fun i hi => hstep i (by omega)) hf
      simp only [ok_bind, List.foldlM_cons, List.foldlM_nil] at he
      cases hf1 : f b1 m with
      | error err => rw [hf1] at he; cases he
      | ok b2 =>
        rw [hf1] at he
        cases he
        exact hstep m (by omega) b1 _ h1 hf1

/-- The rows of the in-coming operator `tOpIn`, the state `psi` of energy `e` and the
in-coming energy `w`. -/
def RixsRowsOf (A : RixsArgs) (tOpsOut : List (Op ℕ ℂ)) (tOpIn : Op ℕ ℂ) (psi : Psi ℂ) (e w : ℝ)
    (r : List (List ℂ) × List (List ℂ)) : Prop :=
  ∃ psi1 big big' sys, CacheCorrect A.n tOpIn A.slaterWeightMin A.restrictions big ∧
    applyOp A.n tOpIn psi A.slaterWeightMin A.restrictions (some big) = .ok (psi1, some big') ∧
    rixsSystem A psi1 = .ok sys ∧ rixsPoint A tOpsOut sys e w = .ok r

/-- The energies that have been stored. -/
theorem refEnergies_value {A : RixsArgs} {tOpsOut : List (Op ℕ ℂ)} {sys : RixsSys} {e : ℝ} {tIn iE : ℕ} {x x' : RefRixs}
    (h : refEnergies A tOpsOut sys e tIn iE x = .ok x') :
    (∀ d (hd : d < A.wIns.length), ∃ r, rixsPoint A tOpsOut sys e A.wIns[d] = .ok r ∧
      ∀ c, x'.root iE tIn c d = r.1.getD c (x.root iE tIn c d) ∧ x'.other iE tIn c d = r.2.getD c (x.other iE tIn c d)) ∧
    ∀ a b c d, ¬ (a = iE ∧ b = tIn ∧ d < A.wIns.length) →
      x'.root a b c d = x.root a b c d ∧ x'.other a b c d = x.other a b c d := by
  obtain ⟨hok, herr⟩ := refEnergies_cases A tOpsOut sys e tIn iE x
  by_cases hbad : ∃ w ∈ A.wIns, ∃ err, rixsPoint A tOpsOut sys e w = .error err
  · obtain ⟨err, he⟩ := herr hbad
    rw [h] at he; cases he
  · have hall : ∀ i, ∃ r, ∀ h : i < A.wIns.length, rixsPoint A tOpsOut sys e A.wIns[i] = .ok r := by
      intro i
      by_cases hi : i < A.wIns.length
      · cases hp : rixsPoint A tOpsOut sys e A.wIns[i] with
        | ok r => exact ⟨r, fun _ => hp⟩
        | error err => exact absurd ⟨_, List.getElem_mem hi, err, hp⟩ hbad
      · exact ⟨([], []), fun h => absurd h hi⟩
    choose F hF using hall
    have := hok F hF
    rw [h] at this
    have := Except.ok.inj this
    subst this
    refine ⟨fun d hd => ⟨F d, hF d hd, fun c => ?_⟩, fun a b c d hn => ?_⟩
    · exact ⟨if_pos ⟨rfl, rfl, hd⟩, if_pos ⟨rfl, rfl, hd⟩⟩
    · exact ⟨if_neg hn, if_neg hn⟩

theorem refBody_value {A : RixsArgs} (hA : A.Valid) {tOpsOut : List (Op ℕ ℂ)} {psis : List (Psi ℂ)} {es : List ℝ}
    (hlen : es.length ≤ psis.length) (hpsis : ∀ psi ∈ psis, IsState A.n psi) {tOpIn : Op ℕ ℂ} (ht : OpInSystem A.n tOpIn)
    {tIn iE : ℕ} (hi : iE < es.length) {x x' : RefRixs × OpResult ℂ}
    (hc : CacheCorrect A.n tOpIn A.slaterWeightMin A.restrictions x.2)
    (h : refRixsBody A tOpsOut psis es tIn tOpIn x iE = .ok x') :
    CacheCorrect A.n tOpIn A.slaterWeightMin A.restrictions x'.2 ∧
    (∀ d (hd : d < A.wIns.length), ∃ r, RixsRowsOf A tOpsOut tOpIn (psis.getD iE []) (es.getD iE 0) A.wIns[d] r ∧
      ∀ c, x'.1.root iE tIn c d = r.1.getD c (x.1.root iE tIn c d) ∧
        x'.1.other iE tIn c d = r.2.getD c (x.1.other iE tIn c d)) ∧
    ∀ a b c d, ¬ (a = iE ∧ b = tIn ∧ d < A.wIns.length) →
      x'.1.root a b c d = x.1.root a b c d ∧ x'.1.other a b c d = x.1.other a b c d := by
  have hi' : iE < psis.length := by omega
  have hpsi := hpsis _ (List.getElem_mem hi')
  obtain ⟨psi1, cache', happ, hc', -⟩ := applyOp_cached_excited ht hpsi hA.weight A.restrictions hc
  unfold refRixsBody at h
  rw [pyGet_ofNat psis iE hi', pyGet_ofNat es iE hi] at h
  simp only [ok_bind, happ, Option.getD_some] at h
  cases hs : rixsSystem A psi1 with
  | error err => rw [hs] at h; cases h
  | ok sys =>
    rw [hs] at h
    simp only [ok_bind] at h
    cases hm : refEnergies A tOpsOut sys es[iE] tIn iE x.1 with
    | error err => rw [hm] at h; cases h
    | ok m =>
      rw [hm] at h
      cases h
      obtain ⟨h1, h2⟩ := refEnergies_value hm
      refine ⟨hc', fun d hd => ?_, h2⟩
      obtain ⟨r, h3, h4⟩ := h1 d hd
      rw [List.getD_eq_getElem _ _ hi', List.getD_eq_getElem _ _ hi]
      exact ⟨r, ⟨psi1, x.2, cache', sys, hc, happ, hs, h3⟩, h4⟩

theorem refOps_value {A : RixsArgs} (hA : A.Valid) {tOpsOut : List (Op ℕ ℂ)} {psis : List (Psi ℂ)} {es : List ℝ}
    (hlen : es.length ≤ psis.length) (hpsis : ∀ psi ∈ psis, IsState A.n psi) {tOpIn : Op ℕ ℂ} (ht : OpInSystem A.n tOpIn)
    {tIn : ℕ} {x x' : RefRixs} (h : refRixsOps A tOpsOut psis es x (tOpIn, tIn) = .ok x') :
    (∀ a < es.length, ∀ d (hd : d < A.wIns.length), ∃ r,
      RixsRowsOf A tOpsOut tOpIn (psis.getD a []) (es.getD a 0) A.wIns[d] r ∧
      ∀ c, x'.root a tIn c d = r.1.getD c (x.root a tIn c d) ∧ x'.other a tIn c d = r.2.getD c (x.other a tIn c d)) ∧
    ∀ a b c d, ¬ (a < es.length ∧ b = tIn ∧ d < A.wIns.length) →
      x'.root a b c d = x.root a b c d ∧ x'.other a b c d = x.other a b c d := by
  unfold refRixsOps at h
  cases hf : (List.range es.length).foldlM (refRixsBody A tOpsOut psis es tIn tOpIn) (x, []) with
  | error err => rw [hf] at h; cases h
  | ok y =>
    rw [hf] at h
    cases h
    have := foldlM_range_inv (fun i (y : RefRixs × OpResult ℂ) =>
      CacheCorrect A.n tOpIn A.slaterWeightMin A.restrictions y.2 ∧
      (∀ a < i, ∀ d (hd : d < A.wIns.length), ∃ r,
        RixsRowsOf A tOpsOut tOpIn (psis.getD a []) (es.getD a 0) A.wIns[d] r ∧
        ∀ c, y.1.root a tIn c d = r.1.getD c (x.root a tIn c d) ∧ y.1.other a tIn c d = r.2.getD c (x.other a tIn c d)) ∧
      ∀ a b c d, ¬ (a < i ∧ b = tIn ∧ d < A.wIns.length) →
        y.1.root a b c d = x.root a b c d ∧ y.1.other a b c d = x.other a b c d) es.length
      ⟨correct_nil .., fun a h => absurd h (by omega), fun _ _ _ _ _ => ⟨rfl, rfl⟩⟩ (by
        rintro i hi y y' ⟨hc, h1, h2⟩ hstep
        obtain ⟨h3, h4, h5⟩ := refBody_value hA hlen hpsis ht hi hc hstep
        refine ⟨h3, fun a ha d hd => ?_, fun a b c d hn => ?_⟩
        · by_cases hai : a = i
          · subst hai
            obtain ⟨r, h6, h7⟩ := h4 d hd
            refine ⟨r, h6, fun c => ?_⟩
            have h8 := h2 a tIn c d (by omega)
            rw [(h7 c).1, (h7 c).2, h8.1, h8.2]
            exact ⟨rfl, rfl⟩
          · obtain ⟨r, h6, h7⟩ := h1 a (by omega) d hd
            refine ⟨r, h6, fun c => ?_⟩
            have h8 := h5 a tIn c d (by tauto)
            rw [h8.1, h8.2]
            exact h7 c
        · have h8 := h5 a b c d (by rintro ⟨rfl, hb, hd⟩; exact hn ⟨by omega, hb, hd⟩)
          have h9 := h2 a b c d (by rintro ⟨ha, hb, hd⟩; exact hn ⟨by omega, hb, hd⟩)
          rw [h8.1, h8.2]
          exact h9) hf
    exact ⟨this.2.1, this.2.2⟩

/-- The entries of the reference map. -/
theorem refRixs_value {A : RixsArgs} (hA : A.Valid) {tOpsIn tOpsOut : List (Op ℕ ℂ)}
    (hin : ∀ op ∈ tOpsIn, OpInSystem A.n op) {psis : List (Psi ℂ)} {es : List ℝ}
    (hlen : es.length ≤ psis.length) (hpsis : ∀ psi ∈ psis, IsState A.n psi) {x : RefRixs}
    (h : refRixs A tOpsIn tOpsOut psis es = .ok x) :
    (∀ a < es.length, ∀ b (hb : b < tOpsIn.length), ∀ d (hd : d < A.wIns.length), ∃ r,
      RixsRowsOf A tOpsOut tOpsIn[b] (psis.getD a []) (es.getD a 0) A.wIns[d] r ∧
      ∀ c, x.root a b c d = r.1.getD c (List.replicate A.wLoss.length 0) ∧
        x.other a b c d = r.2.getD c (List.replicate A.wLoss.length 0)) ∧
    ∀ a b c d, ¬ (a < es.length ∧ b < tOpsIn.length ∧ d < A.wIns.length) →
      x.root a b c d = List.replicate A.wLoss.length 0 ∧ x.other a b c d = List.replicate A.wLoss.length 0 := by
  have := foldlM_zipIdx_inv (fun i (y : RefRixs) =>
      (∀ a < es.length, ∀ b (hb : b < tOpsIn.length), b < i → ∀ d (hd : d < A.wIns.length), ∃ r,
        RixsRowsOf A tOpsOut tOpsIn[b] (psis.getD a []) (es.getD a 0) A.wIns[d] r ∧
        ∀ c, y.root a b c d = r.1.getD c (List.replicate A.wLoss.length 0) ∧
          y.other a b c d = r.2.getD c (List.replicate A.wLoss.length 0)) ∧
      ∀ a b c d, ¬ (a < es.length ∧ b < i ∧ d < A.wIns.length) →
        y.root a b c d = List.replicate A.wLoss.length 0 ∧ y.other a b c d = List.replicate A.wLoss.length 0)
    tOpsIn 0 _ x ⟨fun a _ b _ h => absurd h (by omega), fun _ _ _ _ _ => ⟨rfl, rfl⟩⟩ (by
      rintro i hi y y' ⟨h1, h2⟩ hstep
      obtain ⟨h4, h5⟩ := refOps_value hA hlen hpsis (hin _ (List.getElem_mem hi)) hstep
      refine ⟨fun a ha b hb hbi d hd => ?_, fun a b c d hn => ?_⟩
      · by_cases hbi' : b = 0 + i
        · have hbi'' : b = i := by omega
          subst hbi''
          obtain ⟨r, h6, h7⟩ := h4 a ha d hd
          refine ⟨r, h6, fun c => ?_⟩
          have h7' := h7 c
          have h8 := h2 a b c d (by omega)
          rw [Nat.zero_add] at h7'
          rw [h7'.1, h7'.2, h8.1, h8.2]
          exact ⟨rfl, rfl⟩
        · obtain ⟨r, h6, h7⟩ := h1 a ha b hb (by omega) d hd
          refine ⟨r, h6, fun c => ?_⟩
          have h8 := h5 a b c d (by tauto)
          rw [h8.1, h8.2]
          exact h7 c
      · have h8 := h5 a b c d (by rintro ⟨ha, rfl, hd⟩; exact hn ⟨ha, by omega, hd⟩)
        have h9 := h2 a b c d (by rintro ⟨ha, hb, hd⟩; exact hn ⟨ha, by omega, hd⟩)
        rw [h8.1, h8.2]
        exact h9) h
  rw [Nat.zero_add] at this
  exact ⟨fun a ha b hb => this.1 a ha b hb hb, this.2⟩

/-- The rows of a point, with the row of the first out-going operator. -/
theorem rixsPoint_rows {A : RixsArgs} {op0 : Op ℕ ℂ} {rest : List (Op ℕ ℂ)} {sys : RixsSys} {e w : ℝ}
    {r : List (List ℂ) × List (List ℂ)} (h : rixsPoint A (op0 :: rest) sys e w = .ok r) :
    ∃ psi2 g, rixsIntermediate A sys.1 sys.2.1 sys.2.2 e w = .ok psi2 ∧
      rixsRow A e (rixsOutState A op0 psi2) = .ok g ∧ r.1 = List.replicate (op0 :: rest).length g ∧
      r.2 = List.replicate (op0 :: rest).length (rixsOtherRow A e (rixsOutState A op0 psi2)) := by
  unfold rixsPoint at h
  cases h1 : rixsIntermediate A sys.1 sys.2.1 sys.2.2 e w with
  | error err => rw [h1] at h; cases h
  | ok psi2 =>
    rw [h1] at h
    simp only [ok_bind, rixsRows] at h
    cases h2 : rixsRow A e (rixsOutState A op0 psi2) with
    | error err => rw [h2] at h; cases h
    | ok g =>
      rw [h2] at h
      cases h
      exact ⟨psi2, g, rfl, h2, rfl, rfl⟩

end

end Verif
