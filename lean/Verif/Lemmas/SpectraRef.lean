/-
The result of getSpectra spectrum by spectrum.
-/
import Verif.Lemmas.SpectraRuns

namespace Verif

open Finset Mpi Psr Spec Matrix

noncomputable section

/-- Spectra with the block of operator `t`, eigenstates `s, …, s + k - 1`, replaced. -/
def Spectra.block (gs : Spectra) (t s k : ℕ) (f : ℕ → List ℂ) : Spectra :=
  fun a b => if b = t ∧ s ≤ a ∧ a < s + k then f (a - s) else gs a b

theorem Spectra.block_zero (gs : Spectra) (t s : ℕ) (f : ℕ → List ℂ) : gs.block t s 0 f = gs := by
  funext a b
  unfold Spectra.block
  rw [if_neg (by omega)]

theorem Spectra.block_cons (gs : Spectra) (t s k : ℕ) (f : ℕ → List ℂ) :
    (gs.put s t (f 0)).block t (s + 1) k (fun j => f (j + 1)) = gs.block t s (k + 1) f := by
  funext a b
  unfold Spectra.block Spectra.put
  by_cases hb : b = t
  · by_cases ha : a = s
    · subst ha hb
      rw [if_neg (by omega), if_pos ⟨rfl, rfl⟩, if_pos (by omega), Nat.sub_self]
    · by_cases h1 : s + 1 ≤ a ∧ a < s + 1 + k
      · rw [if_pos ⟨hb, h1⟩, if_pos (by omega)]
        show f (a - (s + 1) + 1) = f (a - s)
        congr 1; omega
      · rw [if_neg (fun h => h1 h.2), if_neg (fun h => ha h.1), if_neg (by omega)]
  · rw [if_neg (fun h => hb h.1), if_neg (fun h => hb h.2), if_neg (fun h => hb h.1)]

theorem refBody_fold {A : SpectraArgs} (hA : A.Valid) {psis : List (Psi ℂ)} {es : List ℝ}
    (hpsis : ∀ psi ∈ psis, IsState A.n psi) {tOp : Op ℕ ℂ} (ht : OpInSystem A.n tOp) (t : ℕ) :
    ∀ (k s : ℕ), s + k ≤ es.length → s + k ≤ psis.length → ∀ (x : RefSpectra) (cache : OpResult ℂ),
    CacheCorrect A.n tOp A.slaterWeightMin A.restrictions cache →
    ∃ res cache', applyHistory A.n tOp A.slaterWeightMin A.restrictions ((psis.drop s).take k) cache = .ok (res, cache') ∧
      res.length = k ∧ (∀ p ∈ res, Excited A.n A.slaterWeightMin A.restrictions p) ∧
      (∀ f : ℕ → List ℂ, (∀ j < k, spectrumOf A (res.getD j []) (es.getD (s + j) 0) = .ok (f j)) →
        (List.range' s k).foldlM (refBody A psis es t tOp) (x, cache)
          = .ok (⟨x.root.block t s k f,
              x.other.block t s k fun j => otherSpectrum A (res.getD j []) (es.getD (s + j) 0)⟩, cache')) ∧
      ((∃ j < k, ∃ err, spectrumOf A (res.getD j []) (es.getD (s + j) 0) = .error err) →
        ∃ err, (List.range' s k).foldlM (refBody A psis es t tOp) (x, cache) = .error err) := by
  intro k
  induction k with
  | zero =>
    intro s _ _ x cache _
    refine ⟨[], cache, by simp [applyHistory], rfl, by simp, ?_, ?_⟩
    · intro f _
      simp only [Spectra.block_zero]
      rfl
    · rintro ⟨j, hj, _⟩; omega
  | succ k ih =>
    intro s hes hpl x cache hc
    have hs' : s < psis.length := by omega
    have hes' : s < es.length := by omega
    have hpsi := hpsis _ (List.getElem_mem hs')
    obtain ⟨psiR, c1, happ, hc1, hex⟩ := applyOp_cached_excited ht hpsi hA.weight A.restrictions hc
    have hdrop : (psis.drop s).take (k + 1) = psis[s] :: (psis.drop (s + 1)).take k := by
      rw [List.drop_eq_getElem_cons hs', List.take_succ_cons]
    have hbody : ∀ x : RefSpectra, refBody A psis es t tOp (x, cache) s = (do
        let g ← spectrumOf A psiR es[s]
        return (⟨x.root.put s t g, x.other.put s t (otherSpectrum A psiR es[s])⟩, c1)) := by
      intro x
      unfold refBody
      rw [pyGet_ofNat psis s hs', pyGet_ofNat es s hes']
      simp only [ok_bind, happ, Option.getD_some]
    have hesD : es.getD (s + 0) 0 = es[s] := by simp [hes']
    obtain ⟨res0, c20, h0, hl0, he0, -, -⟩ := ih (s + 1) (by omega) (by omega) x c1 hc1
    refine ⟨psiR :: res0, c20, ?_, by simp [hl0], ?_, ?_, ?_⟩
    · rw [hdrop, applyHistory, happ]
      simp only [ok_bind, Option.getD_some, h0, pure_ok]
    · intro p hp
      rcases List.mem_cons.1 hp with rfl | hp
      · exact hex
      · exact he0 p hp
    · intro f hf
      rw [List.range'_succ, List.foldlM_cons, hbody]
      have hf0 := hf 0 (by omega)
      rw [hesD, List.getD_cons_zero] at hf0
      rw [hf0]
      simp only [ok_bind, pure_ok]
      obtain ⟨res, c2, h1, -, -, hok, -⟩ := ih (s + 1) (by omega) (by omega)
        ⟨x.root.put s t (f 0), x.other.put s t (otherSpectrum A psiR es[s])⟩ c1 hc1
      rw [h0] at h1
      cases h1
      rw [hok (fun j => f (j + 1)) (fun j hj => by
        have := hf (j + 1) (by omega)
        rw [List.getD_cons_succ] at this
        rw [show s + 1 + j = s + (j + 1) by omega]
        exact this)]
      rw [Spectra.block_cons]
      congr 3
      rw [← Spectra.block_cons]
      simp only [hesD, List.getD_cons_zero, List.getD_cons_succ]
      congr 1
      funext j
      rw [show s + 1 + j = s + (j + 1) by omega]
    · rintro ⟨j, hj, err, he⟩
      rw [List.range'_succ, List.foldlM_cons, hbody]
      cases hg : spectrumOf A psiR es[s] with
      | error err => exact ⟨err, rfl⟩
      | ok g =>
        cases j with
        | zero => rw [hesD, List.getD_cons_zero, hg] at he; cases he
        | succ j =>
          simp only [ok_bind, pure_ok]
          obtain ⟨res, c2, h1, -, -, -, herr⟩ := ih (s + 1) (by omega) (by omega)
            ⟨x.root.put s t g, x.other.put s t (otherSpectrum A psiR es[s])⟩ c1 hc1
          rw [h0] at h1
          cases h1
          rw [List.getD_cons_succ] at he
          exact herr ⟨j, by omega, err, by rw [show s + 1 + j = s + (j + 1) by omega]; exact he⟩

/-- The excited states `T_t psi_i` that mode `H_build` uses. -/
def hBuildStates (A : SpectraArgs) (tOps : List (Op ℕ ℂ)) (psis : List (Psi ℂ)) (k t i : ℕ) : Psi ℂ :=
  match applyHistory A.n (tOps.getD t []) A.slaterWeightMin A.restrictions (psis.take k) [] with
  | .ok (res, _) => res.getD i []
  | .error _ => []

theorem refOps_fold {A : SpectraArgs} (hA : A.Valid) {psis : List (Psi ℂ)} {es : List ℝ}
    (hlen : es.length ≤ psis.length) (hpsis : ∀ psi ∈ psis, IsState A.n psi) (all : List (Op ℕ ℂ)) :
    ∀ (tOps : List (Op ℕ ℂ)) (m : ℕ), (∀ tOp ∈ tOps, OpInSystem A.n tOp) → all.drop m = tOps →
    ∀ x : RefSpectra,
      (∀ f : ℕ → ℕ → List ℂ, (∀ t i, m ≤ t → t < all.length → i < es.length →
          spectrumOf A (hBuildStates A all psis es.length t i) (es.getD i 0) = .ok (f i t)) →
        ∃ y, (tOps.zipIdx m).foldlM (refOps A psis es) x = .ok y ∧
          (∀ t i, m ≤ t → t < all.length → i < es.length → y.root i t = f i t ∧
            y.other i t = otherSpectrum A (hBuildStates A all psis es.length t i) (es.getD i 0)) ∧
          (∀ t i, ¬ (m ≤ t ∧ t < all.length ∧ i < es.length) → y.root i t = x.root i t ∧ y.other i t = x.other i t)) ∧
      ((∃ t i, m ≤ t ∧ t < all.length ∧ i < es.length ∧
          ∃ err, spectrumOf A (hBuildStates A all psis es.length t i) (es.getD i 0) = .error err) →
        ∃ err, (tOps.zipIdx m).foldlM (refOps A psis es) x = .error err) := by
  intro tOps
  induction tOps with
  | nil =>
    intro m _ hdrop x
    have hm : all.length ≤ m := by
      by_contra hc
      have := congrArg List.length hdrop
      simp at this
      omega
    refine ⟨fun f _ => ⟨x, rfl, fun t i h1 h2 => by omega, fun _ _ _ => ⟨rfl, rfl⟩⟩, ?_⟩
    rintro ⟨t, i, h1, h2, _⟩; omega
  | cons tOp tOps ih =>
    intro m hin hdrop x
    have hm : m < all.length := by
      by_contra hc
      rw [List.drop_eq_nil_of_le (by omega)] at hdrop
      cases hdrop
    have hsplit := List.drop_eq_getElem_cons hm
    rw [hdrop] at hsplit
    injection hsplit with h1 h2
    have hget : all.getD m [] = tOp := by rw [List.getD_eq_getElem _ _ hm, h1]
    obtain ⟨res, c', happ, hl, -, hok, herr⟩ := refBody_fold hA (es := es) hpsis (hin tOp (by simp)) m es.length 0
      (by omega) (by omega) x [] (correct_nil ..)
    have hstates : ∀ i, hBuildStates A all psis es.length m i = res.getD i [] := by
      intro i
      unfold hBuildStates
      rw [hget]
      rw [List.drop_zero] at happ
      rw [happ]
    have hrange : List.range es.length = List.range' 0 es.length := List.range_eq_range'
    have hstep : ∀ x : RefSpectra, (List.zipIdx (tOp :: tOps) m).foldlM (refOps A psis es) x
        = (refOps A psis es x (tOp, m)).bind fun y => (List.zipIdx tOps (m + 1)).foldlM (refOps A psis es) y := by
      intro x; rfl
    obtain ⟨-, ihe⟩ := ih (m + 1) (fun q hq => hin q (by simp [hq])) h2.symm x
    refine ⟨fun f hf => ?_, ?_⟩
    · have h3 := hok (fun j => f j m) (fun j hj => by
        rw [← hstates, Nat.zero_add]; exact hf m j (le_refl _) hm hj)
      have h4 : refOps A psis es x (tOp, m) = .ok ⟨x.root.block m 0 es.length (fun j => f j m),
          x.other.block m 0 es.length fun j => otherSpectrum A (res.getD j []) (es.getD (0 + j) 0)⟩ := by
        unfold refOps
        simp only [hrange, h3, ok_bind, pure_ok]
      obtain ⟨ihok, -⟩ := ih (m + 1) (fun q hq => hin q (by simp [hq])) h2.symm
        ⟨x.root.block m 0 es.length (fun j => f j m),
          x.other.block m 0 es.length fun j => otherSpectrum A (res.getD j []) (es.getD (0 + j) 0)⟩
      obtain ⟨y, hy, hin', hout⟩ := ihok f fun t i a b c => hf t i (by omega) b c
      refine ⟨y, by rw [hstep, h4]; exact hy, fun t i a b c => ?_, fun t i hn => ?_⟩
      · by_cases htm : t = m
        · subst htm
          obtain ⟨e1, e2⟩ := hout t i (by omega)
          rw [e1, e2, hstates]
          unfold Spectra.block
          simp [c]
        · exact hin' t i (by omega) b c
      · obtain ⟨e1, e2⟩ := hout t i (by omega)
        rw [e1, e2]
        unfold Spectra.block
        simp only
        rw [if_neg (by omega), if_neg (by omega)]
        exact ⟨rfl, rfl⟩
    · rintro ⟨t, i, a, b, c, err, he⟩
      rw [hstep]
      by_cases hm' : ∃ j < es.length, ∃ err, spectrumOf A (res.getD j []) (es.getD (0 + j) 0) = .error err
      · obtain ⟨err', he'⟩ := herr hm'
        refine ⟨err', ?_⟩
        unfold refOps
        simp only [hrange, he']
        rfl
      · have hall : ∀ j < es.length, ∃ g, spectrumOf A (res.getD j []) (es.getD (0 + j) 0) = .ok g := by
          intro j hj
          cases hg : spectrumOf A (res.getD j []) (es.getD (0 + j) 0) with
          | ok g => exact ⟨g, rfl⟩
          | error err => exact absurd ⟨j, hj, err, hg⟩ hm'
        choose! f hf using hall
        have h3 := hok f hf
        have h4 : refOps A psis es x (tOp, m) = .ok ⟨x.root.block m 0 es.length f,
            x.other.block m 0 es.length fun j => otherSpectrum A (res.getD j []) (es.getD (0 + j) 0)⟩ := by
          unfold refOps
          simp only [hrange, h3, ok_bind, pure_ok]
        rw [h4]
        have htm : t ≠ m := by
          rintro rfl
          rw [hstates] at he
          exact hm' ⟨i, c, err, by rw [Nat.zero_add]; exact he⟩
        obtain ⟨-, ihe⟩ := ih (m + 1) (fun q hq => hin q (by simp [hq])) h2.symm
          ⟨x.root.block m 0 es.length f,
            x.other.block m 0 es.length fun j => otherSpectrum A (res.getD j []) (es.getD (0 + j) 0)⟩
        exact ihe ⟨t, i, by omega, b, c, err, he⟩

/-- The result of mode `H_build` spectrum by spectrum. -/
theorem refHBuild_spec {A : SpectraArgs} (hA : A.Valid) {psis : List (Psi ℂ)} {es : List ℝ}
    (hlen : es.length ≤ psis.length) (hpsis : ∀ psi ∈ psis, IsState A.n psi) {tOps : List (Op ℕ ℂ)}
    (htOps : ∀ tOp ∈ tOps, OpInSystem A.n tOp) :
    (∀ x, refHBuild A tOps psis es = .ok x →
      (∀ t i, t < tOps.length → i < es.length →
        spectrumOf A (hBuildStates A tOps psis es.length t i) (es.getD i 0) = .ok (x.root i t) ∧
        x.other i t = otherSpectrum A (hBuildStates A tOps psis es.length t i) (es.getD i 0)) ∧
      ∀ t i, ¬ (t < tOps.length ∧ i < es.length) →
        x.root i t = List.replicate A.w.length 0 ∧ x.other i t = List.replicate A.w.length 0) ∧
    ((∃ err, refHBuild A tOps psis es = .error err) → ∃ t i, t < tOps.length ∧ i < es.length ∧
      ∃ err, spectrumOf A (hBuildStates A tOps psis es.length t i) (es.getD i 0) = .error err) := by
  obtain ⟨hok, herr⟩ := refOps_fold hA hlen hpsis tOps tOps 0 htOps rfl
    ⟨fun _ _ => List.replicate A.w.length 0, fun _ _ => List.replicate A.w.length 0⟩
  by_cases h : ∃ t i, 0 ≤ t ∧ t < tOps.length ∧ i < es.length ∧
      ∃ err, spectrumOf A (hBuildStates A tOps psis es.length t i) (es.getD i 0) = .error err
  · refine ⟨fun x hx => ?_, fun _ => ?_⟩
    · obtain ⟨err, he⟩ := herr h
      unfold refHBuild at hx
      rw [he] at hx
      cases hx
    · obtain ⟨t, i, -, h1, h2, h3⟩ := h
      exact ⟨t, i, h1, h2, h3⟩
  · have hall : ∀ i t, ∃ g, t < tOps.length → i < es.length →
        spectrumOf A (hBuildStates A tOps psis es.length t i) (es.getD i 0) = .ok g := by
      intro i t
      cases hg : spectrumOf A (hBuildStates A tOps psis es.length t i) (es.getD i 0) with
      | ok g => exact ⟨g, fun _ _ => rfl⟩
      | error err => exact ⟨[], fun a b => absurd ⟨t, i, Nat.zero_le _, a, b, err, hg⟩ h⟩
    choose f hf using hall
    obtain ⟨y, hy, h1, h2⟩ := hok f fun t i _ b c => hf i t b c
    refine ⟨fun x hx => ?_, ?_⟩
    · unfold refHBuild at hx
      rw [hy] at hx
      cases hx
      refine ⟨fun t i a b => ?_, fun t i hn => h2 t i (by omega)⟩
      obtain ⟨e1, e2⟩ := h1 t i (Nat.zero_le _) a b
      rw [e1]
      exact ⟨hf i t a b, e2⟩
    · rintro ⟨err, he⟩
      unfold refHBuild at he
      rw [hy] at he
      cases he

end

end Verif
