/-
C73: what the checks of the command line accept, and which accepted arguments pass the setup of
`main`.
-/
import Verif.Lemmas.CommandLine
import Verif.Lemmas.MainExample

namespace Verif

open Spec Mpi

/-- C73.  The checks pass exactly for arguments of the documented form; the script for crystal
field parameters moreover wants a p shell and a d shell with ten valence and no or ten conduction
bath states.  Otherwise an `AssertionError` is raised, or an `IndexError` if the crystal field
script gets fewer than two shells. -/
theorem C73_checks (A : MainArgs) :
    (scriptChecks A = .ok () ↔ DocumentedForm A ∧ ∀ P, A.h0 = .crystalField P → CrystalFieldForm A) ∧
    ∀ e, scriptChecks A = .error e →
      e = .assertionError ∨ (e = .indexError ∧ A.ls.length < 2 ∧ ∃ P, A.h0 = .crystalField P) := by
  unfold scriptChecks
  cases hh : A.h0 with
  | pickle h0 =>
    refine ⟨?_, fun e he => Or.inl (sanityChecks_err he)⟩
    rw [sanityChecks_ok]
    simp
  | crystalField P =>
    refine ⟨?_, fun e he => ?_⟩
    · dsimp only
      rw [unit_bind_ok, sanityChecks_ok, cfChecks_ok]
      simp
    · cases hs : sanityChecks A with
      | error e' =>
        dsimp only at he
        rw [hs] at he
        cases he
        exact Or.inl (sanityChecks_err hs)
      | ok u =>
        dsimp only at he
        rw [hs] at he
        have he : cfChecks A = .error e := he
        rcases cfChecks_err he with h | h
        · exact Or.inl h
        · refine Or.inr ⟨h, ?_, P, rfl⟩
          by_contra hlen
          have hD := (sanityChecks_ok A).1 hs
          have n1 := hD.nBaths
          have n2 := hD.nValBaths
          have e0 := pyGet_ofNat A.ls 0 (by omega)
          have e1 := pyGet_ofNat A.ls 1 (by omega)
          have e2 := pyGet_ofNat A.nBaths 1 (by omega)
          have e3 := pyGet_ofNat A.nValBaths 1 (by omega)
          simp only [Nat.cast_zero, Nat.cast_one] at e0 e1 e2 e3
          unfold cfChecks at he
          rw [e0, e1, e2, e3] at he
          subst h
          have he : (do pyAssert (A.ls[0] = 1); do pyAssert (A.ls[1] = 2); do
              pyAssert (A.nBaths[1] = 10 ∨ A.nBaths[1] = 20); pyAssert (A.nValBaths[1] = 10)) = .error .indexError := he
          rcases unit_bind_err he with h | he
          · cases pyAssert_err h
          rcases unit_bind_err he with h | he
          · cases pyAssert_err h
          rcases unit_bind_err he with h | h <;> cases pyAssert_err h

/-- C73.  With refused arguments every rank raises at once, without any message; with accepted
arguments the script is `main`. -/
theorem C73_script (L : MainLib) (o : Options) (h0 : H0Input) (radial : List (ℝ × ℝ))
    (ord : ℕ → ℕ → ℕ → SetOrders) (ordRixs : List ℕ → SetOrders) (ranks : ℕ) :
    (scriptChecks (o.args h0 radial) = .ok () →
      ∀ rank, scriptRank L o h0 radial ord ordRixs rank ranks = mainRank L (o.args h0 radial) ord ordRixs rank ranks) ∧
    (∀ e, scriptChecks (o.args h0 radial) = .error e →
      ∀ rank, scriptRank L o h0 radial ord ordRixs rank ranks = .fail e) := by
  refine ⟨fun h rank => ?_, fun e h rank => ?_⟩ <;> unfold scriptRank <;> rw [h] <;> rfl

section
variable {L : MainLib} {A : MainArgs} {b : ℕ → ℕ} {P : BasisParams} {hx hy hz : ℝ} {h0 : Op Label ℂ}

/-- C73.  For a p and a d shell, the setup of `main` succeeds exactly if the nominal p occupation is
six, the number of valence bath states of the d shell is not negative, all allowed occupations are
possible, and the non-interacting operator is Hermitian and only refers to the system. -/
theorem C73_setup_iff (hg : GauntSymmetric L.gaunt) (hD : Documented A b P hx hy hz h0) :
    (∃ s, mainSetup L A = .ok s) ↔
      P.n0 1 = 6 ∧ 0 ≤ P.val 2 ∧ AllFit P 1 (b 1) ∧ AllFit P 2 (b 2) ∧
      (∀ q, strength h0 q ≠ 0 → ∀ x ∈ q, InSystem (pdSystem b) x.1) ∧ HermitianStrengths h0 := by
  have hsys : GoodSystem (pdSystem b) := goodSystem_intKeys (nBaths := [(1, b 1), (2, b 2)]) (pd_nodup b)
  have m1 : 1 ∈ allAngulars (pdSystem b) := by
    simp [pdSystem, allAngulars, angulars]
  have m2 : 2 ∈ allAngulars (pdSystem b) := by
    simp [pdSystem, allAngulars, angulars]
  have hdc := dc_iff (n3d := P.n0 2) (n2p := P.n0 1) (c := A.chargeTransferCorrection) hD.Fdd.ge hD.Fpd.ge hD.Gpd.ge
  constructor
  · rintro ⟨s, hs⟩
    obtain ⟨-, e1, e2, hn, e4⟩ := setup_documented hD hs
    have hfit := getBasis_fits (pd_nodup b) (pd_provides b P) e4
    have h6 : P.n0 1 = 6 := by
      by_contra hne
      have hd := hdc.2 hne
      unfold getHamiltonianOperator at e2
      simp only [Dict.get, show Dict.get? [((1 : ℕ), P.n0 1), (2, P.n0 2)] 2 = some (P.n0 2) from rfl,
        show Dict.get? [((1 : ℕ), P.n0 1), (2, P.n0 2)] 1 = some (P.n0 1) from rfl, hd, bind, Except.bind] at e2
      cases e2
    obtain ⟨d, p, hd⟩ := hdc.1 h6
    have hacc := C54_accepts A.Fdd A.Fpp A.Fpd A.Gpd A.xi2p A.xi3d A.chargeTransferCorrection hx hy hz hg hsys m1 m2
      (n0imps := [(1, P.n0 1), (2, P.n0 2)]) (P.n0 2) (P.n0 1) rfl rfl d p hd hn
    refine ⟨h6, mainRestrictions_nonneg (pd_nodup b) (by simp : (2, b 2) ∈ _) rfl e1,
      hfit (1, b 1) (by simp), hfit (2, b 2) (by simp), ?_⟩
    have hin : ∀ q, strength h0 q ≠ 0 → ∀ x ∈ q, InSystem (pdSystem b) x.1 := by
      intro q hq x hxq
      by_contra hns
      rw [hacc.2.2 ⟨q, hq, x, hxq, hns⟩] at e2
      cases e2
    refine ⟨hin, ?_⟩
    by_contra hnh
    rw [hacc.2.1 hin hnh] at e2
    cases e2
  · rintro ⟨h6, hv0, f1, f2, hin, hh⟩
    obtain ⟨d, p, hd⟩ := hdc.1 h6
    obtain ⟨hOp, hop⟩ := (C54_accepts A.Fdd A.Fpp A.Fpd A.Gpd A.xi2p A.xi3d A.chargeTransferCorrection hx hy hz hg hsys m1 m2
      (n0imps := [(1, P.n0 1), (2, P.n0 2)]) (P.n0 2) (P.n0 1) rfl rfl d p hd (documented_nodup hD)).1 hin hh
    obtain ⟨r, hr⟩ := mainRestrictions_ok (pd_nodup b) (pd_provides b P) (b 2) (by simp) hv0 f2.1
    have hb := getBasis_ok (pd_nodup b) (pd_provides b P) (by
      intro p hp
      simp only [List.mem_cons, List.not_mem_nil, or_false] at hp
      rcases hp with rfl | rfl
      · exact f1
      · exact f2)
    rw [setup_parts hD, hr, hop, hb]
    exact ⟨_, rfl⟩

/-- C73.  Whatever else the arguments are: if the nominal p occupation is not six, `main` raises,
although the checks of the command line accept any occupation from zero to six. -/
theorem C73_open_core_rejected (hD : Documented A b P hx hy hz h0) (h6 : P.n0 1 ≠ 6) :
    ∃ e, mainSetup L A = .error e := by
  rw [setup_parts hD]
  cases hr : mainRestrictions [(1, b 1), (2, b 2)] [(1, P.val 1), (2, P.val 2)] [(1, P.n0 1), (2, P.n0 2)]
        [(1, P.tol 1), (2, P.tol 2)] [(1, P.dnVal 1), (2, P.dnVal 2)] [(1, P.dnCon 1), (2, P.dnCon 2)] with
  | error e => exact ⟨e, rfl⟩
  | ok r =>
    have hd := (dc_iff (n3d := P.n0 2) (n2p := P.n0 1) (c := A.chargeTransferCorrection) hD.Fdd.ge hD.Fpd.ge hD.Gpd.ge).2 h6
    refine ⟨.valueError, ?_⟩
    simp only [ok_bind]
    unfold getHamiltonianOperator
    simp only [Dict.get, show Dict.get? [((1 : ℕ), P.n0 1), (2, P.n0 2)] 2 = some (P.n0 2) from rfl,
      show Dict.get? [((1 : ℕ), P.n0 1), (2, P.n0 2)] 1 = some (P.n0 1) from rfl, hd, bind, Except.bind]

end

theorem zipDict_short {V : Type} (xs : List V) (h : xs.length < 2) : Dict.get? (zipDict [1, 2] xs) 2 = none := by
  rcases xs with _ | ⟨x, _ | ⟨y, xs⟩⟩
  · rfl
  · simp [zipDict, Dict.update, Dict.set, Dict.get?]
  · simp at h

/-- C73.  The lengths of the other four lists are not checked: if one of them has no entry for the
d shell, the checks may pass, and `main` always raises. -/
theorem C73_short_list_rejected (L : MainLib) (A : MainArgs) (hls : A.ls = [1, 2])
    (h : ∃ xs ∈ [A.n0imps, A.dnTols, A.dnValBaths, A.dnConBaths], xs.length < 2) :
    ∃ e, mainSetup L A = .error e := by
  cases hs : mainSetup L A with
  | error e => exact ⟨e, rfl⟩
  | ok s =>
    exfalso
    unfold mainSetup at hs
    obtain ⟨r, hr, -⟩ := bind_ok hs
    have := mainRestrictions_lists hr
    obtain ⟨xs, hxs, hlen⟩ := h
    have hn := zipDict_short xs hlen
    rw [hls] at this
    simp only [List.mem_cons, List.not_mem_nil, or_false] at hxs this
    have : (Dict.get? (zipDict [1, 2] xs) 2).isSome := by
      rcases hxs with rfl | rfl | rfl | rfl <;> apply this <;> simp
    rw [hn] at this
    cases this

/-- The occupation parameters of two shells. -/
def pdParams (val n0 tol dnVal dnCon : ℤ × ℤ) : BasisParams where
  val l := if l = 1 then val.1 else val.2
  dnVal l := if l = 1 then dnVal.1 else dnVal.2
  dnCon l := if l = 1 then dnCon.1 else dnCon.2
  tol l := if l = 1 then tol.1 else tol.2
  n0 l := if l = 1 then n0.1 else n0.2

/-- C73.  The crystal field script.  If the checks pass and there are two shells with all their
parameters, the setup succeeds for every file of crystal field parameters exactly if the nominal p
occupation is six and all allowed occupations are possible. -/
theorem C73_crystal_field (L : MainLib) (hg : GauntSymmetric L.gaunt) (A : MainArgs) (params : Dict String ℝ)
    (hcf : A.h0 = .crystalField params) (hc : scriptChecks A = .ok ())
    (hls : A.ls.length = 2) (n0 tol dnVal dnCon : ℤ × ℤ) (hn0 : A.n0imps = [n0.1, n0.2])
    (htol : A.dnTols = [tol.1, tol.2]) (hdv : A.dnValBaths = [dnVal.1, dnVal.2])
    (hdc : A.dnConBaths = [dnCon.1, dnCon.2]) :
    ∃ nb1 nb2 v1, A.nBaths = [nb1, nb2] ∧ A.nValBaths = [v1, 10] ∧
      ((∃ s, mainSetup L A = .ok s) ↔
        n0.1 = 6 ∧ AllFit (pdParams (v1, 10) n0 tol dnVal dnCon) 1 nb1 ∧
          AllFit (pdParams (v1, 10) n0 tol dnVal dnCon) 2 nb2) := by
  obtain ⟨hF, hC⟩ := (C73_checks A).1.1 hc
  obtain ⟨hp, hd, hb, hv⟩ := hC params hcf
  have hl : A.ls = [1, 2] := by
    obtain ⟨x, y, hA⟩ := List.length_eq_two.1 hls
    rw [hA] at hp hd
    cases hp
    cases hd
    exact hA
  have hlen := hF.nBaths
  have hlenv := hF.nValBaths
  rw [hl] at hlen hlenv
  obtain ⟨nb1, nb2, hnb⟩ : ∃ nb1 nb2, A.nBaths = [nb1, nb2] := List.length_eq_two.1 hlen
  obtain ⟨v1, v2, hnv⟩ : ∃ v1 v2, A.nValBaths = [v1, v2] := List.length_eq_two.1 hlenv
  obtain ⟨hx, hy, hz, hf⟩ : ∃ hx hy hz, A.hField = [hx, hy, hz] :=
    List.length_eq_three.1 hF.hField
  have hv2 : v2 = 10 := by rw [hnv] at hv; simpa using hv
  subst hv2
  have hnb2 : nb2 = 10 ∨ nb2 = 20 := by rw [hnb] at hb; simpa using hb
  obtain ⟨h0, -, -, -, he, -, -, -, -⟩ := C53_meaning (nBaths := [(1, nb1), (2, nb2)]) (nValBaths := [(1, v1), (2, 10)])
    (basis := "spherical") (readH0CFFile params) nb2 10 rfl rfl (Or.inl rfl)
  let b : ℕ → ℕ := fun l => if l = 1 then nb1 else nb2
  have hD : Documented A b (pdParams (v1, 10) n0 tol dnVal dnCon) hx hy hz h0 :=
    { ls := hl, nBaths := hnb, nValBaths := hnv, n0imps := hn0, dnTols := htol, dnValBaths := hdv, dnConBaths := hdc
      hField := hf, Fdd := hF.Fdd, Fpp := hF.Fpp, Fpd := hF.Fpd, Gpd := hF.Gpd, h0 := Or.inr ⟨params, hcf, he⟩ }
  refine ⟨nb1, nb2, v1, hnb, hnv, ?_⟩
  rw [C73_setup_iff hg hD]
  have hsub : n0.1 = 6 → (∀ q, strength h0 q ≠ 0 → ∀ x ∈ q, InSystem (pdSystem b) x.1) ∧ HermitianStrengths h0 := by
    intro h6
    obtain ⟨d, p, hdc⟩ := (dc_iff (n3d := n0.2) (n2p := n0.1) (c := A.chargeTransferCorrection) hF.Fdd.ge hF.Fpd.ge hF.Gpd.ge).1 h6
    obtain ⟨hOp, hop⟩ := C56_assembles A.Fdd A.Fpp A.Fpd A.Gpd A.xi2p A.xi3d A.chargeTransferCorrection hx hy hz params
      (basis := "spherical") hg (nBaths := [(1, nb1), (2, nb2)]) (nValBaths := [(1, v1), (2, 10)])
      (n0imps := [(1, n0.1), (2, n0.2)]) (pd_nodup b) nb1 nb2 (by simp) (by simp) rfl (by omega) n0.2 n0.1 rfl rfl d p hdc
      (Or.inl rfl)
    have hacc := C54_accepts A.Fdd A.Fpp A.Fpd A.Gpd A.xi2p A.xi3d A.chargeTransferCorrection hx hy hz hg
      (goodSystem_intKeys (nBaths := [(1, b 1), (2, b 2)]) (pd_nodup b)) (by simp [allAngulars, angulars, intKeys])
      (by simp [allAngulars, angulars, intKeys])
      (n0imps := [(1, n0.1), (2, n0.2)]) n0.2 n0.1 rfl rfl d p hdc (documented_nodup hD)
    unfold getHamiltonianOperatorUsingCF at hop
    rw [he] at hop
    have hin : ∀ q, strength h0 q ≠ 0 → ∀ x ∈ q, InSystem (pdSystem b) x.1 := by
      intro q hq x hxq
      by_contra hns
      have hop : getHamiltonianOperator L.gaunt (intKeys [(1, b 1), (2, b 2)]) A.Fdd A.Fpp A.Fpd A.Gpd A.xi2p A.xi3d
        [(1, n0.1), (2, n0.2)] A.chargeTransferCorrection hx hy hz h0 = .ok hOp := hop
      rw [hacc.2.2 ⟨q, hq, x, hxq, hns⟩] at hop
      cases hop
    refine ⟨hin, ?_⟩
    by_contra hnh
    have hop : getHamiltonianOperator L.gaunt (intKeys [(1, b 1), (2, b 2)]) A.Fdd A.Fpp A.Fpd A.Gpd A.xi2p A.xi3d
      [(1, n0.1), (2, n0.2)] A.chargeTransferCorrection hx hy hz h0 = .ok hOp := hop
    rw [hacc.2.1 hin hnh] at hop
    cases hop
  constructor
  · rintro ⟨h6, -, f1, f2, -, -⟩
    exact ⟨h6, f1, f2⟩
  · rintro ⟨h6, f1, f2⟩
    exact ⟨h6, by simp [pdParams], f1, f2, hsub h6⟩

/-- C73.  Without options (ten d bath states, NiO-like occupations) the crystal field script passes its
checks and the setup for every file of crystal field parameters and every radial file, and the
basis has 190 product states. -/
theorem C73_defaults (L : MainLib) (hg : GauntSymmetric L.gaunt) (params : Dict String ℝ) (radial : List (ℝ × ℝ)) :
    scriptChecks (Options.args {} (.crystalField params) radial) = .ok () ∧
    ∃ s, mainSetup L (Options.args {} (.crystalField params) radial) = .ok s ∧ s.basis.length = 190 := by
  have hc : scriptChecks (Options.args {} (.crystalField params) radial) = .ok () := by
    rw [(C73_checks _).1]
    refine ⟨(sanityChecks_ok _).1 ?_, fun _ _ => (cfChecks_ok _).1 rfl⟩
    simp [sanityChecks, Options.args, pyAssert, bind, Except.bind, pure, Except.pure]
  refine ⟨hc, ?_⟩
  obtain ⟨nb1, nb2, v1, e1, e2, hiff⟩ := C73_crystal_field L hg (Options.args {} (.crystalField params) radial) params rfl hc rfl
    (6, 8) (0, 2) (0, 2) (0, 0) rfl rfl rfl rfl
  have e1 : ([0, 10] : List ℕ) = [nb1, nb2] := e1
  have e2 : ([0, 10] : List ℤ) = [v1, 10] := e2
  simp only [List.cons.injEq, and_true] at e1 e2
  obtain ⟨rfl, rfl⟩ := e1
  obtain rfl := e2
  obtain ⟨s, hs⟩ := hiff.2 ⟨rfl, by
      refine ⟨by simp [pdParams], ?_⟩
      rintro dv dc ⟨h1, h2, h3, h4, h5⟩
      simp only [pdParams, if_true, BadOccupation] at *
      omega, by
      refine ⟨by simp [pdParams], ?_⟩
      rintro dv dc ⟨h1, h2, h3, h4, h5⟩
      simp only [pdParams, BadOccupation, show (2 : ℕ) ≠ 1 by decide, if_false] at *
      omega⟩
  refine ⟨s, hs, ?_⟩
  unfold mainSetup at hs
  obtain ⟨_, _, hs⟩ := bind_ok hs
  obtain ⟨_, _, hs⟩ := bind_ok hs
  obtain ⟨_, _, hs⟩ := bind_ok hs
  obtain ⟨basis, hb, hs⟩ := bind_ok hs
  cases hs
  have hb : getBasis (zipDict [1, 2] [0, 10]) (zipDict [1, 2] [0, 10]) (zipDict [1, 2] [0, 2]) (zipDict [1, 2] [0, 0])
    (zipDict [1, 2] [0, 2]) (zipDict [1, 2] [6, 8]) = .ok basis := hb
  have hl : (getBasis (zipDict [1, 2] [0, 10]) (zipDict [1, 2] [0, 10]) (zipDict [1, 2] [0, 2]) (zipDict [1, 2] [0, 0])
    (zipDict [1, 2] [0, 2]) (zipDict [1, 2] [6, 8])).map List.length = .ok 190 := by decide +kernel
  rw [hb] at hl
  exact Except.ok.inj hl

/-! ### Non-vacuity -/

/-- The hypotheses of `C73_setup_iff` are met by the arguments for one hole in the d shell, and so
is the right-hand side. -/
example (L : MainLib) (hL : L.gaunt = sympyGaunt) (T : ℝ) (radial : List (ℝ × ℝ)) :
    AllFit holeParams 2 0 ∧ HermitianStrengths (holeLevels 0) := by
  obtain ⟨_, h⟩ := holeSetup_ok L hL 0 T radial
  have := (C73_setup_iff (L := L) (by rw [hL]; exact sympyGaunt_symmetric) (holeArgs_documented 0 T radial)).1 ⟨_, h⟩
  exact ⟨this.2.2.2.1, this.2.2.2.2.2⟩

/-- An open p shell passes the checks. -/
example (params : Dict String ℝ) (radial : List (ℝ × ℝ)) :
    scriptChecks (Options.args { n0imps := some [5, 8] } (.crystalField params) radial) = .ok () := by
  rw [(C73_checks _).1]
  refine ⟨(sanityChecks_ok _).1 ?_, fun _ _ => (cfChecks_ok _).1 rfl⟩
  simp [sanityChecks, Options.args, pyAssert, bind, Except.bind, pure, Except.pure]

/-- So does a missing tolerance for the d shell. -/
example (params : Dict String ℝ) (radial : List (ℝ × ℝ)) :
    scriptChecks (Options.args { dnTols := some [0] } (.crystalField params) radial) = .ok () := by
  rw [(C73_checks _).1]
  refine ⟨(sanityChecks_ok _).1 ?_, fun _ _ => (cfChecks_ok _).1 rfl⟩
  simp [sanityChecks, Options.args, pyAssert, bind, Except.bind, pure, Except.pure]

/-- Eleven bath states are refused. -/
example (params : Dict String ℝ) (radial : List (ℝ × ℝ)) :
    scriptChecks (Options.args { nBaths := some [0, 11] } (.crystalField params) radial) ≠ .ok () := by
  rw [Ne, (C73_checks _).1]
  rintro ⟨-, h⟩
  rcases (h params rfl).bath with h | h <;> cases h

end Verif
