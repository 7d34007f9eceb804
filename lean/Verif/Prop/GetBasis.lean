/-
C11, C12, C13: the ground-state basis.
-/
import Verif.Lemmas.GetBasisResult

namespace Verif

open Spec Psr Finset

/-- Example: a p shell with 2 bath states, one of them valence, and an s shell
without bath. -/
def exBaths : Dict ℕ ℕ := [(1, 2), (0, 0)]

/-- Parameters of the example. -/
def exParams : BasisParams where
  val l := if l = 1 then 1 else 0
  dnVal l := if l = 1 then 1 else 0
  dnCon l := if l = 1 then 1 else 0
  tol _ := 1
  n0 l := if l = 1 then 2 else 1

theorem exParams_provided : ProvidesAll exBaths exParams [(1, 1), (0, 0)] [(1, 1), (0, 0)]
    [(1, 1), (0, 0)] [(1, 1), (0, 1)] [(1, 2), (0, 1)] :=
  ⟨by unfold Provides; decide, by unfold Provides; decide, by unfold Provides; decide,
    by unfold Provides; decide, by unfold Provides; decide⟩

/-- The example basis: `15 + 6·1 + 20 + 15` configurations of the p shell and
its bath, times 2 for the s shell. -/
example : (getBasis exBaths [(1, 1), (0, 0)] [(1, 1), (0, 0)] [(1, 1), (0, 0)] [(1, 1), (0, 1)]
    [(1, 2), (0, 1)]).toOption.map List.length = some 112 := by decide +kernel

variable (nBaths : Dict ℕ ℕ) (P : BasisParams) (valBaths dnValBaths dnConBaths dnTol n0imp : Dict ℕ ℤ)

/-- C11.  If `get_basis` returns, then a set `S` of spin-orbitals is in the basis
iff for every angular momentum its impurity, valence bath and conduction bath
occupations are allowed by the parameters; and the basis contains nothing else. -/
theorem C11_get_basis (hn : Dict.NodupKeys nBaths)
    (hP : ProvidesAll nBaths P valBaths dnValBaths dnConBaths dnTol n0imp) (basis : List Bytes)
    (h : getBasis nBaths valBaths dnValBaths dnConBaths dnTol n0imp = .ok basis) :
    (∀ S ⊆ range (nTotal (intKeys nBaths)),
      encBytes (nTotal (intKeys nBaths)) S ∈ basis ↔ IsConfiguration nBaths (intKeys nBaths) P S) ∧
    (∀ k ∈ basis, ∃ S ⊆ range (nTotal (intKeys nBaths)),
      k = encBytes (nTotal (intKeys nBaths)) S) := by
  have hf := getBasis_fits hn hP h
  rw [getBasis_ok hn hP hf] at h
  obtain rfl := Except.ok.inj h
  constructor
  · intro S hS
    rw [List.mem_map]
    constructor
    · rintro ⟨c, hc, e⟩
      rw [← encBytes_injOn (flatten_subset hn hf hc) hS e]
      exact config_isConfiguration hn hf hc
    · intro hS'
      obtain ⟨c, hc, e⟩ := exists_config hn hf hS hS'
      exact ⟨c, hc, by rw [e]⟩
  · intro k hk
    obtain ⟨c, hc, rfl⟩ := List.mem_map.1 hk
    exact ⟨_, flatten_subset hn hf hc, rfl⟩

/-- C12.  The basis never contains a product state twice. -/
theorem C12_no_duplicates (hn : Dict.NodupKeys nBaths)
    (hP : ProvidesAll nBaths P valBaths dnValBaths dnConBaths dnTol n0imp) (basis : List Bytes)
    (h : getBasis nBaths valBaths dnValBaths dnConBaths dnTol n0imp = .ok basis) : basis.Nodup := by
  have hf := getBasis_fits hn hP h
  rw [getBasis_ok hn hP hf] at h
  obtain rfl := Except.ok.inj h
  exact nodup_bytes hn hf

/-- C12.  `get_basis` raises exactly when some angular momentum has more valence
bath states than bath states, or the parameters allow an occupation that does not
fit; the exception is then an `AssertionError` or a `ValueError`. -/
theorem C12_raises_iff (hn : Dict.NodupKeys nBaths)
    (hP : ProvidesAll nBaths P valBaths dnValBaths dnConBaths dnTol n0imp) :
    ((∃ e, getBasis nBaths valBaths dnValBaths dnConBaths dnTol n0imp = .error e) ↔
      ∃ p ∈ nBaths, P.val p.1 > p.2 ∨
        ∃ dv dc, Chosen P p.1 dv dc ∧ BadOccupation P p.1 p.2 dv dc) ∧
    (∀ e, getBasis nBaths valBaths dnValBaths dnConBaths dnTol n0imp = .error e →
      e = .assertionError ∨ e = .valueError) := by
  refine ⟨⟨?_, ?_⟩, getBasis_err hn hP⟩
  · rintro ⟨e, he⟩
    by_contra hc
    have hf : Fits nBaths P := by
      intro p hp
      refine ⟨?_, fun dv dc h1 h2 => hc ⟨p, hp, Or.inr ⟨dv, dc, h1, h2⟩⟩⟩
      by_contra h
      exact hc ⟨p, hp, Or.inl (by omega)⟩
    rw [getBasis_ok hn hP hf] at he
    cases he
  · rintro ⟨p, hp, h⟩
    cases hg : getBasis nBaths valBaths dnValBaths dnConBaths dnTol n0imp with
    | error e => exact ⟨e, rfl⟩
    | ok r =>
      have hf := getBasis_fits hn hP hg p hp
      rcases h with h | ⟨dv, dc, h1, h2⟩
      · omega
      · exact absurd h2 (hf.2 dv dc h1)

/-- Too many electrons on the impurity: an `AssertionError`. -/
example : getBasis [(0, 1)] [(0, 1)] [(0, 1)] [(0, 0)] [(0, 1)] [(0, 2)] = .error .assertionError := by
  decide +kernel

/-- More electrons removed than there are in the valence bath: a `ValueError`. -/
example : getBasis [(1, 1)] [(1, 1)] [(1, 2)] [(1, 0)] [(1, 2)] [(1, 2)] = .error .valueError := by
  decide +kernel

/-- C13 for systems where electrons are only removed from valence baths that
exist: every product state has `Σ n0imp + valBaths` electrons.  The full C13 is
false of the code, see `C13_violated`. -/
theorem C13_electron_number_partial (hn : Dict.NodupKeys nBaths)
    (hP : ProvidesAll nBaths P valBaths dnValBaths dnConBaths dnTol n0imp) (basis : List Bytes)
    (h0 : ∀ p ∈ nBaths, P.val p.1 = 0 → P.dnVal p.1 ≤ 0)
    (h : getBasis nBaths valBaths dnValBaths dnConBaths dnTol n0imp = .ok basis) :
    ∀ S ⊆ range (nTotal (intKeys nBaths)), encBytes (nTotal (intKeys nBaths)) S ∈ basis →
      (S.card : ℤ) = (nBaths.map fun p => P.n0 p.1 + P.val p.1).sum := by
  intro S hS hm
  have hf := getBasis_fits hn hP h
  rw [getBasis_ok hn hP hf] at h
  obtain rfl := Except.ok.inj h
  obtain ⟨c, hc, e⟩ := List.mem_map.1 hm
  rw [← encBytes_injOn (flatten_subset hn hf hc) hS e]
  exact card_config_eq hn hf h0 hc

example (basis : List Bytes) (h : getBasis exBaths [(1, 1), (0, 0)] [(1, 1), (0, 0)] [(1, 1), (0, 0)]
    [(1, 1), (0, 1)] [(1, 2), (0, 1)] = .ok basis) (S : Finset ℕ) (hS : S ⊆ range 10)
    (hm : encBytes 10 S ∈ basis) : (S.card : ℤ) = 4 :=
  C13_electron_number_partial exBaths exParams _ _ _ _ _ (by decide) exParams_provided basis
    (by decide) h S hS hm

/-- C13 is false of the code: with no valence bath states (`valBaths = 0`) and
`dnValBaths = 1`, `get_basis` adds an impurity electron without removing one from
a bath, and returns product states with 0 and with 1 electrons. -/
theorem C13_violated : getBasis [(0, 0)] [(0, 0)] [(0, 1)] [(0, 0)] [(0, 1)] [(0, 0)] =
    .ok [encBytes 2 ∅, encBytes 2 {0}, encBytes 2 {1}] := by decide +kernel

end Verif
