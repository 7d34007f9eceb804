/-
C87: the number of product states in the ground-state basis.
-/
import Verif.Lemmas.BasisCount
import Verif.Prop.GetBasis

namespace Verif

open Spec Psr Finset

variable (nBaths : Dict ℕ ℕ) (P : BasisParams) (valBaths dnValBaths dnConBaths dnTol n0imp : Dict ℕ ℤ)

/-- C87.  The basis `get_basis` returns has as many different product states as the
occupation parameters allow: the product over the angular momenta of the sum, over
the allowed occupations, of the products of the three binomial coefficients. -/
theorem C87_basis_count (hn : Dict.NodupKeys nBaths)
    (hP : ProvidesAll nBaths P valBaths dnValBaths dnConBaths dnTol n0imp) (basis : List Bytes)
    (h : getBasis nBaths valBaths dnValBaths dnConBaths dnTol n0imp = .ok basis) :
    basis.length = waysTotal nBaths P ∧ basis.toFinset.card = waysTotal nBaths P := by
  have hd := C12_no_duplicates nBaths P valBaths dnValBaths dnConBaths dnTol n0imp hn hP basis h
  have hl : basis.length = waysTotal nBaths P := by
    have hf := getBasis_fits hn hP h
    rw [getBasis_ok hn hP hf] at h
    obtain rfl := Except.ok.inj h
    rw [List.length_map, length_configs hf]
  exact ⟨hl, by rw [List.toFinset_card_of_nodup hd, hl]⟩

/-- C87.  Without charge fluctuations to the baths there are `C(2(2l+1), n0)`
configurations per angular momentum. -/
theorem C87_frozen_baths (hn : Dict.NodupKeys nBaths)
    (hP : ProvidesAll nBaths P valBaths dnValBaths dnConBaths dnTol n0imp) (basis : List Bytes)
    (h0 : ∀ p ∈ nBaths, P.dnVal p.1 = 0 ∧ P.dnCon p.1 = 0 ∧ 0 ≤ P.tol p.1)
    (h : getBasis nBaths valBaths dnValBaths dnConBaths dnTol n0imp = .ok basis) :
    basis.length = (nBaths.map fun p => (2 * (2 * p.1 + 1)).choose (P.n0 p.1).toNat).prod := by
  rw [(C87_basis_count nBaths P valBaths dnValBaths dnConBaths dnTol n0imp hn hP basis h).1, waysTotal]
  congr 1
  refine List.map_congr_left fun p hp => ?_
  obtain ⟨h1, h2, h3⟩ := h0 p hp
  simp [waysOf, h1, h2, h3, valenceWays]

/-- C87.  When `get_basis` returns, its basis is empty only if the parameters allow no
occupation for some angular momentum. -/
theorem C87_nonempty (hn : Dict.NodupKeys nBaths)
    (hP : ProvidesAll nBaths P valBaths dnValBaths dnConBaths dnTol n0imp) (basis : List Bytes)
    (h : getBasis nBaths valBaths dnValBaths dnConBaths dnTol n0imp = .ok basis) :
    basis ≠ [] ↔ ∀ p ∈ nBaths, ∃ dv dc, Chosen P p.1 dv dc := by
  have hf := getBasis_fits hn hP h
  have hl := (C87_basis_count nBaths P valBaths dnValBaths dnConBaths dnTol n0imp hn hP basis h).1
  rw [← List.length_pos_iff, hl, waysTotal, Nat.pos_iff_ne_zero, Ne, List.prod_eq_zero_iff,
    List.mem_map]
  constructor
  · intro hne p hp
    by_contra hc
    push Not at hc
    refine hne ⟨p, hp, sum_eq_zero fun dv hdv => sum_eq_zero fun dc hdc => ?_⟩
    rw [mem_Icc] at hdv hdc
    exact if_neg fun ht => hc dv dc ⟨hdv.1, hdv.2, hdc.1, hdc.2, ht⟩
  · rintro hall ⟨p, hp, h0⟩
    obtain ⟨dv, dc, hc⟩ := hall p hp
    have hb := (hf p hp).2 dv dc hc
    have hv := (hf p hp).1
    obtain ⟨h1, h2, h3, h4, h5⟩ := hc
    rw [waysOf, sum_eq_zero_iff] at h0
    have h6 := h0 dv (mem_Icc.2 ⟨h1, h2⟩)
    rw [sum_eq_zero_iff] at h6
    have h7 := h6 dc (mem_Icc.2 ⟨h3, h4⟩)
    unfold BadOccupation at hb
    push Not at hb
    rw [if_pos h5] at h7
    refine absurd h7 (mul_ne_zero (mul_ne_zero ?_ ?_) ?_)
    · exact (Nat.choose_pos (by omega)).ne'
    · rw [valenceWays]
      split
      · exact one_ne_zero
      · next h8 =>
          have := hb.2.2.2 h8
          exact (Nat.choose_pos (by omega)).ne'
    · exact (Nat.choose_pos (by omega)).ne'

/-- The example: `(15 + 6 + 20 + 15) · 2` states. -/
example (basis : List Bytes) (h : getBasis exBaths [(1, 1), (0, 0)] [(1, 1), (0, 0)]
    [(1, 1), (0, 0)] [(1, 1), (0, 1)] [(1, 2), (0, 1)] = .ok basis) :
    basis.length = 112 ∧ basis ≠ [] := by
  have h1 := C87_basis_count _ _ _ _ _ _ _ (by decide) exParams_provided basis h
  have h2 : waysTotal exBaths exParams = 112 := by decide +kernel
  refine ⟨h1.1.trans h2, ?_⟩
  rintro rfl
  exact absurd (h1.1.symm.trans rfl) (by rw [h2]; decide)

/-- A d shell with eight electrons and ten full bath states that may give one electron:
`45 + 10 · 10` states. -/
example : waysTotal [(2, 10)] ⟨fun _ => 10, fun _ => 1, fun _ => 0, fun _ => 1, fun _ => 8⟩ =
    45 + 10 * 10 := by decide +kernel

end Verif
