/-
Operators with integer coefficients, for examples: their complex matrix elements are integers.
-/
import Verif.Lemmas.GreenMeaning
import Verif.Prop.Cache

namespace Verif

open Finset Psr Spec

noncomputable section

/-- An operator with integer coefficients as one with complex coefficients. -/
def castOp (op : Op ℕ ℤ) : Op ℕ ℂ := op.map fun q => (q.1, (q.2 : ℂ))

theorem product_cast (p : List (ℕ × Bool)) (f : Vec ℤ) :
    product p (fun S => ((f S : ℤ) : ℂ)) = fun S => ((product p f S : ℤ) : ℂ) := by
  induction p with
  | nil => rfl
  | cons x p ih =>
    have h : ∀ {R : Type} [CommRing R] (g : Vec R), product (x :: p) g = ladder x.1 x.2 (product p g) := fun _ => rfl
    rw [h, h, ih]
    funext S
    unfold ladder
    split
    · unfold create
      split <;> simp
    · unfold annihilate
      split <;> simp

theorem matrixElement_cast (op : Op ℕ ℤ) (S T : Finset ℕ) :
    matrixElement (castOp op) S T = ((matrixElement op S T : ℤ) : ℂ) := by
  have hs : (single T 1 : Vec ℂ) = fun S => ((single T (1 : ℤ) S : ℤ) : ℂ) := by
    funext S
    unfold single
    split <;> simp
  unfold matrixElement operator opSpec castOp
  rw [hs]
  simp only [product_cast]
  induction op with
  | nil => simp
  | cons q op ih =>
    simp only [List.map_cons, List.sum_cons] at ih ⊢
    rw [ih]
    simp

theorem abs2_intCast (m : ℤ) : (abs2 ((m : ℤ) : ℂ) : ℝ) = ((m * m : ℤ) : ℝ) := by
  show Complex.normSq ((m : ℤ) : ℂ) = _
  rw [show ((m : ℤ) : ℂ) = (((m : ℤ) : ℝ) : ℂ) by simp, Complex.normSq_ofReal]
  push_cast; rfl

theorem one_le_abs2_intCast {m : ℤ} (h : m ≠ 0) : (1 : ℝ) ≤ abs2 ((m : ℤ) : ℂ) := by
  rw [abs2_intCast]
  have : 1 ≤ m * m := by
    rcases lt_or_gt_of_ne h with h | h <;> nlinarith
  exact_mod_cast this

theorem noSmall_castOp (n : ℕ) (op : Op ℕ ℤ) {cut : ℝ} (hcut : cut ≤ 1) (r : Option Restrictions) (T : Finset ℕ) :
    NoSmallElements n (castOp op) cut r T := by
  intro S _ _
  rw [matrixElement_cast]
  by_cases h : matrixElement op S T = 0
  · left; rw [h]; simp
  · right; exact hcut.trans (one_le_abs2_intCast h)

theorem connects_castOp {op : Op ℕ ℤ} {cut : ℝ} (h0 : 0 < cut) (hcut : cut ≤ 1) {r : Option Restrictions} {S T : Finset ℕ} :
    Connects (castOp op) cut r T S ↔ AllowedOpt r S ∧ matrixElement op S T ≠ 0 := by
  unfold Connects
  rw [matrixElement_cast]
  refine and_congr_right fun _ => ⟨?_, fun h => hcut.trans (one_le_abs2_intCast h)⟩
  rintro h h1
  rw [h1, abs2_intCast] at h
  norm_num at h
  linarith

theorem column_castOp {op : Op ℕ ℤ} {cut : ℝ} (h0 : 0 < cut) (hcut : cut ≤ 1) (r : Option Restrictions) (S T : Finset ℕ) :
    column (castOp op) cut r T S = if AllowedOpt r S then ((matrixElement op S T : ℤ) : ℂ) else 0 := by
  unfold column
  have := connects_castOp (op := op) h0 hcut (r := r) (S := S) (T := T)
  unfold Connects at this
  simp only [this]
  rw [matrixElement_cast]
  by_cases ha : AllowedOpt r S
  · by_cases hm : matrixElement op S T = 0
    · simp [hm]
    · simp [ha, hm]
  · simp [ha]

theorem keys_castOp (op : Op ℕ ℤ) : Dict.keys (castOp op) = Dict.keys op := by
  unfold castOp Dict.keys
  rw [List.map_map]; rfl

theorem nodup_castOp {op : Op ℕ ℤ} (h : Dict.NodupKeys op) : Dict.NodupKeys (castOp op) := by
  unfold Dict.NodupKeys at *
  rwa [keys_castOp]

theorem inSystem_castOp {n : ℕ} {op : Op ℕ ℤ} (h : OpInSystem n op) : OpInSystem n (castOp op) := by
  intro q hq x hx
  obtain ⟨q', hq', rfl⟩ := List.mem_map.1 hq
  exact h q' hq' x hx

theorem get?_castOp (op : Op ℕ ℤ) (p : Process ℕ) : Dict.get? (castOp op) p = (Dict.get? op p).map (fun x : ℤ => (x : ℂ)) := by
  unfold castOp
  induction op with
  | nil => rfl
  | cons q op ih =>
    obtain ⟨a, x⟩ := q
    simp only [List.map_cons, Dict.get?_cons] at ih ⊢
    split
    · rfl
    · exact ih

theorem set_castOp (op : Op ℕ ℤ) (p : Process ℕ) (x : ℤ) : Dict.set (castOp op) p (x : ℂ) = castOp (Dict.set op p x) := by
  unfold castOp
  induction op with
  | nil => rfl
  | cons q op ih =>
    simp only [List.map_cons, Dict.set] at ih ⊢
    split
    · rfl
    · rw [ih]; rfl

theorem daggerOp_castOp (op : Op ℕ ℤ) : daggerOp (castOp op) = castOp (daggerOp op) := by
  have h : ∀ (l acc : Op ℕ ℤ), List.foldl (fun opDagger q =>
        Dict.set opDagger (q.1.reverse.map fun e => (e.1, e.2.dagger)) (star q.2)) (castOp acc) (castOp l)
      = castOp (List.foldl (fun opDagger q =>
        Dict.set opDagger (q.1.reverse.map fun e => (e.1, e.2.dagger)) (star q.2)) acc l) := by
    intro l
    induction l with
    | nil => intro acc; rfl
    | cons q l ih =>
      intro acc
      rw [show castOp (q :: l) = (q.1, (q.2 : ℂ)) :: castOp l from rfl, List.foldl_cons, List.foldl_cons]
      have : star ((q.2 : ℤ) : ℂ) = ((star q.2 : ℤ) : ℂ) := by simp
      simp only [this, set_castOp]
      exact ih _
  exact h op []

theorem hermitian_castOp {op : Op ℕ ℤ} (h : isHermitianOp op) : isHermitianOp (castOp op) := by
  unfold isHermitianOp at *
  intro p
  rw [daggerOp_castOp, get?_castOp, get?_castOp, h p]

end

end Verif
