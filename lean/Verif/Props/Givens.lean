import Verif.Model.Givens
import Mathlib.Analysis.Complex.Basic
import Mathlib.Tactic.Linarith
import Mathlib.Tactic.Ring
import Mathlib.Tactic.LinearCombination
import Mathlib.Tactic.NormNum
import Mathlib.Tactic.FieldSimp
import Mathlib.Tactic.Positivity

/-! # Property C10: Givens rotations -/

namespace Krypy
variable {𝕜 : Type*} [RCLike 𝕜]
open scoped ComplexConjugate
open RCLike

theorem scaled_sqrt {s x y : ℝ} (hs : 0 < s) :
    (s * Real.sqrt ((x / s) ^ 2 + (y / s) ^ 2)) = Real.sqrt (x ^ 2 + y ^ 2) := by
  have : (x / s) ^ 2 + (y / s) ^ 2 = (x ^ 2 + y ^ 2) / s ^ 2 := by field_simp
  rw [this, Real.sqrt_div (by positivity), Real.sqrt_sq hs.le]
  field_simp

theorem drotg_spec (a b : ℝ) :
    (drotg a b).1 ^ 2 + (drotg a b).2 ^ 2 = 1 ∧ -(drotg a b).2 * a + (drotg a b).1 * b = 0 := by
  unfold drotg
  simp only
  split
  · next h =>
    have ha : a = 0 := by
      have := abs_nonneg a; have := abs_nonneg b; exact abs_eq_zero.mp (by linarith)
    have hb : b = 0 := by
      have := abs_nonneg a; have := abs_nonneg b; exact abs_eq_zero.mp (by linarith)
    simp [ha, hb]
  · next h =>
    have hs : 0 < |a| + |b| := lt_of_le_of_ne (by positivity) (Ne.symm h)
    rw [scaled_sqrt hs]
    have hpos : 0 < a ^ 2 + b ^ 2 := by
      by_contra hn
      have h1 : a ^ 2 = 0 := by nlinarith [sq_nonneg a, sq_nonneg b]
      have h2 : b ^ 2 = 0 := by nlinarith [sq_nonneg a, sq_nonneg b]
      rw [pow_eq_zero_iff two_ne_zero] at h1 h2
      simp [h1, h2] at hs
    set r0 := Real.sqrt (a ^ 2 + b ^ 2) with hr0
    have hr0' : r0 ^ 2 = a ^ 2 + b ^ 2 := Real.sq_sqrt hpos.le
    have hr0p : 0 < r0 := Real.sqrt_pos.mpr hpos
    generalize hr : (if (if |b| < |a| then a else b) < 0 then -r0 else r0) = r
    have hrsq : r ^ 2 = a ^ 2 + b ^ 2 := by
      rw [← hr]; split_ifs <;> simp [hr0']
    have hrne : r ≠ 0 := by
      intro h0; rw [h0] at hrsq; simp at hrsq; linarith
    constructor
    · rw [div_pow, div_pow, ← add_div, ← hrsq, div_self (pow_ne_zero 2 hrne)]
    · field_simp; ring

theorem zrotg_spec (a b : 𝕜) : IsRotg a b (zrotg a b).1 (zrotg a b).2 := by
  unfold zrotg IsRotg
  split
  · next h => simp [norm_eq_zero.mp h]
  · next h =>
    have ha : 0 < ‖a‖ := lt_of_le_of_ne (norm_nonneg _) (Ne.symm h)
    have hs : 0 < ‖a‖ + ‖b‖ := by have := norm_nonneg b; linarith
    simp only [norm_div, norm_ofReal, abs_of_pos hs]
    rw [scaled_sqrt hs]
    have hpos : 0 < ‖a‖ ^ 2 + ‖b‖ ^ 2 := by positivity
    set n := Real.sqrt (‖a‖ ^ 2 + ‖b‖ ^ 2) with hn
    have hnp : 0 < n := Real.sqrt_pos.mpr hpos
    have hn2 : n ^ 2 = ‖a‖ ^ 2 + ‖b‖ ^ 2 := Real.sq_sqrt hpos.le
    constructor
    · rw [norm_mul, norm_div, norm_ofReal, abs_of_pos ha, div_self ha.ne', one_mul, norm_conj,
        abs_of_pos hnp, div_pow, div_pow, ← add_div, ← hn2, div_self (pow_ne_zero 2 hnp.ne')]
    · have hna : ((‖a‖ : ℝ) : 𝕜) ≠ 0 := by exact_mod_cast ha.ne'
      have hnn : ((n : ℝ) : 𝕜) ≠ 0 := by exact_mod_cast hnp.ne'
      have hc : conj a * a = ((‖a‖ : ℝ) : 𝕜) ^ 2 := RCLike.conj_mul a
      simp only [map_div₀, map_mul, conj_conj, conj_ofReal]
      field_simp
      linear_combination -b * hc

/-- The rotation actually computed obeys the contract. -/
theorem mkGivens_spec (a b : 𝕜) : IsRotg a b (mkGivens a b).c (mkGivens a b).s := by
  unfold mkGivens
  simp only
  split
  · next h =>
    obtain ⟨h1, h2⟩ := drotg_spec (re a) (re b)
    have ea : a = ((re a : ℝ) : 𝕜) := by
      apply RCLike.ext <;> simp [h.1]
    have eb : b = ((re b : ℝ) : 𝕜) := by
      apply RCLike.ext <;> simp [h.2]
    refine ⟨by simpa using h1, ?_⟩
    simp only [conj_ofReal]
    conv_lhs => rw [ea, eb]
    simp only [ofReal_re]
    exact_mod_cast h2
  · exact zrotg_spec a b

/-- Consequences of the contract: the rotation preserves Euclidean norms. -/
theorem IsRotg.isometry {a b : 𝕜} {c : ℝ} {s : 𝕜} (h : IsRotg a b c s) (x y : 𝕜) :
    ‖(c : 𝕜) * x + s * y‖ ^ 2 + ‖-conj s * x + (c : 𝕜) * y‖ ^ 2 = ‖x‖ ^ 2 + ‖y‖ ^ 2 := by
  have h1 : (c : 𝕜) ^ 2 + conj s * s = 1 := by
    rw [RCLike.conj_mul]; exact_mod_cast congrArg (fun t : ℝ => (t : 𝕜)) h.1
  have e : ((‖(c : 𝕜) * x + s * y‖ ^ 2 + ‖-conj s * x + (c : 𝕜) * y‖ ^ 2 : ℝ) : 𝕜)
      = ((‖x‖ ^ 2 + ‖y‖ ^ 2 : ℝ) : 𝕜) := by
    push_cast
    rw [← RCLike.conj_mul, ← RCLike.conj_mul, ← RCLike.conj_mul, ← RCLike.conj_mul]
    simp only [map_add, map_mul, map_neg, conj_conj, conj_ofReal]
    linear_combination (conj x * x + conj y * y) * h1
  exact_mod_cast e

theorem IsRotg.annihilates {a b : 𝕜} {c : ℝ} {s : 𝕜} (h : IsRotg a b c s) :
    ‖(c : 𝕜) * a + s * b‖ ^ 2 = ‖a‖ ^ 2 + ‖b‖ ^ 2 := by
  have := h.isometry a b
  rw [h.2] at this
  simpa using this

/-- C10: for every pair (real or complex, zeros included) the rotation maps `(a, b)` to `(r, 0)` with
`|r| = √(|a|² + |b|²)`, where `r` is the stored attribute. -/
theorem C10_annihilates (a b : 𝕜) :
    (mkGivens a b).apply (a, b) = ((mkGivens a b).r, 0) ∧
      ‖(mkGivens a b).r‖ = Real.sqrt (‖a‖ ^ 2 + ‖b‖ ^ 2) := by
  have h := mkGivens_spec a b
  refine ⟨?_, ?_⟩
  · unfold Givens.apply
    rw [h.2]
    rfl
  · rw [← h.annihilates, Real.sqrt_sq (norm_nonneg _)]
    rfl

/-- C10: the rotation is unitary: it preserves the Euclidean norm of every vector, and its
conjugate transpose is its inverse. -/
theorem C10_unitary (a b : 𝕜) (x : 𝕜 × 𝕜) :
    ‖((mkGivens a b).apply x).1‖ ^ 2 + ‖((mkGivens a b).apply x).2‖ ^ 2 = ‖x.1‖ ^ 2 + ‖x.2‖ ^ 2 ∧
    (let y := (mkGivens a b).apply x
     ((mkGivens a b).c * y.1 - (mkGivens a b).s * y.2 = x.1) ∧
     (conj (mkGivens a b).s * y.1 + (mkGivens a b).c * y.2 = x.2)) := by
  have h := mkGivens_spec a b
  refine ⟨h.isometry x.1 x.2, ?_⟩
  have h1 : ((mkGivens a b).c : 𝕜) ^ 2 + conj (mkGivens a b).s * (mkGivens a b).s = 1 := by
    rw [RCLike.conj_mul]; exact_mod_cast congrArg (fun t : ℝ => (t : 𝕜)) h.1
  simp only [Givens.apply]
  constructor
  · linear_combination x.1 * h1
  · linear_combination x.2 * h1

/-- C10: real input gives a real rotation. -/
theorem C10_real (a b : ℝ) : ∃ s : ℝ, (mkGivens (a : 𝕜) (b : 𝕜)).s = (s : 𝕜) := by
  unfold mkGivens
  simp

/-- Non-vacuity / test: the 3-4-5 triangle. -/
example : (mkGivens (3 : ℝ) 4).c = 3 / 5 ∧ (mkGivens (3 : ℝ) 4).s = 4 / 5 ∧
    (mkGivens (3 : ℝ) 4).r = 5 := by
  have h5 : Real.sqrt ((3 / 7 : ℝ) ^ 2 + (4 / 7) ^ 2) = 5 / 7 := by
    rw [show ((3 / 7 : ℝ) ^ 2 + (4 / 7) ^ 2) = (5 / 7) ^ 2 by norm_num]
    exact Real.sqrt_sq (by norm_num)
  have : drotg 3 4 = (3 / 5, 4 / 5) := by
    unfold drotg
    simp only [show |(3 : ℝ)| + |(4 : ℝ)| = 7 by norm_num]
    rw [if_neg (by norm_num), h5]
    norm_num
  simp [mkGivens, this]
  norm_num

end Krypy
