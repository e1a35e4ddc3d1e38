import Verif.Model.Inner
import Mathlib.Algebra.BigOperators.Group.Finset.Basic
import Mathlib.Algebra.BigOperators.Ring.Finset
import Mathlib.Algebra.BigOperators.Module
import Mathlib.Algebra.Module.BigOperators
import Mathlib.Tactic.Linarith
import Mathlib.Tactic.Ring
import Mathlib.Tactic.NormNum
import Mathlib.Tactic.Module
import Mathlib.Tactic.FieldSimp
import Mathlib.Tactic.Positivity

/-! Lemmas about inner products in the sense of `IsInner`. -/

namespace Krypy
set_option linter.unusedSectionVars false
variable {𝕜 E : Type*} [RCLike 𝕜] [AddCommGroup E] [Module 𝕜 E]
open scoped ComplexConjugate
open RCLike

/-- Squared norm `re ⟨x,x⟩`. -/
noncomputable def nsq (ip : E → E → 𝕜) (x : E) : ℝ := re (ip x x)

/-- Norm `√⟨x,x⟩`. -/
noncomputable def nrm (ip : E → E → 𝕜) (x : E) : ℝ := Real.sqrt (nsq ip x)

theorem nrm_nonneg (ip : E → E → 𝕜) (x : E) : 0 ≤ nrm ip x := Real.sqrt_nonneg _

namespace IsInner
variable {ip : E → E → 𝕜} (h : IsInner ip)
include h

theorem add_left (x y z : E) : ip (x + y) z = ip x z + ip y z := by
  rw [← h.conj_symm, h.add_right, map_add, h.conj_symm, h.conj_symm]

theorem smul_left (c : 𝕜) (x y : E) : ip (c • x) y = conj c * ip x y := by
  rw [← h.conj_symm, h.smul_right, map_mul, h.conj_symm]

theorem zero_right (x : E) : ip x 0 = 0 := by
  have := h.smul_right x 0 0; simpa using this

theorem zero_left (x : E) : ip 0 x = 0 := by
  have := h.smul_left 0 0 x; simpa using this

theorem neg_right (x y : E) : ip x (-y) = - ip x y := by
  have := h.smul_right x (-1) y; simpa using this

theorem neg_left (x y : E) : ip (-x) y = - ip x y := by
  have := h.smul_left (-1) x y; simpa using this

theorem sub_right (x y z : E) : ip x (y - z) = ip x y - ip x z := by
  rw [sub_eq_add_neg, h.add_right, h.neg_right, sub_eq_add_neg]

theorem sub_left (x y z : E) : ip (x - y) z = ip x z - ip y z := by
  rw [sub_eq_add_neg, h.add_left, h.neg_left, sub_eq_add_neg]

theorem sum_right {ι : Type*} (s : Finset ι) (x : E) (f : ι → E) :
    ip x (∑ i ∈ s, f i) = ∑ i ∈ s, ip x (f i) := by
  classical
  induction s using Finset.induction_on with
  | empty => simp [h.zero_right]
  | insert a s ha ih => rw [Finset.sum_insert ha, Finset.sum_insert ha, h.add_right, ih]

theorem sum_left {ι : Type*} (s : Finset ι) (x : E) (f : ι → E) :
    ip (∑ i ∈ s, f i) x = ∑ i ∈ s, ip (f i) x := by
  classical
  induction s using Finset.induction_on with
  | empty => simp [h.zero_left]
  | insert a s ha ih => rw [Finset.sum_insert ha, Finset.sum_insert ha, h.add_left, ih]

theorem self_real (x : E) : ip x x = ((nsq ip x : ℝ) : 𝕜) := by
  have := h.conj_symm x x
  exact (RCLike.conj_eq_iff_re.mp this).symm

theorem im_self (x : E) : im (ip x x) = 0 := by
  rw [h.self_real]; simp

theorem nsq_nonneg (x : E) : 0 ≤ nsq ip x := by
  by_cases hx : x = 0
  · subst hx; simp [nsq, h.zero_right]
  · exact (h.pos x hx).le

theorem nsq_eq_zero {x : E} : nsq ip x = 0 ↔ x = 0 := by
  constructor
  · intro h0
    by_contra hx
    have := h.pos x hx
    unfold nsq at h0
    linarith
  · rintro rfl; simp [nsq, h.zero_right]

theorem nsq_pos {x : E} (hx : x ≠ 0) : 0 < nsq ip x := h.pos x hx

theorem self_eq_zero {x : E} : ip x x = 0 ↔ x = 0 := by
  rw [h.self_real, RCLike.ofReal_eq_zero, h.nsq_eq_zero]

theorem norm_self (x : E) : ‖ip x x‖ = nsq ip x := by
  rw [h.self_real, RCLike.norm_ofReal, abs_of_nonneg (h.nsq_nonneg x)]

theorem nrm_sq (x : E) : nrm ip x ^ 2 = nsq ip x := Real.sq_sqrt (h.nsq_nonneg x)

theorem nrm_eq_zero {x : E} : nrm ip x = 0 ↔ x = 0 := by
  unfold nrm
  rw [Real.sqrt_eq_zero (h.nsq_nonneg x), h.nsq_eq_zero]

theorem npNorm_self (x : E) : npNorm (ip x x) = .ok (nrm ip x) := by
  unfold npNorm
  rw [h.im_self, if_neg, h.norm_self]
  · rfl
  · have := norm_nonneg (ip x x)
    simp only [abs_zero, not_lt]
    positivity

theorem nsq_smul (c : 𝕜) (x : E) : nsq ip (c • x) = ‖c‖ ^ 2 * nsq ip x := by
  have : ip (c • x) (c • x) = ((‖c‖ ^ 2 * nsq ip x : ℝ) : 𝕜) := by
    rw [h.smul_left, h.smul_right, h.self_real]
    rw [← mul_assoc, RCLike.conj_mul]
    push_cast
    ring
  rw [nsq, this, RCLike.ofReal_re]

theorem nrm_smul (c : 𝕜) (x : E) : nrm ip (c • x) = ‖c‖ * nrm ip x := by
  unfold nrm
  rw [h.nsq_smul, Real.sqrt_mul (by positivity), Real.sqrt_sq (norm_nonneg _)]

theorem nsq_neg (x : E) : nsq ip (-x) = nsq ip x := by
  unfold nsq; rw [h.neg_left, h.neg_right, neg_neg]

theorem nsq_add (x y : E) : nsq ip (x + y) = nsq ip x + 2 * re (ip x y) + nsq ip y := by
  unfold nsq
  rw [h.add_left, h.add_right, h.add_right]
  have : re (ip y x) = re (ip x y) := by rw [← h.conj_symm, RCLike.conj_re]
  simp only [map_add, this]; ring

theorem nsq_sub (x y : E) : nsq ip (x - y) = nsq ip x - 2 * re (ip x y) + nsq ip y := by
  rw [sub_eq_add_neg, h.nsq_add, h.neg_right, h.nsq_neg]; simp; ring

theorem nsq_add_of_orth {x y : E} (hxy : ip x y = 0) :
    nsq ip (x + y) = nsq ip x + nsq ip y := by
  rw [h.nsq_add, hxy]; simp

theorem orth_symm {x y : E} (hxy : ip x y = 0) : ip y x = 0 := by
  rw [← h.conj_symm, hxy, map_zero]

/-- Coefficient extraction from an orthonormal expansion. -/
theorem coeff {n : ℕ} {P : ℕ → E} (hP : ∀ i < n, ∀ j < n, ip (P i) (P j) = if i = j then 1 else 0)
    (c : ℕ → 𝕜) {i : ℕ} (hi : i < n) :
    ip (P i) (∑ j ∈ Finset.range n, c j • P j) = c i := by
  rw [h.sum_right]
  rw [Finset.sum_eq_single i]
  · rw [h.smul_right, hP i hi i hi]; simp
  · intro j hj hne
    rw [h.smul_right, hP i hi j (Finset.mem_range.mp hj), if_neg (Ne.symm hne)]; simp
  · intro hni; exact absurd (Finset.mem_range.mpr hi) hni

/-- Parseval for a finite orthonormal family. -/
theorem nsq_sum {n : ℕ} {P : ℕ → E} (hP : ∀ i < n, ∀ j < n, ip (P i) (P j) = if i = j then 1 else 0)
    (c : ℕ → 𝕜) : nsq ip (∑ j ∈ Finset.range n, c j • P j) = ∑ j ∈ Finset.range n, ‖c j‖ ^ 2 := by
  have : ip (∑ j ∈ Finset.range n, c j • P j) (∑ j ∈ Finset.range n, c j • P j)
      = ((∑ j ∈ Finset.range n, ‖c j‖ ^ 2 : ℝ) : 𝕜) := by
    rw [h.sum_left]
    push_cast
    refine Finset.sum_congr rfl fun i hi => ?_
    rw [h.smul_left, h.coeff hP c (Finset.mem_range.mp hi), RCLike.conj_mul]
  rw [nsq, this, RCLike.ofReal_re]

/-- Cauchy-Schwarz. -/
theorem cauchy_schwarz (x y : E) : ‖ip x y‖ ^ 2 ≤ nsq ip x * nsq ip y := by
  by_cases hy : y = 0
  · subst hy; simp [h.zero_right, nsq]
  have hp := h.nsq_pos hy
  set c : 𝕜 := ip y x / ip y y with hc
  have hyy : ip y y ≠ 0 := fun h0 => hy (h.self_eq_zero.mp h0)
  have horth : ip y (x - c • y) = 0 := by
    rw [h.sub_right, h.smul_right, hc, div_mul_cancel₀ _ hyy, sub_self]
  have e : x = (x - c • y) + c • y := by simp
  have h1 : nsq ip x = nsq ip (x - c • y) + nsq ip (c • y) := by
    conv_lhs => rw [e]
    apply h.nsq_add_of_orth
    rw [h.smul_right, h.orth_symm horth, mul_zero]
  have h2 := h.nsq_nonneg (x - c • y)
  have h3 : nsq ip (c • y) = ‖ip x y‖ ^ 2 / nsq ip y := by
    rw [h.nsq_smul, hc, norm_div, h.norm_self, ← h.conj_symm x y, RCLike.norm_conj]
    field_simp
  have : ‖ip x y‖ ^ 2 / nsq ip y ≤ nsq ip x := by rw [h1, ← h3]; linarith
  rwa [div_le_iff₀ hp] at this

end IsInner

end Krypy
