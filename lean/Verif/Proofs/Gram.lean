import Verif.Model.Projection
import Verif.Proofs.Inner
import Mathlib.LinearAlgebra.Matrix.Block
import Mathlib.LinearAlgebra.Span.Basic

/-! Algebra of `lincomb`, `coefs`, `gram`. -/

namespace Krypy
set_option linter.unusedSectionVars false
variable {𝕜 E : Type*} [RCLike 𝕜] [AddCommGroup E] [Module 𝕜 E]
open scoped ComplexConjugate
open Matrix

section
variable {ι κ : Type*} [Fintype ι] [Fintype κ]

theorem lincomb_add (V : ι → E) (c d : ι → 𝕜) : lincomb V (c + d) = lincomb V c + lincomb V d := by
  simp [lincomb, add_smul, Finset.sum_add_distrib]

theorem lincomb_smul (V : ι → E) (t : 𝕜) (c : ι → 𝕜) : lincomb V (t • c) = t • lincomb V c := by
  simp [lincomb, Finset.smul_sum, mul_smul]

theorem lincomb_zero (V : ι → E) : lincomb V (0 : ι → 𝕜) = 0 := by simp [lincomb]

theorem lincomb_sub (V : ι → E) (c d : ι → 𝕜) : lincomb V (c - d) = lincomb V c - lincomb V d := by
  simp [lincomb, sub_smul, Finset.sum_sub_distrib]

theorem lincomb_single [DecidableEq ι] (V : ι → E) (j : ι) :
    lincomb V (Pi.single j 1 : ι → 𝕜) = V j := by
  unfold lincomb
  rw [Finset.sum_eq_single j]
  · simp
  · intro i _ hi; simp [hi]
  · simp

/-- change of basis: `V (R c) = (V R) c` -/
theorem lincomb_mulVec (V : ι → E) (R : Matrix ι κ 𝕜) (c : κ → 𝕜) :
    lincomb V (R *ᵥ c) = lincomb (fun j => lincomb V fun i => R i j) c := by
  simp only [lincomb, Matrix.mulVec, dotProduct, Finset.sum_smul, Finset.smul_sum]
  rw [Finset.sum_comm]
  refine Finset.sum_congr rfl fun j _ => Finset.sum_congr rfl fun i _ => ?_
  rw [smul_smul, mul_comm]

theorem lincomb_mem_span (V : ι → E) (c : ι → 𝕜) : lincomb V c ∈ Submodule.span 𝕜 (Set.range V) :=
  Submodule.sum_mem _ fun i _ => Submodule.smul_mem _ _ (Submodule.subset_span ⟨i, rfl⟩)

theorem mem_span_iff_lincomb (V : ι → E) (x : E) :
    x ∈ Submodule.span 𝕜 (Set.range V) ↔ ∃ c : ι → 𝕜, x = lincomb V c := by
  constructor
  · intro hx
    rw [Submodule.mem_span_range_iff_exists_fun] at hx
    obtain ⟨c, hc⟩ := hx
    exact ⟨c, hc.symm⟩
  · rintro ⟨c, rfl⟩; exact lincomb_mem_span V c

variable {ip : E → E → 𝕜} (h : IsInner ip)
include h

theorem IsInner.coefs_lincomb {κ : Type*} (W : κ → E) (V : ι → E) (c : ι → 𝕜) :
    coefs ip W (lincomb V c) = gram ip W V *ᵥ c := by
  funext i
  simp only [coefs, lincomb, h.sum_right, h.smul_right, Matrix.mulVec, dotProduct, gram,
    Matrix.of_apply]
  exact Finset.sum_congr rfl fun j _ => mul_comm _ _

theorem IsInner.coefs_add {κ : Type*} (W : κ → E) (a b : E) :
    coefs ip W (a + b) = coefs ip W a + coefs ip W b := by funext i; simp [coefs, h.add_right]

theorem IsInner.coefs_sub {κ : Type*} (W : κ → E) (a b : E) :
    coefs ip W (a - b) = coefs ip W a - coefs ip W b := by funext i; simp [coefs, h.sub_right]

theorem IsInner.coefs_smul {κ : Type*} (W : κ → E) (t : 𝕜) (a : E) :
    coefs ip W (t • a) = t • coefs ip W a := by funext i; simp [coefs, h.smul_right]

theorem IsInner.ip_lincomb_left (V : ι → E) (c : ι → 𝕜) (a : E) :
    ip (lincomb V c) a = star c ⬝ᵥ coefs ip V a := by
  simp only [lincomb, h.sum_left, h.smul_left, dotProduct, coefs]
  rfl

theorem IsInner.ip_lincomb_right (V : ι → E) (c : ι → 𝕜) (a : E) :
    ip a (lincomb V c) = star (coefs ip V a) ⬝ᵥ c := by
  simp only [lincomb, h.sum_right, h.smul_right, dotProduct]
  refine Finset.sum_congr rfl fun i _ => ?_
  rw [mul_comm, Pi.star_apply]
  congr 1
  exact (h.conj_symm _ _).symm

theorem IsInner.gram_conjTranspose {κ μ : Type*} (W : κ → E) (V : μ → E) : (gram ip W V)ᴴ = gram ip V W := by
  ext i j
  simp only [Matrix.conjTranspose_apply, gram, Matrix.of_apply]
  exact h.conj_symm _ _

/-- changing the right family: `⟨W, V R⟩ = ⟨W,V⟩ R` -/
theorem IsInner.gram_right {μ κ : Type*} (W : κ → E) (V : ι → E) (R : Matrix ι μ 𝕜) :
    gram ip W (fun j => lincomb V fun i => R i j) = gram ip W V * R := by
  ext i j
  have := congrFun (h.coefs_lincomb W V fun i => R i j) i
  simpa [coefs, gram, Matrix.mul_apply, Matrix.mulVec, dotProduct] using this

theorem IsInner.gram_left {μ κ : Type*} [Fintype κ] (W : κ → E) {ν : Type*} (V : ν → E) (R : Matrix κ μ 𝕜) :
    gram ip (fun j => lincomb W fun i => R i j) V = Rᴴ * gram ip W V := by
  rw [← h.gram_conjTranspose, h.gram_right, Matrix.conjTranspose_mul, h.gram_conjTranspose]

theorem IsInner.coefs_left {κ μ : Type*} [Fintype κ] (W : κ → E) (R : Matrix κ μ 𝕜) (a : E) :
    coefs ip (fun j => lincomb W fun i => R i j) a = Rᴴ *ᵥ coefs ip W a := by
  funext j
  simp only [coefs, h.ip_lincomb_left, Matrix.mulVec, dotProduct, Matrix.conjTranspose_apply]
  rfl

end

section
variable {k : ℕ}

theorem upper_det {R : Matrix (Fin k) (Fin k) 𝕜} (hR : ∀ i j, j < i → R i j = 0) :
    R.det = ∏ i, R i i := by
  apply Matrix.det_of_isUpperTriangular
  intro i j hij
  exact hR i j hij

theorem upper_diag_ne_zero {R : Matrix (Fin k) (Fin k) 𝕜} (hR : ∀ i j, j < i → R i j = 0)
    (hd : R.det ≠ 0) : ¬ ∃ i, R i i = 0 := by
  rintro ⟨i, hi⟩
  rw [upper_det hR] at hd
  exact hd (Finset.prod_eq_zero (Finset.mem_univ i) hi)

theorem solveUpper_ok {R : Matrix (Fin k) (Fin k) 𝕜} (hR : ∀ i j, j < i → R i j = 0)
    (hd : R.det ≠ 0) (c : Fin k → 𝕜) : solveUpper R c = .ok (R⁻¹ *ᵥ c) := by
  unfold solveUpper
  rw [if_neg (upper_diag_ne_zero hR hd)]
  have : (Matrix.of fun i j => if j < i then 0 else R i j) = R := by
    ext i j
    simp only [Matrix.of_apply]
    split
    · next h => exact (hR i j h).symm
    · rfl
  rw [this]

theorem solveLower_ok {R : Matrix (Fin k) (Fin k) 𝕜} (hR : ∀ i j, j < i → R i j = 0)
    (hd : R.det ≠ 0) (c : Fin k → 𝕜) : solveLower Rᴴ c = .ok ((Rᴴ)⁻¹ *ᵥ c) := by
  unfold solveLower
  rw [if_neg]
  · have : (Matrix.of fun i j => if i < j then 0 else Rᴴ i j) = Rᴴ := by
      ext i j
      simp only [Matrix.of_apply]
      split
      · next h => simp [Matrix.conjTranspose_apply, hR j i h]
      · rfl
    rw [this]
  · rintro ⟨i, hi⟩
    refine upper_diag_ne_zero hR hd ⟨i, ?_⟩
    simpa [Matrix.conjTranspose_apply] using hi

theorem IsMatQr.det_ne {M Q R : Matrix (Fin k) (Fin k) 𝕜} (h : IsMatQr M Q R) (hM : M.det ≠ 0) :
    R.det ≠ 0 := by
  intro h0
  apply hM
  rw [← h.fact, Matrix.det_mul, h0, mul_zero]

theorem IsMatQr.inv {M Q R : Matrix (Fin k) (Fin k) 𝕜} (h : IsMatQr M Q R) :
    M⁻¹ = R⁻¹ * Qᴴ := by
  rw [← h.fact, Matrix.mul_inv_rev, Matrix.inv_eq_left_inv h.unitary]

end
end Krypy
