import Verif.Props.Ritz
import Verif.Proofs.Chebyshev
import Verif.Model.Projection
import Mathlib.Analysis.InnerProductSpace.GramSchmidtOrtho
import Mathlib.Analysis.Matrix.Spectrum

/-! # The contracts assumed for the factorisation routines of numpy and scipy can be met

For every size and every argument there are results which obey the contracts used as hypotheses elsewhere. -/

set_option linter.unusedSectionVars false

namespace Krypy
variable {𝕜 E : Type*} [RCLike 𝕜] [AddCommGroup E] [Module 𝕜 E]
open scoped ComplexConjugate
open Matrix

/-- Every square matrix has a QR factorisation. -/
theorem exists_isMatQr {k : ℕ} (M : Matrix (Fin k) (Fin k) 𝕜) : ∃ Q R, IsMatQr M Q R := by
  let f : Fin k → EuclideanSpace 𝕜 (Fin k) := fun j => WithLp.toLp 2 fun i => M i j
  have hcard : Module.finrank 𝕜 (EuclideanSpace 𝕜 (Fin k)) = Fintype.card (Fin k) := by simp
  let b := InnerProductSpace.gramSchmidtOrthonormalBasis hcard f
  refine ⟨Matrix.of fun i j => b j i, Matrix.of fun i j => inner 𝕜 (b i) (f j), ?_, ?_, fun i j hij => ?_⟩
  · ext i j
    have h := congrArg (fun v => v i) (b.sum_repr' (f j))
    simp only [WithLp.ofLp_sum, Finset.sum_apply, WithLp.ofLp_smul, Pi.smul_apply, smul_eq_mul] at h
    rw [Matrix.mul_apply]
    simp only [Matrix.of_apply]
    rw [show M i j = (f j) i from rfl, ← h]
    exact Finset.sum_congr rfl fun l _ => mul_comm _ _
  · ext i j
    have h := orthonormal_iff_ite.mp b.orthonormal i j
    rw [Matrix.mul_apply, Matrix.one_apply, ← h]
    simp [PiLp.inner_apply, Matrix.conjTranspose_apply, mul_comm]
  · exact InnerProductSpace.gramSchmidtOrthonormalBasis_inv_triangular hcard f hij

/-- Linearly independent vectors have a QR factorisation. -/
theorem exists_isQr {ip : E → E → 𝕜} (h : IsInner ip) {k : ℕ} {X : Fin k → E} (hX : LinearIndependent 𝕜 X) :
    ∃ V R, IsQr ip X V R := by
  let : NormedAddCommGroup E := h.core.toNormedAddCommGroup
  let : InnerProductSpace 𝕜 E := InnerProductSpace.ofCore h.core.toCore
  let V := InnerProductSpace.gramSchmidtNormed 𝕜 X
  have hV : Orthonormal 𝕜 V := InnerProductSpace.gramSchmidtNormed_orthonormal hX
  refine ⟨V, Matrix.of fun i j => inner 𝕜 (V i) (X j), fun j => ?_, ?_, fun i j hij => ?_⟩
  · have hm : X j ∈ Submodule.span 𝕜 (Set.range V) := by
      rw [InnerProductSpace.span_gramSchmidtNormed_range, InnerProductSpace.span_gramSchmidt]
      exact Submodule.subset_span ⟨j, rfl⟩
    obtain ⟨c, hc⟩ := (Submodule.mem_span_range_iff_exists_fun 𝕜).mp hm
    unfold lincomb
    conv_lhs => rw [← hc]
    refine Finset.sum_congr rfl fun i _ => ?_
    congr 1
    simp only [Matrix.of_apply]
    rw [← hc, hV.inner_right_fintype]
  · ext i j
    exact orthonormal_iff_ite.mp hV i j
  · have := InnerProductSpace.gramSchmidt_inv_triangular 𝕜 X hij
    simp only [Matrix.of_apply, V, InnerProductSpace.gramSchmidtNormed, inner_smul_left, this, mul_zero]

/-- Every Hermitian matrix has an orthonormal basis of eigenvectors with real eigenvalues. -/
theorem exists_isEigh {ι : Type*} [Fintype ι] [DecidableEq ι] (M : Matrix ι ι 𝕜) (hM : M.IsHermitian) : ∃ e, IsEigh M e := by
  let b := hM.eigenvectorBasis
  have horth : ∀ i j, star (fun l => b i l) ⬝ᵥ (fun l => b j l) = if i = j then (1 : 𝕜) else 0 := by
    intro i j
    rw [← orthonormal_iff_ite.mp b.orthonormal i j]
    simp [PiLp.inner_apply, dotProduct, mul_comm]
  refine ⟨⟨fun i => ((hM.eigenvalues i : ℝ) : 𝕜), fun i l => b i l⟩, fun i => ⟨?_, ?_⟩, fun i => by simp, horth⟩
  · have := hM.mulVec_eigenvectorBasis i
    ext l
    have h1 := congrFun this l
    rw [Pi.smul_apply, RCLike.real_smul_eq_coe_mul] at h1
    exact h1
  · have := b.orthonormal.1 i
    rw [EuclideanSpace.norm_eq] at this
    exact this

end Krypy
