import Verif.Model.BoundPseudo
import Verif.Props.ResNorms
import Mathlib.Analysis.Matrix.Spectrum
import Mathlib.Algebra.Polynomial.Reverse
import Mathlib.LinearAlgebra.Matrix.Charpoly.Coeff
import Mathlib.LinearAlgebra.Matrix.ToLin

/-!
# Polynomials of an upper Hessenberg matrix applied to the first unit vector

The minimal residual polynomial is the reversed characteristic polynomial of the compression
`R⁻¹ Q[:i,:]ᴴ`, where `QR` is the factorisation of the first `i` columns; the residual polynomial of the
Galerkin method is the characteristic polynomial of the leading block.
-/

set_option linter.unusedSectionVars false

namespace Krypy
open Matrix Polynomial Finset
variable {𝕜 : Type*} [RCLike 𝕜]

section core
variable {E F : Type*} [AddCommGroup E] [Module 𝕜 E] [AddCommGroup F] [Module 𝕜 F]

/-- If `P` inverts `T ι` from the left, then `P` annihilates `χ.reverse(T) v` for every `χ` of degree `i` which
annihilates `P ι`. -/
theorem harmonic_core {T : E →ₗ[𝕜] E} {v : E} {P : E →ₗ[𝕜] F} {ι : F →ₗ[𝕜] E} {w : ℕ → F}
    {K : F →ₗ[𝕜] F} (hK : ∀ x, P (ι x) = K x) (hP : ∀ x, P (T (ι x)) = x) {i : ℕ} (hi : 1 ≤ i)
    (hw : ∀ j < i, ι (w j) = (T ^ j) v) {χ : 𝕜[X]} (hd : χ.natDegree = i) (h0 : aeval K χ = 0) :
    P (aeval T χ.reverse v) = 0 := by
  have hstep : ∀ j, j + 1 < i → K (w (j + 1)) = w j := fun j hj => by
    rw [← hK, hw _ hj, pow_succ', Module.End.mul_apply, ← hw j (by omega), hP]
  have hpow : ∀ s, s < i → (K ^ s) (w (i - 1)) = w (i - 1 - s) := by
    intro s
    induction s with
    | zero => intro _; simp
    | succ s ih =>
      intro hs
      rw [pow_succ', Module.End.mul_apply, ih (by omega)]
      have := hstep (i - 1 - (s + 1)) (by omega)
      rwa [show i - 1 - (s + 1) + 1 = i - 1 - s by omega] at this
  have key : ∀ j ≤ i, P ((T ^ j) v) = (K ^ (i - j)) (w (i - 1)) := by
    intro j hj
    rcases Nat.eq_zero_or_pos j with rfl | hj0
    · have h1 := hpow (i - 1) (by omega)
      have h2 := hw 0 (by omega)
      rw [show i - 0 = (i - 1) + 1 by omega, pow_succ', Module.End.mul_apply, h1, ← h2, hK]
      simp
    · obtain ⟨j, rfl⟩ : ∃ l, j = l + 1 := ⟨j - 1, by omega⟩
      rw [pow_succ', Module.End.mul_apply, ← hw j (by omega), hP, hpow _ (by omega)]
      congr 1
      omega
  have hd' : χ.reverse.natDegree < i + 1 := by
    have := χ.reverse_natDegree_le
    omega
  rw [aeval_eq_sum_range' hd', LinearMap.sum_apply, map_sum]
  have hterm : ∀ j ∈ range (i + 1), P ((χ.reverse.coeff j • T ^ j) v) =
      χ.coeff (i - j) • (K ^ (i - j)) (w (i - 1)) := by
    intro j hj
    have hj : j ≤ i := by simpa [Nat.lt_succ_iff] using hj
    rw [LinearMap.smul_apply, map_smul, key j hj, coeff_reverse, hd, revAt_le hj]
  rw [Finset.sum_congr rfl hterm]
  have h1 := Finset.sum_range_reflect (fun j => χ.coeff j • (K ^ j) (w (i - 1))) (i + 1)
  simp only [Nat.add_sub_cancel] at h1
  rw [h1]
  have h2 := congrArg (fun L : F →ₗ[𝕜] F => L (w (i - 1))) h0
  rw [aeval_eq_sum_range, hd] at h2
  simpa [LinearMap.sum_apply] using h2

end core

section hess
variable {N : ℕ}

/-- Extension by zero. -/
def extZ (N i : ℕ) : (Fin i → 𝕜) →ₗ[𝕜] (Fin N → 𝕜) where
  toFun w r := if h : r.val < i then w ⟨r, h⟩ else 0
  map_add' x y := by funext r; by_cases h : r.val < i <;> simp [h]
  map_smul' c x := by funext r; by_cases h : r.val < i <;> simp [h]

/-- The first `m` entries. -/
def topR (N m : ℕ) (h : m ≤ N) : (Fin N → 𝕜) →ₗ[𝕜] (Fin m → 𝕜) where
  toFun v r := v ⟨r, by omega⟩
  map_add' _ _ := rfl
  map_smul' _ _ := rfl

/-- The first unit vector. -/
def unit0 (N : ℕ) : Fin N → 𝕜 := fun r => if r.val = 0 then 1 else 0

/-- Upper Hessenberg matrices. -/
def HessMat (H : Matrix (Fin N) (Fin N) 𝕜) : Prop := ∀ r c : Fin N, c.val + 1 < r.val → H r c = 0

variable {H : Matrix (Fin N) (Fin N) 𝕜}

theorem extZ_topR {i : ℕ} (hi : i ≤ N) {v : Fin N → 𝕜} (hv : ∀ r : Fin N, i ≤ r.val → v r = 0) :
    extZ N i (topR N i hi v) = v := by
  funext r
  by_cases h : r.val < i
  · simp [extZ, topR, h]
  · simp [extZ, h, hv r (by omega)]

theorem topR_extZ {i : ℕ} (hi : i ≤ N) (w : Fin i → 𝕜) : topR N i hi (extZ N i w) = w := by
  funext r
  simp [extZ, topR]

/-- `H` shifts the support by at most one. -/
theorem HessMat.supp (hH : HessMat H) {v : Fin N → 𝕜} {i : ℕ} (hv : ∀ r : Fin N, i ≤ r.val → v r = 0) (r : Fin N)
    (hr : i + 1 ≤ r.val) : (H *ᵥ v) r = 0 := by
  simp only [Matrix.mulVec, dotProduct]
  apply Finset.sum_eq_zero
  intro c _
  by_cases h : c.val < i
  · rw [hH r c (by omega), zero_mul]
  · rw [hv c (by omega), mul_zero]

theorem HessMat.pow_supp (hH : HessMat H) (j : ℕ) (r : Fin N) (hr : j + 1 ≤ r.val) :
    ((H ^ j) *ᵥ unit0 N) r = 0 := by
  induction j generalizing r with
  | zero => simp [unit0]; omega
  | succ j ih =>
    rw [pow_succ', ← Matrix.mulVec_mulVec]
    exact hH.supp (fun r hr => ih r hr) r hr

theorem HessMat.aeval_supp (hH : HessMat H) {q : 𝕜[X]} {i : ℕ} (hq : q.natDegree < i) (r : Fin N) (hr : i ≤ r.val) :
    ((aeval H q) *ᵥ unit0 N) r = 0 := by
  rw [aeval_eq_sum_range' hq, Matrix.sum_mulVec, Finset.sum_apply]
  apply Finset.sum_eq_zero
  intro j hj
  rw [Matrix.smul_mulVec, Pi.smul_apply, hH.pow_supp j r (by have := mem_range.mp hj; omega), smul_zero]

theorem topR_mul {i m : ℕ} (hm : m ≤ N) (hi : i ≤ N) (w : Fin i → 𝕜) :
    topR N m hm (H *ᵥ extZ N i w) = (Matrix.of fun (r : Fin m) (c : Fin i) => natMat H r c) *ᵥ w := by
  funext r
  have hr : r.val < N := by omega
  simp only [topR, LinearMap.coe_mk, AddHom.coe_mk, Matrix.mulVec, dotProduct]
  have h1 : ∑ c : Fin N, H ⟨r, hr⟩ c * extZ N i w c =
      ∑ c ∈ range N, natMat H r c * (if h : c < i then w ⟨c, h⟩ else 0) := by
    rw [Finset.sum_range]
    apply Finset.sum_congr rfl
    intro c _
    simp [natMat, extZ, hr]
  rw [h1, ← Finset.sum_subset (Finset.range_subset_range.mpr hi), Finset.sum_range]
  · apply Finset.sum_congr rfl
    intro c _
    simp
  · intro c _ hc
    have : ¬ c < i := by simpa using hc
    simp [this]

/-- Splitting of a polynomial with constant term one. -/
theorem HessMat.split (hH : HessMat H) {q : 𝕜[X]} {i : ℕ} (hi : 1 ≤ i) (hiN : i ≤ N) (hq : q.natDegree ≤ i) (h0 : q.coeff 0 = 1) :
    ∃ y : Fin i → 𝕜, (aeval H q) *ᵥ unit0 N = unit0 N - H *ᵥ extZ N i y := by
  have hd : q.divX.natDegree < i := by rw [natDegree_divX_eq_natDegree_tsub_one]; omega
  refine ⟨-topR N i hiN ((aeval H q.divX) *ᵥ unit0 N), ?_⟩
  rw [map_neg, extZ_topR hiN fun r hr => hH.aeval_supp hd r hr, Matrix.mulVec_neg, sub_neg_eq_add]
  conv_lhs => rw [← q.divX_mul_X_add, mul_comm]
  simp only [map_add, map_mul, aeval_X, h0, map_one, Matrix.add_mulVec, Matrix.one_mulVec, ← Matrix.mulVec_mulVec]
  rw [add_comm]

theorem vecNorm_sq' {ι : Type*} [Fintype ι] (u : ι → 𝕜) : vecNorm u ^ 2 = ∑ i, ‖u i‖ ^ 2 :=
  Real.sq_sqrt (Finset.sum_nonneg fun _ _ => by positivity)

/-- Pythagoras. -/
theorem vecNorm_add_sq {ι : Type*} [Fintype ι] {u v : ι → 𝕜} (h : star u ⬝ᵥ v = 0) :
    vecNorm (u + v) ^ 2 = vecNorm u ^ 2 + vecNorm v ^ 2 := by
  have e : ∀ w : ι → 𝕜, ((vecNorm w ^ 2 : ℝ) : 𝕜) = star w ⬝ᵥ w := by
    intro w
    rw [vecNorm_sq', dotProduct]
    push_cast
    apply Finset.sum_congr rfl
    intro i _
    rw [Pi.star_apply, RCLike.star_def, RCLike.conj_mul]
  have h' : star v ⬝ᵥ u = 0 := by
    rw [star_dotProduct, h, star_zero]
  have : ((vecNorm (u + v) ^ 2 : ℝ) : 𝕜) = ((vecNorm u ^ 2 + vecNorm v ^ 2 : ℝ) : 𝕜) := by
    push_cast
    rw [← RCLike.ofReal_pow, ← RCLike.ofReal_pow, ← RCLike.ofReal_pow, e, e, e]
    simp [h, h']
  exact_mod_cast this

variable {i : ℕ} {X : Matrix (Fin (min (i + 1) N)) (Fin i) 𝕜} {Q : Matrix (Fin (min (i + 1) N)) (Fin i) 𝕜}
  {R : Matrix (Fin i) (Fin i) 𝕜}

/-- The compression of which the code computes the eigenvalues (deflation.py 638). -/
noncomputable def harmK (Q : Matrix (Fin (min (i + 1) N)) (Fin i) 𝕜) (R : Matrix (Fin i) (Fin i) 𝕜) : Matrix (Fin i) (Fin i) 𝕜 :=
  R⁻¹ * (Matrix.of fun r c => star (natMat Q c r) : Matrix (Fin i) (Fin i) 𝕜)

section
variable (hH : HessMat H) (hi : 1 ≤ i) (hiN : i ≤ N)
  (hX : (Matrix.of fun (r : Fin (min (i + 1) N)) (c : Fin i) => natMat H r c) = Q * R) (hQ : Qᴴ * Q = 1) (hR : R.det ≠ 0)
include hH hi hiN hX hQ hR

/-- `Q` annihilates the polynomial. -/
theorem harm_orth : Qᴴ *ᵥ topR N (min (i + 1) N) (by omega) ((aeval H (harmK Q R).charpoly.reverse) *ᵥ unit0 N) = 0 := by
  have hu : IsUnit R.det := isUnit_iff_ne_zero.mpr hR
  let P : (Fin N → 𝕜) →ₗ[𝕜] (Fin i → 𝕜) := (R⁻¹ * Qᴴ).mulVecLin ∘ₗ topR N (min (i + 1) N) (by omega)
  have hP : ∀ x, P (toLinAlgEquiv' H (extZ N i x)) = x := by
    intro x
    change (R⁻¹ * Qᴴ) *ᵥ topR N _ _ (H *ᵥ extZ N i x) = x
    rw [topR_mul _ hiN, hX, Matrix.mulVec_mulVec, Matrix.mul_assoc, ← Matrix.mul_assoc Qᴴ, hQ, Matrix.one_mul,
      Matrix.nonsing_inv_mul _ hu, Matrix.one_mulVec]
  have hK : ∀ x, P (extZ N i x) = toLinAlgEquiv' (harmK Q R) x := by
    intro x
    change (R⁻¹ * Qᴴ) *ᵥ topR N _ _ (extZ N i x) = harmK Q R *ᵥ x
    rw [harmK, ← Matrix.mulVec_mulVec, ← Matrix.mulVec_mulVec]
    congr 1
    funext r
    simp only [Matrix.mulVec, dotProduct]
    have h1 : ∑ c : Fin (min (i + 1) N), Qᴴ r c * topR N _ (by omega) (extZ N i x) c =
        ∑ c ∈ range (min (i + 1) N), star (natMat Q c r) * (if h : c < i then x ⟨c, h⟩ else 0) := by
      rw [Finset.sum_range]
      apply Finset.sum_congr rfl
      intro c _
      have hc : c.val ≤ i ∧ c.val < N := by omega
      simp [natMat, topR, extZ, hc]
    rw [h1, ← Finset.sum_subset (Finset.range_subset_range.mpr (show i ≤ min (i + 1) N by omega)), Finset.sum_range]
    · apply Finset.sum_congr rfl
      intro c _
      simp
    · intro c _ hc
      have : ¬ c < i := by simpa using hc
      simp [this]
  have hw : ∀ j < i, extZ N i (topR N i hiN ((H ^ j) *ᵥ unit0 N)) = (toLinAlgEquiv' H ^ j) (unit0 N) := by
    intro j hj
    rw [extZ_topR hiN fun r hr => hH.pow_supp j r (by omega), ← map_pow, toLinAlgEquiv'_apply]
  have h0 : aeval (toLinAlgEquiv' (harmK Q R)) (harmK Q R).charpoly = 0 := by
    rw [aeval_algHom_apply, Matrix.aeval_self_charpoly, map_zero]
  have hd : (harmK Q R).charpoly.natDegree = i := by rw [Matrix.charpoly_natDegree_eq_dim, Fintype.card_fin]
  have := harmonic_core hK hP hi hw hd h0
  rw [aeval_algHom_apply, toLinAlgEquiv'_apply] at this
  have h2 : R⁻¹ *ᵥ (Qᴴ *ᵥ topR N (min (i + 1) N) (by omega) ((aeval H (harmK Q R).charpoly.reverse) *ᵥ unit0 N)) = 0 := by
    rw [Matrix.mulVec_mulVec]
    exact this
  have h3 := congrArg (R *ᵥ ·) h2
  simpa [Matrix.mulVec_mulVec, ← Matrix.mul_assoc, Matrix.mul_nonsing_inv _ hu] using h3

/-- The reversed characteristic polynomial is a minimal residual polynomial. -/
theorem harm_least (u : Fin i → 𝕜) :
    vecNorm ((aeval H (harmK Q R).charpoly.reverse) *ᵥ unit0 N) ≤ vecNorm (unit0 N - H *ᵥ extZ N i u) := by
  have hd : (harmK Q R).charpoly.reverse.natDegree ≤ i := by
    refine (reverse_natDegree_le _).trans ?_
    rw [Matrix.charpoly_natDegree_eq_dim, Fintype.card_fin]
  have hc0 : (harmK Q R).charpoly.reverse.coeff 0 = 1 := by
    rw [coeff_zero_reverse, (Matrix.charpoly_monic _).leadingCoeff]
  have ho := harm_orth hH hi hiN hX hQ hR
  obtain ⟨y, hy⟩ := hH.split hi hiN hd hc0
  set v := (aeval H (harmK Q R).charpoly.reverse) *ᵥ unit0 N with hv
  have e : unit0 N - H *ᵥ extZ N i u = v + H *ᵥ extZ N i (y - u) := by
    rw [hy, map_sub, Matrix.mulVec_sub]
    abel
  have horth : star v ⬝ᵥ (H *ᵥ extZ N i (y - u)) = 0 := by
    set z := y - u
    have hm : min (i + 1) N ≤ N := by omega
    have e1 : star v ⬝ᵥ (H *ᵥ extZ N i z) = star (topR N _ hm v) ⬝ᵥ topR N _ hm (H *ᵥ extZ N i z) := by
      simp only [dotProduct]
      have h1 : ∑ r : Fin N, star v r * (H *ᵥ extZ N i z) r =
          ∑ r ∈ range N, (if h : r < N then star v ⟨r, h⟩ * (H *ᵥ extZ N i z) ⟨r, h⟩ else 0) := by
        rw [Finset.sum_range]
        simp
      rw [h1, ← Finset.sum_subset (Finset.range_subset_range.mpr hm), Finset.sum_range]
      · apply Finset.sum_congr rfl
        intro c _
        have : c.val < N := by omega
        simp [topR, this]
      · intro r hr hr'
        have h2 : r < N := by simpa using hr
        have h3 : min (i + 1) N ≤ r := by rw [mem_range] at hr'; omega
        rw [dif_pos h2, hH.supp (i := i) (fun r hr => by simp [extZ]; omega) ⟨r, h2⟩ (by simp; omega), mul_zero]
    rw [e1, topR_mul hm hiN, hX, ← Matrix.mulVec_mulVec, Matrix.dotProduct_mulVec, ← Matrix.conjTranspose_conjTranspose Q,
      ← Matrix.star_mulVec, ho]
    simp
  have := vecNorm_add_sq horth
  rw [← e] at this
  have hn : 0 ≤ vecNorm (unit0 N - H *ᵥ extZ N i u) := Real.sqrt_nonneg _
  nlinarith [sq_nonneg (vecNorm (H *ᵥ extZ N i (y - u))), Real.sqrt_nonneg (∑ r, ‖v r‖ ^ 2)]

end

/-- Reversal of a product of linear factors. -/
theorem reverse_linear (l : List 𝕜) : (l.map fun μ => (Polynomial.X - C μ : 𝕜[X])).prod.reverse =
    (l.map fun μ => (1 - C μ * Polynomial.X : 𝕜[X])).prod := by
  induction l with
  | nil => simp [Polynomial.reverse]
  | cons μ l ih =>
    rw [List.map_cons, List.prod_cons, reverse_mul_of_domain, ih, List.map_cons, List.prod_cons]
    congr 1
    ext n
    rw [coeff_reverse, natDegree_X_sub_C]
    match n with
    | 0 => simp [revAt_le]
    | 1 => simp [revAt_le, coeff_one]
    | n + 2 =>
      rw [revAt_eq_self_of_lt (by omega)]
      simp [coeff_X, coeff_one]

end hess

end Krypy
