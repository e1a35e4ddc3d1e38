import Verif.Model.Norms
import Verif.Props.LinearSystem
import Verif.Props.Arnoldifyer
import Verif.Props.Arnoldi

/-!
# Property C61: norms of blocks and the diagnostic functions

`G` is the matrix of the inner product, `gformM G x y = xᴴ G y`.
-/

set_option linter.unusedSectionVars false

namespace Krypy
variable {𝕜 : Type*} [RCLike 𝕜] {N m n : ℕ}
open scoped ComplexConjugate
open Matrix

/-- The inner product `xᴴ G y` of single vectors. -/
def gformM (G : Matrix (Fin N) (Fin N) 𝕜) (x y : Fin N → 𝕜) : 𝕜 := star x ⬝ᵥ G *ᵥ y

/-- The quadratic form of a Gram matrix. -/
theorem quad_gram (G : Matrix (Fin N) (Fin N) 𝕜) (X Y : Matrix (Fin N) (Fin m) 𝕜) (u v : Fin m → 𝕜) :
    star u ⬝ᵥ (Xᴴ * G * Y) *ᵥ v = gformM G (X *ᵥ u) (Y *ᵥ v) := by
  unfold gformM
  rw [← Matrix.mulVec_mulVec, ← Matrix.mulVec_mulVec, Matrix.dotProduct_mulVec, Matrix.vecMul_conjTranspose, star_star]

/-- The spectral norm of a Hermitian matrix is its numerical radius. -/
theorem matNorm2_herm {P : Matrix (Fin m) (Fin m) 𝕜} (hP : Pᴴ = P) :
    IsLeast {c | 0 ≤ c ∧ ∀ u, |RCLike.re (star u ⬝ᵥ P *ᵥ u)| ≤ c * vecNorm u ^ 2} (matNorm2 P) := by
  refine ⟨⟨matNorm2_nonneg P, fun u => ?_⟩, ?_⟩
  · have h1 : ‖star u ⬝ᵥ P *ᵥ u‖ ≤ vecNorm u * vecNorm (P *ᵥ u) := by
      have := norm_inner_le_norm (𝕜 := 𝕜) (WithLp.toLp 2 u) (WithLp.toLp 2 (P *ᵥ u))
      rw [vecNorm_eq, vecNorm_eq]
      rwa [EuclideanSpace.inner_toLp_toLp, dotProduct_comm] at this
    calc |RCLike.re (star u ⬝ᵥ P *ᵥ u)| ≤ ‖star u ⬝ᵥ P *ᵥ u‖ := RCLike.abs_re_le_norm _
      _ ≤ vecNorm u * (matNorm2 P * vecNorm u) :=
        h1.trans (mul_le_mul_of_nonneg_left (vecNorm_mulVec_le P u) (vecNorm_nonneg u))
      _ = matNorm2 P * vecNorm u ^ 2 := by ring
  · rintro c ⟨hc, hb⟩
    refine matNorm2_le P hc fun u => ?_
    -- polarisation
    have hsym : ∀ x y : Fin m → 𝕜, RCLike.re (star y ⬝ᵥ P *ᵥ x) = RCLike.re (star x ⬝ᵥ P *ᵥ y) := by
      intro x y
      rw [← RCLike.conj_re (star x ⬝ᵥ P *ᵥ y)]
      congr 1
      change _ = star (star x ⬝ᵥ P *ᵥ y)
      rw [← Matrix.star_dotProduct_star, star_star, Matrix.star_mulVec, hP, ← Matrix.dotProduct_mulVec]
    have hpar : ∀ x y : Fin m → 𝕜, vecNorm (x + y) ^ 2 + vecNorm (x - y) ^ 2 = 2 * (vecNorm x ^ 2 + vecNorm y ^ 2) := by
      intro x y
      simp only [vecNorm_eq, WithLp.toLp_add, WithLp.toLp_sub]
      have := parallelogram_law_with_norm 𝕜 (WithLp.toLp 2 x : EuclideanSpace 𝕜 (Fin m)) (WithLp.toLp 2 y)
      nlinarith [this]
    have hpol : ∀ x y : Fin m → 𝕜, 4 * RCLike.re (star x ⬝ᵥ P *ᵥ y) ≤ c * (2 * (vecNorm x ^ 2 + vecNorm y ^ 2)) := by
      intro x y
      have h1 := le_of_abs_le (hb (x + y))
      have h2 := neg_le_of_abs_le (hb (x - y))
      have e : RCLike.re (star (x + y) ⬝ᵥ P *ᵥ (x + y)) - RCLike.re (star (x - y) ⬝ᵥ P *ᵥ (x - y)) =
          4 * RCLike.re (star x ⬝ᵥ P *ᵥ y) := by
        simp only [star_add, star_sub, Matrix.mulVec_add, Matrix.mulVec_sub, add_dotProduct, sub_dotProduct,
          dotProduct_add, dotProduct_sub, map_add, map_sub]
        rw [hsym x y]; ring
      rw [← hpar, mul_add]
      linarith
    by_cases hz : vecNorm (P *ᵥ u) = 0
    · rw [hz]; exact mul_nonneg hc (vecNorm_nonneg u)
    have hpos : 0 < vecNorm (P *ᵥ u) := lt_of_le_of_ne (vecNorm_nonneg _) (Ne.symm hz)
    have h3 := hpol (((vecNorm u : ℝ) : 𝕜) • P *ᵥ u) (((vecNorm (P *ᵥ u) : ℝ) : 𝕜) • u)
    rw [vecNorm_smul, vecNorm_smul, Matrix.mulVec_smul, star_smul, smul_dotProduct, dotProduct_smul, star_dot_self] at h3
    have e2 : RCLike.re (star ((vecNorm u : ℝ) : 𝕜) • ((vecNorm (P *ᵥ u) : ℝ) : 𝕜) • ((vecNorm (P *ᵥ u) ^ 2 : ℝ) : 𝕜)) =
        vecNorm u * vecNorm (P *ᵥ u) * vecNorm (P *ᵥ u) ^ 2 := by
      simp only [smul_eq_mul, RCLike.star_def, RCLike.conj_ofReal]
      norm_cast
      ring
    rw [e2] at h3
    simp only [RCLike.norm_ofReal, abs_of_nonneg (vecNorm_nonneg _)] at h3
    rcases eq_or_lt_of_le (vecNorm_nonneg u) with h0 | h0
    · have : u = 0 := vecNorm_eq_zero.mp h0.symm
      rw [this, Matrix.mulVec_zero]
      simp [vecNorm]
    · have h4 : vecNorm u * vecNorm (P *ᵥ u) ^ 2 * vecNorm (P *ᵥ u) ≤
          vecNorm u * vecNorm (P *ᵥ u) ^ 2 * (c * vecNorm u) := by nlinarith
      exact le_of_mul_le_mul_left h4 (by positivity)

/-! ## `norm` -/

theorem gformM_gram {B : IpB 𝕜 N} {G : Matrix (Fin N) (Fin N) 𝕜} (hB : B.Denotes G) (X : Matrix (Fin N) (Fin m) 𝕜)
    (u : Fin m → 𝕜) : star u ⬝ᵥ (innerB X X B) *ᵥ u = gformM G (X *ᵥ u) (X *ᵥ u) := by
  rw [hB, quad_gram]

theorem innerB_herm {B : IpB 𝕜 N} {G : Matrix (Fin N) (Fin N) 𝕜} (hB : B.Denotes G) (hG : Gᴴ = G)
    (X : Matrix (Fin N) (Fin m) 𝕜) : (innerB X X B)ᴴ = innerB X X B := by
  rw [hB, Matrix.conjTranspose_mul, Matrix.conjTranspose_mul, hG, Matrix.conjTranspose_conjTranspose, Matrix.mul_assoc]

theorem denotes_euclid_eq {G : Matrix (Fin N) (Fin N) 𝕜} (h : (IpB.euclid : IpB 𝕜 N).Denotes G) : G = 1 := by
  have := h N N 1 1
  simpa [innerB] using this.symm

theorem matNorm2_gram (X : Matrix (Fin N) (Fin m) 𝕜) : matNorm2 (Xᴴ * X) = matNorm2 X ^ 2 := by
  rw [sq]; exact Matrix.l2_opNorm_conjTranspose_mul_self X

/-- For a Hermitian form `norm` never raises an error and returns the square root of the norm of the Gram matrix (also in the
Euclidean case, where the code takes another path). -/
theorem norm1B_herm {B : IpB 𝕜 N} {G : Matrix (Fin N) (Fin N) 𝕜} (hB : B.Denotes G) (hG : Gᴴ = G)
    (X : Matrix (Fin N) (Fin m) 𝕜) : norm1B X B = .ok (Real.sqrt (matNorm2 (innerB X X B))) := by
  have key : norm2B X X B = .ok (Real.sqrt (matNorm2 (innerB X X B))) := by
    unfold norm2B
    dsimp only
    rw [if_neg]
    have hd : ∀ i, RCLike.im (innerB X X B i i) = 0 := fun i => by
      have := congrFun (congrFun (innerB_herm hB hG X) i) i
      rw [Matrix.conjTranspose_apply] at this
      exact RCLike.conj_eq_iff_im.mp this
    simp only [hd, not_lt]
    have e : vecNorm (fun _ : Fin m => (0 : ℝ)) = 0 := by simp [vecNorm]
    rw [e]
    exact mul_nonneg (vecNorm_nonneg _) (by norm_num)
  cases B with
  | euclid =>
    unfold norm1B
    simp only [innerB]
    rw [matNorm2_gram, Real.sqrt_sq (matNorm2_nonneg X)]
  | op B => exact key
  | callable f => exact key

theorem isInner_herm {G : Matrix (Fin N) (Fin N) 𝕜} (h : IsInner (gformM G)) : Gᴴ = G := by
  ext i j
  have := h.conj_symm (Pi.single j 1) (Pi.single i 1)
  unfold gformM at this
  simpa [Matrix.mulVec_single, Pi.star_single] using this

/-- The Euclidean inner product. -/
theorem isInner_one : IsInner (gformM (1 : Matrix (Fin N) (Fin N) 𝕜)) := by
  refine ⟨fun x y z => by simp [gformM], fun x c y => by simp [gformM], fun x y => ?_, fun x hx => ?_⟩
  · simp only [gformM, Matrix.one_mulVec]
    change star (star x ⬝ᵥ y) = _
    rw [← Matrix.star_dotProduct_star, star_star]
  · simp only [gformM, Matrix.one_mulVec, star_dot_self, RCLike.ofReal_re]
    have : vecNorm x ≠ 0 := fun h => hx (vecNorm_eq_zero.mp h)
    positivity

theorem nrm_one (x : Fin N → 𝕜) : nrm (gformM (1 : Matrix (Fin N) (Fin N) 𝕜)) x = vecNorm x := by
  unfold nrm nsq gformM
  rw [Matrix.one_mulVec, star_dot_self, RCLike.ofReal_re, Real.sqrt_sq (vecNorm_nonneg x)]

/-- C61: `norm(X, ip_B=B)` is the norm of `X` as an operator from the Euclidean space to the space with the inner product
`ip_B`: the least `c` with `‖X u‖_B ≤ c ‖u‖` for all `u`.  No error is raised. -/
theorem C61_norm {B : IpB 𝕜 N} {G : Matrix (Fin N) (Fin N) 𝕜} (hB : B.Denotes G) (hG : IsInner (gformM G))
    (X : Matrix (Fin N) (Fin m) 𝕜) : ∃ r, norm1B X B = .ok r ∧
      IsLeast {c | 0 ≤ c ∧ ∀ u, nrm (gformM G) (X *ᵥ u) ≤ c * vecNorm u} r := by
  refine ⟨_, norm1B_herm hB (isInner_herm hG) X, ?_⟩
  obtain ⟨⟨-, h2⟩, h3⟩ := matNorm2_herm (innerB_herm hB (isInner_herm hG) X)
  have hq : ∀ u, RCLike.re (star u ⬝ᵥ (innerB X X B) *ᵥ u) = nrm (gformM G) (X *ᵥ u) ^ 2 := fun u => by
    rw [gformM_gram hB, hG.nrm_sq]; rfl
  simp only [hq, abs_pow, sq_abs] at h2 h3
  refine ⟨⟨Real.sqrt_nonneg _, fun u => ?_⟩, ?_⟩
  · rw [← sq_le_sq₀ (nrm_nonneg _ _) (mul_nonneg (Real.sqrt_nonneg _) (vecNorm_nonneg _)), mul_pow,
      Real.sq_sqrt (matNorm2_nonneg _)]
    exact h2 u
  · rintro c ⟨hc, hb⟩
    rw [← Real.sqrt_sq hc]
    refine Real.sqrt_le_sqrt (h3 ⟨sq_nonneg c, fun u => ?_⟩)
    rw [← mul_pow]
    exact pow_le_pow_left₀ (nrm_nonneg _ _) (hb u) 2

/-- C61: the norm of a single column is the norm induced by the inner product. -/
theorem C61_norm_single {B : IpB 𝕜 N} {G : Matrix (Fin N) (Fin N) 𝕜} (hB : B.Denotes G) (hG : IsInner (gformM G))
    (x : Fin N → 𝕜) : norm1B (colv x) B = .ok (nrm (gformM G) x) := by
  obtain ⟨r, hr, ⟨h0, h1⟩, h2⟩ := C61_norm hB hG (colv x)
  rw [hr]
  congr 1
  have hx : ∀ u : Fin 1 → 𝕜, colv x *ᵥ u = u 0 • x := fun u => by
    ext i; simp [colv, Matrix.mulVec, dotProduct, mul_comm]
  have hv : ∀ u : Fin 1 → 𝕜, vecNorm u = ‖u 0‖ := fun u => by simp [vecNorm]
  refine le_antisymm (h2 ⟨nrm_nonneg _ _, fun u => ?_⟩) ?_
  · rw [hx, hv, hG.nrm_smul, mul_comm]
  · have := h1 fun _ => 1
    rw [hx, hv] at this
    simpa using this

/-- C61: `norm(x, y, ip_B)` of single columns is the function `npNorm` which the solver models use. -/
theorem C61_norm_pair (B : IpB 𝕜 N) (x y : Fin N → 𝕜) : norm2B (colv x) (colv y) B = npNorm (inner1 B x y) := by
  have hM : ∀ M : Matrix (Fin 1) (Fin 1) 𝕜, matNorm2 M = ‖M 0 0‖ := by
    intro M
    have hv : ∀ u : Fin 1 → 𝕜, vecNorm u = ‖u 0‖ := fun u => by simp [vecNorm]
    have hm : ∀ u : Fin 1 → 𝕜, (M *ᵥ u) 0 = M 0 0 * u 0 := fun u => by simp [Matrix.mulVec, dotProduct]
    refine le_antisymm (matNorm2_le M (norm_nonneg _) fun u => ?_) ?_
    · rw [hv, hv, hm, norm_mul]
    · have := vecNorm_mulVec_le M fun _ => 1
      rw [hv, hv, hm] at this
      simpa using this
  unfold norm2B npNorm inner1
  dsimp only
  have e1 : vecNorm (fun i => innerB (colv x) (colv y) B i i) = ‖innerB (colv x) (colv y) B 0 0‖ := by simp [vecNorm]
  have e2 : vecNorm (fun i => RCLike.im (innerB (colv x) (colv y) B i i)) = |RCLike.im (innerB (colv x) (colv y) B 0 0)| := by
    simp [vecNorm, Real.sqrt_sq_eq_abs]
  rw [e1, e2, hM]

/-- C61: when `norm` raises `InnerProductError`, for any `ip_B`. -/
theorem C61_norm_error_iff (X Y : Matrix (Fin N) (Fin m) 𝕜) (B : IpB 𝕜 N) (e : Err) :
    norm2B X Y B = .error e ↔ e = .innerProductError ∧
      1e-10 * Real.sqrt (∑ i, ‖innerB X Y B i i‖ ^ 2) < Real.sqrt (∑ i, RCLike.im (innerB X Y B i i) ^ 2) := by
  unfold norm2B vecNorm
  dsimp only
  simp only [Real.norm_eq_abs, sq_abs]
  rw [mul_comm (1e-10 : ℝ)]
  split
  · next h => simp only [Except.error.injEq, eq_comm (a := e)]; exact ⟨fun h2 => ⟨h2, h⟩, fun h2 => h2.1⟩
  · next h => simp only [reduceCtorEq, false_iff, not_and]; exact fun _ h2 => h h2

/-- Finding (C61): the check of `norm` looks at imaginary parts only, so every Hermitian `ip_B` is accepted: for
`ip_B = -I` (negative definite) the result is the Euclidean norm.  `norm_squared` detects this for single columns. -/
theorem C61_norm_indefinite_counterexample (x : Fin N → 𝕜) (hx : x ≠ 0) :
    norm1B (colv x) (.op (-1)) = .ok (vecNorm x) ∧
    normSquared (innerB (colv x) (colv x) (.op (-1) : IpB 𝕜 N)) = .error .innerProductError := by
  have hD : (IpB.op (-1 : Matrix (Fin N) (Fin N) 𝕜)).Denotes (-1) := denotes_op (by simp)
  have hE : innerB (colv x) (colv x) (.op (-1) : IpB 𝕜 N) = -innerB (colv x) (colv x) (.euclid : IpB 𝕜 N) := by
    rw [hD, denotes_euclid]; simp
  have h1 : matNorm2 (-innerB (colv x) (colv x) (.euclid : IpB 𝕜 N)) = matNorm2 (innerB (colv x) (colv x) (.euclid : IpB 𝕜 N)) := by
    unfold matNorm2
    open scoped Matrix.Norms.L2Operator in
    exact norm_neg (innerB (colv x) (colv x) (.euclid : IpB 𝕜 N))
  have h00 : innerB (colv x) (colv x) (.euclid : IpB 𝕜 N) 0 0 = ((vecNorm x ^ 2 : ℝ) : 𝕜) := by
    rw [← star_dot_self]
    simp [innerB, Matrix.mul_apply, colv, dotProduct]
  have hone := isInner_one (𝕜 := 𝕜) (N := N)
  constructor
  · rw [norm1B_herm hD (by simp), hE, h1, ← norm1B_herm denotes_euclid (by simp), C61_norm_single denotes_euclid hone]
    congr 1
    exact nrm_one x
  · unfold normSquared
    rw [if_pos]
    refine ⟨⟨rfl, rfl⟩, 0, 0, .inr ?_⟩
    rw [hE, Matrix.neg_apply, h00]
    simp only [map_neg, RCLike.ofReal_re, Left.neg_neg_iff]
    have : vecNorm x ≠ 0 := fun h => hx (vecNorm_eq_zero.mp h)
    positivity

/-- C61: `norm_squared` of a block is the square of `norm`; no error is raised. -/
theorem C61_norm_squared {B : IpB 𝕜 N} {G : Matrix (Fin N) (Fin N) 𝕜} (hB : B.Denotes G) (hG : IsInner (gformM G))
    (X : Matrix (Fin N) (Fin m) 𝕜) {r : ℝ} (hr : norm1B X B = .ok r) : normSquared (innerB X X B) = .ok (r ^ 2) := by
  rw [norm1B_herm hB (isInner_herm hG)] at hr
  rw [← Except.ok.inj hr, Real.sq_sqrt (matNorm2_nonneg _)]
  unfold normSquared
  rw [if_neg]
  rintro ⟨⟨rfl, -⟩, i, j, h⟩
  obtain rfl : i = 0 := Subsingleton.elim _ _
  obtain rfl : j = 0 := Subsingleton.elim _ _
  have h0 : innerB X X B 0 0 = gformM G (X *ᵥ fun _ => 1) (X *ᵥ fun _ => 1) := by
    rw [← gformM_gram hB]; simp [dotProduct, Matrix.mulVec]
  rw [h0] at h
  rcases h with h | h
  · rw [hG.im_self, abs_zero] at h
    exact absurd h (not_lt.mpr (mul_nonneg (norm_nonneg _) (by norm_num)))
  · exact absurd h (not_lt.mpr (hG.nsq_nonneg _))

/-! ## `orthonormality` -/

/-- C61: `orthonormality(V, ip_B)` is the least `δ` such that the squared norm of every combination `V u` agrees with the
squared norm of its coefficients up to `δ ‖u‖²`. -/
theorem C61_orthonormality {B : IpB 𝕜 N} {G : Matrix (Fin N) (Fin N) 𝕜} (hB : B.Denotes G) (hG : IsInner (gformM G))
    (V : Matrix (Fin N) (Fin n) 𝕜) : ∃ δ, orthonormality V B = .ok δ ∧
      IsLeast {c | 0 ≤ c ∧ ∀ u, |vecNorm u ^ 2 - nrm (gformM G) (V *ᵥ u) ^ 2| ≤ c * vecNorm u ^ 2} δ := by
  refine ⟨_, rfl, ?_⟩
  have hh : (1 - innerB V V B)ᴴ = 1 - innerB V V B := by
    rw [Matrix.conjTranspose_sub, Matrix.conjTranspose_one, innerB_herm hB (isInner_herm hG)]
  have hq : ∀ u, RCLike.re (star u ⬝ᵥ (1 - innerB V V B) *ᵥ u) = vecNorm u ^ 2 - nrm (gformM G) (V *ᵥ u) ^ 2 := fun u => by
    rw [Matrix.sub_mulVec, Matrix.one_mulVec, dotProduct_sub, gformM_gram hB, star_dot_self, map_sub, RCLike.ofReal_re,
      hG.nrm_sq]
    rfl
  have := matNorm2_herm hh
  simpa only [hq] using this

theorem matNorm2_eq_zero {ι κ : Type*} [Fintype ι] [Fintype κ] [DecidableEq κ] (M : Matrix ι κ 𝕜) : matNorm2 M = 0 ↔ M = 0 := by
  unfold matNorm2
  open scoped Matrix.Norms.L2Operator in
  exact norm_eq_zero (a := M)

/-- C61: `orthonormality` is zero exactly for orthonormal vectors; if it is below one, the vectors are linearly independent. -/
theorem C61_orthonormality_zero {B : IpB 𝕜 N} {G : Matrix (Fin N) (Fin N) 𝕜} (hB : B.Denotes G) (hG : IsInner (gformM G))
    (V : Matrix (Fin N) (Fin n) 𝕜) {δ : ℝ} (h : orthonormality V B = .ok δ) :
    (δ = 0 ↔ ∀ i j, gformM G (fun l => V l i) (fun l => V l j) = if i = j then 1 else 0) ∧
    (δ < 1 → ∀ u, V *ᵥ u = 0 → u = 0) := by
  have hcol : ∀ i j, innerB V V B i j = gformM G (fun l => V l i) (fun l => V l j) := fun i j => by
    rw [hB]
    have := quad_gram G V V (Pi.single i 1) (Pi.single j 1)
    rw [Matrix.mulVec_single_one, Matrix.mulVec_single_one, Matrix.mulVec_single_one] at this
    refine Eq.trans ?_ this
    simp [Pi.star_single, -Matrix.transpose_mul, Matrix.col_apply]
  constructor
  · have hd : δ = matNorm2 (1 - innerB V V B) := (Except.ok.inj h).symm
    rw [hd, matNorm2_eq_zero, sub_eq_zero]
    constructor
    · intro h1 i j
      rw [← hcol, ← h1, Matrix.one_apply]
    · intro h1
      ext i j
      rw [hcol, h1, Matrix.one_apply]
  · intro h1 u hu
    obtain ⟨δ', h2, ⟨-, h3⟩, -⟩ := C61_orthonormality hB hG V
    rw [h] at h2
    obtain rfl := Except.ok.inj h2
    have := h3 u
    rw [hu, hG.nrm_eq_zero.mpr rfl] at this
    have h4 : vecNorm u ^ 2 ≤ δ * vecNorm u ^ 2 := by
      simpa using (le_abs_self _).trans this
    by_contra hne
    have h5 : 0 < vecNorm u ^ 2 := by
      have : vecNorm u ≠ 0 := fun h => hne (vecNorm_eq_zero.mp h)
      positivity
    nlinarith

/-! ## `arnoldi_res` -/

/-- The shape convention of `arnoldi_res`: `H` has as many columns as `V` (invariant case) or one less. -/
def ResShape (n m : ℕ) : Prop := n = m ∨ n = m + 1

/-- C61: for the two documented shapes of `H`, `arnoldi_res(A, V, H, ip_B)` is the least `c` such that for all `u`:
`‖∑ⱼ uⱼ (A vⱼ - ∑ᵢ Hᵢⱼ vᵢ)‖ ≤ c ‖u‖`; it vanishes iff the Arnoldi relation holds.  Other shapes are errors. -/
theorem C61_arnoldi_res {B : IpB 𝕜 N} {G : Matrix (Fin N) (Fin N) 𝕜} (hB : B.Denotes G) (hG : IsInner (gformM G))
    (A : Matrix (Fin N) (Fin N) 𝕜) (V : Matrix (Fin N) (Fin n) 𝕜) (H : Matrix (Fin n) (Fin m) 𝕜) :
    (¬ ResShape n m → arnoldiRes A V H B = .error .valueError) ∧
    ∀ hs : ResShape n m, ∃ r, arnoldiRes A V H B = .ok r ∧
      IsLeast {c | 0 ≤ c ∧ ∀ u : Fin m → 𝕜, nrm (gformM G) (∑ j : Fin m, u j •
        (A *ᵥ (fun l => V l ⟨j, by rcases hs with h | h <;> omega⟩) - ∑ i, H i j • fun l => V l i)) ≤ c * vecNorm u} r ∧
      (r = 0 ↔ ∀ j : Fin m, A *ᵥ (fun l => V l ⟨j, by rcases hs with h | h <;> omega⟩) = ∑ i, H i j • fun l => V l i) := by
  constructor
  · intro hs
    unfold arnoldiRes
    rw [dif_neg fun h => hs (.inl h), dif_neg fun h => hs (.inr h)]
  intro hs
  -- the residual matrix in both cases
  have key : ∃ R : Matrix (Fin N) (Fin m) 𝕜, arnoldiRes A V H B = norm1B R B ∧ ∀ j, (fun l => R l j) =
      A *ᵥ (fun l => V l ⟨j, by rcases hs with h | h <;> omega⟩) - ∑ i, H i j • fun l => V l i := by
    have hVH : ∀ j : Fin m, (fun l => (V * H) l j) = ∑ i, H i j • fun l => V l i := fun j => by
      ext l
      simp [Matrix.mul_apply, mul_comm]
    unfold arnoldiRes
    by_cases h : n = m
    · rw [dif_pos h]
      refine ⟨_, rfl, fun j => ?_⟩
      rw [← hVH]
      ext l
      simp [Matrix.mul_apply, Matrix.mulVec, dotProduct, Fin.cast]
    · have h' : n = m + 1 := hs.resolve_left h
      rw [dif_neg h, dif_pos h']
      refine ⟨_, rfl, fun j => ?_⟩
      rw [← hVH]
      ext l
      simp [Matrix.mul_apply, Matrix.mulVec, dotProduct, Fin.cast]
  obtain ⟨R, hR, hcol⟩ := key
  obtain ⟨r, hr, hleast⟩ := C61_norm hB hG R
  have hmv : ∀ u, R *ᵥ u = ∑ j : Fin m, u j • (A *ᵥ (fun l => V l ⟨j, by rcases hs with h | h <;> omega⟩) -
      ∑ i, H i j • fun l => V l i) := fun u => by
    simp only [← hcol]
    ext l
    simp [Matrix.mulVec, dotProduct, mul_comm]
  refine ⟨r, by rw [hR, hr], by simpa only [hmv] using hleast, ?_⟩
  constructor
  · rintro rfl j
    have h1 := hleast.1.2 (Pi.single j 1)
    rw [zero_mul, Matrix.mulVec_single_one] at h1
    have h2 := hG.nrm_eq_zero.mp (le_antisymm h1 (nrm_nonneg _ _))
    exact sub_eq_zero.mp ((hcol j).symm.trans h2)
  · intro h
    refine le_antisymm (hleast.2 ⟨le_refl 0, fun u => ?_⟩) hleast.1.1
    rw [hmv, zero_mul]
    simp only [h, sub_self, smul_zero, Finset.sum_const_zero, hG.nrm_eq_zero.mpr rfl, le_refl]

/-! ## The diagnostics of an Arnoldi run -/

/-- The array `V` returned by `get()`. -/
def Arn.arrV (s : Arn 𝕜 (Fin N → 𝕜)) : Matrix (Fin N) (Fin s.get.basis) 𝕜 := Matrix.of fun l j => s.V j l

/-- The array `H` returned by `get()`. -/
def Arn.arrH (s : Arn 𝕜 (Fin N → 𝕜)) : Matrix (Fin s.get.basis) (Fin s.get.cols) 𝕜 := Matrix.of fun i j => s.H i j

/-- C61: for the arrays of an unpreconditioned Arnoldi run (any number of steps of any variant except Householder) both
diagnostic functions return zero in exact arithmetic; if the space was flagged invariant, `arnoldi_res` is at most
`1e-14 ‖H‖`. -/
theorem C61_arnoldi {B : IpB 𝕜 N} {G : Matrix (Fin N) (Fin N) 𝕜} (hB : B.Denotes G) (Am : Matrix (Fin N) (Fin N) 𝕜)
    {c : ArnCfg 𝕜 (Fin N → 𝕜)} (hcA : c.A = Matrix.toLin' Am) (hcM : c.M = none) (hcip : c.ip = gformM G) (hc : ArnHyp c)
    {v : Fin N → 𝕜} {s : Arn 𝕜 (Fin N → 𝕜)} (h : ArnReach c v s) :
    orthonormality s.arrV B = .ok 0 ∧
    (s.invariant = false → arnoldiRes Am s.arrV s.arrH B = .ok 0) ∧
    (s.invariant = true → ∃ r, arnoldiRes Am s.arrV s.arrH B = .ok r ∧ r ≤ 1e-14 * specNorm s.H (s.iter + 1) s.iter) := by
  have hG : IsInner (gformM G) := hcip ▸ hc.ls.inner
  have hMop : c.Mop = LinearMap.id := by simp [ArnCfg.Mop, hcM]
  obtain ⟨-, hR, -, hni, hinv⟩ := C17_arnoldi hc h
  have hPV : ∀ i < s.get.basis, s.P i = s.V i := fun i hi => by rw [hR.VM i hi, hMop]; rfl
  have hcol : ∀ j : Fin s.get.basis, (fun l => s.arrV l j) = s.V j := fun j => rfl
  have hA : ∀ x, Am *ᵥ x = c.A x := fun x => by rw [hcA]; rfl
  have hsum : ∀ (j : Fin s.get.cols) (f : ℕ → Fin N → 𝕜), ∑ i : Fin s.get.basis, s.arrH i j • f i =
      ∑ i ∈ Finset.range s.get.basis, s.H i j • f i := fun j f =>
    Fin.sum_univ_eq_sum_range (fun i => s.H i j • f i) s.get.basis
  refine ⟨?_, fun hi => ?_, fun hi => ?_⟩
  · obtain ⟨δ, hδ, -⟩ := C61_orthonormality hB hG s.arrV
    rw [hδ, (C61_orthonormality_zero hB hG s.arrV hδ).1.mpr fun i j => ?_]
    rw [hcol, hcol, ← hPV i i.2, ← hcip, hR.orth i i.2 j j.2]
    simp [Fin.ext_iff]
  · obtain ⟨h1, h2, -⟩ := hni hi
    have hs : ResShape s.get.basis s.get.cols := .inr (by omega)
    obtain ⟨r, hr, -, hz⟩ := (C61_arnoldi_res hB hG Am s.arrV s.arrH).2 hs
    rw [hr, hz.mpr fun j => ?_]
    have hj : (j : ℕ) + 1 < s.get.basis := by have := j.2; omega
    rw [hA]
    refine (hR.rel j hj).trans ?_
    simp only [hcol]
    rw [hsum j s.V]
    exact Finset.sum_congr rfl fun i hi2 => by rw [hPV i (Finset.mem_range.mp hi2)]
  · obtain ⟨h1, h2, h3⟩ := hinv hi
    have hs : ResShape s.get.basis s.get.cols := .inl (by omega)
    obtain ⟨r, hr, hleast, -⟩ := (C61_arnoldi_res hB hG Am s.arrV s.arrH).2 hs
    refine ⟨r, hr, hleast.2 ⟨mul_nonneg (by norm_num) (specNorm_nonneg _ _ _), fun u => ?_⟩⟩
    simp only [hcol, hA]
    -- all columns except the last one vanish
    have hzero : ∀ j : Fin s.get.cols, (j : ℕ) + 1 < s.iter →
        c.A (s.V j) - ∑ i, s.arrH i j • s.V (i : Fin s.get.basis) = 0 := by
      intro j hj
      rw [hsum j s.V, hR.rel j (by omega), sub_eq_zero]
      exact Finset.sum_congr rfl fun i hi2 => by rw [hPV i (Finset.mem_range.mp hi2)]
    rcases Nat.eq_zero_or_pos s.iter with h0 | h0
    · have hem : IsEmpty (Fin s.get.cols) := by rw [h2, h0]; infer_instance
      rw [Finset.univ_eq_empty, Finset.sum_empty, hG.nrm_eq_zero.mpr rfl]
      exact mul_nonneg (mul_nonneg (by norm_num) (specNorm_nonneg _ _ _)) (vecNorm_nonneg u)
    · let jl : Fin s.get.cols := ⟨s.iter - 1, by omega⟩
      obtain ⟨w, hw1, -, -, hw4⟩ := h3 jl (by simp [jl]; omega)
      rw [Finset.sum_eq_single jl (fun j _ hj => ?_) (by simp)]
      · have e : c.A (s.V jl) - ∑ i, s.arrH i jl • s.V (i : Fin s.get.basis) = w := by
          rw [hsum jl s.V, hw1, h1, add_comm, sub_eq_iff_eq_add]
          congr 1
          exact Finset.sum_congr rfl fun i hi2 => by rw [hPV i (by rw [h1]; exact Finset.mem_range.mp hi2)]
        rw [e, hG.nrm_smul]
        have hwn : nrm (gformM G) w ≤ 1e-14 * specNorm s.H (s.iter + 1) s.iter := by
          have : c.g = gformM G := by
            funext x y; simp only [ArnCfg.g, hMop, hcip]; rfl
          rwa [this] at hw4
        have hu : ‖u jl‖ ≤ vecNorm u := by
          unfold vecNorm
          exact Real.le_sqrt_of_sq_le (Finset.single_le_sum (f := fun i => ‖u i‖ ^ 2) (fun _ _ => sq_nonneg _) (Finset.mem_univ jl))
        rw [mul_comm]
        exact mul_le_mul hwn hu (norm_nonneg _) (mul_nonneg (by norm_num) (specNorm_nonneg _ _ _))
      · rw [hzero j ?_, smul_zero]
        have h5 := j.2
        have h6 : (j : ℕ) ≠ s.iter - 1 := fun h7 => hj (Fin.ext h7)
        omega

/-! ## `norm_MMlr` -/

/-- Finding (C61): `norm_MMlr` works for exact solutions only; in every other case it fails with `TypeError`, because `norm`
has no argument `inner_product`. -/
theorem C61_norm_MMlr_counterexample (Ml A Mr : Matrix (Fin N) (Fin N) 𝕜) (b x0 yk : Matrix (Fin N) (Fin 1) 𝕜) :
    (Ml * (b - A * (x0 + Mr * yk)) = 0 → normMMlr Ml A Mr b x0 yk = .ok (x0 + Mr * yk, 0, 0, 0)) ∧
    (Ml * (b - A * (x0 + Mr * yk)) ≠ 0 → normMMlr Ml A Mr b x0 yk = .error .typeError) := by
  unfold normMMlr norm1B
  dsimp only
  constructor
  · intro h
    rw [if_pos ((matNorm2_eq_zero _).mpr h), h]
  · intro h
    rw [if_neg fun h2 => h ((matNorm2_eq_zero _).mp h2)]

/-! ## `shape_vecs` -/

section shape
variable {F O : Type*}

/-- What is returned for one argument: arrays with one axis become columns, everything else is unchanged. -/
def ShArg.column : ShArg F O → ShArg F O
  | .nd [n] data => .nd [n, 1] data
  | a => a

/-- `type(arg) is ndarray` with a number of axes other than one. -/
def ShArg.notFlat : ShArg F O → Prop
  | .nd sh _ => sh.length ≠ 1
  | .other _ => False

theorem shapeVecsLoop_eq (args : List (ShArg F O)) (flat : Bool) (ret : List (ShArg F O)) :
    (shapeVecsLoop args flat ret).2 = ret ++ args.map ShArg.column ∧
    ((shapeVecsLoop args flat ret).1 = true ↔ flat = true ∧ ∀ a ∈ args, ¬ a.notFlat) := by
  induction args generalizing flat ret with
  | nil => simp [shapeVecsLoop]
  | cons a args ih =>
    match a with
    | .nd [n] data =>
      obtain ⟨h1, h2⟩ := ih flat (ret ++ [shapeVec n data])
      simp only [shapeVecsLoop, h1, h2]
      simp [ShArg.column, shapeVec, ShArg.notFlat]
    | .nd [] data =>
      obtain ⟨h1, h2⟩ := ih false (ret ++ [.nd [] data])
      simp only [shapeVecsLoop, h1, h2]
      simp [ShArg.column, ShArg.notFlat]
    | .nd (i :: j :: sh) data =>
      obtain ⟨h1, h2⟩ := ih false (ret ++ [.nd (i :: j :: sh) data])
      simp only [shapeVecsLoop, h1, h2]
      simp [ShArg.column, ShArg.notFlat]
    | .other o =>
      obtain ⟨h1, h2⟩ := ih flat (ret ++ [.other o])
      simp only [shapeVecsLoop, h1, h2]
      simp [ShArg.column, ShArg.notFlat]

/-- C61: `shape_vecs` returns one value per argument in the same order; arrays with shape `(n,)` are returned with shape
`(n, 1)` and the same entries, everything else unchanged; the flag says that no array had another number of axes than one (it
is true if there was no array at all).  A second application changes nothing, but its flag is false if there was an array. -/
theorem C61_shape_vecs (args : List (ShArg F O)) :
    (shapeVecs args).2 = args.map ShArg.column ∧ ((shapeVecs args).1 = true ↔ ∀ a ∈ args, ¬ a.notFlat) ∧
    (shapeVecs (shapeVecs args).2).2 = (shapeVecs args).2 ∧
    ((shapeVecs (shapeVecs args).2).1 = true ↔ ∀ a ∈ args, ∃ o, a = .other o) := by
  obtain ⟨h1, h2⟩ := shapeVecsLoop_eq args true []
  obtain ⟨h3, h4⟩ := shapeVecsLoop_eq (args.map ShArg.column) true []
  have hcc : ∀ a : ShArg F O, a.column.column = a.column := by
    intro a
    match a with
    | .nd [n] data => rfl
    | .nd [] data => rfl
    | .nd (i :: j :: sh) data => rfl
    | .other o => rfl
  refine ⟨by simpa [shapeVecs] using h1, by simpa [shapeVecs] using h2, ?_, ?_⟩
  · unfold shapeVecs
    rw [h1, List.nil_append, h3, List.nil_append, List.map_map]
    exact List.map_congr_left fun a _ => hcc a
  · unfold shapeVecs
    rw [h1, List.nil_append, h4]
    simp only [true_and, List.mem_map, forall_exists_index, and_imp, forall_apply_eq_imp_iff₂]
    refine forall₂_congr fun a _ => ?_
    match a with
    | .nd [n] data => simp [ShArg.column, ShArg.notFlat]
    | .nd [] data => simp [ShArg.column, ShArg.notFlat]
    | .nd (i :: j :: sh) data => simp [ShArg.column, ShArg.notFlat]
    | .other o => simp [ShArg.column, ShArg.notFlat]

example : shapeVecs [.nd [3] [1, 2, 3], .other "None", (.nd [2, 2] [1, 2, 3, 4] : ShArg ℕ String)] =
    (false, [.nd [3, 1] [1, 2, 3], .other "None", .nd [2, 2] [1, 2, 3, 4]]) := rfl

end shape

/-! ## Examples -/

/-- The inner product with the matrix `diag(4, 1)`. -/
theorem exNorm_inner : IsInner (gformM (Matrix.diagonal ![4, 1] : Matrix (Fin 2) (Fin 2) ℝ)) := by
  refine ⟨fun x y z => ?_, fun x c y => ?_, fun x y => ?_, fun x hx => ?_⟩
  · simp [gformM, Matrix.mulVec_add]
  · simp [gformM, Matrix.mulVec_smul]
  · simp [gformM, Matrix.mulVec_diagonal, dotProduct, Fin.sum_univ_two]; ring
  · simp only [gformM, Matrix.mulVec_diagonal, dotProduct, Fin.sum_univ_two]
    simp
    have : x 0 ≠ 0 ∨ x 1 ≠ 0 := by
      by_contra hh
      push Not at hh
      exact hx (by ext i; fin_cases i <;> simp [hh])
    rcases this with h | h
    · have := mul_self_pos.mpr h
      nlinarith [mul_self_nonneg (x 1)]
    · have := mul_self_pos.mpr h
      nlinarith [mul_self_nonneg (x 0)]

/-- The vectors `(1/2, 0)`, `(0, 1)` are orthonormal for `diag(4, 1)`, not for the Euclidean inner product; the norm of
`(1, 0)` is 2. -/
example : orthonormality (!![1 / 2, 0; 0, 1] : Matrix (Fin 2) (Fin 2) ℝ) (.op (Matrix.diagonal ![4, 1])) = .ok 0 ∧
    orthonormality (!![1 / 2, 0; 0, 1] : Matrix (Fin 2) (Fin 2) ℝ) .euclid ≠ .ok 0 ∧
    norm1B (colv ![1, 0] : Matrix (Fin 2) (Fin 1) ℝ) (.op (Matrix.diagonal ![4, 1])) = .ok 2 := by
  have hD : (IpB.op (Matrix.diagonal ![4, 1] : Matrix (Fin 2) (Fin 2) ℝ)).Denotes _ := denotes_op (by
    rw [Matrix.diagonal_conjTranspose]; congr 1)
  refine ⟨?_, fun h => ?_, ?_⟩
  · obtain ⟨δ, hδ, -⟩ := C61_orthonormality hD exNorm_inner !![1 / 2, 0; 0, 1]
    rw [hδ, (C61_orthonormality_zero hD exNorm_inner _ hδ).1.mpr fun i j => ?_]
    fin_cases i <;> fin_cases j <;>
      (simp [gformM, Matrix.mulVec_diagonal, dotProduct, Fin.sum_univ_two]; try norm_num)
  · have := (C61_orthonormality_zero denotes_euclid isInner_one _ h).1.mp rfl 0 0
    simp [gformM, dotProduct, Fin.sum_univ_two] at this
    norm_num at this
  · rw [C61_norm_single hD exNorm_inner]
    congr 1
    have : nsq (gformM (Matrix.diagonal ![4, 1] : Matrix (Fin 2) (Fin 2) ℝ)) ![1, 0] = 2 ^ 2 := by
      simp [nsq, gformM, Matrix.mulVec_diagonal, dotProduct, Fin.sum_univ_two]; norm_num
    rw [nrm, this, Real.sqrt_sq (by norm_num)]

end Krypy
