import Verif.Model.DeflRitz
import Verif.Props.Ritz
import Verif.Props.DeflMatrices

/-! # Property C40: Ritz pairs from a deflated solver -/

set_option linter.unusedSectionVars false

namespace Krypy
variable {𝕜 E : Type*} [RCLike 𝕜] [AddCommGroup E] [Module 𝕜 E] {n m : ℕ}
open scoped ComplexConjugate
open Matrix

/-- Specification: `[P, W]` is orthonormal, the matrices are the Gram matrices of their documentation, and `T` satisfies the
Arnoldi relation of the deflated operator. -/
structure DeflRitzRel (g : E → E → 𝕜) (T : E →ₗ[𝕜] E) (P : ℕ → E) (W : Fin m → E) (H : ℕ → ℕ → 𝕜) (n_ n : ℕ)
    (Em F : Matrix (Fin m) (Fin m) 𝕜) (C B_ : List (Fin m → 𝕜)) : Prop where
  inner : IsInner g
  le : n ≤ n_
  orthP : ∀ i < n_, ∀ j < n_, g (P i) (P j) = if i = j then 1 else 0
  orthW : ∀ i j, g (W i) (W j) = if i = j then 1 else 0
  orthWP : ∀ i, ∀ j < n_, g (W i) (P j) = 0
  lenC : C.length = n
  lenB : B_.length = n_
  Emat : ∀ i j, Em i j = g (W i) (T (W j))
  Cmat : ∀ j < n, ∀ i, C.getD j 0 i = g (W i) (T (P j))
  Bmat : ∀ i < n_, ∀ j, B_.getD i 0 j = g (P i) (T (W j))
  Fmat : ∀ i j, F i j = g (T (W i)) (T (W j))
  det : Em.det ≠ 0
  rel : ∀ j < n, T (P j) = ∑ i ∈ Finset.range n_, H i j • P i + lincomb (fun l => T (W l)) (Em⁻¹ *ᵥ C.getD j 0)

namespace DeflRitzRel
variable {g : E → E → 𝕜} {T : E →ₗ[𝕜] E} {P : ℕ → E} {W : Fin m → E} {H : ℕ → ℕ → 𝕜} {n_ : ℕ}
  {Em F : Matrix (Fin m) (Fin m) 𝕜} {C B_ : List (Fin m → 𝕜)}

/-- The basis `[P_n, W]` of the search space. -/
def wb (n : ℕ) (P : ℕ → E) (W : Fin m → E) : Fin n ⊕ Fin m → E := Sum.elim (fun j => P j) W

theorem lincomb_sum {ι κ : Type*} [Fintype ι] [Fintype κ] (X : ι → E) (Y : κ → E) (y : ι ⊕ κ → 𝕜) :
    lincomb (Sum.elim X Y) y = lincomb X (fun i => y (.inl i)) + lincomb Y (fun i => y (.inr i)) := by
  simp [lincomb, Fintype.sum_sum_type]

theorem vec_eq (V : ℕ → E) (U : Fin m → E) (y : Fin n ⊕ Fin m → 𝕜) : deflRitzVec V U y = lincomb (wb n V U) y :=
  (lincomb_sum _ _ y).symm

variable (h : DeflRitzRel g T P W H n_ n Em F C B_)
include h

theorem gram_wb : gram g (wb n P W) (wb n P W) = 1 := by
  have hle := h.le
  ext i j
  rcases i with i | i <;> rcases j with j | j <;> simp only [gram, Matrix.of_apply, wb, Sum.elim_inl, Sum.elim_inr,
    Matrix.one_apply]
  · rw [h.orthP i (by omega) j (by omega)]; simp [Fin.ext_iff]
  · rw [h.inner.orth_symm (h.orthWP j i (by omega))]; simp
  · rw [h.orthWP i j (by omega)]; simp
  · rw [h.orthW i j]; simp

theorem EinvC_col (j : Fin n) : (fun i => (Em⁻¹ * colsMat C n) i j) = Em⁻¹ *ᵥ C.getD j 0 := by
  funext i
  simp [Matrix.mul_apply, Matrix.mulVec, dotProduct, colsMat]

/-- `T [P_n, W] = [P_(n_), T W] L`. -/
theorem T_col (j : Fin n ⊕ Fin m) : T (wb n P W j) = lincomb (wb n_ P fun l => T (W l))
    (fun i => ritzL H n_ (Em⁻¹ * colsMat C n) i j) := by
  rw [wb, wb, lincomb_sum]
  rcases j with j | j
  · simp only [Sum.elim_inl, ritzL, fromBlocks_apply₁₁, fromBlocks_apply₂₁]
    rw [h.rel j j.2, h.EinvC_col, lincomb, ← Fin.sum_univ_eq_sum_range]
    rfl
  · simp only [Sum.elim_inr, ritzL, fromBlocks_apply₁₂, fromBlocks_apply₂₂]
    simp [lincomb, Matrix.one_apply]

/-- `T [P_n, W] - mu [P_n, W] = [P_(n_), T W, W] G`. -/
theorem res_col (mu : 𝕜) (j : Fin n ⊕ Fin m) : T (wb n P W j) - mu • wb n P W j =
    lincomb (Sum.elim (fun i : Fin n_ => P i) (Sum.elim (fun l => T (W l)) W))
      (fun i => ritzG H n_ (Em⁻¹ * colsMat C n) mu i j) := by
  rw [h.T_col, wb, wb, lincomb_sum, lincomb_sum, lincomb_sum]
  rcases j with j | j
  · simp only [Sum.elim_inl, ritzL, ritzG, fromBlocks_apply₁₁, fromBlocks_apply₂₁, fromRows_apply_inl,
      fromRows_apply_inr, Matrix.sub_apply, Matrix.smul_apply, Matrix.zero_apply]
    have h1 : lincomb (fun i : Fin n_ => P i) (fun i => subMat H n_ n i j - mu • (eyeMat n_ n i j : 𝕜)) =
        lincomb (fun i : Fin n_ => P i) (fun i => subMat H n_ n i j) - mu • P j := by
      have e : (fun i : Fin n_ => subMat H n_ n i j - mu • (eyeMat n_ n i j : 𝕜)) =
          (fun i => subMat H n_ n i j) - mu • (fun i => eyeMat n_ n i j) := rfl
      rw [e, lincomb_sub, lincomb_smul]
      congr 2
      rw [lincomb, Finset.sum_eq_single ⟨j, by have := h.le; omega⟩]
      · simp [eyeMat]
      · intro b _ hb
        have : (b : ℕ) ≠ j := fun h => hb (Fin.ext h)
        simp [eyeMat, this]
      · simp
    rw [h1]
    have h2 : lincomb W (fun _ => (0 : 𝕜)) = 0 := lincomb_zero W
    rw [h2]
    abel
  · simp only [Sum.elim_inr, ritzL, ritzG, fromBlocks_apply₁₂, fromBlocks_apply₂₂, fromRows_apply_inl,
      fromRows_apply_inr]
    have h2 : lincomb W (fun i => (-mu • (1 : Matrix (Fin m) (Fin m) 𝕜)) i j) = - (mu • W j) := by
      simp [lincomb, Matrix.one_apply]
    rw [h2]
    abel

theorem res_eq (mu : 𝕜) (y : Fin n ⊕ Fin m → 𝕜) : eigRes T mu (lincomb (wb n P W) y) =
    lincomb (Sum.elim (fun i : Fin n_ => P i) (Sum.elim (fun l => T (W l)) W))
      (ritzG H n_ (Em⁻¹ * colsMat C n) mu *ᵥ y) := by
  rw [lincomb_mulVec, ← funext (h.res_col mu), eigRes, map_lincomb]
  simp [lincomb, Finset.smul_sum, smul_sub, smul_comm mu]

/-- The Gram matrix of `[P_(n_), T W]`. -/
theorem gram_K : gram g (wb n_ P fun l => T (W l)) (wb n_ P fun l => T (W l)) = ritzK (rowsMat B_ n_) F := by
  ext i j
  rcases i with i | i <;> rcases j with j | j <;> simp only [gram, Matrix.of_apply, wb, Sum.elim_inl, Sum.elim_inr,
    ritzK, fromBlocks_apply₁₁, fromBlocks_apply₂₂, fromBlocks_apply₁₂, fromBlocks_apply₂₁]
  · rw [h.orthP i i.2 j j.2]; simp [Fin.ext_iff, Matrix.one_apply]
  · rw [rowsMat, Matrix.of_apply, h.Bmat i i.2]
  · rw [Matrix.conjTranspose_apply, rowsMat, Matrix.of_apply, h.Bmat j j.2, RCLike.star_def, h.inner.conj_symm]
  · rw [h.Fmat]

/-- The Gram matrix of `[P_(n_), T W, W]`: not quite the matrix `S` of the code. -/
theorem gram_S : gram g (Sum.elim (fun i : Fin n_ => P i) (Sum.elim (fun l => T (W l)) W))
    (Sum.elim (fun i : Fin n_ => P i) (Sum.elim (fun l => T (W l)) W)) = ritzS (rowsMat B_ n_) F Emᴴ := by
  ext i j
  rcases i with i | i | i <;> rcases j with j | j | j <;> simp only [gram, Matrix.of_apply, Sum.elim_inl,
    Sum.elim_inr, ritzS, fromBlocks_apply₁₁, fromBlocks_apply₂₂, fromBlocks_apply₁₂, fromBlocks_apply₂₁,
    fromCols_apply_inl, fromCols_apply_inr, fromRows_apply_inl, fromRows_apply_inr, Matrix.conjTranspose_conjTranspose,
    Matrix.zero_apply]
  · rw [h.orthP i i.2 j j.2]; simp [Fin.ext_iff, Matrix.one_apply]
  · rw [rowsMat, Matrix.of_apply, h.Bmat i i.2]
  · exact h.inner.orth_symm (h.orthWP j i i.2)
  · rw [Matrix.conjTranspose_apply, rowsMat, Matrix.of_apply, h.Bmat j j.2, RCLike.star_def, h.inner.conj_symm]
  · rw [h.Fmat]
  · rw [Matrix.conjTranspose_apply, h.Emat, RCLike.star_def, h.inner.conj_symm]
  · exact h.orthWP i j j.2
  · rw [h.Emat]
  · rw [h.orthW]; simp [Matrix.one_apply]

/-- The matrix `M` represents `T` on the search space. -/
theorem gram_M : gram g (wb n P W) (fun j => T (wb n P W j)) =
    ritzM H Em (colsMat C n) (Em⁻¹ * colsMat C n) (rowsMat B_ n) := by
  have hle := h.le
  ext i j
  rcases i with i | i <;> rcases j with j | j <;> simp only [gram, Matrix.of_apply, wb, Sum.elim_inl, Sum.elim_inr,
    ritzM, fromBlocks_apply₁₁, fromBlocks_apply₂₂, fromBlocks_apply₁₂, fromBlocks_apply₂₁, Matrix.add_apply]
  · rw [h.rel j j.2, h.inner.add_right, h.inner.coeff (n := n_) h.orthP _ (by omega)]
    congr 1
    have := congrFun (h.inner.coefs_lincomb (fun _ : Unit => P i) (fun l => T (W l)) (Em⁻¹ *ᵥ C.getD j 0)) ()
    simp only [coefs] at this
    rw [this, ← h.EinvC_col, Matrix.mul_apply]
    simp only [Matrix.mulVec, dotProduct, gram, Matrix.of_apply, rowsMat]
    exact Finset.sum_congr rfl fun l _ => by rw [h.Bmat i (by omega)]
  · rw [rowsMat, Matrix.of_apply, h.Bmat i (by omega)]
  · rw [colsMat, Matrix.of_apply, h.Cmat j j.2]
  · rw [h.Emat]


theorem T_eq (y : Fin n ⊕ Fin m → 𝕜) : T (lincomb (wb n P W) y) = lincomb (fun j => T (wb n P W j)) y :=
  map_lincomb _ _ _

theorem gram_TT : gram g (fun j => T (wb n P W j)) (fun j => T (wb n P W j)) =
    (ritzL H n_ (Em⁻¹ * colsMat C n))ᴴ * (ritzK (rowsMat B_ n_) F * ritzL H n_ (Em⁻¹ * colsMat C n)) := by
  rw [funext h.T_col, h.inner.gram_left, h.inner.gram_right, h.gram_K]

theorem gram_TW : gram g (fun j => T (wb n P W j)) (wb n P W) =
    (ritzM H Em (colsMat C n) (Em⁻¹ * colsMat C n) (rowsMat B_ n))ᴴ := by
  rw [← h.gram_M, h.inner.gram_conjTranspose]

/-- Components of a residual in the search space. -/
theorem ip_res (mu : 𝕜) (w y : Fin n ⊕ Fin m → 𝕜) : g (lincomb (wb n P W) w) (eigRes T mu (lincomb (wb n P W) y)) =
    star w ⬝ᵥ (ritzM H Em (colsMat C n) (Em⁻¹ * colsMat C n) (rowsMat B_ n) *ᵥ y - mu • y) := by
  rw [h.inner.ip_lincomb_left, eigRes, h.inner.coefs_sub, h.inner.coefs_smul, h.T_eq, h.inner.coefs_lincomb,
    h.inner.coefs_lincomb, h.gram_M, h.gram_wb, Matrix.one_mulVec]

/-- Components of a residual in the image of the search space. -/
theorem ip_T_res (mu : 𝕜) (w y : Fin n ⊕ Fin m → 𝕜) :
    g (T (lincomb (wb n P W) w)) (eigRes T mu (lincomb (wb n P W) y)) =
      star w ⬝ᵥ (((ritzL H n_ (Em⁻¹ * colsMat C n))ᴴ * (ritzK (rowsMat B_ n_) F * ritzL H n_ (Em⁻¹ * colsMat C n))) *ᵥ y -
        mu • ((ritzM H Em (colsMat C n) (Em⁻¹ * colsMat C n) (rowsMat B_ n))ᴴ *ᵥ y)) := by
  rw [h.T_eq, h.inner.ip_lincomb_left, eigRes, h.inner.coefs_sub, h.inner.coefs_smul, h.T_eq, h.inner.coefs_lincomb,
    h.inner.coefs_lincomb, h.gram_TT, h.gram_TW]

theorem nrm_vec (y : Fin n ⊕ Fin m → 𝕜) : nrm g (lincomb (wb n P W) y) = vecNorm y :=
  nrm_lincomb_orth h.inner h.gram_wb y

theorem solve : solveE Em (colsMat C n) = .ok (Em⁻¹ * colsMat C n) := by
  unfold solveE
  split_ifs with hm hd
  · congr 1
    ext i
    exact absurd i.2 (by omega)
  · exact absurd hd h.det
  · rfl

/-- The computed residual norm, for Hermitian `E`. -/
theorem resnorm (hE : Em.IsHermitian) (mu : 𝕜) (y : Fin n ⊕ Fin m → 𝕜) :
    ritzResnorm (ritzS (rowsMat B_ n_) F Em) (ritzG H n_ (Em⁻¹ * colsMat C n) mu *ᵥ y) =
      nrm g (eigRes T mu (lincomb (wb n P W) y)) := by
  have hS : ritzS (rowsMat B_ n_) F Em = ritzS (rowsMat B_ n_) F Emᴴ := by rw [hE.eq]
  rw [ritzResnorm, hS, ← h.gram_S, ← h.inner.coefs_lincomb, ← h.inner.ip_lincomb_left, ← h.res_eq,
    h.inner.norm_self, nrm]

/-- What is returned in the mode `ritz`. -/
theorem out_ritz {rt : EigRoutines 𝕜 (Fin n ⊕ Fin m)} (hrt : EigOk rt) {sa : Bool} (hnm : 0 < n + m)
    (hsa : sa = true → ∀ x y, g (T x) y = g x (T y)) {out : DeflRitzOut 𝕜 n m}
    (ho : deflRitz rt H n_ Em C B_ F sa .ritz = .ok out) :
    ∃ e : Eigs 𝕜 (Fin n ⊕ Fin m), IsEig (ritzM H Em (colsMat C n) (Em⁻¹ * colsMat C n) (rowsMat B_ n)) e ∧
      out = ⟨fun i => some (e.1 i), fun i => normalise (e.2 i), fun i => some
        (ritzResnorm (ritzS (rowsMat B_ n_) F Em) (ritzG H n_ (Em⁻¹ * colsMat C n) (e.1 i) *ᵥ normalise (e.2 i)))⟩ := by
  unfold deflRitz at ho
  rw [if_neg (by omega), if_neg (by rw [h.lenC, h.lenB]; simp), h.solve] at ho
  dsimp only at ho
  have hM : sa = true → (ritzM H Em (colsMat C n) (Em⁻¹ * colsMat C n) (rowsMat B_ n)).IsHermitian := by
    intro h1
    rw [← h.gram_M, Matrix.IsHermitian, h.inner.gram_conjTranspose]
    ext i j
    exact hsa h1 _ _
  split at ho
  · simp at ho
  · next v c he =>
    refine ⟨(v, c), ?_, (Except.ok.inj ho).symm⟩
    cases sa with
    | false => exact hrt.eig _ _ he
    | true => exact (hrt.eigh _ _ (hM rfl) he).eig

/-- What is returned in the mode `harmonic`. -/
theorem out_harmonic {rt : EigRoutines 𝕜 (Fin n ⊕ Fin m)} (hrt : EigOk rt) {sa : Bool} (hnm : 0 < n + m)
    (hsa : sa = true → ∀ x y, g (T x) y = g x (T y)) (hinj : Function.Injective T) {out : DeflRitzOut 𝕜 n m}
    (ho : deflRitz rt H n_ Em C B_ F sa .harmonic = .ok out) :
    ∃ e : Eigs 𝕜 (Fin n ⊕ Fin m), IsGenEig (ritzM H Em (colsMat C n) (Em⁻¹ * colsMat C n) (rowsMat B_ n))ᴴ
        ((ritzL H n_ (Em⁻¹ * colsMat C n))ᴴ * (ritzK (rowsMat B_ n_) F * ritzL H n_ (Em⁻¹ * colsMat C n))) e ∧
      out = ⟨fun i => if ‖e.1 i‖ < floatEps then none else some (1 / e.1 i), fun i => normalise (e.2 i),
        fun i => (if ‖e.1 i‖ < floatEps then none else some (1 / e.1 i)).map fun mu =>
          ritzResnorm (ritzS (rowsMat B_ n_) F Em) (ritzG H n_ (Em⁻¹ * colsMat C n) mu *ᵥ normalise (e.2 i))⟩ := by
  unfold deflRitz at ho
  rw [if_neg (by omega), if_neg (by rw [h.lenC, h.lenB]; simp), h.solve] at ho
  dsimp only at ho
  have hM : sa = true → (ritzM H Em (colsMat C n) (Em⁻¹ * colsMat C n) (rowsMat B_ n))ᴴ.IsHermitian := by
    intro h1
    rw [← h.gram_M, Matrix.IsHermitian, h.inner.gram_conjTranspose, h.inner.gram_conjTranspose]
    ext i j
    exact (hsa h1 _ _).symm
  have hN : ((ritzL H n_ (Em⁻¹ * colsMat C n))ᴴ *
      (ritzK (rowsMat B_ n_) F * ritzL H n_ (Em⁻¹ * colsMat C n))).IsHermitian := by
    rw [← h.gram_TT, Matrix.IsHermitian, h.inner.gram_conjTranspose]
  have hd : ((ritzL H n_ (Em⁻¹ * colsMat C n))ᴴ *
      (ritzK (rowsMat B_ n_) F * ritzL H n_ (Em⁻¹ * colsMat C n))).det ≠ 0 := by
    rw [← h.gram_TT]
    intro h0
    obtain ⟨u, hu, h1⟩ := Matrix.exists_mulVec_eq_zero_iff.mpr h0
    rw [← h.inner.coefs_lincomb] at h1
    have h2 : g (T (lincomb (wb n P W) u)) (T (lincomb (wb n P W) u)) = 0 := by
      rw [h.T_eq, h.inner.ip_lincomb_left, h1, dotProduct_zero]
    have h3 := h.inner.self_eq_zero.mp h2
    have h4 : lincomb (wb n P W) u = 0 := hinj (by rw [h3, map_zero])
    have h5 := h.nrm_vec u
    rw [h4, h.inner.nrm_eq_zero.mpr rfl] at h5
    exact hu (vecNorm_eq_zero.mp h5.symm)
  split at ho
  · simp at ho
  · next v c he =>
    refine ⟨(v, c), ?_, (Except.ok.inj ho).symm⟩
    cases sa with
    | false => exact hrt.geig _ _ _ hd he
    | true => exact hrt.geigh _ _ _ (hM rfl) hN hd he

end DeflRitzRel

theorem normalise_of_norm_one {ι : Type*} [Fintype ι] {u : ι → 𝕜} (h : vecNorm u = 1) : normalise u = u := by
  rw [normalise, h]; simp

theorem vecNorm_ne {ι : Type*} [Fintype ι] {u : ι → 𝕜} (h : vecNorm u = 1) : u ≠ 0 := by
  rintro rfl
  rw [vecNorm_eq_zero.mpr rfl] at h
  norm_num at h

section
variable {g : E → E → 𝕜} {T : E →ₗ[𝕜] E} {P : ℕ → E} {W : Fin m → E} {H : ℕ → ℕ → 𝕜} {n_ : ℕ}
  {Em F : Matrix (Fin m) (Fin m) 𝕜} {C B_ : List (Fin m → 𝕜)}
  (h : DeflRitzRel g T P W H n_ n Em F C B_) {rt : EigRoutines 𝕜 (Fin n ⊕ Fin m)} (hrt : EigOk rt) {sa : Bool}
  (hsa : sa = true → ∀ x y, g (T x) y = g x (T y)) {out : DeflRitzOut 𝕜 n m}
include h hrt hsa

/-- C40 (mode `ritz`): every pair consists of a vector of norm one in the search space `span [P_n, W]` and a value such that
the residual is orthogonal to the search space. -/
theorem C40_ritz (ho : deflRitz rt H n_ Em C B_ F sa .ritz = .ok out) (i : Fin n ⊕ Fin m) :
    ∃ mu, out.values i = some mu ∧ nrm g (deflRitzVec P W (out.coeffs i)) = 1 ∧
      ∀ w : Fin n ⊕ Fin m → 𝕜, g (deflRitzVec P W w) (eigRes T mu (deflRitzVec P W (out.coeffs i))) = 0 := by
  have hnm : 0 < n + m := by rcases i with i | i <;> have := i.2 <;> omega
  obtain ⟨e, he, rfl⟩ := h.out_ritz hrt hnm hsa ho
  refine ⟨e.1 i, rfl, ?_, fun w => ?_⟩
  · rw [DeflRitzRel.vec_eq, h.nrm_vec]
    exact vecNorm_normalise (vecNorm_ne (he i).2)
  · rw [DeflRitzRel.vec_eq, DeflRitzRel.vec_eq, h.ip_res]
    dsimp only
    rw [normalise_of_norm_one (he i).2, (he i).1, sub_self, dotProduct_zero]

/-- C40 (mode `harmonic`): vectors of norm one in the search space; for every pair with a finite value the residual is
orthogonal to the image of the search space. -/
theorem C40_harmonic (hinj : Function.Injective T) (ho : deflRitz rt H n_ Em C B_ F sa .harmonic = .ok out)
    (i : Fin n ⊕ Fin m) : nrm g (deflRitzVec P W (out.coeffs i)) = 1 ∧ ∀ mu, out.values i = some mu → mu ≠ 0 ∧
      ∀ w : Fin n ⊕ Fin m → 𝕜, g (T (deflRitzVec P W w)) (eigRes T mu (deflRitzVec P W (out.coeffs i))) = 0 := by
  have hnm : 0 < n + m := by rcases i with i | i <;> have := i.2 <;> omega
  obtain ⟨e, he, rfl⟩ := h.out_harmonic hrt hnm hsa hinj ho
  refine ⟨?_, fun mu hmu => ?_⟩
  · rw [DeflRitzRel.vec_eq, h.nrm_vec]
    exact vecNorm_normalise (he i).2
  · dsimp only at hmu
    split_ifs at hmu with h0
    obtain rfl := Option.some.inj hmu
    have hs0 : e.1 i ≠ 0 := by
      intro h1
      apply h0
      rw [h1, norm_zero, floatEps]
      positivity
    refine ⟨one_div_ne_zero hs0, fun w => ?_⟩
    rw [DeflRitzRel.vec_eq, DeflRitzRel.vec_eq, h.ip_T_res]
    dsimp only
    rw [normalise, Matrix.mulVec_smul, Matrix.mulVec_smul, (he i).1, smul_comm (1 / e.1 i), smul_smul (1 / e.1 i),
      one_div, inv_mul_cancel₀ hs0, one_smul, sub_self, dotProduct_zero]

/-- C40: if `E` is Hermitian (in particular if the operator is self-adjoint), the residual norms are correct. -/
theorem C40_resnorms (hE : Em.IsHermitian) {mode : RitzMode} (hinj : mode = .harmonic → Function.Injective T)
    (ho : deflRitz rt H n_ Em C B_ F sa mode = .ok out) (i : Fin n ⊕ Fin m) {mu : 𝕜} (hmu : out.values i = some mu) :
    out.resnorms i = some (nrm g (eigRes T mu (deflRitzVec P W (out.coeffs i)))) := by
  have hnm : 0 < n + m := by rcases i with i | i <;> have := i.2 <;> omega
  cases mode with
  | ritz =>
    obtain ⟨e, he, rfl⟩ := h.out_ritz hrt hnm hsa ho
    obtain rfl := Option.some.inj hmu
    rw [DeflRitzRel.vec_eq, ← h.resnorm hE]
  | harmonic =>
    obtain ⟨e, he, rfl⟩ := h.out_harmonic hrt hnm hsa (hinj rfl) ho
    dsimp only at hmu ⊢
    rw [hmu, DeflRitzRel.vec_eq, ← h.resnorm hE]
    rfl
  | other =>
    unfold deflRitz at ho
    rw [if_neg (by omega), if_neg (by rw [h.lenC, h.lenB]; simp), h.solve] at ho
    simp at ho

end

/-- C40: for a self-adjoint operator `E` is Hermitian. -/
theorem C40_E_hermitian {g : E → E → 𝕜} {T : E →ₗ[𝕜] E} {P : ℕ → E} {W : Fin m → E} {H : ℕ → ℕ → 𝕜} {n_ : ℕ}
    {Em F : Matrix (Fin m) (Fin m) 𝕜} {C B_ : List (Fin m → 𝕜)} (h : DeflRitzRel g T P W H n_ n Em F C B_)
    (hsa : ∀ x y, g (T x) y = g x (T y)) : Em.IsHermitian := by
  ext i j
  rw [Matrix.conjTranspose_apply, h.Emat, h.Emat, RCLike.star_def, h.inner.conj_symm, hsa]

/-- C40: errors.  An unknown mode and a singular matrix `E` are rejected (unless there is nothing to compute). -/
theorem C40_errors (rt : EigRoutines 𝕜 (Fin n ⊕ Fin m)) (H : ℕ → ℕ → 𝕜) (n_ : ℕ) (Em F : Matrix (Fin m) (Fin m) 𝕜)
    (C B_ : List (Fin m → 𝕜)) (sa : Bool) (mode : RitzMode) (hnm : 0 < n + m) :
    (C.length ≠ n ∨ B_.length ≠ n_ → deflRitz rt H n_ Em C B_ F sa mode = .error .valueError) ∧
    (C.length = n → B_.length = n_ → 0 < m → Em.det = 0 →
      deflRitz rt H n_ Em C B_ F sa mode = .error .linAlgError) ∧
    (C.length = n → B_.length = n_ → (m = 0 ∨ Em.det ≠ 0) →
      deflRitz rt H n_ Em C B_ F sa .other = .error .argumentError) := by
  refine ⟨fun h1 => ?_, fun h1 h2 h3 h4 => ?_, fun h1 h2 h3 => ?_⟩
  · unfold deflRitz
    rw [if_neg (by omega), if_pos h1]
  · unfold deflRitz solveE
    rw [if_neg (by omega), if_neg (by omega), if_neg (by omega), if_pos h4]
  · have : ∃ X, solveE Em (colsMat C n) = .ok X := by
      unfold solveE
      split_ifs with ha hb
      · exact ⟨_, rfl⟩
      · exact absurd hb (h3.resolve_left ha)
      · exact ⟨_, rfl⟩
    obtain ⟨X, hX⟩ := this
    unfold deflRitz
    rw [if_neg (by omega), if_neg (by omega), hX]


/-! ## The data of a run of a deflated solver -/

section
variable {a : LSArgs 𝕜 E} {oa : OblArgs 𝕜 E m} {U : Fin m → E} (h : DeflHyp a oa U)
  {s : LS 𝕜 E} (hs : mkLS a = .ok s) {o : Obl 𝕜 E m} (ho : mkObl s oa U = .ok o)
include h hs ho

/-- The final state of the Arnoldi object of a run. -/
theorem deflGmres_reach {ortho : Ortho} (hg : GmresHyp a ortho) (p : SolverArgs E)
    {st : St ℝ E (GmresSt 𝕜 E × List (Fin m → 𝕜))}
    (hrun : deflatedGmres s o ortho p = .returned st ∨ deflatedGmres s o ortho p = .convergence st) :
    ArnReach (s.arnCfg (o.hooks s) p.maxiter ortho) (complLin h.ls.inner a.B U (a.Ml (a.b - a.A (p.x0.getD 0))))
      st.s.1.arn := by
  have ok := LSOK.of_defl h hs
  have hob := OblOK.of_defl h hs ho
  set c := s.arnCfg (o.hooks s) p.maxiter ortho with hc
  obtain ⟨hgg, hM, hA, hip⟩ := hob.cfg_eq ok ortho p.maxiter
  rw [← hc] at hgg hM hA hip
  set v := complLin h.ls.inner a.B U (a.Ml (a.b - a.A (p.x0.getD 0))) with hv
  have h1 : ∀ w, (some (a.M v) : Option E) = some w → w = c.Mop v := by
    intro w hw; rw [hM]; exact (Option.some.inj hw).symm
  have h2 : ∀ r, (some (nrm (fun x y => a.ip x (a.M y)) v) : Option ℝ) = some r → r = nrm c.g v := by
    intro r hr; rw [hgg]; exact (Option.some.inj hr).symm
  have hah : ArnHyp c := hob.arnHyp ok hg p.maxiter
  obtain ⟨arn, harn, hinv, hit, -⟩ := arnInit_inv hah v h1 h2
  have hr := hob.initRes ok p.x0
  have hproc := ArnReach.proc hah v
  have hm : c.maxiter = p.maxiter := rfl
  rw [hm] at hproc
  unfold deflatedGmres at hrun
  dsimp only at hrun
  rw [hr] at hrun
  dsimp only at hrun
  rw [← hc, ← hv, harn, ok.Mr] at hrun
  dsimp only at hrun
  have hsim := run_sim (cfg := mkCfg s p) (xk0 := o.correct s) (r := nrm (fun x y => a.ip x (a.M y)) v)
    (x0 := p.x0.getD 0) (gmres_log (Mr := a.Mr) (post := o.correct s) hproc ok hob).1
    (mk₁ := fun x => (gmresInit arn (nrm (fun x y => a.ip x (a.M y)) v) x, []))
    (mk₂ := gmresInit arn (nrm (fun x y => a.ip x (a.M y)) v))
    ⟨rfl, .init h1 h2 harn, by simp [LogOK, gmresInit, hit]⟩
  rcases hrun with hrun | hrun
  · obtain ⟨b, hb, hr⟩ := hsim.1 st hrun
    exact hr.2.1
  · obtain ⟨b, hb, hr⟩ := hsim.2 st hrun
    exact hr.2.1

theorem compl_stored (x : E) : a.B x = complLin h.ls.inner a.B U (a.B x) +
    lincomb (fun l => a.B (o.U l)) (o.Emat⁻¹ *ᵥ coefs a.ip o.U (a.B x)) := by
  have hob := OblOK.of_defl h hs ho
  obtain ⟨R, hR, hU⟩ := hob.basis
  have hBU : ∀ j, a.B (U j) = lincomb (fun j => a.B (o.U j)) fun i => R i j := by
    intro j; rw [hU, map_lincomb]
  obtain ⟨-, -, -, -, hco⟩ := coords_transform h.ls.inner hBU hU h.nonsing
  rw [complLin_apply, oblique, hob.E, show o.AU = fun j => a.B (o.U j) from funext hob.AU, ← hco,
    lincomb_change hBU]
  abel

theorem defl_orth_compl (x : E) (i : Fin m) : a.ip (o.U i) (complLin h.ls.inner a.B U x) = 0 := by
  have hi := h.ls.inner
  obtain ⟨-, hspan⟩ := C38_E h hs ho
  have hm : o.U i ∈ Submodule.span 𝕜 (Set.range U) := by
    rw [← hspan]; exact Submodule.subset_span ⟨i, rfl⟩
  obtain ⟨d, hd⟩ := mem_span_lincomb.mp hm
  rw [hd, hi.ip_lincomb_left]
  have : coefs a.ip U (complLin h.ls.inner a.B U x) = 0 := by
    funext j
    exact complLin_orth h.ls.inner h.nonsing x j
  rw [this, dotProduct_zero]

/-- The Arnoldi basis of a deflated solver is orthogonal to the deflation space. -/
theorem defl_basis_orth {ortho : Ortho} (hg : GmresHyp a ortho) (p : SolverArgs E) {t : Arn 𝕜 E}
    (hreach : ArnReach (s.arnCfg (o.hooks s) p.maxiter ortho)
      (complLin h.ls.inner a.B U (a.Ml (a.b - a.A (p.x0.getD 0)))) t) :
    ∀ j < t.get.rows, ∀ i, a.ip (o.U i) (t.P j) = 0 := by
  have ok := LSOK.of_defl h hs
  have hob := OblOK.of_defl h hs ho
  have hQ := defl_orth_compl h hs ho
  set c := s.arnCfg (o.hooks s) p.maxiter ortho with hc
  obtain ⟨hgg, hM, hA, hip⟩ := hob.cfg_eq ok ortho p.maxiter
  rw [← hc] at hgg hM hA hip
  set v := complLin h.ls.inner a.B U (a.Ml (a.b - a.A (p.x0.getD 0))) with hv
  have hah : ArnHyp c := hob.arnHyp ok hg p.maxiter
  have inv := hreach.inv hah
  have facts := ArnInv.facts hah hreach
  obtain ⟨-, hR, -, -, hfl⟩ := C17_arnoldi hah hreach
  rw [hip, hM, hA] at hR
  have hi := h.ls.inner
  have hsh : t.get.basis = t.get.rows := by unfold Arn.get; split <;> rfl
  intro j
  induction j using Nat.strong_induction_on with
  | _ j ih =>
    intro hj i
    cases j with
    | zero =>
      have : 0 < t.vnorm ∧ (t.vnorm : 𝕜) • t.P 0 = v := by
        cases hinv : t.invariant with
        | false => exact ⟨(inv.live hinv).vpos, (inv.live hinv).start⟩
        | true =>
          rcases inv.flagged hinv with ⟨-, h0⟩ | ⟨k, w, hk, core, -⟩
          · simp [Arn.get, hinv, h0] at hj
          · exact ⟨core.vpos, core.start⟩
      have h1 := hQ (a.Ml (a.b - a.A (p.x0.getD 0))) i
      rw [← hv, ← this.2, hi.smul_right] at h1
      refine (mul_eq_zero.mp h1).resolve_left ?_
      simpa using this.1.ne'
    | succ j =>
      have h1 := hQ (a.B (t.V j)) i
      rw [show complLin h.ls.inner a.B U (a.B (t.V j)) = _ from hR.rel j (by omega), hi.sum_right, Finset.sum_eq_single (j + 1)] at h1
      · rw [hi.smul_right] at h1
        refine (mul_eq_zero.mp h1).resolve_left (facts.sub j ?_)
        unfold Arn.get at hj
        split at hj
        · exact Or.inl hj
        · next hni => exact Or.inr ⟨by simp at hj; omega, by simpa using hni⟩
      · intro l hl hne
        rw [hi.smul_right]
        rcases Nat.lt_or_ge l (j + 1) with h2 | h2
        · rw [ih l h2 (by rw [← hsh]; exact Finset.mem_range.mp hl), mul_zero]
        · rw [hR.hess l j (by omega), zero_mul]
      · intro hn
        exact absurd (Finset.mem_range.mpr (by omega)) hn

/-- C40: after a run of deflated GMRES whose last step was exact (no space flagged invariant, or one with zero remainder), the
attributes from which `Ritz` computes satisfy the hypotheses of `C40_ritz` etc., for the operator `Ml A Mr M` in the basis
`P` (with `V = M P`), and `W` with `U = M W`.  The stored basis `U` has to be orthonormal in the inner product of
`get_ip_Minv_B()`, which `qr` ensures (C11). -/
theorem C40_gmres {ortho : Ortho} (hg : GmresHyp a ortho)
    (hsa : a.selfAdjoint = true → ∀ x y, a.ip (a.Ml (a.A (a.Mr x))) y = a.ip x (a.Ml (a.A (a.Mr y))))
    {W : Fin m → E} (hW : ∀ j, o.U j = a.M (W j)) (hWo : ∀ i j, a.ip (o.U i) (W j) = if i = j then 1 else 0)
    (p : SolverArgs E) {st : St ℝ E (GmresSt 𝕜 E × List (Fin m → 𝕜))}
    (hrun : deflatedGmres s o ortho p = .returned st ∨ deflatedGmres s o ortho p = .convergence st)
    (hex : st.s.1.arn.invariant = true → ∀ j, j + 1 = st.s.1.arn.iter → st.s.1.arn.H (j + 1) j = 0) :
    DeflRitzRel (fun x y => a.ip x (a.M y)) (a.Ml ∘ₗ a.A ∘ₗ a.Mr ∘ₗ a.M) st.s.1.arn.P W st.s.1.arn.H
      st.s.1.arn.get.rows st.s.1.arn.get.cols o.Emat (gram s.ip o.AU fun j => s.M (o.AU j)) st.s.2
      (o.B_ s st.s.1.arn.get.rows st.s.1.arn.get.cols st.s.1.arn.V st.s.2) := by
  have ok := LSOK.of_defl h hs
  have hob := OblOK.of_defl h hs ho
  have hreach := deflGmres_reach h hs ho hg p hrun
  obtain ⟨hClen, hC⟩ := C38_C_gmres h hs ho hg p hrun
  obtain ⟨hBlen, hB⟩ := C38_B_gmres h hs ho hg hsa p hrun rfl
  obtain ⟨hEm, hspan⟩ := C38_E h hs ho
  generalize hBm : o.B_ s st.s.1.arn.get.rows st.s.1.arn.get.cols st.s.1.arn.V st.s.2 = Bm at hBlen hB ⊢
  generalize st.s.2 = L at hClen hC ⊢
  generalize st.s.1.arn = t at hreach hClen hC hBlen hB hex ⊢
  set c := s.arnCfg (o.hooks s) p.maxiter ortho with hc
  obtain ⟨hgg, hM, hA, hip⟩ := hob.cfg_eq ok ortho p.maxiter
  rw [← hc] at hgg hM hA hip
  set v := complLin h.ls.inner a.B U (a.Ml (a.b - a.A (p.x0.getD 0))) with hv
  have hah : ArnHyp c := hob.arnHyp ok hg p.maxiter
  have inv := hreach.inv hah
  have facts := ArnInv.facts hah hreach
  obtain ⟨-, hR, -, -, hfl⟩ := C17_arnoldi hah hreach
  rw [hip, hM, hA] at hR
  have hi := h.ls.inner
  have hp := h.ls.prec
  have hMsa : ∀ x y, a.ip (a.M x) y = a.ip x (a.M y) := by
    intro x y
    have := hp.conj_symm y x
    rw [hi.conj_symm] at this
    exact this
  have hgW : ∀ i x, a.ip (W i) (a.M x) = a.ip (o.U i) x := fun i x => by rw [hW, hMsa]
  have hsh : t.get.basis = t.get.rows := by unfold Arn.get; split <;> rfl
  have hcols : t.get.cols = t.iter := by unfold Arn.get; split <;> rfl
  have hle : t.get.cols ≤ t.get.rows := by unfold Arn.get; split <;> simp
  -- the relation with all columns
  have hrel : ∀ j < t.get.cols, complLin h.ls.inner a.B U (a.B (t.V j)) = ∑ i ∈ Finset.range t.get.rows, t.H i j • t.P i := by
    intro j hj
    rcases Nat.lt_or_ge (j + 1) t.get.basis with h1 | h1
    · have := hR.rel j h1
      rw [hsh] at this
      exact this
    · have hinv : t.invariant = true := by
        by_contra hne
        simp [Arn.get, hne] at h1 hj
        omega
      obtain ⟨e1, e2, h3⟩ := hfl hinv
      obtain ⟨w, hw, -, hnw, -⟩ := h3 j (by omega)
      rw [hex hinv j (by omega)] at hnw
      have hw0 : w = 0 := by
        rw [← hah.inner.nrm_eq_zero]
        have h2 : ((nrm c.g w : ℝ) : 𝕜) = 0 := hnw.symm
        simpa using h2
      rw [hA, hw0, add_zero, ← e1, hsh] at hw
      exact hw
  have hUP := defl_basis_orth h hs ho hg p hreach
  have hVM : ∀ i < t.get.rows, t.V i = a.M (t.P i) := fun i hi' => hR.VM i (by omega)
  have hgetC : ∀ j < t.get.cols, L.getD j 0 = coefs a.ip o.U (a.B (t.V j)) := by
    intro j hj
    have hjl : j < L.length := by omega
    rw [List.getD_eq_getElem?_getD, List.getElem?_eq_getElem hjl, Option.getD_some]
    funext i
    exact hC j hjl i
  refine ⟨hp, hle, fun i hi' j hj => ?_, fun i j => ?_, fun i j hj => ?_, hClen, by rw [hBlen, hsh], fun i j => ?_,
    fun j hj i => ?_, fun i hi' j => ?_, fun i j => ?_, ?_, fun j hj => ?_⟩
  · rw [← hVM j hj]; exact hR.orth i (by omega) j (by omega)
  · rw [hgW]; exact hWo i j
  · rw [hgW]; exact hUP j hj i
  · rw [hEm, hgW, hW j]; rfl
  · rw [hgetC j hj, hgW, hVM j (by omega)]; rfl
  · have hil : i < Bm.length := by omega
    rw [List.getD_eq_getElem?_getD, List.getElem?_eq_getElem hil, Option.getD_some, hB i hil j, hVM i hi', hMsa, hW j]
    rfl
  · simp only [gram, Matrix.of_apply, ok.ip, ok.M]
    rw [hob.AU, hob.AU, hW, hW]
    rfl
  · obtain ⟨R, hR, hU⟩ := hob.basis
    have hBU : ∀ j, a.B (U j) = lincomb (fun j => a.B (o.U j)) fun i => R i j := by
      intro j; rw [hU, map_lincomb]
    have := (coords_transform h.ls.inner hBU hU h.nonsing).2.2.1
    rw [hob.E, show o.AU = fun j => a.B (o.U j) from funext hob.AU]
    exact this
  · have h1 := compl_stored h hs ho (t.V j)
    rw [hrel j hj, ← hgetC j hj, hVM j (by omega)] at h1
    simp only [hW] at h1
    exact h1

end


/-! ## Finding: the residual norms are wrong if `E` is not Hermitian -/

/-- Routines for matrices of order one, indexed by `Fin 0 ⊕ Fin 1`. -/
noncomputable def rt01 : EigRoutines 𝕜 (Fin 0 ⊕ Fin 1) where
  eig M := .ok (fun _ => M (.inr 0) (.inr 0), fun _ _ => 1)
  eigh M := .ok (fun _ => M (.inr 0) (.inr 0), fun _ _ => 1)
  geig M N := .ok (fun _ => M (.inr 0) (.inr 0) / N (.inr 0) (.inr 0), fun _ _ => 1)
  geigh M N := .ok (fun _ => M (.inr 0) (.inr 0) / N (.inr 0) (.inr 0), fun _ _ => 1)

theorem eq_inr0 (i : Fin 0 ⊕ Fin 1) : i = .inr 0 := by
  rcases i with i | i
  · exact i.elim0
  · rw [Subsingleton.elim i 0]

theorem rt01_ok : EigOk (rt01 (𝕜 := 𝕜)) := by
  have h1 : ∀ M : Matrix (Fin 0 ⊕ Fin 1) (Fin 0 ⊕ Fin 1) 𝕜, IsEig M (fun _ => M (.inr 0) (.inr 0), fun _ _ => 1) := by
    refine fun M i => ⟨?_, by simp [vecNorm]⟩
    funext j
    obtain rfl := eq_inr0 j
    simp [Matrix.mulVec, dotProduct]
  have h2 : ∀ M N : Matrix (Fin 0 ⊕ Fin 1) (Fin 0 ⊕ Fin 1) 𝕜, N.det ≠ 0 →
      IsGenEig M N (fun _ => M (.inr 0) (.inr 0) / N (.inr 0) (.inr 0), fun _ _ => 1) := by
    intro M N hN i
    have hu : ∀ x : Fin 0 ⊕ Fin 1, x = .inr 0 := eq_inr0
    have hN' : N (.inr 0) (.inr 0) ≠ 0 := by
      intro h0
      apply hN
      refine Matrix.det_eq_zero_of_row_eq_zero (.inr 0) fun j => ?_
      rw [hu j, h0]
    refine ⟨?_, fun h => by simpa using congrFun h (.inr 0)⟩
    funext j
    obtain rfl := eq_inr0 j
    simp [Matrix.mulVec, dotProduct, hN']
  refine ⟨fun M e h => ?_, fun M e hM h => ?_, fun M N e hN h => ?_, fun M N e hM _ hN h => ?_⟩
  · obtain rfl := Except.ok.inj h; exact h1 M
  · obtain rfl := Except.ok.inj h
    refine ⟨h1 M, fun i => ?_, fun i j => ?_⟩
    · exact congrFun (congrFun hM (.inr 0)) (.inr 0)
    · simp [dotProduct, eq_inr0 i, eq_inr0 j]
  · obtain rfl := Except.ok.inj h; exact h2 M N hN
  · obtain rfl := Except.ok.inj h; exact h2 M N hN

/-- Multiplication by the imaginary unit on the complex numbers, deflation space `U = 1`, no Arnoldi vectors: the data of `Ritz`. -/
theorem exRitz_rel : DeflRitzRel (fun x y : ℂ => conj x * y) (Complex.I • LinearMap.id) (fun _ => 0) (fun _ : Fin 1 => (1 : ℂ))
    (fun _ _ => 0) 0 0 (Matrix.of fun _ _ => Complex.I) (Matrix.of fun _ _ => 1) [] [] := by
  refine ⟨⟨fun x y z => by ring, fun x t y => by simp; ring, fun x y => by simp [mul_comm], fun x hx => ?_⟩, le_rfl,
    by simp, fun i j => ?_, by simp, rfl, rfl, fun i j => by simp, by simp, by simp, fun i j => by simp, ?_, by simp⟩
  · have : conj x * x = ((‖x‖ ^ 2 : ℝ) : ℂ) := by
      rw [RCLike.conj_mul]; simp
    rw [this]
    have : 0 < ‖x‖ := norm_pos_iff.mpr hx
    simp only [RCLike.re_to_complex, Complex.ofReal_re]
    positivity
  · simp [Subsingleton.elim i j]
  · rw [Matrix.det_fin_one]; simp

/-- C40, finding: for `A = i` and `U = 1` the Ritz pair `(i, 1)` is an exact eigenpair, but the computed residual norm is 2. -/
theorem C40_resnorms_counterexample :
    ∃ out, deflRitz rt01 (fun _ _ => (0 : ℂ)) 0 (Matrix.of fun _ _ : Fin 1 => Complex.I) [] []
      (Matrix.of fun _ _ => 1) false .ritz = .ok out ∧
      out.values (.inr 0) = some Complex.I ∧ out.resnorms (.inr 0) = some 2 ∧
      eigRes (Complex.I • LinearMap.id) Complex.I
        (deflRitzVec (fun _ => (0 : ℂ)) (fun _ : Fin 1 => (1 : ℂ)) (out.coeffs (.inr 0))) = 0 := by
  have h := exRitz_rel
  have hex : ∃ out, deflRitz rt01 (fun _ _ => (0 : ℂ)) 0 (Matrix.of fun _ _ : Fin 1 => Complex.I) [] []
      (Matrix.of fun _ _ => 1) false .ritz = .ok out := by
    unfold deflRitz
    rw [if_neg (by omega), if_neg (by simp), h.solve]
    exact ⟨_, rfl⟩
  obtain ⟨out, ho⟩ := hex
  refine ⟨out, ho, ?_⟩
  unfold deflRitz at ho
  rw [if_neg (by omega), if_neg (by simp), h.solve] at ho
  obtain rfl := Except.ok.inj ho
  have hn : normalise (fun _ : Fin 0 ⊕ Fin 1 => (1 : ℂ)) = fun _ => 1 := normalise_of_norm_one (by simp [vecNorm])
  refine ⟨rfl, ?_, ?_⟩
  · simp only [hn, Option.map_some, ritzM, fromBlocks_apply₂₂, Matrix.of_apply]
    congr 1
    unfold ritzResnorm
    have hG : (ritzG (fun _ _ => (0 : ℂ)) 0 ((Matrix.of fun _ _ : Fin 1 => Complex.I)⁻¹ * colsMat [] 0) Complex.I *ᵥ
        fun _ => 1) = Sum.elim Fin.elim0 (Sum.elim (fun _ => 1) fun _ => -Complex.I) := by
      funext i
      rcases i with i | i | i
      · exact i.elim0
      · simp [ritzG, Matrix.mulVec, dotProduct, Subsingleton.elim i 0]
      · simp [ritzG, Matrix.mulVec, dotProduct, Subsingleton.elim i 0]
    rw [hG]
    simp [ritzS, Matrix.mulVec, dotProduct]
    have : (1 : ℂ) + 1 + Complex.I * (-Complex.I + -Complex.I) = 4 := by
      linear_combination (-2 : ℂ) * Complex.I_mul_I
    rw [this]
    rw [show ‖(4 : ℂ)‖ = 2 ^ 2 by norm_num, Real.sqrt_sq (by norm_num)]
  · rw [DeflRitzRel.vec_eq]
    simp [eigRes]

/-- The system with `A = 1`, `M = 2`. -/
noncomputable def exM2 : LSArgs ℝ ℝ := { exMr with M := (2 : ℝ) • LinearMap.id, Mr := LinearMap.id }

/-- C40, finding: `get_explicit_resnorms()` subtracts `mu z` instead of `mu M^(-1) z`: with `M = 2`, `A = 1` on the real line and the
exact eigenpair `(2, 1)` of `M A` the explicit residual norm is not zero. -/
theorem C40_explicit_counterexample : ∃ s, mkLS exM2 = .ok s ∧ s.M (s.MlAMr 1) = (2 : ℝ) • 1 ∧
    deflRitzExplicit s 1 2 = .ok (Real.sqrt 2) := by
  have hls : LSHyp exM2.ip exM2.M := by
    refine ⟨isInner_mul, ?_⟩
    have h := isInner_mul
    refine ⟨fun x y z => ?_, fun x t y => ?_, fun x y => ?_, fun x hx => ?_⟩
    all_goals simp [exM2, exMr]
    · ring
    · ring
    · ring
    · have := mul_self_pos.mpr hx; linarith
  obtain ⟨s, hs, ok, -⟩ := mkLS_ok hls
  refine ⟨s, hs, ?_, ?_⟩
  · rw [ok.M, ok.MlAMr]
    simp [exM2, exMr]
  · unfold deflRitzExplicit
    dsimp only
    rw [ok.M, ok.ip, hls.prec.npNorm_self, deflRitzRes, ok.MlAMr]
    simp [exM2, exMr, nrm, nsq]
    norm_num

/-- Non-vacuity of `C40_gmres`: deflated GMRES for `A = diag(1, 2)` with deflation vector `(1, 1)`. -/
theorem exSpd_deflGmres : ∃ s o st, mkLS exSpd = .ok s ∧ mkObl s (exObl exSpd.ip) (fun _ => ((1 : ℝ), (1 : ℝ))) = .ok o ∧
    deflatedGmres s o .mgs ⟨none, 1e-5, 1, false, none⟩ = .returned st ∧
    (∀ i j, exSpd.ip (o.U i) (o.U j) = if i = j then 1 else 0) ∧
    (st.s.1.arn.invariant = true → ∀ j, j + 1 = st.s.1.arn.iter → st.s.1.arn.H (j + 1) j = 0) := by
  have hd := exSpd_defl
  obtain ⟨s, hs, -⟩ := mkLS_ok hd.ls
  obtain ⟨o, ho⟩ := C36_total hd hs
  have hb : exSpd.Ml exSpd.b ≠ 0 := by simp [exSpd]
  have hfin : Module.finrank ℝ (ℝ × ℝ) ≤ 1 + 1 := by simp
  have hMr : ∀ j : Fin 1, exSpd.Mr ((fun _ => ((1 : ℝ), (1 : ℝ)) : Fin 1 → ℝ × ℝ) j) = (1, 1) := fun _ => rfl
  have hinj : ∀ x, exSpd.Ml (exSpd.A (exSpd.Mr x)) = 0 → x = 0 := by
    intro x hx
    by_contra hne
    have := exSpd_hyp.pos x hne
    rw [hx, exSpd_hyp.ls.inner.zero_right] at this
    simp at this
  have hm : MinresHyp exSpd := ⟨exSpd_hyp.ls, exSpd_hyp.sa⟩
  have htol : (0 : ℝ) ≤ (⟨none, 1e-5, 1, false, none⟩ : SolverArgs (ℝ × ℝ)).tol := by norm_num
  obtain ⟨st', h2, -⟩ := C37_gmres_terminates hd hs ho (hm.gmres .mgs) hMr ⟨none, 1e-5, 1, false, none⟩ htol hb hinj hfin
  have ok := LSOK.of_defl hd hs
  have hob := OblOK.of_defl hd hs ho
  have hn2 : nrm exSpd.ip ((1 : ℝ), (1 : ℝ)) ≠ 0 := by
    intro h0
    have := exSpd_hyp.ls.inner.nrm_eq_zero.mp h0
    simp at this
  have hU : ∀ j, o.U j = (nrm exSpd.ip ((1 : ℝ), (1 : ℝ)))⁻¹ • ((1 : ℝ), (1 : ℝ)) := by
    intro j
    unfold mkObl at ho
    simp only [exObl, qr1] at ho
    split at ho
    · simp at ho
    · obtain rfl := Except.ok.inj ho
      rfl
  refine ⟨s, o, st', hs, ho, h2, fun i j => ?_, fun hinv j hj => ?_⟩
  · rw [hU, hU, exSpd_hyp.ls.inner.smul_left, exSpd_hyp.ls.inner.smul_right, exSpd_hyp.ls.inner.self_real,
      ← exSpd_hyp.ls.inner.nrm_sq, Subsingleton.elim i j]
    simp
    field_simp
  · have hreach := deflGmres_reach hd hs ho (hm.gmres .mgs) _ (Or.inl h2)
    have horth := defl_basis_orth hd hs ho (hm.gmres .mgs) _ hreach
    have hah := hob.arnHyp ok (hm.gmres .mgs) 1
    obtain ⟨hgg, hM, hA, hip⟩ := hob.cfg_eq ok .mgs 1
    obtain ⟨-, hR, -, -, hfl⟩ := C17_arnoldi hah hreach
    obtain ⟨e1, e2, h3⟩ := hfl hinv
    have hle := (hreach.inv hah).le
    change _ ≤ 1 at hle
    obtain rfl : j = 0 := by omega
    obtain ⟨w, hw, hwo, hnw, -⟩ := h3 0 hj
    have hrows : 0 < st'.s.1.arn.get.rows := by
      rw [Arn.get, if_pos hinv]; change 0 < st'.s.1.arn.iter; omega
    have h1 := horth 0 hrows 0
    have h2 : exSpd.ip (o.U 0) w = 0 := by
      have hq := defl_orth_compl hd hs ho (exSpd.B (st'.s.1.arn.V 0)) 0
      rw [hA, LinearMap.comp_apply] at hw
      rw [hw, ← hj, Finset.sum_range_one, exSpd_hyp.ls.inner.add_right, exSpd_hyp.ls.inner.smul_right, h1, mul_zero,
        zero_add] at hq
      exact hq
    have h4 := hR.orth 0 (by omega) 0 (by omega)
    rw [hip, hR.VM 0 (by omega), hM] at h4
    have h5 := hwo 0 (by omega)
    rw [hgg] at h5
    rw [hU, exSpd_hyp.ls.inner.smul_left] at h1 h2
    have hc : conj (nrm exSpd.ip ((1 : ℝ), (1 : ℝ)))⁻¹ ≠ (0 : ℝ) := by simpa using hn2
    have h1' := (mul_eq_zero.mp h1).resolve_left hc
    have h2' := (mul_eq_zero.mp h2).resolve_left hc
    simp [exSpd, exCfg] at h1' h2' h4 h5
    have hx : (st'.s.1.arn.P 0).2 = - (st'.s.1.arn.P 0).1 := by linarith
    have hy : w.2 = - w.1 := by linarith
    rw [hx] at h4 h5
    rw [hy] at h5
    have hw1 : w.1 = 0 := by
      have h6 : (st'.s.1.arn.P 0).1 ≠ 0 := by
        intro h0; rw [h0] at h4; norm_num at h4
      have h7 : (st'.s.1.arn.P 0).1 * w.1 = 0 := by linarith
      exact (mul_eq_zero.mp h7).resolve_left h6
    have hw0 : w = 0 := Prod.ext hw1 (by rw [hy, hw1]; simp)
    rw [hnw, hw0, hah.inner.nrm_eq_zero.mpr rfl]
    simp

end Krypy
