import Verif.Model.Ritz
import Verif.Proofs.Gram
import Verif.Props.Arnoldi
import Mathlib.LinearAlgebra.Matrix.Hermitian

/-! # Property C39: `utils.ritz` -/

set_option linter.unusedSectionVars false

namespace Krypy
variable {𝕜 E : Type*} [RCLike 𝕜] [AddCommGroup E] [Module 𝕜 E] {n : ℕ}
open scoped ComplexConjugate
open Matrix

/-- Specification: `V` is orthonormal, `A V_n = V_(n_) H`, and the last row of an extended `H` vanishes except for its last
entry. -/
structure RitzRel (ip : E → E → 𝕜) (A : E →ₗ[𝕜] E) (V : ℕ → E) (H : ℕ → ℕ → 𝕜) (n_ n : ℕ) : Prop where
  inner : IsInner ip
  orth : ∀ i < n_, ∀ j < n_, ip (V i) (V j) = if i = j then 1 else 0
  rel : ∀ j < n, A (V j) = ∑ i ∈ Finset.range n_, H i j • V i
  last : ∀ j, j + 1 < n → H n j = 0

/-- The residual of a pair. -/
def eigRes (A : E →ₗ[𝕜] E) (theta : 𝕜) (z : E) : E := A z - theta • z

theorem vecNorm_nonneg {ι : Type*} [Fintype ι] (u : ι → 𝕜) : 0 ≤ vecNorm u := Real.sqrt_nonneg _

theorem vecNorm_sq {ι : Type*} [Fintype ι] (u : ι → 𝕜) : vecNorm u ^ 2 = ∑ i, ‖u i‖ ^ 2 :=
  Real.sq_sqrt (Finset.sum_nonneg fun _ _ => sq_nonneg _)

theorem vecNorm_eq_zero {ι : Type*} [Fintype ι] {u : ι → 𝕜} : vecNorm u = 0 ↔ u = 0 := by
  rw [vecNorm, Real.sqrt_eq_zero (Finset.sum_nonneg fun _ _ => sq_nonneg _),
    Finset.sum_eq_zero_iff_of_nonneg fun _ _ => sq_nonneg _]
  simp [funext_iff]

theorem vecNorm_smul {ι : Type*} [Fintype ι] (c : 𝕜) (u : ι → 𝕜) : vecNorm (c • u) = ‖c‖ * vecNorm u := by
  unfold vecNorm
  rw [← Real.sqrt_sq (norm_nonneg c), ← Real.sqrt_mul (sq_nonneg _), Finset.mul_sum]
  congr 1
  refine Finset.sum_congr rfl fun i _ => ?_
  simp [mul_pow]

theorem vecNorm_normalise {ι : Type*} [Fintype ι] {u : ι → 𝕜} (hu : u ≠ 0) : vecNorm (normalise u) = 1 := by
  have h : vecNorm u ≠ 0 := fun h => hu (vecNorm_eq_zero.mp h)
  rw [normalise, vecNorm_smul, norm_inv, RCLike.norm_ofReal, abs_of_nonneg (vecNorm_nonneg u)]
  exact inv_mul_cancel₀ h

theorem star_dot_self {ι : Type*} [Fintype ι] (u : ι → 𝕜) : star u ⬝ᵥ u = ((vecNorm u ^ 2 : ℝ) : 𝕜) := by
  rw [vecNorm_sq]
  simp only [dotProduct, Pi.star_apply]
  push_cast
  refine Finset.sum_congr rfl fun i _ => ?_
  exact RCLike.conj_mul _

/-- Inner products of linear combinations of an orthonormal family. -/
theorem ip_lincomb_orth {ι : Type*} [Fintype ι] [DecidableEq ι] {ip : E → E → 𝕜} (h : IsInner ip) {V : ι → E}
    (hV : gram ip V V = 1) (c d : ι → 𝕜) : ip (lincomb V c) (lincomb V d) = star c ⬝ᵥ d := by
  rw [h.ip_lincomb_left, h.coefs_lincomb, hV, Matrix.one_mulVec]

theorem nrm_lincomb_orth {ι : Type*} [Fintype ι] [DecidableEq ι] {ip : E → E → 𝕜} (h : IsInner ip) {V : ι → E}
    (hV : gram ip V V = 1) (c : ι → 𝕜) : nrm ip (lincomb V c) = vecNorm c := by
  have e : nsq ip (lincomb V c) = vecNorm c ^ 2 := by
    rw [nsq, ip_lincomb_orth h hV, star_dot_self, RCLike.ofReal_re]
  rw [nrm, e, Real.sqrt_sq (vecNorm_nonneg c)]

theorem lincomb_pad {n_ : ℕ} (hn : n ≤ n_) (V : ℕ → E) (u : Fin n → 𝕜) :
    lincomb (fun i : Fin n_ => V i) (padZero n_ u) = lincomb (fun i : Fin n => V i) u := by
  unfold lincomb padZero
  rw [Fin.sum_univ_eq_sum_range (fun i => (if h : i < n then u ⟨i, h⟩ else 0) • V i) n_]
  rw [← Finset.sum_subset (Finset.range_mono hn)]
  · rw [← Fin.sum_univ_eq_sum_range]
    refine Finset.sum_congr rfl fun i _ => ?_
    simp
  · intro i _ hi
    rw [Finset.mem_range] at hi
    simp [hi]

namespace RitzRel
variable {ip : E → E → 𝕜} {A : E →ₗ[𝕜] E} {V : ℕ → E} {H : ℕ → ℕ → 𝕜} {n_ : ℕ}

theorem gram_eq (h : RitzRel ip A V H n_ n) : gram ip (fun i : Fin n_ => V i) (fun i : Fin n_ => V i) = 1 := by
  ext i j
  simp only [gram, Matrix.of_apply, h.orth i i.2 j j.2, Matrix.one_apply, Fin.ext_iff]

theorem apply_vec (h : RitzRel ip A V H n_ n) (u : Fin n → 𝕜) :
    A (ritzVec V u) = lincomb (fun i : Fin n_ => V i) (subMat H n_ n *ᵥ u) := by
  rw [ritzVec, map_lincomb', lincomb_mulVec]
  congr 1
  funext j
  rw [h.rel j j.2, lincomb, ← Fin.sum_univ_eq_sum_range]
  rfl
where
  map_lincomb' : A (lincomb (fun j : Fin n => V j) u) = lincomb (fun j : Fin n => A (V j)) u := by
    simp [lincomb, map_sum, map_smul]

theorem res_eq (h : RitzRel ip A V H n_ n) (hn : n ≤ n_) (u : Fin n → 𝕜) (t : 𝕜) :
    eigRes A t (ritzVec V u) = lincomb (fun i : Fin n_ => V i) (ritzResi H n_ u t) := by
  rw [eigRes, h.apply_vec, ritzResi, lincomb_sub, lincomb_smul, lincomb_pad hn]
  rfl

theorem nrm_res (h : RitzRel ip A V H n_ n) (hn : n ≤ n_) (u : Fin n → 𝕜) (t : 𝕜) :
    nrm ip (eigRes A t (ritzVec V u)) = vecNorm (ritzResi H n_ u t) := by
  rw [h.res_eq hn, nrm_lincomb_orth h.inner h.gram_eq]

theorem nrm_vec (h : RitzRel ip A V H n_ n) (hn : n ≤ n_) (u : Fin n → 𝕜) : nrm ip (ritzVec V u) = vecNorm u := by
  refine nrm_lincomb_orth h.inner ?_ u
  ext i j
  simp only [gram, Matrix.of_apply, h.orth i (by omega) j (by omega), Matrix.one_apply, Fin.ext_iff]

theorem coef_res (h : RitzRel ip A V H n_ n) (hn : n ≤ n_) (u : Fin n → 𝕜) (t : 𝕜) (i : Fin n_) :
    ip (V i) (eigRes A t (ritzVec V u)) = ritzResi H n_ u t i := by
  rw [h.res_eq hn]
  have := h.inner.coefs_lincomb (fun i : Fin n_ => V i) (fun i : Fin n_ => V i) (ritzResi H n_ u t)
  rw [h.gram_eq, Matrix.one_mulVec] at this
  exact congrFun this i

theorem coef_image (h : RitzRel ip A V H n_ n) (hn : n ≤ n_) (u : Fin n → 𝕜) (t : 𝕜) (w : Fin n → 𝕜) :
    ip (A (ritzVec V w)) (eigRes A t (ritzVec V u)) =
      star w ⬝ᵥ ((subMat H n_ n)ᴴ *ᵥ ritzResi H n_ u t) := by
  rw [h.res_eq hn, h.apply_vec, ip_lincomb_orth h.inner h.gram_eq, Matrix.star_mulVec, Matrix.dotProduct_mulVec]

end RitzRel

theorem subMat_pad {n_ : ℕ} (hn : n ≤ n_) (H : ℕ → ℕ → 𝕜) (u : Fin n → 𝕜) :
    (subMat H n_ n)ᴴ *ᵥ padZero n_ u = (subMat H n n)ᴴ *ᵥ u := by
  funext j
  simp only [Matrix.mulVec, dotProduct, Matrix.conjTranspose_apply, subMat, Matrix.of_apply, padZero]
  rw [Fin.sum_univ_eq_sum_range (fun i => star (H i j) * (if h : i < n then u ⟨i, h⟩ else 0)) n_,
    ← Finset.sum_subset (Finset.range_mono hn), ← Fin.sum_univ_eq_sum_range]
  · refine Finset.sum_congr rfl fun i _ => ?_
    simp
  · intro i _ hi
    rw [Finset.mem_range] at hi
    simp [hi]

theorem ritzResi_lt {n_ : ℕ} (H : ℕ → ℕ → 𝕜) (u : Fin n → 𝕜) (t : 𝕜) (i : Fin n_) (hi : (i : ℕ) < n) :
    ritzResi H n_ u t i = (subMat H n n *ᵥ u) ⟨i, hi⟩ - t * u ⟨i, hi⟩ := by
  simp [ritzResi, padZero, hi, Matrix.mulVec, dotProduct, subMat]

theorem ritzResi_last {H : ℕ → ℕ → 𝕜} (hl : ∀ j, j + 1 < n → H n j = 0) (hn : 0 < n) (u : Fin n → 𝕜) (t : 𝕜) :
    ritzResi H (n + 1) u t (Fin.last n) = H n (n - 1) * lastEntry u := by
  simp only [ritzResi, padZero, Matrix.mulVec, dotProduct, subMat, Pi.sub_apply, Pi.smul_apply, Fin.val_last,
    Matrix.of_apply, lt_irrefl, dite_false, smul_zero, sub_zero, lastEntry, hn, dite_true]
  rw [Finset.sum_eq_single ⟨n - 1, by omega⟩]
  · intro j _ hj
    have : (j : ℕ) ≠ n - 1 := fun h => hj (Fin.ext h)
    rw [hl j (by omega), zero_mul]
  · simp

/-- The norm of the residual of a Ritz pair of the matrix. -/
theorem vecNorm_ritzResi {H : ℕ → ℕ → 𝕜} {n_ : ℕ} (hl : ∀ j, j + 1 < n → H n j = 0) (hn : 0 < n)
    (hs : n_ = n ∨ n_ = n + 1) {u : Fin n → 𝕜} {t : 𝕜} (he : subMat H n n *ᵥ u = t • u) :
    vecNorm (ritzResi H n_ u t) = ‖(if n_ = n then 0 else H (n_ - 1) (n - 1)) * lastEntry u‖ := by
  have h0 : ∀ i : Fin n_, (i : ℕ) < n → ritzResi H n_ u t i = 0 := by
    intro i hi
    rw [ritzResi_lt H u t i hi, he]
    simp
  rcases hs with rfl | rfl
  · rw [if_pos rfl, zero_mul, norm_zero, vecNorm_eq_zero]
    funext i
    exact h0 i i.2
  · rw [if_neg (by omega), vecNorm, Fin.sum_univ_castSucc,
      Finset.sum_eq_zero fun i _ => by rw [h0 _ (by simp)]; simp, zero_add, ritzResi_last hl hn,
      Real.sqrt_sq (norm_nonneg _)]
    rfl

/-- The Rayleigh quotient minimises the residual. -/
theorem rayleigh_min {ip : E → E → 𝕜} (h : IsInner ip) {A : E →ₗ[𝕜] E} {z : E} (hz : nrm ip z = 1) (t : 𝕜) :
    nrm ip (eigRes A (ip z (A z)) z) ≤ nrm ip (eigRes A t z) := by
  have hzz : ip z z = 1 := by
    rw [h.self_real, ← h.nrm_sq, hz]; simp
  have h0 : ip (eigRes A (ip z (A z)) z) ((ip z (A z) - t) • z) = 0 := by
    rw [h.smul_right, h.orth_symm (x := z) (by rw [eigRes, h.sub_right, h.smul_right, hzz, mul_one, sub_self]), mul_zero]
  have : eigRes A t z = eigRes A (ip z (A z)) z + (ip z (A z) - t) • z := by
    simp only [eigRes, sub_smul]; abel
  rw [this]
  unfold nrm
  refine Real.sqrt_le_sqrt ?_
  rw [h.nsq_add_of_orth h0]
  exact le_add_of_nonneg_right (h.nsq_nonneg _)

section
variable {ip : E → E → 𝕜} {A : E →ₗ[𝕜] E} {V : ℕ → E} {H : ℕ → ℕ → 𝕜} {n_ : ℕ}

/-- The contracts of the eigenvalue routines (for two matrices: if the second one is invertible). -/
structure EigOk {ι : Type*} [Fintype ι] [DecidableEq ι] (rt : EigRoutines 𝕜 ι) : Prop where
  eig : ∀ M e, rt.eig M = .ok e → IsEig M e
  eigh : ∀ (M : Matrix _ _ 𝕜) e, M.IsHermitian → rt.eigh M = .ok e → IsEigh M e
  geig : ∀ (M N : Matrix _ _ 𝕜) e, N.det ≠ 0 → rt.geig M N = .ok e → IsGenEig M N e
  geigh : ∀ (M N : Matrix _ _ 𝕜) e, M.IsHermitian → N.IsHermitian → N.det ≠ 0 → rt.geigh M N = .ok e →
    IsGenEig M N e

/-- C39: `ritz` raises `ArgumentError` for the wrong shapes and unknown types, and otherwise (`n > 0`) no error of its
own. -/
theorem C39_errors (rt : EigRoutines 𝕜 (Fin n)) (H : ℕ → ℕ → 𝕜) (n_ : ℕ) (nV : Option ℕ) (hm : Bool) (ty : RitzType) :
    ((∃ m, nV = some m ∧ m ≠ n_) ∨ ¬ (n_ = n ∨ n_ = n + 1) ∨ ty = .other →
      ritz rt H n_ nV hm ty = .error .argumentError) ∧
    (¬ ((∃ m, nV = some m ∧ m ≠ n_) ∨ ¬ (n_ = n ∨ n_ = n + 1) ∨ ty = .other) → 0 < n →
      (∀ M, ∃ e, rt.eig M = .ok e) → (∀ M, ∃ e, rt.eigh M = .ok e) → (∀ M N, ∃ e, rt.geig M N = .ok e) →
      (∀ M N, ∃ e, rt.geigh M N = .ok e) → ∃ out, ritz rt H n_ nV hm ty = .ok out) := by
  have h1 : (nV.any fun m => m ≠ n_) = true ↔ ∃ m, nV = some m ∧ m ≠ n_ := by
    cases nV <;> simp
  constructor
  · intro h
    unfold ritz
    by_cases c1 : ∃ m, nV = some m ∧ m ≠ n_
    · rw [if_pos (h1.mpr c1)]
    rw [if_neg (by rwa [h1])]
    by_cases c2 : n_ ≠ n ∧ n_ ≠ n + 1
    · rw [if_pos c2]
    rw [if_neg c2]
    rcases h with h | h | rfl
    · exact absurd h c1
    · exact absurd h (by tauto)
    · rfl
  · intro h h0 he heh hg hgh
    rw [not_or, not_or, not_not] at h
    unfold ritz
    rw [if_neg (by rw [h1]; exact h.1), if_neg (by tauto)]
    cases ty with
    | other => exact absurd rfl h.2.2
    | ritz =>
      dsimp only
      rw [if_neg (by omega)]
      cases hm
      · obtain ⟨e, h2⟩ := he (subMat H n n); rw [if_neg (by simp), h2]; exact ⟨_, rfl⟩
      · obtain ⟨e, h2⟩ := heh (subMat H n n); rw [if_pos rfl, h2]; exact ⟨_, rfl⟩
    | harmonic =>
      dsimp only
      rw [if_neg (by omega)]
      cases hm
      · obtain ⟨e, h2⟩ := hg (subMat H n n)ᴴ ((subMat H n_ n)ᴴ * subMat H n_ n)
        rw [if_neg (by simp), h2]; exact ⟨_, rfl⟩
      · obtain ⟨e, h2⟩ := hgh (subMat H n n)ᴴ ((subMat H n_ n)ᴴ * subMat H n_ n)
        rw [if_pos rfl, h2]; exact ⟨_, rfl⟩
    | harmonicImproved =>
      dsimp only
      rw [if_neg (by omega)]
      cases hm
      · obtain ⟨e, h2⟩ := hg (subMat H n n)ᴴ ((subMat H n_ n)ᴴ * subMat H n_ n)
        rw [if_neg (by simp), h2]; exact ⟨_, rfl⟩
      · obtain ⟨e, h2⟩ := hgh (subMat H n n)ᴴ ((subMat H n_ n)ᴴ * subMat H n_ n)
        rw [if_pos rfl, h2]; exact ⟨_, rfl⟩

theorem ritz_shape {rt : EigRoutines 𝕜 (Fin n)} {nV : Option ℕ} {hm : Bool} {ty : RitzType} {out : RitzOut 𝕜 n}
    (h : ritz rt H n_ nV hm ty = .ok out) : (n_ = n ∨ n_ = n + 1) ∧ 0 < n := by
  unfold ritz at h
  split at h
  · simp at h
  split at h
  · simp at h
  refine ⟨by tauto, ?_⟩
  by_contra hn
  have hn : n = 0 := by omega
  cases ty <;> simp [hn] at h

theorem ritz_cases {rt : EigRoutines 𝕜 (Fin n)} (hrt : EigOk rt) {nV : Option ℕ} {hm : Bool}
    (hh : hm = true → (subMat H n n).IsHermitian) {out : RitzOut 𝕜 n} (h : ritz rt H n_ nV hm .ritz = .ok out) :
    ∃ e : Eigs 𝕜 (Fin n), IsEig (subMat H n n) e ∧ (hm = true → IsEigh (subMat H n n) e) ∧
      out = ⟨fun i => some (e.1 i), e.2,
        fun i => some ‖(if n_ = n then 0 else H (n_ - 1) (n - 1)) * lastEntry (e.2 i)‖⟩ := by
  have hs := ritz_shape h
  unfold ritz at h
  split at h
  · simp at h
  rw [if_neg (by omega)] at h
  dsimp only at h
  rw [if_neg (by omega)] at h
  split at h
  · exact absurd h (by simp)
  · next t U he =>
    refine ⟨(t, U), ?_, ?_, (Except.ok.inj h).symm⟩
    · cases hm with
      | false => exact hrt.eig _ _ he
      | true => exact (hrt.eigh _ _ (hh rfl) he).eig
    · rintro rfl
      exact hrt.eigh _ _ (hh rfl) he

theorem ritz_gen {rt : EigRoutines 𝕜 (Fin n)} (hrt : EigOk rt) {hm : Bool}
    (hh : hm = true → (subMat H n n).IsHermitian) (hd : ((subMat H n_ n)ᴴ * subMat H n_ n).det ≠ 0)
    {e : Eigs 𝕜 (Fin n)}
    (he : (if hm then rt.geigh else rt.geig) (subMat H n n)ᴴ ((subMat H n_ n)ᴴ * subMat H n_ n) = .ok e) :
    IsGenEig (subMat H n n)ᴴ ((subMat H n_ n)ᴴ * subMat H n_ n) e := by
  cases hm with
  | false => exact hrt.geig _ _ _ hd he
  | true => exact hrt.geigh _ _ _ (hh rfl).conjTranspose (Matrix.isHermitian_conjTranspose_mul_self _) hd he

/-- C39 (Ritz pairs): every returned pair consists of a vector `z` of norm one in the search space and a value with
`A z - theta z` orthogonal to the search space, and the returned residual norm is the norm of that residual. -/
theorem C39_ritz (h : RitzRel ip A V H n_ n) {rt : EigRoutines 𝕜 (Fin n)} (hrt : EigOk rt) {nV : Option ℕ} {hm : Bool}
    (hh : hm = true → (subMat H n n).IsHermitian) {out : RitzOut 𝕜 n} (ho : ritz rt H n_ nV hm .ritz = .ok out)
    (i : Fin n) :
    ∃ t, out.theta i = some t ∧ nrm ip (ritzVec V (out.U i)) = 1 ∧
      (∀ j < n, ip (V j) (eigRes A t (ritzVec V (out.U i))) = 0) ∧
      out.resnorm i = some (nrm ip (eigRes A t (ritzVec V (out.U i)))) := by
  obtain ⟨hs, hn⟩ := ritz_shape ho
  obtain ⟨e, he, -, rfl⟩ := ritz_cases hrt hh ho
  have hle : n ≤ n_ := by omega
  refine ⟨e.1 i, rfl, ?_, fun j hj => ?_, ?_⟩
  · rw [h.nrm_vec hle]; exact (he i).2
  · rw [h.coef_res hle _ _ ⟨j, by omega⟩, ritzResi_lt _ _ _ _ hj, (he i).1]
    simp
  · rw [h.nrm_res hle, vecNorm_ritzResi h.last hn hs (he i).1]

/-- C39 (Hermitian case): the Ritz values are real and the Ritz vectors orthonormal. -/
theorem C39_hermitian (h : RitzRel ip A V H n_ n) {rt : EigRoutines 𝕜 (Fin n)} (hrt : EigOk rt) {nV : Option ℕ}
    (hh : (subMat H n n).IsHermitian) {out : RitzOut 𝕜 n} (ho : ritz rt H n_ nV true .ritz = .ok out) :
    (∀ i, ∃ t, out.theta i = some t ∧ RCLike.im t = 0) ∧
    ∀ i j, ip (ritzVec V (out.U i)) (ritzVec V (out.U j)) = if i = j then 1 else 0 := by
  obtain ⟨hs, hn⟩ := ritz_shape ho
  obtain ⟨e, -, heh, rfl⟩ := ritz_cases hrt (fun _ => hh) ho
  refine ⟨fun i => ⟨_, rfl, RCLike.conj_eq_iff_im.mp ((heh rfl).real i)⟩, fun i j => ?_⟩
  rw [ritzVec, ritzVec, ip_lincomb_orth h.inner, (heh rfl).orth]
  ext a b
  simp only [gram, Matrix.of_apply, h.orth a (by omega) b (by omega), Matrix.one_apply, Fin.ext_iff]

/-- C39 (harmonic Ritz pairs): vectors of norm one; for every pair with a finite value the residual is orthogonal to the
image `A K` of the search space and its norm is the returned one.  The value is infinite only if the vector is itself
orthogonal to `A K`. -/
theorem C39_harmonic (h : RitzRel ip A V H n_ n) {rt : EigRoutines 𝕜 (Fin n)} (hrt : EigOk rt) {nV : Option ℕ}
    {hm : Bool} (hh : hm = true → (subMat H n n).IsHermitian) (hd : ((subMat H n_ n)ᴴ * subMat H n_ n).det ≠ 0)
    {out : RitzOut 𝕜 n} (ho : ritz rt H n_ nV hm .harmonic = .ok out) (i : Fin n) :
    nrm ip (ritzVec V (out.U i)) = 1 ∧
    (∀ t, out.theta i = some t → t ≠ 0 ∧
      (∀ w : Fin n → 𝕜, ip (A (ritzVec V w)) (eigRes A t (ritzVec V (out.U i))) = 0) ∧
      out.resnorm i = some (nrm ip (eigRes A t (ritzVec V (out.U i))))) ∧
    (out.theta i = none → ∀ w : Fin n → 𝕜, ip (A (ritzVec V w)) (ritzVec V (out.U i)) = 0) := by
  obtain ⟨hs, hn⟩ := ritz_shape ho
  have hle : n ≤ n_ := by omega
  unfold ritz at ho
  split at ho
  · simp at ho
  rw [if_neg (by omega)] at ho
  dsimp only at ho
  rw [if_neg (by omega)] at ho
  split at ho
  · exact absurd ho (by simp)
  next s U he =>
  obtain rfl := Except.ok.inj ho
  have hg := ritz_gen hrt hh hd he i
  have hg1 : (subMat H n n)ᴴ *ᵥ normalise (U i) =
      s i • (((subMat H n_ n)ᴴ * subMat H n_ n) *ᵥ normalise (U i)) := by
    rw [normalise, Matrix.mulVec_smul, Matrix.mulVec_smul, hg.1, smul_comm]
  refine ⟨?_, ?_, ?_⟩
  · rw [h.nrm_vec hle]; exact vecNorm_normalise hg.2
  · intro t ht
    dsimp only at ht ⊢
    have hs0 : s i ≠ 0 := by
      intro h0; rw [if_pos h0] at ht; simp at ht
    rw [if_neg hs0] at ht
    obtain rfl := Option.some.inj ht
    refine ⟨one_div_ne_zero hs0, fun w => ?_, ?_⟩
    · rw [h.coef_image hle, ritzResi, Matrix.mulVec_sub, Matrix.mulVec_smul, subMat_pad hle, hg1,
        Matrix.mulVec_mulVec, smul_smul, one_div, inv_mul_cancel₀ hs0, one_smul, sub_self, dotProduct_zero]
    · rw [if_neg hs0, Option.map_some, h.nrm_res hle]
  · intro ht w
    dsimp only at ht ⊢
    have hs0 : s i = 0 := by
      by_contra h0; rw [if_neg h0] at ht; simp at ht
    rw [hs0, zero_smul] at hg1
    rw [h.apply_vec, ritzVec, ← lincomb_pad hle, ip_lincomb_orth h.inner h.gram_eq, Matrix.star_mulVec,
      ← Matrix.dotProduct_mulVec, subMat_pad hle, hg1, dotProduct_zero]

/-- C39 (improved harmonic Ritz pairs): the vectors have norm one, the value is the Rayleigh quotient `<z, A z>`, the
returned number is the norm of the residual, and no other value gives a smaller residual; in particular the residual is
not larger than the one of the harmonic pair with the same vector. -/
theorem C39_improved (h : RitzRel ip A V H n_ n) {rt : EigRoutines 𝕜 (Fin n)} (hrt : EigOk rt) {nV : Option ℕ}
    {hm : Bool} (hh : hm = true → (subMat H n n).IsHermitian) (hd : ((subMat H n_ n)ᴴ * subMat H n_ n).det ≠ 0)
    {out : RitzOut 𝕜 n} (ho : ritz rt H n_ nV hm .harmonicImproved = .ok out) (i : Fin n) :
    ∃ t, out.theta i = some t ∧ nrm ip (ritzVec V (out.U i)) = 1 ∧
      t = ip (ritzVec V (out.U i)) (A (ritzVec V (out.U i))) ∧
      out.resnorm i = some (nrm ip (eigRes A t (ritzVec V (out.U i)))) ∧
      (∀ t', nrm ip (eigRes A t (ritzVec V (out.U i))) ≤ nrm ip (eigRes A t' (ritzVec V (out.U i)))) ∧
      ∃ outH, ritz rt H n_ nV hm .harmonic = .ok outH ∧ outH.U i = out.U i ∧
        ∀ r r', out.resnorm i = some r → outH.resnorm i = some r' → r ≤ r' := by
  obtain ⟨hs, hn⟩ := ritz_shape ho
  have hle : n ≤ n_ := by omega
  unfold ritz at ho
  split at ho
  · simp at ho
  next c1 =>
  rw [if_neg (by omega)] at ho
  dsimp only at ho
  rw [if_neg (by omega)] at ho
  split at ho
  · exact absurd ho (by simp)
  next s U he =>
  obtain rfl := Except.ok.inj ho
  have hg := ritz_gen hrt hh hd he i
  have hn1 : nrm ip (ritzVec V (normalise (U i))) = 1 := by
    rw [h.nrm_vec hle]; exact vecNorm_normalise hg.2
  have hray : star (normalise (U i)) ⬝ᵥ (subMat H n n *ᵥ normalise (U i)) =
      ip (ritzVec V (normalise (U i))) (A (ritzVec V (normalise (U i)))) := by
    rw [h.apply_vec, ritzVec, ← lincomb_pad hle, ip_lincomb_orth h.inner h.gram_eq, Matrix.dotProduct_mulVec,
      Matrix.dotProduct_mulVec]
    congr 1
    have := congrArg star (subMat_pad hle H (normalise (U i)))
    rw [Matrix.star_mulVec, Matrix.star_mulVec, conjTranspose_conjTranspose, conjTranspose_conjTranspose] at this
    exact this.symm
  have hmin : ∀ t', nrm ip (eigRes A (star (normalise (U i)) ⬝ᵥ (subMat H n n *ᵥ normalise (U i)))
      (ritzVec V (normalise (U i)))) ≤ nrm ip (eigRes A t' (ritzVec V (normalise (U i)))) := by
    intro t'
    rw [hray]
    exact rayleigh_min h.inner hn1 t'
  refine ⟨_, rfl, hn1, hray, ?_, hmin, ?_⟩
  · rw [h.nrm_res hle]
  · refine ⟨⟨fun i => if s i = 0 then none else some (1 / s i), fun i => normalise (U i), fun i =>
      (if s i = 0 then none else some (1 / s i)).map fun t => vecNorm (ritzResi H n_ (normalise (U i)) t)⟩, ?_, rfl, ?_⟩
    · unfold ritz
      rw [if_neg c1, if_neg (by omega)]
      dsimp only
      rw [if_neg (by omega), he]
    · intro r r' hr hr'
      dsimp only at hr hr'
      obtain rfl := Option.some.inj hr
      obtain ⟨t', -, rfl⟩ := Option.map_eq_some_iff.mp hr'
      rw [← h.nrm_res hle, ← h.nrm_res hle]
      exact hmin t'

theorem det_gram_ne {m : ℕ} {B : Matrix (Fin m) (Fin n) 𝕜} (h : ∀ u, B *ᵥ u = 0 → u = 0) : (Bᴴ * B).det ≠ 0 := by
  intro h0
  obtain ⟨u, hu, h1⟩ := Matrix.exists_mulVec_eq_zero_iff.mpr h0
  refine hu (h u ?_)
  rw [← Matrix.mulVec_mulVec] at h1
  have h2 : star (B *ᵥ u) ⬝ᵥ (B *ᵥ u) = 0 := by
    rw [Matrix.star_mulVec, ← Matrix.dotProduct_mulVec, h1, dotProduct_zero]
  rw [star_dot_self] at h2
  have h3 : vecNorm (B *ᵥ u) ^ 2 = 0 := by exact_mod_cast h2
  exact vecNorm_eq_zero.mp (by simpa using h3)

/-- C39: the matrix `H^H H` of the harmonic eigenvalue problem is invertible if `A` is injective. -/
theorem C39_full_rank (h : RitzRel ip A V H n_ n) (hn : n ≤ n_) (hA : Function.Injective A) :
    ((subMat H n_ n)ᴴ * subMat H n_ n).det ≠ 0 := by
  refine det_gram_ne fun u hu => ?_
  have h1 := h.apply_vec u
  rw [hu, lincomb_zero] at h1
  have h2 : ritzVec V u = 0 := hA (by rw [h1, map_zero])
  have h3 := h.nrm_vec hn u
  rw [h2, h.inner.nrm_eq_zero.mpr rfl] at h3
  exact vecNorm_eq_zero.mp h3.symm
end

/-- C39 with the results of an `Arnoldi` object which did not find an invariant space: the hypothesis `RitzRel` holds for
the basis `P` (`= V` without preconditioner), the operator `A M` and the inner product `<p, M q>`. -/
theorem C39_arnoldi {c : ArnCfg 𝕜 E} (hc : ArnHyp c) {v : E} {s : Arn 𝕜 E} (h : ArnReach c v s)
    (hi : s.invariant = false) : RitzRel c.g (c.A ∘ₗ c.Mop) s.P s.H (s.iter + 1) s.iter := by
  obtain ⟨-, hR, -, hlive, -⟩ := C17_arnoldi hc h
  obtain ⟨hb, hcol, -⟩ := hlive hi
  rw [hb, hcol] at hR
  refine ⟨hc.inner, fun i hi j hj => ?_, fun j hj => ?_, fun j hj => hR.hess _ _ hj⟩
  · rw [ArnCfg.g, ← hR.VM j hj]; exact hR.orth i hi j hj
  · rw [LinearMap.comp_apply, ← hR.VM j (by omega), hR.rel j (by omega)]

/-- C39 with the results of an `Arnoldi` object which flagged an invariant space (`H` square): the pairs returned by `ritz` are
Ritz pairs, but the returned residual norm is zero while the true one can be as large as `1e-14 ‖H‖`. -/
theorem C39_arnoldi_invariant {c : ArnCfg 𝕜 E} (hc : ArnHyp c) {v : E} {s : Arn 𝕜 E} (h : ArnReach c v s)
    (hi : s.invariant = true) {rt : EigRoutines 𝕜 (Fin s.iter)} (hrt : EigOk rt) {nV : Option ℕ} {hm : Bool}
    (hh : hm = true → (subMat s.H s.iter s.iter).IsHermitian) {out : RitzOut 𝕜 s.iter}
    (ho : ritz rt s.H s.iter nV hm .ritz = .ok out) (i : Fin s.iter) :
    ∃ t, out.theta i = some t ∧ nrm c.g (ritzVec s.P (out.U i)) = 1 ∧
      (∀ j < s.iter, c.g (s.P j) (eigRes (c.A ∘ₗ c.Mop) t (ritzVec s.P (out.U i))) = 0) ∧
      out.resnorm i = some 0 ∧
      nrm c.g (eigRes (c.A ∘ₗ c.Mop) t (ritzVec s.P (out.U i))) ≤ 1e-14 * specNorm s.H (s.iter + 1) s.iter := by
  obtain ⟨-, hR, -, -, hfl⟩ := C17_arnoldi hc h
  obtain ⟨hb, hcol, hlast⟩ := hfl hi
  rw [hb, hcol] at hR
  obtain ⟨-, hn⟩ := ritz_shape ho
  obtain ⟨w, hw, hwo, -, hws⟩ := hlast (s.iter - 1) (by omega)
  obtain ⟨e, he, -, rfl⟩ := ritz_cases hrt hh ho
  have hgram : gram c.g (fun i : Fin s.iter => s.P i) (fun i : Fin s.iter => s.P i) = 1 := by
    ext a b
    simp only [gram, Matrix.of_apply, Matrix.one_apply, Fin.ext_iff]
    rw [ArnCfg.g, ← hR.VM b b.2]; exact hR.orth a a.2 b b.2
  have hA : ∀ j : Fin s.iter, c.A (c.Mop (s.P j)) =
      lincomb (fun i : Fin s.iter => s.P i) (fun i => subMat s.H s.iter s.iter i j) +
        (if (j : ℕ) = s.iter - 1 then (1 : 𝕜) else 0) • w := by
    intro j
    rw [← hR.VM j j.2, lincomb]
    simp only [subMat, Matrix.of_apply]
    rw [Fin.sum_univ_eq_sum_range (fun i => s.H i j • s.P i)]
    by_cases hj : (j : ℕ) = s.iter - 1
    · rw [if_pos hj, one_smul, hj, hw]
    · rw [if_neg hj, zero_smul, add_zero, hR.rel j (by omega)]
  have hres : ∀ t u, subMat s.H s.iter s.iter *ᵥ u = t • u →
      eigRes (c.A ∘ₗ c.Mop) t (ritzVec s.P u) = lastEntry u • w := by
    intro t u hu
    have h1 : (c.A ∘ₗ c.Mop) (ritzVec s.P u) = lincomb (fun i : Fin s.iter => s.P i)
        (subMat s.H s.iter s.iter *ᵥ u) + lastEntry u • w := by
      rw [lincomb_mulVec, ritzVec, LinearMap.comp_apply]
      simp only [lincomb, map_sum, map_smul]
      simp only [lincomb] at hA
      simp only [hA, smul_add, Finset.sum_add_distrib]
      congr 1
      rw [Finset.sum_eq_single ⟨s.iter - 1, by omega⟩]
      · simp [lastEntry, hn]
      · intro b _ hb
        have : (b : ℕ) ≠ s.iter - 1 := fun h => hb (Fin.ext h)
        simp [this]
      · simp
    rw [eigRes, h1, hu, lincomb_smul, ritzVec]
    abel
  refine ⟨e.1 i, rfl, ?_, fun j hj => ?_, ?_, ?_⟩
  · rw [ritzVec, nrm_lincomb_orth hc.inner hgram]; exact (he i).2
  · rw [hres _ _ (he i).1, hc.inner.smul_right, hwo j hj, mul_zero]
  · simp
  · rw [hres _ _ (he i).1, hc.inner.nrm_smul]
    refine le_trans (mul_le_of_le_one_left (nrm_nonneg _ _) ?_) hws
    have h1 := (he i).2
    have h2 : ‖lastEntry (e.2 i)‖ ^ 2 ≤ vecNorm (e.2 i) ^ 2 := by
      rw [vecNorm_sq, lastEntry, dif_pos hn]
      exact Finset.single_le_sum (f := fun j => ‖e.2 i j‖ ^ 2) (fun _ _ => sq_nonneg _) (Finset.mem_univ _)
    rw [h1] at h2
    have := norm_nonneg (lastEntry (e.2 i))
    nlinarith

/-- Non-vacuity: routines for matrices of order one which satisfy the contracts and never fail. -/
noncomputable def rt1 : EigRoutines 𝕜 (Fin 1) where
  eig M := .ok (fun _ => M 0 0, fun _ _ => 1)
  eigh M := .ok (fun _ => M 0 0, fun _ _ => 1)
  geig M N := .ok (fun _ => M 0 0 / N 0 0, fun _ _ => 1)
  geigh M N := .ok (fun _ => M 0 0 / N 0 0, fun _ _ => 1)

theorem rt1_ok : EigOk (rt1 (𝕜 := 𝕜)) := by
  have h1 : ∀ M : Matrix (Fin 1) (Fin 1) 𝕜, IsEig M (fun _ => M 0 0, fun _ _ => 1) := by
    refine fun M i => ⟨?_, by simp [vecNorm]⟩
    funext j
    obtain rfl : j = 0 := Subsingleton.elim _ _
    simp [Matrix.mulVec, dotProduct]
  have h2 : ∀ M N : Matrix (Fin 1) (Fin 1) 𝕜, N.det ≠ 0 →
      IsGenEig M N (fun _ => M 0 0 / N 0 0, fun _ _ => 1) := by
    intro M N hN i
    rw [Matrix.det_fin_one] at hN
    refine ⟨?_, fun h => by simpa using congrFun h 0⟩
    funext j
    obtain rfl : j = 0 := Subsingleton.elim _ _
    simp [Matrix.mulVec, dotProduct, hN]
  refine ⟨fun M e h => ?_, fun M e hM h => ?_, fun M N e hN h => ?_, fun M N e hM _ hN h => ?_⟩
  · obtain rfl := Except.ok.inj h; exact h1 M
  · obtain rfl := Except.ok.inj h
    refine ⟨h1 M, fun i => ?_, fun i j => ?_⟩
    · exact congrFun (congrFun hM 0) 0
    · simp [dotProduct, Subsingleton.elim i j]
  · obtain rfl := Except.ok.inj h; exact h2 M N hN
  · obtain rfl := Except.ok.inj h; exact h2 M N hN

/-- Non-vacuity: for `A = [[2, 1], [1, 2]]`, start vector `e_1` and `n = 1` there are a Ritz pair `(2, e_1)` with residual norm
1 and a harmonic Ritz value `5/2`. -/
example :
    let A : (ℝ × ℝ) →ₗ[ℝ] (ℝ × ℝ) :=
      ((2 : ℝ) • LinearMap.fst ℝ ℝ ℝ + LinearMap.snd ℝ ℝ ℝ).prod (LinearMap.fst ℝ ℝ ℝ + (2 : ℝ) • LinearMap.snd ℝ ℝ ℝ)
    let V : ℕ → ℝ × ℝ := fun i => if i = 0 then (1, 0) else (0, 1)
    let H : ℕ → ℕ → ℝ := fun i _ => if i = 0 then 2 else 1
    RitzRel exCfg.ip A V H 2 1 ∧ ((subMat H 2 1)ᴴ * subMat H 2 1).det ≠ 0 ∧
      (∃ out, ritz rt1 H 2 (some 2) true .ritz = .ok out ∧ out.theta 0 = some 2 ∧ out.resnorm 0 = some 1) ∧
      (∃ out, ritz rt1 H 2 (some 2) false .harmonic = .ok out ∧ out.theta 0 = some (5 / 2)) ∧
      ∃ out, ritz rt1 H 2 (some 2) false .harmonicImproved = .ok out ∧ out.theta 0 = some 2 := by
  intro A V H
  refine ⟨⟨exCfg_hyp.ls.inner, ?_, ?_, ?_⟩, ?_, ⟨_, rfl, ?_, ?_⟩, ⟨_, rfl, ?_⟩, ⟨_, rfl, ?_⟩⟩
  · intro i hi j hj
    interval_cases i <;> interval_cases j <;> simp [V, exCfg]
  · intro j hj
    obtain rfl : j = 0 := by omega
    simp [A, V, H, Finset.sum_range_succ]
  · intro j hj; omega
  · rw [Matrix.det_fin_one, Matrix.mul_apply]
    norm_num [subMat, H, Fin.sum_univ_two]
  · simp [subMat, H]
  · simp [H, lastEntry]
  · norm_num [subMat, H, Fin.sum_univ_two, Matrix.mul_apply]
  · norm_num [subMat, H, normalise, vecNorm, Matrix.mulVec, dotProduct]

end Krypy
