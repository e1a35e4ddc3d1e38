import Verif.Proofs.Inner
import Verif.Proofs.Krylov
import Mathlib.Analysis.SpecialFunctions.Trigonometric.Chebyshev.RootsExtrema
import Mathlib.Analysis.InnerProductSpace.Spectrum
import Mathlib.Analysis.InnerProductSpace.PiL2

/-! # Polynomials of self-adjoint operators and Chebyshev bounds (used for C53) -/

set_option linter.unusedSectionVars false

namespace Krypy
open Polynomial
open scoped ComplexConjugate

/-! ## Chebyshev polynomials -/

/-- `T_n((κ+1)/(κ-1)) ≥ q^n / 2` with `q = (√κ+1)/(√κ-1)`. -/
theorem cheb_lower {s : ℝ} (hs : 1 < s) (n : ℕ) :
    ((s + 1) / (s - 1)) ^ n / 2 ≤ (Chebyshev.T ℝ n).eval ((s ^ 2 + 1) / (s ^ 2 - 1)) := by
  have h1 : 0 < s - 1 := by linarith
  have h2 : 0 < s + 1 := by linarith
  set q := (s + 1) / (s - 1) with hq
  have hq0 : 0 < q := div_pos h2 h1
  have hc : (s ^ 2 + 1) / (s ^ 2 - 1) = Real.cosh (Real.log q) := by
    rw [Real.cosh_eq, Real.exp_neg, Real.exp_log hq0, hq]
    have : s ^ 2 - 1 ≠ 0 := by nlinarith
    field_simp
    ring
  rw [hc, Chebyshev.T_real_cosh, Real.cosh_eq]
  have : Real.exp (((n : ℤ) : ℝ) * Real.log q) = q ^ n := by
    rw [Int.cast_natCast, mul_comm, Real.exp_mul, Real.exp_log hq0, Real.rpow_natCast]
  rw [this]
  have := Real.exp_pos (-(((n : ℤ) : ℝ) * Real.log q))
  linarith

/-- Composition of `T_n` with a polynomial `w` which maps the set `S` into `[-1,1]` and `0` to `(s²+1)/(s²-1)`. -/
theorem exists_cheb_comp {s : ℝ} (hs : 1 < s) (w : ℝ[X]) (n : ℕ) {S : Set ℝ}
    (h0 : w.eval 0 = (s ^ 2 + 1) / (s ^ 2 - 1)) (hS : ∀ t ∈ S, |w.eval t| ≤ 1) :
    ∃ p : ℝ[X], p.natDegree ≤ n * w.natDegree ∧ p.eval 0 = 1 ∧
      ∀ t ∈ S, |p.eval t| ≤ 2 * ((s - 1) / (s + 1)) ^ n := by
  have h1 : 0 < s - 1 := by linarith
  have h2 : 0 < s + 1 := by linarith
  have hl := cheb_lower hs n
  set c := (Chebyshev.T ℝ n).eval ((s ^ 2 + 1) / (s ^ 2 - 1)) with hc
  have hq : 0 < ((s + 1) / (s - 1)) ^ n / 2 := by positivity
  have hc0 : 0 < c := lt_of_lt_of_le hq hl
  refine ⟨C c⁻¹ * (Chebyshev.T ℝ n).comp w, ?_, ?_, fun t ht => ?_⟩
  · refine (natDegree_C_mul_le _ _).trans ?_
    refine natDegree_comp_le.trans ?_
    rw [Chebyshev.natDegree_T]
    simp
  · simp only [eval_mul, eval_C, eval_comp, h0]
    exact inv_mul_cancel₀ hc0.ne'
  · simp only [eval_mul, eval_C, eval_comp, abs_mul, abs_of_pos (inv_pos.mpr hc0)]
    have h3 := Chebyshev.abs_eval_T_real_le_one n (hS t ht)
    calc c⁻¹ * |(Chebyshev.T ℝ n).eval (w.eval t)| ≤ c⁻¹ * 1 := by gcongr
      _ = c⁻¹ := mul_one _
      _ ≤ (((s + 1) / (s - 1)) ^ n / 2)⁻¹ := by gcongr
      _ = 2 * ((s - 1) / (s + 1)) ^ n := by
        rw [inv_div, div_eq_mul_inv, ← inv_pow, inv_div]

/-- The minimal polynomial for an interval `[m, M]` with `0 < m ≤ M`. -/
theorem exists_cheb_interval {m M : ℝ} (hm : 0 < m) (hM : m ≤ M) (n : ℕ) :
    ∃ p : ℝ[X], p.natDegree ≤ n ∧ p.eval 0 = 1 ∧ ∀ t, m ≤ t → t ≤ M →
      |p.eval t| ≤ 2 * ((Real.sqrt (M / m) - 1) / (Real.sqrt (M / m) + 1)) ^ n := by
  rcases hM.eq_or_lt with rfl | hlt
  · rw [div_self hm.ne', Real.sqrt_one]
    rcases Nat.eq_zero_or_pos n with rfl | hn
    · exact ⟨1, by simp, by simp, fun t _ _ => by simp⟩
    · refine ⟨1 - C m⁻¹ * X, ?_, by simp, fun t h1 h2 => ?_⟩
      · refine (natDegree_sub_le _ _).trans ?_
        simp only [natDegree_one, max_le_iff, zero_le, true_and]
        exact ((natDegree_C_mul_le _ _).trans natDegree_X_le).trans hn
      · obtain rfl : t = m := le_antisymm h2 h1
        simp [inv_mul_cancel₀ hm.ne', hn.ne']
  · set s := Real.sqrt (M / m) with hsdef
    have hk : 1 < M / m := by rwa [one_lt_div hm]
    have hs2 : s ^ 2 = M / m := Real.sq_sqrt (by linarith)
    have hs : 1 < s := by
      rw [hsdef, Real.lt_sqrt (by norm_num)]
      simpa using hk
    have hd : 0 < M - m := by linarith
    obtain ⟨p, h1, h2, h3⟩ := exists_cheb_comp hs (C ((M + m) / (M - m)) - C (2 / (M - m)) * X) n
      (S := Set.Icc m M) (by
        rw [hs2]
        have : M / m - 1 ≠ 0 := by linarith
        have : M - m ≠ 0 := hd.ne'
        simp only [eval_sub, eval_C, eval_mul, eval_X, mul_zero, sub_zero]
        have h4 : M / m - 1 = (M - m) / m := by field_simp
        have h5 : M / m + 1 = (M + m) / m := by field_simp
        rw [h4, h5, div_div_div_cancel_right₀ hm.ne'])
      (by
        rintro t ⟨ht1, ht2⟩
        simp only [eval_sub, eval_C, eval_mul, eval_X]
        have : (M + m) / (M - m) - 2 / (M - m) * t = (M + m - 2 * t) / (M - m) := by
          field_simp
        rw [this, abs_div, abs_of_pos hd, div_le_one hd, abs_le]
        constructor <;> linarith)
    refine ⟨p, h1.trans ?_, h2, fun t ht1 ht2 => h3 t ⟨ht1, ht2⟩⟩
    have : (C ((M + m) / (M - m)) - C (2 / (M - m)) * X : ℝ[X]).natDegree ≤ 1 := by
      refine (natDegree_sub_le _ _).trans ?_
      simp only [natDegree_C, max_le_iff, zero_le, true_and]
      exact (natDegree_C_mul_le _ _).trans natDegree_X_le
    calc n * _ ≤ n * 1 := by gcongr
      _ = n := mul_one _

/-- The polynomial for two intervals `[l1, ls] ∪ [lt, lN]` of the same length on both sides of zero. -/
theorem exists_cheb_two_intervals {l1 ls lt lN : ℝ} (h1 : l1 ≤ ls) (hs : ls < 0) (ht : 0 < lt)
    (heq : l1 + lN = ls + lt) (n : ℕ) :
    ∃ p : ℝ[X], p.natDegree ≤ n ∧ p.eval 0 = 1 ∧ ∀ t, (l1 ≤ t ∧ t ≤ ls) ∨ (lt ≤ t ∧ t ≤ lN) →
      |p.eval t| ≤ 2 * ((Real.sqrt |l1 * lN| - Real.sqrt |ls * lt|) /
        (Real.sqrt |l1 * lN| + Real.sqrt |ls * lt|)) ^ (n / 2) := by
  have hN : lt ≤ lN := by linarith
  have hb : 0 < -(ls * lt) := by nlinarith
  have hab : -(ls * lt) ≤ -(l1 * lN) := by nlinarith
  have ha : 0 < -(l1 * lN) := lt_of_lt_of_le hb hab
  have e1 : |l1 * lN| = -(l1 * lN) := abs_of_neg (by linarith)
  have e2 : |ls * lt| = -(ls * lt) := abs_of_neg (by linarith)
  rw [e1, e2]
  rcases h1.eq_or_lt with rfl | hlt
  · -- both intervals are points
    obtain rfl : lN = lt := by linarith
    rcases Nat.eq_zero_or_pos (n / 2) with hn | hn
    · exact ⟨1, by simp, by simp, fun t _ => by simp [hn]⟩
    · refine ⟨C (l1 * lN)⁻¹ * ((X - C l1) * (X - C lN)), ?_, ?_, fun t htt => ?_⟩
      · refine (natDegree_C_mul_le _ _).trans ?_
        rw [natDegree_mul (X_sub_C_ne_zero _) (X_sub_C_ne_zero _), natDegree_X_sub_C, natDegree_X_sub_C]
        omega
      · simp only [eval_mul, eval_C, eval_sub, eval_X, zero_sub, neg_mul_neg]
        exact inv_mul_cancel₀ (by linarith)
      · have : t = l1 ∨ t = lN := by
          rcases htt with h | h
          · exact Or.inl (le_antisymm h.2 h.1)
          · exact Or.inr (le_antisymm h.2 h.1)
        rcases this with rfl | rfl <;> simp [hn.ne']
  · set A := Real.sqrt (-(l1 * lN)) with hA
    set B := Real.sqrt (-(ls * lt)) with hB
    have hA0 : 0 < A := Real.sqrt_pos.mpr ha
    have hB0 : 0 < B := Real.sqrt_pos.mpr hb
    have hA2 : A ^ 2 = -(l1 * lN) := Real.sq_sqrt ha.le
    have hB2 : B ^ 2 = -(ls * lt) := Real.sq_sqrt hb.le
    have hd : 0 < A ^ 2 - B ^ 2 := by
      rw [hA2, hB2]
      nlinarith
    have hAB : B < A := by nlinarith
    have hsx : 1 < A / B := by rwa [one_lt_div hB0]
    obtain ⟨p, h1', h2', h3'⟩ := exists_cheb_comp hsx
      (C 1 - C (2 / (A ^ 2 - B ^ 2)) * ((X - C ls) * (X - C lt))) (n / 2)
      (S := {t | (l1 ≤ t ∧ t ≤ ls) ∨ (lt ≤ t ∧ t ≤ lN)}) (by
        simp only [eval_sub, eval_C, eval_mul, eval_X, zero_sub, neg_mul_neg]
        have e3 : ls * lt = -B ^ 2 := by linarith
        have e4 : (A / B) ^ 2 - 1 = (A ^ 2 - B ^ 2) / B ^ 2 := by field_simp
        have e5 : (A / B) ^ 2 + 1 = (A ^ 2 + B ^ 2) / B ^ 2 := by field_simp
        rw [e3, e4, e5, div_div_div_cancel_right₀ (by positivity)]
        have := hd.ne'
        field_simp
        ring)
      (by
        intro t htt
        simp only [eval_sub, eval_C, eval_mul, eval_X]
        have hnn : 0 ≤ (t - ls) * (t - lt) := by
          rcases htt with h | h <;> nlinarith
        have hle : (t - ls) * (t - lt) ≤ A ^ 2 - B ^ 2 := by
          have : A ^ 2 - B ^ 2 - (t - ls) * (t - lt) = -((t - l1) * (t - lN)) := by
            rw [hA2, hB2]
            have : lN = ls + lt - l1 := by linarith
            rw [this]; ring
          have h6 : (t - l1) * (t - lN) ≤ 0 := by
            rcases htt with h | h <;> nlinarith
          linarith
        have hq : 2 / (A ^ 2 - B ^ 2) * ((t - ls) * (t - lt)) =
          2 * (((t - ls) * (t - lt)) / (A ^ 2 - B ^ 2)) := by ring
        rw [hq, abs_le]
        have h7 : 0 ≤ ((t - ls) * (t - lt)) / (A ^ 2 - B ^ 2) := div_nonneg hnn hd.le
        have h8 : ((t - ls) * (t - lt)) / (A ^ 2 - B ^ 2) ≤ 1 := (div_le_one hd).mpr hle
        constructor <;> linarith)
    refine ⟨p, h1'.trans ?_, h2', fun t htt => (h3' t htt).trans_eq ?_⟩
    · have : (C 1 - C (2 / (A ^ 2 - B ^ 2)) * ((X - C ls) * (X - C lt)) : ℝ[X]).natDegree ≤ 2 := by
        refine (natDegree_sub_le _ _).trans ?_
        simp only [natDegree_C, max_le_iff, zero_le, true_and]
        refine (natDegree_C_mul_le _ _).trans ?_
        rw [natDegree_mul (X_sub_C_ne_zero _) (X_sub_C_ne_zero _), natDegree_X_sub_C, natDegree_X_sub_C]
      calc n / 2 * _ ≤ n / 2 * 2 := by gcongr
        _ ≤ n := Nat.div_mul_le_self _ _
    · have : (A / B - 1) / (A / B + 1) = (A - B) / (A + B) := by
        have h9 : A / B - 1 = (A - B) / B := by field_simp
        have h10 : A / B + 1 = (A + B) / B := by field_simp
        rw [h9, h10, div_div_div_cancel_right₀ hB0.ne']
      rw [this]

/-! ## Polynomials of operators and Krylov subspaces -/

variable {𝕜 E : Type*} [RCLike 𝕜] [AddCommGroup E] [Module 𝕜 E]

/-- `p(T)` for a real polynomial. -/
noncomputable def polyOp (p : ℝ[X]) (T : E →ₗ[𝕜] E) : E →ₗ[𝕜] E := aeval T (p.map (algebraMap ℝ 𝕜))

theorem polyOp_eigen {p : ℝ[X]} {T : E →ₗ[𝕜] E} {μ : ℝ} {x : E} (hx : T x = (μ : 𝕜) • x) :
    polyOp p T x = ((p.eval μ : ℝ) : 𝕜) • x := by
  have hpow : ∀ i, (T ^ i) x = ((μ : 𝕜) ^ i) • x := by
    intro i
    induction i with
    | zero => simp
    | succ i ih => rw [pow_succ', Module.End.mul_apply, ih, map_smul, hx, smul_smul, pow_succ]
  unfold polyOp
  rw [aeval_eq_sum_range, LinearMap.sum_apply]
  simp only [LinearMap.smul_apply, hpow, coeff_map, smul_smul]
  rw [← Finset.sum_smul]
  congr 1
  have h1 : (p.map (algebraMap ℝ 𝕜)).natDegree = p.natDegree :=
    natDegree_map_eq_of_injective (algebraMap ℝ 𝕜).injective p
  rw [h1, eval_eq_sum_range]
  push_cast
  rfl

/-- If `p(0) = 1` and `deg p ≤ n`, then `y - p(T) y` lies in `K_n(T, T y)`. -/
theorem sub_polyOp_mem {p : ℝ[X]} {n : ℕ} (hd : p.natDegree ≤ n) (h0 : p.eval 0 = 1) (T : E →ₗ[𝕜] E) (y : E) :
    y - polyOp p T y ∈ krylov T (T y) n := by
  have h1 : (p.map (algebraMap ℝ 𝕜)).natDegree = p.natDegree :=
    natDegree_map_eq_of_injective (algebraMap ℝ 𝕜).injective p
  unfold polyOp
  rw [aeval_eq_sum_range, LinearMap.sum_apply, h1, Finset.sum_range_succ']
  have h2 : p.coeff 0 = 1 := by rw [coeff_zero_eq_eval_zero, h0]
  simp only [LinearMap.smul_apply, coeff_map, h2, map_one, pow_zero, one_smul, Module.End.one_apply]
  rw [← sub_sub, sub_right_comm, sub_self, zero_sub]
  refine Submodule.neg_mem _ (Submodule.sum_mem _ fun i hi => Submodule.smul_mem _ _ (Submodule.subset_span ?_))
  refine ⟨i, lt_of_lt_of_le (Finset.mem_range.mp hi) hd, ?_⟩
  rw [pow_succ, Module.End.mul_apply]

/-- The inner product space given by `ip`. -/
@[reducible] noncomputable def IsInner.core {ip : E → E → 𝕜} (h : IsInner ip) : InnerProductSpace.Core 𝕜 E where
  inner := ip
  conj_inner_symm x y := h.conj_symm y x
  re_inner_nonneg x := h.nsq_nonneg x
  add_left := h.add_left
  smul_left x y r := h.smul_left r x y
  definite _ hx := h.self_eq_zero.mp hx

/-- Spectral estimate: an operator which is self-adjoint with respect to `ip` satisfies
`‖p(T) y‖ ≤ max |p(λ)| ‖y‖`, where the maximum is taken over all eigenvalues. -/
theorem polyOp_norm_le [FiniteDimensional 𝕜 E] {ip : E → E → 𝕜} (h : IsInner ip) {T : E →ₗ[𝕜] E}
    (hT : ∀ x y, ip (T x) y = ip x (T y)) {p : ℝ[X]} {c : ℝ} (hc : 0 ≤ c)
    (hp : ∀ μ : ℝ, (∃ x, x ≠ 0 ∧ T x = (μ : 𝕜) • x) → |p.eval μ| ≤ c) (y : E) :
    nrm ip (polyOp p T y) ≤ c * nrm ip y := by
  let : NormedAddCommGroup E := h.core.toNormedAddCommGroup
  let : InnerProductSpace 𝕜 E := InnerProductSpace.ofCore h.core.toCore
  have hsym : T.IsSymmetric := hT
  let b := hsym.eigenvectorBasis rfl
  have hb : ∀ i, T (b i) = ((hsym.eigenvalues rfl i : ℝ) : 𝕜) • b i := hsym.apply_eigenvectorBasis rfl
  have hinner : ∀ x z : E, inner 𝕜 x z = ip x z := fun _ _ => rfl
  have hnsq : ∀ x : E, nsq ip x = ∑ i, ‖ip (b i) x‖ ^ 2 := by
    intro x
    have h1 := b.sum_sq_norm_inner_right x
    have h2 : ‖x‖ ^ 2 = nsq ip x := by
      rw [← inner_self_eq_norm_sq (𝕜 := 𝕜)]
      rfl
    rw [← h2, ← h1]
    rfl
  have hcoef : ∀ i, ip (b i) (polyOp p T y) = ((p.eval (hsym.eigenvalues rfl i) : ℝ) : 𝕜) * ip (b i) y := by
    intro i
    have hy : y = ∑ j, ip (b j) y • b j := (b.sum_repr' y).symm
    conv_lhs => rw [hy]
    rw [map_sum, h.sum_right]
    simp only [map_smul, polyOp_eigen (hb _), h.smul_right]
    rw [Finset.sum_eq_single i]
    · have : ip (b i) (b i) = 1 := by
        have := orthonormal_iff_ite.mp b.orthonormal i i
        rw [if_pos rfl] at this
        exact this
      rw [this]; ring
    · intro j _ hj
      have : ip (b i) (b j) = 0 := b.orthonormal.inner_eq_zero hj.symm
      rw [this]; ring
    · simp
  have hsq : nsq ip (polyOp p T y) ≤ c ^ 2 * nsq ip y := by
    rw [hnsq, hnsq, Finset.mul_sum]
    refine Finset.sum_le_sum fun i _ => ?_
    rw [hcoef, norm_mul, mul_pow]
    have h3 : |p.eval (hsym.eigenvalues rfl i)| ≤ c :=
      hp _ ⟨b i, b.orthonormal.ne_zero i, hb i⟩
    rw [RCLike.norm_ofReal]
    gcongr
  unfold nrm
  rw [← Real.sqrt_sq hc, ← Real.sqrt_mul (sq_nonneg c)]
  exact Real.sqrt_le_sqrt hsq

end Krypy
