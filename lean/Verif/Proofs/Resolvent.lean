import Mathlib.Analysis.Normed.Algebra.GelfandFormula
import Mathlib.Analysis.Complex.CauchyIntegral
import Mathlib.Algebra.Polynomial.AlgebraMap

/-! # Cauchy's integral formula for polynomials of elements of a Banach algebra, and a perturbation bound -/

set_option linter.unusedSectionVars false

namespace Krypy
open Metric Complex
open scoped Real
variable {𝒜 : Type*} [NormedRing 𝒜] [NormedAlgebra ℂ 𝒜] [CompleteSpace 𝒜]

theorem resolvent_mul_left {a : 𝒜} {z : ℂ} (hz : z ∈ resolventSet ℂ a) :
    z • resolvent a z = 1 + a * resolvent a z := by
  have h : (algebraMap ℂ 𝒜 z - a) * resolvent a z = 1 := Ring.mul_inverse_cancel _ hz
  rw [sub_mul, sub_eq_iff_eq_add, ← Algebra.smul_def] at h
  exact h

theorem resolvent_center {a : 𝒜} {z : ℂ} (c : ℂ) (hz : z ∈ resolventSet ℂ a) :
    (z - c) • resolvent a z = 1 + (a - algebraMap ℂ 𝒜 c) * resolvent a z := by
  rw [sub_smul, resolvent_mul_left hz, sub_mul, Algebra.smul_def]; abel

theorem resolvent_continuousOn {a : 𝒜} {s : Set ℂ} (h : ∀ z ∈ s, z ∈ resolventSet ℂ a) : ContinuousOn (resolvent a) s :=
  fun z hz => (spectrum.hasDerivAt_resolvent_const_left (h z hz)).differentiableAt.continuousAt.continuousWithinAt

/-- The integral of the resolvent over a circle around the spectrum. -/
theorem integral_resolvent {a : 𝒜} {c : ℂ} {R : ℝ} (hR : 0 < R) (h : ∀ z, R ≤ ‖z - c‖ → z ∈ resolventSet ℂ a) :
    (∮ z in C(c, R), resolvent a z) = (2 * π * I : ℂ) • (1 : 𝒜) := by
  rw [← sub_eq_zero, ← norm_le_zero_iff]
  set N := ‖a - algebraMap ℂ 𝒜 c‖ with hN
  have hN0 : 0 ≤ N := norm_nonneg _
  -- the estimate on large circles
  have key : ∀ ρ, R ≤ ρ → N < ρ →
      ‖(∮ z in C(c, R), resolvent a z) - (2 * π * I : ℂ) • (1 : 𝒜)‖ ≤ 2 * π * (N * ‖(1 : 𝒜)‖ / (ρ - N)) := by
    intro ρ hρ hNρ
    have hρ0 : 0 < ρ := lt_of_lt_of_le hR hρ
    have hsph : ∀ z ∈ sphere c ρ, z ∈ resolventSet ℂ a := by
      intro z hz; apply h; rw [mem_sphere_iff_norm] at hz; rw [hz]; exact hρ
    have hne : ∀ z ∈ sphere c ρ, z - c ≠ 0 := by
      intro z hz h0; rw [mem_sphere_iff_norm, h0, norm_zero] at hz; exact hρ0.ne hz
    have e1 : (∮ z in C(c, ρ), resolvent a z) = ∮ z in C(c, R), resolvent a z := by
      refine circleIntegral_eq_of_differentiable_on_annulus_off_countable hR hρ Set.countable_empty ?_ ?_
      · refine resolvent_continuousOn fun z hz => h z ?_
        have := hz.2
        rw [mem_ball_iff_norm, not_lt] at this
        exact this
      · intro z hz
        have := hz.1.2
        rw [mem_closedBall_iff_norm, not_le] at this
        exact (spectrum.hasDerivAt_resolvent_const_left (h z this.le)).differentiableAt
    have e2 : (2 * π * I : ℂ) • (1 : 𝒜) = ∮ z in C(c, ρ), (z - c)⁻¹ • (1 : 𝒜) := by
      rw [circleIntegral.integral_smul_const, circleIntegral.integral_sub_center_inv c hρ0.ne']
    have ci1 : CircleIntegrable (resolvent a) c ρ := (resolvent_continuousOn hsph).circleIntegrable hρ0.le
    have ci2 : CircleIntegrable (fun z => (z - c)⁻¹ • (1 : 𝒜)) c ρ := by
      refine ContinuousOn.circleIntegrable hρ0.le ?_
      exact ((continuousOn_id.sub continuousOn_const).inv₀ hne).smul continuousOn_const
    rw [← e1, e2, ← circleIntegral.integral_sub ci1 ci2]
    have := circleIntegral.norm_integral_le_of_norm_le_const (f := fun z => resolvent a z - (z - c)⁻¹ • (1 : 𝒜))
      (c := c) (C := ρ⁻¹ * (N * ‖(1 : 𝒜)‖ / (ρ - N))) hρ0.le ?_
    · refine this.trans (le_of_eq ?_)
      field_simp
    · intro z hz
      have hz' : ‖z - c‖ = ρ := by rwa [mem_sphere_iff_norm] at hz
      have e3 := resolvent_center c (hsph z hz)
      have e4 : resolvent a z - (z - c)⁻¹ • (1 : 𝒜) = (z - c)⁻¹ • ((a - algebraMap ℂ 𝒜 c) * resolvent a z) := by
        have : (a - algebraMap ℂ 𝒜 c) * resolvent a z = (z - c) • resolvent a z - 1 := by rw [e3]; abel
        rw [this, smul_sub, inv_smul_smul₀ (hne z hz)]
      have e5 : ‖resolvent a z‖ ≤ ‖(1 : 𝒜)‖ / (ρ - N) := by
        rw [le_div_iff₀ (by linarith)]
        have h1 : ‖(z - c) • resolvent a z‖ ≤ ‖(1 : 𝒜)‖ + N * ‖resolvent a z‖ := by
          rw [e3]; exact (norm_add_le _ _).trans (add_le_add_right (norm_mul_le _ _) _)
        rw [norm_smul, hz'] at h1
        linarith
      rw [e4, norm_smul, norm_inv, hz']
      refine mul_le_mul_of_nonneg_left ?_ (inv_nonneg.2 hρ0.le)
      rw [mul_div_assoc]
      exact (norm_mul_le _ _).trans (mul_le_mul_of_nonneg_left e5 hN0)
  have lim : Filter.Tendsto (fun ρ : ℝ => 2 * π * (N * ‖(1 : 𝒜)‖ / (ρ - N))) Filter.atTop (nhds 0) := by
    have h1 : Filter.Tendsto (fun ρ : ℝ => ρ - N) Filter.atTop Filter.atTop :=
      Filter.tendsto_atTop_add_const_right _ _ Filter.tendsto_id
    have := (Filter.Tendsto.const_div_atTop h1 (N * ‖(1 : 𝒜)‖)).const_mul (2 * π)
    simpa using this
  refine ge_of_tendsto lim ?_
  filter_upwards [Filter.eventually_ge_atTop (max R (N + 1))] with ρ hρ
  exact key ρ ((le_max_left _ _).trans hρ) (by have := (le_max_right R (N + 1)).trans hρ; linarith)

theorem smul_resolvent_integrable {a : 𝒜} {c : ℂ} {R : ℝ} (hR : 0 < R) (h : ∀ z, R ≤ ‖z - c‖ → z ∈ resolventSet ℂ a)
    {f : ℂ → ℂ} (hf : Continuous f) : CircleIntegrable (fun z => f z • resolvent a z) c R := by
  refine ContinuousOn.circleIntegrable hR.le (hf.continuousOn.smul (resolvent_continuousOn fun z hz => h z ?_))
  rw [mem_sphere_iff_norm] at hz; rw [hz]

theorem integral_pow_resolvent {a : 𝒜} {c : ℂ} {R : ℝ} (hR : 0 < R) (h : ∀ z, R ≤ ‖z - c‖ → z ∈ resolventSet ℂ a) (n : ℕ) :
    (∮ z in C(c, R), z ^ n • resolvent a z) = (2 * π * I : ℂ) • a ^ n := by
  induction n with
  | zero => simpa using integral_resolvent hR h
  | succ n ih =>
    have hsph : ∀ z ∈ sphere c R, z ∈ resolventSet ℂ a := by
      intro z hz; apply h; rw [mem_sphere_iff_norm] at hz; rw [hz]
    have e1 : (∮ z in C(c, R), z ^ (n + 1) • resolvent a z)
        = ∮ z in C(c, R), (z ^ n • (1 : 𝒜) + a * (z ^ n • resolvent a z)) := by
      refine circleIntegral.integral_congr hR.le fun z hz => ?_
      rw [pow_succ, mul_smul, resolvent_mul_left (hsph z hz), smul_add, mul_smul_comm]
    have ci1 : CircleIntegrable (fun z : ℂ => z ^ n • (1 : 𝒜)) c R :=
      ContinuousOn.circleIntegrable hR.le (by fun_prop)
    have ci2 : CircleIntegrable (fun z : ℂ => a * (z ^ n • resolvent a z)) c R := by
      refine ContinuousOn.circleIntegrable hR.le ?_
      refine continuousOn_const.mul ((continuous_pow n).continuousOn.smul (resolvent_continuousOn hsph))
    have e2 : (∮ z in C(c, R), a * (z ^ n • resolvent a z)) = a * ∮ z in C(c, R), z ^ n • resolvent a z := by
      have := (ContinuousLinearMap.mul ℂ 𝒜 a).intervalIntegral_comp_comm (smul_resolvent_integrable hR h (continuous_pow n)).out
      simp only [circleIntegral]
      refine Eq.trans ?_ this
      congr 1; funext θ
      simp
    have e3 : (∮ z in C(c, R), z ^ n • (1 : 𝒜)) = 0 := by
      rw [circleIntegral.integral_smul_const]
      have : (∮ z in C(c, R), z ^ n) = 0 := by
        have := circleIntegral.integral_sub_zpow_of_ne (n := (n : ℤ)) (by omega) c 0 R
        simpa using this
      rw [this, zero_smul]
    rw [e1, circleIntegral.integral_add ci1 ci2, e2, e3, ih, zero_add, mul_smul_comm, pow_succ']

/-- Cauchy's integral formula for polynomials. -/
theorem integral_poly_resolvent {a : 𝒜} {c : ℂ} {R : ℝ} (hR : 0 < R) (h : ∀ z, R ≤ ‖z - c‖ → z ∈ resolventSet ℂ a)
    (p : Polynomial ℂ) : (∮ z in C(c, R), p.eval z • resolvent a z) = (2 * π * I : ℂ) • Polynomial.aeval a p := by
  induction p using Polynomial.induction_on' with
  | add p q hp hq =>
    rw [map_add, smul_add, ← hp, ← hq, ← circleIntegral.integral_add (smul_resolvent_integrable hR h p.continuous)
      (smul_resolvent_integrable hR h q.continuous)]
    refine circleIntegral.integral_congr hR.le fun z _ => ?_
    change (p + q).eval z • resolvent a z = p.eval z • resolvent a z + q.eval z • resolvent a z
    rw [Polynomial.eval_add, add_smul]
  | monomial n x =>
    rw [Polynomial.aeval_monomial, ← Algebra.smul_def, smul_comm, ← integral_pow_resolvent hR h,
      ← circleIntegral.integral_smul]
    refine circleIntegral.integral_congr hR.le fun z _ => ?_
    change (Polynomial.monomial n x).eval z • resolvent a z = x • z ^ n • resolvent a z
    rw [Polynomial.eval_monomial, mul_smul]

/-- A perturbation of norm below the reciprocal of the norm of the resolvent. -/
theorem resolvent_perturb {a e : 𝒜} {z : ℂ} {eps delta : ℝ} (hz : z ∈ resolventSet ℂ a) (hd : 0 < delta)
    (hr : ‖resolvent a z‖ ≤ 1 / delta) (he : ‖e‖ ≤ eps) (hed : eps < delta) :
    z ∈ resolventSet ℂ (a + e) ∧ ‖resolvent (a + e) z‖ ≤ 1 / (delta - eps) ∧
      ‖resolvent (a + e) z - resolvent a z‖ ≤ eps / (delta - eps) * (1 / delta) := by
  have heps : 0 ≤ eps := (norm_nonneg _).trans he
  have hlt : ‖resolvent a z * e‖ < 1 := by
    refine (norm_mul_le _ _).trans_lt ((mul_le_mul hr he (norm_nonneg _) (by positivity)).trans_lt ?_)
    rw [one_div, inv_mul_lt_iff₀ hd]; linarith
  have hfac : algebraMap ℂ 𝒜 z - (a + e) = (algebraMap ℂ 𝒜 z - a) * (1 - resolvent a z * e) := by
    have h1 : (algebraMap ℂ 𝒜 z - a) * resolvent a z = 1 := Ring.mul_inverse_cancel _ hz
    rw [mul_sub, mul_one, ← mul_assoc, h1, one_mul]; abel
  have hmem : z ∈ resolventSet ℂ (a + e) := by
    rw [spectrum.mem_resolventSet_iff, hfac]
    exact IsUnit.mul hz (Units.oneSub _ hlt).isUnit
  have hid : resolvent (a + e) z - resolvent a z = resolvent (a + e) z * e * resolvent a z := by
    have h1 : (algebraMap ℂ 𝒜 z - a) * resolvent a z = 1 := Ring.mul_inverse_cancel _ hz
    have h2 : resolvent (a + e) z * (algebraMap ℂ 𝒜 z - (a + e)) = 1 := Ring.inverse_mul_cancel _ hmem
    have h3 : e = (algebraMap ℂ 𝒜 z - a) - (algebraMap ℂ 𝒜 z - (a + e)) := by abel
    calc resolvent (a + e) z - resolvent a z
        = resolvent (a + e) z * ((algebraMap ℂ 𝒜 z - a) * resolvent a z)
          - (resolvent (a + e) z * (algebraMap ℂ 𝒜 z - (a + e))) * resolvent a z := by rw [h1, h2, mul_one, one_mul]
      _ = resolvent (a + e) z * ((algebraMap ℂ 𝒜 z - a) - (algebraMap ℂ 𝒜 z - (a + e))) * resolvent a z := by
          noncomm_ring
      _ = _ := by rw [← h3]
  have hn : ‖resolvent (a + e) z - resolvent a z‖ ≤ ‖resolvent (a + e) z‖ * eps * (1 / delta) := by
    rw [hid]
    exact (norm_mul_le _ _).trans (mul_le_mul ((norm_mul_le _ _).trans (mul_le_mul_of_nonneg_left he (norm_nonneg _))) hr
      (norm_nonneg _) (by positivity))
  have hpos : 0 < delta - eps := by linarith
  have hle : ‖resolvent (a + e) z‖ ≤ 1 / (delta - eps) := by
    have h1 : ‖resolvent (a + e) z‖ ≤ ‖resolvent (a + e) z - resolvent a z‖ + ‖resolvent a z‖ := by
      simpa using norm_add_le (resolvent (a + e) z - resolvent a z) (resolvent a z)
    have h2 : ‖resolvent (a + e) z‖ ≤ ‖resolvent (a + e) z‖ * eps * (1 / delta) + 1 / delta := by linarith
    rw [le_div_iff₀ hpos]
    have h3 := mul_le_mul_of_nonneg_right h2 hd.le
    rw [add_mul, mul_assoc _ (1 / delta), one_div, inv_mul_cancel₀ hd.ne', mul_one] at h3
    linarith
  refine ⟨hmem, hle, hn.trans ?_⟩
  refine mul_le_mul_of_nonneg_right ?_ (by positivity)
  rw [div_eq_mul_one_div eps, mul_comm eps]
  exact mul_le_mul_of_nonneg_right hle heps

/-- The perturbation bound. -/
theorem poly_perturb {a e : 𝒜} {c : ℂ} {R eps delta S : ℝ} (hR : 0 < R) (hd : 0 < delta) (he : ‖e‖ ≤ eps) (hed : eps < delta)
    (h : ∀ z, R ≤ ‖z - c‖ → z ∈ resolventSet ℂ a ∧ ‖resolvent a z‖ ≤ 1 / delta) (p : Polynomial ℂ)
    (hS : ∀ z, ‖z - c‖ = R → ‖p.eval z‖ ≤ S) :
    ‖Polynomial.aeval (a + e) p - Polynomial.aeval a p‖ ≤ eps / (delta - eps) * (2 * π * R) / (2 * π * delta) * S := by
  have heps : 0 ≤ eps := (norm_nonneg _).trans he
  have hpos : 0 < delta - eps := by linarith
  have hp : ∀ z, R ≤ ‖z - c‖ → _ := fun z hz => resolvent_perturb (h z hz).1 hd (h z hz).2 he hed
  have e1 := integral_poly_resolvent hR (fun z hz => (h z hz).1) p
  have e2 := integral_poly_resolvent hR (fun z hz => (hp z hz).1) p
  have e3 : (2 * π * I : ℂ)⁻¹ • (∮ z in C(c, R), p.eval z • (resolvent (a + e) z - resolvent a z))
      = Polynomial.aeval (a + e) p - Polynomial.aeval a p := by
    have : (∮ z in C(c, R), p.eval z • (resolvent (a + e) z - resolvent a z))
        = (2 * π * I : ℂ) • (Polynomial.aeval (a + e) p - Polynomial.aeval a p) := by
      rw [smul_sub, ← e1, ← e2, ← circleIntegral.integral_sub (smul_resolvent_integrable hR (fun z hz => (hp z hz).1) p.continuous)
        (smul_resolvent_integrable hR (fun z hz => (h z hz).1) p.continuous)]
      simp only [smul_sub]
    rw [this, inv_smul_smul₀ two_pi_I_ne_zero]
  rw [← e3]
  refine (circleIntegral.norm_two_pi_i_inv_smul_integral_le_of_norm_le_const
    (C := S * (eps / (delta - eps) * (1 / delta))) hR.le ?_).trans (le_of_eq ?_)
  · intro z hz
    have hz' : ‖z - c‖ = R := by rwa [mem_sphere_iff_norm] at hz
    rw [norm_smul]
    exact mul_le_mul (hS z hz') (hp z hz'.ge).2.2 (norm_nonneg _) ((norm_nonneg _).trans (hS z hz'))
  · have := Real.pi_pos
    field_simp

end Krypy
