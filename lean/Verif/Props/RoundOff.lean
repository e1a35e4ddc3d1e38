import Verif.Model.FlArith
import Verif.Props.Ritz
import Verif.Props.Driver
import Mathlib.Analysis.InnerProductSpace.PiL2

/-!
# Property C77: rounding errors cannot fake convergence

Whatever the rounding errors do to the Krylov iteration itself, a solver which returns with `resnorms[-1] <= tol` has evaluated the residual
of the returned vector.  Hence its *true* residual is small up to the rounding errors of this one evaluation (and large if `ConvergenceError` is
raised).  This is proved for the driver
(linsys.py 277-493) with an arbitrary method and for any arithmetic described by `FlFormat` and `FlResNorm`.  Not-a-number is different: it ends
the loop without an evaluation (finding).
-/

set_option linter.unusedSectionVars false

namespace Krypy
variable {𝕜 : Type*} [RCLike 𝕜]
open Matrix

/-! ## Specification -/

/-- Nonnegative error bounds. -/
structure FlPar.Nonneg (p : FlPar) : Prop where
  u : 0 ≤ p.u
  v : 0 ≤ p.v
  w : 0 ≤ p.w
  η : 0 ≤ p.η

/-- Relative error of a dot product of length `n` (with respect to the sum of the moduli): `(1+u)^(n-1) (1+v) - 1`. -/
noncomputable def FlPar.gam (p : FlPar) (n : ℕ) : ℝ := (1 + p.u) ^ (n - 1) * (1 + p.v) - 1

/-- Absolute error of a dot product due to underflow: `n (1+u)^(n-1) η`. -/
noncomputable def FlPar.und (p : FlPar) (n : ℕ) : ℝ := n * (1 + p.u) ^ (n - 1) * p.η

/-- Bounds of the errors of the components of `A x`. -/
noncomputable def flBound (p : FlPar) {n : ℕ} (A : Matrix (Fin n) (Fin n) 𝕜) (x : Fin n → 𝕜) (i : Fin n) : ℝ :=
  p.gam n * ∑ j, ‖A i j‖ * ‖x j‖ + p.und n

/-! ## Sums and dot products -/

variable {p : FlPar}

theorem FlSum.err (hp : p.Nonneg) {l : List 𝕜} {s : 𝕜} (h : FlSum p l s) :
    ‖s - l.sum‖ ≤ ((1 + p.u) ^ (l.length - 1) - 1) * (l.map norm).sum := by
  have hu := hp.u
  induction h with
  | nil => simp
  | one x => simp
  | @node l₁ l₂ l s₁ s₂ s h₁ h₂ ne₁ ne₂ perm err ih₁ ih₂ =>
    have hl : l.length = l₁.length + l₂.length := by rw [perm.length_eq, List.length_append]
    have hs : l.sum = l₁.sum + l₂.sum := by rw [perm.sum_eq, List.sum_append]
    have hn : (l.map norm).sum = (l₁.map norm).sum + (l₂.map norm).sum := by
      rw [(perm.map norm).sum_eq, List.map_append, List.sum_append]
    have p1 := List.length_pos_of_ne_nil ne₁
    have p2 := List.length_pos_of_ne_nil ne₂
    have nn : ∀ l : List 𝕜, 0 ≤ (l.map norm).sum := fun l => List.sum_nonneg fun x hx => by
      obtain ⟨y, -, rfl⟩ := List.mem_map.mp hx
      exact norm_nonneg y
    have nle : ∀ l : List 𝕜, ‖l.sum‖ ≤ (l.map norm).sum := by
      intro l
      induction l with
      | nil => simp
      | cons a l ih => simp only [List.sum_cons, List.map_cons]; exact (norm_add_le _ _).trans (by linarith)
    set G := (1 + p.u) ^ (l₁.length + l₂.length - 2) with hG
    have hone : (1 : ℝ) ≤ 1 + p.u := by linarith
    have g1 : (1 + p.u) ^ (l₁.length - 1) ≤ G := pow_le_pow_right₀ hone (by omega)
    have g2 : (1 + p.u) ^ (l₂.length - 1) ≤ G := pow_le_pow_right₀ hone (by omega)
    have e1 : ‖s₁ - l₁.sum‖ ≤ (G - 1) * (l₁.map norm).sum := ih₁.trans (mul_le_mul_of_nonneg_right (by linarith) (nn _))
    have e2 : ‖s₂ - l₂.sum‖ ≤ (G - 1) * (l₂.map norm).sum := ih₂.trans (mul_le_mul_of_nonneg_right (by linarith) (nn _))
    have e3 : ‖s₁ + s₂‖ ≤ G * ((l₁.map norm).sum + (l₂.map norm).sum) := by
      have : s₁ + s₂ = (s₁ - l₁.sum) + (s₂ - l₂.sum) + (l₁.sum + l₂.sum) := by ring
      rw [this]
      refine (norm_add₃_le).trans ?_
      have h4 := (norm_add_le l₁.sum l₂.sum).trans (add_le_add (nle l₁) (nle l₂))
      nlinarith
    have e4 : s - l.sum = (s - (s₁ + s₂)) + (s₁ - l₁.sum) + (s₂ - l₂.sum) := by rw [hs]; ring
    rw [e4, hn, show l.length - 1 = (l₁.length + l₂.length - 2) + 1 by omega, pow_succ, ← hG]
    refine (norm_add₃_le).trans ?_
    have e5 := err.trans (mul_le_mul_of_nonneg_left e3 hu)
    nlinarith

theorem FlPar.Nonneg.pow (hp : p.Nonneg) (n : ℕ) : 1 ≤ (1 + p.u) ^ n := one_le_pow₀ (by linarith [hp.u])

theorem FlPar.Nonneg.gam_nonneg (hp : p.Nonneg) (n : ℕ) : 0 ≤ p.gam n := by
  have h1 := hp.pow (n - 1)
  have h2 := hp.v
  unfold FlPar.gam
  nlinarith

theorem FlPar.Nonneg.und_nonneg (hp : p.Nonneg) (n : ℕ) : 0 ≤ p.und n := by
  have h1 := hp.pow (n - 1)
  unfold FlPar.und
  have := hp.η
  positivity

/-- C77: error of a dot product, for every order of the summation. -/
theorem C77_dot (hp : p.Nonneg) {n : ℕ} {x y : Fin n → 𝕜} {s : 𝕜} (h : FlDot p x y s) :
    ‖s - x ⬝ᵥ y‖ ≤ p.gam n * ∑ i, ‖x i‖ * ‖y i‖ + p.und n := by
  obtain ⟨t, ht, hs⟩ := h
  have h1 := hs.err hp
  rw [List.length_ofFn, List.map_ofFn, List.sum_ofFn, List.sum_ofFn] at h1
  simp only [Function.comp_apply] at h1
  set S := ∑ i, ‖x i‖ * ‖y i‖ with hS
  have h2 : ‖∑ i, t i - x ⬝ᵥ y‖ ≤ p.v * S + n * p.η := by
    rw [dotProduct, ← Finset.sum_sub_distrib]
    refine (norm_sum_le _ _).trans ((Finset.sum_le_sum fun i _ => ht i).trans ?_)
    rw [Finset.sum_add_distrib, ← Finset.mul_sum, hS]
    simp
  have h3 : ∑ i, ‖t i‖ ≤ (1 + p.v) * S + n * p.η := by
    have : ∀ i, ‖t i‖ ≤ ‖x i‖ * ‖y i‖ + (p.v * (‖x i‖ * ‖y i‖) + p.η) := by
      intro i
      have h4 := ht i
      rw [norm_mul] at h4
      have h5 : t i = x i * y i + (t i - x i * y i) := by ring
      rw [h5]
      refine (norm_add_le _ _).trans ?_
      rw [norm_mul]
      linarith
    refine (Finset.sum_le_sum fun i _ => this i).trans ?_
    rw [Finset.sum_add_distrib, Finset.sum_add_distrib, ← Finset.mul_sum]
    simp only [Finset.sum_const, Finset.card_univ, Fintype.card_fin, nsmul_eq_mul]
    rw [hS]
    linarith
  have h4 := hp.pow (n - 1)
  have h5 : s - x ⬝ᵥ y = (s - ∑ i, t i) + (∑ i, t i - x ⬝ᵥ y) := by ring
  rw [h5]
  refine (norm_add_le _ _).trans ?_
  have h6 := mul_le_mul_of_nonneg_left h3 (show 0 ≤ (1 + p.u) ^ (n - 1) - 1 by linarith)
  unfold FlPar.gam FlPar.und
  nlinarith

/-! ## Residuals -/

theorem vecNorm_toLp {n : ℕ} (x : Fin n → 𝕜) : vecNorm x = ‖WithLp.toLp 2 x‖ := by
  rw [EuclideanSpace.norm_eq]; rfl

theorem vecNorm_add_le' {n : ℕ} (x y : Fin n → 𝕜) : vecNorm (x + y) ≤ vecNorm x + vecNorm y := by
  simp only [vecNorm_toLp, WithLp.toLp_add]
  exact norm_add_le _ _

theorem vecNorm_mono {𝕂 : Type*} [RCLike 𝕂] {n : ℕ} {x : Fin n → 𝕜} {y : Fin n → 𝕂} (h : ∀ i, ‖x i‖ ≤ ‖y i‖) : vecNorm x ≤ vecNorm y :=
  Real.sqrt_le_sqrt (Finset.sum_le_sum fun i _ => pow_le_pow_left₀ (norm_nonneg _) (h i) 2)

theorem flBound_nonneg (hp : p.Nonneg) {n : ℕ} (A : Matrix (Fin n) (Fin n) 𝕜) (x : Fin n → 𝕜) (i : Fin n) : 0 ≤ flBound p A x i := by
  unfold flBound
  have h1 := hp.gam_nonneg n
  have h2 := hp.und_nonneg n
  have h3 : 0 ≤ ∑ j, ‖A i j‖ * ‖x j‖ := Finset.sum_nonneg fun j _ => by positivity
  positivity

/-- C77: error of the evaluation of `b - A x`. -/
theorem C77_residual (hp : p.Nonneg) {n : ℕ} {A : Matrix (Fin n) (Fin n) 𝕜} {b x r : Fin n → 𝕜} (h : FlResidual p A b x r) :
    vecNorm (r - (b - A *ᵥ x)) ≤ p.u * vecNorm (b - A *ᵥ x) + (1 + p.u) * vecNorm (flBound p A x) := by
  obtain ⟨y, hy, hr⟩ := h
  have hu := hp.u
  have h1 : ∀ i, ‖(r - (b - A *ᵥ x)) i‖ ≤ p.u * ‖(b - A *ᵥ x) i‖ + (1 + p.u) * flBound p A x i := by
    intro i
    have e1 := C77_dot hp (hy i)
    have e2 := hr i
    have e3 : ‖y i - (A *ᵥ x) i‖ ≤ flBound p A x i := e1
    have e4 : (r - (b - A *ᵥ x)) i = (r i - (b i - y i)) - (y i - (A *ᵥ x) i) := by
      simp only [Pi.sub_apply]; ring
    have e5 : ‖b i - y i‖ ≤ ‖(b - A *ᵥ x) i‖ + flBound p A x i := by
      have : b i - y i = (b - A *ᵥ x) i - (y i - (A *ᵥ x) i) := by simp only [Pi.sub_apply]; ring
      rw [this]
      exact (norm_sub_le _ _).trans (by linarith)
    rw [e4]
    refine (norm_sub_le _ _).trans ?_
    have := mul_le_mul_of_nonneg_left e5 hu
    linarith
  have h2 : vecNorm (r - (b - A *ᵥ x)) ≤
      vecNorm ((p.u • fun i => ‖(b - A *ᵥ x) i‖) + (1 + p.u) • flBound p A x : Fin n → ℝ) := by
    refine vecNorm_mono fun i => ?_
    refine (h1 i).trans (le_of_eq ?_)
    have h3 := flBound_nonneg hp A x i
    simp only [Pi.add_apply, Pi.smul_apply, smul_eq_mul]
    rw [Real.norm_of_nonneg (by positivity)]
  refine h2.trans ((vecNorm_add_le' _ _).trans ?_)
  rw [vecNorm_smul, vecNorm_smul, Real.norm_of_nonneg hu, Real.norm_of_nonneg (by linarith)]
  have h4 : vecNorm (fun i => ‖(b - A *ᵥ x) i‖) = vecNorm (b - A *ᵥ x) := by
    unfold vecNorm; simp
  rw [h4]

theorem star_dot_norm {n : ℕ} (r : Fin n → 𝕜) : ‖star r ⬝ᵥ r‖ = vecNorm r ^ 2 := by
  rw [star_dot_self, RCLike.norm_ofReal, abs_of_nonneg (sq_nonneg _)]

theorem FlDot.self (hp : p.Nonneg) {n : ℕ} {r : Fin n → 𝕜} {d : 𝕜} (h : FlDot p (star r) r d) :
    |‖d‖ - vecNorm r ^ 2| ≤ p.gam n * vecNorm r ^ 2 + p.und n := by
  have h1 := C77_dot hp h
  have h2 : ∑ i, ‖(star r) i‖ * ‖r i‖ = vecNorm r ^ 2 := by
    rw [vecNorm_sq]
    exact Finset.sum_congr rfl fun i _ => by rw [Pi.star_apply, norm_star, sq]
  rw [h2] at h1
  rw [← star_dot_norm] at h1 ⊢
  exact (abs_norm_sub_norm_le _ _).trans h1

/-- The largest norm of a vector whose norm is evaluated as `N`. -/
noncomputable def flUp (p : FlPar) (n : ℕ) (N : ℝ) : ℝ := Real.sqrt (((N / (1 - p.w)) ^ 2 + p.und n) / (1 - p.gam n))

/-- The largest value which the evaluation of a norm `N` can give. -/
noncomputable def flDown (p : FlPar) (n : ℕ) (N : ℝ) : ℝ := (1 + p.w) * Real.sqrt ((1 + p.gam n) * N ^ 2 + p.und n)

theorem flUp_mono (hw : p.w < 1) {n : ℕ} (hg : p.gam n < 1) {N N' : ℝ} (h0 : 0 ≤ N) (h : N ≤ N') : flUp p n N ≤ flUp p n N' := by
  have h1 : 0 < 1 - p.w := by linarith
  have h2 : 0 < 1 - p.gam n := by linarith
  unfold flUp
  gcongr

theorem flDown_mono (hp : p.Nonneg) {n : ℕ} {N N' : ℝ} (h0 : 0 ≤ N) (h : N ≤ N') : flDown p n N ≤ flDown p n N' := by
  have h1 := hp.w
  have h2 := hp.gam_nonneg n
  unfold flDown
  gcongr

/-- C77: the evaluation of a norm. -/
theorem C77_norm (hp : p.Nonneg) {n : ℕ} (hw : p.w < 1) (hg : p.gam n < 1) {r : Fin n → 𝕜} {N : ℝ} (h : FlNorm p r N) :
    0 ≤ N ∧ vecNorm r ≤ flUp p n N ∧ N ≤ flDown p n (vecNorm r) := by
  obtain ⟨d, hd, hN⟩ := h
  have h1 := abs_le.mp (hd.self hp)
  have h2 := abs_le.mp hN
  have h3 := Real.sqrt_nonneg ‖d‖
  have h4 : 0 < 1 - p.w := by linarith
  have h5 : 0 < 1 - p.gam n := by linarith
  have h6 := hp.w
  refine ⟨by nlinarith, ?_, ?_⟩
  · refine Real.le_sqrt_of_sq_le ?_
    rw [le_div_iff₀ h5]
    have h7 : Real.sqrt ‖d‖ ≤ N / (1 - p.w) := by rw [le_div_iff₀ h4]; linarith
    have h8 : ‖d‖ ≤ (N / (1 - p.w)) ^ 2 := by
      rw [← Real.sq_sqrt (norm_nonneg d)]
      exact pow_le_pow_left₀ h3 h7 2
    linarith
  · have h7 : Real.sqrt ‖d‖ ≤ Real.sqrt ((1 + p.gam n) * vecNorm r ^ 2 + p.und n) := Real.sqrt_le_sqrt (by linarith)
    unfold flDown
    nlinarith

/-- C77: the evaluated residual norm and the true one. -/
theorem C77_resnorm (hp : p.Nonneg) {n : ℕ} (hw : p.w < 1) (hg : p.gam n < 1) {A : Matrix (Fin n) (Fin n) 𝕜} {b x : Fin n → 𝕜} {N : ℝ}
    (h : FlResNorm p A b x N) :
    0 ≤ N ∧ (1 - p.u) * vecNorm (b - A *ᵥ x) ≤ flUp p n N + (1 + p.u) * vecNorm (flBound p A x) ∧
      N ≤ flDown p n ((1 + p.u) * (vecNorm (b - A *ᵥ x) + vecNorm (flBound p A x))) := by
  obtain ⟨r, hr, hN⟩ := h
  obtain ⟨h0, h1, h2⟩ := C77_norm hp hw hg hN
  have h3 := C77_residual hp hr
  refine ⟨h0, ?_, h2.trans (flDown_mono hp (vecNorm_nonneg _) ?_)⟩
  · have h4 := vecNorm_add_le' r ((-1 : 𝕜) • (r - (b - A *ᵥ x)))
    rw [vecNorm_smul, norm_neg, norm_one, one_mul, show r + (-1 : 𝕜) • (r - (b - A *ᵥ x)) = b - A *ᵥ x by module] at h4
    linarith
  · have h4 := vecNorm_add_le' (r - (b - A *ᵥ x)) (b - A *ᵥ x)
    rw [sub_add_cancel] at h4
    linarith

theorem FlSum.zero (n : ℕ) : FlSum p (List.replicate n (0 : 𝕜)) 0 := by
  induction n with
  | zero => exact .nil
  | succ n ih =>
    rcases Nat.eq_zero_or_pos n with rfl | hn
    · exact .one 0
    · refine .node (.one 0) ih (by simp) (by simp; omega) (.refl _) (by simp)

/-- The residual without an initial guess (`get_residual(None)`, linsys.py 149-153): the norm of the right hand side is a possible result for the
zero vector. -/
theorem FlResNorm.zero (hp : p.Nonneg) {n : ℕ} {A : Matrix (Fin n) (Fin n) 𝕜} {b : Fin n → 𝕜} {N : ℝ} (h : FlNorm p b N) : FlResNorm p A b 0 N := by
  refine ⟨b, ⟨0, fun i => ⟨0, fun j => by simpa using hp.η, ?_⟩, fun i => ?_⟩, h⟩
  · have := FlSum.zero (𝕜 := 𝕜) (p := p) n
    rwa [← List.ofFn_const] at this
  · simp only [Pi.zero_apply, sub_zero, sub_self, norm_zero]
    exact mul_nonneg hp.u (norm_nonneg _)

/-! ## The driver -/

section
variable {F X S : Type*} [LE F] [LT F] [DecidableLE F] [DecidableLT F] [Div F] [Zero F] [BEq F] [Zero X]

/-- A solver call in floating point arithmetic for the system `A x = b` without `M`, `Ml`, `ip_B` (and with any `Mr`): whenever a norm is
finite, it is a possible result of its evaluation. -/
structure FlCall (p : FlPar) (val : F → Option ℝ) {n : ℕ} (A : Matrix (Fin n) (Fin n) 𝕜) (b : Fin n → 𝕜) (vec : X → Fin n → 𝕜) (cfg : Cfg F X)
    (t B : ℝ) : Prop where
  fmt : FlFormat F p val
  tol : val cfg.tol = some t
  rhs : val cfg.MMlbNorm = some B
  rhs_eval : FlNorm p b B
  res_eval : ∀ x v a, cfg.resNorm x = .ok v → val v = some a → FlResNorm p A b (vec x) a
  zero : vec 0 = 0

theorem FlCall.quot (hp : p.Nonneg) {n : ℕ} (hw : p.w < 1) (hg : p.gam n < 1) (hu : p.u < 1) {val : F → Option ℝ}
    {A : Matrix (Fin n) (Fin n) 𝕜} {b : Fin n → 𝕜} {vec : X → Fin n → 𝕜} {cfg : Cfg F X} {t B : ℝ} (h : FlCall p val A b vec cfg t B) (hB : B ≠ 0)
    {v : F} {a q : ℝ} (ha : 0 ≤ a) (hv : val v = some a) (hq : val (v / cfg.MMlbNorm) = some q) :
    0 < B ∧ (1 - p.u) * a ≤ (q + p.η) * B ∧ (q - p.η) * B ≤ (1 + p.u) * a := by
  obtain ⟨b0, -, -⟩ := C77_norm hp hw hg h.rhs_eval
  have hB' : 0 < B := lt_of_le_of_ne b0 (Ne.symm hB)
  have h1 := h.fmt.div hv h.rhs hB hq
  rw [abs_of_nonneg (div_nonneg ha b0)] at h1
  have h2 := abs_le.mp h1
  have h3 : a / B * B = a := div_mul_cancel₀ a hB
  refine ⟨hB', ?_, ?_⟩ <;> nlinarith

/-- **C77**: a solver (with an arbitrary method, whose own rounding errors do not matter) which returns with `resnorms[-1] <= tol` has found a vector
whose *exact* residual is bounded by `tol` times the norm of the right hand side, up to the rounding errors of one evaluation of the residual. -/
theorem C77_converged (hp : p.Nonneg) {n : ℕ} (hw : p.w < 1) (hg : p.gam n < 1) (hu : p.u < 1) {val : F → Option ℝ}
    {A : Matrix (Fin n) (Fin n) 𝕜} {b : Fin n → 𝕜} {vec : X → Fin n → 𝕜} {cfg : Cfg F X} {t B : ℝ} (hc : FlCall p val A b vec cfg t B) (hB : B ≠ 0)
    {m : Method F X S} (hm : LawfulMethod m cfg.maxiter) {x0 : X} {r0norm : F} {mkS : X → S} {xk0 : X → Except Err X} (hk0 : ∀ x, m.k (mkS x) = 0)
    (hinit : ∀ x, m.getXk (mkS x0) = .ok x → cfg.resNorm x = .ok r0norm)
    {st : St F X S} (h : run cfg m x0 r0norm mkS xk0 = .returned st) {r : F} {q : ℝ} (hr : st.resnorms.getLast? = some r) (hq : val r = some q)
    (hle : r ≤ cfg.tol) :
    ∃ x, st.xk = some x ∧ 0 ≤ t + p.η ∧
      (1 - p.u) * vecNorm (b - A *ᵥ vec x) ≤
        flUp p n ((t + p.η) / (1 - p.u) * flDown p n (vecNorm b)) + (1 + p.u) * vecNorm (flBound p A (vec x)) := by
  have hb0 : (cfg.MMlbNorm == 0) = false := by
    cases hbb : cfg.MMlbNorm == 0 with
    | false => rfl
    | true => exact absurd ((hc.fmt.beq_zero hc.rhs).mp hbb) hB
  obtain ⟨x, v, hx, hv, rfl⟩ := C23_returned hm hk0 h (fun _ => hinit) hr hle fun _ => hb0
  obtain ⟨a, ha⟩ := hc.fmt.div_finite hc.rhs hB hq
  obtain ⟨a0, h1, -⟩ := C77_resnorm hp hw hg (hc.res_eval x v a hv ha)
  obtain ⟨B0, h2, -⟩ := hc.quot hp hw hg hu hB a0 ha hq
  obtain ⟨-, -, h3⟩ := C77_norm hp hw hg hc.rhs_eval
  have hqt : q ≤ t := (hc.fmt.le_iff hq hc.tol).mp hle
  have h4 : 0 < 1 - p.u := by linarith
  have h5 : a ≤ (t + p.η) / (1 - p.u) * B := by
    rw [div_mul_eq_mul_div, le_div_iff₀ h4]
    nlinarith
  have h6 : 0 ≤ (t + p.η) / (1 - p.u) := by
    by_contra h7
    push Not at h7
    nlinarith
  refine ⟨x, hx, ?_, h1.trans ?_⟩
  · have h7 := mul_nonneg h6 h4.le
    rwa [div_mul_cancel₀ _ h4.ne'] at h7
  have h7 := flUp_mono hw hg a0 (h5.trans (mul_le_mul_of_nonneg_left h3 h6))
  linarith

/-- C77, the converse: if `ConvergenceError` is raised, then the exact residual of the attached vector is at least `tol` times the norm of the
right hand side, up to the rounding errors of one evaluation. -/
theorem C77_not_converged (hp : p.Nonneg) {n : ℕ} (hw : p.w < 1) (hg : p.gam n < 1) (hu : p.u < 1) {val : F → Option ℝ}
    {A : Matrix (Fin n) (Fin n) 𝕜} {b : Fin n → 𝕜} {vec : X → Fin n → 𝕜} {cfg : Cfg F X} {t B : ℝ} (hc : FlCall p val A b vec cfg t B) (hB : B ≠ 0)
    {m : Method F X S} (hm : LawfulMethod m cfg.maxiter) {x0 : X} {r0norm : F} {mkS : X → S} {xk0 : X → Except Err X} (hk0 : ∀ x, m.k (mkS x) = 0)
    {st : St F X S} (h : run cfg m x0 r0norm mkS xk0 = .convergence st) {r : F} {q : ℝ} (hr : st.resnorms.getLast? = some r) (hq : val r = some q) :
    ∃ x, st.xk = some x ∧
      vecNorm b ≤ flUp p n B ∧
      (t - p.η) * B < (1 + p.u) * flDown p n ((1 + p.u) * (vecNorm (b - A *ᵥ vec x) + vecNorm (flBound p A (vec x)))) := by
  obtain ⟨x, v, hx, hv, hl⟩ := C23_convergence hm hk0 h
  obtain ⟨-, -, -, r', hr', hlt⟩ := C22_convergence hm hk0 h
  obtain rfl : r = r' := Option.some.inj (hr.symm.trans hr')
  obtain rfl := Option.some.inj (hr.symm.trans hl)
  obtain ⟨a, ha⟩ := hc.fmt.div_finite hc.rhs hB hq
  obtain ⟨a0, -, h1⟩ := C77_resnorm hp hw hg (hc.res_eval x v a hv ha)
  obtain ⟨B0, -, h2⟩ := hc.quot hp hw hg hu hB a0 ha hq
  obtain ⟨-, h3, -⟩ := C77_norm hp hw hg hc.rhs_eval
  have hqt : t < q := (hc.fmt.lt_iff hc.tol hq).mp hlt
  refine ⟨x, hx, h3, ?_⟩
  have h4 := mul_le_mul_of_nonneg_left h1 (show 0 ≤ 1 + p.u by linarith [hp.u])
  nlinarith

/-- C77: if the norm of the right hand side is evaluated as zero, then the solver returns the zero vector, and its exact residual is
below the underflow level. -/
theorem C77_zero_rhs (hp : p.Nonneg) {n : ℕ} (hw : p.w < 1) (hg : p.gam n < 1) {val : F → Option ℝ}
    {A : Matrix (Fin n) (Fin n) 𝕜} {b : Fin n → 𝕜} {vec : X → Fin n → 𝕜} {cfg : Cfg F X} {t : ℝ} (hc : FlCall p val A b vec cfg t 0)
    (h0 : val (0 : F) = some 0) (ht : 0 ≤ t) {m : Method F X S} {x0 : X} {r0norm : F} {mkS : X → S} {xk0 : X → Except Err X}
    {eo : Option (List F)} (herr : initErr cfg (xk0 0) = .ok eo) :
    ∃ st x, run cfg m x0 r0norm mkS xk0 = .returned st ∧ st.xk = some x ∧ vecNorm (b - A *ᵥ vec x) ≤ Real.sqrt (p.und n / (1 - p.gam n)) := by
  have hb : (cfg.MMlbNorm == 0) = true := (hc.fmt.beq_zero hc.rhs).mpr rfl
  obtain ⟨st, h1, h2, -⟩ := C25_zero_rhs (m := m) (x0 := x0) (r0norm := r0norm) (mkS := mkS) hb
    (fun h => absurd ((hc.fmt.lt_iff hc.tol h0).mp h) (not_lt.mpr ht)) herr
  refine ⟨st, 0, h1, h2, ?_⟩
  obtain ⟨-, h3, -⟩ := C77_norm hp hw hg hc.rhs_eval
  rw [hc.zero, Matrix.mulVec_zero, sub_zero]
  simpa [flUp] using h3

/-- C77 without underflow: the bound in plain terms. -/
theorem C77_converged_normal (hp : p.Nonneg) {n : ℕ} (hw : p.w < 1) (hg : p.gam n < 1) (hu : p.u < 1) (hη : p.η = 0) {val : F → Option ℝ}
    {A : Matrix (Fin n) (Fin n) 𝕜} {b : Fin n → 𝕜} {vec : X → Fin n → 𝕜} {cfg : Cfg F X} {t B : ℝ} (hc : FlCall p val A b vec cfg t B) (hB : B ≠ 0)
    {m : Method F X S} (hm : LawfulMethod m cfg.maxiter) {x0 : X} {r0norm : F} {mkS : X → S} {xk0 : X → Except Err X} (hk0 : ∀ x, m.k (mkS x) = 0)
    (hinit : ∀ x, m.getXk (mkS x0) = .ok x → cfg.resNorm x = .ok r0norm)
    {st : St F X S} (h : run cfg m x0 r0norm mkS xk0 = .returned st) {r : F} {q : ℝ} (hr : st.resnorms.getLast? = some r) (hq : val r = some q)
    (hle : r ≤ cfg.tol) :
    ∃ x, st.xk = some x ∧ 0 ≤ t ∧
      vecNorm (b - A *ᵥ vec x) ≤
        (1 + p.w) * Real.sqrt (1 + p.gam n) / ((1 - p.u) ^ 2 * (1 - p.w) * Real.sqrt (1 - p.gam n)) * (t * vecNorm b) +
          (1 + p.u) / (1 - p.u) * p.gam n * vecNorm (fun i => ∑ j, ‖A i j‖ * ‖vec x j‖) := by
  obtain ⟨x, hx, h0, h1⟩ := C77_converged hp hw hg hu hc hB hm hk0 hinit h hr hq hle
  rw [hη, add_zero] at h0 h1
  have hz : p.und n = 0 := by rw [FlPar.und, hη, mul_zero]
  have g0 := hp.gam_nonneg n
  have h4 : 0 < 1 - p.u := by linarith
  have h5 : 0 < 1 - p.w := by linarith
  have h6 : 0 < 1 - p.gam n := by linarith
  have hw0 := hp.w
  have h7 := vecNorm_nonneg b
  have e1 : flDown p n (vecNorm b) = (1 + p.w) * (Real.sqrt (1 + p.gam n) * vecNorm b) := by
    rw [flDown, hz, add_zero, Real.sqrt_mul (by linarith), Real.sqrt_sq h7]
  have e2 : ∀ N, 0 ≤ N → flUp p n N = N / (1 - p.w) / Real.sqrt (1 - p.gam n) := fun N hN => by
    rw [flUp, hz, add_zero, Real.sqrt_div (sq_nonneg _), Real.sqrt_sq (by positivity)]
  have e3 : vecNorm (flBound p A (vec x)) = p.gam n * vecNorm (fun i => ∑ j, ‖A i j‖ * ‖vec x j‖) := by
    have : flBound p A (vec x) = p.gam n • fun i => ∑ j, ‖A i j‖ * ‖vec x j‖ := by
      funext i; simp [flBound, hz]
    rw [this, vecNorm_smul, Real.norm_of_nonneg g0]
  rw [e1, e2 _ (by positivity), e3] at h1
  refine ⟨x, hx, h0, ?_⟩
  rw [← mul_le_mul_iff_right₀ h4]
  refine h1.trans (le_of_eq ?_)
  have h8 : Real.sqrt (1 - p.gam n) ≠ 0 := (Real.sqrt_pos.mpr h6).ne'
  field_simp

end

/-- Real IEEE double precision: unit round-off `2⁻⁵³`, a square root of the modulus with a few more errors, no underflow. -/
noncomputable def flDouble : FlPar := ⟨2⁻¹ ^ 53, 2⁻¹ ^ 53, 2⁻¹ ^ 50, 0⟩

theorem flDouble_nonneg : flDouble.Nonneg := by constructor <;> norm_num [flDouble]

theorem flDouble_gam {n : ℕ} (h1 : 1 ≤ n) (h : n ≤ 1000000) : flDouble.gam n ≤ 1.1103 / 10 ^ 10 := by
  have e : flDouble.gam n = (1 + (2⁻¹ : ℝ) ^ 53) ^ n - 1 := by
    rw [FlPar.gam]
    show (1 + (2⁻¹ : ℝ) ^ 53) ^ (n - 1) * (1 + (2⁻¹ : ℝ) ^ 53) - 1 = _
    rw [← pow_succ, Nat.sub_add_cancel h1]
  have b1 : 1 + (n : ℝ) * (-(2⁻¹ : ℝ) ^ 53) ≤ (1 + -(2⁻¹ : ℝ) ^ 53) ^ n := one_add_mul_le_pow (by norm_num) n
  have b2 : (1 + (2⁻¹ : ℝ) ^ 53) ^ n * (1 + -(2⁻¹ : ℝ) ^ 53) ^ n ≤ 1 := by
    rw [← mul_pow]
    exact pow_le_one₀ (by norm_num) (by norm_num)
  have b3 : (n : ℝ) ≤ 1000000 := by exact_mod_cast h
  have b4 : (1 : ℝ) ≤ (1 + (2⁻¹ : ℝ) ^ 53) ^ n := one_le_pow₀ (by norm_num)
  rw [e]
  set G := (1 + (2⁻¹ : ℝ) ^ 53) ^ n
  have b5 : (1 : ℝ) - 1000000 * 2⁻¹ ^ 53 ≤ (1 + -(2⁻¹ : ℝ) ^ 53) ^ n := by
    refine le_trans ?_ b1
    nlinarith [show (0 : ℝ) < 2⁻¹ ^ 53 by norm_num]
  have b6 : G * (1 - 1000000 * 2⁻¹ ^ 53) ≤ 1 := (mul_le_mul_of_nonneg_left b5 (by linarith)).trans b2
  norm_num at b6 ⊢
  linarith

section
variable {F X S : Type*} [LE F] [LT F] [DecidableLE F] [DecidableLT F] [Div F] [Zero F] [BEq F] [Zero X]

/-- C77 for real double precision systems with up to a million unknowns, without underflow. -/
theorem C77_double {n : ℕ} (h1 : 1 ≤ n) (hn : n ≤ 1000000) {val : F → Option ℝ}
    {A : Matrix (Fin n) (Fin n) 𝕜} {b : Fin n → 𝕜} {vec : X → Fin n → 𝕜} {cfg : Cfg F X} {t B : ℝ} (hc : FlCall flDouble val A b vec cfg t B) (hB : B ≠ 0)
    {m : Method F X S} (hm : LawfulMethod m cfg.maxiter) {x0 : X} {r0norm : F} {mkS : X → S} {xk0 : X → Except Err X} (hk0 : ∀ x, m.k (mkS x) = 0)
    (hinit : ∀ x, m.getXk (mkS x0) = .ok x → cfg.resNorm x = .ok r0norm)
    {st : St F X S} (h : run cfg m x0 r0norm mkS xk0 = .returned st) {r : F} {q : ℝ} (hr : st.resnorms.getLast? = some r) (hq : val r = some q)
    (hle : r ≤ cfg.tol) :
    ∃ x, st.xk = some x ∧
      vecNorm (b - A *ᵥ vec x) ≤ (1 + 1 / 10 ^ 9) * t * vecNorm b + 1.2 / 10 ^ 10 * vecNorm (fun i => ∑ j, ‖A i j‖ * ‖vec x j‖) := by
  have hg := flDouble_gam h1 hn
  have g0 := flDouble_nonneg.gam_nonneg n
  have hw : flDouble.w < 1 := by norm_num [flDouble]
  have hu : flDouble.u < 1 := by norm_num [flDouble]
  have hg1 : flDouble.gam n < 1 := by norm_num at hg ⊢; linarith
  obtain ⟨x, hx, ht, hb⟩ := C77_converged_normal flDouble_nonneg hw hg1 hu rfl hc hB hm hk0 hinit h hr hq hle
  refine ⟨x, hx, hb.trans ?_⟩
  have n1 := vecNorm_nonneg b
  have n2 := vecNorm_nonneg (fun i => ∑ j, ‖A i j‖ * ‖vec x j‖)
  have s1 : Real.sqrt (1 + flDouble.gam n) ≤ 1 + flDouble.gam n := Real.sqrt_le_iff.mpr ⟨by linarith, by nlinarith⟩
  have s2 : 1 - flDouble.gam n ≤ Real.sqrt (1 - flDouble.gam n) := Real.le_sqrt_of_sq_le (by nlinarith)
  have c1 : (1 + flDouble.w) * Real.sqrt (1 + flDouble.gam n) / ((1 - flDouble.u) ^ 2 * (1 - flDouble.w) * Real.sqrt (1 - flDouble.gam n)) ≤
      1 + 1 / 10 ^ 9 := by
    have p1 : 0 < Real.sqrt (1 - flDouble.gam n) := lt_of_lt_of_le (by linarith) s2
    have p2 : 0 < (1 - flDouble.u) ^ 2 * (1 - flDouble.w) := mul_pos (pow_pos (by linarith) 2) (by linarith)
    rw [div_le_iff₀ (mul_pos p2 p1)]
    have p3 : (1 + flDouble.w) * Real.sqrt (1 + flDouble.gam n) ≤ (1 + flDouble.w) * (1 + 1.1103 / 10 ^ 10) :=
      mul_le_mul_of_nonneg_left (by linarith) (by linarith [flDouble_nonneg.w])
    have p4 : (1 - flDouble.u) ^ 2 * (1 - flDouble.w) * (1 - 1.1103 / 10 ^ 10) ≤ (1 - flDouble.u) ^ 2 * (1 - flDouble.w) * Real.sqrt (1 - flDouble.gam n) :=
      mul_le_mul_of_nonneg_left (by linarith) p2.le
    refine p3.trans (le_trans ?_ (mul_le_mul_of_nonneg_left p4 (by norm_num)))
    norm_num [flDouble]
  have c2 : (1 + flDouble.u) / (1 - flDouble.u) * flDouble.gam n ≤ 1.2 / 10 ^ 10 := by
    have : (1 + flDouble.u) / (1 - flDouble.u) ≤ 1.01 := by norm_num [flDouble]
    have h3 := mul_le_mul this hg g0 (by norm_num)
    refine h3.trans (by norm_num)
  have := mul_le_mul_of_nonneg_right c1 (mul_nonneg ht n1)
  have := mul_le_mul_of_nonneg_right c2 n2
  linarith

/-! ## Not-a-number -/

omit [Zero F] [BEq F] [Zero X] in
/-- Finding (C77): an updated residual norm which cannot be compared with `tol` (NaN) ends the loop: the explicit residual is not evaluated and the
solver returns normally, without warning.  Any iteration, any method, no `exact_solution`. -/
theorem C77_nan {cfg : Cfg F X} {m : Method F X S} {st : St F X S} (he : cfg.errNorm = none) (hex : cfg.explicitResidual = false)
    (hg : loopGuard cfg m st = true) {s' : S} {r : F} (hs : m.step st.s = .ok (s', r)) (h1 : ¬ r / cfg.MMlbNorm ≤ cfg.tol)
    (h2 : ¬ cfg.tol < r / cfg.MMlbNorm) (hk : m.k st.s + 1 ≠ cfg.maxiter) {x : X} (hx : m.getXk (m.post s' none) = .ok x) (fuel : ℕ) :
    ∃ st', loop cfg m (fuel + 1) st = .returned st' ∧ st'.xk = some x ∧ st'.resnorms = st.resnorms ++ [r / cfg.MMlbNorm] ∧
      st'.warnings = st.warnings := by
  refine ⟨⟨m.post s' none, if m.countAfter then m.k st.s + 1 else m.k st.s, some x, st.resnorms ++ [r / cfg.MMlbNorm], st.errnorms, st.warnings⟩,
    ?_, rfl, rfl, rfl⟩
  have hb : body cfg m st = .ok ⟨m.post s' none, if m.countAfter then m.k st.s + 1 else m.k st.s, none, st.resnorms ++ [r / cfg.MMlbNorm], st.errnorms,
      st.warnings⟩ := by
    simp [body, hs, finalizeIteration, withErr, he, wantExplicit, hex, h1, hk]
  rw [loop, if_pos hg]
  simp only [hb]
  unfold loop
  simp [loopGuard, h2, finish, hx]

omit [Zero F] [BEq F] [Zero X] in
/-- Finding (C77): an explicitly evaluated residual norm which cannot be compared with `tol` also ends the loop, even in the last iteration, and no
`ConvergenceError` is raised. -/
theorem C77_nan_explicit {cfg : Cfg F X} {m : Method F X S} {st : St F X S} (he : cfg.errNorm = none)
    (hg : loopGuard cfg m st = true) {s' : S} {r v : F} (hs : m.step st.s = .ok (s', r))
    (hw : cfg.explicitResidual = true ∨ r / cfg.MMlbNorm ≤ cfg.tol ∨ m.k st.s + 1 = cfg.maxiter) {x : X} (hx : m.getXk s' = .ok x)
    (hv : cfg.resNorm x = .ok v) (h2 : ¬ cfg.tol < v / cfg.MMlbNorm) (fuel : ℕ) :
    ∃ st', loop cfg m (fuel + 1) st = .returned st' ∧ st'.xk = some x ∧ st'.resnorms = st.resnorms ++ [v / cfg.MMlbNorm] ∧
      st'.warnings = st.warnings := by
  refine ⟨⟨m.post s' (some v), if m.countAfter then m.k st.s + 1 else m.k st.s, some x, st.resnorms ++ [v / cfg.MMlbNorm], st.errnorms, st.warnings⟩,
    ?_, rfl, rfl, rfl⟩
  have hwe : wantExplicit cfg (⟨s', m.k st.s, none, st.resnorms, st.errnorms, st.warnings⟩ : St F X S) r = true := by
    simp only [wantExplicit, Bool.or_eq_true, decide_eq_true_eq]
    tauto
  have hb : body cfg m st = .ok ⟨m.post s' (some v), if m.countAfter then m.k st.s + 1 else m.k st.s, some x, st.resnorms ++ [v / cfg.MMlbNorm],
      st.errnorms, st.warnings⟩ := by
    simp [body, hs, finalizeIteration, withErr, he, hwe, hx, hv, h2]
  rw [loop, if_pos hg]
  simp only [hb]
  unfold loop
  simp [loopGuard, h2, finish]

end

/-! ## Non-vacuity: the reals with a NaN and an inexact division -/

/-- Reals with NaN. -/
structure NanReal where
  val : Option ℝ

namespace NanReal
instance : Zero NanReal := ⟨⟨some 0⟩⟩
instance : LE NanReal := ⟨fun x y => ∃ a b, x.val = some a ∧ y.val = some b ∧ a ≤ b⟩
instance : LT NanReal := ⟨fun x y => ∃ a b, x.val = some a ∧ y.val = some b ∧ a < b⟩
noncomputable instance : DecidableLE NanReal := fun _ _ => Classical.propDecidable _
noncomputable instance : DecidableLT NanReal := fun _ _ => Classical.propDecidable _
noncomputable instance : BEq NanReal := ⟨fun x y => @decide (∃ a b, x.val = some a ∧ y.val = some b ∧ a = b) (Classical.propDecidable _)⟩
/-- A division which is always wrong by one unit of round-off. -/
noncomputable instance : Div NanReal :=
  ⟨fun x y => ⟨match x.val, y.val with | some a, some b => if b = 0 then none else some (a / b * (1 + 2⁻¹ ^ 53)) | _, _ => none⟩⟩

theorem format : FlFormat NanReal flDouble NanReal.val := by
  constructor
  · intro x a h
    refine Iff.trans (@decide_eq_true_iff (∃ c d, x.val = some c ∧ (0 : NanReal).val = some d ∧ c = d) (Classical.propDecidable _)) ?_
    exact ⟨fun ⟨c, d, h1, h2, h3⟩ => by
      obtain rfl := Option.some.inj (h.symm.trans h1)
      obtain rfl := Option.some.inj (h2 : some (0 : ℝ) = some d)
      exact h3, fun h0 => ⟨a, 0, h, rfl, h0⟩⟩
  · intro x y a b h h'
    exact ⟨fun ⟨c, d, h1, h2, h3⟩ => by
      obtain rfl := Option.some.inj (h.symm.trans h1)
      obtain rfl := Option.some.inj (h'.symm.trans h2)
      exact h3, fun h0 => ⟨a, b, h, h', h0⟩⟩
  · intro x y a b h h'
    exact ⟨fun ⟨c, d, h1, h2, h3⟩ => by
      obtain rfl := Option.some.inj (h.symm.trans h1)
      obtain rfl := Option.some.inj (h'.symm.trans h2)
      exact h3, fun h0 => ⟨a, b, h, h', h0⟩⟩
  · rintro ⟨_ | a⟩ ⟨y⟩ b q h hb hq
    · obtain rfl := h
      cases hq
    · exact ⟨a, rfl⟩
  · rintro ⟨x⟩ ⟨y⟩ a b q h h' hb hq
    obtain rfl := h
    obtain rfl := h'
    replace hq : (if b = 0 then none else some (a / b * (1 + 2⁻¹ ^ 53))) = some q := hq
    rw [if_neg hb] at hq
    obtain rfl := Option.some.inj hq
    show _ ≤ 2⁻¹ ^ 53 * |a / b| + 0
    rw [show a / b * (1 + 2⁻¹ ^ 53) - a / b = 2⁻¹ ^ 53 * (a / b) by ring, abs_mul, abs_of_nonneg (by norm_num), add_zero]

end NanReal

theorem FlSum.exact (hp : p.Nonneg) (l : List 𝕜) : FlSum p l l.sum := by
  induction l with
  | nil => exact .nil
  | cons a l ih =>
    by_cases hl : l = []
    · subst hl; simpa using FlSum.one a
    · refine .node (.one a) ih (by simp) hl (.refl _) ?_
      rw [List.sum_cons, sub_self, norm_zero]
      exact mul_nonneg hp.u (norm_nonneg _)

theorem FlDot.exact (hp : p.Nonneg) {n : ℕ} (x y : Fin n → 𝕜) : FlDot p x y (x ⬝ᵥ y) := by
  refine ⟨fun i => x i * y i, fun i => ?_, ?_⟩
  · rw [sub_self, norm_zero]
    have := hp.v
    have := hp.η
    positivity
  · have := FlSum.exact hp (List.ofFn fun i => x i * y i)
    rwa [List.sum_ofFn] at this

/-- Exact evaluation is a possible evaluation. -/
theorem FlResNorm.exact (hp : p.Nonneg) {n : ℕ} (A : Matrix (Fin n) (Fin n) 𝕜) (b x : Fin n → 𝕜) :
    FlNorm p b (vecNorm b) ∧ FlResNorm p A b x (vecNorm (b - A *ᵥ x)) := by
  have key : ∀ r : Fin n → 𝕜, FlNorm p r (vecNorm r) := fun r => by
    refine ⟨_, FlDot.exact hp _ _, ?_⟩
    rw [star_dot_norm, Real.sqrt_sq (vecNorm_nonneg r), sub_self, abs_zero]
    exact mul_nonneg hp.w (vecNorm_nonneg r)
  refine ⟨key b, _, ⟨A *ᵥ x, fun i => FlDot.exact hp _ _, fun i => ?_⟩, key _⟩
  rw [Pi.sub_apply, sub_self, norm_zero]
  exact mul_nonneg hp.u (norm_nonneg _)

/-- a method with one step to `x = 1/2 + 1/1000` -/
private noncomputable def flToy (r : NanReal) : Method NanReal ℝ ℕ where
  more s := decide (s < 5)
  step s := .ok (s + 1, r)
  getXk s := .ok (if s = 0 then 0 else 1 / 2 + 1 / 1000)
  k s := s
  post s _ := s
  countAfter := true

/-- the system `2 x = 1`, `tol = 1/100` -/
private noncomputable def flToyCfg : Cfg NanReal ℝ where
  tol := ⟨some (1 / 100)⟩
  maxiter := 5
  explicitResidual := false
  MMlbNorm := ⟨some 1⟩
  resNorm x := .ok ⟨some |1 - 2 * x|⟩
  errNorm := none

private theorem flToy_lawful (r : NanReal) : LawfulMethod (flToy r) 5 :=
  ⟨by intro s s' r h; simp [flToy] at h; simp [flToy, ← h.1], by simp [flToy], by simp [flToy], by simp [flToy]⟩

private theorem flToy_call : FlCall flDouble NanReal.val (!![2] : Matrix (Fin 1) (Fin 1) ℝ) ![1] (fun x : ℝ => ![x]) flToyCfg (1 / 100) 1 := by
  refine ⟨NanReal.format, rfl, rfl, ?_, ?_, by ext i; fin_cases i; rfl⟩
  · have := (FlResNorm.exact flDouble_nonneg (!![2] : Matrix (Fin 1) (Fin 1) ℝ) ![1] 0).1
    simpa [vecNorm] using this
  · rintro x v a hv ha
    obtain rfl := Except.ok.inj hv
    obtain rfl := Option.some.inj ha
    have := (FlResNorm.exact flDouble_nonneg (!![2] : Matrix (Fin 1) (Fin 1) ℝ) ![1] ![x]).2
    simpa [vecNorm, Matrix.mulVec, dotProduct, Real.sqrt_sq_eq_abs, mul_comm] using this

private theorem flToy_div (a : ℝ) : (⟨some a⟩ : NanReal) / ⟨some 1⟩ = ⟨some (a * (1 + 2⁻¹ ^ 53))⟩ := by
  show NanReal.mk (if (1 : ℝ) = 0 then none else some (a / 1 * (1 + 2⁻¹ ^ 53))) = _
  rw [if_neg one_ne_zero, div_one]

private theorem flToy_lt (a b : ℝ) : (⟨some a⟩ : NanReal) < ⟨some b⟩ ↔ a < b := NanReal.format.lt_iff rfl rfl
private theorem flToy_le (a b : ℝ) : (⟨some a⟩ : NanReal) ≤ ⟨some b⟩ ↔ a ≤ b := NanReal.format.le_iff rfl rfl

private theorem flToy_beq : ((⟨some 1⟩ : NanReal) == 0) = false := by
  cases h : (⟨some 1⟩ : NanReal) == 0 with
  | false => rfl
  | true => exact absurd ((NanReal.format.beq_zero (a := 1) rfl).mp h) one_ne_zero

/-- non-vacuity of C77: all hypotheses hold for a run with one iteration. -/
example : ∃ st r q, run flToyCfg (flToy ⟨some (1 / 1000)⟩) 0 ⟨some 1⟩ (fun _ => 0) (fun x => .ok x) = .returned st ∧
    st.resnorms.length = 2 ∧ st.resnorms.getLast? = some r ∧ r.val = some q ∧ r ≤ flToyCfg.tol ∧
    (∀ x, (flToy ⟨some (1 / 1000)⟩).getXk 0 = .ok x → flToyCfg.resNorm x = .ok ⟨some 1⟩) := by
  have e : |1 - 2 * ((1 : ℝ) / 2 + 1 / 1000)| = 1 / 500 := by rw [abs_of_nonpos] <;> norm_num
  have hb := flToy_beq
  obtain ⟨st, h1, -, h3, -⟩ := C77_nan_explicit (cfg := flToyCfg) (m := flToy ⟨some (1 / 1000)⟩)
    (st := ⟨0, 0, none, [⟨some (1 * (1 + 2⁻¹ ^ 53))⟩], none, 0⟩) rfl
    (by simp only [loopGuard, List.getLast?_singleton, Option.any_some, flToyCfg, flToy_lt]; simp [flToy]; norm_num)
    (s' := 1) (r := ⟨some (1 / 1000)⟩) (v := ⟨some (1 / 500)⟩) rfl
    (by right; left; simp only [flToyCfg, flToy_div, flToy_le]; norm_num) (x := 1 / 2 + 1 / 1000) rfl
    (by simp only [flToyCfg, e]) (by simp only [flToyCfg, flToy_div, flToy_lt]; norm_num) 4
  refine ⟨st, ⟨some (1 / 500 * (1 + 2⁻¹ ^ 53))⟩, 1 / 500 * (1 + 2⁻¹ ^ 53), ?_, by rw [h3]; rfl, ?_, rfl, ?_, ?_⟩
  · rw [← h1]
    simp only [run, flToyCfg, hb, initErr, Bool.false_eq_true, if_false, flToy_div]
  · rw [h3]
    simp only [List.getLast?_append, List.getLast?_singleton, Option.some_or, flToyCfg, flToy_div]
  · show (⟨some _⟩ : NanReal) ≤ ⟨some (1 / 100)⟩
    rw [flToy_le]
    norm_num
  · intro x hx
    obtain rfl := Except.ok.inj hx
    simp [flToyCfg]

/-- Finding (C77): a method which produces a NaN in its first step makes the solver return normally although the residual of the returned
vector is above `tol` (no exception, no warning). -/
theorem C77_nan_counterexample : ∃ (F : Type) (_ : LE F) (_ : LT F) (_ : DecidableLE F) (_ : DecidableLT F) (_ : Div F) (_ : Zero F) (_ : BEq F)
    (val : F → Option ℝ) (cfg : Cfg F ℝ) (m : Method F ℝ ℕ) (r0 : F) (st : St F ℝ ℕ) (x : ℝ),
    FlCall flDouble val (!![2] : Matrix (Fin 1) (Fin 1) ℝ) ![1] (fun x : ℝ => ![x]) cfg (1 / 1000) 1 ∧ LawfulMethod m cfg.maxiter ∧
    run cfg m 0 r0 (fun _ => 0) (fun x => .ok x) = .returned st ∧
    st.xk = some x ∧ st.warnings = 0 ∧ (1 : ℝ) / 1000 < |1 - 2 * x| := by
  refine ⟨NanReal, inferInstance, inferInstance, inferInstance, inferInstance, inferInstance, inferInstance, inferInstance, NanReal.val,
    { flToyCfg with tol := ⟨some (1 / 1000)⟩ }, flToy ⟨none⟩, ⟨some 1⟩, ?_⟩
  have hd : (⟨none⟩ : NanReal) / ⟨some 1⟩ = ⟨none⟩ := rfl
  have hb := flToy_beq
  have key := C77_nan (cfg := { flToyCfg with tol := ⟨some (1 / 1000)⟩ }) (m := flToy ⟨none⟩)
    (st := ⟨0, 0, none, [⟨some (1 * (1 + 2⁻¹ ^ 53))⟩], none, 0⟩) rfl rfl
    (by simp only [loopGuard, List.getLast?_singleton, Option.any_some, flToy_lt]; simp [flToy]; norm_num) (s' := 1) (r := ⟨none⟩) rfl
    (by rintro ⟨a, b, h, -⟩; exact absurd h (by rw [show ({ flToyCfg with tol := ⟨some (1 / 1000)⟩ } : Cfg NanReal ℝ).MMlbNorm = ⟨some 1⟩ from rfl, hd]; simp))
    (by rintro ⟨a, b, -, h, -⟩; exact absurd h (by rw [show ({ flToyCfg with tol := ⟨some (1 / 1000)⟩ } : Cfg NanReal ℝ).MMlbNorm = ⟨some 1⟩ from rfl, hd]; simp))
    (by show (0 : ℕ) + 1 ≠ 5; norm_num) (x := 1 / 2 + 1 / 1000) rfl 4
  obtain ⟨st, h1, h2, -, h4⟩ := key
  refine ⟨st, 1 / 2 + 1 / 1000, ?_, flToy_lawful _, ?_, h2, h4, ?_⟩
  · have h := flToy_call
    exact ⟨h.fmt, rfl, h.rhs, h.rhs_eval, h.res_eval, h.zero⟩
  · rw [← h1]
    simp only [run, flToyCfg, hb, initErr, Bool.false_eq_true, if_false, flToy_div]
  · rw [abs_of_nonpos] <;> norm_num

end Krypy
