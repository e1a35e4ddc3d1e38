import Mathlib.Analysis.InnerProductSpace.Basic
import Mathlib.Tactic.LinearCombination

/-!
# A three-term recurrence with rotations, with errors

The analysis behind C82, without any reference to the model: `P` are vectors (the Lanczos basis, not assumed to be orthogonal), `(c k, s k)` exact rotations.
-/

namespace Krypy
namespace MinresErr

variable {𝕜 E : Type*} [RCLike 𝕜] [NormedAddCommGroup E] [InnerProductSpace 𝕜 E]

/-- Euclidean norm of a pair of real numbers. -/
noncomputable def pn (a b : ℝ) : ℝ := √(a ^ 2 + b ^ 2)

theorem pn_nonneg (a b : ℝ) : 0 ≤ pn a b := Real.sqrt_nonneg _

theorem pn_sq (a b : ℝ) : pn a b ^ 2 = a ^ 2 + b ^ 2 := Real.sq_sqrt (by positivity)

theorem abs_le_pn_left (a b : ℝ) : |a| ≤ pn a b := Real.abs_le_sqrt (by nlinarith [sq_nonneg b])

theorem abs_le_pn_right (a b : ℝ) : |b| ≤ pn a b := Real.abs_le_sqrt (by nlinarith [sq_nonneg a])

theorem pn_mono {a b a' b' : ℝ} (h1 : |a| ≤ |a'|) (h2 : |b| ≤ |b'|) : pn a b ≤ pn a' b' := by
  refine Real.sqrt_le_sqrt ?_
  have := sq_le_sq.mpr h1
  have := sq_le_sq.mpr h2
  linarith

theorem pn_zero_left (a : ℝ) : pn 0 a = |a| := by
  unfold pn
  rw [zero_pow two_ne_zero, zero_add, Real.sqrt_sq_eq_abs]

theorem pn_zero_right (a : ℝ) : pn a 0 = |a| := by
  unfold pn
  rw [zero_pow two_ne_zero, add_zero, Real.sqrt_sq_eq_abs]

theorem pn_cs {a b x y : ℝ} : |a| * x + |b| * y ≤ pn a b * pn x y := by
  unfold pn
  rw [← Real.sqrt_mul (by positivity)]
  refine Real.le_sqrt_of_sq_le ?_
  have h1 := sq_abs a
  have h2 := sq_abs b
  nlinarith [sq_nonneg (|a| * y - |b| * x)]

theorem pn_add (a b x y : ℝ) : pn (a + x) (b + y) ≤ pn a b + pn x y := by
  refine Real.sqrt_le_iff.mpr ⟨add_nonneg (pn_nonneg _ _) (pn_nonneg _ _), ?_⟩
  have h := pn_cs (a := a) (b := b) (x := |x|) (y := |y|)
  have e1 : pn |x| |y| = pn x y := by unfold pn; rw [sq_abs, sq_abs]
  rw [e1] at h
  have h1 : a * x ≤ |a| * |x| := by rw [← abs_mul]; exact le_abs_self _
  have h2 : b * y ≤ |b| * |y| := by rw [← abs_mul]; exact le_abs_self _
  have := pn_sq a b
  have := pn_sq x y
  nlinarith

/-- Scaling both entries. -/
theorem pn_smul {t : ℝ} (ht : 0 ≤ t) (a b : ℝ) : pn (t * a) (t * b) = t * pn a b := by
  unfold pn
  rw [show (t * a) ^ 2 + (t * b) ^ 2 = t ^ 2 * (a ^ 2 + b ^ 2) by ring, Real.sqrt_mul (by positivity), Real.sqrt_sq ht]

theorem pn_rot {c s : ℝ} (h : c ^ 2 + s ^ 2 = 1) (a b : ℝ) : pn (c * a + s * b) (-s * a + c * b) = pn a b := by
  unfold pn
  congr 1
  linear_combination (a ^ 2 + b ^ 2) * h

/-- The last vector of the rotated basis: `u 0 = P 0`, `u (k+1) = -s u k + c P (k+1)`. -/
noncomputable def uvec (𝕜 : Type*) {E : Type*} [RCLike 𝕜] [NormedAddCommGroup E] [InnerProductSpace 𝕜 E] (c s : ℕ → ℝ) (P : ℕ → E) : ℕ → E
  | 0 => P 0
  | k + 1 => ((-s k : ℝ) : 𝕜) • uvec 𝕜 c s P k + (c k : 𝕜) • P (k + 1)

/-- The vector which rotation `k` finishes: `w k = c u k + s P (k+1)`. -/
noncomputable def wvec (𝕜 : Type*) {E : Type*} [RCLike 𝕜] [NormedAddCommGroup E] [InnerProductSpace 𝕜 E] (c s : ℕ → ℝ) (P : ℕ → E) (k : ℕ) : E :=
  (c k : 𝕜) • uvec 𝕜 c s P k + (s k : 𝕜) • P (k + 1)

variable {c s : ℕ → ℝ} {P : ℕ → E}

theorem combine (h : ∀ k, c k ^ 2 + s k ^ 2 = 1) (k : ℕ) (a b : ℝ) : (a : 𝕜) • uvec 𝕜 c s P k + (b : 𝕜) • P (k + 1) =
    ((c k * a + s k * b : ℝ) : 𝕜) • wvec 𝕜 c s P k + ((-s k * a + c k * b : ℝ) : 𝕜) • uvec 𝕜 c s P (k + 1) := by
  have h' : (c k : 𝕜) ^ 2 + (s k : 𝕜) ^ 2 = 1 := by exact_mod_cast congrArg (fun x : ℝ => (x : 𝕜)) (h k)
  rw [wvec, uvec]
  push_cast
  simp only [smul_add, smul_smul]
  have e1 : ∀ (x y : E) (a1 a2 b1 b2 c1 c2 : 𝕜), c1 = a1 + b1 → c2 = a2 + b2 → c1 • x + c2 • y = a1 • x + a2 • y + (b1 • x + b2 • y) := by
    intro x y a1 a2 b1 b2 c1 c2 h1 h2
    rw [h1, h2, add_smul, add_smul]
    abel
  refine e1 _ _ _ _ _ _ _ _ ?_ ?_
  · linear_combination -(a : 𝕜) * h'
  · linear_combination -(b : 𝕜) * h'

theorem sq_sum (h : ∀ k, c k ^ 2 + s k ^ 2 = 1) (k : ℕ) :
    ‖wvec 𝕜 c s P k‖ ^ 2 + ‖uvec 𝕜 c s P (k + 1)‖ ^ 2 = ‖uvec 𝕜 c s P k‖ ^ 2 + ‖P (k + 1)‖ ^ 2 := by
  rw [wvec, uvec, @norm_add_sq 𝕜, @norm_add_sq 𝕜]
  simp only [norm_smul, inner_smul_left, inner_smul_right, RCLike.norm_ofReal, RCLike.conj_ofReal, ← mul_assoc, ← RCLike.ofReal_mul, RCLike.re_ofReal_mul, mul_pow, sq_abs, neg_sq]
  linear_combination (‖uvec 𝕜 c s P k‖ ^ 2 + ‖P (k + 1)‖ ^ 2) * h k

/-- `√(Σ_{j≤k} ‖P j‖²)` -/
noncomputable def basisNorm (P : ℕ → E) (k : ℕ) : ℝ := √(∑ j ∈ Finset.range (k + 1), ‖P j‖ ^ 2)

theorem basisNorm_nonneg (P : ℕ → E) (k : ℕ) : 0 ≤ basisNorm P k := Real.sqrt_nonneg _

theorem basisNorm_sq (P : ℕ → E) (k : ℕ) : basisNorm P k ^ 2 = ∑ j ∈ Finset.range (k + 1), ‖P j‖ ^ 2 := Real.sq_sqrt (Finset.sum_nonneg fun _ _ => sq_nonneg _)

theorem basisNorm_mono (P : ℕ → E) {k l : ℕ} (h : k ≤ l) : basisNorm P k ≤ basisNorm P l :=
  Real.sqrt_le_sqrt (Finset.sum_le_sum_of_subset_of_nonneg (Finset.range_mono (by omega)) fun _ _ _ => sq_nonneg _)

theorem uvec_sq_le (h : ∀ k, c k ^ 2 + s k ^ 2 = 1) (k : ℕ) : ‖uvec 𝕜 c s P k‖ ^ 2 ≤ basisNorm P k ^ 2 := by
  induction k with
  | zero => rw [basisNorm_sq]; simp [uvec]
  | succ k ih =>
    have := sq_sum (𝕜 := 𝕜) (P := P) h k
    rw [basisNorm_sq] at ih ⊢
    rw [Finset.sum_range_succ]
    nlinarith [sq_nonneg ‖wvec 𝕜 c s P k‖]

theorem uvec_le (h : ∀ k, c k ^ 2 + s k ^ 2 = 1) (k : ℕ) : ‖uvec 𝕜 c s P k‖ ≤ basisNorm P k :=
  (sq_le_sq₀ (norm_nonneg _) (basisNorm_nonneg _ _)).mp (uvec_sq_le h k)

theorem pair_le (h : ∀ k, c k ^ 2 + s k ^ 2 = 1) (k : ℕ) : pn ‖wvec 𝕜 c s P k‖ ‖uvec 𝕜 c s P (k + 1)‖ ≤ basisNorm P (k + 1) := by
  unfold pn
  refine Real.sqrt_le_iff.mpr ⟨basisNorm_nonneg _ _, ?_⟩
  have h1 := sq_sum (𝕜 := 𝕜) (P := P) h k
  have h2 := uvec_sq_le (𝕜 := 𝕜) (P := P) h k
  rw [basisNorm_sq] at h2 ⊢
  rw [Finset.sum_range_succ]
  linarith

/-- A rotation with errors, applied to coefficients. -/
theorem rot_err (h : ∀ k, c k ^ 2 + s k ^ 2 = 1) {k : ℕ} {a b p q e : ℝ} (he : pn (p - (c k * a + s k * b)) (q - (-s k * a + c k * b)) ≤ e) :
    ‖((a : 𝕜) • uvec 𝕜 c s P k + (b : 𝕜) • P (k + 1)) - ((p : 𝕜) • wvec 𝕜 c s P k + (q : 𝕜) • uvec 𝕜 c s P (k + 1))‖ ≤ e * basisNorm P (k + 1) := by
  rw [combine h]
  have e1 : ∀ (x y : E) (a1 b1 a2 b2 : ℝ), ((a1 : 𝕜) • x + (b1 : 𝕜) • y) - ((a2 : 𝕜) • x + (b2 : 𝕜) • y) = -(((a2 - a1 : ℝ) : 𝕜) • x + ((b2 - b1 : ℝ) : 𝕜) • y) := by
    intro x y a1 b1 a2 b2
    push_cast
    simp only [sub_smul]
    abel
  rw [e1, norm_neg]
  refine (norm_add_le _ _).trans ?_
  rw [norm_smul, norm_smul, RCLike.norm_ofReal, RCLike.norm_ofReal]
  exact pn_cs.trans (mul_le_mul he (pair_le h k) (pn_nonneg _ _) ((pn_nonneg _ _).trans he))

/-- `x` shifted by one, starting with `0`. -/
def shift1 {α : Type*} (z : α) (f : ℕ → α) : ℕ → α
  | 0 => z
  | k + 1 => f k

/-- `x` shifted by two, starting with `0, 0`. -/
def shift2 {α : Type*} (z : α) (f : ℕ → α) : ℕ → α := shift1 z (shift1 z f)

/-- What is assumed about column `k` of the tridiagonal matrix `(t0 k, t1 k, t2 k)` and of the triangular matrix `(r0 k, r1 k, r2 k)`: three rotations with a
relative error of at most `g`. -/
structure Column (c s : ℕ → ℝ) (g : ℝ) (k : ℕ) (t0 t1 t2 r0 r1 r2 : ℝ) : Prop where
  col : ∃ m a : ℝ, (∀ j, k = j + 2 → pn (r0 - (c j * 0 + s j * t0)) (m - (-s j * 0 + c j * t0)) ≤ g * pn 0 t0) ∧ (k = 1 → m = t0) ∧
    (∀ j, k = j + 1 → pn (r1 - (c j * m + s j * t1)) (a - (-s j * m + c j * t1)) ≤ g * pn m t1) ∧ (k = 0 → a = t1) ∧
    pn (r2 - (c k * a + s k * t2)) (0 - (-s k * a + c k * t2)) ≤ g * pn a t2

/-- Column `k` of the tridiagonal matrix in the basis `P`. -/
noncomputable def tri (𝕜 : Type*) {E : Type*} [RCLike 𝕜] [NormedAddCommGroup E] [InnerProductSpace 𝕜 E] (P : ℕ → E) (k : ℕ) (t0 t1 t2 : ℝ) : E :=
  (t0 : 𝕜) • shift1 0 P k + (t1 : 𝕜) • P k + (t2 : 𝕜) • P (k + 1)

/-- Size of column `k`: for `k = 0` the entry `t0` is not in the matrix. -/
def colSize (k : ℕ) (t0 t1 t2 : ℝ) : ℝ := (if k = 0 then 0 else |t0|) + |t1| + |t2|

theorem pn_le_sum (a b : ℝ) : pn a b ≤ |a| + |b| := by
  refine Real.sqrt_le_iff.mpr ⟨by positivity, ?_⟩
  have := sq_abs a
  have := sq_abs b
  nlinarith [mul_nonneg (abs_nonneg a) (abs_nonneg b)]

/-- The size of the results of a rotation with errors. -/
theorem rot_size (h : ∀ k, c k ^ 2 + s k ^ 2 = 1) {k : ℕ} {a b p q g : ℝ} (he : pn (p - (c k * a + s k * b)) (q - (-s k * a + c k * b)) ≤ g * pn a b) :
    pn p q ≤ (1 + g) * pn a b := by
  have := pn_add (p - (c k * a + s k * b)) (q - (-s k * a + c k * b)) (c k * a + s k * b) (-s k * a + c k * b)
  rw [pn_rot (h k), sub_add_cancel, sub_add_cancel] at this
  linarith

/-- The columns of the triangular matrix are the coefficients with respect to the vectors `w`, up to errors. -/
theorem column_err (h : ∀ k, c k ^ 2 + s k ^ 2 = 1) {g : ℝ} (hg : 0 ≤ g) {k : ℕ} {t0 t1 t2 r0 r1 r2 : ℝ} (hc : Column c s g k t0 t1 t2 r0 r1 r2) :
    ‖tri 𝕜 P k t0 t1 t2 - ((r0 : 𝕜) • shift2 0 (wvec 𝕜 c s P) k + (r1 : 𝕜) • shift1 0 (wvec 𝕜 c s P) k + (r2 : 𝕜) • wvec 𝕜 c s P k)‖ ≤
      3 * g * (1 + g) ^ 2 * colSize k t0 t1 t2 * basisNorm P (k + 1) := by
  obtain ⟨m, a, h1, h2, h3, h4, h5⟩ := hc.col
  have hb : ∀ j ≤ k + 1, basisNorm P j ≤ basisNorm P (k + 1) := fun j hj => basisNorm_mono P hj
  have hb0 := basisNorm_nonneg P (k + 1)
  have e5 := rot_err (𝕜 := 𝕜) (P := P) h h5
  rw [RCLike.ofReal_zero, zero_smul, add_zero] at e5
  rcases k with _ | k
  · have ha := h4 rfl
    subst ha
    have hs : tri 𝕜 P 0 t0 a t2 - ((r0 : 𝕜) • shift2 0 (wvec 𝕜 c s P) 0 + (r1 : 𝕜) • shift1 0 (wvec 𝕜 c s P) 0 + (r2 : 𝕜) • wvec 𝕜 c s P 0) =
        (a : 𝕜) • uvec 𝕜 c s P 0 + (t2 : 𝕜) • P (0 + 1) - (r2 : 𝕜) • wvec 𝕜 c s P 0 := by
      simp [tri, shift1, shift2, uvec]
    rw [hs]
    refine e5.trans ?_
    have hp := pn_le_sum a t2
    have hp0 : 0 ≤ |a| + |t2| := by positivity
    have q1 : g * pn a t2 ≤ g * (|a| + |t2|) := mul_le_mul_of_nonneg_left hp hg
    have q2 : g * (|a| + |t2|) ≤ 3 * g * (1 + g) ^ 2 * (|a| + |t2|) := by
      refine mul_le_mul_of_nonneg_right ?_ hp0
      nlinarith [mul_nonneg hg hg, mul_nonneg hg (mul_nonneg hg hg)]
    have q3 : colSize 0 t0 a t2 = |a| + |t2| := by simp [colSize]
    rw [q3]
    exact mul_le_mul_of_nonneg_right (q1.trans q2) hb0
  · have e3 := rot_err (𝕜 := 𝕜) (P := P) h (h3 k rfl)
    have s3 := rot_size h (h3 k rfl)
    -- the vector of the first entry
    have e1 : ‖(t0 : 𝕜) • P k - ((r0 : 𝕜) • shift1 0 (wvec 𝕜 c s P) k + (m : 𝕜) • uvec 𝕜 c s P k)‖ ≤ g * |t0| * basisNorm P k ∧ |m| ≤ (1 + g) * |t0| := by
      rcases k with _ | j
      · rw [h2 rfl]
        simp only [shift1, uvec, smul_zero, zero_add, sub_self, norm_zero]
        exact ⟨by have := basisNorm_nonneg P 0; positivity, by nlinarith [abs_nonneg t0]⟩
      · have e := rot_err (𝕜 := 𝕜) (P := P) h (h1 j rfl)
        rw [RCLike.ofReal_zero, zero_smul, zero_add, pn_zero_left] at e
        refine ⟨e, ?_⟩
        have := rot_size h (h1 j rfl)
        rw [pn_zero_left] at this
        exact (abs_le_pn_right r0 m).trans this
    obtain ⟨e1, s1⟩ := e1
    have hsum : tri 𝕜 P (k + 1) t0 t1 t2 - ((r0 : 𝕜) • shift2 0 (wvec 𝕜 c s P) (k + 1) + (r1 : 𝕜) • shift1 0 (wvec 𝕜 c s P) (k + 1) + (r2 : 𝕜) • wvec 𝕜 c s P (k + 1)) =
        ((t0 : 𝕜) • P k - ((r0 : 𝕜) • shift1 0 (wvec 𝕜 c s P) k + (m : 𝕜) • uvec 𝕜 c s P k)) +
        ((m : 𝕜) • uvec 𝕜 c s P k + (t1 : 𝕜) • P (k + 1) - ((r1 : 𝕜) • wvec 𝕜 c s P k + (a : 𝕜) • uvec 𝕜 c s P (k + 1))) +
        ((a : 𝕜) • uvec 𝕜 c s P (k + 1) + (t2 : 𝕜) • P (k + 1 + 1) - (r2 : 𝕜) • wvec 𝕜 c s P (k + 1)) := by
      simp only [tri, shift2, shift1]
      abel
    rw [hsum]
    refine norm_add₃_le.trans ?_
    set S := |t0| + |t1| + |t2| with hS
    have hcs : colSize (k + 1) t0 t1 t2 = S := by simp [colSize, hS]
    rw [hcs]
    have g1 : 1 ≤ 1 + g := by linarith
    have hS0 : 0 ≤ S := by positivity
    have p1 : |t0| ≤ (1 + g) ^ 2 * S := by
      have : |t0| ≤ S := by rw [hS]; nlinarith [abs_nonneg t1, abs_nonneg t2]
      nlinarith [one_le_pow₀ (n := 2) g1]
    have p2' : pn m t1 ≤ (1 + g) * (|t0| + |t1|) := by
      refine (pn_le_sum m t1).trans ?_
      nlinarith [abs_nonneg t1]
    have p2 : pn m t1 ≤ (1 + g) ^ 2 * S := by
      have : (1 + g) * (|t0| + |t1|) ≤ (1 + g) * S := mul_le_mul_of_nonneg_left (by rw [hS]; nlinarith [abs_nonneg t2]) (by linarith)
      nlinarith [mul_nonneg hg (mul_nonneg (by linarith : 0 ≤ 1 + g) hS0)]
    have p3 : pn a t2 ≤ (1 + g) ^ 2 * S := by
      have q1 : |a| ≤ (1 + g) * pn m t1 := (abs_le_pn_right r1 a).trans s3
      have q2 : (1 + g) * pn m t1 ≤ (1 + g) * ((1 + g) * (|t0| + |t1|)) := mul_le_mul_of_nonneg_left p2' (by linarith)
      have q3 : |t2| ≤ (1 + g) ^ 2 * |t2| := le_mul_of_one_le_left (abs_nonneg _) (one_le_pow₀ g1)
      have := pn_le_sum a t2
      rw [hS]
      nlinarith
    have f1 : g * |t0| * basisNorm P k ≤ g * ((1 + g) ^ 2 * S) * basisNorm P (k + 1 + 1) :=
      mul_le_mul (mul_le_mul_of_nonneg_left p1 hg) (hb k (by omega)) (basisNorm_nonneg _ _) (by positivity)
    have f2 : g * pn m t1 * basisNorm P (k + 1) ≤ g * ((1 + g) ^ 2 * S) * basisNorm P (k + 1 + 1) :=
      mul_le_mul (mul_le_mul_of_nonneg_left p2 hg) (hb (k + 1) (by omega)) (basisNorm_nonneg _ _) (by positivity)
    have f3 : g * pn a t2 * basisNorm P (k + 1 + 1) ≤ g * ((1 + g) ^ 2 * S) * basisNorm P (k + 1 + 1) :=
      mul_le_mul_of_nonneg_right (mul_le_mul_of_nonneg_left p3 hg) hb0
    have : 3 * g * (1 + g) ^ 2 * S * basisNorm P (k + 1 + 1) = 3 * (g * ((1 + g) ^ 2 * S) * basisNorm P (k + 1 + 1)) := by ring
    rw [this]
    linarith

/-- Bound for the errors which the three-term recurrence `r2 z = v - r0 z'' - r1 z'` propagates; `loc` are the local errors. -/
noncomputable def grow (R : ℕ → ℝ × ℝ × ℝ) (loc : ℕ → ℝ) : ℕ → ℝ
  | 0 => 0
  | 1 => 0
  | k + 2 => (|(R k).1| * grow R loc k + |(R k).2.1| * grow R loc (k + 1) + loc k) / |(R k).2.2|

theorem grow_bound {R : ℕ → ℝ × ℝ × ℝ} {loc : ℕ → ℝ} {D : ℕ → E} {n : ℕ} (h0 : ∀ k < n, (R k).2.2 ≠ 0)
    (h : ∀ k < n, ‖((R k).1 : 𝕜) • shift2 0 D k + ((R k).2.1 : 𝕜) • shift1 0 D k + ((R k).2.2 : 𝕜) • D k‖ ≤ loc k) :
    ∀ k ≤ n + 1, ‖shift2 0 D k‖ ≤ grow R loc k := by
  intro k
  induction k using Nat.strong_induction_on with
  | _ k ih =>
    rcases k with _ | _ | k
    · intro _; simp [shift2, shift1, grow]
    · intro _; simp [shift2, shift1, grow]
    · intro hk
      have i0 := ih k (by omega) (by omega)
      have i1 := ih (k + 1) (by omega) (by omega)
      have hr := h0 k (by omega)
      have hl := h k (by omega)
      change ‖D k‖ ≤ _
      rw [grow, le_div_iff₀ (abs_pos.mpr hr)]
      have e1 : ((R k).2.2 : 𝕜) • D k = (((R k).1 : 𝕜) • shift2 0 D k + ((R k).2.1 : 𝕜) • shift1 0 D k + ((R k).2.2 : 𝕜) • D k) -
          ((R k).1 : 𝕜) • shift2 0 D k - ((R k).2.1 : 𝕜) • shift1 0 D k := by abel
      have e2 : ‖D k‖ * |(R k).2.2| = ‖((R k).2.2 : 𝕜) • D k‖ := by rw [norm_smul, RCLike.norm_ofReal, mul_comm]
      rw [e2, e1]
      refine (norm_sub_le _ _).trans ((add_le_add_left (norm_sub_le _ _) _).trans ?_)
      rw [norm_smul, norm_smul, RCLike.norm_ofReal, RCLike.norm_ofReal]
      have m0 := mul_le_mul_of_nonneg_left i0 (abs_nonneg (R k).1)
      have m1 := mul_le_mul_of_nonneg_left (show ‖shift1 0 D k‖ ≤ grow R loc (k + 1) from i1) (abs_nonneg (R k).2.1)
      linarith

/-- The residual: `η k` is the first entry of `y` at the beginning of iteration `k`, `y k` the number with which `z k` is multiplied. -/
theorem residual (h : ∀ k, c k ^ 2 + s k ^ 2 = 1) {g : ℝ} (hg : 0 ≤ g) {η y : ℕ → ℝ} {Z : ℕ → E} {B : E →L[𝕜] E} {D : ℕ → ℝ} {n : ℕ}
    (hy : ∀ k < n, pn (y k - (c k * η k + s k * 0)) (η (k + 1) - (-s k * η k + c k * 0)) ≤ g * pn (η k) 0)
    (hD : ∀ k < n, ‖B (Z k) - wvec 𝕜 c s P k‖ ≤ D k) :
    ‖(η 0 : 𝕜) • P 0 - B (∑ k ∈ Finset.range n, (y k : 𝕜) • Z k)‖ ≤
      |η n| * basisNorm P n + ((1 + g) ^ n - 1) * |η 0| * basisNorm P n + ∑ k ∈ Finset.range n, |y k| * D k := by
  have hsize : ∀ k ≤ n, |η k| ≤ (1 + g) ^ k * |η 0| := by
    intro k
    induction k with
    | zero => intro _; simp
    | succ k ih =>
      intro hk
      have h1 := rot_size h (hy k (by omega))
      rw [pn_zero_right] at h1
      have h2 := (abs_le_pn_right (y k) (η (k + 1))).trans h1
      have h3 := mul_le_mul_of_nonneg_left (ih (by omega)) (show 0 ≤ 1 + g by linarith)
      rw [pow_succ']
      linarith
  have main : ∀ m ≤ n, ‖(η 0 : 𝕜) • P 0 - B (∑ k ∈ Finset.range m, (y k : 𝕜) • Z k) - (η m : 𝕜) • uvec 𝕜 c s P m‖ ≤
      ((1 + g) ^ m - 1) * |η 0| * basisNorm P m + ∑ k ∈ Finset.range m, |y k| * D k := by
    intro m
    induction m with
    | zero => intro _; simp [uvec]
    | succ m ih =>
      intro hm
      have i := ih (by omega)
      have e := rot_err (𝕜 := 𝕜) (P := P) h (hy m (by omega))
      rw [RCLike.ofReal_zero, zero_smul, add_zero, pn_zero_right] at e
      have hd := hD m (by omega)
      have key : (η 0 : 𝕜) • P 0 - B (∑ k ∈ Finset.range (m + 1), (y k : 𝕜) • Z k) - (η (m + 1) : 𝕜) • uvec 𝕜 c s P (m + 1) =
          ((η 0 : 𝕜) • P 0 - B (∑ k ∈ Finset.range m, (y k : 𝕜) • Z k) - (η m : 𝕜) • uvec 𝕜 c s P m) +
          ((η m : 𝕜) • uvec 𝕜 c s P m - ((y m : 𝕜) • wvec 𝕜 c s P m + (η (m + 1) : 𝕜) • uvec 𝕜 c s P (m + 1))) -
          (y m : 𝕜) • (B (Z m) - wvec 𝕜 c s P m) := by
        rw [Finset.sum_range_succ, map_add, map_smul, smul_sub]
        abel
      rw [key]
      refine (norm_sub_le _ _).trans ((add_le_add_left (norm_add_le _ _) _).trans ?_)
      rw [norm_smul, RCLike.norm_ofReal, Finset.sum_range_succ]
      have q1 := mul_le_mul_of_nonneg_left hd (abs_nonneg (y m))
      have q2 := hsize m (by omega)
      have b0 := basisNorm_nonneg P (m + 1)
      have b1 := basisNorm_mono P (show m ≤ m + 1 by omega)
      have q3 : ((1 + g) ^ m - 1) * |η 0| * basisNorm P m ≤ ((1 + g) ^ m - 1) * |η 0| * basisNorm P (m + 1) := by
        refine mul_le_mul_of_nonneg_left b1 (mul_nonneg ?_ (abs_nonneg _))
        have := one_le_pow₀ (n := m) (show 1 ≤ 1 + g by linarith)
        linarith
      have q4 : g * |η m| * basisNorm P (m + 1) ≤ g * ((1 + g) ^ m * |η 0|) * basisNorm P (m + 1) :=
        mul_le_mul_of_nonneg_right (mul_le_mul_of_nonneg_left q2 hg) b0
      have q5 : ((1 + g) ^ (m + 1) - 1) * |η 0| * basisNorm P (m + 1) =
          ((1 + g) ^ m - 1) * |η 0| * basisNorm P (m + 1) + g * ((1 + g) ^ m * |η 0|) * basisNorm P (m + 1) := by ring
      rw [q5]
      linarith
  have hm := main n le_rfl
  have hu : ‖(η n : 𝕜) • uvec 𝕜 c s P n‖ ≤ |η n| * basisNorm P n := by
    rw [norm_smul, RCLike.norm_ofReal]
    exact mul_le_mul_of_nonneg_left (uvec_le h n) (abs_nonneg _)
  have := norm_le_norm_add_norm_sub' ((η 0 : 𝕜) • P 0 - B (∑ k ∈ Finset.range n, (y k : 𝕜) • Z k)) ((η n : 𝕜) • uvec 𝕜 c s P n)
  linarith

end MinresErr
end Krypy
