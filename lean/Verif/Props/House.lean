import Verif.Model.House
import Mathlib.Analysis.Complex.Basic
import Mathlib.Algebra.BigOperators.Fin
import Mathlib.Algebra.BigOperators.Field
import Mathlib.Tactic.Linarith
import Mathlib.Tactic.Ring
import Mathlib.Tactic.LinearCombination
import Mathlib.Tactic.NormNum
import Mathlib.Tactic.FieldSimp
import Mathlib.Tactic.Positivity

/-! # Property C09: Householder transformations -/

namespace Krypy
variable {𝕜 : Type*} [RCLike 𝕜] {n : ℕ}
open scoped ComplexConjugate
open RCLike Matrix

/-- Euclidean inner product `x^* y`. -/
def edot {m : ℕ} (x y : Fin m → 𝕜) : 𝕜 := ∑ i, conj (x i) * y i

/-- Squared Euclidean norm. -/
noncomputable def enormSq {m : ℕ} (x : Fin m → 𝕜) : ℝ := ∑ i, ‖x i‖ ^ 2

theorem edot_self {m : ℕ} (x : Fin m → 𝕜) : edot x x = ((enormSq x : ℝ) : 𝕜) := by
  unfold edot enormSq; push_cast
  exact Finset.sum_congr rfl fun i _ => RCLike.conj_mul _

theorem edot_conj {m : ℕ} (x y : Fin m → 𝕜) : conj (edot x y) = edot y x := by
  unfold edot; rw [map_sum]
  exact Finset.sum_congr rfl fun i _ => by simp [mul_comm]

theorem enormSq_nonneg {m : ℕ} (x : Fin m → 𝕜) : 0 ≤ enormSq x :=
  Finset.sum_nonneg fun i _ => by positivity

theorem enormSq_succ (x : Fin (n + 1) → 𝕜) : enormSq x = ‖x 0‖ ^ 2 + tailNorm x ^ 2 := by
  unfold enormSq tailNorm
  rw [Real.sq_sqrt (Finset.sum_nonneg fun i _ => by positivity), Fin.sum_univ_succ]

/-- Reflection with a unit vector. -/
noncomputable def reflect {m : ℕ} (v x : Fin m → 𝕜) : Fin m → 𝕜 := fun i => x i - 2 * v i * edot v x

theorem edot_reflect_right {m : ℕ} (v x y : Fin m → 𝕜) :
    edot y (reflect v x) = edot y x - 2 * edot y v * edot v x := by
  unfold reflect
  rw [edot]
  simp only [mul_sub, Finset.sum_sub_distrib]
  congr 1
  rw [show edot y v = ∑ i, conj (y i) * v i from rfl, Finset.mul_sum, Finset.sum_mul]
  exact Finset.sum_congr rfl fun i _ => by ring

theorem reflect_reflect {m : ℕ} {v : Fin m → 𝕜} (hv : enormSq v = 1) (x : Fin m → 𝕜) :
    reflect v (reflect v x) = x := by
  have h1 : edot v v = 1 := by rw [edot_self, hv]; simp
  funext i
  have h2 := edot_reflect_right v x v
  rw [h1] at h2
  simp only [reflect] at h2 ⊢
  change _ - 2 * v i * edot v (reflect v x) = _
  rw [edot_reflect_right, h1]
  ring

theorem reflect_isometry {m : ℕ} {v : Fin m → 𝕜} (hv : enormSq v = 1) (x y : Fin m → 𝕜) :
    edot (reflect v x) (reflect v y) = edot x y := by
  have h1 : edot v v = 1 := by rw [edot_self, hv]; simp
  rw [edot_reflect_right]
  have h2 : ∀ z, edot (reflect v x) z = edot x z - 2 * edot x v * edot v z := by
    intro z
    rw [← edot_conj, edot_reflect_right, map_sub, map_mul, map_mul, edot_conj, edot_conj, edot_conj]
    have : conj (2 : 𝕜) = 2 := map_ofNat _ 2
    rw [this]
    ring
  rw [h2, h2, h1]
  ring

/-- Reflecting `x` with the normalised vector `(x - w)/t`, where `‖x‖ = ‖w‖`, `⟨w,x⟩` is real and
`t = ‖x - w‖`, gives `w`. -/
theorem reflect_eq {m : ℕ} {x w v : Fin m → 𝕜} {t : ℝ} (ht : 0 < t)
    (hv : ∀ i, v i = (x i - w i) / (t : 𝕜)) (hn : enormSq x = enormSq w)
    (hr : im (edot w x) = 0) (hu : enormSq v = 1) : reflect v x = w := by
  have htk : (t : 𝕜) ≠ 0 := by exact_mod_cast ht.ne'
  have hwx : edot x w = edot w x := by
    rw [← edot_conj]; exact RCLike.conj_eq_iff_im.mpr hr
  have h1 : edot v x = (edot x x - edot w x) / (t : 𝕜) := by
    unfold edot
    rw [← Finset.sum_sub_distrib, Finset.sum_div]
    refine Finset.sum_congr rfl fun i _ => ?_
    rw [hv, map_div₀, map_sub, conj_ofReal]
    ring
  have h2 : (t : 𝕜) ^ 2 = 2 * (edot x x - edot w x) := by
    have e : edot v v = ((edot x x - edot w x) - (edot x w - edot w w)) / (t : 𝕜) ^ 2 := by
      unfold edot
      rw [← Finset.sum_sub_distrib, ← Finset.sum_sub_distrib, ← Finset.sum_sub_distrib,
        Finset.sum_div]
      refine Finset.sum_congr rfl fun i _ => ?_
      rw [hv, map_div₀, map_sub, conj_ofReal]
      field_simp
    rw [edot_self v, hu, hwx, edot_self w, ← hn, ← edot_self x] at e
    rw [eq_div_iff (pow_ne_zero 2 htk)] at e
    simp at e
    rw [e]; ring
  funext i
  unfold reflect
  rw [h1, hv]
  field_simp
  rw [h2]
  ring

/-- What all three branches of the constructor establish. -/
structure HouseOK (h : House 𝕜 n) (x : Fin (n + 1) → 𝕜) : Prop where
  xnorm : h.xnorm = Real.sqrt (enormSq x)
  unit : enormSq h.v = 1
  alpha : ‖h.alpha‖ = 1
  beta : h.beta = 0 ∨ h.beta = 2
  maps : h.apply x = fun i => if i = 0 then h.alpha * (h.xnorm : 𝕜) else 0

theorem apply_beta_two (h : House 𝕜 n) (hb : h.beta = 2) (x : Fin (n + 1) → 𝕜) :
    h.apply x = reflect h.v x := by
  unfold House.apply reflect edot
  rw [if_neg (by rw [hb]; norm_num), hb]
  push_cast
  rfl

theorem signOf_norm {g : 𝕜} (hg : g ≠ 0) : ‖g / ((‖g‖ : ℝ) : 𝕜)‖ = 1 := by
  rw [norm_div, norm_ofReal, abs_of_nonneg (norm_nonneg g), div_self (norm_ne_zero_iff.mpr hg)]

theorem enormSq_scaled {v : Fin (n + 1) → 𝕜} {s : ℝ} (hs : tailNorm v ^ 2 = s ^ 2)
    (hp : 0 < ‖v 0‖ ^ 2 + s ^ 2) :
    enormSq (fun i => v i / ((Real.sqrt (‖v 0‖ ^ 2 + s ^ 2) : ℝ) : 𝕜)) = 1 := by
  unfold enormSq
  have : ∀ i, ‖v i / ((Real.sqrt (‖v 0‖ ^ 2 + s ^ 2) : ℝ) : 𝕜)‖ ^ 2
      = ‖v i‖ ^ 2 / (‖v 0‖ ^ 2 + s ^ 2) := by
    intro i
    rw [norm_div, div_pow, norm_ofReal, sq_abs, Real.sq_sqrt hp.le]
  simp only [this]
  rw [← Finset.sum_div]
  have h2 := enormSq_succ v
  unfold enormSq at h2
  rw [h2, hs, div_self hp.ne']

theorem tailNorm_update (x : Fin (n + 1) → 𝕜) (a : 𝕜) :
    tailNorm (Function.update x 0 a) = tailNorm x := by
  unfold tailNorm
  congr 1

theorem tailNorm_zero (x : Fin (n + 1) → 𝕜) (h : n = 0 ∨ tailNorm x = 0) :
    tailNorm x = 0 ∧ ∀ i, i ≠ 0 → x i = 0 := by
  rcases h with h | h
  · subst h
    refine ⟨by simp [tailNorm], fun i hi => absurd (Fin.ext (by omega)) hi⟩
  · refine ⟨h, fun i hi => ?_⟩
    unfold tailNorm at h
    rw [Real.sqrt_eq_zero (Finset.sum_nonneg fun i _ => by positivity)] at h
    rw [Finset.sum_eq_zero_iff_of_nonneg (fun i _ => by positivity)] at h
    obtain ⟨j, rfl⟩ := Fin.exists_succ_eq_of_ne_zero hi
    simpa using h j (Finset.mem_univ j)

theorem mkHouse_ok (x : Fin (n + 1) → 𝕜) : HouseOK (mkHouse x) x := by
  unfold mkHouse
  simp only
  set sigma : ℝ := if n = 0 then 0 else tailNorm x with hsig
  have hsig' : sigma = tailNorm x := by
    rw [hsig]; split
    · next h => exact (tailNorm_zero x (.inl h)).1.symm
    · rfl
  have hxs := enormSq_succ x
  rw [← hsig'] at hxs
  have htail : ∀ a : 𝕜, tailNorm (Function.update x 0 a) ^ 2 = sigma ^ 2 := by
    intro a; rw [tailNorm_update, hsig']
  by_cases hc : n = 0 ∨ sigma = 0
  · rw [if_pos hc]
    obtain ⟨hs0, hz⟩ := tailNorm_zero x (by rw [hsig'] at hc; exact hc)
    have hs : sigma = 0 := by rw [hsig', hs0]
    constructor
    · simp only
      rw [hxs, hs]
      simp
    · have := enormSq_scaled (s := sigma) (htail 1) (by simp; positivity)
      exact this
    · simp only
      split
      · simp
      · next hg => exact signOf_norm hg
    · exact .inl rfl
    · simp only [House.apply, if_true]
      funext i
      by_cases hi : i = 0
      · subst hi
        rw [if_pos rfl]
        split
        · next hg => simp [hg]
        · next hg =>
          rw [div_mul_cancel₀]
          simpa using hg
      · rw [if_neg hi, hz i hi]
  · rw [if_neg hc]
    push Not at hc
    have hspos : 0 < sigma := lt_of_le_of_ne (by rw [hsig']; exact Real.sqrt_nonneg _) (Ne.symm hc.2)
    -- shared argument for the two remaining branches
    have key : ∀ (al v0 : 𝕜), ‖al‖ = 1 →
        v0 = x 0 - al * ((Real.sqrt (‖x 0‖ ^ 2 + sigma ^ 2) : ℝ) : 𝕜) →
        im (conj al * x 0) = 0 →
        HouseOK { xnorm := Real.sqrt (‖x 0‖ ^ 2 + sigma ^ 2), alpha := al, beta := 2,
                  v := fun i => Function.update x 0 v0 i /
                    ((Real.sqrt (‖Function.update x 0 v0 0‖ ^ 2 + sigma ^ 2) : ℝ) : 𝕜) } x := by
      intro al v0 hal hv0 him
      have hp : 0 < ‖Function.update x 0 v0 0‖ ^ 2 + sigma ^ 2 := by positivity
      have hunit := enormSq_scaled (s := sigma) (htail v0) hp
      refine ⟨by rw [hxs], hunit, hal, .inr rfl, ?_⟩
      rw [apply_beta_two _ rfl]
      refine reflect_eq (t := Real.sqrt (‖Function.update x 0 v0 0‖ ^ 2 + sigma ^ 2))
        (Real.sqrt_pos.mpr hp) ?_ ?_ ?_ hunit
      · intro i
        by_cases hi : i = 0
        · subst hi; simp [hv0]
        · simp [hi]
      · rw [hxs]
        unfold enormSq
        rw [Finset.sum_eq_single 0]
        · simp only [if_true, norm_mul, hal, one_mul, norm_ofReal, sq_abs]
          rw [Real.sq_sqrt (by positivity)]
        · intro i _ hi; simp [hi]
        · simp
      · unfold edot
        rw [Finset.sum_eq_single 0]
        · simp only [if_true, map_mul, conj_ofReal]
          rw [mul_right_comm, mul_comm, RCLike.im_ofReal_mul, him, mul_zero]
        · intro i _ hi; simp [hi]
        · simp
    split
    · next hg =>
      refine key 1 _ (by simp) ?_ (by simp [hg])
      rw [hg]
      simp [Real.sqrt_sq hspos.le]
    · next hg =>
      refine key _ _ (by rw [norm_neg]; exact signOf_norm hg) (by ring) ?_
      rw [map_neg, map_div₀, conj_ofReal]
      have : -(conj (x 0) / ((‖x 0‖ : ℝ) : 𝕜)) * x 0 = ((-‖x 0‖ : ℝ) : 𝕜) := by
        have hne : ((‖x 0‖ : ℝ) : 𝕜) ≠ 0 := by simpa using hg
        have := RCLike.conj_mul (x 0)
        push_cast
        field_simp
        linear_combination -this
      rw [this, ofReal_im]

/-- C09: for every vector `x` of every dimension `≥ 1`: `xnorm = ‖x‖`, `|alpha| = 1` and
`apply(x) = alpha ‖x‖ e₁`. -/
theorem C09_maps (x : Fin (n + 1) → 𝕜) :
    (mkHouse x).xnorm = Real.sqrt (∑ i, ‖x i‖ ^ 2) ∧ ‖(mkHouse x).alpha‖ = 1 ∧
    ∀ i, (mkHouse x).apply x i = if i = 0 then (mkHouse x).alpha * ((mkHouse x).xnorm : 𝕜) else 0 := by
  have h := mkHouse_ok x
  exact ⟨h.xnorm, h.alpha, fun i => congrFun h.maps i⟩

/-- C09: `apply` is an involution and preserves inner products. -/
theorem C09_unitary (x y z : Fin (n + 1) → 𝕜) :
    (mkHouse x).apply ((mkHouse x).apply y) = y ∧
    ∑ i, conj ((mkHouse x).apply y i) * (mkHouse x).apply z i = ∑ i, conj (y i) * z i := by
  have h := mkHouse_ok x
  rcases h.beta with hb | hb
  · simp [House.apply, hb]
  · rw [apply_beta_two _ hb, apply_beta_two _ hb, apply_beta_two _ hb]
    exact ⟨reflect_reflect h.unit y, reflect_isometry h.unit y z⟩

/-- C09: `apply` is multiplication by `matrix()`, which is Hermitian and unitary. -/
theorem C09_matrix (x y : Fin (n + 1) → 𝕜) :
    (mkHouse x).apply y = (mkHouse x).matrix *ᵥ y ∧
    (mkHouse x).matrixᴴ = (mkHouse x).matrix ∧
    (mkHouse x).matrix * (mkHouse x).matrix = 1 := by
  have key : ∀ y, (mkHouse x).apply y = (mkHouse x).matrix *ᵥ y := by
    intro y
    funext i
    unfold House.apply House.matrix
    rw [Matrix.sub_mulVec, Matrix.one_mulVec, Matrix.smul_mulVec]
    have e : (Matrix.of fun i j => (mkHouse x).v i * conj ((mkHouse x).v j)) *ᵥ y =
        fun i => (mkHouse x).v i * ∑ j, conj ((mkHouse x).v j) * y j := by
      funext i
      simp only [Matrix.mulVec, dotProduct, Matrix.of_apply, Finset.mul_sum]
      exact Finset.sum_congr rfl fun j _ => by ring
    rw [e]
    split
    · next hb => simp [hb]
    · simp only [Pi.sub_apply, Pi.smul_apply, smul_eq_mul]; ring
  refine ⟨key y, ?_, ?_⟩
  · unfold House.matrix
    rw [Matrix.conjTranspose_sub, Matrix.conjTranspose_smul, Matrix.conjTranspose_one]
    congr 1
    ext i j
    simp [Matrix.conjTranspose_apply, mul_comm]
  · apply Matrix.ext_of_mulVec_single
    intro j
    rw [← Matrix.mulVec_mulVec, ← key, ← key, (C09_unitary x _ 0).1, Matrix.one_mulVec]

/-- Test: the 3-4-5 triangle gives `alpha = -1`, norm 5. -/
example : (mkHouse (n := 1) ![(3 : ℝ), 4]).xnorm = 5 := by
  rw [(C09_maps _).1]
  rw [show (∑ i : Fin 2, ‖![(3 : ℝ), 4] i‖ ^ 2) = 5 ^ 2 by simp [Fin.sum_univ_two]; norm_num]
  exact Real.sqrt_sq (by norm_num)

end Krypy
