import Verif.Model.FlHouse
import Verif.Proofs.ArnoldiHouse
import Verif.Props.FlQr

/-!
# Property C85: Householder transformations and `Arnoldi(ortho="house")` with rounding errors
-/

set_option linter.unusedSectionVars false

namespace Krypy
open scoped ComplexConjugate
open RCLike Finset

section
variable {𝕜 : Type*} [RCLike 𝕜] {F K : Type*} {n N : ℕ}

/-- Operations with errors.  `num` and `val` are the numbers represented by floats, `fin` and `finF` say that they are finite.  All operations have
relative errors of at most `u`; the errors of inner products are relative to the norms of the arguments. -/
structure FlHouseAcc (o : FlHouseOps F K) (num : K → 𝕜) (fin : K → Prop) (val : F → ℝ) (finF : F → Prop) (u : ℝ) : Prop where
  zero : num o.zero = 0
  one : num o.one = 1
  two : num o.two = 2
  neg : ∀ {a}, fin (o.neg a) → fin a ∧ num (o.neg a) = -num a
  cj : ∀ {a}, fin (o.cj a) → fin a ∧ num (o.cj a) = conj (num a)
  ofReal : ∀ {r}, fin (o.ofReal r) → finF r ∧ num (o.ofReal r) = (val r : 𝕜)
  add : ∀ {a b}, fin (o.add a b) → fin a ∧ fin b ∧ ‖num (o.add a b) - (num a + num b)‖ ≤ u * ‖num a + num b‖
  sub : ∀ {a b}, fin (o.sub a b) → fin a ∧ fin b ∧ ‖num (o.sub a b) - (num a - num b)‖ ≤ u * ‖num a - num b‖
  mul : ∀ {a b}, fin (o.mul a b) → fin a ∧ fin b ∧ ‖num (o.mul a b) - num a * num b‖ ≤ u * ‖num a * num b‖
  div : ∀ {a r}, fin (o.div a r) → finF r → fin a ∧ val r ≠ 0 ∧ ‖(val r : 𝕜) * num (o.div a r) - num a‖ ≤ u * ‖num a‖
  abs : ∀ {a}, finF (o.abs a) → fin a ∧ |val (o.abs a) - ‖num a‖| ≤ u * ‖num a‖
  hyp : ∀ {r s}, finF (o.hyp r s) → finF r ∧ finF s ∧ |val (o.hyp r s) - √(val r ^ 2 + val s ^ 2)| ≤ u * √(val r ^ 2 + val s ^ 2)
  norm : ∀ {m x}, finF (o.norm m x) → (∀ i, fin (x i)) ∧ |val (o.norm m x) - vecNorm fun i => num (x i)| ≤ u * vecNorm fun i => num (x i)
  dot : ∀ {m x y}, fin (o.dot m x y) → ‖num (o.dot m x y) - edot (fun i => num (x i)) fun i => num (y i)‖ ≤
    u * ((vecNorm fun i => num (x i)) * vecNorm fun i => num (y i))
  isZero : ∀ {a}, fin a → (o.isZero a = true ↔ num a = 0)
  isZeroF : ∀ {r}, finF r → (o.isZeroF r = true ↔ val r = 0)
  pos : ∀ {r}, finF r → (o.pos r = true ↔ 0 < val r)

/-! ## Calculus of relative errors -/

/-- `a` is `b` up to a relative error of `e`. -/
def Rel (e : ℝ) (a b : 𝕜) : Prop := ‖a - b‖ ≤ e * ‖b‖

theorem Rel.refl' {e : ℝ} (he : 0 ≤ e) (a : 𝕜) : Rel e a a := by
  unfold Rel; rw [sub_self, norm_zero]; positivity

theorem Rel.mono {e f : ℝ} {a b : 𝕜} (h : Rel e a b) (hef : e ≤ f) : Rel f a b :=
  h.trans (mul_le_mul_of_nonneg_right hef (norm_nonneg _))

theorem Rel.norm_le {e : ℝ} {a b : 𝕜} (h : Rel e a b) : ‖a‖ ≤ (1 + e) * ‖b‖ := by
  have := norm_sub_norm_le a b
  unfold Rel at h
  linarith

theorem Rel.le_norm {e : ℝ} {a b : 𝕜} (h : Rel e a b) : (1 - e) * ‖b‖ ≤ ‖a‖ := by
  have := norm_sub_norm_le b a
  rw [norm_sub_rev] at this
  unfold Rel at h
  linarith

theorem Rel.trans {e f g : ℝ} {a b c : 𝕜} (h : Rel e a b) (h' : Rel f b c) (he : 0 ≤ e) (hg : e + f + e * f ≤ g) : Rel g a c := by
  refine Rel.mono (e := e + f + e * f) ?_ hg
  have h1 := h'.norm_le
  unfold Rel at h h' ⊢
  calc ‖a - c‖ = ‖(a - b) + (b - c)‖ := by ring_nf
    _ ≤ ‖a - b‖ + ‖b - c‖ := norm_add_le _ _
    _ ≤ e * ((1 + f) * ‖c‖) + f * ‖c‖ := by gcongr; exact h.trans (by gcongr)
    _ = _ := by ring

theorem Rel.mul {e f g : ℝ} {a b c d : 𝕜} (h : Rel e a b) (h' : Rel f c d) (he : 0 ≤ e) (hg : e + f + e * f ≤ g) : Rel g (a * c) (b * d) := by
  refine Rel.mono (e := e + f + e * f) ?_ hg
  have h1 := h'.norm_le
  unfold Rel at h h' ⊢
  rw [norm_mul]
  calc ‖a * c - b * d‖ = ‖(a - b) * c + b * (c - d)‖ := by ring_nf
    _ ≤ ‖a - b‖ * ‖c‖ + ‖b‖ * ‖c - d‖ := (norm_add_le _ _).trans (by rw [norm_mul, norm_mul])
    _ ≤ e * ‖b‖ * ((1 + f) * ‖d‖) + ‖b‖ * (f * ‖d‖) := by gcongr
    _ = _ := by ring

theorem Rel.neg {e : ℝ} {a b : 𝕜} (h : Rel e a b) : Rel e (-a) (-b) := by
  unfold Rel at *
  rwa [neg_sub_neg, norm_sub_rev, norm_neg]

/-- Division by an inaccurate divisor. -/
theorem Rel.div {u f g r s : ℝ} {q a : 𝕜} (hf : 0 ≤ f) (hf1 : f < 1) (hs : 0 < s) (hr : |r - s| ≤ f * s)
    (hq : ‖(r : 𝕜) * q - a‖ ≤ u * ‖a‖) (hg : u + f ≤ g * (1 - f)) : Rel g q (a / (s : 𝕜)) := by
  have hr1 : (1 - f) * s ≤ r := by have := (abs_le.mp hr).1; linarith
  have hr0 : 0 < r := lt_of_lt_of_le (by have : 0 < 1 - f := by linarith
                                         positivity) hr1
  have hqn : r * ‖q‖ ≤ (1 + u) * ‖a‖ := by
    have h1 : ‖(r : 𝕜) * q‖ ≤ (1 + u) * ‖a‖ := Rel.norm_le hq
    rwa [norm_mul, norm_ofReal, abs_of_pos hr0] at h1
  have h2 : s * ‖q - a / (s : 𝕜)‖ ≤ u * ‖a‖ + f * s * ‖q‖ := by
    have e : (s : 𝕜) * (q - a / (s : 𝕜)) = ((r : 𝕜) * q - a) + ((s - r : ℝ) : 𝕜) * q := by
      have hs' : (s : 𝕜) ≠ 0 := by exact_mod_cast hs.ne'
      push_cast
      field_simp
      ring
    calc s * ‖q - a / (s : 𝕜)‖ = ‖(s : 𝕜) * (q - a / (s : 𝕜))‖ := by rw [norm_mul, norm_ofReal, abs_of_pos hs]
      _ ≤ ‖(r : 𝕜) * q - a‖ + |s - r| * ‖q‖ := by rw [e]; exact (norm_add_le _ _).trans (by rw [norm_mul, norm_ofReal])
      _ ≤ _ := by rw [abs_sub_comm]; gcongr
  unfold Rel
  rw [norm_div, norm_ofReal, abs_of_pos hs]
  have h3 : (1 - f) * (s * ‖q‖) ≤ (1 + u) * ‖a‖ := le_trans (by have := mul_le_mul_of_nonneg_right hr1 (norm_nonneg q); linarith) hqn
  have h4 : s * ‖q - a / (s : 𝕜)‖ ≤ g * ‖a‖ := by
    have h5 : (1 - f) * (s * ‖q - a / (s : 𝕜)‖) ≤ (1 - f) * (g * ‖a‖) := by
      calc (1 - f) * (s * ‖q - a / (s : 𝕜)‖) ≤ (1 - f) * (u * ‖a‖ + f * s * ‖q‖) := by
            apply mul_le_mul_of_nonneg_left h2; linarith
        _ = (1 - f) * u * ‖a‖ + f * ((1 - f) * (s * ‖q‖)) := by ring
        _ ≤ (1 - f) * u * ‖a‖ + f * ((1 + u) * ‖a‖) := by gcongr
        _ = (u + f) * ‖a‖ := by ring
        _ ≤ g * (1 - f) * ‖a‖ := by gcongr
        _ = _ := by ring
    exact le_of_mul_le_mul_left h5 (by linarith)
  rw [← mul_div_assoc, le_div_iff₀ hs]
  linarith

theorem hyp_near {a b c d f : ℝ} (hc : 0 ≤ c) (hd : 0 ≤ d) (hf : 0 ≤ f) (hf1 : f ≤ 1) (h1 : |a - c| ≤ f * c) (h2 : |b - d| ≤ f * d) :
    |√(a ^ 2 + b ^ 2) - √(c ^ 2 + d ^ 2)| ≤ f * √(c ^ 2 + d ^ 2) := by
  have hs : ∀ t : ℝ, 0 ≤ t → √((t * c) ^ 2 + (t * d) ^ 2) = t * √(c ^ 2 + d ^ 2) := by
    intro t ht
    rw [show (t * c) ^ 2 + (t * d) ^ 2 = t ^ 2 * (c ^ 2 + d ^ 2) by ring, Real.sqrt_mul (by positivity), Real.sqrt_sq ht]
  obtain ⟨h1a, h1b⟩ := abs_le.mp h1
  obtain ⟨h2a, h2b⟩ := abs_le.mp h2
  have e : 0 ≤ 1 - f := by linarith
  have hlo : (1 - f) * √(c ^ 2 + d ^ 2) ≤ √(a ^ 2 + b ^ 2) := by
    rw [← hs _ e]
    apply Real.sqrt_le_sqrt
    have := mul_nonneg e hc
    have := mul_nonneg e hd
    gcongr <;> linarith
  have hhi : √(a ^ 2 + b ^ 2) ≤ (1 + f) * √(c ^ 2 + d ^ 2) := by
    rw [← hs _ (by linarith)]
    apply Real.sqrt_le_sqrt
    have := mul_nonneg e hc
    have := mul_nonneg e hd
    have ha : 0 ≤ a := by linarith
    have hb : 0 ≤ b := by linarith
    gcongr <;> linarith
  rw [abs_le]
  constructor <;> linarith

/-! ## The exact transformation by cases -/

theorem mkHouse_flat {x : Fin (n + 1) → 𝕜} (h : n = 0 ∨ tailNorm x = 0) :
    (mkHouse x).beta = 0 ∧ (mkHouse x).xnorm = ‖x 0‖ ∧ (mkHouse x).alpha = if x 0 = 0 then 1 else x 0 / ((‖x 0‖ : ℝ) : 𝕜) := by
  have h0 := (tailNorm_zero x h).1
  unfold mkHouse
  simp [h0]

/-- The vector from which the reflection is computed. -/
noncomputable def reflVec (x : Fin (n + 1) → 𝕜) (w0 : 𝕜) : Fin (n + 1) → 𝕜 := fun i => Function.update x 0 w0 i / ((√(‖w0‖ ^ 2 + tailNorm x ^ 2) : ℝ) : 𝕜)

theorem mkHouse_refl_zero {x : Fin (n + 1) → 𝕜} (hn : n ≠ 0) (ht : tailNorm x ≠ 0) (h0 : x 0 = 0) :
    mkHouse x = ⟨√(‖x 0‖ ^ 2 + tailNorm x ^ 2), reflVec x (-(tailNorm x : 𝕜)), 1, 2⟩ := by
  unfold mkHouse reflVec
  simp [hn, ht, h0]

theorem mkHouse_refl {x : Fin (n + 1) → 𝕜} (hn : n ≠ 0) (ht : tailNorm x ≠ 0) (h0 : x 0 ≠ 0) :
    mkHouse x = ⟨√(‖x 0‖ ^ 2 + tailNorm x ^ 2),
      reflVec x (x 0 + x 0 / ((‖x 0‖ : ℝ) : 𝕜) * ((√(‖x 0‖ ^ 2 + tailNorm x ^ 2) : ℝ) : 𝕜)), -(x 0 / ((‖x 0‖ : ℝ) : 𝕜)), 2⟩ := by
  unfold mkHouse reflVec
  simp [hn, ht, h0]

/-! ## The constructor -/

/-- The attributes are finite. -/
structure FlHouse.Finite (fin : K → Prop) (finF : F → Prop) (h : FlHouse F K n) : Prop where
  xnorm : finF h.xnorm
  v : ∀ i, fin (h.v i)
  alpha : fin h.alpha
  den : finF h.den

/-- The computed transformation is close to the exact one. -/
structure HouseNear (num : K → 𝕜) (val : F → ℝ) (u : ℝ) (h : FlHouse F K n) (e : House 𝕜 n) : Prop where
  beta : e.beta = if h.refl then 2 else 0
  v : h.refl = true → ∀ i, ‖num (h.v i) - e.v i‖ ≤ 17 * u * ‖e.v i‖
  alpha : ‖num h.alpha - e.alpha‖ ≤ 3 * u
  xnorm : |val h.xnorm - e.xnorm| ≤ 3 * u * e.xnorm

variable {o : FlHouseOps F K} {num : K → 𝕜} {fin : K → Prop} {val : F → ℝ} {finF : F → Prop} {u : ℝ}

/-- The phase `a / |a|`. -/
theorem phase_near (ho : FlHouseAcc o num fin val finF u) (hu : 0 ≤ u) (hu1 : u ≤ 1 / 1000) {a b : K} (hb : ‖num a‖ = ‖num b‖) (h0 : num a ≠ 0)
    (hf : fin (o.div a (o.abs b))) (hff : finF (o.abs b)) : Rel (2.1 * u) (num (o.div a (o.abs b))) (num a / ((‖num b‖ : ℝ) : 𝕜)) := by
  obtain ⟨_, _, h1⟩ := ho.div hf hff
  refine Rel.div hu (by linarith) (by rw [← hb]; exact norm_pos_iff.mpr h0) (ho.abs hff).2 h1 ?_
  nlinarith

theorem phase_one {a : 𝕜} (h0 : a ≠ 0) {b : 𝕜} (hb : ‖a‖ = ‖b‖) : ‖a / ((‖b‖ : ℝ) : 𝕜)‖ = 1 := by
  rw [← hb]; exact signOf_norm h0

theorem tailNorm_num (x : Fin (n + 1) → K) : (vecNorm fun i : Fin n => num (x i.succ)) = tailNorm fun i => num (x i) := rfl

theorem flSigma_near (ho : FlHouseAcc o num fin val finF u) {x : Fin (n + 1) → K} (hf : finF (flSigma o x)) :
    |val (flSigma o x) - tailNorm fun i => num (x i)| ≤ u * tailNorm fun i => num (x i) := (ho.norm hf).2

theorem tailNorm_nonneg (x : Fin (n + 1) → 𝕜) : 0 ≤ tailNorm x := Real.sqrt_nonneg _

theorem flXnorm_near (ho : FlHouseAcc o num fin val finF u) (hu : 0 ≤ u) (hu1 : u ≤ 1 / 1000) {x : Fin (n + 1) → K} (hf : finF (flXnorm o x)) :
    |val (flXnorm o x) - √(‖num (x 0)‖ ^ 2 + (tailNorm fun i => num (x i)) ^ 2)| ≤ 2.1 * u * √(‖num (x 0)‖ ^ 2 + (tailNorm fun i => num (x i)) ^ 2) := by
  obtain ⟨h1, h2, h3⟩ := ho.hyp hf
  have h4 := hyp_near (norm_nonneg _) (tailNorm_nonneg _) hu (by linarith) (ho.abs h1).2 (flSigma_near ho h2)
  have r1 : Rel u (val (flXnorm o x)) (√(val (o.abs (x 0)) ^ 2 + val (flSigma o x) ^ 2)) := by
    unfold Rel; rw [Real.norm_eq_abs, Real.norm_eq_abs, abs_of_nonneg (Real.sqrt_nonneg _)]; exact h3
  have r2 : Rel u (√(val (o.abs (x 0)) ^ 2 + val (flSigma o x) ^ 2)) (√(‖num (x 0)‖ ^ 2 + (tailNorm fun i => num (x i)) ^ 2)) := by
    unfold Rel; rw [Real.norm_eq_abs, Real.norm_eq_abs, abs_of_nonneg (Real.sqrt_nonneg _)]; exact h4
  have r3 := r1.trans r2 hu (g := 2.1 * u) (by nlinarith)
  unfold Rel at r3
  rwa [Real.norm_eq_abs, Real.norm_eq_abs, abs_of_nonneg (Real.sqrt_nonneg _)] at r3

/-- utils.py 375: the scaled vector. -/
theorem flHouseOf_near (ho : FlHouseAcc o num fin val finF u) (hu : 0 ≤ u) (hu1 : u ≤ 1 / 1000) {x : Fin (n + 1) → K} {v0 : K} {w0 : 𝕜} {sigma xnorm : F}
    {alpha : K} {b : Bool} (hf : (flHouseOf o x v0 sigma xnorm alpha b).Finite fin finF) (hv : Rel (6.4 * u) (num v0) w0)
    (hs : |val sigma - tailNorm fun i => num (x i)| ≤ u * tailNorm fun i => num (x i)) (hp : 0 < ‖w0‖ ^ 2 + (tailNorm fun i => num (x i)) ^ 2) (i : Fin (n + 1)) :
    ‖num ((flHouseOf o x v0 sigma xnorm alpha b).v i) - reflVec (fun i => num (x i)) w0 i‖ ≤ 17 * u * ‖reflVec (fun i => num (x i)) w0 i‖ := by
  have hd : finF (o.hyp (o.abs v0) sigma) := hf.den
  obtain ⟨h1, h2, h3⟩ := ho.hyp hd
  set T := tailNorm fun i => num (x i) with hT
  have hT0 : 0 ≤ T := tailNorm_nonneg _
  have ha : Rel (7.5 * u) (val (o.abs v0)) ‖w0‖ := by
    have a1 : Rel u (val (o.abs v0)) ‖num v0‖ := by
      unfold Rel; rw [Real.norm_eq_abs, Real.norm_eq_abs, abs_of_nonneg (norm_nonneg _)]; exact (ho.abs h1).2
    have a2 : Rel (6.4 * u) ‖num v0‖ ‖w0‖ := by
      unfold Rel; rw [Real.norm_eq_abs, norm_norm]; exact (abs_norm_sub_norm_le _ _).trans hv
    exact a1.trans a2 hu (by nlinarith)
  have h4 := hyp_near (a := val (o.abs v0)) (b := val sigma) (norm_nonneg w0) hT0 (f := 7.5 * u) (by positivity) (by linarith)
    (by have := ha; unfold Rel at this; rwa [Real.norm_eq_abs, norm_norm] at this) (hs.trans (by nlinarith))
  set s := √(‖w0‖ ^ 2 + T ^ 2) with hsd
  have hs0 : 0 < s := Real.sqrt_pos.mpr hp
  have r1 : Rel u (val (o.hyp (o.abs v0) sigma)) (√(val (o.abs v0) ^ 2 + val sigma ^ 2)) := by
    unfold Rel; rw [Real.norm_eq_abs, Real.norm_eq_abs, abs_of_nonneg (Real.sqrt_nonneg _)]; exact h3
  have r2 : Rel (7.5 * u) (√(val (o.abs v0) ^ 2 + val sigma ^ 2)) s := by
    unfold Rel; rw [Real.norm_eq_abs, Real.norm_eq_abs, abs_of_nonneg hs0.le]; exact h4
  have r3 := r1.trans r2 hu (g := 8.6 * u) (by nlinarith)
  unfold Rel at r3
  rw [Real.norm_eq_abs, Real.norm_eq_abs, abs_of_nonneg hs0.le] at r3
  have hw : Rel (6.4 * u) (num (Function.update x 0 v0 i)) (Function.update (fun i => num (x i)) 0 w0 i) := by
    by_cases hi : i = 0
    · subst hi; simpa using hv
    · rw [Function.update_of_ne hi, Function.update_of_ne hi]; exact Rel.refl' (by positivity) _
  obtain ⟨_, _, h5⟩ := ho.div (hf.v i) hd
  have r4 := Rel.div (g := 9.7 * u) (f := 8.6 * u) (by positivity) (by linarith) hs0 r3 h5 (by nlinarith)
  have r5 : Rel (6.4 * u) (num (Function.update x 0 v0 i) / (s : 𝕜)) (reflVec (fun i => num (x i)) w0 i) := by
    have := hw.mul (Rel.refl' (le_refl (0:ℝ)) ((s : 𝕜)⁻¹)) (by positivity) (g := 6.4 * u) (by simp)
    simpa only [div_eq_mul_inv, reflVec] using this
  exact r4.trans r5 (by positivity) (by nlinarith)

/-- The computed transformation is close to the exact transformation for the same vector. -/
theorem flHouse_near (ho : FlHouseAcc o num fin val finF u) (hu : 0 ≤ u) (hu1 : u ≤ 1 / 1000) {x : Fin (n + 1) → K} (hf : (flHouse o x).Finite fin finF) :
    HouseNear num val u (flHouse o x) (mkHouse fun i => num (x i)) := by
  have flat : ∀ {s : F}, (flHouseOf o x o.one s (o.abs (x 0)) (flPhase o (x 0)) false).Finite fin finF →
      (n = 0 ∨ (tailNorm fun i => num (x i)) = 0) →
      HouseNear num val u (flHouseOf o x o.one s (o.abs (x 0)) (flPhase o (x 0)) false) (mkHouse fun i => num (x i)) := by
    intro s hf h
    obtain ⟨e1, e2, e3⟩ := mkHouse_flat h
    have hx : finF (o.abs (x 0)) := hf.xnorm
    have hg := (ho.abs hx).1
    have hal : fin (flPhase o (x 0)) := hf.alpha
    refine ⟨by rw [e1]; simp [flHouseOf], by simp [flHouseOf], ?_, ?_⟩
    · rw [e3]
      change ‖num (flPhase o (x 0)) - _‖ ≤ _
      unfold flPhase at hal ⊢
      by_cases h0 : num (x 0) = 0
      · rw [if_pos ((ho.isZero hg).mpr h0), if_pos h0, ho.one, sub_self, norm_zero]; positivity
      · have hz : ¬ o.isZero (x 0) = true := fun h => h0 ((ho.isZero hg).mp h)
        rw [if_neg hz] at hal ⊢
        rw [if_neg h0]
        have := phase_near ho hu hu1 rfl h0 hal hx
        unfold Rel at this
        rw [phase_one h0 rfl] at this
        linarith
    · rw [e2]
      exact ((ho.abs hx).2).trans (by gcongr; linarith)
  unfold flHouse at hf ⊢
  by_cases hn : n = 0
  · rw [if_pos hn] at hf ⊢
    exact flat hf (.inl hn)
  · rw [if_neg hn] at hf ⊢
    by_cases hz : o.isZeroF (flSigma o x) = true
    · rw [if_pos hz] at hf ⊢
      have hs : finF (flSigma o x) := (ho.hyp hf.den).2.1
      have h0 := (ho.isZeroF hs).mp hz
      have h1 := flSigma_near ho hs
      rw [h0, zero_sub, abs_neg, abs_of_nonneg (tailNorm_nonneg _)] at h1
      refine flat hf (.inr ?_)
      have := tailNorm_nonneg fun i => num (x i)
      nlinarith
    · rw [if_neg hz] at hf ⊢
      have hx : finF (flXnorm o x) := by
        have := hf.xnorm
        unfold flReflector at this
        dsimp only at this
        split at this <;> exact this
      obtain ⟨hab, hs, _⟩ := ho.hyp hx
      have hg := (ho.abs hab).1
      have hsn := flSigma_near ho hs
      have ht : (tailNorm fun i => num (x i)) ≠ 0 := by
        intro h0
        rw [h0, mul_zero, sub_zero] at hsn
        exact hz ((ho.isZeroF hs).mpr (abs_eq_zero.mp (le_antisymm hsn (abs_nonneg _))))
      have htp : 0 < tailNorm fun i => num (x i) := lt_of_le_of_ne (tailNorm_nonneg _) (Ne.symm ht)
      have hxn := flXnorm_near ho hu hu1 hx
      set X := √(‖num (x 0)‖ ^ 2 + (tailNorm fun i => num (x i)) ^ 2) with hX
      have hX0 : 0 ≤ X := Real.sqrt_nonneg _
      unfold flReflector at hf ⊢
      dsimp only at hf ⊢
      by_cases h0 : num (x 0) = 0
      · rw [if_pos ((ho.isZero hg).mpr h0)] at hf ⊢
        rw [mkHouse_refl_zero hn ht h0]
        have hv0 : fin (o.neg (o.ofReal (flSigma o x))) := by
          have h := (ho.div (hf.v 0) hf.den).1
          rwa [Function.update_self] at h
        have hvn : num (o.neg (o.ofReal (flSigma o x))) = -(val (flSigma o x) : 𝕜) := by
          rw [(ho.neg hv0).2, (ho.ofReal (ho.neg hv0).1).2]
        refine ⟨by simp [flHouseOf], fun _ i => flHouseOf_near ho hu hu1 hf ?_ hsn (by positivity) i, ?_, ?_⟩
        · rw [hvn]
          refine Rel.neg (Rel.mono (e := u) ?_ (by linarith))
          unfold Rel
          rw [← ofReal_sub, norm_ofReal, norm_ofReal, abs_of_pos htp]
          exact hsn
        · change ‖num o.one - 1‖ ≤ _
          rw [ho.one, sub_self, norm_zero]; positivity
        · exact hxn.trans (by gcongr; linarith)
      · have hz0 : ¬ o.isZero (x 0) = true := fun h => h0 ((ho.isZero hg).mp h)
        rw [if_neg hz0] at hf ⊢
        rw [mkHouse_refl hn ht h0]
        have hv0 : fin (o.add (x 0) (o.mul (o.div (x 0) (o.abs (x 0))) (o.ofReal (flXnorm o x)))) := by
          have h := (ho.div (hf.v 0) hf.den).1
          rwa [Function.update_self] at h
        obtain ⟨_, hm, hadd⟩ := ho.add hv0
        obtain ⟨hdv, hre, hmul⟩ := ho.mul hm
        have hph := phase_near ho hu hu1 rfl h0 hdv hab
        have hnorm1 := phase_one h0 (b := num (x 0)) rfl
        set ph := num (x 0) / ((‖num (x 0)‖ : ℝ) : 𝕜) with hphd
        have hXn : Rel (2.1 * u) (num (o.ofReal (flXnorm o x))) ((X : ℝ) : 𝕜) := by
          rw [(ho.ofReal hre).2]
          unfold Rel
          rw [← ofReal_sub, norm_ofReal, norm_ofReal, abs_of_nonneg hX0]
          exact hxn
        have r1 : Rel (5.3 * u) (num (o.mul (o.div (x 0) (o.abs (x 0))) (o.ofReal (flXnorm o x)))) (ph * ((X : ℝ) : 𝕜)) :=
          Rel.trans hmul (hph.mul hXn (by positivity) (g := 4.21 * u) (by nlinarith)) hu (by nlinarith)
        have hw : ‖num (x 0) + ph * ((X : ℝ) : 𝕜)‖ = ‖num (x 0)‖ + X := by
          have hne : ((‖num (x 0)‖ : ℝ) : 𝕜) ≠ 0 := by simpa using h0
          have e : num (x 0) + ph * ((X : ℝ) : 𝕜) = ph * ((‖num (x 0)‖ + X : ℝ) : 𝕜) := by
            rw [hphd]; push_cast; field_simp
          rw [e, norm_mul, hnorm1, one_mul, norm_ofReal, abs_of_nonneg (by positivity)]
        have r2 : Rel (5.3 * u) (num (x 0) + num (o.mul (o.div (x 0) (o.abs (x 0))) (o.ofReal (flXnorm o x)))) (num (x 0) + ph * ((X : ℝ) : 𝕜)) := by
          unfold Rel at r1 ⊢
          rw [add_sub_add_left_eq_sub, hw]
          rw [norm_mul, hnorm1, one_mul, norm_ofReal, abs_of_nonneg hX0] at r1
          exact r1.trans (by gcongr; linarith [norm_nonneg (num (x 0))])
        have r3 := Rel.trans hadd r2 hu (g := 6.4 * u) (by nlinarith)
        refine ⟨by simp [flHouseOf], fun _ i => flHouseOf_near ho hu hu1 hf r3 hsn (by positivity) i, ?_, ?_⟩
        · have ha : fin (o.div (o.neg (x 0)) (o.abs (x 0))) := hf.alpha
          have hng := ho.neg (ho.div ha hab).1
          change ‖num (o.div (o.neg (x 0)) (o.abs (x 0))) - -ph‖ ≤ _
          have h := phase_near (b := x 0) ho hu hu1 (by rw [hng.2, norm_neg]) (by rw [hng.2]; simpa using h0) ha hab
          unfold Rel at h
          rw [hng.2, neg_div, norm_neg, hnorm1] at h
          linarith
        · exact hxn.trans (by gcongr; linarith)

/-! ## Norms of vectors -/

theorem vecNorm_sub_le' {m : ℕ} (x y : Fin m → 𝕜) : vecNorm (x - y) ≤ vecNorm x + vecNorm y := by
  have h := vecNorm_add_le' x (-y)
  rw [← sub_eq_add_neg, ← neg_one_smul 𝕜 y, vecNorm_smul] at h
  simpa using h

theorem vecNorm_sub_rev' {m : ℕ} (x y : Fin m → 𝕜) : vecNorm (x - y) = vecNorm (y - x) := by
  rw [← neg_sub, ← neg_one_smul 𝕜 (y - x), vecNorm_smul]; simp

theorem vecNorm_le_of {m : ℕ} {x y : Fin m → 𝕜} {c : ℝ} (hc : 0 ≤ c) (h : ∀ i, ‖x i‖ ≤ c * ‖y i‖) : vecNorm x ≤ c * vecNorm y := by
  have h1 : vecNorm ((c : 𝕜) • y) = c * vecNorm y := by rw [vecNorm_smul, norm_ofReal, abs_of_nonneg hc]
  rw [← h1]
  exact vecNorm_mono fun i => by rw [Pi.smul_apply, smul_eq_mul, norm_mul, norm_ofReal, abs_of_nonneg hc]; exact h i

theorem edot_le {m : ℕ} (x y : Fin m → 𝕜) : ‖edot x y‖ ≤ vecNorm x * vecNorm y := norm_dot_le x y

theorem edot_sub_left' {m : ℕ} (x y z : Fin m → 𝕜) : edot (x - y) z = edot x z - edot y z := by
  unfold edot
  rw [← Finset.sum_sub_distrib]
  exact Finset.sum_congr rfl fun i _ => by rw [Pi.sub_apply, map_sub, sub_mul]

theorem enormSq_vecNorm {m : ℕ} (x : Fin m → 𝕜) : enormSq x = vecNorm x ^ 2 := (vecNorm_sq x).symm

theorem vecNorm_unit_of {m : ℕ} {x : Fin m → 𝕜} (h : enormSq x = 1) : vecNorm x = 1 := by
  have := vecNorm_nonneg x
  rw [enormSq_vecNorm] at h
  nlinarith

/-! ## Application of a transformation -/

/-- The numbers of an array. -/
def numv (num : K → 𝕜) {m : ℕ} (x : Fin m → K) : Fin m → 𝕜 := fun i => num (x i)

/-- The error of one entry of the result of `apply`. -/
theorem flApply_entry (ho : FlHouseAcc o num fin val finF u) (hu : 0 ≤ u) (hu1 : u ≤ 1 / 1000) {h : FlHouse F K n} {e : House 𝕜 n}
    (hn : HouseNear num val u h e) (he : enormSq e.v = 1) {x : Fin (n + 1) → K} {i : Fin (n + 1)} (hf : fin (h.apply o x i)) :
    fin (x i) ∧ ‖num (h.apply o x i) - e.apply (numv num x) i‖ ≤ u * ‖num (x i)‖ + 77.6 * u * vecNorm (numv num x) * ‖e.v i‖ := by
  have hX0 := vecNorm_nonneg (numv num x)
  unfold FlHouse.apply at hf ⊢
  by_cases hr : h.refl = true
  swap
  · rw [if_neg hr] at hf ⊢
    refine ⟨hf, ?_⟩
    have hb := hn.beta
    rw [if_neg hr] at hb
    rw [House.apply, if_pos hb]
    change ‖num (x i) - num (x i)‖ ≤ _
    rw [sub_self, norm_zero]
    positivity
  rw [if_pos hr] at hf ⊢
  refine ⟨(ho.sub hf).1, ?_⟩
  have hb := hn.beta
  rw [if_pos hr] at hb
  rw [apply_beta_two e hb]
  set X := numv num x with hX
  set w := e.v with hw
  set v := numv num h.v with hv
  set t := num (o.dot (n + 1) h.v x) with ht
  set q := num (o.mul (o.mul o.two (h.v i)) (o.dot (n + 1) h.v x)) with hq
  have hvn0 := vecNorm_nonneg v
  have hvw0 := vecNorm_nonneg (v - w)
  have hw1 : vecNorm w = 1 := vecNorm_unit_of he
  have hvw : vecNorm (v - w) ≤ 17 * u := by
    have := vecNorm_le_of (x := v - w) (y := w) (c := 17 * u) (by positivity) (hn.v hr)
    rwa [hw1, mul_one] at this
  have hv1 : vecNorm v ≤ 1 + 17 * u := by
    have := vecNorm_add_le' (v - w) w
    rw [sub_add_cancel] at this
    linarith
  have hvi : ‖v i - w i‖ ≤ 17 * u * ‖w i‖ := hn.v hr i
  have hvi' : ‖v i‖ ≤ (1 + 17 * u) * ‖w i‖ := Rel.norm_le hvi
  have hdot : fin (o.dot (n + 1) h.v x) := (ho.mul (ho.sub hf).2.1).2.1
  have ht1 : ‖t - edot w X‖ ≤ 18.1 * u * vecNorm X := by
    have h1 : ‖t - edot v X‖ ≤ u * (vecNorm v * vecNorm X) := ho.dot hdot
    have h2 : ‖edot v X - edot w X‖ ≤ 17 * u * vecNorm X := by
      rw [← edot_sub_left']
      exact (edot_le _ _).trans (by gcongr)
    calc ‖t - edot w X‖ = ‖(t - edot v X) + (edot v X - edot w X)‖ := by ring_nf
      _ ≤ u * (vecNorm v * vecNorm X) + 17 * u * vecNorm X := (norm_add_le _ _).trans (add_le_add h1 h2)
      _ ≤ u * ((1 + 17 * u) * vecNorm X) + 17 * u * vecNorm X := by gcongr
      _ = (18 + 17 * u) * u * vecNorm X := by ring
      _ ≤ _ := by gcongr; linarith
  have hwX : ‖edot w X‖ ≤ vecNorm X := by have := edot_le w X; rwa [hw1, one_mul] at this
  have ht2 : ‖t‖ ≤ 1.02 * vecNorm X := by
    have h2 := norm_sub_norm_le t (edot w X)
    have h3 : 18.1 * u * vecNorm X ≤ 0.02 * vecNorm X := by gcongr; linarith
    linarith
  have hq1 : ‖q - 2 * v i * t‖ ≤ 4.5 * u * vecNorm X * ‖w i‖ := by
    obtain ⟨h1, _, h2⟩ := ho.mul (ho.sub hf).2.1
    obtain ⟨_, _, h3⟩ := ho.mul h1
    rw [ho.two] at h3
    have r := Rel.trans h2 (Rel.mul (d := t) h3 (Rel.refl' le_rfl _) hu (g := u) (by simp)) hu (g := 2.1 * u) (by nlinarith)
    refine le_trans r ?_
    change 2.1 * u * ‖2 * v i * t‖ ≤ _
    rw [norm_mul, norm_mul]
    simp only [RCLike.norm_ofNat]
    calc 2.1 * u * (2 * ‖v i‖ * ‖t‖) ≤ 2.1 * u * (2 * ((1 + 17 * u) * ‖w i‖) * (1.02 * vecNorm X)) := by gcongr
      _ = (4.284 * (1 + 17 * u)) * u * vecNorm X * ‖w i‖ := by ring
      _ ≤ _ := by gcongr; linarith
  have hq2 : ‖q - 2 * w i * edot w X‖ ≤ 75.5 * u * vecNorm X * ‖w i‖ := by
    have e1 : q - 2 * w i * edot w X = (q - 2 * v i * t) + (2 * (v i - w i) * t + 2 * w i * (t - edot w X)) := by ring
    rw [e1]
    refine (norm_add_le _ _).trans ((add_le_add hq1 (norm_add_le _ _)).trans ?_)
    rw [norm_mul, norm_mul, norm_mul, norm_mul]
    simp only [RCLike.norm_ofNat]
    calc 4.5 * u * vecNorm X * ‖w i‖ + (2 * ‖v i - w i‖ * ‖t‖ + 2 * ‖w i‖ * ‖t - edot w X‖)
        ≤ 4.5 * u * vecNorm X * ‖w i‖ + (2 * (17 * u * ‖w i‖) * (1.02 * vecNorm X) + 2 * ‖w i‖ * (18.1 * u * vecNorm X)) := by gcongr
      _ = 75.38 * u * vecNorm X * ‖w i‖ := by ring
      _ ≤ _ := by gcongr; norm_num
  have hq3 : ‖q‖ ≤ 2.1 * vecNorm X * ‖w i‖ := by
    have h1 := norm_add_le (q - 2 * w i * edot w X) (2 * w i * edot w X)
    rw [sub_add_cancel, norm_mul, norm_mul] at h1
    simp only [RCLike.norm_ofNat] at h1
    have h3 : 75.5 * u * vecNorm X * ‖w i‖ ≤ 0.1 * vecNorm X * ‖w i‖ := by gcongr; linarith
    have h4 : 2 * ‖w i‖ * ‖edot w X‖ ≤ 2 * ‖w i‖ * vecNorm X := by gcongr
    linarith
  have hy : ‖num (o.sub (x i) (o.mul (o.mul o.two (h.v i)) (o.dot (n + 1) h.v x))) - (num (x i) - q)‖ ≤ u * ‖num (x i) - q‖ := (ho.sub hf).2.2
  have hy2 := norm_sub_le (num (x i)) q
  have e2 : num (o.sub (x i) (o.mul (o.mul o.two (h.v i)) (o.dot (n + 1) h.v x))) - reflect w X i =
      (num (o.sub (x i) (o.mul (o.mul o.two (h.v i)) (o.dot (n + 1) h.v x))) - (num (x i) - q)) - (q - 2 * w i * edot w X) := by
    have e3 : reflect w X i = num (x i) - 2 * w i * edot w X := rfl
    rw [e3]; ring
  rw [e2]
  refine (norm_sub_le _ _).trans ((add_le_add hy hq2).trans ?_)
  calc u * ‖num (x i) - q‖ + 75.5 * u * vecNorm X * ‖w i‖ ≤ u * (‖num (x i)‖ + 2.1 * vecNorm X * ‖w i‖) + 75.5 * u * vecNorm X * ‖w i‖ := by
        gcongr; linarith
    _ = _ := by ring

/-- The error of the application of a computed transformation, relative to the norm of the argument. -/
theorem flApply_near (ho : FlHouseAcc o num fin val finF u) (hu : 0 ≤ u) (hu1 : u ≤ 1 / 1000) {h : FlHouse F K n} {e : House 𝕜 n}
    (hn : HouseNear num val u h e) (he : enormSq e.v = 1) {x : Fin (n + 1) → K} (hf : ∀ i, fin (h.apply o x i)) :
    (∀ i, fin (x i)) ∧ vecNorm (numv num (h.apply o x) - e.apply (numv num x)) ≤ 80 * u * vecNorm (numv num x) := by
  refine ⟨fun i => (flApply_entry ho hu hu1 hn he (hf i)).1, ?_⟩
  have hX0 := vecNorm_nonneg (numv num x)
  set R := vecNorm (numv num x) with hR
  have h1 : vecNorm (numv num (h.apply o x) - e.apply (numv num x)) ≤
      vecNorm ((fun i => ((u * ‖num (x i)‖ : ℝ) : 𝕜)) + fun i => ((77.6 * u * R * ‖e.v i‖ : ℝ) : 𝕜)) :=
    vecNorm_mono fun i => by
      rw [Pi.add_apply, ← ofReal_add, norm_ofReal, abs_of_nonneg (by positivity)]
      exact (flApply_entry ho hu hu1 hn he (hf i)).2
  refine h1.trans ((vecNorm_add_le' _ _).trans ?_)
  have h2 : vecNorm (fun i => ((u * ‖num (x i)‖ : ℝ) : 𝕜)) ≤ u * R :=
    vecNorm_le_of (y := numv num x) hu fun i => by rw [norm_ofReal, abs_of_nonneg (by positivity)]; exact le_rfl
  have h3 : vecNorm (fun i => ((77.6 * u * R * ‖e.v i‖ : ℝ) : 𝕜)) ≤ 77.6 * u * R * vecNorm e.v :=
    vecNorm_le_of (by positivity) fun i => by rw [norm_ofReal, abs_of_nonneg (by positivity)]
  rw [vecNorm_unit_of he] at h3
  have : 0 ≤ u * R := by positivity
  linarith

/-! ## Application to the tail of a vector -/

theorem num_ev (h0 : num o.zero = 0) (x : Fin (N + 1) → K) (i : ℕ) : num (flEv o x i) = ev (numv num x) i := by
  unfold flEv ev
  split
  · rfl
  · exact h0

theorem num_slice (h0 : num o.zero = 0) (x : Fin (N + 1) → K) (j : ℕ) : numv num (flSlice o x j) = slice (numv num x) j := by
  funext i; exact num_ev h0 x (j + i)

theorem num_setSlice (x : Fin (N + 1) → K) (j : ℕ) (y : Fin (N - j + 1) → K) : numv num (flSetSlice x j y) = setSlice (numv num x) j (numv num y) := by
  funext i
  unfold numv flSetSlice setSlice
  split <;> rfl

theorem setSlice_sub (x : Fin (N + 1) → 𝕜) (j : ℕ) (y z : Fin (N - j + 1) → 𝕜) : setSlice x j y - setSlice x j z = pad j (y - z) := by
  funext i
  rw [Pi.sub_apply]
  unfold pad setSlice
  split
  · rfl
  · simp

theorem vecNorm_pad {j : ℕ} (hj : j ≤ N) (v : Fin (N - j + 1) → 𝕜) : vecNorm (pad j v) = vecNorm v := by
  have h := enormSq_pad hj v
  rw [enormSq_vecNorm, enormSq_vecNorm] at h
  exact (sq_eq_sq₀ (vecNorm_nonneg _) (vecNorm_nonneg _)).mp h

theorem vecNorm_tail_le (j : ℕ) (x : Fin (N + 1) → 𝕜) : vecNorm (tail j x) ≤ vecNorm x :=
  vecNorm_mono fun i => by
    unfold tail
    split
    · rw [norm_zero]; exact norm_nonneg _
    · exact le_rfl

theorem pad_slice {j : ℕ} (x : Fin (N + 1) → 𝕜) : pad j (slice x j) = tail j x := by
  funext i
  unfold pad setSlice tail slice
  by_cases h : j ≤ (i : ℕ)
  · rw [dif_pos h, if_neg (by omega)]
    simp only
    rw [show j + ((i : ℕ) - j) = i by omega, ev_fin]
  · rw [dif_neg h, if_pos (by omega)]; rfl

theorem vecNorm_slice_le {j : ℕ} (hj : j ≤ N) (x : Fin (N + 1) → 𝕜) : vecNorm (slice x j) ≤ vecNorm x := by
  rw [← vecNorm_pad hj, pad_slice]; exact vecNorm_tail_le j x

theorem flSlice_fin {P : K → Prop} {j : ℕ} {x : Fin (N + 1) → K} (h : ∀ i, P (flSlice o x j i)) (i : Fin (N + 1)) (hi : j ≤ i) : P (x i) := by
  have h1 := h ⟨i - j, by omega⟩
  unfold flSlice flEv at h1
  simp only at h1
  rw [dif_pos (by omega)] at h1
  have e : (⟨j + ((i : ℕ) - j), by omega⟩ : Fin (N + 1)) = i := Fin.ext (by simp; omega)
  rwa [e] at h1

theorem flApplyAt_near (ho : FlHouseAcc o num fin val finF u) (hu : 0 ≤ u) (hu1 : u ≤ 1 / 1000) {j : ℕ} (hj : j ≤ N) {h : FlHouse F K (N - j)}
    {e : House 𝕜 (N - j)} (hn : HouseNear num val u h e) (he : Good e) {x : Fin (N + 1) → K} (hf : ∀ i, fin (flApplyAt o j h x i)) :
    (∀ i, fin (x i)) ∧ vecNorm (numv num (flApplyAt o j h x) - applyAt j e (numv num x)) ≤ 80 * u * vecNorm (numv num x) := by
  have hf' : ∀ i, fin (h.apply o (flSlice o x j) i) := by
    intro i
    have h1 := hf ⟨j + i, by omega⟩
    unfold flApplyAt flSetSlice at h1
    rw [dif_pos (by simp)] at h1
    have e1 : (⟨((⟨j + (i : ℕ), by omega⟩ : Fin (N + 1)) : ℕ) - j, by simp; omega⟩ : Fin (N - j + 1)) = i := Fin.ext (by simp)
    rwa [e1] at h1
  obtain ⟨h1, h2⟩ := flApply_near ho hu hu1 hn he.2.1 hf'
  constructor
  · intro i
    by_cases hi : j ≤ (i : ℕ)
    · exact flSlice_fin h1 i hi
    · have h3 := hf i
      unfold flApplyAt flSetSlice at h3
      rwa [dif_neg hi] at h3
  · unfold flApplyAt applyAt
    rw [num_setSlice, setSlice_sub, vecNorm_pad hj, ← num_slice ho.zero]
    refine h2.trans ?_
    rw [num_slice ho.zero]
    gcongr
    exact vecNorm_slice_le hj _

theorem vecNorm_applyAt {j : ℕ} (hj : j ≤ N) {e : House 𝕜 (N - j)} (he : Good e) (x : Fin (N + 1) → 𝕜) : vecNorm (applyAt j e x) = vecNorm x := by
  have h := applyAt_isom hj he x x
  rw [edot_self, edot_self] at h
  have h' : enormSq (applyAt j e x) = enormSq x := by exact_mod_cast h
  rw [enormSq_vecNorm, enormSq_vecNorm] at h'
  exact (sq_eq_sq₀ (vecNorm_nonneg _) (vecNorm_nonneg _)).mp h'

theorem applyAt_sub {j : ℕ} (hj : j ≤ N) {e : House 𝕜 (N - j)} (he : Good e) (x y : Fin (N + 1) → 𝕜) :
    applyAt j e (x - y) = applyAt j e x - applyAt j e y := by
  rw [eq_sub_iff_add_eq, ← applyAt_add hj he, sub_add_cancel]

theorem vecNorm_mulAt (x : Fin (N + 1) → 𝕜) (m : ℕ) {a : 𝕜} (ha : ‖a‖ = 1) : vecNorm (mulAt x m a) = vecNorm x := by
  unfold vecNorm
  congr 1
  refine Finset.sum_congr rfl fun i _ => ?_
  unfold mulAt
  split
  · rw [norm_mul, ha, mul_one]
  · rfl

theorem mulAt_sub (x y : Fin (N + 1) → 𝕜) (m : ℕ) (a : 𝕜) : mulAt (x - y) m a = mulAt x m a - mulAt y m a := by
  funext i
  rw [Pi.sub_apply]
  unfold mulAt
  split
  · rw [Pi.sub_apply, sub_mul]
  · rfl

/-- Multiplication with an inaccurate phase. -/
theorem mul_phase (ho : FlHouseAcc o num fin val finF u) (hu : 0 ≤ u) (hu1 : u ≤ 1 / 1000) {x a : K} {b : 𝕜} (hb : ‖b‖ = 1)
    (ha : ‖num a - b‖ ≤ 3 * u) (hf : fin (o.mul x a)) : Rel (4.1 * u) (num (o.mul x a)) (num x * b) := by
  have r1 : Rel (3 * u) (num a) b := by unfold Rel; rwa [hb, mul_one]
  exact Rel.trans (ho.mul hf).2.2 ((Rel.refl' (le_refl (0 : ℝ)) (num x)).mul r1 le_rfl (g := 3 * u) (by simp)) hu (by nlinarith)

theorem flMulAt_near (ho : FlHouseAcc o num fin val finF u) (hu : 0 ≤ u) (hu1 : u ≤ 1 / 1000) {m : ℕ} {a : K} {b : 𝕜} (hb : ‖b‖ = 1)
    (ha : fin a → ‖num a - b‖ ≤ 3 * u) {x : Fin (N + 1) → K} (hf : ∀ i, fin (flMulAt o x m a i)) :
    (∀ i, fin (x i)) ∧ vecNorm (numv num (flMulAt o x m a) - mulAt (numv num x) m b) ≤ 80 * u * vecNorm (numv num x) := by
  constructor
  · intro i
    have h := hf i
    unfold flMulAt at h
    split at h
    · exact (ho.mul h).1
    · exact h
  · refine vecNorm_le_of (by positivity) fun i => ?_
    have h := hf i
    rw [Pi.sub_apply]
    unfold numv flMulAt mulAt
    unfold flMulAt at h
    split
    · next hi =>
      rw [if_pos hi] at h
      have r := mul_phase ho hu hu1 hb (ha (ho.mul h).2.1) h
      unfold Rel at r
      rw [norm_mul, hb, mul_one] at r
      exact r.trans (by gcongr; norm_num)
    · rw [sub_self, norm_zero]; positivity

/-! ## The loops -/

/-- One more inaccurate application of a norm preserving map. -/
theorem approx_step {m : ℕ} {P : (Fin m → 𝕜) → (Fin m → 𝕜)} (hP : ∀ x y, vecNorm (P x - P y) = vecNorm (x - y)) {y' Y E : Fin m → 𝕜} {c g R : ℝ} (hc : 0 ≤ c)
    (h1 : vecNorm (y' - P Y) ≤ c * vecNorm Y) (h2 : vecNorm (Y - E) ≤ (g - 1) * R) (hE : vecNorm E = R) :
    vecNorm (y' - P E) ≤ (g * (1 + c) - 1) * R := by
  have h3 : vecNorm Y ≤ g * R := by
    have := vecNorm_add_le' (Y - E) E
    rw [sub_add_cancel] at this
    linarith
  have h4 := vecNorm_add_le' (y' - P Y) (P Y - P E)
  rw [sub_add_sub_cancel, hP] at h4
  have h5 := mul_le_mul_of_nonneg_left h3 hc
  nlinarith

theorem vecNorm_houseLoop {hs : Houses 𝕜 N} {m : ℕ} (hm : m ≤ N + 1) (hg : GoodTo hs m) (x : Fin (N + 1) → 𝕜) : vecNorm (houseLoop hs m x) = vecNorm x := by
  induction m with
  | zero => rfl
  | succ m ih =>
    rw [houseLoop, vecNorm_mulAt _ _ (by rw [RCLike.norm_conj]; exact (hg m (by omega)).2.2), vecNorm_applyAt (by omega) (hg m (by omega)),
      ih (by omega) fun j hj => hg j (by omega)]

theorem houseLoop_sub {hs : Houses 𝕜 N} {m : ℕ} (hm : m ≤ N + 1) (hg : GoodTo hs m) (x y : Fin (N + 1) → 𝕜) :
    houseLoop hs m (x - y) = houseLoop hs m x - houseLoop hs m y := by
  induction m with
  | zero => rfl
  | succ m ih =>
    rw [houseLoop, ih (by omega) fun j hj => hg j (by omega), applyAt_sub (by omega) (hg m (by omega)), mulAt_sub]; rfl

theorem vecNorm_houseBack {hs : Houses 𝕜 N} {m : ℕ} (hm : m ≤ N + 1) (hg : GoodTo hs m) (x : Fin (N + 1) → 𝕜) : vecNorm (houseBack hs m x) = vecNorm x := by
  induction m generalizing x with
  | zero => rfl
  | succ m ih => rw [houseBack, ih (by omega) (fun j hj => hg j (by omega)), vecNorm_applyAt (by omega) (hg m (by omega))]

/-- utils.py 972-974 with errors. -/
theorem flHouseLoop_near (ho : FlHouseAcc o num fin val finF u) (hu : 0 ≤ u) (hu1 : u ≤ 1 / 1000) {fs : FlHouses F K N} {hs : Houses 𝕜 N} {m : ℕ}
    (hm : m ≤ N + 1) (hg : GoodTo hs m) (hn : ∀ j < m, HouseNear num val u (fs j) (hs j)) {x : Fin (N + 1) → K} (hf : ∀ i, fin (flHouseLoop o fs m x i)) :
    (∀ i, fin (x i)) ∧ vecNorm (numv num (flHouseLoop o fs m x) - houseLoop hs m (numv num x)) ≤ ((1 + 80 * u) ^ (2 * m) - 1) * vecNorm (numv num x) := by
  induction m with
  | zero =>
    refine ⟨hf, ?_⟩
    change vecNorm (numv num x - numv num x) ≤ _
    rw [sub_self, vecNorm_eq_zero.mpr rfl]; simp
  | succ m ih =>
    have hgm := hg m (by omega)
    have hg' : GoodTo hs m := fun j hj => hg j (by omega)
    have hnm := hn m (by omega)
    have hc1 : ‖conj (hs m).alpha‖ = 1 := by rw [RCLike.norm_conj]; exact hgm.2.2
    obtain ⟨h1, h2⟩ := flMulAt_near (b := conj (hs m).alpha) ho hu hu1 hc1
      (fun hfa => by rw [(ho.cj hfa).2, ← map_sub, RCLike.norm_conj]; exact hnm.alpha) hf
    obtain ⟨h3, h4⟩ := flApplyAt_near ho hu hu1 (by omega) hnm hgm h1
    obtain ⟨h5, h6⟩ := ih (by omega) hg' (fun j hj => hn j (by omega)) h3
    refine ⟨h5, ?_⟩
    have hR := vecNorm_houseLoop (by omega) hg' (numv num x)
    have a1 := approx_step (P := applyAt m (hs m)) (fun x y => by rw [← applyAt_sub (by omega) hgm, vecNorm_applyAt (by omega) hgm])
      (c := 80 * u) (by positivity) h4 h6 hR
    have a2 := approx_step (P := fun y => mulAt y m (conj (hs m).alpha)) (fun x y => by rw [← mulAt_sub, vecNorm_mulAt _ _ hc1])
      (c := 80 * u) (by positivity) h2 a1 (by rw [vecNorm_applyAt (by omega) hgm, hR])
    have e : (1 + 80 * u) ^ (2 * (m + 1)) = (1 + 80 * u) ^ (2 * m) * (1 + 80 * u) * (1 + 80 * u) := by ring
    rw [e]
    exact a2

/-- utils.py 992-993 with errors. -/
theorem flHouseBack_near (ho : FlHouseAcc o num fin val finF u) (hu : 0 ≤ u) (hu1 : u ≤ 1 / 1000) {fs : FlHouses F K N} {hs : Houses 𝕜 N} {m : ℕ}
    (hm : m ≤ N + 1) (hg : GoodTo hs m) (hn : ∀ j < m, HouseNear num val u (fs j) (hs j)) {x : Fin (N + 1) → K} (hf : ∀ i, fin (flHouseBack o fs m x i)) :
    (∀ i, fin (x i)) ∧ ∀ (E : Fin (N + 1) → 𝕜) (g R : ℝ), vecNorm (numv num x - E) ≤ (g - 1) * R → vecNorm E = R →
      vecNorm (numv num (flHouseBack o fs m x) - houseBack hs m E) ≤ (g * (1 + 80 * u) ^ m - 1) * R := by
  induction m generalizing x with
  | zero =>
    refine ⟨hf, fun E g R h1 h2 => ?_⟩
    rw [pow_zero, mul_one]; exact h1
  | succ m ih =>
    have hgm := hg m (by omega)
    obtain ⟨h1, h2⟩ := ih (by omega) (fun j hj => hg j (by omega)) (fun j hj => hn j (by omega)) (x := flApplyAt o m (fs m) x) hf
    obtain ⟨h3, h4⟩ := flApplyAt_near ho hu hu1 (by omega) (hn m (by omega)) hgm h1
    refine ⟨h3, fun E g R h5 h6 => ?_⟩
    have a1 := approx_step (P := applyAt m (hs m)) (fun x y => by rw [← applyAt_sub (by omega) hgm, vecNorm_applyAt (by omega) hgm])
      (c := 80 * u) (by positivity) h4 h5 h6
    have a2 := h2 _ _ R a1 (by rw [vecNorm_applyAt (by omega) hgm, h6])
    rw [pow_succ', ← mul_assoc]
    exact a2

end
end Krypy
