import Verif.Props.FlArnoldi

/-!
# Orthogonalising twice

A pass of modified Gram-Schmidt with errors against vectors which are nearly orthonormal: if the vector is not almost in their span, then after two passes
it is orthogonal to them up to the errors of the operations, and the level of orthogonality does not grow from column to column.
-/

set_option linter.unusedSectionVars false

namespace Krypy.Reortho

variable {𝕜 E : Type*} [RCLike 𝕜] [NormedAddCommGroup E] [InnerProductSpace 𝕜 E]

/-- Specification for `Q` of `qr` (utils.py 707) and `V` of `Arnoldi` (utils.py 1046): the first `m` vectors are orthonormal up to `ε` and `ν`. -/
structure Level (𝕜 : Type*) {E : Type*} [RCLike 𝕜] [NormedAddCommGroup E] [InnerProductSpace 𝕜 E] (q : ℕ → E) (m : ℕ) (ε ν : ℝ) : Prop where
  off : ∀ i < m, ∀ j < m, i ≠ j → ‖inner 𝕜 (q i) (q j)‖ ≤ ε
  unit : ∀ i < m, |‖q i‖ ^ 2 - 1| ≤ ν

/-- A pass of modified Gram-Schmidt (utils.py 700-703, 1014-1029) with errors; `w j` is the vector before step `j`. -/
def Pass (𝕜 : Type*) {E : Type*} [RCLike 𝕜] [NormedAddCommGroup E] [InnerProductSpace 𝕜 E] (η : ℝ) (q : ℕ → E) (m : ℕ) (w : ℕ → E) : Prop :=
  ∀ j < m, ‖w (j + 1) - (w j - inner 𝕜 (q j) (w j) • q j)‖ ≤ η * ‖w j‖

variable {η ε ν : ℝ} {q w : ℕ → E} {m : ℕ}

theorem Pass.norm (hp : Pass 𝕜 η q m w) (hη : 0 ≤ η) (hq : ∀ i < m, ‖q i‖ ^ 2 ≤ 2) : ∀ j ≤ m, ‖w j‖ ≤ (1 + η) ^ j * ‖w 0‖ := by
  intro j
  induction j with
  | zero => intro _; simp
  | succ j ih =>
    intro hj
    have h1 := ih (by omega)
    have h2 := hp j (by omega)
    have h3 := norm_sub_proj_le (𝕜 := 𝕜) (w := w j) (hq j (by omega))
    have h4 : w (j + 1) = (w (j + 1) - (w j - inner 𝕜 (q j) (w j) • q j)) + (w j - inner 𝕜 (q j) (w j) • q j) := by abel
    have h5 : ‖w (j + 1)‖ ≤ (1 + η) * ‖w j‖ := by
      rw [h4]
      refine (norm_add_le _ _).trans ?_
      linarith
    rw [pow_succ]
    have := mul_le_mul_of_nonneg_left h1 (show 0 ≤ 1 + η by linarith)
    linarith

/-- Evolution of a component. -/
theorem Pass.inner_step (hp : Pass 𝕜 η q m w) (hη : 0 ≤ η) (hq : ∀ i < m, ‖q i‖ ^ 2 ≤ 2) {i j : ℕ} (hi : i < m) (hj : j < m) :
    ‖inner 𝕜 (q i) (w (j + 1)) - (inner 𝕜 (q i) (w j) - inner 𝕜 (q j) (w j) * inner 𝕜 (q i) (q j))‖ ≤ √2 * (η * (1 + η) ^ m * ‖w 0‖) := by
  have e1 : inner 𝕜 (q i) (w (j + 1)) - (inner 𝕜 (q i) (w j) - inner 𝕜 (q j) (w j) * inner 𝕜 (q i) (q j)) =
      inner 𝕜 (q i) (w (j + 1) - (w j - inner 𝕜 (q j) (w j) • q j)) := by
    rw [inner_sub_right, inner_sub_right, inner_smul_right]
  rw [e1]
  refine (norm_inner_le_norm _ _).trans ?_
  have h1 : ‖q i‖ ≤ √2 := Real.le_sqrt_of_sq_le (hq i hi)
  have h2 := hp.norm hη hq j hj.le
  have h3 : (1 + η) ^ j ≤ (1 + η) ^ m := pow_le_pow_right₀ (by linarith) hj.le
  have h4 : η * ‖w j‖ ≤ η * (1 + η) ^ m * ‖w 0‖ := by
    rw [mul_assoc]
    exact mul_le_mul_of_nonneg_left (h2.trans (mul_le_mul_of_nonneg_right h3 (norm_nonneg _))) hη
  exact mul_le_mul h1 ((hp j hj).trans h4) (norm_nonneg _) (Real.sqrt_nonneg _)

/-- The components which are subtracted. -/
theorem Pass.alpha (hp : Pass 𝕜 η q m w) (hη : 0 ≤ η) (hq : ∀ i < m, ‖q i‖ ^ 2 ≤ 2) (hl : Level 𝕜 q m ε ν) (hε0 : 0 ≤ ε) (hε : m * ε ≤ 1 / 5) {b : ℝ}
    (hb : ∀ i < m, ‖inner 𝕜 (q i) (w 0)‖ ≤ b) :
    ∀ j < m, ‖inner 𝕜 (q j) (w j)‖ ≤ 5 / 4 * (b + m * (√2 * (η * (1 + η) ^ m * ‖w 0‖))) := by
  set e := √2 * (η * (1 + η) ^ m * ‖w 0‖) with he
  have he0 : 0 ≤ e := by positivity
  set A := 5 / 4 * (b + m * e) with hA
  intro j
  induction j using Nat.strong_induction_on with
  | _ j ih =>
    intro hj
    have hb0 : 0 ≤ b := (norm_nonneg _).trans (hb j hj)
    have hA0 : 0 ≤ A := by positivity
    have key : ∀ l ≤ j, ‖inner 𝕜 (q j) (w l)‖ ≤ b + l * (ε * A + e) := by
      intro l
      induction l with
      | zero => intro _; simpa using hb j hj
      | succ l ihl =>
        intro hlj
        have h1 := ihl (by omega)
        have h2 := hp.inner_step hη hq hj (show l < m by omega)
        have h3 := ih l (by omega) (by omega)
        have h4 := hl.off j hj l (by omega) (by omega)
        have e1 : inner 𝕜 (q j) (w (l + 1)) = (inner 𝕜 (q j) (w (l + 1)) - (inner 𝕜 (q j) (w l) - inner 𝕜 (q l) (w l) * inner 𝕜 (q j) (q l))) +
            (inner 𝕜 (q j) (w l) - inner 𝕜 (q l) (w l) * inner 𝕜 (q j) (q l)) := by abel
        rw [e1]
        refine (norm_add_le _ _).trans ?_
        have h5 := norm_sub_le (inner 𝕜 (q j) (w l)) (inner 𝕜 (q l) (w l) * inner 𝕜 (q j) (q l))
        rw [norm_mul] at h5
        have h6 : ‖inner 𝕜 (q l) (w l)‖ * ‖inner 𝕜 (q j) (q l)‖ ≤ A * ε := mul_le_mul h3 h4 (norm_nonneg _) hA0
        push_cast
        linarith
    have h1 := key j le_rfl
    have hjm : (j : ℝ) ≤ m := by exact_mod_cast hj.le
    have h2 : (j : ℝ) * (ε * A + e) ≤ m * (ε * A + e) := mul_le_mul_of_nonneg_right hjm (by positivity)
    have h3 : (m : ℝ) * (ε * A + e) = (m * ε) * A + m * e := by ring
    have h4 : (m * ε) * A ≤ 1 / 5 * A := mul_le_mul_of_nonneg_right hε hA0
    have h5 : A = 5 / 4 * (b + m * e) := hA
    linarith

/-- The components after a pass. -/
theorem Pass.after (hp : Pass 𝕜 η q m w) (hη : 0 ≤ η) (hq : ∀ i < m, ‖q i‖ ^ 2 ≤ 2) (hl : Level 𝕜 q m ε ν) (hε0 : 0 ≤ ε) {A : ℝ} (hA0 : 0 ≤ A)
    (hA : ∀ j < m, ‖inner 𝕜 (q j) (w j)‖ ≤ A) :
    ∀ i < m, ‖inner 𝕜 (q i) (w m)‖ ≤ (ν + m * ε) * A + m * (√2 * (η * (1 + η) ^ m * ‖w 0‖)) := by
  set e := √2 * (η * (1 + η) ^ m * ‖w 0‖) with he
  have he0 : 0 ≤ e := by positivity
  intro i hi
  have key : ∀ j, i + 1 ≤ j → j ≤ m → ‖inner 𝕜 (q i) (w j)‖ ≤ ν * A + j * (ε * A + e) := by
    intro j hij
    induction j, hij using Nat.le_induction with
    | base =>
      intro hj
      have h2 := hp.inner_step hη hq hi (show i < m by omega)
      have e1 : inner 𝕜 (q i) (w (i + 1)) = (inner 𝕜 (q i) (w (i + 1)) - (inner 𝕜 (q i) (w i) - inner 𝕜 (q i) (w i) * inner 𝕜 (q i) (q i))) +
          -(inner 𝕜 (q i) (w i) * ((‖q i‖ ^ 2 - 1 : ℝ) : 𝕜)) := by
        rw [inner_self_eq_norm_sq_to_K]
        push_cast
        ring
      rw [e1]
      refine (norm_add_le _ _).trans ?_
      rw [norm_neg, norm_mul, RCLike.norm_ofReal]
      have h3 : ‖inner 𝕜 (q i) (w i)‖ * |‖q i‖ ^ 2 - 1| ≤ A * ν := mul_le_mul (hA i hi) (hl.unit i hi) (abs_nonneg _) hA0
      have h4 : (1 : ℝ) * (ε * A + e) ≤ ((i + 1 : ℕ) : ℝ) * (ε * A + e) := mul_le_mul_of_nonneg_right (by push_cast; linarith [(Nat.cast_nonneg i : (0 : ℝ) ≤ i)]) (by positivity)
      have h5 : 0 ≤ ε * A := by positivity
      linarith
    | succ j hij ih =>
      intro hj
      have h1 := ih (by omega)
      have h2 := hp.inner_step hη hq hi (show j < m by omega)
      have e1 : inner 𝕜 (q i) (w (j + 1)) = (inner 𝕜 (q i) (w (j + 1)) - (inner 𝕜 (q i) (w j) - inner 𝕜 (q j) (w j) * inner 𝕜 (q i) (q j))) +
          (inner 𝕜 (q i) (w j) - inner 𝕜 (q j) (w j) * inner 𝕜 (q i) (q j)) := by abel
      rw [e1]
      refine (norm_add_le _ _).trans ?_
      have h5 := norm_sub_le (inner 𝕜 (q i) (w j)) (inner 𝕜 (q j) (w j) * inner 𝕜 (q i) (q j))
      rw [norm_mul] at h5
      have h6 : ‖inner 𝕜 (q j) (w j)‖ * ‖inner 𝕜 (q i) (q j)‖ ≤ A * ε := mul_le_mul (hA j (by omega)) (hl.off i hi j (by omega) (by omega)) (norm_nonneg _) hA0
      push_cast
      linarith
  have := key m (by omega) le_rfl
  linarith

/-- A pass does not make a vector much shorter if the components are small. -/
theorem Pass.start_le (hp : Pass 𝕜 η q m w) (hη : 0 ≤ η) (hq : ∀ i < m, ‖q i‖ ^ 2 ≤ 2) {A : ℝ} (hA0 : 0 ≤ A) (hA : ∀ j < m, ‖inner 𝕜 (q j) (w j)‖ ≤ A) :
    ‖w 0‖ ≤ ‖w m‖ + m * (√2 * A + η * (1 + η) ^ m * ‖w 0‖) := by
  have key : ∀ j ≤ m, ‖w 0‖ ≤ ‖w j‖ + j * (√2 * A + η * (1 + η) ^ m * ‖w 0‖) := by
    intro j
    induction j with
    | zero => intro _; simp
    | succ j ih =>
      intro hj
      have h1 := ih (by omega)
      have h2 := hp j (by omega)
      have h3 := hp.norm hη hq j (by omega)
      have h4 : (1 + η) ^ j ≤ (1 + η) ^ m := pow_le_pow_right₀ (by linarith) (by omega)
      have h5 : η * ‖w j‖ ≤ η * (1 + η) ^ m * ‖w 0‖ := by
        rw [mul_assoc]
        exact mul_le_mul_of_nonneg_left (h3.trans (mul_le_mul_of_nonneg_right h4 (norm_nonneg _))) hη
      have h6 : ‖inner 𝕜 (q j) (w j) • q j‖ ≤ √2 * A := by
        rw [norm_smul, mul_comm]
        exact mul_le_mul (Real.le_sqrt_of_sq_le (hq j (by omega))) (hA j (by omega)) (norm_nonneg _) (Real.sqrt_nonneg _)
      have e1 : w j = w (j + 1) - (w (j + 1) - (w j - inner 𝕜 (q j) (w j) • q j)) + inner 𝕜 (q j) (w j) • q j := by abel
      have h7 : ‖w j‖ ≤ ‖w (j + 1)‖ + η * (1 + η) ^ m * ‖w 0‖ + √2 * A := by
        conv_lhs => rw [e1]
        refine (norm_add_le _ _).trans (add_le_add ((norm_sub_le _ _).trans ?_) h6)
        linarith
      push_cast
      linarith
  exact key m le_rfl

theorem growth_le {n : ℕ} (hη : 0 ≤ η) (hm : m ≤ n) (h : n * η ≤ 1 / 1000) : (1 + η) ^ m ≤ 1.01 := by
  have h1 : (1 + η) ^ m ≤ (1 + η) ^ n := pow_le_pow_right₀ (by linarith) hm
  have h2 : (1 + η) ^ n ≤ Real.exp (n * η) := by
    have := Real.add_one_le_exp η
    calc (1 + η) ^ n ≤ (Real.exp η) ^ n := pow_le_pow_left₀ (by linarith) (by linarith) n
      _ = Real.exp (n * η) := by rw [← Real.exp_nat_mul]
  have h3 : Real.exp (n * η) ≤ 1.01 := by
    have h4 := Real.abs_exp_sub_one_le (x := n * η) (by rw [abs_of_nonneg (by positivity)]; linarith)
    rw [abs_of_nonneg (by positivity : 0 ≤ (n : ℝ) * η)] at h4
    have := (abs_le.mp h4).2
    linarith
  linarith

/-- Two passes. -/
theorem two_pass {n : ℕ} (hmn : m ≤ n) (hn : 1 ≤ n) (hη : 0 ≤ η) {K : ℝ} (hK : 1 ≤ K) (hT : (n : ℝ) ^ 3 * η * K ≤ 1 / 1000) (hl : Level 𝕜 q m (3 * n * η) (2 * η))
    {v : ℕ → E} (hw : Pass 𝕜 η q m w) (hv : Pass 𝕜 η q m v) (hvw : v 0 = w m) (hX : ‖w 0‖ ≤ 1.05 * K * ‖v m‖) :
    ∀ i < m, ‖inner 𝕜 (q i) (v m)‖ ≤ 1.6 * n * η * ‖v m‖ := by
  have n1 : (1 : ℝ) ≤ n := by exact_mod_cast hn
  have hmn' : (m : ℝ) ≤ n := by exact_mod_cast hmn
  have m0 : (0 : ℝ) ≤ m := Nat.cast_nonneg m
  set s : ℝ := n * η with hs
  set p : ℝ := n * s with hp
  set Z : ℝ := p * K with hZ
  have s0 : 0 ≤ s := by positivity
  have p0 : 0 ≤ p := by positivity
  have Z0 : 0 ≤ Z := by positivity
  have hηs : η ≤ s := by rw [hs]; nlinarith
  have hsp : s ≤ p := by rw [hp]; nlinarith
  have hpZ : p ≤ Z := by rw [hZ]; nlinarith
  have hnZ : n * Z ≤ 1 / 1000 := by
    rw [hZ, hp, hs]
    calc (n : ℝ) * (n * (n * η) * K) = n ^ 3 * η * K := by ring
      _ ≤ _ := hT
  have hZ1 : Z ≤ 1 / 1000 := by nlinarith
  have hp1 : p ≤ 1 / 1000 := hpZ.trans hZ1
  have hs1 : s ≤ 1 / 1000 := hsp.trans hp1
  have hη1 : η ≤ 1 / 1000 := hηs.trans hs1
  have hq : ∀ i < m, ‖q i‖ ^ 2 ≤ 2 := fun i hi => by
    have := (abs_le.mp (hl.unit i hi)).2
    linarith
  have hr2 : √2 ≤ 1.415 := by
    rw [Real.sqrt_le_left (by norm_num)]
    norm_num
  have r20 : 0 ≤ √2 := Real.sqrt_nonneg _
  have hG := growth_le (m := m) (n := n) hη hmn (by rw [← hs]; exact hs1)
  have hG0 : 0 ≤ (1 + η) ^ m := by positivity
  have hms : (m : ℝ) * η ≤ s := mul_le_mul_of_nonneg_right hmn' hη
  have hε0 : 0 ≤ 3 * n * η := by positivity
  have hε3 : 3 * n * η = 3 * s := by rw [hs]; ring
  have hmε : m * (3 * n * η) ≤ 3 * p := by
    rw [hε3, hp]
    nlinarith
  have hνε : 2 * η + m * (3 * n * η) ≤ 5 * p := by linarith
  have hνε0 : 0 ≤ 2 * η + m * (3 * n * η) := by positivity
  -- the error term of a pass
  have herr : ∀ x : ℝ, 0 ≤ x → m * (√2 * (η * (1 + η) ^ m * x)) ≤ 1.43 * s * x := by
    intro x hx
    have h1 : √2 * (1 + η) ^ m ≤ 1.43 := by
      calc √2 * (1 + η) ^ m ≤ 1.415 * 1.01 := mul_le_mul hr2 hG hG0 (by norm_num)
        _ ≤ 1.43 := by norm_num
    have h2 : m * (√2 * (η * (1 + η) ^ m * x)) = (√2 * (1 + η) ^ m) * (m * η) * x := by ring
    rw [h2]
    refine mul_le_mul_of_nonneg_right ?_ hx
    exact mul_le_mul h1 hms (by positivity) (by norm_num)
  set W := ‖v m‖ with hW
  have W0 : 0 ≤ W := norm_nonneg _
  set X := ‖w 0‖ with hXd
  have X0 : 0 ≤ X := norm_nonneg _
  -- first pass
  have hb1 : ∀ i < m, ‖inner 𝕜 (q i) (w m)‖ ≤ 9.1 * Z * W := by
    have hA : ∀ j < m, ‖inner 𝕜 (q j) (w j)‖ ≤ 1.43 * X := by
      intro j hj
      refine (norm_inner_le_norm _ _).trans ?_
      have h1 : ‖q j‖ ≤ 1.415 := (Real.le_sqrt_of_sq_le (hq j hj)).trans hr2
      have h2 := hw.norm hη hq j hj.le
      have h3 := growth_le (m := j) (n := n) hη (by omega) (by rw [← hs]; exact hs1)
      have h4 : ‖w j‖ ≤ 1.01 * X := h2.trans (mul_le_mul_of_nonneg_right h3 X0)
      calc ‖q j‖ * ‖w j‖ ≤ 1.415 * (1.01 * X) := mul_le_mul h1 h4 (norm_nonneg _) (by norm_num)
        _ ≤ 1.43 * X := by linarith
    intro i hi
    have h1 := hw.after hη hq hl hε0 (by positivity) hA i hi
    have h2 := herr X X0
    have h3 : (2 * η + m * (3 * n * η)) * (1.43 * X) ≤ 5 * p * (1.43 * X) := mul_le_mul_of_nonneg_right hνε (by positivity)
    have h4 : s * X ≤ p * X := mul_le_mul_of_nonneg_right hsp X0
    have h5 : p * X ≤ p * (1.05 * K * W) := mul_le_mul_of_nonneg_left hX p0
    have h6 : p * (1.05 * K * W) = 1.05 * (Z * W) := by rw [hZ]; ring
    have h7 : 0 ≤ Z * W := by positivity
    rw [h6] at h5
    linarith
  -- second pass
  have hlm : (m : ℝ) * (3 * n * η) ≤ 1 / 5 := by linarith
  have hA2 := hv.alpha hη hq hl hε0 hlm (b := 9.1 * Z * W) (fun i hi => by rw [hvw]; exact hb1 i hi)
  set Y := ‖v 0‖ with hY
  have Y0 : 0 ≤ Y := norm_nonneg _
  set A := 5 / 4 * (9.1 * Z * W + m * (√2 * (η * (1 + η) ^ m * Y))) with hAd
  have hA0 : 0 ≤ A := by positivity
  have hAle : A ≤ 11.4 * (Z * W) + 1.8 * (s * Y) := by
    have h1 := herr Y Y0
    have h2 : 0 ≤ Z * W := by positivity
    have h3 : 0 ≤ s * Y := by positivity
    rw [hAd]
    linarith
  have hYW : Y ≤ 1.03 * W := by
    have h1 := hv.start_le hη hq hA0 hA2
    have h2 : m * (√2 * A + η * (1 + η) ^ m * Y) ≤ 1.415 * (n * A) + 1.01 * (s * Y) := by
      have h3 : m * (√2 * A) ≤ 1.415 * (n * A) := by
        calc m * (√2 * A) ≤ n * (1.415 * A) := mul_le_mul hmn' (mul_le_mul_of_nonneg_right hr2 hA0) (by positivity) (by positivity)
          _ = _ := by ring
      have h4 : m * (η * (1 + η) ^ m * Y) ≤ 1.01 * (s * Y) := by
        calc m * (η * (1 + η) ^ m * Y) = (m * η) * ((1 + η) ^ m * Y) := by ring
          _ ≤ s * (1.01 * Y) := mul_le_mul hms (mul_le_mul_of_nonneg_right hG Y0) (by positivity) s0
          _ = _ := by ring
      linarith
    have h3 : n * A ≤ 11.4 * (n * Z * W) + 1.8 * (p * Y) := by
      have := mul_le_mul_of_nonneg_left hAle (show (0 : ℝ) ≤ n by positivity)
      rw [hp]
      linarith
    have h4 : n * Z * W ≤ 1 / 1000 * W := mul_le_mul_of_nonneg_right hnZ W0
    have h5 : p * Y ≤ 1 / 1000 * Y := mul_le_mul_of_nonneg_right hp1 Y0
    have h6 : s * Y ≤ 1 / 1000 * Y := mul_le_mul_of_nonneg_right hs1 Y0
    linarith
  intro i hi
  have h1 := hv.after hη hq hl hε0 hA0 hA2 i hi
  have h2 := herr Y Y0
  have h3 : (2 * η + m * (3 * n * η)) * A ≤ 5 * p * A := mul_le_mul_of_nonneg_right hνε hA0
  have h4 : p * A ≤ 11.4 * (p * Z * W) + 1.8 * (p * (s * Y)) := by
    have := mul_le_mul_of_nonneg_left hAle p0
    linarith
  have h5 : p * Z * W ≤ 1 / 1000 * (s * W) := by
    have h6 : p * Z = s * (n * Z) := by rw [hp]; ring
    rw [h6]
    have := mul_le_mul_of_nonneg_left hnZ s0
    have := mul_le_mul_of_nonneg_right this W0
    linarith
  have h6 : p * (s * Y) ≤ 1 / 1000 * (s * Y) := mul_le_mul_of_nonneg_right hp1 (by positivity)
  have h7 : s * Y ≤ 1.03 * (s * W) := by
    have := mul_le_mul_of_nonneg_left hYW s0
    linarith
  have h8 : 0 ≤ s * W := by positivity
  have h9 : 1.6 * n * η * W = 1.6 * (s * W) := by rw [hs]; ring
  rw [h9]
  linarith

end Krypy.Reortho
