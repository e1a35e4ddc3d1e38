import Verif.Model.Qr
import Verif.Proofs.Inner

/-! # Property C11: QR factorisation with a user inner product -/

namespace Krypy
variable {𝕜 E : Type*} [RCLike 𝕜] [AddCommGroup E] [Module 𝕜 E]
open Finset

/-- The first `n` vectors of `Q` are pairwise orthogonal and each of them is a unit vector or zero. -/
def OrthoOrZero (ip : E → E → 𝕜) (n : ℕ) (Q : ℕ → E) : Prop :=
  (∀ i < n, ∀ j < n, i ≠ j → ip (Q i) (Q j) = 0) ∧ ∀ i < n, Q i = 0 ∨ ip (Q i) (Q i) = 1

theorem OrthoOrZero.proj {ip : E → E → 𝕜} (h : IsInner ip) {n : ℕ} {Q : ℕ → E}
    (hQ : OrthoOrZero ip n Q) (q : E) {i m : ℕ} (hi : i < n) (hm : m ≤ n) :
    ip (Q i) (q - ∑ j ∈ range m, ip (Q j) q • Q j) = if i < m then 0 else ip (Q i) q := by
  rw [h.sub_right, h.sum_right]
  split
  · next him =>
    rw [sum_eq_single i]
    · rw [h.smul_right]
      rcases hQ.2 i hi with h0 | h1
      · simp [h0, h.zero_left]
      · rw [h1]; simp
    · intro j hj hne
      rw [h.smul_right, hQ.1 i hi j (by have := mem_range.mp hj; omega) (Ne.symm hne), mul_zero]
    · intro hn; exact absurd (mem_range.mpr him) hn
  · next him =>
    rw [sum_eq_zero, sub_zero]
    intro j hj
    have := mem_range.mp hj
    rw [h.smul_right, hQ.1 i hi j (by omega) (by omega), mul_zero]

/-- One pass subtracts the orthogonal projection. -/
theorem qrPass_eq {ip : E → E → 𝕜} (h : IsInner ip) {n : ℕ} {Q : ℕ → E} (hQ : OrthoOrZero ip n Q)
    (q : E) (r : ℕ → 𝕜) (i : ℕ) (hi : i ≤ n) :
    qrPass ip Q i (q, r) = (q - ∑ j ∈ range i, ip (Q j) q • Q j,
      fun j => if j < i then r j + ip (Q j) q else r j) := by
  induction i with
  | zero => simp [qrPass]
  | succ i ih =>
    simp only [qrPass, ih (by omega)]
    have : ip (Q i) (q - ∑ j ∈ range i, ip (Q j) q • Q j) = ip (Q i) q := by
      rw [hQ.proj h q (by omega) (by omega)]; simp
    rw [this]
    congr 1
    · rw [sum_range_succ]; abel
    · funext j
      by_cases hj : j = i
      · subst hj; simp
      · have : (j < i + 1) = (j < i) := by
          apply propext; omega
        simp [hj, this]

/-- All further passes change nothing. -/
theorem qrPasses_eq {ip : E → E → 𝕜} (h : IsInner ip) {n : ℕ} {Q : ℕ → E} (hQ : OrthoOrZero ip n Q)
    (q : E) (r : ℕ → 𝕜) (p : ℕ) :
    qrPasses ip Q n (p + 1) (q, r) = (q - ∑ j ∈ range n, ip (Q j) q • Q j,
      fun j => if j < n then r j + ip (Q j) q else r j) := by
  induction p with
  | zero => exact qrPass_eq h hQ q r n le_rfl
  | succ p ih =>
    rw [qrPasses, ih, qrPass_eq h hQ _ _ n le_rfl]
    have : ∀ j < n, ip (Q j) (q - ∑ j ∈ range n, ip (Q j) q • Q j) = 0 := by
      intro j hj
      rw [hQ.proj h q hj le_rfl, if_pos hj]
    congr 1
    · rw [sub_eq_self]
      refine sum_eq_zero fun j hj => ?_
      rw [this j (mem_range.mp hj), zero_smul]
    · funext j
      split
      · next hj => rw [this j hj, add_zero]
      · rfl

/-- The residual column before normalisation. -/
def gsResidual (ip : E → E → 𝕜) (Q : ℕ → E) (i : ℕ) (x : E) : E :=
  x - ∑ j ∈ range i, ip (Q j) x • Q j

theorem qrCol_eq {ip : E → E → 𝕜} (h : IsInner ip) {i : ℕ} {Q : ℕ → E} (hQ : OrthoOrZero ip i Q)
    (R : ℕ → ℕ → 𝕜) (hR : ∀ j, R j i = 0) (reorthos : ℕ) :
    qrCol ip reorthos i Q R = .ok (Function.update Q i
        (if 1e-15 ≤ nrm ip (gsResidual ip Q i (Q i)) then
          ((nrm ip (gsResidual ip Q i (Q i)) : ℝ) : 𝕜)⁻¹ • gsResidual ip Q i (Q i)
        else gsResidual ip Q i (Q i)),
      fun a b => if b = i then
        (if a = i then ((nrm ip (gsResidual ip Q i (Q i)) : ℝ) : 𝕜)
          else if a < i then ip (Q a) (Q i) else 0) else R a b) := by
  unfold qrCol
  rw [qrPasses_eq h hQ]
  simp only [h.npNorm_self]
  congr 2
  funext a b
  by_cases hb : b = i
  · simp only [hb, if_true]
    by_cases ha : a = i
    · simp [ha, gsResidual]
    · simp [ha, hR]
  · simp [hb]

/-- Invariant of the column loop after `i` columns. -/
structure QrInv (ip : E → E → 𝕜) (X : ℕ → E) (i : ℕ) (Q : ℕ → E) (R : ℕ → ℕ → 𝕜) : Prop where
  rest : ∀ j, i ≤ j → Q j = X j
  restR : ∀ a b, i ≤ b → R a b = 0
  upper : ∀ a b, b < a → R a b = 0
  diag : ∀ a < i, ∃ d : ℝ, 0 ≤ d ∧ R a a = (d : 𝕜)
  coef : ∀ a b, a < b → b < i → R a b = ip (Q a) (X b)
  orth : OrthoOrZero ip i Q
  fact : ∀ a < i, X a = ∑ j ∈ range (a + 1), R j a • Q j
  zero : ∀ a < i, R a a = 0 ↔ Q a = 0

theorem gsResidual_orth {ip : E → E → 𝕜} (h : IsInner ip) {i : ℕ} {Q : ℕ → E}
    (hQ : OrthoOrZero ip i Q) (x : E) {j : ℕ} (hj : j < i) : ip (Q j) (gsResidual ip Q i x) = 0 := by
  unfold gsResidual
  rw [hQ.proj h x hj le_rfl, if_pos hj]

theorem OrthoOrZero.extend {ip : E → E → 𝕜} (h : IsInner ip) {i : ℕ} {Q : ℕ → E}
    (hQ : OrthoOrZero ip i Q) {q : E} (ho : ∀ j < i, ip (Q j) q = 0) (hq : q = 0 ∨ ip q q = 1) :
    OrthoOrZero ip (i + 1) (Function.update Q i q) := by
  have e : ∀ a, Function.update Q i q a = if a = i then q else Q a := fun a => by
    by_cases ha : a = i
    · subst ha; simp
    · simp [ha]
  constructor
  · intro a ha b hb hab
    rw [e, e]
    by_cases h1 : a = i
    · have h2 : b ≠ i := fun h2 => hab (h1.trans h2.symm)
      rw [if_pos h1, if_neg h2]
      exact h.orth_symm (ho b (by omega))
    · by_cases h2 : b = i
      · rw [if_neg h1, if_pos h2]; exact ho a (by omega)
      · rw [if_neg h1, if_neg h2]; exact hQ.1 a (by omega) b (by omega) hab
  · intro a ha
    rw [e]
    by_cases h1 : a = i
    · rw [if_pos h1]; exact hq
    · rw [if_neg h1]; exact hQ.2 a (by omega)

theorem nrm_normalise {ip : E → E → 𝕜} (h : IsInner ip) {x : E} (hx : nrm ip x ≠ 0) :
    ip (((nrm ip x : ℝ) : 𝕜)⁻¹ • x) (((nrm ip x : ℝ) : 𝕜)⁻¹ • x) = 1 := by
  have h1 : nsq ip (((nrm ip x : ℝ) : 𝕜)⁻¹ • x) = 1 := by
    rw [h.nsq_smul, ← h.nrm_sq, norm_inv, RCLike.norm_ofReal, abs_of_nonneg (nrm_nonneg ip x)]
    field_simp
  rw [h.self_real, h1]; simp

/-- The diagonal entries are exactly zero or not below the threshold of utils.py 703. -/
def DiagOK (k : ℕ) (R : ℕ → ℕ → 𝕜) : Prop :=
  ∀ a < k, R a a = 0 ∨ (1e-15 : ℝ) ≤ RCLike.re (R a a)

theorem QrInv.step {ip : E → E → 𝕜} (h : IsInner ip) {X : ℕ → E} {i : ℕ} {Q : ℕ → E}
    {R : ℕ → ℕ → 𝕜} (hI : QrInv ip X i Q R) {reorthos : ℕ} {Q' : ℕ → E} {R' : ℕ → ℕ → 𝕜}
    (hc : qrCol ip reorthos i Q R = .ok (Q', R'))
    (hd : R' i i = 0 ∨ (1e-15 : ℝ) ≤ RCLike.re (R' i i)) : QrInv ip X (i + 1) Q' R' := by
  rw [qrCol_eq h hI.orth R (fun j => hI.restR j i le_rfl)] at hc
  rw [hI.rest i le_rfl] at hc
  set w := gsResidual ip Q i (X i) with hw
  simp only [Except.ok.injEq, Prod.mk.injEq] at hc
  obtain ⟨rfl, rfl⟩ := hc
  simp only [if_true, RCLike.ofReal_eq_zero, RCLike.ofReal_re] at hd
  have ho : ∀ j < i, ip (Q j) w = 0 := fun j hj => gsResidual_orth h hI.orth _ hj
  have e : ∀ (q : E) (a : ℕ), a ≠ i → Function.update Q i q a = Q a := fun q a ha => by simp [ha]
  have hXi : X i = ∑ j ∈ range i, ip (Q j) (X i) • Q j + w := by
    rw [hw, gsResidual]; abel
  -- the new column
  set q : E := if (1e-15 : ℝ) ≤ nrm ip w then ((nrm ip w : ℝ) : 𝕜)⁻¹ • w else w with hq
  have hqw : ((nrm ip w : ℝ) : 𝕜) • q = w ∧ (q = 0 ∨ ip q q = 1) ∧ (nrm ip w = 0 ↔ q = 0) ∧
      ∀ j < i, ip (Q j) q = 0 := by
    by_cases h1 : (1e-15 : ℝ) ≤ nrm ip w
    · have hn : nrm ip w ≠ 0 := by
        intro h0; rw [h0] at h1; norm_num at h1
      have hn' : ((nrm ip w : ℝ) : 𝕜) ≠ 0 := by simpa using hn
      rw [hq, if_pos h1]
      refine ⟨by rw [smul_smul, mul_inv_cancel₀ hn', one_smul], .inr (nrm_normalise h hn), ?_, ?_⟩
      · constructor
        · intro h0; exact absurd h0 hn
        · intro h0
          rcases smul_eq_zero.mp h0 with h2 | h2
          · exact absurd (inv_eq_zero.mp h2) hn'
          · exact h.nrm_eq_zero.mpr h2
      · intro j hj; rw [h.smul_right, ho j hj, mul_zero]
    · have hn : nrm ip w = 0 := by
        rcases hd with h0 | h0
        · exact h0
        · exact absurd h0 h1
      have hw0 : w = 0 := h.nrm_eq_zero.mp hn
      rw [hq, if_neg h1]
      exact ⟨by simp [hw0], .inl hw0, ⟨fun _ => hw0, fun _ => hn⟩, ho⟩
  constructor
  · intro j hj; rw [e _ _ (by omega)]; exact hI.rest j (by omega)
  · intro a b hb; rw [if_neg (by omega)]; exact hI.restR a b (by omega)
  · intro a b hab
    by_cases hb : b = i
    · rw [if_pos hb, if_neg (by omega), if_neg (by omega)]
    · rw [if_neg hb]; exact hI.upper a b hab
  · intro a ha
    by_cases hb : a = i
    · rw [if_pos hb, if_pos hb]; exact ⟨_, nrm_nonneg ip w, rfl⟩
    · rw [if_neg hb]; exact hI.diag a (by omega)
  · intro a b hab hb
    rw [e _ a (by omega)]
    by_cases hbi : b = i
    · rw [if_pos hbi, if_neg (by omega), if_pos (by omega), hbi]
    · rw [if_neg hbi]; exact hI.coef a b hab (by omega)
  · exact hI.orth.extend h hqw.2.2.2 hqw.2.1
  · intro a ha
    by_cases hai : a = i
    · subst hai
      rw [sum_range_succ]
      simp only [if_true, Function.update_self]
      rw [hqw.1]
      conv_lhs => rw [hXi]
      congr 1
      refine sum_congr rfl fun j hj => ?_
      have := mem_range.mp hj
      rw [e _ j (by omega), if_neg (by omega), if_pos this]
    · rw [hI.fact a (by omega)]
      refine sum_congr rfl fun j hj => ?_
      have := mem_range.mp hj
      rw [e _ j (by omega), if_neg hai]
  · intro a ha
    by_cases hai : a = i
    · subst hai
      simp only [if_true, Function.update_self, RCLike.ofReal_eq_zero]
      exact hqw.2.2.1
    · rw [if_neg hai, e _ a hai]; exact hI.zero a (by omega)

theorem qrCol_ok {ip : E → E → 𝕜} (h : IsInner ip) (reorthos i : ℕ) (Q : ℕ → E)
    (R : ℕ → ℕ → 𝕜) : ∃ Q' R', qrCol ip reorthos i Q R = .ok (Q', R') ∧
      ∀ a b, b ≠ i → R' a b = R a b := by
  unfold qrCol
  simp only [h.npNorm_self]
  exact ⟨_, _, rfl, fun a b hb => by simp [hb]⟩

/-- The loop never fails. -/
theorem qrLoop_total {ip : E → E → 𝕜} (h : IsInner ip) (reorthos : ℕ) (X : ℕ → E) (k : ℕ) :
    ∃ Q R, qrLoop ip reorthos X k = .ok (Q, R) := by
  induction k with
  | zero => exact ⟨_, _, rfl⟩
  | succ i ih =>
    obtain ⟨Q, R, hq⟩ := ih
    obtain ⟨Q', R', h1, -⟩ := qrCol_ok h reorthos i Q R
    exact ⟨Q', R', by simp [qrLoop, hq, h1]⟩

theorem qrLoop_inv {ip : E → E → 𝕜} (h : IsInner ip) {reorthos : ℕ} {X : ℕ → E} {k : ℕ} :
    ∀ {Q : ℕ → E} {R : ℕ → ℕ → 𝕜}, qrLoop ip reorthos X k = .ok (Q, R) → DiagOK k R →
      QrInv ip X k Q R := by
  induction k with
  | zero =>
    intro Q R hl _
    simp only [qrLoop, Except.ok.injEq, Prod.mk.injEq] at hl
    obtain ⟨rfl, rfl⟩ := hl
    exact ⟨fun _ _ => rfl, fun _ _ _ => rfl, fun _ _ _ => rfl, by simp, by simp,
      ⟨by simp, by simp⟩, by simp, by simp⟩
  | succ i ih =>
    intro Q' R' hl hd
    obtain ⟨Q, R, hq⟩ := qrLoop_total h reorthos X i
    simp only [qrLoop, hq] at hl
    obtain ⟨Q2, R2, h1, h2⟩ := qrCol_ok h reorthos i Q R
    rw [hl] at h1
    simp only [Except.ok.injEq, Prod.mk.injEq] at h1
    obtain ⟨rfl, rfl⟩ := h1
    refine (ih hq ?_).step h hl (hd i (by omega))
    intro a ha
    rw [← h2 a a (by omega)]
    exact hd a (by omega)

/-- C11: for every inner product, every number of columns and every number of
reorthogonalisations, `qr` succeeds; if no diagonal entry of `R` is below the `1e-15` threshold of the
code, then `X = Q R`, `R` is upper triangular with real non-negative diagonal and `Q` is orthonormal. -/
theorem C11_qr {ip : E → E → 𝕜} (h : IsInner ip) (reorthos : ℕ) (X : ℕ → E) (k : ℕ) :
    ∃ Q R, qrLoop ip reorthos X k = .ok (Q, R) ∧
      ((∀ i < k, (1e-15 : ℝ) ≤ RCLike.re (R i i)) →
        (∀ b < k, X b = ∑ a ∈ range k, R a b • Q a) ∧
        (∀ a b, b < a → R a b = 0) ∧
        (∀ a < k, ∃ d : ℝ, 0 < d ∧ R a a = (d : 𝕜)) ∧
        (∀ a < k, ∀ b < k, ip (Q a) (Q b) = if a = b then 1 else 0)) := by
  obtain ⟨Q, R, hq⟩ := qrLoop_total h reorthos X k
  refine ⟨Q, R, hq, fun hd => ?_⟩
  have hI := qrLoop_inv h hq (fun a ha => .inr (hd a ha))
  refine ⟨fun b hb => ?_, hI.upper, fun a ha => ?_, fun a ha b hb => ?_⟩
  · rw [hI.fact b hb]
    apply sum_subset_zero_on_sdiff (s₁ := range (b + 1)) (s₂ := range k)
    · intro j hj; simp only [mem_range] at hj ⊢; omega
    · intro j hj
      simp only [mem_sdiff, mem_range] at hj
      rw [hI.upper j b (by omega), zero_smul]
    · intro j _; rfl
  · obtain ⟨d, hd0, hd1⟩ := hI.diag a ha
    refine ⟨d, ?_, hd1⟩
    have := hd a ha
    rw [hd1, RCLike.ofReal_re] at this
    exact lt_of_lt_of_le (by norm_num) this
  · by_cases hab : a = b
    · subst hab
      rw [if_pos rfl]
      refine (hI.orth.2 a ha).resolve_left fun h0 => ?_
      have h1 := hd a ha
      rw [(hI.zero a ha).mpr h0] at h1
      simp at h1
      norm_num at h1
    · rw [if_neg hab]; exact hI.orth.1 a ha b hb hab

/-- C11: rank-deficient input with exact zeros on the diagonal still gives `X = Q R`; the
corresponding columns of `Q` are zero. -/
theorem C11_rank_deficient {ip : E → E → 𝕜} (h : IsInner ip) (reorthos : ℕ) (X : ℕ → E) (k : ℕ)
    {Q : ℕ → E} {R : ℕ → ℕ → 𝕜} (hq : qrLoop ip reorthos X k = .ok (Q, R)) (hd : DiagOK k R) :
    (∀ b < k, X b = ∑ a ∈ range (b + 1), R a b • Q a) ∧ OrthoOrZero ip k Q ∧
    ∀ a < k, (R a a = 0 ↔ Q a = 0) :=
  let hI := qrLoop_inv h hq hd
  ⟨hI.fact, hI.orth, hI.zero⟩

/-- C11: in exact arithmetic the result does not depend on the number of reorthogonalisations. -/
theorem C11_reorthos {ip : E → E → 𝕜} (h : IsInner ip) (r₁ r₂ : ℕ) (X : ℕ → E) (k : ℕ)
    {Q : ℕ → E} {R : ℕ → ℕ → 𝕜} (hq : qrLoop ip r₁ X k = .ok (Q, R)) (hd : DiagOK k R) :
    qrLoop ip r₂ X k = .ok (Q, R) := by
  induction k generalizing Q R with
  | zero => exact hq
  | succ i ih =>
    obtain ⟨Q0, R0, hq0⟩ := qrLoop_total h r₁ X i
    simp only [qrLoop, hq0] at hq
    obtain ⟨Q2, R2, h1, h2⟩ := qrCol_ok h r₁ i Q0 R0
    rw [hq] at h1
    simp only [Except.ok.injEq, Prod.mk.injEq] at h1
    obtain ⟨rfl, rfl⟩ := h1
    have hd0 : DiagOK i R0 := by
      intro a ha
      rw [← h2 a a (by omega)]
      exact hd a (by omega)
    have hI := qrLoop_inv h hq0 hd0
    simp only [qrLoop, ih hq0 hd0]
    rw [qrCol_eq h hI.orth R0 (fun j => hI.restR j i le_rfl)] at hq ⊢
    exact hq

theorem isInner_mul : IsInner (fun x y : ℝ => x * y) where
  add_right := mul_add
  smul_right x c y := by simp; ring
  conj_symm x y := by simp [mul_comm]
  pos x hx := by simpa using mul_self_pos.mpr hx

/-- Finding (C11): for a non-zero column below the threshold, `X ≠ Q R`. -/
theorem C11_threshold_counterexample :
    ∃ Q R, qrLoop (fun x y : ℝ => x * y) 1 (fun _ => 1e-16) 1 = .ok (Q, R) ∧
      Q 0 = 1e-16 ∧ R 0 0 = 1e-16 ∧ (1e-16 : ℝ) ≠ R 0 0 • Q 0 := by
  have h := qrCol_eq isInner_mul (i := 0) (Q := fun _ => (1e-16 : ℝ)) ⟨by simp, by simp⟩
    (fun _ _ => (0 : ℝ)) (fun _ => rfl) 1
  have hn : nrm (fun x y : ℝ => x * y) (gsResidual (fun x y : ℝ => x * y) (fun _ => (1e-16 : ℝ)) 0
      1e-16) = 1e-16 := by
    unfold nrm nsq gsResidual
    simp only [range_zero, sum_empty, sub_zero, RCLike.re_to_real]
    rw [Real.sqrt_mul_self (by norm_num)]
  refine ⟨_, _, by simp only [qrLoop]; exact h, ?_, ?_, ?_⟩
  · simp only [Function.update_self, hn]
    rw [if_neg (by norm_num)]
    simp [gsResidual]
  · simp [hn]
  · simp only [Function.update_self, if_true, hn]
    rw [if_neg (by norm_num)]
    simp [gsResidual]
    norm_num

/-- Non-vacuity of C11: a regular case (the hypothesis on the diagonal holds). -/
example : ∃ Q R, qrLoop (fun x y : ℝ => x * y) 1 (fun _ => 3) 1 = .ok (Q, R) ∧
    ∀ i < 1, (1e-15 : ℝ) ≤ RCLike.re (R i i) := by
  have h := qrCol_eq isInner_mul (i := 0) (Q := fun _ => (3 : ℝ)) ⟨by simp, by simp⟩
    (fun _ _ => (0 : ℝ)) (fun _ => rfl) 1
  have hn : nrm (fun x y : ℝ => x * y) (gsResidual (fun x y : ℝ => x * y) (fun _ => (3 : ℝ)) 0 3)
      = 3 := by
    unfold nrm nsq gsResidual
    simp only [range_zero, sum_empty, sub_zero, RCLike.re_to_real]
    rw [Real.sqrt_mul_self (by norm_num)]
  refine ⟨_, _, by simp only [qrLoop]; exact h, ?_⟩
  intro i hi
  obtain rfl : i = 0 := by omega
  simp [hn]
  norm_num

end Krypy
