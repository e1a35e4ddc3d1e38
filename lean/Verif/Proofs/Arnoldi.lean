import Verif.Model.Arnoldi
import Verif.Props.LinearSystem
import Mathlib.Algebra.BigOperators.Intervals

/-! # Invariants of the Arnoldi iteration (mgs, dmgs, lanczos) -/

set_option linter.unusedSectionVars false

namespace Krypy
variable {𝕜 E : Type*} [RCLike 𝕜] [AddCommGroup E] [Module 𝕜 E]
open scoped ComplexConjugate
open Finset

/-- The inner product `⟨x, M y⟩` of the Arnoldi iteration. -/
def ArnCfg.g (c : ArnCfg 𝕜 E) (x y : E) : 𝕜 := c.ip x (c.Mop y)

/-- Admissible parameters: `ip` and `⟨x, M y⟩` are inner products and, for Lanczos, `A` is self-adjoint. -/
structure ArnHyp (c : ArnCfg 𝕜 E) : Prop where
  ls : LSHyp c.ip c.Mop
  sa : c.ortho = .lanczos → ∀ x y, c.ip (c.A x) y = c.ip x (c.A y)

theorem ArnHyp.inner {c : ArnCfg 𝕜 E} (h : ArnHyp c) : IsInner c.g := h.ls.prec

/-- The facts about basis vectors `P_0, ..., P_k` and columns `0, ..., k-1` of `H`. -/
structure ArnCore (c : ArnCfg 𝕜 E) (v : E) (k : ℕ) (s : Arn 𝕜 E) : Prop where
  vpos : 0 < s.vnorm
  start : (s.vnorm : 𝕜) • s.P 0 = v
  orth : ∀ i ≤ k, ∀ j ≤ k, c.g (s.P i) (s.P j) = if i = j then 1 else 0
  VM : ∀ i ≤ k, s.V i = c.Mop (s.P i)
  rel : ∀ j < k, c.A (s.V j) = ∑ i ∈ range (j + 2), s.H i j • s.P i
  sub : ∀ j < k, ∃ r : ℝ, 0 < r ∧ s.H (j + 1) j = (r : 𝕜)
  hess : ∀ i j, j + 1 < i → s.H i j = 0

/-- The last column after the space was flagged invariant: remainder `w`. -/
structure ArnLast (c : ArnCfg 𝕜 E) (k : ℕ) (s : Arn 𝕜 E) (w : E) : Prop where
  rel : c.A (s.V k) = ∑ i ∈ range (k + 1), s.H i k • s.P i + w
  orth : ∀ i ≤ k, c.g (s.P i) w = 0
  norm : s.H (k + 1) k = (nrm c.g w : 𝕜)
  small : nrm c.g w ≤ 1e-14 * specNorm s.H (k + 2) (k + 1)
  nonzero : specNorm s.H (k + 2) (k + 1) ≠ 0

/-- The invariant of the object. -/
structure ArnInv (c : ArnCfg 𝕜 E) (v : E) (s : Arn 𝕜 E) : Prop where
  le : s.iter ≤ c.maxiter
  vnorm : s.vnorm = nrm c.g v
  zero : ∀ i j, s.iter ≤ j → s.H i j = 0
  live : s.invariant = false → ArnCore c v s.iter s
  flagged : s.invariant = true → (v = 0 ∧ s.iter = 0) ∨
    ∃ k w, s.iter = k + 1 ∧ ArnCore c v k s ∧ ArnLast c k s w

section spec
open scoped Matrix.Norms.L2Operator
theorem specNorm_eq_zero {H : ℕ → ℕ → 𝕜} {m n : ℕ} :
    specNorm H m n = 0 ↔ ∀ i < m, ∀ j < n, H i j = 0 := by
  unfold specNorm
  rw [norm_eq_zero]
  constructor
  · intro h i hi j hj
    exact congrFun (congrFun h ⟨i, hi⟩) ⟨j, hj⟩
  · intro h
    ext i j
    exact h i i.2 j j.2

theorem specNorm_nonneg (H : ℕ → ℕ → 𝕜) (m n : ℕ) : 0 ≤ specNorm H m n := by
  unfold specNorm; exact norm_nonneg _
/-- The spectral norm is at most the Frobenius norm. -/
theorem specNorm_le_frobenius (H : ℕ → ℕ → 𝕜) (m n : ℕ) :
    specNorm H m n ≤ Real.sqrt (∑ i : Fin m, ∑ j : Fin n, ‖H i j‖ ^ 2) := by
  unfold specNorm
  rw [Matrix.l2_opNorm_def]
  refine ContinuousLinearMap.opNorm_le_bound _ (Real.sqrt_nonneg _) fun x => ?_
  rw [EuclideanSpace.norm_eq, EuclideanSpace.norm_eq, ← Real.sqrt_mul (by positivity)]
  apply Real.sqrt_le_sqrt
  rw [Finset.sum_mul]
  refine Finset.sum_le_sum fun i _ => ?_
  change ‖∑ j : Fin n, H i j * x j‖ ^ 2 ≤ _
  calc ‖∑ j : Fin n, H i j * x j‖ ^ 2 ≤ (∑ j : Fin n, ‖H i j‖ * ‖x j‖) ^ 2 := by
        gcongr
        exact (norm_sum_le _ _).trans (le_of_eq (by simp))
    _ ≤ _ := Finset.sum_mul_sq_le_sq_mul_sq _ _ _

/-- Every entry is at most the spectral norm. -/
theorem norm_le_specNorm (H : ℕ → ℕ → 𝕜) {m n i j : ℕ} (hi : i < m) (hj : j < n) :
    ‖H i j‖ ≤ specNorm H m n := by
  have := Matrix.l2_opNorm_mulVec (Matrix.of fun (i : Fin m) (j : Fin n) => H i j)
    (WithLp.toLp 2 (Pi.single ⟨j, hj⟩ (1 : 𝕜)))
  have h1 : ‖(WithLp.toLp 2 (Pi.single ⟨j, hj⟩ (1 : 𝕜)) : EuclideanSpace 𝕜 (Fin n))‖ = 1 := by
    simp
  rw [h1, mul_one] at this
  refine le_trans ?_ this
  have h2 := EuclideanSpace.norm_eq ((EuclideanSpace.equiv (Fin m) 𝕜).symm
    ((Matrix.of fun (i : Fin m) (j : Fin n) => H i j).mulVec (Pi.single ⟨j, hj⟩ (1 : 𝕜))))
  have h3 : ‖H i j‖ ^ 2 ≤ ∑ i : Fin m, ‖((EuclideanSpace.equiv (Fin m) 𝕜).symm
    ((Matrix.of fun (i : Fin m) (j : Fin n) => H i j).mulVec (Pi.single ⟨j, hj⟩ (1 : 𝕜)))) i‖ ^ 2 := by
    refine le_trans ?_ (Finset.single_le_sum (f := fun i : Fin m => ‖((EuclideanSpace.equiv (Fin m) 𝕜).symm
      ((Matrix.of fun (i : Fin m) (j : Fin n) => H i j).mulVec (Pi.single ⟨j, hj⟩ (1 : 𝕜)))) i‖ ^ 2)
      (fun _ _ => by positivity) (Finset.mem_univ ⟨i, hi⟩))
    simp
  calc ‖H i j‖ = Real.sqrt (‖H i j‖ ^ 2) := (Real.sqrt_sq (norm_nonneg _)).symm
    _ ≤ _ := Real.sqrt_le_sqrt h3
    _ = _ := h2.symm
end spec

section pass
variable {c : ArnCfg 𝕜 E} (hc : ArnHyp c) {V P : ℕ → E} {k : ℕ}
  (horth : ∀ i ≤ k, ∀ j ≤ k, c.g (P i) (P j) = if i = j then 1 else 0)
  (hVM : ∀ i ≤ k, V i = c.Mop (P i))
include hc horth hVM

theorem ip_V {j : ℕ} (hj : j ≤ k) (x : E) : c.ip (V j) x = c.g (P j) x := by
  rw [hVM j hj, ArnCfg.g, hc.ls.symm]

theorem foldl_mgs (hno : c.ortho ≠ .lanczos) (w : E) (h : ℕ → 𝕜) (n : ℕ) (hn : n ≤ k + 1) :
    (List.range' 0 n).foldl (orthoStep c V P) (w, h) =
      (w - ∑ j ∈ range n, c.g (P j) w • P j, fun i => if i < n then h i + c.g (P i) w else h i) := by
  induction n with
  | zero => simp
  | succ n ih =>
    have hnk : n ≤ k := by omega
    rw [List.range'_concat, List.foldl_append, ih (by omega)]
    simp only [List.foldl_cons, List.foldl_nil, orthoStep, hno, if_false, one_mul, zero_add]
    have ha : c.ip (V n) (w - ∑ j ∈ range n, c.g (P j) w • P j) = c.g (P n) w := by
      rw [ip_V hc horth hVM hnk, hc.inner.sub_right, hc.inner.sum_right, Finset.sum_eq_zero, sub_zero]
      intro j hj
      have hj' := Finset.mem_range.mp hj
      rw [hc.inner.smul_right, horth n hnk j (by omega), if_neg (by omega), mul_zero]
    rw [ha]
    refine Prod.ext ?_ ?_
    · simp only [Finset.sum_range_succ]; abel
    · funext i
      simp only [Function.update_apply]
      rcases lt_trichotomy i n with h1 | h1 | h1
      · rw [if_neg (by omega), if_pos h1, if_pos (by omega)]
      · subst h1; simp
      · rw [if_neg (by omega), if_neg (by omega), if_neg (by omega)]

theorem orthoPass_mgs (hno : c.ortho ≠ .lanczos) (w : E) (h : ℕ → 𝕜) :
    orthoPass c V P 0 k (w, h) =
      (w - ∑ j ∈ range (k + 1), c.g (P j) w • P j,
        fun i => if i < k + 1 then h i + c.g (P i) w else h i) :=
  foldl_mgs hc horth hVM hno w h (k + 1) le_rfl

/-- The remainder is orthogonal to the basis. -/
theorem g_remainder (w : E) {i : ℕ} (hi : i ≤ k) :
    c.g (P i) (w - ∑ j ∈ range (k + 1), c.g (P j) w • P j) = 0 := by
  rw [hc.inner.sub_right, hc.inner.coeff (n := k + 1) (P := P)
    (fun i hi j hj => horth i (by omega) j (by omega)) _ (by omega), sub_self]

theorem orthoPass_orth (hno : c.ortho ≠ .lanczos) (w : E) (h : ℕ → 𝕜)
    (hw : ∀ i ≤ k, c.g (P i) w = 0) : orthoPass c V P 0 k (w, h) = (w, h) := by
  rw [orthoPass_mgs hc horth hVM hno]
  refine Prod.ext ?_ ?_
  · rw [Finset.sum_eq_zero, sub_zero]
    intro j hj
    have := Finset.mem_range.mp hj
    rw [hw j (by omega), zero_smul]
  · funext i
    dsimp only
    split
    · rw [hw i (by omega), add_zero]
    · rfl

theorem orthoPasses_orth (hno : c.ortho ≠ .lanczos) (w : E) (h : ℕ → 𝕜)
    (hw : ∀ i ≤ k, c.g (P i) w = 0) (n : ℕ) : orthoPasses c V P 0 k n (w, h) = (w, h) := by
  induction n with
  | zero => exact orthoPass_orth hc horth hVM hno w h hw
  | succ n ih => rw [orthoPasses, orthoPass_orth hc horth hVM hno w h hw, ih]

theorem orthoPasses_mgs (hno : c.ortho ≠ .lanczos) (w : E) (h : ℕ → 𝕜) (n : ℕ) :
    orthoPasses c V P 0 k n (w, h) =
      (w - ∑ j ∈ range (k + 1), c.g (P j) w • P j,
        fun i => if i < k + 1 then h i + c.g (P i) w else h i) := by
  cases n with
  | zero => exact orthoPass_mgs hc horth hVM hno w h
  | succ n =>
    rw [orthoPasses, orthoPass_mgs hc horth hVM hno]
    exact orthoPasses_orth hc horth hVM hno _ _ (fun i hi => g_remainder hc horth hVM w hi) n

end pass

/-- The remainder of `A V_k` after orthogonalisation. -/
def remainder (c : ArnCfg 𝕜 E) (s : Arn 𝕜 E) : E :=
  c.A (s.V s.iter) - ∑ j ∈ range (s.iter + 1), c.g (s.P j) (c.A (s.V s.iter)) • s.P j

/-- For a self-adjoint operator, `A V_k` is orthogonal to all but the last two basis vectors. -/
theorem lanczos_orth {c : ArnCfg 𝕜 E} (hc : ArnHyp c) {v : E} {k : ℕ} {s : Arn 𝕜 E}
    (core : ArnCore c v k s) (hsa : ∀ x y, c.ip (c.A x) y = c.ip x (c.A y)) {j : ℕ} (hj : j < k) :
    c.g (s.P j) (c.A (s.V k)) = if j + 1 = k then s.H k j else 0 := by
  have h1 : c.g (s.P j) (c.A (s.V k)) = conj (c.g (s.P k) (c.A (s.V j))) := by
    rw [← ip_V hc core.orth core.VM (by omega), ← ip_V hc core.orth core.VM le_rfl, ← hsa,
      ← hc.ls.inner.conj_symm]
  rw [h1, core.rel j hj, hc.inner.sum_right]
  have h2 : ∀ i ∈ range (j + 2), c.g (s.P k) (s.H i j • s.P i) = if i = k then s.H i j else 0 := by
    intro i hi
    have := Finset.mem_range.mp hi
    rw [hc.inner.smul_right, core.orth k le_rfl i (by omega)]
    by_cases hik : k = i
    · simp [hik]
    · rw [if_neg hik, if_neg (Ne.symm hik), mul_zero]
  rw [Finset.sum_congr rfl h2, Finset.sum_ite_eq']
  by_cases hjk : j + 1 = k
  · rw [if_pos (by rw [Finset.mem_range]; omega), if_pos hjk]
    obtain ⟨r, -, hr⟩ := core.sub j hj
    rw [hjk] at hr
    rw [hr, RCLike.conj_ofReal]
  · rw [if_neg (by rw [Finset.mem_range]; omega), if_neg hjk, map_zero]

/-- All variants compute the same orthogonalisation. -/
theorem orthogonalise_eq {c : ArnCfg 𝕜 E} (hc : ArnHyp c) {v : E} {s : Arn 𝕜 E}
    (core : ArnCore c v s.iter s) (hz : ∀ i, s.H i s.iter = 0) :
    orthogonalise c s = (remainder c s,
      fun i => if i < s.iter + 1 then c.g (s.P i) (c.A (s.V s.iter)) else 0) := by
  unfold orthogonalise
  set k := s.iter with hk
  dsimp only
  split
  · next hl =>
    have hsa := hc.sa hl
    have hr : c.ortho.reorthos = 0 := by rw [hl]; rfl
    have hlist : List.range' k (k + 1 - k) = [k] := by
      rw [Nat.add_sub_cancel_left]; rfl
    rw [hr]
    simp only [orthoPasses, orthoPass, hlist, List.foldl_cons, List.foldl_nil, orthoStep, hl, if_true]
    have hreal : ((RCLike.re (c.g (s.P k) (c.A (s.V k))) : ℝ) : 𝕜) = c.g (s.P k) (c.A (s.V k)) := by
      apply RCLike.conj_eq_iff_re.mp
      rw [← ip_V hc core.orth core.VM le_rfl, hc.ls.inner.conj_symm, hsa]
    by_cases h0 : 0 < k
    · simp only [h0, if_true]
      have hlow := fun j (hj : j < k) => lanczos_orth hc core hsa hj
      have hlast : c.g (s.P (k - 1)) (c.A (s.V k)) = s.H k (k - 1) := by
        rw [hlow (k - 1) (by omega), if_pos (by omega)]
      have halpha : c.ip (s.V k) (c.A (s.V k) - s.H k (k - 1) • s.P (k - 1)) =
          c.g (s.P k) (c.A (s.V k)) := by
        rw [ip_V hc core.orth core.VM le_rfl, hc.inner.sub_right, hc.inner.smul_right,
          core.orth k le_rfl (k - 1) (by omega), if_neg (by omega), mul_zero, sub_zero]
      rw [halpha, hreal]
      refine Prod.ext ?_ ?_
      · dsimp only [remainder]
        rw [← hk, Finset.sum_range_succ]
        have : ∑ j ∈ range k, c.g (s.P j) (c.A (s.V k)) • s.P j = s.H k (k - 1) • s.P (k - 1) := by
          rw [Finset.sum_eq_single (k - 1), hlast]
          · intro j hj hne
            have := Finset.mem_range.mp hj
            rw [hlow j (by omega), if_neg (by omega), zero_smul]
          · intro hn
            exact absurd (Finset.mem_range.mpr (by omega)) hn
        rw [this]; abel
      · funext i
        simp only [Function.update_apply, hz]
        by_cases hik : i = k
        · rw [if_pos hik, if_neg (by omega), if_pos (by omega), hik, zero_add]
        · rw [if_neg hik]
          by_cases hi1 : i = k - 1
          · rw [if_pos hi1, if_pos (by omega), hi1, hlast]
          · rw [if_neg hi1]
            by_cases hlt : i < k + 1
            · rw [if_pos hlt, hlow i (by omega), if_neg (by omega)]
            · rw [if_neg hlt]
    · have hk0 : k = 0 := by omega
      simp only [h0, if_false]
      rw [ip_V hc core.orth core.VM le_rfl, hreal]
      refine Prod.ext ?_ ?_
      · dsimp only [remainder]
        rw [← hk, hk0]
        simp
      · funext i
        simp only [Function.update_apply, hz]
        by_cases hi : i = k
        · rw [if_pos hi, if_pos (by omega), hi, zero_add]
        · rw [if_neg hi, if_neg (by omega)]
  · next hno =>
    rw [orthoPasses_mgs hc core.orth core.VM hno]
    refine Prod.ext rfl ?_
    funext i
    simp [hz]

section step
variable {c : ArnCfg 𝕜 E} (hc : ArnHyp c) {v : E} {s : Arn 𝕜 E}
include hc

/-- The new matrix `H` after the step. -/
noncomputable def newH (c : ArnCfg 𝕜 E) (s : Arn 𝕜 E) : ℕ → ℕ → 𝕜 :=
  setCol s.H s.iter (Function.update
    (fun i => if i < s.iter + 1 then c.g (s.P i) (c.A (s.V s.iter)) else 0) (s.iter + 1)
    (nrm c.g (remainder c s) : 𝕜))

/-- `advance()` in closed form. -/
theorem arnAdvance_eq (inv : ArnInv c v s) (hit : s.iter < c.maxiter) (hni : s.invariant = false) :
    arnAdvance c s =
      if specNorm (newH c s) (s.iter + 2) (s.iter + 1) = 0 then .error .nonFinite
      else if nrm c.g (remainder c s) / specNorm (newH c s) (s.iter + 2) (s.iter + 1) ≤ 1e-14 then
        .ok ⟨s.iter + 1, s.V, s.P, newH c s, true, s.vnorm⟩
      else .ok ⟨s.iter + 1,
        Function.update s.V (s.iter + 1)
          (((nrm c.g (remainder c s) : 𝕜)⁻¹) • c.Mop (remainder c s)),
        Function.update s.P (s.iter + 1) (((nrm c.g (remainder c s) : 𝕜)⁻¹) • remainder c s),
        newH c s, false, s.vnorm⟩ := by
  unfold arnAdvance
  rw [if_neg (by omega), if_neg (by simp [hni])]
  simp only [orthogonalise_eq hc (inv.live hni) (fun i => inv.zero i _ le_rfl)]
  have : npNorm (c.ip (remainder c s) (c.Mop (remainder c s))) = .ok (nrm c.g (remainder c s)) :=
    hc.inner.npNorm_self (remainder c s)
  rw [this]
  rfl

theorem newH_old {i j : ℕ} (hj : j ≠ s.iter) : newH c s i j = s.H i j := by
  simp [newH, setCol, hj]

theorem newH_col {i : ℕ} (hi : i ≤ s.iter) : newH c s i s.iter = c.g (s.P i) (c.A (s.V s.iter)) := by
  simp only [newH, setCol, if_true, Function.update_apply]
  rw [if_neg (by omega), if_pos (by omega)]

theorem newH_sub : newH c s (s.iter + 1) s.iter = (nrm c.g (remainder c s) : 𝕜) := by
  simp [newH, setCol]

theorem newH_below {i : ℕ} (hi : s.iter + 1 < i) : newH c s i s.iter = 0 := by
  simp only [newH, setCol, if_true, Function.update_apply]
  rw [if_neg (by omega), if_neg (by omega)]

theorem remainder_rel : c.A (s.V s.iter) =
    ∑ i ∈ range (s.iter + 1), newH c s i s.iter • s.P i + remainder c s := by
  unfold remainder
  rw [Finset.sum_congr rfl fun i hi => by
    rw [newH_col hc (by have := Finset.mem_range.mp hi; omega)]]
  abel

/-- `advance()` keeps the invariant. -/
theorem arnAdvance_inv (inv : ArnInv c v s) {s' : Arn 𝕜 E} (hs : arnAdvance c s = .ok s') :
    ArnInv c v s' ∧ s'.iter = s.iter + 1 ∧ s.iter < c.maxiter ∧ s.invariant = false := by
  have hit : s.iter < c.maxiter := by
    by_contra h
    rw [arnAdvance, if_pos (by omega)] at hs
    simp at hs
  have hni : s.invariant = false := by
    by_contra h
    rw [arnAdvance, if_neg (by omega), if_pos (by simpa using h)] at hs
    simp at hs
  refine ⟨?_, ?_, hit, hni⟩
  swap
  · rw [arnAdvance_eq hc inv hit hni] at hs
    split at hs
    · simp at hs
    · split at hs <;> (obtain rfl := Except.ok.inj hs; rfl)
  rw [arnAdvance_eq hc inv hit hni] at hs
  have core := inv.live hni
  have hg := hc.inner
  have hHhess : ∀ i j, j + 1 < i → newH c s i j = 0 := by
    intro i j hij
    by_cases hj : j = s.iter
    · subst hj; exact newH_below hc hij
    · rw [newH_old hc hj]; exact core.hess i j hij
  have hHzero : ∀ i j, s.iter + 1 ≤ j → newH c s i j = 0 := by
    intro i j hj
    rw [newH_old hc (by omega)]; exact inv.zero i j (by omega)
  split at hs
  · simp at hs
  next hn0 =>
  have hnpos : 0 < specNorm (newH c s) (s.iter + 2) (s.iter + 1) :=
    lt_of_le_of_ne (specNorm_nonneg _ _ _) (Ne.symm hn0)
  split at hs
  · next hsmall =>
    obtain rfl := Except.ok.inj hs
    refine ⟨hit, inv.vnorm, hHzero, by simp, fun _ => Or.inr ⟨s.iter, remainder c s, rfl, ?_, ?_⟩⟩
    · exact ⟨core.vpos, core.start, core.orth, core.VM,
        fun j hj => by simp only [newH_old hc (show j ≠ s.iter by omega)]; exact core.rel j hj,
        fun j hj => by simp only [newH_old hc (show j ≠ s.iter by omega)]; exact core.sub j hj, hHhess⟩
    · exact ⟨remainder_rel hc, fun i hi => g_remainder hc core.orth core.VM _ hi, newH_sub hc,
        (div_le_iff₀ hnpos).mp hsmall, hn0⟩
  · next hbig =>
    have hrpos : 0 < nrm c.g (remainder c s) := by
      by_contra hle
      have h0 : nrm c.g (remainder c s) = 0 := le_antisymm (not_lt.mp hle) (nrm_nonneg _ _)
      apply hbig
      rw [h0, zero_div]
      norm_num
    set r := nrm c.g (remainder c s) with hr
    have hr0 : (r : 𝕜) ≠ 0 := by simpa using hrpos.ne'
    obtain rfl := Except.ok.inj hs
    refine ⟨hit, inv.vnorm, hHzero, fun _ => ?_, by simp⟩
    have hPold : ∀ i ≤ s.iter, Function.update s.P (s.iter + 1) (((r : 𝕜)⁻¹) • remainder c s) i = s.P i :=
      fun i hi => Function.update_of_ne (by omega) _ _
    have hVold : ∀ i ≤ s.iter,
        Function.update s.V (s.iter + 1) (((r : 𝕜)⁻¹) • c.Mop (remainder c s)) i = s.V i :=
      fun i hi => Function.update_of_ne (by omega) _ _
    refine ⟨core.vpos, ?_, ?_, ?_, ?_, ?_, hHhess⟩
    · dsimp only; rw [hPold 0 (by omega)]; exact core.start
    · have hnew : ∀ i ≤ s.iter, c.g (s.P i) (((r : 𝕜)⁻¹) • remainder c s) = 0 := by
        intro i hi
        rw [hg.smul_right]
        have := g_remainder hc core.orth core.VM (c.A (s.V s.iter)) hi
        change c.g (s.P i) (remainder c s) = 0 at this
        rw [this, mul_zero]
      have hself : c.g (((r : 𝕜)⁻¹) • remainder c s) (((r : 𝕜)⁻¹) • remainder c s) = 1 := by
        rw [hg.smul_left, hg.smul_right, hg.self_real, ← hg.nrm_sq, ← hr, map_inv₀, RCLike.conj_ofReal]
        push_cast
        field_simp
      intro i hi j hj
      dsimp only at hi hj ⊢
      rcases Nat.lt_or_ge s.iter i with h1 | h1
      · have hi' : i = s.iter + 1 := by omega
        rcases Nat.lt_or_ge s.iter j with h2 | h2
        · have hj' : j = s.iter + 1 := by omega
          subst hi'; subst hj'
          simp only [Function.update_self, if_true, hself]
        · subst hi'
          rw [Function.update_self, hPold j h2, if_neg (by omega)]
          exact hg.orth_symm (hnew j h2)
      · rcases Nat.lt_or_ge s.iter j with h2 | h2
        · have hj' : j = s.iter + 1 := by omega
          subst hj'
          rw [Function.update_self, hPold i h1, if_neg (by omega)]
          exact hnew i h1
        · rw [hPold i h1, hPold j h2]; exact core.orth i h1 j h2
    · intro i hi
      dsimp only at hi ⊢
      rcases Nat.lt_or_ge s.iter i with h1 | h1
      · obtain rfl : i = s.iter + 1 := by omega
        rw [Function.update_self, Function.update_self, map_smul]
      · rw [hPold i h1, hVold i h1]; exact core.VM i h1
    · intro j hj
      dsimp only at hj ⊢
      rw [hVold j (by omega)]
      rcases Nat.lt_or_ge j s.iter with h1 | h1
      · rw [core.rel j h1]
        refine Finset.sum_congr rfl fun i hi => ?_
        have := Finset.mem_range.mp hi
        rw [hPold i (by omega), newH_old hc (by omega)]
      · obtain rfl : j = s.iter := by omega
        rw [Finset.sum_range_succ, Function.update_self, newH_sub hc, ← hr, smul_smul,
          mul_inv_cancel₀ hr0, one_smul]
        conv_lhs => rw [remainder_rel hc]
        congr 1
        refine Finset.sum_congr rfl fun i hi => ?_
        have := Finset.mem_range.mp hi
        rw [hPold i (by omega)]
    · intro j hj
      dsimp only at hj ⊢
      rcases Nat.lt_or_ge j s.iter with h1 | h1
      · rw [newH_old hc (by omega)]; exact core.sub j h1
      · obtain rfl : j = s.iter := by omega
        exact ⟨r, hrpos, newH_sub hc⟩

/-- `advance()` succeeds unless the first product `A V_0` vanishes. -/
theorem arnAdvance_total (inv : ArnInv c v s) (hit : s.iter < c.maxiter) (hni : s.invariant = false) :
    (∃ s', arnAdvance c s = .ok s') ∨
      (arnAdvance c s = .error .nonFinite ∧ s.iter = 0 ∧ c.A (s.V 0) = 0) := by
  rw [arnAdvance_eq hc inv hit hni]
  have core := inv.live hni
  split
  · next h0 =>
    right
    rw [specNorm_eq_zero] at h0
    have hk : s.iter = 0 := by
      by_contra hk
      obtain ⟨r, hr, hH⟩ := core.sub 0 (by omega)
      have := h0 1 (by omega) 0 (by omega)
      rw [newH_old hc (by omega)] at this
      rw [this] at hH
      have : (r : 𝕜) = 0 := hH.symm
      rw [RCLike.ofReal_eq_zero] at this
      exact hr.ne' this
    refine ⟨rfl, hk, ?_⟩
    have h1 := remainder_rel hc (s := s)
    have h2 := h0 (s.iter + 1) (by omega) s.iter (by omega)
    rw [newH_sub hc, RCLike.ofReal_eq_zero, hc.inner.nrm_eq_zero] at h2
    rw [h2, Finset.sum_eq_zero, add_zero] at h1
    · rw [hk] at h1; exact h1
    · intro i hi
      have := Finset.mem_range.mp hi
      rw [h0 i (by omega) s.iter (by omega), zero_smul]
  · left
    split <;> exact ⟨_, rfl⟩

end step

/-- The constructor establishes the invariant when `Mv` and `Mv_norm` are consistent. -/
theorem arnInit_inv {c : ArnCfg 𝕜 E} (hc : ArnHyp c) (v : E) {Mv : Option E} {MvNorm : Option ℝ}
    (hMv : ∀ w, Mv = some w → w = c.Mop v) (hn : ∀ r, MvNorm = some r → r = nrm c.g v) :
    ∃ s, arnInit c v Mv MvNorm = .ok s ∧ ArnInv c v s ∧ s.iter = 0 ∧ (s.invariant = true ↔ v = 0) := by
  have hw : startV c v Mv = c.Mop v := by
    unfold startV
    unfold ArnCfg.Mop at hMv ⊢
    cases hM : c.M with
    | none => simp
    | some M =>
      rw [hM] at hMv
      cases Mv with
      | none => simp
      | some w => simpa using hMv w rfl
  have hr : startNorm c v (c.Mop v) MvNorm = .ok (nrm c.g v) := by
    cases MvNorm with
    | some r => simp [startNorm, hn r rfl]
    | none => exact hc.inner.npNorm_self v
  unfold arnInit
  simp only [hw, hr]
  by_cases hv : 0 < nrm c.g v
  · rw [if_pos hv]
    have hr0 : ((nrm c.g v : ℝ) : 𝕜) ≠ 0 := by simpa using hv.ne'
    refine ⟨_, rfl, ⟨Nat.zero_le _, rfl, fun _ _ _ => rfl, fun _ => ?_, by simp⟩, rfl, ?_⟩
    · refine ⟨hv, ?_, ?_, ?_, fun j hj => absurd hj (by simp), fun j hj => absurd hj (by simp),
        fun _ _ _ => rfl⟩
      · simp [smul_smul, hr0]
      · intro i hi j hj
        obtain rfl : i = 0 := by simpa using hi
        obtain rfl : j = 0 := by simpa using hj
        simp only [Function.update_self, if_true]
        rw [hc.inner.smul_left, hc.inner.smul_right, hc.inner.self_real, ← hc.inner.nrm_sq, map_inv₀,
          RCLike.conj_ofReal]
        push_cast
        field_simp
      · intro i hi
        obtain rfl : i = 0 := by simpa using hi
        simp
    · simp only [Bool.false_eq_true, false_iff]
      rintro rfl
      rw [hc.inner.nrm_eq_zero.mpr rfl] at hv
      exact lt_irrefl _ hv
  · rw [if_neg hv]
    have hv0 : v = 0 := by
      rw [← hc.inner.nrm_eq_zero]
      exact le_antisymm (not_lt.mp hv) (nrm_nonneg _ _)
    exact ⟨_, rfl, ⟨Nat.zero_le _, rfl, fun _ _ _ => rfl, by simp, fun _ => Or.inl ⟨hv0, rfl⟩⟩, rfl,
      by simp [hv0]⟩

end Krypy
