import Verif.Props.DeflCounts

/-!
# Properties C11, C12 and C36 for the library's own `qr`

`C11_qr` has a hypothesis about the computed factor `R`.  Here the hypothesis is about the input: no column is closer to the
span of the preceding columns than the threshold `1e-15` of utils.py 705.  The contracts which C12, C13 and C36-C38 demand
from the factorisation routines follow from it, so these properties also hold for the library's own `qr` (which is used for
every inner product except the default one).
-/

set_option linter.unusedSectionVars false

namespace Krypy
variable {𝕜 E : Type*} [RCLike 𝕜] [AddCommGroup E] [Module 𝕜 E] {k : ℕ}
open Finset Matrix

/-- No column is closer to the span of the preceding ones than the threshold of utils.py 705. -/
def Apart (ip : E → E → 𝕜) (X : Fin k → E) : Prop :=
  ∀ i, ∀ x ∈ Submodule.span 𝕜 (X '' Set.Iio i), (1e-15 : ℝ) ≤ nrm ip (X i - x)

theorem QrInv.mem_span {ip : E → E → 𝕜} {X Q : ℕ → E} {R : ℕ → ℕ → 𝕜} {i : ℕ} (hI : QrInv ip X i Q R) {j : ℕ} (hj : j < i) :
    Q j ∈ Submodule.span 𝕜 (X '' Set.Iic j) := by
  induction j using Nat.strong_induction_on with
  | _ j ih =>
    by_cases h0 : R j j = 0
    · rw [(hI.zero j hj).mp h0]; exact Submodule.zero_mem _
    have h1 := hI.fact j hj
    rw [sum_range_succ] at h1
    have h2 : R j j • Q j ∈ Submodule.span 𝕜 (X '' Set.Iic j) := by
      rw [eq_sub_of_add_eq' h1.symm]
      refine Submodule.sub_mem _ (Submodule.subset_span ⟨j, Set.mem_Iic.mpr le_rfl, rfl⟩) (Submodule.sum_mem _ fun a ha => ?_)
      have ha := mem_range.mp ha
      refine Submodule.smul_mem _ _ (Submodule.span_mono (Set.image_mono (Set.Iic_subset_Iic.mpr ha.le)) (ih a ha (by omega)))
    have h3 := Submodule.smul_mem _ (R j j)⁻¹ h2
    rwa [smul_smul, inv_mul_cancel₀ h0, one_smul] at h3

theorem QrInv.orth_span {ip : E → E → 𝕜} (h : IsInner ip) {X Q : ℕ → E} {R : ℕ → ℕ → 𝕜} {i : ℕ} (hI : QrInv ip X i Q R) {j : ℕ}
    (hj : j < i) {x : E} (hx : x ∈ Submodule.span 𝕜 (X '' Set.Iio j)) : ip (Q j) x = 0 := by
  induction hx using Submodule.span_induction with
  | mem x hx =>
    obtain ⟨a, ha, rfl⟩ := hx
    have ha : a < j := ha
    rw [hI.fact a (by omega), h.sum_right]
    refine sum_eq_zero fun b hb => ?_
    have hb := mem_range.mp hb
    rw [h.smul_right, hI.orth.1 j hj b (by omega) (by omega), mul_zero]
  | zero => exact h.zero_right _
  | add x y _ _ hx hy => rw [h.add_right, hx, hy, add_zero]
  | smul c x _ hx => rw [h.smul_right, hx, mul_zero]

/-- C11: the diagonal entries of `R` are the distances of the columns from the spans of the preceding columns (for every input
without a diagonal entry strictly between `0` and the threshold). -/
theorem C11_distance {ip : E → E → 𝕜} (h : IsInner ip) (reorthos : ℕ) (X : ℕ → E) (k : ℕ)
    {Q : ℕ → E} {R : ℕ → ℕ → 𝕜} (hq : qrLoop ip reorthos X k = .ok (Q, R)) (hd : DiagOK k R) {i : ℕ} (hi : i < k) :
    IsLeast ((fun x => nrm ip (X i - x)) '' (Submodule.span 𝕜 (X '' Set.Iio i) : Set E)) (RCLike.re (R i i)) := by
  have hI := qrLoop_inv h hq hd
  have h1 := hI.fact i hi
  rw [sum_range_succ] at h1
  have hy : ∑ j ∈ range i, R j i • Q j ∈ Submodule.span 𝕜 (X '' Set.Iio i) := by
    refine Submodule.sum_mem _ fun a ha => Submodule.smul_mem _ _ ?_
    have ha := mem_range.mp ha
    exact Submodule.span_mono (Set.image_mono (Set.Iic_subset_Iio.mpr ha)) (hI.mem_span (by omega))
  have hn : nrm ip (R i i • Q i) = RCLike.re (R i i) := by
    obtain ⟨d, hd0, hd1⟩ := hI.diag i hi
    rcases hI.orth.2 i hi with h0 | h0
    · rw [h0, (hI.zero i hi).mpr h0]
      simp [nrm, nsq, h.zero_right]
    · rw [h.nrm_smul, hd1, RCLike.norm_ofReal, abs_of_nonneg hd0, RCLike.ofReal_re, nrm, nsq, h0]
      simp
  constructor
  · refine ⟨_, hy, ?_⟩
    dsimp only
    rw [← hn]
    congr 1
    conv_lhs => rw [h1]
    abel
  · rintro _ ⟨x, hx, rfl⟩
    dsimp only
    rw [← hn]
    have e : X i - x = R i i • Q i + (∑ j ∈ range i, R j i • Q j - x) := by
      conv_lhs => rw [h1]
      abel
    rw [e]
    refine Real.sqrt_le_sqrt ?_
    rw [h.nsq_add_of_orth]
    · linarith [h.nsq_nonneg (∑ j ∈ range i, R j i • Q j - x)]
    · rw [h.smul_left, hI.orth_span h hi (Submodule.sub_mem _ hy hx), mul_zero]

theorem qrLoop_diag_of_apart {ip : E → E → 𝕜} (h : IsInner ip) {reorthos : ℕ} {X : ℕ → E} {k : ℕ}
    (hX : ∀ i < k, ∀ x ∈ Submodule.span 𝕜 (X '' Set.Iio i), (1e-15 : ℝ) ≤ nrm ip (X i - x)) :
    ∀ {Q : ℕ → E} {R : ℕ → ℕ → 𝕜}, qrLoop ip reorthos X k = .ok (Q, R) → ∀ i < k, (1e-15 : ℝ) ≤ RCLike.re (R i i) := by
  induction k with
  | zero => intro _ _ _ i hi; omega
  | succ n ih =>
    intro Q' R' hl i hi
    obtain ⟨Q, R, hq⟩ := qrLoop_total h reorthos X n
    have ih := ih (fun i hi => hX i (by omega)) hq
    have hI := qrLoop_inv h hq fun a ha => .inr (ih a ha)
    simp only [qrLoop, hq] at hl
    obtain ⟨Q2, R2, h1, h2⟩ := qrCol_ok h reorthos n Q R
    rw [hl] at h1
    simp only [Except.ok.injEq, Prod.mk.injEq] at h1
    obtain ⟨rfl, rfl⟩ := h1
    by_cases hin : i = n
    · subst hin
      rw [qrCol_eq h hI.orth R (fun j => hI.restR j i le_rfl), hI.rest i le_rfl] at hl
      simp only [Except.ok.injEq, Prod.mk.injEq] at hl
      obtain ⟨-, rfl⟩ := hl
      simp only [if_true, RCLike.ofReal_re]
      refine hX i (by omega) _ (Submodule.sum_mem _ fun a ha => Submodule.smul_mem _ _ ?_)
      have ha := mem_range.mp ha
      exact Submodule.span_mono (Set.image_mono (Set.Iic_subset_Iio.mpr ha)) (hI.mem_span (by omega))
    · rw [h2 i i hin]
      exact ih i (by omega)

theorem colSeq_apply (X : Fin k → E) (i : Fin k) : colSeq X i = X i := by simp [colSeq]

theorem colSeq_image (X : Fin k → E) (i : Fin k) : colSeq X '' Set.Iio (i : ℕ) = X '' Set.Iio i := by
  ext x
  constructor
  · rintro ⟨j, hj, rfl⟩
    have hj : j < i := hj
    exact ⟨⟨j, by omega⟩, hj, (colSeq_apply X ⟨j, by omega⟩).symm⟩
  · rintro ⟨j, hj, rfl⟩
    exact ⟨j, hj, colSeq_apply X j⟩

/-- C11 with a hypothesis on the input only: the own `qr` computes a QR factorisation with respect to the given inner product of
every array in which no column is closer to the span of the preceding ones than the threshold, with any number of
reorthogonalisations. -/
theorem C11_own_qr {ip : E → E → 𝕜} (h : IsInner ip) (reorthos : ℕ) {X : Fin k → E} (hX : Apart ip X) :
    ∃ V R, qrResult (qrLoop ip reorthos (colSeq X) k) = .ok (V, R) ∧ IsQr ip X V R := by
  obtain ⟨Q, R, hq⟩ := qrLoop_total h reorthos (colSeq X) k
  have hd := qrLoop_diag_of_apart h (fun i hi x hx => by
    have := hX ⟨i, hi⟩ x (by rw [← colSeq_image]; exact hx)
    rwa [← colSeq_apply X] at this) hq
  have := qrLoop_isQr h hq hd
  refine ⟨_, _, by rw [hq]; rfl, ?_⟩
  convert this using 1
  funext i
  exact (colSeq_apply X i).symm

/-- The own routine as an argument of `Projection` (utils.py 505, 515). -/
noncomputable def ownRoutines (ip : E → E → 𝕜) (matQr : Matrix (Fin k) (Fin k) 𝕜 → Matrix (Fin k) (Fin k) 𝕜 × Matrix (Fin k) (Fin k) 𝕜) :
    QrRoutines 𝕜 E k :=
  ⟨fun X => qrResult (qrLoop ip 1 (colSeq X) k), matQr⟩

/-- C12 and C13 hold for the library's own `qr`: their hypothesis follows from hypotheses on the input. -/
theorem C12_own_qr {ip : E → E → 𝕜} (h : IsInner ip)
    {matQr : Matrix (Fin k) (Fin k) 𝕜 → Matrix (Fin k) (Fin k) 𝕜 × Matrix (Fin k) (Fin k) 𝕜}
    (hm : ∀ M, IsMatQr M (matQr M).1 (matQr M).2) {X : Fin k → E} {Y : Option (Fin k → E)} (o : Bool)
    (hX : Apart ip X) (hY : ∀ Y', Y = some Y' → Apart ip Y') (hn : (gram ip (Y.getD X) X).det ≠ 0) :
    ProjHyp ip (ownRoutines ip matQr) X Y o :=
  ⟨h, fun _ => C11_own_qr h 1 hX, fun _ Y' e => C11_own_qr h 1 (hY Y' e), hm, hn⟩

/-- linsys.py 169-176: the inner product with which deflation.py 40 orthonormalises `U`. -/
def ipMinv (ip : E → E → 𝕜) (Minv : Option (E →ₗ[𝕜] E)) (x y : E) : 𝕜 :=
  match Minv with
  | none => ip x y
  | some Minv => ip x (Minv y)

theorem apart_of_orthonormal {ip ip' : E → E → 𝕜} (h : IsInner ip) {V : Fin k → E} (hV : gram ip V V = 1) (B : E →ₗ[𝕜] E)
    (hB : ∀ x, 1e-15 * nrm ip x ≤ nrm ip' (B x)) : Apart ip' fun j => B (V j) := by
  intro i x hx
  have e : (fun j => B (V j)) '' Set.Iio i = B '' (V '' Set.Iio i) := by rw [Set.image_image]
  rw [e, Submodule.span_image] at hx
  obtain ⟨z, hz, rfl⟩ := hx
  rw [← map_sub]
  refine le_trans ?_ (hB _)
  have hij : ∀ i j, ip (V i) (V j) = if i = j then 1 else 0 := fun i j => by
    have := congrFun (congrFun hV i) j
    simpa [gram, Matrix.one_apply] using this
  have ho : ip (V i) z = 0 := by
    induction hz using Submodule.span_induction with
    | mem x hx =>
      obtain ⟨a, ha, rfl⟩ := hx
      have ha : a < i := ha
      rw [hij, if_neg ha.ne']
    | zero => exact h.zero_right _
    | add x y _ _ hx hy => rw [h.add_right, hx, hy, add_zero]
    | smul c x _ hx => rw [h.smul_right, hx, mul_zero]
  have h1 : 1 ≤ nrm ip (V i - z) := by
    rw [← Real.sqrt_one]
    refine Real.sqrt_le_sqrt ?_
    rw [h.nsq_sub, ho]
    have h2 : nsq ip (V i) = 1 := by rw [nsq, hij]; simp
    rw [h2]
    simp [h.nsq_nonneg z]
  linarith

theorem ownOblArgs_erase (ip : E → E → 𝕜) (Minv : Option (E →ₗ[𝕜] E)) (r : ℕ)
    (matQr : Matrix (Fin k) (Fin k) 𝕜 → Matrix (Fin k) (Fin k) 𝕜 × Matrix (Fin k) (Fin k) 𝕜) (same orthogonalize : Bool)
    (iterations : ℤ) (U : Fin k → E) :
    (ownOblArgs ip Minv r matQr same orthogonalize iterations).erase.qrM U = qrResult (qrLoop (ipMinv ip Minv) r (colSeq U) k) ∧
    (ownOblArgs (k := k) ip Minv r matQr same orthogonalize iterations).erase.rt = ownRoutines ip matQr := by
  constructor
  · simp only [OblArgsT.erase, ownOblArgs, ownQrT, Tr.bind_fst, Tr.pure_fst]
    rw [qrLoopT_erase (ip := ipMinv ip Minv)]
    intro x y
    cases Minv with
    | none => simp [ipT, ipMinv]
    | some Minv => simp [ipMinvT, ipT, ipMinv]
  · simp only [OblArgsT.erase, ownOblArgs, ownQrT, Tr.bind_fst, Tr.pure_fst, ownRoutines]
    congr 1
    funext X
    rw [qrLoopT_erase (ip := ip)]
    intro x y
    simp [ipT]

/-- C36-C38, C88 and C89 hold for the library's own `qr`, for every `qr_reorthos`: their hypothesis `DeflHyp` follows from
hypotheses on the input.  No column of `U` is closer to the span of the preceding ones than the threshold, and neither `Ml A Mr`
nor the change of the inner product shrinks a vector by more than the threshold. -/
theorem C36_own_qr {a : LSArgs 𝕜 E} (ls : LSHyp a.ip a.M) {Minv : Option (E →ₗ[𝕜] E)} (hM : IsInner (ipMinv a.ip Minv)) (r : ℕ)
    {matQr : Matrix (Fin k) (Fin k) 𝕜 → Matrix (Fin k) (Fin k) 𝕜 × Matrix (Fin k) (Fin k) 𝕜}
    (hm : ∀ M, IsMatQr M (matQr M).1 (matQr M).2) {same : Bool} (orthogonalize : Bool) {iterations : ℤ} {U : Fin k → E}
    (hU : Apart (ipMinv a.ip Minv) U) (hI : ∀ x, 1e-15 * nrm (ipMinv a.ip Minv) x ≤ nrm a.ip x)
    (hB : ∀ x, 1e-15 * nrm (ipMinv a.ip Minv) x ≤ nrm a.ip (a.B x))
    (hn : (gram a.ip U fun j => a.B (U j)).det ≠ 0) (hsame : same = true → ∀ x, a.B x = x) (hit : 1 ≤ iterations) :
    DeflHyp a (ownOblArgs a.ip Minv r matQr same orthogonalize iterations).erase U := by
  obtain ⟨e1, e2⟩ := ownOblArgs_erase (k := k) a.ip Minv r matQr same orthogonalize iterations U
  obtain ⟨V, R, hV, hq⟩ := C11_own_qr hM r hU
  refine ⟨ls, ⟨V, R, by rw [e1, hV], hq.fact⟩, fun _ W S hW X hX _ => ?_, fun M => by rw [e2]; exact hm M, hn, hsame, hit⟩
  rw [e1, hV] at hW
  simp only [Except.ok.injEq, Prod.mk.injEq] at hW
  obtain ⟨rfl, rfl⟩ := hW
  rw [e2]
  refine C11_own_qr ls.inner 1 ?_
  rcases hX with rfl | rfl
  · exact apart_of_orthonormal hM hq.orth LinearMap.id hI
  · exact apart_of_orthonormal hM hq.orth a.B hB

/-- The hypotheses of C40 on the basis `U` of the deflation space in the constructed object are met by the own `qr`: `U` is `M W`
for a `W` with `⟨U, W⟩ = I`. -/
theorem C40_own_qr {a : LSArgs 𝕜 E} {Minv : Option (E →ₗ[𝕜] E)} (hM : IsInner (ipMinv a.ip Minv))
    (hinv : ∀ x, a.M ((Minv.getD LinearMap.id) x) = x) (r : ℕ)
    {matQr : Matrix (Fin k) (Fin k) 𝕜 → Matrix (Fin k) (Fin k) 𝕜 × Matrix (Fin k) (Fin k) 𝕜} {same orthogonalize : Bool}
    {iterations : ℤ} {U : Fin k → E} (hU : Apart (ipMinv a.ip Minv) U) {s : LS 𝕜 E} {o : Obl 𝕜 E k}
    (ho : mkObl s (ownOblArgs a.ip Minv r matQr same orthogonalize iterations).erase U = .ok o) :
    ∃ W : Fin k → E, (∀ j, o.U j = a.M (W j)) ∧ ∀ i j, a.ip (o.U i) (W j) = if i = j then 1 else 0 := by
  obtain ⟨e1, -⟩ := ownOblArgs_erase (k := k) a.ip Minv r matQr same orthogonalize iterations U
  obtain ⟨V, R, hV, hq⟩ := C11_own_qr hM r hU
  unfold mkObl at ho
  rw [e1, hV] at ho
  dsimp only at ho
  split at ho
  · cases ho
  · obtain rfl := Except.ok.inj ho
    refine ⟨fun j => (Minv.getD LinearMap.id) (V j), fun j => (hinv _).symm, fun i j => ?_⟩
    have h1 := congrFun (congrFun hq.orth i) j
    simp only [gram, Matrix.of_apply, Matrix.one_apply] at h1
    cases Minv <;> exact h1

/-! ## Examples -/

theorem exCfg_inner : IsInner exCfg.ip := exCfg_hyp.ls.inner

theorem apart_one {ip : E → E → 𝕜} {X : Fin 1 → E} (h : (1e-15 : ℝ) ≤ nrm ip (X 0)) : Apart ip X := by
  intro i x hx
  obtain rfl : i = 0 := Fin.ext (by omega)
  have : (X '' Set.Iio (0 : Fin 1)) = ∅ := by
    ext y; simp
  rw [this, Submodule.span_empty] at hx
  rw [(Submodule.mem_bot 𝕜).mp hx, sub_zero]
  exact h

/-- The columns `(3, 4)` and `(1, 7)`. -/
def exCols : Fin 2 → ℝ × ℝ := ![(3, 4), (1, 7)]

theorem exCols_apart : Apart exCfg.ip exCols := by
  intro i x hx
  fin_cases i
  · have : (exCols '' Set.Iio (0 : Fin 2)) = ∅ := by ext y; simp
    change x ∈ Submodule.span ℝ (exCols '' Set.Iio (0 : Fin 2)) at hx
    rw [this, Submodule.span_empty] at hx
    rw [(Submodule.mem_bot ℝ).mp hx]
    refine Real.le_sqrt_of_sq_le ?_
    simp [exCols, nsq, exCfg]
    norm_num
  · have : (exCols '' Set.Iio (1 : Fin 2)) = {((3 : ℝ), (4 : ℝ))} := by
      have h0 : Set.Iio (1 : Fin 2) = {0} := by ext j; fin_cases j <;> simp
      rw [h0, Set.image_singleton]; rfl
    change x ∈ Submodule.span ℝ (exCols '' Set.Iio (1 : Fin 2)) at hx
    rw [this] at hx
    obtain ⟨c, rfl⟩ := Submodule.mem_span_singleton.mp hx
    refine Real.le_sqrt_of_sq_le ?_
    simp [exCols, nsq, exCfg]
    nlinarith [sq_nonneg (5 * c - 31 / 5)]

/-- Non-vacuity of C11: the factorisation of a matrix with two columns which are not orthogonal, and the lengths on the diagonal. -/
example : ∃ Q R, qrLoop exCfg.ip 1 (colSeq exCols) 2 = .ok (Q, R) ∧ (∀ i < 2, (1e-15 : ℝ) ≤ RCLike.re (R i i)) ∧ R 0 0 = 5 := by
  obtain ⟨Q, R, hq⟩ := qrLoop_total exCfg_inner 1 (colSeq exCols) 2
  have hd := qrLoop_diag_of_apart exCfg_inner (fun i hi x hx => by
    have := exCols_apart ⟨i, hi⟩ x (by rw [← colSeq_image]; exact hx)
    rwa [← colSeq_apply exCols] at this) hq
  refine ⟨Q, R, hq, hd, ?_⟩
  obtain ⟨⟨x, hx, h1⟩, -⟩ := C11_distance exCfg_inner 1 _ 2 hq (fun a ha => .inr (hd a ha)) (i := 0) (by omega)
  have : (colSeq exCols '' Set.Iio 0) = ∅ := by ext y; simp
  rw [this, Submodule.span_empty] at hx
  dsimp only at h1
  rw [(Submodule.mem_bot ℝ).mp hx, sub_zero] at h1
  have h2 : colSeq exCols 0 = (3, 4) := rfl
  rw [h2] at h1
  have h3 : nrm exCfg.ip ((3 : ℝ), (4 : ℝ)) = 5 := by
    rw [nrm, nsq, show RCLike.re (exCfg.ip ((3 : ℝ), (4 : ℝ)) (3, 4)) = 5 ^ 2 by simp [exCfg]; norm_num]
    exact Real.sqrt_sq (by norm_num)
  have h4 : RCLike.re (R 0 0) = R 0 0 := by simp
  rw [← h4, ← h1]
  exact h3

/-- Non-vacuity of C12 and C13: the oblique projection onto `span (1, 0)` along the complement of `span (1, 1)` in the plane, with
the own `qr`. -/
example (o : Bool) : ProjHyp exCfg.ip (ownRoutines exCfg.ip fun M => (1, M)) (fun _ : Fin 1 => ((1 : ℝ), (0 : ℝ)))
    (some fun _ => ((1 : ℝ), (1 : ℝ))) o := by
  refine C12_own_qr exCfg_inner (fun M => ⟨by simp, by simp, fun i j hij => by omega⟩) o (apart_one ?_) (fun Y' e => ?_) ?_
  · refine Real.le_sqrt_of_sq_le ?_
    simp [nsq, exCfg]; norm_num
  · obtain rfl := Option.some.inj e
    refine apart_one (Real.le_sqrt_of_sq_le ?_)
    simp [nsq, exCfg]; norm_num
  · simp [gram, exCfg]

/-- Non-vacuity of `C36_own_qr`: deflation of `A = diag(1, 2)`, `b = (1, 1)` with the vector `(1, 1)` and the own `qr`. -/
theorem exSpd_own (r : ℕ) (o : Bool) :
    DeflHyp exSpd (ownOblArgs exSpd.ip none r (fun M => (1, M)) false o 2).erase (fun _ : Fin 1 => ((1 : ℝ), (1 : ℝ))) := by
  refine C36_own_qr exSpd_hyp.ls (Minv := none) exSpd_hyp.ls.inner r (fun M => ⟨by simp, by simp, fun i j hij => by omega⟩) o
    (apart_one ?_) (fun x => ?_) (fun x => ?_) ?_ (fun h => by simp at h) (by norm_num)
  · refine Real.le_sqrt_of_sq_le ?_
    simp [nsq, ipMinv, exSpd, exCfg]; norm_num
  · have := nrm_nonneg exSpd.ip x
    change 1e-15 * nrm exSpd.ip x ≤ nrm exSpd.ip x
    linarith
  · have h1 : nrm exSpd.ip x ≤ nrm exSpd.ip (exSpd.B x) := by
      refine Real.sqrt_le_sqrt ?_
      simp [nsq, LSArgs.B, exSpd, exCfg]
      nlinarith [sq_nonneg x.2]
    have := nrm_nonneg exSpd.ip x
    change 1e-15 * nrm exSpd.ip x ≤ nrm exSpd.ip (exSpd.B x)
    linarith
  · simp [gram, LSArgs.B, exSpd, exCfg]
    norm_num

/-- Non-vacuity of C36 and C37 with the own `qr`: the projection exists, is unique, and corrects every vector. -/
example : ∃ s o Q, mkLS exSpd = .ok s ∧
    mkObl s (ownOblArgs exSpd.ip none 0 (fun M => (1, M)) false true 2).erase (fun _ : Fin 1 => ((1 : ℝ), (1 : ℝ))) = .ok o ∧
    IsDeflProj exSpd (fun _ : Fin 1 => ((1 : ℝ), (1 : ℝ))) Q ∧
    ∀ z, ∃ x, o.correct s z = .ok x ∧ exSpd.Ml (exSpd.b - exSpd.A x) = Q (exSpd.Ml (exSpd.b - exSpd.A z)) ∧ o.correct s x = .ok x := by
  have hd := exSpd_own 0 true
  obtain ⟨s, hs, -⟩ := mkLS_ok hd.ls
  obtain ⟨o, ho⟩ := C36_total hd hs
  obtain ⟨Q, hQ, -⟩ := C37_projection_unique hd
  refine ⟨s, o, Q, hs, ho, hQ, fun z => ?_⟩
  obtain ⟨x, hx, -⟩ := C36_correct hd hs ho (fun _ => rfl) z
  exact ⟨x, hx, C36_residual hd hs ho (fun _ => rfl) hQ hx, C36_idempotent hd hs ho (fun _ => rfl) hx⟩

end Krypy
