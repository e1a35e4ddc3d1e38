import Verif.Model.Arnoldifyer
import Verif.Props.DeflRitz
import Verif.Props.House

/-! # Property C56: Arnoldi relations for approximate deflated Krylov subspaces (`deflation.Arnoldifyer`) -/

set_option linter.unusedSectionVars false

namespace Krypy
variable {𝕜 E : Type*} [RCLike 𝕜] [AddCommGroup E] [Module 𝕜 E] {n_ n d k : ℕ}
open scoped ComplexConjugate
open Matrix

section cdot
variable {ι κ : Type*} [Fintype ι] [Fintype κ]

theorem cdot_inner : IsInner (cdot (𝕜 := 𝕜) (ι := ι)) where
  add_right x y z := dotProduct_add _ _ _
  smul_right c x y := by simp [cdot]
  conj_symm x y := by
    simp only [cdot, dotProduct, map_sum, map_mul, Pi.star_apply, RCLike.star_def, RCLike.conj_conj]
    exact Finset.sum_congr rfl fun i _ => mul_comm _ _
  pos x hx := by
    rw [cdot, star_dot_self, RCLike.ofReal_re]
    have : vecNorm x ≠ 0 := fun h => hx (vecNorm_eq_zero.mp h)
    positivity

theorem lincomb_cols (X : Matrix ι κ 𝕜) (c : κ → 𝕜) : lincomb (fun j i => X i j) c = X *ᵥ c := by
  funext i
  simp [lincomb, Matrix.mulVec, dotProduct, mul_comm]

theorem gram_cdot {μ : Type*} (Y : Matrix ι κ 𝕜) (X : Matrix ι μ 𝕜) :
    gram cdot (fun j i => Y i j) (fun j i => X i j) = Yᴴ * X := by
  ext i j
  simp [gram, cdot, Matrix.mul_apply, dotProduct]

theorem coefs_cdot (Y : Matrix ι κ 𝕜) (a : ι → 𝕜) : coefs cdot (fun j i => Y i j) a = Yᴴ *ᵥ a := by
  funext i
  simp [coefs, cdot, Matrix.mulVec, dotProduct]

/-- The matrix of the complementary projection with range `Y^⊥` and kernel `X`. -/
noncomputable def complMat [DecidableEq ι] (X Y : Matrix ι (Fin k) 𝕜) : Matrix ι ι 𝕜 := 1 - X * (Yᴴ * X)⁻¹ * Yᴴ

theorem sub_oblique_cdot [DecidableEq ι] (X Y : Matrix ι (Fin k) 𝕜) (a : ι → 𝕜) :
    a - oblique cdot (fun j i => X i j) (fun j i => Y i j) a = complMat X Y *ᵥ a := by
  rw [oblique, gram_cdot, lincomb_cols, coefs_cdot, complMat, Matrix.sub_mulVec, Matrix.one_mulVec, ← Matrix.mulVec_mulVec,
    ← Matrix.mulVec_mulVec]

theorem adj_complMat [DecidableEq ι] {X Y : Matrix ι (Fin k) 𝕜} (h : (Yᴴ * X).det ≠ 0) : Yᴴ * complMat X Y = 0 := by
  rw [complMat, Matrix.mul_sub, Matrix.mul_one, ← Matrix.mul_assoc, ← Matrix.mul_assoc,
    Matrix.mul_nonsing_inv _ (isUnit_iff_ne_zero.mpr h), Matrix.one_mul, sub_self]

theorem complCols_eq {X Y : Matrix (Fin n_ ⊕ Fin d) (Fin k) 𝕜} {q : Proj 𝕜 (Fin n_ ⊕ Fin d → 𝕜) k}
    (hq : ProjOK cdot (fun j i => X i j) (fun j i => Y i j) q) {μ : Type*} (M : Matrix (Fin n_ ⊕ Fin d) μ 𝕜) :
    complCols q M = complMat X Y * M := by
  ext i j
  rw [complCols, Matrix.of_apply, hq.applyCompl_eq]
  have := congrFun (sub_oblique_cdot X Y fun i => M i j) i
  simpa [Matrix.mul_apply, Matrix.mulVec, dotProduct] using this

theorem houseCols_eq {p : ℕ} (x : Fin (p + 1) → 𝕜) (M : Matrix (Fin (p + 1)) κ 𝕜) :
    houseCols (mkHouse x) M = (mkHouse x).matrix * M := by
  ext i j
  rw [houseCols, Matrix.of_apply, (C09_matrix x _).1]
  rfl

end cdot

/-! ## The constructor -/

/-- Specification: what `Z` and `R12` leave of `M A U`: the columns of `M A U - V B_ - U E - Z_2 R12`, where `Z_2` consists of the
last columns of `Z`. -/
def arnfDefect (a : Arnf 𝕜 E n_ n d) (V : ℕ → E) (U MAU : Fin d → E) (Em : Matrix (Fin d) (Fin d) 𝕜)
    (B_ : List (Fin d → 𝕜)) (j : Fin d) : E :=
  MAU j - lincomb (fun i : Fin n_ => V i) (B_.getD · 0 j) - lincomb U (Em · j) - lincomb (fun i => a.Z (.inr i)) (a.R12 · j)

section pivot
variable {eip : E → E → 𝕜} {X Q : Fin d → E} {R : Matrix (Fin d) (Fin d) 𝕜} {P : Equiv.Perm (Fin d)}

theorem IsPivQr.diag_anti (h : IsPivQr eip X Q R P) {i j : Fin d} (hij : i ≤ j) : ‖R j j‖ ≤ ‖R i i‖ := by
  have h1 := h.pivot i j hij
  have h2 : ‖R j j‖ ^ 2 ≤ ∑ a ∈ Finset.Icc i j, ‖R a j‖ ^ 2 :=
    Finset.single_le_sum (f := fun a => ‖R a j‖ ^ 2) (fun _ _ => by positivity) (Finset.mem_Icc.mpr ⟨hij, le_rfl⟩)
  exact (sq_le_sq₀ (norm_nonneg _) (norm_nonneg _)).mp (h2.trans h1)

/-- The diagonal entries above the threshold are the first ones. -/
theorem IsPivQr.rank_iff (h : IsPivQr eip X Q R P) (t : ℝ) (i : Fin d) : (i : ℕ) < arnfRank R t ↔ 1e-14 * t < ‖R i i‖ := by
  unfold arnfRank
  constructor
  · intro hi
    by_contra hc
    have hsub : (Finset.univ.filter fun a : Fin d => 1e-14 * t < ‖R a a‖) ⊆ Finset.Iio i := by
      intro a ha
      rw [Finset.mem_filter] at ha
      rw [Finset.mem_Iio]
      by_contra hai
      exact hc (ha.2.trans_le (h.diag_anti (not_lt.mp hai)))
    have := Finset.card_le_card hsub
    rw [Fin.card_Iio] at this
    omega
  · intro hi
    have hsub : Finset.Iic i ⊆ (Finset.univ.filter fun a : Fin d => 1e-14 * t < ‖R a a‖) := by
      intro a ha
      rw [Finset.mem_Iic] at ha
      exact Finset.mem_filter.mpr ⟨Finset.mem_univ _, hi.trans_le (h.diag_anti ha)⟩
    have := Finset.card_le_card hsub
    rw [Fin.card_Iic] at this
    omega

/-- The first columns of `Q` are orthogonal to everything that is orthogonal to `X`. -/
theorem IsPivQr.orth_of (h : IsPivQr eip X Q R P) {g : E → E → 𝕜} (hg : IsInner g) {y : E} (hy : ∀ j, g y (X j) = 0) {t : ℝ}
    (ht : 0 ≤ t) : ∀ m, ∀ i : Fin d, (i : ℕ) = m → m < arnfRank R t → g y (Q i) = 0 := by
  intro m
  induction m using Nat.strong_induction_on with
  | _ m ih =>
    intro i hi hm
    have h1 := hy (P i)
    rw [h.fact, lincomb, hg.sum_right, Finset.sum_eq_single i, hg.smul_right] at h1
    · have h2 := (h.rank_iff t i).mp (by omega)
      have h3 : R i i ≠ 0 := by
        intro h0
        rw [h0, norm_zero] at h2
        linarith [mul_nonneg (by norm_num : (0 : ℝ) ≤ 1e-14) ht]
      exact (mul_eq_zero.mp h1).resolve_left h3
    · intro a _ ha
      rw [hg.smul_right]
      rcases lt_or_gt_of_ne ha with hlt | hgt
      · have hlt' : (a : ℕ) < i := hlt
        rw [ih a (by omega) a rfl (by omega), mul_zero]
      · rw [h.upper a i hgt, zero_mul]
    · simp

/-- What is cut off is small. -/
theorem IsPivQr.tail (h : IsPivQr eip X Q R P) (hi : IsInner eip) {t : ℝ} (ht : 0 ≤ t) (j : Fin d) :
    nrm eip (X j - lincomb (fun i : Fin (arnfRank R t) => Q (Fin.castLE (arnfRank_le R t) i))
      (fun i => R (Fin.castLE (arnfRank_le R t) i) (P.symm j))) ≤ 1e-14 * t := by
  set l := arnfRank R t with hl
  have hld := arnfRank_le R t
  set b := P.symm j with hb
  have hX : X j = lincomb Q fun i => R i b := by rw [← h.fact, hb, Equiv.apply_symm_apply]
  set c : Fin d → 𝕜 := fun i => if (i : ℕ) < l then 0 else R i b with hc
  have e1 : X j - lincomb (fun i : Fin l => Q (Fin.castLE hld i)) (fun i => R (Fin.castLE hld i) b) = lincomb Q c := by
    have e2 : lincomb (fun i : Fin l => Q (Fin.castLE hld i)) (fun i => R (Fin.castLE hld i) b) =
        lincomb Q (fun i => if (i : ℕ) < l then R i b else 0) := by
      unfold lincomb
      have : ∑ i : Fin d, (if (i : ℕ) < l then R i b else 0) • Q i =
          ∑ i ∈ Finset.univ.filter (fun i : Fin d => (i : ℕ) < l), R i b • Q i := by
        rw [Finset.sum_filter]
        exact Finset.sum_congr rfl fun i _ => by split_ifs <;> simp
      rw [this]
      refine Finset.sum_bij (fun i _ => Fin.castLE hld i) ?_ ?_ ?_ ?_
      · intro i _; exact Finset.mem_filter.mpr ⟨Finset.mem_univ _, i.2⟩
      · intro i _ i' _ hii; exact Fin.ext (by simpa [Fin.ext_iff] using hii)
      · intro i hi'
        exact ⟨⟨i, (Finset.mem_filter.mp hi').2⟩, Finset.mem_univ _, rfl⟩
      · intro i _; rfl
    rw [e2, hX, ← lincomb_sub]
    congr 1
    funext i
    simp only [Pi.sub_apply, hc]
    split_ifs <;> simp
  rw [e1, nrm_lincomb_orth hi h.orth]
  have htol : (0 : ℝ) ≤ 1e-14 * t := mul_nonneg (by norm_num) ht
  rw [← sq_le_sq₀ (vecNorm_nonneg _) htol, vecNorm_sq]
  rcases Nat.lt_or_ge (b : ℕ) l with hbl | hbl
  · rw [Finset.sum_eq_zero]
    · positivity
    · intro i _
      simp only [hc]
      split_ifs with hil
      · simp
      · rw [h.upper i b (by rw [Fin.lt_def]; omega)]; simp
  · have hld' : l < d := by omega
    have h1 := h.pivot ⟨l, hld'⟩ b hbl
    have h2 : ‖R ⟨l, hld'⟩ ⟨l, hld'⟩‖ ≤ 1e-14 * t := by
      have := (h.rank_iff t ⟨l, hld'⟩).not.mp (by simp [hl])
      exact not_lt.mp this
    have h3 : ∑ i, ‖c i‖ ^ 2 = ∑ a ∈ Finset.Icc ⟨l, hld'⟩ b, ‖R a b‖ ^ 2 := by
      rw [← Finset.sum_subset (Finset.subset_univ (Finset.Icc (⟨l, hld'⟩ : Fin d) b))]
      · refine Finset.sum_congr rfl fun a ha => ?_
        have := (Finset.mem_Icc.mp ha).1
        rw [Fin.le_def] at this
        simp only [hc]
        rw [if_neg (by simpa using this)]
      · intro a _ ha
        rw [Finset.mem_Icc, not_and_or, Fin.le_def, Fin.le_def] at ha
        simp only [hc]
        rcases ha with ha | ha
        · rw [if_pos (by simpa using ha)]; simp
        · split_ifs
          · simp
          · rw [h.upper a b (by rw [Fin.lt_def]; omega)]; simp
    rw [h3]
    exact h1.trans (pow_le_pow_left₀ (norm_nonneg _) h2 2)

end pivot

/-- The contracts of the routines used in the constructor. -/
structure ArnfHyp (g eip : E → E → 𝕜) (rt : ArnfRoutines 𝕜 E d) : Prop where
  euclid : IsInner eip
  pqr : ∀ X, IsPivQr eip X (rt.pqr X).1 (rt.pqr X).2.1 (rt.pqr X).2.2
  qrM : ∀ l Q Q' R, rt.qrM l Q = .ok (Q', R) → IsQr g Q Q' R

theorem matNorm2_nonneg {ι κ : Type*} [Fintype ι] [Fintype κ] [DecidableEq κ] (M : Matrix ι κ 𝕜) : 0 ≤ matNorm2 M := by
  open scoped Matrix.Norms.L2Operator in exact norm_nonneg _

open DeflRitzRel in
/-- What the constructor establishes. -/
structure ArnfOK (g : E → E → 𝕜) (V : ℕ → E) (U MAU : Fin d → E) (H : ℕ → ℕ → 𝕜) (Em : Matrix (Fin d) (Fin d) 𝕜)
    (C B_ : List (Fin d → 𝕜)) (a : Arnf 𝕜 E n_ n d) : Prop where
  L : a.L = ritzL H n_ (Em⁻¹ * colsMat C n)
  J : a.J = arnfJ n_ (rowsMat B_ n) Em
  N : a.N = arnfN n (rowsMat B_ n_) a.R12
  ZV : ∀ i, a.Z (.inl i) = V (n + i)
  orth : gram g (fun i => a.Z (.inr i)) (fun i => a.Z (.inr i)) = 1
  perp : ∀ y, (∀ j, g y (arnfX V U MAU Em (rowsMat B_ n_) j) = 0) → ∀ i, g y (a.Z (.inr i)) = 0

section ctor
variable {g eip : E → E → 𝕜} {T : E →ₗ[𝕜] E} {V : ℕ → E} {U : Fin d → E} {H : ℕ → ℕ → 𝕜}
  {Em F : Matrix (Fin d) (Fin d) 𝕜} {C B_ : List (Fin d → 𝕜)} {rt : ArnfRoutines 𝕜 E d} {a : Arnf 𝕜 E n_ n d}

theorem defect_eq (MAU : Fin d → E) (j : Fin d) : arnfDefect a V U MAU Em B_ j =
    arnfX V U MAU Em (rowsMat B_ n_) j - lincomb (fun i => a.Z (.inr i)) (a.R12 · j) := by
  unfold arnfDefect arnfX rowsMat
  simp only [Matrix.of_apply]
  abel

variable (h : DeflRitzRel g T V U H n_ n Em F C B_) (hr : ArnfHyp g eip rt)
  (ha : mkArnf rt H Em C B_ V U (fun j => T (U j)) = .ok a)
include h hr ha

theorem mkArnf_ok : ArnfOK g V U (fun j => T (U j)) H Em C B_ a ∧ a.A_norm = matNorm2
      (ritzM H Em (colsMat C n) (Em⁻¹ * colsMat C n) (rowsMat B_ n)) ∧
    ∀ j, nrm eip (arnfDefect a V U (fun j => T (U j)) Em B_ j) ≤ 1e-14 * a.A_norm := by
  unfold mkArnf at ha
  rw [if_neg (by rw [h.lenC, h.lenB]; simp), h.solve] at ha
  dsimp only at ha
  split_ifs at ha with hd
  · subst hd
    obtain rfl := Except.ok.inj ha
    refine ⟨⟨rfl, rfl, rfl, fun i => rfl, ?_, fun y _ i => i.elim0⟩, rfl, fun j => j.elim0⟩
    ext i
    exact i.elim0
  · set t := matNorm2 (ritzM H Em (colsMat C n) (Em⁻¹ * colsMat C n) (rowsMat B_ n)) with ht
    have ht0 : 0 ≤ t := matNorm2_nonneg _
    set X := arnfX V U (fun j => T (U j)) Em (rowsMat B_ n_) with hX
    have hp := hr.pqr X
    generalize (rt.pqr X).1 = Q at ha hp
    generalize (rt.pqr X).2.1 = R at ha hp
    generalize (rt.pqr X).2.2 = P at ha hp
    set Q1 : Fin (arnfRank R t) → E := fun i => Q (Fin.castLE (arnfRank_le R t) i) with hQ1
    split at ha
    · simp at ha
    · next Q1' Rt he =>
      have hq := hr.qrM _ _ _ _ he
      obtain rfl := Except.ok.inj ha
      have hcol : ∀ j : Fin d, lincomb Q1' (fun i => (Rt * (Matrix.of fun i j => R (Fin.castLE (arnfRank_le R t) i) (P.symm j))) i j)
          = lincomb Q1 (fun i => R (Fin.castLE (arnfRank_le R t) i) (P.symm j)) := by
        intro j
        have e : Q1 = fun j => lincomb Q1' fun i => Rt i j := funext hq.fact
        rw [e, ← lincomb_mulVec]
        congr 1
      have hdet : Rt.det ≠ 0 := by
        have e1 : gram eip Q1 Q1 = 1 := by
          ext i j
          have := congrFun (congrFun hp.orth (Fin.castLE (arnfRank_le R t) i)) (Fin.castLE (arnfRank_le R t) j)
          simp only [gram, Matrix.of_apply, Matrix.one_apply, Fin.ext_iff, Fin.val_castLE] at this ⊢
          exact this
        rw [show Q1 = fun j => lincomb Q1' fun i => Rt i j from funext hq.fact, hr.euclid.gram_left, hr.euclid.gram_right] at e1
        have := congrArg Matrix.det e1
        rw [Matrix.det_mul, Matrix.det_mul, Matrix.det_one] at this
        intro h0
        rw [h0, mul_zero, mul_zero] at this
        exact zero_ne_one this
      refine ⟨⟨rfl, rfl, rfl, fun i => rfl, hq.orth, fun y hy i => ?_⟩, rfl, fun j => ?_⟩
      · have h1 : ∀ i, g y (Q1 i) = 0 := fun i => hp.orth_of h.inner hy ht0 _ _ rfl (by simp)
        have h2 : (fun i => g y (Q1' i)) ᵥ* Rt = 0 := by
          funext j
          have := h1 j
          rw [hq.fact, lincomb, h.inner.sum_right] at this
          rw [Matrix.vecMul, dotProduct, Pi.zero_apply, ← this]
          exact Finset.sum_congr rfl fun i _ => by rw [h.inner.smul_right, mul_comm]
        exact congrFun (Matrix.eq_zero_of_vecMul_eq_zero hdet h2) i
      · rw [defect_eq]
        have e : lincomb (fun i => Sum.elim (fun i : Fin (n_ - n) => V (n + i)) Q1' (.inr i))
            (fun i => (Rt * (Matrix.of fun i j => R (Fin.castLE (arnfRank_le R t) i) (P.symm j))) i j) =
            lincomb Q1 (fun i => R (Fin.castLE (arnfRank_le R t) i) (P.symm j)) := hcol j
        rw [e]
        exact hp.tail hr.euclid ht0 j

/-- If no column is dropped by the rank decision then nothing is neglected. -/
theorem mkArnf_full (hf : ∀ i, 1e-14 * a.A_norm < ‖(rt.pqr (arnfX V U (fun j => T (U j)) Em (rowsMat B_ n_))).2.1 i i‖) (j : Fin d) :
    arnfDefect a V U (fun j => T (U j)) Em B_ j = 0 := by
  obtain ⟨-, hA, -⟩ := mkArnf_ok h hr ha
  rw [hA] at hf
  unfold mkArnf at ha
  rw [if_neg (by rw [h.lenC, h.lenB]; simp), h.solve] at ha
  dsimp only at ha
  split_ifs at ha with hd
  · subst hd
    exact j.elim0
  · set t := matNorm2 (ritzM H Em (colsMat C n) (Em⁻¹ * colsMat C n) (rowsMat B_ n)) with ht
    set X := arnfX V U (fun j => T (U j)) Em (rowsMat B_ n_) with hX
    have hp := hr.pqr X
    generalize (rt.pqr X).1 = Q at ha hp
    generalize (rt.pqr X).2.1 = R at ha hp hf
    generalize (rt.pqr X).2.2 = P at ha hp
    have hl : arnfRank R t = d := by
      unfold arnfRank
      rw [Finset.filter_true_of_mem fun i _ => hf i, Finset.card_univ, Fintype.card_fin]
    have key : ∀ (l : ℕ) (hle : l ≤ d) (f : Fin d → 𝕜), l = d →
        lincomb (fun i : Fin l => Q (Fin.castLE hle i)) (fun i => f (Fin.castLE hle i)) = lincomb Q f := by
      rintro l hle f rfl
      rfl
    set Q1 : Fin (arnfRank R t) → E := fun i => Q (Fin.castLE (arnfRank_le R t) i) with hQ1
    split at ha
    · simp at ha
    · next Q1' Rt he =>
      have hq := hr.qrM _ _ _ _ he
      obtain rfl := Except.ok.inj ha
      have hcol : lincomb Q1' (fun i => (Rt * (Matrix.of fun i j => R (Fin.castLE (arnfRank_le R t) i) (P.symm j))) i j)
          = lincomb Q1 (fun i => R (Fin.castLE (arnfRank_le R t) i) (P.symm j)) := by
        have e : Q1 = fun j => lincomb Q1' fun i => Rt i j := funext hq.fact
        rw [e, ← lincomb_mulVec]
        congr 1
      rw [defect_eq, sub_eq_zero]
      refine Eq.trans ?_ hcol.symm
      rw [hQ1, key _ (arnfRank_le R t) (fun i => R i (P.symm j)) hl, ← hp.fact, Equiv.apply_symm_apply]

end ctor

section facts
open DeflRitzRel
variable {g : E → E → 𝕜} {T : E →ₗ[𝕜] E} {V : ℕ → E} {U : Fin d → E} {H : ℕ → ℕ → 𝕜}
  {Em F : Matrix (Fin d) (Fin d) 𝕜} {C B_ : List (Fin d → 𝕜)} {a : Arnf 𝕜 E n_ n d}
  (h : DeflRitzRel g T V U H n_ n Em F C B_)

include h in
theorem arnfX_orth (j : Fin d) : (∀ i < n_, g (V i) (arnfX V U (fun j => T (U j)) Em (rowsMat B_ n_) j) = 0) ∧
    ∀ i, g (U i) (arnfX V U (fun j => T (U j)) Em (rowsMat B_ n_) j) = 0 := by
  have hi := h.inner
  constructor
  · intro i hin
    rw [arnfX, hi.sub_right, hi.sub_right, lincomb, hi.sum_right, lincomb, hi.sum_right, Finset.sum_eq_zero,
      Finset.sum_eq_single ⟨i, hin⟩, hi.smul_right, h.orthP i hin i hin, if_pos rfl, rowsMat, Matrix.of_apply, h.Bmat i hin]
    · ring
    · intro b _ hb
      have : i ≠ b := fun hc => hb (Fin.ext hc.symm)
      rw [hi.smul_right, h.orthP i hin b b.2, if_neg this, mul_zero]
    · simp
    · intro b _
      rw [hi.smul_right, hi.orth_symm (h.orthWP b i hin), mul_zero]
  · intro i
    rw [arnfX, hi.sub_right, hi.sub_right, lincomb, hi.sum_right, lincomb, hi.sum_right,
      Finset.sum_eq_zero (f := fun b : Fin n_ => _), Finset.sum_eq_single i, hi.smul_right, h.orthW, if_pos rfl, h.Emat]
    · ring
    · intro b _ hb
      rw [hi.smul_right, h.orthW, if_neg (Ne.symm hb), mul_zero]
    · simp
    · intro b _
      rw [hi.smul_right, h.orthWP i b b.2, mul_zero]

variable (ok : ArnfOK g V U (fun j => T (U j)) H Em C B_ a)
include h ok

theorem arnf_gram_Z : gram g a.Z a.Z = 1 ∧ gram g (wb n V U) a.Z = 0 := by
  have hi := h.inner
  have hle := h.le
  have h1 : ∀ i < n_, ∀ j, g (V i) (a.Z (.inr j)) = 0 :=
    fun i hin j => ok.perp _ (fun l => (arnfX_orth h l).1 i hin) j
  have h2 : ∀ i j, g (U i) (a.Z (.inr j)) = 0 := fun i j => ok.perp _ (fun l => (arnfX_orth h l).2 i) j
  constructor
  · ext i j
    rcases i with i | i <;> rcases j with j | j <;> simp only [gram, Matrix.of_apply, Matrix.one_apply]
    · rw [ok.ZV, ok.ZV, h.orthP _ (by omega) _ (by omega)]; simp [Fin.ext_iff]
    · rw [ok.ZV, h1 _ (by omega)]; simp
    · rw [ok.ZV, hi.orth_symm (h1 _ (by omega) i)]; simp
    · have := congrFun (congrFun ok.orth i) j
      simp only [gram, Matrix.of_apply, Matrix.one_apply] at this
      rw [this]; simp
  · ext i j
    rcases i with i | i <;> rcases j with j | j <;> simp only [gram, Matrix.of_apply, wb, Sum.elim_inl, Sum.elim_inr,
      Matrix.zero_apply]
    · rw [ok.ZV, h.orthP _ (by omega) _ (by omega), if_neg (by omega)]
    · exact h1 _ (by omega) j
    · rw [ok.ZV]; exact h.orthWP i _ (by omega)
    · exact h2 i j

theorem arnf_defect_orth (j : Fin d) : (∀ i < n_, g (V i) (arnfDefect a V U (fun j => T (U j)) Em B_ j) = 0) ∧
    ∀ i, g (U i) (arnfDefect a V U (fun j => T (U j)) Em B_ j) = 0 := by
  have hi := h.inner
  constructor
  · intro i hin
    rw [defect_eq, hi.sub_right, (arnfX_orth h j).1 i hin, lincomb, hi.sum_right, Finset.sum_eq_zero, sub_zero]
    intro b _
    rw [hi.smul_right, ok.perp _ (fun l => (arnfX_orth h l).1 i hin) b, mul_zero]
  · intro i
    rw [defect_eq, hi.sub_right, (arnfX_orth h j).2 i, lincomb, hi.sum_right, Finset.sum_eq_zero, sub_zero]
    intro b _
    rw [hi.smul_right, ok.perp _ (fun l => (arnfX_orth h l).2 i) b, mul_zero]

/-- `[V, M A U] = [V_n, U] J + Z N + [0, D]`. -/
theorem arnf_split (c : Fin n_ ⊕ Fin d → 𝕜) : lincomb (wb n_ V fun j => T (U j)) c =
    lincomb (wb n V U) (a.J *ᵥ c) + lincomb a.Z (a.N *ᵥ c) +
      lincomb (arnfDefect a V U (fun j => T (U j)) Em B_) (fun j => c (.inr j)) := by
  have hle := h.le
  have hcol : ∀ j, T (U j) = (lincomb (fun i : Fin n_ => V i) fun i => rowsMat B_ n_ i j) + (lincomb U fun i => Em i j) +
      (lincomb (fun i => a.Z (.inr i)) fun i => a.R12 i j) + arnfDefect a V U (fun j => T (U j)) Em B_ j := by
    intro j
    rw [defect_eq, arnfX]
    abel
  have hsplitV : ∀ f : Fin n_ → 𝕜, lincomb (fun i : Fin n_ => V i) f =
      lincomb (fun i : Fin n => V i) (fun i => f (Fin.castLE hle i)) +
      lincomb (fun i : Fin (n_ - n) => V (n + i)) (fun i => f ⟨n + i, by omega⟩) := by
    intro f
    unfold lincomb
    have e : n + (n_ - n) = n_ := by omega
    rw [← (finCongr e).sum_comp, Fin.sum_univ_add]
    congr 1
  set D := arnfDefect a V U (fun j => T (U j)) Em B_ with hD
  set y : Fin d → 𝕜 := fun j => c (.inr j) with hy
  set x : Fin n_ → 𝕜 := fun j => c (.inl j) with hx
  have e0 : lincomb (fun j => T (U j)) y = lincomb (fun i : Fin n_ => V i) (rowsMat B_ n_ *ᵥ y) + lincomb U (Em *ᵥ y) +
      lincomb (fun i => a.Z (.inr i)) (a.R12 *ᵥ y) + lincomb D y := by
    rw [lincomb_mulVec, lincomb_mulVec, lincomb_mulVec, funext hcol]
    simp only [lincomb, smul_add, Finset.sum_add_distrib]
  have e1 : lincomb (wb n_ V fun j => T (U j)) c = lincomb (fun i : Fin n_ => V i) x + lincomb (fun j => T (U j)) y :=
    lincomb_sum _ _ c
  have e2 : lincomb (wb n V U) (a.J *ᵥ c) = lincomb (fun i : Fin n => V i) (fun i => (x + rowsMat B_ n_ *ᵥ y) (Fin.castLE hle i)) +
      lincomb U (Em *ᵥ y) := by
    rw [show lincomb (wb n V U) (a.J *ᵥ c) = _ from lincomb_sum _ _ (a.J *ᵥ c), ok.J, arnfJ, fromBlocks_mulVec]
    congr 2
    · funext i
      simp only [Sum.elim_inl, Pi.add_apply]
      congr 1
      rw [Matrix.mulVec, dotProduct, Finset.sum_eq_single (Fin.castLE hle i)]
      · simp [eyeMat, hx]
      · intro b _ hb
        have : (i : ℕ) ≠ b := fun hc => hb (Fin.ext hc.symm)
        simp [eyeMat, this]
      · simp
    · funext i
      simp only [Sum.elim_inr]
      rw [Matrix.zero_mulVec]
      simp [hy, Function.comp_def]
  have e3 : lincomb a.Z (a.N *ᵥ c) = lincomb (fun i : Fin (n_ - n) => V (n + i)) (fun i => (x + rowsMat B_ n_ *ᵥ y) ⟨n + i, by omega⟩) +
      lincomb (fun i => a.Z (.inr i)) (a.R12 *ᵥ y) := by
    have eZ : a.Z = Sum.elim (fun i : Fin (n_ - n) => V (n + i)) (fun i => a.Z (.inr i)) := by
      funext i
      rcases i with i | i
      · rw [ok.ZV]; rfl
      · rfl
    rw [eZ, lincomb_sum, ok.N, arnfN, fromBlocks_mulVec]
    congr 2
    · funext i
      simp only [Sum.elim_inl, Pi.add_apply]
      congr 1
      rw [Matrix.mulVec, dotProduct, Finset.sum_eq_single ⟨n + i, by omega⟩]
      · simp [hx]
      · intro b _ hb
        have : ¬ ((b : ℕ) = n + i) := fun hc => hb (Fin.ext hc)
        simp [this]
      · simp
    · funext i
      simp only [Sum.elim_inr]
      rw [Matrix.zero_mulVec]
      simp [hy, Function.comp_def]
  have e4 := hsplitV (x + rowsMat B_ n_ *ᵥ y)
  rw [lincomb_add] at e4
  rw [e1, e0, e2, e3, ← add_assoc, ← add_assoc, ← add_assoc, e4]
  abel

theorem arnf_coefs (c : Fin n_ ⊕ Fin d → 𝕜) : coefs g (wb n V U) (lincomb (wb n_ V fun j => T (U j)) c) = a.J *ᵥ c := by
  have hi := h.inner
  rw [arnf_split h ok, hi.coefs_add, hi.coefs_add, hi.coefs_lincomb, hi.coefs_lincomb, h.gram_wb, (arnf_gram_Z h ok).2,
    Matrix.one_mulVec, Matrix.zero_mulVec, add_zero, hi.coefs_lincomb]
  have : gram g (wb n V U) (arnfDefect a V U (fun j => T (U j)) Em B_) = 0 := by
    have hle := h.le
    ext i j
    rcases i with i | i
    · exact (arnf_defect_orth h ok j).1 i (by omega)
    · exact (arnf_defect_orth h ok j).2 i
  rw [this, Matrix.zero_mulVec, add_zero]

end facts

/-! ## The method `get` -/

/-- The contracts of the routines used in `get`. -/
structure ArnfGetHyp {p : ℕ} (rt : ArnfGetRoutines 𝕜 n_ n d k p) : Prop where
  fullQr : ∀ Wt, IsFullQr Wt (rt.fullQr Wt).1 (rt.fullQr Wt).2
  projQr : ∀ X, ∃ V R, rt.proj.qr X = .ok (V, R) ∧ IsQr cdot X V R
  projMat : ∀ M, IsMatQr M (rt.proj.matQr M).1 (rt.proj.matQr M).2
  hess : ∀ A, IsHess A (rt.hess A).1 (rt.hess A).2
  ecoQr : ∀ l X, IsEcoQr X (rt.ecoQr l X)
  svdmin : ∀ M, 0 < k → IsSvdMin M (rt.svdmin M)

theorem eyeCols_full {p : ℕ} (hp : n + d = p + 1) (Wt : Matrix (Fin n ⊕ Fin d) (Fin 0) 𝕜) :
    IsFullQr Wt Wt (eyeCols n d p) := by
  have he : (eyeCols n d p : Matrix _ _ 𝕜) =
      Matrix.of fun i j => if (finSumFinEquiv.trans (finCongr hp)) i = j then 1 else 0 := by
    ext i j
    rcases i with i | i <;> simp [eyeCols, Fin.ext_iff] <;> congr
  have h1 : (eyeCols (𝕜 := 𝕜) n d p) * (eyeCols (𝕜 := 𝕜) n d p)ᴴ = 1 := by
    rw [he]
    ext i j
    simp [Matrix.mul_apply, Matrix.one_apply, eq_comm]
  have h2 : (eyeCols (𝕜 := 𝕜) n d p)ᴴ * (eyeCols (𝕜 := 𝕜) n d p) = 1 := by
    rw [he]
    ext i j
    rw [Matrix.mul_apply, ← (finSumFinEquiv.trans (finCongr hp)).symm.sum_comp]
    simp [Matrix.one_apply, eq_comm]
  have h3 : Wt * Wtᴴ = 0 := by
    ext i j
    simp [Matrix.mul_apply]
  refine ⟨⟨1, by rw [Matrix.mul_one]⟩, ?_, h2, ?_, by rw [h3, h1, zero_add]⟩
  · ext i; exact i.elim0
  · ext i; exact i.elim0

/-- What `get` computes, in terms of the orthonormal bases `Wq` of the coefficients and `S` of their orthogonal complement. -/
structure ArnfGot {p : ℕ} (a : Arnf 𝕜 E n_ n d) (rt : ArnfGetRoutines 𝕜 n_ n d k p) (ipM : E → E → 𝕜)
    (Em : Matrix (Fin d) (Fin d) 𝕜) (B_ : List (Fin d → 𝕜)) (V : ℕ → E) (U : Fin d → E) (r0 : ℝ) (UMlr : Fin d → 𝕜)
    (hn : n ≤ n_) (Wt Wq : Matrix (Fin n ⊕ Fin d) (Fin k) 𝕜) (S : Matrix (Fin n ⊕ Fin d) (Fin (p + 1)) 𝕜)
    (Pm : Matrix (Fin n_ ⊕ Fin d) (Fin n_ ⊕ Fin d) 𝕜) (out : ArnfOut 𝕜 E n_ n a.l p) : Prop where
  Pm_eq : Pm = complMat (a.L * Wq) (a.Jᴴ * Wq)
  det : ((a.Jᴴ * Wq)ᴴ * (a.L * Wq)).det ≠ 0
  fact : ∃ R : Matrix (Fin k) (Fin k) 𝕜, Wt = Wq * R
  qq : Wqᴴ * Wq = 1
  ss : Sᴴ * S = 1
  qs : Wqᴴ * S = 0
  full : Wq * Wqᴴ + S * Sᴴ = 1
  Hh : out.Hh = Sᴴ * (a.J * (Pm * (a.L * S)))
  hess : ∀ i j : Fin (p + 1), (j : ℕ) + 1 < i → out.Hh i j = 0
  Rh : out.Rh = a.N * (Pm * (a.L * S))
  Vh : ∀ j, out.Vh j = lincomb (DeflRitzRel.wb n V U) (S · j)
  qNorm : 0 ≤ out.qNorm
  start : ∃ al : 𝕜, ‖al‖ = 1 ∧ Sᴴ *ᵥ (a.J *ᵥ (Pm *ᵥ arnfRhs Em r0 UMlr)) =
    fun i => if i = 0 then al * (out.qNorm : 𝕜) else 0
  vdiff : out.vdiffNorm = vecNorm (a.N *ᵥ (Pm *ᵥ arnfRhs Em r0 UMlr))
  pwaw : out.pwawNorm = if 0 < k then
    1 / rt.svdmin (Wqᴴ * arnfPick hn (rt.ecoQr a.l (arnfY (rowsMat B_ n_) Em a.R12 * (a.L * Wq)))) else 1
  F : ∀ x, out.F x = -(lincomb a.Z (out.Rh *ᵥ coefs ipM out.Vh x) + lincomb out.Vh (out.Rhᴴ *ᵥ coefs ipM a.Z x))

theorem arnf_get {a : Arnf 𝕜 E n_ n d} {rt : ArnfGetRoutines 𝕜 n_ n d k (n + d - k - 1)} (hrt : ArnfGetHyp rt)
    (ipM : E → E → 𝕜) (Em : Matrix (Fin d) (Fin d) 𝕜) (B_ : List (Fin d → 𝕜)) (V : ℕ → E) (U : Fin d → E) (r0 : ℝ)
    (UMlr : Fin d → 𝕜) (hn : n ≤ n_) {Wt : Matrix (Fin n ⊕ Fin d) (Fin k) 𝕜} (hk : k < n + d) (hn0 : 0 < n_)
    (hdet : ((a.Jᴴ * Wt)ᴴ * (a.L * Wt)).det ≠ 0) :
    ∃ out, a.get rt ipM Em B_ V U r0 UMlr hn Wt = .ok out ∧
      ∃ Wq S Pm, ArnfGot a rt ipM Em B_ V U r0 UMlr hn Wt Wq S Pm out := by
  unfold Arnf.get
  rw [if_neg (by omega)]
  dsimp only
  set WW := if 0 < k then rt.fullQr Wt else (Wt, eyeCols n d (n + d - k - 1)) with hWW
  have hq : IsFullQr Wt WW.1 WW.2 := by
    by_cases h0 : 0 < k
    · rw [hWW, if_pos h0]; exact hrt.fullQr Wt
    · obtain rfl : k = 0 := by omega
      rw [hWW, if_neg h0]
      exact eyeCols_full (by omega) Wt
  set Wq := WW.1 with hWq
  set Wo := WW.2 with hWo
  have hdq : ((a.Jᴴ * Wq)ᴴ * (a.L * Wq)).det ≠ 0 := by
    obtain ⟨R, hR⟩ := hq.fact
    have e : (a.Jᴴ * Wt)ᴴ * (a.L * Wt) = Rᴴ * ((a.Jᴴ * Wq)ᴴ * (a.L * Wq)) * R := by
      rw [hR, Matrix.conjTranspose_mul, Matrix.conjTranspose_mul, Matrix.conjTranspose_mul]
      simp only [Matrix.mul_assoc]
    rw [e, Matrix.det_mul, Matrix.det_mul] at hdet
    exact right_ne_zero_of_mul (left_ne_zero_of_mul hdet)
  have hp : ProjHyp cdot rt.proj (fun j i => (a.L * Wq) i j) (some fun j i => (a.Jᴴ * Wq) i j) true :=
    ⟨cdot_inner, fun _ => hrt.projQr _, fun _ Y' _ => hrt.projQr Y', hrt.projMat, by
      rw [Option.getD_some, gram_cdot]; exact hdq⟩
  obtain ⟨Pt, hPt, hok, -⟩ := mkProj_ok hp (it := 2) (by norm_num)
  rw [Option.getD_some] at hok
  rw [hPt]
  dsimp only
  rw [hok.applyCompl_eq]
  dsimp only
  rw [sub_oblique_cdot]
  set Pm := complMat (a.L * Wq) (a.Jᴴ * Wq) with hPm
  set qt := Pm *ᵥ arnfRhs Em r0 UMlr with hqt
  set q := Woᴴ *ᵥ (a.J *ᵥ qt) with hqdef
  obtain ⟨-, hQh, hQQ⟩ := C09_matrix q 0
  set Qm := (mkHouse q).matrix with hQm
  rw [complCols_eq hok, complCols_eq hok, houseCols_eq, houseCols_eq, houseCols_eq]
  refine ⟨_, rfl, ?_⟩
  rw [← hPm, ← hQm]
  set A := Qm * (Woᴴ * a.J * (Pm * (a.L * (Qm * Woᴴ)ᴴ))) with hA
  obtain ⟨hf, hu, h1, hh⟩ := hrt.hess A
  set Hh := (rt.hess A).1
  set T := (rt.hess A).2
  have hu' : T * Tᴴ = 1 := mul_eq_one_comm.mp hu
  have hSS : (Wo * (Qm * T))ᴴ * (Wo * (Qm * T)) = 1 := by
    rw [Matrix.conjTranspose_mul, Matrix.conjTranspose_mul, hQh]
    calc Tᴴ * Qm * Woᴴ * (Wo * (Qm * T)) = Tᴴ * (Qm * (Woᴴ * Wo) * Qm) * T := by simp only [Matrix.mul_assoc]
      _ = 1 := by rw [hq.oo, Matrix.mul_one, hQQ, Matrix.mul_one, hu]
  have hSS' : (Wo * (Qm * T)) * (Wo * (Qm * T))ᴴ = Wo * Woᴴ := by
    rw [Matrix.conjTranspose_mul, Matrix.conjTranspose_mul, hQh]
    calc Wo * (Qm * T) * (Tᴴ * Qm * Woᴴ) = Wo * (Qm * (T * Tᴴ) * Qm) * Woᴴ := by simp only [Matrix.mul_assoc]
      _ = _ := by rw [hu', Matrix.mul_one, hQQ, Matrix.mul_one]
  refine ⟨Wq, Wo * (Qm * T), Pm, ⟨hPm, hdq, hq.fact, hq.qq, hSS, ?_, ?_, ?_, hh, rfl, fun j => ?_, ?_, ?_, rfl, rfl,
    fun x => rfl⟩⟩
  · rw [← Matrix.mul_assoc, hq.qo, Matrix.zero_mul]
  · rw [hSS', hq.full]
  · have e : Hh = Tᴴ * A * T := by
      rw [hf]
      calc Hh = (Tᴴ * T) * Hh * (Tᴴ * T) := by rw [hu, Matrix.one_mul, Matrix.mul_one]
        _ = _ := by simp only [Matrix.mul_assoc]
    change Hh = _
    rw [e, hA, Matrix.conjTranspose_mul, Matrix.conjTranspose_conjTranspose, Matrix.conjTranspose_mul,
      Matrix.conjTranspose_mul, hQh]
    simp only [Matrix.mul_assoc]
  · change deflRitzVec V U (fun i => (Wo * (Qm * T)) i j) = _
    exact DeflRitzRel.vec_eq (𝕜 := 𝕜) V U _
  · change 0 ≤ (mkHouse q).xnorm
    rw [(C09_maps q).1]
    exact Real.sqrt_nonneg _
  · refine ⟨(mkHouse q).alpha, (C09_maps q).2.1, ?_⟩
    change _ = fun i => if i = 0 then (mkHouse q).alpha * ((mkHouse q).xnorm : 𝕜) else 0
    have e1 : (Wo * (Qm * T))ᴴ *ᵥ (a.J *ᵥ qt) = Tᴴ *ᵥ (Qm *ᵥ q) := by
      rw [Matrix.conjTranspose_mul, Matrix.conjTranspose_mul, hQh, hqdef]
      simp only [Matrix.mulVec_mulVec, Matrix.mul_assoc]
    rw [e1, ← (C09_matrix q q).1]
    set b := (mkHouse q).alpha * ((mkHouse q).xnorm : 𝕜) with hb
    have e2 : (mkHouse q).apply q = b • fun i => T i 0 := by
      funext i
      rw [(C09_maps q).2.2 i, Pi.smul_apply, h1 i]
      split_ifs <;> simp [hb]
    rw [e2, Matrix.mulVec_smul]
    funext i
    have e3 := congrFun (congrFun hu i) 0
    rw [Matrix.mul_apply] at e3
    rw [Pi.smul_apply, Matrix.mulVec, dotProduct, e3, Matrix.one_apply]
    split_ifs <;> simp

/-! ## Specification -/

/-- Specification: the deflation vectors `W = [V_n, U] Wt`. -/
def arnfW (V : ℕ → E) (U : Fin d → E) (Wt : Matrix (Fin n ⊕ Fin d) (Fin k) 𝕜) (j : Fin k) : E :=
  ∑ i : Fin n, Wt (.inl i) j • V i + ∑ i : Fin d, Wt (.inr i) j • U i

/-- Specification: the deflated operator `P_W T` where `P_W` is the projection onto the orthogonal complement of `W` along
`T W`. -/
noncomputable def deflOp (g : E → E → 𝕜) (T : E →ₗ[𝕜] E) (W : Fin k → E) (x : E) : E :=
  T x - oblique g (fun j => T (W j)) W (T x)

section spec
open DeflRitzRel
variable {g : E → E → 𝕜} {T : E →ₗ[𝕜] E} {V : ℕ → E} {U : Fin d → E} {H : ℕ → ℕ → 𝕜}
  {Em F : Matrix (Fin d) (Fin d) 𝕜} {C B_ : List (Fin d → 𝕜)} {a : Arnf 𝕜 E n_ n d}
  (h : DeflRitzRel g T V U H n_ n Em F C B_)

theorem arnfW_eq (V : ℕ → E) (U : Fin d → E) (Wt : Matrix (Fin n ⊕ Fin d) (Fin k) 𝕜) (j : Fin k) :
    arnfW V U Wt j = lincomb (wb n V U) (Wt · j) :=
  (lincomb_sum (fun i : Fin n => V i) U fun i => Wt i j).symm

variable (ok : ArnfOK g V U (fun j => T (U j)) H Em C B_ a)
include h ok

theorem arnf_T (y : Fin n ⊕ Fin d → 𝕜) : T (lincomb (wb n V U) y) = lincomb (wb n_ V fun j => T (U j)) (a.L *ᵥ y) := by
  rw [h.T_eq, lincomb_mulVec, ok.L, funext h.T_col]

theorem arnf_TW (Wt : Matrix (Fin n ⊕ Fin d) (Fin k) 𝕜) (j : Fin k) :
    T (arnfW V U Wt j) = lincomb (wb n_ V fun j => T (U j)) ((a.L * Wt) · j) := by
  rw [arnfW_eq, arnf_T h ok]
  rfl

theorem arnf_coefsW (Wt : Matrix (Fin n ⊕ Fin d) (Fin k) 𝕜) (c : Fin n_ ⊕ Fin d → 𝕜) :
    coefs g (arnfW V U Wt) (lincomb (wb n_ V fun j => T (U j)) c) = (a.Jᴴ * Wt)ᴴ *ᵥ c := by
  rw [funext (arnfW_eq V U Wt), h.inner.coefs_left, arnf_coefs h ok, Matrix.conjTranspose_mul,
    Matrix.conjTranspose_conjTranspose, Matrix.mulVec_mulVec]

theorem arnf_gramW (Wt : Matrix (Fin n ⊕ Fin d) (Fin k) 𝕜) :
    gram g (arnfW V U Wt) (fun j => T (arnfW V U Wt j)) = (a.Jᴴ * Wt)ᴴ * (a.L * Wt) := by
  ext i j
  have := congrFun (arnf_coefsW h ok Wt ((a.L * Wt) · j)) i
  rw [← arnf_TW h ok] at this
  exact this

theorem arnf_oblique (Wt : Matrix (Fin n ⊕ Fin d) (Fin k) 𝕜) (c : Fin n_ ⊕ Fin d → 𝕜) :
    oblique g (fun j => T (arnfW V U Wt j)) (arnfW V U Wt) (lincomb (wb n_ V fun j => T (U j)) c) =
      lincomb (wb n_ V fun j => T (U j)) ((a.L * Wt) *ᵥ (((a.Jᴴ * Wt)ᴴ * (a.L * Wt))⁻¹ *ᵥ ((a.Jᴴ * Wt)ᴴ *ᵥ c))) := by
  rw [oblique, arnf_gramW h ok, arnf_coefsW h ok, funext (arnf_TW h ok Wt)]
  exact (lincomb_mulVec _ (a.L * Wt) _).symm

theorem arnf_compl (Wt : Matrix (Fin n ⊕ Fin d) (Fin k) 𝕜) (c : Fin n_ ⊕ Fin d → 𝕜) :
    lincomb (wb n_ V fun j => T (U j)) c -
      oblique g (fun j => T (arnfW V U Wt j)) (arnfW V U Wt) (lincomb (wb n_ V fun j => T (U j)) c) =
      lincomb (wb n_ V fun j => T (U j)) (complMat (a.L * Wt) (a.Jᴴ * Wt) *ᵥ c) := by
  rw [arnf_oblique h ok, ← lincomb_sub, complMat, Matrix.sub_mulVec, Matrix.one_mulVec]
  simp only [Matrix.mulVec_mulVec, Matrix.mul_assoc]

/-- The projection depends on the space spanned by the deflation vectors only. -/
theorem arnf_change {Wt Wq : Matrix (Fin n ⊕ Fin d) (Fin k) 𝕜} {R : Matrix (Fin k) (Fin k) 𝕜} (hR : Wt = Wq * R)
    (hdet : (gram g (arnfW V U Wt) fun j => T (arnfW V U Wt j)).det ≠ 0) (x : E) :
    oblique g (fun j => T (arnfW V U Wt j)) (arnfW V U Wt) x = oblique g (fun j => T (arnfW V U Wq j)) (arnfW V U Wq) x := by
  have hW : ∀ j, arnfW V U Wt j = lincomb (arnfW V U Wq) fun i => R i j := by
    intro j
    rw [arnfW_eq, hR, funext (arnfW_eq V U Wq), ← lincomb_mulVec]
    rfl
  refine (oblique_of_isQr (VR := R) h.inner (fun j => ?_) hW hdet).2 x
  rw [hW, map_lincomb]

end spec

/-! ## Norms -/

section norms
variable {ι κ : Type*} [Fintype ι] [Fintype κ] [DecidableEq ι] [DecidableEq κ]

theorem vecNorm_eq (u : ι → 𝕜) : vecNorm u = ‖WithLp.toLp 2 u‖ := by
  rw [EuclideanSpace.norm_eq, vecNorm]

theorem vecNorm_mulVec_le (M : Matrix ι κ 𝕜) (u : κ → 𝕜) : vecNorm (M *ᵥ u) ≤ matNorm2 M * vecNorm u := by
  have := Matrix.l2_opNorm_mulVec M (WithLp.toLp 2 u)
  rw [vecNorm_eq, vecNorm_eq]
  exact this

theorem matNorm2_le (M : Matrix ι κ 𝕜) {c : ℝ} (hc : 0 ≤ c) (h : ∀ u, vecNorm (M *ᵥ u) ≤ c * vecNorm u) : matNorm2 M ≤ c := by
  unfold matNorm2
  rw [Matrix.l2_opNorm_def]
  refine ContinuousLinearMap.opNorm_le_bound _ hc fun x => ?_
  have := h x.ofLp
  rw [vecNorm_eq, vecNorm_eq] at this
  exact this

theorem matNorm2_conjTranspose (M : Matrix ι κ 𝕜) : matNorm2 Mᴴ = matNorm2 M := Matrix.l2_opNorm_conjTranspose M

variable {g : E → E → 𝕜} (hi : IsInner g)
include hi

theorem bessel {W : ι → E} (hW : gram g W W = 1) (x : E) : vecNorm (coefs g W x) ≤ nrm g x := by
  rw [← sq_le_sq₀ (vecNorm_nonneg _) (nrm_nonneg _ _), hi.nrm_sq]
  have h1 : g (lincomb W (coefs g W x)) (x - lincomb W (coefs g W x)) = 0 := by
    rw [hi.ip_lincomb_left, hi.coefs_sub, hi.coefs_lincomb, hW, Matrix.one_mulVec, sub_self, dotProduct_zero]
  have h2 := hi.nsq_add_of_orth h1
  rw [add_sub_cancel, ← hi.nrm_sq (lincomb _ _), nrm_lincomb_orth hi hW] at h2
  rw [h2]
  linarith [hi.nsq_nonneg (x - lincomb W (coefs g W x))]

omit [Fintype ι] [DecidableEq ι] [Fintype κ] [DecidableEq κ] in
/-- For a nontrivial projection a bound of its norm bounds the norm of the complementary projection. -/
theorem compl_bound {P : E →ₗ[𝕜] E} (hP : ∀ x, P (P x) = P x) (h0 : ∃ x, P x ≠ 0) {c : ℝ} (hc : ∀ x, nrm g (P x) ≤ c * nrm g x)
    (x : E) : nrm g (x - P x) ≤ c * nrm g x := by
  obtain ⟨w, hw⟩ := h0
  have hpos : ∀ {y : E}, y ≠ 0 → 0 < nrm g y := fun hy =>
    lt_of_le_of_ne (nrm_nonneg _ _) (fun h => hy (hi.nrm_eq_zero.mp h.symm))
  have hc1 : 1 ≤ c := by
    have := hc (P w)
    rw [hP] at this
    exact (le_mul_iff_one_le_left (hpos hw)).mp this
  by_cases hu : P x = 0
  · rw [hu, sub_zero]
    exact le_mul_of_one_le_left (nrm_nonneg _ _) hc1
  by_cases hv : x - P x = 0
  · rw [hv, hi.nrm_eq_zero.mpr rfl]
    exact mul_nonneg (by linarith) (nrm_nonneg _ _)
  set u := P x with hu'
  set v := x - u with hv'
  have nu := hpos hu
  have nv := hpos hv
  set s : 𝕜 := ((nrm g v / nrm g u : ℝ) : 𝕜) with hs
  set t : 𝕜 := ((nrm g u / nrm g v : ℝ) : 𝕜) with ht
  have ns : ‖s‖ = nrm g v / nrm g u := by
    rw [hs, RCLike.norm_ofReal, abs_of_nonneg (by positivity)]
  have nt : ‖t‖ = nrm g u / nrm g v := by
    rw [ht, RCLike.norm_ofReal, abs_of_nonneg (by positivity)]
  have hst : conj s * t = 1 := by
    rw [hs, ht, RCLike.conj_ofReal, ← RCLike.ofReal_mul, show nrm g v / nrm g u * (nrm g u / nrm g v) = 1 by field_simp]
    simp
  have hPv : P v = 0 := by rw [hv', map_sub, hu', hP, sub_self]
  have hPy : P (s • u + t • v) = s • u := by
    rw [map_add, map_smul, map_smul, hPv, hu', hP, smul_zero, add_zero]
  have ny : nsq g (s • u + t • v) = nsq g x := by
    rw [show x = u + v by rw [hv']; abel, hi.nsq_add, hi.nsq_add, hi.nsq_smul, hi.nsq_smul, hi.smul_left, hi.smul_right,
      ← mul_assoc, hst, one_mul, ns, nt, ← hi.nrm_sq, ← hi.nrm_sq]
    field_simp
    ring
  have h1 := hc (s • u + t • v)
  rw [hPy, hi.nrm_smul, ns, div_mul_cancel₀ _ nu.ne'] at h1
  have h2 : nrm g (s • u + t • v) = nrm g x := by unfold nrm; rw [ny]
  rwa [h2] at h1

/-- The norm of a projection given by orthonormal bases is the inverse of the least singular value of their Gram matrix. -/
theorem oblique_norm {X W : Fin k → E} (hX : gram g X X = 1) (hW : gram g W W = 1) (hdet : (gram g W X).det ≠ 0) {s : ℝ}
    (hs : IsSvdMin (gram g W X) s) : 0 < s ∧ (∀ x, nrm g (oblique g X W x) ≤ 1 / s * nrm g x) ∧
      ∃ x, nrm g x = s ∧ nrm g (oblique g X W x) = 1 := by
  set G := gram g W X with hG
  have hu : IsUnit G.det := isUnit_iff_ne_zero.mpr hdet
  obtain ⟨⟨u, hu1, hus⟩, hle⟩ := hs
  have hspos : 0 < s := by
    rw [hus]
    refine lt_of_le_of_ne (vecNorm_nonneg _) fun h0 => ?_
    have h1 := vecNorm_eq_zero.mp h0.symm
    have h2 : u = 0 := by
      have := congrArg (fun z => G⁻¹ *ᵥ z) h1
      simp only [Matrix.mulVec_mulVec, Matrix.nonsing_inv_mul _ hu, Matrix.one_mulVec, Matrix.mulVec_zero] at this
      exact this
    rw [h2, vecNorm_eq_zero.mpr rfl] at hu1
    exact zero_ne_one hu1
  have hlow : ∀ y, s * vecNorm y ≤ vecNorm (G *ᵥ y) := by
    intro y
    by_cases hy : y = 0
    · rw [hy, Matrix.mulVec_zero, vecNorm_eq_zero.mpr rfl, mul_zero]
    · have hy0 : vecNorm y ≠ 0 := fun h0 => hy (vecNorm_eq_zero.mp h0)
      have := hle ⟨normalise y, vecNorm_normalise hy, rfl⟩
      rw [normalise, Matrix.mulVec_smul, vecNorm_smul, norm_inv, RCLike.norm_ofReal, abs_of_nonneg (vecNorm_nonneg y)] at this
      rwa [inv_mul_eq_div, le_div_iff₀ (lt_of_le_of_ne (vecNorm_nonneg y) (Ne.symm hy0))] at this
  refine ⟨hspos, fun x => ?_, lincomb W (G *ᵥ u), ?_, ?_⟩
  · rw [oblique, nrm_lincomb_orth hi hX, one_div, inv_mul_eq_div, le_div_iff₀ hspos, mul_comm]
    refine (hlow _).trans ?_
    rw [Matrix.mulVec_mulVec, ← hG, Matrix.mul_nonsing_inv _ hu, Matrix.one_mulVec]
    exact bessel hi hW x
  · rw [nrm_lincomb_orth hi hW, hus]
  · rw [oblique, hi.coefs_lincomb, hW, Matrix.one_mulVec, Matrix.mulVec_mulVec, ← hG, Matrix.nonsing_inv_mul _ hu,
      Matrix.one_mulVec, nrm_lincomb_orth hi hX, hu1]

/-- The norm of `Z R V^* + V R^* Z^*` for orthonormal `[Z, V]` is the norm of `R`. -/
theorem pert_norm {Z : ι → E} {V : κ → E} (hZ : gram g Z Z = 1) (hV : gram g V V = 1) (hZV : gram g Z V = 0)
    (R : Matrix ι κ 𝕜) {F : E → E} (hF : ∀ x, F x = -(lincomb Z (R *ᵥ coefs g V x) + lincomb V (Rᴴ *ᵥ coefs g Z x))) :
    IsLeast {c | 0 ≤ c ∧ ∀ x, nrm g (F x) ≤ c * nrm g x} (matNorm2 R) := by
  have hK : gram g (Sum.elim Z V) (Sum.elim Z V) = 1 := by
    have hVZ : gram g V Z = 0 := by rw [← hi.gram_conjTranspose, hZV, Matrix.conjTranspose_zero]
    ext i j
    rcases i with i | i <;> rcases j with j | j
    · rw [show gram g (Sum.elim Z V) (Sum.elim Z V) (.inl i) (.inl j) = gram g Z Z i j from rfl, hZ]
      simp [Matrix.one_apply]
    · rw [show gram g (Sum.elim Z V) (Sum.elim Z V) (.inl i) (.inr j) = gram g Z V i j from rfl, hZV]
      simp
    · rw [show gram g (Sum.elim Z V) (Sum.elim Z V) (.inr i) (.inl j) = gram g V Z i j from rfl, hVZ]
      simp
    · rw [show gram g (Sum.elim Z V) (Sum.elim Z V) (.inr i) (.inr j) = gram g V V i j from rfl, hV]
      simp [Matrix.one_apply]
  have hsum : ∀ (x : ι → 𝕜) (y : κ → 𝕜), vecNorm (Sum.elim x y) ^ 2 = vecNorm x ^ 2 + vecNorm y ^ 2 := by
    intro x y
    simp [vecNorm_sq, Fintype.sum_sum_type]
  have hFn : ∀ x, nrm g (F x) ^ 2 = vecNorm (R *ᵥ coefs g V x) ^ 2 + vecNorm (Rᴴ *ᵥ coefs g Z x) ^ 2 := by
    intro x
    have e : lincomb Z (R *ᵥ coefs g V x) + lincomb V (Rᴴ *ᵥ coefs g Z x) =
        lincomb (Sum.elim Z V) (Sum.elim (R *ᵥ coefs g V x) (Rᴴ *ᵥ coefs g Z x)) := by
      rw [DeflRitzRel.lincomb_sum]; rfl
    rw [hF, hi.nrm_sq, hi.nsq_neg, ← hi.nrm_sq, e, nrm_lincomb_orth hi hK, hsum]
  refine ⟨⟨matNorm2_nonneg _, fun x => ?_⟩, fun c ⟨hc, hb⟩ => matNorm2_le R hc fun u => ?_⟩
  · rw [← sq_le_sq₀ (nrm_nonneg _ _) (mul_nonneg (matNorm2_nonneg _) (nrm_nonneg _ _)), hFn, mul_pow]
    have h1 := pow_le_pow_left₀ (vecNorm_nonneg _) (vecNorm_mulVec_le R (coefs g V x)) 2
    have h2 := pow_le_pow_left₀ (vecNorm_nonneg _) (vecNorm_mulVec_le Rᴴ (coefs g Z x)) 2
    rw [matNorm2_conjTranspose] at h2
    have h3 := pow_le_pow_left₀ (vecNorm_nonneg _) (bessel hi hK x) 2
    rw [show coefs g (Sum.elim Z V) x = Sum.elim (coefs g Z x) (coefs g V x) by funext i; rcases i <;> rfl, hsum] at h3
    rw [mul_pow] at h1 h2
    nlinarith [sq_nonneg (matNorm2 R)]
  · have h1 := hb (lincomb V u)
    have h2 := hFn (lincomb V u)
    rw [hi.coefs_lincomb, hi.coefs_lincomb, hV, hZV, Matrix.one_mulVec, Matrix.zero_mulVec, Matrix.mulVec_zero,
      vecNorm_eq_zero.mpr (rfl : (0 : κ → 𝕜) = 0)] at h2
    rw [nrm_lincomb_orth hi hV] at h1
    have h3 : nrm g (F (lincomb V u)) = vecNorm (R *ᵥ u) := by
      rw [← sq_eq_sq₀ (nrm_nonneg _ _) (vecNorm_nonneg _), h2]
      ring
    rwa [h3] at h1

end norms

section main
open DeflRitzRel
variable {g eip : E → E → 𝕜} {T : E →ₗ[𝕜] E} {V : ℕ → E} {U : Fin d → E} {H : ℕ → ℕ → 𝕜}
  {Em F : Matrix (Fin d) (Fin d) 𝕜} {C B_ : List (Fin d → 𝕜)} {rt : ArnfRoutines 𝕜 E d} {a : Arnf 𝕜 E n_ n d}
  (h : DeflRitzRel g T V U H n_ n Em F C B_) (hr : ArnfHyp g eip rt)
  (ha : mkArnf rt H Em C B_ V U (fun j => T (U j)) = .ok a)
include h hr ha

/-- C56: the residual basis `Z` is orthonormal and orthogonal to `[V_n, U]`; the part of `M A U` that it does not represent is
orthogonal to `[V, U]` and bounded by `1e-14 A_norm` in the Euclidean norm, where `A_norm` is the norm of the matrix which represents
`T` on the space spanned by `[V_n, U]`. -/
theorem C56_residual_basis : (∀ i j, g (a.Z i) (a.Z j) = if i = j then 1 else 0) ∧
    (∀ i < n, ∀ j, g (V i) (a.Z j) = 0) ∧ (∀ i j, g (U i) (a.Z j) = 0) ∧
    a.A_norm = matNorm2 (gram g (wb n V U) fun j => T (wb n V U j)) ∧
    ∀ j, nrm eip (arnfDefect a V U (fun j => T (U j)) Em B_ j) ≤ 1e-14 * a.A_norm ∧
      (∀ i < n_, g (V i) (arnfDefect a V U (fun j => T (U j)) Em B_ j) = 0) ∧
      ∀ i, g (U i) (arnfDefect a V U (fun j => T (U j)) Em B_ j) = 0 := by
  obtain ⟨ok, hA, hD⟩ := mkArnf_ok h hr ha
  obtain ⟨h1, h2⟩ := arnf_gram_Z h ok
  refine ⟨fun i j => ?_, fun i hi j => ?_, fun i j => ?_, by rw [hA, h.gram_M], fun j => ⟨hD j, arnf_defect_orth h ok j⟩⟩
  · have := congrFun (congrFun h1 i) j
    rwa [gram, Matrix.of_apply, Matrix.one_apply] at this
  · exact congrFun (congrFun h2 (.inl ⟨i, hi⟩)) j
  · exact congrFun (congrFun h2 (.inr i)) j

variable {grt : ArnfGetRoutines 𝕜 n_ n d k (n + d - k - 1)} (hg : ArnfGetHyp grt) {Wt : Matrix (Fin n ⊕ Fin d) (Fin k) 𝕜}
  (hdet : (gram g (arnfW V U Wt) fun j => T (arnfW V U Wt j)).det ≠ 0) (hk : k < n + d) (hn0 : 0 < n_)
  (r0 : ℝ) (UMlr : Fin d → 𝕜)
include hg hdet hk hn0

/-- C56: `get` returns. -/
theorem C56_total : ∃ out, a.get grt g Em B_ V U r0 UMlr h.le Wt = .ok out := by
  obtain ⟨ok, -, -⟩ := mkArnf_ok h hr ha
  obtain ⟨out, ho, -⟩ := arnf_get hg g Em B_ V U r0 UMlr h.le hk hn0 (by rw [← arnf_gramW h ok]; exact hdet)
  exact ⟨out, ho⟩

theorem arnf_got {out : ArnfOut 𝕜 E n_ n a.l (n + d - k - 1)} (ho : a.get grt g Em B_ V U r0 UMlr h.le Wt = .ok out) :
    ∃ Wq S Pm, ArnfGot a grt g Em B_ V U r0 UMlr h.le Wt Wq S Pm out := by
  obtain ⟨ok, -, -⟩ := mkArnf_ok h hr ha
  obtain ⟨out', ho', hgot⟩ := arnf_get hg g Em B_ V U r0 UMlr h.le hk hn0 (by rw [← arnf_gramW h ok]; exact hdet)
  obtain rfl := Except.ok.inj (ho.symm.trans ho')
  exact hgot

variable {out : ArnfOut 𝕜 E n_ n a.l (n + d - k - 1)} (ho : a.get grt g Em B_ V U r0 UMlr h.le Wt = .ok out)
include ho

/-- C56: the `n + d - k` vectors `Vh` are orthonormal, lie in the space spanned by `[V_n, U]` and are orthogonal to the deflation vectors
and to `Z`; together with the deflation vectors they span that space. -/
theorem C56_basis : (∀ i j, g (out.Vh i) (out.Vh j) = if i = j then 1 else 0) ∧
    (∀ j l, g (arnfW V U Wt l) (out.Vh j) = 0) ∧ (∀ j l, g (a.Z l) (out.Vh j) = 0) ∧
    Submodule.span 𝕜 (Set.range out.Vh) ⊔ Submodule.span 𝕜 (Set.range (arnfW V U Wt)) =
      Submodule.span 𝕜 (Set.range (wb n V U)) := by
  obtain ⟨ok, -, -⟩ := mkArnf_ok h hr ha
  obtain ⟨Wq, S, Pm, G⟩ := arnf_got h hr ha hg hdet hk hn0 r0 UMlr ho
  have hi := h.inner
  obtain ⟨R, hR⟩ := G.fact
  have hRdet : R.det ≠ 0 := by
    intro h0
    apply hdet
    have e : (a.Jᴴ * Wt)ᴴ * (a.L * Wt) = Rᴴ * ((a.Jᴴ * Wq)ᴴ * (a.L * Wq)) * R := by
      rw [hR, Matrix.conjTranspose_mul, Matrix.conjTranspose_mul, Matrix.conjTranspose_mul]
      simp only [Matrix.mul_assoc]
    rw [arnf_gramW h ok, e, Matrix.det_mul, h0, mul_zero]
  have e1 : gram g out.Vh out.Vh = 1 := by
    rw [funext G.Vh, hi.gram_left, hi.gram_right, h.gram_wb, Matrix.one_mul, G.ss]
  have e2 : gram g (arnfW V U Wt) out.Vh = 0 := by
    rw [funext G.Vh, funext (arnfW_eq V U Wt), hi.gram_left, hi.gram_right, h.gram_wb, Matrix.one_mul, hR,
      Matrix.conjTranspose_mul, Matrix.mul_assoc, G.qs, Matrix.mul_zero]
  have e3 : gram g a.Z out.Vh = 0 := by
    rw [funext G.Vh, hi.gram_right, ← hi.gram_conjTranspose, (arnf_gram_Z h ok).2, Matrix.conjTranspose_zero, Matrix.zero_mul]
  refine ⟨fun i j => ?_, fun j l => congrFun (congrFun e2 l) j, fun j l => congrFun (congrFun e3 l) j, ?_⟩
  · have := congrFun (congrFun e1 i) j
    rwa [gram, Matrix.of_apply, Matrix.one_apply] at this
  · apply le_antisymm
    · rw [sup_le_iff, Submodule.span_le, Submodule.span_le]
      constructor
      · rintro _ ⟨j, rfl⟩
        rw [G.Vh]
        exact lincomb_mem_span _ _
      · rintro _ ⟨j, rfl⟩
        rw [arnfW_eq]
        exact lincomb_mem_span _ _
    · intro x hx
      obtain ⟨c, rfl⟩ := (mem_span_iff_lincomb _ _).mp hx
      have e : c = S *ᵥ (Sᴴ *ᵥ c) + Wt *ᵥ (R⁻¹ *ᵥ (Wqᴴ *ᵥ c)) := by
        rw [hR]
        simp only [Matrix.mulVec_mulVec]
        rw [← Matrix.add_mulVec, ← Matrix.mul_assoc, Matrix.mul_assoc Wq, Matrix.mul_nonsing_inv _ (isUnit_iff_ne_zero.mpr hRdet),
          Matrix.mul_one, add_comm, G.full, Matrix.one_mulVec]
      rw [e, lincomb_add, lincomb_mulVec _ S, lincomb_mulVec _ Wt, ← funext G.Vh, ← funext (arnfW_eq V U Wt)]
      exact Submodule.add_mem_sup (lincomb_mem_span _ _) (lincomb_mem_span _ _)

/-- C56: the perturbed Arnoldi relation `(P_W T + F) Vh = Vh Hh` with an upper Hessenberg matrix `Hh`, up to the part of `M A U` that
`Z` does not represent. -/
theorem C56_relation : (∀ i j : Fin (n + d - k - 1 + 1), (j : ℕ) + 1 < i → out.Hh i j = 0) ∧
    ∀ j, ∃ c : Fin n_ ⊕ Fin d → 𝕜,
      deflOp g T (arnfW V U Wt) (out.Vh j) = ∑ i : Fin n_, c (.inl i) • V i + ∑ i, c (.inr i) • T (U i) ∧
      deflOp g T (arnfW V U Wt) (out.Vh j) + out.F (out.Vh j) = ∑ i, out.Hh i j • out.Vh i +
        ∑ i, c (.inr i) • arnfDefect a V U (fun j => T (U j)) Em B_ i := by
  obtain ⟨ok, -, -⟩ := mkArnf_ok h hr ha
  obtain ⟨Wq, S, Pm, G⟩ := arnf_got h hr ha hg hdet hk hn0 r0 UMlr ho
  obtain ⟨e1, -, e3, -⟩ := C56_basis h hr ha hg hdet hk hn0 r0 UMlr ho
  have hi := h.inner
  obtain ⟨R, hR⟩ := G.fact
  refine ⟨G.hess, fun j => ⟨fun i => (Pm * (a.L * S)) i j, ?_⟩⟩
  have hAt : deflOp g T (arnfW V U Wt) (out.Vh j) = lincomb (wb n_ V fun j => T (U j)) fun i => (Pm * (a.L * S)) i j := by
    rw [deflOp, arnf_change h ok hR hdet, G.Vh, arnf_T h ok, arnf_compl h ok, ← G.Pm_eq]
    rfl
  have hJ : a.J *ᵥ (fun i => (Pm * (a.L * S)) i j) = S *ᵥ fun i => out.Hh i j := by
    have e4 : Wqᴴ * (a.J * Pm) = 0 := by
      have := adj_complMat G.det
      rw [← G.Pm_eq, Matrix.conjTranspose_mul, Matrix.conjTranspose_conjTranspose, Matrix.mul_assoc] at this
      exact this
    have e5 : a.J * (Pm * (a.L * S)) = S * out.Hh := by
      calc a.J * (Pm * (a.L * S)) = (Wq * Wqᴴ + S * Sᴴ) * (a.J * (Pm * (a.L * S))) := by rw [G.full, Matrix.one_mul]
        _ = Wq * (Wqᴴ * (a.J * Pm) * (a.L * S)) + S * (Sᴴ * (a.J * (Pm * (a.L * S)))) := by
          rw [Matrix.add_mul]; simp only [Matrix.mul_assoc]
        _ = S * out.Hh := by rw [e4, Matrix.zero_mul, Matrix.mul_zero, zero_add, G.Hh]
    have := congrArg (fun M : Matrix _ _ 𝕜 => fun i => M i j) e5
    exact this
  have hF : out.F (out.Vh j) = - lincomb a.Z (fun i => out.Rh i j) := by
    have c1 : coefs g out.Vh (out.Vh j) = Pi.single j 1 := by
      funext i
      rw [coefs, e1, Pi.single_apply]
    have c2 : coefs g a.Z (out.Vh j) = 0 := by
      funext i
      exact e3 j i
    rw [G.F, c1, c2, Matrix.mulVec_zero, lincomb_zero, add_zero, Matrix.mulVec_single_one]
    rfl
  refine ⟨by rw [hAt]; exact lincomb_sum _ _ _, ?_⟩
  rw [hAt, hF, arnf_split h ok, hJ, lincomb_mulVec, ← funext G.Vh]
  have : a.N *ᵥ (fun i => (Pm * (a.L * S)) i j) = fun i => out.Rh i j := by
    rw [G.Rh]; rfl
  rw [this]
  simp only [lincomb]
  abel

/-- C56: `Hh` represents the deflated operator on the space spanned by `Vh`; if `Z` represents all of `M A U` then `Rh` consists of the
components in `Z`. -/
theorem C56_projection : (∀ i j, g (out.Vh i) (deflOp g T (arnfW V U Wt) (out.Vh j)) = out.Hh i j) ∧
    ((∀ j, arnfDefect a V U (fun j => T (U j)) Em B_ j = 0) →
      ∀ i j, g (a.Z i) (deflOp g T (arnfW V U Wt) (out.Vh j)) = out.Rh i j) := by
  obtain ⟨ok, -, -⟩ := mkArnf_ok h hr ha
  obtain ⟨Wq, S, Pm, G⟩ := arnf_got h hr ha hg hdet hk hn0 r0 UMlr ho
  have hi := h.inner
  obtain ⟨R, hR⟩ := G.fact
  have hAt : ∀ j, deflOp g T (arnfW V U Wt) (out.Vh j) = lincomb (wb n_ V fun j => T (U j)) fun i => (Pm * (a.L * S)) i j := by
    intro j
    rw [deflOp, arnf_change h ok hR hdet, G.Vh, arnf_T h ok, arnf_compl h ok, ← G.Pm_eq]
    rfl
  constructor
  · intro i j
    have e := congrFun (hi.coefs_left (wb n V U) S (deflOp g T (arnfW V U Wt) (out.Vh j))) i
    rw [← funext G.Vh, hAt, arnf_coefs h ok] at e
    rw [hAt]
    refine e.trans ?_
    rw [G.Hh]
    rfl
  · intro hD i j
    have hZ := arnf_gram_Z h ok
    have hZ' : gram g a.Z (wb n V U) = 0 := by rw [← hi.gram_conjTranspose, hZ.2, Matrix.conjTranspose_zero]
    have e : coefs g a.Z (deflOp g T (arnfW V U Wt) (out.Vh j)) = a.N *ᵥ fun i => (Pm * (a.L * S)) i j := by
      rw [hAt, arnf_split h ok, hi.coefs_add, hi.coefs_add, hi.coefs_lincomb, hi.coefs_lincomb, hZ', hZ.1,
        Matrix.zero_mulVec, Matrix.one_mulVec, funext hD, zero_add]
      have : lincomb (fun _ : Fin d => (0 : E)) (fun l => (Pm * (a.L * S)) (.inr l) j) = 0 := by simp [lincomb]
      rw [this]
      funext l
      simp [coefs, hi.zero_right]
    refine (congrFun e i).trans ?_
    rw [G.Rh]
    rfl

/-- C56: the perturbation is self-adjoint, given by the documented formula `F = -Z Rh Vh^* - Vh Rh^* Z^*`, and its norm is the norm of
`Rh`. -/
theorem C56_perturbation : (∀ x, out.F x = -(∑ i, (∑ j, out.Rh i j * g (out.Vh j) x) • a.Z i) -
      ∑ j, (∑ i, conj (out.Rh i j) * g (a.Z i) x) • out.Vh j) ∧
    (∀ x y, g (out.F x) y = g x (out.F y)) ∧
    IsLeast {c | 0 ≤ c ∧ ∀ x, nrm g (out.F x) ≤ c * nrm g x} (matNorm2 out.Rh) := by
  obtain ⟨ok, -, -⟩ := mkArnf_ok h hr ha
  obtain ⟨Wq, S, Pm, G⟩ := arnf_got h hr ha hg hdet hk hn0 r0 UMlr ho
  obtain ⟨e1, -, e3, -⟩ := C56_basis h hr ha hg hdet hk hn0 r0 UMlr ho
  have hi := h.inner
  refine ⟨fun x => ?_, fun x y => ?_, ?_⟩
  · rw [G.F, neg_add, ← sub_eq_add_neg]
    rfl
  · rw [G.F, G.F, hi.neg_left, hi.neg_right, hi.add_left, hi.add_right, hi.ip_lincomb_left, hi.ip_lincomb_left,
      hi.ip_lincomb_right, hi.ip_lincomb_right, Matrix.star_mulVec, Matrix.star_mulVec, ← Matrix.dotProduct_mulVec,
      ← Matrix.dotProduct_mulVec, Matrix.conjTranspose_conjTranspose, add_comm]
  · refine pert_norm hi (arnf_gram_Z h ok).1 ?_ ?_ out.Rh G.F
    · ext i j
      rw [gram, Matrix.of_apply, e1, Matrix.one_apply]
    · ext i j
      exact e3 j i

/-- C56: let `r` be a vector which the deflated solver has split into `r0 v_0` and a combination of `M A U` (the preconditioned initial
residual).  The projection of `r` to the orthogonal complement of the deflation vectors is a multiple of the first vector of `Vh`
of norm `q_norm`, up to a vector orthogonal to `Vh` whose norm is `vdiff_norm`. -/
theorem C56_initial {r : E} (hres : r = (r0 : 𝕜) • V 0 + ∑ j, (Em⁻¹ *ᵥ UMlr) j • T (U j))
    (hD : ∀ j, arnfDefect a V U (fun j => T (U j)) Em B_ j = 0) : ∃ (al : 𝕜) (z : E), ‖al‖ = 1 ∧ 0 ≤ out.qNorm ∧
      r - oblique g (fun j => T (arnfW V U Wt j)) (arnfW V U Wt) r = (al * (out.qNorm : 𝕜)) • out.Vh 0 + z ∧
      (∀ j, g (out.Vh j) z = 0) ∧ nrm g z = out.vdiffNorm := by
  obtain ⟨ok, -, -⟩ := mkArnf_ok h hr ha
  obtain ⟨Wq, S, Pm, G⟩ := arnf_got h hr ha hg hdet hk hn0 r0 UMlr ho
  obtain ⟨-, -, e3, -⟩ := C56_basis h hr ha hg hdet hk hn0 r0 UMlr ho
  have hi := h.inner
  obtain ⟨R, hR⟩ := G.fact
  obtain ⟨al, hal, hst⟩ := G.start
  set qt := Pm *ᵥ arnfRhs Em r0 UMlr with hqt
  have hr' : r = lincomb (wb n_ V fun j => T (U j)) (arnfRhs Em r0 UMlr) := by
    have e : lincomb (wb n_ V fun j => T (U j)) (arnfRhs Em r0 UMlr) =
        lincomb (fun i : Fin n_ => V i) (fun i => arnfRhs Em r0 UMlr (.inl i)) +
          lincomb (fun j => T (U j)) (fun i => arnfRhs (n_ := n_) Em r0 UMlr (.inr i)) := lincomb_sum _ _ _
    rw [e, hres]
    congr 1
    rw [lincomb, Finset.sum_eq_single ⟨0, hn0⟩]
    · simp [arnfRhs]
    · intro b _ hb
      have : (b : ℕ) ≠ 0 := fun hc => hb (Fin.ext hc)
      simp [arnfRhs, this]
    · simp
  have e4 : Wqᴴ * (a.J * Pm) = 0 := by
    have := adj_complMat G.det
    rw [← G.Pm_eq, Matrix.conjTranspose_mul, Matrix.conjTranspose_conjTranspose, Matrix.mul_assoc] at this
    exact this
  have hJ : a.J *ᵥ qt = S *ᵥ fun i => if i = 0 then al * (out.qNorm : 𝕜) else 0 := by
    rw [← hst]
    calc a.J *ᵥ qt = (Wq * Wqᴴ + S * Sᴴ) *ᵥ (a.J *ᵥ qt) := by rw [G.full, Matrix.one_mulVec]
      _ = Wq *ᵥ ((Wqᴴ * (a.J * Pm)) *ᵥ arnfRhs Em r0 UMlr) + S *ᵥ (Sᴴ *ᵥ (a.J *ᵥ qt)) := by
        rw [Matrix.add_mulVec, hqt]; simp only [Matrix.mulVec_mulVec, Matrix.mul_assoc]
      _ = _ := by rw [e4, Matrix.zero_mulVec, Matrix.mulVec_zero, zero_add]
  refine ⟨al, lincomb a.Z (a.N *ᵥ qt), hal, G.qNorm, ?_, fun j => ?_, ?_⟩
  · rw [arnf_change h ok hR hdet, hr', arnf_compl h ok, ← G.Pm_eq, ← hqt, arnf_split h ok, hJ, lincomb_mulVec, ← funext G.Vh,
      funext hD]
    have e5 : lincomb out.Vh (fun i => if i = 0 then al * (out.qNorm : 𝕜) else 0) = (al * (out.qNorm : 𝕜)) • out.Vh 0 := by
      rw [lincomb, Finset.sum_eq_single 0]
      · simp
      · intro b _ hb; simp [hb]
      · simp
    have e6 : lincomb (fun _ : Fin d => (0 : E)) (fun j => qt (.inr j)) = 0 := by simp [lincomb]
    rw [e5, e6, add_zero]
  · rw [lincomb, hi.sum_right, Finset.sum_eq_zero]
    intro i _
    rw [hi.smul_right, hi.orth_symm (e3 j i), mul_zero]
  · rw [nrm_lincomb_orth hi (arnf_gram_Z h ok).1, G.vdiff]

/-- C56: `PWAW_norm` is the norm of the projection onto the orthogonal complement of the deflation vectors `W` along `T W`, if `Z`
represents all of `M A U`. -/
theorem C56_projection_norm (hD : ∀ j, arnfDefect a V U (fun j => T (U j)) Em B_ j = 0) :
    IsLeast {c | 0 ≤ c ∧ ∀ x, nrm g (x - oblique g (fun j => T (arnfW V U Wt j)) (arnfW V U Wt) x) ≤ c * nrm g x}
      out.pwawNorm := by
  obtain ⟨ok, -, -⟩ := mkArnf_ok h hr ha
  obtain ⟨Wq, S, Pm, G⟩ := arnf_got h hr ha hg hdet hk hn0 r0 UMlr ho
  obtain ⟨e1, e2, e3, -⟩ := C56_basis h hr ha hg hdet hk hn0 r0 UMlr ho
  have hi := h.inner
  have hle := h.le
  obtain ⟨R, hR⟩ := G.fact
  -- a vector which is not changed by the projection
  have hVn : nrm g (out.Vh 0) = 1 := by
    rw [nrm, nsq, e1, if_pos rfl]; simp
  have hfix : oblique g (fun j => T (arnfW V U Wt j)) (arnfW V U Wt) (out.Vh 0) = 0 :=
    (oblique_eq_zero hi hdet _).mpr fun j => e2 0 j
  rcases Nat.eq_zero_or_pos k with rfl | hkpos
  · rw [G.pwaw, if_neg (by omega)]
    have h0 : ∀ x, oblique g (fun j => T (arnfW V U Wt j)) (arnfW V U Wt) x = 0 := fun x => by simp [oblique, lincomb]
    refine ⟨⟨zero_le_one, fun x => by rw [h0, sub_zero, one_mul]⟩, fun c ⟨_, hc⟩ => ?_⟩
    have := hc (out.Vh 0)
    rwa [h0, sub_zero, hVn, mul_one] at this
  rw [G.pwaw, if_pos hkpos]
  -- orthonormal basis of the space which contains everything
  set K : Fin n_ ⊕ (Fin d ⊕ Fin a.l) → E := Sum.elim (fun i : Fin n_ => V i) (Sum.elim U fun i => a.Z (.inr i)) with hK
  have hVZ : ∀ i < n_, ∀ j, g (V i) (a.Z (.inr j)) = 0 := fun i hin j => ok.perp _ (fun l => (arnfX_orth h l).1 i hin) j
  have hUZ : ∀ i j, g (U i) (a.Z (.inr j)) = 0 := fun i j => ok.perp _ (fun l => (arnfX_orth h l).2 i) j
  have hKK : gram g K K = 1 := by
    ext i j
    rcases i with i | i | i <;> rcases j with j | j | j <;> simp only [hK, gram, Matrix.of_apply, Sum.elim_inl, Sum.elim_inr,
      Matrix.one_apply]
    · rw [h.orthP i i.2 j j.2]; simp [Fin.ext_iff]
    · rw [hi.orth_symm (h.orthWP j i i.2)]; simp
    · rw [hVZ i i.2]; simp
    · rw [h.orthWP i j j.2]; simp
    · rw [h.orthW]; simp
    · rw [hUZ]; simp
    · rw [hi.orth_symm (hVZ j j.2 i)]; simp
    · rw [hi.orth_symm (hUZ j i)]; simp
    · have := congrFun (congrFun ok.orth i) j
      simp only [gram, Matrix.of_apply, Matrix.one_apply] at this
      rw [this]; simp
  have hwK : ∀ M : Matrix (Fin n_ ⊕ (Fin d ⊕ Fin a.l)) (Fin k) 𝕜, gram g (wb n V U) K * M = arnfPick hle M := by
    have e : ∀ i, (gram g (wb n V U) K) i = fun j => (1 : Matrix _ _ 𝕜)
        (match i with | .inl i => (.inl (Fin.castLE hle i)) | .inr i => (.inr (.inl i)) : Fin n_ ⊕ (Fin d ⊕ Fin a.l)) j := by
      intro i
      rw [← hKK]
      rcases i with i | i <;> rfl
    intro M
    ext i j
    rw [Matrix.mul_apply]
    rcases i with i | i <;> simp [e, arnfPick, Matrix.one_apply]
  have hY : ∀ c, lincomb (wb n_ V fun j => T (U j)) c = lincomb K (arnfY (rowsMat B_ n_) Em a.R12 *ᵥ c) := by
    intro c
    have hcol : ∀ j, T (U j) = (lincomb (fun i : Fin n_ => V i) fun i => rowsMat B_ n_ i j) + ((lincomb U fun i => Em i j) +
        (lincomb (fun i => a.Z (.inr i)) fun i => a.R12 i j)) := by
      intro j
      have := hD j
      rw [defect_eq, arnfX, sub_eq_zero] at this
      rw [← this]
      abel
    rw [show lincomb (wb n_ V fun j => T (U j)) c = _ from lincomb_sum _ _ _, hK, lincomb_sum, lincomb_sum, arnfY,
      fromBlocks_mulVec, fromRows_mulVec]
    simp only [Sum.elim_inl, Sum.elim_inr, Matrix.one_mulVec, Matrix.zero_mulVec, zero_add, Pi.add_apply]
    have e7 : lincomb (fun j => T (U j)) (fun i => c (.inr i)) = lincomb (fun i : Fin n_ => V i) (rowsMat B_ n_ *ᵥ fun i => c (.inr i)) +
        (lincomb U (Em *ᵥ fun i => c (.inr i)) + lincomb (fun i => a.Z (.inr i)) (a.R12 *ᵥ fun i => c (.inr i))) := by
      rw [lincomb_mulVec, lincomb_mulVec, lincomb_mulVec, funext hcol]
      simp only [lincomb, smul_add, Finset.sum_add_distrib]
    rw [e7, ← add_assoc, ← lincomb_add]
    rfl
  -- the orthonormal bases of `W` and `T W`
  obtain ⟨hQ1, R', hR'⟩ := hg.ecoQr a.l (arnfY (rowsMat B_ n_) Em a.R12 * (a.L * Wq))
  set Q := grt.ecoQr a.l (arnfY (rowsMat B_ n_) Em a.R12 * (a.L * Wq)) with hQ
  set X : Fin k → E := fun j => lincomb K fun i => Q i j with hX
  have hXX : gram g X X = 1 := by rw [hX, hi.gram_left, hi.gram_right, hKK, Matrix.one_mul, hQ1]
  have hWW : gram g (arnfW V U Wq) (arnfW V U Wq) = 1 := by
    rw [funext (arnfW_eq V U Wq), hi.gram_left, hi.gram_right, h.gram_wb, Matrix.one_mul, G.qq]
  have hWX : gram g (arnfW V U Wq) X = Wqᴴ * arnfPick hle Q := by
    rw [funext (arnfW_eq V U Wq), hX, hi.gram_left, hi.gram_right, hwK]
  have hTX : ∀ j, T (arnfW V U Wq j) = lincomb X fun i => R' i j := by
    intro j
    rw [arnf_TW h ok, hY, hX, ← lincomb_mulVec]
    congr 1
    have := congrArg (fun M : Matrix _ _ 𝕜 => fun i => M i j) hR'
    exact this
  have hdq : (gram g (arnfW V U Wq) fun j => T (arnfW V U Wq j)).det ≠ 0 := by
    rw [arnf_gramW h ok]; exact G.det
  obtain ⟨hdX, hob⟩ := oblique_of_isQr (W := arnfW V U Wq) (WR := 1) hi hTX (fun j => by
    simp [lincomb, Matrix.one_apply]) hdq
  obtain ⟨hs, hub, x0, hx0, hPx0⟩ := oblique_norm hi hXX hWW hdX (by rw [hWX]; exact hg.svdmin _ hkpos)
  set s := grt.svdmin (Wqᴴ * arnfPick hle Q) with hsdef
  have hP : ∀ x, oblique g (fun j => T (arnfW V U Wt j)) (arnfW V U Wt) x = obliqueLin hi X (arnfW V U Wq) x := by
    intro x
    rw [arnf_change h ok hR hdet, hob]
    rfl
  have hidem : ∀ x, obliqueLin hi X (arnfW V U Wq) (obliqueLin hi X (arnfW V U Wq) x) = obliqueLin hi X (arnfW V U Wq) x :=
    fun x => oblique_idem hi hdX x
  have hne : obliqueLin hi X (arnfW V U Wq) x0 ≠ 0 := by
    intro h0
    have h1 : oblique g X (arnfW V U Wq) x0 = 0 := h0
    rw [h1, hi.nrm_eq_zero.mpr rfl] at hPx0
    exact zero_ne_one hPx0
  simp only [hP]
  refine ⟨⟨by positivity, compl_bound hi hidem ⟨x0, hne⟩ hub⟩, fun c ⟨hc0, hc⟩ => ?_⟩
  have h2 := compl_bound hi (P := LinearMap.id - obliqueLin hi X (arnfW V U Wq)) (fun x => by
      simp only [LinearMap.sub_apply, LinearMap.id_apply, map_sub, hidem]; abel)
    ⟨out.Vh 0, by
      rw [LinearMap.sub_apply, LinearMap.id_apply, ← hP, hfix, sub_zero]
      intro h0
      rw [h0, hi.nrm_eq_zero.mpr rfl] at hVn
      exact zero_ne_one hVn⟩ (c := c) (fun x => hc x) x0
  rw [LinearMap.sub_apply, LinearMap.id_apply, sub_sub_cancel, hx0] at h2
  have h3 : nrm g (obliqueLin hi X (arnfW V U Wq) x0) = 1 := hPx0
  rw [h3] at h2
  rw [div_le_iff₀ hs]
  exact h2

end main

/-- C56: invalid input.  `C` and `B_` with the wrong number of columns or rows (`DeflatedCg` after a `ConvergenceError`), singular `E`,
as many deflation vectors as there are basis vectors, and an empty Arnoldi basis (zero initial residual). -/
theorem C56_errors (rt : ArnfRoutines 𝕜 E d) (H : ℕ → ℕ → 𝕜) (Em : Matrix (Fin d) (Fin d) 𝕜) (C B_ : List (Fin d → 𝕜))
    (V : ℕ → E) (U MAU : Fin d → E) :
    (C.length ≠ n ∨ B_.length ≠ n_ →
      mkArnf (n_ := n_) (n := n) rt H Em C B_ V U MAU = .error .valueError) ∧
    (C.length = n → B_.length = n_ → 0 < d → Em.det = 0 →
      mkArnf (n_ := n_) (n := n) rt H Em C B_ V U MAU = .error .linAlgError) ∧
    ∀ (a : Arnf 𝕜 E n_ n d) (grt : ArnfGetRoutines 𝕜 n_ n d k (n + d - k - 1)) (ipM : E → E → 𝕜) (r0 : ℝ) (UMlr : Fin d → 𝕜)
      (hn : n ≤ n_) (Wt : Matrix (Fin n ⊕ Fin d) (Fin k) 𝕜), n + d ≤ k ∨ n_ = 0 →
      a.get grt ipM Em B_ V U r0 UMlr hn Wt = .error .valueError := by
  refine ⟨fun hl => ?_, fun h1 h2 hd hE => ?_, fun a grt ipM r0 UMlr hn Wt hk => ?_⟩
  · rw [mkArnf, if_pos hl]
  · rw [mkArnf, if_neg (by simp [h1, h2]), solveE, if_neg hd.ne', if_pos hE]
  · rw [Arnf.get, if_pos hk]

/-- The relation between the quantities of a deflated solver, in terms of the bases `V = M P` and `U = M W` and the inner
product of `get_ip_Minv_B()`. -/
theorem DeflRitzRel.prec {ip : E → E → 𝕜} {M B : E →ₗ[𝕜] E} {P : ℕ → E} {W : Fin d → E} {H : ℕ → ℕ → 𝕜}
    {Em F : Matrix (Fin d) (Fin d) 𝕜} {C B_ : List (Fin d → 𝕜)}
    (h : DeflRitzRel (fun x y => ip x (M y)) (B ∘ₗ M) P W H n_ n Em F C B_) {g : E → E → 𝕜} (hg : IsInner g)
    (hgM : ∀ x y, g (M x) (M y) = ip x (M y)) {V : ℕ → E} (hV : ∀ i < n_, V i = M (P i)) {U : Fin d → E} (hU : ∀ j, U j = M (W j)) :
    DeflRitzRel g (M ∘ₗ B) V U H n_ n Em F C B_ := by
  have hle := h.le
  refine ⟨hg, hle, fun i hi j hj => ?_, fun i j => ?_, fun i j hj => ?_, h.lenC, h.lenB, fun i j => ?_, fun j hj i => ?_,
    fun i hi j => ?_, fun i j => ?_, h.det, fun j hj => ?_⟩
  · rw [hV i hi, hV j hj, hgM]; exact h.orthP i hi j hj
  · rw [hU, hU, hgM]; exact h.orthW i j
  · rw [hU, hV j hj, hgM]; exact h.orthWP i j hj
  · rw [h.Emat, hU, hU, LinearMap.comp_apply, LinearMap.comp_apply, hgM]
  · rw [h.Cmat j hj, hU, hV j (by omega), LinearMap.comp_apply, LinearMap.comp_apply, hgM]
  · rw [h.Bmat i hi, hU, hV i hi, LinearMap.comp_apply, LinearMap.comp_apply, hgM]
  · rw [h.Fmat, hU, hU, LinearMap.comp_apply, LinearMap.comp_apply, LinearMap.comp_apply, LinearMap.comp_apply, hgM]
  · have e := congrArg M (h.rel j hj)
    rw [map_add, map_sum, map_lincomb] at e
    rw [LinearMap.comp_apply, hV j (by omega)]
    refine e.trans ?_
    congr 1
    · refine Finset.sum_congr rfl fun i hi => ?_
      rw [map_smul, hV i (Finset.mem_range.mp hi)]
    · simp only [hU, LinearMap.comp_apply]

section gmres
variable {m : ℕ} {a : LSArgs 𝕜 E} {oa : OblArgs 𝕜 E m} {U : Fin m → E} (h : DeflHyp a oa U)
  {s : LS 𝕜 E} (hs : mkLS a = .ok s) {o : Obl 𝕜 E m} (ho : mkObl s oa U = .ok o)
include h hs ho

theorem compl_split (z : E) : z = complLin h.ls.inner a.B U z +
    lincomb (fun l => a.B (o.U l)) (o.Emat⁻¹ *ᵥ coefs a.ip o.U z) := by
  have hob := OblOK.of_defl h hs ho
  obtain ⟨R, hR, hU⟩ := hob.basis
  have hBU : ∀ j, a.B (U j) = lincomb (fun j => a.B (o.U j)) fun i => R i j := by
    intro j; rw [hU, map_lincomb]
  obtain ⟨-, -, -, -, hco⟩ := coords_transform h.ls.inner hBU hU h.nonsing
  rw [complLin_apply, oblique, hob.E, show o.AU = fun j => a.B (o.U j) from funext hob.AU, ← hco,
    lincomb_change hBU]
  abel

/-- C56: for a run of deflated GMRES all hypotheses about the attributes hold: those of `C56_relation` etc. for the operator `M Ml A Mr` and the
inner product `g` of `get_ip_Minv_B()` (C16), and the one of `C56_initial` for the preconditioned initial residual. -/
theorem C56_gmres {ortho : Ortho} (hg : GmresHyp a ortho)
    (hsa : a.selfAdjoint = true → ∀ x y, a.ip (a.Ml (a.A (a.Mr x))) y = a.ip x (a.Ml (a.A (a.Mr y))))
    {W : Fin m → E} (hW : ∀ j, o.U j = a.M (W j)) (hWo : ∀ i j, a.ip (o.U i) (W j) = if i = j then 1 else 0)
    (p : SolverArgs E) {st : St ℝ E (GmresSt 𝕜 E × List (Fin m → 𝕜))}
    (hrun : deflatedGmres s o ortho p = .returned st ∨ deflatedGmres s o ortho p = .convergence st)
    (hex : st.s.1.arn.invariant = true → ∀ j, j + 1 = st.s.1.arn.iter → st.s.1.arn.H (j + 1) j = 0)
    {g : E → E → 𝕜} (hi : IsInner g) (hgM : ∀ x y, g (a.M x) (a.M y) = a.ip x (a.M y)) :
    DeflRitzRel g (a.M ∘ₗ a.Ml ∘ₗ a.A ∘ₗ a.Mr) st.s.1.arn.V o.U st.s.1.arn.H st.s.1.arn.get.rows st.s.1.arn.get.cols o.Emat
      (gram s.ip o.AU fun j => s.M (o.AU j)) st.s.2
      (o.B_ s st.s.1.arn.get.rows st.s.1.arn.get.cols st.s.1.arn.V st.s.2) ∧
    ∃ MMlr0 Mlr0 r0 UMlr, o.initRes s p.x0 = .ok (MMlr0, Mlr0, r0) ∧ o.UMlr s p.x0 = .ok UMlr ∧
      (0 < st.s.1.arn.get.rows → a.M (a.Ml (a.b - a.A (p.x0.getD 0))) =
        (r0 : 𝕜) • st.s.1.arn.V 0 + ∑ j, (o.Emat⁻¹ *ᵥ UMlr) j • a.M (a.Ml (a.A (a.Mr (o.U j))))) := by
  have ok := LSOK.of_defl h hs
  have hob := OblOK.of_defl h hs ho
  have hrel := C40_gmres h hs ho hg hsa hW hWo p hrun hex
  have hreach := deflGmres_reach h hs ho hg p hrun
  set c := s.arnCfg (o.hooks s) p.maxiter ortho with hc
  obtain ⟨hgg, hM, hA, hip⟩ := hob.cfg_eq ok ortho p.maxiter
  rw [← hc] at hgg hM hA hip
  set v := complLin h.ls.inner a.B U (a.Ml (a.b - a.A (p.x0.getD 0))) with hv
  have hah : ArnHyp c := hob.arnHyp ok hg p.maxiter
  have inv := hreach.inv hah
  obtain ⟨-, hR, -, -, -⟩ := C17_arnoldi hah hreach
  rw [hip, hM, hA] at hR
  generalize st.s.1.arn = t at hreach hrel inv hR hex ⊢
  have hsh : t.get.basis = t.get.rows := by unfold Arn.get; split <;> rfl
  have hVM : ∀ i < t.get.rows, t.V i = a.M (t.P i) := fun i hi' => hR.VM i (by omega)
  refine ⟨hrel.prec (B := a.Ml ∘ₗ a.A ∘ₗ a.Mr) hi hgM hVM hW, _, _, _, _, hob.initRes ok p.x0,
    (show o.UMlr s p.x0 = .ok (coefs a.ip o.U (a.Ml (a.b - a.A (p.x0.getD 0)))) from ?_), fun h0 => ?_⟩
  · unfold Obl.UMlr
    cases p.x0 with
    | none => simp [ok.Mlb, ok.ip, hob.compl]
    | some z => simp [ok.ip, hob.compl, ok.Ml, ok.b, ok.A]
  · have hst : t.vnorm = nrm (fun x y => a.ip x (a.M y)) v ∧ (t.vnorm : 𝕜) • t.P 0 = v := by
      refine ⟨by rw [inv.vnorm, hgg], ?_⟩
      cases hinv : t.invariant with
      | false => exact (inv.live hinv).start
      | true =>
        rcases inv.flagged hinv with ⟨-, h1⟩ | ⟨k, w, hk, core, -⟩
        · simp [Arn.get, hinv, h1] at h0
        · exact core.start
    have e := compl_split h hs ho (a.Ml (a.b - a.A (p.x0.getD 0)))
    rw [← hv, ← hst.2] at e
    refine (congrArg a.M e).trans ?_
    rw [map_add, map_smul, map_lincomb, ← hVM 0 h0, hst.1]
    rfl

end gmres


/-! ## Non-vacuity -/

theorem exists_direction {g : E → E → 𝕜} (hi : IsInner g) {u : E} (hu : g u u = 1) (x : E) :
    ∃ (q : E) (r : 𝕜), g q q = 1 ∧ x = r • q := by
  by_cases hx : x = 0
  · exact ⟨u, 0, hu, by rw [hx, zero_smul]⟩
  · have hn : nrm g x ≠ 0 := fun h => hx ((hi.nrm_eq_zero).mp h)
    have hn' : ((nrm g x : ℝ) : 𝕜) ≠ 0 := by exact_mod_cast hn
    refine ⟨((nrm g x : ℝ) : 𝕜)⁻¹ • x, (nrm g x : ℝ), ?_, by rw [smul_smul, mul_inv_cancel₀ hn', one_smul]⟩
    rw [hi.smul_left, hi.smul_right, hi.self_real, ← hi.nrm_sq]
    simp only [map_inv₀, RCLike.conj_ofReal]
    push_cast
    field_simp

/-- The operator of the example: `e0 ↦ 2 e0 + e1 + e2 + e3`, `e2 ↦ e0 + e2 + e3`, `e1 ↦ e1`, `e3 ↦ e3`. -/
def exArnfT : (Fin 4 → ℝ) →ₗ[ℝ] (Fin 4 → ℝ) :=
  Matrix.toLin' !![2, 0, 1, 0; 1, 1, 0, 0; 1, 0, 1, 0; 1, 0, 1, 1]

/-- The Arnoldi vectors `e0`, `e1` of the example. -/
def exArnfV (i : ℕ) : Fin 4 → ℝ := if i = 0 then ![1, 0, 0, 0] else ![0, 1, 0, 0]

/-- The deflation vector `e2` of the example. -/
def exArnfU (_ : Fin 1) : Fin 4 → ℝ := ![0, 0, 1, 0]

theorem exArnf_T (x : Fin 4 → ℝ) : exArnfT x = ![2 * x 0 + x 2, x 0 + x 1, x 0 + x 2, x 0 + x 2 + x 3] := by
  funext i
  fin_cases i <;> simp [exArnfT, Matrix.mulVec, dotProduct, Fin.sum_univ_four]

theorem exArnf_dot (x y : Fin 4 → ℝ) : cdot x y = x 0 * y 0 + x 1 * y 1 + x 2 * y 2 + x 3 * y 3 := by
  simp [cdot, dotProduct, Fin.sum_univ_four]

theorem exArnf_rel : DeflRitzRel cdot exArnfT exArnfV exArnfU (fun _ _ => 1) 2 1 1 (Matrix.of fun _ _ => 3) [fun _ => 1]
    [fun _ => 1, fun _ => 0] := by
  have hV0 : exArnfV 0 = ![1, 0, 0, 0] := rfl
  have hV1 : exArnfV 1 = ![0, 1, 0, 0] := rfl
  have hT := exArnf_T
  have hd := exArnf_dot
  refine ⟨cdot_inner, by omega, fun i hi j hj => ?_, fun i j => ?_, fun i j hj => ?_, rfl, rfl, fun i j => ?_, fun j hj i => ?_,
    fun i hi j => ?_, fun i j => ?_, by simp, fun j hj => ?_⟩
  · interval_cases i <;> interval_cases j <;> simp [hd, hV0, hV1]
  · rw [Subsingleton.elim i j, if_pos rfl]; simp [hd, exArnfU]
  · interval_cases j <;> simp [hd, hV0, hV1, exArnfU]
  · rw [Subsingleton.elim i j, Matrix.one_apply_eq]; simp [hd, hT, exArnfU]
  · interval_cases j; simp [hd, hT, exArnfU, hV0]
  · interval_cases i <;> simp [hd, hT, exArnfU, hV0, hV1]
  · rw [Subsingleton.elim i j]; simp [hd, hT, exArnfU]; norm_num
  · interval_cases j
    have e : (1 : Matrix (Fin 1) (Fin 1) ℝ)⁻¹ *ᵥ List.getD [fun _ => 1] 0 0 = fun _ => 1 := by
      rw [inv_one, Matrix.one_mulVec]; rfl
    rw [e, lincomb, Fin.sum_univ_one, Finset.sum_range_succ, Finset.sum_range_one, hV0, hV1, hT, hT]
    funext i
    fin_cases i
    · simp [exArnfU]; norm_num
    · simp [exArnfU]
    · simp [exArnfU]
    · simp [exArnfU]

/-- Non-vacuity: one step, one deflation vector, one new deflation vector, a nontrivial remainder. -/
theorem exArnf_routines : ∃ (rt : ArnfRoutines ℝ (Fin 4 → ℝ) 1) (grt : ArnfGetRoutines ℝ 2 1 1 1 (1 + 1 - 1 - 1)) (V : ℕ → Fin 4 → ℝ) (U : Fin 1 → Fin 4 → ℝ)
    (H : ℕ → ℕ → ℝ) (Em F : Matrix (Fin 1) (Fin 1) ℝ) (C B_ : List (Fin 1 → ℝ)) (Wt : Matrix (Fin 1 ⊕ Fin 1) (Fin 1) ℝ),
    DeflRitzRel cdot exArnfT V U H 2 1 Em F C B_ ∧ ArnfHyp cdot cdot rt ∧ ArnfGetHyp grt ∧ Wtᴴ * Wt = 1 ∧
      (∃ a, mkArnf (n_ := 2) (n := 1) rt H Em C B_ V U (fun j => exArnfT (U j)) = .ok a ∧
        ∀ j, arnfDefect a V U (fun j => exArnfT (U j)) Em B_ j = 0) ∧
      (gram cdot (arnfW V U Wt) fun j => exArnfT (arnfW V U Wt j)).det ≠ 0 := by
  have key : ∀ {ι : Type} [Fintype ι] [DecidableEq ι] [Nonempty ι] (x : ι → ℝ), ∃ q : (ι → ℝ) × ℝ, cdot q.1 q.1 = 1 ∧ x = q.2 • q.1 := by
    intro ι _ _ _ x
    obtain ⟨q, r, h1, h2⟩ := exists_direction (cdot_inner (𝕜 := ℝ)) (u := Pi.single (Classical.arbitrary ι) (1 : ℝ)) (by simp [cdot]) x
    exact ⟨(q, r), h1, h2⟩
  choose f hf1 hf2 using @key
  have one : ∀ {ι : Type} [Fintype ι] [DecidableEq ι] [Nonempty ι] (X : Fin 1 → ι → ℝ),
      IsQr cdot X (fun _ => (f (X 0)).1) (Matrix.of fun _ _ => (f (X 0)).2) := by
    intro ι _ _ _ X
    refine ⟨fun j => ?_, ?_, fun i j hij => by omega⟩
    · rw [Subsingleton.elim j 0, lincomb, Fin.sum_univ_one]
      exact hf2 (X 0)
    · ext i j
      rw [gram, Matrix.of_apply, hf1, Subsingleton.elim i j, Matrix.one_apply_eq]
  classical
  have hmat : ∀ {ι : Type} [Fintype ι] [DecidableEq ι] [Nonempty ι] (q : ι → ℝ), cdot q q = 1 →
      (Matrix.of fun i (_ : Fin 1) => q i)ᴴ * (Matrix.of fun i (_ : Fin 1) => q i) = 1 := by
    intro ι _ _ _ q hq
    ext i j
    rw [Subsingleton.elim i j, Matrix.one_apply_eq, ← hq]
    simp [Matrix.mul_apply, cdot, dotProduct]
  let rt : ArnfRoutines ℝ (Fin 4 → ℝ) 1 :=
    ⟨fun X => (fun _ => (f (X 0)).1, Matrix.of fun _ _ => (f (X 0)).2, 1),
      fun l Q => if gram cdot Q Q = 1 then .ok (Q, 1) else .error .linAlgError⟩
  let grt : ArnfGetRoutines ℝ 2 1 1 1 (1 + 1 - 1 - 1) :=
    ⟨fun Wt => (Matrix.of fun i _ => (f fun i => Wt i 0).1 i,
        Matrix.of fun i _ => Sum.elim (fun _ => -(f fun i => Wt i 0).1 (.inr 0)) (fun _ => (f fun i => Wt i 0).1 (.inl 0)) i),
      ⟨fun X => .ok (fun _ => (f (X 0)).1, Matrix.of fun _ _ => (f (X 0)).2), fun M => (1, M)⟩,
      fun A => (A, 1), fun l X => Matrix.of fun i _ => (f fun i => X i 0).1 i, fun M => |M 0 0|⟩
  have hrt : ArnfHyp cdot cdot rt := by
    refine ⟨cdot_inner, fun X => ⟨fun j => (one X).fact j, (one X).orth, (one X).upper, fun i j hij => ?_⟩, fun l Q Q' R h => ?_⟩
    · rw [Subsingleton.elim j i, Finset.Icc_self, Finset.sum_singleton]
    · by_cases hQ : gram cdot Q Q = 1
      · simp only [rt, if_pos hQ] at h
        obtain ⟨rfl, rfl⟩ := Prod.mk.inj (Except.ok.inj h)
        refine ⟨fun j => ?_, hQ, fun i j hij => Matrix.one_apply_ne hij.ne'⟩
        rw [lincomb, Finset.sum_eq_single j] <;> simp +contextual
      · simp [rt, if_neg hQ] at h
  have hgrt : ArnfGetHyp grt := by
    refine ⟨fun Wt => ?_, fun X => ⟨_, _, rfl, one X⟩, fun M => ⟨by simp [grt], by simp [grt], fun i j h => by omega⟩,
      fun A => ⟨by simp [grt], by simp [grt], fun i => ?_, fun i j h => by omega⟩, fun l X => ⟨hmat _ (hf1 _), ?_⟩, fun M _ => ?_⟩
    · have h1 := hf1 fun i => Wt i 0
      have h2 := hf2 fun i => Wt i 0
      revert h1 h2
      generalize hq : f (fun i => Wt i 0) = q
      intro h1 h2
      have h1' := h1
      simp only [cdot, dotProduct, Fintype.sum_sum_type, Finset.univ_unique, Finset.sum_singleton, Pi.star_apply, star_trivial,
        Fin.default_eq_zero] at h1'
      refine ⟨⟨Matrix.of fun _ _ => q.2, ?_⟩, ?_, ?_, ?_, ?_⟩
      · ext i j
        rw [Subsingleton.elim j 0, congrFun h2 i]
        simp [grt, hq, Matrix.mul_apply, mul_comm]
      · simp only [grt, hq]; exact hmat _ h1
      · ext i j
        simp only [grt, hq]
        fin_cases i; fin_cases j
        simp [Matrix.mul_apply]
        linarith
      · ext i j
        simp only [grt, hq]
        fin_cases i; fin_cases j
        simp [Matrix.mul_apply]
        ring
      · ext i j
        simp only [grt, hq]
        rcases i with i | i <;> rcases j with j | j <;> fin_cases i <;> fin_cases j <;>
          simp [Matrix.mul_apply] <;> linarith
    · have : i = 0 := by omega
      subst this; simp [grt]
    · refine ⟨Matrix.of fun _ _ => (f fun i => X i 0).2, ?_⟩
      ext i j
      rw [Subsingleton.elim j 0, congrFun (hf2 fun i => X i 0) i]
      simp [grt, Matrix.mul_apply, mul_comm]
    · have hv : ∀ x : Fin 1 → ℝ, vecNorm x = |x 0| := by
        intro x
        simp [vecNorm, Real.sqrt_sq_eq_abs]
      refine ⟨⟨fun _ => 1, by simp [hv], by simp [hv, grt, Matrix.mulVec, dotProduct]⟩, ?_⟩
      rintro r ⟨x, hx, rfl⟩
      rw [hv] at hx
      simp [hv, grt, Matrix.mulVec, dotProduct, abs_mul, hx]
  refine ⟨rt, grt, exArnfV, exArnfU, _, _, _, _, _, Matrix.of fun i _ => Sum.elim (fun _ => 1) (fun _ => 0) i, exArnf_rel, hrt, hgrt, ?_, ?_, ?_⟩
  · ext i j
    rw [Subsingleton.elim i j, Matrix.one_apply_eq]
    simp [Matrix.mul_apply]
  · have hret : ∃ a, mkArnf (n_ := 2) (n := 1) rt (fun _ _ => 1) 1 [fun _ => 1] [fun _ => 1, fun _ => 0] exArnfV exArnfU
        (fun j => exArnfT (exArnfU j)) = .ok a := ?_
    · obtain ⟨a, ha⟩ := hret
      refine ⟨a, ha, mkArnf_full exArnf_rel hrt ha fun i => ?_⟩
      have hX : arnfX exArnfV exArnfU (fun j => exArnfT (exArnfU j)) (1 : Matrix (Fin 1) (Fin 1) ℝ) (rowsMat [fun _ => (1 : ℝ), fun _ => 0] 2) 0 = ![0, 0, 0, 1] := by
        unfold arnfX
        dsimp only
        rw [exArnf_T, lincomb, lincomb, Fin.sum_univ_one, Fin.sum_univ_two]
        funext i
        fin_cases i <;> simp [exArnfU, exArnfV, rowsMat]
      have h1 : ‖(f ![0, 0, 0, 1]).2‖ = 1 := by
        have h1 := hf1 ![(0 : ℝ), 0, 0, 1]
        have h2 := congrArg (fun x => cdot x x) (hf2 ![(0 : ℝ), 0, 0, 1])
        simp only [cdot_inner.smul_left, cdot_inner.smul_right, h1, exArnf_dot] at h2
        have h3 : (f ![(0 : ℝ), 0, 0, 1]).2 ^ 2 = 1 := by
          simp at h2
          linarith
        rw [Real.norm_eq_abs, ← sq_eq_sq₀ (abs_nonneg _) one_pos.le, sq_abs, h3, one_pow]
      have h2 : a.A_norm ≤ 4 := by
        rw [(mkArnf_ok exArnf_rel hrt ha).2.1]
        refine matNorm2_le _ (by norm_num) fun u => ?_
        have h0 : 0 ≤ 4 * vecNorm u := mul_nonneg (by norm_num) (vecNorm_nonneg _)
        rw [← sq_le_sq₀ (vecNorm_nonneg _) h0, mul_pow, vecNorm_sq, vecNorm_sq, Fintype.sum_sum_type, Fintype.sum_sum_type]
        simp [ritzM, Matrix.mulVec, dotProduct, Matrix.mul_apply, subMat, colsMat, rowsMat, Matrix.fromBlocks]
        nlinarith [sq_nonneg (u (.inl 0) - u (.inr 0)), sq_nonneg (u (.inl 0)), sq_nonneg (u (.inr 0))]
      have h3 : (rt.pqr (arnfX exArnfV exArnfU (fun j => exArnfT (exArnfU j)) (1 : Matrix (Fin 1) (Fin 1) ℝ) (rowsMat [fun _ => (1 : ℝ), fun _ => 0] 2))).2.1 i i =
          (f ![0, 0, 0, 1]).2 := by
        simp only [rt, Matrix.of_apply]
        rw [hX]
      rw [h3, h1]
      linarith
    unfold mkArnf
    rw [if_neg (by simp), solveE, if_neg one_ne_zero, if_neg (by simp)]
    dsimp only
    rw [if_neg one_ne_zero]
    simp only [rt]
    rw [if_pos]
    · exact ⟨_, rfl⟩
    · ext i j
      rw [gram, Matrix.of_apply, hf1]
      have hi := i.2.trans_le (arnfRank_le _ _)
      have hj := j.2.trans_le (arnfRank_le _ _)
      have e : i = j := Fin.ext (by omega)
      rw [e, Matrix.one_apply_eq]
  · rw [Matrix.det_fin_one, gram, Matrix.of_apply, exArnf_T, exArnf_dot]
    simp [arnfW, exArnfV, exArnfU]

end Krypy
