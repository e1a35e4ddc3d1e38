import Verif.Model.Angles
import Verif.Model.Qr
import Verif.Props.Projection
import Verif.Props.Qr
import Mathlib.LinearAlgebra.Matrix.Charpoly.Basic
import Mathlib.Data.List.OfFn
import Mathlib.Data.List.Sort
import Mathlib.Order.Interval.Finset.Fin
import Mathlib.Algebra.Polynomial.Roots

/-! # Property C49: `angles` -/

set_option linter.unusedSectionVars false

namespace Krypy
variable {𝕜 E : Type*} [RCLike 𝕜] [AddCommGroup E] [Module 𝕜 E] {k l : ℕ}
open scoped ComplexConjugate
open Matrix

/-! ## Specification -/

/-- `theta` are the principal angles of the column spaces of `F` (`k` columns) and `G` (`l ≤ k` columns): there are orthonormal
bases `U` and `V` of the two spaces with `⟨U_i, V_j⟩ = 0` for `i ≠ j`, `⟨U_j, V_j⟩ = cos theta_j`; `theta` is sorted and is
filled up with `π/2`. -/
structure IsAngles (ip : E → E → 𝕜) (F : Fin k → E) (G : Fin l → E) (theta : List ℝ) : Prop where
  length : theta.length = k
  sorted : theta.Pairwise (· ≤ ·)
  range : ∀ t ∈ theta, 0 ≤ t ∧ t ≤ Real.pi / 2
  rest : ∀ i (hi : i < theta.length), l ≤ i → theta[i] = Real.pi / 2
  vectors : ∃ (U : Fin k → E) (V : Fin l → E), gram ip U U = 1 ∧ gram ip V V = 1 ∧
    Submodule.span 𝕜 (Set.range U) = Submodule.span 𝕜 (Set.range F) ∧
    Submodule.span 𝕜 (Set.range V) = Submodule.span 𝕜 (Set.range G) ∧
    ∀ (i : Fin k) (j : Fin l) (hj : (j : ℕ) < theta.length),
      ip (U i) (V j) = if (i : ℕ) = j then ((Real.cos theta[j] : ℝ) : 𝕜) else 0

/-- Contracts of the routines for the arguments that occur in a call with `l ≤ k`: `qr` delivers orthonormal bases of `F` and
`G` and, for the matrix `S` of the sine based part, a factor with `R^H R = ⟨S, S⟩` (`qrLoop_gram` for the code's own routine);
`svd` delivers singular value decompositions. -/
structure AngleOk (ip : E → E → 𝕜) (rt : AngleRoutines 𝕜 E) (F : Fin k → E) (G : Fin l → E) : Prop where
  qrF : ∀ Q R, rt.qr F = .ok (Q, R) → IsQr ip F Q R ∧ R.det ≠ 0
  qrG : ∀ Q R, rt.qr G = .ok (Q, R) → IsQr ip G Q R ∧ R.det ≠ 0
  svd : ∀ QF RF QG RG, rt.qr F = .ok (QF, RF) → rt.qr G = .ok (QG, RG) →
    IsSvd (gram ip QF QG) (rt.svd (gram ip QF QG)).Y (rt.svd (gram ip QF QG)).s (rt.svd (gram ip QF QG)).Z
  qrS : ∀ QF RF QG RG Q R, rt.qr F = .ok (QF, RF) → rt.qr G = .ok (QG, RG) →
    rt.qr (angS ip QF QG (rt.svd (gram ip QF QG))) = .ok (Q, R) →
    Rᴴ * R = gram ip (angS ip QF QG (rt.svd (gram ip QF QG))) (angS ip QF QG (rt.svd (gram ip QF QG))) ∧
    IsSvd R (rt.svd R).Y (rt.svd R).s (rt.svd R).Z

/-! ## Linear algebra -/

theorem rectDiag_gram (hlk : l ≤ k) (s : Fin l → ℝ) :
    (rectDiag k s : Matrix (Fin k) (Fin l) 𝕜)ᴴ * rectDiag k s = Matrix.diagonal fun i => ((s i ^ 2 : ℝ) : 𝕜) := by
  ext i j
  rw [Matrix.mul_apply, Finset.sum_eq_single (Fin.castLE hlk i)]
  · simp only [Matrix.conjTranspose_apply, rectDiag, Matrix.of_apply, Fin.val_castLE, Matrix.diagonal_apply, if_true]
    by_cases h : i = j
    · subst h
      simp [sq]
    · rw [if_neg (fun h' => h (Fin.ext h')), if_neg h, mul_zero]
  · intro b _ hb
    have : ¬ (b : ℕ) = i := fun h => hb (Fin.ext (by simpa using h))
    simp [rectDiag, this]
  · simp

section
variable {ip : E → E → 𝕜} (h : IsInner ip)
include h

theorem IsInner.gram_sub_left {ι κ : Type*} (W W' : ι → E) (V : κ → E) :
    gram ip (fun i => W i - W' i) V = gram ip W V - gram ip W' V := by
  ext i j
  simp [gram, h.sub_left]

theorem IsInner.gram_sub_right {ι κ : Type*} (W : ι → E) (V V' : κ → E) :
    gram ip W (fun i => V i - V' i) = gram ip W V - gram ip W V' := by
  ext i j
  simp [gram, h.sub_right]

variable {QF : Fin k → E} {QG : Fin l → E} (hF : gram ip QF QF = 1) (hG : gram ip QG QG = 1)
  {Y : Matrix (Fin k) (Fin k) 𝕜} {s : Fin l → ℝ} {Z : Matrix (Fin l) (Fin l) 𝕜} (hs : IsSvd (gram ip QF QG) Y s Z)
  (hlk : l ≤ k)
include hF hG hs hlk

theorem vcos_gram : gram ip (fun j => lincomb QG fun i => Zᴴ i j) (fun j => lincomb QG fun i => Zᴴ i j) = 1 := by
  rw [h.gram_left, h.gram_right, hG, one_mul, conjTranspose_conjTranspose]
  exact mul_eq_one_comm.mp hs.unitaryZ

theorem ucos_gram : gram ip (fun j => lincomb QF fun i => Y i j) (fun j => lincomb QF fun i => Y i j) = 1 := by
  rw [h.gram_left, h.gram_right, hF, one_mul]
  exact hs.unitaryY

theorem qf_vcos : gram ip QF (fun j => lincomb QG fun i => Zᴴ i j) = Y * rectDiag k s := by
  rw [h.gram_right, hs.fact, Matrix.mul_assoc, mul_eq_one_comm.mp hs.unitaryZ, Matrix.mul_one]

theorem ucos_vcos : gram ip (fun j => lincomb QF fun i => Y i j) (fun j => lincomb QG fun i => Zᴴ i j) = rectDiag k s := by
  rw [h.gram_left, qf_vcos h hF hG hs hlk, ← Matrix.mul_assoc, hs.unitaryY, Matrix.one_mul]

theorem s_gram (f : Fin l → E) (hf : f = fun j => lincomb QG fun i => Zᴴ i j) :
    gram ip (fun j => f j - lincomb QF (coefs ip QF (f j))) (fun j => f j - lincomb QF (coefs ip QF (f j))) =
      Matrix.diagonal fun i => ((1 - s i ^ 2 : ℝ) : 𝕜) := by
  have e : (fun j => lincomb QF (coefs ip QF (f j))) = fun j => lincomb QF fun i => (Y * (rectDiag k s : Matrix (Fin k) (Fin l) 𝕜)) i j := by
    funext j
    rw [← qf_vcos h hF hG hs hlk, ← hf]
    rfl
  have hq : gram ip QF f = Y * rectDiag k s := by rw [hf]; exact qf_vcos h hF hG hs hlk
  have hv : gram ip f f = 1 := by rw [hf]; exact vcos_gram h hF hG hs hlk
  rw [h.gram_sub_left, h.gram_sub_right, h.gram_sub_right, e, h.gram_left, h.gram_left, h.gram_right, h.gram_right, hF, hq, hv,
    ← h.gram_conjTranspose QF f, hq, Matrix.one_mul, conjTranspose_mul, Matrix.mul_assoc, ← Matrix.mul_assoc Yᴴ,
    hs.unitaryY, Matrix.one_mul, rectDiag_gram hlk]
  rw [sub_self, sub_zero]
  ext i j
  by_cases hij : i = j
  · subst hij; simp
  · simp [hij]

end

/-- Unitarily similar real diagonal matrices have the same entries. -/
theorem diag_perm {n : ℕ} {u d : Fin n → ℝ} {Z : Matrix (Fin n) (Fin n) 𝕜} (hZ : Zᴴ * Z = 1)
    (h : Zᴴ * (Matrix.diagonal fun i => ((u i : ℝ) : 𝕜)) * Z = Matrix.diagonal fun i => ((d i : ℝ) : 𝕜)) :
    (List.ofFn u).Perm (List.ofFn d) := by
  have h1 : (∏ i, (Polynomial.X - Polynomial.C ((u i : ℝ) : 𝕜))) =
      ∏ i, (Polynomial.X - Polynomial.C ((d i : ℝ) : 𝕜)) := by
    rw [← Matrix.charpoly_diagonal, ← Matrix.charpoly_diagonal, ← h, Matrix.charpoly_mul_comm, ← Matrix.mul_assoc,
      mul_eq_one_comm.mp hZ, one_mul]
  have h2 : (Finset.univ.val.map fun i => ((u i : ℝ) : 𝕜)) = Finset.univ.val.map fun i => ((d i : ℝ) : 𝕜) := by
    have e : ∀ f : Fin n → 𝕜, (∏ i, (Polynomial.X - Polynomial.C (f i))).roots = Finset.univ.val.map f := by
      intro f
      rw [← Polynomial.roots_multiset_prod_X_sub_C (Finset.univ.val.map f), Multiset.map_map]
      rfl
    rw [← e, ← e, h1]
  have h3 : (Finset.univ.val.map u) = Finset.univ.val.map d := by
    have := congrArg (Multiset.map RCLike.re) h2
    simpa only [Multiset.map_map, Function.comp_def, RCLike.ofReal_re] using this
  rwa [Fin.univ_val_map, Fin.univ_val_map, Multiset.coe_eq_coe] at h3

/-- Sorted diagonal matrices that are unitarily similar are equal. -/
theorem diag_unique_anti {n : ℕ} {u d : Fin n → ℝ} (hu : Antitone u) (hd : Antitone d)
    {Z : Matrix (Fin n) (Fin n) 𝕜} (hZ : Zᴴ * Z = 1)
    (h : Zᴴ * (Matrix.diagonal fun i => ((u i : ℝ) : 𝕜)) * Z = Matrix.diagonal fun i => ((d i : ℝ) : 𝕜)) : u = d := by
  apply List.ofFn_injective
  refine (diag_perm hZ h).eq_of_pairwise (le := fun a b => b ≤ a) (fun a b _ _ h1 h2 => le_antisymm h2 h1) ?_ ?_
  · rw [List.pairwise_ofFn]
    exact fun i j hij => hu hij.le
  · rw [List.pairwise_ofFn]
    exact fun i j hij => hd hij.le

theorem diag_unique {n : ℕ} {u d : Fin n → ℝ} (hu : Antitone u) (hu0 : ∀ i, 0 ≤ u i) (hd : Monotone d)
    {Z : Matrix (Fin n) (Fin n) 𝕜} (hZ : Zᴴ * Z = 1)
    (h : Zᴴ * (Matrix.diagonal fun i => ((u i ^ 2 : ℝ) : 𝕜)) * Z = Matrix.diagonal fun i => ((d i : ℝ) : 𝕜)) (i : Fin n) :
    u (Fin.rev i) ^ 2 = d i := by
  have hp := diag_perm (u := fun i => u i ^ 2) hZ h
  have hrev : (List.ofFn fun i => u (Fin.rev i) ^ 2).Perm (List.ofFn fun i => u i ^ 2) := by
    have : (List.ofFn fun i => u (Fin.rev i) ^ 2) = (List.ofFn fun i => u i ^ 2).reverse := by
      apply List.ext_getElem
      · simp
      · intro m h1 h2
        simp only [List.getElem_ofFn, List.getElem_reverse, List.length_ofFn]
        congr 2
        apply Fin.ext
        simp [Fin.rev]
        omega
    rw [this]
    exact List.reverse_perm _
  have h4 : (List.ofFn fun i => u (Fin.rev i) ^ 2) = List.ofFn d := by
    refine (hrev.trans hp).eq_of_pairwise (le := fun a b => a ≤ b) (fun a b _ _ h1 h2 => le_antisymm h1 h2) ?_ ?_
    · rw [List.pairwise_ofFn]
      intro i j hij
      have : u (Fin.rev i) ≤ u (Fin.rev j) := hu (Fin.rev_le_rev.mpr hij.le)
      exact pow_le_pow_left₀ (hu0 _) this 2
    · rw [List.pairwise_ofFn]
      exact fun i j hij => hd hij.le
  exact congrFun (List.ofFn_injective h4) i

/-- `n_small` separates the singular values. -/
theorem nSmall_pos {s : Fin l → ℝ} (ha : Antitone s) (hn : ∀ j, 0 ≤ s j) {i : Fin l}
    (hi : (i : ℕ) < nSmall s) : s i ≠ 0 := by
  intro h0
  have hsub : (Finset.univ.filter fun j : Fin l => i ≤ j) ⊆ Finset.univ.filter fun j : Fin l => s j ^ 2 < 0.5 := by
    intro j hj
    simp only [Finset.mem_filter, Finset.mem_univ, true_and] at hj ⊢
    have h1 := ha hj
    rw [h0] at h1
    have : s j = 0 := le_antisymm h1 (hn j)
    rw [this]
    norm_num
  have h1 := Finset.card_le_card hsub
  have h2 : (Finset.univ.filter fun j : Fin l => i ≤ j).card = l - i := by
    rw [show (Finset.univ.filter fun j : Fin l => i ≤ j) = Finset.Ici i by ext; simp, Fin.card_Ici]
  unfold nSmall at hi
  omega

theorem IsQr.span_eq {ip : E → E → 𝕜} {X V : Fin k → E} {R : Matrix (Fin k) (Fin k) 𝕜} (h : IsQr ip X V R)
    (hd : R.det ≠ 0) : Submodule.span 𝕜 (Set.range V) = Submodule.span 𝕜 (Set.range X) := by
  apply le_antisymm
  · rw [Submodule.span_le]
    rintro _ ⟨j, rfl⟩
    have e : X = fun j => lincomb V fun i => R i j := funext h.fact
    have : V j = lincomb X (R⁻¹ *ᵥ Pi.single j 1) := by
      rw [e, ← lincomb_mulVec, Matrix.mulVec_mulVec, Matrix.mul_nonsing_inv _ (isUnit_iff_ne_zero.mpr hd), Matrix.one_mulVec,
        lincomb_single]
    rw [SetLike.mem_coe, this]
    exact lincomb_mem_span _ _
  · rw [Submodule.span_le]
    rintro _ ⟨j, rfl⟩
    rw [SetLike.mem_coe, h.fact]
    exact lincomb_mem_span _ _

/-- What is known about the result for `l ≤ k`. -/
structure AnglesRes (ip : E → E → 𝕜) (F : Fin k → E) (G : Fin l → E) (out : AnglesOut E k l)
    (QF : Fin k → E) (QG : Fin l → E) (Y : Matrix (Fin k) (Fin k) 𝕜) (s : Fin l → ℝ) (Z : Matrix (Fin l) (Fin l) 𝕜) : Prop where
  gF : gram ip QF QF = 1
  gG : gram ip QG QG = 1
  sF : Submodule.span 𝕜 (Set.range QF) = Submodule.span 𝕜 (Set.range F)
  sG : Submodule.span 𝕜 (Set.range QG) = Submodule.span 𝕜 (Set.range G)
  svd : IsSvd (gram ip QF QG) Y s Z
  theta : out.theta = (List.ofFn fun i => Real.arccos (s i)) ++ List.replicate (k - l) (Real.pi / 2)
  UV : gram ip out.U out.V = rectDiag k s
  VV : gram ip out.V out.V = 1
  U : ∀ j, out.U j ∈ Submodule.span 𝕜 (Set.range F)
  V : ∀ j, out.V j ∈ Submodule.span 𝕜 (Set.range G)

theorem anglesCore_res {ip : E → E → 𝕜} (h : IsInner ip) (hlk : l ≤ k) {rt : AngleRoutines 𝕜 E} {F : Fin k → E} {G : Fin l → E}
    (hok : AngleOk ip rt F G) {out : AnglesOut E k l} (ho : anglesCore ip rt F G = .ok out) :
    ∃ QF QG Y s Z, AnglesRes ip F G out QF QG Y s Z := by
  unfold anglesCore at ho
  split at ho
  · simp at ho
  next QF RF hF =>
  split at ho
  · simp at ho
  next QG RG hG =>
  obtain ⟨hqF, hdF⟩ := hok.qrF _ _ hF
  obtain ⟨hqG, hdG⟩ := hok.qrG _ _ hG
  have hsvd := hok.svd _ _ _ _ hF hG
  have hsF := hqF.span_eq hdF
  have hsG := hqG.span_eq hdG
  split at ho
  · next h0 =>
    subst h0
    obtain rfl := Except.ok.inj ho
    refine ⟨QF, QG, _, _, _, hqF.orth, hqG.orth, hsF, hsG, hsvd, by simp, ?_, hqG.orth, fun j => ?_, fun j => j.elim0⟩
    · ext i j
      exact j.elim0
    · rw [← hsF]
      exact Submodule.subset_span ⟨j, rfl⟩
  next h0 =>
  dsimp only at ho
  set d := rt.svd (gram ip QF QG) with hd
  have hgV : gram ip (vcos QG d) (vcos QG d) = 1 := vcos_gram h hqF.orth hqG.orth hsvd hlk
  have hgUV : gram ip (ucos QF d) (vcos QG d) = rectDiag k d.s := ucos_vcos h hqF.orth hqG.orth hsvd hlk
  have hUm : ∀ j, ucos QF d j ∈ Submodule.span 𝕜 (Set.range F) := fun j => by
    rw [← hsF]; exact lincomb_mem_span _ _
  have hVm : ∀ j, vcos QG d j ∈ Submodule.span 𝕜 (Set.range G) := fun j => by
    rw [← hsG]; exact lincomb_mem_span _ _
  refine ⟨QF, QG, d.Y, d.s, d.Z, ?_⟩
  have hnsl : nSmall d.s ≤ l := nSmall_le d.s
  split at ho
  · next hpos =>
    split at ho
    · simp at ho
    next Q2 R hR =>
    obtain ⟨hRg, hsvd2⟩ := hok.qrS _ _ _ _ _ _ hF hG hR
    generalize rt.svd R = d2 at ho hsvd2
    obtain rfl := Except.ok.inj ho
    -- the Gram matrix of the sine part
    have hSg := s_gram h hqF.orth hqG.orth hsvd hlk (vcos QG d) rfl
    have hRR : Rᴴ * R = Matrix.diagonal fun i : Fin (nSmall d.s) => ((1 - d.s (Fin.castLE hnsl i) ^ 2 : ℝ) : 𝕜) := by
      rw [hRg]
      ext i j
      have := congrFun (congrFun hSg (Fin.castLE hnsl i)) (Fin.castLE hnsl j)
      simp only [Matrix.diagonal_apply, Fin.castLE_inj] at this ⊢
      exact this
    have hu : ∀ i, d2.s (Fin.rev i) ^ 2 = 1 - d.s (Fin.castLE hnsl i) ^ 2 := by
      refine diag_unique hsvd2.anti hsvd2.nonneg ?_ hsvd2.unitaryZ ?_
      · intro i j hij
        have h1 := hsvd.anti (show Fin.castLE hnsl i ≤ Fin.castLE hnsl j from hij)
        have h2 := hsvd.nonneg (Fin.castLE hnsl j)
        dsimp only
        nlinarith
      · rw [← hRR, hsvd2.fact, conjTranspose_mul, conjTranspose_mul, ← rectDiag_gram le_rfl]
        simp only [Matrix.mul_assoc]
        rw [← Matrix.mul_assoc d2.Yᴴ, hsvd2.unitaryY, Matrix.one_mul]
    have hth : ∀ i, Real.arcsin (d2.s (Fin.rev i)) = Real.arccos (d.s (Fin.castLE hnsl i)) := by
      intro i
      rw [Real.arccos_eq_arcsin (hsvd.nonneg _), ← hu i, Real.sqrt_sq (hsvd2.nonneg _)]
    have hlt : ∀ i : Fin (nSmall d.s), (i : ℕ) < k := fun i => by omega
    -- vectors
    have hRF : ∀ i, angRF QF d i = ucos QF d ⟨i, hlt i⟩ := fun i => by rw [angRF, dif_pos (hlt i)]
    have eUV : ∀ (i : Fin k) (j : Fin l), ip (ucos QF d i) (vcos QG d j) = if (i : ℕ) = j then ((d.s j : ℝ) : 𝕜) else 0 :=
      fun i j => congrFun (congrFun hgUV i) j
    have eVV : ∀ i j : Fin l, ip (vcos QG d i) (vcos QG d j) = if i = j then 1 else 0 :=
      fun i j => by
        have := congrFun (congrFun hgV i) j
        rw [Matrix.one_apply] at this
        exact this
    have hZZ : d2.Z * d2.Zᴴ = 1 := mul_eq_one_comm.mp hsvd2.unitaryZ
    have g1 : gram ip (angRG QG d) (angRG QG d) = 1 := by
      ext i j
      rw [Matrix.one_apply]
      have := eVV (Fin.castLE hnsl i) (Fin.castLE hnsl j)
      simp only [Fin.castLE_inj] at this
      exact this
    have g2 : gram ip (vsin QG d d2) (vsin QG d d2) = 1 := by
      unfold vsin
      rw [h.gram_left, h.gram_right, g1, Matrix.one_mul, conjTranspose_conjTranspose, hZZ]
    have g3 : gram ip (angRF QF d) (angRG QG d) = Matrix.diagonal fun i => ((d.s (Fin.castLE hnsl i) : ℝ) : 𝕜) := by
      ext i j
      simp only [gram, Matrix.of_apply, Matrix.diagonal_apply]
      rw [hRF, angRG, eUV]
      simp only [Fin.val_castLE, Fin.ext_iff]
      split
      · next e => rw [show Fin.castLE (nSmall_le d.s) j = Fin.castLE hnsl i from Fin.ext (by simp [e])]
      · rfl
    have g4 : gram ip (usin QF d d2) (vsin QG d d2) = Matrix.diagonal fun i => ((d.s (Fin.castLE hnsl i) : ℝ) : 𝕜) := by
      unfold vsin usin
      rw [h.gram_left, h.gram_right, g3, ← Matrix.mul_assoc]
      have : (usinCoef d d2)ᴴ * (Matrix.diagonal fun i => ((d.s (Fin.castLE hnsl i) : ℝ) : 𝕜)) =
          (Matrix.diagonal fun i => ((d.s (Fin.castLE hnsl i) : ℝ) : 𝕜)) * d2.Z := by
        ext i j
        rw [Matrix.mul_diagonal, Matrix.diagonal_mul]
        simp only [usinCoef, conjTranspose_apply, Matrix.of_apply, star_mul', RCLike.star_def, RCLike.conj_ofReal,
          RCLike.conj_conj]
        have hne : ((d.s (Fin.castLE hnsl j) : ℝ) : 𝕜) ≠ 0 := by
          exact_mod_cast nSmall_pos hsvd.anti hsvd.nonneg (i := Fin.castLE hnsl j) j.2
        rw [RCLike.ofReal_inv]
        field_simp
      rw [this, Matrix.mul_assoc, hZZ, Matrix.mul_one]
    -- mixed products vanish
    have m1 : ∀ (i : Fin (nSmall d.s)) (j : Fin l), nSmall d.s ≤ j → ip (usin QF d d2 i) (vcos QG d j) = 0 := by
      intro i j hj
      unfold usin
      rw [h.ip_lincomb_left]
      have : coefs ip (angRF QF d) (vcos QG d j) = 0 := by
        funext a
        simp only [coefs, Pi.zero_apply]
        rw [hRF, eUV, if_neg (by have := a.2; simp only; omega)]
      rw [this, dotProduct_zero]
    have m2 : ∀ (i : Fin k) (j : Fin (nSmall d.s)), nSmall d.s ≤ i → ip (ucos QF d i) (vsin QG d d2 j) = 0 := by
      intro i j hi
      unfold vsin
      rw [h.ip_lincomb_right]
      have : coefs ip (angRG QG d) (ucos QF d i) = 0 := by
        funext a
        simp only [coefs, Pi.zero_apply]
        rw [← h.conj_symm, angRG, eUV, if_neg (by have := a.2; simp only [Fin.val_castLE]; omega), map_zero]
      rw [this, star_zero, zero_dotProduct]
    have m3 : ∀ (i : Fin l) (j : Fin (nSmall d.s)), nSmall d.s ≤ i → ip (vcos QG d i) (vsin QG d d2 j) = 0 := by
      intro i j hi
      unfold vsin
      rw [h.ip_lincomb_right]
      have : coefs ip (angRG QG d) (vcos QG d i) = 0 := by
        funext a
        simp only [coefs, Pi.zero_apply]
        rw [angRG, eVV, if_neg (by intro e; have := a.2; have := congrArg Fin.val e; simp only [Fin.val_castLE] at this; omega)]
      rw [this, star_zero, zero_dotProduct]
    refine ⟨hqF.orth, hqG.orth, hsF, hsG, hsvd, ?_, ?_, ?_, ?_, ?_⟩
    · dsimp only
      unfold thetaSin thetaCos
      rw [← List.append_assoc]
      congr 1
      rw [show (List.ofFn fun i => Real.arcsin (d2.s (Fin.rev i))) =
        (List.ofFn fun i : Fin l => Real.arccos (d.s i)).take (nSmall d.s) from ?_, List.take_append_drop]
      apply List.ext_getElem
      · simp [hnsl]
      · intro i h1 h2
        simp only [List.getElem_ofFn, List.getElem_take]
        rw [hth]
        rfl
    · ext i j
      simp only [gram, Matrix.of_apply, stackCols, rectDiag]
      by_cases hi : (i : ℕ) < nSmall d.s <;> by_cases hj : (j : ℕ) < nSmall d.s
      · rw [dif_pos hi, dif_pos hj]
        have := congrFun (congrFun g4 ⟨i, hi⟩) ⟨j, hj⟩
        simp only [gram, Matrix.of_apply, Matrix.diagonal_apply, Fin.mk.injEq] at this
        rw [this]
        split
        · next e => rw [show Fin.castLE hnsl ⟨i, hi⟩ = j from Fin.ext e]
        · rfl
      · rw [dif_pos hi, dif_neg hj, m1 _ _ (by omega), if_neg (by omega)]
      · rw [dif_neg hi, dif_pos hj, m2 _ _ (by omega), if_neg (by omega)]
      · rw [dif_neg hi, dif_neg hj, eUV]
    · ext i j
      simp only [gram, Matrix.of_apply, stackCols, Matrix.one_apply]
      by_cases hi : (i : ℕ) < nSmall d.s <;> by_cases hj : (j : ℕ) < nSmall d.s
      · rw [dif_pos hi, dif_pos hj]
        have := congrFun (congrFun g2 ⟨i, hi⟩) ⟨j, hj⟩
        simp only [gram, Matrix.of_apply, Matrix.one_apply, Fin.mk.injEq] at this
        rw [this]
        simp only [Fin.ext_iff]
      · rw [dif_pos hi, dif_neg hj, ← h.conj_symm, m3 _ _ (by omega), if_neg (by rintro rfl; omega), map_zero]
      · rw [dif_neg hi, dif_pos hj, m3 _ _ (by omega), if_neg (by rintro rfl; omega)]
      · rw [dif_neg hi, dif_neg hj, eVV]
    · intro j
      simp only [stackCols]
      split
      · unfold usin
        refine Submodule.sum_mem _ fun i _ => Submodule.smul_mem _ _ ?_
        rw [hRF]
        exact hUm _
      · exact hUm _
    · intro j
      simp only [stackCols]
      split
      · unfold vsin
        exact Submodule.sum_mem _ fun i _ => Submodule.smul_mem _ _ (hVm _)
      · exact hVm _
  · next hpos =>
    obtain rfl := Except.ok.inj ho
    have h00 : nSmall d.s = 0 := by omega
    refine ⟨hqF.orth, hqG.orth, hsF, hsG, hsvd, ?_, hgUV, hgV, hUm, hVm⟩
    dsimp only
    rw [thetaCos, h00, List.drop_zero]

/-! ## Theorems -/

theorem span_lincomb_unit {V : Fin k → E} {R : Matrix (Fin k) (Fin k) 𝕜} (hR : Rᴴ * R = 1) :
    Submodule.span 𝕜 (Set.range fun j => lincomb V fun i => R i j) = Submodule.span 𝕜 (Set.range V) := by
  apply le_antisymm
  · rw [Submodule.span_le]
    rintro _ ⟨j, rfl⟩
    exact lincomb_mem_span _ _
  · rw [Submodule.span_le]
    rintro _ ⟨j, rfl⟩
    have : V j = lincomb (fun j => lincomb V fun i => R i j) (Rᴴ *ᵥ Pi.single j 1) := by
      rw [← lincomb_mulVec, Matrix.mulVec_mulVec, mul_eq_one_comm.mp hR, Matrix.one_mulVec, lincomb_single]
    rw [SetLike.mem_coe, this]
    exact lincomb_mem_span _ _

section
variable {ip : E → E → 𝕜} (h : IsInner ip) {F : Fin k → E} {G : Fin l → E}
include h

theorem AnglesRes.s_le_one (hlk : l ≤ k) {out : AnglesOut E k l} {QF QG Y s Z} (r : AnglesRes ip F G out QF QG Y s Z) (i : Fin l) :
    s i ≤ 1 := by
  have hg := s_gram h r.gF r.gG r.svd hlk _ rfl
  have h1 := congrFun (congrFun hg i) i
  simp only [gram, Matrix.of_apply, Matrix.diagonal_apply_eq] at h1
  set x := (lincomb QG fun i_1 => Zᴴ i_1 i) - lincomb QF (coefs ip QF (lincomb QG fun i_1 => Zᴴ i_1 i)) with hx
  have h2 := h.nsq_nonneg x
  unfold nsq at h2
  rw [h1, RCLike.ofReal_re] at h2
  nlinarith [r.svd.nonneg i]

theorem AnglesRes.isAngles (hlk : l ≤ k) {out : AnglesOut E k l} {QF QG Y s Z} (r : AnglesRes ip F G out QF QG Y s Z) :
    IsAngles ip F G out.theta := by
  have hlen : out.theta.length = k := by rw [r.theta]; simp; omega
  have hrg : ∀ t ∈ out.theta, 0 ≤ t ∧ t ≤ Real.pi / 2 := by
    intro t ht
    rw [r.theta, List.mem_append, List.mem_ofFn, List.mem_replicate] at ht
    rcases ht with ⟨i, rfl⟩ | ⟨-, rfl⟩
    · exact ⟨Real.arccos_nonneg _, Real.arccos_le_pi_div_two.mpr (r.svd.nonneg i)⟩
    · exact ⟨by positivity, le_rfl⟩
  refine ⟨hlen, ?_, hrg, ?_, ?_⟩
  · rw [r.theta, List.pairwise_append]
    refine ⟨?_, List.pairwise_replicate.mpr (Or.inr le_rfl), fun a ha b hb => ?_⟩
    · rw [List.pairwise_ofFn]
      intro i j hij
      exact Real.arccos_le_arccos (r.svd.anti hij.le)
    · obtain ⟨-, rfl⟩ := List.mem_replicate.mp hb
      exact (hrg a (by rw [r.theta]; exact List.mem_append_left _ ha)).2
  · intro i hi hli
    simp only [r.theta]
    rw [List.getElem_append_right (by simpa using hli)]
    simp
  · refine ⟨_, _, ucos_gram h r.gF r.gG r.svd hlk, vcos_gram h r.gF r.gG r.svd hlk, ?_, ?_, fun i j hj => ?_⟩
    · rw [span_lincomb_unit r.svd.unitaryY, r.sF]
    · rw [span_lincomb_unit (by rw [conjTranspose_conjTranspose]; exact mul_eq_one_comm.mp r.svd.unitaryZ), r.sG]
    · have := congrFun (congrFun (ucos_vcos h r.gF r.gG r.svd hlk) i) j
      simp only [gram, Matrix.of_apply, rectDiag] at this
      rw [this]
      have e : out.theta[(j : ℕ)] = Real.arccos (s j) := by
        simp only [r.theta]
        rw [List.getElem_append_left (by simp)]
        simp
      rw [Fin.getElem_fin, e, Real.cos_arccos (by linarith [r.svd.nonneg j]) (r.s_le_one h hlk j)]

/-- C49: `angles(F, G)` returns the principal angles. -/
theorem C49_angles {rt : AngleRoutines 𝕜 E} (hok : l ≤ k → AngleOk ip rt F G) (hok' : k < l → AngleOk ip rt G F)
    {out : AnglesOut E k l} (ho : angles ip rt F G = .ok out) :
    (l ≤ k → IsAngles ip F G out.theta) ∧ (k < l → IsAngles ip G F out.theta) := by
  unfold angles at ho
  split at ho
  · next hkl =>
    refine ⟨fun h' => by omega, fun _ => ?_⟩
    split at ho
    · simp at ho
    next o ho' =>
    obtain rfl := Except.ok.inj ho
    obtain ⟨_, _, _, _, _, r⟩ := anglesCore_res h hkl.le (hok' hkl) ho'
    exact r.isAngles h hkl.le
  · next hkl =>
    refine ⟨fun h' => ?_, fun h' => by omega⟩
    obtain ⟨_, _, _, _, _, r⟩ := anglesCore_res h h' (hok h') ho
    exact r.isAngles h h'

/-- C49: the returned vectors lie in the two spaces and satisfy `⟨U, V⟩ = diag(cos theta)`; the vectors from the space with
fewer columns are orthonormal. -/
theorem C49_vectors {rt : AngleRoutines 𝕜 E} (hok : l ≤ k → AngleOk ip rt F G) (hok' : k < l → AngleOk ip rt G F)
    {out : AnglesOut E k l} (ho : angles ip rt F G = .ok out) :
    (∀ j, out.U j ∈ Submodule.span 𝕜 (Set.range F)) ∧ (∀ j, out.V j ∈ Submodule.span 𝕜 (Set.range G)) ∧
    (∀ (i : Fin k) (j : Fin l) (hj : (j : ℕ) < out.theta.length),
      ip (out.U i) (out.V j) = if (i : ℕ) = j then ((Real.cos out.theta[j] : ℝ) : 𝕜) else 0) ∧
    (l ≤ k → gram ip out.V out.V = 1) ∧ (k < l → gram ip out.U out.U = 1) := by
  have key : ∀ {k l : ℕ} {F : Fin k → E} {G : Fin l → E} {out : AnglesOut E k l} {QF QG Y s Z},
      l ≤ k → AnglesRes ip F G out QF QG Y s Z → ∀ (i : Fin k) (j : Fin l) (hj : (j : ℕ) < out.theta.length),
      ip (out.U i) (out.V j) = if (i : ℕ) = j then ((Real.cos out.theta[j] : ℝ) : 𝕜) else 0 := by
    intro k l F G out QF QG Y s Z hlk r i j hj
    have := congrFun (congrFun r.UV i) j
    simp only [gram, Matrix.of_apply, rectDiag] at this
    rw [this]
    have e : out.theta[(j : ℕ)] = Real.arccos (s j) := by
      simp only [r.theta]
      rw [List.getElem_append_left (by simp)]
      simp
    rw [Fin.getElem_fin, e, Real.cos_arccos (by linarith [r.svd.nonneg j]) (r.s_le_one h hlk j)]
  unfold angles at ho
  split at ho
  · next hkl =>
    split at ho
    · simp at ho
    next o ho' =>
    obtain rfl := Except.ok.inj ho
    obtain ⟨_, _, _, _, _, r⟩ := anglesCore_res h hkl.le (hok' hkl) ho'
    refine ⟨r.V, r.U, fun i j hj => ?_, fun h' => by omega, fun _ => r.VV⟩
    have hlen : o.theta.length = l := (r.isAngles h hkl.le).length
    have := key hkl.le r j i (by rw [hlen]; omega)
    rw [← h.conj_symm, this]
    by_cases hij : (i : ℕ) = j
    · rw [if_pos hij.symm, if_pos hij, RCLike.conj_ofReal]
      simp only [Fin.getElem_fin, hij]
    · rw [if_neg (Ne.symm hij), if_neg hij, map_zero]
  · next hkl =>
    obtain ⟨_, _, _, _, _, r⟩ := anglesCore_res h (by omega) (hok (by omega)) ho
    exact ⟨r.U, r.V, key (by omega) r, fun _ => r.VV, fun h' => by omega⟩

/-- Every failure of `angles` is a failure of `qr`. -/
theorem C49_errors {rt : AngleRoutines 𝕜 E} {e : Err} (ho : angles ip rt F G = .error e) :
    ∃ (n : ℕ) (X : Fin n → E), rt.qr X = .error e := by
  have key : ∀ {k l : ℕ} {F : Fin k → E} {G : Fin l → E}, anglesCore ip rt F G = .error e →
      ∃ (n : ℕ) (X : Fin n → E), rt.qr X = .error e := by
    intro k l F G ho
    unfold anglesCore at ho
    split at ho
    · next e' he => exact ⟨_, _, by rw [he, Except.error.inj ho]⟩
    split at ho
    · next e' he => exact ⟨_, _, by rw [he, Except.error.inj ho]⟩
    split at ho
    · simp at ho
    dsimp only at ho
    split at ho
    · split at ho
      · next e' he => exact ⟨_, _, by rw [he, Except.error.inj ho]⟩
      · simp at ho
    · simp at ho
  unfold angles at ho
  split at ho
  · split at ho
    · next e' he => exact key (by rw [he, Except.error.inj ho])
    · simp at ho
  · exact key ho

/-! ### Consequences of the specification -/

theorem IsInner.nsq_lincomb {n : ℕ} {V : Fin n → E} (hV : gram ip V V = 1) (c : Fin n → 𝕜) :
    nsq ip (lincomb V c) = ∑ j, ‖c j‖ ^ 2 := by
  rw [nsq, h.ip_lincomb_left, h.coefs_lincomb, hV, Matrix.one_mulVec, dotProduct]
  have : ∀ j, star c j * c j = ((‖c j‖ ^ 2 : ℝ) : 𝕜) := fun j => by
    rw [Pi.star_apply, RCLike.star_def, RCLike.conj_mul]; push_cast; rfl
  rw [Finset.sum_congr rfl fun j _ => this j, ← RCLike.ofReal_sum, RCLike.ofReal_re]

/-- The orthogonal projection of an element of the second space to the first space. -/
theorem IsAngles.proj (hlk : l ≤ k) {theta : List ℝ} (a : IsAngles ip F G theta) {y : E}
    (hy : y ∈ Submodule.span 𝕜 (Set.range G)) :
    ∃ (p : E) (b : Fin l → 𝕜), p ∈ Submodule.span 𝕜 (Set.range F) ∧
      (∀ x ∈ Submodule.span 𝕜 (Set.range F), ip x (y - p) = 0) ∧
      nsq ip y = ∑ j, ‖b j‖ ^ 2 ∧
      nsq ip p = ∑ j : Fin l, Real.cos (theta[(j : ℕ)]'(by rw [a.length]; omega)) ^ 2 * ‖b j‖ ^ 2 := by
  obtain ⟨U, V, hU, hV, sU, sV, hUV⟩ := a.vectors
  rw [← sV] at hy
  obtain ⟨b, hb⟩ := (mem_span_iff_lincomb V y).mp hy
  have hl : ∀ j : Fin l, (j : ℕ) < theta.length := fun j => by rw [a.length]; omega
  have hco : ∀ i : Fin k, ip (U i) y =
      if hi : (i : ℕ) < l then ((Real.cos (theta[(i : ℕ)]'(hl ⟨i, hi⟩)) : ℝ) : 𝕜) * b ⟨i, hi⟩ else 0 := by
    intro i
    rw [hb]
    simp only [lincomb, h.sum_right, h.smul_right]
    split
    · next hi =>
      rw [Finset.sum_eq_single ⟨i, hi⟩]
      · rw [hUV _ _ (hl _), if_pos rfl, mul_comm]
        rfl
      · intro j _ hj
        rw [hUV _ _ (hl _), if_neg (fun e => hj (Fin.ext e.symm)), mul_zero]
      · simp
    · next hi =>
      refine Finset.sum_eq_zero fun j _ => ?_
      rw [hUV _ _ (hl _), if_neg (by omega), mul_zero]
  refine ⟨lincomb U (coefs ip U y), b, ?_, ?_, ?_, ?_⟩
  · rw [← sU]; exact lincomb_mem_span _ _
  · intro x hx
    rw [← sU] at hx
    obtain ⟨c, rfl⟩ := (mem_span_iff_lincomb U x).mp hx
    rw [h.ip_lincomb_left, h.coefs_sub, h.coefs_lincomb, hU, Matrix.one_mulVec, sub_self, dotProduct_zero]
  · rw [hb, h.nsq_lincomb hV]
  · rw [h.nsq_lincomb hU]
    obtain ⟨m, rfl⟩ := Nat.exists_eq_add_of_le hlk
    rw [Fin.sum_univ_add]
    have z : ∀ i : Fin m, ‖coefs ip U y (Fin.natAdd l i)‖ ^ 2 = 0 := fun i => by
      rw [coefs, hco, dif_neg (by simp), norm_zero]; simp
    rw [Finset.sum_congr rfl fun i _ => z i, Finset.sum_const_zero, add_zero]
    refine Finset.sum_congr rfl fun i _ => ?_
    rw [coefs, hco, dif_pos (by simp), norm_mul, RCLike.norm_ofReal, mul_pow, sq_abs]
    rfl

/-- C49: the cosine of the first angle is the greatest inner product of unit vectors from the two spaces. -/
theorem C49_first (hl0 : 0 < l) (hlk : l ≤ k) {theta : List ℝ} (a : IsAngles ip F G theta) :
    IsGreatest {r : ℝ | ∃ x ∈ Submodule.span 𝕜 (Set.range F), ∃ y ∈ Submodule.span 𝕜 (Set.range G),
      nrm ip x = 1 ∧ nrm ip y = 1 ∧ r = ‖ip x y‖} (Real.cos (theta[0]'(by rw [a.length]; omega))) := by
  have hl : ∀ j : Fin l, (j : ℕ) < theta.length := fun j => by rw [a.length]; omega
  have hc0 : ∀ j : Fin l, 0 ≤ Real.cos (theta[(j : ℕ)]'(hl j)) := fun j => by
    obtain ⟨h1, h2⟩ := a.range _ (List.getElem_mem (hl j))
    exact Real.cos_nonneg_of_neg_pi_div_two_le_of_le (by linarith [Real.pi_pos]) h2
  constructor
  · obtain ⟨U, V, hU, hV, sU, sV, hUV⟩ := a.vectors
    refine ⟨U ⟨0, by omega⟩, ?_, V ⟨0, hl0⟩, ?_, ?_, ?_, ?_⟩
    · rw [← sU]; exact Submodule.subset_span ⟨_, rfl⟩
    · rw [← sV]; exact Submodule.subset_span ⟨_, rfl⟩
    · have := congrFun (congrFun hU ⟨0, by omega⟩) ⟨0, by omega⟩
      simp only [gram, Matrix.of_apply, Matrix.one_apply_eq] at this
      simp [nrm, nsq, this]
    · have := congrFun (congrFun hV ⟨0, hl0⟩) ⟨0, hl0⟩
      simp only [gram, Matrix.of_apply, Matrix.one_apply_eq] at this
      simp [nrm, nsq, this]
    · rw [hUV _ _ (hl ⟨0, hl0⟩), if_pos rfl, RCLike.norm_ofReal]
      exact (abs_of_nonneg (hc0 ⟨0, hl0⟩)).symm
  · rintro r ⟨x, hx, y, hy, hxn, hyn, rfl⟩
    obtain ⟨p, b, hp, hxp, hby, hbp⟩ := a.proj h hlk hy
    have e : ip x y = ip x p := by
      have := hxp x hx
      rw [h.sub_right] at this
      exact sub_eq_zero.mp this
    have hcs := h.cauchy_schwarz x p
    rw [← h.nrm_sq x, hxn, one_pow, one_mul, hbp] at hcs
    have hle : ∑ j : Fin l, Real.cos (theta[(j : ℕ)]'(hl j)) ^ 2 * ‖b j‖ ^ 2 ≤
        ∑ j : Fin l, Real.cos (theta[0]'(hl ⟨0, hl0⟩)) ^ 2 * ‖b j‖ ^ 2 := by
      refine Finset.sum_le_sum fun j _ => mul_le_mul_of_nonneg_right (pow_le_pow_left₀ (hc0 j) ?_ 2) (by positivity)
      obtain ⟨h1, h2⟩ := a.range _ (List.getElem_mem (hl ⟨0, hl0⟩))
      obtain ⟨h3, h4⟩ := a.range _ (List.getElem_mem (hl j))
      refine Real.cos_le_cos_of_nonneg_of_le_pi h1 (by linarith [Real.pi_pos]) ?_
      exact a.sorted.rel_get_of_le (a := ⟨0, hl ⟨0, hl0⟩⟩) (b := ⟨j, hl j⟩) (by simp [Fin.le_def])
    rw [← Finset.mul_sum, ← hby, ← h.nrm_sq y, hyn, one_pow, mul_one] at hle
    rw [e]
    exact (sq_le_sq₀ (norm_nonneg _) (hc0 ⟨0, hl0⟩)).mp (hcs.trans hle)

/-- C49: the sine of the last angle is the greatest distance of a unit vector of the second space from the first space. -/
theorem C49_last (hl0 : 0 < l) (hlk : l ≤ k) {theta : List ℝ} (a : IsAngles ip F G theta) :
    IsGreatest {r : ℝ | ∃ y ∈ Submodule.span 𝕜 (Set.range G), nrm ip y = 1 ∧
      IsLeast {d : ℝ | ∃ x ∈ Submodule.span 𝕜 (Set.range F), d = nrm ip (y - x)} r}
      (Real.sin (theta[l - 1]'(by rw [a.length]; omega))) := by
  have hl : ∀ j : Fin l, (j : ℕ) < theta.length := fun j => by rw [a.length]; omega
  have hs0 : ∀ j : Fin l, 0 ≤ Real.sin (theta[(j : ℕ)]'(hl j)) := fun j => by
    obtain ⟨h1, h2⟩ := a.range _ (List.getElem_mem (hl j))
    exact Real.sin_nonneg_of_nonneg_of_le_pi h1 (by linarith [Real.pi_pos])
  have dist : ∀ {y p : E}, p ∈ Submodule.span 𝕜 (Set.range F) →
      (∀ x ∈ Submodule.span 𝕜 (Set.range F), ip x (y - p) = 0) →
      IsLeast {d : ℝ | ∃ x ∈ Submodule.span 𝕜 (Set.range F), d = nrm ip (y - x)} (nrm ip (y - p)) := by
    intro y p hp ho
    refine ⟨⟨p, hp, rfl⟩, ?_⟩
    rintro d ⟨x, hx, rfl⟩
    apply Real.sqrt_le_sqrt
    have e : y - x = (p - x) + (y - p) := by abel
    rw [e, h.nsq_add_of_orth (ho _ (Submodule.sub_mem _ hp hx))]
    linarith [h.nsq_nonneg (p - x)]
  have pyth : ∀ {y p : E}, p ∈ Submodule.span 𝕜 (Set.range F) →
      (∀ x ∈ Submodule.span 𝕜 (Set.range F), ip x (y - p) = 0) → nsq ip (y - p) = nsq ip y - nsq ip p := by
    intro y p hp ho
    have : nsq ip y = nsq ip (p + (y - p)) := by congr 1; abel
    rw [this, h.nsq_add_of_orth (ho _ hp)]; ring
  constructor
  · obtain ⟨U, V, hU, hV, sU, sV, hUV⟩ := a.vectors
    set j0 : Fin l := ⟨l - 1, by omega⟩
    have hVj : V j0 ∈ Submodule.span 𝕜 (Set.range G) := by rw [← sV]; exact Submodule.subset_span ⟨_, rfl⟩
    have hVV := congrFun (congrFun hV j0) j0
    simp only [gram, Matrix.of_apply, Matrix.one_apply_eq] at hVV
    have hnV : nsq ip (V j0) = 1 := by simp [nsq, hVV]
    have hUU := congrFun (congrFun hU (Fin.castLE hlk j0)) (Fin.castLE hlk j0)
    simp only [gram, Matrix.of_apply, Matrix.one_apply_eq] at hUU
    set c : ℝ := Real.cos (theta[l - 1]'(hl j0)) with hc
    have hpm : (c : 𝕜) • U (Fin.castLE hlk j0) ∈ Submodule.span 𝕜 (Set.range F) := by
      rw [← sU]; exact Submodule.smul_mem _ _ (Submodule.subset_span ⟨_, rfl⟩)
    have hpo : ∀ x ∈ Submodule.span 𝕜 (Set.range F), ip x (V j0 - (c : 𝕜) • U (Fin.castLE hlk j0)) = 0 := by
      intro x hx
      rw [← sU] at hx
      obtain ⟨d, rfl⟩ := (mem_span_iff_lincomb U x).mp hx
      rw [h.ip_lincomb_left]
      have : coefs ip U (V j0 - (c : 𝕜) • U (Fin.castLE hlk j0)) = 0 := by
        funext i
        have hUi := congrFun (congrFun hU i) (Fin.castLE hlk j0)
        simp only [gram, Matrix.of_apply, Matrix.one_apply] at hUi
        simp only [coefs, Pi.zero_apply, h.sub_right, h.smul_right, hUi, hUV i j0 (hl j0), Fin.ext_iff, Fin.val_castLE]
        split
        · rw [mul_one]; exact sub_self _
        · simp
      rw [this, dotProduct_zero]
    refine ⟨V j0, hVj, by rw [nrm, hnV, Real.sqrt_one], ?_⟩
    have e : Real.sin (theta[l - 1]'(hl j0)) = nrm ip (V j0 - (c : 𝕜) • U (Fin.castLE hlk j0)) := by
      have hUn : nsq ip (U (Fin.castLE hlk j0)) = 1 := by simp [nsq, hUU]
      rw [nrm, pyth hpm hpo, hnV, h.nsq_smul, hUn, mul_one, RCLike.norm_ofReal, sq_abs,
        hc, ← Real.sin_sq, Real.sqrt_sq (hs0 j0)]
    rw [e]
    exact dist hpm hpo
  · rintro r ⟨y, hy, hyn, hr⟩
    obtain ⟨p, b, hp, hxp, hby, hbp⟩ := a.proj h hlk hy
    rw [hr.unique (dist hp hxp), nrm, pyth hp hxp, hbp, hby]
    apply Real.sqrt_le_iff.mpr
    refine ⟨hs0 ⟨l - 1, by omega⟩, ?_⟩
    have hle : ∑ j : Fin l, Real.sin (theta[(j : ℕ)]'(hl j)) ^ 2 * ‖b j‖ ^ 2 ≤
        ∑ j : Fin l, Real.sin (theta[l - 1]'(hl ⟨l - 1, by omega⟩)) ^ 2 * ‖b j‖ ^ 2 := by
      refine Finset.sum_le_sum fun j _ => mul_le_mul_of_nonneg_right (pow_le_pow_left₀ (hs0 j) ?_ 2) (by positivity)
      obtain ⟨h1, h2⟩ := a.range _ (List.getElem_mem (hl ⟨l - 1, by omega⟩))
      obtain ⟨h3, h4⟩ := a.range _ (List.getElem_mem (hl j))
      refine Real.sin_le_sin_of_le_of_le_pi_div_two (by linarith [Real.pi_pos]) h2 ?_
      exact a.sorted.rel_get_of_le (a := ⟨j, hl j⟩) (b := ⟨l - 1, hl ⟨l - 1, by omega⟩⟩) (by simp [Fin.le_def]; omega)
    rw [← Finset.mul_sum, ← hby, ← h.nrm_sq y, hyn, one_pow, mul_one] at hle
    refine le_trans (le_of_eq ?_) hle
    rw [← Finset.sum_sub_distrib]
    refine Finset.sum_congr rfl fun j _ => ?_
    rw [Real.sin_sq]; ring

/-- C49: the angles are determined by the two spaces. -/
theorem C49_unique (hlk : l ≤ k) {theta theta' : List ℝ} {F' : Fin k → E} {G' : Fin l → E}
    (a : IsAngles ip F G theta) (a' : IsAngles ip F' G' theta')
    (hF : Submodule.span 𝕜 (Set.range F') = Submodule.span 𝕜 (Set.range F))
    (hG : Submodule.span 𝕜 (Set.range G') = Submodule.span 𝕜 (Set.range G)) : theta = theta' := by
  obtain ⟨U, V, hU, hV, sU, sV, hUV⟩ := a.vectors
  obtain ⟨U', V', hU', hV', sU', sV', hUV'⟩ := a'.vectors
  have change : ∀ {n : ℕ} {W W' : Fin n → E}, gram ip W W = 1 → gram ip W' W' = 1 →
      Submodule.span 𝕜 (Set.range W') = Submodule.span 𝕜 (Set.range W) →
      ∃ A : Matrix (Fin n) (Fin n) 𝕜, Aᴴ * A = 1 ∧ W' = fun j => lincomb W fun i => A i j := by
    intro n W W' hW hW' hs
    have : ∀ j, ∃ c : Fin n → 𝕜, W' j = lincomb W c := fun j => by
      apply (mem_span_iff_lincomb W _).mp
      rw [← hs]
      exact Submodule.subset_span ⟨j, rfl⟩
    choose c hc using this
    have e : W' = fun j => lincomb W fun i => (Matrix.of fun i j => c j i) i j := by
      funext j; rw [hc j]; rfl
    refine ⟨Matrix.of fun i j => c j i, ?_, e⟩
    rw [e, h.gram_left, h.gram_right, hW, Matrix.one_mul] at hW'
    exact hW'
  obtain ⟨A, hA, eA⟩ := change hU hU' (by rw [sU', sU, hF])
  obtain ⟨B, hB, eB⟩ := change hV hV' (by rw [sV', sV, hG])
  have hl : ∀ j : Fin l, (j : ℕ) < theta.length := fun j => by rw [a.length]; omega
  have hl' : ∀ j : Fin l, (j : ℕ) < theta'.length := fun j => by rw [a'.length]; omega
  set c : Fin l → ℝ := fun j => Real.cos (theta[(j : ℕ)]'(hl j)) with hc
  set c' : Fin l → ℝ := fun j => Real.cos (theta'[(j : ℕ)]'(hl' j)) with hc'
  have g : gram ip U V = rectDiag k c := by
    ext i j; simp only [gram, Matrix.of_apply, rectDiag, hc]; exact hUV i j (hl j)
  have g' : gram ip U' V' = rectDiag k c' := by
    ext i j; simp only [gram, Matrix.of_apply, rectDiag, hc']; exact hUV' i j (hl' j)
  have hsim : Bᴴ * (Matrix.diagonal fun i => ((c i ^ 2 : ℝ) : 𝕜)) * B = Matrix.diagonal fun i => ((c' i ^ 2 : ℝ) : 𝕜) := by
    rw [← rectDiag_gram hlk, ← rectDiag_gram hlk, ← g', eA, eB, h.gram_left, h.gram_right, g]
    simp only [conjTranspose_mul, conjTranspose_conjTranspose, Matrix.mul_assoc]
    rw [← Matrix.mul_assoc A, mul_eq_one_comm.mp hA, Matrix.one_mul]
  have mono : ∀ {th : List ℝ} {F : Fin k → E} {G : Fin l → E} (a : IsAngles ip F G th) (hl : ∀ j : Fin l, (j : ℕ) < th.length),
      (∀ j : Fin l, 0 ≤ Real.cos (th[(j : ℕ)]'(hl j))) ∧ Antitone fun j : Fin l => Real.cos (th[(j : ℕ)]'(hl j)) ^ 2 := by
    intro th F G a hl
    have hc0 : ∀ j : Fin l, 0 ≤ Real.cos (th[(j : ℕ)]'(hl j)) := fun j => by
      obtain ⟨h1, h2⟩ := a.range _ (List.getElem_mem (hl j))
      exact Real.cos_nonneg_of_neg_pi_div_two_le_of_le (by linarith [Real.pi_pos]) h2
    refine ⟨hc0, fun i j hij => pow_le_pow_left₀ (hc0 j) ?_ 2⟩
    obtain ⟨h1, h2⟩ := a.range _ (List.getElem_mem (hl i))
    obtain ⟨h3, h4⟩ := a.range _ (List.getElem_mem (hl j))
    refine Real.cos_le_cos_of_nonneg_of_le_pi h1 (by linarith [Real.pi_pos]) ?_
    exact a.sorted.rel_get_of_le (a := ⟨i, hl i⟩) (b := ⟨j, hl j⟩) hij
  have hsq := diag_unique_anti (mono a hl).2 (mono a' hl').2 hB hsim
  apply List.ext_getElem (by rw [a.length, a'.length])
  intro i h1 h2
  by_cases hi : i < l
  · have := congrFun hsq ⟨i, hi⟩
    have e : Real.cos theta[i] = Real.cos theta'[i] :=
      (pow_left_inj₀ ((mono a hl).1 ⟨i, hi⟩) ((mono a' hl').1 ⟨i, hi⟩) two_ne_zero).mp this
    obtain ⟨h1, h2⟩ := a.range _ (List.getElem_mem (hl ⟨i, hi⟩))
    obtain ⟨h3, h4⟩ := a'.range _ (List.getElem_mem (hl' ⟨i, hi⟩))
    exact Real.injOn_cos ⟨h1, by linarith [Real.pi_pos]⟩ ⟨h3, by linarith [Real.pi_pos]⟩ e
  · rw [a.rest i h1 (by omega), a'.rest i h2 (by omega)]

end

/-- C49: the contract of the `R` factor holds for the code's own `qr`. -/
theorem qrLoop_gram {ip : E → E → 𝕜} (h : IsInner ip) (reorthos : ℕ) (X : ℕ → E) (k : ℕ)
    {Q : ℕ → E} {R : ℕ → ℕ → 𝕜} (hq : qrLoop ip reorthos X k = .ok (Q, R)) (hd : DiagOK k R) (b c : ℕ) (hb : b < k) (hc : c < k) :
    ∑ a ∈ Finset.range k, conj (R a b) * R a c = ip (X b) (X c) := by
  have hI := qrLoop_inv h hq hd
  have key : ∀ a < k, ip (Q a) (X c) = R a c := by
    intro a ha
    rcases lt_trichotomy a c with hac | rfl | hac
    · exact (hI.coef a c hac hc).symm
    · rw [hI.fact a ha, h.sum_right, Finset.sum_eq_single a]
      · rw [h.smul_right]
        rcases hI.orth.2 a ha with h0 | h1
        · rw [h0, h.zero_left, (hI.zero a ha).mpr h0, mul_zero]
        · rw [h1, mul_one]
      · intro j hj hne
        have := Finset.mem_range.mp hj
        rw [h.smul_right, hI.orth.1 a ha j (by omega) (Ne.symm hne), mul_zero]
      · simp
    · rw [hI.fact c hc, h.sum_right, hI.upper a c hac]
      refine Finset.sum_eq_zero fun j hj => ?_
      have := Finset.mem_range.mp hj
      rw [h.smul_right, hI.orth.1 a ha j (by omega) (by omega), mul_zero]
  rw [hI.fact b hb, h.sum_left]
  rw [← Finset.sum_subset_zero_on_sdiff (s₁ := Finset.range (b + 1)) (s₂ := Finset.range k)
    (f := fun a => conj (R a b) * R a c) (g := fun a => conj (R a b) * R a c)
    (Finset.range_subset_range.mpr (by omega)) (fun a ha => ?_) fun _ _ => rfl]
  · refine Finset.sum_congr rfl fun a ha => ?_
    have := Finset.mem_range.mp ha
    rw [h.smul_left, key a (by omega)]
  · obtain ⟨h1, h2⟩ := Finset.mem_sdiff.mp ha
    simp only [Finset.mem_range] at h1 h2
    rw [hI.upper a b (by omega), map_zero, zero_mul]

theorem anglesCore_small {ip : E → E → 𝕜} {rt : AngleRoutines 𝕜 E} {F QF : Fin k → E} {G QG : Fin l → E} {RF RG} {d : Svd 𝕜 k l}
    (hF : rt.qr F = .ok (QF, RF)) (hG : rt.qr G = .ok (QG, RG)) (hl : l ≠ 0) (hd : rt.svd (gram ip QF QG) = d) (hp : 0 < nSmall d.s)
    {Q R} (hS : rt.qr (angS ip QF QG d) = .ok (Q, R)) :
    anglesCore ip rt F G = .ok ⟨thetaSin d (rt.svd R) ++ thetaCos d, stackCols (usin QF d (rt.svd R)) (ucos QF d),
      stackCols (vsin QG d (rt.svd R)) (vcos QG d)⟩ := by
  subst hd
  unfold anglesCore
  simp only [hF, hG]
  rw [if_neg hl]
  simp only [hS]
  rw [if_pos hp]

/-! ## Example: two planes in `R^4` -/

def exAngF : Fin 2 → Fin 4 → ℝ := ![![1, 0, 0, 0], ![0, 1, 0, 0]]
noncomputable def exAngG : Fin 2 → Fin 4 → ℝ := ![![24 / 25, 0, 7 / 25, 0], ![0, 4 / 5, 0, 3 / 5]]

/-- A `qr` for families of orthogonal vectors (its `Q` is correct for unit vectors) and an `svd` for diagonal matrices with
non-negative entries that are sorted in either direction. -/
noncomputable def exAngRt : AngleRoutines ℝ (Fin 4 → ℝ) where
  qr := fun X => .ok (X, Matrix.diagonal fun i => Real.sqrt (X i ⬝ᵥ X i))
  svd := fun {k l} A =>
    let dg : Fin l → ℝ := fun i => if h : (i : ℕ) < k then A ⟨i, h⟩ i else 0
    open Classical in
    if Antitone dg then ⟨1, dg, 1⟩
    else ⟨Matrix.of fun i j => if i = Fin.rev j then 1 else 0, fun i => dg (Fin.rev i),
      Matrix.of fun i j => if i = Fin.rev j then 1 else 0⟩

theorem isInner_dot4 : IsInner (fun x y : Fin 4 → ℝ => x ⬝ᵥ y) where
  add_right := fun x y z => dotProduct_add x y z
  smul_right := fun c x y => by simp
  conj_symm := fun x y => by simp [dotProduct_comm]
  pos := fun x hx => by
    simp only [RCLike.re_to_real, dotProduct, Fin.sum_univ_four]
    obtain ⟨i, hi⟩ := Function.ne_iff.mp hx
    have : ∀ i, 0 ≤ x i * x i := fun i => mul_self_nonneg _
    have h0 : 0 < x i * x i := lt_of_le_of_ne (this i) (Ne.symm (mul_self_ne_zero.mpr hi))
    have h1 : x i * x i ≤ x 0 * x 0 + x 1 * x 1 + x 2 * x 2 + x 3 * x 3 := by
      rw [← Fin.sum_univ_four (f := fun i => x i * x i)]
      exact Finset.single_le_sum (f := fun i => x i * x i) (fun i _ => this i) (Finset.mem_univ i)
    linarith

theorem exAng_s1 : Real.sqrt (49 / 625) = 7 / 25 := by
  rw [show (49 / 625 : ℝ) = (7 / 25) ^ 2 by norm_num, Real.sqrt_sq (by norm_num)]

theorem exAng_s2 : Real.sqrt (9 / 25) = 3 / 5 := by
  rw [show (9 / 25 : ℝ) = (3 / 5) ^ 2 by norm_num, Real.sqrt_sq (by norm_num)]

theorem exAng_qrF : exAngRt.qr exAngF = .ok (exAngF, 1) := by
  simp only [exAngRt]
  congr 2
  ext i j
  fin_cases i <;> fin_cases j <;> simp [exAngF, dotProduct, Fin.sum_univ_four]

theorem exAng_qrG : exAngRt.qr exAngG = .ok (exAngG, 1) := by
  simp only [exAngRt]
  congr 2
  ext i j
  fin_cases i <;> fin_cases j <;> simp [exAngG, dotProduct, Fin.sum_univ_four] <;> norm_num

theorem exAng_gram : gram (fun x y : Fin 4 → ℝ => x ⬝ᵥ y) exAngF exAngG = !![24 / 25, 0; 0, 4 / 5] := by
  ext i j
  fin_cases i <;> fin_cases j <;> simp [gram, exAngF, exAngG, dotProduct, Fin.sum_univ_four]

theorem exAng_svd : exAngRt.svd !![24 / 25, 0; 0, (4 / 5 : ℝ)] = ⟨1, ![24 / 25, 4 / 5], 1⟩ := by
  have e : (fun i : Fin 2 => if h : (i : ℕ) < 2 then (!![24 / 25, 0; 0, (4 / 5 : ℝ)] : Matrix (Fin 2) (Fin 2) ℝ) ⟨i, h⟩ i else 0) =
      ![24 / 25, 4 / 5] := by
    funext i; fin_cases i <;> simp
  simp only [exAngRt, e]
  rw [if_pos]
  intro i j hij
  fin_cases i <;> fin_cases j <;> simp at hij ⊢
  norm_num

theorem exAng_svd2 {n : ℕ} (u : Fin n → ℝ) (hu : ¬ Antitone u) :
    exAngRt.svd (Matrix.diagonal u) = ⟨Matrix.of fun i j => if i = Fin.rev j then 1 else 0, fun i => u (Fin.rev i),
      Matrix.of fun i j => if i = Fin.rev j then 1 else 0⟩ := by
  have e : (fun i : Fin n => if h : (i : ℕ) < n then Matrix.diagonal u ⟨i, h⟩ i else 0) = u := by
    funext i; simp
  have e' : ∀ i : Fin n, (if h : (i : ℕ) < n then Matrix.diagonal u ⟨i, h⟩ i else 0) = u i := fun i => congrFun e i
  unfold exAngRt
  dsimp only
  rw [e, if_neg hu]
  simp only [e']

theorem isSvd_rev {n : ℕ} {u : Fin n → ℝ} (hu : Monotone u) (h0 : ∀ i, 0 ≤ u i) :
    IsSvd (Matrix.diagonal u) (Matrix.of fun i j => if i = Fin.rev j then (1 : ℝ) else 0) (fun i => u (Fin.rev i))
      (Matrix.of fun i j => if i = Fin.rev j then (1 : ℝ) else 0) := by
  have hJ : (Matrix.of fun i j : Fin n => if i = Fin.rev j then (1 : ℝ) else 0)ᴴ *
      (Matrix.of fun i j => if i = Fin.rev j then (1 : ℝ) else 0) = 1 := by
    ext i j
    simp [Matrix.mul_apply, Matrix.one_apply, eq_comm]
  refine ⟨?_, hJ, hJ, fun i => h0 _, fun i j hij => hu (Fin.rev_le_rev.mpr hij)⟩
  ext i j
  have e : (rectDiag n (fun i => u (Fin.rev i)) : Matrix (Fin n) (Fin n) ℝ) = Matrix.diagonal fun i => u (Fin.rev i) := by
    ext i j
    simp only [rectDiag, Matrix.of_apply, Matrix.diagonal_apply, Fin.ext_iff]
    split
    · next h => rw [Fin.ext h]; rfl
    · rfl
  rw [e, Matrix.mul_apply, Finset.sum_eq_single (Fin.rev j)]
  · rw [Matrix.mul_diagonal]
    simp only [Matrix.of_apply, Matrix.diagonal_apply, Fin.rev_rev, if_true, mul_one]
    by_cases hij : i = j
    · simp [hij]
    · simp [hij]
  · intro b _ hb
    simp [hb]
  · simp

theorem exAng_nSmall : nSmall ![24 / 25, (4 / 5 : ℝ)] = 2 := by
  have : (Finset.univ.filter fun i : Fin 2 => (![24 / 25, (4 / 5 : ℝ)] i) ^ 2 < 0.5) = ∅ := by
    ext i
    fin_cases i <;> norm_num
  rw [nSmall, this]
  simp

noncomputable def exAngD : Svd ℝ 2 2 := ⟨1, ![24 / 25, 4 / 5], 1⟩

theorem exAng_isSvd : IsSvd (!![24 / 25, 0; 0, (4 / 5 : ℝ)]) exAngD.Y exAngD.s exAngD.Z := by
  refine ⟨?_, by simp [exAngD], by simp [exAngD], fun i => ?_, fun i j hij => ?_⟩
  · ext i j
    fin_cases i <;> fin_cases j <;> simp [exAngD, rectDiag]
  · fin_cases i <;> norm_num [exAngD]
  · fin_cases i <;> fin_cases j <;> simp at hij <;> norm_num [exAngD]

theorem exAng_ucos : ucos exAngF exAngD = exAngF := by
  funext j
  simp only [ucos, exAngD]
  have : (fun i => (1 : Matrix (Fin 2) (Fin 2) ℝ) i j) = Pi.single j 1 := by
    funext i; simp [Matrix.one_apply, Pi.single_apply]
  rw [this, lincomb_single]

theorem exAng_vcos : vcos exAngG exAngD = exAngG := by
  funext j
  simp only [vcos, exAngD, conjTranspose_one]
  have : (fun i => (1 : Matrix (Fin 2) (Fin 2) ℝ) i j) = Pi.single j 1 := by
    funext i; simp [Matrix.one_apply, Pi.single_apply]
  rw [this, lincomb_single]

/-- The norms of the columns of `S`. -/
noncomputable def exAngU : Fin (nSmall exAngD.s) → ℝ := fun i => if (i : ℕ) = 0 then 7 / 25 else 3 / 5

theorem exAng_lt (i : Fin (nSmall exAngD.s)) : (i : ℕ) < 2 := by
  have := i.2
  have h : nSmall exAngD.s = 2 := exAng_nSmall
  omega

theorem exAng_orth : gram (fun x y : Fin 4 → ℝ => x ⬝ᵥ y) exAngF exAngF = 1 ∧ gram (fun x y : Fin 4 → ℝ => x ⬝ᵥ y) exAngG exAngG = 1 := by
  constructor
  · ext i j
    fin_cases i <;> fin_cases j <;> simp [gram, exAngF, dotProduct, Fin.sum_univ_four]
  · ext i j
    fin_cases i <;> fin_cases j <;> simp [gram, exAngG, dotProduct, Fin.sum_univ_four] <;> norm_num

theorem exAng_S : gram (fun x y : Fin 4 → ℝ => x ⬝ᵥ y) (angS (fun x y : Fin 4 → ℝ => x ⬝ᵥ y) exAngF exAngG exAngD)
    (angS (fun x y : Fin 4 → ℝ => x ⬝ᵥ y) exAngF exAngG exAngD) = Matrix.diagonal fun i => exAngU i ^ 2 := by
  have hs := s_gram isInner_dot4 exAng_orth.1 exAng_orth.2 (by rw [exAng_gram]; exact exAng_isSvd) le_rfl (vcos exAngG exAngD) rfl
  ext i j
  have := congrFun (congrFun hs (Fin.castLE (nSmall_le exAngD.s) i)) (Fin.castLE (nSmall_le exAngD.s) j)
  simp only [gram, Matrix.of_apply] at this ⊢
  refine Eq.trans this ?_
  simp only [Matrix.diagonal_apply, Fin.castLE_inj]
  split
  · have h2 := exAng_lt i
    have hc : (i : ℕ) = 0 ∨ (i : ℕ) = 1 := by omega
    rcases hc with hc | hc
    · rw [show Fin.castLE (nSmall_le exAngD.s) i = 0 from Fin.ext hc]
      simp [exAngD, exAngU, hc]; norm_num
    · rw [show Fin.castLE (nSmall_le exAngD.s) i = 1 from Fin.ext hc]
      simp [exAngD, exAngU, hc]; norm_num
  · rfl

theorem exAng_U_mono : Monotone exAngU ∧ (∀ i, 0 ≤ exAngU i) ∧ ¬ Antitone exAngU := by
  refine ⟨fun i j hij => ?_, fun i => ?_, fun ha => ?_⟩
  · unfold exAngU
    have : (i : ℕ) ≤ j := hij
    split <;> split <;> first | omega | norm_num
  · unfold exAngU; split <;> norm_num
  · have h2 : nSmall exAngD.s = 2 := exAng_nSmall
    have := ha (show (⟨0, by omega⟩ : Fin (nSmall exAngD.s)) ≤ ⟨1, by omega⟩ by simp)
    simp only [exAngU] at this
    norm_num at this

theorem exAng_qrS : exAngRt.qr (angS (fun x y : Fin 4 → ℝ => x ⬝ᵥ y) exAngF exAngG exAngD) =
    .ok (angS (fun x y : Fin 4 → ℝ => x ⬝ᵥ y) exAngF exAngG exAngD, Matrix.diagonal exAngU) := by
  have e : (fun i => Real.sqrt (angS (fun x y : Fin 4 → ℝ => x ⬝ᵥ y) exAngF exAngG exAngD i ⬝ᵥ
      angS (fun x y : Fin 4 → ℝ => x ⬝ᵥ y) exAngF exAngG exAngD i)) = exAngU := by
    funext i
    have := congrFun (congrFun exAng_S i) i
    simp only [gram, Matrix.of_apply, Matrix.diagonal_apply_eq] at this
    rw [this, Real.sqrt_sq (exAng_U_mono.2.1 i)]
  unfold exAngRt
  dsimp only
  rw [e]

theorem exAng_svdg : exAngRt.svd (gram (fun x y : Fin 4 → ℝ => x ⬝ᵥ y) exAngF exAngG) = exAngD := by
  rw [exAng_gram, exAng_svd]; rfl

theorem exAng_ok : AngleOk (fun x y : Fin 4 → ℝ => x ⬝ᵥ y) exAngRt exAngF exAngG := by
  have q1 : ∀ X : Fin 2 → Fin 4 → ℝ, gram (fun x y : Fin 4 → ℝ => x ⬝ᵥ y) X X = 1 →
      IsQr (fun x y : Fin 4 → ℝ => x ⬝ᵥ y) X X (1 : Matrix (Fin 2) (Fin 2) ℝ) ∧ (1 : Matrix (Fin 2) (Fin 2) ℝ).det ≠ 0 := by
    intro X hX
    refine ⟨⟨fun j => ?_, hX, fun i j hij => Matrix.one_apply_ne hij.ne'⟩, by simp⟩
    have : (fun i => (1 : Matrix (Fin 2) (Fin 2) ℝ) i j) = Pi.single j 1 := by
      funext i; simp [Matrix.one_apply, Pi.single_apply]
    rw [this, lincomb_single]
  refine ⟨fun Q R hq => ?_, fun Q R hq => ?_, fun QF RF QG RG h1 h2 => ?_, fun QF RF QG RG Q R h1 h2 hq => ?_⟩
  · rw [exAng_qrF] at hq
    obtain ⟨rfl, rfl⟩ := Prod.mk.inj (Except.ok.inj hq)
    exact q1 _ exAng_orth.1
  · rw [exAng_qrG] at hq
    obtain ⟨rfl, rfl⟩ := Prod.mk.inj (Except.ok.inj hq)
    exact q1 _ exAng_orth.2
  · rw [exAng_qrF] at h1
    rw [exAng_qrG] at h2
    obtain ⟨rfl, rfl⟩ := Prod.mk.inj (Except.ok.inj h1)
    obtain ⟨rfl, rfl⟩ := Prod.mk.inj (Except.ok.inj h2)
    rw [exAng_svdg, exAng_gram]
    exact exAng_isSvd
  · rw [exAng_qrF] at h1
    rw [exAng_qrG] at h2
    obtain ⟨rfl, rfl⟩ := Prod.mk.inj (Except.ok.inj h1)
    obtain ⟨rfl, rfl⟩ := Prod.mk.inj (Except.ok.inj h2)
    revert Q R
    rw [exAng_svdg]
    intro Q R hq
    rw [exAng_qrS] at hq
    obtain ⟨rfl, rfl⟩ := Prod.mk.inj (Except.ok.inj hq)
    constructor
    · refine Eq.trans ?_ exAng_S.symm
      rw [Matrix.diagonal_conjTranspose, Matrix.diagonal_mul_diagonal]
      congr 1
      funext i
      simp [sq]
    · rw [exAng_svd2 _ exAng_U_mono.2.2]
      exact isSvd_rev exAng_U_mono.1 exAng_U_mono.2.1

/-- C49 (finding): with `compute_vectors=True` the columns of `U` need not be orthonormal although the inputs have full rank
and all routines work: for two planes in `R^4` with angles `arccos(24/25)` and `arccos(4/5)` the first column of `U` has norm
`6/5`. -/
theorem C49_vectors_counterexample : ∃ (F G : Fin 2 → Fin 4 → ℝ) (rt : AngleRoutines ℝ (Fin 4 → ℝ)) (out : AnglesOut (Fin 4 → ℝ) 2 2),
    AngleOk (fun x y => x ⬝ᵥ y) rt F G ∧ angles (fun x y => x ⬝ᵥ y) rt F G = .ok out ∧
    out.theta = [Real.arccos (24 / 25), Real.arccos (4 / 5)] ∧ out.U 0 ⬝ᵥ out.U 0 = 36 / 25 := by
  have h2 : nSmall exAngD.s = 2 := exAng_nSmall
  have hsum : ∀ {n : ℕ} (hn : n = 2) (f : Fin n → Fin 4 → ℝ), ∑ i, f i = f ⟨0, by omega⟩ + f ⟨1, by omega⟩ := by
    intro n hn f
    subst hn
    exact Fin.sum_univ_two f
  set d2 : Svd ℝ (nSmall exAngD.s) (nSmall exAngD.s) := exAngRt.svd (Matrix.diagonal exAngU) with hd2
  have hang : angles (fun x y : Fin 4 → ℝ => x ⬝ᵥ y) exAngRt exAngF exAngG = .ok
      ⟨thetaSin exAngD d2 ++ thetaCos (k := 2) exAngD, stackCols (usin exAngF exAngD d2) (ucos exAngF exAngD),
        stackCols (vsin exAngG exAngD d2) (vcos exAngG exAngD)⟩ := by
    unfold angles
    rw [if_neg (by omega)]
    exact anglesCore_small exAng_qrF exAng_qrG (by omega) exAng_svdg (by omega) exAng_qrS
  refine ⟨exAngF, exAngG, exAngRt, _, exAng_ok, hang, ?_, ?_⟩
  · refine C49_unique isInner_dot4 le_rfl ((C49_angles isInner_dot4 (fun _ => exAng_ok) (fun h => by omega) hang).1 le_rfl)
      (F' := exAngF) (G' := exAngG) ?_ rfl rfl
    have hle : Real.arccos (24 / 25) ≤ Real.arccos (4 / 5) := Real.arccos_le_arccos (by norm_num)
    refine ⟨rfl, ?_, ?_, fun i hi hi' => ?_, exAngF, exAngG, exAng_orth.1, exAng_orth.2, rfl, rfl, fun i j hj => ?_⟩
    · simpa using hle
    · intro t ht
      simp only [List.mem_cons, List.not_mem_nil, or_false] at ht
      rcases ht with rfl | rfl <;>
        exact ⟨Real.arccos_nonneg _, Real.arccos_le_pi_div_two.mpr (by norm_num)⟩
    · simp at hi; omega
    · have := congrFun (congrFun exAng_gram i) j
      simp only [gram, Matrix.of_apply] at this
      have c1 : Real.cos (Real.arccos (24 / 25)) = 24 / 25 := Real.cos_arccos (by norm_num) (by norm_num)
      have c2 : Real.cos (Real.arccos (4 / 5)) = 4 / 5 := Real.cos_arccos (by norm_num) (by norm_num)
      refine Eq.trans this ?_
      fin_cases i <;> fin_cases j <;> simp [c1, c2]
  · have hU : stackCols (usin exAngF exAngD d2) (ucos exAngF exAngD) 0 = ![0, 6 / 5, 0, 0] := by
      unfold stackCols
      rw [dif_pos (by rw [h2]; decide)]
      unfold usin lincomb
      rw [hsum h2]
      have hz : ∀ i j, d2.Zᴴ i j = if (i : ℕ) + j = 1 then 1 else 0 := by
        intro i j
        rw [hd2, exAng_svd2 _ exAng_U_mono.2.2]
        simp only [conjTranspose_apply, Matrix.of_apply, Fin.ext_iff, Fin.val_rev]
        have := exAng_lt i
        have := exAng_lt j
        have : ((j : ℕ) = nSmall exAngD.s - (i + 1)) = ((i : ℕ) + j = 1) := by
          apply propext; omega
        simp only [this]
        split <;> simp
      have hRF : ∀ i : Fin (nSmall exAngD.s), angRF exAngF exAngD i = exAngF ⟨i, exAng_lt i⟩ := by
        intro i
        rw [angRF, dif_pos (exAng_lt i), exAng_ucos]
      simp only [usinCoef, Matrix.of_apply, hz, hRF]
      funext r
      have c1 : ∀ h h', Fin.castLE (n := nSmall exAngD.s) (m := 2) h ⟨1, h'⟩ = 1 := fun _ _ => rfl
      have c0 : ∀ h h', Fin.castLE (n := nSmall exAngD.s) (m := 2) h ⟨0, h'⟩ = 0 := fun _ _ => rfl
      simp only [c1, c0]
      fin_cases r <;> simp [exAngF, exAngD]
      exact (by norm_num : (5 / 4 * (24 / 25) : ℝ) = 6 / 5)
    dsimp only
    rw [hU]
    simp [dotProduct, Fin.sum_univ_four]
    norm_num

end Krypy
