import Verif.Proofs.HarmonicPoly
import Verif.Proofs.PseudoRoutines
import Verif.Props.PseudoLoop
import Verif.Props.PseudoBound
import Verif.Props.RootsPoly
import Verif.Props.Cg
import Verif.Props.IterCount
import Mathlib.LinearAlgebra.Matrix.ToLinearEquiv

/-!
# Property C74: the polynomials of `bound_pseudo` are the residual polynomials of the solvers

The specification speaks about the matrix `Hh` and its first unit vector only: `IsMRPoly`, `IsGalerkinPoly` and
`HarmonicRitz`.
-/

set_option linter.unusedSectionVars false

namespace Krypy
open Matrix Polynomial Finset
variable {𝕜 : Type*} [RCLike 𝕜] {k p N : ℕ}

/-- Specification: `q` is a polynomial of degree at most `i` with `q(0) = 1` for which `‖q(H) e_1‖` is minimal. -/
def IsMRPoly (H : Matrix (Fin N) (Fin N) 𝕜) (i : ℕ) (q : 𝕜[X]) : Prop :=
  q.natDegree ≤ i ∧ q.eval 0 = 1 ∧
    ∀ q' : 𝕜[X], q'.natDegree ≤ i → q'.eval 0 = 1 → vecNorm ((aeval H q) *ᵥ unit0 N) ≤ vecNorm ((aeval H q') *ᵥ unit0 N)

/-- Specification: `q` is a polynomial of degree at most `i` with `q(0) = 1` for which `q(H) e_1` is orthogonal to the first `i` unit
vectors. -/
def IsGalerkinPoly (H : Matrix (Fin N) (Fin N) 𝕜) (i : ℕ) (q : 𝕜[X]) : Prop :=
  q.natDegree ≤ i ∧ q.eval 0 = 1 ∧ ∀ r : Fin N, r.val < i → ((aeval H q) *ᵥ unit0 N) r = 0

/-- The first `i` columns of `H`, without the rows in which they vanish. -/
def colsOf (H : Matrix (Fin N) (Fin N) 𝕜) (i : ℕ) : Matrix (Fin (min (i + 1) N)) (Fin i) 𝕜 :=
  Matrix.of fun r c => natMat H r c

/-- The leading block. -/
def leadOf (H : Matrix (Fin N) (Fin N) 𝕜) (i : ℕ) : Matrix (Fin i) (Fin i) 𝕜 := Matrix.of fun r c => natMat H r c

/-- Specification: `1/θ` is the inverse of a harmonic Ritz value `θ`, where `θ = ∞` is allowed. -/
def HarmonicInv (H : Matrix (Fin N) (Fin N) 𝕜) (i : ℕ) (μ : 𝕜) : Prop :=
  ∃ z, z ≠ 0 ∧ (leadOf H i)ᴴ *ᵥ z = μ • (((colsOf H i)ᴴ * colsOf H i) *ᵥ z)

/-- Specification: `θ` is a harmonic Ritz value of the first `i` columns of `H`. -/
def HarmonicRitz (H : Matrix (Fin N) (Fin N) 𝕜) (i : ℕ) (θ : 𝕜) : Prop :=
  ∃ z, z ≠ 0 ∧ ((colsOf H i)ᴴ * colsOf H i) *ᵥ z = θ • ((leadOf H i)ᴴ *ᵥ z)

section qr
variable {H : Matrix (Fin N) (Fin N) 𝕜} {i : ℕ} {Q : Matrix (Fin (min (i + 1) N)) (Fin i) 𝕜} {R : Matrix (Fin i) (Fin i) 𝕜}
  (hiN : i ≤ N) (hX : colsOf H i = Q * R) (hQ : Qᴴ * Q = 1)
include hiN hX hQ

theorem qr_det (hc : ColsIndep (natMat H) (min (i + 1) N) i) : R.det ≠ 0 := by
  intro h0
  obtain ⟨z, hz, hz0⟩ := Matrix.exists_mulVec_eq_zero_iff.mpr h0
  have h1 : colsOf H i *ᵥ z = 0 := by rw [hX, ← Matrix.mulVec_mulVec, hz0, Matrix.mulVec_zero]
  apply hz
  have := hc (fun j => if h : j < i then z ⟨j, h⟩ else 0) (fun r hr => by
    have h2 := congrFun h1 ⟨r, hr⟩
    rw [Finset.sum_range]
    simpa [colsOf, Matrix.mulVec, dotProduct] using h2)
  funext j
  simpa using this j j.2

/-- The block of `Q` which the code uses. -/
theorem qr_lead : Rᴴ * (Matrix.of fun r c => star (natMat Q c r) : Matrix (Fin i) (Fin i) 𝕜) = (leadOf H i)ᴴ := by
  rw [← Matrix.conjTranspose_conjTranspose (Matrix.of fun (r c : Fin i) => star (natMat Q c r)), ← Matrix.conjTranspose_mul]
  congr 1
  ext r c
  have h1 := congrFun (congrFun hX ⟨r, by omega⟩) c
  simp only [colsOf, Matrix.of_apply] at h1
  simp only [leadOf, Matrix.of_apply, h1, Matrix.mul_apply, Matrix.conjTranspose_apply, star_star]
  apply Finset.sum_congr rfl
  intro j _
  have hr : r.val < min (i + 1) N := by omega
  simp only [natMat, hr, j.2, and_self, dite_true]

theorem qr_sq : (colsOf H i)ᴴ * colsOf H i = Rᴴ * R := by
  rw [hX, Matrix.conjTranspose_mul, Matrix.mul_assoc, ← Matrix.mul_assoc Qᴴ, hQ, Matrix.one_mul]

theorem harm_root (hR : R.det ≠ 0) (μ : 𝕜) : μ ∈ (harmK Q R).charpoly.roots ↔ HarmonicInv H i μ := by
  have hu : IsUnit R.det := isUnit_iff_ne_zero.mpr hR
  have hu' : IsUnit Rᴴ.det := by rw [Matrix.det_conjTranspose]; exact hu.star
  rw [mem_roots (Matrix.charpoly_monic _).ne_zero, IsRoot, Matrix.eval_charpoly, ← Matrix.exists_mulVec_eq_zero_iff]
  refine exists_congr fun z => and_congr_right fun _ => ?_
  rw [Matrix.sub_mulVec, sub_eq_zero, qr_sq hiN hX hQ, ← qr_lead hiN hX hQ, ← Matrix.mulVec_mulVec, ← Matrix.mulVec_mulVec,
    ← Matrix.mulVec_smul]
  have e1 : (Matrix.scalar (Fin i)) μ *ᵥ z = μ • z := by
    funext j
    simp [Matrix.mulVec, dotProduct, Matrix.diagonal_apply]
  rw [e1]
  constructor
  · intro h
    simp only [← Matrix.mulVec_smul, h, harmK, Matrix.mulVec_mulVec]
    rw [← Matrix.mul_assoc R, Matrix.mul_nonsing_inv _ hu, Matrix.one_mul]
  · intro h
    have h2 := congrArg ((Rᴴ)⁻¹ *ᵥ ·) h
    simp only [Matrix.mulVec_mulVec, ← Matrix.mul_assoc, Matrix.nonsing_inv_mul _ hu', Matrix.one_mulVec, Matrix.one_mul] at h2
    rw [harmK, ← Matrix.mulVec_mulVec, h2, ← Matrix.mulVec_smul, Matrix.mulVec_mulVec, Matrix.nonsing_inv_mul _ hu, Matrix.one_mulVec]

/-- For a Hermitian matrix the compression is similar to a Hermitian matrix. -/
theorem harm_similar (hR : R.det ≠ 0) (hs : Hᴴ = H) : ∃ S : Matrix (Fin i) (Fin i) 𝕜, S.IsHermitian ∧ (harmK Q R).charpoly = S.charpoly := by
  have hu : IsUnit R.det := isUnit_iff_ne_zero.mpr hR
  have hu' : IsUnit Rᴴ.det := by rw [Matrix.det_conjTranspose]; exact hu.star
  have hl : (leadOf H i)ᴴ = leadOf H i := by
    ext r c
    have := congrFun (congrFun hs ⟨r, by omega⟩) ⟨c, by omega⟩
    simp only [Matrix.conjTranspose_apply] at this
    have hr : r.val < N := by omega
    have hc : c.val < N := by omega
    simp [leadOf, natMat, hr, hc]
    exact this
  have h1 := qr_lead hiN hX hQ
  rw [hl] at h1
  have h2 : (Matrix.of fun r c => star (natMat Q c r) : Matrix (Fin i) (Fin i) 𝕜) = (Rᴴ)⁻¹ * leadOf H i := by
    rw [← h1, ← Matrix.mul_assoc, Matrix.nonsing_inv_mul _ hu', Matrix.one_mul]
  refine ⟨(Rᴴ)⁻¹ * leadOf H i * R⁻¹, ?_, ?_⟩
  · unfold Matrix.IsHermitian
    rw [Matrix.conjTranspose_mul, Matrix.conjTranspose_mul, hl, Matrix.conjTranspose_nonsing_inv, Matrix.conjTranspose_nonsing_inv,
      Matrix.conjTranspose_conjTranspose, Matrix.mul_assoc]
  · rw [harmK, h2, Matrix.charpoly_mul_comm]

end qr

theorem list_prod_roots {f : 𝕜[X]} (hs : f.Splits) (hm : f.Monic) {l : List 𝕜} (hl : (l : Multiset 𝕜) = f.roots) :
    f = (l.map fun μ => (Polynomial.X - C μ : 𝕜[X])).prod := by
  conv_lhs => rw [hs.eq_prod_roots_of_monic hm, ← hl]
  rw [Multiset.map_coe, Multiset.prod_coe]

theorem filter_prod {l : List 𝕜} (hl : ∀ z ∈ l, z = 0 ∨ 1e-14 < ‖z‖) (x : 𝕜) :
    (((l.filter fun z => decide (1e-14 < ‖z‖)).map fun z => 1 / z).map fun θ => 1 - x / θ).prod = (l.map fun μ => 1 - μ * x).prod := by
  induction l with
  | nil => simp
  | cons z l ih =>
    have ih := ih fun z hz => hl z (List.mem_cons_of_mem _ hz)
    rcases hl z List.mem_cons_self with rfl | h
    · have : ¬ (1e-14 : ℝ) < ‖(0 : 𝕜)‖ := by rw [norm_zero]; norm_num
      rw [List.filter_cons_of_neg (by simpa using this), ih]
      simp
    · rw [List.filter_cons_of_pos (by simpa using h)]
      simp only [List.map_cons, List.prod_cons, ih]
      congr 1
      rw [one_div, div_inv_eq_mul, mul_comm]

section minres
variable {rt : PseudoRoutines 𝕜 k p} (hp : PseudoHyp rt) {H : Matrix (Fin (p + 1)) (Fin (p + 1)) 𝕜} {i : ℕ} (hi : 1 ≤ i) (hip : i ≤ p + 1)
  (hc : ColsIndep (natMat H) (min (i + 1) (p + 1)) i) (ht : ∀ μ, HarmonicInv H i μ → μ = 0 ∨ 1e-14 < ‖μ‖)
include hp hi hip hc

theorem pseudo_qr : ∃ Q R, rt.qr i (colsOf H i) = (Q, R) ∧ colsOf H i = Q * R ∧ Qᴴ * Q = 1 ∧ R.det ≠ 0 ∧
    ((rt.geig i (Matrix.of fun r c => star (natMat Q c r)) R : List 𝕜) : Multiset 𝕜) = (harmK Q R).charpoly.roots ∧
    pseudoRoots rt .minRes H i = ((rt.geig i (Matrix.of fun r c => star (natMat Q c r)) R).filter
      fun z => decide (1e-14 < ‖z‖)).map fun z => 1 / z := by
  obtain ⟨h1, h2⟩ := hp.qr i hip (colsOf H i)
  have hR := qr_det hip h1 h2 hc
  exact ⟨_, _, rfl, h1, h2, hR, hp.geig _ _ _ hR, rfl⟩

include ht

/-- C74: the roots for minimal residual methods are the harmonic Ritz values of the first `i` columns of `Hh`. -/
theorem C74_harmonic (θ : 𝕜) : θ ∈ pseudoRoots rt .minRes H i ↔ θ ≠ 0 ∧ HarmonicRitz H i θ := by
  obtain ⟨Q, R, -, hX, hQ, hR, hg, he⟩ := pseudo_qr hp hi hip hc
  have hm : ∀ μ, μ ∈ rt.geig i (Matrix.of fun r c => star (natMat Q c r)) R ↔ HarmonicInv H i μ := by
    intro μ
    rw [← harm_root hip hX hQ hR, ← hg, Multiset.mem_coe]
  rw [he, List.mem_map]
  simp only [List.mem_filter, hm, decide_eq_true_eq]
  constructor
  · rintro ⟨μ, ⟨⟨z, hz, hzμ⟩, hμ⟩, rfl⟩
    have hμ0 : μ ≠ 0 := by rintro rfl; rw [norm_zero] at hμ; norm_num at hμ
    refine ⟨by simpa using hμ0, z, hz, ?_⟩
    rw [hzμ, smul_smul, one_div, inv_mul_cancel₀ hμ0, one_smul]
  · rintro ⟨h0, z, hz, hzθ⟩
    have hin : HarmonicInv H i θ⁻¹ := ⟨z, hz, by rw [hzθ, smul_smul, inv_mul_cancel₀ h0, one_smul]⟩
    refine ⟨θ⁻¹, ⟨hin, (ht _ hin).resolve_left (by simpa using h0)⟩, by simp⟩

variable (hH : HessMat H) (hs : IsAlgClosed 𝕜 ∨ Hᴴ = H)
include hH hs

/-- C74: for minimal residual methods, `NormalizedRootsPolynomial(roots)` in pass `i` of `bound_pseudo` is a minimal residual polynomial of
degree `i` for the Hessenberg matrix `Hh` and the first unit vector, and `‖p(Hh) e_1‖` is the number in `aresnorms` for this pass. -/
theorem C74_minres : ∃ q : 𝕜[X], IsMRPoly H i q ∧
    (∀ x, rootsPolyEval rt.argsort (pseudoRoots rt .minRes H i) x = .ok (q.eval x)) ∧
    ∀ sa res, (sa = true → Hᴴ = H) → getResidualNorms (natMat H) (p + 1) (p + 1) sa = .ok res → ∃ hl : i < res.length,
      res[i] = vecNorm ((aeval H q) *ᵥ unit0 (p + 1)) := by
  obtain ⟨Q, R, -, hX, hQ, hR, hg, he⟩ := pseudo_qr hp hi hip hc
  have hsp : (harmK Q R).charpoly.Splits := by
    rcases hs with hs | hs
    · exact IsAlgClosed.splits _
    · obtain ⟨S, hS, e⟩ := harm_similar hip hX hQ hR hs
      rw [e]
      exact hS.splits_charpoly
  have hprod := list_prod_roots hsp (Matrix.charpoly_monic _) hg
  have hd : (harmK Q R).charpoly.reverse.natDegree ≤ i := by
    refine (reverse_natDegree_le _).trans ?_
    rw [Matrix.charpoly_natDegree_eq_dim, Fintype.card_fin]
  have hc0 : (harmK Q R).charpoly.reverse.coeff 0 = 1 := by
    rw [coeff_zero_reverse, (Matrix.charpoly_monic _).leadingCoeff]
  have hleast := harm_least hH hi hip hX hQ hR
  refine ⟨(harmK Q R).charpoly.reverse, ⟨hd, by rw [← coeff_zero_eq_eval_zero, hc0], fun q' hq' h0' => ?_⟩, fun x => ?_, fun sa res hsa hres => ?_⟩
  · obtain ⟨y, hy⟩ := hH.split hi hip hq' (by rw [coeff_zero_eq_eval_zero, h0'])
    rw [hy]
    exact hleast y
  · rw [C47_product hp.argsort _ (fun θ hθ => ((C74_harmonic hp hi hip hc ht θ).mp hθ).1), he, filter_prod, hprod, reverse_linear,
      eval_list_prod, List.map_map]
    · congr 3
      funext μ
      simp
    · intro z hz
      apply ht
      rw [← harm_root hip hX hQ hR, ← hg, Multiset.mem_coe]
      exact hz
  · replace hres : getResidualNorms (natMat H) (p + 1) (p + 1) false = .ok res := by
      cases sa with
      | false => exact hres
      | true =>
        rw [← hres, C48_self_adjoint]
        intro r c hrc
        unfold natMat
        split
        next h =>
          rw [← hsa rfl, Matrix.conjTranspose_apply, hH _ _ hrc, star_zero]
        · rfl
    obtain ⟨res', hres', hlen⟩ := (C48_shape (natMat H) (p + 1) (p + 1) false).1 (by omega)
    obtain rfl : res = res' := Except.ok.inj (hres.symm.trans hres')
    have hl : i < res.length := by rw [hlen, if_pos rfl]; omega
    refine ⟨hl, ?_⟩
    have hHess : Hessenberg (natMat H) := by
      intro r c hrc
      unfold natMat
      split
      · exact hH _ _ hrc
      · rfl
    have hL : IsLeast (Set.range (lsDist (natMat H) (min (i + 1) (p + 1)) i)) res[i] := by
      by_cases h : i < p + 1
      · rw [min_eq_left (by omega)] at hc ⊢
        exact C48_least hHess hres h hl hc
      · obtain rfl : i = p + 1 := by omega
        rw [min_eq_right (by omega)] at hc ⊢
        exact (C48_square (by omega) hres hl).2 hc
    have hdist : ∀ u : ℕ → 𝕜, lsDist (natMat H) (min (i + 1) (p + 1)) i u =
        vecNorm (unit0 (p + 1) - H *ᵥ extZ (p + 1) i fun j => u j) := by
      intro u
      unfold lsDist vecNorm
      congr 1
      have hm : min (i + 1) (p + 1) ≤ p + 1 := by omega
      have e1 : ∀ r (hr : r < p + 1), ∑ j ∈ range i, natMat H r j * u j = (H *ᵥ extZ (p + 1) i fun j => u j) ⟨r, hr⟩ := by
        intro r hr
        have := congrFun (topR_mul (H := H) le_rfl hip fun j => u j) ⟨r, hr⟩
        simp only [topR, LinearMap.coe_mk, AddHom.coe_mk] at this
        rw [this, Finset.sum_range]
        rfl
      have e2 : ∑ r : Fin (p + 1), ‖(unit0 (p + 1) - H *ᵥ extZ (p + 1) i (fun j => u j) : Fin (p + 1) → 𝕜) r‖ ^ 2 =
          ∑ r ∈ range (p + 1), ‖(if r = 0 then 1 else 0) - ∑ j ∈ range i, natMat H r j * u j‖ ^ 2 := by
        rw [Finset.sum_range]
        apply Finset.sum_congr rfl
        intro r _
        rw [e1 r r.2]
        rfl
      rw [e2]
      apply Finset.sum_subset (Finset.range_subset_range.mpr hm)
      intro r hr hr'
      have h2 : r < p + 1 := by simpa using hr
      have h3 : min (i + 1) (p + 1) ≤ r := by rw [mem_range] at hr'; omega
      rw [e1 r h2, hH.supp (i := i) (fun r hr => by simp [extZ]; omega) ⟨r, h2⟩ (by simp; omega), if_neg (by omega)]
      simp
    apply le_antisymm
    · obtain ⟨y, hy⟩ := hH.split hi hip hd hc0
      have := hL.2 ⟨fun j => if h : j < i then y ⟨j, h⟩ else 0, rfl⟩
      rw [hdist] at this
      rw [hy]
      simpa using this
    · obtain ⟨u, hu⟩ := hL.1
      rw [← hu, hdist]
      exact hleast _

end minres

/-! ## Self-adjoint systems -/

theorem dot_isInner {ι : Type*} [Fintype ι] : IsInner (fun x y : ι → 𝕜 => star x ⬝ᵥ y) where
  add_right x y z := dotProduct_add _ _ _
  smul_right c x y := dotProduct_smul _ _ _
  conj_symm x y := by
    change star (star x ⬝ᵥ y) = star y ⬝ᵥ x
    rw [star_dotProduct, star_star]
  pos x hx := by
    have h : star x ⬝ᵥ x = ((∑ j, ‖x j‖ ^ 2 : ℝ) : 𝕜) := by
      simp only [dotProduct, Pi.star_apply, RCLike.ofReal_sum, RCLike.ofReal_pow]
      exact Finset.sum_congr rfl fun j _ => RCLike.conj_mul _
    rw [h, RCLike.ofReal_re]
    obtain ⟨j, hj⟩ := Function.ne_iff.mp hx
    exact Finset.sum_pos' (fun _ _ => by positivity) ⟨j, mem_univ _, by have := norm_pos_iff.mpr hj; positivity⟩

theorem nrm_dot {ι : Type*} [Fintype ι] (x : ι → 𝕜) : nrm (fun x y : ι → 𝕜 => star x ⬝ᵥ y) x = vecNorm x := by
  unfold nrm nsq vecNorm
  have h : star x ⬝ᵥ x = ((∑ j, ‖x j‖ ^ 2 : ℝ) : 𝕜) := by
    simp only [dotProduct, Pi.star_apply, RCLike.ofReal_sum, RCLike.ofReal_pow]
    exact Finset.sum_congr rfl fun j _ => RCLike.conj_mul _
  dsimp only
  rw [h]
  simp

theorem real_of_pencil {n m : ℕ} {B : Matrix (Fin n) (Fin n) 𝕜} {X : Matrix (Fin m) (Fin n) 𝕜} (hB : Bᴴ = B) {z : Fin n → 𝕜}
    (hX : X *ᵥ z ≠ 0) {μ : 𝕜} (h : B *ᵥ z = μ • ((Xᴴ * X) *ᵥ z)) : star μ = μ := by
  have h1 : star z ⬝ᵥ (B *ᵥ z) = μ * (star (X *ᵥ z) ⬝ᵥ (X *ᵥ z)) := by
    rw [h, dotProduct_smul, smul_eq_mul, ← Matrix.mulVec_mulVec, Matrix.dotProduct_mulVec, ← Matrix.star_mulVec]
  have h2 : star (star z ⬝ᵥ (B *ᵥ z)) = star z ⬝ᵥ (B *ᵥ z) := by
    refine ((dot_isInner (𝕜 := 𝕜)).conj_symm _ _).trans ?_
    rw [Matrix.star_mulVec, hB, ← Matrix.dotProduct_mulVec]
  have h3 : star (star (X *ᵥ z) ⬝ᵥ (X *ᵥ z)) = star (X *ᵥ z) ⬝ᵥ (X *ᵥ z) := (dot_isInner (𝕜 := 𝕜)).conj_symm _ _
  have h4 : star (X *ᵥ z) ⬝ᵥ (X *ᵥ z) ≠ 0 := fun h0 => by
    have := (dot_isInner (𝕜 := 𝕜)).pos _ hX
    rw [h0] at this
    simp at this
  rw [h1, star_mul, h3, mul_comm] at h2
  exact mul_right_cancel₀ h4 h2

theorem lead_herm {H : Matrix (Fin N) (Fin N) 𝕜} {i : ℕ} (hiN : i ≤ N) (hs : Hᴴ = H) : (leadOf H i)ᴴ = leadOf H i := by
  ext r c
  have := congrFun (congrFun hs ⟨r, by omega⟩) ⟨c, by omega⟩
  simp only [Matrix.conjTranspose_apply] at this
  have hr : r.val < N := by omega
  have hc : c.val < N := by omega
  simp [leadOf, natMat, hr, hc]
  exact this

section minresSa
variable {rt : PseudoRoutines 𝕜 k p} (hp : PseudoHyp rt) {H : Matrix (Fin (p + 1)) (Fin (p + 1)) 𝕜} {i : ℕ} (hi : 1 ≤ i) (hip : i ≤ p + 1)
  (hc : ColsIndep (natMat H) (min (i + 1) (p + 1)) i) (ht : ∀ μ, HarmonicInv H i μ → μ = 0 ∨ 1e-14 < ‖μ‖)
  (hH : HessMat H) (hs : Hᴴ = H)
include hp hi hip hc ht hH hs

/-- C74: for a self-adjoint system the roots are real, and the polynomial with the real parts of the roots, which is the one of line 642, has
the same values on the real line. -/
theorem C74_self_adjoint : (∀ θ ∈ pseudoRoots rt .minRes H i, star θ = θ) ∧
    ∃ q : 𝕜[X], IsMRPoly H i q ∧ ∀ x : ℝ, ∃ y : ℝ,
      rootsPolyEval rt.argsort ((pseudoRoots rt .minRes H i).map RCLike.re) x = .ok y ∧ q.eval (x : 𝕜) = (y : 𝕜) := by
  have hl := lead_herm hip hs
  have hreal : ∀ θ ∈ pseudoRoots rt .minRes H i, star θ = θ := by
    intro θ hθ
    obtain ⟨h0, z, hz, he⟩ := (C74_harmonic hp hi hip hc ht θ).mp hθ
    have h1 : star θ⁻¹ = θ⁻¹ := by
      refine real_of_pencil (X := colsOf H i) hl (z := z) (fun h => hz ?_) ?_
      · have := hc (fun j => if h : j < i then z ⟨j, h⟩ else 0) (fun r hr => by
          have h2 := congrFun h ⟨r, hr⟩
          rw [Finset.sum_range]
          simpa [colsOf, Matrix.mulVec, dotProduct] using h2)
        funext j
        simpa using this j j.2
      · rw [he, hl, smul_smul, inv_mul_cancel₀ h0, one_smul]
    rw [star_inv₀, _root_.inv_inj] at h1
    exact h1
  refine ⟨hreal, ?_⟩
  obtain ⟨q, hq, he, -⟩ := C74_minres hp hi hip hc ht hH (Or.inr hs)
  refine ⟨q, hq, fun x => ?_⟩
  have hre : ∀ θ ∈ pseudoRoots rt .minRes H i, ((RCLike.re θ : ℝ) : 𝕜) = θ := fun θ hθ => RCLike.conj_eq_iff_re.mp (hreal θ hθ)
  have h0 : ∀ θ ∈ pseudoRoots rt .minRes H i, θ ≠ 0 := fun θ hθ => ((C74_harmonic hp hi hip hc ht θ).mp hθ).1
  refine ⟨_, C47_product hp.argsort _ ?_ x, ?_⟩
  · intro t ht
    obtain ⟨θ, hθ, rfl⟩ := List.mem_map.mp ht
    intro h
    apply h0 θ hθ
    rw [← hre θ hθ, h, RCLike.ofReal_zero]
  · have := he (x : 𝕜)
    rw [C47_product hp.argsort _ h0] at this
    rw [← Except.ok.inj this]
    clear this
    clear hreal he h0
    generalize pseudoRoots rt .minRes H i = l at hre
    induction l with
    | nil => simp
    | cons θ l ih =>
      simp only [List.map_cons, List.prod_cons, RCLike.ofReal_mul, RCLike.ofReal_sub, RCLike.ofReal_one, RCLike.ofReal_div,
        hre θ List.mem_cons_self]
      rw [ih fun θ hθ => hre θ (List.mem_cons_of_mem _ hθ)]

end minresSa

/-! ## Conjugate gradients -/

section cg
variable {H : Matrix (Fin N) (Fin N) 𝕜} {i : ℕ}

/-- The leading block acts on polynomials of low degree. -/
theorem topR_aeval (hH : HessMat H) (hiN : i ≤ N) {q : 𝕜[X]} (hq : q.natDegree ≤ i) :
    topR N i hiN ((aeval H q) *ᵥ unit0 N) = (aeval (leadOf H i) q) *ᵥ topR N i hiN (unit0 N) := by
  have hpow : ∀ j ≤ i, topR N i hiN ((H ^ j) *ᵥ unit0 N) = (leadOf H i ^ j) *ᵥ topR N i hiN (unit0 N) := by
    intro j
    induction j with
    | zero => intro _; simp
    | succ j ih =>
      intro hj
      rw [pow_succ', pow_succ', ← Matrix.mulVec_mulVec, ← Matrix.mulVec_mulVec, ← ih (by omega),
        ← extZ_topR hiN (v := (H ^ j) *ᵥ unit0 N) (fun r hr => hH.pow_supp j r (by omega)), topR_mul _ hiN, topR_extZ]
      rfl
  rw [aeval_eq_sum_range' (Nat.lt_succ_of_le hq), aeval_eq_sum_range' (Nat.lt_succ_of_le hq), Matrix.sum_mulVec, Matrix.sum_mulVec, map_sum]
  apply Finset.sum_congr rfl
  intro j hj
  rw [Matrix.smul_mulVec, Matrix.smul_mulVec, map_smul, hpow j (by have := mem_range.mp hj; omega)]

theorem aeval_mulVecLin (q : 𝕜[X]) (v : Fin N → 𝕜) : aeval H.mulVecLin q v = (aeval H q) *ᵥ v := by
  have h1 : ∀ j : ℕ, (H.mulVecLin ^ j) v = (H ^ j) *ᵥ v := by
    intro j
    induction j with
    | zero => simp
    | succ j ih => rw [pow_succ', pow_succ', Module.End.mul_apply, ih, ← Matrix.mulVec_mulVec, Matrix.mulVecLin_apply]
  rw [aeval_eq_sum_range, aeval_eq_sum_range, LinearMap.sum_apply, Matrix.sum_mulVec]
  apply Finset.sum_congr rfl
  intro j _
  rw [LinearMap.smul_apply, Matrix.smul_mulVec, h1]

theorem vecNorm_smul' (c : 𝕜) (v : Fin N → 𝕜) : vecNorm (c • v) = ‖c‖ * vecNorm v := by
  unfold vecNorm
  simp only [Pi.smul_apply, smul_eq_mul, norm_mul, mul_pow, ← Finset.mul_sum]
  rw [Real.sqrt_mul (by positivity), Real.sqrt_sq (norm_nonneg _)]

theorem vecNorm_unit0 (hN : 0 < N) : vecNorm (unit0 N : Fin N → 𝕜) = 1 := by
  unfold vecNorm
  rw [Finset.sum_eq_single ⟨0, hN⟩]
  · simp [unit0]
  · intro r _ hr
    have : r.val ≠ 0 := fun h => hr (Fin.ext h)
    simp [unit0, this]
  · simp

/-- The small system of `bound_pseudo` (deflation.py 552-558). -/
noncomputable def smallSys (H : Matrix (Fin N) (Fin N) 𝕜) (c : ℝ) : LSArgs 𝕜 (Fin N → 𝕜) :=
  ⟨H.mulVecLin, (c : 𝕜) • unit0 N, LinearMap.id, LinearMap.id, LinearMap.id, fun x y => star x ⬝ᵥ y, none, true, true⟩

variable (hH : HessMat H) (hs : Hᴴ = H) (hpos : ∀ x, x ≠ 0 → 0 < RCLike.re (star x ⬝ᵥ (H *ᵥ x)))
include hs hpos

theorem smallSys_spd (c : ℝ) : SpdHyp (smallSys H c) where
  ls := ⟨dot_isInner, dot_isInner⟩
  sa x y := by
    change star (H *ᵥ x) ⬝ᵥ y = star x ⬝ᵥ (H *ᵥ y)
    rw [Matrix.star_mulVec, hs, ← Matrix.dotProduct_mulVec]
  pos x hx := hpos x hx

theorem lead_det (hiN : i ≤ N) : (leadOf H i).det ≠ 0 := by
  intro h0
  obtain ⟨z, hz, hz0⟩ := Matrix.exists_mulVec_eq_zero_iff.mpr h0
  have h1 : extZ N i z ≠ 0 := by
    intro h
    apply hz
    rw [← topR_extZ hiN z, h, map_zero]
  have h2 := hpos _ h1
  have h3 : star (extZ N i z) ⬝ᵥ (H *ᵥ extZ N i z) = star z ⬝ᵥ topR N i hiN (H *ᵥ extZ N i z) := by
    generalize H *ᵥ extZ N i z = w
    have e1 : star (extZ N i z) ⬝ᵥ w = ∑ r ∈ range N, if h : r < i then star (z ⟨r, h⟩) * w ⟨r, by omega⟩ else 0 := by
      rw [Finset.sum_range]
      apply Finset.sum_congr rfl
      intro r _
      by_cases h : r.val < i <;> simp [extZ, h]
    rw [e1, ← Finset.sum_subset (Finset.range_subset_range.mpr hiN), Finset.sum_range]
    · apply Finset.sum_congr rfl
      intro r _
      simp [topR]
    · intro r _ hr
      have : ¬ r < i := by simpa using hr
      simp [this]
  rw [h3, topR_mul _ hiN] at h2
  change 0 < RCLike.re (star z ⬝ᵥ (leadOf H i *ᵥ z)) at h2
  rw [hz0] at h2
  simp at h2

omit hs hpos in
/-- C74: for CG, `NormalizedRootsPolynomial(roots)` is the polynomial of the Galerkin condition if `eigvalsh` returns the eigenvalues. -/
theorem C74_cg_roots {rt : PseudoRoutines 𝕜 k p} (hp : PseudoHyp rt) {H : Matrix (Fin (p + 1)) (Fin (p + 1)) 𝕜} (hH : HessMat H) (hs : Hᴴ = H)
    (hpos : ∀ x, x ≠ 0 → 0 < RCLike.re (star x ⬝ᵥ (H *ᵥ x))) (hiN : i ≤ p + 1)
    (he : ((rt.eigh i (leadOf H i)).map ((↑) : ℝ → 𝕜) : Multiset 𝕜) = (leadOf H i).charpoly.roots) (r : Except Err (List ℝ)) :
    ∃ q : 𝕜[X], IsGalerkinPoly H i q ∧ ∀ x, rootsPolyEval rt.argsort (pseudoRoots rt (.cg r) H i) x = .ok (q.eval x) := by
  have hd := lead_det hs hpos hiN
  have hh : (leadOf H i).IsHermitian := lead_herm hiN hs
  have hev : (leadOf H i).charpoly.eval 0 ≠ 0 := by
    rw [Matrix.eval_charpoly]
    simp only [map_zero, zero_sub, Matrix.det_neg]
    exact mul_ne_zero (pow_ne_zero _ (by simp)) hd
  have hroot : ∀ θ ∈ pseudoRoots rt (.cg r) H i, θ ≠ 0 := by
    intro θ hθ h0
    have h1 : θ ∈ (leadOf H i).charpoly.roots := by
      rw [← he]
      exact hθ
    rw [mem_roots (Matrix.charpoly_monic _).ne_zero, h0] at h1
    exact hev h1
  have hprod := list_prod_roots hh.splits_charpoly (Matrix.charpoly_monic _) he
  refine ⟨C (((leadOf H i).charpoly.eval 0)⁻¹) * (leadOf H i).charpoly, ⟨?_, by simp [hev], fun t ht => ?_⟩, fun x => ?_⟩
  · refine (natDegree_C_mul_le _ _).trans ?_
    rw [Matrix.charpoly_natDegree_eq_dim, Fintype.card_fin]
  · have h1 := topR_aeval hH hiN (q := (leadOf H i).charpoly) (by rw [Matrix.charpoly_natDegree_eq_dim, Fintype.card_fin])
    rw [Matrix.aeval_self_charpoly, Matrix.zero_mulVec] at h1
    have h2 := congrFun h1 ⟨t, ht⟩
    have h3 : ((aeval H) (leadOf H i).charpoly *ᵥ unit0 (p + 1)) t = 0 := h2
    rw [map_mul, aeval_C, Algebra.algebraMap_eq_smul_one, Matrix.smul_mul, Matrix.one_mul, Matrix.smul_mulVec, Pi.smul_apply, h3, smul_zero]
  · rw [C47_product hp.argsort _ hroot]
    congr 1
    rw [eval_mul, eval_C]
    change (((rt.eigh i (leadOf H i)).map ((↑) : ℝ → 𝕜)).map fun θ => 1 - x / θ).prod = _
    have hroot' : ∀ θ ∈ (rt.eigh i (leadOf H i)).map ((↑) : ℝ → 𝕜), θ ≠ 0 := hroot
    rw [hprod]
    generalize (rt.eigh i (leadOf H i)).map ((↑) : ℝ → 𝕜) = l at hroot'
    clear hprod hroot he
    induction l with
    | nil => simp
    | cons θ l ih =>
      have h1 := ih fun θ hθ => hroot' θ (List.mem_cons_of_mem _ hθ)
      have h2 := hroot' θ List.mem_cons_self
      simp only [List.map_cons, List.prod_cons, eval_mul, h1, eval_sub, eval_X, eval_C, zero_sub, mul_inv]
      field_simp
      ring

include hH

/-- C74: for a polynomial of the Galerkin condition, `‖p(Hh) e_1‖` is the entry of `resnorms` of the run of CG on the small system. -/
theorem C74_cg_run {c : ℝ} (hc : 0 < c) {s : LS 𝕜 (Fin N → 𝕜)} (hls : mkLS (smallSys H c) = .ok s) (store : Bool) {pa : SolverArgs (Fin N → 𝕜)}
    (htol : 0 ≤ pa.tol) (hx0 : pa.x0 = none) {st : St ℝ (Fin N → 𝕜) (CgSt 𝕜 (Fin N → 𝕜))} (hN : 0 < N)
    (hrun : cg s s.hooks store pa = .returned st ∨ cg s s.hooks store pa = .convergence st) (hi : i < st.resnorms.length)
    {q : 𝕜[X]} (hq : IsGalerkinPoly H i q) : st.resnorms[i] = vecNorm ((aeval H q) *ᵥ unit0 N) := by
  have hsp := smallSys_spd hs hpos c
  have hc' : (c : 𝕜) ≠ 0 := by exact_mod_cast hc.ne'
  have hb : (smallSys H c).Ml (smallSys H c).b ≠ 0 := by
    intro h0
    have := congrFun h0 ⟨0, hN⟩
    simp [smallSys, unit0] at this
    exact hc.ne' this
  obtain ⟨hl, -⟩ := cg_loop hsp hls store pa htol hb hrun
  obtain ⟨h31, -⟩ := C31_residuals hsp hls store pa htol hb hrun
  have hik : i ≤ st.s.k := by have := hl.len; omega
  rw [hx0] at hl h31
  simp only [Option.getD_none] at hl h31
  have hr0 : (smallSys H c).Ml ((smallSys H c).b - (smallSys H c).A 0) = (c : 𝕜) • unit0 N := by simp [smallSys]
  rw [hr0] at hl
  have hcg := hsp.cgHyp ((c : 𝕜) • unit0 N)
  -- the Galerkin point
  set z : Fin N → 𝕜 := (c : 𝕜) • -((aeval H q.divX) *ᵥ unit0 N) with hzdef
  have hres : (c : 𝕜) • unit0 N - H *ᵥ z = (c : 𝕜) • ((aeval H q) *ᵥ unit0 N) := by
    rw [hzdef, Matrix.mulVec_smul, Matrix.mulVec_neg, smul_neg, sub_neg_eq_add, ← smul_add]
    congr 1
    conv_rhs => rw [← q.divX_mul_X_add, mul_comm]
    simp only [map_add, map_mul, aeval_X, coeff_zero_eq_eval_zero, hq.2.1, map_one, Matrix.add_mulVec, Matrix.one_mulVec,
      ← Matrix.mulVec_mulVec]
    rw [add_comm]
  have hz : z ∈ krylov H.mulVecLin ((c : 𝕜) • unit0 N) i := by
    have h1 : q.divX.degree < i := by
      rw [degree_lt_iff_coeff_zero]
      intro m hm
      rw [coeff_divX, coeff_eq_zero_of_natDegree_lt (by have := hq.1; omega)]
    have h2 := Submodule.neg_mem _ (aeval_mem_krylov (T := H.mulVecLin) (v := (c : 𝕜) • unit0 N) h1)
    rwa [aeval_mulVecLin, Matrix.mulVec_smul, ← smul_neg] at h2
  have hy : st.s.ys i ∈ krylov H.mulVecLin ((c : 𝕜) • unit0 N) i := hl.inv.ys_mem hcg i hik
  have hgy : ∀ w ∈ krylov H.mulVecLin ((c : 𝕜) • unit0 N) i, star w ⬝ᵥ ((c : 𝕜) • unit0 N - H *ᵥ st.s.ys i) = 0 :=
    hl.inv.galerkin hcg i hik
  have hsupp : ∀ w ∈ krylov H.mulVecLin ((c : 𝕜) • unit0 N) i, star w ⬝ᵥ ((c : 𝕜) • ((aeval H q) *ᵥ unit0 N)) = 0 := by
    intro w hw
    obtain ⟨g, hg, rfl⟩ := krylov_poly hw
    rw [aeval_mulVecLin, Matrix.mulVec_smul]
    apply Finset.sum_eq_zero
    intro r _
    by_cases hr : r.val < i
    · simp [hq.2.2 r hr]
    · have h1 : ((aeval H g) *ᵥ unit0 N) r = 0 := by
        by_cases hg0 : g = 0
        · simp [hg0]
        · exact hH.aeval_supp ((natDegree_lt_iff_degree_lt hg0).mpr hg) r (by omega)
      simp [h1]
  have hd := Submodule.sub_mem _ hy hz
  have heq : st.s.ys i = z := by
    by_contra hne
    have h1 := hpos _ (sub_ne_zero.mpr hne)
    have h2 := hgy _ hd
    have h3 := hsupp _ hd
    rw [← hres] at h3
    have h4 : H *ᵥ (st.s.ys i - z) = ((c : 𝕜) • unit0 N - H *ᵥ z) - ((c : 𝕜) • unit0 N - H *ᵥ st.s.ys i) := by
      rw [Matrix.mulVec_sub]
      abel
    rw [h4, dotProduct_sub, h2, h3] at h1
    simp at h1
  have h1 := (h31 i hi).1
  rw [heq] at h1
  have e1 : resid (smallSys H c) 0 = c := by
    change nrm (fun x y : Fin N → 𝕜 => star x ⬝ᵥ y) ((c : 𝕜) • unit0 N - H *ᵥ 0) = c
    rw [Matrix.mulVec_zero, sub_zero, nrm_dot, vecNorm_smul', vecNorm_unit0 hN, mul_one, RCLike.norm_ofReal, abs_of_pos hc]
  have e2 : resid (smallSys H c) (0 + (smallSys H c).Mr z) = c * vecNorm ((aeval H q) *ᵥ unit0 N) := by
    change nrm (fun x y : Fin N → 𝕜 => star x ⬝ᵥ y) ((c : 𝕜) • unit0 N - H *ᵥ (0 + z)) = _
    rw [zero_add, hres, nrm_dot, vecNorm_smul', RCLike.norm_ofReal, abs_of_pos hc]
  rw [e1, e2, mul_comm] at h1
  exact mul_left_cancel₀ hc.ne' h1

end cg

/-! ## Examples -/

/-- An example: `[[2, 1], [1, 2]]`. -/
def exPolyH : Matrix (Fin (1 + 1)) (Fin (1 + 1)) ℝ := !![2, 1; 1, 2]

theorem exPolyH_hess : HessMat exPolyH := by
  intro r c h
  omega

theorem exPolyH_herm : exPolyHᴴ = exPolyH := by
  ext i j
  fin_cases i <;> fin_cases j <;> simp [exPolyH]

theorem exPolyH_pos (x : Fin (1 + 1) → ℝ) (hx : x ≠ 0) : 0 < RCLike.re (star x ⬝ᵥ (exPolyH *ᵥ x)) := by
  have h : star x ⬝ᵥ (exPolyH *ᵥ x) = x 0 * (2 * x 0 + x 1) + x 1 * (x 0 + 2 * x 1) := by
    simp [exPolyH, dotProduct, Matrix.mulVec, Fin.sum_univ_two]
  rw [h]
  change 0 < x 0 * (2 * x 0 + x 1) + x 1 * (x 0 + 2 * x 1)
  by_contra hle
  apply hx
  have h0 : x 0 = 0 := by nlinarith [sq_nonneg (x 0 + x 1), sq_nonneg (x 0), sq_nonneg (x 1)]
  have h1 : x 1 = 0 := by nlinarith [sq_nonneg (x 0 + x 1), sq_nonneg (x 0), sq_nonneg (x 1)]
  funext j
  fin_cases j
  · exact h0
  · exact h1

theorem exPolyH_cols : ColsIndep (natMat exPolyH) (min (1 + 1) (1 + 1)) 1 := by
  intro u hu j hj
  have h := hu 0 (by norm_num)
  obtain rfl : j = 0 := by omega
  rw [Finset.sum_range_one] at h
  simpa [natMat, exPolyH] using h

/-- The harmonic Ritz value of the first column is `5/2`. -/
theorem exPolyH_harmonic (μ : ℝ) : HarmonicInv exPolyH 1 μ ↔ μ = 2 / 5 := by
  have hl : ∀ z : Fin 1 → ℝ, (leadOf exPolyH 1)ᴴ *ᵥ z = fun _ => 2 * z 0 := by
    intro z
    funext j
    fin_cases j
    simp [leadOf, natMat, exPolyH, Matrix.mulVec, dotProduct]
  have hcc : ∀ z : Fin 1 → ℝ, ((colsOf exPolyH 1)ᴴ * colsOf exPolyH 1) *ᵥ z = fun _ => 5 * z 0 := by
    intro z
    funext j
    fin_cases j
    have e : ∀ f : Fin (min (1 + 1) (1 + 1)) → ℝ, ∑ x, f x = f ⟨0, by norm_num⟩ + f ⟨1, by norm_num⟩ := Fin.sum_univ_two
    simp only [Matrix.mulVec, dotProduct, Matrix.mul_apply, Matrix.conjTranspose_apply, colsOf, Matrix.of_apply, e, Finset.univ_unique,
      Finset.sum_singleton]
    simp [natMat, exPolyH]
    left
    norm_num
  constructor
  · rintro ⟨z, hz, he⟩
    rw [hl, hcc] at he
    have h1 := congrFun he 0
    simp only [Pi.smul_apply, smul_eq_mul] at h1
    have h2 : z 0 ≠ 0 := fun h => hz (by funext j; fin_cases j; exact h)
    have h3 : (5 * μ - 2) * z 0 = 0 := by linarith
    have := (mul_eq_zero.mp h3).resolve_right h2
    linarith
  · rintro rfl
    refine ⟨1, one_ne_zero, ?_⟩
    rw [hl, hcc]
    funext j
    simp

/-- Non-vacuity: in the first pass the only root is `5/2`, the polynomial is `1 - 2/5 x`, and the residual norm is `‖(1/5, -2/5)‖`. -/
example : ∃ rt : PseudoRoutines ℝ 0 1, PseudoHyp rt ∧ (∀ θ, θ ∈ pseudoRoots rt .minRes exPolyH 1 ↔ θ = 5 / 2) ∧
    ∃ q : ℝ[X], IsMRPoly exPolyH 1 q ∧ ∀ x : ℝ, ∃ y : ℝ,
      rootsPolyEval rt.argsort ((pseudoRoots rt .minRes exPolyH 1).map RCLike.re) x = .ok y ∧ q.eval x = y := by
  obtain ⟨rt, hp, -⟩ := pseudoHyp_exists ℝ 0 1
  have ht : ∀ μ, HarmonicInv exPolyH 1 μ → μ = 0 ∨ 1e-14 < ‖μ‖ := by
    intro μ hμ
    right
    rw [(exPolyH_harmonic μ).mp hμ]
    norm_num
  refine ⟨rt, hp, fun θ => ?_, (C74_self_adjoint hp le_rfl (by norm_num) exPolyH_cols ht exPolyH_hess exPolyH_herm).2⟩
  rw [C74_harmonic hp le_rfl (by norm_num) exPolyH_cols ht]
  constructor
  · rintro ⟨h0, z, hz, he⟩
    have : HarmonicInv exPolyH 1 θ⁻¹ := ⟨z, hz, by rw [he, smul_smul, inv_mul_cancel₀ h0, one_smul]⟩
    have := (exPolyH_harmonic _).mp this
    rw [← inv_inv θ, this]
    norm_num
  · rintro rfl
    obtain ⟨z, hz, he⟩ := (exPolyH_harmonic (2 / 5)).mpr rfl
    refine ⟨by norm_num, z, hz, ?_⟩
    rw [he, smul_smul]
    norm_num

/-- Non-vacuity for CG: the polynomials of the passes and the run on the small system. -/
example : ∃ (rt : PseudoRoutines ℝ 0 1) (s : LS ℝ (Fin (1 + 1) → ℝ)) (st : St ℝ (Fin (1 + 1) → ℝ) (CgSt ℝ (Fin (1 + 1) → ℝ))),
    PseudoHyp rt ∧ mkLS (smallSys exPolyH 3) = .ok s ∧ cg s s.hooks false ⟨none, 0, 2, false, none⟩ = .returned st ∧
    ∀ i ≤ 2, ∃ q : ℝ[X], IsGalerkinPoly exPolyH i q ∧
      (∀ x, rootsPolyEval rt.argsort (pseudoRoots rt (.cg (.ok st.resnorms)) exPolyH i) x = .ok (q.eval x)) ∧
      ∀ hi : i < st.resnorms.length, st.resnorms[i] = vecNorm ((aeval exPolyH q) *ᵥ unit0 (1 + 1)) := by
  obtain ⟨rt, hp, he⟩ := pseudoHyp_exists ℝ 0 1
  have hsp := smallSys_spd exPolyH_herm exPolyH_pos 3
  obtain ⟨s, hs, -, -⟩ := mkLS_ok hsp.ls
  have hb : (smallSys exPolyH 3).Ml (smallSys exPolyH 3).b ≠ 0 := by
    intro h0
    have := congrFun h0 0
    simp [smallSys, unit0] at this
  obtain ⟨st, hst, -, -⟩ := C32_terminates hsp hs false ⟨none, 0, 2, false, none⟩ le_rfl hb (by simp)
  refine ⟨rt, s, st, hp, hs, hst, fun i hi => ?_⟩
  obtain ⟨q, hq, h1⟩ := C74_cg_roots hp exPolyH_hess exPolyH_herm exPolyH_pos hi (he _ _ (lead_herm hi exPolyH_herm)) (.ok st.resnorms)
  exact ⟨q, hq, h1, fun hl => C74_cg_run exPolyH_hess exPolyH_herm exPolyH_pos (by norm_num) hs false le_rfl rfl (by norm_num) (Or.inl hst) hl hq⟩

end Krypy
