import Verif.Model.ProjOperator
import Verif.Props.Operators
import Verif.Props.Projection
import Mathlib.LinearAlgebra.Matrix.ToLinearEquiv

/-! # Property C73: the operators and the matrix of a projection

The specification is the documented matrix `P = X ⟨Y,X⟩⁻¹ ⟨Y,I⟩`, written with ordinary matrix algebra
for an inner product `⟨x,y⟩ = xᴴ B y`. -/

set_option linter.unusedSectionVars false

namespace Krypy
open Matrix
open Ops (Acts Den)
variable {𝕜 : Type*} [RCLike 𝕜] {n k : ℕ}

/-- The matrix with the given columns. -/
def colMat (X : Fin k → Fin n → 𝕜) : Matrix (Fin n) (Fin k) 𝕜 := Matrix.of fun i j => X j i

/-- Specification: the projection onto the columns of `X` along the `B`-orthogonal complement of the
columns of `Y`, as a matrix. -/
noncomputable def projMat (B : Matrix (Fin n) (Fin n) 𝕜) (X Y : Fin k → Fin n → 𝕜) :
    Matrix (Fin n) (Fin n) 𝕜 :=
  colMat X * (((colMat Y)ᴴ * B * colMat X)⁻¹ * ((colMat Y)ᴴ * B))

theorem lincomb_colMat (X : Fin k → Fin n → 𝕜) (c : Fin k → 𝕜) : lincomb X c = colMat X *ᵥ c := by
  funext i
  simp [lincomb, colMat, Matrix.mulVec, dotProduct, mul_comm]

section
variable {ip : (Fin n → 𝕜) → (Fin n → 𝕜) → 𝕜} {B : Matrix (Fin n) (Fin n) 𝕜}
  (hB : ∀ x y, ip x y = star x ⬝ᵥ (B *ᵥ y))
include hB

theorem coefs_colMat (Y : Fin k → Fin n → 𝕜) (a : Fin n → 𝕜) :
    coefs ip Y a = ((colMat Y)ᴴ * B) *ᵥ a := by
  funext i
  rw [← Matrix.mulVec_mulVec]
  simp [coefs, hB, colMat, Matrix.mulVec, dotProduct]

theorem gram_colMat (Y X : Fin k → Fin n → 𝕜) :
    gram ip Y X = (colMat Y)ᴴ * B * colMat X := by
  ext i j
  have := congrFun (coefs_colMat hB Y (X j)) i
  simp only [coefs] at this
  simp only [gram, Matrix.of_apply, this]
  simp [Matrix.mul_apply, Matrix.mulVec, dotProduct, colMat]

theorem oblique_projMat (X Y : Fin k → Fin n → 𝕜) (a : Fin n → 𝕜) :
    oblique ip X Y a = projMat B X Y *ᵥ a := by
  unfold oblique projMat
  rw [lincomb_colMat, coefs_colMat hB, gram_colMat hB, Matrix.mulVec_mulVec, Matrix.mulVec_mulVec,
    Matrix.mul_assoc]

/-- The matrix of an inner product is Hermitian. -/
theorem isInner_hermitian (h : IsInner ip) : Bᴴ = B := by
  ext i j
  have h1 := h.conj_symm (Pi.single j 1) (Pi.single i 1)
  rw [hB, hB] at h1
  simpa using h1

/-- The matrix of an inner product is nonsingular. -/
theorem isInner_det (h : IsInner ip) : IsUnit B.det := by
  rw [isUnit_iff_ne_zero]
  intro h0
  obtain ⟨v, hv, hv0⟩ := Matrix.exists_mulVec_eq_zero_iff.mpr h0
  have := h.pos v hv
  rw [hB, hv0] at this
  simp at this

theorem projMat_adj (h : IsInner ip) (X Y : Fin k → Fin n → 𝕜) :
    B * projMat B Y X = (projMat B X Y)ᴴ * B := by
  have hh := isInner_hermitian hB h
  simp only [projMat, Matrix.conjTranspose_mul, Matrix.conjTranspose_nonsing_inv,
    Matrix.conjTranspose_conjTranspose, hh]
  simp only [Matrix.mul_assoc]

end

theorem colFn_acts {f : (Fin n → 𝕜) → Except Err (Fin n → 𝕜)} {M : Matrix (Fin n) (Fin n) 𝕜}
    (hf : ∀ a, f a = .ok (M *ᵥ a)) (m : ℕ) (X : Matrix (Fin n) (Fin m) 𝕜) :
    colFn f ⟨n, m, X⟩ = .ok ⟨n, m, M * X⟩ := by
  unfold colFn
  rw [dif_pos rfl, if_neg]
  · congr 2
    ext i j
    simp only [hf, Matrix.of_apply]
    simp [Matrix.mul_apply, Matrix.mulVec, dotProduct]
  · rintro ⟨j, e, he⟩
    rw [hf] at he
    cases he

section
variable {ip : (Fin n → 𝕜) → (Fin n → 𝕜) → 𝕜} {B : Matrix (Fin n) (Fin n) 𝕜}
  {rt : QrRoutines 𝕜 (Fin n → 𝕜) k} {X : Fin k → Fin n → 𝕜} {Y : Option (Fin k → Fin n → 𝕜)}
  {o : Bool}

/-- C73: for every inner product `xᴴ B y`, every number of columns (zero included) and every number
of iterations, `operator()` and `operator_complement()` are `(N,N)` operators which multiply by the
documented matrix `P` and by `I - P`, `matrix()` is `P`, and `dot_adj` of the two operators multiplies
by the `B`-adjoint `P'` of `P`, i.e. `B P' = Pᴴ B`, and by `I - P'`. -/
theorem C73_operators (hB : ∀ x y, ip x y = star x ⬝ᵥ (B *ᵥ y)) (hyp : ProjHyp ip rt X Y o) {it : ℤ}
    (hit : 1 ≤ it) :
    ∃ p, mkProj ip rt X Y o it = .ok p ∧
      p.matrix ip = .ok ⟨n, n, projMat B X (Y.getD X)⟩ ∧
      (p.operator ip).shape = (n, n) ∧ (p.operatorComplement ip).shape = (n, n) ∧
      Acts (p.operator ip).dot (projMat B X (Y.getD X)) ∧
      Acts (p.operatorComplement ip).dot (1 - projMat B X (Y.getD X)) ∧
      ∃ P', B * P' = (projMat B X (Y.getD X))ᴴ * B ∧
        Acts (p.operator ip).dotAdj P' ∧ Acts (p.operatorComplement ip).dotAdj (1 - P') := by
  obtain ⟨p, hp, hok, -⟩ := mkProj_ok hyp hit
  have h := hyp.inner
  have e1 : ∀ a, p.applyX ip a = .ok (projMat B X (Y.getD X) *ᵥ a) := fun a => by
    simp only [Proj.applyX, hok.apply_eq, oblique_projMat hB]
  have e2 : ∀ a, p.applyComplX ip a = .ok ((1 - projMat B X (Y.getD X)) *ᵥ a) := fun a => by
    simp only [Proj.applyComplX, hok.applyCompl_eq, oblique_projMat hB, Matrix.sub_mulVec,
      Matrix.one_mulVec]
  have e3 : ∀ a, p.applyAdj ip a = .ok (projMat B (Y.getD X) X *ᵥ a) := fun a => by
    rw [hok.applyAdj_eq, oblique_projMat hB]
  have e4 : ∀ a, p.applyComplAdj ip a = .ok ((1 - projMat B (Y.getD X) X) *ᵥ a) := fun a => by
    rw [hok.applyComplAdj_eq, oblique_projMat hB, Matrix.sub_mulVec, Matrix.one_mulVec]
  refine ⟨p, hp, by simpa [Proj.matrix] using colFn_acts e1 n 1, ?_, ?_, ?_, ?_, projMat B (Y.getD X) X,
    projMat_adj hB h _ _, ?_, ?_⟩
  · unfold Proj.operator; split <;> rfl
  · unfold Proj.operatorComplement; split <;> rfl
  all_goals
    intro m Z hm
    first
      | unfold Proj.operator
      | unfold Proj.operatorComplement
    split
    · subst k
      simp [Ops.Op.dot, Ops.Op.dotAdj, Ops.Op.calls, Ops.Calls.std, Ops.guard, hm, projMat,
        Ops.Arr.zeros]
    · first
        | simpa [Ops.Op.dot, Ops.Op.dotAdj, Ops.Op.calls, Ops.Calls.std, Ops.guard, hm] using
            colFn_acts e1 m Z
        | simpa [Ops.Op.dot, Ops.Op.dotAdj, Ops.Op.calls, Ops.Calls.std, Ops.guard, hm] using
            colFn_acts e2 m Z
        | simpa [Ops.Op.dot, Ops.Op.dotAdj, Ops.Op.calls, Ops.Calls.std, Ops.guard, hm] using
            colFn_acts e3 m Z
        | simpa [Ops.Op.dot, Ops.Op.dotAdj, Ops.Op.calls, Ops.Calls.std, Ops.guard, hm] using
            colFn_acts e4 m Z

theorem acts_unique {f : Ops.Fn 𝕜} {M N : Matrix (Fin n) (Fin n) 𝕜} (hM : Acts f M) (hN : Acts f N) :
    M = N := by
  by_cases hn : n = 0
  · subst hn
    exact Subsingleton.elim _ _
  · have := (hM n 1 hn).symm.trans (hN n 1 hn)
    simpa using this

/-- C73: `operator().adj` is the conjugate transpose of `operator()` (as for the other operators, C02)
exactly if `Pᴴ` commutes with the matrix of the inner product. -/
theorem C73_adjoint (hB : ∀ x y, ip x y = star x ⬝ᵥ (B *ᵥ y)) (hyp : ProjHyp ip rt X Y o) {it : ℤ}
    (hit : 1 ≤ it) :
    ∃ p, mkProj ip rt X Y o it = .ok p ∧
      (Acts (p.operator ip).dotAdj (projMat B X (Y.getD X))ᴴ ↔
        B * (projMat B X (Y.getD X))ᴴ = (projMat B X (Y.getD X))ᴴ * B) := by
  obtain ⟨p, hp, -, -, -, -, -, P', hP', hA, -⟩ := C73_operators hB hyp hit
  refine ⟨p, hp, fun hc => ?_, fun hc => ?_⟩
  · rw [← hP', acts_unique hA hc]
  · have : P' = (projMat B X (Y.getD X))ᴴ := by
      have hu := isInner_det hB hyp.inner
      have h1 := congrArg (B⁻¹ * ·) (hP'.trans hc.symm)
      simpa [← Matrix.mul_assoc, Matrix.nonsing_inv_mul _ hu] using h1
    rwa [← this]

/-- C73: for the Euclidean inner product (`ip_B=None`) the two operators denote `P` and `I - P` in the
sense of C01 and C02, so that every expression built with them acts as the matrix it denotes; in
particular products with an operator from either side. -/
theorem C73_expressions (hB : ∀ x y, ip x y = star x ⬝ᵥ y) (hyp : ProjHyp ip rt X Y o) {it : ℤ}
    (hit : 1 ≤ it) :
    ∃ p, mkProj ip rt X Y o it = .ok p ∧ Den (p.operator ip) n n (projMat 1 X (Y.getD X)) ∧
      Den (p.operatorComplement ip) n n (1 - projMat 1 X (Y.getD X)) ∧
      ∀ A M, Den A n n M →
        (∃ C, (p.operatorComplement ip).mulOp A = .ok C ∧
          Acts C.dot ((1 - projMat 1 X (Y.getD X)) * M) ∧
          Acts C.dotAdj (Mᴴ * (1 - (projMat 1 X (Y.getD X))ᴴ))) ∧
        ∃ C, A.mulOp (p.operatorComplement ip) = .ok C ∧
          Acts C.dot (M * (1 - projMat 1 X (Y.getD X))) := by
  have hB' : ∀ x y, ip x y = star x ⬝ᵥ ((1 : Matrix (Fin n) (Fin n) 𝕜) *ᵥ y) := by simpa using hB
  obtain ⟨p, hp, hm, -, -, h1, h2, P', hP', h3, h4⟩ := C73_operators hB' hyp hit
  have hP : P' = (projMat 1 X (Y.getD X))ᴴ := by simpa using hP'
  subst hP
  obtain ⟨p', hp', hok, -⟩ := mkProj_ok hyp hit
  obtain rfl : p = p' := Except.ok.inj (hp.symm.trans hp')
  have e1 : ∀ a, p.applyX ip a = .ok (projMat 1 X (Y.getD X) *ᵥ a) := fun a => by
    simp only [Proj.applyX, hok.apply_eq, oblique_projMat hB']
  have e2 : ∀ a, p.applyComplX ip a = .ok ((1 - projMat 1 X (Y.getD X)) *ᵥ a) := fun a => by
    simp only [Proj.applyComplX, hok.applyCompl_eq, oblique_projMat hB', Matrix.sub_mulVec,
      Matrix.one_mulVec]
  have ea : (projMat 1 X (Y.getD X))ᴴ = projMat 1 (Y.getD X) X := by
    simpa using (projMat_adj hB' hyp.inner X (Y.getD X)).symm
  have e3 : ∀ a, p.applyAdj ip a = .ok ((projMat 1 X (Y.getD X))ᴴ *ᵥ a) := fun a => by
    rw [hok.applyAdj_eq, oblique_projMat hB', ea]
  have e4 : ∀ a, p.applyComplAdj ip a = .ok ((1 - projMat 1 X (Y.getD X))ᴴ *ᵥ a) := fun a => by
    rw [hok.applyComplAdj_eq, oblique_projMat hB', Matrix.conjTranspose_sub,
      Matrix.conjTranspose_one, ea, Matrix.sub_mulVec, Matrix.one_mulVec]
  have d1 : Den (p.operator ip) n n (projMat 1 X (Y.getD X)) := by
    unfold Proj.operator
    split
    · subst k
      have : projMat 1 X (Y.getD X) = 0 := by simp [projMat]
      rw [this]
      exact .zero n
    · exact .user (fun m Z _ => colFn_acts e1 m Z) (fun m Z _ => colFn_acts e3 m Z)
  have d2 : Den (p.operatorComplement ip) n n (1 - projMat 1 X (Y.getD X)) := by
    unfold Proj.operatorComplement
    split
    · subst k
      have : projMat 1 X (Y.getD X) = 0 := by simp [projMat]
      rw [this, sub_zero]
      exact .ident n
    · exact .user (fun m Z _ => colFn_acts e2 m Z) (fun m Z _ => colFn_acts e4 m Z)
  refine ⟨p, hp, d1, d2, fun A M hA => ?_⟩
  obtain ⟨C, hC, dC⟩ := Ops.mulOp_den d2 hA
  obtain ⟨D, hD, dD⟩ := Ops.mulOp_den hA d2
  refine ⟨⟨C, hC, dC.callsOK.dot, ?_⟩, D, hD, dD.callsOK.dot⟩
  have := dC.callsOK.dotAdj
  rwa [Matrix.conjTranspose_mul, Matrix.conjTranspose_sub, Matrix.conjTranspose_one] at this

end

/-- The example of the counterexample: `B = diag(2,1)`. -/
def exB : Matrix (Fin 2) (Fin 2) ℝ := !![2, 0; 0, 1]

/-- The inner product of `exB`. -/
def exBip (x y : Fin 2 → ℝ) : ℝ := star x ⬝ᵥ (exB *ᵥ y)

theorem exBip_eq (x y : Fin 2 → ℝ) : exBip x y = 2 * (x 0 * y 0) + x 1 * y 1 := by
  simp [exBip, exB, Matrix.mulVec, dotProduct, Fin.sum_univ_two]
  ring

theorem exBip_inner : IsInner exBip where
  add_right x y z := by simp only [exBip_eq, Pi.add_apply]; ring
  smul_right x c y := by simp only [exBip_eq, Pi.smul_apply, smul_eq_mul]; ring
  conj_symm x y := by simp only [exBip_eq, conj_trivial]; ring
  pos x hx := by
    have : x 0 ≠ 0 ∨ x 1 ≠ 0 := by
      by_contra hc
      push Not at hc
      exact hx (funext fun i => by fin_cases i <;> simp [hc.1, hc.2])
    simp only [exBip_eq, RCLike.re_to_real]
    rcases this with h | h <;> nlinarith [mul_self_pos.mpr h, mul_self_nonneg (x 0), mul_self_nonneg (x 1)]

/-- Non-vacuity: the hypotheses hold for the projection onto the span of `(1,1)` in this inner product,
without orthogonalisation. -/
theorem exBip_hyp : ProjHyp exBip ⟨fun _ => .error .other, fun M => (1, M)⟩
    (fun _ : Fin 1 => ![1, 1]) none false := by
  refine ⟨exBip_inner, by simp, by simp, fun M => ⟨by simp, by simp, fun i j hij => by omega⟩, ?_⟩
  simp [gram, exBip_eq]
  norm_num

/-- Finding (C73): for another inner product than the Euclidean one `operator().adj` need not be the
conjugate transpose, even for an orthogonal projection: `B = diag(2,1)`, `X = (1,1)`. -/
theorem C73_adjoint_counterexample :
    ∃ p, mkProj exBip ⟨fun _ => .error .other, fun M => (1, M)⟩ (fun _ : Fin 1 => ![1, 1]) none
        false 1 = .ok p ∧
      p.matrix exBip = .ok ⟨2, 2, projMat exB (fun _ : Fin 1 => ![1, 1]) fun _ => ![1, 1]⟩ ∧
      ¬ Acts (p.operator exBip).dotAdj (projMat exB (fun _ : Fin 1 => ![1, 1]) fun _ => ![1, 1])ᴴ := by
  obtain ⟨p, hp, hm, -⟩ := C73_operators (B := exB) (fun _ _ => rfl) exBip_hyp le_rfl
  obtain ⟨p', hp', hc⟩ := C73_adjoint (B := exB) (fun _ _ => rfl) exBip_hyp le_rfl
  obtain rfl : p = p' := Except.ok.inj (hp.symm.trans hp')
  refine ⟨p, hp, hm, fun h => ?_⟩
  have h1 := congrFun (congrFun (hc.mp h) 0) 1
  have hd : ((colMat fun _ : Fin 1 => ![(1 : ℝ), 1])ᴴ * exB * colMat fun _ : Fin 1 => ![(1 : ℝ), 1])
      = Matrix.of fun _ _ => 3 := by
    ext i j
    simp [colMat, exB, Matrix.mul_apply, Fin.sum_univ_two]
    norm_num
  have hi : (Matrix.of fun _ _ : Fin 1 => (3 : ℝ))⁻¹ = Matrix.of fun _ _ => 3⁻¹ := by
    apply Matrix.inv_eq_left_inv
    ext i j
    obtain rfl : i = 0 := Fin.ext (by omega)
    obtain rfl : j = 0 := Fin.ext (by omega)
    simp [Matrix.mul_apply]
  simp only [Option.getD_none, projMat, hd, hi] at h1
  simp [colMat, exB, Matrix.mul_apply, Fin.sum_univ_two] at h1

/-- Non-vacuity of `C73_expressions`: the projection onto `(1,1)` along `(1,0)^⊥` in the plane. -/
example : ∃ (rt : QrRoutines ℝ (Fin 2 → ℝ) 1),
    ProjHyp (fun x y : Fin 2 → ℝ => star x ⬝ᵥ y) rt (fun _ => ![1, 1]) (some fun _ => ![1, 0]) false := by
  refine ⟨⟨fun _ => .error .other, fun M => (1, M)⟩, ⟨?_, ?_, ?_, ?_⟩, by simp, by simp,
    fun M => ⟨by simp, by simp, fun i j hij => by omega⟩, ?_⟩
  · intro x y z; simp
  · intro x c y; simp
  · intro x y; simp [dotProduct, Fin.sum_univ_two, mul_comm]
  · intro x hx
    have : x 0 ≠ 0 ∨ x 1 ≠ 0 := by
      by_contra hc
      push Not at hc
      exact hx (funext fun i => by fin_cases i <;> simp [hc.1, hc.2])
    simp only [dotProduct, Fin.sum_univ_two, star_trivial, RCLike.re_to_real]
    rcases this with h | h <;> nlinarith [mul_self_pos.mpr h, mul_self_nonneg (x 0), mul_self_nonneg (x 1)]
  · simp [gram, dotProduct, Fin.sum_univ_two]

end Krypy
