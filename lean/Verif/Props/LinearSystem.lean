import Verif.Model.LinearSystem
import Verif.Model.InnerDispatch
import Verif.Proofs.Inner
import Verif.Props.Qr
import Mathlib.LinearAlgebra.Matrix.Notation
import Mathlib.Tactic.FinCases

/-! # Properties C14, C15 and C16: residuals, Hegedüs' trick, implied inner product -/

set_option linter.unusedSectionVars false

namespace Krypy
variable {𝕜 E : Type*} [RCLike 𝕜] [AddCommGroup E] [Module 𝕜 E]
open scoped ComplexConjugate
open Matrix

/-- Admissible arguments (linsys.py 46-59): `ip` is an inner product and `M` is self-adjoint and positive
definite with respect to it, i.e. `⟨x, M y⟩` is an inner product. -/
structure LSHyp (ip : E → E → 𝕜) (M : E →ₗ[𝕜] E) : Prop where
  inner : IsInner ip
  prec : IsInner fun x y => ip x (M y)

/-- `M` is self-adjoint. -/
theorem LSHyp.symm {ip : E → E → 𝕜} {M : E →ₗ[𝕜] E} (h : LSHyp ip M) (x y : E) :
    ip (M x) y = ip x (M y) := by
  have h1 := h.prec.conj_symm y x
  simp only [h.inner.conj_symm] at h1
  exact h1

/-- A system built from admissible arguments, described by its mathematical content. -/
structure LSOK (a : LSArgs 𝕜 E) (s : LS 𝕜 E) : Prop where
  hyp : LSHyp a.ip a.M
  A : s.A = a.A
  b : s.b = a.b
  M : s.M = a.M
  Ml : s.Ml = a.Ml
  Mr : s.Mr = a.Mr
  ip : s.ip = a.ip
  MlAMr : ∀ x, s.MlAMr x = a.Ml (a.A (a.Mr x))
  Mlb : s.Mlb = a.Ml a.b
  MMlb : s.MMlb = a.M (a.Ml a.b)
  norm : s.MMlbNorm = nrm (fun x y => a.ip x (a.M y)) (a.Ml a.b)

theorem mkLS_ok {a : LSArgs 𝕜 E} (h : LSHyp a.ip a.M) : ∃ s, mkLS a = .ok s ∧ LSOK a s ∧
    s.selfAdjoint = a.selfAdjoint ∧ (a.selfAdjoint = true → s.normal = true) := by
  have hn : npNorm (a.ip (a.Ml a.b) (a.M (a.Ml a.b))) = _ := h.prec.npNorm_self (a.Ml a.b)
  refine ⟨⟨a.A, a.b, a.M, a.Ml, a.Mr, a.ip, a.Ml.comp (a.A.comp a.Mr),
    if a.selfAdjoint then true else a.normal.getD false, a.selfAdjoint, a.positiveDefinite,
    a.Ml a.b, a.M (a.Ml a.b), nrm (fun x y => a.ip x (a.M y)) (a.Ml a.b)⟩, ?_,
    ⟨h, rfl, rfl, rfl, rfl, rfl, rfl, fun _ => rfl, rfl, rfl, rfl⟩, rfl, ?_⟩
  · simp only [mkLS, hn]
    cases hs : a.selfAdjoint <;> simp
  · intro hs; simp [hs]

/-- C14: for admissible arguments the constructor succeeds, and for every `z` the residual is
`(M Ml (b - A z), Ml (b - A z))` with norm `sqrt ⟨Ml r, M Ml r⟩`. -/
theorem C14_residual {a : LSArgs 𝕜 E} (h : LSHyp a.ip a.M) : ∃ s, mkLS a = .ok s ∧
    ∀ z : Option E, ∃ ρ : ℝ,
      s.getResidual z = (a.M (a.Ml (a.b - a.A (z.getD 0))), a.Ml (a.b - a.A (z.getD 0))) ∧
      s.getResidualNorm z =
        .ok (a.M (a.Ml (a.b - a.A (z.getD 0))), a.Ml (a.b - a.A (z.getD 0)), ρ) ∧
      0 ≤ ρ ∧
      ((ρ ^ 2 : ℝ) : 𝕜) = a.ip (a.Ml (a.b - a.A (z.getD 0))) (a.M (a.Ml (a.b - a.A (z.getD 0)))) ∧
      (ρ = 0 ↔ a.Ml (a.b - a.A (z.getD 0)) = 0) := by
  obtain ⟨s, hs, ok, -⟩ := mkLS_ok h
  refine ⟨s, hs, fun z => ⟨nrm (fun x y => a.ip x (a.M y)) (a.Ml (a.b - a.A (z.getD 0))),
    ?_, ?_, nrm_nonneg _ _, ?_, h.prec.nrm_eq_zero⟩⟩
  · cases z with
    | none => simp [LS.getResidual, ok.MMlb, ok.Mlb]
    | some z => simp [LS.getResidual, ok.M, ok.Ml, ok.A, ok.b]
  · cases z with
    | none => simp [LS.getResidualNorm, ok.MMlb, ok.Mlb, ok.norm]
    | some z =>
      simp only [LS.getResidualNorm, ok.M, ok.Ml, ok.A, ok.b, ok.ip, Option.getD_some]
      rw [h.prec.npNorm_self (a.Ml (a.b - a.A z))]
  · rw [h.prec.nrm_sq]
    exact (h.prec.self_real _).symm

/-- C14: `get_residual(None)` is `get_residual` of the zero vector. -/
theorem C14_none {a : LSArgs 𝕜 E} {s : LS 𝕜 E} (hs : mkLS a = .ok s) :
    s.getResidual none = s.getResidual (some 0) ∧
    s.getResidualNorm none = s.getResidualNorm (some 0) := by
  unfold mkLS at hs
  dsimp only at hs
  rw [if_neg (by cases a.selfAdjoint <;> simp)] at hs
  split at hs
  · simp at hs
  next nb hnb =>
  simp only [Except.ok.injEq] at hs
  subst hs
  simp [LS.getResidual, LS.getResidualNorm, hnb]

/-- C14: the flags of a constructed system.  `self_adjoint` and `positive_definite` are stored as given; `normal` is `True` iff it was
given as `True` or the system is marked self-adjoint (also against an explicit `normal=False`, for which the code only warns).  The
constructor never raises `ArgumentError`: it succeeds iff the norm of `M Ml b` can be computed. -/
theorem C14_flags (a : LSArgs 𝕜 E) : mkLS a ≠ .error .argumentError ∧
    ((∃ s, mkLS a = .ok s) ↔ ∃ r, npNorm (a.ip (a.Ml a.b) (a.M (a.Ml a.b))) = .ok r) ∧
    ∀ s, mkLS a = .ok s → s.selfAdjoint = a.selfAdjoint ∧ s.positiveDefinite = a.positiveDefinite ∧
      (s.normal = true ↔ a.selfAdjoint = true ∨ a.normal = some true) := by
  have h0 : (a.selfAdjoint && !(if a.selfAdjoint then true else a.normal.getD false)) = false := by
    cases a.selfAdjoint <;> simp
  unfold mkLS
  simp only [h0, Bool.false_eq_true, if_false]
  cases hn : npNorm (a.ip (a.Ml a.b) (a.M (a.Ml a.b))) with
  | error e =>
    refine ⟨?_, by simp, by simp⟩
    unfold npNorm at hn
    split at hn <;> simp at hn
    simp [← hn]
  | ok r =>
    refine ⟨by simp, by simp, ?_⟩
    rintro s ⟨⟩
    refine ⟨rfl, rfl, ?_⟩
    dsimp only
    cases a.selfAdjoint <;> cases hh : a.normal <;> simp

/-- C15: Hegedüs' trick minimises over all scalings of the initial guess, unless the threshold applies. -/
theorem C15_minimal {ip : E → E → 𝕜} {M : E →ₗ[𝕜] E} (h : LSHyp ip M) (A Ml : E →ₗ[𝕜] E) (b x0 : E)
    (hz : 1e-15 < RCLike.re (ip (Ml (A x0)) (M (Ml (A x0))))) :
    ∃ γ : 𝕜, hegedus ip A M Ml b x0 = γ • x0 ∧ ∀ δ : 𝕜,
      nrm (fun x y => ip x (M y)) (Ml (b - A (γ • x0))) ≤
      nrm (fun x y => ip x (M y)) (Ml (b - A (δ • x0))) := by
  set w := Ml (A x0) with hw
  set c := Ml b with hc
  have g := h.prec
  have e1 : ip (M w) w = ip w (M w) := h.symm w w
  have hne : ip w (M w) ≠ 0 := by
    intro h0
    rw [h0] at hz
    norm_num at hz
  refine ⟨ip (M w) c / ip (M w) w, ?_, fun δ => ?_⟩
  · unfold hegedus
    simp only [← hw, ← hc]
    rw [if_neg]
    rw [e1]
    rintro (h1 | h1)
    · linarith
    · linarith [h1.1]
  · set γ := ip (M w) c / ip (M w) w with hγ
    have hres : ∀ t : 𝕜, Ml (b - A (t • x0)) = c - t • w := by intro t; simp [hw, hc]
    rw [hres, hres]
    have hdec : c - δ • w = (c - γ • w) + (γ - δ) • w := by module
    have horth : ip w (M (c - γ • w)) = 0 := by
      have : ip w (M (c - γ • w)) = ip w (M c) - γ * ip w (M w) := by
        rw [map_sub, map_smul, h.inner.sub_right, h.inner.smul_right]
      rw [this, hγ, e1, h.symm]
      field_simp
      ring
    have horth2 : (fun x y => ip x (M y)) (c - γ • w) ((γ - δ) • w) = 0 := by
      have h1 := g.conj_symm w (c - γ • w)
      simp only [horth, map_zero] at h1
      dsimp only
      rw [map_smul, h.inner.smul_right, ← h1, mul_zero]
    have hsq := g.nsq_add_of_orth horth2
    rw [hdec]
    unfold nrm
    apply Real.sqrt_le_sqrt
    rw [hsq]
    linarith [g.nsq_nonneg ((γ - δ) • w)]

/-- C15: in every case the residual is not larger than the one of the zero initial guess. -/
theorem C15_not_worse {ip : E → E → 𝕜} {M : E →ₗ[𝕜] E} (h : LSHyp ip M) (A Ml : E →ₗ[𝕜] E) (b x0 : E) :
    nrm (fun x y => ip x (M y)) (Ml (b - A (hegedus ip A M Ml b x0))) ≤
    nrm (fun x y => ip x (M y)) (Ml b) := by
  by_cases hz : 1e-15 < RCLike.re (ip (Ml (A x0)) (M (Ml (A x0))))
  · obtain ⟨γ, h1, h2⟩ := C15_minimal h A Ml b x0 hz
    have := h2 0
    rw [h1]
    simpa using this
  · have him : RCLike.im (ip (Ml (A x0)) (M (Ml (A x0)))) = 0 := h.prec.im_self _
    have e : hegedus ip A M Ml b x0 = 0 := by
      unfold hegedus
      simp only [h.symm]
      rw [if_pos]
      rcases lt_or_eq_of_le (not_lt.mp hz) with h1 | h1
      · exact Or.inl h1
      · exact Or.inr ⟨h1, him.le⟩
    rw [e]; simp

/-- Finding (C15): below the threshold the result is not optimal: for `A = 1`, `b = x0 = 1e-8` (one
dimension) the guess `x0` already solves the system but zero is returned. -/
theorem C15_threshold_counterexample :
    hegedus (fun x y : ℝ => x * y) LinearMap.id LinearMap.id LinearMap.id 1e-8 1e-8 = 0 := by
  unfold hegedus
  simp only [LinearMap.id_apply]
  rw [if_pos]
  left
  norm_num

/-- Non-vacuity of C15: the optimal factor is found for `A = 2`, `b = 6`, `x0 = 1`. -/
example : hegedus (fun x y : ℝ => x * y) ((2 : ℝ) • LinearMap.id) LinearMap.id LinearMap.id 6 1 = 3 ∧
    LSHyp (fun x y : ℝ => x * y) LinearMap.id := by
  refine ⟨?_, isInner_mul, isInner_mul⟩
  unfold hegedus
  simp only [LinearMap.id_apply, LinearMap.smul_apply]
  rw [if_neg] <;> norm_num

section C16
variable {N : ℕ}

/-- The bilinear form `Xᴴ G Y` denoted by a value of `ip_B` for blocks: the reference meaning. -/
def IpB.Denotes (B : IpB 𝕜 N) (G : Matrix (Fin N) (Fin N) 𝕜) : Prop :=
  ∀ (m n : ℕ) (X : Matrix (Fin N) (Fin m) 𝕜) (Y : Matrix (Fin N) (Fin n) 𝕜),
    innerB X Y B = Xᴴ * G * Y

/-- `inner` computes `Xᴴ B Y` for every shape if `B` is Hermitian. -/
theorem denotes_op {B : Matrix (Fin N) (Fin N) 𝕜} (hB : Bᴴ = B) : (IpB.op B).Denotes B := by
  intro m n X Y
  simp only [innerB]
  split
  · rw [Matrix.conjTranspose_mul, hB]
  · rw [Matrix.mul_assoc]

theorem denotes_euclid : (IpB.euclid : IpB 𝕜 N).Denotes 1 := by
  intro m n X Y
  simp [innerB]

/-- Finding: `inner` is inconsistent between tall and wide blocks if `B` is not Hermitian. -/
theorem inner_shape_dependent (B : Matrix (Fin N) (Fin N) 𝕜) (hB : ∃ G, (IpB.op B).Denotes G) :
    Bᴴ = B := by
  obtain ⟨G, hG⟩ := hB
  rcases Nat.eq_zero_or_pos N with rfl | hN
  · ext i; exact i.elim0
  have h1 := hG N (N + 1) 1 (Matrix.of fun i j => if (j : ℕ) = i then 1 else 0)
  have h2 := hG (N + 1) N (Matrix.of fun i j => if (j : ℕ) = i then 1 else 0) 1
  have e1 : B = G := by
    ext i j
    have := congrFun (congrFun h1 i) j.castSucc
    simpa [innerB, Matrix.mul_apply, Matrix.one_apply, Fin.val_inj, eq_comm] using this
  have e2 : Bᴴ = G := by
    ext i j
    have := congrFun (congrFun h2 i.castSucc) j
    simpa [innerB, Matrix.mul_apply, Matrix.one_apply, Fin.val_inj, apply_ite, eq_comm] using this
  rw [e2, e1]

/-- The relation that defines the inner product implied by `M` (documentation, linsys.py 46-52): for
`⟨x,y⟩ = xᴴ G y`, it is `⟨x, y⟩' = ⟨M⁻¹ x, y⟩`. -/
def Implied (G Minv G' : Matrix (Fin N) (Fin N) 𝕜) : Prop := G' = Minvᴴ * G

/-- With the implied inner product `⟨M u, M v⟩' = ⟨u, M v⟩`. -/
theorem C16_implied {G M Minv G' : Matrix (Fin N) (Fin N) 𝕜} (hinv : Minv * M = 1)
    (hI : Implied G Minv G') (u v : Matrix (Fin N) (Fin 1) 𝕜) :
    (M * u)ᴴ * G' * (M * v) = uᴴ * G * (M * v) := by
  rw [hI, Matrix.conjTranspose_mul]
  have : Mᴴ * Minvᴴ = 1 := by rw [← Matrix.conjTranspose_mul, hinv, Matrix.conjTranspose_one]
  calc uᴴ * Mᴴ * (Minvᴴ * G) * (M * v) = uᴴ * (Mᴴ * Minvᴴ) * G * (M * v) := by
        simp only [Matrix.mul_assoc]
    _ = _ := by rw [this, Matrix.mul_one]

/-- Self-adjointness of `M` with respect to `xᴴ G y` carries over to the inverse. -/
theorem selfadj_inv {G M Minv : Matrix (Fin N) (Fin N) 𝕜} (h1 : Minv * M = 1)
    (hsa : Mᴴ * G = G * M) : Minvᴴ * G = G * Minv := by
  have h2 : M * Minv = 1 := mul_eq_one_comm.mp h1
  have h3 : Minvᴴ * Mᴴ = 1 := by rw [← Matrix.conjTranspose_mul, h2, Matrix.conjTranspose_one]
  calc Minvᴴ * G = Minvᴴ * (G * M) * Minv := by
        rw [Matrix.mul_assoc, Matrix.mul_assoc, h2, Matrix.mul_one]
    _ = Minvᴴ * Mᴴ * G * Minv := by rw [← hsa, Matrix.mul_assoc Minvᴴ Mᴴ G]
    _ = G * Minv := by rw [h3, Matrix.one_mul]

/-- C16, callables: the returned callable denotes the implied inner product. -/
theorem C16_callable {f : ∀ {m n : ℕ}, Matrix (Fin N) (Fin m) 𝕜 → Matrix (Fin N) (Fin n) 𝕜 →
      Matrix (Fin m) (Fin n) 𝕜} {G M Minv : Matrix (Fin N) (Fin N) 𝕜}
    (hf : (IpB.callable f).Denotes G) (h1 : Minv * M = 1) (hsa : Mᴴ * G = G * M) :
    ∃ B' G', ipMinvB (some M) (some Minv) (.callable f) = .ok B' ∧ B'.Denotes G' ∧
      Implied G Minv G' := by
  refine ⟨_, _, rfl, ?_, rfl⟩
  intro m n X Y
  have := hf m n X (Minv * Y)
  simp only [innerB] at this ⊢
  rw [this, selfadj_inv h1 hsa]
  simp only [Matrix.mul_assoc]

/-- C16, Euclidean inner product: correct. -/
theorem C16_euclid {M Minv : Matrix (Fin N) (Fin N) 𝕜} (h1 : Minv * M = 1) (hsa : Mᴴ = M) :
    ∃ B' G', ipMinvB (some M) (some Minv) .euclid = .ok B' ∧ B'.Denotes G' ∧ Implied 1 Minv G' := by
  have h2 : Minvᴴ = Minv := by
    have := selfadj_inv (G := 1) h1 (by simpa using hsa)
    simpa using this
  refine ⟨_, Minv, rfl, denotes_op h2, by simp [Implied, h2]⟩

/-- C16, operators: the returned operator denotes the implied inner product if and only if `Minv` and
`B` commute. -/
theorem C16_operator_iff {B M Minv : Matrix (Fin N) (Fin N) 𝕜} (hB : Bᴴ = B) (h1 : Minv * M = 1)
    (hsa : Mᴴ * B = B * M) :
    (∃ B' G', ipMinvB (some M) (some Minv) (.op B) = .ok B' ∧ B'.Denotes G' ∧ Implied B Minv G') ↔
      Minv * B = B * Minv := by
  have h3 := selfadj_inv h1 hsa
  have h4 : (Minv * B)ᴴ = B * Minvᴴ := by rw [Matrix.conjTranspose_mul, hB]
  constructor
  · rintro ⟨B', G', hok, hd, hi⟩
    obtain rfl := Except.ok.inj hok
    have h5 := inner_shape_dependent _ ⟨G', hd⟩
    have h6 := hd N N 1 1
    simp only [innerB, gt_iff_lt, lt_self_iff_false, if_false, Matrix.conjTranspose_one,
      Matrix.one_mul, Matrix.mul_one] at h6
    rw [h6, hi, h3]
  · intro hc
    have h5 : (Minv * B)ᴴ = Minv * B := by
      rw [hc, Matrix.conjTranspose_mul, hB, h3]
    refine ⟨_, _, rfl, denotes_op h5, ?_⟩
    rw [Implied, h3, hc]

/-- C16: without `Minv` an error is raised; without `M` the inner product itself is returned. -/
theorem C16_missing (M : Matrix (Fin N) (Fin N) 𝕜) (Minv : Option (Matrix (Fin N) (Fin N) 𝕜))
    (B : IpB 𝕜 N) : ipMinvB (some M) none B = .error .argumentError ∧ ipMinvB none Minv B = .ok B :=
  ⟨rfl, rfl⟩

/-- Finding (C16): with `B = diag(1,2)` and `M = B⁻¹ S`, `S = [[2,1],[1,2]]` (self-adjoint and positive
definite with respect to `B`) the operator returned by `get_ip_Minv_B` is not the implied inner
product. -/
theorem C16_operator_counterexample :
    ∃ B M Minv : Matrix (Fin 2) (Fin 2) ℝ, Bᴴ = B ∧ Minv * M = 1 ∧ Mᴴ * B = B * M ∧
      ¬ ∃ B' G', ipMinvB (some M) (some Minv) (.op B) = .ok B' ∧ B'.Denotes G' ∧ Implied B Minv G' := by
  refine ⟨!![1, 0; 0, 2], !![2, 1; 1/2, 1], !![2/3, -2/3; -1/3, 4/3], ?_, ?_, ?_, ?_⟩
  · ext i j; fin_cases i <;> fin_cases j <;> simp
  · ext i j; fin_cases i <;> fin_cases j <;> norm_num [Matrix.mul_apply, Fin.sum_univ_two]
  · ext i j; fin_cases i <;> fin_cases j <;> norm_num [Matrix.mul_apply, Fin.sum_univ_two]
  · rw [C16_operator_iff]
    · intro h
      have := congrFun (congrFun h 0) 1
      norm_num [Matrix.mul_apply, Fin.sum_univ_two] at this
    · ext i j; fin_cases i <;> fin_cases j <;> simp
    · ext i j; fin_cases i <;> fin_cases j <;> norm_num [Matrix.mul_apply, Fin.sum_univ_two]
    · ext i j; fin_cases i <;> fin_cases j <;> norm_num [Matrix.mul_apply, Fin.sum_univ_two]

/-- A Hermitian positive definite matrix gives an inner product in the sense of `IsInner`. -/
theorem isInner_op {B : Matrix (Fin N) (Fin N) 𝕜} (hB : Bᴴ = B)
    (hpos : ∀ x : Fin N → 𝕜, x ≠ 0 → 0 < RCLike.re (star x ⬝ᵥ B *ᵥ x)) :
    IsInner (inner1 (.op B)) := by
  have e : ∀ x y, inner1 (.op B) x y = star x ⬝ᵥ B *ᵥ y := by
    intro x y
    simp [inner1, innerB, colv, Matrix.mul_apply, dotProduct, Matrix.mulVec]
  refine ⟨fun x y z => ?_, fun x c y => ?_, fun x y => ?_, fun x hx => ?_⟩
  · simp only [e, Matrix.mulVec_add, dotProduct_add]
  · simp only [e, Matrix.mulVec_smul, dotProduct_smul, smul_eq_mul]
  · simp only [e]
    rw [starRingEnd_apply, ← Matrix.star_dotProduct_star, star_star, Matrix.star_mulVec, hB,
      dotProduct_comm, Matrix.dotProduct_mulVec, dotProduct_comm]
  · rw [e]; exact hpos x hx

end C16
end Krypy
