import Verif.Proofs.Gram
import Verif.Props.Qr
import Mathlib.Algebra.BigOperators.Fin

/-! # Properties C12 and C13: projections -/

set_option linter.unusedSectionVars false

namespace Krypy
variable {𝕜 E : Type*} [RCLike 𝕜] [AddCommGroup E] [Module 𝕜 E] {k : ℕ}
open scoped ComplexConjugate
open Matrix

/-- The documented formula `X ⟨Y,X⟩⁻¹ ⟨Y,a⟩` (utils.py 532-533). -/
noncomputable def oblique (ip : E → E → 𝕜) (X Y : Fin k → E) (a : E) : E :=
  lincomb X ((gram ip Y X)⁻¹ *ᵥ coefs ip Y a)

section formula
variable {ip : E → E → 𝕜} (h : IsInner ip) {X Y : Fin k → E} (hdet : (gram ip Y X).det ≠ 0)
include h

/-- The formula as a linear map. -/
noncomputable def obliqueLin (X Y : Fin k → E) : E →ₗ[𝕜] E where
  toFun := oblique ip X Y
  map_add' a b := by simp only [oblique, h.coefs_add, Matrix.mulVec_add, lincomb_add]
  map_smul' t a := by simp only [oblique, h.coefs_smul, Matrix.mulVec_smul, lincomb_smul]; rfl

include hdet

theorem unit_gram : IsUnit (gram ip Y X).det := isUnit_iff_ne_zero.mpr hdet

theorem oblique_coefs (a : E) : coefs ip Y (oblique ip X Y a) = coefs ip Y a := by
  unfold oblique
  rw [h.coefs_lincomb, Matrix.mulVec_mulVec, Matrix.mul_nonsing_inv _ (unit_gram h hdet),
    Matrix.one_mulVec]

theorem oblique_lincomb (c : Fin k → 𝕜) : oblique ip X Y (lincomb X c) = lincomb X c := by
  unfold oblique
  rw [h.coefs_lincomb, Matrix.mulVec_mulVec, Matrix.nonsing_inv_mul _ (unit_gram h hdet),
    Matrix.one_mulVec]

theorem oblique_idem (a : E) : oblique ip X Y (oblique ip X Y a) = oblique ip X Y a :=
  oblique_lincomb h hdet _

theorem oblique_eq_zero (a : E) : oblique ip X Y a = 0 ↔ ∀ j, ip (Y j) a = 0 := by
  constructor
  · intro h0 j
    have := oblique_coefs h hdet a
    rw [h0] at this
    have h1 := congrFun this j
    simpa [coefs, h.zero_right] using h1.symm
  · intro h0
    have : coefs ip Y a = 0 := funext h0
    simp [oblique, this, lincomb_zero]

theorem oblique_sub_self (a : E) : oblique ip X Y (a - oblique ip X Y a) = 0 := by
  have h1 := (obliqueLin h X Y).map_sub a (oblique ip X Y a)
  have h2 := oblique_idem h hdet a
  change oblique ip X Y _ = oblique ip X Y a - oblique ip X Y (oblique ip X Y a) at h1
  rw [h1, h2, sub_self]

theorem gram_swap_det : (gram ip X Y).det ≠ 0 := by
  rw [← h.gram_conjTranspose, Matrix.det_conjTranspose]
  simpa using hdet

theorem oblique_adjoint (a b : E) : ip (oblique ip X Y a) b = ip a (oblique ip Y X b) := by
  unfold oblique
  rw [h.ip_lincomb_left, h.ip_lincomb_right, Matrix.star_mulVec, Matrix.conjTranspose_nonsing_inv,
    h.gram_conjTranspose, Matrix.dotProduct_mulVec]

end formula

/-- Hypotheses on the input: the inner product is one, the factorisation routines obey their
contracts (`qr` only if it is used) and `⟨Y,X⟩` is nonsingular. -/
structure ProjHyp (ip : E → E → 𝕜) (rt : QrRoutines 𝕜 E k) (X : Fin k → E)
    (Y : Option (Fin k → E)) (orthogonalize : Bool) : Prop where
  inner : IsInner ip
  qrX : orthogonalize = true → ∃ V R, rt.qr X = .ok (V, R) ∧ IsQr ip X V R
  qrY : orthogonalize = true → ∀ Y', Y = some Y' → ∃ V R, rt.qr Y' = .ok (V, R) ∧ IsQr ip Y' V R
  matQr : ∀ M, IsMatQr M (rt.matQr M).1 (rt.matQr M).2
  nonsing : (gram ip (Y.getD X) X).det ≠ 0

/-- A constructed object computes the documented formula in one application. -/
structure ProjOK (ip : E → E → 𝕜) (X Y : Fin k → E) (p : Proj 𝕜 E k) : Prop where
  inner : IsInner ip
  nonsing : (gram ip Y X).det ≠ 0
  apply1 : ∀ a, p.apply1 ip a = .ok (oblique ip X Y a, coefs ip Y a)
  applyAdj1 : ∀ a, p.applyAdj1 ip a = .ok (oblique ip Y X a)

theorem oblique_of_isQr {ip : E → E → 𝕜} (h : IsInner ip) {X Y V W : Fin k → E}
    {VR WR : Matrix (Fin k) (Fin k) 𝕜} (hV : ∀ j, X j = lincomb V fun i => VR i j)
    (hW : ∀ j, Y j = lincomb W fun i => WR i j)
    (hdet : (gram ip Y X).det ≠ 0) :
    (gram ip W V).det ≠ 0 ∧ ∀ a, oblique ip X Y a = oblique ip V W a := by
  have eX : X = fun j => lincomb V fun i => VR i j := funext hV
  have eY : Y = fun j => lincomb W fun i => WR i j := funext hW
  have hg : gram ip Y X = WRᴴ * (gram ip W V * VR) := by
    rw [eX, eY, h.gram_left, h.gram_right]
  have hdets : (WRᴴ).det ≠ 0 ∧ (gram ip W V).det ≠ 0 ∧ VR.det ≠ 0 := by
    rw [hg, Matrix.det_mul, Matrix.det_mul] at hdet
    exact ⟨left_ne_zero_of_mul hdet, left_ne_zero_of_mul (right_ne_zero_of_mul hdet),
      right_ne_zero_of_mul (right_ne_zero_of_mul hdet)⟩
  refine ⟨hdets.2.1, fun a => ?_⟩
  unfold oblique
  have hc : coefs ip Y a = WRᴴ *ᵥ coefs ip W a := by rw [eY, h.coefs_left]
  have hl : ∀ c, lincomb X c = lincomb V (VR *ᵥ c) := by
    intro c; rw [lincomb_mulVec, eX]
  rw [hg, hc, hl, Matrix.mul_inv_rev, Matrix.mul_inv_rev]
  congr 1
  simp only [Matrix.mulVec_mulVec]
  congr 1
  rw [Matrix.mul_assoc, Matrix.mul_assoc,
    Matrix.nonsing_inv_mul _ (isUnit_iff_ne_zero.mpr hdets.1), Matrix.mul_one,
    ← Matrix.mul_assoc, Matrix.mul_nonsing_inv _ (isUnit_iff_ne_zero.mpr hdets.2.2),
    Matrix.one_mul]

theorem apply1_of_QR {ip : E → E → 𝕜} (h : IsInner ip) {V W : Fin k → E} (hk : k ≠ 0)
    {Q R : Matrix (Fin k) (Fin k) 𝕜} (hqr : IsMatQr (gram ip W V) Q R)
    (hdet : (gram ip W V).det ≠ 0) (VR WR : Option (Matrix (Fin k) (Fin k) 𝕜)) (it : ℕ) :
    (∀ a, (⟨V, W, VR, WR, some (Q, R), it⟩ : Proj 𝕜 E k).apply1 ip a =
      .ok (oblique ip V W a, match WR with | some WR => WRᴴ *ᵥ coefs ip W a | none => coefs ip W a)) ∧
    (∀ a, (⟨V, W, VR, WR, some (Q, R), it⟩ : Proj 𝕜 E k).applyAdj1 ip a =
      .ok (oblique ip W V a)) := by
  have hR := hqr.det_ne hdet
  constructor
  · intro a
    unfold Proj.apply1
    rw [if_neg hk]
    simp only [solveUpper_ok hqr.upper hR]
    unfold oblique
    rw [hqr.inv, Matrix.mulVec_mulVec]
    cases WR <;> rfl
  · intro a
    unfold Proj.applyAdj1
    rw [if_neg hk]
    simp only [solveLower_ok hqr.upper hR]
    unfold oblique
    have : (gram ip V W)⁻¹ = Q * (Rᴴ)⁻¹ := by
      rw [← h.gram_conjTranspose, ← Matrix.conjTranspose_nonsing_inv, hqr.inv,
        Matrix.conjTranspose_mul, Matrix.conjTranspose_conjTranspose,
        Matrix.conjTranspose_nonsing_inv]
    rw [this, Matrix.mulVec_mulVec]

theorem mkProj_ok {ip : E → E → 𝕜} {rt : QrRoutines 𝕜 E k} {X : Fin k → E}
    {Y : Option (Fin k → E)} {o : Bool} (hyp : ProjHyp ip rt X Y o) {it : ℤ} (hit : 1 ≤ it) :
    ∃ p, mkProj ip rt X Y o it = .ok p ∧ ProjOK ip X (Y.getD X) p ∧ p.iterations = it.toNat := by
  have h := hyp.inner
  have hit' : ¬ it < 1 := by omega
  by_cases hk : k = 0
  · subst hk
    refine ⟨_, by simp [mkProj, hit']; rfl, ⟨h, hyp.nonsing, fun a => ?_, fun a => ?_⟩, rfl⟩
    · simp only [Proj.apply1, if_true, oblique]
      simp only [Except.ok.injEq, Prod.mk.injEq]
      refine ⟨by simp [lincomb], ?_⟩
      funext i; exact i.elim0
    · simp [Proj.applyAdj1, oblique, lincomb]
  · cases o with
    | false =>
      refine ⟨_, by simp [mkProj, hit', hk]; rfl, ⟨h, hyp.nonsing, ?_, ?_⟩, rfl⟩
      · intro a
        have := (apply1_of_QR h hk (hyp.matQr _) hyp.nonsing none none it.toNat).1 a
        exact this
      · intro a
        have := (apply1_of_QR h hk (hyp.matQr _) hyp.nonsing none none it.toNat).2 a
        exact this
    | true =>
      obtain ⟨V, VR, hV, qV⟩ := hyp.qrX rfl
      cases Y with
      | none =>
        refine ⟨_, by simp [mkProj, hit', hk, hV]; rfl, ?_, rfl⟩
        obtain ⟨-, hob⟩ := oblique_of_isQr h qV.fact qV.fact hyp.nonsing
        have hob' : ∀ a, oblique ip V V a = lincomb V (coefs ip V a) := by
          intro a; simp [oblique, qV.orth]
        refine ⟨h, hyp.nonsing, fun a => ?_, fun a => ?_⟩
        · unfold Proj.apply1
          rw [if_neg hk]
          simp only [Option.getD_none, hob, hob']
          congr 2
          rw [← h.coefs_left]
          congr 1
          exact (funext qV.fact).symm
        · unfold Proj.applyAdj1
          rw [if_neg hk]
          simp only [Option.getD_none, hob, hob']
      | some Y =>
        obtain ⟨W, WR, hW, qW⟩ := hyp.qrY rfl Y rfl
        have hns : (gram ip Y X).det ≠ 0 := hyp.nonsing
        obtain ⟨hd, hob⟩ := oblique_of_isQr h qV.fact qW.fact hns
        obtain ⟨-, hob2⟩ := oblique_of_isQr h qW.fact qV.fact (gram_swap_det h hns)
        refine ⟨_, by simp [mkProj, hit', hk, hV, hW]; rfl, ⟨h, hns, fun a => ?_, fun a => ?_⟩, rfl⟩
        · have := (apply1_of_QR h hk (hyp.matQr (gram ip W V)) hd (some VR) (some WR) it.toNat).1 a
          rw [this]
          simp only [Option.getD_some, hob]
          congr 2
          rw [← h.coefs_left]
          congr 1
          exact (funext qW.fact).symm
        · have := (apply1_of_QR h hk (hyp.matQr (gram ip W V)) hd (some VR) (some WR) it.toNat).2 a
          rw [this]
          simp only [Option.getD_some, hob2]

section
variable {ip : E → E → 𝕜} {X Y : Fin k → E} {p : Proj 𝕜 E k} (hp : ProjOK ip X Y p)
include hp

theorem ProjOK.apply1x (a : E) : p.apply1x ip a = .ok (oblique ip X Y a) := by
  simp [Proj.apply1x, hp.apply1]

theorem ProjOK.apply_eq (a : E) : p.apply ip a = .ok (oblique ip X Y a, coefs ip Y a) := by
  unfold Proj.apply
  split
  · next hk =>
    subst hk
    simp only [Except.ok.injEq, Prod.mk.injEq]
    refine ⟨by simp [oblique, lincomb], ?_⟩
    funext i; exact i.elim0
  · simp only [hp.apply1]
    have : ∀ n, refine (p.apply1x ip) a n (oblique ip X Y a) = .ok (oblique ip X Y a) := by
      intro n
      induction n with
      | zero => rfl
      | succ n ih => simp [refine, ih, hp.apply1x, oblique_sub_self hp.inner hp.nonsing]
    rw [this]

theorem ProjOK.applyAdj_eq (a : E) : p.applyAdj ip a = .ok (oblique ip Y X a) := by
  unfold Proj.applyAdj
  split
  · next hk => subst hk; simp [oblique, lincomb]
  · simp only [hp.applyAdj1]
    generalize p.iterations - 1 = n
    induction n with
    | zero => rfl
    | succ n ih =>
      simp [refine, ih, hp.applyAdj1,
        oblique_sub_self hp.inner (gram_swap_det hp.inner hp.nonsing)]

theorem ProjOK.applyCompl_eq (a : E) :
    p.applyCompl ip a = .ok (a - oblique ip X Y a, coefs ip Y a) := by
  unfold Proj.applyCompl
  split
  · next hk =>
    subst hk
    simp only [Except.ok.injEq, Prod.mk.injEq]
    refine ⟨by simp [oblique, lincomb], ?_⟩
    funext i; exact i.elim0
  · simp only [hp.apply1]
    have : ∀ n, refineCompl (p.apply1x ip) n (a - oblique ip X Y a) = .ok (a - oblique ip X Y a) := by
      intro n
      induction n with
      | zero => rfl
      | succ n ih => simp [refineCompl, ih, hp.apply1x, oblique_sub_self hp.inner hp.nonsing]
    rw [this]

theorem ProjOK.applyComplAdj_eq (a : E) :
    p.applyComplAdj ip a = .ok (a - oblique ip Y X a) := by
  unfold Proj.applyComplAdj
  split
  · next hk => subst hk; simp [oblique, lincomb]
  · simp only [hp.applyAdj1]
    generalize p.iterations - 1 = n
    induction n with
    | zero => rfl
    | succ n ih =>
      simp [refineCompl, ih, hp.applyAdj1,
        oblique_sub_self hp.inner (gram_swap_det hp.inner hp.nonsing)]

end

/-- C12: the constructed projection is a linear idempotent map that fixes every column of `X`, has range
`span X` and kernel `Y^⊥` (for `Y = None`: `X^⊥`, i.e. it is the orthogonal projection). -/
theorem C12_projection {ip : E → E → 𝕜} {rt : QrRoutines 𝕜 E k} {X : Fin k → E}
    {Y : Option (Fin k → E)} {o : Bool} (hyp : ProjHyp ip rt X Y o) {it : ℤ} (hit : 1 ≤ it) :
    ∃ p, mkProj ip rt X Y o it = .ok p ∧ ∃ P : E →ₗ[𝕜] E,
      (∀ a, ∃ Ya, p.apply ip a = .ok (P a, Ya)) ∧
      (∀ a, P (P a) = P a) ∧
      (∀ j, P (X j) = X j) ∧
      LinearMap.range P = Submodule.span 𝕜 (Set.range X) ∧
      (∀ a, P a = 0 ↔ ∀ j, ip (Y.getD X j) a = 0) := by
  obtain ⟨p, hp, hok, -⟩ := mkProj_ok hyp hit
  have h := hyp.inner
  have hd := hyp.nonsing
  refine ⟨p, hp, obliqueLin h X (Y.getD X), fun a => ⟨_, hok.apply_eq a⟩, oblique_idem h hd, ?_, ?_,
    oblique_eq_zero h hd⟩
  · intro j
    have := oblique_lincomb h hd (Pi.single j 1)
    rwa [lincomb_single] at this
  · apply le_antisymm
    · rintro _ ⟨a, rfl⟩; exact lincomb_mem_span X _
    · intro x hx
      obtain ⟨c, rfl⟩ := (mem_span_iff_lincomb X x).mp hx
      exact ⟨lincomb X c, oblique_lincomb h hd c⟩

/-- C12: for `Y = None` the projection is orthogonal: self-adjoint, and `a - P a ⊥ X`. -/
theorem C12_orthogonal {ip : E → E → 𝕜} {rt : QrRoutines 𝕜 E k} {X : Fin k → E}
    {o : Bool} (hyp : ProjHyp ip rt X none o) {it : ℤ} (hit : 1 ≤ it) :
    ∃ p, mkProj ip rt X none o it = .ok p ∧ ∃ P : E →ₗ[𝕜] E,
      (∀ a, ∃ Ya, p.apply ip a = .ok (P a, Ya)) ∧ (∀ a b, ip (P a) b = ip a (P b)) ∧
      ∀ a j, ip (X j) (a - P a) = 0 := by
  obtain ⟨p, hp, hok, -⟩ := mkProj_ok hyp hit
  have h := hyp.inner
  refine ⟨p, hp, obliqueLin h X X, fun a => ⟨_, hok.apply_eq a⟩, fun a b =>
    oblique_adjoint h hyp.nonsing a b, fun a j => ?_⟩
  exact (oblique_eq_zero h hyp.nonsing _).mp (oblique_sub_self h hyp.nonsing a) j

/-- C12: the map is given by the documented formula `X ⟨Y,X⟩⁻¹ ⟨Y,a⟩`; in particular it does not depend on
`orthogonalize`, on `iterations` or on the factorisations. -/
theorem C12_formula {ip : E → E → 𝕜} {rt : QrRoutines 𝕜 E k} {X : Fin k → E}
    {Y : Option (Fin k → E)} {o : Bool} (hyp : ProjHyp ip rt X Y o) {it : ℤ} (hit : 1 ≤ it) :
    ∃ p, mkProj ip rt X Y o it = .ok p ∧ ∀ a, p.apply ip a =
      .ok (∑ i, ((gram ip (Y.getD X) X)⁻¹ *ᵥ fun j => ip (Y.getD X j) a) i • X i,
        fun j => ip (Y.getD X j) a) := by
  obtain ⟨p, hp, hok, -⟩ := mkProj_ok hyp hit
  exact ⟨p, hp, hok.apply_eq⟩

/-- C13: the complement is `a - P a`, `apply_adj` and `apply_complement_adj` are the adjoints, the
second return value is `⟨Y,a⟩`, all of it for every number of iterations. -/
theorem C13_complement_adjoint {ip : E → E → 𝕜} {rt : QrRoutines 𝕜 E k} {X : Fin k → E}
    {Y : Option (Fin k → E)} {o : Bool} (hyp : ProjHyp ip rt X Y o) {it : ℤ} (hit : 1 ≤ it) :
    ∃ p, mkProj ip rt X Y o it = .ok p ∧ ∃ P P' : E →ₗ[𝕜] E,
      (∀ a, p.apply ip a = .ok (P a, fun j => ip (Y.getD X j) a)) ∧
      (∀ a, p.applyCompl ip a = .ok (a - P a, fun j => ip (Y.getD X j) a)) ∧
      (∀ a, p.applyAdj ip a = .ok (P' a)) ∧
      (∀ a, p.applyComplAdj ip a = .ok (a - P' a)) ∧
      (∀ a b, ip (P a) b = ip a (P' b)) ∧
      (∀ a b, ip (a - P a) b = ip a (b - P' b)) := by
  obtain ⟨p, hp, hok, -⟩ := mkProj_ok hyp hit
  have h := hyp.inner
  have ha := oblique_adjoint h hyp.nonsing
  refine ⟨p, hp, obliqueLin h X (Y.getD X), obliqueLin h (Y.getD X) X, hok.apply_eq,
    hok.applyCompl_eq, hok.applyAdj_eq, hok.applyComplAdj_eq, ha, fun a b => ?_⟩
  rw [h.sub_left, h.sub_right]
  congr 1
  exact ha a b

/-- C13: the results do not depend on `iterations`. -/
theorem C13_iterations {ip : E → E → 𝕜} {rt : QrRoutines 𝕜 E k} {X : Fin k → E}
    {Y : Option (Fin k → E)} {o : Bool} (hyp : ProjHyp ip rt X Y o) {i j : ℤ} (hi : 1 ≤ i)
    (hj : 1 ≤ j) {p q : Proj 𝕜 E k} (hp : mkProj ip rt X Y o i = .ok p)
    (hq : mkProj ip rt X Y o j = .ok q) (a : E) :
    p.apply ip a = q.apply ip a ∧ p.applyAdj ip a = q.applyAdj ip a ∧
    p.applyCompl ip a = q.applyCompl ip a ∧ p.applyComplAdj ip a = q.applyComplAdj ip a := by
  obtain ⟨p', hp', hok, -⟩ := mkProj_ok hyp hi
  obtain ⟨q', hq', hok', -⟩ := mkProj_ok hyp hj
  rw [hp] at hp'; rw [hq] at hq'
  obtain rfl := Except.ok.inj hp'
  obtain rfl := Except.ok.inj hq'
  simp only [hok.apply_eq, hok'.apply_eq, hok.applyAdj_eq, hok'.applyAdj_eq, hok.applyCompl_eq,
    hok'.applyCompl_eq, hok.applyComplAdj_eq, hok'.applyComplAdj_eq, and_self]

/-- C13: `iterations < 1` is rejected. -/
theorem C13_iterations_error (ip : E → E → 𝕜) (rt : QrRoutines 𝕜 E k) (X : Fin k → E)
    (Y : Option (Fin k → E)) (o : Bool) {it : ℤ} (hit : it < 1) :
    mkProj ip rt X Y o it = .error .argumentError := by
  simp [mkProj, hit]

/-- The own `qr` routine (utils.py 680-707) satisfies the contract above its threshold. -/
theorem qrLoop_isQr {ip : E → E → 𝕜} (h : IsInner ip) {reorthos : ℕ} {X : ℕ → E} {Q : ℕ → E}
    {R : ℕ → ℕ → 𝕜} (hq : qrLoop ip reorthos X k = .ok (Q, R))
    (hd : ∀ i < k, (1e-15 : ℝ) ≤ RCLike.re (R i i)) :
    IsQr ip (fun i : Fin k => X i) (fun i : Fin k => Q i) (Matrix.of fun i j : Fin k => R i j) := by
  obtain ⟨Q', R', hq', hh⟩ := C11_qr h reorthos X k
  rw [hq] at hq'
  simp only [Except.ok.injEq, Prod.mk.injEq] at hq'
  obtain ⟨rfl, rfl⟩ := hq'
  obtain ⟨h1, h2, -, h4⟩ := hh hd
  refine ⟨fun j => ?_, ?_, fun i j hij => h2 _ _ hij⟩
  · rw [h1 j j.2, lincomb, Finset.sum_range]
    rfl
  · ext i j
    simp only [gram, Matrix.of_apply, h4 i i.2 j j.2, Matrix.one_apply, Fin.ext_iff]

/-- Finding (C12): the orthogonal case with `orthogonalize = False` and `Y = None` and singular `⟨X,X⟩`
raises `LinAlgError` when the projection is applied. -/
theorem C12_singular (ip : E → E → 𝕜) (p : Proj 𝕜 E k) (hk : k ≠ 0)
    {Q R : Matrix (Fin k) (Fin k) 𝕜} (hqr : p.QR = some (Q, R)) (hz : ∃ i, R i i = 0) (a : E) :
    p.apply ip a = .error .linAlgError := by
  simp [Proj.apply, hk, Proj.apply1, hqr, solveUpper, hz]

/-- Non-vacuity: the hypotheses hold for a projection with one column (an oblique projection in the plane is in `Props/OwnQr.lean`). -/
example : ∃ rt : QrRoutines ℝ ℝ 1,
    ProjHyp (fun x y : ℝ => x * y) rt (fun _ => 2) (some fun _ => 3) true := by
  refine ⟨⟨fun X => .ok (fun _ => 1, Matrix.of fun _ _ => X 0), fun M => (1, M)⟩, ?_⟩
  have h : ∀ X : Fin 1 → ℝ, IsQr (fun x y : ℝ => x * y) X (fun _ => 1)
      (Matrix.of fun _ _ => X 0) := by
    intro X
    refine ⟨fun j => ?_, ?_, fun i j hij => ?_⟩
    · obtain rfl : j = 0 := Fin.ext (by omega)
      simp [lincomb]
    · ext i j
      obtain rfl : i = 0 := Fin.ext (by omega)
      obtain rfl : j = 0 := Fin.ext (by omega)
      simp [gram]
    · omega
  exact ⟨isInner_mul, fun _ => ⟨_, _, rfl, h _⟩, fun _ Y' _ => ⟨_, _, rfl, h Y'⟩,
    fun M => ⟨by simp, by simp, fun i j hij => by omega⟩, by simp [gram]⟩

theorem refine_sub {f : E → Except Err E} {P : E → E} (hf : ∀ a, f a = .ok (P a)) (a x : E) (n : ℕ) :
    ∃ y, refine f a n x = .ok y ∧ a - y = (fun v => v - P v)^[n] (a - x) := by
  induction n with
  | zero => exact ⟨x, rfl, rfl⟩
  | succ n ih =>
    obtain ⟨y, hy, h⟩ := ih
    refine ⟨y + P (a - y), by simp [refine, hy, hf], ?_⟩
    rw [Function.iterate_succ_apply', ← h]
    abel

theorem refineCompl_eq {f : E → Except Err E} {P : E → E} (hf : ∀ a, f a = .ok (P a)) (z : E)
    (n : ℕ) : refineCompl f n z = .ok ((fun v => v - P v)^[n] z) := by
  induction n with
  | zero => rfl
  | succ n ih => simp [refineCompl, ih, hf, Function.iterate_succ_apply']

/-- C13, for **any** attributes of the object: nothing is assumed about `V`, `W`, `Q`, `R` except that
one application does not fail, so `P` need not be a projection (for example because the factorisations
are inexact).  The complement applies `1 - P` as often as `iterations` says, and `apply` and
`apply_complement` (and the adjoint variants) always add up to the identity. -/
theorem C13_refinement (ip : E → E → 𝕜) (p : Proj 𝕜 E k) (hk : k ≠ 0) (hit : 1 ≤ p.iterations)
    {P : E → E} (hP : ∀ a, p.apply1x ip a = .ok (P a)) {P' : E → E}
    (hP' : ∀ a, p.applyAdj1 ip a = .ok (P' a)) (a : E) :
    (∃ x z Ya, p.apply ip a = .ok (x, Ya) ∧ p.applyCompl ip a = .ok (z, Ya) ∧ x + z = a ∧
      z = (fun v => v - P v)^[p.iterations] a) ∧
    ∃ x z, p.applyAdj ip a = .ok x ∧ p.applyComplAdj ip a = .ok z ∧ x + z = a ∧
      z = (fun v => v - P' v)^[p.iterations] a := by
  have hsucc : p.iterations = p.iterations - 1 + 1 := by omega
  constructor
  · have h1 := hP a
    unfold Proj.apply1x at h1
    split at h1
    · cases h1
    rename_i x Ya hx
    obtain rfl := Except.ok.inj h1
    obtain ⟨y, hy, hay⟩ := refine_sub hP a (P a) (p.iterations - 1)
    refine ⟨y, a - y, Ya, by simp [Proj.apply, hk, hx, hy],
      by simp [Proj.applyCompl, hk, hx, refineCompl_eq hP, hay], by abel, ?_⟩
    rw [hay]
    conv_rhs => rw [hsucc, Function.iterate_succ_apply]
  · obtain ⟨y, hy, hay⟩ := refine_sub hP' a (P' a) (p.iterations - 1)
    refine ⟨y, a - y, by simp [Proj.applyAdj, hk, hP', hy],
      by simp [Proj.applyComplAdj, hk, hP', refineCompl_eq hP', hay], by abel, ?_⟩
    rw [hay]
    conv_rhs => rw [hsucc, Function.iterate_succ_apply]

/-- Non-vacuity of `C13_refinement` with a map which is not a projection: `V = W = (2)`, no `QR`, so
`P a = 4 a` and two iterations give the complement `9 a`. -/
example : ∃ x z Ya, (⟨fun _ => 2, fun _ => 2, none, none, none, 2⟩ : Proj ℝ ℝ 1).apply (· * ·) 1 =
    .ok (x, Ya) ∧ (⟨fun _ => 2, fun _ => 2, none, none, none, 2⟩ : Proj ℝ ℝ 1).applyCompl (· * ·) 1 =
    .ok (z, Ya) ∧ x + z = 1 ∧ z = 9 := by
  obtain ⟨⟨x, z, Ya, h1, h2, h3, h4⟩, -⟩ := C13_refinement (fun x y : ℝ => x * y)
    (⟨fun _ => 2, fun _ => 2, none, none, none, 2⟩ : Proj ℝ ℝ 1) one_ne_zero (by simp)
    (P := fun a => 4 * a) (P' := fun a => 4 * a)
    (by intro a; simp [Proj.apply1x, Proj.apply1, lincomb, coefs]; ring)
    (by intro a; simp [Proj.applyAdj1, lincomb, coefs]; ring) 1
  refine ⟨x, z, Ya, h1, h2, h3, ?_⟩
  rw [h4]
  norm_num

end Krypy
