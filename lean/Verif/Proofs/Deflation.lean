import Verif.Model.Deflation
import Verif.Props.Projection
import Verif.Props.Gmres

/-! # The oblique projection of deflated solvers -/

set_option linter.unusedSectionVars false

namespace Krypy
variable {𝕜 E : Type*} [RCLike 𝕜] [AddCommGroup E] [Module 𝕜 E] {k : ℕ}
open scoped ComplexConjugate
open Matrix

/-- Coordinates of the oblique projection in a transformed basis. -/
theorem coords_transform {ip : E → E → 𝕜} (h : IsInner ip) {X Y V W : Fin k → E}
    {VR WR : Matrix (Fin k) (Fin k) 𝕜} (hV : ∀ j, X j = lincomb V fun i => VR i j)
    (hW : ∀ j, Y j = lincomb W fun i => WR i j) (hdet : (gram ip Y X).det ≠ 0) :
    VR.det ≠ 0 ∧ WR.det ≠ 0 ∧ (gram ip W V).det ≠ 0 ∧ gram ip Y X = WRᴴ * (gram ip W V * VR) ∧
    ∀ a, VR *ᵥ ((gram ip Y X)⁻¹ *ᵥ coefs ip Y a) = (gram ip W V)⁻¹ *ᵥ coefs ip W a := by
  have eX : X = fun j => lincomb V fun i => VR i j := funext hV
  have eY : Y = fun j => lincomb W fun i => WR i j := funext hW
  have hg : gram ip Y X = WRᴴ * (gram ip W V * VR) := by
    rw [eX, eY, h.gram_left, h.gram_right]
  have hdets : (WRᴴ).det ≠ 0 ∧ (gram ip W V).det ≠ 0 ∧ VR.det ≠ 0 := by
    rw [hg, Matrix.det_mul, Matrix.det_mul] at hdet
    exact ⟨left_ne_zero_of_mul hdet, left_ne_zero_of_mul (right_ne_zero_of_mul hdet),
      right_ne_zero_of_mul (right_ne_zero_of_mul hdet)⟩
  refine ⟨hdets.2.2, ?_, hdets.2.1, hg, fun a => ?_⟩
  · have := hdets.1
    rw [Matrix.det_conjTranspose] at this
    intro h0
    rw [h0, star_zero] at this
    exact this rfl
  have hc : coefs ip Y a = WRᴴ *ᵥ coefs ip W a := by rw [eY, h.coefs_left]
  rw [hg, hc, Matrix.mul_inv_rev, Matrix.mul_inv_rev]
  simp only [Matrix.mulVec_mulVec]
  congr 1
  rw [Matrix.mul_assoc, Matrix.mul_assoc,
    Matrix.nonsing_inv_mul _ (isUnit_iff_ne_zero.mpr hdets.1), Matrix.mul_one,
    ← Matrix.mul_assoc, Matrix.mul_nonsing_inv _ (isUnit_iff_ne_zero.mpr hdets.2.2),
    Matrix.one_mul]

theorem lincomb_change {X V : Fin k → E} {R : Matrix (Fin k) (Fin k) 𝕜} (h : ∀ j, X j = lincomb V fun i => R i j)
    (c : Fin k → 𝕜) : lincomb V (R *ᵥ c) = lincomb X c := by
  rw [lincomb_mulVec, ← funext h]

/-- Families with nonsingular Gram matrix are linearly independent. -/
theorem indep_of_gram {ip : E → E → 𝕜} (h : IsInner ip) {X Y : Fin k → E} (hdet : (gram ip Y X).det ≠ 0) :
    LinearIndependent 𝕜 X := by
  rw [Fintype.linearIndependent_iff]
  intro c hc i
  have h1 := h.coefs_lincomb Y X c
  have h2 : lincomb X c = 0 := hc
  have h3 : coefs ip Y (0 : E) = 0 := by funext j; exact h.zero_right _
  rw [h2, h3] at h1
  have h4 : c = (gram ip Y X)⁻¹ *ᵥ (gram ip Y X *ᵥ c) := by
    rw [Matrix.mulVec_mulVec, Matrix.nonsing_inv_mul _ (isUnit_iff_ne_zero.mpr hdet), Matrix.one_mulVec]
  rw [← h1, Matrix.mulVec_zero] at h4
  exact congrFun h4 i

/-- `Ml A Mr`. -/
def LSArgs.B (a : LSArgs 𝕜 E) : E →ₗ[𝕜] E := a.Ml ∘ₗ a.A ∘ₗ a.Mr

/-- Admissible input of a deflated solver: the factorisation routines obey their contracts **for the arrays they are
called with** (the given basis `U`; the returned basis `W` and `Ml A Mr W`), and the matrix `⟨U, Ml A Mr U⟩` of the given
basis is nonsingular.  `C36_own_qr` shows when the library's own `qr` obeys these contracts. -/
structure DeflHyp (a : LSArgs 𝕜 E) (oa : OblArgs 𝕜 E k) (U : Fin k → E) : Prop where
  ls : LSHyp a.ip a.M
  qrM : ∃ V R, oa.qrM U = .ok (V, R) ∧ ∀ j, U j = lincomb V fun i => R i j
  qr : oa.orthogonalize = true → ∀ W R, oa.qrM U = .ok (W, R) → ∀ X, (X = W ∨ X = fun j => a.B (W j)) →
    LinearIndependent 𝕜 X → ∃ V R, oa.rt.qr X = .ok (V, R) ∧ IsQr a.ip X V R
  matQr : ∀ M, IsMatQr M (oa.rt.matQr M).1 (oa.rt.matQr M).2
  nonsing : (gram a.ip U fun j => a.B (U j)).det ≠ 0
  same : oa.same = true → ∀ x, a.B x = x
  iterations : 1 ≤ oa.iterations

/-- What is known about a constructed projection, in terms of the given basis `U` of the deflation space. -/
structure OblOK (a : LSArgs 𝕜 E) (s : LS 𝕜 E) (U : Fin k → E) (o : Obl 𝕜 E k) : Prop where
  inner : IsInner a.ip
  nonsing : (gram a.ip U fun j => a.B (U j)).det ≠ 0
  basis : ∃ R : Matrix (Fin k) (Fin k) 𝕜, R.det ≠ 0 ∧ ∀ j, U j = lincomb o.U fun i => R i j
  AU : ∀ j, o.AU j = a.B (o.U j)
  compl : ∀ v, o.proj.applyCompl a.ip v = .ok (v - oblique a.ip (fun j => a.B (U j)) U v, coefs a.ip o.U v)
  correct : ∀ z, o.correct s z = .ok (z + lincomb U ((gram a.ip U fun j => a.B (U j))⁻¹ *ᵥ
    coefs a.ip U (a.Ml (a.b - a.A z))))
  E : o.Emat = gram a.ip o.U o.AU

theorem map_lincomb {ι : Type*} [Fintype ι] (B : E →ₗ[𝕜] E) (V : ι → E) (c : ι → 𝕜) :
    B (lincomb V c) = lincomb (fun j => B (V j)) c := by
  simp [lincomb, map_sum]

theorem mkObl_ok {a : LSArgs 𝕜 E} {s : LS 𝕜 E} (ok : LSOK a s) {oa : OblArgs 𝕜 E k} {U : Fin k → E}
    (h : DeflHyp a oa U) : ∃ o, mkObl s oa U = .ok o ∧ OblOK a s U o := by
  obtain ⟨W0, R0, hq, hfact⟩ := h.qrM
  have hi := h.ls.inner
  have hB : ∀ x, s.MlAMr x = a.B x := ok.MlAMr
  have hBU : ∀ j, a.B (U j) = lincomb (fun j => a.B (W0 j)) fun i => R0 i j := by
    intro j; rw [hfact, map_lincomb]
  obtain ⟨hR0, -, hdet, -, hco⟩ := coords_transform hi hBU hfact h.nonsing
  have hobl : ∀ v, oblique a.ip (fun j => a.B (U j)) U v = oblique a.ip (fun j => a.B (W0 j)) W0 v :=
    (oblique_of_isQr hi hBU hfact h.nonsing).2
  have hcorr : ∀ v, lincomb U ((gram a.ip U fun j => a.B (U j))⁻¹ *ᵥ coefs a.ip U v) =
      lincomb W0 ((gram a.ip W0 fun j => a.B (W0 j))⁻¹ *ᵥ coefs a.ip W0 v) := by
    intro v
    rw [← hco, lincomb_change hfact]
  set X : Fin k → E := fun j => a.B (W0 j) with hX
  have hsX : (fun j => s.MlAMr (W0 j)) = X := funext fun j => hB _
  have hW0swap : (gram a.ip X W0).det ≠ 0 := gram_swap_det hi hdet
  have hindX : LinearIndependent 𝕜 X := indep_of_gram hi hdet
  have hindW : LinearIndependent 𝕜 W0 := indep_of_gram hi hW0swap
  have hsame : oa.same = true → X = W0 := fun hs => funext fun j => h.same hs _
  have hget : (if oa.same then none else some W0 : Option (Fin k → E)).getD X = W0 := by
    cases hs : oa.same with
    | false => simp
    | true => simpa using hsame hs
  have hph : ProjHyp a.ip oa.rt X (if oa.same then none else some W0) oa.orthogonalize := by
    refine ⟨hi, fun ho => h.qr ho W0 R0 hq X (.inr rfl) hindX, fun ho Y hY => ?_, h.matQr, ?_⟩
    · cases hs : oa.same with
      | false =>
        rw [hs] at hY
        simp at hY
        subst hY
        exact h.qr ho W0 R0 hq W0 (.inl rfl) hindW
      | true => rw [hs] at hY; simp at hY
    · rw [hget]; exact hdet
  obtain ⟨p, hp, hpok, -⟩ := mkProj_ok hph h.iterations
  rw [hget] at hpok
  refine ⟨⟨W0, X, p⟩, ?_, hi, h.nonsing, ⟨R0, hR0, hfact⟩, fun _ => rfl, fun v => ?_, fun z => ?_, ?_⟩
  · simp only [mkObl, hq, hsX, ok.ip, hp]
  · rw [hobl]; exact hpok.applyCompl_eq v
  · rw [hcorr]
    unfold Obl.correct
    simp only [ok.ip, ok.Ml, ok.b, ok.A]
    generalize a.Ml (a.b - a.A z) = r
    by_cases hk : k = 0
    · subst hk
      have e : p = ⟨0, 0, none, none, none, oa.iterations.toNat⟩ := by
        have hit' : ¬ oa.iterations < 1 := by have := h.iterations; omega
        simp only [mkProj, hit', if_false, if_true, Except.ok.injEq] at hp
        exact hp.symm
      subst e
      simp [solveQR, undoVR, lincomb]
    have hit' : ¬ oa.iterations < 1 := by have := h.iterations; omega
    cases ho : oa.orthogonalize with
    | false =>
      rw [ho] at hp
      simp only [mkProj, hit', if_false, hk, Bool.false_eq_true, hget, Except.ok.injEq] at hp
      subst hp
      have hqr := h.matQr (gram a.ip W0 X)
      simp only [solveQR, undoVR, solveUpper_ok hqr.upper (hqr.det_ne hdet)]
      rw [hqr.inv, Matrix.mulVec_mulVec]
    | true =>
      obtain ⟨V, VR, hV, qV⟩ := h.qr ho W0 R0 hq X (.inr rfl) hindX
      rw [ho] at hp
      cases hs : oa.same with
      | true =>
        rw [hs] at hp
        simp only [mkProj, hit', if_false, hk, if_true, hV, Except.ok.injEq] at hp
        subst hp
        simp only [solveQR, undoVR]
        have hXW := hsame hs
        rw [← hXW] at hdet ⊢
        obtain ⟨-, -, -, -, hc⟩ := coords_transform hi qV.fact qV.fact hdet
        have := hc r
        rw [qV.orth, inv_one, Matrix.one_mulVec] at this
        rw [← this, lincomb_change qV.fact]
      | false =>
        obtain ⟨W, WR, hW, qW⟩ := h.qr ho W0 R0 hq W0 (.inl rfl) hindW
        rw [hs] at hp
        simp only [mkProj, hit', if_false, hk, if_true, hV, hW, Bool.false_eq_true, Except.ok.injEq] at hp
        subst hp
        obtain ⟨hVR, -, hd, -, hc⟩ := coords_transform hi qV.fact qW.fact hdet
        have hqr := h.matQr (gram a.ip W V)
        simp only [solveQR, undoVR, solveUpper_ok hqr.upper (hqr.det_ne hd), solveUpper_ok qV.upper hVR]
        have e : (oa.rt.matQr (gram a.ip W V)).2⁻¹ *ᵥ ((oa.rt.matQr (gram a.ip W V)).1ᴴ *ᵥ coefs a.ip W r) =
            VR *ᵥ ((gram a.ip W0 X)⁻¹ *ᵥ coefs a.ip W0 r) := by
          rw [hc r, hqr.inv, ← Matrix.mulVec_mulVec]
        have e' : VR⁻¹ *ᵥ (VR *ᵥ ((gram a.ip W0 X)⁻¹ *ᵥ coefs a.ip W0 r)) =
            (gram a.ip W0 X)⁻¹ *ᵥ coefs a.ip W0 r := by
          rw [Matrix.mulVec_mulVec, Matrix.nonsing_inv_mul _ (isUnit_iff_ne_zero.mpr hVR), Matrix.one_mulVec]
        rw [e, e', lincomb_change qW.fact]
  · by_cases hk : k = 0
    · subst hk
      ext i; exact i.elim0
    have hit' : ¬ oa.iterations < 1 := by have := h.iterations; omega
    cases ho : oa.orthogonalize with
    | false =>
      rw [ho] at hp
      simp only [mkProj, hit', if_false, hk, Bool.false_eq_true, hget, Except.ok.injEq] at hp
      subst hp
      exact (h.matQr (gram a.ip W0 X)).fact
    | true =>
      obtain ⟨V, VR, hV, qV⟩ := h.qr ho W0 R0 hq X (.inr rfl) hindX
      rw [ho] at hp
      cases hs : oa.same with
      | true =>
        rw [hs] at hp
        simp only [mkProj, hit', if_false, hk, if_true, hV, Except.ok.injEq] at hp
        subst hp
        simp only [Obl.Emat]
        have hXW := hsame hs
        rw [← hXW] at hdet ⊢
        obtain ⟨-, -, -, hg, -⟩ := coords_transform hi qV.fact qV.fact hdet
        rw [hg, qV.orth]
      | false =>
        obtain ⟨W, WR, hW, qW⟩ := h.qr ho W0 R0 hq W0 (.inl rfl) hindW
        rw [hs] at hp
        simp only [mkProj, hit', if_false, hk, if_true, hV, hW, Bool.false_eq_true, Except.ok.injEq] at hp
        subst hp
        simp only [Obl.Emat]
        obtain ⟨-, -, -, hg, -⟩ := coords_transform hi qV.fact qW.fact hdet
        rw [hg, (h.matQr (gram a.ip W V)).fact]

/-! ## The complementary projection -/

section compl
variable {a : LSArgs 𝕜 E} {s : LS 𝕜 E} {U : Fin k → E} {o : Obl 𝕜 E k}

/-- `v - B U ⟨U, B U⟩⁻¹ ⟨U, v⟩`. -/
noncomputable def complLin {ip : E → E → 𝕜} (h : IsInner ip) (B : E →ₗ[𝕜] E) (U : Fin k → E) : E →ₗ[𝕜] E :=
  LinearMap.id - obliqueLin h (fun j => B (U j)) U

theorem complLin_apply {ip : E → E → 𝕜} (h : IsInner ip) (B : E →ₗ[𝕜] E) (U : Fin k → E) (v : E) :
    complLin h B U v = v - oblique ip (fun j => B (U j)) U v := rfl

section
variable {ip : E → E → 𝕜} (h : IsInner ip) {B : E →ₗ[𝕜] E}
  (hdet : (gram ip U fun j => B (U j)).det ≠ 0)
include hdet

theorem complLin_orth (v : E) (j : Fin k) : ip (U j) (complLin h B U v) = 0 := by
  have h1 := congrFun (oblique_coefs h hdet v) j
  simp only [coefs] at h1
  rw [complLin_apply, h.sub_right, h1, sub_self]

omit hdet in
theorem complLin_diff (v : E) : ∃ c : Fin k → 𝕜, v - complLin h B U v = B (lincomb U c) := by
  refine ⟨(gram ip U fun j => B (U j))⁻¹ *ᵥ coefs ip U v, ?_⟩
  rw [complLin_apply, map_lincomb]
  unfold oblique
  abel

theorem complLin_B (c : Fin k → 𝕜) : complLin h B U (B (lincomb U c)) = 0 := by
  rw [complLin_apply, map_lincomb, oblique_lincomb h hdet, sub_self]

theorem complLin_of_orth {v : E} (hv : ∀ j, ip (U j) v = 0) : complLin h B U v = v := by
  rw [complLin_apply, (oblique_eq_zero h hdet v).mpr hv, sub_zero]

theorem complLin_idem (v : E) : complLin h B U (complLin h B U v) = complLin h B U v :=
  complLin_of_orth h hdet (complLin_orth h hdet v)

/-- If `B` is self-adjoint then so is the deflated operator. -/
theorem complLin_selfadj (hsa : ∀ x y, ip (B x) y = ip x (B y)) (x y : E) :
    ip (complLin h B U (B x)) y = ip x (complLin h B U (B y)) := by
  obtain ⟨c, hc⟩ := complLin_diff h (B := B) (U := U) (B x)
  obtain ⟨d, hd⟩ := complLin_diff h (B := B) (U := U) (B y)
  -- `Q B x = B (x - U c)`, `Q B y = B (y - U d)`
  have ex : complLin h B U (B x) = B (x - lincomb U c) := by rw [map_sub, ← hc]; abel
  have ey : complLin h B U (B y) = B (y - lincomb U d) := by rw [map_sub, ← hd]; abel
  have hperp : ∀ (v : E) (e : Fin k → 𝕜), ip (lincomb U e) (complLin h B U v) = 0 := by
    intro v e
    simp only [lincomb, h.sum_left, h.smul_left, complLin_orth h hdet, mul_zero, Finset.sum_const_zero]
  have hperp' : ∀ (v : E) (e : Fin k → 𝕜), ip (complLin h B U v) (lincomb U e) = 0 := fun v e => h.orth_symm (hperp v e)
  have e1 : ip (complLin h B U (B x)) y = ip (complLin h B U (B x)) (y - lincomb U d) := by
    rw [h.sub_right, hperp', sub_zero]
  have e2 : ip x (complLin h B U (B y)) = ip (x - lincomb U c) (complLin h B U (B y)) := by
    rw [h.sub_left, hperp, sub_zero]
  rw [e1, e2, ex, ey, hsa]

end

variable (ok : LSOK a s) (hob : OblOK a s U o)
include ok hob

theorem OblOK.op_eq : o.op s = complLin hob.inner a.B U ∘ₗ a.B := by
  have hc : o.compl s = complLin hob.inner a.B U := by
    funext v
    unfold Obl.compl
    rw [ok.ip, hob.compl]
    rfl
  have hl : IsLinearMap 𝕜 (o.compl s) := by rw [hc]; exact (complLin hob.inner a.B U).isLinear
  unfold Obl.op
  rw [dif_pos hl]
  ext x
  simp only [LinearMap.comp_apply, IsLinearMap.mk'_apply, hc, ok.MlAMr]
  rfl

theorem OblOK.initRes (z : Option E) : o.initRes s z = .ok
    (a.M (complLin hob.inner a.B U (a.Ml (a.b - a.A (z.getD 0)))),
      complLin hob.inner a.B U (a.Ml (a.b - a.A (z.getD 0))),
      nrm (fun x y => a.ip x (a.M y)) (complLin hob.inner a.B U (a.Ml (a.b - a.A (z.getD 0))))) := by
  have key : ∀ Mlr, Mlr = a.Ml (a.b - a.A (z.getD 0)) → (match o.proj.applyCompl s.ip Mlr with
      | .error e => .error e
      | .ok (PMlr, _) =>
        match npNorm (s.ip PMlr (s.M PMlr)) with
        | .error e => .error e
        | .ok nr => .ok (s.M PMlr, PMlr, nr) : Except Err (E × E × ℝ)) = .ok
      (a.M (complLin hob.inner a.B U (a.Ml (a.b - a.A (z.getD 0)))),
      complLin hob.inner a.B U (a.Ml (a.b - a.A (z.getD 0))),
      nrm (fun x y => a.ip x (a.M y)) (complLin hob.inner a.B U (a.Ml (a.b - a.A (z.getD 0))))) := by
    rintro _ rfl
    rw [ok.ip, hob.compl]
    dsimp only
    rw [← complLin_apply hob.inner, ok.M, ok.hyp.prec.npNorm_self]
  unfold Obl.initRes
  cases z with
  | none => exact key _ (by simp [ok.Mlb])
  | some z => exact key _ (by simp [ok.Ml, ok.b, ok.A])

theorem OblOK.newC (v : E) : o.newC s v = .ok (coefs a.ip o.U (a.B v)) := by
  unfold Obl.newC
  rw [ok.ip, hob.compl, ok.MlAMr]
  rfl

/-- The corrected iterate, if `Mr` acts as the identity on the deflation space. -/
theorem OblOK.correct_spec (hMr : ∀ j, a.Mr (U j) = U j) (z : E) : ∃ c : Fin k → 𝕜,
    o.correct s z = .ok (z + lincomb U c) ∧
    a.Ml (a.b - a.A (z + lincomb U c)) = complLin hob.inner a.B U (a.Ml (a.b - a.A z)) := by
  refine ⟨_, hob.correct z, ?_⟩
  set c := (gram a.ip U fun j => a.B (U j))⁻¹ *ᵥ coefs a.ip U (a.Ml (a.b - a.A z)) with hc
  have e : a.Ml (a.A (lincomb U c)) = lincomb (fun j => a.B (U j)) c := by
    rw [← map_lincomb]
    change _ = a.Ml (a.A (a.Mr (lincomb U c)))
    rw [map_lincomb a.Mr]
    simp only [hMr]
  rw [complLin_apply]
  unfold oblique
  rw [← hc, ← e]
  simp only [map_sub, map_add]
  abel

/-- Residual norm of a corrected iterate. -/
theorem OblOK.hres (hMr : ∀ j, a.Mr (U j) = U j) (p : SolverArgs E) (x0 : E) :
    ∀ z x, o.correct s (x0 + a.Mr z) = .ok x → (mkCfg s p).resNorm x =
      .ok (nrm (fun x y => a.ip x (a.M y)) (complLin hob.inner a.B U (a.Ml (a.b - a.A x0)) -
        (complLin hob.inner a.B U ∘ₗ a.B) z)) := by
  intro z x hx
  obtain ⟨c, h1, h2⟩ := hob.correct_spec ok hMr (x0 + a.Mr z)
  rw [h1] at hx
  obtain rfl := Except.ok.inj hx
  rw [ok.resNorm]
  unfold resid
  rw [h2]
  congr 2
  rw [LinearMap.comp_apply, ← map_sub]
  congr 1
  simp only [map_add, map_sub, LSArgs.B, LinearMap.comp_apply]
  abel

end compl
end Krypy
