import Verif.Model.RecyclingArn
import Verif.Props.RecyclingRun
import Verif.Props.DeflRitzVal

/-! # Property C62: sequences of linear systems solved by `RecyclingGmres` and `RecyclingMinres` -/

set_option linter.unusedSectionVars false

namespace Krypy
variable {𝕜 E : Type*} [RCLike 𝕜] [AddCommGroup E] [Module 𝕜 E]
open scoped ComplexConjugate
open Matrix

/-! ## Specification -/

/-- An admissible call of `solve`: a nonsingular system without right preconditioner (see C37), self-adjoint if it is flagged so, if
MINRES is used or if `ortho='lanczos'` is used; a tolerance `≥ 0` and `maxiter ≥ dim`. -/
structure ArnCallOk (kind : ArnKind) (a : LSArgs 𝕜 E) (oa : ∀ k, OblArgs 𝕜 E k) (ortho : Ortho) (p : SolverArgs E) : Prop where
  ls : LSHyp a.ip a.M
  sa : a.selfAdjoint = true ∨ kind = .minres ∨ ortho = .lanczos →
    ∀ x y, a.ip (a.Ml (a.A (a.Mr x))) y = a.ip x (a.Ml (a.A (a.Mr y)))
  inj : ∀ x, a.Ml (a.A (a.Mr x)) = 0 → x = 0
  Mr : ∀ x, a.Mr x = x
  tol : 0 ≤ p.tol
  maxiter : Module.finrank 𝕜 E ≤ p.maxiter
  obl : CgOblOk a oa

/-- Vectors which can be used for the deflation of a system: linearly independent, and `⟨U, Ml A Mr U⟩` is nonsingular. -/
structure DeflBasis (a : LSArgs 𝕜 E) {k : ℕ} (U : Fin k → E) : Prop where
  indep : LinearIndependent 𝕜 U
  nonsing : (Matrix.of fun i j => a.ip (U i) (a.Ml (a.A (a.Mr (U j))))).det ≠ 0

/-- `0` is not in the field of values of `Ml A Mr`. -/
def FovOk (a : LSArgs 𝕜 E) : Prop := ∀ x, x ≠ 0 → a.ip x (a.Ml (a.A (a.Mr x))) ≠ 0

/-- What a call achieves: the residual is below the tolerance, unless the Krylov subspace was flagged invariant although the entry of
`H` below the diagonal is not zero (which is then at most `1e-14 ‖H‖`, C17). -/
def ArnSolved (a : LSArgs 𝕜 E) (p : SolverArgs E) (x : ArnSol 𝕜 E) : Prop :=
  ∃ z, x.xk = some z ∧ (resid a z ≤ p.tol * resid a 0 ∨
    (x.arn.invariant = true ∧ ∃ n, x.arn.iter = n + 1 ∧ x.arn.H (n + 1) n ≠ 0))

/-- The solver object of an admissible call for a system of the class `sys`. -/
def GoodSolA (kind : ArnKind) (sys : LSArgs 𝕜 E → Prop) (x : ArnSol 𝕜 E) : Prop :=
  ∃ a oa ortho p U, ArnCallOk kind a oa ortho p ∧ sys a ∧ DeflBasis a (U : List E).get ∧ recArnSolver kind a oa ortho p U = .ok x

/-- A factory which returns usable vectors for all systems of the class. -/
def GoodFactoryA (kind : ArnKind) (sys : LSArgs 𝕜 E → Prop) (f : ArnSol 𝕜 E → Except Err (List E)) : Prop :=
  ∀ x, GoodSolA kind sys x → ∃ U, f x = .ok U ∧ ∀ a, sys a → DeflBasis a U.get

/-! ## One call -/

theorem fov_det {a : LSArgs 𝕜 E} (hi : IsInner a.ip) (h : FovOk a) {k : ℕ} {U : Fin k → E} (hU : LinearIndependent 𝕜 U) :
    DeflBasis a U := by
  refine ⟨hU, fun h0 => ?_⟩
  obtain ⟨c, hc, h1⟩ := Matrix.exists_mulVec_eq_zero_iff.mpr h0
  have h2 : a.ip (lincomb U c) (a.B (lincomb U c)) = 0 := by
    have h1' : (gram a.ip U fun j => a.B (U j)) *ᵥ c = 0 := h1
    rw [map_lincomb, hi.ip_lincomb_left, hi.coefs_lincomb, h1', dotProduct_zero]
  have h3 : lincomb U c = 0 := by
    by_contra hne
    exact h _ hne h2
  exact hc (funext fun i => Fintype.linearIndependent_iff.mp hU c h3 i)

theorem fov_inj {a : LSArgs 𝕜 E} (hi : IsInner a.ip) (h : FovOk a) (x : E) (hx : a.Ml (a.A (a.Mr x)) = 0) : x = 0 := by
  by_contra hne
  exact h x hne (by rw [hx, hi.zero_right])

section
variable {kind : ArnKind} {a : LSArgs 𝕜 E} {oa : ∀ k, OblArgs 𝕜 E k} {ortho : Ortho} {p : SolverArgs E}

theorem ArnCallOk.defl (h : ArnCallOk kind a oa ortho p) {k : ℕ} {U : Fin k → E} (hU : DeflBasis a U) :
    DeflHyp a (oa k) U where
  ls := h.ls
  qrM := by
    obtain ⟨V, R, h1, h2, -⟩ := h.obl.qrM k U hU.indep
    exact ⟨V, R, h1, h2⟩
  qr ho _ _ _ X _ hX := h.obl.qr k ho X hX
  matQr := h.obl.matQr k
  nonsing := hU.nonsing
  same := h.obl.same k
  iterations := h.obl.iterations k

theorem ArnCallOk.gmres (h : ArnCallOk kind a oa ortho p) : GmresHyp a ortho := ⟨h.ls, fun e => h.sa (Or.inr (Or.inr e))⟩

theorem ArnCallOk.minres (h : ArnCallOk .minres a oa ortho p) : MinresHyp a := ⟨h.ls, h.sa (Or.inr (Or.inl rfl))⟩

/-- The basis stored in the projection is orthonormal with respect to the implied inner product. -/
theorem ArnCallOk.basis (h : ArnCallOk kind a oa ortho p) {k : ℕ} {U : Fin k → E} (hU : LinearIndependent 𝕜 U) {s : LS 𝕜 E}
    {o : Obl 𝕜 E k} (ho : mkObl s (oa k) U = .ok o) :
    ∃ W : Fin k → E, (∀ j, o.U j = a.M (W j)) ∧ ∀ i j, a.ip (o.U i) (W j) = if i = j then 1 else 0 := by
  obtain ⟨V, R, h1, -, W, h2, h3⟩ := h.obl.qrM k U hU
  unfold mkObl at ho
  rw [h1] at ho
  dsimp only at ho
  split at ho
  · cases ho
  · obtain rfl := Except.ok.inj ho
    exact ⟨W, h2, h3⟩

/-- Zero right-hand side: nothing happens. -/
theorem run_zero {S : Type*} {k : ℕ} {U : Fin k → E} {oak : OblArgs 𝕜 E k} (h : DeflHyp a oak U) {s : LS 𝕜 E} (hs : mkLS a = .ok s)
    {o : Obl 𝕜 E k} (ho : mkObl s oak U = .ok o) (htol : 0 ≤ p.tol) (hb : a.Ml a.b = 0) (m : Method ℝ E S) (x0 : E) (r : ℝ)
    (mk : E → S) : ∃ st, run (mkCfg s p) m x0 r mk (o.correct s) = .returned st ∧ st.xk = some 0 := by
  have ok := LSOK.of_defl h hs
  have hob := OblOK.of_defl h hs ho
  have hnb : (mkCfg s p).MMlbNorm = 0 := by
    rw [ok.nb, resid, map_zero, sub_zero, hb]
    exact h.ls.prec.nrm_eq_zero.mpr rfl
  obtain ⟨eo, heo⟩ : ∃ eo, initErr (mkCfg s p) (o.correct s 0) = .ok eo := by
    unfold initErr
    rw [hob.correct]
    have := ok.errNorm p
    cases he : (mkCfg s p).errNorm with
    | none => exact ⟨_, rfl⟩
    | some en =>
      obtain ⟨y, hy⟩ := this en he (0 + lincomb U ((gram a.ip U fun j => a.B (U j))⁻¹ *ᵥ coefs a.ip U (a.Ml (a.b - a.A 0))))
      simp only [hy]
      exact ⟨_, rfl⟩
  unfold run
  simp only [hnb, beq_self_eq_true, if_true, heo]
  have hg : ∀ (fuel : ℕ) (st : St ℝ E S), st.resnorms = [0] → st.xk = some 0 →
      loop (mkCfg s p) m fuel st = .returned st := by
    intro fuel st h1 h2
    unfold loop
    have : loopGuard (mkCfg s p) m st = false := by
      unfold loopGuard
      rw [h1]
      have : ¬ (mkCfg s p).tol < 0 := not_lt.mpr htol
      simp [this]
    rw [this]
    simp only [Bool.false_eq_true, if_false]
    unfold finish
    rw [h2]
  rw [hg _ _ rfl rfl]
  exact ⟨_, rfl, rfl⟩

/-- C62, one call: with usable deflation vectors an admissible call succeeds. -/
theorem C62_solve [FiniteDimensional 𝕜 E] (h : ArnCallOk kind a oa ortho p) (U : List E) (hU : DeflBasis a U.get) :
    ∃ x, recArnSolver kind a oa ortho p U = .ok x ∧ ArnSolved a p x := by
  have hd := h.defl hU
  obtain ⟨s, hs, -⟩ := mkLS_ok h.ls
  obtain ⟨o, ho, -⟩ := mkObl_ok (LSOK.of_defl hd hs) hd
  have ok := LSOK.of_defl hd hs
  have ob := OblOK.of_defl hd hs ho
  obtain ⟨adv, Inv, arn, β, v, -, -, e1, e2, -⟩ := ob.setup ok h.gmres p
  obtain ⟨Q, hQ, -⟩ := C37_projection_unique hd
  have hr0 : a.Ml a.b = 0 → resid a 0 = 0 := by
    intro hb
    rw [resid, map_zero, sub_zero, hb]
    exact h.ls.prec.nrm_eq_zero.mpr rfl
  have hpos : a.Ml a.b ≠ 0 → 0 < resid a 0 := resid_pos h.ls
  have hfin : Module.finrank 𝕜 E ≤ p.maxiter + U.length := h.maxiter.trans (by omega)
  cases kind with
  | gmres =>
    have hrec : ∀ st, deflatedGmres s o ortho p = .returned st → recArnSolver .gmres a oa ortho p U =
        .ok ⟨U.length, s, o, st.s.1.arn, st.s.2, st.xk, st.resnorms⟩ := by
      intro st hst
      unfold recArnSolver recGmresSolver
      rw [hs]
      dsimp only
      rw [ho]
      dsimp only
      rw [hst]
      rfl
    by_cases hb : a.Ml a.b = 0
    · obtain ⟨st, h1, h2⟩ := run_zero hd hs ho h.tol hb ((gmresMethod adv a.Mr (o.correct s) p.maxiter).log
        fun st _ => o.newC s (st.arn.V st.arn.iter)) (p.x0.getD 0) β (fun x => (gmresInit arn β x, []))
      rw [← e1] at h1
      exact ⟨_, hrec st h1, 0, h2, Or.inl (by rw [hr0 hb, mul_zero])⟩
    · obtain ⟨st, h1, h2⟩ := C37_gmres_terminates hd hs ho h.gmres (fun j => h.Mr _) p h.tol hb h.inj hfin
      obtain ⟨z, h3, h4, -⟩ := C37_gmres hd hs ho h.gmres (fun j => h.Mr _) p h.tol hb hQ (Or.inl h1)
      refine ⟨_, hrec st h1, z, h3, ?_⟩
      rcases h2 with ⟨r, h5, h6⟩ | h2
      · left
        rw [h4.attains r h5]
        exact mul_le_mul_of_nonneg_right h6 (hpos hb).le
      · exact Or.inr h2
  | minres =>
    have hrec : ∀ st, deflatedMinres s o ortho p = .returned st → recArnSolver .minres a oa ortho p U =
        .ok ⟨U.length, s, o, st.s.1.arn, st.s.2, st.xk, st.resnorms⟩ := by
      intro st hst
      unfold recArnSolver recMinresSolver
      rw [hs]
      dsimp only
      rw [ho]
      dsimp only
      rw [hst]
      rfl
    by_cases hb : a.Ml a.b = 0
    · obtain ⟨st, h1, h2⟩ := run_zero hd hs ho h.tol hb ((minresMethod adv a.Mr (o.correct s) p.maxiter).log
        fun st _ => o.newC s (st.arn.V st.arn.iter)) (p.x0.getD 0) β (fun x => (minresInit arn β x, []))
      rw [← e2] at h1
      exact ⟨_, hrec st h1, 0, h2, Or.inl (by rw [hr0 hb, mul_zero])⟩
    · obtain ⟨st, h1, h2⟩ := C37_minres_terminates hd hs ho h.minres ortho (fun j => h.Mr _) p h.tol hb h.inj hfin
      obtain ⟨z, h3, h4, -⟩ := C37_minres hd hs ho h.minres ortho (fun j => h.Mr _) p h.tol hb hQ (Or.inl h1)
      refine ⟨_, hrec st h1, z, h3, ?_⟩
      rcases h2 with ⟨r, h5, h6⟩ | h2
      · left
        rw [h4.attains r h5]
        exact mul_le_mul_of_nonneg_right h6 (hpos hb).le
      · exact Or.inr h2

end

theorem mkObl_singular {kind : ArnKind} {a : LSArgs 𝕜 E} {oa : ∀ k, OblArgs 𝕜 E k} {ortho : Ortho} {p : SolverArgs E}
    (h : ArnCallOk kind a oa ortho p) {s : LS 𝕜 E} (ok : LSOK a s) {k : ℕ} (U : Fin k → E) (hU : LinearIndependent 𝕜 U)
    (hs0 : (gram a.ip U fun j => a.B (U j)).det = 0) :
    ∃ o, mkObl s (oa k) U = .ok o ∧ ∀ x0, o.initRes s x0 = .error .linAlgError := by
  have hi := h.ls.inner
  obtain ⟨W, R, hq, hfact, -⟩ := h.obl.qrM _ _ hU
  have hB : ∀ x, s.MlAMr x = a.B x := ok.MlAMr
  have hk : k ≠ 0 := by
    rintro rfl
    rw [Matrix.det_isEmpty] at hs0
    exact one_ne_zero hs0
  have hRdet : R.det ≠ 0 := by
    intro h0
    obtain ⟨c, hc, h1⟩ := Matrix.exists_mulVec_eq_zero_iff.mpr h0
    refine hc (funext fun i => Fintype.linearIndependent_iff.mp hU c ?_ i)
    have := lincomb_change hfact c
    rw [h1] at this
    have e0 : lincomb W (0 : Fin k → 𝕜) = 0 := by simp [lincomb]
    rw [e0] at this
    exact this.symm
  have hWind : LinearIndependent 𝕜 W := by
    rw [Fintype.linearIndependent_iff]
    intro c hc i
    have e : c = R *ᵥ (R⁻¹ *ᵥ c) := by
      rw [Matrix.mulVec_mulVec, Matrix.mul_nonsing_inv _ (isUnit_iff_ne_zero.mpr hRdet), Matrix.one_mulVec]
    have h1 : lincomb U (R⁻¹ *ᵥ c) = 0 := by
      rw [← lincomb_change hfact, ← e]
      exact hc
    have h2 : R⁻¹ *ᵥ c = 0 := funext fun i => Fintype.linearIndependent_iff.mp hU _ h1 i
    rw [e, h2, Matrix.mulVec_zero]
    rfl
  set X : Fin k → E := fun j => a.B (W j) with hX
  have hXind : LinearIndependent 𝕜 X := by
    refine hWind.map' a.B (LinearMap.ker_eq_bot'.mpr fun x hx => h.inj x hx)
  have hsX : (fun j => s.MlAMr (W j)) = X := funext fun j => hB _
  have hdet : (gram a.ip W X).det = 0 := by
    have hg : (gram a.ip U fun j => a.B (U j)) = Rᴴ * (gram a.ip W X * R) := by
      have e1 : U = fun j => lincomb W fun i => R i j := funext hfact
      have e2 : (fun j => a.B (U j)) = fun j => lincomb X fun i => R i j := by
        funext j; rw [hfact, map_lincomb]
      rw [e2, e1, hi.gram_left, hi.gram_right]
    rw [hg, Matrix.det_mul, Matrix.det_mul, Matrix.det_conjTranspose] at hs0
    have hRs : star R.det ≠ 0 := by simpa using hRdet
    exact (mul_eq_zero.mp ((mul_eq_zero.mp hs0).resolve_left hRs)).resolve_right hRdet
  have hsame : (oa k).same = false := by
    cases hsm : (oa k).same with
    | false => rfl
    | true =>
      exfalso
      have e : X = W := funext fun j => h.obl.same k hsm _
      rw [e] at hdet
      obtain ⟨c, hc, h1⟩ := Matrix.exists_mulVec_eq_zero_iff.mpr hdet
      have h2 : a.ip (lincomb W c) (lincomb W c) = 0 := by
        rw [hi.ip_lincomb_left, hi.coefs_lincomb, h1, dotProduct_zero]
      have h3 : lincomb W c = 0 := by
        by_contra hne
        have := hi.pos _ hne
        rw [h2] at this
        simp at this
      exact hc (funext fun i => Fintype.linearIndependent_iff.mp hWind c h3 i)
  have hdiag : ∀ (M : Matrix (Fin k) (Fin k) 𝕜), M.det = 0 → ∃ i, ((oa k).rt.matQr M).2 i i = 0 := by
    intro M hM
    have hqr := h.obl.matQr k M
    by_contra hne
    push Not at hne
    have h1 : ((oa k).rt.matQr M).2.det = ∏ i, ((oa k).rt.matQr M).2 i i :=
      Matrix.det_of_isUpperTriangular fun i j hij => hqr.upper i j hij
    have h2 : ((oa k).rt.matQr M).1.det ≠ 0 := by
      intro h0
      have := congrArg Matrix.det hqr.unitary
      rw [Matrix.det_mul, h0, mul_zero, Matrix.det_one] at this
      exact zero_ne_one this
    have h3 := congrArg Matrix.det hqr.fact
    rw [Matrix.det_mul, hM] at h3
    have h4 := (mul_eq_zero.mp h3).resolve_left h2
    rw [h1] at h4
    exact Finset.prod_ne_zero_iff.mpr (fun i _ => hne i) h4
  have hit : ¬ (oa k).iterations < 1 := by have := h.obl.iterations k; omega
  -- the projection
  obtain ⟨pr, hpr, Q', R', hQR, hz⟩ : ∃ pr, mkObl s (oa k) U = .ok ⟨W, X, pr⟩ ∧ ∃ Q' R', pr.QR = some (Q', R') ∧ ∃ i, R' i i = 0 := by
    cases ho : (oa k).orthogonalize with
    | false =>
      refine ⟨⟨X, W, none, none, some ((oa k).rt.matQr (gram a.ip W X)), (oa k).iterations.toNat⟩, ?_, _, _, rfl, hdiag _ hdet⟩
      simp only [mkObl, hq, hsX, hsame, mkProj, hit, hk, ho, ok.ip, if_false, Bool.false_eq_true, Option.getD_some]
    | true =>
      obtain ⟨V, VR, hV, qV⟩ := h.obl.qr k ho _ hXind
      obtain ⟨V', VR', hV', qV'⟩ := h.obl.qr k ho _ hWind
      refine ⟨⟨V, V', some VR, some VR', some ((oa k).rt.matQr (gram a.ip V' V)), (oa k).iterations.toNat⟩, ?_, _, _, rfl, hdiag _ ?_⟩
      · simp only [mkObl, hq, hsX, hsame, mkProj, hit, hk, ho, ok.ip, if_true, if_false, Bool.false_eq_true, hV, hV']
      · by_contra hne
        have hg : gram a.ip W X = VR'ᴴ * (gram a.ip V' V * VR) := by
          have e1 : X = fun j => lincomb V fun i => VR i j := funext qV.fact
          have e2 : W = fun j => lincomb V' fun i => VR' i j := funext qV'.fact
          rw [e1, e2, hi.gram_left, hi.gram_right]
        have hinv : ∀ {Y V : Fin k → E} {T : Matrix (Fin k) (Fin k) 𝕜}, LinearIndependent 𝕜 Y →
            (∀ j, Y j = lincomb V fun i => T i j) → T.det ≠ 0 := by
          intro Y V T hY hT h0
          obtain ⟨c, hc, h1⟩ := Matrix.exists_mulVec_eq_zero_iff.mpr h0
          refine hc (funext fun i => Fintype.linearIndependent_iff.mp hY c ?_ i)
          have := lincomb_change hT c
          rw [h1] at this
          have e0 : lincomb V (0 : Fin k → 𝕜) = 0 := by simp [lincomb]
          rw [e0] at this
          exact this.symm
        rw [hg, Matrix.det_mul, Matrix.det_mul, Matrix.det_conjTranspose] at hdet
        have n1 : star VR'.det ≠ 0 := by simpa using hinv hWind qV'.fact
        have n2 := hinv hXind qV.fact
        exact (mul_ne_zero n1 (mul_ne_zero hne n2)) hdet
  have hcompl : ∀ v, pr.applyCompl s.ip v = .error .linAlgError := by
    intro v
    simp [Proj.applyCompl, hk, Proj.apply1, hQR, solveUpper, hz]
  refine ⟨_, hpr, fun x0 => ?_⟩
  unfold Obl.initRes
  simp only [hcompl]

/-- C62: with linearly independent vectors for which `⟨U, Ml A Mr U⟩` is singular the solver raises `LinAlgError`. -/
theorem C62_singular {kind : ArnKind} {a : LSArgs 𝕜 E} {oa : ∀ k, OblArgs 𝕜 E k} {ortho : Ortho} {p : SolverArgs E}
    (h : ArnCallOk kind a oa ortho p) (U : List E) (hU : LinearIndependent 𝕜 U.get)
    (hs0 : (Matrix.of fun i j => a.ip (U.get i) (a.Ml (a.A (a.Mr (U.get j))))).det = 0) :
    recArnSolver kind a oa ortho p U = .error .linAlgError := by
  obtain ⟨s, hs, ok, -⟩ := mkLS_ok h.ls
  obtain ⟨o, hpr, hinit⟩ := mkObl_singular h ok U.get hU hs0
  cases kind with
  | gmres =>
    unfold recArnSolver recGmresSolver
    rw [hs]
    dsimp only
    rw [show mkObl s (oa U.length) (fun j => U.get j) = _ from hpr]
    dsimp only
    unfold deflatedGmres
    rw [hinit]
    rfl
  | minres =>
    unfold recArnSolver recMinresSolver
    rw [hs]
    dsimp only
    rw [show mkObl s (oa U.length) (fun j => U.get j) = _ from hpr]
    dsimp only
    unfold deflatedMinres
    rw [hinit]
    rfl

/-! ## Ritz vectors of the last solver -/

/-- The search space of a solver object, with the data `Ritz` works on. -/
theorem ArnSol.rel {kind : ArnKind} {a : LSArgs 𝕜 E} {oa : ∀ k, OblArgs 𝕜 E k} {ortho : Ortho} {p : SolverArgs E} {U : List E}
    (h : ArnCallOk kind a oa ortho p) (hU : DeflBasis a U.get) {x : ArnSol 𝕜 E} (hx : recArnSolver kind a oa ortho p U = .ok x) :
    ∃ (n_ : ℕ) (P : ℕ → E) (W : Fin x.k → E) (B' : List (Fin x.k → 𝕜)) (F : Matrix (Fin x.k) (Fin x.k) 𝕜),
      x.s.selfAdjoint = a.selfAdjoint ∧
      (∀ i < x.arn.get.cols, x.arn.V i = a.M (P i)) ∧ (∀ j, x.o.U j = a.M (W j)) ∧
      (∀ rt : ∀ n m, EigRoutines 𝕜 (Fin n ⊕ Fin m), (x.ritz rt).map (fun out => (out.values, out.coeffs)) =
        (deflRitz (rt x.arn.get.cols x.k) x.arn.H n_ x.o.Emat x.C B' F x.s.selfAdjoint .ritz).map
          (fun out => (out.values, out.coeffs))) ∧
      DeflRitzRel (fun x y => a.ip x (a.M y)) (a.Ml ∘ₗ a.A ∘ₗ a.Mr ∘ₗ a.M) P W x.arn.H
        n_ x.arn.get.cols x.o.Emat F x.C B' := by
  have hd := h.defl hU
  have hsA : ∀ s, mkLS a = .ok s → s.selfAdjoint = a.selfAdjoint := by
    intro s hs
    obtain ⟨s', hs', -, h1, -⟩ := mkLS_ok h.ls
    rw [hs] at hs'
    rw [Except.ok.inj hs', h1]
  cases kind with
  | gmres =>
    unfold recArnSolver recGmresSolver at hx
    dsimp only at hx
    split at hx
    · cases hx
    next s hs =>
    split at hx
    · cases hx
    next o ho =>
    unfold ArnSol.ofOutcome at hx
    split at hx
    · next st hst =>
      obtain rfl := Except.ok.inj hx
      obtain ⟨W, hW, hWo⟩ := h.basis hU.indep ho
      obtain ⟨n_, P, B', h1, h2, h3⟩ := C40_gmres_values hd hs ho h.gmres (fun e => h.sa (Or.inl e)) hW hWo p (Or.inl hst) rfl rfl
      exact ⟨n_, P, W, B', _, hsA s hs, h1, hW, fun rt => h2 _, h3⟩
    · cases hx
    · cases hx
    · cases hx
  | minres =>
    unfold recArnSolver recMinresSolver at hx
    dsimp only at hx
    split at hx
    · cases hx
    next s hs =>
    split at hx
    · cases hx
    next o ho =>
    unfold ArnSol.ofOutcome at hx
    split at hx
    · next st hst =>
      obtain rfl := Except.ok.inj hx
      obtain ⟨W, hW, hWo⟩ := h.basis hU.indep ho
      obtain ⟨n_, P, B', h1, h2, h3⟩ := C40_minres_values hd hs ho h.minres ortho hW hWo p (Or.inl hst) rfl rfl
      exact ⟨n_, P, W, B', _, hsA s hs, h1, hW, fun rt => h2 _, h3⟩
    · cases hx
    · cases hx
    · cases hx

/-- C62: for a system flagged self-adjoint the Ritz pairs of the last solver exist; the Ritz vectors are orthonormal in the inner
product implied by `M`, i.e. `u = M w` with `⟨u_i, w_j⟩ = δ_ij`, and
`⟨u_i, Ml A Mr u_j⟩` is the Ritz value for `i = j` and zero otherwise. -/
theorem C62_ritz_orthonormal {kind : ArnKind} {a : LSArgs 𝕜 E} {oa : ∀ k, OblArgs 𝕜 E k} {ortho : Ortho} {p : SolverArgs E} {U : List E}
    (h : ArnCallOk kind a oa ortho p) (hsa : a.selfAdjoint = true) (hU : DeflBasis a U.get) {x : ArnSol 𝕜 E}
    (hx : recArnSolver kind a oa ortho p U = .ok x) {rt : ∀ n m, EigRoutines 𝕜 (Fin n ⊕ Fin m)} (hrt : EigTotal rt) :
    ∃ out, x.ritz rt = .ok out ∧ (∃ w : Fin x.arn.get.cols ⊕ Fin x.k → E,
        (∀ i, deflRitzVec x.arn.V x.o.U (out.coeffs i) = a.M (w i)) ∧
        ∀ i j, a.ip (deflRitzVec x.arn.V x.o.U (out.coeffs i)) (w j) = if i = j then 1 else 0) ∧
      ∃ mu : Fin x.arn.get.cols ⊕ Fin x.k → 𝕜, (∀ i, out.values i = some (mu i)) ∧ ∀ i j, a.ip (deflRitzVec x.arn.V x.o.U (out.coeffs i))
        (a.Ml (a.A (a.Mr (deflRitzVec x.arn.V x.o.U (out.coeffs j))))) = if i = j then mu j else 0 := by
  obtain ⟨n_, P, W, B', F, hflag, hV, hW, heq, hrel⟩ := ArnSol.rel h hU hx
  have hp := h.ls.prec
  have hi := h.ls.inner
  have hMinj : ∀ x, a.M x = 0 → x = 0 := precond_inj (h.defl hU)
  have hMsa : ∀ x y, a.ip (a.M x) y = a.ip x (a.M y) := by
    intro x y
    have := hp.conj_symm y x
    rw [hi.conj_symm] at this
    exact this
  have hT : ∀ x y, a.ip ((a.Ml ∘ₗ a.A ∘ₗ a.Mr ∘ₗ a.M) x) (a.M y) = a.ip x (a.M ((a.Ml ∘ₗ a.A ∘ₗ a.Mr ∘ₗ a.M) y)) := by
    intro x y
    rw [← hMsa x]
    exact h.sa (Or.inl hsa) _ _
  rw [hflag, hsa] at heq
  obtain ⟨out', ho', horth⟩ := hrel.out_eigh (hrt.ok _ _) (hrt.total _ _) hT
  have h1 := heq rt
  rw [ho'] at h1
  cases hr : x.ritz rt with
  | error e => rw [hr] at h1; cases h1
  | ok out =>
    rw [hr] at h1
    have h3 : out.coeffs = out'.coeffs := (Prod.mk.inj (Except.ok.inj h1)).2
    have h3' : out.values = out'.values := (Prod.mk.inj (Except.ok.inj h1)).1
    have h4 : ∀ i, deflRitzVec x.arn.V x.o.U (out'.coeffs i) =
        a.M (deflRitzVec P W (out'.coeffs i)) := by
      intro i
      unfold deflRitzVec
      rw [map_add, map_lincomb, map_lincomb]
      congr 1
      · congr 1
        funext j
        exact hV j j.2
      · congr 1
        funext j
        exact hW j
    have h5 := fun i => C40_ritz hrel (hrt.ok _ _) (fun _ => hT) ho' i
    choose mu hmu hn ho using h5
    have h7 : ∀ i j, a.ip (deflRitzVec P W (out'.coeffs i)) (a.M (deflRitzVec P W (out'.coeffs j))) = if i = j then 1 else 0 := by
      intro i j
      rw [DeflRitzRel.vec_eq, DeflRitzRel.vec_eq, ← horth i j]
      have := hp.ip_lincomb_left (DeflRitzRel.wb x.arn.get.cols P W) (out'.coeffs i)
        (lincomb (DeflRitzRel.wb x.arn.get.cols P W) (out'.coeffs j))
      rw [hp.coefs_lincomb, hrel.gram_wb, one_mulVec] at this
      exact this
    refine ⟨out, rfl, ⟨fun i => deflRitzVec P W (out'.coeffs i), fun i => by rw [h3, h4], fun i j => by rw [h3, h4, hMsa, h7]⟩, mu,
      fun i => by rw [h3', hmu], fun i j => ?_⟩
    · rw [h3, h4, h4, hMsa]
      have h6 := ho j (out'.coeffs i)
      unfold eigRes at h6
      rw [map_sub, map_smul, hi.sub_right, hi.smul_right, h7 i j, sub_eq_zero] at h6
      rw [show a.ip (deflRitzVec P W (out'.coeffs i)) (a.M (a.Ml (a.A (a.Mr (a.M (deflRitzVec P W (out'.coeffs j))))))) = _ from h6]
      split <;> simp

/-- C62: for a system flagged self-adjoint the Ritz pairs of the last solver exist; the Ritz vectors are linearly independent, and
`⟨u_i, Ml A Mr u_j⟩` is the Ritz value for `i = j` and zero otherwise. -/
theorem C62_ritz_vectors {kind : ArnKind} {a : LSArgs 𝕜 E} {oa : ∀ k, OblArgs 𝕜 E k} {ortho : Ortho} {p : SolverArgs E} {U : List E}
    (h : ArnCallOk kind a oa ortho p) (hsa : a.selfAdjoint = true) (hU : DeflBasis a U.get) {x : ArnSol 𝕜 E}
    (hx : recArnSolver kind a oa ortho p U = .ok x) {rt : ∀ n m, EigRoutines 𝕜 (Fin n ⊕ Fin m)} (hrt : EigTotal rt) :
    ∃ out, x.ritz rt = .ok out ∧ LinearIndependent 𝕜 (fun i => deflRitzVec x.arn.V x.o.U (out.coeffs i)) ∧
      ∃ mu : Fin x.arn.get.cols ⊕ Fin x.k → 𝕜, (∀ i, out.values i = some (mu i)) ∧ ∀ i j, a.ip (deflRitzVec x.arn.V x.o.U (out.coeffs i))
        (a.Ml (a.A (a.Mr (deflRitzVec x.arn.V x.o.U (out.coeffs j))))) = if i = j then mu j else 0 := by
  obtain ⟨out, h1, ⟨w, -, h2⟩, h3⟩ := C62_ritz_orthonormal h hsa hU hx hrt
  exact ⟨out, h1, indep_of_dual h.ls.inner h2, h3⟩

/-- The search space of a solver object, and the place of its approximate solution. -/
theorem ArnSol.space {kind : ArnKind} {a : LSArgs 𝕜 E} {oa : ∀ k, OblArgs 𝕜 E k} {ortho : Ortho} {p : SolverArgs E} {U : List E}
    (h : ArnCallOk kind a oa ortho p) (hU : DeflBasis a U.get) {x : ArnSol 𝕜 E} (hx : recArnSolver kind a oa ortho p U = .ok x)
    {Q : E →ₗ[𝕜] E} (hQ : IsDeflProj a U.get Q) :
    x.k = U.length ∧ (∀ i < x.arn.get.cols, x.arn.V i ∈ deflKry a Q (p.x0.getD 0) x.arn.get.cols) ∧
      Submodule.span 𝕜 (Set.range x.o.U) = Submodule.span 𝕜 (Set.range U.get) ∧
      (a.Ml a.b ≠ 0 → ∃ z, x.xk = some z ∧ z ∈ deflSpace a U.get Q (p.x0.getD 0) x.arn.get.cols) := by
  have hd := h.defl hU
  have hcols : ∀ t : Arn 𝕜 E, t.get.cols = t.iter := by intro t; unfold Arn.get; split <;> rfl
  have hV : ∀ {s : LS 𝕜 E} (_ : mkLS a = .ok s) {o : Obl 𝕜 E U.length} (_ : mkObl s (oa U.length) U.get = .ok o)
      (st : St ℝ E (GmresSt 𝕜 E × List (Fin U.length → 𝕜))) (_ : deflatedGmres s o ortho p = .returned st),
      ∀ i < st.s.1.arn.get.cols, st.s.1.arn.V i ∈ deflKry a Q (p.x0.getD 0) st.s.1.arn.get.cols := by
    intro s hs o ho st hst i hi
    obtain rfl := hQ.eq_compl h.ls.inner hd.nonsing
    have hreach := deflGmres_reach hd hs ho h.gmres p (Or.inl hst)
    have ok := LSOK.of_defl hd hs
    have hob := OblOK.of_defl hd hs ho
    obtain ⟨-, hM, hA, -⟩ := hob.cfg_eq ok ortho p.maxiter
    have hle : st.s.1.arn.get.cols ≤ st.s.1.arn.get.basis := by unfold Arn.get; split <;> simp
    have := C20_krylov (hob.arnHyp ok h.gmres p.maxiter) hreach st.s.1.arn.get.cols hle
    rw [hM, hA] at this
    unfold deflKry
    have h2 : st.s.1.arn.V i ∈ spanTo st.s.1.arn.V st.s.1.arn.get.cols := mem_spanTo (𝕜 := 𝕜) hi
    rw [this] at h2
    exact h2
  cases kind with
  | gmres =>
    unfold recArnSolver recGmresSolver at hx
    dsimp only at hx
    split at hx
    · cases hx
    next s hs =>
    split at hx
    · cases hx
    next o ho =>
    unfold ArnSol.ofOutcome at hx
    split at hx
    · next st hst =>
      obtain rfl := Except.ok.inj hx
      refine ⟨rfl, hV hs ho st hst, (C38_E hd hs ho).2, fun hb => ?_⟩
      obtain ⟨z, h3, h4, -, h5, -⟩ := C37_gmres hd hs ho h.gmres (fun j => h.Mr _) p h.tol hb hQ (Or.inl hst)
      refine ⟨z, h3, ?_⟩
      have := h4.mem
      rw [h5, Nat.add_sub_cancel] at this
      rw [hcols]
      exact this
    · cases hx
    · cases hx
    · cases hx
  | minres =>
    unfold recArnSolver recMinresSolver at hx
    dsimp only at hx
    split at hx
    · cases hx
    next s hs =>
    split at hx
    · cases hx
    next o ho =>
    unfold ArnSol.ofOutcome at hx
    split at hx
    · next st hst =>
      obtain rfl := Except.ok.inj hx
      refine ⟨rfl, ?_, (C38_E hd hs ho).2, fun hb => ?_⟩
      · obtain ⟨b, hb, e1, -⟩ := (C37_minres_eq_gmres hd hs ho h.minres ortho p).1 hst
        have := hV hs ho _ hb
        change ∀ i < b.1.arn.get.cols, b.1.arn.V i ∈ deflKry a Q (p.x0.getD 0) b.1.arn.get.cols at this
        rw [e1] at this
        exact this
      obtain ⟨z, h3, h4, -, h5, -⟩ := C37_minres hd hs ho h.minres ortho (fun j => h.Mr _) p h.tol hb hQ (Or.inl hst)
      refine ⟨z, h3, ?_⟩
      have := h4.mem
      rw [h5, Nat.add_sub_cancel] at this
      rw [hcols]
      exact this
    · cases hx
    · cases hx
    · cases hx

/-- C62: the Ritz vectors span the search space `K_n + span U` of the run. -/
theorem C62_ritz_span [FiniteDimensional 𝕜 E] {kind : ArnKind} {a : LSArgs 𝕜 E} {oa : ∀ k, OblArgs 𝕜 E k} {ortho : Ortho}
    {p : SolverArgs E} {U : List E} (h : ArnCallOk kind a oa ortho p) (hsa : a.selfAdjoint = true) (hU : DeflBasis a U.get)
    {x : ArnSol 𝕜 E} (hx : recArnSolver kind a oa ortho p U = .ok x) {Q : E →ₗ[𝕜] E} (hQ : IsDeflProj a U.get Q)
    {rt : ∀ n m, EigRoutines 𝕜 (Fin n ⊕ Fin m)} (hrt : EigTotal rt) {out : DeflRitzOut 𝕜 x.arn.get.cols x.k}
    (hout : x.ritz rt = .ok out) :
    Submodule.span 𝕜 (Set.range fun i => deflRitzVec x.arn.V x.o.U (out.coeffs i)) =
      deflKry a Q (p.x0.getD 0) x.arn.get.cols ⊔ Submodule.span 𝕜 (Set.range U.get) := by
  obtain ⟨out', h1, h2, -⟩ := C62_ritz_vectors h hsa hU hx hrt
  rw [hout] at h1
  obtain rfl := Except.ok.inj h1
  obtain ⟨hk, hV, hspan, -⟩ := ArnSol.space h hU hx hQ
  refine Submodule.eq_of_le_of_finrank_le ?_ ?_
  · rw [Submodule.span_le]
    rintro _ ⟨i, rfl⟩
    refine Submodule.add_mem_sup ?_ ?_
    · unfold lincomb
      exact Submodule.sum_mem _ fun j _ => Submodule.smul_mem _ _ (hV j j.2)
    · rw [← hspan]
      exact mem_span_lincomb.mpr ⟨_, rfl⟩
  · rw [finrank_span_eq_card h2]
    refine (Submodule.finrank_add_le_finrank_add_finrank _ _).trans ?_
    have h3 := finrank_krylov_le (a.M ∘ₗ Q ∘ₗ a.Ml ∘ₗ a.A ∘ₗ a.Mr) (a.M (Q (a.Ml (a.b - a.A (p.x0.getD 0))))) x.arn.get.cols
    have h4 := finrank_range_le_card (R := 𝕜) U.get
    rw [Fintype.card_fin] at h4
    rw [Fintype.card_sum, Fintype.card_fin, Fintype.card_fin, hk]
    exact Nat.add_le_add h3 h4

/-- `get_vectors` with distinct valid indices: the vectors are linearly independent, and they can be used for the deflation of a
system with the same operator and inner product if and only if none of the corresponding Ritz values is zero. -/
theorem C62_get_vectors {kind : ArnKind} {a : LSArgs 𝕜 E} {oa : ∀ k, OblArgs 𝕜 E k} {ortho : Ortho} {p : SolverArgs E} {U : List E}
    (h : ArnCallOk kind a oa ortho p) (hsa : a.selfAdjoint = true) (hU : DeflBasis a U.get) {x : ArnSol 𝕜 E}
    (hx : recArnSolver kind a oa ortho p U = .ok x) {rt : ∀ n m, EigRoutines 𝕜 (Fin n ⊕ Fin m)} (hrt : EigTotal rt)
    {out : DeflRitzOut 𝕜 x.arn.get.cols x.k} (hout : x.ritz rt = .ok out) {idx : List ℕ} (hd : idx.Nodup)
    (hr : ∀ i ∈ idx, i < x.arn.get.cols + x.k) :
    ∃ U', x.getVectors out idx = .ok U' ∧ U'.length = idx.length ∧ LinearIndependent 𝕜 U'.get ∧
      (DeflBasis a U'.get ↔ ∀ i ∈ idx, (sumList out.values)[i]? ≠ some (some 0)) := by
  obtain ⟨out', h1, h2, mu, h3, h4⟩ := C62_ritz_vectors h hsa hU hx hrt
  rw [hout] at h1
  obtain rfl := Except.ok.inj h1
  obtain ⟨l, e1, e2⟩ := mapM_ritzIdx idx hr
  have hl : l.Nodup := by
    rw [← e2] at hd
    exact hd.of_map
  set f := fun i => deflRitzVec x.arn.V x.o.U (out.coeffs i) with hf
  have hind := indep_list h2 hl
  refine ⟨l.map f, ?_, ?_, hind, ?_⟩
  · unfold ArnSol.getVectors
    rw [e1]
  · rw [← e2]; simp
  · have hlen : (l.map f).length = l.length := List.length_map _
    have hdiag : (Matrix.of fun i j => a.ip ((l.map f).get i) (a.Ml (a.A (a.Mr ((l.map f).get j))))) =
        Matrix.diagonal fun j => mu (l.get (j.cast hlen)) := by
      ext i j
      rw [Matrix.of_apply, Matrix.diagonal_apply]
      have e : ∀ i, (l.map f).get i = f (l.get (i.cast hlen)) := by intro i; simp
      rw [e, e]
      refine (h4 _ _).trans ?_
      have hiff : l.get (i.cast hlen) = l.get (j.cast hlen) ↔ i = j := by
        constructor
        · intro hij
          have := (List.nodup_iff_injective_get.mp hl) hij
          ext
          simpa [Fin.ext_iff] using this
        · rintro rfl; rfl
      by_cases hij : i = j
      · subst hij; simp
      · rw [if_neg hij, if_neg (fun hc => hij (hiff.mp hc))]
    have hval : ∀ i ∈ l, (sumList out.values)[(finSumFinEquiv i : ℕ)]? = some (some (mu i)) := by
      intro i _
      rw [sumList, List.getElem?_ofFn, dif_pos (finSumFinEquiv i).2]
      simp [h3]
    constructor
    · intro hb i hi
      rw [← e2] at hi
      obtain ⟨j, hj, rfl⟩ := List.mem_map.mp hi
      rw [hval j hj]
      intro h0
      have h0 : mu j = 0 := Option.some.inj (Option.some.inj h0)
      apply hb.nonsing
      rw [hdiag, Matrix.det_diagonal]
      obtain ⟨n, hn⟩ := List.mem_iff_get.mp hj
      refine Finset.prod_eq_zero (Finset.mem_univ (n.cast hlen.symm)) ?_
      rw [show (n.cast hlen.symm).cast hlen = n from rfl, hn, h0]
    · intro hb
      refine ⟨hind, ?_⟩
      rw [hdiag, Matrix.det_diagonal]
      refine Finset.prod_ne_zero_iff.mpr fun j _ h0 => ?_
      have hj : l.get (j.cast hlen) ∈ l := List.get_mem _ _
      have := hb (finSumFinEquiv (l.get (j.cast hlen)) : ℕ) (by rw [← e2]; exact List.mem_map_of_mem hj)
      rw [hval _ hj, h0] at this
      exact this rfl

/-! ## The factories -/

/-- The systems which are flagged self-adjoint and whose field of values does not contain `0` (for self-adjoint operators: definite
systems). -/
structure DefiniteSys (a : LSArgs 𝕜 E) : Prop where
  inner : IsInner a.ip
  flag : a.selfAdjoint = true
  fov : FovOk a

/-- C62: `RitzFactorySimple` with a valid criterion returns usable vectors for definite systems. -/
theorem C62_simple {kind : ArnKind} {rt : ∀ n m, EigRoutines 𝕜 (Fin n ⊕ Fin m)} (hrt : EigTotal rt) {argsort : List ℝ → List ℕ}
    (ha : IsArgsort argsort) (n : ℕ) {which : Which} (hw : which ≠ .invalid) :
    GoodFactoryA kind DefiniteSys (simpleGetA (𝕜 := 𝕜) (E := E) rt argsort n which) := by
  rintro x ⟨a, oa, ortho, p, U, h, hs, hU, hx⟩
  obtain ⟨out, h1, -⟩ := C62_ritz_vectors h hs.flag hU hx hrt
  obtain ⟨idx, h3, h4, h5⟩ := simpleIndices_ok ha (values := (sumList out.values).map fun v => toCplx (v.getD 0))
    (resnorms := (sumList out.resnorms).map fun r => r.getD 0) (N := x.arn.get.cols + x.k) (by simp [sumList]) (by simp [sumList]) n hw
  obtain ⟨U', h6, -, h7, -⟩ := C62_get_vectors h hs.flag hU hx hrt h1 h4 h5
  refine ⟨U', ?_, fun a' ha' => fov_det ha'.inner ha'.fov h7⟩
  unfold simpleGetA
  rw [h1]
  dsimp only
  rw [h3]
  exact h6

/-- C62: `RitzFactory` returns usable vectors for definite systems, for every evaluator which raises no exception but
`AssumptionError`, every generator of nonempty sets of remaining indices, and every order of Python sets. -/
theorem C62_ritz {F : Type*} [LT F] [DecidableLT F] {kind : ArnKind} {rt : ∀ n m, EigRoutines 𝕜 (Fin n ⊕ Fin m)} (hrt : EigTotal rt)
    {f : RitzFactoryArgsA 𝕜 E F} (hgen : ∀ x out, GenOK (f.gen x out))
    (heval : ∀ x out s e, f.eval x out s = .error e → e = .assumptionError)
    (hord : ∀ s, (f.order s).Nodup ∧ ∀ i, i ∈ f.order s ↔ i ∈ s) : GoodFactoryA kind DefiniteSys (ritzGetA rt f) := by
  rintro x ⟨a, oa, ortho, p, U, h, hs, hU, hx⟩
  obtain ⟨out, h1, -⟩ := C62_ritz_vectors h hs.flag hU hx hrt
  unfold ritzGetA
  rw [h1]
  dsimp only
  rcases C41_terminates (n := x.arn.get.cols + x.k) (eval := f.eval x out) (resSum := f.resSum x out) (hgen x out) with
    ⟨e, -, h4, s, h5⟩ | ⟨sel, st, h3, h4, -⟩
  · exact absurd (heval _ _ _ _ h5) h4
  · rw [h3]
    obtain ⟨U', h6, -, h7, -⟩ := C62_get_vectors h hs.flag hU hx hrt h1 (hord sel).1 fun i hi =>
      Finset.mem_range.mp (h4 (((hord sel).2 i).mp hi))
    exact ⟨U', h6, fun a' ha' => fov_det ha'.inner ha'.fov h7⟩

/-! ## Sequences of calls -/

/-- The arguments of one call of `solve`. -/
structure ArnCall (𝕜 E : Type*) [RCLike 𝕜] [AddCommGroup E] [Module 𝕜 E] where
  a : LSArgs 𝕜 E
  oa : ∀ k, OblArgs 𝕜 E k
  ortho : Ortho
  p : SolverArgs E
  factory : Option (VFactory (ArnSol 𝕜 E) E)

/-- The corresponding call of the model of `_RecyclingSolver`. -/
noncomputable def ArnCall.call (kind : ArnKind) (c : ArnCall 𝕜 E) : Call (ArnSol 𝕜 E) E :=
  ⟨c.factory, recArnSolver kind c.a c.oa c.ortho c.p⟩

/-- C62: `RecyclingGmres` and `RecyclingMinres` solve every sequence of admissible systems of a class (which may all be different),
whatever factories that return usable vectors are used. -/
theorem C62_sequence [FiniteDimensional 𝕜 E] (kind : ArnKind) (sys : LSArgs 𝕜 E → Prop) (sc : Shortcuts (ArnSol 𝕜 E) E)
    (default : Option (VFactory (ArnSol 𝕜 E) E)) (cs : List (ArnCall 𝕜 E))
    (hcs : ∀ c ∈ cs, ArnCallOk kind c.a c.oa c.ortho c.p ∧ sys c.a)
    (hdef : ∀ f, default = some f → GoodFactoryA kind sys (f.getFun sc))
    (hfac : ∀ c ∈ cs, ∀ f, c.factory = some f → GoodFactoryA kind sys (f.getFun sc)) :
    ∀ i (hi : i < cs.length), ∃ U x, (recRun sc default RecState.init (cs.map (ArnCall.call kind))).2[i]? = some ⟨some U, .ok x⟩ ∧
      DeflBasis cs[i].a U.get ∧ ArnSolved cs[i].a cs[i].p x := by
  suffices h : ∀ (cs : List (ArnCall 𝕜 E)) (st : RecState (ArnSol 𝕜 E)),
      (∀ c ∈ cs, ArnCallOk kind c.a c.oa c.ortho c.p ∧ sys c.a) →
      (∀ c ∈ cs, ∀ f, c.factory = some f → GoodFactoryA kind sys (f.getFun sc)) → (∀ x, st.lastSolver = some x → GoodSolA kind sys x) →
      ∀ i (hi : i < cs.length), ∃ U x, (recRun sc default st (cs.map (ArnCall.call kind))).2[i]? = some ⟨some U, .ok x⟩ ∧
        DeflBasis cs[i].a U.get ∧ ArnSolved cs[i].a cs[i].p x from
    h cs _ hcs hfac fun x hx => by cases hx
  intro cs
  induction cs with
  | nil => intro st _ _ _ i hi; simp at hi
  | cons c cs ih =>
    intro st hcs hfac hst i hi
    obtain ⟨hc, hsys⟩ := hcs c List.mem_cons_self
    -- the vectors
    obtain ⟨U, hUeq, hU⟩ : ∃ U : List E, (match st.lastSolver, (c.call kind).effFactory default with
        | some s, some f => f.getFun sc s
        | _, _ => .ok []) = .ok U ∧ DeflBasis c.a U.get := by
      have : IsEmpty (Fin ([] : List E).length) := inferInstanceAs (IsEmpty (Fin 0))
      have hnil : DeflBasis c.a ([] : List E).get := ⟨linearIndependent_empty_type, by rw [Matrix.det_isEmpty]; exact one_ne_zero⟩
      cases hl : st.lastSolver with
      | none => exact ⟨[], rfl, hnil⟩
      | some x =>
        cases hf : (c.call kind).effFactory default with
        | none => exact ⟨[], rfl, hnil⟩
        | some f =>
          have hg : GoodFactoryA kind sys (f.getFun sc) := by
            unfold Call.effFactory ArnCall.call at hf
            dsimp only at hf
            cases h1 : c.factory with
            | none => rw [h1] at hf; exact hdef f hf
            | some f' =>
              rw [h1] at hf
              obtain rfl := Option.some.inj hf
              exact hfac c List.mem_cons_self _ h1
          obtain ⟨U, h1, h2⟩ := hg x (hst x hl)
          exact ⟨U, h1, h2 _ hsys⟩
    obtain ⟨x, h1, h2⟩ := C62_solve hc U hU
    have hsolve : recSolve sc default st (c.call kind) =
        (⟨some x, st.nFactoryTimings + 1, st.nSolveTimings + 1⟩, ⟨some U, .ok x⟩) := by
      have e : recSolve sc default st (c.call kind) =
          recRunSolver { st with nFactoryTimings := st.nFactoryTimings + 1 } (c.call kind) U := by
        unfold recSolve
        dsimp only
        cases hl : st.lastSolver with
        | none => rw [hl] at hUeq; obtain rfl := Except.ok.inj hUeq; rfl
        | some y =>
          rw [hl] at hUeq
          cases hf : (c.call kind).effFactory default with
          | none => rw [hf] at hUeq; obtain rfl := Except.ok.inj hUeq; rfl
          | some f =>
            rw [hf] at hUeq
            dsimp only at hUeq ⊢
            rw [hUeq]
      rw [e]
      unfold recRunSolver
      rw [show (c.call kind).solver U = .ok x from h1]
    simp only [List.map_cons, recRun, hsolve]
    cases i with
    | zero => exact ⟨U, x, rfl, hU, h2⟩
    | succ i =>
      refine ih _ (fun c hc => hcs c (List.mem_cons_of_mem _ hc)) (fun c hc => hfac c (List.mem_cons_of_mem _ hc)) ?_ i
        (by simpa using hi)
      intro y hy
      obtain rfl := Option.some.inj hy
      exact ⟨c.a, c.oa, c.ortho, c.p, U, hc, hsys, hU, h1⟩

/-! ## The hypotheses can be met -/

/-- `diag(1, t) x = b`. -/
noncomputable def exDiag (t : ℝ) (b : ℝ × ℝ) : LSArgs ℝ (ℝ × ℝ) :=
  { exSpd with A := LinearMap.prodMap LinearMap.id (t • LinearMap.id), b := b }

theorem exDiag_ok (kind : ArnKind) (ortho : Ortho) {t : ℝ} (ht : t ≠ 0) : ∃ oa : ∀ k, OblArgs ℝ (ℝ × ℝ) k, ∀ b,
    ArnCallOk kind (exDiag t b) oa ortho ⟨none, 1 / 100000, 2, false, none⟩ := by
  obtain ⟨oa, h⟩ := cgOblOk_exists (a := exDiag t (1, 1)) exSpd_hyp.ls
  refine ⟨oa, fun b => ⟨exSpd_hyp.ls, fun _ x y => ?_, fun x hx => ?_, fun x => rfl, by norm_num, by simp,
    ⟨h.qrM, h.qr, h.matQr, h.same, h.iterations⟩⟩⟩
  · simp [exDiag, exSpd, exCfg]; ring
  · obtain ⟨x1, x2⟩ := x
    simpa [exDiag, exSpd, ht] using hx

/-- Non-vacuity of `C62_sequence` and `C62_simple`: three systems which recycle the vector of the Ritz value of smallest magnitude, for
both solvers and all kinds of orthogonalization. -/
example (kind : ArnKind) (ortho : Ortho) : ∃ (oa : ∀ k, OblArgs ℝ (ℝ × ℝ) k) (f : ArnSol ℝ (ℝ × ℝ) → Except Err (List (ℝ × ℝ)))
    (p : SolverArgs (ℝ × ℝ)), let c : ℝ × ℝ → ArnCall ℝ (ℝ × ℝ) := fun b => ⟨exDiag 2 b, oa, ortho, p, none⟩
    let cs := [c (1, 1), c (2, 3), c (0, 0)]
    ∀ i (hi : i < cs.length), ∃ U x, (recRun ⟨f, f, f⟩ (some (.obj f)) RecState.init (cs.map (ArnCall.call kind))).2[i]? =
      some ⟨some U, .ok x⟩ ∧ ArnSolved cs[i].a cs[i].p x := by
  obtain ⟨oa, h⟩ := exDiag_ok kind ortho (two_ne_zero (α := ℝ))
  obtain ⟨rt, hrt⟩ := eigTotal_exists (𝕜 := ℝ)
  obtain ⟨argsort, ha⟩ := argsort_exists
  have hf : GoodFactoryA kind DefiniteSys (simpleGetA (𝕜 := ℝ) (E := ℝ × ℝ) rt argsort 1 .sm) := C62_simple hrt ha 1 (by simp)
  have hd : ∀ b, DefiniteSys (exDiag 2 b) := by
    refine fun b => ⟨exSpd_hyp.ls.inner, rfl, fun x hx => ?_⟩
    have hxy : x.1 ≠ 0 ∨ x.2 ≠ 0 := by
      by_contra hcon
      push Not at hcon
      exact hx (Prod.ext hcon.1 hcon.2)
    simp only [exDiag, exSpd, exCfg]
    refine ne_of_gt ?_
    simp
    rcases hxy with h | h
    · have := mul_self_pos.mpr h; nlinarith [mul_self_nonneg x.2]
    · have := mul_self_pos.mpr h; nlinarith [mul_self_nonneg x.1]
  refine ⟨oa, simpleGetA rt argsort 1 .sm, ⟨none, 1 / 100000, 2, false, none⟩, fun i hi => ?_⟩
  obtain ⟨U, x, h1, -, h2⟩ := C62_sequence kind DefiniteSys
    ⟨simpleGetA rt argsort 1 .sm, simpleGetA rt argsort 1 .sm, simpleGetA rt argsort 1 .sm⟩ (some (.obj (simpleGetA rt argsort 1 .sm)))
    [⟨exDiag 2 (1, 1), oa, ortho, ⟨none, 1 / 100000, 2, false, none⟩, none⟩, ⟨exDiag 2 (2, 3), oa, ortho, ⟨none, 1 / 100000, 2, false, none⟩, none⟩,
      ⟨exDiag 2 (0, 0), oa, ortho, ⟨none, 1 / 100000, 2, false, none⟩, none⟩]
    (fun c hc => by
      simp only [List.mem_cons, List.not_mem_nil, or_false] at hc
      rcases hc with rfl | rfl | rfl <;> exact ⟨h _, hd _⟩) (fun f hf' => by obtain rfl := Option.some.inj hf'; exact hf)
    (by simp) i hi
  exact ⟨U, x, h1, h2⟩

/-- Non-vacuity of `C62_sequence` for indefinite systems: a user-defined factory which returns the eigenvector `(1, 0)`. -/
example (kind : ArnKind) (ortho : Ortho) : ∃ (oa oa' : ∀ k, OblArgs ℝ (ℝ × ℝ) k), ∀ (sc : Shortcuts (ArnSol ℝ (ℝ × ℝ)) (ℝ × ℝ)),
    let p : SolverArgs (ℝ × ℝ) := ⟨none, 1 / 100000, 2, false, none⟩
    let cs : List (ArnCall ℝ (ℝ × ℝ)) := [⟨exDiag (-1) (1, 1), oa, ortho, p, none⟩, ⟨exDiag 3 (1, 2), oa', ortho, p, none⟩]
    ∀ i (hi : i < cs.length), ∃ U x, (recRun sc (some (.obj fun _ => .ok [(1, 0)])) RecState.init
      (cs.map (ArnCall.call kind))).2[i]? = some ⟨some U, .ok x⟩ ∧ ArnSolved cs[i].a cs[i].p x := by
  obtain ⟨oa, h⟩ := exDiag_ok kind ortho (t := -1) (by norm_num)
  obtain ⟨oa', h'⟩ := exDiag_ok kind ortho (t := 3) (by norm_num)
  refine ⟨oa, oa', fun sc => ?_⟩
  intro p cs i hi
  obtain ⟨U, x, h1, -, h2⟩ := C62_sequence kind (fun a => ∃ t b, a = exDiag t b) sc (some (.obj fun _ => .ok [(1, 0)])) cs
    (fun c hc => by
      simp only [cs, List.mem_cons, List.not_mem_nil, or_false] at hc
      rcases hc with rfl | rfl
      · exact ⟨h _, _, _, rfl⟩
      · exact ⟨h' _, _, _, rfl⟩)
    (fun f hf x _ => by
      obtain rfl := Option.some.inj hf
      refine ⟨[(1, 0)], rfl, ?_⟩
      rintro _ ⟨t, b, rfl⟩
      refine ⟨?_, ?_⟩
      · change LinearIndependent ℝ (fun i : Fin 1 => ([((1 : ℝ), (0 : ℝ))] : List (ℝ × ℝ)).get i)
        exact LinearIndependent.of_subsingleton 0 (by simp)
      · change Matrix.det (n := Fin 1) _ ≠ 0
        rw [Matrix.det_fin_one]
        simp [exDiag, exSpd, exCfg])
    (by simp [cs]) i hi
  exact ⟨U, x, h1, h2⟩

/-- Finding (C62): both systems of this sequence are nonsingular and self-adjoint, `x = (1, 1)` and `diag(1, -1) x = (1, 1)`, but
`RecyclingMinres` and `RecyclingGmres` with `RitzFactorySimple(n_vectors=1)` raise `LinAlgError` in the second call. -/
theorem C62_indefinite_counterexample (kind : ArnKind) (ortho : Ortho) : ∃ oa oa' : ∀ k, OblArgs ℝ (ℝ × ℝ) k,
    ArnCallOk kind (exDiag 1 (1, 1)) oa ortho ⟨none, 1 / 100000, 2, false, none⟩ ∧
    ArnCallOk kind (exDiag (-1) (1, 1)) oa' ortho ⟨none, 1 / 100000, 2, false, none⟩ ∧
    ∀ (rt : ∀ n m, EigRoutines ℝ (Fin n ⊕ Fin m)) (_ : EigTotal rt) (argsort : List ℝ → List ℕ) (_ : IsArgsort argsort)
      (sc : Shortcuts (ArnSol ℝ (ℝ × ℝ)) (ℝ × ℝ)),
      ∃ x U, (recRun sc (some (.obj (simpleGetA rt argsort 1 .sm))) RecState.init
        [ArnCall.call kind ⟨exDiag 1 (1, 1), oa, ortho, ⟨none, 1 / 100000, 2, false, none⟩, none⟩,
          ArnCall.call kind ⟨exDiag (-1) (1, 1), oa', ortho, ⟨none, 1 / 100000, 2, false, none⟩, none⟩]).2 =
        [⟨some [], .ok x⟩, ⟨some U, .error .linAlgError⟩] := by
  obtain ⟨oa, hoa⟩ := exDiag_ok kind ortho (one_ne_zero (α := ℝ))
  obtain ⟨oa', hoa'⟩ := exDiag_ok kind ortho (t := -1) (by norm_num)
  have h1 := hoa (1, 1)
  have h2 := hoa' (1, 1)
  refine ⟨oa, oa', h1, h2, fun rt hrt argsort ha sc => ?_⟩
  have : IsEmpty (Fin ([] : List (ℝ × ℝ)).length) := inferInstanceAs (IsEmpty (Fin 0))
  have hnil : DeflBasis (exDiag 1 (1, 1)) ([] : List (ℝ × ℝ)).get :=
    ⟨linearIndependent_empty_type, by rw [Matrix.det_isEmpty]; exact one_ne_zero⟩
  obtain ⟨x, hx, hsol⟩ := C62_solve h1 [] hnil
  have hQ : IsDeflProj (exDiag 1 (1, 1)) ([] : List (ℝ × ℝ)).get LinearMap.id := ⟨fun v => by simp, fun v j => j.elim0⟩
  obtain ⟨hk, hV, hspan, hz⟩ := ArnSol.space h1 hnil hx hQ
  obtain ⟨out, hout, hind, -⟩ := C62_ritz_vectors h1 rfl hnil hx hrt
  -- everything is a multiple of (1, 1)
  have hkry : ∀ n, deflKry (exDiag 1 (1, 1)) LinearMap.id ((⟨none, 1 / 100000, 2, false, none⟩ : SolverArgs (ℝ × ℝ)).x0.getD 0) n ≤
      Submodule.span ℝ {((1 : ℝ), (1 : ℝ))} := by
    intro n
    unfold deflKry krylov
    rw [Submodule.span_le]
    rintro _ ⟨i, -, rfl⟩
    have e : (exDiag 1 (1, 1)).M ∘ₗ LinearMap.id ∘ₗ (exDiag 1 (1, 1)).Ml ∘ₗ (exDiag 1 (1, 1)).A ∘ₗ (exDiag 1 (1, 1)).Mr =
        LinearMap.id := by
      ext <;> simp [exDiag, exSpd]
    rw [e, ← Module.End.one_eq_id, one_pow]
    refine Submodule.subset_span ?_
    simp [exDiag, exSpd]
  -- at least one iteration
  have hn : 0 < x.arn.get.cols := by
    have hcols : x.arn.get.cols = x.arn.iter := by unfold Arn.get; split <;> rfl
    rw [hcols]
    by_contra h0
    have h0 : x.arn.iter = 0 := by omega
    obtain ⟨z, hz1, hz2⟩ := hsol
    obtain ⟨z', hz3, ⟨y, hy, hzy⟩, -⟩ := hz (by simp [exDiag, exSpd])
    rw [hz1] at hz3
    obtain rfl := Option.some.inj hz3
    rw [hcols, h0] at hy
    have hy0 : y = 0 := by
      have : deflKry (exDiag 1 (1, 1)) LinearMap.id
          ((⟨none, 1 / 100000, 2, false, none⟩ : SolverArgs (ℝ × ℝ)).x0.getD 0) 0 = ⊥ := spanTo_zero _
      rw [this] at hy
      simpa using hy
    have hz0 : z = 0 := by simpa [hy0] using hzy
    rcases hz2 with hz2 | ⟨-, n, hn, -⟩
    · have hpos : 0 < resid (exDiag 1 (1, 1)) 0 := resid_pos h1.ls (by simp [exDiag, exSpd])
      rw [hz0] at hz2
      have : (⟨none, 1 / 100000, 2, false, none⟩ : SolverArgs (ℝ × ℝ)).tol = 1 / 100000 := rfl
      rw [this] at hz2
      linarith
    · omega
  -- the recycled vector
  obtain ⟨idx, h3, h4, h5⟩ := simpleIndices_ok ha (values := (sumList out.values).map fun v => toCplx (v.getD 0))
    (resnorms := (sumList out.resnorms).map fun r => r.getD 0) (N := x.arn.get.cols + x.k) (by simp [sumList]) (by simp [sumList]) 1
    (which := .sm) (by simp)
  have hlen : idx.length = 1 := by
    have : simpleIndices argsort ((sumList out.values).map fun v => toCplx (v.getD 0))
      ((sumList out.resnorms).map fun r => r.getD 0) 1 .sm = .ok ((argsort _).take 1) := rfl
    rw [this] at h3
    obtain rfl := Except.ok.inj h3
    have := (ha (((sumList out.values).map fun v => toCplx (v.getD 0)).map fun v => ‖v‖)).1.length_eq
    have hl : (argsort (((sumList out.values).map fun v => toCplx (v.getD 0)).map fun v => ‖v‖)).length = x.arn.get.cols + x.k := by
      rw [this]
      simp [sumList]
    rw [List.length_take, hl]
    omega
  obtain ⟨U, h6, h7, h8, -⟩ := C62_get_vectors h1 rfl hnil hx hrt hout h4 h5
  have hget : simpleGetA rt argsort 1 .sm x = .ok U := by
    unfold simpleGetA
    rw [hout]
    dsimp only
    rw [h3]
    exact h6
  rw [hlen] at h7
  obtain ⟨u, rfl⟩ := List.length_eq_one_iff.mp h7
  have hu0 : u ≠ 0 := h8.ne_zero (0 : Fin 1)
  have hu : u ∈ Submodule.span ℝ {((1 : ℝ), (1 : ℝ))} := by
    have hmem : u ∈ Submodule.span ℝ (Set.range fun i => deflRitzVec x.arn.V x.o.U (out.coeffs i)) := by
      unfold ArnSol.getVectors at h6
      split at h6
      · cases h6
      next l hl =>
        have := Except.ok.inj h6
        have hu : u ∈ l.map fun i => deflRitzVec x.arn.V x.o.U (out.coeffs i) := by rw [this]; simp
        obtain ⟨i, -, rfl⟩ := List.mem_map.mp hu
        exact Submodule.subset_span ⟨i, rfl⟩
    rw [C62_ritz_span h1 rfl hnil hx hQ hrt hout] at hmem
    refine sup_le (hkry _) ?_ hmem
    rw [Set.range_eq_empty, Submodule.span_empty]
    exact bot_le
  obtain ⟨c, rfl⟩ := Submodule.mem_span_singleton.mp hu
  have hsing := C62_singular h2 [c • ((1 : ℝ), (1 : ℝ))] h8 (by
    change Matrix.det (n := Fin 1) _ = 0
    rw [Matrix.det_fin_one]
    simp [exDiag, exSpd, exCfg])
  refine ⟨x, [c • ((1 : ℝ), (1 : ℝ))], ?_⟩
  simp only [recRun, recSolve, recRunSolver, ArnCall.call, RecState.init, Call.effFactory, VFactory.getFun, hx, hget, hsing]

end Krypy
