import Verif.Props.ResNorms
import Verif.Props.SolverCalls

/-! # Properties C28 and C29 for every `maxiter`: solvers for nonsingular systems do not fail -/

set_option linter.unusedSectionVars false

namespace Krypy
variable {𝕜 E : Type*} [RCLike 𝕜] [AddCommGroup E] [Module 𝕜 E]
open scoped ComplexConjugate
open Finset

/-- C28: for nonsingular `Ml A Mr`, any `maxiter` and any dimension, `Gmres` returns or raises `ConvergenceError`. -/
theorem C28_total {a : LSArgs 𝕜 E} {ortho : Ortho} (h : GmresHyp a ortho)
    {s : LS 𝕜 E} (hs : mkLS a = .ok s) (p : SolverArgs E) (htol : 0 ≤ p.tol) (hb : a.Ml a.b ≠ 0)
    (hinj : ∀ x, a.Ml (a.A (a.Mr x)) = 0 → x = 0) :
    ∃ st, gmres s s.hooks ortho p = .returned st ∨ gmres s s.hooks ortho p = .convergence st := by
  have hf := (C22_gmres s s.hooks ortho p).fuel
  obtain ⟨s', hs', ok, -⟩ := mkLS_ok h.ls
  rw [hs] at hs'
  obtain rfl := Except.ok.inj hs'
  obtain ⟨arn, hr, ha, h0⟩ := gmres_setup ok h p
  have hnb : 0 < (mkCfg s p).MMlbNorm := by
    rw [ok.nb]
    refine lt_of_le_of_ne (nrm_nonneg _ _) fun h0 => ?_
    have := h.ls.prec.nrm_eq_zero.mp h0.symm
    simp only [map_zero, sub_zero] at this
    exact hb this
  have hproc := ArnReach.proc (ok.arnHyp h p.maxiter) (a.Ml (a.b - a.A (p.x0.getD 0)))
  rw [hr] at hf ⊢
  have hinj' : ∀ x, (s.arnCfg s.hooks p.maxiter ortho).A x = 0 → x = 0 := by
    intro x hx
    apply hinj
    rw [← ok.MlAMr]
    exact hx
  have ht := gmresRun_total hproc (cfg := mkCfg s p) (Mr := s.Mr) (post := .ok) (x0 := p.x0.getD 0)
    htol hnb (ok.hres ortho p _) (NonsingOn.top _ hinj') (by
      intro x hx
      have hM : (s.arnCfg s.hooks p.maxiter ortho).Mop = a.M := by simp [LS.arnCfg, ArnCfg.Mop, ok.M]
      rw [hM] at hx
      refine h.ls.prec.self_eq_zero.mp ?_
      simp only [hx, h.ls.inner.zero_right]) (fun x => ⟨x, rfl⟩) (fun x => ⟨_, ok.resNorm p x⟩)
    (ok.errNorm p) ha h0
  match hrun : run (mkCfg s p) (gmresMethod (arnAdvance (s.arnCfg s.hooks p.maxiter ortho)) s.Mr .ok p.maxiter)
      (p.x0.getD 0) _ (gmresInit arn _) .ok with
  | .returned st => exact ⟨st, Or.inl rfl⟩
  | .convergence st => exact ⟨st, Or.inr rfl⟩
  | .raised e => exact absurd hrun (ht e)
  | .outOfFuel => exact absurd hrun hf

/-- C29: the same holds for `Minres`. -/
theorem C29_total {a : LSArgs 𝕜 E} (h : MinresHyp a) {s : LS 𝕜 E} (hs : mkLS a = .ok s) (ortho : Ortho)
    (p : SolverArgs E) (htol : 0 ≤ p.tol) (hb : a.Ml a.b ≠ 0) (hinj : ∀ x, a.Ml (a.A (a.Mr x)) = 0 → x = 0) :
    ∃ st, minres s s.hooks ortho p = .returned st ∨ minres s s.hooks ortho p = .convergence st := by
  obtain ⟨st, hst⟩ := C28_total (h.gmres ortho) hs p htol hb hinj
  obtain ⟨adv, Inv, arn, β, g, A, M, v, e1, e2, hp, htri, ha, h0, hβ, hA⟩ := minres_setup h hs ortho p
  have := run_sim (cfg := mkCfg s p) (xk0 := .ok) (r := β) (x0 := p.x0.getD 0)
    (minres_sim_inj (Mr := s.Mr) (post := .ok) (β := β)
      (x0 := if ((mkCfg s p).MMlbNorm == 0) = true then 0 else p.x0.getD 0)
      hp htri (NonsingOn.top v (by rw [hA]; exact hinj))) (mk₁ := gmresInit arn β) (mk₂ := minresInit arn β)
      (minresInit_rel hp ha h0 hβ)
  rw [e2] at hst
  rw [e1]
  rcases hst with hst | hst
  · obtain ⟨b, hb, -⟩ := this.1 st hst
    exact ⟨_, Or.inl hb⟩
  · obtain ⟨b, hb, -⟩ := this.2 st hst
    exact ⟨_, Or.inr hb⟩

/-- The Arnoldi data of a GMRES run are those of a sequence of `advance()` calls. -/
theorem gmres_reach {a : LSArgs 𝕜 E} {ortho : Ortho} (h : GmresHyp a ortho) {s : LS 𝕜 E} (hs : mkLS a = .ok s)
    (p : SolverArgs E) (htol : 0 ≤ p.tol) (hb : a.Ml a.b ≠ 0) {st : St ℝ E (GmresSt 𝕜 E)}
    (hrun : gmres s s.hooks ortho p = .returned st ∨ gmres s s.hooks ortho p = .convergence st) :
    ArnReach (s.arnCfg s.hooks p.maxiter ortho) (a.Ml (a.b - a.A (p.x0.getD 0))) st.s.arn := by
  obtain ⟨s', hs', ok, -⟩ := mkLS_ok h.ls
  rw [hs] at hs'
  obtain rfl := Except.ok.inj hs'
  obtain ⟨arn, hr, ha, h0⟩ := gmres_setup ok h p
  have hnb : 0 < (mkCfg s p).MMlbNorm := by
    rw [ok.nb]
    refine lt_of_le_of_ne (nrm_nonneg _ _) fun h0 => ?_
    have := h.ls.prec.nrm_eq_zero.mp h0.symm
    simp only [map_zero, sub_zero] at this
    exact hb this
  rw [hr] at hrun
  have hproc := ArnReach.proc (ok.arnHyp h p.maxiter) (a.Ml (a.b - a.A (p.x0.getD 0)))
  obtain ⟨-, hinv, -⟩ := gmresRun_spec hproc (cfg := mkCfg s p) (Mr := s.Mr)
    (post := .ok) (x0 := p.x0.getD 0) htol hnb (ok.hres ortho p _) ha h0 hrun
  exact hinv.arn

theorem minres_reach {a : LSArgs 𝕜 E} {ortho : Ortho} (h : MinresHyp a) {s : LS 𝕜 E} (hs : mkLS a = .ok s)
    (p : SolverArgs E) (htol : 0 ≤ p.tol) (hb : a.Ml a.b ≠ 0) {st : St ℝ E (MinresSt 𝕜 E)}
    (hrun : minres s s.hooks ortho p = .returned st ∨ minres s s.hooks ortho p = .convergence st) :
    ArnReach (s.arnCfg s.hooks p.maxiter ortho) (a.Ml (a.b - a.A (p.x0.getD 0))) st.s.arn := by
  rcases hrun with hrun | hrun
  · obtain ⟨b, hb', hr⟩ := (C29_eq_gmres h hs ortho p).1 st hrun
    rw [← hr]
    exact gmres_reach (h.gmres ortho) hs p htol hb (st := st.setS b) (Or.inl hb')
  · obtain ⟨b, hb', hr⟩ := (C29_eq_gmres h hs ortho p).2 st hrun
    rw [← hr]
    exact gmres_reach (h.gmres ortho) hs p htol hb (st := st.setS b) (Or.inr hb')

/-- The first step flags the Krylov subspace as invariant only if `v` and `A M v` are nearly parallel. -/
theorem first_flagged {c : ArnCfg 𝕜 E} (hc : ArnHyp c) {v : E} (hv : v ≠ 0) {s : Arn 𝕜 E} (h : ArnReach c v s)
    (hi : s.iter = 1) (hinv : s.invariant = true) :
    nsq c.g v * nsq c.g (c.A (c.Mop v)) - ‖c.g v (c.A (c.Mop v))‖ ^ 2 ≤
      1e-28 * (nsq c.g v * nsq c.g (c.A (c.Mop v))) := by
  have hg : IsInner c.g := hc.ls.prec
  obtain ⟨hvn, hrel, hst, -, hfl⟩ := C17_arnoldi hc h
  obtain ⟨hb, hcol, hw⟩ := hfl hinv
  obtain ⟨w, hA, horth, hH, hsmall⟩ := hw 0 (by omega)
  have hst' := hst hv
  have hb1 : 0 < s.get.basis := by omega
  have hVP := hrel.VM 0 hb1
  have hPP : c.g (s.P 0) (s.P 0) = 1 := by
    have := hrel.orth 0 hb1 0 hb1
    rw [if_pos rfl, hVP] at this
    exact this
  have hPw := horth 0 (by omega)
  rw [hi] at hA hsmall
  simp only [Finset.sum_range_one] at hA
  have hP1 : nsq c.g (s.P 0) = 1 := by
    unfold nsq
    rw [hPP]; simp
  -- norms
  have hAV : nsq c.g (c.A (s.V 0)) = ‖s.H 0 0‖ ^ 2 + nsq c.g w := by
    rw [hA, hg.nsq_add_of_orth, hg.nsq_smul, hP1, mul_one]
    rw [hg.smul_left, hPw, mul_zero]
  have hH00 : c.g (s.P 0) (c.A (s.V 0)) = s.H 0 0 := by
    rw [hA, hg.add_right, hg.smul_right, hPP, hPw, mul_one, add_zero]
  have hMv : c.Mop v = (s.vnorm : 𝕜) • s.V 0 := by
    rw [← hst', map_smul, hVP]
  have hAMv : c.A (c.Mop v) = (s.vnorm : 𝕜) • c.A (s.V 0) := by rw [hMv, map_smul]
  have e1 : nsq c.g (c.A (c.Mop v)) = s.vnorm ^ 2 * nsq c.g (c.A (s.V 0)) := by
    rw [hAMv, hg.nsq_smul, RCLike.norm_ofReal, sq_abs]
  have e2 : nsq c.g v = s.vnorm ^ 2 := by
    conv_lhs => rw [← hst']
    rw [hg.nsq_smul, RCLike.norm_ofReal, sq_abs, hP1, mul_one]
  have e3 : ‖c.g v (c.A (c.Mop v))‖ ^ 2 = (s.vnorm ^ 2) ^ 2 * ‖s.H 0 0‖ ^ 2 := by
    have : c.g v (c.A (c.Mop v)) = ((s.vnorm ^ 2 : ℝ) : 𝕜) * s.H 0 0 := by
      conv_lhs => rw [hAMv, hg.smul_right]
      conv_lhs => rw [← hst', hg.smul_left, RCLike.conj_ofReal, hH00]
      push_cast
      ring
    rw [this, norm_mul, mul_pow, RCLike.norm_ofReal, abs_of_nonneg (sq_nonneg _)]
  have hspec : specNorm s.H 2 1 ^ 2 ≤ nsq c.g (c.A (s.V 0)) := by
    have h1 := specNorm_le_frobenius s.H 2 1
    have h2 : (∑ i : Fin 2, ∑ j : Fin 1, ‖s.H i j‖ ^ 2) = nsq c.g (c.A (s.V 0)) := by
      simp only [Fin.sum_univ_two, Fin.sum_univ_one, Fin.val_zero, Fin.val_one]
      rw [zero_add] at hH
      rw [hH, hAV, RCLike.norm_ofReal, sq_abs, hg.nrm_sq]
    rw [h2] at h1
    calc _ ≤ Real.sqrt (nsq c.g (c.A (s.V 0))) ^ 2 := by
          exact pow_le_pow_left₀ (specNorm_nonneg _ _ _) h1 2
      _ = _ := Real.sq_sqrt (hg.nsq_nonneg _)
  have hw2 : nsq c.g w ≤ 1e-28 * nsq c.g (c.A (s.V 0)) := by
    rw [← hg.nrm_sq]
    calc nrm c.g w ^ 2 ≤ (1e-14 * specNorm s.H 2 1) ^ 2 := by
          exact pow_le_pow_left₀ (nrm_nonneg _ _) hsmall 2
      _ = 1e-28 * specNorm s.H 2 1 ^ 2 := by ring
      _ ≤ _ := by gcongr
  rw [e1, e2, e3]
  calc s.vnorm ^ 2 * (s.vnorm ^ 2 * nsq c.g (c.A (s.V 0))) - (s.vnorm ^ 2) ^ 2 * ‖s.H 0 0‖ ^ 2
      = (s.vnorm ^ 2) ^ 2 * nsq c.g w := by rw [hAV]; ring
    _ ≤ (s.vnorm ^ 2) ^ 2 * (1e-28 * nsq c.g (c.A (s.V 0))) := by gcongr
    _ = _ := by ring

/-- Non-vacuity: the two-dimensional example needs no condition on `maxiter`. -/
example (o : Ortho) : ∃ s st, mkLS exSys = .ok s ∧ (minres s s.hooks o ⟨none, 1e-5, 1, false, none⟩ = .returned st ∨
    minres s s.hooks o ⟨none, 1e-5, 1, false, none⟩ = .convergence st) := by
  obtain ⟨s, hs, -⟩ := mkLS_ok exSys_minres.ls
  obtain ⟨st, hst⟩ := C29_total exSys_minres hs o ⟨none, 1e-5, 1, false, none⟩ (by norm_num) (by simp [exSys])
    (by
      intro x hx
      simp [exSys, exCfg] at hx
      exact Prod.ext hx.2 hx.1)
  exact ⟨s, st, hs, hst⟩

/-- A Gmres run for the same system; `get_residual_norms` applied to its Hessenberg matrix gives the recorded residual norms
(hypotheses of `C28_total` and `C48_gmres`). -/
example : ∃ s st res, mkLS exSys = .ok s ∧ (gmres s s.hooks .mgs ⟨none, 1e-5, 1, false, none⟩ = .returned st ∨
    gmres s s.hooks .mgs ⟨none, 1e-5, 1, false, none⟩ = .convergence st) ∧
    getResidualNorms st.s.arn.H st.s.arn.get.rows st.s.arn.get.cols false = .ok res ∧
    ∀ k (h1 : k < st.resnorms.length) (h2 : k < res.length), k < st.s.arn.get.rows →
      st.resnorms[k] * resid exSys 0 = resid exSys 0 * res[k] := by
  obtain ⟨s, hs, -⟩ := mkLS_ok exSys_minres.ls
  have hb : exSys.Ml exSys.b ≠ 0 := by simp [exSys]
  obtain ⟨st, hst⟩ := C28_total (exSys_minres.gmres .mgs) hs ⟨none, 1e-5, 1, false, none⟩ (by norm_num) hb
    (by
      intro x hx
      simp [exSys, exCfg] at hx
      exact Prod.ext hx.2 hx.1)
  obtain ⟨res, h1, h2⟩ := C48_gmres (exSys_minres.gmres .mgs) hs ⟨none, 1e-5, 1, false, none⟩ (by norm_num) hb hst
  exact ⟨s, st, res, hs, hst, h1, h2⟩

end Krypy
