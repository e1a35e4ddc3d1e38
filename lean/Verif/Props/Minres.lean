import Verif.Proofs.Minres
import Verif.Props.Gmres

/-! # Property C29: MINRES in exact arithmetic -/

set_option linter.unusedSectionVars false

namespace Krypy
variable {𝕜 E : Type*} [RCLike 𝕜] [AddCommGroup E] [Module 𝕜 E]
open scoped ComplexConjugate
open Finset

/-- Admissible input of `Minres`: `Ml A Mr` is self-adjoint (it may be indefinite or singular). -/
structure MinresHyp (a : LSArgs 𝕜 E) : Prop where
  ls : LSHyp a.ip a.M
  sa : ∀ x y, a.ip (a.Ml (a.A (a.Mr x))) y = a.ip x (a.Ml (a.A (a.Mr y)))

theorem MinresHyp.gmres {a : LSArgs 𝕜 E} (h : MinresHyp a) (o : Ortho) : GmresHyp a o := ⟨h.ls, fun _ => h.sa⟩

/-- Self-adjoint operators have real tridiagonal Arnoldi matrices. -/
theorem ArnReach.triReal {c : ArnCfg 𝕜 E} (hc : ArnHyp c) (hsa : ∀ x y, c.ip (c.A x) y = c.ip x (c.A y)) {v : E}
    {s : Arn 𝕜 E} (h : ArnReach c v s) : TriReal s := by
  intro j hj i
  have hF := ArnInv.facts hc h
  rcases Nat.lt_or_ge i s.iter with hi | hi
  · obtain ⟨-, h2, h3⟩ := C18_tridiagonal hc hsa h i hi j hj
    exact ⟨(RCLike.conj_eq_iff_re).mp (RCLike.conj_eq_iff_im.mpr h2), fun hij => h3 (Or.inr hij)⟩
  · refine ⟨?_, fun hij => by omega⟩
    rcases Nat.lt_or_ge (j + 1) i with h1 | h1
    · rw [hF.hess i j h1]; simp
    · obtain rfl : i = j + 1 := by omega
      have hR := (C17_arnoldi hc h).2.1
      have hcols : s.get.cols = s.iter := by unfold Arn.get; split <;> simp
      obtain ⟨r, -, hr⟩ := hR.sub j (by omega)
      rw [hr, RCLike.ofReal_re]

section
variable {a : LSArgs 𝕜 E} (h : MinresHyp a) {s : LS 𝕜 E} (hs : mkLS a = .ok s) (ortho : Ortho) (p : SolverArgs E)
include h hs

/-- The runs of `minres` and `gmres` in terms of the driver. -/
theorem minres_setup_full : ∃ (adv : Arn 𝕜 E → Except Err (Arn 𝕜 E)) (Inv : Arn 𝕜 E → Prop) (arn : Arn 𝕜 E) (β : ℝ)
    (g : E → E → 𝕜) (A M : E →ₗ[𝕜] E) (v : E),
    minres s s.hooks ortho p = run (mkCfg s p) (minresMethod adv s.Mr .ok p.maxiter) (p.x0.getD 0) β
      (minresInit arn β) .ok ∧
    gmres s s.hooks ortho p = run (mkCfg s p) (gmresMethod adv s.Mr .ok p.maxiter) (p.x0.getD 0) β
      (gmresInit arn β) .ok ∧
    ArnProc g A M p.maxiter v adv Inv ∧ (∀ {s}, Inv s → TriReal s) ∧ Inv arn ∧ arn.iter = 0 ∧ arn.vnorm = β ∧
    A = a.Ml ∘ₗ a.A ∘ₗ a.Mr ∧ M = a.M ∧ v = a.Ml (a.b - a.A (p.x0.getD 0)) := by
  obtain ⟨s', hs', ok, -⟩ := mkLS_ok h.ls
  rw [hs] at hs'
  obtain rfl := Except.ok.inj hs'
  have hg : (s.arnCfg s.hooks p.maxiter ortho).g = fun x y => a.ip x (a.M y) := by
    funext x y
    simp [ArnCfg.g, LS.arnCfg, ArnCfg.Mop, ok.M, ok.ip]
  have hM : (s.arnCfg s.hooks p.maxiter ortho).Mop = a.M := by simp [LS.arnCfg, ArnCfg.Mop, ok.M]
  have hsa : ∀ x y, (s.arnCfg s.hooks p.maxiter ortho).ip ((s.arnCfg s.hooks p.maxiter ortho).A x) y =
      (s.arnCfg s.hooks p.maxiter ortho).ip x ((s.arnCfg s.hooks p.maxiter ortho).A y) := by
    intro x y
    simp only [LS.arnCfg, LS.hooks, ok.ip, ok.MlAMr]
    exact h.sa x y
  set v := a.Ml (a.b - a.A (p.x0.getD 0)) with hv
  have h1 : ∀ w, (some (a.M v) : Option E) = some w → w = (s.arnCfg s.hooks p.maxiter ortho).Mop v := by
    intro w hw; rw [hM]; exact (Option.some.inj hw).symm
  have h2 : ∀ r, (some (nrm (fun x y => a.ip x (a.M y)) v) : Option ℝ) = some r →
      r = nrm (s.arnCfg s.hooks p.maxiter ortho).g v := by
    intro r hr; rw [hg]; exact (Option.some.inj hr).symm
  have hah := ok.arnHyp (h.gmres ortho) p.maxiter
  obtain ⟨arn, harn, hinv, hit, -⟩ := arnInit_inv hah v h1 h2
  have hr : s.hooks.initRes p.x0 = _ := ok.initRes p.x0
  refine ⟨arnAdvance (s.arnCfg s.hooks p.maxiter ortho), ArnReach (s.arnCfg s.hooks p.maxiter ortho) v, arn, _,
    _, _, _, v, ?_, ?_, ArnReach.proc hah v, fun hr => hr.triReal hah hsa, .init h1 h2 harn, hit,
    by rw [hinv.vnorm, hg], ok.op_eq, hM, hv⟩
  · unfold minres minresRun
    dsimp only
    rw [hr]
    dsimp only
    rw [harn]
    rfl
  · unfold gmres gmresRun
    dsimp only
    rw [hr]
    dsimp only
    rw [harn]
    rfl

theorem minres_setup : ∃ (adv : Arn 𝕜 E → Except Err (Arn 𝕜 E)) (Inv : Arn 𝕜 E → Prop) (arn : Arn 𝕜 E) (β : ℝ)
    (g : E → E → 𝕜) (A M : E →ₗ[𝕜] E) (v : E),
    minres s s.hooks ortho p = run (mkCfg s p) (minresMethod adv s.Mr .ok p.maxiter) (p.x0.getD 0) β
      (minresInit arn β) .ok ∧
    gmres s s.hooks ortho p = run (mkCfg s p) (gmresMethod adv s.Mr .ok p.maxiter) (p.x0.getD 0) β
      (gmresInit arn β) .ok ∧
    ArnProc g A M p.maxiter v adv Inv ∧ (∀ {s}, Inv s → TriReal s) ∧ Inv arn ∧ arn.iter = 0 ∧ arn.vnorm = β ∧
    A = a.Ml ∘ₗ a.A ∘ₗ a.Mr := by
  obtain ⟨adv, Inv, arn, β, g, A, M, v, h1, h2, h3, h4, h5, h6, h7, h8, -⟩ := minres_setup_full h hs ortho p
  exact ⟨adv, Inv, arn, β, g, A, M, v, h1, h2, h3, h4, h5, h6, h7, h8⟩

/-- C29: whenever `Minres` returns or raises `ConvergenceError`, `Gmres` with the same arguments does the same, with
the same iterate, histories and Lanczos data. -/
theorem C29_eq_gmres :
    (∀ st, minres s s.hooks ortho p = .returned st →
      ∃ b, gmres s s.hooks ortho p = .returned (st.setS b) ∧ b.arn = st.s.arn) ∧
    (∀ st, minres s s.hooks ortho p = .convergence st →
      ∃ b, gmres s s.hooks ortho p = .convergence (st.setS b) ∧ b.arn = st.s.arn) := by
  obtain ⟨adv, Inv, arn, β, g, A, M, v, e1, e2, hp, htri, ha, h0, hβ, -⟩ := minres_setup h hs ortho p
  have := run_sim (cfg := mkCfg s p) (xk0 := .ok) (r := β) (x0 := p.x0.getD 0)
    (minres_sim (Mr := s.Mr) (post := .ok) (β := β) (x0 := if ((mkCfg s p).MMlbNorm == 0) = true then 0 else p.x0.getD 0)
      hp htri) (mk₁ := minresInit arn β) (mk₂ := gmresInit arn β) (minresInit_rel hp ha h0 hβ)
  rw [e1, e2]
  refine ⟨fun st hst => ?_, fun st hst => ?_⟩
  · obtain ⟨b, hb, hr⟩ := this.1 st hst
    exact ⟨b, hb, hr.arn.symm⟩
  · obtain ⟨b, hb, hr⟩ := this.2 st hst
    exact ⟨b, hb, hr.arn.symm⟩

/-- C29: for nonsingular operators the converse holds as well. -/
theorem C29_gmres_eq (hinj : ∀ x, a.Ml (a.A (a.Mr x)) = 0 → x = 0) {st : St ℝ E (GmresSt 𝕜 E)}
    (hst : gmres s s.hooks ortho p = .returned st) :
    ∃ b, minres s s.hooks ortho p = .returned (st.setS b) ∧ b.arn = st.s.arn := by
  obtain ⟨adv, Inv, arn, β, g, A, M, v, e1, e2, hp, htri, ha, h0, hβ, hA⟩ := minres_setup h hs ortho p
  have := run_sim (cfg := mkCfg s p) (xk0 := .ok) (r := β) (x0 := p.x0.getD 0)
    (minres_sim_inj (Mr := s.Mr) (post := .ok) (β := β)
      (x0 := if ((mkCfg s p).MMlbNorm == 0) = true then 0 else p.x0.getD 0)
      hp htri (NonsingOn.top v (by rw [hA]; exact hinj))) (mk₁ := gmresInit arn β) (mk₂ := minresInit arn β) (minresInit_rel hp ha h0 hβ)
  rw [e2] at hst
  rw [e1]
  obtain ⟨b, hb, hr⟩ := this.1 st hst
  exact ⟨b, hb, hr.arn⟩

/-- C29: for every self-adjoint `Ml A Mr` (also indefinite or singular) with `Ml b ≠ 0`, every initial guess,
`tol ≥ 0`, `maxiter`, `explicit_residual`, exact solution and orthogonalisation variant: if `Minres` returns or raises
`ConvergenceError`, then the recorded relative residual norms are the minima over the search spaces
`x0 + Mr K_i`, the approximate solution attains the last one, and no warning was issued. -/
theorem C29_optimal (htol : 0 ≤ p.tol) (hb : a.Ml a.b ≠ 0) {st : St ℝ E (MinresSt 𝕜 E)}
    (hrun : minres s s.hooks ortho p = .returned st ∨ minres s s.hooks ortho p = .convergence st) :
    ∃ x, st.xk = some x ∧ MinRes a (p.x0.getD 0) st.resnorms x ∧ st.warnings = 0 ∧
      st.resnorms.length = st.s.arn.iter + 1 ∧ st.s.arn.iter ≤ p.maxiter := by
  have hr : ∃ b : GmresSt 𝕜 E, (gmres s s.hooks ortho p = .returned (st.setS b) ∨
      gmres s s.hooks ortho p = .convergence (st.setS b)) ∧ b.arn = st.s.arn := by
    rcases hrun with hrun | hrun
    · obtain ⟨b, hb, hr⟩ := (C29_eq_gmres h hs ortho p).1 st hrun
      exact ⟨b, Or.inl hb, hr⟩
    · obtain ⟨b, hb, hr⟩ := (C29_eq_gmres h hs ortho p).2 st hrun
      exact ⟨b, Or.inr hb, hr⟩
  obtain ⟨b, hr, hba⟩ := hr
  obtain ⟨x, h1, h2, h3, h4, h5⟩ := C26_optimal (h.gmres ortho) hs p htol hb hr
  refine ⟨x, h1, h2, h3, ?_, ?_⟩
  · rw [← hba]; exact h4
  · rw [← hba]; exact h5

/-- C29: the recorded residual norms never increase. -/
theorem C29_monotone (htol : 0 ≤ p.tol) (hb : a.Ml a.b ≠ 0) {st : St ℝ E (MinresSt 𝕜 E)}
    (hrun : minres s s.hooks ortho p = .returned st ∨ minres s s.hooks ortho p = .convergence st) :
    st.resnorms.Pairwise (fun r r' => r' ≤ r) := by
  obtain ⟨x, -, hmin, -⟩ := C29_optimal h hs ortho p htol hb hrun
  refine hmin.antitone (lt_of_le_of_ne (nrm_nonneg _ _) fun h0 => hb ?_)
  have := h.ls.prec.nrm_eq_zero.mp h0.symm
  simpa using this

/-- C29: for nonsingular `Ml A Mr` and `maxiter ≥ dim` MINRES always returns; the final residual is below the
tolerance unless the Krylov subspace was flagged invariant with a nonzero entry below the diagonal (at most
`1e-14 * ‖H‖`). -/
theorem C29_terminates [FiniteDimensional 𝕜 E] (htol : 0 ≤ p.tol) (hb : a.Ml a.b ≠ 0)
    (hinj : ∀ x, a.Ml (a.A (a.Mr x)) = 0 → x = 0) (hN : Module.finrank 𝕜 E ≤ p.maxiter) :
    ∃ st, minres s s.hooks ortho p = .returned st ∧
      ((∃ r, st.resnorms.getLast? = some r ∧ r ≤ p.tol) ∨
        (st.s.arn.invariant = true ∧ ∃ k, st.s.arn.iter = k + 1 ∧ st.s.arn.H (k + 1) k ≠ 0)) := by
  obtain ⟨st, hst, hor⟩ := C28_terminates (h.gmres ortho) hs p htol hb hinj hN
  obtain ⟨b, hb, hr⟩ := C29_gmres_eq h hs ortho p hinj hst
  refine ⟨st.setS b, hb, ?_⟩
  change (∃ r, st.resnorms.getLast? = some r ∧ r ≤ p.tol) ∨
        (b.arn.invariant = true ∧ ∃ k, b.arn.iter = k + 1 ∧ b.arn.H (k + 1) k ≠ 0)
  rw [hr]
  exact hor

end

/-- Non-vacuity: the self-adjoint indefinite system of `exSys` (`A` swaps the coordinates, `b = (1, 0)`). -/
theorem exSys_minres : MinresHyp exSys := ⟨(exSys_hyp .lanczos).ls, (exSys_hyp .lanczos).sa rfl⟩

example (o : Ortho) : ∃ s st, mkLS exSys = .ok s ∧
    minres s s.hooks o ⟨none, 1e-5, 2, false, none⟩ = .returned st ∧ st.resnorms.length ≤ 3 := by
  obtain ⟨s, hs, ok, -⟩ := mkLS_ok exSys_minres.ls
  have hb : exSys.Ml exSys.b ≠ 0 := by simp [exSys]
  have htol : (0 : ℝ) ≤ (⟨none, 1e-5, 2, false, none⟩ : SolverArgs (ℝ × ℝ)).tol := by norm_num
  have hfin : Module.finrank ℝ (ℝ × ℝ) = 2 := by simp
  obtain ⟨st, hst, -⟩ := C29_terminates exSys_minres hs o ⟨none, 1e-5, 2, false, none⟩ htol hb
    (fun x hx => by
      have h1 : x.2 = 0 := congrArg Prod.fst hx
      have h2 : x.1 = 0 := congrArg Prod.snd hx
      exact Prod.ext h2 h1) hfin.le
  obtain ⟨x, -, hmin, -, hlen, hle⟩ := C29_optimal exSys_minres hs o ⟨none, 1e-5, 2, false, none⟩ htol hb
    (Or.inl hst)
  exact ⟨s, st, hs, hst, by dsimp only at hle; omega⟩

end Krypy
