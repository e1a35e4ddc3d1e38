import Verif.Props.Deflation
import Mathlib.LinearAlgebra.FiniteDimensional.Lemmas

/-! # Property C37: termination of the deflated solvers, and deflated CG -/

set_option linter.unusedSectionVars false

namespace Krypy
open scoped ComplexConjugate
open Matrix
variable {𝕜 E : Type*} [RCLike 𝕜] [AddCommGroup E] [Module 𝕜 E] {k : ℕ}

/-- The orthogonal complement of `U`. -/
def perp {ip : E → E → 𝕜} (h : IsInner ip) (U : Fin k → E) : Submodule 𝕜 E where
  carrier := {q | ∀ j, ip (U j) q = 0}
  add_mem' {x y} hx hy j := by rw [h.add_right, hx j, hy j, add_zero]
  zero_mem' j := h.zero_right _
  smul_mem' c x hx j := by rw [h.smul_right, hx j, mul_zero]

theorem perp_lincomb {ip : E → E → 𝕜} (h : IsInner ip) {U : Fin k → E} {q : E} (hq : q ∈ perp h U)
    (c : Fin k → 𝕜) : ip (lincomb U c) q = 0 := by
  simp only [lincomb, h.sum_left, h.smul_left]
  exact Finset.sum_eq_zero fun j _ => by rw [hq j, mul_zero]

theorem perp_finrank [FiniteDimensional 𝕜 E] {ip : E → E → 𝕜} (h : IsInner ip) {U X : Fin k → E}
    (hdet : (gram ip U X).det ≠ 0) : Module.finrank 𝕜 (perp h U) + k ≤ Module.finrank 𝕜 E := by
  have hli : LinearIndependent 𝕜 X := indep_of_gram h hdet
  have h1 := finrank_span_eq_card hli
  rw [Fintype.card_fin] at h1
  have hdis : Disjoint (perp h U) (Submodule.span 𝕜 (Set.range X)) := by
    rw [Submodule.disjoint_def]
    intro x hx hx'
    obtain ⟨c, rfl⟩ := mem_span_lincomb.mp hx'
    have hc : coefs ip U (lincomb X c) = 0 := funext fun j => hx j
    rw [h.coefs_lincomb] at hc
    have h0 : c = 0 := by
      have := congrArg ((gram ip U X)⁻¹ *ᵥ ·) hc
      simpa [Matrix.mulVec_mulVec, Matrix.nonsing_inv_mul _ (isUnit_iff_ne_zero.mpr hdet)] using this
    rw [h0]
    simp [lincomb]
  have := Submodule.finrank_add_finrank_le_of_disjoint hdis
  omega

section
variable {a : LSArgs 𝕜 E} {oa : OblArgs 𝕜 E k} {U : Fin k → E} (h : DeflHyp a oa U)
include h

theorem precond_inj : ∀ x, a.M x = 0 → x = 0 := by
  intro x hx
  refine h.ls.prec.self_eq_zero.mp ?_
  simp only [hx, h.ls.inner.zero_right]

theorem complLin_mem (v : E) : complLin h.ls.inner a.B U v ∈ perp h.ls.inner U :=
  complLin_orth h.ls.inner h.nonsing v

/-- The deflated operator is injective on `M U^⊥` if `Ml A Mr` is injective. -/
theorem defl_nonsing (hinj : ∀ x, a.Ml (a.A (a.Mr x)) = 0 → x = 0) (v : E) :
    NonsingOn (complLin h.ls.inner a.B U ∘ₗ a.B) a.M (complLin h.ls.inner a.B U v)
      ((perp h.ls.inner U).map a.M) := by
  refine ⟨fun n => ?_, ?_⟩
  · rw [krylov_eq_spanTo, spanTo_le]
    intro i _
    cases i with
    | zero => exact ⟨_, complLin_mem h v, by simp⟩
    | succ i =>
      rw [pow_succ']
      exact ⟨_, complLin_mem h _, rfl⟩
  · rintro _ ⟨q, hq, rfl⟩ h0
    obtain ⟨c, hc⟩ := complLin_diff h.ls.inner (B := a.B) (U := U) (a.B (a.M q))
    rw [LinearMap.comp_apply] at h0
    rw [h0, sub_zero] at hc
    have h1 : a.M q - lincomb U c = 0 := by
      apply hinj
      change a.B (a.M q - lincomb U c) = 0
      rw [map_sub, hc, sub_self]
    have h2 : a.M q = lincomb U c := sub_eq_zero.mp h1
    have h3 : a.ip q (a.M q) = 0 := by
      rw [h2]
      exact h.ls.inner.orth_symm (perp_lincomb h.ls.inner hq c)
    rw [h.ls.prec.self_eq_zero.mp h3, map_zero]

theorem defl_solvable [FiniteDimensional 𝕜 E] (hinj : ∀ x, a.Ml (a.A (a.Mr x)) = 0 → x = 0) (v : E) :
    ∃ z ∈ (perp h.ls.inner U).map a.M, (complLin h.ls.inner a.B U ∘ₗ a.B) z = complLin h.ls.inner a.B U v := by
  let T : perp h.ls.inner U →ₗ[𝕜] perp h.ls.inner U :=
    ((complLin h.ls.inner a.B U ∘ₗ a.B ∘ₗ a.M) ∘ₗ (perp h.ls.inner U).subtype).codRestrict _
      fun x => complLin_mem h _
  have hT : Function.Injective T := by
    rw [← LinearMap.ker_eq_bot, LinearMap.ker_eq_bot']
    rintro ⟨q, hq⟩ h0
    have h1 : (complLin h.ls.inner a.B U ∘ₗ a.B) (a.M q) = 0 := congrArg Subtype.val h0
    have := (defl_nonsing h hinj v).inj _ ⟨q, hq, rfl⟩ h1
    exact Subtype.ext (precond_inj h q this)
  obtain ⟨⟨q, hq⟩, hq'⟩ := LinearMap.injective_iff_surjective.mp hT ⟨_, complLin_mem h v⟩
  exact ⟨a.M q, ⟨q, hq, rfl⟩, congrArg Subtype.val hq'⟩

variable {s : LS 𝕜 E} (hs : mkLS a = .ok s) {o : Obl 𝕜 E k} (ho : mkObl s oa U = .ok o)
include hs ho

/-- C37: for nonsingular `Ml A Mr` and `maxiter ≥ dim - k` deflated GMRES never raises anything, and the final residual
is below the tolerance unless the Krylov subspace was flagged invariant although the entry of `H` below the diagonal
is not zero. -/
theorem C37_gmres_terminates [FiniteDimensional 𝕜 E] {ortho : Ortho} (hg : GmresHyp a ortho)
    (hMr : ∀ j, a.Mr (U j) = U j) (p : SolverArgs E) (htol : 0 ≤ p.tol) (hb : a.Ml a.b ≠ 0)
    (hinj : ∀ x, a.Ml (a.A (a.Mr x)) = 0 → x = 0) (hN : Module.finrank 𝕜 E ≤ p.maxiter + k) :
    ∃ st, deflatedGmres s o ortho p = .returned st ∧
      ((∃ r, st.resnorms.getLast? = some r ∧ r ≤ p.tol) ∨
        (st.s.1.arn.invariant = true ∧ ∃ n, st.s.1.arn.iter = n + 1 ∧ st.s.1.arn.H (n + 1) n ≠ 0)) := by
  have ok := LSOK.of_defl h hs
  have ob := OblOK.of_defl h hs ho
  obtain ⟨adv, Inv, arn, β, v, hv, hβ, e1, -, hp, ha, h0, hvn, hadv, -⟩ := ob.setup ok hg p
  subst hβ hv
  have hnb : 0 < (mkCfg s p).MMlbNorm := by rw [ok.nb]; exact resid_pos h.ls hb
  have hdim : Module.finrank 𝕜 ((perp h.ls.inner U).map a.M) ≤ p.maxiter := by
    have h1 := Submodule.finrank_map_le a.M (perp h.ls.inner U)
    have h2 := perp_finrank h.ls.inner h.nonsing
    omega
  obtain ⟨st, hst, hor⟩ := gmresRun_terminates hp (cfg := mkCfg s p) (Mr := a.Mr) (post := o.correct s)
    (x0 := p.x0.getD 0) htol hnb (ob.hres ok hMr p _) (defl_nonsing h hinj _) (precond_inj h)
    (fun x => ⟨_, ob.correct x⟩) (fun x => ⟨_, ok.resNorm p x⟩) (ok.errNorm p) ha h0 (defl_solvable h hinj _) hdim rfl
    hadv
  obtain ⟨b, hb', hr, -⟩ := (run_sim (cfg := mkCfg s p) (xk0 := o.correct s) (x0 := p.x0.getD 0)
    (gmres_log (Mr := a.Mr) (post := o.correct s) hp ok ob).2 (mk₁ := gmresInit arn _)
    (mk₂ := fun x => (gmresInit arn _ x, [])) ⟨rfl, ha, by simp [LogOK, gmresInit, h0]⟩).1 st hst
  rw [e1]
  refine ⟨_, hb', ?_⟩
  change (∃ r, st.resnorms.getLast? = some r ∧ r ≤ p.tol) ∨
    (b.1.arn.invariant = true ∧ ∃ n, b.1.arn.iter = n + 1 ∧ b.1.arn.H (n + 1) n ≠ 0)
  rw [← hr]
  exact hor

/-- C37: the same for deflated MINRES. -/
theorem C37_minres_terminates [FiniteDimensional 𝕜 E] (hm : MinresHyp a) (ortho : Ortho)
    (hMr : ∀ j, a.Mr (U j) = U j) (p : SolverArgs E) (htol : 0 ≤ p.tol) (hb : a.Ml a.b ≠ 0)
    (hinj : ∀ x, a.Ml (a.A (a.Mr x)) = 0 → x = 0) (hN : Module.finrank 𝕜 E ≤ p.maxiter + k) :
    ∃ st, deflatedMinres s o ortho p = .returned st ∧
      ((∃ r, st.resnorms.getLast? = some r ∧ r ≤ p.tol) ∨
        (st.s.1.arn.invariant = true ∧ ∃ n, st.s.1.arn.iter = n + 1 ∧ st.s.1.arn.H (n + 1) n ≠ 0)) := by
  have ok := LSOK.of_defl h hs
  have ob := OblOK.of_defl h hs ho
  obtain ⟨st, hst, hor⟩ := C37_gmres_terminates h hs ho (hm.gmres ortho) hMr p htol hb hinj hN
  obtain ⟨adv, Inv, arn, β, v, hv, hβ, e1, e2, hp, ha, h0, hvn, hadv, htri⟩ := ob.setup ok (hm.gmres ortho) p
  have htri' : ∀ {t : Arn 𝕜 E}, Inv t → TriReal t := fun ht => htri hm.sa ht
  rw [e1] at hst
  rw [e2]
  obtain ⟨b1, hb1, r1, -⟩ := (run_sim (cfg := mkCfg s p) (xk0 := o.correct s) (r := β) (x0 := p.x0.getD 0)
    (gmres_log (Mr := a.Mr) (post := o.correct s) hp ok ob).1 (mk₁ := fun x => (gmresInit arn β x, []))
    (mk₂ := gmresInit arn β) ⟨rfl, ha, by simp [LogOK, gmresInit, h0]⟩).1 st hst
  subst hv
  obtain ⟨b2, hb2, r2⟩ := (run_sim (cfg := mkCfg s p) (xk0 := o.correct s) (r := β) (x0 := p.x0.getD 0)
    (minres_sim_inj (Mr := a.Mr) (post := o.correct s) (β := β)
      (x0 := if ((mkCfg s p).MMlbNorm == 0) = true then 0 else p.x0.getD 0)
      hp htri' (defl_nonsing h hinj _)) (mk₁ := gmresInit arn β) (mk₂ := minresInit arn β)
      (minresInit_rel hp ha h0 hvn)).1 _ hb1
  obtain ⟨b3, hb3, r3, -⟩ := (run_sim (cfg := mkCfg s p) (xk0 := o.correct s) (r := β) (x0 := p.x0.getD 0)
    (minres_log (Mr := a.Mr) (post := o.correct s) hp ok ob).2 (mk₁ := minresInit arn β)
    (mk₂ := fun x => (minresInit arn β x, [])) ⟨rfl, ha, by simp [LogOK, minresInit, h0]⟩).1 _ hb2
  refine ⟨_, hb3, ?_⟩
  change (∃ r, st.resnorms.getLast? = some r ∧ r ≤ p.tol) ∨
    (b3.1.arn.invariant = true ∧ ∃ n, b3.1.arn.iter = n + 1 ∧ b3.1.arn.H (n + 1) n ≠ 0)
  have e : b3.1.arn = st.s.1.arn := by
    rw [← r3, r1]; exact r2.arn
  rw [e]
  exact hor

/-! ## CG -/

omit hs ho in
theorem defl_cgHyp (hp : SpdHyp a) (v : E) :
    CgHyp a.ip a.M (complLin h.ls.inner a.B U ∘ₗ a.B) (perp h.ls.inner U) (complLin h.ls.inner a.B U v) where
  ls := h.ls
  sa := complLin_selfadj h.ls.inner h.nonsing hp.sa
  rng x := complLin_mem h _
  start := complLin_mem h v
  pos := by
    intro q hq hq0
    obtain ⟨c, hc⟩ := complLin_diff h.ls.inner (B := a.B) (U := U) (a.B (a.M q))
    have e : complLin h.ls.inner a.B U (a.B (a.M q)) = a.B (a.M q - lincomb U c) := by
      rw [map_sub, ← hc]; abel
    have hne : a.M q - lincomb U c ≠ 0 := by
      intro h0
      have h3 : a.ip q (a.M q) = 0 := by
        rw [sub_eq_zero.mp h0]
        exact h.ls.inner.orth_symm (perp_lincomb h.ls.inner hq c)
      exact hq0 (h.ls.prec.self_eq_zero.mp h3)
    have e2 : a.ip (a.M q) ((complLin h.ls.inner a.B U ∘ₗ a.B) (a.M q)) =
        a.ip (a.M q - lincomb U c) (a.B (a.M q - lincomb U c)) := by
      rw [LinearMap.comp_apply, h.ls.inner.sub_left, ← e, perp_lincomb h.ls.inner (complLin_mem h _), sub_zero]
    rw [e2]
    exact hp.pos _ hne

theorem deflCg_setup (store : Bool) (p : SolverArgs E) :
    deflatedCg s o store p = run (mkCfg s p)
      ((cgMethod a.ip a.M (complLin h.ls.inner a.B U ∘ₗ a.B) a.Mr (o.correct s) store p.maxiter).log (o.newCgC s))
      (p.x0.getD 0) (nrm (gform a.ip a.M) (complLin h.ls.inner a.B U (a.Ml (a.b - a.A (p.x0.getD 0)))))
      (fun x => (cgInit (a.M (complLin h.ls.inner a.B U (a.Ml (a.b - a.A (p.x0.getD 0)))))
        (complLin h.ls.inner a.B U (a.Ml (a.b - a.A (p.x0.getD 0))))
        (nrm (gform a.ip a.M) (complLin h.ls.inner a.B U (a.Ml (a.b - a.A (p.x0.getD 0))))) x, [])) (o.correct s) := by
  have ok := LSOK.of_defl h hs
  have ob := OblOK.of_defl h hs ho
  unfold deflatedCg
  rw [ob.initRes ok]
  simp only [ob.op_eq ok, ok.ip, ok.M, ok.Mr]
  rfl

theorem deflCg_loop (hpd : SpdHyp a) (hMr : ∀ j, a.Mr (U j) = U j) (store : Bool) (p : SolverArgs E) (htol : 0 ≤ p.tol)
    (hb : a.Ml a.b ≠ 0) {st : St ℝ E (CgSt 𝕜 E × List ((Fin k → 𝕜) × Option (Fin k → 𝕜)))}
    (hrun : deflatedCg s o store p = .returned st ∨ deflatedCg s o store p = .convergence st) :
    CgLoop a.ip a.M (complLin h.ls.inner a.B U ∘ₗ a.B) a.Mr (perp h.ls.inner U)
      (complLin h.ls.inner a.B U (a.Ml (a.b - a.A (p.x0.getD 0)))) (p.x0.getD 0) store (o.correct s)
      (resid a 0) (st.setS st.s.1) ∧ (∃ x, st.xk = some x) ∧ CgLogOK a o st.s.1 st.s.2 ∧
    (deflatedCg s o store p = .returned st → st.iter = st.s.1.k) ∧
    (deflatedCg s o store p = .convergence st → st.iter + 1 = st.s.1.k ∧ st.s.1.k = p.maxiter) := by
  have ok := LSOK.of_defl h hs
  have ob := OblOK.of_defl h hs ho
  rw [deflCg_setup h hs ho] at hrun ⊢
  have hsim := run_sim (cfg := mkCfg s p) (xk0 := o.correct s)
    (r := nrm (gform a.ip a.M) (complLin h.ls.inner a.B U (a.Ml (a.b - a.A (p.x0.getD 0))))) (x0 := p.x0.getD 0)
    (cg_log (ip := a.ip) (M := a.M) (B := complLin h.ls.inner a.B U ∘ₗ a.B) (Mr := a.Mr) (post := o.correct s)
      (store := store) (maxiter := p.maxiter) ok ob).1
    (mk₁ := fun x => (cgInit (a.M (complLin h.ls.inner a.B U (a.Ml (a.b - a.A (p.x0.getD 0)))))
        (complLin h.ls.inner a.B U (a.Ml (a.b - a.A (p.x0.getD 0))))
        (nrm (gform a.ip a.M) (complLin h.ls.inner a.B U (a.Ml (a.b - a.A (p.x0.getD 0))))) x, []))
    (mk₂ := cgInit (a.M (complLin h.ls.inner a.B U (a.Ml (a.b - a.A (p.x0.getD 0)))))
        (complLin h.ls.inner a.B U (a.Ml (a.b - a.A (p.x0.getD 0))))
        (nrm (gform a.ip a.M) (complLin h.ls.inner a.B U (a.Ml (a.b - a.A (p.x0.getD 0))))))
    ⟨rfl, rfl, by simp, by simp⟩
  have hnb : 0 < (mkCfg s p).MMlbNorm := by rw [ok.nb]; exact resid_pos h.ls hb
  have hspec := fun {st'} => cgRun_spec (st := st') (store := store) (maxiter := p.maxiter)
    (defl_cgHyp h hpd (a.Ml (a.b - a.A (p.x0.getD 0)))) (cfg := mkCfg s p) htol
    hnb (ob.hres ok hMr p _) (xk0 := o.correct s)
  rcases hrun with hrun | hrun
  · obtain ⟨b, hb', hr, hl⟩ := hsim.1 st hrun
    obtain ⟨h1, h2, h3, h4⟩ := hspec (Or.inl hb')
    subst hr
    rw [ok.nb] at h1
    refine ⟨h1, h2, hl, fun _ => (h3 hb').1, fun h5 => ?_⟩
    rw [hrun] at h5
    simp at h5
  · obtain ⟨b, hb', hr, hl⟩ := hsim.2 st hrun
    obtain ⟨h1, h2, h3, h4⟩ := hspec (Or.inr hb')
    subst hr
    rw [ok.nb] at h1
    refine ⟨h1, h2, hl, fun h5 => ?_, fun _ => ⟨(h4 hb').1, (h4 hb').2.1⟩⟩
    rw [hrun] at h5
    simp at h5

/-- C37 for CG: for self-adjoint positive definite `Ml A Mr`, there are `w_i ∈ K_i + span U` (`K_i` the Krylov
subspaces of the deflated operator) such that the recorded relative residual norms are those of `x0 + Mr w_i`, whose
residuals are orthogonal to `U`; `w_i` is the unique element of `K_i + span U` which minimises the energy norm of the
error; the returned approximation is the last `x0 + Mr w_i`; no warning is issued. -/
theorem C37_cg (hpd : SpdHyp a) (hMr : ∀ j, a.Mr (U j) = U j) (store : Bool) (p : SolverArgs E) (htol : 0 ≤ p.tol)
    (hb : a.Ml a.b ≠ 0) {Q : E →ₗ[𝕜] E} (hQ : IsDeflProj a U Q)
    {st : St ℝ E (CgSt 𝕜 E × List ((Fin k → 𝕜) × Option (Fin k → 𝕜)))}
    (hrun : deflatedCg s o store p = .returned st ∨ deflatedCg s o store p = .convergence st) :
    st.warnings = 0 ∧ st.s.1.warn = 0 ∧ ∃ w : ℕ → E,
      st.xk = some (p.x0.getD 0 + a.Mr (w (st.resnorms.length - 1))) ∧
      ∀ i (hi : i < st.resnorms.length),
        w i ∈ deflKry a Q (p.x0.getD 0) i ⊔ Submodule.span 𝕜 (Set.range U) ∧
        st.resnorms[i] * resid a 0 = resid a (p.x0.getD 0 + a.Mr (w i)) ∧
        (∀ j, a.ip (U j) (a.Ml (a.b - a.A (p.x0.getD 0 + a.Mr (w i)))) = 0) ∧
        ∀ ystar, a.Ml (a.A (p.x0.getD 0 + a.Mr ystar)) = a.Ml a.b →
          ∀ z ∈ deflKry a Q (p.x0.getD 0) i ⊔ Submodule.span 𝕜 (Set.range U),
          errEnergy a (ystar - w i) ≤ errEnergy a (ystar - z) ∧
          (errEnergy a (ystar - z) = errEnergy a (ystar - w i) → z = w i) := by
  have ok := LSOK.of_defl h hs
  have ob := OblOK.of_defl h hs ho
  obtain ⟨hl, ⟨x, hx⟩, -, -, -⟩ := deflCg_loop h hs ho hpd hMr store p htol hb hrun
  obtain rfl := hQ.eq_compl h.ls.inner h.nonsing
  have hlen := hl.len
  change st.resnorms.length = st.s.1.k + 1 at hlen
  have hH := defl_cgHyp h hpd (a.Ml (a.b - a.A (p.x0.getD 0)))
  have hMrl : ∀ c, a.Mr (lincomb U c) = lincomb U c := fun c => by
    rw [map_lincomb a.Mr]; simp only [hMr]
  have hc : ∀ i, ∃ c : Fin k → 𝕜, o.correct s (p.x0.getD 0 + a.Mr (st.s.1.ys i)) =
      .ok (p.x0.getD 0 + a.Mr (st.s.1.ys i + lincomb U c)) ∧
      a.Ml (a.b - a.A (p.x0.getD 0 + a.Mr (st.s.1.ys i + lincomb U c))) =
        complLin h.ls.inner a.B U (a.Ml (a.b - a.A (p.x0.getD 0))) -
          (complLin h.ls.inner a.B U ∘ₗ a.B) (st.s.1.ys i) := by
    intro i
    obtain ⟨c, h1, h2⟩ := ob.correct_spec ok hMr (p.x0.getD 0 + a.Mr (st.s.1.ys i))
    refine ⟨c, ?_, ?_⟩
    · rw [h1, map_add, hMrl, add_assoc]
    · rw [map_add a.Mr, hMrl, ← add_assoc, h2, LinearMap.comp_apply, ← map_sub]
      congr 1
      simp only [map_add, map_sub, LSArgs.B, LinearMap.comp_apply]
      abel
  choose c hc1 hc2 using hc
  refine ⟨hl.warn, hl.inv.warn, fun i => st.s.1.ys i + lincomb U (c i), ?_, fun i hi => ⟨?_, ?_, ?_, ?_⟩⟩
  · have h1 := hl.xk x hx
    change o.correct s (p.x0.getD 0 + a.Mr (st.s.1.ys st.s.1.k)) = .ok x at h1
    rw [hc1] at h1
    rw [hx, hlen, Nat.add_sub_cancel, Except.ok.inj h1]
  · exact Submodule.add_mem_sup (hl.inv.ys_mem hH i (by rw [hlen] at hi; exact Nat.lt_succ_iff.mp hi))
      (mem_span_lincomb.mpr ⟨_, rfl⟩)
  · have := hl.resn i hi
    unfold resid at this ⊢
    rw [hc2]
    exact this
  · intro j
    rw [hc2]
    have := (perp h.ls.inner U).sub_mem (complLin_mem h (a.Ml (a.b - a.A (p.x0.getD 0))))
      (complLin_mem h (a.B (st.s.1.ys i)))
    exact this j
  · intro ystar hy z hz
    set w := st.s.1.ys i + lincomb U (c i) with hw
    have hi' : i ≤ st.s.1.k := by rw [hlen] at hi; exact Nat.lt_succ_iff.mp hi
    -- the residual is orthogonal to the space
    have hres : a.B (ystar - w) = complLin h.ls.inner a.B U (a.Ml (a.b - a.A (p.x0.getD 0))) -
          (complLin h.ls.inner a.B U ∘ₗ a.B) (st.s.1.ys i) := by
      rw [← hc2 i, map_sub]
      have : a.B ystar = a.Ml a.b - a.Ml (a.A (p.x0.getD 0)) := by
        rw [← hy]
        simp only [map_add, LSArgs.B, LinearMap.comp_apply]
        abel
      rw [this]
      simp only [map_add, map_sub, LSArgs.B, LinearMap.comp_apply, hw]
      abel
    have horth : ∀ d ∈ deflKry a (complLin h.ls.inner a.B U) (p.x0.getD 0) i ⊔ Submodule.span 𝕜 (Set.range U),
        a.ip d (a.B (ystar - w)) = 0 := by
      intro d hd
      obtain ⟨d1, hd1, d2, hd2, rfl⟩ := Submodule.mem_sup.mp hd
      obtain ⟨e, rfl⟩ := mem_span_lincomb.mp hd2
      have hgal : a.ip d1 (complLin h.ls.inner a.B U (a.Ml (a.b - a.A (p.x0.getD 0))) -
          (complLin h.ls.inner a.B U ∘ₗ a.B) (st.s.1.ys i)) = 0 := hl.inv.galerkin hH i hi' d1 hd1
      rw [h.ls.inner.add_left, hres, hgal, zero_add]
      exact perp_lincomb h.ls.inner ((perp h.ls.inner U).sub_mem (complLin_mem h _) (complLin_mem h _)) e
    have hwm : w ∈ deflKry a (complLin h.ls.inner a.B U) (p.x0.getD 0) i ⊔ Submodule.span 𝕜 (Set.range U) :=
      Submodule.add_mem_sup (hl.inv.ys_mem hH i hi') (mem_span_lincomb.mpr ⟨_, rfl⟩)
    have hg := horth (w - z) (Submodule.sub_mem _ hwm hz)
    have he : ystar - z = (ystar - w) + (w - z) := by abel
    have hen : ∀ e, errEnergy a e = energy a.ip a.B e := fun _ => rfl
    have e1 : energy a.ip a.B (ystar - z) = energy a.ip a.B (ystar - w) + energy a.ip a.B (w - z) := by
      unfold energy
      have hsa : a.ip (ystar - w) (a.B (w - z)) = 0 := by
        have : a.ip (a.B (ystar - w)) (w - z) = a.ip (ystar - w) (a.B (w - z)) := hpd.sa _ _
        rw [← this]
        exact h.ls.inner.orth_symm hg
      rw [he, map_add, h.ls.inner.add_left, h.ls.inner.add_right, h.ls.inner.add_right, hg, hsa]
      simp
    rw [hen, hen, e1]
    by_cases h0 : w - z = 0
    · have : energy a.ip a.B (w - z) = 0 := by rw [h0]; simp [energy, h.ls.inner.zero_left]
      refine ⟨by linarith, fun _ => (sub_eq_zero.mp h0).symm⟩
    · have hpos : 0 < energy a.ip a.B (w - z) := hpd.pos _ h0
      exact ⟨by linarith, fun heq => by linarith⟩

/-- C37: with `maxiter ≥ dim - k` deflated CG returns with a residual norm below the tolerance. -/
theorem C37_cg_terminates [FiniteDimensional 𝕜 E] (hpd : SpdHyp a) (hMr : ∀ j, a.Mr (U j) = U j) (store : Bool)
    (p : SolverArgs E) (htol : 0 ≤ p.tol) (hb : a.Ml a.b ≠ 0) (hN : Module.finrank 𝕜 E ≤ p.maxiter + k) :
    ∃ st, deflatedCg s o store p = .returned st ∧ ∃ r, st.resnorms.getLast? = some r ∧ r ≤ p.tol := by
  have ok := LSOK.of_defl h hs
  have ob := OblOK.of_defl h hs ho
  have hnb : 0 < (mkCfg s p).MMlbNorm := by rw [ok.nb]; exact resid_pos h.ls hb
  obtain ⟨st, h1, h2⟩ := cgRun_terminates (store := store) (maxiter := p.maxiter)
    (defl_cgHyp h hpd (a.Ml (a.b - a.A (p.x0.getD 0)))) (cfg := mkCfg s p) htol hnb (ob.hres ok hMr p _)
    (fun x => ⟨_, ob.correct x⟩) (fun x => ⟨_, ok.resNorm p x⟩) (ok.errNorm p)
    (by have := perp_finrank h.ls.inner h.nonsing; omega) rfl
  obtain ⟨b, hb', -⟩ := (run_sim (cfg := mkCfg s p) (xk0 := o.correct s) (x0 := p.x0.getD 0)
    (cg_log (ip := a.ip) (M := a.M) (B := complLin h.ls.inner a.B U ∘ₗ a.B) (Mr := a.Mr) (post := o.correct s)
      (store := store) (maxiter := p.maxiter) ok ob).2 (mk₂ := fun x => (cgInit _ _ _ x, []))
    ⟨rfl, rfl, by simp, by simp⟩).1 st h1
  rw [deflCg_setup h hs ho]
  exact ⟨_, hb', h2⟩

end
end Krypy
