import Verif.Props.RestartedGmres
import Verif.Props.Singular
import Verif.Proofs.Chebyshev
import Mathlib.Analysis.Normed.Module.FiniteDimension

/-!
# Property C68: restarted GMRES converges for positive real systems and may stagnate for others

`RestartedGmres` (linsys.py 1021-1081) throws the Krylov subspace away after `maxiter` iterations.  For systems whose
operator has a field of values in the open right half plane every cycle reduces the residual norm by a factor below one which does
not depend on the cycle, hence the solver returns once `max_restarts` is large enough.  Without this hypothesis the solver may
stagnate for ever.
-/

set_option linter.unusedSectionVars false

namespace Krypy
variable {𝕜 E : Type*} [RCLike 𝕜] [AddCommGroup E] [Module 𝕜 E]
open RCLike

/-! ## Specification -/

/-- The operator which maps a residual of the preconditioned system to the next Krylov direction. -/
def resOp (a : LSArgs 𝕜 E) : E →ₗ[𝕜] E := a.Ml ∘ₗ a.A ∘ₗ a.Mr ∘ₗ a.M

/-- `resOp` is positive real with lower bound `α` and norm at most `β`, in the inner product in which residuals are measured. -/
structure PosReal (a : LSArgs 𝕜 E) (α β : ℝ) : Prop where
  pos : 0 < α
  lower : ∀ r, α * nsq (fun x y => a.ip x (a.M y)) r ≤ re (a.ip r (a.M (resOp a r)))
  upper : ∀ r, nrm (fun x y => a.ip x (a.M y)) (resOp a r) ≤ β * nrm (fun x y => a.ip x (a.M y)) r

/-- The factor by which every iteration reduces the residual norm. -/
noncomputable def rate (α β : ℝ) : ℝ := Real.sqrt (1 - (α / β) ^ 2)

/-! ## One step -/

theorem PosReal.inj {a : LSArgs 𝕜 E} (hls : LSHyp a.ip a.M) {α β : ℝ} (h : PosReal a α β) {r : E} (hr : resOp a r = 0) :
    r = 0 := by
  by_contra hne
  have h1 := h.lower r
  rw [hr, map_zero, hls.inner.zero_right, map_zero] at h1
  exact absurd h1 (not_le.mpr (mul_pos h.pos (hls.prec.nsq_pos hne)))

/-- On a nonzero space `α ≤ β`. -/
theorem PosReal.le {a : LSArgs 𝕜 E} (hls : LSHyp a.ip a.M) {α β : ℝ} (h : PosReal a α β) {r : E} (hr : r ≠ 0) : α ≤ β := by
  have h1 := h.lower r
  have h2 := h.upper r
  have h3 : ‖a.ip r (a.M (resOp a r))‖ ≤ nrm (fun x y => a.ip x (a.M y)) r * nrm (fun x y => a.ip x (a.M y)) (resOp a r) := by
    refine abs_le_of_sq_le_sq' ?_ (mul_nonneg (nrm_nonneg _ _) (nrm_nonneg _ _)) |>.2
    rw [mul_pow, hls.prec.nrm_sq, hls.prec.nrm_sq]
    exact hls.prec.cauchy_schwarz r (resOp a r)
  have h4 := (RCLike.re_le_norm (a.ip r (a.M (resOp a r)))).trans h3
  have hp : 0 < nrm (fun x y => a.ip x (a.M y)) r :=
    lt_of_le_of_ne (nrm_nonneg _ _) fun h0 => hr (hls.prec.nrm_eq_zero.mp h0.symm)
  rw [← hls.prec.nrm_sq] at h1
  have h5 : α * nrm (fun x y => a.ip x (a.M y)) r ^ 2 ≤ β * nrm (fun x y => a.ip x (a.M y)) r ^ 2 := by nlinarith
  exact le_of_mul_le_mul_right h5 (by positivity)

theorem rate_nonneg (α β : ℝ) : 0 ≤ rate α β := Real.sqrt_nonneg _

theorem rate_lt_one {α β : ℝ} (hα : 0 < α) (hβ : α ≤ β) : rate α β < 1 := by
  have : 0 < α / β := div_pos hα (hα.trans_le hβ)
  rw [rate, Real.sqrt_lt' one_pos]
  nlinarith

/-- One optimal step in the direction of the residual. -/
theorem PosReal.step {a : LSArgs 𝕜 E} (hls : LSHyp a.ip a.M) {α β : ℝ} (h : PosReal a α β) (r : E) :
    ∃ t : ℝ, nrm (fun x y => a.ip x (a.M y)) (r - (t : 𝕜) • resOp a r) ≤
      rate α β * nrm (fun x y => a.ip x (a.M y)) r := by
  by_cases hr : r = 0
  · refine ⟨0, ?_⟩
    subst hr
    have : nrm (fun x y => a.ip x (a.M y)) 0 = 0 := hls.prec.nrm_eq_zero.mpr rfl
    simp [this]
  set g : E → E → 𝕜 := fun x y => a.ip x (a.M y) with hg
  have hle := h.le hls hr
  have hβ : 0 < β := h.pos.trans_le hle
  have hrp : 0 < nsq g r := hls.prec.nsq_pos hr
  have hwp : 0 < nsq g (resOp a r) := hls.prec.nsq_pos fun h0 => hr (h.inj hls h0)
  have h1 : α * nsq g r ≤ re (g r (resOp a r)) := h.lower r
  have h2 : nsq g (resOp a r) ≤ β ^ 2 * nsq g r := by
    rw [← hls.prec.nrm_sq, ← hls.prec.nrm_sq, ← mul_pow]
    exact pow_le_pow_left₀ (nrm_nonneg _ _) (h.upper r) 2
  set ρ := re (g r (resOp a r)) with hρ
  set w := nsq g (resOp a r) with hw
  refine ⟨ρ / w, ?_⟩
  have h3 : nsq g (r - ((ρ / w : ℝ) : 𝕜) • resOp a r) = nsq g r - ρ ^ 2 / w := by
    rw [hls.prec.nsq_sub, hls.prec.smul_right, hls.prec.nsq_smul, RCLike.re_ofReal_mul, RCLike.norm_ofReal, sq_abs]
    change nsq g r - 2 * (ρ / w * ρ) + (ρ / w) ^ 2 * w = _
    field_simp
    ring
  have h4 : (α / β) ^ 2 * nsq g r ≤ ρ ^ 2 / w := by
    rw [le_div_iff₀ hwp, div_pow, div_mul_eq_mul_div, div_mul_eq_mul_div, div_le_iff₀ (by positivity)]
    calc α ^ 2 * nsq g r * w ≤ α ^ 2 * nsq g r * (β ^ 2 * nsq g r) := by gcongr
      _ = (α * nsq g r) ^ 2 * β ^ 2 := by ring
      _ ≤ ρ ^ 2 * β ^ 2 := by
        have := h.pos
        gcongr
  unfold nrm
  rw [rate, ← Real.sqrt_mul' _ hrp.le, h3]
  apply Real.sqrt_le_sqrt
  linarith

theorem MinRes.step {a : LSArgs 𝕜 E} (hls : LSHyp a.ip a.M) {α β : ℝ} (h : PosReal a α β) {x0 x : E} {l : List ℝ}
    (hm : MinRes a x0 l x) {i : ℕ} (hi : i + 1 < l.length) :
    l[i + 1] * resid a 0 ≤ rate α β * (l[i] * resid a 0) := by
  obtain ⟨y, ⟨z, hz, rfl⟩, hy⟩ := (hm.minima i (by omega)).1
  obtain ⟨t, ht⟩ := h.step hls (a.Ml (a.b - a.A (x0 + a.Mr z)))
  have hmem : a.M (a.Ml (a.b - a.A (x0 + a.Mr z))) ∈
      krylov (a.M ∘ₗ a.Ml ∘ₗ a.A ∘ₗ a.Mr) (a.M (a.Ml (a.b - a.A x0))) (i + 1) := by
    have e : a.M (a.Ml (a.b - a.A (x0 + a.Mr z))) =
        a.M (a.Ml (a.b - a.A x0)) - (a.M ∘ₗ a.Ml ∘ₗ a.A ∘ₗ a.Mr) z := by
      simp only [LinearMap.comp_apply, ← map_sub, map_add]
      congr 2
      abel
    rw [e]
    refine Submodule.sub_mem _ ?_ ?_
    · rw [krylov_eq_spanTo]
      exact mem_spanTo (V := fun i => ((a.M ∘ₗ a.Ml ∘ₗ a.A ∘ₗ a.Mr) ^ i) (a.M (a.Ml (a.b - a.A x0)))) (i := 0) (by omega)
    · exact krylov_map hz
  have hle := (hm.minima (i + 1) hi).2 ⟨_, ⟨z + (t : 𝕜) • a.M (a.Ml (a.b - a.A (x0 + a.Mr z))),
    Submodule.add_mem _ (krylov_mono (Nat.le_succ i) hz) (Submodule.smul_mem _ _ hmem), rfl⟩, rfl⟩
  refine hle.trans ?_
  rw [← hy]
  refine le_trans (le_of_eq ?_) ht
  unfold resid
  congr 1
  simp only [resOp, LinearMap.comp_apply, map_add, map_smul, map_sub]
  abel

/-- The first entry of the history is the relative residual norm of the initial guess. -/
theorem MinRes.first {a : LSArgs 𝕜 E} {x0 x : E} {l : List ℝ} (hm : MinRes a x0 l x) (hl : 0 < l.length) :
    l[0] * resid a 0 = resid a x0 := by
  obtain ⟨y, ⟨z, hz, rfl⟩, hy⟩ := (hm.minima 0 hl).1
  rw [krylov_eq_spanTo, spanTo_zero] at hz
  obtain rfl : z = 0 := by simpa using hz
  rw [← hy, map_zero, add_zero]

/-- Linear convergence of the history. -/
theorem MinRes.linear {a : LSArgs 𝕜 E} (hls : LSHyp a.ip a.M) {α β : ℝ} (h : PosReal a α β) {x0 x : E} {l : List ℝ}
    (hm : MinRes a x0 l x) : ∀ {i : ℕ} (hi : i < l.length), l[i] * resid a 0 ≤ rate α β ^ i * resid a x0
  | 0, hi => by rw [pow_zero, one_mul, hm.first hi]
  | i + 1, hi => by
    refine (hm.step hls h hi).trans ?_
    rw [pow_succ', mul_assoc]
    exact mul_le_mul_of_nonneg_left (MinRes.linear hls h hm (by omega)) (rate_nonneg _ _)

/-! ## Cycles -/

theorem PosReal.nonsingOn {a : LSArgs 𝕜 E} (hls : LSHyp a.ip a.M) {α β : ℝ} (h : PosReal a α β) (v : E) :
    NonsingOn (a.Ml ∘ₗ a.A ∘ₗ a.Mr) a.M v (LinearMap.range a.M) := by
  refine ⟨fun n => ?_, ?_⟩
  · rw [krylov_eq_spanTo, spanTo_le]
    intro i _
    cases i with
    | zero => exact ⟨v, rfl⟩
    | succ i => rw [pow_succ']; exact ⟨_, rfl⟩
  · rintro x ⟨r, rfl⟩ hx
    rw [h.inj hls (r := r) hx, map_zero]

/-- `Gmres` raises nothing but possibly `ConvergenceError` if `Ml A Mr` is injective on the Krylov subspaces. -/
theorem gmres_total_on {a : LSArgs 𝕜 E} {ortho : Ortho} (h : GmresHyp a ortho) {s : LS 𝕜 E} (hs : mkLS a = .ok s)
    (p : SolverArgs E) (htol : 0 ≤ p.tol) (hb : a.Ml a.b ≠ 0) {K : Submodule 𝕜 E}
    (hns : NonsingOn (a.Ml ∘ₗ a.A ∘ₗ a.Mr) a.M (a.Ml (a.b - a.A (p.x0.getD 0))) K) :
    ∃ st, gmres s s.hooks ortho p = .returned st ∨ gmres s s.hooks ortho p = .convergence st := by
  have hf := (C22_gmres s s.hooks ortho p).fuel
  obtain ⟨s', hs', ok, -⟩ := mkLS_ok h.ls
  rw [hs] at hs'
  obtain rfl := Except.ok.inj hs'
  obtain ⟨arn, hr, ha, h0⟩ := gmres_setup ok h p
  have hproc := ArnReach.proc (ok.arnHyp h p.maxiter) (a.Ml (a.b - a.A (p.x0.getD 0)))
  have hM : (s.arnCfg s.hooks p.maxiter ortho).Mop = a.M := by simp [LS.arnCfg, ArnCfg.Mop, ok.M]
  have hA : (s.arnCfg s.hooks p.maxiter ortho).A = a.Ml ∘ₗ a.A ∘ₗ a.Mr := by
    simp only [LS.arnCfg, LS.hooks, ok.op_eq]
  have hMi : ∀ x, (s.arnCfg s.hooks p.maxiter ortho).Mop x = 0 → x = 0 := by
    intro x hx
    rw [hM] at hx
    exact h.ls.M_inj hx
  rw [← hM, ← hA] at hns
  rw [hr] at hf ⊢
  have ht := gmresRun_total hproc (cfg := mkCfg s p) (Mr := s.Mr) (post := .ok) (x0 := p.x0.getD 0)
    htol (ok.nb_pos p hb) (ok.hres ortho p _) hns hMi (fun x => ⟨x, rfl⟩) (fun x => ⟨_, ok.resNorm p x⟩)
    (ok.errNorm p) ha h0
  match hrun : run (mkCfg s p) (gmresMethod (arnAdvance (s.arnCfg s.hooks p.maxiter ortho)) s.Mr .ok p.maxiter)
      (p.x0.getD 0) _ (gmresInit arn _) .ok with
  | .returned st => exact ⟨st, Or.inl rfl⟩
  | .convergence st => exact ⟨st, Or.inr rfl⟩
  | .raised e => exact absurd hrun (ht e)
  | .outOfFuel => exact absurd hrun hf

/-- A run which starts above the tolerance does at least one iteration. -/
theorem gmres_iterates {a : LSArgs 𝕜 E} {ortho : Ortho} (h : GmresHyp a ortho) {s : LS 𝕜 E} (hs : mkLS a = .ok s)
    (p : SolverArgs E) (htol : 0 ≤ p.tol) (hmax : 1 ≤ p.maxiter) (hb : a.Ml a.b ≠ 0)
    (hx0 : p.tol * resid a 0 < resid a (p.x0.getD 0)) {st : St ℝ E (GmresSt 𝕜 E)}
    (hrun : gmres s s.hooks ortho p = .returned st ∨ gmres s s.hooks ortho p = .convergence st) :
    2 ≤ st.resnorms.length := by
  have hh := C22_gmres s s.hooks ortho p
  rcases hrun with hrun | hrun
  · obtain ⟨x, -, hm, -, hlen, -⟩ := C26_optimal h hs p htol hb (Or.inl hrun)
    by_contra hcon
    have hl : 0 < st.resnorms.length := by omega
    have hit : st.s.arn.iter = 0 := by omega
    obtain ⟨-, r, hr, hor⟩ := hh.returned hmax st hrun
    have hfst := hm.first hl
    have hr0 : st.resnorms[0] = r := by
      rw [List.getLast?_eq_getElem?, show st.resnorms.length - 1 = 0 by omega, List.getElem?_eq_getElem hl] at hr
      exact Option.some.inj hr
    rw [hr0] at hfst
    rcases hor with hor | hor
    · have : r ≤ p.tol := not_lt.mp hor
      have h0 : 0 ≤ resid a 0 := nrm_nonneg _ _
      nlinarith
    · obtain ⟨s', hs', ok, -⟩ := mkLS_ok h.ls
      rw [hs] at hs'
      obtain rfl := Except.ok.inj hs'
      obtain ⟨arn, hr', ha, h0⟩ := gmres_setup ok h p
      rw [hr'] at hrun
      have hproc := ArnReach.proc (ok.arnHyp h p.maxiter) (a.Ml (a.b - a.A (p.x0.getD 0)))
      obtain ⟨-, hinv, -⟩ := gmresRun_spec hproc (cfg := mkCfg s p) (Mr := s.Mr)
        (post := .ok) (x0 := p.x0.getD 0) htol (ok.nb_pos p hb) (ok.hres ortho p _) ha h0 (Or.inl hrun)
      have hv := (hproc.facts hinv.arn).start hor hit
      have hz : resid a (p.x0.getD 0) = 0 := h.ls.prec.nrm_eq_zero.mpr hv
      rw [hz] at hx0
      have h0 : 0 ≤ resid a 0 := nrm_nonneg _ _
      nlinarith
  · obtain ⟨-, h2, -⟩ := hh.convergence st hrun
    have : (mkCfg s p).maxiter = p.maxiter := rfl
    omega

/-- C68: `Gmres` for positive real systems: nothing but `ConvergenceError` is raised and the recorded relative residual norms
decrease at least geometrically with the factor `sqrt(1 - α²/β²)`. -/
theorem C68_gmres {a : LSArgs 𝕜 E} {ortho : Ortho} (h : GmresHyp a ortho) {s : LS 𝕜 E} (hs : mkLS a = .ok s)
    (p : SolverArgs E) (htol : 0 ≤ p.tol) (hb : a.Ml a.b ≠ 0) {α β : ℝ} (hpr : PosReal a α β) :
    rate α β < 1 ∧ ∃ st, (gmres s s.hooks ortho p = .returned st ∨ gmres s s.hooks ortho p = .convergence st) ∧
      (∀ i (hi : i < st.resnorms.length), st.resnorms[i] * resid a 0 ≤ rate α β ^ i * resid a (p.x0.getD 0)) ∧
      ∀ i (hi : i + 1 < st.resnorms.length), st.resnorms[i + 1] ≤ rate α β * st.resnorms[i] := by
  obtain ⟨st, hst⟩ := gmres_total_on h hs p htol hb (hpr.nonsingOn h.ls _)
  obtain ⟨x, -, hm, -⟩ := C26_optimal h hs p htol hb hst
  have h0 : 0 < resid a 0 := by
    refine lt_of_le_of_ne (nrm_nonneg _ _) fun h0 => hb ?_
    simpa using h.ls.prec.nrm_eq_zero.mp h0.symm
  refine ⟨rate_lt_one hpr.pos (hpr.le h.ls hb), st, hst, fun i hi => hm.linear h.ls hpr hi, fun i hi => ?_⟩
  have := hm.step h.ls hpr hi
  rw [← mul_assoc] at this
  exact le_of_mul_le_mul_right this h0

/-- What one cycle does. -/
theorem cycle_posReal {a : LSArgs 𝕜 E} {ortho : Ortho} (h : GmresHyp a ortho) {s : LS 𝕜 E} (hs : mkLS a = .ok s)
    (p : SolverArgs E) (htol : 0 ≤ p.tol) (hmax : 1 ≤ p.maxiter) (hb : a.Ml a.b ≠ 0) {α β : ℝ} (hpr : PosReal a α β) :
    ∃ c, rsolOf p (gmres s s.hooks ortho p) = .ok c ∧ c.tol = p.tol ∧ c.resnorms ≠ [] ∧ c.errnorms ≠ [] ∧
      (∀ r, c.resnorms.getLast? = some r → resid a c.xk = r * resid a 0) ∧
      resid a c.xk ≤ resid a (p.x0.getD 0) ∧
      (p.tol * resid a 0 < resid a (p.x0.getD 0) → resid a c.xk ≤ rate α β * resid a (p.x0.getD 0)) := by
  obtain ⟨st, hst⟩ := gmres_total_on h hs p htol hb (hpr.nonsingOn h.ls _)
  obtain ⟨x, hx, hm, -, hlen, -⟩ := C26_optimal h hs p htol hb hst
  have h0 : 0 < resid a 0 := by
    refine lt_of_le_of_ne (nrm_nonneg _ _) fun h0 => hb ?_
    simpa using h.ls.prec.nrm_eq_zero.mp h0.symm
  have hl : 0 < st.resnorms.length := by omega
  have herr : st.errnorms.getD [0] ≠ [] := by
    obtain ⟨h1, -, h3, h4⟩ := (C22_gmres s s.hooks ortho p).history st hst
    cases hex : (mkCfg s p).errNorm with
    | none => rw [h3 hex]; simp
    | some en =>
      obtain ⟨l, hl1, hl2⟩ := h4 (by rw [hex]; simp)
      rw [hl1]
      intro hn
      simp only [Option.getD_some] at hn
      rw [hn] at hl2
      simp at hl2
      omega
  have hlast : resid a x = st.resnorms[st.resnorms.length - 1] * resid a 0 :=
    hm.attains _ (by rw [List.getLast?_eq_getElem?, List.getElem?_eq_getElem])
  have hr1 : rate α β ≤ 1 := (rate_lt_one hpr.pos (hpr.le h.ls hb)).le
  refine ⟨⟨x, p.tol, st.resnorms, st.errnorms.getD [0]⟩, ?_, rfl, hm.nonempty, herr, hm.attains, ?_, fun hx0 => ?_⟩
  · rcases hst with hst | hst <;> rw [hst] <;> simp [rsolOf, hx]
  · change resid a x ≤ _
    rw [hlast]
    refine (hm.linear h.ls hpr _).trans ?_
    exact mul_le_of_le_one_left (nrm_nonneg _ _) (pow_le_one₀ (rate_nonneg _ _) hr1)
  · have h2 := gmres_iterates h hs p htol hmax hb hx0 hst
    change resid a x ≤ _
    rw [hlast]
    refine (hm.linear h.ls hpr _).trans ?_
    refine mul_le_mul_of_nonneg_right ?_ (nrm_nonneg _ _)
    exact pow_le_of_le_one (rate_nonneg _ _) hr1 (by omega)

/-- C68: `RestartedGmres` for positive real systems with `maxiter ≥ 1` raises nothing but `ConvergenceError`; it returns an
approximation whose residual norm is at most `tol ‖Ml b‖` as soon as
`sqrt(1 - α²/β²)^(max_restarts + 1) ‖r_0‖ ≤ tol ‖Ml b‖`. -/
theorem C68_restarted {a : LSArgs 𝕜 E} {ortho : Ortho} (h : GmresHyp a ortho) {s : LS 𝕜 E} (hs : mkLS a = .ok s)
    (p : SolverArgs E) (htol : 0 ≤ p.tol) (hmax : 1 ≤ p.maxiter) (hb : a.Ml a.b ≠ 0) {α β : ℝ} (hpr : PosReal a α β)
    (inf : ℝ) (maxRestarts : ℤ) :
    ∃ st x, st.xk = some x ∧ st.sols.length ≤ maxRestarts.toNat + 1 ∧
      ((restartedGmres s ortho p inf maxRestarts = .returned st ∧ resid a x ≤ p.tol * resid a 0) ∨
       (restartedGmres s ortho p inf maxRestarts = .convergence st ∧ p.tol * resid a 0 < resid a x ∧
        resid a x ≤ rate α β ^ (maxRestarts.toNat + 1) * resid a (p.x0.getD 0))) := by
  have h0 : 0 < resid a 0 := by
    refine lt_of_le_of_ne (nrm_nonneg _ _) fun h0 => hb ?_
    simpa using h.ls.prec.nrm_eq_zero.mp h0.symm
  set solve : Option E → Except Err (RSol ℝ E) := fun x =>
    rsolOf (p.restart x) (gmres s s.hooks ortho (p.restart x)) with hsolve
  have hcyc : ∀ x, ∃ c, solve x = .ok c ∧ c.tol = p.tol ∧ c.resnorms ≠ [] ∧ c.errnorms ≠ [] ∧
      (∀ r, c.resnorms.getLast? = some r → resid a c.xk = r * resid a 0) ∧
      resid a c.xk ≤ resid a ((x.or p.x0).getD 0) ∧
      (p.tol * resid a 0 < resid a ((x.or p.x0).getD 0) → resid a c.xk ≤ rate α β * resid a ((x.or p.x0).getD 0)) := by
    intro x
    cases x with
    | none => exact cycle_posReal h hs p htol hmax hb hpr
    | some x => exact cycle_posReal h hs { p with x0 := some x } htol hmax hb hpr
  have hcyc' : ∀ x c, solve x = .ok c → c.tol = p.tol ∧ c.resnorms ≠ [] ∧ c.errnorms ≠ [] ∧
      (∀ r, c.resnorms.getLast? = some r → resid a c.xk = r * resid a 0) ∧
      resid a c.xk ≤ resid a ((x.or p.x0).getD 0) ∧
      (p.tol * resid a 0 < resid a ((x.or p.x0).getD 0) → resid a c.xk ≤ rate α β * resid a ((x.or p.x0).getD 0)) := by
    intro x c hc
    obtain ⟨c', hc', hrest⟩ := hcyc x
    rw [hc] at hc'
    obtain rfl := Except.ok.inj hc'
    exact hrest
  have hC := C34_restarted inf maxRestarts solve
    (fun x c hc => ⟨(hcyc' x c hc).2.1, (hcyc' x c hc).2.2.1⟩)
  rcases hC with ⟨e, x, -, he⟩ | ⟨st, sol, r, hor, hlen1, hlen, hch, hlast, hxk, hres, -, hr⟩
  · obtain ⟨c, hc, -⟩ := hcyc x
    rw [hc] at he
    simp at he
  have hns : st.sols[st.sols.length - 1]? = some sol := by rw [← List.getLast?_eq_getElem?]; exact hlast
  have hsol := hcyc' _ sol (hch _ sol hns)
  have hrr : resid a sol.xk = r * resid a 0 := by
    refine hsol.2.2.2.1 r ?_
    rw [hres, seamJoin, List.getLast?_append_of_ne_nil] at hr
    · rw [List.getLast?_map, hlast] at hr
      simpa using hr
    · rw [List.getLast?_map, hlast]
      simpa using hsol.2.1
  refine ⟨st, sol.xk, hxk, hlen, ?_⟩
  rcases hor with ⟨h1, h2⟩ | ⟨h1, h2, h3⟩
  · left
    refine ⟨h1, ?_⟩
    rw [hrr]
    exact mul_le_mul_of_nonneg_right ((not_lt.mp h2).trans_eq hsol.1) h0.le
  · right
    rw [hsol.1] at h2
    have hgt : p.tol * resid a 0 < resid a sol.xk := by
      rw [hrr]
      exact mul_lt_mul_of_pos_right h2 h0
    refine ⟨h1, hgt, ?_⟩
    -- all cycles ended above the tolerance, since the residual norms do not increase
    have key : ∀ i c, st.sols[i]? = some c → p.tol * resid a 0 < resid a c.xk →
        p.tol * resid a 0 < resid a (p.x0.getD 0) ∧ resid a c.xk ≤ rate α β ^ (i + 1) * resid a (p.x0.getD 0) := by
      intro i
      induction i with
      | zero =>
        intro c hc hgt
        have := (hcyc' _ c (hch 0 c hc)).2.2.2.2
        simp only [if_true, Option.none_or] at this
        have hx := hgt.trans_le this.1
        exact ⟨hx, by rw [zero_add, pow_one]; exact this.2 hx⟩
      | succ i ih =>
        intro c hc hgt
        have := hch (i + 1) c hc
        rw [if_neg (by omega), Nat.add_sub_cancel] at this
        have hi : i < st.sols.length := by
          have := (List.getElem?_eq_some_iff.mp hc).1
          omega
        rw [List.getElem?_eq_getElem hi, Option.map_some] at this
        have hstep := (hcyc' _ c this).2.2.2.2
        simp only [Option.some_or, Option.getD_some] at hstep
        have hx := hgt.trans_le hstep.1
        obtain ⟨i1, i2⟩ := ih _ (List.getElem?_eq_getElem hi) hx
        refine ⟨i1, (hstep.2 hx).trans ?_⟩
        rw [pow_succ', mul_assoc]
        exact mul_le_mul_of_nonneg_left i2 (rate_nonneg _ _)
    have := (key _ sol hns hgt).2
    rwa [show st.sols.length - 1 + 1 = maxRestarts.toNat + 1 by omega] at this

/-- C68: for positive real systems, `tol > 0` and `maxiter ≥ 1` there is a number of restarts from which on `RestartedGmres` always returns, with a residual norm below the tolerance. -/
theorem C68_eventually {a : LSArgs 𝕜 E} {ortho : Ortho} (h : GmresHyp a ortho) {s : LS 𝕜 E} (hs : mkLS a = .ok s)
    (p : SolverArgs E) (htol : 0 < p.tol) (hmax : 1 ≤ p.maxiter) (hb : a.Ml a.b ≠ 0) {α β : ℝ} (hpr : PosReal a α β) :
    ∃ N : ℕ, ∀ maxRestarts : ℤ, (N : ℤ) ≤ maxRestarts → ∀ inf, ∃ st x,
      restartedGmres s ortho p inf maxRestarts = .returned st ∧ st.xk = some x ∧ resid a x ≤ p.tol * resid a 0 := by
  have h0 : 0 < resid a 0 := by
    refine lt_of_le_of_ne (nrm_nonneg _ _) fun h0 => hb ?_
    simpa using h.ls.prec.nrm_eq_zero.mp h0.symm
  have hr1 := rate_lt_one hpr.pos (hpr.le h.ls hb)
  have hε : 0 < p.tol * resid a 0 / (resid a (p.x0.getD 0) + 1) :=
    div_pos (mul_pos htol h0) (by have : 0 ≤ resid a (p.x0.getD 0) := nrm_nonneg _ _
                                  linarith)
  obtain ⟨N, hN⟩ := exists_pow_lt_of_lt_one hε hr1
  refine ⟨N, fun mr hmr inf => ?_⟩
  obtain ⟨st, x, hx, -, ⟨h1, h2⟩ | ⟨-, h2, h3⟩⟩ := C68_restarted h hs p htol.le hmax hb hpr inf mr
  · exact ⟨st, x, h1, hx, h2⟩
  · exfalso
    have hle : rate α β ^ (mr.toNat + 1) ≤ rate α β ^ N :=
      pow_le_pow_of_le_one (rate_nonneg _ _) hr1.le (by omega)
    have hnn : 0 ≤ resid a (p.x0.getD 0) := nrm_nonneg _ _
    have h4 := h3.trans (mul_le_mul_of_nonneg_right (hle.trans hN.le) hnn)
    have h5 : p.tol * resid a 0 / (resid a (p.x0.getD 0) + 1) * resid a (p.x0.getD 0) ≤ p.tol * resid a 0 := by
      rw [div_mul_eq_mul_div, div_le_iff₀ (by linarith)]
      nlinarith [mul_pos htol h0]
    linarith

theorem posReal_exists [FiniteDimensional 𝕜 E] {a : LSArgs 𝕜 E} (h : LSHyp a.ip a.M)
    (hpos : ∀ r, r ≠ 0 → 0 < re (a.ip r (a.M (resOp a r)))) : ∃ α β, PosReal a α β := by
  let : NormedAddCommGroup E := h.prec.core.toNormedAddCommGroup
  let : InnerProductSpace 𝕜 E := InnerProductSpace.ofCore h.prec.core.toCore
  have : ProperSpace E := FiniteDimensional.proper 𝕜 E
  have hinner : ∀ x z : E, inner 𝕜 x z = a.ip x (a.M z) := fun _ _ => rfl
  have hnrm : ∀ x : E, nrm (fun x y => a.ip x (a.M y)) x = ‖x‖ := fun x => rfl
  have hcT : Continuous (resOp a) := LinearMap.continuous_of_finiteDimensional _
  have hcf : Continuous fun r : E => re (inner 𝕜 r (resOp a r)) :=
    RCLike.continuous_re.comp (continuous_id.inner hcT)
  have hhom : ∀ (c : ℝ) (r : E), re (a.ip ((c : 𝕜) • r) (a.M (resOp a ((c : 𝕜) • r)))) =
      c ^ 2 * re (a.ip r (a.M (resOp a r))) := by
    intro c r
    rw [← hinner, ← hinner, map_smul, inner_smul_left, inner_smul_right, RCLike.conj_ofReal, RCLike.re_ofReal_mul,
      RCLike.re_ofReal_mul]
    ring
  obtain ⟨β, hβ⟩ : ∃ β, ∀ r, ‖resOp a r‖ ≤ β * ‖r‖ :=
    ⟨‖LinearMap.toContinuousLinearMap (resOp a)‖, fun r => (LinearMap.toContinuousLinearMap (resOp a)).le_opNorm r⟩
  rcases (Metric.sphere (0 : E) 1).eq_empty_or_nonempty with hemp | hne
  · refine ⟨1, β, one_pos, fun r => ?_, hβ⟩
    by_cases hr : r = 0
    · subst hr
      simp [nsq, h.inner.zero_right]
    · exfalso
      have : ((‖r‖⁻¹ : ℝ) : 𝕜) • r ∈ Metric.sphere (0 : E) 1 := by
        rw [mem_sphere_zero_iff_norm, norm_smul, RCLike.norm_ofReal, abs_of_nonneg (by positivity),
          inv_mul_cancel₀ (norm_ne_zero_iff.mpr hr)]
      rw [hemp] at this
      exact this
  · obtain ⟨r0, hr0, hmin⟩ := (isCompact_sphere (0 : E) 1).exists_isMinOn hne hcf.continuousOn
    have hr0' : r0 ≠ 0 := by
      intro h0
      rw [h0, mem_sphere_zero_iff_norm, norm_zero] at hr0
      exact zero_ne_one hr0
    refine ⟨re (a.ip r0 (a.M (resOp a r0))), β, hpos r0 hr0', fun r => ?_, hβ⟩
    by_cases hr : r = 0
    · subst hr
      simp [nsq, h.inner.zero_right]
    · have hn : ‖r‖ ≠ 0 := norm_ne_zero_iff.mpr hr
      have hmem : ((‖r‖⁻¹ : ℝ) : 𝕜) • r ∈ Metric.sphere (0 : E) 1 := by
        rw [mem_sphere_zero_iff_norm, norm_smul, RCLike.norm_ofReal, abs_of_nonneg (by positivity),
          inv_mul_cancel₀ hn]
      have h1 : re (a.ip r0 (a.M (resOp a r0))) ≤
          re (a.ip (((‖r‖⁻¹ : ℝ) : 𝕜) • r) (a.M (resOp a (((‖r‖⁻¹ : ℝ) : 𝕜) • r)))) := hmin hmem
      rw [hhom, inv_pow, ← div_eq_inv_mul, le_div_iff₀ (by positivity)] at h1
      rw [← h.prec.nrm_sq, hnrm]
      exact h1

/-- C68: in finite dimensions the constants exist iff the operator is positive real. -/
theorem C68_constants [FiniteDimensional 𝕜 E] {a : LSArgs 𝕜 E} (h : LSHyp a.ip a.M) :
    (∃ α β, PosReal a α β) ↔ ∀ r, r ≠ 0 → 0 < re (a.ip r (a.M (resOp a r))) := by
  refine ⟨?_, posReal_exists h⟩
  rintro ⟨α, β, hpr⟩ r hr
  exact lt_of_lt_of_le (mul_pos hpr.pos (h.prec.nsq_pos hr)) (hpr.lower r)

/-! ## Stagnation -/

theorem exSys_step {x : ℝ × ℝ} {l : List ℝ} (hm : MinRes exSys 0 l x) (hl : l.length ≤ 2) :
    x = 0 ∧ ∀ r ∈ l, r = 1 := by
  have hr0 : resid exSys 0 = 1 := by simp [resid, nrm, nsq, exSys, exCfg]
  have hlow : ∀ z ∈ searchSpace exSys 0 1, ∃ t : ℝ, z = (t, 0) ∧ resid exSys z = Real.sqrt (1 + t ^ 2) := by
    rintro z ⟨w, hw, rfl⟩
    rw [krylov_eq_spanTo, mem_spanTo_iff] at hw
    obtain ⟨c, rfl⟩ := hw
    refine ⟨c 0, ?_, ?_⟩
    · simp [exSys]
    · simp [exSys, resid, nrm, nsq, exCfg]
      congr 1
      ring
  have hone : ∀ i (hi : i < l.length), l[i] = 1 := by
    intro i hi
    obtain ⟨⟨z, hz, hz'⟩, hlb⟩ := hm.minima i hi
    have hz1 : z ∈ searchSpace exSys 0 1 := searchSpace_mono (by omega) hz
    obtain ⟨t, -, ht⟩ := hlow z hz1
    have h1 : l[i] * resid exSys 0 ≤ resid exSys 0 := hlb ⟨0, ⟨0, Submodule.zero_mem _, by simp⟩, rfl⟩
    have h2 : 1 ≤ resid exSys z := by
      rw [ht]
      exact Real.one_le_sqrt.mpr (by nlinarith [sq_nonneg t])
    rw [hz', hr0, mul_one] at h2
    rw [hr0, mul_one] at h1
    exact le_antisymm h1 h2
  refine ⟨?_, fun r hr => ?_⟩
  · obtain ⟨t, rfl, ht⟩ := hlow x (searchSpace_mono (by omega) hm.mem)
    have hne := List.length_pos_of_ne_nil hm.nonempty
    have := hm.attains 1 (by rw [List.getLast?_eq_getElem?, List.getElem?_eq_getElem (by omega), hone])
    rw [hr0, ht, one_mul, Real.sqrt_eq_one] at this
    have h0 : t = 0 := by nlinarith
    rw [h0]
    rfl
  · obtain ⟨i, hi, rfl⟩ := List.mem_iff_getElem.mp hr
    exact hone i hi

/-- C68 (finding): the nonsingular self-adjoint system with the matrix `[[0, 1], [1, 0]]` and the right hand side `(1, 0)` is not
positive real.  `RestartedGmres` with `maxiter=1` does not make any progress: it raises `ConvergenceError` with the initial guess as
approximation for every `max_restarts` and every `tol` below one, while `Gmres` with `maxiter=2` returns (C28). -/
theorem C68_stagnation (o : Ortho) {s : LS ℝ (ℝ × ℝ)} (hs : mkLS exSys = .ok s) {tol : ℝ} (h0 : 0 ≤ tol) (h1 : tol < 1)
    (inf : ℝ) (maxRestarts : ℤ) :
    ∃ st, restartedGmres s o ⟨none, tol, 1, false, none⟩ inf maxRestarts = .convergence st ∧ st.xk = some 0 ∧
      st.sols.length = maxRestarts.toNat + 1 ∧ ∀ c ∈ st.sols, c.xk = 0 ∧ ∀ r ∈ c.resnorms, r = 1 := by
  have hb : exSys.Ml exSys.b ≠ 0 := by simp [exSys]
  have hinj : ∀ x, exSys.Ml (exSys.A (exSys.Mr x)) = 0 → x = 0 := fun x hx => by
    have h1 : x.2 = 0 := congrArg Prod.fst hx
    have h2 : x.1 = 0 := congrArg Prod.snd hx
    exact Prod.ext h2 h1
  have hgm : ∀ x : Option (ℝ × ℝ), ∃ c, rsolOf (⟨x, tol, 1, false, none⟩ : SolverArgs (ℝ × ℝ))
      (gmres s s.hooks o ⟨x, tol, 1, false, none⟩) = .ok c ∧ c.tol = tol ∧ c.resnorms ≠ [] ∧ c.errnorms ≠ [] ∧
      (x.getD 0 = 0 → c.xk = 0 ∧ ∀ r ∈ c.resnorms, r = 1) := by
    intro x
    obtain ⟨st, hst⟩ := gmres_total_on (exSys_hyp o) hs ⟨x, tol, 1, false, none⟩ h0 hb
      (NonsingOn.top _ hinj)
    obtain ⟨y, hy, hm, -, hlen, hle⟩ := C26_optimal (exSys_hyp o) hs ⟨x, tol, 1, false, none⟩ h0 hb hst
    have herr : st.errnorms = none := ((C22_gmres s s.hooks o ⟨x, tol, 1, false, none⟩).history st hst).2.2.1 rfl
    refine ⟨⟨y, tol, st.resnorms, st.errnorms.getD [0]⟩, ?_, rfl, hm.nonempty, by simp [herr], fun hx => ?_⟩
    · rcases hst with hst | hst <;> rw [hst] <;> simp [rsolOf, hy]
    · have hm' : MinRes exSys 0 st.resnorms y := by rw [← hx]; exact hm
      exact exSys_step hm' (by dsimp only at hle ⊢; omega)
  set solve : Option (ℝ × ℝ) → Except Err (RSol ℝ (ℝ × ℝ)) := fun x =>
    rsolOf ((⟨none, tol, 1, false, none⟩ : SolverArgs (ℝ × ℝ)).restart x)
      (gmres s s.hooks o ((⟨none, tol, 1, false, none⟩ : SolverArgs (ℝ × ℝ)).restart x)) with hsolve
  have hcyc : ∀ x, ∃ c, solve x = .ok c ∧ c.tol = tol ∧ c.resnorms ≠ [] ∧ c.errnorms ≠ [] ∧
      (x.getD 0 = 0 → c.xk = 0 ∧ ∀ r ∈ c.resnorms, r = 1) := by
    intro x
    cases x with
    | none => exact hgm none
    | some x => exact hgm (some x)
  have hcyc' : ∀ x c, solve x = .ok c → c.tol = tol ∧ c.resnorms ≠ [] ∧ c.errnorms ≠ [] ∧
      (x.getD 0 = 0 → c.xk = 0 ∧ ∀ r ∈ c.resnorms, r = 1) := by
    intro x c hc
    obtain ⟨c', hc', hrest⟩ := hcyc x
    rw [hc] at hc'
    obtain rfl := Except.ok.inj hc'
    exact hrest
  rcases C34_restarted inf maxRestarts solve (fun x c hc => ⟨(hcyc' x c hc).2.1, (hcyc' x c hc).2.2.1⟩) with
    ⟨e, x, -, he⟩ | ⟨st, sol, r, hor, hlen1, hlen, hch, hlast, hxk, hres, -, hr⟩
  · obtain ⟨c, hc, -⟩ := hcyc x
    rw [hc] at he
    simp at he
  have hall : ∀ (i : ℕ) (c : RSol ℝ (ℝ × ℝ)), st.sols[i]? = some c → c.xk = 0 ∧ ∀ r ∈ c.resnorms, r = 1 := by
    intro i
    induction i with
    | zero => exact fun c hc => (hcyc' _ c (hch 0 c hc)).2.2.2 rfl
    | succ i ih =>
      intro c hc
      have := hch (i + 1) c hc
      have hi : i < st.sols.length := by
        have := (List.getElem?_eq_some_iff.mp hc).1
        omega
      rw [if_neg (by omega), Nat.add_sub_cancel, List.getElem?_eq_getElem hi, Option.map_some] at this
      refine (hcyc' _ c this).2.2.2 ?_
      rw [Option.getD_some]
      exact (ih _ (List.getElem?_eq_getElem hi)).1
  have hns : st.sols[st.sols.length - 1]? = some sol := by rw [← List.getLast?_eq_getElem?]; exact hlast
  have hsol := hcyc' _ sol (hch _ sol hns)
  have hsol1 := hall _ sol hns
  have hr1 : r = 1 := by
    refine hsol1.2 r (List.mem_of_mem_getLast? ?_)
    rw [hres, seamJoin, List.getLast?_append_of_ne_nil] at hr
    · rw [List.getLast?_map, hlast] at hr
      simpa using hr
    · rw [List.getLast?_map, hlast]
      simpa using hsol.2.1
  rcases hor with ⟨-, h3⟩ | ⟨h2, -, h3⟩
  · rw [hsol.1, hr1] at h3
    exact absurd h1 h3
  · refine ⟨st, h2, by rw [hxk, hsol1.1], h3, fun c hc => ?_⟩
    obtain ⟨i, hi⟩ := List.mem_iff_getElem?.mp hc
    exact hall i c hi

/-! ## Non-vacuity -/

/-- The matrix `[[2, 1], [-1, 2]]` (neither self-adjoint nor diagonalisable over the reals) is positive real. -/
noncomputable def exPosA : ℝ × ℝ →ₗ[ℝ] ℝ × ℝ where
  toFun x := (2 * x.1 + x.2, 2 * x.2 - x.1)
  map_add' x y := by ext <;> simp <;> ring
  map_smul' c x := by ext <;> simp <;> ring

noncomputable def exPos : LSArgs ℝ (ℝ × ℝ) :=
  ⟨exPosA, (1, 0), LinearMap.id, LinearMap.id, LinearMap.id, exCfg.ip, none, false, false⟩

theorem exPos_hyp : GmresHyp exPos .mgs := ⟨⟨exCfg_hyp.ls.inner, exCfg_hyp.ls.inner⟩, fun h => by simp at h⟩

theorem exPos_posReal : PosReal exPos 2 (Real.sqrt 5) := by
  refine ⟨by norm_num, fun r => ?_, fun r => ?_⟩
  · simp [exPos, exPosA, resOp, nsq, exCfg]
    nlinarith
  · rw [nrm, nrm, ← Real.sqrt_mul (by norm_num)]
    apply Real.sqrt_le_sqrt
    simp [exPos, exPosA, resOp, nsq, exCfg]
    nlinarith

/-- Restarted GMRES with one iteration per cycle converges for this system; the factor is `sqrt(1/5)`, so 15 restarts suffice for
`tol=1e-5`. -/
example : ∃ s, mkLS exPos = .ok s ∧ ∃ st x, restartedGmres s .mgs ⟨none, 1e-5, 1, false, none⟩ 0 15 = .returned st ∧
    st.xk = some x ∧ resid exPos x ≤ 1e-5 := by
  obtain ⟨s, hs, -⟩ := mkLS_ok exPos_hyp.ls
  have hr0 : resid exPos 0 = 1 := by simp [resid, nrm, nsq, exPos, exCfg]
  have hrate : rate 2 (Real.sqrt 5) ^ 2 = 1 / 5 := by
    rw [rate, div_pow, Real.sq_sqrt (by norm_num), Real.sq_sqrt (by norm_num)]
    norm_num
  refine ⟨s, hs, ?_⟩
  obtain ⟨st, x, hx, -, ⟨h1, h2⟩ | ⟨-, h2, h3⟩⟩ := C68_restarted exPos_hyp hs ⟨none, 1e-5, 1, false, none⟩ (by norm_num)
    le_rfl (by simp [exPos]) exPos_posReal 0 15
  · rw [hr0, mul_one] at h2
    exact ⟨st, x, h1, hx, h2⟩
  · exfalso
    simp only [Option.getD_none, hr0, mul_one] at h2 h3
    have h5 : rate 2 (Real.sqrt 5) ^ 16 = (1 / 5) ^ 8 := by rw [← hrate]; ring
    have h6 : (15 : ℤ).toNat + 1 = 16 := rfl
    rw [h6, h5] at h3
    have := h2.trans_le h3
    norm_num at this

/-- The hypothesis of `C68_constants` holds for this system. -/
example : ∀ r, r ≠ 0 → 0 < RCLike.re (exPos.ip r (exPos.M (resOp exPos r))) := by
  intro r hr
  have := exPos_posReal.lower r
  exact lt_of_lt_of_le (mul_pos (by norm_num) (exPos_hyp.ls.prec.nsq_pos hr)) this

/-- There is a system as in `C68_stagnation`. -/
example : ∃ s, mkLS exSys = .ok s := (mkLS_ok (exSys_hyp .mgs).ls).imp fun _ h => h.1

end Krypy
