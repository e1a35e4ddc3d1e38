import Verif.Props.Driver
import Verif.Props.Gmres
import Verif.Props.LinearSystem
import Verif.Props.Minres
import Verif.Props.Cg
import Verif.Props.ArnoldiHouse
import Verif.Model.Deflation

/-!
# Properties C22-C25 for the concrete solvers

The theorems of `Verif.Props.Driver` are applied to calls of `Gmres` (all orthogonalisations), `Minres`, `Cg` and their deflated
variants.  Nothing is assumed about the linear system here (not even that the preconditioner is positive definite).
-/

set_option linter.unusedSectionVars false

namespace Krypy
variable {𝕜 E : Type*} [RCLike 𝕜] [AddCommGroup E] [Module 𝕜 E]

/-- What a caller may rely on for every outcome of a solver call with configuration `cfg`; `k` is the number of iterations and
`inv` the invariance flag of the final state. -/
structure HonestCall {F X S : Type*} [LE F] [LT F] [Div F] (cfg : Cfg F X) (k : S → ℕ) (inv : S → Bool)
    (o : Outcome (St F X S)) : Prop where
  /-- the loop terminates -/
  fuel : o ≠ .outOfFuel
  /-- one residual norm per iteration and the initial one; the same number of error norms iff an exact solution was given -/
  history : ∀ st, o = .returned st ∨ o = .convergence st → st.resnorms.length = k st.s + 1 ∧
    st.resnorms.length ≤ cfg.maxiter + 1 ∧ (cfg.errNorm = none → st.errnorms = none) ∧
    (cfg.errNorm ≠ none → ∃ l, st.errnorms = some l ∧ l.length = st.resnorms.length)
  /-- iterations are carried out only if needed -/
  earlier : ∀ st, o = .returned st ∨ o = .convergence st → ∀ i r, i + 1 < st.resnorms.length →
    st.resnorms[i]? = some r → cfg.tol < r
  /-- the last error norm belongs to the approximation -/
  errors : ∀ st, o = .returned st ∨ o = .convergence st → 2 ≤ st.resnorms.length → ∀ en, cfg.errNorm = some en →
    ∃ x e l, st.xk = some x ∧ en x = .ok e ∧ st.errnorms = some (l ++ [e])
  /-- a returned object has an approximation, and it has converged or the Krylov subspace was flagged invariant -/
  returned : 1 ≤ cfg.maxiter → ∀ st, o = .returned st → (∃ x, st.xk = some x) ∧
    ∃ r, st.resnorms.getLast? = some r ∧ (¬ cfg.tol < r ∨ inv st.s = true)
  /-- `ConvergenceError` is raised after `maxiter` iterations, with an approximation whose residual norm is the last one -/
  convergence : ∀ st, o = .convergence st → 1 ≤ cfg.maxiter ∧ st.resnorms.length = cfg.maxiter + 1 ∧
    ∃ x v, st.xk = some x ∧ cfg.resNorm x = .ok v ∧ st.resnorms.getLast? = some (v / cfg.MMlbNorm) ∧
      cfg.tol < v / cfg.MMlbNorm
  /-- after at least one iteration a residual norm which signals convergence was evaluated explicitly -/
  explicit : ∀ st, o = .returned st → 2 ≤ st.resnorms.length → ∀ r, st.resnorms.getLast? = some r → r ≤ cfg.tol →
    ∃ x v, st.xk = some x ∧ cfg.resNorm x = .ok v ∧ r = v / cfg.MMlbNorm

theorem HonestCall.raised {F X S : Type*} [LE F] [LT F] [Div F] {cfg : Cfg F X} {k : S → ℕ} {inv : S → Bool} (e : Err) :
    HonestCall cfg k inv (.raised e) := by
  constructor <;> simp

/-- Every run of a lawful method with one of the two loop guards is honest. -/
theorem HonestCall.of_run {F X S : Type*} [LE F] [LT F] [DecidableLE F] [DecidableLT F] [Div F] [Zero F] [BEq F] [Zero X]
    {cfg : Cfg F X} {m : Method F X S} (hm : LawfulMethod m cfg.maxiter) {inv : S → Bool}
    (hmr : ArnoldiLike m cfg.maxiter inv) (x0 : X) (r0 : F) (mkS : X → S) (xk0 : X → Except Err X)
    (hk0 : ∀ x, m.k (mkS x) = 0) : HonestCall cfg m.k inv (run cfg m x0 r0 mkS xk0) where
  fuel := C24_terminates hm x0 r0 mkS xk0 hk0
  history _ h := C24_history hm hk0 h
  earlier _ h _ _ hi hr := C24_earlier hm hk0 h hi hr
  errors _ h hl _ hen := C24_errors hm hk0 h hl hen
  returned h1 _ h := ⟨(C22_returned hm hk0 h).1, C22_arnoldi_returned hm hmr h1 hk0 h⟩
  convergence st h := by
    obtain ⟨h1, h2, -, r, h3, h4⟩ := C22_convergence hm hk0 h
    obtain ⟨x, v, h5, h6, h7⟩ := C23_convergence hm hk0 h
    rw [h3] at h7
    obtain rfl := Option.some.inj h7
    exact ⟨h1, h2, x, v, h5, h6, h3, h4⟩
  explicit st h hl r hr hle := C23_returned hm hk0 h (fun h1 => absurd h1 (by omega)) hr hle fun h1 => absurd h1 (by omega)

theorem arnInit_iter {c : ArnCfg 𝕜 E} {v : E} {Mv : Option E} {n : Option ℝ} {s : Arn 𝕜 E} (h : arnInit c v Mv n = .ok s) :
    s.iter = 0 := by
  unfold arnInit at h
  dsimp only at h
  split at h
  · simp at h
  · split at h <;> simp at h <;> subst h <;> rfl

theorem minresMethod_lawful {adv : Arn 𝕜 E → Except Err (Arn 𝕜 E)} (Mr : E →ₗ[𝕜] E)
    (post : E → Except Err E) (maxiter : ℕ)
    (hadv : ∀ s s', adv s = .ok s' → s'.iter = s.iter + 1) :
    LawfulMethod (minresMethod adv Mr post maxiter) maxiter := by
  refine ⟨fun {s s' r} h => ?_, fun _ _ => rfl, fun _ _ => rfl, fun {s} h => ?_⟩
  · change minresStep adv maxiter s = _ at h
    unfold minresStep at h
    dsimp only at h
    split at h
    · simp at h
    next a ha =>
    rcases ite_eq_iff.mp h with ⟨-, h⟩ | ⟨-, h⟩
    · cases h
    · simp only [Except.ok.injEq, Prod.mk.injEq] at h
      obtain ⟨rfl, -⟩ := h
      exact hadv _ _ ha
  · simp only [minresMethod, Bool.and_eq_true, decide_eq_true_eq] at h
    exact h.1

theorem houseAdvance_iter {N : ℕ} {A : (Fin (N + 1) → 𝕜) →ₗ[𝕜] (Fin (N + 1) → 𝕜)} {maxiter : ℕ} {s s' : HArn 𝕜 N}
    (h : houseAdvance A maxiter s = .ok s') : s'.arn.iter = s.arn.iter + 1 := by
  unfold houseAdvance at h
  dsimp only at h
  split at h
  · simp at h
  split at h
  · simp at h
  split at h
  · simp at h; subst h; rfl
  split at h
  · simp at h
  · simp at h; subst h; rfl

theorem gmresMethodHouse_lawful {N : ℕ} (A Mr : (Fin (N + 1) → 𝕜) →ₗ[𝕜] (Fin (N + 1) → 𝕜))
    (post : (Fin (N + 1) → 𝕜) → Except Err (Fin (N + 1) → 𝕜)) (maxiter : ℕ) :
    LawfulMethod (gmresMethodHouse A Mr post maxiter) maxiter := by
  refine ⟨fun {s s' r} h => ?_, fun _ _ => rfl, fun _ _ => rfl, fun {s} h => ?_⟩
  · change gmresStepHouse A maxiter s = _ at h
    unfold gmresStepHouse at h
    split at h
    · simp at h
    next g hg =>
    split at h
    · simp at h
    next t r' ht =>
    simp only [Except.ok.injEq, Prod.mk.injEq] at h
    obtain ⟨rfl, -⟩ := h
    unfold gmresStep at ht
    simp only [Except.ok.injEq, Prod.mk.injEq] at ht
    obtain ⟨rfl, -⟩ := ht
    exact houseAdvance_iter hg
  · simp only [gmresMethodHouse, Bool.and_eq_true, decide_eq_true_eq] at h
    exact h.1

/-- C22-C24 for `Gmres` with `ortho` in mgs, dmgs, lanczos, with arbitrary hooks (in particular the plain solver). -/
theorem C22_gmres (s : LS 𝕜 E) (hk : Hooks 𝕜 E) (ortho : Ortho) (p : SolverArgs E) :
    HonestCall (mkCfg s p) (fun t => t.arn.iter) (fun t => t.arn.invariant) (gmres s hk ortho p) := by
  unfold gmres gmresRun
  dsimp only
  split
  · exact .raised _
  split
  · exact .raised _
  next arn ha =>
  exact HonestCall.of_run (m := gmresMethod _ _ _ _) (gmresMethod_lawful _ _ _ (fun _ _ h => arnAdvance_iter h))
    (fun t => rfl) _ _ _ _ (fun x => arnInit_iter ha)

/-- C22-C24 for `Minres`. -/
theorem C22_minres (s : LS 𝕜 E) (hk : Hooks 𝕜 E) (ortho : Ortho) (p : SolverArgs E) :
    HonestCall (mkCfg s p) (fun t => t.arn.iter) (fun t => t.arn.invariant) (minres s hk ortho p) := by
  unfold minres minresRun
  dsimp only
  split
  · exact .raised _
  split
  · exact .raised _
  next arn ha =>
  exact HonestCall.of_run (m := minresMethod _ _ _ _) (minresMethod_lawful _ _ _ (fun _ _ h => arnAdvance_iter h))
    (fun t => rfl) _ _ _ _ (fun x => arnInit_iter ha)

/-- C22-C24 for `Cg`; there is no invariance flag. -/
theorem C22_cg (s : LS 𝕜 E) (hk : Hooks 𝕜 E) (store : Bool) (p : SolverArgs E) :
    HonestCall (mkCfg s p) (fun t => t.k) (fun _ => false) (cg s hk store p) := by
  unfold cg
  split
  · exact .raised _
  · exact HonestCall.of_run (m := cgMethod _ _ _ _ _ _ _) (cgMethod_lawful _ _ _ _ _ _ _) (fun t => (Bool.and_true _).symm)
      _ _ _ _ fun x => rfl

/-- C22-C24 for `Gmres` with `ortho="house"`. -/
theorem C22_gmres_house {N : ℕ} (s : LS 𝕜 (Fin (N + 1) → 𝕜)) (hk : Hooks 𝕜 (Fin (N + 1) → 𝕜)) (plain : Bool)
    (p : SolverArgs (Fin (N + 1) → 𝕜)) :
    HonestCall (mkCfg s p) (fun t => t.1.arn.iter) (fun t => t.1.arn.invariant) (gmresHouse s hk plain p) := by
  unfold gmresHouse
  split
  · exact .raised _
  split
  · exact .raised _
  next h hh =>
  refine HonestCall.of_run (m := gmresMethodHouse _ _ _ _) (gmresMethodHouse_lawful _ _ _ _) (fun t => rfl) _ _ _ _ fun x => ?_
  unfold houseInit at hh
  split at hh
  · dsimp only at hh
    split at hh <;> simp at hh <;> subst hh <;> rfl
  · simp at hh

theorem LawfulMethod.log {F X S T : Type*} {m : Method F X S} {maxiter : ℕ} (hm : LawfulMethod m maxiter)
    (f : S → List T → Except Err T) : LawfulMethod (m.log f) maxiter := by
  refine ⟨fun {s s' r} h => ?_, fun s r => hm.post_k s.1 r, fun s r => hm.post_xk s.1 r, fun {s} h => hm.more_k h⟩
  simp only [Method.log] at h ⊢
  split at h
  · cases h
  split at h
  · cases h
  next t r' ht =>
  simp only [Except.ok.injEq, Prod.mk.injEq] at h
  obtain ⟨rfl, -⟩ := h
  exact hm.step_k ht

/-- C22-C24 for `DeflatedGmres`. -/
theorem C22_deflated_gmres {k : ℕ} (s : LS 𝕜 E) (o : Obl 𝕜 E k) (ortho : Ortho) (p : SolverArgs E) :
    HonestCall (mkCfg s p) (fun t => t.1.arn.iter) (fun t => t.1.arn.invariant) (deflatedGmres s o ortho p) := by
  unfold deflatedGmres
  dsimp only
  split
  · exact .raised _
  split
  · exact .raised _
  next arn ha =>
  exact HonestCall.of_run (m := (gmresMethod _ _ _ _).log _)
    ((gmresMethod_lawful _ _ _ (fun _ _ h => arnAdvance_iter h)).log _) (fun t => rfl) _ _ _ _ (fun x => arnInit_iter ha)

/-- C22-C24 for `DeflatedMinres`. -/
theorem C22_deflated_minres {k : ℕ} (s : LS 𝕜 E) (o : Obl 𝕜 E k) (ortho : Ortho) (p : SolverArgs E) :
    HonestCall (mkCfg s p) (fun t => t.1.arn.iter) (fun t => t.1.arn.invariant) (deflatedMinres s o ortho p) := by
  unfold deflatedMinres
  dsimp only
  split
  · exact .raised _
  split
  · exact .raised _
  next arn ha =>
  exact HonestCall.of_run (m := (minresMethod _ _ _ _).log _)
    ((minresMethod_lawful _ _ _ (fun _ _ h => arnAdvance_iter h)).log _) (fun t => rfl) _ _ _ _ (fun x => arnInit_iter ha)

/-- C22-C24 for `DeflatedCg`. -/
theorem C22_deflated_cg {k : ℕ} (s : LS 𝕜 E) (o : Obl 𝕜 E k) (store : Bool) (p : SolverArgs E) :
    HonestCall (mkCfg s p) (fun t => t.1.k) (fun _ => false) (deflatedCg s o store p) := by
  unfold deflatedCg
  split
  · exact .raised _
  · exact HonestCall.of_run (m := (cgMethod _ _ _ _ _ _ _).log _) ((cgMethod_lawful _ _ _ _ _ _ _).log _)
      (fun t => (Bool.and_true _).symm) _ _ _ _ fun x => rfl

/-- C24 for the calls above: if an exact solution was given, the last recorded error norm is the norm of the error of the
returned (or attached) approximation, in the inner product of the linear system. -/
theorem C24_error_norm {S : Type*} {s : LS 𝕜 E} (hi : IsInner s.ip) {p : SolverArgs E} {k : S → ℕ} {inv : S → Bool}
    {out : Outcome (St ℝ E S)} (h : HonestCall (mkCfg s p) k inv out) {xs : E} (hxs : p.exact = some xs) {st : St ℝ E S}
    (hst : out = .returned st ∨ out = .convergence st) (hlen : 2 ≤ st.resnorms.length) :
    ∃ x l, st.xk = some x ∧ st.errnorms = some (l ++ [nrm s.ip (xs - x)]) := by
  have hen : (mkCfg s p).errNorm = some fun x => npNorm (s.ip (xs - x) (xs - x)) := by simp [mkCfg, hxs]
  obtain ⟨x, e, l, h1, h2, h3⟩ := h.errors st hst hlen _ hen
  rw [hi.npNorm_self] at h2
  obtain rfl := Except.ok.inj h2
  exact ⟨x, l, h1, h3⟩

/-! ## Calls without iterations -/

/-- The two situations in which no iteration is carried out (C25), for an undeflated solver. -/
structure QuickCall (a : LSArgs 𝕜 E) (p : SolverArgs E) {S : Type*} (o : Outcome (St ℝ E S)) : Prop where
  /-- zero right-hand side: the zero vector is returned, whatever `x0` is -/
  zero : a.Ml a.b = 0 → 0 ≤ p.tol → ∃ st, o = .returned st ∧ st.xk = some 0 ∧ st.resnorms = [0]
  /-- good initial guess: it is returned -/
  guess : a.Ml a.b ≠ 0 → resid a (p.x0.getD 0) ≤ p.tol * resid a 0 → ∃ st, o = .returned st ∧
    st.xk = some (p.x0.getD 0) ∧ st.resnorms = [resid a (p.x0.getD 0) / resid a 0]

theorem LSOK.hooksRes {a : LSArgs 𝕜 E} {s : LS 𝕜 E} (ok : LSOK a s) (z : Option E) : s.hooks.initRes z =
    .ok (a.M (a.Ml (a.b - a.A (z.getD 0))), a.Ml (a.b - a.A (z.getD 0)), resid a (z.getD 0)) := by
  change s.getResidualNorm z = _
  cases z with
  | none => simp [LS.getResidualNorm, ok.MMlb, ok.Mlb, ok.norm, resid]
  | some z =>
    simp only [LS.getResidualNorm, ok.M, ok.Ml, ok.A, ok.b, ok.ip, Option.getD_some]
    rw [ok.hyp.prec.npNorm_self (a.Ml (a.b - a.A z))]
    rfl

theorem QuickCall.of_run {a : LSArgs 𝕜 E} {s : LS 𝕜 E} (ok : LSOK a s) (p : SolverArgs E) {S : Type*}
    (m : Method ℝ E S) (mkS : E → S) (hx : ∀ x, m.getXk (mkS x) = .ok x) :
    QuickCall a p (run (mkCfg s p) m (p.x0.getD 0) (resid a (p.x0.getD 0)) mkS s.hooks.post) := by
  have herr : ∀ x, ∃ eo, initErr (mkCfg s p) (.ok x) = .ok eo := by
    intro x
    unfold initErr mkCfg
    cases p.exact with
    | none => exact ⟨_, rfl⟩
    | some y =>
      simp only [Option.map_some, ok.ip, ok.hyp.inner.npNorm_self]
      exact ⟨_, rfl⟩
  have hnb : (mkCfg s p).MMlbNorm = resid a 0 := by
    change s.MMlbNorm = _
    rw [ok.norm]
    simp [resid]
  have hz : resid a 0 = 0 ↔ a.Ml a.b = 0 := by
    unfold resid
    rw [ok.hyp.prec.nrm_eq_zero]
    simp
  constructor
  · intro hb ht
    obtain ⟨eo, he⟩ := herr 0
    obtain ⟨st, h1, h2, h3, -⟩ := C25_zero_rhs (cfg := mkCfg s p) (m := m) (x0 := p.x0.getD 0)
      (r0norm := resid a (p.x0.getD 0)) (mkS := mkS) (xk0 := s.hooks.post) (by rw [hnb, hz.mpr hb]; simp)
      (not_lt.mpr ht) he
    exact ⟨st, h1, h2, h3⟩
  · intro hb ht
    obtain ⟨eo, he⟩ := herr (p.x0.getD 0)
    have h0 : resid a 0 ≠ 0 := fun h => hb (hz.mp h)
    have hp : 0 < resid a 0 := lt_of_le_of_ne (nrm_nonneg _ _) h0.symm
    obtain ⟨st, h1, h2, h3, -⟩ := C25_good_initial_guess (cfg := mkCfg s p) (m := m) (x0 := p.x0.getD 0)
      (r0norm := resid a (p.x0.getD 0)) (mkS := mkS) (xk0 := s.hooks.post) (by rw [hnb]; simpa using h0)
      (by rw [hnb, not_lt, div_le_iff₀ hp]; exact ht) he (hx _)
    exact ⟨st, h1, h2, by rw [h3, hnb]⟩

/-- C25 for `Gmres`. -/
theorem C25_gmres {a : LSArgs 𝕜 E} (h : LSHyp a.ip a.M) {s : LS 𝕜 E} (hs : mkLS a = .ok s) (ortho : Ortho)
    (p : SolverArgs E) : QuickCall a p (gmres s s.hooks ortho p) := by
  obtain ⟨s', hs', ok, -⟩ := mkLS_ok h
  rw [hs] at hs'
  obtain rfl := Except.ok.inj hs'
  unfold gmres gmresRun
  simp only [ok.hooksRes]
  cases ha : arnInit (s.arnCfg s.hooks p.maxiter ortho) (a.Ml (a.b - a.A (p.x0.getD 0)))
      (some (a.M (a.Ml (a.b - a.A (p.x0.getD 0))))) (some (resid a (p.x0.getD 0))) with
  | error e => simp [arnInit, startNorm] at ha; split at ha <;> cases ha
  | ok arn =>
    refine QuickCall.of_run ok p _ _ fun x => ?_
    simp [gmresMethod, gmresXk, gmresInit, arnInit_iter ha, LS.hooks]

/-- C25 for `Minres`. -/
theorem C25_minres {a : LSArgs 𝕜 E} (h : LSHyp a.ip a.M) {s : LS 𝕜 E} (hs : mkLS a = .ok s) (ortho : Ortho)
    (p : SolverArgs E) : QuickCall a p (minres s s.hooks ortho p) := by
  obtain ⟨s', hs', ok, -⟩ := mkLS_ok h
  rw [hs] at hs'
  obtain rfl := Except.ok.inj hs'
  unfold minres minresRun
  simp only [ok.hooksRes]
  cases ha : arnInit (s.arnCfg s.hooks p.maxiter ortho) (a.Ml (a.b - a.A (p.x0.getD 0)))
      (some (a.M (a.Ml (a.b - a.A (p.x0.getD 0))))) (some (resid a (p.x0.getD 0))) with
  | error e => simp [arnInit, startNorm] at ha; split at ha <;> cases ha
  | ok arn =>
    refine QuickCall.of_run ok p _ _ fun x => ?_
    simp [minresMethod, minresXk, minresInit, LS.hooks]

/-- C25 for `Cg`. -/
theorem C25_cg {a : LSArgs 𝕜 E} (h : LSHyp a.ip a.M) {s : LS 𝕜 E} (hs : mkLS a = .ok s) (store : Bool)
    (p : SolverArgs E) : QuickCall a p (cg s s.hooks store p) := by
  obtain ⟨s', hs', ok, -⟩ := mkLS_ok h
  rw [hs] at hs'
  obtain rfl := Except.ok.inj hs'
  unfold cg
  simp only [ok.hooksRes]
  refine QuickCall.of_run ok p _ _ fun x => ?_
  simp [cgMethod, cgInit, LS.hooks]

/-- C25 for `Gmres` with `ortho="house"`. -/
theorem C25_gmres_house {N : ℕ} {a : LSArgs 𝕜 (Fin (N + 1) → 𝕜)} (h : LSHyp a.ip a.M) {s : LS 𝕜 (Fin (N + 1) → 𝕜)}
    (hs : mkLS a = .ok s) (p : SolverArgs (Fin (N + 1) → 𝕜)) : QuickCall a p (gmresHouse s s.hooks true p) := by
  obtain ⟨s', hs', ok, -⟩ := mkLS_ok h
  rw [hs] at hs'
  obtain rfl := Except.ok.inj hs'
  unfold gmresHouse
  simp only [ok.hooksRes]
  cases ha : houseInit true (a.Ml (a.b - a.A (p.x0.getD 0))) with
  | error e => simp [houseInit] at ha; split at ha <;> cases ha
  | ok g =>
    refine QuickCall.of_run ok p _ _ fun x => ?_
    have hi : g.arn.iter = 0 := by
      simp only [houseInit, if_true] at ha
      split at ha <;> simp at ha <;> subst ha <;> rfl
    simp [gmresMethodHouse, gmresXk, gmresInit, hi, LS.hooks]

/-- C23 for the undeflated solvers without iterations: the recorded residual norm is the one of the returned vector. -/
theorem QuickCall.residual {a : LSArgs 𝕜 E} {p : SolverArgs E} {S : Type*} {o : Outcome (St ℝ E S)} (h : QuickCall a p o)
    (hb : a.Ml a.b ≠ 0) (ht : resid a (p.x0.getD 0) ≤ p.tol * resid a 0) :
    ∃ st x, o = .returned st ∧ st.xk = some x ∧ st.resnorms.getLast? = some (resid a x / resid a 0) := by
  obtain ⟨st, h1, h2, h3⟩ := h.guess hb ht
  exact ⟨st, _, h1, h2, by rw [h3]; rfl⟩

/-- Non-vacuity: a zero right-hand side and a good initial guess for `A = diag(1, 2)`. -/
example (p : SolverArgs (ℝ × ℝ)) (hp : 0 ≤ p.tol) : ∃ s st, mkLS { exSpd with b := 0 } = .ok s ∧
    cg s s.hooks false p = .returned st ∧ st.xk = some 0 ∧ st.resnorms = [0] := by
  have h : LSHyp ({ exSpd with b := 0 } : LSArgs ℝ (ℝ × ℝ)).ip ({ exSpd with b := 0 } : LSArgs ℝ (ℝ × ℝ)).M := exSpd_hyp.ls
  obtain ⟨s, hs, -⟩ := mkLS_ok h
  obtain ⟨st, h1, h2, h3⟩ := (C25_cg h hs false p).zero (by simp) hp
  exact ⟨s, st, hs, h1, h2, h3⟩

example : ∃ s st, mkLS exSpd = .ok s ∧
    gmres s s.hooks .mgs ⟨some (1, 1 / 2), 0, 5, false, none⟩ = .returned st ∧ st.xk = some (1, 1 / 2) := by
  obtain ⟨s, hs, -⟩ := mkLS_ok exSpd_hyp.ls
  have hr : resid exSpd (1, 1 / 2) = 0 := by
    unfold resid
    rw [exSpd_hyp.ls.prec.nrm_eq_zero]
    simp [exSpd]
  obtain ⟨st, h1, h2, h3⟩ := (C25_gmres exSpd_hyp.ls hs .mgs ⟨some (1, 1 / 2), 0, 5, false, none⟩).guess
    (by simp [exSpd]) (by change resid exSpd (1, 1 / 2) ≤ 0 * _; rw [hr]; simp)
  exact ⟨s, st, hs, h1, h2⟩

end Krypy
