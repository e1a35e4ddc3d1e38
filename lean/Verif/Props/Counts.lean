import Verif.Model.Counts
import Verif.Props.SolverTotal

/-!
# Property C51: operation counts
-/

set_option linter.unusedSectionVars false

namespace Krypy

/-! ## Forgetting the counters -/

@[simp] theorem Tr.pure_fst {α : Type*} (x : α) : (Tr.pure x).1 = x := rfl
@[simp] theorem Tr.pure_snd {α : Type*} (x : α) : (Tr.pure x).2 = 0 := rfl
@[simp] theorem Tr.bind_fst {α β : Type*} (t : Tr α) (f : α → Tr β) : (t.bind f).1 = (f t.1).1 := rfl
@[simp] theorem Tr.bind_snd {α β : Type*} (t : Tr α) (f : α → Tr β) : (t.bind f).2 = t.2 + (f t.1).2 := rfl
@[simp] theorem tick_fst {α : Type*} (o : Op) (x : α) : (tick o x).1 = x := rfl
@[simp] theorem tick_snd {α : Type*} (o : Op) (x : α) : (tick o x).2 = Pi.single o 1 := rfl

theorem tick_bind_fst {α β : Type*} (o : Op) (x : α) (f : α → Tr β) : ((tick o x).bind f).1 = (f x).1 := rfl

section Exact
variable {𝕜 E : Type*} [RCLike 𝕜] [AddCommGroup E] [Module 𝕜 E]

theorem mkLST_erase (a : LSArgs 𝕜 E) : (mkLST a).1 = mkLS a := by
  unfold mkLST mkLS
  dsimp only
  split <;> split <;> rfl

theorem residualT_erase (s : LS 𝕜 E) (z : Option E) : (s.residualT z).1 = s.getResidualNorm z := by
  cases z <;> rfl

theorem arnInitT_erase (c : ArnCfg 𝕜 E) {M : E →ₗ[𝕜] E} (hM : c.M = some M) (v w : E) (r : ℝ) :
    (arnInitT (𝕜 := 𝕜) v w r).1 = arnInit c v (some w) (some r) := by
  unfold arnInitT arnInit startV startNorm
  rw [hM]
  dsimp only [Option.getD_some]
  split <;> rfl

theorem orthoStepT_erase (c : ArnCfg 𝕜 E) (V P : ℕ → E) (st : E × (ℕ → 𝕜)) (j : ℕ) :
    (orthoStepT c V P st j).1 = orthoStep c V P st j := rfl

theorem foldT_erase {α β : Type*} {f : β → α → Tr β} {g : β → α → β} (h : ∀ b a, (f b a).1 = g b a) (l : List α) (b : β) :
    (foldT f l b).1 = l.foldl g b := by
  induction l generalizing b with
  | nil => rfl
  | cons a l ih =>
    rw [foldT, Tr.bind_fst, ih, h]
    rfl

theorem orthoPassT_erase (c : ArnCfg 𝕜 E) (V P : ℕ → E) (start k : ℕ) (st : E × (ℕ → 𝕜)) :
    (orthoPassT c V P start k st).1 = orthoPass c V P start k st :=
  foldT_erase (fun b a => orthoStepT_erase c V P b a) _ _

theorem orthoPassesT_erase (c : ArnCfg 𝕜 E) (V P : ℕ → E) (start k : ℕ) (n : ℕ) (st : E × (ℕ → 𝕜)) :
    (orthoPassesT c V P start k n st).1 = orthoPasses c V P start k n st := by
  induction n generalizing st with
  | zero => exact orthoPassT_erase c V P start k st
  | succ n ih => rw [orthoPassesT, orthoPasses, Tr.bind_fst, orthoPassT_erase, ih]

theorem orthogonaliseT_erase (c : ArnCfg 𝕜 E) {op : E → Tr E} (h : ∀ x, (op x).1 = c.A x) (s : Arn 𝕜 E) :
    (orthogonaliseT c op s).1 = orthogonalise c s := by
  unfold orthogonaliseT orthogonalise
  dsimp only
  rw [Tr.bind_fst, h]
  split
  · rw [Tr.bind_fst, orthoPassesT_erase]
    split <;> rfl
  · exact orthoPassesT_erase _ _ _ _ _ _ _

theorem arnAdvanceT_erase (c : ArnCfg 𝕜 E) {op : E → Tr E} (h : ∀ x, (op x).1 = c.A x) (s : Arn 𝕜 E) :
    (arnAdvanceT c op s).1 = arnAdvance c s := by
  unfold arnAdvanceT arnAdvance
  split
  · rfl
  split
  · rfl
  dsimp only
  simp only [Tr.bind_fst, tick_fst, orthogonaliseT_erase c h]
  split
  next e => simp_all
  next r hr =>
    simp only [hr]
    split
    · rfl
    split
    · rfl
    · rfl

theorem cgStepT_erase (ip : E → E → 𝕜) (M B : E →ₗ[𝕜] E) {op : E → Tr E} (h : ∀ x, (op x).1 = B x) (store : Bool)
    (s : CgSt 𝕜 E) : (cgStepT ip M op store s).1 = cgStep ip M B store s := by
  unfold cgStepT cgStep
  dsimp only
  have hd : (cgDirT s).1 = cgDir s := by
    unfold cgDirT cgDir
    split
    · split <;> rfl
    · rfl
  rw [Tr.bind_fst, hd]
  cases cgDir s with
  | error e => rfl
  | ok p =>
    dsimp only
    rw [Tr.bind_fst, h, tick_bind_fst]
    by_cases h0 : ip p (B p) = 0
    · rw [if_pos h0, if_pos h0]
      rfl
    rw [if_neg h0, if_neg h0]
    by_cases h1 : (store && decide (RCLike.re (↑(s.rho s.k) / ip p (B p)) = 0)) = true
    · rw [if_pos h1, if_pos h1]
      rfl
    · rw [if_neg h1, if_neg h1]
      simp only [tick_bind_fst]
      generalize npNorm (ip (s.Mlrk - _) _) = nn
      cases nn with
      | error e => rfl
      | ok r => cases store <;> rfl

theorem gmresStepT_erase {advT : Arn 𝕜 E → Tr (Except Err (Arn 𝕜 E))} {adv : Arn 𝕜 E → Except Err (Arn 𝕜 E)}
    (h : ∀ a, (advT a).1 = adv a) (s : GmresSt 𝕜 E) : (gmresStepT advT s).1 = gmresStep adv s := by
  unfold gmresStepT
  rw [Tr.bind_fst, h]
  rfl

theorem minresStepT_erase {advT : Arn 𝕜 E → Tr (Except Err (Arn 𝕜 E))} {adv : Arn 𝕜 E → Except Err (Arn 𝕜 E)}
    (h : ∀ a, (advT a).1 = adv a) (maxiter : ℕ) (s : MinresSt 𝕜 E) :
    (minresStepT advT maxiter s).1 = minresStep adv maxiter s := by
  unfold minresStepT minresStep
  dsimp only
  rw [Tr.bind_fst, h]
  cases adv s.arn with
  | error e => rfl
  | ok a =>
    dsimp only
    generalize RCLike.re (a.H (if s.arn.iter = 0 then maxiter else s.arn.iter - 1) s.arn.iter) = h01
    split <;> rfl

theorem gmresXkT_erase (Mr : E →ₗ[𝕜] E) (s : GmresSt 𝕜 E) : (gmresXkT Mr s).1 = gmresXk Mr .ok s := by
  unfold gmresXkT gmresXk
  dsimp only
  split
  · cases solveUpper (Matrix.of fun i j : Fin s.arn.iter => s.R i j) (fun i : Fin s.arn.iter => s.y i) <;> rfl
  · rfl

end Exact

section Driver
variable {F X S : Type*} [LE F] [LT F] [DecidableLE F] [DecidableLT F] [Div F]

theorem withErrT_erase (cfg : CfgT F X) (g : Tr (Except Err X)) (st : St F X S) :
    (withErrT cfg g st).1 = withErr cfg.erase g.1 st := by
  unfold withErrT withErr CfgT.erase
  cases cfg.errNorm with
  | none => rfl
  | some en =>
    dsimp only [Option.map_some]
    rw [Tr.bind_fst]
    cases g.1 with
    | error e => rfl
    | ok x =>
      dsimp only
      rw [Tr.bind_fst]
      cases (en x).1 <;> rfl

theorem finalizeT_erase (cfg : CfgT F X) (g : Tr (Except Err X)) (r : F) (st : St F X S) :
    (finalizeT cfg g r st).1 = finalizeIteration cfg.erase g.1 r st := by
  unfold finalizeT finalizeIteration
  rw [Tr.bind_fst, withErrT_erase]
  cases withErr cfg.erase g.1 st with
  | error e => rfl
  | ok st' =>
  dsimp only
  split
  · rw [Tr.bind_fst]
    have tail : ∀ x : X, ((cfg.resNorm x).bind fun
        | .error e => .pure (.raised e)
        | .ok rkn => .pure (afterExplicit cfg r st' x rkn)).1 = match cfg.erase.resNorm x with
        | .error e => .raised e
        | .ok rkn => afterExplicit cfg r st' x rkn := by
      intro x
      rw [Tr.bind_fst]
      have hx : cfg.erase.resNorm x = (cfg.resNorm x).1 := rfl
      rw [hx]
      cases (cfg.resNorm x).1 <;> rfl
    cases st'.xk with
    | some x => exact tail x
    | none =>
      dsimp only
      cases g.1 with
      | error e => rfl
      | ok x => exact tail x
  · rfl

theorem bodyT_erase (cfg : CfgT F X) (m : MethodT F X S) (st : St F X S) :
    (bodyT cfg m st).1 = body cfg.erase m.erase st := by
  unfold bodyT body
  dsimp only
  have hs : ∀ s, m.erase.step s = (m.step s).1 := fun _ => rfl
  rw [Tr.bind_fst, hs]
  cases (m.step st.s).1 with
  | error e => rfl
  | ok sr =>
    obtain ⟨s', r⟩ := sr
    dsimp only
    rw [Tr.bind_fst, finalizeT_erase]
    have hs : ∀ s, m.erase.getXk s = (m.getXk s).1 := fun _ => rfl
    have hk : ∀ s, m.erase.k s = m.k s := fun _ => rfl
    rw [hs, hk]
    cases finalizeIteration cfg.erase (m.getXk s').1 r _ <;> rfl

theorem finishT_erase (m : MethodT F X S) (st : St F X S) : (finishT m st).1 = finish m.erase st := by
  unfold finishT finish
  cases st.xk with
  | some x => rfl
  | none =>
    dsimp only
    rw [Tr.bind_fst]
    have hs : ∀ s, m.erase.getXk s = (m.getXk s).1 := fun _ => rfl
    rw [hs]
    cases (m.getXk st.s).1 <;> rfl

theorem loopT_erase (cfg : CfgT F X) (m : MethodT F X S) (fuel : ℕ) (st : St F X S) :
    (loopT cfg m fuel st).1 = loop cfg.erase m.erase fuel st := by
  induction fuel generalizing st with
  | zero =>
    unfold loopT loop
    split
    · rfl
    · exact finishT_erase m st
  | succ n ih =>
    unfold loopT loop
    split
    · dsimp only
      rw [Tr.bind_fst, bodyT_erase]
      cases body cfg.erase m.erase st with
      | raised e => rfl
      | convergence st => rfl
      | ok st => exact ih st
    · exact finishT_erase m st

theorem runT_erase [Zero F] [BEq F] [Zero X] (cfg : CfgT F X) (m : MethodT F X S) (x0 : X) (r0 : F) (mkS : X → S) :
    (runT cfg m x0 r0 mkS).1 = run cfg.erase m.erase x0 r0 mkS .ok := by
  unfold runT run
  dsimp only
  have : ∀ x, (initErrT cfg x).1 = initErr cfg.erase (.ok x) := by
    intro x
    unfold initErrT initErr CfgT.erase
    cases cfg.errNorm with
    | none => rfl
    | some en =>
      dsimp only [Option.map_some]
      rw [Tr.bind_fst]
      cases (en x).1 <;> rfl
  have hn : cfg.erase.MMlbNorm = cfg.MMlbNorm := rfl
  rw [Tr.bind_fst, this, hn]
  cases initErr cfg.erase _ with
  | error e => rfl
  | ok l => exact loopT_erase _ _ _ _

end Driver

section Solvers
variable {𝕜 E : Type*} [RCLike 𝕜] [AddCommGroup E] [Module 𝕜 E]

theorem mkCfgT_erase (s : LS 𝕜 E) (p : SolverArgs E) : (mkCfgT s p).erase = mkCfg s p := by
  unfold mkCfgT CfgT.erase mkCfg
  congr 1
  · funext x
    rw [Tr.bind_fst, residualT_erase]
    cases s.getResidualNorm (some x) <;> rfl
  · cases p.exact <;> rfl

theorem opT_erase {a : LSArgs 𝕜 E} {s : LS 𝕜 E} (hs : mkLS a = .ok s) (x : E) : (s.opT x).1 = s.MlAMr x := by
  unfold mkLS at hs
  rcases ite_eq_iff.mp hs with ⟨-, h⟩ | ⟨-, h⟩
  · cases h
  · dsimp only at h
    split at h
    · cases h
    · simp only [Except.ok.injEq] at h
      subst h
      rfl

theorem cgMethodT_erase {a : LSArgs 𝕜 E} {s : LS 𝕜 E} (hs : mkLS a = .ok s) (store : Bool) (n : ℕ) :
    (cgMethodT s store n).erase = cgMethod s.ip s.M s.MlAMr s.Mr .ok store n := by
  unfold cgMethodT MethodT.erase cgMethod
  congr 1
  funext t
  exact cgStepT_erase _ _ _ (opT_erase hs) _ _

theorem gmresMethodT_erase {a : LSArgs 𝕜 E} {s : LS 𝕜 E} (hs : mkLS a = .ok s) (ortho : Ortho) (n : ℕ) :
    (gmresMethodT s ortho n).erase = gmresMethod (arnAdvance (s.arnCfg s.hooks n ortho)) s.Mr .ok n := by
  unfold gmresMethodT MethodT.erase gmresMethod
  congr 1
  · funext t
    exact gmresStepT_erase (fun a => arnAdvanceT_erase _ (opT_erase hs) a) _
  · funext t
    exact gmresXkT_erase _ _

theorem minresMethodT_erase {a : LSArgs 𝕜 E} {s : LS 𝕜 E} (hs : mkLS a = .ok s) (ortho : Ortho) (n : ℕ) :
    (minresMethodT s ortho n).erase = minresMethod (arnAdvance (s.arnCfg s.hooks n ortho)) s.Mr .ok n := by
  unfold minresMethodT MethodT.erase minresMethod
  congr 1
  funext t
  exact minresStepT_erase (fun a => arnAdvanceT_erase _ (opT_erase hs) a) _ _

/-- C51: the counting model of `Cg` computes what the model of `Cg` computes. -/
theorem C51_cg_erase (a : LSArgs 𝕜 E) (store : Bool) (p : SolverArgs E) :
    (cgT a store p).1 = match mkLS a with
      | .error e => .raised e
      | .ok s => cg s s.hooks store p := by
  unfold cgT
  rw [Tr.bind_fst, mkLST_erase]
  cases hs : mkLS a with
  | error e => rfl
  | ok s =>
    dsimp only
    rw [Tr.bind_fst, residualT_erase]
    change _ = cg s s.hooks store p
    unfold cg
    have : s.hooks.initRes p.x0 = s.getResidualNorm p.x0 := rfl
    rw [this]
    cases s.getResidualNorm p.x0 with
    | error e => rfl
    | ok xyz =>
      obtain ⟨x, y, z⟩ := xyz
      dsimp only
      have : ∀ MMlr0 Mlr0 r0, (cgInitT (𝕜 := 𝕜) (E := E) store MMlr0 Mlr0 r0).1 = cgInit MMlr0 Mlr0 r0 := by
        intro _ _ _
        unfold cgInitT
        split <;> rfl
      rw [Tr.bind_fst, this, runT_erase, mkCfgT_erase, cgMethodT_erase hs]
      rfl

/-- C51: the counting model of `Gmres` computes what the model of `Gmres` computes. -/
theorem C51_gmres_erase (a : LSArgs 𝕜 E) (ortho : Ortho) (p : SolverArgs E) :
    (gmresT a ortho p).1 = match mkLS a with
      | .error e => .raised e
      | .ok s => gmres s s.hooks ortho p := by
  unfold gmresT
  rw [Tr.bind_fst, mkLST_erase]
  cases hs : mkLS a with
  | error e => rfl
  | ok s =>
    dsimp only
    rw [Tr.bind_fst, residualT_erase]
    change _ = gmres s s.hooks ortho p
    unfold gmres gmresRun
    have : s.hooks.initRes p.x0 = s.getResidualNorm p.x0 := rfl
    rw [this]
    cases s.getResidualNorm p.x0 with
    | error e => rfl
    | ok xyz =>
      obtain ⟨x, y, z⟩ := xyz
      dsimp only
      rw [Tr.bind_fst, arnInitT_erase (s.arnCfg s.hooks p.maxiter ortho) rfl]
      cases arnInit (s.arnCfg s.hooks p.maxiter ortho) y (some x) (some z) with
      | error e => rfl
      | ok arn =>
        dsimp only
        rw [runT_erase, mkCfgT_erase, gmresMethodT_erase hs]
        rfl

/-- C51: the counting model of `Minres` computes what the model of `Minres` computes. -/
theorem C51_minres_erase (a : LSArgs 𝕜 E) (ortho : Ortho) (p : SolverArgs E) :
    (minresT a ortho p).1 = match mkLS a with
      | .error e => .raised e
      | .ok s => minres s s.hooks ortho p := by
  unfold minresT
  rw [Tr.bind_fst, mkLST_erase]
  cases hs : mkLS a with
  | error e => rfl
  | ok s =>
    dsimp only
    rw [Tr.bind_fst, residualT_erase]
    change _ = minres s s.hooks ortho p
    unfold minres minresRun
    have : s.hooks.initRes p.x0 = s.getResidualNorm p.x0 := rfl
    rw [this]
    cases s.getResidualNorm p.x0 with
    | error e => rfl
    | ok xyz =>
      obtain ⟨x, y, z⟩ := xyz
      dsimp only
      rw [Tr.bind_fst, arnInitT_erase (s.arnCfg s.hooks p.maxiter ortho) rfl]
      cases arnInit (s.arnCfg s.hooks p.maxiter ortho) y (some x) (some z) with
      | error e => rfl
      | ok arn =>
        dsimp only
        rw [runT_erase, mkCfgT_erase, minresMethodT_erase hs]
        rfl

end Solvers

/-! ## Counting in the driver -/

section Count
variable {F X S : Type*} [LE F] [LT F] [DecidableLE F] [DecidableLT F] [Div F]

/-- Costs of the parts of a method: iterations are accounted for by the potential `Φ`, an approximate
solution after at least one iteration costs `gx`, a residual norm `gr`. -/
structure CostLaw (cfg : CfgT F X) (m : MethodT F X S) (Φ : S → Op → ℕ) (gx gr : Op → ℕ) : Prop where
  step : ∀ s s' r, (m.step s).1 = .ok (s', r) → Φ s' = Φ s + (m.step s).2
  post : ∀ s r, Φ (m.post s r) = Φ s
  xk : ∀ s s' r x, (m.step s).1 = .ok (s', r) → (m.getXk s').1 = .ok x → (m.getXk s').2 = gx
  xk_post : ∀ s r, m.getXk (m.post s r) = m.getXk s
  res : ∀ x r, (cfg.resNorm x).1 = .ok r → (cfg.resNorm x).2 = gr

/-- What a single pass through the loop costs if no exact solution is given and `explicit_residual=False`. -/
theorem bodyT_count {cfg : CfgT F X} {m : MethodT F X S} {Φ : S → Op → ℕ} {gx gr : Op → ℕ} (h : CostLaw cfg m Φ gx gr)
    (he : cfg.errNorm = none) (hx : cfg.explicitResidual = false) (st : St F X S) :
    (∀ st', (bodyT cfg m st).1 = .ok st' →
      (st'.xk = none ∧ (∃ s r, (m.step st.s).1 = .ok (s, r) ∧ m.getXk st'.s = m.getXk s) ∧
          Φ st.s + (bodyT cfg m st).2 = Φ st'.s ∧ st'.warnings = st.warnings ∧
          ∃ r, st'.resnorms.getLast? = some r ∧ ¬ r ≤ cfg.tol) ∨
      (st'.xk.isSome ∧ Φ st.s + (bodyT cfg m st).2 = Φ st'.s + (gr + gx) ∧ st'.warnings = st.warnings + 1 ∧
          ∃ r, st'.resnorms.getLast? = some r ∧ cfg.tol < r) ∨
      (st'.xk.isSome ∧ Φ st.s + (bodyT cfg m st).2 = Φ st'.s + (gr + gx) ∧ st'.warnings = st.warnings ∧
          ∃ r, st'.resnorms.getLast? = some r ∧ ¬ cfg.tol < r)) ∧
    (∀ st', (bodyT cfg m st).1 = .convergence st' →
      Φ st.s + (bodyT cfg m st).2 = Φ st'.s + (gr + gx) ∧ st'.warnings = st.warnings) := by
  unfold bodyT
  dsimp only
  rw [Tr.bind_fst, Tr.bind_snd]
  cases hs : (m.step st.s).1 with
  | error e => simp
  | ok sr =>
    obtain ⟨s', r⟩ := sr
    dsimp only
    have h1 := h.step _ _ _ hs
    rw [Tr.bind_fst, Tr.bind_snd]
    unfold finalizeT
    rw [Tr.bind_fst, Tr.bind_snd]
    have hw : ∀ t : St F X S, withErrT cfg (m.getXk s') t = .pure (.ok { t with xk := none }) := by
      intro t; unfold withErrT; rw [he]
    rw [hw]
    dsimp only [Tr.pure_fst, Tr.pure_snd]
    by_cases hwant : wantExplicit cfg.erase ({ st with iter := m.k st.s, s := s', xk := none } : St F X S) r = true
    · rw [if_pos hwant]
      rw [Tr.bind_fst, Tr.bind_snd]
      cases hgx : (m.getXk s').1 with
      | error e => simp
      | ok x =>
        dsimp only
        rw [Tr.bind_fst, Tr.bind_snd]
        have h2 := h.xk _ _ _ _ hs hgx
        cases hrn : (cfg.resNorm x).1 with
        | error e => simp
        | ok rkn =>
          have h3 := h.res _ _ hrn
          dsimp only [Tr.pure_fst, Tr.pure_snd]
          unfold afterExplicit
          dsimp only
          by_cases hc : cfg.tol < rkn / cfg.MMlbNorm
          · rw [if_pos hc]
            by_cases hm : m.k st.s + 1 = cfg.maxiter
            · rw [if_pos hm]
              refine ⟨by simp, fun st' hst => ?_⟩
              simp only [Tr.pure_fst, Res3.convergence.injEq] at hst
              subst hst
              simp only [Tr.pure_snd, and_true]
              rw [h1, h2, h3]
              abel
            · rw [if_neg hm]
              have hr : r / cfg.MMlbNorm ≤ cfg.tol := by
                unfold wantExplicit CfgT.erase at hwant
                simpa [hx, hm] using hwant
              rw [if_pos ⟨by simp [hx], hr⟩]
              refine ⟨fun st' hst => Or.inr (Or.inl ?_), by simp⟩
              simp only [Tr.pure_fst, Res3.ok.injEq] at hst
              subst hst
              simp only [Tr.pure_snd, h.post, Option.isSome_some, true_and]
              exact ⟨by rw [h1, h2, h3]; abel, _, List.getLast?_append_of_ne_nil _ (by simp), hc⟩
          · rw [if_neg hc]
            refine ⟨fun st' hst => Or.inr (Or.inr ?_), by simp⟩
            simp only [Tr.pure_fst, Res3.ok.injEq] at hst
            subst hst
            simp only [Tr.pure_snd, h.post, Option.isSome_some, true_and]
            exact ⟨by rw [h1, h2, h3]; abel, _, List.getLast?_append_of_ne_nil _ (by simp), hc⟩
    · rw [if_neg hwant]
      dsimp only [Tr.pure_fst, Tr.pure_snd]
      refine ⟨fun st' hst => Or.inl ?_, by simp⟩
      simp only [Res3.ok.injEq] at hst
      subst hst
      have hr : ¬ r / cfg.MMlbNorm ≤ cfg.tol := by
        intro hle
        exact hwant (by unfold wantExplicit CfgT.erase; simp [hle])
      simp only [h.post, true_and]
      exact ⟨⟨s', r, rfl, h.xk_post _ _⟩, by rw [h1]; abel, _, List.getLast?_append_of_ne_nil _ (by simp), hr⟩

/-- The same for `explicit_residual=True`. -/
theorem bodyT_count_explicit {cfg : CfgT F X} {m : MethodT F X S} {Φ : S → Op → ℕ} {gx gr : Op → ℕ}
    (h : CostLaw cfg m Φ gx gr) (he : cfg.errNorm = none) (hx : cfg.explicitResidual = true) (st st' : St F X S)
    (hst : (bodyT cfg m st).1 = .ok st' ∨ (bodyT cfg m st).1 = .convergence st') :
    Φ st.s + (bodyT cfg m st).2 = Φ st'.s + (gr + gx) ∧ st'.xk.isSome ∧
      st'.resnorms.length = st.resnorms.length + 1 := by
  revert hst
  unfold bodyT
  dsimp only
  rw [Tr.bind_fst, Tr.bind_snd]
  cases hs : (m.step st.s).1 with
  | error e => simp
  | ok sr =>
    obtain ⟨s', r⟩ := sr
    dsimp only
    have h1 := h.step _ _ _ hs
    rw [Tr.bind_fst, Tr.bind_snd]
    unfold finalizeT
    rw [Tr.bind_fst, Tr.bind_snd]
    have hw : ∀ t : St F X S, withErrT cfg (m.getXk s') t = .pure (.ok { t with xk := none }) := by
      intro t; unfold withErrT; rw [he]
    rw [hw]
    dsimp only [Tr.pure_fst, Tr.pure_snd]
    have hwant : wantExplicit cfg.erase ({ st with iter := m.k st.s, s := s', xk := none } : St F X S) r = true := by
      unfold wantExplicit CfgT.erase
      simp [hx]
    rw [if_pos hwant]
    rw [Tr.bind_fst, Tr.bind_snd]
    cases hgx : (m.getXk s').1 with
    | error e => simp
    | ok x =>
      dsimp only
      rw [Tr.bind_fst, Tr.bind_snd]
      have h2 := h.xk _ _ _ _ hs hgx
      cases hrn : (cfg.resNorm x).1 with
      | error e => simp
      | ok rkn =>
        have h3 := h.res _ _ hrn
        dsimp only [Tr.pure_fst, Tr.pure_snd]
        unfold afterExplicit
        dsimp only
        by_cases hc : cfg.tol < rkn / cfg.MMlbNorm
        · rw [if_pos hc]
          by_cases hm : m.k st.s + 1 = cfg.maxiter
          · rw [if_pos hm]
            rintro (hst | hst)
            · simp at hst
            · simp only [Tr.pure_fst, Res3.convergence.injEq] at hst
              subst hst
              simp only [Tr.pure_snd, Option.isSome_some, and_true, List.length_append,
                List.length_singleton]
              rw [h1, h2, h3]
              abel
          · rw [if_neg hm, if_neg (by simp [hx])]
            rintro (hst | hst)
            · simp only [Tr.pure_fst, Res3.ok.injEq] at hst
              subst hst
              simp only [Tr.pure_snd, Option.isSome_some, and_true, List.length_append,
                List.length_singleton, h.post]
              rw [h1, h2, h3]
              abel
            · simp at hst
        · rw [if_neg hc]
          rintro (hst | hst)
          · simp only [Tr.pure_fst, Res3.ok.injEq] at hst
            subst hst
            simp only [Tr.pure_snd, Option.isSome_some, and_true, List.length_append,
              List.length_singleton, h.post]
            rw [h1, h2, h3]
            abel
          · simp at hst

/-- The outcome is a solver object. -/
def Outcome.Is {T : Type*} (o : Outcome T) (st : T) : Prop := o = .returned st ∨ o = .convergence st

/-- What a run of the loop with at least one iteration costs (`explicit_residual=False`): every explicit evaluation of the
residual norm is reported by a warning, except possibly the last one. -/
theorem loopT_count {cfg : CfgT F X} {m : MethodT F X S} {Φ : S → Op → ℕ} {gx gr : Op → ℕ} (h : CostLaw cfg m Φ gx gr)
    (he : cfg.errNorm = none) (hx : cfg.explicitResidual = false) (fuel : ℕ) (st st' : St F X S)
    (hg : loopGuard cfg.erase m.erase st = true) (hst : (loopT cfg m fuel st).1.Is st') :
    st.warnings ≤ st'.warnings ∧ ∃ d d' : ℕ, d ≤ d' ∧ d' ≤ 1 ∧
      Φ st.s + (loopT cfg m fuel st).2 + st.warnings • (gr + gx) =
        Φ st'.s + st'.warnings • (gr + gx) + d • gr + d' • gx ∧
      (st'.warnings = st.warnings → d' = 1) ∧
      (d = 0 → (loopT cfg m fuel st).1 = .returned st' ∧
        ∃ r, st'.resnorms.getLast? = some r ∧ (¬ r ≤ cfg.tol ∨ cfg.tol < r)) := by
  induction fuel generalizing st with
  | zero =>
    unfold loopT at hst
    rw [if_pos hg] at hst
    rcases hst with hst | hst <;> simp at hst
  | succ n ih =>
    unfold loopT at hst ⊢
    rw [if_pos hg] at hst ⊢
    dsimp only at hst ⊢
    rw [Tr.bind_fst] at hst ⊢
    rw [Tr.bind_snd]
    obtain ⟨b1, b2⟩ := bodyT_count h he hx st
    cases hb : (bodyT cfg m st).1 with
    | raised e =>
      rw [hb] at hst
      rcases hst with hst | hst <;> simp at hst
    | convergence st1 =>
      rw [hb] at hst
      rcases hst with hst | hst
      · simp at hst
      · simp only [Tr.pure_fst, Outcome.convergence.injEq] at hst
        subst hst
        obtain ⟨c1, c2⟩ := b2 _ hb
        refine ⟨c2.ge, 1, 1, le_rfl, le_rfl, ?_, fun _ => rfl, by simp⟩
        simp only [Tr.pure_snd, c2, add_zero, one_smul]
        rw [c1]
        abel
    | ok st1 =>
      rw [hb] at hst
      dsimp only at hst ⊢
      specialize b1 _ hb
      by_cases hg1 : loopGuard cfg.erase m.erase st1 = true
      · obtain ⟨i1, d, d', i2, i3, i4, i5, i6⟩ := ih st1 hg1 hst
        rcases b1 with ⟨-, -, c1, c2, -⟩ | ⟨-, c1, c2, -⟩ | ⟨-, -, -, r, c3, c4⟩
        · rw [c2] at i1 i4 i5
          refine ⟨i1, d, d', i2, i3, ?_, i5, i6⟩
          rw [← add_assoc, c1, i4]
        · rw [c2] at i1 i4
          refine ⟨by omega, d, d', i2, i3, ?_, fun hh => by omega, i6⟩
          rw [← i4, ← add_assoc, c1, succ_nsmul]
          abel
        · exfalso
          unfold loopGuard at hg1
          rw [c3] at hg1
          simp only [Option.any_some, Bool.and_eq_true, decide_eq_true_eq] at hg1
          exact c4 hg1.1
      · have hl : loopT cfg m n st1 = finishT m st1 := by
          unfold loopT
          rw [if_neg hg1]
        rw [hl] at hst ⊢
        rcases b1 with ⟨c0, ⟨s, r, hs, hs'⟩, c1, c2, c3⟩ | ⟨c0, c1, c2, c3⟩ | ⟨c0, c1, c2, c3⟩
        · unfold finishT at hst ⊢
          rw [c0] at hst ⊢
          dsimp only at hst ⊢
          rw [hs', Tr.bind_fst] at hst ⊢
          rw [Tr.bind_snd]
          cases hgx : (m.getXk s).1 with
          | error e =>
            rw [hgx] at hst
            rcases hst with hst | hst <;> simp at hst
          | ok x =>
            rw [hgx] at hst
            have h2 := h.xk _ _ _ _ hs hgx
            rcases hst with hst | hst
            · simp only [Tr.pure_fst, Outcome.returned.injEq] at hst
              subst hst
              refine ⟨c2.ge, 0, 1, by omega, le_rfl, ?_, fun _ => rfl, fun _ => ⟨rfl, ?_⟩⟩
              · simp only [Tr.pure_snd, c2, add_zero, one_smul, zero_smul, h2]
                rw [← add_assoc, c1]
                abel
              · obtain ⟨r, c3, c4⟩ := c3
                exact ⟨r, c3, Or.inl c4⟩
            · simp at hst
        · obtain ⟨x, c0⟩ := Option.isSome_iff_exists.mp c0
          unfold finishT at hst ⊢
          rw [c0] at hst ⊢
          dsimp only at hst ⊢
          rcases hst with hst | hst
          · simp only [Tr.pure_fst, Outcome.returned.injEq] at hst
            subst hst
            refine ⟨by omega, 0, 0, by omega, by omega, ?_, fun hh => by omega, fun _ => ⟨rfl, ?_⟩⟩
            · simp only [Tr.pure_snd, c2, add_zero, zero_smul, succ_nsmul, c1]
              abel
            · obtain ⟨r, c3, c4⟩ := c3
              exact ⟨r, c3, Or.inr c4⟩
          · simp at hst
        · obtain ⟨x, c0⟩ := Option.isSome_iff_exists.mp c0
          unfold finishT at hst ⊢
          rw [c0] at hst ⊢
          dsimp only at hst ⊢
          rcases hst with hst | hst
          · simp only [Tr.pure_fst, Outcome.returned.injEq] at hst
            subst hst
            refine ⟨by omega, 1, 1, by omega, by omega, ?_, fun hh => rfl, by simp⟩
            simp only [Tr.pure_snd, c2, add_zero, one_smul]
            rw [c1]
            abel
          · simp at hst

/-- The same for `explicit_residual=True`: every iteration evaluates the residual norm. -/
theorem loopT_count_explicit {cfg : CfgT F X} {m : MethodT F X S} {Φ : S → Op → ℕ} {gx gr : Op → ℕ}
    (h : CostLaw cfg m Φ gx gr) (he : cfg.errNorm = none) (hx : cfg.explicitResidual = true) (fuel : ℕ)
    (st st' : St F X S) (hg : loopGuard cfg.erase m.erase st = true ∨ st.xk.isSome)
    (hst : (loopT cfg m fuel st).1.Is st') :
    Φ st.s + (loopT cfg m fuel st).2 + st.resnorms.length • (gr + gx) = Φ st'.s + st'.resnorms.length • (gr + gx) := by
  induction fuel generalizing st with
  | zero =>
    unfold loopT at hst ⊢
    split at hst
    · rcases hst with hst | hst <;> simp at hst
    next hng =>
    obtain ⟨x, c0⟩ := Option.isSome_iff_exists.mp (hg.resolve_left hng)
    rw [if_neg hng]
    unfold finishT at hst ⊢
    rw [c0] at hst ⊢
    rcases hst with hst | hst <;> simp at hst
    subst hst
    simp
  | succ n ih =>
    unfold loopT at hst ⊢
    by_cases hgg : loopGuard cfg.erase m.erase st = true
    · rw [if_pos hgg] at hst ⊢
      dsimp only at hst ⊢
      rw [Tr.bind_fst] at hst
      rw [Tr.bind_snd]
      cases hb : (bodyT cfg m st).1 with
      | raised e =>
        rw [hb] at hst
        rcases hst with hst | hst <;> simp at hst
      | convergence st1 =>
        rw [hb] at hst
        rcases hst with hst | hst
        · simp at hst
        · simp only [Tr.pure_fst, Outcome.convergence.injEq] at hst
          subst hst
          obtain ⟨c1, -, c3⟩ := bodyT_count_explicit h he hx st _ (Or.inr hb)
          simp only [Tr.pure_snd, c3, add_zero, succ_nsmul, c1]
          abel
      | ok st1 =>
        rw [hb] at hst
        dsimp only at hst ⊢
        obtain ⟨c1, c2, c3⟩ := bodyT_count_explicit h he hx st _ (Or.inl hb)
        have := ih st1 (Or.inr c2) hst
        rw [c3, succ_nsmul] at this
        rw [← this, ← add_assoc, c1]
        abel
    · obtain ⟨x, c0⟩ := Option.isSome_iff_exists.mp (hg.resolve_left hgg)
      rw [if_neg hgg] at hst ⊢
      unfold finishT at hst ⊢
      rw [c0] at hst ⊢
      rcases hst with hst | hst <;> simp at hst
      subst hst
      simp

/-- What a call with at least one iteration costs. -/
theorem runT_count [Zero F] [BEq F] [Zero X] {cfg : CfgT F X} {m : MethodT F X S} {Φ : S → Op → ℕ} {gx gr : Op → ℕ}
    (h : CostLaw cfg m Φ gx gr) (he : cfg.errNorm = none) (x0 : X) (r0 : F) (mkS : X → S) (st : St F X S)
    (h0 : ∀ x, Φ (mkS x) = 0) (hst : (runT cfg m x0 r0 mkS).1.Is st) (hn : 2 ≤ st.resnorms.length) :
    (∃ x, m.more (mkS x) = true) ∧ (cfg.explicitResidual = false → ∃ d d' : ℕ, d ≤ d' ∧ d' ≤ 1 ∧
      (runT cfg m x0 r0 mkS).2 = Φ st.s + (st.warnings + d) • gr + (st.warnings + d') • gx ∧
      (st.warnings = 0 → d' = 1) ∧
      (d = 0 → (runT cfg m x0 r0 mkS).1 = .returned st ∧
        ∃ r, st.resnorms.getLast? = some r ∧ (¬ r ≤ cfg.tol ∨ cfg.tol < r))) ∧
    (cfg.explicitResidual = true →
      (runT cfg m x0 r0 mkS).2 = Φ st.s + (st.resnorms.length - 1) • gr + (st.resnorms.length - 1) • gx) := by
  have hr : ∀ y, runT cfg m y r0 mkS = loopT cfg m cfg.maxiter
      { s := mkS (if cfg.MMlbNorm == 0 then 0 else y), iter := 0, xk := if cfg.MMlbNorm == 0 then some 0 else none,
        resnorms := if cfg.MMlbNorm == 0 then [0] else [r0 / cfg.MMlbNorm], errnorms := none, warnings := 0 } := by
    intro y
    unfold runT initErrT
    rw [he]
    simp [Tr.bind, Tr.pure]
  rw [hr] at hst ⊢
  have hlen : ∀ b : Bool, (if b then [0] else [r0 / cfg.MMlbNorm] : List F).length = 1 := by
    intro b; cases b <;> rfl
  have hg : loopGuard cfg.erase m.erase
      (⟨mkS (if cfg.MMlbNorm == 0 then 0 else x0), 0, if cfg.MMlbNorm == 0 then some 0 else none,
        if cfg.MMlbNorm == 0 then [0] else [r0 / cfg.MMlbNorm], none, 0⟩ : St F X S) = true := by
    by_contra hg
    unfold loopT at hst
    rw [if_neg hg] at hst
    have : st.resnorms.length = 1 := by
      unfold finishT at hst
      revert hst
      cases hb : cfg.MMlbNorm == 0 with
      | true =>
        simp only [if_true]
        rintro (hst | hst)
        · simp only [Tr.pure_fst, Outcome.returned.injEq] at hst
          subst hst
          simp
        · simp at hst
      | false =>
        simp only [Bool.false_eq_true, if_false]
        rw [Tr.bind_fst]
        cases (m.getXk (mkS x0)).1 with
        | error e => rintro (hst | hst) <;> simp at hst
        | ok x =>
          rintro (hst | hst)
          · simp only [Tr.pure_fst, Outcome.returned.injEq] at hst
            subst hst
            simp
          · simp at hst
    omega
  refine ⟨⟨if cfg.MMlbNorm == 0 then 0 else x0, ?_⟩, ?_, ?_⟩
  · unfold loopGuard at hg
    exact (Bool.and_eq_true_iff.mp hg).2
  · intro hx
    obtain ⟨-, d, d', h1, h2, h3, h4, h5⟩ := loopT_count h he hx _ _ _ hg hst
    refine ⟨d, d', h1, h2, ?_, h4, h5⟩
    rw [h0, zero_smul, zero_add, add_zero] at h3
    rw [h3, smul_add, add_smul, add_smul]
    abel
  · intro hx
    have h1 := loopT_count_explicit h he hx _ _ _ (Or.inl hg) hst
    rw [h0, hlen, zero_add, one_smul] at h1
    obtain ⟨n, hn'⟩ : ∃ n, st.resnorms.length = n + 1 := ⟨st.resnorms.length - 1, by omega⟩
    rw [hn', succ_nsmul, ← add_assoc (Φ st.s)] at h1
    rw [hn', add_right_cancel h1, Nat.add_sub_cancel, smul_add]
    abel

end Count

/-! ## Costs of the parts -/

section Parts
variable {𝕜 E : Type*} [RCLike 𝕜] [AddCommGroup E] [Module 𝕜 E]

theorem foldT_cost {α β : Type*} {f : β → α → Tr β} {c : Op → ℕ} (h : ∀ b a, (f b a).2 = c) (l : List α) (b : β) :
    (foldT f l b).2 = l.length • c := by
  induction l generalizing b with
  | nil => simp [foldT]
  | cons a l ih => rw [foldT, Tr.bind_snd, ih, h, List.length_cons, succ_nsmul, add_comm]

/-- Number of vectors against which step `k` orthogonalises, counted with repetitions (utils.py 998-1014). -/
def orthoCount : Ortho → ℕ → ℕ
  | .mgs, k => k + 1
  | .dmgs, k => 2 * (k + 1)
  | .lanczos, _ => 1

theorem orthoPassT_cost (c : ArnCfg 𝕜 E) (V P : ℕ → E) (start k : ℕ) (st : E × (ℕ → 𝕜)) :
    (orthoPassT c V P start k st).2 = (k + 1 - start) • (Pi.single Op.ipB 1 + Pi.single Op.axpy 1) := by
  unfold orthoPassT
  rw [foldT_cost (c := Pi.single Op.ipB 1 + Pi.single Op.axpy 1), List.length_range']
  intro b a
  simp [orthoStepT]

theorem orthogonaliseT_cost (c : ArnCfg 𝕜 E) {op : E → Tr E} {co : Op → ℕ} (h : ∀ x, (op x).2 = co) (s : Arn 𝕜 E) :
    (orthogonaliseT c op s).2 = co + orthoCount c.ortho s.iter • (Pi.single Op.ipB 1 + Pi.single Op.axpy 1) +
      (if c.ortho = .lanczos ∧ 0 < s.iter then Pi.single Op.axpy 1 else 0) := by
  unfold orthogonaliseT
  dsimp only
  rw [Tr.bind_snd, h]
  cases hc : c.ortho with
  | mgs =>
    simp [Ortho.reorthos, orthoPassesT, orthoPassT_cost, orthoCount]
  | dmgs =>
    simp [Ortho.reorthos, orthoPassesT, orthoPassT_cost, orthoCount, two_mul]
    ring
  | lanczos =>
    by_cases hk : 0 < s.iter
    · simp [Ortho.reorthos, orthoPassesT, orthoPassT_cost, orthoCount, hk]
      abel
    · simp [Ortho.reorthos, orthoPassesT, orthoPassT_cost, orthoCount, hk]

theorem arnAdvanceT_cost (c : ArnCfg 𝕜 E) {op : E → Tr E} {co : Op → ℕ} (h : ∀ x, (op x).2 = co) {s s' : Arn 𝕜 E}
    (hs : (arnAdvanceT c op s).1 = .ok s') :
    (arnAdvanceT c op s).2 = co + orthoCount c.ortho s.iter • (Pi.single Op.ipB 1 + Pi.single Op.axpy 1) +
      (if c.ortho = .lanczos ∧ 0 < s.iter then Pi.single Op.axpy 1 else 0) + Pi.single Op.M 1 + Pi.single Op.ipB 1 +
      (if s'.invariant then 0 else 2 • Pi.single Op.axpy 1) ∧ s.invariant = false ∧ s'.iter = s.iter + 1 := by
  revert hs
  unfold arnAdvanceT
  split
  · simp
  split
  · simp
  next hinv =>
  dsimp only
  simp only [Tr.bind_fst, Tr.bind_snd, tick_fst, tick_snd, orthogonaliseT_cost c h]
  generalize npNorm (c.ip _ _) = nn
  cases nn with
  | error e => simp
  | ok r =>
    dsimp only
    split
    · simp
    split
    · simp only [Tr.pure_fst, Except.ok.injEq, Tr.pure_snd]
      rintro rfl
      simp only [if_true]
      exact ⟨by abel, by simpa using hinv, trivial⟩
    · simp only [Tr.bind_fst, Tr.bind_snd, tick_fst, tick_snd, Tr.pure_fst, Except.ok.injEq, Tr.pure_snd]
      rintro rfl
      simp only [Bool.false_eq_true, if_false]
      exact ⟨by abel, by simpa using hinv, trivial⟩

theorem opT_cost (s : LS 𝕜 E) (x : E) : (s.opT x).2 = Pi.single Op.Mr 1 + (Pi.single Op.A 1 + Pi.single Op.Ml 1) := rfl

theorem resNormT_cost (s : LS 𝕜 E) (p : SolverArgs E) (x : E) : ((mkCfgT s p).resNorm x).2 =
    Pi.single Op.A 1 + (Pi.single Op.axpy 1 + (Pi.single Op.Ml 1 + (Pi.single Op.M 1 + Pi.single Op.ipB 1))) := by
  unfold mkCfgT
  dsimp only
  rw [Tr.bind_snd]
  have : (s.residualT (some x)).2 =
      Pi.single Op.A 1 + (Pi.single Op.axpy 1 + (Pi.single Op.Ml 1 + (Pi.single Op.M 1 + Pi.single Op.ipB 1))) := rfl
  rw [this]
  cases (s.residualT (some x)).1 <;> simp

theorem plainXkT_cost (Mr : E →ₗ[𝕜] E) (x0 yk : E) :
    (plainXkT Mr x0 yk).2 = Pi.single Op.Mr 1 + Pi.single Op.axpy 1 := rfl

theorem gmresXkT_cost (Mr : E →ₗ[𝕜] E) {s : GmresSt 𝕜 E} (hk : 0 < s.arn.iter) {x : E} (h : (gmresXkT Mr s).1 = .ok x) :
    (gmresXkT Mr s).2 = Pi.single Op.Mr 1 + Pi.single Op.axpy 1 := by
  revert h
  unfold gmresXkT
  dsimp only
  rw [if_pos hk]
  cases solveUpper (Matrix.of fun i j : Fin s.arn.iter => s.R i j) (fun i : Fin s.arn.iter => s.y i) with
  | error e => simp
  | ok yy =>
    intro _
    simp

/-- The number of operations in the first `k` Arnoldi steps. -/
def arnCount (ortho : Ortho) (k : ℕ) (inv : Bool) : Op → ℕ
  | .A | .M | .Ml | .Mr => k
  | .Minv => 0
  | .ipB => ∑ i ∈ Finset.range k, (orthoCount ortho i + 1)
  | .axpy => ∑ i ∈ Finset.range k, (orthoCount ortho i + 2) + (if ortho = .lanczos then k - 1 else 0) - (if inv then 2 else 0)

theorem arnCount_step (s : LS 𝕜 E) (hk : Hooks 𝕜 E) (maxiter : ℕ) (ortho : Ortho) {t t' : Arn 𝕜 E}
    (h : (arnAdvanceT (s.arnCfg hk maxiter ortho) s.opT t).1 = .ok t') (o : Op) :
    arnCount ortho t'.iter t'.invariant o =
      arnCount ortho t.iter t.invariant o + (arnAdvanceT (s.arnCfg hk maxiter ortho) s.opT t).2 o := by
  obtain ⟨h1, h2, h3⟩ := arnAdvanceT_cost _ (opT_cost s) h
  have ho : (s.arnCfg hk maxiter ortho).ortho = ortho := rfl
  rw [h1, h2, h3, ho]
  by_cases hc : ortho = .lanczos ∧ 0 < t.iter
  · obtain ⟨rfl, h0⟩ := hc
    cases o <;> cases t'.invariant <;> simp [arnCount, h0, orthoCount] <;> omega
  · rw [if_neg hc]
    have h0 : ortho = .lanczos → t.iter = 0 := fun hl => by
      by_contra h0
      exact hc ⟨hl, Nat.pos_of_ne_zero h0⟩
    by_cases hl : ortho = .lanczos
    · cases o <;> cases t'.invariant <;> simp [arnCount, hl, h0 hl]
    · cases o <;> cases t'.invariant <;> simp [arnCount, hl, Finset.sum_range_succ] <;> omega

/-- Operations of one explicit evaluation of the residual norm (linsys.py 457). -/
def resCost : Op → ℕ
  | .A | .M | .Ml | .ipB | .axpy => 1
  | .Mr | .Minv => 0

/-- Operations of one computation of an approximate solution (linsys.py 423-428, 941-949). -/
def xkCost : Op → ℕ
  | .Mr | .axpy => 1
  | .A | .M | .Ml | .ipB | .Minv => 0

/-- The number of operations in the first `k` CG steps. -/
def cgCount (store : Bool) (k : ℕ) : Op → ℕ
  | .A | .M | .Ml | .Mr => k
  | .Minv => 0
  | .ipB => 2 * k
  | .axpy => 3 * k - 1 + if store then 2 * k else 0

/-- The number of operations in the first `k` MINRES steps. -/
def minresCount (ortho : Ortho) (k : ℕ) (inv : Bool) : Op → ℕ
  | .axpy => arnCount ortho k inv .axpy + 4 * k
  | o => arnCount ortho k inv o

theorem resNormT_cost' (s : LS 𝕜 E) (p : SolverArgs E) (x : E) : ((mkCfgT s p).resNorm x).2 = resCost := by
  rw [resNormT_cost]
  funext o
  cases o <;> simp [resCost]

theorem xkCost_eq : Pi.single Op.Mr 1 + Pi.single Op.axpy 1 = xkCost := by
  funext o
  cases o <;> simp [xkCost]

theorem gmres_costLaw (s : LS 𝕜 E) (ortho : Ortho) (p : SolverArgs E) :
    CostLaw (mkCfgT s p) (gmresMethodT s ortho p.maxiter) (fun t => arnCount ortho t.arn.iter t.arn.invariant)
      xkCost resCost := by
  have key : ∀ t t' r, ((gmresMethodT s ortho p.maxiter).step t).1 = .ok (t', r) →
      (arnAdvanceT (s.arnCfg s.hooks p.maxiter ortho) s.opT t.arn).1 = .ok t'.arn := by
    intro t t' r h
    simp only [gmresMethodT, gmresStepT, Tr.bind_fst, Tr.pure_fst] at h
    unfold gmresStep at h
    dsimp only at h
    split at h
    · simp at h
    next a ha =>
    simp only [Except.ok.injEq, Prod.mk.injEq] at h
    obtain ⟨rfl, -⟩ := h
    exact ha
  refine ⟨fun t t' r h => ?_, fun _ _ => rfl, fun t t' r x h hx => ?_, fun _ _ => rfl, fun x r _ => resNormT_cost' _ _ _⟩
  · funext o
    have : ((gmresMethodT s ortho p.maxiter).step t).2 = (arnAdvanceT (s.arnCfg s.hooks p.maxiter ortho) s.opT t.arn).2 := by
      simp [gmresMethodT, gmresStepT]
    rw [this]
    exact arnCount_step s s.hooks p.maxiter ortho (key _ _ _ h) o
  · have h1 := (arnAdvanceT_cost _ (opT_cost s) (key _ _ _ h)).2.2
    rw [← xkCost_eq]
    exact gmresXkT_cost s.Mr (by omega) hx

theorem minres_costLaw (s : LS 𝕜 E) (ortho : Ortho) (p : SolverArgs E) :
    CostLaw (mkCfgT s p) (minresMethodT s ortho p.maxiter) (fun t => minresCount ortho t.arn.iter t.arn.invariant)
      xkCost resCost := by
  refine ⟨fun t t' r h => ?_, fun _ _ => rfl, fun t t' r x h hx => xkCost_eq, fun _ _ => rfl,
    fun x r _ => resNormT_cost' _ _ _⟩
  revert h
  simp only [minresMethodT]
  unfold minresStepT
  dsimp only
  rw [Tr.bind_fst, Tr.bind_snd]
  cases ha : (arnAdvanceT (s.arnCfg s.hooks p.maxiter ortho) s.opT t.arn).1 with
  | error e => simp
  | ok a =>
    dsimp only
    have h1 := (arnAdvanceT_cost _ (opT_cost s) ha).2.2
    generalize RCLike.re (a.H (if t.arn.iter = 0 then p.maxiter else t.arn.iter - 1) t.arn.iter) = h01
    split
    · simp
    · simp only [Tr.bind_fst, tick_fst, Tr.pure_fst, Except.ok.injEq, Prod.mk.injEq, Tr.bind_snd, tick_snd, Tr.pure_snd]
      rintro ⟨rfl, -⟩
      funext o
      have h2 := arnCount_step s s.hooks p.maxiter ortho ha o
      cases o <;> simp [minresCount, h1] at h2 ⊢ <;> omega

theorem cg_costLaw (s : LS 𝕜 E) (store : Bool) (p : SolverArgs E) :
    CostLaw (mkCfgT s p) (cgMethodT s store p.maxiter) (fun t => cgCount store t.k) xkCost resCost := by
  refine ⟨fun t t' r h => ?_, fun t r => ?_, fun t t' r x h hx => xkCost_eq, fun t r => ?_,
    fun x r _ => resNormT_cost' _ _ _⟩
  · revert h
    simp only [cgMethodT]
    unfold cgStepT
    dsimp only
    rw [Tr.bind_fst, Tr.bind_snd]
    have hd : ∀ q, (cgDirT t).1 = .ok q → (cgDirT t).2 = if 0 < t.k then Pi.single Op.axpy 1 else 0 := by
      intro q
      unfold cgDirT
      split
      · split
        · simp
        · simp
      · simp
    cases hq : (cgDirT t).1 with
    | error e => simp
    | ok q =>
      rw [hd q hq]
      dsimp only
      rw [Tr.bind_fst, Tr.bind_snd, opT_cost, tick_bind_fst, Tr.bind_snd, tick_snd, tick_fst]
      split
      · simp
      split
      · simp
      simp only [tick_bind_fst, Tr.bind_snd, tick_snd, tick_fst]
      split
      · simp
      · simp only [Tr.bind_fst, Tr.pure_fst, Except.ok.injEq, Prod.mk.injEq, Tr.bind_snd, Tr.pure_snd]
        rintro ⟨rfl, -⟩
        funext o
        cases store <;> by_cases hk : 0 < t.k <;> cases o <;>
          simp [cgCount, hk, cgColT] <;> omega
  · cases r <;> rfl
  · cases r <;> rfl

theorem mkLST_cost {a : LSArgs 𝕜 E} {s : LS 𝕜 E} (h : (mkLST a).1 = .ok s) :
    (mkLST a).2 = Pi.single Op.Ml 1 + (Pi.single Op.M 1 + Pi.single Op.ipB 1) := by
  revert h
  unfold mkLST
  dsimp only
  generalize (if a.selfAdjoint then true else a.normal.getD false) = nrml
  split
  · simp
  · simp [Tr.bind_snd]

theorem residualT_cost (s : LS 𝕜 E) (z : Option E) : (s.residualT z).2 = if z.isSome then resCost else 0 := by
  cases z with
  | none => rfl
  | some z =>
    funext o
    cases o <;> simp [LS.residualT, resCost, Tr.bind_snd]

theorem arnInitT_cost {v w : E} {r : ℝ} {s : Arn 𝕜 E} (h : (arnInitT (𝕜 := 𝕜) v w r).1 = .ok s) :
    s.iter = 0 ∧ (s.invariant = false → (arnInitT (𝕜 := 𝕜) v w r).2 = Pi.single Op.axpy 2) := by
  revert h
  unfold arnInitT
  split
  · simp only [Tr.bind_fst, Tr.pure_fst, Except.ok.injEq]
    rintro rfl
    refine ⟨rfl, fun _ => ?_⟩
    funext o
    cases o <;> simp [Tr.bind_snd]
  · simp only [Tr.pure_fst, Except.ok.injEq]
    rintro rfl
    simp

/-- The counts of a call in terms of: whether `x0` is given (`x`), iterations `n`, explicitly computed residuals `e`,
computed approximations `f`, and inner products and vector updates of the iterations. -/
structure Counts (c : Op → ℕ) (x n e f ips axpys : ℕ) : Prop where
  A : c .A = x + n + e
  M : c .M = 1 + x + n + e
  Ml : c .Ml = 1 + x + n + e
  Mr : c .Mr = n + f
  Minv : c .Minv = 0
  ipB : c .ipB = 1 + x + ips + e
  axpy : c .axpy = x + axpys + e + f

end Parts

section Final
variable {𝕜 E : Type*} [RCLike 𝕜] [AddCommGroup E] [Module 𝕜 E]

/-- Is an initial guess given? -/
def x0Count (p : SolverArgs E) : ℕ := if p.x0.isSome then 1 else 0

/-- How often residuals (`e`) and approximations (`f`) are computed in a call with `explicit_residual=False`
(linsys.py 447-493): once for each warning about an inconsistent updated residual, and for the last iterate -- unless
the call returns a last residual norm that is not below the tolerance. -/
structure Explicit {S : Type*} (o : Outcome (St ℝ E S)) (p : SolverArgs E) (st : St ℝ E S) (e f : ℕ) : Prop where
  yes : p.explicitResidual = true → e = st.resnorms.length - 1 ∧ f = st.resnorms.length - 1
  no : p.explicitResidual = false → st.warnings ≤ e ∧ e ≤ f ∧ f ≤ st.warnings + 1 ∧ (st.warnings = 0 → f = 1) ∧
    (e = st.warnings → o = .returned st ∧ ∃ r, st.resnorms.getLast? = some r ∧ p.tol < r)

theorem runT_explicit {S : Type*} {s : LS 𝕜 E} {p : SolverArgs E} {m : MethodT ℝ E S} {Φ : S → Op → ℕ}
    (h : CostLaw (mkCfgT s p) m Φ xkCost resCost) (he : p.exact = none) (x0 : E) (r0 : ℝ) (mkS : E → S) (st : St ℝ E S)
    (h0 : ∀ x, Φ (mkS x) = 0) (hst : (runT (mkCfgT s p) m x0 r0 mkS).1.Is st) (hn : 2 ≤ st.resnorms.length) :
    (∃ x, m.more (mkS x) = true) ∧ ∃ e f, Explicit (runT (mkCfgT s p) m x0 r0 mkS).1 p st e f ∧
      (runT (mkCfgT s p) m x0 r0 mkS).2 = Φ st.s + e • resCost + f • xkCost := by
  obtain ⟨h1, h2, h3⟩ := runT_count h (by simp [mkCfgT, he]) x0 r0 mkS st h0 hst hn
  refine ⟨h1, ?_⟩
  cases hx : p.explicitResidual with
  | true => exact ⟨_, _, ⟨fun _ => ⟨rfl, rfl⟩, by simp [hx]⟩, h3 hx⟩
  | false =>
    obtain ⟨d, d', h4, h5, h6, h7, h8⟩ := h2 hx
    refine ⟨_, _, ⟨by simp [hx], fun _ => ⟨by omega, by omega, by omega, fun h => ?_, fun h => ?_⟩⟩, h6⟩
    · have := h7 h
      omega
    · obtain ⟨h9, r, h10, h11⟩ := h8 (by omega)
      refine ⟨h9, r, h10, ?_⟩
      rcases h11 with h11 | h11
      · exact not_le.mp h11
      · exact h11

/-- C51 (CG): the operations of `LinearSystem(...)` and `Cg(...)` together, for any arguments without `exact_solution`,
any precondition and any arithmetic outcome with at least one iteration. -/
theorem C51_cg {a : LSArgs 𝕜 E} {store : Bool} {p : SolverArgs E} (hex : p.exact = none) {st : St ℝ E (CgSt 𝕜 E)}
    (hst : (cgT a store p).1.Is st) (hn : 2 ≤ st.resnorms.length) :
    ∃ e f u, Explicit (cgT a store p).1 p st e f ∧ (store = false → u = 0) ∧
      (store = true → u = 2 * (st.resnorms.length - 1) ∨ u = 2 * (st.resnorms.length - 1) + 2) ∧
      (store = true → ∀ s w v r0, mkLS a = .ok s → s.getResidualNorm p.x0 = .ok (w, v, r0) → 0 < r0 →
        u = 2 * (st.resnorms.length - 1) + 2) ∧
      Counts (cgT a store p).2 (x0Count p) (st.resnorms.length - 1) e f (2 * (st.resnorms.length - 1))
        (3 * (st.resnorms.length - 1) - 1 + u) := by
  have hrun := C51_cg_erase a store p
  have hlen : st.resnorms.length = st.s.k + 1 := by
    rw [hrun] at hst
    cases hs : mkLS a with
    | error e => rw [hs] at hst; rcases hst with h | h <;> simp at h
    | ok s =>
      rw [hs] at hst
      exact ((C22_cg s s.hooks store p).history st hst).1
  have hk : st.resnorms.length - 1 = st.s.k := by omega
  rw [hk]
  revert hst
  unfold cgT
  rw [Tr.bind_fst, Tr.bind_snd]
  cases hm : (mkLST a).1 with
  | error e => rintro (h | h) <;> simp at h
  | ok s =>
    dsimp only
    rw [Tr.bind_fst, Tr.bind_snd, mkLST_cost hm, residualT_cost]
    cases hr : (s.residualT p.x0).1 with
    | error e => rintro (h | h) <;> simp at h
    | ok q =>
      obtain ⟨MMlr0, Mlr0, r0⟩ := q
      dsimp only
      rw [Tr.bind_fst, Tr.bind_snd]
      have hi : (cgInitT (𝕜 := 𝕜) store MMlr0 Mlr0 r0).1 = cgInit MMlr0 Mlr0 r0 := by
        unfold cgInitT; split <;> rfl
      have hc : ∃ v, (cgInitT (𝕜 := 𝕜) store MMlr0 Mlr0 r0).2 = Pi.single Op.axpy v ∧ (store = false → v = 0) ∧
          (store = true → 0 < r0 → v = 2) ∧ (v = 0 ∨ v = 2) := by
        unfold cgInitT
        split
        next h =>
          refine ⟨2, ?_, ?_, fun _ _ => rfl, Or.inr rfl⟩
          · funext o
            cases o <;> simp [Tr.bind_snd]
          · intro h0
            simp [h0] at h
        next h => exact ⟨0, by simp, fun _ => rfl, fun h1 h2 => absurd (by simp [h1, h2]) h, Or.inl rfl⟩
      obtain ⟨v, hv, hv0, hv1, hv2⟩ := hc
      rw [hi, hv]
      intro hst
      obtain ⟨-, e, f, he, hcost⟩ := runT_explicit (cg_costLaw s store p) hex _ _ _ st
        (fun x => by funext o; cases o <;> simp [cgCount, cgInit]) hst hn
      refine ⟨e, f, v + if store then 2 * st.s.k else 0, he, fun h => by simp [h, hv0 h], fun h => ?_,
        fun h s' w' v' r' hs' hr' h0' => ?_, ?_⟩
      · rcases hv2 with rfl | rfl <;> simp [h] <;> omega
      · rw [mkLST_erase, hs'] at hm
        obtain rfl := Except.ok.inj hm
        rw [residualT_erase, hr'] at hr
        simp only [Except.ok.injEq, Prod.mk.injEq] at hr
        obtain ⟨-, -, rfl⟩ := hr
        rw [hv1 h h0', if_pos h]
        omega
      rw [hcost]
      constructor <;> cases hx : p.x0.isSome <;> simp [x0Count, hx, cgCount, resCost, xkCost] <;> omega

theorem gmres_length {a : LSArgs 𝕜 E} {ortho : Ortho} {p : SolverArgs E} {st : St ℝ E (GmresSt 𝕜 E)}
    (hst : (gmresT a ortho p).1.Is st) : st.resnorms.length = st.s.arn.iter + 1 := by
  rw [C51_gmres_erase] at hst
  cases hs : mkLS a with
  | error e => rw [hs] at hst; rcases hst with h | h <;> simp at h
  | ok s =>
    rw [hs] at hst
    exact ((C22_gmres s s.hooks ortho p).history st hst).1

theorem minres_length {a : LSArgs 𝕜 E} {ortho : Ortho} {p : SolverArgs E} {st : St ℝ E (MinresSt 𝕜 E)}
    (hst : (minresT a ortho p).1.Is st) : st.resnorms.length = st.s.arn.iter + 1 := by
  rw [C51_minres_erase] at hst
  cases hs : mkLS a with
  | error e => rw [hs] at hst; rcases hst with h | h <;> simp at h
  | ok s =>
    rw [hs] at hst
    exact ((C22_minres s s.hooks ortho p).history st hst).1

/-- C51 (GMRES): as `C51_cg`; `arnCount` counts the inner products and vector updates of the Arnoldi steps. -/
theorem C51_gmres {a : LSArgs 𝕜 E} {ortho : Ortho} {p : SolverArgs E} (hex : p.exact = none)
    {st : St ℝ E (GmresSt 𝕜 E)} (hst : (gmresT a ortho p).1.Is st) (hn : 2 ≤ st.resnorms.length) :
    ∃ e f, Explicit (gmresT a ortho p).1 p st e f ∧
      Counts (gmresT a ortho p).2 (x0Count p) (st.resnorms.length - 1) e f
        (arnCount ortho (st.resnorms.length - 1) st.s.arn.invariant .ipB)
        (arnCount ortho (st.resnorms.length - 1) st.s.arn.invariant .axpy + 2) := by
  have hlen := gmres_length hst
  have hk : st.resnorms.length - 1 = st.s.arn.iter := by omega
  rw [hk]
  revert hst
  unfold gmresT
  rw [Tr.bind_fst, Tr.bind_snd]
  cases hm : (mkLST a).1 with
  | error e => rintro (h | h) <;> simp at h
  | ok s =>
    dsimp only
    rw [Tr.bind_fst, Tr.bind_snd, mkLST_cost hm, residualT_cost]
    cases hr : (s.residualT p.x0).1 with
    | error e => rintro (h | h) <;> simp at h
    | ok q =>
      obtain ⟨MMlr0, Mlr0, r0⟩ := q
      dsimp only
      rw [Tr.bind_fst, Tr.bind_snd]
      cases ha : (arnInitT (𝕜 := 𝕜) Mlr0 MMlr0 r0).1 with
      | error e => rintro (h | h) <;> simp at h
      | ok arn =>
        obtain ⟨h0, hc⟩ := arnInitT_cost ha
        dsimp only
        intro hst
        obtain ⟨⟨x, hmore⟩, e, f, he, hcost⟩ := runT_explicit (gmres_costLaw s ortho p) hex _ _ _ st
          (fun x => by funext o; cases o <;> simp [arnCount, gmresInit, h0]) hst hn
        have hinv : arn.invariant = false := by
          simp only [gmresMethodT, gmresInit, Bool.and_eq_true, Bool.not_eq_true'] at hmore
          exact hmore.2
        refine ⟨e, f, he, ?_⟩
        rw [hcost, hc hinv]
        constructor <;> cases hx : p.x0.isSome <;> simp [x0Count, hx, arnCount, resCost, xkCost] <;> omega

/-- C51 (MINRES): as `C51_gmres` with four more vector updates per step. -/
theorem C51_minres {a : LSArgs 𝕜 E} {ortho : Ortho} {p : SolverArgs E} (hex : p.exact = none)
    {st : St ℝ E (MinresSt 𝕜 E)} (hst : (minresT a ortho p).1.Is st) (hn : 2 ≤ st.resnorms.length) :
    ∃ e f, Explicit (minresT a ortho p).1 p st e f ∧
      Counts (minresT a ortho p).2 (x0Count p) (st.resnorms.length - 1) e f
        (arnCount ortho (st.resnorms.length - 1) st.s.arn.invariant .ipB)
        (arnCount ortho (st.resnorms.length - 1) st.s.arn.invariant .axpy + 4 * (st.resnorms.length - 1) + 2) := by
  have hlen := minres_length hst
  have hk : st.resnorms.length - 1 = st.s.arn.iter := by omega
  rw [hk]
  revert hst
  unfold minresT
  rw [Tr.bind_fst, Tr.bind_snd]
  cases hm : (mkLST a).1 with
  | error e => rintro (h | h) <;> simp at h
  | ok s =>
    dsimp only
    rw [Tr.bind_fst, Tr.bind_snd, mkLST_cost hm, residualT_cost]
    cases hr : (s.residualT p.x0).1 with
    | error e => rintro (h | h) <;> simp at h
    | ok q =>
      obtain ⟨MMlr0, Mlr0, r0⟩ := q
      dsimp only
      rw [Tr.bind_fst, Tr.bind_snd]
      cases ha : (arnInitT (𝕜 := 𝕜) Mlr0 MMlr0 r0).1 with
      | error e => rintro (h | h) <;> simp at h
      | ok arn =>
        obtain ⟨h0, hc⟩ := arnInitT_cost ha
        dsimp only
        intro hst
        obtain ⟨⟨x, hmore⟩, e, f, he, hcost⟩ := runT_explicit (minres_costLaw s ortho p) hex _ _ _ st
          (fun x => by funext o; cases o <;> simp [minresCount, arnCount, minresInit, h0]) hst hn
        have hinv : arn.invariant = false := by
          simp only [minresMethodT, minresInit, Bool.and_eq_true, Bool.not_eq_true'] at hmore
          exact hmore.2
        refine ⟨e, f, he, ?_⟩
        rw [hcost, hc hinv]
        constructor <;> cases hx : p.x0.isSome <;> simp [x0Count, hx, minresCount, arnCount, resCost, xkCost] <;> omega

/-! ### Comparison with the published tables -/

/-- The entry of the dictionary returned by `operations(n)`. -/
def published (kind : SolverKind) (n : ℕ) (o : Op) : ℚ := opCount (operations kind (n : ℚ)) o

theorem arnCount_lanczos (n : ℕ) (inv : Bool) (hn : 1 ≤ n) : arnCount .lanczos n inv .ipB = 2 * n ∧
    arnCount .lanczos n inv .axpy = 4 * n - 1 - (if inv then 2 else 0) := by
  simp [arnCount, orthoCount]
  omega

theorem sum_id_succ (n : ℕ) : ∑ i ∈ Finset.range n, (i + 1) = n * (n + 1) / 2 := by
  have := Finset.sum_range_id_mul_two (n + 1)
  rw [Finset.sum_range_succ'] at this
  simp only [Nat.add_sub_cancel, add_zero] at this
  rw [mul_comm n]
  omega

theorem arnCount_mgs (n : ℕ) (inv : Bool) : arnCount .mgs n inv .ipB = n + n * (n + 1) / 2 ∧
    arnCount .mgs n inv .axpy = 2 * n + n * (n + 1) / 2 - (if inv then 2 else 0) := by
  have h1 : ∀ c, ∑ i ∈ Finset.range n, (i + 1 + c) = n * c + n * (n + 1) / 2 := by
    intro c
    rw [Finset.sum_add_distrib, sum_id_succ]
    simp [add_comm]
  simp only [arnCount, orthoCount, h1]
  simp [mul_comm]

theorem arnCount_dmgs (n : ℕ) (inv : Bool) : arnCount .dmgs n inv .ipB = n + n * (n + 1) ∧
    arnCount .dmgs n inv .axpy = 2 * n + n * (n + 1) - (if inv then 2 else 0) := by
  have h0 : 2 * (n * (n + 1) / 2) = n * (n + 1) := Nat.mul_div_cancel' (Nat.even_mul_succ_self n).two_dvd
  have h1 : ∀ c, ∑ i ∈ Finset.range n, (2 * (i + 1) + c) = n * c + n * (n + 1) := by
    intro c
    rw [Finset.sum_add_distrib, ← Finset.mul_sum, sum_id_succ, h0]
    simp [add_comm]
  simp only [arnCount, orthoCount, h1]
  simp [mul_comm]

theorem cast_half (n : ℕ) : ((n * (n + 1) / 2 : ℕ) : ℚ) = (n : ℚ) * (n + 1) / 2 := by
  rw [Nat.cast_div (Nat.even_mul_succ_self n).two_dvd (by norm_num)]
  push_cast
  rfl

/-- C51 (CG): for a Hermitian positive definite system in exact arithmetic `operations(n)` counts the applications of
`A`, `M`, `Ml`, `Mr` and the inner products correctly if `x0` is not given.  An initial guess costs one more application
of `A`, `M` and `Ml` and one more inner product.  The number of vector updates is `3n+1`, not `2n+2`; with
`store_arnoldi` there are another `2n+2`. -/
theorem C51_cg_published {a : LSArgs 𝕜 E} (h : SpdHyp a) {store : Bool} {p : SolverArgs E} (hex : p.exact = none)
    (hexp : p.explicitResidual = false) (htol : 0 ≤ p.tol) (hb : a.Ml a.b ≠ 0) {st : St ℝ E (CgSt 𝕜 E)}
    (hst : (cgT a store p).1.Is st) {n : ℕ} (hn1 : 1 ≤ n) (hn : st.resnorms.length = n + 1) :
    ((cgT a store p).2 .A : ℚ) = published .cg n .A + x0Count p ∧
    ((cgT a store p).2 .M : ℚ) = published .cg n .M + x0Count p ∧
    ((cgT a store p).2 .Ml : ℚ) = published .cg n .Ml + x0Count p ∧
    ((cgT a store p).2 .Mr : ℚ) = published .cg n .Mr ∧
    ((cgT a store p).2 .ipB : ℚ) = published .cg n .ipB + x0Count p ∧
    ((cgT a store p).2 .axpy : ℚ) = published .cg n .axpy + x0Count p + (n - 1) + if store then 2 * n + 2 else 0 := by
  have hL : st.resnorms.length - 1 = n := by omega
  obtain ⟨e, f, u, he, hu0, -, hu1, hc⟩ := C51_cg hex hst (by omega)
  rw [hL] at hc hu1
  obtain ⟨s, hs, ok, -⟩ := mkLS_ok h.ls
  have hrun := C51_cg_erase a store p
  rw [hs] at hrun
  dsimp only at hrun
  have hst' := hst
  rw [hrun] at hst'
  obtain ⟨h31, -, -, -, hw, -⟩ := C31_residuals h hs store p htol hb hst'
  have hcall := C22_cg s s.hooks store p
  obtain ⟨h1, h2, h3, h4, h5⟩ := he.no hexp
  have hf := h4 hw
  have he1 : e = 1 := by
    by_contra hne
    obtain ⟨h6, r, h7, h8⟩ := h5 (by omega)
    rw [hrun] at h6
    have hmax : st.resnorms.length ≤ p.maxiter + 1 := (hcall.history st hst').2.1
    obtain ⟨-, r', h9, h10⟩ := hcall.returned (show 1 ≤ p.maxiter by omega) st h6
    rw [h7] at h9
    obtain rfl := Option.some.inj h9
    rcases h10 with h10 | h10
    · exact h10 h8
    · simp at h10
  have hu : u = if store then 2 * n + 2 else 0 := by
    cases hstore : store with
    | false => simpa using hu0 hstore
    | true =>
      simp only [if_true]
      refine hu1 hstore s _ _ _ hs (ok.initRes p.x0) ?_
      have h6 := h31 0 (by omega)
      have h7 := (C30_optimal h hs store p htol hb hst').2 0 (by omega) |>.1
      have hy0 : st.s.ys 0 = 0 := by
        unfold kry at h7
        rw [krylov_eq_spanTo, spanTo_zero] at h7
        simpa using h7
      rw [hy0, map_zero, add_zero] at h6
      have h8 : p.tol < st.resnorms[0] :=
        hcall.earlier st hst' 0 _ (by omega) (List.getElem?_eq_getElem (by omega))
      have hr0 : 0 < resid a 0 := by
        refine lt_of_le_of_ne (nrm_nonneg _ _) fun h0 => hb ?_
        have := h.ls.prec.nrm_eq_zero.mp h0.symm
        simpa using this
      have := h6.1
      change 0 < resid a (p.x0.getD 0)
      rw [← this]
      exact mul_pos (lt_of_le_of_lt htol h8) hr0
  rw [he1, hf, hu] at hc
  rw [hc.A, hc.M, hc.Ml, hc.Mr, hc.ipB, hc.axpy]
  have h3n : ((3 * n - 1 : ℕ) : ℚ) = 3 * n - 1 := by
    rw [Nat.cast_sub (by omega)]
    push_cast
    rfl
  refine ⟨?_, ?_, ?_, ?_, ?_, ?_⟩
  · simp [published, operations, opCount]; ring
  · simp [published, operations, opCount]; ring
  · simp [published, operations, opCount]; ring
  · simp [published, operations, opCount]; ring
  · simp [published, operations, opCount]; ring
  · cases store <;> simp [published, operations, opCount, h3n] <;> ring

/-- C51 (MINRES with its default `ortho="lanczos"`): as `C51_cg_published`; the number of vector updates is `8n+3`, or
`8n+1` if the last step found an invariant subspace, where `4+8n` is published. -/
theorem C51_minres_published {a : LSArgs 𝕜 E} (h : MinresHyp a) {p : SolverArgs E} (hex : p.exact = none)
    (hexp : p.explicitResidual = false) (htol : 0 ≤ p.tol) (hb : a.Ml a.b ≠ 0) {st : St ℝ E (MinresSt 𝕜 E)}
    (hst : (minresT a .lanczos p).1.Is st) {n : ℕ} (hn1 : 1 ≤ n) (hn : st.resnorms.length = n + 1)
    (hconv : (minresT a .lanczos p).1 = .returned st → ∃ r, st.resnorms.getLast? = some r ∧ r ≤ p.tol) :
    ((minresT a .lanczos p).2 .A : ℚ) = published .minres n .A + x0Count p ∧
    ((minresT a .lanczos p).2 .M : ℚ) = published .minres n .M + x0Count p ∧
    ((minresT a .lanczos p).2 .Ml : ℚ) = published .minres n .Ml + x0Count p ∧
    ((minresT a .lanczos p).2 .Mr : ℚ) = published .minres n .Mr ∧
    ((minresT a .lanczos p).2 .ipB : ℚ) = published .minres n .ipB + x0Count p ∧
    ((minresT a .lanczos p).2 .axpy : ℚ) =
      published .minres n .axpy + x0Count p - 1 - if st.s.arn.invariant then 2 else 0 := by
  have hL : st.resnorms.length - 1 = n := by omega
  obtain ⟨e, f, he, hc⟩ := C51_minres hex hst (by omega)
  rw [hL] at hc
  obtain ⟨s, hs, ok, -⟩ := mkLS_ok h.ls
  have hrun := C51_minres_erase a .lanczos p
  rw [hs] at hrun
  dsimp only at hrun
  have hst' := hst
  rw [hrun] at hst'
  obtain ⟨-, -, -, hw, -⟩ := C29_optimal h hs .lanczos p htol hb hst'
  obtain ⟨h1, h2, h3, h4, h5⟩ := he.no hexp
  have hf := h4 hw
  have he1 : e = 1 := by
    by_contra hne
    obtain ⟨h6, r, h7, h8⟩ := h5 (by omega)
    obtain ⟨r', h9, h10⟩ := hconv h6
    rw [h7] at h9
    obtain rfl := Option.some.inj h9
    exact absurd h10 (not_le.mpr h8)
  rw [he1, hf] at hc
  rw [(arnCount_lanczos n _ hn1).1, (arnCount_lanczos n _ hn1).2] at hc
  rw [hc.A, hc.M, hc.Ml, hc.Mr, hc.ipB, hc.axpy]
  have h4n : ∀ i : Bool, ((4 * n - 1 - (if i then 2 else 0) : ℕ) : ℚ) = 4 * n - 1 - if i then 2 else 0 := by
    intro i
    rw [Nat.cast_sub (by cases i <;> simp; omega), Nat.cast_sub (by omega)]
    cases i <;> simp
  refine ⟨?_, ?_, ?_, ?_, ?_, ?_⟩
  · simp [published, operations, opCount]; ring
  · simp [published, operations, opCount]; ring
  · simp [published, operations, opCount]; ring
  · simp [published, operations, opCount]; ring
  · simp [published, operations, opCount]; ring
  · push_cast [h4n]
    simp [published, operations, opCount]; ring

/-- C51 (GMRES with its default `ortho="mgs"`): as `C51_cg_published`; the published number of vector updates is right
unless the last step found an invariant subspace. -/
theorem C51_gmres_published {a : LSArgs 𝕜 E} (h : GmresHyp a .mgs) {p : SolverArgs E} (hex : p.exact = none)
    (hexp : p.explicitResidual = false) (htol : 0 ≤ p.tol) (hb : a.Ml a.b ≠ 0) {st : St ℝ E (GmresSt 𝕜 E)}
    (hst : (gmresT a .mgs p).1.Is st) {n : ℕ} (hn1 : 1 ≤ n) (hn : st.resnorms.length = n + 1)
    (hconv : (gmresT a .mgs p).1 = .returned st → ∃ r, st.resnorms.getLast? = some r ∧ r ≤ p.tol) :
    ((gmresT a .mgs p).2 .A : ℚ) = published .gmres n .A + x0Count p ∧
    ((gmresT a .mgs p).2 .M : ℚ) = published .gmres n .M + x0Count p ∧
    ((gmresT a .mgs p).2 .Ml : ℚ) = published .gmres n .Ml + x0Count p ∧
    ((gmresT a .mgs p).2 .Mr : ℚ) = published .gmres n .Mr ∧
    ((gmresT a .mgs p).2 .ipB : ℚ) = published .gmres n .ipB + x0Count p ∧
    ((gmresT a .mgs p).2 .axpy : ℚ) =
      published .gmres n .axpy + x0Count p - if st.s.arn.invariant then 2 else 0 := by
  have hL : st.resnorms.length - 1 = n := by omega
  obtain ⟨e, f, he, hc⟩ := C51_gmres hex hst (by omega)
  rw [hL] at hc
  obtain ⟨s, hs, ok, -⟩ := mkLS_ok h.ls
  have hrun := C51_gmres_erase a .mgs p
  rw [hs] at hrun
  dsimp only at hrun
  have hst' := hst
  rw [hrun] at hst'
  obtain ⟨-, -, -, hw, -⟩ := C26_optimal h hs p htol hb hst'
  obtain ⟨h1, h2, h3, h4, h5⟩ := he.no hexp
  have hf := h4 hw
  have he1 : e = 1 := by
    by_contra hne
    obtain ⟨h6, r, h7, h8⟩ := h5 (by omega)
    obtain ⟨r', h9, h10⟩ := hconv h6
    rw [h7] at h9
    obtain rfl := Option.some.inj h9
    exact absurd h10 (not_le.mpr h8)
  rw [he1, hf] at hc
  rw [(arnCount_mgs n _).1, (arnCount_mgs n _).2] at hc
  rw [hc.A, hc.M, hc.Ml, hc.Mr, hc.ipB, hc.axpy]
  have hh : ∀ i : Bool, ((2 * n + n * (n + 1) / 2 - (if i then 2 else 0) : ℕ) : ℚ) =
      2 * n + n * (n + 1) / 2 - if i then 2 else 0 := by
    intro i
    rw [Nat.cast_sub (by cases i <;> simp <;> omega), Nat.cast_add, cast_half]
    cases i <;> simp
  refine ⟨?_, ?_, ?_, ?_, ?_, ?_⟩
  · simp [published, operations, opCount]; ring
  · simp [published, operations, opCount]; ring
  · simp [published, operations, opCount]; ring
  · simp [published, operations, opCount]; ring
  · rw [Nat.cast_add, Nat.cast_add, Nat.cast_add, Nat.cast_add n, cast_half]
    simp [published, operations, opCount]; ring
  · rw [Nat.cast_add, Nat.cast_add, Nat.cast_add, Nat.cast_add, hh]
    simp [published, operations, opCount]; ring

/-- C51: with `ortho="dmgs"` GMRES computes `n(n+1)/2` more inner products than `operations(n)` says. -/
theorem C51_gmres_dmgs {a : LSArgs 𝕜 E} (h : GmresHyp a .dmgs) {p : SolverArgs E} (hex : p.exact = none)
    (hexp : p.explicitResidual = false) (htol : 0 ≤ p.tol) (hb : a.Ml a.b ≠ 0) {st : St ℝ E (GmresSt 𝕜 E)}
    (hst : (gmresT a .dmgs p).1.Is st) {n : ℕ} (hn1 : 1 ≤ n) (hn : st.resnorms.length = n + 1)
    (hconv : (gmresT a .dmgs p).1 = .returned st → ∃ r, st.resnorms.getLast? = some r ∧ r ≤ p.tol) :
    ((gmresT a .dmgs p).2 .ipB : ℚ) = published .gmres n .ipB + x0Count p + (n : ℚ) * (n + 1) / 2 := by
  have hL : st.resnorms.length - 1 = n := by omega
  obtain ⟨e, f, he, hc⟩ := C51_gmres hex hst (by omega)
  rw [hL] at hc
  obtain ⟨s, hs, ok, -⟩ := mkLS_ok h.ls
  have hrun := C51_gmres_erase a .dmgs p
  rw [hs] at hrun
  dsimp only at hrun
  have hst' := hst
  rw [hrun] at hst'
  obtain ⟨-, -, -, hw, -⟩ := C26_optimal h hs p htol hb hst'
  obtain ⟨h1, h2, h3, h4, h5⟩ := he.no hexp
  have hf := h4 hw
  have he1 : e = 1 := by
    by_contra hne
    obtain ⟨h6, r, h7, h8⟩ := h5 (by omega)
    obtain ⟨r', h9, h10⟩ := hconv h6
    rw [h7] at h9
    obtain rfl := Option.some.inj h9
    exact absurd h10 (not_le.mpr h8)
  rw [he1, hf] at hc
  rw [(arnCount_dmgs n _).1, (arnCount_dmgs n _).2] at hc
  rw [hc.ipB]
  simp [published, operations, opCount]; ring

end Final

/-! ### Non-vacuity -/

/-- `A = diag(1, 2)`, `b = (1, 1)` (`exSpd`): one or two CG iterations; the number of vector updates is not the published
one. -/
example : ∃ st n, (cgT exSpd false ⟨none, 0, 2, false, none⟩).1.Is st ∧ 1 ≤ n ∧ st.resnorms.length = n + 1 ∧
    ((cgT exSpd false ⟨none, 0, 2, false, none⟩).2 .A : ℚ) = 1 + n ∧
    ((cgT exSpd false ⟨none, 0, 2, false, none⟩).2 .axpy : ℚ) = 3 * n + 1 := by
  obtain ⟨s, hs, ok, -⟩ := mkLS_ok exSpd_hyp.ls
  have hb : exSpd.Ml exSpd.b ≠ 0 := by simp [exSpd]
  have hfin : Module.finrank ℝ (ℝ × ℝ) = 2 := by simp
  obtain ⟨st, hst, ⟨r, hr, hr'⟩, hle⟩ := C32_terminates exSpd_hyp hs false ⟨none, 0, 2, false, none⟩ le_rfl hb hfin.le
  have hlen : 1 < st.resnorms.length := by
    by_contra hcon
    have h1 : st.resnorms.length = 1 := by
      have := List.length_pos_of_ne_nil (l := st.resnorms) (by intro h0; simp [h0] at hr)
      omega
    obtain ⟨h31, -⟩ := C31_residuals exSpd_hyp hs false ⟨none, 0, 2, false, none⟩ le_rfl hb (Or.inl hst)
    have h2 := (h31 0 (by omega)).1
    have hmem := (C30_optimal exSpd_hyp hs false ⟨none, 0, 2, false, none⟩ le_rfl hb (Or.inl hst)).2 0 (by omega) |>.1
    have hy0 : st.s.ys 0 = 0 := by
      unfold kry at hmem
      rw [krylov_eq_spanTo, spanTo_zero] at hmem
      simpa using hmem
    rw [List.getLast?_eq_getElem?, h1, List.getElem?_eq_getElem (by omega)] at hr
    rw [hy0, Option.some.inj hr] at h2
    have hres0 : 0 < resid exSpd 0 := by
      refine lt_of_le_of_ne (nrm_nonneg _ _) fun h0 => hb ?_
      have := exSpd_hyp.ls.prec.nrm_eq_zero.mp h0.symm
      simpa using this
    have hx : (⟨none, 0, 2, false, none⟩ : SolverArgs (ℝ × ℝ)).x0.getD 0 + exSpd.Mr 0 = 0 := by simp
    rw [hx] at h2
    change r ≤ 0 at hr'
    nlinarith
  have hrun : (cgT exSpd false ⟨none, 0, 2, false, none⟩).1.Is st := by
    rw [C51_cg_erase, hs]
    exact Or.inl hst
  refine ⟨st, st.resnorms.length - 1, hrun, by omega, by omega, ?_⟩
  obtain ⟨h1, -, -, -, -, h6⟩ := C51_cg_published exSpd_hyp rfl rfl le_rfl hb hrun (n := st.resnorms.length - 1) (by omega)
    (by omega)
  rw [h1, h6]
  constructor
  · simp [published, operations, opCount, x0Count]
  · simp [published, operations, opCount, x0Count]
    ring

/-- `A = 2I`, `b = (1, 0)` -/
noncomputable def exTwo : LSArgs ℝ (ℝ × ℝ) :=
  ⟨(2 : ℝ) • LinearMap.id, (1, 0), LinearMap.id, LinearMap.id, LinearMap.id, exCfg.ip, none, true, false⟩

theorem exTwo_minres : MinresHyp exTwo := ⟨⟨exCfg_hyp.ls.inner, exCfg_hyp.ls.inner⟩, fun x y => by simp [exTwo, exCfg]; ring⟩

/-- GMRES converges for this system after at least one iteration. -/
theorem exTwo_run (ortho : Ortho) : ∃ st, (gmresT exTwo ortho ⟨none, 0, 2, false, none⟩).1 = .returned st ∧ 2 ≤ st.resnorms.length ∧
    ∃ r, st.resnorms.getLast? = some r ∧ r ≤ 0 := by
  have exTwo_hyp := exTwo_minres.gmres ortho
  obtain ⟨s, hs, ok, -⟩ := mkLS_ok exTwo_hyp.ls
  have hb : exTwo.Ml exTwo.b ≠ 0 := by simp [exTwo]
  have hfin : Module.finrank ℝ (ℝ × ℝ) = 2 := by simp
  obtain ⟨st, hst, hor⟩ := C28_terminates exTwo_hyp hs ⟨none, 0, 2, false, none⟩ le_rfl hb
    (fun x hx => by
      have h1 : (2 : ℝ) • x = 0 := hx
      simpa using h1) hfin.le
  obtain ⟨x, -, hmin, -, hlen, hle⟩ := C26_optimal exTwo_hyp hs ⟨none, 0, 2, false, none⟩ le_rfl hb (Or.inl hst)
  have hres0 : resid exTwo 0 = 1 := by simp [resid, nrm, nsq, exTwo, exCfg]
  have h2 : 2 ≤ st.resnorms.length := by
    rcases hor with ⟨r, hr, hr'⟩ | ⟨-, k, hk, -⟩
    · by_contra hcon
      have hl1 : st.resnorms.length = 1 := by omega
      have h1 := hmin.attains r hr
      have h2 := hmin.mem
      rw [hl1] at h2
      obtain ⟨z, hz, hxz⟩ := h2
      rw [krylov_eq_spanTo, spanTo_zero] at hz
      obtain rfl : z = 0 := by simpa using hz
      simp only [map_zero, add_zero, Option.getD_none] at hxz
      rw [hxz, hres0, mul_one] at h1
      rw [← h1] at hr'
      norm_num at hr'
    · omega
  refine ⟨st, by rw [C51_gmres_erase, hs]; exact hst, h2, st.resnorms[st.resnorms.length - 1], ?_, ?_⟩
  · rw [List.getLast?_eq_getElem?, List.getElem?_eq_getElem (by omega)]
  · have hmem : ((1 / 2 : ℝ), (0 : ℝ)) ∈ searchSpace exTwo 0 1 := by
      refine ⟨((1 / 2 : ℝ), (0 : ℝ)), ?_, by simp [exTwo]⟩
      rw [krylov_eq_spanTo]
      have := Submodule.smul_mem _ (1 / 2 : ℝ) (mem_spanTo (𝕜 := ℝ)
        (V := fun i => ((exTwo.M ∘ₗ exTwo.Ml ∘ₗ exTwo.A ∘ₗ exTwo.Mr) ^ i)
          (exTwo.M (exTwo.Ml (exTwo.b - exTwo.A 0)))) (show 0 < 1 by norm_num))
      simpa [exTwo] using this
    have h3 := (hmin.minima (st.resnorms.length - 1) (by omega)).2
      (Set.mem_image_of_mem _ (searchSpace_mono (show 1 ≤ st.resnorms.length - 1 by omega) hmem))
    have h4 : resid exTwo ((1 / 2 : ℝ), (0 : ℝ)) = 0 := by simp [resid, nrm, nsq, exTwo, exCfg]
    rw [h4, hres0, mul_one] at h3
    exact h3

/-- Non-vacuity of `C51_gmres_published`. -/
example : ∃ st n, (gmresT exTwo .mgs ⟨none, 0, 2, false, none⟩).1 = .returned st ∧ 1 ≤ n ∧ st.resnorms.length = n + 1 ∧
    ((gmresT exTwo .mgs ⟨none, 0, 2, false, none⟩).2 .A : ℚ) = published .gmres n .A := by
  obtain ⟨st, hst, h2, r, hr, hr0⟩ := exTwo_run .mgs
  refine ⟨st, st.resnorms.length - 1, hst, by omega, by omega, ?_⟩
  rw [(C51_gmres_published (exTwo_minres.gmres .mgs) rfl rfl le_rfl (by simp [exTwo]) (Or.inl hst) (n := st.resnorms.length - 1) (by omega) (by omega)
    fun _ => ⟨r, hr, hr0⟩).1]
  simp [x0Count]

/-- Non-vacuity of `C51_gmres_dmgs`: more inner products than published. -/
example : ∃ st n, (gmresT exTwo .dmgs ⟨none, 0, 2, false, none⟩).1 = .returned st ∧ 1 ≤ n ∧ st.resnorms.length = n + 1 ∧
    published .gmres n .ipB < ((gmresT exTwo .dmgs ⟨none, 0, 2, false, none⟩).2 .ipB : ℚ) := by
  obtain ⟨st, hst, h2, r, hr, hr0⟩ := exTwo_run .dmgs
  refine ⟨st, st.resnorms.length - 1, hst, by omega, by omega, ?_⟩
  rw [C51_gmres_dmgs (exTwo_minres.gmres .dmgs) rfl rfl le_rfl (by simp [exTwo]) (Or.inl hst) (n := st.resnorms.length - 1) (by omega) (by omega)
    fun _ => ⟨r, hr, hr0⟩]
  have : (1 : ℚ) ≤ (st.resnorms.length - 1 : ℕ) := by exact_mod_cast (by omega : 1 ≤ st.resnorms.length - 1)
  simp only [x0Count]
  norm_num
  positivity

/-- Non-vacuity of `C51_minres_published`. -/
example : ∃ st n, (minresT exTwo .lanczos ⟨none, 0, 2, false, none⟩).1 = .returned st ∧ 1 ≤ n ∧ st.resnorms.length = n + 1 ∧
    ((minresT exTwo .lanczos ⟨none, 0, 2, false, none⟩).2 .A : ℚ) = published .minres n .A := by
  obtain ⟨st, hst, h2, r, hr, hr0⟩ := exTwo_run .lanczos
  obtain ⟨s, hs, ok, -⟩ := mkLS_ok exTwo_minres.ls
  rw [C51_gmres_erase, hs] at hst
  obtain ⟨b, hb, -⟩ := C29_gmres_eq exTwo_minres hs .lanczos ⟨none, 0, 2, false, none⟩ (fun x hx => by
      have h1 : (2 : ℝ) • x = 0 := hx
      simpa using h1) hst
  have hrun : (minresT exTwo .lanczos ⟨none, 0, 2, false, none⟩).1 = .returned (st.setS b) := by
    rw [C51_minres_erase, hs]
    exact hb
  refine ⟨st.setS b, st.resnorms.length - 1, hrun, by omega, ?_, ?_⟩
  · change st.resnorms.length = _
    omega
  · rw [(C51_minres_published exTwo_minres rfl rfl le_rfl (by simp [exTwo]) (Or.inl hrun) (n := st.resnorms.length - 1) (by omega)
      (by change st.resnorms.length = _; omega) fun _ => ⟨r, hr, hr0⟩).1]
    simp [x0Count]

end Krypy
