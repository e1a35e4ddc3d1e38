import Verif.Model.DeflCounts
import Verif.Props.Counts
import Verif.Props.DeflSpace

/-!
# Property C89: operation counts of the deflated solvers and `estimate_time`
-/

set_option linter.unusedSectionVars false

namespace Krypy
open Matrix

@[simp] theorem tickN_fst {α : Type*} (o : Op) (n : ℕ) (x : α) : (tickN o n x).1 = x := rfl
@[simp] theorem tickN_snd {α : Type*} (o : Op) (n : ℕ) (x : α) : (tickN o n x).2 = Pi.single o n := rfl

section Erase
variable {𝕜 E : Type*} [RCLike 𝕜] [AddCommGroup E] [Module 𝕜 E] {k : ℕ}

/-! ## Forgetting the counters -/

theorem qrPassT_erase {ipc : E → E → Tr 𝕜} {ip : E → E → 𝕜} (h : ∀ x y, (ipc x y).1 = ip x y) (Q : ℕ → E) (j : ℕ) (s : E × (ℕ → 𝕜)) :
    (qrPassT ipc Q j s).1 = qrPass ip Q j s := by
  induction j generalizing s with
  | zero => rfl
  | succ j ih =>
    rw [qrPassT, qrPass, Tr.bind_fst, Tr.bind_fst, tick_bind_fst, Tr.pure_fst, ih, h]

theorem qrPassesT_erase {ipc : E → E → Tr 𝕜} {ip : E → E → 𝕜} (h : ∀ x y, (ipc x y).1 = ip x y) (Q : ℕ → E) (i p : ℕ) (s : E × (ℕ → 𝕜)) :
    (qrPassesT ipc Q i p s).1 = qrPasses ip Q i p s := by
  induction p with
  | zero => rfl
  | succ p ih => rw [qrPassesT, qrPasses, Tr.bind_fst, ih, qrPassT_erase h]

theorem qrColT_erase {ipc : E → E → Tr 𝕜} {ip : E → E → 𝕜} (h : ∀ x y, (ipc x y).1 = ip x y) (r i : ℕ) (Q : ℕ → E) (R : ℕ → ℕ → 𝕜) :
    (qrColT ipc r i Q R).1 = qrCol ip r i Q R := by
  unfold qrColT qrCol
  rw [Tr.bind_fst, Tr.bind_fst, qrPassesT_erase h, h]
  rcases qrPasses ip Q i (r + 1) (Q i, fun j => R j i) with ⟨q, c⟩
  dsimp only
  cases npNorm (ip q q) with
  | error e => rfl
  | ok rii =>
    dsimp only
    unfold qrScaleT
    rw [Tr.bind_fst, Tr.pure_fst]
    split <;> rfl

theorem qrLoopT_erase {ipc : E → E → Tr 𝕜} {ip : E → E → 𝕜} (h : ∀ x y, (ipc x y).1 = ip x y) (r : ℕ) (X : ℕ → E) (n : ℕ) :
    (qrLoopT ipc r X n).1 = qrLoop ip r X n := by
  induction n with
  | zero => rfl
  | succ n ih =>
    rw [qrLoopT, qrLoop, Tr.bind_fst, ih]
    rcases qrLoop ip r X n with e | ⟨Q, R⟩
    · rfl
    · exact qrColT_erase h r n Q R

/-- C89: the counting model of `qr` computes what the model of `qr` computes. -/
theorem C89_qr_erase {ipc : E → E → Tr 𝕜} {ip : E → E → 𝕜} (h : ∀ x y, (ipc x y).1 = ip x y) (r : ℕ) (X : ℕ → E) :
    (ownQrT ipc r fun i : Fin k => X i).1 = qrResult (qrLoop ip r (colSeq fun i : Fin k => X i) k) := by
  unfold ownQrT
  rw [Tr.bind_fst, Tr.pure_fst, qrLoopT_erase h]

theorem mkProjT_erase (ip : E → E → 𝕜) (a : OblArgsT 𝕜 E k) (X : Fin k → E) (Y : Option (Fin k → E)) :
    (mkProjT ip a X Y).1 = mkProj ip a.erase.rt X Y a.orthogonalize a.iterations := by
  unfold mkProjT mkProj OblArgsT.erase
  dsimp only
  split
  · rfl
  split
  · rfl
  split
  · rw [Tr.bind_fst]
    rcases (a.qr X).1 with e | ⟨V, VR⟩
    · rfl
    · cases Y with
      | none => rfl
      | some Y =>
        dsimp only
        rw [Tr.bind_fst]
        rcases (a.qr Y).1 with e | ⟨W, WR⟩ <;> rfl
  · rfl

theorem mkOblT_erase {la : LSArgs 𝕜 E} {s : LS 𝕜 E} (hs : mkLS la = .ok s) (a : OblArgsT 𝕜 E k) (U : Fin k → E) :
    (mkOblT s a U).1 = mkObl s a.erase U := by
  unfold mkOblT mkObl
  rw [Tr.bind_fst]
  change _ = match (a.qrM U).1 with | .error e => _ | .ok (U, _) => _
  rcases (a.qrM U).1 with e | ⟨V, R⟩
  · rfl
  · dsimp only
    simp only [Tr.bind_fst, tickN_fst]
    rw [mkProjT_erase]
    have h : (fun j => s.Ml (s.A (s.Mr (V j)))) = fun j => s.MlAMr (V j) := by
      funext j
      exact opT_erase hs (V j)
    rw [h]
    change _ = match mkProj s.ip a.erase.rt (fun j => s.MlAMr (V j)) (if a.same then none else some V) a.orthogonalize a.iterations with
      | .error e => _ | .ok p => _
    rcases mkProj s.ip a.erase.rt (fun j => s.MlAMr (V j)) (if a.same then none else some V) a.orthogonalize a.iterations <;> rfl

theorem apply1T_erase (ip : E → E → 𝕜) (p : Proj 𝕜 E k) (v : E) : (p.apply1T ip v).1 = p.apply1 ip v := by
  unfold Proj.apply1T Proj.apply1 Proj.Ya solveQR
  split
  · rfl
  dsimp only
  rw [Tr.bind_fst, tickN_fst]
  rcases p.QR with _ | ⟨Q, R⟩
  · rfl
  · dsimp only
    cases solveUpper R (Qᴴ *ᵥ coefs ip p.W v) <;> rfl

theorem apply1xT_erase (ip : E → E → 𝕜) (p : Proj 𝕜 E k) (v : E) : (p.apply1xT ip v).1 = p.apply1x ip v := by
  unfold Proj.apply1xT Proj.apply1x
  rw [Tr.bind_fst, apply1T_erase]
  rcases p.apply1 ip v with e | ⟨x, y⟩ <;> rfl

theorem refineComplT_erase {f : E → Tr (Except Err E)} {g : E → Except Err E} (h : ∀ x, (f x).1 = g x) (n : ℕ) (z : E) :
    (refineComplT f n z).1 = refineCompl g n z := by
  induction n with
  | zero => rfl
  | succ n ih =>
    rw [refineComplT, refineCompl, Tr.bind_fst, ih]
    cases refineCompl g n z with
    | error e => rfl
    | ok z =>
      dsimp only
      rw [Tr.bind_fst, h]
      cases g z <;> rfl

theorem applyComplT_erase (ip : E → E → 𝕜) (p : Proj 𝕜 E k) (v : E) : (p.applyComplT ip v).1 = p.applyCompl ip v := by
  unfold Proj.applyComplT Proj.applyCompl
  split
  · rfl
  rw [Tr.bind_fst, apply1T_erase]
  rcases p.apply1 ip v with e | ⟨x, y⟩
  · rfl
  · dsimp only
    rw [tick_bind_fst, Tr.bind_fst, refineComplT_erase (apply1xT_erase ip p)]
    cases refineCompl (p.apply1x ip) (p.iterations - 1) (v - x) <;> rfl

theorem correctT_erase (s : LS 𝕜 E) (o : Obl 𝕜 E k) (z : E) : (o.correctT s z).1 = o.correct s z := by
  unfold Obl.correctT Obl.correct
  simp only [Tr.bind_fst, tick_fst, tickN_fst]
  cases solveQR o.proj.QR (coefs s.ip o.proj.W (s.Ml (s.b - s.A z))) with
  | error e => rfl
  | ok c =>
    dsimp only
    cases undoVR o.proj c <;> rfl

theorem initResT_erase (s : LS 𝕜 E) (o : Obl 𝕜 E k) (x0 : Option E) : (o.initResT s x0).1 = o.initRes s x0 := by
  have key : ∀ Mlr, ((o.proj.applyComplT s.ip Mlr).bind fun
      | .error e => .pure (.error e)
      | .ok (PMlr, _) =>
        (tick .M (s.M PMlr)).bind fun MPMlr => (tick .ipB (s.ip PMlr MPMlr)).bind fun z => Tr.pure <|
          match npNorm z with
          | .error e => .error e
          | .ok nr => .ok (MPMlr, PMlr, nr) : Tr (Except Err (E × E × ℝ))).1 = match o.proj.applyCompl s.ip Mlr with
      | .error e => .error e
      | .ok (PMlr, _) => match npNorm (s.ip PMlr (s.M PMlr)) with
        | .error e => .error e
        | .ok nr => .ok (s.M PMlr, PMlr, nr) := by
    intro Mlr
    rw [Tr.bind_fst, applyComplT_erase]
    rcases o.proj.applyCompl s.ip Mlr with e | ⟨x, y⟩
    · rfl
    · dsimp only
      simp only [Tr.bind_fst, tick_fst, Tr.pure_fst]
  cases x0 <;> exact key _

/-- One application of the projection either fails for every vector, or is a linear map. -/
theorem apply1_cases {ip : E → E → 𝕜} (h : IsInner ip) (p : Proj 𝕜 E k) : (∃ e, ∀ v, p.apply1 ip v = .error e) ∨
    ∃ f : E →ₗ[𝕜] E, ∀ v, ∃ y, p.apply1 ip v = .ok (f v, y) := by
  by_cases hk : k = 0
  · exact Or.inr ⟨0, fun v => ⟨fun _ => 0, by simp [Proj.apply1, hk]⟩⟩
  have key : ∀ N : Matrix (Fin k) (Fin k) 𝕜, IsLinearMap 𝕜 fun v => lincomb p.V (N *ᵥ coefs ip p.W v) := by
    intro N
    constructor
    · intro x y
      have : coefs ip p.W (x + y) = coefs ip p.W x + coefs ip p.W y := by
        funext i
        exact h.add_right _ _ _
      rw [this, Matrix.mulVec_add, lincomb_add]
    · intro c x
      have : coefs ip p.W (c • x) = c • coefs ip p.W x := by
        funext i
        exact h.smul_right _ _ _
      rw [this, Matrix.mulVec_smul, lincomb_smul]
  rcases hq : p.QR with _ | ⟨Q, R⟩
  · refine Or.inr ⟨(key 1).mk' _, fun v => ⟨p.Ya (coefs ip p.W v), ?_⟩⟩
    simp only [Proj.apply1, if_neg hk, hq, IsLinearMap.mk'_apply, Matrix.one_mulVec]
    rfl
  · by_cases hz : ∃ i, R i i = 0
    · refine Or.inl ⟨.linAlgError, fun v => ?_⟩
      simp only [Proj.apply1, if_neg hk, hq, solveUpper, if_pos hz]
    · refine Or.inr ⟨(key ((Matrix.of fun i j => if j < i then 0 else R i j)⁻¹ * Qᴴ)).mk' _, fun v => ⟨p.Ya (coefs ip p.W v), ?_⟩⟩
      simp only [Proj.apply1, if_neg hk, hq, solveUpper, if_neg hz, IsLinearMap.mk'_apply, Matrix.mulVec_mulVec]
      rfl

/-- `apply_complement` either fails for every vector, or is a linear map. -/
theorem applyCompl_cases {ip : E → E → 𝕜} (h : IsInner ip) (p : Proj 𝕜 E k) : (∀ v, ∃ e, p.applyCompl ip v = .error e) ∨
    ∃ f : E →ₗ[𝕜] E, ∀ v, ∃ y, p.applyCompl ip v = .ok (f v, y) := by
  by_cases hk : k = 0
  · exact Or.inr ⟨LinearMap.id, fun v => ⟨fun _ => 0, by simp [Proj.applyCompl, hk]⟩⟩
  rcases apply1_cases h p with ⟨e, he⟩ | ⟨f, hf⟩
  · exact Or.inl fun v => ⟨e, by simp [Proj.applyCompl, hk, he]⟩
  · right
    have hx : ∀ v, p.apply1x ip v = .ok (f v) := fun v => by
      obtain ⟨y, hy⟩ := hf v
      simp [Proj.apply1x, hy]
    have hr : ∀ n z, refineCompl (p.apply1x ip) n z = .ok (((LinearMap.id - f : Module.End 𝕜 E) ^ n) z) := by
      intro n z
      induction n with
      | zero => simp [refineCompl]
      | succ n ih =>
        rw [refineCompl, ih]
        simp only [hx, pow_succ', Module.End.mul_apply, LinearMap.sub_apply, LinearMap.id_apply]
    refine ⟨((LinearMap.id - f : Module.End 𝕜 E) ^ (p.iterations - 1)) ∘ₗ (LinearMap.id - f), fun v => ?_⟩
    obtain ⟨y, hy⟩ := hf v
    refine ⟨y, ?_⟩
    simp only [Proj.applyCompl, if_neg hk, hy, hr, LinearMap.comp_apply, LinearMap.sub_apply, LinearMap.id_apply]

theorem compl_isLinear {s : LS 𝕜 E} (h : IsInner s.ip) (o : Obl 𝕜 E k) : IsLinearMap 𝕜 (o.compl s) := by
  rcases applyCompl_cases h o.proj with he | ⟨f, hf⟩
  · have : o.compl s = (0 : E →ₗ[𝕜] E) := by
      funext v
      obtain ⟨e, he⟩ := he v
      simp [Obl.compl, he]
    rw [this]
    exact LinearMap.isLinear _
  · have : o.compl s = f := by
      funext v
      obtain ⟨y, hy⟩ := hf v
      simp [Obl.compl, hy]
    rw [this]
    exact f.isLinear

theorem oblOpT_erase {la : LSArgs 𝕜 E} {s : LS 𝕜 E} (hs : mkLS la = .ok s) (h : IsInner s.ip) (o : Obl 𝕜 E k) (v : E) :
    (o.opT s v).1 = o.op s v := by
  unfold Obl.opT Obl.op
  rw [dif_pos (compl_isLinear h o), Tr.bind_fst, Tr.bind_fst, opT_erase hs, applyComplT_erase]
  change _ = o.compl s (s.MlAMr v)
  unfold Obl.compl
  rcases o.proj.applyCompl s.ip (s.MlAMr v) with e | ⟨x, y⟩ <;> rfl

end Erase

section EraseRun
variable {F X S T : Type*} [LE F] [LT F] [DecidableLE F] [DecidableLT F] [Div F]

theorem logT_erase (m : MethodT F X S) (f : S → List T → Except Err T) : (m.log f).erase = m.erase.log f := by
  unfold MethodT.log MethodT.erase Method.log
  congr 1
  funext s
  dsimp only
  cases f s.1 s.2 with
  | error e => rfl
  | ok c =>
    dsimp only
    rw [Tr.bind_fst]
    rcases (m.step s.1).1 with e | ⟨s', r⟩ <;> rfl

theorem runPostT_erase [Zero F] [BEq F] [Zero X] (cfg : CfgT F X) (m : MethodT F X S) (x0 : X) (r0 : F) (mkS : X → S)
    (post : X → Tr (Except Err X)) :
    (runPostT cfg m x0 r0 mkS post).1 = run cfg.erase m.erase x0 r0 mkS fun x => (post x).1 := by
  unfold runPostT run
  dsimp only
  have : ∀ x, (initErrPostT cfg (post x)).1 = initErr cfg.erase (post x).1 := by
    intro x
    unfold initErrPostT initErr CfgT.erase
    cases cfg.errNorm with
    | none => rfl
    | some en =>
      dsimp only [Option.map]
      rw [Tr.bind_fst]
      cases (post x).1 with
      | error e => rfl
      | ok y =>
        dsimp only
        rw [Tr.bind_fst]
        cases (en y).1 <;> rfl
  rw [Tr.bind_fst, this]
  have hb : cfg.erase.MMlbNorm = cfg.MMlbNorm := rfl
  rw [hb]
  cases initErr cfg.erase (post (if cfg.MMlbNorm == 0 then 0 else x0)).1 with
  | error e => rfl
  | ok en => exact loopT_erase _ _ _ _

/-- Without an exact solution the initial correction is not computed. -/
theorem runPostT_eq [Zero F] [BEq F] [Zero X] {cfg : CfgT F X} (he : cfg.errNorm = none) (m : MethodT F X S) (x0 : X) (r0 : F) (mkS : X → S)
    (post : X → Tr (Except Err X)) : runPostT cfg m x0 r0 mkS post = runT cfg m x0 r0 mkS := by
  unfold runPostT runT initErrPostT initErrT
  rw [he]
  rfl

end EraseRun

section EraseSolvers
variable {𝕜 E : Type*} [RCLike 𝕜] [AddCommGroup E] [Module 𝕜 E] {k : ℕ}

theorem mkLS_ip {a : LSArgs 𝕜 E} {s : LS 𝕜 E} (hs : mkLS a = .ok s) : s.ip = a.ip := by
  revert hs
  unfold mkLS
  dsimp only
  generalize (if a.selfAdjoint then true else a.normal.getD false) = nrml
  split
  · simp
  · cases npNorm (a.ip (a.Ml a.b) (a.M (a.Ml a.b))) with
    | error e => simp
    | ok nb =>
      simp only [Except.ok.injEq]
      rintro rfl
      rfl

theorem deflGmresMethodT_erase {a : LSArgs 𝕜 E} {s : LS 𝕜 E} (hs : mkLS a = .ok s) (h : IsInner a.ip) (o : Obl 𝕜 E k) (ortho : Ortho) (n : ℕ) :
    (deflGmresMethodT s o ortho n).erase = gmresMethod (arnAdvance (s.arnCfg (o.hooks s) n ortho)) s.Mr (o.correct s) n := by
  have h' : IsInner s.ip := by rw [mkLS_ip hs]; exact h
  unfold deflGmresMethodT MethodT.erase gmresMethod
  congr 1
  · funext t
    exact gmresStepT_erase (fun b => arnAdvanceT_erase _ (oblOpT_erase hs h' o) b) _
  · funext t
    unfold Obl.xkT
    rw [Tr.bind_fst, gmresXkT_erase]
    unfold gmresXk
    dsimp only
    by_cases hk : 0 < t.arn.iter
    · rw [if_pos hk, if_pos hk]
      cases solveUpper (Matrix.of fun i j : Fin t.arn.iter => t.R i j) (fun i : Fin t.arn.iter => t.y i) with
      | error e => rfl
      | ok yy => exact correctT_erase s o _
    · rw [if_neg hk, if_neg hk]
      exact correctT_erase s o _

theorem deflMinresMethodT_erase {a : LSArgs 𝕜 E} {s : LS 𝕜 E} (hs : mkLS a = .ok s) (h : IsInner a.ip) (o : Obl 𝕜 E k) (ortho : Ortho) (n : ℕ) :
    (deflMinresMethodT s o ortho n).erase = minresMethod (arnAdvance (s.arnCfg (o.hooks s) n ortho)) s.Mr (o.correct s) n := by
  have h' : IsInner s.ip := by rw [mkLS_ip hs]; exact h
  unfold deflMinresMethodT MethodT.erase minresMethod
  congr 1
  · funext t
    exact minresStepT_erase (fun b => arnAdvanceT_erase _ (oblOpT_erase hs h' o) b) _ _
  · funext t
    exact correctT_erase s o _

theorem deflCgMethodT_erase {a : LSArgs 𝕜 E} {s : LS 𝕜 E} (hs : mkLS a = .ok s) (h : IsInner a.ip) (o : Obl 𝕜 E k) (store : Bool) (n : ℕ) :
    (deflCgMethodT s o store n).erase = cgMethod s.ip s.M (o.op s) s.Mr (o.correct s) store n := by
  have h' : IsInner s.ip := by rw [mkLS_ip hs]; exact h
  unfold deflCgMethodT MethodT.erase cgMethod
  congr 1
  · funext t
    exact cgStepT_erase _ _ _ (oblOpT_erase hs h' o) _ _
  · funext t
    exact correctT_erase s o _

theorem correctT_fun (s : LS 𝕜 E) (o : Obl 𝕜 E k) : (fun x => (o.correctT s x).1) = o.correct s := funext (correctT_erase s o)

/-- C89: the counting model of `DeflatedGmres` computes what the model of `DeflatedGmres` computes. -/
theorem C89_gmres_erase (a : LSArgs 𝕜 E) (h : IsInner a.ip) (oa : OblArgsT 𝕜 E k) (U : Fin k → E) (ortho : Ortho) (p : SolverArgs E) :
    (deflGmresT a oa U ortho p).1 = match mkLS a with
      | .error e => .raised e
      | .ok s => match mkObl s oa.erase U with
        | .error e => .raised e
        | .ok o => deflatedGmres s o ortho p := by
  unfold deflGmresT
  rw [Tr.bind_fst, mkLST_erase]
  cases hs : mkLS a with
  | error e => rfl
  | ok s =>
    dsimp only
    rw [Tr.bind_fst, mkOblT_erase hs]
    cases mkObl s oa.erase U with
    | error e => rfl
    | ok o =>
      dsimp only
      unfold deflatedGmres
      dsimp only
      rw [Tr.bind_fst, initResT_erase]
      rcases o.initRes s p.x0 with e | ⟨x, y, z⟩
      · rfl
      · dsimp only
        rw [Tr.bind_fst, arnInitT_erase (s.arnCfg (o.hooks s) p.maxiter ortho) rfl]
        cases arnInit (s.arnCfg (o.hooks s) p.maxiter ortho) y (some x) (some z) with
        | error e => rfl
        | ok arn =>
          dsimp only
          rw [runPostT_erase, mkCfgT_erase, logT_erase, deflGmresMethodT_erase hs h, correctT_fun]

/-- C89: the counting model of `DeflatedMinres` computes what the model of `DeflatedMinres` computes. -/
theorem C89_minres_erase (a : LSArgs 𝕜 E) (h : IsInner a.ip) (oa : OblArgsT 𝕜 E k) (U : Fin k → E) (ortho : Ortho) (p : SolverArgs E) :
    (deflMinresT a oa U ortho p).1 = match mkLS a with
      | .error e => .raised e
      | .ok s => match mkObl s oa.erase U with
        | .error e => .raised e
        | .ok o => deflatedMinres s o ortho p := by
  unfold deflMinresT
  rw [Tr.bind_fst, mkLST_erase]
  cases hs : mkLS a with
  | error e => rfl
  | ok s =>
    dsimp only
    rw [Tr.bind_fst, mkOblT_erase hs]
    cases mkObl s oa.erase U with
    | error e => rfl
    | ok o =>
      dsimp only
      unfold deflatedMinres
      dsimp only
      rw [Tr.bind_fst, initResT_erase]
      rcases o.initRes s p.x0 with e | ⟨x, y, z⟩
      · rfl
      · dsimp only
        rw [Tr.bind_fst, arnInitT_erase (s.arnCfg (o.hooks s) p.maxiter ortho) rfl]
        cases arnInit (s.arnCfg (o.hooks s) p.maxiter ortho) y (some x) (some z) with
        | error e => rfl
        | ok arn =>
          dsimp only
          rw [runPostT_erase, mkCfgT_erase, logT_erase, deflMinresMethodT_erase hs h, correctT_fun]

/-- C89: the counting model of `DeflatedCg` computes what the model of `DeflatedCg` computes. -/
theorem C89_cg_erase (a : LSArgs 𝕜 E) (h : IsInner a.ip) (oa : OblArgsT 𝕜 E k) (U : Fin k → E) (store : Bool) (p : SolverArgs E) :
    (deflCgT a oa U store p).1 = match mkLS a with
      | .error e => .raised e
      | .ok s => match mkObl s oa.erase U with
        | .error e => .raised e
        | .ok o => deflatedCg s o store p := by
  unfold deflCgT
  rw [Tr.bind_fst, mkLST_erase]
  cases hs : mkLS a with
  | error e => rfl
  | ok s =>
    dsimp only
    rw [Tr.bind_fst, mkOblT_erase hs]
    cases mkObl s oa.erase U with
    | error e => rfl
    | ok o =>
      dsimp only
      unfold deflatedCg
      rw [Tr.bind_fst, initResT_erase]
      rcases o.initRes s p.x0 with e | ⟨x, y, z⟩
      · rfl
      · dsimp only
        have : (cgInitT (𝕜 := 𝕜) store x y z).1 = cgInit x y z := by
          unfold cgInitT
          split <;> rfl
        rw [Tr.bind_fst, this, runPostT_erase, mkCfgT_erase, logT_erase, deflCgMethodT_erase hs h, correctT_fun]

end EraseSolvers

/-! ## Costs of the parts -/

section Cost
variable {𝕜 E : Type*} [RCLike 𝕜] [AddCommGroup E] [Module 𝕜 E] {k : ℕ}

theorem qrPassT_cost {ipc : E → E → Tr 𝕜} {ci : Op → ℕ} (h : ∀ x y, (ipc x y).2 = ci) (Q : ℕ → E) (j : ℕ) (s : E × (ℕ → 𝕜)) :
    (qrPassT ipc Q j s).2 = j • (ci + Pi.single Op.axpy 1) := by
  induction j generalizing s with
  | zero => simp [qrPassT]
  | succ j ih =>
    rw [qrPassT, Tr.bind_snd, ih, Tr.bind_snd, h, Tr.bind_snd, tick_snd, Tr.pure_snd, add_zero, succ_nsmul]

theorem qrPassesT_cost {ipc : E → E → Tr 𝕜} {ci : Op → ℕ} (h : ∀ x y, (ipc x y).2 = ci) (Q : ℕ → E) (i p : ℕ) (s : E × (ℕ → 𝕜)) :
    (qrPassesT ipc Q i p s).2 = p • i • (ci + Pi.single Op.axpy 1) := by
  induction p with
  | zero => simp [qrPassesT]
  | succ p ih => rw [qrPassesT, Tr.bind_snd, ih, qrPassT_cost h, succ_nsmul]

theorem qrColT_cost {ipc : E → E → Tr 𝕜} {ci : Op → ℕ} (h : ∀ x y, (ipc x y).2 = ci) {r i : ℕ} {Q : ℕ → E} {R : ℕ → ℕ → 𝕜} {QR}
    (hq : (qrColT ipc r i Q R).1 = .ok QR) :
    ∃ u ≤ 1, (qrColT ipc r i Q R).2 = ((r + 1) * i + 1) • ci + ((r + 1) * i + u) • Pi.single Op.axpy 1 := by
  revert hq
  unfold qrColT
  rw [Tr.bind_fst, Tr.bind_fst, Tr.bind_snd, Tr.bind_snd, qrPassesT_cost h, h]
  cases npNorm (ipc (qrPassesT ipc Q i (r + 1) (Q i, fun j => R j i)).1.1 (qrPassesT ipc Q i (r + 1) (Q i, fun j => R j i)).1.1).1 with
  | error e => simp
  | ok rii =>
    intro _
    dsimp only
    rw [Tr.bind_snd, Tr.pure_snd, add_zero]
    unfold qrScaleT
    split
    · refine ⟨1, le_rfl, ?_⟩
      rw [tick_snd]
      funext o
      simp only [Pi.add_apply, Pi.smul_apply, smul_eq_mul]
      ring
    · refine ⟨0, by omega, ?_⟩
      rw [Tr.pure_snd]
      funext o
      simp only [Pi.add_apply, Pi.smul_apply, smul_eq_mul, Pi.zero_apply]
      ring

/-- The number of inner products in `qr` of `k` columns with `r` reorthogonalisations. -/
def qrIps (r k : ℕ) : ℕ := (r + 1) * (k * (k - 1) / 2) + k

theorem tri_succ (n : ℕ) : (n + 1) * (n + 1 - 1) / 2 = n * (n - 1) / 2 + n := by
  rw [← Finset.sum_range_id, ← Finset.sum_range_id, Finset.sum_range_succ]

theorem qrLoopT_cost {ipc : E → E → Tr 𝕜} {ci : Op → ℕ} (h : ∀ x y, (ipc x y).2 = ci) {r : ℕ} {X : ℕ → E} {n : ℕ} {QR}
    (hq : (qrLoopT ipc r X n).1 = .ok QR) :
    ∃ u ≤ n, (qrLoopT ipc r X n).2 = qrIps r n • ci + ((r + 1) * (n * (n - 1) / 2) + u) • Pi.single Op.axpy 1 := by
  induction n generalizing QR with
  | zero => exact ⟨0, le_rfl, by simp [qrLoopT, qrIps]⟩
  | succ n ih =>
    revert hq
    rw [qrLoopT, Tr.bind_fst, Tr.bind_snd]
    cases hl : (qrLoopT ipc r X n).1 with
    | error e => simp
    | ok QR' =>
      intro hq
      obtain ⟨u, hu, h1⟩ := ih hl
      obtain ⟨v, hv, h2⟩ := qrColT_cost h hq
      refine ⟨u + v, by omega, ?_⟩
      dsimp only at h2 ⊢
      rw [h1, h2, tri_succ]
      unfold qrIps
      rw [tri_succ]
      funext o
      simp only [Pi.add_apply, Pi.smul_apply, smul_eq_mul]
      ring

/-- The operations of `qr` of `k` columns with `r` reorthogonalisations, if `u` columns are divided by their norm and each inner product needs `Minv`
(`m = true`) or not. -/
def qrOps (r k u : ℕ) (m : Bool) : Op → ℕ
  | .ipB => qrIps r k
  | .Minv => if m then qrIps r k else 0
  | .axpy => (r + 1) * (k * (k - 1) / 2) + u
  | .A | .M | .Ml | .Mr => 0

/-- What the factorisation routines are assumed to cost. -/
structure OblCost (a : OblArgsT 𝕜 E k) (r : ℕ) (m : Bool) : Prop where
  qrM : ∀ X Y, (a.qrM X).1 = .ok Y → ∃ u ≤ k, (a.qrM X).2 = qrOps r k u m
  qr : ∀ X Y, (a.qr X).1 = .ok Y → ∃ u ≤ k, (a.qr X).2 = qrOps 1 k u false

/-- C89 (qr): `qr` of `k` columns computes `(reorthos+1)k(k-1)/2 + k` inner products, and as many vector updates up to columns with a tiny norm. -/
theorem C89_qr {ipc : E → E → Tr 𝕜} {m : Bool} (h : ∀ x y, (ipc x y).2 = Pi.single Op.ipB 1 + if m then Pi.single Op.Minv 1 else 0) {r : ℕ}
    {X : Fin k → E} {Y} (hq : (ownQrT ipc r X).1 = .ok Y) : ∃ u ≤ k, (ownQrT ipc r X).2 = qrOps r k u m := by
  revert hq
  unfold ownQrT
  rw [Tr.bind_fst, Tr.bind_snd, Tr.pure_fst, Tr.pure_snd, add_zero]
  cases hl : (qrLoopT ipc r (colSeq X) k).1 with
  | error e => simp [qrResult]
  | ok QR =>
    intro _
    obtain ⟨u, hu, h1⟩ := qrLoopT_cost h hl
    refine ⟨u, hu, ?_⟩
    rw [h1]
    funext o
    cases m <;> cases o <;> simp [qrOps]

/-- C89: the library's own `qr` costs what is assumed. -/
theorem C89_own (ip : E → E → 𝕜) (Minv : Option (E →ₗ[𝕜] E)) (r : ℕ)
    (matQr : Matrix (Fin k) (Fin k) 𝕜 → Matrix (Fin k) (Fin k) 𝕜 × Matrix (Fin k) (Fin k) 𝕜) (same orthogonalize : Bool) (iterations : ℤ) :
    OblCost (ownOblArgs (k := k) ip Minv r matQr same orthogonalize iterations) r Minv.isSome := by
  refine ⟨fun X Y h => C89_qr (fun x y => ?_) h, fun X Y h => C89_qr (fun x y => ?_) h⟩
  · cases Minv with
    | none => simp [ipT]
    | some Minv =>
      simp [ipMinvT, ipT, add_comm]
  · simp [ipT]

/-- How many additional factorisations `Projection` computes. -/
def OblArgsT.numQr (a : OblArgsT 𝕜 E k) : ℕ := if a.orthogonalize then (if a.same then 1 else 2) else 0

/-- The operations of the construction of the projection; `u` columns are divided by their norm. -/
def OblArgsT.setupOps (a : OblArgsT 𝕜 E k) (r : ℕ) (m : Bool) (u : ℕ) : Op → ℕ
  | .A | .Ml | .Mr => k
  | .M => 0
  | .Minv => if m then qrIps r k else 0
  | .ipB => qrIps r k + a.numQr * qrIps 1 k + (if a.orthogonalize && a.same then 0 else k * k)
  | .axpy => (r + 1) * (k * (k - 1) / 2) + a.numQr * (2 * (k * (k - 1) / 2)) + u

theorem mkProjT_cost {ip : E → E → 𝕜} {a : OblArgsT 𝕜 E k} {r : ℕ} {m : Bool} (h : OblCost a r m) {X U : Fin k → E} {p : Proj 𝕜 E k}
    (hp : (mkProjT ip a X (if a.same then none else some U)).1 = .ok p) : p.iterations = a.iterations.toNat ∧ 1 ≤ a.iterations ∧
    ∃ u ≤ a.numQr * k, (mkProjT ip a X (if a.same then none else some U)).2 =
      Pi.single Op.ipB (a.numQr * qrIps 1 k + (if a.orthogonalize && a.same then 0 else k * k)) +
        Pi.single Op.axpy (a.numQr * (2 * (k * (k - 1) / 2)) + u) := by
  revert hp
  unfold mkProjT OblArgsT.numQr
  by_cases hi : a.iterations < 1
  · simp [hi]
  rw [if_neg hi]
  have hi' : 1 ≤ a.iterations := by omega
  by_cases hk : k = 0
  · rw [if_pos hk]
    simp only [Tr.pure_fst, Except.ok.injEq]
    rintro rfl
    refine ⟨rfl, hi', 0, by omega, ?_⟩
    subst hk
    simp [qrIps]
  rw [if_neg hk]
  cases ho : a.orthogonalize with
  | true =>
    simp only [if_true, Tr.bind_fst, Tr.bind_snd]
    cases hX : (a.qr X).1 with
    | error e => simp
    | ok VR =>
      obtain ⟨V, VR⟩ := VR
      obtain ⟨u, hu, hc⟩ := h.qr _ _ hX
      rw [hc]
      cases hs : a.same with
      | true =>
        simp only [if_true, Tr.pure_fst, Except.ok.injEq, Tr.pure_snd]
        rintro rfl
        refine ⟨rfl, hi', u, by omega, ?_⟩
        funext o
        cases o <;> simp [qrOps]
      | false =>
        simp only [Bool.false_eq_true, if_false, Tr.bind_fst, Tr.bind_snd]
        cases hU : (a.qr U).1 with
        | error e => simp
        | ok WR =>
          obtain ⟨W, WR⟩ := WR
          obtain ⟨v, hv, hc'⟩ := h.qr _ _ hU
          rw [hc']
          simp only [Tr.bind_fst, Tr.bind_snd, Tr.pure_fst, Except.ok.injEq, Tr.pure_snd]
          rintro rfl
          refine ⟨rfl, hi', u + v, by omega, ?_⟩
          funext o
          cases o <;> simp [qrOps, gramT] <;> ring
  | false =>
    simp only [Bool.false_eq_true, if_false, Tr.bind_fst, Tr.bind_snd, Tr.pure_fst, Except.ok.injEq, Tr.pure_snd]
    rintro rfl
    refine ⟨rfl, hi', 0, by omega, ?_⟩
    funext o
    cases o <;> simp [gramT]

/-- C89 (setup): the operations of `ObliqueProjection(linear_system, U)` with `k` deflation vectors: `A`, `Ml` and `Mr` are applied `k` times, `M` is not,
and with the default parameters there are `k(k+1)/2 + 3k²` inner products, `k(k+1)/2` of them with `Minv`. -/
theorem C89_setup {s : LS 𝕜 E} {a : OblArgsT 𝕜 E k} {r : ℕ} {m : Bool} (h : OblCost a r m) {U : Fin k → E} {o : Obl 𝕜 E k}
    (ho : (mkOblT s a U).1 = .ok o) : o.proj.iterations = a.iterations.toNat ∧ 1 ≤ a.iterations ∧
    ∃ u ≤ (1 + a.numQr) * k, (mkOblT s a U).2 = a.setupOps r m u := by
  revert ho
  unfold mkOblT
  rw [Tr.bind_fst, Tr.bind_snd]
  cases hq : (a.qrM U).1 with
  | error e => simp
  | ok VR =>
    obtain ⟨V, R⟩ := VR
    obtain ⟨u, hu, hc⟩ := h.qrM _ _ hq
    dsimp only
    simp only [Tr.bind_fst, Tr.bind_snd, tickN_fst, tickN_snd]
    cases hp : (mkProjT s.ip a (fun j => s.Ml (s.A (s.Mr (V j)))) (if a.same then none else some V)).1 with
    | error e => simp
    | ok p =>
      obtain ⟨h1, h2, v, hv, hc'⟩ := mkProjT_cost h hp
      simp only [Tr.pure_fst, Except.ok.injEq, Tr.pure_snd]
      rintro rfl
      refine ⟨h1, h2, u + v, by rw [add_mul, one_mul]; omega, ?_⟩
      rw [hc, hc']
      funext o
      cases o <;> simp [qrOps, OblArgsT.setupOps] <;> ring

/-- The operations of `apply_complement` with `it` iterations. -/
def complCost (k it : ℕ) : Op → ℕ
  | .ipB => it * k
  | .axpy => if k = 0 then 0 else it * (k + 1)
  | .A | .M | .Ml | .Mr | .Minv => 0

theorem apply1T_cost {ip : E → E → 𝕜} {p : Proj 𝕜 E k} {v : E} {x} (hx : (p.apply1T ip v).1 = .ok x) :
    (p.apply1T ip v).2 = Pi.single Op.ipB k + Pi.single Op.axpy k := by
  revert hx
  unfold Proj.apply1T
  split
  next h => subst h; simp
  · rw [Tr.bind_fst, Tr.bind_snd, tickN_fst, tickN_snd]
    cases solveQR p.QR (coefs ip p.W v) with
    | error e => simp
    | ok y => simp

theorem apply1xT_cost {ip : E → E → 𝕜} {p : Proj 𝕜 E k} {v : E} {x} (hx : (p.apply1xT ip v).1 = .ok x) :
    (p.apply1xT ip v).2 = Pi.single Op.ipB k + Pi.single Op.axpy k := by
  revert hx
  unfold Proj.apply1xT
  rw [Tr.bind_fst, Tr.bind_snd]
  cases hy : (p.apply1T ip v).1 with
  | error e => simp
  | ok y =>
    intro _
    rw [apply1T_cost hy]
    simp

theorem refineComplT_cost {f : E → Tr (Except Err E)} {c : Op → ℕ} (h : ∀ z w, (f z).1 = .ok w → (f z).2 = c) {n : ℕ} {z w : E}
    (hz : (refineComplT f n z).1 = .ok w) : (refineComplT f n z).2 = n • (c + Pi.single Op.axpy 1) := by
  induction n generalizing w with
  | zero => simp [refineComplT]
  | succ n ih =>
    revert hz
    rw [refineComplT, Tr.bind_fst, Tr.bind_snd]
    cases hr : (refineComplT f n z).1 with
    | error e => simp
    | ok z' =>
      dsimp only
      rw [Tr.bind_fst, Tr.bind_snd, ih hr]
      cases hf : (f z').1 with
      | error e => simp
      | ok w' =>
        intro _
        rw [h _ _ hf, succ_nsmul]
        simp

theorem applyComplT_cost {ip : E → E → 𝕜} {p : Proj 𝕜 E k} {v : E} {x} (hx : (p.applyComplT ip v).1 = .ok x) :
    (p.applyComplT ip v).2 = complCost k (p.iterations - 1 + 1) := by
  revert hx
  unfold Proj.applyComplT
  split
  next h =>
    subst h
    intro _
    funext o
    cases o <;> simp [complCost]
  next hk =>
    rw [Tr.bind_fst, Tr.bind_snd]
    cases hy : (p.apply1T ip v).1 with
    | error e => simp
    | ok y =>
      dsimp only
      simp only [Tr.bind_fst, Tr.bind_snd, tick_fst, tick_snd]
      rw [apply1T_cost hy]
      cases hz : (refineComplT (p.apply1xT ip) (p.iterations - 1) (v - y.1)).1 with
      | error e => simp
      | ok z =>
        intro _
        rw [refineComplT_cost (fun _ _ => apply1xT_cost) hz]
        funext o
        cases o <;> simp [complCost, hk] <;> ring

/-- The operations of `correct`. -/
def corrCost (k : ℕ) : Op → ℕ
  | .A | .Ml => 1
  | .ipB => k
  | .axpy => k + 2
  | .M | .Mr | .Minv => 0

theorem correctT_cost {s : LS 𝕜 E} {o : Obl 𝕜 E k} {z x : E} (hx : (o.correctT s z).1 = .ok x) : (o.correctT s z).2 = corrCost k := by
  revert hx
  unfold Obl.correctT
  simp only [Tr.bind_fst, tick_fst, tickN_fst, Tr.bind_snd, tick_snd, tickN_snd]
  cases solveQR o.proj.QR (coefs s.ip o.proj.W (s.Ml (s.b - s.A z))) with
  | error e => simp
  | ok c =>
    dsimp only
    cases undoVR o.proj c with
    | error e => simp
    | ok c =>
      intro _
      funext q
      cases q <;> simp [corrCost] <;> ring

/-- The operations of the computation of the initial residual. -/
def initCost (k it x : ℕ) : Op → ℕ
  | .A | .Ml => x
  | .M => 1
  | .ipB => 1 + it * k
  | .axpy => x + if k = 0 then 0 else it * (k + 1)
  | .Mr | .Minv => 0

theorem initResT_cost {s : LS 𝕜 E} {o : Obl 𝕜 E k} (p : SolverArgs E) {r} (hr : (o.initResT s p.x0).1 = .ok r) :
    (o.initResT s p.x0).2 = initCost k (o.proj.iterations - 1 + 1) (x0Count p) ∧ ∃ v w, o.proj.applyCompl s.ip v = .ok w := by
  revert hr
  unfold Obl.initResT
  rw [Tr.bind_fst, Tr.bind_snd, Tr.bind_fst, Tr.bind_snd]
  cases hy : (o.proj.applyComplT s.ip (initMlrT s p.x0).1).1 with
  | error e => simp
  | ok y =>
    intro _
    refine ⟨?_, _, _, (applyComplT_erase _ _ _).symm.trans hy⟩
    rw [applyComplT_cost hy]
    unfold x0Count
    cases p.x0 with
    | none =>
      funext q
      cases q <;> simp [initMlrT, initCost, complCost] <;> ring
    | some x =>
      funext q
      cases q <;> simp [initMlrT, initCost, complCost] <;> ring

theorem oblOpT_cost {s : LS 𝕜 E} (h : IsInner s.ip) {o : Obl 𝕜 E k} (hok : ∃ v w, o.proj.applyCompl s.ip v = .ok w) (x : E) :
    (o.opT s x).2 = Pi.single Op.Mr 1 + (Pi.single Op.A 1 + Pi.single Op.Ml 1) + complCost k (o.proj.iterations - 1 + 1) := by
  unfold Obl.opT
  rw [Tr.bind_snd, Tr.bind_snd, opT_cost]
  rcases applyCompl_cases h o.proj with he | ⟨f, hf⟩
  · obtain ⟨v, w, hv⟩ := hok
    obtain ⟨e, he⟩ := he v
    rw [he] at hv
    cases hv
  · obtain ⟨y, hy⟩ := hf (s.opT x).1
    have hz : (o.proj.applyComplT s.ip (s.opT x).1).1 = .ok (f (s.opT x).1, y) := by rw [applyComplT_erase, hy]
    rw [hz, applyComplT_cost hz]
    simp

/-! ## Counting in the solvers -/

theorem logT_costLaw {F X S T : Type*} {cfg : CfgT F X} {m : MethodT F X S} {Φ : S → Op → ℕ} {gx gr : Op → ℕ} (h : CostLaw cfg m Φ gx gr)
    (f : S → List T → Except Err T) : CostLaw cfg (m.log f) (fun s => Φ s.1) gx gr := by
  have key : ∀ s s' r, ((m.log f).step s).1 = .ok (s', r) → (m.step s.1).1 = .ok (s'.1, r) ∧ ((m.log f).step s).2 = (m.step s.1).2 := by
    intro s s' r hs
    revert hs
    unfold MethodT.log
    dsimp only
    cases f s.1 s.2 with
    | error e => simp
    | ok c =>
      dsimp only
      rw [Tr.bind_fst, Tr.bind_snd]
      rcases (m.step s.1).1 with e | ⟨t, q⟩
      · simp
      · simp only [Tr.pure_fst, Except.ok.injEq, Prod.mk.injEq, Tr.pure_snd, add_zero, and_true]
        rintro ⟨rfl, rfl⟩
        exact ⟨rfl, rfl⟩
  refine ⟨fun s s' r hs => ?_, fun s r => h.post _ _, fun s s' r x hs hx => h.xk _ _ _ _ (key _ _ _ hs).1 hx, fun s r => h.xk_post _ _, h.res⟩
  obtain ⟨h1, h2⟩ := key _ _ _ hs
  rw [h2]
  exact h.step _ _ _ h1

/-- As `arnCount_step`, with an operator which costs `cc` more. -/
theorem arnCount_step_op (c : ArnCfg 𝕜 E) {op : E → Tr E} {cc : Op → ℕ}
    (hop : ∀ x, (op x).2 = Pi.single Op.Mr 1 + (Pi.single Op.A 1 + Pi.single Op.Ml 1) + cc) {t t' : Arn 𝕜 E}
    (h : (arnAdvanceT c op t).1 = .ok t') (o : Op) :
    arnCount c.ortho t'.iter t'.invariant o + t'.iter * cc o =
      arnCount c.ortho t.iter t.invariant o + t.iter * cc o + (arnAdvanceT c op t).2 o := by
  obtain ⟨h1, h2, h3⟩ := arnAdvanceT_cost _ hop h
  rw [h1, h2, h3, add_mul, one_mul]
  simp only [Pi.add_apply]
  generalize t.iter * cc o = z
  generalize cc o = y
  by_cases hc : c.ortho = .lanczos ∧ 0 < t.iter
  · obtain ⟨hl, h0⟩ := hc
    cases o <;> cases t'.invariant <;> simp [arnCount, hl, h0, orthoCount] <;> omega
  · rw [if_neg hc]
    have h0 : c.ortho = .lanczos → t.iter = 0 := fun hl => by
      by_contra h0
      exact hc ⟨hl, Nat.pos_of_ne_zero h0⟩
    by_cases hl : c.ortho = .lanczos
    · cases o <;> cases t'.invariant <;> simp [arnCount, hl, h0 hl] <;> omega
    · cases o <;> cases t'.invariant <;> simp [arnCount, hl, Finset.sum_range_succ] <;> omega

theorem oblXkT_cost {s : LS 𝕜 E} {o : Obl 𝕜 E k} {t : Tr (Except Err E)} (ht : ∀ y, t.1 = .ok y → t.2 = xkCost) {x : E}
    (hx : (o.xkT s t).1 = .ok x) : (o.xkT s t).2 = xkCost + corrCost k := by
  revert hx
  unfold Obl.xkT
  rw [Tr.bind_fst, Tr.bind_snd]
  cases hy : t.1 with
  | error e => simp
  | ok y =>
    intro hx
    rw [ht y hy, correctT_cost hx]

/-- The number of operations in the first `n` steps of a deflated solver. -/
def withCompl (k it n : ℕ) (c : Op → ℕ) (o : Op) : ℕ := c o + n * complCost k it o

section Laws
variable {s : LS 𝕜 E} (h : IsInner s.ip) {o : Obl 𝕜 E k} (hok : ∃ v w, o.proj.applyCompl s.ip v = .ok w)
include h hok

theorem deflGmres_costLaw (ortho : Ortho) (p : SolverArgs E) :
    CostLaw (mkCfgT s p) (deflGmresMethodT s o ortho p.maxiter)
      (fun t => withCompl k (o.proj.iterations - 1 + 1) t.arn.iter (arnCount ortho t.arn.iter t.arn.invariant)) (xkCost + corrCost k) resCost := by
  have hop := oblOpT_cost h hok
  have key : ∀ t t' r, ((deflGmresMethodT s o ortho p.maxiter).step t).1 = .ok (t', r) →
      (arnAdvanceT (s.arnCfg (o.hooks s) p.maxiter ortho) (o.opT s) t.arn).1 = .ok t'.arn := by
    intro t t' r h
    simp only [deflGmresMethodT, gmresStepT, Tr.bind_fst, Tr.pure_fst] at h
    unfold gmresStep at h
    dsimp only at h
    split at h
    · simp at h
    next a ha =>
    simp only [Except.ok.injEq, Prod.mk.injEq] at h
    obtain ⟨rfl, -⟩ := h
    exact ha
  refine ⟨fun t t' r h => ?_, fun _ _ => rfl, fun t t' r x h hx => ?_, fun _ _ => rfl, fun x r _ => resNormT_cost' _ _ _⟩
  · funext q
    have : ((deflGmresMethodT s o ortho p.maxiter).step t).2 = (arnAdvanceT (s.arnCfg (o.hooks s) p.maxiter ortho) (o.opT s) t.arn).2 := by
      simp [deflGmresMethodT, gmresStepT]
    rw [this]
    exact arnCount_step_op _ hop (key _ _ _ h) q
  · have h1 := (arnAdvanceT_cost _ hop (key _ _ _ h)).2.2
    refine oblXkT_cost (fun y hy => ?_) hx
    rw [← xkCost_eq]
    exact gmresXkT_cost s.Mr (by omega) hy

theorem deflMinres_costLaw (ortho : Ortho) (p : SolverArgs E) :
    CostLaw (mkCfgT s p) (deflMinresMethodT s o ortho p.maxiter)
      (fun t => withCompl k (o.proj.iterations - 1 + 1) t.arn.iter (minresCount ortho t.arn.iter t.arn.invariant)) (xkCost + corrCost k) resCost := by
  have hop := oblOpT_cost h hok
  refine ⟨fun t t' r h => ?_, fun _ _ => rfl, fun t t' r x h hx => oblXkT_cost (fun y hy => xkCost_eq) hx, fun _ _ => rfl,
    fun x r _ => resNormT_cost' _ _ _⟩
  revert h
  simp only [deflMinresMethodT]
  unfold minresStepT
  dsimp only
  rw [Tr.bind_fst, Tr.bind_snd]
  cases ha : (arnAdvanceT (s.arnCfg (o.hooks s) p.maxiter ortho) (o.opT s) t.arn).1 with
  | error e => simp
  | ok a =>
    dsimp only
    have h1 := (arnAdvanceT_cost _ hop ha).2.2
    generalize RCLike.re (a.H (if t.arn.iter = 0 then p.maxiter else t.arn.iter - 1) t.arn.iter) = h01
    split
    · simp
    · simp only [Tr.bind_fst, tick_fst, Tr.pure_fst, Except.ok.injEq, Prod.mk.injEq, Tr.bind_snd, tick_snd, Tr.pure_snd]
      rintro ⟨rfl, -⟩
      funext q
      have h2 := arnCount_step_op _ hop ha q
      have ho : (s.arnCfg (o.hooks s) p.maxiter ortho).ortho = ortho := rfl
      rw [ho] at h2
      unfold withCompl
      simp only [Pi.add_apply]
      generalize a.iter * complCost k (o.proj.iterations - 1 + 1) q = z1 at h2 ⊢
      generalize t.arn.iter * complCost k (o.proj.iterations - 1 + 1) q = z2 at h2 ⊢
      cases q <;> simp [minresCount, h1] at h2 ⊢ <;> omega

theorem deflCg_costLaw (store : Bool) (p : SolverArgs E) :
    CostLaw (mkCfgT s p) (deflCgMethodT s o store p.maxiter) (fun t => withCompl k (o.proj.iterations - 1 + 1) t.k (cgCount store t.k))
      (xkCost + corrCost k) resCost := by
  have hop := oblOpT_cost h hok
  refine ⟨fun t t' r h => ?_, fun t r => ?_, fun t t' r x h hx => oblXkT_cost (fun y hy => xkCost_eq) hx, fun t r => ?_,
    fun x r _ => resNormT_cost' _ _ _⟩
  · revert h
    simp only [deflCgMethodT]
    unfold cgStepT
    dsimp only
    rw [Tr.bind_fst, Tr.bind_snd]
    have hd : ∀ q, (cgDirT t).1 = .ok q → (cgDirT t).2 = if 0 < t.k then Pi.single Op.axpy 1 else 0 := by
      intro q
      unfold cgDirT
      split
      · split
        · simp
        · simp
      · simp
    cases hq : (cgDirT t).1 with
    | error e => simp
    | ok q =>
      rw [hd q hq]
      dsimp only
      rw [Tr.bind_fst, Tr.bind_snd, hop, tick_bind_fst, Tr.bind_snd, tick_snd, tick_fst]
      split
      · simp
      split
      · simp
      simp only [tick_bind_fst, Tr.bind_snd, tick_snd, tick_fst]
      split
      · simp
      · simp only [Tr.bind_fst, Tr.pure_fst, Except.ok.injEq, Prod.mk.injEq, Tr.bind_snd, Tr.pure_snd]
        rintro ⟨rfl, -⟩
        funext q
        unfold withCompl
        simp only [Pi.add_apply, add_mul, one_mul]
        generalize t.k * complCost k (o.proj.iterations - 1 + 1) q = z
        generalize complCost k (o.proj.iterations - 1 + 1) q = y
        cases store <;> by_cases hk : 0 < t.k <;> cases q <;>
          simp [cgCount, hk, cgColT] <;> omega
  · cases r <;> rfl
  · cases r <;> rfl

end Laws

/-- As `runT_explicit`, for any cost of an approximate solution. -/
theorem runT_explicit_any {S : Type*} {s : LS 𝕜 E} {p : SolverArgs E} {m : MethodT ℝ E S} {Φ : S → Op → ℕ} {gx : Op → ℕ}
    (h : CostLaw (mkCfgT s p) m Φ gx resCost) (he : p.exact = none) (x0 : E) (r0 : ℝ) (mkS : E → S) (st : St ℝ E S)
    (h0 : ∀ x, Φ (mkS x) = 0) (hst : (runT (mkCfgT s p) m x0 r0 mkS).1.Is st) (hn : 2 ≤ st.resnorms.length) :
    (∃ x, m.more (mkS x) = true) ∧ ∃ e f, Explicit (runT (mkCfgT s p) m x0 r0 mkS).1 p st e f ∧
      (runT (mkCfgT s p) m x0 r0 mkS).2 = Φ st.s + e • resCost + f • gx := by
  obtain ⟨h1, h2, h3⟩ := runT_count h (by simp [mkCfgT, he]) x0 r0 mkS st h0 hst hn
  refine ⟨h1, ?_⟩
  cases hx : p.explicitResidual with
  | true => exact ⟨_, _, ⟨fun _ => ⟨rfl, rfl⟩, by simp [hx]⟩, h3 hx⟩
  | false =>
    obtain ⟨d, d', h4, h5, h6, h7, h8⟩ := h2 hx
    refine ⟨_, _, ⟨by simp [hx], fun _ => ⟨by omega, by omega, by omega, fun h => ?_, fun h => ?_⟩⟩, h6⟩
    · have := h7 h
      omega
    · obtain ⟨h9, r, h10, h11⟩ := h8 (by omega)
      refine ⟨h9, r, h10, ?_⟩
      rcases h11 with h11 | h11
      · exact not_le.mp h11
      · exact h11

/-- The counts of a call of a deflated solver with `k` deflation vectors and `it` iterations of the projection, in terms of: the operations `su` of the
construction of the projection, whether `x0` is given (`x`), iterations `n`, explicitly computed residuals `e`, computed approximations `f`, and inner
products and vector updates of the plain iterations. -/
structure DeflCounts (c su : Op → ℕ) (k it x n e f ips axpys : ℕ) : Prop where
  A : c .A = su .A + x + n + e + f
  M : c .M = su .M + 2 + n + e
  Ml : c .Ml = su .Ml + 1 + x + n + e + f
  Mr : c .Mr = su .Mr + n + f
  Minv : c .Minv = su .Minv
  ipB : c .ipB = su .ipB + 2 + ips + e + (n + 1) * (it * k) + f * k
  axpy : c .axpy = su .axpy + x + axpys + e + f * (k + 3) + (n + 1) * (if k = 0 then 0 else it * (k + 1))

end Cost

section FinalDefl
variable {𝕜 E : Type*} [RCLike 𝕜] [AddCommGroup E] [Module 𝕜 E] {k : ℕ}

/-- C89 (GMRES): the operations of `LinearSystem(...)` and `DeflatedGmres(...)` together, for any arguments without `exact_solution` and any outcome with at
least one iteration. -/
theorem C89_gmres {a : LSArgs 𝕜 E} (h : IsInner a.ip) {oa : OblArgsT 𝕜 E k} {r : ℕ} {m : Bool} (hoa : OblCost oa r m) {U : Fin k → E} {ortho : Ortho}
    {p : SolverArgs E} (hex : p.exact = none) {st : St ℝ E (GmresSt 𝕜 E × List (Fin k → 𝕜))} (hst : (deflGmresT a oa U ortho p).1.Is st)
    (hn : 2 ≤ st.resnorms.length) :
    ∃ e f, Explicit (deflGmresT a oa U ortho p).1 p st e f ∧ ∃ u ≤ (1 + oa.numQr) * k,
      DeflCounts (deflGmresT a oa U ortho p).2 (oa.setupOps r m u) k oa.iterations.toNat (x0Count p) (st.resnorms.length - 1) e f
        (arnCount ortho (st.resnorms.length - 1) st.s.1.arn.invariant .ipB)
        (arnCount ortho (st.resnorms.length - 1) st.s.1.arn.invariant .axpy + 2) := by
  have hlen : st.resnorms.length = st.s.1.arn.iter + 1 := by
    have hst' := hst
    rw [C89_gmres_erase a h] at hst'
    cases hs : mkLS a with
    | error e => rw [hs] at hst'; rcases hst' with h | h <;> simp at h
    | ok s =>
      rw [hs] at hst'
      dsimp only at hst'
      cases ho : mkObl s oa.erase U with
      | error e => rw [ho] at hst'; rcases hst' with h | h <;> simp at h
      | ok o =>
        rw [ho] at hst'
        exact ((C22_deflated_gmres s o ortho p).history st hst').1
  have hk : st.resnorms.length - 1 = st.s.1.arn.iter := by omega
  rw [hk]
  revert hst
  unfold deflGmresT
  rw [Tr.bind_fst, Tr.bind_snd]
  cases hm : (mkLST a).1 with
  | error e => rintro (h | h) <;> simp at h
  | ok s =>
    have hip : IsInner s.ip := by rw [mkLS_ip ((mkLST_erase a).symm.trans hm)]; exact h
    dsimp only
    rw [Tr.bind_fst, Tr.bind_snd, mkLST_cost hm]
    cases ho : (mkOblT s oa U).1 with
    | error e => rintro (h | h) <;> simp at h
    | ok o =>
      obtain ⟨hit, hit1, u, hu, hsu⟩ := C89_setup hoa ho
      dsimp only
      rw [Tr.bind_fst, Tr.bind_snd, hsu]
      cases hr : (o.initResT s p.x0).1 with
      | error e => rintro (h | h) <;> simp at h
      | ok q =>
        obtain ⟨hrc, hok⟩ := initResT_cost p hr
        obtain ⟨MMlr0, Mlr0, r0⟩ := q
        dsimp only
        rw [Tr.bind_fst, Tr.bind_snd, hrc]
        cases ha : (arnInitT (𝕜 := 𝕜) Mlr0 MMlr0 r0).1 with
        | error e => rintro (h | h) <;> simp at h
        | ok arn =>
          obtain ⟨h0, hc⟩ := arnInitT_cost ha
          dsimp only
          rw [runPostT_eq (by simp [mkCfgT, hex])]
          intro hst
          obtain ⟨⟨x, hmore⟩, e, f, he, hcost⟩ := runT_explicit_any (logT_costLaw (deflGmres_costLaw hip hok ortho p) _) hex _ _ _ st
            (fun x => by funext o; cases o <;> simp [withCompl, arnCount, gmresInit, h0]) hst hn
          have hinv : arn.invariant = false := by
            simp only [MethodT.log, deflGmresMethodT, gmresInit, Bool.and_eq_true, Bool.not_eq_true'] at hmore
            exact hmore.2
          refine ⟨e, f, he, u, hu, ?_⟩
          have hit' : o.proj.iterations - 1 + 1 = oa.iterations.toNat := by omega
          rw [hcost, hc hinv, hit']
          constructor <;> simp [-mul_ite, withCompl, complCost, initCost, arnCount, resCost, xkCost, corrCost] <;>
            (try generalize (if k = 0 then 0 else oa.iterations.toNat * (k + 1)) = z) <;> ring

/-- C89 (MINRES): as `C89_gmres` with four more vector updates per step. -/
theorem C89_minres {a : LSArgs 𝕜 E} (h : IsInner a.ip) {oa : OblArgsT 𝕜 E k} {r : ℕ} {m : Bool} (hoa : OblCost oa r m) {U : Fin k → E} {ortho : Ortho}
    {p : SolverArgs E} (hex : p.exact = none) {st : St ℝ E (MinresSt 𝕜 E × List (Fin k → 𝕜))} (hst : (deflMinresT a oa U ortho p).1.Is st)
    (hn : 2 ≤ st.resnorms.length) :
    ∃ e f, Explicit (deflMinresT a oa U ortho p).1 p st e f ∧ ∃ u ≤ (1 + oa.numQr) * k,
      DeflCounts (deflMinresT a oa U ortho p).2 (oa.setupOps r m u) k oa.iterations.toNat (x0Count p) (st.resnorms.length - 1) e f
        (arnCount ortho (st.resnorms.length - 1) st.s.1.arn.invariant .ipB)
        (arnCount ortho (st.resnorms.length - 1) st.s.1.arn.invariant .axpy + 4 * (st.resnorms.length - 1) + 2) := by
  have hlen : st.resnorms.length = st.s.1.arn.iter + 1 := by
    have hst' := hst
    rw [C89_minres_erase a h] at hst'
    cases hs : mkLS a with
    | error e => rw [hs] at hst'; rcases hst' with h | h <;> simp at h
    | ok s =>
      rw [hs] at hst'
      dsimp only at hst'
      cases ho : mkObl s oa.erase U with
      | error e => rw [ho] at hst'; rcases hst' with h | h <;> simp at h
      | ok o =>
        rw [ho] at hst'
        exact ((C22_deflated_minres s o ortho p).history st hst').1
  have hk : st.resnorms.length - 1 = st.s.1.arn.iter := by omega
  rw [hk]
  revert hst
  unfold deflMinresT
  rw [Tr.bind_fst, Tr.bind_snd]
  cases hm : (mkLST a).1 with
  | error e => rintro (h | h) <;> simp at h
  | ok s =>
    have hip : IsInner s.ip := by rw [mkLS_ip ((mkLST_erase a).symm.trans hm)]; exact h
    dsimp only
    rw [Tr.bind_fst, Tr.bind_snd, mkLST_cost hm]
    cases ho : (mkOblT s oa U).1 with
    | error e => rintro (h | h) <;> simp at h
    | ok o =>
      obtain ⟨hit, hit1, u, hu, hsu⟩ := C89_setup hoa ho
      dsimp only
      rw [Tr.bind_fst, Tr.bind_snd, hsu]
      cases hr : (o.initResT s p.x0).1 with
      | error e => rintro (h | h) <;> simp at h
      | ok q =>
        obtain ⟨hrc, hok⟩ := initResT_cost p hr
        obtain ⟨MMlr0, Mlr0, r0⟩ := q
        dsimp only
        rw [Tr.bind_fst, Tr.bind_snd, hrc]
        cases ha : (arnInitT (𝕜 := 𝕜) Mlr0 MMlr0 r0).1 with
        | error e => rintro (h | h) <;> simp at h
        | ok arn =>
          obtain ⟨h0, hc⟩ := arnInitT_cost ha
          dsimp only
          rw [runPostT_eq (by simp [mkCfgT, hex])]
          intro hst
          obtain ⟨⟨x, hmore⟩, e, f, he, hcost⟩ := runT_explicit_any (logT_costLaw (deflMinres_costLaw hip hok ortho p) _) hex _ _ _ st
            (fun x => by funext o; cases o <;> simp [withCompl, minresCount, arnCount, minresInit, h0]) hst hn
          have hinv : arn.invariant = false := by
            simp only [MethodT.log, deflMinresMethodT, minresInit, Bool.and_eq_true, Bool.not_eq_true'] at hmore
            exact hmore.2
          refine ⟨e, f, he, u, hu, ?_⟩
          have hit' : o.proj.iterations - 1 + 1 = oa.iterations.toNat := by omega
          rw [hcost, hc hinv, hit']
          constructor <;> simp [-mul_ite, withCompl, complCost, initCost, minresCount, arnCount, resCost, xkCost, corrCost] <;>
            (try generalize (if k = 0 then 0 else oa.iterations.toNat * (k + 1)) = z) <;> ring

/-- C89 (CG): as `C89_gmres`; `w` vector updates are due to `store_arnoldi`. -/
theorem C89_cg {a : LSArgs 𝕜 E} (h : IsInner a.ip) {oa : OblArgsT 𝕜 E k} {r : ℕ} {m : Bool} (hoa : OblCost oa r m) {U : Fin k → E} {store : Bool}
    {p : SolverArgs E} (hex : p.exact = none) {st : St ℝ E (CgSt 𝕜 E × List ((Fin k → 𝕜) × Option (Fin k → 𝕜)))}
    (hst : (deflCgT a oa U store p).1.Is st) (hn : 2 ≤ st.resnorms.length) :
    ∃ e f w, Explicit (deflCgT a oa U store p).1 p st e f ∧ (store = false → w = 0) ∧
      (store = true → w = 2 * (st.resnorms.length - 1) ∨ w = 2 * (st.resnorms.length - 1) + 2) ∧ ∃ u ≤ (1 + oa.numQr) * k,
      DeflCounts (deflCgT a oa U store p).2 (oa.setupOps r m u) k oa.iterations.toNat (x0Count p) (st.resnorms.length - 1) e f
        (2 * (st.resnorms.length - 1)) (3 * (st.resnorms.length - 1) - 1 + w) := by
  have hlen : st.resnorms.length = st.s.1.k + 1 := by
    have hst' := hst
    rw [C89_cg_erase a h] at hst'
    cases hs : mkLS a with
    | error e => rw [hs] at hst'; rcases hst' with h | h <;> simp at h
    | ok s =>
      rw [hs] at hst'
      dsimp only at hst'
      cases ho : mkObl s oa.erase U with
      | error e => rw [ho] at hst'; rcases hst' with h | h <;> simp at h
      | ok o =>
        rw [ho] at hst'
        exact ((C22_deflated_cg s o store p).history st hst').1
  have hk : st.resnorms.length - 1 = st.s.1.k := by omega
  rw [hk]
  revert hst
  unfold deflCgT
  rw [Tr.bind_fst, Tr.bind_snd]
  cases hm : (mkLST a).1 with
  | error e => rintro (h | h) <;> simp at h
  | ok s =>
    have hip : IsInner s.ip := by rw [mkLS_ip ((mkLST_erase a).symm.trans hm)]; exact h
    dsimp only
    rw [Tr.bind_fst, Tr.bind_snd, mkLST_cost hm]
    cases ho : (mkOblT s oa U).1 with
    | error e => rintro (h | h) <;> simp at h
    | ok o =>
      obtain ⟨hit, hit1, u, hu, hsu⟩ := C89_setup hoa ho
      dsimp only
      rw [Tr.bind_fst, Tr.bind_snd, hsu]
      cases hr : (o.initResT s p.x0).1 with
      | error e => rintro (h | h) <;> simp at h
      | ok q =>
        obtain ⟨hrc, hok⟩ := initResT_cost p hr
        obtain ⟨MMlr0, Mlr0, r0⟩ := q
        dsimp only
        rw [Tr.bind_fst, Tr.bind_snd, hrc]
        have hi : (cgInitT (𝕜 := 𝕜) store MMlr0 Mlr0 r0).1 = cgInit MMlr0 Mlr0 r0 := by
          unfold cgInitT; split <;> rfl
        have hc : ∃ v, (cgInitT (𝕜 := 𝕜) store MMlr0 Mlr0 r0).2 = Pi.single Op.axpy v ∧ (store = false → v = 0) ∧ (v = 0 ∨ v = 2) := by
          unfold cgInitT
          split
          next h =>
            refine ⟨2, ?_, ?_, Or.inr rfl⟩
            · funext o
              cases o <;> simp [Tr.bind_snd]
            · intro h0
              simp [h0] at h
          next h => exact ⟨0, by simp, fun _ => rfl, Or.inl rfl⟩
        obtain ⟨v, hv, hv0, hv2⟩ := hc
        rw [hi, hv, runPostT_eq (by simp [mkCfgT, hex])]
        intro hst
        obtain ⟨-, e, f, he, hcost⟩ := runT_explicit_any (logT_costLaw (deflCg_costLaw hip hok store p) _) hex _ _ _ st
          (fun x => by funext o; cases o <;> simp [withCompl, cgCount, cgInit]) hst hn
        refine ⟨e, f, v + if store then 2 * st.s.1.k else 0, he, fun h => by simp [h, hv0 h], fun h => ?_, u, hu, ?_⟩
        · rcases hv2 with rfl | rfl <;> simp [h] <;> omega
        have hit' : o.proj.iterations - 1 + 1 = oa.iterations.toNat := by omega
        rw [hcost, hit']
        constructor <;> simp [-mul_ite, withCompl, complCost, initCost, cgCount, resCost, xkCost, corrCost] <;>
            (try generalize (if k = 0 then 0 else oa.iterations.toNat * (k + 1)) = z) <;> ring

/-! ### Comparison with `estimate_time` -/

/-- The number of operations on which `estimate_time(nsteps, ndefl)` is based (deflation.py 206-233 with `deflweight=1`). -/
def estimated (kind : SolverKind) (n k : ℕ) (o : Op) : ℚ := published kind n o + opCount (projOps kind (n : ℚ) (k : ℚ)) o

/-- The parameters of `ObliqueProjection` if only `linear_system` and `U` are given (deflation.py 33, utils.py 440): `qr_reorthos=0`, two different bases,
orthogonalised, two iterations. -/
structure DefaultObl (oa : OblArgsT 𝕜 E k) (m : Bool) : Prop where
  cost : OblCost oa 0 m
  same : oa.same = false
  orthogonalize : oa.orthogonalize = true
  iterations : oa.iterations = 2

/-- How the counts `c` of a call with `n` iterations and `k` deflation vectors differ from the estimate: `x` is `1` if `x0` is given. -/
structure Compared (kind : SolverKind) (c : Op → ℕ) (n k x : ℕ) (m : Bool) : Prop where
  A : (c .A : ℚ) = estimated kind n k .A + 1 + x
  M : (c .M : ℚ) = estimated kind n k .M + 1 - k
  Ml : (c .Ml : ℚ) = estimated kind n k .Ml + 1 + x
  Mr : (c .Mr : ℚ) = estimated kind n k .Mr
  ipB : (c .ipB : ℚ) = estimated kind n k .ipB + 1 - k + 2 * k ^ 2
  Minv : (c .Minv : ℚ) = estimated kind n k .Minv + if m then (k : ℚ) * (k + 1) / 2 else 0

theorem cast_tri (k : ℕ) : ((k * (k - 1) / 2 : ℕ) : ℚ) = (k : ℚ) * (k - 1) / 2 := by
  cases k with
  | zero => simp
  | succ n =>
    have := cast_half n
    rw [Nat.add_sub_cancel, mul_comm, this]
    push_cast
    ring

theorem Explicit.converged {S : Type*} {o : Outcome (St ℝ E S)} {p : SolverArgs E} {st : St ℝ E S} {e f : ℕ} (h : Explicit o p st e f)
    (hexp : p.explicitResidual = false) (hw : st.warnings = 0) (hconv : o = .returned st → ∃ r, st.resnorms.getLast? = some r ∧ r ≤ p.tol) :
    e = 1 ∧ f = 1 := by
  obtain ⟨h1, h2, h3, h4, h5⟩ := h.no hexp
  refine ⟨?_, h4 hw⟩
  by_contra hne
  obtain ⟨h6, r, h7, h8⟩ := h5 (by omega)
  obtain ⟨r', h9, h10⟩ := hconv h6
  rw [h7] at h9
  obtain rfl := Option.some.inj h9
  exact absurd h10 (not_le.mpr h8)

theorem DeflCounts.compared {kind : SolverKind} {oa : OblArgsT 𝕜 E k} {m : Bool} (hd : DefaultObl oa m) {c : Op → ℕ} {u x n ips axpys : ℕ}
    (h : DeflCounts c (oa.setupOps 0 m u) k oa.iterations.toNat x n 1 1 ips axpys) (hip : (ips : ℚ) + 2 = published kind n .ipB) :
    Compared kind c n k x m := by
  have hq := cast_tri k
  have ho := hd.orthogonalize
  have hs := hd.same
  have hi := hd.iterations
  constructor
  · rw [h.A]
    cases kind <;> simp [OblArgsT.setupOps, estimated, published, operations, projOps, opCount] <;> ring
  · rw [h.M]
    cases kind <;> simp [OblArgsT.setupOps, estimated, published, operations, projOps, opCount] <;> ring
  · rw [h.Ml]
    cases kind <;> simp [OblArgsT.setupOps, estimated, published, operations, projOps, opCount] <;> ring
  · rw [h.Mr]
    cases kind <;> simp [OblArgsT.setupOps, estimated, published, operations, projOps, opCount] <;> ring
  · rw [h.ipB, estimated, ← hip]
    have hMl : opCount (operations kind (n : ℚ)) .Ml = 2 + n := by cases kind <;> rfl
    simp only [OblArgsT.setupOps, OblArgsT.numQr, ho, hs, hi, qrIps, projOps, hMl]
    simp [hq, opCount]
    ring
  · rw [h.Minv]
    cases m <;> cases kind <;>
      simp [OblArgsT.setupOps, qrIps, estimated, published, operations, projOps, opCount, hq] <;> ring

/-- C89 (GMRES, comparison): for the default parameters and a call which converged without warnings, `estimate_time` for the actual numbers of iterations and
deflation vectors counts the applications of `Mr` correctly, one application of `A` and `Ml` too few (two if `x0` is given), `k - 1` applications of `M` too
many, `2k² - k + 1` inner products too few, and not the applications of `Minv`. -/
theorem C89_gmres_estimate {a : LSArgs 𝕜 E} (h : IsInner a.ip) {oa : OblArgsT 𝕜 E k} {m : Bool} (hd : DefaultObl oa m) {U : Fin k → E}
    {p : SolverArgs E} (hex : p.exact = none) (hexp : p.explicitResidual = false) {st : St ℝ E (GmresSt 𝕜 E × List (Fin k → 𝕜))}
    (hst : (deflGmresT a oa U .mgs p).1.Is st) {n : ℕ} (hn1 : 1 ≤ n) (hn : st.resnorms.length = n + 1) (hw : st.warnings = 0)
    (hconv : (deflGmresT a oa U .mgs p).1 = .returned st → ∃ r, st.resnorms.getLast? = some r ∧ r ≤ p.tol) :
    Compared .gmres (deflGmresT a oa U .mgs p).2 n k (x0Count p) m := by
  obtain ⟨e, f, he, u, hu, hc⟩ := C89_gmres h hd.cost hex hst (by omega)
  have hL : st.resnorms.length - 1 = n := by omega
  obtain ⟨rfl, rfl⟩ := he.converged hexp hw hconv
  rw [hL] at hc
  refine hc.compared hd ?_
  rw [(arnCount_mgs n _).1, Nat.cast_add, cast_half]
  simp [published, operations, opCount]
  ring

/-- C89 (MINRES, comparison): as `C89_gmres_estimate`. -/
theorem C89_minres_estimate {a : LSArgs 𝕜 E} (h : IsInner a.ip) {oa : OblArgsT 𝕜 E k} {m : Bool} (hd : DefaultObl oa m) {U : Fin k → E}
    {p : SolverArgs E} (hex : p.exact = none) (hexp : p.explicitResidual = false) {st : St ℝ E (MinresSt 𝕜 E × List (Fin k → 𝕜))}
    (hst : (deflMinresT a oa U .lanczos p).1.Is st) {n : ℕ} (hn1 : 1 ≤ n) (hn : st.resnorms.length = n + 1) (hw : st.warnings = 0)
    (hconv : (deflMinresT a oa U .lanczos p).1 = .returned st → ∃ r, st.resnorms.getLast? = some r ∧ r ≤ p.tol) :
    Compared .minres (deflMinresT a oa U .lanczos p).2 n k (x0Count p) m := by
  obtain ⟨e, f, he, u, hu, hc⟩ := C89_minres h hd.cost hex hst (by omega)
  have hL : st.resnorms.length - 1 = n := by omega
  obtain ⟨rfl, rfl⟩ := he.converged hexp hw hconv
  rw [hL] at hc
  refine hc.compared hd ?_
  rw [(arnCount_lanczos n _ hn1).1]
  simp [published, operations, opCount]
  ring

/-- C89 (CG, comparison): as `C89_gmres_estimate`. -/
theorem C89_cg_estimate {a : LSArgs 𝕜 E} (h : IsInner a.ip) {oa : OblArgsT 𝕜 E k} {m : Bool} (hd : DefaultObl oa m) {U : Fin k → E} {store : Bool}
    {p : SolverArgs E} (hex : p.exact = none) (hexp : p.explicitResidual = false)
    {st : St ℝ E (CgSt 𝕜 E × List ((Fin k → 𝕜) × Option (Fin k → 𝕜)))}
    (hst : (deflCgT a oa U store p).1.Is st) {n : ℕ} (hn1 : 1 ≤ n) (hn : st.resnorms.length = n + 1) (hw : st.warnings = 0)
    (hconv : (deflCgT a oa U store p).1 = .returned st → ∃ r, st.resnorms.getLast? = some r ∧ r ≤ p.tol) :
    Compared .cg (deflCgT a oa U store p).2 n k (x0Count p) m := by
  obtain ⟨e, f, w, he, -, -, u, hu, hc⟩ := C89_cg h hd.cost hex hst (by omega)
  have hL : st.resnorms.length - 1 = n := by omega
  obtain ⟨rfl, rfl⟩ := he.converged hexp hw hconv
  rw [hL] at hc
  refine hc.compared hd ?_
  simp [published, operations, opCount]
  ring

end FinalDefl

/-! ### Non-vacuity -/

/-- `exObl` with the counts of `qr`. -/
noncomputable def exOblT {E : Type*} [AddCommGroup E] [Module ℝ E] (ip : E → E → ℝ) : OblArgsT ℝ E 1 :=
  ⟨fun U => (qr1 ip U, qrOps 0 1 1 false), fun U => (qr1 ip U, qrOps 1 1 1 false), fun M => (1, M), false, true, 2⟩

theorem exOblT_default {E : Type*} [AddCommGroup E] [Module ℝ E] (ip : E → E → ℝ) : DefaultObl (exOblT ip) false :=
  ⟨⟨fun _ _ _ => ⟨1, le_rfl, rfl⟩, fun _ _ _ => ⟨1, le_rfl, rfl⟩⟩, rfl, rfl, rfl⟩

/-- The parameters with the library's own `qr` are default parameters as well. -/
example {𝕜 E : Type*} [RCLike 𝕜] [AddCommGroup E] [Module 𝕜 E] {k : ℕ} (ip : E → E → 𝕜) (Minv : Option (E →ₗ[𝕜] E))
    (matQr : Matrix (Fin k) (Fin k) 𝕜 → Matrix (Fin k) (Fin k) 𝕜 × Matrix (Fin k) (Fin k) 𝕜) :
    DefaultObl (ownOblArgs ip Minv 0 matQr false true 2) Minv.isSome := ⟨C89_own _ _ _ _ _ _ _, rfl, rfl, rfl⟩

/-- Deflation of `A = diag(1, 2)`, `b = (1, 1)` with the vector `(1, 1)`: no initial guess in the deflation space solves the system. -/
theorem exSpd_resid {w : ℝ × ℝ} (hw : w ∈ Submodule.span ℝ (Set.range fun _ : Fin 1 => ((1 : ℝ), (1 : ℝ)))) : resid exSpd (0 + exSpd.Mr w) ≠ 0 := by
  intro h0
  have h1 := exSpd_hyp.ls.prec.nrm_eq_zero.mp h0
  rw [Set.range_const, Submodule.mem_span_singleton] at hw
  obtain ⟨c, rfl⟩ := hw
  have h2 := congrArg Prod.fst h1
  have h3 := congrArg Prod.snd h1
  simp [exSpd, exCfg] at h2 h3
  linarith

/-- Non-vacuity of `C89_cg`, `C89_cg_estimate`: the counts of the deflated solution of this system. -/
example : ∃ st n, (deflCgT exSpd (exOblT exSpd.ip) (fun _ => ((1 : ℝ), (1 : ℝ))) true ⟨none, 0, 1, false, none⟩).1 = .returned st ∧ 1 ≤ n ∧
    st.resnorms.length = n + 1 ∧
    Compared .cg (deflCgT exSpd (exOblT exSpd.ip) (fun _ => ((1 : ℝ), (1 : ℝ))) true ⟨none, 0, 1, false, none⟩).2 n 1 0 false := by
  have hd := exSpd_defl
  obtain ⟨s, hs, -⟩ := mkLS_ok hd.ls
  obtain ⟨o, ho⟩ := C36_total hd hs
  have hb : exSpd.Ml exSpd.b ≠ 0 := by simp [exSpd]
  have hfin : Module.finrank ℝ (ℝ × ℝ) ≤ 1 + 1 := by simp
  have hMr : ∀ j : Fin 1, exSpd.Mr ((fun _ => ((1 : ℝ), (1 : ℝ)) : Fin 1 → ℝ × ℝ) j) = (1, 1) := fun _ => rfl
  obtain ⟨st, h1, r, h2, h3⟩ := C37_cg_terminates hd hs ho exSpd_hyp hMr true ⟨none, 0, 1, false, none⟩ le_rfl hb hfin
  have he : (deflCgT exSpd (exOblT exSpd.ip) (fun _ => ((1 : ℝ), (1 : ℝ))) true ⟨none, 0, 1, false, none⟩).1 = .returned st := by
    rw [C89_cg_erase _ hd.ls.inner, hs]
    dsimp only
    rw [show (exOblT exSpd.ip).erase = exObl exSpd.ip from rfl, ho]
    exact h1
  obtain ⟨hw, -, w, -, h4⟩ := C37_cg hd hs ho exSpd_hyp hMr true ⟨none, 0, 1, false, none⟩ le_rfl hb
    (complLin_isDeflProj hd.ls.inner hd.nonsing) (Or.inl h1)
  have hlen : 2 ≤ st.resnorms.length := by
    by_contra hlt
    have hpos : 0 < st.resnorms.length := by
      rcases List.length_pos_iff.mpr (fun h : st.resnorms = [] => by simp [h] at h2) with h
      exact h
    obtain ⟨h5, h6, -⟩ := h4 0 hpos
    have hr : st.resnorms[0] = r := by
      rw [List.getLast?_eq_getElem?, List.getElem?_eq_getElem (by omega)] at h2
      have := Option.some.inj h2
      rw [← this]
      congr 1
      omega
    have h7 := exSpd_resid (w := w 0) (by simpa [deflKry, krylov_eq_spanTo, spanTo_zero] using h5)
    have h8 : 0 ≤ resid exSpd (0 + exSpd.Mr (w 0)) := nrm_nonneg _ _
    have h9 : 0 ≤ resid exSpd 0 := nrm_nonneg _ _
    simp only [Option.getD_none] at h6
    rw [hr] at h6
    have h10 : r ≤ 0 := h3
    have : r * resid exSpd 0 ≤ 0 := mul_nonpos_of_nonpos_of_nonneg h10 h9
    exact h7 (le_antisymm (h6 ▸ this) h8)
  refine ⟨st, st.resnorms.length - 1, he, by omega, by omega, ?_⟩
  exact C89_cg_estimate hd.ls.inner (exOblT_default _) rfl rfl (Or.inl he) (by omega) (by omega) hw fun _ => ⟨r, h2, h3⟩

end Krypy
