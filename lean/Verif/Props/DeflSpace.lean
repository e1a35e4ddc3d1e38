import Verif.Props.Deflation
import Verif.Props.DeflConv
import Verif.Model.RecyclingArn

/-!
# Property C88: the deflated solvers depend only on the deflation space

`DeflatedGmres`, `DeflatedMinres` and `DeflatedCg` get a basis `U`.  Without basis vectors they are the plain solvers; and
two bases of the same space give the same runs, whatever the options of the projection are.
-/

set_option linter.unusedSectionVars false

namespace Krypy
open scoped ComplexConjugate
open Matrix

/-! ## Forgetting what only the deflated solvers record -/

/-- What can be observed of a deflated solver apart from `C`: the outcome and the attributes of the plain solver. -/
def Outcome.forget {F X S L : Type*} : Outcome (St F X (S × L)) → Outcome (St F X S)
  | .returned st => .returned ⟨st.s.1, st.iter, st.xk, st.resnorms, st.errnorms, st.warnings⟩
  | .convergence st => .convergence ⟨st.s.1, st.iter, st.xk, st.resnorms, st.errnorms, st.warnings⟩
  | .raised e => .raised e
  | .outOfFuel => .outOfFuel

section log
variable {F X S T : Type*} [LE F] [LT F] [DecidableLE F] [DecidableLT F] [Div F]
  {m : Method F X S} {f : S → List T → Except Err T} {cfg : Cfg F X}

/-- The log can only fail where the step fails, and then with the same error. -/
def LogTotal (m : Method F X S) (f : S → List T → Except Err T) : Prop :=
  ∀ s l, (∃ c, f s l = .ok c) ∨ ∃ e, f s l = .error e ∧ m.step s = .error e

private def fgt (st : St F X (S × List T)) : St F X S := st.setS st.s.1

private theorem forget_eq (o : Outcome (St F X (S × List T))) : o.forget = match o with
    | .returned st => .returned (fgt st)
    | .convergence st => .convergence (fgt st)
    | .raised e => .raised e
    | .outOfFuel => .outOfFuel := by
  cases o <;> rfl

private theorem withErr_fgt (g : Except Err X) (st : St F X (S × List T)) :
    withErr cfg g (fgt st) = (withErr cfg g st).map fgt ∧
      ∀ st', withErr cfg g st = .ok st' → st'.s = st.s := by
  unfold withErr
  cases cfg.errNorm with
  | none => exact ⟨rfl, fun st' h => by obtain rfl := Except.ok.inj h; rfl⟩
  | some en =>
    cases g with
    | error e => exact ⟨rfl, fun st' h => by simp at h⟩
    | ok x =>
      dsimp only
      cases en x with
      | error e => exact ⟨rfl, fun st' h => by simp at h⟩
      | ok y => exact ⟨rfl, fun st' h => by obtain rfl := Except.ok.inj h; rfl⟩

private def fgtFin : Res3 (St F X (S × List T) × Option F) (St F X (S × List T)) → Res3 (St F X S × Option F) (St F X S)
  | .ok (st, r) => .ok (fgt st, r)
  | .convergence st => .convergence (fgt st)
  | .raised e => .raised e

private theorem finalize_fgt (g : Except Err X) (r : F) (st : St F X (S × List T)) :
    finalizeIteration cfg g r (fgt st) = fgtFin (finalizeIteration cfg g r st) := by
  unfold finalizeIteration
  rw [(withErr_fgt g st).1]
  cases withErr cfg g st with
  | error e => rfl
  | ok st =>
    simp only [Except.map]
    have e1 : wantExplicit cfg (fgt st) r = wantExplicit cfg st r := rfl
    rw [e1]
    by_cases hwe : wantExplicit cfg st r = true
    · rw [if_pos hwe, if_pos hwe]
      have e2 : (fgt st).xk = st.xk := rfl
      rw [e2]
      have key : ∀ q : Except Err X, (match q with
          | .error e => Res3.raised e
          | .ok x => match cfg.resNorm x with
            | .error e => (Res3.raised e : Res3 (St F X S × Option F) (St F X S))
            | .ok rkn =>
              let st := { (fgt st) with xk := some x, resnorms := (fgt st).resnorms ++ [rkn / cfg.MMlbNorm] }
              if cfg.tol < rkn / cfg.MMlbNorm then
                if st.iter + 1 = cfg.maxiter then .convergence st
                else if ¬ cfg.explicitResidual ∧ r / cfg.MMlbNorm ≤ cfg.tol then
                  .ok ({ st with warnings := st.warnings + 1 }, some rkn)
                else .ok (st, some rkn)
              else .ok (st, some rkn)) = fgtFin (match q with
          | .error e => Res3.raised e
          | .ok x => match cfg.resNorm x with
            | .error e => .raised e
            | .ok rkn =>
              let st := { st with xk := some x, resnorms := st.resnorms ++ [rkn / cfg.MMlbNorm] }
              if cfg.tol < rkn / cfg.MMlbNorm then
                if st.iter + 1 = cfg.maxiter then .convergence st
                else if ¬ cfg.explicitResidual ∧ r / cfg.MMlbNorm ≤ cfg.tol then
                  .ok ({ st with warnings := st.warnings + 1 }, some rkn)
                else .ok (st, some rkn)
              else .ok (st, some rkn)) := by
        intro q
        cases q with
        | error e => rfl
        | ok x =>
          dsimp only
          cases cfg.resNorm x with
          | error e => rfl
          | ok rkn =>
            dsimp only
            have e3 : (fgt st).iter = st.iter := rfl
            rw [e3]
            split_ifs <;> rfl
      exact key _
    · rw [if_neg hwe, if_neg hwe]
      rfl

private def fgtRes : Res3 (St F X (S × List T)) (St F X (S × List T)) → Res3 (St F X S) (St F X S)
  | .ok st => .ok (fgt st)
  | .convergence st => .convergence (fgt st)
  | .raised e => .raised e

private theorem body_fgt (ht : LogTotal m f) (st : St F X (S × List T)) :
    body cfg m (fgt st) = fgtRes (body cfg (m.log f) st) := by
  unfold body
  have e1 : (m.log f).step st.s = (match f st.s.1 st.s.2 with
    | .error e => .error e
    | .ok c => match m.step st.s.1 with
      | .error e => .error e
      | .ok (s', r) => .ok ((s', st.s.2 ++ [c]), r)) := rfl
  have e2 : (fgt st).s = st.s.1 := rfl
  simp only [e1, e2]
  rcases ht st.s.1 st.s.2 with ⟨c, hc⟩ | ⟨e, he, hs⟩
  · rw [hc]
    cases hs : m.step st.s.1 with
    | error e => rfl
    | ok p =>
      obtain ⟨s', r⟩ := p
      dsimp only
      have := finalize_fgt (cfg := cfg) (m.getXk s') r
        ({ st with iter := m.k st.s.1, s := (s', st.s.2 ++ [c]) } : St F X (S × List T))
      have e3 : (m.log f).getXk (s', st.s.2 ++ [c]) = m.getXk s' := rfl
      have e4 : (m.log f).k st.s = m.k st.s.1 := rfl
      rw [e3, e4]
      have e5 : ({ (fgt st) with iter := m.k st.s.1, s := s' } : St F X S) =
        fgt ({ st with iter := m.k st.s.1, s := (s', st.s.2 ++ [c]) } : St F X (S × List T)) := rfl
      rw [e5, this]
      rcases finalizeIteration cfg (m.getXk s') r
        ({ st with iter := m.k st.s.1, s := (s', st.s.2 ++ [c]) } : St F X (S × List T)) with ⟨st1, rkn⟩ | st1 | e <;> rfl
  · rw [he, hs]
    rfl

private theorem finish_fgt (st : St F X (S × List T)) : finish m (fgt st) = (finish (m.log f) st).forget := by
  unfold finish
  have e1 : (fgt st).xk = st.xk := rfl
  have e2 : (m.log f).getXk st.s = m.getXk st.s.1 := rfl
  have e3 : (fgt st).s = st.s.1 := rfl
  rw [e1, e2, e3]
  cases st.xk with
  | some x => rfl
  | none => cases m.getXk st.s.1 <;> rfl

private theorem loop_fgt (ht : LogTotal m f) (n : ℕ) (st : St F X (S × List T)) :
    loop cfg m n (fgt st) = (loop cfg (m.log f) n st).forget := by
  have hg : ∀ st, loopGuard cfg m (fgt st) = loopGuard cfg (m.log f) st := fun _ => rfl
  induction n generalizing st with
  | zero =>
    unfold loop
    rw [hg]
    split_ifs
    · rfl
    · exact finish_fgt st
  | succ n ih =>
    unfold loop
    rw [hg]
    split_ifs
    · dsimp only
      rw [body_fgt ht]
      rcases body cfg (m.log f) st with st1 | st1 | e
      · exact ih st1
      · rfl
      · rfl
    · exact finish_fgt st

/-- A run with a log is the run without it, up to the log. -/
theorem run_log [Zero F] [BEq F] [Zero X] (ht : LogTotal m f) (x0 : X) (r : F) (mk : X → S) (xk0 : X → Except Err X) :
    (run cfg (m.log f) x0 r (fun x => (mk x, [])) xk0).forget = run cfg m x0 r mk xk0 := by
  unfold run
  dsimp only
  cases initErr cfg (xk0 (if cfg.MMlbNorm == 0 then 0 else x0)) with
  | error e => rfl
  | ok l => exact (loop_fgt ht _ _).symm

end log

variable {𝕜 E : Type*} [RCLike 𝕜] [AddCommGroup E] [Module 𝕜 E] {k : ℕ}

/-! ## Deflated solvers are the plain solvers with other operators -/

section
variable {s : LS 𝕜 E} {o : Obl 𝕜 E k} (hC : ∀ v, ∃ c, o.newC s v = .ok c)
include hC

theorem forget_gmres (ortho : Ortho) (p : SolverArgs E) :
    (deflatedGmres s o ortho p).forget = gmres s (o.hooks s) ortho p := by
  unfold deflatedGmres gmres gmresRun
  dsimp only
  have e : (o.hooks s).initRes p.x0 = o.initRes s p.x0 := rfl
  rw [e]
  rcases o.initRes s p.x0 with e | ⟨M, v, r⟩
  · rfl
  dsimp only
  cases arnInit (s.arnCfg (o.hooks s) p.maxiter ortho) v (some M) (some r) with
  | error e => rfl
  | ok arn => exact run_log (fun st l => Or.inl (hC _)) _ _ _ _

theorem forget_minres (ortho : Ortho) (p : SolverArgs E) :
    (deflatedMinres s o ortho p).forget = minres s (o.hooks s) ortho p := by
  unfold deflatedMinres minres minresRun
  dsimp only
  have e : (o.hooks s).initRes p.x0 = o.initRes s p.x0 := rfl
  rw [e]
  rcases o.initRes s p.x0 with e | ⟨M, v, r⟩
  · rfl
  dsimp only
  cases arnInit (s.arnCfg (o.hooks s) p.maxiter ortho) v (some M) (some r) with
  | error e => rfl
  | ok arn => exact run_log (fun st l => Or.inl (hC _)) _ _ _ _

theorem newCgC_total (t : CgSt 𝕜 E) (l : List ((Fin k → 𝕜) × Option (Fin k → 𝕜))) {p : E} (hp : cgDir t = .ok p) :
    ∃ c, o.newCgC s t l = .ok c := by
  obtain ⟨c, hc⟩ := hC p
  unfold Obl.newCgC
  simp only [hp, hc]
  by_cases h : t.rho t.k = 0 ∨ 0 < t.k ∧ t.rho (t.k - 1) = 0 ∨ 1 < t.k ∧ t.rho (t.k - 2) = 0
  · rw [if_pos h]; exact ⟨_, rfl⟩
  rw [if_neg h]
  by_cases h0 : 0 < t.k
  · rw [if_pos h0]
    rcases fromEnd l 1 with _ | ⟨u, _ | w⟩ <;> exact ⟨_, rfl⟩
  · rw [if_neg h0]
    exact ⟨_, rfl⟩

theorem forget_cg (store : Bool) (p : SolverArgs E) :
    (deflatedCg s o store p).forget = cg s (o.hooks s) store p := by
  unfold deflatedCg cg
  have e : (o.hooks s).initRes p.x0 = o.initRes s p.x0 := rfl
  rw [e]
  rcases o.initRes s p.x0 with e | ⟨M, v, r⟩
  · rfl
  refine run_log (fun t l => ?_) _ _ _ _
  cases hp : cgDir t with
  | ok q => exact Or.inl (newCgC_total hC t l hp)
  | error e =>
    refine Or.inr ⟨e, ?_, ?_⟩
    · simp only [Obl.newCgC, hp]
    · change cgStep s.ip s.M (o.op s) store t = _
      simp only [cgStep, hp]

end

/-! ## No deflation vectors -/

section empty
variable {a : LSArgs 𝕜 E} {s : LS 𝕜 E} (hs : mkLS a = .ok s) {oa : OblArgs 𝕜 E 0} {U : Fin 0 → E} {o : Obl 𝕜 E 0}
  (ho : mkObl s oa U = .ok o)

/-- C88, no basis vectors: the constructor of the projection succeeds exactly if the factorisation of the empty array does
and the number of iterations is admissible. -/
theorem C88_empty_total (s : LS 𝕜 E) (oa : OblArgs 𝕜 E 0) (U : Fin 0 → E) :
    (∃ o, mkObl s oa U = .ok o) ↔ (∃ q, oa.qrM U = .ok q) ∧ 1 ≤ oa.iterations := by
  unfold mkObl
  cases hq : oa.qrM U with
  | error e => simp
  | ok q =>
    obtain ⟨V, R⟩ := q
    dsimp only
    by_cases hi : oa.iterations < 1
    · simp [mkProj, hi]
    · simp [mkProj, hi, not_lt.mp hi]

theorem mkObl_empty (ho : mkObl s oa U = .ok o) : ∃ n, o.proj = ⟨0, 0, none, none, none, n⟩ := by
  unfold mkObl at ho
  rcases hq : oa.qrM U with e | ⟨V, R⟩
  · simp [hq] at ho
  simp only [hq] at ho
  by_cases hi : oa.iterations < 1
  · simp [mkProj, hi] at ho
  · simp only [mkProj, hi, if_false, if_true, Except.ok.injEq] at ho
    rw [← ho]
    exact ⟨_, rfl⟩

include ho in
/-- C88, no basis vectors: `correct` returns its argument. -/
theorem C88_empty_correct (z : E) : o.correct s z = .ok z := by
  obtain ⟨n, hn⟩ := mkObl_empty ho
  unfold Obl.correct
  rw [hn]
  simp [solveQR, undoVR, lincomb]

include ho in
theorem empty_op : o.op s = s.MlAMr := by
  have hc : o.compl s = id := by
    funext v
    simp [Obl.compl, Proj.applyCompl]
  have hl : IsLinearMap 𝕜 (o.compl s) := by rw [hc]; exact LinearMap.id.isLinear
  unfold Obl.op
  rw [dif_pos hl]
  ext x
  simp [LinearMap.comp_apply, hc]

include hs in
theorem empty_initRes (o : Obl 𝕜 E 0) (x : Option E) : o.initRes s x = s.getResidualNorm x := by
  have key : ∀ v, (match o.proj.applyCompl s.ip v with
      | .error e => .error e
      | .ok (PMlr, _) =>
        match npNorm (s.ip PMlr (s.M PMlr)) with
        | .error e => .error e
        | .ok nr => .ok (s.M PMlr, PMlr, nr) : Except Err (E × E × ℝ)) = (match npNorm (s.ip v (s.M v)) with
        | .error e => .error e
        | .ok nr => .ok (s.M v, v, nr)) := by
    intro v
    simp [Proj.applyCompl]
  unfold Obl.initRes LS.getResidualNorm
  cases x with
  | some x => exact key _
  | none =>
    refine (key _).trans ?_
    unfold mkLS at hs
    dsimp only at hs
    generalize (if a.selfAdjoint = true then true else a.normal.getD false) = normal at hs
    by_cases hb : (a.selfAdjoint && !normal) = true
    · simp [hb] at hs
    · rw [if_neg hb] at hs
      cases hn : npNorm (a.ip (a.Ml a.b) (a.M (a.Ml a.b))) with
      | error e => simp [hn] at hs
      | ok nb =>
        simp only [hn, Except.ok.injEq] at hs
        subst hs
        simp only [hn]

include hs ho

/-- C88, no basis vectors: initial residual, operator and correction are those of the plain solvers. -/
theorem C88_empty_hooks : o.hooks s = s.hooks := by
  unfold Obl.hooks LS.hooks
  rw [empty_op ho, show o.initRes s = s.getResidualNorm from funext (empty_initRes hs o),
    show o.correct s = .ok from funext (C88_empty_correct ho)]

omit hs ho in
theorem empty_newC (o : Obl 𝕜 E 0) (s : LS 𝕜 E) (v : E) : ∃ c, o.newC s v = .ok c := by
  simp [Obl.newC, Proj.applyCompl]

/-- C88: `DeflatedGmres` without basis vectors is `Gmres`. -/
theorem C88_empty_gmres (ortho : Ortho) (p : SolverArgs E) :
    (deflatedGmres s o ortho p).forget = gmres s s.hooks ortho p := by
  rw [forget_gmres (empty_newC o s), C88_empty_hooks hs ho]

/-- C88: `DeflatedMinres` without basis vectors is `Minres`. -/
theorem C88_empty_minres (ortho : Ortho) (p : SolverArgs E) :
    (deflatedMinres s o ortho p).forget = minres s s.hooks ortho p := by
  rw [forget_minres (empty_newC o s), C88_empty_hooks hs ho]

/-- C88: `DeflatedCg` without basis vectors is `Cg`. -/
theorem C88_empty_cg (store : Bool) (p : SolverArgs E) :
    (deflatedCg s o store p).forget = cg s s.hooks store p := by
  rw [forget_cg (empty_newC o s), C88_empty_hooks hs ho]

end empty

/-! ## Two bases of the same space -/

section same
variable {k' : ℕ} {a : LSArgs 𝕜 E} {s : LS 𝕜 E} {oa : OblArgs 𝕜 E k} {oa' : OblArgs 𝕜 E k'} {U : Fin k → E} {U' : Fin k' → E}
  {o : Obl 𝕜 E k} {o' : Obl 𝕜 E k'}

theorem IsDeflProj.of_span {Q : E →ₗ[𝕜] E} (hi : IsInner a.ip)
    (hU : Submodule.span 𝕜 (Set.range U) = Submodule.span 𝕜 (Set.range U')) (h : IsDeflProj a U Q) : IsDeflProj a U' Q := by
  have hmem : ∀ j, U' j ∈ Submodule.span 𝕜 (Set.range U) := fun j => by
    rw [hU]; exact Submodule.subset_span ⟨j, rfl⟩
  have e : ∀ {n : ℕ} (W : Fin n → E), Submodule.span 𝕜 (Set.range fun j => a.Ml (a.A (a.Mr (W j)))) =
      (Submodule.span 𝕜 (Set.range W)).map a.B := by
    intro n W
    rw [Submodule.map_span, ← Set.range_comp]
    rfl
  refine ⟨fun v => ?_, fun v j => ?_⟩
  · rw [e, ← hU, ← e]
    exact h.diff v
  · obtain ⟨c, hc⟩ := mem_span_lincomb.mp (hmem j)
    rw [hc]
    simp only [lincomb, hi.sum_left, hi.smul_left, h.orth, mul_zero, Finset.sum_const_zero]

variable (h : DeflHyp a oa U) (h' : DeflHyp a oa' U') (hs : mkLS a = .ok s) (ho : mkObl s oa U = .ok o)
  (ho' : mkObl s oa' U' = .ok o') (hU : Submodule.span 𝕜 (Set.range U) = Submodule.span 𝕜 (Set.range U'))
include h h' hs ho ho' hU

/-- C88: the correction depends only on the deflation space. -/
theorem C88_correct : o.correct s = o'.correct s := by
  funext z
  obtain ⟨x, h1, h2, h3⟩ := C36_correct_general h hs ho z
  obtain ⟨x', h1', h2', h3'⟩ := C36_correct_general h' hs ho' z
  rw [h1, h1']
  rw [← hU] at h2'
  obtain ⟨c, hc⟩ := mem_span_lincomb.mp h2
  obtain ⟨c', hc'⟩ := mem_span_lincomb.mp h2'
  have hi := h.ls.inner
  have hUm : ∀ j, U j ∈ Submodule.span 𝕜 (Set.range U') := fun j => by
    rw [← hU]; exact Submodule.subset_span ⟨j, rfl⟩
  have h4 : ∀ j, a.ip (U j) (a.B (lincomb U (c - c'))) = 0 := by
    intro j
    obtain ⟨d, hd⟩ := mem_span_lincomb.mp (hUm j)
    have h5 : a.ip (U j) (a.Ml (a.b - a.A z) - a.Ml (a.A (a.Mr (x' - z)))) = 0 := by
      rw [hd]
      simp only [lincomb, hi.sum_left, hi.smul_left, h3', mul_zero, Finset.sum_const_zero]
    have h6 : a.B (lincomb U (c - c')) = a.B (x - z) - a.B (x' - z) := by
      rw [hc, hc', ← map_sub]
      congr 1
      simp [lincomb, sub_smul, Finset.sum_sub_distrib]
    have h7 := h3 j
    rw [hi.sub_right] at h5 h7
    rw [h6, hi.sub_right]
    change a.ip (U j) (a.Ml (a.A (a.Mr (x - z)))) - a.ip (U j) (a.Ml (a.A (a.Mr (x' - z)))) = 0
    linear_combination h5 - h7
  have h8 : complLin hi a.B U (a.B (lincomb U (c - c'))) = a.B (lincomb U (c - c')) := complLin_of_orth hi h.nonsing h4
  rw [complLin_B hi h.nonsing, map_lincomb] at h8
  have hli := indep_of_gram hi h.nonsing
  have hcd : c = c' := by
    funext i
    exact sub_eq_zero.mp ((Fintype.linearIndependent_iff.mp hli) (c - c') h8.symm i)
  have : x - z = x' - z := by rw [hc, hc', hcd]
  rw [sub_left_injective this]

/-- C88: initial residual, operator and correction depend only on the deflation space. -/
theorem C88_hooks : o.hooks s = o'.hooks s := by
  have ok := LSOK.of_defl h hs
  have ob := OblOK.of_defl h hs ho
  have ob' := OblOK.of_defl h' hs ho'
  have hQ : complLin ob.inner a.B U = complLin ob'.inner a.B U' :=
    ((complLin_isDeflProj ob.inner ob.nonsing).of_span ob.inner hU).eq_compl ob'.inner ob'.nonsing
  unfold Obl.hooks
  rw [C88_correct h h' hs ho ho' hU, ob.op_eq ok, ob'.op_eq ok, hQ]
  congr 1
  funext z
  rw [ob.initRes ok, ob'.initRes ok, hQ]

/-- C88: two bases of the same deflation space, with any options, give the same run of `DeflatedGmres`: the same outcome,
iterates, residual norms, error norms, warnings and Arnoldi vectors. -/
theorem C88_gmres (ortho : Ortho) (p : SolverArgs E) :
    (deflatedGmres s o ortho p).forget = (deflatedGmres s o' ortho p).forget := by
  have ok := LSOK.of_defl h hs
  rw [forget_gmres fun v => ⟨_, (OblOK.of_defl h hs ho).newC ok v⟩,
    forget_gmres fun v => ⟨_, (OblOK.of_defl h' hs ho').newC ok v⟩, C88_hooks h h' hs ho ho' hU]

/-- C88 for `DeflatedMinres`. -/
theorem C88_minres (ortho : Ortho) (p : SolverArgs E) :
    (deflatedMinres s o ortho p).forget = (deflatedMinres s o' ortho p).forget := by
  have ok := LSOK.of_defl h hs
  rw [forget_minres fun v => ⟨_, (OblOK.of_defl h hs ho).newC ok v⟩,
    forget_minres fun v => ⟨_, (OblOK.of_defl h' hs ho').newC ok v⟩, C88_hooks h h' hs ho ho' hU]

/-- C88 for `DeflatedCg`. -/
theorem C88_cg (store : Bool) (p : SolverArgs E) :
    (deflatedCg s o store p).forget = (deflatedCg s o' store p).forget := by
  have ok := LSOK.of_defl h hs
  rw [forget_cg fun v => ⟨_, (OblOK.of_defl h hs ho).newC ok v⟩,
    forget_cg fun v => ⟨_, (OblOK.of_defl h' hs ho').newC ok v⟩, C88_hooks h h' hs ho ho' hU]

end same

/-! ## The first solve of a recycling solver -/

section rec
variable {a : LSArgs 𝕜 E} {s : LS 𝕜 E} (hs : mkLS a = .ok s) {oa : ∀ k, OblArgs 𝕜 E k} {ortho : Ortho} {p : SolverArgs E}
  (hq : ∃ q, (oa 0).qrM (fun j => ([] : List E).get j) = .ok q) (hit : 1 ≤ (oa 0).iterations)
include hs hq hit

/-- C88: with no recycled vectors (as in the first call of `solve`) `RecyclingGmres` returns iff `Gmres` does, with the same
approximate solution, residual norms and Arnoldi data. -/
theorem C88_recycling_gmres (x : Option E) (l : List ℝ) (arn : Arn 𝕜 E) :
    (∃ r, recGmresSolver a oa ortho p [] = .ok r ∧ r.xk = x ∧ r.resnorms = l ∧ r.arn = arn) ↔
      ∃ st, gmres s s.hooks ortho p = .returned st ∧ st.xk = x ∧ st.resnorms = l ∧ st.s.arn = arn := by
  obtain ⟨o, ho⟩ := (C88_empty_total s (oa 0) (fun j => ([] : List E).get j)).mpr ⟨hq, hit⟩
  rw [← C88_empty_gmres hs ho]
  unfold recGmresSolver
  have ho' : mkObl s (oa ([] : List E).length) (fun j => ([] : List E).get j) = .ok o := ho
  rw [hs]
  dsimp only
  rw [ho']
  dsimp only
  have e : deflatedGmres (k := ([] : List E).length) s o ortho p = deflatedGmres (k := 0) s o ortho p := rfl
  rw [e]
  cases deflatedGmres (k := 0) s o ortho p <;> simp [ArnSol.ofOutcome, Outcome.forget]

/-- C88: the same for `RecyclingMinres`. -/
theorem C88_recycling_minres (x : Option E) (l : List ℝ) (arn : Arn 𝕜 E) :
    (∃ r, recMinresSolver a oa ortho p [] = .ok r ∧ r.xk = x ∧ r.resnorms = l ∧ r.arn = arn) ↔
      ∃ st, minres s s.hooks ortho p = .returned st ∧ st.xk = x ∧ st.resnorms = l ∧ st.s.arn = arn := by
  obtain ⟨o, ho⟩ := (C88_empty_total s (oa 0) (fun j => ([] : List E).get j)).mpr ⟨hq, hit⟩
  rw [← C88_empty_minres hs ho]
  unfold recMinresSolver
  have ho' : mkObl s (oa ([] : List E).length) (fun j => ([] : List E).get j) = .ok o := ho
  rw [hs]
  dsimp only
  rw [ho']
  dsimp only
  have e : deflatedMinres (k := ([] : List E).length) s o ortho p = deflatedMinres (k := 0) s o ortho p := rfl
  rw [e]
  cases deflatedMinres (k := 0) s o ortho p <;> simp [ArnSol.ofOutcome, Outcome.forget]

end rec

/-! ## Examples -/

/-- Options for an empty basis. -/
def exObl0 {E : Type*} : OblArgs ℝ E 0 := ⟨fun U => .ok (U, 1), ⟨fun U => .ok (U, 1), fun M => (1, M)⟩, false, true, 2⟩

/-- Non-vacuity of C88 without basis vectors. -/
example : ∃ s o, mkLS exSpd = .ok s ∧ mkObl s exObl0 (fun j : Fin 0 => j.elim0) = .ok o ∧
    (deflatedGmres s o .mgs ⟨none, 1e-5, 2, false, none⟩).forget = gmres s s.hooks .mgs ⟨none, 1e-5, 2, false, none⟩ := by
  obtain ⟨s, hs, -⟩ := mkLS_ok exSpd_hyp.ls
  obtain ⟨o, ho⟩ := (C88_empty_total s exObl0 (fun j : Fin 0 => j.elim0)).mpr ⟨⟨_, rfl⟩, by simp [exObl0]⟩
  exact ⟨s, o, hs, ho, C88_empty_gmres hs ho _ _⟩

/-- Other options: no orthogonalisation of the bases, one iteration. -/
noncomputable def exOblPlain {E : Type*} [AddCommGroup E] [Module ℝ E] (ip : E → E → ℝ) : OblArgs ℝ E 1 :=
  ⟨fun U => .ok (U, 1), ⟨qr1 ip, fun M => (1, M)⟩, false, false, 1⟩

/-- Non-vacuity of C88 for two bases: `A = diag(1, 2)`, `b = (1, 1)`; the basis `(1, 1)` with default options, and the basis
`(3, 3)` with others. -/
example : ∃ s o o', mkLS exSpd = .ok s ∧ mkObl s (exObl exSpd.ip) (fun _ => ((1 : ℝ), (1 : ℝ))) = .ok o ∧
    mkObl s (exOblPlain exSpd.ip) (fun _ => ((3 : ℝ), (3 : ℝ))) = .ok o' ∧
    (deflatedCg s o true ⟨none, 1e-5, 2, false, none⟩).forget = (deflatedCg s o' true ⟨none, 1e-5, 2, false, none⟩).forget := by
  have hd := exSpd_defl
  have hd' : DeflHyp exSpd (exOblPlain exSpd.ip) (fun _ => ((3 : ℝ), (3 : ℝ))) := by
    refine ⟨exSpd_hyp.ls, ⟨_, _, rfl, fun j => ?_⟩, fun h => by simp [exOblPlain] at h,
      fun M => ⟨by simp [exOblPlain], by simp [exOblPlain], fun i j hij => by omega⟩, ?_, fun h => by simp [exOblPlain] at h,
      by simp [exOblPlain]⟩
    · obtain rfl : j = 0 := Fin.ext (by omega)
      simp [lincomb]
    · simp [gram, LSArgs.B, exSpd, exCfg]
      norm_num
  obtain ⟨s, hs, -⟩ := mkLS_ok hd.ls
  obtain ⟨o, ho⟩ := C36_total hd hs
  obtain ⟨o', ho'⟩ := C36_total hd' hs
  refine ⟨s, o, o', hs, ho, ho', C88_cg hd hd' hs ho ho' ?_ _ _⟩
  have e : Set.range (fun _ : Fin 1 => ((3 : ℝ), (3 : ℝ))) = {(3 : ℝ) • ((1 : ℝ), (1 : ℝ))} := by
    rw [Set.range_const]; simp
  rw [e, Set.range_const, Submodule.span_singleton_smul_eq (IsUnit.mk0 _ (by norm_num))]

end Krypy
