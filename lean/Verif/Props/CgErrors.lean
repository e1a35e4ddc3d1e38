import Verif.Props.CgMinres

/-!
# Property C72: the history of error norms

If an exact solution is given, the solvers record the norm of the error in every iteration (linsys.py 391-403, 436-445).  The entries are
the norms of the errors of the iterates, and for self-adjoint positive definite systems they decrease for `Cg`, `Minres` and `Gmres`.
-/

set_option linter.unusedSectionVars false

namespace Krypy

/-! ## The driver -/

section driver
variable {F X S : Type*} [LE F] [LT F] [DecidableLE F] [DecidableLT F] [Div F]

/-- One pass through the loop body in which an approximate solution `x` was computed. -/
structure BodyStep (cfg : Cfg F X) (m : Method F X S) (st st' : St F X S) (s' : S) (r : F) (x : X) : Prop where
  step : m.step st.s = .ok (s', r)
  getXk : m.getXk s' = .ok x
  state : st'.s = s' ∨ ∃ rkn, st'.s = m.post s' rkn
  res : st'.resnorms = st.resnorms ++ [r / cfg.MMlbNorm] ∨
    ∃ v, cfg.resNorm x = .ok v ∧ st'.resnorms = st.resnorms ++ [v / cfg.MMlbNorm]

theorem BodyStep.length {cfg : Cfg F X} {m : Method F X S} {st st' : St F X S} {s' : S} {r : F} {x : X}
    (h : BodyStep cfg m st st' s' r x) : st'.resnorms.length = st.resnorms.length + 1 := by
  rcases h.res with h | ⟨v, -, h⟩ <;> rw [h] <;> simp

theorem body_err {cfg : Cfg F X} {m : Method F X S} {st st' : St F X S} {en : X → Except Err F} (hen : cfg.errNorm = some en)
    (hb : body cfg m st = .ok st' ∨ body cfg m st = .convergence st') :
    ∃ s' r x e, BodyStep cfg m st st' s' r x ∧ en x = .ok e ∧ st'.errnorms = st.errnorms.map (· ++ [e]) := by
  rcases hb with hb | hb
  · obtain ⟨s', r, rkn, h1, h2, -, -, h5, -, h7⟩ := body_ok hb
    rcases h5 with ⟨h5, -⟩ | ⟨en', x, e, h5, hx, he, -, hl⟩
    · rw [hen] at h5; cases h5
    rw [hen, Option.some.injEq] at h5
    subst h5
    refine ⟨s', r, x, e, ⟨h1, hx, Or.inr ⟨rkn, h2⟩, ?_⟩, he, hl⟩
    rcases h7 with ⟨x', v, -, e1, -, e2, e3, -⟩ | ⟨-, -, -, -, e3, -⟩
    · rw [hx] at e1
      obtain rfl := Except.ok.inj e1
      exact Or.inr ⟨v, e2, e3⟩
    · exact Or.inl e3
  · obtain ⟨s', r, x, v, h1, h2, -, hx, -, h6, h7, -, -, -, h11⟩ := body_convergence hb
    rcases h11 with ⟨h5, -⟩ | ⟨en', e, h5, he, hl⟩
    · rw [hen] at h5; cases h5
    rw [hen, Option.some.injEq] at h5
    subst h5
    exact ⟨s', r, x, e, ⟨h1, hx, Or.inl h2, Or.inr ⟨v, h6, h7⟩⟩, he, hl⟩

/-- Every entry of `errnorms` is the error norm of an approximate solution `x` with `R st i x`, where `R` is a relation which is
established for the new approximate solution in each iteration and not destroyed by later iterations. -/
theorem run_errors [Zero F] [BEq F] [Zero X] {cfg : Cfg F X} {m : Method F X S} {x0 : X} {r0norm : F} {mkS : X → S}
    {xk0 : X → Except Err X} (hz : (cfg.MMlbNorm == 0) = false) {en : X → Except Err F} (hen : cfg.errNorm = some en)
    (P : St F X S → Prop) (R : St F X S → ℕ → X → Prop)
    (hP : ∀ st st', P st → loopGuard cfg m st = true → body cfg m st = .ok st' → P st')
    (hR : ∀ st st' s' r x, P st → loopGuard cfg m st = true → BodyStep cfg m st st' s' r x →
      (∀ i y, i < st.resnorms.length → R st i y → R st' i y) ∧ R st' st.resnorms.length x)
    (hfin : ∀ st st' i x, P st → finish m st = .returned st' → R st i x → R st' i x)
    (hP0 : ∀ l, P ⟨mkS x0, 0, none, [r0norm / cfg.MMlbNorm], l, 0⟩)
    (hR0 : ∀ l x, xk0 x0 = .ok x → R ⟨mkS x0, 0, none, [r0norm / cfg.MMlbNorm], l, 0⟩ 0 x) {st : St F X S}
    (hrun : run cfg m x0 r0norm mkS xk0 = .returned st ∨ run cfg m x0 r0norm mkS xk0 = .convergence st) :
    ∃ l, st.errnorms = some l ∧ l.length = st.resnorms.length ∧
      ∀ i (hi : i < l.length), ∃ x, R st i x ∧ en x = .ok l[i] := by
  -- one more entry
  have hnew : ∀ st st' : St F X S, P st → loopGuard cfg m st = true →
      (body cfg m st = .ok st' ∨ body cfg m st = .convergence st') →
      (∃ l, st.errnorms = some l ∧ l.length = st.resnorms.length ∧ ∀ i (hi : i < l.length), ∃ x, R st i x ∧ en x = .ok l[i]) →
      ∃ l, st'.errnorms = some l ∧ l.length = st'.resnorms.length ∧
        ∀ i (hi : i < l.length), ∃ x, R st' i x ∧ en x = .ok l[i] := by
    rintro st st' hp hg hb ⟨l, hl, hlen, hall⟩
    obtain ⟨s', r, x, e, hstep, he, hl'⟩ := body_err hen hb
    obtain ⟨hold, hx⟩ := hR st st' s' r x hp hg hstep
    refine ⟨l ++ [e], by rw [hl', hl]; rfl, by rw [hstep.length]; simp [hlen], fun i hi => ?_⟩
    rcases Nat.lt_or_ge i l.length with h1 | h1
    · obtain ⟨y, hy, hy'⟩ := hall i h1
      exact ⟨y, hold i y (by omega) hy, by rw [hy', List.getElem_append_left h1]⟩
    · have hi' : i = st.resnorms.length := by simp at hi; omega
      refine ⟨x, hi' ▸ hx, ?_⟩
      rw [List.getElem_append_right h1]
      simpa using he
  unfold run at hrun
  simp only [hz, Bool.false_eq_true, if_false] at hrun
  cases he : initErr cfg (xk0 x0) with
  | error e => simp [he] at hrun
  | ok errnorms =>
    simp only [he] at hrun
    have hinit : ∃ l, errnorms = some l ∧ l.length = 1 ∧ ∀ i (hi : i < l.length), ∃ x,
        R ⟨mkS x0, 0, none, [r0norm / cfg.MMlbNorm], errnorms, 0⟩ i x ∧ en x = .ok l[i] := by
      unfold initErr at he
      simp only [hen] at he
      cases hx : xk0 x0 with
      | error e => simp [hx] at he
      | ok x =>
        simp only [hx] at he
        cases hx' : en x with
        | error e => simp [hx'] at he
        | ok e =>
          simp only [hx', Except.ok.injEq] at he
          subst he
          refine ⟨[e], rfl, rfl, fun i hi => ?_⟩
          obtain rfl : i = 0 := by simp at hi; omega
          exact ⟨x, hR0 _ x hx, hx'⟩
    have hli := loop_invariant (m := m) (cfg := cfg)
      (fun st => P st ∧ ∃ l, st.errnorms = some l ∧ l.length = st.resnorms.length ∧
        ∀ i (hi : i < l.length), ∃ x, R st i x ∧ en x = .ok l[i])
      (fun st st' h1 h2 h3 => ⟨hP st st' h1.1 h2 h3, hnew st st' h1.1 h2 (Or.inl h3) h1.2⟩) cfg.maxiter _
      ⟨hP0 errnorms, hinit⟩
    rcases hrun with hrun | hrun
    · obtain ⟨st1, ⟨hp, l, hl, hlen, hall⟩, -, hf⟩ := hli.1 st hrun
      obtain ⟨-, -, f3, f4, -, -⟩ := finish_returned hf
      refine ⟨l, by rw [f4, hl], by rw [f3, hlen], fun i hi => ?_⟩
      obtain ⟨x, hx, hx'⟩ := hall i hi
      exact ⟨x, hfin st1 st i x hp hf hx, hx'⟩
    · obtain ⟨st1, ⟨hp, hl⟩, hg, hb⟩ := hli.2 st hrun
      exact hnew st1 st hp hg (Or.inr hb) hl

end driver

variable {𝕜 E : Type*} [RCLike 𝕜] [AddCommGroup E] [Module 𝕜 E]

/-- The error norms of a system, which the solvers record: the norm of `exact - x` in the inner product of the system. -/
noncomputable def errOf (a : LSArgs 𝕜 E) (xs x : E) : ℝ := nrm a.ip (xs - x)

theorem mkCfg_errNorm {a : LSArgs 𝕜 E} (h : LSHyp a.ip a.M) {s : LS 𝕜 E} (hs : mkLS a = .ok s) (p : SolverArgs E) {xs : E}
    (hx : p.exact = some xs) : (mkCfg s p).errNorm = some fun x => .ok (errOf a xs x) := by
  obtain ⟨s', hs', ok, -⟩ := mkLS_ok h
  rw [hs] at hs'
  obtain rfl := Except.ok.inj hs'
  unfold mkCfg
  simp only [hx, Option.map_some, ok.ip, h.inner.npNorm_self]
  rfl

/-- C72: the entries of `errnorms` of `Cg` are the norms of the errors of the iterates. -/
theorem C72_cg {a : LSArgs 𝕜 E} (h : SpdHyp a) {s : LS 𝕜 E} (hs : mkLS a = .ok s) (store : Bool)
    (p : SolverArgs E) (htol : 0 ≤ p.tol) (hb : a.Ml a.b ≠ 0) {xs : E} (hx : p.exact = some xs) {st : St ℝ E (CgSt 𝕜 E)}
    (hrun : cg s s.hooks store p = .returned st ∨ cg s s.hooks store p = .convergence st) :
    ∃ l, st.errnorms = some l ∧ l.length = st.resnorms.length ∧
      ∀ i (hi : i < l.length), l[i] = errOf a xs (p.x0.getD 0 + a.Mr (st.s.ys i)) := by
  obtain ⟨e, hres, hnb, hn, -⟩ := cg_setup h hs store p
  rw [e] at hrun
  have hH := h.cgHyp (a.Ml (a.b - a.A (p.x0.getD 0)))
  refine Exists.elim (run_errors (cfg := mkCfg s p) (by simpa using (hnb hb).ne') (mkCfg_errNorm h.ls hs p hx)
    (fun st => CgLoop a.ip a.M (a.Ml ∘ₗ a.A ∘ₗ a.Mr) a.Mr ⊤ (a.Ml (a.b - a.A (p.x0.getD 0))) (p.x0.getD 0) store .ok
      (mkCfg s p).MMlbNorm st ∧ st.iter = st.s.k)
    (fun st i x => x = p.x0.getD 0 + a.Mr (st.s.ys i))
    (fun st st' h1 h2 h3 => cgLoop_body hH htol (hnb hb) hres h1 h2 h3) ?_ ?_
    (fun l => ⟨cgLoop_init hH htol (hnb hb) hres l, rfl⟩) ?_ hrun) ?_
  · rintro st st' s' r x ⟨hl, -⟩ hg hst
    obtain ⟨s1, r1, hs1, inv', hk, -, hold, -⟩ := cgStep_spec (store := store) hH hl.inv (hl.guard hH htol (hnb hb) hres hg)
    have h1 := hst.step
    change cgStep _ _ _ _ _ = _ at h1
    rw [hs1, Except.ok.injEq, Prod.mk.injEq] at h1
    obtain ⟨rfl, rfl⟩ := h1
    have hys : st'.s.ys = s1.ys := by
      rcases hst.state with h2 | ⟨rkn, h2⟩ <;> rw [h2]
      cases rkn <;> rfl
    have hlen := hl.len
    refine ⟨fun i y hi hy => ?_, ?_⟩
    · rw [hy, hys, (hold i (by omega)).2.1]
    · have h3 := hst.getXk
      change Except.ok (s1.x0 + a.Mr s1.yk) = Except.ok x at h3
      rw [← Except.ok.inj h3, inv'.x0, inv'.yk, hys, hlen, hk]
  · intro st st' i x _ hf hx
    rw [(finish_returned hf).1]
    exact hx
  · intro l x hx
    rw [← Except.ok.inj hx]
    simp [cgInit]
  · rintro l ⟨hl, hlen, hall⟩
    refine ⟨l, hl, hlen, fun i hi => ?_⟩
    obtain ⟨x, rfl, hx'⟩ := hall i hi
    exact (Except.ok.inj hx').symm

/-- What is known about the history of error norms of a residual minimising solver: every entry is the norm of the error of a vector of
the search space which attains the residual norm of that iteration. -/
def ErrHist (a : LSArgs 𝕜 E) (x0 xs : E) (resnorms : List ℝ) (errnorms : Option (List ℝ)) : Prop :=
  ∃ l, errnorms = some l ∧ l.length = resnorms.length ∧ ∀ i (hi : i < l.length) (hi' : i < resnorms.length),
    ∃ x ∈ searchSpace a x0 i, resid a x = resnorms[i] * resid a 0 ∧ l[i] = errOf a xs x

/-- C72: the entries of `errnorms` of `Gmres` are the norms of the errors of vectors with minimal residual in the search spaces. -/
theorem C72_gmres {a : LSArgs 𝕜 E} {ortho : Ortho} (h : GmresHyp a ortho) {s : LS 𝕜 E} (hs : mkLS a = .ok s)
    (p : SolverArgs E) (htol : 0 ≤ p.tol) (hb : a.Ml a.b ≠ 0) {xs : E} (hx : p.exact = some xs) {st : St ℝ E (GmresSt 𝕜 E)}
    (hrun : gmres s s.hooks ortho p = .returned st ∨ gmres s s.hooks ortho p = .convergence st) :
    ErrHist a (p.x0.getD 0) xs st.resnorms st.errnorms := by
  have hen := mkCfg_errNorm h.ls hs p hx
  obtain ⟨s', hs', ok, -⟩ := mkLS_ok h.ls
  rw [hs] at hs'
  obtain rfl := Except.ok.inj hs'
  obtain ⟨arn, hr, ha, h0⟩ := gmres_setup ok h p
  have hnb := ok.nb_pos p hb
  rw [hr] at hrun
  have hproc := ArnReach.proc (ok.arnHyp h p.maxiter) (a.Ml (a.b - a.A (p.x0.getD 0)))
  have hM : (s.arnCfg s.hooks p.maxiter ortho).Mop = a.M := by simp [LS.arnCfg, ArnCfg.Mop, ok.M]
  have hkr : (s.arnCfg s.hooks p.maxiter ortho).Mop ∘ₗ (s.arnCfg s.hooks p.maxiter ortho).A =
      a.M ∘ₗ a.Ml ∘ₗ a.A ∘ₗ a.Mr := by
    simp only [LS.arnCfg, ArnCfg.Mop, LS.hooks, Option.getD_some, ok.M, ok.op_eq]
  have hres : ∀ z, nrm (s.arnCfg s.hooks p.maxiter ortho).g
      (a.Ml (a.b - a.A (p.x0.getD 0)) - (s.arnCfg s.hooks p.maxiter ortho).A z) =
      resid a (p.x0.getD 0 + a.Mr z) := by
    intro z
    have h1 := ok.hres ortho p (p.x0.getD 0) z _ rfl
    rw [ok.resNorm, ok.Mr] at h1
    exact (Except.ok.inj h1).symm
  refine Exists.elim (run_errors (cfg := mkCfg s p) (by simpa using hnb.ne') hen
    (GmresLoop (s.arnCfg s.hooks p.maxiter ortho).g (s.arnCfg s.hooks p.maxiter ortho).A (s.arnCfg s.hooks p.maxiter ortho).Mop s.Mr
      (a.Ml (a.b - a.A (p.x0.getD 0))) _ .ok (p.x0.getD 0) (mkCfg s p).MMlbNorm)
    (fun st i x => ∀ hi' : i < st.resnorms.length, x ∈ searchSpace a (p.x0.getD 0) i ∧ resid a x = st.resnorms[i] * resid a 0)
    (fun st st' h1 _ h3 => gmresLoop_body hproc htol hnb (ok.hres ortho p _) h1 h3) ?_ ?_
    (fun l => gmresLoop_init hproc htol hnb (ok.hres ortho p _) ha h0 l) ?_ hrun) ?_
  · rintro st st' s' r x hl hg hst
    have hx' : gmresXk s.Mr .ok s' = .ok x := hst.getXk
    obtain ⟨inv', hd, hit, hxr, -⟩ := gmresLoop_new hproc htol hnb (ok.hres ortho p _) hl hst.step (Or.inl ⟨x, hx'⟩)
    obtain ⟨z, hz, hxk, hzr, -⟩ := gmres_optimal hproc inv' hd s.Mr .ok
    have hlen := hl.spec.len
    rw [hx', Except.ok.injEq] at hxk
    have hrr : st'.resnorms = st.resnorms ++ [r / (mkCfg s p).MMlbNorm] := by
      rcases hst.res with h1 | ⟨v, h1, h2⟩
      · exact h1
      · rw [hxr x hx'] at h1
        rw [h2, Except.ok.inj h1]
    refine ⟨fun i y hi hy hi' => ?_, fun hi' => ⟨⟨z, ?_, ?_⟩, ?_⟩⟩
    · obtain ⟨h1, h2⟩ := hy hi
      refine ⟨h1, ?_⟩
      simp only [hrr, List.getElem_append_left hi]
      exact h2
    · rw [hlen, ← hit]
      rw [hkr, hM] at hz
      exact hz
    · rw [hxk, ok.Mr]
    · simp only [hrr, List.getElem_concat_length]
      rw [← ok.nb (p := p), div_mul_cancel₀ _ hnb.ne']
      have h1 := ok.resNorm (p := p) x
      rw [hxr x hx', Except.ok.injEq] at h1
      exact h1.symm
  · intro st st' i x _ hf hx hi'
    have h3 := (finish_returned hf).2.2.1
    simp only [h3] at hi' ⊢
    exact hx hi'
  · intro l x hx hi'
    rw [← Except.ok.inj hx]
    refine ⟨⟨0, Submodule.zero_mem _, by simp⟩, ?_⟩
    simp only [List.getElem_cons_zero]
    rw [← ok.nb (p := p), div_mul_cancel₀ _ hnb.ne']
    have h1 := hres 0
    rw [map_zero, map_zero, sub_zero, add_zero] at h1
    exact h1.symm
  · rintro l ⟨hl, hlen, hall⟩
    refine ⟨l, hl, hlen, fun i hi hi' => ?_⟩
    obtain ⟨x, hx, hx'⟩ := hall i hi
    exact ⟨x, (hx hi').1, (hx hi').2, (Except.ok.inj hx').symm⟩

/-- C72: the same for `Minres`. -/
theorem C72_minres {a : LSArgs 𝕜 E} (h : MinresHyp a) {s : LS 𝕜 E} (hs : mkLS a = .ok s) (ortho : Ortho)
    (p : SolverArgs E) (htol : 0 ≤ p.tol) (hb : a.Ml a.b ≠ 0) {xs : E} (hx : p.exact = some xs) {st : St ℝ E (MinresSt 𝕜 E)}
    (hrun : minres s s.hooks ortho p = .returned st ∨ minres s s.hooks ortho p = .convergence st) :
    ErrHist a (p.x0.getD 0) xs st.resnorms st.errnorms := by
  rcases hrun with hrun | hrun
  · obtain ⟨b, hb', -⟩ := (C29_eq_gmres h hs ortho p).1 st hrun
    exact C72_gmres (h.gmres ortho) hs p htol hb hx (st := st.setS b) (Or.inl hb')
  · obtain ⟨b, hb', -⟩ := (C29_eq_gmres h hs ortho p).2 st hrun
    exact C72_gmres (h.gmres ortho) hs p htol hb hx (st := st.setS b) (Or.inr hb')

/-! ## Errors of CG -/

section cgerr
variable {ip m : E → E → 𝕜} {M B : E →ₗ[𝕜] E} {r0 x0 ystar : E} {s : CgSt 𝕜 E}

/-- The residual `i` has the same inner product with all errors up to `i`. -/
theorem CgInv.err_res (h : CgHyp ip M B ⊤ r0) (inv : CgInv ip M B ⊤ r0 x0 s) {i j : ℕ} (hi : i ≤ s.k) (hj : j ≤ i) :
    ip (ystar - s.ys j) (s.rs i) = ip (ystar - s.ys i) (s.rs i) := by
  have hz : s.ys i - s.ys j ∈ krylov (M ∘ₗ B) (M r0) i :=
    Submodule.sub_mem _ (inv.ys_mem h i hi) (krylov_mono hj (inv.ys_mem h j (by omega)))
  have h1 := inv.galerkin h i hi _ hz
  rw [← inv.res i hi] at h1
  have h2 : ystar - s.ys j = (ystar - s.ys i) + (s.ys i - s.ys j) := by abel
  rw [h2, h.ls.inner.add_left, h1, add_zero]

/-- The search directions point towards the solution, measured in an inner product `m` with `m(x, M y) = ⟨x, y⟩`. -/
theorem CgInv.dir_err (h : CgHyp ip M B ⊤ r0) (inv : CgInv ip M B ⊤ r0 x0 s) (hm : IsInner m) (hmM : ∀ x y, m x (M y) = ip x y)
    (hB : ∀ x, 0 ≤ RCLike.re (ip x (B x))) (hy : B ystar = r0) {i : ℕ} (hi : i ≤ s.k) :
    ∀ j < i, 0 ≤ RCLike.re (m (s.ps j) (ystar - s.ys i)) := by
  have hbase : ∀ j < i, 0 ≤ RCLike.re (m (M (s.rs j)) (ystar - s.ys i)) := by
    intro j hj
    have e1 : s.rs j = B (ystar - s.ys j) := by rw [inv.res j (by omega), map_sub, hy]
    have e2 : s.rs i = B (ystar - s.ys i) := by rw [inv.res i hi, map_sub, hy]
    have e3 : m (M (s.rs j)) (ystar - s.ys i) = ip (s.rs j) (ystar - s.ys i) := by
      rw [← hm.conj_symm, hmM, h.ls.inner.conj_symm]
    rw [e3, e1, h.sa, ← e2, inv.err_res h hi hj.le, e2]
    exact hB _
  intro j
  induction j with
  | zero =>
    intro hj
    have := hbase 0 hj
    rwa [inv.rs0, ← inv.ps0 (by omega)] at this
  | succ j ih =>
    intro hj
    have hr : 0 ≤ s.rho (j + 1) / s.rho j := by
      rw [inv.rho (j + 1) (by omega), inv.rho j (by omega)]
      exact div_nonneg (h.prec.nsq_nonneg _) (h.prec.nsq_nonneg _)
    rw [inv.ps j (by omega), hm.add_left, hm.smul_left, map_add, RCLike.conj_ofReal, RCLike.re_ofReal_mul]
    exact add_nonneg (hbase _ hj) (mul_nonneg hr (ih (by omega)))

theorem CgInv.err_step (inv : CgInv ip M B ⊤ r0 x0 s) {j : ℕ} (hj : j < s.k) :
    ystar - s.ys j = (s.al j : 𝕜) • s.ps j + (ystar - s.ys (j + 1)) := by
  rw [inv.ys j hj]; abel

/-- Later errors have a large component in the direction of earlier ones. -/
theorem CgInv.err_inner (h : CgHyp ip M B ⊤ r0) (inv : CgInv ip M B ⊤ r0 x0 s) (hm : IsInner m) (hmM : ∀ x y, m x (M y) = ip x y)
    (hB : ∀ x, 0 ≤ RCLike.re (ip x (B x))) (hy : B ystar = r0) {i j : ℕ} (hi : i ≤ s.k) (hj : j ≤ i) :
    nsq m (ystar - s.ys i) ≤ RCLike.re (m (ystar - s.ys j) (ystar - s.ys i)) := by
  obtain ⟨d, rfl⟩ := Nat.exists_eq_add_of_le hj
  induction d generalizing j with
  | zero => exact le_refl _
  | succ d ih =>
    have h1 := ih (j := j + 1) (by omega) (by omega)
    rw [show j + 1 + d = j + (d + 1) by omega] at h1
    rw [inv.err_step (show j < s.k by omega), hm.add_left, hm.smul_left, map_add, RCLike.conj_ofReal, RCLike.re_ofReal_mul]
    have h2 := inv.dir_err h hm hmM hB hy hi j (by omega)
    have h3 := inv.al_pos h (show j < s.k by omega)
    have h4 := mul_nonneg h3.le h2
    linarith

/-- The errors decrease strictly. -/
theorem CgInv.err_lt (h : CgHyp ip M B ⊤ r0) (inv : CgInv ip M B ⊤ r0 x0 s) (hm : IsInner m) (hmM : ∀ x y, m x (M y) = ip x y)
    (hB : ∀ x, 0 ≤ RCLike.re (ip x (B x))) (hy : B ystar = r0) {i j : ℕ} (hi : i ≤ s.k) (hj : j < i) :
    nsq m (ystar - s.ys i) < nsq m (ystar - s.ys j) := by
  have hstep : ∀ j < s.k, nsq m (ystar - s.ys (j + 1)) < nsq m (ystar - s.ys j) := by
    intro j hj
    rw [inv.err_step hj, hm.nsq_add, hm.nsq_smul, hm.smul_left, RCLike.conj_ofReal, RCLike.re_ofReal_mul, RCLike.norm_ofReal, sq_abs]
    have h1 := inv.al_pos h hj
    have h2 := inv.dir_err h hm hmM hB hy (show j + 1 ≤ s.k by omega) j (by omega)
    have h3 : 0 < nsq m (s.ps j) := hm.nsq_pos fun h0 => by
      have := inv.dpos j hj
      rw [h0, h.ls.inner.zero_left] at this
      simp at this
    have h4 := mul_nonneg h1.le h2
    have h5 := mul_pos (pow_pos h1 2) h3
    linarith
  induction i with
  | zero => omega
  | succ i ih =>
    rcases Nat.lt_or_ge j i with h1 | h1
    · exact (hstep i (by omega)).trans (ih (by omega) h1)
    · obtain rfl : j = i := by omega
      exact hstep j (by omega)

end cgerr

/-- C72: the errors of `Cg`, with any preconditioner `M`, decrease strictly in the norm of every inner product `m` with
`m(x, M y) = ⟨x, y⟩` (that is, the inner product defined by `M⁻¹`). -/
theorem C72_cg_precond {a : LSArgs 𝕜 E} (h : SpdHyp a) {s : LS 𝕜 E} (hs : mkLS a = .ok s) (store : Bool)
    (p : SolverArgs E) (htol : 0 ≤ p.tol) (hb : a.Ml a.b ≠ 0) {st : St ℝ E (CgSt 𝕜 E)}
    (hrun : cg s s.hooks store p = .returned st ∨ cg s s.hooks store p = .convergence st)
    {m : E → E → 𝕜} (hm : IsInner m) (hmM : ∀ x y, m x (a.M y) = a.ip x y)
    {ystar : E} (hy : a.Ml (a.A (p.x0.getD 0 + a.Mr ystar)) = a.Ml a.b) {i j : ℕ} (hi : i < st.resnorms.length) (hj : j < i) :
    nrm m (ystar - st.s.ys i) < nrm m (ystar - st.s.ys j) := by
  obtain ⟨hl, -⟩ := cg_loop h hs store p htol hb hrun
  have hlen := hl.len
  refine Real.sqrt_lt_sqrt (hm.nsq_nonneg _) (hl.inv.err_lt (h.cgHyp _) hm hmM (fun x => h.energyInner.nsq_nonneg x) ?_ (by omega) hj)
  simp only [LinearMap.comp_apply, map_sub, ← hy, map_add]
  abel

/-- C72: without preconditioners `M` and `Mr` the recorded error norms of `Cg` decrease strictly. -/
theorem C72_cg_decreasing {a : LSArgs 𝕜 E} (h : SpdHyp a) (hM : ∀ x, a.M x = x) (hMr : ∀ x, a.Mr x = x) {s : LS 𝕜 E}
    (hs : mkLS a = .ok s) (store : Bool) (p : SolverArgs E) (htol : 0 ≤ p.tol) (hb : a.Ml a.b ≠ 0) {xs : E}
    (hx : p.exact = some xs) (hsol : a.Ml (a.A xs) = a.Ml a.b) {st : St ℝ E (CgSt 𝕜 E)}
    (hrun : cg s s.hooks store p = .returned st ∨ cg s s.hooks store p = .convergence st) :
    ∃ l, st.errnorms = some l ∧ l.length = st.resnorms.length ∧ l.Pairwise fun e e' => e' < e := by
  obtain ⟨l, hl, hlen, hall⟩ := C72_cg h hs store p htol hb hx hrun
  refine ⟨l, hl, hlen, List.pairwise_iff_getElem.mpr fun i j hi hj hij => ?_⟩
  have h1 := C72_cg_precond h hs store p htol hb hrun h.ls.inner (m := a.ip) (fun x y => by rw [hM]) (ystar := xs - p.x0.getD 0)
    (by rw [hMr, add_sub_cancel]; exact hsol) (i := j) (j := i) (by omega) hij
  rw [hall i hi, hall j hj]
  unfold errOf
  rwa [hMr, hMr, ← sub_sub, ← sub_sub]

/-! ## Errors of the minimal residual methods -/

/-- The minimising affine combination of nonzero orthogonal vectors is unique. -/
theorem affine_unique {g : E → E → 𝕜} (h : IsInner g) {n : ℕ} (hn : 0 < n) {r : ℕ → E}
    (horth : ∀ i < n, ∀ j < n, i ≠ j → g (r i) (r j) = 0) (hne : ∀ j < n, r j ≠ 0) {c : ℕ → 𝕜}
    (hc : ∑ j ∈ Finset.range n, c j = 1)
    (hle : nsq g (∑ j ∈ Finset.range n, c j • r j) ≤ (∑ j ∈ Finset.range n, (nsq g (r j))⁻¹)⁻¹) :
    ∀ j < n, c j = (((nsq g (r j))⁻¹ * (∑ i ∈ Finset.range n, (nsq g (r i))⁻¹)⁻¹ : ℝ) : 𝕜) := by
  obtain ⟨hS0, -, -⟩ := affine_min h hn horth hne
  have hpos : ∀ j ∈ Finset.range n, 0 < nsq g (r j) := fun j hj => h.nsq_pos (hne j (Finset.mem_range.mp hj))
  set S := ∑ j ∈ Finset.range n, (nsq g (r j))⁻¹ with hS
  rw [nsq_sum_orth h horth] at hle
  have hterm : ∀ j ∈ Finset.range n, ‖c j‖ ^ 2 * nsq g (r j) = ‖c j - (((nsq g (r j))⁻¹ * S⁻¹ : ℝ) : 𝕜)‖ ^ 2 * nsq g (r j) +
      (2 * S⁻¹ * RCLike.re (c j) - (nsq g (r j))⁻¹ * (S⁻¹ * S⁻¹)) := by
    intro j hj
    have hp := (hpos j hj).ne'
    have h1 : ‖c j - (((nsq g (r j))⁻¹ * S⁻¹ : ℝ) : 𝕜)‖ ^ 2 =
        ‖c j‖ ^ 2 - 2 * ((nsq g (r j))⁻¹ * S⁻¹) * RCLike.re (c j) + ((nsq g (r j))⁻¹ * S⁻¹) ^ 2 := by
      rw [← RCLike.normSq_eq_def', ← RCLike.normSq_eq_def', RCLike.normSq_apply, RCLike.normSq_apply, map_sub, map_sub,
        RCLike.ofReal_re, RCLike.ofReal_im]
      ring
    rw [h1]
    field_simp
    ring
  have hre : ∑ j ∈ Finset.range n, RCLike.re (c j) = 1 := by
    rw [← map_sum, hc, RCLike.one_re]
  rw [Finset.sum_congr rfl hterm, Finset.sum_add_distrib, Finset.sum_sub_distrib, ← Finset.mul_sum, hre, ← Finset.sum_mul, ← hS,
    ← mul_assoc, mul_inv_cancel₀ hS0.ne', one_mul] at hle
  have hz : ∑ j ∈ Finset.range n, ‖c j - (((nsq g (r j))⁻¹ * S⁻¹ : ℝ) : 𝕜)‖ ^ 2 * nsq g (r j) ≤ 0 := by linarith
  have hz' := le_antisymm hz (Finset.sum_nonneg fun j hj => mul_nonneg (sq_nonneg _) (hpos j hj).le)
  rw [Finset.sum_eq_zero_iff_of_nonneg fun j hj => mul_nonneg (sq_nonneg _) (hpos j hj).le] at hz'
  intro j hj
  have h1 := hz' j (Finset.mem_range.mpr hj)
  have h2 := (mul_eq_zero.mp h1).resolve_right (hpos j (Finset.mem_range.mpr hj)).ne'
  exact sub_eq_zero.mp (norm_eq_zero.mp (pow_eq_zero_iff (two_ne_zero)|>.mp h2))

/-- `z` minimises the residual norm in the `k`-th search space. -/
def IsMR (a : LSArgs 𝕜 E) (x0 : E) (k : ℕ) (z : E) : Prop :=
  z ∈ kry a x0 k ∧ ∀ z' ∈ kry a x0 k, resid a (x0 + a.Mr z) ≤ resid a (x0 + a.Mr z')

/-- The weights of the iterates of CG in the iterates of the minimal residual method. -/
noncomputable def mrWeight (a : LSArgs 𝕜 E) (r : ℕ → E) (k j : ℕ) : ℝ :=
  (nsq (gform a.ip a.M) (r j))⁻¹ * (∑ i ∈ Finset.range (k + 1), (nsq (gform a.ip a.M) (r i))⁻¹)⁻¹

section mrerr
variable {a : LSArgs 𝕜 E} (h : SpdHyp a) {s : LS 𝕜 E} (hs : mkLS a = .ok s) (store : Bool)
  (p : SolverArgs E) (htol : 0 ≤ p.tol) (hb : a.Ml a.b ≠ 0) {st : St ℝ E (CgSt 𝕜 E)}
  (hrun : cg s s.hooks store p = .returned st ∨ cg s s.hooks store p = .convergence st)
include h hs htol hb hrun

/-- The iterates of the minimal residual method are convex combinations of the iterates of CG. -/
theorem mr_combination {k : ℕ} (hk : k < st.resnorms.length) (hne : ∀ j < k + 1, st.s.rs j ≠ 0) {z : E}
    (hz : IsMR a (p.x0.getD 0) k z) :
    z = ∑ j ∈ Finset.range (k + 1), ((mrWeight a st.s.rs k j : ℝ) : 𝕜) • st.s.ys j := by
  obtain ⟨hres, horth, -⟩ := C31_residuals h hs store p htol hb hrun
  obtain ⟨hfwd, hbwd⟩ := cg_affine h hs store p htol hb hrun hk hne
  have ho : ∀ i < k + 1, ∀ j < k + 1, i ≠ j → gform a.ip a.M (st.s.rs i) (st.s.rs j) = 0 :=
    fun i hi j hj hij => horth i (by omega) j (by omega) hij
  have hin : IsInner (gform a.ip a.M) := h.ls.prec
  obtain ⟨-, -, c0, hc0, hatt⟩ := affine_min hin (Nat.succ_pos k) ho hne
  obtain ⟨x1, ⟨z1, hz1, rfl⟩, hr1⟩ := hbwd c0 hc0
  obtain ⟨c, hc, hr⟩ := hfwd (p.x0.getD 0 + a.Mr z) ⟨z, hz.1, rfl⟩
  have hsq : ∀ x, resid a x ^ 2 = nsq (gform a.ip a.M) (a.Ml (a.b - a.A x)) := fun x => h.ls.prec.nrm_sq _
  have hle : nsq (gform a.ip a.M) (∑ j ∈ Finset.range (k + 1), c j • st.s.rs j) ≤
      (∑ j ∈ Finset.range (k + 1), (nsq (gform a.ip a.M) (st.s.rs j))⁻¹)⁻¹ := by
    rw [← hatt, ← hr, ← hr1, ← hsq, ← hsq]
    exact pow_le_pow_left₀ (nrm_nonneg _ _) (hz.2 z1 hz1) 2
  have hcw := affine_unique hin (Nat.succ_pos k) ho hne hc hle
  -- compare the residuals
  have key : ∀ y, a.Ml (a.b - a.A (p.x0.getD 0 + a.Mr y)) = a.Ml (a.b - a.A (p.x0.getD 0)) - a.Ml (a.A (a.Mr y)) := fun y => by
    simp only [map_add, map_sub]; abel
  have hsum : ∑ j ∈ Finset.range (k + 1), c j • st.s.rs j =
      a.Ml (a.b - a.A (p.x0.getD 0)) - a.Ml (a.A (a.Mr (∑ j ∈ Finset.range (k + 1), c j • st.s.ys j))) := by
    have e : ∑ j ∈ Finset.range (k + 1), c j • st.s.rs j =
        ∑ j ∈ Finset.range (k + 1), (c j • a.Ml (a.b - a.A (p.x0.getD 0)) - c j • a.Ml (a.A (a.Mr (st.s.ys j)))) :=
      Finset.sum_congr rfl fun j hj => by
        rw [(hres j (by have := Finset.mem_range.mp hj; omega)).2, key, smul_sub]
    rw [e, Finset.sum_sub_distrib, ← Finset.sum_smul, hc, one_smul]
    simp only [map_sum, map_smul]
  rw [key, hsum, sub_right_inj, ← sub_eq_zero, ← map_sub, ← map_sub, ← map_sub] at hr
  have hzero : z - ∑ j ∈ Finset.range (k + 1), c j • st.s.ys j = 0 := by
    by_contra h0
    have := h.pos _ h0
    rw [hr, h.ls.inner.zero_right] at this
    simp at this
  rw [sub_eq_zero.mp hzero]
  refine Finset.sum_congr rfl fun j hj => ?_
  rw [hcw j (Finset.mem_range.mp hj)]
  rfl

variable {m : E → E → 𝕜} (hm : IsInner m) (hmM : ∀ x y, m x (a.M y) = a.ip x y)
  {ystar : E} (hy : a.Ml (a.A (p.x0.getD 0 + a.Mr ystar)) = a.Ml a.b)
include hm hmM hy

/-- The error of the minimal residual method is larger than those of CG in the same and in later iterations. -/
theorem mr_err_ge {k i : ℕ} (hi : i < st.resnorms.length) (hki : k ≤ i) (hne : ∀ j < k + 1, st.s.rs j ≠ 0) {z : E}
    (hz : IsMR a (p.x0.getD 0) k z) :
    nsq m (ystar - st.s.ys i) ≤ RCLike.re (m (ystar - z) (ystar - st.s.ys i)) := by
  obtain ⟨hl, -⟩ := cg_loop h hs store p htol hb hrun
  have hlen := hl.len
  have hB : (a.Ml ∘ₗ a.A ∘ₗ a.Mr) ystar = a.Ml (a.b - a.A (p.x0.getD 0)) := by
    simp only [LinearMap.comp_apply, map_sub, ← hy, map_add]
    abel
  obtain ⟨hS, -, -⟩ := affine_min (g := gform a.ip a.M) h.ls.prec (Nat.succ_pos k)
    (fun i hi j hj hij => hl.inv.orth i (by omega) j (by omega) hij) hne
  have hw : ∑ j ∈ Finset.range (k + 1), mrWeight a st.s.rs k j = 1 := by
    unfold mrWeight
    rw [← Finset.sum_mul, mul_inv_cancel₀ hS.ne']
  have he : ystar - z = ∑ j ∈ Finset.range (k + 1), ((mrWeight a st.s.rs k j : ℝ) : 𝕜) • (ystar - st.s.ys j) := by
    simp only [smul_sub, Finset.sum_sub_distrib]
    rw [← Finset.sum_smul, ← RCLike.ofReal_sum, hw, RCLike.ofReal_one, one_smul,
      ← mr_combination h hs store p htol hb hrun (show k < st.resnorms.length by omega) hne hz]
  rw [he, hm.sum_left, map_sum]
  calc nsq m (ystar - st.s.ys i) = ∑ j ∈ Finset.range (k + 1), mrWeight a st.s.rs k j * nsq m (ystar - st.s.ys i) := by
        rw [← Finset.sum_mul, hw, one_mul]
    _ ≤ _ := Finset.sum_le_sum fun j hj => by
        have hj' := Finset.mem_range.mp hj
        rw [hm.smul_left, RCLike.conj_ofReal, RCLike.re_ofReal_mul]
        refine mul_le_mul_of_nonneg_left
          (hl.inv.err_inner (h.cgHyp _) hm hmM (fun x => h.energyInner.nsq_nonneg x) hB (by omega) (by omega)) ?_
        exact mul_nonneg (inv_nonneg.mpr (h.ls.prec.nsq_nonneg _)) (inv_nonneg.mpr hS.le)

/-- The errors of the minimal residual method decrease strictly. -/
theorem mr_err_lt {k : ℕ} (hk : k + 1 < st.resnorms.length) (hne : st.s.rs k ≠ 0) {z z' : E}
    (hz : IsMR a (p.x0.getD 0) k z) (hz' : IsMR a (p.x0.getD 0) (k + 1) z') :
    nsq m (ystar - z') < nsq m (ystar - z) := by
  obtain ⟨hl, -⟩ := cg_loop h hs store p htol hb hrun
  have hlen := hl.len
  obtain ⟨hres, horth, -⟩ := C31_residuals h hs store p htol hb hrun
  have hinj : ∀ x, a.Ml (a.A (a.Mr x)) = 0 → x = 0 := fun x hx => by
    by_contra h0
    have := h.pos _ h0
    rw [hx, h.ls.inner.zero_right] at this
    simp at this
  have hsolved : ∀ x, a.Ml (a.b - a.A (p.x0.getD 0 + a.Mr x)) = 0 → x = ystar := fun x hx => by
    have h1 : a.Ml (a.A (a.Mr (ystar - x))) = 0 := by
      rw [← hx]
      have : a.Ml a.b = a.Ml (a.A (p.x0.getD 0)) + a.Ml (a.A (a.Mr ystar)) := by rw [← hy]; simp only [map_add]
      simp only [map_sub, map_add, this]
      abel
    exact (sub_eq_zero.mp (hinj _ h1)).symm
  -- earlier residuals do not vanish
  have hne' : ∀ j < k + 1, st.s.rs j ≠ 0 := fun j hj h0 => by
    rcases Nat.lt_or_ge j k with h1 | h1
    · refine hl.inv.rho_ne j (by omega) ?_
      rw [hl.inv.rho j (by omega), h0]
      exact h.ls.prec.nsq_eq_zero.mpr rfl
    · obtain rfl : j = k := by omega
      exact hne h0
  obtain ⟨hS, -, -⟩ := affine_min (g := gform a.ip a.M) h.ls.prec (Nat.succ_pos k)
    (fun i hi j hj hij => hl.inv.orth i (by omega) j (by omega) hij) hne'
  have hzc := mr_combination h hs store p htol hb hrun (show k < st.resnorms.length by omega) hne' hz
  -- `z` is not a solution
  have hzr : ystar ≠ z := by
    intro h0
    have hr0 : resid a (p.x0.getD 0 + a.Mr z) = 0 := (resid_eq_zero h.ls).mpr (by rw [map_sub, ← hy, ← h0, sub_self])
    have h1 : SolvedIn a (p.x0.getD 0) k := ⟨_, ⟨z, hz.1, rfl⟩, (resid_eq_zero h.ls).mp hr0⟩
    have hpsd : PsdHyp a := ⟨h.ls, h.sa, fun x => h.energyInner.nsq_nonneg x⟩
    have h2 := (cg_solved hpsd hs store p htol hb hrun h1.consistent (show k < st.resnorms.length by omega)).mp h1
    have h3 := (hres k (by omega)).1
    rw [h2, zero_mul] at h3
    refine hne ?_
    rw [(hres k (by omega)).2]
    exact (resid_eq_zero h.ls).mp h3.symm
  have hez : 0 < nsq m (ystar - z) := hm.nsq_pos (sub_ne_zero.mpr hzr)
  by_cases hlast : st.s.rs (k + 1) = 0
  · -- the last iterate is the solution
    have h1 : a.Ml (a.b - a.A (p.x0.getD 0 + a.Mr (st.s.ys (k + 1)))) = 0 := by rw [← (hres (k + 1) hk).2]; exact hlast
    have h2 := hz'.2 _ (hl.inv.ys_mem (h.cgHyp _) (k + 1) (by omega))
    rw [(resid_eq_zero h.ls).mpr h1] at h2
    have h3 : z' = ystar := hsolved _ ((resid_eq_zero h.ls).mp (le_antisymm h2 (nrm_nonneg _ _)))
    rw [h3, sub_self]
    have h4 : nsq m (0 : E) = 0 := hm.nsq_eq_zero.mpr rfl
    rw [h4]
    exact hez
  have hne2 : ∀ j < k + 1 + 1, st.s.rs j ≠ 0 := fun j hj => by
    rcases Nat.lt_or_ge j (k + 1) with h1 | h1
    · exact hne' j h1
    · obtain rfl : j = k + 1 := by omega
      exact hlast
  have hzc' := mr_combination h hs store p htol hb hrun hk hne2 hz'
  have hge := mr_err_ge h hs store p htol hb hrun hm hmM hy hk (Nat.le_succ k) hne' hz
  -- the new iterate lies between the previous one and that of CG
  set S := ∑ j ∈ Finset.range (k + 1), (nsq (gform a.ip a.M) (st.s.rs j))⁻¹ with hSdef
  set q := (nsq (gform a.ip a.M) (st.s.rs (k + 1)))⁻¹ with hq
  have hq0 : 0 < q := inv_pos.mpr (h.ls.prec.nsq_pos hlast)
  have hS' : ∑ j ∈ Finset.range (k + 1 + 1), (nsq (gform a.ip a.M) (st.s.rs j))⁻¹ = S + q := by rw [Finset.sum_range_succ]
  have hconv : z' = ((S * (S + q)⁻¹ : ℝ) : 𝕜) • z + ((q * (S + q)⁻¹ : ℝ) : 𝕜) • st.s.ys (k + 1) := by
    rw [hzc', Finset.sum_range_succ]
    congr 1
    · rw [hzc, Finset.smul_sum]
      refine Finset.sum_congr rfl fun j hj => ?_
      rw [smul_smul, ← RCLike.ofReal_mul]
      congr 2
      unfold mrWeight
      rw [hS', ← hSdef]
      field_simp
    · unfold mrWeight
      rw [hS']
  have hsum : S * (S + q)⁻¹ + q * (S + q)⁻¹ = 1 := by
    rw [← add_mul, mul_inv_cancel₀ (by positivity)]
  set t := q * (S + q)⁻¹ with ht
  have ht0 : 0 < t := by positivity
  have ht1 : S * (S + q)⁻¹ = 1 - t := by linarith
  have ht2 : 0 < 1 - t := by rw [← ht1]; positivity
  have herr : ystar - z' = ((1 - t : ℝ) : 𝕜) • (ystar - z) + ((t : ℝ) : 𝕜) • (ystar - st.s.ys (k + 1)) := by
    rw [hconv, ht1, smul_sub, smul_sub]
    push_cast
    rw [sub_smul, sub_smul, one_smul, one_smul]
    abel
  have hU := hm.nsq_sub (ystar - z) (ystar - st.s.ys (k + 1))
  have hdiff : 0 < nsq m (ystar - z - (ystar - st.s.ys (k + 1))) := by
    refine hm.nsq_pos fun h0 => ?_
    have h1 : st.s.ys (k + 1) = z := by
      have : ystar - z - (ystar - st.s.ys (k + 1)) = st.s.ys (k + 1) - z := by abel
      rw [this] at h0
      exact sub_eq_zero.mp h0
    -- the residual of `z` would be orthogonal to itself
    obtain ⟨hfwd, -⟩ := cg_affine h hs store p htol hb hrun (show k < st.resnorms.length by omega) hne'
    obtain ⟨c, -, hc⟩ := hfwd (p.x0.getD 0 + a.Mr z) ⟨z, hz.1, rfl⟩
    rw [← h1, ← (hres (k + 1) hk).2] at hc
    refine hlast (h.ls.prec.self_eq_zero.mp ?_)
    conv_lhs => rw [hc]
    rw [h.ls.inner.sum_left]
    refine Finset.sum_eq_zero fun j hj => ?_
    have hj' := Finset.mem_range.mp hj
    rw [h.ls.inner.smul_left, ← hc, horth j (by omega) (k + 1) hk (by omega), mul_zero]
  rw [herr, hm.nsq_add, hm.nsq_smul, hm.nsq_smul, hm.smul_left, hm.smul_right, RCLike.conj_ofReal, RCLike.re_ofReal_mul,
    RCLike.re_ofReal_mul, RCLike.norm_ofReal, RCLike.norm_ofReal, sq_abs, sq_abs]
  set U := nsq m (ystar - z)
  set V := nsq m (ystar - st.s.ys (k + 1))
  set R := RCLike.re (m (ystar - z) (ystar - st.s.ys (k + 1)))
  have hVU : V < U := by linarith
  have hRle : 2 * R ≤ U + V := by linarith
  have h1 : (1 - t) * t * (2 * R) ≤ (1 - t) * t * (U + V) := mul_le_mul_of_nonneg_left hRle (mul_pos ht2 ht0).le
  nlinarith [mul_pos ht0 (sub_pos.mpr hVU)]

end mrerr

/-- The minimal residual property of the vectors behind the error norms. -/
theorem ErrHist.isMR {a : LSArgs 𝕜 E} {x0 xs x : E} {l le : List ℝ} (hm : MinRes a x0 l x)
    (hall : ∀ i (hi : i < le.length) (hi' : i < l.length), ∃ x ∈ searchSpace a x0 i, resid a x = l[i] * resid a 0 ∧ le[i] = errOf a xs x)
    {i : ℕ} (hi : i < le.length) (hi' : i < l.length) : ∃ z, IsMR a x0 i z ∧ le[i] = errOf a xs (x0 + a.Mr z) := by
  obtain ⟨x, ⟨z, hz, rfl⟩, hr, he⟩ := hall i hi hi'
  exact ⟨z, ⟨hz, fun z' hz' => by rw [hr]; exact (hm.minima i hi').2 ⟨_, ⟨z', hz', rfl⟩, rfl⟩⟩, he⟩

theorem MinRes.err_decreasing {a : LSArgs 𝕜 E} (h : SpdHyp a) (hM : ∀ x, a.M x = x) (hMr : ∀ x, a.Mr x = x) {s : LS 𝕜 E}
    (hs : mkLS a = .ok s) (hb : a.Ml a.b ≠ 0) {x0 xs x : E} (hsol : a.Ml (a.A xs) = a.Ml a.b) {l : List ℝ}
    (hm : MinRes a x0 l x) (hearly : ∀ i (hi : i + 1 < l.length), 0 < l[i]) {errs : Option (List ℝ)}
    (herr : ErrHist a x0 xs l errs) :
    ∃ le, errs = some le ∧ le.length = l.length ∧ le.Pairwise fun e e' => e' < e := by
  obtain ⟨le, hle, hlen, hall⟩ := herr
  refine ⟨le, hle, hlen, ?_⟩
  have hpsd : PsdHyp a := ⟨h.ls, h.sa, fun x => h.energyInner.nsq_nonneg x⟩
  have hy : a.Ml (a.A (x0 + a.Mr (xs - x0))) = a.Ml a.b := by rw [hMr, add_sub_cancel]; exact hsol
  have hcons : Consistent a x0 := ⟨xs - x0, by
    have := hy
    simp only [map_add, map_sub] at this ⊢
    rw [← this]; abel⟩
  -- a run of CG which is long enough
  let p : SolverArgs E := ⟨some x0, 0, l.length, false, none⟩
  obtain ⟨st, hst⟩ := (C67_cg hpsd hs false p le_rfl hb hcons).1
  have hpp := MinRes.peakPlateau h hs false p le_rfl hb hst hm
  have hc := C22_cg s s.hooks false p
  have hlpos : 0 < l.length := List.length_pos_of_ne_nil hm.nonempty
  have hlong : l.length ≤ st.resnorms.length := by
    rcases hst with hst | hst
    · obtain ⟨-, r, hr, hr'⟩ := hc.returned (show 1 ≤ l.length from hlpos) st hst
      rcases hr' with hr' | hr'
      swap
      · cases hr'
      have hpos : 0 < st.resnorms.length := by have := (hc.history st (Or.inl hst)).1; omega
      rw [List.getLast?_eq_getElem?, List.getElem?_eq_getElem (by omega), Option.some.injEq] at hr
      by_contra hcon
      have h1 := hpp.le (st.resnorms.length - 1) (by omega) (by omega)
      have h2 := hearly (st.resnorms.length - 1) (by omega)
      rw [hr] at h1
      exact hr' (lt_of_lt_of_le h2 h1)
    · have h2 := (hc.convergence st hst).2.1
      change _ = l.length + 1 at h2
      omega
  have hres := (C31_residuals h hs false p le_rfl hb hst).1
  have hstep : ∀ k (hk : k + 1 < le.length), le[k + 1] < le[k] := by
    intro k hk
    obtain ⟨z, hz, he⟩ := ErrHist.isMR hm hall (i := k) (by omega) (by omega)
    obtain ⟨z', hz', he'⟩ := ErrHist.isMR hm hall (i := k + 1) hk (by omega)
    have hne : st.s.rs k ≠ 0 := fun h0 => by
      have h1 := (hres k (by omega)).1
      have h3 : resid a (p.x0.getD 0 + a.Mr (st.s.ys k)) = 0 :=
        (resid_eq_zero h.ls).mpr (by rw [← (hres k (by omega)).2]; exact h0)
      rw [h3] at h1
      have h2 := (mul_eq_zero.mp h1).resolve_right (resid_pos h.ls hb).ne'
      exact (hearly k (by omega)).ne' ((hpp.zero k (by omega) (by omega)).mp h2)
    have h1 := mr_err_lt h hs false p le_rfl hb hst h.ls.inner (m := a.ip) (fun x y => by rw [hM]) (ystar := xs - x0) hy
      (by omega) hne hz hz'
    rw [he, he']
    unfold errOf
    rw [hMr, hMr, ← sub_sub, ← sub_sub]
    exact Real.sqrt_lt_sqrt (h.ls.inner.nsq_nonneg _) h1
  refine List.pairwise_iff_getElem.mpr fun i j hi hj hij => ?_
  induction j with
  | zero => omega
  | succ j ih =>
    rcases Nat.lt_or_ge i j with h1 | h1
    · exact (hstep j hj).trans (ih (by omega) h1)
    · obtain rfl : i = j := by omega
      exact hstep i hj

/-- C72: for self-adjoint positive definite systems without preconditioners `M` and `Mr` the recorded error norms of `Minres` decrease
strictly. -/
theorem C72_minres_decreasing {a : LSArgs 𝕜 E} (h : SpdHyp a) (hM : ∀ x, a.M x = x) (hMr : ∀ x, a.Mr x = x) {s : LS 𝕜 E}
    (hs : mkLS a = .ok s) (ortho : Ortho) (p : SolverArgs E) (htol : 0 ≤ p.tol) (hb : a.Ml a.b ≠ 0) {xs : E}
    (hx : p.exact = some xs) (hsol : a.Ml (a.A xs) = a.Ml a.b) {st : St ℝ E (MinresSt 𝕜 E)}
    (hrun : minres s s.hooks ortho p = .returned st ∨ minres s s.hooks ortho p = .convergence st) :
    ∃ l, st.errnorms = some l ∧ l.length = st.resnorms.length ∧ l.Pairwise fun e e' => e' < e := by
  obtain ⟨x, -, hm, -⟩ := C29_optimal ⟨h.ls, h.sa⟩ hs ortho p htol hb hrun
  exact MinRes.err_decreasing h hM hMr hs hb hsol hm (fun i hi => lt_of_le_of_lt htol
    ((C22_minres s s.hooks ortho p).earlier st hrun i _ hi (List.getElem?_eq_getElem (by omega))))
    (C72_minres ⟨h.ls, h.sa⟩ hs ortho p htol hb hx hrun)

/-- C72: the same for `Gmres`. -/
theorem C72_gmres_decreasing {a : LSArgs 𝕜 E} {ortho : Ortho} (ho : GmresHyp a ortho) (h : SpdHyp a) (hM : ∀ x, a.M x = x)
    (hMr : ∀ x, a.Mr x = x) {s : LS 𝕜 E}
    (hs : mkLS a = .ok s) (p : SolverArgs E) (htol : 0 ≤ p.tol) (hb : a.Ml a.b ≠ 0) {xs : E}
    (hx : p.exact = some xs) (hsol : a.Ml (a.A xs) = a.Ml a.b) {st : St ℝ E (GmresSt 𝕜 E)}
    (hrun : gmres s s.hooks ortho p = .returned st ∨ gmres s s.hooks ortho p = .convergence st) :
    ∃ l, st.errnorms = some l ∧ l.length = st.resnorms.length ∧ l.Pairwise fun e e' => e' < e := by
  obtain ⟨x, -, hm, -⟩ := C26_optimal ho hs p htol hb hrun
  exact MinRes.err_decreasing h hM hMr hs hb hsol hm (fun i hi => lt_of_le_of_lt htol
    ((C22_gmres s s.hooks ortho p).earlier st hrun i _ hi (List.getElem?_eq_getElem (by omega))))
    (C72_gmres ho hs p htol hb hx hrun)

/-- C72: in every iteration the error norm of `Cg` is at most that of `Minres`, although its residual norm is at least that of `Minres`. -/
theorem C72_compare {a : LSArgs 𝕜 E} (h : SpdHyp a) (hM : ∀ x, a.M x = x) (hMr : ∀ x, a.Mr x = x) {s : LS 𝕜 E}
    (hs : mkLS a = .ok s) (store : Bool) (ortho : Ortho) (p q : SolverArgs E) (hp : 0 ≤ p.tol) (hq : 0 ≤ q.tol)
    (hx0 : p.x0.getD 0 = q.x0.getD 0) (hb : a.Ml a.b ≠ 0) {xs : E}
    (hx : p.exact = some xs) (hx' : q.exact = some xs) (hsol : a.Ml (a.A xs) = a.Ml a.b)
    {st : St ℝ E (CgSt 𝕜 E)} (hrun : cg s s.hooks store p = .returned st ∨ cg s s.hooks store p = .convergence st)
    {st' : St ℝ E (MinresSt 𝕜 E)}
    (hrun' : minres s s.hooks ortho q = .returned st' ∨ minres s s.hooks ortho q = .convergence st') :
    ∃ l l', st.errnorms = some l ∧ st'.errnorms = some l' ∧
      ∀ k (hk : k < l.length) (hk' : k < l'.length), l[k] ≤ l'[k] := by
  obtain ⟨l, hl, hlen, hall⟩ := C72_cg h hs store p hp hb hx hrun
  obtain ⟨l', hl', hlen', hall'⟩ := C72_minres ⟨h.ls, h.sa⟩ hs ortho q hq hb hx' hrun'
  obtain ⟨x, -, hm, -⟩ := C29_optimal ⟨h.ls, h.sa⟩ hs ortho q hq hb hrun'
  refine ⟨l, l', hl, hl', fun k hk hk' => ?_⟩
  obtain ⟨z, hz, he⟩ := ErrHist.isMR hm hall' hk' (by omega)
  rw [hall k hk, he]
  have hy : a.Ml (a.A (p.x0.getD 0 + a.Mr (xs - p.x0.getD 0))) = a.Ml a.b := by rw [hMr, add_sub_cancel]; exact hsol
  unfold errOf
  rw [hMr, hMr, ← hx0, ← sub_sub, ← sub_sub]
  refine Real.sqrt_le_sqrt ?_
  rw [← hx0] at hz
  by_cases hne : ∀ j < k + 1, st.s.rs j ≠ 0
  · have h1 := mr_err_ge h hs store p hp hb hrun h.ls.inner (m := a.ip) (fun x y => by rw [hM]) hy (show k < st.resnorms.length by omega)
      le_rfl hne hz
    have h2 := h.ls.inner.nsq_sub (xs - p.x0.getD 0 - z) (xs - p.x0.getD 0 - st.s.ys k)
    have h3 := h.ls.inner.nsq_nonneg (xs - p.x0.getD 0 - z - (xs - p.x0.getD 0 - st.s.ys k))
    linarith
  · -- the iterate of CG is the solution
    push Not at hne
    obtain ⟨j, hj, h0⟩ := hne
    have hres := (C31_residuals h hs store p hp hb hrun).1
    obtain ⟨hlo, -⟩ := cg_loop h hs store p hp hb hrun
    have hlen2 := hlo.len
    obtain rfl : j = k := by
      by_contra hjk
      refine hlo.inv.rho_ne j (by omega) ?_
      rw [hlo.inv.rho j (by omega), h0]
      exact h.ls.prec.nsq_eq_zero.mpr rfl
    have h1 : a.Ml (a.A (a.Mr (xs - p.x0.getD 0 - st.s.ys j))) = 0 := by
      have h2 := (hres j (by omega)).2
      rw [h0] at h2
      refine Eq.trans ?_ h2.symm
      have : a.Ml a.b = a.Ml (a.A xs) := hsol.symm
      simp only [map_sub, map_add, this, hMr]
      abel
    have h2 : xs - p.x0.getD 0 - st.s.ys j = 0 := by
      by_contra h3
      have := h.pos _ h3
      rw [h1, h.ls.inner.zero_right] at this
      simp at this
    rw [h2]
    have h4 : nsq a.ip (0 : E) = 0 := h.ls.inner.nsq_eq_zero.mpr rfl
    rw [h4]
    exact h.ls.inner.nsq_nonneg _

/-! ## Non-vacuity, and where the errors grow -/

/-- Runs of `Cg` and `Minres` for `A = diag(1, 2)`, `b = (1, 1)` with the exact solution `(1, 1/2)`: the error norms of both decrease, and
those of `Cg` are three numbers. -/
example : ∃ s st st' l l', mkLS exSpd = .ok s ∧ cg s s.hooks true ⟨none, 0, 5, false, some (1, 1 / 2)⟩ = .returned st ∧
    (minres s s.hooks .lanczos ⟨none, 0, 5, false, some (1, 1 / 2)⟩ = .returned st' ∨
      minres s s.hooks .lanczos ⟨none, 0, 5, false, some (1, 1 / 2)⟩ = .convergence st') ∧
    st.errnorms = some l ∧ st'.errnorms = some l' ∧ l.length = 3 ∧ (l.Pairwise fun e e' => e' < e) ∧
    (l'.Pairwise fun e e' => e' < e) ∧ ∀ k (hk : k < l.length) (hk' : k < l'.length), l[k] ≤ l'[k] := by
  obtain ⟨s, hs, -⟩ := mkLS_ok exSpd_hyp.ls
  obtain ⟨h2, h1, -⟩ := exSpd_solvedIn
  have hp : PsdHyp exSpd := ⟨exSpd_hyp.ls, exSpd_hyp.sa, fun x => exSpd_hyp.energyInner.nsq_nonneg x⟩
  have hb : exSpd.Ml exSpd.b ≠ 0 := by simp [exSpd]
  have hsol : exSpd.Ml (exSpd.A (1, 1 / 2)) = exSpd.Ml exSpd.b := by simp [exSpd]
  have hleast : IsLeast {n | SolvedIn exSpd 0 n} 2 := ⟨h2, fun n hn => by
    by_contra hcon
    exact h1 (hn.mono (by omega))⟩
  obtain ⟨st, hst, -⟩ := (C70_cg hp hs true ⟨none, 0, 5, false, some (1, 1 / 2)⟩ le_rfl hb (n := 2) h2).2 (by norm_num)
  have hlen := (C70_cg_count hp hs true ⟨none, 0, 5, false, some (1, 1 / 2)⟩ rfl (by norm_num) hb h2.consistent hst).unique hleast
  obtain ⟨st', hst'⟩ := (C67_minres ⟨exSpd_hyp.ls, exSpd_hyp.sa⟩ hs .lanczos ⟨none, 0, 5, false, some (1, 1 / 2)⟩ le_rfl hb
    h2.consistent).1
  obtain ⟨l, e1, e2, e3⟩ := C72_cg_decreasing exSpd_hyp (fun _ => rfl) (fun _ => rfl) hs true ⟨none, 0, 5, false, some (1, 1 / 2)⟩
    le_rfl hb rfl hsol (Or.inl hst)
  obtain ⟨l', e1', -, e3'⟩ := C72_minres_decreasing exSpd_hyp (fun _ => rfl) (fun _ => rfl) hs .lanczos
    ⟨none, 0, 5, false, some (1, 1 / 2)⟩ le_rfl hb rfl hsol hst'
  obtain ⟨m, m', f1, f2, f3⟩ := C72_compare exSpd_hyp (fun _ => rfl) (fun _ => rfl) hs true .lanczos
    ⟨none, 0, 5, false, some (1, 1 / 2)⟩ ⟨none, 0, 5, false, some (1, 1 / 2)⟩ le_rfl le_rfl rfl hb rfl rfl hsol (Or.inl hst) hst'
  rw [e1, Option.some.injEq] at f1
  rw [e1', Option.some.injEq] at f2
  subst f1 f2
  exact ⟨s, st, st', l, l', hs, hst, hst', e1, e1', by omega, e3, e3', f3⟩

/-- The self-adjoint indefinite system with `A (x, y) = (x + y, x)`, `b = (1, 0)` and solution `(0, 1)`. -/
noncomputable def exGrow : LSArgs ℝ (ℝ × ℝ) where
  A := LinearMap.prod (LinearMap.fst ℝ ℝ ℝ + LinearMap.snd ℝ ℝ ℝ) (LinearMap.fst ℝ ℝ ℝ)
  b := (1, 0)
  M := LinearMap.id
  Ml := LinearMap.id
  Mr := LinearMap.id
  ip := exCfg.ip
  normal := none
  selfAdjoint := true
  positiveDefinite := false

theorem exGrow_hyp : MinresHyp exGrow where
  ls := ⟨exCfg_hyp.ls.inner, exCfg_hyp.ls.inner⟩
  sa := by
    intro x y
    simp [exGrow, exCfg]
    ring

/-- C72: definiteness is needed for the decrease: for a self-adjoint indefinite system the error norm of `Minres` grows in the first
iteration, although the residual norm decreases. -/
theorem C72_minres_indefinite : ∃ s st l, MinresHyp exGrow ∧ mkLS exGrow = .ok s ∧ exGrow.Ml (exGrow.A (0, 1)) = exGrow.Ml exGrow.b ∧
    (minres s s.hooks .lanczos ⟨none, 0, 1, false, some (0, 1)⟩ = .returned st ∨
      minres s s.hooks .lanczos ⟨none, 0, 1, false, some (0, 1)⟩ = .convergence st) ∧
    st.errnorms = some l ∧ ∃ (h : 1 < l.length) (h' : 1 < st.resnorms.length), l[0] < l[1] ∧ st.resnorms[1] < st.resnorms[0] := by
  obtain ⟨s, hs, ok, -⟩ := mkLS_ok exGrow_hyp.ls
  have hb : exGrow.Ml exGrow.b ≠ 0 := by simp [exGrow]
  have hsol : exGrow.Ml (exGrow.A (0, 1)) = exGrow.Ml exGrow.b := by simp [exGrow]
  obtain ⟨st, hst⟩ := (C67_minres exGrow_hyp hs .lanczos ⟨none, 0, 1, false, some (0, 1)⟩ le_rfl hb ⟨(0, 1), by simp [exGrow]⟩).1
  obtain ⟨x, -, hm, -, hlen, -⟩ := C29_optimal exGrow_hyp hs .lanczos ⟨none, 0, 1, false, some (0, 1)⟩ le_rfl hb hst
  obtain ⟨l, hl, hll, hall⟩ := C72_minres exGrow_hyp hs .lanczos ⟨none, 0, 1, false, some (0, 1)⟩ le_rfl hb rfl hst
  have hsq : ∀ y : ℝ × ℝ, resid exGrow y ^ 2 = (1 - (y.1 + y.2)) ^ 2 + y.1 ^ 2 := by
    intro y
    unfold resid
    have : IsInner fun x y => exGrow.ip x (exGrow.M y) := exGrow_hyp.ls.prec
    rw [this.nrm_sq]
    simp [nsq, exGrow, exCfg]
    ring
  have hnn : ∀ y, 0 ≤ resid exGrow y := fun y => nrm_nonneg _ _
  have h0 : resid exGrow 0 = 1 := by
    have := hsq 0
    simp at this
    rcases this with h | h
    · exact h
    · linarith [hnn 0]
  have herr : ∀ y : ℝ × ℝ, errOf exGrow (0, 1) y ^ 2 = y.1 ^ 2 + (1 - y.2) ^ 2 := by
    intro y
    unfold errOf
    rw [exGrow_hyp.ls.inner.nrm_sq]
    simp [nsq, exGrow, exCfg]
    ring
  have hss0 : ∀ y ∈ searchSpace exGrow 0 0, y = 0 := by
    rintro y ⟨z, hz, rfl⟩
    rw [krylov_eq_spanTo, mem_spanTo_iff] at hz
    obtain ⟨c, rfl⟩ := hz
    simp
  have hss1 : ∀ y ∈ searchSpace exGrow 0 1, y.2 = 0 := by
    rintro y ⟨z, hz, rfl⟩
    rw [krylov_eq_spanTo, mem_spanTo_iff] at hz
    obtain ⟨c, rfl⟩ := hz
    simp [exGrow]
  have hhalf : ((1 / 2, 0) : ℝ × ℝ) ∈ searchSpace exGrow 0 1 := by
    refine ⟨(1 / 2, 0), ?_, by simp [exGrow]⟩
    rw [krylov_eq_spanTo, mem_spanTo_iff]
    exact ⟨fun _ => 1 / 2, by simp [exGrow]⟩
  have h1 : 1 < st.resnorms.length := by
    by_contra hcon
    have hpos : 0 < st.resnorms.length := List.length_pos_of_ne_nil hm.nonempty
    have hone : st.resnorms.length = 1 := by omega
    have hcall := C22_minres s s.hooks .lanczos ⟨none, 0, 1, false, some (0, 1)⟩
    rcases hst with hst | hst
    · obtain ⟨-, r, hr, hor⟩ := hcall.returned (by norm_num [mkCfg]) st hst
      rcases hor with hor | hinv
      · have h2 := hm.attains r hr
        have h3 := hm.mem
        rw [hone] at h3
        rw [hss0 x h3, h0] at h2
        have : ¬ (0 : ℝ) < r := hor
        linarith
      · have hreach := minres_reach exGrow_hyp hs ⟨none, 0, 1, false, some (0, 1)⟩ le_rfl hb (Or.inl hst)
        have hah := ok.arnHyp (exGrow_hyp.gmres .lanczos) 1
        have hv : exGrow.Ml (exGrow.b - exGrow.A 0) ≠ 0 := by simp [exGrow]
        exact hv ((ArnInv.facts hah hreach).start hinv (by omega))
    · have h2 : st.resnorms.length = 2 := (hcall.convergence st hst).2.1
      omega
  have hl1 : 1 < l.length := by omega
  have m0 := (hm.minima 0 (by omega)).1
  obtain ⟨y0, hy0, hr0⟩ := m0
  rw [hss0 y0 hy0, h0] at hr0
  obtain ⟨z0, hz0, -, he0⟩ := hall 0 (by omega) (by omega)
  obtain ⟨z1, hz1, hr1, he1⟩ := hall 1 hl1 h1
  have hle : resid exGrow z1 ≤ resid exGrow (1 / 2, 0) := by
    rw [hr1]
    exact (hm.minima 1 h1).2 ⟨_, hhalf, rfl⟩
  have hle2 : resid exGrow z1 ^ 2 ≤ 1 / 2 := by
    refine (pow_le_pow_left₀ (hnn _) hle 2).trans ?_
    rw [hsq]
    norm_num
  have hz12 := hss1 z1 hz1
  rw [hsq, hz12] at hle2
  have hz11 : z1.1 = 1 / 2 := by nlinarith [sq_nonneg (z1.1 - 1 / 2)]
  refine ⟨s, st, l, exGrow_hyp, hs, hsol, hst, hl, hl1, h1, ?_, ?_⟩
  · rw [he0, he1, hss0 z0 hz0]
    refine lt_of_pow_lt_pow_left₀ 2 (nrm_nonneg _ _) ?_
    rw [herr, herr, hz12, hz11]
    norm_num
  · have h2 : st.resnorms[1] = resid exGrow z1 := by rw [hr1, h0, mul_one]
    have h3 : st.resnorms[0] = 1 := by linarith
    rw [h2, h3]
    refine lt_of_pow_lt_pow_left₀ 2 zero_le_one ?_
    rw [hsq, hz12, hz11]
    norm_num

/-- The system with `A = diag(1, 16)`, `b = (1, 16)`, solution `(1, 1)` and the preconditioner `M = diag(64, 1)`. -/
noncomputable def exPrec : LSArgs ℝ (ℝ × ℝ) where
  A := LinearMap.prodMap LinearMap.id (16 • LinearMap.id)
  b := (1, 16)
  M := LinearMap.prodMap (64 • LinearMap.id) LinearMap.id
  Ml := LinearMap.id
  Mr := LinearMap.id
  ip := exCfg.ip
  normal := none
  selfAdjoint := true
  positiveDefinite := true

theorem exPrec_hyp : SpdHyp exPrec where
  ls := by
    refine ⟨exCfg_hyp.ls.inner, ⟨fun x y z => ?_, fun x t y => ?_, fun x y => ?_, fun x hx => ?_⟩⟩
    · simp [exPrec, exCfg]; ring
    · simp [exPrec, exCfg]; ring
    · simp [exPrec, exCfg]; ring
    · have hxy : x.1 ≠ 0 ∨ x.2 ≠ 0 := by
        by_contra hcon
        push Not at hcon
        exact hx (Prod.ext hcon.1 hcon.2)
      simp [exPrec, exCfg]
      rcases hxy with h | h
      · have := mul_self_pos.mpr h; nlinarith [mul_self_nonneg x.2]
      · have := mul_self_pos.mpr h; nlinarith [mul_self_nonneg x.1]
  sa := by
    intro x y
    simp [exPrec, exCfg]
    ring
  pos := by
    rintro ⟨x, y⟩ hx
    have hxy : x ≠ 0 ∨ y ≠ 0 := by
      by_contra hcon
      push Not at hcon
      exact hx (by rw [hcon.1, hcon.2]; rfl)
    simp [exPrec, exCfg]
    rcases hxy with h | h
    · have := mul_self_pos.mpr h; nlinarith [mul_self_nonneg y]
    · have := mul_self_pos.mpr h; nlinarith [mul_self_nonneg x]

/-- C72: with a preconditioner `M` the recorded error norms of `Cg` need not decrease. -/
theorem C72_cg_precond_counterexample : ∃ s st l, SpdHyp exPrec ∧ mkLS exPrec = .ok s ∧
    exPrec.Ml (exPrec.A (1, 1)) = exPrec.Ml exPrec.b ∧
    (cg s s.hooks true ⟨none, 0, 1, false, some (1, 1)⟩ = .returned st ∨
      cg s s.hooks true ⟨none, 0, 1, false, some (1, 1)⟩ = .convergence st) ∧
    st.errnorms = some l ∧ ∃ h : 1 < l.length, l[0] < l[1] := by
  obtain ⟨s, hs, -⟩ := mkLS_ok exPrec_hyp.ls
  have hb : exPrec.Ml exPrec.b ≠ 0 := by simp [exPrec]
  have hsol : exPrec.Ml (exPrec.A (1, 1)) = exPrec.Ml exPrec.b := by simp [exPrec]
  have hp : PsdHyp exPrec := ⟨exPrec_hyp.ls, exPrec_hyp.sa, fun x => exPrec_hyp.energyInner.nsq_nonneg x⟩
  obtain ⟨st, hst⟩ := (C67_cg hp hs true ⟨none, 0, 1, false, some (1, 1)⟩ le_rfl hb ⟨(1, 1), by simp [exPrec]⟩).1
  obtain ⟨-, hopt⟩ := C30_optimal exPrec_hyp hs true ⟨none, 0, 1, false, some (1, 1)⟩ le_rfl hb hst
  obtain ⟨l, hl, hll, hall⟩ := C72_cg exPrec_hyp hs true ⟨none, 0, 1, false, some (1, 1)⟩ le_rfl hb rfl hst
  have herr : ∀ y : ℝ × ℝ, errOf exPrec (1, 1) y ^ 2 = (1 - y.1) ^ 2 + (1 - y.2) ^ 2 := by
    intro y
    unfold errOf
    rw [exPrec_hyp.ls.inner.nrm_sq]
    simp [nsq, exPrec, exCfg]
    ring
  have hk0 : ∀ y ∈ kry exPrec 0 0, y = 0 := by
    intro z hz
    rw [kry, krylov_eq_spanTo, mem_spanTo_iff] at hz
    obtain ⟨c, rfl⟩ := hz
    simp
  have hk1 : ∀ y ∈ kry exPrec 0 1, ∃ c : ℝ, y = (64 * c, 16 * c) := by
    intro z hz
    rw [kry, krylov_eq_spanTo, mem_spanTo_iff] at hz
    obtain ⟨c, rfl⟩ := hz
    exact ⟨c 0, by simp [exPrec, mul_comm]⟩
  have hbest : ((5 / 2, 5 / 8) : ℝ × ℝ) ∈ kry exPrec 0 1 := by
    rw [kry, krylov_eq_spanTo, mem_spanTo_iff]
    refine ⟨fun _ => 5 / 128, ?_⟩
    simp [exPrec]
    norm_num
  have h1 : 1 < st.resnorms.length := by
    by_contra hcon
    have hcall := C22_cg s s.hooks true ⟨none, 0, 1, false, some (1, 1)⟩
    have hpos := (hcall.history st hst).1
    have hres := (C31_residuals exPrec_hyp hs true ⟨none, 0, 1, false, some (1, 1)⟩ le_rfl hb hst).1
    rcases hst with hst | hst
    · obtain ⟨-, r, hr, hor⟩ := hcall.returned (by norm_num [mkCfg]) st hst
      rcases hor with hor | hinv
      swap
      · cases hinv
      rw [List.getLast?_eq_getElem?, List.getElem?_eq_getElem (by omega), Option.some.injEq] at hr
      have hidx : st.resnorms.length - 1 = 0 := by omega
      simp only [hidx] at hr
      have h2 := (hres 0 (by omega)).1
      have h3 := hk0 _ (hopt 0 (by omega)).1
      rw [hr] at h2
      have h4 : resid exPrec ((⟨none, 0, 1, false, some (1, 1)⟩ : SolverArgs (ℝ × ℝ)).x0.getD 0 + exPrec.Mr (st.s.ys 0)) =
          resid exPrec 0 := by rw [h3]; simp
      rw [h4] at h2
      have h5 := resid_pos exPrec_hyp.ls hb
      have h6 : r = 1 := by nlinarith
      rw [h6] at hor
      exact hor one_pos
    · have h2 : st.resnorms.length = 2 := (hcall.convergence st hst).2.1
      omega
  have hl1 : 1 < l.length := by omega
  have hy0 := hk0 _ (hopt 0 (by omega)).1
  obtain ⟨hm1, hmin⟩ := hopt 1 h1
  have hle := (hmin (1, 1) (by simp [exPrec]) _ hbest).1
  obtain ⟨c, hc⟩ := hk1 _ hm1
  rw [hc] at hle
  have hc' : c = 5 / 128 := by
    simp [errEnergy, exPrec, exCfg] at hle
    nlinarith [sq_nonneg (c - 5 / 128)]
  refine ⟨s, st, l, exPrec_hyp, hs, hsol, hst, hl, hl1, ?_⟩
  rw [hall 0 (by omega), hall 1 hl1]
  refine lt_of_pow_lt_pow_left₀ 2 (nrm_nonneg _ _) ?_
  rw [herr, herr, hy0, hc, hc']
  simp [exPrec]
  norm_num

end Krypy
