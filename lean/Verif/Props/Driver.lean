import Verif.Proofs.Driver
import Mathlib.Data.Real.Basic
import Mathlib.Tactic.NormNum

/-!
# Properties C22-C25: what a solver call returns (any arithmetic)

All theorems hold for an arbitrary scalar type `F` with arbitrary `≤`, `<`, `/`, `==` (no laws), hence for
IEEE doubles.  `Method`s are arbitrary; `CgLike`/`ArnoldiLike` are the two shapes of loop guards in the code.
-/

namespace Krypy
variable {F X S : Type*} [LE F] [LT F] [DecidableLE F] [DecidableLT F] [Div F]
  [Zero F] [BEq F] [Zero X]

/-- Loop guard of `Cg` (linsys.py 623). -/
def CgLike (m : Method F X S) (maxiter : ℕ) : Prop := ∀ s, m.more s = decide (m.k s < maxiter)

/-- Loop guard of `Minres`/`Gmres` (linsys.py 816-820, 971-975); `inv` is the invariance flag. -/
def ArnoldiLike (m : Method F X S) (maxiter : ℕ) (inv : S → Bool) : Prop :=
  ∀ s, m.more s = (decide (m.k s < maxiter) && !inv s)

/-- Loop invariant of a solver call. -/
structure RunInv (cfg : Cfg F X) (m : Method F X S) (x0 : X) (r0norm : F) (mkS : X → S)
    (st : St F X S) : Prop where
  len : st.resnorms.length = m.k st.s + 1
  k_le : m.k st.s ≤ cfg.maxiter
  err_none : cfg.errNorm = none → st.errnorms = none
  err_some : cfg.errNorm ≠ none → ∃ l, st.errnorms = some l ∧ l.length = m.k st.s + 1
  iter : st.iter = if m.countAfter then m.k st.s else m.k st.s - 1
  init : m.k st.s = 0 → st.s = mkS (if cfg.MMlbNorm == 0 then 0 else x0) ∧
    st.xk = (if cfg.MMlbNorm == 0 then some 0 else none) ∧
    st.resnorms = (if cfg.MMlbNorm == 0 then [0] else [r0norm / cfg.MMlbNorm])
  xk : m.k st.s ≠ 0 → ∀ x, st.xk = some x → m.getXk st.s = .ok x
  last : m.k st.s ≠ 0 →
    (∃ x v, m.getXk st.s = .ok x ∧ st.xk = some x ∧ cfg.resNorm x = .ok v ∧
      st.resnorms.getLast? = some (v / cfg.MMlbNorm) ∧
      ¬ (cfg.tol < v / cfg.MMlbNorm ∧ m.k st.s = cfg.maxiter)) ∨
    (∃ r, st.resnorms.getLast? = some (r / cfg.MMlbNorm) ∧ cfg.explicitResidual = false ∧
      ¬ r / cfg.MMlbNorm ≤ cfg.tol ∧ m.k st.s ≠ cfg.maxiter)
  earlier : ∀ i r, i + 1 < st.resnorms.length → st.resnorms[i]? = some r → cfg.tol < r
  errlast : m.k st.s ≠ 0 → ∀ en, cfg.errNorm = some en →
    ∃ x e l, m.getXk st.s = .ok x ∧ en x = .ok e ∧ st.errnorms = some (l ++ [e])

omit [LE F] [DecidableLE F] [Div F] [Zero F] [BEq F] in
/-- A list that grows only while its last entry is above `tol`. -/
theorem earlier_append {tol : F} {l : List F} {r : F} (hl : l.getLast?.any (fun r => decide (tol < r)) = true)
    (he : ∀ i r, i + 1 < l.length → l[i]? = some r → tol < r) :
    ∀ i r', i + 1 < (l ++ [r]).length → (l ++ [r])[i]? = some r' → tol < r' := by
  intro i r' hi hr
  simp only [List.length_append, List.length_singleton] at hi
  rw [List.getElem?_append_left (by omega)] at hr
  rcases Nat.lt_or_ge (i + 1) l.length with h1 | h1
  · exact he i r' h1 hr
  · rw [List.getLast?_eq_getElem?, show l.length - 1 = i by omega, hr] at hl
    simpa using hl

theorem RunInv.step {cfg : Cfg F X} {m : Method F X S} (hm : LawfulMethod m cfg.maxiter)
    {x0 : X} {r0norm : F} {mkS : X → S} {st st' : St F X S}
    (h : RunInv cfg m x0 r0norm mkS st) (hg : loopGuard cfg m st = true)
    (hb : body cfg m st = .ok st') : RunInv cfg m x0 r0norm mkS st' := by
  obtain ⟨s', r, rkn, h1, h2, h3, h4, h5, h6, h7⟩ := body_ok hb
  have hk : m.k st'.s = m.k st.s + 1 := by rw [h2, hm.post_k, hm.step_k h1]
  have hx : m.getXk st'.s = m.getXk s' := by rw [h2, hm.post_xk]
  have hmore : m.k st.s < cfg.maxiter := by
    simp [loopGuard] at hg; exact hm.more_k hg.2
  refine ⟨?_, by omega, ?_, ?_, ?_, by omega, ?_, ?_, ?_, ?_⟩
  · rw [hk]
    rcases h7 with ⟨x, v, -, -, -, -, e, -⟩ | ⟨-, -, -, -, e, -⟩ <;> rw [e] <;> simp [h.len]
  · intro hn
    rcases h5 with ⟨-, e⟩ | ⟨en, x, e', e'', -⟩
    · rw [e]; exact h.err_none hn
    · simp [hn] at e''
  · intro hn
    rcases h5 with ⟨e, -⟩ | ⟨en, x, e', -, -, -, -, e''⟩
    · exact absurd e hn
    · obtain ⟨l, hl, hl'⟩ := h.err_some hn
      exact ⟨l ++ [e'], by rw [e'', hl]; rfl, by simp [hl', hk]⟩
  · rw [h3, hk]; split <;> simp
  · intro _ x hx'; rw [hx]; exact h4 x hx'
  · intro _
    rcases h7 with ⟨x, v, -, e1, e2, e3, e4, e5, -⟩ | ⟨-, e1, e2, e3, e4, -⟩
    · left; exact ⟨x, v, by rw [hx, e1], e2, e3, by rw [e4]; simp, by rw [hk]; exact e5⟩
    · right; exact ⟨r, by rw [e4]; simp, e1, e2, by rw [hk]; exact e3⟩
  · have hl : st.resnorms.getLast?.any (fun r => decide (cfg.tol < r)) = true := by
      simp only [loopGuard, Bool.and_eq_true] at hg; exact hg.1
    rcases h7 with ⟨x, v, -, -, -, -, e, -⟩ | ⟨-, -, -, -, e, -⟩ <;> rw [e] <;> exact earlier_append hl h.earlier
  · intro _ en hen
    rcases h5 with ⟨e, -⟩ | ⟨en', x, e', e1, e2, e3, -, e4⟩
    · rw [e] at hen; cases hen
    · rw [e1] at hen
      obtain rfl := Option.some.inj hen
      obtain ⟨l, hl, -⟩ := h.err_some (by simp [e1])
      exact ⟨x, e', l, by rw [hx, e2], e3, by rw [e4, hl]; rfl⟩

/-- The run invariant holds at the start, so it can be used with `loop_invariant`. -/
theorem run_inv {cfg : Cfg F X} {m : Method F X S} (hm : LawfulMethod m cfg.maxiter)
    {x0 : X} {r0norm : F} {mkS : X → S} {xk0 : X → Except Err X} (hk0 : ∀ x, m.k (mkS x) = 0) :
    (∀ st, run cfg m x0 r0norm mkS xk0 = .returned st →
      ∃ st1, RunInv cfg m x0 r0norm mkS st1 ∧ loopGuard cfg m st1 = false ∧
        finish m st1 = .returned st) ∧
    (∀ st, run cfg m x0 r0norm mkS xk0 = .convergence st →
      ∃ st1, RunInv cfg m x0 r0norm mkS st1 ∧ loopGuard cfg m st1 = true ∧
        body cfg m st1 = .convergence st) := by
  unfold run
  simp only
  cases he : initErr cfg (xk0 (if cfg.MMlbNorm == 0 then 0 else x0)) with
  | error e => simp
  | ok errnorms =>
    simp only
    refine loop_invariant (RunInv cfg m x0 r0norm mkS) (fun st st' h1 h2 h3 => h1.step hm h2 h3)
      _ _ ?_
    have herr : (cfg.errNorm = none → errnorms = none) ∧
        (cfg.errNorm ≠ none → ∃ l, errnorms = some l ∧ l.length = 1) := by
      unfold initErr at he
      split at he
      · next h => simp at he; simp [h, ← he]
      · next h =>
        split at he
        · simp at he
        · split at he
          · simp at he
          · simp at he; simp [h, ← he]
    constructor
    · simp only [hk0]; split <;> simp
    · simp [hk0]
    · exact herr.1
    · simp only [hk0]; exact herr.2
    · simp only [hk0]; simp
    · intro _; exact ⟨rfl, rfl, rfl⟩
    · intro h; exact absurd (hk0 _) h
    · intro h; exact absurd (hk0 _) h
    · intro i r hi; exfalso; simp only at hi; split at hi <;> simp at hi
    · intro h; exact absurd (hk0 _) h

/-! ## C24 -/

/-- C24: a solver call always terminates: at most `maxiter` passes through the loop are needed. -/
theorem C24_terminates {cfg : Cfg F X} {m : Method F X S} (hm : LawfulMethod m cfg.maxiter)
    (x0 : X) (r0norm : F) (mkS : X → S) (xk0 : X → Except Err X) (hk0 : ∀ x, m.k (mkS x) = 0) :
    run cfg m x0 r0norm mkS xk0 ≠ .outOfFuel := by
  unfold run
  simp only
  split
  · simp
  · exact loop_fuel hm _ _ (by simp [hk0])

/-- C24: one residual norm per iteration plus the initial one, never more than `maxiter+1`; error
norms are recorded iff an exact solution was given, and then there are equally many. -/
theorem C24_history {cfg : Cfg F X} {m : Method F X S} (hm : LawfulMethod m cfg.maxiter)
    {x0 : X} {r0norm : F} {mkS : X → S} {xk0 : X → Except Err X} (hk0 : ∀ x, m.k (mkS x) = 0)
    {st : St F X S}
    (h : run cfg m x0 r0norm mkS xk0 = .returned st ∨ run cfg m x0 r0norm mkS xk0 = .convergence st) :
    st.resnorms.length = m.k st.s + 1 ∧ st.resnorms.length ≤ cfg.maxiter + 1 ∧
    (cfg.errNorm = none → st.errnorms = none) ∧
    (cfg.errNorm ≠ none → ∃ l, st.errnorms = some l ∧ l.length = st.resnorms.length) := by
  rcases h with h | h
  · obtain ⟨st1, hi, -, hf⟩ := (run_inv hm hk0).1 st h
    obtain ⟨e1, -, e3, e4, -⟩ := finish_returned hf
    rw [e1, e3, e4]
    refine ⟨hi.len, by rw [hi.len]; have := hi.k_le; omega, hi.err_none, ?_⟩
    rw [hi.len]; exact hi.err_some
  · obtain ⟨st1, hi, hg, hb⟩ := (run_inv hm hk0).2 st h
    obtain ⟨s', r, x, v, h1, h2, h3, -, -, -, h7, -, h9, h10, h11⟩ := body_convergence hb
    have hk := hm.step_k h1
    refine ⟨by rw [h7, h2, hk]; simp [hi.len], by rw [h7]; simp [hi.len]; omega, ?_, ?_⟩
    · intro hn
      rcases h11 with ⟨-, e⟩ | ⟨en, e, e', -⟩
      · rw [e]; exact hi.err_none hn
      · simp [hn] at e'
    · intro hn
      rcases h11 with ⟨e, -⟩ | ⟨en, e, -, -, e'⟩
      · exact absurd e hn
      · obtain ⟨l, hl, hl'⟩ := hi.err_some hn
        exact ⟨l ++ [e], by rw [e', hl]; rfl, by rw [h7]; simp [hl', hi.len]⟩

/-! ## C22 -/

/-- C22: if a solver returns, then the last relative residual is not above `tol`, or the loop was
left because the method cannot go on although it used fewer than `maxiter` iterations
(or `maxiter == 0`). -/
theorem C22_returned {cfg : Cfg F X} {m : Method F X S} (hm : LawfulMethod m cfg.maxiter)
    {x0 : X} {r0norm : F} {mkS : X → S} {xk0 : X → Except Err X} (hk0 : ∀ x, m.k (mkS x) = 0)
    {st : St F X S} (h : run cfg m x0 r0norm mkS xk0 = .returned st) :
    (∃ x, st.xk = some x) ∧ ∃ r, st.resnorms.getLast? = some r ∧
      (¬ cfg.tol < r ∨ (m.more st.s = false ∧ (m.k st.s < cfg.maxiter ∨ cfg.maxiter = 0))) := by
  obtain ⟨st1, hi, hg, hf⟩ := (run_inv hm hk0).1 st h
  obtain ⟨e1, -, e3, -, -, e6⟩ := finish_returned hf
  refine ⟨by rcases e6 with ⟨x, -, e⟩ | ⟨x, -, -, e⟩ <;> exact ⟨x, e⟩, ?_⟩
  have hne : st1.resnorms ≠ [] := by
    intro h0; have := hi.len; rw [h0] at this; simp at this
  obtain ⟨r, hr⟩ : ∃ r, st1.resnorms.getLast? = some r := by
    rw [← Option.isSome_iff_exists, List.getLast?_isSome]; exact hne
  refine ⟨r, by rw [e3, hr], ?_⟩
  by_cases hlt : cfg.tol < r
  · right
    rw [e1]
    simp [loopGuard, hr, hlt] at hg
    refine ⟨hg, ?_⟩
    by_cases hk : m.k st1.s = 0
    · rcases Nat.eq_zero_or_pos cfg.maxiter with h0 | h0
      · exact .inr h0
      · left; omega
    · left
      rcases hi.last hk with ⟨x, v, -, -, -, hl, hn⟩ | ⟨r', hl, -, -, hn⟩
      · have := hi.k_le
        rw [hr] at hl
        obtain rfl := Option.some.inj hl
        have : m.k st1.s ≠ cfg.maxiter := fun hc => hn ⟨hlt, hc⟩
        omega
      · have := hi.k_le
        omega
  · exact .inl hlt

/-- C22 (Cg): if `Cg` returns and `maxiter ≥ 1`, the last relative residual is not above `tol`. -/
theorem C22_cg_returned {cfg : Cfg F X} {m : Method F X S} (hm : LawfulMethod m cfg.maxiter)
    (hcg : CgLike m cfg.maxiter) (hmax : 1 ≤ cfg.maxiter)
    {x0 : X} {r0norm : F} {mkS : X → S} {xk0 : X → Except Err X} (hk0 : ∀ x, m.k (mkS x) = 0)
    {st : St F X S} (h : run cfg m x0 r0norm mkS xk0 = .returned st) :
    ∃ r, st.resnorms.getLast? = some r ∧ ¬ cfg.tol < r := by
  obtain ⟨-, r, hr, h1 | ⟨h1, h2⟩⟩ := C22_returned hm hk0 h
  · exact ⟨r, hr, h1⟩
  · rw [hcg] at h1
    simp at h1
    omega

/-- C22 (Minres, Gmres): if the solver returns and `maxiter ≥ 1`, the last relative residual is not
above `tol` or the Krylov subspace was flagged invariant. -/
theorem C22_arnoldi_returned {cfg : Cfg F X} {m : Method F X S} {inv : S → Bool}
    (hm : LawfulMethod m cfg.maxiter) (hmr : ArnoldiLike m cfg.maxiter inv) (hmax : 1 ≤ cfg.maxiter)
    {x0 : X} {r0norm : F} {mkS : X → S} {xk0 : X → Except Err X} (hk0 : ∀ x, m.k (mkS x) = 0)
    {st : St F X S} (h : run cfg m x0 r0norm mkS xk0 = .returned st) :
    ∃ r, st.resnorms.getLast? = some r ∧ (¬ cfg.tol < r ∨ inv st.s = true) := by
  obtain ⟨-, r, hr, h1 | ⟨h1, h2⟩⟩ := C22_returned hm hk0 h
  · exact ⟨r, hr, .inl h1⟩
  · rw [hmr] at h1
    simp at h1
    refine ⟨r, hr, .inr (h1 ?_)⟩
    omega

/-- C22: `ConvergenceError` is raised only after exactly `maxiter ≥ 1` iterations, with a last
relative residual above `tol` and with an approximation attached. -/
theorem C22_convergence {cfg : Cfg F X} {m : Method F X S} (hm : LawfulMethod m cfg.maxiter)
    {x0 : X} {r0norm : F} {mkS : X → S} {xk0 : X → Except Err X} (hk0 : ∀ x, m.k (mkS x) = 0)
    {st : St F X S} (h : run cfg m x0 r0norm mkS xk0 = .convergence st) :
    1 ≤ cfg.maxiter ∧ st.resnorms.length = cfg.maxiter + 1 ∧ (∃ x, st.xk = some x) ∧
    ∃ r, st.resnorms.getLast? = some r ∧ cfg.tol < r := by
  obtain ⟨st1, hi, hg, hb⟩ := (run_inv hm hk0).2 st h
  obtain ⟨s', r, x, v, h1, h2, h3, h4, h5, h6, h7, h8, h9, h10, h11⟩ := body_convergence hb
  refine ⟨by omega, by rw [h7]; simp [hi.len]; omega, ⟨x, h5⟩, v / cfg.MMlbNorm, by rw [h7]; simp, h9⟩

/-- C22, converse: a run that uses all `maxiter ≥ 1` iterations and ends with a residual above `tol`
never returns normally. -/
theorem C22_no_silent_failure {cfg : Cfg F X} {m : Method F X S} (hm : LawfulMethod m cfg.maxiter)
    (hmax : 1 ≤ cfg.maxiter)
    {x0 : X} {r0norm : F} {mkS : X → S} {xk0 : X → Except Err X} (hk0 : ∀ x, m.k (mkS x) = 0)
    {st : St F X S} (hlen : st.resnorms.length = cfg.maxiter + 1)
    {r : F} (hr : st.resnorms.getLast? = some r) (hlt : cfg.tol < r) :
    run cfg m x0 r0norm mkS xk0 ≠ .returned st := by
  intro h
  obtain ⟨-, r', hr', h1⟩ := C22_returned hm hk0 h
  obtain ⟨h2, -⟩ := C24_history hm hk0 (.inl h)
  rw [hr] at hr'
  obtain rfl := Option.some.inj hr'
  rcases h1 with h1 | ⟨-, h1⟩
  · exact h1 hlt
  · omega

/-- C24: an iteration is carried out only while the last relative residual is above `tol`: every entry of `resnorms` but the
last one is. -/
theorem C24_earlier {cfg : Cfg F X} {m : Method F X S} (hm : LawfulMethod m cfg.maxiter)
    {x0 : X} {r0norm : F} {mkS : X → S} {xk0 : X → Except Err X} (hk0 : ∀ x, m.k (mkS x) = 0)
    {st : St F X S}
    (h : run cfg m x0 r0norm mkS xk0 = .returned st ∨ run cfg m x0 r0norm mkS xk0 = .convergence st)
    {i : ℕ} {r : F} (hi : i + 1 < st.resnorms.length) (hr : st.resnorms[i]? = some r) : cfg.tol < r := by
  rcases h with h | h
  · obtain ⟨st1, inv, -, hf⟩ := (run_inv hm hk0).1 st h
    obtain ⟨-, -, e3, -⟩ := finish_returned hf
    rw [e3] at hi hr
    exact inv.earlier i r hi hr
  · obtain ⟨st1, inv, hg, hb⟩ := (run_inv hm hk0).2 st h
    obtain ⟨s', r', x, v, -, -, -, -, -, -, e7, -⟩ := body_convergence hb
    have hl : st1.resnorms.getLast?.any (fun r => decide (cfg.tol < r)) = true := by
      simp only [loopGuard, Bool.and_eq_true] at hg; exact hg.1
    rw [e7] at hi hr
    exact earlier_append hl inv.earlier i r hi hr

/-- C24: the last recorded error norm is the one of the approximation that is returned or attached to the
`ConvergenceError` (if there was an iteration). -/
theorem C24_errors {cfg : Cfg F X} {m : Method F X S} (hm : LawfulMethod m cfg.maxiter)
    {x0 : X} {r0norm : F} {mkS : X → S} {xk0 : X → Except Err X} (hk0 : ∀ x, m.k (mkS x) = 0)
    {st : St F X S}
    (h : run cfg m x0 r0norm mkS xk0 = .returned st ∨ run cfg m x0 r0norm mkS xk0 = .convergence st)
    (hlen : 2 ≤ st.resnorms.length) {en : X → Except Err F} (hen : cfg.errNorm = some en) :
    ∃ x e l, st.xk = some x ∧ en x = .ok e ∧ st.errnorms = some (l ++ [e]) := by
  rcases h with h | h
  · obtain ⟨st1, inv, -, hf⟩ := (run_inv hm hk0).1 st h
    obtain ⟨-, -, e3, e4, -, e6⟩ := finish_returned hf
    rw [e3, inv.len] at hlen
    obtain ⟨x, e, l, h1, h2, h3⟩ := inv.errlast (by omega) en hen
    refine ⟨x, e, l, ?_, h2, by rw [e4, h3]⟩
    rcases e6 with ⟨y, e, e'⟩ | ⟨y, -, e, e'⟩
    · have := inv.xk (by omega) y e
      rw [h1] at this
      rw [e', Except.ok.inj this]
    · rw [h1] at e
      rw [e', Except.ok.inj e]
  · obtain ⟨st1, inv, hg, hb⟩ := (run_inv hm hk0).2 st h
    obtain ⟨s', r', x, v, -, -, -, -, e5, -, -, -, -, -, e11⟩ := body_convergence hb
    rcases e11 with ⟨e, -⟩ | ⟨en', e, e1, e2, e3⟩
    · rw [e] at hen; cases hen
    · rw [e1] at hen
      obtain rfl := Option.some.inj hen
      obtain ⟨l, hl, -⟩ := inv.err_some (by simp [e1])
      exact ⟨x, e, l, e5, e2, by rw [e3, hl]; rfl⟩

/-! ## C23 -/

/-- C23: when `ConvergenceError` is raised, `resnorms[-1]` is the explicitly evaluated relative residual
norm of the attached approximation. -/
theorem C23_convergence {cfg : Cfg F X} {m : Method F X S} (hm : LawfulMethod m cfg.maxiter)
    {x0 : X} {r0norm : F} {mkS : X → S} {xk0 : X → Except Err X} (hk0 : ∀ x, m.k (mkS x) = 0)
    {st : St F X S} (h : run cfg m x0 r0norm mkS xk0 = .convergence st) :
    ∃ x v, st.xk = some x ∧ cfg.resNorm x = .ok v ∧
      st.resnorms.getLast? = some (v / cfg.MMlbNorm) := by
  obtain ⟨st1, hi, hg, hb⟩ := (run_inv hm hk0).2 st h
  obtain ⟨s', r, x, v, h1, h2, h3, h4, h5, h6, h7, h8, h9, h10, h11⟩ := body_convergence hb
  exact ⟨x, v, h5, h6, by rw [h7]; simp⟩

/-- C23: when the solver returns converged (`resnorms[-1] <= tol`), `resnorms[-1]` is the explicitly
evaluated relative residual norm of the returned approximation.  `hinit` says that `_get_xk` without
iterations gives the vector whose residual norm was used initially (for the plain solvers: `x0`); the case of a
zero right-hand side without iterations is C25. -/
theorem C23_returned {cfg : Cfg F X} {m : Method F X S} (hm : LawfulMethod m cfg.maxiter)
    {x0 : X} {r0norm : F} {mkS : X → S} {xk0 : X → Except Err X} (hk0 : ∀ x, m.k (mkS x) = 0)
    {st : St F X S} (h : run cfg m x0 r0norm mkS xk0 = .returned st)
    (hinit : st.resnorms.length = 1 → ∀ x, m.getXk (mkS x0) = .ok x → cfg.resNorm x = .ok r0norm)
    {r : F} (hr : st.resnorms.getLast? = some r) (hle : r ≤ cfg.tol)
    (hb : st.resnorms.length = 1 → (cfg.MMlbNorm == 0) = false) :
    ∃ x v, st.xk = some x ∧ cfg.resNorm x = .ok v ∧ r = v / cfg.MMlbNorm := by
  obtain ⟨st1, hi, hg, hf⟩ := (run_inv hm hk0).1 st h
  obtain ⟨e1, -, e3, -, -, e6⟩ := finish_returned hf
  rw [e3] at hr hb hinit
  by_cases hk : m.k st1.s = 0
  · obtain ⟨i1, i2, i3⟩ := hi.init hk
    have hb' := hb (by rw [hi.len, hk])
    simp only [hb', Bool.false_eq_true, if_false] at i1 i2 i3
    rcases e6 with ⟨x, e, -⟩ | ⟨x, -, e, e'⟩
    · simp [i2] at e
    · rw [i1] at e
      refine ⟨x, r0norm, e', hinit (by rw [hi.len, hk]) x e, ?_⟩
      simpa [i3] using hr.symm
  · rcases hi.last hk with ⟨x, v, hx, hx', hv, hl, -⟩ | ⟨r', hl, -, hn, -⟩
    · refine ⟨x, v, ?_, hv, ?_⟩
      · rcases e6 with ⟨y, e, e'⟩ | ⟨y, e, -, -⟩
        · rw [e', ← e, hx']
        · simp [hx'] at e
      · rw [hr] at hl; exact Option.some.inj hl
    · rw [hr] at hl
      obtain rfl := Option.some.inj hl
      exact absurd hle hn

/-! ## C25 -/

/-- C25: with `||M Ml b|| == 0` (and `tol` not negative) the solver returns the zero vector after no
iteration with `resnorms == [0.0]`, whatever the initial guess. -/
theorem C25_zero_rhs {cfg : Cfg F X} {m : Method F X S}
    (hb : (cfg.MMlbNorm == 0) = true) (htol : ¬ cfg.tol < 0)
    {x0 : X} {r0norm : F} {mkS : X → S} {xk0 : X → Except Err X} {eo : Option (List F)}
    (herr : initErr cfg (xk0 0) = .ok eo) :
    ∃ st, run cfg m x0 r0norm mkS xk0 = .returned st ∧ st.xk = some 0 ∧ st.resnorms = [0] ∧
      st.s = mkS 0 := by
  refine ⟨{ s := mkS 0, iter := 0, xk := some 0, resnorms := [0], errnorms := eo, warnings := 0 },
    ?_, rfl, rfl, rfl⟩
  unfold run
  simp only [hb, if_true, herr]
  unfold loop
  simp [loopGuard, htol, finish]

/-- C25: if the initial relative residual is not above `tol`, the solver returns `_get_xk` of the initial
state (`x0` for the plain solvers) after no iteration. -/
theorem C25_good_initial_guess {cfg : Cfg F X} {m : Method F X S}
    (hb : (cfg.MMlbNorm == 0) = false)
    {x0 : X} {r0norm : F} (htol : ¬ cfg.tol < r0norm / cfg.MMlbNorm)
    {mkS : X → S} {xk0 : X → Except Err X} {eo : Option (List F)}
    (herr : initErr cfg (xk0 x0) = .ok eo) {x : X} (hx : m.getXk (mkS x0) = .ok x) :
    ∃ st, run cfg m x0 r0norm mkS xk0 = .returned st ∧ st.xk = some x ∧
      st.resnorms = [r0norm / cfg.MMlbNorm] ∧ st.s = mkS x0 := by
  refine ⟨{ s := mkS x0, iter := 0, xk := some x, resnorms := [r0norm / cfg.MMlbNorm],
            errnorms := eo, warnings := 0 }, ?_, rfl, rfl, rfl⟩
  unfold run
  simp only [hb, Bool.false_eq_true, if_false, herr]
  unfold loop
  simp [loopGuard, htol, finish, hx]

/-! ## Findings and non-vacuity -/

/-- a toy method: halves the residual in every iteration, solution is the iteration number -/
private noncomputable def toy (maxiter : ℕ) : Method ℝ ℕ ℕ where
  more s := decide (s < maxiter)
  step s := .ok (s + 1, (1 / 2) ^ (s + 1))
  getXk s := .ok s
  k s := s
  post s _ := s
  countAfter := true

private noncomputable def toyCfg (tol : ℝ) (maxiter : ℕ) : Cfg ℝ ℕ where
  tol := tol
  maxiter := maxiter
  explicitResidual := false
  MMlbNorm := 1
  resNorm n := .ok ((1 / 2) ^ n)
  errNorm := none

private theorem toy_lawful (n : ℕ) : LawfulMethod (toy n) n :=
  ⟨by intro s s' r h; simp [toy] at h; simp [toy, ← h.1], by simp [toy], by simp [toy],
   by simp [toy]⟩

/-- non-vacuity of C22-C24: a lawful `CgLike` method that returns after two iterations ... -/
example : LawfulMethod (toy 5) 5 ∧ CgLike (toy 5) 5 ∧
    ∃ st, run (toyCfg (1/4) 5) (toy 5) 0 1 id (fun x => .ok x) = .returned st ∧
      st.resnorms = [1, 1/2, 1/4] ∧ st.xk = some 2 := by
  refine ⟨toy_lawful 5, fun s => rfl, ?_⟩
  refine ⟨⟨2, 2, some 2, [1, 1/2, 1/4], none, 0⟩, ?_, rfl, rfl⟩
  simp [run, toyCfg, toy, loop, loopGuard, initErr, body, finalizeIteration, withErr, wantExplicit,
    finish]
  norm_num

/-- ... and one that raises `ConvergenceError`. -/
example : ∃ st, run (toyCfg (1/4) 1) (toy 1) 0 1 id (fun x => .ok x) = .convergence st ∧
      st.resnorms = [1, 1/2] := by
  refine ⟨⟨1, 0, some 1, [1, 1/2], none, 0⟩, ?_, rfl⟩
  simp [run, toyCfg, toy, loop, loopGuard, initErr, body, finalizeIteration, withErr, wantExplicit]
  norm_num

/-- Finding (C22): with `maxiter == 0` a solver returns normally although the residual is above `tol`. -/
theorem C22_maxiter_zero_counterexample :
    ∃ st, run (toyCfg (1/4) 0) (toy 0) 0 1 id (fun x => .ok x) = .returned st ∧
      st.resnorms.getLast? = some 1 ∧ (toyCfg (1/4) 0).tol < 1 := by
  refine ⟨⟨0, 0, some 0, [1], none, 0⟩, ?_, rfl, by simp [toyCfg]; norm_num⟩
  simp [run, toyCfg, toy, loop, loopGuard, initErr, finish]

/-- a toy method that declares invariance after one step without having converged -/
private noncomputable def toyInv (maxiter : ℕ) : Method ℝ ℕ ℕ where
  more s := decide (s < maxiter) && !(decide (1 ≤ s))
  step s := .ok (s + 1, 1)
  getXk s := .ok s
  k s := s
  post s _ := s
  countAfter := false

/-- Finding (C22): a `Minres`/`Gmres`-shaped method that is stopped by the invariance flag returns
normally with a residual above `tol` (no exception, no warning). -/
theorem C22_invariant_counterexample :
    ∃ st, run (toyCfg (1/4) 5) (toyInv 5) 0 1 id (fun x => .ok x) = .returned st ∧
      st.resnorms.getLast? = some 1 ∧ st.warnings = 0 ∧ (toyCfg (1/4) 5).tol < 1 := by
  refine ⟨⟨1, 0, some 1, [1, 1], none, 0⟩, ?_, rfl, rfl, by simp [toyCfg]; norm_num⟩
  simp [run, toyCfg, toyInv, loop, loopGuard, initErr, body, finalizeIteration, withErr,
    wantExplicit, finish]
  norm_num

/-- non-vacuity of C25. -/
example : ∃ st, run { toyCfg 1 3 with MMlbNorm := 0 } (toy 3) 7 1 id (fun x => .ok x) =
    .returned st ∧ st.xk = some 0 ∧ st.resnorms = [0] ∧ st.s = 0 :=
  C25_zero_rhs (by simp) (by simp [toyCfg]) (eo := none) rfl

/-- The driver theorems apply to IEEE doubles. -/
example (cfg : Cfg Float Nat) (m : Method Float Nat S) (hm : LawfulMethod m cfg.maxiter)
    (mkS : Nat → S) (hk0 : ∀ x, m.k (mkS x) = 0) :
    run cfg m 0 1.0 mkS (fun x => .ok x) ≠ .outOfFuel := C24_terminates hm _ _ _ _ hk0

end Krypy
