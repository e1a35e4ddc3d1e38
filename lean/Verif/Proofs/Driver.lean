import Verif.Model.Driver
import Mathlib.Tactic.Common

/-! Helper lemmas about the solver driver. -/

namespace Krypy
variable {F X S : Type*} [LE F] [LT F] [DecidableLE F] [DecidableLT F] [Div F]

/-- Facts about the method-specific code that the driver theorems use: an iteration advances the
counter by one, the loop guard bounds the counter by `maxiter`, and `post` only stores a number. -/
structure LawfulMethod (m : Method F X S) (maxiter : ℕ) : Prop where
  step_k : ∀ {s s' r}, m.step s = .ok (s', r) → m.k s' = m.k s + 1
  post_k : ∀ s r, m.k (m.post s r) = m.k s
  post_xk : ∀ s r, m.getXk (m.post s r) = m.getXk s
  more_k : ∀ {s}, m.more s = true → m.k s < maxiter

/-- what one successful pass through the loop body does -/
theorem body_ok {cfg : Cfg F X} {m : Method F X S} {st st' : St F X S}
    (h : body cfg m st = .ok st') :
    ∃ s' r rkn, m.step st.s = .ok (s', r) ∧ st'.s = m.post s' rkn ∧
      st'.iter = (if m.countAfter then m.k st.s + 1 else m.k st.s) ∧
      (∀ x, st'.xk = some x → m.getXk s' = .ok x) ∧
      ((cfg.errNorm = none ∧ st'.errnorms = st.errnorms) ∨
        ∃ en x e, cfg.errNorm = some en ∧ m.getXk s' = .ok x ∧ en x = .ok e ∧
          st'.xk = some x ∧
          st'.errnorms = st.errnorms.map (· ++ [e])) ∧
      st.warnings ≤ st'.warnings ∧
      ((∃ x v, rkn = some v ∧ m.getXk s' = .ok x ∧ st'.xk = some x ∧ cfg.resNorm x = .ok v ∧
          st'.resnorms = st.resnorms ++ [v / cfg.MMlbNorm] ∧
          ¬ (cfg.tol < v / cfg.MMlbNorm ∧ m.k st.s + 1 = cfg.maxiter) ∧
          (st'.warnings = st.warnings ∨
            (cfg.tol < v / cfg.MMlbNorm ∧ cfg.explicitResidual = false ∧
              r / cfg.MMlbNorm ≤ cfg.tol))) ∨
        (rkn = none ∧ cfg.explicitResidual = false ∧ ¬ (r / cfg.MMlbNorm ≤ cfg.tol) ∧
          m.k st.s + 1 ≠ cfg.maxiter ∧
          st'.resnorms = st.resnorms ++ [r / cfg.MMlbNorm] ∧ st'.warnings = st.warnings)) := by
  unfold body at h
  simp only at h
  split at h
  · simp at h
  · next s' r hstep =>
    simp only [finalizeIteration] at h
    cases hen : cfg.errNorm with
    | none =>
      simp only [withErr, hen] at h
      by_cases hw : wantExplicit cfg ({ s := s', iter := m.k st.s, xk := none, resnorms := st.resnorms, errnorms := st.errnorms, warnings := st.warnings } : St F X S) r = true
      · simp only [hw, if_true] at h
        cases hx : m.getXk s' with
        | error e => simp [hx] at h
        | ok x =>
          simp only [hx] at h
          cases hr : cfg.resNorm x with
          | error e => simp [hr] at h
          | ok v =>
            simp only [hr] at h
            refine ⟨s', r, some v, hstep, ?_⟩
            split_ifs at h <;> simp_all <;> grind
      · simp only [hw] at h
        refine ⟨s', r, none, hstep, ?_⟩
        simp [wantExplicit] at hw
        simp at h
        subst h
        simp_all
    | some en =>
      simp only [withErr, hen] at h
      cases hx : m.getXk s' with
      | error e => simp [hx] at h
      | ok x =>
        simp only [hx] at h
        cases he : en x with
        | error e => simp [he] at h
        | ok e =>
          simp only [he] at h
          by_cases hw : wantExplicit cfg ({ s := s', iter := m.k st.s, xk := some x, resnorms := st.resnorms, errnorms := Option.map (· ++ [e]) st.errnorms, warnings := st.warnings } : St F X S) r = true
          · simp only [hw, if_true] at h
            cases hr : cfg.resNorm x with
            | error e => simp [hr] at h
            | ok v =>
              simp only [hr] at h
              refine ⟨s', r, some v, hstep, ?_⟩
              split_ifs at h <;> simp_all <;> grind
          · simp only [hw] at h
            refine ⟨s', r, none, hstep, ?_⟩
            simp [wantExplicit] at hw
            simp at h
            subst h
            simp_all

/-- what a `ConvergenceError` raised in the loop body means -/
theorem body_convergence {cfg : Cfg F X} {m : Method F X S} {st st' : St F X S}
    (h : body cfg m st = .convergence st') :
    ∃ s' r x v, m.step st.s = .ok (s', r) ∧ st'.s = s' ∧ st'.iter = m.k st.s ∧
      m.getXk s' = .ok x ∧ st'.xk = some x ∧ cfg.resNorm x = .ok v ∧
      st'.resnorms = st.resnorms ++ [v / cfg.MMlbNorm] ∧ st'.warnings = st.warnings ∧
      cfg.tol < v / cfg.MMlbNorm ∧ m.k st.s + 1 = cfg.maxiter ∧
      ((cfg.errNorm = none ∧ st'.errnorms = st.errnorms) ∨
        ∃ en e, cfg.errNorm = some en ∧ en x = .ok e ∧
          st'.errnorms = st.errnorms.map (· ++ [e])) := by
  unfold body at h
  simp only at h
  split at h
  · simp at h
  · next s' r hstep =>
    simp only [finalizeIteration] at h
    cases hen : cfg.errNorm with
    | none =>
      simp only [withErr, hen] at h
      by_cases hw : wantExplicit cfg ({ s := s', iter := m.k st.s, xk := none, resnorms := st.resnorms, errnorms := st.errnorms, warnings := st.warnings } : St F X S) r = true
      · simp only [hw, if_true] at h
        cases hx : m.getXk s' with
        | error e => simp [hx] at h
        | ok x =>
          simp only [hx] at h
          cases hr : cfg.resNorm x with
          | error e => simp [hr] at h
          | ok v =>
            simp only [hr] at h
            refine ⟨s', r, x, v, hstep, ?_⟩
            split_ifs at h <;> simp_all <;> grind
      · simp only [hw] at h
        simp at h
    | some en =>
      simp only [withErr, hen] at h
      cases hx : m.getXk s' with
      | error e => simp [hx] at h
      | ok x =>
        simp only [hx] at h
        cases he : en x with
        | error e => simp [he] at h
        | ok e =>
          simp only [he] at h
          by_cases hw : wantExplicit cfg ({ s := s', iter := m.k st.s, xk := some x, resnorms := st.resnorms, errnorms := Option.map (· ++ [e]) st.errnorms, warnings := st.warnings } : St F X S) r = true
          · simp only [hw, if_true] at h
            cases hr : cfg.resNorm x with
            | error e => simp [hr] at h
            | ok v =>
              simp only [hr] at h
              refine ⟨s', r, x, v, hstep, ?_⟩
              split_ifs at h <;> simp_all <;> grind
          · simp only [hw] at h
            simp at h

/-- loop invariant rule -/
theorem loop_invariant {cfg : Cfg F X} {m : Method F X S} (P : St F X S → Prop)
    (hstep : ∀ st st', P st → loopGuard cfg m st = true → body cfg m st = .ok st' → P st')
    (fuel : ℕ) (st : St F X S) (h0 : P st) :
    (∀ st', loop cfg m fuel st = .returned st' →
      ∃ st1, P st1 ∧ loopGuard cfg m st1 = false ∧ finish m st1 = .returned st') ∧
    (∀ st', loop cfg m fuel st = .convergence st' →
      ∃ st1, P st1 ∧ loopGuard cfg m st1 = true ∧ body cfg m st1 = .convergence st') := by
  induction fuel generalizing st with
  | zero =>
    unfold loop
    cases hg : loopGuard cfg m st
    · refine ⟨fun st' h => ⟨st, h0, hg, by simpa using h⟩, fun st' h => ?_⟩
      simp [finish] at h
      split at h <;> (try split at h) <;> simp at h
    · simp
  | succ n ih =>
    unfold loop
    cases hg : loopGuard cfg m st
    · refine ⟨fun st' h => ⟨st, h0, hg, by simpa using h⟩, fun st' h => ?_⟩
      simp [finish] at h
      split at h <;> (try split at h) <;> simp at h
    · simp only [if_true]
      cases hb : body cfg m st with
      | raised e => simp
      | convergence st1 =>
        refine ⟨by simp, fun st' h => ⟨st, h0, hg, ?_⟩⟩
        simp at h; rw [hb, h]
      | ok st1 => exact ih st1 (hstep st st1 h0 hg hb)

/-- the loop never runs out of fuel -/
theorem loop_fuel {cfg : Cfg F X} {m : Method F X S} (hm : LawfulMethod m cfg.maxiter)
    (fuel : ℕ) (st : St F X S) (h : cfg.maxiter ≤ fuel + m.k st.s) :
    loop cfg m fuel st ≠ .outOfFuel := by
  induction fuel generalizing st with
  | zero =>
    unfold loop
    cases hg : loopGuard cfg m st
    · simp [finish]; split <;> (try split) <;> simp
    · simp [loopGuard] at hg
      have := hm.more_k hg.2
      omega
  | succ n ih =>
    unfold loop
    cases hg : loopGuard cfg m st
    · simp [finish]; split <;> (try split) <;> simp
    · simp only [if_true]
      cases hb : body cfg m st with
      | raised e => simp
      | convergence st1 => simp
      | ok st1 =>
        simp only
        apply ih
        obtain ⟨s', r, rkn, h1, h2, -⟩ := body_ok hb
        have := hm.step_k h1
        rw [h2, hm.post_k]
        omega

omit [LE F] [LT F] [DecidableLE F] [DecidableLT F] [Div F] in
/-- `finish` only fills in `xk` -/
theorem finish_returned {m : Method F X S} {st st' : St F X S} (h : finish m st = .returned st') :
    st'.s = st.s ∧ st'.iter = st.iter ∧ st'.resnorms = st.resnorms ∧ st'.errnorms = st.errnorms ∧
    st'.warnings = st.warnings ∧
    ((∃ x, st.xk = some x ∧ st'.xk = some x) ∨
     (∃ x, st.xk = none ∧ m.getXk st.s = .ok x ∧ st'.xk = some x)) := by
  unfold finish at h
  split at h
  · next x hx => simp at h; subst h; simp [hx]
  · next hx =>
    split at h
    · simp at h
    · next x hx' => simp at h; subst h; simp [hx, hx']

/-- an iteration whose ingredients succeed does not raise (except possibly `ConvergenceError`) -/
theorem body_not_raised {cfg : Cfg F X} {m : Method F X S} {st : St F X S} {s' : S} {r : F} {x : X}
    (hs : m.step st.s = .ok (s', r)) (hx : m.getXk s' = .ok x)
    (hr : ∀ x, ∃ v, cfg.resNorm x = .ok v)
    (he : ∀ en, cfg.errNorm = some en → ∀ x, ∃ v, en x = .ok v) (e : Err) : body cfg m st ≠ .raised e := by
  unfold body
  dsimp only
  rw [hs]
  dsimp only
  have hw : ∃ st' : St F X S, withErr cfg (m.getXk s') { st with iter := m.k st.s, s := s' } = .ok st' := by
    unfold withErr
    cases hen : cfg.errNorm with
    | none => exact ⟨_, rfl⟩
    | some en =>
      obtain ⟨v, hv⟩ := he en hen x
      simp only [hx, hv]
      exact ⟨_, rfl⟩
  obtain ⟨st', hst'⟩ := hw
  have hf : ∀ e, finalizeIteration cfg (m.getXk s') r { st with iter := m.k st.s, s := s' } ≠ .raised e := by
    intro e
    unfold finalizeIteration
    rw [hst']
    dsimp only
    split
    · cases hxk : st'.xk with
      | none =>
        obtain ⟨v, hv⟩ := hr x
        simp only [hx, hv]
        split_ifs <;> simp
      | some x' =>
        obtain ⟨v, hv⟩ := hr x'
        simp only [hv]
        split_ifs <;> simp
    · simp
  split
  · next e' h => exact absurd h (hf e')
  · simp
  · simp

/-- the loop does not raise if no iteration does -/
theorem loop_total {cfg : Cfg F X} {m : Method F X S} (P : St F X S → Prop)
    (hstep : ∀ st st', P st → loopGuard cfg m st = true → body cfg m st = .ok st' → P st')
    (hbody : ∀ st, P st → loopGuard cfg m st = true → ∀ e, body cfg m st ≠ .raised e)
    (hfin : ∀ st, P st → loopGuard cfg m st = false → ∀ e, finish m st ≠ .raised e)
    (fuel : ℕ) (st : St F X S) (h0 : P st) (e : Err) : loop cfg m fuel st ≠ .raised e := by
  induction fuel generalizing st with
  | zero =>
    unfold loop
    cases hg : loopGuard cfg m st
    · simpa using hfin st h0 hg e
    · simp
  | succ n ih =>
    unfold loop
    cases hg : loopGuard cfg m st
    · simpa using hfin st h0 hg e
    · simp only [if_true]
      cases hb : body cfg m st with
      | raised e' => exact absurd hb (hbody st h0 hg e')
      | convergence st1 => simp
      | ok st1 => exact ih st1 (hstep st st1 h0 hg hb)

end Krypy
