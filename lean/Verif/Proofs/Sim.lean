import Verif.Props.Driver

/-! # Forward simulation between two methods of the solver driver -/

set_option linter.unusedSectionVars false

namespace Krypy
section
variable {F X S T : Type*} [LE F] [LT F] [DecidableLE F] [DecidableLT F] [Div F]

/-- The same driver attributes with another method state. -/
def St.setS (st : St F X S) (b : T) : St F X T :=
  ⟨b, st.iter, st.xk, st.resnorms, st.errnorms, st.warnings⟩

/-- `m₂` does whatever `m₁` does. -/
structure Sim (m₁ : Method F X S) (m₂ : Method F X T) (Rel : S → T → Prop) : Prop where
  more : ∀ {a b}, Rel a b → m₁.more a = m₂.more b
  k : ∀ {a b}, Rel a b → m₁.k a = m₂.k b
  step : ∀ {a b a' r}, Rel a b → m₁.step a = .ok (a', r) → ∃ b', m₂.step b = .ok (b', r) ∧ Rel a' b'
  getXk : ∀ {a b x}, Rel a b → m₁.getXk a = .ok x → m₂.getXk b = .ok x
  post : ∀ {a b rkn}, Rel a b → Rel (m₁.post a rkn) (m₂.post b rkn)
  count : m₁.countAfter = m₂.countAfter

/-- Results of `_finalize_iteration` with another state component. -/
def mapFin (b : T) : Res3 (St F X S × Option F) (St F X S) → Res3 (St F X T × Option F) (St F X T)
  | .ok (st, r) => .ok (st.setS b, r)
  | .convergence st => .convergence (st.setS b)
  | .raised e => .raised e

theorem withErr_sim {cfg : Cfg F X} {g₁ g₂ : Except Err X} (hg : ∀ x, g₁ = .ok x → g₂ = .ok x)
    {st st' : St F X S} (b : T) (h : withErr cfg g₁ st = .ok st') :
    withErr cfg g₂ (st.setS b) = .ok (st'.setS b) ∧ st'.s = st.s := by
  unfold withErr at h ⊢
  split at h
  · next he => obtain rfl := Except.ok.inj h; exact ⟨rfl, rfl⟩
  · next en he =>
    split at h
    · simp at h
    next x =>
    rw [hg x rfl]
    dsimp only
    split at h
    · simp at h
    · next hx => obtain rfl := Except.ok.inj h; exact ⟨rfl, rfl⟩

theorem finalize_sim {cfg : Cfg F X} {g₁ g₂ : Except Err X} (hg : ∀ x, g₁ = .ok x → g₂ = .ok x)
    {st : St F X S} (r : F) (b : T) (h : ∀ e, finalizeIteration cfg g₁ r st ≠ .raised e) :
    finalizeIteration cfg g₂ r (st.setS b) = mapFin b (finalizeIteration cfg g₁ r st) := by
  unfold finalizeIteration at h ⊢
  cases hw : withErr cfg g₁ st with
  | error e => simp [hw] at h
  | ok st1 =>
    simp only [hw] at h
    rw [(withErr_sim hg b hw).1]
    dsimp only
    have hwant : wantExplicit cfg (st1.setS b) r = wantExplicit cfg st1 r := rfl
    rw [hwant]
    split
    · next hwe =>
      simp only [hwe, if_true] at h
      have hfin : ∀ x : X, (match cfg.resNorm x with
          | .error e => (Res3.raised e : Res3 (St F X T × Option F) (St F X T))
          | .ok rkn =>
            let st := { (st1.setS b) with xk := some x, resnorms := st1.resnorms ++ [rkn / cfg.MMlbNorm] }
            if cfg.tol < rkn / cfg.MMlbNorm then
              if st.iter + 1 = cfg.maxiter then .convergence st
              else if ¬ cfg.explicitResidual ∧ r / cfg.MMlbNorm ≤ cfg.tol then
                .ok ({ st with warnings := st.warnings + 1 }, some rkn)
              else .ok (st, some rkn)
            else .ok (st, some rkn)) = mapFin b (match cfg.resNorm x with
          | .error e => .raised e
          | .ok rkn =>
            let st := { st1 with xk := some x, resnorms := st1.resnorms ++ [rkn / cfg.MMlbNorm] }
            if cfg.tol < rkn / cfg.MMlbNorm then
              if st.iter + 1 = cfg.maxiter then .convergence st
              else if ¬ cfg.explicitResidual ∧ r / cfg.MMlbNorm ≤ cfg.tol then
                .ok ({ st with warnings := st.warnings + 1 }, some rkn)
              else .ok (st, some rkn)
            else .ok (st, some rkn)) := by
        intro x
        cases cfg.resNorm x with
        | error e => rfl
        | ok rkn =>
          have e1 : (st1.setS b).iter = st1.iter := rfl
          dsimp only
          rw [e1]
          split_ifs <;> rfl
      have e : (st1.setS b).xk = st1.xk := rfl
      rw [e]
      cases hk : st1.xk with
      | some y => exact hfin y
      | none =>
        cases hg1 : g₁ with
        | error e => simp [hk, hg1] at h
        | ok y =>
          rw [hg y hg1]
          exact hfin y
    · rfl

theorem finalize_s {cfg : Cfg F X} {g : Except Err X} {st st' : St F X S} {r : F} {rkn : Option F}
    (h : finalizeIteration cfg g r st = .ok (st', rkn) ∨ finalizeIteration cfg g r st = .convergence st') :
    st'.s = st.s := by
  unfold finalizeIteration at h
  cases hw : withErr cfg g st with
  | error e => simp [hw] at h
  | ok st1 =>
    have hs := (withErr_sim (g₂ := g) (fun _ h => h) () hw).2
    simp only [hw] at h
    rw [← hs]
    split at h
    · split at h
      · simp at h
      split at h
      · simp at h
      split at h
      · split at h
        · simp at h; rw [← h]
        · split at h
          · simp at h; rw [← h.1]
          · simp at h; rw [← h.1]
      · simp at h; rw [← h.1]
    · simp at h; rw [← h.1]

variable {cfg : Cfg F X} {m₁ : Method F X S} {m₂ : Method F X T} {Rel : S → T → Prop}

theorem body_sim (hs : Sim m₁ m₂ Rel) {st : St F X S} {b : T} (hr : Rel st.s b) :
    (∀ st', body cfg m₁ st = .ok st' → ∃ b', body cfg m₂ (st.setS b) = .ok (st'.setS b') ∧ Rel st'.s b') ∧
    (∀ st', body cfg m₁ st = .convergence st' →
      ∃ b', body cfg m₂ (st.setS b) = .convergence (st'.setS b') ∧ Rel st'.s b') := by
  unfold body
  cases h1 : m₁.step st.s with
  | error e => simp [h1]
  | ok p =>
    obtain ⟨a', r⟩ := p
    obtain ⟨b', h2, hr'⟩ := hs.step hr h1
    have hb : (st.setS b).s = b := rfl
    simp only [h1, hb, h2, ← hs.k hr]
    have hst : ({ (st.setS b) with iter := m₁.k st.s, s := b' } : St F X T) =
      ({ st with iter := m₁.k st.s, s := a' } : St F X S).setS b' := rfl
    cases hf : finalizeIteration cfg (m₁.getXk a') r { st with iter := m₁.k st.s, s := a' } with
    | raised e => simp
    | convergence st1 =>
      have := finalize_sim (cfg := cfg) (fun x hx => hs.getXk hr' hx) (g₂ := m₂.getXk b')
        (st := { st with iter := m₁.k st.s, s := a' }) r b' (by rw [hf]; simp)
      rw [hf] at this
      rw [hst, this]
      have e := finalize_s (rkn := none) (Or.inr hf)
      simp only [mapFin]
      refine ⟨by simp, fun st' h => ?_⟩
      simp only [Res3.convergence.injEq] at h
      subst h
      exact ⟨b', rfl, by rw [e]; exact hr'⟩
    | ok p =>
      obtain ⟨st1, rkn⟩ := p
      have := finalize_sim (cfg := cfg) (fun x hx => hs.getXk hr' hx) (g₂ := m₂.getXk b')
        (st := { st with iter := m₁.k st.s, s := a' }) r b' (by rw [hf]; simp)
      rw [hf] at this
      rw [hst, this]
      have e := finalize_s (Or.inl hf)
      simp only [mapFin]
      refine ⟨fun st' h => ?_, by simp⟩
      simp only [Res3.ok.injEq] at h
      subst h
      refine ⟨m₂.post b' rkn, ?_, ?_⟩
      · simp only [← hs.count]
        rfl
      · dsimp only
        rw [e]
        exact hs.post hr'

theorem finish_sim (hs : Sim m₁ m₂ Rel) {st st' : St F X S} {b : T} (hr : Rel st.s b)
    (h : finish m₁ st = .returned st') :
    finish m₂ (st.setS b) = .returned (st'.setS b) ∧ Rel st'.s b := by
  unfold finish at h ⊢
  have e : (st.setS b).xk = st.xk := rfl
  rw [e]
  split at h
  · simp only [Outcome.returned.injEq] at h
    subst h
    exact ⟨rfl, hr⟩
  · split at h
    · simp at h
    · next x hx =>
      simp only [Outcome.returned.injEq] at h
      subst h
      have := hs.getXk hr hx
      have eb : (st.setS b).s = b := rfl
      dsimp only
      rw [eb, this]
      exact ⟨rfl, hr⟩

theorem loop_sim (hs : Sim m₁ m₂ Rel) (fuel : ℕ) {st : St F X S} {b : T} (hr : Rel st.s b) :
    (∀ st', loop cfg m₁ fuel st = .returned st' →
      ∃ b', loop cfg m₂ fuel (st.setS b) = .returned (st'.setS b') ∧ Rel st'.s b') ∧
    (∀ st', loop cfg m₁ fuel st = .convergence st' →
      ∃ b', loop cfg m₂ fuel (st.setS b) = .convergence (st'.setS b') ∧ Rel st'.s b') := by
  induction fuel generalizing st b with
  | zero =>
    have hg : loopGuard cfg m₂ (st.setS b) = loopGuard cfg m₁ st := by
      unfold loopGuard; rw [hs.more hr]; rfl
    unfold loop
    rw [hg]
    split
    · simp
    · refine ⟨fun st' h => ?_, fun st' h => ?_⟩
      · obtain ⟨h1, h2⟩ := finish_sim hs hr h
        exact ⟨b, h1, h2⟩
      · unfold finish at h
        split at h
        · simp at h
        · split at h <;> simp at h
  | succ fuel ih =>
    have hg : loopGuard cfg m₂ (st.setS b) = loopGuard cfg m₁ st := by
      unfold loopGuard; rw [hs.more hr]; rfl
    unfold loop
    rw [hg]
    split
    · dsimp only
      obtain ⟨b1, b2⟩ := body_sim (cfg := cfg) hs hr
      cases hb : body cfg m₁ st with
      | raised e => simp
      | convergence st1 =>
        obtain ⟨b', h1, h2⟩ := b2 st1 hb
        rw [h1]
        refine ⟨by simp, fun st' h => ?_⟩
        simp only [Outcome.convergence.injEq] at h
        subst h
        exact ⟨b', rfl, h2⟩
      | ok st1 =>
        obtain ⟨b', h1, h2⟩ := b1 st1 hb
        rw [h1]
        exact ih h2
    · refine ⟨fun st' h => ?_, fun st' h => ?_⟩
      · obtain ⟨h1, h2⟩ := finish_sim hs hr h
        exact ⟨b, h1, h2⟩
      · unfold finish at h
        split at h
        · simp at h
        · split at h <;> simp at h

/-- Whole runs. -/
theorem run_sim [Zero F] [BEq F] [Zero X] (hs : Sim m₁ m₂ Rel) {x0 : X} {r : F} {mk₁ : X → S} {mk₂ : X → T}
    {xk0 : X → Except Err X} (hr : Rel (mk₁ (if cfg.MMlbNorm == 0 then 0 else x0))
      (mk₂ (if cfg.MMlbNorm == 0 then 0 else x0))) :
    (∀ st', run cfg m₁ x0 r mk₁ xk0 = .returned st' →
      ∃ b', run cfg m₂ x0 r mk₂ xk0 = .returned (st'.setS b') ∧ Rel st'.s b') ∧
    (∀ st', run cfg m₁ x0 r mk₁ xk0 = .convergence st' →
      ∃ b', run cfg m₂ x0 r mk₂ xk0 = .convergence (st'.setS b') ∧ Rel st'.s b') := by
  unfold run
  dsimp only
  split
  · simp
  · exact loop_sim hs cfg.maxiter hr

end
end Krypy
