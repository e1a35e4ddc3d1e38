import Verif.Proofs.Gmres
import Mathlib.Order.Bounds.Basic

/-! # Whole runs of GMRES -/

set_option linter.unusedSectionVars false

namespace Krypy
variable {𝕜 E : Type*} [RCLike 𝕜] [AddCommGroup E] [Module 𝕜 E]
open scoped ComplexConjugate
open Finset

theorem gmresMethod_lawful {adv : Arn 𝕜 E → Except Err (Arn 𝕜 E)} (Mr : E →ₗ[𝕜] E)
    (post : E → Except Err E) (maxiter : ℕ)
    (hadv : ∀ s s', adv s = .ok s' → s'.iter = s.iter + 1) :
    LawfulMethod (gmresMethod adv Mr post maxiter) maxiter := by
  refine ⟨fun {s s' r} h => ?_, fun _ _ => rfl, fun _ _ => rfl, fun {s} h => ?_⟩
  · change gmresStep adv s = _ at h
    unfold gmresStep at h
    dsimp only at h
    split at h
    · simp at h
    next a ha =>
    simp only [Except.ok.injEq, Prod.mk.injEq] at h
    obtain ⟨rfl, -⟩ := h
    exact hadv _ _ ha
  · simp only [gmresMethod, Bool.and_eq_true, decide_eq_true_eq] at h
    exact h.1

/-- Everything proved about a finished or interrupted run: `minima` says that the recorded residual norms are
the minima over the Krylov subspaces, `sol` that the approximate solution attains the last one. -/
structure GmresSpec (g : E → E → 𝕜) (A M Mr : E →ₗ[𝕜] E) (v : E) (post : E → Except Err E) (x0 : E) (nb : ℝ)
    (st : St ℝ E (GmresSt 𝕜 E)) : Prop where
  len : st.resnorms.length = st.s.arn.iter + 1
  minima : ∀ i (hi : i < st.resnorms.length),
    IsLeast ((fun z => nrm g (v - A z)) '' (krylov (M ∘ₗ A) (M v) i : Set E)) (st.resnorms[i] * nb)
  warn : st.warnings = 0

section
variable {g : E → E → 𝕜} {A M Mr : E →ₗ[𝕜] E} {maxiter : ℕ} {v x0 : E} {post : E → Except Err E}
  {adv : Arn 𝕜 E → Except Err (Arn 𝕜 E)} {Inv : Arn 𝕜 E → Prop}
  (hp : ArnProc g A M maxiter v adv Inv) {cfg : Cfg ℝ E}
  (htol : 0 ≤ cfg.tol) (hnb : 0 < cfg.MMlbNorm)
  (hres : ∀ z x, post (x0 + Mr z) = .ok x → cfg.resNorm x = .ok (nrm g (v - A z)))
include hp htol hnb hres

/-- Invariant of the loop. -/
structure GmresLoop (g : E → E → 𝕜) (A M Mr : E →ₗ[𝕜] E) (v : E) (Inv : Arn 𝕜 E → Prop)
    (post : E → Except Err E) (x0 : E) (nb : ℝ) (st : St ℝ E (GmresSt 𝕜 E)) : Prop where
  inv : GmresInv Inv (nrm g v) x0 st.s
  spec : GmresSpec g A M Mr v post x0 nb st
  diag : ∀ j < st.s.arn.iter, st.s.R j j ≠ 0
  xk : ∀ x, st.xk = some x → gmresXk Mr post st.s = .ok x

theorem gmresLoop_new {st : St ℝ E (GmresSt 𝕜 E)} {s' : GmresSt 𝕜 E} {r : ℝ}
    (h : GmresLoop g A M Mr v Inv post x0 cfg.MMlbNorm st) (hs : gmresStep adv st.s = .ok (s', r))
    (hR : (∃ x, gmresXk Mr post s' = .ok x) ∨ r ≠ 0) :
    GmresInv Inv (nrm g v) x0 s' ∧ (∀ j < s'.arn.iter, s'.R j j ≠ 0) ∧
    s'.arn.iter = st.s.arn.iter + 1 ∧
    (∀ x, gmresXk Mr post s' = .ok x → cfg.resNorm x = .ok r) ∧
    ∀ t, t = r / cfg.MMlbNorm → ∀ i (hi : i < (st.resnorms ++ [t]).length),
      IsLeast ((fun z => nrm g (v - A z)) '' (krylov (M ∘ₗ A) (M v) i : Set E))
        ((st.resnorms ++ [t])[i] * cfg.MMlbNorm) := by
  obtain ⟨inv', hit, hni, hr, hr0, -⟩ := gmresStep_inv hp h.inv hs
  have hd : ∀ j < s'.arn.iter, s'.R j j ≠ 0 := by
    intro j hj
    rcases Nat.lt_or_ge (j + 1) s'.arn.iter with h1 | h1
    · exact gmres_diag hp inv' (Or.inl h1)
    · obtain rfl : j = st.s.arn.iter := by omega
      rcases hR with ⟨x, hx⟩ | hR
      · exact gmresXk_diag hx _ hj
      · exact fun h0 => hR (hr0 h0)
  obtain ⟨z, hz, hxk, hzr, hmin⟩ := gmres_optimal hp inv' hd Mr post
  refine ⟨inv', hd, hit, fun x hx => ?_, fun t ht i hi => ?_⟩
  · rw [hres z x (by rw [← hxk, hx]), hzr, hr]
  · have hlen := h.spec.len
    rcases Nat.lt_or_ge i st.resnorms.length with h1 | h1
    · rw [List.getElem_append_left h1]
      exact h.spec.minima i h1
    · have hi' : i = s'.arn.iter := by simp at hi; omega
      rw [List.getElem_append_right h1]
      simp only [List.getElem_singleton, ht]
      rw [div_mul_cancel₀ _ hnb.ne', hi', hr]
      refine ⟨⟨z, hz, hzr⟩, ?_⟩
      rintro _ ⟨z', hz', rfl⟩
      exact hmin z' hz'

theorem gmresLoop_body {st st' : St ℝ E (GmresSt 𝕜 E)}
    (h : GmresLoop g A M Mr v Inv post x0 cfg.MMlbNorm st)
    (hb : body cfg (gmresMethod adv Mr post maxiter) st = .ok st') :
    GmresLoop g A M Mr v Inv post x0 cfg.MMlbNorm st' := by
  obtain ⟨s', r, rkn, h1, h2, h3, h4, h5, h6, h7⟩ := body_ok hb
  change gmresStep adv st.s = _ at h1
  have h2' : st'.s = s' := h2
  have hR : (∃ x, gmresXk Mr post s' = .ok x) ∨ r ≠ 0 := by
    rcases h7 with ⟨x, v, -, e1, -⟩ | ⟨-, -, e1, -⟩
    · exact Or.inl ⟨x, e1⟩
    · right
      intro h0
      rw [h0, zero_div] at e1
      exact e1 htol
  obtain ⟨inv', hd, hit, hx, hmin⟩ := gmresLoop_new hp htol hnb hres h h1 hR
  have hlen := h.spec.len
  refine ⟨h2' ▸ inv', ⟨?_, ?_, ?_⟩, h2' ▸ hd, fun x hx => ?_⟩
  · rw [h2', hit]
    rcases h7 with ⟨x, v, -, -, -, -, e, -⟩ | ⟨-, -, -, -, e, -⟩ <;> rw [e] <;> simp [hlen]
  · rcases h7 with ⟨x, v, -, e1, -, e2, e, -⟩ | ⟨-, -, -, -, e, -⟩
    · rw [hx x e1] at e2
      obtain rfl := Except.ok.inj e2
      simp only [e]
      exact hmin _ rfl
    · simp only [e]
      exact hmin _ rfl
  · rcases h7 with ⟨x, v, -, e1, -, e2, e, -, e3⟩ | ⟨-, -, -, -, e, e3⟩
    · rw [hx x e1] at e2
      obtain rfl := Except.ok.inj e2
      rcases e3 with e3 | ⟨e3, -, e4⟩
      · rw [e3, h.spec.warn]
      · exact absurd e3 (not_lt.mpr e4)
    · rw [e3, h.spec.warn]
  · rw [h2']
    exact h4 x hx

/-- Initial state of the loop. -/
theorem gmresLoop_init {arn : Arn 𝕜 E} (ha : Inv arn) (h0 : arn.iter = 0) (errnorms : Option (List ℝ)) :
    GmresLoop g A M Mr v Inv post x0 cfg.MMlbNorm
      ⟨gmresInit arn (nrm g v) x0, 0, none, [nrm g v / cfg.MMlbNorm], errnorms, 0⟩ := by
  have hvn := (hp.facts ha).vnorm
  refine ⟨gmresInit_inv hp ha h0 hvn, ⟨by simp [gmresInit, h0], ?_, rfl⟩, ?_, by simp⟩
  · intro i hi
    obtain rfl : i = 0 := by simp at hi; omega
    simp only [List.getElem_cons_zero]
    rw [div_mul_cancel₀ _ hnb.ne', krylov_eq_spanTo, spanTo_zero]
    refine ⟨⟨0, by simp, by simp⟩, ?_⟩
    rintro _ ⟨z, hz, rfl⟩
    obtain rfl : z = 0 := by simpa using hz
    simp
  · intro j hj
    simp [gmresInit, h0] at hj

/-- What a run with positive right hand side norm delivers. -/
theorem gmresRun_spec {arn : Arn 𝕜 E} (ha : Inv arn) (h0 : arn.iter = 0)
    {st : St ℝ E (GmresSt 𝕜 E)} {xk0 : E → Except Err E}
    (h : run cfg (gmresMethod adv Mr post maxiter) x0 (nrm g v) (gmresInit arn (nrm g v)) xk0 = .returned st ∨
      run cfg (gmresMethod adv Mr post maxiter) x0 (nrm g v) (gmresInit arn (nrm g v)) xk0 = .convergence st) :
    GmresSpec g A M Mr v post x0 cfg.MMlbNorm st ∧ GmresInv Inv (nrm g v) x0 st.s ∧
    (∀ j < st.s.arn.iter, st.s.R j j ≠ 0) ∧
    ∃ x, st.xk = some x ∧ ∃ z ∈ krylov (M ∘ₗ A) (M v) st.s.arn.iter, post (x0 + Mr z) = .ok x ∧
      ∀ (hi : st.s.arn.iter < st.resnorms.length),
        nrm g (v - A z) = st.resnorms[st.s.arn.iter] * cfg.MMlbNorm := by
  have hz : (cfg.MMlbNorm == 0) = false := by simpa using hnb.ne'
  have hrun : ∀ errnorms, (∀ st', loop cfg (gmresMethod adv Mr post maxiter) cfg.maxiter
      ⟨gmresInit arn (nrm g v) x0, 0, none, [nrm g v / cfg.MMlbNorm], errnorms, 0⟩ = .returned st' →
      ∃ st1, GmresLoop g A M Mr v Inv post x0 cfg.MMlbNorm st1 ∧
        finish (gmresMethod adv Mr post maxiter) st1 = .returned st') ∧
      (∀ st', loop cfg (gmresMethod adv Mr post maxiter) cfg.maxiter
      ⟨gmresInit arn (nrm g v) x0, 0, none, [nrm g v / cfg.MMlbNorm], errnorms, 0⟩ = .convergence st' →
      ∃ st1, GmresLoop g A M Mr v Inv post x0 cfg.MMlbNorm st1 ∧
        body cfg (gmresMethod adv Mr post maxiter) st1 = .convergence st') := by
    intro errnorms
    have := loop_invariant (GmresLoop g A M Mr v Inv post x0 cfg.MMlbNorm)
      (fun st st' h1 _ h3 => gmresLoop_body hp htol hnb hres h1 h3) cfg.maxiter _
      (gmresLoop_init hp htol hnb hres ha h0 errnorms)
    refine ⟨fun st' h => ?_, fun st' h => ?_⟩
    · obtain ⟨st1, h1, -, h2⟩ := this.1 st' h
      exact ⟨st1, h1, h2⟩
    · obtain ⟨st1, h1, -, h2⟩ := this.2 st' h
      exact ⟨st1, h1, h2⟩
  have hattain : ∀ {st : St ℝ E (GmresSt 𝕜 E)} {x : E}, GmresSpec g A M Mr v post x0 cfg.MMlbNorm st →
      GmresInv Inv (nrm g v) x0 st.s → (∀ j < st.s.arn.iter, st.s.R j j ≠ 0) → gmresXk Mr post st.s = .ok x →
      ∃ z ∈ krylov (M ∘ₗ A) (M v) st.s.arn.iter, post (x0 + Mr z) = .ok x ∧
      ∀ (hi : st.s.arn.iter < st.resnorms.length),
        nrm g (v - A z) = st.resnorms[st.s.arn.iter] * cfg.MMlbNorm := by
    intro st x hs hi hd hx
    obtain ⟨z, hz, hxk, hzr, hmin⟩ := gmres_optimal hp hi hd Mr post
    refine ⟨z, hz, by rw [← hxk, hx], fun hi => ?_⟩
    have hL : IsLeast ((fun z => nrm g (v - A z)) '' (krylov (M ∘ₗ A) (M v) st.s.arn.iter : Set E))
        (nrm g (v - A z)) := by
      refine ⟨⟨z, hz, rfl⟩, ?_⟩
      rintro _ ⟨z', hz', rfl⟩
      dsimp only
      rw [hzr]
      exact hmin z' hz'
    exact hL.unique (hs.minima _ hi)
  unfold run at h
  simp only [hz, Bool.false_eq_true, if_false] at h
  cases he : initErr cfg (xk0 x0) with
  | error e => simp [he] at h
  | ok errnorms =>
    simp only [he] at h
    rcases h with h | h
    · obtain ⟨st1, hl, hf⟩ := (hrun errnorms).1 st h
      obtain ⟨f1, f2, f3, f4, f5, f6⟩ := finish_returned hf
      have hsp : GmresSpec g A M Mr v post x0 cfg.MMlbNorm st :=
        ⟨by rw [f1, f3]; exact hl.spec.len, by simp only [f3]; exact hl.spec.minima,
          by rw [f5]; exact hl.spec.warn⟩
      have hi' : GmresInv Inv (nrm g v) x0 st.s := by rw [f1]; exact hl.inv
      have hd' : ∀ j < st.s.arn.iter, st.s.R j j ≠ 0 := by rw [f1]; exact hl.diag
      refine ⟨hsp, hi', hd', ?_⟩
      rcases f6 with ⟨x, hx, hx'⟩ | ⟨x, -, hx, hx'⟩
      · exact ⟨x, hx', hattain hsp hi' hd' (by rw [f1]; exact hl.xk x hx)⟩
      · exact ⟨x, hx', hattain hsp hi' hd' (by rw [f1]; exact hx)⟩
    · obtain ⟨st1, hl, hb⟩ := (hrun errnorms).2 st h
      obtain ⟨s', r, x, w, b1, b2, b3, b4, b5, b6, b7, b8, -⟩ := body_convergence hb
      obtain ⟨inv', hd, hit, hx, hmin⟩ := gmresLoop_new hp htol hnb hres hl b1 (Or.inl ⟨x, b4⟩)
      have b4' : gmresXk Mr post s' = .ok x := b4
      rw [hx x b4'] at b6
      obtain rfl := Except.ok.inj b6
      have hsp : GmresSpec g A M Mr v post x0 cfg.MMlbNorm st := by
        refine ⟨by rw [b2, b7, hit]; simp [hl.spec.len], ?_, by rw [b8]; exact hl.spec.warn⟩
        simp only [b7]
        exact hmin _ rfl
      have hi' : GmresInv Inv (nrm g v) x0 st.s := by rw [b2]; exact inv'
      have hd' : ∀ j < st.s.arn.iter, st.s.R j j ≠ 0 := by rw [b2]; exact hd
      exact ⟨hsp, hi', hd', x, b5, hattain hsp hi' hd' (by rw [b2]; exact b4')⟩

end
end Krypy
