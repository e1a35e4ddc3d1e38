import Verif.Proofs.GmresRun
import Mathlib.Analysis.InnerProductSpace.Basic
import Mathlib.LinearAlgebra.FiniteDimensional.Lemmas

/-! # GMRES for nonsingular operators -/

set_option linter.unusedSectionVars false

namespace Krypy
variable {𝕜 E : Type*} [RCLike 𝕜] [AddCommGroup E] [Module 𝕜 E]
open scoped ComplexConjugate
open Finset

theorem arnAdvance_iter {c : ArnCfg 𝕜 E} {s s' : Arn 𝕜 E} (h : arnAdvance c s = .ok s') :
    s'.iter = s.iter + 1 := by
  unfold arnAdvance at h
  split at h
  · simp at h
  split at h
  · simp at h
  dsimp only at h
  split at h
  · simp at h
  · split at h
    · simp at h
    split at h
    · obtain rfl := Except.ok.inj h; rfl
    · obtain rfl := Except.ok.inj h; rfl

section
variable {g : E → E → 𝕜} {A M Mr : E →ₗ[𝕜] E} {maxiter : ℕ} {v x0 : E} {post : E → Except Err E}
  {adv : Arn 𝕜 E → Except Err (Arn 𝕜 E)} {Inv : Arn 𝕜 E → Prop} {β : ℝ} {s s' : GmresSt 𝕜 E}
  (hp : ArnProc g A M maxiter v adv Inv)
include hp

/-- The norm of `A z` for `z` in the Krylov subspace. -/
theorem gmres_homogeneous (inv : GmresInv Inv β x0 s) (u : ℕ → 𝕜) :
    nsq g (A (∑ j ∈ range s.arn.iter, u j • s.arn.V j)) =
    ∑ i ∈ range s.arn.iter, ‖∑ j ∈ range s.arn.iter, s.R i j * u j‖ ^ 2 := by
  have h1 := gmres_functional hp inv u
  have h2 := gmres_functional hp inv (fun j => -u j)
  have h3 := gmres_functional hp inv (fun _ => 0)
  simp only [neg_smul, Finset.sum_neg_distrib, map_neg, sub_neg_eq_add, mul_neg, zero_smul,
    Finset.sum_const_zero, map_zero, sub_zero, mul_zero] at h2 h3
  rw [hp.inner.nsq_sub] at h1
  rw [hp.inner.nsq_add] at h2
  have h4 : ∑ i ∈ range s.arn.iter, ‖s.y i - ∑ j ∈ range s.arn.iter, s.R i j * u j‖ ^ 2 +
      ∑ i ∈ range s.arn.iter, ‖s.y i + ∑ j ∈ range s.arn.iter, s.R i j * u j‖ ^ 2 =
      2 * (∑ i ∈ range s.arn.iter, ‖s.y i‖ ^ 2) +
      2 * ∑ i ∈ range s.arn.iter, ‖∑ j ∈ range s.arn.iter, s.R i j * u j‖ ^ 2 := by
    rw [← Finset.sum_add_distrib, Finset.mul_sum, Finset.mul_sum, ← Finset.sum_add_distrib]
    refine Finset.sum_congr rfl fun i _ => ?_
    have := parallelogram_law_with_norm 𝕜 (s.y i) (∑ j ∈ range s.arn.iter, s.R i j * u j)
    nlinarith
  linarith

omit hp in
/-- `A` is injective on a subspace `K` which contains all Krylov subspaces. -/
structure NonsingOn (A M : E →ₗ[𝕜] E) (v : E) (K : Submodule 𝕜 E) : Prop where
  kry : ∀ n, krylov (M ∘ₗ A) (M v) n ≤ K
  inj : ∀ x ∈ K, A x = 0 → x = 0

omit hp in
theorem NonsingOn.top (v : E) (hinj : ∀ x, A x = 0 → x = 0) : NonsingOn A M v ⊤ :=
  ⟨fun _ => le_top, fun x _ => hinj x⟩

omit hp in
theorem NonsingOn.start {K : Submodule 𝕜 E} (hinj : NonsingOn A M v K) : M v ∈ K :=
  hinj.kry 1 (by rw [krylov_eq_spanTo]; exact mem_spanTo (V := fun i => ((M ∘ₗ A) ^ i) (M v)) (i := 0) (by omega))

/-- If `A` is injective on the Krylov subspaces the diagonal of `R` never vanishes. -/
theorem gmres_diag_inj (inv : GmresInv Inv β x0 s) {K : Submodule 𝕜 E} (hinj : NonsingOn A M v K) :
    ∀ j < s.arn.iter, s.R j j ≠ 0 := by
  intro j hj h0
  have hd : ∀ i < j, s.R i i ≠ 0 := fun i hi => gmres_diag hp inv (Or.inl (by omega))
  obtain ⟨u, -, hu⟩ := solveUpper_range (n := j) (R := s.R) (y := fun i => -s.R i j)
    (fun i k hk hki => inv.qr.upper (by omega) hki) hd
  set w : ℕ → 𝕜 := fun i => if i < j then u i else if i = j then 1 else 0 with hw
  have hRw : ∀ i, ∑ k ∈ range s.arn.iter, s.R i k * w k = 0 := by
    intro i
    have e1 : ∑ k ∈ range s.arn.iter, s.R i k * w k = ∑ k ∈ range (j + 1), s.R i k * w k := by
      symm
      refine Finset.sum_subset (fun k hk => ?_) fun k _ hk => ?_
      · rw [Finset.mem_range] at *; omega
      · rw [Finset.mem_range] at hk
        simp only [hw]
        rw [if_neg (by omega), if_neg (by omega), mul_zero]
    rw [e1, Finset.sum_range_succ]
    have e2 : w j = 1 := by simp [hw]
    have e3 : ∑ k ∈ range j, s.R i k * w k = ∑ k ∈ range j, s.R i k * u k :=
      Finset.sum_congr rfl fun k hk => by
        simp only [hw]
        rw [if_pos (Finset.mem_range.mp hk)]
    rw [e2, e3, mul_one]
    rcases lt_trichotomy i j with h | h | h
    · rw [hu i h]; ring
    · rw [h, h0, add_zero]
      refine Finset.sum_eq_zero fun k hk => ?_
      have := Finset.mem_range.mp hk
      rw [inv.qr.upper (by omega) this, zero_mul]
    · rw [inv.qr.upper hj h, add_zero]
      refine Finset.sum_eq_zero fun k hk => ?_
      have := Finset.mem_range.mp hk
      rw [inv.qr.upper (by omega) (by omega), zero_mul]
  have hz : nsq g (A (∑ k ∈ range s.arn.iter, w k • s.arn.V k)) = 0 := by
    rw [gmres_homogeneous hp inv]
    refine Finset.sum_eq_zero fun i _ => ?_
    rw [hRw]; simp
  have h1 := hinj.inj _ (by
    have hm : ∑ k ∈ range s.arn.iter, w k • s.arn.V k ∈ spanTo (𝕜 := 𝕜) s.arn.V s.arn.iter :=
      mem_spanTo_iff.mpr ⟨w, rfl⟩
    rw [(hp.facts inv.arn).span _ le_rfl] at hm
    exact hinj.kry _ hm) (hp.inner.nsq_eq_zero.mp hz)
  have h2 := (hp.facts inv.arn).indep w h1 j hj
  simp [hw] at h2

/-- A zero below the diagonal gives a zero residual. -/
theorem gmres_exact (inv : GmresInv Inv β x0 s) {k : ℕ} (hk : s.arn.iter = k + 1)
    (hd : s.R k k ≠ 0) (hz : s.arn.H (k + 1) k = 0) : s.y s.arn.iter = 0 := by
  have h1 := inv.qr.diag (j := k) (by omega)
  have h2 := (inv.qr.rotg k (by omega)).2
  rw [rots_above _ (Nat.lt_succ_self k), hz, mul_zero, add_zero] at h2
  have h3 : rots s.G k (fun i => s.arn.H i k) k ≠ 0 := by
    intro h0
    rw [h0, hz, norm_zero] at h1
    apply hd
    have : ‖s.R k k‖ ^ 2 = 0 := by rw [h1]; norm_num
    simpa using this
  have h4 : conj (s.G k).s = 0 := by
    rcases mul_eq_zero.mp h2 with h | h
    · simpa using h
    · exact absurd h h3
  rw [inv.y, hk, rots, rot_apply, if_pos rfl, h4, rots_above _ (Nat.lt_succ_self k), if_neg (by omega)]
  simp

section total
variable {cfg : Cfg ℝ E} (htol : 0 ≤ cfg.tol) (hnb : 0 < cfg.MMlbNorm)
  (hres : ∀ z x, post (x0 + Mr z) = .ok x → cfg.resNorm x = .ok (nrm g (v - A z)))
  {K : Submodule 𝕜 E} (hinj : NonsingOn A M v K) (hM : ∀ x, M x = 0 → x = 0)
  (hpost : ∀ x, ∃ y, post x = .ok y) (hrt : ∀ x, ∃ y, cfg.resNorm x = .ok y)
  (het : ∀ en, cfg.errNorm = some en → ∀ x, ∃ y, en x = .ok y)
include htol hnb hres hinj hM hpost hrt het

/-- For nonsingular operators a run does not raise anything but possibly `ConvergenceError`. -/
theorem gmresRun_total {arn : Arn 𝕜 E} (ha : Inv arn) (h0 : arn.iter = 0) (e : Err) :
    run cfg (gmresMethod adv Mr post maxiter) x0 (nrm g v) (gmresInit arn (nrm g v)) post ≠ .raised e := by
  have hz : (cfg.MMlbNorm == 0) = false := by simpa using hnb.ne'
  have hxk : ∀ s : GmresSt 𝕜 E, GmresInv Inv (nrm g v) x0 s → ∃ x, gmresXk Mr post s = .ok x := by
    intro s inv
    obtain ⟨z, -, h, -⟩ := gmres_optimal hp inv (gmres_diag_inj hp inv hinj) Mr post
    obtain ⟨x, hx⟩ := hpost (x0 + Mr z)
    exact ⟨x, by rw [h, hx]⟩
  have hinit : ∃ l, initErr cfg (post x0) = .ok l := by
    unfold initErr
    cases hen : cfg.errNorm with
    | none => exact ⟨_, rfl⟩
    | some en =>
      obtain ⟨x, hx⟩ := hpost x0
      obtain ⟨y, hy⟩ := het en hen x
      simp only [hx, hy]
      exact ⟨_, rfl⟩
  obtain ⟨errnorms, he⟩ := hinit
  unfold run
  simp only [hz, Bool.false_eq_true, if_false, he]
  refine loop_total (GmresLoop g A M Mr v Inv post x0 cfg.MMlbNorm)
    (fun st st' h1 _ h3 => gmresLoop_body hp htol hnb hres h1 h3) ?_ ?_ cfg.maxiter _
    (gmresLoop_init hp htol hnb hres ha h0 errnorms) e
  · intro st hl hg e
    have hmore : st.s.arn.iter < maxiter ∧ st.s.arn.invariant = false := by
      simp only [loopGuard, gmresMethod, Bool.and_eq_true, decide_eq_true_eq, Bool.not_eq_true'] at hg
      exact hg.2
    have hv : v ≠ 0 := by
      rintro rfl
      simp only [loopGuard, Bool.and_eq_true] at hg
      have hlen := hl.spec.len
      obtain ⟨r, hr, hr'⟩ : ∃ r, st.resnorms.getLast? = some r ∧ cfg.tol < r := by
        cases hlast : st.resnorms.getLast? with
        | none => simp [hlast] at hg
        | some r => exact ⟨r, rfl, by simpa [hlast] using hg.1⟩
      have hle := (hl.spec.minima st.s.arn.iter (by omega)).2 ⟨0, Submodule.zero_mem _, rfl⟩
      rw [List.getLast?_eq_getElem?] at hr
      have : st.resnorms[st.s.arn.iter]'(by omega) = r := by
        rw [hlen, Nat.add_sub_cancel, List.getElem?_eq_getElem (by omega)] at hr
        exact Option.some.inj hr
      simp only [map_zero, sub_zero, hp.inner.nrm_eq_zero.mpr rfl] at hle
      rw [this] at hle
      nlinarith
    rcases hp.total hl.inv.arn hmore.1 hmore.2 with ⟨a, ha⟩ | ⟨-, -, h⟩
    · obtain ⟨s', r, hs⟩ : ∃ s' r, gmresStep adv st.s = .ok (s', r) := by
        unfold gmresStep
        rw [ha]
        exact ⟨_, _, rfl⟩
      obtain ⟨inv', -⟩ := gmresStep_inv hp hl.inv hs
      obtain ⟨x, hx⟩ := hxk s' inv'
      exact body_not_raised (m := gmresMethod adv Mr post maxiter) hs hx hrt het e
    · exact absurd (hM _ (hinj.inj _ hinj.start h)) hv
  · intro st hl _ e
    obtain ⟨x, hx⟩ := hxk st.s hl.inv
    unfold finish
    split
    · simp
    · have : (gmresMethod adv Mr post maxiter).getXk st.s = .ok x := hx
      rw [this]
      simp

/-- For nonsingular operators and `maxiter ≥ dim` a run returns normally, and with a residual below the
tolerance unless an approximate invariance flag was raised. -/
theorem gmresRun_terminates [FiniteDimensional 𝕜 E] {arn : Arn 𝕜 E} (ha : Inv arn) (h0 : arn.iter = 0)
    (hsolv : ∃ z ∈ K, A z = v) (hmax : Module.finrank 𝕜 K ≤ maxiter) (hcm : cfg.maxiter = maxiter)
    (hadv : ∀ s s', adv s = .ok s' → s'.iter = s.iter + 1) :
    ∃ st, run cfg (gmresMethod adv Mr post maxiter) x0 (nrm g v) (gmresInit arn (nrm g v)) post =
        .returned st ∧
      ((∃ r, st.resnorms.getLast? = some r ∧ r ≤ cfg.tol) ∨
        (st.s.arn.invariant = true ∧ ∃ k, st.s.arn.iter = k + 1 ∧ st.s.arn.H (k + 1) k ≠ 0)) := by
  have hlaw : LawfulMethod (gmresMethod adv Mr post maxiter) cfg.maxiter := by
    rw [hcm]; exact gmresMethod_lawful Mr post maxiter hadv
  have hk0 : ∀ x, (gmresMethod adv Mr post maxiter).k (gmresInit arn (nrm g v) x) = 0 := fun _ => h0
  have hne : cfg.MMlbNorm ≠ 0 := hnb.ne'
  have hfuel := C24_terminates hlaw x0 (nrm g v) (gmresInit arn (nrm g v)) post hk0
  have htot := gmresRun_total hp htol hnb hres hinj hM hpost hrt het ha h0
  -- a state in which the Krylov subspace is everything has zero residual
  have hfull : ∀ st : St ℝ E (GmresSt 𝕜 E), GmresSpec g A M Mr v post x0 cfg.MMlbNorm st →
      GmresInv Inv (nrm g v) x0 st.s → Module.finrank 𝕜 K ≤ st.s.arn.iter →
      ∀ r, st.resnorms.getLast? = some r → r = 0 := by
    intro st hsp hinv hN r hr
    have hlen := hsp.len
    have hr' : st.resnorms[st.s.arn.iter]'(by omega) = r := by
      rw [List.getLast?_eq_getElem?, hlen, Nat.add_sub_cancel, List.getElem?_eq_getElem (by omega)] at hr
      exact Option.some.inj hr
    have hF := hp.facts hinv.arn
    have hli : LinearIndependent 𝕜 (fun i : Fin st.s.arn.iter => st.s.arn.V i) := by
      rw [Fintype.linearIndependent_iff]
      intro c hc i
      have := hF.indep (fun j => if h : j < st.s.arn.iter then c ⟨j, h⟩ else 0) (by
        rw [Finset.sum_range]
        simpa using hc) i i.2
      simpa using this
    have htop : spanTo (𝕜 := 𝕜) st.s.arn.V st.s.arn.iter = K := by
      refine Submodule.eq_of_le_of_finrank_le ?_ ?_
      · rw [hF.span _ le_rfl]; exact hinj.kry _
      · have h1 := finrank_span_eq_card hli
        have h2 : Submodule.span 𝕜 (Set.range fun i : Fin st.s.arn.iter => st.s.arn.V i) =
            spanTo (𝕜 := 𝕜) st.s.arn.V st.s.arn.iter := by
          apply le_antisymm
          · rw [Submodule.span_le]
            rintro _ ⟨i, rfl⟩
            exact mem_spanTo i.2
          · rw [spanTo_le]
            intro i hi
            exact Submodule.subset_span ⟨⟨i, hi⟩, rfl⟩
        rw [h2, Fintype.card_fin] at h1
        omega
    obtain ⟨z, hzK, hz⟩ := hsolv
    have hmin := hsp.minima st.s.arn.iter (by omega)
    have hle := hmin.2 ⟨z, by rw [← hF.span _ le_rfl, htop]; exact hzK, rfl⟩
    obtain ⟨z', -, hz'⟩ := hmin.1
    have hge : 0 ≤ st.resnorms[st.s.arn.iter]'(by omega) * cfg.MMlbNorm := by
      rw [← hz']; exact nrm_nonneg _ _
    simp only [hz, sub_self, hp.inner.nrm_eq_zero.mpr rfl] at hle
    rw [hr'] at hle hge
    have : r * cfg.MMlbNorm = 0 := le_antisymm hle hge
    rcases mul_eq_zero.mp this with h | h
    · exact h
    · exact absurd h hne
  cases hrun : run cfg (gmresMethod adv Mr post maxiter) x0 (nrm g v) (gmresInit arn (nrm g v)) post with
  | outOfFuel => exact absurd hrun hfuel
  | raised e => exact absurd hrun (htot e)
  | convergence st =>
    exfalso
    obtain ⟨hsp, hinv, -, -⟩ := gmresRun_spec hp htol hnb hres ha h0 (Or.inr hrun)
    obtain ⟨st1, hR, hg, hb⟩ := (run_inv hlaw hk0).2 st hrun
    obtain ⟨s', r, x, w, b1, b2, b3, b4, b5, b6, b7, b8, b9, b10, -⟩ := body_convergence hb
    have hk : st.s.arn.iter = maxiter := by
      have := hlaw.step_k b1
      rw [b2]
      change s'.arn.iter = st1.s.arn.iter + 1 at this
      change st1.s.arn.iter + 1 = cfg.maxiter at b10
      omega
    have := hfull st hsp hinv (by omega) (w / cfg.MMlbNorm) (by rw [b7]; simp)
    rw [this] at b9
    linarith
  | returned st =>
    refine ⟨st, rfl, ?_⟩
    obtain ⟨hsp, hinv, hd, -⟩ := gmresRun_spec hp htol hnb hres ha h0 (Or.inl hrun)
    obtain ⟨st1, hR, hg, hf⟩ := (run_inv hlaw hk0).1 st hrun
    obtain ⟨f1, f2, f3, f4, f5, f6⟩ := finish_returned hf
    have hlen := hsp.len
    have hlast : st.resnorms.getLast? = some (st.resnorms[st.s.arn.iter]'(by omega)) := by
      rw [List.getLast?_eq_getElem?, show st.resnorms.length - 1 = st.s.arn.iter by omega,
        List.getElem?_eq_getElem (by omega)]
    by_cases hle : st.resnorms[st.s.arn.iter]'(by omega) ≤ cfg.tol
    · exact Or.inl ⟨_, hlast, hle⟩
    · right
      have hmore : ¬ (st.s.arn.iter < maxiter ∧ st.s.arn.invariant = false) := by
        intro hm
        have : loopGuard cfg (gmresMethod adv Mr post maxiter) st1 = true := by
          simp only [loopGuard, gmresMethod, ← f1, ← f3, hlast, Bool.and_eq_true, decide_eq_true_eq,
            Bool.not_eq_true', Option.any_some]
          exact ⟨not_le.mp hle, hm⟩
        rw [this] at hg
        simp at hg
      have hinvar : st.s.arn.invariant = true := by
        by_contra hni
        have hni' : st.s.arn.invariant = false := by simpa using hni
        have hge : maxiter ≤ st.s.arn.iter := by
          by_contra hlt
          exact hmore ⟨by omega, hni'⟩
        have := hfull st hsp hinv (by omega) _ hlast
        rw [this] at hle
        exact hle htol
      refine ⟨hinvar, ?_⟩
      have hit : st.s.arn.iter ≠ 0 := by
        intro h0
        have hv := (hp.facts hinv.arn).start hinvar h0
        have hmin := hsp.minima st.s.arn.iter (by omega)
        have h1 := hmin.2 ⟨0, Submodule.zero_mem _, rfl⟩
        simp only [map_zero, sub_zero, hv, hp.inner.nrm_eq_zero.mpr rfl] at h1
        have : st.resnorms[st.s.arn.iter]'(by omega) ≤ 0 := by
          by_contra hpos
          nlinarith [not_le.mp hpos]
        linarith [not_le.mp hle]
      obtain ⟨k, hk⟩ := Nat.exists_eq_succ_of_ne_zero hit
      refine ⟨k, hk, fun hzero => ?_⟩
      have hy := gmres_exact hp hinv hk (hd k (by omega)) hzero
      obtain ⟨z, hz, -, hzr, -⟩ := gmres_optimal hp hinv hd Mr post
      have hmin := (hsp.minima st.s.arn.iter (by omega)).2 ⟨z, hz, rfl⟩
      dsimp only at hmin
      rw [hzr, hy, norm_zero] at hmin
      have : st.resnorms[st.s.arn.iter]'(by omega) ≤ 0 := by
        by_contra hpos
        nlinarith [not_le.mp hpos]
      linarith [not_le.mp hle]

end total
end
end Krypy
