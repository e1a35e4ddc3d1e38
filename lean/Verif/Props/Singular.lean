import Verif.Props.SolverTotal
import Verif.Props.Cg
import Verif.Props.DType

/-! # Property C67: singular systems

`Gmres`, `Minres` and `Cg` are documented for nonsingular systems (linsys.py 521-545, 700-713, 856-866), but nothing in
the code excludes singular ones, which are common (deflated operators, pure Neumann problems).  What happens then? -/

set_option linter.unusedSectionVars false

namespace Krypy
variable {𝕜 E : Type*} [RCLike 𝕜] [AddCommGroup E] [Module 𝕜 E]
open scoped ComplexConjugate
open Finset

/-! ## Specification -/

/-- The system `Ml A Mr y = Ml (b - A x0)` has a solution. -/
def Consistent (a : LSArgs 𝕜 E) (x0 : E) : Prop := ∃ z, a.Ml (a.A (a.Mr z)) = a.Ml (a.b - a.A x0)

/-- The zero eigenvalue of `M Ml A Mr` has no Jordan blocks: ranges and kernels meet only in zero. -/
def IndexOne (a : LSArgs 𝕜 E) : Prop :=
  ∀ x, a.Ml (a.A (a.Mr (a.M (a.Ml (a.A (a.Mr x)))))) = 0 → a.Ml (a.A (a.Mr x)) = 0

/-- Rank of `Ml A Mr`. -/
noncomputable def sysRank (a : LSArgs 𝕜 E) : ℕ := Module.finrank 𝕜 (LinearMap.range (a.Ml ∘ₗ a.A ∘ₗ a.Mr))

/-- Admissible input of `Cg` with a positive *semi*definite operator. -/
structure PsdHyp (a : LSArgs 𝕜 E) : Prop where
  ls : LSHyp a.ip a.M
  sa : ∀ x y, a.ip (a.Ml (a.A (a.Mr x))) y = a.ip x (a.Ml (a.A (a.Mr y)))
  nonneg : ∀ x, 0 ≤ RCLike.re (a.ip x (a.Ml (a.A (a.Mr x))))

/-- Self-adjoint operators have index at most one. -/
theorem MinresHyp.indexOne {a : LSArgs 𝕜 E} (h : MinresHyp a) : IndexOne a := by
  intro x hx
  refine h.ls.prec.self_eq_zero.mp ?_
  rw [h.sa, hx, h.ls.inner.zero_right]

/-- Nonsingular operators as well, and every right hand side is then consistent. -/
theorem IndexOne.of_injective {a : LSArgs 𝕜 E} (h : LSHyp a.ip a.M) (hinj : ∀ x, a.Ml (a.A (a.Mr x)) = 0 → x = 0) :
    IndexOne a := by
  intro x hx
  have := hinj _ hx
  refine h.prec.self_eq_zero.mp ?_
  simp only [this, h.inner.zero_right]

/-! ## The Krylov subspaces of a consistent system -/

theorem LSHyp.M_inj {ip : E → E → 𝕜} {M : E →ₗ[𝕜] E} (h : LSHyp ip M) {x : E} (hx : M x = 0) : x = 0 := by
  refine h.prec.self_eq_zero.mp ?_
  simp only [hx, h.inner.zero_right]

theorem nonsingOn_range {B M : E →ₗ[𝕜] E} {v z : E} (hz : B z = v)
    (hidx : ∀ x, B (M (B x)) = 0 → B x = 0) : NonsingOn B M v (LinearMap.range (M ∘ₗ B)) where
  kry n := by
    rw [krylov_eq_spanTo, spanTo_le]
    intro i _
    have hstart : M v ∈ LinearMap.range (M ∘ₗ B) := ⟨z, by simp [hz]⟩
    cases i with
    | zero => simpa using hstart
    | succ i =>
      rw [pow_succ', Module.End.mul_apply]
      exact ⟨_, rfl⟩
  inj := by
    rintro _ ⟨x, rfl⟩ h
    rw [LinearMap.comp_apply] at h ⊢
    rw [hidx x h, map_zero]

theorem solvable_in_range [FiniteDimensional 𝕜 E] {ip : E → E → 𝕜} {B M : E →ₗ[𝕜] E} (hM : LSHyp ip M) {v z : E}
    (hz : B z = v) (hidx : ∀ x, B (M (B x)) = 0 → B x = 0) : ∃ w ∈ LinearMap.range (M ∘ₗ B), B w = v := by
  set K := LinearMap.range (M ∘ₗ B) with hK
  let T : K →ₗ[𝕜] K := (M ∘ₗ B).restrict (p := K) (q := K) fun x _ => ⟨x, rfl⟩
  have hT : Function.Injective T := by
    rw [← LinearMap.ker_eq_bot, LinearMap.ker_eq_bot']
    rintro ⟨w, x, rfl⟩ hw
    have h1 : M (B (M (B x))) = 0 := congrArg Subtype.val hw
    have h2 := hidx x (hM.M_inj h1)
    ext
    simp [h2]
  obtain ⟨⟨w, hw⟩, hw'⟩ := (LinearMap.injective_iff_surjective.mp hT) ⟨M v, z, by simp [hz]⟩
  refine ⟨w, hw, ?_⟩
  have h1 : M (B w) = M v := congrArg Subtype.val hw'
  have h2 : M (B w - v) = 0 := by rw [map_sub, h1, sub_self]
  exact sub_eq_zero.mp (hM.M_inj h2)

theorem finrank_range_comp_le [FiniteDimensional 𝕜 E] (B M : E →ₗ[𝕜] E) :
    Module.finrank 𝕜 (LinearMap.range (M ∘ₗ B)) ≤ Module.finrank 𝕜 (LinearMap.range B) := by
  rw [LinearMap.range_comp]
  exact Submodule.finrank_map_le _ _

/-! ## Consistent systems -/

theorem LSOK.nb_pos {a : LSArgs 𝕜 E} {s : LS 𝕜 E} (ok : LSOK a s) (p : SolverArgs E) (hb : a.Ml a.b ≠ 0) :
    0 < (mkCfg s p).MMlbNorm := by
  rw [ok.nb]
  refine lt_of_le_of_ne (nrm_nonneg _ _) fun h0 => ?_
  have := ok.hyp.prec.nrm_eq_zero.mp h0.symm
  simp only [map_zero, sub_zero] at this
  exact hb this

/-- C67: for a consistent system whose operator has index at most one, `Gmres` raises nothing but possibly
`ConvergenceError`; once `maxiter` is at least the *rank* of `Ml A Mr`, it returns, and then the residual norm is below
the tolerance unless the Krylov subspace was flagged invariant although the entry of `H` below the diagonal is not zero. -/
theorem C67_gmres {a : LSArgs 𝕜 E} {ortho : Ortho} (h : GmresHyp a ortho) {s : LS 𝕜 E} (hs : mkLS a = .ok s)
    (p : SolverArgs E) (htol : 0 ≤ p.tol) (hb : a.Ml a.b ≠ 0) (hidx : IndexOne a)
    (hcons : Consistent a (p.x0.getD 0)) :
    (∃ st, gmres s s.hooks ortho p = .returned st ∨ gmres s s.hooks ortho p = .convergence st) ∧
    (FiniteDimensional 𝕜 E → sysRank a ≤ p.maxiter → ∃ st, gmres s s.hooks ortho p = .returned st ∧
      ((∃ r, st.resnorms.getLast? = some r ∧ r ≤ p.tol) ∨
        (st.s.arn.invariant = true ∧ ∃ k, st.s.arn.iter = k + 1 ∧ st.s.arn.H (k + 1) k ≠ 0))) := by
  have hf := (C22_gmres s s.hooks ortho p).fuel
  obtain ⟨s', hs', ok, -⟩ := mkLS_ok h.ls
  rw [hs] at hs'
  obtain rfl := Except.ok.inj hs'
  obtain ⟨arn, hr, ha, h0⟩ := gmres_setup ok h p
  have hnb := ok.nb_pos p hb
  have hproc := ArnReach.proc (ok.arnHyp h p.maxiter) (a.Ml (a.b - a.A (p.x0.getD 0)))
  have hM : (s.arnCfg s.hooks p.maxiter ortho).Mop = a.M := by simp [LS.arnCfg, ArnCfg.Mop, ok.M]
  have hA : (s.arnCfg s.hooks p.maxiter ortho).A = a.Ml ∘ₗ a.A ∘ₗ a.Mr := by
    simp only [LS.arnCfg, LS.hooks, ok.op_eq]
  obtain ⟨z, hz⟩ := hcons
  have hns : NonsingOn (s.arnCfg s.hooks p.maxiter ortho).A (s.arnCfg s.hooks p.maxiter ortho).Mop
      (a.Ml (a.b - a.A (p.x0.getD 0)))
      (LinearMap.range ((s.arnCfg s.hooks p.maxiter ortho).Mop ∘ₗ (s.arnCfg s.hooks p.maxiter ortho).A)) := by
    rw [hM, hA]
    exact nonsingOn_range (z := z) hz hidx
  have hMi : ∀ x, (s.arnCfg s.hooks p.maxiter ortho).Mop x = 0 → x = 0 := by
    intro x hx
    rw [hM] at hx
    exact h.ls.M_inj hx
  constructor
  · rw [hr] at hf ⊢
    have ht := gmresRun_total hproc (cfg := mkCfg s p) (Mr := s.Mr) (post := .ok) (x0 := p.x0.getD 0)
      htol hnb (ok.hres ortho p _) hns hMi (fun x => ⟨x, rfl⟩) (fun x => ⟨_, ok.resNorm p x⟩)
      (ok.errNorm p) ha h0
    match hrun : run (mkCfg s p) (gmresMethod (arnAdvance (s.arnCfg s.hooks p.maxiter ortho)) s.Mr .ok p.maxiter)
        (p.x0.getD 0) _ (gmresInit arn _) .ok with
    | .returned st => exact ⟨st, Or.inl rfl⟩
    | .convergence st => exact ⟨st, Or.inr rfl⟩
    | .raised e => exact absurd hrun (ht e)
    | .outOfFuel => exact absurd hrun hf
  · intro hfd hN
    rw [hr]
    refine gmresRun_terminates hproc (cfg := mkCfg s p) (Mr := s.Mr) (post := .ok) (x0 := p.x0.getD 0)
      htol hnb (ok.hres ortho p _) hns hMi (fun x => ⟨x, rfl⟩) (fun x => ⟨_, ok.resNorm p x⟩)
      (ok.errNorm p) ha h0 ?_ ?_ rfl (fun _ _ h => arnAdvance_iter h)
    · rw [hM, hA]
      exact solvable_in_range h.ls (z := z) hz hidx
    · rw [hM, hA]
      exact (finrank_range_comp_le _ _).trans hN

/-- C67: for consistent self-adjoint systems - definite or not, singular or not - `Minres` raises nothing but possibly
`ConvergenceError`, and it returns once `maxiter` is at least the rank. -/
theorem C67_minres {a : LSArgs 𝕜 E} (h : MinresHyp a) {s : LS 𝕜 E} (hs : mkLS a = .ok s) (ortho : Ortho)
    (p : SolverArgs E) (htol : 0 ≤ p.tol) (hb : a.Ml a.b ≠ 0) (hcons : Consistent a (p.x0.getD 0)) :
    (∃ st, minres s s.hooks ortho p = .returned st ∨ minres s s.hooks ortho p = .convergence st) ∧
    (FiniteDimensional 𝕜 E → sysRank a ≤ p.maxiter → ∃ st, minres s s.hooks ortho p = .returned st ∧
      ((∃ r, st.resnorms.getLast? = some r ∧ r ≤ p.tol) ∨
        (st.s.arn.invariant = true ∧ ∃ k, st.s.arn.iter = k + 1 ∧ st.s.arn.H (k + 1) k ≠ 0))) := by
  obtain ⟨hg1, hg2⟩ := C67_gmres (h.gmres ortho) hs p htol hb h.indexOne hcons
  obtain ⟨adv, Inv, arn, β, g, A, M, v, e1, e2, hp, htri, ha, h0, hβ, hA, hM, hv⟩ := minres_setup_full h hs ortho p
  obtain ⟨z, hz⟩ := hcons
  have hns : NonsingOn A M v (LinearMap.range (M ∘ₗ A)) := by
    rw [hA, hM, hv]
    exact nonsingOn_range (z := z) hz h.indexOne
  have hsim := run_sim (cfg := mkCfg s p) (xk0 := .ok) (r := β) (x0 := p.x0.getD 0)
    (minres_sim_inj (Mr := s.Mr) (post := .ok) (β := β)
      (x0 := if ((mkCfg s p).MMlbNorm == 0) = true then 0 else p.x0.getD 0)
      hp htri hns) (mk₁ := gmresInit arn β) (mk₂ := minresInit arn β) (minresInit_rel hp ha h0 hβ)
  rw [e1]
  rw [e2] at hg1 hg2
  constructor
  · obtain ⟨st, hst | hst⟩ := hg1
    · obtain ⟨b, hb, -⟩ := hsim.1 st hst
      exact ⟨_, Or.inl hb⟩
    · obtain ⟨b, hb, -⟩ := hsim.2 st hst
      exact ⟨_, Or.inr hb⟩
  · intro hfd hN
    obtain ⟨st, hst, hor⟩ := hg2 hfd hN
    obtain ⟨b, hb, hrel⟩ := hsim.1 st hst
    refine ⟨st.setS b, hb, ?_⟩
    have hr : b.arn = st.s.arn := hrel.arn
    change (∃ r, st.resnorms.getLast? = some r ∧ r ≤ p.tol) ∨
        (b.arn.invariant = true ∧ ∃ k, b.arn.iter = k + 1 ∧ b.arn.H (k + 1) k ≠ 0)
    rw [hr]
    exact hor

/-- A positive semidefinite operator is definite on its range. -/
theorem PsdHyp.cgHyp {a : LSArgs 𝕜 E} (h : PsdHyp a) {x0 : E} (hc : Consistent a x0) :
    CgHyp a.ip a.M (a.Ml ∘ₗ a.A ∘ₗ a.Mr) (LinearMap.range (a.Ml ∘ₗ a.A ∘ₗ a.Mr)) (a.Ml (a.b - a.A x0)) where
  ls := h.ls
  sa := h.sa
  rng x := ⟨x, rfl⟩
  start := hc
  pos := by
    rintro _ ⟨x, rfl⟩ hq
    set B := a.Ml ∘ₗ a.A ∘ₗ a.Mr with hB
    have hsa : ∀ x y, a.ip (B x) y = a.ip x (B y) := h.sa
    have hnn : ∀ x, 0 ≤ RCLike.re (a.ip x (B x)) := h.nonneg
    refine lt_of_le_of_ne (hnn _) fun h0 => hq ?_
    set u := a.M (B x) with hu
    -- B u = 0
    have hBu : B u = 0 := by
      set w := B u with hw
      have hquad : ∀ t : ℝ, 0 ≤ 2 * t * RCLike.re (a.ip w w) + t ^ 2 * RCLike.re (a.ip w (B w)) := by
        intro t
        have h1 := hnn (u + (t : 𝕜) • w)
        have h2 : RCLike.re (a.ip (u + (t : 𝕜) • w) (B (u + (t : 𝕜) • w))) =
            RCLike.re (a.ip u (B u)) + t * RCLike.re (a.ip u (B w)) + t * RCLike.re (a.ip w (B u)) +
              t ^ 2 * RCLike.re (a.ip w (B w)) := by
          simp only [map_add, map_smul, h.ls.inner.add_right, h.ls.inner.add_left, h.ls.inner.smul_right,
            h.ls.inner.smul_left, RCLike.conj_ofReal, ← mul_assoc, ← RCLike.ofReal_mul, RCLike.re_ofReal_mul]
          ring
        rw [h2, ← h0, ← hsa u w] at h1
        simp only [← hw] at h1
        linarith
      by_contra hne
      have hpos := h.ls.inner.pos w hne
      set α := RCLike.re (a.ip w w)
      set γ := RCLike.re (a.ip w (B w))
      have hγ : 0 ≤ γ := hnn w
      have := hquad (-(α / (γ + 1)))
      have hg1 : 0 < γ + 1 := by linarith
      have e : 2 * -(α / (γ + 1)) * α + (-(α / (γ + 1))) ^ 2 * γ = -(α ^ 2 / (γ + 1) ^ 2) * (γ + 2) := by
        field_simp
        ring
      rw [e] at this
      have : 0 < α ^ 2 / (γ + 1) ^ 2 * (γ + 2) := by positivity
      linarith
    refine h.ls.prec.self_eq_zero.mp ?_
    rw [hsa, ← hu, hBu, h.ls.inner.zero_right]

/-- C67: for a consistent system with self-adjoint positive *semi*definite `Ml A Mr`, `Cg` raises nothing but possibly
`ConvergenceError`; the iterates still are the unique minimisers of the energy norm of the error over the Krylov
subspaces; the recorded residual norms are the true ones; and once `maxiter` is at least the rank of `Ml A Mr`, `Cg`
returns after at most that many iterations with a residual norm below the tolerance. -/
theorem C67_cg {a : LSArgs 𝕜 E} (h : PsdHyp a) {s : LS 𝕜 E} (hs : mkLS a = .ok s) (store : Bool)
    (p : SolverArgs E) (htol : 0 ≤ p.tol) (hb : a.Ml a.b ≠ 0) (hc : Consistent a (p.x0.getD 0)) :
    (∃ st, cg s s.hooks store p = .returned st ∨ cg s s.hooks store p = .convergence st) ∧
    (∀ st, (cg s s.hooks store p = .returned st ∨ cg s s.hooks store p = .convergence st) →
      st.xk = some (p.x0.getD 0 + a.Mr (st.s.ys (st.resnorms.length - 1))) ∧ st.warnings = 0 ∧
      ∀ i (hi : i < st.resnorms.length),
        st.resnorms[i] * resid a 0 = resid a (p.x0.getD 0 + a.Mr (st.s.ys i)) ∧
        st.s.ys i ∈ kry a (p.x0.getD 0) i ∧
        ∀ ystar, a.Ml (a.A (p.x0.getD 0 + a.Mr ystar)) = a.Ml a.b → ∀ z ∈ kry a (p.x0.getD 0) i,
          errEnergy a (ystar - st.s.ys i) ≤ errEnergy a (ystar - z) ∧
          (errEnergy a (ystar - z) = errEnergy a (ystar - st.s.ys i) → z = st.s.ys i)) ∧
    (FiniteDimensional 𝕜 E → sysRank a ≤ p.maxiter → ∃ st, cg s s.hooks store p = .returned st ∧
      (∃ r, st.resnorms.getLast? = some r ∧ r ≤ p.tol) ∧ st.resnorms.length ≤ sysRank a + 1) := by
  have hf := (C22_cg s s.hooks store p).fuel
  obtain ⟨e, hres, hnb, hn, hrt, het⟩ := cg_setup_ls h.ls hs store p
  have hH := h.cgHyp hc
  have hspec : ∀ st, (cg s s.hooks store p = .returned st ∨ cg s s.hooks store p = .convergence st) →
      CgLoop a.ip a.M (a.Ml ∘ₗ a.A ∘ₗ a.Mr) a.Mr (LinearMap.range (a.Ml ∘ₗ a.A ∘ₗ a.Mr))
        (a.Ml (a.b - a.A (p.x0.getD 0))) (p.x0.getD 0) store .ok (resid a 0) st ∧ (∃ x, st.xk = some x) := by
    intro st hrun
    rw [e] at hrun
    obtain ⟨h1, h2, -⟩ := cgRun_spec hH (cfg := mkCfg s p) htol (hnb hb) hres hrun
    rw [hn] at h1
    exact ⟨h1, h2⟩
  refine ⟨?_, fun st hrun => ?_, fun hfd hN => ?_⟩
  · rw [e] at hf ⊢
    have ht := cgRun_total (store := store) (maxiter := p.maxiter) hH (cfg := mkCfg s p) htol (hnb hb) hres
      (fun x => ⟨x, rfl⟩) hrt het
    match hrun : run (mkCfg s p) (cgMethod a.ip a.M (a.Ml ∘ₗ a.A ∘ₗ a.Mr) a.Mr .ok store p.maxiter) (p.x0.getD 0) _
        (cgInit _ _ _) .ok with
    | .returned st => exact ⟨st, Or.inl rfl⟩
    | .convergence st => exact ⟨st, Or.inr rfl⟩
    | .raised e => exact absurd hrun (ht e)
    | .outOfFuel => exact absurd hrun hf
  · obtain ⟨hl, x, hx⟩ := hspec st hrun
    have hlen := hl.len
    refine ⟨?_, hl.warn, fun i hi => ⟨?_, hl.inv.ys_mem hH i (by omega), fun ystar hy z hz => ?_⟩⟩
    · rw [hx, hlen, Nat.add_sub_cancel]
      have := hl.xk x hx
      rw [← Except.ok.inj this]
    · rw [hl.resn i hi]
      unfold resid
      congr 1
      simp only [LinearMap.comp_apply, map_add, map_sub]
      abel
    · refine hl.inv.optimal hH (ystar := ystar) ?_ i (by omega) z hz
      simp only [LinearMap.comp_apply, map_sub, ← hy, map_add]
      abel
  · obtain ⟨st, h1, h2⟩ := cgRun_terminates (store := store) hH (cfg := mkCfg s p) htol (hnb hb) hres
      (fun x => ⟨x, rfl⟩) hrt het hN rfl
    rw [← e] at h1
    refine ⟨st, h1, h2, ?_⟩
    obtain ⟨hl, -⟩ := hspec st (Or.inl h1)
    rw [hl.len]
    suffices st.s.k ≤ sysRank a by omega
    have hli : LinearIndependent 𝕜 (fun i : Fin st.s.k => st.s.rs i) := by
      rw [Fintype.linearIndependent_iff]
      intro c hc i
      have h1 : gform a.ip a.M (st.s.rs i) (∑ j : Fin st.s.k, c j • st.s.rs j) =
          c i * gform a.ip a.M (st.s.rs i) (st.s.rs i) := by
        rw [hH.prec.sum_right, Finset.sum_eq_single i]
        · rw [hH.prec.smul_right]
        · intro j _ hji
          rw [hH.prec.smul_right, hl.inv.orth i (by omega) j (by omega)
            (fun h => hji (Fin.ext h.symm)), mul_zero]
        · simp
      rw [hc, hH.prec.zero_right] at h1
      refine (mul_eq_zero.mp h1.symm).resolve_right ?_
      rw [hH.prec.self_real, ← hl.inv.rho i (by omega)]
      exact_mod_cast hl.inv.rho_ne i (by omega)
    have hliQ : LinearIndependent 𝕜 (fun i : Fin st.s.k =>
        (⟨st.s.rs i, hl.inv.mem i (by omega)⟩ : LinearMap.range (a.Ml ∘ₗ a.A ∘ₗ a.Mr))) :=
      LinearIndependent.of_comp (Submodule.subtype _) hli
    simpa [sysRank] using hliQ.fintype_card_le_finrank

/-! ## The condition on the index is necessary -/

theorem arnAdvance_zero_product {c : ArnCfg 𝕜 E} (hc : ArnHyp c) {v : E} {s : Arn 𝕜 E} (h : ArnReach c v s)
    (hi : s.iter = 0) (hni : s.invariant = false) (hm : 0 < c.maxiter) (hA : c.A (c.Mop v) = 0) :
    arnAdvance c s = .error .nonFinite := by
  have inv := h.inv hc
  have core := inv.live hni
  have hAV : c.A (s.V 0) = 0 := by
    have hr0 : (s.vnorm : 𝕜) ≠ 0 := by simpa using core.vpos.ne'
    have : (s.vnorm : 𝕜) • c.A (s.V 0) = 0 := by
      rw [core.VM 0 (by omega), ← map_smul, ← map_smul, core.start, hA]
    exact (smul_eq_zero.mp this).resolve_left hr0
  rw [arnAdvance_eq hc inv (by omega) hni, if_pos]
  rw [specNorm_eq_zero]
  intro i hi' j hj
  rw [hi] at hi' hj
  obtain rfl : j = 0 := by omega
  have hrem : remainder c s = 0 := by
    simp [remainder, hi, hAV, hc.inner.zero_right]
  rcases Nat.lt_or_ge i 1 with h1 | h1
  · obtain rfl : i = 0 := by omega
    have := newH_col hc (s := s) (i := 0) (by omega)
    rw [hi] at this
    rw [this, hAV, hc.inner.zero_right]
  · obtain rfl : i = 1 := by omega
    have := newH_sub hc (s := s)
    rw [hi] at this
    rw [this, hrem, hc.inner.nrm_eq_zero.mpr rfl]
    simp

/-- C67 (finding): whenever the preconditioned initial residual lies in the kernel of `Ml A Mr` and is above the
tolerance, the first iteration of `Gmres` computes `0/0`: the zero matrix `H` has norm zero, the invariance test is not
passed and the next basis vector is NaN. -/
theorem C67_null_residual {a : LSArgs 𝕜 E} {ortho : Ortho} (h : GmresHyp a ortho) {s : LS 𝕜 E} (hs : mkLS a = .ok s)
    (p : SolverArgs E) (ht0 : 0 ≤ p.tol) (hb : a.Ml a.b ≠ 0) (htol : p.tol * resid a 0 < resid a (p.x0.getD 0))
    (hmax : 0 < p.maxiter) (hnull : a.Ml (a.A (a.Mr (a.M (a.Ml (a.b - a.A (p.x0.getD 0)))))) = 0) :
    gmres s s.hooks ortho p = .raised .nonFinite := by
  obtain ⟨s', hs', ok, -⟩ := mkLS_ok h.ls
  rw [hs] at hs'
  obtain rfl := Except.ok.inj hs'
  obtain ⟨arn, hr, ha, h0⟩ := gmres_setup ok h p
  have hM : (s.arnCfg s.hooks p.maxiter ortho).Mop = a.M := by simp [LS.arnCfg, ArnCfg.Mop, ok.M]
  have hA : (s.arnCfg s.hooks p.maxiter ortho).A = a.Ml ∘ₗ a.A ∘ₗ a.Mr := by
    simp only [LS.arnCfg, LS.hooks, ok.op_eq]
  have hg : (s.arnCfg s.hooks p.maxiter ortho).g = fun x y => a.ip x (a.M y) := by
    funext x y
    simp [ArnCfg.g, LS.arnCfg, ArnCfg.Mop, ok.M, ok.ip]
  have hproc := ArnReach.proc (ok.arnHyp h p.maxiter) (a.Ml (a.b - a.A (p.x0.getD 0)))
  have hni : arn.invariant = false := by
    rw [Bool.eq_false_iff]
    intro hi
    have hv := (hproc.facts ha).start hi h0
    have : resid a (p.x0.getD 0) = 0 := by
      unfold resid
      rw [hv]
      exact h.ls.prec.nrm_eq_zero.mpr rfl
    rw [this] at htol
    have := mul_nonneg ht0 (IsInner.resid_nonneg a 0)
    linarith
  have hadv : arnAdvance (s.arnCfg s.hooks p.maxiter ortho) arn = .error .nonFinite := by
    refine arnAdvance_zero_product (ok.arnHyp h p.maxiter) ha h0 hni hmax ?_
    rw [hM, hA]
    exact hnull
  rw [hr]
  refine run_first_error ok hb htol hmax ?_ ?_ ?_
  · simp [gmresMethod, gmresInit, h0, hni, hmax]
  · simp [gmresMethod, gmresStep, gmresInit, hadv]
  · rw [hg]; rfl

/-- C67: the condition on the index is exactly what is needed: `Gmres` with zero initial guess raises nothing (but
possibly `ConvergenceError`) for *all* consistent right hand sides if and only if the operator has index at most one. -/
theorem C67_index_iff {a : LSArgs 𝕜 E} {ortho : Ortho} (h : GmresHyp a ortho) (p : SolverArgs E) (hx0 : p.x0 = none)
    (ht0 : 0 ≤ p.tol) (ht1 : p.tol < 1) (hmax : 0 < p.maxiter) :
    IndexOne a ↔ ∀ z s, a.Ml (a.A (a.Mr z)) ≠ 0 → mkLS { a with b := a.A (a.Mr z) } = .ok s →
      ∃ st, gmres s s.hooks ortho p = .returned st ∨ gmres s s.hooks ortho p = .convergence st := by
  have hyp : ∀ b, GmresHyp { a with b := b } ortho := fun b => ⟨h.ls, h.sa⟩
  constructor
  · intro hidx z s hz hs
    exact (C67_gmres (hyp _) hs p ht0 hz hidx ⟨z, by simp [hx0]⟩).1
  · intro hall x hx
    by_contra hne
    obtain ⟨s, hs, -⟩ := mkLS_ok (hyp (a.A (a.Mr x))).ls
    obtain ⟨st, hst⟩ := hall x s hne hs
    have hpos : 0 < resid { a with b := a.A (a.Mr x) } 0 := by
      refine lt_of_le_of_ne (nrm_nonneg _ _) fun h0 => hne ?_
      have := h.ls.prec.nrm_eq_zero.mp h0.symm
      simpa using this
    have := C67_null_residual (hyp (a.A (a.Mr x))) hs p ht0 hne (by
      rw [hx0, Option.getD_none]
      nlinarith) hmax (by simpa [hx0] using hx)
    rw [this] at hst
    simp at hst

/-! ## Inconsistent systems -/

section driver
variable {F X S : Type*} [LE F] [LT F] [DecidableLE F] [DecidableLT F] [Div F]

/-- Where an exception comes from. -/
theorem loop_raised {cfg : Cfg F X} {m : Method F X S} (P : St F X S → Prop)
    (hstep : ∀ st st', P st → loopGuard cfg m st = true → body cfg m st = .ok st' → P st') {e : Err}
    (fuel : ℕ) (st : St F X S) (h0 : P st) (h : loop cfg m fuel st = .raised e) :
    ∃ st, P st ∧ ((loopGuard cfg m st = true ∧ body cfg m st = .raised e) ∨
      (loopGuard cfg m st = false ∧ finish m st = .raised e)) := by
  induction fuel generalizing st with
  | zero =>
    unfold loop at h
    cases hg : loopGuard cfg m st
    · exact ⟨st, h0, Or.inr ⟨hg, by simpa [hg] using h⟩⟩
    · simp [hg] at h
  | succ n ih =>
    unfold loop at h
    cases hg : loopGuard cfg m st
    · exact ⟨st, h0, Or.inr ⟨hg, by simpa [hg] using h⟩⟩
    · simp only [hg, if_true] at h
      cases hb : body cfg m st with
      | raised e' =>
        rw [hb] at h
        exact ⟨st, h0, Or.inl ⟨hg, by rw [hb]; simpa using h⟩⟩
      | convergence st1 => simp [hb] at h
      | ok st1 =>
        rw [hb] at h
        exact ih st1 (hstep st st1 h0 hg hb) h

/-- An exception in an iteration comes from the step or from the computation of the iterate. -/
theorem body_raised {cfg : Cfg F X} {m : Method F X S} {st : St F X S}
    (hr : ∀ x, ∃ v, cfg.resNorm x = .ok v)
    (he : ∀ en, cfg.errNorm = some en → ∀ x, ∃ v, en x = .ok v) {e : Err} (h : body cfg m st = .raised e) :
    m.step st.s = .error e ∨ ∃ s' r, m.step st.s = .ok (s', r) ∧ m.getXk s' = .error e := by
  cases hs : m.step st.s with
  | error e' =>
    unfold body at h
    dsimp only at h
    rw [hs] at h
    simp only [Res3.raised.injEq] at h
    rw [h]
    exact Or.inl rfl
  | ok q =>
    obtain ⟨s', r⟩ := q
    cases hx : m.getXk s' with
    | ok x => exact absurd h (body_not_raised hs hx hr he e)
    | error e' =>
      refine Or.inr ⟨s', r, rfl, ?_⟩
      rw [hx]
      unfold body at h
      dsimp only at h
      rw [hs] at h
      dsimp only at h
      rw [hx] at h
      unfold finalizeIteration withErr at h
      dsimp only at h
      cases hen : cfg.errNorm with
      | none =>
        rw [hen] at h
        dsimp only at h
        split_ifs at h <;> (dsimp only at h; simpa using h)
      | some en =>
        rw [hen] at h
        simpa using h

end driver

/-- A state of GMRES with nonsingular `R` for an inconsistent system has fewer steps than the dimension. -/
theorem gmres_inconsistent_iter [FiniteDimensional 𝕜 E] {g : E → E → 𝕜} {A M : E →ₗ[𝕜] E} {maxiter : ℕ} {v x0 : E}
    {adv : Arn 𝕜 E → Except Err (Arn 𝕜 E)} {Inv : Arn 𝕜 E → Prop} {β : ℝ} {s : GmresSt 𝕜 E}
    (hp : ArnProc g A M maxiter v adv Inv) (inv : GmresInv Inv β x0 s) (hd : ∀ j < s.arn.iter, s.R j j ≠ 0)
    (hv : ∀ z, A z ≠ v) : s.arn.iter < Module.finrank 𝕜 E := by
  by_contra hcon
  have hF := hp.facts inv.arn
  have hli : LinearIndependent 𝕜 (fun i : Fin s.arn.iter => s.arn.V i) := by
    rw [Fintype.linearIndependent_iff]
    intro c hc i
    have := hF.indep (fun j => if h : j < s.arn.iter then c ⟨j, h⟩ else 0) (by
      rw [Finset.sum_range]
      simpa using hc) i i.2
    simpa using this
  have htop : spanTo (𝕜 := 𝕜) s.arn.V s.arn.iter = ⊤ := by
    apply Submodule.eq_top_of_finrank_eq
    have h1 := finrank_span_eq_card hli
    have h2 : Submodule.span 𝕜 (Set.range fun i : Fin s.arn.iter => s.arn.V i) =
        spanTo (𝕜 := 𝕜) s.arn.V s.arn.iter := by
      apply le_antisymm
      · rw [Submodule.span_le]
        rintro _ ⟨i, rfl⟩
        exact mem_spanTo i.2
      · rw [spanTo_le]
        intro i hi
        exact Submodule.subset_span ⟨⟨i, hi⟩, rfl⟩
    rw [h2, Fintype.card_fin] at h1
    have h3 := Submodule.finrank_le (spanTo (𝕜 := 𝕜) s.arn.V s.arn.iter)
    omega
  have hinj : Function.Injective A := by
    rw [← LinearMap.ker_eq_bot, LinearMap.ker_eq_bot']
    intro x hx
    have hxm : x ∈ spanTo (𝕜 := 𝕜) s.arn.V s.arn.iter := by rw [htop]; trivial
    obtain ⟨u, rfl⟩ := mem_spanTo_iff.mp hxm
    have h1 := gmres_homogeneous hp inv u
    rw [hx, hp.inner.nsq_eq_zero.mpr rfl] at h1
    have h2 := (Finset.sum_eq_zero_iff_of_nonneg (fun i _ => sq_nonneg _)).mp h1.symm
    -- back substitution
    have h3 : ∀ m j, j < s.arn.iter → s.arn.iter ≤ j + 1 + m → u j = 0 := by
      intro m
      induction m with
      | zero =>
        intro j hj hm
        have h4 := h2 j (Finset.mem_range.mpr hj)
        rw [Finset.sum_eq_single j] at h4
        · exact (mul_eq_zero.mp (by simpa using h4)).resolve_left (hd j hj)
        · intro i hi hij
          rw [Finset.mem_range] at hi
          rw [inv.qr.upper (by omega) (by omega), zero_mul]
        · intro hn; exact absurd (Finset.mem_range.mpr hj) hn
      | succ m ih =>
        intro j hj hm
        have h4 := h2 j (Finset.mem_range.mpr hj)
        rw [Finset.sum_eq_single j] at h4
        · exact (mul_eq_zero.mp (by simpa using h4)).resolve_left (hd j hj)
        · intro i hi hij
          rw [Finset.mem_range] at hi
          rcases lt_or_gt_of_ne hij with hlt | hgt
          · rw [inv.qr.upper (by omega) hlt, zero_mul]
          · rw [ih i hi (by omega), mul_zero]
        · intro hn; exact absurd (Finset.mem_range.mpr hj) hn
    refine Finset.sum_eq_zero fun j hj => ?_
    rw [h3 s.arn.iter j (Finset.mem_range.mp hj) (by omega), zero_smul]
  obtain ⟨z, hz⟩ := (LinearMap.injective_iff_surjective.mp hinj) v
  exact hv z hz

/-- C67: for an inconsistent system whose least residual norm is above the tolerance, `Gmres` with `maxiter ≥ dim`
raises `LinAlgError` (a singular triangular matrix) or computes NaN; `ConvergenceError` is never raised, and the only way to return
is an invariance flag of the threshold with a nonzero entry of `H` below the diagonal. -/
theorem C67_inconsistent [FiniteDimensional 𝕜 E] {a : LSArgs 𝕜 E} {ortho : Ortho} (h : GmresHyp a ortho) {s : LS 𝕜 E}
    (hs : mkLS a = .ok s) (p : SolverArgs E) (htol : 0 ≤ p.tol) (hb : a.Ml a.b ≠ 0)
    (hdist : ∀ z, p.tol * resid a 0 < resid a (p.x0.getD 0 + a.Mr z)) (hN : Module.finrank 𝕜 E ≤ p.maxiter) :
    gmres s s.hooks ortho p = .raised .linAlgError ∨ gmres s s.hooks ortho p = .raised .nonFinite ∨
    ∃ st, gmres s s.hooks ortho p = .returned st ∧ st.s.arn.invariant = true ∧
      ∃ k, st.s.arn.iter = k + 1 ∧ st.s.arn.H (k + 1) k ≠ 0 := by
  have hf := (C22_gmres s s.hooks ortho p).fuel
  obtain ⟨s', hs', ok, -⟩ := mkLS_ok h.ls
  rw [hs] at hs'
  obtain rfl := Except.ok.inj hs'
  obtain ⟨arn, hr, ha, h0⟩ := gmres_setup ok h p
  have hnb := ok.nb_pos p hb
  have hA : (s.arnCfg s.hooks p.maxiter ortho).A = a.Ml ∘ₗ a.A ∘ₗ a.Mr := by
    simp only [LS.arnCfg, LS.hooks, ok.op_eq]
  have hproc := ArnReach.proc (ok.arnHyp h p.maxiter) (a.Ml (a.b - a.A (p.x0.getD 0)))
  have hres := ok.hres ortho p (p.x0.getD 0)
  have hd' : ∀ z, p.tol * resid a 0 < nrm (s.arnCfg s.hooks p.maxiter ortho).g
      (a.Ml (a.b - a.A (p.x0.getD 0)) - (s.arnCfg s.hooks p.maxiter ortho).A z) := by
    intro z
    have h1 := hres z _ rfl
    rw [ok.resNorm, ok.Mr] at h1
    rw [← Except.ok.inj h1]
    exact hdist z
  have hpos : 0 ≤ p.tol * resid a 0 := mul_nonneg htol (IsInner.resid_nonneg a 0)
  have hv : ∀ z, (s.arnCfg s.hooks p.maxiter ortho).A z ≠ a.Ml (a.b - a.A (p.x0.getD 0)) := by
    intro z hz
    have := hd' z
    rw [hz, sub_self, hproc.inner.nrm_eq_zero.mpr rfl] at this
    linarith
  have hlaw : LawfulMethod (gmresMethod (arnAdvance (s.arnCfg s.hooks p.maxiter ortho)) s.Mr
      (.ok : E → Except Err E) p.maxiter) (mkCfg s p).maxiter :=
    gmresMethod_lawful s.Mr .ok p.maxiter fun _ _ h => arnAdvance_iter h
  rw [hr] at hf ⊢
  have hspec := fun (st : St ℝ E (GmresSt 𝕜 E)) hrun => gmresRun_spec hproc (cfg := mkCfg s p) (Mr := s.Mr)
    (post := .ok) (x0 := p.x0.getD 0) htol hnb hres ha h0 (st := st) (xk0 := .ok) hrun
  set nv := nrm (s.arnCfg s.hooks p.maxiter ortho).g (a.Ml (a.b - a.A (p.x0.getD 0))) with hnv
  have hk0 : ∀ x, (gmresMethod (arnAdvance (s.arnCfg s.hooks p.maxiter ortho)) s.Mr
      (.ok : E → Except Err E) p.maxiter).k (gmresInit arn nv x) = 0 := fun _ => h0
  have hbig : ∀ st : St ℝ E (GmresSt 𝕜 E), (run (mkCfg s p) (gmresMethod (arnAdvance (s.arnCfg s.hooks p.maxiter ortho))
      s.Mr .ok p.maxiter) (p.x0.getD 0) nv (gmresInit arn nv) .ok = .returned st ∨
      run (mkCfg s p) (gmresMethod (arnAdvance (s.arnCfg s.hooks p.maxiter ortho))
      s.Mr .ok p.maxiter) (p.x0.getD 0) nv (gmresInit arn nv) .ok = .convergence st) →
      st.s.arn.iter < p.maxiter ∧ ∃ r, st.resnorms.getLast? = some r ∧ p.tol < r := by
    intro st hrun
    obtain ⟨hsp, hinv, hd, x, -, z, -, -, hatt⟩ := hspec st hrun
    have hlen := hsp.len
    refine ⟨lt_of_lt_of_le (gmres_inconsistent_iter hproc hinv hd hv) hN, st.resnorms[st.s.arn.iter]'(by omega), ?_, ?_⟩
    · rw [List.getLast?_eq_getElem?, show st.resnorms.length - 1 = st.s.arn.iter by omega,
        List.getElem?_eq_getElem (by omega)]
    · have h1 := hatt (by omega)
      have h2 := hd' z
      rw [h1, ok.nb] at h2
      rw [ok.nb] at hnb
      exact lt_of_mul_lt_mul_right h2 hnb.le
  cases hrun : run (mkCfg s p) (gmresMethod (arnAdvance (s.arnCfg s.hooks p.maxiter ortho)) s.Mr .ok p.maxiter)
      (p.x0.getD 0) nv (gmresInit arn nv) .ok with
  | outOfFuel => exact absurd hrun hf
  | convergence st =>
    exfalso
    obtain ⟨hlt, -⟩ := hbig st (Or.inr hrun)
    obtain ⟨st1, hR, hg, hb⟩ := (run_inv hlaw hk0).2 st hrun
    obtain ⟨s', r, x, w, b1, b2, b3, b4, b5, b6, b7, b8, b9, b10, -⟩ := body_convergence hb
    have := hlaw.step_k b1
    rw [b2] at hlt
    change s'.arn.iter = st1.s.arn.iter + 1 at this
    change st1.s.arn.iter + 1 = p.maxiter at b10
    omega
  | returned st =>
    refine Or.inr (Or.inr ⟨st, rfl, ?_⟩)
    obtain ⟨hlt, r, hlast, hr'⟩ := hbig st (Or.inl hrun)
    obtain ⟨hsp, hinv, hd, -⟩ := hspec st (Or.inl hrun)
    obtain ⟨st1, hR, hg, hf⟩ := (run_inv hlaw hk0).1 st hrun
    obtain ⟨f1, f2, f3, f4, f5, f6⟩ := finish_returned hf
    have hinvar : st.s.arn.invariant = true := by
      by_contra hni
      have hni' : st.s.arn.invariant = false := by simpa using hni
      have : loopGuard (mkCfg s p) (gmresMethod (arnAdvance (s.arnCfg s.hooks p.maxiter ortho)) s.Mr
          (.ok : E → Except Err E) p.maxiter) st1 = true := by
        simp only [loopGuard, gmresMethod, ← f1, ← f3, hlast, Bool.and_eq_true, decide_eq_true_eq,
          Bool.not_eq_true', Option.any_some]
        exact ⟨hr', hlt, hni'⟩
      rw [this] at hg
      simp at hg
    refine ⟨hinvar, ?_⟩
    have hit : st.s.arn.iter ≠ 0 := by
      intro h0
      exact hv 0 (by rw [map_zero, (hproc.facts hinv.arn).start hinvar h0])
    obtain ⟨k, hk⟩ := Nat.exists_eq_succ_of_ne_zero hit
    refine ⟨k, hk, fun hzero => ?_⟩
    have hy := gmres_exact hproc hinv hk (hd k (by omega)) hzero
    obtain ⟨z, hz, -, hzr, -⟩ := gmres_optimal hproc hinv hd s.Mr .ok
    have := hd' z
    rw [hzr, hy, norm_zero] at this
    linarith
  | raised e =>
    have hz : ((mkCfg s p).MMlbNorm == 0) = false := by simpa using hnb.ne'
    have hinit : ∃ l, initErr (mkCfg s p) (.ok (p.x0.getD 0)) = .ok l := by
      unfold initErr
      cases hen : (mkCfg s p).errNorm with
      | none => exact ⟨_, rfl⟩
      | some en =>
        obtain ⟨y, hy⟩ := ok.errNorm p en hen (p.x0.getD 0)
        simp only [hy]
        exact ⟨_, rfl⟩
    obtain ⟨errnorms, he⟩ := hinit
    have hxk : ∀ (q : GmresSt 𝕜 E) e, gmresXk s.Mr (.ok : E → Except Err E) q = .error e → e = .linAlgError := by
      intro q e hq
      unfold gmresXk at hq
      dsimp only at hq
      split at hq
      · split at hq
        · next hh =>
          unfold solveUpper at hh
          split at hh
          · rw [← Except.error.inj hq, ← Except.error.inj hh]
          · simp at hh
        · simp at hq
      · simp at hq
    unfold run at hrun
    simp only [hz, Bool.false_eq_true, if_false, he] at hrun
    obtain ⟨st, hl, hor⟩ := loop_raised (GmresLoop (s.arnCfg s.hooks p.maxiter ortho).g (s.arnCfg s.hooks p.maxiter ortho).A
      (s.arnCfg s.hooks p.maxiter ortho).Mop s.Mr (a.Ml (a.b - a.A (p.x0.getD 0)))
      (ArnReach (s.arnCfg s.hooks p.maxiter ortho) (a.Ml (a.b - a.A (p.x0.getD 0)))) .ok (p.x0.getD 0)
      (mkCfg s p).MMlbNorm)
      (fun st st' h1 _ h3 => gmresLoop_body hproc htol hnb hres h1 h3) (mkCfg s p).maxiter _
      (gmresLoop_init hproc htol hnb hres ha h0 errnorms) hrun
    rcases hor with ⟨hg, hb⟩ | ⟨hg, hfin⟩
    · have hmore : st.s.arn.iter < p.maxiter ∧ st.s.arn.invariant = false := by
        simp only [loopGuard, gmresMethod, Bool.and_eq_true, decide_eq_true_eq, Bool.not_eq_true'] at hg
        exact hg.2
      rcases body_raised (fun x => ⟨_, ok.resNorm p x⟩) (ok.errNorm p) hb with h1 | ⟨s', r, -, h1⟩
      · change gmresStep _ st.s = _ at h1
        unfold gmresStep at h1
        rcases hproc.total hl.inv.arn hmore.1 hmore.2 with ⟨q, hq⟩ | ⟨hq, -⟩
        · rw [hq] at h1
          simp at h1
        · rw [hq] at h1
          have : e = .nonFinite := by simpa using h1.symm
          rw [this]
          exact Or.inr (Or.inl rfl)
      · rw [hxk _ _ h1]
        exact Or.inl rfl
    · unfold finish at hfin
      split at hfin
      · simp at hfin
      · split at hfin
        · next e' he' =>
          have : e' = e := by simpa using hfin
          rw [← this, hxk _ _ he']
          exact Or.inl rfl
        · simp at hfin

/-- C67: for inconsistent self-adjoint systems `Minres` with `maxiter ≥ dim` computes NaN (a division by the zero
diagonal entry of the triangular factor), unless an invariance flag of the threshold stops it early; it never raises
`ConvergenceError` and never returns a solution with a residual norm below the tolerance. -/
theorem C67_minres_inconsistent [FiniteDimensional 𝕜 E] {a : LSArgs 𝕜 E} (h : MinresHyp a) {s : LS 𝕜 E}
    (hs : mkLS a = .ok s) (ortho : Ortho) (p : SolverArgs E) (htol : 0 ≤ p.tol) (hb : a.Ml a.b ≠ 0)
    (hdist : ∀ z, p.tol * resid a 0 < resid a (p.x0.getD 0 + a.Mr z)) (hN : Module.finrank 𝕜 E ≤ p.maxiter) :
    minres s s.hooks ortho p = .raised .nonFinite ∨
    ∃ st, minres s s.hooks ortho p = .returned st ∧ st.s.arn.invariant = true ∧
      ∃ k, st.s.arn.iter = k + 1 ∧ st.s.arn.H (k + 1) k ≠ 0 := by
  have hf := (C22_minres s s.hooks ortho p).fuel
  have hg := C67_inconsistent (h.gmres ortho) hs p htol hb hdist hN
  obtain ⟨hret, hcon⟩ := C29_eq_gmres h hs ortho p
  cases hrun : minres s s.hooks ortho p with
  | outOfFuel => exact absurd hrun hf
  | convergence st =>
    obtain ⟨b, hb', -⟩ := hcon st hrun
    rw [hb'] at hg
    simp at hg
  | returned st =>
    obtain ⟨b, hb', hba⟩ := hret st hrun
    rw [hb'] at hg
    rcases hg with hg | hg | ⟨st', hst', h1⟩
    · simp at hg
    · simp at hg
    · obtain rfl := Outcome.returned.inj hst'
      refine Or.inr ⟨st, rfl, ?_⟩
      rw [← hba]
      exact h1
  | raised e =>
    left
    obtain ⟨s', hs', ok, -⟩ := mkLS_ok h.ls
    rw [hs] at hs'
    obtain rfl := Except.ok.inj hs'
    obtain ⟨adv, Inv, arn, β, g, A, M, v, e1, -, hp, -, ha, -, -, -⟩ := minres_setup_full h hs ortho p
    rw [e1] at hrun
    have hz : ((mkCfg s p).MMlbNorm == 0) = false := by simpa using (ok.nb_pos p hb).ne'
    have hinit : ∃ l, initErr (mkCfg s p) (.ok (p.x0.getD 0)) = .ok l := by
      unfold initErr
      cases hen : (mkCfg s p).errNorm with
      | none => exact ⟨_, rfl⟩
      | some en =>
        obtain ⟨y, hy⟩ := ok.errNorm p en hen (p.x0.getD 0)
        simp only [hy]
        exact ⟨_, rfl⟩
    obtain ⟨errnorms, he⟩ := hinit
    unfold run at hrun
    simp only [hz, Bool.false_eq_true, if_false, he] at hrun
    obtain ⟨st, hl, hor⟩ := loop_raised (fun st => Inv st.s.arn) (fun st st' h1 _ h3 => by
      obtain ⟨s', r, rkn, hs', hpost, -⟩ := body_ok h3
      rw [hpost]
      change Inv s'.arn
      change minresStep adv p.maxiter st.s = _ at hs'
      unfold minresStep at hs'
      dsimp only at hs'
      generalize (if st.s.arn.iter = 0 then p.maxiter else st.s.arn.iter - 1) = i0 at hs'
      split at hs'
      · simp at hs'
      · next q hq =>
        split at hs'
        · simp at hs'
        · have : s'.arn = q := congrArg (fun t => t.1.arn) (Except.ok.inj hs').symm
          rw [this]
          exact (hp.step h1 hq).1) (mkCfg s p).maxiter _ (by exact ha) hrun
    rcases hor with ⟨hg, hb⟩ | ⟨hg, hfin⟩
    · have hmore : st.s.arn.iter < p.maxiter ∧ st.s.arn.invariant = false := by
        simp only [loopGuard, minresMethod, Bool.and_eq_true, decide_eq_true_eq, Bool.not_eq_true'] at hg
        exact hg.2
      rcases body_raised (fun x => ⟨_, ok.resNorm p x⟩) (ok.errNorm p) hb with h1 | ⟨s', r, -, h1⟩
      · change minresStep adv p.maxiter st.s = _ at h1
        unfold minresStep at h1
        dsimp only at h1
        generalize (if st.s.arn.iter = 0 then p.maxiter else st.s.arn.iter - 1) = i0 at h1
        rcases hp.total hl hmore.1 hmore.2 with ⟨q, hq⟩ | ⟨hq, -⟩
        · rw [hq] at h1
          dsimp only at h1
          split at h1
          · rw [← Except.error.inj h1]
          · simp at h1
        · rw [hq] at h1
          rw [← Except.error.inj h1]
      · simp [minresMethod, minresXk] at h1
    · unfold finish at hfin
      split at hfin
      · simp at hfin
      · simp [minresMethod, minresXk] at hfin

/-- C67 (finding): `Cg` does not check that the operator is positive definite: if the curvature `⟨p, Ml A Mr p⟩` of the
first direction vanishes, as it may for indefinite and for inconsistent semidefinite systems, it divides by zero. -/
theorem C67_cg_breakdown {a : LSArgs 𝕜 E} (h : LSHyp a.ip a.M) {s : LS 𝕜 E} (hs : mkLS a = .ok s) (store : Bool)
    (p : SolverArgs E) (hb : a.Ml a.b ≠ 0) (htol : p.tol * resid a 0 < resid a (p.x0.getD 0)) (hmax : 0 < p.maxiter)
    (hnull : a.ip (a.M (a.Ml (a.b - a.A (p.x0.getD 0))))
      (a.Ml (a.A (a.Mr (a.M (a.Ml (a.b - a.A (p.x0.getD 0))))))) = 0) :
    cg s s.hooks store p = .raised .nonFinite := by
  obtain ⟨e, -⟩ := cg_setup_ls h hs store p
  obtain ⟨s', hs', ok, -⟩ := mkLS_ok h
  rw [hs] at hs'
  obtain rfl := Except.ok.inj hs'
  rw [e]
  refine run_first_error ok hb htol hmax ?_ ?_ rfl
  · simp [cgMethod, cgInit, hmax]
  · simp only [cgMethod, cgStep]
    have hd : cgDir (cgInit (𝕜 := 𝕜) (a.M (a.Ml (a.b - a.A (p.x0.getD 0)))) (a.Ml (a.b - a.A (p.x0.getD 0)))
        (nrm (gform a.ip a.M) (a.Ml (a.b - a.A (p.x0.getD 0)))) (p.x0.getD 0)) =
        .ok (a.M (a.Ml (a.b - a.A (p.x0.getD 0)))) := by
      simp [cgDir, cgInit]
    rw [hd]
    dsimp only
    rw [if_pos]
    simpa using hnull

/-! ## Examples -/

/-- `A = diag(1, 0)`. -/
noncomputable def exSing (b : ℝ × ℝ) : LSArgs ℝ (ℝ × ℝ) where
  A := LinearMap.prodMap LinearMap.id 0
  b := b
  M := LinearMap.id
  Ml := LinearMap.id
  Mr := LinearMap.id
  ip := exCfg.ip
  normal := none
  selfAdjoint := true
  positiveDefinite := false

theorem exSing_psd (b : ℝ × ℝ) : PsdHyp (exSing b) where
  ls := ⟨exCfg_hyp.ls.inner, exCfg_hyp.ls.inner⟩
  sa x y := by simp [exSing, exCfg]
  nonneg x := by simp [exSing, exCfg]; exact mul_self_nonneg _

theorem exSing_minres (b : ℝ × ℝ) : MinresHyp (exSing b) := ⟨(exSing_psd b).ls, (exSing_psd b).sa⟩

/-- Non-vacuity of `C67_gmres`, `C67_minres` and `C67_cg`: `diag(1, 0)` with `b = (1, 0)`, `x0 = (0, 7)` and one
iteration. -/
example (o : Ortho) (store : Bool) : ∃ s, mkLS (exSing (1, 0)) = .ok s ∧
    (∃ st, gmres s s.hooks o ⟨some (0, 7), 0, 1, false, none⟩ = .returned st) ∧
    (∃ st, minres s s.hooks o ⟨some (0, 7), 0, 1, false, none⟩ = .returned st) ∧
    (∃ st, cg s s.hooks store ⟨some (0, 7), 0, 1, false, none⟩ = .returned st ∧ st.resnorms.getLast? = some 0 ∧
      st.resnorms.length = 2) := by
  obtain ⟨s, hs, ok, -⟩ := mkLS_ok (exSing_psd (1, 0)).ls
  have hb : (exSing (1, 0)).Ml (exSing (1, 0)).b ≠ 0 := by simp [exSing]
  have hc : Consistent (exSing (1, 0)) ((⟨some (0, 7), 0, 1, false, none⟩ : SolverArgs (ℝ × ℝ)).x0.getD 0) :=
    ⟨(1, 0), by simp [exSing]⟩
  have hrank : sysRank (exSing (1, 0)) ≤ 1 := by
    have : LinearMap.range ((exSing (1, 0)).Ml ∘ₗ (exSing (1, 0)).A ∘ₗ (exSing (1, 0)).Mr) ≤
        Submodule.span ℝ {((1, 0) : ℝ × ℝ)} := by
      rintro _ ⟨x, rfl⟩
      rw [Submodule.mem_span_singleton]
      exact ⟨x.1, by simp [exSing]⟩
    exact (Submodule.finrank_mono this).trans (finrank_span_singleton (K := ℝ) (by simp)).le
  obtain ⟨st1, h1, -⟩ := (C67_gmres ((exSing_minres (1, 0)).gmres o) hs ⟨some (0, 7), 0, 1, false, none⟩ le_rfl hb
    (exSing_minres (1, 0)).indexOne hc).2 inferInstance hrank
  obtain ⟨st2, h2, -⟩ := (C67_minres (exSing_minres (1, 0)) hs o ⟨some (0, 7), 0, 1, false, none⟩ le_rfl hb
    hc).2 inferInstance hrank
  obtain ⟨-, hopt, hcg⟩ := C67_cg (exSing_psd (1, 0)) hs store ⟨some (0, 7), 0, 1, false, none⟩ le_rfl hb hc
  obtain ⟨st3, h3, ⟨r, hr, hr'⟩, hlen⟩ := hcg inferInstance hrank
  refine ⟨s, hs, ⟨st1, h1⟩, ⟨st2, h2⟩, st3, h3, ?_, ?_⟩
  all_goals
    obtain ⟨-, -, hi⟩ := hopt st3 (Or.inl h3)
    have hne : st3.resnorms ≠ [] := by intro h0; simp [h0] at hr
    have hpos := List.length_pos_of_ne_nil hne
    rw [List.getLast?_eq_getElem?, List.getElem?_eq_getElem (by omega)] at hr
    have hr0 : resid (exSing (1, 0)) 0 = 1 := by simp [resid, nrm, nsq, exSing, exCfg]
    have hlast := (hi (st3.resnorms.length - 1) (by omega)).1
    rw [Option.some.inj hr, hr0, mul_one] at hlast
  · rw [List.getLast?_eq_getElem?, List.getElem?_eq_getElem (by omega), Option.some.inj hr]
    have : 0 ≤ r := by rw [hlast]; exact nrm_nonneg _ _
    dsimp only at hr'
    exact congrArg some (le_antisymm hr' this)
  · by_contra hne2
    have hl1 : st3.resnorms.length = 1 := by omega
    have hm := (hi (st3.resnorms.length - 1) (by omega)).2.1
    rw [hl1] at hm hlast
    simp only [kry, krylov_eq_spanTo, Nat.sub_self, spanTo_zero, Submodule.mem_bot] at hm
    have hy : st3.s.ys 0 = 0 := by simpa using hm
    simp [hy, resid, nrm, nsq, exSing, exCfg] at hlast
    dsimp only at hr'
    linarith

/-- Non-vacuity of `C67_inconsistent` and `C67_minres_inconsistent`: `diag(1, 0)` with `b = (1, 1)`. -/
example (o : Ortho) : ∃ s, mkLS (exSing (1, 1)) = .ok s ∧
    ∀ st, gmres s s.hooks o ⟨none, 1e-5, 2, false, none⟩ ≠ .convergence st := by
  obtain ⟨s, hs, ok, -⟩ := mkLS_ok (exSing_psd (1, 1)).ls
  refine ⟨s, hs, fun st hst => ?_⟩
  have hlow : ∀ z : ℝ × ℝ, 1 ≤ resid (exSing (1, 1)) z := by
    intro z
    have h2 : resid (exSing (1, 1)) z = Real.sqrt ((1 - z.1) * (1 - z.1) + 1 * 1) := by
      simp [resid, nrm, nsq, exSing, exCfg]
    rw [h2]
    refine Real.le_sqrt_of_sq_le ?_
    nlinarith [mul_self_nonneg (1 - z.1)]
  have h0 : resid (exSing (1, 1)) 0 ≤ 2 := by
    have h2 : resid (exSing (1, 1)) 0 = Real.sqrt (1 + 1) := by
      simp [resid, nrm, nsq, exSing, exCfg]
    rw [h2]
    refine Real.sqrt_le_iff.mpr ⟨by norm_num, by norm_num⟩
  have := C67_inconsistent ((exSing_minres (1, 1)).gmres o) hs ⟨none, 1e-5, 2, false, none⟩ (by norm_num)
    (by simp [exSing]) (fun z => by
      have := hlow ((⟨none, 1e-5, 2, false, none⟩ : SolverArgs (ℝ × ℝ)).x0.getD 0 + (exSing (1, 1)).Mr z)
      dsimp only at this ⊢
      linarith) (by simp)
  rw [hst] at this
  simp at this

/-- A nilpotent operator: the index condition fails although the system `A x = (1, 0)` is consistent. -/
noncomputable def exNil : LSArgs ℝ (ℝ × ℝ) where
  A := (LinearMap.snd ℝ ℝ ℝ).prod 0
  b := (1, 0)
  M := LinearMap.id
  Ml := LinearMap.id
  Mr := LinearMap.id
  ip := exCfg.ip
  normal := none
  selfAdjoint := false
  positiveDefinite := false

theorem exNil_hyp : GmresHyp exNil .mgs := ⟨⟨exCfg_hyp.ls.inner, exCfg_hyp.ls.inner⟩, by simp⟩

/-- C67 (finding): a consistent singular system on which `Gmres` computes NaN in its first iteration. -/
theorem C67_index_counterexample : Consistent exNil 0 ∧ ¬ IndexOne exNil ∧ ∃ s, mkLS exNil = .ok s ∧
    gmres s s.hooks .mgs ⟨none, 1e-5, 2, false, none⟩ = .raised .nonFinite := by
  have hr : resid exNil 0 = 1 := by simp [resid, nrm, nsq, exNil, exCfg]
  obtain ⟨s, hs, -⟩ := mkLS_ok exNil_hyp.ls
  refine ⟨⟨(0, 1), by simp [exNil]⟩, fun h => ?_, s, hs, ?_⟩
  · have := h (0, 1) (by simp [exNil])
    simp [exNil] at this
  · refine C67_null_residual exNil_hyp hs _ (by norm_num) (by simp [exNil]) ?_ (by norm_num) (by simp [exNil])
    simp only [Option.getD_none, hr]
    norm_num

/-- Non-vacuity of `C67_cg_breakdown`: the indefinite operator which swaps the coordinates. -/
example : ∃ s, mkLS exSys = .ok s ∧ cg s s.hooks false ⟨none, 1e-5, 2, false, none⟩ = .raised .nonFinite := by
  have hr : resid exSys 0 = 1 := by simp [resid, nrm, nsq, exSys, exCfg]
  obtain ⟨s, hs, -⟩ := mkLS_ok exSys_minres.ls
  refine ⟨s, hs, C67_cg_breakdown exSys_minres.ls hs false _ (by simp [exSys]) ?_ (by norm_num) (by simp [exSys, exCfg])⟩
  simp only [Option.getD_none, hr]
  norm_num

end Krypy
