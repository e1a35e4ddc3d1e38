import Verif.Proofs.GmresTotal
import Mathlib.LinearAlgebra.Dimension.Constructions
import Mathlib.LinearAlgebra.FiniteDimensional.Basic

/-! # Properties C26, C27 and C28: GMRES in exact arithmetic -/

set_option linter.unusedSectionVars false

namespace Krypy
variable {𝕜 E : Type*} [RCLike 𝕜] [AddCommGroup E] [Module 𝕜 E]
open scoped ComplexConjugate
open Finset

/-! ## Specification -/

/-- `‖Ml (b - A x)‖` in the inner product `⟨·, M ·⟩`, i.e. `‖M Ml (b - A x)‖` in the `M⁻¹` inner product. -/
noncomputable def resid (a : LSArgs 𝕜 E) (x : E) : ℝ :=
  nrm (fun x y => a.ip x (a.M y)) (a.Ml (a.b - a.A x))

/-- `x0 + Mr K_n(M Ml A Mr, M Ml (b - A x0))`. -/
def searchSpace (a : LSArgs 𝕜 E) (x0 : E) (n : ℕ) : Set E :=
  {x | ∃ z ∈ krylov (a.M ∘ₗ a.Ml ∘ₗ a.A ∘ₗ a.Mr) (a.M (a.Ml (a.b - a.A x0))) n, x = x0 + a.Mr z}

/-- The list of relative residual norms consists of the minima over the search spaces, and `x` attains
the last one. -/
structure MinRes (a : LSArgs 𝕜 E) (x0 : E) (resnorms : List ℝ) (x : E) : Prop where
  nonempty : resnorms ≠ []
  minima : ∀ i (hi : i < resnorms.length),
    IsLeast (resid a '' searchSpace a x0 i) (resnorms[i] * resid a 0)
  mem : x ∈ searchSpace a x0 (resnorms.length - 1)
  attains : ∀ r, resnorms.getLast? = some r → resid a x = r * resid a 0

theorem searchSpace_mono {a : LSArgs 𝕜 E} {x0 : E} {m n : ℕ} (h : m ≤ n) :
    searchSpace a x0 m ⊆ searchSpace a x0 n :=
  fun _ ⟨z, hz, hx⟩ => ⟨z, krylov_mono h hz, hx⟩

/-- Consequence of the specification: the history is non-increasing. -/
theorem MinRes.antitone {a : LSArgs 𝕜 E} {x0 x : E} {l : List ℝ} (h : MinRes a x0 l x) (h0 : 0 < resid a 0) :
    l.Pairwise (fun r r' => r' ≤ r) := by
  rw [List.pairwise_iff_getElem]
  intro i j hi hj hij
  obtain ⟨x, hx, hxe⟩ := (h.minima i hi).1
  have h2 := (h.minima j hj).2 ⟨x, searchSpace_mono hij.le hx, hxe⟩
  exact le_of_mul_le_mul_right h2 h0

/-! ## Set-up -/

/-- Admissible input of a residual minimising solver. -/
structure GmresHyp (a : LSArgs 𝕜 E) (ortho : Ortho) : Prop where
  ls : LSHyp a.ip a.M
  sa : ortho = .lanczos → ∀ x y, a.ip (a.Ml (a.A (a.Mr x))) y = a.ip x (a.Ml (a.A (a.Mr y)))

theorem LSOK.op_eq {a : LSArgs 𝕜 E} {s : LS 𝕜 E} (ok : LSOK a s) : s.MlAMr = a.Ml ∘ₗ a.A ∘ₗ a.Mr :=
  LinearMap.ext fun x => by rw [ok.MlAMr x]; rfl

theorem LSOK.initRes {a : LSArgs 𝕜 E} {s : LS 𝕜 E} (ok : LSOK a s) (z : Option E) :
    s.getResidualNorm z = .ok (a.M (a.Ml (a.b - a.A (z.getD 0))), a.Ml (a.b - a.A (z.getD 0)),
      nrm (fun x y => a.ip x (a.M y)) (a.Ml (a.b - a.A (z.getD 0)))) := by
  cases z with
  | none => simp [LS.getResidualNorm, ok.MMlb, ok.Mlb, ok.norm]
  | some z =>
    simp only [LS.getResidualNorm, ok.M, ok.Ml, ok.A, ok.b, ok.ip, Option.getD_some]
    rw [ok.hyp.prec.npNorm_self (a.Ml (a.b - a.A z))]

theorem LSOK.resNorm {a : LSArgs 𝕜 E} {s : LS 𝕜 E} (ok : LSOK a s) (p : SolverArgs E) (x : E) :
    (mkCfg s p).resNorm x = .ok (resid a x) := by
  simp only [mkCfg, ok.initRes, Option.getD_some]
  rfl

theorem LSOK.nb {a : LSArgs 𝕜 E} {s : LS 𝕜 E} (ok : LSOK a s) (p : SolverArgs E) :
    (mkCfg s p).MMlbNorm = resid a 0 := by
  simp [mkCfg, ok.norm, resid]

theorem LSOK.errNorm {a : LSArgs 𝕜 E} {s : LS 𝕜 E} (ok : LSOK a s) (p : SolverArgs E) :
    ∀ en, (mkCfg s p).errNorm = some en → ∀ x, ∃ y, en x = .ok y := by
  intro en hen x
  cases hex : p.exact with
  | none => simp [mkCfg, hex] at hen
  | some xs =>
    simp only [mkCfg, hex, Option.map_some, Option.some.injEq] at hen
    subst hen
    dsimp only
    rw [ok.ip]
    exact ⟨_, ok.hyp.inner.npNorm_self _⟩

theorem LSOK.arnHyp {a : LSArgs 𝕜 E} {s : LS 𝕜 E} (ok : LSOK a s) {ortho : Ortho} (h : GmresHyp a ortho)
    (maxiter : ℕ) : ArnHyp (s.arnCfg s.hooks maxiter ortho) := by
  refine ⟨?_, fun ho x y => ?_⟩
  · simp only [LS.arnCfg, ArnCfg.Mop, Option.getD_some, ok.M, ok.ip]
    exact h.ls
  · simp only [LS.arnCfg, LS.hooks, ok.ip, ok.MlAMr]
    exact h.sa ho x y

/-- The run of `gmres` on an admissible system. -/
theorem gmres_setup {a : LSArgs 𝕜 E} {s : LS 𝕜 E} (ok : LSOK a s) {ortho : Ortho} (h : GmresHyp a ortho)
    (p : SolverArgs E) : ∃ arn,
      gmres s s.hooks ortho p = run (mkCfg s p) (gmresMethod (arnAdvance (s.arnCfg s.hooks p.maxiter ortho)) s.Mr
        .ok p.maxiter) (p.x0.getD 0)
        (nrm (s.arnCfg s.hooks p.maxiter ortho).g (a.Ml (a.b - a.A (p.x0.getD 0))))
        (gmresInit arn (nrm (s.arnCfg s.hooks p.maxiter ortho).g (a.Ml (a.b - a.A (p.x0.getD 0))))) .ok ∧
      ArnReach (s.arnCfg s.hooks p.maxiter ortho) (a.Ml (a.b - a.A (p.x0.getD 0))) arn ∧ arn.iter = 0 := by
  have hg : (s.arnCfg s.hooks p.maxiter ortho).g = fun x y => a.ip x (a.M y) := by
    funext x y
    simp [ArnCfg.g, LS.arnCfg, ArnCfg.Mop, ok.M, ok.ip]
  have hM : (s.arnCfg s.hooks p.maxiter ortho).Mop = a.M := by simp [LS.arnCfg, ArnCfg.Mop, ok.M]
  set v := a.Ml (a.b - a.A (p.x0.getD 0)) with hv
  have h1 : ∀ w, (some (a.M v) : Option E) = some w → w = (s.arnCfg s.hooks p.maxiter ortho).Mop v := by
    intro w hw; rw [hM]; exact (Option.some.inj hw).symm
  have h2 : ∀ r, (some (nrm (fun x y => a.ip x (a.M y)) v) : Option ℝ) = some r →
      r = nrm (s.arnCfg s.hooks p.maxiter ortho).g v := by
    intro r hr; rw [hg]; exact (Option.some.inj hr).symm
  obtain ⟨arn, harn, -, hit, -⟩ := arnInit_inv (ok.arnHyp h p.maxiter) v h1 h2
  refine ⟨arn, ?_, .init h1 h2 harn, hit⟩
  unfold gmres gmresRun
  have hr : s.hooks.initRes p.x0 = _ := ok.initRes p.x0
  dsimp only
  rw [hr]
  dsimp only
  rw [harn, hg]
  rfl

theorem LSOK.hres {a : LSArgs 𝕜 E} {s : LS 𝕜 E} (ok : LSOK a s) (ortho : Ortho) (p : SolverArgs E) (x0 : E) :
    ∀ z x, (Except.ok (x0 + s.Mr z) : Except Err E) = .ok x → (mkCfg s p).resNorm x =
      .ok (nrm (s.arnCfg s.hooks p.maxiter ortho).g
        (a.Ml (a.b - a.A x0) - (s.arnCfg s.hooks p.maxiter ortho).A z)) := by
  intro z x hx
  obtain rfl := Except.ok.inj hx
  rw [ok.resNorm]
  have hg : (s.arnCfg s.hooks p.maxiter ortho).g = fun x y => a.ip x (a.M y) := by
    funext x y
    simp [ArnCfg.g, LS.arnCfg, ArnCfg.Mop, ok.M, ok.ip]
  rw [hg]
  simp only [LS.arnCfg, LS.hooks, ok.MlAMr, resid, ok.Mr]
  congr 2
  simp only [map_add, map_sub]
  abel

theorem IsInner.resid_nonneg (a : LSArgs 𝕜 E) (x : E) : 0 ≤ resid a x := nrm_nonneg _ _

/-! ## C26 -/

/-- C26 (and the part of C27 about warnings): for every admissible system with `Ml b ≠ 0`, every initial guess,
`tol ≥ 0`, `maxiter`, `explicit_residual`, exact solution and orthogonalisation variant: if `Gmres` returns or
raises `ConvergenceError`, then the recorded relative residual norms are the minima over the search spaces,
the approximate solution attains the last one, and no warning about a wrong updated residual was issued. -/
theorem C26_optimal {a : LSArgs 𝕜 E} {ortho : Ortho} (h : GmresHyp a ortho) {s : LS 𝕜 E} (hs : mkLS a = .ok s)
    (p : SolverArgs E) (htol : 0 ≤ p.tol) (hb : a.Ml a.b ≠ 0) {st : St ℝ E (GmresSt 𝕜 E)}
    (hrun : gmres s s.hooks ortho p = .returned st ∨ gmres s s.hooks ortho p = .convergence st) :
    ∃ x, st.xk = some x ∧ MinRes a (p.x0.getD 0) st.resnorms x ∧ st.warnings = 0 ∧
      st.resnorms.length = st.s.arn.iter + 1 ∧ st.s.arn.iter ≤ p.maxiter := by
  obtain ⟨s', hs', ok, -⟩ := mkLS_ok h.ls
  rw [hs] at hs'
  obtain rfl := Except.ok.inj hs'
  obtain ⟨arn, hr, ha, h0⟩ := gmres_setup ok h p
  have hnb : 0 < (mkCfg s p).MMlbNorm := by
    rw [ok.nb]
    refine lt_of_le_of_ne (nrm_nonneg _ _) fun h0 => ?_
    have := h.ls.prec.nrm_eq_zero.mp h0.symm
    simp only [map_zero, sub_zero] at this
    exact hb this
  rw [hr] at hrun
  have hproc := ArnReach.proc (ok.arnHyp h p.maxiter) (a.Ml (a.b - a.A (p.x0.getD 0)))
  obtain ⟨hsp, hinv, -, x, hx, z, hz, hxz, hatt⟩ := gmresRun_spec hproc (cfg := mkCfg s p) (Mr := s.Mr)
    (post := .ok) (x0 := p.x0.getD 0) htol hnb (ok.hres ortho p _) ha h0 hrun
  have hkr : (s.arnCfg s.hooks p.maxiter ortho).Mop ∘ₗ (s.arnCfg s.hooks p.maxiter ortho).A =
      a.M ∘ₗ a.Ml ∘ₗ a.A ∘ₗ a.Mr := by
    simp only [LS.arnCfg, ArnCfg.Mop, LS.hooks, Option.getD_some, ok.M, ok.op_eq]
  have hM : (s.arnCfg s.hooks p.maxiter ortho).Mop = a.M := by simp [LS.arnCfg, ArnCfg.Mop, ok.M]
  have hres : ∀ z, nrm (s.arnCfg s.hooks p.maxiter ortho).g
      (a.Ml (a.b - a.A (p.x0.getD 0)) - (s.arnCfg s.hooks p.maxiter ortho).A z) =
      resid a (p.x0.getD 0 + a.Mr z) := by
    intro z
    have h1 := ok.hres ortho p (p.x0.getD 0) z _ rfl
    rw [ok.resNorm, ok.Mr] at h1
    exact (Except.ok.inj h1).symm
  have himg : ∀ i, (fun z => nrm (s.arnCfg s.hooks p.maxiter ortho).g
      (a.Ml (a.b - a.A (p.x0.getD 0)) - (s.arnCfg s.hooks p.maxiter ortho).A z)) ''
      (krylov ((s.arnCfg s.hooks p.maxiter ortho).Mop ∘ₗ (s.arnCfg s.hooks p.maxiter ortho).A)
        ((s.arnCfg s.hooks p.maxiter ortho).Mop (a.Ml (a.b - a.A (p.x0.getD 0)))) i : Set E) =
      resid a '' searchSpace a (p.x0.getD 0) i := by
    intro i
    ext r
    rw [hkr, hM]
    simp only [hres, searchSpace, Set.mem_image, SetLike.mem_coe]
    constructor
    · rintro ⟨z, hz, rfl⟩
      exact ⟨_, ⟨z, hz, rfl⟩, rfl⟩
    · rintro ⟨x, ⟨z, hz, rfl⟩, rfl⟩
      exact ⟨z, hz, rfl⟩
  have hlen := hsp.len
  refine ⟨x, hx, ⟨?_, ?_, ?_, ?_⟩, hsp.warn, hlen, ?_⟩
  · intro h0
    rw [h0] at hlen
    simp at hlen
  · intro i hi
    have := hsp.minima i hi
    rw [himg, ok.nb] at this
    exact this
  · rw [hlen, Nat.add_sub_cancel]
    rw [hkr, hM] at hz
    refine ⟨z, hz, ?_⟩
    rw [← ok.Mr]
    exact (Except.ok.inj hxz).symm
  · intro r hr'
    have h1 := hatt (by omega)
    rw [List.getLast?_eq_getElem?, hlen, Nat.add_sub_cancel, List.getElem?_eq_getElem (by omega)] at hr'
    rw [Option.some.inj hr', ok.nb] at h1
    rw [← h1, hres, ← ok.Mr, (Except.ok.inj hxz)]
  · exact hproc.le hinv.arn

/-! ## C27 -/

/-- C27: the recorded residual norms never increase. -/
theorem C27_monotone {a : LSArgs 𝕜 E} {ortho : Ortho} (h : GmresHyp a ortho) {s : LS 𝕜 E} (hs : mkLS a = .ok s)
    (p : SolverArgs E) (htol : 0 ≤ p.tol) (hb : a.Ml a.b ≠ 0) {st : St ℝ E (GmresSt 𝕜 E)}
    (hrun : gmres s s.hooks ortho p = .returned st ∨ gmres s s.hooks ortho p = .convergence st) :
    st.resnorms.Pairwise (fun r r' => r' ≤ r) := by
  obtain ⟨x, -, hmin, -⟩ := C26_optimal h hs p htol hb hrun
  refine hmin.antitone (lt_of_le_of_ne (nrm_nonneg _ _) fun h0 => hb ?_)
  have := h.ls.prec.nrm_eq_zero.mp h0.symm
  simpa using this

/-- C27: updated residuals are the true ones: two runs on the same system which differ in
`explicit_residual`, `tol`, `maxiter`, the exact solution and even the orthogonalisation variant record the
same numbers (as far as both run). -/
theorem C27_updated_eq_explicit {a : LSArgs 𝕜 E} {o o' : Ortho} (h : GmresHyp a o) (h' : GmresHyp a o')
    {s : LS 𝕜 E} (hs : mkLS a = .ok s) (p p' : SolverArgs E) (hx0 : p.x0.getD 0 = p'.x0.getD 0)
    (htol : 0 ≤ p.tol) (htol' : 0 ≤ p'.tol) (hb : a.Ml a.b ≠ 0) {st st' : St ℝ E (GmresSt 𝕜 E)}
    (hrun : gmres s s.hooks o p = .returned st ∨ gmres s s.hooks o p = .convergence st)
    (hrun' : gmres s s.hooks o' p' = .returned st' ∨ gmres s s.hooks o' p' = .convergence st')
    (i : ℕ) (hi : i < st.resnorms.length) (hi' : i < st'.resnorms.length) :
    st.resnorms[i] = st'.resnorms[i] := by
  obtain ⟨x, -, hmin, -⟩ := C26_optimal h hs p htol hb hrun
  obtain ⟨x', -, hmin', -⟩ := C26_optimal h' hs p' htol' hb hrun'
  have h1 := hmin.minima i hi
  have h2 := hmin'.minima i hi'
  rw [← hx0] at h2
  have := h1.unique h2
  refine mul_right_cancel₀ (fun h0 => hb ?_) this
  have := h.ls.prec.nrm_eq_zero.mp h0
  simpa using this

/-! ## C28 -/

/-- C28: for nonsingular `Ml A Mr` and `maxiter ≥ dim` GMRES never raises anything; the final residual is
below the tolerance unless the Krylov subspace was flagged invariant although the entry of `H` below the diagonal
is not zero (it is then at most `1e-14 * ‖H‖`, see `C17_arnoldi`). -/
theorem C28_terminates [FiniteDimensional 𝕜 E] {a : LSArgs 𝕜 E} {ortho : Ortho} (h : GmresHyp a ortho)
    {s : LS 𝕜 E} (hs : mkLS a = .ok s) (p : SolverArgs E) (htol : 0 ≤ p.tol) (hb : a.Ml a.b ≠ 0)
    (hinj : ∀ x, a.Ml (a.A (a.Mr x)) = 0 → x = 0) (hN : Module.finrank 𝕜 E ≤ p.maxiter) :
    ∃ st, gmres s s.hooks ortho p = .returned st ∧
      ((∃ r, st.resnorms.getLast? = some r ∧ r ≤ p.tol) ∨
        (st.s.arn.invariant = true ∧ ∃ k, st.s.arn.iter = k + 1 ∧ st.s.arn.H (k + 1) k ≠ 0)) := by
  obtain ⟨s', hs', ok, -⟩ := mkLS_ok h.ls
  rw [hs] at hs'
  obtain rfl := Except.ok.inj hs'
  obtain ⟨arn, hr, ha, h0⟩ := gmres_setup ok h p
  have hnb : 0 < (mkCfg s p).MMlbNorm := by
    rw [ok.nb]
    refine lt_of_le_of_ne (nrm_nonneg _ _) fun h0 => ?_
    have := h.ls.prec.nrm_eq_zero.mp h0.symm
    simp only [map_zero, sub_zero] at this
    exact hb this
  have hproc := ArnReach.proc (ok.arnHyp h p.maxiter) (a.Ml (a.b - a.A (p.x0.getD 0)))
  rw [hr]
  have hinj' : ∀ x, (s.arnCfg s.hooks p.maxiter ortho).A x = 0 → x = 0 := by
    intro x hx
    apply hinj
    rw [← ok.MlAMr]
    exact hx
  refine gmresRun_terminates hproc (cfg := mkCfg s p) (Mr := s.Mr) (post := .ok) (x0 := p.x0.getD 0)
    htol hnb (ok.hres ortho p _) (NonsingOn.top _ hinj') ?_ (fun x => ⟨x, rfl⟩) (fun x => ⟨_, ok.resNorm p x⟩)
    (ok.errNorm p) ha h0 ?_ (by rw [finrank_top]; exact hN) rfl (fun _ _ h => arnAdvance_iter h)
  · intro x hx
    have hM : (s.arnCfg s.hooks p.maxiter ortho).Mop = a.M := by simp [LS.arnCfg, ArnCfg.Mop, ok.M]
    rw [hM] at hx
    refine h.ls.prec.self_eq_zero.mp ?_
    simp only [hx, h.ls.inner.zero_right]
  · have hsurj : Function.Surjective (s.arnCfg s.hooks p.maxiter ortho).A := by
      rw [← LinearMap.injective_iff_surjective, ← LinearMap.ker_eq_bot, LinearMap.ker_eq_bot']
      exact hinj'
    obtain ⟨z, hz⟩ := hsurj (a.Ml (a.b - a.A (p.x0.getD 0)))
    exact ⟨z, trivial, hz⟩

/-- Non-vacuity of C26-C28: a two-dimensional system with `A = swap`, `b = (1, 0)`, which needs two steps. -/
noncomputable def exSys : LSArgs ℝ (ℝ × ℝ) :=
  ⟨exCfg.A, (1, 0), LinearMap.id, LinearMap.id, LinearMap.id, exCfg.ip, none, true, false⟩

theorem exSys_hyp (o : Ortho) : GmresHyp exSys o :=
  ⟨⟨exCfg_hyp.ls.inner, exCfg_hyp.ls.inner⟩, fun _ x y => exCfg_hyp.sa rfl x y⟩

theorem exSys_gmres (o : Ortho) : ∃ s st, mkLS exSys = .ok s ∧
    gmres s s.hooks o ⟨none, 1e-5, 2, false, none⟩ = .returned st ∧ st.resnorms.length ≤ 3 ∧
    1 < st.resnorms.length := by
  obtain ⟨s, hs, ok, -⟩ := mkLS_ok (exSys_hyp o).ls
  have hb : exSys.Ml exSys.b ≠ 0 := by simp [exSys]
  have htol : (0 : ℝ) ≤ (⟨none, 1e-5, 2, false, none⟩ : SolverArgs (ℝ × ℝ)).tol := by norm_num
  have hfin : Module.finrank ℝ (ℝ × ℝ) = 2 := by simp
  obtain ⟨st, hst, hor⟩ := C28_terminates (exSys_hyp o) hs ⟨none, 1e-5, 2, false, none⟩ htol hb
    (fun x hx => by
      have h1 : x.2 = 0 := congrArg Prod.fst hx
      have h2 : x.1 = 0 := congrArg Prod.snd hx
      exact Prod.ext h2 h1) hfin.le
  obtain ⟨x, -, hmin, -, hlen, hle⟩ := C26_optimal (exSys_hyp o) hs ⟨none, 1e-5, 2, false, none⟩ htol hb
    (Or.inl hst)
  refine ⟨s, st, hs, hst, by dsimp only at hle; omega, ?_⟩
  rcases hor with ⟨r, hr, hr'⟩ | ⟨-, k, hk, -⟩
  · by_contra hcon
    have hl1 : st.resnorms.length = 1 := by omega
    have h1 := hmin.attains r hr
    have h2 := hmin.mem
    rw [hl1] at h2
    obtain ⟨z, hz, hxz⟩ := h2
    rw [krylov_eq_spanTo, spanTo_zero] at hz
    obtain rfl : z = 0 := by simpa using hz
    have hres0 : resid exSys 0 = 1 := by simp [resid, nrm, nsq, exSys, exCfg]
    simp only [map_zero, add_zero, Option.getD_none] at hxz
    rw [hxz, hres0, mul_one] at h1
    rw [← h1] at hr'
    norm_num at hr'
  · omega

end Krypy
