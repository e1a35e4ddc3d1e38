import Verif.Proofs.CgRun
import Verif.Props.Gmres

/-! # Properties C30-C33: the conjugate gradient method in exact arithmetic -/

set_option linter.unusedSectionVars false

namespace Krypy
variable {𝕜 E : Type*} [RCLike 𝕜] [AddCommGroup E] [Module 𝕜 E]
open scoped ComplexConjugate
open Finset

/-! ## Specification -/

/-- Admissible input of `Cg`: inner product, self-adjoint positive definite preconditioner and self-adjoint
positive definite `Ml A Mr` (docstring, linsys.py 521-545). -/
structure SpdHyp (a : LSArgs 𝕜 E) : Prop where
  ls : LSHyp a.ip a.M
  sa : ∀ x y, a.ip (a.Ml (a.A (a.Mr x))) y = a.ip x (a.Ml (a.A (a.Mr y)))
  pos : ∀ x, x ≠ 0 → 0 < RCLike.re (a.ip x (a.Ml (a.A (a.Mr x))))

/-- Square of the energy norm of `e`: `⟨e, Ml A Mr e⟩`. -/
noncomputable def errEnergy (a : LSArgs 𝕜 E) (e : E) : ℝ := RCLike.re (a.ip e (a.Ml (a.A (a.Mr e))))

/-- `K_n(M Ml A Mr, M Ml (b - A x0))`. -/
def kry (a : LSArgs 𝕜 E) (x0 : E) (n : ℕ) : Submodule 𝕜 E :=
  krylov (a.M ∘ₗ a.Ml ∘ₗ a.A ∘ₗ a.Mr) (a.M (a.Ml (a.b - a.A x0))) n

/-! ## Set-up -/

theorem SpdHyp.cgHyp {a : LSArgs 𝕜 E} (h : SpdHyp a) (r0 : E) :
    CgHyp a.ip a.M (a.Ml ∘ₗ a.A ∘ₗ a.Mr) ⊤ r0 where
  ls := h.ls
  sa := h.sa
  rng := fun _ => trivial
  start := trivial
  pos := by
    intro q _ hq
    refine h.pos _ fun h0 => hq ?_
    refine h.ls.prec.self_eq_zero.mp ?_
    simp only [h0, h.ls.inner.zero_right]

/-- The run of `cg` on an admissible system. -/
theorem cg_setup_ls {a : LSArgs 𝕜 E} (h : LSHyp a.ip a.M) {s : LS 𝕜 E} (hs : mkLS a = .ok s) (store : Bool)
    (p : SolverArgs E) :
    cg s s.hooks store p = run (mkCfg s p)
      (cgMethod a.ip a.M (a.Ml ∘ₗ a.A ∘ₗ a.Mr) a.Mr .ok store p.maxiter) (p.x0.getD 0)
      (nrm (gform a.ip a.M) (a.Ml (a.b - a.A (p.x0.getD 0))))
      (cgInit (a.M (a.Ml (a.b - a.A (p.x0.getD 0)))) (a.Ml (a.b - a.A (p.x0.getD 0)))
        (nrm (gform a.ip a.M) (a.Ml (a.b - a.A (p.x0.getD 0))))) .ok ∧
    (∀ z x, (Except.ok (p.x0.getD 0 + a.Mr z) : Except Err E) = .ok x → (mkCfg s p).resNorm x =
      .ok (nrm (gform a.ip a.M) (a.Ml (a.b - a.A (p.x0.getD 0)) - (a.Ml ∘ₗ a.A ∘ₗ a.Mr) z))) ∧
    (a.Ml a.b ≠ 0 → 0 < (mkCfg s p).MMlbNorm) ∧ (mkCfg s p).MMlbNorm = resid a 0 ∧
    (∀ x, ∃ y, (mkCfg s p).resNorm x = .ok y) ∧
    (∀ en, (mkCfg s p).errNorm = some en → ∀ x, ∃ y, en x = .ok y) := by
  obtain ⟨s', hs', ok, -⟩ := mkLS_ok h
  rw [hs] at hs'
  obtain rfl := Except.ok.inj hs'
  refine ⟨?_, ?_, ?_, ok.nb p, fun x => ⟨_, ok.resNorm p x⟩, ok.errNorm p⟩
  · unfold cg
    have hr : s.hooks.initRes p.x0 = _ := ok.initRes p.x0
    rw [hr]
    simp only [LS.hooks, ok.op_eq, ok.ip, ok.M, ok.Mr]
    rfl
  · intro z x hx
    obtain rfl := Except.ok.inj hx
    rw [ok.resNorm]
    simp only [resid, LinearMap.comp_apply]
    congr 2
    simp only [map_add, map_sub]
    abel
  · intro hb
    rw [ok.nb]
    refine lt_of_le_of_ne (nrm_nonneg _ _) fun h0 => hb ?_
    have := h.prec.nrm_eq_zero.mp h0.symm
    simpa using this

theorem cg_setup {a : LSArgs 𝕜 E} (h : SpdHyp a) {s : LS 𝕜 E} (hs : mkLS a = .ok s) (store : Bool)
    (p : SolverArgs E) :
    cg s s.hooks store p = run (mkCfg s p)
      (cgMethod a.ip a.M (a.Ml ∘ₗ a.A ∘ₗ a.Mr) a.Mr .ok store p.maxiter) (p.x0.getD 0)
      (nrm (gform a.ip a.M) (a.Ml (a.b - a.A (p.x0.getD 0))))
      (cgInit (a.M (a.Ml (a.b - a.A (p.x0.getD 0)))) (a.Ml (a.b - a.A (p.x0.getD 0)))
        (nrm (gform a.ip a.M) (a.Ml (a.b - a.A (p.x0.getD 0))))) .ok ∧
    (∀ z x, (Except.ok (p.x0.getD 0 + a.Mr z) : Except Err E) = .ok x → (mkCfg s p).resNorm x =
      .ok (nrm (gform a.ip a.M) (a.Ml (a.b - a.A (p.x0.getD 0)) - (a.Ml ∘ₗ a.A ∘ₗ a.Mr) z))) ∧
    (a.Ml a.b ≠ 0 → 0 < (mkCfg s p).MMlbNorm) ∧ (mkCfg s p).MMlbNorm = resid a 0 ∧
    (∀ x, ∃ y, (mkCfg s p).resNorm x = .ok y) ∧
    (∀ en, (mkCfg s p).errNorm = some en → ∀ x, ∃ y, en x = .ok y) :=
  cg_setup_ls h.ls hs store p

theorem cg_loop {a : LSArgs 𝕜 E} (h : SpdHyp a) {s : LS 𝕜 E} (hs : mkLS a = .ok s) (store : Bool)
    (p : SolverArgs E) (htol : 0 ≤ p.tol) (hb : a.Ml a.b ≠ 0) {st : St ℝ E (CgSt 𝕜 E)}
    (hrun : cg s s.hooks store p = .returned st ∨ cg s s.hooks store p = .convergence st) :
    CgLoop a.ip a.M (a.Ml ∘ₗ a.A ∘ₗ a.Mr) a.Mr ⊤ (a.Ml (a.b - a.A (p.x0.getD 0))) (p.x0.getD 0) store .ok
      (resid a 0) st ∧ (∃ x, st.xk = some x) ∧
    (cg s s.hooks store p = .returned st → st.iter = st.s.k) ∧
    (cg s s.hooks store p = .convergence st → st.iter + 1 = st.s.k ∧ st.s.k = p.maxiter) := by
  obtain ⟨e, hres, hnb, hn, -⟩ := cg_setup h hs store p
  rw [e] at hrun ⊢
  obtain ⟨h1, h2, h3, h4⟩ := cgRun_spec (h.cgHyp _) (cfg := mkCfg s p) htol (hnb hb) hres hrun
  rw [hn] at h1
  exact ⟨h1, h2, fun hh => (h3 hh).1, fun hh => ⟨(h4 hh).1, (h4 hh).2.1⟩⟩

/-! ## C30 -/

/-- C30: for every system with self-adjoint positive definite `Ml A Mr`, all `x0`, `tol ≥ 0`, `maxiter` and options,
every iterate `x0 + Mr y_i` has `y_i` in the `i`-th Krylov subspace, and `y_i` is the unique element of it which
minimises the energy norm of the error with respect to any solution `x0 + Mr y*`.  The returned approximate solution
is the last iterate. -/
theorem C30_optimal {a : LSArgs 𝕜 E} (h : SpdHyp a) {s : LS 𝕜 E} (hs : mkLS a = .ok s) (store : Bool)
    (p : SolverArgs E) (htol : 0 ≤ p.tol) (hb : a.Ml a.b ≠ 0) {st : St ℝ E (CgSt 𝕜 E)}
    (hrun : cg s s.hooks store p = .returned st ∨ cg s s.hooks store p = .convergence st) :
    st.xk = some (p.x0.getD 0 + a.Mr (st.s.ys (st.resnorms.length - 1))) ∧
    ∀ i < st.resnorms.length, st.s.ys i ∈ kry a (p.x0.getD 0) i ∧
      ∀ ystar, a.Ml (a.A (p.x0.getD 0 + a.Mr ystar)) = a.Ml a.b → ∀ z ∈ kry a (p.x0.getD 0) i,
        errEnergy a (ystar - st.s.ys i) ≤ errEnergy a (ystar - z) ∧
        (errEnergy a (ystar - z) = errEnergy a (ystar - st.s.ys i) → z = st.s.ys i) := by
  obtain ⟨hl, ⟨x, hx⟩, -⟩ := cg_loop h hs store p htol hb hrun
  have hlen := hl.len
  constructor
  · rw [hx, hlen, Nat.add_sub_cancel]
    have := hl.xk x hx
    rw [← Except.ok.inj this]
  · intro i hi
    refine ⟨hl.inv.ys_mem (h.cgHyp _) i (by omega), fun ystar hy z hz => ?_⟩
    refine hl.inv.optimal (h.cgHyp _) (ystar := ystar) ?_ i (by omega) z hz
    simp only [LinearMap.comp_apply, map_sub, ← hy, map_add]
    abel

/-! ## C31 -/

/-- C31: recorded residual norms are the true ones; the recursively updated residuals `rs i` are the true residuals
and mutually orthogonal in `⟨·, M ·⟩`; the search directions are conjugate; no warning is issued. -/
theorem C31_residuals {a : LSArgs 𝕜 E} (h : SpdHyp a) {s : LS 𝕜 E} (hs : mkLS a = .ok s) (store : Bool)
    (p : SolverArgs E) (htol : 0 ≤ p.tol) (hb : a.Ml a.b ≠ 0) {st : St ℝ E (CgSt 𝕜 E)}
    (hrun : cg s s.hooks store p = .returned st ∨ cg s s.hooks store p = .convergence st) :
    (∀ i (hi : i < st.resnorms.length), st.resnorms[i] * resid a 0 = resid a (p.x0.getD 0 + a.Mr (st.s.ys i)) ∧
      st.s.rs i = a.Ml (a.b - a.A (p.x0.getD 0 + a.Mr (st.s.ys i)))) ∧
    (∀ i < st.resnorms.length, ∀ j < st.resnorms.length, i ≠ j → a.ip (st.s.rs i) (a.M (st.s.rs j)) = 0) ∧
    (∀ i, i + 1 < st.resnorms.length → ∀ j, j + 1 < st.resnorms.length → i ≠ j →
      a.ip (st.s.ps i) (a.Ml (a.A (a.Mr (st.s.ps j)))) = 0) ∧
    (∀ i, i + 1 < st.resnorms.length → st.s.ps i ≠ 0) ∧
    st.warnings = 0 ∧ st.s.warn = 0 := by
  obtain ⟨hl, -, -⟩ := cg_loop h hs store p htol hb hrun
  have hlen := hl.len
  have hr : ∀ i < st.resnorms.length, st.s.rs i = a.Ml (a.b - a.A (p.x0.getD 0 + a.Mr (st.s.ys i))) := by
    intro i hi
    rw [hl.inv.res i (by omega)]
    simp only [LinearMap.comp_apply, map_add, map_sub]
    abel
  refine ⟨fun i hi => ⟨?_, hr i hi⟩, fun i hi j hj hij => ?_, fun i hi j hj hij => ?_, fun i hi h0 => ?_, hl.warn,
    hl.inv.warn⟩
  · rw [hl.resn i hi, ← hl.inv.res i (by omega), hr i hi]
    rfl
  · exact hl.inv.orth i (by omega) j (by omega) hij
  · exact hl.inv.cnj i (by omega) j (by omega) hij
  · have := hl.inv.dpos i (by omega)
    rw [h0, h.ls.inner.zero_left] at this
    simp at this

/-! ## C32 -/

/-- C32: with `maxiter ≥ dim` CG always returns, with residual norm below the tolerance. -/
theorem C32_terminates [FiniteDimensional 𝕜 E] {a : LSArgs 𝕜 E} (h : SpdHyp a) {s : LS 𝕜 E}
    (hs : mkLS a = .ok s) (store : Bool) (p : SolverArgs E) (htol : 0 ≤ p.tol) (hb : a.Ml a.b ≠ 0)
    (hN : Module.finrank 𝕜 E ≤ p.maxiter) :
    ∃ st, cg s s.hooks store p = .returned st ∧ (∃ r, st.resnorms.getLast? = some r ∧ r ≤ p.tol) ∧
      st.resnorms.length ≤ Module.finrank 𝕜 E + 1 := by
  obtain ⟨e, hres, hnb, hn, hrt, het⟩ := cg_setup h hs store p
  obtain ⟨st, h1, h2⟩ := cgRun_terminates (store := store) (h.cgHyp _) (cfg := mkCfg s p) htol (hnb hb) hres
    (fun x => ⟨x, rfl⟩) hrt het (by rw [finrank_top]; exact hN) rfl
  rw [e]
  refine ⟨st, h1, h2, ?_⟩
  have hrun : cg s s.hooks store p = .returned st := by rw [e]; exact h1
  obtain ⟨hl, -, -⟩ := cg_loop h hs store p htol hb (Or.inl hrun)
  rw [hl.len]
  by_cases hr : st.s.rho st.s.k = 0
  · have : st.s.k ≤ Module.finrank 𝕜 E := by
      by_contra hk
      obtain ⟨m, hm⟩ : ∃ m, st.s.k = m + 1 := ⟨st.s.k - 1, by omega⟩
      have hli : LinearIndependent 𝕜 (fun i : Fin (m + 1) => st.s.rs i) := by
        rw [Fintype.linearIndependent_iff]
        intro c hc i
        have h1 : gform a.ip a.M (st.s.rs i) (∑ j : Fin (m + 1), c j • st.s.rs j) =
            c i * gform a.ip a.M (st.s.rs i) (st.s.rs i) := by
          rw [(h.cgHyp (a.b)).prec.sum_right, Finset.sum_eq_single i]
          · rw [(h.cgHyp (a.b)).prec.smul_right]
          · intro j _ hji
            rw [(h.cgHyp (a.b)).prec.smul_right, hl.inv.orth i (by omega) j (by omega)
              (fun h => hji (Fin.ext h.symm)), mul_zero]
          · simp
        rw [hc, (h.cgHyp (a.b)).prec.zero_right] at h1
        refine (mul_eq_zero.mp h1.symm).resolve_right ?_
        rw [(h.cgHyp (a.b)).prec.self_real, ← hl.inv.rho i (by omega)]
        exact_mod_cast hl.inv.rho_ne i (by omega)
      have := hli.fintype_card_le_finrank
      simp at this
      omega
    omega
  · have := hl.inv.indep (h.cgHyp _) hr
    rw [finrank_top] at this
    omega

/-! ## C33 -/

/-- A Lanczos relation `M Ml A Mr V_n = V_(n+1) H` with orthonormal (in the `M⁻¹` inner product) columns of `V`
and real symmetric tridiagonal `H` with positive subdiagonal. -/
structure IsLanczos (a : LSArgs 𝕜 E) (n : ℕ) (v : ℕ → E) (H : ℕ → ℕ → ℝ) : Prop where
  rel : ∀ j < n, a.M (a.Ml (a.A (a.Mr (v j)))) = ∑ i ∈ range (n + 1), (H i j : 𝕜) • v i
  orth : ∀ i ≤ n, ∃ w, v i = a.M w ∧ ∀ j < n, a.ip w (v j) = if i = j then 1 else 0
  last : v n ≠ 0 → ∃ w, v n = a.M w ∧ a.ip w (v n) = 1
  tri : ∀ i j, (j + 1 < i ∨ i + 1 < j) → H i j = 0
  symm : ∀ i j, i < n → j < n → H i j = H j i
  sub : ∀ j, j + 1 < n → 0 < H (j + 1) j
  subLast : ∀ j, j + 1 = n → 0 ≤ H (j + 1) j

/-- C33 (for runs which return): with `store_arnoldi=True` the attributes `V` and `H` have `n+1` columns resp. are of
size `(n+1) × n` for `n` iterations and form a Lanczos relation - except that the last column of `V` is NaN if the
final residual is exactly zero; the corresponding row of `H` is then zero. -/
theorem C33_lanczos {a : LSArgs 𝕜 E} (h : SpdHyp a) {s : LS 𝕜 E} (hs : mkLS a = .ok s)
    (p : SolverArgs E) (htol : 0 ≤ p.tol) (hb : a.Ml a.b ≠ 0) {st : St ℝ E (CgSt 𝕜 E)}
    (hrun : cg s s.hooks true p = .returned st ∨ cg s s.hooks true p = .convergence st) :
    ∃ v, IsLanczos a (cgLanczos st).n v (cgLanczos st).H ∧
      (∀ j < (cgLanczos st).n, (cgLanczos st).V j = some (v j)) ∧
      ((cgLanczos st).V (cgLanczos st).n = some (v (cgLanczos st).n) ∨
        ((cgLanczos st).V (cgLanczos st).n = none ∧ v (cgLanczos st).n = 0 ∧ st.resnorms.getLast? = some 0)) ∧
      (cg s s.hooks true p = .returned st → (cgLanczos st).n + 1 = st.resnorms.length) := by
  obtain ⟨hl, -, hret, hcon⟩ := cg_loop h hs true p htol hb hrun
  have hlen := hl.len
  have hn : st.iter ≤ st.s.k := by
    rcases hrun with h1 | h1
    · exact (hret h1).le
    · have := (hcon h1).1; omega
  have hnb : 0 < resid a 0 := by
    refine lt_of_le_of_ne (nrm_nonneg _ _) fun h0 => hb ?_
    have := h.ls.prec.nrm_eq_zero.mp h0.symm
    simpa using this
  have lan := hl.lan rfl
  have hH := h.cgHyp (a.Ml (a.b - a.A (p.x0.getD 0)))
  have hrp : ∀ j < st.s.k, 0 < st.s.rho j := fun j hj => by
    refine lt_of_le_of_ne ?_ (hl.inv.rho_ne j hj).symm
    rw [hl.inv.rho j hj.le]
    exact hH.prec.nsq_nonneg _
  obtain ⟨v, h1, h2, h3, h4, h5⟩ := lan.lanczos hH hl.inv st.iter hn
  have hsubnn : ∀ j, j < st.s.k → 0 ≤ st.s.H (j + 1) j := fun j hj => by
    rw [lan.sub j hj]
    exact div_nonneg (Real.sqrt_nonneg _) (hl.inv.al_pos hH hj).le
  refine ⟨v, ⟨h3, h4, fun hv => ?_, lan.off, fun i j hi hj => ?_, fun j hj => ?_, fun j hj => ?_⟩, h1, ?_,
    fun hr => by rw [hlen, ← hret hr]; rfl⟩
  · rcases h2 with h2 | ⟨-, -, -, h2, -⟩
    · exact h5 h2 hv
    · exact absurd h2 hv
  · simp only [cgLanczos] at *
    rcases lt_trichotomy i j with hij | hij | hij
    · by_cases hj' : j = i + 1
      · subst hj'; exact lan.sup i (by omega)
      · rw [lan.off i j (by omega), lan.off j i (by omega)]
    · rw [hij]
    · by_cases hj' : i = j + 1
      · subst hj'; exact (lan.sup j (by omega)).symm
      · rw [lan.off i j (by omega), lan.off j i (by omega)]
  · simp only [cgLanczos] at *
    rw [lan.sub j (by omega)]
    exact div_pos (Real.sqrt_pos.mpr (div_pos (hrp (j + 1) (by omega)) (hrp j (by omega))))
      (hl.inv.al_pos hH (by omega))
  · simp only [cgLanczos] at *
    exact hsubnn j (by omega)
  · rcases h2 with h2 | ⟨hpos, hk, h2, h2', h2''⟩
    · exact Or.inl h2
    · right
      refine ⟨h2, h2', ?_⟩
      have hz : st.s.rho st.s.k = 0 := by
        by_contra hne
        have := lan.V st.s.k le_rfl hne
        rw [← hk, h2] at this
        simp at this
      rw [List.getLast?_eq_getElem?, show st.resnorms.length - 1 = st.s.k by omega,
        List.getElem?_eq_getElem (by omega)]
      have e := hl.resn st.s.k (by omega)
      rw [← hl.inv.res _ le_rfl] at e
      rw [hl.inv.rho _ le_rfl] at hz
      rw [hH.prec.nrm_eq_zero.mpr (hH.prec.nsq_eq_zero.mp hz)] at e
      rw [(mul_eq_zero.mp e).resolve_right hnb.ne']

/-- Finding: on the `ConvergenceError` path `_finalize` runs before `iter` is incremented (linsys.py 493, 601-603,
691-696), so `V` and `H` lack the data of the last of the `maxiter` iterations. -/
theorem C33_convergence_drops_last {a : LSArgs 𝕜 E} (h : SpdHyp a) {s : LS 𝕜 E} (hs : mkLS a = .ok s)
    (p : SolverArgs E) (htol : 0 ≤ p.tol) (hb : a.Ml a.b ≠ 0) {st : St ℝ E (CgSt 𝕜 E)}
    (hrun : cg s s.hooks true p = .convergence st) :
    st.resnorms.length = p.maxiter + 1 ∧ (cgLanczos st).n + 1 = p.maxiter := by
  obtain ⟨hl, -, -, hcon⟩ := cg_loop h hs true p htol hb (Or.inr hrun)
  obtain ⟨h1, h2⟩ := hcon hrun
  exact ⟨by rw [hl.len, h2], by rw [← h2, ← h1]; rfl⟩

/-- Non-vacuity: a two-dimensional system with `A = diag(1, 2)`, `b = (1, 1)`. -/
noncomputable def exSpd : LSArgs ℝ (ℝ × ℝ) where
  A := LinearMap.prodMap LinearMap.id (2 • LinearMap.id)
  b := (1, 1)
  M := LinearMap.id
  Ml := LinearMap.id
  Mr := LinearMap.id
  ip := exCfg.ip
  normal := none
  selfAdjoint := true
  positiveDefinite := true

theorem exSpd_hyp : SpdHyp exSpd where
  ls := ⟨exCfg_hyp.ls.inner, exCfg_hyp.ls.inner⟩
  sa := by
    intro x y
    simp [exSpd, exCfg]
    ring
  pos := by
    rintro ⟨x, y⟩ hx
    have hxy : x ≠ 0 ∨ y ≠ 0 := by
      by_contra hcon
      push Not at hcon
      exact hx (by rw [hcon.1, hcon.2]; rfl)
    simp [exSpd, exCfg]
    rcases hxy with h | h
    · have := mul_self_pos.mpr h; nlinarith [mul_self_nonneg y]
    · have := mul_self_pos.mpr h; nlinarith [mul_self_nonneg x]

example : ∃ s st, mkLS exSpd = .ok s ∧ cg s s.hooks true ⟨none, 0, 2, false, none⟩ = .returned st ∧
    st.resnorms.getLast? = some 0 ∧ st.resnorms.length = 3 := by
  obtain ⟨s, hs, ok, -⟩ := mkLS_ok exSpd_hyp.ls
  have hb : exSpd.Ml exSpd.b ≠ 0 := by simp [exSpd]
  have hfin : Module.finrank ℝ (ℝ × ℝ) = 2 := by simp
  obtain ⟨st, hst, ⟨r, hr, hr'⟩, hle⟩ := C32_terminates exSpd_hyp hs true ⟨none, 0, 2, false, none⟩ le_rfl hb hfin.le
  obtain ⟨hx, hopt⟩ := C30_optimal exSpd_hyp hs true ⟨none, 0, 2, false, none⟩ le_rfl hb (Or.inl hst)
  obtain ⟨h31, -⟩ := C31_residuals exSpd_hyp hs true ⟨none, 0, 2, false, none⟩ le_rfl hb (Or.inl hst)
  have hne : st.resnorms ≠ [] := by intro h0; simp [h0] at hr
  have hpos := List.length_pos_of_ne_nil hne
  rw [List.getLast?_eq_getElem?, List.getElem?_eq_getElem (by omega)] at hr
  have hlast := h31 (st.resnorms.length - 1) (by omega)
  rw [Option.some.inj hr] at hlast
  have hres0 : 0 < resid exSpd 0 := by
    refine lt_of_le_of_ne (nrm_nonneg _ _) fun h0 => hb ?_
    have := exSpd_hyp.ls.prec.nrm_eq_zero.mp h0.symm
    simpa using this
  have hr0 : r = 0 := by
    have h1 : 0 ≤ r * resid exSpd 0 := by rw [hlast.1]; exact nrm_nonneg _ _
    have h2 : 0 ≤ r := by
      by_contra hneg
      nlinarith [not_le.mp hneg]
    exact le_antisymm hr' h2
  refine ⟨s, st, hs, hst, ?_, ?_⟩
  · rw [List.getLast?_eq_getElem?, List.getElem?_eq_getElem (by omega), hr, hr0]
  · -- the exact solution `(1, 1/2)` is not in a smaller Krylov subspace
    rw [hr0, zero_mul] at hlast
    have hzero := exSpd_hyp.ls.prec.nrm_eq_zero.mp hlast.1.symm
    have hsol : st.s.ys (st.resnorms.length - 1) = (1, 1 / 2) := by
      have h1 := congrArg Prod.fst hzero
      have h2 := congrArg Prod.snd hzero
      simp [exSpd] at h1 h2
      refine Prod.ext ?_ ?_
      · simp; linarith
      · simp; linarith
    have hmem := (hopt (st.resnorms.length - 1) (by omega)).1
    rw [hsol] at hmem
    by_contra hcon
    have hsmall : st.resnorms.length - 1 ≤ 1 := by rw [hfin] at hle; omega
    have hmem1 := krylov_mono hsmall hmem
    rw [krylov_eq_spanTo, mem_spanTo_iff] at hmem1
    obtain ⟨c, hc⟩ := hmem1
    have h1 := congrArg Prod.fst hc
    have h2 := congrArg Prod.snd hc
    simp [exSpd] at h1 h2
    rw [← h1] at h2
    norm_num at h2

/-- Finding: the stored Lanczos basis contains a NaN column after a run which ended with an exactly vanishing
residual (linsys.py 669 divides by the norm). -/
theorem C33_nan_column_counterexample : ∃ (a : LSArgs ℝ (ℝ × ℝ)) (s : LS ℝ (ℝ × ℝ)) (st : St ℝ (ℝ × ℝ) (CgSt ℝ (ℝ × ℝ))),
    SpdHyp a ∧ mkLS a = .ok s ∧ cg s s.hooks true ⟨none, 0, 2, false, none⟩ = .returned st ∧
    (cgLanczos st).V (cgLanczos st).n = none := by
  obtain ⟨s, hs, -⟩ := mkLS_ok exSpd_hyp.ls
  have hb : exSpd.Ml exSpd.b ≠ 0 := by simp [exSpd]
  have hfin : Module.finrank ℝ (ℝ × ℝ) = 2 := by simp
  obtain ⟨st, hst, ⟨r, hr, hr'⟩, hle⟩ := C32_terminates exSpd_hyp hs true ⟨none, 0, 2, false, none⟩ le_rfl hb hfin.le
  refine ⟨exSpd, s, st, exSpd_hyp, hs, hst, ?_⟩
  obtain ⟨hl, -, hret, -⟩ := cg_loop exSpd_hyp hs true ⟨none, 0, 2, false, none⟩ le_rfl hb (Or.inl hst)
  have hlen := hl.len
  have lan := hl.lan rfl
  have hH := exSpd_hyp.cgHyp (exSpd.Ml (exSpd.b - exSpd.A (0 : ℝ × ℝ)))
  have hnn : 0 ≤ nrm (gform exSpd.ip exSpd.M) (st.s.rs st.s.k) := nrm_nonneg _ _
  have e := hl.resn st.s.k (by omega)
  rw [← hl.inv.res _ le_rfl] at e
  rw [List.getLast?_eq_getElem?, show st.resnorms.length - 1 = st.s.k by omega,
    List.getElem?_eq_getElem (by omega)] at hr
  rw [Option.some.inj hr] at e
  have hres0 : 0 ≤ resid exSpd 0 := nrm_nonneg _ _
  have hz0 : nrm (gform exSpd.ip exSpd.M) (st.s.rs st.s.k) = 0 := by
    refine le_antisymm ?_ hnn
    rw [← e]
    exact mul_nonpos_of_nonpos_of_nonneg hr' hres0
  have hrs : st.s.rs st.s.k = 0 := hH.prec.nrm_eq_zero.mp hz0
  have hz : st.s.rho st.s.k = 0 := by
    rw [hl.inv.rho _ le_rfl, hrs]; exact hH.prec.nsq_eq_zero.mpr rfl
  have hk : st.s.k ≠ 0 := by
    intro h0
    rw [h0, hl.inv.rs0] at hrs
    simp [exSpd] at hrs
  change st.s.V st.iter = none
  rw [hret hst, lan.Vnan hz, if_neg hk]

end Krypy
