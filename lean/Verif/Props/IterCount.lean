import Verif.Props.RestartConv
import Verif.Props.BoundsValid
import Verif.Props.Deflation
import Verif.Props.SolverCalls
import Mathlib.LinearAlgebra.Charpoly.Basic

/-!
# Property C70: the number of iterations

How many iterations `Gmres`, `Minres` and `Cg` (linsys.py 520-1018) need is determined by the system: it is the smallest `n` such that
the `n`-th search space contains a vector whose residual is below the tolerance (for `Cg`: a solution, if `tol = 0`).  This number is
bounded by the number of eigenvectors which compose the initial residual, by the number of distinct eigenvalues of self-adjoint
operators, by the degree of the minimal polynomial and by `k + 1` if the operator is a multiple of the identity plus a
perturbation of rank `k`.
-/

set_option linter.unusedSectionVars false

namespace Krypy
variable {𝕜 E : Type*} [RCLike 𝕜] [AddCommGroup E] [Module 𝕜 E]
open Polynomial

/-! ## Specification -/

/-- The `n`-th search space contains a solution of the preconditioned system. -/
def SolvedIn (a : LSArgs 𝕜 E) (x0 : E) (n : ℕ) : Prop := ∃ x ∈ searchSpace a x0 n, a.Ml (a.b - a.A x) = 0

/-- The `n`-th search space contains a vector with a relative residual norm of at most `tol`. -/
def ReachedIn (a : LSArgs 𝕜 E) (x0 : E) (tol : ℝ) (n : ℕ) : Prop := ∃ x ∈ searchSpace a x0 n, resid a x ≤ tol * resid a 0

/-! ## Lemmas -/

theorem resid_eq_zero {a : LSArgs 𝕜 E} (h : LSHyp a.ip a.M) {x : E} : resid a x = 0 ↔ a.Ml (a.b - a.A x) = 0 :=
  h.prec.nrm_eq_zero

theorem SolvedIn.mono {a : LSArgs 𝕜 E} {x0 : E} {m n : ℕ} (hmn : m ≤ n) (h : SolvedIn a x0 m) : SolvedIn a x0 n := by
  obtain ⟨x, hx, hx0⟩ := h
  exact ⟨x, searchSpace_mono hmn hx, hx0⟩

theorem solvedIn_iff_reached {a : LSArgs 𝕜 E} (h : LSHyp a.ip a.M) {x0 : E} {n : ℕ} :
    SolvedIn a x0 n ↔ ReachedIn a x0 0 n := by
  refine exists_congr fun x => and_congr_right fun _ => ?_
  rw [← resid_eq_zero h, zero_mul]
  exact ⟨fun h => h.le, fun h => le_antisymm h (nrm_nonneg _ _)⟩

/-- Residuals of the search space and polynomials. -/
theorem pow_resOp (a : LSArgs 𝕜 E) (r : E) (j : ℕ) :
    ((resOp a) ^ (j + 1)) r = a.Ml (a.A (a.Mr (((a.M ∘ₗ a.Ml ∘ₗ a.A ∘ₗ a.Mr) ^ j) (a.M r)))) := by
  induction j with
  | zero => rfl
  | succ j ih =>
    rw [pow_succ', Module.End.mul_apply, ih, pow_succ', Module.End.mul_apply]
    rfl

theorem krylov_poly {T : E →ₗ[𝕜] E} {v z : E} {n : ℕ} (hz : z ∈ krylov T v n) :
    ∃ q : 𝕜[X], q.degree < n ∧ aeval T q v = z := by
  unfold krylov at hz
  induction hz using Submodule.span_induction with
  | mem x hx =>
    obtain ⟨i, hi, rfl⟩ := hx
    exact ⟨X ^ i, by rw [degree_X_pow]; exact_mod_cast hi, by simp⟩
  | zero => exact ⟨0, by rw [degree_zero]; exact WithBot.bot_lt_coe _, by simp⟩
  | add x y _ _ hx hy =>
    obtain ⟨p, hp, rfl⟩ := hx
    obtain ⟨q, hq, rfl⟩ := hy
    exact ⟨p + q, lt_of_le_of_lt (degree_add_le _ _) (max_lt hp hq), by simp⟩
  | smul c x _ hx =>
    obtain ⟨p, hp, rfl⟩ := hx
    exact ⟨c • p, lt_of_le_of_lt (degree_smul_le _ _) hp, by simp⟩

theorem aeval_mem_krylov {T : E →ₗ[𝕜] E} {v : E} {n : ℕ} {q : 𝕜[X]} (hq : q.degree < n) : aeval T q v ∈ krylov T v n := by
  by_cases h0 : q = 0
  · rw [h0, map_zero]; exact Submodule.zero_mem _
  rw [aeval_eq_sum_range, LinearMap.sum_apply]
  refine Submodule.sum_mem _ fun i hi => Submodule.smul_mem _ _ (Submodule.subset_span ⟨i, ?_, rfl⟩)
  have := (natDegree_lt_iff_degree_lt h0).mpr hq
  exact lt_of_le_of_lt (Nat.lt_succ_iff.mp (Finset.mem_range.mp hi)) this

theorem aeval_mul_X_resOp (a : LSArgs 𝕜 E) (r : E) (q : 𝕜[X]) :
    aeval (resOp a) (q * X) r = a.Ml (a.A (a.Mr (aeval (a.M ∘ₗ a.Ml ∘ₗ a.A ∘ₗ a.Mr) q (a.M r)))) := by
  induction q using Polynomial.induction_on' with
  | add p q hp hq => simp only [add_mul, map_add, LinearMap.add_apply, hp, hq]
  | monomial n c =>
    rw [← C_mul_X_pow_eq_monomial, mul_assoc, ← pow_succ]
    simp only [map_mul, aeval_C, map_pow, aeval_X, Module.End.mul_apply, Module.algebraMap_end_apply, pow_resOp, map_smul]

/-- C70: the `n`-th search space contains a solution iff the initial residual is annihilated by a polynomial of degree at most `n` in
the operator with the value one at the origin. -/
theorem C70_poly_iff (a : LSArgs 𝕜 E) (x0 : E) (n : ℕ) : SolvedIn a x0 n ↔
    ∃ p : 𝕜[X], p.natDegree ≤ n ∧ p.eval 0 = 1 ∧ aeval (resOp a) p (a.Ml (a.b - a.A x0)) = 0 := by
  have key : ∀ z, a.Ml (a.b - a.A (x0 + a.Mr z)) = a.Ml (a.b - a.A x0) - a.Ml (a.A (a.Mr z)) := fun z => by
    simp only [map_add, map_sub]; abel
  constructor
  · rintro ⟨x, ⟨z, hz, rfl⟩, hx⟩
    obtain ⟨q, hq, rfl⟩ := krylov_poly hz
    refine ⟨1 - q * X, ?_, by simp, ?_⟩
    · refine (natDegree_sub_le _ _).trans (max_le (by simp) ?_)
      by_cases h0 : q = 0
      · simp [h0]
      · rw [natDegree_mul_X h0]
        exact (natDegree_lt_iff_degree_lt h0).mpr hq
    · rw [map_sub, map_one, LinearMap.sub_apply, aeval_mul_X_resOp, Module.End.one_apply, ← key, hx]
  · rintro ⟨p, hd, h0, hp⟩
    have hc : p.coeff 0 = 1 := by rw [coeff_zero_eq_eval_zero, h0]
    have hpe : p = p.divX * X + 1 := by
      conv_lhs => rw [← divX_mul_X_add p, hc, map_one]
    refine ⟨x0 + a.Mr (-(aeval (a.M ∘ₗ a.Ml ∘ₗ a.A ∘ₗ a.Mr) p.divX (a.M (a.Ml (a.b - a.A x0))))),
      ⟨_, Submodule.neg_mem _ (aeval_mem_krylov ?_), rfl⟩, ?_⟩
    · by_cases hz : p.divX = 0
      · rw [hz, degree_zero]; exact WithBot.bot_lt_coe _
      · rw [← natDegree_lt_iff_degree_lt hz]
        have h1 : p.natDegree = p.divX.natDegree + 1 := by
          conv_lhs => rw [hpe]
          rw [show (1 : 𝕜[X]) = C 1 from rfl, natDegree_add_C, natDegree_mul_X hz]
        omega
    · rw [hpe, map_add, map_one, LinearMap.add_apply, aeval_mul_X_resOp, Module.End.one_apply] at hp
      rw [key]
      simp only [map_neg, sub_neg_eq_add]
      rw [add_comm]
      exact hp

/-! ## Minimal residual methods -/

theorem MinRes.solved_length {a : LSArgs 𝕜 E} (h : LSHyp a.ip a.M) (hb : a.Ml a.b ≠ 0) {x0 x : E} {l : List ℝ}
    (hm : MinRes a x0 l x) {n : ℕ} (hs : SolvedIn a x0 n) (hn : n < l.length) : l[n] = 0 := by
  obtain ⟨y, hy, hy0⟩ := hs
  have hpos := resid_pos h hb
  have h1 := (hm.minima n hn).2 ⟨y, hy, rfl⟩
  rw [(resid_eq_zero h).mpr hy0] at h1
  obtain ⟨z, -, hz⟩ := (hm.minima n hn).1
  have h2 : 0 ≤ l[n] * resid a 0 := by rw [← hz]; exact nrm_nonneg _ _
  exact (mul_eq_zero.mp (le_antisymm h1 h2)).resolve_right hpos.ne'

theorem MinRes.count {a : LSArgs 𝕜 E} (h : LSHyp a.ip a.M) (hb : a.Ml a.b ≠ 0) {x0 x : E} {l : List ℝ}
    (hm : MinRes a x0 l x) {tol : ℝ} (he : ∀ i r, i + 1 < l.length → l[i]? = some r → tol < r)
    (hr : ∃ r, l.getLast? = some r ∧ r ≤ tol) : IsLeast {n | ReachedIn a x0 tol n} (l.length - 1) := by
  have hpos := resid_pos h hb
  have hl : 0 < l.length := List.length_pos_of_ne_nil hm.nonempty
  obtain ⟨r, hr, hrt⟩ := hr
  refine ⟨⟨x, hm.mem, ?_⟩, ?_⟩
  · rw [hm.attains r hr]
    exact mul_le_mul_of_nonneg_right hrt hpos.le
  · rintro n ⟨y, hy, hyt⟩
    by_contra hcon
    have hn : n + 1 < l.length := by omega
    have h1 := (hm.minima n (by omega)).2 ⟨y, hy, rfl⟩
    have h2 := he n l[n] hn (List.getElem?_eq_getElem (by omega))
    exact absurd (le_of_mul_le_mul_right (h1.trans hyt) hpos) (not_le.mpr h2)

theorem SolvedIn.consistent {a : LSArgs 𝕜 E} {x0 : E} {n : ℕ} (h : SolvedIn a x0 n) : Consistent a x0 := by
  obtain ⟨x, ⟨z, -, rfl⟩, hx⟩ := h
  refine ⟨z, ?_⟩
  simp only [map_sub, map_add] at hx ⊢
  rw [← sub_sub, sub_eq_zero] at hx
  exact hx.symm

/-- Injective operators have index at most one. -/
theorem indexOne_of_inj {a : LSArgs 𝕜 E} (h : LSHyp a.ip a.M) (hinj : ∀ x, a.Ml (a.A (a.Mr x)) = 0 → x = 0) : IndexOne a := by
  intro x hx
  refine h.prec.self_eq_zero.mp ?_
  simp only [hinj _ hx, h.inner.zero_right]

/-- If the Krylov subspace is invariant, the system is consistent and the operator has index at most one, then the search space
contains a solution. -/
theorem solvedIn_of_invariant {a : LSArgs 𝕜 E} (h : LSHyp a.ip a.M) (hidx : IndexOne a) {x0 : E} (hcons : Consistent a x0) {n : ℕ}
    (hn : 0 < n) (hinv : ∀ x ∈ kry a x0 n, a.M (a.Ml (a.A (a.Mr x))) ∈ kry a x0 n) : SolvedIn a x0 n := by
  have hM : ∀ x, a.M x = 0 → x = 0 := fun x hx => by
    refine h.prec.self_eq_zero.mp ?_
    simp only [hx, h.inner.zero_right]
  let T : kry a x0 n →ₗ[𝕜] kry a x0 n := (a.M ∘ₗ a.Ml ∘ₗ a.A ∘ₗ a.Mr).restrict hinv
  have : FiniteDimensional 𝕜 (kry a x0 n) := by
    unfold kry krylov
    refine FiniteDimensional.span_of_finite 𝕜 ?_
    refine ((Set.finite_Iio n).image fun i => ((a.M ∘ₗ a.Ml ∘ₗ a.A ∘ₗ a.Mr) ^ i) (a.M (a.Ml (a.b - a.A x0)))).subset ?_
    rintro x ⟨i, hi, rfl⟩
    exact ⟨i, hi, rfl⟩
  have hrange : kry a x0 n ≤ LinearMap.range (a.M ∘ₗ a.Ml ∘ₗ a.A ∘ₗ a.Mr) := by
    obtain ⟨z, hz⟩ := hcons
    refine Submodule.span_le.mpr ?_
    rintro x ⟨i, -, rfl⟩
    cases i with
    | zero => exact ⟨z, by rw [pow_zero, Module.End.one_apply, ← hz]; rfl⟩
    | succ i => exact ⟨_, by rw [pow_succ', Module.End.mul_apply]⟩
  have hTinj : Function.Injective T := by
    rw [← LinearMap.ker_eq_bot, LinearMap.ker_eq_bot']
    rintro ⟨x, hxk⟩ hx
    have h1 : a.M (a.Ml (a.A (a.Mr x))) = 0 := congrArg Subtype.val hx
    obtain ⟨y, rfl⟩ := hrange hxk
    refine Subtype.ext ?_
    change a.M (a.Ml (a.A (a.Mr y))) = 0
    rw [hidx y (hM _ h1), map_zero]
  obtain ⟨z, hz⟩ := LinearMap.surjective_of_injective hTinj
    ⟨a.M (a.Ml (a.b - a.A x0)), Submodule.subset_span ⟨0, hn, rfl⟩⟩
  refine ⟨x0 + a.Mr z, ⟨z, z.2, rfl⟩, hM _ ?_⟩
  have h1 := congrArg Subtype.val hz
  change a.M (a.Ml (a.A (a.Mr z))) = a.M (a.Ml (a.b - a.A x0)) at h1
  simp only [map_sub, map_add] at h1 ⊢
  rw [h1]
  abel

/-! ## GMRES and MINRES -/

/-- C70: `Gmres` carries out at most `n` iterations if the `n`-th search space contains a solution; for operators of index at most one
(in particular nonsingular ones) and `maxiter ≥ n` it returns, with a residual norm below the tolerance unless the Krylov subspace was flagged invariant although the
entry of `H` below the diagonal is not zero. -/
theorem C70_gmres {a : LSArgs 𝕜 E} {ortho : Ortho} (h : GmresHyp a ortho) {s : LS 𝕜 E} (hs : mkLS a = .ok s)
    (p : SolverArgs E) (htol : 0 ≤ p.tol) (hb : a.Ml a.b ≠ 0) {n : ℕ} (hn : SolvedIn a (p.x0.getD 0) n) :
    (∀ st, gmres s s.hooks ortho p = .returned st ∨ gmres s s.hooks ortho p = .convergence st → st.resnorms.length ≤ n + 1) ∧
    (IndexOne a → n ≤ p.maxiter → ∃ st, gmres s s.hooks ortho p = .returned st ∧
      ((∃ r, st.resnorms.getLast? = some r ∧ r ≤ p.tol) ∨
        (st.s.arn.invariant = true ∧ ∃ k, st.s.arn.iter = k + 1 ∧ st.s.arn.H (k + 1) k ≠ 0))) := by
  have hc := C22_gmres s s.hooks ortho p
  have hlen : ∀ st, gmres s s.hooks ortho p = .returned st ∨ gmres s s.hooks ortho p = .convergence st →
      st.resnorms.length ≤ n + 1 := by
    intro st hst
    obtain ⟨x, -, hm, -⟩ := C26_optimal h hs p htol hb hst
    by_contra hcon
    have h0 := hm.solved_length h.ls hb hn (by omega)
    have h1 := hc.earlier st hst n _ (by omega) (List.getElem?_eq_getElem (by omega))
    rw [h0] at h1
    exact absurd h1 (not_lt.mpr htol)
  refine ⟨hlen, fun hidx hmax => ?_⟩
  obtain ⟨st, hst⟩ := (C67_gmres h hs p htol hb hidx hn.consistent).1
  obtain ⟨x, -, hm, -, hiter, -⟩ := C26_optimal h hs p htol hb hst
  have hl := hlen st hst
  have hzero : n < st.resnorms.length → st.resnorms.getLast? = some 0 := fun hlt => by
    have h0 := hm.solved_length h.ls hb hn hlt
    rw [List.getLast?_eq_getElem?, show st.resnorms.length - 1 = n by omega, List.getElem?_eq_getElem hlt, h0]
  rcases hst with hst | hst
  · refine ⟨st, hst, ?_⟩
    by_cases hlt : n < st.resnorms.length
    · exact Or.inl ⟨0, hzero hlt, htol⟩
    have hpos : 0 < st.resnorms.length := List.length_pos_of_ne_nil hm.nonempty
    obtain ⟨-, r, hr, hr'⟩ := hc.returned (show 1 ≤ p.maxiter by omega) st hst
    rcases hr' with hr' | hr'
    · exact Or.inl ⟨r, hr, not_lt.mp hr'⟩
    · by_cases hz : ∀ j, j + 1 = st.s.arn.iter → st.s.arn.H (j + 1) j = 0
      · obtain ⟨s', hs', ok, -⟩ := mkLS_ok h.ls
        rw [hs] at hs'
        obtain rfl := Except.ok.inj hs'
        have hreach := gmres_reach h hs p htol hb (Or.inl hst)
        have hinv := fun x => C20_invariant (ok.arnHyp h p.maxiter) hreach hr' hz (x := x)
        have hM : (s.arnCfg s.hooks p.maxiter ortho).Mop = a.M := by simp [LS.arnCfg, ArnCfg.Mop, ok.M]
        have hA : (s.arnCfg s.hooks p.maxiter ortho).A = a.Ml ∘ₗ a.A ∘ₗ a.Mr := by
          ext x; exact ok.MlAMr x
        rw [hM, hA] at hinv
        have hsol : SolvedIn a (p.x0.getD 0) st.s.arn.iter := by
          rcases (hreach.inv (ok.arnHyp h p.maxiter)).flagged hr' with ⟨hv, -⟩ | ⟨k, -, hk, -⟩
          · exact ⟨_, ⟨0, Submodule.zero_mem _, by rw [map_zero, add_zero]⟩, hv⟩
          · exact solvedIn_of_invariant h.ls hidx hn.consistent (by omega) hinv
        have h0 := hm.solved_length h.ls hb hsol (by omega)
        refine Or.inl ⟨0, ?_, htol⟩
        rw [List.getLast?_eq_getElem?, show st.resnorms.length - 1 = st.s.arn.iter by omega,
          List.getElem?_eq_getElem (by omega), h0]
      · push Not at hz
        obtain ⟨j, hj, hne⟩ := hz
        exact Or.inr ⟨hr', j, hj.symm, hne⟩
  · exfalso
    obtain ⟨h1, h2, x', v, -, -, h5, h6⟩ := hc.convergence st hst
    have h2' : st.resnorms.length = p.maxiter + 1 := h2
    rw [hzero (by omega), Option.some.injEq] at h5
    rw [← h5] at h6
    exact absurd h6 (not_lt.mpr htol)

/-- C70: the same for `Minres`. -/
theorem C70_minres {a : LSArgs 𝕜 E} (h : MinresHyp a) {s : LS 𝕜 E} (hs : mkLS a = .ok s) (ortho : Ortho)
    (p : SolverArgs E) (htol : 0 ≤ p.tol) (hb : a.Ml a.b ≠ 0) {n : ℕ} (hn : SolvedIn a (p.x0.getD 0) n) :
    (∀ st, minres s s.hooks ortho p = .returned st ∨ minres s s.hooks ortho p = .convergence st →
      st.resnorms.length ≤ n + 1) ∧
    (n ≤ p.maxiter → ∃ st, minres s s.hooks ortho p = .returned st ∧
      ((∃ r, st.resnorms.getLast? = some r ∧ r ≤ p.tol) ∨
        (st.s.arn.invariant = true ∧ ∃ k, st.s.arn.iter = k + 1 ∧ st.s.arn.H (k + 1) k ≠ 0))) := by
  obtain ⟨h1, h2⟩ := C70_gmres (h.gmres ortho) hs p htol hb hn
  refine ⟨?_, fun hmax => ?_⟩
  · rintro st (hst | hst)
    · obtain ⟨b, hb', -⟩ := (C29_eq_gmres h hs ortho p).1 st hst
      exact h1 _ (Or.inl hb')
    · obtain ⟨b, hb', -⟩ := (C29_eq_gmres h hs ortho p).2 st hst
      exact h1 _ (Or.inr hb')
  · obtain ⟨st', hst', h3⟩ := h2 h.indexOne hmax
    obtain ⟨st, hst⟩ := (C67_minres h hs ortho p htol hb hn.consistent).1
    rcases hst with hst | hst
    · obtain ⟨b, hb', hba⟩ := (C29_eq_gmres h hs ortho p).1 st hst
      rw [hst'] at hb'
      obtain rfl := Outcome.returned.inj hb'
      refine ⟨st, hst, ?_⟩
      change (∃ r, st.resnorms.getLast? = some r ∧ r ≤ p.tol) ∨
        (b.arn.invariant = true ∧ ∃ k, b.arn.iter = k + 1 ∧ b.arn.H (k + 1) k ≠ 0) at h3
      rw [hba] at h3
      exact h3
    · obtain ⟨b, hb', hba⟩ := (C29_eq_gmres h hs ortho p).2 st hst
      rw [hst'] at hb'
      cases hb'

/-- C70: if `Gmres` ends with a residual norm below the tolerance, then the number of its iterations is the smallest `n` such that the
`n`-th search space contains a vector with a residual norm below the tolerance. -/
theorem C70_gmres_count {a : LSArgs 𝕜 E} {ortho : Ortho} (h : GmresHyp a ortho) {s : LS 𝕜 E} (hs : mkLS a = .ok s)
    (p : SolverArgs E) (htol : 0 ≤ p.tol) (hb : a.Ml a.b ≠ 0) {st : St ℝ E (GmresSt 𝕜 E)}
    (hrun : gmres s s.hooks ortho p = .returned st) (hr : ∃ r, st.resnorms.getLast? = some r ∧ r ≤ p.tol) :
    IsLeast {n | ReachedIn a (p.x0.getD 0) p.tol n} (st.resnorms.length - 1) := by
  obtain ⟨x, -, hm, -⟩ := C26_optimal h hs p htol hb (Or.inl hrun)
  exact hm.count h.ls hb (fun i r => (C22_gmres s s.hooks ortho p).earlier st (Or.inl hrun) i r) hr

/-- C70: the same for `Minres`. -/
theorem C70_minres_count {a : LSArgs 𝕜 E} (h : MinresHyp a) {s : LS 𝕜 E} (hs : mkLS a = .ok s) (ortho : Ortho)
    (p : SolverArgs E) (htol : 0 ≤ p.tol) (hb : a.Ml a.b ≠ 0) {st : St ℝ E (MinresSt 𝕜 E)}
    (hrun : minres s s.hooks ortho p = .returned st) (hr : ∃ r, st.resnorms.getLast? = some r ∧ r ≤ p.tol) :
    IsLeast {n | ReachedIn a (p.x0.getD 0) p.tol n} (st.resnorms.length - 1) := by
  obtain ⟨x, -, hm, -⟩ := C29_optimal h hs ortho p htol hb (Or.inl hrun)
  exact hm.count h.ls hb (fun i r => (C22_minres s s.hooks ortho p).earlier st (Or.inl hrun) i r) hr

/-! ## CG -/

theorem cg_solved {a : LSArgs 𝕜 E} (h : PsdHyp a) {s : LS 𝕜 E} (hs : mkLS a = .ok s) (store : Bool)
    (p : SolverArgs E) (htol : 0 ≤ p.tol) (hb : a.Ml a.b ≠ 0) {st : St ℝ E (CgSt 𝕜 E)}
    (hrun : cg s s.hooks store p = .returned st ∨ cg s s.hooks store p = .convergence st) {n : ℕ}
    (hc : Consistent a (p.x0.getD 0)) (hn : n < st.resnorms.length) : SolvedIn a (p.x0.getD 0) n ↔ st.resnorms[n] = 0 := by
  obtain ⟨hres, hmem, hopt⟩ := ((C67_cg h hs store p htol hb hc).2.1 st hrun).2.2 n hn
  have hpos := resid_pos h.ls hb
  constructor
  · rintro ⟨x, ⟨z, hz, rfl⟩, hx⟩
    have h2 := hopt z (by rw [map_sub, sub_eq_zero] at hx; exact hx.symm) z hz
    have h3 : errEnergy a (z - z) = 0 := by
      rw [sub_self]; unfold errEnergy; rw [h.ls.inner.zero_left, map_zero]
    rw [h3] at h2
    have h4 : 0 ≤ errEnergy a (z - st.s.ys n) := h.nonneg _
    have h5 := h2.2 (le_antisymm h4 h2.1)
    have h6 := hres
    rw [← h5, (resid_eq_zero h.ls).mpr hx] at h6
    exact (mul_eq_zero.mp h6).resolve_right hpos.ne'
  · intro h0
    refine ⟨_, ⟨st.s.ys n, hmem, rfl⟩, (resid_eq_zero h.ls).mp ?_⟩
    rw [← hres, h0, zero_mul]

/-- C70: `Cg` carries out at most `n` iterations if the `n`-th search space contains a solution, and for `maxiter ≥ n` it returns, with a
residual norm below the tolerance; positive *semi*definite operators are covered. -/
theorem C70_cg {a : LSArgs 𝕜 E} (h : PsdHyp a) {s : LS 𝕜 E} (hs : mkLS a = .ok s) (store : Bool)
    (p : SolverArgs E) (htol : 0 ≤ p.tol) (hb : a.Ml a.b ≠ 0) {n : ℕ} (hn : SolvedIn a (p.x0.getD 0) n) :
    (∀ st, cg s s.hooks store p = .returned st ∨ cg s s.hooks store p = .convergence st → st.resnorms.length ≤ n + 1) ∧
    (n ≤ p.maxiter → ∃ st, cg s s.hooks store p = .returned st ∧ ∃ r, st.resnorms.getLast? = some r ∧ r ≤ p.tol) := by
  have hc := C22_cg s s.hooks store p
  have hlen : ∀ st, cg s s.hooks store p = .returned st ∨ cg s s.hooks store p = .convergence st →
      st.resnorms.length ≤ n + 1 := by
    intro st hst
    by_contra hcon
    have h0 := (cg_solved h hs store p htol hb hst hn.consistent (show n < st.resnorms.length by omega)).mp hn
    have h1 := hc.earlier st hst n _ (by omega) (List.getElem?_eq_getElem (by omega))
    rw [h0] at h1
    exact absurd h1 (not_lt.mpr htol)
  refine ⟨hlen, fun hmax => ?_⟩
  obtain ⟨st, hst⟩ := (C67_cg h hs store p htol hb hn.consistent).1
  have hl := hlen st hst
  have hpos : 0 < st.resnorms.length := by have := (hc.history st hst).1; omega
  have hzero : n < st.resnorms.length → st.resnorms.getLast? = some 0 := fun hlt => by
    have h0 := (cg_solved h hs store p htol hb hst hn.consistent hlt).mp hn
    rw [List.getLast?_eq_getElem?, show st.resnorms.length - 1 = n by omega, List.getElem?_eq_getElem hlt, h0]
  rcases hst with hst | hst
  · refine ⟨st, hst, ?_⟩
    by_cases hlt : n < st.resnorms.length
    · exact ⟨0, hzero hlt, htol⟩
    obtain ⟨-, r, hr, hr'⟩ := hc.returned (show 1 ≤ p.maxiter by omega) st hst
    rcases hr' with hr' | hr'
    · exact ⟨r, hr, not_lt.mp hr'⟩
    · cases hr'
  · exfalso
    obtain ⟨h1, h2, x', v, -, -, h5, h6⟩ := hc.convergence st hst
    have h2' : st.resnorms.length = p.maxiter + 1 := h2
    rw [hzero (by omega), Option.some.injEq] at h5
    rw [← h5] at h6
    exact absurd h6 (not_lt.mpr htol)

/-- C70: if `Cg` with `tol = 0` returns, then the number of its iterations is the smallest `n` such that the `n`-th search space contains a
solution. -/
theorem C70_cg_count {a : LSArgs 𝕜 E} (h : PsdHyp a) {s : LS 𝕜 E} (hs : mkLS a = .ok s) (store : Bool)
    (p : SolverArgs E) (htol : p.tol = 0) (hmax : 1 ≤ p.maxiter) (hb : a.Ml a.b ≠ 0)
    (hcons : Consistent a (p.x0.getD 0)) {st : St ℝ E (CgSt 𝕜 E)} (hrun : cg s s.hooks store p = .returned st) :
    IsLeast {n | SolvedIn a (p.x0.getD 0) n} (st.resnorms.length - 1) := by
  have hc := C22_cg s s.hooks store p
  have hpos : 0 < st.resnorms.length := by have := (hc.history st (Or.inl hrun)).1; omega
  have hiff := fun n => cg_solved h hs store p htol.ge hb (Or.inl hrun) hcons (n := n)
  obtain ⟨-, r, hr, hr'⟩ := hc.returned hmax st hrun
  rcases hr' with hr' | hr'
  · rw [List.getLast?_eq_getElem?, List.getElem?_eq_getElem (by omega), Option.some.injEq] at hr
    refine ⟨(hiff _ (by omega)).mpr ?_, fun n hn => ?_⟩
    · rw [hr]
      have h1 := (((C67_cg h hs store p htol.ge hb hcons).2.1 st (Or.inl hrun)).2.2 (st.resnorms.length - 1) (by omega)).1
      rw [hr] at h1
      have h2 : 0 ≤ r * resid a 0 := by rw [h1]; exact nrm_nonneg _ _
      have h3 : r ≤ p.tol := not_lt.mp hr'
      rw [htol] at h3
      exact le_antisymm h3 (nonneg_of_mul_nonneg_left h2 (resid_pos h.ls hb))
    · by_contra hcon
      have h0 := (hiff n (by omega)).mp hn
      have h1 := hc.earlier st (Or.inl hrun) n _ (by omega) (List.getElem?_eq_getElem (by omega))
      rw [h0] at h1
      exact absurd h1 (not_lt.mpr htol.ge)
  · cases hr'

/-! ## Bounds for the number of iterations -/

/-- `∏ (1 - X/μ)`. -/
noncomputable def rootPoly (S : Finset 𝕜) : 𝕜[X] := ∏ μ ∈ S, (1 - C μ⁻¹ * X)

theorem rootPoly_natDegree (S : Finset 𝕜) : (rootPoly S).natDegree ≤ S.card := by
  unfold rootPoly
  refine (natDegree_prod_le _ _).trans ?_
  refine (Finset.sum_le_card_nsmul _ _ 1 fun μ _ => ?_).trans (by simp)
  refine (natDegree_sub_le _ _).trans (max_le (by simp) ?_)
  exact (natDegree_C_mul_le _ _).trans natDegree_X_le

theorem rootPoly_eval_zero (S : Finset 𝕜) : (rootPoly S).eval 0 = 1 := by
  unfold rootPoly
  rw [eval_prod]
  simp

theorem rootPoly_eigen {S : Finset 𝕜} (h0 : (0 : 𝕜) ∉ S) {T : E →ₗ[𝕜] E} {μ : 𝕜} (hμ : μ ∈ S) {x : E} (hx : T x = μ • x) :
    aeval T (rootPoly S) x = 0 := by
  have hne : μ ≠ 0 := fun h => h0 (h ▸ hμ)
  have h1 : rootPoly S = (∏ ν ∈ S.erase μ, (1 - C ν⁻¹ * X)) * (1 - C μ⁻¹ * X) := by
    unfold rootPoly
    rw [Finset.prod_erase_mul _ _ hμ]
  rw [h1, map_mul, Module.End.mul_apply]
  have h2 : aeval T (1 - C μ⁻¹ * X) x = 0 := by
    simp [hx, smul_smul, hne]
  rw [h2, map_zero]

/-- C70: an initial residual which is a sum of eigenvectors of the operator for the (nonzero) eigenvalues in `S` needs at most as many
iterations as `S` has elements. -/
theorem C70_eigenvectors (a : LSArgs 𝕜 E) (x0 : E) {S : Finset 𝕜} (h0 : (0 : 𝕜) ∉ S) {x : 𝕜 → E}
    (hx : ∀ μ ∈ S, resOp a (x μ) = μ • x μ) (hr : a.Ml (a.b - a.A x0) = ∑ μ ∈ S, x μ) : SolvedIn a x0 S.card := by
  refine (C70_poly_iff a x0 _).mpr ⟨rootPoly S, rootPoly_natDegree S, rootPoly_eval_zero S, ?_⟩
  rw [hr, map_sum]
  exact Finset.sum_eq_zero fun μ hμ => rootPoly_eigen h0 hμ (hx μ hμ)

/-- C70: for a self-adjoint operator all of whose eigenvalues are in `S` (without zero), every initial guess needs at most as many
iterations as `S` has elements, that is, the number of distinct eigenvalues bounds the number of iterations. -/
theorem C70_distinct [FiniteDimensional 𝕜 E] {a : LSArgs 𝕜 E} (h : MinresHyp a) {S : Finset ℝ} (h0 : (0 : ℝ) ∉ S)
    (hS : ∀ μ, IsSysEig a μ → μ ∈ S) (x0 : E) : SolvedIn a x0 S.card := by
  refine (C70_poly_iff a x0 _).mpr ⟨(rootPoly S).map (algebraMap ℝ 𝕜), ?_, ?_, ?_⟩
  · rw [natDegree_map_eq_of_injective (algebraMap ℝ 𝕜).injective]
    exact rootPoly_natDegree S
  · have := congrArg (algebraMap ℝ 𝕜) (rootPoly_eval_zero S)
    rw [map_one] at this
    rw [← this, ← map_zero (algebraMap ℝ 𝕜), eval_map_apply]
  · refine h.ls.prec.nrm_eq_zero.mp (le_antisymm ?_ (nrm_nonneg _ _))
    have h1 := polyOp_norm_le (ip := gform a.ip a.M) h.ls.prec (T := resOp a) (p := rootPoly S) (c := 0) ?_ le_rfl ?_
      (a.Ml (a.b - a.A x0))
    · rw [zero_mul] at h1
      exact h1
    · intro x y
      change a.ip (a.Ml (a.A (a.Mr (a.M x)))) (a.M y) = a.ip x (a.M (a.Ml (a.A (a.Mr (a.M y)))))
      rw [← h.ls.M_symm x]
      exact h.sa _ _
    · rintro μ ⟨w, hw, hwe⟩
      have hμ : μ ∈ S := by
        refine hS μ ⟨a.M w, fun h00 => hw ?_, ?_⟩
        · refine h.ls.prec.self_eq_zero.mp ?_
          rw [h00, h.ls.inner.zero_right]
        · change a.M (resOp a w) = _
          rw [hwe, map_smul]
      have h2 : (rootPoly S).eval μ = 0 := by
        unfold rootPoly
        rw [eval_prod]
        refine Finset.prod_eq_zero hμ ?_
        have hne : μ ≠ 0 := fun h => h0 (h ▸ hμ)
        simp [hne]
      rw [h2, abs_zero]

/-- C70: for nonsingular operators every initial guess needs at most as many iterations as the degree of the minimal polynomial of the
operator. -/
theorem C70_minpoly [FiniteDimensional 𝕜 E] (a : LSArgs 𝕜 E) (hinj : Function.Injective (resOp a)) (x0 : E) :
    SolvedIn a x0 (minpoly 𝕜 (resOp a)).natDegree := by
  have hc := LinearMap.minpoly_coeff_zero_of_injective hinj
  refine (C70_poly_iff a x0 _).mpr ⟨C ((minpoly 𝕜 (resOp a)).coeff 0)⁻¹ * minpoly 𝕜 (resOp a), natDegree_C_mul_le _ _, ?_, ?_⟩
  · rw [eval_mul, eval_C, ← coeff_zero_eq_eval_zero, inv_mul_cancel₀ hc]
  · rw [map_mul, minpoly.aeval, mul_zero, LinearMap.zero_apply]

/-- C70: if the (nonsingular) operator is a multiple of the identity plus an operator of rank `k`, every initial guess needs at most `k + 1`
iterations. -/
theorem C70_low_rank [FiniteDimensional 𝕜 E] (a : LSArgs 𝕜 E) (hinj : Function.Injective (resOp a)) {c : 𝕜} {R : E →ₗ[𝕜] E}
    (hT : ∀ x, resOp a x = c • x + R x) {k : ℕ} (hR : Module.finrank 𝕜 (LinearMap.range R) ≤ k) (x0 : E) :
    SolvedIn a x0 (k + 1) := by
  refine (C70_minpoly a hinj x0).mono ?_
  let R' : LinearMap.range R →ₗ[𝕜] LinearMap.range R := R.restrict fun x _ => LinearMap.mem_range_self R x
  have hres : ∀ (q : 𝕜[X]) (y : LinearMap.range R), ((aeval R' q y : LinearMap.range R) : E) = aeval R q y := by
    intro q y
    induction q using Polynomial.induction_on' with
    | add p q hp hq => simp only [map_add, LinearMap.add_apply, Submodule.coe_add, hp, hq]
    | monomial n c =>
      have hpow : ∀ n, (((R' ^ n) y : LinearMap.range R) : E) = (R ^ n) y := by
        intro n
        induction n with
        | zero => rfl
        | succ n ih => rw [pow_succ', pow_succ', Module.End.mul_apply, Module.End.mul_apply, ← ih]; rfl
      simp only [aeval_monomial, Module.End.mul_apply, Module.algebraMap_end_apply, Submodule.coe_smul, hpow]
  have hann : aeval R (R'.charpoly * X) = 0 := by
    ext x
    rw [map_mul, aeval_X, Module.End.mul_apply, ← hres _ ⟨R x, LinearMap.mem_range_self R x⟩, LinearMap.aeval_self_charpoly]
    rfl
  have hR2 : R = aeval (resOp a) (X - C c) := by
    ext x
    simp [hT]
  have hzero : aeval (resOp a) ((R'.charpoly * X).comp (X - C c)) = 0 := by
    rw [aeval_comp, ← hR2, hann]
  have hne : (R'.charpoly * X).comp (X - C c) ≠ 0 := by
    have hm : ((R'.charpoly * X).comp (X - C c)).Monic :=
      (R'.charpoly_monic.mul monic_X).comp (monic_X_sub_C c) (by rw [natDegree_X_sub_C]; exact one_ne_zero)
    exact hm.ne_zero
  have hle := natDegree_le_of_dvd (minpoly.dvd 𝕜 (resOp a) hzero) hne
  rw [natDegree_comp, natDegree_X_sub_C, mul_one, R'.charpoly_monic.natDegree_mul monic_X, natDegree_X,
    LinearMap.charpoly_natDegree] at hle
  omega

/-! ## Examples -/

theorem exSpd_resOp (x : ℝ × ℝ) : resOp exSpd x = (x.1, 2 * x.2) := by
  simp [resOp, exSpd, two_mul]

/-- `A = diag(1, 2)`, `b = (1, 1)`: two iterations are needed with the initial guess zero, and one with `(0, 1/2)`. -/
theorem exSpd_solvedIn : SolvedIn exSpd 0 2 ∧ ¬ SolvedIn exSpd 0 1 ∧ SolvedIn exSpd (0, 1 / 2) 1 := by
  refine ⟨?_, ?_, ?_⟩
  · have h := C70_eigenvectors exSpd 0 (S := {1, 2}) (by norm_num) (x := fun μ => if μ = 1 then (1, 0) else (0, 1)) (by
      intro μ hμ
      simp only [Finset.mem_insert, Finset.mem_singleton] at hμ
      rcases hμ with rfl | rfl <;> norm_num [exSpd_resOp]) (by
      rw [Finset.sum_pair (by norm_num)]
      norm_num [exSpd])
    rwa [Finset.card_pair (by norm_num)] at h
  · rintro ⟨x, ⟨z, hz, rfl⟩, hx⟩
    have hz' : ∃ c : ℝ, z = (c, c) := by
      clear hx
      unfold krylov at hz
      induction hz using Submodule.span_induction with
      | mem x hx =>
        obtain ⟨i, hi, rfl⟩ := hx
        obtain rfl : i = 0 := by omega
        exact ⟨1, by simp [exSpd]⟩
      | zero => exact ⟨0, rfl⟩
      | add x y _ _ hx hy =>
        obtain ⟨c, rfl⟩ := hx
        obtain ⟨d, rfl⟩ := hy
        exact ⟨c + d, rfl⟩
      | smul e x _ hx =>
        obtain ⟨c, rfl⟩ := hx
        exact ⟨e * c, rfl⟩
    obtain ⟨c, rfl⟩ := hz'
    simp [exSpd, Prod.ext_iff] at hx
    linarith [hx.1, hx.2]
  · have h := C70_eigenvectors exSpd (0, 1 / 2) (S := {1}) (by norm_num) (x := fun _ => (1, 0)) (by
      intro μ hμ
      simp only [Finset.mem_singleton] at hμ
      subst hμ
      norm_num [exSpd_resOp]) (by
      rw [Finset.sum_singleton]
      norm_num [exSpd])
    rwa [Finset.card_singleton] at h

/-- Non-vacuity of `C70_cg_count`, `C70_gmres_count` and `C70_minres_count`: all three solvers carry out exactly two iterations
for `tol = 0`, unless GMRES and MINRES are stopped by the threshold for invariance. -/
example : ∃ s st st' st'', mkLS exSpd = .ok s ∧ cg s s.hooks true ⟨none, 0, 5, false, none⟩ = .returned st ∧
    st.resnorms.length = 3 ∧
    gmres s s.hooks .mgs ⟨none, 0, 5, false, none⟩ = .returned st' ∧
    ((∃ r, st'.resnorms.getLast? = some r ∧ r ≤ 0) → st'.resnorms.length = 3) ∧
    minres s s.hooks .lanczos ⟨none, 0, 5, false, none⟩ = .returned st'' ∧
    ((∃ r, st''.resnorms.getLast? = some r ∧ r ≤ 0) → st''.resnorms.length = 3) := by
  obtain ⟨s, hs, -⟩ := mkLS_ok exSpd_hyp.ls
  obtain ⟨h2, h1, -⟩ := exSpd_solvedIn
  have hm : MinresHyp exSpd := ⟨exSpd_hyp.ls, exSpd_hyp.sa⟩
  have hp : PsdHyp exSpd := ⟨exSpd_hyp.ls, exSpd_hyp.sa, fun x => exSpd_hyp.energyInner.nsq_nonneg x⟩
  have hb : exSpd.Ml exSpd.b ≠ 0 := by simp [exSpd]
  have hleast : IsLeast {n | SolvedIn exSpd 0 n} 2 := ⟨h2, fun n hn => by
    by_contra hcon
    exact h1 (hn.mono (by omega))⟩
  obtain ⟨-, hc⟩ := C70_cg hp hs true ⟨none, 0, 5, false, none⟩ le_rfl hb (n := 2) h2
  obtain ⟨st, hst, r, hr, -⟩ := hc (by norm_num)
  obtain ⟨-, hg⟩ := C70_gmres (hm.gmres .mgs) hs ⟨none, 0, 5, false, none⟩ le_rfl hb (n := 2) h2
  obtain ⟨st', hst', -⟩ := hg hm.indexOne (by norm_num)
  obtain ⟨-, hn⟩ := C70_minres hm hs .lanczos ⟨none, 0, 5, false, none⟩ le_rfl hb (n := 2) h2
  obtain ⟨st'', hst'', -⟩ := hn (by norm_num)
  have heq : {n | ReachedIn exSpd 0 0 n} = {n | SolvedIn exSpd 0 n} :=
    Set.ext fun n => (solvedIn_iff_reached exSpd_hyp.ls).symm
  refine ⟨s, st, st', st'', hs, hst, ?_, hst', fun hl => ?_, hst'', fun hl => ?_⟩
  · have := (C70_cg_count hp hs true ⟨none, 0, 5, false, none⟩ rfl (by norm_num) hb h2.consistent hst).unique hleast
    omega
  · have h3 := C70_gmres_count (hm.gmres .mgs) hs ⟨none, 0, 5, false, none⟩ le_rfl hb hst' hl
    have := (heq ▸ h3 : IsLeast {n | SolvedIn exSpd 0 n} _).unique hleast
    omega
  · have h3 := C70_minres_count hm hs .lanczos ⟨none, 0, 5, false, none⟩ le_rfl hb hst'' hl
    have := (heq ▸ h3 : IsLeast {n | SolvedIn exSpd 0 n} _).unique hleast
    omega

/-- Non-vacuity of `C70_distinct`, `C70_minpoly` and `C70_low_rank`. -/
example : MinresHyp exSpd ∧ (∀ μ, IsSysEig exSpd μ → μ ∈ ({1, 2} : Finset ℝ)) ∧ (0 : ℝ) ∉ ({1, 2} : Finset ℝ) ∧
    Function.Injective (resOp exSpd) ∧ ∃ R : ℝ × ℝ →ₗ[ℝ] ℝ × ℝ, (∀ x, resOp exSpd x = (1 : ℝ) • x + R x) ∧
      Module.finrank ℝ (LinearMap.range R) ≤ 1 := by
  refine ⟨⟨exSpd_hyp.ls, exSpd_hyp.sa⟩, ?_, by norm_num, ?_, LinearMap.inr ℝ ℝ ℝ ∘ₗ LinearMap.snd ℝ ℝ ℝ, fun x => ?_, ?_⟩
  · rintro μ ⟨x, hx, hxe⟩
    change resOp exSpd x = μ • x at hxe
    rw [exSpd_resOp] at hxe
    simp only [Prod.ext_iff, Prod.smul_fst, Prod.smul_snd, smul_eq_mul] at hxe
    simp only [Finset.mem_insert, Finset.mem_singleton]
    by_cases h1 : x.1 = 0
    · right
      have h2 : x.2 ≠ 0 := fun h => hx (Prod.ext h1 h)
      exact (mul_right_cancel₀ h2 hxe.2).symm
    · left
      exact (mul_right_cancel₀ h1 (by rw [one_mul]; exact hxe.1)).symm
  · intro x y hxy
    rw [exSpd_resOp, exSpd_resOp, Prod.ext_iff] at hxy
    refine Prod.ext hxy.1 ?_
    have := hxy.2
    simp only at this
    linarith
  · rw [exSpd_resOp]
    ext <;> simp [two_mul]
  · refine (Submodule.finrank_mono (LinearMap.range_comp_le_range _ _)).trans ?_
    rw [LinearMap.finrank_range_of_inj LinearMap.inr_injective]
    simp

end Krypy
