import Verif.Proofs.Chebyshev
import Verif.Props.Bounds
import Verif.Props.Cg
import Verif.Props.Minres
import Verif.Props.SolverTotal

/-! # Property C53: the a priori bounds really bound CG and MINRES -/

set_option linter.unusedSectionVars false

namespace Krypy
variable {𝕜 E : Type*} [RCLike 𝕜] [AddCommGroup E] [Module 𝕜 E]
open scoped ComplexConjugate
open Polynomial

/-! ## Specification -/

/-- `μ` is an eigenvalue of the preconditioned operator `M Ml A Mr`. -/
def IsSysEig (a : LSArgs 𝕜 E) (μ : ℝ) : Prop := ∃ x, x ≠ 0 ∧ a.M (a.Ml (a.A (a.Mr x))) = (μ : 𝕜) • x

/-- The argument `evals` of the bounds contains the number `μ`. -/
def Spectrum.Covers : Spectrum → ℝ → Prop
  | .array l, μ => (μ : ℂ) ∈ l
  | .intervals s, μ => s.contains μ = true

/-- `Intervals` objects are those which can be built. -/
def Spectrum.Valid : Spectrum → Prop
  | .array _ => True
  | .intervals s => ∃ is, IvSet.Built is s

/-! ## Polynomial estimates for the two methods -/

theorem LSHyp.M_symm {ip : E → E → 𝕜} {M : E →ₗ[𝕜] E} (h : LSHyp ip M) (x y : E) : ip (M x) y = ip x (M y) := by
  rw [← h.inner.conj_symm y (M x), h.prec.conj_symm y x]

theorem SpdHyp.energyInner {a : LSArgs 𝕜 E} (h : SpdHyp a) :
    IsInner fun x y => a.ip x (a.Ml (a.A (a.Mr y))) where
  add_right x y z := by simp only [map_add, h.ls.inner.add_right]
  smul_right x c y := by simp only [map_smul, h.ls.inner.smul_right]
  conj_symm x y := by rw [h.ls.inner.conj_symm, h.sa]
  pos := h.pos

/-- The error of CG is at most `max |p(λ)|` times the initial one for every polynomial with `p(0) = 1`. -/
theorem cg_poly [FiniteDimensional 𝕜 E] {a : LSArgs 𝕜 E} (h : SpdHyp a) {s : LS 𝕜 E} (hs : mkLS a = .ok s)
    (store : Bool) (q : SolverArgs E) (htol : 0 ≤ q.tol) (hb : a.Ml a.b ≠ 0) {st : St ℝ E (CgSt 𝕜 E)}
    (hrun : cg s s.hooks store q = .returned st ∨ cg s s.hooks store q = .convergence st)
    {ystar : E} (hy : a.Ml (a.A (q.x0.getD 0 + a.Mr ystar)) = a.Ml a.b) {i : ℕ} (hi : i < st.resnorms.length)
    {p : ℝ[X]} (hd : p.natDegree ≤ i) (h0 : p.eval 0 = 1) {c : ℝ} (hc : 0 ≤ c)
    (hp : ∀ μ, IsSysEig a μ → |p.eval μ| ≤ c) :
    Real.sqrt (errEnergy a (ystar - st.s.ys i)) ≤ c * Real.sqrt (errEnergy a ystar) := by
  have hopt := ((C30_optimal h hs store q htol hb hrun).2 i hi).2 ystar hy
  set T : E →ₗ[𝕜] E := a.M ∘ₗ a.Ml ∘ₗ a.A ∘ₗ a.Mr with hT
  have hr0 : a.M (a.Ml (a.b - a.A (q.x0.getD 0))) = T ystar := by
    simp only [hT, LinearMap.comp_apply]
    congr 1
    rw [map_sub, ← hy]
    simp only [map_add]
    abel
  have hmem := sub_polyOp_mem hd h0 T ystar
  have hz : ystar - polyOp p T ystar ∈ kry a (q.x0.getD 0) i := by
    unfold kry
    rw [hr0]
    exact hmem
  have h1 := (hopt _ hz).1
  rw [sub_sub_cancel] at h1
  have h2 := polyOp_norm_le h.energyInner (T := T) (p := p) (c := c) (by
    intro x y
    simp only [hT, LinearMap.comp_apply]
    rw [← h.sa x, h.ls.M_symm]) hc (by
    rintro μ ⟨x, hx, hxe⟩
    exact hp μ ⟨x, hx, hxe⟩) ystar
  exact (Real.sqrt_le_sqrt h1).trans h2

/-- The residual of a minimal residual method for a self-adjoint operator is at most `max |p(λ)|` times the initial
one for every polynomial with `p(0) = 1`. -/
theorem minRes_poly [FiniteDimensional 𝕜 E] {a : LSArgs 𝕜 E} (h : MinresHyp a) {x0 x : E} {l : List ℝ}
    (hl : MinRes a x0 l x) {i : ℕ} (hi : i < l.length) {p : ℝ[X]} (hd : p.natDegree ≤ i) (h0 : p.eval 0 = 1)
    {c : ℝ} (hc : 0 ≤ c) (hp : ∀ μ, IsSysEig a μ → |p.eval μ| ≤ c) :
    l[i] * resid a 0 ≤ c * resid a x0 := by
  set B : E →ₗ[𝕜] E := a.Ml ∘ₗ a.A ∘ₗ a.Mr with hB
  set r0 := a.Ml (a.b - a.A x0) with hr0
  have hmem := sub_polyOp_mem hd h0 (B ∘ₗ a.M) r0
  have hpow : ∀ j, ((B ∘ₗ a.M) ^ j) ((B ∘ₗ a.M) r0) = B (((a.M ∘ₗ B) ^ j) (a.M r0)) := by
    intro j
    induction j with
    | zero => rfl
    | succ j ih => rw [pow_succ', pow_succ', Module.End.mul_apply, Module.End.mul_apply, ih]; rfl
  have hmap : ∀ w ∈ krylov (B ∘ₗ a.M) ((B ∘ₗ a.M) r0) i, ∃ z ∈ krylov (a.M ∘ₗ B) (a.M r0) i, B z = w := by
    intro w hw
    have hle : krylov (B ∘ₗ a.M) ((B ∘ₗ a.M) r0) i ≤ (krylov (a.M ∘ₗ B) (a.M r0) i).map B := by
      refine Submodule.span_le.mpr ?_
      rintro w ⟨j, hj, rfl⟩
      exact ⟨_, Submodule.subset_span ⟨j, hj, rfl⟩, (hpow j).symm⟩
    exact hle hw
  obtain ⟨z, hz, hze⟩ := hmap _ hmem
  have h1 := (hl.minima i hi).2 ⟨x0 + a.Mr z, ⟨z, hz, rfl⟩, rfl⟩
  refine h1.trans ?_
  have h2 : resid a (x0 + a.Mr z) = nrm (gform a.ip a.M) (polyOp p (B ∘ₗ a.M) r0) := by
    unfold resid gform
    congr 1
    have : a.Ml (a.b - a.A (x0 + a.Mr z)) = r0 - B z := by
      simp only [hr0, hB, LinearMap.comp_apply, map_sub, map_add]
      abel
    rw [this, hze, sub_sub_cancel]
  rw [h2]
  refine polyOp_norm_le (ip := gform a.ip a.M) h.ls.prec ?_ hc ?_ r0
  · intro x y
    change a.ip (B (a.M x)) (a.M y) = a.ip x (a.M (B (a.M y)))
    rw [← h.ls.M_symm x]
    exact h.sa _ _
  · rintro μ ⟨w, hw, hwe⟩
    refine hp μ ⟨a.M w, fun h00 => hw ?_, ?_⟩
    · refine h.ls.prec.self_eq_zero.mp ?_
      rw [h00, h.ls.inner.zero_right]
    · change a.M (B (a.M w)) = _
      change B (a.M w) = _ at hwe
      rw [hwe, map_smul]

/-! ## The bounds as functions of the spectrum -/

theorem boundCG_range {spec : Spectrum} (hv : spec.Valid) {b : Bound} (hb : boundCG spec = .ok b) {μ : ℝ}
    (hμ : spec.Covers μ) (h0 : 0 < μ) :
    ∃ m M, 0 < m ∧ m ≤ M ∧ b = ⟨true, cgFactor (M / m)⟩ ∧ ∀ ν, spec.Covers ν → m ≤ ν ∧ ν ≤ M := by
  have ht := tiny_pos
  cases spec with
  | array l =>
    by_cases hre : ∀ z ∈ l, z.im = 0
    swap
    · push Not at hre
      rw [C46_cg_rejects l false (.inr hre)] at hb
      cases hb
    have hl : l = toC (l.map Complex.re) := by
      unfold toC
      rw [List.map_map]
      refine (List.map_id l).symm.trans (List.map_congr_left fun z hz => ?_)
      exact Complex.ext rfl (by simpa using hre z hz)
    have hmem : ∀ ν : ℝ, Spectrum.Covers (.array l) ν → ν ∈ l.map Complex.re := by
      intro ν hν
      exact List.mem_map.mpr ⟨(ν : ℂ), hν, Complex.ofReal_re ν⟩
    have hne : l.map Complex.re ≠ [] := List.ne_nil_of_mem (hmem μ hμ)
    obtain ⟨M, hM⟩ := exists_greatest hne
    obtain ⟨m, hm⟩ := exists_least hne
    have hM0 : 0 < M := lt_of_lt_of_le h0 (hM.2 (hmem μ hμ))
    obtain ⟨h1, h2⟩ := C46_cg _ hM hm hM0.le
    rw [← hl] at h1 h2
    rcases le_or_gt m (tiny * M) with hle | hlt
    · rw [h2 hle] at hb; cases hb
    · rw [h1 hlt] at hb
      have hm0 : 0 < m := lt_of_le_of_lt (by positivity) hlt
      exact ⟨m, M, hm0, hM.2 hm.1, (Except.ok.inj hb).symm, fun ν hν => ⟨hm.2 (hmem ν hν), hM.2 (hmem ν hν)⟩⟩
  | intervals s =>
    obtain ⟨is, hB⟩ := hv
    have hmem : ∀ ν : ℝ, Spectrum.Covers (.intervals s) ν → ν ∈ points is := fun ν hν =>
      ((C04_membership_disjoint hB).1 ν).mp hν
    have hne : is ≠ [] := by
      rintro rfl
      obtain ⟨j, hj, _⟩ := hmem μ hμ
      simp at hj
    obtain ⟨lo, -, hlo⟩ := C06_min hB hne
    obtain ⟨hi, -, hhi⟩ := C06_max hB hne
    obtain ⟨k1, k2, k3⟩ := C46_cg_intervals hB hne hlo hhi
    rcases le_or_gt lo 0 with h1 | h1
    · rw [k1 h1] at hb; cases hb
    · rcases le_or_gt lo (tiny * hi) with h2 | h2
      · rw [k3 h1 h2] at hb; cases hb
      · rw [k2 h1 h2] at hb
        exact ⟨lo, hi, h1, hlo.2 hhi.1, (Except.ok.inj hb).symm, fun ν hν => ⟨hlo.2 (hmem ν hν), hhi.2 (hmem ν hν)⟩⟩

/-- Eigenvalues of admissible CG systems are positive, and there is one. -/
theorem SpdHyp.eig_pos {a : LSArgs 𝕜 E} (h : SpdHyp a) {μ : ℝ} (hμ : IsSysEig a μ) : 0 < μ := by
  obtain ⟨x, hx, hxe⟩ := hμ
  have h1 := h.pos x hx
  set y := a.Ml (a.A (a.Mr x)) with hy
  have hy0 : y ≠ 0 := by
    intro h0
    rw [h0, h.ls.inner.zero_right] at h1
    simp at h1
  have h2 := h.ls.prec.pos y hy0
  rw [hxe, h.ls.inner.smul_right, ← h.ls.inner.conj_symm, RCLike.re_ofReal_mul, RCLike.conj_re] at h2
  by_contra hcon
  nlinarith [not_lt.mp hcon]

theorem exists_eig [FiniteDimensional 𝕜 E] {a : LSArgs 𝕜 E} (h : MinresHyp a) [Nontrivial E] : ∃ μ, IsSysEig a μ := by
  by_contra hcon
  push Not at hcon
  obtain ⟨y, hy⟩ := exists_ne (0 : E)
  set B : E →ₗ[𝕜] E := a.Ml ∘ₗ a.A ∘ₗ a.Mr with hB
  have := polyOp_norm_le (ip := gform a.ip a.M) h.ls.prec (T := B ∘ₗ a.M) (p := 1) (c := 0) (by
    intro x y
    change a.ip (B (a.M x)) (a.M y) = a.ip x (a.M (B (a.M y)))
    rw [← h.ls.M_symm x]
    exact h.sa _ _) le_rfl (by
    rintro μ ⟨w, hw, hwe⟩
    exact absurd (⟨a.M w, fun h00 => hw (h.ls.prec.self_eq_zero.mp (by rw [h00, h.ls.inner.zero_right])), by
      change a.M (B (a.M w)) = _
      change B (a.M w) = _ at hwe
      rw [hwe, map_smul]⟩ : IsSysEig a μ) (hcon μ)) y
  have h1 : polyOp 1 (B ∘ₗ a.M) y = y := by simp [polyOp]
  rw [h1, zero_mul] at this
  exact hy (h.ls.prec.nrm_eq_zero.mp (le_antisymm this (nrm_nonneg _ _)))

theorem evalStep_cg (base : ℝ) (i : ℕ) : (⟨true, base⟩ : Bound).evalStep i = 2 * base ^ i := by
  simp [Bound.evalStep, Real.rpow_natCast]

theorem evalStep_minres (base : ℝ) (i : ℕ) : (⟨false, base⟩ : Bound).evalStep i = 2 * base ^ (i / 2) := by
  have : ⌊(i : ℝ) / 2⌋ = ((i / 2 : ℕ) : ℤ) := by
    rw [Int.floor_eq_iff]
    have h := Nat.div_add_mod i 2
    have hlt := Nat.mod_lt i (by norm_num : 0 < 2)
    have h' : (2 : ℝ) * ((i / 2 : ℕ) : ℝ) + ((i % 2 : ℕ) : ℝ) = i := by exact_mod_cast h
    have hlt' : ((i % 2 : ℕ) : ℝ) < 2 := by exact_mod_cast hlt
    have hge' : (0 : ℝ) ≤ ((i % 2 : ℕ) : ℝ) := by positivity
    rw [Int.cast_natCast]
    constructor <;> linarith
  simp only [Bound.evalStep, this]
  rw [Int.cast_natCast, Real.rpow_natCast]
  simp

/-! ## C53 -/

/-- C53: for every system with self-adjoint positive definite `Ml A Mr` and preconditioner `M`, all `x0`, `tol ≥ 0`,
`maxiter` and options: if `BoundCG` accepts an array or `Intervals` object containing all eigenvalues of
`M Ml A Mr`, then the energy norm of the error of the `i`-th iterate is at most `eval_step(i)` times the initial one. -/
theorem C53_cg [FiniteDimensional 𝕜 E] {a : LSArgs 𝕜 E} (h : SpdHyp a) {s : LS 𝕜 E} (hs : mkLS a = .ok s)
    (store : Bool) (q : SolverArgs E) (htol : 0 ≤ q.tol) (hb : a.Ml a.b ≠ 0) {st : St ℝ E (CgSt 𝕜 E)}
    (hrun : cg s s.hooks store q = .returned st ∨ cg s s.hooks store q = .convergence st)
    {spec : Spectrum} (hv : spec.Valid) (hc : ∀ μ, IsSysEig a μ → spec.Covers μ) {bd : Bound}
    (hbd : boundCG spec = .ok bd) {ystar : E} (hy : a.Ml (a.A (q.x0.getD 0 + a.Mr ystar)) = a.Ml a.b)
    {i : ℕ} (hi : i < st.resnorms.length) :
    Real.sqrt (errEnergy a (ystar - st.s.ys i)) ≤ bd.evalStep i * Real.sqrt (errEnergy a ystar) := by
  have : Nontrivial E := ⟨_, _, hb⟩
  obtain ⟨μ, hμ⟩ := exists_eig ⟨h.ls, h.sa⟩ (a := a)
  obtain ⟨m, M, hm, hM, rfl, hr⟩ := boundCG_range hv hbd (hc μ hμ) (h.eig_pos hμ)
  obtain ⟨p, h1, h2, h3⟩ := exists_cheb_interval hm hM i
  rw [evalStep_cg]
  refine cg_poly h hs store q htol hb hrun hy hi h1 h2 ?_ fun ν hν => h3 ν (hr ν (hc ν hν)).1 (hr ν (hc ν hν)).2
  have := (cgFactor_range (κ := M / m) ((one_le_div hm).mpr hM)).1
  positivity

theorem boundMinres_cg {spec : Spectrum} {bd : Bound} (h : boundMinres spec = .ok bd) (hcg : bd.isCG = true) :
    boundCG spec = .ok bd := by
  unfold boundMinres at h
  cases spec with
  | intervals s =>
    dsimp only at h
    split at h
    · split at h
      · exact h
      · split at h
        · cases h
        · split at h
          · obtain rfl := Except.ok.inj h
            cases hcg
          · cases h
    · cases h
  | array l =>
    dsimp only at h
    split at h
    · cases h
    · split at h
      · exact h
      · split at h
        · obtain rfl := Except.ok.inj h
          cases hcg
        · cases h

/-- C53: for positive spectra (where `BoundMinres` returns a `BoundCG` object) the recorded residual norms of MINRES are
at most `eval_step(i)` times the initial one. -/
theorem C53_minres_definite [FiniteDimensional 𝕜 E] {a : LSArgs 𝕜 E} (h : MinresHyp a) {s : LS 𝕜 E}
    (hs : mkLS a = .ok s) (o : Ortho) (q : SolverArgs E) (htol : 0 ≤ q.tol) (hb : a.Ml a.b ≠ 0)
    {st : St ℝ E (MinresSt 𝕜 E)}
    (hrun : minres s s.hooks o q = .returned st ∨ minres s s.hooks o q = .convergence st)
    {spec : Spectrum} (hv : spec.Valid) (hc : ∀ μ, IsSysEig a μ → spec.Covers μ ∧ 0 < μ) {bd : Bound}
    (hbd' : boundMinres spec = .ok bd) (hcg : bd.isCG = true) {i : ℕ} (hi : i < st.resnorms.length) :
    st.resnorms[i] * resid a 0 ≤ bd.evalStep i * resid a (q.x0.getD 0) := by
  have : Nontrivial E := ⟨_, _, hb⟩
  have hbd := boundMinres_cg hbd' hcg
  obtain ⟨μ, hμ⟩ := exists_eig h
  obtain ⟨m, M, hm, hM, rfl, hr⟩ := boundCG_range hv hbd (hc μ hμ).1 (hc μ hμ).2
  obtain ⟨p, h1, h2, h3⟩ := exists_cheb_interval hm hM i
  obtain ⟨x, -, hmr, -⟩ := C29_optimal h hs o q htol hb hrun
  rw [evalStep_cg]
  refine minRes_poly h hmr hi h1 h2 ?_ fun ν hν => h3 ν (hr ν (hc ν hν).1).1 (hr ν (hc ν hν).1).2
  have := (cgFactor_range (κ := M / m) ((one_le_div hm).mpr hM)).1
  positivity

/-- C53: for indefinite spectra in two intervals `[l1, ls]` and `[lt, lN]` of the same length the residual norms of
MINRES are at most `eval_step(i)` times the initial one, where the bound object is the one which `BoundMinres`
constructs from the eigenvalues `ev` (`C46_minres`).  Without the condition on the lengths this is wrong
(`C53_minres_counterexample`). -/
theorem C53_minres_indefinite [FiniteDimensional 𝕜 E] {a : LSArgs 𝕜 E} (h : MinresHyp a) {s : LS 𝕜 E}
    (hs : mkLS a = .ok s) (o : Ortho) (q : SolverArgs E) (htol : 0 ≤ q.tol) (hb : a.Ml a.b ≠ 0)
    {st : St ℝ E (MinresSt 𝕜 E)}
    (hrun : minres s s.hooks o q = .returned st ∨ minres s s.hooks o q = .convergence st)
    {ev : List ℝ} (hc : ∀ μ, IsSysEig a μ → μ ∈ ev) {m l1 ls lt lN : ℝ} (hneg : ∃ x ∈ ev, x ≤ -tiny)
    (hm : IsGreatest {y | ∃ x ∈ ev, y = |x|} m) (hbig : ∀ x ∈ ev, tiny * m < |x|)
    (h1 : IsLeast {x | x ∈ ev ∧ x < 0} l1) (hls : IsGreatest {x | x ∈ ev ∧ x < 0} ls)
    (hlt : IsLeast {x | x ∈ ev ∧ 0 < x} lt) (hN : IsGreatest {x | x ∈ ev ∧ 0 < x} lN)
    (hlen : ls - l1 = lN - lt) {bd : Bound} (hbd : boundMinres (.array (toC ev)) = .ok bd)
    {i : ℕ} (hi : i < st.resnorms.length) :
    st.resnorms[i] * resid a 0 ≤ bd.evalStep i * resid a (q.x0.getD 0) := by
  have ht := tiny_pos
  have hm0 : 0 ≤ m := by
    obtain ⟨x, -, rfl⟩ := hm.1
    exact abs_nonneg x
  have htm : 0 ≤ tiny * m := by positivity
  have e1 : {x | x ∈ ev ∧ x < -tiny * m} = {x | x ∈ ev ∧ x < 0} := by
    ext x
    simp only [Set.mem_ofPred_eq]
    refine ⟨fun hx => ⟨hx.1, by linarith [hx.2]⟩, fun hx => ⟨hx.1, ?_⟩⟩
    have := hbig x hx.1
    rw [abs_of_neg hx.2] at this
    linarith
  have e2 : {x | x ∈ ev ∧ x > tiny * m} = {x | x ∈ ev ∧ 0 < x} := by
    ext x
    simp only [Set.mem_ofPred_eq]
    refine ⟨fun hx => ⟨hx.1, by linarith [hx.2]⟩, fun hx => ⟨hx.1, ?_⟩⟩
    have := hbig x hx.1
    rwa [abs_of_pos hx.2] at this
  rw [C46_minres ev hneg hm (by rw [e1]; exact h1) (by rw [e1]; exact hls) (by rw [e2]; exact hlt)
    (by rw [e2]; exact hN)] at hbd
  obtain rfl := Except.ok.inj hbd
  have hl1 : l1 ≤ ls := h1.2 hls.1
  obtain ⟨p, hp1, hp2, hp3⟩ := exists_cheb_two_intervals (lN := lN) hl1 hls.1.2 hlt.1.2 (by linarith) i
  obtain ⟨x, -, hmr, -⟩ := C29_optimal h hs o q htol hb hrun
  rw [evalStep_minres]
  refine minRes_poly h hmr hi hp1 hp2 ?_ fun ν hν => hp3 ν ?_
  · have := (minresFactor_range hl1 hls.1.2 hlt.1.2 (hN.2 hlt.1)).1
    positivity
  · have hν' := hc ν hν
    have hne : ν ≠ 0 := by
      rintro rfl
      have := hbig 0 hν'
      rw [abs_zero] at this
      linarith
    rcases lt_or_gt_of_ne hne with hlt' | hgt
    · exact Or.inl ⟨h1.2 ⟨hν', hlt'⟩, hls.2 ⟨hν', hlt'⟩⟩
    · exact Or.inr ⟨hlt.2 ⟨hν', hgt⟩, hN.2 ⟨hν', hgt⟩⟩

/-- C53: the same for an `Intervals` object without zero which covers the eigenvalues, if the convex hulls of its negative and its
positive part have the same length and are clear of zero. -/
theorem C53_minres_intervals [FiniteDimensional 𝕜 E] {a : LSArgs 𝕜 E} (h : MinresHyp a) {s : LS 𝕜 E}
    (hs : mkLS a = .ok s) (o : Ortho) (q : SolverArgs E) (htol : 0 ≤ q.tol) (hb : a.Ml a.b ≠ 0)
    {st : St ℝ E (MinresSt 𝕜 E)}
    (hrun : minres s s.hooks o q = .returned st ∨ minres s s.hooks o q = .convergence st)
    {is : List (Interval ℝ)} {iv : IvSet ℝ} (hiv : IvSet.Built is iv) (hc : ∀ μ, IsSysEig a μ → iv.contains μ = true)
    (h0 : (0 : ℝ) ∉ points is) {lo ls lt hi : ℝ} (hlo : IsLeast (points is) lo) (hhi : IsGreatest (points is) hi)
    (hls : IsGreatest {x | x ∈ points is ∧ x < 0} ls) (hlt : IsLeast {x | x ∈ points is ∧ 0 < x} lt)
    (ht1 : ls < -tiny * max |lo| |hi|) (ht2 : tiny * max |lo| |hi| < lt) (hlen : ls - lo = hi - lt) {bd : Bound}
    (hbd : boundMinres (.intervals iv) = .ok bd) {i : ℕ} (hi' : i < st.resnorms.length) :
    st.resnorms[i] * resid a 0 ≤ bd.evalStep i * resid a (q.x0.getD 0) := by
  have hne : is ≠ [] := by
    rintro rfl
    simpa [points] using hlo.1
  rw [(C46_minres_intervals hiv hne hlo hhi).2.2.1 h0 ls lt hls hlt ht1 ht2] at hbd
  obtain rfl := Except.ok.inj hbd
  have hl1 : lo ≤ ls := hlo.2 hls.1.1
  obtain ⟨p, hp1, hp2, hp3⟩ := exists_cheb_two_intervals (lN := hi) hl1 hls.1.2 hlt.1.2 (by linarith) i
  obtain ⟨x, -, hmr, -⟩ := C29_optimal h hs o q htol hb hrun
  rw [evalStep_minres]
  refine minRes_poly h hmr hi' hp1 hp2 ?_ fun ν hν => hp3 ν ?_
  · have := (minresFactor_range hl1 hls.1.2 hlt.1.2 (hhi.2 hlt.1.1)).1
    positivity
  · have hν' : ν ∈ points is := ((C04_membership_disjoint hiv).1 ν).mp (hc ν hν)
    have hne : ν ≠ 0 := fun h => h0 (h ▸ hν')
    rcases lt_or_gt_of_ne hne with hlt' | hgt
    · exact Or.inl ⟨hlo.2 hν', hls.2 ⟨hν', hlt'⟩⟩
    · exact Or.inr ⟨hlt.2 ⟨hν', hgt⟩, hhi.2 hν'⟩

/-! ## Non-vacuity and the counterexample -/

/-- Non-vacuity of `C53_cg`: `A = diag(1, 2)`, the factor is `(√2-1)/(√2+1) ≈ 0.17`. -/
example : ∃ s st, mkLS exSpd = .ok s ∧ cg s s.hooks true ⟨none, 0, 2, false, none⟩ = .returned st ∧
    Real.sqrt (errEnergy exSpd ((1, 1 / 2) - st.s.ys 1)) ≤ 2 * cgFactor 2 * Real.sqrt (errEnergy exSpd (1, 1 / 2)) := by
  obtain ⟨s, hs, ok, -⟩ := mkLS_ok exSpd_hyp.ls
  have hb : exSpd.Ml exSpd.b ≠ 0 := by simp [exSpd]
  have hfin : Module.finrank ℝ (ℝ × ℝ) = 2 := by simp
  obtain ⟨st, hst, ⟨r, hr, hr'⟩, hle⟩ := C32_terminates exSpd_hyp hs true ⟨none, 0, 2, false, none⟩ le_rfl hb hfin.le
  refine ⟨s, st, hs, hst, ?_⟩
  have hG : IsGreatest {x : ℝ | x ∈ [(1 : ℝ), 2]} 2 := ⟨by simp, by
    intro x hx; simp at hx; rcases hx with rfl | rfl <;> norm_num⟩
  have hL : IsLeast {x : ℝ | x ∈ [(1 : ℝ), 2]} 1 := ⟨by simp, by
    intro x hx; simp at hx; rcases hx with rfl | rfl <;> norm_num⟩
  have hbd := (C46_cg [1, 2] hG hL (by norm_num)).1 (by unfold tiny; norm_num)
  have hlen : 1 < st.resnorms.length := by
    by_contra hcon
    have h1 : st.resnorms.length = 1 := by
      have := List.length_pos_of_ne_nil (l := st.resnorms) (by intro h0; simp [h0] at hr)
      omega
    obtain ⟨h31, -⟩ := C31_residuals exSpd_hyp hs true ⟨none, 0, 2, false, none⟩ le_rfl hb (Or.inl hst)
    have h2 := (h31 0 (by omega)).1
    have hmem := (C30_optimal exSpd_hyp hs true ⟨none, 0, 2, false, none⟩ le_rfl hb (Or.inl hst)).2 0 (by omega) |>.1
    have hy0 : st.s.ys 0 = 0 := by
      unfold kry at hmem
      rw [krylov_eq_spanTo, spanTo_zero] at hmem
      simpa using hmem
    rw [List.getLast?_eq_getElem?, h1, List.getElem?_eq_getElem (by omega)] at hr
    rw [hy0, Option.some.inj hr] at h2
    have hres0 : 0 < resid exSpd 0 := by
      refine lt_of_le_of_ne (nrm_nonneg _ _) fun h0 => hb ?_
      have := exSpd_hyp.ls.prec.nrm_eq_zero.mp h0.symm
      simpa using this
    have hx : (⟨none, 0, 2, false, none⟩ : SolverArgs (ℝ × ℝ)).x0.getD 0 + exSpd.Mr 0 = 0 := by simp
    rw [hx] at h2
    change r ≤ 0 at hr'
    nlinarith
  have := C53_cg exSpd_hyp hs true ⟨none, 0, 2, false, none⟩ le_rfl hb (Or.inl hst) (spec := .array (toC [1, 2])) trivial
    (by
      rintro μ ⟨⟨x, y⟩, hx, hxe⟩
      have h1 := congrArg Prod.fst hxe
      have h2 := congrArg Prod.snd hxe
      simp [exSpd] at h1 h2
      by_cases hx0 : x = 0
      · have hy0 : y ≠ 0 := fun h => hx (by rw [hx0, h]; rfl)
        have : μ = 2 := (h2.resolve_right hy0).symm
        simp [Spectrum.Covers, toC, this]
      · have : μ = 1 := mul_right_cancel₀ hx0 (by rw [one_mul]; exact h1.symm)
        simp [Spectrum.Covers, toC, this]) hbd (ystar := (1, 1 / 2)) (by simp [exSpd]) hlen
  rw [evalStep_cg] at this
  simpa using this

/-- Non-vacuity of `C53_minres_intervals`: the eigenvalues `-1` and `1` are covered by `[-4, -1]` and `[1, 4]`; the factor is `3/5`. -/
example (o : Ortho) : ∃ s st iv, mkLS exSys = .ok s ∧ minres s s.hooks o ⟨none, 1e-5, 2, false, none⟩ = .returned st ∧
    IvSet.Built [⟨-4, -1, by norm_num⟩, (⟨1, 4, by norm_num⟩ : Interval ℝ)] iv ∧
    ∀ bd, boundMinres (.intervals iv) = .ok bd →
    ∀ i (hi : i < st.resnorms.length), st.resnorms[i] * resid exSys 0 ≤ bd.evalStep i * resid exSys 0 := by
  obtain ⟨s, hs, ok, -⟩ := mkLS_ok exSys_minres.ls
  have hb : exSys.Ml exSys.b ≠ 0 := by simp [exSys]
  have htol : (0 : ℝ) ≤ (⟨none, 1e-5, 2, false, none⟩ : SolverArgs (ℝ × ℝ)).tol := by norm_num
  have hfin : Module.finrank ℝ (ℝ × ℝ) = 2 := by simp
  obtain ⟨st, hst, -⟩ := C29_terminates exSys_minres hs o ⟨none, 1e-5, 2, false, none⟩ htol hb
    (fun x hx => by
      simp [exSys, exCfg] at hx
      exact Prod.ext hx.2 hx.1) hfin.le
  obtain ⟨iv, hiv⟩ := C04_built_total [⟨-4, -1, by norm_num⟩, (⟨1, 4, by norm_num⟩ : Interval ℝ)]
  have hp : ∀ x : ℝ, x ∈ points [⟨-4, -1, by norm_num⟩, (⟨1, 4, by norm_num⟩ : Interval ℝ)] ↔
      (-4 ≤ x ∧ x ≤ -1) ∨ (1 ≤ x ∧ x ≤ 4) := by
    intro x; simp [points, Interval.toSet]
  refine ⟨s, st, iv, hs, hst, hiv, fun bd hbd i hi => ?_⟩
  refine C53_minres_intervals exSys_minres hs o ⟨none, 1e-5, 2, false, none⟩ htol hb (Or.inl hst) hiv ?_ (by rw [hp]; norm_num)
    (lo := -4) (ls := -1) (lt := 1) (hi := 4) ⟨(hp _).mpr (by norm_num), fun x hx => ?_⟩ ⟨(hp _).mpr (by norm_num), fun x hx => ?_⟩
    ⟨⟨(hp _).mpr (by norm_num), by norm_num⟩, fun x hx => ?_⟩ ⟨⟨(hp _).mpr (by norm_num), by norm_num⟩, fun x hx => ?_⟩
    (by unfold tiny; norm_num) (by unfold tiny; norm_num) (by norm_num) hbd hi
  · rintro μ ⟨⟨x, y⟩, hx, hxe⟩
    rw [(C04_membership_disjoint hiv).1, hp]
    have k1 := congrArg Prod.fst hxe
    have k2 := congrArg Prod.snd hxe
    simp [exSys, exCfg] at k1 k2
    have h1 : (μ * μ - 1) * x = 0 := by linear_combination -k2 - μ * k1
    have h2 : (μ * μ - 1) * y = 0 := by linear_combination -k1 - μ * k2
    have h3 : μ * μ = 1 := by
      rcases mul_eq_zero.mp h1 with h | h
      · linarith
      · rcases mul_eq_zero.mp h2 with h' | h'
        · linarith
        · exact absurd (by rw [h, h']; rfl) hx
    rcases mul_self_eq_one_iff.mp h3 with rfl | rfl <;> norm_num
  · rcases (hp x).mp hx with h | h <;> linarith
  · rcases (hp x).mp hx with h | h <;> linarith
  · rcases (hp x).mp hx.1 with h | h <;> linarith [hx.2]
  · rcases (hp x).mp hx.1 with h | h <;> linarith [hx.2]

/-- Non-vacuity of `C53_minres_indefinite`: `A` swaps two coordinates, its eigenvalues are `-1` and `1`. -/
example (o : Ortho) : ∃ s st, mkLS exSys = .ok s ∧ minres s s.hooks o ⟨none, 1e-5, 2, false, none⟩ = .returned st ∧
    ∀ i (hi : i < st.resnorms.length), st.resnorms[i] * resid exSys 0 ≤
      (⟨false, minresFactor (-1) (-1) 1 1⟩ : Bound).evalStep i * resid exSys 0 := by
  obtain ⟨s, hs, ok, -⟩ := mkLS_ok exSys_minres.ls
  have hb : exSys.Ml exSys.b ≠ 0 := by simp [exSys]
  have htol : (0 : ℝ) ≤ (⟨none, 1e-5, 2, false, none⟩ : SolverArgs (ℝ × ℝ)).tol := by norm_num
  have hfin : Module.finrank ℝ (ℝ × ℝ) = 2 := by simp
  obtain ⟨st, hst, -⟩ := C29_terminates exSys_minres hs o ⟨none, 1e-5, 2, false, none⟩ htol hb
    (fun x hx => by
      simp [exSys, exCfg] at hx
      exact Prod.ext hx.2 hx.1) hfin.le
  refine ⟨s, st, hs, hst, fun i hi => ?_⟩
  have hty : tiny < 1 := tiny_lt_one
  have hg : IsGreatest {y : ℝ | ∃ x ∈ [(-1 : ℝ), 1], y = |x|} 1 := ⟨⟨1, by simp, by simp⟩, by
    rintro y ⟨x, hx, rfl⟩; simp at hx; rcases hx with rfl | rfl <;> simp⟩
  have h1 : IsLeast {x : ℝ | x ∈ [(-1 : ℝ), 1] ∧ x < 0} (-1) := ⟨by simp, by
    rintro x ⟨hx, hx0⟩; simp at hx; rcases hx with rfl | rfl <;> norm_num⟩
  have h2 : IsGreatest {x : ℝ | x ∈ [(-1 : ℝ), 1] ∧ x < 0} (-1) := ⟨by simp, by
    rintro x ⟨hx, hx0⟩; simp at hx; rcases hx with rfl | rfl <;> [exact le_rfl; linarith]⟩
  have h3 : IsLeast {x : ℝ | x ∈ [(-1 : ℝ), 1] ∧ 0 < x} 1 := ⟨by simp, by
    rintro x ⟨hx, hx0⟩; simp at hx; rcases hx with rfl | rfl <;> [linarith; exact le_rfl]⟩
  have h4 : IsGreatest {x : ℝ | x ∈ [(-1 : ℝ), 1] ∧ 0 < x} 1 := ⟨by simp, by
    rintro x ⟨hx, hx0⟩; simp at hx; rcases hx with rfl | rfl <;> norm_num⟩
  have e1 : {x : ℝ | x ∈ [(-1 : ℝ), 1] ∧ x < -tiny * 1} = {x : ℝ | x ∈ [(-1 : ℝ), 1] ∧ x < 0} := by
    ext x
    simp only [Set.mem_ofPred_eq]
    refine and_congr_right fun hx => ?_
    have := tiny_pos
    simp at hx; rcases hx with rfl | rfl
    · constructor <;> intro <;> linarith
    · constructor <;> intro <;> linarith
  have e2 : {x : ℝ | x ∈ [(-1 : ℝ), 1] ∧ x > tiny * 1} = {x : ℝ | x ∈ [(-1 : ℝ), 1] ∧ 0 < x} := by
    ext x
    simp only [Set.mem_ofPred_eq]
    refine and_congr_right fun hx => ?_
    have := tiny_pos
    simp at hx; rcases hx with rfl | rfl
    · constructor <;> intro <;> linarith
    · constructor <;> intro <;> linarith
  refine C53_minres_indefinite exSys_minres hs o ⟨none, 1e-5, 2, false, none⟩ htol hb (Or.inl hst) (ev := [-1, 1])
    ?_ ⟨-1, by simp, by linarith⟩ hg ?_ h1 h2 h3 h4 (by norm_num)
    (C46_minres [-1, 1] ⟨-1, by simp, by linarith⟩ hg (by rw [e1]; exact h1) (by rw [e1]; exact h2)
      (by rw [e2]; exact h3) (by rw [e2]; exact h4)) hi
  · rintro μ ⟨⟨x, y⟩, hx, hxe⟩
    have k1 := congrArg Prod.fst hxe
    have k2 := congrArg Prod.snd hxe
    simp [exSys, exCfg] at k1 k2
    have hx0 : x ≠ 0 := by
      rintro rfl
      simp at k1
      exact hx (by rw [k1]; rfl)
    have hμ : (μ - 1) * (μ + 1) = 0 := by
      have : (μ * μ - 1) * x = 0 := by rw [k1] at k2; linarith
      have := (mul_eq_zero.mp this).resolve_right hx0
      linarith
    rcases mul_eq_zero.mp hμ with h | h
    · have : μ = 1 := by linarith
      simp [this]
    · have : μ = -1 := by linarith
      simp [this]
  · intro x hx
    simp at hx
    rcases hx with rfl | rfl <;> simp <;> linarith

/-- The system with `A = diag(-1, 2, 8)` and `b = (4, 3, 1)`. -/
noncomputable def exInd : LSArgs ℝ (ℝ × ℝ × ℝ) where
  A := LinearMap.prodMap (-1 • LinearMap.id) (LinearMap.prodMap (2 • LinearMap.id) (8 • LinearMap.id))
  b := (4, 3, 1)
  M := LinearMap.id
  Ml := LinearMap.id
  Mr := LinearMap.id
  ip := fun x y => x.1 * y.1 + x.2.1 * y.2.1 + x.2.2 * y.2.2
  normal := none
  selfAdjoint := true
  positiveDefinite := false

theorem exInd_inner : IsInner exInd.ip := by
  refine ⟨fun x y z => ?_, fun x t y => ?_, fun x y => ?_, fun x hx => ?_⟩
  · simp [exInd]; ring
  · simp [exInd]; ring
  · simp [exInd]; ring
  · by_contra hle
    apply hx
    have h0 : x.1 * x.1 + x.2.1 * x.2.1 + x.2.2 * x.2.2 ≤ 0 := by simpa [exInd] using hle
    have h1 : x.1 = 0 := by nlinarith [mul_self_nonneg x.1, mul_self_nonneg x.2.1, mul_self_nonneg x.2.2]
    have h2 : x.2.1 = 0 := by nlinarith [mul_self_nonneg x.1, mul_self_nonneg x.2.1, mul_self_nonneg x.2.2]
    have h3 : x.2.2 = 0 := by nlinarith [mul_self_nonneg x.1, mul_self_nonneg x.2.1, mul_self_nonneg x.2.2]
    exact Prod.ext h1 (Prod.ext h2 h3)

theorem exInd_hyp : MinresHyp exInd where
  ls := ⟨exInd_inner, exInd_inner⟩
  sa := by intro x y; simp [exInd]; ring

theorem exInd_eig (μ : ℝ) (h : IsSysEig exInd μ) : μ ∈ [(-1 : ℝ), 2, 8] := by
  obtain ⟨⟨x, y, z⟩, hx, hxe⟩ := h
  have k1 := congrArg Prod.fst hxe
  have k2 := congrArg (fun p => p.2.1) hxe
  have k3 := congrArg (fun p => p.2.2) hxe
  simp [exInd] at k1 k2 k3
  by_cases hx0 : x = 0
  · by_cases hy0 : y = 0
    · have hz0 : z ≠ 0 := fun h => hx (by rw [hx0, hy0, h]; rfl)
      have : μ = 8 := (k3.resolve_right hz0).symm
      simp [this]
    · have : μ = 2 := (k2.resolve_right hy0).symm
      simp [this]
  · have : μ = -1 := mul_right_cancel₀ hx0 (by linarith)
    simp [this]

/-- All residuals after two steps have norm at least `27/√33`. -/
theorem exInd_two {x : ℝ × ℝ × ℝ} (hx : x ∈ searchSpace exInd 0 2) : 729 ≤ 33 * resid exInd x ^ 2 := by
  obtain ⟨z, hz, rfl⟩ := hx
  rw [krylov_eq_spanTo, mem_spanTo_iff] at hz
  obtain ⟨c, rfl⟩ := hz
  have h2 : resid exInd (0 + exInd.Mr (∑ i ∈ Finset.range 2, c i •
      ((exInd.M ∘ₗ exInd.Ml ∘ₗ exInd.A ∘ₗ exInd.Mr) ^ i) (exInd.M (exInd.Ml (exInd.b - exInd.A 0))))) ^ 2 =
      (4 * (1 + c 0 - c 1)) ^ 2 + (3 * (1 - 2 * c 0 - 4 * c 1)) ^ 2 + (1 - 8 * c 0 - 64 * c 1) ^ 2 := by
    unfold resid
    have : IsInner fun x y => exInd.ip x (exInd.M y) := exInd_hyp.ls.prec
    rw [this.nrm_sq]
    simp [nsq, exInd, Finset.sum_range_succ]
    ring
  rw [h2]
  nlinarith [sq_nonneg (4 * (1 + c 0 - c 1) - 3 * (1 - 2 * c 0 - 4 * c 1)),
    sq_nonneg (4 * (1 + c 0 - c 1) + 4 * (1 - 8 * c 0 - 64 * c 1)),
    sq_nonneg (3 * (1 - 2 * c 0 - 4 * c 1) + 4 * (1 - 8 * c 0 - 64 * c 1))]

/-- Finding (C53): the bound of `BoundMinres` is not a bound if the two intervals around the eigenvalues have different
lengths.  For `A = diag(-1, 2, 8)`, `b = (4, 3, 1)` the object promises a reduction of the residual norm by `2/3` in two
steps, but the residual norm of the second MINRES iterate is more than `23/25` of the initial one. -/
theorem C53_minres_counterexample : ∃ (s : LS ℝ (ℝ × ℝ × ℝ)) (st : St ℝ (ℝ × ℝ × ℝ) (MinresSt ℝ (ℝ × ℝ × ℝ))) (bd : Bound),
    MinresHyp exInd ∧ mkLS exInd = .ok s ∧
    (minres s s.hooks .lanczos ⟨none, 0, 2, false, none⟩ = .returned st ∨
      minres s s.hooks .lanczos ⟨none, 0, 2, false, none⟩ = .convergence st) ∧
    (∀ μ, IsSysEig exInd μ → μ ∈ [(-1 : ℝ), 2, 8]) ∧ boundMinres (.array (toC [-1, 2, 8])) = .ok bd ∧
    ∃ hi : 2 < st.resnorms.length, bd.evalStep 2 = 2 / 3 ∧
      23 / 25 * resid exInd 0 < st.resnorms[2] * resid exInd 0 := by
  obtain ⟨s, hs, ok, -⟩ := mkLS_ok exInd_hyp.ls
  have hb : exInd.Ml exInd.b ≠ 0 := by simp [exInd]
  have hp : (0 : ℝ) ≤ (⟨none, 0, 2, false, none⟩ : SolverArgs (ℝ × ℝ × ℝ)).tol := le_rfl
  obtain ⟨st, hst⟩ := C29_total exInd_hyp hs .lanczos ⟨none, 0, 2, false, none⟩ hp hb (by
    intro x hx
    have k1 := congrArg Prod.fst hx
    have k2 := congrArg (fun p => p.2.1) hx
    have k3 := congrArg (fun p => p.2.2) hx
    simp [exInd] at k1 k2 k3
    exact Prod.ext k1 (Prod.ext k2 k3))
  obtain ⟨x, hx, hmr, -, hlen, hle⟩ := C29_optimal exInd_hyp hs .lanczos ⟨none, 0, 2, false, none⟩ hp hb hst
  have hr0 : resid exInd 0 ^ 2 = 26 := by
    unfold resid
    have : IsInner fun x y => exInd.ip x (exInd.M y) := exInd_hyp.ls.prec
    rw [this.nrm_sq]
    simp [nsq, exInd]
    norm_num
  have hnn : 0 ≤ resid exInd 0 := nrm_nonneg _ _
  -- the number of iterations
  have hit : st.s.arn.iter = 2 := by
    by_contra hne
    change st.s.arn.iter ≤ 2 at hle
    have hlt : st.resnorms.length ≤ 2 := by omega
    have hsmall : ¬ ∃ r, st.resnorms.getLast? = some r ∧ ¬ (0 : ℝ) < r := by
      rintro ⟨r, hr, hr'⟩
      have h1 := hmr.attains r hr
      have h2 : 0 ≤ resid exInd x := nrm_nonneg _ _
      have h3 : resid exInd x = 0 := by nlinarith [not_lt.mp hr']
      have h4 := exInd_two (searchSpace_mono (by omega : st.resnorms.length - 1 ≤ 2) hmr.mem)
      rw [h3] at h4
      norm_num at h4
    have hcall := C22_minres s s.hooks .lanczos ⟨none, 0, 2, false, none⟩
    rcases hst with hst | hst
    · obtain ⟨-, r, hr, hor⟩ := hcall.returned (by norm_num [mkCfg]) st hst
      rcases hor with hor | hinv
      · exact hsmall ⟨r, hr, hor⟩
      · have hreach := minres_reach exInd_hyp hs ⟨none, 0, 2, false, none⟩ hp hb (Or.inl hst)
        have hah := ok.arnHyp (exInd_hyp.gmres .lanczos) 2
        have hv : exInd.Ml (exInd.b - exInd.A 0) ≠ 0 := by simp [exInd]
        have hpos : st.s.arn.iter = 1 := by
          by_contra h0
          have h00 : st.s.arn.iter = 0 := by omega
          exact hv ((ArnInv.facts hah hreach).start hinv h00)
        have := first_flagged hah hv hreach hpos hinv
        have hA : (s.arnCfg s.hooks 2 .lanczos).A = exInd.Ml ∘ₗ exInd.A ∘ₗ exInd.Mr := by
          simp only [LS.arnCfg, LS.hooks, ok.op_eq]
        have hM : (s.arnCfg s.hooks 2 .lanczos).Mop = exInd.M := by simp [LS.arnCfg, ArnCfg.Mop, ok.M]
        have hg : (s.arnCfg s.hooks 2 .lanczos).g = fun x y => exInd.ip x (exInd.M y) := by
          funext x y
          simp [ArnCfg.g, LS.arnCfg, ArnCfg.Mop, ok.M, ok.ip]
        rw [hA, hM, hg] at this
        simp [nsq, exInd] at this
        norm_num at this
    · obtain ⟨-, h1, -⟩ := hcall.convergence st hst
      have h1' : st.resnorms.length = 3 := h1
      omega
  have hG : IsGreatest {y : ℝ | ∃ x ∈ [(-1 : ℝ), 2, 8], y = |x|} 8 := ⟨⟨8, by simp, by norm_num⟩, by
    rintro y ⟨x, hx, rfl⟩; simp at hx; rcases hx with rfl | rfl | rfl <;> norm_num⟩
  have hty : tiny * 8 < 1 := by unfold tiny; norm_num
  have hty' := tiny_pos
  have hbd := C46_minres [-1, 2, 8] ⟨-1, by simp, by linarith⟩ hG (l1 := -1) (ls := -1) (lt := 2) (lN := 8)
    ⟨⟨by simp, by linarith⟩, by rintro x ⟨hx, hx0⟩; simp at hx; rcases hx with rfl | rfl | rfl <;> norm_num⟩
    ⟨⟨by simp, by linarith⟩, by rintro x ⟨hx, hx0⟩; simp at hx; rcases hx with rfl | rfl | rfl <;> linarith⟩
    ⟨⟨by simp, by linarith⟩, by rintro x ⟨hx, hx0⟩; simp at hx; rcases hx with rfl | rfl | rfl <;> linarith⟩
    ⟨⟨by simp, by linarith⟩, by rintro x ⟨hx, hx0⟩; simp at hx; rcases hx with rfl | rfl | rfl <;> linarith⟩
  refine ⟨s, st, _, exInd_hyp, hs, hst, exInd_eig, hbd, by omega, ?_, ?_⟩
  · have := evalStep_minres (minresFactor (-1) (-1) 2 8) 2
    rw [Nat.cast_ofNat] at this
    rw [this]
    have e1 : Real.sqrt |(-1 : ℝ) * 8| = 2 * Real.sqrt 2 := by
      rw [show |(-1 : ℝ) * 8| = 2 ^ 2 * 2 by norm_num, Real.sqrt_mul (by norm_num), Real.sqrt_sq (by norm_num)]
    have e2 : Real.sqrt |(-1 : ℝ) * 2| = Real.sqrt 2 := by norm_num
    have h2 : 0 < Real.sqrt 2 := by positivity
    unfold minresFactor
    rw [e1, e2]
    field_simp
    norm_num
  · obtain ⟨y, hy, hye⟩ := (hmr.minima 2 (by omega)).1
    have h1 := exInd_two hy
    rw [hye] at h1
    have h2 : (0 : ℝ) ≤ st.resnorms[2] * resid exInd 0 := by rw [← hye]; exact nrm_nonneg _ _
    refine lt_of_pow_lt_pow_left₀ 2 h2 ?_
    rw [mul_pow, hr0]
    linarith

end Krypy
