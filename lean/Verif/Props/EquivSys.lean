import Verif.Props.IterCount

/-!
# Property C76: equivalent systems

The iterates and the residual norms of `Gmres`, `Minres` and `Cg` (linsys.py 520-1018) depend on the mathematical problem only, not on the way it is
handed over.  `SysMap` says when two systems (possibly on different spaces) describe the same problem: the Krylov coordinates are related by a
linear map `J` and the residuals by a linear map `R`.  Then the residual norms are the same up to one factor, the iterates are images of each other and
the numbers of iterations agree.

Instances: absorbing `Ml` and `Mr` in the operator; solving for the correction of the initial guess; scaling of the operator, of the right hand side, of
the preconditioner and of the inner product; a change of the basis; a preconditioner `M = L L*` replaced with the split preconditioner `Ml = L*`,
`Mr = L`; a preconditioner `M` replaced with the left preconditioner `Ml = M` and the inner product `⟨·, M⁻¹ ·⟩` of `get_ip_Minv_B`
(linsys.py 112-118, 203-215).
-/

set_option linter.unusedSectionVars false

namespace Krypy
variable {𝕜 E F : Type*} [RCLike 𝕜] [AddCommGroup E] [Module 𝕜 E] [AddCommGroup F] [Module 𝕜 F]
open ComplexConjugate

/-! ## Specification -/

/-- The system `a'` with the initial guess `x0'` is the image of the system `a` with the initial guess `x0`: residuals are mapped by `R`, corrections
(before `Mr` is applied) by `J`. -/
structure SysMap (a : LSArgs 𝕜 E) (x0 : E) (a' : LSArgs 𝕜 F) (x0' : F) (J R : E →ₗ[𝕜] F) (α c : 𝕜) (δ : ℝ) : Prop where
  pos : 0 < δ
  scale : α * conj c = ((δ ^ 2 : ℝ) : 𝕜)
  start : a'.Ml (a'.b - a'.A x0') = R (a.Ml (a.b - a.A x0))
  op : ∀ y, a'.Ml (a'.A (a'.Mr (J y))) = R (a.Ml (a.A (a.Mr y)))
  prec : ∀ r, a'.M (R r) = α • J (a.M r)
  ip : ∀ z r, a'.ip (J z) (R r) = c * a.ip z r

/-! ## Lemmas -/

section general
variable {a : LSArgs 𝕜 E} {x0 : E} {a' : LSArgs 𝕜 F} {x0' : F} {J R : E →ₗ[𝕜] F} {α c : 𝕜} {δ : ℝ}

theorem SysMap.alpha_ne (m : SysMap a x0 a' x0' J R α c δ) : α ≠ 0 := by
  rintro rfl
  have h := m.scale
  rw [zero_mul] at h
  have : (δ ^ 2 : ℝ) = 0 := by exact_mod_cast h.symm
  exact absurd this (pow_pos m.pos 2).ne'

theorem SysMap.residual (m : SysMap a x0 a' x0' J R α c δ) (y : E) :
    a'.Ml (a'.b - a'.A (x0' + a'.Mr (J y))) = R (a.Ml (a.b - a.A (x0 + a.Mr y))) := by
  have h1 := m.start
  have h2 := m.op y
  simp only [map_sub, map_add] at h1 h2 ⊢
  rw [h2, sub_add_eq_sub_sub, h1, sub_add_eq_sub_sub]

/-- Norms of images. -/
theorem SysMap.form (m : SysMap a x0 a' x0' J R α c δ) (h : IsInner a.ip) (h' : IsInner a'.ip) (r s : E) :
    a'.ip (R r) (a'.M (R s)) = ((δ ^ 2 : ℝ) : 𝕜) * a.ip r (a.M s) := by
  rw [m.prec, h'.smul_right, ← h'.conj_symm, m.ip, map_mul, h.conj_symm, ← mul_assoc, m.scale]

theorem SysMap.nrm (m : SysMap a x0 a' x0' J R α c δ) (h : IsInner a.ip) (h' : IsInner a'.ip) (r : E) :
    nrm (fun x y => a'.ip x (a'.M y)) (R r) = δ * nrm (fun x y => a.ip x (a.M y)) r := by
  unfold Krypy.nrm nsq
  simp only [m.form h h', RCLike.re_ofReal_mul]
  rw [Real.sqrt_mul (by positivity), Real.sqrt_sq m.pos.le]

theorem SysMap.resid (m : SysMap a x0 a' x0' J R α c δ) (h : IsInner a.ip) (h' : IsInner a'.ip) (y : E) :
    resid a' (x0' + a'.Mr (J y)) = δ * resid a (x0 + a.Mr y) := by
  unfold Krypy.resid
  rw [m.residual, m.nrm h h']

theorem SysMap.power (m : SysMap a x0 a' x0' J R α c δ) (i : ℕ) :
    ((a'.M ∘ₗ a'.Ml ∘ₗ a'.A ∘ₗ a'.Mr) ^ i) (a'.M (a'.Ml (a'.b - a'.A x0'))) =
      α ^ (i + 1) • J (((a.M ∘ₗ a.Ml ∘ₗ a.A ∘ₗ a.Mr) ^ i) (a.M (a.Ml (a.b - a.A x0)))) := by
  induction i with
  | zero => simp only [pow_zero, Module.End.one_apply, zero_add, pow_one]; rw [m.start, m.prec]
  | succ i ih =>
    rw [pow_succ', Module.End.mul_apply, ih, map_smul]
    simp only [LinearMap.comp_apply]
    rw [m.op, m.prec, smul_smul, ← pow_succ, pow_succ' (a.M ∘ₗ a.Ml ∘ₗ a.A ∘ₗ a.Mr), Module.End.mul_apply]
    rfl

/-- Krylov subspaces are mapped onto each other. -/
theorem SysMap.kry (m : SysMap a x0 a' x0' J R α c δ) (n : ℕ) : kry a' x0' n = (kry a x0 n).map J := by
  unfold Krypy.kry krylov
  rw [Submodule.map_span]
  apply le_antisymm
  · rw [Submodule.span_le]
    rintro x ⟨i, hi, rfl⟩
    rw [m.power i]
    exact Submodule.smul_mem _ _ (Submodule.subset_span ⟨_, ⟨i, hi, rfl⟩, rfl⟩)
  · rw [Submodule.span_le]
    rintro - ⟨x, ⟨i, hi, rfl⟩, rfl⟩
    have h1 := m.power i
    have h2 : J (((a.M ∘ₗ a.Ml ∘ₗ a.A ∘ₗ a.Mr) ^ i) (a.M (a.Ml (a.b - a.A x0)))) = (α ^ (i + 1))⁻¹ •
        ((a'.M ∘ₗ a'.Ml ∘ₗ a'.A ∘ₗ a'.Mr) ^ i) (a'.M (a'.Ml (a'.b - a'.A x0'))) := by
      rw [h1, smul_smul, inv_mul_cancel₀ (pow_ne_zero _ m.alpha_ne), one_smul]
    rw [SetLike.mem_coe, h2]
    exact Submodule.smul_mem _ _ (Submodule.subset_span ⟨i, hi, rfl⟩)

theorem SysMap.image (m : SysMap a x0 a' x0' J R α c δ) (h : IsInner a.ip) (h' : IsInner a'.ip) (n : ℕ) :
    Krypy.resid a' '' searchSpace a' x0' n = (fun r => δ * r) '' (Krypy.resid a '' searchSpace a x0 n) := by
  have hk := m.kry n
  unfold Krypy.kry at hk
  ext r
  unfold searchSpace
  rw [hk]
  constructor
  · rintro ⟨x, ⟨z, ⟨y, hy, rfl⟩, rfl⟩, rfl⟩
    exact ⟨_, ⟨_, ⟨y, hy, rfl⟩, rfl⟩, (m.resid h h' y).symm⟩
  · rintro ⟨-, ⟨x, ⟨y, hy, rfl⟩, rfl⟩, rfl⟩
    exact ⟨_, ⟨J y, ⟨y, hy, rfl⟩, rfl⟩, m.resid h h' y⟩

/-- Minimal residual approximations are unique if the operator is injective. -/
theorem minRes_unique {a : LSArgs 𝕜 E} (h : LSHyp a.ip a.M) (hinj : ∀ x, a.Ml (a.A (a.Mr x)) = 0 → x = 0) {x0 : E} {n : ℕ}
    {t : ℝ} (ht : IsLeast (Krypy.resid a '' searchSpace a x0 n) t) {y z : E} (hy : y ∈ kry a x0 n) (hz : z ∈ kry a x0 n)
    (hyt : Krypy.resid a (x0 + a.Mr y) = t) (hzt : Krypy.resid a (x0 + a.Mr z) = t) : y = z := by
  have hw : (2⁻¹ : 𝕜) • (y + z) ∈ kry a x0 n := Submodule.smul_mem _ _ (Submodule.add_mem _ hy hz)
  have hm := ht.2 ⟨_, ⟨_, hw, rfl⟩, rfl⟩
  have ht0 : 0 ≤ t := by rw [← hyt]; exact nrm_nonneg _ _
  have key : ∀ w, a.Ml (a.b - a.A (x0 + a.Mr w)) = a.Ml (a.b - a.A x0) - a.Ml (a.A (a.Mr w)) := fun w => by
    simp only [map_add, map_sub]; abel
  unfold Krypy.resid at hyt hzt hm
  rw [key] at hyt hzt hm
  set r := a.Ml (a.b - a.A x0)
  set u := a.Ml (a.A (a.Mr y)) with hu
  set v := a.Ml (a.A (a.Mr z)) with hv
  have hmid : r - a.Ml (a.A (a.Mr ((2⁻¹ : 𝕜) • (y + z)))) = (2⁻¹ : 𝕜) • ((r - u) + (r - v)) := by
    have h2 : r = (2⁻¹ : 𝕜) • (r + r) := by
      rw [← two_smul 𝕜 r, smul_smul, inv_mul_cancel₀ two_ne_zero, one_smul]
    simp only [map_smul, map_add]
    rw [← hu, ← hv]
    conv_lhs => rw [h2]
    rw [← smul_sub]
    congr 1
    abel
  rw [hmid] at hm
  have e1 := h.prec.nrm_sq (r - u)
  have e2 := h.prec.nrm_sq (r - v)
  have e3 := h.prec.nrm_sq ((2⁻¹ : 𝕜) • ((r - u) + (r - v)))
  rw [h.prec.nsq_smul, h.prec.nsq_add] at e3
  have e4 := h.prec.nsq_sub (r - u) (r - v)
  rw [hyt] at e1
  rw [hzt] at e2
  have hn : ‖(2⁻¹ : 𝕜)‖ = 2⁻¹ := by rw [norm_inv, RCLike.norm_ofNat]
  rw [hn] at e3
  have h5 : t ^ 2 ≤ Krypy.nrm (fun x y => a.ip x (a.M y)) ((2⁻¹ : 𝕜) • ((r - u) + (r - v))) ^ 2 := by
    exact pow_le_pow_left₀ ht0 hm 2
  have h6 := h.prec.nsq_nonneg ((r - u) - (r - v))
  have h7 : nsq (fun x y => a.ip x (a.M y)) ((r - u) - (r - v)) = 0 := by
    apply le_antisymm _ h6
    rw [e4]
    linarith
  have h8 := h.prec.nsq_eq_zero.mp h7
  have h9 : a.Ml (a.A (a.Mr (z - y))) = 0 := by
    simp only [map_sub]
    rw [← hu, ← hv, ← h8]
    abel
  exact (sub_eq_zero.mp (hinj _ h9)).symm

/-- Two specifications of minimal residual histories. -/
theorem SysMap.minRes (m : SysMap a x0 a' x0' J R α c δ) (h : LSHyp a.ip a.M) (h' : LSHyp a'.ip a'.M) {l l' : List ℝ} {x : E} {x' : F}
    (hm : MinRes a x0 l x) (hm' : MinRes a' x0' l' x') :
    (∀ i (hi : i < l.length) (hi' : i < l'.length), l'[i] * Krypy.resid a' 0 = δ * (l[i] * Krypy.resid a 0)) ∧
    ((∀ x, a.Ml (a.A (a.Mr x)) = 0 → x = 0) → l.length = l'.length →
      ∃ y ∈ Krypy.kry a x0 (l.length - 1), x = x0 + a.Mr y ∧ x' = x0' + a'.Mr (J y)) := by
  have h1 : ∀ i (hi : i < l.length) (hi' : i < l'.length), l'[i] * Krypy.resid a' 0 = δ * (l[i] * Krypy.resid a 0) := by
    intro i hi hi'
    have e1 := hm.minima i hi
    have e2 := hm'.minima i hi'
    rw [m.image h.inner h'.inner] at e2
    exact e2.unique ((monotone_mul_left_of_nonneg m.pos.le).map_isLeast e1)
  refine ⟨h1, fun hinj hl => ?_⟩
  obtain ⟨y, hy, hxy⟩ := hm.mem
  obtain ⟨z', hz', hxz⟩ := hm'.mem
  have hk : Krypy.kry a' x0' (l'.length - 1) = (Krypy.kry a x0 (l'.length - 1)).map J := m.kry _
  have hz'' : z' ∈ Krypy.kry a' x0' (l'.length - 1) := hz'
  rw [hk, ← hl] at hz''
  obtain ⟨z, hz, rfl⟩ := hz''
  have hpos : 0 < l.length := List.length_pos_of_ne_nil hm.nonempty
  have hlast : l.getLast? = some (l[l.length - 1]'(by omega)) := by
    rw [List.getLast?_eq_getElem?, List.getElem?_eq_getElem (by omega)]
  have hlast' : l'.getLast? = some (l'[l.length - 1]'(by omega)) := by
    rw [List.getLast?_eq_getElem?, show l'.length - 1 = l.length - 1 by omega, List.getElem?_eq_getElem (by omega)]
  have e1 := hm.attains _ hlast
  have e2 := hm'.attains _ hlast'
  rw [hxz, m.resid h.inner h'.inner, h1 _ (by omega) (by omega)] at e2
  have e3 := mul_left_cancel₀ m.pos.ne' e2
  rw [hxy] at e1
  have hyz : y = z := minRes_unique h hinj (hm.minima (l.length - 1) (by omega)) hy hz e1 e3
  exact ⟨y, hy, hxy, by rw [hxz, hyz]⟩

theorem SysMap.reached (m : SysMap a x0 a' x0' J R α c δ) (h : LSHyp a.ip a.M) (h' : LSHyp a'.ip a'.M) {tol tol' : ℝ}
    (ht : tol' * Krypy.resid a' 0 = δ * (tol * Krypy.resid a 0)) (n : ℕ) : ReachedIn a' x0' tol' n ↔ ReachedIn a x0 tol n := by
  have hk : Krypy.kry a' x0' n = (Krypy.kry a x0 n).map J := m.kry _
  unfold ReachedIn
  constructor
  · rintro ⟨x, ⟨z, hz, rfl⟩, hx⟩
    have hz' : z ∈ Krypy.kry a' x0' n := hz
    rw [hk] at hz'
    obtain ⟨y, hy, rfl⟩ := hz'
    rw [m.resid h.inner h'.inner, ht] at hx
    exact ⟨_, ⟨y, hy, rfl⟩, le_of_mul_le_mul_left hx m.pos⟩
  · rintro ⟨x, ⟨y, hy, rfl⟩, hx⟩
    refine ⟨_, ⟨J y, ?_, rfl⟩, ?_⟩
    · have : J y ∈ Krypy.kry a' x0' n := by rw [hk]; exact ⟨y, hy, rfl⟩
      exact this
    · rw [m.resid h.inner h'.inner, ht]
      exact mul_le_mul_of_nonneg_left hx m.pos.le

/-! ## The solvers -/

/-- C76: `Gmres` on equivalent systems: the residual norms agree up to one common factor (as far as both run), and, for injective operators and runs of
the same length, the approximate solutions belong to the same element of the Krylov subspace.  `tol`, `maxiter`, `ortho`, `explicit_residual` and the exact
solution may differ. -/
theorem C76_gmres (m : SysMap a x0 a' x0' J R α c δ) {o o' : Ortho} (h : GmresHyp a o) (h' : GmresHyp a' o')
    {s : LS 𝕜 E} (hs : mkLS a = .ok s) {s' : LS 𝕜 F} (hs' : mkLS a' = .ok s') (p : SolverArgs E) (p' : SolverArgs F)
    (hx0 : p.x0.getD 0 = x0) (hx0' : p'.x0.getD 0 = x0') (htol : 0 ≤ p.tol) (htol' : 0 ≤ p'.tol) (hb : a.Ml a.b ≠ 0) (hb' : a'.Ml a'.b ≠ 0)
    {st : St ℝ E (GmresSt 𝕜 E)} {st' : St ℝ F (GmresSt 𝕜 F)}
    (hrun : gmres s s.hooks o p = .returned st ∨ gmres s s.hooks o p = .convergence st)
    (hrun' : gmres s' s'.hooks o' p' = .returned st' ∨ gmres s' s'.hooks o' p' = .convergence st') :
    (∀ i (hi : i < st.resnorms.length) (hi' : i < st'.resnorms.length),
      st'.resnorms[i] * Krypy.resid a' 0 = δ * (st.resnorms[i] * Krypy.resid a 0)) ∧
    ((∀ x, a.Ml (a.A (a.Mr x)) = 0 → x = 0) → st.resnorms.length = st'.resnorms.length →
      ∃ y ∈ Krypy.kry a x0 (st.resnorms.length - 1), st.xk = some (x0 + a.Mr y) ∧ st'.xk = some (x0' + a'.Mr (J y))) := by
  obtain ⟨x, hx, hm, -⟩ := C26_optimal h hs p htol hb hrun
  obtain ⟨x', hx', hm', -⟩ := C26_optimal h' hs' p' htol' hb' hrun'
  rw [hx0] at hm
  rw [hx0'] at hm'
  obtain ⟨h1, h2⟩ := m.minRes h.ls h'.ls hm hm'
  refine ⟨h1, fun hinj hl => ?_⟩
  obtain ⟨y, hy, h3, h4⟩ := h2 hinj hl
  exact ⟨y, hy, by rw [hx, h3], by rw [hx', h4]⟩

/-- C76: the same for `Minres`. -/
theorem C76_minres (m : SysMap a x0 a' x0' J R α c δ) (o o' : Ortho) (h : MinresHyp a) (h' : MinresHyp a')
    {s : LS 𝕜 E} (hs : mkLS a = .ok s) {s' : LS 𝕜 F} (hs' : mkLS a' = .ok s') (p : SolverArgs E) (p' : SolverArgs F)
    (hx0 : p.x0.getD 0 = x0) (hx0' : p'.x0.getD 0 = x0') (htol : 0 ≤ p.tol) (htol' : 0 ≤ p'.tol) (hb : a.Ml a.b ≠ 0) (hb' : a'.Ml a'.b ≠ 0)
    {st : St ℝ E (MinresSt 𝕜 E)} {st' : St ℝ F (MinresSt 𝕜 F)}
    (hrun : minres s s.hooks o p = .returned st ∨ minres s s.hooks o p = .convergence st)
    (hrun' : minres s' s'.hooks o' p' = .returned st' ∨ minres s' s'.hooks o' p' = .convergence st') :
    (∀ i (hi : i < st.resnorms.length) (hi' : i < st'.resnorms.length),
      st'.resnorms[i] * Krypy.resid a' 0 = δ * (st.resnorms[i] * Krypy.resid a 0)) ∧
    ((∀ x, a.Ml (a.A (a.Mr x)) = 0 → x = 0) → st.resnorms.length = st'.resnorms.length →
      ∃ y ∈ Krypy.kry a x0 (st.resnorms.length - 1), st.xk = some (x0 + a.Mr y) ∧ st'.xk = some (x0' + a'.Mr (J y))) := by
  obtain ⟨x, hx, hm, -⟩ := C29_optimal h hs o p htol hb hrun
  obtain ⟨x', hx', hm', -⟩ := C29_optimal h' hs' o' p' htol' hb' hrun'
  rw [hx0] at hm
  rw [hx0'] at hm'
  obtain ⟨h1, h2⟩ := m.minRes h.ls h'.ls hm hm'
  refine ⟨h1, fun hinj hl => ?_⟩
  obtain ⟨y, hy, h3, h4⟩ := h2 hinj hl
  exact ⟨y, hy, by rw [hx, h3], by rw [hx', h4]⟩

/-- C76: with corresponding tolerances, `Gmres` needs the same number of iterations on equivalent systems. -/
theorem C76_gmres_count (m : SysMap a x0 a' x0' J R α c δ) {o o' : Ortho} (h : GmresHyp a o) (h' : GmresHyp a' o')
    {s : LS 𝕜 E} (hs : mkLS a = .ok s) {s' : LS 𝕜 F} (hs' : mkLS a' = .ok s') (p : SolverArgs E) (p' : SolverArgs F)
    (hx0 : p.x0.getD 0 = x0) (hx0' : p'.x0.getD 0 = x0') (htol : 0 ≤ p.tol) (htol' : 0 ≤ p'.tol) (hb : a.Ml a.b ≠ 0) (hb' : a'.Ml a'.b ≠ 0)
    (ht : p'.tol * Krypy.resid a' 0 = δ * (p.tol * Krypy.resid a 0))
    {st : St ℝ E (GmresSt 𝕜 E)} {st' : St ℝ F (GmresSt 𝕜 F)}
    (hrun : gmres s s.hooks o p = .returned st) (hr : ∃ r, st.resnorms.getLast? = some r ∧ r ≤ p.tol)
    (hrun' : gmres s' s'.hooks o' p' = .returned st') (hr' : ∃ r, st'.resnorms.getLast? = some r ∧ r ≤ p'.tol) :
    st.resnorms.length = st'.resnorms.length := by
  have h1 := C70_gmres_count h hs p htol hb hrun hr
  have h2 := C70_gmres_count h' hs' p' htol' hb' hrun' hr'
  rw [hx0'] at h2
  rw [hx0] at h1
  simp only [m.reached h.ls h'.ls ht] at h2
  have h3 := h1.unique h2
  obtain ⟨x, -, hm, -⟩ := C26_optimal h hs p htol hb (Or.inl hrun)
  obtain ⟨x', -, hm', -⟩ := C26_optimal h' hs' p' htol' hb' (Or.inl hrun')
  have := List.length_pos_of_ne_nil hm.nonempty
  have := List.length_pos_of_ne_nil hm'.nonempty
  omega

/-- C76: the same for `Minres`. -/
theorem C76_minres_count (m : SysMap a x0 a' x0' J R α c δ) (o o' : Ortho) (h : MinresHyp a) (h' : MinresHyp a')
    {s : LS 𝕜 E} (hs : mkLS a = .ok s) {s' : LS 𝕜 F} (hs' : mkLS a' = .ok s') (p : SolverArgs E) (p' : SolverArgs F)
    (hx0 : p.x0.getD 0 = x0) (hx0' : p'.x0.getD 0 = x0') (htol : 0 ≤ p.tol) (htol' : 0 ≤ p'.tol) (hb : a.Ml a.b ≠ 0) (hb' : a'.Ml a'.b ≠ 0)
    (ht : p'.tol * Krypy.resid a' 0 = δ * (p.tol * Krypy.resid a 0))
    {st : St ℝ E (MinresSt 𝕜 E)} {st' : St ℝ F (MinresSt 𝕜 F)}
    (hrun : minres s s.hooks o p = .returned st) (hr : ∃ r, st.resnorms.getLast? = some r ∧ r ≤ p.tol)
    (hrun' : minres s' s'.hooks o' p' = .returned st') (hr' : ∃ r, st'.resnorms.getLast? = some r ∧ r ≤ p'.tol) :
    st.resnorms.length = st'.resnorms.length := by
  have h1 := C70_minres_count h hs o p htol hb hrun hr
  have h2 := C70_minres_count h' hs' o' p' htol' hb' hrun' hr'
  rw [hx0'] at h2
  rw [hx0] at h1
  simp only [m.reached h.ls h'.ls ht] at h2
  have h3 := h1.unique h2
  obtain ⟨x, -, hm, -⟩ := C29_optimal h hs o p htol hb (Or.inl hrun)
  obtain ⟨x', -, hm', -⟩ := C29_optimal h' hs' o' p' htol' hb' (Or.inl hrun')
  have := List.length_pos_of_ne_nil hm.nonempty
  have := List.length_pos_of_ne_nil hm'.nonempty
  omega

/-- C76: `Cg` on equivalent systems: all iterates correspond (`ys'_i = J ys_i`), all residuals are images (`rs'_i = R rs_i`), and the residual norms agree up
to one common factor. -/
theorem C76_cg (m : SysMap a x0 a' x0' J R α c δ) (h : SpdHyp a) (h' : SpdHyp a') (store store' : Bool)
    {s : LS 𝕜 E} (hs : mkLS a = .ok s) {s' : LS 𝕜 F} (hs' : mkLS a' = .ok s') (p : SolverArgs E) (p' : SolverArgs F)
    (hx0 : p.x0.getD 0 = x0) (hx0' : p'.x0.getD 0 = x0') (htol : 0 ≤ p.tol) (htol' : 0 ≤ p'.tol) (hb : a.Ml a.b ≠ 0) (hb' : a'.Ml a'.b ≠ 0)
    {st : St ℝ E (CgSt 𝕜 E)} {st' : St ℝ F (CgSt 𝕜 F)}
    (hrun : cg s s.hooks store p = .returned st ∨ cg s s.hooks store p = .convergence st)
    (hrun' : cg s' s'.hooks store' p' = .returned st' ∨ cg s' s'.hooks store' p' = .convergence st') :
    (∀ i (hi : i < st.resnorms.length) (hi' : i < st'.resnorms.length), st'.s.ys i = J (st.s.ys i) ∧ st'.s.rs i = R (st.s.rs i) ∧
      st'.resnorms[i] * Krypy.resid a' 0 = δ * (st.resnorms[i] * Krypy.resid a 0)) ∧
    (st.resnorms.length = st'.resnorms.length → ∃ y ∈ Krypy.kry a x0 (st.resnorms.length - 1),
      st.xk = some (x0 + a.Mr y) ∧ st'.xk = some (x0' + a'.Mr (J y))) := by
  subst hx0 hx0'
  obtain ⟨hl, -, -⟩ := cg_loop h hs store p htol hb hrun
  obtain ⟨hl', -, -⟩ := cg_loop h' hs' store' p' htol' hb' hrun'
  have hlen := hl.len
  have hlen' := hl'.len
  have r1 := C31_residuals h hs store p htol hb hrun
  have r2 := C31_residuals h' hs' store' p' htol' hb' hrun'
  have hy : ∀ i (_ : i < st.resnorms.length) (_ : i < st'.resnorms.length), st'.s.ys i = J (st.s.ys i) := by
    intro i hi hi'
    have g1 := hl.inv.galerkin (h.cgHyp _) i (by omega)
    have g2 := hl'.inv.galerkin (h'.cgHyp _) i (by omega)
    have k1 : st.s.ys i ∈ Krypy.kry a (p.x0.getD 0) i := hl.inv.ys_mem (h.cgHyp _) i (by omega)
    have k2 : st'.s.ys i ∈ Krypy.kry a' (p'.x0.getD 0) i := hl'.inv.ys_mem (h'.cgHyp _) i (by omega)
    rw [m.kry] at k2
    obtain ⟨z, hz, hz'⟩ := k2
    have hd : z - st.s.ys i ∈ Krypy.kry a (p.x0.getD 0) i := Submodule.sub_mem _ hz k1
    have hJd : J (z - st.s.ys i) ∈ Krypy.kry a' (p'.x0.getD 0) i := by rw [m.kry]; exact ⟨_, hd, rfl⟩
    have e1 := g2 _ hJd
    rw [← hz'] at e1
    simp only [LinearMap.comp_apply] at e1
    rw [m.op, m.start, ← map_sub, m.ip] at e1
    have hc : c ≠ 0 := by
      rintro rfl
      have := m.scale
      rw [map_zero, mul_zero] at this
      have : (δ ^ 2 : ℝ) = 0 := by exact_mod_cast this.symm
      exact absurd this (pow_pos m.pos 2).ne'
    have e2 := (mul_eq_zero.mp e1).resolve_left hc
    have e3 := g1 _ hd
    simp only [LinearMap.comp_apply] at e3
    have e4 : a.ip (z - st.s.ys i) (a.Ml (a.A (a.Mr (z - st.s.ys i)))) = 0 := by
      have : a.Ml (a.A (a.Mr (z - st.s.ys i))) = (a.Ml (a.b - a.A (p.x0.getD 0)) - a.Ml (a.A (a.Mr (st.s.ys i)))) -
          (a.Ml (a.b - a.A (p.x0.getD 0)) - a.Ml (a.A (a.Mr z))) := by
        simp only [map_sub]; abel
      rw [this, h.ls.inner.sub_right, e2, e3, sub_zero]
    have e5 : z - st.s.ys i = 0 := by
      by_contra hne
      have := h.pos _ hne
      rw [e4] at this
      simp at this
    rw [← hz', sub_eq_zero.mp e5]
  have hmain : ∀ i (hi : i < st.resnorms.length) (hi' : i < st'.resnorms.length), st'.s.rs i = R (st.s.rs i) ∧
      st'.resnorms[i] * Krypy.resid a' 0 = δ * (st.resnorms[i] * Krypy.resid a 0) := by
    intro i hi hi'
    rw [(r1.1 i hi).2, (r1.1 i hi).1, (r2.1 i hi').2, (r2.1 i hi').1, hy i hi hi']
    exact ⟨m.residual _, m.resid h.ls.inner h'.ls.inner _⟩
  refine ⟨fun i hi hi' => ⟨hy i hi hi', hmain i hi hi'⟩, fun hl => ?_⟩
  have x1 := C30_optimal h hs store p htol hb hrun
  have x2 := C30_optimal h' hs' store' p' htol' hb' hrun'
  have hpos : 0 < st.resnorms.length := by omega
  refine ⟨st.s.ys (st.resnorms.length - 1), (x1.2 _ (by omega)).1, x1.1, ?_⟩
  rw [x2.1, ← hl, hy _ (by omega) (by omega)]

/-- C76: with corresponding tolerances, `Cg` needs the same number of iterations on equivalent systems. -/
theorem C76_cg_count (m : SysMap a x0 a' x0' J R α c δ) (h : SpdHyp a) (h' : SpdHyp a') (store store' : Bool)
    {s : LS 𝕜 E} (hs : mkLS a = .ok s) {s' : LS 𝕜 F} (hs' : mkLS a' = .ok s') (p : SolverArgs E) (p' : SolverArgs F)
    (hx0 : p.x0.getD 0 = x0) (hx0' : p'.x0.getD 0 = x0') (htol : 0 ≤ p.tol) (htol' : 0 ≤ p'.tol) (hb : a.Ml a.b ≠ 0) (hb' : a'.Ml a'.b ≠ 0)
    (ht : p'.tol * Krypy.resid a' 0 = δ * (p.tol * Krypy.resid a 0)) (hmax : 1 ≤ p.maxiter) (hmax' : 1 ≤ p'.maxiter)
    {st : St ℝ E (CgSt 𝕜 E)} {st' : St ℝ F (CgSt 𝕜 F)}
    (hrun : cg s s.hooks store p = .returned st) (hrun' : cg s' s'.hooks store' p' = .returned st') :
    st.resnorms.length = st'.resnorms.length := by
  have hm := (C76_cg m h h' store store' hs hs' p p' hx0 hx0' htol htol' hb hb' (Or.inl hrun) (Or.inl hrun')).1
  have c1 := C22_cg s s.hooks store p
  have c2 := C22_cg s' s'.hooks store' p'
  obtain ⟨-, r, hr, hr1⟩ := c1.returned hmax st hrun
  obtain ⟨-, r', hr', hr1'⟩ := c2.returned hmax' st' hrun'
  simp only [Bool.false_eq_true, or_false, not_lt] at hr1 hr1'
  change r ≤ p.tol at hr1
  change r' ≤ p'.tol at hr1'
  have hp := resid_pos h.ls hb
  have hp' := resid_pos h'.ls hb'
  rw [List.getLast?_eq_getElem?] at hr hr'
  obtain ⟨q1, q2⟩ := List.getElem?_eq_some_iff.mp hr
  obtain ⟨q1', q2'⟩ := List.getElem?_eq_some_iff.mp hr'
  rcases lt_trichotomy st.resnorms.length st'.resnorms.length with hlt | heq | hlt
  · exfalso
    have e1 := c2.earlier st' (Or.inl hrun') (st.resnorms.length - 1) _ (by omega) (List.getElem?_eq_getElem (by omega))
    change p'.tol < _ at e1
    have e2 := (hm (st.resnorms.length - 1) (by omega) (by omega)).2.2
    rw [q2] at e2
    have e3 := mul_lt_mul_of_pos_right e1 hp'
    rw [e2, ht] at e3
    have e4 := lt_of_mul_lt_mul_left e3 m.pos.le
    exact absurd (lt_of_mul_lt_mul_right e4 hp.le) (not_lt.mpr hr1)
  · exact heq
  · exfalso
    have e1 := c1.earlier st (Or.inl hrun) (st'.resnorms.length - 1) _ (by omega) (List.getElem?_eq_getElem (by omega))
    change p.tol < _ at e1
    have e2 := (hm (st'.resnorms.length - 1) (by omega) (by omega)).2.2
    rw [q2'] at e2
    have e3 := mul_lt_mul_of_pos_left (mul_lt_mul_of_pos_right e1 hp) m.pos
    rw [← e2, ← ht] at e3
    exact absurd (lt_of_mul_lt_mul_right e3 hp'.le) (not_lt.mpr hr1')

/-- C76: if also the right hand sides correspond, then the recorded relative residual norms are the same numbers: the factor is the one of the norms
of the right hand sides. -/
theorem C76_relative (m : SysMap a x0 a' x0' J R α c δ) (h : LSHyp a.ip a.M) (h' : LSHyp a'.ip a'.M) (hb : a.Ml a.b ≠ 0)
    (hr : a'.Ml a'.b = R (a.Ml a.b)) (t t' : ℝ) :
    Krypy.resid a' 0 = δ * Krypy.resid a 0 ∧ (t' * Krypy.resid a' 0 = δ * (t * Krypy.resid a 0) ↔ t' = t) := by
  have h1 : Krypy.resid a' 0 = δ * Krypy.resid a 0 := by
    unfold Krypy.resid
    rw [map_zero, map_zero, sub_zero, sub_zero, hr, m.nrm h.inner h'.inner]
  refine ⟨h1, ?_⟩
  rw [h1, mul_left_comm]
  have hp := resid_pos h hb
  exact ⟨fun e => mul_right_cancel₀ hp.ne' (mul_left_cancel₀ m.pos.ne' e), fun e => by rw [e]⟩

/-- C76: the hypotheses of the solvers carry over. -/
theorem C76_hyp (m : SysMap a x0 a' x0' J R α c δ) (hi : IsInner a'.ip) (hJ : Function.Surjective J) (hR : Function.Surjective R)
    (h : LSHyp a.ip a.M) :
    LSHyp a'.ip a'.M ∧ (conj c = c → MinresHyp a → MinresHyp a') ∧ (∀ t : ℝ, 0 < t → c = (t : 𝕜) → SpdHyp a → SpdHyp a') := by
  have hinjR : ∀ r, R r ≠ 0 → r ≠ 0 := fun r hr h0 => hr (by rw [h0, map_zero])
  have hls : LSHyp a'.ip a'.M := by
    refine ⟨hi, ⟨?_, ?_, ?_, ?_⟩⟩
    · intro x y z; rw [map_add, hi.add_right]
    · intro x k y; rw [map_smul, hi.smul_right]
    · intro x y
      obtain ⟨x, rfl⟩ := hR x
      obtain ⟨y, rfl⟩ := hR y
      simp only [m.form h.inner hi, map_mul, RCLike.conj_ofReal]
      rw [h.prec.conj_symm]
    · intro x hx
      obtain ⟨x, rfl⟩ := hR x
      simp only [m.form h.inner hi, RCLike.re_ofReal_mul]
      exact mul_pos (pow_pos m.pos 2) (h.prec.pos x (hinjR x hx))
  have hsa : conj c = c → (∀ x y, a.ip (a.Ml (a.A (a.Mr x))) y = a.ip x (a.Ml (a.A (a.Mr y)))) →
      ∀ x y, a'.ip (a'.Ml (a'.A (a'.Mr x))) y = a'.ip x (a'.Ml (a'.A (a'.Mr y))) := by
    intro hc hsa x y
    obtain ⟨x, rfl⟩ := hJ x
    obtain ⟨y, rfl⟩ := hJ y
    rw [m.op, m.op, ← hi.conj_symm, m.ip, m.ip, map_mul, hc, h.inner.conj_symm, hsa]
  refine ⟨hls, fun hc hm => ⟨hls, hsa hc hm.sa⟩, fun t ht hc hm => ⟨hls, hsa (by rw [hc, RCLike.conj_ofReal]) hm.sa, ?_⟩⟩
  intro x hx
  obtain ⟨x, rfl⟩ := hJ x
  rw [m.op, m.ip, hc, RCLike.re_ofReal_mul]
  exact mul_pos ht (hm.pos x fun h0 => hx (by rw [h0, map_zero]))

end general

/-! ## Equivalent systems -/

/-- C76: equivalences can be combined. -/
theorem C76_trans {G : Type*} [AddCommGroup G] [Module 𝕜 G] {a : LSArgs 𝕜 E} {x0 : E} {a' : LSArgs 𝕜 F} {x0' : F} {a'' : LSArgs 𝕜 G}
    {x0'' : G} {J R : E →ₗ[𝕜] F} {J' R' : F →ₗ[𝕜] G} {α c α' c' : 𝕜} {δ δ' : ℝ} (m : SysMap a x0 a' x0' J R α c δ)
    (m' : SysMap a' x0' a'' x0'' J' R' α' c' δ') :
    SysMap a x0 a'' x0'' (J' ∘ₗ J) (R' ∘ₗ R) (α' * α) (c' * c) (δ' * δ) where
  pos := mul_pos m'.pos m.pos
  scale := by
    rw [map_mul, mul_mul_mul_comm, m.scale, m'.scale, mul_pow, RCLike.ofReal_mul]
  start := by rw [m'.start, m.start]; rfl
  op y := by simp only [LinearMap.comp_apply]; rw [m'.op, m.op]
  prec r := by simp only [LinearMap.comp_apply]; rw [m'.prec, m.prec, map_smul, smul_smul]
  ip z r := by simp only [LinearMap.comp_apply]; rw [m'.ip, m.ip, mul_assoc]

/-- The system for the correction of the initial guess `x0`. -/
def LSArgs.correction (a : LSArgs 𝕜 E) (x0 : E) : LSArgs 𝕜 E := { a with b := a.b - a.A x0 }

/-- The system with `Ml` and `Mr` absorbed in the operator and the right hand side. -/
def LSArgs.absorbed (a : LSArgs 𝕜 E) : LSArgs 𝕜 E :=
  { a with A := a.Ml ∘ₗ a.A ∘ₗ a.Mr, b := a.Ml a.b, Ml := LinearMap.id, Mr := LinearMap.id }

/-- The system with the operator multiplied by `t`. -/
def LSArgs.scaleA (a : LSArgs 𝕜 E) (t : 𝕜) : LSArgs 𝕜 E := { a with A := t • a.A }

/-- The system with the right hand side multiplied by `t`. -/
def LSArgs.scaleB (a : LSArgs 𝕜 E) (t : 𝕜) : LSArgs 𝕜 E := { a with b := t • a.b }

/-- The system with the preconditioner `M` multiplied by `t`. -/
def LSArgs.scaleM (a : LSArgs 𝕜 E) (t : ℝ) : LSArgs 𝕜 E := { a with M := (t : 𝕜) • a.M }

/-- The system with the inner product multiplied by `t`. -/
def LSArgs.scaleIp (a : LSArgs 𝕜 E) (t : ℝ) : LSArgs 𝕜 E := { a with ip := fun x y => (t : 𝕜) * a.ip x y }

/-- The system in other coordinates. -/
def LSArgs.basis (a : LSArgs 𝕜 E) (φ : E ≃ₗ[𝕜] F) : LSArgs 𝕜 F where
  A := φ.toLinearMap ∘ₗ a.A ∘ₗ φ.symm.toLinearMap
  b := φ a.b
  M := φ.toLinearMap ∘ₗ a.M ∘ₗ φ.symm.toLinearMap
  Ml := φ.toLinearMap ∘ₗ a.Ml ∘ₗ φ.symm.toLinearMap
  Mr := φ.toLinearMap ∘ₗ a.Mr ∘ₗ φ.symm.toLinearMap
  ip x y := a.ip (φ.symm x) (φ.symm y)
  normal := a.normal
  selfAdjoint := a.selfAdjoint
  positiveDefinite := a.positiveDefinite

/-- Split preconditioning: `Ml := L* Ml`, `Mr := Mr L` and no `M`. -/
def LSArgs.splitM (a : LSArgs 𝕜 E) (L Ladj : E →ₗ[𝕜] E) : LSArgs 𝕜 E :=
  { a with Ml := Ladj ∘ₗ a.Ml, Mr := a.Mr ∘ₗ L, M := LinearMap.id }

/-- Left preconditioning with `M` in the inner product `⟨·, Minv ·⟩` (the one of `get_ip_Minv_B`, linsys.py 203-215). -/
def LSArgs.leftM (a : LSArgs 𝕜 E) (Minv : E →ₗ[𝕜] E) : LSArgs 𝕜 E :=
  { a with Ml := a.M ∘ₗ a.Ml, M := LinearMap.id, ip := fun x y => a.ip x (Minv y) }

section instances
variable {a : LSArgs 𝕜 E}

/-- C76: starting from `x0` is the same as solving for the correction (with the residual norms relative to the initial residual). -/
theorem C76_correction (x0 : E) : SysMap a x0 (a.correction x0) 0 LinearMap.id LinearMap.id 1 1 1 where
  pos := one_pos
  scale := by simp
  start := by simp [LSArgs.correction]
  op _ := rfl
  prec _ := by simp [LSArgs.correction]
  ip _ _ := by simp [LSArgs.correction]

/-- C76: `Ml` and `Mr` may be absorbed in the operator. -/
theorem C76_absorbed : SysMap a 0 a.absorbed 0 LinearMap.id LinearMap.id 1 1 1 ∧ a.absorbed.Ml a.absorbed.b = a.Ml a.b := by
  refine ⟨⟨one_pos, by simp, by simp [LSArgs.absorbed], fun _ => rfl, fun _ => by simp [LSArgs.absorbed],
    fun _ _ => by simp [LSArgs.absorbed]⟩, rfl⟩

/-- C76: scaling of the operator divides the iterates; the residuals are unchanged. -/
theorem C76_scaleA (h : IsInner a.ip) {t : 𝕜} (ht : t ≠ 0) (x0 : E) :
    SysMap a x0 (a.scaleA t) (t⁻¹ • x0) (t⁻¹ • LinearMap.id) LinearMap.id t (conj t⁻¹) 1 ∧ (a.scaleA t).Ml (a.scaleA t).b = a.Ml a.b := by
  refine ⟨⟨one_pos, ?_, ?_, fun y => ?_, fun r => ?_, fun z r => ?_⟩, rfl⟩
  · rw [RCLike.conj_conj, mul_inv_cancel₀ ht]; simp
  · simp [LSArgs.scaleA, smul_smul, inv_mul_cancel₀ ht]
  · simp [LSArgs.scaleA, smul_smul, inv_mul_cancel₀ ht]
  · simp [LSArgs.scaleA, smul_smul, mul_inv_cancel₀ ht]
  · exact h.smul_left _ _ _

/-- C76: scaling of the right hand side (and the initial guess) scales the iterates and the residuals. -/
theorem C76_scaleB (h : IsInner a.ip) {t : 𝕜} (ht : t ≠ 0) (x0 : E) :
    SysMap a x0 (a.scaleB t) (t • x0) (t • LinearMap.id) (t • LinearMap.id) 1 ((‖t‖ ^ 2 : ℝ) : 𝕜) ‖t‖ ∧
      (a.scaleB t).Ml (a.scaleB t).b = t • a.Ml a.b := by
  refine ⟨⟨norm_pos_iff.mpr ht, ?_, ?_, fun y => ?_, fun r => ?_, fun z r => ?_⟩, ?_⟩
  · rw [one_mul, RCLike.conj_ofReal]
  · simp [LSArgs.scaleB, smul_sub]
  · simp [LSArgs.scaleB]
  · simp [LSArgs.scaleB]
  · change a.ip (t • z) (t • r) = _
    rw [h.smul_left, h.smul_right, ← mul_assoc, RCLike.conj_mul]
    push_cast
    rfl
  · simp [LSArgs.scaleB]

/-- C76: scaling of the preconditioner `M` scales the residual norms; relative norms are unchanged. -/
theorem C76_scaleM {t : ℝ} (ht : 0 < t) (x0 : E) :
    SysMap a x0 (a.scaleM t) x0 LinearMap.id LinearMap.id (t : 𝕜) 1 (Real.sqrt t) ∧ (a.scaleM t).Ml (a.scaleM t).b = a.Ml a.b := by
  refine ⟨⟨Real.sqrt_pos.mpr ht, ?_, rfl, fun y => rfl, fun r => rfl, fun z r => ?_⟩, rfl⟩
  · rw [map_one, mul_one, Real.sq_sqrt ht.le]
  · simp [LSArgs.scaleM]

/-- C76: the same for the inner product. -/
theorem C76_scaleIp {t : ℝ} (ht : 0 < t) (x0 : E) :
    SysMap a x0 (a.scaleIp t) x0 LinearMap.id LinearMap.id 1 (t : 𝕜) (Real.sqrt t) ∧ (a.scaleIp t).Ml (a.scaleIp t).b = a.Ml a.b ∧
      (IsInner a.ip → IsInner (a.scaleIp t).ip) := by
  refine ⟨⟨Real.sqrt_pos.mpr ht, ?_, rfl, fun y => rfl, fun r => ?_, fun z r => rfl⟩, rfl, fun h => ⟨?_, ?_, ?_, ?_⟩⟩
  · rw [one_mul, RCLike.conj_ofReal, Real.sq_sqrt ht.le]
  · simp [LSArgs.scaleIp]
  · intro x y z
    simp only [LSArgs.scaleIp, h.add_right, mul_add]
  · intro x c y
    simp only [LSArgs.scaleIp, h.smul_right]
    ring
  · intro x y
    simp only [LSArgs.scaleIp, map_mul, RCLike.conj_ofReal, h.conj_symm]
  · intro x hx
    simp only [LSArgs.scaleIp, RCLike.re_ofReal_mul]
    exact mul_pos ht (h.pos x hx)

/-- C76: a change of the coordinates. -/
theorem C76_basis (φ : E ≃ₗ[𝕜] F) (x0 : E) :
    SysMap a x0 (a.basis φ) (φ x0) φ.toLinearMap φ.toLinearMap 1 1 1 ∧ (a.basis φ).Ml (a.basis φ).b = φ (a.Ml a.b) ∧
      (IsInner a.ip → IsInner (a.basis φ).ip) := by
  refine ⟨⟨one_pos, by simp, ?_, fun y => ?_, fun r => ?_, fun z r => ?_⟩, ?_, fun h => ⟨?_, ?_, ?_, ?_⟩⟩
  · simp [LSArgs.basis]
  · simp [LSArgs.basis]
  · simp [LSArgs.basis]
  · simp [LSArgs.basis]
  · simp [LSArgs.basis]
  · intro x y z
    simp only [LSArgs.basis, map_add, h.add_right]
  · intro x c y
    simp only [LSArgs.basis, map_smul, h.smul_right]
  · intro x y
    simp only [LSArgs.basis, h.conj_symm]
  · intro x hx
    exact h.pos _ fun h0 => hx (by simpa using h0)

/-- C76: a preconditioner `M = L L*` is the same as split preconditioning with `L*` from the left and `L` from the right; even the approximate solutions are the
same vectors (`J` is `L⁻¹`, which the right preconditioner undoes). -/
theorem C76_splitM {L Ladj Linv : E →ₗ[𝕜] E} (hadj : ∀ x y, a.ip (L x) y = a.ip x (Ladj y)) (hM : a.M = L ∘ₗ Ladj)
    (h1 : ∀ x, L (Linv x) = x) (h2 : ∀ x, Linv (L x) = x) (x0 : E) :
    SysMap a x0 (a.splitM L Ladj) x0 Linv Ladj 1 1 1 ∧ (a.splitM L Ladj).Ml (a.splitM L Ladj).b = Ladj (a.Ml a.b) ∧
      ∀ y, x0 + (a.splitM L Ladj).Mr (Linv y) = x0 + a.Mr y := by
  refine ⟨⟨one_pos, by simp, rfl, fun y => ?_, fun r => ?_, fun z r => ?_⟩, rfl, fun y => ?_⟩
  · simp [LSArgs.splitM, h1]
  · simp [LSArgs.splitM, hM, h2]
  · change a.ip (Linv z) (Ladj r) = _
    rw [← hadj, h1, one_mul]
  · simp [LSArgs.splitM, h1]

/-- C76: a preconditioner `M` is the same as left preconditioning with `M` in the inner product `⟨·, M⁻¹ ·⟩`; the approximate solutions are the same
vectors. -/
theorem C76_leftM {Minv : E →ₗ[𝕜] E} (h1 : ∀ x, Minv (a.M x) = x) (h2 : ∀ x, a.M (Minv x) = x) (x0 : E) :
    SysMap a x0 (a.leftM Minv) x0 LinearMap.id a.M 1 1 1 ∧ (a.leftM Minv).Ml (a.leftM Minv).b = a.M (a.Ml a.b) ∧
      (LSHyp a.ip a.M → IsInner (a.leftM Minv).ip) := by
  refine ⟨⟨one_pos, by simp, rfl, fun y => rfl, fun r => ?_, fun z r => ?_⟩, rfl, fun h => ⟨?_, ?_, ?_, ?_⟩⟩
  · simp [LSArgs.leftM]
  · simp [LSArgs.leftM, h1]
  · intro x y z
    simp only [LSArgs.leftM, map_add, h.inner.add_right]
  · intro x c y
    simp only [LSArgs.leftM, map_smul, h.inner.smul_right]
  · intro x y
    simp only [LSArgs.leftM, h.inner.conj_symm]
    conv_rhs => rw [← h2 y]
    conv_lhs => rw [← h2 x]
    rw [h.symm]
  · intro x hx
    change 0 < RCLike.re (a.ip x (Minv x))
    have h3 := h.prec.pos (Minv x) fun h0 => hx (by rw [← h2 x, h0, map_zero])
    rwa [h2, ← h.inner.conj_symm, RCLike.conj_re] at h3

end instances

/-! ## Examples -/

/-- A rotation-free change of the coordinates used in the examples: exchange of the components. -/
noncomputable def exSwap : (ℝ × ℝ) ≃ₗ[ℝ] (ℝ × ℝ) := LinearEquiv.prodComm ℝ ℝ ℝ

/-- Non-vacuity of C76: `A = diag(1, 2)`, `b = (1, 1)` is solved with `Cg` and `Gmres`, and so is the system with the operator `3 A`, in exchanged
coordinates, with the inner product doubled.  All four calls return, the iterates of the second system are the ones of the first divided by three with
exchanged components. -/
example : ∃ s s' st st' sg sg', mkLS exSpd = .ok s ∧ mkLS (((exSpd.scaleA 3).basis exSwap).scaleIp 2) = .ok s' ∧
    cg s s.hooks true ⟨none, 0, 2, false, none⟩ = .returned st ∧ cg s' s'.hooks true ⟨none, 0, 2, false, none⟩ = .returned st' ∧
    st.resnorms.length = st'.resnorms.length ∧ (∃ y, st.xk = some y ∧ st'.xk = some ((3 : ℝ)⁻¹ • exSwap y)) ∧
    gmres s s.hooks .mgs ⟨none, 0, 2, false, none⟩ = .returned sg ∧ gmres s' s'.hooks .lanczos ⟨none, 0, 2, false, none⟩ = .returned sg' ∧
    ∀ i (hi : i < sg.resnorms.length) (hi' : i < sg'.resnorms.length), sg'.resnorms[i] = sg.resnorms[i] := by
  have h := exSpd_hyp
  have m1 := C76_scaleA (a := exSpd) h.ls.inner (show (3 : ℝ) ≠ 0 by norm_num) 0
  have m2 := C76_basis (a := exSpd.scaleA (3 : ℝ)) exSwap ((3 : ℝ)⁻¹ • 0)
  have m3 := C76_scaleIp (a := (exSpd.scaleA (3 : ℝ)).basis exSwap) (show (0 : ℝ) < 2 by norm_num) (exSwap ((3 : ℝ)⁻¹ • 0))
  have m := C76_trans (C76_trans m1.1 m2.1) m3.1
  have hi := m3.2.2 (m2.2.2 h.ls.inner)
  rw [smul_zero, map_zero] at m
  obtain ⟨hls, -, hspd⟩ := C76_hyp m hi
    (by intro x; exact ⟨(3 : ℝ) • exSwap.symm x, by simp [smul_smul]⟩) (by intro x; exact ⟨exSwap.symm x, by simp⟩) h.ls
  have h' := hspd (2 * (1 * 3⁻¹)) (by norm_num) (by simp) h
  obtain ⟨s, hs, -⟩ := mkLS_ok h.ls
  obtain ⟨s', hs', -⟩ := mkLS_ok h'.ls
  have hb : exSpd.Ml exSpd.b ≠ 0 := by simp [exSpd]
  have hr : (((exSpd.scaleA 3).basis exSwap).scaleIp 2).Ml (((exSpd.scaleA 3).basis exSwap).scaleIp 2).b =
      ((LinearMap.id ∘ₗ exSwap.toLinearMap ∘ₗ LinearMap.id) : (ℝ × ℝ) →ₗ[ℝ] (ℝ × ℝ)) (exSpd.Ml exSpd.b) := by
    rw [m3.2.1, m2.2.1, m1.2]; rfl
  have hb' : (((exSpd.scaleA 3).basis exSwap).scaleIp 2).Ml (((exSpd.scaleA 3).basis exSwap).scaleIp 2).b ≠ 0 := by
    rw [hr]; simpa using hb
  have htol : (0 : ℝ) ≤ (⟨none, 0, 2, false, none⟩ : SolverArgs (ℝ × ℝ)).tol := le_rfl
  have hfin : Module.finrank ℝ (ℝ × ℝ) ≤ 2 := by simp
  obtain ⟨st, hst, -⟩ := C32_terminates h hs true ⟨none, 0, 2, false, none⟩ htol hb hfin
  obtain ⟨st', hst', -⟩ := C32_terminates h' hs' true ⟨none, 0, 2, false, none⟩ htol hb' hfin
  have hm : MinresHyp exSpd := ⟨h.ls, h.sa⟩
  have hm' : MinresHyp (((exSpd.scaleA 3).basis exSwap).scaleIp 2) := ⟨h'.ls, h'.sa⟩
  have hinj : ∀ {a : LSArgs ℝ (ℝ × ℝ)}, SpdHyp a → ∀ x, a.Ml (a.A (a.Mr x)) = 0 → x = 0 := by
    intro a ha x hx
    by_contra hne
    have := ha.pos x hne
    rw [hx, ha.ls.inner.zero_right] at this
    simp at this
  obtain ⟨sg, hg, -⟩ := C28_terminates (hm.gmres .mgs) hs ⟨none, 0, 2, false, none⟩ htol hb (hinj h) hfin
  obtain ⟨sg', hg', -⟩ := C28_terminates (hm'.gmres .lanczos) hs' ⟨none, 0, 2, false, none⟩ htol hb' (hinj h') hfin
  have hrel := fun t t' => (C76_relative m h.ls h'.ls hb hr t t').2
  have hlen := C76_cg_count m h h' true true hs hs' ⟨none, 0, 2, false, none⟩ ⟨none, 0, 2, false, none⟩ rfl rfl htol htol hb hb'
    ((hrel 0 0).mpr rfl) (by norm_num) (by norm_num) hst hst'
  refine ⟨s, s', st, st', sg, sg', hs, hs', hst, hst', hlen, ?_, hg, hg', fun i hi hi' => ?_⟩
  · obtain ⟨y, -, e1, e2⟩ := (C76_cg m h h' true true hs hs' ⟨none, 0, 2, false, none⟩ ⟨none, 0, 2, false, none⟩ rfl rfl htol htol hb hb'
      (Or.inl hst) (Or.inl hst')).2 hlen
    refine ⟨y, by rw [e1]; simp [exSpd], ?_⟩
    rw [e2]
    simp [LSArgs.scaleIp, LSArgs.basis, LSArgs.scaleA, exSpd]
  · exact (hrel _ _).mp ((C76_gmres m (hm.gmres .mgs) (hm'.gmres .lanczos) hs hs' ⟨none, 0, 2, false, none⟩ ⟨none, 0, 2, false, none⟩ rfl rfl
      htol htol hb hb' (Or.inl hg) (Or.inl hg')).1 i hi hi')

/-- Non-vacuity of `C76_minres`: `Minres` for `A = diag(1, 2)` and for `-5 A`, with any two orthogonalisations. -/
example (o o' : Ortho) : ∃ s s' st st', mkLS exSpd = .ok s ∧ mkLS (exSpd.scaleA (-5)) = .ok s' ∧
    minres s s.hooks o ⟨none, 0, 2, false, none⟩ = .returned st ∧ minres s' s'.hooks o' ⟨none, 0, 2, false, none⟩ = .returned st' ∧
    ∀ i (hi : i < st.resnorms.length) (hi' : i < st'.resnorms.length), st'.resnorms[i] = st.resnorms[i] := by
  have h := exSpd_hyp
  have m := C76_scaleA (a := exSpd) h.ls.inner (show (-5 : ℝ) ≠ 0 by norm_num) 0
  have hm : MinresHyp exSpd := ⟨h.ls, h.sa⟩
  have hm' : MinresHyp (exSpd.scaleA (-5 : ℝ)) := ⟨⟨h.ls.inner, h.ls.prec⟩, fun x y => by simp [LSArgs.scaleA, exSpd, exCfg]; ring⟩
  obtain ⟨s, hs, -⟩ := mkLS_ok hm.ls
  obtain ⟨s', hs', -⟩ := mkLS_ok hm'.ls
  have hb : exSpd.Ml exSpd.b ≠ 0 := by simp [exSpd]
  have hb' : (exSpd.scaleA (-5 : ℝ)).Ml (exSpd.scaleA (-5 : ℝ)).b ≠ 0 := hb
  have htol : (0 : ℝ) ≤ (⟨none, 0, 2, false, none⟩ : SolverArgs (ℝ × ℝ)).tol := le_rfl
  have hfin : Module.finrank ℝ (ℝ × ℝ) ≤ 2 := by simp
  have hinj : ∀ x, exSpd.Ml (exSpd.A (exSpd.Mr x)) = 0 → x = 0 := by
    intro x hx
    by_contra hne
    have := h.pos x hne
    rw [hx, h.ls.inner.zero_right] at this
    simp at this
  have hinj' : ∀ x, (exSpd.scaleA (-5 : ℝ)).Ml ((exSpd.scaleA (-5 : ℝ)).A ((exSpd.scaleA (-5 : ℝ)).Mr x)) = 0 → x = 0 := by
    intro x hx
    refine hinj x ?_
    simpa [LSArgs.scaleA] using hx
  obtain ⟨st, hst, -⟩ := C29_terminates hm hs o ⟨none, 0, 2, false, none⟩ htol hb hinj hfin
  obtain ⟨st', hst', -⟩ := C29_terminates hm' hs' o' ⟨none, 0, 2, false, none⟩ htol hb' hinj' hfin
  have hrel := fun t t' => (C76_relative m.1 hm.ls hm'.ls hb m.2 t t').2
  have hx0 : (⟨none, 0, 2, false, none⟩ : SolverArgs (ℝ × ℝ)).x0.getD 0 = (-5 : ℝ)⁻¹ • (0 : ℝ × ℝ) := by simp
  exact ⟨s, s', st, st', hs, hs', hst, hst', fun i hi hi' => (hrel _ _).mp ((C76_minres m.1 o o' hm hm' hs hs' ⟨none, 0, 2, false, none⟩
    ⟨none, 0, 2, false, none⟩ rfl hx0 htol htol hb hb' (Or.inl hst) (Or.inl hst')).1 i hi hi')⟩

end Krypy
