import Verif.Proofs.DeflRun

/-! # Properties C36-C38: deflation -/

set_option linter.unusedSectionVars false

namespace Krypy
open scoped ComplexConjugate
open Matrix
variable {𝕜 E : Type*} [RCLike 𝕜] [AddCommGroup E] [Module 𝕜 E] {k : ℕ}

/-! ## Specification -/

/-- `Q` is the projection onto the orthogonal complement of `span U` along `Ml A Mr span U`. -/
structure IsDeflProj (a : LSArgs 𝕜 E) (U : Fin k → E) (Q : E →ₗ[𝕜] E) : Prop where
  diff : ∀ v, v - Q v ∈ Submodule.span 𝕜 (Set.range fun j => a.Ml (a.A (a.Mr (U j))))
  orth : ∀ v j, a.ip (U j) (Q v) = 0

/-- The Krylov subspace of the deflated problem: `K_n(M Q Ml A Mr, M Q Ml (b - A x0))`. -/
def deflKry (a : LSArgs 𝕜 E) (Q : E →ₗ[𝕜] E) (x0 : E) (n : ℕ) : Submodule 𝕜 E :=
  krylov (a.M ∘ₗ Q ∘ₗ a.Ml ∘ₗ a.A ∘ₗ a.Mr) (a.M (Q (a.Ml (a.b - a.A x0)))) n

/-- The approximations of step `n`: those elements of `x0 + Mr K_n + span U` whose preconditioned residual is
orthogonal to `U`. -/
def deflSpace (a : LSArgs 𝕜 E) (U : Fin k → E) (Q : E →ₗ[𝕜] E) (x0 : E) (n : ℕ) : Set E :=
  {x | (∃ z ∈ deflKry a Q x0 n, x - (x0 + a.Mr z) ∈ Submodule.span 𝕜 (Set.range U)) ∧
    ∀ j, a.ip (U j) (a.Ml (a.b - a.A x)) = 0}

/-- The recorded relative residual norms are the minima over the spaces of admissible approximations, and `x` attains
the last one. -/
structure DeflMinRes (a : LSArgs 𝕜 E) (U : Fin k → E) (Q : E →ₗ[𝕜] E) (x0 : E) (resnorms : List ℝ) (x : E) :
    Prop where
  nonempty : resnorms ≠ []
  minima : ∀ i (hi : i < resnorms.length),
    IsLeast (resid a '' deflSpace a U Q x0 i) (resnorms[i] * resid a 0)
  mem : x ∈ deflSpace a U Q x0 (resnorms.length - 1)
  attains : ∀ r, resnorms.getLast? = some r → resid a x = r * resid a 0

theorem deflSpace_mono {a : LSArgs 𝕜 E} {U : Fin k → E} {Q : E →ₗ[𝕜] E} {x0 : E} {m n : ℕ} (h : m ≤ n) :
    deflSpace a U Q x0 m ⊆ deflSpace a U Q x0 n :=
  fun _ ⟨⟨z, hz, hx⟩, hx'⟩ => ⟨⟨z, krylov_mono h hz, hx⟩, hx'⟩

/-- Consequence of the specification: the history is non-increasing. -/
theorem DeflMinRes.antitone {a : LSArgs 𝕜 E} {U : Fin k → E} {Q : E →ₗ[𝕜] E} {x0 x : E} {l : List ℝ}
    (h : DeflMinRes a U Q x0 l x) (h0 : 0 < resid a 0) : l.Pairwise (fun r r' => r' ≤ r) := by
  rw [List.pairwise_iff_getElem]
  intro i j hi hj hij
  obtain ⟨x, hx, hxe⟩ := (h.minima i hi).1
  have h2 := (h.minima j hj).2 ⟨x, deflSpace_mono hij.le hx, hxe⟩
  exact le_of_mul_le_mul_right h2 h0

/-! ## The projection of the specification is the one computed -/

theorem mem_span_lincomb {V : Fin k → E} {x : E} :
    x ∈ Submodule.span 𝕜 (Set.range V) ↔ ∃ c : Fin k → 𝕜, x = lincomb V c := by
  rw [Submodule.mem_span_range_iff_exists_fun]
  exact ⟨fun ⟨c, hc⟩ => ⟨c, hc.symm⟩, fun ⟨c, hc⟩ => ⟨c, hc.symm⟩⟩

theorem resid_pos {a : LSArgs 𝕜 E} (h : LSHyp a.ip a.M) (hb : a.Ml a.b ≠ 0) : 0 < resid a 0 := by
  refine lt_of_le_of_ne (nrm_nonneg _ _) fun h0 => hb ?_
  have := h.prec.nrm_eq_zero.mp h0.symm
  simpa using this

theorem complLin_isDeflProj {a : LSArgs 𝕜 E} {U : Fin k → E} (h : IsInner a.ip)
    (hdet : (gram a.ip U fun j => a.B (U j)).det ≠ 0) : IsDeflProj a U (complLin h a.B U) where
  diff v := by
    obtain ⟨c, hc⟩ := complLin_diff h (B := a.B) (U := U) v
    rw [hc, map_lincomb]
    exact mem_span_lincomb.mpr ⟨c, rfl⟩
  orth v j := complLin_orth h hdet v j

theorem IsDeflProj.eq_compl {a : LSArgs 𝕜 E} {U : Fin k → E} {Q : E →ₗ[𝕜] E} (h : IsInner a.ip)
    (hdet : (gram a.ip U fun j => a.B (U j)).det ≠ 0) (hQ : IsDeflProj a U Q) : Q = complLin h a.B U := by
  ext v
  obtain ⟨c, hc⟩ := mem_span_lincomb.mp (hQ.diff v)
  have e : v = Q v + a.B (lincomb U c) := by
    rw [map_lincomb]
    rw [show (fun j => a.B (U j)) = fun j => a.Ml (a.A (a.Mr (U j))) from rfl, ← hc]
    abel
  conv_rhs => rw [e]
  rw [map_add, complLin_of_orth h hdet (hQ.orth v), complLin_B h hdet, add_zero]

/-- Existence and uniqueness of the projection of the specification. -/
theorem C37_projection_unique {a : LSArgs 𝕜 E} {oa : OblArgs 𝕜 E k} {U : Fin k → E} (h : DeflHyp a oa U) :
    ∃! Q, IsDeflProj a U Q :=
  ⟨complLin h.ls.inner a.B U, complLin_isDeflProj h.ls.inner h.nonsing,
    fun _ hQ => hQ.eq_compl h.ls.inner h.nonsing⟩

section
variable {a : LSArgs 𝕜 E} {oa : OblArgs 𝕜 E k} {U : Fin k → E} (h : DeflHyp a oa U) {s : LS 𝕜 E}
  (hs : mkLS a = .ok s) {o : Obl 𝕜 E k} (ho : mkObl s oa U = .ok o)

include h hs in
theorem LSOK.of_defl : LSOK a s := by
  obtain ⟨s', hs', ok, -⟩ := mkLS_ok h.ls
  rw [hs] at hs'
  obtain rfl := Except.ok.inj hs'
  exact ok

include h hs ho in
theorem OblOK.of_defl : OblOK a s U o := by
  obtain ⟨o', ho', ok⟩ := mkObl_ok (LSOK.of_defl h hs) h
  rw [ho] at ho'
  obtain rfl := Except.ok.inj ho'
  exact ok

include h hs

/-- The constructor of the projection never fails on admissible input. -/
theorem C36_total : ∃ o, mkObl s oa U = .ok o := by
  obtain ⟨o, ho, -⟩ := mkObl_ok (LSOK.of_defl h hs) h
  exact ⟨o, ho⟩

include ho

/-! ## C36 -/

/-- C36, what `correct` computes in general: the correction lies in `span U`, and `r - Ml A Mr (x - z)` is orthogonal
to `U`, where `r = Ml (b - A z)`. -/
theorem C36_correct_general (z : E) : ∃ x, o.correct s z = .ok x ∧
    x - z ∈ Submodule.span 𝕜 (Set.range U) ∧
    ∀ j, a.ip (U j) (a.Ml (a.b - a.A z) - a.Ml (a.A (a.Mr (x - z)))) = 0 := by
  have ob := OblOK.of_defl h hs ho
  refine ⟨_, ob.correct z, ?_, fun j => ?_⟩
  · rw [add_sub_cancel_left]
    exact mem_span_lincomb.mpr ⟨_, rfl⟩
  · rw [add_sub_cancel_left]
    have := complLin_orth ob.inner ob.nonsing (a.Ml (a.b - a.A z)) j
    rw [complLin_apply] at this
    unfold oblique at this
    rw [← map_lincomb] at this
    exact this

/-- C36: the residual of a corrected vector is the projected residual. -/
theorem C36_residual (hMr : ∀ j, a.Mr (U j) = U j) {Q : E →ₗ[𝕜] E} (hQ : IsDeflProj a U Q) {z x : E}
    (hx : o.correct s z = .ok x) : a.Ml (a.b - a.A x) = Q (a.Ml (a.b - a.A z)) := by
  have ob := OblOK.of_defl h hs ho
  obtain ⟨c, h1, h2⟩ := ob.correct_spec (LSOK.of_defl h hs) hMr z
  rw [hx] at h1
  obtain rfl := Except.ok.inj h1
  rw [h2, hQ.eq_compl ob.inner ob.nonsing]

/-- C36: if `Mr` acts as the identity on the deflation space, `correct(z)` is the unique element of `z + span U` whose
preconditioned residual is orthogonal to `U`. -/
theorem C36_correct (hMr : ∀ j, a.Mr (U j) = U j) (z : E) : ∃ x, o.correct s z = .ok x ∧
    x - z ∈ Submodule.span 𝕜 (Set.range U) ∧ (∀ j, a.ip (U j) (a.Ml (a.b - a.A x)) = 0) ∧
    ∀ x', x' - z ∈ Submodule.span 𝕜 (Set.range U) → (∀ j, a.ip (U j) (a.Ml (a.b - a.A x')) = 0) → x' = x := by
  have ob := OblOK.of_defl h hs ho
  obtain ⟨c, h1, h2⟩ := ob.correct_spec (LSOK.of_defl h hs) hMr z
  have horth : ∀ j, a.ip (U j) (a.Ml (a.b - a.A (z + lincomb U c))) = 0 := fun j => by
    rw [h2]; exact complLin_orth ob.inner ob.nonsing _ j
  refine ⟨_, h1, ?_, horth, fun x' hx' hor => ?_⟩
  · rw [add_sub_cancel_left]
    exact mem_span_lincomb.mpr ⟨_, rfl⟩
  · obtain ⟨d, hd⟩ := mem_span_lincomb.mp hx'
    have hx : x' = z + lincomb U d := by rw [← hd]; abel
    have key : a.Ml (a.b - a.A x') - a.Ml (a.b - a.A (z + lincomb U c)) = a.B (lincomb U (c - d)) := by
      have e : a.B (lincomb U (c - d)) = a.Ml (a.A (lincomb U (c - d))) := by
        change a.Ml (a.A (a.Mr (lincomb U (c - d)))) = _
        rw [map_lincomb a.Mr]
        simp only [hMr]
      have e2 : lincomb U (c - d) = lincomb U c - lincomb U d := by
        simp [lincomb, sub_smul, Finset.sum_sub_distrib]
      rw [e, e2, hx]
      simp only [map_sub, map_add]
      abel
    have h0 : complLin ob.inner a.B U (a.B (lincomb U (c - d))) = a.B (lincomb U (c - d)) := by
      refine complLin_of_orth ob.inner ob.nonsing fun j => ?_
      rw [← key, ob.inner.sub_right, hor, horth, sub_zero]
    rw [complLin_B ob.inner ob.nonsing, map_lincomb] at h0
    have hli := indep_of_gram ob.inner ob.nonsing
    have hcd : c - d = 0 := by
      funext i
      exact (Fintype.linearIndependent_iff.mp hli) (c - d) h0.symm i
    rw [hx, sub_eq_zero.mp hcd]

/-- C36: a corrected vector is left unchanged by another correction. -/
theorem C36_idempotent (hMr : ∀ j, a.Mr (U j) = U j) {z x : E} (hx : o.correct s z = .ok x) :
    o.correct s x = .ok x := by
  obtain ⟨x1, e1, -, hor, -⟩ := C36_correct h hs ho hMr z
  rw [hx] at e1
  obtain rfl := Except.ok.inj e1
  obtain ⟨x2, e2, -, -, huniq⟩ := C36_correct h hs ho hMr x
  rw [e2, ← huniq x (by simp) hor]

/-! ## C37: deflated GMRES -/

/-- Residual minimisation over Krylov subspaces of the deflated operator, expressed in terms of the original
system. -/
theorem DeflMinRes.of_spec (hMr : ∀ j, a.Mr (U j) = U j) {Q : E →ₗ[𝕜] E} (hQ : IsDeflProj a U Q) {x0 : E}
    {l : List ℝ} {n : ℕ} (hlen : l.length = n + 1)
    (hmin : ∀ i (hi : i < l.length), IsLeast ((fun z => nrm (fun x y => a.ip x (a.M y))
      (complLin h.ls.inner a.B U (a.Ml (a.b - a.A x0)) - (complLin h.ls.inner a.B U ∘ₗ a.B) z)) ''
      (krylov (a.M ∘ₗ (complLin h.ls.inner a.B U ∘ₗ a.B))
        (a.M (complLin h.ls.inner a.B U (a.Ml (a.b - a.A x0)))) i : Set E)) (l[i] * resid a 0))
    {x z : E} (hz : z ∈ krylov (a.M ∘ₗ (complLin h.ls.inner a.B U ∘ₗ a.B))
        (a.M (complLin h.ls.inner a.B U (a.Ml (a.b - a.A x0)))) n)
    (hx : o.correct s (x0 + a.Mr z) = .ok x)
    (hatt : nrm (fun x y => a.ip x (a.M y))
      (complLin h.ls.inner a.B U (a.Ml (a.b - a.A x0)) - (complLin h.ls.inner a.B U ∘ₗ a.B) z) = l[n] * resid a 0) :
    DeflMinRes a U Q x0 l x := by
  have ok := LSOK.of_defl h hs
  have ob := OblOK.of_defl h hs ho
  obtain rfl := hQ.eq_compl h.ls.inner h.nonsing
  set Q := complLin h.ls.inner a.B U with hQdef
  -- the corrected vector lies in the space, with the residual of the deflated system
  have hcor : ∀ z, ∃ y, o.correct s (x0 + a.Mr z) = .ok y ∧
      y - (x0 + a.Mr z) ∈ Submodule.span 𝕜 (Set.range U) ∧ (∀ j, a.ip (U j) (a.Ml (a.b - a.A y)) = 0) ∧
      resid a y = nrm (fun x y => a.ip x (a.M y)) (Q (a.Ml (a.b - a.A x0)) - (Q ∘ₗ a.B) z) ∧
      ∀ x', x' - (x0 + a.Mr z) ∈ Submodule.span 𝕜 (Set.range U) →
        (∀ j, a.ip (U j) (a.Ml (a.b - a.A x')) = 0) → x' = y := by
    intro z
    obtain ⟨y, h1, h2, h3, h4⟩ := C36_correct h hs ho hMr (x0 + a.Mr z)
    refine ⟨y, h1, h2, h3, ?_, h4⟩
    have := ob.hres ok hMr ⟨none, 0, 0, false, none⟩ x0 z y h1
    rw [ok.resNorm] at this
    exact Except.ok.inj this
  have hsp : ∀ i, resid a '' deflSpace a U Q x0 i = (fun z => nrm (fun x y => a.ip x (a.M y))
      (Q (a.Ml (a.b - a.A x0)) - (Q ∘ₗ a.B) z)) '' (krylov (a.M ∘ₗ (Q ∘ₗ a.B)) (a.M (Q (a.Ml (a.b - a.A x0)))) i :
        Set E) := by
    intro i
    ext r
    constructor
    · rintro ⟨y, ⟨⟨z, hz, hy⟩, hor⟩, rfl⟩
      refine ⟨z, hz, ?_⟩
      obtain ⟨y', h1, h2, h3, h4, h5⟩ := hcor z
      rw [h5 y hy hor, h4]
    · rintro ⟨z, hz, rfl⟩
      obtain ⟨y', h1, h2, h3, h4, h5⟩ := hcor z
      exact ⟨y', ⟨⟨z, hz, h2⟩, h3⟩, h4⟩
  refine ⟨?_, fun i hi => ?_, ?_, fun r hr => ?_⟩
  · rintro rfl
    simp at hlen
  · rw [hsp]
    exact hmin i hi
  · rw [hlen, Nat.add_sub_cancel]
    obtain ⟨y', h1, h2, h3, h4, h5⟩ := hcor z
    rw [hx] at h1
    obtain rfl := Except.ok.inj h1
    exact ⟨⟨z, hz, h2⟩, h3⟩
  · obtain ⟨y', h1, h2, h3, h4, h5⟩ := hcor z
    rw [hx] at h1
    obtain rfl := Except.ok.inj h1
    rw [h4, hatt]
    rw [List.getLast?_eq_getElem?, show l.length - 1 = n by omega, List.getElem?_eq_getElem (by omega)] at hr
    rw [Option.some.inj hr]

/-- C37 for GMRES: the recorded relative residual norms are the minima over the approximations in
`x0 + Mr K_i + span U` whose residual is orthogonal to `U`, where `K_i` is the Krylov subspace of the deflated operator;
the approximate solution attains the last one, and no warning is issued. -/
theorem C37_gmres {ortho : Ortho} (hg : GmresHyp a ortho) (hMr : ∀ j, a.Mr (U j) = U j) (p : SolverArgs E)
    (htol : 0 ≤ p.tol) (hb : a.Ml a.b ≠ 0) {Q : E →ₗ[𝕜] E} (hQ : IsDeflProj a U Q)
    {st : St ℝ E (GmresSt 𝕜 E × List (Fin k → 𝕜))}
    (hrun : deflatedGmres s o ortho p = .returned st ∨ deflatedGmres s o ortho p = .convergence st) :
    ∃ x, st.xk = some x ∧ DeflMinRes a U Q (p.x0.getD 0) st.resnorms x ∧ st.warnings = 0 ∧
      st.resnorms.length = st.s.1.arn.iter + 1 ∧ st.s.1.arn.iter ≤ p.maxiter := by
  have ok := LSOK.of_defl h hs
  have ob := OblOK.of_defl h hs ho
  obtain ⟨adv, Inv, arn, β, v, hv, hβ, e1, -, hp, ha, h0, hvn, -, -⟩ := ob.setup ok hg p
  rw [e1] at hrun
  have hsim := run_sim (cfg := mkCfg s p) (xk0 := o.correct s) (r := β) (x0 := p.x0.getD 0)
    (gmres_log (Mr := a.Mr) (post := o.correct s) hp ok ob).1 (mk₁ := fun x => (gmresInit arn β x, []))
    (mk₂ := gmresInit arn β) ⟨rfl, ha, by simp [LogOK, gmresInit, h0]⟩
  have hr : ∃ b : GmresSt 𝕜 E, st.s.1 = b ∧
      (run (mkCfg s p) (gmresMethod adv a.Mr (o.correct s) p.maxiter) (p.x0.getD 0) β (gmresInit arn β) (o.correct s) =
        .returned (st.setS b) ∨
      run (mkCfg s p) (gmresMethod adv a.Mr (o.correct s) p.maxiter) (p.x0.getD 0) β (gmresInit arn β) (o.correct s) =
        .convergence (st.setS b)) := by
    rcases hrun with hrun | hrun
    · obtain ⟨b, hb, hr⟩ := hsim.1 st hrun
      exact ⟨b, hr.1, Or.inl hb⟩
    · obtain ⟨b, hb, hr⟩ := hsim.2 st hrun
      exact ⟨b, hr.1, Or.inr hb⟩
  obtain ⟨b, hb', hr⟩ := hr
  subst hβ hv
  have hnb : 0 < (mkCfg s p).MMlbNorm := by rw [ok.nb]; exact resid_pos h.ls hb
  obtain ⟨hsp, hinv, -, x, hx, z, hz, hxz, hatt⟩ := gmresRun_spec hp (cfg := mkCfg s p) (Mr := a.Mr)
    (post := o.correct s) (x0 := p.x0.getD 0) htol hnb (ob.hres ok hMr p _) ha h0 hr
  have hlen := hsp.len
  refine ⟨x, hx, ?_, hsp.warn, by rw [hb']; exact hlen, by rw [hb']; exact hp.le hinv.arn⟩
  have hmin := hsp.minima
  rw [ok.nb] at hmin
  rw [ok.nb] at hatt
  exact DeflMinRes.of_spec h hs ho hMr hQ hlen hmin hz hxz (hatt (by omega))

/-- C37: monotonicity for deflated GMRES. -/
theorem C37_gmres_monotone {ortho : Ortho} (hg : GmresHyp a ortho) (hMr : ∀ j, a.Mr (U j) = U j) (p : SolverArgs E)
    (htol : 0 ≤ p.tol) (hb : a.Ml a.b ≠ 0) {st : St ℝ E (GmresSt 𝕜 E × List (Fin k → 𝕜))}
    (hrun : deflatedGmres s o ortho p = .returned st ∨ deflatedGmres s o ortho p = .convergence st) :
    st.resnorms.Pairwise (fun r r' => r' ≤ r) := by
  obtain ⟨Q, hQ, -⟩ := C37_projection_unique h
  obtain ⟨x, -, hm, -⟩ := C37_gmres h hs ho hg hMr p htol hb hQ hrun
  exact hm.antitone (resid_pos h.ls hb)

/-! ## C37: deflated MINRES -/

/-- C37: deflated MINRES computes the same iterates, histories and Lanczos data as deflated GMRES. -/
theorem C37_minres_eq_gmres (hm : MinresHyp a) (ortho : Ortho) (p : SolverArgs E)
    {st : St ℝ E (MinresSt 𝕜 E × List (Fin k → 𝕜))} :
    (deflatedMinres s o ortho p = .returned st → ∃ b, deflatedGmres s o ortho p = .returned (st.setS b) ∧
      b.1.arn = st.s.1.arn ∧ b.2 = st.s.2) ∧
    (deflatedMinres s o ortho p = .convergence st → ∃ b, deflatedGmres s o ortho p = .convergence (st.setS b) ∧
      b.1.arn = st.s.1.arn ∧ b.2 = st.s.2) := by
  have ok := LSOK.of_defl h hs
  have ob := OblOK.of_defl h hs ho
  obtain ⟨adv, Inv, arn, β, v, hv, hβ, e1, e2, hp, ha, h0, hvn, -, htri⟩ := ob.setup ok (hm.gmres ortho) p
  have htri' : ∀ {t : Arn 𝕜 E}, Inv t → TriReal t := fun ht => htri hm.sa ht
  rw [e1, e2]
  have s1 := run_sim (cfg := mkCfg s p) (xk0 := o.correct s) (r := β) (x0 := p.x0.getD 0)
    (minres_log (Mr := a.Mr) (post := o.correct s) hp ok ob).1 (mk₁ := fun x => (minresInit arn β x, []))
    (mk₂ := minresInit arn β) ⟨rfl, ha, by simp [LogOK, minresInit, h0]⟩
  have s2 := run_sim (cfg := mkCfg s p) (xk0 := o.correct s) (r := β) (x0 := p.x0.getD 0)
    (minres_sim (Mr := a.Mr) (post := o.correct s) (β := β)
      (x0 := if ((mkCfg s p).MMlbNorm == 0) = true then 0 else p.x0.getD 0)
      hp htri') (mk₁ := minresInit arn β) (mk₂ := gmresInit arn β) (minresInit_rel hp ha h0 hvn)
  have s3 := run_sim (cfg := mkCfg s p) (xk0 := o.correct s) (r := β) (x0 := p.x0.getD 0)
    (gmres_log (Mr := a.Mr) (post := o.correct s) hp ok ob).2 (mk₁ := gmresInit arn β)
    (mk₂ := fun x => (gmresInit arn β x, [])) ⟨rfl, ha, by simp [LogOK, gmresInit, h0]⟩
  constructor
  · intro hst
    obtain ⟨b1, hb1, r1, -, l1⟩ := s1.1 st hst
    obtain ⟨b2, hb2, r2⟩ := s2.1 _ hb1
    obtain ⟨b3, hb3, r3, -, l3⟩ := s3.1 _ hb2
    have e : b3.1.arn = st.s.1.arn := by
      rw [r1, ← r3]; exact r2.arn.symm
    refine ⟨b3, hb3, e, ?_⟩
    unfold LogOK at l1 l3
    rw [l1, l3, e]
  · intro hst
    obtain ⟨b1, hb1, r1, -, l1⟩ := s1.2 st hst
    obtain ⟨b2, hb2, r2⟩ := s2.2 _ hb1
    obtain ⟨b3, hb3, r3, -, l3⟩ := s3.2 _ hb2
    have e : b3.1.arn = st.s.1.arn := by
      rw [r1, ← r3]; exact r2.arn.symm
    refine ⟨b3, hb3, e, ?_⟩
    unfold LogOK at l1 l3
    rw [l1, l3, e]

/-- C37 for MINRES. -/
theorem C37_minres (hm : MinresHyp a) (ortho : Ortho) (hMr : ∀ j, a.Mr (U j) = U j) (p : SolverArgs E)
    (htol : 0 ≤ p.tol) (hb : a.Ml a.b ≠ 0) {Q : E →ₗ[𝕜] E} (hQ : IsDeflProj a U Q)
    {st : St ℝ E (MinresSt 𝕜 E × List (Fin k → 𝕜))}
    (hrun : deflatedMinres s o ortho p = .returned st ∨ deflatedMinres s o ortho p = .convergence st) :
    ∃ x, st.xk = some x ∧ DeflMinRes a U Q (p.x0.getD 0) st.resnorms x ∧ st.warnings = 0 ∧
      st.resnorms.length = st.s.1.arn.iter + 1 ∧ st.s.1.arn.iter ≤ p.maxiter := by
  have hr : ∃ b, (deflatedGmres s o ortho p = .returned (st.setS b) ∨
      deflatedGmres s o ortho p = .convergence (st.setS b)) ∧ b.1.arn = st.s.1.arn := by
    rcases hrun with hrun | hrun
    · obtain ⟨b, hb, hr, -⟩ := (C37_minres_eq_gmres h hs ho hm ortho p).1 hrun
      exact ⟨b, Or.inl hb, hr⟩
    · obtain ⟨b, hb, hr, -⟩ := (C37_minres_eq_gmres h hs ho hm ortho p).2 hrun
      exact ⟨b, Or.inr hb, hr⟩
  obtain ⟨b, hr, hba⟩ := hr
  obtain ⟨x, h1, h2, h3, h4, h5⟩ := C37_gmres h hs ho (hm.gmres ortho) hMr p htol hb hQ hr
  exact ⟨x, h1, h2, h3, by rw [← hba]; exact h4, by rw [← hba]; exact h5⟩

end
end Krypy
