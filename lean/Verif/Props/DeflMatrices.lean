import Verif.Props.DeflTerm

/-! # Property C38: the matrices `E`, `C` and `B_` of a deflated solver; examples for C36-C38 -/

set_option linter.unusedSectionVars false

namespace Krypy
open scoped ComplexConjugate
open Matrix
variable {𝕜 E : Type*} [RCLike 𝕜] [AddCommGroup E] [Module 𝕜 E] {k : ℕ}

section
variable {a : LSArgs 𝕜 E} {oa : OblArgs 𝕜 E k} {U : Fin k → E} (h : DeflHyp a oa U)
  {s : LS 𝕜 E} (hs : mkLS a = .ok s) {o : Obl 𝕜 E k} (ho : mkObl s oa U = .ok o)
include h hs ho

/-- C38: `E = ⟨U, Ml A Mr U⟩` for the stored basis `U`, which spans the same space as the given one. -/
theorem C38_E : (∀ i j, o.Emat i j = a.ip (o.U i) (a.Ml (a.A (a.Mr (o.U j))))) ∧
    Submodule.span 𝕜 (Set.range o.U) = Submodule.span 𝕜 (Set.range U) := by
  have ob := OblOK.of_defl h hs ho
  constructor
  · intro i j
    rw [ob.E]
    simp only [gram, Matrix.of_apply, ob.AU]
    rfl
  · obtain ⟨R, hR, hU⟩ := ob.basis
    apply le_antisymm
    · rw [Submodule.span_le]
      rintro _ ⟨j, rfl⟩
      refine mem_span_lincomb.mpr ⟨fun i => R⁻¹ i j, ?_⟩
      have : lincomb U (fun i => R⁻¹ i j) = lincomb o.U (R *ᵥ fun i => R⁻¹ i j) := (lincomb_change hU _).symm
      rw [this]
      have e : (R *ᵥ fun i => R⁻¹ i j) = fun i => (R * R⁻¹) i j := by
        funext i; rfl
      rw [e, Matrix.mul_nonsing_inv _ (isUnit_iff_ne_zero.mpr hR)]
      simp [lincomb, Matrix.one_apply]
    · rw [Submodule.span_le]
      rintro _ ⟨j, rfl⟩
      exact mem_span_lincomb.mpr ⟨_, hU j⟩

/-- `C = ⟨U, Ml A Mr V_n⟩` after a run of deflated GMRES. -/
theorem C38_C_gmres {ortho : Ortho} (hg : GmresHyp a ortho) (p : SolverArgs E)
    {st : St ℝ E (GmresSt 𝕜 E × List (Fin k → 𝕜))}
    (hrun : deflatedGmres s o ortho p = .returned st ∨ deflatedGmres s o ortho p = .convergence st) :
    st.s.2.length = st.s.1.arn.get.cols ∧ ∀ j (hj : j < st.s.2.length) i,
      st.s.2[j] i = a.ip (o.U i) (a.Ml (a.A (a.Mr (st.s.1.arn.V j)))) := by
  have ok := LSOK.of_defl h hs
  have ob := OblOK.of_defl h hs ho
  obtain ⟨adv, Inv, arn, β, v, hv, hβ, e1, -, hp, ha, h0, hvn, -, -⟩ := ob.setup ok hg p
  rw [e1] at hrun
  have hsim := run_sim (cfg := mkCfg s p) (xk0 := o.correct s) (r := β) (x0 := p.x0.getD 0)
    (gmres_log (Mr := a.Mr) (post := o.correct s) hp ok ob).1 (mk₁ := fun x => (gmresInit arn β x, []))
    (mk₂ := gmresInit arn β) ⟨rfl, ha, by simp [LogOK, gmresInit, h0]⟩
  have hl : LogOK a o st.s.1.arn st.s.2 := by
    rcases hrun with hrun | hrun
    · obtain ⟨b, hb, hr⟩ := hsim.1 st hrun
      exact hr.2.2
    · obtain ⟨b, hb, hr⟩ := hsim.2 st hrun
      exact hr.2.2
  unfold LogOK at hl
  constructor
  · rw [hl]
    unfold Arn.get
    split <;> simp
  · generalize st.s.2 = L at hl ⊢
    subst hl
    intro j hj i
    simp only [List.getElem_map, List.getElem_range]
    rfl

/-- `C = ⟨U, Ml A Mr V_n⟩` after a run of deflated MINRES. -/
theorem C38_C_minres (hm : MinresHyp a) (ortho : Ortho) (p : SolverArgs E)
    {st : St ℝ E (MinresSt 𝕜 E × List (Fin k → 𝕜))}
    (hrun : deflatedMinres s o ortho p = .returned st ∨ deflatedMinres s o ortho p = .convergence st) :
    st.s.2.length = st.s.1.arn.get.cols ∧ ∀ j (hj : j < st.s.2.length) i,
      st.s.2[j] i = a.ip (o.U i) (a.Ml (a.A (a.Mr (st.s.1.arn.V j)))) := by
  rcases hrun with hrun | hrun
  · obtain ⟨b, hb, e1, e2⟩ := (C37_minres_eq_gmres h hs ho hm ortho p).1 hrun
    have := C38_C_gmres h hs ho (hm.gmres ortho) p (Or.inl hb)
    change b.2.length = b.1.arn.get.cols ∧ ∀ j (hj : j < b.2.length) i,
      b.2[j] i = a.ip (o.U i) (a.Ml (a.A (a.Mr (b.1.arn.V j)))) at this
    rw [e1] at this
    generalize b.2 = L at this e2
    subst e2
    exact this
  · obtain ⟨b, hb, e1, e2⟩ := (C37_minres_eq_gmres h hs ho hm ortho p).2 hrun
    have := C38_C_gmres h hs ho (hm.gmres ortho) p (Or.inr hb)
    change b.2.length = b.1.arn.get.cols ∧ ∀ j (hj : j < b.2.length) i,
      b.2[j] i = a.ip (o.U i) (a.Ml (a.A (a.Mr (b.1.arn.V j)))) at this
    rw [e1] at this
    generalize b.2 = L at this e2
    subst e2
    exact this

/-- `B_` computed from columns `C = ⟨U, Ml A Mr V_n⟩` is `⟨V_(n_), Ml A Mr U⟩`, in both branches. -/
theorem C38_B_ (hsa : a.selfAdjoint = true → ∀ x y, a.ip (a.Ml (a.A (a.Mr x))) y = a.ip x (a.Ml (a.A (a.Mr y))))
    {n_ n : ℕ} (hn : n_ = n ∨ n_ = n + 1) (V : ℕ → E) {C : List (Fin k → 𝕜)} (hlen : C.length = n)
    (hC : ∀ j (hj : j < C.length) i, C[j] i = a.ip (o.U i) (a.Ml (a.A (a.Mr (V j))))) :
    (o.B_ s n_ n V C).length = n_ ∧ ∀ i (hi : i < (o.B_ s n_ n V C).length) j,
      (o.B_ s n_ n V C)[i] j = a.ip (V i) (a.Ml (a.A (a.Mr (o.U j)))) := by
  have ok := LSOK.of_defl h hs
  have ob := OblOK.of_defl h hs ho
  have hAU : ∀ j, o.AU j = a.Ml (a.A (a.Mr (o.U j))) := ob.AU
  obtain ⟨s', hs', -, hself, -⟩ := mkLS_ok h.ls
  rw [hs] at hs'
  obtain rfl := Except.ok.inj hs'
  generalize hB : o.B_ s n_ n V C = B
  unfold Obl.B_ at hB
  rw [hself, ok.ip] at hB
  cases hsf : a.selfAdjoint with
  | false =>
    rw [hsf] at hB
    simp only [Bool.false_eq_true, if_false] at hB
    subst hB
    refine ⟨by simp, fun i hi j => ?_⟩
    simp [hAU]
  | true =>
    have hsa' := hsa hsf
    rw [hsf] at hB
    simp only [if_true] at hB
    have hcol : ∀ i (hi : i < C.length) j, conj (C[i] j) = a.ip (V i) (a.Ml (a.A (a.Mr (o.U j)))) := by
      intro i hi j
      rw [hC i hi j, h.ls.inner.conj_symm, hsa']
    rcases hn with rfl | rfl
    · simp only [lt_irrefl, if_false, List.append_nil] at hB
      subst hB
      refine ⟨by simpa using hlen, fun i hi j => ?_⟩
      simp only [List.getElem_map]
      exact hcol i _ j
    · simp only [Nat.lt_succ_self, if_true] at hB
      subst hB
      simp only [List.length_append, List.length_map, List.length_singleton]
      refine ⟨by omega, fun i hi j => ?_⟩
      rcases Nat.lt_or_ge i C.length with h1 | h1
      · rw [List.getElem_append_left (by simpa using h1), List.getElem_map]
        exact hcol i _ j
      · obtain rfl : i = n := by omega
        rw [List.getElem_append_right (by simpa using h1)]
        simp [hAU]

/-- C38 for deflated GMRES: `B_ = ⟨V_(n+1), Ml A Mr U⟩`. -/
theorem C38_B_gmres {ortho : Ortho} (hg : GmresHyp a ortho)
    (hsa : a.selfAdjoint = true → ∀ x y, a.ip (a.Ml (a.A (a.Mr x))) y = a.ip x (a.Ml (a.A (a.Mr y))))
    (p : SolverArgs E) {st : St ℝ E (GmresSt 𝕜 E × List (Fin k → 𝕜))}
    (hrun : deflatedGmres s o ortho p = .returned st ∨ deflatedGmres s o ortho p = .convergence st)
    {B : List (Fin k → 𝕜)} (hB : B = o.B_ s st.s.1.arn.get.rows st.s.1.arn.get.cols st.s.1.arn.V st.s.2) :
    B.length = st.s.1.arn.get.basis ∧
      ∀ i (hi : i < B.length) j, B[i] j = a.ip (st.s.1.arn.V i) (a.Ml (a.A (a.Mr (o.U j)))) := by
  obtain ⟨h1, h2⟩ := C38_C_gmres h hs ho hg p hrun
  subst hB
  have hsh : st.s.1.arn.get.basis = st.s.1.arn.get.rows ∧
      (st.s.1.arn.get.rows = st.s.1.arn.get.cols ∨ st.s.1.arn.get.rows = st.s.1.arn.get.cols + 1) := by
    unfold Arn.get; split <;> simp
  rw [hsh.1]
  exact C38_B_ h hs ho hsa hsh.2 _ h1 h2

/-- C38 for deflated MINRES. -/
theorem C38_B_minres (hm : MinresHyp a) (ortho : Ortho) (p : SolverArgs E)
    {st : St ℝ E (MinresSt 𝕜 E × List (Fin k → 𝕜))}
    (hrun : deflatedMinres s o ortho p = .returned st ∨ deflatedMinres s o ortho p = .convergence st)
    {B : List (Fin k → 𝕜)} (hB : B = o.B_ s st.s.1.arn.get.rows st.s.1.arn.get.cols st.s.1.arn.V st.s.2) :
    B.length = st.s.1.arn.get.basis ∧
      ∀ i (hi : i < B.length) j, B[i] j = a.ip (st.s.1.arn.V i) (a.Ml (a.A (a.Mr (o.U j)))) := by
  obtain ⟨h1, h2⟩ := C38_C_minres h hs ho hm ortho p hrun
  subst hB
  have hsh : st.s.1.arn.get.basis = st.s.1.arn.get.rows ∧
      (st.s.1.arn.get.rows = st.s.1.arn.get.cols ∨ st.s.1.arn.get.rows = st.s.1.arn.get.cols + 1) := by
    unfold Arn.get; split <;> simp
  rw [hsh.1]
  exact C38_B_ h hs ho (fun _ => hm.sa) hsh.2 _ h1 h2

/-- C38 for deflated CG: the three-term recurrence yields `C = ⟨U, Ml A Mr V⟩` for the Lanczos vectors stored in
`V`; no entry is NaN.  If the run returns, `C` has as many columns as `H`; on the `ConvergenceError` path it has one column
more (finding: `B_` then has one row more than `V` has columns). -/
theorem C38_C_cg (hpd : SpdHyp a) (hMr : ∀ j, a.Mr (U j) = U j) (p : SolverArgs E) (htol : 0 ≤ p.tol)
    (hb : a.Ml a.b ≠ 0) {st : St ℝ E (CgSt 𝕜 E × List ((Fin k → 𝕜) × Option (Fin k → 𝕜)))}
    (hrun : deflatedCg s o true p = .returned st ∨ deflatedCg s o true p = .convergence st) :
    (∀ j (hj : j < st.s.2.length), ∃ v, (cgLanczos (st.setS st.s.1)).V j = some v ∧
      st.s.2[j].2 = some fun i => a.ip (o.U i) (a.Ml (a.A (a.Mr v)))) ∧
    (deflatedCg s o true p = .returned st → st.s.2.length = (cgLanczos (st.setS st.s.1)).n) ∧
    (deflatedCg s o true p = .convergence st → st.s.2.length = (cgLanczos (st.setS st.s.1)).n + 1) := by
  obtain ⟨hl, -, hlog, hret, hcon⟩ := deflCg_loop h hs ho hpd hMr true p htol hb hrun
  have hlen := hlog.len
  have inv := hl.inv
  have lan := hl.lan rfl
  have hH := defl_cgHyp h hpd (a.Ml (a.b - a.A (p.x0.getD 0)))
  have hi := h.ls.inner
  change CgInv _ _ _ _ _ _ st.s.1 at inv
  change CgLan _ st.s.1 at lan
  have hrp : ∀ j < st.s.1.k, 0 < st.s.1.rho j := fun j hj => by
    refine lt_of_le_of_ne ?_ (inv.rho_ne j hj).symm
    rw [inv.rho j hj.le]
    exact hH.prec.nsq_nonneg _
  refine ⟨fun j hj => ?_, fun hr => ?_, fun hc => ?_⟩
  · have hjk : j < st.s.1.k := by omega
    refine ⟨_, lan.V j hjk.le (hrp j hjk).ne', ?_⟩
    rw [hlog.col j hj fun i hi => hrp i (by omega)]
    congr 1
    have hM : a.M (st.s.1.rs j) = st.s.1.ps j - (if j = 0 then 0 else
        ((st.s.1.rho j / st.s.1.rho (j - 1) : ℝ) : 𝕜) • st.s.1.ps (j - 1)) := by
      cases j with
      | zero => rw [inv.ps0 (by omega), inv.rs0]; simp
      | succ j =>
        rw [inv.ps j (by omega)]
        simp
    funext i
    change _ = a.ip (o.U i) (a.B _)
    rw [map_smul, hi.smul_right, hM, map_sub, hi.sub_right]
    unfold cgC
    simp only [Pi.smul_apply, Pi.sub_apply, smul_eq_mul, coefs]
    congr 2
    split_ifs
    · simp [hi.zero_right]
    · simp only [Pi.smul_apply, smul_eq_mul, map_smul, hi.smul_right]
      rfl
  · rw [hlen, ← hret hr]; rfl
  · rw [hlen, ← (hcon hc).1]; rfl

end

/-! ## Examples -/

/-- QR factorisation of a single vector. -/
noncomputable def qr1 (ip : E → E → ℝ) [Module ℝ E] (X : Fin 1 → E) :
    Except Err ((Fin 1 → E) × Matrix (Fin 1) (Fin 1) ℝ) :=
  .ok (fun _ => (nrm ip (X 0))⁻¹ • X 0, Matrix.of fun _ _ => nrm ip (X 0))

theorem qr1_ok {E : Type*} [AddCommGroup E] [Module ℝ E] {ip : E → E → ℝ} (h : IsInner ip) {X : Fin 1 → E}
    (hX : X 0 ≠ 0) : ∃ V R, qr1 ip X = .ok (V, R) ∧ IsQr ip X V R := by
  have hn : nrm ip (X 0) ≠ 0 := fun h0 => hX (h.nrm_eq_zero.mp h0)
  refine ⟨_, _, rfl, fun j => ?_, ?_, fun i j hij => by omega⟩
  · obtain rfl : j = 0 := Fin.ext (by omega)
    simp [lincomb, smul_smul, hn]
  · ext i j
    obtain rfl : i = 0 := Fin.ext (by omega)
    obtain rfl : j = 0 := Fin.ext (by omega)
    simp only [gram, Matrix.of_apply, Matrix.one_apply_eq, h.smul_left, h.smul_right]
    rw [h.self_real, ← h.nrm_sq]
    simp
    field_simp

/-- Arguments for a one-dimensional deflation space. -/
noncomputable def exObl {E : Type*} [AddCommGroup E] [Module ℝ E] (ip : E → E → ℝ) : OblArgs ℝ E 1 :=
  ⟨qr1 ip, ⟨qr1 ip, fun M => (1, M)⟩, false, true, 2⟩

theorem exObl_hyp {E : Type*} [AddCommGroup E] [Module ℝ E] {a : LSArgs ℝ E} (ls : LSHyp a.ip a.M) {U : Fin 1 → E}
    (h0 : U 0 ≠ 0) (hdet : (gram a.ip U fun j => a.B (U j)).det ≠ 0) : DeflHyp a (exObl a.ip) U := by
  refine ⟨ls, ?_, fun _ _ _ _ X _ hX => qr1_ok ls.inner (hX.ne_zero 0),
    fun M => ⟨by simp [exObl], by simp [exObl], fun i j hij => by omega⟩, hdet, fun hs => by simp [exObl] at hs, by simp [exObl]⟩
  obtain ⟨V, R, h1, h2⟩ := qr1_ok ls.inner h0
  exact ⟨V, R, h1, h2.fact⟩

/-- Non-vacuity of C36-C38: deflation of `A = diag(1, 2)`, `b = (1, 1)` with the vector `(1, 1)`. -/
theorem exSpd_defl : DeflHyp exSpd (exObl exSpd.ip) (fun _ => ((1 : ℝ), (1 : ℝ))) := by
  refine exObl_hyp exSpd_hyp.ls (by simp) ?_
  simp [gram, LSArgs.B, exSpd, exCfg]
  norm_num

example : ∃ s o st st' st'', mkLS exSpd = .ok s ∧ mkObl s (exObl exSpd.ip) (fun _ => ((1 : ℝ), (1 : ℝ))) = .ok o ∧
    deflatedCg s o true ⟨none, 1e-5, 1, false, none⟩ = .returned st ∧
    deflatedGmres s o .mgs ⟨none, 1e-5, 1, false, none⟩ = .returned st' ∧
    deflatedMinres s o .lanczos ⟨none, 1e-5, 1, false, none⟩ = .returned st'' := by
  have hd := exSpd_defl
  obtain ⟨s, hs, -⟩ := mkLS_ok hd.ls
  obtain ⟨o, ho⟩ := C36_total hd hs
  have hb : exSpd.Ml exSpd.b ≠ 0 := by simp [exSpd]
  have hfin : Module.finrank ℝ (ℝ × ℝ) ≤ 1 + 1 := by simp
  have hMr : ∀ j : Fin 1, exSpd.Mr ((fun _ => ((1 : ℝ), (1 : ℝ)) : Fin 1 → ℝ × ℝ) j) = (1, 1) := fun _ => rfl
  have hinj : ∀ x, exSpd.Ml (exSpd.A (exSpd.Mr x)) = 0 → x = 0 := by
    intro x hx
    by_contra hne
    have := exSpd_hyp.pos x hne
    rw [hx, exSpd_hyp.ls.inner.zero_right] at this
    simp at this
  have hm : MinresHyp exSpd := ⟨exSpd_hyp.ls, exSpd_hyp.sa⟩
  have htol : (0 : ℝ) ≤ (⟨none, 1e-5, 1, false, none⟩ : SolverArgs (ℝ × ℝ)).tol := by norm_num
  obtain ⟨st, h1, -⟩ := C37_cg_terminates hd hs ho exSpd_hyp hMr true ⟨none, 1e-5, 1, false, none⟩ htol hb hfin
  obtain ⟨st', h2, -⟩ := C37_gmres_terminates hd hs ho (hm.gmres .mgs) hMr ⟨none, 1e-5, 1, false, none⟩ htol hb hinj hfin
  obtain ⟨st'', h3, -⟩ := C37_minres_terminates hd hs ho hm .lanczos hMr ⟨none, 1e-5, 1, false, none⟩ htol hb hinj hfin
  exact ⟨s, o, st, st', st'', hs, ho, h1, h2, h3⟩

/-! ## Finding: `correct` ignores `Mr` -/

/-- `A = 1`, `b = 1`, `Mr = 2` in dimension one. -/
noncomputable def exMr : LSArgs ℝ ℝ where
  A := LinearMap.id
  b := 1
  M := LinearMap.id
  Ml := LinearMap.id
  Mr := (2 : ℝ) • LinearMap.id
  ip := fun x y => x * y
  normal := none
  selfAdjoint := true
  positiveDefinite := true

theorem exMr_hyp : SpdHyp exMr where
  ls := ⟨isInner_mul, isInner_mul⟩
  sa x y := by simp [exMr]; ring
  pos x hx := by
    simp only [exMr, LinearMap.smul_apply, LinearMap.id_apply, smul_eq_mul, RCLike.re_to_real]
    have := mul_self_pos.mpr hx
    linarith

theorem exMr_defl : DeflHyp exMr (exObl exMr.ip) (fun _ => (1 : ℝ)) :=
  exObl_hyp exMr_hyp.ls one_ne_zero (by simp [gram, LSArgs.B, exMr])

/-- Finding: without `hMr` the claim of C36 and C37 is false.  For the admissible positive definite system `exMr` with
deflation vector `1` deflated GMRES returns at once with recorded relative residual norm `0` (below every tolerance),
but the residual norm of the returned approximation is half of that of `x = 0`. -/
theorem C37_right_preconditioner_counterexample : SpdHyp exMr ∧ DeflHyp exMr (exObl exMr.ip) (fun _ => (1 : ℝ)) ∧
    ∃ s o st x, mkLS exMr = .ok s ∧ mkObl s (exObl exMr.ip) (fun _ => (1 : ℝ)) = .ok o ∧
      deflatedGmres s o .mgs ⟨none, 1e-5, 5, false, none⟩ = .returned st ∧ st.resnorms = [0] ∧ st.xk = some x ∧
      resid exMr x = 1 / 2 * resid exMr 0 ∧ resid exMr 0 = 1 ∧
      ¬ ∀ _ : Fin 1, exMr.ip 1 (exMr.Ml (exMr.b - exMr.A x)) = 0 := by
  refine ⟨exMr_hyp, exMr_defl, ?_⟩
  have hd := exMr_defl
  obtain ⟨s, hs, -⟩ := mkLS_ok hd.ls
  obtain ⟨o, ho⟩ := C36_total hd hs
  have ok := LSOK.of_defl hd hs
  have ob := OblOK.of_defl hd hs ho
  obtain ⟨adv, Inv, arn, β, v, hv, hβ, e1, -, hp, ha, h0, hvn, -, -⟩ :=
    ob.setup ok (⟨exMr_hyp.ls, fun _ => exMr_hyp.sa⟩ : GmresHyp exMr .mgs) ⟨none, 1e-5, 5, false, none⟩
  have hv0 : v = 0 := by
    have := complLin_orth ob.inner ob.nonsing (exMr.Ml (exMr.b - exMr.A 0)) 0
    simp only [Option.getD_none] at hv
    rw [← hv] at this
    simpa [exMr] using this
  have hβ0 : β = 0 := by rw [hβ, hv0]; exact hd.ls.prec.nrm_eq_zero.mpr rfl
  have hr0 : resid exMr 0 = 1 := by simp [resid, nrm, nsq, exMr]
  have hcor : o.correct s 0 = .ok (1 / 2) := by
    rw [ob.correct]
    congr 1
    have hg : gram exMr.ip (fun _ : Fin 1 => (1 : ℝ)) (fun j => exMr.B ((fun _ : Fin 1 => (1 : ℝ)) j)) =
        Matrix.of fun _ _ => 2 := by
      ext i j
      simp [gram, LSArgs.B, exMr]
    rw [hg]
    have hinv : (Matrix.of fun _ _ => 2 : Matrix (Fin 1) (Fin 1) ℝ)⁻¹ = Matrix.of fun _ _ => 1 / 2 := by
      apply Matrix.inv_eq_left_inv
      ext i j
      obtain rfl : i = 0 := Fin.ext (by omega)
      obtain rfl : j = 0 := Fin.ext (by omega)
      simp [Matrix.mul_apply]
    rw [hinv]
    simp [lincomb, Matrix.mulVec, dotProduct, coefs, exMr]
  have hnb : (mkCfg s ⟨none, 1e-5, 5, false, none⟩).MMlbNorm = 1 := by rw [ok.nb, hr0]
  have hlast : resid exMr (1 / 2) = 1 / 2 := by
    simp only [resid, nrm, nsq, exMr, LinearMap.id_apply, RCLike.re_to_real]
    rw [show (1 - 1 / 2 : ℝ) * (1 - 1 / 2) = (1 / 2) ^ 2 by norm_num, Real.sqrt_sq (by norm_num)]
  refine ⟨s, o, ⟨(gmresInit arn β 0, []), 0, some (1 / 2), [0], none, 0⟩, 1 / 2, hs, ho, ?_, rfl, rfl, ?_, hr0, ?_⟩
  · rw [e1]
    unfold run
    have hne : ((mkCfg s ⟨none, 1e-5, 5, false, none⟩).MMlbNorm == 0) = false := by rw [hnb]; simp
    simp only [hne, Bool.false_eq_true, if_false, Option.getD_none]
    have herr : initErr (mkCfg s ⟨none, 1e-5, 5, false, none⟩) (o.correct s 0) = .ok none := by
      simp [initErr, mkCfg]
    rw [herr, hnb, hβ0]
    simp only [mkCfg]
    unfold loop
    have hguard : loopGuard (mkCfg s ⟨none, 1e-5, 5, false, none⟩)
        ((gmresMethod adv exMr.Mr (o.correct s) 5).log fun st _ => o.newC s (st.arn.V st.arn.iter))
        ⟨(gmresInit arn 0 0, []), 0, none, [0 / 1], none, 0⟩ = false := by
      have : ¬ ((1e-5 : ℝ) < 0) := by norm_num
      simp [loopGuard, mkCfg, this]
    simp only [mkCfg] at hguard
    simp only [hguard, Bool.false_eq_true, if_false]
    have hx : ((gmresMethod adv exMr.Mr (o.correct s) 5).log fun st _ => o.newC s (st.arn.V st.arn.iter)).getXk
        (gmresInit arn 0 0, []) = .ok (1 / 2) := by
      simp only [Method.log, gmresMethod, gmresXk]
      simp only [gmresInit, h0]
      simp [hcor]
    simp only [finish, hx]
    simp
  · rw [hlast, hr0]; norm_num
  · intro hcon
    have := hcon 0
    simp [exMr] at this
    norm_num at this

end Krypy
