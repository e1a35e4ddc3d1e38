import Verif.Props.DeflRitzVal
import Verif.Props.Singular
import Verif.Props.RecyclingRun
import Verif.Proofs.Contracts

/-!
# Property C40 for the call `Ritz(deflated_solver, mode)`

`C40_ritz`, `C40_harmonic` and `C40_resnorms` are statements about data with certain properties, `C40_gmres` and `C40_minres` show that
the data of a run have these properties.  Here both are put together: the statements are about the output of the call, the vectors
are those of `get_vectors()`, and nothing else of the model occurs.
-/

set_option linter.unusedSectionVars false

namespace Krypy
open scoped ComplexConjugate
open Matrix
variable {𝕜 E : Type*} [RCLike 𝕜] [AddCommGroup E] [Module 𝕜 E] {n m : ℕ}

/-- The specification of `Ritz`.  `z i` are the vectors of `get_vectors()` and `w i` their preimages under `M`; residuals are those of
the preconditioned operator, `Ml A Mr z - mu w`, and test vectors are arbitrary elements of the span of `V` and `U`. -/
structure RitzCall (a : LSArgs 𝕜 E) (V : ℕ → E) (U : Fin m → E) (mode : RitzMode) (out : DeflRitzOut 𝕜 n m) : Prop where
  /-- in the mode `ritz` all values are finite -/
  finite : mode = .ritz → ∀ i, ∃ mu, out.values i = some mu
  /-- in the mode `harmonic` no finite value is zero -/
  nonzero : mode = .harmonic → ∀ i, out.values i ≠ some 0
  /-- norms, residuals and residual norms -/
  pair : ∀ i, ∃ w, deflRitzVec V U (out.coeffs i) = a.M w ∧ nrm (fun x y => a.ip x (a.M y)) w = 1 ∧
    ∀ mu, out.values i = some mu →
      (mode = .ritz → ∀ y : Fin n ⊕ Fin m → 𝕜, a.ip (deflRitzVec V U y) (a.Ml (a.A (a.Mr (a.M w))) - mu • w) = 0) ∧
      (mode = .harmonic → ∀ y : Fin n ⊕ Fin m → 𝕜, a.ip (a.M (a.Ml (a.A (a.Mr (deflRitzVec V U y)))))
        (a.Ml (a.A (a.Mr (a.M w))) - mu • w) = 0) ∧
      (a.selfAdjoint = true → out.resnorms i = some (nrm (fun x y => a.ip x (a.M y)) (a.Ml (a.A (a.Mr (a.M w))) - mu • w)))

theorem map_deflRitzVec (f : E →ₗ[𝕜] E) (P : ℕ → E) (W : Fin m → E) (y : Fin n ⊕ Fin m → 𝕜) :
    f (deflRitzVec P W y) = deflRitzVec (fun i => f (P i)) (fun i => f (W i)) y := by
  simp only [deflRitzVec, map_add, map_lincomb]

theorem deflRitzVec_congr {V V' : ℕ → E} (U : Fin m → E) (h : ∀ i < n, V i = V' i) (y : Fin n ⊕ Fin m → 𝕜) :
    deflRitzVec V U y = deflRitzVec V' U y := by
  unfold deflRitzVec
  congr 1
  congr 1
  funext j
  exact h j j.2

section
variable {a : LSArgs 𝕜 E} {oa : OblArgs 𝕜 E m} {U : Fin m → E} (h : DeflHyp a oa U)
  {s : LS 𝕜 E} (hs : mkLS a = .ok s) {o : Obl 𝕜 E m} (ho : mkObl s oa U = .ok o)
include h hs ho

/-- From data to the call. -/
theorem ritzCall_of_rel (hsa : a.selfAdjoint = true → ∀ x y, a.ip (a.Ml (a.A (a.Mr x))) y = a.ip x (a.Ml (a.A (a.Mr y))))
    {V P : ℕ → E} {W : Fin m → E} (hV : ∀ i < n, V i = a.M (P i)) (hW : ∀ j, o.U j = a.M (W j))
    {H : ℕ → ℕ → 𝕜} {n_ : ℕ} {C B_ : List (Fin m → 𝕜)} {Em F : Matrix (Fin m) (Fin m) 𝕜}
    (hrel : DeflRitzRel (fun x y => a.ip x (a.M y)) (a.Ml ∘ₗ a.A ∘ₗ a.Mr ∘ₗ a.M) P W H n_ n Em F C B_)
    {rt : EigRoutines 𝕜 (Fin n ⊕ Fin m)} (hrt : EigOk rt) {mode : RitzMode} {out : DeflRitzOut 𝕜 n m}
    (hinj : mode = .harmonic → ∀ x, a.Ml (a.A (a.Mr x)) = 0 → x = 0)
    (hout : deflRitz rt H n_ Em C B_ F s.selfAdjoint mode = .ok out) : RitzCall a V o.U mode out := by
  obtain ⟨s', hs', -, hflag, -⟩ := mkLS_ok h.ls
  rw [hs] at hs'
  obtain rfl := Except.ok.inj hs'
  have hMsa := h.ls.symm
  have hgsa : s.selfAdjoint = true → ∀ x y, (fun x y => a.ip x (a.M y)) ((a.Ml ∘ₗ a.A ∘ₗ a.Mr ∘ₗ a.M) x) y =
      (fun x y => a.ip x (a.M y)) x ((a.Ml ∘ₗ a.A ∘ₗ a.Mr ∘ₗ a.M) y) := by
    intro h1 x y
    simp only [LinearMap.comp_apply]
    rw [hsa (hflag ▸ h1), hMsa]
  have hTinj : mode = .harmonic → Function.Injective (a.Ml ∘ₗ a.A ∘ₗ a.Mr ∘ₗ a.M) := by
    intro hmode
    rw [← LinearMap.ker_eq_bot, LinearMap.ker_eq_bot']
    intro x hx
    exact h.ls.M_inj (hinj hmode _ hx)
  have hvec : ∀ y : Fin n ⊕ Fin m → 𝕜, deflRitzVec V o.U y = a.M (deflRitzVec P W y) := by
    intro y
    rw [map_deflRitzVec, deflRitzVec_congr (V' := fun i => a.M (P i)) _ hV, show o.U = fun j => a.M (W j) from funext hW]
  have hres : ∀ i mu, out.values i = some mu → a.selfAdjoint = true →
      out.resnorms i = some (nrm (fun x y => a.ip x (a.M y))
        (a.Ml (a.A (a.Mr (a.M (deflRitzVec P W (out.coeffs i))))) - mu • deflRitzVec P W (out.coeffs i))) := by
    intro i mu hmu hs1
    exact C40_resnorms hrel hrt hgsa (C40_E_hermitian hrel (hgsa (hflag.trans hs1))) hTinj hout i hmu
  cases mode with
  | ritz =>
    refine ⟨fun _ i => ?_, fun hm => (by cases hm), fun i => ?_⟩
    · obtain ⟨mu, h1, -⟩ := C40_ritz hrel hrt hgsa hout i
      exact ⟨mu, h1⟩
    · obtain ⟨mu, h1, h2, h3⟩ := C40_ritz hrel hrt hgsa hout i
      refine ⟨_, hvec _, h2, fun mu' hmu' => ⟨fun _ y => ?_, fun hm => (by cases hm), hres i mu' hmu'⟩⟩
      rw [h1] at hmu'
      obtain rfl := Option.some.inj hmu'
      rw [hvec, hMsa]
      exact h3 y
  | harmonic =>
    refine ⟨fun hm => (by cases hm), fun _ i h0 => ?_, fun i => ?_⟩
    · exact ((C40_harmonic hrel hrt hgsa (hTinj rfl) hout i).2 0 h0).1 rfl
    · obtain ⟨h2, h3⟩ := C40_harmonic hrel hrt hgsa (hTinj rfl) hout i
      refine ⟨_, hvec _, h2, fun mu' hmu' => ⟨fun hm => (by cases hm), fun _ y => ?_, hres i mu' hmu'⟩⟩
      rw [hvec, hMsa]
      exact (h3 mu' hmu').2 y
  | other =>
    have hno : Fin n ⊕ Fin m → False := by
      intro i
      have hnm : 0 < n + m := by rcases i with i | i <;> have := i.2 <;> omega
      unfold deflRitz at hout
      rw [if_neg (by omega), if_neg (by rw [hrel.lenC, hrel.lenB]; simp), hrel.solve] at hout
      simp at hout
    exact ⟨fun hm => (by cases hm), fun hm => (by cases hm), fun i => (hno i).elim⟩

/-- C40, the call after a run of deflated GMRES whose last step was exact (`t` is the Arnoldi object and `C` the attribute `C` of the
solver). -/
theorem C40_gmres_call {ortho : Ortho} (hg : GmresHyp a ortho)
    (hsa : a.selfAdjoint = true → ∀ x y, a.ip (a.Ml (a.A (a.Mr x))) y = a.ip x (a.Ml (a.A (a.Mr y))))
    {W : Fin m → E} (hW : ∀ j, o.U j = a.M (W j)) (hWo : ∀ i j, a.ip (o.U i) (W j) = if i = j then 1 else 0)
    (p : SolverArgs E) {st : St ℝ E (GmresSt 𝕜 E × List (Fin m → 𝕜))}
    (hrun : deflatedGmres s o ortho p = .returned st ∨ deflatedGmres s o ortho p = .convergence st)
    {t : Arn 𝕜 E} (ht : t = st.s.1.arn) {C : List (Fin m → 𝕜)} (hC : C = st.s.2)
    (hex : t.invariant = true → ∀ j, j + 1 = t.iter → t.H (j + 1) j = 0)
    {rt : EigRoutines 𝕜 (Fin t.get.cols ⊕ Fin m)} (hrt : EigOk rt) {mode : RitzMode}
    (hinj : mode = .harmonic → ∀ x, a.Ml (a.A (a.Mr x)) = 0 → x = 0)
    {out : DeflRitzOut 𝕜 t.get.cols m} (hout : o.ritz s rt t.H t.get.rows t.V C mode = .ok out) :
    RitzCall a t.V o.U mode out := by
  subst ht hC
  have hrel := C40_gmres h hs ho hg hsa hW hWo p hrun hex
  have hreach := deflGmres_reach h hs ho hg p hrun
  have hob := OblOK.of_defl h hs ho
  have ok := LSOK.of_defl h hs
  have hV : ∀ i < st.s.1.arn.get.cols, st.s.1.arn.V i = a.M (st.s.1.arn.P i) := by
    intro i hi
    obtain ⟨-, hM, -, -⟩ := hob.cfg_eq ok ortho p.maxiter
    obtain ⟨-, hR, -⟩ := C17_arnoldi (hob.arnHyp ok hg p.maxiter) hreach
    rw [hM] at hR
    exact hR.VM i (lt_of_lt_of_le hi (by unfold Arn.get; split <;> simp))
  exact ritzCall_of_rel h hs ho hsa hV hW hrel hrt hinj hout

/-- C40, the call after a run of deflated MINRES whose last step was exact. -/
theorem C40_minres_call (hm : MinresHyp a) (ortho : Ortho)
    {W : Fin m → E} (hW : ∀ j, o.U j = a.M (W j)) (hWo : ∀ i j, a.ip (o.U i) (W j) = if i = j then 1 else 0)
    (p : SolverArgs E) {st : St ℝ E (MinresSt 𝕜 E × List (Fin m → 𝕜))}
    (hrun : deflatedMinres s o ortho p = .returned st ∨ deflatedMinres s o ortho p = .convergence st)
    {t : Arn 𝕜 E} (ht : t = st.s.1.arn) {C : List (Fin m → 𝕜)} (hC : C = st.s.2)
    (hex : t.invariant = true → ∀ j, j + 1 = t.iter → t.H (j + 1) j = 0)
    {rt : EigRoutines 𝕜 (Fin t.get.cols ⊕ Fin m)} (hrt : EigOk rt) {mode : RitzMode}
    (hinj : mode = .harmonic → ∀ x, a.Ml (a.A (a.Mr x)) = 0 → x = 0)
    {out : DeflRitzOut 𝕜 t.get.cols m} (hout : o.ritz s rt t.H t.get.rows t.V C mode = .ok out) :
    RitzCall a t.V o.U mode out := by
  obtain ⟨b, hb, e1, e2⟩ : ∃ b : GmresSt 𝕜 E × List (Fin m → 𝕜),
      (deflatedGmres s o ortho p = .returned (st.setS b) ∨ deflatedGmres s o ortho p = .convergence (st.setS b)) ∧
      b.1.arn = st.s.1.arn ∧ b.2 = st.s.2 := by
    rcases hrun with hrun | hrun
    · obtain ⟨b, hb, e1, e2⟩ := (C37_minres_eq_gmres h hs ho hm ortho p).1 hrun
      exact ⟨b, Or.inl hb, e1, e2⟩
    · obtain ⟨b, hb, e1, e2⟩ := (C37_minres_eq_gmres h hs ho hm ortho p).2 hrun
      exact ⟨b, Or.inr hb, e1, e2⟩
  exact C40_gmres_call h hs ho (hm.gmres ortho) (fun _ => hm.sa) hW hWo p hb (ht.trans e1.symm) (hC.trans e2.symm) hex hrt
    hinj hout

/-- C40, the call after a run of deflated CG (with `store_arnoldi`) whose last residual norm is not zero. -/
theorem C40_cg_call (hpd : SpdHyp a) (hMr : ∀ j, a.Mr (U j) = U j)
    {W : Fin m → E} (hW : ∀ j, o.U j = a.M (W j)) (hWo : ∀ i j, a.ip (o.U i) (W j) = if i = j then 1 else 0)
    (p : SolverArgs E) (htol : 0 ≤ p.tol)
    (hb : a.Ml a.b ≠ 0) {st : St ℝ E (CgSt 𝕜 E × List ((Fin m → 𝕜) × Option (Fin m → 𝕜)))}
    (hrun : deflatedCg s o true p = .returned st) (hlast : st.resnorms.getLast? ≠ some 0)
    {L : CgLanczos E} (hL : L = cgLanczos (st.setS st.s.1))
    {rt : EigRoutines 𝕜 (Fin L.n ⊕ Fin m)} (hrt : EigOk rt) {mode : RitzMode} {out : DeflRitzOut 𝕜 L.n m}
    (hout : o.cgRitz s rt L.H L.V (st.s.2.map (·.2)) mode = .ok out) :
    ∃ V : ℕ → E, (∀ i < L.n, L.V i = some (V i)) ∧ RitzCall a V o.U mode out := by
  obtain ⟨P, C', B', hV, hcall, hrel⟩ := C40_cg h hs ho hpd hMr hW hWo p htol hb hrun hlast hL
  rw [hcall] at hout
  refine ⟨fun i => a.M (P i), fun i hi => hV i hi.le, ?_⟩
  refine ritzCall_of_rel h hs ho (fun _ => hpd.sa) (fun i _ => rfl) hW hrel hrt (fun _ x hx => ?_) hout
  by_contra hne
  have := hpd.pos x hne
  rw [hx, hpd.ls.inner.zero_right] at this
  simp at this

end

/-! ## Non-vacuity -/

/-- There are eigenvalue routines which obey the contract, with `eigh` defined for all Hermitian matrices. -/
theorem exists_eigTotal : ∃ rt : ∀ n m, EigRoutines 𝕜 (Fin n ⊕ Fin m), EigTotal rt := by
  classical
  refine ⟨fun n m => ⟨fun _ => .error .linAlgError,
    fun M => .ok (if hM : M.IsHermitian then (exists_isEigh M hM).choose else (fun _ => 0, fun _ _ => 0)),
    fun _ _ => .error .linAlgError, fun _ _ => .error .linAlgError⟩, fun n m => ⟨?_, ?_, ?_, ?_⟩, fun n m M => ⟨_, rfl⟩⟩
  · intro M e he; simp at he
  · intro M e hM he
    obtain rfl := Except.ok.inj he
    rw [dif_pos hM]
    exact (exists_isEigh M hM).choose_spec
  · intro M N e _ he; simp at he
  · intro M N e _ _ _ he; simp at he

/-- The call `Ritz(solver)` succeeds after the run of deflated GMRES for `A = diag(1, 2)` with deflation vector `(1, 1)`. -/
example : ∃ (s : LS ℝ (ℝ × ℝ)) (o : Obl ℝ (ℝ × ℝ) 1) (t : Arn ℝ (ℝ × ℝ)) (C : List (Fin 1 → ℝ))
    (rt : EigRoutines ℝ (Fin t.get.cols ⊕ Fin 1)) (out : DeflRitzOut ℝ t.get.cols 1),
    mkLS exSpd = .ok s ∧ mkObl s (exObl exSpd.ip) (fun _ => ((1 : ℝ), (1 : ℝ))) = .ok o ∧
    o.ritz s rt t.H t.get.rows t.V C .ritz = .ok out ∧ RitzCall exSpd t.V o.U .ritz out := by
  obtain ⟨s, o, st, hs, ho, hst, hU, hex⟩ := exSpd_deflGmres
  obtain ⟨rt, hrt⟩ := exists_eigTotal (𝕜 := ℝ)
  have hm : MinresHyp exSpd := ⟨exSpd_hyp.ls, exSpd_hyp.sa⟩
  have hW : ∀ j, o.U j = exSpd.M (o.U j) := fun _ => rfl
  have hrel := C40_gmres exSpd_defl hs ho (hm.gmres .mgs) (fun _ => hm.sa) hW hU _ (Or.inl hst) hex
  obtain ⟨s', hs', -, hflag, -⟩ := mkLS_ok exSpd_hyp.ls
  rw [hs] at hs'
  obtain rfl := Except.ok.inj hs'
  obtain ⟨out, hout, -⟩ := hrel.out_eigh (hrt.ok _ _) (hrt.total _ _) (fun x y => by
    have := hm.sa x y
    exact this)
  have hout' : o.ritz s (rt _ _) st.s.1.arn.H st.s.1.arn.get.rows st.s.1.arn.V st.s.2 .ritz = .ok out := by
    unfold Obl.ritz
    rw [hflag]
    exact hout
  exact ⟨s, o, st.s.1.arn, st.s.2, rt _ _, out, hs, ho, hout', C40_gmres_call exSpd_defl hs ho (hm.gmres .mgs)
    (fun _ => hm.sa) hW hU _ (Or.inl hst) rfl rfl hex (hrt.ok _ _) (fun h => by cases h) hout'⟩

/-- Deflated CG for `A = diag(1, 2)`, `b = (1, 1)` with the deflation vector `(1, 1)` stops at once if `tol` is the relative norm of
the deflated initial residual, which is not zero. -/
theorem exSpd_deflCg_stop : ∃ s o st, ∃ t : ℝ, 0 ≤ t ∧ mkLS exSpd = .ok s ∧ mkObl s (exObl exSpd.ip) (fun _ => ((1 : ℝ), (1 : ℝ))) = .ok o ∧
    (∀ i j, exSpd.ip (o.U i) (o.U j) = if i = j then 1 else 0) ∧
    deflatedCg s o true ⟨none, t, 1, false, none⟩ = .returned st ∧ st.resnorms = [t] ∧ t ≠ 0 := by
  obtain ⟨s, o, -, hs, ho, -, hU, -⟩ := exSpd_deflGmres
  have hd := exSpd_defl
  have hb : exSpd.Ml exSpd.b ≠ 0 := by simp [exSpd]
  have hfin : Module.finrank ℝ (ℝ × ℝ) ≤ 1 + 1 := by simp
  have hMr : ∀ j : Fin 1, exSpd.Mr ((fun _ => ((1 : ℝ), (1 : ℝ)) : Fin 1 → ℝ × ℝ) j) = (1, 1) := fun _ => rfl
  have hpos := resid_pos hd.ls hb
  set r0 := complLin hd.ls.inner exSpd.B (fun _ : Fin 1 => ((1 : ℝ), (1 : ℝ))) (exSpd.Ml (exSpd.b - exSpd.A 0)) with hr0
  have hne : nrm (gform exSpd.ip exSpd.M) r0 ≠ 0 := by
    intro e
    have e0 := hd.ls.prec.nrm_eq_zero.mp e
    obtain ⟨c, hc⟩ := complLin_diff hd.ls.inner (B := exSpd.B) (U := fun _ : Fin 1 => ((1 : ℝ), (1 : ℝ))) (exSpd.Ml (exSpd.b - exSpd.A 0))
    rw [← hr0, e0] at hc
    simp [exSpd, LSArgs.B, lincomb, Prod.ext_iff] at hc
    linarith [hc.1, hc.2]
  have ht : 0 ≤ nrm (gform exSpd.ip exSpd.M) r0 / resid exSpd 0 := div_nonneg (nrm_nonneg _ _) hpos.le
  generalize hteq : nrm (gform exSpd.ip exSpd.M) r0 / resid exSpd 0 = t at ht
  obtain ⟨st, h1, -⟩ := C37_cg_terminates hd hs ho exSpd_hyp hMr true ⟨none, t, 1, false, none⟩ ht hb hfin
  obtain ⟨hl, -⟩ := deflCg_loop hd hs ho exSpd_hyp hMr true ⟨none, t, 1, false, none⟩ ht hb (Or.inl h1)
  have hlen := hl.len
  have hresn := hl.resn
  have inv := hl.inv
  change CgInv _ _ _ _ _ _ st.s.1 at inv
  change st.resnorms.length = st.s.1.k + 1 at hlen
  have e := hresn 0 (by change 0 < st.resnorms.length; omega)
  change st.resnorms[0]'(by omega) * _ = _ at e
  have e1 : (st.setS st.s.1).s.ys 0 = 0 := inv.ys0
  rw [e1, map_zero, sub_zero] at e
  have e2 : st.resnorms[0]'(by omega) = t := by
    rw [← hteq, eq_div_iff hpos.ne']
    exact e
  have hone : st.resnorms.length = 1 := by
    by_contra hcon
    have := (C22_deflated_cg s o true ⟨none, t, 1, false, none⟩).earlier st (Or.inl h1) 0 t (by omega)
      (by rw [List.getElem?_eq_getElem (by omega), e2])
    exact lt_irrefl _ this
  refine ⟨s, o, st, t, ht, hs, ho, hU, h1, ?_, ?_⟩
  · obtain ⟨x, hx⟩ := List.length_eq_one_iff.mp hone
    simp only [hx, List.getElem_cons_zero] at e2
    rw [hx, e2]
  · rw [← hteq]
    exact div_ne_zero hne hpos.ne'

/-- The call `Ritz(solver)` succeeds after this run, and `C40_cg_call` applies. -/
example : ∃ (s : LS ℝ (ℝ × ℝ)) (o : Obl ℝ (ℝ × ℝ) 1) (L : CgLanczos (ℝ × ℝ)) (C : List (Option (Fin 1 → ℝ)))
    (rt : EigRoutines ℝ (Fin L.n ⊕ Fin 1)) (out : DeflRitzOut ℝ L.n 1) (V : ℕ → ℝ × ℝ),
    mkLS exSpd = .ok s ∧ mkObl s (exObl exSpd.ip) (fun _ => ((1 : ℝ), (1 : ℝ))) = .ok o ∧
    o.cgRitz s rt L.H L.V C .ritz = .ok out ∧ RitzCall exSpd V o.U .ritz out := by
  obtain ⟨s, o, st, t, ht, hs, ho, hU, hrun, hres, hne⟩ := exSpd_deflCg_stop
  obtain ⟨rt, hrt⟩ := exists_eigTotal (𝕜 := ℝ)
  have hb : exSpd.Ml exSpd.b ≠ 0 := by simp [exSpd]
  have hlast : st.resnorms.getLast? ≠ some 0 := by simp [hres, hne]
  have hW : ∀ j, o.U j = exSpd.M (o.U j) := fun _ => rfl
  obtain ⟨s', hs', -, hflag, -⟩ := mkLS_ok exSpd_hyp.ls
  rw [hs] at hs'
  obtain rfl := Except.ok.inj hs'
  obtain ⟨P, C', B', -, hcall, hrel⟩ := C40_cg exSpd_defl hs ho exSpd_hyp (fun _ => rfl) hW hU ⟨none, t, 1, false, none⟩ ht hb hrun hlast rfl
  obtain ⟨out, hout, -⟩ := hrel.out_eigh (hrt.ok _ _) (hrt.total _ _) (fun x y => exSpd_hyp.sa x y)
  have hout' := hcall (rt _ _) .ritz
  rw [hflag] at hout'
  replace hout' := hout'.trans hout
  obtain ⟨V, -, hV⟩ := C40_cg_call exSpd_defl hs ho exSpd_hyp (fun _ => rfl) hW hU ⟨none, t, 1, false, none⟩ ht hb hrun hlast rfl (hrt.ok _ _) hout'
  exact ⟨s, o, _, _, rt _ _, out, V, hs, ho, hout', hV⟩

end Krypy
