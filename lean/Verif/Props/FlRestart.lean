import Verif.Props.FlGmresCall
import Verif.Props.RestartedGmres
import Verif.Props.DeflMatrices
import Verif.Props.SolverCalls

/-!
# Property C84: restarted and deflated solvers in inexact arithmetic

C77 says that the rounding errors of a method cannot fake convergence.  Here the same is shown for a sequence of restarts, and for deflated solvers after
at least one iteration, however inaccurate the projection is.  A deflated solver without iterations does not check its result (`C84_unverified`).
-/

set_option linter.unusedSectionVars false

namespace Krypy
open Matrix
variable {𝕜 : Type*} [RCLike 𝕜]

section
variable {F X S : Type*} [LE F] [LT F] [DecidableLE F] [DecidableLT F] [Div F] [Zero F] [BEq F] [Zero X]

/-- Spec: the last recorded relative residual norm, if it signals convergence, was evaluated for the returned approximation. -/
def Verified (cfg : Cfg F X) (xk : Option X) (r : F) : Prop :=
  r ≤ cfg.tol → ∃ x v, xk = some x ∧ cfg.resNorm x = .ok v ∧ r = v / cfg.MMlbNorm

/-- Spec: the bound of C77 for the exact residual of `x`. -/
def SmallResidual {n : ℕ} (A : Matrix (Fin n) (Fin n) 𝕜) (b : Fin n → 𝕜) (t : ℝ) (x : Fin n → 𝕜) : Prop :=
  vecNorm (b - A *ᵥ x) ≤ (1 + 1 / 10 ^ 9) * t * vecNorm b + 1.2 / 10 ^ 10 * vecNorm (fun i => ∑ j, ‖A i j‖ * ‖x j‖)

/-- a method without iterations -/
private def still : Method F X X where
  more _ := false
  step _ := .error .other
  getXk s := .ok s
  k _ := 0
  post s _ := s
  countAfter := false

private theorem still_lawful (n : ℕ) : LawfulMethod (still (F := F) (X := X)) n :=
  ⟨by intro s s' r h; simp [still] at h, by simp [still], by simp [still], by simp [still]⟩

/-- C84: a residual norm which was evaluated and is not above the tolerance bounds the exact residual. -/
theorem C84_verified {n : ℕ} (h1 : 1 ≤ n) (hn : n ≤ 1000000) {val : F → Option ℝ} {A : Matrix (Fin n) (Fin n) 𝕜} {b : Fin n → 𝕜} {vec : X → Fin n → 𝕜}
    {cfg : Cfg F X} {t B : ℝ} (hc : FlCall flDouble val A b vec cfg t B) (hB : B ≠ 0) {xk : Option X} {r : F} (hv : Verified cfg xk r) {q : ℝ}
    (hq : val r = some q) (hle : r ≤ cfg.tol) : ∃ x, xk = some x ∧ SmallResidual A b t (vec x) := by
  obtain ⟨x, v, hx, hr, rfl⟩ := hv hle
  have hc' : FlCall flDouble val A b vec { cfg with errNorm := none } t B := ⟨hc.fmt, hc.tol, hc.rhs, hc.rhs_eval, hc.res_eval, hc.zero⟩
  have hb0 : (cfg.MMlbNorm == 0) = false := by
    cases hbb : cfg.MMlbNorm == 0 with
    | false => rfl
    | true => exact absurd ((hc.fmt.beq_zero hc.rhs).mp hbb) hB
  have hrun : run { cfg with errNorm := none } still x v (fun x => x) (fun x => .ok x) =
      .returned ⟨x, 0, some x, [v / cfg.MMlbNorm], none, 0⟩ := by
    unfold run
    simp only [hb0, Bool.false_eq_true, if_false, initErr]
    unfold loop
    simp [loopGuard, still, finish]
  obtain ⟨y, hy, h⟩ := C77_double h1 hn hc' hB (still_lawful cfg.maxiter) (fun _ => rfl)
    (fun y hy => by obtain rfl := Except.ok.inj hy; exact hr) hrun (r := v / cfg.MMlbNorm) rfl hq hle
  obtain rfl := Option.some.inj hy
  exact ⟨x, hx, h⟩

theorem seamJoin_getLast {α : Type*} {L : List (List α)} {l : List α} (h : L.getLast? = some l) (hl : l ≠ []) : (seamJoin L).getLast? = l.getLast? := by
  unfold seamJoin
  rw [h, Option.getD_some, List.getLast?_append_of_ne_nil _ hl]

/-- The restart loop depends on the successful cycles only. -/
theorem rLoop_mono {mr : ℤ} {f g : Option X → Except Err (RSol F X)} (hfg : ∀ x c, f x = .ok c → g x = .ok c) (n : ℕ) (st : RSt F X) {st' : RSt F X} :
    (rLoop mr f n st = .returned st' → rLoop mr g n st = .returned st') ∧ (rLoop mr f n st = .convergence st' → rLoop mr g n st = .convergence st') := by
  induction n generalizing st with
  | zero =>
    unfold rLoop
    exact ⟨id, id⟩
  | succ n ih =>
    unfold rLoop
    by_cases hg : rGuard mr st = true
    · simp only [hg, if_true]
      cases hb : rBody f st with
      | error e => constructor <;> intro h <;> cases h
      | ok s1 =>
        have hb' : rBody g st = .ok s1 := by
          unfold rBody at hb ⊢
          cases hs : f st.xk with
          | error e => rw [hs] at hb; cases hb
          | ok c => rw [hs] at hb; rw [hfg _ _ hs]; exact hb
        rw [hb']
        exact ih s1
    · simp only [hg]
      exact ⟨id, id⟩

theorem flRsol_ok {tol d : F} {o : Outcome (St F X S)} {c : RSol F X} (h : flRsol tol d o = .ok c) :
    ∃ st, (o = .returned st ∨ o = .convergence st) ∧ st.xk = some c.xk ∧ c.tol = tol ∧ c.resnorms = st.resnorms ∧ c.errnorms = st.errnorms.getD [d] := by
  unfold flRsol at h
  split at h
  · next st =>
    split at h
    · next x hx => obtain rfl := Except.ok.inj h; exact ⟨st, .inl rfl, hx, rfl, rfl, rfl⟩
    · cases h
  · next st =>
    split at h
    · next x hx => obtain rfl := Except.ok.inj h; exact ⟨st, .inr rfl, hx, rfl, rfl, rfl⟩
    · cases h
  · cases h
  · cases h

/-- C84: a restarted solver which returns with a finite residual norm has found a vector whose exact residual is small, for every inner solver whose
cycles verify convergence; the rounding errors of all cycles do not matter. -/
theorem C84_restarted {n : ℕ} (h1 : 1 ≤ n) (hn : n ≤ 1000000) {val : F → Option ℝ} {A : Matrix (Fin n) (Fin n) 𝕜} {b : Fin n → 𝕜} {vec : X → Fin n → 𝕜}
    {cfg : Cfg F X} {t B : ℝ} (hc : FlCall flDouble val A b vec cfg t B) (hB : B ≠ 0) {k : S → ℕ} {inv : S → Bool} {d : F}
    {cyc : Option X → Outcome (St F X S)} (hon : ∀ x, HonestCall cfg k inv (cyc x))
    (h0 : ∀ x st r, cyc x = .returned st → st.resnorms.length = 1 → st.resnorms.getLast? = some r → Verified cfg st.xk r)
    {inf : F} {mr : ℤ} {st : RSt F X} (h : restarted inf mr (fun x => flRsol cfg.tol d (cyc x)) = .returned st) {r : F} {q : ℝ}
    (hr : st.resnorms.getLast? = some r) (hq : val r = some q) :
    ∃ x, st.xk = some x ∧ SmallResidual A b t (vec x) := by
  have hlen : ∀ x st, cyc x = .returned st ∨ cyc x = .convergence st → st.resnorms.length = k st.s + 1 := fun x st h => ((hon x).history st h).1
  have hne : ∀ x s, flRsol cfg.tol d (cyc x) = .ok s → s.resnorms ≠ [] ∧ s.errnorms ≠ [] := by
    intro x s hs
    obtain ⟨st', hst, -, -, e1, e2⟩ := flRsol_ok hs
    have h2 := hlen x st' hst
    refine ⟨?_, ?_⟩
    · rw [e1]
      intro h3
      rw [h3] at h2
      simp at h2
    · obtain ⟨-, -, h4, h5⟩ := (hon x).history st' hst
      rw [e2]
      by_cases he : cfg.errNorm = none
      · rw [h4 he]; simp
      · obtain ⟨l, hl, hl'⟩ := h5 he
        rw [hl]
        intro h6
        simp only [Option.getD_some] at h6
        rw [h6, h2] at hl'
        simp at hl'
  rcases C34_restarted inf mr _ hne with ⟨e, x, h3, -⟩ | ⟨st', sol, r', h3, -, -, hch, hl, hxk, hj, -, hr'⟩
  · rw [h] at h3; cases h3
  rcases h3 with ⟨h3, hlt⟩ | ⟨h3, -, -⟩
  swap
  · rw [h] at h3; cases h3
  rw [h] at h3
  obtain rfl : st = st' := by injection h3
  obtain rfl : r = r' := Option.some.inj (hr.symm.trans hr')
  obtain ⟨i, hi⟩ : ∃ i, st.sols[i]? = some sol := by
    rw [List.getLast?_eq_getElem?] at hl
    exact ⟨_, hl⟩
  obtain ⟨s1, hs1, hsx, hst, hsr, -⟩ := flRsol_ok (hch i sol hi)
  have hlast : s1.resnorms.getLast? = some r := by
    rw [← hsr, ← hr, hj]
    refine (seamJoin_getLast (L := st.sols.map (·.resnorms)) (l := sol.resnorms) (by simp [hl]) ?_).symm
    exact (hne _ _ (hch i sol hi)).1
  have hle : r ≤ cfg.tol := by
    rw [hst] at hlt
    refine (hc.fmt.le_iff hq hc.tol).mpr (not_lt.mp fun h6 => hlt ((hc.fmt.lt_iff hc.tol hq).mpr h6))
  have hver : Verified cfg s1.xk r := by
    rcases hs1 with hs1 | hs1
    · by_cases h7 : s1.resnorms.length = 1
      · exact h0 _ s1 r hs1 h7 hlast
      · intro h8
        refine (hon _).explicit s1 hs1 ?_ r hlast h8
        have := hlen _ s1 (.inl hs1)
        omega
    · intro h8
      obtain ⟨-, -, x, v, g1, g2, g3, g4⟩ := (hon _).convergence s1 hs1
      exact ⟨x, v, g1, g2, Option.some.inj (hlast.symm.trans g3)⟩
  obtain ⟨x, hx, hs⟩ := C84_verified h1 hn hc hB hver hq hle
  refine ⟨x, ?_, hs⟩
  rw [hxk, ← hsx, hx]

/-- C84: a solver with an arbitrary (also a wrong) projection or preconditioner which returns after at least one iteration with a finite
`resnorms[-1] <= tol` has found a vector whose exact residual is small. -/
theorem C84_deflated {n : ℕ} (h1 : 1 ≤ n) (hn : n ≤ 1000000) {val : F → Option ℝ} {A : Matrix (Fin n) (Fin n) 𝕜} {b : Fin n → 𝕜} {vec : X → Fin n → 𝕜}
    {cfg : Cfg F X} {t B : ℝ} (hc : FlCall flDouble val A b vec cfg t B) (hB : B ≠ 0) {k : S → ℕ} {inv : S → Bool} {o : Outcome (St F X S)}
    (hon : HonestCall cfg k inv o) {st : St F X S} (h : o = .returned st) (hl : 2 ≤ st.resnorms.length) {r : F} {q : ℝ} (hr : st.resnorms.getLast? = some r)
    (hq : val r = some q) (hle : r ≤ cfg.tol) : ∃ x, st.xk = some x ∧ SmallResidual A b t (vec x) :=
  C84_verified h1 hn hc hB (fun h2 => hon.explicit st h hl r hr h2) hq hle

variable {K Q : Type*}

/-- The cycles of `flRestartedGmres`. -/
private def flCycle (cfg : Cfg F X) (o : FlGmresOps F K X Q) (ortho : Ortho) (g0 : Q) (initRes : Option X → Except Err (X × X × F)) (x0 x : Option X) :
    Outcome (St F X (FlGmresSt F K X Q)) :=
  match initRes (x.or x0) with
  | .error e => .raised e
  | .ok (MMlr0, Mlr0, r0) => flGmres cfg o ortho g0 .ok ((x.or x0).getD 0) MMlr0 Mlr0 r0

private theorem flRestartedGmres_eq (cfg : Cfg F X) (o : FlGmresOps F K X Q) (ortho : Ortho) (g0 : Q) (initRes : Option X → Except Err (X × X × F))
    (x0 : Option X) (inf d : F) (mr : ℤ) : flRestartedGmres cfg o ortho g0 initRes x0 inf d mr =
      restarted inf mr fun x => flRsol cfg.tol d (flCycle cfg o ortho g0 initRes x0 x) := by
  unfold flRestartedGmres
  congr 1
  funext x
  unfold flCycle
  dsimp only
  cases initRes (x.or x0) <;> rfl

private theorem flCycle_honest (cfg : Cfg F X) (o : FlGmresOps F K X Q) (ortho : Ortho) (g0 : Q) (initRes : Option X → Except Err (X × X × F)) (x0 x : Option X) :
    HonestCall cfg (fun s => s.arn.iter) (fun s => s.arn.invariant) (flCycle cfg o ortho g0 initRes x0 x) := by
  unfold flCycle
  split
  · exact .raised _
  · rcases C80_honest cfg o ortho g0 .ok ((x.or x0).getD 0) _ _ _ with ⟨e, -, h⟩ | h
    · rw [h]; exact .raised _
    · exact h

/-- C84 for `RestartedGmres`: if it returns with a finite `resnorms[-1]`, then the exact residual of the returned vector is small.  `hres`: the initial
residual norm is evaluated as any other residual norm. -/
theorem C84_restarted_gmres {n : ℕ} (h1 : 1 ≤ n) (hn : n ≤ 1000000) {val : F → Option ℝ} {A : Matrix (Fin n) (Fin n) 𝕜} {b : Fin n → 𝕜}
    {vec : X → Fin n → 𝕜} {cfg : Cfg F X} {t B : ℝ} (hc : FlCall flDouble val A b vec cfg t B) (hB : B ≠ 0) {o : FlGmresOps F K X Q} {ortho : Ortho} {g0 : Q}
    {initRes : Option X → Except Err (X × X × F)} (hres : ∀ x MMlr0 Mlr0 r0, initRes x = .ok (MMlr0, Mlr0, r0) → cfg.resNorm (x.getD 0) = .ok r0)
    {x0 : Option X} {inf d : F} {mr : ℤ} {st : RSt F X} (h : flRestartedGmres cfg o ortho g0 initRes x0 inf d mr = .returned st) {r : F} {q : ℝ}
    (hr : st.resnorms.getLast? = some r) (hq : val r = some q) : ∃ x, st.xk = some x ∧ SmallResidual A b t (vec x) := by
  rw [flRestartedGmres_eq] at h
  refine C84_restarted h1 hn hc hB (flCycle_honest cfg o ortho g0 initRes x0) (fun x s1 r1 hs hl hr1 hle => ?_) h hr hq
  have hb0 : (cfg.MMlbNorm == 0) = false := by
    cases hbb : cfg.MMlbNorm == 0 with
    | false => rfl
    | true => exact absurd ((hc.fmt.beq_zero hc.rhs).mp hbb) hB
  unfold flCycle at hs
  split at hs
  · cases hs
  next MMlr0 Mlr0 r0 hi =>
  have hr0 := hres _ _ _ _ hi
  unfold flGmres at hs
  cases ha : flArnInit o.toFlArnOps Mlr0 (some MMlr0) (some r0) with
  | error e => rw [ha] at hs; cases hs
  | ok arn =>
    rw [ha] at hs
    dsimp only at hs
    have hk0 : ∀ x, (flGmresMethod o ortho .ok cfg.maxiter).k (flGmresInit o g0 arn r0 x) = 0 := fun _ => flArnInit_iter ha
    refine C23_returned (flGmresMethod_lawful o ortho .ok cfg.maxiter) hk0 hs (fun _ y hy => ?_) hr1 hle fun _ => hb0
    change flGmresXk o .ok (flGmresInit o g0 arn r0 ((x.or x0).getD 0)) = .ok y at hy
    unfold flGmresXk at hy
    rw [if_neg (by change ¬ 0 < arn.iter; rw [flArnInit_iter ha]; exact lt_irrefl 0)] at hy
    have := Except.ok.inj hy
    rw [← this]
    exact hr0

end

section
variable {E : Type*} [AddCommGroup E] [Module 𝕜 E]

/-- C84: with exact operations `flRestartedGmres` does what the exact model of `RestartedGmres` does. -/
theorem C84_refines {s : LS 𝕜 E} {ortho : Ortho} {p : SolverArgs E} {inf : ℝ} {mr : ℤ} {st : RSt ℝ E} :
    (restartedGmres s ortho p inf mr = .returned st →
      flRestartedGmres (mkCfg s p) (exactGmres s (s.arnCfg s.hooks p.maxiter ortho)) ortho ⟨1, 0, 0⟩ s.hooks.initRes p.x0 inf 0 mr = .returned st) ∧
    (restartedGmres s ortho p inf mr = .convergence st →
      flRestartedGmres (mkCfg s p) (exactGmres s (s.arnCfg s.hooks p.maxiter ortho)) ortho ⟨1, 0, 0⟩ s.hooks.initRes p.x0 inf 0 mr = .convergence st) := by
  unfold restartedGmres flRestartedGmres restarted
  refine rLoop_mono (fun x c hc => ?_) _ _
  have e1 : mkCfg s (p.restart x) = mkCfg s p := by cases x <;> rfl
  have e2 : (p.restart x).x0 = x.or p.x0 := by cases x <;> rfl
  have e3 : (p.restart x).maxiter = p.maxiter := by cases x <;> rfl
  have e4 : (p.restart x).tol = p.tol := by cases x <;> rfl
  dsimp only
  cases hi : s.hooks.initRes (x.or p.x0) with
  | error e =>
    have : gmres s s.hooks ortho (p.restart x) = .raised e := by
      unfold gmres gmresRun
      rw [e2, hi]
    rw [this] at hc
    cases hc
  | ok v =>
    obtain ⟨MMlr0, Mlr0, r0⟩ := v
    dsimp only
    have key := C80_refines (s := s) (hk := s.hooks) (ortho := ortho) (a := p.restart x) (by rw [e2]; exact hi)
    rw [e1, e2, e3] at key
    unfold rsolOf at hc
    split at hc
    · next st1 hg =>
      obtain ⟨t, ht, -⟩ := key.1 st1 hg
      rw [show (Except.ok : E → Except Err E) = s.hooks.post from rfl, ht]
      rw [e4] at hc
      exact hc
    · next st1 hg =>
      obtain ⟨t, ht, -⟩ := key.2 st1 hg
      rw [show (Except.ok : E → Except Err E) = s.hooks.post from rfl, ht]
      rw [e4] at hc
      exact hc
    · cases hc
    · cases hc

end

/-! ## A deflated solver without iterations -/

/-- The system `2 x = 1`. -/
noncomputable def exHalf : LSArgs ℝ ℝ where
  A := (2 : ℝ) • LinearMap.id
  b := 1
  M := LinearMap.id
  Ml := LinearMap.id
  Mr := LinearMap.id
  ip := fun x y => x * y
  normal := none
  selfAdjoint := true
  positiveDefinite := true

theorem exHalf_hyp : SpdHyp exHalf where
  ls := ⟨isInner_mul, isInner_mul⟩
  sa x y := by simp [exHalf]; ring
  pos x hx := by
    simp only [exHalf, LinearMap.smul_apply, LinearMap.id_apply, smul_eq_mul, RCLike.re_to_real]
    have := mul_self_pos.mpr hx
    linarith

/-- The routines of `exObl`, but the factorisation of `⟨W, V⟩` (utils.py 520) has a relative error. -/
noncomputable def exOblErr (ε : ℝ) : OblArgs ℝ ℝ 1 := { exObl exHalf.ip with rt := ⟨qr1 exHalf.ip, fun M => (1, (1 - ε)⁻¹ • M)⟩ }

theorem exOblErr_zero : exOblErr 0 = exObl exHalf.ip := by
  simp [exOblErr, exObl]

private theorem solveUpper_one {c : ℝ} (hc : c ≠ 0) (v : Fin 1 → ℝ) : solveUpper (Matrix.of fun _ _ => c : Matrix (Fin 1) (Fin 1) ℝ) v = .ok (fun i => v i / c) := by
  unfold solveUpper
  rw [if_neg (by push Not; intro i; exact hc)]
  congr 1
  have hinv : (Matrix.of fun i j : Fin 1 => if j < i then 0 else (Matrix.of fun _ _ => c : Matrix (Fin 1) (Fin 1) ℝ) i j)⁻¹ = Matrix.of fun _ _ => 1 / c := by
    apply Matrix.inv_eq_left_inv
    ext i j
    obtain rfl : i = 0 := Fin.ext (by omega)
    obtain rfl : j = 0 := Fin.ext (by omega)
    simp [Matrix.mul_apply, hc]
  rw [hinv]
  funext i
  obtain rfl : i = 0 := Fin.ext (by omega)
  simp [Matrix.mulVec, dotProduct]
  field_simp

private theorem nrm_mul_self (x : ℝ) : nrm (fun x y : ℝ => x * y) x = |x| := by
  simp [nrm, nsq, Real.sqrt_mul_self_eq_abs]

/-- C84, finding: the result of a deflated solver without iterations is not checked.  With a relative error `ε` in the factorisation of `⟨U, AU⟩` the
deflated solver for `2 x = 1` with deflation vector `1` returns at once with recorded relative residual norm `ε²` (the projection is applied twice), but
the relative residual norm of the returned vector is `ε` (the correction is computed once); for `ε = 0` both are `0`. -/
theorem C84_unverified {ε tol : ℝ} (h0 : 0 < ε) (h1 : ε < 1) (ht : ε ^ 2 ≤ tol) : SpdHyp exHalf ∧
    ∃ s o st x, mkLS exHalf = .ok s ∧ mkObl s (exOblErr ε) (fun _ => (1 : ℝ)) = .ok o ∧
      deflatedGmres s o .mgs ⟨none, tol, 5, false, none⟩ = .returned st ∧ st.resnorms = [ε ^ 2] ∧ st.xk = some x ∧ st.warnings = 0 ∧
      resid exHalf x = ε * resid exHalf 0 ∧ resid exHalf 0 = 1 := by
  refine ⟨exHalf_hyp, ?_⟩
  obtain ⟨s, hs, ok, -⟩ := mkLS_ok exHalf_hyp.ls
  have hip : s.ip = fun x y => x * y := ok.ip
  have hA : ∀ x, s.A x = 2 * x := fun x => by rw [ok.A]; simp [exHalf]
  have hMl : ∀ x, s.Ml x = x := fun x => by rw [ok.Ml]; rfl
  have hM : ∀ x, s.M x = x := fun x => by rw [ok.M]; rfl
  have hB : ∀ x, s.MlAMr x = 2 * x := fun x => by rw [ok.MlAMr]; simp [exHalf]
  have hb : s.b = 1 := ok.b
  have hMlb : s.Mlb = 1 := by rw [ok.Mlb]; rfl
  have hr0 : resid exHalf 0 = 1 := by simp [resid, nrm, nsq, exHalf]
  have he : (1 - ε)⁻¹ ≠ 0 := inv_ne_zero (by linarith)
  have he' : 1 - ε ≠ 0 := by linarith
  let o : Obl ℝ ℝ 1 := ⟨fun _ => 1, fun _ => 2, ⟨fun _ => 1, fun _ => 1, some (Matrix.of fun _ _ => 2), some (Matrix.of fun _ _ => 1),
    some (1, Matrix.of fun _ _ => (1 - ε)⁻¹), 2⟩⟩
  have ho : mkObl s (exOblErr ε) (fun _ => (1 : ℝ)) = .ok o := by
    have e1 : qr1 exHalf.ip (fun _ => (1 : ℝ)) = .ok (fun _ => 1, Matrix.of fun _ _ => 1) := by
      simp [qr1, exHalf, nrm_mul_self]
    have e2 : qr1 exHalf.ip (fun _ => (2 : ℝ)) = .ok (fun _ => 1, Matrix.of fun _ _ => 2) := by
      simp [qr1, exHalf, nrm_mul_self]
    have e3 : ((1 - ε)⁻¹ • gram (fun x y : ℝ => x * y) (fun _ : Fin 1 => (1 : ℝ)) (fun _ : Fin 1 => (1 : ℝ))) = Matrix.of fun _ _ => (1 - ε)⁻¹ := by
      ext i j
      simp [gram]
    unfold mkObl
    simp only [exOblErr, exObl, e1, hB, mul_one, mkProj, e2, hip, e3, Bool.false_eq_true, if_false, if_true]
    norm_num
    rfl
  have hap : ∀ a, o.proj.apply1 s.ip a = .ok ((1 - ε) * a, fun _ => a) := by
    intro a
    have e1 : ((1 : Matrix (Fin 1) (Fin 1) ℝ)ᴴ *ᵥ coefs (fun x y : ℝ => x * y) (fun _ : Fin 1 => (1 : ℝ)) a) = fun _ => a := by
      funext i
      simp [coefs]
    have e2 : ((Matrix.of fun _ _ => (1 : ℝ) : Matrix (Fin 1) (Fin 1) ℝ)ᴴ *ᵥ coefs (fun x y : ℝ => x * y) (fun _ : Fin 1 => (1 : ℝ)) a) = fun _ => a := by
      funext i
      simp [coefs, Matrix.mulVec, dotProduct]
    simp only [Proj.apply1, o, hip, e1, e2, solveUpper_one he]
    simp [lincomb, mul_comm]
  have hinit : o.initRes s none = .ok (ε ^ 2, ε ^ 2, ε ^ 2) := by
    have e1 : o.proj.applyCompl s.ip 1 = .ok (ε ^ 2, fun _ => 1) := by
      unfold Proj.applyCompl
      simp only [hap, one_ne_zero, if_false]
      have e2 : o.proj.iterations - 1 = 1 := rfl
      simp only [e2, refineCompl, Proj.apply1x, hap]
      congr 2
      ring
    have e3 : npNorm (s.ip (ε ^ 2) (ε ^ 2)) = .ok (ε ^ 2) := by
      rw [hip]
      unfold npNorm
      rw [if_neg (by simp; positivity)]
      congr 1
      rw [Real.norm_of_nonneg (by positivity), Real.sqrt_mul_self (by positivity)]
    simp only [Obl.initRes, hMlb, e1, hM, e3]
  have hcor : o.correct s 0 = .ok ((1 - ε) / 2) := by
    have e1 : ((1 : Matrix (Fin 1) (Fin 1) ℝ)ᴴ *ᵥ coefs (fun x y : ℝ => x * y) (fun _ : Fin 1 => (1 : ℝ)) 1) = fun _ => 1 := by
      funext i
      simp [coefs]
    simp only [Obl.correct, hb, hA, hMl, mul_zero, sub_zero, o, hip, solveQR, e1, solveUpper_one he, undoVR, solveUpper_one two_ne_zero]
    simp [lincomb, Matrix.mulVec, dotProduct]
  have hlast : resid exHalf ((1 - ε) / 2) = ε := by
    have : resid exHalf ((1 - ε) / 2) = |1 - 2 * ((1 - ε) / 2)| := by
      rw [← nrm_mul_self]
      simp [resid, exHalf]
    rw [this, show 1 - 2 * ((1 - ε) / 2) = ε by ring, abs_of_pos h0]
  have hnb : (mkCfg s ⟨none, tol, 5, false, none⟩).MMlbNorm = 1 := by rw [ok.nb, hr0]
  cases ha : arnInit (s.arnCfg (o.hooks s) 5 .mgs) (ε ^ 2) (some (ε ^ 2)) (some (ε ^ 2)) with
  | error e =>
    exfalso
    simp [arnInit, startNorm] at ha
    split at ha <;> cases ha
  | ok arn =>
    have h0i : arn.iter = 0 := arnInit_iter ha
    refine ⟨s, o, ⟨(gmresInit arn (ε ^ 2) 0, []), 0, some ((1 - ε) / 2), [ε ^ 2], none, 0⟩, (1 - ε) / 2, hs, ho, ?_, rfl, rfl, rfl, ?_, hr0⟩
    · unfold deflatedGmres
      simp only [hinit, ha]
      unfold run
      have hne : ((mkCfg s ⟨none, tol, 5, false, none⟩).MMlbNorm == 0) = false := by rw [hnb]; simp
      simp only [hne, Bool.false_eq_true, if_false, Option.getD_none]
      have herr : initErr (mkCfg s ⟨none, tol, 5, false, none⟩) (o.correct s 0) = .ok none := by
        simp [initErr, mkCfg]
      rw [herr, hnb, div_one]
      simp only [mkCfg]
      unfold loop
      have hguard : loopGuard (mkCfg s ⟨none, tol, 5, false, none⟩)
          ((gmresMethod (arnAdvance (s.arnCfg (o.hooks s) 5 .mgs)) s.Mr (o.correct s) 5).log fun st _ => o.newC s (st.arn.V st.arn.iter))
          ⟨(gmresInit arn (ε ^ 2) 0, []), 0, none, [ε ^ 2], none, 0⟩ = false := by
        simp [loopGuard, mkCfg, not_lt.mpr ht]
      simp only [mkCfg] at hguard
      simp only [hguard, Bool.false_eq_true, if_false]
      have hx : ((gmresMethod (arnAdvance (s.arnCfg (o.hooks s) 5 .mgs)) s.Mr (o.correct s) 5).log fun st _ => o.newC s (st.arn.V st.arn.iter)).getXk
          (gmresInit arn (ε ^ 2) 0, []) = .ok ((1 - ε) / 2) := by
        simp only [Method.log, gmresMethod, gmresXk]
        simp only [gmresInit, h0i]
        simp [hcor]
      simp only [finish, hx]
    · rw [hlast, hr0, mul_one]

/-! ## Non-vacuity of `C84_restarted` and `C84_deflated`: two cycles for `2 x = 1` with `tol = 1/100`, in an arithmetic with rounding errors and NaN -/

private noncomputable def rsCfg : Cfg NanReal ℝ where
  tol := ⟨some (1 / 100)⟩
  maxiter := 1
  explicitResidual := false
  MMlbNorm := ⟨some 1⟩
  resNorm x := .ok ⟨some |1 - 2 * x|⟩
  errNorm := none

private theorem rsCall : FlCall flDouble NanReal.val (!![2] : Matrix (Fin 1) (Fin 1) ℝ) ![1] (fun x : ℝ => ![x]) rsCfg (1 / 100) 1 := by
  refine ⟨NanReal.format, rfl, rfl, ?_, ?_, by ext i; fin_cases i; rfl⟩
  · have := (FlResNorm.exact flDouble_nonneg (!![2] : Matrix (Fin 1) (Fin 1) ℝ) ![1] 0).1
    simpa [vecNorm] using this
  · rintro x v a hv ha
    obtain rfl := Except.ok.inj hv
    obtain rfl := Option.some.inj ha
    have := (FlResNorm.exact flDouble_nonneg (!![2] : Matrix (Fin 1) (Fin 1) ℝ) ![1] ![x]).2
    simpa [vecNorm, Matrix.mulVec, dotProduct, Real.sqrt_sq_eq_abs, mul_comm] using this

private theorem rsDiv (a : ℝ) : (⟨some a⟩ : NanReal) / ⟨some 1⟩ = ⟨some (a * (1 + 2⁻¹ ^ 53))⟩ := by
  show NanReal.mk (if (1 : ℝ) = 0 then none else some (a / 1 * (1 + 2⁻¹ ^ 53))) = _
  rw [if_neg one_ne_zero, div_one]

private theorem rsLt (a b : ℝ) : (⟨some a⟩ : NanReal) < ⟨some b⟩ ↔ a < b := NanReal.format.lt_iff rfl rfl
private theorem rsLe (a b : ℝ) : (⟨some a⟩ : NanReal) ≤ ⟨some b⟩ ↔ a ≤ b := NanReal.format.le_iff rfl rfl

/-- the recorded relative residual norm of `x` -/
private noncomputable def rsRes (x : ℝ) : NanReal := ⟨some (|1 - 2 * x| * (1 + 2⁻¹ ^ 53))⟩

/-- the state after a cycle from `x` to `y` -/
private noncomputable def rsSt (x y : ℝ) : St NanReal ℝ ℕ := ⟨1, 0, some y, [rsRes x, rsRes y], none, 0⟩

/-- two cycles: `0 → 2/5` without convergence, then `2/5 → 501/1000` -/
private noncomputable def rsCyc : Option ℝ → Outcome (St NanReal ℝ ℕ)
  | none => .convergence (rsSt 0 (2 / 5))
  | some _ => .returned (rsSt (2 / 5) (501 / 1000))

private theorem rsAbs0 : |1 - 2 * (0 : ℝ)| = 1 := by norm_num
private theorem rsAbs1 : |1 - 2 * (2 / 5 : ℝ)| = 1 / 5 := by rw [abs_of_nonneg] <;> norm_num
private theorem rsAbs2 : |1 - 2 * (501 / 1000 : ℝ)| = 1 / 500 := by rw [abs_of_nonpos] <;> norm_num

private theorem rsHonest (x : Option ℝ) : HonestCall rsCfg (fun s : ℕ => s) (fun _ => false) (rsCyc x) := by
  have d : ∀ y, (⟨some |1 - 2 * y|⟩ : NanReal) / rsCfg.MMlbNorm = rsRes y := fun y => rsDiv _
  cases x with
  | none =>
    refine ⟨by simp [rsCyc], ?_, ?_, ?_, ?_, ?_, ?_⟩
    · rintro st (h | h)
      · cases h
      · injection h with h
        subst h
        exact ⟨rfl, le_rfl, fun _ => rfl, fun h => absurd rfl h⟩
    · rintro st (h | h) i r hi hr
      · cases h
      · injection h with h
        subst h
        have : i = 0 := by simp [rsSt] at hi; omega
        subst this
        simp only [rsSt, List.getElem?_cons_zero, Option.some.injEq] at hr
        subst hr
        show (⟨some _⟩ : NanReal) < ⟨some _⟩
        rw [rsLt, rsAbs0]
        norm_num
    · rintro st h - en he
      cases he
    · rintro - st h
      cases h
    · rintro st h
      injection h with h
      subst h
      refine ⟨le_rfl, rfl, 2 / 5, _, rfl, rfl, ?_, ?_⟩
      · rw [d]; rfl
      · rw [d]
        show (⟨some _⟩ : NanReal) < ⟨some _⟩
        rw [rsLt, rsAbs1]
        norm_num
    · rintro st h
      cases h
  | some x =>
    refine ⟨by simp [rsCyc], ?_, ?_, ?_, ?_, ?_, ?_⟩
    · rintro st (h | h)
      · injection h with h
        subst h
        exact ⟨rfl, le_rfl, fun _ => rfl, fun h => absurd rfl h⟩
      · cases h
    · rintro st (h | h) i r hi hr
      · injection h with h
        subst h
        have : i = 0 := by simp [rsSt] at hi; omega
        subst this
        simp only [rsSt, List.getElem?_cons_zero, Option.some.injEq] at hr
        subst hr
        show (⟨some _⟩ : NanReal) < ⟨some _⟩
        rw [rsLt, rsAbs1]
        norm_num
      · cases h
    · rintro st h - en he
      cases he
    · rintro - st h
      injection h with h
      subst h
      refine ⟨⟨_, rfl⟩, _, rfl, .inl ?_⟩
      show ¬ (⟨some _⟩ : NanReal) < ⟨some _⟩
      rw [rsLt, rsAbs2]
      norm_num
    · rintro st h
      cases h
    · rintro st h - r hr -
      injection h with h
      subst h
      refine ⟨_, _, rfl, rfl, ?_⟩
      rw [d]
      exact (Option.some.inj hr).symm

/-- The hypotheses of `C84_restarted` hold for a run with two cycles, and those of `C84_deflated` for its second cycle. -/
example : ∃ st, restarted ⟨none⟩ 3 (fun x => flRsol rsCfg.tol ⟨none⟩ (rsCyc x)) = .returned st ∧ st.resnorms = [rsRes 0, rsRes (2 / 5), rsRes (501 / 1000)] ∧
    (∃ x, st.xk = some x ∧ SmallResidual (!![2] : Matrix (Fin 1) (Fin 1) ℝ) ![1] (1 / 100) ![x]) ∧
    ∃ x, (rsSt (2 / 5) (501 / 1000)).xk = some x ∧ SmallResidual (!![2] : Matrix (Fin 1) (Fin 1) ℝ) ![1] (1 / 100) ![x] := by
  have l1 : (rsCfg.tol < rsRes (2 / 5)) := by
    show (⟨some _⟩ : NanReal) < ⟨some _⟩
    rw [rsLt, rsAbs1]
    norm_num
  have l2 : ¬ (rsCfg.tol < rsRes (501 / 1000)) := by
    show ¬ (⟨some _⟩ : NanReal) < ⟨some _⟩
    rw [rsLt, rsAbs2]
    norm_num
  have l3 : rsRes (501 / 1000) ≤ rsCfg.tol := by
    show (⟨some _⟩ : NanReal) ≤ ⟨some _⟩
    rw [rsLe, rsAbs2]
    norm_num
  have hrun : ∃ st, restarted ⟨none⟩ 3 (fun x => flRsol rsCfg.tol ⟨none⟩ (rsCyc x)) = .returned st ∧
      st.resnorms = [rsRes 0, rsRes (2 / 5), rsRes (501 / 1000)] := by
    have h3 : Int.toNat 3 = 3 := rfl
    refine ⟨⟨some (501 / 1000), [rsRes 0, rsRes (2 / 5), rsRes (501 / 1000)], [⟨none⟩], some rsCfg.tol, 2,
      [⟨2 / 5, rsCfg.tol, [rsRes 0, rsRes (2 / 5)], [⟨none⟩]⟩, ⟨501 / 1000, rsCfg.tol, [rsRes (2 / 5), rsRes (501 / 1000)], [⟨none⟩]⟩]⟩, ?_, rfl⟩
    · simp [restarted, rLoop, rGuard, rBody, h3, flRsol, rsCyc, rsSt, l1, l2]
  obtain ⟨st, h, hres⟩ := hrun
  have hl : st.resnorms.getLast? = some (rsRes (501 / 1000)) := by rw [hres]; rfl
  refine ⟨st, h, hres, C84_restarted le_rfl (by norm_num) rsCall one_ne_zero rsHonest (fun x s r hs h1 => ?_) h hl rfl,
    C84_deflated le_rfl (by norm_num) rsCall one_ne_zero (rsHonest (some 0)) rfl le_rfl rfl rfl l3⟩
  cases x with
  | none => cases hs
  | some x =>
    injection hs with hs
    subst hs
    cases h1

/-- The hypotheses of `C84_unverified` hold: with an error of one percent the recorded relative residual norm is `1e-4`, the true one is `1e-2`. -/
example : ∃ s o st x, mkLS exHalf = .ok s ∧ mkObl s (exOblErr (1 / 100)) (fun _ => (1 : ℝ)) = .ok o ∧
    deflatedGmres s o .mgs ⟨none, 1 / 1000, 5, false, none⟩ = .returned st ∧ st.xk = some x ∧ 1 / 1000 * resid exHalf 0 < resid exHalf x := by
  obtain ⟨-, s, o, st, x, h1, h2, h3, -, h4, -, h5, h6⟩ := C84_unverified (ε := 1 / 100) (tol := 1 / 1000) (by norm_num) (by norm_num) (by norm_num)
  exact ⟨s, o, st, x, h1, h2, h3, h4, by rw [h5, h6]; norm_num⟩

end Krypy
