import Verif.Model.FlCg
import Verif.Props.RoundOff
import Verif.Props.SolverCalls
import Verif.Proofs.Sim
import Mathlib.Analysis.Normed.Operator.ContinuousLinearMap
import Mathlib.Analysis.Normed.Operator.Basic
import Mathlib.Analysis.CStarAlgebra.Matrix

/-!
# Property C78: `Cg` with rounding errors

`flCg` is the loop of `Cg` over arbitrary operations.  With exact operations it is the model of `Cg` used everywhere else (`C78_refines`), so it
describes the same program.  In any arithmetic the guarantees of the driver hold (`C78_honest`, `C78_converged`).  If the vector operations
have small errors, then the residual which `Cg` updates stays close to the true residual: the gap grows at most linearly with the number of
iterations, whatever happens to the scalars `alpha` and `rho`, i.e. even after a complete loss of orthogonality (`C78_gap`, `C78_solution`).
-/

set_option linter.unusedSectionVars false

namespace Krypy

section
variable {F K X : Type*} [LE F] [LT F] [DecidableLE F] [DecidableLT F] [Div F] [Zero F] [BEq F] [Zero X]

theorem flCgStep_ok {o : FlOps F K X} {s s' : FlCgSt F X} {r : F} (h : flCgStep o s = .ok (s', r)) :
    s'.k = s.k + 1 ∧ s'.x0 = s.x0 ∧ s'.ys = Function.update s.ys (s.k + 1) s'.yk ∧ s'.rs = Function.update s.rs (s.k + 1) s'.Mlrk ∧
    ∃ a p, s'.yk = o.add s.yk (o.scale a p) ∧ s'.Mlrk = o.sub s.Mlrk (o.scale a (o.op p)) := by
  unfold flCgStep at h
  dsimp only at h
  split at h
  · cases h
  · simp only [Except.ok.injEq, Prod.mk.injEq] at h
    obtain ⟨rfl, -⟩ := h
    exact ⟨rfl, rfl, rfl, rfl, _, _, rfl, rfl⟩

theorem flCgMethod_lawful (o : FlOps F K X) (post : X → Except Err X) (n : ℕ) : LawfulMethod (flCgMethod o post n) n :=
  ⟨fun h => (flCgStep_ok h).1, fun _ r => by cases r <;> rfl, fun _ r => by cases r <;> rfl, fun h => by simpa [flCgMethod] using h⟩

/-- C78: in any arithmetic a call of `Cg` ends after at most `maxiter` iterations, records one residual norm per iteration, raises
`ConvergenceError` only with an approximation whose evaluated residual norm is above `tol`, and does not report convergence without such an evaluation. -/
theorem C78_honest (cfg : Cfg F X) (o : FlOps F K X) (post : X → Except Err X) (x0 MMlr0 Mlr0 : X) (r0 : F) :
    HonestCall cfg (fun s => s.k) (fun _ => false) (flCg cfg o post x0 MMlr0 Mlr0 r0) :=
  HonestCall.of_run (m := flCgMethod o post cfg.maxiter) (flCgMethod_lawful o post _) (fun s => by simp [flCgMethod]; rfl) _ _ _ _ fun _ => rfl

/-- What is left of the recurrences of `Cg` in an arbitrary arithmetic: the same multiple of one direction is added to the approximation and,
multiplied with the operator, subtracted from the residual. -/
structure FlTrace (o : FlOps F K X) (Mlr0 : X) (k : ℕ) (ys rs : ℕ → X) : Prop where
  y0 : ys 0 = 0
  r0 : rs 0 = Mlr0
  step : ∀ j < k, ∃ a p, ys (j + 1) = o.add (ys j) (o.scale a p) ∧ rs (j + 1) = o.sub (rs j) (o.scale a (o.op p))

/-- C78: the recurrences hold for every call. -/
theorem C78_trace {cfg : Cfg F X} {o : FlOps F K X} {post : X → Except Err X} {x0 MMlr0 Mlr0 : X} {r0 : F} {st : St F X (FlCgSt F X)}
    (h : flCg cfg o post x0 MMlr0 Mlr0 r0 = .returned st ∨ flCg cfg o post x0 MMlr0 Mlr0 r0 = .convergence st) :
    FlTrace o Mlr0 st.s.k st.s.ys st.s.rs ∧ st.s.yk = st.s.ys st.s.k ∧ st.s.Mlrk = st.s.rs st.s.k ∧
      st.s.x0 = if cfg.MMlbNorm == 0 then 0 else x0 := by
  let P : FlCgSt F X → Prop := fun s => FlTrace o Mlr0 s.k s.ys s.rs ∧ s.yk = s.ys s.k ∧ s.Mlrk = s.rs s.k ∧
      s.x0 = if cfg.MMlbNorm == 0 then 0 else x0
  have hst : ∀ s s' r, P s → flCgStep o s = .ok (s', r) → P s' := by
    rintro s s' r ⟨t, h1, h2, h3⟩ hs
    obtain ⟨e1, e2, e3, e4, a, p, e5, e6⟩ := flCgStep_ok hs
    have k1 : ∀ j ≤ s.k, s'.ys j = s.ys j := fun j hj => by rw [e3, Function.update_of_ne (by omega)]
    have k2 : ∀ j ≤ s.k, s'.rs j = s.rs j := fun j hj => by rw [e4, Function.update_of_ne (by omega)]
    have k3 : s'.ys (s.k + 1) = s'.yk := by rw [e3, Function.update_self]
    have k4 : s'.rs (s.k + 1) = s'.Mlrk := by rw [e4, Function.update_self]
    refine ⟨⟨by rw [k1 0 (by omega), t.y0], by rw [k2 0 (by omega), t.r0], fun j hj => ?_⟩, by rw [e1, k3], by rw [e1, k4], by rw [e2, h3]⟩
    rw [e1] at hj
    rcases Nat.lt_succ_iff_lt_or_eq.mp hj with hj | rfl
    · obtain ⟨a, p, q1, q2⟩ := t.step j hj
      exact ⟨a, p, by rw [k1 _ (by omega), k1 _ (by omega), q1], by rw [k2 _ (by omega), k2 _ (by omega), q2]⟩
    · exact ⟨a, p, by rw [k3, k1 _ le_rfl, e5, h1], by rw [k4, k2 _ le_rfl, e6, h2]⟩
  have hpost : ∀ s r, P s → P (flCgPost o s r) := fun s r hs => by cases r <;> exact hs
  unfold flCg run at h
  dsimp only at h
  split at h
  · rcases h with h | h <;> cases h
  next errnorms he =>
  have hinv := loop_invariant (cfg := cfg) (m := flCgMethod o post cfg.maxiter) (fun st => P st.s)
    (fun st st' h0 _ hb => by
      obtain ⟨s', r, rkn, h1, h2, -⟩ := body_ok hb
      rw [h2]
      exact hpost _ _ (hst _ _ _ h0 h1)) cfg.maxiter
    { s := flCgInit o MMlr0 Mlr0 r0 (if cfg.MMlbNorm == 0 then 0 else x0), iter := 0, xk := if cfg.MMlbNorm == 0 then some 0 else none,
      resnorms := if cfg.MMlbNorm == 0 then [0] else [r0 / cfg.MMlbNorm], errnorms := errnorms, warnings := 0 }
    (show P (flCgInit o MMlr0 Mlr0 r0 (if cfg.MMlbNorm == 0 then 0 else x0)) from ⟨⟨rfl, rfl, fun j hj => absurd hj (Nat.not_lt_zero j)⟩, rfl, rfl, rfl⟩)
  rcases h with h | h
  · obtain ⟨st1, h1, -, h2⟩ := hinv.1 st h
    obtain ⟨e, -⟩ := finish_returned h2
    show P st.s
    rw [e]
    exact h1
  · obtain ⟨st1, h1, -, h2⟩ := hinv.2 st h
    obtain ⟨s', r, x, v, e1, e2, -⟩ := body_convergence h2
    show P st.s
    rw [e2]
    exact hst _ _ _ h1 e1

end

/-! ## The residual gap -/

section
variable {𝕜 E : Type*} [RCLike 𝕜] [NormedAddCommGroup E] [NormedSpace 𝕜 E] {F K X : Type*}

/-- Vector operations with errors: `val` and `vec` give the number or vector represented by a float or array (`none` if it is not finite); sums,
differences and multiples have relative errors of at most `u`, products with the operator of at most `e‖x‖`. -/
structure FlVec (o : FlOps F K X) (val : F → Option ℝ) (vec : X → Option E) (B : E →L[𝕜] E) (u e : ℝ) : Prop where
  add : ∀ {x y z}, vec (o.add x y) = some z → ∃ a b, vec x = some a ∧ vec y = some b ∧ ‖z - (a + b)‖ ≤ u * ‖a + b‖
  sub : ∀ {x y z}, vec (o.sub x y) = some z → ∃ a b, vec x = some a ∧ vec y = some b ∧ ‖z - (a - b)‖ ≤ u * ‖a - b‖
  scale : ∀ {c x z}, vec (o.scale c x) = some z → ∃ t a, val c = some t ∧ vec x = some a ∧ ‖z - (t : 𝕜) • a‖ ≤ u * ‖(t : 𝕜) • a‖
  op : ∀ {x z}, vec (o.op x) = some z → ∃ a, vec x = some a ∧ ‖z - B a‖ ≤ e * ‖a‖

/-- Error of one addition in terms of its result. -/
theorem rel_back {u : ℝ} (h0 : 0 ≤ u) (h1 : u < 1) {z w : E} (h : ‖z - w‖ ≤ u * ‖w‖) : ‖w‖ ≤ ‖z‖ / (1 - u) ∧ ‖z - w‖ ≤ u / (1 - u) * ‖z‖ := by
  have h2 : 0 < 1 - u := by linarith
  have h3 : ‖w‖ ≤ ‖z‖ / (1 - u) := by
    rw [le_div_iff₀ h2]
    have h4 : ‖w‖ ≤ ‖z‖ + ‖z - w‖ := by
      have := norm_sub_le z (z - w)
      rwa [sub_sub_cancel] at this
    linarith
  refine ⟨h3, h.trans ((mul_le_mul_of_nonneg_left h3 h0).trans (le_of_eq (by ring)))⟩

/-- Gap of one iteration. -/
theorem gap_step {o : FlOps F K X} {val : F → Option ℝ} {vec : X → Option E} {B : E →L[𝕜] E} {u e : ℝ} (hv : FlVec o val vec B u e) (hu0 : 0 ≤ u)
    (hu : u < 1) (he : 0 ≤ e) {y r p : X} {a : F} {vy vr vy' vr' : E} (h1 : vec y = some vy) (h2 : vec r = some vr)
    (h3 : vec (o.add y (o.scale a p)) = some vy') (h4 : vec (o.sub r (o.scale a (o.op p))) = some vr') {Y R : ℝ} (hy : ‖vy‖ ≤ Y) (hr : ‖vr‖ ≤ R)
    (hy' : ‖vy'‖ ≤ Y) (hr' : ‖vr'‖ ≤ R) :
    ‖(B vy' + vr') - (B vy + vr)‖ ≤ ((3 * u * ‖B‖ + 2 * e) * Y + 3 * u * R) / (1 - u) ^ 2 := by
  obtain ⟨y1, s, q1, q2, q3⟩ := hv.add h3
  obtain rfl : y1 = vy := Option.some.inj (q1.symm.trans h1)
  obtain ⟨c, vp, q4, q5, q6⟩ := hv.scale q2
  obtain ⟨r1, t, q7, q8, q9⟩ := hv.sub h4
  obtain rfl : r1 = vr := Option.some.inj (q7.symm.trans h2)
  obtain ⟨c', w, q10, q11, q12⟩ := hv.scale q8
  obtain rfl : c' = c := Option.some.inj (q10.symm.trans q4)
  obtain ⟨vp', q13, q14⟩ := hv.op q11
  obtain rfl : vp' = vp := Option.some.inj (q13.symm.trans q5)
  have d0 : 0 < 1 - u := by linarith
  have d1 : 1 - u ≤ 1 := by linarith
  have Y0 : 0 ≤ Y := (norm_nonneg _).trans hy
  have R0 : 0 ≤ R := (norm_nonneg _).trans hr
  obtain ⟨a1, a2⟩ := rel_back hu0 hu q3
  obtain ⟨a3, a4⟩ := rel_back hu0 hu q6
  obtain ⟨a5, a6⟩ := rel_back hu0 hu q9
  obtain ⟨a7, a8⟩ := rel_back hu0 hu q12
  have yd : ‖y1 + s‖ ≤ Y / (1 - u) := a1.trans (by gcongr)
  have YY : Y ≤ Y / (1 - u) := by rw [le_div_iff₀ d0]; nlinarith
  have RR : R ≤ R / (1 - u) := by rw [le_div_iff₀ d0]; nlinarith
  have s1 : ‖s‖ ≤ 2 * (Y / (1 - u)) := by
    have := norm_sub_le (y1 + s) y1
    rw [add_sub_cancel_left] at this
    linarith
  have rd : ‖r1 - t‖ ≤ R / (1 - u) := a5.trans (by gcongr)
  have t1 : ‖t‖ ≤ 2 * (R / (1 - u)) := by
    have := norm_sub_le r1 (r1 - t)
    rw [sub_sub_cancel] at this
    linarith
  have ey : ‖vy' - (y1 + s)‖ ≤ u * (Y / (1 - u)) := a2.trans (le_trans (mul_le_mul_of_nonneg_left hy' (div_nonneg hu0 d0.le)) (le_of_eq (by ring)))
  have es : ‖s - (c' : 𝕜) • vp'‖ ≤ 2 * u * (Y / (1 - u)) / (1 - u) :=
    a4.trans (le_trans (mul_le_mul_of_nonneg_left s1 (div_nonneg hu0 d0.le)) (le_of_eq (by ring)))
  have er : ‖vr' - (r1 - t)‖ ≤ u * (R / (1 - u)) := a6.trans (le_trans (mul_le_mul_of_nonneg_left hr' (div_nonneg hu0 d0.le)) (le_of_eq (by ring)))
  have et : ‖t - (c' : 𝕜) • w‖ ≤ 2 * u * (R / (1 - u)) / (1 - u) :=
    a8.trans (le_trans (mul_le_mul_of_nonneg_left t1 (div_nonneg hu0 d0.le)) (le_of_eq (by ring)))
  have ep : ‖(c' : 𝕜) • w - (c' : 𝕜) • B vp'‖ ≤ e * (2 * (Y / (1 - u)) / (1 - u)) := by
    rw [← smul_sub, norm_smul]
    have b1 := mul_le_mul_of_nonneg_left q14 (norm_nonneg (c' : 𝕜))
    have b2 : ‖(c' : 𝕜) • vp'‖ ≤ 2 * (Y / (1 - u)) / (1 - u) := a3.trans (by gcongr)
    rw [norm_smul] at b2
    have b3 := mul_le_mul_of_nonneg_left b2 he
    linarith [mul_left_comm ‖(c' : 𝕜)‖ e ‖vp'‖]
  have key : (B vy' + vr') - (B y1 + r1) =
      B (vy' - (y1 + s)) + B (s - (c' : 𝕜) • vp') + (vr' - (r1 - t)) - (t - (c' : 𝕜) • w) - ((c' : 𝕜) • w - (c' : 𝕜) • B vp') := by
    simp only [map_sub, map_add, map_smul]
    abel
  rw [key]
  refine (norm_sub_le _ _).trans ((add_le_add_left (norm_sub_le _ _) _).trans ?_)
  have n1 := norm_add₃_le (a := B (vy' - (y1 + s))) (b := B (s - (c' : 𝕜) • vp')) (c := vr' - (r1 - t))
  have n2 := (B.le_opNorm (vy' - (y1 + s))).trans (mul_le_mul_of_nonneg_left ey (norm_nonneg B))
  have n3 := (B.le_opNorm (s - (c' : 𝕜) • vp')).trans (mul_le_mul_of_nonneg_left es (norm_nonneg B))
  have fin : ((3 * u * ‖B‖ + 2 * e) * Y + 3 * u * R) / (1 - u) ^ 2 =
      ‖B‖ * (u * (Y / (1 - u)) / (1 - u)) + ‖B‖ * (2 * u * (Y / (1 - u)) / (1 - u)) + u * (R / (1 - u)) / (1 - u) +
        2 * u * (R / (1 - u)) / (1 - u) + e * (2 * (Y / (1 - u)) / (1 - u)) := by
    field_simp
    ring
  have grow : ∀ z : ℝ, 0 ≤ z → z ≤ z / (1 - u) := fun z hz => by rw [le_div_iff₀ d0]; nlinarith
  have g1 := mul_le_mul_of_nonneg_left (grow (u * (Y / (1 - u))) (by positivity)) (norm_nonneg B)
  have g2 := grow (u * (R / (1 - u))) (by positivity)
  rw [fin]
  linarith

variable [LE F] [LT F] [DecidableLE F] [DecidableLT F] [Div F] [Zero F] [BEq F] [Zero X]

/-- C78: the gap between the updated residual and the true residual of the approximation after `k` iterations, if all approximations are bounded by `Y`
and all updated residuals by `R`. -/
theorem C78_gap {o : FlOps F K X} {val : F → Option ℝ} {vec : X → Option E} {B : E →L[𝕜] E} {u e : ℝ} (hv : FlVec o val vec B u e) (hu0 : 0 ≤ u)
    (hu : u < 1) (he : 0 ≤ e) (hz : vec 0 = some 0) {Mlr0 : X} {k : ℕ} {ys rs : ℕ → X} (h : FlTrace o Mlr0 k ys rs) {y r : ℕ → E} {Y R : ℝ}
    (hy : ∀ j ≤ k, vec (ys j) = some (y j) ∧ ‖y j‖ ≤ Y) (hr : ∀ j ≤ k, vec (rs j) = some (r j) ∧ ‖r j‖ ≤ R) :
    vec Mlr0 = some (r 0) ∧ ‖r 0 - B (y k) - r k‖ ≤ k * (((3 * u * ‖B‖ + 2 * e) * Y + 3 * u * R) / (1 - u) ^ 2) := by
  have y0 : y 0 = 0 := by
    have := (hy 0 (Nat.zero_le k)).1
    rw [h.y0, hz] at this
    exact (Option.some.inj this).symm
  refine ⟨by rw [← h.r0]; exact (hr 0 (Nat.zero_le k)).1, ?_⟩
  have key : ∀ j ≤ k, ‖(B (y j) + r j) - r 0‖ ≤ j * (((3 * u * ‖B‖ + 2 * e) * Y + 3 * u * R) / (1 - u) ^ 2) := by
    intro j
    induction j with
    | zero => intro _; simp [y0]
    | succ j ih =>
      intro hj
      obtain ⟨a, p, e1, e2⟩ := h.step j hj
      have g := gap_step hv hu0 hu he (hy j (by omega)).1 (hr j (by omega)).1 (e1 ▸ (hy (j + 1) hj).1) (e2 ▸ (hr (j + 1) hj).1)
        (hy j (by omega)).2 (hr j (by omega)).2 (hy (j + 1) hj).2 (hr (j + 1) hj).2
      have : (B (y (j + 1)) + r (j + 1)) - r 0 = ((B (y (j + 1)) + r (j + 1)) - (B (y j) + r j)) + ((B (y j) + r j) - r 0) := by abel
      rw [this]
      refine (norm_add_le _ _).trans ((add_le_add g (ih (by omega))).trans (le_of_eq ?_))
      push_cast
      ring
  have := key k le_rfl
  rwa [← norm_neg, show -(B (y k) + r k - r 0) = r 0 - B (y k) - r k by abel] at this

/-- C78: the residual of the vector returned by `Cg` for a system without preconditioners (`M = Ml = Mr =` identity): it differs from the
last updated residual by the error of the initial residual, the gap, and the error of the final addition `x0 + yk`. -/
theorem C78_solution {cfg : Cfg F X} {o : FlOps F K X} {val : F → Option ℝ} {vec : X → Option E} {A : E →L[𝕜] E} {u e : ℝ}
    (hv : FlVec o val vec A u e) (hu0 : 0 ≤ u) (hu : u < 1) (he : 0 ≤ e) (hz : vec 0 = some 0) (hMr : ∀ x, o.Mr x = x)
    (hb : (cfg.MMlbNorm == 0) = false) {x0 MMlr0 Mlr0 : X} {r0 : F} {st : St F X (FlCgSt F X)} {b vx0 : E}
    (h : flCg cfg o .ok x0 MMlr0 Mlr0 r0 = .returned st ∨ flCg cfg o .ok x0 MMlr0 Mlr0 r0 = .convergence st) (hx0 : vec x0 = some vx0) {y r : ℕ → E} {Y R : ℝ}
    (hy : ∀ j ≤ st.s.k, vec (st.s.ys j) = some (y j) ∧ ‖y j‖ ≤ Y) (hr : ∀ j ≤ st.s.k, vec (st.s.rs j) = some (r j) ∧ ‖r j‖ ≤ R)
    {x : X} {vx : E} (hx : st.xk = some x) (hvx : vec x = some vx) :
    ‖(b - A vx) - r st.s.k‖ ≤ ‖(b - A vx0) - r 0‖ + st.s.k * (((3 * u * ‖A‖ + 2 * e) * Y + 3 * u * R) / (1 - u) ^ 2) + ‖A‖ * (u * ‖vx0 + y st.s.k‖) := by
  obtain ⟨ht, h1, h2, h3⟩ := C78_trace h
  obtain ⟨-, hg⟩ := C78_gap hv hu0 hu he hz ht hy hr
  have hxk : x = o.add x0 st.s.yk := by
    have hk : (flCgMethod o (.ok : X → Except Err X) cfg.maxiter).getXk st.s = .ok x := by
      rcases h with h | h
      · obtain ⟨st1, hi, -, hf⟩ := (run_inv (flCgMethod_lawful o .ok cfg.maxiter) (fun _ => rfl)).1 st h
        obtain ⟨e1, -, -, -, -, e6⟩ := finish_returned hf
        rw [e1]
        rcases e6 with ⟨z, e7, e8⟩ | ⟨z, -, e7, e8⟩
        · obtain rfl := Option.some.inj (hx.symm.trans e8)
          by_cases h0 : (flCgMethod o (.ok : X → Except Err X) cfg.maxiter).k st1.s = 0
          · have := (hi.init h0).2.1
            rw [e7, hb] at this
            cases this
          · exact hi.xk h0 _ e7
        · obtain rfl := Option.some.inj (hx.symm.trans e8)
          exact e7
      · obtain ⟨st1, hi, -, hb1⟩ := (run_inv (flCgMethod_lawful o .ok cfg.maxiter) (fun _ => rfl)).2 st h
        obtain ⟨s', q, z, v, e1, e2, -, e4, e5, -⟩ := body_convergence hb1
        obtain rfl := Option.some.inj (hx.symm.trans e5)
        rw [e2]
        exact e4
    have := Except.ok.inj (show (Except.ok (o.add st.s.x0 (o.Mr st.s.yk)) : Except Err X) = .ok x from hk)
    rw [← this, hMr, h3, hb]
    rfl
  rw [hxk] at hvx
  obtain ⟨a, c, q1, q2, q3⟩ := hv.add hvx
  obtain rfl : a = vx0 := Option.some.inj (q1.symm.trans hx0)
  obtain rfl : c = y st.s.k := Option.some.inj (q2.symm.trans (by rw [h1]; exact (hy _ le_rfl).1))
  have e : (b - A vx) - r st.s.k = ((b - A a) - r 0) + (r 0 - A (y st.s.k) - r st.s.k) + (-(A (vx - (a + y st.s.k)))) := by
    simp only [map_sub, map_add]; abel
  rw [e]
  refine norm_add₃_le.trans ?_
  rw [norm_neg]
  have := (A.le_opNorm (vx - (a + y st.s.k))).trans (mul_le_mul_of_nonneg_left q3 (norm_nonneg A))
  linarith

end

/-! ## Componentwise rounding errors -/

section
variable {𝕜 : Type*} [RCLike 𝕜] {F K X : Type*} {n : ℕ}

/-- Array operations of numpy with the rounding errors of `FlPar`: componentwise sums, differences and multiples, products with a matrix `A` by dot
products with its rows. -/
structure FlComp (p : FlPar) (o : FlOps F K X) (val : F → Option ℝ) (vec : X → Option (Fin n → 𝕜)) (A : Matrix (Fin n) (Fin n) 𝕜) : Prop where
  add : ∀ {x y z}, vec (o.add x y) = some z → ∃ a b, vec x = some a ∧ vec y = some b ∧ ∀ i, ‖z i - (a i + b i)‖ ≤ p.u * ‖a i + b i‖
  sub : ∀ {x y z}, vec (o.sub x y) = some z → ∃ a b, vec x = some a ∧ vec y = some b ∧ ∀ i, ‖z i - (a i - b i)‖ ≤ p.u * ‖a i - b i‖
  scale : ∀ {c x z}, vec (o.scale c x) = some z → ∃ t a, val c = some t ∧ vec x = some a ∧ ∀ i, ‖z i - (t : 𝕜) * a i‖ ≤ p.v * ‖(t : 𝕜) * a i‖
  op : ∀ {x z}, vec (o.op x) = some z → ∃ a, vec x = some a ∧ ∀ i, FlDot p (A i) a (z i)

theorem norm_toLp_le {x y : Fin n → 𝕜} {c : ℝ} (hc : 0 ≤ c) (h : ∀ i, ‖x i‖ ≤ c * ‖y i‖) : ‖WithLp.toLp 2 x‖ ≤ c * ‖WithLp.toLp 2 y‖ := by
  rw [← vecNorm_toLp, ← vecNorm_toLp]
  have := vecNorm_mono (y := (c : 𝕜) • y) fun i => (h i).trans (le_of_eq (by
    rw [Pi.smul_apply, norm_smul, RCLike.norm_ofReal, abs_of_nonneg hc]))
  rwa [vecNorm_smul, RCLike.norm_ofReal, abs_of_nonneg hc] at this

/-- Frobenius norm. -/
noncomputable def frob (A : Matrix (Fin n) (Fin n) 𝕜) : ℝ := Real.sqrt (∑ i, ∑ j, ‖A i j‖ ^ 2)

/-- C78: componentwise rounding errors (without underflow) give `FlVec` with `u` the larger one of the two relative errors and `e` the error of a dot
product times the Frobenius norm of the matrix. -/
theorem C78_componentwise {p : FlPar} (hp : p.Nonneg) (hη : p.η = 0) {o : FlOps F K X} {val : F → Option ℝ} {vec : X → Option (Fin n → 𝕜)}
    {A : Matrix (Fin n) (Fin n) 𝕜} (h : FlComp p o val vec A) :
    FlVec o val (fun x => (vec x).map (WithLp.toLp 2 : (Fin n → 𝕜) → EuclideanSpace 𝕜 (Fin n))) (Matrix.toEuclideanCLM (n := Fin n) (𝕜 := 𝕜) A)
      (max p.u p.v) (p.gam n * frob A) := by
  have hm : 0 ≤ max p.u p.v := hp.u.trans (le_max_left _ _)
  refine ⟨fun {x y z} hz => ?_, fun {x y z} hz => ?_, fun {c x z} hz => ?_, fun {x z} hz => ?_⟩
  · obtain ⟨w, hw, rfl⟩ := Option.map_eq_some_iff.mp hz
    obtain ⟨a, b, h1, h2, h3⟩ := h.add hw
    refine ⟨_, _, by simp only [h1]; rfl, by simp only [h2]; rfl, ?_⟩
    rw [← WithLp.toLp_add, ← WithLp.toLp_sub]
    exact norm_toLp_le hm fun i => (h3 i).trans (mul_le_mul_of_nonneg_right (le_max_left _ _) (norm_nonneg _))
  · obtain ⟨w, hw, rfl⟩ := Option.map_eq_some_iff.mp hz
    obtain ⟨a, b, h1, h2, h3⟩ := h.sub hw
    refine ⟨_, _, by simp only [h1]; rfl, by simp only [h2]; rfl, ?_⟩
    rw [← WithLp.toLp_sub, ← WithLp.toLp_sub]
    exact norm_toLp_le hm fun i => (h3 i).trans (mul_le_mul_of_nonneg_right (le_max_left _ _) (norm_nonneg _))
  · obtain ⟨w, hw, rfl⟩ := Option.map_eq_some_iff.mp hz
    obtain ⟨t, a, h1, h2, h3⟩ := h.scale hw
    refine ⟨t, _, h1, by simp only [h2]; rfl, ?_⟩
    rw [← WithLp.toLp_smul, ← WithLp.toLp_sub]
    exact norm_toLp_le hm fun i => (h3 i).trans (mul_le_mul_of_nonneg_right (le_max_right _ _) (norm_nonneg _))
  · obtain ⟨w, hw, rfl⟩ := Option.map_eq_some_iff.mp hz
    obtain ⟨a, h1, h2⟩ := h.op hw
    refine ⟨_, by simp only [h1]; rfl, ?_⟩
    rw [Matrix.toEuclideanCLM_toLp, ← WithLp.toLp_sub, ← vecNorm_toLp, ← vecNorm_toLp]
    have g0 := hp.gam_nonneg n
    have h3 : ∀ i, ‖(w - Matrix.toLin' A a) i‖ ≤ p.gam n * (Real.sqrt (∑ j, ‖A i j‖ ^ 2) * vecNorm a) := by
      intro i
      have h4 := C77_dot hp (h2 i)
      rw [FlPar.und, hη, mul_zero, add_zero] at h4
      refine (show ‖w i - A i ⬝ᵥ a‖ ≤ _ from h4).trans (mul_le_mul_of_nonneg_left ?_ g0)
      refine (Finset.sum_le_sum fun j _ => le_rfl).trans ?_
      have := Real.sum_mul_le_sqrt_mul_sqrt Finset.univ (fun j => ‖A i j‖) (fun j => ‖a j‖)
      exact this
    refine Real.sqrt_le_iff.mpr ⟨mul_nonneg (mul_nonneg g0 (Real.sqrt_nonneg _)) (vecNorm_nonneg a), ?_⟩
    refine (Finset.sum_le_sum fun i _ => pow_le_pow_left₀ (norm_nonneg _) (h3 i) 2).trans (le_of_eq ?_)
    have h5 : frob A ^ 2 = ∑ i, ∑ j, ‖A i j‖ ^ 2 := Real.sq_sqrt (Finset.sum_nonneg fun i _ => Finset.sum_nonneg fun j _ => sq_nonneg _)
    rw [mul_pow, mul_pow, h5, Finset.mul_sum, Finset.sum_mul]
    refine Finset.sum_congr rfl fun i _ => ?_
    rw [mul_pow, mul_pow, Real.sq_sqrt (Finset.sum_nonneg fun j _ => sq_nonneg _)]
    ring

end

/-! ## Convergence -/

section
variable {𝕜 : Type*} [RCLike 𝕜] {F K X : Type*} [LE F] [LT F] [DecidableLE F] [DecidableLT F] [Div F] [Zero F] [BEq F] [Zero X]
open Matrix

/-- C78: if `Cg` in real double precision returns with `resnorms[-1] <= tol`, then the exact residual of the returned vector is small (C77). -/
theorem C78_converged {n : ℕ} (h1 : 1 ≤ n) (hn : n ≤ 1000000) {val : F → Option ℝ} {A : Matrix (Fin n) (Fin n) 𝕜} {b : Fin n → 𝕜}
    {vec : X → Fin n → 𝕜} {cfg : Cfg F X} {t B : ℝ} (hc : FlCall flDouble val A b vec cfg t B) (hB : B ≠ 0) {o : FlOps F K X} {x0 MMlr0 Mlr0 : X} {r0 : F}
    (hx0 : o.add x0 (o.Mr 0) = x0) (hr0 : cfg.resNorm x0 = .ok r0) {st : St F X (FlCgSt F X)} (h : flCg cfg o .ok x0 MMlr0 Mlr0 r0 = .returned st)
    {r : F} {q : ℝ} (hr : st.resnorms.getLast? = some r) (hq : val r = some q) (hle : r ≤ cfg.tol) :
    ∃ x, st.xk = some x ∧
      vecNorm (b - A *ᵥ vec x) ≤ (1 + 1 / 10 ^ 9) * t * vecNorm b + 1.2 / 10 ^ 10 * vecNorm (fun i => ∑ j, ‖A i j‖ * ‖vec x j‖) :=
  C77_double h1 hn hc hB (flCgMethod_lawful o .ok cfg.maxiter) (fun _ => rfl)
    (fun x hx => by
      have := Except.ok.inj (show (Except.ok (o.add x0 (o.Mr 0)) : Except Err X) = .ok x from hx)
      rw [← this, hx0, hr0]) h hr hq hle

end

/-! ## Refinement -/

section
variable {𝕜 E : Type*} [RCLike 𝕜] [AddCommGroup E] [Module 𝕜 E]

/-- Exact operations for a linear system. -/
noncomputable def exactOps (s : LS 𝕜 E) (op : E →ₗ[𝕜] E) : FlOps ℝ 𝕜 E where
  op := op
  M := s.M
  Mr := s.Mr
  add := (· + ·)
  sub := (· - ·)
  scale a x := (a : 𝕜) • x
  ip := s.ip
  quot a z := (a : 𝕜) / z
  re z := RCLike.re z
  imBig z := decide (1e-12 < |RCLike.im z|)
  norm x y := npNorm (s.ip x y)
  sq a := a ^ 2

/-- Corresponding states. -/
structure FlCgRel (a : CgSt 𝕜 E) (b : FlCgSt ℝ E) : Prop where
  k : a.k = b.k
  x0 : a.x0 = b.x0
  yk : a.yk = b.yk
  Mlrk : a.Mlrk = b.Mlrk
  MMlrk : a.MMlrk = b.MMlrk
  p : a.p = b.p
  rho : a.rho a.k = b.rho
  rhoOld : 0 < a.k → a.rho (a.k - 1) = b.rhoOld
  warn : a.warn = b.warn

theorem flCg_sim (s : LS 𝕜 E) (op : E →ₗ[𝕜] E) (post : E → Except Err E) (store : Bool) (n : ℕ) :
    Sim (cgMethod s.ip s.M op s.Mr post store n) (flCgMethod (exactOps s op) post n) FlCgRel where
  more h := by simp only [cgMethod, flCgMethod, h.k]
  k h := h.k
  count := rfl
  getXk {a b x} h hx := by
    have : post (a.x0 + s.Mr a.yk) = .ok x := hx
    rw [h.x0, h.yk] at this
    exact this
  post {a b rkn} h := by
    cases rkn with
    | none => exact h
    | some r => exact ⟨h.k, h.x0, h.yk, h.Mlrk, h.MMlrk, h.p, by simp [cgMethod, cgPost, flCgMethod, flCgPost, exactOps],
        fun h0 => by
          have : a.k - 1 ≠ a.k := by have : 0 < a.k := h0
                                     omega
          simp only [cgMethod, cgPost, flCgMethod, flCgPost]
          rw [Function.update_of_ne this]
          exact h.rhoOld h0, h.warn⟩
  step {a b a' r} h hs := by
    change cgStep s.ip s.M op store a = _ at hs
    unfold cgStep at hs
    dsimp only at hs
    split at hs
    · cases hs
    next p hp =>
    have hpe : p = if 0 < b.k then b.MMlrk + ((b.rho / b.rhoOld : ℝ) : 𝕜) • b.p else b.p := by
      unfold cgDir at hp
      rw [← h.k]
      split at hp
      · next h0 =>
        split at hp
        · cases hp
        · rw [if_pos h0, ← Except.ok.inj hp, h.MMlrk, h.p, h.rho, h.rhoOld h0]
      · next h0 => rw [if_neg h0, ← Except.ok.inj hp, h.p]
    rcases ite_eq_iff.mp hs with ⟨-, hs⟩ | ⟨-, hs⟩
    · cases hs
    rcases ite_eq_iff.mp hs with ⟨-, hs⟩ | ⟨-, hs⟩
    · cases hs
    split at hs
    · cases hs
    next nr hnr =>
    simp only [Except.ok.injEq, Prod.mk.injEq] at hs
    obtain ⟨rfl, rfl⟩ := hs
    have hstep : flCgStep (exactOps s op) b = .ok (⟨b.k + 1, b.x0, b.yk + ((RCLike.re ((b.rho : 𝕜) / s.ip p (op p)) : ℝ) : 𝕜) • p,
        b.Mlrk - ((RCLike.re ((b.rho : 𝕜) / s.ip p (op p)) : ℝ) : 𝕜) • op p,
        s.M (b.Mlrk - ((RCLike.re ((b.rho : 𝕜) / s.ip p (op p)) : ℝ) : 𝕜) • op p), p, nr ^ 2, b.rho,
        if 1e-12 < |RCLike.im ((b.rho : 𝕜) / s.ip p (op p))| then b.warn + 1 else b.warn,
        Function.update b.ys (b.k + 1) (b.yk + ((RCLike.re ((b.rho : 𝕜) / s.ip p (op p)) : ℝ) : 𝕜) • p),
        Function.update b.rs (b.k + 1) (b.Mlrk - ((RCLike.re ((b.rho : 𝕜) / s.ip p (op p)) : ℝ) : 𝕜) • op p)⟩, nr) := by
      rw [h.rho, h.Mlrk] at hnr
      unfold flCgStep
      simp only [exactOps, ← hpe, hnr, decide_eq_true_eq]
    refine ⟨_, hstep, ⟨by rw [h.k], h.x0, by rw [h.yk, h.rho], by rw [h.Mlrk, h.rho], by rw [h.Mlrk, h.rho], rfl, ?_, fun _ => ?_, by rw [h.warn, h.rho]⟩⟩
    · simp
    · show Function.update a.rho (a.k + 1) (nr ^ 2) (a.k + 1 - 1) = b.rho
      rw [Nat.add_sub_cancel, Function.update_of_ne (by omega), h.rho]

/-- C78: with exact operations `flCg` does what the exact model of `Cg` does: the same outcome, residual norms, error norms, approximation, number
of iterations and warnings. -/
theorem C78_refines {s : LS 𝕜 E} {hk : Hooks 𝕜 E} {store : Bool} {a : SolverArgs E} {MMlr0 Mlr0 : E} {r0 : ℝ}
    (hi : hk.initRes a.x0 = .ok (MMlr0, Mlr0, r0)) :
    (∀ st, cg s hk store a = .returned st → ∃ t, flCg (mkCfg s a) (exactOps s hk.op) hk.post (a.x0.getD 0) MMlr0 Mlr0 r0 = .returned (st.setS t) ∧
      FlCgRel st.s t) ∧
    (∀ st, cg s hk store a = .convergence st → ∃ t, flCg (mkCfg s a) (exactOps s hk.op) hk.post (a.x0.getD 0) MMlr0 Mlr0 r0 = .convergence (st.setS t) ∧
      FlCgRel st.s t) := by
  have hcg : cg s hk store a = run (mkCfg s a) (cgMethod s.ip s.M hk.op s.Mr hk.post store a.maxiter) (a.x0.getD 0) r0
      (cgInit MMlr0 Mlr0 r0) hk.post := by
    unfold cg; rw [hi]
  rw [hcg]
  exact run_sim (flCg_sim s hk.op hk.post store a.maxiter) ⟨rfl, rfl, rfl, rfl, rfl, rfl, by simp [cgInit, flCgInit, exactOps], fun h => absurd h (by simp [cgInit]), rfl⟩

end

/-! ## Non-vacuity -/

/-- operations for the system `2 x = 1` over the reals which are all wrong by one unit of round-off -/
private noncomputable def wrongOps : FlOps ℝ ℝ ℝ where
  op x := 2 * x * (1 + 2⁻¹ ^ 53)
  M x := x
  Mr x := x
  add x y := (x + y) * (1 + 2⁻¹ ^ 53)
  sub x y := (x - y) * (1 - 2⁻¹ ^ 53)
  scale a x := a * x * (1 + 2⁻¹ ^ 53)
  ip x y := x * y * (1 + 2⁻¹ ^ 53)
  quot a z := a / z
  re z := z
  imBig _ := false
  norm x _ := .ok |x|
  sq a := a ^ 2

private theorem wrong_aux (w : ℝ) : |w * (1 + 2⁻¹ ^ 53) - w| ≤ 2⁻¹ ^ 53 * |w| ∧ |w * (1 - 2⁻¹ ^ 53) - w| ≤ 2⁻¹ ^ 53 * |w| := by
  constructor
  · rw [show w * (1 + 2⁻¹ ^ 53) - w = 2⁻¹ ^ 53 * w by ring, abs_mul, abs_of_nonneg (by norm_num)]
  · rw [show w * (1 - 2⁻¹ ^ 53) - w = -(2⁻¹ ^ 53 * w) by ring, abs_neg, abs_mul, abs_of_nonneg (by norm_num)]

private theorem wrongOps_vec : FlVec (𝕜 := ℝ) (E := ℝ) wrongOps some some ((2 : ℝ) • ContinuousLinearMap.id ℝ ℝ) (2⁻¹ ^ 53) (2 * 2⁻¹ ^ 53) := by
  refine ⟨fun {x y z} h => ?_, fun {x y z} h => ?_, fun {c x z} h => ?_, fun {x z} h => ?_⟩
  · obtain rfl := Option.some.inj h
    exact ⟨x, y, rfl, rfl, (wrong_aux _).1⟩
  · obtain rfl := Option.some.inj h
    exact ⟨x, y, rfl, rfl, (wrong_aux _).2⟩
  · obtain rfl := Option.some.inj h
    exact ⟨c, x, rfl, rfl, (wrong_aux _).1⟩
  · obtain rfl := Option.some.inj h
    refine ⟨x, rfl, (wrong_aux (2 * x)).1.trans (le_of_eq ?_)⟩
    rw [abs_mul, abs_two, Real.norm_eq_abs]
    ring

/-- non-vacuity of C78: a call with inexact operations which carries out one iteration. -/
example : ∃ st, (flCg (⟨0, 1, false, 1, fun x => .ok |1 - 2 * x|, none⟩ : Cfg ℝ ℝ) wrongOps .ok 0 1 1 1 = .returned st ∨
    flCg (⟨0, 1, false, 1, fun x => .ok |1 - 2 * x|, none⟩ : Cfg ℝ ℝ) wrongOps .ok 0 1 1 1 = .convergence st) ∧ st.s.k = 1 ∧
    (∀ j ≤ 1, ∃ y, (some (st.s.ys j) : Option ℝ) = some y) := by
  set cfg : Cfg ℝ ℝ := ⟨0, 1, false, 1, fun x => .ok |1 - 2 * x|, none⟩ with hcfg
  have hon := C78_honest cfg wrongOps (.ok : ℝ → Except Err ℝ) 0 1 1 1
  have hr : ∀ e, flCg cfg wrongOps (.ok : ℝ → Except Err ℝ) 0 1 1 1 ≠ .raised e := by
    intro e h
    unfold flCg run at h
    have hi : initErr cfg (.ok (0 : ℝ)) = .ok none := rfl
    simp only [ite_self, hi] at h
    refine loop_total (cfg := cfg) (m := flCgMethod wrongOps .ok 1) (fun _ => True) (fun _ _ _ _ _ => trivial) ?_ ?_ _ _ trivial e h
    · intro st _ _ e
      exact body_not_raised (s' := _) (r := _) (x := _) rfl rfl (fun x => ⟨_, rfl⟩) (fun en hen => by cases hen) e
    · intro st _ _ e h
      unfold finish at h
      split at h
      · cases h
      · cases h
  have hk : ∀ st, flCg cfg wrongOps (.ok : ℝ → Except Err ℝ) 0 1 1 1 = .returned st ∨ flCg cfg wrongOps (.ok : ℝ → Except Err ℝ) 0 1 1 1 = .convergence st →
      st.s.k = 1 := by
    intro st hst
    obtain ⟨l1, l2, -⟩ := hon.history st hst
    by_contra hne
    have h0 : st.s.k = 0 := by
      have : cfg.maxiter = 1 := rfl
      omega
    rcases hst with hst | hst
    · obtain ⟨st1, hi, hg, hf⟩ := (run_inv (flCgMethod_lawful wrongOps .ok cfg.maxiter) (fun _ => rfl)).1 st hst
      obtain ⟨e1, -⟩ := finish_returned hf
      rw [e1] at h0
      have h3 := (hi.init h0).2.2
      simp [loopGuard, h3, hcfg, flCgMethod, h0] at hg
    · obtain ⟨-, l3, -⟩ := hon.convergence st hst
      have : cfg.maxiter = 1 := rfl
      omega
  cases ho : flCg cfg wrongOps (.ok : ℝ → Except Err ℝ) 0 1 1 1 with
  | returned st => exact ⟨st, .inl rfl, hk st (.inl ho), fun j _ => ⟨_, rfl⟩⟩
  | convergence st => exact ⟨st, .inr rfl, hk st (.inr ho), fun j _ => ⟨_, rfl⟩⟩
  | raised e => exact absurd ho (hr e)
  | outOfFuel => exact absurd ho hon.fuel

end Krypy
