import Verif.Props.FlMinres
import Verif.Props.FlLanczos
import Verif.Props.FlGmresCall
import Verif.Model.Minres

/-!
# Property C82: calls of `Minres` with rounding errors
-/

set_option linter.unusedSectionVars false

namespace Krypy
open MinresErr

section
variable {F K X Q : Type*} [LE F] [LT F] [DecidableLE F] [DecidableLT F] [Div F] [Zero F] [BEq F] [Zero X]

/-- The approximation of a call belongs to the final state. -/
theorem flMinres_xk {cfg : Cfg F X} {o : FlMinresOps F K X Q} {ortho : Ortho} {post : X → Except Err X} {x0 MMlr0 Mlr0 : X} {r0 : F}
    (hb : (cfg.MMlbNorm == 0) = false) {st : St F X (FlMinresSt F K X Q)}
    (h : flMinres cfg o ortho post x0 MMlr0 Mlr0 r0 = .returned st ∨ flMinres cfg o ortho post x0 MMlr0 Mlr0 r0 = .convergence st) {x : X}
    (hx : st.xk = some x) : flMinresXk o post st.s = .ok x := by
  unfold flMinres at h
  cases ha : flArnInit o.toFlArnOps Mlr0 (some MMlr0) (some r0) with
  | error e =>
    rw [ha] at h
    rcases h with h | h <;> cases h
  | ok arn =>
    rw [ha] at h
    dsimp only at h
    have hk0 : ∀ x, (flMinresMethod o ortho post cfg.maxiter).k (flMinresInit o arn r0 x) = 0 := fun _ => flArnInit_iter ha
    rcases h with h | h
    · obtain ⟨st1, hi, -, hf⟩ := (run_inv (flMinresMethod_lawful o ortho post cfg.maxiter) hk0).1 st h
      obtain ⟨e1, -, -, -, -, e6⟩ := finish_returned hf
      rw [e1]
      rcases e6 with ⟨z, e7, e8⟩ | ⟨z, -, e7, e8⟩
      · obtain rfl := Option.some.inj (hx.symm.trans e8)
        by_cases h0 : (flMinresMethod o ortho post cfg.maxiter).k st1.s = 0
        · have := (hi.init h0).2.1
          rw [e7, hb] at this
          cases this
        · exact hi.xk h0 _ e7
      · obtain rfl := Option.some.inj (hx.symm.trans e8)
        exact e7
    · obtain ⟨st1, hi, -, hb1⟩ := (run_inv (flMinresMethod_lawful o ortho post cfg.maxiter) hk0).2 st h
      obtain ⟨s', q, z, v, e1, e2, -, e4, e5, -⟩ := body_convergence hb1
      obtain rfl := Option.some.inj (hx.symm.trans e5)
      rw [e2]
      exact e4

end

section
variable {𝕜 E : Type*} [RCLike 𝕜] [NormedAddCommGroup E] [InnerProductSpace 𝕜 E] {F K X Q : Type*}
  [LE F] [LT F] [DecidableLE F] [DecidableLT F] [Div F] [Zero F] [BEq F] [Zero X]
variable {o : FlMinresOps F K X Q} {vec : X → E} {fin : X → Prop} {num : K → 𝕜} {finK : K → Prop} {val : F → ℝ} {finF : F → Prop} {B : E →L[𝕜] E} {u e d g : ℝ}
  {cs : Q → ℝ × ℝ}

/-- The invariant of the Lanczos iteration holds at the end of every call. -/
theorem flMinres_inv {cfg : Cfg F X} (hv : FlArnVec o.toFlArnOps vec fin num finK val finF B u e) (hi : FlArnIp o.toFlArnOps vec fin num finK val finF d)
    (hre : FlRealPart o.toFlArnOps num finK) (hu0 : 0 ≤ u) (hu : u < 1) (hd0 : 0 ≤ d) (hd : d < 1) (he0 : 0 ≤ e) (hud : (1 + u) ^ 2 ≤ 2 * (1 - d) ^ 2) (hM : o.M = none)
    {post : X → Except Err X} {x0 MMlr0 Mlr0 : X} {r0 : F} (hr0 : finF r0 → |val r0 - ‖vec Mlr0‖| ≤ d * ‖vec Mlr0‖) {st : St F X (FlMinresSt F K X Q)}
    (h : flMinres cfg o .lanczos post x0 MMlr0 Mlr0 r0 = .returned st ∨ flMinres cfg o .lanczos post x0 MMlr0 Mlr0 r0 = .convergence st) :
    FlLanInv vec fin num finK finF o.toFlArnOps B u e d Mlr0 st.s.arn :=
  flMinres_induct (fun s => FlLanInv vec fin num finK finF o.toFlArnOps B u e d Mlr0 s.arn)
    (fun _ ha => FlLanInv.init hv hi hu0 hu hd0 hd hM (fun r hr hf => by obtain rfl := Option.some.inj hr; exact hr0 hf) ha)
    (fun _ _ _ hs h1 => hs.step hv hi hre hu0 hu hd0 hd he0 hud hM (flMinresStep_ok h1).1) h

/-- Bound for the error of column `n` of the Lanczos relation: if the Krylov subspace was flagged as invariant, the last subdiagonal entry is part of it. -/
noncomputable def lanDelta (u e d nB : ℝ) (num : K → 𝕜) (s : FlArn F K X) (n : ℕ) : ℝ :=
  lanBound u e d nB (lanSub num s n) + if n + 1 = s.iter ∧ s.invariant = true then ‖num (s.H (n + 1) n)‖ / (1 - d) else 0

theorem FlLanInv.basis {v : X} {s : FlArn F K X} (inv : FlLanInv vec fin num finK finF o.toFlArnOps B u e d v s) (hf : FlArnFin fin finK finF s) (hu0 : 0 ≤ u) (hd : d < 1)
    (hud : (1 + u) ^ 2 ≤ 2 * (1 - d) ^ 2) : basisNorm (lanBasis vec s) s.iter ≤ √(2 * (s.iter + 1 : ℕ)) := by
  refine Real.sqrt_le_sqrt ?_
  have h : ∀ j ∈ Finset.range (s.iter + 1), ‖lanBasis vec s j‖ ^ 2 ≤ 2 := by
    intro j hj
    rw [Finset.mem_range] at hj
    unfold lanBasis
    split_ifs with h
    · simp
    · refine (inv.unit hf j ?_).sq hu0 hd hud
      rcases Nat.lt_succ_iff_lt_or_eq.mp hj with h1 | h1
      · exact .inl h1
      · exact .inr ⟨h1, by simpa using fun h2 => h ⟨h1, h2⟩⟩
  have := Finset.sum_le_card_nsmul _ _ _ h
  rw [Finset.card_range, nsmul_eq_mul] at this
  linarith

/-- C82: the residual of the vector which `Minres` with `ortho='lanczos'` returns (or attaches to a `ConvergenceError`) after `n ≥ 1` iterations for a system without
preconditioners (`M = Ml = Mr =` identity) with the Euclidean inner product.  It is bounded by `√(2(n+1))` times the residual norm which `Minres` updates, the error of
the initial residual, and errors proportional to the rounding errors (`minresGap`, with the error `lanDelta` of the Lanczos relation). -/
theorem C82_solution {cfg : Cfg F X} (hv : FlArnVec o.toFlArnOps vec fin num finK val finF B u e) (hi : FlArnIp o.toFlArnOps vec fin num finK val finF d)
    (hre : FlRealPart o.toFlArnOps num finK) (hw : FlMinresVec o vec fin num finK val finF u) (hr : FlRotR o val finF cs g) (hMr : ∀ x, o.Mr x = x)
    (hu0 : 0 ≤ u) (hu : u < 1) (hd0 : 0 ≤ d) (hd : d < 1) (he0 : 0 ≤ e) (hud : (1 + u) ^ 2 ≤ 2 * (1 - d) ^ 2) (hg : 0 ≤ g) (hM : o.M = none)
    {x0 MMlr0 Mlr0 : X} {r0 : F} (hr0 : finF r0 → |val r0 - ‖vec Mlr0‖| ≤ d * ‖vec Mlr0‖)
    (hb : (cfg.MMlbNorm == 0) = false) {st : St F X (FlMinresSt F K X Q)}
    (h : flMinres cfg o .lanczos .ok x0 MMlr0 Mlr0 r0 = .returned st ∨ flMinres cfg o .lanczos .ok x0 MMlr0 Mlr0 r0 = .convergence st)
    (hf : FlArnFin fin finK finF st.s.arn) (hR : ∀ j < st.s.arn.iter, finF (st.s.Rs j).2.2) (he : ∀ j < st.s.arn.iter, finF (st.s.es (j + 1))) (h0 : 0 < st.s.arn.iter)
    {x : X} (hx : st.xk = some x) (hfx : fin x) (b : E) :
    x = o.add x0 st.s.yk ∧
      ‖vec Mlr0 - B (vec st.s.yk)‖ ≤ √(2 * (st.s.arn.iter + 1 : ℕ)) * |val st.s.y| +
        minresGap o vec val u g ‖B‖ cfg.maxiter st.s (lanBasis vec st.s.arn) (lanDelta u e d ‖B‖ num st.s.arn) st.s.arn.iter + u * ‖vec Mlr0‖ ∧
      ‖b - B (vec x)‖ ≤ ‖b - B (vec x0) - vec Mlr0‖ + (√(2 * (st.s.arn.iter + 1 : ℕ)) * |val st.s.y| +
        minresGap o vec val u g ‖B‖ cfg.maxiter st.s (lanBasis vec st.s.arn) (lanDelta u e d ‖B‖ num st.s.arn) st.s.arn.iter + u * ‖vec Mlr0‖) +
        ‖B‖ * (u * ‖vec x0 + vec st.s.yk‖) := by
  have inv := flMinres_inv hv hi hre hu0 hu hd0 hd he0 hud hM hr0 h
  obtain ⟨htr, hsx⟩ := C82_trace h
  have hxk := flMinres_xk hb h hx
  unfold flMinresXk at hxk
  have hxe := (Except.ok.inj hxk).symm
  rw [hMr, hsx, hb] at hxe
  simp only [Bool.false_eq_true, if_false] at hxe
  refine ⟨hxe, ?_⟩
  rw [hxe] at hfx ⊢
  obtain ⟨-, hfy, hae⟩ := hw.add hfx
  have hδ : ∀ k < st.s.arn.iter, ‖B (vec (st.s.arn.V k)) - tri 𝕜 (lanBasis vec st.s.arn) k (minresTri o val cfg.maxiter st.s k).1 (minresTri o val cfg.maxiter st.s k).2.1
      (minresTri o val cfg.maxiter st.s k).2.2‖ ≤ lanDelta u e d ‖B‖ num st.s.arn k := by
    intro k hk
    have h1 := inv.rel hf k hk
    have e1 : (minresTri o val cfg.maxiter st.s k).2.1 = (lanT num st.s.arn k).2.1 := hw.re (hf.H k hk k (by omega))
    have e2 : (minresTri o val cfg.maxiter st.s k).2.2 = (lanT num st.s.arn k).2.2 := hw.re (hf.H k hk (k + 1) le_rfl)
    rw [e1, e2]
    have e3 : tri 𝕜 (lanBasis vec st.s.arn) k (minresTri o val cfg.maxiter st.s k).1 (lanT num st.s.arn k).2.1 (lanT num st.s.arn k).2.2 =
        tri 𝕜 (lanBasis vec st.s.arn) k (lanT num st.s.arn k).1 (lanT num st.s.arn k).2.1 (lanT num st.s.arn k).2.2 := by
      rcases k with _ | k
      · simp [tri, shift1]
      · have : (minresTri o val cfg.maxiter st.s (k + 1)).1 = (lanT num st.s.arn (k + 1)).1 := by
          unfold minresTri lanT
          rw [if_neg (Nat.succ_ne_zero k)]
          exact hw.re (hf.H (k + 1) hk (k + 1 - 1) (by omega))
        rw [this]
    rw [e3]
    exact h1
  have hres := C82_residual hv hw hr hu0 hg htr ⟨hR, he, hfy⟩ rfl hδ (vec Mlr0)
  have hstart : ‖vec Mlr0 - (val r0 : 𝕜) • lanBasis vec st.s.arn 0‖ ≤ u * ‖vec Mlr0‖ := by
    have e1 : lanBasis vec st.s.arn 0 = vec (st.s.arn.V 0) := by
      unfold lanBasis
      rw [if_neg (by omega)]
    have hfV := hf.V 0 (.inl h0)
    have hfn := hf.vnorm
    rw [e1]
    rw [inv.first (.inl h0), htr.vnorm] at hfV ⊢
    rw [htr.vnorm] at hfn
    rw [norm_sub_rev]
    exact (hv.sdiv hfV hfn).2.2
  have hbas := mul_le_mul_of_nonneg_right (inv.basis hf hu0 hd hud) (abs_nonneg (val st.s.y))
  have hmain : ‖vec Mlr0 - B (vec st.s.yk)‖ ≤ √(2 * (st.s.arn.iter + 1 : ℕ)) * |val st.s.y| +
        minresGap o vec val u g ‖B‖ cfg.maxiter st.s (lanBasis vec st.s.arn) (lanDelta u e d ‖B‖ num st.s.arn) st.s.arn.iter + u * ‖vec Mlr0‖ := by
    linarith
  refine ⟨hmain, ?_⟩
  set y := vec st.s.yk
  have e1 : b - B (vec (o.add x0 st.s.yk)) = (b - B (vec x0) - vec Mlr0) + (vec Mlr0 - B y) + (-(B (vec (o.add x0 st.s.yk) - (vec x0 + y)))) := by
    simp only [map_sub, map_add]; abel
  rw [e1]
  refine norm_add₃_le.trans ?_
  rw [norm_neg]
  have := (B.le_opNorm (vec (o.add x0 st.s.yk) - (vec x0 + y))).trans (mul_le_mul_of_nonneg_left hae (norm_nonneg B))
  linarith

end

section
variable {𝕜 : Type*} [RCLike 𝕜] {F K X Q : Type*} [LE F] [LT F] [DecidableLE F] [DecidableLT F] [Div F] [Zero F] [BEq F] [Zero X]
open Matrix

/-- C82: if `Minres` in real double precision returns with `resnorms[-1] <= tol`, then the exact residual of the returned vector is small (C77). -/
theorem C82_converged {n : ℕ} (h1 : 1 ≤ n) (hn : n ≤ 1000000) {val : F → Option ℝ} {A : Matrix (Fin n) (Fin n) 𝕜} {b : Fin n → 𝕜}
    {vec : X → Fin n → 𝕜} {cfg : Cfg F X} {t B : ℝ} (hc : FlCall flDouble val A b vec cfg t B) (hB : B ≠ 0) {o : FlMinresOps F K X Q} {ortho : Ortho}
    {x0 MMlr0 Mlr0 : X} {r0 : F} (hr0 : cfg.resNorm x0 = .ok r0) (h0 : o.add x0 (o.Mr 0) = x0) {st : St F X (FlMinresSt F K X Q)}
    (h : flMinres cfg o ortho .ok x0 MMlr0 Mlr0 r0 = .returned st)
    {r : F} {q : ℝ} (hr : st.resnorms.getLast? = some r) (hq : val r = some q) (hle : r ≤ cfg.tol) :
    ∃ x, st.xk = some x ∧
      vecNorm (b - A *ᵥ vec x) ≤ (1 + 1 / 10 ^ 9) * t * vecNorm b + 1.2 / 10 ^ 10 * vecNorm (fun i => ∑ j, ‖A i j‖ * ‖vec x j‖) := by
  unfold flMinres at h
  cases ha : flArnInit o.toFlArnOps Mlr0 (some MMlr0) (some r0) with
  | error e => rw [ha] at h; cases h
  | ok arn =>
    rw [ha] at h
    dsimp only at h
    have hk0 : ∀ x, (flMinresMethod o ortho .ok cfg.maxiter).k (flMinresInit o arn r0 x) = 0 := fun _ => flArnInit_iter ha
    refine C77_double h1 hn hc hB (flMinresMethod_lawful o ortho .ok cfg.maxiter) hk0 (fun x hx => ?_) h hr hq hle
    have := Except.ok.inj (show (.ok (o.add x0 (o.Mr 0)) : Except Err X) = .ok x from hx)
    rw [← this, h0]
    exact hr0

end

/-! ## Componentwise errors -/

section
variable {𝕜 : Type*} [RCLike 𝕜] {F K X Q : Type*} [Zero X] {N : ℕ} {p : FlPar} {o : FlMinresOps F K X Q} {vec : X → Fin N → 𝕜} {fin : X → Prop} {num : K → 𝕜}
  {finK : K → Prop} {val : F → ℝ} {finF : F → Prop} {cs : Q → ℝ × ℝ} {A : Matrix (Fin N) (Fin N) 𝕜}

/-- The operations of `Minres` in floating point arithmetic: like `FlArnComp` for the Lanczos iteration; `cs q` are the numbers stored in a `Givens` object, with a
relative error of at most `w` with respect to exact ones (`rotg`); `r` (utils.py 430) and the application of rotations (utils.py 432-436) are inner products of pairs. -/
structure FlMinresComp (p : FlPar) (o : FlMinresOps F K X Q) (vec : X → Fin N → 𝕜) (fin : X → Prop) (num : K → 𝕜) (finK : K → Prop) (val : F → ℝ) (finF : F → Prop)
    (cs : Q → ℝ × ℝ) (A : Matrix (Fin N) (Fin N) 𝕜) : Prop extends FlArnComp p o.toFlArnOps vec fin num finK val finF A where
  apply : ∀ {q a b}, finF (o.apply q (a, b)).1 → finF (o.apply q (a, b)).2 → finF a ∧ finF b ∧
    FlDot p ![(cs q).1, (cs q).2] ![val a, val b] (val (o.apply q (a, b)).1) ∧ FlDot p ![-(cs q).2, (cs q).1] ![val a, val b] (val (o.apply q (a, b)).2)
  rval : ∀ {a b}, finF (o.rval (o.rotg a b)) → finF a ∧ finF b ∧ FlDot p ![(cs (o.rotg a b)).1, (cs (o.rotg a b)).2] ![val a, val b] (val (o.rval (o.rotg a b)))
  rotg : ∀ {a b}, finF (o.rval (o.rotg a b)) →
    ∃ c s, IsRotg (val a) (val b) c s ∧ |(cs (o.rotg a b)).1 - c| ≤ p.w * |c| ∧ |(cs (o.rotg a b)).2 - s| ≤ p.w * |s|
  rscale : ∀ {c x}, fin (o.rscale c x) → finF c ∧ fin x ∧ ∀ i, ‖vec (o.rscale c x) i - (val c : 𝕜) * vec x i‖ ≤ p.v * ‖(val c : 𝕜) * vec x i‖
  add : ∀ {x y}, fin (o.add x y) → fin x ∧ fin y ∧ ∀ i, ‖vec (o.add x y) i - (vec x i + vec y i)‖ ≤ p.u * ‖vec x i + vec y i‖
  zeroV : vec 0 = 0
  reF : ∀ {a}, finK a → val (o.reF a) = RCLike.re (num a)
  zeroF : val o.zeroF = 0

theorem pn_le_of {a b C D : ℝ} (h1 : |a| ≤ C) (h2 : |b| ≤ D) : pn a b ≤ C + D := by
  have := abs_nonneg a
  have := abs_nonneg b
  refine Real.sqrt_le_iff.mpr ⟨by linarith, ?_⟩
  rw [← sq_abs a, ← sq_abs b]
  nlinarith

/-- C82: componentwise rounding errors (without underflow) give the assumptions of the theorems above. -/
theorem C82_componentwise (hp : p.Nonneg) (hη : p.η = 0) (h : FlMinresComp p o vec fin num finK val finF cs A) :
    FlMinresVec o (fun x => (WithLp.toLp 2 (vec x) : EuclideanSpace 𝕜 (Fin N))) fin num finK val finF (max p.u p.v) ∧
    FlRotR o val finF (fun q => nearRot p.w (cs q)) (p.rot + p.w) := by
  have hm : 0 ≤ max p.u p.v := hp.u.trans (le_max_left _ _)
  have g0 := hp.gam_nonneg 2
  have w0 := hp.w
  have hpn : ∀ a b : ℝ, pairNorm (a, b) = pn a b := fun a b => by simp [pairNorm, pn]
  have hnear : ∀ {a b}, finF (o.rval (o.rotg a b)) → NearRotation p.w (cs (o.rotg a b)) (nearRot p.w (cs (o.rotg a b))) := by
    intro a b hf
    obtain ⟨c0, s0, hr, hc0, hs0⟩ := h.rotg hf
    exact nearRot_spec (r := (c0, s0)) ⟨hr.1, hc0, hs0⟩
  refine ⟨⟨fun {c x} hz => ?_, fun {x y} hz => ?_, ?_, h.reF, h.zeroF⟩, ⟨fun q => ?_, fun {a b} hf => ?_, fun {q a b} hq h1 h2 => ?_⟩⟩
  · obtain ⟨h1, h2, h3⟩ := h.rscale hz
    refine ⟨h1, h2, ?_⟩
    rw [← WithLp.toLp_smul, ← WithLp.toLp_sub]
    exact norm_toLp_le hm fun i => (h3 i).trans (mul_le_mul_of_nonneg_right (le_max_right _ _) (norm_nonneg _))
  · obtain ⟨h1, h2, h3⟩ := h.add hz
    refine ⟨h1, h2, ?_⟩
    rw [← WithLp.toLp_add, ← WithLp.toLp_sub]
    exact norm_toLp_le hm fun i => (h3 i).trans (mul_le_mul_of_nonneg_right (le_max_left _ _) (norm_nonneg _))
  · simp [h.zeroV]
  · have := nearRot_unit p.w (cs q)
    rwa [Real.norm_eq_abs, sq_abs] at this
  · obtain ⟨f1, f2, hd⟩ := h.rval hf
    refine ⟨f1, f2, ?_⟩
    obtain ⟨c0, s0, hr, hc0, hs0⟩ := h.rotg hf
    obtain ⟨n1, n2, n3⟩ := hnear hf
    set q := o.rotg a b with hqd
    set r := nearRot p.w (cs q) with hrd
    have hu1 : ‖r.1‖ ^ 2 + ‖r.2‖ ^ 2 = 1 := by
      rw [Real.norm_eq_abs, sq_abs]
      exact n1
    have e1 := flDot_pair hp hη hd n2 n3 hu1
    rw [hpn] at e1
    have e2 : 0 - (-r.2 * val a + r.1 * val b) = (r.2 - s0) * val a - (r.1 - c0) * val b := by
      have := hr.2
      simp only [conj_trivial, RCLike.ofReal_real_eq_id, id] at this
      linear_combination -this
    have c1 : |r.1 - c0| ≤ p.w * (|r.1| + |c0|) := by
      have h3 := abs_sub_le r.1 (cs q).1 c0
      rw [abs_sub_comm r.1 (cs q).1] at h3
      linarith
    have s1 : |r.2 - s0| ≤ p.w * (|r.2| + |s0|) := by
      have h3 := abs_sub_le r.2 (cs q).2 s0
      rw [abs_sub_comm r.2 (cs q).2] at h3
      rw [Real.norm_eq_abs, Real.norm_eq_abs] at n3
      linarith
    have k1 : |r.2| * |val a| + |r.1| * |val b| ≤ pn (val a) (val b) := by
      have := pair_cs (abs_nonneg r.2) (abs_nonneg r.1) (abs_nonneg (val a)) (abs_nonneg (val b))
      rw [Real.norm_eq_abs, sq_abs] at n1
      rwa [sq_abs, sq_abs, sq_abs, sq_abs, add_comm (r.2 ^ 2), n1, Real.sqrt_one, one_mul] at this
    have k2 : |s0| * |val a| + |c0| * |val b| ≤ pn (val a) (val b) := by
      have := pair_cs (abs_nonneg s0) (abs_nonneg c0) (abs_nonneg (val a)) (abs_nonneg (val b))
      have h3 := hr.1
      rw [Real.norm_eq_abs, sq_abs] at h3
      rwa [sq_abs, sq_abs, sq_abs, sq_abs, add_comm (s0 ^ 2), h3, Real.sqrt_one, one_mul] at this
    have e3 : |0 - (-r.2 * val a + r.1 * val b)| ≤ 2 * p.w * pn (val a) (val b) := by
      rw [e2]
      refine (abs_sub _ _).trans ?_
      rw [abs_mul, abs_mul]
      have q1 := mul_le_mul_of_nonneg_right s1 (abs_nonneg (val a))
      have q2 := mul_le_mul_of_nonneg_right c1 (abs_nonneg (val b))
      have q3 := mul_le_mul_of_nonneg_left (add_le_add k1 k2) w0
      linarith
    refine (pn_le_of e1 e3).trans ?_
    rw [← add_mul]
    refine mul_le_mul_of_nonneg_right ?_ (pn_nonneg _ _)
    unfold FlPar.rot
    nlinarith [mul_nonneg g0 (show 0 ≤ 1 + p.w by linarith)]
  · obtain ⟨f1, f2, d1, d2⟩ := h.apply h1 h2
    refine ⟨f1, f2, ?_⟩
    obtain ⟨a', b', rfl, hf⟩ := hq
    obtain ⟨n1, n2, n3⟩ := hnear hf
    set q := o.rotg a' b' with hqd
    set r := nearRot p.w (cs q) with hrd
    have hu1 : ‖r.1‖ ^ 2 + ‖r.2‖ ^ 2 = 1 := by
      rw [Real.norm_eq_abs, sq_abs]
      exact n1
    have hu2 : ‖-r.2‖ ^ 2 + ‖r.1‖ ^ 2 = 1 := by
      rw [norm_neg, add_comm]
      exact hu1
    have hsn : ‖-(cs q).2 - -r.2‖ ≤ p.w * ‖-r.2‖ := by
      rw [neg_sub_neg, norm_neg, norm_sub_rev]
      exact n3
    have e1 := flDot_pair hp hη d1 n2 n3 hu1
    have e2 := flDot_pair hp hη d2 hsn n2 hu2
    rw [hpn] at e1 e2
    refine (pn_le_of e1 e2).trans ?_
    rw [← add_mul]
    refine mul_le_mul_of_nonneg_right ?_ (pn_nonneg _ _)
    unfold FlPar.rot
    linarith

end

/-! ## Exact operations -/

section
variable {𝕜 E : Type*} [RCLike 𝕜] [AddCommGroup E] [Module 𝕜 E]

/-- Exact operations of `Minres` (linsys.py 791-853) for a linear system. -/
noncomputable def exactMinres (s : LS 𝕜 E) (c : ArnCfg 𝕜 E) : FlMinresOps ℝ 𝕜 E (Givens ℝ) where
  toFlArnOps := exactArn c
  reF a := RCLike.re a
  zeroF := 0
  rotg := mkGivens
  rval g := g.r
  apply := Givens.apply
  absF a := |a|
  rscale a x := (a : 𝕜) • x
  Mr := s.Mr
  add := (· + ·)

/-- Corresponding states. -/
structure FlMinresRel (a : MinresSt 𝕜 E) (b : FlMinresSt ℝ 𝕜 E (Givens ℝ)) : Prop where
  arn : b.arn = a.arn.toFl
  x0 : b.x0 = a.x0
  G1 : b.G1 = a.G1
  G2 : b.G2 = a.G2
  W0 : b.W0 = a.W0
  W1 : b.W1 = a.W1
  y : b.y = a.y
  yk : b.yk = a.yk

theorem flOptApply_exact (s : LS 𝕜 E) (c : ArnCfg 𝕜 E) (G : Option (Givens ℝ)) (x : ℝ × ℝ) : flOptApply (exactMinres s c) G x = optApply G x := by
  cases G <;> rfl

theorem flMinres_sim (s : LS 𝕜 E) (c : ArnCfg 𝕜 E) (post : E → Except Err E) :
    Sim (minresMethod (arnAdvance c) s.Mr post c.maxiter) (flMinresMethod (exactMinres s c) c.ortho post c.maxiter) FlMinresRel where
  more {a b} h := by simp only [minresMethod, flMinresMethod, h.arn, Arn.toFl]
  k {a b} h := by simp only [minresMethod, flMinresMethod, h.arn, Arn.toFl]
  count := rfl
  post h := h
  getXk {a b x} h hx := by
    change minresXk s.Mr post a = .ok x at hx
    change flMinresXk (exactMinres s c) post b = .ok x
    unfold minresXk at hx
    unfold flMinresXk
    rw [h.x0, h.yk]
    exact hx
  step {a b a' r} h hs := by
    change minresStep (arnAdvance c) c.maxiter a = .ok (a', r) at hs
    change ∃ b', flMinresStep (exactMinres s c) c.ortho c.maxiter b = .ok (b', r) ∧ _
    unfold minresStep at hs
    dsimp only at hs
    split at hs
    · cases hs
    next ar har =>
    generalize hq : (if a.arn.iter = 0 then c.maxiter else a.arn.iter - 1) = q at hs
    split at hs
    · cases hs
    simp only [Except.ok.injEq, Prod.mk.injEq] at hs
    obtain ⟨rfl, rfl⟩ := hs
    obtain ⟨barn, bx0, bG1, bG2, bW0, bW1, bY, byk, b1, b2, b3, b4, b5⟩ := b
    obtain ⟨h1, h2, h3, h4, h5, h6, h7, h8⟩ := h
    dsimp only at h1 h2 h3 h4 h5 h6 h7 h8
    subst h1 h2 h3 h4 h5 h6 h7 h8
    have hadv : flArnAdvance (exactMinres s c).toFlArnOps c.ortho c.maxiter a.arn.toFl = .ok ar.toFl := flArnAdvance_exact har
    unfold flMinresStep
    dsimp only
    rw [hadv]
    dsimp only [flMinresRot, flMinresR, flMinresMid, flMinresTop]
    simp only [flOptApply_exact]
    subst hq
    exact ⟨_, rfl, rfl, rfl, rfl, rfl, rfl, rfl, rfl, rfl⟩

/-- C82: with exact operations `flMinres` does what the exact model of `Minres` does: the same outcome, residual norms, error norms, approximation, number
of iterations and warnings. -/
theorem C82_refines {s : LS 𝕜 E} {hk : Hooks 𝕜 E} {ortho : Ortho} {a : SolverArgs E} {MMlr0 Mlr0 : E} {r0 : ℝ}
    (hi : hk.initRes a.x0 = .ok (MMlr0, Mlr0, r0)) :
    (∀ st, minres s hk ortho a = .returned st → ∃ t, flMinres (mkCfg s a) (exactMinres s (s.arnCfg hk a.maxiter ortho)) ortho hk.post (a.x0.getD 0) MMlr0 Mlr0 r0 =
      .returned (st.setS t) ∧ FlMinresRel st.s t) ∧
    (∀ st, minres s hk ortho a = .convergence st → ∃ t, flMinres (mkCfg s a) (exactMinres s (s.arnCfg hk a.maxiter ortho)) ortho hk.post (a.x0.getD 0) MMlr0 Mlr0 r0 =
      .convergence (st.setS t) ∧ FlMinresRel st.s t) := by
  set c := s.arnCfg hk a.maxiter ortho with hc
  cases ha : arnInit c Mlr0 (some MMlr0) (some r0) with
  | error e =>
    have hg : minres s hk ortho a = .raised e := by
      unfold minres minresRun
      rw [hi]
      dsimp only
      rw [← hc, ha]
    rw [hg]
    constructor <;> intro st h <;> cases h
  | ok arn =>
    have hg : minres s hk ortho a = run (mkCfg s a) (minresMethod (arnAdvance c) s.Mr hk.post a.maxiter) (a.x0.getD 0) r0 (minresInit arn r0) hk.post := by
      unfold minres minresRun
      rw [hi]
      dsimp only
      rw [← hc, ha]
    have hinit : flArnInit (exactMinres s c).toFlArnOps Mlr0 (some MMlr0) (some r0) = .ok arn.toFl := flArnInit_exact ha
    have hf : flMinres (mkCfg s a) (exactMinres s c) ortho hk.post (a.x0.getD 0) MMlr0 Mlr0 r0 =
        run (mkCfg s a) (flMinresMethod (exactMinres s c) ortho hk.post a.maxiter) (a.x0.getD 0) r0 (flMinresInit (exactMinres s c) arn.toFl r0) hk.post := by
      unfold flMinres
      rw [hinit]
      rfl
    rw [hg, hf]
    exact run_sim (flMinres_sim s c hk.post) ⟨rfl, rfl, rfl, rfl, rfl, rfl, rfl, rfl⟩

end

/-! ## A concrete arithmetic -/

/-- A call with `maxiter=2` and `tol=0`. -/
theorem flMinres_two {X Q : Type*} [Zero X] {o : FlMinresOps ℝ ℝ X Q} {rn : X → ℝ} {x0 v : X} {a0 : FlArn ℝ ℝ X}
    (hinit : flArnInit o.toFlArnOps v (some v) (some 1) = .ok a0) (h0 : a0.iter = 0) (hi0 : a0.invariant = false)
    {s1 : FlMinresSt ℝ ℝ X Q} {r1 : ℝ} (hstep1 : flMinresStep o .lanczos 2 (flMinresInit o a0 1 x0) = .ok (s1, r1)) (hr1 : 0 < r1) (h1 : s1.arn.iter = 1)
    (hi1 : s1.arn.invariant = false) {s2 : FlMinresSt ℝ ℝ X Q} {r2 : ℝ} (hstep2 : flMinresStep o .lanczos 2 s1 = .ok (s2, r2)) (h2 : s2.arn.iter = 2) :
    ∃ st, (flMinres (⟨0, 2, false, 1, fun x => .ok (rn x), none⟩ : Cfg ℝ X) o .lanczos .ok x0 v v 1 = .returned st ∨
      flMinres (⟨0, 2, false, 1, fun x => .ok (rn x), none⟩ : Cfg ℝ X) o .lanczos .ok x0 v v 1 = .convergence st) ∧ st.s = s2 ∧
      st.xk = some (o.add s2.x0 (o.Mr s2.yk)) := by
  set cfg : Cfg ℝ X := ⟨0, 2, false, 1, fun x => .ok (rn x), none⟩ with hcfg
  set st0 : FlMinresSt ℝ ℝ X Q := flMinresInit o a0 1 x0 with hst0
  set met := flMinresMethod o .lanczos .ok 2 with hmet
  set x := o.add s2.x0 (o.Mr s2.yk) with hx
  set stn : St ℝ X (FlMinresSt ℝ ℝ X Q) := ⟨s2, 1, some x, [1, r1, rn x], none, 0⟩ with hstn
  refine ⟨stn, ?_, rfl, rfl⟩
  have hbody1 : body cfg met ⟨st0, 0, none, [1], none, 0⟩ = .ok ⟨s1, 0, none, [1, r1], none, 0⟩ := by
    have hst : met.step st0 = .ok (s1, r1) := hstep1
    unfold body
    simp only [hst, finalizeIteration, withErr, wantExplicit, hcfg]
    simp [hst0, hmet, flMinresMethod, flMinresInit, h0, not_le.mpr hr1]
  have hxk : met.getXk s2 = .ok x := rfl
  have hbody2 : body cfg met ⟨s1, 0, none, [1, r1], none, 0⟩ = .convergence stn ∨ body cfg met ⟨s1, 0, none, [1, r1], none, 0⟩ = .ok stn := by
    have hst : met.step s1 = .ok (s2, r2) := hstep2
    unfold body
    simp only [hst, finalizeIteration, withErr, wantExplicit, hcfg, hxk]
    by_cases hpos : 0 < rn x
    · left
      simp [hpos, hstn, hmet, flMinresMethod, h1]
    · right
      simp [hpos, hstn, hmet, flMinresMethod, h1]
  have hrun : flMinres cfg o .lanczos .ok x0 v v 1 = loop cfg met 2 ⟨st0, 0, none, [1], none, 0⟩ := by
    unfold flMinres
    rw [hinit]
    dsimp only
    unfold run
    simp [initErr, hcfg, hst0, hmet]
  have hguard1 : loopGuard cfg met ⟨st0, 0, none, [1], none, 0⟩ = true := by
    simp [loopGuard, hcfg, hmet, flMinresMethod, hst0, flMinresInit, h0, hi0]
  have hguard2 : loopGuard cfg met ⟨s1, 0, none, [1, r1], none, 0⟩ = true := by
    simp [loopGuard, hcfg, hmet, flMinresMethod, h1, hi1, hr1]
  rw [hrun]
  unfold loop
  rw [if_pos hguard1]
  dsimp only
  rw [hbody1]
  dsimp only
  unfold loop
  rw [if_pos hguard2]
  dsimp only
  rcases hbody2 with hb | hb
  · rw [hb]
    exact .inr rfl
  · rw [hb]
    left
    have hg2 : loopGuard cfg met stn = false := by
      simp [loopGuard, hmet, flMinresMethod, hstn, h2]
    dsimp only
    unfold loop
    rw [hg2]
    simp [finish, hstn]

attribute [local instance] zeroOptC
open ComplexConjugate

/-- The self-adjoint map which swaps real and imaginary part; scalings are 1% too long. -/
noncomputable def roundLan : FlArnOps ℝ ℝ (Option ℂ) := { roundArn with A := fun x => x.map fun a => Complex.I * conj a }

theorem roundLan_vec : FlArnVec (𝕜 := ℝ) roundLan (fun x => x.getD 0) (fun x => x.isSome = true) id (fun _ => True) id (fun _ => True)
    ((ContinuousLinearMap.mul ℝ ℂ Complex.I).comp (Complex.conjCLE : ℂ →L[ℝ] ℂ)) (1 / 100) 0 where
  sub := roundArn_vec.sub
  scale := roundArn_vec.scale
  sdiv := roundArn_vec.sdiv
  A {x} h := by
    cases x with
    | none => simp [roundLan] at h
    | some a =>
      refine ⟨rfl, ?_⟩
      simp [roundLan]
  acc := roundArn_vec.acc
  ofReal := roundArn_vec.ofReal
  zero := rfl

theorem roundLan_ip : FlArnIp (𝕜 := ℝ) roundLan (fun x => x.getD 0) (fun x => x.isSome = true) id (fun _ => True) id (fun _ => True) 0 :=
  ⟨roundArn_ip.ip, roundArn_ip.norm⟩

theorem roundLan_re : FlRealPart (𝕜 := ℝ) roundLan id (fun _ => True) where
  re _ := ⟨trivial, by simp [roundLan, roundArn]⟩
  acc _ _ _ := by simp

/-- The arithmetic `roundLan` with exact rotations. -/
noncomputable def roundMinres : FlMinresOps ℝ ℝ (Option ℂ) ((ℝ × ℝ) × ℝ) where
  toFlArnOps := roundLan
  reF := id
  zeroF := 0
  rotg a b := (roundGmres.rotg a b, √(a ^ 2 + b ^ 2))
  rval q := q.2
  apply q p := (q.1.1 * p.1 + q.1.2 * p.2, -q.1.2 * p.1 + q.1.1 * p.2)
  absF a := |a|
  rscale := roundArn.scale
  Mr := id
  add x y := x.bind fun a => y.map fun b => a + b

theorem roundMinres_vec : FlMinresVec (𝕜 := ℝ) roundMinres (fun x => x.getD 0) (fun x => x.isSome = true) id (fun _ => True) id (fun _ => True) (1 / 100) where
  rscale := roundArn_vec.scale
  add {x y} h := by
    cases x <;> cases y <;> simp [roundMinres] at h ⊢
  zero := rfl
  re _ := by simp [roundMinres]
  zeroF := rfl

theorem roundMinres_rot : FlRotR roundMinres id (fun _ => True) (fun q => nearRot 0 q.1) 0 where
  unit q := by
    have := nearRot_unit 0 q.1
    rwa [Real.norm_eq_abs, sq_abs] at this
  rval {a b} _ := by
    refine ⟨trivial, trivial, ?_⟩
    have h1 : nearRot 0 (roundMinres.rotg a b).1 = roundGmres.rotg a b := nearRot_exact (roundGmres_unit a b)
    rw [h1]
    have h2 : -(roundGmres.rotg a b).2 * a + (roundGmres.rotg a b).1 * b = 0 := by
      simp only [roundGmres]
      split_ifs with h
      · simp [h.1, h.2]
      · simp only; ring
    have h3 : (roundGmres.rotg a b).1 * a + (roundGmres.rotg a b).2 * b = √(a ^ 2 + b ^ 2) := by
      simp only [roundGmres]
      split_ifs with h
      · simp [h.1, h.2]
      · have hp : 0 < a ^ 2 + b ^ 2 := by
          rcases not_and_or.mp h with h | h <;> positivity
        have hq := Real.sqrt_pos.mpr hp
        have := Real.sq_sqrt hp.le
        field_simp
        nlinarith
    simp only [id]
    rw [h2, h3]
    simp [roundMinres, pn]
  apply {q a b} hq _ _ := by
    obtain ⟨a', b', rfl, -⟩ := hq
    refine ⟨trivial, trivial, ?_⟩
    have h1 : nearRot 0 (roundMinres.rotg a' b').1 = roundGmres.rotg a' b' := nearRot_exact (roundGmres_unit a' b')
    rw [h1]
    simp [roundMinres, pn]

/-- The object after one step. -/
noncomputable def roundLan1 : FlArn ℝ ℝ (Option ℂ) :=
  ⟨1, Function.update (Function.update 0 0 (some 1)) 1 (some Complex.I), Function.update (Function.update 0 0 (some 1)) 1 (some Complex.I),
    fun i j => if i = 1 ∧ j = 0 then 1 else 0, false, 1⟩

/-- The object after two steps. -/
noncomputable def roundLan2 : FlArn ℝ ℝ (Option ℂ) :=
  ⟨2, Function.update roundLan1.V 2 (some (-1)), Function.update roundLan1.P 2 (some (-1)),
    fun i j => if i = 1 ∧ j = 0 then 1 else if i = 0 ∧ j = 1 then 1 else if i = 2 ∧ j = 1 then 1 / 100 else 0, false, 1⟩

theorem roundLan_advance1 : flArnAdvance roundLan .lanczos 2 roundArn0 = .ok roundLan1 := by
  have hip : roundLan.ip (some 1) (some Complex.I) = 0 := by
    simp [roundLan, roundArn, Complex.inner]
  have hfold : (flOrthoList .lanczos 0).foldl (flOrthoStep roundLan .lanczos (Function.update 0 0 (some 1)) (Function.update 0 0 (some 1)))
      (flOrthoStart roundLan .lanczos roundArn0) = (some Complex.I, fun _ => (0 : ℝ)) := by
    have hl : flOrthoList .lanczos 0 = [0] := by decide
    rw [hl, List.foldl_cons, List.foldl_nil]
    have hs : flOrthoStart roundLan .lanczos roundArn0 = (some Complex.I, fun _ => 0) := by
      unfold flOrthoStart
      simp [roundLan, roundArn0]
    rw [hs]
    unfold flOrthoStep
    simp only [Function.update_self, hip]
    simp [roundLan, roundArn]
  unfold roundArn0 at hfold ⊢
  unfold flArnAdvance
  simp only [hfold]
  simp [roundLan, roundArn, roundLan1]
  funext i j
  by_cases hj : j = 0 <;> by_cases hi : i = 1 <;> simp [hi, hj]

theorem roundLan_advance2 : flArnAdvance roundLan .lanczos 2 roundLan1 = .ok roundLan2 := by
  have hip : roundLan.ip (some Complex.I) (some (-(1 / 100 : ℝ) : ℂ)) = 0 := by
    simp [roundLan, roundArn, Complex.inner]
  have hfold : (flOrthoList .lanczos 1).foldl (flOrthoStep roundLan .lanczos roundLan1.V roundLan1.P)
      (flOrthoStart roundLan .lanczos roundLan1) = (some (-(1 / 100 : ℝ) : ℂ), Function.update (fun _ => (0 : ℝ)) 0 1) := by
    have hl : flOrthoList .lanczos 1 = [1] := by decide
    rw [hl, List.foldl_cons, List.foldl_nil]
    have hs : flOrthoStart roundLan .lanczos roundLan1 = (some (-(1 / 100 : ℝ) : ℂ), Function.update (fun _ => (0 : ℝ)) 0 1) := by
      unfold flOrthoStart
      simp [roundLan, roundArn, roundLan1]
      norm_num
    rw [hs]
    unfold flOrthoStep
    have hV : roundLan1.V 1 = some Complex.I := by simp [roundLan1]
    simp only [hV, hip]
    simp [roundLan, roundArn, roundLan1]
  have h1 : roundLan1.iter = 1 := rfl
  unfold flArnAdvance
  rw [h1]
  simp only [hfold]
  simp [roundLan, roundArn, roundLan1, roundLan2]
  funext i j
  by_cases hj : j = 1
  · subst hj
    by_cases hi : i = 2
    · subst hi; simp
    · by_cases hi0 : i = 0 <;> simp [hi, hi0]
  · simp [hj]

theorem roundLan2_fin : FlArnFin (fun x => x.isSome = true) (fun _ : ℝ => True) (fun _ : ℝ => True) roundLan2 := by
  refine ⟨trivial, ?_, fun _ _ _ _ => trivial⟩
  intro j hj
  have : j = 0 ∨ j = 1 ∨ j = 2 := by simp [roundLan2] at hj; omega
  rcases this with rfl | rfl | rfl <;> simp [roundLan2, roundLan1]

/-- The hypotheses of `C79_lanczos` hold in this arithmetic. -/
example : flArnoldi roundLan .lanczos 2 (some 1) none none = .ok roundLan2 ∧ FlArnFin (fun x => x.isSome = true) (fun _ : ℝ => True) (fun _ : ℝ => True) roundLan2 ∧
    roundLan2.iter = 2 ∧ roundLan2.invariant = false := by
  have hinit : flArnInit roundLan (some 1) none none = .ok roundArn0 := by
    unfold flArnInit flStartV flStartNorm roundArn0 roundLan
    simp [roundArn]
  refine ⟨?_, roundLan2_fin, rfl, rfl⟩
  unfold flArnoldi
  rw [hinit]
  dsimp only
  unfold flArnLoop
  rw [if_pos ⟨by decide, rfl⟩]
  dsimp only
  rw [roundLan_advance1]
  dsimp only
  unfold flArnLoop
  rw [if_pos ⟨by decide, rfl⟩]
  dsimp only
  rw [roundLan_advance2]
  dsimp only
  unfold flArnLoop
  rw [if_neg (by decide)]

/-- The hypotheses of `C82_solution` hold in this arithmetic for a call with two iterations (the third Lanczos vector is the negative of the first). -/
example : ∃ st x, (flMinres (⟨0, 2, false, 1, fun x => .ok ‖1 - Complex.I * conj (x.getD 0)‖, none⟩ : Cfg ℝ (Option ℂ)) roundMinres .lanczos .ok (some 0) (some 1) (some 1) 1 =
      .returned st ∨ flMinres (⟨0, 2, false, 1, fun x => .ok ‖1 - Complex.I * conj (x.getD 0)‖, none⟩ : Cfg ℝ (Option ℂ)) roundMinres .lanczos .ok (some 0) (some 1) (some 1) 1 =
      .convergence st) ∧ FlArnFin (fun x => x.isSome = true) (fun _ => True) (fun _ => True) st.s.arn ∧ st.s.arn.iter = 2 ∧
      st.xk = some x ∧ x.isSome = true ∧ (1 + (1 / 100 : ℝ)) ^ 2 ≤ 2 * (1 - 0) ^ 2 ∧ st.s.arn.V 0 = some 1 ∧ st.s.arn.V 2 = some (-1) := by
  have hinit : flArnInit roundMinres.toFlArnOps (some 1) (some (some 1)) (some 1) = .ok roundArn0 := by
    unfold flArnInit flStartV flStartNorm roundArn0 roundMinres roundLan
    simp [roundArn]
  obtain ⟨s1, hstep1, ha1, hG1, hG2, hW0, hW1, hy, hyk, hx0⟩ : ∃ s1, flMinresStep roundMinres .lanczos 2 (flMinresInit roundMinres roundArn0 1 (some 0)) = .ok (s1, 1) ∧
      s1.arn = roundLan1 ∧ s1.G1 = none ∧ s1.G2 = some ((0, 1), 1) ∧ s1.W0 = some 0 ∧ s1.W1 = some 1 ∧ s1.y = -1 ∧ s1.yk = some 0 ∧ s1.x0 = some 0 := by
    have hadv : flArnAdvance roundMinres.toFlArnOps .lanczos 2 (flMinresInit roundMinres roundArn0 1 (some 0)).arn = .ok roundLan1 := roundLan_advance1
    have hg : flMinresRot roundMinres 2 0 none none roundLan1.H = ((0, 1), 1) := by
      simp [flMinresRot, flMinresMid, flMinresTop, flOptApply, roundMinres, roundLan1, roundGmres]
    have hR : flMinresR roundMinres 2 0 none none roundLan1.H = (0, 0, 1) := by
      unfold flMinresR
      rw [hg]
      simp [flMinresMid, flMinresTop, flOptApply, roundMinres, roundLan1]
    have hz : flMinresZ roundMinres (0, 0, 1) (roundLan1.V 0) (0 : Option ℂ) (0 : Option ℂ) = some 1 := by
      have h0 : (0 : Option ℂ) = some 0 := rfl
      rw [h0]
      simp [flMinresZ, roundMinres, roundLan, roundArn, roundLan1]
    have h00 : (flMinresInit roundMinres roundArn0 1 (some 0)).arn.iter = 0 := rfl
    have h01 : (flMinresInit roundMinres roundArn0 1 (some 0)).G1 = none := rfl
    have h02 : (flMinresInit roundMinres roundArn0 1 (some 0)).G2 = none := rfl
    have h03 : (flMinresInit roundMinres roundArn0 1 (some 0)).W0 = 0 := rfl
    have h04 : (flMinresInit roundMinres roundArn0 1 (some 0)).W1 = 0 := rfl
    have h05 : (flMinresInit roundMinres roundArn0 1 (some 0)).y = 1 := rfl
    have h06 : (flMinresInit roundMinres roundArn0 1 (some 0)).yk = some 0 := rfl
    have hy : roundMinres.apply ((0, 1), 1) (1, roundMinres.zeroF) = (0, -1) := by simp [roundMinres]
    have habs : roundMinres.absF (-1) = 1 := by simp [roundMinres]
    unfold flMinresStep
    dsimp only
    rw [hadv]
    dsimp only
    rw [h00, h01, h02, h03, h04, h05, h06, hR, hg, hz, hy, habs]
    refine ⟨_, rfl, rfl, rfl, rfl, rfl, rfl, rfl, ?_, rfl⟩
    simp [roundMinres, roundArn]
  obtain ⟨s2, r2, hstep2, ha2, hyk2, hx2⟩ : ∃ s2 r2, flMinresStep roundMinres .lanczos 2 s1 = .ok (s2, r2) ∧ s2.arn = roundLan2 ∧ s2.yk.isSome = true ∧ s2.x0 = some 0 := by
    have hadv : flArnAdvance roundMinres.toFlArnOps .lanczos 2 s1.arn = .ok roundLan2 := by rw [ha1]; exact roundLan_advance2
    unfold flMinresStep
    dsimp only
    rw [hadv]
    dsimp only
    refine ⟨_, _, rfl, rfl, ?_, hx0⟩
    have hr : (flMinresR roundMinres 2 s1.arn.iter s1.G1 s1.G2 roundLan2.H).2.2 ≠ 0 := by
      rw [ha1, hG1, hG2]
      have h1 : roundLan1.iter = 1 := rfl
      rw [h1]
      simp only [flMinresR, flMinresRot, flMinresMid, flMinresTop, flOptApply, roundMinres, roundLan2]
      refine (Real.sqrt_pos.mpr ?_).ne'
      norm_num
    have hV : roundLan2.V s1.arn.iter = some Complex.I := by
      rw [ha1]
      simp [roundLan1, roundLan2]
    have hz : (flMinresZ roundMinres (flMinresR roundMinres 2 s1.arn.iter s1.G1 s1.G2 roundLan2.H) (roundLan2.V s1.arn.iter) s1.W0 s1.W1).isSome = true := by
      unfold flMinresZ
      rw [hW0, hW1, hV]
      simp [roundMinres, roundLan, roundArn] at hr ⊢
      simp [hr]
    rw [hyk]
    obtain ⟨z, hz⟩ := Option.isSome_iff_exists.mp hz
    rw [hz]
    simp [roundMinres, roundArn]
  have h1 : s1.arn.iter = 1 := by rw [ha1]; rfl
  have h2 : s2.arn.iter = 2 := by rw [ha2]; rfl
  obtain ⟨st, hst, hs, hx⟩ := flMinres_two (rn := fun x => ‖1 - Complex.I * conj (x.getD 0)‖) hinit rfl rfl hstep1 one_pos h1 (by rw [ha1]; rfl) hstep2 h2
  refine ⟨st, _, hst, by rw [hs, ha2]; exact roundLan2_fin, by rw [hs, h2], hx, ?_, by norm_num, by rw [hs, ha2]; simp [roundLan2, roundLan1],
    by rw [hs, ha2]; simp [roundLan2]⟩
  obtain ⟨y, hy⟩ := Option.isSome_iff_exists.mp hyk2
  rw [hx2, hy]
  simp [roundMinres]

/-- Arrays of real numbers as in `doubleGmres` (scalings have the relative error `2⁻⁵³` in each entry), with exact rotations. -/
noncomputable def doubleMinres {N : ℕ} (A : Matrix (Fin N) (Fin N) ℝ) : FlMinresOps ℝ ℝ (Option (Fin N → ℝ)) ((ℝ × ℝ) × ℝ) where
  toFlArnOps := (doubleGmres A).toFlArnOps
  reF := id
  zeroF := 0
  rotg := roundMinres.rotg
  rval q := q.2
  apply := roundMinres.apply
  absF a := |a|
  rscale c x := x.map fun a => ((1 + 2⁻¹ ^ 53) * c) • a
  Mr := id
  add x y := x.bind fun a => y.map fun b => a + b

/-- The zero array. -/
@[reducible] def zeroOptPi (N : ℕ) : Zero (Option (Fin N → ℝ)) := ⟨some 0⟩

attribute [local instance] zeroOptPi

/-- The assumption of `C82_componentwise` holds in this arithmetic with the parameters of double precision. -/
example {N : ℕ} (A : Matrix (Fin N) (Fin N) ℝ) :
    FlMinresComp (𝕜 := ℝ) flDouble (doubleMinres A) (fun x => x.getD 0) (fun x => x.isSome = true) id (fun _ => True) id (fun _ => True) (fun q => q.1) A where
  toFlArnComp := (doubleGmres_comp A).toFlArnComp
  apply {q a b} _ _ := by
    refine ⟨trivial, trivial, ?_, ?_⟩
    · have := FlDot.exact (𝕜 := ℝ) flDouble_nonneg ![q.1.1, q.1.2] ![a, b]
      simpa [doubleMinres, roundMinres, dotProduct, Fin.sum_univ_two] using this
    · have := FlDot.exact (𝕜 := ℝ) flDouble_nonneg ![-q.1.2, q.1.1] ![a, b]
      simpa [doubleMinres, roundMinres, dotProduct, Fin.sum_univ_two] using this
  rval {a b} _ := by
    refine ⟨trivial, trivial, ?_⟩
    have h1 := (roundMinres_rot.rval (a := a) (b := b) trivial).2.2
    have h2 : nearRot 0 (roundMinres.rotg a b).1 = (roundMinres.rotg a b).1 := nearRot_exact (roundGmres_unit a b)
    rw [zero_mul] at h1
    have h3 := abs_eq_zero.mp (le_antisymm ((Real.abs_le_sqrt (le_add_of_nonneg_right (sq_nonneg _))).trans h1) (abs_nonneg _))
    rw [h2] at h3
    simp only [id] at h3
    have := FlDot.exact (𝕜 := ℝ) flDouble_nonneg ![(roundMinres.rotg a b).1.1, (roundMinres.rotg a b).1.2] ![a, b]
    simp only [dotProduct, Fin.sum_univ_two, Matrix.cons_val_zero, Matrix.cons_val_one] at this
    rw [← show roundMinres.rval (roundMinres.rotg a b) = _ from sub_eq_zero.mp h3] at this
    exact this
  rotg {a b} _ := by
    refine ⟨(roundGmres.rotg a b).1, (roundGmres.rotg a b).2, ⟨roundGmres_unit a b, ?_⟩, ?_, ?_⟩
    · have := roundGmres_rotation.rotg (a := a) (b := b) trivial trivial
      rw [zero_mul, nearRot_exact (roundGmres_unit a b)] at this
      exact norm_le_zero_iff.mp this
    · have : ((doubleMinres A).rotg a b).1 = roundGmres.rotg a b := rfl
      rw [this, sub_self, abs_zero]
      exact mul_nonneg flDouble_nonneg.w (abs_nonneg _)
    · have : ((doubleMinres A).rotg a b).1 = roundGmres.rotg a b := rfl
      rw [this, sub_self, abs_zero]
      exact mul_nonneg flDouble_nonneg.w (abs_nonneg _)
  rscale {c x} h := (doubleGmres_comp A).scale h
  add {x y} h := by
    cases x <;> cases y <;> simp [doubleMinres] at h ⊢
    exact fun i => mul_nonneg flDouble_nonneg.u (abs_nonneg _)
  zeroV := rfl
  reF _ := by simp [doubleMinres]
  zeroF := rfl

end Krypy
