import Verif.Model.FlMinres
import Verif.Proofs.MinresErr
import Verif.Props.FlGmres

/-!
# Property C82: `Minres` with rounding errors

`flMinres` is the loop of `Minres` over arbitrary operations; with exact operations it is the exact model (`C82_refines`).  In any arithmetic the
guarantees of the driver hold (`C82_honest`, `C82_converged`).  If the operations have small errors, then the true residual of the computed approximation is
bounded by the residual norm which `Minres` updates and by the local errors, which the three-term recurrence for the vectors `z` may amplify (`C82_residual`, `C82_solution`).
-/

set_option linter.unusedSectionVars false

namespace Krypy
open MinresErr

/-! ## Any arithmetic -/

section
variable {F K X Q : Type*} [LE F] [LT F] [DecidableLE F] [DecidableLT F] [Div F] [Zero F] [BEq F] [Zero X]

theorem flMinresStep_ok {o : FlMinresOps F K X Q} {ortho : Ortho} {n : ℕ} {s s' : FlMinresSt F K X Q} {r : F} (h : flMinresStep o ortho n s = .ok (s', r)) :
    flArnAdvance o.toFlArnOps ortho n s.arn = .ok s'.arn ∧ s'.x0 = s.x0 ∧ r = o.absF s'.y := by
  unfold flMinresStep at h
  dsimp only at h
  split at h
  · cases h
  next a ha =>
  simp only [Except.ok.injEq, Prod.mk.injEq] at h
  obtain ⟨rfl, rfl⟩ := h
  exact ⟨ha, rfl, rfl⟩

theorem flMinresMethod_lawful (o : FlMinresOps F K X Q) (ortho : Ortho) (post : X → Except Err X) (n : ℕ) :
    LawfulMethod (flMinresMethod o ortho post n) n :=
  ⟨fun h => (flArnAdvance_iter (flMinresStep_ok h).1).1, fun _ _ => rfl, fun _ _ => rfl, fun h => by
    simp only [flMinresMethod, Bool.and_eq_true, decide_eq_true_eq] at h
    exact h.1⟩

/-- C82: in any arithmetic a call of `Minres` ends after at most `maxiter` iterations, records one residual norm per iteration, raises
`ConvergenceError` only with an approximation whose evaluated residual norm is above `tol`, and does not report convergence without such an evaluation
(or the Krylov subspace was flagged as invariant). -/
theorem C82_honest (cfg : Cfg F X) (o : FlMinresOps F K X Q) (ortho : Ortho) (post : X → Except Err X) (x0 MMlr0 Mlr0 : X) (r0 : F) :
    (∃ e, flArnInit o.toFlArnOps Mlr0 (some MMlr0) (some r0) = .error e ∧ flMinres cfg o ortho post x0 MMlr0 Mlr0 r0 = .raised e) ∨
    HonestCall cfg (fun s => s.arn.iter) (fun s => s.arn.invariant) (flMinres cfg o ortho post x0 MMlr0 Mlr0 r0) := by
  unfold flMinres
  cases h : flArnInit o.toFlArnOps Mlr0 (some MMlr0) (some r0) with
  | error e => exact .inl ⟨e, rfl, rfl⟩
  | ok a => exact .inr (HonestCall.of_run (m := flMinresMethod o ortho post cfg.maxiter) (inv := fun s => s.arn.invariant)
      (flMinresMethod_lawful o ortho post _) (fun s => rfl) _ _ _ _ fun _ => flArnInit_iter h)

/-- Properties of the state which the initialisation and the steps guarantee hold in the end. -/
theorem flMinres_induct {cfg : Cfg F X} {o : FlMinresOps F K X Q} {ortho : Ortho} {post : X → Except Err X} {x0 MMlr0 Mlr0 : X} {r0 : F}
    (P : FlMinresSt F K X Q → Prop)
    (hinit : ∀ arn, flArnInit o.toFlArnOps Mlr0 (some MMlr0) (some r0) = .ok arn → P (flMinresInit o arn r0 (if cfg.MMlbNorm == 0 then 0 else x0)))
    (hst : ∀ s s' r, P s → flMinresStep o ortho cfg.maxiter s = .ok (s', r) → P s') {st : St F X (FlMinresSt F K X Q)}
    (h : flMinres cfg o ortho post x0 MMlr0 Mlr0 r0 = .returned st ∨ flMinres cfg o ortho post x0 MMlr0 Mlr0 r0 = .convergence st) : P st.s := by
  unfold flMinres at h
  cases ha : flArnInit o.toFlArnOps Mlr0 (some MMlr0) (some r0) with
  | error e =>
    rw [ha] at h
    rcases h with h | h <;> cases h
  | ok arn =>
    rw [ha] at h
    unfold run at h
    dsimp only at h
    split at h
    · rcases h with h | h <;> cases h
    next errnorms he =>
    have hinv := loop_invariant (cfg := cfg) (m := flMinresMethod o ortho post cfg.maxiter) (fun st => P st.s)
      (fun st st' h0 _ hb => by
        obtain ⟨s', r, rkn, h1, h2, -⟩ := body_ok hb
        rw [h2]
        exact hst _ _ _ h0 h1) cfg.maxiter
      { s := flMinresInit o arn r0 (if cfg.MMlbNorm == 0 then 0 else x0), iter := 0, xk := if cfg.MMlbNorm == 0 then some 0 else none,
        resnorms := if cfg.MMlbNorm == 0 then [0] else [r0 / cfg.MMlbNorm], errnorms := errnorms, warnings := 0 }
      (show P (flMinresInit o arn r0 (if cfg.MMlbNorm == 0 then 0 else x0)) from hinit arn ha)
    rcases h with h | h
    · obtain ⟨st1, h1, -, h2⟩ := hinv.1 st h
      obtain ⟨e, -⟩ := finish_returned h2
      rw [e]
      exact h1
    · obtain ⟨st1, h1, -, h2⟩ := hinv.2 st h
      obtain ⟨s', r, x, v, e1, e2, -⟩ := body_convergence h2
      rw [e2]
      exact hst _ _ _ h1 e1

theorem shift1_congr {α : Type*} {z : α} {f f' : ℕ → α} {k : ℕ} (h : ∀ i < k, f i = f' i) : shift1 z f k = shift1 z f' k := by
  rcases k with _ | k
  · rfl
  · exact h k (by omega)

theorem shift2_congr {α : Type*} {z : α} {f f' : ℕ → α} {k : ℕ} (h : ∀ i < k, f i = f' i) : shift2 z f k = shift2 z f' k := by
  rcases k with _ | _ | k
  · rfl
  · rfl
  · exact h k (by omega)

/-- The sum `y_0 z_0 + ... + y_{n-1} z_{n-1}` as `Minres` computes it (linsys.py 845). -/
def flMinresSum (o : FlMinresOps F K X Q) (ys : ℕ → F) (zs : ℕ → X) : ℕ → X
  | 0 => 0
  | n + 1 => o.add (flMinresSum o ys zs n) (o.rscale (ys n) (zs n))

theorem flMinresSum_congr {o : FlMinresOps F K X Q} {ys ys' : ℕ → F} {zs zs' : ℕ → X} {n : ℕ} (h1 : ∀ i < n, ys i = ys' i) (h2 : ∀ i < n, zs i = zs' i) :
    flMinresSum o ys zs n = flMinresSum o ys' zs' n := by
  induction n with
  | zero => rfl
  | succ n ih => rw [flMinresSum, flMinresSum, ih (fun i hi => h1 i (by omega)) (fun i hi => h2 i (by omega)), h1 n (by omega), h2 n (by omega)]

/-- What the records contain. -/
structure FlMinresTrace (o : FlMinresOps F K X Q) (maxiter : ℕ) (r0 : F) (s : FlMinresSt F K X Q) : Prop where
  G2 : s.G2 = shift1 none s.Gs s.arn.iter
  G1 : s.G1 = shift2 none s.Gs s.arn.iter
  W1 : s.W1 = shift1 0 s.zs s.arn.iter
  W0 : s.W0 = shift2 0 s.zs s.arn.iter
  start : s.es 0 = r0
  y : s.y = s.es s.arn.iter
  yk : s.yk = flMinresSum o s.ys s.zs s.arn.iter
  Gs : ∀ j < s.arn.iter, s.Gs j = some (flMinresRot o maxiter j (shift2 none s.Gs j) (shift1 none s.Gs j) s.arn.H)
  Rs : ∀ j < s.arn.iter, s.Rs j = flMinresR o maxiter j (shift2 none s.Gs j) (shift1 none s.Gs j) s.arn.H
  zs : ∀ j < s.arn.iter, s.zs j = flMinresZ o (s.Rs j) (s.arn.V j) (shift2 0 s.zs j) (shift1 0 s.zs j)
  ys : ∀ j < s.arn.iter, ∀ g, s.Gs j = some g → o.apply g (s.es j, o.zeroF) = (s.ys j, s.es (j + 1))
  vnorm : s.arn.vnorm = r0

theorem flArnAdvance_V {o : FlArnOps F K X} {ortho : Ortho} {maxiter : ℕ} {s s' : FlArn F K X} (h : flArnAdvance o ortho maxiter s = .ok s') {j : ℕ}
    (hj : j ≤ s.iter) : s'.V j = s.V j ∧ s'.P j = s.P j := by
  obtain ⟨-, -, -, w, hh, r, -, -, -, h3⟩ := flArnAdvance_cases h
  rcases h3 with ⟨-, h1, h2⟩ | ⟨-, h1, h2⟩
  · rw [h1, h2]; exact ⟨rfl, rfl⟩
  · rw [h1, h2, Function.update_of_ne (by omega), Function.update_of_ne (by omega)]
    exact ⟨rfl, rfl⟩

theorem flMinresTop_congr (o : FlMinresOps F K X Q) {maxiter k : ℕ} {G1 G1' : Option Q} {H H' : ℕ → ℕ → K} (h1 : G1 = G1') (h : ∀ i, H i k = H' i k) :
    flMinresTop o maxiter k G1 H = flMinresTop o maxiter k G1' H' := by
  unfold flMinresTop
  rw [h1, h]

theorem flMinresMid_congr (o : FlMinresOps F K X Q) {maxiter k : ℕ} {G1 G1' G2 G2' : Option Q} {H H' : ℕ → ℕ → K} (h1 : G1 = G1') (h2 : G2 = G2')
    (h : ∀ i, H i k = H' i k) : flMinresMid o maxiter k G1 G2 H = flMinresMid o maxiter k G1' G2' H' := by
  unfold flMinresMid
  rw [flMinresTop_congr o h1 h, h2, h]

theorem flMinresRot_congr (o : FlMinresOps F K X Q) {maxiter k : ℕ} {G1 G1' G2 G2' : Option Q} {H H' : ℕ → ℕ → K} (h1 : G1 = G1') (h2 : G2 = G2')
    (h : ∀ i, H i k = H' i k) : flMinresRot o maxiter k G1 G2 H = flMinresRot o maxiter k G1' G2' H' := by
  unfold flMinresRot
  rw [flMinresMid_congr o h1 h2 h, h]

theorem flMinresR_congr (o : FlMinresOps F K X Q) {maxiter k : ℕ} {G1 G1' G2 G2' : Option Q} {H H' : ℕ → ℕ → K} (h1 : G1 = G1') (h2 : G2 = G2')
    (h : ∀ i, H i k = H' i k) : flMinresR o maxiter k G1 G2 H = flMinresR o maxiter k G1' G2' H' := by
  unfold flMinresR
  rw [flMinresTop_congr o h1 h, flMinresMid_congr o h1 h2 h, flMinresRot_congr o h1 h2 h]

theorem FlMinresTrace.step {o : FlMinresOps F K X Q} {r0 : F} {ortho : Ortho} {n : ℕ} {s s' : FlMinresSt F K X Q} {r : F} (hs : FlMinresTrace o n r0 s)
    (h : flMinresStep o ortho n s = .ok (s', r)) : FlMinresTrace o n r0 s' := by
  obtain ⟨ha, -, -⟩ := flMinresStep_ok h
  obtain ⟨hi, hvn, hH⟩ := flArnAdvance_iter ha
  unfold flMinresStep at h
  dsimp only at h
  split at h
  · cases h
  next a ha' =>
  simp only [Except.ok.injEq, Prod.mk.injEq] at h
  obtain ⟨rfl, rfl⟩ := h
  dsimp only at ha hi hvn hH
  set k := s.arn.iter with hk
  set g := flMinresRot o n k s.G1 s.G2 a.H with hg
  set R := flMinresR o n k s.G1 s.G2 a.H with hR
  set z := flMinresZ o R (a.V k) s.W0 s.W1 with hz
  set Gs' := Function.update s.Gs k (some g) with hGs'
  set zs' := Function.update s.zs k z with hzs'
  have eG : ∀ i < k, s.Gs i = Gs' i := fun i hi => by rw [hGs', Function.update_of_ne (by omega)]
  have eZ : ∀ i < k, s.zs i = zs' i := fun i hi => by rw [hzs', Function.update_of_ne (by omega)]
  have g1 : ∀ j ≤ k, shift1 none s.Gs j = shift1 none Gs' j := fun j hj => shift1_congr fun i hi => eG i (by omega)
  have g2 : ∀ j ≤ k, shift2 none s.Gs j = shift2 none Gs' j := fun j hj => shift2_congr fun i hi => eG i (by omega)
  have z1 : ∀ j ≤ k, shift1 0 s.zs j = shift1 0 zs' j := fun j hj => shift1_congr fun i hi => eZ i (by omega)
  have z2 : ∀ j ≤ k, shift2 0 s.zs j = shift2 0 zs' j := fun j hj => shift2_congr fun i hi => eZ i (by omega)
  have hcol : ∀ j < k, ∀ i, s.arn.H i j = a.H i j := fun j hj i => (hH j (by omega) i).symm
  refine ⟨?_, ?_, ?_, ?_, ?_, ?_, ?_, fun j hj => ?_, fun j hj => ?_, fun j hj => ?_, fun j hj q hq => ?_, hvn.trans hs.vnorm⟩ <;> dsimp only at *
  · rw [hi]
    simp [shift1, hGs']
  · rw [hi]
    change s.G2 = shift1 none Gs' k
    rw [← g1 k le_rfl, hs.G2]
  · rw [hi]
    simp [shift1, hzs']
  · rw [hi]
    change s.W1 = shift1 0 zs' k
    rw [← z1 k le_rfl, hs.W1]
  · rw [Function.update_of_ne (by omega), hs.start]
  · rw [hi, Function.update_self]
  · rw [hi, flMinresSum, Function.update_self, hs.yk]
    have : zs' k = z := by rw [hzs', Function.update_self]
    rw [this]
    congr 1
    exact flMinresSum_congr (fun i hi => by rw [Function.update_of_ne (by omega)]) eZ
  · rw [hi] at hj
    by_cases hjk : j = k
    · subst hjk
      rw [hGs', Function.update_self, hg, ← hGs', hs.G1, hs.G2, g1 _ le_rfl, g2 _ le_rfl]
    · rw [← eG j (by omega), hs.Gs j (by omega), flMinresRot_congr o (g2 j (by omega)) (g1 j (by omega)) (hcol j (by omega))]
  · rw [hi] at hj
    by_cases hjk : j = k
    · subst hjk
      rw [Function.update_self, hR, hs.G1, hs.G2, g1 _ le_rfl, g2 _ le_rfl]
    · rw [Function.update_of_ne hjk, hs.Rs j (by omega), flMinresR_congr o (g2 j (by omega)) (g1 j (by omega)) (hcol j (by omega))]
  · rw [hi] at hj
    by_cases hjk : j = k
    · subst hjk
      have : zs' k = z := by rw [hzs', Function.update_self]
      rw [this, Function.update_self, hz, hs.W0, hs.W1, z1 _ le_rfl, z2 _ le_rfl]
    · rw [Function.update_of_ne hjk, ← eZ j (by omega), hs.zs j (by omega), z1 j (by omega), z2 j (by omega), (flArnAdvance_V ha' (j := j) (by omega)).1]
  · rw [hi] at hj
    by_cases hjk : j = k
    · subst hjk
      rw [hGs', Function.update_self] at hq
      obtain rfl := Option.some.inj hq
      rw [Function.update_self, Function.update_self, Function.update_of_ne (by omega), hs.y]
    · rw [Function.update_of_ne hjk, Function.update_of_ne (by omega), Function.update_of_ne (by omega)]
      exact hs.ys j (by omega) q (by rw [eG j (by omega)]; exact hq)

theorem FlMinresTrace.init {o : FlMinresOps F K X Q} {n : ℕ} {v : X} {Mv : Option X} {r0 : F} {arn : FlArn F K X}
    (h : flArnInit o.toFlArnOps v Mv (some r0) = .ok arn) (x0 : X) : FlMinresTrace o n r0 (flMinresInit o arn r0 x0) := by
  have h0 := flArnInit_iter h
  have hvn : arn.vnorm = r0 := by
    unfold flArnInit flStartNorm at h
    dsimp only at h
    split at h <;> · obtain rfl := Except.ok.inj h; rfl
  have hk : (flMinresInit o arn r0 x0).arn.iter = 0 := h0
  refine ⟨?_, ?_, ?_, ?_, rfl, ?_, ?_, fun j hj => ?_, fun j hj => ?_, fun j hj => ?_, fun j hj => ?_, hvn⟩ <;> rw [hk] at *
  · rfl
  · rfl
  · rfl
  · rfl
  · rfl
  · rfl
  all_goals omega

/-- C82: the records of every call. -/
theorem C82_trace {cfg : Cfg F X} {o : FlMinresOps F K X Q} {ortho : Ortho} {post : X → Except Err X} {x0 MMlr0 Mlr0 : X} {r0 : F}
    {st : St F X (FlMinresSt F K X Q)}
    (h : flMinres cfg o ortho post x0 MMlr0 Mlr0 r0 = .returned st ∨ flMinres cfg o ortho post x0 MMlr0 Mlr0 r0 = .convergence st) :
    FlMinresTrace o cfg.maxiter r0 st.s ∧ st.s.x0 = if cfg.MMlbNorm == 0 then 0 else x0 :=
  flMinres_induct (fun s => FlMinresTrace o cfg.maxiter r0 s ∧ s.x0 = if cfg.MMlbNorm == 0 then 0 else x0) (fun _ ha => ⟨FlMinresTrace.init ha _, rfl⟩)
    (fun _ _ _ hs h1 => ⟨hs.1.step h1, (flMinresStep_ok h1).2.1.trans hs.2⟩) h

end

/-! ## Operations with errors -/

section
variable {E : Type*} [NormedAddCommGroup E]

/-- `x'` is `x` after `i` operations with relative errors of at most `u`; `S` bounds the sum of the norms of the terms of `x`. -/
def NearSum (u : ℝ) (i : ℕ) (x' x : E) (S : ℝ) : Prop := ‖x' - x‖ ≤ ((1 + u) ^ i - 1) * S ∧ ‖x‖ ≤ S

theorem NearSum.refl (u : ℝ) (x : E) : NearSum u 0 x x ‖x‖ := ⟨by simp, le_rfl⟩

theorem NearSum.nonneg {u : ℝ} {i : ℕ} {x' x : E} {S : ℝ} (h : NearSum u i x' x S) : 0 ≤ S := (norm_nonneg _).trans h.2

theorem NearSum.mono {u : ℝ} (hu : 0 ≤ u) {i j : ℕ} {x' x : E} {S : ℝ} (h : NearSum u i x' x S) (hij : i ≤ j) : NearSum u j x' x S :=
  ⟨h.1.trans (mul_le_mul_of_nonneg_right (by have := pow_le_pow_right₀ (by linarith : 1 ≤ 1 + u) hij; linarith) h.nonneg), h.2⟩

/-- One more operation. -/
theorem NearSum.next {u : ℝ} (hu : 0 ≤ u) {i : ℕ} {x' x z : E} {S : ℝ} (h : NearSum u i x' x S) (hz : ‖z - x'‖ ≤ u * ‖x'‖) : NearSum u (i + 1) z x S := by
  refine ⟨?_, h.2⟩
  have h1 : ‖x'‖ ≤ (1 + u) ^ i * S := by
    have := norm_add_le (x' - x) x
    rw [sub_add_cancel] at this
    linarith [h.1, h.2]
  have h2 : ‖z - x‖ ≤ ‖z - x'‖ + ‖x' - x‖ := by
    have := norm_add_le (z - x') (x' - x)
    rwa [sub_add_sub_cancel] at this
  have h3 := mul_le_mul_of_nonneg_left h1 hu
  rw [pow_succ]
  linarith [h.1]

theorem NearSum.add {u : ℝ} {i : ℕ} {x' x y' y : E} {S T : ℝ} (h1 : NearSum u i x' x S) (h2 : NearSum u i y' y T) : NearSum u i (x' + y') (x + y) (S + T) := by
  refine ⟨?_, (norm_add_le _ _).trans (add_le_add h1.2 h2.2)⟩
  rw [add_sub_add_comm]
  refine (norm_add_le _ _).trans ?_
  linarith [h1.1, h2.1]

theorem NearSum.sub {u : ℝ} {i : ℕ} {x' x y' y : E} {S T : ℝ} (h1 : NearSum u i x' x S) (h2 : NearSum u i y' y T) : NearSum u i (x' - y') (x - y) (S + T) := by
  refine ⟨?_, (norm_sub_le _ _).trans (add_le_add h1.2 h2.2)⟩
  rw [sub_sub_sub_comm]
  refine (norm_sub_le _ _).trans ?_
  linarith [h1.1, h2.1]

end

section
variable {𝕜 E : Type*} [RCLike 𝕜] [NormedAddCommGroup E] [InnerProductSpace 𝕜 E] {F K X Q : Type*}

/-- The operations of `Minres` on vectors and entries, with relative errors of at most `u`. -/
structure FlMinresVec [Zero X] (o : FlMinresOps F K X Q) (vec : X → E) (fin : X → Prop) (num : K → 𝕜) (finK : K → Prop) (val : F → ℝ) (finF : F → Prop) (u : ℝ) : Prop where
  rscale : ∀ {c x}, fin (o.rscale c x) → finF c ∧ fin x ∧ ‖vec (o.rscale c x) - (val c : 𝕜) • vec x‖ ≤ u * ‖(val c : 𝕜) • vec x‖
  add : ∀ {x y}, fin (o.add x y) → fin x ∧ fin y ∧ ‖vec (o.add x y) - (vec x + vec y)‖ ≤ u * ‖vec x + vec y‖
  zero : vec 0 = 0
  re : ∀ {a}, finK a → val (o.reF a) = RCLike.re (num a)
  zeroF : val o.zeroF = 0

/-- Rotations which `Minres` computes: constructed for a pair, and `r` is finite. -/
def FlGoodR (o : FlMinresOps F K X Q) (finF : F → Prop) (q : Q) : Prop := ∃ a b, q = o.rotg a b ∧ finF (o.rval q)

/-- Givens rotations of real pairs with errors: `cs q` is an exact rotation close to the object `q`; `apply` has a relative error of at most `g`, and so has the
statement that the rotation computed for a pair maps it to `(r, 0)`. -/
structure FlRotR (o : FlMinresOps F K X Q) (val : F → ℝ) (finF : F → Prop) (cs : Q → ℝ × ℝ) (g : ℝ) : Prop where
  unit : ∀ q, (cs q).1 ^ 2 + (cs q).2 ^ 2 = 1
  rval : ∀ {a b}, finF (o.rval (o.rotg a b)) → finF a ∧ finF b ∧
    pn (val (o.rval (o.rotg a b)) - ((cs (o.rotg a b)).1 * val a + (cs (o.rotg a b)).2 * val b)) (0 - (-(cs (o.rotg a b)).2 * val a + (cs (o.rotg a b)).1 * val b)) ≤
      g * pn (val a) (val b)
  apply : ∀ {q a b}, FlGoodR o finF q → finF (o.apply q (a, b)).1 → finF (o.apply q (a, b)).2 → finF a ∧ finF b ∧
    pn (val (o.apply q (a, b)).1 - ((cs q).1 * val a + (cs q).2 * val b)) (val (o.apply q (a, b)).2 - (-(cs q).2 * val a + (cs q).1 * val b)) ≤ g * pn (val a) (val b)

variable [Zero X] {o : FlMinresOps F K X Q} {vec : X → E} {fin : X → Prop} {num : K → 𝕜} {finK : K → Prop} {val : F → ℝ} {finF : F → Prop} {B : E →L[𝕜] E} {u e d g : ℝ}
  {cs : Q → ℝ × ℝ}

/-- What has to be finite: `R[2]` and `y[0]` of all iterations and the sum `yk`. -/
structure FlMinresFin (fin : X → Prop) (finF : F → Prop) (s : FlMinresSt F K X Q) : Prop where
  R : ∀ j < s.arn.iter, finF (s.Rs j).2.2
  e : ∀ j < s.arn.iter, finF (s.es (j + 1))
  yk : fin s.yk

/-- The numbers `R[0], R[1], R[2]` of iteration `k`. -/
def minresR (val : F → ℝ) (s : FlMinresSt F K X Q) (k : ℕ) : ℝ × ℝ × ℝ := (val (s.Rs k).1, val (s.Rs k).2.1, val (s.Rs k).2.2)

/-- Column `k` of the real part of the tridiagonal matrix, as `Minres` reads it (linsys.py 827, 832). -/
def minresTri (o : FlMinresOps F K X Q) (val : F → ℝ) (maxiter : ℕ) (s : FlMinresSt F K X Q) (k : ℕ) : ℝ × ℝ × ℝ :=
  (val (o.reF (s.arn.H (if k = 0 then maxiter else k - 1) k)), val (o.reF (s.arn.H k k)), val (o.reF (s.arn.H (k + 1) k)))

/-- The computed `z`. -/
theorem flMinresZ_err (hv : FlArnVec o.toFlArnOps vec fin num finK val finF B u e) (hw : FlMinresVec o vec fin num finK val finF u) (hu0 : 0 ≤ u) {R : F × F × F} {v W0 W1 : X}
    (h : fin (flMinresZ o R v W0 W1)) (hR : finF R.2.2) :
    finF R.1 ∧ finF R.2.1 ∧ val R.2.2 ≠ 0 ∧ ‖(val R.2.2 : 𝕜) • vec (flMinresZ o R v W0 W1) - (vec v - (val R.1 : 𝕜) • vec W0 - (val R.2.1 : 𝕜) • vec W1)‖ ≤
      ((1 + u) ^ 4 - 1) * (‖vec v‖ + |val R.1| * ‖vec W0‖ + |val R.2.1| * ‖vec W1‖) := by
  unfold flMinresZ at h ⊢
  obtain ⟨f1, hne, b1⟩ := hv.sdiv h hR
  obtain ⟨f2, f3, b2⟩ := hv.sub f1
  obtain ⟨-, f5, b3⟩ := hv.sub f2
  obtain ⟨g1, -, b4⟩ := hw.rscale f5
  obtain ⟨g2, -, b5⟩ := hw.rscale f3
  refine ⟨g1, g2, hne, ?_⟩
  have n1 := (NearSum.refl u ((val R.1 : 𝕜) • vec W0)).next hu0 b4
  have n2 := (NearSum.refl u ((val R.2.1 : 𝕜) • vec W1)).next hu0 b5
  have n3 := (((NearSum.refl u (vec v)).mono hu0 (Nat.zero_le 1)).sub n1).next hu0 b3
  have n4 := ((n3.sub (n2.mono hu0 (by omega))).next hu0 b2).next hu0 b1
  have := n4.1
  rwa [norm_smul, norm_smul, RCLike.norm_ofReal, RCLike.norm_ofReal] at this

/-- The computed sum. -/
theorem flMinresSum_err (hw : FlMinresVec o vec fin num finK val finF u) (hu0 : 0 ≤ u) {ys : ℕ → F} {zs : ℕ → X} (n : ℕ) (h : fin (flMinresSum o ys zs n)) :
    (∀ j < n, finF (ys j) ∧ fin (zs j)) ∧ NearSum u (n + 1) (vec (flMinresSum o ys zs n)) (∑ j ∈ Finset.range n, (val (ys j) : 𝕜) • vec (zs j))
      (∑ j ∈ Finset.range n, |val (ys j)| * ‖vec (zs j)‖) := by
  induction n with
  | zero => exact ⟨fun j hj => absurd hj (Nat.not_lt_zero _), by simp [NearSum, flMinresSum, hw.zero]⟩
  | succ n ih =>
    obtain ⟨f1, f2, b1⟩ := hw.add h
    obtain ⟨f3, f4, b2⟩ := hw.rscale f2
    obtain ⟨i1, i2⟩ := ih f1
    refine ⟨fun j hj => ?_, ?_⟩
    · rcases Nat.lt_succ_iff_lt_or_eq.mp hj with h | rfl
      · exact i1 j h
      · exact ⟨f3, f4⟩
    · have n1 := (NearSum.refl u ((val (ys n) : 𝕜) • vec (zs n))).next hu0 b2
      have n2 := (i2.add (n1.mono hu0 (by omega))).next hu0 b1
      rwa [norm_smul, RCLike.norm_ofReal, ← Finset.sum_range_succ fun j => (val (ys j) : 𝕜) • vec (zs j),
        ← Finset.sum_range_succ fun j => |val (ys j)| * ‖vec (zs j)‖] at n2

/-- The exact rotation close to rotation `j`. -/
def minresCs (cs : Q → ℝ × ℝ) (s : FlMinresSt F K X Q) (j : ℕ) : ℝ × ℝ := ((s.Gs j).map cs).getD (1, 0)

theorem minresCs_unit (hr : FlRotR o val finF cs g) (s : FlMinresSt F K X Q) (j : ℕ) : (minresCs cs s j).1 ^ 2 + (minresCs cs s j).2 ^ 2 = 1 := by
  unfold minresCs
  cases s.Gs j with
  | none => simp
  | some q => exact hr.unit q

theorem FlMinresTrace.good {maxiter : ℕ} {r0 : F} {s : FlMinresSt F K X Q} (ht : FlMinresTrace o maxiter r0 s) (hf : FlMinresFin fin finF s) {j : ℕ} (hj : j < s.arn.iter) :
    ∃ q, s.Gs j = some q ∧ FlGoodR o finF q ∧ q = flMinresRot o maxiter j (shift2 none s.Gs j) (shift1 none s.Gs j) s.arn.H := by
  refine ⟨_, ht.Gs j hj, ⟨_, _, rfl, ?_⟩, rfl⟩
  have := hf.R j hj
  rwa [ht.Rs j hj] at this

/-- The columns which `Minres` computes. -/
theorem minres_column (hw : FlMinresVec o vec fin num finK val finF u) (hr : FlRotR o val finF cs g) {maxiter : ℕ} {r0 : F} {s : FlMinresSt F K X Q}
    (ht : FlMinresTrace o maxiter r0 s) (hf : FlMinresFin fin finF s) {k : ℕ} (hk : k < s.arn.iter) (h0 : finF (s.Rs k).1) (h1 : finF (s.Rs k).2.1) :
    Column (fun j => (minresCs cs s j).1) (fun j => (minresCs cs s j).2) g k (minresTri o val maxiter s k).1 (minresTri o val maxiter s k).2.1 (minresTri o val maxiter s k).2.2
      (minresR val s k).1 (minresR val s k).2.1 (minresR val s k).2.2 := by
  have h2 := hf.R k hk
  obtain ⟨q, hq, -, hqe⟩ := ht.good hf hk
  have hcs : ∀ j q, s.Gs j = some q → minresCs cs s j = cs q := fun j q h => by simp [minresCs, h]
  unfold minresTri minresR
  rw [ht.Rs k hk] at h0 h1 h2 ⊢
  dsimp only [flMinresR] at h0 h1 h2 ⊢
  set H := s.arn.H
  obtain ⟨f1, -, b1⟩ := hr.rval (a := (flMinresMid o maxiter k (shift2 none s.Gs k) (shift1 none s.Gs k) H).2) (b := o.reF (H (k + 1) k)) h2
  have hmid : ∀ j, k = j + 1 → ∃ q, shift1 none s.Gs k = some q ∧ FlGoodR o finF q ∧ minresCs cs s j = cs q := by
    rintro j rfl
    obtain ⟨q, a1, a2, -⟩ := ht.good hf (j := j) (by omega)
    exact ⟨q, a1, a2, hcs j q a1⟩
  have htop : ∀ j, k = j + 2 → ∃ q, shift2 none s.Gs k = some q ∧ FlGoodR o finF q ∧ minresCs cs s j = cs q := by
    rintro j rfl
    obtain ⟨q, a1, a2, -⟩ := ht.good hf (j := j) (by omega)
    exact ⟨q, a1, a2, hcs j q a1⟩
  have hm : ∀ j, k = j + 1 → finF (flMinresTop o maxiter k (shift2 none s.Gs k) H).2 ∧
      pn (val (flMinresMid o maxiter k (shift2 none s.Gs k) (shift1 none s.Gs k) H).1 -
          ((minresCs cs s j).1 * val (flMinresTop o maxiter k (shift2 none s.Gs k) H).2 + (minresCs cs s j).2 * val (o.reF (H k k))))
        (val (flMinresMid o maxiter k (shift2 none s.Gs k) (shift1 none s.Gs k) H).2 -
          (-(minresCs cs s j).2 * val (flMinresTop o maxiter k (shift2 none s.Gs k) H).2 + (minresCs cs s j).1 * val (o.reF (H k k)))) ≤
        g * pn (val (flMinresTop o maxiter k (shift2 none s.Gs k) H).2) (val (o.reF (H k k))) := by
    intro j hj
    obtain ⟨q, a1, a2, a3⟩ := hmid j hj
    unfold flMinresMid at f1 h1 ⊢
    rw [a1] at f1 h1 ⊢
    rw [a3]
    obtain ⟨c1, -, c3⟩ := hr.apply a2 h1 f1
    exact ⟨c1, c3⟩
  refine ⟨val (flMinresTop o maxiter k (shift2 none s.Gs k) H).2, val (flMinresMid o maxiter k (shift2 none s.Gs k) (shift1 none s.Gs k) H).2,
    fun j hj => ?_, fun hj => ?_, fun j hj => (hm j hj).2, fun hj => ?_, ?_⟩
  · obtain ⟨q, a1, a2, a3⟩ := htop j hj
    have f2 := (hm (j + 1) hj).1
    unfold flMinresTop at f2 h0 ⊢
    rw [a1] at f2 h0 ⊢
    rw [a3]
    have c := (hr.apply a2 h0 f2).2.2
    rw [hw.zeroF] at c
    exact c
  · subst hj
    rfl
  · subst hj
    rfl
  · have : minresCs cs s k = cs (o.rotg (flMinresMid o maxiter k (shift2 none s.Gs k) (shift1 none s.Gs k) H).2 (o.reF (H (k + 1) k))) := by
      rw [hcs k q hq, hqe]
      rfl
    rw [this]
    exact b1

/-- Bound for the local error of iteration `k`: the error `δ k` of the Lanczos relation, of the three rotations and of the computation of `z`. -/
noncomputable def minresLoc (o : FlMinresOps F K X Q) (vec : X → E) (val : F → ℝ) (u g nB : ℝ) (maxiter : ℕ) (s : FlMinresSt F K X Q) (P : ℕ → E) (δ : ℕ → ℝ) (k : ℕ) : ℝ :=
  δ k + 3 * g * (1 + g) ^ 2 * colSize k (minresTri o val maxiter s k).1 (minresTri o val maxiter s k).2.1 (minresTri o val maxiter s k).2.2 * basisNorm P (k + 1) +
    nB * (((1 + u) ^ 4 - 1) * (‖vec (s.arn.V k)‖ + |(minresR val s k).1| * ‖vec (shift2 0 s.zs k)‖ + |(minresR val s k).2.1| * ‖vec (shift1 0 s.zs k)‖))

/-- What rounding errors add to the residual norm which `Minres` updates.  The three-term recurrence with the coefficients `R` amplifies the local errors (`grow`). -/
noncomputable def minresGap (o : FlMinresOps F K X Q) (vec : X → E) (val : F → ℝ) (u g nB : ℝ) (maxiter : ℕ) (s : FlMinresSt F K X Q) (P : ℕ → E) (δ : ℕ → ℝ) (n : ℕ) : ℝ :=
  ((1 + g) ^ n - 1) * |val (s.es 0)| * basisNorm P n +
    ∑ k ∈ Finset.range n, |val (s.ys k)| * (grow (minresR val s) (minresLoc o vec val u g nB maxiter s P δ) (k + 2) + ((1 + u) ^ (n + 1) - 1) * nB * ‖vec (s.zs k)‖)

/-- C82: `Minres` with errors.  Let `P` be a basis in which the columns of the tridiagonal matrix represent the images of the Lanczos vectors up to errors of at most `δ`
(whatever the orthogonalisation and the preconditioner).  After `n` iterations the norm of the true residual of `yk` is at most the residual norm which `Minres`
updates, times `√(Σ‖P_j‖²)`, plus errors proportional to the rounding errors.  Orthogonality of the basis is not needed. -/
theorem C82_residual (hv : FlArnVec o.toFlArnOps vec fin num finK val finF B u e) (hw : FlMinresVec o vec fin num finK val finF u) (hr : FlRotR o val finF cs g) (hu0 : 0 ≤ u)
    (hg : 0 ≤ g) {maxiter : ℕ} {r0 : F} {s : FlMinresSt F K X Q} (ht : FlMinresTrace o maxiter r0 s) (hf : FlMinresFin fin finF s) {n : ℕ} (hn : s.arn.iter = n) {P : ℕ → E}
    {δ : ℕ → ℝ} (hδ : ∀ k < n, ‖B (vec (s.arn.V k)) - tri 𝕜 P k (minresTri o val maxiter s k).1 (minresTri o val maxiter s k).2.1 (minresTri o val maxiter s k).2.2‖ ≤ δ k) (v : E) :
    ‖v - B (vec s.yk)‖ ≤ |val s.y| * basisNorm P n + minresGap o vec val u g ‖B‖ maxiter s P δ n + ‖v - (val r0 : 𝕜) • P 0‖ := by
  have hfy := hf.yk
  rw [ht.yk, hn] at hfy
  obtain ⟨hfin, hsum, -⟩ := flMinresSum_err (𝕜 := 𝕜) hw hu0 n hfy
  set c : ℕ → ℝ := fun j => (minresCs cs s j).1 with hc
  set sn : ℕ → ℝ := fun j => (minresCs cs s j).2 with hsn
  have hcs : ∀ k, c k ^ 2 + sn k ^ 2 = 1 := minresCs_unit hr s
  set Z : ℕ → E := fun k => vec (s.zs k) with hZ
  set D : ℕ → E := fun k => B (Z k) - wvec 𝕜 c sn P k with hD
  have hz1 : ∀ k, vec (shift1 0 s.zs k) = shift1 0 Z k := by
    rintro (_ | k)
    · exact hw.zero
    · rfl
  have hz2 : ∀ k, vec (shift2 0 s.zs k) = shift2 0 Z k := by
    rintro (_ | _ | k)
    · exact hw.zero
    · exact hw.zero
    · rfl
  have hD1 : ∀ k, shift1 0 D k = B (shift1 0 Z k) - shift1 0 (wvec 𝕜 c sn P) k := by
    rintro (_ | k)
    · simp [shift1]
    · rfl
  have hD2 : ∀ k, shift2 0 D k = B (shift2 0 Z k) - shift2 0 (wvec 𝕜 c sn P) k := by
    rintro (_ | _ | k)
    · simp [shift2, shift1]
    · simp [shift2, shift1]
    · rfl
  have hzerr : ∀ k < n, finF (s.Rs k).1 ∧ finF (s.Rs k).2.1 ∧ (minresR val s k).2.2 ≠ 0 ∧
      ‖((minresR val s k).2.2 : 𝕜) • Z k - (vec (s.arn.V k) - ((minresR val s k).1 : 𝕜) • shift2 0 Z k - ((minresR val s k).2.1 : 𝕜) • shift1 0 Z k)‖ ≤
        ((1 + u) ^ 4 - 1) * (‖vec (s.arn.V k)‖ + |(minresR val s k).1| * ‖vec (shift2 0 s.zs k)‖ + |(minresR val s k).2.1| * ‖vec (shift1 0 s.zs k)‖) := by
    intro k hk
    have hz := ht.zs k (by omega)
    have h := (hfin k hk).2
    rw [hz] at h
    have := flMinresZ_err (𝕜 := 𝕜) hv hw hu0 h (hf.R k (by omega))
    rw [← hz, hz1, hz2] at this
    rw [hz1, hz2]
    exact this
  have hloc : ∀ k < n, ‖((minresR val s k).1 : 𝕜) • shift2 0 D k + ((minresR val s k).2.1 : 𝕜) • shift1 0 D k + ((minresR val s k).2.2 : 𝕜) • D k‖ ≤
      minresLoc o vec val u g ‖B‖ maxiter s P δ k := by
    intro k hk
    obtain ⟨f0, f1, -, hzb⟩ := hzerr k hk
    have h1 := hδ k hk
    have h2 := MinresErr.column_err (𝕜 := 𝕜) (P := P) hcs hg (minres_column hw hr ht hf (by omega : k < s.arn.iter) f0 f1)
    have h3 := (B.le_opNorm _).trans (mul_le_mul_of_nonneg_left hzb (norm_nonneg B))
    rw [hD1, hD2]
    simp only [map_sub, map_smul] at h3
    unfold minresLoc
    set T := tri 𝕜 P k (minresTri o val maxiter s k).1 (minresTri o val maxiter s k).2.1 (minresTri o val maxiter s k).2.2
    set a0 : 𝕜 := ((minresR val s k).1 : 𝕜)
    set a1 : 𝕜 := ((minresR val s k).2.1 : 𝕜)
    set a2 : 𝕜 := ((minresR val s k).2.2 : 𝕜)
    have key : a0 • (B (shift2 0 Z k) - shift2 0 (wvec 𝕜 c sn P) k) + a1 • (B (shift1 0 Z k) - shift1 0 (wvec 𝕜 c sn P) k) + a2 • (B (Z k) - wvec 𝕜 c sn P k) =
        (a2 • B (Z k) - (B (vec (s.arn.V k)) - a0 • B (shift2 0 Z k) - a1 • B (shift1 0 Z k))) + (B (vec (s.arn.V k)) - T) +
          (T - (a0 • shift2 0 (wvec 𝕜 c sn P) k + a1 • shift1 0 (wvec 𝕜 c sn P) k + a2 • wvec 𝕜 c sn P k)) := by
      simp only [smul_sub]
      abel
    change ‖a0 • (B (shift2 0 Z k) - shift2 0 (wvec 𝕜 c sn P) k) + a1 • (B (shift1 0 Z k) - shift1 0 (wvec 𝕜 c sn P) k) + a2 • (B (Z k) - wvec 𝕜 c sn P k)‖ ≤ _
    rw [key]
    refine (norm_add₃_le).trans ?_
    linarith
  have hgrow := grow_bound (𝕜 := 𝕜) (R := minresR val s) (D := D) (n := n) (fun k hk => (hzerr k hk).2.2.1) hloc
  have hη : ∀ k < n, pn (val (s.ys k) - (c k * val (s.es k) + sn k * 0)) (val (s.es (k + 1)) - (-sn k * val (s.es k) + c k * 0)) ≤ g * pn (val (s.es k)) 0 := by
    intro k hk
    obtain ⟨q, hq, hgood, -⟩ := ht.good hf (j := k) (by omega)
    have ha := ht.ys k (by omega) q hq
    have := (hr.apply (a := s.es k) (b := o.zeroF) hgood (by rw [ha]; exact (hfin k hk).1) (by rw [ha]; exact hf.e k (by omega))).2.2
    rw [ha, hw.zeroF] at this
    have e1 : minresCs cs s k = cs q := by simp [minresCs, hq]
    simp only [hc, hsn, e1]
    exact this
  have hres := MinresErr.residual (𝕜 := 𝕜) (P := P) hcs hg (η := fun k => val (s.es k)) (y := fun k => val (s.ys k)) (Z := Z) (B := B)
    (D := fun k => grow (minresR val s) (minresLoc o vec val u g ‖B‖ maxiter s P δ) (k + 2)) (n := n) hη (fun k hk => hgrow (k + 2) (by omega))
  have hyk : ‖B (vec s.yk) - B (∑ k ∈ Finset.range n, (val (s.ys k) : 𝕜) • Z k)‖ ≤ ‖B‖ * (((1 + u) ^ (n + 1) - 1) * ∑ j ∈ Finset.range n, |val (s.ys j)| * ‖vec (s.zs j)‖) := by
    rw [← map_sub]
    refine (B.le_opNorm _).trans (mul_le_mul_of_nonneg_left ?_ (norm_nonneg B))
    rw [ht.yk, hn]
    exact hsum
  have e1 : val s.y = val (s.es n) := by rw [ht.y, hn]
  have e2 : minresGap o vec val u g ‖B‖ maxiter s P δ n = ((1 + g) ^ n - 1) * |val (s.es 0)| * basisNorm P n +
      ∑ k ∈ Finset.range n, |val (s.ys k)| * grow (minresR val s) (minresLoc o vec val u g ‖B‖ maxiter s P δ) (k + 2) +
      ‖B‖ * (((1 + u) ^ (n + 1) - 1) * ∑ j ∈ Finset.range n, |val (s.ys j)| * ‖vec (s.zs j)‖) := by
    unfold minresGap
    rw [Finset.mul_sum, Finset.mul_sum, add_assoc, ← Finset.sum_add_distrib]
    congr 1
    exact Finset.sum_congr rfl fun k _ => by ring
  have e3 : v - B (vec s.yk) = (v - (val r0 : 𝕜) • P 0) + ((val (s.es 0) : 𝕜) • P 0 - B (∑ k ∈ Finset.range n, (val (s.ys k) : 𝕜) • Z k)) -
      (B (vec s.yk) - B (∑ k ∈ Finset.range n, (val (s.ys k) : 𝕜) • Z k)) := by
    rw [ht.start]
    abel
  rw [e3, e1, e2]
  refine (norm_sub_le _ _).trans ?_
  have := norm_add_le (v - (val r0 : 𝕜) • P 0) ((val (s.es 0) : 𝕜) • P 0 - B (∑ k ∈ Finset.range n, (val (s.ys k) : 𝕜) • Z k))
  linarith

end

end Krypy
