import Verif.Model.FlGmresHouse
import Verif.Props.FlArnHouse
import Verif.Props.FlGmresCall

/-!
# Property C86: `Gmres` with `ortho="house"` and rounding errors

`flGmresHouse` is the code of `Gmres` with `ortho="house"` over arbitrary operations.  If the operations have small relative errors, then the residual
norm which `Gmres` updates is the true residual norm of the computed approximation, up to errors proportional to the rounding errors, in both directions
(`C86_residual`, `C86_solution`), and it is a lower bound for the residual norms of all combinations of the basis vectors, up to such errors (`C86_optimal`): the
approximation is optimal up to rounding errors.  In contrast to C80 there is no factor `√(2(n+1))`.
-/

set_option linter.unusedSectionVars false

namespace Krypy
open RCLike Finset

/-! ## Calls in an arbitrary arithmetic -/

section
variable {F K Q : Type*} {N : ℕ}

theorem flGmresHStep_ok {p : FlHouseOps F K} {o : FlGmresOps F K (Fin (N + 1) → K) Q} {n : ℕ} {s s' : FlGmresSt F K (Fin (N + 1) → K) Q × FlHouses F K N} {r : F}
    (h : flGmresHStep p o n s = .ok (s', r)) :
    flHouseAdvance p o.A n (s.1.arn.withHouses s.2) = .ok (s'.1.arn.withHouses s'.2) ∧ s'.1.x0 = s.1.x0 ∧ r = o.absK (s'.1.y (s.1.arn.iter + 1)) ∧
    ∃ col, (∀ i, col i = if i < s.1.arn.iter + 2 then s'.1.arn.H i s.1.arn.iter else s.1.R i s.1.arn.iter) ∧
      s'.1.G = Function.update s.1.G s.1.arn.iter (o.rotg (flRots o s.1.G s.1.arn.iter col s.1.arn.iter) (flRots o s.1.G s.1.arn.iter col (s.1.arn.iter + 1))) ∧
      s'.1.R = (fun i j => if j = s.1.arn.iter then flRot o (s'.1.G s.1.arn.iter) s.1.arn.iter (flRots o s.1.G s.1.arn.iter col) i else s.1.R i j) ∧
      s'.1.y = flRot o (s'.1.G s.1.arn.iter) s.1.arn.iter s.1.y := by
  unfold flGmresHStep at h
  dsimp only at h
  split at h
  · cases h
  next a ha =>
  simp only [Except.ok.injEq, Prod.mk.injEq] at h
  obtain ⟨rfl, rfl⟩ := h
  exact ⟨ha, rfl, rfl, _, fun _ => rfl, rfl, by simp [FlHArn.toFl], by simp⟩

theorem flGmresHMethod_lawful (p : FlHouseOps F K) (o : FlGmresOps F K (Fin (N + 1) → K) Q) (post : (Fin (N + 1) → K) → Except Err (Fin (N + 1) → K)) (n : ℕ) :
    LawfulMethod (flGmresHMethod p o post n) n :=
  ⟨fun h => (flHouseAdvance_cases (flGmresHStep_ok h).1).2.2.1, fun _ _ => rfl, fun _ _ => rfl, fun h => by
    simp only [flGmresHMethod, Bool.and_eq_true, decide_eq_true_eq] at h
    exact h.1⟩

theorem flHouseInit_iter (p : FlHouseOps F K) (v : Fin (N + 1) → K) : (flHouseInit p v).iter = 0 := by
  unfold flHouseInit
  dsimp only
  split <;> rfl

/-- The state of `Arnoldi` after a number of calls of `advance()` in an arbitrary arithmetic. -/
structure FlHShape (p : FlHouseOps F K) (v : Fin (N + 1) → K) (s : FlHArn F K N) : Prop where
  vnorm : s.vnorm = p.norm (N + 1) v
  first : 0 < s.iter ∨ s.invariant = false → ∀ l, s.V 0 l = p.div (v l) (p.norm (N + 1) v)
  hess : ∀ j i, j + 1 < i → s.H i j = p.zero
  hzero : ∀ j, s.iter ≤ j → ∀ i, s.H i j = p.zero
  last : ∀ j < s.iter, N ≤ j → s.H (j + 1) j = p.ofReal (p.abs p.zero)

theorem flHouseInit_shape (p : FlHouseOps F K) (v : Fin (N + 1) → K) : FlHShape p v (flHouseInit p v) := by
  unfold flHouseInit
  dsimp only
  split
  · exact ⟨rfl, fun _ l => by simp, fun _ _ _ => rfl, fun _ _ _ => rfl, fun j hj => absurd hj (Nat.not_lt_zero j)⟩
  · exact ⟨rfl, fun h => by simp at h, fun _ _ _ => rfl, fun _ _ _ => rfl, fun j hj => absurd hj (Nat.not_lt_zero j)⟩

theorem flHouseAdvance_shape {p : FlHouseOps F K} {v : Fin (N + 1) → K} {A : (Fin (N + 1) → K) → (Fin (N + 1) → K)} {maxiter : ℕ} {s s' : FlHArn F K N}
    (hs : FlHShape p v s) (h : flHouseAdvance p A maxiter s = .ok s') : FlHShape p v s' := by
  obtain ⟨-, c2, c3, c4, -, c6, c7, -⟩ := flHouseAdvance_cases h
  refine ⟨c4.trans hs.vnorm, fun _ => ?_, fun j i hij => ?_, fun j hj i => ?_, fun j hj hN => ?_⟩
  · rw [c7 0 (by omega)]
    exact hs.first (.inr c2)
  · rw [c6]
    split
    · next hj =>
      subst hj
      unfold flHouseCol
      dsimp only
      rw [Function.update_of_ne (by omega)]
      split
      · dsimp only
        rw [if_neg (by omega), hs.hess _ _ hij]
      · dsimp only
        rw [if_neg (by omega), hs.hess _ _ hij]
    · exact hs.hess _ _ hij
  · rw [c6, if_neg (by omega), hs.hzero j (by omega)]
  · rw [c6]
    split
    · next hj' =>
      subst hj'
      unfold flHouseCol
      dsimp only
      rw [Function.update_self, if_neg (by omega)]
      rw [if_neg (by omega), hs.hzero _ le_rfl]
    · exact hs.last j (by omega) hN

theorem flHouseRun_shape {p : FlHouseOps F K} {v : Fin (N + 1) → K} {A : (Fin (N + 1) → K) → (Fin (N + 1) → K)} {maxiter m : ℕ} {s : FlHArn F K N}
    (h : flHouseRun p A maxiter v m = .ok s) : FlHShape p v s ∧ s.iter = m := by
  induction m generalizing s with
  | zero =>
    cases h
    exact ⟨flHouseInit_shape p v, flHouseInit_iter p v⟩
  | succ m ih =>
    rw [flHouseRun] at h
    split at h
    · cases h
    · next t ht =>
      obtain ⟨h1, h2⟩ := ih ht
      exact ⟨flHouseAdvance_shape h1 h, by rw [(flHouseAdvance_cases h).2.2.1, h2]⟩

/-- The same state with another entry `vnorm`, which `Gmres` does not read. -/
def FlGmresSt.setVnorm {X : Type*} (s : FlGmresSt F K X Q) (r : F) : FlGmresSt F K X Q := { s with arn := { s.arn with vnorm := r } }

variable [LE F] [LT F] [DecidableLE F] [DecidableLT F] [Div F] [Zero F] [BEq F] [Zero K]

/-- The rotations, the triangular matrix and the right hand side after one more iteration. -/
theorem FlGmresTrace.stepH {p : FlHouseOps F K} {o : FlGmresOps F K (Fin (N + 1) → K) Q} {r0 : F} {n : ℕ}
    {s s' : FlGmresSt F K (Fin (N + 1) → K) Q × FlHouses F K N} {r : F} (hz : p.zero = o.zero) {v : Fin (N + 1) → K}
    (hsh : FlHShape p v (s'.1.arn.withHouses s'.2)) (hs : FlGmresTrace o r0 (s.1.setVnorm r0)) (h : flGmresHStep p o n s = .ok (s', r)) :
    FlGmresTrace o r0 (s'.1.setVnorm r0) := by
  obtain ⟨ha, -, -, col, hcol, hG, hR, hy⟩ := flGmresHStep_ok h
  obtain ⟨-, -, hi, -, -, c6, -⟩ := flHouseAdvance_cases ha
  have hi : s'.1.arn.iter = s.1.arn.iter + 1 := hi
  have hH : ∀ j ≠ s.1.arn.iter, ∀ i, s'.1.arn.H i j = s.1.arn.H i j := fun j hj i => by
    have : s'.1.arn.H i j = _ := c6 i j
    rw [this]
    exact if_neg hj
  have hGlt : ∀ i < s.1.arn.iter, s'.1.G i = s.1.G i := fun i hi => by rw [hG, Function.update_of_ne (by omega)]
  have hcl : col = flCol o (s'.1.setVnorm r0) s.1.arn.iter := by
    funext i
    rw [hcol]
    unfold flCol
    split_ifs
    · rfl
    · exact hs.zero _ le_rfl i
  have hcl' : ∀ j < s.1.arn.iter, flCol o (s'.1.setVnorm r0) j = flCol o (s.1.setVnorm r0) j := fun j hj => by
    funext i
    unfold flCol
    change (if _ then s'.1.arn.H i j else _) = if _ then s.1.arn.H i j else _
    rw [hH j (by omega)]
  rw [hcl] at hG hR
  have e1 : ∀ x, flRots o s.1.G s.1.arn.iter x = flRots o s'.1.G s.1.arn.iter x := fun x => flRots_congr o (fun i hi => (hGlt i hi).symm) x
  have hsy : s.1.y = flRots o s.1.G s.1.arn.iter _ := hs.y
  refine ⟨?_, fun j hj i => ?_, fun j hj => ?_, fun j hj i => ?_, fun j i hji => ?_, fun j hj i => ?_, rfl⟩
  · change s'.1.y = flRots o s'.1.G s'.1.arn.iter _
    rw [hy, hi, flRots, hsy, e1]
  · change s'.1.R i j = flRots o s'.1.G (j + 1) _ i
    change j < s'.1.arn.iter at hj
    rw [hR]
    dsimp only
    by_cases hjk : j = s.1.arn.iter
    · rw [if_pos hjk, hjk, flRots, e1]
    · have hj' : j < s.1.arn.iter := by omega
      have := hs.R j hj' i
      change s.1.R i j = flRots o s.1.G (j + 1) _ i at this
      rw [if_neg hjk, this, hcl' j hj', flRots_congr o fun i hi => hGlt i (by omega)]
  · change s'.1.G j = o.rotg (flRots o s'.1.G j _ j) (flRots o s'.1.G j _ (j + 1))
    change j < s'.1.arn.iter at hj
    by_cases hjk : j = s.1.arn.iter
    · rw [hjk, ← e1, hG, Function.update_self]
    · have hj' : j < s.1.arn.iter := by omega
      have := hs.G j hj'
      change s.1.G j = o.rotg (flRots o s.1.G j _ j) (flRots o s.1.G j _ (j + 1)) at this
      rw [hGlt j hj', this, hcl' j hj', flRots_congr o (G := s'.1.G) fun i hi => hGlt i (by omega)]
  · change s'.1.arn.iter ≤ j at hj
    change s'.1.R i j = o.zero
    rw [hR]
    dsimp only
    rw [if_neg (by omega)]
    exact hs.zero j (show s.1.arn.iter ≤ j by omega) i
  · exact (hsh.hess j i hji).trans hz
  · exact (hsh.hzero j hj i).trans hz

/-- What every call leaves: the state of `flHouseRun` and the rotations. -/
structure FlGmresHInv (p : FlHouseOps F K) (o : FlGmresOps F K (Fin (N + 1) → K) Q) (maxiter : ℕ) (v : Fin (N + 1) → K) (r0 : F)
    (s : FlGmresSt F K (Fin (N + 1) → K) Q × FlHouses F K N) : Prop where
  run : flHouseRun p o.A maxiter v s.1.arn.iter = .ok (s.1.arn.withHouses s.2)
  trace : FlGmresTrace o r0 (s.1.setVnorm r0)

theorem FlGmresHInv.init {p : FlHouseOps F K} {o : FlGmresOps F K (Fin (N + 1) → K) Q} (hz : p.zero = o.zero) {maxiter : ℕ} {g0 : Q} {v : Fin (N + 1) → K} {r0 : F} (x0 : Fin (N + 1) → K) :
    FlGmresHInv p o maxiter v r0 (flGmresInit o g0 (flHouseInit p v).toFl r0 x0, (flHouseInit p v).houses) := by
  have hi := flHouseInit_iter p v
  have sh := flHouseInit_shape p v
  constructor
  · change flHouseRun p o.A maxiter v (flHouseInit p v).iter = _
    rw [hi]
    rfl
  · refine ⟨?_, fun j hj => ?_, fun j hj => ?_, fun _ _ _ => rfl, fun j i h => (sh.hess j i h).trans hz, fun j h i => (sh.hzero j h i).trans hz, rfl⟩
    · change _ = flRots o _ (flHouseInit p v).iter _
      rw [hi]
      rfl
    · change j < (flHouseInit p v).iter at hj
      omega
    · change j < (flHouseInit p v).iter at hj
      omega

theorem FlGmresHInv.step {p : FlHouseOps F K} {o : FlGmresOps F K (Fin (N + 1) → K) Q} (hz : p.zero = o.zero) {maxiter : ℕ} {v : Fin (N + 1) → K} {r0 : F}
    {s s' : FlGmresSt F K (Fin (N + 1) → K) Q × FlHouses F K N} {r : F} (hs : FlGmresHInv p o maxiter v r0 s) (h : flGmresHStep p o maxiter s = .ok (s', r)) :
    FlGmresHInv p o maxiter v r0 s' := by
  have ha := (flGmresHStep_ok h).1
  have hi : s'.1.arn.iter = s.1.arn.iter + 1 := (flHouseAdvance_cases ha).2.2.1
  have hr : flHouseRun p o.A maxiter v s'.1.arn.iter = .ok (s'.1.arn.withHouses s'.2) := by
    rw [hi, flHouseRun, hs.run]
    exact ha
  exact ⟨hr, hs.trace.stepH hz (flHouseRun_shape hr).1 h⟩

/-- C86: in any arithmetic a call of `Gmres` with `ortho="house"` ends after at most `maxiter` iterations, records one residual norm per iteration, raises
`ConvergenceError` only with an approximation whose evaluated residual norm is above `tol`, and does not report convergence without such an evaluation
or an invariant Krylov subspace. -/
theorem C86_honest (cfg : Cfg F (Fin (N + 1) → K)) (p : FlHouseOps F K) (o : FlGmresOps F K (Fin (N + 1) → K) Q) (g0 : Q)
    (post : (Fin (N + 1) → K) → Except Err (Fin (N + 1) → K)) (x0 Mlr0 : Fin (N + 1) → K) (r0 : F) :
    HonestCall cfg (fun s => s.1.arn.iter) (fun s => s.1.arn.invariant) (flGmresHouse cfg p o g0 post x0 Mlr0 r0) :=
  HonestCall.of_run (m := flGmresHMethod p o post cfg.maxiter) (inv := fun s => s.1.arn.invariant)
    (flGmresHMethod_lawful p o post _) (fun _ => rfl) _ _ (fun x => (flGmresInit o g0 (flHouseInit p Mlr0).toFl r0 x, (flHouseInit p Mlr0).houses)) _
    fun _ => flHouseInit_iter p Mlr0

theorem flGmresHouse_induct {cfg : Cfg F (Fin (N + 1) → K)} {p : FlHouseOps F K} {o : FlGmresOps F K (Fin (N + 1) → K) Q} {g0 : Q}
    {post : (Fin (N + 1) → K) → Except Err (Fin (N + 1) → K)} {x0 Mlr0 : Fin (N + 1) → K} {r0 : F} (P : FlGmresSt F K (Fin (N + 1) → K) Q × FlHouses F K N → Prop)
    (hinit : P (flGmresInit o g0 (flHouseInit p Mlr0).toFl r0 (if cfg.MMlbNorm == 0 then 0 else x0), (flHouseInit p Mlr0).houses))
    (hst : ∀ s s' r, P s → flGmresHStep p o cfg.maxiter s = .ok (s', r) → P s')
    {st : St F (Fin (N + 1) → K) (FlGmresSt F K (Fin (N + 1) → K) Q × FlHouses F K N)}
    (h : flGmresHouse cfg p o g0 post x0 Mlr0 r0 = .returned st ∨ flGmresHouse cfg p o g0 post x0 Mlr0 r0 = .convergence st) : P st.s := by
  unfold flGmresHouse at h
  dsimp only at h
  unfold run at h
  dsimp only at h
  split at h
  · rcases h with h | h <;> cases h
  next errnorms he =>
  have hinv := loop_invariant (cfg := cfg) (m := flGmresHMethod p o post cfg.maxiter) (fun st => P st.s)
    (fun st st' h0 _ hb => by
      obtain ⟨s', r, rkn, h1, h2, -⟩ := body_ok hb
      rw [h2]
      exact hst _ _ _ h0 h1) cfg.maxiter
    { s := (flGmresInit o g0 (flHouseInit p Mlr0).toFl r0 (if cfg.MMlbNorm == 0 then 0 else x0), (flHouseInit p Mlr0).houses), iter := 0,
      xk := if cfg.MMlbNorm == 0 then some 0 else none,
      resnorms := if cfg.MMlbNorm == 0 then [0] else [r0 / cfg.MMlbNorm], errnorms := errnorms, warnings := 0 } hinit
  rcases h with h | h
  · obtain ⟨st1, h1, -, h2⟩ := hinv.1 st h
    obtain ⟨e, -⟩ := finish_returned h2
    rw [e]
    exact h1
  · obtain ⟨st1, h1, -, h2⟩ := hinv.2 st h
    obtain ⟨s', r, x, v, e1, e2, -⟩ := body_convergence h2
    rw [e2]
    exact hst _ _ _ h1 e1

/-- C86: the rotations, the triangular matrix and the right hand side of every call. -/
theorem C86_trace {cfg : Cfg F (Fin (N + 1) → K)} {p : FlHouseOps F K} {o : FlGmresOps F K (Fin (N + 1) → K) Q} {g0 : Q}
    {post : (Fin (N + 1) → K) → Except Err (Fin (N + 1) → K)} {x0 Mlr0 : Fin (N + 1) → K} {r0 : F} (hz : p.zero = o.zero)
    {st : St F (Fin (N + 1) → K) (FlGmresSt F K (Fin (N + 1) → K) Q × FlHouses F K N)}
    (h : flGmresHouse cfg p o g0 post x0 Mlr0 r0 = .returned st ∨ flGmresHouse cfg p o g0 post x0 Mlr0 r0 = .convergence st) :
    FlGmresHInv p o cfg.maxiter Mlr0 r0 st.s ∧ st.s.1.x0 = if cfg.MMlbNorm == 0 then 0 else x0 :=
  flGmresHouse_induct (fun s => FlGmresHInv p o cfg.maxiter Mlr0 r0 s ∧ s.1.x0 = if cfg.MMlbNorm == 0 then 0 else x0) ⟨FlGmresHInv.init hz _, rfl⟩
    (fun _ _ _ hs h1 => ⟨hs.1.step hz h1, (flGmresHStep_ok h1).2.1.trans hs.2⟩) h

/-- The approximation at the end is the one which belongs to the state at the end. -/
theorem flGmresHouse_xk {cfg : Cfg F (Fin (N + 1) → K)} {p : FlHouseOps F K} {o : FlGmresOps F K (Fin (N + 1) → K) Q} {g0 : Q}
    {post : (Fin (N + 1) → K) → Except Err (Fin (N + 1) → K)} {x0 Mlr0 : Fin (N + 1) → K} {r0 : F} (hb : (cfg.MMlbNorm == 0) = false)
    {st : St F (Fin (N + 1) → K) (FlGmresSt F K (Fin (N + 1) → K) Q × FlHouses F K N)}
    (h : flGmresHouse cfg p o g0 post x0 Mlr0 r0 = .returned st ∨ flGmresHouse cfg p o g0 post x0 Mlr0 r0 = .convergence st) {x : Fin (N + 1) → K}
    (hx : st.xk = some x) : flGmresXk o post st.s.1 = .ok x := by
  unfold flGmresHouse at h
  dsimp only at h
  have hk0 : ∀ x, (flGmresHMethod p o post cfg.maxiter).k (flGmresInit o g0 (flHouseInit p Mlr0).toFl r0 x, (flHouseInit p Mlr0).houses) = 0 := fun _ => flHouseInit_iter p Mlr0
  rcases h with h | h
  · obtain ⟨st1, hi, -, hf⟩ := (run_inv (flGmresHMethod_lawful p o post cfg.maxiter) hk0).1 st h
    obtain ⟨e1, -, -, -, -, e6⟩ := finish_returned hf
    rw [e1]
    rcases e6 with ⟨z, e7, e8⟩ | ⟨z, -, e7, e8⟩
    · obtain rfl := Option.some.inj (hx.symm.trans e8)
      by_cases h0 : (flGmresHMethod p o post cfg.maxiter).k st1.s = 0
      · have := (hi.init h0).2.1
        rw [e7, hb] at this
        cases this
      · exact hi.xk h0 _ e7
    · obtain rfl := Option.some.inj (hx.symm.trans e8)
      exact e7
  · obtain ⟨st1, hi, -, hb1⟩ := (run_inv (flGmresHMethod_lawful p o post cfg.maxiter) hk0).2 st h
    obtain ⟨s', q, z, v, e1, e2, -, e4, e5, -⟩ := body_convergence hb1
    obtain rfl := Option.some.inj (hx.symm.trans e5)
    rw [e2]
    exact e4

end

/-! ## Rounding errors -/

section
variable {𝕜 : Type*} [RCLike 𝕜] {F K Q : Type*} {N : ℕ}
variable {p : FlHouseOps F K} {num : K → 𝕜} {fin : K → Prop} {val : F → ℝ} {finF : F → Prop} {u : ℝ}

theorem vecNorm_basis_comb {hs : Houses 𝕜 N} {m : ℕ} (hm : m ≤ N + 1) (hg : GoodTo hs m) (z : ℕ → 𝕜) :
    vecNorm (∑ i ∈ range m, z i • basisVec hs i) = nto m z := by
  have h := nrm_lincomb_orth (edot_inner N) (V := fun i : Fin m => basisVec hs i) (by
    ext i j
    change edot (basisVec hs i) (basisVec hs j) = _
    rw [basis_orth hm hg i.2 j.2, Matrix.one_apply]
    by_cases hij : i = j
    · rw [if_pos hij, if_pos (by rw [hij])]
    · rw [if_neg hij, if_neg fun h => hij (Fin.ext h)]) fun i : Fin m => z i
  rw [nrm_edot] at h
  unfold lincomb at h
  rw [Fin.sum_univ_eq_sum_range (fun i => z i • basisVec hs i) m] at h
  exact h

/-- The exact basis vectors preserve norms. -/
theorem FlHInv.iso {A : (Fin (N + 1) → K) → (Fin (N + 1) → K)} {s : FlHArn F K N} {hs : Houses 𝕜 N} {zero : K} (inv : FlHInv num fin val u zero A s hs) {m : ℕ}
    (hm : m ≤ s.iter + 1) {c : ℕ → 𝕜} (hc : N + 1 < m → c (N + 1) = 0) : vecNorm (∑ i ∈ range m, c i • basisVec hs i) = nto m c := by
  have hk := inv.kN
  rcases Nat.lt_or_ge (N + 1) m with hN | hN
  · obtain rfl : m = N + 1 + 1 := by omega
    have hcn := hc hN
    rw [Finset.sum_range_succ, hcn, zero_smul, add_zero, vecNorm_basis_comb le_rfl fun j hj => inv.good j (by omega) (by omega)]
    refine (sq_eq_sq₀ (nto_nonneg _ _) (nto_nonneg _ _)).mp ?_
    rw [nto_sq, nto_sq, Finset.sum_range_succ _ (N + 1), hcn]
    simp
  · exact vecNorm_basis_comb hN (fun j hj => inv.good j (by omega) (by omega)) c

/-- There is no entry below row `N`. -/
theorem FlHShape.top (ho : FlHouseAcc p num fin val finF u) {v : Fin (N + 1) → K} {s : FlHArn F K N} (sh : FlHShape p v s) (hf : s.Finite fin finF)
    (hk : s.iter ≤ N + 1) {j : ℕ} (hj : j < s.iter) :
    num (s.H (N + 1) j) = 0 := by
  rcases Nat.lt_or_ge j N with h | h
  · rw [sh.hess j (N + 1) (by omega)]
    exact ho.zero
  obtain rfl : j = N := by omega
  have hl := sh.last j hj le_rfl
  have hfin := hf.H j hj (j + 1) (by omega)
  rw [hl] at hfin
  obtain ⟨f1, f2⟩ := ho.ofReal hfin
  have f3 := (ho.abs f1).2
  rw [ho.zero, norm_zero, sub_zero, mul_zero] at f3
  have f4 : val (p.abs p.zero) = 0 := abs_nonpos_iff.mp f3
  rw [hl, f2, f4]
  simp

/-- The error of the start vector. -/
noncomputable def houseStart (u : ℝ) : ℝ := 2 * u + (1 + u) * ((1 + 80 * u) ^ 2 - 1)

/-- The error of the Arnoldi relation with respect to the exact orthonormal vectors. -/
noncomputable def houseDef (u α δ : ℝ) (j : ℕ) : ℝ := (δ + ((1 + 80 * u) ^ (2 * j + 5) - 1) * (α + δ)) * (1 + 80 * u) ^ (j + 2)

/-- A bound for the columns of the Hessenberg matrix. -/
noncomputable def houseColN (u α δ : ℝ) (j : ℕ) : ℝ := α * (1 + 80 * u) ^ (j + 2) + houseDef u α δ j

theorem flHouse_start (ho : FlHouseAcc p num fin val finF u) (hu : 0 ≤ u) {A : (Fin (N + 1) → K) → (Fin (N + 1) → K)} {v : Fin (N + 1) → K} {s : FlHArn F K N}
    {hs : Houses 𝕜 N} (inv : FlHInv num fin val u p.zero A s hs) (hf : s.Finite fin finF) (sh : FlHShape p v s) (h0 : 0 < s.iter ∨ s.invariant = false) :
    vecNorm (numv num v - (vecNorm (numv num v) : 𝕜) • basisVec hs 0) ≤ houseStart u * vecNorm (numv num v) := by
  have hhas : s.Has 0 := by
    rcases h0 with h | h
    · exact .inl h
    · rcases Nat.eq_zero_or_pos s.iter with h' | h'
      · exact .inr ⟨h'.symm, h⟩
      · exact .inl h'
  have hr := hf.vnorm
  rw [sh.vnorm] at hr
  obtain ⟨-, hn⟩ := ho.norm hr
  change |val (p.norm (N + 1) v) - vecNorm (numv num v)| ≤ u * vecNorm (numv num v) at hn
  have hb := inv.basis 0 hhas
  have hu1 := inv.unit hhas
  set r := val (p.norm (N + 1) v) with hrd
  set w := numv num v with hw
  set x := numv num (s.V 0) with hx
  have h1 : vecNorm (w - (r : 𝕜) • x) ≤ u * vecNorm w := by
    rw [vecNorm_sub_rev' w ((r : 𝕜) • x)]
    refine vecNorm_le_of hu fun i => ?_
    have e := sh.first h0 i
    have hfi := hf.V 0 hhas i
    rw [e] at hfi
    have := (ho.div hfi hr).2.2
    rw [← e] at this
    exact this
  have hw0 := vecNorm_nonneg w
  have h2 : vecNorm ((r : 𝕜) • (x - basisVec hs 0)) ≤ (1 + u) * ((1 + 80 * u) ^ 2 - 1) * vecNorm w := by
    rw [vecNorm_smul, RCLike.norm_ofReal]
    have : |r| ≤ (1 + u) * vecNorm w := by
      have := abs_le.mp hn
      rw [abs_le]
      constructor <;> nlinarith
    calc |r| * vecNorm (x - basisVec hs 0) ≤ ((1 + u) * vecNorm w) * ((1 + 80 * u) ^ (0 + 2) - 1) := by
          have := vecNorm_nonneg (x - basisVec hs 0)
          gcongr
      _ = _ := by ring
  have h3 : vecNorm (((r - vecNorm w : ℝ) : 𝕜) • basisVec hs 0) ≤ u * vecNorm w := by
    rw [vecNorm_smul, RCLike.norm_ofReal, hu1, mul_one]
    exact hn
  have e : w - (vecNorm w : 𝕜) • basisVec hs 0 = (w - (r : 𝕜) • x) + ((r : 𝕜) • (x - basisVec hs 0) + ((r - vecNorm w : ℝ) : 𝕜) • basisVec hs 0) := by
    push_cast
    rw [sub_smul, smul_sub]
    abel
  rw [e]
  refine (vecNorm_add_le' _ _).trans ?_
  have := vecNorm_add_le' ((r : 𝕜) • (x - basisVec hs 0)) (((r - vecNorm w : ℝ) : 𝕜) • basisVec hs 0)
  unfold houseStart
  linarith

open Matrix in
/-- C86: for all coefficients `z` the residual of the combination of the computed basis vectors and the residual of the Hessenberg system have the same
norm up to rounding errors. -/
theorem C86_close (ho : FlHouseAcc p num fin val finF u) (hu : 0 ≤ u) (hu1 : u ≤ 1 / 1000) {A : (Fin (N + 1) → K) → (Fin (N + 1) → K)}
    {B : Matrix (Fin (N + 1)) (Fin (N + 1)) 𝕜} {α δ : ℝ} (hA : FlHouseOp num fin A B α δ) (hδ : 0 ≤ δ) {maxiter : ℕ} {v : Fin (N + 1) → K} {n : ℕ}
    {s : FlHArn F K N} (h : flHouseRun p A maxiter v n = .ok s) (hf : s.Finite fin finF) (h0 : 0 < n) {β d : ℝ}
    (hβ : |β - vecNorm (numv num v)| ≤ d * vecNorm (numv num v)) (z : Fin n → 𝕜) :
    |vecNorm (numv num v - B *ᵥ ∑ j : Fin n, z j • numv num (s.V j)) -
      vecNorm (fun i : Fin (n + 1) => (if (i : ℕ) = 0 then (β : 𝕜) else 0) - ∑ j : Fin n, num (s.H i j) * z j)| ≤
      (houseStart u + d) * vecNorm (numv num v) + ∑ j : Fin n, ‖z j‖ * houseDef u α δ j := by
  obtain ⟨hs, inv⟩ := flHouseRun_inv ho hu hu1 h hf
  obtain ⟨sh, hn⟩ := flHouseRun_shape h
  have hstart := flHouse_start ho hu inv hf sh (.inl (by omega))
  have hdef : ∀ j : Fin n, vecNorm (B *ᵥ numv num (s.V j) - ∑ i ∈ range ((j : ℕ) + 2), num (s.H i j) • basisVec hs i) ≤ houseDef u α δ j := fun j => by
    have hj : (j : ℕ) < s.iter := by rw [hn]; exact j.2
    have := rel_op hA hδ inv hj (C := (1 + 80 * u) ^ (2 * (j : ℕ) + 5) - 1) (by have := one_le_pow_c hu (2 * (j : ℕ) + 5); linarith) (ρ := 0) (by
      rw [add_zero]; exact inv.rel j hj)
    rwa [add_zero] at this
  have hzero : ∀ j : Fin n, ∀ i, (j : ℕ) + 1 < i → num (s.H i j) = 0 := fun j i hi => by rw [sh.hess j i hi]; exact ho.zero
  set w := numv num v with hw
  set c : ℕ → 𝕜 := fun i => (if i = 0 then (β : 𝕜) else 0) - ∑ j : Fin n, num (s.H i j) * z j with hc
  -- the exact basis vectors preserve norms
  have hiso : vecNorm (∑ i ∈ range (n + 1), c i • basisVec hs i) = nto (n + 1) c := inv.iso (by omega) fun hN => by
    simp only [hc]
    rw [if_neg (by omega), zero_sub, neg_eq_zero]
    exact Finset.sum_eq_zero fun j _ => by rw [sh.top ho hf inv.kN (by have := j.2; omega), zero_mul]
  have hgoal : vecNorm (fun i : Fin (n + 1) => (if (i : ℕ) = 0 then (β : 𝕜) else 0) - ∑ j : Fin n, num (s.H i j) * z j) = nto (n + 1) c := rfl
  rw [hgoal, ← hiso]
  -- the difference of the residuals
  have hsum : ∑ i ∈ range (n + 1), c i • basisVec hs i =
      (β : 𝕜) • basisVec hs 0 - ∑ j : Fin n, z j • ∑ i ∈ range ((j : ℕ) + 2), num (s.H i j) • basisVec hs i := by
    simp only [hc, sub_smul, Finset.sum_sub_distrib]
    congr 1
    · rw [Finset.sum_eq_single 0]
      · simp
      · intro i _ hi
        rw [if_neg hi, zero_smul]
      · intro hi
        exact absurd (Finset.mem_range.mpr (by omega)) hi
    · simp_rw [Finset.sum_smul]
      rw [Finset.sum_comm]
      refine Finset.sum_congr rfl fun j _ => ?_
      rw [Finset.smul_sum]
      symm
      refine (Finset.sum_subset (fun i hi => ?_) fun i _ hi => ?_).trans (Finset.sum_congr rfl fun i _ => ?_)
      · rw [Finset.mem_range] at hi ⊢
        have := j.2
        omega
      · rw [Finset.mem_range] at hi
        rw [hzero j i (by omega), zero_smul, smul_zero]
      · rw [smul_smul, mul_comm]
  have key : (w - B *ᵥ ∑ j : Fin n, z j • numv num (s.V j)) - ∑ i ∈ range (n + 1), c i • basisVec hs i =
      (w - (vecNorm w : 𝕜) • basisVec hs 0) - (((β - vecNorm w : ℝ) : 𝕜) • basisVec hs 0 +
        ∑ j : Fin n, z j • (B *ᵥ numv num (s.V j) - ∑ i ∈ range ((j : ℕ) + 2), num (s.H i j) • basisVec hs i)) := by
    have e : B *ᵥ ∑ j : Fin n, z j • numv num (s.V j) = ∑ j : Fin n, z j • B *ᵥ numv num (s.V j) := by
      rw [Matrix.mulVec_sum]
      exact Finset.sum_congr rfl fun j _ => Matrix.mulVec_smul _ _ _
    rw [hsum, e]
    simp only [smul_sub, Finset.sum_sub_distrib]
    push_cast
    rw [sub_smul]
    abel
  have hd : vecNorm ((w - B *ᵥ ∑ j : Fin n, z j • numv num (s.V j)) - ∑ i ∈ range (n + 1), c i • basisVec hs i) ≤
      (houseStart u + d) * vecNorm w + ∑ j : Fin n, ‖z j‖ * houseDef u α δ j := by
    rw [key]
    refine (vecNorm_sub_le' _ _).trans ?_
    have a1 := vecNorm_add_le' (((β - vecNorm w : ℝ) : 𝕜) • basisVec hs 0) (∑ j : Fin n, z j • (B *ᵥ numv num (s.V j) - ∑ i ∈ range ((j : ℕ) + 2), num (s.H i j) • basisVec hs i))
    have a2 : vecNorm (((β - vecNorm w : ℝ) : 𝕜) • basisVec hs 0) ≤ d * vecNorm w := by
      rw [vecNorm_smul, RCLike.norm_ofReal, inv.unit (.inl (by omega)), mul_one]
      exact hβ
    have a3 : vecNorm (∑ j : Fin n, z j • (B *ᵥ numv num (s.V j) - ∑ i ∈ range ((j : ℕ) + 2), num (s.H i j) • basisVec hs i)) ≤ ∑ j : Fin n, ‖z j‖ * houseDef u α δ j := by
      rw [vecNorm_toLp, WithLp.toLp_sum]
      refine (norm_sum_le _ _).trans (Finset.sum_le_sum fun j _ => ?_)
      rw [← vecNorm_toLp, vecNorm_smul]
      exact mul_le_mul_of_nonneg_left (hdef j) (norm_nonneg _)
    linarith
  have n1 := vecNorm_add_le' ((w - B *ᵥ ∑ j : Fin n, z j • numv num (s.V j)) - ∑ i ∈ range (n + 1), c i • basisVec hs i) (∑ i ∈ range (n + 1), c i • basisVec hs i)
  have n2 := vecNorm_sub_le' (w - B *ᵥ ∑ j : Fin n, z j • numv num (s.V j)) ((w - B *ᵥ ∑ j : Fin n, z j • numv num (s.V j)) - ∑ i ∈ range (n + 1), c i • basisVec hs i)
  rw [sub_add_cancel] at n1
  rw [sub_sub_cancel] at n2
  rw [abs_le]
  constructor <;> linarith

/-- The columns of the Hessenberg matrix are bounded. -/
theorem flHouse_col (ho : FlHouseAcc p num fin val finF u) (hu : 0 ≤ u) {A : (Fin (N + 1) → K) → (Fin (N + 1) → K)}
    {B : Matrix (Fin (N + 1)) (Fin (N + 1)) 𝕜} {α δ : ℝ} (hA : FlHouseOp num fin A B α δ) (hδ : 0 ≤ δ) (hα : 0 ≤ α) {v : Fin (N + 1) → K}
    {s : FlHArn F K N} {hs : Houses 𝕜 N} (inv : FlHInv num fin val u p.zero A s hs) (sh : FlHShape p v s) (hf : s.Finite fin finF) {j : ℕ} (hj : j < s.iter) :
    vecNorm (numv num (s.V j)) ≤ (1 + 80 * u) ^ (j + 2) ∧ nto (j + 2) (fun i => num (s.H i j)) ≤ houseColN u α δ j := by
  have hb := inv.basis j (.inl hj)
  have h1 := inv.unit (.inl hj)
  have hV : vecNorm (numv num (s.V j)) ≤ (1 + 80 * u) ^ (j + 2) := by
    have := vecNorm_add_le' (numv num (s.V j) - basisVec hs j) (basisVec hs j)
    rw [sub_add_cancel] at this
    linarith
  refine ⟨hV, ?_⟩
  have hd := rel_op hA hδ inv hj (C := (1 + 80 * u) ^ (2 * j + 5) - 1) (by have := one_le_pow_c hu (2 * j + 5); linarith) (ρ := 0) (by
      rw [add_zero]; exact inv.rel j hj)
  rw [add_zero] at hd
  have hi : vecNorm (∑ i ∈ range (j + 2), num (s.H i j) • basisVec hs i) = nto (j + 2) fun i => num (s.H i j) :=
    inv.iso (c := fun i => num (s.H i j)) (by omega) fun _ => sh.top ho hf inv.kN hj
  rw [← hi]
  have h2 := vecNorm_sub_le' (Matrix.mulVec B (numv num (s.V j))) (Matrix.mulVec B (numv num (s.V j)) - ∑ i ∈ range (j + 2), num (s.H i j) • basisVec hs i)
  rw [sub_sub_cancel] at h2
  have h3 := (hA.norm (numv num (s.V j))).trans (mul_le_mul_of_nonneg_left hV hα)
  unfold houseColN houseDef
  linarith

end

section
variable {𝕜 : Type*} [RCLike 𝕜] {F K Q : Type*} {N : ℕ} [LE F] [LT F] [DecidableLE F] [DecidableLT F] [Div F] [Zero F] [BEq F] [Zero K]
variable {p : FlHouseOps F K} {num : K → 𝕜} {fin : K → Prop} {val : F → ℝ} {finF : F → Prop} {u : ℝ}
variable {o : FlGmresOps F K (Fin (N + 1) → K) Q} {U : Q → 𝕜 × 𝕜 →ₗ[𝕜] 𝕜 × 𝕜} {B : Matrix (Fin (N + 1)) (Fin (N + 1)) 𝕜} {α δ g d t c : ℝ} {m : ℕ}

/-- relative error, with respect to the initial residual, of the residual norms -/
noncomputable def houseErr0 (u d g : ℝ) (n : ℕ) : ℝ := houseStart u + d + ((1 + g) ^ n - 1) * (1 + d)

/-- error of the residual norms which belongs to the `j`th coefficient: the Arnoldi relation and the rotations -/
noncomputable def houseErr (u α δ g : ℝ) (j : ℕ) : ℝ := houseDef u α δ j + rotErr g j * houseColN u α δ j

theorem rotErr_nonneg (hg : 0 ≤ g) (j : ℕ) : 0 ≤ rotErr g j := by
  unfold rotErr
  have := one_le_pow₀ (M₀ := ℝ) (by linarith : 1 ≤ 1 + g) (n := j + 1)
  have := pow_nonneg (by linarith : 0 ≤ 1 + g) j
  nlinarith [mul_nonneg hg this]

/-- The number `r0` is finite. -/
theorem FlGmresTrace.start (hr : FlRotation o num fin U g) (hg : 0 ≤ g) {r0 : F} {s : FlGmresSt F K (Fin (N + 1) → K) Q} (ht : FlGmresTrace o r0 s) (hf : FlGmresFin fin s) :
    fin (o.ofReal r0) := by
  have := (flRots_err hr hg s.G (fun i => if i = 0 then o.ofReal r0 else o.zero) (m := s.arn.iter + 1) s.arn.iter (by omega)
    (fun i hi => hf.good ht (by omega)) (fun i hi => by rw [← ht.y]; exact hf.y i (by omega))).1 0 (by omega)
  simpa using this

open Matrix in
/-- The norm of the residual of a combination of the basis vectors and the norm of the residual of the rotated small system agree up to rounding errors. -/
theorem flHouse_rotated (ho : FlHouseAcc p num fin val finF u) (hu : 0 ≤ u) (hu1 : u ≤ 1 / 1000) (hA : FlHouseOp num fin o.A B α δ) (hδ : 0 ≤ δ) (hα : 0 ≤ α)
    (hr : FlRotation o num fin U g) (hg : 0 ≤ g) (hz : p.zero = o.zero) (hof : p.ofReal = o.ofReal) {maxiter : ℕ} {v : Fin (N + 1) → K} {r0 : F}
    (hr0 : finF r0 → |val r0 - vecNorm (numv num v)| ≤ d * vecNorm (numv num v)) {s : FlGmresSt F K (Fin (N + 1) → K) Q × FlHouses F K N}
    (inv : FlGmresHInv p o maxiter v r0 s) (hf : (s.1.arn.withHouses s.2).Finite fin finF) (hf' : FlGmresFin fin s.1) {n : ℕ} (hn : s.1.arn.iter = n) (h0 : 0 < n)
    (z : Fin n → 𝕜) :
    |vecNorm (numv num v - B *ᵥ ∑ j : Fin n, z j • numv num (s.1.arn.V j)) -
      vecNorm (fun i : Fin (n + 1) => num (s.1.y i) - ∑ j : Fin n, if (i : ℕ) ≤ j then num (s.1.R i j) * z j else 0)| ≤
      houseErr0 u d g n * vecNorm (numv num v) + ∑ j : Fin n, ‖z j‖ * houseErr u α δ g j := by
  have hf1 : FlGmresFin fin (s.1.setVnorm r0) := ⟨hf'.R, hf'.y⟩
  have hfr := inv.trace.start hr hg hf1
  rw [← hof] at hfr
  obtain ⟨hfr0, hval⟩ := ho.ofReal hfr
  rw [hof] at hval
  have hβ := hr0 hfr0
  have hrun := inv.run
  rw [hn] at hrun
  have h1 := C86_close ho hu hu1 hA hδ hrun hf h0 hβ z
  have h2 := small_close hr hg (hz ▸ ho.zero) hval inv.trace hf1 (n := n) hn z
  obtain ⟨hs, hinv⟩ := flHouseRun_inv ho hu hu1 hrun hf
  have sh := (flHouseRun_shape hrun).1
  have hw := vecNorm_nonneg (numv num v)
  have hβ' : |val r0| ≤ (1 + d) * vecNorm (numv num v) := by
    have := abs_le.mp hβ
    rw [abs_le]
    constructor
    · nlinarith
    · linarith
  have h3 : ((1 + g) ^ n - 1) * |val r0| ≤ ((1 + g) ^ n - 1) * ((1 + d) * vecNorm (numv num v)) :=
    mul_le_mul_of_nonneg_left hβ' (by have := one_le_pow₀ (M₀ := ℝ) (by linarith : 1 ≤ 1 + g) (n := n); linarith)
  have h4 : ∑ j : Fin n, ‖z j‖ * (rotErr g j * nto (j + 2) fun i => num (s.1.arn.H i j)) ≤ ∑ j : Fin n, ‖z j‖ * (rotErr g j * houseColN u α δ j) := by
    refine Finset.sum_le_sum fun j _ => mul_le_mul_of_nonneg_left (mul_le_mul_of_nonneg_left ?_ (rotErr_nonneg hg j)) (norm_nonneg _)
    exact (flHouse_col ho hu hA hδ hα hinv sh hf (show (j : ℕ) < s.1.arn.iter by have := j.2; omega)).2
  have h5 : ∑ j : Fin n, ‖z j‖ * houseErr u α δ g j = ∑ j : Fin n, ‖z j‖ * houseDef u α δ j + ∑ j : Fin n, ‖z j‖ * (rotErr g j * houseColN u α δ j) := by
    rw [← Finset.sum_add_distrib]
    exact Finset.sum_congr rfl fun j _ => by unfold houseErr; ring
  have h6 := abs_sub_le (vecNorm (numv num v - B *ᵥ ∑ j : Fin n, z j • numv num (s.1.arn.V j)))
    (vecNorm (fun i : Fin (n + 1) => (if (i : ℕ) = 0 then (val r0 : 𝕜) else 0) - ∑ j : Fin n, num (s.1.arn.H i j) * z j))
    (vecNorm (fun i : Fin (n + 1) => num (s.1.y i) - ∑ j : Fin n, if (i : ℕ) ≤ j then num (s.1.R i j) * z j else 0))
  rw [h5]
  unfold houseErr0
  have h1' : |vecNorm (numv num v - B *ᵥ ∑ j : Fin n, z j • numv num (s.1.arn.V j)) -
      vecNorm (fun i : Fin (n + 1) => (if (i : ℕ) = 0 then (val r0 : 𝕜) else 0) - ∑ j : Fin n, num (s.1.arn.H i j) * z j)| ≤ _ := h1
  have h2' : |vecNorm (fun i : Fin (n + 1) => (if (i : ℕ) = 0 then (val r0 : 𝕜) else 0) - ∑ j : Fin n, num (s.1.arn.H i j) * z j) -
      vecNorm (fun i : Fin (n + 1) => num (s.1.y i) - ∑ j : Fin n, if (i : ℕ) ≤ j then num (s.1.R i j) * z j else 0)| ≤
      ((1 + g) ^ n - 1) * |val r0| + ∑ j : Fin n, ‖z j‖ * (rotErr g j * nto (j + 2) fun i => num (s.1.arn.H i j)) := h2
  linarith

open Matrix in
/-- C86: the residual norm `|y[n]|` which `Gmres` updates is a lower bound, up to rounding errors, for the residual norms of all combinations of the computed basis
vectors. -/
theorem C86_optimal (ho : FlHouseAcc p num fin val finF u) (hu : 0 ≤ u) (hu1 : u ≤ 1 / 1000) (hA : FlHouseOp num fin o.A B α δ) (hδ : 0 ≤ δ) (hα : 0 ≤ α)
    (hr : FlRotation o num fin U g) (hg : 0 ≤ g) (hz : p.zero = o.zero) (hof : p.ofReal = o.ofReal) {maxiter : ℕ} {v : Fin (N + 1) → K} {r0 : F}
    (hr0 : finF r0 → |val r0 - vecNorm (numv num v)| ≤ d * vecNorm (numv num v)) {s : FlGmresSt F K (Fin (N + 1) → K) Q × FlHouses F K N}
    (inv : FlGmresHInv p o maxiter v r0 s) (hf : (s.1.arn.withHouses s.2).Finite fin finF) (hf' : FlGmresFin fin s.1) {n : ℕ} (hn : s.1.arn.iter = n) (h0 : 0 < n)
    (z : Fin n → 𝕜) :
    ‖num (s.1.y n)‖ ≤ vecNorm (numv num v - B *ᵥ ∑ j : Fin n, z j • numv num (s.1.arn.V j)) +
      (houseErr0 u d g n * vecNorm (numv num v) + ∑ j : Fin n, ‖z j‖ * houseErr u α δ g j) := by
  have h1 := (abs_le.mp (flHouse_rotated ho hu hu1 hA hδ hα hr hg hz hof hr0 inv hf hf' hn h0 z)).1
  have h2 := (rotated_norm (num := num) (s := s.1) z).1
  linarith

/-- The bound of `C86_residual`. -/
noncomputable def houseGap (u α δ g d t c : ℝ) (n : ℕ) (nv : ℝ) (a : ℕ → ℝ) : ℝ :=
  houseErr0 u d g n * nv + ∑ j ∈ range n, a j * (houseErr u α δ g j + t * (1 + g) ^ (j + 1) * houseColN u α δ j + α * c * (1 + 80 * u) ^ (j + 2))

open Matrix in
/-- C86: let `n` iterations have been carried out and `a` be the result of `solve_triangular`.  Then the norm of the true residual of `yk = V_n a` and the residual
norm `|y[n]|` which `Gmres` updates differ by rounding errors only. -/
theorem C86_residual (ho : FlHouseAcc p num fin val finF u) (hu : 0 ≤ u) (hu1 : u ≤ 1 / 1000) (hA : FlHouseOp num fin o.A B α δ) (hδ : 0 ≤ δ) (hα : 0 ≤ α)
    (hr : FlRotation o num fin U g) (hg : 0 ≤ g) (hz : p.zero = o.zero) (hof : p.ofReal = o.ofReal)
    (hs : FlSolve o (fun x => (WithLp.toLp 2 (numv num x) : EuclideanSpace 𝕜 (Fin (N + 1)))) (fun x => ∀ l, fin (x l)) num fin m t c) (ht0 : 0 ≤ t) (hc0 : 0 ≤ c)
    {maxiter : ℕ} {v : Fin (N + 1) → K} {r0 : F}
    (hr0 : finF r0 → |val r0 - vecNorm (numv num v)| ≤ d * vecNorm (numv num v)) {s : FlGmresSt F K (Fin (N + 1) → K) Q × FlHouses F K N}
    (inv : FlGmresHInv p o maxiter v r0 s) (hf : (s.1.arn.withHouses s.2).Finite fin finF) (hf' : FlGmresFin fin s.1) {n : ℕ} (hn : s.1.arn.iter = n) (h0 : 0 < n)
    (hnm : n ≤ m) {a : ℕ → K} (ha : o.solve n s.1.R s.1.y = .ok a) (hy : ∀ l, fin (flGmresYk o s.1 a l)) :
    |vecNorm (numv num v - B *ᵥ numv num (flGmresYk o s.1 a)) - ‖num (s.1.y n)‖| ≤ houseGap u α δ g d t c n (vecNorm (numv num v)) fun j => ‖num (a j)‖ := by
  have hyk : flGmresYk o s.1 a = o.comb n s.1.arn.V a := by unfold flGmresYk; rw [hn]
  rw [hyk] at hy ⊢
  obtain ⟨hfa, hcomb⟩ := hs.comb hnm hy
  have h1 := abs_le.mp (flHouse_rotated ho hu hu1 hA hδ hα hr hg hz hof hr0 inv hf hf' hn h0 fun j : Fin n => num (a j))
  have h2 := rotated_norm (num := num) (s := s.1) fun j : Fin n => num (a j)
  have h3 := solve_norm hs ht0 hnm ha hfa (fun i hi => hf'.y i (by omega)) fun j hj i hi => hf'.R j (by omega) i (by omega)
  have hrun := inv.run
  rw [hn] at hrun
  obtain ⟨hs', hinv⟩ := flHouseRun_inv ho hu hu1 hrun hf
  have sh := (flHouseRun_shape hrun).1
  have hcol : ∀ j : Fin n, vecNorm (numv num (s.1.arn.V j)) ≤ (1 + 80 * u) ^ ((j : ℕ) + 2) ∧ nto (j + 2) (fun i => num (s.1.arn.H i j)) ≤ houseColN u α δ j :=
    fun j => flHouse_col ho hu hA hδ hα hinv sh hf (show (j : ℕ) < s.1.arn.iter by have := j.2; omega)
  have h4 : ∑ j : Fin n, ‖num (a j)‖ * (t * nto (j + 1) fun i => num (s.1.R i j)) ≤ ∑ j : Fin n, ‖num (a j)‖ * (t * (1 + g) ^ ((j : ℕ) + 1) * houseColN u α δ j) := by
    refine Finset.sum_le_sum fun j _ => mul_le_mul_of_nonneg_left ?_ (norm_nonneg _)
    have e1 : nto (j + 1) (fun i => num (s.1.R i j)) ≤ (1 + g) ^ ((j : ℕ) + 1) * nto (j + 2) fun i => num (s.1.arn.H i j) :=
      C80_columns hr hg (hz ▸ ho.zero) inv.trace ⟨hf'.R, hf'.y⟩ (show (j : ℕ) < s.1.arn.iter by have := j.2; omega)
    have e2 := mul_le_mul_of_nonneg_left (e1.trans (mul_le_mul_of_nonneg_left (hcol j).2 (pow_nonneg (by linarith) _))) ht0
    linarith
  -- the linear combination
  have h5 : vecNorm (numv num (o.comb n s.1.arn.V a) - ∑ j : Fin n, num (a j) • numv num (s.1.arn.V j)) ≤ ∑ j : Fin n, ‖num (a j)‖ * (c * (1 + 80 * u) ^ ((j : ℕ) + 2)) := by
    rw [vecNorm_toLp, WithLp.toLp_sub, WithLp.toLp_sum]
    have e : ∑ j : Fin n, WithLp.toLp 2 (num (a j) • numv num (s.1.arn.V j)) =
        ∑ j ∈ range n, num (a j) • (WithLp.toLp 2 (numv num (s.1.arn.V j)) : EuclideanSpace 𝕜 (Fin (N + 1))) := by
      rw [Finset.sum_range]
      exact Finset.sum_congr rfl fun j _ => WithLp.toLp_smul 2 _ _
    rw [e]
    refine hcomb.trans ?_
    rw [Finset.mul_sum, Finset.sum_range]
    refine Finset.sum_le_sum fun j _ => ?_
    rw [← vecNorm_toLp]
    have := mul_le_mul_of_nonneg_left (mul_le_mul_of_nonneg_left (hcol j).1 (norm_nonneg (num (a j)))) hc0
    linarith
  have h6 : vecNorm (B *ᵥ (numv num (o.comb n s.1.arn.V a) - ∑ j : Fin n, num (a j) • numv num (s.1.arn.V j))) ≤
      ∑ j : Fin n, ‖num (a j)‖ * (α * c * (1 + 80 * u) ^ ((j : ℕ) + 2)) := by
    refine (hA.norm _).trans ((mul_le_mul_of_nonneg_left h5 hα).trans (le_of_eq ?_))
    rw [Finset.mul_sum]
    exact Finset.sum_congr rfl fun j _ => by ring
  have h7 : houseGap u α δ g d t c n (vecNorm (numv num v)) (fun j => ‖num (a j)‖) = houseErr0 u d g n * vecNorm (numv num v) +
      ∑ j : Fin n, ‖num (a j)‖ * houseErr u α δ g j + ∑ j : Fin n, ‖num (a j)‖ * (t * (1 + g) ^ ((j : ℕ) + 1) * houseColN u α δ j) +
      ∑ j : Fin n, ‖num (a j)‖ * (α * c * (1 + 80 * u) ^ ((j : ℕ) + 2)) := by
    unfold houseGap
    rw [Finset.sum_range, add_assoc, add_assoc, ← Finset.sum_add_distrib, ← Finset.sum_add_distrib]
    congr 1
    exact Finset.sum_congr rfl fun j _ => by ring
  rw [h7]
  set y := numv num (o.comb n s.1.arn.V a)
  set y' := ∑ j : Fin n, num (a j) • numv num (s.1.arn.V j)
  set w := numv num v
  have e1 := vecNorm_sub_le' (w - B *ᵥ y') (B *ᵥ (y - y'))
  have e2 := vecNorm_add_le' (w - B *ᵥ y) (B *ᵥ (y - y'))
  have e3 : w - B *ᵥ y' - B *ᵥ (y - y') = w - B *ᵥ y := by rw [Matrix.mulVec_sub]; abel
  have e4 : w - B *ᵥ y + B *ᵥ (y - y') = w - B *ᵥ y' := by rw [Matrix.mulVec_sub]; abel
  rw [e3] at e1
  rw [e4] at e2
  have p1 : 0 ≤ ∑ j : Fin n, ‖num (a j)‖ * (t * (1 + g) ^ ((j : ℕ) + 1) * houseColN u α δ j) :=
    Finset.sum_nonneg fun j _ => mul_nonneg (norm_nonneg _) (mul_nonneg (mul_nonneg ht0 (pow_nonneg (by linarith) _)) ((nto_nonneg _ _).trans (hcol j).2))
  rw [abs_le]
  constructor <;> linarith

open Matrix in
/-- C86: the computed approximation is optimal up to rounding errors: no combination of the computed basis vectors has a residual norm which is smaller by more than
rounding errors. -/
theorem C86_minimal (ho : FlHouseAcc p num fin val finF u) (hu : 0 ≤ u) (hu1 : u ≤ 1 / 1000) (hA : FlHouseOp num fin o.A B α δ) (hδ : 0 ≤ δ) (hα : 0 ≤ α)
    (hr : FlRotation o num fin U g) (hg : 0 ≤ g) (hz : p.zero = o.zero) (hof : p.ofReal = o.ofReal)
    (hs : FlSolve o (fun x => (WithLp.toLp 2 (numv num x) : EuclideanSpace 𝕜 (Fin (N + 1)))) (fun x => ∀ l, fin (x l)) num fin m t c) (ht0 : 0 ≤ t) (hc0 : 0 ≤ c)
    {maxiter : ℕ} {v : Fin (N + 1) → K} {r0 : F}
    (hr0 : finF r0 → |val r0 - vecNorm (numv num v)| ≤ d * vecNorm (numv num v)) {s : FlGmresSt F K (Fin (N + 1) → K) Q × FlHouses F K N}
    (inv : FlGmresHInv p o maxiter v r0 s) (hf : (s.1.arn.withHouses s.2).Finite fin finF) (hf' : FlGmresFin fin s.1) {n : ℕ} (hn : s.1.arn.iter = n) (h0 : 0 < n)
    (hnm : n ≤ m) {a : ℕ → K} (ha : o.solve n s.1.R s.1.y = .ok a) (hy : ∀ l, fin (flGmresYk o s.1 a l)) (z : Fin n → 𝕜) :
    vecNorm (numv num v - B *ᵥ numv num (flGmresYk o s.1 a)) ≤ vecNorm (numv num v - B *ᵥ ∑ j : Fin n, z j • numv num (s.1.arn.V j)) +
      (houseErr0 u d g n * vecNorm (numv num v) + ∑ j : Fin n, ‖z j‖ * houseErr u α δ g j) +
      houseGap u α δ g d t c n (vecNorm (numv num v)) fun j => ‖num (a j)‖ := by
  have h1 := C86_optimal ho hu hu1 hA hδ hα hr hg hz hof hr0 inv hf hf' hn h0 z
  have h2 := (abs_le.mp (C86_residual ho hu hu1 hA hδ hα hr hg hz hof hs ht0 hc0 hr0 inv hf hf' hn h0 hnm ha hy)).2
  linarith

open Matrix in
/-- C86: the vector which `Gmres` returns (or attaches to a `ConvergenceError`) after at least one iteration for a system without preconditioners: its
true residual norm and the residual norm `|y[n]|` which `Gmres` updates differ by the error of the initial residual and rounding errors only. -/
theorem C86_solution {cfg : Cfg F (Fin (N + 1) → K)} (ho : FlHouseAcc p num fin val finF u) (hu : 0 ≤ u) (hu1 : u ≤ 1 / 1000) (hA : FlHouseOp num fin o.A B α δ)
    (hδ : 0 ≤ δ) (hα : 0 ≤ α) (hr : FlRotation o num fin U g) (hg : 0 ≤ g) (hz : p.zero = o.zero) (hof : p.ofReal = o.ofReal)
    (hs : FlSolve o (fun x => (WithLp.toLp 2 (numv num x) : EuclideanSpace 𝕜 (Fin (N + 1)))) (fun x => ∀ l, fin (x l)) num fin m t c) (ht0 : 0 ≤ t) (hc0 : 0 ≤ c)
    (hadd : ∀ {x y}, (∀ l, fin (o.add x y l)) → (∀ l, fin (y l)) ∧ vecNorm (numv num (o.add x y) - (numv num x + numv num y)) ≤ u * vecNorm (numv num x + numv num y))
    (hMr : ∀ x, o.Mr x = x) {g0 : Q} {x0 Mlr0 : Fin (N + 1) → K} {r0 : F}
    (hr0 : finF r0 → |val r0 - vecNorm (numv num Mlr0)| ≤ d * vecNorm (numv num Mlr0)) (hb : (cfg.MMlbNorm == 0) = false)
    {st : St F (Fin (N + 1) → K) (FlGmresSt F K (Fin (N + 1) → K) Q × FlHouses F K N)}
    (h : flGmresHouse cfg p o g0 .ok x0 Mlr0 r0 = .returned st ∨ flGmresHouse cfg p o g0 .ok x0 Mlr0 r0 = .convergence st)
    (hf : (st.s.1.arn.withHouses st.s.2).Finite fin finF) (hf' : FlGmresFin fin st.s.1) {n : ℕ} (hn : st.s.1.arn.iter = n) (h0 : 0 < n) (hnm : n ≤ m)
    {x : Fin (N + 1) → K} (hx : st.xk = some x) (hfx : ∀ l, fin (x l)) (b : Fin (N + 1) → 𝕜) :
    ∃ a, o.solve n st.s.1.R st.s.1.y = .ok a ∧ x = o.add x0 (flGmresYk o st.s.1 a) ∧
      |vecNorm (b - B *ᵥ numv num x) - ‖num (st.s.1.y n)‖| ≤ vecNorm (b - B *ᵥ numv num x0 - numv num Mlr0) +
        houseGap u α δ g d t c n (vecNorm (numv num Mlr0)) (fun j => ‖num (a j)‖) + α * (u * vecNorm (numv num x0 + numv num (flGmresYk o st.s.1 a))) := by
  obtain ⟨inv, hsx⟩ := C86_trace hz h
  have hxk := flGmresHouse_xk hb h hx
  unfold flGmresXk at hxk
  rw [if_pos (by omega)] at hxk
  split at hxk
  · cases hxk
  next a ha =>
  have hxe := (Except.ok.inj hxk).symm
  rw [hMr, hsx, hb] at hxe
  simp only [Bool.false_eq_true, if_false] at hxe
  rw [hn] at ha
  refine ⟨a, ha, hxe, ?_⟩
  rw [hxe] at hfx ⊢
  obtain ⟨hfy, hae⟩ := hadd hfx
  have hres := C86_residual ho hu hu1 hA hδ hα hr hg hz hof hs ht0 hc0 hr0 inv hf hf' hn h0 hnm ha hfy
  set y := numv num (flGmresYk o st.s.1 a)
  set w := numv num Mlr0
  set q := numv num x0
  set x' := numv num (o.add x0 (flGmresYk o st.s.1 a))
  have e1 : b - B *ᵥ x' = (w - B *ᵥ y) + ((b - B *ᵥ q - w) - B *ᵥ (x' - (q + y))) := by
    rw [Matrix.mulVec_sub, Matrix.mulVec_add]; abel
  have e2 : w - B *ᵥ y = (b - B *ᵥ x') - ((b - B *ᵥ q - w) - B *ᵥ (x' - (q + y))) := by
    rw [Matrix.mulVec_sub, Matrix.mulVec_add]; abel
  have n1 := vecNorm_add_le' (w - B *ᵥ y) ((b - B *ᵥ q - w) - B *ᵥ (x' - (q + y)))
  have n2 := vecNorm_sub_le' (b - B *ᵥ x') ((b - B *ᵥ q - w) - B *ᵥ (x' - (q + y)))
  rw [← e1] at n1
  rw [← e2] at n2
  have n3 := vecNorm_sub_le' (b - B *ᵥ q - w) (B *ᵥ (x' - (q + y)))
  have n4 := (hA.norm (x' - (q + y))).trans (mul_le_mul_of_nonneg_left hae hα)
  have hres' := abs_le.mp hres
  rw [abs_le]
  constructor <;> linarith [hres'.1, hres'.2]

open Matrix in
/-- C86: if `Gmres` with `ortho="house"` in real double precision returns with `resnorms[-1] <= tol`, then the exact residual of the returned vector is small (C77). -/
theorem C86_converged (h1 : N + 1 ≤ 1000000) {val : F → Option ℝ} {A : Matrix (Fin (N + 1)) (Fin (N + 1)) 𝕜} {b : Fin (N + 1) → 𝕜}
    {vec : (Fin (N + 1) → K) → Fin (N + 1) → 𝕜} {cfg : Cfg F (Fin (N + 1) → K)} {t B : ℝ} (hc : FlCall flDouble val A b vec cfg t B) (hB : B ≠ 0) {g0 : Q}
    {x0 Mlr0 : Fin (N + 1) → K} {r0 : F} (hr0 : cfg.resNorm x0 = .ok r0) {st : St F (Fin (N + 1) → K) (FlGmresSt F K (Fin (N + 1) → K) Q × FlHouses F K N)}
    (h : flGmresHouse cfg p o g0 .ok x0 Mlr0 r0 = .returned st) {r : F} {q : ℝ} (hr : st.resnorms.getLast? = some r) (hq : val r = some q) (hle : r ≤ cfg.tol) :
    ∃ x, st.xk = some x ∧
      vecNorm (b - A *ᵥ vec x) ≤ (1 + 1 / 10 ^ 9) * t * vecNorm b + 1.2 / 10 ^ 10 * vecNorm (fun i => ∑ j, ‖A i j‖ * ‖vec x j‖) := by
  unfold flGmresHouse at h
  dsimp only at h
  have hk0 : ∀ x, (flGmresHMethod p o .ok cfg.maxiter).k (flGmresInit o g0 (flHouseInit p Mlr0).toFl r0 x, (flHouseInit p Mlr0).houses) = 0 := fun _ => flHouseInit_iter p Mlr0
  refine C77_double (by omega) h1 hc hB (flGmresHMethod_lawful p o .ok cfg.maxiter) hk0 (fun x hx => ?_) h hr hq hle
  change flGmresXk o .ok (flGmresInit o g0 (flHouseInit p Mlr0).toFl r0 x0) = .ok x at hx
  unfold flGmresXk at hx
  rw [if_neg (by change ¬ 0 < (flHouseInit p Mlr0).iter; rw [flHouseInit_iter]; exact lt_irrefl 0)] at hx
  have := Except.ok.inj hx
  rw [← this]
  exact hr0

end

/-! ## Exact operations -/

section
variable {𝕜 : Type*} [RCLike 𝕜] {N : ℕ}

/-- Corresponding states. -/
structure FlGmresHRel (a : GmresSt 𝕜 (Fin (N + 1) → 𝕜) × Houses 𝕜 N) (b : FlGmresSt ℝ 𝕜 (Fin (N + 1) → 𝕜) (Givens 𝕜) × FlHouses ℝ 𝕜 N) : Prop where
  arn : (b.1.arn.withHouses b.2).toHArn = ⟨a.1.arn, a.2⟩
  x0 : a.1.x0 = b.1.x0
  G : a.1.G = b.1.G
  R : a.1.R = b.1.R
  y : a.1.y = b.1.y

theorem flGmresH_sim (s : LS 𝕜 (Fin (N + 1) → 𝕜)) (c : ArnCfg 𝕜 (Fin (N + 1) → 𝕜)) (post : (Fin (N + 1) → 𝕜) → Except Err (Fin (N + 1) → 𝕜)) (maxiter : ℕ) :
    Sim (gmresMethodHouse c.A s.Mr post maxiter) (flGmresHMethod exactHouse (exactGmres s c) post maxiter) FlGmresHRel where
  more {a b} h := by
    have h1 : b.1.arn.iter = a.1.arn.iter := congrArg (fun t : HArn 𝕜 N => t.arn.iter) h.arn
    have h2 : b.1.arn.invariant = a.1.arn.invariant := congrArg (fun t : HArn 𝕜 N => t.arn.invariant) h.arn
    simp only [gmresMethodHouse, flGmresHMethod, h1, h2]
  k {a b} h := by
    have h1 : b.1.arn.iter = a.1.arn.iter := congrArg (fun t : HArn 𝕜 N => t.arn.iter) h.arn
    simp only [gmresMethodHouse, flGmresHMethod, h1]
  count := rfl
  post h := h
  getXk {a b x} h hx := by
    change gmresXk s.Mr post a.1 = .ok x at hx
    change flGmresXk (exactGmres s c) post b.1 = .ok x
    unfold gmresXk at hx
    unfold flGmresXk flGmresYk
    have hi : b.1.arn.iter = a.1.arn.iter := congrArg (fun t : HArn 𝕜 N => t.arn.iter) h.arn
    have hV : b.1.arn.V = a.1.arn.V := congrArg (fun t : HArn 𝕜 N => t.arn.V) h.arn
    rw [hi, hV, ← h.R, ← h.y, ← h.x0]
    dsimp only at hx
    by_cases h0 : 0 < a.1.arn.iter
    · rw [if_pos h0] at hx ⊢
      cases hs : solveUpper (Matrix.of fun i j : Fin a.1.arn.iter => a.1.R i j) (fun i : Fin a.1.arn.iter => a.1.y i) with
      | error e => rw [hs] at hx; cases hx
      | ok yy =>
        rw [hs] at hx
        have e1 : (exactGmres s c).solve a.1.arn.iter a.1.R a.1.y = .ok fun i => if h : i < a.1.arn.iter then yy ⟨i, h⟩ else 0 := by
          simp only [exactGmres, hs]
        rw [e1]
        dsimp only at hx ⊢
        rw [← hx]
        simp [exactGmres]
    · rw [if_neg h0] at hx ⊢
      exact hx
  step {a b a' r} h hs := by
    change gmresStepHouse c.A maxiter a = .ok (a', r) at hs
    change ∃ b', flGmresHStep exactHouse (exactGmres s c) maxiter b = .ok (b', r) ∧ _
    unfold gmresStepHouse at hs
    split at hs
    · cases hs
    next hh har =>
    unfold gmresStep at hs
    dsimp only at hs
    simp only [Except.ok.injEq, Prod.mk.injEq] at hs
    obtain ⟨rfl, rfl⟩ := hs
    have hi : b.1.arn.iter = a.1.arn.iter := congrArg (fun t : HArn 𝕜 N => t.arn.iter) h.arn
    rw [← h.arn, C85_refines_advance] at har
    cases hadv : flHouseAdvance exactHouse c.A maxiter (b.1.arn.withHouses b.2) with
    | error e => rw [hadv] at har; cases har
    | ok ar =>
    rw [hadv] at har
    have hh' : ar.toHArn = hh := Except.ok.inj har
    subst hh'
    unfold flGmresHStep
    dsimp only
    have hadv' : flHouseAdvance exactHouse (exactGmres s c).A maxiter (b.1.arn.withHouses b.2) = .ok ar := hadv
    rw [hadv']
    dsimp only
    simp only [flRots_exact, flRot_exact, ← h.x0, ← h.G, ← h.R, ← h.y, hi]
    refine ⟨_, rfl, ⟨rfl, rfl, rfl, ?_, rfl⟩⟩
    funext i j
    rfl

/-- C86: with exact operations `flGmresHouse` does what the exact model of `Gmres` with `ortho="house"` (C19) does: the same outcome, residual norms, error norms,
approximation, number of iterations and warnings. -/
theorem C86_refines {s : LS 𝕜 (Fin (N + 1) → 𝕜)} {hk : Hooks 𝕜 (Fin (N + 1) → 𝕜)} {a : SolverArgs (Fin (N + 1) → 𝕜)} {MMlr0 Mlr0 : Fin (N + 1) → 𝕜} {r0 : ℝ} (ortho : Ortho)
    (hi : hk.initRes a.x0 = .ok (MMlr0, Mlr0, r0)) :
    (∀ st, gmresHouse s hk true a = .returned st → ∃ t, flGmresHouse (mkCfg s a) exactHouse (exactGmres s (s.arnCfg hk a.maxiter ortho)) ⟨1, 0, 0⟩ hk.post (a.x0.getD 0) Mlr0 r0 =
      .returned (st.setS t) ∧ FlGmresHRel st.s t) ∧
    (∀ st, gmresHouse s hk true a = .convergence st → ∃ t, flGmresHouse (mkCfg s a) exactHouse (exactGmres s (s.arnCfg hk a.maxiter ortho)) ⟨1, 0, 0⟩ hk.post (a.x0.getD 0) Mlr0 r0 =
      .convergence (st.setS t) ∧ FlGmresHRel st.s t) := by
  set c := s.arnCfg hk a.maxiter ortho with hc
  have hg : gmresHouse s hk true a = run (mkCfg s a) (gmresMethodHouse hk.op s.Mr hk.post a.maxiter) (a.x0.getD 0) r0
      (fun x => (gmresInit (flHouseInit exactHouse Mlr0).toHArn.arn r0 x, (flHouseInit exactHouse Mlr0).toHArn.houses)) hk.post := by
    unfold gmresHouse
    rw [hi]
    dsimp only
    rw [C85_refines_init]
  have hrel : ∀ x, FlGmresHRel (gmresInit (flHouseInit exactHouse Mlr0).toHArn.arn r0 x, (flHouseInit exactHouse Mlr0).toHArn.houses)
      (flGmresInit (exactGmres s c) ⟨1, 0, 0⟩ (flHouseInit exactHouse Mlr0).toFl r0 x, (flHouseInit exactHouse Mlr0).houses) :=
    fun x => ⟨rfl, rfl, rfl, rfl, rfl⟩
  have := run_sim (cfg := mkCfg s a) (x0 := a.x0.getD 0) (r := r0) (xk0 := hk.post) (flGmresH_sim s c hk.post a.maxiter)
    (mk₁ := fun x => (gmresInit (flHouseInit exactHouse Mlr0).toHArn.arn r0 x, (flHouseInit exactHouse Mlr0).toHArn.houses))
    (mk₂ := fun x => (flGmresInit (exactGmres s c) ⟨1, 0, 0⟩ (flHouseInit exactHouse Mlr0).toFl r0 x, (flHouseInit exactHouse Mlr0).houses)) (hrel _)
  rw [hg]
  exact this

end

/-! ## A concrete case -/

/-- A run with `maxiter=1`. -/
theorem run_one {F X S : Type*} [LE F] [LT F] [DecidableLE F] [DecidableLT F] [Div F] [Zero F] [BEq F] [Zero X] {cfg : Cfg F X} {met : Method F X S} {x0 : X} {r0 : F}
    {mk : X → S} {xk0 : X → Except Err X} (hmax : cfg.maxiter = 1) (hb : (cfg.MMlbNorm == 0) = false) (herr : cfg.errNorm = none)
    (htol : cfg.tol < r0 / cfg.MMlbNorm) (hk : met.k (mk x0) = 0) (hc : met.countAfter = false) (hpost : ∀ s r, met.post s r = s) (hm : met.more (mk x0) = true)
    {s1 : S} {r : F} (hstep : met.step (mk x0) = .ok (s1, r)) {x : X} (hx : met.getXk s1 = .ok x) {rn : F} (hrn : cfg.resNorm x = .ok rn) (hm1 : met.more s1 = false) :
    ∃ st, (run cfg met x0 r0 mk xk0 = .returned st ∨ run cfg met x0 r0 mk xk0 = .convergence st) ∧ st.s = s1 ∧ st.xk = some x := by
  set st0 : St F X S := ⟨mk x0, 0, none, [r0 / cfg.MMlbNorm], none, 0⟩ with hst0
  set stn : St F X S := ⟨s1, 0, some x, [r0 / cfg.MMlbNorm, rn / cfg.MMlbNorm], none, 0⟩ with hstn
  refine ⟨stn, ?_, rfl, rfl⟩
  have hbody : body cfg met st0 = .convergence stn ∨ body cfg met st0 = .ok stn := by
    unfold body
    simp only [hst0, hk, hstep, finalizeIteration, withErr, herr, wantExplicit, hmax, hx, hrn, hpost, hc]
    by_cases hpos : cfg.tol < rn / cfg.MMlbNorm
    · left
      simp [hpos, hstn]
    · right
      simp [hpos, hstn]
  have hrun : run cfg met x0 r0 mk xk0 = loop cfg met 1 st0 := by
    unfold run
    simp [initErr, herr, hb, hmax, hst0]
  have hguard : loopGuard cfg met st0 = true := by simp [loopGuard, hst0, htol, hm]
  rw [hrun]
  unfold loop
  rw [if_pos hguard]
  dsimp only
  rcases hbody with hb | hb
  · rw [hb]
    exact .inr rfl
  · rw [hb]
    left
    have hg2 : loopGuard cfg met stn = false := by simp [loopGuard, hstn, hm1]
    dsimp only
    unfold loop
    rw [hg2]
    simp [finish, hstn]

/-- Exact rotations, back substitution for one unknown, linear combinations of at most one vector, real numbers with NaN and the cyclic shift of three entries. -/
noncomputable def exGmresOps : FlGmresOps (Option ℝ) (Option ℝ) (Fin 3 → Option ℝ) (ℝ × ℝ) where
  A := flShift
  M := none
  sub x y l := exHouseOps.sub (x l) (y l)
  scale a x l := exHouseOps.mul a (x l)
  sdiv x r l := exHouseOps.div (x l) r
  ip x y := exHouseOps.dot 3 x y
  re a := a
  acc := exHouseOps.add
  zero := some 0
  ofReal := exHouseOps.ofReal
  norm x _ := .ok (exHouseOps.norm 3 x)
  tiny _ _ _ _ := false
  pos := exHouseOps.pos
  rotg a b := if a.getD 0 = 0 ∧ b.getD 0 = 0 then (1, 0) else
    (a.getD 0 / √(a.getD 0 ^ 2 + b.getD 0 ^ 2), b.getD 0 / √(a.getD 0 ^ 2 + b.getD 0 ^ 2))
  apply q p := (exOp2 (fun a b => q.1 * a + q.2 * b) p.1 p.2, exOp2 (fun a b => -q.2 * a + q.1 * b) p.1 p.2)
  absK a := exHouseOps.abs a
  solve k R y := if k = 1 ∧ exNum (R 0 0) ≠ 0 then .ok fun _ => exOdiv (y 0) (R 0 0) else .error .linAlgError
  comb k V a := if k = 1 then fun l => exHouseOps.mul (a 0) (V 0 l) else if k = 0 then fun _ => some 0 else fun _ => none
  Mr := id
  add x y l := exHouseOps.add (x l) (y l)

theorem exGmres_unit (a b : Option ℝ) : (exGmresOps.rotg a b).1 ^ 2 + ‖(exGmresOps.rotg a b).2‖ ^ 2 = 1 := by
  simp only [exGmresOps]
  split_ifs with h
  · simp
  · have hp : 0 < a.getD 0 ^ 2 + b.getD 0 ^ 2 := by
      rcases not_and_or.mp h with h | h <;> positivity
    rw [Real.norm_eq_abs, sq_abs, div_pow, div_pow, Real.sq_sqrt hp.le, ← add_div, div_self hp.ne']

theorem exGmres_rotation : FlRotation (𝕜 := ℝ) exGmresOps exNum exFin (fun q => rotLin (nearRot 0 q)) 0 where
  iso q p := rotLin_norm (nearRot_unit 0 q) p
  apply {q a b} hq h1 _ := by
    obtain ⟨a', b', rfl, -⟩ := hq
    obtain ⟨x, y, rfl, rfl, -⟩ := exOp2_some (f := fun a b => _) h1
    refine ⟨rfl, rfl, ?_⟩
    rw [nearRot_exact (exGmres_unit a' b')]
    simp [exGmresOps, exOp2, rotLin, pairNorm]
  rotg {a b} h1 _ := by
    obtain ⟨x, y, rfl, rfl, -⟩ := exOp2_some (f := fun a b => _) h1
    rw [nearRot_exact (exGmres_unit (some x) (some y))]
    simp only [exGmresOps, rotLin, Option.getD_some]
    split_ifs with h
    · simp [h.1, h.2]
    · simp
      ring_nf

theorem exGmres_solve : FlSolve (𝕜 := ℝ) exGmresOps (fun x => (WithLp.toLp 2 (numv exNum x) : EuclideanSpace ℝ (Fin 3))) (fun x => ∀ l, exFin (x l)) exNum exFin 1 0 (1 / 1000) where
  solve {k R y a} _ h ha _ _ i hi := by
    simp only [exGmresOps] at h
    split_ifs at h with hk
    obtain ⟨rfl, h0⟩ := hk
    obtain rfl := Except.ok.inj h
    obtain rfl : i = 0 := by omega
    obtain ⟨p, q, e1, e2, hq, e3⟩ := exOdiv_some (ha 0 (by omega))
    simp [e1, e2, exOdiv, hq, mul_div_cancel₀]
  comb {k V a} hk h := by
    rcases Nat.lt_or_ge k 1 with h0 | h0
    · obtain rfl : k = 0 := by omega
      refine ⟨fun i hi => by omega, ?_⟩
      have e : numv exNum (exGmresOps.comb 0 V a) = 0 := by
        funext l
        simp [numv, exGmresOps]
      simp [e]
    · obtain rfl : k = 1 := by omega
      have hm : ∀ l, exFin (exHouseOps.mul (a 0) (V 0 l)) := h
      refine ⟨fun i hi => ?_, ?_⟩
      · obtain rfl : i = 0 := by omega
        exact (exHouseAcc.mul (hm 0)).1
      · rw [Finset.sum_range_one, Finset.sum_range_one, ← WithLp.toLp_smul, ← WithLp.toLp_sub, ← vecNorm_toLp, ← vecNorm_toLp, ← vecNorm_smul]
        refine vecNorm_le_of (by norm_num) fun l => ?_
        exact (exHouseAcc.mul (hm l)).2.2

section
noncomputable local instance : LE (Option ℝ) := ⟨fun a b => ∃ x y, a = some x ∧ b = some y ∧ x ≤ y⟩
noncomputable local instance : LT (Option ℝ) := ⟨fun a b => ∃ x y, a = some x ∧ b = some y ∧ x < y⟩
noncomputable local instance : DecidableLE (Option ℝ) := Classical.decRel _
noncomputable local instance : DecidableLT (Option ℝ) := Classical.decRel _
noncomputable local instance : Div (Option ℝ) := ⟨exOdiv⟩
local instance : Zero (Option ℝ) := ⟨some 0⟩
noncomputable local instance : BEq (Option ℝ) := ⟨fun a b => decide (a = b)⟩

/-- the start vector -/
def exV : Fin 3 → Option ℝ := ![some 1, some 2, some 2]

theorem exV_fin : ∀ i, exFin (exV i) := fun i => by fin_cases i <;> rfl

theorem exV_norm : vecNorm (fun i => exNum (exV i)) = 3 := by
  unfold vecNorm
  rw [Fin.sum_univ_three, show (3 : ℝ) = √(3 ^ 2) by rw [Real.sqrt_sq]; norm_num]
  congr 1
  simp [exV]
  norm_num

theorem exV_norm' : exHouseOps.norm 3 exV = some 3 := by
  have : exHouseOps.norm 3 exV = some (vecNorm fun i => exNum (exV i)) := exOsum_fin (f := fun _ x _ => vecNorm x) exV_fin exV_fin
  rw [this, exV_norm]

/-- One step of `Arnoldi` with ortho="house" for the shift. -/
theorem exStep : ∃ a, flHouseAdvance exHouseOps flShift 1 (flHouseInit exHouseOps exV) = .ok a ∧ a.iter = 1 ∧ a.invariant = false ∧ exFin a.vnorm ∧
    (∀ j, (a.houses j).Finite exFin exFin) ∧ (∀ i l, exFin (a.V i l)) ∧ (∀ i j, exFin (a.H i j)) ∧ ¬ (exNum (a.H 0 0) = 0 ∧ exNum (a.H 1 0) = 0) := by
  have hp : exHouseOps.pos (exHouseOps.norm 3 exV) = true := by rw [exV_norm']; simp [exHouseOps]
  have hi := flHouseInit_iter exHouseOps exV
  have hinv : (flHouseInit exHouseOps exV).invariant = false := by
    unfold flHouseInit
    dsimp only
    rw [if_pos hp]
  obtain ⟨a, ha, h1, h2⟩ : ∃ a, flHouseAdvance exHouseOps flShift 1 (flHouseInit exHouseOps exV) = .ok a ∧ a.iter = 1 ∧ a.invariant = false := by
    unfold flHouseAdvance
    rw [if_neg (by omega), if_neg (by rw [hinv]; exact Bool.false_ne_true)]
    dsimp only
    rw [if_neg (by exact Bool.false_ne_true), if_neg (by omega)]
    exact ⟨_, rfl, by rw [hi], rfl⟩
  have hr : flHouseRun exHouseOps flShift 1 exV 1 = .ok a := ha
  obtain ⟨f1, f2, f3, f4⟩ := exRun_fin (fun x hx i => by fin_cases i <;> exact hx _) exV_fin hr
  refine ⟨a, ha, h1, h2, f1, f2, f3, f4, fun hz => ?_⟩
  obtain ⟨hs, inv⟩ := flHouseRun_inv exHouseAcc (by norm_num) le_rfl hr ⟨f1, fun j _ _ => f2 j, fun i _ l => f3 i l, fun j _ i _ => f4 i j⟩
  have hrel := inv.rel 0 (by omega)
  rw [Finset.sum_range_succ, Finset.sum_range_one, hz.1, hz.2, zero_smul, zero_smul, add_zero, sub_zero] at hrel
  have hc : (1 + 80 * (1 / 1000 : ℝ)) ^ (2 * 0 + 5) - 1 < 1 := by norm_num
  have h0 := vecNorm_nonneg (numv exNum (flShift (a.V 0)))
  have h3 : vecNorm (numv exNum (flShift (a.V 0))) = 0 := by nlinarith
  have h4 := congrFun (vecNorm_eq_zero.mp h3) 1
  have h5 : exNum (a.V 0 0) = 0 := h4
  have h6 := (flHouseRun_shape hr).1.first (.inl (by omega)) 0
  rw [exV_norm'] at h6
  have h7 : a.V 0 0 = some (1 / 3) := by
    rw [h6]
    simp [exHouseOps, exOdiv, exV]
  rw [h7] at h5
  norm_num at h5

/-- The hypotheses of `C86_solution` (and of `C86_residual`, `C86_minimal`, `C86_optimal`, `C86_close`) are met in this arithmetic by a call with one iteration. -/
example : ∃ st x a, (flGmresHouse (⟨some 0, 1, false, some 3, fun x => .ok (exHouseOps.norm 3 (exGmresOps.sub exV (flShift x))), none⟩ : Cfg (Option ℝ) (Fin 3 → Option ℝ)) exHouseOps
      exGmresOps (1, 0) .ok (fun _ => some 0) exV (some 3) = .returned st ∨ flGmresHouse (⟨some 0, 1, false, some 3, fun x => .ok (exHouseOps.norm 3 (exGmresOps.sub exV (flShift x))), none⟩ :
      Cfg (Option ℝ) (Fin 3 → Option ℝ)) exHouseOps exGmresOps (1, 0) .ok (fun _ => some 0) exV (some 3) = .convergence st) ∧ st.s.1.arn.iter = 1 ∧ st.xk = some x ∧
      exGmresOps.solve 1 st.s.1.R st.s.1.y = .ok a ∧
      |vecNorm (![1, 2, 2] - Matrix.mulVec flShiftMat (numv exNum x)) - ‖exNum (st.s.1.y 1)‖| ≤
        vecNorm (![1, 2, 2] - Matrix.mulVec flShiftMat (numv exNum fun _ => some 0) - numv exNum exV) +
        houseGap (1 / 1000) 1 0 0 0 0 (1 / 1000) 1 (vecNorm (numv exNum exV)) (fun j => ‖exNum (a j)‖) +
        1 * (1 / 1000 * vecNorm (numv exNum (fun _ => some 0) + numv exNum (flGmresYk exGmresOps st.s.1 a))) := by
  obtain ⟨ar, hadv, h1, h2, f1, f2, f3, f4, hz⟩ := exStep
  set cfg : Cfg (Option ℝ) (Fin 3 → Option ℝ) := ⟨some 0, 1, false, some 3, fun x => .ok (exHouseOps.norm 3 (exGmresOps.sub exV (flShift x))), none⟩ with hcfg
  set s0 : FlGmresSt (Option ℝ) (Option ℝ) (Fin 3 → Option ℝ) (ℝ × ℝ) × FlHouses (Option ℝ) (Option ℝ) 2 :=
    (flGmresInit exGmresOps (1, 0) (flHouseInit exHouseOps exV).toFl (some 3) fun _ => some 0, (flHouseInit exHouseOps exV).houses) with hs0
  have hi0 : s0.1.arn.iter = 0 := flHouseInit_iter exHouseOps exV
  have hadv' : flHouseAdvance exHouseOps exGmresOps.A 1 (s0.1.arn.withHouses s0.2) = .ok ar := hadv
  obtain ⟨s1, r, hstep⟩ : ∃ s1 r, flGmresHStep exHouseOps exGmresOps 1 s0 = .ok (s1, r) := by
    unfold flGmresHStep
    dsimp only
    rw [hadv']
    exact ⟨_, _, rfl⟩
  obtain ⟨g1, g2, -, col, hcol, hG, hR, hy⟩ := flGmresHStep_ok hstep
  rw [hi0] at hcol hG hR hy
  have hs1 : s1.1.arn.withHouses s1.2 = ar := Except.ok.inj (g1.symm.trans hadv')
  have hH : s1.1.arn.H = ar.H := congrArg FlHArn.H hs1
  have hV : s1.1.arn.V = ar.V := congrArg FlHArn.V hs1
  have hi1 : s1.1.arn.iter = 1 := (congrArg FlHArn.iter hs1).trans h1
  have hc0 : col 0 = ar.H 0 0 := by rw [hcol, if_pos (by omega), hH]
  have hc1 : col 1 = ar.H 1 0 := by rw [hcol, if_pos (by omega), hH]
  obtain ⟨p0, hp0⟩ := Option.isSome_iff_exists.mp (f4 0 0)
  obtain ⟨p1, hp1⟩ := Option.isSome_iff_exists.mp (f4 1 0)
  rw [hp0, hp1] at hz
  have hz' : ¬ (p0 = 0 ∧ p1 = 0) := hz
  have hpos : 0 < p0 ^ 2 + p1 ^ 2 := by rcases not_and_or.mp hz' with h | h <;> positivity
  have hsq := Real.sqrt_pos.mpr hpos
  have hg : s1.1.G 0 = (p0 / √(p0 ^ 2 + p1 ^ 2), p1 / √(p0 ^ 2 + p1 ^ 2)) := by
    rw [hG, Function.update_self]
    change exGmresOps.rotg (col 0) (col 1) = _
    rw [hc0, hc1, hp0, hp1]
    simp only [exGmresOps, Option.getD_some, if_neg hz']
  have hRf : ∀ i, s1.1.R i 0 = flRot exGmresOps (s1.1.G 0) 0 col i := fun i => by rw [hR]; simp [flRots]
  have hcf : ∀ i, exFin (col i) := fun i => by
    rw [hcol]
    split
    · rw [hH]; exact f4 _ _
    · rfl
  have hrotf : ∀ (q : ℝ × ℝ) (x : ℕ → Option ℝ), (∀ i, exFin (x i)) → ∀ i, exFin (flRot exGmresOps q 0 x i) := fun q x hx i => by
    rw [flRot_apply]
    split_ifs
    · exact exOp2_fin (hx _) (hx _)
    · exact exOp2_fin (hx _) (hx _)
    · exact hx i
  have hR0 : s1.1.R 0 0 = some √(p0 ^ 2 + p1 ^ 2) := by
    rw [hRf, flRot_apply, if_pos rfl, hc0, hc1, hp0, hp1, hg]
    simp only [exGmresOps, exOp2]
    congr 1
    have := Real.mul_self_sqrt hpos.le
    field_simp
    rw [Real.sq_sqrt hpos.le]
  have hyf : ∀ i, exFin (s1.1.y i) := by
    rw [hy]
    refine hrotf _ _ fun i => ?_
    change exFin (if i = 0 then some 3 else some 0)
    split <;> rfl
  have hsolve : exGmresOps.solve 1 s1.1.R s1.1.y = .ok fun _ => exOdiv (s1.1.y 0) (s1.1.R 0 0) := by
    simp [exGmresOps, hR0, hsq.ne']
  have haf : exFin (exOdiv (s1.1.y 0) (s1.1.R 0 0)) := exOdiv_fin (hyf 0) (by rw [hR0]; rfl) (by rw [hR0]; simpa using hsq.ne')
  have hxk : flGmresXk exGmresOps .ok s1.1 = .ok (exGmresOps.add s1.1.x0 (exGmresOps.Mr (flGmresYk exGmresOps s1.1 fun _ => exOdiv (s1.1.y 0) (s1.1.R 0 0)))) := by
    unfold flGmresXk
    rw [hi1, if_pos (by omega), hsolve]
  have hfx : ∀ l, exFin (exGmresOps.add s1.1.x0 (exGmresOps.Mr (flGmresYk exGmresOps s1.1 fun _ => exOdiv (s1.1.y 0) (s1.1.R 0 0))) l) := fun l => by
    rw [g2]
    refine exOp2_fin rfl ?_
    unfold flGmresYk
    rw [hi1, hV]
    exact exOp2_fin haf (f3 0 l)
  have htol : cfg.tol < some 3 / cfg.MMlbNorm := ⟨0, 1, rfl, by change exOdiv (some 3) (some 3) = _; simp [exOdiv], by norm_num⟩
  obtain ⟨st, hst, hs, hx⟩ := run_one (cfg := cfg) (met := flGmresHMethod exHouseOps exGmresOps .ok 1) (x0 := fun _ => some 0) (r0 := some 3)
    (mk := fun x => (flGmresInit exGmresOps (1, 0) (flHouseInit exHouseOps exV).toFl (some 3) x, (flHouseInit exHouseOps exV).houses)) (xk0 := .ok)
    rfl (by change decide (some (3 : ℝ) = some 0) = false; simp) rfl htol hi0 rfl (fun _ _ => rfl)
    (by
      change (decide (s0.1.arn.iter < 1) && !(flHouseInit exHouseOps exV).invariant) = true
      have := (flHouseAdvance_cases hadv).2.1
      rw [hi0, this]; rfl) hstep hxk rfl (by
      change (decide (s1.1.arn.iter < 1) && _) = false
      rw [hi1]; rfl)
  refine ⟨st, _, fun _ => exOdiv (s1.1.y 0) (s1.1.R 0 0), hst, by rw [hs, hi1], hx, by rw [hs]; exact hsolve, ?_⟩
  have hn : |exNum (some 3) - vecNorm (numv exNum exV)| ≤ 0 * vecNorm (numv exNum exV) := by
    have : vecNorm (numv exNum exV) = 3 := exV_norm
    rw [this]; simp
  obtain ⟨a, e1, -, e3⟩ := C86_solution (cfg := cfg) (d := 0) (m := 1) exHouseAcc (by norm_num) le_rfl flShiftOp le_rfl zero_le_one exGmres_rotation le_rfl rfl rfl exGmres_solve le_rfl
    (by norm_num) (fun {x y} h => by
      refine ⟨fun l => (exHouseAcc.add (h l)).2.1, vecNorm_le_of (by norm_num) fun l => ?_⟩
      exact (exHouseAcc.add (h l)).2.2) (fun _ => rfl) (fun _ => hn) (by change decide (some (3 : ℝ) = some 0) = false; simp) hst
    (by rw [hs, hs1]; exact ⟨f1, fun j _ _ => f2 j, fun i _ l => f3 i l, fun j _ i _ => f4 i j⟩)
    (by
      rw [hs]
      refine ⟨fun j hj i hi => ?_, fun i _ => hyf i⟩
      obtain rfl : j = 0 := by omega
      rw [hRf]
      exact hrotf _ _ hcf i) (n := 1) (by rw [hs, hi1]) one_pos le_rfl hx hfx ![1, 2, 2]
  rw [hs, hsolve] at e1
  obtain rfl := Except.ok.inj e1
  exact e3

end

end Krypy
