import Verif.Model.FlGmres
import Verif.Props.FlArnoldi
import Verif.Proofs.GmresRun

/-!
# Property C80: `Gmres` with rounding errors

`flGmres` is the loop of `Gmres` over arbitrary operations; with exact operations it is the exact model (`C80_refines`).  In any arithmetic the
guarantees of the driver hold (`C80_honest`, `C80_converged`).  If the operations have small errors, then the true residual of the computed approximation is
bounded by the residual norm which `Gmres` updates, however little orthogonal the Arnoldi vectors are (`C80_small`, `C80_residual`, `C80_solution`).
-/

set_option linter.unusedSectionVars false

namespace Krypy

/-! ## Any arithmetic -/

section
variable {F K X Q : Type*} [LE F] [LT F] [DecidableLE F] [DecidableLT F] [Div F] [Zero F] [BEq F] [Zero X]

theorem flArnAdvance_iter {o : FlArnOps F K X} {ortho : Ortho} {maxiter : ℕ} {s s' : FlArn F K X} (h : flArnAdvance o ortho maxiter s = .ok s') :
    s'.iter = s.iter + 1 ∧ s'.vnorm = s.vnorm ∧ ∀ j, j ≠ s.iter → ∀ i, s'.H i j = s.H i j := by
  obtain ⟨-, h1, h2, w, hh, r, -, -, h3, -⟩ := flArnAdvance_cases h
  exact ⟨h1, h2, fun j hj i => by rw [h3]; simp [hj]⟩

theorem flGmresStep_ok {o : FlGmresOps F K X Q} {ortho : Ortho} {n : ℕ} {s s' : FlGmresSt F K X Q} {r : F} (h : flGmresStep o ortho n s = .ok (s', r)) :
    flArnAdvance o.toFlArnOps ortho n s.arn = .ok s'.arn ∧ s'.x0 = s.x0 ∧ r = o.absK (s'.y (s.arn.iter + 1)) ∧
    ∃ col, (∀ i, col i = if i < s.arn.iter + 2 then s'.arn.H i s.arn.iter else s.R i s.arn.iter) ∧
      s'.G = Function.update s.G s.arn.iter (o.rotg (flRots o s.G s.arn.iter col s.arn.iter) (flRots o s.G s.arn.iter col (s.arn.iter + 1))) ∧
      s'.R = (fun i j => if j = s.arn.iter then flRot o (s'.G s.arn.iter) s.arn.iter (flRots o s.G s.arn.iter col) i else s.R i j) ∧
      s'.y = flRot o (s'.G s.arn.iter) s.arn.iter s.y := by
  unfold flGmresStep at h
  dsimp only at h
  split at h
  · cases h
  next a ha =>
  simp only [Except.ok.injEq, Prod.mk.injEq] at h
  obtain ⟨rfl, rfl⟩ := h
  exact ⟨ha, rfl, rfl, _, fun _ => rfl, rfl, by simp, by simp⟩

theorem flGmresMethod_lawful (o : FlGmresOps F K X Q) (ortho : Ortho) (post : X → Except Err X) (n : ℕ) :
    LawfulMethod (flGmresMethod o ortho post n) n :=
  ⟨fun h => (flArnAdvance_iter (flGmresStep_ok h).1).1, fun _ _ => rfl, fun _ _ => rfl, fun h => by
    simp only [flGmresMethod, Bool.and_eq_true, decide_eq_true_eq] at h
    exact h.1⟩

theorem flArnInit_iter {o : FlArnOps F K X} {v : X} {Mv : Option X} {r : Option F} {s : FlArn F K X} (h : flArnInit o v Mv r = .ok s) : s.iter = 0 := by
  unfold flArnInit at h
  dsimp only at h
  split at h
  · cases h
  · split at h <;> · obtain rfl := Except.ok.inj h; rfl

/-- C80: in any arithmetic a call of `Gmres` ends after at most `maxiter` iterations, records one residual norm per iteration, raises
`ConvergenceError` only with an approximation whose evaluated residual norm is above `tol`, and does not report convergence without such an evaluation
(or the Krylov subspace was flagged as invariant). -/
theorem C80_honest (cfg : Cfg F X) (o : FlGmresOps F K X Q) (ortho : Ortho) (g0 : Q) (post : X → Except Err X) (x0 MMlr0 Mlr0 : X) (r0 : F) :
    (∃ e, flArnInit o.toFlArnOps Mlr0 (some MMlr0) (some r0) = .error e ∧ flGmres cfg o ortho g0 post x0 MMlr0 Mlr0 r0 = .raised e) ∨
    HonestCall cfg (fun s => s.arn.iter) (fun s => s.arn.invariant) (flGmres cfg o ortho g0 post x0 MMlr0 Mlr0 r0) := by
  unfold flGmres
  cases h : flArnInit o.toFlArnOps Mlr0 (some MMlr0) (some r0) with
  | error e => exact .inl ⟨e, rfl, rfl⟩
  | ok a => exact .inr (HonestCall.of_run (m := flGmresMethod o ortho post cfg.maxiter) (inv := fun s => s.arn.invariant)
      (flGmresMethod_lawful o ortho post _) (fun s => rfl) _ _ _ _ fun _ => flArnInit_iter h)

/-- The columns of the Hessenberg matrix which `Gmres` copies (linsys.py 981-982). -/
def flCol (o : FlGmresOps F K X Q) (s : FlGmresSt F K X Q) (j : ℕ) : ℕ → K := fun i => if i < j + 2 then s.arn.H i j else o.zero

theorem flRots_congr (o : FlGmresOps F K X Q) {G G' : ℕ → Q} {n : ℕ} (h : ∀ i < n, G i = G' i) (x : ℕ → K) : flRots o G n x = flRots o G' n x := by
  induction n with
  | zero => rfl
  | succ n ih => rw [flRots, flRots, ih fun i hi => h i (by omega), h n (by omega)]

/-- What is left of the QR decomposition by Givens rotations in an arbitrary arithmetic: the same rotations are applied to the columns and to the right hand side. -/
structure FlGmresTrace (o : FlGmresOps F K X Q) (r0 : F) (s : FlGmresSt F K X Q) : Prop where
  y : s.y = flRots o s.G s.arn.iter fun i => if i = 0 then o.ofReal r0 else o.zero
  R : ∀ j < s.arn.iter, ∀ i, s.R i j = flRots o s.G (j + 1) (flCol o s j) i
  G : ∀ j < s.arn.iter, s.G j = o.rotg (flRots o s.G j (flCol o s j) j) (flRots o s.G j (flCol o s j) (j + 1))
  zero : ∀ j, s.arn.iter ≤ j → ∀ i, s.R i j = o.zero
  hess : ∀ j i, j + 1 < i → s.arn.H i j = o.zero
  hzero : ∀ j, s.arn.iter ≤ j → ∀ i, s.arn.H i j = o.zero
  vnorm : s.arn.vnorm = r0

theorem flArnAdvance_hess {o : FlArnOps F K X} {ortho : Ortho} {maxiter : ℕ} {s s' : FlArn F K X} (h : flArnAdvance o ortho maxiter s = .ok s') {i : ℕ}
    (hi : s.iter + 1 < i) : s'.H i s.iter = s.H i s.iter := by
  obtain ⟨-, -, -, w, hh, r, hfold, -, hH, -⟩ := flArnAdvance_cases h
  rw [hH]
  simp only [if_true]
  rw [Function.update_of_ne (by omega)]
  have hkeep : ∀ (l : List ℕ) (st : X × (ℕ → K)), (∀ j ∈ l, j ≤ s.iter) → (l.foldl (flOrthoStep o ortho s.V s.P) st).2 i = st.2 i := by
    intro l
    induction l with
    | nil => exact fun _ _ => rfl
    | cons j l ih =>
      intro st hl
      rw [List.foldl_cons, ih _ (fun j' hj' => hl j' (by simp [hj']))]
      change Function.update st.2 j _ i = _
      rw [Function.update_of_ne (by have := hl j (by simp); omega)]
  have := hkeep (flOrthoList ortho s.iter) (flOrthoStart o ortho s) (flOrthoList_mem ortho s.iter)
  rw [hfold] at this
  dsimp only at this
  rw [this]
  unfold flOrthoStart
  dsimp only
  split_ifs
  · dsimp only
    rw [Function.update_of_ne (by omega)]
  · rfl

theorem FlGmresTrace.step {o : FlGmresOps F K X Q} {r0 : F} {ortho : Ortho} {n : ℕ} {s s' : FlGmresSt F K X Q} {r : F} (hs : FlGmresTrace o r0 s)
    (h : flGmresStep o ortho n s = .ok (s', r)) : FlGmresTrace o r0 s' := by
  obtain ⟨ha, -, -, col, hcol, hG, hR, hy⟩ := flGmresStep_ok h
  obtain ⟨hi, hvn, hH⟩ := flArnAdvance_iter ha
  have hGlt : ∀ i < s.arn.iter, s'.G i = s.G i := fun i hi => by rw [hG, Function.update_of_ne (by omega)]
  have hcl : col = flCol o s' s.arn.iter := by
    funext i
    rw [hcol]
    unfold flCol
    split_ifs
    · rfl
    · exact hs.zero _ le_rfl i
  have hcl' : ∀ j < s.arn.iter, flCol o s' j = flCol o s j := fun j hj => by
    funext i
    unfold flCol
    rw [hH j (by omega)]
  rw [hcl] at hG hR
  have e1 : ∀ x, flRots o s.G s.arn.iter x = flRots o s'.G s.arn.iter x := fun x => flRots_congr o (fun i hi => (hGlt i hi).symm) x
  refine ⟨?_, fun j hj i => ?_, fun j hj => ?_, fun j hj i => ?_, fun j i hji => ?_, fun j hj i => ?_, hvn.trans hs.vnorm⟩
  · rw [hy, hi, flRots, hs.y, e1]
  · rw [hR]
    dsimp only
    by_cases hjk : j = s.arn.iter
    · rw [if_pos hjk, hjk, flRots, e1]
    · have hj' : j < s.arn.iter := by omega
      rw [if_neg hjk, hs.R j hj' i, hcl' j hj', flRots_congr o fun i hi => hGlt i (by omega)]
  · by_cases hjk : j = s.arn.iter
    · rw [hjk, ← e1, hG, Function.update_self]
    · have hj' : j < s.arn.iter := by omega
      rw [hGlt j hj', hs.G j hj', hcl' j hj', flRots_congr o (G := s'.G) fun i hi => hGlt i (by omega)]
  · rw [hR]
    dsimp only
    rw [if_neg (by omega), hs.zero j (by omega)]
  · by_cases hjk : j = s.arn.iter
    · subst hjk
      rw [flArnAdvance_hess ha hji, hs.hess _ _ hji]
    · rw [hH j hjk, hs.hess _ _ hji]
  · rw [hH j (by omega), hs.hzero j (by omega)]

theorem FlGmresTrace.init {o : FlGmresOps F K X Q} {g0 : Q} {v : X} {Mv : Option X} {r0 : F} {arn : FlArn F K X}
    (h : flArnInit o.toFlArnOps v Mv (some r0) = .ok arn) (x0 : X) : FlGmresTrace o r0 (flGmresInit o g0 arn r0 x0) := by
  have h0 := flArnInit_iter h
  have hH : (∀ i j, arn.H i j = o.zero) ∧ arn.vnorm = r0 := by
    unfold flArnInit flStartNorm at h
    dsimp only at h
    split at h <;> · obtain rfl := Except.ok.inj h; exact ⟨fun _ _ => rfl, rfl⟩
  obtain ⟨hH, hvn⟩ := hH
  refine ⟨?_, fun j hj => ?_, fun j hj => ?_, fun _ _ _ => rfl, fun j i _ => hH i j, fun j _ i => hH i j, hvn⟩
  · change _ = flRots o _ arn.iter _
    rw [h0]
    rfl
  · change j < arn.iter at hj
    omega
  · change j < arn.iter at hj
    omega

/-- Properties of the state which the initialisation and the steps guarantee hold in the end. -/
theorem flGmres_induct {cfg : Cfg F X} {o : FlGmresOps F K X Q} {ortho : Ortho} {g0 : Q} {post : X → Except Err X} {x0 MMlr0 Mlr0 : X} {r0 : F}
    (P : FlGmresSt F K X Q → Prop)
    (hinit : ∀ arn, flArnInit o.toFlArnOps Mlr0 (some MMlr0) (some r0) = .ok arn → P (flGmresInit o g0 arn r0 (if cfg.MMlbNorm == 0 then 0 else x0)))
    (hst : ∀ s s' r, P s → flGmresStep o ortho cfg.maxiter s = .ok (s', r) → P s') {st : St F X (FlGmresSt F K X Q)}
    (h : flGmres cfg o ortho g0 post x0 MMlr0 Mlr0 r0 = .returned st ∨ flGmres cfg o ortho g0 post x0 MMlr0 Mlr0 r0 = .convergence st) : P st.s := by
  unfold flGmres at h
  cases ha : flArnInit o.toFlArnOps Mlr0 (some MMlr0) (some r0) with
  | error e =>
    rw [ha] at h
    rcases h with h | h <;> cases h
  | ok arn =>
    rw [ha] at h
    unfold run at h
    dsimp only at h
    split at h
    · rcases h with h | h <;> cases h
    next errnorms he =>
    have hinv := loop_invariant (cfg := cfg) (m := flGmresMethod o ortho post cfg.maxiter) (fun st => P st.s)
      (fun st st' h0 _ hb => by
        obtain ⟨s', r, rkn, h1, h2, -⟩ := body_ok hb
        rw [h2]
        exact hst _ _ _ h0 h1) cfg.maxiter
      { s := flGmresInit o g0 arn r0 (if cfg.MMlbNorm == 0 then 0 else x0), iter := 0, xk := if cfg.MMlbNorm == 0 then some 0 else none,
        resnorms := if cfg.MMlbNorm == 0 then [0] else [r0 / cfg.MMlbNorm], errnorms := errnorms, warnings := 0 }
      (show P (flGmresInit o g0 arn r0 (if cfg.MMlbNorm == 0 then 0 else x0)) from hinit arn ha)
    rcases h with h | h
    · obtain ⟨st1, h1, -, h2⟩ := hinv.1 st h
      obtain ⟨e, -⟩ := finish_returned h2
      rw [e]
      exact h1
    · obtain ⟨st1, h1, -, h2⟩ := hinv.2 st h
      obtain ⟨s', r, x, v, e1, e2, -⟩ := body_convergence h2
      rw [e2]
      exact hst _ _ _ h1 e1

/-- C80: the rotations, the triangular matrix and the right hand side of every call. -/
theorem C80_trace {cfg : Cfg F X} {o : FlGmresOps F K X Q} {ortho : Ortho} {g0 : Q} {post : X → Except Err X} {x0 MMlr0 Mlr0 : X} {r0 : F}
    {st : St F X (FlGmresSt F K X Q)}
    (h : flGmres cfg o ortho g0 post x0 MMlr0 Mlr0 r0 = .returned st ∨ flGmres cfg o ortho g0 post x0 MMlr0 Mlr0 r0 = .convergence st) :
    FlGmresTrace o r0 st.s ∧ st.s.x0 = if cfg.MMlbNorm == 0 then 0 else x0 :=
  flGmres_induct (fun s => FlGmresTrace o r0 s ∧ s.x0 = if cfg.MMlbNorm == 0 then 0 else x0) (fun _ ha => ⟨FlGmresTrace.init ha _, rfl⟩)
    (fun _ _ _ hs h1 => ⟨hs.1.step h1, (flGmresStep_ok h1).2.1.trans hs.2⟩) h

end

/-! ## Rotations with errors -/

section
variable {𝕜 : Type*} [RCLike 𝕜] {F K X Q : Type*}

/-- Euclidean norm of a pair. -/
noncomputable def pairNorm (p : 𝕜 × 𝕜) : ℝ := √(‖p.1‖ ^ 2 + ‖p.2‖ ^ 2)

theorem pairNorm_sq (p : 𝕜 × 𝕜) : pairNorm p ^ 2 = ‖p.1‖ ^ 2 + ‖p.2‖ ^ 2 := Real.sq_sqrt (by positivity)

theorem pairNorm_nonneg (p : 𝕜 × 𝕜) : 0 ≤ pairNorm p := Real.sqrt_nonneg _

/-- Rotations which `Gmres` computes: constructed for a pair, and the result of applying it to this pair is finite. -/
def FlGood (o : FlGmresOps F K X Q) (finK : K → Prop) (q : Q) : Prop :=
  ∃ a b, q = o.rotg a b ∧ finK (o.apply q (a, b)).1 ∧ finK (o.apply q (a, b)).2

/-- Givens rotations with errors: `U q` is an exact rotation close to the object `q`; applying `q` to a pair has a relative error of at most `g`, and the rotation
computed for a pair annihilates its second component up to a relative error of `g`. -/
structure FlRotation (o : FlGmresOps F K X Q) (num : K → 𝕜) (finK : K → Prop) (U : Q → 𝕜 × 𝕜 →ₗ[𝕜] 𝕜 × 𝕜) (g : ℝ) : Prop where
  iso : ∀ q p, pairNorm (U q p) = pairNorm p
  apply : ∀ {q a b}, FlGood o finK q → finK (o.apply q (a, b)).1 → finK (o.apply q (a, b)).2 → finK a ∧ finK b ∧
    pairNorm ((num (o.apply q (a, b)).1, num (o.apply q (a, b)).2) - U q (num a, num b)) ≤ g * pairNorm (num a, num b)
  rotg : ∀ {a b}, finK (o.apply (o.rotg a b) (a, b)).1 → finK (o.apply (o.rotg a b) (a, b)).2 →
    ‖(U (o.rotg a b) (num a, num b)).2‖ ≤ g * pairNorm (num a, num b)

/-- Euclidean norm of the first `m` entries. -/
noncomputable def nto (m : ℕ) (x : ℕ → 𝕜) : ℝ := vecNorm fun i : Fin m => x i

theorem nto_nonneg (m : ℕ) (x : ℕ → 𝕜) : 0 ≤ nto m x := vecNorm_nonneg _

theorem nto_sq (m : ℕ) (x : ℕ → 𝕜) : nto m x ^ 2 = ∑ i ∈ Finset.range m, ‖x i‖ ^ 2 := by
  unfold nto
  rw [vecNorm_sq, Finset.sum_range]

theorem nto_add_le (m : ℕ) (x y : ℕ → 𝕜) : nto m (x + y) ≤ nto m x + nto m y := vecNorm_add_le' _ _

theorem nto_smul (m : ℕ) (c : 𝕜) (x : ℕ → 𝕜) : nto m (c • x) = ‖c‖ * nto m x := vecNorm_smul c fun i : Fin m => x i

theorem nto_zero (m : ℕ) : nto m (0 : ℕ → 𝕜) = 0 := vecNorm_eq_zero.mpr rfl

theorem nto_neg (m : ℕ) (x : ℕ → 𝕜) : nto m (-x) = nto m x := by
  have := nto_smul m (-1) x
  simpa using this

theorem nto_sub_le (m : ℕ) (x y : ℕ → 𝕜) : nto m (x - y) ≤ nto m x + nto m y := by
  rw [sub_eq_add_neg, ← nto_neg m y]
  exact nto_add_le m x (-y)

theorem nto_sum_le {ι : Type*} (m : ℕ) (s : Finset ι) (f : ι → ℕ → 𝕜) : nto m (∑ j ∈ s, f j) ≤ ∑ j ∈ s, nto m (f j) := by
  classical
  induction s using Finset.induction_on with
  | empty => simp [nto_zero]
  | insert j s hj ih =>
    rw [Finset.sum_insert hj, Finset.sum_insert hj]
    exact (nto_add_le _ _ _).trans (by linarith)

theorem nto_congr {m : ℕ} {x y : ℕ → 𝕜} (h : ∀ i < m, x i = y i) : nto m x = nto m y := by
  unfold nto
  congr 1
  funext i
  exact h i i.2

theorem norm_le_nto {m i : ℕ} (h : i < m) (x : ℕ → 𝕜) : ‖x i‖ ≤ nto m x := by
  refine le_of_sq_le_sq ?_ (nto_nonneg m x)
  rw [nto_sq]
  exact Finset.single_le_sum (f := fun i => ‖x i‖ ^ 2) (fun _ _ => by positivity) (Finset.mem_range.mpr h)

theorem sum_split_pair {m i : ℕ} (h : i + 1 < m) (f : ℕ → ℝ) :
    ∑ j ∈ Finset.range m, f j = ∑ j ∈ ((Finset.range m).erase i).erase (i + 1), f j + f (i + 1) + f i := by
  rw [Finset.sum_erase_add _ _ (by simp; omega), Finset.sum_erase_add _ _ (by simp; omega)]

theorem pairNorm_le_nto {m i : ℕ} (h : i + 1 < m) (x : ℕ → 𝕜) : pairNorm (x i, x (i + 1)) ≤ nto m x := by
  refine le_of_sq_le_sq ?_ (nto_nonneg m x)
  rw [nto_sq, pairNorm_sq, sum_split_pair h]
  have : 0 ≤ ∑ j ∈ ((Finset.range m).erase i).erase (i + 1), ‖x j‖ ^ 2 := Finset.sum_nonneg fun _ _ => by positivity
  linarith

/-- an exact rotation of the entries `i` and `i + 1` -/
def rotU (U : 𝕜 × 𝕜 →ₗ[𝕜] 𝕜 × 𝕜) (i : ℕ) : (ℕ → 𝕜) →ₗ[𝕜] (ℕ → 𝕜) where
  toFun x := fun j => if j = i then (U (x i, x (i + 1))).1 else if j = i + 1 then (U (x i, x (i + 1))).2 else x j
  map_add' x y := by
    funext j
    have : U (x i + y i, x (i + 1) + y (i + 1)) = U (x i, x (i + 1)) + U (y i, y (i + 1)) := by rw [← map_add]; rfl
    simp only [Pi.add_apply, this, Prod.fst_add, Prod.snd_add]
    split_ifs <;> rfl
  map_smul' c x := by
    funext j
    have : U (c * x i, c * x (i + 1)) = c • U (x i, x (i + 1)) := by rw [← map_smul]; rfl
    simp only [Pi.smul_apply, smul_eq_mul, RingHom.id_apply, this, Prod.smul_fst, Prod.smul_snd]
    split_ifs <;> rfl

theorem rotU_apply (U : 𝕜 × 𝕜 →ₗ[𝕜] 𝕜 × 𝕜) (i : ℕ) (x : ℕ → 𝕜) (j : ℕ) :
    rotU U i x j = if j = i then (U (x i, x (i + 1))).1 else if j = i + 1 then (U (x i, x (i + 1))).2 else x j := rfl

theorem rotU_norm {U : 𝕜 × 𝕜 →ₗ[𝕜] 𝕜 × 𝕜} (hU : ∀ p, pairNorm (U p) = pairNorm p) {m i : ℕ} (h : i + 1 < m) (x : ℕ → 𝕜) : nto m (rotU U i x) = nto m x := by
  have h1 : nto m (rotU U i x) ^ 2 = nto m x ^ 2 := by
    rw [nto_sq, nto_sq, sum_split_pair h, sum_split_pair h fun j => ‖x j‖ ^ 2]
    have h2 : ‖rotU U i x (i + 1)‖ ^ 2 + ‖rotU U i x i‖ ^ 2 = ‖x (i + 1)‖ ^ 2 + ‖x i‖ ^ 2 := by
      have := pairNorm_sq (U (x i, x (i + 1)))
      rw [hU, pairNorm_sq] at this
      simp only [rotU_apply, if_true, if_neg (Nat.succ_ne_self i)]
      dsimp only at this
      linarith
    have h3 : ∑ j ∈ ((Finset.range m).erase i).erase (i + 1), ‖rotU U i x j‖ ^ 2 = ∑ j ∈ ((Finset.range m).erase i).erase (i + 1), ‖x j‖ ^ 2 := by
      refine Finset.sum_congr rfl fun j hj => ?_
      rw [Finset.mem_erase, Finset.mem_erase] at hj
      rw [rotU_apply, if_neg hj.2.1, if_neg hj.1]
    linarith
  exact (sq_eq_sq₀ (nto_nonneg _ _) (nto_nonneg _ _)).mp h1

/-- rotations which do not touch the nonzero entries of a vector -/
theorem rotU_zero {U : 𝕜 × 𝕜 →ₗ[𝕜] 𝕜 × 𝕜} {i : ℕ} {x : ℕ → 𝕜} (h1 : x i = 0) (h2 : x (i + 1) = 0) : rotU U i x = x := by
  funext j
  have h0 : U (x i, x (i + 1)) = 0 := by rw [h1, h2]; exact map_zero U
  rw [rotU_apply, h0]
  split_ifs with h h'
  · rw [h, h1]; rfl
  · rw [h', h2]; rfl
  · rfl

/-- the product of the first `n` exact rotations -/
def rotsU (U : Q → 𝕜 × 𝕜 →ₗ[𝕜] 𝕜 × 𝕜) (G : ℕ → Q) : ℕ → (ℕ → 𝕜) →ₗ[𝕜] (ℕ → 𝕜)
  | 0 => LinearMap.id
  | n + 1 => rotU (U (G n)) n ∘ₗ rotsU U G n

theorem rotsU_norm {U : Q → 𝕜 × 𝕜 →ₗ[𝕜] 𝕜 × 𝕜} (hU : ∀ q p, pairNorm (U q p) = pairNorm p) (G : ℕ → Q) {m n : ℕ} (h : n < m) (x : ℕ → 𝕜) :
    nto m (rotsU U G n x) = nto m x := by
  induction n with
  | zero => rfl
  | succ n ih =>
    change nto m (rotU (U (G n)) n (rotsU U G n x)) = _
    rw [rotU_norm (hU _) h, ih (by omega)]

variable {o : FlGmresOps F K X Q} {num : K → 𝕜} {finK : K → Prop} {U : Q → 𝕜 × 𝕜 →ₗ[𝕜] 𝕜 × 𝕜} {g : ℝ}

/-- the numbers represented by the entries of an array -/
def nums (num : K → 𝕜) (x : ℕ → K) : ℕ → 𝕜 := fun i => num (x i)

theorem flRot_apply (q : Q) (i : ℕ) (x : ℕ → K) (j : ℕ) :
    flRot o q i x j = if j = i then (o.apply q (x i, x (i + 1))).1 else if j = i + 1 then (o.apply q (x i, x (i + 1))).2 else x j := by
  unfold flRot
  by_cases h1 : j = i + 1
  · subst h1
    rw [Function.update_self, if_neg (Nat.succ_ne_self i), if_pos rfl]
  · rw [Function.update_of_ne h1]
    by_cases h2 : j = i
    · subst h2
      rw [Function.update_self, if_pos rfl]
    · rw [Function.update_of_ne h2, if_neg h2, if_neg h1]

/-- Error of one rotation. -/
theorem flRot_err (hr : FlRotation o num finK U g) (hg : 0 ≤ g) {q : Q} (hq : FlGood o finK q) {i m : ℕ} (hm : i + 1 < m) {x : ℕ → K} (h1 : finK (flRot o q i x i))
    (h2 : finK (flRot o q i x (i + 1))) :
    finK (x i) ∧ finK (x (i + 1)) ∧ nto m (nums num (flRot o q i x) - rotU (U q) i (nums num x)) ≤ g * nto m (nums num x) := by
  rw [flRot_apply, if_pos rfl] at h1
  rw [flRot_apply, if_neg (Nat.succ_ne_self i), if_pos rfl] at h2
  obtain ⟨f1, f2, hb⟩ := hr.apply hq h1 h2
  refine ⟨f1, f2, ?_⟩
  have hle := mul_le_mul_of_nonneg_left (pairNorm_le_nto hm (nums num x)) hg
  refine le_trans (le_of_eq ?_) (hb.trans hle)
  refine (sq_eq_sq₀ (nto_nonneg _ _) (pairNorm_nonneg _)).mp ?_
  rw [nto_sq, sum_split_pair hm, pairNorm_sq]
  have h3 : ∑ j ∈ ((Finset.range m).erase i).erase (i + 1), ‖(nums num (flRot o q i x) - rotU (U q) i (nums num x)) j‖ ^ 2 = 0 := by
    refine Finset.sum_eq_zero fun j hj => ?_
    rw [Finset.mem_erase, Finset.mem_erase] at hj
    simp [nums, rotU_apply, flRot_apply, hj.1, hj.2.1]
  rw [h3]
  simp only [Pi.sub_apply, nums, rotU_apply, flRot_apply, if_true, if_neg (Nat.succ_ne_self i), Prod.fst_sub, Prod.snd_sub]
  ring

/-- Error of several rotations. -/
theorem flRots_err (hr : FlRotation o num finK U g) (hg : 0 ≤ g) (G : ℕ → Q) (x : ℕ → K) {m : ℕ} (n : ℕ) (hm : n < m)
    (hq : ∀ i < n, FlGood o finK (G i)) (hf : ∀ i ≤ n, finK (flRots o G n x i)) :
    (∀ i ≤ n, finK (x i)) ∧ nto m (nums num (flRots o G n x) - rotsU U G n (nums num x)) ≤ ((1 + g) ^ n - 1) * nto m (nums num x) ∧
      nto m (nums num (flRots o G n x)) ≤ (1 + g) ^ n * nto m (nums num x) := by
  induction n with
  | zero => exact ⟨hf, by simp [flRots, rotsU, nto_zero], by simp [flRots]⟩
  | succ n ih =>
    obtain ⟨f1, f2, hb⟩ := flRot_err (x := flRots o G n x) hr hg (hq n (by omega)) hm (hf n (by omega)) (hf (n + 1) le_rfl)
    have hprev : ∀ i ≤ n, finK (flRots o G n x i) := by
      intro i hi
      rcases hi.lt_or_eq with h | h
      · have := hf i (by omega)
        rwa [flRots, flRot_apply, if_neg (by omega), if_neg (by omega)] at this
      · rw [h]; exact f1
    obtain ⟨i1, i2, i3⟩ := ih (by omega) (fun i hi => hq i (by omega)) hprev
    have hun : ∀ k ≤ n, flRots o G k x (n + 1) = x (n + 1) := by
      intro k hk
      induction k with
      | zero => rfl
      | succ k ihk => rw [flRots, flRot_apply, if_neg (by omega), if_neg (by omega), ihk (by omega)]
    refine ⟨fun i hi => ?_, ?_, ?_⟩
    · rcases hi.lt_or_eq with h | h
      · exact i1 i (by omega)
      · rw [h, ← hun n le_rfl]; exact f2
    · have key : nums num (flRots o G (n + 1) x) - rotsU U G (n + 1) (nums num x) =
          (nums num (flRot o (G n) n (flRots o G n x)) - rotU (U (G n)) n (nums num (flRots o G n x))) +
            rotU (U (G n)) n (nums num (flRots o G n x) - rotsU U G n (nums num x)) := by
        rw [map_sub]
        change _ - rotU (U (G n)) n (rotsU U G n (nums num x)) = _
        rw [sub_add_sub_cancel]
        rfl
      rw [key]
      refine (nto_add_le _ _ _).trans ?_
      rw [rotU_norm (hr.iso _) hm]
      have := mul_le_mul_of_nonneg_left i3 hg
      have e1 : ((1 + g) ^ (n + 1) - 1) * nto m (nums num x) = g * ((1 + g) ^ n * nto m (nums num x)) + ((1 + g) ^ n - 1) * nto m (nums num x) := by ring
      rw [e1]
      linarith
    · have key : nums num (flRots o G (n + 1) x) =
          (nums num (flRot o (G n) n (flRots o G n x)) - rotU (U (G n)) n (nums num (flRots o G n x))) + rotU (U (G n)) n (nums num (flRots o G n x)) := by
        rw [sub_add_cancel]
        rfl
      rw [key]
      refine (nto_add_le _ _ _).trans ?_
      rw [rotU_norm (hr.iso _) hm]
      have h0 : (0 : ℝ) ≤ 1 + g := by linarith
      have := mul_le_mul_of_nonneg_left i3 h0
      rw [pow_succ']
      linarith

/-- relative error of the `j`-th column of the computed triangular matrix -/
def rotErr (g : ℝ) (j : ℕ) : ℝ := (1 + g) ^ (j + 1) - 1 + 2 * g * (1 + g) ^ j

/-- The computed upper triangular column is, up to errors, the image of the Hessenberg column under all exact rotations. -/
theorem column_err (hr : FlRotation o num finK U g) (hg : 0 ≤ g) {G : ℕ → Q} {x : ℕ → K} {j n m : ℕ} (hj : j < n) (hm : n < m)
    (hq : ∀ i < j + 1, FlGood o finK (G i)) (hx : ∀ i, j + 1 < i → num (x i) = 0) (hG : G j = o.rotg (flRots o G j x j) (flRots o G j x (j + 1)))
    (hf : ∀ i ≤ j + 1, finK (flRots o G (j + 1) x i)) :
    nto m ((fun i => if i ≤ j then num (flRots o G (j + 1) x i) else 0) - rotsU U G n (nums num x)) ≤ rotErr g j * nto m (nums num x) := by
  obtain ⟨-, h1, -⟩ := flRots_err hr hg G x (m := m) (j + 1) (by omega) hq hf
  obtain ⟨f1, f2, -⟩ := flRot_err (x := flRots o G j x) (m := m) hr hg (hq j (by omega)) (by omega) (hf j (by omega)) (hf (j + 1) le_rfl)
  have hprev : ∀ i ≤ j, finK (flRots o G j x i) := by
    intro i hi
    rcases hi.lt_or_eq with h | h
    · have := hf i (by omega)
      rwa [flRots, flRot_apply, if_neg (by omega), if_neg (by omega)] at this
    · rw [h]; exact f1
  obtain ⟨-, -, h2⟩ := flRots_err hr hg G x (m := m) j (by omega) (fun i hi => hq i (by omega)) hprev
  set w := flRots o G j x with hw
  -- the entry below the diagonal
  have hsmall : ‖num (flRots o G (j + 1) x (j + 1))‖ ≤ 2 * g * (1 + g) ^ j * nto m (nums num x) := by
    have e1 : flRots o G (j + 1) x (j + 1) = (o.apply (G j) (w j, w (j + 1))).2 := by
      rw [flRots, flRot_apply, if_neg (Nat.succ_ne_self j), if_pos rfl]
    have e2 : flRots o G (j + 1) x j = (o.apply (G j) (w j, w (j + 1))).1 := by
      rw [flRots, flRot_apply, if_pos rfl]
    have hf1 := hf (j + 1) le_rfl
    have hf0 := hf j (by omega)
    rw [e1] at hf1 ⊢
    rw [e2] at hf0
    obtain ⟨-, -, b1⟩ := hr.apply (hq j (by omega)) hf0 hf1
    rw [hG] at hf0 hf1
    have b2 := hr.rotg hf0 hf1
    rw [← hG] at b2
    set p : 𝕜 × 𝕜 := (num (w j), num (w (j + 1))) with hp
    have b3 : ‖num (o.apply (G j) (w j, w (j + 1))).2 - (U (G j) p).2‖ ≤ g * pairNorm p := by
      refine le_trans ?_ b1
      refine le_of_sq_le_sq ?_ (pairNorm_nonneg _)
      rw [pairNorm_sq]
      simp only [Prod.fst_sub, Prod.snd_sub]
      nlinarith [sq_nonneg ‖num (o.apply (G j) (w j, w (j + 1))).1 - (U (G j) p).1‖]
    have b4 : pairNorm p ≤ (1 + g) ^ j * nto m (nums num x) := (pairNorm_le_nto (m := m) (by omega) (nums num w)).trans h2
    have b5 := norm_le_norm_add_norm_sub' (num (o.apply (G j) (w j, w (j + 1))).2) ((U (G j) p).2)
    have b6 := mul_le_mul_of_nonneg_left b4 hg
    nlinarith
  -- beyond the diagonal
  have hbeyond : ∀ k ≤ j + 1, ∀ i, j + 1 < i → num (flRots o G k x i) = 0 := by
    intro k hk i hi
    have : flRots o G k x i = x i := by
      induction k with
      | zero => rfl
      | succ k ih => rw [flRots, flRot_apply, if_neg (by omega), if_neg (by omega), ih (by omega)]
    rw [this, hx i hi]
  set z : ℕ → 𝕜 := fun i => if i ≤ j then num (flRots o G (j + 1) x i) else 0 with hz
  have hz1 : nto m (z - nums num (flRots o G (j + 1) x)) ≤ 2 * g * (1 + g) ^ j * nto m (nums num x) := by
    refine le_trans (le_of_eq ?_) hsmall
    refine (sq_eq_sq₀ (nto_nonneg _ _) (norm_nonneg _)).mp ?_
    rw [nto_sq, Finset.sum_eq_single (j + 1)]
    · simp [hz, nums]
    · intro i _ hi
      simp only [hz, nums, Pi.sub_apply]
      split_ifs with h
      · simp
      · rw [hbeyond (j + 1) le_rfl i (by omega)]
        simp
    · intro h
      exact absurd (Finset.mem_range.mpr (by omega)) h
  have hz2 : nto m (z - rotsU U G (j + 1) (nums num x)) ≤ rotErr g j * nto m (nums num x) := by
    have : z - rotsU U G (j + 1) (nums num x) = (z - nums num (flRots o G (j + 1) x)) + (nums num (flRots o G (j + 1) x) - rotsU U G (j + 1) (nums num x)) := by
      rw [sub_add_sub_cancel]
    rw [this]
    refine (nto_add_le _ _ _).trans ((add_le_add hz1 h1).trans (le_of_eq ?_))
    unfold rotErr
    ring
  -- later rotations
  have hlater : ∀ k, j + 1 + k < m → nto m (z - rotsU U G (j + 1 + k) (nums num x)) = nto m (z - rotsU U G (j + 1) (nums num x)) := by
    intro k
    induction k with
    | zero => exact fun _ => rfl
    | succ k ih =>
      intro hk
      rw [← ih (by omega)]
      have e1 : rotU (U (G (j + 1 + k))) (j + 1 + k) z = z :=
        rotU_zero (by rw [hz]; exact if_neg (by omega)) (by rw [hz]; exact if_neg (by omega))
      have e2 : z - rotsU U G (j + 1 + (k + 1)) (nums num x) = rotU (U (G (j + 1 + k))) (j + 1 + k) (z - rotsU U G (j + 1 + k) (nums num x)) := by
        rw [map_sub, e1]
        rfl
      rw [e2, rotU_norm (hr.iso _) (by omega)]
  have := hlater (n - (j + 1)) (by omega)
  rw [show j + 1 + (n - (j + 1)) = n by omega] at this
  rw [this]
  exact hz2

/-- The arrays of the small system contain neither infinities nor NaNs. -/
structure FlGmresFin (finK : K → Prop) (s : FlGmresSt F K X Q) : Prop where
  R : ∀ j < s.arn.iter, ∀ i ≤ j + 1, finK (s.R i j)
  y : ∀ i ≤ s.arn.iter, finK (s.y i)

theorem FlGmresFin.good {r0 : F} {s : FlGmresSt F K X Q} (hf : FlGmresFin finK s) (ht : FlGmresTrace o r0 s) {j : ℕ} (hj : j < s.arn.iter) :
    FlGood o finK (s.G j) := by
  refine ⟨_, _, ht.G j hj, ?_, ?_⟩
  · have := hf.R j hj j (by omega)
    rwa [ht.R j hj, flRots, flRot_apply, if_pos rfl] at this
  · have := hf.R j hj (j + 1) le_rfl
    rwa [ht.R j hj, flRots, flRot_apply, if_neg (Nat.succ_ne_self j), if_pos rfl] at this

/-- The residual of the Hessenberg system and the residual of the rotated system have the same norm up to the errors of the rotations. -/
theorem small_close (hr : FlRotation o num finK U g) (hg : 0 ≤ g) (hz : num o.zero = 0) {r0 : F} {β : ℝ} (hβ : num (o.ofReal r0) = (β : 𝕜))
    {s : FlGmresSt F K X Q} (ht : FlGmresTrace o r0 s) (hf : FlGmresFin finK s) {n : ℕ} (hn : s.arn.iter = n) (a : Fin n → 𝕜) :
    |vecNorm (fun i : Fin (n + 1) => (if (i : ℕ) = 0 then (β : 𝕜) else 0) - ∑ j : Fin n, num (s.arn.H i j) * a j) -
      vecNorm (fun i : Fin (n + 1) => num (s.y i) - ∑ j : Fin n, if (i : ℕ) ≤ j then num (s.R i j) * a j else 0)| ≤
        ((1 + g) ^ n - 1) * |β| + ∑ j : Fin n, ‖a j‖ * (rotErr g j * nto (j + 2) fun i => num (s.arn.H i j)) := by
  have hlt : ∀ j : Fin n, (j : ℕ) < s.arn.iter := fun j => by rw [hn]; exact j.2
  set y0 : ℕ → K := fun i => if i = 0 then o.ofReal r0 else o.zero with hy0
  have hty : s.y = flRots o s.G n y0 := by rw [ht.y, hn]
  have hy0n : nums num y0 = fun i => if i = 0 then (β : 𝕜) else 0 := by
    funext i
    simp only [nums, hy0]
    split_ifs
    · exact hβ
    · exact hz
  have hy0m : nto (n + 1) (nums num y0) = |β| := by
    refine (sq_eq_sq₀ (nto_nonneg _ _) (abs_nonneg _)).mp ?_
    rw [nto_sq, hy0n, Finset.sum_eq_single 0]
    · simp
    · intro i _ hi
      simp [hi]
    · intro h
      exact absurd (Finset.mem_range.mpr (by omega)) h
  have hcol : ∀ j : Fin n, nums num (flCol o s j) = fun i => num (s.arn.H i j) := by
    intro j
    funext i
    simp only [nums, flCol]
    split_ifs with h
    · rfl
    · rw [ht.hess j i (by omega)]
  have hcoln : ∀ j : Fin n, nto (n + 1) (nums num (flCol o s j)) = nto (j + 2) fun i => num (s.arn.H i j) := by
    intro j
    rw [hcol j]
    refine (sq_eq_sq₀ (nto_nonneg _ _) (nto_nonneg _ _)).mp ?_
    rw [nto_sq, nto_sq]
    symm
    refine Finset.sum_subset (fun i hi => ?_) fun i _ hi => ?_
    · rw [Finset.mem_range] at hi ⊢
      have := j.2
      omega
    · rw [Finset.mem_range] at hi
      rw [ht.hess j i (by omega), hz]
      simp
  -- the residual of the rotated system
  set up : Fin n → ℕ → 𝕜 := fun j i => if i ≤ (j : ℕ) then num (s.R i j) else 0 with hup
  have e1 : nto (n + 1) (nums num s.y - rotsU U s.G n (nums num y0)) ≤ ((1 + g) ^ n - 1) * |β| := by
    have := (flRots_err hr hg s.G y0 (m := n + 1) n (by omega) (fun i hi => hf.good ht (by omega)) (fun i hi => by rw [← hty]; exact hf.y i (by omega))).2.1
    rwa [hy0m, ← hty] at this
  have e2 : ∀ j : Fin n, nto (n + 1) (up j - rotsU U s.G n (nums num (flCol o s j))) ≤ rotErr g j * nto (j + 2) fun i => num (s.arn.H i j) := by
    intro j
    have := column_err hr hg (G := s.G) (x := flCol o s j) (m := n + 1) j.2 (by omega)
      (fun i hi => hf.good ht (by have := j.2; omega)) (fun i hi => by unfold flCol; rw [if_neg (by omega), hz]) (ht.G j (hlt j)) (fun i hi => by rw [← ht.R j (hlt j)]; exact hf.R j (hlt j) i hi)
    rw [hcoln] at this
    refine le_trans (le_of_eq ?_) this
    congr 2
    funext i
    simp only [hup]
    rw [ht.R j (hlt j)]
  set T : ℕ → 𝕜 := nums num s.y - ∑ j : Fin n, a j • up j with hT
  have e3 : vecNorm (fun i : Fin (n + 1) => num (s.y i) - ∑ j : Fin n, if (i : ℕ) ≤ j then num (s.R i j) * a j else 0) = nto (n + 1) T := by
    unfold nto
    congr 1
    funext i
    simp only [hT, Pi.sub_apply, nums, Finset.sum_apply, Pi.smul_apply, smul_eq_mul, hup]
    congr 1
    refine Finset.sum_congr rfl fun j _ => ?_
    split_ifs
    · exact mul_comm _ _
    · rw [mul_zero]
  -- rotate the residual of the Hessenberg system
  set z : ℕ → 𝕜 := nums num y0 - ∑ j : Fin n, a j • nums num (flCol o s j) with hzd
  have hgoal : vecNorm (fun i : Fin (n + 1) => (if (i : ℕ) = 0 then (β : 𝕜) else 0) - ∑ j : Fin n, num (s.arn.H i j) * a j) = nto (n + 1) z := by
    unfold nto
    congr 1
    funext i
    simp only [hzd, Pi.sub_apply, Finset.sum_apply, Pi.smul_apply, smul_eq_mul, hy0n]
    congr 1
    refine Finset.sum_congr rfl fun j _ => ?_
    rw [hcol j, mul_comm]
  rw [e3, hgoal, ← rotsU_norm hr.iso s.G (m := n + 1) (n := n) (by omega) z]
  have key : rotsU U s.G n z = T - (nums num s.y - rotsU U s.G n (nums num y0)) + ∑ j : Fin n, a j • (up j - rotsU U s.G n (nums num (flCol o s j))) := by
    rw [hzd, hT, map_sub, map_sum]
    simp only [map_smul, smul_sub, Finset.sum_sub_distrib]
    abel
  have n1 : nto (n + 1) (rotsU U s.G n z - T) ≤ nto (n + 1) (nums num s.y - rotsU U s.G n (nums num y0)) +
      nto (n + 1) (∑ j : Fin n, a j • (up j - rotsU U s.G n (nums num (flCol o s j)))) := by
    have e : rotsU U s.G n z - T = (∑ j : Fin n, a j • (up j - rotsU U s.G n (nums num (flCol o s j)))) - (nums num s.y - rotsU U s.G n (nums num y0)) := by
      rw [key]; abel
    rw [e]
    have := nto_sub_le (n + 1) (∑ j : Fin n, a j • (up j - rotsU U s.G n (nums num (flCol o s j)))) (nums num s.y - rotsU U s.G n (nums num y0))
    linarith
  have n3 : nto (n + 1) (∑ j : Fin n, a j • (up j - rotsU U s.G n (nums num (flCol o s j)))) ≤
      ∑ j : Fin n, ‖a j‖ * (rotErr g j * nto (j + 2) fun i => num (s.arn.H i j)) := by
    refine (nto_sum_le _ _ _).trans (Finset.sum_le_sum fun j _ => ?_)
    rw [nto_smul]
    exact mul_le_mul_of_nonneg_left (e2 j) (norm_nonneg _)
  have n4 := nto_add_le (n + 1) (rotsU U s.G n z - T) T
  have n5 := nto_sub_le (n + 1) (rotsU U s.G n z) (rotsU U s.G n z - T)
  rw [sub_add_cancel] at n4
  rw [sub_sub_cancel] at n5
  rw [abs_le]
  constructor <;> linarith

/-- The residual of the rotated system consists of the residual of the triangular system and of the last entry. -/
theorem rotated_norm {s : FlGmresSt F K X Q} {n : ℕ} (a : Fin n → 𝕜) :
    ‖num (s.y n)‖ ≤ vecNorm (fun i : Fin (n + 1) => num (s.y i) - ∑ j : Fin n, if (i : ℕ) ≤ j then num (s.R i j) * a j else 0) ∧
    vecNorm (fun i : Fin (n + 1) => num (s.y i) - ∑ j : Fin n, if (i : ℕ) ≤ j then num (s.R i j) * a j else 0) ≤
      ‖num (s.y n)‖ + vecNorm (fun i : Fin n => num (s.y i) - ∑ j : Fin n, if (i : ℕ) ≤ j then num (s.R i j) * a j else 0) := by
  set T : ℕ → 𝕜 := fun i => num (s.y i) - ∑ j : Fin n, if i ≤ j then num (s.R i j) * a j else 0 with hT
  have hTn : T n = num (s.y n) := by
    simp only [hT]
    rw [Finset.sum_eq_zero, sub_zero]
    intro j _
    rw [if_neg (by have := j.2; omega)]
  rw [← hTn]
  change _ ≤ nto (n + 1) T ∧ nto (n + 1) T ≤ _ + nto n T
  have h := nto_sq (n + 1) T
  rw [Finset.sum_range_succ, ← nto_sq] at h
  constructor
  · refine abs_le_of_sq_le_sq' ?_ (nto_nonneg _ _) |>.2
    rw [h]
    nlinarith [sq_nonneg (nto n T)]
  · refine abs_le_of_sq_le_sq' ?_ (add_nonneg (norm_nonneg _) (nto_nonneg _ _)) |>.2
    rw [h]
    nlinarith [norm_nonneg (T n), nto_nonneg n T]

/-- C80: the small system.  For all coefficients `a` the residual norm of the Hessenberg least squares problem is at most the residual norm `|y[n]|` which `Gmres` updates
plus the residual of the triangular system plus errors proportional to the error `g` of one rotation. -/
theorem C80_small (hr : FlRotation o num finK U g) (hg : 0 ≤ g) (hz : num o.zero = 0) {r0 : F} {β : ℝ} (hβ : num (o.ofReal r0) = (β : 𝕜))
    {s : FlGmresSt F K X Q} (ht : FlGmresTrace o r0 s) (hf : FlGmresFin finK s) {n : ℕ} (hn : s.arn.iter = n) (a : Fin n → 𝕜) :
    vecNorm (fun i : Fin (n + 1) => (if (i : ℕ) = 0 then (β : 𝕜) else 0) - ∑ j : Fin n, num (s.arn.H i j) * a j) ≤
      ‖num (s.y n)‖ + vecNorm (fun i : Fin n => num (s.y i) - ∑ j : Fin n, if (i : ℕ) ≤ j then num (s.R i j) * a j else 0) +
        ((1 + g) ^ n - 1) * |β| + ∑ j : Fin n, ‖a j‖ * (rotErr g j * nto (j + 2) fun i => num (s.arn.H i j)) := by
  have h1 := (abs_le.mp (small_close hr hg hz hβ ht hf hn a)).2
  have h2 := (rotated_norm (num := num) (s := s) a).2
  linarith

/-- The size of the columns of the triangular matrix. -/
theorem C80_columns (hr : FlRotation o num finK U g) (hg : 0 ≤ g) (hz : num o.zero = 0) {r0 : F} {s : FlGmresSt F K X Q} (ht : FlGmresTrace o r0 s)
    (hf : FlGmresFin finK s) {j : ℕ} (hj : j < s.arn.iter) :
    nto (j + 1) (fun i => num (s.R i j)) ≤ (1 + g) ^ (j + 1) * nto (j + 2) fun i => num (s.arn.H i j) := by
  have h := (flRots_err hr hg s.G (flCol o s j) (m := j + 2) (j + 1) (by omega) (fun i hi => hf.good ht (by omega)) (fun i hi => by rw [← ht.R j hj]; exact hf.R j hj i hi)).2.2
  have h1 : nto (j + 2) (nums num (flCol o s j)) = nto (j + 2) fun i => num (s.arn.H i j) := nto_congr fun i hi => by
    unfold nums flCol
    rw [if_pos hi]
  have h2 : nto (j + 1) (fun i => num (s.R i j)) ≤ nto (j + 2) (nums num (flRots o s.G (j + 1) (flCol o s j))) := by
    refine le_of_sq_le_sq ?_ (nto_nonneg _ _)
    rw [nto_sq, nto_sq, Finset.sum_range_succ _ (j + 1)]
    have : ∑ i ∈ Finset.range (j + 1), ‖num (s.R i j)‖ ^ 2 = ∑ i ∈ Finset.range (j + 1), ‖nums num (flRots o s.G (j + 1) (flCol o s j)) i‖ ^ 2 :=
      Finset.sum_congr rfl fun i _ => by rw [ht.R j hj]; rfl
    rw [this]
    have := sq_nonneg ‖nums num (flRots o s.G (j + 1) (flCol o s j)) (j + 1)‖
    linarith
  rw [h1] at h
  exact h2.trans h

end

/-! ## The residual -/

section
variable {𝕜 E : Type*} [RCLike 𝕜] [NormedAddCommGroup E] [InnerProductSpace 𝕜 E] {F K X Q : Type*}

/-- Back substitution and linear combinations with errors: the residual of the computed solution of a triangular system is at most `t|R||a|` in every component (this is
the usual backward error bound), linear combinations of vectors have errors of at most `c Σ|a_j|‖v_j‖`, for at most `m` unknowns or vectors. -/
structure FlSolve (o : FlGmresOps F K X Q) (vec : X → E) (fin : X → Prop) (num : K → 𝕜) (finK : K → Prop) (m : ℕ) (t c : ℝ) : Prop where
  solve : ∀ {k R y a}, k ≤ m → o.solve k R y = .ok a → (∀ i < k, finK (a i)) → (∀ i < k, finK (y i)) → (∀ j < k, ∀ i ≤ j, finK (R i j)) → ∀ i < k,
    ‖num (y i) - ∑ j ∈ Finset.range k, if i ≤ j then num (R i j) * num (a j) else 0‖ ≤ t * ∑ j ∈ Finset.range k, if i ≤ j then ‖num (R i j)‖ * ‖num (a j)‖ else 0
  comb : ∀ {k V a}, k ≤ m → fin (o.comb k V a) → (∀ i < k, finK (a i)) ∧
    ‖vec (o.comb k V a) - ∑ j ∈ Finset.range k, num (a j) • vec (V j)‖ ≤ c * ∑ j ∈ Finset.range k, ‖num (a j)‖ * ‖vec (V j)‖

variable {o : FlGmresOps F K X Q} {vec : X → E} {fin : X → Prop} {num : K → 𝕜} {finK : K → Prop} {val : F → ℝ} {finF : F → Prop} {B : E →L[𝕜] E} {u e d g t c : ℝ}
  {U : Q → 𝕜 × 𝕜 →ₗ[𝕜] 𝕜 × 𝕜} {m : ℕ}

/-- The residual of the triangular system. -/
theorem solve_norm (hs : FlSolve o vec fin num finK m t c) (ht0 : 0 ≤ t) {n : ℕ} (hnm : n ≤ m) {R : ℕ → ℕ → K} {y a : ℕ → K} (h : o.solve n R y = .ok a)
    (h1 : ∀ i < n, finK (a i)) (h2 : ∀ i < n, finK (y i)) (h3 : ∀ j < n, ∀ i ≤ j, finK (R i j)) :
    vecNorm (fun i : Fin n => num (y i) - ∑ j : Fin n, if (i : ℕ) ≤ j then num (R i j) * num (a j) else 0) ≤
      ∑ j : Fin n, ‖num (a j)‖ * (t * nto (j + 1) fun i => num (R i j)) := by
  have hb := hs.solve hnm h h1 h2 h3
  set w : Fin n → ℕ → ℝ := fun j i => if i ≤ (j : ℕ) then ‖num (R i j)‖ else 0 with hw
  have e1 : vecNorm (fun i : Fin n => num (y i) - ∑ j : Fin n, if (i : ℕ) ≤ j then num (R i j) * num (a j) else 0) ≤
      nto (𝕜 := ℝ) n (∑ j : Fin n, (t * ‖num (a j)‖) • w j) := by
    unfold nto
    refine vecNorm_mono fun i => ?_
    have := hb i i.2
    rw [Finset.sum_range, Finset.sum_range] at this
    have hq : (∑ j : Fin n, (t * ‖num (a j)‖) • w j) i = t * ∑ j : Fin n, if (i : ℕ) ≤ j then ‖num (R i j)‖ * ‖num (a j)‖ else 0 := by
      rw [Finset.sum_apply, Finset.mul_sum]
      refine Finset.sum_congr rfl fun j _ => ?_
      simp only [hw, Pi.smul_apply, smul_eq_mul]
      split_ifs <;> ring
    rw [hq]
    exact this.trans (le_abs_self _)
  refine e1.trans ((nto_sum_le _ _ _).trans (Finset.sum_le_sum fun j _ => ?_))
  rw [nto_smul, Real.norm_eq_abs, abs_of_nonneg (mul_nonneg ht0 (norm_nonneg _))]
  have e2 : nto n (w j) = nto (j + 1) fun i => num (R i j) := by
    refine (sq_eq_sq₀ (nto_nonneg _ _) (nto_nonneg _ _)).mp ?_
    rw [nto_sq, nto_sq]
    symm
    have hj := j.2
    rw [← Finset.sum_subset (s₁ := Finset.range (j + 1)) (s₂ := Finset.range n)]
    · refine Finset.sum_congr rfl fun i hi => ?_
      rw [Finset.mem_range] at hi
      simp only [hw, if_pos (Nat.lt_succ_iff.mp hi), norm_norm]
    · intro i hi
      rw [Finset.mem_range] at hi ⊢
      omega
    · intro i _ hi
      rw [Finset.mem_range] at hi
      simp only [hw, if_neg (show ¬ i ≤ (j : ℕ) by omega), norm_zero]
      norm_num
  rw [e2]
  exact le_of_eq (by ring)

/-- relative error of the small system in column `j`: rotations and back substitution -/
def gmresRot (g t : ℝ) (j : ℕ) : ℝ := rotErr g j + t * (1 + g) ^ (j + 1)

/-- C80: `Gmres` with `ortho` `mgs` or `dmgs`, `M=None`, the Euclidean inner product and errors.  Let `n` iterations have been carried out and `a` be the result of
`solve_triangular`.  Then the norm of the true residual of `yk = V_n a` is at most `√(2(n+1))` times the residual norm `|y[n]|` which `Gmres` updates, plus
errors which are proportional to the rounding errors.  Orthogonality of the basis is not needed. -/
theorem C80_residual (hv : FlArnVec o.toFlArnOps vec fin num finK val finF B u e) (hr : FlRotation o num finK U g) (hs : FlSolve o vec fin num finK m t c)
    (hu0 : 0 ≤ u) (hd : d < 1) (hud : (1 + u) ^ 2 ≤ 2 * (1 - d) ^ 2) (hg : 0 ≤ g) (ht0 : 0 ≤ t) (hc0 : 0 ≤ c) {ortho : Ortho} {v : X} {r0 : F}
    {s : FlGmresSt F K X Q} (inv : FlArnInv vec fin num finK finF o.toFlArnOps B u e d ortho v s.arn) (hf : FlArnFin fin finK finF s.arn)
    (ht : FlGmresTrace o r0 s) (hf' : FlGmresFin finK s) {n : ℕ} (hn : s.arn.iter = n) (h0 : 0 < n) (hnm : n ≤ m) {a : ℕ → K} (ha : o.solve n s.R s.y = .ok a)
    (hy : fin (flGmresYk o s a)) :
    ‖vec v - B (vec (flGmresYk o s a))‖ ≤
      √2 * (√(n + 1 : ℕ) * (‖num (s.y n)‖ + ((1 + g) ^ n - 1) * |val r0| +
          ∑ j ∈ Finset.range n, ‖num (a j)‖ * (gmresRot g t j * nto (j + 2) fun i => num (s.arn.H i j)))) +
        ∑ j ∈ Finset.range n, ‖num (a j)‖ * (arnDefect u e d ‖B‖ ortho num s.arn j + √2 * c * ‖B‖) + u * ‖vec v‖ := by
  have hfr0 : finK (o.ofReal r0) := by
    have := (flRots_err hr hg s.G (fun i => if i = 0 then o.ofReal r0 else o.zero) (m := n + 1) n (by omega)
      (fun i hi => hf'.good ht (by omega)) (fun i hi => by rw [← hn, ← ht.y]; exact hf'.y i (by omega))).1 0 (by omega)
    simpa using this
  have hβ := (hv.ofReal hfr0).2
  have hyk : flGmresYk o s a = o.comb n s.arn.V a := by unfold flGmresYk; rw [hn]
  rw [hyk] at hy ⊢
  obtain ⟨hfa, hcomb⟩ := hs.comb hnm hy
  have hfR : ∀ j < n, ∀ i ≤ j, finK (s.R i j) := fun j hj i hi => hf'.R j (by omega) i (by omega)
  have hfy : ∀ i < n, finK (s.y i) := fun i hi => hf'.y i (by omega)
  have h1 := C80_small hr hg hv.zero hβ ht hf' hn (fun j : Fin n => num (a j))
  have h2 := solve_norm hs ht0 hnm ha hfa hfy hfR
  have h3 := inv.residual hv hu0 hd hud hf (.inl (by omega)) (n := n) (by omega) (fun j : Fin n => num (a j))
  rw [ht.vnorm] at h3
  -- the triangular matrix
  have h4 : ∑ j : Fin n, ‖num (a j)‖ * (t * nto (j + 1) fun i => num (s.R i j)) ≤
      ∑ j : Fin n, ‖num (a j)‖ * (t * (1 + g) ^ ((j : ℕ) + 1) * nto (j + 2) fun i => num (s.arn.H i j)) := by
    refine Finset.sum_le_sum fun j _ => mul_le_mul_of_nonneg_left ?_ (norm_nonneg _)
    have := mul_le_mul_of_nonneg_left (C80_columns hr hg hv.zero ht hf' (j := j) (by have := j.2; omega)) ht0
    linarith
  have h5 : ∑ j ∈ Finset.range n, ‖num (a j)‖ * (gmresRot g t j * nto (j + 2) fun i => num (s.arn.H i j)) =
      ∑ j : Fin n, ‖num (a j)‖ * (rotErr g j * nto (j + 2) fun i => num (s.arn.H i j)) +
      ∑ j : Fin n, ‖num (a j)‖ * (t * (1 + g) ^ ((j : ℕ) + 1) * nto (j + 2) fun i => num (s.arn.H i j)) := by
    rw [Finset.sum_range, ← Finset.sum_add_distrib]
    refine Finset.sum_congr rfl fun j _ => ?_
    unfold gmresRot
    ring
  -- the linear combination
  have h6 : ‖B (vec (o.comb n s.arn.V a)) - B (∑ j : Fin n, num (a j) • vec (s.arn.V j))‖ ≤ ∑ j ∈ Finset.range n, ‖num (a j)‖ * (√2 * c * ‖B‖) := by
    rw [← map_sub]
    refine (B.le_opNorm _).trans ?_
    rw [← Finset.sum_range fun j => num (a j) • vec (s.arn.V j)]
    refine (mul_le_mul_of_nonneg_left hcomb (norm_nonneg _)).trans ?_
    rw [Finset.mul_sum, Finset.mul_sum]
    refine Finset.sum_le_sum fun j hj => ?_
    rw [Finset.mem_range] at hj
    have hu : ‖vec (s.arn.V j)‖ ≤ √2 := Real.le_sqrt_of_sq_le ((inv.unit hf j (.inl (by omega))).sq hu0 hd hud)
    have : ‖B‖ * (c * (‖num (a j)‖ * ‖vec (s.arn.V j)‖)) ≤ ‖B‖ * (c * (‖num (a j)‖ * √2)) := by gcongr
    linarith
  have h7 : ‖vec v - B (vec (o.comb n s.arn.V a))‖ ≤ ‖vec v - B (∑ j : Fin n, num (a j) • vec (s.arn.V j))‖ +
      ‖B (vec (o.comb n s.arn.V a)) - B (∑ j : Fin n, num (a j) • vec (s.arn.V j))‖ := by
    have := norm_sub_le (vec v - B (∑ j : Fin n, num (a j) • vec (s.arn.V j))) (B (vec (o.comb n s.arn.V a)) - B (∑ j : Fin n, num (a j) • vec (s.arn.V j)))
    rwa [sub_sub_sub_cancel_right] at this
  have h8 : ∑ j ∈ Finset.range n, ‖num (a j)‖ * (arnDefect u e d ‖B‖ ortho num s.arn j + √2 * c * ‖B‖) =
      ∑ j : Fin n, ‖num (a j)‖ * arnDefect u e d ‖B‖ ortho num s.arn j + ∑ j ∈ Finset.range n, ‖num (a j)‖ * (√2 * c * ‖B‖) := by
    rw [← Finset.sum_range fun j => ‖num (a j)‖ * arnDefect u e d ‖B‖ ortho num s.arn j, ← Finset.sum_add_distrib]
    exact Finset.sum_congr rfl fun j _ => mul_add _ _ _
  have h9 : √2 * (√(n + 1 : ℕ) * vecNorm fun i : Fin (n + 1) => (if (i : ℕ) = 0 then (val r0 : 𝕜) else 0) - ∑ j : Fin n, num (s.arn.H i j) * num (a j)) ≤
      √2 * (√(n + 1 : ℕ) * (‖num (s.y n)‖ + ((1 + g) ^ n - 1) * |val r0| +
          ∑ j ∈ Finset.range n, ‖num (a j)‖ * (gmresRot g t j * nto (j + 2) fun i => num (s.arn.H i j)))) := by
    refine mul_le_mul_of_nonneg_left (mul_le_mul_of_nonneg_left ?_ (Real.sqrt_nonneg _)) (Real.sqrt_nonneg _)
    rw [h5]
    linarith
  rw [h8]
  linarith

end

end Krypy
