import Verif.Props.FlGmres
import Verif.Proofs.Sim
import Verif.Props.FlCg

/-!
# Property C80, continued: calls of `Gmres` with rounding errors, componentwise errors, double precision
-/

set_option linter.unusedSectionVars false

namespace Krypy

section
variable {F K X Q : Type*} [LE F] [LT F] [DecidableLE F] [DecidableLT F] [Div F] [Zero F] [BEq F] [Zero X]

/-- The approximation at the end is the one which belongs to the state at the end. -/
theorem flGmres_xk {cfg : Cfg F X} {o : FlGmresOps F K X Q} {ortho : Ortho} {g0 : Q} {post : X → Except Err X} {x0 MMlr0 Mlr0 : X} {r0 : F}
    (hb : (cfg.MMlbNorm == 0) = false) {st : St F X (FlGmresSt F K X Q)}
    (h : flGmres cfg o ortho g0 post x0 MMlr0 Mlr0 r0 = .returned st ∨ flGmres cfg o ortho g0 post x0 MMlr0 Mlr0 r0 = .convergence st) {x : X}
    (hx : st.xk = some x) : flGmresXk o post st.s = .ok x := by
  unfold flGmres at h
  cases ha : flArnInit o.toFlArnOps Mlr0 (some MMlr0) (some r0) with
  | error e =>
    rw [ha] at h
    rcases h with h | h <;> cases h
  | ok arn =>
    rw [ha] at h
    dsimp only at h
    have hk0 : ∀ x, (flGmresMethod o ortho post cfg.maxiter).k (flGmresInit o g0 arn r0 x) = 0 := fun _ => flArnInit_iter ha
    rcases h with h | h
    · obtain ⟨st1, hi, -, hf⟩ := (run_inv (flGmresMethod_lawful o ortho post cfg.maxiter) hk0).1 st h
      obtain ⟨e1, -, -, -, -, e6⟩ := finish_returned hf
      rw [e1]
      rcases e6 with ⟨z, e7, e8⟩ | ⟨z, -, e7, e8⟩
      · obtain rfl := Option.some.inj (hx.symm.trans e8)
        by_cases h0 : (flGmresMethod o ortho post cfg.maxiter).k st1.s = 0
        · have := (hi.init h0).2.1
          rw [e7, hb] at this
          cases this
        · exact hi.xk h0 _ e7
      · obtain rfl := Option.some.inj (hx.symm.trans e8)
        exact e7
    · obtain ⟨st1, hi, -, hb1⟩ := (run_inv (flGmresMethod_lawful o ortho post cfg.maxiter) hk0).2 st h
      obtain ⟨s', q, z, v, e1, e2, -, e4, e5, -⟩ := body_convergence hb1
      obtain rfl := Option.some.inj (hx.symm.trans e5)
      rw [e2]
      exact e4

end

section
variable {𝕜 E : Type*} [RCLike 𝕜] [NormedAddCommGroup E] [InnerProductSpace 𝕜 E] {F K X Q : Type*}
  [LE F] [LT F] [DecidableLE F] [DecidableLT F] [Div F] [Zero F] [BEq F] [Zero X]
variable {o : FlGmresOps F K X Q} {vec : X → E} {fin : X → Prop} {num : K → 𝕜} {finK : K → Prop} {val : F → ℝ} {finF : F → Prop} {B : E →L[𝕜] E} {u e d g t c : ℝ}
  {U : Q → 𝕜 × 𝕜 →ₗ[𝕜] 𝕜 × 𝕜} {m : ℕ}

/-- The invariant of the Arnoldi iteration holds at the end of every call. -/
theorem flGmres_inv {cfg : Cfg F X} (hv : FlArnVec o.toFlArnOps vec fin num finK val finF B u e) (hi : FlArnIp o.toFlArnOps vec fin num finK val finF d) (hu0 : 0 ≤ u)
    (hu : u < 1) (hd0 : 0 ≤ d) (hd : d < 1) (he0 : 0 ≤ e) (hud : (1 + u) ^ 2 ≤ 2 * (1 - d) ^ 2) (hM : o.M = none) {ortho : Ortho} (ho : ortho ≠ .lanczos) {g0 : Q}
    {post : X → Except Err X} {x0 MMlr0 Mlr0 : X} {r0 : F} (hr0 : finF r0 → |val r0 - ‖vec Mlr0‖| ≤ d * ‖vec Mlr0‖) {st : St F X (FlGmresSt F K X Q)}
    (h : flGmres cfg o ortho g0 post x0 MMlr0 Mlr0 r0 = .returned st ∨ flGmres cfg o ortho g0 post x0 MMlr0 Mlr0 r0 = .convergence st) :
    FlArnInv vec fin num finK finF o.toFlArnOps B u e d ortho Mlr0 st.s.arn :=
  flGmres_induct (fun s => FlArnInv vec fin num finK finF o.toFlArnOps B u e d ortho Mlr0 s.arn)
    (fun _ ha => FlArnInv.init hv hi hu0 hu hd0 hd hM (fun r hr hf => by obtain rfl := Option.some.inj hr; exact hr0 hf) ha)
    (fun _ _ _ hs h1 => hs.step hv hi hu0 hu hd0 hd he0 hud hM ho (flGmresStep_ok h1).1) h

/-- The bound of `C80_residual`: the updated residual norm of the state times `√(2(n+1))`, and errors. -/
noncomputable def gmresGap (u e d g t c nB β : ℝ) (ortho : Ortho) (num : K → 𝕜) (nv : ℝ) (s : FlGmresSt F K X Q) (a : ℕ → K) : ℝ :=
  √2 * (√(s.arn.iter + 1 : ℕ) * (‖num (s.y s.arn.iter)‖ + ((1 + g) ^ s.arn.iter - 1) * |β| +
          ∑ j ∈ Finset.range s.arn.iter, ‖num (a j)‖ * (gmresRot g t j * nto (j + 2) fun i => num (s.arn.H i j)))) +
        ∑ j ∈ Finset.range s.arn.iter, ‖num (a j)‖ * (arnDefect u e d nB ortho num s.arn j + √2 * c * nB) + u * nv

/-- C80: the residual of the vector which `Gmres` returns (or attaches to a `ConvergenceError`) after at least one iteration for a system without preconditioners
(`M = Ml = Mr =` identity) with the Euclidean inner product.  It is bounded by `√(2(n+1))` times the residual norm `|y[n]|` which `Gmres` updates, the
error of the initial residual, and errors proportional to the rounding errors. -/
theorem C80_solution {cfg : Cfg F X} (hv : FlArnVec o.toFlArnOps vec fin num finK val finF B u e) (hi : FlArnIp o.toFlArnOps vec fin num finK val finF d)
    (hr : FlRotation o num finK U g) (hs : FlSolve o vec fin num finK m t c)
    (hadd : ∀ {x y}, fin (o.add x y) → fin x ∧ fin y ∧ ‖vec (o.add x y) - (vec x + vec y)‖ ≤ u * ‖vec x + vec y‖) (hMr : ∀ x, o.Mr x = x)
    (hu0 : 0 ≤ u) (hu : u < 1) (hd0 : 0 ≤ d) (hd : d < 1) (he0 : 0 ≤ e) (hud : (1 + u) ^ 2 ≤ 2 * (1 - d) ^ 2) (hg : 0 ≤ g) (ht0 : 0 ≤ t) (hc0 : 0 ≤ c) (hM : o.M = none)
    {ortho : Ortho} (ho : ortho ≠ .lanczos) {g0 : Q} {x0 MMlr0 Mlr0 : X} {r0 : F} (hr0 : finF r0 → |val r0 - ‖vec Mlr0‖| ≤ d * ‖vec Mlr0‖)
    (hb : (cfg.MMlbNorm == 0) = false) {st : St F X (FlGmresSt F K X Q)}
    (h : flGmres cfg o ortho g0 .ok x0 MMlr0 Mlr0 r0 = .returned st ∨ flGmres cfg o ortho g0 .ok x0 MMlr0 Mlr0 r0 = .convergence st)
    (hf : FlArnFin fin finK finF st.s.arn) (hf' : FlGmresFin finK st.s) (h0 : 0 < st.s.arn.iter) (hnm : st.s.arn.iter ≤ m) {x : X} (hx : st.xk = some x) (hfx : fin x) (b : E) :
    ∃ a, o.solve st.s.arn.iter st.s.R st.s.y = .ok a ∧ x = o.add x0 (flGmresYk o st.s a) ∧
      ‖vec Mlr0 - B (vec (flGmresYk o st.s a))‖ ≤ gmresGap u e d g t c ‖B‖ (val r0) ortho num ‖vec Mlr0‖ st.s a ∧
      ‖b - B (vec x)‖ ≤ ‖b - B (vec x0) - vec Mlr0‖ + gmresGap u e d g t c ‖B‖ (val r0) ortho num ‖vec Mlr0‖ st.s a +
        ‖B‖ * (u * ‖vec x0 + vec (flGmresYk o st.s a)‖) := by
  have inv := flGmres_inv hv hi hu0 hu hd0 hd he0 hud hM ho hr0 h
  obtain ⟨htr, hsx⟩ := C80_trace h
  have hxk := flGmres_xk hb h hx
  unfold flGmresXk at hxk
  rw [if_pos h0] at hxk
  split at hxk
  · cases hxk
  next a ha =>
  have hxe := (Except.ok.inj hxk).symm
  rw [hMr, hsx, hb] at hxe
  simp only [Bool.false_eq_true, if_false] at hxe
  refine ⟨a, ha, hxe, ?_⟩
  rw [hxe] at hfx ⊢
  obtain ⟨-, hfy, hae⟩ := hadd hfx
  have hres := C80_residual hv hr hs hu0 hd hud hg ht0 hc0 inv hf htr hf' rfl h0 hnm ha hfy
  refine ⟨hres, ?_⟩
  set y := vec (flGmresYk o st.s a)
  have e1 : b - B (vec (o.add x0 (flGmresYk o st.s a))) =
      (b - B (vec x0) - vec Mlr0) + (vec Mlr0 - B y) + (-(B (vec (o.add x0 (flGmresYk o st.s a)) - (vec x0 + y)))) := by
    simp only [map_sub, map_add]; abel
  rw [e1]
  refine norm_add₃_le.trans ?_
  rw [norm_neg]
  have := (B.le_opNorm (vec (o.add x0 (flGmresYk o st.s a)) - (vec x0 + y))).trans (mul_le_mul_of_nonneg_left hae (norm_nonneg B))
  have hr' : ‖vec Mlr0 - B y‖ ≤ gmresGap u e d g t c ‖B‖ (val r0) ortho num ‖vec Mlr0‖ st.s a := hres
  linarith

end

/-! ## Componentwise rounding errors -/

section
variable {𝕜 : Type*} [RCLike 𝕜] {F K X Q : Type*} {N : ℕ}
open Matrix
open scoped ComplexConjugate

/-- `(c', s')` are close to a rotation. -/
def NearRotation (w : ℝ) (q : ℝ × 𝕜) (r : ℝ × 𝕜) : Prop := r.1 ^ 2 + ‖r.2‖ ^ 2 = 1 ∧ |q.1 - r.1| ≤ w * |r.1| ∧ ‖q.2 - r.2‖ ≤ w * ‖r.2‖

/-- The operations of `Gmres` with the rounding errors of `FlPar` for a matrix `A`, `M=None` and the Euclidean inner product.  `cs` are the numbers `c`, `s` stored in a
`Givens` object: they have a relative error of at most `w` with respect to exact ones (`rotg`); rotations are applied with `numpy.dot` (`apply`).  Row `i` of the back
substitution is a sum of `y_i` and products `-R_ij a_j` in any order (further terms are zero), followed by a division (`solve`); linear combinations are computed with
`numpy.dot`. -/
structure FlGmresComp (p : FlPar) (o : FlGmresOps F K X Q) (vec : X → Fin N → 𝕜) (fin : X → Prop) (num : K → 𝕜) (finK : K → Prop) (val : F → ℝ) (finF : F → Prop)
    (cs : Q → ℝ × 𝕜) (A : Matrix (Fin N) (Fin N) 𝕜) : Prop extends FlArnComp p o.toFlArnOps vec fin num finK val finF A where
  apply : ∀ {q a b}, finK (o.apply q (a, b)).1 → finK (o.apply q (a, b)).2 → finK a ∧ finK b ∧
    FlDot p ![((cs q).1 : 𝕜), (cs q).2] ![num a, num b] (num (o.apply q (a, b)).1) ∧
    FlDot p ![-conj (cs q).2, ((cs q).1 : 𝕜)] ![num a, num b] (num (o.apply q (a, b)).2)
  rotg : ∀ {a b}, finK (o.apply (o.rotg a b) (a, b)).1 → finK (o.apply (o.rotg a b) (a, b)).2 →
    ∃ c s, IsRotg (num a) (num b) c s ∧ |(cs (o.rotg a b)).1 - c| ≤ p.w * |c| ∧ ‖(cs (o.rotg a b)).2 - s‖ ≤ p.w * ‖s‖
  solve : ∀ {k R y a}, o.solve k R y = .ok a → (∀ i < k, finK (a i)) → (∀ i < k, finK (y i)) → (∀ j < k, ∀ i ≤ j, finK (R i j)) → ∀ i < k, num (R i i) ≠ 0 ∧
    ∃ q, FlDot p (fun j : Fin k => if (j : ℕ) = i then 1 else if i < j then -num (R i j) else 0) (fun j : Fin k => if (j : ℕ) = i then num (y i) else num (a j)) q ∧
      ‖num (a i) - q / num (R i i)‖ ≤ p.u * ‖q / num (R i i)‖
  comb : ∀ {k V a}, fin (o.comb k V a) → (∀ i < k, finK (a i)) ∧
    ∀ i, FlDot p (fun j : Fin k => vec (V j) i) (fun j : Fin k => num (a j)) (vec (o.comb k V a) i)
  add : ∀ {x y}, fin (o.add x y) → fin x ∧ fin y ∧ ∀ i, ‖vec (o.add x y) i - (vec x i + vec y i)‖ ≤ p.u * ‖vec x i + vec y i‖

/-- The rotation by `(c, s)` (utils.py 431). -/
def rotLin (r : ℝ × 𝕜) : 𝕜 × 𝕜 →ₗ[𝕜] 𝕜 × 𝕜 where
  toFun x := ((r.1 : 𝕜) * x.1 + r.2 * x.2, -conj r.2 * x.1 + (r.1 : 𝕜) * x.2)
  map_add' x y := by ext <;> simp <;> ring
  map_smul' c x := by ext <;> simp <;> ring

theorem rotLin_norm {r : ℝ × 𝕜} (h : r.1 ^ 2 + ‖r.2‖ ^ 2 = 1) (x : 𝕜 × 𝕜) : pairNorm (rotLin r x) = pairNorm x := by
  refine (sq_eq_sq₀ (pairNorm_nonneg _) (pairNorm_nonneg _)).mp ?_
  rw [pairNorm_sq, pairNorm_sq]
  have h1 : (((‖(rotLin r x).1‖ ^ 2 + ‖(rotLin r x).2‖ ^ 2 : ℝ)) : 𝕜) = ((‖x.1‖ ^ 2 + ‖x.2‖ ^ 2 : ℝ) : 𝕜) := by
    have h2 : ((r.1 ^ 2 + ‖r.2‖ ^ 2 : ℝ) : 𝕜) = 1 := by rw [h]; simp
    push_cast at h2 ⊢
    simp only [← RCLike.conj_mul] at h2 ⊢
    simp only [rotLin, LinearMap.coe_mk, AddHom.coe_mk, map_add, map_mul, map_neg, RCLike.conj_conj, RCLike.conj_ofReal]
    linear_combination (conj x.1 * x.1 + conj x.2 * x.2) * h2
  exact_mod_cast h1

open Classical in
/-- An exact rotation close to the stored one. -/
noncomputable def nearRot (w : ℝ) (q : ℝ × 𝕜) : ℝ × 𝕜 := if h : ∃ r, NearRotation w q r then h.choose else (1, 0)

theorem nearRot_unit (w : ℝ) (q : ℝ × 𝕜) : (nearRot w q).1 ^ 2 + ‖(nearRot w q).2‖ ^ 2 = 1 := by
  unfold nearRot
  split_ifs with h
  · exact h.choose_spec.1
  · simp

theorem nearRot_spec {w : ℝ} {q r : ℝ × 𝕜} (h : NearRotation w q r) : NearRotation w q (nearRot w q) := by
  have : ∃ r, NearRotation w q r := ⟨r, h⟩
  unfold nearRot
  rw [dif_pos this]
  exact this.choose_spec

/-- Cauchy-Schwarz for pairs. -/
theorem pair_cs {a b x y : ℝ} (ha : 0 ≤ a) (hb : 0 ≤ b) (hx : 0 ≤ x) (hy : 0 ≤ y) : a * x + b * y ≤ √(a ^ 2 + b ^ 2) * √(x ^ 2 + y ^ 2) := by
  rw [← Real.sqrt_mul (by positivity)]
  refine Real.le_sqrt_of_sq_le ?_
  nlinarith [sq_nonneg (a * y - b * x)]

theorem pairNorm_le_of {p : 𝕜 × 𝕜} {C : ℝ} (hC : 0 ≤ C) (h1 : ‖p.1‖ ≤ C) (h2 : ‖p.2‖ ≤ C) : pairNorm p ≤ 2 * C := by
  refine Real.sqrt_le_iff.mpr ⟨by positivity, ?_⟩
  nlinarith [norm_nonneg p.1, norm_nonneg p.2]

/-- relative error of the application of a computed rotation -/
noncomputable def FlPar.rot (p : FlPar) : ℝ := 2 * (p.gam 2 * (1 + p.w) + p.w)

theorem FlPar.Nonneg.rot_nonneg {p : FlPar} (hp : p.Nonneg) : 0 ≤ p.rot := by
  have := hp.gam_nonneg 2
  have := hp.w
  unfold FlPar.rot
  positivity

theorem flDot_pair {p : FlPar} (hp : p.Nonneg) (hη : p.η = 0) {c s a b q : 𝕜} {c' s' : 𝕜} (h : FlDot p ![c', s'] ![a, b] q) (hc : ‖c' - c‖ ≤ p.w * ‖c‖)
    (hs : ‖s' - s‖ ≤ p.w * ‖s‖) (hu : ‖c‖ ^ 2 + ‖s‖ ^ 2 = 1) : ‖q - (c * a + s * b)‖ ≤ (p.gam 2 * (1 + p.w) + p.w) * pairNorm (a, b) := by
  have g0 := hp.gam_nonneg 2
  have w0 := hp.w
  have h1 := C77_dot hp h
  rw [FlPar.und, hη, mul_zero, add_zero] at h1
  have e1 : ![c', s'] ⬝ᵥ ![a, b] = c' * a + s' * b := by simp [dotProduct, Fin.sum_univ_two]
  have e2 : ∑ i, ‖(![c', s'] : Fin 2 → 𝕜) i‖ * ‖(![a, b] : Fin 2 → 𝕜) i‖ = ‖c'‖ * ‖a‖ + ‖s'‖ * ‖b‖ := by simp [Fin.sum_univ_two]
  rw [e1, e2] at h1
  have c1 : ‖c'‖ ≤ (1 + p.w) * ‖c‖ := by
    have := norm_le_norm_add_norm_sub' c' c
    linarith
  have s1 : ‖s'‖ ≤ (1 + p.w) * ‖s‖ := by
    have := norm_le_norm_add_norm_sub' s' s
    linarith
  have hcs : ‖c‖ * ‖a‖ + ‖s‖ * ‖b‖ ≤ pairNorm (a, b) := by
    have := pair_cs (norm_nonneg c) (norm_nonneg s) (norm_nonneg a) (norm_nonneg b)
    rwa [hu, Real.sqrt_one, one_mul] at this
  set P := ‖c‖ * ‖a‖ + ‖s‖ * ‖b‖ with hP
  have h2 : ‖c'‖ * ‖a‖ + ‖s'‖ * ‖b‖ ≤ (1 + p.w) * P := by
    have q1 := mul_le_mul_of_nonneg_right c1 (norm_nonneg a)
    have q2 := mul_le_mul_of_nonneg_right s1 (norm_nonneg b)
    rw [hP]
    linarith
  have h3 : ‖(c' * a + s' * b) - (c * a + s * b)‖ ≤ p.w * P := by
    have e3 : (c' * a + s' * b) - (c * a + s * b) = (c' - c) * a + (s' - s) * b := by ring
    rw [e3]
    refine (norm_add_le _ _).trans ?_
    rw [norm_mul, norm_mul]
    have q1 := mul_le_mul_of_nonneg_right hc (norm_nonneg a)
    have q2 := mul_le_mul_of_nonneg_right hs (norm_nonneg b)
    rw [hP]
    linarith
  have h4 : ‖q - (c * a + s * b)‖ ≤ ‖q - (c' * a + s' * b)‖ + ‖(c' * a + s' * b) - (c * a + s * b)‖ := by
    have := norm_add_le (q - (c' * a + s' * b)) ((c' * a + s' * b) - (c * a + s * b))
    rwa [sub_add_sub_cancel] at this
  have h5 := mul_le_mul_of_nonneg_left h2 g0
  calc ‖q - (c * a + s * b)‖ ≤ p.gam 2 * ((1 + p.w) * P) + p.w * P := by linarith
    _ = (p.gam 2 * (1 + p.w) + p.w) * P := by ring
    _ ≤ _ := mul_le_mul_of_nonneg_left hcs (by positivity)

variable {p : FlPar} {o : FlGmresOps F K X Q} {vec : X → Fin N → 𝕜} {fin : X → Prop} {num : K → 𝕜} {finK : K → Prop} {val : F → ℝ} {finF : F → Prop} {cs : Q → ℝ × 𝕜}
  {A : Matrix (Fin N) (Fin N) 𝕜}

/-- C80: rotations with componentwise errors. -/
theorem C80_rotation (hp : p.Nonneg) (hη : p.η = 0) (h : FlGmresComp p o vec fin num finK val finF cs A) :
    FlRotation o num finK (fun q => rotLin (nearRot p.w (cs q))) p.rot where
  iso q x := rotLin_norm (nearRot_unit _ _) x
  apply {q a b} hq h1 h2 := by
    obtain ⟨f1, f2, d1, d2⟩ := h.apply h1 h2
    refine ⟨f1, f2, ?_⟩
    obtain ⟨a', b', rfl, g1, g2⟩ := hq
    obtain ⟨c0, s0, hr, hc0, hs0⟩ := h.rotg g1 g2
    have hn : NearRotation p.w (cs (o.rotg a' b')) (nearRot p.w (cs (o.rotg a' b'))) := nearRot_spec (r := (c0, s0)) ⟨hr.1, hc0, hs0⟩
    set q := o.rotg a' b' with hqd
    set r := nearRot p.w (cs q) with hrd
    obtain ⟨n1, n2, n3⟩ := hn
    have hcn : ‖((cs q).1 : 𝕜) - (r.1 : 𝕜)‖ ≤ p.w * ‖(r.1 : 𝕜)‖ := by
      rw [← RCLike.ofReal_sub, RCLike.norm_ofReal, RCLike.norm_ofReal]
      exact n2
    have hsn : ‖-conj (cs q).2 - -conj r.2‖ ≤ p.w * ‖-conj r.2‖ := by
      rw [neg_sub_neg, ← map_sub, RCLike.norm_conj, norm_neg, RCLike.norm_conj, norm_sub_rev]
      exact n3
    have hu1 : ‖(r.1 : 𝕜)‖ ^ 2 + ‖r.2‖ ^ 2 = 1 := by
      rw [RCLike.norm_ofReal, sq_abs]
      exact n1
    have hu2 : ‖-conj r.2‖ ^ 2 + ‖(r.1 : 𝕜)‖ ^ 2 = 1 := by
      rw [norm_neg, RCLike.norm_conj, add_comm]
      exact hu1
    have e1 := flDot_pair hp hη d1 hcn n3 hu1
    have e2 := flDot_pair hp hη d2 hsn hcn hu2
    have g0 := hp.gam_nonneg 2
    have w0 := hp.w
    have := pairNorm_le_of (p := (num (o.apply q (a, b)).1, num (o.apply q (a, b)).2) - rotLin r (num a, num b))
      (mul_nonneg (show 0 ≤ p.gam 2 * (1 + p.w) + p.w by positivity) (pairNorm_nonneg (num a, num b))) e1 e2
    refine this.trans (le_of_eq ?_)
    unfold FlPar.rot
    ring
  rotg {a b} h1 h2 := by
    obtain ⟨c0, s0, hr, hc0, hs0⟩ := h.rotg h1 h2
    have hn : NearRotation p.w (cs (o.rotg a b)) (nearRot p.w (cs (o.rotg a b))) := nearRot_spec (r := (c0, s0)) ⟨hr.1, hc0, hs0⟩
    set q := o.rotg a b with hqd
    set r := nearRot p.w (cs q) with hrd
    obtain ⟨n1, n2, n3⟩ := hn
    have w0 := hp.w
    have g0 := hp.gam_nonneg 2
    -- two rotations close to the stored one
    have e1 : (rotLin r (num a, num b)).2 = -conj (r.2 - s0) * num a + ((r.1 - c0 : ℝ) : 𝕜) * num b := by
      have := hr.2
      change -conj r.2 * num a + (r.1 : 𝕜) * num b = _
      rw [map_sub]
      push_cast
      linear_combination this
    have c1 : |r.1 - c0| ≤ p.w * (|r.1| + |c0|) := by
      have := abs_sub_le r.1 (cs q).1 c0
      rw [abs_sub_comm r.1 (cs q).1] at this
      linarith
    have s1 : ‖r.2 - s0‖ ≤ p.w * (‖r.2‖ + ‖s0‖) := by
      have := norm_sub_le_norm_sub_add_norm_sub r.2 (cs q).2 s0
      rw [norm_sub_rev r.2 (cs q).2] at this
      linarith
    have f1 : ‖r.2‖ * ‖num a‖ + |r.1| * ‖num b‖ ≤ pairNorm (num a, num b) := by
      have := pair_cs (norm_nonneg r.2) (abs_nonneg r.1) (norm_nonneg (num a)) (norm_nonneg (num b))
      rwa [sq_abs, add_comm (‖r.2‖ ^ 2), n1, Real.sqrt_one, one_mul] at this
    have f2 : ‖s0‖ * ‖num a‖ + |c0| * ‖num b‖ ≤ pairNorm (num a, num b) := by
      have := pair_cs (norm_nonneg s0) (abs_nonneg c0) (norm_nonneg (num a)) (norm_nonneg (num b))
      rwa [sq_abs, add_comm (‖s0‖ ^ 2), hr.1, Real.sqrt_one, one_mul] at this
    change ‖(rotLin r (num a, num b)).2‖ ≤ _
    rw [e1]
    refine (norm_add_le _ _).trans ?_
    rw [norm_mul, norm_mul, norm_neg, RCLike.norm_conj, RCLike.norm_ofReal]
    have q1 := mul_le_mul_of_nonneg_right s1 (norm_nonneg (num a))
    have q2 := mul_le_mul_of_nonneg_right c1 (norm_nonneg (num b))
    have q3 := mul_le_mul_of_nonneg_left (add_le_add f1 f2) w0
    have q4 : 2 * p.w * pairNorm (num a, num b) ≤ p.rot * pairNorm (num a, num b) := by
      refine mul_le_mul_of_nonneg_right ?_ (pairNorm_nonneg _)
      unfold FlPar.rot
      nlinarith [mul_nonneg g0 (show 0 ≤ 1 + p.w by linarith)]
    linarith

theorem FlPar.Nonneg.gam_mono (hp : p.Nonneg) {k m : ℕ} (h : k ≤ m) : p.gam k ≤ p.gam m := by
  have h1 : (1 + p.u) ^ (k - 1) ≤ (1 + p.u) ^ (m - 1) := pow_le_pow_right₀ (by linarith [hp.u]) (by omega)
  have h2 := hp.v
  unfold FlPar.gam
  nlinarith

/-- relative backward error of a back substitution with at most `m` unknowns -/
noncomputable def FlPar.tri (p : FlPar) (m : ℕ) : ℝ := (2 * p.gam m + p.u) / ((1 - p.u) * (1 - p.gam m))

theorem sum_split_diag {M : Type*} [AddCommMonoid M] {i k : ℕ} (hi : i < k) (f : ℕ → M) :
    ∑ j ∈ Finset.range k, (if i ≤ j then f j else 0) = f i + ∑ j ∈ Finset.range k, if i < j then f j else 0 := by
  rw [← Finset.add_sum_erase _ _ (Finset.mem_range.mpr hi), if_pos le_rfl]
  congr 1
  rw [← Finset.add_sum_erase (Finset.range k) (fun j => if i < j then f j else 0) (Finset.mem_range.mpr hi), if_neg (lt_irrefl i), zero_add]
  refine Finset.sum_congr rfl fun j hj => ?_
  have hne := (Finset.mem_erase.mp hj).1
  by_cases hlt : i < j
  · rw [if_pos hlt.le, if_pos hlt]
  · rw [if_neg hlt, if_neg (by omega)]

/-- C80: back substitution and linear combinations with componentwise errors. -/
theorem C80_solve (hp : p.Nonneg) (hη : p.η = 0) (hu : p.u < 1) {m : ℕ} (hm : p.gam m < 1) (h : FlGmresComp p o vec fin num finK val finF cs A) :
    FlSolve o (fun x => (WithLp.toLp 2 (vec x) : EuclideanSpace 𝕜 (Fin N))) fin num finK m (p.tri m) (p.gam m) where
  solve {k R y a} hk hs h1 h2 h3 i hi := by
    obtain ⟨hR, q, hq, hd⟩ := h.solve hs h1 h2 h3 i hi
    have g0 := hp.gam_nonneg m
    have u0 := hp.u
    have hq1 := C77_dot hp hq
    rw [FlPar.und, hη, mul_zero, add_zero] at hq1
    set S : ℝ := ∑ j ∈ Finset.range k, if i < j then ‖num (R i j)‖ * ‖num (a j)‖ else 0 with hS
    set T : 𝕜 := ∑ j ∈ Finset.range k, if i < j then num (R i j) * num (a j) else 0 with hT
    have hS0 : 0 ≤ S := Finset.sum_nonneg fun j _ => by split_ifs <;> positivity
    have hTS : ‖T‖ ≤ S := by
      refine (norm_sum_le _ _).trans (Finset.sum_le_sum fun j _ => ?_)
      split_ifs
      · rw [norm_mul]
      · simp
    have e1 : ∑ j ∈ Finset.range k, (if i ≤ j then num (R i j) * num (a j) else 0) = num (R i i) * num (a i) + T := sum_split_diag hi _
    have e2 : ∑ j ∈ Finset.range k, (if i ≤ j then ‖num (R i j)‖ * ‖num (a j)‖ else 0) = ‖num (R i i)‖ * ‖num (a i)‖ + S := sum_split_diag hi _
    rw [e1, e2]
    have e3 : (fun j : Fin k => if (j : ℕ) = i then (1 : 𝕜) else if i < j then -num (R i j) else 0) ⬝ᵥ
        (fun j : Fin k => if (j : ℕ) = i then num (y i) else num (a j)) = num (y i) - T := by
      unfold dotProduct
      rw [← Finset.sum_range fun j => (if j = i then (1 : 𝕜) else if i < j then -num (R i j) else 0) * (if j = i then num (y i) else num (a j)), hT,
        ← Finset.add_sum_erase _ _ (Finset.mem_range.mpr hi), ← Finset.add_sum_erase _ _ (Finset.mem_range.mpr hi), if_pos rfl, if_pos rfl, one_mul, if_neg (lt_irrefl i), zero_add,
        sub_eq_add_neg, ← Finset.sum_neg_distrib]
      congr 1
      refine Finset.sum_congr rfl fun j hj => ?_
      rw [if_neg (Finset.mem_erase.mp hj).1, if_neg (Finset.mem_erase.mp hj).1]
      split_ifs <;> ring
    have e4 : ∑ j : Fin k, ‖(fun j : Fin k => if (j : ℕ) = i then (1 : 𝕜) else if i < j then -num (R i j) else 0) j‖ *
        ‖(fun j : Fin k => if (j : ℕ) = i then num (y i) else num (a j)) j‖ = ‖num (y i)‖ + S := by
      rw [← Finset.sum_range fun j => ‖(if j = i then (1 : 𝕜) else if i < j then -num (R i j) else 0)‖ * ‖(if j = i then num (y i) else num (a j))‖, hS,
        ← Finset.add_sum_erase _ _ (Finset.mem_range.mpr hi), ← Finset.add_sum_erase (Finset.range k) (fun j => if i < j then _ else _) (Finset.mem_range.mpr hi), if_pos rfl, if_pos rfl,
        norm_one, one_mul, if_neg (lt_irrefl i), zero_add]
      congr 1
      refine Finset.sum_congr rfl fun j hj => ?_
      rw [if_neg (Finset.mem_erase.mp hj).1, if_neg (Finset.mem_erase.mp hj).1]
      split_ifs <;> simp
    rw [e3, e4] at hq1
    have hq2 : ‖q - (num (y i) - T)‖ ≤ p.gam m * (‖num (y i)‖ + S) := hq1.trans (mul_le_mul_of_nonneg_right (hp.gam_mono hk) (by positivity))
    -- the division
    have hd1 : ‖num (R i i) * num (a i) - q‖ ≤ p.u * ‖q‖ := by
      have := mul_le_mul_of_nonneg_left hd (norm_nonneg (num (R i i)))
      rwa [← norm_mul, mul_left_comm, ← norm_mul, mul_sub, mul_div_cancel₀ _ hR] at this
    set D := ‖num (R i i)‖ * ‖num (a i)‖ with hD
    have hD0 : 0 ≤ D := by positivity
    have hDe : ‖num (R i i) * num (a i)‖ = D := norm_mul _ _
    have hqD : (1 - p.u) * ‖q‖ ≤ D := by
      have := norm_le_norm_add_norm_sub (num (R i i) * num (a i)) q
      rw [hDe] at this
      linarith
    have hyb : (1 - p.gam m) * ‖num (y i)‖ ≤ ‖q‖ + (1 + p.gam m) * S := by
      have q1 : ‖num (y i)‖ ≤ ‖q‖ + ‖T‖ + ‖q - (num (y i) - T)‖ := by
        have : num (y i) = q + T - (q - (num (y i) - T)) := by ring
        calc ‖num (y i)‖ = ‖q + T - (q - (num (y i) - T))‖ := by rw [← this]
          _ ≤ ‖q + T‖ + ‖q - (num (y i) - T)‖ := norm_sub_le _ _
          _ ≤ _ := by linarith [norm_add_le q T]
      linarith
    have hfin : ‖num (y i) - (num (R i i) * num (a i) + T)‖ ≤ p.gam m * (‖num (y i)‖ + S) + p.u * ‖q‖ := by
      have : num (y i) - (num (R i i) * num (a i) + T) = -((q - (num (y i) - T)) + (num (R i i) * num (a i) - q)) := by ring
      rw [this, norm_neg]
      exact (norm_add_le _ _).trans (add_le_add hq2 hd1)
    refine hfin.trans ?_
    have u1 : 0 < 1 - p.u := by linarith
    have m1 : 0 < 1 - p.gam m := by linarith
    unfold FlPar.tri
    rw [div_mul_eq_mul_div, le_div_iff₀ (mul_pos u1 m1)]
    set G := p.gam m
    set Y := ‖num (y i)‖
    have q1 : (1 - p.u) * ((1 - G) * Y) ≤ D + (1 - p.u) * ((1 + G) * S) := by
      have := mul_le_mul_of_nonneg_left hyb u1.le
      linarith
    have q2 : G * ((1 - p.u) * ((1 - G) * Y)) ≤ G * (D + (1 - p.u) * ((1 + G) * S)) := mul_le_mul_of_nonneg_left q1 g0
    have q3 : p.u * (1 - G) * ((1 - p.u) * ‖q‖) ≤ p.u * (1 - G) * D := mul_le_mul_of_nonneg_left hqD (by positivity)
    have q4 : 0 ≤ G * p.u * D := by positivity
    have q5 : 0 ≤ G * p.u * S := by positivity
    have q6 : 0 ≤ p.u * S := by positivity
    have q7 : 0 ≤ G * D := by positivity
    nlinarith
  comb {k V a} hk hf := by
    obtain ⟨h1, h2⟩ := h.comb hf
    refine ⟨h1, ?_⟩
    have g0 := hp.gam_nonneg m
    have e1 : (WithLp.toLp 2 (vec (o.comb k V a)) : EuclideanSpace 𝕜 (Fin N)) - ∑ j ∈ Finset.range k, num (a j) • (WithLp.toLp 2 (vec (V j)) : EuclideanSpace 𝕜 (Fin N)) =
        WithLp.toLp 2 (vec (o.comb k V a) - ∑ j ∈ Finset.range k, num (a j) • vec (V j)) := by
      rw [WithLp.toLp_sub, WithLp.toLp_sum]
      rfl
    have hb : ‖(WithLp.toLp 2 (vec (o.comb k V a) - ∑ j ∈ Finset.range k, num (a j) • vec (V j)) : EuclideanSpace 𝕜 (Fin N))‖ ≤
        ‖∑ j ∈ Finset.range k, (p.gam m * ‖num (a j)‖) • (WithLp.toLp 2 (fun i => ‖vec (V j) i‖) : EuclideanSpace ℝ (Fin N))‖ := by
      have e2 : ∑ j ∈ Finset.range k, (p.gam m * ‖num (a j)‖) • (WithLp.toLp 2 (fun i => ‖vec (V j) i‖) : EuclideanSpace ℝ (Fin N)) =
          WithLp.toLp 2 (∑ j ∈ Finset.range k, (p.gam m * ‖num (a j)‖) • fun i => ‖vec (V j) i‖) := by
        rw [WithLp.toLp_sum]
        rfl
      rw [e2, ← vecNorm_toLp, ← vecNorm_toLp]
      refine vecNorm_mono fun i => ?_
      have h3 := C77_dot hp (h2 i)
      rw [FlPar.und, hη, mul_zero, add_zero] at h3
      have h4 : (vec (o.comb k V a) - ∑ j ∈ Finset.range k, num (a j) • vec (V j)) i =
          vec (o.comb k V a) i - (fun j : Fin k => vec (V j) i) ⬝ᵥ fun j : Fin k => num (a j) := by
        unfold dotProduct
        rw [Pi.sub_apply, Finset.sum_apply, ← Finset.sum_range fun j => vec (V j) i * num (a j)]
        congr 1
        exact Finset.sum_congr rfl fun j _ => by rw [Pi.smul_apply, smul_eq_mul, mul_comm]
      have h5 : (∑ j ∈ Finset.range k, (p.gam m * ‖num (a j)‖) • fun i => ‖vec (V j) i‖) i = p.gam m * ∑ j : Fin k, ‖vec (V j) i‖ * ‖num (a j)‖ := by
        rw [Finset.sum_apply, Finset.mul_sum, ← Finset.sum_range fun j => p.gam m * (‖vec (V j) i‖ * ‖num (a j)‖)]
        refine Finset.sum_congr rfl fun j _ => ?_
        rw [Pi.smul_apply, smul_eq_mul]
        ring
      rw [h4, h5]
      refine h3.trans (le_trans ?_ (le_abs_self _))
      exact mul_le_mul_of_nonneg_right (hp.gam_mono hk) (Finset.sum_nonneg fun j _ => by positivity)
    rw [e1]
    refine hb.trans ((norm_sum_le _ _).trans ?_)
    rw [Finset.mul_sum]
    refine Finset.sum_le_sum fun j _ => ?_
    rw [norm_smul, Real.norm_eq_abs, abs_of_nonneg (mul_nonneg g0 (norm_nonneg _)), mul_assoc]
    refine mul_le_mul_of_nonneg_left (mul_le_mul_of_nonneg_left ?_ (norm_nonneg _)) g0
    rw [← vecNorm_toLp, ← vecNorm_toLp]
    exact vecNorm_mono fun i => by simp

end

/-! ## Double precision -/

section
open Matrix

theorem pow_sub_one_le {x : ℝ} (hx : 0 ≤ x) {k : ℕ} (hk : k * x ≤ 1 / 100) : (1 + x) ^ k - 1 ≤ 1.02 * (k * x) := by
  rcases Nat.eq_zero_or_pos k with rfl | h0
  · simp
  have hk1 : (1 : ℝ) ≤ k := by exact_mod_cast h0
  have hx1 : x ≤ 1 / 100 := by nlinarith
  have b1 : 1 + (k : ℝ) * (-x) ≤ (1 + -x) ^ k := one_add_mul_le_pow (by linarith) k
  have b2 : (1 + x) ^ k * (1 + -x) ^ k ≤ 1 := by
    rw [← mul_pow]
    exact pow_le_one₀ (by nlinarith) (by nlinarith)
  have b4 : (1 : ℝ) ≤ (1 + x) ^ k := one_le_pow₀ (by linarith)
  set G := (1 + x) ^ k
  have b6 : G * (1 + (k : ℝ) * (-x)) ≤ 1 := (mul_le_mul_of_nonneg_left b1 (by linarith)).trans b2
  set z := (k : ℝ) * x
  have hz : 0 ≤ z := by positivity
  have b7 : G * (1 - z) ≤ 1 := by
    have : (k : ℝ) * (-x) = -z := by ring
    rw [this] at b6
    linarith
  have b8 : (1.02 * z + 1) * (1 - z) ≥ 1 := by nlinarith
  nlinarith

theorem arnD_double {u e d nB : ℝ} (hu0 : 0 ≤ u) (hu : u ≤ 2⁻¹ ^ 53) (hd0 : 0 ≤ d) (hd : d ≤ 1.2 / 10 ^ 10) (he : 0 ≤ e) (hB : 0 ≤ nB) {ortho : Ortho} {n : ℕ}
    (hn : n < 1000) : arnD u e d nB ortho n ≤ 5.675 * (nB + e) := by
  have hr : ortho.reorthos + 1 ≤ 2 := by cases ortho <;> decide
  have hm : arnSteps ortho n ≤ 2000 := by
    unfold arnSteps
    calc (ortho.reorthos + 1) * (n + 1) ≤ 2 * 1000 := Nat.mul_le_mul hr (by omega)
      _ = 2000 := rfl
  have hs2 : √2 ≤ 1.4143 := by
    rw [Real.sqrt_le_left (by norm_num)]
    norm_num
  have hW : arnW u e d nB ortho n ≤ 1.415 * (nB + e) := by
    unfold arnW
    have h1 := orthoGrow_pow_le hu0 hu hd0 hd hm
    calc orthoGrow u d ^ arnSteps ortho n * (√2 * (nB + e)) ≤ (1 + 1 / 10 ^ 6) * (1.4143 * (nB + e)) := by gcongr
      _ ≤ 1.415 * (nB + e) := by nlinarith
  have hg0 : 0 ≤ orthoGrow u d := by linarith [one_le_orthoGrow hu0 hd0]
  have hW0 : 0 ≤ arnW u e d nB ortho n := by
    unfold arnW
    positivity
  set W := arnW u e d nB ortho n with hWd
  have hD : arnD u e d nB ortho n ≤ 4.01 * W := by
    unfold arnD
    rw [← hWd]
    have hp : (1 + u) ^ (ortho.reorthos + 1) ≤ (1 + 2⁻¹ ^ 53 : ℝ) ^ 2 :=
      (pow_le_pow_left₀ (by linarith) (by linarith) _).trans (pow_le_pow_right₀ (by norm_num) hr)
    have hr' : ((ortho.reorthos + 1 : ℕ) : ℝ) ≤ 2 := by exact_mod_cast hr
    calc ((ortho.reorthos + 1 : ℕ) : ℝ) * ((1 + u) ^ (ortho.reorthos + 1) * (2 * (1 + d) * W)) ≤
        2 * ((1 + 2⁻¹ ^ 53) ^ 2 * (2 * (1 + 1.2 / 10 ^ 10) * W)) := by gcongr
      _ = (4 * (1 + 2⁻¹ ^ 53) ^ 2 * (1 + 1.2 / 10 ^ 10)) * W := by ring
      _ ≤ 4.01 * W := mul_le_mul_of_nonneg_right (by norm_num) hW0
  have : 0 ≤ nB + e := by linarith
  linarith

/-- The operator norm is at most the Frobenius norm. -/
theorem norm_le_frob {𝕜 : Type*} [RCLike 𝕜] {N : ℕ} (A : Matrix (Fin N) (Fin N) 𝕜) : ‖Matrix.toEuclideanCLM (n := Fin N) (𝕜 := 𝕜) A‖ ≤ frob A := by
  refine ContinuousLinearMap.opNorm_le_bound _ (Real.sqrt_nonneg _) fun x => ?_
  obtain ⟨x, rfl⟩ : ∃ y : Fin N → 𝕜, x = WithLp.toLp 2 y := ⟨WithLp.ofLp x, rfl⟩
  rw [Matrix.toEuclideanCLM_toLp, ← vecNorm_toLp, ← vecNorm_toLp]
  have hF : frob A ^ 2 = ∑ i, ∑ j, ‖A i j‖ ^ 2 := Real.sq_sqrt (Finset.sum_nonneg fun i _ => Finset.sum_nonneg fun j _ => sq_nonneg _)
  refine le_of_sq_le_sq ?_ (mul_nonneg (Real.sqrt_nonneg _) (vecNorm_nonneg x))
  rw [mul_pow, hF, vecNorm_sq, Finset.sum_mul]
  refine Finset.sum_le_sum fun i _ => ?_
  have h1 : ‖(Matrix.toLin' A x) i‖ ≤ √(∑ j, ‖A i j‖ ^ 2) * vecNorm x := by
    have h0 : (Matrix.toLin' A x) i = ∑ j, A i j * x j := rfl
    rw [h0]
    refine (norm_sum_le _ _).trans ?_
    simp only [norm_mul]
    exact Real.sum_mul_le_sqrt_mul_sqrt Finset.univ (fun j => ‖A i j‖) fun j => ‖x j‖
  have h2 := pow_le_pow_left₀ (norm_nonneg _) h1 2
  rwa [mul_pow, Real.sq_sqrt (Finset.sum_nonneg fun j _ => sq_nonneg _)] at h2

theorem nto_le_of {𝕜 : Type*} [RCLike 𝕜] {m : ℕ} {x : ℕ → 𝕜} {C : ℝ} (hC : 0 ≤ C) (h : ∀ i < m, ‖x i‖ ≤ C) : nto m x ≤ √m * C := by
  refine le_of_sq_le_sq ?_ (mul_nonneg (Real.sqrt_nonneg _) hC)
  rw [nto_sq, mul_pow, Real.sq_sqrt (Nat.cast_nonneg m)]
  refine (Finset.sum_le_sum fun i hi => pow_le_pow_left₀ (norm_nonneg _) (h i (Finset.mem_range.mp hi)) 2).trans (le_of_eq ?_)
  simp

variable {𝕜 : Type*} [RCLike 𝕜] {F K X Q : Type*}

/-- What an invariant subspace neglects: `|a[n-1]| |H[n,n-1]|`. -/
noncomputable def gmresCut (num : K → 𝕜) (s : FlGmresSt F K X Q) (a : ℕ → K) : ℝ :=
  if s.arn.invariant then ‖num (a (s.arn.iter - 1))‖ * ‖num (s.arn.H s.arn.iter (s.arn.iter - 1))‖ else 0

/-- The bound in double precision. -/
theorem gmresGap_double {u e d g t c nB β nv Fr : ℝ} (hu0 : 0 ≤ u) (hu : u ≤ 2⁻¹ ^ 53) (hd0 : 0 ≤ d) (hd : d ≤ 1.2 / 10 ^ 10) (he0 : 0 ≤ e) (he : e ≤ 1.1103 / 10 ^ 10 * Fr)
    (hB0 : 0 ≤ nB) (hB : nB ≤ Fr) (hg0 : 0 ≤ g) (hg : g ≤ 2.23 / 10 ^ 15) (ht0 : 0 ≤ t) (ht : t ≤ 2.3 / 10 ^ 13) (hc0 : 0 ≤ c) (hc : c ≤ 1.2 / 10 ^ 13) (hβ : |β| ≤ (1 + d) * nv)
    (hnv : 0 ≤ nv) {ortho : Ortho} {num : K → 𝕜} {s : FlGmresSt F K X Q} {a : ℕ → K} (h0 : 0 < s.arn.iter) (hn : s.arn.iter ≤ 1000)
    (hsize : ∀ n < s.arn.iter, ∀ j ≤ n + 1, ‖num (s.arn.H j n)‖ ≤ (1 + d) / (1 - u) * arnD u e d nB ortho n) :
    gmresGap u e d g t c nB β ortho num nv s a ≤
      45 * ‖num (s.y s.arn.iter)‖ + 1.1 / 10 ^ 10 * nv + 2.2 / 10 ^ 8 * (Fr * ∑ j ∈ Finset.range s.arn.iter, ‖num (a j)‖) + 1.001 * gmresCut num s a := by
  have hs2 : √2 ≤ 1.4143 := by
    rw [Real.sqrt_le_left (by norm_num)]
    norm_num
  have hF0 : 0 ≤ Fr := hB0.trans hB
  set n := s.arn.iter with hnd
  have hn1 : √((n + 1 : ℕ) : ℝ) ≤ 31.64 := by
    rw [Real.sqrt_le_left (by norm_num)]
    have : ((n + 1 : ℕ) : ℝ) ≤ 1001 := by exact_mod_cast (by omega : n + 1 ≤ 1001)
    norm_num at this ⊢
    linarith
  have h45 : √2 * √((n + 1 : ℕ) : ℝ) ≤ 45 := by
    calc √2 * √((n + 1 : ℕ) : ℝ) ≤ 1.4143 * 31.64 := mul_le_mul hs2 hn1 (Real.sqrt_nonneg _) (by norm_num)
      _ ≤ 45 := by norm_num
  have hpow : ∀ k ≤ 1000, (1 + g) ^ k - 1 ≤ 2.28 / 10 ^ 12 := by
    intro k hk
    have hkr : (k : ℝ) ≤ 1000 := by exact_mod_cast hk
    have h1 : (k : ℝ) * g ≤ 1000 * (2.23 / 10 ^ 15) := mul_le_mul hkr hg hg0 (by norm_num)
    refine (pow_sub_one_le hg0 (h1.trans (by norm_num))).trans ?_
    calc 1.02 * (k * g) ≤ 1.02 * (1000 * (2.23 / 10 ^ 15)) := mul_le_mul_of_nonneg_left h1 (by norm_num)
      _ ≤ 2.28 / 10 ^ 12 := by norm_num
  have hpow1 : ∀ k, 1 ≤ (1 + g) ^ k := fun k => one_le_pow₀ (by linarith)
  have hu1 : u ≤ 1 / 10 ^ 15 := hu.trans (by norm_num)
  have hratio : (1 + d) / (1 - u) ≤ 1.0001 := by
    rw [div_le_iff₀ (by norm_num at hu1 ⊢; linarith)]
    norm_num at hd hu1 ⊢
    linarith
  have hnBe : nB + e ≤ 1.001 * Fr := by
    have : 1.1103 / 10 ^ 10 * Fr ≤ 0.001 * Fr := mul_le_mul_of_nonneg_right (by norm_num) hF0
    linarith
  -- the columns of the Hessenberg matrix
  have hcol : ∀ j ∈ Finset.range n, nto (j + 2) (fun i => num (s.arn.H i j)) ≤ 180 * Fr := by
    intro j hj
    rw [Finset.mem_range] at hj
    have h1 := arnD_double hu0 hu hd0 hd he0 hB0 (ortho := ortho) (n := j) (by omega)
    have hD0 : 0 ≤ arnD u e d nB ortho j := by
      have hg0 : 0 ≤ orthoGrow u d := by linarith [one_le_orthoGrow hu0 hd0]
      unfold arnD arnW
      positivity
    have h2 : ∀ i < j + 2, ‖num (s.arn.H i j)‖ ≤ 5.6813 * Fr := by
      intro i hi
      refine (hsize j hj i (by omega)).trans ?_
      calc (1 + d) / (1 - u) * arnD u e d nB ortho j ≤ 1.0001 * (5.675 * (nB + e)) := mul_le_mul hratio h1 hD0 (by norm_num)
        _ ≤ 5.6813 * Fr := by nlinarith
    have h3 := nto_le_of (mul_nonneg (by norm_num) hF0) h2
    have h4 : √((j + 2 : ℕ) : ℝ) ≤ 31.64 := by
      rw [Real.sqrt_le_left (by norm_num)]
      have : ((j + 2 : ℕ) : ℝ) ≤ 1001 := by exact_mod_cast (by omega : j + 2 ≤ 1001)
      norm_num at this ⊢
      linarith
    refine h3.trans ?_
    calc √((j + 2 : ℕ) : ℝ) * (5.6813 * Fr) ≤ 31.64 * (5.6813 * Fr) := mul_le_mul_of_nonneg_right h4 (mul_nonneg (by norm_num) hF0)
      _ ≤ 180 * Fr := by nlinarith
  have hrot : ∀ j ∈ Finset.range n, gmresRot g t j ≤ 2.6 / 10 ^ 12 := by
    intro j hj
    rw [Finset.mem_range] at hj
    have p1 := hpow (j + 1) (by omega)
    have p2 := hpow j (by omega)
    have q1 : 2 * g * (1 + g) ^ j ≤ 2 * (2.23 / 10 ^ 15) * 1.001 := by
      have : (1 + g) ^ j ≤ 1.001 := by norm_num at p2 ⊢; linarith
      exact mul_le_mul (by linarith) this (by linarith [hpow1 j]) (by norm_num)
    have q2 : t * (1 + g) ^ (j + 1) ≤ 2.3 / 10 ^ 13 * 1.001 := by
      have : (1 + g) ^ (j + 1) ≤ 1.001 := by norm_num at p1 ⊢; linarith
      exact mul_le_mul ht this (by linarith [hpow1 (j + 1)]) (by norm_num)
    unfold gmresRot rotErr
    norm_num at p1 q1 q2 ⊢
    linarith
  set S := ∑ j ∈ Finset.range n, ‖num (a j)‖ with hS
  have hS0 : 0 ≤ S := Finset.sum_nonneg fun _ _ => norm_nonneg _
  -- the small system
  have t1 : ∑ j ∈ Finset.range n, ‖num (a j)‖ * (gmresRot g t j * nto (j + 2) fun i => num (s.arn.H i j)) ≤ 4.68 / 10 ^ 10 * (Fr * S) := by
    have h1 : ∀ j ∈ Finset.range n, ‖num (a j)‖ * (gmresRot g t j * nto (j + 2) fun i => num (s.arn.H i j)) ≤ ‖num (a j)‖ * (2.6 / 10 ^ 12 * (180 * Fr)) := by
      intro j hj
      exact mul_le_mul_of_nonneg_left (mul_le_mul (hrot j hj) (hcol j hj) (nto_nonneg _ _) (by norm_num)) (norm_nonneg _)
    refine (Finset.sum_le_sum h1).trans (le_of_eq ?_)
    rw [← Finset.sum_mul]
    ring
  have t2 : ((1 + g) ^ n - 1) * |β| ≤ 2.29 / 10 ^ 12 * nv := by
    have h1 : |β| ≤ 1.001 * nv := by
      refine hβ.trans (mul_le_mul_of_nonneg_right ?_ hnv)
      norm_num at hd ⊢
      linarith
    have h2 : ((1 + g) ^ n - 1) * |β| ≤ 2.28 / 10 ^ 12 * (1.001 * nv) := mul_le_mul (hpow n hn) h1 (abs_nonneg _) (by norm_num)
    have h3 : 2.28 / 10 ^ 12 * (1.001 * nv) ≤ 2.29 / 10 ^ 12 * nv := by
      have : (2.28 / 10 ^ 12 * 1.001 : ℝ) ≤ 2.29 / 10 ^ 12 := by norm_num
      nlinarith
    exact h2.trans h3
  have t2' : 0 ≤ ((1 + g) ^ n - 1) * |β| := mul_nonneg (by linarith [hpow1 n]) (abs_nonneg _)
  -- the Arnoldi relation
  have t3 : ∑ j ∈ Finset.range n, ‖num (a j)‖ * (arnDefect u e d nB ortho num s.arn j + √2 * c * nB) ≤ 1.62 / 10 ^ 10 * (Fr * S) + 1.001 * gmresCut num s a := by
    have h1 : ∀ j ∈ Finset.range n, ‖num (a j)‖ * (arnDefect u e d nB ortho num s.arn j + √2 * c * nB) ≤
        ‖num (a j)‖ * (1.62 / 10 ^ 10 * Fr) +
          if s.arn.invariant = true ∧ j + 1 = n then 1.001 * (‖num (a j)‖ * ‖num (s.arn.H (j + 1) j)‖) else 0 := by
      intro j hj
      rw [Finset.mem_range] at hj
      have b1 := arnBound_double hu0 hu hd0 hd he0 hB0 (ortho := ortho) (n := j) (by omega)
      have b2 : arnBound u e d nB ortho j + √2 * c * nB ≤ 1.62 / 10 ^ 10 * Fr := by
        have c1 : √2 * c * nB ≤ 1.4143 * (1.2 / 10 ^ 13) * Fr :=
          mul_le_mul (mul_le_mul hs2 hc hc0 (by norm_num)) hB hB0 (by norm_num)
        have c2 : 1.42 * e ≤ 1.42 * (1.1103 / 10 ^ 10 * Fr) := mul_le_mul_of_nonneg_left he (by norm_num)
        have c3 : 3 / 10 ^ 12 * (nB + e) ≤ 3 / 10 ^ 12 * (1.001 * Fr) := mul_le_mul_of_nonneg_left hnBe (by norm_num)
        have c4 : 1.42 * (1.1103 / 10 ^ 10 * Fr) + 3 / 10 ^ 12 * (1.001 * Fr) + 1.4143 * (1.2 / 10 ^ 13) * Fr ≤ 1.62 / 10 ^ 10 * Fr := by
          have : 1.42 * (1.1103 / 10 ^ 10 * Fr) + 3 / 10 ^ 12 * (1.001 * Fr) + 1.4143 * (1.2 / 10 ^ 13) * Fr =
            (1.42 * (1.1103 / 10 ^ 10) + 3 / 10 ^ 12 * 1.001 + 1.4143 * (1.2 / 10 ^ 13)) * Fr := by ring
          rw [this]
          exact mul_le_mul_of_nonneg_right (by norm_num) hF0
        linarith
      unfold arnDefect
      have hnn := norm_nonneg (num (a j))
      have hb := mul_le_mul_of_nonneg_left b2 hnn
      by_cases hc1 : s.arn.invariant = true ∧ j + 1 = n
      · rw [if_pos hc1, if_pos hc1]
        have h1d : 1 / (1 - d) ≤ 1.001 := by
          rw [div_le_iff₀ (by norm_num at hd ⊢; linarith)]
          norm_num at hd ⊢
          linarith
        have : ‖num (s.arn.H (j + 1) j)‖ / (1 - d) ≤ 1.001 * ‖num (s.arn.H (j + 1) j)‖ := by
          rw [div_eq_mul_one_div, mul_comm]
          exact mul_le_mul_of_nonneg_right h1d (norm_nonneg _)
        have h2 := mul_le_mul_of_nonneg_left this hnn
        linarith
      · rw [if_neg hc1, if_neg hc1]
        linarith
    refine (Finset.sum_le_sum h1).trans ?_
    rw [Finset.sum_add_distrib, ← Finset.sum_mul, ← hS]
    refine add_le_add (le_of_eq (by ring)) ?_
    rw [Finset.sum_eq_single_of_mem (n - 1) (Finset.mem_range.mpr (by omega))]
    · unfold gmresCut
      rw [← hnd, Nat.sub_add_cancel (by omega : 1 ≤ n)]
      by_cases hi : s.arn.invariant = true
      · rw [if_pos ⟨hi, rfl⟩, if_pos hi]
      · rw [if_neg fun h => hi h.1, if_neg hi, mul_zero]
    · intro j hj hne
      rw [Finset.mem_range] at hj
      rw [if_neg fun h => hne (by omega)]
  have t4 : u * nv ≤ 1 / 10 ^ 15 * nv := mul_le_mul_of_nonneg_right hu1 hnv
  unfold gmresGap
  rw [← hnd]
  set y := ‖num (s.y n)‖
  have hy0 : 0 ≤ y := norm_nonneg _
  set Z := ∑ j ∈ Finset.range n, ‖num (a j)‖ * (gmresRot g t j * nto (j + 2) fun i => num (s.arn.H i j))
  have hFS : 0 ≤ Fr * S := mul_nonneg hF0 hS0
  have t5 : √2 * (√((n + 1 : ℕ) : ℝ) * (y + ((1 + g) ^ n - 1) * |β| + Z)) ≤ 45 * (y + 2.29 / 10 ^ 12 * nv + 4.68 / 10 ^ 10 * (Fr * S)) := by
    rw [← mul_assoc]
    have h1 : y + ((1 + g) ^ n - 1) * |β| + Z ≤ y + 2.29 / 10 ^ 12 * nv + 4.68 / 10 ^ 10 * (Fr * S) := by linarith
    have h2 : 0 ≤ y + 2.29 / 10 ^ 12 * nv + 4.68 / 10 ^ 10 * (Fr * S) := by positivity
    exact (mul_le_mul_of_nonneg_left h1 (by positivity)).trans (mul_le_mul_of_nonneg_right h45 h2)
  have f1 : 45 * (2.29 / 10 ^ 12 * nv) + 1 / 10 ^ 15 * nv ≤ 1.1 / 10 ^ 10 * nv := by
    have : 45 * (2.29 / 10 ^ 12 * nv) + 1 / 10 ^ 15 * nv = (45 * (2.29 / 10 ^ 12) + 1 / 10 ^ 15) * nv := by ring
    rw [this]
    exact mul_le_mul_of_nonneg_right (by norm_num) hnv
  have f2 : 45 * (4.68 / 10 ^ 10 * (Fr * S)) + 1.62 / 10 ^ 10 * (Fr * S) ≤ 2.2 / 10 ^ 8 * (Fr * S) := by
    have : 45 * (4.68 / 10 ^ 10 * (Fr * S)) + 1.62 / 10 ^ 10 * (Fr * S) = (45 * (4.68 / 10 ^ 10) + 1.62 / 10 ^ 10) * (Fr * S) := by ring
    rw [this]
    exact mul_le_mul_of_nonneg_right (by norm_num) hFS
  linarith

end

section
variable {𝕜 : Type*} [RCLike 𝕜] {F K X Q : Type*} [LE F] [LT F] [DecidableLE F] [DecidableLT F] [Div F] [Zero F] [BEq F] [Zero X]
open Matrix

/-- C80 in real double precision without underflow: `Gmres` with `ortho` `mgs` or `dmgs`, at most 1000 iterations, at most a million unknowns and no preconditioners, starting with
`Mlr0` and its computed norm `r0`.  The residual of the vector which is returned or attached to a `ConvergenceError` is at most 45 times the last updated residual norm,
the error of the initial residual, `1.1e-10` times its norm, and `2.2e-8 ‖A‖_F Σ|a_j|`, where `a` is the solution of the triangular system (plus what is
neglected if the Krylov subspace was found to be invariant). -/
theorem C80_double {N : ℕ} (h1 : 1 ≤ N) (hN : N ≤ 1000000) {o : FlGmresOps F K X Q} {vec : X → Fin N → ℝ} {fin : X → Prop} {num : K → ℝ} {finK : K → Prop} {val : F → ℝ}
    {finF : F → Prop} {cs : Q → ℝ × ℝ} {A : Matrix (Fin N) (Fin N) ℝ} (hc : FlGmresComp flDouble o vec fin num finK val finF cs A) (hM : o.M = none) (hMr : ∀ x, o.Mr x = x)
    {cfg : Cfg F X} {ortho : Ortho} (ho : ortho ≠ .lanczos) {g0 : Q} {x0 MMlr0 Mlr0 : X} {r0 : F} (hr0 : finF r0 → FlNorm flDouble (vec Mlr0) (val r0))
    (hb : (cfg.MMlbNorm == 0) = false) {st : St F X (FlGmresSt F K X Q)}
    (h : flGmres cfg o ortho g0 .ok x0 MMlr0 Mlr0 r0 = .returned st ∨ flGmres cfg o ortho g0 .ok x0 MMlr0 Mlr0 r0 = .convergence st)
    (hf : FlArnFin fin finK finF st.s.arn) (hf' : FlGmresFin finK st.s) (h0 : 0 < st.s.arn.iter) (hn : st.s.arn.iter ≤ 1000) {x : X} (hx : st.xk = some x) (hfx : fin x)
    (b : Fin N → ℝ) :
    ∃ a, o.solve st.s.arn.iter st.s.R st.s.y = .ok a ∧ x = o.add x0 (flGmresYk o st.s a) ∧
      vecNorm (b - A *ᵥ vec x) ≤ 45 * |num (st.s.y st.s.arn.iter)| + vecNorm (b - A *ᵥ vec x0 - vec Mlr0) + 1.1 / 10 ^ 10 * vecNorm (vec Mlr0) +
        2.2 / 10 ^ 8 * (frob A * ∑ j ∈ Finset.range st.s.arn.iter, |num (a j)|) + 1.001 * gmresCut num st.s a +
        frob A * (2⁻¹ ^ 53 * vecNorm (vec x0 + vec (flGmresYk o st.s a))) := by
  obtain ⟨hv, hi⟩ := C79_componentwise flDouble_nonneg rfl hc.toFlArnComp
  have hrot := C80_rotation flDouble_nonneg rfl hc
  have hg := flDouble_gam h1 hN
  have gN := flDouble_nonneg.gam_nonneg N
  have hu : max flDouble.u flDouble.v = 2⁻¹ ^ 53 := by simp [flDouble]
  have hw : flDouble.w = 2⁻¹ ^ 50 := rfl
  have hue : flDouble.u = 2⁻¹ ^ 53 := rfl
  have hve : flDouble.v = 2⁻¹ ^ 53 := rfl
  have c0 : (0 : ℝ) ≤ 2⁻¹ ^ 53 := by norm_num
  have hg1000 : flDouble.gam 1000 ≤ 1.14 / 10 ^ 13 := by
    have e1 : flDouble.gam 1000 = (1 + 2⁻¹ ^ 53) ^ 1000 - 1 := by
      unfold FlPar.gam
      rw [hue, hve, ← pow_succ]
    rw [e1]
    have hk : ((1000 : ℕ) : ℝ) * 2⁻¹ ^ 53 ≤ 1 / 100 := by norm_num
    refine (pow_sub_one_le c0 hk).trans ?_
    norm_num
  have g1000 := flDouble_nonneg.gam_nonneg 1000
  have hg1 : flDouble.gam 1000 < 1 := hg1000.trans_lt (by norm_num)
  have hsol := C80_solve flDouble_nonneg rfl (by rw [hue]; norm_num) hg1 hc
  have hrg : flDouble.rot ≤ 2.23 / 10 ^ 15 := by
    unfold FlPar.rot FlPar.gam
    rw [hue, hve, hw]
    norm_num
  have htri : flDouble.tri 1000 ≤ 2.3 / 10 ^ 13 := by
    unfold FlPar.tri
    rw [hue, div_le_iff₀ (mul_pos (by norm_num) (by linarith))]
    have e2 : (2.3 / 10 ^ 13 : ℝ) * ((1 - 2⁻¹ ^ 53) * (1 - 1.14 / 10 ^ 13)) ≤ 2.3 / 10 ^ 13 * ((1 - 2⁻¹ ^ 53) * (1 - flDouble.gam 1000)) :=
      mul_le_mul_of_nonneg_left (mul_le_mul_of_nonneg_left (by linarith) (by norm_num)) (by norm_num)
    refine le_trans ?_ e2
    have e3 : 2 * flDouble.gam 1000 + 2⁻¹ ^ 53 ≤ 2 * (1.14 / 10 ^ 13) + 2⁻¹ ^ 53 := by linarith
    refine e3.trans ?_
    norm_num
  have htri0 : 0 ≤ flDouble.tri 1000 := by
    unfold FlPar.tri
    rw [hue]
    exact div_nonneg (by linarith) (mul_nonneg (by norm_num) (by linarith))
  set d := flDouble.gam N + flDouble.w * (1 + flDouble.gam N) with hd
  have hd0 : 0 ≤ d := by
    rw [hd, hw]
    positivity
  have hd1 : d ≤ 1.2 / 10 ^ 10 := by
    rw [hd, hw]
    calc flDouble.gam N + 2⁻¹ ^ 50 * (1 + flDouble.gam N) ≤ 1.1103 / 10 ^ 10 + 2⁻¹ ^ 50 * (1 + 1.1103 / 10 ^ 10) := by gcongr
      _ ≤ 1.2 / 10 ^ 10 := by norm_num
  have hF : 0 ≤ frob A := Real.sqrt_nonneg _
  have he0 : 0 ≤ flDouble.gam N * frob A := mul_nonneg gN hF
  rw [hu] at hv
  have hud : (1 + (2⁻¹ : ℝ) ^ 53) ^ 2 ≤ 2 * (1 - d) ^ 2 := by
    have h2 : (1 - 1.2 / 10 ^ 10 : ℝ) ^ 2 ≤ (1 - d) ^ 2 := pow_le_pow_left₀ (by norm_num) (by linarith) 2
    have h3 : (1 + (2⁻¹ : ℝ) ^ 53) ^ 2 ≤ 2 * (1 - 1.2 / 10 ^ 10 : ℝ) ^ 2 := by norm_num
    linarith
  have hd1' : d < 1 := hd1.trans_lt (by norm_num)
  -- the norm of the initial residual
  have hr0' : finF r0 → |val r0 - ‖(WithLp.toLp 2 (vec Mlr0) : EuclideanSpace ℝ (Fin N))‖| ≤ d * ‖(WithLp.toLp 2 (vec Mlr0) : EuclideanSpace ℝ (Fin N))‖ := by
    intro hfr
    exact flNorm_err flDouble_nonneg rfl (hr0 hfr)
  have hadd : ∀ {x y}, fin (o.add x y) → fin x ∧ fin y ∧ ‖(WithLp.toLp 2 (vec (o.add x y)) : EuclideanSpace ℝ (Fin N)) - (WithLp.toLp 2 (vec x) + WithLp.toLp 2 (vec y))‖ ≤
      2⁻¹ ^ 53 * ‖(WithLp.toLp 2 (vec x) + WithLp.toLp 2 (vec y) : EuclideanSpace ℝ (Fin N))‖ := by
    intro x y hxy
    obtain ⟨q1, q2, q3⟩ := hc.add hxy
    refine ⟨q1, q2, ?_⟩
    rw [← WithLp.toLp_add, ← WithLp.toLp_sub]
    exact norm_toLp_le c0 q3
  have inv := flGmres_inv hv hi c0 (by norm_num) hd0 hd1' he0 hud hM ho hr0' h
  obtain ⟨a, ha, hxa, -, hres⟩ := C80_solution hv hi hrot hsol hadd hMr c0 (by norm_num) hd0 hd1' he0 hud flDouble_nonneg.rot_nonneg htri0 g1000 hM ho hr0' hb h hf hf' h0 hn hx hfx
    (WithLp.toLp 2 b)
  refine ⟨a, ha, hxa, ?_⟩
  have hβ : |val r0| ≤ (1 + d) * ‖(WithLp.toLp 2 (vec Mlr0) : EuclideanSpace ℝ (Fin N))‖ := by
    have hfr : finF r0 := by
      have := hf.vnorm
      rwa [(C80_trace h).1.vnorm] at this
    have := hr0' hfr
    have h2 := abs_sub_abs_le_abs_sub (val r0) ‖(WithLp.toLp 2 (vec Mlr0) : EuclideanSpace ℝ (Fin N))‖
    rw [abs_of_nonneg (norm_nonneg (WithLp.toLp 2 (vec Mlr0) : EuclideanSpace ℝ (Fin N)))] at h2
    linarith
  have he : flDouble.gam N * frob A ≤ 1.1103 / 10 ^ 10 * frob A := mul_le_mul_of_nonneg_right hg hF
  have hgap := gmresGap_double c0 le_rfl hd0 hd1 he0 he (norm_nonneg (Matrix.toEuclideanCLM (n := Fin N) (𝕜 := ℝ) A)) (norm_le_frob A) flDouble_nonneg.rot_nonneg hrg htri0 htri
    g1000 (hg1000.trans (by norm_num)) hβ (norm_nonneg _) (ortho := ortho) (num := num) (s := st.s) (a := a) h0 hn (inv.size hf)
  have l1 : vecNorm (b - A *ᵥ vec x) = ‖(WithLp.toLp 2 b : EuclideanSpace ℝ (Fin N)) - Matrix.toEuclideanCLM (n := Fin N) (𝕜 := ℝ) A (WithLp.toLp 2 (vec x))‖ := by
    rw [vecNorm_toLp, WithLp.toLp_sub, Matrix.toEuclideanCLM_toLp]
  have l2 : vecNorm (b - A *ᵥ vec x0 - vec Mlr0) =
      ‖(WithLp.toLp 2 b : EuclideanSpace ℝ (Fin N)) - Matrix.toEuclideanCLM (n := Fin N) (𝕜 := ℝ) A (WithLp.toLp 2 (vec x0)) - WithLp.toLp 2 (vec Mlr0)‖ := by
    rw [vecNorm_toLp, WithLp.toLp_sub, WithLp.toLp_sub, Matrix.toEuclideanCLM_toLp]
  have l3 : vecNorm (vec x0 + vec (flGmresYk o st.s a)) = ‖(WithLp.toLp 2 (vec x0) + WithLp.toLp 2 (vec (flGmresYk o st.s a)) : EuclideanSpace ℝ (Fin N))‖ := by
    rw [vecNorm_toLp, WithLp.toLp_add]
  rw [l1, l2, l3, vecNorm_toLp]
  have l4 := mul_le_mul_of_nonneg_right (norm_le_frob A)
    (mul_nonneg c0 (norm_nonneg (WithLp.toLp 2 (vec x0) + WithLp.toLp 2 (vec (flGmresYk o st.s a)) : EuclideanSpace ℝ (Fin N))))
  simp only [Real.norm_eq_abs] at hgap
  linarith

/-- C80: if `Gmres` in real double precision returns with `resnorms[-1] <= tol`, then the exact residual of the returned vector is small (C77). -/
theorem C80_converged {n : ℕ} (h1 : 1 ≤ n) (hn : n ≤ 1000000) {val : F → Option ℝ} {A : Matrix (Fin n) (Fin n) 𝕜} {b : Fin n → 𝕜}
    {vec : X → Fin n → 𝕜} {cfg : Cfg F X} {t B : ℝ} (hc : FlCall flDouble val A b vec cfg t B) (hB : B ≠ 0) {o : FlGmresOps F K X Q} {ortho : Ortho} {g0 : Q}
    {x0 MMlr0 Mlr0 : X} {r0 : F} (hr0 : cfg.resNorm x0 = .ok r0) {st : St F X (FlGmresSt F K X Q)} (h : flGmres cfg o ortho g0 .ok x0 MMlr0 Mlr0 r0 = .returned st)
    {r : F} {q : ℝ} (hr : st.resnorms.getLast? = some r) (hq : val r = some q) (hle : r ≤ cfg.tol) :
    ∃ x, st.xk = some x ∧
      vecNorm (b - A *ᵥ vec x) ≤ (1 + 1 / 10 ^ 9) * t * vecNorm b + 1.2 / 10 ^ 10 * vecNorm (fun i => ∑ j, ‖A i j‖ * ‖vec x j‖) := by
  unfold flGmres at h
  cases ha : flArnInit o.toFlArnOps Mlr0 (some MMlr0) (some r0) with
  | error e => rw [ha] at h; cases h
  | ok arn =>
    rw [ha] at h
    dsimp only at h
    have hk0 : ∀ x, (flGmresMethod o ortho .ok cfg.maxiter).k (flGmresInit o g0 arn r0 x) = 0 := fun _ => flArnInit_iter ha
    refine C77_double h1 hn hc hB (flGmresMethod_lawful o ortho .ok cfg.maxiter) hk0 (fun x hx => ?_) h hr hq hle
    change flGmresXk o .ok (flGmresInit o g0 arn r0 x0) = .ok x at hx
    unfold flGmresXk at hx
    rw [if_neg (by change ¬ 0 < arn.iter; rw [flArnInit_iter ha]; exact lt_irrefl 0)] at hx
    have := Except.ok.inj hx
    rw [← this]
    exact hr0

end

/-! ## Exact operations -/

section
variable {𝕜 E : Type*} [RCLike 𝕜] [AddCommGroup E] [Module 𝕜 E]

/-- Exact operations for a linear system. -/
noncomputable def exactGmres (s : LS 𝕜 E) (c : ArnCfg 𝕜 E) : FlGmresOps ℝ 𝕜 E (Givens 𝕜) where
  toFlArnOps := exactArn c
  rotg := mkGivens
  apply := Givens.apply
  absK z := ‖z‖
  solve k R y := match solveUpper (Matrix.of fun i j : Fin k => R i j) (fun i : Fin k => y i) with
    | .error e => .error e
    | .ok a => .ok fun i => if h : i < k then a ⟨i, h⟩ else 0
  comb k V a := lincomb (fun i : Fin k => V i) fun i : Fin k => a i
  Mr := s.Mr
  add := (· + ·)

/-- Corresponding states. -/
structure FlGmresRel (a : GmresSt 𝕜 E) (b : FlGmresSt ℝ 𝕜 E (Givens 𝕜)) : Prop where
  arn : b.arn = a.arn.toFl
  x0 : a.x0 = b.x0
  G : a.G = b.G
  R : a.R = b.R
  y : a.y = b.y

theorem flRot_exact (s : LS 𝕜 E) (c : ArnCfg 𝕜 E) (G : Givens 𝕜) (i : ℕ) (x : ℕ → 𝕜) : flRot (exactGmres s c) G i x = rot G i x := rfl

theorem flRots_exact (s : LS 𝕜 E) (c : ArnCfg 𝕜 E) (G : ℕ → Givens 𝕜) (n : ℕ) (x : ℕ → 𝕜) : flRots (exactGmres s c) G n x = rots G n x := by
  induction n with
  | zero => rfl
  | succ n ih => rw [flRots, rots, ih, flRot_exact]

theorem flGmres_sim (s : LS 𝕜 E) (c : ArnCfg 𝕜 E) (post : E → Except Err E) :
    Sim (gmresMethod (arnAdvance c) s.Mr post c.maxiter) (flGmresMethod (exactGmres s c) c.ortho post c.maxiter) FlGmresRel where
  more {a b} h := by simp only [gmresMethod, flGmresMethod, h.arn, Arn.toFl]
  k {a b} h := by simp only [gmresMethod, flGmresMethod, h.arn, Arn.toFl]
  count := rfl
  post h := h
  getXk {a b x} h hx := by
    change gmresXk s.Mr post a = .ok x at hx
    change flGmresXk (exactGmres s c) post b = .ok x
    unfold gmresXk at hx
    unfold flGmresXk flGmresYk
    have hi : b.arn.iter = a.arn.iter := by rw [h.arn]; rfl
    have hV : b.arn.V = a.arn.V := by rw [h.arn]; rfl
    rw [hi, hV, ← h.R, ← h.y, ← h.x0]
    dsimp only at hx
    by_cases h0 : 0 < a.arn.iter
    · rw [if_pos h0] at hx ⊢
      cases hs : solveUpper (Matrix.of fun i j : Fin a.arn.iter => a.R i j) (fun i : Fin a.arn.iter => a.y i) with
      | error e => rw [hs] at hx; cases hx
      | ok yy =>
        rw [hs] at hx
        have e1 : (exactGmres s c).solve a.arn.iter a.R a.y = .ok fun i => if h : i < a.arn.iter then yy ⟨i, h⟩ else 0 := by
          simp only [exactGmres, hs]
        rw [e1]
        dsimp only at hx ⊢
        rw [← hx]
        simp [exactGmres]
    · rw [if_neg h0] at hx ⊢
      exact hx
  step {a b a' r} h hs := by
    change gmresStep (arnAdvance c) a = .ok (a', r) at hs
    change ∃ b', flGmresStep (exactGmres s c) c.ortho c.maxiter b = .ok (b', r) ∧ _
    unfold gmresStep at hs
    dsimp only at hs
    split at hs
    · cases hs
    next ar har =>
    simp only [Except.ok.injEq, Prod.mk.injEq] at hs
    obtain ⟨rfl, rfl⟩ := hs
    obtain ⟨barn, bx0, bG, bR, by'⟩ := b
    obtain ⟨h1, h2, h3, h4, h5⟩ := h
    dsimp only at h1 h2 h3 h4 h5
    subst h1 h2 h3 h4 h5
    have hadv : flArnAdvance (exactGmres s c).toFlArnOps c.ortho c.maxiter a.arn.toFl = .ok ar.toFl := flArnAdvance_exact har
    unfold flGmresStep
    dsimp only
    rw [hadv]
    dsimp only
    simp only [flRots_exact, flRot_exact]
    refine ⟨_, rfl, ⟨rfl, rfl, rfl, ?_, rfl⟩⟩
    funext i j
    rfl

/-- C80: with exact operations `flGmres` does what the exact model of `Gmres` does: the same outcome, residual norms, error norms, approximation, number
of iterations and warnings. -/
theorem C80_refines {s : LS 𝕜 E} {hk : Hooks 𝕜 E} {ortho : Ortho} {a : SolverArgs E} {MMlr0 Mlr0 : E} {r0 : ℝ}
    (hi : hk.initRes a.x0 = .ok (MMlr0, Mlr0, r0)) :
    (∀ st, gmres s hk ortho a = .returned st → ∃ t, flGmres (mkCfg s a) (exactGmres s (s.arnCfg hk a.maxiter ortho)) ortho ⟨1, 0, 0⟩ hk.post (a.x0.getD 0) MMlr0 Mlr0 r0 =
      .returned (st.setS t) ∧ FlGmresRel st.s t) ∧
    (∀ st, gmres s hk ortho a = .convergence st → ∃ t, flGmres (mkCfg s a) (exactGmres s (s.arnCfg hk a.maxiter ortho)) ortho ⟨1, 0, 0⟩ hk.post (a.x0.getD 0) MMlr0 Mlr0 r0 =
      .convergence (st.setS t) ∧ FlGmresRel st.s t) := by
  set c := s.arnCfg hk a.maxiter ortho with hc
  cases ha : arnInit c Mlr0 (some MMlr0) (some r0) with
  | error e =>
    have hg : gmres s hk ortho a = .raised e := by
      unfold gmres gmresRun
      rw [hi]
      dsimp only
      rw [← hc, ha]
    rw [hg]
    constructor <;> intro st h <;> cases h
  | ok arn =>
    have hg : gmres s hk ortho a = run (mkCfg s a) (gmresMethod (arnAdvance c) s.Mr hk.post a.maxiter) (a.x0.getD 0) r0 (gmresInit arn r0) hk.post := by
      unfold gmres gmresRun
      rw [hi]
      dsimp only
      rw [← hc, ha]
    have hinit : flArnInit (exactGmres s c).toFlArnOps Mlr0 (some MMlr0) (some r0) = .ok arn.toFl := flArnInit_exact ha
    have hf : flGmres (mkCfg s a) (exactGmres s c) ortho ⟨1, 0, 0⟩ hk.post (a.x0.getD 0) MMlr0 Mlr0 r0 =
        run (mkCfg s a) (flGmresMethod (exactGmres s c) ortho hk.post a.maxiter) (a.x0.getD 0) r0 (flGmresInit (exactGmres s c) ⟨1, 0, 0⟩ arn.toFl r0) hk.post := by
      unfold flGmres
      rw [hinit]
      rfl
    rw [hg, hf]
    exact run_sim (flGmres_sim s c hk.post) ⟨rfl, rfl, rfl, rfl, rfl⟩

end

/-! ### A concrete case -/

/-- The arithmetic `roundArn` (A = 1 + i, scalings are 1% too long) with exact rotations; back substitution is given for one unknown, and the linear combination of one
vector is 1% too long. -/
noncomputable def roundGmres : FlGmresOps ℝ ℝ (Option ℂ) (ℝ × ℝ) where
  toFlArnOps := roundArn
  rotg a b := if a = 0 ∧ b = 0 then (1, 0) else (a / √(a ^ 2 + b ^ 2), b / √(a ^ 2 + b ^ 2))
  apply q p := (q.1 * p.1 + q.2 * p.2, -q.2 * p.1 + q.1 * p.2)
  absK a := |a|
  solve k R y := if k = 1 ∧ R 0 0 ≠ 0 then .ok fun _ => y 0 / R 0 0 else .error .linAlgError
  comb k V a := if k = 1 then roundArn.scale (a 0) (V 0) else if k = 0 then some 0 else none
  Mr := id
  add x y := x.bind fun a => y.map fun b => a + b

theorem roundGmres_unit (a b : ℝ) : (roundGmres.rotg a b).1 ^ 2 + ‖(roundGmres.rotg a b).2‖ ^ 2 = 1 := by
  simp only [roundGmres]
  split_ifs with h
  · simp
  · have hp : 0 < a ^ 2 + b ^ 2 := by
      rcases not_and_or.mp h with h | h <;> positivity
    rw [Real.norm_eq_abs, sq_abs, div_pow, div_pow, Real.sq_sqrt hp.le, ← add_div, div_self hp.ne']

theorem nearRot_exact {q : ℝ × ℝ} (h : q.1 ^ 2 + ‖q.2‖ ^ 2 = 1) : nearRot 0 q = q := by
  obtain ⟨-, h2, h3⟩ := nearRot_spec (w := 0) (q := q) (r := q) ⟨h, by simp, by simp⟩
  rw [zero_mul] at h2 h3
  exact (Prod.ext (sub_eq_zero.mp (abs_nonpos_iff.mp h2)) (sub_eq_zero.mp (norm_le_zero_iff.mp h3))).symm

theorem roundGmres_rotation : FlRotation (𝕜 := ℝ) roundGmres id (fun _ => True) (fun q => rotLin (nearRot 0 q)) 0 where
  iso q p := rotLin_norm (nearRot_unit 0 q) p
  apply {q a b} hq _ _ := by
    obtain ⟨a', b', rfl, -⟩ := hq
    refine ⟨trivial, trivial, ?_⟩
    rw [nearRot_exact (roundGmres_unit a' b')]
    simp [roundGmres, rotLin, pairNorm]
  rotg {a b} _ _ := by
    rw [nearRot_exact (roundGmres_unit a b)]
    simp only [roundGmres, rotLin]
    split_ifs with h
    · simp [h.1, h.2]
    · simp
      ring_nf

theorem roundGmres_solve : FlSolve (𝕜 := ℝ) roundGmres (fun x => x.getD 0) (fun x => x.isSome = true) id (fun _ => True) 1 0 (1 / 100) where
  solve {k R y a} _ h _ _ _ i hi := by
    simp only [roundGmres] at h
    split_ifs at h with hk
    obtain ⟨rfl, h0⟩ := hk
    obtain rfl := Except.ok.inj h
    obtain rfl : i = 0 := by omega
    simp [mul_div_cancel₀ _ h0]
  comb {k V a} hk h := by
    refine ⟨fun _ _ => trivial, ?_⟩
    simp only [roundGmres] at h ⊢
    split_ifs at h ⊢ with h1 h0
    · subst h1
      have := (roundArn_vec.scale h).2.2
      simpa [mul_assoc] using this
    · subst h0
      simp
    · omega

/-- A call with `maxiter=1` and `tol=0`. -/
theorem flGmres_one {X Q : Type*} [Zero X] {o : FlGmresOps ℝ ℝ X Q} {rn : X → ℝ} {g0 : Q} {x0 v : X} {a0 : FlArn ℝ ℝ X} {ortho : Ortho}
    (hinit : flArnInit o.toFlArnOps v (some v) (some 1) = .ok a0) (h0 : a0.iter = 0) (hi0 : a0.invariant = false)
    {s1 : FlGmresSt ℝ ℝ X Q} {r : ℝ} (hstep : flGmresStep o ortho 1 (flGmresInit o g0 a0 1 x0) = .ok (s1, r)) (h1 : s1.arn.iter = 1) {x : X}
    (hxk : flGmresXk o .ok s1 = .ok x) :
    ∃ st, (flGmres (⟨0, 1, false, 1, fun x => .ok (rn x), none⟩ : Cfg ℝ X) o ortho g0 .ok x0 v v 1 = .returned st ∨
      flGmres (⟨0, 1, false, 1, fun x => .ok (rn x), none⟩ : Cfg ℝ X) o ortho g0 .ok x0 v v 1 = .convergence st) ∧ st.s = s1 ∧ st.xk = some x := by
  set cfg : Cfg ℝ X := ⟨0, 1, false, 1, fun x => .ok (rn x), none⟩ with hcfg
  set st0 : FlGmresSt ℝ ℝ X Q := flGmresInit o g0 a0 1 x0 with hst0
  set met := flGmresMethod o ortho .ok 1 with hmet
  set stn : St ℝ X (FlGmresSt ℝ ℝ X Q) := ⟨s1, 0, some x, [1, rn x], none, 0⟩ with hstn
  refine ⟨stn, ?_, rfl, rfl⟩
  have hxk' : met.getXk s1 = .ok x := hxk
  have hbody : body cfg met ⟨st0, 0, none, [1], none, 0⟩ = .convergence stn ∨ body cfg met ⟨st0, 0, none, [1], none, 0⟩ = .ok stn := by
    have hst : met.step st0 = .ok (s1, r) := hstep
    unfold body
    simp only [hst, finalizeIteration, withErr, wantExplicit, hcfg, hxk']
    by_cases hpos : 0 < rn x
    · left
      simp [hpos, hstn, hst0, hmet, flGmresMethod, flGmresInit, h0]
    · right
      simp [hpos, hstn, hst0, hmet, flGmresMethod, flGmresInit, h0]
  have hrun : flGmres cfg o ortho g0 .ok x0 v v 1 = loop cfg met 1 ⟨st0, 0, none, [1], none, 0⟩ := by
    unfold flGmres
    rw [hinit]
    dsimp only
    unfold run
    simp [initErr, hcfg, hst0, hmet]
  have hguard : loopGuard cfg met ⟨st0, 0, none, [1], none, 0⟩ = true := by
    simp [loopGuard, hcfg, hmet, flGmresMethod, hst0, flGmresInit, h0, hi0]
  rw [hrun]
  unfold loop
  rw [if_pos hguard]
  dsimp only
  rcases hbody with hb | hb
  · rw [hb]
    exact .inr rfl
  · rw [hb]
    left
    have hg2 : loopGuard cfg met stn = false := by
      simp [loopGuard, hmet, flGmresMethod, hstn, h1]
    dsimp only
    unfold loop
    rw [hg2]
    simp [finish, hstn]

attribute [local instance] zeroOptC

/-- The hypotheses of `C80_solution` (and of `C80_residual`, `C80_small`) hold in this arithmetic for a call with one iteration. -/
example : ∃ st x, (flGmres (⟨0, 1, false, 1, fun x => .ok ‖1 - (1 + Complex.I) * x.getD 0‖, none⟩ : Cfg ℝ (Option ℂ)) roundGmres .mgs (1, 0) .ok (some 0) (some 1) (some 1) 1 =
      .returned st ∨ flGmres (⟨0, 1, false, 1, fun x => .ok ‖1 - (1 + Complex.I) * x.getD 0‖, none⟩ : Cfg ℝ (Option ℂ)) roundGmres .mgs (1, 0) .ok (some 0) (some 1) (some 1) 1 =
      .convergence st) ∧ FlArnFin (fun x => x.isSome = true) (fun _ => True) (fun _ => True) st.s.arn ∧ FlGmresFin (fun _ => True) st.s ∧ st.s.arn.iter = 1 ∧
      st.xk = some x ∧ x.isSome = true ∧ inner ℝ ((st.s.arn.V 0).getD 0) ((st.s.arn.V 1).getD 0) ≠ 0 := by
  have hinit : flArnInit roundGmres.toFlArnOps (some 1) (some (some 1)) (some 1) = .ok roundArn0 := by
    unfold flArnInit flStartV flStartNorm roundArn0 roundGmres
    simp [roundArn]
  obtain ⟨s1, r, hstep, ha, hR, hx0⟩ : ∃ s1 r, flGmresStep roundGmres .mgs 1 (flGmresInit roundGmres (1, 0) roundArn0 1 (some 0)) = .ok (s1, r) ∧ s1.arn = roundArn1 ∧
      s1.R 0 0 ≠ 0 ∧ s1.x0 = some 0 := by
    have hadv : flArnAdvance roundGmres.toFlArnOps .mgs 1 (flGmresInit roundGmres (1, 0) roundArn0 1 (some 0)).arn = .ok roundArn1 := roundArn_advance
    unfold flGmresStep
    dsimp only
    rw [hadv]
    refine ⟨_, _, rfl, rfl, ?_, rfl⟩
    have hp : (0 : ℝ) < 1 ^ 2 + ‖roundW‖ ^ 2 := by positivity
    have hq := Real.sqrt_pos.mpr hp
    simp [flGmresInit, roundArn0, roundArn1, flRots, flRot, roundGmres]
    positivity
  have h1 : s1.arn.iter = 1 := by rw [ha]; rfl
  have hxk : flGmresXk roundGmres .ok s1 = .ok (roundGmres.add s1.x0 (roundGmres.Mr (flGmresYk roundGmres s1 fun _ => s1.y 0 / s1.R 0 0))) := by
    simp only [flGmresXk, h1]
    simp [roundGmres, hR]
  obtain ⟨st, hst, hs, hx⟩ := flGmres_one (rn := fun x => ‖1 - (1 + Complex.I) * x.getD 0‖) hinit rfl rfl hstep h1 hxk
  refine ⟨st, _, hst, by rw [hs, ha]; exact roundArn1_fin, ⟨fun _ _ _ _ => trivial, fun _ _ => trivial⟩, by rw [hs, h1], hx, ?_, by rw [hs, ha]; exact roundArn1_oblique⟩
  rw [hx0, flGmresYk, ha]
  simp [roundGmres, roundArn, roundArn1]

/-! ### The same with the rounding errors of double precision -/

open Matrix

/-- Arrays of real numbers (`none`: not all entries are finite); scalings have the relative error `2⁻⁵³` in each entry, other operations are exact; back
substitution is given for one unknown. -/
noncomputable def doubleGmres {N : ℕ} (A : Matrix (Fin N) (Fin N) ℝ) : FlGmresOps ℝ ℝ (Option (Fin N → ℝ)) (ℝ × ℝ) where
  A x := x.map fun a => A *ᵥ a
  M := none
  sub x y := x.bind fun a => y.map fun b => a - b
  scale c x := x.map fun a => ((1 + 2⁻¹ ^ 53) * c) • a
  sdiv x r := if r = 0 then none else x.map fun a => r⁻¹ • a
  ip x y := (x.getD 0) ⬝ᵥ (y.getD 0)
  re := id
  acc := (· + ·)
  zero := 0
  ofReal := id
  norm x _ := match x with
    | none => .error .nonFinite
    | some a => .ok (√|a ⬝ᵥ a|)
  tiny _ _ _ _ := false
  pos := roundArn.pos
  rotg := roundGmres.rotg
  apply := roundGmres.apply
  absK a := |a|
  solve k R y := if k = 1 ∧ R 0 0 ≠ 0 then .ok fun _ => y 0 / R 0 0 else .error .linAlgError
  comb k V a := some fun i => ∑ j ∈ Finset.range k, (V j).getD 0 i * a j
  Mr := id
  add x y := x.bind fun a => y.map fun b => a + b

theorem doubleGmres_comp {N : ℕ} (A : Matrix (Fin N) (Fin N) ℝ) :
    FlGmresComp (𝕜 := ℝ) flDouble (doubleGmres A) (fun x => x.getD 0) (fun x => x.isSome = true) id (fun _ => True) id (fun _ => True) id A where
  sub {x y} h := by
    cases x <;> cases y <;> simp [doubleGmres] at h ⊢
    exact fun i => mul_nonneg flDouble_nonneg.u (abs_nonneg _)
  scale {c x} h := by
    cases x with
    | none => simp [doubleGmres] at h
    | some a =>
      refine ⟨trivial, rfl, fun i => ?_⟩
      simp only [doubleGmres, Option.map_some, Option.getD_some, id, Pi.smul_apply, smul_eq_mul]
      rw [show (1 + 2⁻¹ ^ 53) * c * a i - c * a i = 2⁻¹ ^ 53 * (c * a i) by ring, norm_mul]
      simp [flDouble]
  sdiv {x r} h _ := by
    by_cases hr : r = 0
    · simp [doubleGmres, hr] at h
    · cases x with
      | none => simp [doubleGmres, hr] at h
      | some a =>
        refine ⟨rfl, hr, fun i => ?_⟩
        have : (doubleGmres A).sdiv (some a) r = some (r⁻¹ • a) := by simp [doubleGmres, hr]
        rw [this]
        simp only [Option.getD_some, Pi.smul_apply, smul_eq_mul, id, div_eq_inv_mul, RCLike.ofReal_real_eq_id, sub_self, norm_zero]
        exact mul_nonneg flDouble_nonneg.u (norm_nonneg _)
  A {x} h := by
    cases x with
    | none => simp [doubleGmres] at h
    | some a => exact ⟨rfl, fun i => FlDot.exact flDouble_nonneg _ _⟩
  acc _ := ⟨trivial, trivial, by
    simp only [doubleGmres, id, sub_self, norm_zero]
    exact mul_nonneg flDouble_nonneg.u (norm_nonneg _)⟩
  ofReal _ := ⟨trivial, rfl⟩
  zero := rfl
  ip _ := FlDot.exact flDouble_nonneg _ _
  norm {x y r} h _ := by
    cases x with
    | none => cases h
    | some a =>
      obtain rfl := Except.ok.inj h
      refine ⟨rfl, fun _ => ⟨_, FlDot.exact flDouble_nonneg _ _, ?_⟩⟩
      simp only [Option.getD_some, star_trivial, Real.norm_eq_abs, id, sub_self, abs_zero]
      exact mul_nonneg flDouble_nonneg.w (Real.sqrt_nonneg _)
  apply {q a b} _ _ := by
    refine ⟨trivial, trivial, ?_, ?_⟩
    · have := FlDot.exact (𝕜 := ℝ) flDouble_nonneg ![q.1, q.2] ![a, b]
      simpa [doubleGmres, roundGmres, dotProduct, Fin.sum_univ_two] using this
    · have := FlDot.exact (𝕜 := ℝ) flDouble_nonneg ![-q.2, q.1] ![a, b]
      simpa [doubleGmres, roundGmres, dotProduct, Fin.sum_univ_two] using this
  rotg {a b} _ _ := by
    refine ⟨_, _, ⟨roundGmres_unit a b, ?_⟩, ?_, ?_⟩
    · have := roundGmres_rotation.rotg (a := a) (b := b) trivial trivial
      rw [zero_mul, nearRot_exact (roundGmres_unit a b)] at this
      exact norm_le_zero_iff.mp this
    · have : (doubleGmres A).rotg a b = roundGmres.rotg a b := rfl
      rw [this, id, sub_self, abs_zero]
      exact mul_nonneg flDouble_nonneg.w (abs_nonneg _)
    · have : (doubleGmres A).rotg a b = roundGmres.rotg a b := rfl
      rw [this, id, sub_self, norm_zero]
      exact mul_nonneg flDouble_nonneg.w (norm_nonneg _)
  solve {k R y a} h _ _ _ i hi := by
    simp only [doubleGmres] at h
    split_ifs at h with hk
    obtain ⟨rfl, h0⟩ := hk
    obtain rfl := Except.ok.inj h
    obtain rfl : i = 0 := by omega
    refine ⟨h0, _, FlDot.exact flDouble_nonneg _ _, ?_⟩
    simp only [dotProduct, Fin.sum_univ_one, id]
    simp
    exact mul_nonneg flDouble_nonneg.u (by positivity)
  comb {k V a} h := by
    refine ⟨fun _ _ => trivial, fun i => ?_⟩
    have := FlDot.exact (𝕜 := ℝ) flDouble_nonneg (fun j : Fin k => (V j).getD 0 i) (fun j : Fin k => a j)
    rw [dotProduct, ← Finset.sum_range (fun j => (V j).getD 0 i * a j)] at this
    exact this
  add {x y} h := by
    cases x <;> cases y <;> simp [doubleGmres] at h ⊢
    exact fun i => mul_nonneg flDouble_nonneg.u (abs_nonneg _)

@[reducible] def zeroOptR : Zero (Option (Fin 2 → ℝ)) := ⟨some 0⟩

attribute [local instance] zeroOptR

/-- The hypotheses of `C80_double` hold in this arithmetic for a call with one iteration and a matrix of order two. -/
example : ∃ st x, (flGmres (⟨0, 1, false, 1, fun x => .ok (vecNorm (![1, 0] - !![1, 0; 1, 1] *ᵥ x.getD 0)), none⟩ : Cfg ℝ (Option (Fin 2 → ℝ))) (doubleGmres !![1, 0; 1, 1]) .mgs
      (1, 0) .ok (some 0) (some ![1, 0]) (some ![1, 0]) 1 = .returned st ∨
    flGmres (⟨0, 1, false, 1, fun x => .ok (vecNorm (![1, 0] - !![1, 0; 1, 1] *ᵥ x.getD 0)), none⟩ : Cfg ℝ (Option (Fin 2 → ℝ))) (doubleGmres !![1, 0; 1, 1]) .mgs
      (1, 0) .ok (some 0) (some ![1, 0]) (some ![1, 0]) 1 = .convergence st) ∧ FlArnFin (fun x => x.isSome = true) (fun _ => True) (fun _ => True) st.s.arn ∧
    FlGmresFin (fun _ => True) st.s ∧ st.s.arn.iter = 1 ∧ st.xk = some x ∧ x.isSome = true ∧ FlNorm flDouble (![1, 0] : Fin 2 → ℝ) 1 := by
  set o := doubleGmres (N := 2) !![1, 0; 1, 1] with ho
  set a0 : FlArn ℝ ℝ (Option (Fin 2 → ℝ)) := ⟨0, Function.update 0 0 (some ![1, 0]), Function.update 0 0 (some ![1, 0]), fun _ _ => 0, false, 1⟩ with ha0
  have hinit : flArnInit o.toFlArnOps (some ![1, 0]) (some (some ![1, 0])) (some 1) = .ok a0 := by
    unfold flArnInit flStartV flStartNorm
    simp [ho, ha0, doubleGmres, roundArn]
  set w : Fin 2 → ℝ := ![1, 1] - (1 + 2⁻¹ ^ 53 : ℝ) • ![1, 0] with hw
  have hw1 : w 1 = 1 := by simp [hw]
  have hwp : 0 < w ⬝ᵥ w := by
    rw [dotProduct, Fin.sum_univ_two, hw1]
    nlinarith [mul_self_nonneg (w 0)]
  set nw := √|w ⬝ᵥ w| with hnw
  have hn : 0 < nw := Real.sqrt_pos.mpr (abs_pos.mpr hwp.ne')
  obtain ⟨a1, hadv, e1, e2, e3, e4⟩ : ∃ a1, flArnAdvance o.toFlArnOps .mgs 1 a0 = .ok a1 ∧ a1.iter = 1 ∧ (∀ j ≤ 1, (a1.V j).isSome = true) ∧ a1.H 0 0 = 1 ∧ a1.H 1 0 = nw := by
    have hfold : (flOrthoList .mgs 0).foldl (flOrthoStep o.toFlArnOps .mgs (Function.update 0 0 (some ![1, 0])) (Function.update 0 0 (some ![1, 0])))
        (flOrthoStart o.toFlArnOps .mgs a0) = (some w, Function.update (fun _ => (0 : ℝ)) 0 1) := by
      have hl : flOrthoList .mgs 0 = [0] := by decide
      rw [hl, List.foldl_cons, List.foldl_nil]
      have hs : flOrthoStart o.toFlArnOps .mgs a0 = (some ![1, 1], fun _ => 0) := by
        unfold flOrthoStart
        simp [ho, ha0, doubleGmres]
      have hip : o.ip (some ![1, 0]) (some ![1, 1]) = 1 := by
        simp [ho, doubleGmres]
      rw [hs]
      unfold flOrthoStep
      simp only [Function.update_self, hip, reduceCtorEq, if_false]
      simp [ho, doubleGmres, hw]
    have hnorm : o.norm (some w) none = .ok nw := rfl
    have hadv : flArnAdvance o.toFlArnOps .mgs 1 a0 = .ok ⟨1, Function.update (Function.update 0 0 (some ![1, 0])) 1 (some (nw⁻¹ • w)),
        Function.update (Function.update 0 0 (some ![1, 0])) 1 (some (nw⁻¹ • w)),
        fun i j => if j = 0 then Function.update (Function.update (fun _ => (0 : ℝ)) 0 1) 1 nw i else 0, false, 1⟩ := by
      rw [ha0] at hfold ⊢
      unfold flArnAdvance
      simp only [hfold]
      have hM : o.M = none := rfl
      simp only [hM, Option.map_none, hnorm]
      simp [ho, doubleGmres, hn.ne']
    refine ⟨_, hadv, rfl, fun j hj => ?_, by simp, by simp⟩
    have : j = 0 ∨ j = 1 := by omega
    rcases this with rfl | rfl <;> simp
  obtain ⟨s1, r, hstep, ha, hR, hx0⟩ : ∃ s1 r, flGmresStep o .mgs 1 (flGmresInit o (1, 0) a0 1 (some 0)) = .ok (s1, r) ∧ s1.arn = a1 ∧ s1.R 0 0 ≠ 0 ∧ s1.x0 = some 0 := by
    have hadv' : flArnAdvance o.toFlArnOps .mgs 1 (flGmresInit o (1, 0) a0 1 (some 0)).arn = .ok a1 := hadv
    unfold flGmresStep
    dsimp only
    rw [hadv']
    refine ⟨_, _, rfl, rfl, ?_, rfl⟩
    have hp : (0 : ℝ) < 1 ^ 2 + nw ^ 2 := by positivity
    have hq := Real.sqrt_pos.mpr hp
    simp [flGmresInit, ha0, flRots, flRot, ho, doubleGmres, roundGmres, e3, e4]
    positivity
  have h1 : s1.arn.iter = 1 := by rw [ha, e1]
  have hxk : flGmresXk o .ok s1 = .ok (o.add s1.x0 (o.Mr (flGmresYk o s1 fun _ => s1.y 0 / s1.R 0 0))) := by
    simp only [flGmresXk, h1]
    simp [ho, doubleGmres, hR]
  obtain ⟨st, hst, hs, hx⟩ := flGmres_one (rn := fun x => vecNorm (![1, 0] - !![1, 0; 1, 1] *ᵥ x.getD 0)) hinit rfl rfl hstep h1 hxk
  refine ⟨st, _, hst, ?_, ⟨fun _ _ _ _ => trivial, fun _ _ => trivial⟩, by rw [hs, h1], hx, ?_, ?_⟩
  · rw [hs, ha]
    refine ⟨trivial, fun j hj => e2 j ?_, fun _ _ _ _ => trivial⟩
    rw [e1] at hj
    omega
  · rw [hx0, flGmresYk]
    simp [ho, doubleGmres]
  · refine ⟨1, ?_, ?_⟩
    · have := FlDot.exact (𝕜 := ℝ) flDouble_nonneg (star ![1, 0]) ![1, 0]
      simpa [dotProduct, Fin.sum_univ_two] using this
    · simpa using flDouble_nonneg.w

end Krypy
