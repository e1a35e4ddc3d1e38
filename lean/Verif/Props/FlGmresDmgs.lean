import Verif.Props.FlGmresCall
import Verif.Props.FlOrtho

/-!
# Property C91: `Gmres` with `ortho='dmgs'` is optimal up to rounding errors

`C80` bounds the residual of the approximation of `Gmres` by `√(2(n+1))` times the updated residual norm since it does not use that the basis is almost orthonormal.  With
`ortho='dmgs'` the basis is orthonormal up to rounding errors as long as the subdiagonal entries of the Hessenberg matrix are not tiny (`C83`).  Then the updated residual
norm and the norm of the true residual agree up to rounding errors, and no combination of the computed basis vectors has a residual which is smaller by more than that.

The model is `Verif/Model/FlGmres.lean` (linsys.py 883-1010, utils.py 807-975).
-/

set_option linter.unusedSectionVars false

namespace Krypy

open Reortho

section
variable {𝕜 E : Type*} [RCLike 𝕜] [NormedAddCommGroup E] [InnerProductSpace 𝕜 E] {F K X Q : Type*}

/-- Almost orthonormal vectors almost preserve the norm of the coefficients. -/
theorem Reortho.Level.norm_comb {q : ℕ → E} {k : ℕ} {ε ν : ℝ} (lev : Level 𝕜 q k ε ν) (hε : 0 ≤ ε) (y : ℕ → 𝕜) :
    |‖∑ j ∈ Finset.range k, y j • q j‖ - nto k y| ≤ (ν + k * ε) * nto k y := by
  have h := C83_isometry (fun i hi j hj hij => lev.off i hi j hj hij) lev.unit hε y
  rw [← nto_sq] at h
  set a := ‖∑ j ∈ Finset.range k, y j • q j‖ with ha
  have ha0 : 0 ≤ a := norm_nonneg _
  have hb0 := nto_nonneg k y
  set b := nto k y
  rcases hb0.eq_or_lt with hb | hb
  · rw [← hb] at h ⊢
    have h1 : a ^ 2 ≤ 0 := by
      have := le_abs_self (a ^ 2 - 0 ^ 2)
      linarith
    have h2 : a = 0 := by nlinarith
    rw [h2]
    simp
  · have h1 : |a - b| * (a + b) = |a ^ 2 - b ^ 2| := by
      have e : a ^ 2 - b ^ 2 = (a - b) * (a + b) := by ring
      rw [e, abs_mul, abs_of_nonneg (by linarith : 0 ≤ a + b)]
    have h2 : |a - b| * b ≤ ((ν + k * ε) * b) * b := by
      have := mul_nonneg (abs_nonneg (a - b)) ha0
      nlinarith
    exact le_of_mul_le_mul_right h2 hb

variable {o : FlGmresOps F K X Q} {vec : X → E} {fin : X → Prop} {num : K → 𝕜} {finK : K → Prop} {val : F → ℝ} {finF : F → Prop} {B : E →L[𝕜] E} {u e d g t c : ℝ}
  {U : Q → 𝕜 × 𝕜 →ₗ[𝕜] 𝕜 × 𝕜} {m : ℕ} {ε ν : ℝ}

/-- Error of column `j`, including the remainder which is neglected if the space was found to be invariant in this step. -/
noncomputable def basisDefect (u e d nB : ℝ) (ortho : Ortho) (num : K → 𝕜) (s : FlArn F K X) (j : ℕ) : ℝ :=
  arnDefect u e d nB ortho num s j + if s.invariant = true ∧ j + 1 = s.iter then ‖num (s.H (j + 1) j)‖ else 0

/-- C91: whatever coefficients `y` are chosen, the norm of the residual of the combination of the basis vectors and the norm of the residual of the Hessenberg system agree
up to the loss of orthogonality and rounding errors. -/
theorem C91_close {o : FlArnOps F K X} (hv : FlArnVec o vec fin num finK val finF B u e) {ortho : Ortho} {v : X} {s : FlArn F K X}
    (inv : FlArnInv vec fin num finK finF o B u e d ortho v s) (hf : FlArnFin fin finK finF s) (lev : Level 𝕜 (fun j => vec (s.V j)) (flArnCnt s) ε ν) (hε : 0 ≤ ε)
    {n : ℕ} (hn : s.iter = n) (h0 : 0 < n) (y : Fin n → 𝕜) :
    |‖vec v - B (∑ j, y j • vec (s.V j))‖ -
      vecNorm (fun i : Fin (n + 1) => (if (i : ℕ) = 0 then (val s.vnorm : 𝕜) else 0) - ∑ j : Fin n, num (s.H i j) * y j)| ≤
      (ν + (n + 1) * ε) * vecNorm (fun i : Fin (n + 1) => (if (i : ℕ) = 0 then (val s.vnorm : 𝕜) else 0) - ∑ j : Fin n, num (s.H i j) * y j) +
        ∑ j : Fin n, ‖y j‖ * basisDefect u e d ‖B‖ ortho num s j + u * ‖vec v‖ := by
  have hdef := inv.defect hv hf (.inl (by omega)) hn.ge y
  set z : ℕ → 𝕜 := fun i => (if i = 0 then (val s.vnorm : 𝕜) else 0) - ∑ j : Fin n, num (s.H i j) * y j with hz
  have hdef' : ‖(vec v - B (∑ j, y j • vec (s.V j))) - ∑ i ∈ Finset.range (n + 1), z i • flBasis vec s i‖ ≤
      ∑ j : Fin n, ‖y j‖ * arnDefect u e d ‖B‖ ortho num s j + u * ‖vec v‖ := by
    rw [Finset.sum_range]
    exact hdef
  change |_ - nto (n + 1) z| ≤ (ν + (n + 1) * ε) * nto (n + 1) z + _ + _
  have hsplit : ∑ j : Fin n, ‖y j‖ * basisDefect u e d ‖B‖ ortho num s j = ∑ j : Fin n, ‖y j‖ * arnDefect u e d ‖B‖ ortho num s j +
      ∑ j : Fin n, ‖y j‖ * if s.invariant = true ∧ (j : ℕ) + 1 = s.iter then ‖num (s.H ((j : ℕ) + 1) j)‖ else 0 := by
    rw [← Finset.sum_add_distrib]
    exact Finset.sum_congr rfl fun j _ => by unfold basisDefect; ring
  have hcomb : |‖∑ i ∈ Finset.range (n + 1), z i • flBasis vec s i‖ - nto (n + 1) z| ≤ (ν + (n + 1) * ε) * nto (n + 1) z +
      ∑ j : Fin n, ‖y j‖ * if s.invariant = true ∧ (j : ℕ) + 1 = s.iter then ‖num (s.H ((j : ℕ) + 1) j)‖ else 0 := by
    cases hi : s.invariant with
    | false =>
      have hc : flArnCnt s = n + 1 := by simp [flArnCnt, hi, hn]
      rw [hc] at lev
      have h1 := lev.norm_comb hε z
      push_cast at h1
      have h2 : ∑ i ∈ Finset.range (n + 1), z i • flBasis vec s i = ∑ i ∈ Finset.range (n + 1), z i • vec (s.V i) :=
        Finset.sum_congr rfl fun i _ => by simp [flBasis, hi]
      rw [h2]
      simpa using h1
    | true =>
      have hc : flArnCnt s = n := by simp [flArnCnt, hi, hn]
      rw [hc] at lev
      have h1 := lev.norm_comb hε z
      have hν : 0 ≤ ν := (abs_nonneg _).trans (lev.unit 0 h0)
      have h2 : ∑ i ∈ Finset.range (n + 1), z i • flBasis vec s i = ∑ i ∈ Finset.range n, z i • vec (s.V i) := by
        rw [Finset.sum_range_succ]
        have : flBasis vec s n = 0 := by simp [flBasis, hi, hn]
        rw [this, smul_zero, add_zero]
        refine Finset.sum_congr rfl fun i hi' => ?_
        rw [Finset.mem_range] at hi'
        have : i ≠ s.iter := by omega
        simp [flBasis, this]
      rw [h2]
      have hzn : ‖z n‖ ≤ ∑ j : Fin n, ‖y j‖ * if True ∧ (j : ℕ) + 1 = s.iter then ‖num (s.H ((j : ℕ) + 1) j)‖ else 0 := by
        simp only [hz]
        rw [if_neg (by omega), zero_sub, norm_neg]
        refine (norm_sum_le _ _).trans (Finset.sum_le_sum fun j _ => ?_)
        rw [norm_mul, mul_comm]
        refine mul_le_mul_of_nonneg_left ?_ (norm_nonneg _)
        by_cases hj : (j : ℕ) + 1 = s.iter
        · rw [if_pos ⟨trivial, hj⟩, hj, hn]
        · rw [if_neg fun h => hj h.2, inv.hess j n (by have := j.2; omega), hv.zero, norm_zero]
      have hsq : nto (n + 1) z ^ 2 = nto n z ^ 2 + ‖z n‖ ^ 2 := by rw [nto_sq, Finset.sum_range_succ, ← nto_sq]
      have a0 := nto_nonneg n z
      have a1 := nto_nonneg (n + 1) z
      have a2 := norm_nonneg (z n)
      have b1 : nto n z ≤ nto (n + 1) z := by nlinarith
      have b2 : nto (n + 1) z ≤ nto n z + ‖z n‖ := by
        refine abs_le_of_sq_le_sq' ?_ (by positivity) |>.2
        nlinarith
      have b3 : (ν + n * ε) * nto n z ≤ (ν + (n + 1) * ε) * nto (n + 1) z := by
        have : 0 ≤ (n : ℝ) := Nat.cast_nonneg n
        refine mul_le_mul (by nlinarith) b1 a0 (by positivity)
      simp only [true_and] at hzn ⊢
      rw [abs_le] at h1 ⊢
      constructor <;> linarith [h1.1, h1.2]
  rw [hsplit]
  have n1 := abs_norm_sub_norm_le (vec v - B (∑ j, y j • vec (s.V j))) (∑ i ∈ Finset.range (n + 1), z i • flBasis vec s i)
  rw [abs_le] at n1 hcomb ⊢
  constructor <;> linarith [n1.1, n1.2, hcomb.1, hcomb.2]

/-- The errors of the small system for the coefficients `a`: the rotations and (with `t ≠ 0`) the back substitution. -/
noncomputable def smallErr (g t β : ℝ) (num : K → 𝕜) (s : FlGmresSt F K X Q) (n : ℕ) (a : ℕ → ℝ) : ℝ :=
  ((1 + g) ^ n - 1) * |β| + ∑ j ∈ Finset.range n, a j * (gmresRot g t j * nto (j + 2) fun i => num (s.arn.H i j))

/-- The errors of the Arnoldi relation and (with `c ≠ 0`) of the linear combination for the coefficients `a`. -/
noncomputable def basisErr (u e d c nB : ℝ) (ortho : Ortho) (num : K → 𝕜) (nv : ℝ) (s : FlArn F K X) (n : ℕ) (a : ℕ → ℝ) : ℝ :=
  ∑ j ∈ Finset.range n, a j * (basisDefect u e d nB ortho num s j + √2 * c * nB) + u * nv

theorem smallErr_nonneg (hg : 0 ≤ g) (ht : 0 ≤ t) {β : ℝ} {s : FlGmresSt F K X Q} {n : ℕ} {a : ℕ → ℝ} (ha : ∀ j, 0 ≤ a j) : 0 ≤ smallErr g t β num s n a := by
  have h1 : 1 ≤ (1 + g) ^ n := one_le_pow₀ (by linarith)
  unfold smallErr
  refine add_nonneg (mul_nonneg (by linarith) (abs_nonneg _)) (Finset.sum_nonneg fun j _ => mul_nonneg (ha j) (mul_nonneg ?_ (nto_nonneg _ _)))
  have h2 : 1 ≤ (1 + g) ^ (j + 1) := one_le_pow₀ (by linarith)
  have h3 : 0 ≤ (1 + g) ^ j := by positivity
  unfold gmresRot rotErr
  have h4 := mul_nonneg ht (by linarith : 0 ≤ (1 + g) ^ (j + 1))
  nlinarith [mul_nonneg hg h3]

/-- C91: the residual norm `|y[n]|` which `Gmres` updates is a lower bound, up to the loss of orthogonality and rounding errors, for the residual norms of all combinations
of the computed basis vectors. -/
theorem C91_optimal (hv : FlArnVec o.toFlArnOps vec fin num finK val finF B u e) (hr : FlRotation o num finK U g) (hg : 0 ≤ g) {ortho : Ortho} {v : X} {r0 : F}
    {s : FlGmresSt F K X Q} (inv : FlArnInv vec fin num finK finF o.toFlArnOps B u e d ortho v s.arn) (hf : FlArnFin fin finK finF s.arn)
    (ht : FlGmresTrace o r0 s) (hf' : FlGmresFin finK s) (lev : Level 𝕜 (fun j => vec (s.arn.V j)) (flArnCnt s.arn) ε ν) (hε : 0 ≤ ε)
    {n : ℕ} (hn : s.arn.iter = n) (h0 : 0 < n) (hω : ν + (n + 1) * ε ≤ 1) (z : ℕ → 𝕜) :
    (1 - (ν + (n + 1) * ε)) * ‖num (s.y n)‖ ≤ ‖vec v - B (∑ j ∈ Finset.range n, z j • vec (s.arn.V j))‖ + smallErr g 0 (val r0) num s n (fun j => ‖z j‖) +
      basisErr u e d 0 ‖B‖ ortho num ‖vec v‖ s.arn n fun j => ‖z j‖ := by
  have hfr0 : finK (o.ofReal r0) := by
    have := (flRots_err hr hg s.G (fun i => if i = 0 then o.ofReal r0 else o.zero) (m := n + 1) n (by omega)
      (fun i hi => hf'.good ht (by omega)) (fun i hi => by rw [← hn, ← ht.y]; exact hf'.y i (by omega))).1 0 (by omega)
    simpa using this
  have hβ := (hv.ofReal hfr0).2
  have h1 := C91_close hv inv hf lev hε hn h0 (fun j : Fin n => z j)
  rw [ht.vnorm] at h1
  have h2 := small_close hr hg hv.zero hβ ht hf' hn (fun j : Fin n => z j)
  have h3 := (rotated_norm (num := num) (s := s) fun j : Fin n => z j).1
  rw [← Finset.sum_range fun j => z j • vec (s.arn.V j), ← Finset.sum_range fun j => ‖z j‖ * basisDefect u e d ‖B‖ ortho num s.arn j] at h1
  rw [← Finset.sum_range fun j => ‖z j‖ * (rotErr g j * nto (j + 2) fun i => num (s.arn.H i j))] at h2
  have e1 : smallErr g 0 (val r0) num s n (fun j => ‖z j‖) =
      ((1 + g) ^ n - 1) * |val r0| + ∑ j ∈ Finset.range n, ‖z j‖ * (rotErr g j * nto (j + 2) fun i => num (s.arn.H i j)) := by
    unfold smallErr gmresRot
    simp
  have e2 : basisErr u e d 0 ‖B‖ ortho num ‖vec v‖ s.arn n (fun j => ‖z j‖) = ∑ j ∈ Finset.range n, ‖z j‖ * basisDefect u e d ‖B‖ ortho num s.arn j + u * ‖vec v‖ := by
    unfold basisErr
    simp
  have e0 : 0 ≤ smallErr g 0 (val r0) num s n (fun j => ‖z j‖) := smallErr_nonneg hg le_rfl fun j => norm_nonneg _
  rw [← e1] at h2
  rw [e2]
  set C := vecNorm (fun i : Fin (n + 1) => (if (i : ℕ) = 0 then (val r0 : 𝕜) else 0) - ∑ j : Fin n, num (s.arn.H i j) * z j)
  set S := smallErr g 0 (val r0) num s n (fun j => ‖z j‖)
  have hν : 0 ≤ ν := (abs_nonneg _).trans (lev.unit 0 ((lt_flArnCnt s.arn 0).mp (.inl (by omega))))
  set ω := ν + (n + 1) * ε with hω'
  have hω0 : 0 ≤ ω := by positivity
  have h4 : ‖num (s.y n)‖ ≤ C + S := by
    have := (abs_le.mp h2).1
    linarith
  have h5 := mul_le_mul_of_nonneg_left h4 (by linarith : 0 ≤ 1 - ω)
  have h6 := (abs_le.mp h1).1
  nlinarith [mul_nonneg hω0 e0]

/-- C91: let `n` iterations have been carried out and `a` be the result of `solve_triangular`.  Then the norm of the true residual of `yk = V_n a` and the residual norm
`|y[n]|` which `Gmres` updates agree up to the loss of orthogonality and rounding errors. -/
theorem C91_residual (hv : FlArnVec o.toFlArnOps vec fin num finK val finF B u e) (hr : FlRotation o num finK U g) (hs : FlSolve o vec fin num finK m t c)
    (hu0 : 0 ≤ u) (hd : d < 1) (hud : (1 + u) ^ 2 ≤ 2 * (1 - d) ^ 2) (hg : 0 ≤ g) (ht0 : 0 ≤ t) (hc0 : 0 ≤ c) {ortho : Ortho} {v : X} {r0 : F}
    {s : FlGmresSt F K X Q} (inv : FlArnInv vec fin num finK finF o.toFlArnOps B u e d ortho v s.arn) (hf : FlArnFin fin finK finF s.arn)
    (ht : FlGmresTrace o r0 s) (hf' : FlGmresFin finK s) (lev : Level 𝕜 (fun j => vec (s.arn.V j)) (flArnCnt s.arn) ε ν) (hε : 0 ≤ ε)
    {n : ℕ} (hn : s.arn.iter = n) (h0 : 0 < n) (hω : ν + (n + 1) * ε ≤ 1) (hnm : n ≤ m) {a : ℕ → K} (ha : o.solve n s.R s.y = .ok a)
    (hy : fin (flGmresYk o s a)) :
    |‖vec v - B (vec (flGmresYk o s a))‖ - ‖num (s.y n)‖| ≤ (ν + (n + 1) * ε) * ‖num (s.y n)‖ + 2 * smallErr g t (val r0) num s n (fun j => ‖num (a j)‖) +
      basisErr u e d c ‖B‖ ortho num ‖vec v‖ s.arn n fun j => ‖num (a j)‖ := by
  have hfr0 : finK (o.ofReal r0) := by
    have := (flRots_err hr hg s.G (fun i => if i = 0 then o.ofReal r0 else o.zero) (m := n + 1) n (by omega)
      (fun i hi => hf'.good ht (by omega)) (fun i hi => by rw [← hn, ← ht.y]; exact hf'.y i (by omega))).1 0 (by omega)
    simpa using this
  have hβ := (hv.ofReal hfr0).2
  have hyk : flGmresYk o s a = o.comb n s.arn.V a := by unfold flGmresYk; rw [hn]
  rw [hyk] at hy ⊢
  obtain ⟨hfa, hcomb⟩ := hs.comb hnm hy
  have h1 := C91_close hv inv hf lev hε hn h0 (fun j : Fin n => num (a j))
  rw [ht.vnorm] at h1
  have h2 := small_close hr hg hv.zero hβ ht hf' hn (fun j : Fin n => num (a j))
  have h3 := rotated_norm (num := num) (s := s) fun j : Fin n => num (a j)
  have h4 := solve_norm hs ht0 hnm ha hfa (fun i hi => hf'.y i (by omega)) fun j hj i hi => hf'.R j (by omega) i (by omega)
  have h5 : ∑ j : Fin n, ‖num (a j)‖ * (t * nto (j + 1) fun i => num (s.R i j)) ≤
      ∑ j : Fin n, ‖num (a j)‖ * (t * (1 + g) ^ ((j : ℕ) + 1) * nto (j + 2) fun i => num (s.arn.H i j)) := by
    refine Finset.sum_le_sum fun j _ => mul_le_mul_of_nonneg_left ?_ (norm_nonneg _)
    have := mul_le_mul_of_nonneg_left (C80_columns hr hg hv.zero ht hf' (j := j) (by have := j.2; omega)) ht0
    linarith
  have e1 : smallErr g t (val r0) num s n (fun j => ‖num (a j)‖) =
      ((1 + g) ^ n - 1) * |val r0| + ∑ j : Fin n, ‖num (a j)‖ * (rotErr g j * nto (j + 2) fun i => num (s.arn.H i j)) +
      ∑ j : Fin n, ‖num (a j)‖ * (t * (1 + g) ^ ((j : ℕ) + 1) * nto (j + 2) fun i => num (s.arn.H i j)) := by
    unfold smallErr
    rw [Finset.sum_range, add_assoc, ← Finset.sum_add_distrib]
    congr 1
    refine Finset.sum_congr rfl fun j _ => ?_
    unfold gmresRot
    ring
  -- the linear combination
  have h6 : ‖B (vec (o.comb n s.arn.V a)) - B (∑ j : Fin n, num (a j) • vec (s.arn.V j))‖ ≤ ∑ j ∈ Finset.range n, ‖num (a j)‖ * (√2 * c * ‖B‖) := by
    rw [← map_sub]
    refine (B.le_opNorm _).trans ?_
    rw [← Finset.sum_range fun j => num (a j) • vec (s.arn.V j)]
    refine (mul_le_mul_of_nonneg_left hcomb (norm_nonneg B)).trans ?_
    rw [Finset.mul_sum, Finset.mul_sum]
    refine Finset.sum_le_sum fun j hj => ?_
    rw [Finset.mem_range] at hj
    have hV : ‖vec (s.arn.V j)‖ ≤ √2 := Real.le_sqrt_of_sq_le ((inv.unit hf j (.inl (by omega))).sq hu0 hd hud)
    have h1 := mul_le_mul_of_nonneg_left hV (norm_nonneg (num (a j)))
    have h2 := mul_le_mul_of_nonneg_left h1 (mul_nonneg (norm_nonneg B) hc0)
    linarith
  have e2 : basisErr u e d c ‖B‖ ortho num ‖vec v‖ s.arn n (fun j => ‖num (a j)‖) =
      ∑ j : Fin n, ‖num (a j)‖ * basisDefect u e d ‖B‖ ortho num s.arn j + ∑ j ∈ Finset.range n, ‖num (a j)‖ * (√2 * c * ‖B‖) + u * ‖vec v‖ := by
    unfold basisErr
    rw [← Finset.sum_range fun j => ‖num (a j)‖ * basisDefect u e d ‖B‖ ortho num s.arn j, ← Finset.sum_add_distrib]
    congr 1
    exact Finset.sum_congr rfl fun j _ => by ring
  have hν : 0 ≤ ν := (abs_nonneg _).trans (lev.unit 0 ((lt_flArnCnt s.arn 0).mp (.inl (by omega))))
  have p1 : 0 ≤ ∑ j : Fin n, ‖num (a j)‖ * (t * (1 + g) ^ ((j : ℕ) + 1) * nto (j + 2) fun i => num (s.arn.H i j)) :=
    Finset.sum_nonneg fun j _ => mul_nonneg (norm_nonneg _) (mul_nonneg (mul_nonneg ht0 (pow_nonneg (by linarith) _)) (nto_nonneg _ _))
  have p0 : 0 ≤ smallErr g t (val r0) num s n (fun j => ‖num (a j)‖) := smallErr_nonneg hg ht0 fun j => norm_nonneg _
  set C := vecNorm (fun i : Fin (n + 1) => (if (i : ℕ) = 0 then (val r0 : 𝕜) else 0) - ∑ j : Fin n, num (s.arn.H i j) * num (a j))
  set S := smallErr g t (val r0) num s n (fun j => ‖num (a j)‖)
  set ω := ν + (n + 1) * ε with hω'
  have hω0 : 0 ≤ ω := by positivity
  have c1 : |C - ‖num (s.y n)‖| ≤ S := by
    rw [e1]
    rw [abs_le] at h2 ⊢
    constructor <;> linarith [h2.1, h2.2, h3.1, h3.2]
  have c2 : ω * C ≤ ω * ‖num (s.y n)‖ + S := by
    have := mul_le_mul_of_nonneg_left (abs_le.mp c1).2 hω0
    nlinarith
  rw [e2]
  have n1 := abs_norm_sub_norm_le (vec v - B (vec (o.comb n s.arn.V a))) (vec v - B (∑ j : Fin n, num (a j) • vec (s.arn.V j)))
  rw [sub_sub_sub_cancel_left, norm_sub_rev (B (∑ j : Fin n, num (a j) • vec (s.arn.V j)))] at n1
  have n2 := n1.trans h6
  rw [abs_le] at n2 h1 c1 ⊢
  constructor <;> linarith [n2.1, n2.2, h1.1, h1.2, c1.1, c1.2]

/-- C91: the computed approximation is optimal up to the loss of orthogonality and rounding errors. -/
theorem C91_minimal (hv : FlArnVec o.toFlArnOps vec fin num finK val finF B u e) (hr : FlRotation o num finK U g) (hs : FlSolve o vec fin num finK m t c)
    (hu0 : 0 ≤ u) (hd : d < 1) (hud : (1 + u) ^ 2 ≤ 2 * (1 - d) ^ 2) (hg : 0 ≤ g) (ht0 : 0 ≤ t) (hc0 : 0 ≤ c) {ortho : Ortho} {v : X} {r0 : F}
    {s : FlGmresSt F K X Q} (inv : FlArnInv vec fin num finK finF o.toFlArnOps B u e d ortho v s.arn) (hf : FlArnFin fin finK finF s.arn)
    (ht : FlGmresTrace o r0 s) (hf' : FlGmresFin finK s) (lev : Level 𝕜 (fun j => vec (s.arn.V j)) (flArnCnt s.arn) ε ν) (hε : 0 ≤ ε)
    {n : ℕ} (hn : s.arn.iter = n) (h0 : 0 < n) (hω : ν + (n + 1) * ε ≤ 1) (hnm : n ≤ m) {a : ℕ → K} (ha : o.solve n s.R s.y = .ok a)
    (hy : fin (flGmresYk o s a)) (z : ℕ → 𝕜) :
    (1 - (ν + (n + 1) * ε)) * ‖vec v - B (vec (flGmresYk o s a))‖ ≤
      (1 + (ν + (n + 1) * ε)) * (‖vec v - B (∑ j ∈ Finset.range n, z j • vec (s.arn.V j))‖ + smallErr g 0 (val r0) num s n (fun j => ‖z j‖) +
          basisErr u e d 0 ‖B‖ ortho num ‖vec v‖ s.arn n fun j => ‖z j‖) +
        (1 - (ν + (n + 1) * ε)) * (2 * smallErr g t (val r0) num s n (fun j => ‖num (a j)‖) + basisErr u e d c ‖B‖ ortho num ‖vec v‖ s.arn n fun j => ‖num (a j)‖) := by
  have h1 := C91_optimal hv hr hg inv hf ht hf' lev hε hn h0 hω z
  have h2 := (abs_le.mp (C91_residual hv hr hs hu0 hd hud hg ht0 hc0 inv hf ht hf' lev hε hn h0 hω hnm ha hy)).2
  have hν : 0 ≤ ν := (abs_nonneg _).trans (lev.unit 0 ((lt_flArnCnt s.arn 0).mp (.inl (by omega))))
  set ω := ν + (n + 1) * ε with hω'
  have hω0 : 0 ≤ ω := by positivity
  have h3 := mul_le_mul_of_nonneg_left h1 (by linarith : 0 ≤ 1 + ω)
  have h4 := mul_le_mul_of_nonneg_left h2 (by linarith : 0 ≤ 1 - ω)
  nlinarith

end

section
variable {𝕜 E : Type*} [RCLike 𝕜] [NormedAddCommGroup E] [InnerProductSpace 𝕜 E] {F K X Q : Type*}
  [LE F] [LT F] [DecidableLE F] [DecidableLT F] [Div F] [Zero F] [BEq F] [Zero X]
variable {o : FlGmresOps F K X Q} {vec : X → E} {fin : X → Prop} {num : K → 𝕜} {finK : K → Prop} {val : F → ℝ} {finF : F → Prop} {B : E →L[𝕜] E} {u e d g t c κ : ℝ}
  {U : Q → 𝕜 × 𝕜 →ₗ[𝕜] 𝕜 × 𝕜} {m : ℕ}

/-- The basis at the end of every call of `Gmres` with `ortho='dmgs'` is orthonormal up to rounding errors. -/
theorem C91_basis {cfg : Cfg F X} (hv : FlArnVec o.toFlArnOps vec fin num finK val finF B u e) (hi : FlArnIp o.toFlArnOps vec fin num finK val finF d)
    (hu0 : 0 ≤ u) (hd0 : 0 ≤ d) (he0 : 0 ≤ e) (hM : o.M = none) (hκ : 1 ≤ κ) (hm : 1 ≤ m) (hT : (m : ℝ) ^ 3 * orthoErr u d * κ ≤ 1 / 1000)
    {g0 : Q} {post : X → Except Err X} {x0 MMlr0 Mlr0 : X} {r0 : F} (hr0 : finF r0 → |val r0 - ‖vec Mlr0‖| ≤ d * ‖vec Mlr0‖) {st : St F X (FlGmresSt F K X Q)}
    (h : flGmres cfg o .dmgs g0 post x0 MMlr0 Mlr0 r0 = .returned st ∨ flGmres cfg o .dmgs g0 post x0 MMlr0 Mlr0 r0 = .convergence st)
    (hf : FlArnFin fin finK finF st.s.arn) (hsm : st.s.arn.iter + 1 ≤ m ∨ (st.s.arn.invariant = true ∧ st.s.arn.iter ≤ m))
    (hH : ∀ n, n + 1 < st.s.arn.iter ∨ (n + 1 = st.s.arn.iter ∧ st.s.arn.invariant = false) →
      ‖vec (o.A (st.s.arn.V n))‖ ≤ κ * RCLike.re (num (st.s.arn.H (n + 1) n))) :
    Level 𝕜 (fun j => vec (st.s.arn.V j)) (flArnCnt st.s.arn) (3 * m * orthoErr u d) (2 * orthoErr u d) := by
  have key : DmgsInv vec fin num finK finF o.toFlArnOps B u e d κ m Mlr0 st.s.arn :=
    flGmres_induct (fun s => DmgsInv vec fin num finK finF o.toFlArnOps B u e d κ m Mlr0 s.arn)
      (fun _ ha => DmgsInv.init hv hi hu0 hd0 he0 hM hκ hm hT (fun r hr hf => by obtain rfl := Option.some.inj hr; exact hr0 hf) ha)
      (fun _ _ _ hs h1 => hs.step hv hi hu0 hd0 he0 hM hκ hm hT (flGmresStep_ok h1).1) h
  exact key.level hsm hf hH

/-- C91: the vector which `Gmres` with `ortho='dmgs'` returns (or attaches to a `ConvergenceError`) after at least one iteration for a system without preconditioners with
the Euclidean inner product.  Let `‖A v_n‖ ≤ κ H[n+1,n]` for all columns which give a new basis vector.  Then its true residual norm and the residual norm `|y[n]|` which
`Gmres` updates agree up to a relative error of `8 m² η`, the error of the initial residual and rounding errors.  All other combinations of the computed basis vectors have a
residual norm which is not smaller up to such errors. -/
theorem C91_solution {cfg : Cfg F X} (hv : FlArnVec o.toFlArnOps vec fin num finK val finF B u e) (hi : FlArnIp o.toFlArnOps vec fin num finK val finF d)
    (hr : FlRotation o num finK U g) (hs : FlSolve o vec fin num finK m t c)
    (hadd : ∀ {x y}, fin (o.add x y) → fin x ∧ fin y ∧ ‖vec (o.add x y) - (vec x + vec y)‖ ≤ u * ‖vec x + vec y‖) (hMr : ∀ x, o.Mr x = x)
    (hu0 : 0 ≤ u) (hd0 : 0 ≤ d) (he0 : 0 ≤ e) (hg : 0 ≤ g) (ht0 : 0 ≤ t) (hc0 : 0 ≤ c) (hM : o.M = none) (hκ : 1 ≤ κ)
    (hT : (m : ℝ) ^ 3 * orthoErr u d * κ ≤ 1 / 1000) {g0 : Q} {x0 MMlr0 Mlr0 : X} {r0 : F} (hr0 : finF r0 → |val r0 - ‖vec Mlr0‖| ≤ d * ‖vec Mlr0‖)
    (hb : (cfg.MMlbNorm == 0) = false) {st : St F X (FlGmresSt F K X Q)}
    (h : flGmres cfg o .dmgs g0 .ok x0 MMlr0 Mlr0 r0 = .returned st ∨ flGmres cfg o .dmgs g0 .ok x0 MMlr0 Mlr0 r0 = .convergence st)
    (hf : FlArnFin fin finK finF st.s.arn) (hf' : FlGmresFin finK st.s) (hsm : st.s.arn.iter + 1 ≤ m ∨ (st.s.arn.invariant = true ∧ st.s.arn.iter ≤ m))
    (hH : ∀ n, n + 1 < st.s.arn.iter ∨ (n + 1 = st.s.arn.iter ∧ st.s.arn.invariant = false) →
      ‖vec (o.A (st.s.arn.V n))‖ ≤ κ * RCLike.re (num (st.s.arn.H (n + 1) n)))
    {n : ℕ} (hn : st.s.arn.iter = n) (h0 : 0 < n) {x : X} (hx : st.xk = some x) (hfx : fin x) (b : E) :
    ∃ a, o.solve n st.s.R st.s.y = .ok a ∧ x = o.add x0 (flGmresYk o st.s a) ∧
      |‖b - B (vec x)‖ - ‖num (st.s.y n)‖| ≤ 8 * m ^ 2 * orthoErr u d * ‖num (st.s.y n)‖ + ‖b - B (vec x0) - vec Mlr0‖ +
        2 * smallErr g t (val r0) num st.s n (fun j => ‖num (a j)‖) + basisErr u e d c ‖B‖ .dmgs num ‖vec Mlr0‖ st.s.arn n (fun j => ‖num (a j)‖) +
        ‖B‖ * (u * ‖vec x0 + vec (flGmresYk o st.s a)‖) ∧
      ∀ z : ℕ → 𝕜, (1 - 8 * m ^ 2 * orthoErr u d) * ‖num (st.s.y n)‖ ≤ ‖b - B (vec x0 + ∑ j ∈ Finset.range n, z j • vec (st.s.arn.V j))‖ +
        ‖b - B (vec x0) - vec Mlr0‖ + smallErr g 0 (val r0) num st.s n (fun j => ‖z j‖) + basisErr u e d 0 ‖B‖ .dmgs num ‖vec Mlr0‖ st.s.arn n fun j => ‖z j‖ := by
  have hm : 1 ≤ m := by rcases hsm with h1 | h1 <;> omega
  obtain ⟨hη, hnη, hηn, hη1, hu, hd, hu1, hd1, hud⟩ := orthoErr_small hm hu0 hd0 hκ hT
  have lev := C91_basis hv hi hu0 hd0 he0 hM hκ hm hT hr0 h hf hsm hH
  have inv := flGmres_inv hv hi hu0 hu1 hd0 hd1 he0 hud hM (by decide) hr0 h
  obtain ⟨htr, hsx⟩ := C80_trace h
  have hxk := flGmres_xk hb h hx
  unfold flGmresXk at hxk
  rw [hn, if_pos h0] at hxk
  split at hxk
  · cases hxk
  next a ha =>
  have hxe := (Except.ok.inj hxk).symm
  rw [hMr, hsx, hb] at hxe
  simp only [Bool.false_eq_true, if_false] at hxe
  refine ⟨a, ha, hxe, ?_⟩
  rw [hxe] at hfx ⊢
  obtain ⟨-, hfy, hae⟩ := hadd hfx
  set η := orthoErr u d with hηd
  have hε : 0 ≤ 3 * (m : ℝ) * η := by positivity
  have hm1 : (1 : ℝ) ≤ m := by exact_mod_cast hm
  have hnm : (n : ℝ) ≤ m := by
    have : n ≤ m := by omega
    exact_mod_cast this
  have hω8 : 2 * η + (n + 1) * (3 * m * η) ≤ 8 * m ^ 2 * η := by
    have h1 : (n + 1) * (3 * m * η) ≤ (2 * m) * (3 * m * η) := mul_le_mul_of_nonneg_right (by linarith) hε
    have h2 : η ≤ m ^ 2 * η := by nlinarith
    linarith
  have h81 : 8 * (m : ℝ) ^ 2 * η ≤ 1 := by
    have h1 : (m : ℝ) ^ 2 * η ≤ m ^ 3 * η * κ := by
      have h2 : (m : ℝ) ^ 2 * η ≤ m ^ 3 * η := mul_le_mul_of_nonneg_right (pow_le_pow_right₀ hm1 (by norm_num)) hη
      have h3 : 0 ≤ (m : ℝ) ^ 3 * η := by positivity
      nlinarith
    linarith
  have hres := C91_residual hv hr hs hu0 hd1 hud hg ht0 hc0 inv hf htr hf' lev hε hn h0 (hω8.trans h81) (by omega) ha hfy
  have hyn := norm_nonneg (num (st.s.y n))
  have hω9 := mul_le_mul_of_nonneg_right hω8 hyn
  refine ⟨?_, fun z => ?_⟩
  · set y := vec (flGmresYk o st.s a)
    have e1 : b - B (vec (o.add x0 (flGmresYk o st.s a))) - (vec Mlr0 - B y) =
        (b - B (vec x0) - vec Mlr0) - B (vec (o.add x0 (flGmresYk o st.s a)) - (vec x0 + y)) := by
      simp only [map_sub, map_add]; abel
    have n1 := abs_norm_sub_norm_le (b - B (vec (o.add x0 (flGmresYk o st.s a)))) (vec Mlr0 - B y)
    rw [e1] at n1
    have n2 := n1.trans (norm_sub_le _ _)
    have n3 := (B.le_opNorm (vec (o.add x0 (flGmresYk o st.s a)) - (vec x0 + y))).trans (mul_le_mul_of_nonneg_left hae (norm_nonneg B))
    rw [abs_le] at n2 hres ⊢
    constructor <;> linarith [n2.1, n2.2, hres.1, hres.2]
  · have h1 := C91_optimal hv hr hg inv hf htr hf' lev hε hn h0 (hω8.trans h81) z
    have e1 : vec Mlr0 - B (∑ j ∈ Finset.range n, z j • vec (st.s.arn.V j)) =
        (b - B (vec x0 + ∑ j ∈ Finset.range n, z j • vec (st.s.arn.V j))) - (b - B (vec x0) - vec Mlr0) := by
      rw [map_add]; abel
    have n1 := norm_sub_le (b - B (vec x0 + ∑ j ∈ Finset.range n, z j • vec (st.s.arn.V j))) (b - B (vec x0) - vec Mlr0)
    rw [← e1] at n1
    linarith

end

/-! ## Double precision -/

section
variable {𝕜 : Type*} [RCLike 𝕜] {F K X Q : Type*}

/-- What an invariant subspace neglects for the weights `w`: `w[n-1] |H[n,n-1]|`. -/
noncomputable def dmgsCut (num : K → 𝕜) (s : FlArn F K X) (w : ℕ → ℝ) : ℝ :=
  if s.invariant then w (s.iter - 1) * ‖num (s.H s.iter (s.iter - 1))‖ else 0

/-- The errors of the small system in double precision. -/
theorem smallErr_double {u e d g t nB β nv Fr : ℝ} (hu0 : 0 ≤ u) (hu : u ≤ 2⁻¹ ^ 53) (hd0 : 0 ≤ d) (hd : d ≤ 1.2 / 10 ^ 10) (he0 : 0 ≤ e) (he : e ≤ 1.1103 / 10 ^ 10 * Fr)
    (hB0 : 0 ≤ nB) (hB : nB ≤ Fr) (hg0 : 0 ≤ g) (hg : g ≤ 2.23 / 10 ^ 15) (ht : t ≤ 2.3 / 10 ^ 13) (hβ : |β| ≤ (1 + d) * nv)
    (hnv : 0 ≤ nv) {ortho : Ortho} {num : K → 𝕜} {s : FlGmresSt F K X Q} {w : ℕ → ℝ} (hw : ∀ j, 0 ≤ w j) (hn : s.arn.iter ≤ 1000)
    (hsize : ∀ n < s.arn.iter, ∀ j ≤ n + 1, ‖num (s.arn.H j n)‖ ≤ (1 + d) / (1 - u) * arnD u e d nB ortho n) :
    smallErr g t β num s s.arn.iter w ≤ 2.29 / 10 ^ 12 * nv + 4.68 / 10 ^ 10 * (Fr * ∑ j ∈ Finset.range s.arn.iter, w j) := by
  have hF0 : 0 ≤ Fr := hB0.trans hB
  set n := s.arn.iter with hnd
  have hpow : ∀ k ≤ 1000, (1 + g) ^ k - 1 ≤ 2.28 / 10 ^ 12 := by
    intro k hk
    have hkr : (k : ℝ) ≤ 1000 := by exact_mod_cast hk
    have h1 : (k : ℝ) * g ≤ 1000 * (2.23 / 10 ^ 15) := mul_le_mul hkr hg hg0 (by norm_num)
    refine (pow_sub_one_le hg0 (h1.trans (by norm_num))).trans ?_
    calc 1.02 * (k * g) ≤ 1.02 * (1000 * (2.23 / 10 ^ 15)) := mul_le_mul_of_nonneg_left h1 (by norm_num)
      _ ≤ 2.28 / 10 ^ 12 := by norm_num
  have hpow1 : ∀ k, 1 ≤ (1 + g) ^ k := fun k => one_le_pow₀ (by linarith)
  have hu1 : u ≤ 1 / 10 ^ 15 := hu.trans (by norm_num)
  have hratio : (1 + d) / (1 - u) ≤ 1.0001 := by
    rw [div_le_iff₀ (by norm_num at hu1 ⊢; linarith)]
    norm_num at hd hu1 ⊢
    linarith
  have hnBe : nB + e ≤ 1.001 * Fr := by
    have : 1.1103 / 10 ^ 10 * Fr ≤ 0.001 * Fr := mul_le_mul_of_nonneg_right (by norm_num) hF0
    linarith
  -- the columns of the Hessenberg matrix
  have hcol : ∀ j ∈ Finset.range n, nto (j + 2) (fun i => num (s.arn.H i j)) ≤ 180 * Fr := by
    intro j hj
    rw [Finset.mem_range] at hj
    have h1 := arnD_double hu0 hu hd0 hd he0 hB0 (ortho := ortho) (n := j) (by omega)
    have hD0 : 0 ≤ arnD u e d nB ortho j := by
      have hg0 : 0 ≤ orthoGrow u d := by linarith [one_le_orthoGrow hu0 hd0]
      unfold arnD arnW
      positivity
    have h2 : ∀ i < j + 2, ‖num (s.arn.H i j)‖ ≤ 5.6813 * Fr := by
      intro i hi
      refine (hsize j hj i (by omega)).trans ?_
      calc (1 + d) / (1 - u) * arnD u e d nB ortho j ≤ 1.0001 * (5.675 * (nB + e)) := mul_le_mul hratio h1 hD0 (by norm_num)
        _ ≤ 5.6813 * Fr := by nlinarith
    have h3 := nto_le_of (mul_nonneg (by norm_num) hF0) h2
    have h4 : √((j + 2 : ℕ) : ℝ) ≤ 31.64 := by
      rw [Real.sqrt_le_left (by norm_num)]
      have : ((j + 2 : ℕ) : ℝ) ≤ 1001 := by exact_mod_cast (by omega : j + 2 ≤ 1001)
      norm_num at this ⊢
      linarith
    refine h3.trans ?_
    calc √((j + 2 : ℕ) : ℝ) * (5.6813 * Fr) ≤ 31.64 * (5.6813 * Fr) := mul_le_mul_of_nonneg_right h4 (mul_nonneg (by norm_num) hF0)
      _ ≤ 180 * Fr := by nlinarith
  have hrot : ∀ j ∈ Finset.range n, gmresRot g t j ≤ 2.6 / 10 ^ 12 := by
    intro j hj
    rw [Finset.mem_range] at hj
    have p1 := hpow (j + 1) (by omega)
    have p2 := hpow j (by omega)
    have q1 : 2 * g * (1 + g) ^ j ≤ 2 * (2.23 / 10 ^ 15) * 1.001 := by
      have : (1 + g) ^ j ≤ 1.001 := by norm_num at p2 ⊢; linarith
      exact mul_le_mul (by linarith) this (by linarith [hpow1 j]) (by norm_num)
    have q2 : t * (1 + g) ^ (j + 1) ≤ 2.3 / 10 ^ 13 * 1.001 := by
      have : (1 + g) ^ (j + 1) ≤ 1.001 := by norm_num at p1 ⊢; linarith
      exact mul_le_mul ht this (by linarith [hpow1 (j + 1)]) (by norm_num)
    unfold gmresRot rotErr
    norm_num at p1 q1 q2 ⊢
    linarith
  unfold smallErr
  have t1 : ∑ j ∈ Finset.range n, w j * (gmresRot g t j * nto (j + 2) fun i => num (s.arn.H i j)) ≤ 4.68 / 10 ^ 10 * (Fr * ∑ j ∈ Finset.range n, w j) := by
    have h1 : ∀ j ∈ Finset.range n, w j * (gmresRot g t j * nto (j + 2) fun i => num (s.arn.H i j)) ≤ w j * (2.6 / 10 ^ 12 * (180 * Fr)) := by
      intro j hj
      exact mul_le_mul_of_nonneg_left (mul_le_mul (hrot j hj) (hcol j hj) (nto_nonneg _ _) (by norm_num)) (hw j)
    refine (Finset.sum_le_sum h1).trans (le_of_eq ?_)
    rw [← Finset.sum_mul]
    ring
  have t2 : ((1 + g) ^ n - 1) * |β| ≤ 2.29 / 10 ^ 12 * nv := by
    have h1 : |β| ≤ 1.001 * nv := by
      refine hβ.trans (mul_le_mul_of_nonneg_right ?_ hnv)
      norm_num at hd ⊢
      linarith
    have h2 : ((1 + g) ^ n - 1) * |β| ≤ 2.28 / 10 ^ 12 * (1.001 * nv) := mul_le_mul (hpow n hn) h1 (abs_nonneg _) (by norm_num)
    have h3 : 2.28 / 10 ^ 12 * (1.001 * nv) ≤ 2.29 / 10 ^ 12 * nv := by
      have : (2.28 / 10 ^ 12 * 1.001 : ℝ) ≤ 2.29 / 10 ^ 12 := by norm_num
      nlinarith
    exact h2.trans h3
  exact add_le_add t2 t1

/-- The errors of the Arnoldi relation in double precision. -/
theorem basisErr_double {u e d c nB nv Fr : ℝ} (hu0 : 0 ≤ u) (hu : u ≤ 2⁻¹ ^ 53) (hd0 : 0 ≤ d) (hd : d ≤ 1.2 / 10 ^ 10) (he0 : 0 ≤ e) (he : e ≤ 1.1103 / 10 ^ 10 * Fr)
    (hB0 : 0 ≤ nB) (hB : nB ≤ Fr) (hc0 : 0 ≤ c) (hc : c ≤ 1.2 / 10 ^ 13) (hnv : 0 ≤ nv) {ortho : Ortho} {num : K → 𝕜} {s : FlArn F K X} {w : ℕ → ℝ} (hw : ∀ j, 0 ≤ w j)
    (h0 : 0 < s.iter) (hn : s.iter ≤ 1000) :
    basisErr u e d c nB ortho num nv s s.iter w ≤ 1.62 / 10 ^ 10 * (Fr * ∑ j ∈ Finset.range s.iter, w j) + 2.001 * dmgsCut num s w + 1 / 10 ^ 15 * nv := by
  have hs2 : √2 ≤ 1.4143 := by
    rw [Real.sqrt_le_left (by norm_num)]
    norm_num
  have hF0 : 0 ≤ Fr := hB0.trans hB
  set n := s.iter with hnd
  have hu1 : u ≤ 1 / 10 ^ 15 := hu.trans (by norm_num)
  have hnBe : nB + e ≤ 1.001 * Fr := by
    have : 1.1103 / 10 ^ 10 * Fr ≤ 0.001 * Fr := mul_le_mul_of_nonneg_right (by norm_num) hF0
    linarith
  have t3 : ∑ j ∈ Finset.range n, w j * (basisDefect u e d nB ortho num s j + √2 * c * nB) ≤ 1.62 / 10 ^ 10 * (Fr * ∑ j ∈ Finset.range n, w j) + 2.001 * dmgsCut num s w := by
    have h1 : ∀ j ∈ Finset.range n, w j * (basisDefect u e d nB ortho num s j + √2 * c * nB) ≤
        w j * (1.62 / 10 ^ 10 * Fr) +
          if s.invariant = true ∧ j + 1 = n then 2.001 * (w j * ‖num (s.H (j + 1) j)‖) else 0 := by
      intro j hj
      rw [Finset.mem_range] at hj
      have b1 := arnBound_double hu0 hu hd0 hd he0 hB0 (ortho := ortho) (n := j) (by omega)
      have b2 : arnBound u e d nB ortho j + √2 * c * nB ≤ 1.62 / 10 ^ 10 * Fr := by
        have c1 : √2 * c * nB ≤ 1.4143 * (1.2 / 10 ^ 13) * Fr :=
          mul_le_mul (mul_le_mul hs2 hc hc0 (by norm_num)) hB hB0 (by norm_num)
        have c2 : 1.42 * e ≤ 1.42 * (1.1103 / 10 ^ 10 * Fr) := mul_le_mul_of_nonneg_left he (by norm_num)
        have c3 : 3 / 10 ^ 12 * (nB + e) ≤ 3 / 10 ^ 12 * (1.001 * Fr) := mul_le_mul_of_nonneg_left hnBe (by norm_num)
        have c4 : 1.42 * (1.1103 / 10 ^ 10 * Fr) + 3 / 10 ^ 12 * (1.001 * Fr) + 1.4143 * (1.2 / 10 ^ 13) * Fr ≤ 1.62 / 10 ^ 10 * Fr := by
          have : 1.42 * (1.1103 / 10 ^ 10 * Fr) + 3 / 10 ^ 12 * (1.001 * Fr) + 1.4143 * (1.2 / 10 ^ 13) * Fr =
            (1.42 * (1.1103 / 10 ^ 10) + 3 / 10 ^ 12 * 1.001 + 1.4143 * (1.2 / 10 ^ 13)) * Fr := by ring
          rw [this]
          exact mul_le_mul_of_nonneg_right (by norm_num) hF0
        linarith
      unfold basisDefect arnDefect
      have hnn := hw j
      have hb := mul_le_mul_of_nonneg_left b2 hnn
      by_cases hc1 : s.invariant = true ∧ j + 1 = n
      · rw [if_pos hc1, if_pos hc1, if_pos hc1]
        have h1d : 1 / (1 - d) ≤ 1.001 := by
          rw [div_le_iff₀ (by norm_num at hd ⊢; linarith)]
          norm_num at hd ⊢
          linarith
        have : ‖num (s.H (j + 1) j)‖ / (1 - d) ≤ 1.001 * ‖num (s.H (j + 1) j)‖ := by
          rw [div_eq_mul_one_div, mul_comm]
          exact mul_le_mul_of_nonneg_right h1d (norm_nonneg _)
        have h2 := mul_le_mul_of_nonneg_left this hnn
        linarith
      · rw [if_neg hc1, if_neg hc1, if_neg hc1]
        linarith
    refine (Finset.sum_le_sum h1).trans ?_
    rw [Finset.sum_add_distrib, ← Finset.sum_mul]
    refine add_le_add (le_of_eq (by ring)) ?_
    rw [Finset.sum_eq_single_of_mem (n - 1) (Finset.mem_range.mpr (by omega))]
    · unfold dmgsCut
      rw [← hnd, Nat.sub_add_cancel (by omega : 1 ≤ n)]
      by_cases hi : s.invariant = true
      · rw [if_pos ⟨hi, rfl⟩, if_pos hi]
      · rw [if_neg fun h => hi h.1, if_neg hi, mul_zero]
    · intro j hj hne
      rw [Finset.mem_range] at hj
      rw [if_neg fun h => hne (by omega)]
  have t4 : u * nv ≤ 1 / 10 ^ 15 * nv := mul_le_mul_of_nonneg_right hu1 hnv
  unfold basisErr
  linarith

end

section
variable {F K X Q : Type*} [LE F] [LT F] [DecidableLE F] [DecidableLT F] [Div F] [Zero F] [BEq F] [Zero X]
open Matrix

/-- C91 in real double precision without underflow: `Gmres` with `ortho='dmgs'`, at most a million unknowns and no preconditioners.  If `‖A v_n‖ ≤ κ H[n+1,n]` in all columns
which give a new basis vector and `m³ κ ≤ 4·10^6` for at most `m` basis vectors, then the true residual norm of the returned vector and the last updated residual norm agree
up to `2e-9 m²` times that norm, the error of the initial residual, `5e-12` times its norm and `1.1e-9 ‖A‖_F Σ|a_j|` (plus what is neglected if the Krylov subspace
was found to be invariant).  No combination of the basis vectors is better by more than such errors. -/
theorem C91_double {N : ℕ} (h1 : 1 ≤ N) (hN : N ≤ 1000000) {o : FlGmresOps F K X Q} {vec : X → Fin N → ℝ} {fin : X → Prop} {num : K → ℝ} {finK : K → Prop} {val : F → ℝ}
    {finF : F → Prop} {cs : Q → ℝ × ℝ} {A : Matrix (Fin N) (Fin N) ℝ} (hc : FlGmresComp flDouble o vec fin num finK val finF cs A) (hM : o.M = none) (hMr : ∀ x, o.Mr x = x)
    {κ : ℝ} (hκ : 1 ≤ κ) {m : ℕ} (hmκ : (m : ℝ) ^ 3 * κ ≤ 4 * 10 ^ 6)
    {cfg : Cfg F X} {g0 : Q} {x0 MMlr0 Mlr0 : X} {r0 : F} (hr0 : finF r0 → FlNorm flDouble (vec Mlr0) (val r0))
    (hb : (cfg.MMlbNorm == 0) = false) {st : St F X (FlGmresSt F K X Q)}
    (h : flGmres cfg o .dmgs g0 .ok x0 MMlr0 Mlr0 r0 = .returned st ∨ flGmres cfg o .dmgs g0 .ok x0 MMlr0 Mlr0 r0 = .convergence st)
    (hf : FlArnFin fin finK finF st.s.arn) (hf' : FlGmresFin finK st.s) (hsm : st.s.arn.iter + 1 ≤ m ∨ (st.s.arn.invariant = true ∧ st.s.arn.iter ≤ m))
    (hH : ∀ n, n + 1 < st.s.arn.iter ∨ (n + 1 = st.s.arn.iter ∧ st.s.arn.invariant = false) →
      vecNorm (vec (o.A (st.s.arn.V n))) ≤ κ * num (st.s.arn.H (n + 1) n))
    (h0 : 0 < st.s.arn.iter) {x : X} (hx : st.xk = some x) (hfx : fin x) (b : Fin N → ℝ) :
    ∃ a, o.solve st.s.arn.iter st.s.R st.s.y = .ok a ∧ x = o.add x0 (flGmresYk o st.s a) ∧
      abs (vecNorm (b - A *ᵥ vec x) - |num (st.s.y st.s.arn.iter)|) ≤ 2 / 10 ^ 9 * m ^ 2 * |num (st.s.y st.s.arn.iter)| + vecNorm (b - A *ᵥ vec x0 - vec Mlr0) +
        5 / 10 ^ 12 * vecNorm (vec Mlr0) + 1.1 / 10 ^ 9 * (frob A * ∑ j ∈ Finset.range st.s.arn.iter, |num (a j)|) +
        2.001 * dmgsCut num st.s.arn (fun j => |num (a j)|) + frob A * (2⁻¹ ^ 53 * vecNorm (vec x0 + vec (flGmresYk o st.s a))) ∧
      ∀ z : ℕ → ℝ, (1 - 2 / 10 ^ 9 * m ^ 2) * |num (st.s.y st.s.arn.iter)| ≤
        vecNorm (b - A *ᵥ (vec x0 + ∑ j ∈ Finset.range st.s.arn.iter, z j • vec (st.s.arn.V j))) + vecNorm (b - A *ᵥ vec x0 - vec Mlr0) +
        3 / 10 ^ 12 * vecNorm (vec Mlr0) + 6.4 / 10 ^ 10 * (frob A * ∑ j ∈ Finset.range st.s.arn.iter, |z j|) + 2.001 * dmgsCut num st.s.arn fun j => |z j| := by
  have hm : 1 ≤ m := by rcases hsm with h1 | h1 <;> omega
  have hm1 : (1 : ℝ) ≤ m := by exact_mod_cast hm
  have hm1000 : m ≤ 1000 := by
    by_contra hlt
    have h2 : (1000 : ℝ) ≤ m := by exact_mod_cast (by omega : 1000 ≤ m)
    have h3 : (1000 : ℝ) ^ 3 ≤ (m : ℝ) ^ 3 := pow_le_pow_left₀ (by norm_num) h2 3
    have h4 : (m : ℝ) ^ 3 ≤ (m : ℝ) ^ 3 * κ := le_mul_of_one_le_right (by positivity) hκ
    norm_num at h3 hmκ
    linarith
  have hn : st.s.arn.iter ≤ 1000 := by rcases hsm with h1 | h1 <;> omega
  obtain ⟨hv, hi⟩ := C79_componentwise flDouble_nonneg rfl hc.toFlArnComp
  have hrot := C80_rotation flDouble_nonneg rfl hc
  have hg := flDouble_gam h1 hN
  have gN := flDouble_nonneg.gam_nonneg N
  have hu : max flDouble.u flDouble.v = 2⁻¹ ^ 53 := by simp [flDouble]
  have hw : flDouble.w = 2⁻¹ ^ 50 := rfl
  have hue : flDouble.u = 2⁻¹ ^ 53 := rfl
  have hve : flDouble.v = 2⁻¹ ^ 53 := rfl
  have c0 : (0 : ℝ) ≤ 2⁻¹ ^ 53 := by norm_num
  have hg1000 : flDouble.gam 1000 ≤ 1.14 / 10 ^ 13 := by
    have e1 : flDouble.gam 1000 = (1 + 2⁻¹ ^ 53) ^ 1000 - 1 := by
      unfold FlPar.gam
      rw [hue, hve, ← pow_succ]
    rw [e1]
    have hk : ((1000 : ℕ) : ℝ) * 2⁻¹ ^ 53 ≤ 1 / 100 := by norm_num
    refine (pow_sub_one_le c0 hk).trans ?_
    norm_num
  have g1000 := flDouble_nonneg.gam_nonneg 1000
  have hg1 : flDouble.gam 1000 < 1 := hg1000.trans_lt (by norm_num)
  have hsol := C80_solve flDouble_nonneg rfl (by rw [hue]; norm_num) hg1 hc
  have hrg : flDouble.rot ≤ 2.23 / 10 ^ 15 := by
    unfold FlPar.rot FlPar.gam
    rw [hue, hve, hw]
    norm_num
  have htri : flDouble.tri 1000 ≤ 2.3 / 10 ^ 13 := by
    unfold FlPar.tri
    rw [hue, div_le_iff₀ (mul_pos (by norm_num) (by linarith))]
    have e2 : (2.3 / 10 ^ 13 : ℝ) * ((1 - 2⁻¹ ^ 53) * (1 - 1.14 / 10 ^ 13)) ≤ 2.3 / 10 ^ 13 * ((1 - 2⁻¹ ^ 53) * (1 - flDouble.gam 1000)) :=
      mul_le_mul_of_nonneg_left (mul_le_mul_of_nonneg_left (by linarith) (by norm_num)) (by norm_num)
    refine le_trans ?_ e2
    have e3 : 2 * flDouble.gam 1000 + 2⁻¹ ^ 53 ≤ 2 * (1.14 / 10 ^ 13) + 2⁻¹ ^ 53 := by linarith
    refine e3.trans ?_
    norm_num
  have htri0 : 0 ≤ flDouble.tri 1000 := by
    unfold FlPar.tri
    rw [hue]
    exact div_nonneg (by linarith) (mul_nonneg (by norm_num) (by linarith))
  set d := flDouble.gam N + flDouble.w * (1 + flDouble.gam N) with hd
  have hd0 : 0 ≤ d := by
    rw [hd, hw]
    positivity
  have hd1 : d ≤ 1.2 / 10 ^ 10 := by
    rw [hd, hw]
    calc flDouble.gam N + 2⁻¹ ^ 50 * (1 + flDouble.gam N) ≤ 1.1103 / 10 ^ 10 + 2⁻¹ ^ 50 * (1 + 1.1103 / 10 ^ 10) := by gcongr
      _ ≤ 1.2 / 10 ^ 10 := by norm_num
  have hF : 0 ≤ frob A := Real.sqrt_nonneg _
  have he0 : 0 ≤ flDouble.gam N * frob A := mul_nonneg gN hF
  rw [hu] at hv
  have hud : (1 + (2⁻¹ : ℝ) ^ 53) ^ 2 ≤ 2 * (1 - d) ^ 2 := by
    have h2 : (1 - 1.2 / 10 ^ 10 : ℝ) ^ 2 ≤ (1 - d) ^ 2 := pow_le_pow_left₀ (by norm_num) (by linarith) 2
    have h3 : (1 + (2⁻¹ : ℝ) ^ 53) ^ 2 ≤ 2 * (1 - 1.2 / 10 ^ 10 : ℝ) ^ 2 := by norm_num
    linarith
  have hd1' : d < 1 := hd1.trans_lt (by norm_num)
  -- the norm of the initial residual
  have hr0' : finF r0 → |val r0 - ‖(WithLp.toLp 2 (vec Mlr0) : EuclideanSpace ℝ (Fin N))‖| ≤ d * ‖(WithLp.toLp 2 (vec Mlr0) : EuclideanSpace ℝ (Fin N))‖ := by
    intro hfr
    exact flNorm_err flDouble_nonneg rfl (hr0 hfr)
  have hadd : ∀ {x y}, fin (o.add x y) → fin x ∧ fin y ∧ ‖(WithLp.toLp 2 (vec (o.add x y)) : EuclideanSpace ℝ (Fin N)) - (WithLp.toLp 2 (vec x) + WithLp.toLp 2 (vec y))‖ ≤
      2⁻¹ ^ 53 * ‖(WithLp.toLp 2 (vec x) + WithLp.toLp 2 (vec y) : EuclideanSpace ℝ (Fin N))‖ := by
    intro x y hxy
    obtain ⟨q1, q2, q3⟩ := hc.add hxy
    refine ⟨q1, q2, ?_⟩
    rw [← WithLp.toLp_add, ← WithLp.toLp_sub]
    exact norm_toLp_le c0 q3
  have hη : orthoErr (2⁻¹ ^ 53) d ≤ 2.5 / 10 ^ 10 := by
    unfold orthoErr orthoGrow
    have h2 : (1 + (2⁻¹ : ℝ) ^ 53) * (1 + 2 * d + 2 * 2⁻¹ ^ 53 * (1 + d)) ≤ (1 + (2⁻¹ : ℝ) ^ 53) * (1 + 2 * (1.2 / 10 ^ 10) + 2 * 2⁻¹ ^ 53 * (1 + 1.2 / 10 ^ 10)) := by gcongr
    have h3 : (1 + (2⁻¹ : ℝ) ^ 53) * (1 + 2 * (1.2 / 10 ^ 10) + 2 * 2⁻¹ ^ 53 * (1 + 1.2 / 10 ^ 10)) - 1 ≤ 2.5 / 10 ^ 10 := by norm_num
    linarith
  have hT : (m : ℝ) ^ 3 * orthoErr (2⁻¹ ^ 53) d * κ ≤ 1 / 1000 := by
    have h2 : (m : ℝ) ^ 3 * orthoErr (2⁻¹ ^ 53) d * κ = (m : ℝ) ^ 3 * κ * orthoErr (2⁻¹ ^ 53) d := by ring
    rw [h2]
    have h3 : 0 ≤ (m : ℝ) ^ 3 * κ := by positivity
    calc (m : ℝ) ^ 3 * κ * orthoErr (2⁻¹ ^ 53) d ≤ (m : ℝ) ^ 3 * κ * (2.5 / 10 ^ 10) := mul_le_mul_of_nonneg_left hη h3
      _ ≤ 4 * 10 ^ 6 * (2.5 / 10 ^ 10) := mul_le_mul_of_nonneg_right hmκ (by norm_num)
      _ ≤ 1 / 1000 := by norm_num
  have h8 : ∀ y : ℝ, 0 ≤ y → 8 * (m : ℝ) ^ 2 * orthoErr (2⁻¹ ^ 53) d * y ≤ 2 / 10 ^ 9 * m ^ 2 * y := by
    intro y hy
    refine mul_le_mul_of_nonneg_right ?_ hy
    calc 8 * (m : ℝ) ^ 2 * orthoErr (2⁻¹ ^ 53) d ≤ 8 * (m : ℝ) ^ 2 * (2.5 / 10 ^ 10) := mul_le_mul_of_nonneg_left hη (by positivity)
      _ = 2 / 10 ^ 9 * m ^ 2 := by ring
  have hsol' : FlSolve o (fun x => (WithLp.toLp 2 (vec x) : EuclideanSpace ℝ (Fin N))) fin num finK m (flDouble.tri 1000) (flDouble.gam 1000) :=
    ⟨fun hk => hsol.solve (hk.trans hm1000), fun hk => hsol.comb (hk.trans hm1000)⟩
  have inv := flGmres_inv hv hi c0 (by norm_num) hd0 hd1' he0 hud hM (by decide) hr0' h
  obtain ⟨a, ha, hxa, hres, hopt⟩ := C91_solution hv hi hrot hsol' hadd hMr c0 hd0 he0 flDouble_nonneg.rot_nonneg htri0 g1000 hM hκ hT hr0' hb h hf hf' hsm
    (fun n hn => by
      have := hH n hn
      rw [vecNorm_toLp] at this
      exact this) rfl h0 hx hfx (WithLp.toLp 2 b)
  refine ⟨a, ha, hxa, ?_⟩
  have hβ : |val r0| ≤ (1 + d) * ‖(WithLp.toLp 2 (vec Mlr0) : EuclideanSpace ℝ (Fin N))‖ := by
    have hfr : finF r0 := by
      have := hf.vnorm
      rwa [(C80_trace h).1.vnorm] at this
    have := hr0' hfr
    have h2 := abs_sub_abs_le_abs_sub (val r0) ‖(WithLp.toLp 2 (vec Mlr0) : EuclideanSpace ℝ (Fin N))‖
    rw [abs_of_nonneg (norm_nonneg (WithLp.toLp 2 (vec Mlr0) : EuclideanSpace ℝ (Fin N)))] at h2
    linarith
  have he : flDouble.gam N * frob A ≤ 1.1103 / 10 ^ 10 * frob A := mul_le_mul_of_nonneg_right hg hF
  have nB := norm_nonneg (Matrix.toEuclideanCLM (n := Fin N) (𝕜 := ℝ) A)
  have nv := norm_nonneg (WithLp.toLp 2 (vec Mlr0) : EuclideanSpace ℝ (Fin N))
  have l0 : vecNorm (vec Mlr0) = ‖(WithLp.toLp 2 (vec Mlr0) : EuclideanSpace ℝ (Fin N))‖ := vecNorm_toLp _
  have l2 : vecNorm (b - A *ᵥ vec x0 - vec Mlr0) =
      ‖(WithLp.toLp 2 b : EuclideanSpace ℝ (Fin N)) - Matrix.toEuclideanCLM (n := Fin N) (𝕜 := ℝ) A (WithLp.toLp 2 (vec x0)) - WithLp.toLp 2 (vec Mlr0)‖ := by
    rw [vecNorm_toLp, WithLp.toLp_sub, WithLp.toLp_sub, Matrix.toEuclideanCLM_toLp]
  have h8y := h8 _ (abs_nonneg (num (st.s.y st.s.arn.iter)))
  simp only [Real.norm_eq_abs] at hres hopt
  rw [l2, l0]
  constructor
  · have l1 : vecNorm (b - A *ᵥ vec x) = ‖(WithLp.toLp 2 b : EuclideanSpace ℝ (Fin N)) - Matrix.toEuclideanCLM (n := Fin N) (𝕜 := ℝ) A (WithLp.toLp 2 (vec x))‖ := by
      rw [vecNorm_toLp, WithLp.toLp_sub, Matrix.toEuclideanCLM_toLp]
    have l3 : vecNorm (vec x0 + vec (flGmresYk o st.s a)) = ‖(WithLp.toLp 2 (vec x0) + WithLp.toLp 2 (vec (flGmresYk o st.s a)) : EuclideanSpace ℝ (Fin N))‖ := by
      rw [vecNorm_toLp, WithLp.toLp_add]
    have l4 := mul_le_mul_of_nonneg_right (norm_le_frob A)
      (mul_nonneg c0 (norm_nonneg (WithLp.toLp 2 (vec x0) + WithLp.toLp 2 (vec (flGmresYk o st.s a)) : EuclideanSpace ℝ (Fin N))))
    have s1 := smallErr_double (s := st.s) (num := num) (w := fun j => |num (a j)|) c0 le_rfl hd0 hd1 he0 he nB (norm_le_frob A) flDouble_nonneg.rot_nonneg hrg htri hβ nv
      (fun _ => abs_nonneg _) hn (inv.size hf)
    have s2 := basisErr_double (s := st.s.arn) (num := num) (w := fun j => |num (a j)|) (ortho := .dmgs) c0 le_rfl hd0 hd1 he0 he nB (norm_le_frob A) g1000
      (hg1000.trans (by norm_num)) nv (fun _ => abs_nonneg _) h0 hn
    have hFS : 0 ≤ frob A * ∑ j ∈ Finset.range st.s.arn.iter, |num (a j)| := mul_nonneg hF (Finset.sum_nonneg fun _ _ => abs_nonneg _)
    rw [l1, l3]
    refine hres.trans ?_
    linarith
  · intro z
    have hz := hopt z
    have l1 : vecNorm (b - A *ᵥ (vec x0 + ∑ j ∈ Finset.range st.s.arn.iter, z j • vec (st.s.arn.V j))) =
        ‖(WithLp.toLp 2 b : EuclideanSpace ℝ (Fin N)) - Matrix.toEuclideanCLM (n := Fin N) (𝕜 := ℝ) A
          (WithLp.toLp 2 (vec x0) + ∑ j ∈ Finset.range st.s.arn.iter, z j • (WithLp.toLp 2 (vec (st.s.arn.V j)) : EuclideanSpace ℝ (Fin N)))‖ := by
      have e1 : (WithLp.toLp 2 (vec x0) + ∑ j ∈ Finset.range st.s.arn.iter, z j • (WithLp.toLp 2 (vec (st.s.arn.V j)) : EuclideanSpace ℝ (Fin N))) =
          WithLp.toLp 2 (vec x0 + ∑ j ∈ Finset.range st.s.arn.iter, z j • vec (st.s.arn.V j)) := by
        rw [WithLp.toLp_add, WithLp.toLp_sum]
        rfl
      rw [e1, vecNorm_toLp, WithLp.toLp_sub, Matrix.toEuclideanCLM_toLp]
    have s1 := smallErr_double (s := st.s) (num := num) (w := fun j => |z j|) (t := 0) c0 le_rfl hd0 hd1 he0 he nB (norm_le_frob A) flDouble_nonneg.rot_nonneg hrg (by norm_num)
      hβ nv (fun _ => abs_nonneg _) hn (inv.size hf)
    have s2 := basisErr_double (s := st.s.arn) (num := num) (w := fun j => |z j|) (ortho := .dmgs) c0 le_rfl hd0 hd1 he0 he nB (norm_le_frob A) le_rfl
      (by norm_num) nv (fun _ => abs_nonneg _) h0 hn
    have hFS : 0 ≤ frob A * ∑ j ∈ Finset.range st.s.arn.iter, |z j| := mul_nonneg hF (Finset.sum_nonneg fun _ _ => abs_nonneg _)
    rw [l1]
    linarith

end

/-! ## A concrete case -/

/-- The arithmetic `errArn` (`A = 1 + i`, scalings have a relative error of `t`) with exact rotations; back substitution and linear combinations are given for at most one
unknown. -/
noncomputable def errGmres (t : ℝ) : FlGmresOps ℝ ℝ (Option ℂ) (ℝ × ℝ) where
  toFlArnOps := errArn t
  rotg := roundGmres.rotg
  apply := roundGmres.apply
  absK a := |a|
  solve := roundGmres.solve
  comb k V a := if k = 1 then (errArn t).scale (a 0) (V 0) else if k = 0 then some 0 else none
  Mr := id
  add x y := x.bind fun a => y.map fun b => a + b

theorem errGmres_rotation (t : ℝ) : FlRotation (𝕜 := ℝ) (errGmres t) id (fun _ => True) (fun q => rotLin (nearRot 0 q)) 0 where
  iso := roundGmres_rotation.iso
  apply hq h1 h2 := roundGmres_rotation.apply (by obtain ⟨a, b, rfl, -⟩ := hq; exact ⟨a, b, rfl, trivial, trivial⟩) h1 h2
  rotg h1 h2 := roundGmres_rotation.rotg h1 h2

theorem errGmres_solve {t : ℝ} (ht : 0 ≤ t) (m : ℕ) : FlSolve (𝕜 := ℝ) (errGmres t) (fun x => x.getD 0) (fun x => x.isSome = true) id (fun _ => True) m 0 t where
  solve {k R y a} _ h h1 h2 h3 i hi := by
    have hk : k ≤ 1 := by
      change roundGmres.solve k R y = .ok a at h
      simp only [roundGmres] at h
      split_ifs at h with hk
      exact hk.1.le
    exact roundGmres_solve.solve hk h h1 h2 h3 i hi
  comb {k V a} hk h := by
    refine ⟨fun _ _ => trivial, ?_⟩
    simp only [errGmres] at h ⊢
    split_ifs at h ⊢ with h1 h0
    · subst h1
      have := ((errArn_vec ht).scale h).2.2
      simpa [mul_assoc] using this
    · subst h0
      simp
    · simp at h

attribute [local instance] zeroOptC

/-- A call with one iteration and errors of `1e-6`. -/
theorem errGmres_call : ∃ st x, ((2 : ℕ) : ℝ) ^ 3 * orthoErr (1 / 10 ^ 6) 0 * 2 ≤ 1 / 1000 ∧
    (flGmres (⟨0, 1, false, 1, fun x => .ok ‖1 - (1 + Complex.I) * x.getD 0‖, none⟩ : Cfg ℝ (Option ℂ)) (errGmres (1 / 10 ^ 6)) .dmgs (1, 0) .ok (some 0) (some 1) (some 1) 1 =
      .returned st ∨
    flGmres (⟨0, 1, false, 1, fun x => .ok ‖1 - (1 + Complex.I) * x.getD 0‖, none⟩ : Cfg ℝ (Option ℂ)) (errGmres (1 / 10 ^ 6)) .dmgs (1, 0) .ok (some 0) (some 1) (some 1) 1 =
      .convergence st) ∧
    FlArnFin (fun x => x.isSome = true) (fun _ => True) (fun _ => True) st.s.arn ∧ FlGmresFin (fun _ => True) st.s ∧ st.s.arn.iter = 1 ∧ st.s.arn.invariant = false ∧
    (∀ n, n + 1 < st.s.arn.iter ∨ (n + 1 = st.s.arn.iter ∧ st.s.arn.invariant = false) →
      ‖((errGmres (1 / 10 ^ 6)).A (st.s.arn.V n)).getD 0‖ ≤ 2 * st.s.arn.H (n + 1) n) ∧ st.xk = some x ∧ x.isSome = true := by
  set t : ℝ := 1 / 10 ^ 6 with ht
  obtain ⟨w, h, hn1, hh0, hadv⟩ := errArn_advance t
  have hinit : flArnInit (errGmres t).toFlArnOps (some 1) (some (some 1)) (some 1) = .ok errArn0 := (errArn_init t _).2
  obtain ⟨s1, r, hstep, ha, hR, hx0⟩ : ∃ s1 r, flGmresStep (errGmres t) .dmgs 1 (flGmresInit (errGmres t) (1, 0) errArn0 1 (some 0)) = .ok (s1, r) ∧
      s1.arn = ⟨1, Function.update errArn0.V 1 (some ((‖w‖⁻¹ : ℝ) • w)), Function.update errArn0.P 1 (some ((‖w‖⁻¹ : ℝ) • w)),
        fun i j => if j = 0 then Function.update h 1 ‖w‖ i else 0, false, 1⟩ ∧ s1.R 0 0 ≠ 0 ∧ s1.x0 = some 0 := by
    have hadv' : flArnAdvance (errGmres t).toFlArnOps .dmgs 1 (flGmresInit (errGmres t) (1, 0) errArn0 1 (some 0)).arn = _ := hadv
    unfold flGmresStep
    dsimp only
    rw [hadv']
    refine ⟨_, _, rfl, rfl, ?_, rfl⟩
    have hp : (0 : ℝ) < h 0 ^ 2 + ‖w‖ ^ 2 := by positivity
    have hq := Real.sqrt_pos.mpr hp
    have hw : ‖w‖ ≠ 0 := by linarith
    have hw' : w ≠ 0 := norm_ne_zero_iff.mp hw
    simp [flGmresInit, errArn0, flRots, flRot, errGmres, roundGmres, hw']
    have : h 0 / √(h 0 ^ 2 + ‖w‖ ^ 2) * h 0 + ‖w‖ / √(h 0 ^ 2 + ‖w‖ ^ 2) * ‖w‖ = (h 0 ^ 2 + ‖w‖ ^ 2) / √(h 0 ^ 2 + ‖w‖ ^ 2) := by ring
    rw [this]
    positivity
  have h1 : s1.arn.iter = 1 := by rw [ha]
  have hxk : flGmresXk (errGmres t) .ok s1 = .ok ((errGmres t).add s1.x0 ((errGmres t).Mr (flGmresYk (errGmres t) s1 fun _ => s1.y 0 / s1.R 0 0))) := by
    simp only [flGmresXk, h1]
    simp [errGmres, roundGmres, hR]
  obtain ⟨st, hst, hs, hx⟩ := flGmres_one (rn := fun x => ‖1 - (1 + Complex.I) * x.getD 0‖) hinit rfl rfl hstep h1 hxk
  refine ⟨st, _, ?_, hst, ?_, ⟨fun _ _ _ _ => trivial, fun _ _ => trivial⟩, by rw [hs, h1], by rw [hs, ha], fun n hn => ?_, hx, ?_⟩
  · unfold orthoErr orthoGrow
    rw [ht]
    norm_num
  · rw [hs, ha]
    refine ⟨trivial, fun j hj => ?_, fun _ _ _ _ => trivial⟩
    have : j = 0 ∨ j = 1 := by dsimp only at hj; omega
    rcases this with rfl | rfl <;> simp [errArn0]
  · rw [hs, ha] at hn ⊢
    have : n = 0 := by dsimp only at hn; omega
    subst this
    have h3 : ‖(1 + Complex.I : ℂ)‖ ≤ 2 := (norm_add_le _ _).trans (by simp; norm_num)
    simp [errArn0, errGmres, errArn]
    linarith
  · rw [hx0, flGmresYk, ha]
    simp [errGmres, errArn, errArn0]

/-- `C91_solution` (and thus `C91_basis`, `C91_residual`, `C91_optimal`, `C91_close`) can be applied to this call; there are no errors of the small system. -/
example : ∃ (s : FlGmresSt ℝ ℝ (Option ℂ) (ℝ × ℝ)) (x : ℂ) (a : ℕ → ℝ), s.arn.iter = 1 ∧ ‖‖1 - (1 + Complex.I) * x‖ - ‖s.y 1‖‖ ≤
    32 * orthoErr (1 / 10 ^ 6) 0 * ‖s.y 1‖ + basisErr (1 / 10 ^ 6) 0 0 (1 / 10 ^ 6) ‖ContinuousLinearMap.mul ℝ ℂ (1 + Complex.I)‖ .dmgs (id : ℝ → ℝ) 1 s.arn 1 (fun j => ‖a j‖) +
      ‖ContinuousLinearMap.mul ℝ ℂ (1 + Complex.I)‖ * (1 / 10 ^ 6 * ‖(flGmresYk (errGmres (1 / 10 ^ 6)) s a).getD 0‖) := by
  obtain ⟨st, x, hT, h, hf, hf', hn, hi, hH, hx, hfx⟩ := errGmres_call
  have ht : (0 : ℝ) ≤ 1 / 10 ^ 6 := by norm_num
  obtain ⟨a, -, -, h1, -⟩ := C91_solution (cfg := (⟨0, 1, false, 1, fun x => .ok ‖1 - (1 + Complex.I) * x.getD 0‖, none⟩ : Cfg ℝ (Option ℂ)))
    (errArn_vec ht) (errArn_ip _) (errGmres_rotation _) (errGmres_solve ht 2) (fun {x y} h => by
      cases x <;> cases y <;> simp [errGmres] at h ⊢) (fun _ => rfl) ht le_rfl le_rfl le_rfl le_rfl ht rfl (by norm_num : (1 : ℝ) ≤ 2) hT (by simp) (by simp) h hf hf' (.inl (by omega)) hH hn Nat.one_pos hx hfx 1
  have h2 : smallErr (K := ℝ) 0 0 (id (1 : ℝ)) (id : ℝ → ℝ) st.s 1 (fun j => ‖id (a j)‖) = 0 := by simp [smallErr, gmresRot, rotErr]
  rw [h2] at h1
  refine ⟨st.s, x.getD 0, a, hn, ?_⟩
  rw [Real.norm_eq_abs]
  refine (le_of_eq ?_).trans (h1.trans (le_of_eq ?_))
  · rfl
  · simp
    norm_num

/-! ### The same with the rounding errors of double precision -/

section
open Matrix
attribute [local instance] zeroOptR

/-- `C91_double` can be applied to a call with one iteration, a matrix of order two and relative errors of `2⁻⁵³`. -/
example : ∃ (s : FlGmresSt ℝ ℝ (Option (Fin 2 → ℝ)) (ℝ × ℝ)) (x : Fin 2 → ℝ) (a : ℕ → ℝ), s.arn.iter = 1 ∧ s.arn.invariant = false ∧
    abs (vecNorm (![1, 0] - !![1, 0; 1, 1] *ᵥ x) - |s.y 1|) ≤ 8 / 10 ^ 9 * |s.y 1| + 5 / 10 ^ 12 * vecNorm (![1, 0] : Fin 2 → ℝ) +
      1.1 / 10 ^ 9 * (frob (!![1, 0; 1, 1] : Matrix (Fin 2) (Fin 2) ℝ) * |a 0|) +
      frob (!![1, 0; 1, 1] : Matrix (Fin 2) (Fin 2) ℝ) * (2⁻¹ ^ 53 * vecNorm ((flGmresYk (doubleGmres !![1, 0; 1, 1]) s a).getD 0)) := by
  set o := doubleGmres (N := 2) !![1, 0; 1, 1] with ho
  set a0 : FlArn ℝ ℝ (Option (Fin 2 → ℝ)) := ⟨0, Function.update 0 0 (some ![1, 0]), Function.update 0 0 (some ![1, 0]), fun _ _ => 0, false, 1⟩ with ha0
  have hinit : flArnInit o.toFlArnOps (some ![1, 0]) (some (some ![1, 0])) (some 1) = .ok a0 := by
    unfold flArnInit flStartV flStartNorm
    simp [ho, ha0, doubleGmres, roundArn]
  set w₀ : Fin 2 → ℝ := ![1, 1] - (1 + 2⁻¹ ^ 53 : ℝ) • ![1, 0] with hw₀
  set w : Fin 2 → ℝ := w₀ - ((1 + 2⁻¹ ^ 53 : ℝ) * w₀ 0) • ![1, 0] with hw
  have hw1 : w 1 = 1 := by simp [hw, hw₀]
  have hwp : 1 ≤ w ⬝ᵥ w := by
    rw [dotProduct, Fin.sum_univ_two, hw1]
    nlinarith [mul_self_nonneg (w 0)]
  set nw := √|w ⬝ᵥ w| with hnw
  have hn : 1 ≤ nw := by
    rw [hnw, Real.one_le_sqrt, abs_of_nonneg (by linarith)]
    exact hwp
  set h0 : ℝ := 1 + w₀ 0 with hh0
  obtain ⟨a1, hadv, e1, e2, e3, e4, e5, e6⟩ : ∃ a1, flArnAdvance o.toFlArnOps .dmgs 1 a0 = .ok a1 ∧ a1.iter = 1 ∧ (∀ j ≤ 1, (a1.V j).isSome = true) ∧ a1.H 0 0 = h0 ∧
      a1.H 1 0 = nw ∧ a1.invariant = false ∧ a1.V 0 = some ![1, 0] := by
    have hfold : (flOrthoList .dmgs 0).foldl (flOrthoStep o.toFlArnOps .dmgs (Function.update 0 0 (some ![1, 0])) (Function.update 0 0 (some ![1, 0])))
        (flOrthoStart o.toFlArnOps .dmgs a0) = (some w, Function.update (fun _ => (0 : ℝ)) 0 h0) := by
      have hl : flOrthoList .dmgs 0 = [0, 0] := by decide
      rw [hl, List.foldl_cons, List.foldl_cons, List.foldl_nil]
      have hs : flOrthoStart o.toFlArnOps .dmgs a0 = (some ![1, 1], fun _ => 0) := by
        unfold flOrthoStart
        simp [ho, ha0, doubleGmres]
      have hip : o.ip (some ![1, 0]) (some ![1, 1]) = 1 := by
        simp [ho, doubleGmres]
      have hip' : o.ip (some ![1, 0]) (some w₀) = w₀ 0 := by
        simp [ho, doubleGmres, dotProduct, Fin.sum_univ_two]
      have hs1 : flOrthoStep o.toFlArnOps .dmgs (Function.update 0 0 (some ![1, 0])) (Function.update 0 0 (some ![1, 0])) (some ![1, 1], fun _ => 0) 0 =
          (some w₀, Function.update (fun _ => (0 : ℝ)) 0 1) := by
        unfold flOrthoStep
        simp only [Function.update_self, hip, reduceCtorEq, if_false]
        simp [ho, doubleGmres, hw₀]
      rw [hs, hs1]
      unfold flOrthoStep
      simp only [Function.update_self, hip', reduceCtorEq, if_false]
      simp [ho, doubleGmres, hw, hh0]
    have hnorm : o.norm (some w) none = .ok nw := rfl
    have hn0 : nw ≠ 0 := by linarith
    have hadv : flArnAdvance o.toFlArnOps .dmgs 1 a0 = .ok ⟨1, Function.update (Function.update 0 0 (some ![1, 0])) 1 (some (nw⁻¹ • w)),
        Function.update (Function.update 0 0 (some ![1, 0])) 1 (some (nw⁻¹ • w)),
        fun i j => if j = 0 then Function.update (Function.update (fun _ => (0 : ℝ)) 0 h0) 1 nw i else 0, false, 1⟩ := by
      rw [ha0] at hfold ⊢
      unfold flArnAdvance
      simp only [hfold]
      have hM : o.M = none := rfl
      simp only [hM, Option.map_none, hnorm]
      simp [ho, doubleGmres, hn0]
    refine ⟨_, hadv, rfl, fun j hj => ?_, by simp, by simp, rfl, by simp⟩
    have : j = 0 ∨ j = 1 := by omega
    rcases this with rfl | rfl <;> simp
  obtain ⟨s1, r, hstep, ha, hR, hx0⟩ : ∃ s1 r, flGmresStep o .dmgs 1 (flGmresInit o (1, 0) a0 1 (some 0)) = .ok (s1, r) ∧ s1.arn = a1 ∧ s1.R 0 0 ≠ 0 ∧ s1.x0 = some 0 := by
    have hadv' : flArnAdvance o.toFlArnOps .dmgs 1 (flGmresInit o (1, 0) a0 1 (some 0)).arn = .ok a1 := hadv
    unfold flGmresStep
    dsimp only
    rw [hadv']
    refine ⟨_, _, rfl, rfl, ?_, rfl⟩
    have hp : (0 : ℝ) < h0 ^ 2 + nw ^ 2 := by positivity
    have hq := Real.sqrt_pos.mpr hp
    have hn0 : nw ≠ 0 := by linarith
    simp [flGmresInit, ha0, flRots, flRot, ho, doubleGmres, roundGmres, e3, e4, hn0]
    have : h0 / √(h0 ^ 2 + nw ^ 2) * h0 + nw / √(h0 ^ 2 + nw ^ 2) * nw = (h0 ^ 2 + nw ^ 2) / √(h0 ^ 2 + nw ^ 2) := by ring
    rw [this]
    positivity
  have h1 : s1.arn.iter = 1 := by rw [ha, e1]
  have hxk : flGmresXk o .ok s1 = .ok (o.add s1.x0 (o.Mr (flGmresYk o s1 fun _ => s1.y 0 / s1.R 0 0))) := by
    simp only [flGmresXk, h1]
    simp [ho, doubleGmres, hR]
  obtain ⟨st, hst, hs, hx⟩ := flGmres_one (rn := fun x => vecNorm (![1, 0] - !![1, 0; 1, 1] *ᵥ x.getD 0)) hinit rfl rfl hstep h1 hxk
  have hi1 : st.s.arn.iter = 1 := by rw [hs, h1]
  have hii : st.s.arn.invariant = false := by rw [hs, ha, e5]
  have hf : FlArnFin (fun x => x.isSome = true) (fun _ => True) (fun _ => True) st.s.arn := by
    rw [hs, ha]
    refine ⟨trivial, fun j hj => e2 j ?_, fun _ _ _ _ => trivial⟩
    rw [e1] at hj
    omega
  obtain ⟨a, -, -, hres, -⟩ := C91_double (by norm_num) (by norm_num) (doubleGmres_comp !![1, 0; 1, 1]) rfl (fun _ => rfl) (κ := 2) (by norm_num) (m := 2) (by norm_num)
    (fun _ => ⟨1, by
      have := FlDot.exact (𝕜 := ℝ) flDouble_nonneg (star ![1, 0]) ![1, 0]
      simpa [dotProduct, Fin.sum_univ_two] using this, by simpa using flDouble_nonneg.w⟩) (by simp) hst hf ⟨fun _ _ _ _ => trivial, fun _ _ => trivial⟩
    (.inl (by omega)) (fun n hn' => by
      obtain rfl : n = 0 := by omega
      rw [hs, ha, e6]
      have hA : ((doubleGmres (N := 2) !![1, 0; 1, 1]).A (some ![1, 0])).getD 0 = ![1, 1] := by simp [doubleGmres]
      rw [hA, id, e4]
      have hv : vecNorm (![1, 1] : Fin 2 → ℝ) ≤ 2 := by
        unfold vecNorm
        rw [Real.sqrt_le_left (by norm_num)]
        simp [Fin.sum_univ_two]
        norm_num
      linarith) (by omega) hx (by
      rw [hx0, flGmresYk]
      simp [ho, doubleGmres]) ![1, 0]
  rw [hi1] at hres
  simp only [id] at hres
  refine ⟨st.s, _, a, hi1, hii, hres.trans (le_of_eq ?_)⟩
  have z3 : (some (0 : Fin 2 → ℝ)).getD 0 + (flGmresYk o st.s a).getD 0 = (flGmresYk o st.s a).getD 0 := by simp
  have z4 : dmgsCut (id : ℝ → ℝ) st.s.arn (fun j => |a j|) = 0 := by simp [dmgsCut, hii]
  rw [z3]
  simp only [z4, Finset.sum_range_one, Option.getD_some, add_zero, mul_zero]
  norm_num
  simp [vecNorm]

end

end Krypy
