import Verif.Proofs.MinresErr
import Verif.Props.FlArnoldi

/-!
# The Lanczos relation with rounding errors

C79 for `ortho='lanczos'`, `M=None` and the Euclidean inner product: the columns of `H` are tridiagonal and real, the basis vectors are normalised up to rounding errors, and
`A V_n = V_{n+1} H_n` holds up to errors in every column.  The bound for column `n` contains the computed subdiagonal entry `H[n, n-1]`.
-/

set_option linter.unusedSectionVars false

namespace Krypy
open MinresErr

section
variable {𝕜 E : Type*} [RCLike 𝕜] [NormedAddCommGroup E] [InnerProductSpace 𝕜 E] {F K X : Type*}
variable {o : FlArnOps F K X} {vec : X → E} {fin : X → Prop} {num : K → 𝕜} {finK : K → Prop} {val : F → ℝ} {finF : F → Prop} {B : E →L[𝕜] E} {u e d : ℝ}

/-- Real parts are exact, and sums of real numbers are real.  (In complex arithmetic `re` excludes inner products of which only the imaginary part overflows.) -/
structure FlRealPart (o : FlArnOps F K X) (num : K → 𝕜) (finK : K → Prop) : Prop where
  re : ∀ {a}, finK (o.re a) → finK a ∧ num (o.re a) = ((RCLike.re (num a) : ℝ) : 𝕜)
  acc : ∀ {a b}, finK (o.acc a b) → num a = ((RCLike.re (num a) : ℝ) : 𝕜) → num b = ((RCLike.re (num b) : ℝ) : 𝕜) →
    num (o.acc a b) = ((RCLike.re (num (o.acc a b)) : ℝ) : 𝕜)

/-- Subtracting the real part of the component along `v` does not make a vector longer if `‖v‖² ≤ 2`. -/
theorem norm_sub_reproj_le {v w : E} (hv : ‖v‖ ^ 2 ≤ 2) : ‖w - ((RCLike.re (inner 𝕜 v w) : ℝ) : 𝕜) • v‖ ≤ ‖w‖ := by
  set a : ℝ := RCLike.re (inner 𝕜 v w) with ha
  have h : ‖w - (a : 𝕜) • v‖ ^ 2 = ‖w‖ ^ 2 - 2 * a ^ 2 + a ^ 2 * ‖v‖ ^ 2 := by
    rw [@norm_sub_sq 𝕜, norm_smul, mul_pow, inner_smul_right, RCLike.norm_ofReal, sq_abs, RCLike.re_ofReal_mul, inner_re_symm, ← ha]
    ring
  refine le_of_sq_le_sq ?_ (norm_nonneg _)
  rw [h]
  nlinarith [sq_nonneg a]

/-- Bound for the vectors of one step of the Lanczos recurrence before the component along `v_n` is subtracted; `h` is the size of `H[n, n-1]`. -/
noncomputable def lanStart (u e nB h : ℝ) : ℝ := (1 + u) * (√2 * (nB + e) + (1 + u) * (√2 * h))

/-- Bound for all vectors of one step of the Lanczos recurrence. -/
noncomputable def lanW (u e d nB h : ℝ) : ℝ := orthoGrow u d * lanStart u e nB h

/-- Bound for the error of a column. -/
noncomputable def lanBound (u e d nB h : ℝ) : ℝ :=
  e * √2 + 3 * u * lanW u e d nB h / (1 - u) ^ 2 + (3 * u * lanW u e d nB h / (1 - u) ^ 2 + u * (2 * (1 + u) * (1 + d) * lanW u e d nB h) / (1 - u)) + u * lanW u e d nB h

/-- The size of `H[n, n-1]`. -/
noncomputable def lanSub (num : K → 𝕜) (s : FlArn F K X) (n : ℕ) : ℝ := if n = 0 then 0 else ‖num (s.H n (n - 1))‖

theorem lanSub_nonneg (num : K → 𝕜) (s : FlArn F K X) (n : ℕ) : 0 ≤ lanSub num s n := by
  unfold lanSub
  split_ifs <;> simp

/-- The basis: the vectors computed so far, and zero for the one which is missing if the Krylov subspace was flagged as invariant. -/
def lanBasis (vec : X → E) (s : FlArn F K X) (i : ℕ) : E := if i = s.iter ∧ s.invariant = true then 0 else vec (s.V i)

/-- Column `n` of `H` (for `n = 0` the first number has no meaning). -/
noncomputable def lanT (num : K → 𝕜) (s : FlArn F K X) (n : ℕ) : ℝ × ℝ × ℝ := (RCLike.re (num (s.H (n - 1) n)), RCLike.re (num (s.H n n)), RCLike.re (num (s.H (n + 1) n)))

/-- What holds after every step of the Lanczos iteration. -/
structure FlLanInv (vec : X → E) (fin : X → Prop) (num : K → 𝕜) (finK : K → Prop) (finF : F → Prop) (o : FlArnOps F K X) (B : E →L[𝕜] E) (u e d : ℝ) (v : X)
    (s : FlArn F K X) : Prop where
  P : s.P = s.V
  first : 0 < s.iter ∨ s.invariant = false → s.V 0 = o.sdiv v s.vnorm
  zero : ∀ n, s.iter ≤ n → ∀ j, s.H j n = o.zero
  band : ∀ n j, j + 1 < n → s.H j n = o.zero
  sub : ∀ n < s.iter, ∃ r, s.H (n + 1) n = o.ofReal r
  unit : FlArnFin fin finK finF s → ∀ j, j < s.iter ∨ (j = s.iter ∧ s.invariant = false) → NearUnit u d (vec (s.V j))
  real : FlArnFin fin finK finF s → ∀ n < s.iter, ∀ j ≤ n + 1, num (s.H j n) = ((RCLike.re (num (s.H j n)) : ℝ) : 𝕜)
  rel : FlArnFin fin finK finF s → ∀ n < s.iter,
    ‖B (vec (s.V n)) - tri 𝕜 (lanBasis vec s) n (lanT num s n).1 (lanT num s n).2.1 (lanT num s n).2.2‖ ≤
      lanBound u e d ‖B‖ (lanSub num s n) + if n + 1 = s.iter ∧ s.invariant = true then ‖num (s.H (n + 1) n)‖ / (1 - d) else 0

theorem flOrthoList_lanczos (k : ℕ) : flOrthoList .lanczos k = [k] := by
  unfold flOrthoList
  simp [Ortho.reorthos]

/-- One step with the real part of the inner product. -/
theorem lan_grow (hv : FlArnVec o vec fin num finK val finF B u e) (hi : FlArnIp o vec fin num finK val finF d) (hre : FlRealPart o num finK) (hu0 : 0 ≤ u) (hd0 : 0 ≤ d)
    {x y : X} (hf : fin (o.sub x (o.scale (o.re (o.ip y x)) y))) (hn : ‖vec y‖ ^ 2 ≤ 2) :
    ‖vec (o.sub x (o.scale (o.re (o.ip y x)) y))‖ ≤ orthoGrow u d * ‖vec x‖ ∧ ‖num (o.re (o.ip y x))‖ * ‖vec y‖ ≤ 2 * (1 + d) * ‖vec x‖ := by
  obtain ⟨-, f2, b1⟩ := hv.sub hf
  obtain ⟨f3, -, b2⟩ := hv.scale f2
  obtain ⟨f4, hr⟩ := hre.re f3
  have hip := hi.ip f4
  have ha0 := alpha_bound hi f4 hn hd0
  have ha : ‖num (o.re (o.ip y x))‖ * ‖vec y‖ ≤ 2 * (1 + d) * ‖vec x‖ := by
    refine le_trans (mul_le_mul_of_nonneg_right ?_ (norm_nonneg _)) ha0
    rw [hr, RCLike.norm_ofReal]
    exact RCLike.abs_re_le_norm _
  refine ⟨?_, ha⟩
  have hp := norm_sub_reproj_le (𝕜 := 𝕜) (w := vec x) hn
  set w := vec x
  set v := vec y
  set a := num (o.re (o.ip y x))
  set t := vec (o.scale (o.re (o.ip y x)) y)
  set a' : 𝕜 := ((RCLike.re (inner 𝕜 v w) : ℝ) : 𝕜)
  have hd' : ‖a - a'‖ ≤ d * (‖v‖ * ‖w‖) := by
    have : a - a' = ((RCLike.re (num (o.ip y x) - inner 𝕜 v w) : ℝ) : 𝕜) := by
      rw [map_sub, RCLike.ofReal_sub]
      exact congrArg (· - a') hr
    rw [this, RCLike.norm_ofReal]
    exact (RCLike.abs_re_le_norm _).trans hip
  have e1 : ‖(a - a') • v‖ ≤ 2 * d * ‖w‖ := by
    rw [norm_smul]
    have h1 := mul_le_mul_of_nonneg_right hd' (norm_nonneg v)
    have h2 : d * (‖v‖ * ‖w‖) * ‖v‖ = d * ‖w‖ * ‖v‖ ^ 2 := by ring
    rw [h2] at h1
    have h3 := mul_le_mul_of_nonneg_left hn (show 0 ≤ d * ‖w‖ by positivity)
    linarith
  have e2 : ‖t - a • v‖ ≤ 2 * u * (1 + d) * ‖w‖ := by
    refine b2.trans ?_
    rw [norm_smul]
    have := mul_le_mul_of_nonneg_left ha hu0
    linarith
  have e3 : ‖w - t‖ ≤ (1 + 2 * d + 2 * u * (1 + d)) * ‖w‖ := by
    have key : w - t = (w - a' • v) - (a - a') • v - (t - a • v) := by module
    rw [key]
    have h1 := norm_sub_le ((w - a' • v) - (a - a') • v) (t - a • v)
    have h2 := norm_sub_le (w - a' • v) ((a - a') • v)
    linarith
  have h1 := norm_le_norm_add_norm_sub' (vec (o.sub x (o.scale (o.re (o.ip y x)) y))) (w - t)
  have h2 : (1 + u) * ‖w - t‖ ≤ (1 + u) * ((1 + 2 * d + 2 * u * (1 + d)) * ‖w‖) := mul_le_mul_of_nonneg_left e3 (by linarith)
  unfold orthoGrow
  rw [mul_assoc]
  linarith

/-- The start of a Lanczos step. -/
theorem lan_start (hv : FlArnVec o vec fin num finK val finF B u e) (hu0 : 0 ≤ u) (he0 : 0 ≤ e) {s : FlArn F K X} (hP : s.P = s.V)
    (hf : fin (flOrthoStart o .lanczos s).1) (hn : ∀ j ≤ s.iter, ‖vec (s.V j)‖ ≤ √2) :
    ‖vec (o.A (s.V s.iter))‖ ≤ lanStart u e ‖B‖ (lanSub num s s.iter) ∧ ‖vec (flOrthoStart o .lanczos s).1‖ ≤ lanStart u e ‖B‖ (lanSub num s s.iter) := by
  have hA : fin (o.A (s.V s.iter)) → ‖vec (o.A (s.V s.iter))‖ ≤ √2 * (‖B‖ + e) := by
    intro hfA
    have h1 := norm_le_norm_add_norm_sub' (vec (o.A (s.V s.iter))) (B (vec (s.V s.iter)))
    have h2 := (hv.A hfA).2
    have h3 := B.le_opNorm (vec (s.V s.iter))
    have h4 : (‖B‖ + e) * ‖vec (s.V s.iter)‖ ≤ (‖B‖ + e) * √2 := mul_le_mul_of_nonneg_left (hn _ le_rfl) (by positivity)
    linarith
  have hh := lanSub_nonneg num s s.iter
  have h0 : 0 ≤ √2 * (‖B‖ + e) := by positivity
  have h1 : 0 ≤ (1 + u) * (√2 * lanSub num s s.iter) := by positivity
  have hle : √2 * (‖B‖ + e) ≤ lanStart u e ‖B‖ (lanSub num s s.iter) := by
    unfold lanStart
    nlinarith
  unfold flOrthoStart at hf ⊢
  by_cases hk : 0 < s.iter
  · simp only [hk, and_self, if_true] at hf ⊢
    obtain ⟨f1, f2, b1⟩ := hv.sub hf
    obtain ⟨f3, -, b2⟩ := hv.scale f2
    refine ⟨(hA f1).trans hle, ?_⟩
    have hs : lanSub num s s.iter = ‖num (s.H s.iter (s.iter - 1))‖ := by
      unfold lanSub
      rw [if_neg hk.ne']
    rw [hP] at b1 b2 ⊢
    have hsc : ‖vec (o.scale (s.H s.iter (s.iter - 1)) (s.V (s.iter - 1)))‖ ≤ (1 + u) * (√2 * lanSub num s s.iter) := by
      have h2 := norm_le_norm_add_norm_sub' (vec (o.scale (s.H s.iter (s.iter - 1)) (s.V (s.iter - 1)))) (num (s.H s.iter (s.iter - 1)) • vec (s.V (s.iter - 1)))
      have h3 : ‖num (s.H s.iter (s.iter - 1)) • vec (s.V (s.iter - 1))‖ ≤ √2 * lanSub num s s.iter := by
        rw [norm_smul, hs, mul_comm]
        exact mul_le_mul_of_nonneg_right (hn _ (by omega)) (norm_nonneg _)
      nlinarith
    have h4 := norm_le_norm_add_norm_sub' (vec (o.sub (o.A (s.V s.iter)) (o.scale (s.H s.iter (s.iter - 1)) (s.V (s.iter - 1)))))
      (vec (o.A (s.V s.iter)) - vec (o.scale (s.H s.iter (s.iter - 1)) (s.V (s.iter - 1))))
    have h5 := norm_sub_le (vec (o.A (s.V s.iter))) (vec (o.scale (s.H s.iter (s.iter - 1)) (s.V (s.iter - 1))))
    have h6 := hA f1
    unfold lanStart
    nlinarith
  · simp only [hk, and_false, if_false] at hf ⊢
    exact ⟨(hA hf).trans hle, (hA hf).trans hle⟩

theorem FlLanInv.step (hv : FlArnVec o vec fin num finK val finF B u e) (hi : FlArnIp o vec fin num finK val finF d) (hre : FlRealPart o num finK) (hu0 : 0 ≤ u) (hu : u < 1)
    (hd0 : 0 ≤ d) (hd : d < 1) (he0 : 0 ≤ e) (hud : (1 + u) ^ 2 ≤ 2 * (1 - d) ^ 2) (hM : o.M = none) {maxiter : ℕ} {s s' : FlArn F K X} {v : X}
    (h : flArnAdvance o .lanczos maxiter s = .ok s') (hs : FlLanInv vec fin num finK finF o B u e d v s) : FlLanInv vec fin num finK finF o B u e d v s' := by
  obtain ⟨hinv, hiter, hvn, w, hh, r, hfold, hnorm, hH, hVP⟩ := flArnAdvance_cases h
  rw [hM, Option.map_none, Option.getD_none] at hVP
  have hVlt : ∀ j ≤ s.iter, s'.V j = s.V j := by
    intro j hj
    rcases hVP with ⟨-, h1, -⟩ | ⟨-, h1, -⟩
    · rw [h1]
    · rw [h1, Function.update_of_ne (by omega)]
  have hP' : s'.P = s'.V := by
    rcases hVP with ⟨-, h1, h2⟩ | ⟨-, h1, h2⟩ <;> rw [h1, h2, hs.P]
  have hHlt : ∀ n, n ≠ s.iter → ∀ j, s'.H j n = s.H j n := by
    intro n hn j
    rw [hH]
    simp [hn]
  have hfin : FlArnFin fin finK finF s' → FlArnFin fin finK finF s := by
    intro hf
    refine ⟨hvn ▸ hf.vnorm, fun j hj => ?_, fun n hn j hj => ?_⟩
    · rw [← hVlt j (by omega)]
      exact hf.V j (.inl (by omega))
    · rw [← hHlt n (by omega)]
      exact hf.H n (by omega) j hj
  have hlast : s'.H (s.iter + 1) s.iter = o.ofReal r := by
    rw [hH]
    simp
  have hcol : ∀ j ≤ s.iter, s'.H j s.iter = hh j := by
    intro j hj
    rw [hH]
    simp only [if_true]
    rw [Function.update_of_ne (by omega)]
  -- the fold has one step
  set st0 := flOrthoStart o .lanczos s with hst0
  have hstep : flOrthoStep o .lanczos s.V s.P st0 s.iter = (w, hh) := by
    rw [flOrthoList_lanczos] at hfold
    exact hfold
  have hst : flOrthoStep o .lanczos s.V s.P st0 s.iter = (o.sub st0.1 (o.scale (o.re (o.ip (s.V s.iter) st0.1)) (s.V s.iter)),
      Function.update st0.2 s.iter (o.acc (st0.2 s.iter) (o.re (o.ip (s.V s.iter) st0.1)))) := by
    unfold flOrthoStep
    simp [hs.P]
  have hw : w = o.sub st0.1 (o.scale (o.re (o.ip (s.V s.iter) st0.1)) (s.V s.iter)) := (congrArg Prod.fst (hstep.symm.trans hst))
  have hhe : hh = Function.update st0.2 s.iter (o.acc (st0.2 s.iter) (o.re (o.ip (s.V s.iter) st0.1))) := (congrArg Prod.snd (hstep.symm.trans hst))
  have hst2 : ∀ j, st0.2 j = if 0 < s.iter ∧ j = s.iter - 1 then s.H s.iter (s.iter - 1) else o.zero := by
    intro j
    rw [hst0]
    unfold flOrthoStart
    by_cases hk : 0 < s.iter
    · simp only [hk, and_self, if_true, true_and]
      by_cases hj : j = s.iter - 1
      · subst hj
        rw [Function.update_self, if_pos rfl]
      · rw [Function.update_of_ne hj, if_neg hj, hs.zero _ le_rfl]
    · simp only [hk, and_false, if_false, false_and]
      exact hs.zero _ le_rfl j
  have hdiag0 : st0.2 s.iter = o.zero := by
    rw [hst2, if_neg (by omega)]
  have hdiag : s'.H s.iter s.iter = o.acc o.zero (o.re (o.ip (s.V s.iter) st0.1)) := by
    rw [hcol _ le_rfl, hhe, Function.update_self, hdiag0]
  have hsup : 0 < s.iter → s'.H (s.iter - 1) s.iter = s.H s.iter (s.iter - 1) := by
    intro hk
    rw [hcol _ (by omega), hhe, Function.update_of_ne (by omega), hst2, if_pos ⟨hk, rfl⟩]
  have hzer : ∀ j, j + 1 < s.iter → s'.H j s.iter = o.zero := by
    intro j hj
    rw [hcol _ (by omega), hhe, Function.update_of_ne (by omega), hst2, if_neg (by omega)]
  have facts : FlArnFin fin finK finF s' → finF r ∧ fin w ∧ |val r - ‖vec w‖| ≤ d * ‖vec w‖ := by
    intro hf
    have hrf := (hv.ofReal (hlast ▸ hf.H s.iter (by omega) _ le_rfl)).1
    obtain ⟨h1, h2⟩ := hi.norm hnorm hrf
    exact ⟨hrf, h1, h2 (by rw [hM]; rfl)⟩
  have hunit : FlArnFin fin finK finF s' → ∀ j, j < s'.iter ∨ (j = s'.iter ∧ s'.invariant = false) → NearUnit u d (vec (s'.V j)) := by
    intro hf j hj
    by_cases hjk : j ≤ s.iter
    · rw [hVlt j hjk]
      exact hs.unit (hfin hf) j (by rcases hjk.lt_or_eq with h | h; exacts [.inl h, .inr ⟨h, hinv⟩])
    · have hjk' : j = s.iter + 1 := by omega
      rcases hVP with ⟨h1, -, -⟩ | ⟨-, h1, -⟩
      · rcases hj with hj | ⟨-, hj⟩
        · omega
        · rw [h1] at hj
          cases hj
      · obtain ⟨hrf, hwf, hwn⟩ := facts hf
        have hfv := hf.V j hj
        rw [h1, hjk', Function.update_self] at hfv ⊢
        exact sdiv_nearUnit hv hu0 hu hd0 hd hfv hrf hwn
  have hreal : FlArnFin fin finK finF s' → ∀ n < s'.iter, ∀ j ≤ n + 1, num (s'.H j n) = ((RCLike.re (num (s'.H j n)) : ℝ) : 𝕜) := by
    intro hf n hn j hj
    by_cases hnk : n = s.iter
    · subst hnk
      have hfk := hf.H s.iter (by omega) j hj
      rcases Nat.lt_or_ge (j + 1) s.iter with h1 | h1
      · rw [hzer j h1, hv.zero]
        simp
      · rcases (by omega : (j + 1 = s.iter) ∨ j = s.iter ∨ j = s.iter + 1) with h2 | rfl | rfl
        · have hj' : j = s.iter - 1 := by omega
          subst hj'
          rw [hsup (by omega)]
          exact hs.real (hfin hf) (s.iter - 1) (by omega) s.iter (by omega)
        · rw [hdiag] at hfk ⊢
          obtain ⟨-, fb, -⟩ := hv.acc hfk
          refine hre.acc hfk (by rw [hv.zero]; simp) ?_
          rw [(hre.re fb).2, RCLike.ofReal_re]
        · rw [hlast] at hfk ⊢
          rw [(hv.ofReal hfk).2, RCLike.ofReal_re]
    · rw [hHlt n hnk]
      exact hs.real (hfin hf) n (by omega) j hj
  refine ⟨hP', fun _ => by rw [hVlt 0 (Nat.zero_le _), hvn]; exact hs.first (.inr hinv), fun n hn j => by rw [hHlt n (by omega), hs.zero n (by omega)],
    fun n j hj => ?_, fun n hn => ?_, hunit, hreal, ?_⟩
  · by_cases hnk : n = s.iter
    · subst hnk
      exact hzer j hj
    · rw [hHlt n hnk]
      exact hs.band n j hj
  · by_cases hnk : n = s.iter
    · subst hnk
      exact ⟨r, hlast⟩
    · obtain ⟨r', hr'⟩ := hs.sub n (by omega)
      exact ⟨r', by rw [hHlt n hnk]; exact hr'⟩
  intro hf n hn
  have hbas : ∀ i ≤ s.iter, lanBasis vec s' i = vec (s.V i) := by
    intro i hi
    unfold lanBasis
    rw [if_neg (by omega), hVlt i hi]
  have hbas0 : ∀ i ≤ s.iter, lanBasis vec s i = vec (s.V i) := by
    intro i hi
    unfold lanBasis
    rw [if_neg (by rw [hinv]; simp)]
  have hsub : ∀ n ≤ s.iter, lanSub num s' n = lanSub num s n := by
    intro n hn
    unfold lanSub
    split_ifs with h0
    · rfl
    · rw [hHlt (n - 1) (by omega)]
  by_cases hnk : n = s.iter
  · subst hnk
    obtain ⟨hrf, hwf, hwn⟩ := facts hf
    have hsf := hfin hf
    have hsq : ∀ j ≤ s.iter, ‖vec (s.V j)‖ ^ 2 ≤ 2 := by
      intro j hj
      have := hs.unit hsf j (by rcases hj.lt_or_eq with h | h; exacts [.inl h, .inr ⟨h, hinv⟩])
      exact this.sq hu0 hd hud
    have hs2 : ∀ j ≤ s.iter, ‖vec (s.V j)‖ ≤ √2 := fun j hj => Real.le_sqrt_of_sq_le (hsq j hj)
    rw [hw] at hwf
    have hf0 : fin st0.1 := (hv.sub hwf).1
    obtain ⟨hA, hS⟩ := lan_start hv hu0 he0 hs.P hf0 hs2
    obtain ⟨hG, hα⟩ := lan_grow hv hi hre hu0 hd0 hwf (hsq _ le_rfl)
    have g1 := one_le_orthoGrow hu0 hd0
    set L := lanStart u e ‖B‖ (lanSub num s s.iter) with hL
    have hL0 : 0 ≤ L := (norm_nonneg _).trans hA
    have hLW : L ≤ lanW u e d ‖B‖ (lanSub num s s.iter) := by
      unfold lanW
      nlinarith
    set W := lanW u e d ‖B‖ (lanSub num s s.iter) with hW
    have hW0 : 0 ≤ W := hL0.trans hLW
    have hwW : ‖vec w‖ ≤ W := by
      rw [hw]
      refine hG.trans ?_
      rw [hW]
      unfold lanW
      exact mul_le_mul_of_nonneg_left hS (by linarith)
    have hfk := hf.H s.iter (by omega) s.iter (by omega)
    rw [hdiag] at hfk
    have hDk : ‖num (o.acc o.zero (o.re (o.ip (s.V s.iter) st0.1))) • vec (s.V s.iter)‖ ≤ 2 * (1 + u) * (1 + d) * W := by
      obtain ⟨-, -, b⟩ := hv.acc hfk
      rw [hv.zero, zero_add] at b
      have h1 := norm_le_norm_add_norm_sub' (num (o.acc o.zero (o.re (o.ip (s.V s.iter) st0.1)))) (num (o.re (o.ip (s.V s.iter) st0.1)))
      have h2 : ‖num (o.acc o.zero (o.re (o.ip (s.V s.iter) st0.1)))‖ ≤ (1 + u) * ‖num (o.re (o.ip (s.V s.iter) st0.1))‖ := by linarith
      rw [norm_smul]
      have h3 := mul_le_mul_of_nonneg_right h2 (norm_nonneg (vec (s.V s.iter)))
      have h4 : (1 + u) * (‖num (o.re (o.ip (s.V s.iter) st0.1))‖ * ‖vec (s.V s.iter)‖) ≤ (1 + u) * (2 * (1 + d) * W) := by
        refine mul_le_mul_of_nonneg_left (hα.trans (mul_le_mul_of_nonneg_left (hS.trans hLW) (by linarith))) (by linarith)
      linarith
    have hD0 : 0 ≤ 2 * (1 + u) * (1 + d) * W := by positivity
    have htake : ∀ i ≤ (flOrthoList Ortho.lanczos s.iter).length, ((flOrthoList Ortho.lanczos s.iter).take i).foldl (flOrthoStep o .lanczos s.V s.P) st0 = st0 ∨
        ((flOrthoList Ortho.lanczos s.iter).take i).foldl (flOrthoStep o .lanczos s.V s.P) st0 = (w, hh) := by
      intro i hi
      rw [flOrthoList_lanczos] at hi ⊢
      rcases i with _ | i
      · exact .inl rfl
      · right
        simpa using hstep
    obtain ⟨w', r', -, -, c3, c4, c5, c6⟩ := C79_column hv hu0 hu h (fun j _ => by rw [hs.zero _ le_rfl, hv.zero]) (W := W) (D := 2 * (1 + u) * (1 + d) * W) (hA.trans hLW)
      (fun i hi => by
        rcases htake i hi with h1 | h1 <;> rw [h1]
        · exact hS.trans hLW
        · exact hwW)
      (fun i hi j hj => by
        rw [flOrthoList_lanczos, List.mem_singleton] at hj
        subst hj
        rcases htake i hi with h1 | h1 <;> rw [h1, congrFun hs.P s.iter]
        · rw [hdiag0, hv.zero, zero_smul, norm_zero]
          exact hD0
        · dsimp only
          rw [← hcol _ le_rfl, hdiag]
          exact hDk)
      (fun j hj => hf.H s.iter (by omega) j hj) (fun hn hr => (hi.norm hn hr).1)
      (fun hni => by rw [hP']; exact hf.V _ (.inr ⟨hiter.symm, hni⟩))
    have hlen : ((flOrthoList Ortho.lanczos s.iter).length : ℝ) = 1 := by rw [flOrthoList_lanczos]; simp
    rw [hlen, one_mul] at c5 c6
    have he : e * ‖vec (s.V s.iter)‖ ≤ e * √2 := mul_le_mul_of_nonneg_left (hs2 _ le_rfl) he0
    have huW : 0 ≤ u * W := mul_nonneg hu0 hW0
    have hR : ∀ j ≤ s.iter + 1, num (s'.H j s.iter) = ((RCLike.re (num (s'.H j s.iter)) : ℝ) : 𝕜) := hreal hf s.iter (by omega)
    -- the sum has two terms
    have hsum : ∑ j ∈ Finset.range (s.iter + 1), num (s'.H j s.iter) • vec (s.P j) =
        ((lanT num s' s.iter).1 : 𝕜) • shift1 0 (lanBasis vec s') s.iter + ((lanT num s' s.iter).2.1 : 𝕜) • lanBasis vec s' s.iter := by
      rw [Finset.sum_range_succ, hs.P, hbas _ le_rfl]
      unfold lanT
      dsimp only
      rw [← hR s.iter (by omega)]
      congr 1
      rcases hk : s.iter with _ | m
      · simp [shift1]
      · rw [hk] at hzer hbas hR
        rw [Finset.sum_range_succ, Finset.sum_eq_zero, zero_add]
        · simp only [shift1, Nat.add_sub_cancel]
          rw [← hR m (by omega), hbas m (by omega)]
        · intro j hj
          rw [Finset.mem_range] at hj
          rw [hzer j (by omega), hv.zero, zero_smul]
    rw [hVlt _ le_rfl, hsub _ le_rfl]
    unfold tri
    rcases Bool.eq_false_or_eq_true s'.invariant with hi' | hi'
    · rw [if_pos ⟨hiter.symm, hi'⟩]
      have hb1 : lanBasis vec s' (s.iter + 1) = 0 := by
        unfold lanBasis
        rw [if_pos ⟨hiter.symm, hi'⟩]
      rw [hb1, smul_zero, add_zero, ← hsum]
      obtain ⟨hrf', hrn⟩ := hv.ofReal (c4 ▸ hf.H s.iter (by omega) _ le_rfl)
      have hwn' := (hi.norm c3 hrf').2 (by rw [hM]; rfl)
      rw [abs_le] at hwn'
      have hw' : ‖vec w'‖ ≤ ‖num (s'.H (s.iter + 1) s.iter)‖ / (1 - d) := by
        rw [c4, hrn, RCLike.norm_ofReal, le_div_iff₀ (by linarith)]
        have := le_abs_self (val r')
        linarith
      have := norm_add_le (B (vec (s.V s.iter)) - ∑ j ∈ Finset.range (s.iter + 1), num (s'.H j s.iter) • vec (s.P j) - vec w') (vec w')
      rw [sub_add_cancel] at this
      unfold lanBound
      linarith
    · have hb1 : lanBasis vec s' (s.iter + 1) = vec (s'.V (s.iter + 1)) := by
        unfold lanBasis
        rw [if_neg (by rw [hi']; simp)]
      rw [if_neg (by rw [hi']; simp), add_zero]
      have h7 := (c6 hi').2
      rw [Finset.sum_range_succ] at h7
      have hsum' : ∑ j ∈ Finset.range (s.iter + 1), num (s'.H j s.iter) • vec (s'.P j) = ∑ j ∈ Finset.range (s.iter + 1), num (s'.H j s.iter) • vec (s.P j) := by
        refine Finset.sum_congr rfl fun j hj => ?_
        rw [Finset.mem_range] at hj
        rw [hP', hVlt j (by omega), hs.P]
      rw [hsum', hsum, hP', hR (s.iter + 1) le_rfl, ← hb1] at h7
      refine h7.trans ?_
      unfold lanBound
      linarith
  · have := hs.rel (hfin hf) n (by omega)
    rw [if_neg (by rw [hinv]; simp), add_zero] at this
    rw [if_neg (by omega), add_zero, hVlt n (by omega), hsub n (by omega)]
    have e1 : lanT num s' n = lanT num s n := by
      unfold lanT
      simp only [hHlt n hnk]
    rw [e1]
    have e2 : ∀ t0 t1 t2 : ℝ, tri 𝕜 (lanBasis vec s') n t0 t1 t2 = tri 𝕜 (lanBasis vec s) n t0 t1 t2 := by
      intro t0 t1 t2
      unfold tri
      rw [hbas n (by omega), hbas (n + 1) (by omega), hbas0 n (by omega), hbas0 (n + 1) (by omega)]
      rcases n with _ | m
      · rfl
      · simp only [shift1]
        rw [hbas m (by omega), hbas0 m (by omega)]
    rw [e2]
    exact this

theorem FlLanInv.init [Zero X] (hv : FlArnVec o vec fin num finK val finF B u e) (hi : FlArnIp o vec fin num finK val finF d) (hu0 : 0 ≤ u) (hu : u < 1)
    (hd0 : 0 ≤ d) (hd : d < 1) (hM : o.M = none) {v : X} {Mv : Option X} {MvNorm : Option F}
    (hMv : ∀ r, MvNorm = some r → finF r → |val r - ‖vec v‖| ≤ d * ‖vec v‖) {s : FlArn F K X} (hs : flArnInit o v Mv MvNorm = .ok s) :
    FlLanInv vec fin num finK finF o B u e d v s := by
  have h := FlArnInv.init (B := B) (e := e) (ortho := .lanczos) hv hi hu0 hu hd0 hd hM hMv hs
  have h0 : s.iter = 0 := by
    unfold flArnInit at hs
    dsimp only at hs
    split at hs
    · cases hs
    · split at hs <;> · obtain rfl := Except.ok.inj hs; rfl
  exact ⟨h.P, h.first, h.zero, fun n j _ => h.zero n (by omega) j, fun n hn => by omega, h.unit, fun _ n hn => by omega, fun _ n hn => by omega⟩

/-- What holds at the start and after every step holds for the result of `arnoldi`. -/
theorem flArnoldi_induct [Zero X] {ortho : Ortho} {maxiter : ℕ} {v : X} {Mv : Option X} {MvNorm : Option F} (Inv : FlArn F K X → Prop)
    (hinit : ∀ s, flArnInit o v Mv MvNorm = .ok s → Inv s) (hstep : ∀ s s', Inv s → flArnAdvance o ortho maxiter s = .ok s' → Inv s') {s : FlArn F K X}
    (h : flArnoldi o ortho maxiter v Mv MvNorm = .ok s) : Inv s := by
  have hloop : ∀ k (s s' : FlArn F K X), Inv s → flArnLoop o ortho maxiter k s = .ok s' → Inv s' := by
    intro k
    induction k with
    | zero =>
      intro s s' hs h
      unfold flArnLoop at h
      rcases ite_eq_iff.mp h with ⟨-, h⟩ | ⟨-, h⟩
      · cases h
      · rwa [← Except.ok.inj h]
    | succ k ih =>
      intro s s' hs h
      unfold flArnLoop at h
      rcases ite_eq_iff.mp h with ⟨-, h⟩ | ⟨-, h⟩
      · dsimp only at h
        cases ha : flArnAdvance o ortho maxiter s with
        | error e => rw [ha] at h; cases h
        | ok s1 =>
          rw [ha] at h
          exact ih s1 s' (hstep _ _ hs ha) h
      · rwa [← Except.ok.inj h]
  unfold flArnoldi at h
  cases ha : flArnInit o v Mv MvNorm with
  | error e => rw [ha] at h; cases h
  | ok s0 =>
    rw [ha] at h
    exact hloop _ _ _ (hinit _ ha) h

/-- Shape of `H`. -/
structure FlLanShape (o : FlArnOps F K X) (s : FlArn F K X) : Prop where
  zero : ∀ n, s.iter ≤ n → ∀ j, s.H j n = o.zero
  band : ∀ n j, j + 1 < n ∨ n + 1 < j → s.H j n = o.zero
  sym : ∀ n, n + 1 < s.iter → s.H n (n + 1) = s.H (n + 1) n

/-- C79: with `ortho='lanczos'` the matrix `H` is tridiagonal and symmetric without any error — in every arithmetic (utils.py 1000-1009 copies the entry). -/
theorem C79_lanczos_shape [Zero X] {maxiter : ℕ} {v : X} {Mv : Option X} {MvNorm : Option F} {s : FlArn F K X} (h : flArnoldi o .lanczos maxiter v Mv MvNorm = .ok s) :
    (∀ n j, j + 1 < n ∨ n + 1 < j → s.H j n = o.zero) ∧ ∀ n, n + 1 < s.iter → s.H n (n + 1) = s.H (n + 1) n := by
  have : FlLanShape o s := by
    refine flArnoldi_induct (FlLanShape o) (fun s hs => ?_) (fun s s' hs hstep => ?_) h
    · unfold flArnInit at hs
      dsimp only at hs
      split at hs
      · cases hs
      · split at hs <;>
        · obtain rfl := Except.ok.inj hs
          exact ⟨fun _ _ _ => rfl, fun _ _ _ => rfl, fun n hn => absurd hn (Nat.not_lt_zero _)⟩
    · obtain ⟨-, hiter, -, w, h, r, hfold, -, hH, -⟩ := flArnAdvance_cases hstep
      rw [flOrthoList_lanczos, List.foldl_cons, List.foldl_nil] at hfold
      have hh : ∀ j, j ≠ s.iter → h j = if j + 1 = s.iter then s.H s.iter (s.iter - 1) else o.zero := by
        intro j hj
        have e1 : h = (flOrthoStep o .lanczos s.V s.P (flOrthoStart o .lanczos s) s.iter).2 := by rw [hfold]
        rw [e1]
        unfold flOrthoStep
        dsimp only
        rw [Function.update_of_ne hj]
        unfold flOrthoStart
        dsimp only
        by_cases h0 : 0 < s.iter
        · rw [if_pos ⟨rfl, h0⟩]
          dsimp only
          by_cases h1 : j + 1 = s.iter
          · rw [if_pos h1, show j = s.iter - 1 by omega, Function.update_self]
          · rw [if_neg h1, Function.update_of_ne (by omega), hs.zero _ le_rfl]
        · rw [if_neg (by tauto), if_neg (by omega)]
          exact hs.zero _ le_rfl _
      have hcol : ∀ i, s'.H i s.iter = Function.update h (s.iter + 1) (o.ofReal r) i := fun i => by rw [hH]; simp
      have hold : ∀ i j, j ≠ s.iter → s'.H i j = s.H i j := fun i j hj => by rw [hH]; simp [hj]
      refine ⟨fun n hn j => ?_, fun n j hj => ?_, fun n hn => ?_⟩
      · rw [hiter] at hn
        rw [hold _ _ (by omega)]
        exact hs.zero n (by omega) j
      · by_cases hnk : n = s.iter
        · rw [hnk, hcol, Function.update_of_ne (by omega), hh j (by omega), if_neg (by omega)]
        · rw [hold _ _ hnk]
          exact hs.band n j hj
      · rw [hiter] at hn
        by_cases hnk : n + 1 = s.iter
        · rw [hnk, hcol, Function.update_of_ne (by omega), hh n (by omega), if_pos hnk, hold _ _ (by omega), show s.iter - 1 = n by omega]
        · rw [hold _ _ hnk, hold _ _ (by omega)]
          exact hs.sym n (by omega)
  exact ⟨this.band, this.sym⟩

/-- C79 for `ortho='lanczos'` (`M=None`, Euclidean inner product): if no entry of the results is infinite or NaN then all entries of `H` are real, the basis vectors are
normalised up to errors, and the Lanczos relation holds up to errors in every column, whether or not the basis vectors are still orthogonal and whether or not `A` is self-adjoint. -/
theorem C79_lanczos [Zero X] (hv : FlArnVec o vec fin num finK val finF B u e) (hi : FlArnIp o vec fin num finK val finF d) (hre : FlRealPart o num finK) (hu0 : 0 ≤ u) (hu : u < 1)
    (hd0 : 0 ≤ d) (hd : d < 1) (he0 : 0 ≤ e) (hud : (1 + u) ^ 2 ≤ 2 * (1 - d) ^ 2) (hM : o.M = none)
    {maxiter : ℕ} {v : X} {Mv : Option X} {MvNorm : Option F} (hMv : ∀ r, MvNorm = some r → |val r - ‖vec v‖| ≤ d * ‖vec v‖) {s : FlArn F K X}
    (h : flArnoldi o .lanczos maxiter v Mv MvNorm = .ok s) (hf : FlArnFin fin finK finF s) :
    (∀ j, j < s.iter ∨ (j = s.iter ∧ s.invariant = false) → NearUnit u d (vec (s.V j))) ∧
    (∀ n < s.iter, ∀ j ≤ n + 1, num (s.H j n) = ((RCLike.re (num (s.H j n)) : ℝ) : 𝕜)) ∧
    (∀ n, n + 1 < s.iter ∨ (n + 1 = s.iter ∧ s.invariant = false) →
      ‖B (vec (s.V n)) - ∑ j ∈ Finset.range (n + 2), num (s.H j n) • vec (s.V j)‖ ≤ lanBound u e d ‖B‖ (if n = 0 then 0 else ‖num (s.H n (n - 1))‖)) ∧
    (∀ n, n + 1 = s.iter → s.invariant = true →
      ‖B (vec (s.V n)) - ∑ j ∈ Finset.range (n + 1), num (s.H j n) • vec (s.V j)‖ ≤
        lanBound u e d ‖B‖ (if n = 0 then 0 else ‖num (s.H n (n - 1))‖) + ‖num (s.H (n + 1) n)‖ / (1 - d)) := by
  have inv : FlLanInv vec fin num finK finF o B u e d v s :=
    flArnoldi_induct (FlLanInv vec fin num finK finF o B u e d v) (fun s hs => FlLanInv.init hv hi hu0 hu hd0 hd hM (fun r hr _ => hMv r hr) hs)
      (fun s s' hs h1 => hs.step hv hi hre hu0 hu hd0 hd he0 hud hM h1) h
  have hsum : ∀ n < s.iter, ∑ j ∈ Finset.range (n + 1), num (s.H j n) • vec (s.V j) =
      ((lanT num s n).1 : 𝕜) • shift1 0 (lanBasis vec s) n + ((lanT num s n).2.1 : 𝕜) • lanBasis vec s n := by
    intro n hn
    have hb : ∀ j ≤ n, lanBasis vec s j = vec (s.V j) := fun j hj => if_neg (by omega)
    rw [Finset.sum_range_succ, hb n le_rfl, ← show num (s.H n n) = ((lanT num s n).2.1 : 𝕜) from inv.real hf n hn n (by omega)]
    congr 1
    rcases n with _ | m
    · simp [shift1]
    · rw [Finset.sum_range_succ, Finset.sum_eq_zero, zero_add]
      · simp only [shift1]
        rw [hb m (by omega)]
        exact congrArg (· • vec (s.V m)) (inv.real hf (m + 1) hn m (by omega))
      · intro j hj
        rw [Finset.mem_range] at hj
        rw [inv.band (m + 1) j (by omega), hv.zero, zero_smul]
  refine ⟨inv.unit hf, inv.real hf, fun n hn => ?_, fun n hn hinv => ?_⟩
  · have hn' : n < s.iter := by omega
    have h1 := inv.rel hf n hn'
    have hni : ¬ (n + 1 = s.iter ∧ s.invariant = true) := by
      rintro ⟨h2, h3⟩
      rcases hn with hn | ⟨-, hn⟩
      · omega
      · rw [h3] at hn; cases hn
    rw [if_neg hni, add_zero] at h1
    rw [Finset.sum_range_succ, hsum n hn']
    have h2 : num (s.H (n + 1) n) • vec (s.V (n + 1)) = ((lanT num s n).2.2 : 𝕜) • lanBasis vec s (n + 1) := by
      have : lanBasis vec s (n + 1) = vec (s.V (n + 1)) := if_neg hni
      rw [this]
      exact congrArg (· • vec (s.V (n + 1))) (inv.real hf n hn' (n + 1) le_rfl)
    rw [h2]
    exact h1
  · have hn' : n < s.iter := by omega
    have h1 := inv.rel hf n hn'
    have hz : lanBasis vec s (n + 1) = 0 := if_pos ⟨hn, hinv⟩
    rw [if_pos ⟨hn, hinv⟩] at h1
    unfold tri at h1
    rw [hz, smul_zero, add_zero, ← hsum n hn'] at h1
    exact h1

end

end Krypy
