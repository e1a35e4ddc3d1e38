import Verif.Props.PseudoBound
import Verif.Props.Timings

set_option linter.unusedSectionVars false

/-!
# C59: `RitzApproxKrylov` (recycling/evaluators.py 136-238), and a remark on C58
-/

namespace Krypy
variable {𝕜 E : Type*} [RCLike 𝕜] [AddCommGroup E] [Module 𝕜 E] {n_ n d k p : ℕ}
open scoped ComplexConjugate
open Matrix Finset

/-! ## The number of steps -/

/-- C59: mode `direct` with an explicit tolerance.  The number of steps is the first index whose bound is at most the tolerance; if there is
none (or fewer than two bounds) an `AssumptionError` is raised. -/
theorem C59_direct {b : List ℝ} (hb : b.Pairwise fun x y => y ≤ x) (t : ℝ) :
    (b.length ≤ 1 ∨ (∀ x ∈ b, t < x) → approxSteps .direct (some t) t b = .error .assumptionError) ∧
    (1 < b.length → (∃ x ∈ b, x ≤ t) → ∃ k : ℕ, approxSteps .direct (some t) t b = .ok (k : ℝ) ∧ ∃ hk : k < b.length, b[k] ≤ t ∧
      ∀ j (_ : j < k), t < b[j]) := by
  constructor
  · intro h
    unfold approxSteps
    by_cases h1 : b.length ≤ 1
    · rw [if_pos h1]
    · rw [if_neg h1]
      dsimp only
      rw [if_pos (h.resolve_left h1)]
  · intro h1 h2
    unfold approxSteps
    rw [if_neg (not_le.mpr h1)]
    dsimp only
    rw [if_neg (by push Not; exact h2)]
    refine ⟨_, rfl, ?_⟩
    -- the entries greater than the tolerance come first
    clear h1
    induction b with
    | nil => simp at h2
    | cons x b ih =>
      obtain ⟨h3, h4⟩ := List.pairwise_cons.mp hb
      by_cases hx : t < x
      · obtain ⟨y, hy, hyt⟩ := h2
        have hyb : y ∈ b := by
          rcases List.mem_cons.mp hy with rfl | h
          · exact absurd hx (not_lt.mpr hyt)
          · exact h
        obtain ⟨hk, h5, h6⟩ := ih h4 ⟨y, hyb, hyt⟩
        have e : ((x :: b).filter fun x => decide (t < x)).length = (b.filter fun x => decide (t < x)).length + 1 := by
          rw [List.filter_cons_of_pos (by simpa using hx), List.length_cons]
        simp only [e]
        refine ⟨by simpa using hk, by simpa using h5, fun j hj => ?_⟩
        rcases j with _ | j
        · exact hx
        · simpa using h6 j (by omega)
      · have e : ((x :: b).filter fun x => decide (t < x)).length = 0 := by
          rw [List.length_eq_zero_iff, List.filter_eq_nil_iff]
          intro y hy
          simp only [decide_eq_true_eq, not_lt]
          rcases List.mem_cons.mp hy with rfl | h
          · exact not_lt.mp hx
          · exact (h3 y h).trans (not_lt.mp hx)
        simp only [e]
        exact ⟨by simp, by simpa using not_lt.mp hx, fun j hj => absurd hj (Nat.not_lt_zero _)⟩

/-- C59 (finding): mode `direct` with the default `tol=None` raises a `TypeError` although the tolerance of the solver should be used (line 212
compares with `self.tol`); and an unknown mode is detected only after the bounds have been computed. -/
theorem C59_argument {b : List ℝ} (hb : 1 < b.length) (tol : ℝ) (t : Option ℝ) :
    approxSteps .direct none tol b = .error .typeError ∧ approxSteps .other t tol b = .error .argumentError := by
  constructor <;> unfold approxSteps <;> rw [if_neg (not_le.mpr hb)]

theorem approxAlpha_spec {b0 : ℝ} {bs : List ℝ} (hne : bs ≠ []) : ∃ al, approxAlpha b0 bs = some al ∧
    IsGreatest {r : ℝ | ∃ i, ∃ h : i < bs.length, r = (bs[i] / b0) ^ (1 / ((i : ℝ) + 1))} al := by
  unfold approxAlpha
  have hne' : (bs.zipIdx.map fun p => (p.1 / b0) ^ (1 / ((p.2 : ℝ) + 1))) ≠ [] := by simpa using hne
  obtain ⟨al, hal⟩ := Option.ne_none_iff_exists'.mp (fun h => hne' (List.max?_eq_none_iff.mp h))
  refine ⟨al, hal, ?_⟩
  have hmem : ∀ r : ℝ, r ∈ (bs.zipIdx.map fun p => (p.1 / b0) ^ (1 / ((p.2 : ℝ) + 1))) ↔
      ∃ i, ∃ h : i < bs.length, r = (bs[i] / b0) ^ (1 / ((i : ℝ) + 1)) := by
    intro r
    rw [List.mem_map]
    constructor
    · rintro ⟨⟨x, i⟩, hx, rfl⟩
      rw [List.mem_zipIdx_iff_getElem?] at hx
      obtain ⟨h, hx⟩ := List.getElem?_eq_some_iff.mp hx
      exact ⟨i, h, by rw [← hx]⟩
    · rintro ⟨i, h, rfl⟩
      exact ⟨(bs[i], i), by rw [List.mem_zipIdx_iff_getElem?]; exact List.getElem?_eq_getElem h, rfl⟩
  rw [List.max?_eq_some_iff] at hal
  exact ⟨(hmem al).mp hal.1, fun r hr => hal.2 r ((hmem r).mpr hr)⟩

/-- C59: mode `extrapolate` with positive tolerance.  `alpha` is the least number such that all bounds satisfy `b_i ≤ b_0 alpha^i`.  If `alpha` lies
between zero and one then the result is the exact (real) number of steps after which `b_0 alpha^s` reaches the tolerance; otherwise, i.e. if
one of the bounds is not smaller than the first one or all of them vanish, an `AssumptionError` is raised. -/
theorem C59_extrapolate {b0 : ℝ} {bs : List ℝ} (hb0 : 0 < b0) (hbs : ∀ x ∈ bs, 0 ≤ x) (hne : bs ≠ []) (t : Option ℝ) {tol : ℝ}
    (htol : 0 < tol) : ∃ al, 0 ≤ al ∧ IsLeast {c : ℝ | 0 ≤ c ∧ ∀ i (_ : i < bs.length), bs[i] ≤ b0 * c ^ (i + 1)} al ∧
      (approxSteps .extrapolate t tol (b0 :: bs) = .error .assumptionError ↔ (∃ x ∈ bs, b0 ≤ x) ∨ ∀ x ∈ bs, x = 0) ∧
      (¬((∃ x ∈ bs, b0 ≤ x) ∨ ∀ x ∈ bs, x = 0) → 0 < al ∧ al < 1 ∧
        ∃ s, approxSteps .extrapolate t tol (b0 :: bs) = .ok s ∧ ∀ r : ℝ, b0 * al ^ r ≤ tol ↔ s ≤ r) := by
  obtain ⟨al, hal, ⟨i0, hi0, e0⟩, hup⟩ := approxAlpha_spec (b0 := b0) hne
  have hq : ∀ i (h : i < bs.length), 0 ≤ bs[i] / b0 := fun i h => div_nonneg (hbs _ (List.getElem_mem h)) hb0.le
  have hal0 : 0 ≤ al := by rw [e0]; exact Real.rpow_nonneg (hq i0 hi0) _
  -- roots and powers
  have hroot : ∀ i (h : i < bs.length) (c : ℝ), 0 ≤ c → ((bs[i] / b0) ^ (1 / ((i : ℝ) + 1)) ≤ c ↔ bs[i] ≤ b0 * c ^ (i + 1)) := by
    intro i h c hc
    have hi1 : (0 : ℝ) < (i : ℝ) + 1 := by positivity
    rw [one_div, Real.rpow_inv_le_iff_of_pos (hq i h) hc hi1, div_le_iff₀ hb0, mul_comm,
      show ((i : ℝ) + 1) = ((i + 1 : ℕ) : ℝ) by push_cast; rfl, Real.rpow_natCast]
  have hroot' : ∀ i (h : i < bs.length) (c : ℝ), 0 ≤ c → (c ≤ (bs[i] / b0) ^ (1 / ((i : ℝ) + 1)) ↔ b0 * c ^ (i + 1) ≤ bs[i]) := by
    intro i h c hc
    have hi1 : (0 : ℝ) < (i : ℝ) + 1 := by positivity
    rw [one_div, Real.le_rpow_inv_iff_of_pos hc (hq i h) hi1, le_div_iff₀ hb0, mul_comm,
      show ((i : ℝ) + 1) = ((i + 1 : ℕ) : ℝ) by push_cast; rfl, Real.rpow_natCast]
  have hge : 1 ≤ al ↔ ∃ x ∈ bs, b0 ≤ x := by
    constructor
    · intro h
      rw [e0, hroot' i0 hi0 1 zero_le_one, one_pow, mul_one] at h
      exact ⟨_, List.getElem_mem hi0, h⟩
    · rintro ⟨x, hx, hbx⟩
      obtain ⟨i, hi, rfl⟩ := List.getElem_of_mem hx
      refine le_trans ((hroot' i hi 1 zero_le_one).mpr (by rwa [one_pow, mul_one])) (hup ⟨i, hi, rfl⟩)
  have hzero : al = 0 ↔ ∀ x ∈ bs, x = 0 := by
    constructor
    · intro h x hx
      obtain ⟨i, hi, rfl⟩ := List.getElem_of_mem hx
      have := hup ⟨i, hi, rfl⟩
      rw [h, hroot i hi 0 le_rfl, zero_pow (by omega), mul_zero] at this
      exact le_antisymm this (hbs _ hx)
    · intro h
      refine le_antisymm ?_ hal0
      rw [e0, hroot i0 hi0 0 le_rfl, zero_pow (by omega), mul_zero, h _ (List.getElem_mem hi0)]
  have hstep : approxSteps .extrapolate t tol (b0 :: bs) =
      if 1 ≤ al ∨ al = 0 then .error .assumptionError else .ok (Real.log (tol / b0) / Real.log al) := by
    unfold approxSteps
    have : ¬(b0 :: bs).length ≤ 1 := by
      simp only [List.length_cons]
      have := List.length_pos_of_ne_nil hne
      omega
    rw [if_neg this]
    simp only [List.headD_cons, List.tail_cons, if_neg hb0.ne', hal, if_neg (not_le.mpr htol)]
  refine ⟨al, hal0, ⟨⟨hal0, fun i h => (hroot i h al hal0).mp (hup ⟨i, h, rfl⟩)⟩, ?_⟩, ?_, fun hn => ?_⟩
  · rintro c ⟨hc, hcb⟩
    rw [e0]
    exact (hroot i0 hi0 c hc).mpr (hcb i0 hi0)
  · rw [hstep, ← hge, ← hzero]
    by_cases h : 1 ≤ al ∨ al = 0
    · simp [if_pos h, h]
    · simp [if_neg h, h]
  · rw [← hge, ← hzero] at hn
    have hn' := not_or.mp hn
    have h1 := not_le.mp hn'.1
    have h2 := lt_of_le_of_ne hal0 (Ne.symm hn'.2)
    refine ⟨h2, h1, _, by rw [hstep, if_neg hn], fun r => ?_⟩
    rw [div_le_iff_of_neg (Real.log_neg h2 h1), mul_comm b0, ← le_div_iff₀ hb0,
      ← Real.log_le_log_iff (Real.rpow_pos_of_pos h2 r) (by positivity), Real.log_rpow h2]

/-- C59 (finding): if the first bound is already smaller than the tolerance, mode `extrapolate` estimates a negative number of steps. -/
theorem C59_negative {b0 : ℝ} {bs : List ℝ} (hb0 : 0 < b0) (hbs : ∀ x ∈ bs, 0 ≤ x) (hne : bs ≠ []) (t : Option ℝ) {tol : ℝ}
    (htol : b0 < tol) {s : ℝ} (hs : approxSteps .extrapolate t tol (b0 :: bs) = .ok s) : s < 0 := by
  obtain ⟨al, -, -, herr, hok⟩ := C59_extrapolate hb0 hbs hne t (hb0.trans htol)
  have hn : ¬((∃ x ∈ bs, b0 ≤ x) ∨ ∀ x ∈ bs, x = 0) := by
    intro h
    rw [herr.mpr h] at hs
    cases hs
  obtain ⟨h1, h2, s', hs', hr⟩ := hok hn
  obtain rfl := Except.ok.inj (hs.symm.trans hs')
  -- a slightly negative number of steps is enough
  have hlog : Real.log (tol / b0) > 0 := Real.log_pos (by rw [lt_div_iff₀ hb0]; linarith)
  have hlal := Real.log_neg h1 h2
  refine lt_of_le_of_lt ((hr (Real.log (tol / b0) / Real.log al)).mp ?_) (div_neg_of_pos_of_neg hlog hlal)
  have : al ^ (Real.log (tol / b0) / Real.log al) = tol / b0 := by
    rw [Real.rpow_def_of_pos h1, mul_div_cancel₀ _ hlal.ne, Real.exp_log (div_pos (hb0.trans htol) hb0)]
  rw [this, mul_div_cancel₀ _ hb0.ne']

/-- C59: without pseudospectra the last bound is zero (`C58_omit`).  Mode `direct` with a nonnegative tolerance always returns; mode `extrapolate` raises an
`AssumptionError` if there are only two bounds, i.e. if all but one of the Ritz vectors are chosen. -/
theorem C59_omit {b : List ℝ} (hb : b.Pairwise fun x y => y ≤ x) (hlast : b.getLast? = some 0) (hl : 1 < b.length) {t : ℝ} (ht : 0 ≤ t) :
    (∃ k : ℕ, approxSteps .direct (some t) t b = .ok (k : ℝ) ∧ k < b.length) ∧
    ∀ t' tol, b.length = 2 → b.headD 0 ≠ 0 → approxSteps .extrapolate t' tol b = .error .assumptionError := by
  constructor
  · obtain ⟨k, h1, h2, -⟩ := (C59_direct hb t).2 hl ⟨0, List.mem_of_getLast? hlast, ht⟩
    exact ⟨k, h1, h2⟩
  · intro t' tol h2 h0
    rcases b with _ | ⟨x, _ | ⟨y, _ | ⟨z, b⟩⟩⟩
    · simp at h2
    · simp at h2
    · simp only [List.getLast?_cons_cons, List.getLast?_singleton, Option.some.injEq] at hlast
      subst hlast
      simp only [List.headD_cons] at h0
      unfold approxSteps
      simp only [List.length_cons, List.length_nil]
      rw [if_neg (by omega)]
      simp [approxAlpha, h0]
    · simp at h2

/-! ## `evaluate` -/

/-- C59: `evaluate` in mode `direct`.  If the bounds do not increase and one of them is at most the tolerance then the result is the estimated time for
as many steps as it takes until the bound is at most the tolerance, with one deflation vector for each selected Ritz pair. -/
theorem C59_evaluate {ι : Type*} {c : ℕ} {order : Finset (Fin c) → List (Fin c)} (a : ApproxArgs) (hm : a.mode = .direct) {t : ℝ}
    (ht : a.tol = some t) (coeffs : Fin c → ι → 𝕜) (bp : ℝ → PseudoType → List (ι → 𝕜) → Except Err (List ℝ)) (S : Finset (Fin c)) {b : List ℝ}
    (hbp : bp t (if a.pseudospectra then .auto else .omit) ((order S).map coeffs) = .ok b) (hb : b.Pairwise fun x y => y ≤ x)
    (hl : 1 < b.length) (hx : ∃ x ∈ b, x ≤ t) :
    ∃ k : ℕ, (∃ hk : k < b.length, b[k] ≤ t ∧ ∀ j (_ : j < k), t < b[j]) ∧
      approxEvalWith order a coeffs bp S = estimateTime a.kind a.timings k S.card a.deflweight := by
  obtain ⟨k, h1, h2⟩ := (C59_direct hb t).2 hl hx
  refine ⟨k, h2, ?_⟩
  unfold approxEvalWith
  simp only [ht, Option.getD_some, hbp, hm, h1]

/-- C59: exceptions of `bound_pseudo` and the `AssumptionError` reach the caller (the factories catch `AssumptionError`). -/
theorem C59_evaluate_error {ι : Type*} {c : ℕ} {order : Finset (Fin c) → List (Fin c)} (a : ApproxArgs) (coeffs : Fin c → ι → 𝕜)
    (bp : ℝ → PseudoType → List (ι → 𝕜) → Except Err (List ℝ)) (S : Finset (Fin c)) :
    (∀ e, bp (a.tol.getD a.solverTol) (if a.pseudospectra then .auto else .omit) ((order S).map coeffs) = .error e →
      approxEvalWith order a coeffs bp S = .error e) ∧
    ∀ b, bp (a.tol.getD a.solverTol) (if a.pseudospectra then .auto else .omit) ((order S).map coeffs) = .ok b → b.length ≤ 1 →
      approxEvalWith order a coeffs bp S = .error .assumptionError := by
  constructor
  · intro e he
    unfold approxEvalWith
    simp only [he]
  · intro b hb hl
    unfold approxEvalWith
    simp only [hb, approxSteps, if_pos hl]

/-! ## The cached `Arnoldifyer` -/

section cache
variable {S A X : Type*} [DecidableEq S] (mk : S → Except Err A) (ev : A → S → X → Except Err ℝ)

/-- Specification: `evaluate` without a cache. -/
def uncached (s : S) (x : X) : Except Err ℝ :=
  match mk s with
  | .error e => .error e
  | .ok a => ev a s x

/-- A sequence of calls of `evaluate` of the same object. -/
def approxCalls : Option (S × A) → List (S × X) → List (Except Err ℝ)
  | _, [] => []
  | cache, sx :: l => (approxEval mk ev cache sx.1 sx.2).1 :: approxCalls (approxEval mk ev cache sx.1 sx.2).2 l

/-- C59: the cached `Arnoldifyer` has no effect on the results: for every sequence of calls with any deflated solvers (whose attributes are not changed in between), each result
is that of a new evaluator object. -/
theorem C59_cache (calls : List (S × X)) : approxCalls mk ev none calls = calls.map fun sx => uncached mk ev sx.1 sx.2 := by
  suffices h : ∀ cache : Option (S × A), (∀ sa, cache = some sa → mk sa.1 = .ok sa.2) →
      approxCalls mk ev cache calls = calls.map fun sx => uncached mk ev sx.1 sx.2 from h none (by simp)
  induction calls with
  | nil => intro cache _; rfl
  | cons sx l ih =>
    intro cache hc
    have key : (approxEval mk ev cache sx.1 sx.2).1 = uncached mk ev sx.1 sx.2 ∧
        ∀ sa, (approxEval mk ev cache sx.1 sx.2).2 = some sa → mk sa.1 = .ok sa.2 := by
      have fresh : ∀ r : Except Err (A × Option (S × A)), (r = match mk sx.1 with
          | .error e => .error e
          | .ok a => .ok (a, some (sx.1, a))) → approxArnf mk cache sx.1 = r →
          (approxEval mk ev cache sx.1 sx.2).1 = uncached mk ev sx.1 sx.2 ∧
            ∀ sa, (approxEval mk ev cache sx.1 sx.2).2 = some sa → mk sa.1 = .ok sa.2 := by
        intro r hr har
        unfold approxEval uncached
        rw [har, hr]
        cases hmk : mk sx.1 with
        | error e => exact ⟨rfl, hc⟩
        | ok a =>
          refine ⟨rfl, fun sa hsa => ?_⟩
          simp only [Option.some.injEq] at hsa
          rw [← hsa]
          exact hmk
      cases hcache : cache with
      | none => subst hcache; exact fresh _ rfl rfl
      | some sa =>
        subst hcache
        by_cases hs : sa.1 = sx.1
        · have hmk := hc sa rfl
          have har : approxArnf mk (some sa) sx.1 = .ok (sa.2, some sa) := by
            unfold approxArnf
            dsimp only
            rw [if_pos hs]
          unfold approxEval uncached
          rw [har, ← hs, hmk]
          exact ⟨rfl, hc⟩
        · refine fresh _ rfl ?_
          unfold approxArnf
          dsimp only
          rw [if_neg hs]
          cases mk sx.1 <;> rfl
    rw [approxCalls, List.map_cons, key.1, ih _ key.2]

end cache

/-! ## Examples -/

/-- Non-vacuity of `C59_direct`: the bounds `1, 1/2, 1/8, 0` and the tolerance `1/4`: two steps. -/
example : approxSteps .direct (some (1 / 4)) (1 / 4) [1, 1 / 2, 1 / 8, 0] = .ok 2 := by
  unfold approxSteps
  rw [if_neg (by simp)]
  dsimp only
  rw [if_neg (by norm_num)]
  norm_num [List.filter_cons]

/-- Non-vacuity of `C59_extrapolate`: the bounds `1, 1/2, 1/4` give `alpha = 1/2`, and the tolerance `1/8` is reached after three steps. -/
example : ∃ s, approxSteps .extrapolate none (1 / 8) [1, 1 / 2, 1 / 4] = .ok s ∧ s = 3 := by
  obtain ⟨al, h0, hl, -, hok⟩ := C59_extrapolate (b0 := 1) (bs := [1 / 2, 1 / 4]) one_pos (by norm_num) (by simp) none
    (tol := 1 / 8) (by norm_num)
  have hal : al = 1 / 2 := by
    refine hl.unique ⟨⟨by norm_num, fun i hi => ?_⟩, fun c hc => ?_⟩
    · simp only [List.length_cons, List.length_nil] at hi
      interval_cases i <;> norm_num
    · have := hc.2 0 (by simp)
      simpa using this
  obtain ⟨-, -, s, hs, hr⟩ := hok (by norm_num)
  refine ⟨s, hs, le_antisymm ((hr 3).mp ?_) ?_⟩
  · rw [hal]; norm_num
  · by_contra hlt
    have h1 := (hr s).mpr le_rfl
    rw [hal, one_mul] at h1
    have h2 : ((1 : ℝ) / 2) ^ (3 : ℝ) < (1 / 2) ^ s := Real.rpow_lt_rpow_of_exponent_gt (by norm_num) (by norm_num) (not_le.mp hlt)
    norm_num at h1 h2
    linarith

/-! ## C58: the condition of `C58_epsilon` cannot be omitted -/

/-- C58 (finding): `epsilon` uses `‖Hh‖` in place of the norm of `⟨W, M A ·⟩` on the remaining space; for an operator which is not self-adjoint it
can be too small.  `A = [[1, 10], [0, 1]]`, `W = e_1` (an eigenvector, so a Ritz vector), `B = A + 1/100 e_2 e_1^T`; then `Hh = [1]`, `‖P‖ = 1`,
`eta = ‖G|W‖ / (sigma_min - ‖W^* G W‖) = 1/100`, there is no remainder, but the deflated operators differ by `1/10` on `e_2`. -/
theorem C58_epsilon_counterexample : ∃ (T T' : (Fin 2 → ℝ) →ₗ[ℝ] (Fin 2 → ℝ)) (W : Fin 1 → Fin 2 → ℝ) (v : Fin 2 → ℝ),
    gram cdot W W = 1 ∧ nrm cdot v = 1 ∧ cdot (W 0) v = 0 ∧ (gram cdot W fun j => T (W j)) = 1 ∧
    (∀ x, nrm cdot (T' x - T x) ≤ 1 / 100 * nrm cdot x) ∧ nrm cdot (T' (W 0) - T (W 0)) = 1 / 100 ∧
    (gram cdot W fun j => T' (W j) - T (W j)) = 0 ∧
    (∀ x, nrm cdot (complLin cdot_inner T W x) ≤ 1 * nrm cdot x) ∧
    complLin cdot_inner T W (T v) = v ∧
    pseudoEps 1 (1 / 100 / (1 - 0)) 1 (1 / 100) 0 * nrm cdot v < 1 / 10 ∧
    nrm cdot (complLin cdot_inner T' W (T' v) - complLin cdot_inner T W (T v)) = 1 / 10 := by
  let T : (Fin 2 → ℝ) →ₗ[ℝ] (Fin 2 → ℝ) := Matrix.toLin' !![1, 10; 0, 1]
  let T' : (Fin 2 → ℝ) →ₗ[ℝ] (Fin 2 → ℝ) := Matrix.toLin' !![1, 10; 1 / 100, 1]
  let W : Fin 1 → Fin 2 → ℝ := fun _ => ![1, 0]
  have hT : ∀ x, T x = ![x 0 + 10 * x 1, x 1] := by
    intro x; funext i
    fin_cases i <;> simp [T, Matrix.mulVec, dotProduct, Fin.sum_univ_two]
  have hT' : ∀ x, T' x = ![x 0 + 10 * x 1, x 0 / 100 + x 1] := by
    intro x; funext i
    fin_cases i <;> simp [T', Matrix.mulVec, dotProduct, Fin.sum_univ_two]; ring
  have hG : (gram cdot W fun j => T (W j)) = 1 := by
    ext i j
    rw [Subsingleton.elim i j, Matrix.one_apply_eq, gram, Matrix.of_apply, hT, exPs_dot]
    simp [W]
  have hG' : (gram cdot W fun j => T' (W j)) = 1 := by
    ext i j
    rw [Subsingleton.elim i j, Matrix.one_apply_eq, gram, Matrix.of_apply, hT', exPs_dot]
    simp [W]
  have hP : ∀ x, complLin cdot_inner T W x = ![0, x 1] := by
    intro x
    rw [complLin_apply, oblique, hG, inv_one, Matrix.one_mulVec, lincomb, Fin.sum_univ_one, coefs, hT, exPs_dot]
    funext i
    fin_cases i <;> simp [W]
  have hP' : ∀ x, complLin cdot_inner T' W x = ![0, x 1 - x 0 / 100] := by
    intro x
    rw [complLin_apply, oblique, hG', inv_one, Matrix.one_mulVec, lincomb, Fin.sum_univ_one, coefs, hT', exPs_dot]
    funext i
    fin_cases i <;> simp [W]
    ring
  refine ⟨T, T', W, ![0, 1], ?_, ?_, ?_, hG, fun x => ?_, ?_, ?_, fun x => ?_, ?_, ?_, ?_⟩
  · ext i j
    rw [Subsingleton.elim i j, Matrix.one_apply_eq, gram, Matrix.of_apply, exPs_dot]
    simp [W]
  · rw [exPs_nrm]; simp
  · rw [exPs_dot]; simp [W]
  · rw [hT, hT', exPs_nrm, exPs_nrm]
    refine Real.sqrt_le_iff.mpr ⟨by positivity, ?_⟩
    rw [mul_pow, Real.sq_sqrt (by positivity)]
    simp only [Pi.sub_apply, Matrix.cons_val_zero, Matrix.cons_val_one]
    nlinarith [sq_nonneg (x 1)]
  · rw [hT, hT', exPs_nrm]
    simp [W]
  · ext i j
    rw [gram, Matrix.of_apply, hT, hT', exPs_dot]
    simp [W]
  · rw [hP, exPs_nrm, exPs_nrm, one_mul]
    apply Real.sqrt_le_sqrt
    simp
    positivity
  · rw [hP, hT]; simp
  · rw [exPs_nrm]
    unfold pseudoEps
    norm_num
  · rw [hP, hP', hT, hT', exPs_nrm]
    simp
    rw [Real.sqrt_sq (by norm_num)]
    norm_num

end Krypy
