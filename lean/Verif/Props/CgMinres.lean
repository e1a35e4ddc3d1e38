import Verif.Props.IterCount

/-!
# Property C71: CG compared with GMRES and MINRES

For self-adjoint positive definite systems the residual norms of `Cg` (linsys.py 520-708) and those of `Minres` and `Gmres`
(linsys.py 711-1018) determine each other: `1/ρ_k² = ∑_{j ≤ k} 1/σ_j²` where `ρ` are the residual norms of the minimal residual methods
and `σ` those of `Cg`.
-/

set_option linter.unusedSectionVars false

namespace Krypy
variable {𝕜 E : Type*} [RCLike 𝕜] [AddCommGroup E] [Module 𝕜 E]

/-! ## Affine combinations of orthogonal vectors -/

/-- For mutually orthogonal vectors the norm of a linear combination is given by the coefficients. -/
theorem nsq_sum_orth {g : E → E → 𝕜} (h : IsInner g) {n : ℕ} {r : ℕ → E} (horth : ∀ i < n, ∀ j < n, i ≠ j → g (r i) (r j) = 0)
    (c : ℕ → 𝕜) : nsq g (∑ j ∈ Finset.range n, c j • r j) = ∑ j ∈ Finset.range n, ‖c j‖ ^ 2 * nsq g (r j) := by
  induction n with
  | zero => simp [nsq, h.zero_left]
  | succ n ih =>
    rw [Finset.sum_range_succ, Finset.sum_range_succ, ← ih fun i hi j hj => horth i (by omega) j (by omega)]
    have h0 : g (∑ j ∈ Finset.range n, c j • r j) (c n • r n) = 0 := by
      rw [h.sum_left]
      refine Finset.sum_eq_zero fun j hj => ?_
      have hj' := Finset.mem_range.mp hj
      rw [h.smul_left, h.smul_right, horth j (by omega) n (by omega) (by omega)]
      simp
    rw [h.nsq_add_of_orth h0, h.nsq_smul]

/-- The least norm of an affine combination of nonzero orthogonal vectors. -/
theorem affine_min {g : E → E → 𝕜} (h : IsInner g) {n : ℕ} (hn : 0 < n) {r : ℕ → E}
    (horth : ∀ i < n, ∀ j < n, i ≠ j → g (r i) (r j) = 0) (hne : ∀ j < n, r j ≠ 0) :
    0 < ∑ j ∈ Finset.range n, (nsq g (r j))⁻¹ ∧
    (∀ c : ℕ → 𝕜, ∑ j ∈ Finset.range n, c j = 1 →
      (∑ j ∈ Finset.range n, (nsq g (r j))⁻¹)⁻¹ ≤ nsq g (∑ j ∈ Finset.range n, c j • r j)) ∧
    ∃ c : ℕ → 𝕜, ∑ j ∈ Finset.range n, c j = 1 ∧
      nsq g (∑ j ∈ Finset.range n, c j • r j) = (∑ j ∈ Finset.range n, (nsq g (r j))⁻¹)⁻¹ := by
  have hpos : ∀ j ∈ Finset.range n, 0 < nsq g (r j) := fun j hj => h.nsq_pos (hne j (Finset.mem_range.mp hj))
  set S := ∑ j ∈ Finset.range n, (nsq g (r j))⁻¹ with hS
  have hS0 : 0 < S := Finset.sum_pos (fun j hj => inv_pos.mpr (hpos j hj)) ⟨0, Finset.mem_range.mpr hn⟩
  refine ⟨hS0, fun c hc => ?_, fun j => (((nsq g (r j))⁻¹ * S⁻¹ : ℝ) : 𝕜), ?_, ?_⟩
  · rw [nsq_sum_orth h horth, inv_le_iff_one_le_mul₀ hS0]
    have h1 : (1 : ℝ) ≤ (∑ j ∈ Finset.range n, ‖c j‖) ^ 2 := by
      have h2 : (1 : ℝ) ≤ ∑ j ∈ Finset.range n, ‖c j‖ := by
        calc (1 : ℝ) = ‖∑ j ∈ Finset.range n, c j‖ := by rw [hc, norm_one]
          _ ≤ _ := norm_sum_le _ _
      nlinarith
    have h3 := Finset.sum_mul_sq_le_sq_mul_sq (Finset.range n) (fun j => ‖c j‖ * Real.sqrt (nsq g (r j)))
      (fun j => (Real.sqrt (nsq g (r j)))⁻¹)
    have e1 : ∑ j ∈ Finset.range n, ‖c j‖ * Real.sqrt (nsq g (r j)) * (Real.sqrt (nsq g (r j)))⁻¹ =
        ∑ j ∈ Finset.range n, ‖c j‖ := Finset.sum_congr rfl fun j hj => by
      rw [mul_inv_cancel_right₀ (Real.sqrt_pos.mpr (hpos j hj)).ne']
    have e2 : ∑ j ∈ Finset.range n, (‖c j‖ * Real.sqrt (nsq g (r j))) ^ 2 =
        ∑ j ∈ Finset.range n, ‖c j‖ ^ 2 * nsq g (r j) := Finset.sum_congr rfl fun j hj => by
      rw [mul_pow, Real.sq_sqrt (hpos j hj).le]
    have e3 : ∑ j ∈ Finset.range n, ((Real.sqrt (nsq g (r j)))⁻¹) ^ 2 = S := Finset.sum_congr rfl fun j hj => by
      rw [inv_pow, Real.sq_sqrt (hpos j hj).le]
    rw [e1, e2, e3] at h3
    exact h1.trans h3
  · rw [← RCLike.ofReal_sum, ← Finset.sum_mul, mul_inv_cancel₀ hS0.ne', RCLike.ofReal_one]
  · rw [nsq_sum_orth h horth]
    have e : ∀ j ∈ Finset.range n, ‖(((nsq g (r j))⁻¹ * S⁻¹ : ℝ) : 𝕜)‖ ^ 2 * nsq g (r j) = (nsq g (r j))⁻¹ * (S⁻¹ * S⁻¹) := by
      intro j hj
      rw [RCLike.norm_ofReal, sq_abs]
      have := (hpos j hj).ne'
      field_simp
    rw [Finset.sum_congr rfl e, ← Finset.sum_mul, ← mul_assoc, mul_inv_cancel₀ hS0.ne', one_mul]

/-! ## The residuals of the search spaces -/

/-- The residuals of the vectors of a search space are the affine combinations of the residuals of CG. -/
theorem cg_affine {a : LSArgs 𝕜 E} (h : SpdHyp a) {s : LS 𝕜 E} (hs : mkLS a = .ok s) (store : Bool)
    (p : SolverArgs E) (htol : 0 ≤ p.tol) (hb : a.Ml a.b ≠ 0) {st : St ℝ E (CgSt 𝕜 E)}
    (hrun : cg s s.hooks store p = .returned st ∨ cg s s.hooks store p = .convergence st) {k : ℕ} (hk : k < st.resnorms.length)
    (hne : ∀ j < k + 1, st.s.rs j ≠ 0) :
    (∀ x ∈ searchSpace a (p.x0.getD 0) k, ∃ c : ℕ → 𝕜, ∑ j ∈ Finset.range (k + 1), c j = 1 ∧
      a.Ml (a.b - a.A x) = ∑ j ∈ Finset.range (k + 1), c j • st.s.rs j) ∧
    ∀ c : ℕ → 𝕜, ∑ j ∈ Finset.range (k + 1), c j = 1 → ∃ x ∈ searchSpace a (p.x0.getD 0) k,
      a.Ml (a.b - a.A x) = ∑ j ∈ Finset.range (k + 1), c j • st.s.rs j := by
  obtain ⟨hres, horth, -⟩ := C31_residuals h hs store p htol hb hrun
  have hmem := fun i hi => ((C30_optimal h hs store p htol hb hrun).2 i hi).1
  set x0 := p.x0.getD 0 with hx0
  set B : E →ₗ[𝕜] E := a.Ml ∘ₗ a.A ∘ₗ a.Mr with hB
  set r0 := a.Ml (a.b - a.A x0) with hr0
  have key : ∀ z, a.Ml (a.b - a.A (x0 + a.Mr z)) = r0 - B z := fun z => by
    simp only [hr0, hB, LinearMap.comp_apply, map_add, map_sub]; abel
  have hrs : ∀ j < k + 1, st.s.rs j = r0 - B (st.s.ys j) := fun j hj => by rw [(hres j (by omega)).2, key]
  have hys : ∀ j < k + 1, st.s.ys j ∈ kry a x0 k := fun j hj => krylov_mono (by omega) (hmem j (by omega))
  have hrs0 : st.s.rs 0 = r0 := by
    have h1 : st.s.ys 0 ∈ kry a x0 0 := hmem 0 (by omega)
    have h2 : kry a x0 0 = ⊥ := by
      unfold kry krylov
      rw [Submodule.span_eq_bot]
      rintro x ⟨i, hi, -⟩
      omega
    rw [h2, Submodule.mem_bot] at h1
    rw [hrs 0 (by omega), h1, map_zero, sub_zero]
  -- affine combinations are residuals
  have hback : ∀ c : ℕ → 𝕜, ∑ j ∈ Finset.range (k + 1), c j = 1 →
      r0 - B (∑ j ∈ Finset.range (k + 1), c j • st.s.ys j) = ∑ j ∈ Finset.range (k + 1), c j • st.s.rs j := by
    intro c hc
    have e : ∑ j ∈ Finset.range (k + 1), c j • st.s.rs j =
        ∑ j ∈ Finset.range (k + 1), (c j • r0 - c j • B (st.s.ys j)) := Finset.sum_congr rfl fun j hj => by
      rw [hrs j (Finset.mem_range.mp hj), smul_sub]
    rw [e, Finset.sum_sub_distrib, ← Finset.sum_smul, hc, one_smul, map_sum]
    simp only [map_smul]
  refine ⟨?_, fun c hc => ⟨_, ⟨∑ j ∈ Finset.range (k + 1), c j • st.s.ys j,
    Submodule.sum_mem _ fun j hj => Submodule.smul_mem _ _ (hys j (Finset.mem_range.mp hj)), rfl⟩, by rw [key]; exact hback c hc⟩⟩
  rintro x ⟨z, hz, rfl⟩
  -- the iterates `y_1, ..., y_k` are a basis of the Krylov subspace
  have hfd : FiniteDimensional 𝕜 (kry a x0 k) := by
    unfold kry krylov
    refine FiniteDimensional.span_of_finite 𝕜 ?_
    refine ((Set.finite_Iio k).image fun i => ((a.M ∘ₗ a.Ml ∘ₗ a.A ∘ₗ a.Mr) ^ i) (a.M (a.Ml (a.b - a.A x0)))).subset ?_
    rintro x ⟨i, hi, rfl⟩
    exact ⟨i, hi, rfl⟩
  have hdim : Module.finrank 𝕜 (kry a x0 k) ≤ k := by
    have h1 : kry a x0 k = Submodule.span 𝕜 (Set.range fun i : Fin k =>
        ((a.M ∘ₗ a.Ml ∘ₗ a.A ∘ₗ a.Mr) ^ (i : ℕ)) (a.M (a.Ml (a.b - a.A x0)))) := by
      unfold kry krylov
      congr 1
      ext x
      constructor
      · rintro ⟨i, hi, rfl⟩; exact ⟨⟨i, hi⟩, rfl⟩
      · rintro ⟨i, rfl⟩; exact ⟨i, i.2, rfl⟩
    rw [h1]
    exact (finrank_range_le_card _).trans (by simp)
  have hli : LinearIndependent 𝕜 (fun i : Fin k => st.s.ys (i + 1)) := by
    rw [Fintype.linearIndependent_iff]
    intro d hd i
    -- apply `B` and take the inner product with the residual `i + 1`
    have h1 : ∑ j : Fin k, d j • (st.s.rs 0 - st.s.rs (j + 1)) = 0 := by
      have h2 := congrArg B hd
      rw [map_sum, map_zero] at h2
      rw [← h2]
      refine Finset.sum_congr rfl fun j _ => ?_
      rw [map_smul, hrs0, hrs (j + 1) (by omega)]
      congr 1
      abel
    have h3 := congrArg (fun w => a.ip (st.s.rs (i + 1)) (a.M w)) h1
    simp only [map_sum, map_zero, map_smul, map_sub, h.ls.inner.sum_right, h.ls.inner.smul_right, h.ls.inner.sub_right,
      h.ls.inner.zero_right] at h3
    rw [Finset.sum_eq_single i] at h3
    · rw [horth (i + 1) (by omega) 0 (by omega) (by omega), zero_sub] at h3
      have h4 : a.ip (st.s.rs (i + 1)) (a.M (st.s.rs (i + 1))) ≠ 0 := fun h0 =>
        hne (i + 1) (by omega) (h.ls.prec.self_eq_zero.mp h0)
      exact (mul_eq_zero.mp h3).resolve_right (neg_ne_zero.mpr h4)
    · intro j _ hj
      have hj' : (i : ℕ) ≠ j := fun h => hj (Fin.ext h.symm)
      rw [horth (i + 1) (by omega) 0 (by omega) (by omega), horth (i + 1) (by omega) (j + 1) (by omega) (by omega), sub_zero,
        mul_zero]
    · intro hi; exact absurd (Finset.mem_univ _) hi
  have hspan : Submodule.span 𝕜 (Set.range fun i : Fin k => st.s.ys (i + 1)) = kry a x0 k := by
    refine Submodule.eq_of_le_of_finrank_le ?_ ?_
    · rw [Submodule.span_le]
      rintro _ ⟨i, rfl⟩
      exact hys (i + 1) (by omega)
    · rw [finrank_span_eq_card hli, Fintype.card_fin]
      exact hdim
  change z ∈ kry a x0 k at hz
  rw [← hspan, Submodule.mem_span_range_iff_exists_fun] at hz
  obtain ⟨d, rfl⟩ := hz
  let d' : ℕ → 𝕜 := fun j => if hj : j < k then d ⟨j, hj⟩ else 0
  have hd' : ∑ i : Fin k, d i • st.s.ys (i + 1) = ∑ j ∈ Finset.range k, d' j • st.s.ys (j + 1) := by
    rw [Finset.sum_range]
    exact Finset.sum_congr rfl fun i _ => by simp [d']
  let c : ℕ → 𝕜 := fun j => if j = 0 then 1 - ∑ i ∈ Finset.range k, d' i else d' (j - 1)
  have hc : ∑ j ∈ Finset.range (k + 1), c j = 1 := by
    rw [Finset.sum_range_succ']
    simp [c]
  refine ⟨c, hc, ?_⟩
  rw [key, ← hback c hc, hd', Finset.sum_range_succ']
  congr 2
  have h00 : st.s.ys 0 = 0 := by
    have h1 : st.s.ys 0 ∈ kry a x0 0 := hmem 0 (by omega)
    have h2 : kry a x0 0 = ⊥ := by
      unfold kry krylov
      rw [Submodule.span_eq_bot]
      rintro x ⟨i, hi, -⟩
      omega
    rw [h2, Submodule.mem_bot] at h1
    exact h1
  rw [h00, smul_zero, add_zero]
  simp [c]

/-! ## The residual norms -/

/-- The relation between the residual norms `σ` of CG and those of a minimal residual method, `ρ`, as far as both exist. -/
structure PeakPlateau (σ ρ : List ℝ) : Prop where
  le : ∀ k (hk : k < σ.length) (hk' : k < ρ.length), ρ[k] ≤ σ[k]
  zero : ∀ k (hk : k < σ.length) (hk' : k < ρ.length), σ[k] = 0 ↔ ρ[k] = 0
  sum : ∀ k (hk : k < σ.length) (hk' : k < ρ.length), ρ[k] ≠ 0 → 1 / ρ[k] ^ 2 = ((σ.take (k + 1)).map fun t => 1 / t ^ 2).sum

/-- One step of the relation: a plateau of the minimal residual method is a peak of CG. -/
theorem PeakPlateau.step {σ ρ : List ℝ} (h : PeakPlateau σ ρ) {k : ℕ} (hk : k + 1 < σ.length) (hk' : k + 1 < ρ.length)
    (h0 : ρ[k] ≠ 0) (h1 : ρ[k + 1] ≠ 0) : 1 / ρ[k + 1] ^ 2 = 1 / ρ[k] ^ 2 + 1 / σ[k + 1] ^ 2 := by
  rw [h.sum (k + 1) hk hk' h1, h.sum k (by omega) (by omega) h0, List.take_add_one, List.getElem?_eq_getElem hk,
    List.map_append, List.sum_append]
  simp only [Option.toList_some, List.map_cons, List.map_nil, List.sum_cons, List.sum_nil, add_zero]

theorem take_sum (σ : List ℝ) (f : ℝ → ℝ) {n : ℕ} (hn : n ≤ σ.length) :
    ((σ.take n).map f).sum = ∑ j ∈ Finset.range n, f (σ.getD j 0) := by
  induction n with
  | zero => simp
  | succ n ih =>
    rw [Finset.sum_range_succ, ← ih (by omega), List.take_add_one, List.getElem?_eq_getElem (by omega), List.map_append, List.sum_append,
      List.getD_eq_getElem?_getD, List.getElem?_eq_getElem (show n < σ.length by omega)]
    simp only [Option.toList_some, List.map_cons, List.map_nil, List.sum_cons, List.sum_nil, add_zero, Option.getD_some]

theorem MinRes.peakPlateau {a : LSArgs 𝕜 E} (h : SpdHyp a) {s : LS 𝕜 E} (hs : mkLS a = .ok s) (store : Bool)
    (p : SolverArgs E) (htol : 0 ≤ p.tol) (hb : a.Ml a.b ≠ 0) {st : St ℝ E (CgSt 𝕜 E)}
    (hrun : cg s s.hooks store p = .returned st ∨ cg s s.hooks store p = .convergence st) {l : List ℝ} {x : E}
    (hm : MinRes a (p.x0.getD 0) l x) : PeakPlateau st.resnorms l := by
  have hpos := resid_pos h.ls hb
  have hpsd : PsdHyp a := ⟨h.ls, h.sa, fun x => h.energyInner.nsq_nonneg x⟩
  have hmem := fun i hi => ((C30_optimal h hs store p htol hb hrun).2 i hi).1
  obtain ⟨hres, horth, -⟩ := C31_residuals h hs store p htol hb hrun
  have hle : ∀ k (hk : k < st.resnorms.length) (hk' : k < l.length), l[k] ≤ st.resnorms[k] := fun k hk hk' => by
    have h1 := (hm.minima k hk').2 ⟨_, ⟨_, hmem k hk, rfl⟩, rfl⟩
    rw [← (hres k hk).1] at h1
    exact le_of_mul_le_mul_right h1 hpos
  have hl0 : ∀ k (hk' : k < l.length), 0 ≤ l[k] := fun k hk' => by
    obtain ⟨z, -, hz⟩ := (hm.minima k hk').1
    have h2 : 0 ≤ l[k] * resid a 0 := by rw [← hz]; exact nrm_nonneg _ _
    exact nonneg_of_mul_nonneg_left h2 hpos
  have hcg : ∀ k (hk : k < st.resnorms.length), SolvedIn a (p.x0.getD 0) k ↔ st.resnorms[k] = 0 := fun k hk => by
    constructor
    · intro hsol
      exact (cg_solved hpsd hs store p htol hb hrun hsol.consistent hk).mp hsol
    · intro h0
      refine ⟨_, ⟨st.s.ys k, hmem k hk, rfl⟩, (resid_eq_zero h.ls).mp ?_⟩
      rw [← (hres k hk).1, h0, zero_mul]
  have hzero : ∀ k (hk : k < st.resnorms.length) (hk' : k < l.length), st.resnorms[k] = 0 ↔ l[k] = 0 := fun k hk hk' => by
    constructor
    · intro h0
      exact le_antisymm (h0 ▸ hle k hk hk') (hl0 k hk')
    · intro h0
      rw [← hcg k hk]
      obtain ⟨z, hz, hz'⟩ := (hm.minima k hk').1
      refine ⟨z, hz, (resid_eq_zero h.ls).mp ?_⟩
      rw [hz', h0, zero_mul]
  refine ⟨hle, hzero, fun k hk hk' hne => ?_⟩
  have hne' : ∀ j < k + 1, st.s.rs j ≠ 0 := fun j hj h0 => by
    refine hne ((hzero k hk hk').mp ((hcg k hk).mp (SolvedIn.mono (m := j) (by omega) ?_)))
    exact ⟨_, ⟨st.s.ys j, hmem j (by omega), rfl⟩, by rw [← (hres j (by omega)).2]; exact h0⟩
  obtain ⟨hfwd, hbwd⟩ := cg_affine h hs store p htol hb hrun hk hne'
  obtain ⟨hS, hlow, c, hc, hatt⟩ := affine_min h.ls.prec (Nat.succ_pos k) (r := st.s.rs)
    (fun i hi j hj hij => horth i (by omega) j (by omega) hij) hne'
  -- the squared residual norm of a vector is the value of the quadratic form
  have hsq : ∀ z, resid a z ^ 2 = nsq (fun x y => a.ip x (a.M y)) (a.Ml (a.b - a.A z)) := fun z => h.ls.prec.nrm_sq _
  have hrs : ∀ j ∈ Finset.range (k + 1), (nsq (fun x y => a.ip x (a.M y)) (st.s.rs j))⁻¹ =
      (1 / st.resnorms.getD j 0 ^ 2) * (1 / resid a 0 ^ 2) := fun j hj => by
    have hj' : j < st.resnorms.length := by have := Finset.mem_range.mp hj; omega
    rw [(hres j hj').2, ← hsq, ← (hres j hj').1, List.getD_eq_getElem?_getD, List.getElem?_eq_getElem hj', mul_pow, mul_inv,
      one_div, one_div, Option.getD_some]
  rw [Finset.sum_congr rfl hrs, ← Finset.sum_mul] at hS hlow hatt
  rw [take_sum _ _ (by omega)]
  set T := ∑ j ∈ Finset.range (k + 1), 1 / st.resnorms.getD j 0 ^ 2 with hT
  have hT0 : 0 < T := by
    have : 0 < 1 / resid a 0 ^ 2 := by positivity
    exact pos_of_mul_pos_left hS this.le
  have hkey : (l[k] * resid a 0) ^ 2 = (T * (1 / resid a 0 ^ 2))⁻¹ := by
    refine le_antisymm ?_ ?_
    · obtain ⟨z, hz, hzc⟩ := hbwd c hc
      rw [← hatt, ← hzc, ← hsq]
      exact pow_le_pow_left₀ (mul_nonneg (hl0 k hk') hpos.le) ((hm.minima k hk').2 ⟨z, hz, rfl⟩) 2
    · obtain ⟨z, hz, hz'⟩ := (hm.minima k hk').1
      obtain ⟨d, hd, hzd⟩ := hfwd z hz
      rw [← hz', hsq z, hzd]
      exact hlow d hd
  have hl2 : l[k] ^ 2 = T⁻¹ := by
    have hp2 : resid a 0 ^ 2 ≠ 0 := (pow_pos hpos 2).ne'
    rw [mul_pow, mul_inv, one_div, inv_inv] at hkey
    exact mul_right_cancel₀ hp2 hkey
  rw [hl2, one_div, inv_inv]

/-- C71: the residual norms of `Cg` and `Minres` for a self-adjoint positive definite system. -/
theorem C71_minres {a : LSArgs 𝕜 E} (h : SpdHyp a) {s : LS 𝕜 E} (hs : mkLS a = .ok s) (store : Bool) (ortho : Ortho)
    (p q : SolverArgs E) (hp : 0 ≤ p.tol) (hq : 0 ≤ q.tol) (hx0 : p.x0.getD 0 = q.x0.getD 0) (hb : a.Ml a.b ≠ 0)
    {st : St ℝ E (CgSt 𝕜 E)} (hrun : cg s s.hooks store p = .returned st ∨ cg s s.hooks store p = .convergence st)
    {st' : St ℝ E (MinresSt 𝕜 E)}
    (hrun' : minres s s.hooks ortho q = .returned st' ∨ minres s s.hooks ortho q = .convergence st') :
    PeakPlateau st.resnorms st'.resnorms := by
  obtain ⟨x, -, hm, -⟩ := C29_optimal ⟨h.ls, h.sa⟩ hs ortho q hq hb hrun'
  exact MinRes.peakPlateau h hs store p hp hb hrun (hx0 ▸ hm)

/-- C71: the same for `Gmres`. -/
theorem C71_gmres {a : LSArgs 𝕜 E} (h : SpdHyp a) {s : LS 𝕜 E} (hs : mkLS a = .ok s) (store : Bool) {ortho : Ortho}
    (ho : GmresHyp a ortho)
    (p q : SolverArgs E) (hp : 0 ≤ p.tol) (hq : 0 ≤ q.tol) (hx0 : p.x0.getD 0 = q.x0.getD 0) (hb : a.Ml a.b ≠ 0)
    {st : St ℝ E (CgSt 𝕜 E)} (hrun : cg s s.hooks store p = .returned st ∨ cg s s.hooks store p = .convergence st)
    {st' : St ℝ E (GmresSt 𝕜 E)}
    (hrun' : gmres s s.hooks ortho q = .returned st' ∨ gmres s s.hooks ortho q = .convergence st') :
    PeakPlateau st.resnorms st'.resnorms := by
  obtain ⟨x, -, hm, -⟩ := C26_optimal ho hs q hq hb hrun'
  exact MinRes.peakPlateau h hs store p hp hb hrun (hx0 ▸ hm)

/-- C71: called with the same arguments, `Minres` never needs more iterations than `Cg`, and if `Cg` returns, then `Minres` does not raise
`ConvergenceError`. -/
theorem C71_minres_le {a : LSArgs 𝕜 E} (h : SpdHyp a) {s : LS 𝕜 E} (hs : mkLS a = .ok s) (store : Bool) (ortho : Ortho)
    (p : SolverArgs E) (htol : 0 ≤ p.tol) (hmax : 1 ≤ p.maxiter) (hb : a.Ml a.b ≠ 0) (hcons : Consistent a (p.x0.getD 0))
    {st : St ℝ E (CgSt 𝕜 E)} (hrun : cg s s.hooks store p = .returned st) :
    ∃ st', minres s s.hooks ortho p = .returned st' ∧ st'.resnorms.length ≤ st.resnorms.length := by
  have hpsd : PsdHyp a := ⟨h.ls, h.sa, fun x => h.energyInner.nsq_nonneg x⟩
  have hc := C22_cg s s.hooks store p
  have hc' := C22_minres s s.hooks ortho p
  obtain ⟨st', hst'⟩ := (C67_minres ⟨h.ls, h.sa⟩ hs ortho p htol hb hcons).1
  have hpp := C71_minres h hs store ortho p p htol htol rfl hb (Or.inl hrun) hst'
  have hpos : 0 < st.resnorms.length := by have := (hc.history st (Or.inl hrun)).1; omega
  obtain ⟨-, r, hr, hr'⟩ := hc.returned hmax st hrun
  rcases hr' with hr' | hr'
  swap
  · cases hr'
  rw [List.getLast?_eq_getElem?, List.getElem?_eq_getElem (by omega), Option.some.injEq] at hr
  have hle : st'.resnorms.length ≤ st.resnorms.length := by
    by_contra hcon
    have h1 := hpp.le (st.resnorms.length - 1) (by omega) (by omega)
    have h2 := hc'.earlier st' hst' (st.resnorms.length - 1) _ (by omega) (List.getElem?_eq_getElem (by omega))
    rw [hr] at h1
    exact hr' (lt_of_lt_of_le h2 h1)
  rcases hst' with hst' | hst'
  · exact ⟨st', hst', hle⟩
  · exfalso
    obtain ⟨-, h2, x', v, -, -, h5, h6⟩ := hc'.convergence st' hst'
    have h3 := (hc.history st (Or.inl hrun)).2.1
    change _ ≤ p.maxiter + 1 at h3
    change _ = p.maxiter + 1 at h2
    have h1 := hpp.le (st.resnorms.length - 1) (by omega) (by omega)
    rw [List.getLast?_eq_getElem?, List.getElem?_eq_getElem (by omega), Option.some.injEq] at h5
    have h7 : st.resnorms.length - 1 = st'.resnorms.length - 1 := by omega
    rw [hr] at h1
    simp only [h7] at h1
    rw [h5] at h1
    exact hr' (lt_of_lt_of_le h6 h1)

/-! ## Non-vacuity -/

/-- Runs of `Cg` and `Minres` with the relation exist; `Cg` carries out two iterations and has a nonzero residual after the first. -/
example : ∃ s st st', mkLS exSpd = .ok s ∧ cg s s.hooks true ⟨none, 0, 5, false, none⟩ = .returned st ∧
    minres s s.hooks .lanczos ⟨none, 0, 5, false, none⟩ = .returned st' ∧ st.resnorms.length = 3 ∧
    st'.resnorms.length ≤ 3 ∧ PeakPlateau st.resnorms st'.resnorms := by
  obtain ⟨s, hs, -⟩ := mkLS_ok exSpd_hyp.ls
  obtain ⟨h2, h1, -⟩ := exSpd_solvedIn
  have hp : PsdHyp exSpd := ⟨exSpd_hyp.ls, exSpd_hyp.sa, fun x => exSpd_hyp.energyInner.nsq_nonneg x⟩
  have hb : exSpd.Ml exSpd.b ≠ 0 := by simp [exSpd]
  have hleast : IsLeast {n | SolvedIn exSpd 0 n} 2 := ⟨h2, fun n hn => by
    by_contra hcon
    exact h1 (hn.mono (by omega))⟩
  obtain ⟨st, hst, -⟩ := (C70_cg hp hs true ⟨none, 0, 5, false, none⟩ le_rfl hb (n := 2) h2).2 (by norm_num)
  have hlen := (C70_cg_count hp hs true ⟨none, 0, 5, false, none⟩ rfl (by norm_num) hb h2.consistent hst).unique hleast
  obtain ⟨st', hst', hle⟩ := C71_minres_le exSpd_hyp hs true .lanczos ⟨none, 0, 5, false, none⟩ le_rfl (by norm_num) hb
    h2.consistent hst
  exact ⟨s, st, st', hs, hst, hst', by omega, by omega,
    C71_minres exSpd_hyp hs true .lanczos _ _ le_rfl le_rfl rfl hb (Or.inl hst) (Or.inl hst')⟩

/-- The relation with numbers: a plateau of the minimal residual method is a peak of CG. -/
example : PeakPlateau [1, 2] [1, Real.sqrt (4 / 5)] where
  le := fun k hk hk' => by
    match k with
    | 0 => simp
    | 1 => simpa using (Real.sqrt_le_sqrt (show (4 / 5 : ℝ) ≤ 2 ^ 2 by norm_num)).trans (Real.sqrt_sq (by norm_num)).le
    | k + 2 => simp at hk
  zero := fun k hk hk' => by
    match k with
    | 0 => simp
    | 1 => simp
    | k + 2 => simp at hk
  sum := fun k hk hk' h0 => by
    match k with
    | 0 => simp
    | 1 =>
      have : Real.sqrt (4 / 5) ^ 2 = 4 / 5 := Real.sq_sqrt (by norm_num)
      change 1 / Real.sqrt (4 / 5) ^ 2 = _
      rw [this]
      norm_num
    | k + 2 => simp at hk

end Krypy
