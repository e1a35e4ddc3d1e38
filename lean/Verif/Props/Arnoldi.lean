import Verif.Proofs.Arnoldi
import Verif.Proofs.Krylov

/-! # Properties C17, C18, C20 and C21: the Arnoldi iteration -/

set_option linter.unusedSectionVars false

namespace Krypy
variable {𝕜 E : Type*} [RCLike 𝕜] [AddCommGroup E] [Module 𝕜 E]
open scoped ComplexConjugate
open Finset

/-- The states of an `Arnoldi` object constructed with start vector `v` (and consistent optional arguments
`Mv = M v`, `Mv_norm = ‖v‖`) after any number of successful calls of `advance()`. -/
inductive ArnReach (c : ArnCfg 𝕜 E) (v : E) : Arn 𝕜 E → Prop
  | init {Mv MvNorm s} : (∀ w, Mv = some w → w = c.Mop v) → (∀ r, MvNorm = some r → r = nrm c.g v) →
      arnInit c v Mv MvNorm = .ok s → ArnReach c v s
  | step {s s'} : ArnReach c v s → arnAdvance c s = .ok s' → ArnReach c v s'

theorem ArnReach.inv {c : ArnCfg 𝕜 E} (hc : ArnHyp c) {v : E} {s : Arn 𝕜 E} (h : ArnReach c v s) :
    ArnInv c v s := by
  induction h with
  | init h1 h2 h3 =>
    obtain ⟨s, hs, inv, -⟩ := arnInit_inv hc v h1 h2
    rw [h3] at hs
    obtain rfl := Except.ok.inj hs
    exact inv
  | step _ h2 ih => exact (arnAdvance_inv hc ih h2).1

/-- What `get()` returns satisfies the Arnoldi relation: specification independent of the algorithm.
`n` basis vectors, `m` columns of `H`. -/
structure ArnoldiRelation (A M : E →ₗ[𝕜] E) (ip : E → E → 𝕜) (V P : ℕ → E) (H : ℕ → ℕ → 𝕜) (n m : ℕ) :
    Prop where
  orth : ∀ i < n, ∀ j < n, ip (P i) (V j) = if i = j then 1 else 0
  VM : ∀ i < n, V i = M (P i)
  hess : ∀ i j, j + 1 < i → H i j = 0
  sub : ∀ j < m, ∃ r : ℝ, 0 ≤ r ∧ H (j + 1) j = (r : 𝕜)
  rel : ∀ j, j + 1 < n → A (V j) = ∑ i ∈ range n, H i j • P i
  entries : ∀ i < n, ∀ j < m, H i j = ip (V i) (A (V j))

theorem sum_hess {H : ℕ → ℕ → 𝕜} (hess : ∀ i j, j + 1 < i → H i j = 0) (P : ℕ → E) {j n : ℕ}
    (hn : j + 2 ≤ n) : ∑ i ∈ range (j + 2), H i j • P i = ∑ i ∈ range n, H i j • P i := by
  refine Finset.sum_subset (fun i hi => ?_) fun i _ hni => ?_
  · rw [Finset.mem_range] at *; omega
  · rw [Finset.mem_range] at hni
    rw [hess i j (by omega), zero_smul]

theorem ArnCore.relation {c : ArnCfg 𝕜 E} (hc : ArnHyp c) {v : E} {k : ℕ} {s : Arn 𝕜 E}
    (core : ArnCore c v k s) : ArnoldiRelation c.A c.Mop c.ip s.V s.P s.H (k + 1) k := by
  have hrel : ∀ j, j < k → c.A (s.V j) = ∑ i ∈ range (k + 1), s.H i j • s.P i := by
    intro j hj
    rw [core.rel j hj]
    exact sum_hess core.hess s.P (by omega)
  refine ⟨fun i hi j hj => ?_, fun i hi => core.VM i (by omega), core.hess,
    fun j hj => ?_, fun j hj => hrel j (by omega), fun i hi j hj => ?_⟩
  · rw [core.VM j (by omega)]
    exact core.orth i (by omega) j (by omega)
  · obtain ⟨r, hr, h⟩ := core.sub j hj
    exact ⟨r, hr.le, h⟩
  · rw [hrel j hj, ip_V hc core.orth core.VM (by omega)]
    exact (hc.inner.coeff (fun a ha b hb => core.orth a (by omega) b (by omega))
      (fun i => s.H i j) hi).symm

/-- C17 (and the first half of C18): after every number of `advance()` calls of an `mgs`, `dmgs` or (for
self-adjoint `A`) `lanczos` object, what `get()` returns satisfies the Arnoldi relation with an
orthonormal basis whose first vector is `v/‖v‖`; if the space was not flagged invariant, there is one more
basis vector than columns, all subdiagonal entries are positive; otherwise the defect `w` of the last
column is orthogonal to the basis, its norm is the entry below the diagonal and at most `1e-14 * ‖H‖`. -/
theorem C17_arnoldi {c : ArnCfg 𝕜 E} (hc : ArnHyp c) {v : E} {s : Arn 𝕜 E} (h : ArnReach c v s) :
    s.vnorm = nrm c.g v ∧
    ArnoldiRelation c.A c.Mop c.ip s.V s.P s.H s.get.basis s.get.cols ∧
    (v ≠ 0 → (s.vnorm : 𝕜) • s.P 0 = v) ∧
    (s.invariant = false → s.get.basis = s.iter + 1 ∧ s.get.cols = s.iter ∧
      ∀ j < s.get.cols, s.H (j + 1) j ≠ 0) ∧
    (s.invariant = true → s.get.basis = s.iter ∧ s.get.cols = s.iter ∧
      ∀ j, j + 1 = s.iter → ∃ w, c.A (s.V j) = ∑ i ∈ range s.iter, s.H i j • s.P i + w ∧
        (∀ i < s.iter, c.g (s.P i) w = 0) ∧ s.H (j + 1) j = (nrm c.g w : 𝕜) ∧
        nrm c.g w ≤ 1e-14 * specNorm s.H (s.iter + 1) s.iter) := by
  have inv := h.inv hc
  refine ⟨inv.vnorm, ?_⟩
  cases hi : s.invariant with
  | false =>
    have core := inv.live hi
    have e : s.get = ⟨s.iter + 1, s.iter + 1, s.iter⟩ := by simp [Arn.get, hi]
    rw [e]
    refine ⟨core.relation hc, fun _ => core.start, fun _ => ⟨rfl, rfl, fun j hj => ?_⟩, by simp⟩
    obtain ⟨r, hr, h⟩ := core.sub j hj
    rw [h]
    simpa using hr.ne'
  | true =>
    have e : s.get = ⟨s.iter, s.iter, s.iter⟩ := by simp [Arn.get, hi]
    rw [e]
    rcases inv.flagged hi with ⟨hv, h0⟩ | ⟨k, w, hk, core, last⟩
    · simp only [h0]
      refine ⟨⟨by simp, by simp, fun i j _ => inv.zero i j (by omega), by simp, by simp, by simp⟩,
        fun hne => absurd hv hne, by simp, fun _ => ⟨trivial, trivial, fun j hj => by omega⟩⟩
    · have hR := core.relation hc
      simp only [hk]
      refine ⟨⟨hR.orth, hR.VM, hR.hess, fun j hj => ?_, hR.rel, fun i hi j hj => ?_⟩,
        fun _ => core.start, by simp, fun _ => ⟨trivial, trivial, fun j hj => ?_⟩⟩
      · rcases Nat.lt_or_ge j k with h1 | h1
        · exact hR.sub j h1
        · obtain rfl : j = k := by omega
          exact ⟨_, nrm_nonneg _ _, last.norm⟩
      · rcases Nat.lt_or_ge j k with h1 | h1
        · exact hR.entries i hi j h1
        · obtain rfl : j = k := by omega
          rw [last.rel, ip_V hc core.orth core.VM (by omega), hc.inner.add_right,
            last.orth i (by omega), add_zero]
          exact (hc.inner.coeff (fun a ha b hb => core.orth a (by omega) b (by omega))
            (fun i => s.H i j) hi).symm
      · obtain rfl : j = k := by omega
        exact ⟨w, last.rel, fun i hi => last.orth i (by omega), last.norm, last.small⟩

/-- C17: in the preconditioned basis, `M A V_j = ∑ H_ij V_i`. -/
theorem C17_preconditioned {A M : E →ₗ[𝕜] E} {ip : E → E → 𝕜} {V P : ℕ → E} {H : ℕ → ℕ → 𝕜} {n m : ℕ}
    (h : ArnoldiRelation A M ip V P H n m) {j : ℕ} (hj : j + 1 < n) :
    M (A (V j)) = ∑ i ∈ range n, H i j • V i := by
  rw [h.rel j hj, map_sum]
  refine Finset.sum_congr rfl fun i hi => ?_
  rw [map_smul, h.VM i (Finset.mem_range.mp hi)]

/-- C17: `get_last()` returns the last of the basis vectors of `get()` (`None` if the space is invariant) and as many entries
of the last column of `H` as `get()` has rows; that vector is the normalised new direction of the last step. -/
theorem C17_get_last {c : ArnCfg 𝕜 E} (hc : ArnHyp c) {v : E} {s : Arn 𝕜 E} (h : ArnReach c v s) :
    s.getLast.2 = s.get.rows ∧ (s.invariant = true → s.getLast.1 = none) ∧
    (s.invariant = false → ∃ w, s.getLast.1 = some w ∧ w = s.V (s.get.basis - 1) ∧
      (∀ i, i + 1 < s.get.basis → c.ip (s.P i) w = 0) ∧
      ∀ j, j + 1 = s.iter → s.H (j + 1) j • w = c.Mop (c.A (s.V j)) - ∑ i ∈ range (j + 1), s.H i j • s.V i) := by
  refine ⟨by unfold Arn.getLast Arn.get; split <;> rfl, fun hi => by simp [Arn.getLast, hi], fun hi => ?_⟩
  have hR := (C17_arnoldi hc h).2.1
  have hb : s.get.basis = s.iter + 1 := by simp [Arn.get, hi]
  rw [hb] at hR ⊢
  refine ⟨s.V s.iter, by simp [Arn.getLast, hi], rfl, fun i hi2 => ?_, fun j hj => ?_⟩
  · rw [hR.orth i (by omega) s.iter (by omega), if_neg (by omega)]
  · rw [C17_preconditioned hR (by omega : j + 1 < s.iter + 1), Finset.sum_range_succ, ← hj, add_sub_cancel_left]

/-- C17: the next call of `advance()` succeeds unless the object is exhausted or the very first product
`A V_0` vanishes. -/
theorem C17_advance_total {c : ArnCfg 𝕜 E} (hc : ArnHyp c) {v : E} {s : Arn 𝕜 E} (h : ArnReach c v s)
    (hit : s.iter < c.maxiter) (hni : s.invariant = false) (hA : c.A (c.Mop v) ≠ 0) :
    ∃ s', arnAdvance c s = .ok s' ∧ ArnReach c v s' := by
  have inv := h.inv hc
  rcases arnAdvance_total hc inv hit hni with ⟨s', hs'⟩ | ⟨-, h0, hz⟩
  · exact ⟨s', hs', .step h hs'⟩
  · exfalso
    apply hA
    have core := inv.live hni
    have hv := core.start
    rw [← hv, map_smul, ← core.VM 0 (by omega), map_smul, hz, smul_zero]

/-- Finding (C17): if the first product vanishes, `H` is zero, the quotient is `0/0` and the iteration
continues with NaN instead of flagging the (invariant!) space. -/
theorem C17_zero_product_counterexample {c : ArnCfg 𝕜 E} (hc : ArnHyp c) {v : E} (hv : v ≠ 0)
    (hA : c.A (c.Mop v) = 0) (hm : 0 < c.maxiter) :
    ∃ s, arnInit c v none none = .ok s ∧ arnAdvance c s = .error .nonFinite := by
  obtain ⟨s, hs, inv, hi, hv0⟩ := arnInit_inv hc v (Mv := none) (MvNorm := none) (by simp) (by simp)
  refine ⟨s, hs, ?_⟩
  have hni : s.invariant = false := by
    rw [Bool.eq_false_iff]; exact fun h => hv (hv0.mp h)
  have core := inv.live hni
  have hAV : c.A (s.V 0) = 0 := by
    have hr0 : (s.vnorm : 𝕜) ≠ 0 := by simpa using core.vpos.ne'
    have : (s.vnorm : 𝕜) • c.A (s.V 0) = 0 := by
      rw [core.VM 0 (by omega), ← map_smul, ← map_smul, core.start, hA]
    exact (smul_eq_zero.mp this).resolve_left hr0
  rw [arnAdvance_eq hc inv (by omega) hni, if_pos]
  rw [specNorm_eq_zero]
  intro i hi' j hj
  rw [hi] at hi' hj
  obtain rfl : j = 0 := by omega
  have hrem : remainder c s = 0 := by
    simp [remainder, hi, hAV, hc.inner.zero_right]
  rcases Nat.lt_or_ge i 1 with h1 | h1
  · obtain rfl : i = 0 := by omega
    have := newH_col hc (s := s) (i := 0) (by omega)
    rw [hi] at this
    rw [this, hAV, hc.inner.zero_right]
  · obtain rfl : i = 1 := by omega
    have := newH_sub hc (s := s)
    rw [hi] at this
    rw [this, hrem, hc.inner.nrm_eq_zero.mpr rfl]
    simp

/-- C18: for self-adjoint operators the Lanczos recurrence computes exactly the states of the `mgs`
variant. -/
theorem C18_lanczos_eq_mgs {c : ArnCfg 𝕜 E} (hc : ArnHyp c) {v : E} {s : Arn 𝕜 E}
    (h : ArnReach c v s) : ArnReach { c with ortho := .mgs } v s := by
  have hc' : ArnHyp ({ c with ortho := .mgs } : ArnCfg 𝕜 E) := ⟨hc.ls, fun h => by simp at h⟩
  induction h with
  | init h1 h2 h3 => exact .init h1 h2 h3
  | @step s s' hr h2 ih =>
    refine .step ih ?_
    obtain ⟨-, -, hit, hni⟩ := arnAdvance_inv hc (hr.inv hc) h2
    rw [arnAdvance_eq hc (hr.inv hc) hit hni] at h2
    rw [arnAdvance_eq hc' (ih.inv hc') hit hni]
    exact h2

/-- C18: for self-adjoint operators the computed `H` is real, symmetric and tridiagonal (in all variants). -/
theorem C18_tridiagonal {c : ArnCfg 𝕜 E} (hc : ArnHyp c)
    (hsa : ∀ x y, c.ip (c.A x) y = c.ip x (c.A y)) {v : E} {s : Arn 𝕜 E} (h : ArnReach c v s) :
    ∀ i < s.iter, ∀ j < s.iter, s.H i j = s.H j i ∧ RCLike.im (s.H i j) = 0 ∧
      (j + 1 < i ∨ i + 1 < j → s.H i j = 0) := by
  have hR := (C17_arnoldi hc h).2.1
  have hle : s.iter ≤ s.get.basis := by unfold Arn.get; split <;> simp
  have hcols : s.get.cols = s.iter := by unfold Arn.get; split <;> simp
  have hH : ∀ i < s.iter, ∀ j < s.iter, s.H i j = c.ip (s.V i) (c.A (s.V j)) :=
    fun i hi j hj => hR.entries i (by omega) j (by omega)
  have hherm : ∀ i < s.iter, ∀ j < s.iter, s.H j i = conj (s.H i j) := by
    intro i hi j hj
    rw [hH i hi j hj, hH j hj i hi, hc.ls.inner.conj_symm, hsa]
  have hdiag : ∀ i < s.iter, RCLike.im (s.H i i) = 0 :=
    fun i hi => RCLike.conj_eq_iff_im.mp (hherm i hi i hi).symm
  have hsub : ∀ j < s.iter, RCLike.im (s.H (j + 1) j) = 0 := by
    intro j hj
    obtain ⟨r, -, hr⟩ := hR.sub j (by omega)
    rw [hr, RCLike.ofReal_im]
  have hreal : ∀ i < s.iter, ∀ j < s.iter, RCLike.im (s.H i j) = 0 := by
    intro i hi j hj
    rcases lt_trichotomy i j with h1 | h1 | h1
    · rw [hherm j hj i hi, RCLike.conj_im, neg_eq_zero]
      rcases Nat.lt_or_ge (i + 1) j with h2 | h2
      · rw [hR.hess j i h2, map_zero]
      · obtain rfl : j = i + 1 := by omega
        exact hsub i hi
    · subst h1; exact hdiag i hi
    · rcases Nat.lt_or_ge (j + 1) i with h2 | h2
      · rw [hR.hess i j h2, map_zero]
      · obtain rfl : i = j + 1 := by omega
        exact hsub j hj
  intro i hi j hj
  refine ⟨?_, hreal i hi j hj, ?_⟩
  · rw [hherm i hi j hj]
    exact (RCLike.conj_eq_iff_im.mpr (hreal i hi j hj)).symm
  · rintro (h1 | h1)
    · exact hR.hess i j h1
    · rw [hherm j hj i hi, hR.hess j i h1, map_zero]

/-- C20: the computed basis vectors span the Krylov subspaces `K_n(M A, M v)`. -/
theorem C20_krylov {c : ArnCfg 𝕜 E} (hc : ArnHyp c) {v : E} {s : Arn 𝕜 E} (h : ArnReach c v s) (n : ℕ)
    (hn : n ≤ s.get.basis) : spanTo s.V n = krylov (c.Mop ∘ₗ c.A) (c.Mop v) n := by
  have inv := h.inv hc
  have key : ∀ k, ArnCore c v k s → n ≤ k + 1 →
      spanTo s.V n = krylov (c.Mop ∘ₗ c.A) (c.Mop v) n := by
    intro k core hk
    have hr0 : (s.vnorm : 𝕜) ≠ 0 := by simpa using core.vpos.ne'
    refine spanTo_eq_krylov (t := (s.vnorm : 𝕜)) (h := s.H) (k := k) hr0 ?_ ?_ ?_ n hk
    · rw [core.VM 0 (by omega), ← map_smul, core.start]
    · intro j hj
      rw [LinearMap.comp_apply, core.rel j hj, map_sum]
      refine Finset.sum_congr rfl fun i hi => ?_
      have := Finset.mem_range.mp hi
      rw [map_smul, core.VM i (by omega)]
    · intro j hj
      obtain ⟨r, hr, h⟩ := core.sub j hj
      rw [h]
      simpa using hr.ne'
  cases hi : s.invariant with
  | false =>
    exact key s.iter (inv.live hi) (by simpa [Arn.get, hi] using hn)
  | true =>
    have hn' : n ≤ s.iter := by simpa [Arn.get, hi] using hn
    rcases inv.flagged hi with ⟨-, h0⟩ | ⟨k, w, hk, core, -⟩
    · obtain rfl : n = 0 := by omega
      rw [krylov_eq_spanTo, spanTo_zero, spanTo_zero]
    · exact key k core (by omega)

/-- C20: the invariance flag with a zero entry below the diagonal means an invariant Krylov subspace. -/
theorem C20_invariant {c : ArnCfg 𝕜 E} (hc : ArnHyp c) {v : E} {s : Arn 𝕜 E} (h : ArnReach c v s)
    (hi : s.invariant = true) (hz : ∀ j, j + 1 = s.iter → s.H (j + 1) j = 0) {x : E}
    (hx : x ∈ krylov (c.Mop ∘ₗ c.A) (c.Mop v) s.iter) :
    c.Mop (c.A x) ∈ krylov (c.Mop ∘ₗ c.A) (c.Mop v) s.iter := by
  have e : s.get.basis = s.iter := by simp [Arn.get, hi]
  have hR := (C17_arnoldi hc h).2.1
  have hlast := ((C17_arnoldi hc h).2.2.2.2 hi).2.2
  rw [← C20_krylov hc h s.iter (by omega)] at hx ⊢
  obtain ⟨a, rfl⟩ := mem_spanTo_iff.mp hx
  rw [map_sum, map_sum]
  refine Submodule.sum_mem _ fun j hj => ?_
  rw [map_smul, map_smul]
  refine Submodule.smul_mem _ _ ?_
  have hj' := Finset.mem_range.mp hj
  have hAV : c.A (s.V j) = ∑ i ∈ range s.iter, s.H i j • s.P i := by
    rcases Nat.lt_or_ge (j + 1) s.iter with h1 | h1
    · rw [hR.rel j (by omega), e]
    · obtain ⟨w, hw, -, hn, -⟩ := hlast j (by omega)
      rw [hz j (by omega)] at hn
      have : w = 0 := by
        rw [← hc.inner.nrm_eq_zero]
        have h2 : ((nrm c.g w : ℝ) : 𝕜) = 0 := hn.symm
        simpa using h2
      rw [hw, this, add_zero]
  rw [hAV, map_sum]
  refine Submodule.sum_mem _ fun i hi' => ?_
  have hi'' := Finset.mem_range.mp hi'
  rw [map_smul, ← hR.VM i (by omega)]
  exact Submodule.smul_mem _ _ (mem_spanTo hi'')

/-- C21: for all inputs whatsoever the loop of `arnoldi()` ends within `maxiter` passes. -/
theorem C21_terminates (c : ArnCfg 𝕜 E) (v : E) (Mv : Option E) (MvNorm : Option ℝ) :
    arnoldi c v Mv MvNorm ≠ .error .other := by
  have hnp : ∀ z : 𝕜, npNorm z ≠ .error .other := by
    intro z; unfold npNorm; split <;> simp
  have hadv : ∀ s, arnAdvance c s ≠ .error .other ∧ ∀ s', arnAdvance c s = .ok s' → s'.iter = s.iter + 1 := by
    intro s
    unfold arnAdvance
    split
    · simp
    split
    · simp
    dsimp only
    split
    · next e he =>
      constructor
      · intro h0
        have : e = .other := by simpa using h0
        subst this
        exact hnp _ he
      · simp
    · split
      · simp
      split
      · constructor
        · simp
        · intro s' h; obtain rfl := Except.ok.inj h; rfl
      · constructor
        · simp
        · intro s' h; obtain rfl := Except.ok.inj h; rfl
  have hloop : ∀ fuel s, c.maxiter ≤ s.iter + fuel → arnLoop c fuel s ≠ .error .other := by
    intro fuel
    induction fuel with
    | zero =>
      intro s hs
      unfold arnLoop
      rw [if_neg (by omega)]
      simp
    | succ fuel ih =>
      intro s hs
      unfold arnLoop
      split
      · dsimp only
        split
        · next e he =>
          intro h0
          have : e = .other := by simpa using h0
          subst this
          exact (hadv s).1 he
        · next s' hs' =>
          have := (hadv s).2 s' hs'
          exact ih s' (by omega)
      · simp
  unfold arnoldi
  split
  · next e he =>
    intro h0
    have : e = .other := by simpa using h0
    subst this
    unfold arnInit at he
    dsimp only at he
    split at he
    · next e' he' =>
      have : e' = .other := by simpa using he
      subst this
      unfold startNorm at he'
      split at he'
      · simp at he'
      · exact hnp _ he'
    · split at he <;> simp at he
  · next s hs =>
    exact hloop _ _ (by omega)

/-- C21: `arnoldi()` returns (unless the first product vanishes) a reachable state in which either the
maximal number of iterations is reached or the space was flagged invariant. -/
theorem C21_result {c : ArnCfg 𝕜 E} (hc : ArnHyp c) {v : E}
    (hA : c.A (c.Mop v) ≠ 0 ∨ v = 0) : ∃ s, arnoldi c v none none = .ok s ∧ ArnReach c v s ∧
      s.iter ≤ c.maxiter ∧ (s.iter = c.maxiter ∨ s.invariant = true) := by
  have hloop : ∀ fuel s, ArnReach c v s → c.maxiter ≤ s.iter + fuel → ∃ s', arnLoop c fuel s = .ok s' ∧
      ArnReach c v s' ∧ s'.iter ≤ c.maxiter ∧ (s'.iter = c.maxiter ∨ s'.invariant = true) := by
    intro fuel
    induction fuel with
    | zero =>
      intro s hr hs
      have := (hr.inv hc).le
      unfold arnLoop
      rw [if_neg (by omega)]
      exact ⟨s, rfl, hr, this, Or.inl (by omega)⟩
    | succ fuel ih =>
      intro s hr hs
      unfold arnLoop
      split
      · next hg =>
        have hv : v ≠ 0 := by
          rintro rfl
          have core := (hr.inv hc).live hg.2
          have h1 := (hr.inv hc).vnorm
          rw [hc.inner.nrm_eq_zero.mpr rfl] at h1
          exact core.vpos.ne' h1
        obtain ⟨s', hs', hr'⟩ := C17_advance_total hc hr hg.1 hg.2 (hA.resolve_right hv)
        dsimp only
        rw [hs']
        have := (arnAdvance_inv hc (hr.inv hc) hs').2.1
        exact ih s' hr' (by omega)
      · next hg =>
        have hle := (hr.inv hc).le
        refine ⟨s, rfl, hr, hle, ?_⟩
        cases hi : s.invariant with
        | true => exact Or.inr rfl
        | false => exact Or.inl (by by_contra hne; exact hg ⟨by omega, hi⟩)
  obtain ⟨s, hs, -, -⟩ := arnInit_inv hc v (Mv := none) (MvNorm := none) (by simp) (by simp)
  unfold arnoldi
  rw [hs]
  exact hloop _ s (.init (by simp) (by simp) hs) (by omega)

/-- C21: in dimension `N` there are at most `N` iterations; the `N`-th one (if reached) flags the space as
invariant with an exact zero below the diagonal. -/
theorem C21_dimension [FiniteDimensional 𝕜 E] {c : ArnCfg 𝕜 E} (hc : ArnHyp c) {v : E} {s : Arn 𝕜 E}
    (h : ArnReach c v s) : s.get.basis ≤ Module.finrank 𝕜 E ∧ s.iter ≤ Module.finrank 𝕜 E ∧
      (s.invariant = false → s.iter < Module.finrank 𝕜 E) ∧
      (∀ j, j + 1 = s.iter → s.iter = Module.finrank 𝕜 E → s.invariant = true ∧ s.H (j + 1) j = 0) := by
  have inv := h.inv hc
  have hb : s.get.basis ≤ Module.finrank 𝕜 E := by
    have hR := (C17_arnoldi hc h).2.1
    refine orthonormal_card_le hc.inner (P := s.P) (n := s.get.basis) fun i hi j hj => ?_
    rw [ArnCfg.g, ← hR.VM j hj]
    exact hR.orth i hi j hj
  have hlt : s.invariant = false → s.iter < Module.finrank 𝕜 E := by
    intro hi
    rw [Arn.get, if_neg (by simp [hi])] at hb
    exact hb
  have hle : s.iter ≤ Module.finrank 𝕜 E := by
    cases hi : s.invariant with
    | false => exact (hlt hi).le
    | true => rw [Arn.get, if_pos hi] at hb; exact hb
  refine ⟨hb, hle, hlt, fun j hj hN => ?_⟩
  have hi : s.invariant = true := by
    by_contra hne
    have := hlt (by simpa using hne)
    omega
  refine ⟨hi, ?_⟩
  rcases inv.flagged hi with ⟨-, h0⟩ | ⟨k, w, hk, core, last⟩
  · omega
  · obtain rfl : j = k := by omega
    rw [last.norm]
    have : w = 0 := eq_zero_of_orth_full hc.inner (P := s.P) (n := j + 1)
      (fun i hi l hl => core.orth i (by omega) l (by omega)) (by omega)
      (fun i hi => last.orth i (by omega))
    rw [this, hc.inner.nrm_eq_zero.mpr rfl]
    simp

/-- C21: an `advance()` on an exhausted object raises `ArgumentError` (and leaves the object as it is). -/
theorem C21_exhausted (c : ArnCfg 𝕜 E) (s : Arn 𝕜 E) (h : c.maxiter ≤ s.iter ∨ s.invariant = true) :
    arnAdvance c s = .error .argumentError := by
  unfold arnAdvance
  split
  · rfl
  · next h1 => rw [if_pos (h.resolve_left h1)]

/-- Non-vacuity: a non-trivial reachable state.  In two dimensions with `A = swap`, the start vector
`(1, 0)` gives the second basis vector `(0, 1)` after one step. -/
noncomputable def exCfg : ArnCfg ℝ (ℝ × ℝ) :=
  ⟨(LinearMap.snd ℝ ℝ ℝ).prod (LinearMap.fst ℝ ℝ ℝ), none, fun x y => x.1 * y.1 + x.2 * y.2, 2, .lanczos⟩

theorem exCfg_hyp : ArnHyp exCfg := by
  have hi : IsInner exCfg.ip := by
    refine ⟨fun x y z => ?_, fun x t y => ?_, fun x y => ?_, fun x hx => ?_⟩
    · simp [exCfg]; ring
    · simp [exCfg]; ring
    · simp [exCfg]; ring
    · simp only [exCfg]
      by_contra hle
      apply hx
      have h0 : x.1 * x.1 + x.2 * x.2 ≤ 0 := by simpa using hle
      have h1 : x.1 = 0 := by nlinarith [mul_self_nonneg x.1, mul_self_nonneg x.2]
      have h2 : x.2 = 0 := by nlinarith [mul_self_nonneg x.1, mul_self_nonneg x.2]
      exact Prod.ext h1 h2
  refine ⟨⟨hi, by simpa [ArnCfg.Mop, exCfg] using hi⟩, fun _ x y => ?_⟩
  simp [exCfg]; ring

example : ∃ s, ArnReach exCfg (1, 0) s ∧ s.iter = 1 ∧ s.invariant = false := by
  obtain ⟨s, hs, inv, hi, hv0⟩ :=
    arnInit_inv exCfg_hyp (1, 0) (Mv := none) (MvNorm := none) (by simp) (by simp)
  have hr : ArnReach exCfg (1, 0) s := .init (by simp) (by simp) hs
  have hni : s.invariant = false := by
    rw [Bool.eq_false_iff]
    intro h
    have := hv0.mp h
    simp at this
  obtain ⟨s', hs', hr'⟩ := C17_advance_total exCfg_hyp hr (by rw [hi]; simp [exCfg]) hni
    (by simp [exCfg, ArnCfg.Mop])
  have h1 := (arnAdvance_inv exCfg_hyp (hr.inv exCfg_hyp) hs').2.1
  have h1' : s'.iter = 1 := by omega
  refine ⟨s', hr', h1', ?_⟩
  by_contra hne
  have hinv : s'.invariant = true := by simpa using hne
  rcases (hr'.inv exCfg_hyp).flagged hinv with ⟨hv, -⟩ | ⟨k, w, hk, core, last⟩
  · simp at hv
  obtain rfl : k = 0 := by omega
  have hP : s'.vnorm • s'.P 0 = (1, 0) := core.start
  have hvn := (hr'.inv exCfg_hyp).vnorm
  have hn1 : nrm exCfg.g (1, 0) = 1 := by simp [nrm, nsq, ArnCfg.g, exCfg, ArnCfg.Mop]
  rw [hvn, hn1, one_smul] at hP
  have hV : s'.V 0 = (1, 0) := by
    rw [core.VM 0 le_rfl, hP]; simp [ArnCfg.Mop, exCfg]
  have hrel := last.rel
  have hH0 : s'.H 0 0 = 0 := by
    have := (C17_arnoldi exCfg_hyp hr').2.1.entries 0 (by simp [Arn.get, hinv, h1']) 0
      (by simp [Arn.get, hinv, h1'])
    rw [this, hV]; simp [exCfg]
  simp only [zero_add, Finset.sum_range_one, hH0, zero_smul, zero_add, hV] at hrel
  have hw : w = (0, 1) := by rw [← hrel]; simp [exCfg]
  have hnw : nrm exCfg.g w = 1 := by rw [hw]; simp [nrm, nsq, ArnCfg.g, exCfg, ArnCfg.Mop]
  have hsmall := last.small
  rw [hnw] at hsmall
  have hH1 : s'.H 1 0 = 1 := by
    have := last.norm
    rw [hnw] at this
    simpa using this
  have hle : specNorm s'.H (0 + 2) (0 + 1) ≤ 1 := by
    refine (specNorm_le_frobenius _ _ _).trans ?_
    simp [Fin.sum_univ_two, hH0, hH1]
  norm_num at hsmall hle
  linarith

end Krypy
