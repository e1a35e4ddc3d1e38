import Verif.Props.Arnoldi

/-! # What the solvers need to know about an Arnoldi object -/

set_option linter.unusedSectionVars false

namespace Krypy
variable {𝕜 E : Type*} [RCLike 𝕜] [AddCommGroup E] [Module 𝕜 E]
open scoped ComplexConjugate
open Finset

/-- Coordinates of the residual `v - A V_n u` in the Arnoldi basis. -/
noncomputable def lsRes (β : ℝ) (H : ℕ → ℕ → 𝕜) (n : ℕ) (u : ℕ → 𝕜) (i : ℕ) : 𝕜 :=
  (if i = 0 then (β : 𝕜) else 0) - ∑ j ∈ range n, H i j * u j

/-- Facts about a state of an Arnoldi object for operator `A`, preconditioner `M`, start vector `v` and
inner product `g`. -/
structure ArnFacts (g : E → E → 𝕜) (A M : E →ₗ[𝕜] E) (v : E) (s : Arn 𝕜 E) : Prop where
  vnorm : s.vnorm = nrm g v
  hess : ∀ i j, j + 1 < i → s.H i j = 0
  zero : ∀ i j, s.iter ≤ j → s.H i j = 0
  res : ∀ u : ℕ → 𝕜, nsq g (v - A (∑ j ∈ range s.iter, u j • s.V j)) =
    ∑ i ∈ range (s.iter + 1), ‖lsRes s.vnorm s.H s.iter u i‖ ^ 2
  span : ∀ i ≤ s.iter, spanTo s.V i = krylov (M ∘ₗ A) (M v) i
  sub : ∀ j, j + 1 < s.iter ∨ (j < s.iter ∧ s.invariant = false) → s.H (j + 1) j ≠ 0
  start : s.invariant = true → s.iter = 0 → v = 0
  indep : ∀ u : ℕ → 𝕜, ∑ j ∈ range s.iter, u j • s.V j = 0 → ∀ j < s.iter, u j = 0

/-- An implementation of `advance()` with an invariant. -/
structure ArnProc (g : E → E → 𝕜) (A M : E →ₗ[𝕜] E) (maxiter : ℕ) (v : E)
    (adv : Arn 𝕜 E → Except Err (Arn 𝕜 E)) (Inv : Arn 𝕜 E → Prop) : Prop where
  inner : IsInner g
  facts : ∀ {s}, Inv s → ArnFacts g A M v s
  le : ∀ {s}, Inv s → s.iter ≤ maxiter
  step : ∀ {s s'}, Inv s → adv s = .ok s' → Inv s' ∧ s'.iter = s.iter + 1 ∧ s.invariant = false ∧
    s'.vnorm = s.vnorm ∧ (∀ i j, j < s.iter → s'.H i j = s.H i j) ∧ (∀ j ≤ s.iter, s'.V j = s.V j)
  total : ∀ {s}, Inv s → s.iter < maxiter → s.invariant = false →
    (∃ s', adv s = .ok s') ∨ (adv s = .error .nonFinite ∧ s.iter = 0 ∧ A (M v) = 0)

theorem ArnInv.facts {c : ArnCfg 𝕜 E} (hc : ArnHyp c) {v : E} {s : Arn 𝕜 E} (h : ArnReach c v s) :
    ArnFacts c.g c.A c.Mop v s := by
  have inv := h.inv hc
  have hspan : ∀ i ≤ s.iter, spanTo s.V i = krylov (c.Mop ∘ₗ c.A) (c.Mop v) i :=
    fun i hi => C20_krylov hc h i (by unfold Arn.get; split <;> simp <;> omega)
  have hind : ∀ u : ℕ → 𝕜, ∑ j ∈ range s.iter, u j • s.V j = 0 → ∀ j < s.iter, u j = 0 := by
    intro u hu j hj
    have hR := (C17_arnoldi hc h).2.1
    have hb : s.iter ≤ s.get.basis := by unfold Arn.get; split <;> simp
    have h1 : c.ip (s.P j) (∑ j ∈ range s.iter, u j • s.V j) = u j := by
      rw [hc.ls.inner.sum_right, Finset.sum_eq_single j]
      · rw [hc.ls.inner.smul_right, hR.orth j (by omega) j (by omega), if_pos rfl, mul_one]
      · intro i hi hne
        have := Finset.mem_range.mp hi
        rw [hc.ls.inner.smul_right, hR.orth j (by omega) i (by omega), if_neg (Ne.symm hne), mul_zero]
      · intro hn; exact absurd (Finset.mem_range.mpr hj) hn
    rw [← h1, hu, hc.ls.inner.zero_right]
  cases hi : s.invariant with
  | false =>
    have core := inv.live hi
    refine ⟨inv.vnorm, core.hess, inv.zero, fun u => ?_, hspan, fun j hj => ?_, by simp [hi], hind⟩
    · have e : v - c.A (∑ j ∈ range s.iter, u j • s.V j) =
          ∑ i ∈ range (s.iter + 1), lsRes s.vnorm s.H s.iter u i • s.P i := by
        simp only [lsRes, sub_smul, Finset.sum_sub_distrib]
        congr 1
        · rw [Finset.sum_eq_single 0]
          · simpa using core.start.symm
          · intro i _ h0; simp [h0]
          · simp
        · rw [map_sum]
          simp only [Finset.sum_smul]
          rw [Finset.sum_comm]
          refine Finset.sum_congr rfl fun j hj => ?_
          have hj' := Finset.mem_range.mp hj
          rw [map_smul, core.rel j hj', sum_hess core.hess s.P (n := s.iter + 1) (by omega), Finset.smul_sum]
          refine Finset.sum_congr rfl fun i _ => ?_
          rw [smul_smul, mul_comm]
      rw [e]
      exact hc.inner.nsq_sum (fun i hi j hj => core.orth i (by omega) j (by omega)) _
    · obtain ⟨r, hr, h⟩ := core.sub j (by omega)
      rw [h]
      simpa using hr.ne'
  | true =>
    rcases inv.flagged hi with ⟨hv, h0⟩ | ⟨k, w, hk, core, last⟩
    · have hvn : s.vnorm = 0 := by rw [inv.vnorm, hv, hc.inner.nrm_eq_zero.mpr rfl]
      refine ⟨inv.vnorm, fun i j _ => inv.zero i j (by omega), inv.zero, fun u => ?_, hspan,
        fun j hj => by omega, fun _ _ => hv, hind⟩
      rw [h0, hv, hvn]
      simp [lsRes, nsq, hc.inner.zero_right]
    · refine ⟨inv.vnorm, core.hess, inv.zero, fun u => ?_, hspan, fun j hj => ?_, by omega, hind⟩
      · have e : v - c.A (∑ j ∈ range s.iter, u j • s.V j) =
            ∑ i ∈ range (k + 1), lsRes s.vnorm s.H (k + 1) u i • s.P i + (-u k) • w := by
          simp only [lsRes, sub_smul, Finset.sum_sub_distrib]
          rw [hk, Finset.sum_range_succ, map_add, map_smul, last.rel]
          have e1 : ∑ x ∈ range (k + 1), (if x = 0 then (s.vnorm : 𝕜) else 0) • s.P x = v := by
            rw [Finset.sum_eq_single 0]
            · simpa using core.start
            · intro i _ h0; simp [h0]
            · simp
          have e2 : ∑ x ∈ range (k + 1), (∑ j ∈ range (k + 1), s.H x j * u j) • s.P x =
              c.A (∑ j ∈ range k, u j • s.V j) + u k • ∑ i ∈ range (k + 1), s.H i k • s.P i := by
            simp only [Finset.sum_smul]
            rw [Finset.sum_comm, Finset.sum_range_succ, map_sum]
            congr 1
            · refine Finset.sum_congr rfl fun j hj => ?_
              have hj' := Finset.mem_range.mp hj
              rw [map_smul, core.rel j hj', sum_hess core.hess s.P (n := k + 1) (by omega),
                Finset.smul_sum]
              refine Finset.sum_congr rfl fun i _ => ?_
              rw [smul_smul, mul_comm]
            · rw [Finset.smul_sum]
              refine Finset.sum_congr rfl fun i _ => ?_
              rw [smul_smul, mul_comm]
          rw [e1, e2, smul_add, neg_smul]
          abel
        rw [e, hc.inner.nsq_add_of_orth, hc.inner.nsq_sum
          (fun i hi j hj => core.orth i (by omega) j (by omega)), hk, Finset.sum_range_succ _ (k + 1)]
        · congr 1
          rw [hc.inner.nsq_smul, ← hc.inner.nrm_sq]
          have : lsRes s.vnorm s.H (k + 1) u (k + 1) = -(s.H (k + 1) k * u k) := by
            rw [lsRes, if_neg (by omega), zero_sub, Finset.sum_range_succ, Finset.sum_eq_zero, zero_add]
            intro j hj
            rw [core.hess _ _ (by have := Finset.mem_range.mp hj; omega), zero_mul]
          rw [this, last.norm, norm_neg, norm_neg, norm_mul, RCLike.norm_ofReal,
            abs_of_nonneg (nrm_nonneg _ _)]
          ring
        · rw [hc.inner.smul_right, hc.inner.sum_left, Finset.sum_eq_zero, mul_zero]
          intro i hi
          rw [hc.inner.smul_left, last.orth i (by have := Finset.mem_range.mp hi; omega), mul_zero]
      · obtain ⟨r, hr, h⟩ := core.sub j (by rcases hj with h | ⟨_, h⟩ <;> [omega; simp [hi] at h])
        rw [h]
        simpa using hr.ne'

/-- The `mgs`, `dmgs` and `lanczos` implementations. -/
theorem ArnReach.proc {c : ArnCfg 𝕜 E} (hc : ArnHyp c) (v : E) :
    ArnProc c.g c.A c.Mop c.maxiter v (arnAdvance c) (ArnReach c v) := by
  refine ⟨hc.inner, fun h => ArnInv.facts hc h, fun h => (h.inv hc).le, fun {s s'} h hs => ?_,
    fun {s} h hit hni => ?_⟩
  · obtain ⟨-, h1, hit, hni⟩ := arnAdvance_inv hc (h.inv hc) hs
    refine ⟨.step h hs, h1, hni, ?_⟩
    rw [arnAdvance_eq hc (h.inv hc) hit hni] at hs
    split at hs
    · simp at hs
    split at hs
    · obtain rfl := Except.ok.inj hs
      exact ⟨rfl, fun i j hj => newH_old hc (by omega), fun _ _ => rfl⟩
    · obtain rfl := Except.ok.inj hs
      exact ⟨rfl, fun i j hj => newH_old hc (by omega),
        fun j hj => Function.update_of_ne (by omega) _ _⟩
  · rcases arnAdvance_total hc (h.inv hc) hit hni with h' | ⟨h1, h2, h3⟩
    · exact Or.inl h'
    · refine Or.inr ⟨h1, h2, ?_⟩
      have core := (h.inv hc).live hni
      rw [← core.start, map_smul, ← core.VM 0 (by omega), map_smul, h3, smul_zero]

end Krypy
