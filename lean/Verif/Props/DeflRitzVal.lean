import Verif.Props.DeflCg

/-! # Property C40 for runs which end with an inexact invariant subspace -/

set_option linter.unusedSectionVars false

namespace Krypy
open scoped ComplexConjugate
open Matrix
variable {𝕜 E : Type*} [RCLike 𝕜] [AddCommGroup E] [Module 𝕜 E] {m : ℕ}

section
variable {a : LSArgs 𝕜 E} {oa : OblArgs 𝕜 E m} {U : Fin m → E} (h : DeflHyp a oa U)
  {s : LS 𝕜 E} (hs : mkLS a = .ok s) {o : Obl 𝕜 E m} (ho : mkObl s oa U = .ok o)
include h hs ho

/-- C40 (values and vectors in the mode `ritz`) after every run of deflated GMRES: also if the Krylov subspace was flagged
invariant although the remainder of the last step is not zero, what `Ritz` computes are the values and coefficients of data
for which `C40_ritz` holds.  (The residual norms are wrong by the remainder in this case.) -/
theorem C40_gmres_values {ortho : Ortho} (hg : GmresHyp a ortho)
    (hsa : a.selfAdjoint = true → ∀ x y, a.ip (a.Ml (a.A (a.Mr x))) y = a.ip x (a.Ml (a.A (a.Mr y))))
    {W : Fin m → E} (hW : ∀ j, o.U j = a.M (W j)) (hWo : ∀ i j, a.ip (o.U i) (W j) = if i = j then 1 else 0)
    (p : SolverArgs E) {st : St ℝ E (GmresSt 𝕜 E × List (Fin m → 𝕜))}
    (hrun : deflatedGmres s o ortho p = .returned st ∨ deflatedGmres s o ortho p = .convergence st)
    {t : Arn 𝕜 E} (ht : t = st.s.1.arn) {C : List (Fin m → 𝕜)} (hC' : C = st.s.2) :
    ∃ (n_ : ℕ) (P : ℕ → E) (B' : List (Fin m → 𝕜)), (∀ i < t.get.cols, t.V i = a.M (P i)) ∧
      (∀ rt : EigRoutines 𝕜 (Fin t.get.cols ⊕ Fin m), (o.ritz s rt t.H t.get.rows t.V C .ritz).map
          (fun out => (out.values, out.coeffs)) =
        (deflRitz rt t.H n_ o.Emat C B' (gram s.ip o.AU fun j => s.M (o.AU j))
          s.selfAdjoint .ritz).map (fun out => (out.values, out.coeffs))) ∧
      DeflRitzRel (fun x y => a.ip x (a.M y)) (a.Ml ∘ₗ a.A ∘ₗ a.Mr ∘ₗ a.M) P W t.H
        n_ t.get.cols o.Emat (gram s.ip o.AU fun j => s.M (o.AU j)) C B' := by
  have ok := LSOK.of_defl h hs
  have hob := OblOK.of_defl h hs ho
  have hreach := deflGmres_reach h hs ho hg p hrun
  rw [← ht] at hreach
  set c := s.arnCfg (o.hooks s) p.maxiter ortho with hc
  obtain ⟨hgg, hM, hA, hip⟩ := hob.cfg_eq ok ortho p.maxiter
  rw [← hc] at hgg hM hA hip
  set v := complLin h.ls.inner a.B U (a.Ml (a.b - a.A (p.x0.getD 0))) with hv
  have hah : ArnHyp c := hob.arnHyp ok hg p.maxiter
  obtain ⟨-, hR, -, -, hfl⟩ := C17_arnoldi hah hreach
  rw [hip, hM, hA] at hR
  have hsh : t.get.basis = t.get.rows := by unfold Arn.get; split <;> rfl
  have hle : t.get.cols ≤ t.get.rows := by unfold Arn.get; split <;> simp
  have hVM : ∀ i < t.get.rows, t.V i = a.M (t.P i) := fun i hi' => hR.VM i (by omega)
  by_cases hex : t.invariant = true → ∀ j, j + 1 = t.iter → t.H (j + 1) j = 0
  · subst ht hC'
    exact ⟨_, _, _, fun i hi => hVM i (by omega), fun rt => rfl, C40_gmres h hs ho hg hsa hW hWo p hrun hex⟩
  -- the inexact case
  push Not at hex
  obtain ⟨hinv, j₀, hj₀, hne⟩ := hex
  obtain ⟨e1, e2, h3⟩ := hfl hinv
  obtain ⟨w, hw, hwo, hnw, -⟩ := h3 j₀ hj₀
  rw [hA] at hw
  rw [hgg] at hwo hnw
  obtain ⟨hClen, hC⟩ := C38_C_gmres h hs ho hg p hrun
  obtain ⟨hBlen, hB⟩ := C38_B_gmres h hs ho hg hsa p hrun rfl
  obtain ⟨hEm, hspan⟩ := C38_E h hs ho
  replace hC : ∀ j (hj : j < C.length) i, C[j] i = a.ip (o.U i) (a.Ml (a.A (a.Mr (t.V j)))) := by
    subst hC' ht; exact hC
  replace hB : ∀ i (hi : i < (o.B_ s t.get.rows t.get.cols t.V C).length) j, (o.B_ s t.get.rows t.get.cols t.V C)[i] j =
      a.ip (t.V i) (a.Ml (a.A (a.Mr (o.U j)))) := by
    subst hC' ht; exact hB
  rw [← ht, ← hC'] at hClen hBlen
  have hUP := defl_basis_orth h hs ho hg p hreach
  have hQ := defl_orth_compl h hs ho
  have hi := h.ls.inner
  have hp := h.ls.prec
  have hMsa : ∀ x y, a.ip (a.M x) y = a.ip x (a.M y) := by
    intro x y
    have := hp.conj_symm y x
    rw [hi.conj_symm] at this
    exact this
  have hgW : ∀ i x, a.ip (W i) (a.M x) = a.ip (o.U i) x := fun i x => by rw [hW, hMsa]
  have hrows : t.get.rows = t.iter := by omega
  set r := nrm (fun x y => a.ip x (a.M y)) w with hr
  have hr0 : r ≠ 0 := by
    intro h0
    apply hne
    rw [hnw, h0]
    simp
  have hUw : ∀ i, a.ip (o.U i) w = 0 := by
    intro i
    have h1 := hQ (a.B (t.V j₀)) i
    rw [show complLin h.ls.inner a.B U (a.B (t.V j₀)) = _ from hw, hi.add_right, hi.sum_right, Finset.sum_eq_zero, zero_add] at h1
    · exact h1
    · intro l hl
      rw [hi.smul_right, hUP l (by rw [hrows]; exact Finset.mem_range.mp hl), mul_zero]
  have hrel : ∀ j < t.get.cols, complLin h.ls.inner a.B U (a.B (t.V j)) =
      ∑ i ∈ Finset.range (t.iter + 1), t.H i j • (Function.update t.P t.iter ((r : 𝕜)⁻¹ • w)) i := by
    intro j hj
    have hsum : ∑ i ∈ Finset.range t.iter, t.H i j • (Function.update t.P t.iter ((r : 𝕜)⁻¹ • w)) i =
        ∑ i ∈ Finset.range t.iter, t.H i j • t.P i := by
      refine Finset.sum_congr rfl fun i hi' => ?_
      rw [Function.update_of_ne (Finset.mem_range.mp hi').ne]
    rw [Finset.sum_range_succ, hsum, Function.update_self]
    rcases Nat.lt_or_ge (j + 1) t.iter with h1 | h1
    · rw [hR.hess t.iter j (by omega), zero_smul, add_zero]
      have := hR.rel j (by omega)
      rw [e1] at this
      exact this
    · obtain rfl : j = j₀ := by omega
      have hr0' : (r : 𝕜) ≠ 0 := by simpa using hr0
      rw [← hj₀, hnw, smul_smul, mul_inv_cancel₀ hr0', one_smul, hj₀]
      exact hw
  generalize hBm : o.B_ s t.get.rows t.get.cols t.V C = Bm at hBlen hB
  have hgetC : ∀ j < t.get.cols, C.getD j 0 = coefs a.ip o.U (a.B (t.V j)) := by
    intro j hj
    have hjl : j < C.length := by omega
    rw [List.getD_eq_getElem?_getD, List.getElem?_eq_getElem hjl, Option.getD_some]
    funext i
    exact hC j hjl i
  have hPV : ∀ i < t.iter, t.V i = a.M (Function.update t.P t.iter ((r : 𝕜)⁻¹ • w) i) := by
    intro i hi'
    rw [Function.update_of_ne hi'.ne]
    exact hVM i (by omega)
  set T := a.Ml ∘ₗ a.A ∘ₗ a.Mr ∘ₗ a.M with hT
  set w' := (r : 𝕜)⁻¹ • w with hw'
  set B' := Bm ++ [fun j => a.ip w' (a.M (T (W j)))] with hB'
  have hBl : Bm.length = t.iter := by omega
  refine ⟨t.iter + 1, _, B', fun i hi' => hPV i (by omega), fun rt => ?_, ?_⟩
  · unfold Obl.ritz
    rw [hBm]
    refine deflRitz_rows rt _ _ _ _ _ _ _ (by omega) (by simp [hB', hBl]) hClen fun i hi' => ?_
    have hil : i < Bm.length := by omega
    rw [List.getD_eq_getElem?_getD, List.getD_eq_getElem?_getD, hB', List.getElem?_append_left hil]
  · have hwP : ∀ i < t.iter, a.ip (t.P i) (a.M w') = 0 := by
      intro i hi'
      have : a.ip (t.P i) (a.M w) = 0 := hwo i hi'
      rw [hw', map_smul, hi.smul_right, this, mul_zero]
    refine ⟨hp, by omega, fun i hi' j hj => ?_, fun i j => ?_, fun i j hj => ?_, hClen, by simp [hB', hBl], fun i j => ?_,
      fun j hj i => ?_, fun i hi' j => ?_, fun i j => ?_, ?_, fun j hj => ?_⟩
    · rcases Nat.lt_succ_iff_lt_or_eq.mp hi' with h1 | rfl <;> rcases Nat.lt_succ_iff_lt_or_eq.mp hj with h2 | rfl
      · rw [Function.update_of_ne h1.ne, ← hPV j h2]; exact hR.orth i (by omega) j (by omega)
      · rw [Function.update_of_ne h1.ne, Function.update_self, if_neg h1.ne]; exact hwP i h1
      · rw [Function.update_of_ne h2.ne, Function.update_self, if_neg h2.ne']
        have h3 := hp.conj_symm (t.P j) w'
        rw [hwP j h2, map_zero] at h3
        exact h3.symm
      · rw [Function.update_self, if_pos rfl]
        have h1 : nrm (fun x y => a.ip x (a.M y)) w' = 1 := by
          rw [hw', hp.nrm_smul, ← hr]
          have hrn : |r| = r := abs_of_nonneg (nrm_nonneg _ w)
          rw [norm_inv, RCLike.norm_ofReal, hrn]
          exact inv_mul_cancel₀ hr0
        have h2 := hp.nrm_sq w'
        rw [h1] at h2
        have h3 := hp.self_real w'
        rw [← h2] at h3
        simpa using h3
    · rw [hgW]; exact hWo i j
    · rw [hgW]
      rcases Nat.lt_succ_iff_lt_or_eq.mp hj with h2 | rfl
      · rw [Function.update_of_ne h2.ne]; exact hUP j (by omega) i
      · rw [Function.update_self, hw', hi.smul_right, hUw, mul_zero]
    · rw [hEm, hgW, hW j]; rfl
    · rw [hgetC j hj, hgW, hPV j (by omega)]; rfl
    · rcases Nat.lt_succ_iff_lt_or_eq.mp hi' with h2 | rfl
      · have hil : i < Bm.length := by omega
        rw [List.getD_eq_getElem?_getD, hB', List.getElem?_append_left hil, List.getElem?_eq_getElem hil, Option.getD_some,
          hB i hil j, hPV i h2, hMsa, hW j]
        rfl
      · rw [List.getD_eq_getElem?_getD, hB', ← hBl, List.getElem?_concat_length, Option.getD_some, hBl, Function.update_self]
    · simp only [gram, Matrix.of_apply, ok.ip, ok.M]
      rw [hob.AU, hob.AU, hW, hW]
      rfl
    · obtain ⟨R, hR, hU⟩ := hob.basis
      have hBU : ∀ j, a.B (U j) = lincomb (fun j => a.B (o.U j)) fun i => R i j := by
        intro j; rw [hU, map_lincomb]
      have := (coords_transform h.ls.inner hBU hU h.nonsing).2.2.1
      rw [hob.E, show o.AU = fun j => a.B (o.U j) from funext hob.AU]
      exact this
    · have h1 := compl_stored h hs ho (t.V j)
      rw [hrel j hj, ← hgetC j hj, hPV j (by omega)] at h1
      simp only [hW] at h1
      exact h1

/-- C40 (values and vectors in the mode `ritz`) after every run of deflated MINRES. -/
theorem C40_minres_values (hm : MinresHyp a) (ortho : Ortho)
    {W : Fin m → E} (hW : ∀ j, o.U j = a.M (W j)) (hWo : ∀ i j, a.ip (o.U i) (W j) = if i = j then 1 else 0)
    (p : SolverArgs E) {st : St ℝ E (MinresSt 𝕜 E × List (Fin m → 𝕜))}
    (hrun : deflatedMinres s o ortho p = .returned st ∨ deflatedMinres s o ortho p = .convergence st)
    {t : Arn 𝕜 E} (ht : t = st.s.1.arn) {C : List (Fin m → 𝕜)} (hC' : C = st.s.2) :
    ∃ (n_ : ℕ) (P : ℕ → E) (B' : List (Fin m → 𝕜)), (∀ i < t.get.cols, t.V i = a.M (P i)) ∧
      (∀ rt : EigRoutines 𝕜 (Fin t.get.cols ⊕ Fin m), (o.ritz s rt t.H t.get.rows t.V C .ritz).map
          (fun out => (out.values, out.coeffs)) =
        (deflRitz rt t.H n_ o.Emat C B' (gram s.ip o.AU fun j => s.M (o.AU j))
          s.selfAdjoint .ritz).map (fun out => (out.values, out.coeffs))) ∧
      DeflRitzRel (fun x y => a.ip x (a.M y)) (a.Ml ∘ₗ a.A ∘ₗ a.Mr ∘ₗ a.M) P W t.H
        n_ t.get.cols o.Emat (gram s.ip o.AU fun j => s.M (o.AU j)) C B' := by
  obtain ⟨b, hb, e1, e2⟩ : ∃ b : GmresSt 𝕜 E × List (Fin m → 𝕜),
      (deflatedGmres s o ortho p = .returned (st.setS b) ∨ deflatedGmres s o ortho p = .convergence (st.setS b)) ∧
      b.1.arn = st.s.1.arn ∧ b.2 = st.s.2 := by
    rcases hrun with hrun | hrun
    · obtain ⟨b, hb, e1, e2⟩ := (C37_minres_eq_gmres h hs ho hm ortho p).1 hrun
      exact ⟨b, Or.inl hb, e1, e2⟩
    · obtain ⟨b, hb, e1, e2⟩ := (C37_minres_eq_gmres h hs ho hm ortho p).2 hrun
      exact ⟨b, Or.inr hb, e1, e2⟩
  exact C40_gmres_values h hs ho (hm.gmres ortho) (fun _ => hm.sa) hW hWo p hb (ht.trans e1.symm) (hC'.trans e2.symm)

end

end Krypy
