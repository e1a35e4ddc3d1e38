import Verif.Proofs.ArnProc
import Verif.Proofs.Rotations
import Verif.Props.Driver
import Verif.Props.Projection

/-! # Invariant of the GMRES iteration -/

set_option linter.unusedSectionVars false

namespace Krypy
variable {𝕜 E : Type*} [RCLike 𝕜] [AddCommGroup E] [Module 𝕜 E]
open scoped ComplexConjugate
open Finset

theorem mkGivens_zero : (mkGivens (0 : 𝕜) 0).c = 1 ∧ (mkGivens (0 : 𝕜) 0).s = 0 := by
  simp [mkGivens, drotg]

theorem rots_update (G : ℕ → Givens 𝕜) (n : ℕ) (a : Givens 𝕜) (x : ℕ → 𝕜) :
    rots (Function.update G n a) n x = rots G n x := by
  apply rots_congr
  intro i hi
  rw [Function.update_of_ne (by omega)]

/-- The invariant of the state. -/
structure GmresInv (Inv : Arn 𝕜 E → Prop) (β : ℝ) (x0 : E) (s : GmresSt 𝕜 E) : Prop where
  arn : Inv s.arn
  vnorm : s.arn.vnorm = β
  x0 : s.x0 = x0
  qr : QrUpdate s.arn.H s.G s.R s.arn.iter
  Rz : ∀ i j, s.arn.iter ≤ j → s.R i j = 0
  y : s.y = rots s.G s.arn.iter (fun i => if i = 0 then (β : 𝕜) else 0)

section
variable {g : E → E → 𝕜} {A M : E →ₗ[𝕜] E} {maxiter : ℕ} {v : E}
  {adv : Arn 𝕜 E → Except Err (Arn 𝕜 E)} {Inv : Arn 𝕜 E → Prop} {β : ℝ} {x0 : E}
  {s s' : GmresSt 𝕜 E} (hp : ArnProc g A M maxiter v adv Inv)
include hp

theorem gmresInit_inv {arn : Arn 𝕜 E} (ha : Inv arn) (h0 : arn.iter = 0) (hβ : arn.vnorm = β) :
    GmresInv Inv β x0 (gmresInit arn β x0) := by
  refine ⟨ha, hβ, rfl, ⟨(hp.facts ha).hess, ?_, ?_⟩, fun _ _ _ => rfl, ?_⟩
  · intro j hj
    simp only [gmresInit, h0] at hj
    omega
  · intro j hj
    simp only [gmresInit, h0] at hj
    omega
  · simp only [gmresInit, h0, rots]

/-- One iteration. -/
theorem gmresStep_inv (inv : GmresInv Inv β x0 s) {r : ℝ} (hs : gmresStep adv s = .ok (s', r)) :
    GmresInv Inv β x0 s' ∧ s'.arn.iter = s.arn.iter + 1 ∧ s.arn.invariant = false ∧
    r = ‖s'.y s'.arn.iter‖ ∧ (s'.R s.arn.iter s.arn.iter = 0 → r = 0) ∧
    adv s.arn = .ok s'.arn := by
  unfold gmresStep at hs
  dsimp only at hs
  split at hs
  · simp at hs
  next a ha =>
  simp only [Except.ok.injEq, Prod.mk.injEq] at hs
  obtain ⟨rfl, rfl⟩ := hs
  obtain ⟨ha', hit, hni, hvn, hH, hV⟩ := hp.step inv.arn ha
  have hq := inv.qr.step hH (hp.facts ha').hess (fun i _ => inv.Rz i _ le_rfl)
  dsimp only at hq
  set col := rots s.G s.arn.iter (fun i => if i < s.arn.iter + 2 then a.H i s.arn.iter else s.R i s.arn.iter)
    with hcol
  set gg := mkGivens (col s.arn.iter) (col (s.arn.iter + 1)) with hgg
  have hyz : s.y (s.arn.iter + 1) = 0 := by
    rw [inv.y, rots_above _ (Nat.lt_succ_self _), if_neg (by omega)]
  refine ⟨⟨ha', by rw [hvn, inv.vnorm], inv.x0, ?_, ?_, ?_⟩, hit, hni, ?_, ?_, ha⟩
  · dsimp only
    rw [hit]
    exact hq
  · intro i j hj
    dsimp only at hj ⊢
    rw [setCol, if_neg (by omega)]
    exact inv.Rz i j (by omega)
  · dsimp only
    rw [hit, rots, Function.update_self, inv.y]
    rw [rots_update]
  · dsimp only
    rw [hit]
  · intro h0
    dsimp only at h0
    have hd := hq.diag (Nat.lt_succ_self _)
    rw [h0, norm_zero] at hd
    have e1 : ‖a.H (s.arn.iter + 1) s.arn.iter‖ ^ 2 = 0 := by nlinarith [sq_nonneg ‖a.H (s.arn.iter + 1) s.arn.iter‖, sq_nonneg ‖rots (Function.update s.G s.arn.iter gg) s.arn.iter (fun i => a.H i s.arn.iter) s.arn.iter‖]
    have e2 : ‖rots (Function.update s.G s.arn.iter gg) s.arn.iter (fun i => a.H i s.arn.iter) s.arn.iter‖ ^ 2 = 0 := by
      nlinarith
    have f1 : a.H (s.arn.iter + 1) s.arn.iter = 0 := by simpa using e1
    have f2 : rots (Function.update s.G s.arn.iter gg) s.arn.iter (fun i => a.H i s.arn.iter) s.arn.iter = 0 := by
      simpa using e2
    have hcol' : col = rots s.G s.arn.iter (fun i => a.H i s.arn.iter) := by
      rw [hcol]
      congr 1
      funext i
      split
      · rfl
      · rw [inv.Rz i _ le_rfl, (hp.facts ha').hess _ _ (by omega)]
    have c1 : col (s.arn.iter + 1) = 0 := by rw [hcol', rots_above _ (Nat.lt_succ_self _), f1]
    have c2 : col s.arn.iter = 0 := by
      rw [hcol', ← f2, rots_update]
    have hg0 := mkGivens_zero (𝕜 := 𝕜)
    rw [rot_apply, if_pos rfl, hgg, c1, c2, hg0.1, hg0.2, hyz]
    simp

/-- The diagonal of `R` does not vanish except possibly in a last step that was flagged invariant. -/
theorem gmres_diag (inv : GmresInv Inv β x0 s) {j : ℕ}
    (hj : j + 1 < s.arn.iter ∨ (j < s.arn.iter ∧ s.arn.invariant = false)) : s.R j j ≠ 0 := by
  intro h0
  have h1 := inv.qr.diag (j := j) (by omega)
  rw [h0, norm_zero] at h1
  have h2 : ‖s.arn.H (j + 1) j‖ ^ 2 = 0 := by
    nlinarith [sq_nonneg ‖s.arn.H (j + 1) j‖, sq_nonneg ‖rots s.G j (fun i => s.arn.H i j) j‖]
  exact (hp.facts inv.arn).sub j hj (by simpa using h2)

/-- The residual of every element of the Krylov subspace. -/
theorem gmres_functional (inv : GmresInv Inv β x0 s) (u : ℕ → 𝕜) :
    nsq g (v - A (∑ j ∈ range s.arn.iter, u j • s.arn.V j)) =
    ∑ i ∈ range s.arn.iter, ‖s.y i - ∑ j ∈ range s.arn.iter, s.R i j * u j‖ ^ 2 +
      ‖s.y s.arn.iter‖ ^ 2 := by
  rw [(hp.facts inv.arn).res u, inv.y]
  simp only [lsRes, inv.vnorm]
  exact inv.qr.functional _ u

omit hp in
/-- Solution of the triangular system. -/
theorem solveUpper_range {n : ℕ} {R : ℕ → ℕ → 𝕜} {y : ℕ → 𝕜} (hR : ∀ i j, j < n → j < i → R i j = 0)
    (hd : ∀ j < n, R j j ≠ 0) :
    ∃ u : ℕ → 𝕜, solveUpper (Matrix.of fun i j : Fin n => R i j) (fun i : Fin n => y i) =
      .ok (fun i => u i) ∧ ∀ i < n, ∑ j ∈ range n, R i j * u j = y i := by
  classical
  set T : Matrix (Fin n) (Fin n) 𝕜 := Matrix.of fun i j : Fin n => R i j with hT
  have hmask : (Matrix.of fun i j => if j < i then 0 else T i j) = T := by
    ext i j
    simp only [Matrix.of_apply]
    split
    · next h => rw [hT, Matrix.of_apply, hR i j j.2 h]
    · rfl
  have htri : T.BlockTriangular id := by
    intro i j hij
    exact hR i j j.2 hij
  have hdet : IsUnit T.det := by
    rw [Matrix.det_of_isUpperTriangular htri]
    rw [isUnit_iff_ne_zero, Finset.prod_ne_zero_iff]
    intro i _
    exact hd i i.2
  refine ⟨fun i => if h : i < n then T⁻¹.mulVec (fun i : Fin n => y i) ⟨i, h⟩ else 0, ?_, ?_⟩
  · unfold solveUpper
    rw [if_neg]
    · rw [hmask]
      congr 1
      funext i
      simp
    · rintro ⟨i, hi⟩
      exact hd i i.2 hi
  · intro i hi
    have h1 : T.mulVec (T⁻¹.mulVec fun i : Fin n => y i) = fun i : Fin n => y i := by
      rw [Matrix.mulVec_mulVec, Matrix.mul_nonsing_inv _ hdet, Matrix.one_mulVec]
    have h2 := congrFun h1 ⟨i, hi⟩
    rw [← h2, Matrix.mulVec, dotProduct, Finset.sum_range]
    refine Finset.sum_congr rfl fun j _ => ?_
    simp [hT]

omit hp in
theorem solveUpper_diag {n : ℕ} {R : ℕ → ℕ → 𝕜} {y : ℕ → 𝕜} {x : Fin n → 𝕜}
    (h : solveUpper (Matrix.of fun i j : Fin n => R i j) (fun i : Fin n => y i) = .ok x) :
    ∀ j < n, R j j ≠ 0 := by
  unfold solveUpper at h
  split at h
  · simp at h
  · next hn =>
    intro j hj h0
    exact hn ⟨⟨j, hj⟩, h0⟩

omit hp in
theorem gmresXk_diag {Mr : E →ₗ[𝕜] E} {post : E → Except Err E} {x : E}
    (h : gmresXk Mr post s = .ok x) : ∀ j < s.arn.iter, s.R j j ≠ 0 := by
  unfold gmresXk at h
  dsimp only at h
  split at h
  · split at h
    · simp at h
    · next yy hyy => exact solveUpper_diag hyy
  · intro j hj; omega

/-- With nonsingular `R`, the computed iterate attains the minimum `|y_n|` over the Krylov subspace. -/
theorem gmres_optimal (inv : GmresInv Inv β x0 s) (hd : ∀ j < s.arn.iter, s.R j j ≠ 0)
    (Mr : E →ₗ[𝕜] E) (post : E → Except Err E) :
    ∃ z ∈ krylov (M ∘ₗ A) (M v) s.arn.iter, gmresXk Mr post s = post (x0 + Mr z) ∧
      nrm g (v - A z) = ‖s.y s.arn.iter‖ ∧
      ∀ z' ∈ krylov (M ∘ₗ A) (M v) s.arn.iter, ‖s.y s.arn.iter‖ ≤ nrm g (v - A z') := by
  obtain ⟨u, hu, hsol⟩ := solveUpper_range (n := s.arn.iter) (R := s.R) (y := s.y)
    (fun i j hj hij => inv.qr.upper hj hij) hd
  have hF := hp.facts inv.arn
  have hmin : ∀ u : ℕ → 𝕜, ‖s.y s.arn.iter‖ ≤
      nrm g (v - A (∑ j ∈ range s.arn.iter, u j • s.arn.V j)) := by
    intro u
    unfold nrm
    apply Real.le_sqrt_of_sq_le
    rw [gmres_functional hp inv]
    have : 0 ≤ ∑ i ∈ range s.arn.iter, ‖s.y i - ∑ j ∈ range s.arn.iter, s.R i j * u j‖ ^ 2 :=
      Finset.sum_nonneg fun _ _ => by positivity
    linarith
  refine ⟨∑ j ∈ range s.arn.iter, u j • s.arn.V j, ?_, ?_, ?_, ?_⟩
  · rw [← hF.span _ le_rfl]
    exact mem_spanTo_iff.mpr ⟨u, rfl⟩
  · unfold gmresXk
    dsimp only
    split
    · rw [hu]
      dsimp only
      rw [inv.x0, lincomb, Finset.sum_range]
    · next h0 =>
      have : s.arn.iter = 0 := by omega
      rw [inv.x0, this]
      simp
  · unfold nrm
    rw [gmres_functional hp inv, Finset.sum_eq_zero, zero_add, Real.sqrt_sq (norm_nonneg _)]
    intro i hi
    rw [hsol i (Finset.mem_range.mp hi), sub_self, norm_zero]
    ring
  · intro z' hz'
    rw [← hF.span _ le_rfl] at hz'
    obtain ⟨u', rfl⟩ := mem_spanTo_iff.mp hz'
    exact hmin u'

end
end Krypy
