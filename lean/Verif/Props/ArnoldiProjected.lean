import Verif.Model.ArnoldiProjected
import Verif.Props.Arnoldi
import Verif.Proofs.ArnoldiHouse
import Verif.Props.Projection

/-! # Property C55: `arnoldi_projected` computes an Arnoldi relation of the projected operator -/

set_option linter.unusedSectionVars false

namespace Krypy
variable {𝕜 E : Type*} [RCLike 𝕜] [AddCommGroup E] [Module 𝕜 E] {N : ℕ}
open scoped ComplexConjugate
open Finset Matrix

/-- `V_n x` for a coefficient vector `x` of dimension `n = N + 1`. -/
def emb (V : ℕ → E) (x : Fin (N + 1) → 𝕜) : E := lincomb (fun i : Fin (N + 1) => V i) x

/-- The situation described in the documentation: `A V_n = V_(n+1) H` with orthonormal vectors, and operators with
`Pt V_(n+1) = [V_n P, v_(n+1)]`.  For `rows = n` the Krylov subspace is invariant and there is no `v_(n+1)`. -/
structure ProjSetting (ip : E → E → 𝕜) (A Pt : E →ₗ[𝕜] E) (V : ℕ → E) (H : ℕ → ℕ → 𝕜) (rows : ℕ)
    (P : (Fin (N + 1) → 𝕜) →ₗ[𝕜] (Fin (N + 1) → 𝕜)) : Prop where
  inner : IsInner ip
  shape : rows = N + 1 ∨ rows = N + 2
  orth : ∀ i < rows, ∀ j < rows, ip (V i) (V j) = if i = j then 1 else 0
  hess : ∀ j < N, H (N + 1) j = 0
  rel : ∀ j < N + 1, A (V j) = ∑ i ∈ range rows, H i j • V i
  proj : ∀ x, Pt (emb V x) = emb V (P x)
  last : rows = N + 2 → Pt (V (N + 1)) = V (N + 1)

theorem emb_add (V : ℕ → E) (x y : Fin (N + 1) → 𝕜) : emb V (x + y) = emb V x + emb V y := by
  simp [emb, lincomb, add_smul, sum_add_distrib]

theorem emb_smul (V : ℕ → E) (t : 𝕜) (x : Fin (N + 1) → 𝕜) : emb V (t • x) = t • emb V x := by
  simp [emb, lincomb, smul_sum, smul_smul]

theorem emb_sum (V : ℕ → E) {ι : Type*} (S : Finset ι) (c : ι → 𝕜) (x : ι → Fin (N + 1) → 𝕜) :
    emb V (∑ i ∈ S, c i • x i) = ∑ i ∈ S, c i • emb V (x i) := by
  classical
  induction S using Finset.induction_on with
  | empty => simp [emb, lincomb]
  | insert a S ha ih => rw [sum_insert ha, sum_insert ha, emb_add, emb_smul, ih]

theorem emb_single (V : ℕ → E) (i : Fin (N + 1)) : emb V (Pi.single i (1 : 𝕜)) = V i := by
  unfold emb lincomb
  rw [Finset.sum_eq_single i]
  · simp
  · intro j _ hj; simp [hj]
  · simp

section
variable {ip : E → E → 𝕜} {A Pt : E →ₗ[𝕜] E} {V : ℕ → E} {H : ℕ → ℕ → 𝕜} {rows : ℕ}
  {P : (Fin (N + 1) → 𝕜) →ₗ[𝕜] (Fin (N + 1) → 𝕜)}

theorem ip_emb (hip : IsInner ip) (horth : ∀ i < N + 1, ∀ j < N + 1, ip (V i) (V j) = if i = j then 1 else 0)
    (x y : Fin (N + 1) → 𝕜) : ip (emb V x) (emb V y) = edot x y := by
  unfold emb lincomb edot
  rw [hip.sum_left]
  refine sum_congr rfl fun i _ => ?_
  rw [hip.smul_left, hip.sum_right, Finset.sum_eq_single i]
  · rw [hip.smul_right, horth i i.2 i i.2, if_pos rfl, mul_one]
  · intro j _ hj
    rw [hip.smul_right, horth i i.2 j j.2, if_neg (fun h => hj (Fin.ext h.symm)), mul_zero]
  · simp

namespace ProjSetting
variable (hs : ProjSetting ip A Pt V H rows P)
include hs

theorem le_rows : N + 1 ≤ rows := by rcases hs.shape with h | h <;> omega

theorem ip_emb (x y : Fin (N + 1) → 𝕜) : ip (emb V x) (emb V y) = edot x y :=
  Krypy.ip_emb hs.inner (fun i hi j hj => hs.orth i (by have := hs.le_rows; omega) j (by have := hs.le_rows; omega)) x y

theorem ip_last (h : rows = N + 2) (x : Fin (N + 1) → 𝕜) : ip (emb V x) (V (N + 1)) = 0 := by
  unfold emb lincomb
  rw [hs.inner.sum_left]
  refine Finset.sum_eq_zero fun i _ => ?_
  rw [hs.inner.smul_left, hs.orth i (by omega) (N + 1) (by omega), if_neg (by omega), mul_zero]

/-- `A V_n x = V_n H x + v_(n+1) h x_n`. -/
theorem A_emb (x : Fin (N + 1) → 𝕜) :
    A (emb V x) = emb V (hessOp N H x) + (hLast N H rows * x (Fin.last N)) • V (N + 1) := by
  have h1 : A (emb V x) = ∑ j : Fin (N + 1), x j • ∑ i ∈ range rows, H i j • V i := by
    unfold emb lincomb
    rw [map_sum]
    exact sum_congr rfl fun j _ => by rw [map_smul, hs.rel j j.2]
  have h2 : emb V (hessOp N H x) = ∑ j : Fin (N + 1), x j • ∑ i ∈ range (N + 1), H i j • V i := by
    have : hessOp N H x = ∑ j : Fin (N + 1), x j • fun i : Fin (N + 1) => H i j := by
      funext i
      simp [hessOp, Matrix.toLin'_apply, mulVec, dotProduct, mul_comm]
    rw [this, emb_sum]
    refine sum_congr rfl fun j _ => ?_
    congr 1
    unfold emb lincomb
    exact Fin.sum_univ_eq_sum_range (fun i => H i j • V i) (N + 1)
  rw [h1, h2]
  rcases hs.shape with h | h
  · rw [h, hLast, if_pos rfl]; simp
  · subst h
    rw [hLast, if_neg (by omega), show N + 2 - 1 = N + 1 by omega]
    have h3 : ∀ j : Fin (N + 1), x j • ∑ i ∈ range (N + 2), H i j • V i =
        x j • ∑ i ∈ range (N + 1), H i j • V i + (x j * H (N + 1) j) • V (N + 1) := by
      intro j
      rw [sum_range_succ, smul_add, smul_smul]
    simp only [h3, sum_add_distrib]
    congr 1
    rw [← sum_smul, Fin.sum_univ_castSucc]
    rw [Finset.sum_eq_zero, zero_add, Fin.val_last, mul_comm]
    intro j _
    rw [show ((j.castSucc : Fin (N + 1)) : ℕ) = (j : ℕ) from rfl, hs.hess j j.2, mul_zero]

/-- The projected operator on `V_n x`. -/
theorem PtA_emb (x : Fin (N + 1) → 𝕜) :
    Pt (A (emb V x)) = emb V (P (hessOp N H x)) + (hLast N H rows * x (Fin.last N)) • V (N + 1) := by
  rw [hs.A_emb, map_add, hs.proj, map_smul]
  rcases hs.shape with h | h
  · rw [hLast, if_pos h]; simp
  · rw [hs.last h]

end ProjSetting
end

/-- The loop computes what `arnoldi()` computes and records `hlast * u_j[-1]`. -/
theorem projLoop_spec {c : ArnCfg 𝕜 (Fin (N + 1) → 𝕜)} (hc : ArnHyp c) {v : Fin (N + 1) → 𝕜} (hlast : 𝕜) :
    ∀ fuel s F s' F', ArnReach c v s → (∀ j < s.iter, F j = hlast * s.V j (Fin.last N)) →
      projLoop c hlast fuel s F = .ok (s', F') →
      arnLoop c fuel s = .ok s' ∧ ArnReach c v s' ∧ (s'.iter = c.maxiter ∨ s'.invariant = true) ∧
        ∀ j < s'.iter, F' j = hlast * s'.V j (Fin.last N) := by
  intro fuel
  induction fuel with
  | zero =>
    intro s F s' F' hr hF h
    unfold projLoop at h
    unfold arnLoop
    split at h
    · exact absurd h (by simp)
    · rename_i hcond
      rw [if_neg hcond]
      obtain ⟨rfl, rfl⟩ : s = s' ∧ F = F' := by simpa using h
      refine ⟨rfl, hr, ?_, hF⟩
      have := (hr.inv hc).le
      rcases Classical.em (s.invariant = true) with hi | hi
      · exact Or.inr hi
      · left
        have hi : s.invariant = false := by simpa using hi
        by_contra hne
        exact hcond ⟨by omega, hi⟩
  | succ fuel ih =>
    intro s F s' F' hr hF h
    unfold projLoop at h
    unfold arnLoop
    split at h
    · rename_i hcond
      rw [if_pos hcond]
      have hgl : s.getLast.1 = some (s.V s.iter) := by simp [Arn.getLast, hcond.2]
      rw [hgl] at h
      dsimp only at h ⊢
      cases ha : arnAdvance c s with
      | error e => rw [ha] at h; exact absurd h (by simp)
      | ok s1 =>
        rw [ha] at h
        dsimp only at h ⊢
        refine ih s1 _ s' F' (.step hr ha) ?_ h
        have hstep : s1.iter = s.iter + 1 ∧ ∀ j ≤ s.iter, s1.V j = s.V j := by
          unfold arnAdvance at ha
          rw [if_neg (by omega), if_neg (by simp [hcond.2])] at ha
          dsimp only at ha
          split at ha
          · exact absurd ha (by simp)
          · split at ha
            · exact absurd ha (by simp)
            · split at ha
              · obtain rfl := Except.ok.inj ha
                exact ⟨rfl, fun _ _ => rfl⟩
              · obtain rfl := Except.ok.inj ha
                refine ⟨rfl, fun j hj => ?_⟩
                dsimp only
                rw [Function.update_of_ne (by omega)]
        intro j hj
        rw [hstep.2 j (by omega)]
        rcases Nat.lt_or_ge j s.iter with h1 | h1
        · rw [Function.update_of_ne (by omega), hF j h1]
        · obtain rfl : j = s.iter := by omega
          rw [Function.update_self]
    · rename_i hcond
      rw [if_neg hcond]
      obtain ⟨rfl, rfl⟩ : s = s' ∧ F = F' := by simpa using h
      refine ⟨rfl, hr, ?_, hF⟩
      have := (hr.inv hc).le
      rcases Classical.em (s.invariant = true) with hi | hi
      · exact Or.inr hi
      · left
        have hi : s.invariant = false := by simpa using hi
        by_contra hne
        exact hcond ⟨by omega, hi⟩

theorem projLoop_total {c : ArnCfg 𝕜 (Fin (N + 1) → 𝕜)} (hlast : 𝕜) : ∀ fuel s F s',
    arnLoop c fuel s = .ok s' → ∃ F', projLoop c hlast fuel s F = .ok (s', F') := by
  intro fuel
  induction fuel with
  | zero =>
    intro s F s' h
    unfold arnLoop at h
    unfold projLoop
    split at h
    · exact absurd h (by simp)
    · rename_i hcond
      rw [if_neg hcond]
      obtain rfl := Except.ok.inj h
      exact ⟨F, rfl⟩
  | succ fuel ih =>
    intro s F s' h
    unfold arnLoop at h
    unfold projLoop
    split at h
    · rename_i hcond
      rw [if_pos hcond]
      have hgl : s.getLast.1 = some (s.V s.iter) := by simp [Arn.getLast, hcond.2]
      rw [hgl]
      dsimp only at h ⊢
      cases ha : arnAdvance c s with
      | error e => rw [ha] at h; exact absurd h (by simp)
      | ok s1 =>
        rw [ha] at h
        exact ih s1 _ s' h
    · rename_i hcond
      rw [if_neg hcond]
      obtain rfl := Except.ok.inj h
      exact ⟨F, rfl⟩

/-- For `ortho="lanczos"` the operator `P H` has to be self-adjoint. -/
def ProjOrtho (H : ℕ → ℕ → 𝕜) (P : (Fin (N + 1) → 𝕜) →ₗ[𝕜] (Fin (N + 1) → 𝕜)) (ortho : Ortho) : Prop :=
  ortho = .lanczos → ∀ x y, edot (P (hessOp N H x)) y = edot x (P (hessOp N H y))

theorem projCfg_hyp {H : ℕ → ℕ → 𝕜} {P : (Fin (N + 1) → 𝕜) →ₗ[𝕜] (Fin (N + 1) → 𝕜)} {ortho : Ortho}
    (ho : ProjOrtho H P ortho) (m : ℕ) : ArnHyp (projCfg H P m ortho) :=
  ⟨⟨edot_inner N, edot_inner N⟩, ho⟩

section
variable {ip : E → E → 𝕜} {A Pt : E →ₗ[𝕜] E} {V : ℕ → E} {H : ℕ → ℕ → 𝕜} {rows k : ℕ} {ortho : Ortho}
  {P : (Fin (N + 1) → 𝕜) →ₗ[𝕜] (Fin (N + 1) → 𝕜)} {s : Arn 𝕜 (Fin (N + 1) → 𝕜)} {F : ℕ → 𝕜}

theorem arnoldiProjected_spec (ho : ProjOrtho H P ortho) (h : arnoldiProjected H rows P k ortho = .ok (s, F)) :
    k ≤ N + 2 ∧ ArnReach (projCfg H P (N + 2 - k) ortho) (projStart P) s ∧
      (s.iter = N + 2 - k ∨ s.invariant = true) ∧
      ∀ j < s.iter, F j = hLast N H rows * s.V j (Fin.last N) := by
  unfold arnoldiProjected at h
  split at h
  · exact absurd h (by simp)
  · split at h
    · exact absurd h (by simp)
    · rename_i h1 h2
      dsimp only at h
      cases hi : arnInit (projCfg H P (N + 2 - k) ortho) (projStart P) none none with
      | error e => rw [hi] at h; exact absurd h (by simp)
      | ok s0 =>
        rw [hi] at h
        have hr : ArnReach (projCfg H P (N + 2 - k) ortho) (projStart P) s0 := .init (by simp) (by simp) hi
        have h0 : s0.iter = 0 := by
          unfold arnInit at hi
          dsimp only at hi
          split at hi
          · exact absurd hi (by simp)
          · split at hi <;> (obtain rfl := Except.ok.inj hi; rfl)
        obtain ⟨-, g1, g2, g3⟩ := projLoop_spec (projCfg_hyp ho _) _ _ _ _ _ _ hr (by simp [h0]) h
        exact ⟨by omega, g1, g2, g3⟩

/-- C55: the columns `W_i = V_n U_i` are orthonormal, `W_0` is the normalised vector `Pt v_1`, `G` is upper Hessenberg
with entries `⟨W_i, Pt A W_j⟩`, and `Pt A W_j = W G_j + v_(n+1) F_j` for all columns, with a defect of relative size at
most `1e-14` for the last column if the iteration was stopped because the subspace is (numerically) invariant.  The
same relation without `F` holds for the operator `P_(V_n) Pt A`, where `P_(V_n)` is the orthogonal projection. -/
theorem C55_relation (hs : ProjSetting ip A Pt V H rows P) (ho : ProjOrtho H P ortho)
    (h : arnoldiProjected H rows P k ortho = .ok (s, F)) :
    (∀ i < s.get.basis, ∀ j < s.get.basis, ip (emb V (s.V i)) (emb V (s.V j)) = if i = j then 1 else 0) ∧
    (Pt (V 0) ≠ 0 → Pt (V 0) = (nrm ip (Pt (V 0)) : 𝕜) • emb V (s.V 0)) ∧
    (∀ i j, j + 1 < i → s.H i j = 0) ∧
    (∀ i < s.get.basis, ∀ j < s.get.cols, s.H i j = ip (emb V (s.V i)) (Pt (A (emb V (s.V j))))) ∧
    (∀ j < s.get.cols, ∃ w : E,
      Pt (A (emb V (s.V j))) = ∑ i ∈ range s.get.basis, s.H i j • emb V (s.V i) + F j • V (N + 1) + w ∧
      lincomb (fun i : Fin (N + 1) => V i) (coefs ip (fun i : Fin (N + 1) => V i) (Pt (A (emb V (s.V j))))) =
        ∑ i ∈ range s.get.basis, s.H i j • emb V (s.V i) + w ∧
      (∀ i < s.get.basis, ip (emb V (s.V i)) w = 0) ∧ (rows = N + 2 → ip (V (N + 1)) w = 0) ∧
      (j + 1 < s.get.basis → w = 0) ∧ nrm ip w ≤ 1e-14 * specNorm s.H (s.iter + 1) s.iter) ∧
    (rows = N + 1 → ∀ j < s.get.cols, F j = 0) := by
  obtain ⟨hk, hr, -, hF⟩ := arnoldiProjected_spec ho h
  have hc := projCfg_hyp ho (N + 2 - k)
  obtain ⟨hv, R, hst, hlive, hflag⟩ := C17_arnoldi hc hr
  have hPV : ∀ i < s.get.basis, s.P i = s.V i := fun i hi => (R.VM i hi).symm
  have hcols : s.get.cols = s.iter := by unfold Arn.get; split <;> rfl
  have hnrm : ∀ x : Fin (N + 1) → 𝕜, nrm ip (emb V x) = nrm edot x := by
    intro x; unfold nrm nsq; rw [hs.ip_emb]
  have horth : ∀ i < s.get.basis, ∀ j < s.get.basis,
      ip (emb V (s.V i)) (emb V (s.V j)) = if i = j then 1 else 0 := by
    intro i hi j hj
    rw [hs.ip_emb, ← hPV i hi]
    exact R.orth i hi j hj
  have hz : ∀ y : Fin (N + 1) → 𝕜, ∀ t : 𝕜, (rows = N + 1 → t = 0) → ip (emb V y) (t • V (N + 1)) = 0 := by
    intro y t ht
    rcases hs.shape with hsh | hsh
    · rw [ht hsh, zero_smul, hs.inner.zero_right]
    · rw [hs.inner.smul_right, hs.ip_last hsh, mul_zero]
  have hF0 : rows = N + 1 → ∀ j < s.get.cols, F j = 0 := by
    intro hsh j hj
    rw [hF j (by omega), hLast, if_pos hsh, zero_mul]
  have hPA : ∀ j < s.get.cols, Pt (A (emb V (s.V j))) = emb V (P (hessOp N H (s.V j))) + F j • V (N + 1) := by
    intro j hj
    rw [hs.PtA_emb, hF j (by omega)]
  refine ⟨horth, ?_, R.hess, ?_, ?_, hF0⟩
  · intro hne
    have h0 : Pt (V 0) = emb V (projStart P) := by
      rw [projStart, ← hs.proj, emb_single]; rfl
    have hne' : projStart P ≠ 0 := by
      rintro h1
      exact hne (by rw [h0, h1]; simp [emb, lincomb])
    have h1 := hst hne'
    have hb : 0 < s.get.basis := by
      unfold Arn.get
      split
      · rename_i hinv
        rcases Nat.eq_zero_or_pos s.iter with h2 | h2
        · exfalso
          rcases (hr.inv hc).flagged hinv with ⟨h3, -⟩ | ⟨k', w, h3, -⟩
          · exact hne' h3
          · omega
        · exact h2
      · exact Nat.succ_pos _
    rw [h0, hnrm, ← emb_smul, ← hPV 0 hb, show nrm edot (projStart P) = s.vnorm from hv.symm, h1]
  · intro i hi j hj
    rw [hPA j hj, hs.inner.add_right, hz _ _ (fun hsh => hF0 hsh j hj), add_zero, hs.ip_emb]
    exact R.entries i hi j hj
  · intro j hj
    -- the defect in coordinates
    obtain ⟨d, hd, hdo, hd0, hdn⟩ : ∃ d : Fin (N + 1) → 𝕜,
        P (hessOp N H (s.V j)) = ∑ i ∈ range s.get.basis, s.H i j • s.V i + d ∧
        (∀ i < s.get.basis, edot (s.V i) d = 0) ∧ (j + 1 < s.get.basis → d = 0) ∧
        nrm edot d ≤ 1e-14 * specNorm s.H (s.iter + 1) s.iter := by
      have hnn : 0 ≤ 1e-14 * specNorm s.H (s.iter + 1) s.iter := by
        have : 0 ≤ specNorm s.H (s.iter + 1) s.iter := specNorm_nonneg _ _ _
        positivity
      by_cases hjb : j + 1 < s.get.basis
      · refine ⟨0, ?_, fun i _ => (edot_inner N).zero_right _, fun _ => rfl, ?_⟩
        · rw [add_zero]
          refine (R.rel j hjb).trans (sum_congr rfl fun i hi => ?_)
          rw [hPV i (mem_range.mp hi)]
        · rw [show nrm edot (0 : Fin (N + 1) → 𝕜) = 0 from (edot_inner N).nrm_eq_zero.mpr rfl]
          exact hnn
      · have hinv : s.invariant = true := by
          by_contra hni
          have := (hlive (by simpa using hni)).1
          omega
        obtain ⟨hb, -, hw⟩ := hflag hinv
        obtain ⟨w, hw1, hw2, -, hw4⟩ := hw j (by omega)
        refine ⟨w, ?_, ?_, fun h => absurd h hjb, hw4⟩
        · refine hw1.trans ?_
          rw [hb]
          congr 1
          refine sum_congr rfl fun i hi => ?_
          rw [hPV i (by have := mem_range.mp hi; omega)]
        · intro i hi
          rw [← hPV i hi]
          exact hw2 i (by omega)
    have e1 : emb V (P (hessOp N H (s.V j))) = ∑ i ∈ range s.get.basis, s.H i j • emb V (s.V i) + emb V d := by
      rw [hd, emb_add, emb_sum]
    refine ⟨emb V d, ?_, ?_, ?_, ?_, ?_, ?_⟩
    · rw [hPA j hj, e1]; abel
    · rw [← e1]
      have : coefs ip (fun i : Fin (N + 1) => V i) (Pt (A (emb V (s.V j)))) = P (hessOp N H (s.V j)) := by
        funext i
        unfold coefs
        dsimp only
        rw [hPA j hj, ← emb_single (𝕜 := 𝕜) V i, hs.inner.add_right, hz _ _ (fun hsh => hF0 hsh j hj), add_zero, hs.ip_emb]
        unfold edot
        rw [Finset.sum_eq_single i]
        · simp
        · intro l _ hl; simp [hl]
        · simp
      rw [this]; rfl
    · intro i hi
      rw [hs.ip_emb]; exact hdo i hi
    · intro hsh
      exact hs.inner.orth_symm (hs.ip_last hsh d)
    · intro hjb
      rw [hd0 hjb]; simp [emb, lincomb]
    · rw [hnrm]; exact hdn

/-- The perturbation of the documentation: `E x = v_(n+1) F ⟨W, x⟩`. -/
def projPert (ip : E → E → 𝕜) (V : ℕ → E) (s : Arn 𝕜 (Fin (N + 1) → 𝕜)) (F : ℕ → 𝕜) (x : E) : E :=
  (∑ l ∈ range s.get.cols, F l * ip (emb V (s.V l)) x) • V (N + 1)

/-- C55 (finding): the documentation claims `(Pt A + E) W = W G`.  The sign is wrong: the residual of this relation in
column `j` has at least the norm `2 |F_j|`, while `(Pt A - E) W = W G` holds up to the accuracy of the invariance test. -/
theorem C55_sign (hs : ProjSetting ip A Pt V H rows P) (ho : ProjOrtho H P ortho)
    (h : arnoldiProjected H rows P k ortho = .ok (s, F)) (hrows : rows = N + 2) {j : ℕ} (hj : j < s.get.cols) :
    2 * ‖F j‖ ≤ nrm ip (Pt (A (emb V (s.V j))) + projPert ip V s F (emb V (s.V j)) -
      ∑ i ∈ range s.get.basis, s.H i j • emb V (s.V i)) ∧
    nrm ip (Pt (A (emb V (s.V j))) - projPert ip V s F (emb V (s.V j)) -
      ∑ i ∈ range s.get.basis, s.H i j • emb V (s.V i)) ≤ 1e-14 * specNorm s.H (s.iter + 1) s.iter ∧
    (j + 1 < s.get.basis → Pt (A (emb V (s.V j))) - projPert ip V s F (emb V (s.V j)) =
      ∑ i ∈ range s.get.basis, s.H i j • emb V (s.V i)) := by
  obtain ⟨horth, -, -, -, hrel, -⟩ := C55_relation hs ho h
  obtain ⟨w, h1, -, -, h4, h5, h6⟩ := hrel j hj
  have hcb : s.get.cols ≤ s.get.basis := by unfold Arn.get; split <;> simp
  have hE : projPert ip V s F (emb V (s.V j)) = F j • V (N + 1) := by
    unfold projPert
    congr 1
    rw [Finset.sum_eq_single j]
    · rw [horth j (by omega) j (by omega), if_pos rfl, mul_one]
    · intro l hl hlj
      rw [horth l (by have := mem_range.mp hl; omega) j (by omega), if_neg hlj, mul_zero]
    · intro hn; exact absurd (mem_range.mpr hj) hn
  have hvv : ip (V (N + 1)) (V (N + 1)) = 1 := by rw [hs.orth _ (by omega) _ (by omega), if_pos rfl]
  rw [hE, h1]
  refine ⟨?_, ?_, ?_⟩
  · rw [show ∑ i ∈ range s.get.basis, s.H i j • emb V (s.V i) + F j • V (N + 1) + w + F j • V (N + 1) -
        ∑ i ∈ range s.get.basis, s.H i j • emb V (s.V i) = (2 * F j) • V (N + 1) + w by
      rw [two_mul, add_smul]; abel]
    have h7 : nsq ip ((2 * F j) • V (N + 1) + w) = (2 * ‖F j‖) ^ 2 + nsq ip w := by
      rw [hs.inner.nsq_add_of_orth (by rw [hs.inner.smul_left, h4 hrows, mul_zero]), hs.inner.nsq_smul, nsq, hvv]
      simp
    unfold nrm
    refine Real.le_sqrt_of_sq_le ?_
    rw [h7]
    have := hs.inner.nsq_nonneg w
    linarith
  · rw [show ∑ i ∈ range s.get.basis, s.H i j • emb V (s.V i) + F j • V (N + 1) + w - F j • V (N + 1) -
        ∑ i ∈ range s.get.basis, s.H i j • emb V (s.V i) = w by abel]
    exact h6
  · intro hjb
    rw [h5 hjb]; abel

/-- C55: the basis lies in the range of `P`; hence, if the null space of `P` has dimension `k`, the iteration always
ends with an invariant subspace after at most `n - k` steps. -/
theorem C55_dimension (ho : ProjOrtho H P ortho) (h : arnoldiProjected H rows P k ortho = .ok (s, F)) :
    (∀ i < s.get.basis, s.V i ∈ LinearMap.range P) ∧ s.get.basis ≤ Module.finrank 𝕜 (LinearMap.range P) ∧
    (Module.finrank 𝕜 (LinearMap.ker P) = k → s.invariant = true ∧ s.iter ≤ N + 1 - k) := by
  obtain ⟨hk, hr, hend, -⟩ := arnoldiProjected_spec ho h
  have hc := projCfg_hyp ho (N + 2 - k)
  have R := (C17_arnoldi hc hr).2.1
  have hmem : ∀ i < s.get.basis, s.V i ∈ LinearMap.range P := by
    intro i hi
    have h1 : s.V i ∈ spanTo (𝕜 := 𝕜) s.V s.get.basis := mem_spanTo hi
    rw [C20_krylov hc hr _ le_rfl] at h1
    refine (Submodule.span_le.mpr ?_) h1
    rintro x ⟨m, -, rfl⟩
    cases m with
    | zero => exact ⟨Pi.single 0 1, rfl⟩
    | succ m =>
      rw [pow_succ']
      exact ⟨_, rfl⟩
  have hcard : s.get.basis ≤ Module.finrank 𝕜 (LinearMap.range P) := by
    classical
    let g : LinearMap.range P → LinearMap.range P → 𝕜 := fun x y => edot x.1 y.1
    have hg : IsInner g := by
      refine ⟨fun x y z => (edot_inner N).add_right _ _ _, fun x t y => (edot_inner N).smul_right _ _ _,
        fun x y => (edot_inner N).conj_symm _ _, fun x hx => (edot_inner N).pos _ fun h0 => hx (Subtype.ext h0)⟩
    refine orthonormal_card_le hg
      (P := fun i => if hi : i < s.get.basis then ⟨s.V i, hmem i hi⟩ else 0) fun i hi j hj => ?_
    simp only [hi, hj, dif_pos, g]
    have := R.orth i hi j hj
    rw [← this, show s.V i = s.P i from R.VM i hi]
    rfl
  refine ⟨hmem, hcard, fun hker => ?_⟩
  have hrn := LinearMap.finrank_range_add_finrank_ker P
  rw [hker, Module.finrank_fin_fun] at hrn
  have hinv : s.invariant = true := by
    by_contra hni
    rw [Arn.get, if_neg hni] at hcard
    dsimp only at hcard
    rcases hend with h1 | h1
    · omega
    · exact hni h1
  refine ⟨hinv, ?_⟩
  rw [Arn.get, if_pos hinv] at hcard
  dsimp only at hcard
  omega

/-- C55: the call returns if the arguments fit and `P H P e_1 ≠ 0` or `P e_1 = 0`. -/
theorem C55_total (ho : ProjOrtho H P ortho) (hrows : rows = N + 1 ∨ rows = N + 2) (hk : k ≤ N + 2)
    (hne : P (hessOp N H (P (Pi.single 0 1))) ≠ 0 ∨ P (Pi.single 0 1) = 0) :
    ∃ s F, arnoldiProjected H rows P k ortho = .ok (s, F) := by
  obtain ⟨s, hs, -⟩ := C21_result (projCfg_hyp ho (N + 2 - k)) (v := projStart P) hne
  unfold arnoldi at hs
  unfold arnoldiProjected
  rw [if_neg (by omega), if_neg (by omega)]
  dsimp only
  cases hi : arnInit (projCfg H P (N + 2 - k) ortho) (projStart P) none none with
  | error e => rw [hi] at hs; exact absurd hs (by simp)
  | ok s0 =>
    rw [hi] at hs
    obtain ⟨F, hF⟩ := projLoop_total (hLast N H rows) _ _ (fun _ => 0) _ hs
    exact ⟨s, F, hF⟩

/-- C55 (finding): if the first product vanishes although the space is then invariant, the call produces NaN. -/
theorem C55_zero_product_counterexample (ho : ProjOrtho H P ortho) (hrows : rows = N + 1 ∨ rows = N + 2) (hk : k ≤ N + 1)
    (hv : P (Pi.single 0 1) ≠ 0) (hz : P (hessOp N H (P (Pi.single 0 1))) = 0) :
    arnoldiProjected H rows P k ortho = .error .nonFinite := by
  obtain ⟨s, hs, ha⟩ := C17_zero_product_counterexample (projCfg_hyp ho (N + 2 - k)) (v := projStart P) hv hz
    (by simp only [projCfg]; omega)
  unfold arnoldiProjected
  rw [if_neg (by omega), if_neg (by omega)]
  dsimp only
  rw [hs]
  dsimp only
  obtain ⟨s', hs', -, h0, hinv⟩ := arnInit_inv (projCfg_hyp ho (N + 2 - k)) (projStart P) (Mv := none) (MvNorm := none)
    (by simp) (by simp)
  rw [hs] at hs'
  obtain rfl := Except.ok.inj hs'
  have hni : s.invariant = false := by
    rw [Bool.eq_false_iff]; exact fun h => hv (hinv.mp h)
  have hm : (projCfg H P (N + 2 - k) ortho).maxiter = (N + 1 - k) + 1 := by simp only [projCfg]; omega
  unfold projLoop
  rw [if_pos ⟨by omega, hni⟩, hm]
  dsimp only
  rw [show s.getLast.1 = some (s.V s.iter) by simp [Arn.getLast, hni]]
  dsimp only
  rw [ha]

/-- C55: wrong shapes are refused. -/
theorem C55_errors (H : ℕ → ℕ → 𝕜) (P : (Fin (N + 1) → 𝕜) →ₗ[𝕜] (Fin (N + 1) → 𝕜)) (ortho : Ortho) :
    (rows ≠ N + 1 → rows ≠ N + 2 → arnoldiProjected H rows P k ortho = .error .operatorError) ∧
    (rows = N + 1 ∨ rows = N + 2 → N + 2 < k → arnoldiProjected H rows P k ortho = .error .valueError) := by
  refine ⟨fun h1 h2 => ?_, fun h1 h2 => ?_⟩
  · unfold arnoldiProjected; rw [if_pos ⟨h1, h2⟩]
  · unfold arnoldiProjected; rw [if_neg (by omega), if_pos h2]

end

/-- The operator `x - X ⟨Y,X⟩^(-1) ⟨Y,x⟩`. -/
noncomputable def compl {ip : E → E → 𝕜} (hip : IsInner ip) {k : ℕ} (X Y : Fin k → E) : E →ₗ[𝕜] E where
  toFun x := x - oblique ip X Y x
  map_add' x y := by
    have := (obliqueLin hip (X := X) (Y := Y)).map_add x y
    change oblique ip X Y (x + y) = oblique ip X Y x + oblique ip X Y y at this
    rw [this]; abel
  map_smul' t x := by
    have := (obliqueLin hip (X := X) (Y := Y)).map_smul t x
    change oblique ip X Y (t • x) = t • oblique ip X Y x at this
    rw [this, smul_sub]; rfl

/-- C55: the situation of the documentation.  For an Arnoldi relation with vectors `V`, coefficients `X` of dimension
`n - 1` (written with a zero as last entry) and `Y` of dimension `n`, the projections
`P = I - H X (Y^* H X)^(-1) Y^*` and `Pt x = x - A V X ⟨V Y, A V X⟩^(-1) ⟨V Y, x⟩` satisfy the assumptions. -/
theorem C55_setting {ip : E → E → 𝕜} (hip : IsInner ip) {A : E →ₗ[𝕜] E} {V : ℕ → E} {H : ℕ → ℕ → 𝕜} {rows k : ℕ}
    (shape : rows = N + 1 ∨ rows = N + 2)
    (orth : ∀ i < rows, ∀ j < rows, ip (V i) (V j) = if i = j then 1 else 0)
    (hess : ∀ j < N, H (N + 1) j = 0)
    (rel : ∀ j < N + 1, A (V j) = ∑ i ∈ range rows, H i j • V i)
    (X Y : Fin k → Fin (N + 1) → 𝕜) (hX : ∀ j, X j (Fin.last N) = 0) :
    ProjSetting ip A (compl hip (fun j => A (emb V (X j))) fun j => emb V (Y j)) V H rows
      (compl (edot_inner N) (fun j => hessOp N H (X j)) Y) ∧
    gram ip (fun j => emb V (Y j)) (fun j => A (emb V (X j))) = gram edot Y fun j => hessOp N H (X j) := by
  have base : ProjSetting ip A LinearMap.id V H rows LinearMap.id :=
    ⟨hip, shape, orth, hess, rel, fun _ => rfl, fun _ => rfl⟩
  have hAX : ∀ j, A (emb V (X j)) = emb V (hessOp N H (X j)) := by
    intro j; rw [base.A_emb, hX, mul_zero, zero_smul, add_zero]
  have hgram : gram ip (fun j => emb V (Y j)) (fun j => A (emb V (X j))) = gram edot Y fun j => hessOp N H (X j) := by
    ext i j
    simp only [gram, Matrix.of_apply, hAX]
    exact base.ip_emb _ _
  have hob : ∀ c : Fin k → 𝕜, lincomb (fun j => A (emb V (X j))) c = emb V (lincomb (fun j => hessOp N H (X j)) c) := by
    intro c
    unfold lincomb
    rw [emb_sum]
    exact sum_congr rfl fun j _ => by dsimp only; rw [hAX]
  refine ⟨⟨hip, shape, orth, hess, rel, fun x => ?_, fun h => ?_⟩, hgram⟩
  · change emb V x - oblique ip _ _ (emb V x) = emb V (x - oblique edot _ Y x)
    rw [sub_eq_add_neg x, ← neg_one_smul 𝕜 (oblique edot _ Y x), emb_add, emb_smul, neg_one_smul, ← sub_eq_add_neg]
    congr 1
    unfold oblique
    rw [hob, hgram]
    congr 3
    funext i
    exact base.ip_emb _ _
  · change V (N + 1) - oblique ip _ _ (V (N + 1)) = V (N + 1)
    have : coefs ip (fun j => emb V (Y j)) (V (N + 1)) = 0 := by
      funext i
      exact base.ip_last h _
    rw [oblique, this, Matrix.mulVec_zero, lincomb_zero, sub_zero]

/-- C55: the null space of these projections has dimension `k`, the number which the caller has to pass. -/
theorem C55_null {ip : E → E → 𝕜} (hip : IsInner ip) {k : ℕ} {X Y : Fin k → E} (hdet : (gram ip Y X).det ≠ 0) :
    Module.finrank 𝕜 (LinearMap.ker (compl hip X Y)) = k := by
  let f : (Fin k → 𝕜) →ₗ[𝕜] E :=
    { toFun := lincomb X
      map_add' := fun a b => lincomb_add _ _ _
      map_smul' := fun t a => lincomb_smul _ _ _ }
  have hker : LinearMap.ker (compl hip X Y) = LinearMap.range f := by
    ext x
    rw [LinearMap.mem_ker, LinearMap.mem_range]
    change x - oblique ip X Y x = 0 ↔ _
    constructor
    · intro h
      exact ⟨_, (sub_eq_zero.mp h).symm⟩
    · rintro ⟨c, rfl⟩
      change lincomb X c - oblique ip X Y (lincomb X c) = 0
      rw [oblique_lincomb hip hdet, sub_self]
  have hinj : Function.Injective f := by
    rw [← LinearMap.ker_eq_bot, LinearMap.ker_eq_bot']
    intro c hc
    have h1 := hip.coefs_lincomb Y X c
    rw [show lincomb X c = 0 from hc] at h1
    have h2 : gram ip Y X *ᵥ c = 0 := by
      rw [← h1]; funext i; exact hip.zero_right _
    exact Matrix.eq_zero_of_mulVec_eq_zero hdet h2
  rw [hker, LinearMap.finrank_range_of_inj hinj, Module.finrank_fin_fun]

/-! ### A concrete case: `A e1 = e2`, `A e2 = e1 + e3`, `X = (1, 0)`, `Y = (1, 1)`, hence `P = [[1, 0], [-1, 0]]` -/

/-- The Hessenberg matrix with the rows `(0, 1)`, `(1, 0)`, `(0, 1)`. -/
def exPH : ℕ → ℕ → ℝ
  | 0, 1 => 1
  | 1, 0 => 1
  | 2, 1 => 1
  | _, _ => 0

/-- The operator. -/
def exPA : (Fin 3 → ℝ) →ₗ[ℝ] (Fin 3 → ℝ) := Matrix.toLin' !![0, 1, 0; 1, 0, 0; 0, 1, 0]

/-- The unit vectors. -/
noncomputable def exPV (i : ℕ) : Fin 3 → ℝ := unitVec i

/-- The projection of the coefficients. -/
noncomputable def exPP : (Fin 2 → ℝ) →ₗ[ℝ] (Fin 2 → ℝ) :=
  compl (edot_inner 1) (fun _ : Fin 1 => hessOp 1 exPH ![1, 0]) fun _ => ![1, 1]

theorem exPP_apply (x : Fin 2 → ℝ) : exPP x = ![x 0, - x 0] := by
  have hH : hessOp 1 exPH ![1, 0] = ![0, 1] := by
    funext i
    fin_cases i <;> simp [hessOp, Matrix.toLin'_apply, mulVec, dotProduct, exPH, Fin.sum_univ_two]
  change x - oblique edot _ _ x = _
  rw [hH]
  have hg : gram edot (fun _ : Fin 1 => (![1, 1] : Fin 2 → ℝ)) (fun _ : Fin 1 => ![0, 1]) = 1 := by
    ext i j
    fin_cases i; fin_cases j
    simp [gram, edot, Fin.sum_univ_two]
  rw [oblique, hg, inv_one, Matrix.one_mulVec]
  funext i
  fin_cases i <;> simp [lincomb, coefs, edot, Fin.sum_univ_two]

/-- The concrete case meets the assumptions of all theorems. -/
theorem exP_setting : ∃ Pt, ProjSetting edot exPA Pt exPV exPH 3 exPP := by
  have := (C55_setting (N := 1) (edot_inner 2) (A := exPA) (V := exPV) (H := exPH) (rows := 3) (Or.inr rfl) ?_ ?_ ?_
    (fun _ : Fin 1 => ![1, 0]) (fun _ => ![1, 1]) (by intro j; rfl)).1
  · exact ⟨_, this⟩
  · intro i hi j hj
    rw [exPV, edot_unit, exPV]
    simp [ev, hi, unitVec]
  · intro j hj
    obtain rfl : j = 0 := by omega
    rfl
  · intro j hj
    have : j = 0 ∨ j = 1 := by omega
    funext i
    rcases this with rfl | rfl <;> fin_cases i <;>
      simp [exPA, exPV, exPH, unitVec, Matrix.toLin'_apply, mulVec, dotProduct, Fin.sum_univ_three]

/-- C55 (finding): a call for which the documented relation fails. -/
theorem C55_documented_counterexample : ∃ (Pt : (Fin 3 → ℝ) →ₗ[ℝ] (Fin 3 → ℝ)) (s : Arn ℝ (Fin 2 → ℝ)) (F : ℕ → ℝ),
    ProjSetting edot exPA Pt exPV exPH 3 exPP ∧ arnoldiProjected exPH 3 exPP 1 .mgs = .ok (s, F) ∧ 0 < s.get.cols ∧
    Pt (exPA (emb exPV (s.V 0))) + projPert edot exPV s F (emb exPV (s.V 0)) ≠
      ∑ i ∈ range s.get.basis, s.H i 0 • emb exPV (s.V i) := by
  obtain ⟨Pt, hs⟩ := exP_setting
  have ho : ProjOrtho exPH exPP .mgs := fun h => absurd h (by simp)
  have hv : exPP (Pi.single 0 1) = ![1, -1] := by rw [exPP_apply]; simp
  have hPHv : exPP (hessOp 1 exPH (exPP (Pi.single 0 1))) ≠ 0 := by
    rw [hv, exPP_apply]
    intro h
    have := congrFun h 0
    simp [hessOp, Matrix.toLin'_apply, mulVec, dotProduct, exPH, Fin.sum_univ_two] at this
  obtain ⟨s, F, h⟩ := C55_total (N := 1) (rows := 3) (k := 1) ho (Or.inr rfl) (by omega) (Or.inl hPHv)
  obtain ⟨-, hr, hend, hF⟩ := arnoldiProjected_spec ho h
  have hc := projCfg_hyp ho (1 + 2 - 1)
  have hne : projStart exPP ≠ 0 := by
    intro h0
    have := congrFun (hv.symm.trans h0) 0
    simp at this
  have hit : 0 < s.iter := by
    rcases hend with h1 | h1
    · omega
    · rcases (hr.inv hc).flagged h1 with ⟨h2, -⟩ | ⟨k', w, h2, -⟩
      · exact absurd h2 hne
      · omega
  have hcols : s.get.cols = s.iter := by unfold Arn.get; split <;> rfl
  refine ⟨Pt, s, F, hs, h, by omega, fun hdoc => ?_⟩
  have h1 := (C55_sign hs ho h rfl (j := 0) (by omega)).1
  rw [hdoc, sub_self, hs.inner.nrm_eq_zero.mpr rfl] at h1
  have hF0 : F 0 = 0 := by
    have := norm_nonneg (F 0)
    exact norm_eq_zero.mp (by linarith)
  rw [hF 0 hit] at hF0
  have hl : hLast 1 exPH 3 = 1 := rfl
  rw [hl, one_mul] at hF0
  obtain ⟨-, R, hst, -⟩ := C17_arnoldi hc hr
  have h2 := hst hne
  have hb : 0 < s.get.basis := by unfold Arn.get; split <;> simp_all
  have h3 : s.P 0 = s.V 0 := (R.VM 0 hb).symm
  rw [h3] at h2
  have h4 := congrFun (h2.trans hv) 1
  simp only [Pi.smul_apply] at h4
  rw [show s.V 0 1 = 0 from hF0] at h4
  simp at h4

end Krypy
