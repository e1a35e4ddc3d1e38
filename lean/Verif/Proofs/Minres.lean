import Verif.Model.Minres
import Verif.Proofs.GmresTotal
import Verif.Proofs.Sim

/-! # MINRES performs the GMRES iteration with short recurrences -/

set_option linter.unusedSectionVars false

namespace Krypy
variable {𝕜 E : Type*} [RCLike 𝕜] [AddCommGroup E] [Module 𝕜 E]
open scoped ComplexConjugate
open Finset

/-- A real rotation as a rotation over `𝕜`. -/
def SameGivens (q : Givens ℝ) (G : Givens 𝕜) : Prop := q.c = G.c ∧ (q.s : 𝕜) = G.s

theorem mkGivens_ofReal (a b : ℝ) : SameGivens (mkGivens a b) (mkGivens (a : 𝕜) (b : 𝕜)) := by
  constructor <;> simp [mkGivens]

theorem SameGivens.fst {q : Givens ℝ} {G : Givens 𝕜} (h : SameGivens q G) (x : ℝ × ℝ) :
    (((q.apply x).1 : ℝ) : 𝕜) = (G.c : 𝕜) * (x.1 : 𝕜) + G.s * (x.2 : 𝕜) := by
  simp [Givens.apply, h.1, h.2]

theorem SameGivens.snd {q : Givens ℝ} {G : Givens 𝕜} (h : SameGivens q G) (x : ℝ × ℝ) :
    (((q.apply x).2 : ℝ) : 𝕜) = -conj G.s * (x.1 : 𝕜) + (G.c : 𝕜) * (x.2 : 𝕜) := by
  simp [Givens.apply, h.1, ← h.2]

theorem mkGivens_r (a b : ℝ) : (((mkGivens a b).r : ℝ) : 𝕜) =
    ((mkGivens (a : 𝕜) (b : 𝕜)).c : 𝕜) * a + (mkGivens (a : 𝕜) (b : 𝕜)).s * b := by
  have h := mkGivens_ofReal (𝕜 := 𝕜) a b
  rw [← h.1, ← h.2]
  simp [mkGivens]

/-- The rotation with index `k - n`, if there is one. -/
def OptGivens (q : Option (Givens ℝ)) (G : ℕ → Givens 𝕜) (k n : ℕ) : Prop :=
  (k < n ∧ q = none) ∨ (n ≤ k ∧ ∃ q', q = some q' ∧ SameGivens q' (G (k - n)))

theorem rots_trivial (G : ℕ → Givens 𝕜) {n : ℕ} {x : ℕ → 𝕜} (h : ∀ i ≤ n, x i = 0) : rots G n x = x := by
  induction n with
  | zero => rfl
  | succ n ih =>
    rw [rots, ih (fun i hi => h i (by omega))]
    exact rot_trivial _ (h n (by omega)) (h (n + 1) le_rfl)

/-- The new column of the triangular factor for a real tridiagonal matrix. -/
theorem minres_col {G : ℕ → Givens 𝕜} {k : ℕ} {c : ℕ → 𝕜} {q1 q2 : Option (Givens ℝ)}
    (h1 : OptGivens q1 G k 2) (h2 : OptGivens q2 G k 1) (hreal : ∀ i, ((RCLike.re (c i) : ℝ) : 𝕜) = c i)
    (htri : ∀ i, i + 1 < k → c i = 0) {x : ℝ} (hx : 0 < k → x = RCLike.re (c (k - 1))) :
    (2 ≤ k → (((optApply q1 (0, x)).1 : ℝ) : 𝕜) = rots G k c (k - 2)) ∧
    (1 ≤ k → (((optApply q2 ((optApply q1 (0, x)).2, RCLike.re (c k))).1 : ℝ) : 𝕜) = rots G k c (k - 1)) ∧
    (((optApply q2 ((optApply q1 (0, x)).2, RCLike.re (c k))).2 : ℝ) : 𝕜) = rots G k c k ∧
    ∀ i, i + 2 < k → rots G k c i = 0 := by
  rcases Nat.lt_or_ge k 1 with hk | hk
  · obtain rfl : k = 0 := by omega
    obtain ⟨-, rfl⟩ | ⟨h, -⟩ := h2
    · refine ⟨by omega, by omega, ?_, by omega⟩
      exact hreal 0
    · omega
  rcases Nat.lt_or_ge k 2 with hk2 | hk2
  · obtain rfl : k = 1 := by omega
    obtain ⟨-, rfl⟩ | ⟨h, -⟩ := h1
    · obtain ⟨h, -⟩ | ⟨-, q', rfl, hq⟩ := h2
      · omega
      · have hx' : x = RCLike.re (c 0) := hx Nat.one_pos
        have hxc : (x : 𝕜) = c 0 := by rw [hx', hreal]
        simp only [Nat.sub_self] at hq
        refine ⟨by omega, fun _ => ?_, ?_, by omega⟩
        · have := hq.fst (x, RCLike.re (c 1))
          simp only [hxc, hreal] at this
          simp only [rots, rot_apply, optApply]
          rw [this]
          simp
        · have := hq.snd (x, RCLike.re (c 1))
          simp only [hxc, hreal] at this
          simp only [rots, rot_apply, optApply]
          rw [this]
          simp
    · omega
  · obtain ⟨n, rfl⟩ : ∃ n, k = n + 2 := ⟨k - 2, by omega⟩
    obtain ⟨h, -⟩ | ⟨-, q1', rfl, hq1⟩ := h1
    · omega
    obtain ⟨h, -⟩ | ⟨-, q2', rfl, hq2⟩ := h2
    · omega
    have hx' : x = RCLike.re (c (n + 1)) := hx (by omega)
    have hxc : (x : 𝕜) = c (n + 1) := by rw [hx', hreal]
    have e0 : rots G n c = c := rots_trivial G fun i hi => htri i (by omega)
    rw [show n + 2 - 2 = n by omega] at hq1 ⊢
    rw [show n + 2 - 1 = n + 1 by omega] at hq2 ⊢
    have hcn : c n = 0 := htri n (by omega)
    simp only [optApply]
    have ha : (((q1'.apply (0, x)).1 : ℝ) : 𝕜) = rot (G n) n c n := by
      rw [hq1.fst, rot_apply, if_neg (by omega), if_pos rfl, hcn, hxc]
      simp
    have hb : (((q1'.apply (0, x)).2 : ℝ) : 𝕜) = rot (G n) n c (n + 1) := by
      rw [hq1.snd, rot_apply, if_pos rfl, hcn, hxc]
      simp
    have hcc : ((RCLike.re (c (n + 2)) : ℝ) : 𝕜) = rot (G n) n c (n + 2) := by
      rw [rot_apply, if_neg (by omega), if_neg (by omega), hreal]
    refine ⟨fun _ => ?_, fun _ => ?_, ?_, fun i hi => ?_⟩
    · rw [rots, rots, e0, rot_apply _ (n + 1), if_neg (by omega), if_neg (by omega), ha]
    · rw [rots, rots, e0, rot_apply _ (n + 1), if_neg (by omega), if_pos rfl, ← hb, ← hcc, hq2.fst]
    · rw [rots, rots, e0, rot_apply _ (n + 1), if_pos rfl, ← hb, ← hcc, hq2.snd]
    · rw [rots, rots, e0, rot_apply, if_neg (by omega), if_neg (by omega), rot_apply, if_neg (by omega),
        if_neg (by omega)]
      exact htri i (by omega)

/-- Real and tridiagonal. -/
def TriReal (s : Arn 𝕜 E) : Prop :=
  ∀ j < s.iter, ∀ i, ((RCLike.re (s.H i j) : ℝ) : 𝕜) = s.H i j ∧ (i + 1 < j → s.H i j = 0)

/-- Corresponding states. -/
structure MinRel (Inv : Arn 𝕜 E → Prop) (β : ℝ) (x0 : E) (m : MinresSt 𝕜 E) (g : GmresSt 𝕜 E) : Prop where
  inv : GmresInv Inv β x0 g
  diag : ∀ j < g.arn.iter, g.R j j ≠ 0
  arn : m.arn = g.arn
  x0 : m.x0 = x0
  G1 : OptGivens m.G1 g.G g.arn.iter 2
  G2 : OptGivens m.G2 g.G g.arn.iter 1
  y : g.y g.arn.iter = (m.y : 𝕜)
  w : ∃ w : ℕ → E, (∀ j < g.arn.iter, g.arn.V j = ∑ i ∈ range g.arn.iter, g.R i j • w i) ∧
    (1 ≤ g.arn.iter → m.W1 = w (g.arn.iter - 1)) ∧ (2 ≤ g.arn.iter → m.W0 = w (g.arn.iter - 2)) ∧
    (g.arn.iter < 1 → m.W1 = 0) ∧ (g.arn.iter < 2 → m.W0 = 0) ∧
    m.yk = ∑ i ∈ range g.arn.iter, g.y i • w i

theorem OptGivens.next {G : ℕ → Givens 𝕜} {k n : ℕ} {q : Option (Givens ℝ)} (h : OptGivens q G k n)
    (a : Givens 𝕜) (hn : 0 < n) : OptGivens q (Function.update G k a) (k + 1) (n + 1) := by
  rcases h with ⟨h1, h2⟩ | ⟨h1, q', h2, h3⟩
  · exact Or.inl ⟨by omega, h2⟩
  · refine Or.inr ⟨by omega, q', h2, ?_⟩
    rw [Function.update_of_ne (by omega), show k + 1 - (n + 1) = k - n by omega]
    exact h3

section
variable {g : E → E → 𝕜} {A M Mr : E →ₗ[𝕜] E} {maxiter : ℕ} {v x0 : E} {post : E → Except Err E}
  {adv : Arn 𝕜 E → Except Err (Arn 𝕜 E)} {Inv : Arn 𝕜 E → Prop} {β : ℝ}
  {m : MinresSt 𝕜 E} {s : GmresSt 𝕜 E}
  (hp : ArnProc g A M maxiter v adv Inv) (htri : ∀ {s}, Inv s → TriReal s)
include hp htri

/-- Both methods after a successful `advance()`. -/
theorem minres_step_core (h : MinRel Inv β x0 m s) {a : Arn 𝕜 E} (ha : adv s.arn = .ok a) :
    ∃ s' r, gmresStep adv s = .ok (s', r) ∧
      ((s'.R s.arn.iter s.arn.iter = 0 ∧ minresStep adv maxiter m = .error .nonFinite) ∨
       (s'.R s.arn.iter s.arn.iter ≠ 0 ∧ ∃ m', minresStep adv maxiter m = .ok (m', r) ∧ MinRel Inv β x0 m' s')) := by
  obtain ⟨ha', hit, hni, hvn, hHold, hVold⟩ := hp.step h.inv.arn ha
  obtain ⟨s', r, hs⟩ : ∃ s' r, gmresStep adv s = .ok (s', r) := by
    unfold gmresStep
    rw [ha]
    exact ⟨_, _, rfl⟩
  refine ⟨s', r, hs, ?_⟩
  obtain ⟨inv', hit', -, hr, -, hadv⟩ := gmresStep_inv hp h.inv hs
  set k := s.arn.iter with hk
  have htr := htri ha' k (by omega)
  have hhess := (hp.facts ha').hess
  have hs0 := hs
  unfold gmresStep at hs
  rw [ha] at hs
  simp only [Except.ok.injEq, Prod.mk.injEq] at hs
  obtain ⟨hs1, hs2⟩ := hs
  have hcolfun : (fun i => if i < s.arn.iter + 2 then a.H i s.arn.iter else s.R i s.arn.iter) =
      fun i => a.H i k := by
    funext i
    split
    · rfl
    · rw [h.inv.Rz i _ le_rfl, hhess _ _ (by omega)]
  rw [hcolfun] at hs1 hs2
  obtain ⟨hc1, hc2, hc3, hc4⟩ := minres_col (c := fun i => a.H i k) (x := RCLike.re (a.H (if k = 0 then maxiter else k - 1) k))
    h.G1 h.G2 (fun i => (htr i).1) (fun i hi => (htr i).2 hi) (fun hk0 => by rw [if_neg (by omega)])
  set r01 := optApply m.G1 (0, RCLike.re (a.H (if k = 0 then maxiter else k - 1) k)) with hr01
  set r12 := optApply m.G2 (r01.2, RCLike.re (a.H k k)) with hr12
  set col := rots s.G k (fun i => a.H i k) with hcol
  have hsub : ((RCLike.re (a.H (k + 1) k) : ℝ) : 𝕜) = col (k + 1) := by
    rw [hcol, rots_above _ (Nat.lt_succ_self _), (htr _).1]
  set gk := mkGivens (col k) (col (k + 1)) with hgk
  set q := mkGivens r12.2 (RCLike.re (a.H (k + 1) k)) with hq
  have hqg : SameGivens q gk := by
    have := mkGivens_ofReal (𝕜 := 𝕜) r12.2 (RCLike.re (a.H (k + 1) k))
    rw [hc3, hsub] at this
    exact this
  have hqr : ((q.r : ℝ) : 𝕜) = rot gk k col k := by
    have := mkGivens_r (𝕜 := 𝕜) r12.2 (RCLike.re (a.H (k + 1) k))
    rw [hc3, hsub] at this
    rw [rot_apply, if_neg (by omega), if_pos rfl]
    exact this
  have hRkk : s'.R k k = (q.r : 𝕜) := by
    rw [← hs1, hqr]
    simp only [setCol, ← hk, if_true]
  have hmarn : adv m.arn = .ok a := by rw [h.arn]; exact ha
  have hmiter : m.arn.iter = k := by rw [h.arn]
  have hmstep : minresStep adv maxiter m = if q.r = 0 then .error .nonFinite else
      .ok (⟨a, m.x0, m.G2, some q, m.W1,
        ((q.r : 𝕜)⁻¹) • (a.V k - (r01.1 : 𝕜) • m.W0 - (r12.1 : 𝕜) • m.W1), (q.apply (m.y, 0)).2,
        m.yk + ((q.apply (m.y, 0)).1 : 𝕜) •
          (((q.r : 𝕜)⁻¹) • (a.V k - (r01.1 : 𝕜) • m.W0 - (r12.1 : 𝕜) • m.W1))⟩,
        |(q.apply (m.y, 0)).2|) := by
    unfold minresStep
    rw [hmarn]
    simp only [hmiter]
    rfl
  rw [hmstep]
  by_cases hq0 : q.r = 0
  · left
    rw [if_pos hq0]
    exact ⟨by rw [hRkk, hq0, RCLike.ofReal_zero], rfl⟩
  right
  have hne : s'.R k k ≠ 0 := by rw [hRkk]; exact_mod_cast hq0
  refine ⟨hne, ?_⟩
  rw [if_neg hq0]
  have hyz : s.y (k + 1) = 0 := by
    rw [h.inv.y, rots_above _ (Nat.lt_succ_self _), if_neg (by omega)]
  have hy : s.y k = (m.y : 𝕜) := h.y
  have hy1 : (((q.apply (m.y, 0)).1 : ℝ) : 𝕜) = rot gk k s.y k := by
    rw [hqg.fst, rot_apply, if_neg (by omega), if_pos rfl, hyz, ← hy]
    simp
  have hy2 : (((q.apply (m.y, 0)).2 : ℝ) : 𝕜) = rot gk k s.y (k + 1) := by
    rw [hqg.snd, rot_apply, if_pos rfl, hyz, ← hy]
    simp
  have hs'y : s'.y = rot gk k s.y := by rw [← hs1]
  have hs'arn : s'.arn = a := by rw [← hs1]
  have hs'G : s'.G = Function.update s.G k gk := by rw [← hs1]
  have hs'R : ∀ i j, s'.R i j = if j = k then rot gk k col i else s.R i j := by
    intro i j
    rw [← hs1]
    rfl
  have hit'' : s'.arn.iter = k + 1 := hit'
  have hrr : |(q.apply (m.y, 0)).2| = r := by
    rw [← hs2, ← RCLike.norm_ofReal (K := 𝕜), hy2]
  rw [hrr]
  refine ⟨_, rfl, ⟨inv', fun j hj => ?_, hs'arn.symm, h.x0, ?_, ?_, ?_, ?_⟩⟩
  · rcases Nat.lt_or_ge j k with hjk | hjk
    · rw [hs'R, if_neg (by omega)]
      exact h.diag j hjk
    · obtain rfl : j = k := by omega
      exact hne
  · rw [hs'G, hit'']
    exact h.G2.next gk Nat.one_pos
  · rw [hs'G, hit'']
    exact Or.inr ⟨by omega, q, rfl, by rw [Nat.add_sub_cancel, Function.update_self]; exact hqg⟩
  · rw [hs'y, hit'']
    exact hy2.symm
  · obtain ⟨w, hw1, hw2, hw3, hw4, hw5, hw6⟩ := h.w
    set z := ((q.r : 𝕜)⁻¹) • (a.V k - (r01.1 : 𝕜) • m.W0 - (r12.1 : 𝕜) • m.W1) with hz
    have hwold : ∀ i < k, Function.update w k z i = w i := fun i hi => Function.update_of_ne (by omega) _ _
    refine ⟨Function.update w k z, fun j hj => ?_, fun _ => ?_, fun _ => ?_, by omega, fun _ => ?_, ?_⟩
    · rw [hit''] at hj ⊢
      rw [hs'arn, hVold j (by omega), Finset.sum_range_succ, Function.update_self]
      rcases Nat.lt_or_ge j k with hjk | hjk
      · have e : s'.R k j = 0 := inv'.qr.upper (by omega) hjk
        rw [e, zero_smul, add_zero, hw1 j hjk]
        refine Finset.sum_congr rfl fun i hi => ?_
        rw [hwold i (Finset.mem_range.mp hi), hs'R, if_neg (by omega)]
      · obtain rfl : j = k := by omega
        have hzz : s'.R k k • z = a.V k - (r01.1 : 𝕜) • m.W0 - (r12.1 : 𝕜) • m.W1 := by
          rw [hz, hRkk, smul_smul, mul_inv_cancel₀ (by exact_mod_cast hq0), one_smul]
        have hsum : ∑ i ∈ range k, s'.R i k • Function.update w k z i =
            (r01.1 : 𝕜) • m.W0 + (r12.1 : 𝕜) • m.W1 := by
          have e1 : ∀ i < k, s'.R i k = col i := by
            intro i hi
            rw [hs'R, if_pos rfl, rot_apply, if_neg (by omega), if_neg (by omega)]
          have e2 : ∑ i ∈ range k, s'.R i k • Function.update w k z i = ∑ i ∈ range k, col i • w i :=
            Finset.sum_congr rfl fun i hi => by
              have := Finset.mem_range.mp hi
              rw [e1 i this, hwold i this]
          rw [e2]
          rcases Nat.lt_or_ge k 1 with hj1 | hj1
          · rw [hw5 (by omega), hw4 hj1, smul_zero, smul_zero, add_zero]
            exact Finset.sum_eq_zero fun i hi => by have := Finset.mem_range.mp hi; omega
          rcases Nat.lt_or_ge k 2 with hj2 | hj2
          · rw [hw5 hj2, hw2 hj1, hc2 hj1, smul_zero, zero_add, Finset.sum_eq_single (k - 1)]
            · intro i hi hne
              have := Finset.mem_range.mp hi
              omega
            · intro hn
              exact absurd (Finset.mem_range.mpr (by omega)) hn
          · obtain ⟨n, hn⟩ : ∃ n, k = n + 2 := ⟨k - 2, by omega⟩
            rw [hw3 hj2, hw2 hj1, hc1 hj2, hc2 hj1]
            rw [show k - 2 = n by omega, show k - 1 = n + 1 by omega]
            have hr : range k = range (n + 2) := by rw [hn]
            rw [hr, Finset.sum_range_succ, Finset.sum_range_succ, Finset.sum_eq_zero, zero_add]
            intro i hi
            rw [hc4 i (by have := Finset.mem_range.mp hi; omega), zero_smul]
        rw [hsum, hzz, ← hVold k le_rfl]
        abel
    · rw [hit'', Nat.add_sub_cancel, Function.update_self]
    · dsimp only
      rw [hit'', hw2 (by omega), hwold _ (by omega)]
      congr 1
    · exact hw4 (by omega)
    · dsimp only
      rw [hit'', hs'y, Finset.sum_range_succ, Function.update_self, ← hy1, hw6]
      congr 1
      refine Finset.sum_congr rfl fun i hi => ?_
      have := Finset.mem_range.mp hi
      rw [hwold i this, rot_apply, if_neg (by omega), if_neg (by omega)]

/-- Both compute the same iterate. -/
theorem minres_xk (h : MinRel Inv β x0 m s) : gmresXk Mr post s = minresXk Mr post m := by
  obtain ⟨w, hw1, -, -, -, -, hw6⟩ := h.w
  unfold gmresXk minresXk
  dsimp only
  obtain ⟨u, hu, hsol⟩ := solveUpper_range (n := s.arn.iter) (R := s.R) (y := s.y)
    (fun i j hj hij => h.inv.qr.upper hj hij) h.diag
  have e : ∑ j ∈ range s.arn.iter, u j • s.arn.V j = m.yk := by
    rw [hw6]
    have e1 : ∀ j ∈ range s.arn.iter, u j • s.arn.V j =
        ∑ i ∈ range s.arn.iter, (s.R i j * u j) • w i := by
      intro j hj
      rw [hw1 j (Finset.mem_range.mp hj), Finset.smul_sum]
      exact Finset.sum_congr rfl fun i _ => by rw [smul_smul, mul_comm]
    rw [Finset.sum_congr rfl e1, Finset.sum_comm]
    refine Finset.sum_congr rfl fun i hi => ?_
    rw [← Finset.sum_smul, hsol i (Finset.mem_range.mp hi)]
  split
  · rw [hu]
    dsimp only
    rw [lincomb, h.inv.x0, h.x0, ← e, Finset.sum_range]
  · next h0 =>
    have : s.arn.iter = 0 := by omega
    rw [← e, this, h.inv.x0, h.x0]
    simp

/-- MINRES is simulated by GMRES. -/
theorem minres_sim : Sim (minresMethod adv Mr post maxiter) (gmresMethod adv Mr post maxiter)
    (MinRel Inv β x0) where
  more h := by simp only [minresMethod, gmresMethod, h.arn]
  k h := by simp only [minresMethod, gmresMethod, h.arn]
  step {m s m' r} h hs := by
    change minresStep adv maxiter m = _ at hs
    cases ha : adv s.arn with
    | error e =>
      unfold minresStep at hs
      rw [h.arn, ha] at hs
      simp at hs
    | ok a =>
      obtain ⟨s', r', h1, ⟨-, h2⟩ | ⟨-, m'', h2, h3⟩⟩ := minres_step_core hp htri h ha
      · rw [hs] at h2; simp at h2
      · rw [hs] at h2
        simp only [Except.ok.injEq, Prod.mk.injEq] at h2
        obtain ⟨rfl, rfl⟩ := h2
        exact ⟨s', h1, h3⟩
  getXk {m s x} h hx := by
    change gmresXk Mr post s = _
    rw [minres_xk hp htri h]
    exact hx
  post h := h
  count := rfl

/-- For injective operators GMRES is simulated by MINRES. -/
theorem minres_sim_inj {K : Submodule 𝕜 E} (hinj : NonsingOn A M v K) :
    Sim (gmresMethod adv Mr post maxiter) (minresMethod adv Mr post maxiter)
    (fun s m => MinRel Inv β x0 m s) where
  more h := by simp only [minresMethod, gmresMethod, h.arn]
  k h := by simp only [minresMethod, gmresMethod, h.arn]
  step {s m s' r} h hs := by
    change gmresStep adv s = _ at hs
    cases ha : adv s.arn with
    | error e =>
      unfold gmresStep at hs
      rw [ha] at hs
      simp at hs
    | ok a =>
      obtain ⟨s'', r', h1, h2⟩ := minres_step_core hp htri h ha
      rw [hs] at h1
      simp only [Except.ok.injEq, Prod.mk.injEq] at h1
      obtain ⟨rfl, rfl⟩ := h1
      obtain ⟨inv', hit, -⟩ := gmresStep_inv hp h.inv hs
      rcases h2 with ⟨h2, -⟩ | ⟨-, m', h3, h4⟩
      · exact absurd h2 (gmres_diag_inj hp inv' hinj _ (by omega))
      · exact ⟨m', h3, h4⟩
  getXk {s m x} h hx := by
    change minresXk Mr post m = _
    rw [← minres_xk hp htri h]
    exact hx
  post h := h
  count := rfl

omit htri in
theorem minresInit_rel {arn : Arn 𝕜 E} (ha : Inv arn) (h0 : arn.iter = 0) (hβ : arn.vnorm = β) :
    MinRel Inv β x0 (minresInit arn β x0) (gmresInit arn β x0) := by
  refine ⟨gmresInit_inv hp ha h0 hβ, ?_, rfl, rfl, ?_, ?_, ?_, fun _ => 0, ?_, ?_, ?_, ?_, ?_, ?_⟩
  · intro j hj; simp [gmresInit, h0] at hj
  · exact Or.inl ⟨by simp [gmresInit, h0], rfl⟩
  · exact Or.inl ⟨by simp [gmresInit, h0], rfl⟩
  · simp [gmresInit, h0, minresInit]
  · intro j hj; simp [gmresInit, h0] at hj
  all_goals simp [gmresInit, h0, minresInit]

end
end Krypy
