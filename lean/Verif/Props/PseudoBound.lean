import Verif.Props.PseudoLoop
import Mathlib.LinearAlgebra.Matrix.Charpoly.Coeff

set_option linter.unusedSectionVars false

/-!
# C58, third part: the value of the bound for self-adjoint operators, and a system for which it is not a bound
-/

namespace Krypy
variable {𝕜 E : Type*} [RCLike 𝕜] [AddCommGroup E] [Module 𝕜 E] {n_ n d k p : ℕ}
open scoped ComplexConjugate
open Matrix Finset

/-- C58: for a self-adjoint operator `compute_pseudo` returns
`1/π (epsilon/(delta - epsilon) (q_norm + beta) + beta) max |p|`, where the maximum of the residual polynomial is taken over the points whose
distance to the spectrum of `Hh` is at most `delta`. -/
theorem C58_intervals {rt : PseudoRoutines 𝕜 k p} (hp : PseudoHyp rt) {c : PseudoCtx 𝕜} (hsa : c.sa = true) (hne : c.evals ≠ [])
    {roots : List 𝕜} (hroots : ∀ z ∈ roots, RCLike.re z ≠ 0) (eps x : ℝ) :
    ∃ m, computePseudo rt c roots eps x =
        .ok (1 / Real.pi * (eps / (10 ^ x - eps) * (c.q + c.beta) + c.beta) * m) ∧
      IsGreatest ((fun y => |normPoly (roots.map RCLike.re) y|) '' {y | ∃ z ∈ c.evals, |y - RCLike.re z| ≤ 10 ^ x}) m := by
  have hd : (0 : ℝ) < 10 ^ x := by positivity
  obtain ⟨is, h1, h2⟩ := (mkIvList_around (c.evals.map RCLike.re) (-10 ^ x) (10 ^ x)).1 (by linarith)
  have hmem : ∀ y, (∃ i ∈ rt.build is, i.left ≤ y ∧ y ≤ i.right) ↔ ∃ z ∈ c.evals, |y - RCLike.re z| ≤ 10 ^ x := by
    intro y
    rw [← IvSet.contains_iff, (C04_membership_disjoint (hp.build is)).1, mem_points_around h2]
    simp only [List.mem_map, exists_exists_and_eq_and]
    refine exists_congr fun z => and_congr_right fun _ => ?_
    rw [abs_le]
    constructor <;> rintro ⟨h3, h4⟩ <;> constructor <;> linarith
  have hbne : rt.build is ≠ [] := by
    intro h0
    obtain ⟨z, hz⟩ := List.exists_mem_of_ne_nil _ hne
    obtain ⟨i, hi, -⟩ := (hmem (RCLike.re z)).mpr ⟨z, hz, by rw [sub_self, abs_zero]; exact hd.le⟩
    rw [h0] at hi
    cases hi
  obtain ⟨m, hm, hgr⟩ := C54_polymax hp.argsort (roots := roots.map RCLike.re) (by
    intro θ hθ
    obtain ⟨z, hz, rfl⟩ := List.mem_map.mp hθ
    exact hroots z hz) (hp.cand _) hbne
  refine ⟨m, ?_, ?_⟩
  · unfold computePseudo
    simp only [hsa, if_true]
    have e : (fun ev : ℝ => (ev - 10 ^ x, ev + 10 ^ x)) = fun ev => (ev + -10 ^ x, ev + 10 ^ x) := by
      funext ev; rw [sub_eq_add_neg]
    rw [e, h1]
    dsimp only
    rw [hm]
    dsimp only
    congr 3
    have := Real.pi_ne_zero
    field_simp
  · have e : {y | ∃ i ∈ rt.build is, i.left ≤ y ∧ y ≤ i.right} = {y | ∃ z ∈ c.evals, |y - RCLike.re z| ≤ 10 ^ x} := by
      ext y
      exact hmem y
    rw [← e]
    exact hgr

theorem list_of_roots_one {l : List ℝ} (h : (l : Multiset ℝ) = (1 : Matrix (Fin 1) (Fin 1) ℝ).charpoly.roots) : l = [1] := by
  have e : (1 : Matrix (Fin 1) (Fin 1) ℝ).charpoly.roots = {1} := by
    rw [Matrix.charpoly_one]
    simp only [Fintype.card_fin, pow_one]
    rw [← Polynomial.C_1, Polynomial.roots_X_sub_C]
  rw [e] at h
  rw [← Multiset.coe_singleton, Multiset.coe_eq_coe, List.perm_singleton] at h
  exact h

/-- `bound_pseudo` for one step with `Hh = [1]` and a remainder of norm `≤ 1/1000`. -/
theorem pseudo_one {E : Type*} [AddCommGroup E] [Module ℝ E] {l : ℕ} {rt : PseudoRoutines ℝ 0 0} (hp : PseudoHyp rt) {out : ArnfOut ℝ E 2 1 l 0} (hH : out.Hh = 1)
    (hq : out.qNorm = 1) (hv : out.vdiffNorm = 0) (hw : out.pwawNorm = 1) {rh : ℝ} (hrh : rhNorm out.Rh 1 = .ok rh) (hrh1 : rh ≤ 1 / 1000) :
    ∃ v, pseudoCore rt .minRes true 1 out 0 ⟨0, 99 / 1000, 0, 0⟩ .auto 20 1 = .ok [1, v] ∧ v ≤ 1 / 20 := by
  have hrh0 := rhNorm_nonneg hrh
  have hares : getResidualNorms (natMat out.Hh) 1 1 true = .ok [1, 0] := by simp [getResidualNorms, rnLoop]
  have hev : rt.eig out.Hh = [1] := list_of_roots_one (by rw [hp.eig, hH])
  have hroots : pseudoRoots rt .minRes out.Hh 1 = [1] := by
    have hX : (Matrix.of fun (r : Fin (min (1 + 1) (0 + 1))) (c : Fin 1) => natMat out.Hh r c) = (1 : Matrix (Fin 1) (Fin 1) ℝ) := by
      ext i j
      rw [hH]
      have hi : i = (0 : Fin 1) := Subsingleton.elim (α := Fin 1) i 0
      have hj : j = 0 := Subsingleton.elim _ _
      rw [hi, hj]
      simp [natMat]
    obtain ⟨h1, h2⟩ := hp.qr 1 (by norm_num) (Matrix.of fun r c => natMat out.Hh r c)
    unfold pseudoRoots
    dsimp only
    rw [hX] at h1 h2 ⊢
    set QR := rt.qr 1 (1 : Matrix (Fin 1) (Fin 1) ℝ) with hQR
    obtain ⟨Q, R⟩ := QR
    dsimp only at h1 h2 ⊢
    change Matrix (Fin 1) (Fin 1) ℝ at Q
    have e1 : Q 0 0 * R 0 0 = 1 := by
      have := congrFun (congrFun h1 (0 : Fin 1)) 0
      rw [Matrix.mul_apply] at this
      simpa using this.symm
    have e2 : Q 0 0 * Q 0 0 = 1 := by
      have := congrFun (congrFun h2 (0 : Fin 1)) 0
      rw [Matrix.mul_apply] at this
      simp only [Matrix.conjTranspose_apply, star_trivial, Matrix.one_apply_eq] at this
      exact (Fin.sum_univ_one fun x : Fin 1 => Q x 0 * Q x 0).symm.trans this
    have e3 : R 0 0 = Q 0 0 := by
      calc R 0 0 = Q 0 0 * Q 0 0 * R 0 0 := by rw [e2, one_mul]
        _ = Q 0 0 * (Q 0 0 * R 0 0) := by ring
        _ = Q 0 0 := by rw [e1, mul_one]
    have hdet : R.det ≠ 0 := by
      rw [Matrix.det_fin_one, e3]
      intro h0
      rw [h0, zero_mul] at e2
      exact zero_ne_one e2
    have hA : (Matrix.of fun (r c : Fin 1) => star (natMat Q c r)) = R := by
      ext i j
      have hi : i = 0 := Subsingleton.elim _ _
      have hj : j = 0 := Subsingleton.elim _ _
      rw [hi, hj, e3]
      simp [natMat]
    have hge : rt.geig 1 (Matrix.of fun (r c : Fin 1) => star (natMat Q c r)) R = [1] := by
      apply list_of_roots_one
      rw [hp.geig _ _ _ hdet, hA, Matrix.nonsing_inv_mul _ (isUnit_iff_ne_zero.mpr hdet)]
    have hge' : rt.geig 1 (Matrix.of fun (r c : Fin 1) => star (natMat (r := min (1 + 1) (0 + 1)) Q c r)) R = [1] := hge
    rw [hge']
    norm_num
  set eps := pseudoEps out.pwawNorm 0 (matNorm2 out.Hh) (99 / 1000) rh with heps
  have heps1 : eps = 99 / 1000 + rh := by
    rw [heps, hw]
    unfold pseudoEps
    rw [zero_mul, zero_add, one_mul]
    dsimp only
    rw [if_neg (by linarith)]
  have he0 : 0 < eps := by rw [heps1]; linarith
  have he1 : eps ≤ 1 / 10 := by rw [heps1]; linarith
  set c : PseudoCtx ℝ := ⟨true, [1], 1, 0⟩ with hc
  have hval : ∀ x, computePseudo rt c [1] eps x = .ok (1 / Real.pi * (eps / (10 ^ x - eps)) * 10 ^ x) := by
    intro x
    have hd : (0 : ℝ) < 10 ^ x := by positivity
    obtain ⟨m, h1, h2⟩ := C58_intervals hp (c := c) rfl (by simp [hc]) (roots := [1]) (by simp) eps x
    have hm : m = 10 ^ x := by
      refine h2.unique ⟨⟨1 + 10 ^ x, ⟨1, by simp [hc], ?_⟩, ?_⟩, ?_⟩
      · simp [abs_of_pos hd]
      · simp [normPoly, abs_of_pos hd]
      · rintro _ ⟨y, ⟨z, hz, hy⟩, rfl⟩
        simp only [hc, List.mem_singleton] at hz
        subst hz
        simp only [normPoly, RCLike.re_to_real, List.map_cons, List.map_nil, List.prod_cons, List.prod_nil, mul_one, div_one] at hy ⊢
        rwa [abs_sub_comm]
    rw [h1, hm]
    simp [hc]
  set ab := pseudoRange eps 100 20 with hab
  have hlog : Real.logb 10 100 = 2 := by
    rw [show (100 : ℝ) = 10 ^ (2 : ℝ) by norm_num, Real.logb_rpow (by norm_num) (by norm_num)]
  have ha1 : ab.1 = Real.logb 10 (101 / 100 * eps) := rfl
  have ha0 : ab.1 ≤ 0 := by
    rw [ha1]
    exact Real.logb_nonpos (by norm_num) (by linarith) (by linarith)
  have hb1 : ab.2 = ab.1 + (2 - ab.1) * (20 / 21) := by
    rw [ha1]
    simp only [hab, pseudoRange, hlog]
    norm_num
  have hle : ab.1 ≤ ab.2 := by rw [hb1]; nlinarith
  obtain ⟨m, hm⟩ := hp.minimize.total (computePseudo rt c [1] eps) ab.1 ab.2 hle fun x _ _ => ⟨_, hval x⟩
  have hm1 := hp.minimize.first _ _ _ _ _ hle hm (hval _)
  have h5 : √5 ≤ 9 / 4 := by
    rw [Real.sqrt_le_left (by norm_num)]; norm_num
  set x := ab.1 + (3 - √5) / 2 * (ab.2 - ab.1) with hx
  have hx1 : ab.1 + 1 / 2 ≤ x := by
    rw [hx, hb1]
    nlinarith
  have hd3 : 3 * eps ≤ 10 ^ x := by
    have h1 : (10 : ℝ) ^ (ab.1 + 1 / 2) ≤ 10 ^ x := Real.rpow_le_rpow_of_exponent_le (by norm_num) hx1
    rw [Real.rpow_add (by norm_num), ha1, Real.rpow_logb (by norm_num) (by norm_num) (by linarith)] at h1
    have h3 : (3 : ℝ) ≤ 10 ^ (1 / 2 : ℝ) := by
      rw [← Real.sqrt_eq_rpow]
      exact Real.le_sqrt_of_sq_le (by norm_num)
    nlinarith
  have hmv : m ≤ 1 / 20 := by
    refine hm1.trans ?_
    have hpi := Real.pi_gt_three
    have hpos : 0 < (10 : ℝ) ^ x - eps := by linarith
    rw [show 1 / Real.pi * (eps / (10 ^ x - eps)) * 10 ^ x = (eps * 10 ^ x) / (Real.pi * (10 ^ x - eps)) by field_simp,
      div_le_iff₀ (by positivity)]
    nlinarith
  refine ⟨min m 1, ?_, (min_le_left _ _).trans hmv⟩
  have hleast : pseudoLeast rt .minRes c out 0 (99 / 1000) 100 .auto 20 1 = .ok (some m) := by
    unfold pseudoLeast
    rw [hrh]
    dsimp only
    rw [if_neg (by simp), ← heps, if_neg (by linarith), ← hab, if_neg (not_lt.mpr hle), hroots, hm]
  unfold pseudoCore
  dsimp only
  rw [if_neg (by norm_num)]
  simp only [pseudoAres, hares, reduceCtorEq, if_false, if_true, hev, hrh, hq, hv, hw]
  simp only [List.map_cons, List.map_nil, RCLike.re_to_real, pseudoLoop]
  norm_num
  have hc' : (⟨true, [1], 1, 0⟩ : PseudoCtx ℝ) = c := rfl
  simp only [hc', hleast]

/-! ## A system for which the bound is wrong -/

/-- The first operator. -/
noncomputable def exPsT : (Fin 2 → ℝ) →ₗ[ℝ] (Fin 2 → ℝ) := Matrix.toLin' !![1, 1 / 1000; 1 / 1000, 1]

/-- The next operator. -/
noncomputable def exPsT' : (Fin 2 → ℝ) →ₗ[ℝ] (Fin 2 → ℝ) := Matrix.toLin' !![1, 1 / 10; 1 / 10, 1]

/-- The Arnoldi vectors. -/
def exPsV (i : ℕ) : Fin 2 → ℝ := if i = 0 then ![1, 0] else ![0, 1]

/-- No deflation vectors. -/
def exPsU (i : Fin 0) : Fin 2 → ℝ := i.elim0

theorem exPs_T (x : Fin 2 → ℝ) : exPsT x = ![x 0 + x 1 / 1000, x 0 / 1000 + x 1] := by
  funext i
  fin_cases i <;> simp [exPsT, Matrix.mulVec, dotProduct, Fin.sum_univ_two] <;> ring

theorem exPs_T' (x : Fin 2 → ℝ) : exPsT' x = ![x 0 + x 1 / 10, x 0 / 10 + x 1] := by
  funext i
  fin_cases i <;> simp [exPsT', Matrix.mulVec, dotProduct, Fin.sum_univ_two] <;> ring

theorem exPs_dot (x y : Fin 2 → ℝ) : cdot x y = x 0 * y 0 + x 1 * y 1 := by
  simp [cdot, dotProduct, Fin.sum_univ_two]

theorem exPs_nrm (x : Fin 2 → ℝ) : nrm cdot x = √(x 0 ^ 2 + x 1 ^ 2) := by
  rw [nrm, nsq, exPs_dot]
  simp [sq]

theorem exPs_rel : DeflRitzRel cdot exPsT exPsV exPsU (fun i _ => if i = 0 then 1 else 1 / 1000) 2 1 0 0 [fun i => i.elim0]
    [fun i => i.elim0, fun i => i.elim0] := by
  have hV0 : exPsV 0 = ![1, 0] := rfl
  have hV1 : exPsV 1 = ![0, 1] := rfl
  refine ⟨cdot_inner, by omega, fun i hi j hj => ?_, fun i => i.elim0, fun i => i.elim0, rfl, rfl, fun i => i.elim0, fun j hj i => i.elim0,
    fun i hi j => j.elim0, fun i => i.elim0, by simp, fun j hj => ?_⟩
  · interval_cases i <;> interval_cases j <;> simp [exPs_dot, hV0, hV1]
  · interval_cases j
    rw [lincomb, Finset.univ_eq_empty, Finset.sum_empty, Finset.sum_range_succ, Finset.sum_range_one, hV0, hV1, exPs_T]
    funext i
    fin_cases i <;> simp

/-- Routines which satisfy the contracts exist. -/
theorem exPs_routines : (∃ rt : ArnfRoutines ℝ (Fin 2 → ℝ) 0, ArnfHyp cdot cdot rt) ∧
    (∃ grt : ArnfGetRoutines ℝ 2 1 0 0 (1 + 0 - 0 - 1), ArnfGetHyp grt) ∧ ∃ prt : PseudoRoutines ℝ 0 (1 + 0 - 0 - 1), PseudoHyp prt := by
  have h0 : ∀ (M N : Matrix (Fin 0) (Fin 0) ℝ), M = N := fun M N => Subsingleton.elim _ _
  refine ⟨⟨⟨fun X => (X, 0, 1), fun l Q => .error .other⟩, cdot_inner, fun X => ⟨fun j => j.elim0, h0 _ _, fun i => i.elim0,
      fun i => i.elim0⟩, fun l Q Q' R h => by cases h⟩,
    ⟨⟨fun Wt => (Wt, eyeCols 1 0 _), ⟨fun X => .ok (X, 0), fun M => (1, M)⟩, fun A => (A, 1), fun l X => X, fun M => 0⟩,
      fun Wt => eyeCols_full (n := 1) (d := 0) (p := 0) rfl Wt, fun X => ⟨X, 0, rfl, fun j => j.elim0, h0 _ _, fun i => i.elim0⟩,
      fun M => ⟨h0 _ _, h0 _ _, fun i => i.elim0⟩, fun A => ⟨?_, ?_, fun i => ?_, fun i j hij => ?_⟩,
      fun l X => ⟨h0 _ _, 0, ?_⟩, fun M hk => absurd hk (lt_irrefl _)⟩, ?_⟩
  · simp
  · simp
  · rw [Subsingleton.elim (α := Fin 1) i 0]; simp
  · exact absurd i.2 (by simp; omega)
  · ext i j; exact j.elim0
  · have hcand : ∀ roots : List ℝ, ∃ cand : List ℝ, IsMinmaxCandidates (roots.map ((↑) : ℝ → ℂ)) (cand.map ((↑) : ℝ → ℂ)) := by
      intro roots
      obtain ⟨l, hl⟩ := Quotient.exists_rep (Polynomial.derivative (fromRoots (roots.map ((↑) : ℝ → ℂ)))).roots
      have hc : IsMinmaxCandidates (roots.map ((↑) : ℝ → ℂ)) l := hl.symm
      obtain ⟨lo, hlo⟩ : ∃ lo : ℝ, ∀ θ ∈ roots, lo ≤ θ := by
        obtain ⟨lo, hlo⟩ := (roots.toFinset.finite_toSet).bddBelow
        exact ⟨lo, fun θ hθ => hlo (by simpa using hθ)⟩
      obtain ⟨hi, hhi⟩ : ∃ hi : ℝ, ∀ θ ∈ roots, θ ≤ hi := by
        obtain ⟨hi, hhi⟩ := (roots.toFinset.finite_toSet).bddAbove
        exact ⟨hi, fun θ hθ => hhi (by simpa using hθ)⟩
      refine ⟨l.map Complex.re, ?_⟩
      have e : (l.map Complex.re).map ((↑) : ℝ → ℂ) = l := by
        rw [List.map_map]
        refine (List.map_congr_left fun z hz => ?_).trans (List.map_id l)
        obtain ⟨h1, -⟩ := C54_real hc hlo hhi z hz
        apply Complex.ext <;> simp [h1]
      rw [e]
      exact hc
    choose cand hcand using hcand
    choose build hbuild using C04_built_total (α := ℝ)
    have hqr : ∀ (i : ℕ) (X : Matrix (Fin (min (i + 1) (0 + 1))) (Fin i) ℝ), ∃ QR : Matrix (Fin (min (i + 1) (0 + 1))) (Fin i) ℝ × Matrix (Fin i) (Fin i) ℝ,
        i ≤ 1 → X = QR.1 * QR.2 ∧ QR.1ᴴ * QR.1 = 1 := by
      intro i X
      by_cases hi : i ≤ 1
      · interval_cases i
        · exact ⟨(0, 0), fun _ => ⟨by ext r c; exact c.elim0, h0 _ _⟩⟩
        · refine ⟨((1 : Matrix (Fin 1) (Fin 1) ℝ), X), fun _ => ⟨(Matrix.one_mul (X : Matrix (Fin 1) (Fin 1) ℝ)).symm, ?_⟩⟩
          exact (by simp : (1 : Matrix (Fin 1) (Fin 1) ℝ)ᴴ * 1 = 1)
      · exact ⟨(0, 0), fun h => absurd h hi⟩
    choose qr hqr using hqr
    refine ⟨⟨fun M => 0, fun M => M.charpoly.roots.toList, qr, fun i A B => (B⁻¹ * A).charpoly.roots.toList, fun i M => [],
      fun l => (List.range l.length).mergeSort fun i j => decide (l.getD i 0 ≤ l.getD j 0), cand, build, fun _ _ => .error .other,
      fun f a b => f (a + (3 - √5) / 2 * (b - a))⟩, fun M hk => absurd hk (lt_irrefl _), fun M => by simp, fun i hi X => hqr i X hi,
      fun i A B hB => by simp, fun l => ⟨?_, ?_⟩, hcand, hbuild, (fun _ _ _ h => by cases h), ?_⟩
    · exact List.mergeSort_perm _ _
    · have := List.pairwise_mergeSort (le := fun i j => decide (l.getD i 0 ≤ l.getD j 0)) (by
        intro a b c; simp only [decide_eq_true_eq]; exact le_trans) (by
        intro a b; simp only [Bool.or_eq_true, decide_eq_true_eq]; exact le_total _ _) (List.range l.length)
      refine this.imp fun {i j} hij a b hi hj => ?_
      simpa [List.getD_eq_getElem?_getD, hi, hj] using hij
    · have hc0 : 0 ≤ (3 - √5) / 2 := by
        have : √5 ≤ 3 := by rw [Real.sqrt_le_left (by norm_num)]; norm_num
        linarith
      have hc1 : (3 - √5) / 2 ≤ 1 := by
        have : 1 ≤ √5 := Real.le_sqrt_of_sq_le (by norm_num)
        linarith
      have hin : ∀ a b : ℝ, a ≤ b → a ≤ a + (3 - √5) / 2 * (b - a) ∧ a + (3 - √5) / 2 * (b - a) ≤ b := by
        intro a b hab
        constructor <;> nlinarith
      exact ⟨fun f a b m hab h => ⟨_, (hin a b hab).1, (hin a b hab).2, h⟩,
        fun f a b m v hab h hv => le_of_eq (Except.ok.inj (h.symm.trans hv)),
        fun f a b hab h => h _ (hin a b hab).1 (hin a b hab).2⟩

/-- C58 (finding): for self-adjoint operators `bound_pseudo` uses `pseudolen = 2 delta` (line 692) as the length of the boundary of the
pseudospectrum, which consists of circles with circumference `2 π delta`, so that the result need not be a bound.  First operator
`[[1, 1/1000], [1/1000, 1]]`, next operator `[[1, 1/10], [1/10, 1]]`, both with right hand side `e_1`, one step, no deflation.  For all
implementations of the routines the second number is at most `1/20` (for all other numbers, exact norms are passed), but after one step the residual norm of the next
system is at least `99/1000`. -/
theorem C58_bound_counterexample :
    (∀ x y, cdot (exPsT x) y = cdot x (exPsT y)) ∧ (∀ x y, cdot (exPsT' x) y = cdot x (exPsT' y)) ∧
    (∀ x, nrm cdot (exPsT' x - exPsT x) = 99 / 1000 * nrm cdot x) ∧
    (∀ z ∈ krylov exPsT' (exPsV 0) 1, 99 / 1000 ≤ nrm cdot (exPsV 0 - exPsT' z)) ∧
    ∀ (rt : ArnfRoutines ℝ (Fin 2 → ℝ) 0), ArnfHyp cdot cdot rt → ∃ a, mkArnf (n_ := 2) (n := 1) rt (fun i _ => if i = 0 then 1 else 1 / 1000) 0
        [fun i => i.elim0] [fun i => i.elim0, fun i => i.elim0] exPsV exPsU (fun j => exPsT (exPsU j)) = .ok a ∧
      ∀ grt : ArnfGetRoutines ℝ 2 1 0 0 (1 + 0 - 0 - 1), ArnfGetHyp grt → ∀ prt : PseudoRoutines ℝ 0 (1 + 0 - 0 - 1), PseudoHyp prt →
        ∃ v, boundPseudo a grt cdot 0 [fun i => i.elim0, fun i => i.elim0] exPsV exPsU 1 0 exPs_rel.le (Matrix.of fun _ j => j.elim0) prt
          .minRes true 1 ⟨0, 99 / 1000, 0, 0⟩ .auto 20 1 = .ok [1, v] ∧ v ≤ 1 / 20 := by
  refine ⟨fun x y => ?_, fun x y => ?_, fun x => ?_, fun z hz => ?_, fun rt hrt => ?_⟩
  · rw [exPs_T, exPs_T, exPs_dot, exPs_dot]
    simp
    ring
  · rw [exPs_T', exPs_T', exPs_dot, exPs_dot]
    simp
    ring
  · rw [exPs_T, exPs_T', exPs_nrm, exPs_nrm]
    simp only [Pi.sub_apply, Matrix.cons_val_zero, Matrix.cons_val_one]
    rw [show (99 / 1000 : ℝ) = √((99 / 1000) ^ 2) by rw [Real.sqrt_sq (by norm_num)], ← Real.sqrt_mul (by norm_num)]
    congr 1
    ring
  · rw [krylov_eq_spanTo, mem_spanTo_iff] at hz
    obtain ⟨u, rfl⟩ := hz
    rw [Finset.sum_range_one, exPs_T', exPs_nrm]
    refine Real.le_sqrt_of_sq_le ?_
    simp [exPsV]
    nlinarith [sq_nonneg (u 0 * 101 - 100)]
  · obtain ⟨a, ha⟩ : ∃ a, mkArnf (n_ := 2) (n := 1) rt (fun i _ => if i = 0 then 1 else 1 / 1000) 0
        [fun i => i.elim0] [fun i => i.elim0, fun i => i.elim0] exPsV exPsU (fun j => exPsT (exPsU j)) = .ok a := by
      unfold mkArnf
      rw [if_neg (by simp), solveE, if_pos rfl]
      dsimp only
      rw [if_pos rfl]
      exact ⟨_, rfl⟩
    refine ⟨a, ha, fun grt hgrt prt hprt => ?_⟩
    have hi : IsInner (cdot : (Fin 2 → ℝ) → (Fin 2 → ℝ) → ℝ) := cdot_inner
    set Wt : Matrix (Fin 1 ⊕ Fin 0) (Fin 0) ℝ := Matrix.of fun _ j => j.elim0 with hWt
    have hdet : (gram cdot (arnfW exPsV exPsU Wt) fun j => exPsT (arnfW exPsV exPsU Wt j)).det ≠ 0 := by simp
    have hD : ∀ j, arnfDefect a exPsV exPsU (fun j => exPsT (exPsU j)) 0 [fun i => i.elim0, fun i => i.elim0] j = 0 := fun j => j.elim0
    have hk : 0 < 1 + 0 := by norm_num
    have hn0 : 0 < 2 := by norm_num
    obtain ⟨out, ho⟩ := C56_total exPs_rel hrt ha hgrt hdet hk hn0 1 0
    obtain ⟨e1, -, e3, espan⟩ := C56_basis exPs_rel hrt ha hgrt hdet hk hn0 1 0 ho
    obtain ⟨p1, p2⟩ := C56_projection exPs_rel hrt ha hgrt hdet hk hn0 1 0 ho
    obtain ⟨z1, -⟩ := C56_residual_basis exPs_rel hrt ha
    obtain ⟨al, z, hal, hq0, hin, hz, hzn⟩ := C56_initial exPs_rel hrt ha hgrt hdet hk hn0 1 0 ho rfl hD
    obtain ⟨⟨hpw0, hpw⟩, hpwl⟩ := C56_projection_norm exPs_rel hrt ha hgrt hdet hk hn0 1 0 ho hD
    have hob : ∀ x, oblique cdot (fun j => exPsT (arnfW exPsV exPsU Wt j)) (arnfW exPsV exPsU Wt) x = 0 := by
      intro x
      rw [oblique, lincomb, Finset.univ_eq_empty, Finset.sum_empty]
    have hop : ∀ x, deflOp cdot exPsT (arnfW exPsV exPsU Wt) x = exPsT x := by
      intro x
      rw [deflOp, hob, sub_zero]
    -- the only basis vector
    obtain ⟨c, hc⟩ : ∃ c : ℝ, out.Vh 0 = c • exPsV 0 := by
      have : out.Vh 0 ∈ Submodule.span ℝ (Set.range (DeflRitzRel.wb 1 exPsV exPsU)) := by
        rw [← espan]
        exact Submodule.mem_sup_left (Submodule.subset_span ⟨0, rfl⟩)
      obtain ⟨y, hy⟩ := (mem_span_iff_lincomb _ _).mp this
      refine ⟨y (.inl 0), ?_⟩
      rw [hy, DeflRitzRel.wb, DeflRitzRel.lincomb_sum, lincomb, lincomb]
      simp
    have hV0 : exPsV 0 = ![1, 0] := rfl
    have hcc : c * c = 1 := by
      have := e1 0 0
      rw [if_pos rfl, hc, exPs_dot, hV0] at this
      simpa using this
    have hH : out.Hh = (1 : Matrix (Fin 1) (Fin 1) ℝ) := by
      ext i j
      rw [Subsingleton.elim (α := Fin 1) i 0, Subsingleton.elim (α := Fin 1) j 0]
      have := p1 0 0
      rw [hop, hc, exPs_T, exPs_dot, hV0] at this
      rw [Matrix.one_apply_eq, ← hcc]
      simpa using this.symm
    have hZ0 : ∀ l, cdot (a.Z l) (exPsV 0) = 0 := by
      intro l
      have := e3 0 l
      rw [hc, hi.smul_right] at this
      rcases mul_eq_zero.mp this with h0 | h0
      · rw [h0, zero_mul] at hcc
        exact absurd hcc zero_ne_one
      · exact h0
    have hq : out.qNorm = 1 ∧ out.vdiffNorm = 0 := by
      have hz0 := hz 0
      rw [hob, sub_zero] at hin
      have hr : ((1 : ℝ) : ℝ) • exPsV 0 + ∑ j : Fin 0, ((0 : Matrix (Fin 0) (Fin 0) ℝ)⁻¹ *ᵥ 0) j • exPsT (exPsU j) = c • out.Vh 0 := by
        rw [hc, smul_smul, hcc]
        simp
      have hzz : z = (c - al * out.qNorm) • out.Vh 0 := by
        rw [sub_smul, ← hr]
        rw [eq_sub_iff_add_eq, add_comm]
        exact hin.symm
      rw [hzz, hi.smul_right, e1, if_pos rfl, mul_one] at hz0
      constructor
      · have h1 : c = al * out.qNorm := by linarith
        have h2 : |c| = 1 := by
          have : |c| * |c| = 1 := by rw [← abs_mul, hcc, abs_one]
          nlinarith [abs_nonneg c]
        rw [h1, abs_mul, abs_of_nonneg hq0] at h2
        rwa [show |al| = 1 from hal, one_mul] at h2
      · rw [← hzn, hzz, hz0, zero_smul]
        exact hi.nrm_eq_zero.mpr rfl
    have hw : out.pwawNorm = 1 := by
      refine le_antisymm (hpwl ⟨zero_le_one, fun x => by rw [hob, sub_zero, one_mul]⟩) ?_
      have := hpw (out.Vh 0)
      rw [hob, sub_zero, show nrm cdot (out.Vh 0) = 1 by rw [nrm, nsq, e1, if_pos rfl]; simp] at this
      linarith
    have hrh : ∃ rh, rhNorm out.Rh 1 = .ok rh ∧ rh ≤ 1 / 1000 := by
      unfold rhNorm
      rw [if_neg (by omega)]
      refine ⟨_, rfl, matNorm2_le _ (by norm_num) fun u => ?_⟩
      have hcol : (Matrix.of fun r (c : Fin (min 1 (1 + 0 - 0 - 1 + 1))) => out.Rh r ⟨c, by omega⟩) *ᵥ u =
          coefs cdot a.Z ((u (0 : Fin 1) * c / 1000) • exPsV 1) := by
        funext r
        have hr := p2 hD r 0
        have hT : exPsT (c • exPsV 0) = c • exPsV 0 + (c / 1000) • exPsV 1 := by
          rw [exPs_T]
          funext i
          fin_cases i <;> simp [exPsV]
        rw [hop, hc, hT, hi.add_right, hi.smul_right, hZ0, mul_zero, zero_add, hi.smul_right] at hr
        rw [Matrix.mulVec, dotProduct]
        refine (Fin.sum_univ_one fun x : Fin 1 => out.Rh r x * u x).trans ?_
        rw [show out.Rh r (0 : Fin 1) = _ from hr.symm, coefs, hi.smul_right]
        change _ * u (0 : Fin 1) = _
        ring
      rw [hcol]
      refine (bessel hi (by ext i j; rw [gram, Matrix.of_apply, z1, Matrix.one_apply]) _).trans ?_
      rw [hi.nrm_smul, show nrm cdot (exPsV 1) = 1 by rw [exPs_nrm]; simp [exPsV]]
      have h2 : |c| = 1 := by
        have : |c| * |c| = 1 := by rw [← abs_mul, hcc, abs_one]
        nlinarith [abs_nonneg c]
      have h3 : vecNorm u = |u (0 : Fin 1)| := by
        unfold vecNorm
        rw [show ∑ i, ‖u i‖ ^ 2 = |u (0 : Fin 1)| ^ 2 from Fin.sum_univ_one fun x : Fin 1 => ‖u x‖ ^ 2, Real.sqrt_sq (abs_nonneg _)]
      rw [h3, Real.norm_eq_abs, abs_div, abs_mul, h2]
      norm_num
      linarith
    obtain ⟨rh, hrh, hrh1⟩ := hrh
    obtain ⟨v, hv, hv1⟩ := pseudo_one hprt hH hq.1 hq.2 hw hrh hrh1
    refine ⟨v, ?_, hv1⟩
    unfold boundPseudo
    rw [show a.get grt cdot 0 [fun i => i.elim0, fun i => i.elim0] exPsV exPsU 1 0 exPs_rel.le Wt = .ok out from ho]
    dsimp only
    rw [pseudoEta, if_neg (by norm_num)]
    exact hv

end Krypy
