import Verif.Model.MinMax
import Verif.Props.RootsPoly
import Verif.Props.Intervals
import Mathlib.Analysis.Complex.Polynomial.GaussLucas
import Mathlib.Analysis.Complex.Polynomial.Basic
import Mathlib.Analysis.Calculus.LocalExtr.Basic
import Mathlib.Analysis.Calculus.Deriv.Polynomial
import Mathlib.Topology.Order.Compact

/-! # Property C54: candidates for extrema of the roots polynomial -/

namespace Krypy
open Polynomial

/-- The documented polynomial. -/
noncomputable def normPoly (roots : List ℝ) (x : ℝ) : ℝ := (roots.map fun θ => 1 - x / θ).prod

theorem fromRoots_map (roots : List ℝ) : fromRoots (roots.map ((↑) : ℝ → ℂ)) = (fromRoots roots).map (algebraMap ℝ ℂ) := by
  unfold fromRoots
  rw [← Polynomial.coe_mapRingHom, map_list_prod, List.map_map, List.map_map]
  congr 1
  refine List.map_congr_left fun θ _ => ?_
  simp

theorem fromRoots_roots (roots : List ℂ) : (fromRoots roots).roots = (roots : Multiset ℂ) := by
  unfold fromRoots
  rw [show (roots.map fun θ => (X - C θ : ℂ[X])).prod = ((roots : Multiset ℂ).map fun θ => X - C θ).prod by simp]
  exact Polynomial.roots_multiset_prod_X_sub_C _

theorem fromRoots_monic {R : Type*} [CommRing R] [Nontrivial R] (roots : List R) : (fromRoots roots).Monic := by
  unfold fromRoots
  rw [show (roots.map fun θ => (X - C θ : R[X])).prod = ((roots : Multiset R).map fun θ => X - C θ).prod by simp]
  exact monic_multiset_prod_of_monic _ _ fun θ _ => monic_X_sub_C θ

theorem fromRoots_degree {R : Type*} [CommRing R] [IsDomain R] (roots : List R) : (fromRoots roots).natDegree = roots.length := by
  unfold fromRoots
  rw [show (roots.map fun θ => (X - C θ : R[X])).prod = ((roots : Multiset R).map fun θ => X - C θ).prod by simp,
    natDegree_multiset_prod_X_sub_C_eq_card]
  simp

/-- C54: `minmax_candidates` returns `n-1` points for `n ≥ 1` roots. -/
theorem C54_count {roots cand : List ℂ} (h : IsMinmaxCandidates roots cand) : cand.length = roots.length - 1 := by
  have h1 := congrArg Multiset.card h
  rw [Multiset.coe_card] at h1
  rw [← h1, ← (IsAlgClosed.splits _).natDegree_eq_card_roots, natDegree_derivative,
    fromRoots_degree]

/-- C54: for real roots all candidates are real (and lie between the smallest and the largest root). -/
theorem C54_real {roots : List ℝ} {cand : List ℂ} (h : IsMinmaxCandidates (roots.map ((↑) : ℝ → ℂ)) cand) {l r : ℝ}
    (hl : ∀ θ ∈ roots, l ≤ θ) (hr : ∀ θ ∈ roots, θ ≤ r) : ∀ z ∈ cand, z.im = 0 ∧ l ≤ z.re ∧ z.re ≤ r := by
  intro z hz
  have hz' : z ∈ (derivative (fromRoots (roots.map ((↑) : ℝ → ℂ)))).roots := by rw [h]; exact hz
  have hd : 0 < (fromRoots (roots.map ((↑) : ℝ → ℂ))).degree := by
    by_contra hd
    have h1 : (fromRoots (roots.map ((↑) : ℝ → ℂ))).natDegree = 0 := natDegree_eq_zero_iff_degree_le_zero.mpr (not_lt.mp hd)
    rw [derivative_of_natDegree_zero h1] at hz'
    simp at hz'
  have h1 := rootSet_derivative_subset_convexHull_rootSet hd (show z ∈ _ by
    rw [rootSet, aroots_def]
    simpa using hz')
  have hsub : (fromRoots (roots.map ((↑) : ℝ → ℂ))).rootSet ℂ ⊆ {w : ℂ | w.im = 0 ∧ l ≤ w.re ∧ w.re ≤ r} := by
    intro w hw
    have : w ∈ (fromRoots (roots.map ((↑) : ℝ → ℂ))).roots := by
      rw [rootSet, aroots_def] at hw
      simpa using hw
    rw [fromRoots_roots] at this
    obtain ⟨θ, hθ, rfl⟩ := List.mem_map.mp (Multiset.mem_coe.mp this)
    exact ⟨by simp, by simpa using hl θ hθ, by simpa using hr θ hθ⟩
  have hconv : Convex ℝ {w : ℂ | w.im = 0 ∧ l ≤ w.re ∧ w.re ≤ r} := by
    intro u ⟨hu1, hu2, hu3⟩ v ⟨hv1, hv2, hv3⟩ a b ha hb hab
    refine ⟨by simp [hu1, hv1], ?_, ?_⟩
    · simp only [Complex.real_smul, Complex.add_re, Complex.mul_re, Complex.ofReal_re, Complex.ofReal_im, zero_mul, sub_zero]
      calc l = a * l + b * l := by rw [← add_mul, hab, one_mul]
        _ ≤ _ := add_le_add (mul_le_mul_of_nonneg_left hu2 ha) (mul_le_mul_of_nonneg_left hv2 hb)
    · simp only [Complex.real_smul, Complex.add_re, Complex.mul_re, Complex.ofReal_re, Complex.ofReal_im, zero_mul, sub_zero]
      calc _ ≤ a * r + b * r := add_le_add (mul_le_mul_of_nonneg_left hu3 ha) (mul_le_mul_of_nonneg_left hv3 hb)
        _ = r := by rw [← add_mul, hab, one_mul]
  exact convexHull_min hsub hconv h1

/-- C54: on every interval the maximum of `|p|` is attained at an endpoint or at a candidate inside the interval. -/
theorem C54_max {roots : List ℝ} (h0 : ∀ θ ∈ roots, θ ≠ 0) {cand : List ℂ}
    (h : IsMinmaxCandidates (roots.map ((↑) : ℝ → ℂ)) cand) {l r x : ℝ} (hx : x ∈ Set.Icc l r) :
    ∃ y ∈ Set.Icc l r, (y = l ∨ y = r ∨ (y : ℂ) ∈ cand) ∧ |normPoly roots x| ≤ |normPoly roots y| := by
  -- `p` is a multiple of the monic polynomial
  obtain ⟨c, hc⟩ : ∃ c : ℝ, ∀ x, normPoly roots x = c * (fromRoots roots).eval x := by
    refine ⟨(roots.map fun θ => -θ⁻¹).prod, fun x => ?_⟩
    clear h hx
    unfold normPoly fromRoots
    induction roots with
    | nil => simp
    | cons θ t ih =>
      simp only [List.map_cons, List.prod_cons, eval_mul, eval_sub, eval_X, eval_C]
      rw [ih fun θ hθ => h0 θ (List.mem_cons_of_mem _ hθ)]
      have := h0 θ List.mem_cons_self
      field_simp
      ring
  have hcont : ContinuousOn (fun x => |normPoly roots x|) (Set.Icc l r) := by
    simp only [hc]
    fun_prop
  obtain ⟨y, hy, hmax⟩ := isCompact_Icc.exists_isMaxOn ⟨x, hx⟩ hcont
  have hlr : l ≤ r := hx.1.trans hx.2
  by_cases hyl : y = l
  · exact ⟨y, hy, Or.inl hyl, hmax hx⟩
  by_cases hyr : y = r
  · exact ⟨y, hy, Or.inr (Or.inl hyr), hmax hx⟩
  by_cases hp : normPoly roots y = 0
  · refine ⟨l, ⟨le_rfl, hlr⟩, Or.inl rfl, ?_⟩
    have := hmax hx
    simp only [Set.mem_ofPred_eq, hp, abs_zero] at this
    exact this.trans (abs_nonneg _)
  have hloc : IsLocalMax (fun x => |normPoly roots x|) y :=
    hmax.isLocalMax (Icc_mem_nhds (lt_of_le_of_ne hy.1 (Ne.symm hyl)) (lt_of_le_of_ne hy.2 hyr))
  have hsq : IsLocalMax (fun x => normPoly roots x ^ 2) y := by
    filter_upwards [hloc] with z hz
    exact sq_le_sq.mpr hz
  have hder : HasDerivAt (fun x => normPoly roots x ^ 2)
      (2 * (c * (fromRoots roots).eval y) * (c * (derivative (fromRoots roots)).eval y)) y := by
    simp only [hc]
    have h1 := (((fromRoots roots).hasDerivAt y).const_mul c).fun_pow 2
    simpa using h1
  have h2 := hsq.hasDerivAt_eq_zero hder
  rw [← hc] at h2
  have hcne : c ≠ 0 := by
    rintro rfl
    simp [hc] at hp
  have h3 : (derivative (fromRoots roots)).eval y = 0 := by
    rcases mul_eq_zero.mp h2 with h2 | h2
    · exact absurd (by simpa using h2) hp
    · exact (mul_eq_zero.mp h2).resolve_left hcne
  by_cases hd : derivative (fromRoots roots) = 0
  · -- a constant polynomial
    refine ⟨l, ⟨le_rfl, hlr⟩, Or.inl rfl, le_of_eq ?_⟩
    rw [hc, hc, eq_C_of_derivative_eq_zero hd]
    simp
  · refine ⟨y, hy, Or.inr (Or.inr ?_), hmax hx⟩
    rw [← Multiset.mem_coe, ← h, fromRoots_map, derivative_map, mem_roots_map hd]
    change (derivative (fromRoots roots)).eval₂ (algebraMap ℝ ℂ) (algebraMap ℝ ℂ y) = 0
    rw [eval₂_at_apply, h3, map_zero]

/-- C54: `bound_pseudo` maximises `|p|` over the whole pseudospectrum (a union of intervals) by looking at the endpoints
and the candidates. -/
theorem C54_polymax {argsort : List ℝ → List ℕ} (ha : IsArgsort argsort) {roots : List ℝ} (h0 : ∀ θ ∈ roots, θ ≠ 0)
    {cand : List ℝ} (h : IsMinmaxCandidates (roots.map ((↑) : ℝ → ℂ)) (cand.map ((↑) : ℝ → ℂ))) {ivs : IvSet ℝ}
    (hne : ivs ≠ []) :
    ∃ m, polyMax argsort roots ivs cand = .ok m ∧
      IsGreatest ((fun x => |normPoly roots x|) '' {x | ∃ i ∈ ivs, i.left ≤ x ∧ x ≤ i.right}) m := by
  have hcall := C47_array ha roots h0 (allCandidates ivs cand)
  have hmem : ∀ y, y ∈ allCandidates ivs cand ↔ (∃ i ∈ ivs, y = i.left ∨ y = i.right) ∨
      (y ∈ cand ∧ ∃ i ∈ ivs, i.left ≤ y ∧ y ≤ i.right) := by
    intro y
    unfold allCandidates
    rw [List.mem_append, (C05_endpoints ivs).2, List.mem_filter, IvSet.contains_iff]
  have hval : ∀ y, (roots.map fun θ => 1 - y / θ).prod = normPoly roots y := fun y => rfl
  cases hm : (((allCandidates ivs cand).map fun x => (roots.map fun θ => 1 - x / θ).prod).map fun v => |v|).max? with
  | none =>
    exfalso
    rw [List.max?_eq_none_iff, List.map_eq_nil_iff, List.map_eq_nil_iff] at hm
    obtain ⟨i, hi⟩ := List.exists_mem_of_ne_nil _ hne
    have := (hmem i.left).mpr (Or.inl ⟨i, hi, Or.inl rfl⟩)
    simp [hm] at this
  | some m =>
    refine ⟨m, by unfold polyMax; rw [hcall]; dsimp only; rw [hm], ?_, ?_⟩
    · have h1 := List.max?_mem hm
      simp only [List.map_map, List.mem_map, Function.comp] at h1
      obtain ⟨y, hy, rfl⟩ := h1
      refine ⟨y, ?_, by rw [hval]⟩
      rcases (hmem y).mp hy with ⟨i, hi, rfl | rfl⟩ | ⟨-, i, hi, h2⟩
      · exact ⟨i, hi, le_rfl, i.le⟩
      · exact ⟨i, hi, i.le, le_rfl⟩
      · exact ⟨i, hi, h2⟩
    · rintro _ ⟨x, ⟨i, hi, hx⟩, rfl⟩
      obtain ⟨y, hy, hy', hle⟩ := C54_max h0 h (l := i.left) (r := i.right) hx
      refine le_trans hle ?_
      have hyc : y ∈ allCandidates ivs cand := by
        rw [hmem]
        rcases hy' with rfl | rfl | hy'
        · exact Or.inl ⟨i, hi, Or.inl rfl⟩
        · exact Or.inl ⟨i, hi, Or.inr rfl⟩
        · right
          obtain ⟨z, hz, hzy⟩ := List.mem_map.mp hy'
          rw [Complex.ofReal_inj] at hzy
          exact ⟨hzy ▸ hz, i, hi, hy⟩
      refine (List.max?_eq_some_iff.mp hm).2 _ ?_
      simp only [List.map_map, List.mem_map, Function.comp]
      exact ⟨y, hyc, by rw [hval]⟩

/-- Non-vacuity: the roots 1 and 3, whose only candidate is 2. -/
theorem exMinmax : IsMinmaxCandidates ([1, 3].map ((↑) : ℝ → ℂ)) ([2].map ((↑) : ℝ → ℂ)) := by
  unfold IsMinmaxCandidates fromRoots
  have h : derivative ((List.map ((↑) : ℝ → ℂ) [1, 3]).map fun θ => (X - C θ : ℂ[X])).prod = C 2 * (X - C 2) := by
    simp only [List.map_cons, List.map_nil, List.prod_cons, List.prod_nil, mul_one, derivative_mul, derivative_X_sub_C]
    refine Polynomial.ext fun n => ?_
    rcases n with _ | _ | n <;> simp [coeff_X, coeff_C, coeff_one] <;> norm_num
  rw [h, roots_C_mul _ (by norm_num), roots_X_sub_C]
  simp

example (argsort : List ℝ → List ℕ) (ha : IsArgsort argsort) :
    polyMax argsort [1, 3] [⟨1, 3, by norm_num⟩] [2] = .ok (1 / 3) := by
  obtain ⟨m, hm, hg⟩ := C54_polymax ha (by simp) exMinmax (ivs := [⟨1, 3, by norm_num⟩]) (by simp)
  rw [hm]
  congr 1
  refine le_antisymm ?_ (hg.2 ⟨2, ⟨_, List.mem_singleton.mpr rfl, by norm_num, by norm_num⟩, ?_⟩)
  · obtain ⟨x, ⟨i, hi, h1, h2⟩, rfl⟩ := hg.1
    obtain rfl := List.mem_singleton.mp hi
    dsimp only at h1 h2 ⊢
    simp only [normPoly, List.map_cons, List.map_nil, List.prod_cons, List.prod_nil, mul_one, div_one]
    rw [abs_le]
    constructor <;> nlinarith [sq_nonneg (x - 2)]
  · simp only [normPoly, List.map_cons, List.map_nil, List.prod_cons, List.prod_nil, mul_one, div_one]
    norm_num [abs_of_neg]

end Krypy
