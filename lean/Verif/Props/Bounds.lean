import Verif.Model.Bounds
import Verif.Props.Intervals
import Mathlib.Tactic.Linarith
import Mathlib.Tactic.Positivity
import Mathlib.Tactic.NormNum
import Mathlib.Tactic.FieldSimp
import Mathlib.Tactic.Ring

/-! # Property C46: a-priori bounds -/

namespace Krypy

/-- Spec: the convergence factor `(√κ - 1)/(√κ + 1)`. -/
noncomputable def cgFactor (κ : ℝ) : ℝ := (Real.sqrt κ - 1) / (Real.sqrt κ + 1)

/-- Spec: the MINRES factor of the spectrum `λ₁ ≤ … ≤ λₛ < 0 < λₜ ≤ … ≤ λ_N`. -/
noncomputable def minresFactor (l1 ls lt lN : ℝ) : ℝ :=
  (Real.sqrt |l1 * lN| - Real.sqrt |ls * lt|) / (Real.sqrt |l1 * lN| + Real.sqrt |ls * lt|)

/-- Spec: a real spectrum as the array that is passed in. -/
def toC (ev : List ℝ) : List ℂ := ev.map Complex.ofReal

theorem toC_re (ev : List ℝ) : (toC ev).map Complex.re = ev := by
  simp [toC, List.map_map, Function.comp_def]

theorem toC_im (ev : List ℝ) : ∀ z ∈ toC ev, z.im = 0 := by
  intro z hz; obtain ⟨x, -, rfl⟩ := List.mem_map.mp hz; simp

theorem tiny_pos : 0 < tiny := by unfold tiny; positivity
theorem tiny_lt_one : tiny < 1 := by unfold tiny; norm_num

theorem mem_npSort {l : List ℝ} {x : ℝ} : x ∈ npSort l ↔ x ∈ l :=
  (List.mergeSort_perm _ _).mem_iff

theorem npSort_pairwise (l : List ℝ) : (npSort l).Pairwise (· ≤ ·) := by
  have := List.pairwise_mergeSort (le := fun a b : ℝ => decide (a ≤ b))
    (by intro a b c; simp; exact le_trans) (by intro a b; simp; exact le_total _ _) l
  exact this.imp (by intro a b; simp)

theorem npSort_getLast {l : List ℝ} {M : ℝ} (h : IsGreatest {x | x ∈ l} M) :
    (npSort l).getLast? = some M := by
  have hne : npSort l ≠ [] := by
    intro h0
    have := mem_npSort.mpr h.1
    rw [h0] at this; simp at this
  obtain ⟨t, a, ht⟩ := (List.eq_nil_or_concat (npSort l)).resolve_left hne
  have hp := npSort_pairwise l
  rw [ht] at hp ⊢
  simp only [List.concat_eq_append, List.getLast?_append, List.getLast?_singleton,
    Option.some_or, Option.some.injEq] at *
  apply le_antisymm
  · exact h.2 (mem_npSort.mp (by rw [ht]; simp))
  · have := mem_npSort.mpr h.1
    rw [ht] at this
    rcases List.mem_append.mp this with h' | h'
    · exact (List.pairwise_append.mp hp).2.2 M h' a (by simp)
    · simp at h'; rw [h']

theorem npSort_head {l : List ℝ} {m : ℝ} (h : IsLeast {x | x ∈ l} m) :
    (npSort l).head? = some m := by
  cases ht : npSort l with
  | nil => have := mem_npSort.mpr h.1; rw [ht] at this; simp at this
  | cons a t =>
    have hp := npSort_pairwise l
    rw [ht] at hp
    simp only [List.head?_cons, Option.some.injEq]
    apply le_antisymm
    · have := mem_npSort.mpr h.1
      rw [ht] at this
      rcases List.mem_cons.mp this with h' | h'
      · rw [h']
      · exact (List.pairwise_cons.mp hp).1 m h'
    · exact h.2 (mem_npSort.mp (by rw [ht]; simp))

theorem exists_greatest {l : List ℝ} (h : l ≠ []) : ∃ M, IsGreatest {x | x ∈ l} M := by
  have : ∃ a, l.max? = some a := by rw [← Option.isSome_iff_exists, List.isSome_max?_iff]; exact h
  obtain ⟨a, ha⟩ := this
  rw [List.max?_eq_some_iff] at ha
  exact ⟨a, ha.1, fun x hx => ha.2 x hx⟩

theorem exists_least {l : List ℝ} (h : l ≠ []) : ∃ M, IsLeast {x | x ∈ l} M := by
  have : ∃ a, l.min? = some a := by rw [← Option.isSome_iff_exists, List.isSome_min?_iff]; exact h
  obtain ⟨a, ha⟩ := this
  rw [List.min?_eq_some_iff] at ha
  exact ⟨a, ha.1, fun x hx => ha.2 x hx⟩

theorem boundCGReal_pos {ev : List ℝ} {M m : ℝ} {excl : Bool} (hM : IsGreatest {x | x ∈ ev} M)
    (hM0 : 0 < M) (hm : IsLeast {x | x ∈ ev ∧ x > tiny * M} m)
    (hall : ∀ x ∈ ev, if excl then x > -tiny * M else x > tiny * M) :
    boundCGReal ev excl = .ok (cgFactor (M / m)) := by
  have ht := tiny_pos
  have hne : ev ≠ [] := by rintro rfl; simpa using hM.1
  obtain ⟨lo, hlo⟩ := exists_least hne
  have hmin : (((npSort ev).map (· / M)).filter fun x => x > tiny).min? = some (m / M) := by
    rw [List.min?_eq_some_iff]
    constructor
    · simp only [List.mem_filter, List.mem_map, decide_eq_true_eq]
      exact ⟨⟨m, mem_npSort.mpr hm.1.1, rfl⟩, by rw [gt_iff_lt, lt_div_iff₀ hM0]; exact hm.1.2⟩
    · intro b hb
      simp only [List.mem_filter, List.mem_map, decide_eq_true_eq] at hb
      obtain ⟨⟨x, hx, rfl⟩, hx2⟩ := hb
      rw [gt_iff_lt, lt_div_iff₀ hM0] at hx2
      exact div_le_div_of_nonneg_right (hm.2 ⟨mem_npSort.mp hx, hx2⟩) hM0.le
  have hlo' : lo > -tiny * M := by
    have := hall lo hlo.1
    cases excl
    · simp at this; have : tiny * M > -tiny * M := by nlinarith
      linarith
    · simpa using this
  unfold boundCGReal
  simp only [npSort_getLast hM, hM0.ne', if_false]
  rw [if_neg, if_neg]
  · rw [hmin]
    simp only [cgFactor, one_div_div]
  · rw [not_not]
    refine ⟨lo / M, ?_, ?_⟩
    · rw [List.head?_map, npSort_head hlo]; rfl
    · rw [gt_iff_lt, lt_div_iff₀ hM0]; exact hlo'
  · rintro ⟨h1, h2⟩
    apply h2
    intro x hx
    obtain ⟨y, hy, rfl⟩ := List.mem_map.mp hx
    have := hall y (mem_npSort.mp hy)
    rw [h1] at this
    rw [gt_iff_lt, lt_div_iff₀ hM0]
    simpa using this

/-- What `BoundCG(evals)` does on an array of real numbers, by the sign of the largest eigenvalue `M`. -/
theorem boundCGReal_cases {ev : List ℝ} {M m : ℝ} (hM : IsGreatest {x | x ∈ ev} M)
    (hm : IsLeast {x | x ∈ ev} m) :
    (0 < M → tiny * M < m → boundCGReal ev false = .ok (cgFactor (M / m))) ∧
    (0 < M → m ≤ tiny * M → boundCGReal ev false = .error .assumptionError) ∧
    (M = 0 → boundCGReal ev false = .error .assumptionError) ∧
    (M < 0 → boundCGReal ev false = .ok 0) := by
  have ht := tiny_pos
  refine ⟨?_, ?_, ?_, ?_⟩
  · intro h0 h1
    refine boundCGReal_pos hM h0 ⟨⟨hm.1, h1⟩, fun x hx => hm.2 hx.1⟩ ?_
    intro x hx
    simpa using lt_of_lt_of_le h1 (hm.2 hx)
  · intro h0 h1
    unfold boundCGReal
    simp only [npSort_getLast hM, h0.ne', if_false]
    rw [if_pos]
    refine ⟨trivial, fun h => ?_⟩
    have := h (m / M) (List.mem_map.mpr ⟨m, mem_npSort.mpr hm.1, rfl⟩)
    rw [gt_iff_lt, lt_div_iff₀ h0] at this
    linarith
  · intro h0
    unfold boundCGReal
    simp [npSort_getLast hM, h0]
  · intro h0
    have hdiv : ∀ x ∈ ev, 1 ≤ x / M := by
      intro x hx
      rw [le_div_iff_of_neg h0]
      simpa using hM.2 hx
    have hmin : (((npSort ev).map (· / M)).filter fun x => x > tiny).min? = some 1 := by
      rw [List.min?_eq_some_iff]
      constructor
      · simp only [List.mem_filter, List.mem_map, decide_eq_true_eq]
        exact ⟨⟨M, mem_npSort.mpr hM.1, div_self h0.ne⟩, tiny_lt_one⟩
      · intro b hb
        simp only [List.mem_filter, List.mem_map, decide_eq_true_eq] at hb
        obtain ⟨⟨x, hx, rfl⟩, hx2⟩ := hb
        exact hdiv x (mem_npSort.mp hx)
    unfold boundCGReal
    simp only [npSort_getLast hM, h0.ne, if_false]
    rw [if_neg, if_neg]
    · rw [hmin]; simp
    · rw [not_not]
      refine ⟨m / M, ?_, ?_⟩
      · rw [List.head?_map, npSort_head hm]; rfl
      · have := hdiv m hm.1; linarith
    · rintro ⟨-, h2⟩
      apply h2
      intro x hx
      obtain ⟨y, hy, rfl⟩ := List.mem_map.mp hx
      have := hdiv y (mem_npSort.mp hy)
      have := tiny_lt_one
      linarith

theorem boundCG_array {ev : List ℝ} (h : ev ≠ []) (excl : Bool) :
    boundCG (.array (toC ev)) excl =
      match boundCGReal ev excl with
      | .ok base => .ok ⟨true, base⟩
      | .error e => .error e := by
  unfold boundCG
  have h1 : ¬ (toC ev).length = 0 := by simpa [toC] using h
  have h2 : ∀ z ∈ (toC ev), z.im = 0 := toC_im ev
  have h3 : (toC ev).map Complex.re = ev := toC_re ev
  simp only [h1, if_false, h3]
  rw [if_neg (by rw [not_not]; exact h2)]
  cases boundCGReal ev excl <;> rfl

/-- C46 (spectra whose largest eigenvalue is negative are excluded, see
`C46_cg_negative_counterexample`): `BoundCG` accepts exactly the well-conditioned positive real spectra,
has the documented convergence factor of the effective condition number, and rejects all others
with `AssumptionError`. -/
theorem C46_cg (ev : List ℝ) {M m : ℝ} (hM : IsGreatest {x | x ∈ ev} M)
    (hm : IsLeast {x | x ∈ ev} m) (hM0 : 0 ≤ M) :
    (tiny * M < m → boundCG (.array (toC ev)) = .ok ⟨true, cgFactor (M / m)⟩) ∧
    (m ≤ tiny * M →
      boundCG (.array (toC ev)) = .error .assumptionError) := by
  have hne : ev ≠ [] := by rintro rfl; simpa using hM.1
  obtain ⟨h1, h2, h3, -⟩ := boundCGReal_cases hM hm
  have ht := tiny_pos
  constructor
  · intro h
    rw [boundCG_array hne, h1 (by
      rcases hM0.eq_or_lt with h0 | h0
      · subst h0
        have := hM.2 hm.1
        linarith
      · exact h0) h]
  · intro h
    rw [boundCG_array hne]
    rcases hM0.eq_or_lt with h0 | h0
    · rw [h3 h0.symm]
    · rw [h2 h0 h]

/-- C46: empty and non-real spectra are rejected with `AssumptionError`. -/
theorem C46_cg_rejects (l : List ℂ) (excl : Bool) (h : l = [] ∨ ∃ z ∈ l, z.im ≠ 0) :
    boundCG (.array l) excl = .error .assumptionError := by
  unfold boundCG
  rcases h with rfl | ⟨z, hz, hi⟩
  · simp
  · have : l ≠ [] := by rintro rfl; simp at hz
    simp only [List.length_eq_zero_iff, this, if_false]
    rw [if_pos]
    intro hc
    exact hi (hc z hz)

/-- C46: with `exclude_zeros=True` eigenvalues up to `1e-15·M` in magnitude are ignored, `M` the
largest eigenvalue and `m` the smallest remaining one. -/
theorem C46_cg_exclude_zeros (ev : List ℝ) {M m : ℝ} (hM : IsGreatest {x | x ∈ ev} M) (hM0 : 0 < M)
    (hm : IsLeast {x | x ∈ ev ∧ x > tiny * M} m) (hall : ∀ x ∈ ev, x > -tiny * M) :
    boundCG (.array (toC ev)) true = .ok ⟨true, cgFactor (M / m)⟩ := by
  have hne : ev ≠ [] := by rintro rfl; simpa using hM.1
  rw [boundCG_array hne, boundCGReal_pos hM hM0 hm (by simpa using hall)]

/-- Finding (C46): a spectrum with only negative eigenvalues (for which CG is not applicable and the
documentation promises an error) is accepted and gives `base = 0`, i.e. "converges immediately". -/
theorem C46_cg_negative_counterexample (ev : List ℝ) (hne : ev ≠ []) (h : ∀ x ∈ ev, x < 0) :
    boundCG (.array (toC ev)) = .ok ⟨true, 0⟩ := by
  obtain ⟨M, hM⟩ := exists_greatest hne
  obtain ⟨m, hm⟩ := exists_least hne
  rw [boundCG_array hne, (boundCGReal_cases hM hm).2.2.2 (h M hM.1)]

/-- C46: on an interval set the bound is the one of the extreme points. -/
theorem C46_cg_intervals {is : List (Interval ℝ)} {s : IvSet ℝ} (h : IvSet.Built is s) (hne : is ≠ [])
    {lo hi : ℝ} (hlo : IsLeast (points is) lo) (hhi : IsGreatest (points is) hi) :
    (lo ≤ 0 → boundCG (.intervals s) = .error .assumptionError) ∧
    (0 < lo → tiny * hi < lo → boundCG (.intervals s) = .ok ⟨true, cgFactor (hi / lo)⟩) ∧
    (0 < lo → lo ≤ tiny * hi → boundCG (.intervals s) = .error .assumptionError) := by
  obtain ⟨a, ha, ha'⟩ := C06_min h hne
  obtain ⟨b, hb, hb'⟩ := C06_max h hne
  have e1 := ha'.unique hlo
  have e2 := hb'.unique hhi
  subst e1; subst e2
  have hab : a ≤ b := hlo.2 hhi.1
  have hG : IsGreatest {x | x ∈ [a, b]} b := ⟨by simp, by
    intro x hx; simp at hx; rcases hx with rfl | rfl <;> simp [hab]⟩
  have hL : IsLeast {x | x ∈ [a, b]} a := ⟨by simp, by
    intro x hx; simp at hx; rcases hx with rfl | rfl <;> simp [hab]⟩
  obtain ⟨h1, h2, -, -⟩ := boundCGReal_cases hG hL
  unfold boundCG
  simp only [ha, hb]
  refine ⟨fun h0 => by simp [h0], fun h0 h3 => ?_, fun h0 h3 => ?_⟩
  · rw [if_neg (by linarith), h1 (by linarith) h3]
  · rw [if_neg (by linarith), h2 (by linarith) h3]

theorem cgFactor_mono {κ κ' : ℝ} (hκ : κ ≤ κ') : cgFactor κ ≤ cgFactor κ' := by
  unfold cgFactor
  have h := Real.sqrt_le_sqrt hκ
  have h0 := Real.sqrt_nonneg κ
  rw [div_le_div_iff₀ (by linarith) (by linarith)]
  nlinarith

theorem cgFactor_range {κ : ℝ} (hκ : 1 ≤ κ) : 0 ≤ cgFactor κ ∧ cgFactor κ < 1 := by
  unfold cgFactor
  have h : 1 ≤ Real.sqrt κ := by rw [show (1 : ℝ) = Real.sqrt 1 by simp]; exact Real.sqrt_le_sqrt hκ
  constructor
  · exact div_nonneg (by linarith) (by linarith)
  · rw [div_lt_one (by linarith)]; linarith

/-- C46: the interval bound dominates the bound of every spectrum inside the intervals. -/
theorem C46_intervals_dominate {is : List (Interval ℝ)} {s : IvSet ℝ} (h : IvSet.Built is s)
    (hne : is ≠ []) (ev : List ℝ) (hev : ev ≠ []) (hsub : ∀ x ∈ ev, x ∈ points is) {b b' : Bound}
    (hb : boundCG (.array (toC ev)) = .ok b) (hb' : boundCG (.intervals s) = .ok b') :
    b.base ≤ b'.base := by
  obtain ⟨lo, -, hlo⟩ := C06_min h hne
  obtain ⟨hi, -, hhi⟩ := C06_max h hne
  obtain ⟨M, hM⟩ := exists_greatest hev
  obtain ⟨m, hm⟩ := exists_least hev
  obtain ⟨k1, k2, k3⟩ := C46_cg_intervals h hne hlo hhi
  have hlm : lo ≤ m := hlo.2 (hsub m hm.1)
  have hMh : M ≤ hi := hhi.2 (hsub M hM.1)
  have hmM : m ≤ M := hM.2 hm.1
  rcases le_or_gt lo 0 with h0 | h0
  · rw [k1 h0] at hb'; simp at hb'
  · rcases le_or_gt lo (tiny * hi) with h1 | h1
    · rw [k3 h0 h1] at hb'; simp at hb'
    · rw [k2 h0 h1] at hb'
      simp at hb'; subst hb'
      obtain ⟨c1, c2⟩ := C46_cg ev hM hm (by linarith)
      rcases le_or_gt m (tiny * M) with h2 | h2
      · rw [c2 h2] at hb; simp at hb
      · rw [c1 h2] at hb
        simp at hb; subst hb
        apply cgFactor_mono
        exact div_le_div₀ (by linarith) hMh h0 hlm

/-- C46: the bound depends neither on the order of the eigenvalues nor on scaling. -/
theorem C46_cg_scale (ev ev' : List ℝ) (c : ℝ) (hc : 0 < c) (hperm : ev'.Perm (ev.map (c * ·))) :
    boundCG (.array (toC ev')) = boundCG (.array (toC ev)) := by
  by_cases hne : ev = []
  · subst hne
    simp at hperm; subst hperm; rfl
  obtain ⟨M, hM⟩ := exists_greatest hne
  obtain ⟨m, hm⟩ := exists_least hne
  have hmem : ∀ x, x ∈ ev' ↔ ∃ y ∈ ev, c * y = x := by
    intro x; rw [hperm.mem_iff, List.mem_map]
  have hM' : IsGreatest {x | x ∈ ev'} (c * M) := by
    refine ⟨(hmem _).mpr ⟨M, hM.1, rfl⟩, fun x hx => ?_⟩
    obtain ⟨y, hy, rfl⟩ := (hmem x).mp hx
    exact mul_le_mul_of_nonneg_left (hM.2 hy) hc.le
  have hm' : IsLeast {x | x ∈ ev'} (c * m) := by
    refine ⟨(hmem _).mpr ⟨m, hm.1, rfl⟩, fun x hx => ?_⟩
    obtain ⟨y, hy, rfl⟩ := (hmem x).mp hx
    exact mul_le_mul_of_nonneg_left (hm.2 hy) hc.le
  rcases lt_or_ge M 0 with h0 | h0
  · rw [C46_cg_negative_counterexample ev hne fun x hx => lt_of_le_of_lt (hM.2 hx) h0]
    refine C46_cg_negative_counterexample ev' (by rintro rfl; simpa using hM'.1) fun x hx => ?_
    have := hM'.2 hx
    have : c * M < 0 := mul_neg_of_pos_of_neg hc h0
    exact lt_of_le_of_lt (hM'.2 hx) this
  · obtain ⟨a1, a2⟩ := C46_cg ev hM hm h0
    obtain ⟨b1, b2⟩ := C46_cg ev' hM' hm' (by positivity)
    rcases le_or_gt m (tiny * M) with h1 | h1
    · rw [a2 h1, b2 (by nlinarith)]
    · rw [a1 h1, b1 (by nlinarith), mul_div_mul_left _ _ hc.ne']

/-! ### `BoundMinres` -/

theorem minres_min {ev : List ℝ} {m : ℝ} (hm0 : 0 < m) {p : ℝ → Prop} [DecidablePred p] {q : ℝ → Prop}
    (hpq : ∀ x, p (x / m) ↔ q x) {a : ℝ} (ha : IsLeast {x | x ∈ ev ∧ q x} a) :
    (((npSort ev).map (· / m)).filter fun x => p x).min? = some (a / m) := by
  rw [List.min?_eq_some_iff]
  constructor
  · simp only [List.mem_filter, List.mem_map, decide_eq_true_eq]
    exact ⟨⟨a, mem_npSort.mpr ha.1.1, rfl⟩, (hpq a).mpr ha.1.2⟩
  · intro b hb
    simp only [List.mem_filter, List.mem_map, decide_eq_true_eq] at hb
    obtain ⟨⟨x, hx, rfl⟩, hx2⟩ := hb
    exact div_le_div_of_nonneg_right (ha.2 ⟨mem_npSort.mp hx, (hpq x).mp hx2⟩) hm0.le

theorem minres_max {ev : List ℝ} {m : ℝ} (hm0 : 0 < m) {p : ℝ → Prop} [DecidablePred p] {q : ℝ → Prop}
    (hpq : ∀ x, p (x / m) ↔ q x) {a : ℝ} (ha : IsGreatest {x | x ∈ ev ∧ q x} a) :
    (((npSort ev).map (· / m)).filter fun x => p x).max? = some (a / m) := by
  rw [List.max?_eq_some_iff]
  constructor
  · simp only [List.mem_filter, List.mem_map, decide_eq_true_eq]
    exact ⟨⟨a, mem_npSort.mpr ha.1.1, rfl⟩, (hpq a).mpr ha.1.2⟩
  · intro b hb
    simp only [List.mem_filter, List.mem_map, decide_eq_true_eq] at hb
    obtain ⟨⟨x, hx, rfl⟩, hx2⟩ := hb
    exact div_le_div_of_nonneg_right (ha.2 ⟨mem_npSort.mp hx, (hpq x).mp hx2⟩) hm0.le

theorem max_abs_npSort {ev : List ℝ} {m : ℝ} (hm : IsGreatest {y | ∃ x ∈ ev, y = |x|} m) :
    ((npSort ev).map fun x => |x|).max? = some m := by
  rw [List.max?_eq_some_iff]
  obtain ⟨⟨x, hx, rfl⟩, h2⟩ := hm
  refine ⟨List.mem_map.mpr ⟨x, mem_npSort.mpr hx, rfl⟩, fun b hb => ?_⟩
  obtain ⟨y, hy, rfl⟩ := List.mem_map.mp hb
  exact h2 ⟨y, mem_npSort.mp hy, rfl⟩

theorem boundMinres_array {ev : List ℝ} (h : ∃ x ∈ ev, x ≤ -tiny) :
    boundMinres (.array (toC ev)) =
      match boundMinresReal ev with
      | .ok base => .ok ⟨false, base⟩
      | .error e => .error e := by
  unfold boundMinres
  have h2 : ∀ z ∈ (toC ev), z.im = 0 := toC_im ev
  have h3 : (toC ev).map Complex.re = ev := toC_re ev
  simp only [h3]
  have hc : ¬ ∀ x ∈ ev, x > -tiny := by
    intro hc
    obtain ⟨x, hx, hx2⟩ := h
    have := hc x hx
    linarith
  rw [if_neg (by rw [not_not]; exact h2), if_neg hc]
  cases boundMinresReal ev <;> rfl

theorem boundMinresReal_val {ev : List ℝ} {m l1 ls lt lN : ℝ} (hm0 : 0 < m) (hm : IsGreatest {y | ∃ x ∈ ev, y = |x|} m)
    (h1 : IsLeast {x | x ∈ ev ∧ x < -tiny * m} l1) (hs : IsGreatest {x | x ∈ ev ∧ x < -tiny * m} ls)
    (ht : IsLeast {x | x ∈ ev ∧ x > tiny * m} lt) (hN : IsGreatest {x | x ∈ ev ∧ x > tiny * m} lN) :
    boundMinresReal ev = .ok (minresFactor l1 ls lt lN) := by
  have hp1 : ∀ x : ℝ, x / m < -tiny ↔ x < -tiny * m := fun x => by rw [div_lt_iff₀ hm0]
  have hp2 : ∀ x : ℝ, x / m > tiny ↔ x > tiny * m := fun x => by
    rw [gt_iff_lt, lt_div_iff₀ hm0]
  unfold boundMinresReal
  simp only [max_abs_npSort hm, minres_min (p := fun x => x < -tiny) hm0 hp1 h1, minres_max (p := fun x => x < -tiny) hm0 hp1 hs, minres_min hm0 hp2 ht,
    minres_max hm0 hp2 hN]
  congr 1
  unfold minresFactor
  have hsq : ∀ a b : ℝ, Real.sqrt |a / m * (b / m)| = Real.sqrt |a * b| / m := by
    intro a b
    rw [div_mul_div_comm, abs_div, abs_of_pos (by positivity : (0 : ℝ) < m * m),
      Real.sqrt_div (abs_nonneg _), Real.sqrt_mul_self hm0.le]
  rw [hsq, hsq, ← sub_div, ← add_div, div_div_div_cancel_right₀ hm0.ne']

theorem boundMinresReal_one_sided {ev : List ℝ} {m : ℝ} (hm0 : 0 < m) (hm : IsGreatest {y | ∃ x ∈ ev, y = |x|} m)
    (h : (∀ x ∈ ev, ¬ x < -tiny * m) ∨ (∀ x ∈ ev, ¬ x > tiny * m)) : boundMinresReal ev = .error .valueError := by
  unfold boundMinresReal
  simp only [max_abs_npSort hm]
  rcases h with h | h
  · have : (((npSort ev).map (· / m)).filter fun x => x < -tiny) = [] := by
      rw [List.filter_eq_nil_iff]
      intro x hx
      obtain ⟨y, hy, rfl⟩ := List.mem_map.mp hx
      have := h y (mem_npSort.mp hy)
      simp only [decide_eq_true_eq]
      rwa [div_lt_iff₀ hm0]
    rw [this]; rfl
  · have : (((npSort ev).map (· / m)).filter fun x => x > tiny) = [] := by
      rw [List.filter_eq_nil_iff]
      intro x hx
      obtain ⟨y, hy, rfl⟩ := List.mem_map.mp hx
      have := h y (mem_npSort.mp hy)
      simp only [decide_eq_true_eq]
      rwa [gt_iff_lt, lt_div_iff₀ hm0]
    rw [this]
    simp only [List.min?_nil, List.max?_nil]
    cases h1 : (List.filter (fun x => decide (x < -tiny)) (List.map (fun x => x / m) (npSort ev))).min?
      <;> cases h2 : (List.filter (fun x => decide (x < -tiny))
        (List.map (fun x => x / m) (npSort ev))).max? <;> simp

/-- C46: `BoundMinres` on an indefinite real spectrum has the documented factor; eigenvalues up to
`1e-15·max|λ|` are ignored. -/
theorem C46_minres (ev : List ℝ) (hneg : ∃ x ∈ ev, x ≤ -tiny) {m l1 ls lt lN : ℝ}
    (hm : IsGreatest {y | ∃ x ∈ ev, y = |x|} m)
    (h1 : IsLeast {x | x ∈ ev ∧ x < -tiny * m} l1) (hs : IsGreatest {x | x ∈ ev ∧ x < -tiny * m} ls)
    (ht : IsLeast {x | x ∈ ev ∧ x > tiny * m} lt) (hN : IsGreatest {x | x ∈ ev ∧ x > tiny * m} lN) :
    boundMinres (.array (toC ev)) = .ok ⟨false, minresFactor l1 ls lt lN⟩ := by
  have hty := tiny_pos
  have hm0 : 0 < m := by
    obtain ⟨x, hx, hx2⟩ := hneg
    have := hm.2 ⟨x, hx, rfl⟩
    have : 0 < |x| := abs_pos.mpr (by linarith)
    linarith
  rw [boundMinres_array hneg, boundMinresReal_val hm0 hm h1 hs ht hN]

/-- C46: `BoundMinres` on an interval set.  Positive sets give the bound of `BoundCG`; otherwise a set that contains zero is
rejected, a set with points on both sides of zero gives the factor of its four innermost and outermost points (if they are
clear of zero), and a negative set fails with `ValueError`. -/
theorem C46_minres_intervals {is : List (Interval ℝ)} {s : IvSet ℝ} (h : IvSet.Built is s) (hne : is ≠ [])
    {lo hi : ℝ} (hlo : IsLeast (points is) lo) (hhi : IsGreatest (points is) hi) :
    (0 < lo → boundMinres (.intervals s) = boundCG (.intervals s)) ∧
    (lo ≤ 0 → 0 ∈ points is → boundMinres (.intervals s) = .error .assumptionError) ∧
    (0 ∉ points is → ∀ ls lt, IsGreatest {x | x ∈ points is ∧ x < 0} ls → IsLeast {x | x ∈ points is ∧ 0 < x} lt →
      ls < -tiny * max |lo| |hi| → tiny * max |lo| |hi| < lt →
      boundMinres (.intervals s) = .ok ⟨false, minresFactor lo ls lt hi⟩) ∧
    (hi < 0 → boundMinres (.intervals s) = .error .valueError) := by
  have hty := tiny_pos
  obtain ⟨a, ha, ha'⟩ := C06_min h hne
  obtain ⟨b, hb, hb'⟩ := C06_max h hne
  have e1 := ha'.unique hlo
  have e2 := hb'.unique hhi
  subst e1; subst e2
  have hc : ∀ x, s.contains x = true ↔ x ∈ points is := (C04_membership_disjoint h).1
  have hab : a ≤ b := ha'.2 hb'.1
  unfold boundMinres
  simp only [ha, hb]
  refine ⟨fun h0 => by rw [if_pos h0], fun h0 hz => ?_, fun hz ls lt hls hlt h1 h2 => ?_, fun h0 => ?_⟩
  · rw [if_neg (by linarith), if_pos ((hc 0).mpr hz)]
  · have hlo0 : a ≤ ls := ha'.2 hls.1.1
    have hls0 : ls < 0 := hls.1.2
    have hlt0 : 0 < lt := hlt.1.2
    have hhi0 : lt ≤ b := hb'.2 hlt.1.1
    have hmn : s.maxNeg = .val ls := by
      rcases C06_max_neg h hne with ⟨-, h3 | h3⟩ | ⟨c, h3, -, h4⟩
      · exact absurd h3 hz
      · exact absurd hls0 (h3 ls hls.1.1)
      · rw [h3, h4.unique hls]
    have hmp : s.minPos = .val lt := by
      rcases C06_min_pos h hne with ⟨-, h3 | h3⟩ | ⟨c, h3, -, h4⟩
      · exact absurd h3 hz
      · exact absurd hlt0 (h3 lt hlt.1.1)
      · rw [h3, h4.unique hlt]
    rw [if_neg (by linarith), if_neg (by rw [hc]; exact hz), hmn, hmp]
    simp only [resVals]
    have hm0 : 0 < max |a| |b| := lt_max_of_lt_left (abs_pos.mpr (by linarith))
    have key := boundMinresReal_val (ev := [a, ls, lt, b]) (l1 := a) (ls := ls) (lt := lt) (lN := b) hm0
      ⟨?_, ?_⟩ ⟨⟨by simp, by linarith⟩, ?_⟩ ⟨⟨by simp, by linarith⟩, ?_⟩ ⟨⟨by simp, by linarith⟩, ?_⟩
      ⟨⟨by simp, by linarith⟩, ?_⟩
    · rw [key]
    · rcases max_cases |a| |b| with ⟨e, -⟩ | ⟨e, -⟩
      · exact ⟨a, by simp, e⟩
      · exact ⟨b, by simp, e⟩
    · rintro y ⟨x, hx, rfl⟩
      have hxr : a ≤ x ∧ x ≤ b := by
        simp only [List.mem_cons, List.not_mem_nil, or_false] at hx
        rcases hx with rfl | rfl | rfl | rfl <;> constructor <;> linarith
      rw [abs_le]
      constructor
      · have := (le_max_left |a| |b|).trans' (neg_le_abs a)
        linarith [hxr.1]
      · exact hxr.2.trans ((le_abs_self b).trans (le_max_right _ _))
    all_goals
      rintro x ⟨hx, hx2⟩
      simp only [List.mem_cons, List.not_mem_nil, or_false] at hx
      have hpos : 0 < tiny * max |a| |b| := mul_pos hty hm0
      rcases hx with rfl | rfl | rfl | rfl <;> linarith
  · have hz : (0 : ℝ) ∉ points is := fun h3 => absurd (hb'.2 h3) (by linarith)
    have hmp : s.minPos = .pyNone := by
      rcases C06_min_pos h hne with ⟨h3, -⟩ | ⟨c, h3, -, h4⟩
      · exact h3
      · have := hb'.2 h4.1.1
        have : 0 < c := h4.1.2
        linarith
    obtain ⟨ls, hmn, hls⟩ : ∃ ls, s.maxNeg = .val ls ∧ IsGreatest {x | x ∈ points is ∧ x < 0} ls := by
      rcases C06_max_neg h hne with ⟨-, h3 | h3⟩ | ⟨c, h3, -, h4⟩
      · exact absurd h3 hz
      · exact absurd h0 (h3 b hb'.1)
      · exact ⟨c, h3, h4⟩
    have hls0 : a ≤ ls := ha'.2 hls.1.1
    have hls1 : ls ≤ b := hb'.2 hls.1.1
    rw [if_neg (by linarith), if_neg (by rw [hc]; exact hz), hmn, hmp]
    simp only [resVals]
    have key := boundMinresReal_one_sided (ev := [a, ls, b]) (m := |a|) (abs_pos.mpr (by linarith)) ⟨⟨a, by simp, rfl⟩, ?_⟩
      (.inr ?_)
    · rw [key]
    · rintro y ⟨x, hx, rfl⟩
      simp only [List.mem_cons, List.not_mem_nil, or_false] at hx
      rw [abs_of_neg (show a < 0 by linarith), abs_of_nonpos]
      · rcases hx with rfl | rfl | rfl <;> linarith
      · rcases hx with rfl | rfl | rfl <;> linarith
    · intro x hx
      simp only [List.mem_cons, List.not_mem_nil, or_false] at hx
      have hpos : 0 < tiny * |a| := mul_pos hty (abs_pos.mpr (by linarith))
      rcases hx with rfl | rfl | rfl <;> linarith

/-- C46: spectra with an eigenvalue `≤ -1e-15` and nothing (relevant) on one side of zero make
`BoundMinres` fail with `ValueError` (minimum of an empty array) instead of `AssumptionError`; in
particular all negative definite spectra. -/
theorem C46_minres_one_sided (ev : List ℝ) (hneg : ∃ x ∈ ev, x ≤ -tiny) {m : ℝ}
    (hm : IsGreatest {y | ∃ x ∈ ev, y = |x|} m)
    (h : (∀ x ∈ ev, ¬ x < -tiny * m) ∨ (∀ x ∈ ev, ¬ x > tiny * m)) :
    boundMinres (.array (toC ev)) = .error .valueError := by
  have hty := tiny_pos
  have hm0 : 0 < m := by
    obtain ⟨x, hx, hx2⟩ := hneg
    have := hm.2 ⟨x, hx, rfl⟩
    have : 0 < |x| := abs_pos.mpr (by linarith)
    linarith
  rw [boundMinres_array hneg, boundMinresReal_one_sided hm0 hm h]

/-- C46: for (numerically) non-negative spectra `BoundMinres` is `BoundCG`. -/
theorem C46_minres_nonneg (ev : List ℝ) (h : ∀ x ∈ ev, x > -tiny) :
    boundMinres (.array (toC ev)) =
      boundCG (.array (toC ev)) := by
  unfold boundMinres
  have h2 : ∀ z ∈ (toC ev), z.im = 0 := toC_im ev
  have h3 : (toC ev).map Complex.re = ev := toC_re ev
  simp only [h3]
  rw [if_neg (by rw [not_not]; exact h2), if_pos h]

theorem minresFactor_range {l1 ls lt lN : ℝ} (h1 : l1 ≤ ls) (hs : ls < 0) (ht : 0 < lt)
    (hN : lt ≤ lN) : 0 ≤ minresFactor l1 ls lt lN ∧ minresFactor l1 ls lt lN < 1 := by
  have e1 : |l1 * lN| = (-l1) * lN := by
    rw [abs_of_neg (mul_neg_of_neg_of_pos (by linarith) (by linarith))]; ring
  have e2 : |ls * lt| = (-ls) * lt := by
    rw [abs_of_neg (mul_neg_of_neg_of_pos hs ht)]; ring
  have hb : 0 < Real.sqrt |ls * lt| := by
    rw [e2]; apply Real.sqrt_pos.mpr; apply mul_pos <;> linarith
  have hab : Real.sqrt |ls * lt| ≤ Real.sqrt |l1 * lN| := by
    rw [e1, e2]
    apply Real.sqrt_le_sqrt
    apply mul_le_mul <;> linarith
  unfold minresFactor
  constructor
  · exact div_nonneg (by linarith) (by linarith)
  · rw [div_lt_one (by linarith)]; linarith

theorem boundCGReal_range {ev : List ℝ} {excl : Bool} {b : ℝ} (h : boundCGReal ev excl = .ok b) : 0 ≤ b ∧ b < 1 := by
  unfold boundCGReal at h
  dsimp only at h
  split at h
  · cases h
  rename_i last hlast
  split at h
  · split at h <;> cases h
  rename_i h0
  split at h
  · cases h
  split at h
  · cases h
  split at h
  · cases h
  rename_i m hm
  rw [List.min?_eq_some_iff] at hm
  have hmt : tiny < m := by have := (List.mem_filter.mp hm.1).2; simpa using this
  have hm1 : m ≤ 1 := by
    refine hm.2 1 (List.mem_filter.mpr ⟨List.mem_map.mpr ⟨last, List.mem_of_getLast? hlast, div_self h0⟩, ?_⟩)
    have : tiny < 1 := by unfold tiny; norm_num
    simpa using this
  have hpos : 0 < m := tiny_pos.trans hmt
  obtain rfl := Except.ok.inj h
  exact cgFactor_range ((one_le_div hpos).mpr hm1)

theorem boundMinresReal_range {ev : List ℝ} {b : ℝ} (h : boundMinresReal ev = .ok b) : 0 ≤ b ∧ b < 1 := by
  unfold boundMinresReal at h
  dsimp only at h
  split at h
  · cases h
  split at h
  swap
  · cases h
  rename_i l1 ls lt lN h1 h2 h3 h4
  rw [List.min?_eq_some_iff] at h1 h3
  rw [List.max?_eq_some_iff] at h2 h4
  obtain rfl := Except.ok.inj h
  have hty := tiny_pos
  have a1 : ls < -tiny := by have := (List.mem_filter.mp h2.1).2; simpa using this
  have a2 : tiny < lt := by have := (List.mem_filter.mp h3.1).2; simpa using this
  exact minresFactor_range (h1.2 _ h2.1) (by linarith) (by linarith) (h3.2 _ h4.1)

/-- C46: whenever a bound object is constructed, from an array or an interval set, its base lies in `[0, 1)`. -/
theorem C46_range (spec : Spectrum) (excl : Bool) (b : Bound)
    (h : boundCG spec excl = .ok b ∨ boundMinres spec = .ok b) :
    0 ≤ b.base ∧ b.base < 1 := by
  have hcg : ∀ excl, boundCG spec excl = .ok b → 0 ≤ b.base ∧ b.base < 1 := by
    intro excl h
    unfold boundCG at h
    dsimp only at h
    split at h
    swap
    · cases h
    rename_i base hbase
    obtain rfl := Except.ok.inj h
    split at hbase
    · split at hbase
      · split at hbase
        · cases hbase
        · exact boundCGReal_range hbase
      · cases hbase
    · split at hbase
      · cases hbase
      · split at hbase
        · cases hbase
        · exact boundCGReal_range hbase
  rcases h with h | h
  · exact hcg excl h
  unfold boundMinres at h
  split at h
  · split at h
    · split at h
      · exact hcg _ h
      · split at h
        · cases h
        · split at h
          · rename_i base hbase
            obtain rfl := Except.ok.inj h
            exact boundMinresReal_range hbase
          · cases h
    · cases h
  · split at h
    · cases h
    · split at h
      · exact hcg _ h
      · split at h
        · rename_i base hbase
          obtain rfl := Except.ok.inj h
          exact boundMinresReal_range hbase
        · cases h

/-- C46: the bound is non-increasing in the step and lies between 0 and 2. -/
theorem C46_antitone (b : Bound) (h0 : 0 ≤ b.base) (h1 : b.base < 1) {s t : ℝ} (hs : 0 ≤ s)
    (hst : s ≤ t) : b.evalStep t ≤ b.evalStep s ∧ b.evalStep s ≤ 2 ∧ 0 ≤ b.evalStep t := by
  have key : ∀ x y : ℝ, 0 ≤ x → x ≤ y → b.base ^ y ≤ b.base ^ x ∧ b.base ^ x ≤ 1 := by
    intro x y hx hxy
    refine ⟨?_, Real.rpow_le_one h0 h1.le hx⟩
    rcases h0.eq_or_lt with h | h
    · rw [← h]
      rcases hx.eq_or_lt with hx' | hx'
      · rw [← hx', Real.rpow_zero]
        exact Real.zero_rpow_le_one y
      · rw [Real.zero_rpow hx'.ne', Real.zero_rpow (by linarith)]
    · exact Real.rpow_le_rpow_of_exponent_ge h h1.le hxy
  unfold Bound.evalStep
  split
  · obtain ⟨k1, k2⟩ := key s t hs hst
    have := Real.rpow_nonneg h0 t
    exact ⟨by linarith, by linarith, by linarith⟩
  · have hf : ((⌊s / 2⌋ : ℤ) : ℝ) ≤ ((⌊t / 2⌋ : ℤ) : ℝ) := by
      exact_mod_cast Int.floor_mono (by linarith)
    have hf0 : (0 : ℝ) ≤ ((⌊s / 2⌋ : ℤ) : ℝ) := by
      exact_mod_cast Int.floor_nonneg.mpr (by linarith)
    obtain ⟨k1, k2⟩ := key _ _ hf0 hf
    have := Real.rpow_nonneg h0 ((⌊t / 2⌋ : ℤ) : ℝ)
    exact ⟨by linarith, by linarith, by linarith⟩

theorem rpow_le_iff {base : ℝ} (h0 : 0 < base) (h1 : base < 1) {t : ℝ} (ht : 0 < t) (s : ℝ) :
    base ^ s ≤ t ↔ Real.log t / Real.log base ≤ s := by
  have hl : Real.log base < 0 := Real.log_neg h0 h1
  rw [div_le_iff_of_neg hl, ← Real.log_rpow h0]
  exact (Real.log_le_log_iff (Real.rpow_pos_of_pos h0 s) ht).symm

/-- C46: for `BoundCG` with `base > 0`, `get_step(tol)` is exactly where the bound falls below `tol`. -/
theorem C46_cg_step (b : Bound) (hcg : b.isCG = true) (h0 : 0 < b.base) (h1 : b.base < 1) {tol : ℝ}
    (ht : 0 < tol) (s : ℝ) : b.evalStep s ≤ tol ↔ b.getStep tol ≤ s := by
  unfold Bound.evalStep Bound.getStep
  simp only [hcg, if_true, h0.ne', if_false]
  rw [← rpow_le_iff h0 h1 (by positivity)]
  constructor <;> intro h <;> linarith

/-- C46 (`BoundMinres`): below `get_step(tol)` the bound is above `tol`, two steps later it is
below.  (In between it may be above, see `C46_minres_step_counterexample`.) -/
theorem C46_minres_step (b : Bound) (hcg : b.isCG = false) (h0 : 0 < b.base) (h1 : b.base < 1)
    {tol : ℝ} (ht : 0 < tol) (s : ℝ) :
    (b.evalStep s ≤ tol → b.getStep tol ≤ s) ∧ (b.getStep tol + 2 ≤ s → b.evalStep s ≤ tol) := by
  unfold Bound.evalStep Bound.getStep
  simp only [hcg, h0.ne', if_false, Bool.false_eq_true]
  have key := rpow_le_iff h0 h1 (t := tol / 2) (by positivity)
  constructor
  · intro h
    have := (key ((⌊s / 2⌋ : ℤ) : ℝ)).mp (by linarith)
    have := Int.floor_le (s / 2)
    linarith
  · intro h
    have := (key ((⌊s / 2⌋ : ℤ) : ℝ)).mpr (by
      have := Int.lt_floor_add_one (s / 2)
      linarith)
    linarith

/-- Finding (C46): `BoundMinres.get_step` ignores the floor in `eval_step`; at the returned step the bound
may still be twice the tolerance. -/
theorem C46_minres_step_counterexample :
    ∃ b : Bound, b.isCG = false ∧ 0 < b.base ∧ b.base < 1 ∧ b.getStep 1 = 1 ∧ b.evalStep 1 = 2 := by
  refine ⟨⟨false, 1 / 4⟩, rfl, by norm_num, by norm_num, ?_, ?_⟩
  · unfold Bound.getStep
    have h : Real.log (1 / 4 : ℝ) = 2 * Real.log (1 / 2) := by
      rw [show (1 / 4 : ℝ) = (1 / 2) ^ 2 by norm_num, Real.log_pow]; norm_num
    have hne : Real.log (1 / 2 : ℝ) ≠ 0 := (Real.log_neg (by norm_num) (by norm_num)).ne
    have h4 : (1 / 4 : ℝ) ≠ 0 := by norm_num
    simp only [h4, if_false, Bool.false_eq_true, h]
    field_simp
  · unfold Bound.evalStep
    have : ⌊(2⁻¹ : ℝ)⌋ = 0 := by norm_num
    simp [this]

/-- Finding (C46): for `base = 0` (e.g. all eigenvalues equal) `get_step` returns 0 although the bound at
step 0 is 2. -/
theorem C46_zero_base_counterexample :
    ∃ b : Bound, boundCG (.array [3, 3]) = .ok b ∧
      ∀ tol, 0 < tol → tol < 2 → b.getStep tol = 0 ∧ tol < b.evalStep 0 := by
  have hG : IsGreatest {x : ℝ | x ∈ [(3 : ℝ), 3]} 3 := ⟨by simp, by intro x hx; simp at hx; simp [hx]⟩
  have hL : IsLeast {x : ℝ | x ∈ [(3 : ℝ), 3]} 3 := ⟨by simp, by intro x hx; simp at hx; simp [hx]⟩
  have h := (C46_cg [3, 3] hG hL (by norm_num)).1 (by unfold tiny; norm_num)
  refine ⟨_, by simpa [toC] using h, fun tol h1 h2 => ?_⟩
  simp [Bound.getStep, Bound.evalStep, cgFactor, h2]

/-! ### Non-vacuity -/

example : boundCG (.array [1, 4]) = .ok ⟨true, 1 / 3⟩ := by
  have hG : IsGreatest {x : ℝ | x ∈ [(1 : ℝ), 4]} 4 :=
    ⟨by simp, by intro x hx; simp at hx; rcases hx with rfl | rfl <;> norm_num⟩
  have hL : IsLeast {x : ℝ | x ∈ [(1 : ℝ), 4]} 1 :=
    ⟨by simp, by intro x hx; simp at hx; rcases hx with rfl | rfl <;> norm_num⟩
  have h := (C46_cg [1, 4] hG hL (by norm_num)).1 (by unfold tiny; norm_num)
  have hf : cgFactor (4 / 1) = 1 / 3 := by
    have : Real.sqrt 4 = 2 := by rw [show (4 : ℝ) = 2 ^ 2 by norm_num]; simp
    simp [cgFactor, this]; norm_num
  rw [hf] at h
  simpa [toC] using h

example : IsGreatest {y : ℝ | ∃ x ∈ [(-2 : ℝ), -1, 3], y = |x|} 3 ∧
    IsLeast {x : ℝ | x ∈ [(-2 : ℝ), -1, 3] ∧ x < -tiny * 3} (-2) := by
  constructor
  · refine ⟨⟨3, by simp⟩, ?_⟩
    rintro y ⟨x, hx, rfl⟩
    simp at hx; rcases hx with rfl | rfl | rfl <;> norm_num
  · refine ⟨⟨by simp, by unfold tiny; norm_num⟩, ?_⟩
    rintro x ⟨hx, -⟩
    simp at hx; rcases hx with rfl | rfl | rfl <;> norm_num

/-- `C46_minres_intervals` for the union of `[-4, -1]` and `[1, 4]`. -/
example : ∃ s, IvSet.Built [⟨-4, -1, by norm_num⟩, (⟨1, 4, by norm_num⟩ : Interval ℝ)] s ∧
    boundMinres (.intervals s) = .ok ⟨false, 3 / 5⟩ := by
  obtain ⟨s, hs⟩ := C04_built_total [⟨-4, -1, by norm_num⟩, (⟨1, 4, by norm_num⟩ : Interval ℝ)]
  refine ⟨s, hs, ?_⟩
  have hp : ∀ x : ℝ, x ∈ points [⟨-4, -1, by norm_num⟩, (⟨1, 4, by norm_num⟩ : Interval ℝ)] ↔
      (-4 ≤ x ∧ x ≤ -1) ∨ (1 ≤ x ∧ x ≤ 4) := by
    intro x; simp [points, Interval.toSet]
  have key := (C46_minres_intervals hs (by simp) (lo := -4) (hi := 4) ⟨(hp _).mpr (by norm_num), fun x hx => ?_⟩
    ⟨(hp _).mpr (by norm_num), fun x hx => ?_⟩).2.2.1 (by rw [hp]; norm_num) (-1) 1
    ⟨⟨(hp _).mpr (by norm_num), by norm_num⟩, fun x hx => ?_⟩ ⟨⟨(hp _).mpr (by norm_num), by norm_num⟩, fun x hx => ?_⟩
    (by unfold tiny; norm_num) (by unfold tiny; norm_num)
  · rw [key]
    have : Real.sqrt 16 = 4 := by rw [show (16 : ℝ) = 4 ^ 2 by norm_num]; simp
    simp [minresFactor]; norm_num [this]
  · rcases (hp x).mp hx with h | h <;> linarith
  · rcases (hp x).mp hx with h | h <;> linarith
  · rcases (hp x).mp hx.1 with h | h
    · linarith
    · have : x < 0 := hx.2
      linarith
  · rcases (hp x).mp hx.1 with h | h
    · have : 0 < x := hx.2
      linarith
    · linarith

end Krypy
