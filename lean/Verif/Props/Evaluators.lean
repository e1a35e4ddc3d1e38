import Verif.Model.Evaluators
import Verif.Props.Bounds
import Verif.Props.Gap
import Verif.Props.DeflRitz
import Verif.Proofs.Chebyshev
import Mathlib.Tactic.FinCases

/-! # Property C57: the a-priori evaluator `RitzApriori` -/

set_option linter.unusedSectionVars false

namespace Krypy
open IvSet

/-- Contract: `order S` lists the elements of the Python set `S` in some order. -/
def IsOrder (order : Finset ℕ → List ℕ) : Prop := ∀ S, (order S).Nodup ∧ ∀ i, i ∈ order S ↔ i ∈ S

/-- Contract: `build is` is an object that `Intervals(is)` may return. -/
def IsBuild (build : List (Interval ℝ) → IvSet ℝ) : Prop := ∀ is, Built is (build is)

/-- Spec: the values with an index in `S`. -/
def selVals (l : List ℝ) (S : Finset ℕ) : Set ℝ := {v | ∃ i ∈ S, l[i]? = some v}

/-- Spec: the values whose index is not in `S`. -/
def restVals (l : List ℝ) (S : Finset ℕ) : Set ℝ := {v | ∃ i, i ∉ S ∧ l[i]? = some v}

theorem IsOrder.perm {order order' : Finset ℕ → List ℕ} (h : IsOrder order) (h' : IsOrder order') (S : Finset ℕ) :
    (order S).Perm (order' S) :=
  (List.perm_ext_iff_of_nodup (h S).1 (h' S).1).mpr fun i => by rw [(h S).2, (h' S).2]

theorem IsOrder.length {order : Finset ℕ → List ℕ} (h : IsOrder order) (S : Finset ℕ) : (order S).length = S.card := by
  rw [← List.toFinset_card_of_nodup (h S).1]
  congr 1
  ext i
  rw [List.mem_toFinset, (h S).2]

/-- `pick` for an order of a subset. -/
theorem pick_sel {order : Finset ℕ → List ℕ} (h : IsOrder order) {l : List ℝ} {S : Finset ℕ}
    (hS : S ⊆ Finset.range l.length) :
    pick l (order S) = .ok ((order S).map fun i => l.getD i 0) ∧
    ∀ v, v ∈ (order S).map (fun i => l.getD i 0) ↔ v ∈ selVals l S := by
  constructor
  · unfold pick
    rw [if_pos]
    intro i hi
    exact Finset.mem_range.mp (hS (((h S).2 i).mp hi))
  · intro v
    rw [List.mem_map]
    constructor
    · rintro ⟨i, hi, rfl⟩
      have h1 := ((h S).2 i).mp hi
      have h2 := Finset.mem_range.mp (hS h1)
      exact ⟨i, h1, by simp [h2]⟩
    · rintro ⟨i, hi, hv⟩
      exact ⟨i, ((h S).2 i).mpr hi, by rw [List.getD_eq_getElem?_getD, hv]; rfl⟩

theorem selVals_compl (l : List ℝ) (S : Finset ℕ) : selVals l (Finset.range l.length \ S) = restVals l S := by
  ext v
  constructor
  · rintro ⟨i, hi, hv⟩
    exact ⟨i, (Finset.mem_sdiff.mp hi).2, hv⟩
  · rintro ⟨i, hi, hv⟩
    refine ⟨i, Finset.mem_sdiff.mpr ⟨?_, hi⟩, hv⟩
    rw [Finset.mem_range]
    by_contra hc
    rw [List.getElem?_eq_none (by omega)] at hv
    simp at hv

theorem pick_rest {order : Finset ℕ → List ℕ} (h : IsOrder order) (l : List ℝ) (S : Finset ℕ) :
    ∃ L, pick l (order (Finset.range l.length \ S)) = .ok L ∧ ∀ v, v ∈ L ↔ v ∈ restVals l S := by
  obtain ⟨h1, h2⟩ := pick_sel h (l := l) (S := Finset.range l.length \ S) Finset.sdiff_subset
  exact ⟨_, h1, by rwa [selVals_compl] at h2⟩

/-! ## The strategy `simple` -/

section
variable {order : Finset ℕ → List ℕ} (ho : IsOrder order) {build : List (Interval ℝ) → IvSet ℝ}
include ho

/-- C57 (`simple`, `BoundCG`): if the largest and the smallest Ritz value which are not deflated are `M` and `m`, then the
estimate is the estimated time for `n` steps and `|S|` deflation vectors, where `n` is exactly the point from which on
`2 ((√κ-1)/(√κ+1))^s ≤ tol`, `κ = M / m`.  If the values are not positive relative to `M`, `AssumptionError` is raised. -/
theorem C57_simple (a : AprioriArgs) (ha : a.strategy = .simple) (hb : a.bound = fun s => boundCG s) (r : RitzVals)
    (S : Finset ℕ) {M m : ℝ} (hM : IsGreatest (restVals r.values S) M) (hm : IsLeast (restVals r.values S) m)
    (hM0 : 0 ≤ M) :
    (tiny * M < m → m < M → 0 < a.tol.getD a.solverTol →
      ∃ n : ℝ, aprioriEval order build a r S = estimateTime a.kind a.timings n S.card a.deflweight ∧
        ∀ s : ℝ, 2 * cgFactor (M / m) ^ s ≤ a.tol.getD a.solverTol ↔ n ≤ s) ∧
    (0 < m → m = M → aprioriEval order build a r S = estimateTime a.kind a.timings 0 S.card a.deflweight) ∧
    (m ≤ tiny * M → aprioriEval order build a r S = .error .assumptionError) := by
  obtain ⟨L, hL, hmem⟩ := pick_rest ho r.values S
  have hset : {x | x ∈ L} = restVals r.values S := by ext x; exact hmem x
  rw [← hset] at hM hm
  obtain ⟨c1, c2⟩ := C46_cg L hM hm hM0
  have hev : ∀ bd, boundCG (.array (toC L)) = .ok bd → aprioriEval order build a r S =
      estimateTime a.kind a.timings (bd.getStep (a.tol.getD a.solverTol)) S.card a.deflweight := by
    intro bd hbd
    unfold aprioriEval
    simp only [ha, hL, hb]
    rw [show L.map ((↑) : ℝ → ℂ) = toC L from rfl, hbd]
  have ht := tiny_pos
  refine ⟨fun h1 h2 h3 => ?_, fun h1 h2 => ?_, fun h1 => ?_⟩
  · have hm0 : 0 < m := by
      have : 0 ≤ tiny * M := by positivity
      linarith
    have hk : 1 < M / m := by rwa [one_lt_div hm0]
    have hr := cgFactor_range hk.le
    have hpos : 0 < cgFactor (M / m) := by
      unfold cgFactor
      have : 1 < Real.sqrt (M / m) := by
        rw [Real.lt_sqrt (by norm_num)]
        simpa using hk
      exact div_pos (by linarith) (by linarith)
    refine ⟨_, hev _ (c1 h1), fun s => ?_⟩
    have := C46_cg_step ⟨true, cgFactor (M / m)⟩ rfl hpos hr.2 h3 s
    simpa [Bound.evalStep] using this
  · subst h2
    have h4 := tiny_lt_one
    rw [hev _ (c1 (by nlinarith))]
    rw [div_self h1.ne']
    have : (⟨true, cgFactor 1⟩ : Bound).getStep (a.tol.getD a.solverTol) = 0 := by
      simp [Bound.getStep, cgFactor]
    rw [this]
  · unfold aprioriEval
    simp only [ha, hL, hb]
    rw [show L.map ((↑) : ℝ → ℂ) = toC L from rfl, c2 h1]

/-- C57 (`simple`, `BoundMinres`, indefinite case): the number of steps `n` in the estimate is such that the MINRES bound is
above the tolerance before `n` and below it from `n + 2` on. -/
theorem C57_simple_minres (a : AprioriArgs) (ha : a.strategy = .simple) (hb : a.bound = boundMinres) (r : RitzVals)
    (S : Finset ℕ) (hneg : ∃ x ∈ restVals r.values S, x ≤ -tiny) {m l1 ls lt lN : ℝ}
    (hm : IsGreatest {y | ∃ x ∈ restVals r.values S, y = |x|} m)
    (h1 : IsLeast {x | x ∈ restVals r.values S ∧ x < -tiny * m} l1)
    (hs : IsGreatest {x | x ∈ restVals r.values S ∧ x < -tiny * m} ls)
    (ht : IsLeast {x | x ∈ restVals r.values S ∧ x > tiny * m} lt)
    (hN : IsGreatest {x | x ∈ restVals r.values S ∧ x > tiny * m} lN)
    (hb0 : 0 < minresFactor l1 ls lt lN) (htol : 0 < a.tol.getD a.solverTol) :
    ∃ n : ℝ, aprioriEval order build a r S = estimateTime a.kind a.timings n S.card a.deflweight ∧
      ∀ s : ℝ, (2 * minresFactor l1 ls lt lN ^ (⌊s / 2⌋ : ℤ) ≤ a.tol.getD a.solverTol → n ≤ s) ∧
        (n + 2 ≤ s → 2 * minresFactor l1 ls lt lN ^ (⌊s / 2⌋ : ℤ) ≤ a.tol.getD a.solverTol) := by
  obtain ⟨L, hL, hmem⟩ := pick_rest ho r.values S
  simp only [← hmem] at hneg hm h1 hs ht hN
  have hbd := C46_minres L hneg hm h1 hs ht hN
  have hm0 : 0 < m := by
    obtain ⟨x, hx, hx2⟩ := hneg
    have := hm.2 ⟨x, hx, rfl⟩
    have h3 := tiny_pos
    have : 0 < |x| := abs_pos.mpr (by linarith)
    linarith
  have h3 := tiny_pos
  have h4 : 0 < tiny * m := by positivity
  have hr := (minresFactor_range (hs.2 h1.1) (by have := hs.1.2; linarith) (by have := ht.1.2; linarith)
    (hN.2 ht.1)).2
  refine ⟨(⟨false, minresFactor l1 ls lt lN⟩ : Bound).getStep (a.tol.getD a.solverTol), ?_, fun s => ?_⟩
  · unfold aprioriEval
    simp only [ha, hL, hb]
    rw [show L.map ((↑) : ℝ → ℂ) = toC L from rfl, hbd]
  · have := C46_minres_step ⟨false, minresFactor l1 ls lt lN⟩ rfl hb0 hr htol s
    simpa [Bound.evalStep, Real.rpow_intCast] using this

/-- Finding (C57): if all remaining Ritz values are negative, then with `BoundCG` and the strategy `simple` the number of
steps is estimated as zero and with `BoundMinres` the evaluation raises `ValueError`, which `RitzFactory` does not catch. -/
theorem C57_negative_counterexample (a : AprioriArgs) (ha : a.strategy = .simple) (r : RitzVals) (S : Finset ℕ)
    (hne : (restVals r.values S).Nonempty) (hneg : ∀ x ∈ restVals r.values S, x < 0) :
    (a.bound = (fun s => boundCG s) →
      aprioriEval order build a r S = estimateTime a.kind a.timings 0 S.card a.deflweight) ∧
    (a.bound = boundMinres → (∃ x ∈ restVals r.values S, x ≤ -tiny) →
      aprioriEval order build a r S = .error .valueError) := by
  obtain ⟨L, hL, hmem⟩ := pick_rest ho r.values S
  have hLn : L ≠ [] := by
    rintro rfl
    obtain ⟨x, hx⟩ := hne
    simpa using (hmem x).mpr hx
  constructor
  · intro hb
    have hbd := C46_cg_negative_counterexample L hLn fun x hx => hneg x ((hmem x).mp hx)
    unfold aprioriEval
    simp only [ha, hL, hb]
    rw [show L.map ((↑) : ℝ → ℂ) = toC L from rfl, hbd]
    simp [Bound.getStep]
  · rintro hb ⟨x, hx, hx2⟩
    have hx' := (hmem x).mpr hx
    have hAne : L.map (fun x => |x|) ≠ [] := by simpa using hLn
    obtain ⟨m, hm⟩ := exists_greatest hAne
    have hm' : IsGreatest {y | ∃ x ∈ L, y = |x|} m := by
      refine ⟨?_, ?_⟩
      · obtain ⟨y, hy, h⟩ := List.mem_map.mp hm.1
        exact ⟨y, hy, h.symm⟩
      · rintro y ⟨z, hz, rfl⟩
        exact hm.2 (List.mem_map.mpr ⟨z, hz, rfl⟩)
    have hbd := C46_minres_one_sided L ⟨x, hx', hx2⟩ hm' (.inr fun y hy => by
      have h1 := hneg y ((hmem y).mp hy)
      have h2 := tiny_pos
      have h3 : |y| ≤ m := hm'.2 ⟨y, hy, rfl⟩
      have h4 : 0 ≤ m := (abs_nonneg y).trans h3
      have : 0 ≤ tiny * m := by positivity
      linarith)
    unfold aprioriEval
    simp only [ha, hL, hb]
    rw [show L.map ((↑) : ℝ → ℂ) = toC L from rfl, hbd]

end

/-- C57: an unknown strategy is rejected. -/
theorem C57_strategy (order : Finset ℕ → List ℕ) (build : List (Interval ℝ) → IvSet ℝ) (a : AprioriArgs)
    (ha : a.strategy = .other) (r : RitzVals) (S : Finset ℕ) :
    aprioriEval order build a r S = .error .argumentError := by
  unfold aprioriEval
  simp only [ha]

/-- C57: selecting all Ritz pairs does not allow an estimate: `AssumptionError`, for both bounds and both strategies. -/
theorem C57_all {order : Finset ℕ → List ℕ} (ho : IsOrder order) (build : List (Interval ℝ) → IvSet ℝ) (a : AprioriArgs)
    (hb : a.bound = (fun s => boundCG s) ∨ a.bound = boundMinres) (r : RitzVals) (hne : r.values ≠ [])
    (ha : a.strategy ≠ .other) :
    aprioriEval order build a r (Finset.range r.values.length) = .error .assumptionError := by
  cases hs : a.strategy with
  | other => exact absurd hs ha
  | simple =>
    have hnil : order ∅ = [] := by
      have := ho.length ∅
      simpa using this
    have hbd : a.bound (.array []) = .error .assumptionError := by
      rcases hb with h | h
      · rw [h]; exact C46_cg_rejects [] false (.inl rfl)
      · rw [h]
        have := C46_minres_nonneg [] (by simp)
        simp only [toC, List.map_nil] at this
        rw [this]
        exact C46_cg_rejects [] false (.inl rfl)
    unfold aprioriEval
    simp only [hs, Finset.sdiff_self, hnil]
    simp [pick, hbd]
  | intervals =>
    have hl := ho.length (Finset.range r.values.length)
    rw [Finset.card_range] at hl
    have h0 : r.values.length ≠ 0 := by simpa using hne
    unfold aprioriEval
    simp only [hs]
    unfold evalIntervals
    rw [if_neg (by omega), if_pos hl.symm]

/-- Finding (C57): without any Ritz pair (the solver did not take a step and there are no deflation vectors) the strategy
`intervals` ends in a `TypeError` instead of `AssumptionError`. -/
theorem C57_empty_counterexample {order : Finset ℕ → List ℕ} (ho : IsOrder order)
    {build : List (Interval ℝ) → IvSet ℝ} (hbu : IsBuild build) (a : AprioriArgs) (ha : a.strategy = .intervals)
    (hb : a.bound = (fun s => boundCG s) ∨ a.bound = boundMinres) :
    aprioriEval order build a ⟨[], []⟩ ∅ = .error .typeError := by
  have hnil : order ∅ = [] := by
    have := ho.length ∅
    simpa using this
  have hbn : build [] = [] := by
    have := (C05_order_independent (hbu []) Built.nil (List.Perm.refl _)).1
    simpa using this
  unfold aprioriEval evalIntervals
  simp only [ha, hnil, List.length_nil, if_true, List.zip_nil_left, List.map_nil, mkIvList, hbn]
  rcases hb with h | h
  · simp [h, boundCG, qmin]
  · simp [h, boundMinres, qmin]

/-! ## The result does not depend on orders -/

theorem min?_perm {l l' : List ℝ} (h : l.Perm l') : l.min? = l'.min? := by
  cases hl : l.min? with
  | none =>
    rw [List.min?_eq_none_iff] at hl
    subst hl
    rw [List.nil_perm.mp h]
    rfl
  | some a =>
    rw [List.min?_eq_some_iff] at hl
    symm
    rw [List.min?_eq_some_iff]
    exact ⟨h.mem_iff.mp hl.1, fun b hb => hl.2 b (h.mem_iff.mpr hb)⟩

theorem max?_perm {l l' : List ℝ} (h : l.Perm l') : l.max? = l'.max? := by
  cases hl : l.max? with
  | none =>
    rw [List.max?_eq_none_iff] at hl
    subst hl
    rw [List.nil_perm.mp h]
    rfl
  | some a =>
    rw [List.max?_eq_some_iff] at hl
    symm
    rw [List.max?_eq_some_iff]
    exact ⟨h.mem_iff.mp hl.1, fun b hb => hl.2 b (h.mem_iff.mpr hb)⟩

theorem npSort_perm {l l' : List ℝ} (h : l.Perm l') : npSort l = npSort l' := by
  refine List.Perm.eq_of_pairwise (le := (· ≤ ·)) (fun a b _ _ h1 h2 => le_antisymm h1 h2)
    (npSort_pairwise l) (npSort_pairwise l') ?_
  exact (List.mergeSort_perm _ _).trans (h.trans (List.mergeSort_perm _ _).symm)

theorem contains_perm {s s' : IvSet ℝ} (h : s.Perm s') (x : ℝ) : s.contains x = s'.contains x := by
  unfold IvSet.contains
  rw [Bool.eq_iff_iff, List.any_eq_true, List.any_eq_true]
  constructor
  · rintro ⟨i, hi, hx⟩; exact ⟨i, h.mem_iff.mp hi, hx⟩
  · rintro ⟨i, hi, hx⟩; exact ⟨i, h.mem_iff.mpr hi, hx⟩

theorem qmin_perm {s s' : IvSet ℝ} (h : s.Perm s') : s.qmin = s'.qmin := by
  unfold qmin
  rw [h.length_eq, min?_perm (h.map _)]

theorem qmax_perm {s s' : IvSet ℝ} (h : s.Perm s') : s.qmax = s'.qmax := by
  unfold qmax
  rw [h.length_eq, max?_perm (h.map _)]

theorem minPos_perm {s s' : IvSet ℝ} (h : s.Perm s') : s.minPos = s'.minPos := by
  unfold minPos
  dsimp only
  rw [h.length_eq, contains_perm h, (h.filter _).length_eq, min?_perm ((h.filter _).map _)]

theorem maxNeg_perm {s s' : IvSet ℝ} (h : s.Perm s') : s.maxNeg = s'.maxNeg := by
  unfold maxNeg
  dsimp only
  rw [h.length_eq, contains_perm h, (h.filter _).length_eq, max?_perm ((h.filter _).map _)]

theorem minAbs_perm {s s' : IvSet ℝ} (h : s.Perm s') : s.minAbs = s'.minAbs := by
  unfold minAbs
  rw [h.length_eq, contains_perm h, maxNeg_perm h, minPos_perm h]

/-- Spec: a bound which depends neither on the order of an array nor on the order in which an interval set is listed. -/
structure OrderFree (bound : Spectrum → Except Err Bound) : Prop where
  array : ∀ l l' : List ℝ, l.Perm l' → bound (.array (toC l)) = bound (.array (toC l'))
  intervals : ∀ s s' : IvSet ℝ, s.Perm s' → bound (.intervals s) = bound (.intervals s')

theorem boundCG_orderFree : OrderFree fun s => boundCG s := by
  refine ⟨fun l l' h => ?_, fun s s' h => ?_⟩
  · exact C46_cg_scale l' l 1 one_pos (by simpa using h)
  · unfold boundCG
    simp only [qmin_perm h, qmax_perm h]

theorem boundMinres_orderFree : OrderFree boundMinres := by
  refine ⟨fun l l' h => ?_, fun s s' h => ?_⟩
  · unfold boundMinres
    simp only [toC_re]
    have h1 : (∀ z ∈ toC l, z.im = 0) ↔ ∀ z ∈ toC l', z.im = 0 :=
      ⟨fun _ => toC_im l', fun _ => toC_im l⟩
    have h2 : (∀ x ∈ l, x > -tiny) ↔ ∀ x ∈ l', x > -tiny :=
      ⟨fun hx x hm => hx x (h.mem_iff.mpr hm), fun hx x hm => hx x (h.mem_iff.mp hm)⟩
    have h3 : boundMinresReal l = boundMinresReal l' := by
      unfold boundMinresReal
      rw [npSort_perm h]
    simp only [h1, h2, h3, boundCG_orderFree.array l l' h]
  · unfold boundMinres
    have h3 : boundCG (.intervals s) = boundCG (.intervals s') := boundCG_orderFree.intervals s s' h
    simp only [qmin_perm h, qmax_perm h, maxNeg_perm h, minPos_perm h, contains_perm h, h3]

/-- Spec: two computations end in the same exception or in results related by `R`. -/
def Except.Rel {α β ε : Type*} (R : α → β → Prop) : Except ε α → Except ε β → Prop
  | .ok a, .ok b => R a b
  | .error e, .error e' => e = e'
  | _, _ => False

theorem pick_perm (l : List ℝ) {i i' : List ℕ} (h : i.Perm i') : Except.Rel List.Perm (pick l i) (pick l i') := by
  unfold pick
  have : (∀ j ∈ i, j < l.length) ↔ ∀ j ∈ i', j < l.length :=
    ⟨fun hx x hm => hx x (h.mem_iff.mpr hm), fun hx x hm => hx x (h.mem_iff.mp hm)⟩
  by_cases hc : ∀ j ∈ i, j < l.length
  · rw [if_pos hc, if_pos (this.mp hc)]
    exact h.map _
  · rw [if_neg hc, if_neg (fun h' => hc (this.mpr h'))]
    rfl

/-- The list of intervals around the entries of `l`; it exists if `left ≤ right`. -/
theorem mkIvList_around (l : List ℝ) (c d : ℝ) :
    (c ≤ d → ∃ is : List (Interval ℝ), mkIvList (l.map fun mu => (mu + c, mu + d)) = .ok is ∧
      is.map (fun i => (i.left, i.right)) = l.map fun mu => (mu + c, mu + d)) ∧
    (d < c → l ≠ [] → mkIvList (l.map fun mu => (mu + c, mu + d)) = .error .argumentError) := by
  constructor
  · intro h
    induction l with
    | nil => exact ⟨[], rfl, rfl⟩
    | cons mu l ih =>
      obtain ⟨is, h1, h2⟩ := ih
      have hle : ¬ mu + c > mu + d := by linarith
      refine ⟨⟨mu + c, mu + d, not_lt.mp hle⟩ :: is, ?_, ?_⟩
      · simp only [List.map_cons, mkIvList, Interval.make, Option.getD_some, dif_neg hle, h1]
      · simp only [List.map_cons, h2]
  · intro h hl
    obtain ⟨mu, l, rfl⟩ := List.exists_cons_of_ne_nil hl
    have hlt : mu + c > mu + d := by linarith
    simp only [List.map_cons, mkIvList, Interval.make, Option.getD_some, dif_pos hlt]

theorem iv_map_injective : Function.Injective fun i : Interval ℝ => (i.left, i.right) := by
  rintro ⟨a, b, h⟩ ⟨c, d, h'⟩ he
  simp only [Prod.mk.injEq] at he
  obtain ⟨rfl, rfl⟩ := he
  rfl

theorem mkIvList_perm {l l' : List ℝ} (h : l.Perm l') (c d : ℝ) :
    Except.Rel List.Perm (mkIvList (l.map fun mu => (mu + c, mu + d))) (mkIvList (l'.map fun mu => (mu + c, mu + d))) := by
  by_cases hl : l = []
  · subst hl
    rw [List.nil_perm.mp h]
    exact List.Perm.refl _
  have hl' : l' ≠ [] := by rintro rfl; exact hl (List.perm_nil.mp h)
  rcases le_or_gt c d with hcd | hcd
  · obtain ⟨is, h1, h2⟩ := (mkIvList_around l c d).1 hcd
    obtain ⟨is', h1', h2'⟩ := (mkIvList_around l' c d).1 hcd
    rw [h1, h1']
    have : (is.map fun i => (i.left, i.right)).Perm (is'.map fun i => (i.left, i.right)) := by
      rw [h2, h2']
      exact h.map _
    exact (List.map_perm_map_iff iv_map_injective).mp this
  · rw [(mkIvList_around l c d).2 hcd hl, (mkIvList_around l' c d).2 hcd hl']
    rfl

theorem gap_perm {lam lam' sig sig' : List ℝ} (h : lam.Perm lam') (h' : sig.Perm sig') :
    gap lam sig .individual = gap lam' sig' .individual := by
  have hp : (gapDiffs lam sig).Perm (gapDiffs lam' sig') := by
    unfold gapDiffs
    exact (h.product h').map _
  unfold gap
  simp only [min?_perm hp]

theorem listNorm_perm {l l' : List ℝ} (h : l.Perm l') : listNorm l = listNorm l' := by
  unfold listNorm
  rw [(h.map _).sum_eq]

theorem evalIntervals_perm {build build' : List (Interval ℝ) → IvSet ℝ} (hb : IsBuild build) (hb' : IsBuild build')
    (r : RitzVals) {idx idx' rem rem' : List ℕ} (hi : idx.Perm idx') (hr : rem.Perm rem') (emin emax : ℝ)
    (eres : Option ℝ) :
    Except.Rel List.Perm (evalIntervals build r idx rem emin emax eres)
      (evalIntervals build' r idx' rem' emin emax eres) := by
  have hbp : ∀ is is' : List (Interval ℝ), is.Perm is' → (build is).Perm (build' is') := fun is is' h =>
    (C05_order_independent (hb is) (hb' is') h).1
  unfold evalIntervals
  rw [hi.length_eq]
  by_cases h0 : idx'.length = 0
  · rw [if_pos h0, if_pos h0]
    cases mkIvList ((r.values.zip r.resnorms).map fun p => (p.1 - p.2, p.1 + p.2)) with
    | error e => rfl
    | ok is => exact hbp _ _ (List.Perm.refl _)
  rw [if_neg h0, if_neg h0]
  by_cases h1 : r.values.length = idx'.length
  · rw [if_pos h1, if_pos h1]; rfl
  rw [if_neg h1, if_neg h1]
  dsimp only
  have p1 := pick_perm r.resnorms hi
  have p2 := pick_perm r.resnorms hr
  have p3 := pick_perm r.values hi
  have p4 := pick_perm r.values hr
  generalize pick r.resnorms idx = a1 at *
  generalize pick r.resnorms idx' = a1' at *
  generalize pick r.resnorms rem = a2 at *
  generalize pick r.resnorms rem' = a2' at *
  generalize pick r.values idx = a3 at *
  generalize pick r.values idx' = a3' at *
  generalize pick r.values rem = a4 at *
  generalize pick r.values rem' = a4' at *
  cases a1 <;> cases a1' <;> simp only [Except.Rel] at p1 <;> try rfl
  cases a2 <;> cases a2' <;> simp only [Except.Rel] at p2 <;> try rfl
  cases a3 <;> cases a3' <;> simp only [Except.Rel] at p3 <;> try rfl
  cases a4 <;> cases a4' <;> simp only [Except.Rel] at p4 <;> try rfl
  dsimp only
  rw [gap_perm p3 p4, listNorm_perm p1]
  cases gap _ _ GapMode.individual <;> try rfl
  dsimp only
  have q1 := mkIvList_perm p3 emin emax
  generalize mkIvList (List.map (fun mu => (mu + emin, mu + emax)) _) = b1 at *
  generalize mkIvList (List.map (fun mu => (mu + emin, mu + emax)) _) = b1' at *
  cases b1 <;> cases b1' <;> simp only [Except.Rel] at q1 <;> try (first | rfl | exact q1)
  dsimp only
  rw [minAbs_perm (hbp _ _ q1)]
  cases (build' _).minAbs <;> try rfl
  dsimp only
  split
  · rfl
  split
  · rfl
  have q2 := fun c d => mkIvList_perm p4 c d
  generalize hc : emin - _ = c
  generalize hd : emax + _ = d
  specialize q2 c d
  generalize mkIvList (List.map (fun mu => (mu + c, mu + d)) _) = c1 at *
  generalize mkIvList (List.map (fun mu => (mu + c, mu + d)) _) = c1' at *
  cases c1 <;> cases c1' <;> simp only [Except.Rel] at q2 <;> try (first | rfl | exact q2)
  exact hbp _ _ q2

/-- C57: the evaluation depends neither on the order in which Python iterates over the sets of indices nor on the order of
merges inside `Intervals`: `RitzFactory` can treat it as a function of the subset. -/
theorem C57_order {order order' : Finset ℕ → List ℕ} (ho : IsOrder order) (ho' : IsOrder order')
    {build build' : List (Interval ℝ) → IvSet ℝ} (hb : IsBuild build) (hb' : IsBuild build') (a : AprioriArgs)
    (hbd : a.bound = (fun s => boundCG s) ∨ a.bound = boundMinres) (r : RitzVals) (S : Finset ℕ) :
    aprioriEval order build a r S = aprioriEval order' build' a r S := by
  have hfree : OrderFree a.bound := by
    rcases hbd with h | h
    · rw [h]; exact boundCG_orderFree
    · rw [h]; exact boundMinres_orderFree
  unfold aprioriEval
  cases hs : a.strategy with
  | other => rfl
  | simple =>
    dsimp only
    have p := pick_perm r.values (ho.perm ho' (Finset.range r.values.length \ S))
    generalize pick r.values (order (Finset.range r.values.length \ S)) = x at *
    generalize pick r.values (order' (Finset.range r.values.length \ S)) = x' at *
    cases x with
    | error e => cases x' with
      | error e' => obtain rfl : e = e' := p; rfl
      | ok l' => exact absurd p (by simp [Except.Rel])
    | ok l => cases x' with
      | error e' => exact absurd p (by simp [Except.Rel])
      | ok l' =>
        dsimp only
        have := hfree.array l l' p
        unfold toC at this
        rw [this]
  | intervals =>
    dsimp only
    have p := evalIntervals_perm hb hb' r (ho.perm ho' S) (ho.perm ho' (Finset.range r.values.length \ S)) 0 0 none
    generalize evalIntervals build r (order S) (order (Finset.range r.values.length \ S)) 0 0 none = x at *
    generalize evalIntervals build' r (order' S) (order' (Finset.range r.values.length \ S)) 0 0 none = x' at *
    cases x with
    | error e => cases x' with
      | error e' => obtain rfl : e = e' := p; rfl
      | ok l' => exact absurd p (by simp [Except.Rel])
    | ok l => cases x' with
      | error e' => exact absurd p (by simp [Except.Rel])
      | ok l' =>
        dsimp only
        rw [hfree.intervals l l' p]

/-! ## The intervals -/

theorem mem_points_around {is : List (Interval ℝ)} {l : List ℝ} {c d : ℝ}
    (h : is.map (fun i => (i.left, i.right)) = l.map fun mu => (mu + c, mu + d)) (x : ℝ) :
    x ∈ points is ↔ ∃ mu ∈ l, mu + c ≤ x ∧ x ≤ mu + d := by
  constructor
  · rintro ⟨i, hi, h1, h2⟩
    have : (i.left, i.right) ∈ is.map (fun i => (i.left, i.right)) := List.mem_map.mpr ⟨i, hi, rfl⟩
    rw [h] at this
    obtain ⟨mu, hmu, he⟩ := List.mem_map.mp this
    simp only [Prod.mk.injEq] at he
    exact ⟨mu, hmu, by rw [he.1]; exact h1, by rw [he.2]; exact h2⟩
  · rintro ⟨mu, hmu, h1, h2⟩
    have : (mu + c, mu + d) ∈ l.map fun mu => (mu + c, mu + d) := List.mem_map.mpr ⟨mu, hmu, rfl⟩
    rw [← h] at this
    obtain ⟨i, hi, he⟩ := List.mem_map.mp this
    simp only [Prod.mk.injEq] at he
    exact ⟨i, hi, by rw [he.1]; exact h1, by rw [he.2]; exact h2⟩

/-- C57 (`_estimate_eval_intervals` for a proper non-empty subset): with `δ` the norm of the selected residual norms, `d` the
gap between selected and remaining values and `μ` the smallest modulus of a selected value, `AssumptionError` is raised iff
`δ ≥ d` or `μ = 0`; otherwise the result is the union of the intervals `[λ - η, λ + η]` around the remaining values,
`η = δ² (1/d + 1/μ)`. -/
theorem C57_intervals {order : Finset ℕ → List ℕ} (ho : IsOrder order) {build : List (Interval ℝ) → IvSet ℝ}
    (hb : IsBuild build) (r : RitzVals) (hlen : r.resnorms.length = r.values.length) {S : Finset ℕ}
    (hS : S ⊆ Finset.range r.values.length) (hne : S.Nonempty) {d mu : ℝ}
    (hd : IsLeast {e | ∃ l ∈ selVals r.values S, ∃ s ∈ restVals r.values S, e = |l - s|} d)
    (hmu : IsLeast {e | ∃ l ∈ selVals r.values S, e = |l|} mu) :
    let delta := Real.sqrt (∑ i ∈ S, r.resnorms.getD i 0 ^ 2)
    let res := evalIntervals build r (order S) (order (Finset.range r.values.length \ S)) 0 0 none
    (d ≤ delta ∨ mu = 0 → res = .error .assumptionError) ∧
    (delta < d → mu ≠ 0 → ∃ s, res = .ok s ∧ ∀ x, s.contains x = true ↔
      ∃ l ∈ restVals r.values S, |x - l| ≤ delta ^ 2 * (1 / d + 1 / mu)) := by
  intro delta res
  have hcard := ho.length S
  have h0 : (order S).length ≠ 0 := by rw [hcard]; exact Finset.card_ne_zero.mpr hne
  have h1 : r.values.length ≠ (order S).length := by
    rw [hcard]
    intro hc
    have : S = Finset.range r.values.length := Finset.eq_of_subset_of_card_le hS (by rw [Finset.card_range]; omega)
    obtain ⟨l, -, s, ⟨i, hi, hv⟩, -⟩ := hd.1
    rw [this, Finset.mem_range] at hi
    rw [List.getElem?_eq_none (by omega)] at hv
    simp at hv
  obtain ⟨p1, -⟩ := pick_sel ho (l := r.resnorms) (S := S) (by rw [hlen]; exact hS)
  obtain ⟨p2, -⟩ := pick_sel ho (l := r.resnorms) (S := Finset.range r.values.length \ S)
    (by rw [hlen]; exact Finset.sdiff_subset)
  obtain ⟨p3, m3⟩ := pick_sel ho (l := r.values) (S := S) hS
  obtain ⟨rest, p4, m4⟩ := pick_rest ho r.values S
  have hdelta : listNorm ((order S).map fun i => r.resnorms.getD i 0) = delta := by
    unfold listNorm
    congr 1
    rw [List.map_map, ← List.sum_toFinset _ (ho S).1]
    refine Finset.sum_congr ?_ fun _ _ => rfl
    ext i
    rw [List.mem_toFinset, (ho S).2]
  set sel := (order S).map fun i => r.values.getD i 0 with hsel
  have hsel0 : sel ≠ [] := by
    intro hc
    obtain ⟨l, hl, -⟩ := hmu.1
    have := (m3 l).mpr hl
    rw [hc] at this
    simp at this
  have hrest0 : rest ≠ [] := by
    intro hc
    obtain ⟨-, -, s, hs, -⟩ := hd.1
    have := (m4 s).mpr hs
    rw [hc] at this
    simp at this
  obtain ⟨d', hg, hd'⟩ := C08_individual sel rest hsel0 hrest0
  have hdd : d' = d := by
    have : {e | ∃ l ∈ sel, ∃ s ∈ rest, e = |l - s|} =
        {e | ∃ l ∈ selVals r.values S, ∃ s ∈ restVals r.values S, e = |l - s|} := by
      ext e
      simp only [Set.mem_ofPred_eq, m3, m4]
    rw [this] at hd'
    exact hd'.unique hd
  subst hdd
  obtain ⟨is, e1, e2⟩ := (mkIvList_around sel 0 0).1 le_rfl
  have his0 : is ≠ [] := by
    rintro rfl
    simp only [List.map_nil] at e2
    exact hsel0 (by simpa using e2.symm)
  obtain ⟨mu', k1, k2⟩ := C06_min_abs (hb is) his0
  have hmm : mu' = mu := by
    have : {y | ∃ x ∈ points is, y = |x|} = {e | ∃ l ∈ selVals r.values S, e = |l|} := by
      ext y
      simp only [Set.mem_ofPred_eq, mem_points_around e2, add_zero, ← m3]
      constructor
      · rintro ⟨x, ⟨l, hl, h3, h4⟩, rfl⟩
        exact ⟨l, hl, by rw [le_antisymm h4 h3]⟩
      · rintro ⟨l, hl, rfl⟩
        exact ⟨l, ⟨l, hl, le_rfl, le_rfl⟩, rfl⟩
    rw [this] at k2
    exact k2.unique hmu
  subst hmm
  have hres : res = if delta ≥ d' then .error .assumptionError else if mu' = 0 then .error .assumptionError else
      match mkIvList (rest.map fun v => (v + -(delta ^ 2 * (1 / d' + 1 / mu')), v + delta ^ 2 * (1 / d' + 1 / mu'))) with
      | .error e => .error e
      | .ok is => .ok (build is) := by
    show evalIntervals build r (order S) (order (Finset.range r.values.length \ S)) 0 0 none = _
    unfold evalIntervals
    rw [if_neg h0, if_neg h1, p1, p2, p3, p4]
    dsimp only
    rw [hg]
    dsimp only
    rw [e1]
    dsimp only
    rw [k1, hdelta]
    simp only [Option.getD_none, abs_zero, max_self, add_zero, sub_zero, zero_sub, zero_add]
    by_cases c1 : delta ≥ d'
    · rw [if_pos c1, if_pos c1]
    · rw [if_neg c1, if_neg c1]
      by_cases c2 : mu' = 0
      · rw [if_pos c2, if_pos c2]
      · rw [if_neg c2, if_neg c2]
        cases mkIvList _ <;> rfl
  rw [hres]
  constructor
  · rintro (h | h)
    · rw [if_pos h]
    · by_cases hc : delta ≥ d'
      · rw [if_pos hc]
      · rw [if_neg hc, if_pos h]
  · intro h2 h3
    rw [if_neg (not_le.mpr h2), if_neg h3]
    have hmu0 : 0 ≤ mu' := by obtain ⟨l, -, rfl⟩ := hmu.1; exact abs_nonneg l
    have hd0 : 0 ≤ d' := by obtain ⟨l, -, s, -, rfl⟩ := hd.1; exact abs_nonneg _
    have heta : 0 ≤ delta ^ 2 * (1 / d' + 1 / mu') := by positivity
    obtain ⟨js, j1, j2⟩ := (mkIvList_around rest (-(delta ^ 2 * (1 / d' + 1 / mu'))) (delta ^ 2 * (1 / d' + 1 / mu'))).1
      (by linarith)
    rw [j1]
    refine ⟨_, rfl, fun x => ?_⟩
    rw [(C04_membership_disjoint (hb js)).1, mem_points_around j2]
    simp only [m4]
    refine exists_congr fun l => and_congr_right fun _ => ?_
    rw [abs_le]
    constructor <;> rintro ⟨h4, h5⟩ <;> constructor <;> linarith

/-! ## Inclusion of eigenvalues -/

section
variable {𝕜 E : Type*} [RCLike 𝕜] [AddCommGroup E] [Module 𝕜 E]

/-- A self-adjoint operator has an eigenvalue within the residual norm of every approximate eigenpair. -/
theorem residual_inclusion [FiniteDimensional 𝕜 E] {ip : E → E → 𝕜} (h : IsInner ip) {T : E →ₗ[𝕜] E}
    (hT : ∀ x y, ip (T x) y = ip x (T y)) {mu : ℝ} {z : E} (hz : nrm ip z = 1) :
    ∃ lam : ℝ, (∃ x, x ≠ 0 ∧ T x = (lam : 𝕜) • x) ∧ |lam - mu| ≤ nrm ip (eigRes T (mu : 𝕜) z) := by
  let : NormedAddCommGroup E := h.core.toNormedAddCommGroup
  let : InnerProductSpace 𝕜 E := InnerProductSpace.ofCore h.core.toCore
  have hsym : T.IsSymmetric := hT
  let b := hsym.eigenvectorBasis rfl
  have hb : ∀ i, T (b i) = ((hsym.eigenvalues rfl i : ℝ) : 𝕜) • b i := hsym.apply_eigenvectorBasis rfl
  have hnsq : ∀ x : E, nsq ip x = ∑ i, ‖ip (b i) x‖ ^ 2 := by
    intro x
    have h1 := b.sum_sq_norm_inner_right x
    have h2 : ‖x‖ ^ 2 = nsq ip x := by
      rw [← inner_self_eq_norm_sq (𝕜 := 𝕜)]
      rfl
    rw [← h2, ← h1]
    rfl
  have hcoef : ∀ i, ip (b i) (eigRes T (mu : 𝕜) z) = ((hsym.eigenvalues rfl i - mu : ℝ) : 𝕜) * ip (b i) z := by
    intro i
    unfold eigRes
    rw [h.sub_right, ← hT, hb, h.smul_left, h.smul_right]
    push_cast
    rw [RCLike.conj_ofReal]
    ring
  by_contra hcon
  push Not at hcon
  have hlt : ∀ i, nrm ip (eigRes T (mu : 𝕜) z) < |hsym.eigenvalues rfl i - mu| := fun i =>
    hcon _ ⟨b i, b.orthonormal.ne_zero i, hb i⟩
  set rho := nrm ip (eigRes T (mu : 𝕜) z) with hrho
  have hrho0 : 0 ≤ rho := Real.sqrt_nonneg _
  have hz2 : ∑ i, ‖ip (b i) z‖ ^ 2 = 1 := by
    rw [← hnsq, ← h.nrm_sq, hz, one_pow]
  have hr2 : ∑ i, |hsym.eigenvalues rfl i - mu| ^ 2 * ‖ip (b i) z‖ ^ 2 = rho ^ 2 := by
    rw [hrho, h.nrm_sq, hnsq]
    refine Finset.sum_congr rfl fun i _ => ?_
    rw [hcoef, norm_mul, mul_pow, RCLike.norm_ofReal]
  have hex : ∃ i, ip (b i) z ≠ 0 := by
    by_contra hc
    push Not at hc
    simp [hc] at hz2
  have hsum : ∑ i, rho ^ 2 * ‖ip (b i) z‖ ^ 2 < ∑ i, |hsym.eigenvalues rfl i - mu| ^ 2 * ‖ip (b i) z‖ ^ 2 := by
    refine Finset.sum_lt_sum (fun i _ => ?_) ?_
    · have := (hlt i).le
      gcongr
    · obtain ⟨i, hi⟩ := hex
      refine ⟨i, Finset.mem_univ _, ?_⟩
      have h1 := hlt i
      have h2 : 0 < ‖ip (b i) z‖ := norm_pos_iff.mpr hi
      gcongr
  rw [← Finset.mul_sum, hz2, hr2] at hsum
  simp at hsum

/-- The intervals around the pairs of a list. -/
theorem mkIvList_ok (l : List (ℝ × ℝ)) (h : ∀ p ∈ l, p.1 ≤ p.2) :
    ∃ is : List (Interval ℝ), mkIvList l = .ok is ∧ is.map (fun i => (i.left, i.right)) = l := by
  induction l with
  | nil => exact ⟨[], rfl, rfl⟩
  | cons p l ih =>
    obtain ⟨is, h1, h2⟩ := ih fun q hq => h q (List.mem_cons_of_mem _ hq)
    have hle : ¬ p.1 > p.2 := not_lt.mpr (h p (List.mem_cons_self ..))
    refine ⟨⟨p.1, p.2, not_lt.mp hle⟩ :: is, ?_, ?_⟩
    · simp only [mkIvList, Interval.make, Option.getD_some, dif_neg hle, h1]
    · simp only [List.map_cons, h2]

variable {n m : ℕ} [FiniteDimensional 𝕜 E] {g : E → E → 𝕜} {T : E →ₗ[𝕜] E} {P : ℕ → E} {W : Fin m → E} {H : ℕ → ℕ → 𝕜}
  {n_ : ℕ} {Em F : Matrix (Fin m) (Fin m) 𝕜} {C B_ : List (Fin m → 𝕜)}

/-- Spec: the arrays `values` and `resnorms` of a `Ritz` object for a self-adjoint problem, listed in any order. -/
noncomputable def ritzVals (out : DeflRitzOut 𝕜 n m) (L : List (Fin n ⊕ Fin m)) : RitzVals :=
  ⟨L.map fun i => RCLike.re ((out.values i).getD 0), L.map fun i => (out.resnorms i).getD 0⟩

/-- C57: for a self-adjoint operator `T = M MlAMr` and the Ritz pairs of a deflated solver, without any selected pair, the
intervals are inclusion intervals: they are exactly the intervals `[λ - ρ, λ + ρ]` around the Ritz values with their residual
norms as radii, and each of these contains an eigenvalue of `T`. -/
theorem C57_inclusion (h : DeflRitzRel g T P W H n_ n Em F C B_) {rt : EigRoutines 𝕜 (Fin n ⊕ Fin m)} (hrt : EigOk rt)
    (hT : ∀ x y, g (T x) y = g x (T y)) {out : DeflRitzOut 𝕜 n m}
    (hout : deflRitz rt H n_ Em C B_ F true .ritz = .ok out) {build : List (Interval ℝ) → IvSet ℝ} (hb : IsBuild build)
    (L : List (Fin n ⊕ Fin m)) (rem : List ℕ) (emin emax : ℝ) (eres : Option ℝ) :
    ∃ s, evalIntervals build (ritzVals out L) [] rem emin emax eres = .ok s ∧
      (∀ x, s.contains x = true ↔ ∃ i ∈ L, |x - RCLike.re ((out.values i).getD 0)| ≤ (out.resnorms i).getD 0) ∧
      ∀ i ∈ L, ∃ lam : ℝ, (∃ x, x ≠ 0 ∧ T x = (lam : 𝕜) • x) ∧ s.contains lam = true ∧
        |lam - RCLike.re ((out.values i).getD 0)| ≤ (out.resnorms i).getD 0 := by
  have hE : Em.IsHermitian := by
    ext i j
    rw [Matrix.conjTranspose_apply, h.Emat, h.Emat, ← hT]
    exact h.inner.conj_symm _ _
  have hpair : ∀ i, ∃ z : E, nrm g z = 1 ∧ ∃ mu : ℝ, out.values i = some (mu : 𝕜) ∧
      out.resnorms i = some (nrm g (eigRes T (mu : 𝕜) z)) := by
    intro i
    obtain ⟨mu, h1, h2, h3⟩ := C40_ritz h hrt (fun _ => hT) hout i
    have h4 := C40_resnorms h hrt (fun _ => hT) hE (by simp) hout i h1
    set z := deflRitzVec P W (out.coeffs i) with hz
    have hre : mu = ((RCLike.re mu : ℝ) : 𝕜) := by
      have h5 := h3 (out.coeffs i)
      rw [← hz] at h5
      unfold eigRes at h5
      rw [h.inner.sub_right, h.inner.smul_right, h.inner.self_real, ← h.inner.nrm_sq, h2] at h5
      have h6 : mu = g z (T z) := by
        have := sub_eq_zero.mp h5
        rw [this]; simp
      have h7 : (starRingEnd 𝕜) mu = mu := by
        rw [h6, h.inner.conj_symm, hT]
      exact (RCLike.conj_eq_iff_re.mp h7).symm
    refine ⟨z, h2, RCLike.re mu, by rw [h1, ← hre], ?_⟩
    rw [← hre, h4]
  have hzip : ((ritzVals out L).values.zip (ritzVals out L).resnorms).map (fun p => (p.1 - p.2, p.1 + p.2)) =
      L.map fun i => (RCLike.re ((out.values i).getD 0) - (out.resnorms i).getD 0,
        RCLike.re ((out.values i).getD 0) + (out.resnorms i).getD 0) := by
    unfold ritzVals
    rw [List.zip_map', List.map_map]
    rfl
  obtain ⟨is, h1, h2⟩ := mkIvList_ok (L.map fun i => (RCLike.re ((out.values i).getD 0) - (out.resnorms i).getD 0,
        RCLike.re ((out.values i).getD 0) + (out.resnorms i).getD 0)) (by
    intro p hp
    obtain ⟨i, -, rfl⟩ := List.mem_map.mp hp
    obtain ⟨z, -, mu, -, h4⟩ := hpair i
    have h5 : 0 ≤ (out.resnorms i).getD 0 := by rw [h4]; exact Real.sqrt_nonneg _
    dsimp only
    linarith)
  have hcont : ∀ x, (build is).contains x = true ↔
      ∃ i ∈ L, |x - RCLike.re ((out.values i).getD 0)| ≤ (out.resnorms i).getD 0 := by
    intro x
    rw [(C04_membership_disjoint (hb is)).1]
    constructor
    · rintro ⟨j, hj, h3, h4⟩
      have : (j.left, j.right) ∈ is.map (fun i => (i.left, i.right)) := List.mem_map.mpr ⟨j, hj, rfl⟩
      rw [h2] at this
      obtain ⟨i, hi, he⟩ := List.mem_map.mp this
      simp only [Prod.mk.injEq] at he
      refine ⟨i, hi, ?_⟩
      rw [abs_le]
      constructor <;> linarith [he.1, he.2]
    · rintro ⟨i, hi, hx⟩
      rw [abs_le] at hx
      have : (RCLike.re ((out.values i).getD 0) - (out.resnorms i).getD 0,
        RCLike.re ((out.values i).getD 0) + (out.resnorms i).getD 0) ∈ is.map (fun i => (i.left, i.right)) := by
        rw [h2]
        exact List.mem_map.mpr ⟨i, hi, rfl⟩
      obtain ⟨j, hj, he⟩ := List.mem_map.mp this
      simp only [Prod.mk.injEq] at he
      refine ⟨j, hj, ?_, ?_⟩
      · rw [he.1]; linarith
      · rw [he.2]; linarith
  refine ⟨build is, ?_, hcont, fun i hi => ?_⟩
  · unfold evalIntervals
    rw [List.length_nil, if_pos rfl, hzip, h1]
  · obtain ⟨z, hz, mu, h3, h4⟩ := hpair i
    obtain ⟨lam, hl1, hl2⟩ := residual_inclusion h.inner hT (mu := mu) hz
    have hl3 : |lam - RCLike.re ((out.values i).getD 0)| ≤ (out.resnorms i).getD 0 := by
      rw [h3, h4]
      simpa using hl2
    exact ⟨lam, hl1, (hcont lam).mpr ⟨i, hi, hl3⟩, hl3⟩

end

/-! ## Finding: with a selection the intervals are not inclusion intervals -/

/-- Finding (C57): `_estimate_eval_intervals` documents "inclusion intervals for eigenvalues".  For the symmetric matrix
`A = [[1,0,0],[0,2,1],[0,1,4]]` and the search space `span(e₁, e₂)` the Ritz pairs are `(1, e₁)`, `(2, e₂)` with residual norms 0
and 1.  If the first pair is selected, the returned set is the single point 2, which is not an eigenvalue of `A`. -/
theorem C57_inclusion_counterexample {order : Finset ℕ → List ℕ} (ho : IsOrder order)
    {build : List (Interval ℝ) → IvSet ℝ} (hb : IsBuild build) :
    let A : Matrix (Fin 3) (Fin 3) ℝ := !![1, 0, 0; 0, 2, 1; 0, 1, 4]
    let z : Fin 2 → Fin 3 → ℝ := ![![1, 0, 0], ![0, 1, 0]]
    let res : Fin 2 → Fin 3 → ℝ := fun i => A.mulVec (z i) - (![1, 2] i : ℝ) • z i
    (∀ i j, dotProduct (z i) (z j) = if i = j then 1 else 0) ∧ (∀ i j, dotProduct (z i) (res j) = 0) ∧
    (∀ i, dotProduct (res i) (res i) = (![0, 1] i : ℝ) ^ 2) ∧
    ∃ s, evalIntervals build ⟨[1, 2], [0, 1]⟩ (order {0}) (order (Finset.range 2 \ {0})) 0 0 none = .ok s ∧
      (∃ x, s.contains x = true) ∧ ∀ lam, s.contains lam = true → ∀ x, A.mulVec x = lam • x → x = 0 := by
  intro A z res
  refine ⟨fun i j => ?_, fun i j => ?_, fun i => ?_, ?_⟩
  · fin_cases i <;> fin_cases j <;> simp [z, dotProduct, Fin.sum_univ_three]
  · fin_cases i <;> fin_cases j <;> simp [z, res, A, Matrix.mulVec, dotProduct, Fin.sum_univ_three]
  · fin_cases i <;> simp [z, res, A, Matrix.mulVec, dotProduct, Fin.sum_univ_three]
  · have hsel : selVals [1, 2] {0} = {1} := by
      ext v
      simp [selVals, eq_comm]
    have hrest : restVals [1, 2] {0} = {2} := by
      ext v
      constructor
      · rintro ⟨i, hi, hv⟩
        match i, hi, hv with
        | 0, hi, _ => simp at hi
        | 1, _, hv => simpa [eq_comm] using hv
        | k + 2, _, hv => simp at hv
      · rintro rfl
        exact ⟨1, by simp, by simp⟩
    have h := C57_intervals ho hb ⟨[1, 2], [0, 1]⟩ rfl (S := {0}) (by simp) (by simp) (d := 1) (mu := 1)
      (by
        dsimp only
        rw [hsel, hrest]
        constructor
        · exact ⟨1, rfl, 2, rfl, by norm_num⟩
        · rintro e ⟨l, rfl, s, rfl, rfl⟩
          norm_num)
      (by
        dsimp only
        rw [hsel]
        constructor
        · exact ⟨1, rfl, by norm_num⟩
        · rintro e ⟨l, rfl, rfl⟩
          norm_num)
    dsimp only at h
    have hdelta : Real.sqrt (∑ i ∈ ({0} : Finset ℕ), ([0, 1] : List ℝ).getD i 0 ^ 2) = 0 := by simp
    rw [hdelta] at h
    obtain ⟨s, hs1, hs2⟩ := h.2 (by norm_num) (by norm_num)
    rw [hrest] at hs2
    have hc : ∀ x, s.contains x = true ↔ x = 2 := by
      intro x
      rw [hs2]
      constructor
      · rintro ⟨l, rfl, hx⟩
        have : |x - 2| ≤ 0 := by simpa using hx
        have := abs_nonpos_iff.mp this
        linarith
      · rintro rfl
        exact ⟨2, rfl, by simp⟩
    refine ⟨s, by simpa using hs1, ⟨2, (hc 2).mpr rfl⟩, fun lam hl x hx => ?_⟩
    obtain rfl := (hc lam).mp hl
    have h0 := congrFun hx 0
    have h1 := congrFun hx 1
    have h2 := congrFun hx 2
    simp [A, Matrix.mulVec, dotProduct, Fin.sum_univ_three] at h0 h1 h2
    funext i
    fin_cases i
    · simpa using (by linarith : x 0 = 0)
    · simpa using (by linarith : x 1 = 0)
    · simpa using h1

/-! ## Non-vacuity -/

/-- `IsOrder` and `IsBuild` can be satisfied. -/
theorem exists_order : ∃ order, IsOrder order :=
  ⟨fun S => S.toList, fun S => ⟨S.nodup_toList, fun _ => Finset.mem_toList⟩⟩

theorem exists_build : ∃ build, IsBuild build :=
  ⟨fun is => (C04_built_total is).choose, fun is => (C04_built_total is).choose_spec⟩

/-- Hypotheses of `C57_simple` for the Ritz values 1, 4, 1/100 with the last one deflated. -/
example : IsGreatest (restVals [1, 4, 1 / 100] {2}) 4 ∧ IsLeast (restVals [1, 4, 1 / 100] {2}) 1 ∧ tiny * 4 < 1 := by
  have h : restVals [1, 4, 1 / 100] {2} = {1, 4} := by
    ext v
    constructor
    · rintro ⟨i, hi, hv⟩
      match i, hi, hv with
      | 0, _, hv => left; simpa [eq_comm] using hv
      | 1, _, hv => right; simpa [eq_comm] using hv
      | 2, hi, _ => simp at hi
      | k + 3, _, hv => simp at hv
    · rintro (rfl | rfl)
      · exact ⟨0, by simp, by simp⟩
      · exact ⟨1, by simp, by simp⟩
  rw [h]
  refine ⟨⟨by simp, ?_⟩, ⟨by simp, ?_⟩, by unfold tiny; norm_num⟩
  · rintro x (rfl | rfl) <;> norm_num
  · rintro x (rfl | rfl) <;> norm_num

/-- Hypotheses of `C57_simple_minres` for the Ritz values -2, -1, 1, 2 without deflation. -/
example : (∃ x ∈ restVals [-2, -1, 1, 2] ∅, x ≤ -tiny) ∧ IsGreatest {y | ∃ x ∈ restVals [-2, -1, 1, 2] ∅, y = |x|} 2 ∧
    IsLeast {x | x ∈ restVals [-2, -1, 1, 2] ∅ ∧ x < -tiny * 2} (-2) ∧
    IsGreatest {x | x ∈ restVals [-2, -1, 1, 2] ∅ ∧ x < -tiny * 2} (-1) ∧
    IsLeast {x | x ∈ restVals [-2, -1, 1, 2] ∅ ∧ x > tiny * 2} 1 ∧
    IsGreatest {x | x ∈ restVals [-2, -1, 1, 2] ∅ ∧ x > tiny * 2} 2 ∧ 0 < minresFactor (-2) (-1) 1 2 := by
  have h : ∀ x, x ∈ restVals [-2, -1, 1, 2] ∅ ↔ x = -2 ∨ x = -1 ∨ x = 1 ∨ x = 2 := by
    intro v
    constructor
    · rintro ⟨i, -, hv⟩
      match i, hv with
      | 0, hv => left; simpa [eq_comm] using hv
      | 1, hv => right; left; simpa [eq_comm] using hv
      | 2, hv => right; right; left; simpa [eq_comm] using hv
      | 3, hv => right; right; right; simpa [eq_comm] using hv
      | k + 4, hv => simp at hv
    · rintro (rfl | rfl | rfl | rfl)
      · exact ⟨0, by simp, by simp⟩
      · exact ⟨1, by simp, by simp⟩
      · exact ⟨2, by simp, by simp⟩
      · exact ⟨3, by simp, by simp⟩
  simp only [h]
  have ht : tiny * 2 < 1 := by unfold tiny; norm_num
  have h0 := tiny_pos
  refine ⟨⟨-2, by simp, by linarith⟩, ⟨⟨2, by simp, by simp⟩, ?_⟩, ⟨⟨by simp, by linarith⟩, ?_⟩, ⟨⟨by simp, by linarith⟩, ?_⟩,
    ⟨⟨by simp, by linarith⟩, ?_⟩, ⟨⟨by simp, by linarith⟩, ?_⟩, ?_⟩
  · rintro y ⟨x, (rfl | rfl | rfl | rfl), rfl⟩ <;> norm_num
  · rintro x ⟨(rfl | rfl | rfl | rfl), h1⟩ <;> linarith
  · rintro x ⟨(rfl | rfl | rfl | rfl), h1⟩ <;> linarith
  · rintro x ⟨(rfl | rfl | rfl | rfl), h1⟩ <;> linarith
  · rintro x ⟨(rfl | rfl | rfl | rfl), h1⟩ <;> linarith
  · have h4 : Real.sqrt 4 = 2 := by rw [show (4 : ℝ) = 2 ^ 2 by norm_num, Real.sqrt_sq (by norm_num)]
    norm_num [minresFactor, h4]

/-- Hypotheses of `C57_negative_counterexample`: the only positive Ritz value of 1, -2, -3 is deflated. -/
example : (restVals [1, -2, -3] {0}).Nonempty ∧ (∀ x ∈ restVals [1, -2, -3] {0}, x < 0) ∧
    ∃ x ∈ restVals [1, -2, -3] {0}, x ≤ -tiny := by
  have ht : tiny < 1 := tiny_lt_one
  refine ⟨⟨-2, 1, by simp, by simp⟩, ?_, -2, ⟨1, by simp, by simp⟩, by linarith⟩
  rintro x ⟨i, hi, hv⟩
  match i, hi, hv with
  | 0, hi, _ => simp at hi
  | 1, _, hv => have : x = -2 := by simpa [eq_comm] using hv
                linarith
  | 2, _, hv => have : x = -3 := by simpa [eq_comm] using hv
                linarith
  | k + 3, _, hv => simp at hv

/-- `T (x, y) = (2 x + y, x + 4 y)`, a symmetric operator. -/
def exT2 : ℝ × ℝ →ₗ[ℝ] ℝ × ℝ where
  toFun p := (2 * p.1 + p.2, p.1 + 4 * p.2)
  map_add' p q := by ext <;> simp <;> ring
  map_smul' c p := by ext <;> simp <;> ring

/-- Hypotheses of `C57_inclusion` for `T` and the deflation vector `(1, 0)`: the Ritz value is 2 with residual norm 1. -/
example : ∃ ip : ℝ × ℝ → ℝ × ℝ → ℝ, DeflRitzRel ip exT2 (fun _ => 0) (fun _ : Fin 1 => ((1 : ℝ), (0 : ℝ))) (fun _ _ => 0) 0 0
    (Matrix.of fun _ _ => 2) (Matrix.of fun _ _ => 5) [] [] ∧ (∀ x y, ip (exT2 x) y = ip x (exT2 y)) ∧
    ∃ out, deflRitz (rt01 (𝕜 := ℝ)) (fun _ _ => (0 : ℝ)) 0 (Matrix.of fun _ _ : Fin 1 => (2 : ℝ)) [] []
      (Matrix.of fun _ _ => 5) true .ritz = .ok out ∧ out.values (.inr 0) = some 2 := by
  have h : DeflRitzRel (fun p q : ℝ × ℝ => p.1 * q.1 + p.2 * q.2) exT2 (fun _ => 0) (fun _ : Fin 1 => ((1 : ℝ), (0 : ℝ)))
      (fun _ _ => 0) 0 0 (Matrix.of fun _ _ => 2) (Matrix.of fun _ _ => 5) [] [] := by
    refine ⟨⟨fun x y z => by simp; ring, fun x t y => by simp; ring, fun x y => by simp [mul_comm], fun x hx => ?_⟩, le_rfl,
      by simp, fun i j => by simp [Subsingleton.elim i j], by simp, rfl, rfl, fun i j => by simp [exT2], by simp, by simp,
      fun i j => by simp [exT2]; norm_num, ?_, by simp⟩
    · have : x.1 ≠ 0 ∨ x.2 ≠ 0 := by
        by_contra hc
        push Not at hc
        exact hx (Prod.ext hc.1 hc.2)
      rcases this with h | h
      · have := mul_self_pos.mpr h
        have := mul_self_nonneg x.2
        simp only [RCLike.re_to_real]
        linarith
      · have := mul_self_pos.mpr h
        have := mul_self_nonneg x.1
        simp only [RCLike.re_to_real]
        linarith
    · rw [Matrix.det_fin_one]; simp
  refine ⟨_, h, fun x y => by simp [exT2]; ring, ?_⟩
  unfold deflRitz
  rw [if_neg (by omega), if_neg (by simp), h.solve]
  exact ⟨_, rfl, rfl⟩

end Krypy
