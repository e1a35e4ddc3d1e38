import Verif.Proofs.Intervals
import Mathlib.Algebra.Order.Group.Abs
import Mathlib.Algebra.Order.Ring.Rat
import Mathlib.Data.Rat.Defs
import Mathlib.Tactic.NormNum
import Mathlib.Algebra.Order.Group.Int
import Mathlib.Tactic.Linarith

/-!
# Properties C04-C07: interval sets

The specification is purely set-theoretic: `Interval.toSet i` is the closed interval
`Set.Icc i.left i.right`; an interval set represents `points s`.
-/

namespace Krypy
variable {α : Type*} [LinearOrder α]

/-- Spec: the point set of an interval. -/
def Interval.toSet (i : Interval α) : Set α := Set.Icc i.left i.right

/-- Spec: the point set represented by a family of intervals. -/
def points (s : List (Interval α)) : Set α := {x | ∃ i ∈ s, x ∈ i.toSet}

open IvSet

theorem Interval.apart_iff_disjoint {i j : Interval α} : i.Apart j ↔ Disjoint i.toSet j.toSet := by
  unfold Interval.Apart Interval.toSet
  rw [Set.disjoint_iff]
  have := i.le
  have := j.le
  constructor
  · rintro h x ⟨⟨h1, h2⟩, h3, h4⟩
    grind
  · intro h
    by_contra hc
    rw [not_or, not_lt, not_lt] at hc
    refine h (a := max i.left j.left) ⟨⟨?_, ?_⟩, ?_, ?_⟩ <;> grind

/-! ## C07 -/

/-- C07: `I & J` is exactly the intersection; `None` iff the intersection is empty. -/
theorem C07_and (i j : Interval α) :
    (∀ k, i.inter j = some k → k.toSet = i.toSet ∩ j.toSet) ∧
    (i.inter j = none ↔ i.toSet ∩ j.toSet = ∅) := by
  constructor
  · intro k hk
    unfold Interval.inter at hk
    split at hk
    · obtain rfl := Option.some.inj hk
      ext x
      simp [Interval.toSet]
      tauto
    · simp at hk
  · rw [← Option.not_isSome_iff_eq_none, Interval.not_inter, Interval.apart_iff_disjoint,
      Set.disjoint_iff_inter_eq_empty]

/-- C07: `I | J` is exactly the union if the intervals meet, and `None` otherwise. -/
theorem C07_or (i j : Interval α) :
    (∀ k, i.union j = some k → k.toSet = i.toSet ∪ j.toSet) ∧
    (i.union j = none ↔ i.toSet ∩ j.toSet = ∅) := by
  constructor
  · intro k hk
    unfold Interval.union at hk
    split at hk
    · next h =>
      rw [Interval.inter_isSome] at h
      obtain rfl := Option.some.inj hk
      have := i.le
      have := j.le
      ext x
      simp only [Interval.toSet, Set.mem_Icc, Set.mem_union]
      grind
    · simp at hk
  · rw [← Set.disjoint_iff_inter_eq_empty, ← Interval.apart_iff_disjoint, ← Interval.not_inter]
    unfold Interval.union
    split <;> simp_all

/-- C07: the constructor raises exactly when `left > right`. -/
theorem C07_make (l r : α) :
    (Interval.make l (some r) = .error .argumentError ↔ r < l) ∧
    (∀ i, Interval.make l (some r) = .ok i → i.toSet = Set.Icc l r) ∧
    (∃ i, Interval.make l = .ok i ∧ i.toSet = {l}) := by
  refine ⟨?_, ?_, ?_⟩
  · unfold Interval.make; simp only [Option.getD_some]; split <;> simp_all
  · intro i hi
    unfold Interval.make at hi
    simp only [Option.getD_some] at hi
    split at hi
    · simp at hi
    · cases hi; rfl
  · refine ⟨⟨l, l, le_rfl⟩, ?_, by simp [Interval.toSet]⟩
    simp [Interval.make]

/-- C07: `contains` is membership. -/
theorem C07_contains (i : Interval α) (x : α) : i.contains x = true ↔ x ∈ i.toSet := by
  simp [Interval.contains, Interval.toSet]

/-- C07: `distance` is the least distance of two points. -/
theorem C07_distance {α : Type*} [AddCommGroup α] [LinearOrder α] [IsOrderedAddMonoid α]
    (i j : Interval α) :
    IsLeast {d | ∃ x ∈ i.toSet, ∃ y ∈ j.toSet, d = |x - y|} (i.distance j) := by
  have hi := i.le
  have hj := j.le
  unfold Interval.distance
  split
  · next h =>
    rw [Interval.inter_isSome] at h
    refine ⟨⟨max i.left j.left, ⟨by grind, by grind⟩, max i.left j.left, ⟨by grind, by grind⟩,
      by simp⟩, ?_⟩
    rintro d ⟨x, -, y, -, rfl⟩
    exact abs_nonneg _
  · next h =>
    rw [Interval.not_inter] at h
    rcases h with h | h
    · have e : max (j.left - i.right) (i.left - j.right) = j.left - i.right := by
        apply max_eq_left
        exact le_trans (sub_nonpos.mpr (le_trans hi (le_trans h.le hj))) (sub_nonneg.mpr h.le)
      rw [e]
      refine ⟨⟨i.right, ⟨hi, le_rfl⟩, j.left, ⟨le_rfl, hj⟩, ?_⟩, ?_⟩
      · rw [abs_sub_comm, abs_of_nonneg (sub_nonneg.mpr h.le)]
      · rintro d ⟨x, ⟨_, hx⟩, y, ⟨hy, _⟩, rfl⟩
        rw [abs_sub_comm]
        exact le_trans (sub_le_sub hy hx) (le_abs_self _)
    · have e : max (j.left - i.right) (i.left - j.right) = i.left - j.right := by
        apply max_eq_right
        exact le_trans (sub_nonpos.mpr (le_trans hj (le_trans h.le hi))) (sub_nonneg.mpr h.le)
      rw [e]
      refine ⟨⟨i.left, ⟨le_rfl, hi⟩, j.right, ⟨hj, le_rfl⟩, ?_⟩, ?_⟩
      · rw [abs_of_nonneg (sub_nonneg.mpr h.le)]
      · rintro d ⟨x, ⟨hx, _⟩, y, ⟨_, hy⟩, rfl⟩
        exact le_trans (sub_le_sub hx hy) (le_abs_self _)

/-- non-vacuity for C07: two intervals that meet, two that do not -/
example : (Interval.mk (0 : ℤ) 2 (by norm_num)).inter ⟨1, 3, by norm_num⟩ =
    some ⟨1, 2, by norm_num⟩ ∧
    (Interval.mk (0 : ℤ) 2 (by norm_num)).inter ⟨3, 4, by norm_num⟩ = none ∧
    (Interval.mk (0 : ℤ) 2 (by norm_num)).distance ⟨5, 7, by norm_num⟩ = 3 := by
  refine ⟨?_, ?_, ?_⟩ <;> rfl

/-! ## C04 -/

/-- C04: after any sequence of `add` calls, `contains` is membership in the union of everything
added, and the stored intervals are pairwise disjoint. -/
theorem C04_membership_disjoint {is : List (Interval α)} {s : IvSet α} (h : Built is s) :
    (∀ x, s.contains x = true ↔ x ∈ points is) ∧
    s.Pairwise (fun i j => Disjoint i.toSet j.toSet) := by
  have hi := h.inv
  refine ⟨fun x => ?_, hi.apart.imp fun h => Interval.apart_iff_disjoint.mp h⟩
  rw [contains_iff]
  constructor
  · rintro ⟨j, hj, h1, h2⟩
    obtain ⟨k, hk, hk'⟩ := hi.sound j hj x h1 h2
    exact ⟨k, hk, hk'⟩
  · rintro ⟨k, hk, hk1, hk2⟩
    obtain ⟨j, hj, hj1, hj2⟩ := hi.covers k hk
    exact ⟨j, hj, le_trans hj1 hk1, le_trans hk2 hj2⟩

/-- C04: `add` never fails: whatever the iteration order `l` of the intersecting intervals, the
merge loop produces an interval (never `None`), for every reachable set. -/
theorem C04_add_total (s : IvSet α) (new : Interval α) (l : List (Interval α))
    (hl : l.Perm (s.filter fun i => (i.inter new).isSome)) :
    ∃ n, mergeAll new l = some n ∧
      AddStep s new (n :: s.filter fun i => ¬ (i.inter new).isSome) := by
  obtain ⟨n, hn, -⟩ := mergeAll_spec new l (fun i hi => by
    have := hl.mem_iff.mp hi
    simp at this
    exact this.2)
  exact ⟨n, hn, AddStep.mk l hl n hn _ (List.Perm.refl _)⟩

/-- C04: every finite sequence of intervals can be added. -/
theorem C04_built_total (is : List (Interval α)) : ∃ s, Built is s := by
  induction is using List.reverseRecOn with
  | nil => exact ⟨[], .nil⟩
  | append_singleton is new ih =>
    obtain ⟨s, hs⟩ := ih
    obtain ⟨n, -, ha⟩ := C04_add_total s new _ (List.Perm.refl _)
    exact ⟨_, .snoc hs ha⟩

/-- non-vacuity: adding [0,1], [3,4], [1,3] merges everything into one interval. -/
example : Built [⟨0, 1, by norm_num⟩, ⟨3, 4, by norm_num⟩, (⟨1, 3, by norm_num⟩ : Interval ℤ)]
    [⟨0, 4, by norm_num⟩] := by
  have h1 : Built [(⟨0, 1, by norm_num⟩ : Interval ℤ)] [⟨0, 1, by norm_num⟩] :=
    .snoc (is := []) .nil (.mk [] (.refl _) _ rfl _ (.refl _))
  have h2 : Built [(⟨0, 1, by norm_num⟩ : Interval ℤ), ⟨3, 4, by norm_num⟩]
      [⟨3, 4, by norm_num⟩, ⟨0, 1, by norm_num⟩] :=
    .snoc (is := [_]) h1 (.mk [] (.refl _) _ rfl _ (.refl _))
  exact .snoc (is := [_, _]) h2
    (.mk [⟨0, 1, by norm_num⟩, ⟨3, 4, by norm_num⟩] (.swap _ _ _) _ rfl _ (.refl _))

/-! ## C05 -/

/-- C05: the resulting set does not depend on insertion order (nor on the iteration orders of the
Python sets used along the way). -/
theorem C05_order_independent {is is' : List (Interval α)} {s s' : IvSet α}
    (h : Built is s) (h' : Built is' s') (hp : is.Perm is') :
    s.Perm s' ∧ s.length = s'.length ∧ s.endpoints = s'.endpoints := by
  have hperm : s.Perm s' := (h.inv.perm_left hp).unique h'.inv
  refine ⟨hperm, hperm.length_eq, ?_⟩
  unfold endpoints
  have hr : s.rawEndpoints.Perm s'.rawEndpoints := List.Perm.flatMap_right _ hperm
  have hs1 := List.pairwise_mergeSort (le := fun a b : α => decide (a ≤ b))
    (by intro a b c; simp; exact le_trans) (by intro a b; simp; exact le_total a b) s.rawEndpoints
  have hs2 := List.pairwise_mergeSort (le := fun a b : α => decide (a ≤ b))
    (by intro a b c; simp; exact le_trans) (by intro a b; simp; exact le_total a b) s'.rawEndpoints
  refine List.Perm.eq_of_pairwise (le := fun a b : α => a ≤ b) ?_ ?_ ?_ ?_
  · intro a b _ _ h1 h2; exact le_antisymm h1 h2
  · simpa using hs1
  · simpa using hs2
  · exact (List.mergeSort_perm _ _).trans (hr.trans (List.mergeSort_perm _ _).symm)

/-- C05: the endpoint list is sorted and contains exactly the end points of the stored intervals. -/
theorem C05_endpoints (s : IvSet α) :
    s.endpoints.Pairwise (· ≤ ·) ∧
    ∀ x, x ∈ s.endpoints ↔ ∃ i ∈ s, x = i.left ∨ x = i.right := by
  constructor
  · have := List.pairwise_mergeSort (le := fun a b : α => decide (a ≤ b))
      (by intro a b c; simp; exact le_trans) (by intro a b; simp; exact le_total a b) s.rawEndpoints
    simpa [endpoints] using this
  · intro x
    simp only [endpoints, List.mem_mergeSort, rawEndpoints, List.mem_flatMap]
    constructor
    · rintro ⟨i, hi, hx⟩
      refine ⟨i, hi, ?_⟩
      split at hx <;> simp at hx <;> tauto
    · rintro ⟨i, hi, hx⟩
      refine ⟨i, hi, ?_⟩
      split
      · next h => simp; rcases hx with hx | hx <;> simp [hx, h]
      · simp; tauto

/-! ## C06 -/

/-- C06: `min()` is the least represented point. -/
theorem C06_min {is : List (Interval α)} {s : IvSet α} (h : Built is s) (hne : is ≠ []) :
    ∃ a, s.qmin = .val a ∧ IsLeast (points is) a := by
  have hi := h.inv
  have hs : s ≠ [] := by
    rintro rfl
    obtain ⟨i, is', rfl⟩ := List.exists_cons_of_ne_nil hne
    obtain ⟨j, hj, _⟩ := hi.covers i (by simp)
    simp at hj
  have hpts : ∀ x, x ∈ points is ↔ ∃ i ∈ s, i.left ≤ x ∧ x ≤ i.right := fun x => by
    rw [← (C04_membership_disjoint h).1, contains_iff]
  have hm : ∃ a, (s.map (·.left)).min? = some a := by
    rw [← Option.isSome_iff_exists, List.isSome_min?_iff]; simpa using hs
  obtain ⟨a, ha⟩ := hm
  refine ⟨a, by simp [qmin, hs, ha, Res.ofOption], ?_⟩
  rw [List.min?_eq_some_iff] at ha
  obtain ⟨ha1, ha2⟩ := ha
  rw [List.mem_map] at ha1
  obtain ⟨i, his, rfl⟩ := ha1
  refine ⟨(hpts _).2 ⟨i, his, le_rfl, i.le⟩, ?_⟩
  intro x hx
  obtain ⟨j, hj, hj1, hj2⟩ := (hpts x).1 hx
  exact le_trans (ha2 _ (List.mem_map_of_mem hj)) hj1

/-- C06: `max()` is the greatest represented point. -/
theorem C06_max {is : List (Interval α)} {s : IvSet α} (h : Built is s) (hne : is ≠ []) :
    ∃ a, s.qmax = .val a ∧ IsGreatest (points is) a := by
  have hi := h.inv
  have hs : s ≠ [] := by
    rintro rfl
    obtain ⟨i, is', rfl⟩ := List.exists_cons_of_ne_nil hne
    obtain ⟨j, hj, _⟩ := hi.covers i (by simp)
    simp at hj
  have hpts : ∀ x, x ∈ points is ↔ ∃ i ∈ s, i.left ≤ x ∧ x ≤ i.right := fun x => by
    rw [← (C04_membership_disjoint h).1, contains_iff]
  have hm : ∃ a, (s.map (·.right)).max? = some a := by
    rw [← Option.isSome_iff_exists, List.isSome_max?_iff]; simpa using hs
  obtain ⟨a, ha⟩ := hm
  refine ⟨a, by simp [qmax, hs, ha, Res.ofOption], ?_⟩
  rw [List.max?_eq_some_iff] at ha
  obtain ⟨ha1, ha2⟩ := ha
  rw [List.mem_map] at ha1
  obtain ⟨i, his, rfl⟩ := ha1
  refine ⟨(hpts _).2 ⟨i, his, i.le, le_rfl⟩, ?_⟩
  intro x hx
  obtain ⟨j, hj, hj1, hj2⟩ := (hpts x).1 hx
  exact le_trans hj2 (ha2 _ (List.mem_map_of_mem hj))

/-- C06: `min_pos()` is `None` iff 0 is represented or no positive point is; otherwise it is the
least positive represented point. -/
theorem C06_min_pos [Zero α] {is : List (Interval α)} {s : IvSet α} (h : Built is s)
    (hne : is ≠ []) :
    (s.minPos = .pyNone ∧ (0 ∈ points is ∨ ∀ x ∈ points is, ¬ 0 < x)) ∨
    (∃ a, s.minPos = .val a ∧ 0 ∉ points is ∧ IsLeast {x | x ∈ points is ∧ 0 < x} a) := by
  have hi := h.inv
  have hs : s ≠ [] := by
    rintro rfl
    obtain ⟨i, is', rfl⟩ := List.exists_cons_of_ne_nil hne
    obtain ⟨j, hj, _⟩ := hi.covers i (by simp)
    simp at hj
  have hpts : ∀ x, x ∈ points is ↔ ∃ i ∈ s, i.left ≤ x ∧ x ≤ i.right := fun x => by
    rw [← (C04_membership_disjoint h).1, contains_iff]
  by_cases h0 : s.contains 0 = true
  · left
    refine ⟨by simp [minPos, hs, h0], Or.inl ?_⟩
    rwa [← (C04_membership_disjoint h).1]
  have h0' : (0 : α) ∉ points is := by rwa [← (C04_membership_disjoint h).1]
  by_cases hp : (s.filter fun i => i.left > 0) = []
  · left
    refine ⟨by simp only [minPos, h0, hp]; simp [hs], Or.inr ?_⟩
    intro x hx hx0
    obtain ⟨j, hj, hj1, hj2⟩ := (hpts x).1 hx
    have : ¬ (0 < j.left) := by
      intro hlt
      have : j ∈ (s.filter fun i => i.left > 0) := by simp [hj, hlt]
      rw [hp] at this
      simp at this
    exact h0' ((hpts 0).2 ⟨j, hj, not_lt.mp this, le_trans hx0.le hj2⟩)
  · right
    have hm : ∃ a, ((s.filter fun i => i.left > 0).map (·.left)).min? = some a := by
      rw [← Option.isSome_iff_exists, List.isSome_min?_iff]; simpa using hp
    obtain ⟨a, ha⟩ := hm
    refine ⟨a, ?_, h0', ?_⟩
    · have : ¬ ((s.filter fun i => decide (i.left > 0)).length = 0) := by simpa using hp
      simp only [minPos, List.length_eq_zero_iff, hs, h0]
      simp only [if_false, Bool.false_eq_true, hp, ha, Res.ofOption]
    rw [List.min?_eq_some_iff] at ha
    obtain ⟨ha1, ha2⟩ := ha
    rw [List.mem_map] at ha1
    obtain ⟨i, his, rfl⟩ := ha1
    simp at his
    refine ⟨⟨(hpts _).2 ⟨i, his.1, le_rfl, i.le⟩, his.2⟩, ?_⟩
    rintro x ⟨hx, hx0⟩
    obtain ⟨j, hj, hj1, hj2⟩ := (hpts x).1 hx
    have hjp : 0 < j.left := by
      by_contra hc
      exact h0' ((hpts 0).2 ⟨j, hj, not_lt.mp hc, le_trans hx0.le hj2⟩)
    exact le_trans (ha2 _ (List.mem_map_of_mem (by simp [hj, hjp]))) hj1

/-- C06: `max_neg()` is `None` iff 0 is represented or no negative point is; otherwise it is the
greatest negative represented point. -/
theorem C06_max_neg [Zero α] {is : List (Interval α)} {s : IvSet α} (h : Built is s)
    (hne : is ≠ []) :
    (s.maxNeg = .pyNone ∧ (0 ∈ points is ∨ ∀ x ∈ points is, ¬ x < 0)) ∨
    (∃ a, s.maxNeg = .val a ∧ 0 ∉ points is ∧ IsGreatest {x | x ∈ points is ∧ x < 0} a) := by
  have hi := h.inv
  have hs : s ≠ [] := by
    rintro rfl
    obtain ⟨i, is', rfl⟩ := List.exists_cons_of_ne_nil hne
    obtain ⟨j, hj, _⟩ := hi.covers i (by simp)
    simp at hj
  have hpts : ∀ x, x ∈ points is ↔ ∃ i ∈ s, i.left ≤ x ∧ x ≤ i.right := fun x => by
    rw [← (C04_membership_disjoint h).1, contains_iff]
  by_cases h0 : s.contains 0 = true
  · left
    refine ⟨by simp [maxNeg, hs, h0], Or.inl ?_⟩
    rwa [← (C04_membership_disjoint h).1]
  have h0' : (0 : α) ∉ points is := by rwa [← (C04_membership_disjoint h).1]
  by_cases hp : (s.filter fun i => i.right < 0) = []
  · left
    refine ⟨by simp only [maxNeg, h0, hp]; simp [hs], Or.inr ?_⟩
    intro x hx hx0
    obtain ⟨j, hj, hj1, hj2⟩ := (hpts x).1 hx
    have : ¬ (j.right < 0) := by
      intro hlt
      have : j ∈ (s.filter fun i => i.right < 0) := by simp [hj, hlt]
      rw [hp] at this
      simp at this
    exact h0' ((hpts 0).2 ⟨j, hj, le_trans hj1 hx0.le, not_lt.mp this⟩)
  · right
    have hm : ∃ a, ((s.filter fun i => i.right < 0).map (·.right)).max? = some a := by
      rw [← Option.isSome_iff_exists, List.isSome_max?_iff]; simpa using hp
    obtain ⟨a, ha⟩ := hm
    refine ⟨a, ?_, h0', ?_⟩
    · simp only [maxNeg, List.length_eq_zero_iff, hs, h0]
      simp only [if_false, Bool.false_eq_true, hp, ha, Res.ofOption]
    rw [List.max?_eq_some_iff] at ha
    obtain ⟨ha1, ha2⟩ := ha
    rw [List.mem_map] at ha1
    obtain ⟨i, his, rfl⟩ := ha1
    simp at his
    refine ⟨⟨(hpts _).2 ⟨i, his.1, i.le, le_rfl⟩, his.2⟩, ?_⟩
    rintro x ⟨hx, hx0⟩
    obtain ⟨j, hj, hj1, hj2⟩ := (hpts x).1 hx
    have hjp : j.right < 0 := by
      by_contra hc
      exact h0' ((hpts 0).2 ⟨j, hj, le_trans hj1 hx0.le, not_lt.mp hc⟩)
    exact le_trans hj2 (ha2 _ (List.mem_map_of_mem (by simp [hj, hjp])))

section Abs
variable {α : Type*} [AddCommGroup α] [LinearOrder α] [IsOrderedAddMonoid α]

/-- C06: `max_abs()` is the greatest absolute value of a represented point. -/
theorem C06_max_abs {is : List (Interval α)} {s : IvSet α} (h : Built is s) (hne : is ≠ []) :
    ∃ a, s.maxAbs = .val a ∧ IsGreatest {y | ∃ x ∈ points is, y = |x|} a := by
  obtain ⟨lo, hlo, hlo1, hlo2⟩ := C06_min h hne
  obtain ⟨hi, hhi, hhi1, hhi2⟩ := C06_max h hne
  have hs : s.length ≠ 0 := by
    intro h0; simp [qmin, h0] at hlo
  refine ⟨max |hi| |lo|, by simp [maxAbs, hs, hlo, hhi, absVals, Res.ofOption, List.max?], ?_, ?_⟩
  · rcases max_cases |hi| |lo| with ⟨e, -⟩ | ⟨e, -⟩
    · exact ⟨hi, hhi1, e⟩
    · exact ⟨lo, hlo1, e⟩
  · rintro y ⟨x, hx, rfl⟩
    have := hlo2 hx
    have := hhi2 hx
    rw [max_comm]
    exact abs_le_max_abs_abs (hlo2 hx) (hhi2 hx)

/-- C06: `min_abs()` is the least absolute value of a represented point. -/
theorem C06_min_abs {is : List (Interval α)} {s : IvSet α} (h : Built is s) (hne : is ≠ []) :
    ∃ a, s.minAbs = .val a ∧ IsLeast {y | ∃ x ∈ points is, y = |x|} a := by
  obtain ⟨lo, hlo, hlo1, hlo2⟩ := C06_min h hne
  have hs : s.length ≠ 0 := by
    intro h0; simp [qmin, h0] at hlo
  by_cases h0 : s.contains 0 = true
  · refine ⟨0, by simp only [minAbs, hs, h0, if_true, if_false], ⟨0, ?_, by simp⟩, ?_⟩
    · rwa [← (C04_membership_disjoint h).1]
    · rintro y ⟨x, -, rfl⟩; exact abs_nonneg x
  have h0' : (0 : α) ∉ points is := by rwa [← (C04_membership_disjoint h).1]
  have hval : s.minAbs = .ofOption (absVals [s.maxNeg, s.minPos]).min? := by
    simp only [minAbs, hs, h0]; simp
  rw [hval]
  have hne0 : ∀ x ∈ points is, x < 0 ∨ 0 < x := fun x hx => by
    rcases lt_trichotomy x 0 with h | h | h
    · exact .inl h
    · subst h; exact absurd hx h0'
    · exact .inr h
  rcases C06_max_neg h hne with ⟨hn, hn'⟩ | ⟨a, hn, -, ⟨han, hal⟩, hag⟩ <;>
  rcases C06_min_pos h hne with ⟨hp, hp'⟩ | ⟨b, hp, -, ⟨hbn, hbl⟩, hbg⟩
  · exfalso
    rcases hne0 _ hlo1 with hl | hl
    · exact (hn'.resolve_left h0') _ hlo1 hl
    · exact (hp'.resolve_left h0') _ hlo1 hl
  · refine ⟨|b|, by simp [hn, hp, absVals, Res.ofOption, List.min?], ⟨b, hbn, rfl⟩, ?_⟩
    rintro y ⟨x, hx, rfl⟩
    have hx0 : 0 < x := (hne0 x hx).resolve_left ((hn'.resolve_left h0') _ hx)
    rw [abs_of_pos hx0, abs_of_pos hbl]
    exact hbg ⟨hx, hx0⟩
  · refine ⟨|a|, by simp [hn, hp, absVals, Res.ofOption, List.min?], ⟨a, han, rfl⟩, ?_⟩
    rintro y ⟨x, hx, rfl⟩
    have hx0 : x < 0 := (hne0 x hx).resolve_right ((hp'.resolve_left h0') _ hx)
    rw [abs_of_neg hx0, abs_of_neg hal]
    exact neg_le_neg (hag ⟨hx, hx0⟩)
  · refine ⟨min |a| |b|, by simp [hn, hp, absVals, Res.ofOption, List.min?], ?_, ?_⟩
    · rcases min_cases |a| |b| with ⟨e, -⟩ | ⟨e, -⟩
      · exact ⟨a, han, e⟩
      · exact ⟨b, hbn, e⟩
    · rintro y ⟨x, hx, rfl⟩
      rcases hne0 x hx with hx0 | hx0
      · rw [abs_of_neg hx0, abs_of_neg hal]
        exact le_trans (min_le_left _ _) (neg_le_neg (hag ⟨hx, hx0⟩))
      · rw [abs_of_pos hx0, abs_of_pos hbl]
        exact le_trans (min_le_right _ _) (hbg ⟨hx, hx0⟩)

/-- non-vacuity of C06: a reachable set with a negative and a positive part. -/
example : Built [⟨-3, -2, by norm_num⟩, (⟨1, 5, by norm_num⟩ : Interval ℤ)]
      [⟨1, 5, by norm_num⟩, ⟨-3, -2, by norm_num⟩] ∧
    IvSet.minPos [⟨1, 5, by norm_num⟩, (⟨-3, -2, by norm_num⟩ : Interval ℤ)] = .val 1 ∧
    IvSet.maxNeg [⟨1, 5, by norm_num⟩, (⟨-3, -2, by norm_num⟩ : Interval ℤ)] = .val (-2) ∧
    IvSet.minAbs [⟨1, 5, by norm_num⟩, (⟨-3, -2, by norm_num⟩ : Interval ℤ)] = .val 1 ∧
    IvSet.maxAbs [⟨1, 5, by norm_num⟩, (⟨-3, -2, by norm_num⟩ : Interval ℤ)] = .val 5 := by
  refine ⟨?_, rfl, rfl, rfl, rfl⟩
  have h1 : Built [(⟨-3, -2, by norm_num⟩ : Interval ℤ)] [⟨-3, -2, by norm_num⟩] :=
    .snoc (is := []) .nil (.mk [] (.refl _) _ rfl _ (.refl _))
  exact .snoc (is := [_]) h1 (.mk [] (.refl _) _ rfl _ (.refl _))

end Abs

/-- Finding (C06): on the empty set the queries *return* an exception object instead of raising. -/
theorem C06_empty_returns_error_object :
    (IvSet.qmin ([] : IvSet ℤ)) = .errObj ∧ (IvSet.qmax ([] : IvSet ℤ)) = .errObj ∧
    (IvSet.minAbs ([] : IvSet ℤ)) = .errObj ∧ (IvSet.maxAbs ([] : IvSet ℤ)) = .errObj := by
  simp [qmin, qmax, minAbs, maxAbs]

end Krypy
