import Verif.Model.Gap
import Mathlib.Order.Bounds.Basic
import Mathlib.Order.Interval.Set.Basic
import Mathlib.Tactic.Linarith
import Mathlib.Tactic.NormNum

/-! # Property C08: `gap` -/

namespace Krypy

/-- C08 (individual): the minimum distance over all pairs. -/
theorem C08_individual (lam sig : List ℝ) (hl : lam ≠ []) (hs : sig ≠ []) :
    ∃ d, gap lam sig .individual = .val d ∧
      IsLeast {e | ∃ l ∈ lam, ∃ s ∈ sig, e = |l - s|} d := by
  have hne : gapDiffs lam sig ≠ [] := by
    obtain ⟨a, l, rfl⟩ := List.exists_cons_of_ne_nil hl
    obtain ⟨b, m, rfl⟩ := List.exists_cons_of_ne_nil hs
    simp [gapDiffs]
  have : ∃ d, (gapDiffs lam sig).min? = some d := by
    rw [← Option.isSome_iff_exists, List.isSome_min?_iff]; exact hne
  obtain ⟨d, hd⟩ := this
  refine ⟨d, by simp [gap, hd], ?_⟩
  rw [List.min?_eq_some_iff] at hd
  have hm : ∀ e, e ∈ gapDiffs lam sig ↔ ∃ l ∈ lam, ∃ s ∈ sig, e = |l - s| := by
    intro e
    simp only [gapDiffs, List.mem_map, Prod.exists]
    constructor
    · rintro ⟨l, s, h, rfl⟩
      have h := List.pair_mem_product.mp h
      exact ⟨l, h.1, s, h.2, rfl⟩
    · rintro ⟨l, h1, s, h2, rfl⟩
      exact ⟨l, s, List.pair_mem_product.mpr ⟨h1, h2⟩, rfl⟩
  refine ⟨(hm d).1 hd.1, ?_⟩
  intro e he
  exact hd.2 e ((hm e).2 he)

/-- Spec: no `sigma` lies in the `δ`-enlarged open hull of `lamda`. -/
def GapAdmissible (lam sig : List ℝ) (δ : ℝ) : Prop :=
  ∀ s ∈ sig, ∀ lmin lmax, IsLeast {l | l ∈ lam} lmin → IsGreatest {l | l ∈ lam} lmax →
    s ∉ Set.Ioo (lmin - δ) (lmax + δ)

private theorem min_spec {l : List ℝ} (h : l ≠ []) : ∃ a, l.min? = some a ∧ IsLeast {x | x ∈ l} a := by
  have : ∃ a, l.min? = some a := by
    rw [← Option.isSome_iff_exists, List.isSome_min?_iff]; exact h
  obtain ⟨a, ha⟩ := this
  refine ⟨a, ha, ?_⟩
  rw [List.min?_eq_some_iff] at ha
  exact ⟨ha.1, fun x hx => ha.2 x hx⟩

private theorem max_spec {l : List ℝ} (h : l ≠ []) :
    ∃ a, l.max? = some a ∧ IsGreatest {x | x ∈ l} a := by
  have : ∃ a, l.max? = some a := by
    rw [← Option.isSome_iff_exists, List.isSome_max?_iff]; exact h
  obtain ⟨a, ha⟩ := this
  refine ⟨a, ha, ?_⟩
  rw [List.max?_eq_some_iff] at ha
  exact ⟨ha.1, fun x hx => ha.2 x hx⟩

/-- C08 (interval): for non-empty lists the result is either `None`, exactly when some `sigma` lies
strictly between the extremes of `lamda`, or the greatest non-negative admissible enlargement. -/
theorem C08_interval (lam sig : List ℝ) (hl : lam ≠ []) (hs : sig ≠ []) :
    (gap lam sig .interval = .pyNone ∧
      ∃ s ∈ sig, ∃ l ∈ lam, ∃ l' ∈ lam, l < s ∧ s < l') ∨
    (∃ d, gap lam sig .interval = .val d ∧ (¬ ∃ s ∈ sig, ∃ l ∈ lam, ∃ l' ∈ lam, l < s ∧ s < l') ∧
      0 ≤ d ∧ IsGreatest {δ | GapAdmissible lam sig δ} d) := by
  obtain ⟨lmin, hmin, hmin1, hmin2⟩ := min_spec hl
  obtain ⟨lmax, hmax, hmax1, hmax2⟩ := max_spec hl
  have hmm : lmin ≤ lmax := hmin2 hmax1
  have hadm : ∀ δ, GapAdmissible lam sig δ ↔ ∀ s ∈ sig, s ≤ lmin - δ ∨ lmax + δ ≤ s := by
    intro δ
    constructor
    · intro h s hs
      have := h s hs lmin lmax ⟨hmin1, hmin2⟩ ⟨hmax1, hmax2⟩
      by_contra hc
      rw [not_or, not_le, not_le] at hc
      exact this hc
    · rintro h s hs a b ha hb ⟨h1, h2⟩
      have e1 : a = lmin := ha.unique ⟨hmin1, hmin2⟩
      have e2 : b = lmax := hb.unique ⟨hmax1, hmax2⟩
      subst e1; subst e2
      rcases h s hs with h | h <;> linarith
  by_cases hall : sig.all (fun s => decide (s ≤ lmin) || decide (s ≥ lmax)) = true
  · right
    have hall' : ∀ s ∈ sig, s ≤ lmin ∨ lmax ≤ s := by
      intro s hs
      rw [List.all_eq_true] at hall
      simpa using hall s hs
    have hno : ¬ ∃ s ∈ sig, ∃ l ∈ lam, ∃ l' ∈ lam, l < s ∧ s < l' := by
      rintro ⟨s, hs, l, hl, l', hl', h1, h2⟩
      have := hmin2 hl
      have := hmax2 hl'
      rcases hall' s hs with h | h <;> linarith
    by_cases hlo : (sig.filter fun s => s ≤ lmin) = []
    · by_cases hhi : (sig.filter fun s => s ≥ lmax) = []
      · exfalso
        obtain ⟨a, l, rfl⟩ := List.exists_cons_of_ne_nil hs
        rcases hall' a (by simp) with h | h
        · have : a ∈ ((a :: l).filter fun s => s ≤ lmin) := by simp [h]
          rw [hlo] at this; simp at this
        · have : a ∈ ((a :: l).filter fun s => s ≥ lmax) := by simp [h]
          rw [hhi] at this; simp at this
      · obtain ⟨b, hb, hb1, hb2⟩ := min_spec hhi
        simp only [Set.mem_ofPred_eq, List.mem_filter, decide_eq_true_eq] at hb1
        have hsm : ∀ s ∈ sig, b ≤ s := by
          intro s hs
          rcases hall' s hs with h | h
          · have : s ∈ (sig.filter fun s => s ≤ lmin) := by simp [hs, h]
            rw [hlo] at this; simp at this
          · exact hb2 (show s ∈ (sig.filter fun s => s ≥ lmax) by simp [hs, h])
        refine ⟨b - lmax, ?_, hno, by linarith [hb1.2], ?_, ?_⟩
        · simp [gap, hmin, hmax, hall, hlo, hb]
        · rw [Set.mem_ofPred_eq, hadm]
          intro s hs; right; linarith [hsm s hs]
        · intro δ hδ
          rw [Set.mem_ofPred_eq, hadm] at hδ
          rcases hδ b hb1.1 with h | h
          · have : b ∉ (sig.filter fun s => s ≤ lmin) := by rw [hlo]; simp
            simp [hb1.1] at this
            linarith [hb1.2]
          · linarith
    · obtain ⟨a, ha, ha1, ha2⟩ := max_spec hlo
      simp only [Set.mem_ofPred_eq, List.mem_filter, decide_eq_true_eq] at ha1
      by_cases hhi : (sig.filter fun s => s ≥ lmax) = []
      · have hsm : ∀ s ∈ sig, s ≤ a := by
          intro s hs
          rcases hall' s hs with h | h
          · exact ha2 (show s ∈ (sig.filter fun s => s ≤ lmin) by simp [hs, h])
          · have : s ∈ (sig.filter fun s => s ≥ lmax) := by simp [hs, h]
            rw [hhi] at this; simp at this
        refine ⟨lmin - a, ?_, hno, by linarith [ha1.2], ?_, ?_⟩
        · simp [gap, hmin, hmax, hall, hhi, ha]
        · rw [Set.mem_ofPred_eq, hadm]
          intro s hs; left; linarith [hsm s hs]
        · intro δ hδ
          rw [Set.mem_ofPred_eq, hadm] at hδ
          rcases hδ a ha1.1 with h | h
          · linarith
          · have : a ∉ (sig.filter fun s => s ≥ lmax) := by rw [hhi]; simp
            simp [ha1.1] at this
            linarith [ha1.2]
      · obtain ⟨b, hb, hb1, hb2⟩ := min_spec hhi
        simp only [Set.mem_ofPred_eq, List.mem_filter, decide_eq_true_eq] at hb1
        refine ⟨min (lmin - a) (b - lmax), ?_, hno, ?_, ?_, ?_⟩
        · simp [gap, hmin, hmax, hall, hb, ha]
        · apply le_min <;> linarith [ha1.2, hb1.2]
        · rw [Set.mem_ofPred_eq, hadm]
          intro s hs
          rcases hall' s hs with h | h
          · left
            have := ha2 (show s ∈ (sig.filter fun s => s ≤ lmin) by simp [hs, h])
            linarith [min_le_left (lmin - a) (b - lmax)]
          · right
            have := hb2 (show s ∈ (sig.filter fun s => s ≥ lmax) by simp [hs, h])
            linarith [min_le_right (lmin - a) (b - lmax)]
        · intro δ hδ
          rw [Set.mem_ofPred_eq, hadm] at hδ
          apply le_min
          · rcases hδ a ha1.1 with h | h
            · linarith
            · linarith [ha1.2]
          · rcases hδ b hb1.1 with h | h
            · linarith [hb1.2]
            · linarith
  · left
    refine ⟨by simp [gap, hmin, hmax, hall], ?_⟩
    rw [Bool.not_eq_true, List.all_eq_false] at hall
    obtain ⟨s, hs, h⟩ := hall
    simp at h
    exact ⟨s, hs, lmin, hmin1, lmax, hmax1, h.1, h.2⟩

/-- Finding (C08): an unknown `mode` silently returns `None`; complex input raises. -/
theorem C08_other_mode (lam sig : List ℝ) :
    gap lam sig .other = .pyNone ∧ ∀ m, gap lam sig m false = .argumentError := by
  constructor
  · simp [gap]
  · intro m; simp [gap]

/-- non-vacuity: `gap([1,2],[0,5],'interval') = 1` and `gap([1,3],[2],'interval') = None`. -/
example : gap [1, 2] [0, 5] .interval = .val 1 ∧ gap [1, 3] [2] .interval = .pyNone ∧
    gap [1, 3] [2] .individual = .val 1 := by
  refine ⟨?_, ?_, ?_⟩
  · norm_num [gap, List.min?, List.max?]
  · norm_num [gap, List.min?, List.max?]
  · norm_num [gap, gapDiffs, List.min?, List.product, SProd.sprod]

end Krypy
