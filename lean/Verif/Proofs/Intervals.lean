import Verif.Model.Intervals
import Mathlib.Order.Interval.Set.Basic
import Mathlib.Order.Bounds.Basic
import Mathlib.Data.List.Nodup
import Mathlib.Tactic.Common
import Mathlib.Order.Interval.Set.Disjoint

/-! Helper lemmas for `Verif.Props.Intervals`. -/

namespace Krypy
variable {α : Type*} [LinearOrder α]

theorem Interval.ext' {i j : Interval α} (h1 : i.left = j.left) (h2 : i.right = j.right) :
    i = j := by
  cases i; cases j; simp_all

theorem Interval.inter_isSome {i j : Interval α} :
    (i.inter j).isSome = true ↔ i.left ≤ j.right ∧ j.left ≤ i.right := by
  unfold Interval.inter
  have := i.le
  have := j.le
  split
  · next h => simp only [Option.isSome_some, true_iff]; grind
  · next h => simp only [Option.isSome_none, Bool.false_eq_true, false_iff]; grind

/-- two stored intervals do not meet -/
def Interval.Apart (i j : Interval α) : Prop := i.right < j.left ∨ j.right < i.left

theorem Interval.not_inter {i j : Interval α} :
    ¬ (i.inter j).isSome = true ↔ i.Apart j := by
  rw [Interval.inter_isSome]; unfold Interval.Apart; grind

theorem Interval.Apart.symm {i j : Interval α} (h : i.Apart j) : j.Apart i := by
  unfold Interval.Apart at *; tauto

theorem apart_of_mem {s : List (Interval α)} (h : s.Pairwise Interval.Apart) {i j : Interval α}
    (hi : i ∈ s) (hj : j ∈ s) (hij : i ≠ j) : i.Apart j := by
  induction h with
  | nil => simp at hi
  | cons h1 _ ih =>
    rw [List.mem_cons] at hi hj
    rcases hi with rfl | hi <;> rcases hj with rfl | hj
    · exact absurd rfl hij
    · exact h1 _ hj
    · exact (h1 _ hi).symm
    · exact ih hi hj

/-- `i` crosses the cut given by the lower set `D`. -/
def Interval.Cross (i : Interval α) (D : Set α) : Prop := i.left ∈ D ∧ i.right ∉ D

namespace IvSet

/-- Specification of the merge loop: the hull of `new` and all of `l`, which all meet `new`. -/
theorem mergeAll_spec (new : Interval α) (l : List (Interval α))
    (h : ∀ i ∈ l, (i.inter new).isSome = true) :
    ∃ n, mergeAll new l = some n ∧ n.left ≤ new.left ∧ new.right ≤ n.right ∧
      (∀ i ∈ l, n.left ≤ i.left ∧ i.right ≤ n.right) ∧
      (n.left = new.left ∨ ∃ i ∈ l, n.left = i.left) ∧
      (n.right = new.right ∨ ∃ i ∈ l, n.right = i.right) := by
  induction l generalizing new with
  | nil => exact ⟨new, by simp [mergeAll]⟩
  | cons i l ih =>
    have hi := h i (by simp)
    rw [Interval.inter_isSome] at hi
    have hni : (new.inter i).isSome = true := by rw [Interval.inter_isSome]; tauto
    have hu : Interval.union new i = some ⟨min new.left i.left, max new.right i.right,
      le_trans (min_le_left _ _) (le_trans new.le (le_max_left _ _))⟩ := by
      simp [Interval.union, hni]
    obtain ⟨n, hn, h1, h2, h3, h4, h5⟩ := ih ⟨min new.left i.left, max new.right i.right,
      le_trans (min_le_left _ _) (le_trans new.le (le_max_left _ _))⟩ (by
        intro j hj
        have := h j (by simp [hj])
        rw [Interval.inter_isSome] at this ⊢
        simp only
        grind)
    refine ⟨n, by simp [mergeAll, hu, hn], ?_, ?_, ?_, ?_, ?_⟩
    · simp at h1; grind
    · simp at h2; grind
    · intro j hj
      simp at hj
      rcases hj with rfl | hj
      · simp at h1 h2; grind
      · exact h3 j hj
    · rcases h4 with h4 | ⟨j, hj, h4⟩
      · simp only at h4
        rcases min_cases new.left i.left with ⟨hm, -⟩ | ⟨hm, -⟩
        · left; rw [h4, hm]
        · right; exact ⟨i, by simp, by rw [h4, hm]⟩
      · right; exact ⟨j, by simp [hj], h4⟩
    · rcases h5 with h5 | ⟨j, hj, h5⟩
      · simp only at h5
        rcases max_cases new.right i.right with ⟨hm, -⟩ | ⟨hm, -⟩
        · left; rw [h5, hm]
        · right; exact ⟨i, by simp, by rw [h5, hm]⟩
      · right; exact ⟨j, by simp [hj], h5⟩

/-- Invariant of reachable interval sets. -/
structure Inv (is : List (Interval α)) (s : IvSet α) : Prop where
  apart : s.Pairwise Interval.Apart
  covers : ∀ i ∈ is, ∃ j ∈ s, j.left ≤ i.left ∧ i.right ≤ j.right
  sound : ∀ j ∈ s, ∀ x, j.left ≤ x → x ≤ j.right → ∃ i ∈ is, i.left ≤ x ∧ x ≤ i.right
  cut : ∀ D : Set α, IsLowerSet D → (∀ i ∈ is, ¬ i.Cross D) → ∀ j ∈ s, ¬ j.Cross D

theorem inv_nil : Inv ([] : List (Interval α)) [] :=
  ⟨by simp, by simp, by simp, by simp⟩

theorem Inv.perm {is : List (Interval α)} {s s' : IvSet α} (h : Inv is s) (hp : s'.Perm s) :
    Inv is s' := by
  refine ⟨?_, ?_, ?_, ?_⟩
  · exact (hp.pairwise_iff (fun h => Interval.Apart.symm h)).mpr h.apart
  · intro i hi
    obtain ⟨j, hj, h'⟩ := h.covers i hi
    exact ⟨j, hp.mem_iff.mpr hj, h'⟩
  · intro j hj; exact h.sound j (hp.mem_iff.mp hj)
  · intro D hD hc j hj; exact h.cut D hD hc j (hp.mem_iff.mp hj)

theorem Inv.addStep {is : List (Interval α)} {s s' : IvSet α} {new : Interval α}
    (h : Inv is s) (ha : AddStep s new s') : Inv (is ++ [new]) s' := by
  obtain ⟨l, hl, n, hn, s', hs⟩ := ha
  have hmem : ∀ i, i ∈ l ↔ i ∈ s ∧ (i.inter new).isSome = true := by
    intro i; rw [hl.mem_iff]; simp
  obtain ⟨n', hn', h1, h2, h3, h4, h5⟩ := mergeAll_spec new l (fun i hi => ((hmem i).1 hi).2)
  rw [hn] at hn'; obtain rfl := Option.some.inj hn'
  refine Inv.perm ?_ hs
  -- every interval that stays is apart from the merged one
  have hap : ∀ j ∈ s, j.Apart new → n.Apart j := by
    intro j hj hja
    have hjl : ∀ i ∈ l, i.Apart j := by
      intro i hi
      have hi' := (hmem i).1 hi
      have hij : i ≠ j := by
        rintro rfl
        exact Interval.not_inter.mpr hja hi'.2
      exact apart_of_mem h.apart hi'.1 hj hij
    unfold Interval.Apart at hja ⊢
    have hnew := new.le
    have hjle := j.le
    -- position of j relative to new
    rcases hja with hja | hja
    · -- j left of new
      right
      rcases h4 with h4 | ⟨i, hi, h4⟩
      · rw [h4]; exact hja
      · rw [h4]
        have hi' := (hmem i).1 hi
        have := Interval.inter_isSome.mp hi'.2
        rcases hjl i hi with hx | hx
        · grind
        · exact hx
    · left
      rcases h5 with h5 | ⟨i, hi, h5⟩
      · rw [h5]; exact hja
      · rw [h5]
        have hi' := (hmem i).1 hi
        have := Interval.inter_isSome.mp hi'.2
        rcases hjl i hi with hx | hx
        · exact hx
        · grind
  have hfil : ∀ j, j ∈ s.filter (fun i => ¬ (Interval.inter i new).isSome) ↔
      j ∈ s ∧ j.Apart new := by
    intro j
    rw [List.mem_filter, decide_eq_true_eq, Interval.not_inter]
  refine ⟨?_, ?_, ?_, ?_⟩
  · rw [List.pairwise_cons]
    refine ⟨fun j hj => ?_, h.apart.filter _⟩
    have := (hfil j).1 hj
    exact hap j this.1 this.2
  · intro i hi
    simp only [List.mem_append, List.mem_singleton] at hi
    rcases hi with hi | rfl
    · obtain ⟨j, hj, hj'⟩ := h.covers i hi
      by_cases hm : (j.inter new).isSome = true
      · have := h3 j ((hmem j).2 ⟨hj, hm⟩)
        exact ⟨n, by simp, by grind⟩
      · exact ⟨j, List.mem_cons_of_mem _ ((hfil j).2 ⟨hj, Interval.not_inter.mp hm⟩), hj'⟩
    · exact ⟨n, by simp, h1, h2⟩
  · intro j hj x hx1 hx2
    rw [List.mem_cons] at hj
    rcases hj with rfl | hj
    · -- x in the merged interval
      by_cases hxn : new.left ≤ x ∧ x ≤ new.right
      · exact ⟨new, by simp, hxn⟩
      · have : ∃ i ∈ l, i.left ≤ x ∧ x ≤ i.right := by
          rcases not_and_or.mp hxn with hx | hx
          · rcases h4 with h4 | ⟨i, hi, h4⟩
            · grind
            · refine ⟨i, hi, by grind, ?_⟩
              have := Interval.inter_isSome.mp ((hmem i).1 hi).2
              grind
          · rcases h5 with h5 | ⟨i, hi, h5⟩
            · grind
            · refine ⟨i, hi, ?_, by grind⟩
              have := Interval.inter_isSome.mp ((hmem i).1 hi).2
              grind
        obtain ⟨i, hi, hx⟩ := this
        obtain ⟨k, hk, hk'⟩ := h.sound i ((hmem i).1 hi).1 x hx.1 hx.2
        exact ⟨k, by simp [hk], hk'⟩
    · obtain ⟨k, hk, hk'⟩ := h.sound j ((hfil j).1 hj).1 x hx1 hx2
      exact ⟨k, by simp [hk], hk'⟩
  · intro D hD hc j hj
    have hc1 : ∀ i ∈ is, ¬ i.Cross D := fun i hi => hc i (by simp [hi])
    have hc2 : ¬ new.Cross D := hc new (by simp)
    rw [List.mem_cons] at hj
    rcases hj with rfl | hj
    · have hcl : ∀ i ∈ l, ¬ i.Cross D := fun i hi => h.cut D hD hc1 i ((hmem i).1 hi).1
      unfold Interval.Cross at *
      rintro ⟨ha, hb⟩
      have hnl : new.left ∈ D := by
        rcases h4 with h4 | ⟨i, hi, h4⟩
        · rwa [h4] at ha
        · have h6 := hcl i hi
          rw [h4] at ha
          have h7 : i.right ∈ D := by by_contra h8; exact h6 ⟨ha, h8⟩
          exact hD (Interval.inter_isSome.mp ((hmem i).1 hi).2).2 h7
      have hnr : new.right ∈ D := by by_contra h8; exact hc2 ⟨hnl, h8⟩
      rcases h5 with h5 | ⟨i, hi, h5⟩
      · rw [h5] at hb; exact hb hnr
      · rw [h5] at hb
        have h7 : i.left ∈ D := hD (Interval.inter_isSome.mp ((hmem i).1 hi).2).1 hnr
        exact hcl i hi ⟨h7, hb⟩
    · exact h.cut D hD hc1 j ((hfil j).1 hj).1

theorem Built.inv {is : List (Interval α)} {s : IvSet α} (h : Built is s) : Inv is s := by
  induction h with
  | nil => exact inv_nil
  | snoc _ ha ih => exact ih.addStep ha

theorem contains_iff {s : IvSet α} {x : α} :
    s.contains x = true ↔ ∃ i ∈ s, i.left ≤ x ∧ x ≤ i.right := by
  simp [contains, Interval.contains]

theorem Inv.unique_aux {is : List (Interval α)} {s s' : IvSet α} (h : Inv is s) (h' : Inv is s')
    {i j : Interval α} (hi : i ∈ s) (hj : j ∈ s') (h1 : j.left ≤ i.left) (h2 : i.left ≤ j.right) :
    i.right ≤ j.right := by
  by_contra hlt
  rw [not_le] at hlt
  have hD : IsLowerSet {x | x ≤ j.right} := fun a b hab (ha : a ≤ _) => le_trans hab ha
  have hs' : ∀ k ∈ s', ¬ k.Cross {x | x ≤ j.right} := by
    rintro k hk ⟨hk1, hk2⟩
    simp only [Set.mem_ofPred_eq, not_le] at hk1 hk2
    by_cases hkj : k = j
    · subst hkj; exact lt_irrefl _ hk2
    · have := apart_of_mem h'.apart hk hj hkj
      unfold Interval.Apart at this
      have := j.le
      grind
  have his : ∀ k ∈ is, ¬ k.Cross {x | x ≤ j.right} := by
    rintro k hk ⟨hk1, hk2⟩
    obtain ⟨m, hm, hm1, hm2⟩ := h'.covers k hk
    simp only [Set.mem_ofPred_eq, not_le] at hk1 hk2
    exact hs' m hm ⟨le_trans hm1 hk1, not_le.mpr (lt_of_lt_of_le hk2 hm2)⟩
  exact h.cut _ hD his i hi ⟨h2, not_le.mpr hlt⟩

theorem Inv.subset {is : List (Interval α)} {s s' : IvSet α} (h : Inv is s) (h' : Inv is s')
    {i : Interval α} (hi : i ∈ s) : i ∈ s' := by
  obtain ⟨k, hk, hk1, hk2⟩ := h.sound i hi i.left le_rfl i.le
  obtain ⟨j, hj, hj1, hj2⟩ := h'.covers k hk
  have e1 : j.left ≤ i.left := le_trans hj1 hk1
  have e2 : i.left ≤ j.right := le_trans hk2 hj2
  have e3 := h.unique_aux h' hi hj e1 e2
  -- the other direction: j.left lies in some interval of s, which must be i
  obtain ⟨k', hk', hk'1, hk'2⟩ := h'.sound j hj j.left le_rfl j.le
  obtain ⟨i', hi', hi'1, hi'2⟩ := h.covers k' hk'
  have f1 : i'.left ≤ j.left := le_trans hi'1 hk'1
  have f2 : j.left ≤ i'.right := le_trans hk'2 hi'2
  have f3 := h'.unique_aux h hj hi' f1 f2
  have : i' = i := by
    by_contra hne
    have := apart_of_mem h.apart hi' hi hne
    unfold Interval.Apart at this
    have := i.le
    grind
  subst this
  have : i' = j := Interval.ext' (le_antisymm f1 e1) (le_antisymm e3 f3)
  rwa [this]

theorem Inv.nodup {is : List (Interval α)} {s : IvSet α} (h : Inv is s) : s.Nodup := by
  refine h.apart.imp ?_
  rintro a b hab rfl
  unfold Interval.Apart at hab
  have := a.le
  grind

theorem Inv.unique {is : List (Interval α)} {s s' : IvSet α} (h : Inv is s) (h' : Inv is s') :
    s.Perm s' :=
  (List.perm_ext_iff_of_nodup h.nodup h'.nodup).mpr fun _ =>
    ⟨fun hi => h.subset h' hi, fun hi => h'.subset h hi⟩

theorem Inv.perm_left {is is' : List (Interval α)} {s : IvSet α} (h : Inv is s)
    (hp : is.Perm is') : Inv is' s :=
  ⟨h.apart, fun i hi => h.covers i (hp.mem_iff.mpr hi),
    fun j hj x h1 h2 => by
      obtain ⟨k, hk, hk'⟩ := h.sound j hj x h1 h2
      exact ⟨k, hp.mem_iff.mp hk, hk'⟩,
    fun D hD hc => h.cut D hD fun i hi => hc i (hp.mem_iff.mp hi)⟩

end IvSet
end Krypy
