import Verif.Model.Factories
import Mathlib.Tactic.Common
import Mathlib.Tactic.NormNum
import Mathlib.Data.List.Perm.Subperm
import Mathlib.Data.Finset.Card

/-! # Properties C41-C43: selection of deflation vectors -/

namespace Krypy

/-! ## C41: `RitzFactory` -/

section C41

/-- Spec of a generator: every proposal is a non-empty set of remaining indices. -/
def GenOK (gen : Finset ℕ → List (Finset ℕ)) : Prop :=
  ∀ rem, ∀ s ∈ gen rem, s.Nonempty ∧ s ⊆ rem

theorem dictMin_mem {K F : Type*} [LT F] [DecidableLT F] (kv : K × F) (l : List (K × F)) :
    dictMin kv l ∈ kv :: l := by
  induction l generalizing kv with
  | nil => simp [dictMin]
  | cons a l ih =>
    have := ih (if a.2 < kv.2 then a else kv)
    simp only [dictMin]
    rw [List.mem_cons] at this ⊢
    rcases this with h | h
    · rw [h]; split <;> simp
    · right; exact List.mem_cons_of_mem _ h

theorem dictMin_le {K F : Type*} [LinearOrder F] (kv : K × F) (l : List (K × F)) :
    ∀ x ∈ kv :: l, (dictMin kv l).2 ≤ x.2 := by
  induction l generalizing kv with
  | nil => simp [dictMin]
  | cons a l ih =>
    intro x hx
    simp only [dictMin]
    have h := ih (if a.2 < kv.2 then a else kv)
    have h0 := h _ (List.mem_cons_self ..)
    rcases List.mem_cons.mp hx with rfl | hx
    · refine le_trans h0 ?_
      split <;> grind
    · rcases List.mem_cons.mp hx with rfl | hx
      · refine le_trans h0 ?_
        split <;> grind
      · exact h x (List.mem_cons_of_mem _ hx)

theorem argminBy_mem {K F : Type*} [LT F] [DecidableLT F] (f : K → F) (k : K) (l : List K) :
    argminBy f k l ∈ k :: l := by
  induction l generalizing k with
  | nil => simp [argminBy]
  | cons a l ih =>
    have := ih (if f a < f k then a else k)
    simp only [argminBy]
    rw [List.mem_cons] at this ⊢
    rcases this with h | h
    · rw [h]; split <;> simp
    · right; exact List.mem_cons_of_mem _ h

variable {F : Type*} [LT F] [DecidableLT F]

omit [LT F] [DecidableLT F] in
theorem evaluateAll_spec {eval : Finset ℕ → Except Err F} {cur : Finset ℕ}
    {l : List (Finset ℕ)} {d d' : List (Finset ℕ × F)}
    (h : evaluateAll eval cur l d = .ok d') :
    (∀ kv, kv ∈ d' ↔ kv ∈ d ∨ ∃ s ∈ l, kv.1 = cur ∪ s ∧ eval kv.1 = .ok kv.2) := by
  induction l generalizing d with
  | nil => simp [evaluateAll] at h; simp [h]
  | cons s l ih =>
    unfold evaluateAll at h
    cases he : evaluate eval (cur ∪ s) d with
    | error e => simp [he] at h
    | ok d1 =>
      simp only [he] at h
      intro kv
      rw [ih h kv]
      unfold evaluate at he
      split at he
      · next v hv =>
        simp at he
        subst he
        simp only [List.mem_append, List.mem_cons, List.not_mem_nil, or_false]
        constructor
        · rintro ((h1 | rfl) | ⟨s', h1, h2⟩)
          · exact .inl h1
          · exact .inr ⟨s, .inl rfl, rfl, hv⟩
          · exact .inr ⟨s', .inr h1, h2⟩
        · rintro (h1 | ⟨s', rfl | h1, h2, h3⟩)
          · exact .inl (.inl h1)
          · left; right
            obtain ⟨k, v'⟩ := kv
            simp only at h2 h3
            subst h2
            rw [hv] at h3
            simp at h3
            rw [h3]
          · exact .inr ⟨s', h1, h2, h3⟩
      · next hv =>
        simp at he
        subst he
        simp only [List.mem_cons]
        constructor
        · rintro (h1 | ⟨s', h1, h2⟩)
          · exact .inl h1
          · exact .inr ⟨s', .inr h1, h2⟩
        · rintro (h1 | ⟨s', rfl | h1, h2, h3⟩)
          · exact .inl h1
          · rw [h2, hv] at h3; simp at h3
          · exact .inr ⟨s', h1, h2, h3⟩
      · simp at he

omit [LT F] [DecidableLT F] in
theorem evaluateAll_error {eval : Finset ℕ → Except Err F} {cur : Finset ℕ}
    {l : List (Finset ℕ)} {d : List (Finset ℕ × F)} {e : Err}
    (h : evaluateAll eval cur l d = .error e) :
    e ≠ .assumptionError ∧ ∃ s, eval s = .error e := by
  induction l generalizing d with
  | nil => simp [evaluateAll] at h
  | cons s l ih =>
    unfold evaluateAll at h
    cases he : evaluate eval (cur ∪ s) d with
    | error e' =>
      simp [he] at h
      subst h
      unfold evaluate at he
      split at he
      · simp at he
      · simp at he
      · next e'' hne hev =>
        simp at he
        subst he
        exact ⟨fun hc => hne hc, _, hev⟩
    | ok d1 =>
      simp only [he] at h
      exact ih h

/-- Invariant of the greedy loop. -/
structure GInv (n : ℕ) (eval : Finset ℕ → Except Err F) (gen : Finset ℕ → List (Finset ℕ))
    (st : GreedySt F) : Prop where
  cur_sub : st.cur ⊆ Finset.range n
  path_ne : st.path.head? = some ∅
  path_last : st.path.getLast? = some st.cur
  path_sub : ∀ I ∈ st.path, I ⊆ Finset.range n
  path_step : st.path.IsChain fun I J => ∃ s ∈ gen (Finset.range n \ I), J = I ∪ s
  truth : ∀ kv ∈ st.overall, eval kv.1 = .ok kv.2 ∧ kv.1 ⊆ Finset.range n
  done0 : ∀ v, eval ∅ = .ok v → (∅, v) ∈ st.overall
  done : ∀ I ∈ st.path, I ≠ st.cur → ∀ s ∈ gen (Finset.range n \ I), ∀ v,
    eval (I ∪ s) = .ok v → (I ∪ s, v) ∈ st.overall

theorem nextSubset_spec {eval : Finset ℕ → Except Err F} {resSum : Finset ℕ → F}
    {cur : Finset ℕ} {subsets : List (Finset ℕ)} {evals : List (Finset ℕ × F)}
    (hne : subsets ≠ []) (he : evaluateAll eval cur subsets [] = .ok evals) :
    ∃ s ∈ subsets, nextSubset resSum cur subsets evals = cur ∪ s := by
  unfold nextSubset
  cases evals with
  | cons kv l =>
    simp only
    have := (evaluateAll_spec he (dictMin kv l)).1 (dictMin_mem kv l)
    simp at this
    obtain ⟨s, hs, h1, -⟩ := this
    exact ⟨s, hs, h1⟩
  | nil =>
    cases subsets with
    | nil => exact absurd rfl hne
    | cons s l => exact ⟨_, argminBy_mem resSum s l, rfl⟩

theorem greedyLoop_spec {n : ℕ} {eval : Finset ℕ → Except Err F}
    {gen : Finset ℕ → List (Finset ℕ)} {resSum : Finset ℕ → F} (hgen : GenOK gen)
    (fuel : ℕ) (st : GreedySt F) (hi : GInv n eval gen st) (hf : n ≤ fuel + st.cur.card) :
    (∃ e, greedyLoop n eval gen resSum fuel st = some (.error e) ∧ e ≠ .assumptionError ∧
      ∃ s, eval s = .error e) ∨
    (∃ st', greedyLoop n eval gen resSum fuel st = some (.ok st') ∧ GInv n eval gen st' ∧
      gen (Finset.range n \ st'.cur) = []) := by
  induction fuel generalizing st with
  | zero =>
    have hc : st.cur = Finset.range n := by
      apply Finset.eq_of_subset_of_card_le hi.cur_sub
      simp; omega
    have hg : gen (Finset.range n \ st.cur) = [] := by
      rw [hc]
      simp only [sdiff_self]
      by_contra hne
      obtain ⟨s, l, hs⟩ := List.exists_cons_of_ne_nil hne
      obtain ⟨h1, h2⟩ := hgen _ s (by rw [hs]; simp)
      exact h1.ne_empty (Finset.subset_empty.mp h2)
    right
    exact ⟨st, by simp [greedyLoop, hg], hi, hg⟩
  | succ k ih =>
    unfold greedyLoop
    by_cases hg : gen (Finset.range n \ st.cur) = []
    · right
      exact ⟨st, by simp [hg], hi, hg⟩
    · simp only [List.length_eq_zero_iff, hg, if_false]
      cases he : evaluateAll eval st.cur (gen (Finset.range n \ st.cur)) [] with
      | error e =>
        left
        have := evaluateAll_error he
        exact ⟨e, rfl, this⟩
      | ok evals =>
        simp only
        obtain ⟨s, hs, hnext⟩ := nextSubset_spec (resSum := resSum) hg he
        obtain ⟨hs1, hs2⟩ := hgen _ s hs
        have hspec := evaluateAll_spec he
        have hsub : st.cur ∪ s ⊆ Finset.range n :=
          Finset.union_subset hi.cur_sub (hs2.trans Finset.sdiff_subset)
        have hcard : st.cur.card < (st.cur ∪ s).card := by
          apply Finset.card_lt_card
          refine Finset.ssubset_iff_subset_ne.mpr ⟨Finset.subset_union_left, fun heq => ?_⟩
          obtain ⟨x, hx⟩ := hs1
          have h1 := hs2 hx
          rw [Finset.mem_sdiff] at h1
          apply h1.2
          rw [heq]
          exact Finset.mem_union_right _ hx
        rw [hnext]
        apply ih
        · refine ⟨hsub, ?_, by simp, ?_, ?_, ?_, ?_, ?_⟩
          · simp only
            have := hi.path_ne
            cases hp : st.path with
            | nil => rw [hp] at this; simp at this
            | cons a l => rw [hp] at this; simpa using this
          · intro I hI
            simp only [List.mem_append, List.mem_singleton] at hI
            rcases hI with hI | rfl
            · exact hi.path_sub I hI
            · exact hsub
          · rw [List.isChain_append]
            refine ⟨hi.path_step, by simp, ?_⟩
            intro x hx y hy
            rw [hi.path_last] at hx
            simp at hx hy
            subst hx; subst hy
            exact ⟨s, hs, rfl⟩
          · intro kv hkv
            simp only [List.mem_append] at hkv
            rcases hkv with hkv | hkv
            · exact hi.truth kv hkv
            · have := (hspec kv).1 hkv
              simp at this
              obtain ⟨s', hs', h1, h2⟩ := this
              refine ⟨h2, ?_⟩
              rw [h1]
              exact Finset.union_subset hi.cur_sub ((hgen _ s' hs').2.trans Finset.sdiff_subset)
          · intro v hv
            simp only [List.mem_append]
            exact .inl (hi.done0 v hv)
          · intro I hI hne s' hs' v hv
            simp only [List.mem_append, List.mem_singleton] at hI ⊢
            rcases hI with hI | rfl
            · by_cases hIc : I = st.cur
              · subst hIc
                right
                exact (hspec (st.cur ∪ s', v)).2 (.inr ⟨s', hs', rfl, hv⟩)
              · exact .inl (hi.done I hI hIc s' hs' v hv)
            · exact absurd rfl hne
        · simp only; omega

/-- C41: for every evaluator, every generator proposing non-empty sets of remaining indices, and any
arithmetic, `RitzFactory` terminates; the only exceptions that escape are exceptions of the evaluator
other than `AssumptionError`; otherwise the selection is a set of valid indices. -/
theorem C41_terminates {n : ℕ} {eval : Finset ℕ → Except Err F}
    {gen : Finset ℕ → List (Finset ℕ)} {resSum : Finset ℕ → F} (hgen : GenOK gen) :
    (∃ e, getBestSubset n eval gen resSum = some (.error e) ∧ e ≠ .assumptionError ∧
      ∃ s, eval s = .error e) ∨
    (∃ sel st, getBestSubset n eval gen resSum = some (.ok (sel, st)) ∧ sel ⊆ Finset.range n ∧
      GInv n eval gen st ∧ gen (Finset.range n \ st.cur) = [] ∧
      sel = (match st.overall with | kv :: l => (dictMin kv l).1 | [] => ∅)) := by
  unfold getBestSubset
  cases he : evaluate eval ∅ ([] : List (Finset ℕ × F)) with
  | error e =>
    left
    refine ⟨e, rfl, ?_⟩
    unfold evaluate at he
    split at he
    · simp at he
    · simp at he
    · next e'' hne hev =>
      simp at he; subst he; exact ⟨fun hc => hne hc, _, hev⟩
  | ok d =>
    simp only
    have hd : (∀ kv ∈ d, eval kv.1 = .ok kv.2 ∧ kv.1 ⊆ Finset.range n) ∧
        (∀ v, eval ∅ = .ok v → (∅, v) ∈ d) := by
      unfold evaluate at he
      split at he
      · next v hv => simp at he; subst he; simp [hv]
      · next hv => simp at he; subst he; simp [hv]
      · simp at he
    have hi : GInv n eval gen { cur := ∅, overall := d, path := [∅] } :=
      ⟨by simp, rfl, rfl, by simp, by simp, hd.1, hd.2, by simp⟩
    rcases greedyLoop_spec (resSum := resSum) hgen n _ hi (by simp) with ⟨e, h1, h2⟩ | ⟨st, h1, h2, h3⟩
    · left; exact ⟨e, by rw [h1], h2⟩
    · right
      refine ⟨match st.overall with | kv :: l => (dictMin kv l).1 | [] => ∅, st, ?_, ?_, h2, h3, rfl⟩
      · rw [h1]; rfl
      cases ho : st.overall with
      | nil => simp
      | cons kv l => exact (h2.truth _ (by rw [ho]; exact dictMin_mem kv l)).2

/-- C41: with a linear order on the values (no NaN): the selection is no worse than every evaluable
candidate `I ∪ s` along the whole greedy path `∅ = I₀ ⊂ I₁ ⊂ …` (which ends when the generator has no more
proposals) and no worse than the empty selection. If nothing could be evaluated it is empty. -/
theorem C41_best {F : Type*} [LinearOrder F] {n : ℕ} {eval : Finset ℕ → Except Err F}
    {gen : Finset ℕ → List (Finset ℕ)} {resSum : Finset ℕ → F} (hgen : GenOK gen)
    {sel : Finset ℕ} {st : GreedySt F}
    (h : getBestSubset n eval gen resSum = some (.ok (sel, st))) :
    st.path.head? = some ∅ ∧
    (st.path.IsChain fun I J => ∃ s ∈ gen (Finset.range n \ I), J = I ∪ s) ∧
    (∃ I, st.path.getLast? = some I ∧ gen (Finset.range n \ I) = []) ∧
    (∀ v, eval ∅ = .ok v → ∃ w, eval sel = .ok w ∧ w ≤ v) ∧
    (∀ I ∈ st.path, ∀ s ∈ gen (Finset.range n \ I), ∀ v, eval (I ∪ s) = .ok v →
      ∃ w, eval sel = .ok w ∧ w ≤ v) ∧
    ((∃ e, eval sel = .error e) → sel = ∅) := by
  rcases C41_terminates (n := n) (eval := eval) (resSum := resSum) hgen with
    ⟨e, h1, -⟩ | ⟨sel', st', h1, h2, h3, h4, h5⟩
  · rw [h] at h1; simp at h1
  · rw [h] at h1
    simp at h1
    obtain ⟨rfl, rfl⟩ := h1
    have hbest : ∀ kv ∈ st.overall, ∃ w, eval sel = .ok w ∧ w ≤ kv.2 := by
      intro kv hkv
      cases ho : st.overall with
      | nil => rw [ho] at hkv; simp at hkv
      | cons a l =>
        rw [ho] at h5 hkv
        simp only at h5
        refine ⟨(dictMin a l).2, ?_, dictMin_le a l kv hkv⟩
        rw [h5]
        exact (h3.truth _ (by rw [ho]; exact dictMin_mem a l)).1
    refine ⟨h3.path_ne, h3.path_step, ⟨st.cur, h3.path_last, h4⟩, ?_, ?_, ?_⟩
    · intro v hv; exact hbest _ (h3.done0 v hv)
    · intro I hI s hs v hv
      by_cases hc : I = st.cur
      · rw [hc, h4] at hs; simp at hs
      · exact hbest _ (h3.done I hI hc s hs v hv)
    · rintro ⟨e, he⟩
      cases ho : st.overall with
      | nil => rw [ho] at h5; exact h5
      | cons a l =>
        obtain ⟨w, hw, -⟩ := hbest a (by rw [ho]; simp)
        rw [hw] at he; simp at he

end C41

/-! ## C42: generators -/

section C42
variable {F : Type*} [LinearOrder F]

theorem argsort_head {argsort : List F → List ℕ} (h : IsArgsort argsort) (l : List F) {i : ℕ}
    (hi : (argsort l).head? = some i) : ∃ a, l[i]? = some a ∧ ∀ b ∈ l, a ≤ b := by
  obtain ⟨hp, hs⟩ := h l
  obtain ⟨t, ht⟩ : ∃ t, argsort l = i :: t := by
    cases hl : argsort l with
    | nil => rw [hl] at hi; simp at hi
    | cons a t => rw [hl] at hi; simp at hi; exact ⟨t, by rw [hi]⟩
  have hi' : i < l.length := by
    have := hp.mem_iff.mp (show i ∈ argsort l by rw [ht]; simp)
    simpa using this
  refine ⟨l[i], by simp [hi'], ?_⟩
  intro b hb
  obtain ⟨j, hj, rfl⟩ := List.mem_iff_getElem.mp hb
  rw [ht] at hs
  have hjm : j ∈ i :: t := by
    rw [← ht]; exact hp.mem_iff.mpr (by simpa using hj)
  rw [List.mem_cons] at hjm
  rcases hjm with rfl | hjm
  · exact le_rfl
  · exact (List.pairwise_cons.mp hs).1 j hjm _ _ (by simp [hi']) (by simp [hj])

theorem argsort_last {argsort : List F → List ℕ} (h : IsArgsort argsort) (l : List F) {i : ℕ}
    (hi : (argsort l).getLast? = some i) : ∃ a, l[i]? = some a ∧ ∀ b ∈ l, b ≤ a := by
  obtain ⟨hp, hs⟩ := h l
  obtain ⟨t, ht⟩ : ∃ t, argsort l = t ++ [i] := by
    rcases List.eq_nil_or_concat (argsort l) with h' | ⟨t, a, h'⟩
    · rw [h'] at hi; simp at hi
    · refine ⟨t, ?_⟩
      rw [h'] at hi ⊢; simp at hi ⊢; exact hi
  have hi' : i < l.length := by
    have := hp.mem_iff.mp (show i ∈ argsort l by rw [ht]; simp)
    simpa using this
  refine ⟨l[i], by simp [hi'], ?_⟩
  intro b hb
  obtain ⟨j, hj, rfl⟩ := List.mem_iff_getElem.mp hb
  rw [ht] at hs
  have hjm : j ∈ t ++ [i] := by
    rw [← ht]; exact hp.mem_iff.mpr (by simpa using hj)
  rw [List.mem_append, List.mem_singleton] at hjm
  rcases hjm with hjm | rfl
  · exact (List.pairwise_append.mp hs).2.2 j hjm i (by simp) _ _ (by simp [hj]) (by simp [hi'])
  · exact le_rfl

/-- Spec: nothing is proposed iff at most one index remains or `max_vectors` are selected. -/
def Done (nValues nRemaining : ℕ) (maxVectors : Option ℕ) : Prop :=
  nRemaining ≤ 1 ∨ ∃ m, maxVectors = some m ∧ m ≤ nValues - nRemaining

theorem exhausted_iff {a b : ℕ} {m : Option ℕ} : exhausted a b m = true ↔ Done a b m := by
  unfold exhausted Done
  cases m <;> simp

/-- C42: `RitzSmall` proposes exactly one remaining index of smallest magnitude, unless done. -/
theorem C42_ritzSmall {argsort : List F → List ℕ} (h : IsArgsort argsort) (nValues : ℕ)
    (maxVectors : Option ℕ) (mag : ℕ → F) (remaining : List ℕ) :
    (Done nValues remaining.length maxVectors ∧
      ritzSmall argsort nValues maxVectors mag remaining = []) ∨
    (¬ Done nValues remaining.length maxVectors ∧ ∃ i ∈ remaining, (∀ j ∈ remaining, mag i ≤ mag j) ∧
      ritzSmall argsort nValues maxVectors mag remaining = [{i}]) := by
  by_cases hd : Done nValues remaining.length maxVectors
  · left
    exact ⟨hd, by simp [ritzSmall, exhausted_iff.mpr hd]⟩
  · right
    refine ⟨hd, ?_⟩
    have hx : exhausted nValues remaining.length maxVectors = false := by
      rw [← Bool.not_eq_true, exhausted_iff]; exact hd
    have hlen : 1 < remaining.length := by
      unfold Done at hd; push Not at hd; omega
    obtain ⟨hp, hs⟩ := h (remaining.map mag)
    cases hh : (argsort (remaining.map mag)).head? with
    | none =>
      rw [List.head?_eq_none_iff] at hh
      have := hp.length_eq
      rw [hh] at this
      simp at this
      omega
    | some i =>
      obtain ⟨a, ha1, ha2⟩ := argsort_head h _ hh
      rw [List.getElem?_map, Option.map_eq_some_iff] at ha1
      obtain ⟨r, hr, rfl⟩ := ha1
      refine ⟨r, List.mem_of_getElem? hr, ?_, ?_⟩
      · intro j hj; exact ha2 _ (List.mem_map_of_mem hj)
      · simp [ritzSmall, hx, hh, hr]

/-- `get_minmax_indices` picks exactly a minimiser and (if there are two values) a maximiser. -/
theorem minmax_spec {argsort : List F → List ℕ} (h : IsArgsort argsort) (val : ℕ → F)
    (l : List ℕ) :
    (l = [] ∧ takeIdx l (minmaxIndices argsort (l.map val)) = []) ∨
    (∃ i, l = [i] ∧ takeIdx l (minmaxIndices argsort (l.map val)) = [i]) ∨
    (1 < l.length ∧ ∃ i ∈ l, ∃ j ∈ l, takeIdx l (minmaxIndices argsort (l.map val)) = [i, j] ∧
      ∀ k ∈ l, val i ≤ val k ∧ val k ≤ val j) := by
  obtain ⟨hp, hs⟩ := h (l.map val)
  rcases Nat.lt_trichotomy l.length 1 with hl | hl | hl
  · left
    have : l = [] := List.length_eq_zero_iff.mp (by omega)
    subst this
    simp [takeIdx]
  · right; left
    obtain ⟨i, rfl⟩ := List.length_eq_one_iff.mp hl
    refine ⟨i, rfl, ?_⟩
    have hpp : (argsort ([i].map val)).Perm [0] := by simpa using hp
    have : argsort ([i].map val) = [0] := List.perm_singleton.mp hpp
    simp only [List.map_cons, List.map_nil] at this
    simp [minmaxIndices, takeIdx, this]
  · right; right
    refine ⟨hl, ?_⟩
    have hne : argsort (l.map val) ≠ [] := by
      intro h0
      have := hp.length_eq
      rw [h0] at this
      simp at this; omega
    obtain ⟨i, hi⟩ : ∃ i, (argsort (l.map val)).head? = some i := by
      exact ⟨_, List.head?_eq_some_head hne⟩
    obtain ⟨j, hj⟩ : ∃ j, (argsort (l.map val)).getLast? = some j := by
      exact ⟨_, List.getLast?_eq_some_getLast hne⟩
    obtain ⟨a, ha1, ha2⟩ := argsort_head h _ hi
    obtain ⟨b, hb1, hb2⟩ := argsort_last h _ hj
    rw [List.getElem?_map, Option.map_eq_some_iff] at ha1 hb1
    obtain ⟨r, hr, rfl⟩ := ha1
    obtain ⟨q, hq, rfl⟩ := hb1
    refine ⟨r, List.mem_of_getElem? hr, q, List.mem_of_getElem? hq, ?_, ?_⟩
    · have h0 : ¬ l.length = 0 := by omega
      have h0' : l ≠ [] := by intro hc; simp [hc] at h0
      simp [minmaxIndices, takeIdx, h0', hl, hi, hj, hr, hq]
    · intro k hk
      exact ⟨ha2 _ (List.mem_map_of_mem hk), hb2 _ (List.mem_map_of_mem hk)⟩

/-- Spec: `is` are the indices of a minimal and a maximal value (one index if there is only one). -/
def MinMaxOf (val : ℕ → F) (l is : List ℕ) : Prop :=
  (l = [] ∧ is = []) ∨ (∃ i, l = [i] ∧ is = [i]) ∨
  (1 < l.length ∧ ∃ i ∈ l, ∃ j ∈ l, is = [i, j] ∧ ∀ k ∈ l, val i ≤ val k ∧ val k ≤ val j)

/-- C42: `RitzExtremal` proposes the extremal negative and positive values (self-adjoint) resp. the values
of smallest and largest magnitude (otherwise), each as a one-element set of remaining indices. -/
theorem C42_ritzExtremal [Zero F] {argsort : List F → List ℕ} (h : IsArgsort argsort)
    (nValues : ℕ) (maxVectors : Option ℕ) (selfAdjoint : Bool) (val mag : ℕ → F)
    (remaining : List ℕ) :
    (Done nValues remaining.length maxVectors ∧
      ritzExtremal argsort nValues maxVectors selfAdjoint val mag remaining = []) ∨
    (¬ Done nValues remaining.length maxVectors ∧
      (selfAdjoint = true → ∃ isn isp,
        MinMaxOf val (remaining.filter fun i => val i < 0) isn ∧
        MinMaxOf val (remaining.filter fun i => 0 < val i) isp ∧
        ritzExtremal argsort nValues maxVectors selfAdjoint val mag remaining =
          (isn ++ isp).map fun i => {i}) ∧
      (selfAdjoint = false → ∃ is, MinMaxOf mag remaining is ∧
        ritzExtremal argsort nValues maxVectors selfAdjoint val mag remaining =
          is.map fun i => {i})) := by
  by_cases hd : Done nValues remaining.length maxVectors
  · left
    exact ⟨hd, by simp [ritzExtremal, exhausted_iff.mpr hd]⟩
  · right
    have hx : exhausted nValues remaining.length maxVectors = false := by
      rw [← Bool.not_eq_true, exhausted_iff]; exact hd
    have key : ∀ (v : ℕ → F) (l : List ℕ),
        MinMaxOf v l (takeIdx l (minmaxIndices argsort (l.map v))) := by
      intro v l
      rcases minmax_spec h v l with h | ⟨i, h1, h2⟩ | ⟨h0, i, hi, j, hj, h1, h2⟩
      · exact .inl h
      · exact .inr (.inl ⟨i, h1, h2⟩)
      · exact .inr (.inr ⟨h0, i, hi, j, hj, h1, h2⟩)
    refine ⟨hd, ?_, ?_⟩
    · rintro rfl
      exact ⟨_, _, key val _, key val _, by simp [ritzExtremal, hx]⟩
    · rintro rfl
      exact ⟨_, key mag _, by simp [ritzExtremal, hx]⟩

theorem MinMaxOf.subset {val : ℕ → F} {l is : List ℕ} (h : MinMaxOf val l is) : ∀ i ∈ is, i ∈ l := by
  rcases h with ⟨-, rfl⟩ | ⟨i, rfl, rfl⟩ | ⟨-, i, hi, j, hj, rfl, -⟩
  · simp
  · simp
  · intro k hk; simp at hk; rcases hk with rfl | rfl <;> assumption

/-- C42/C41: both shipped generators only propose one-element sets of remaining indices; so C41 applies
to them (`list` is the arbitrary listing of the Python set). -/
theorem C42_gens_ok [Zero F] {argsort : List F → List ℕ} (h : IsArgsort argsort) (nValues : ℕ)
    (maxVectors : Option ℕ) (sa : Bool) (val mag : ℕ → F)
    (list : Finset ℕ → List ℕ) (hlist : ∀ s i, i ∈ list s ↔ i ∈ s) :
    GenOK (fun rem => ritzSmall argsort nValues maxVectors mag (list rem)) ∧
    GenOK (fun rem => ritzExtremal argsort nValues maxVectors sa val mag (list rem)) := by
  constructor
  · intro rem s hs
    rcases C42_ritzSmall h nValues maxVectors mag (list rem) with ⟨-, e⟩ | ⟨-, i, hi, -, e⟩
    · simp only [e] at hs; simp at hs
    · simp only [e] at hs
      simp at hs
      subst hs
      exact ⟨⟨i, by simp⟩, by simpa using (hlist rem i).mp hi⟩
  · intro rem s hs
    have hmem : ∀ i ∈ list rem, ({i} : Finset ℕ).Nonempty ∧ {i} ⊆ rem := fun i hi =>
      ⟨⟨i, by simp⟩, by simpa using (hlist rem i).mp hi⟩
    rcases C42_ritzExtremal h nValues maxVectors sa val mag (list rem) with ⟨-, e⟩ | ⟨-, e1, e2⟩
    · simp only [e] at hs; simp at hs
    · cases sa with
      | true =>
        obtain ⟨isn, isp, m1, m2, e⟩ := e1 rfl
        simp only [e] at hs
        obtain ⟨i, hi, rfl⟩ := List.mem_map.mp hs
        apply hmem
        rcases List.mem_append.mp hi with hi | hi
        · exact (List.mem_filter.mp (m1.subset i hi)).1
        · exact (List.mem_filter.mp (m2.subset i hi)).1
      | false =>
        obtain ⟨is, m1, e⟩ := e2 rfl
        simp only [e] at hs
        obtain ⟨i, hi, rfl⟩ := List.mem_map.mp hs
        exact hmem i (m1.subset i hi)

end C42

/-! ## C43: `RitzFactorySimple` -/

section C43

/-- Spec: `sel` consists of `min n m` distinct indices below `m = keys.length`, and every selected key is
at least as small as every key that is not selected. -/
def SelectsSmallest (keys : List ℝ) (n : ℕ) (sel : List ℕ) : Prop :=
  sel.Nodup ∧ (∀ i ∈ sel, i < keys.length) ∧ sel.length = min n keys.length ∧
  ∀ i ∈ sel, ∀ j, j < keys.length → j ∉ sel → ∀ a b, keys[i]? = some a → keys[j]? = some b → a ≤ b

/-- Spec: same with "at least as large". -/
def SelectsLargest (keys : List ℝ) (n : ℕ) (sel : List ℕ) : Prop :=
  sel.Nodup ∧ (∀ i ∈ sel, i < keys.length) ∧ sel.length = min n keys.length ∧
  ∀ i ∈ sel, ∀ j, j < keys.length → j ∉ sel → ∀ a b, keys[i]? = some a → keys[j]? = some b → b ≤ a

theorem selects_take {argsort : List ℝ → List ℕ} (h : IsArgsort argsort) (keys : List ℝ) (n : ℕ) :
    SelectsSmallest keys n ((argsort keys).take n) := by
  obtain ⟨hp, hs⟩ := h keys
  have hnd : (argsort keys).Nodup := hp.nodup_iff.mpr List.nodup_range
  refine ⟨hnd.sublist (List.take_sublist _ _), ?_, ?_, ?_⟩
  · intro i hi
    have := hp.mem_iff.mp (List.mem_of_mem_take hi)
    simpa using this
  · rw [List.length_take, hp.length_eq]; simp
  · intro i hi j hj hjn a b ha hb
    have hj' : j ∈ argsort keys := hp.mem_iff.mpr (by simpa using hj)
    rw [← List.take_append_drop n (argsort keys)] at hj' hs
    rw [List.mem_append] at hj'
    exact (List.pairwise_append.mp hs).2.2 i hi j (hj'.resolve_left hjn) a b ha hb

theorem selects_last {argsort : List ℝ → List ℕ} (h : IsArgsort argsort) (keys : List ℝ) (n : ℕ)
    (hn : n ≠ 0) : SelectsLargest keys n (sliceLast n (argsort keys)) := by
  obtain ⟨hp, hs⟩ := h keys
  have hnd : (argsort keys).Nodup := hp.nodup_iff.mpr List.nodup_range
  simp only [sliceLast, hn, if_false]
  refine ⟨hnd.sublist (List.drop_sublist _ _), ?_, ?_, ?_⟩
  · intro i hi
    have := hp.mem_iff.mp (List.mem_of_mem_drop hi)
    simpa using this
  · rw [List.length_drop, hp.length_eq]; simp; omega
  · intro i hi j hj hjn a b ha hb
    have hj' : j ∈ argsort keys := hp.mem_iff.mpr (by simpa using hj)
    rw [← List.take_append_drop ((argsort keys).length - n) (argsort keys)] at hj' hs
    rw [List.mem_append] at hj'
    exact (List.pairwise_append.mp hs).2.2 j (hj'.resolve_right hjn) i hi b a hb ha

/-- C43 (for the three "largest" criteria only `n_vectors ≥ 1`; see
`C43_zero_vectors_counterexample` for why `n_vectors = 0` must be excluded): the documented
selection. -/
theorem C43_simple {argsort : List ℝ → List ℕ} (h : IsArgsort argsort)
    (values : List ℂ) (resnorms : List ℝ) (n : ℕ) :
    (∃ s, simpleIndices argsort values resnorms n .sm = .ok s ∧
      SelectsSmallest (values.map fun z => ‖z‖) n s) ∧
    (∃ s, simpleIndices argsort values resnorms n .sr = .ok s ∧
      SelectsSmallest (values.map Complex.re) n s) ∧
    (∃ s, simpleIndices argsort values resnorms n .si = .ok s ∧
      SelectsSmallest (values.map Complex.im) n s) ∧
    (∃ s, simpleIndices argsort values resnorms n .smallestRes = .ok s ∧
      SelectsSmallest resnorms n s) ∧
    (n ≠ 0 →
      (∃ s, simpleIndices argsort values resnorms n .lm = .ok s ∧
        SelectsLargest (values.map fun z => ‖z‖) n s) ∧
      (∃ s, simpleIndices argsort values resnorms n .lr = .ok s ∧
        SelectsLargest (values.map Complex.re) n s) ∧
      (∃ s, simpleIndices argsort values resnorms n .li = .ok s ∧
        SelectsLargest (values.map Complex.im) n s)) ∧
    simpleIndices argsort values resnorms n .invalid = .error .argumentError :=
  ⟨⟨_, rfl, selects_take h _ n⟩, ⟨_, rfl, selects_take h _ n⟩, ⟨_, rfl, selects_take h _ n⟩,
   ⟨_, rfl, selects_take h _ n⟩,
   fun hn => ⟨⟨_, rfl, selects_last h _ n hn⟩, ⟨_, rfl, selects_last h _ n hn⟩,
    ⟨_, rfl, selects_last h _ n hn⟩⟩, rfl⟩

/-- Finding (C43): with `n_vectors = 0` (the default!) and `which ∈ {lm, lr, li}`, *all* Ritz vectors
are selected instead of none. -/
theorem C43_zero_vectors_counterexample {argsort : List ℝ → List ℕ} (h : IsArgsort argsort)
    (values : List ℂ) (resnorms : List ℝ) (w : Which) (hw : w = .lm ∨ w = .lr ∨ w = .li) :
    ∃ s, simpleIndices argsort values resnorms 0 w = .ok s ∧ s.length = values.length ∧
      (values ≠ [] → ¬ SelectsLargest (values.map fun z => ‖z‖) 0 s) := by
  have key : ∀ keys : List ℝ, keys.length = values.length →
      (sliceLast 0 (argsort keys)).length = values.length := by
    intro keys hk
    have := (h keys).1.length_eq
    simp [sliceLast, this, hk]
  have : ∃ s, simpleIndices argsort values resnorms 0 w = .ok s ∧ s.length = values.length := by
    rcases hw with rfl | rfl | rfl
    · exact ⟨_, rfl, key _ (by simp)⟩
    · exact ⟨_, rfl, key _ (by simp)⟩
    · exact ⟨_, rfl, key _ (by simp)⟩
  obtain ⟨s, h1, h2⟩ := this
  refine ⟨s, h1, h2, fun hne hc => ?_⟩
  have := hc.2.2.1
  rw [h2] at this
  simp at this
  exact hne this

/-- C43: `UnionFactory` concatenates the vectors of all factories in order (non-empty list of
factories, none of which raises). -/
theorem C43_union {Sol E : Type*} (factories : List (Sol → Except Err (List E))) (s : Sol)
    (us : List (List E)) (hne : factories ≠ [])
    (h : List.Forall₂ (fun f u => f s = .ok u) factories us) :
    unionGet factories s = .ok us.flatten := by
  have key : ∀ fs us, List.Forall₂ (fun f u => f s = .ok u) fs us →
      unionVectors s fs = (.ok us : Except Err (List (List E))) := by
    intro fs us h
    induction h with
    | nil => rfl
    | cons h1 _ ih => simp [unionVectors, h1, ih]
  unfold unionGet
  rw [key _ _ h]
  cases us with
  | nil => cases h; exact absurd rfl hne
  | cons u us => rfl

end C43

/-! ## Non-vacuity -/

/-- insertion-sort based argsort on natural number keys: the contract can be met -/
theorem argsort_exists : ∃ argsort : List ℝ → List ℕ, IsArgsort argsort := by
  classical
  refine ⟨fun l => (List.range l.length).mergeSort
    (fun i j => decide (l.getD i 0 ≤ l.getD j 0)), fun l => ⟨List.mergeSort_perm _ _, ?_⟩⟩
  have := List.pairwise_mergeSort (le := fun i j => decide (l.getD i 0 ≤ l.getD j 0))
    (by intro a b c; simp; exact le_trans) (by intro a b; simp; exact le_total _ _)
    (List.range l.length)
  refine this.imp ?_
  intro i j hij a b ha hb
  simpa [List.getD, ha, hb] using hij

/-- a run of the greedy selection: sets cost `|2 - card|`, two vectors are selected although the
generator makes three proposals. -/
example : (getBestSubset (F := ℕ) 4 (fun s => .ok (s.card - 2 + (2 - s.card)))
    (fun rem => if 0 ∈ rem then [{0}] else if 1 ∈ rem ∧ 2 ∈ rem then [{1}, {2}]
      else if 3 ∈ rem then [{3}] else []) (fun _ => 0)).map (fun r => r.map fun p => p.1) =
    some (.ok {0, 1}) := by
  rfl

/-- the generator of the previous example satisfies the hypothesis of C41 -/
example : GenOK fun rem => if 0 ∈ rem then [{0}] else if 1 ∈ rem ∧ 2 ∈ rem then [{1}, {2}]
    else if 3 ∈ rem then [{3}] else [] := by
  intro rem s hs
  simp only at hs
  split_ifs at hs <;> simp at hs
  · subst hs; simp_all
  · rcases hs with rfl | rfl <;> simp_all
  · subst hs; simp_all

end Krypy
