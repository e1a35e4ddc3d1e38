import Verif.Model.Restarted
import Mathlib.Tactic.Common
import Mathlib.Data.Real.Basic
import Mathlib.Tactic.NormNum

/-! # Property C34: restarted solvers (any arithmetic, any inner solver) -/

namespace Krypy
variable {F X : Type*} [LT F] [DecidableLT F]

/-- Spec: concatenation of histories in which the last entry of every cycle but the last is dropped
(it is replaced by the first entry of the next cycle). -/
def seamJoin {α : Type*} (l : List (List α)) : List α :=
  (l.dropLast.map List.dropLast).flatten ++ l.getLast?.getD []

/-- Spec: the cycles start with the user's guess and continue with the previous approximation. -/
def Chained (solve : Option X → Except Err (RSol F X)) (sols : List (RSol F X)) : Prop :=
  ∀ i s, sols[i]? = some s →
    solve (if i = 0 then none else (sols[i - 1]?).map (·.xk)) = .ok s

/-- Invariant of the restart loop. -/
structure RInv (maxRestarts : ℤ) (solve : Option X → Except Err (RSol F X)) (inf : F)
    (st : RSt F X) : Prop where
  len : st.sols.length = st.restart
  bound : st.restart ≤ maxRestarts.toNat + 1
  chained : Chained solve st.sols
  xk : st.xk = st.sols.getLast?.map (·.xk)
  tol : st.tol = st.sols.getLast?.map (·.tol)
  res0 : st.sols = [] → st.resnorms = [inf]
  res : st.sols ≠ [] → st.resnorms = seamJoin (st.sols.map (·.resnorms))
  err0 : st.sols = [] → st.errnorms = [inf]
  err : st.sols ≠ [] → st.errnorms = seamJoin (st.sols.map (·.errnorms))

theorem seamJoin_append {α : Type*} (l : List (List α)) (h : l ≠ []) (hl : l.getLast?.getD [] ≠ [])
    (x : List α) : (seamJoin l).dropLast ++ x = seamJoin (l ++ [x]) := by
  unfold seamJoin
  obtain ⟨l', a, rfl⟩ : ∃ l' a, l = l' ++ [a] := by
    rcases List.eq_nil_or_concat l with h' | ⟨l', a, h'⟩
    · exact absurd h' h
    · exact ⟨l', a, by simpa using h'⟩
  simp only [List.getLast?_concat, Option.getD_some] at hl
  simp [List.dropLast_append_of_ne_nil hl]

theorem RInv.step {maxRestarts : ℤ} {solve : Option X → Except Err (RSol F X)} {inf : F}
    (hne : ∀ x s, solve x = .ok s → s.resnorms ≠ [] ∧ s.errnorms ≠ [])
    {st st' : RSt F X} (h : RInv maxRestarts solve inf st) (hg : rGuard maxRestarts st = true)
    (hb : rBody solve st = .ok st') : RInv maxRestarts solve inf st' := by
  unfold rBody at hb
  split at hb
  · simp at hb
  · next sol hs =>
    simp only [Except.ok.injEq] at hb
    have hlast : ∀ s, st.sols.getLast? = some s → s.resnorms ≠ [] ∧ s.errnorms ≠ [] := by
      intro s hs'
      obtain ⟨l, hl⟩ : ∃ l, st.sols = l ++ [s] := by
        rcases List.eq_nil_or_concat st.sols with h' | ⟨l', a, h'⟩
        · simp [h'] at hs'
        · refine ⟨l', ?_⟩
          rw [h'] at hs' ⊢
          simp at hs' ⊢; exact hs'
      have := h.chained l.length s (by rw [hl]; simp)
      exact hne _ _ this
    subst hb
    refine ⟨by simp [h.len], ?_, ?_, by simp, by simp, by simp, ?_, by simp, ?_⟩
    · have h1 := h.bound
      simp [rGuard] at hg
      rcases hg with hg | hg
      · simp [hg]
      · have := hg.2; simp; omega
    · intro i s his
      simp only at his
      rcases Nat.lt_trichotomy i st.sols.length with hi | hi | hi
      · rw [List.getElem?_append_left hi] at his
        have := h.chained i s his
        by_cases h0 : i = 0
        · simp only [h0, if_true] at this ⊢; exact this
        · simp only [h0, if_false] at this ⊢
          rw [List.getElem?_append_left (by omega)]; exact this
      · subst hi
        simp at his
        subst his
        by_cases h0 : st.sols = []
        · have := h.xk
          simp [h0] at this
          simp [h0]
          rw [this] at hs; exact hs
        · have hpos : st.sols.length ≠ 0 := by simpa using h0
          have hx := h.xk
          simp only [hpos, if_false]
          rw [List.getElem?_append_left (by omega), ← List.getLast?_eq_getElem?, ← hx]
          exact hs
      · rw [List.getElem?_eq_none (by simp; omega)] at his
        simp at his
    · intro _
      by_cases h0 : st.sols = []
      · simp [h.res0 h0, h0, seamJoin]
      · simp only [List.map_append, List.map_cons, List.map_nil]
        rw [h.res h0, seamJoin_append _ (by simpa using h0)]
        obtain ⟨l, a, ha⟩ : ∃ l a, st.sols = l ++ [a] := by
          rcases List.eq_nil_or_concat st.sols with h' | ⟨l', a, h'⟩
          · exact absurd h' h0
          · exact ⟨l', a, by simpa using h'⟩
        have := (hlast a (by simp [ha])).1
        simp [ha, this]
    · intro _
      by_cases h0 : st.sols = []
      · simp [h.err0 h0, h0, seamJoin]
      · simp only [List.map_append, List.map_cons, List.map_nil]
        rw [h.err h0, seamJoin_append _ (by simpa using h0)]
        obtain ⟨l, a, ha⟩ : ∃ l a, st.sols = l ++ [a] := by
          rcases List.eq_nil_or_concat st.sols with h' | ⟨l', a, h'⟩
          · exact absurd h' h0
          · exact ⟨l', a, by simpa using h'⟩
        have := (hlast a (by simp [ha])).2
        simp [ha, this]

theorem rLoop_spec {maxRestarts : ℤ} {solve : Option X → Except Err (RSol F X)} {inf : F}
    (hne : ∀ x s, solve x = .ok s → s.resnorms ≠ [] ∧ s.errnorms ≠ [])
    (fuel : ℕ) (st : RSt F X) (h : RInv maxRestarts solve inf st)
    (hf : maxRestarts.toNat + 1 ≤ fuel + st.restart) :
    (∃ st', rLoop maxRestarts solve fuel st = .returned st' ∧ RInv maxRestarts solve inf st' ∧
      rGuard maxRestarts st' = false ∧
      ∃ t r, st'.tol = some t ∧ st'.resnorms.getLast? = some r ∧ ¬ t < r) ∨
    (∃ st', rLoop maxRestarts solve fuel st = .convergence st' ∧ RInv maxRestarts solve inf st' ∧
      rGuard maxRestarts st' = false ∧
      ∃ t r, st'.tol = some t ∧ st'.resnorms.getLast? = some r ∧ t < r) ∨
    (∃ e x, rLoop maxRestarts solve fuel st = .raised e ∧ solve x = .error e) := by
  induction fuel generalizing st with
  | zero =>
    have hb := h.bound
    have hr : st.restart = maxRestarts.toNat + 1 := by omega
    have hg : rGuard maxRestarts st = false := by
      simp only [rGuard, hr]
      have : ¬ (((maxRestarts.toNat + 1 : ℕ) : ℤ) ≤ maxRestarts) := by omega
      rw [decide_eq_false this]; simp
    unfold rLoop
    simp only [hg]
    have hs : st.sols ≠ [] := by
      intro h0; have := h.len; simp [h0] at this; omega
    obtain ⟨l, a, ha⟩ : ∃ l a, st.sols = l ++ [a] := by
      rcases List.eq_nil_or_concat st.sols with h' | ⟨l', a, h'⟩
      · exact absurd h' hs
      · exact ⟨l', a, by simpa using h'⟩
    have ht : st.tol = some a.tol := by rw [h.tol, ha]; simp
    have hne' := (hne _ _ (h.chained l.length a (by rw [ha]; simp))).1
    obtain ⟨r, hr⟩ : ∃ r, st.resnorms.getLast? = some r := by
      rw [← Option.isSome_iff_exists, List.getLast?_isSome, h.res hs, ha]
      simp [seamJoin, hne']
    simp only [ht, hr]
    by_cases hlt : a.tol < r
    · right; left; exact ⟨st, by simp [hlt], h, hg, _, _, ht, hr, hlt⟩
    · left; exact ⟨st, by simp [hlt], h, hg, _, _, ht, hr, hlt⟩
  | succ n ih =>
    unfold rLoop
    cases hg : rGuard maxRestarts st
    · have hs : st.sols ≠ [] := by
        intro h0; have := h.len; simp [h0] at this
        simp [rGuard, ← this] at hg
      obtain ⟨l, a, ha⟩ : ∃ l a, st.sols = l ++ [a] := by
        rcases List.eq_nil_or_concat st.sols with h' | ⟨l', a, h'⟩
        · exact absurd h' hs
        · exact ⟨l', a, by simpa using h'⟩
      have ht : st.tol = some a.tol := by rw [h.tol, ha]; simp
      have hne' := (hne _ _ (h.chained l.length a (by rw [ha]; simp))).1
      obtain ⟨r, hr⟩ : ∃ r, st.resnorms.getLast? = some r := by
        rw [← Option.isSome_iff_exists, List.getLast?_isSome, h.res hs, ha]
        simp [seamJoin, hne']
      simp only [ht, hr]
      by_cases hlt : a.tol < r
      · right; left; exact ⟨st, by simp [hlt], h, hg, _, _, ht, hr, hlt⟩
      · left; exact ⟨st, by simp [hlt], h, hg, _, _, ht, hr, hlt⟩
    · simp only [if_true]
      cases hb : rBody solve st with
      | error e =>
        right; right
        refine ⟨e, st.xk, rfl, ?_⟩
        unfold rBody at hb
        split at hb
        · next e' he => simp at hb; rw [he, hb]
        · simp at hb
      | ok st1 =>
        simp only
        apply ih st1 (h.step hne hg hb)
        unfold rBody at hb
        split at hb
        · simp at hb
        · simp at hb; subst hb; simp; omega

omit [LT F] [DecidableLT F] in
private theorem rinv_init (maxRestarts : ℤ) (solve : Option X → Except Err (RSol F X)) (inf : F) :
    RInv maxRestarts solve inf
    { xk := none, resnorms := [inf], errnorms := [inf], tol := none, restart := 0, sols := [] } :=
  ⟨rfl, by simp, by intro i s h; simp at h, rfl, rfl, fun _ => rfl, by simp, fun _ => rfl, by simp⟩

/-- C34: for every inner solver whose histories are non-empty (C24) the restarted solver
* terminates after at least one and at most `max_restarts+1` cycles (one if `max_restarts < 0`), each
  starting from the previous approximation,
* returns exactly if the last relative residual is not above `tol`, else raises `ConvergenceError`
  after all `max_restarts+1` cycles; other exceptions of the inner solver propagate,
* has as histories the seam-joined histories of the cycles and as `xk` the last cycle's `xk`. -/
theorem C34_restarted (inf : F) (maxRestarts : ℤ) (solve : Option X → Except Err (RSol F X))
    (hne : ∀ x s, solve x = .ok s → s.resnorms ≠ [] ∧ s.errnorms ≠ []) :
    (∃ e x, restarted inf maxRestarts solve = .raised e ∧ solve x = .error e) ∨
    ∃ st sol r, (restarted inf maxRestarts solve = .returned st ∧ ¬ sol.tol < r ∨
        restarted inf maxRestarts solve = .convergence st ∧ sol.tol < r ∧
          st.sols.length = maxRestarts.toNat + 1) ∧
      1 ≤ st.sols.length ∧ st.sols.length ≤ maxRestarts.toNat + 1 ∧
      Chained solve st.sols ∧
      st.sols.getLast? = some sol ∧ st.xk = some sol.xk ∧
      st.resnorms = seamJoin (st.sols.map (·.resnorms)) ∧
      st.errnorms = seamJoin (st.sols.map (·.errnorms)) ∧
      st.resnorms.getLast? = some r := by
  have key : ∀ st' t r, RInv maxRestarts solve inf st' → st'.tol = some t →
      st'.resnorms.getLast? = some r → rGuard maxRestarts st' = false →
      ∃ sol, sol.tol = t ∧ 1 ≤ st'.sols.length ∧ st'.sols.length ≤ maxRestarts.toNat + 1 ∧
      Chained solve st'.sols ∧
      st'.sols.getLast? = some sol ∧ st'.xk = some sol.xk ∧
      st'.resnorms = seamJoin (st'.sols.map (·.resnorms)) ∧
      st'.errnorms = seamJoin (st'.sols.map (·.errnorms)) ∧
      (t < r → st'.sols.length = maxRestarts.toNat + 1) := by
    intro st' t r hi ht hr hg
    have h2 := hi.tol
    rw [ht] at h2
    obtain ⟨sol, hsol, hsol'⟩ := Option.map_eq_some_iff.mp h2.symm
    have hs : st'.sols ≠ [] := by intro h0; simp [h0] at hsol
    have hpos : 1 ≤ st'.sols.length := List.length_pos_iff.mpr hs
    refine ⟨sol, hsol', hpos, by rw [hi.len]; exact hi.bound,
      hi.chained, hsol, by rw [hi.xk, hsol]; rfl, hi.res hs, hi.err hs, ?_⟩
    intro hlt
    have hb := hi.bound
    have hl := hi.len
    simp only [rGuard, ht, hr, Bool.or_eq_false_iff, Bool.and_eq_false_iff] at hg
    rcases hg with ⟨-, hg | hg⟩
    · simp [hlt] at hg
    · simp at hg; omega
  rcases rLoop_spec hne (maxRestarts.toNat + 1) _ (rinv_init maxRestarts solve inf) (by simp) with
    ⟨st', h1, h2, h3, t, r, h4, h5, h6⟩ | ⟨st', h1, h2, h3, t, r, h4, h5, h6⟩ | h
  · right
    obtain ⟨sol, rfl, k1, k2, k3, k4, k5, k6, k7, k8⟩ := key st' t r h2 h4 h5 h3
    exact ⟨st', sol, r, .inl ⟨h1, h6⟩, k1, k2, k3, k4, k5, k6, k7, h5⟩
  · right
    obtain ⟨sol, rfl, k1, k2, k3, k4, k5, k6, k7, k8⟩ := key st' t r h2 h4 h5 h3
    exact ⟨st', sol, r, .inr ⟨h1, h6, k8 h6⟩, k1, k2, k3, k4, k5, k6, k7, h5⟩
  · left; exact h

/-- non-vacuity: an inner solver that halves the residual per cycle; two restarts suffice. -/
example : ∃ st, restarted (F := ℝ) (X := ℕ) 100 3
    (fun x => .ok ⟨x.getD 0 + 1, 1/4, [(1/2) ^ (x.getD 0), (1/2) ^ (x.getD 0 + 1)], [0]⟩) =
      .returned st ∧ st.resnorms = [1, 1/2, 1/4] ∧ st.xk = some 2 := by
  refine ⟨{ xk := some 2, resnorms := [1, 1/2, 1/4], errnorms := [0], tol := some (1/4), restart := 2,
            sols := [⟨1, 1/4, [1, 1/2], [0]⟩, ⟨2, 1/4, [1/2, 1/4], [0]⟩] }, ?_, ?_⟩
  · have h3 : Int.toNat 3 = 3 := rfl
    norm_num [restarted, rLoop, rGuard, rBody, h3]
  · simp

end Krypy
