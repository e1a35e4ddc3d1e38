import Verif.Model.Timings
import Mathlib.Tactic.Linarith
import Mathlib.Tactic.Positivity
import Mathlib.Tactic.NormNum
import Mathlib.Tactic.Ring
import Mathlib.Algebra.Order.BigOperators.Group.List
import Mathlib.Algebra.Order.Ring.Basic

/-! # Property C45: timing estimates -/

set_option linter.unusedSectionVars false

namespace Krypy
variable {K F : Type*} [DecidableEq K] [Field F] [LinearOrder F] [IsStrictOrderedRing F]

/-- Spec: all recorded durations of a key. -/
def Timings.all (tm : Timings K F) (key : K) : List F := (tm key).getD []

omit [IsStrictOrderedRing F] in
theorem pyMin_spec (t : F) (l : List F) : pyMin t l ∈ t :: l ∧ ∀ x ∈ t :: l, pyMin t l ≤ x := by
  induction l generalizing t with
  | nil => simp [pyMin]
  | cons a l ih =>
    obtain ⟨h1, h2⟩ := ih (if a < t then a else t)
    simp only [pyMin]
    constructor
    · rcases List.mem_cons.mp h1 with h | h
      · rw [h]; split <;> simp
      · exact List.mem_cons_of_mem _ (List.mem_cons_of_mem _ h)
    · have h0 := h2 _ (List.mem_cons_self ..)
      intro x hx
      rcases List.mem_cons.mp hx with rfl | hx
      · refine h0.trans ?_; split <;> grind
      · rcases List.mem_cons.mp hx with rfl | hx
        · refine h0.trans ?_; split <;> grind
        · exact h2 x (List.mem_cons_of_mem _ hx)

omit [DecidableEq K] [IsStrictOrderedRing F] in
/-- C45: `get(key)` is the smallest recorded duration, or 0 if there is none. -/
theorem C45_get (tm : Timings K F) (key : K) :
    (tm.all key = [] ∧ tm.get key = 0) ∨
    (tm.get key ∈ tm.all key ∧ ∀ d ∈ tm.all key, tm.get key ≤ d) := by
  unfold Timings.all Timings.get
  cases h : tm key with
  | none => left; simp
  | some l =>
    cases l with
    | nil => left; simp
    | cons t l => right; simpa using pyMin_spec t l

omit [IsStrictOrderedRing F] in
/-- C45: recording (possibly for a block of columns) only affects its key, and the new value is the
minimum of the old one and the new measurement; a first measurement replaces 0. -/
theorem C45_record (tm : Timings K F) (key : K) (d : F) :
    (∀ key' ≠ key, (tm.record key d).get key' = tm.get key') ∧
    (tm.all key ≠ [] → (tm.record key d).get key = min (tm.get key) d) ∧
    (tm.all key = [] → (tm.record key d).get key = d) ∧
    (∀ k, tm.recordBlock key k d = if k = 0 then tm else tm.record key (d / k)) ∧
    (∀ key', (tm.touch key).get key' = tm.get key') := by
  refine ⟨?_, ?_, ?_, fun _ => rfl, ?_⟩
  · intro key' h
    simp [Timings.get, Timings.record, h]
  · intro h
    rcases C45_get tm key with ⟨h', -⟩ | ⟨h1, h2⟩
    · exact absurd h' h
    · have hall : (tm.record key d).all key = tm.all key ++ [d] := by
        simp [Timings.all, Timings.record]
      rcases C45_get (tm.record key d) key with ⟨h3, -⟩ | ⟨h3, h4⟩
      · rw [hall] at h3; simp at h3
      · rw [hall] at h3 h4
        apply le_antisymm
        · exact le_min (h4 _ (by simp [h1])) (h4 _ (by simp))
        · rcases List.mem_append.mp h3 with h3 | h3
          · exact (min_le_left _ _).trans (h2 _ h3)
          · simp at h3
            rw [h3]
            exact min_le_right _ _
  · intro h
    simp only [Timings.all] at h
    simp [Timings.get, Timings.record, h, pyMin]
  · intro key'
    by_cases hk : key' = key
    · subst hk
      simp only [Timings.get, Timings.touch, Function.update_self]
      cases h : tm key' <;> simp
    · simp [Timings.get, Timings.touch, hk]

/-- C45: once an operation has been measured, further recording never increases its estimate. -/
theorem C45_record_antitone (tm : Timings K F) (key key' : K) (d : F) (h : tm.all key ≠ []) :
    (tm.record key d).get key' ≤ tm.get key' := by
  by_cases hk : key' = key
  · subst hk
    rw [(C45_record tm key' d).2.1 h]
    exact min_le_left _ _
  · rw [(C45_record tm key d).1 key' hk]

omit [DecidableEq K] [IsStrictOrderedRing F] in
theorem getOps_aux (tm : Timings K F) (ops : List (K × F)) (a : F) :
    ops.foldl (fun time oc => time + tm.get oc.1 * oc.2) a =
      a + (ops.map fun oc => tm.get oc.1 * oc.2).sum := by
  induction ops generalizing a with
  | nil => simp
  | cons x l ih => simp only [List.foldl_cons, ih, List.map_cons, List.sum_cons]; ring

omit [DecidableEq K] [IsStrictOrderedRing F] in
/-- C45: `get_ops` is the sum of `get(op) * count`; hence linear in the counts. -/
theorem C45_getOps (tm : Timings K F) (ops : List (K × F)) :
    tm.getOps ops = (ops.map fun oc => tm.get oc.1 * oc.2).sum ∧
    (∀ c, tm.getOps (ops.map fun oc => (oc.1, c * oc.2)) = c * tm.getOps ops) ∧
    (∀ ops', tm.getOps (ops ++ ops') = tm.getOps ops + tm.getOps ops') := by
  have h : ∀ ops, tm.getOps ops = (ops.map fun oc => tm.get oc.1 * oc.2).sum := by
    intro ops; simp [Timings.getOps, getOps_aux]
  refine ⟨h ops, ?_, ?_⟩
  · intro c
    rw [h, h, List.map_map]
    induction ops with
    | nil => simp
    | cons x l ih =>
      simp only [List.map_cons, List.sum_cons, Function.comp]
      simp only [Function.comp_def] at ih ⊢
      rw [ih]; ring
  · intro ops'; rw [h, h, h]; simp

/-- Spec: all measurements are non-negative. -/
def Timings.Nonneg (tm : Timings K F) : Prop := ∀ key, ∀ d ∈ tm.all key, 0 ≤ d

omit [DecidableEq K] [IsStrictOrderedRing F] in
theorem Timings.Nonneg.get {tm : Timings K F} (h : tm.Nonneg) (key : K) : 0 ≤ tm.get key := by
  rcases C45_get tm key with ⟨-, h1⟩ | ⟨h1, -⟩
  · rw [h1]
  · exact h key _ h1

omit [DecidableEq K] in
/-- C45: estimates are non-negative and monotone in the operation counts (same operations). -/
theorem C45_getOps_mono {tm : Timings K F} (h : tm.Nonneg) {ops ops' : List (K × F)}
    (hops : List.Forall₂ (fun a b => a.1 = b.1 ∧ a.2 ≤ b.2) ops ops') :
    tm.getOps ops ≤ tm.getOps ops' := by
  rw [(C45_getOps tm ops).1, (C45_getOps tm ops').1]
  induction hops with
  | nil => simp
  | @cons a b _ _ hab _ ih =>
    simp only [List.map_cons, List.sum_cons]
    have := mul_le_mul_of_nonneg_left hab.2 (h.get b.1)
    rw [hab.1]
    exact add_le_add this ih

omit [DecidableEq K] in
theorem C45_getOps_nonneg {tm : Timings K F} (h : tm.Nonneg) {ops : List (K × F)}
    (hops : ∀ oc ∈ ops, 0 ≤ oc.2) : 0 ≤ tm.getOps ops := by
  rw [(C45_getOps tm ops).1]
  apply List.sum_nonneg
  intro x hx
  obtain ⟨oc, h1, rfl⟩ := List.mem_map.mp hx
  exact mul_nonneg (h.get _) (hops oc h1)

/-- C45: `estimate_time` raises exactly for untimed systems. -/
theorem C45_estimate_error (kind : SolverKind) (nsteps ndefl w : F)
    (tm : Option (Timings Op F)) :
    (∃ e, estimateTime kind tm nsteps ndefl w = .error e) ↔ tm = none := by
  cases tm <;> simp [estimateTime]

/-- C45: for non-negative measurements the estimate is non-negative and monotone in the number of
steps, the number of deflation vectors and the deflation weight. -/
theorem C45_estimate_mono (kind : SolverKind) {tm : Timings Op F} (h : tm.Nonneg)
    {n n' d d' w w' : F} (hn : 0 ≤ n) (hnn : n ≤ n') (hd : 0 ≤ d) (hdd : d ≤ d') (hw : 0 ≤ w)
    (hww : w ≤ w') : ∃ t t', estimateTime kind (some tm) n d w = .ok t ∧
      estimateTime kind (some tm) n' d' w' = .ok t' ∧ 0 ≤ t ∧ t ≤ t' := by
  refine ⟨_, _, rfl, rfl, ?_, ?_⟩
  all_goals
    have h1 : 0 ≤ tm.getOps (operations kind n) := by
      apply C45_getOps_nonneg h
      cases kind <;> simp only [operations] <;> intro oc hoc <;>
        simp only [List.mem_cons, List.not_mem_nil, or_false] at hoc <;>
        rcases hoc with rfl | rfl | rfl | rfl | rfl | rfl <;> simp only <;> positivity
    have h2 : 0 ≤ tm.getOps (projOps kind n d) := by
      apply C45_getOps_nonneg h
      cases kind <;> simp [projOps, operations, opCount] <;>
        exact ⟨by assumption, by positivity, by positivity⟩
  · positivity
  · have hn' : 0 ≤ n' := hn.trans hnn
    have hd' : 0 ≤ d' := hd.trans hdd
    have e1 : n * (n + 1) / 2 ≤ n' * (n' + 1) / 2 := by
      have := mul_le_mul hnn (add_le_add hnn (le_refl (1 : F))) (by positivity) hn'
      linarith
    have e2 : d * (d + 1) / 2 ≤ d' * (d' + 1) / 2 := by
      have := mul_le_mul hdd (add_le_add hdd (le_refl (1 : F))) (by positivity) hd'
      linarith
    have e3 : d * d ≤ d' * d' := mul_le_mul hdd hdd hd hd'
    have e4 : 2 * d * (2 + n) ≤ 2 * d' * (2 + n') :=
      mul_le_mul (by linarith) (by linarith) (by positivity) (by positivity)
    have e5 : (2 * d + 2) * (2 + n) ≤ (2 * d' + 2) * (2 + n') :=
      mul_le_mul (by linarith) (by linarith) (by positivity) (by positivity)
    have h3 : tm.getOps (operations kind n) ≤ tm.getOps (operations kind n') := by
      apply C45_getOps_mono h
      cases kind <;> simp [operations] <;> (repeat' constructor) <;> linarith
    have h4 : tm.getOps (projOps kind n d) ≤ tm.getOps (projOps kind n' d') := by
      apply C45_getOps_mono h
      cases kind <;> simp [projOps, operations, opCount, hdd, pow_two] <;>
        exact ⟨by linarith, by linarith⟩
    exact add_le_add h3 ((mul_le_mul_of_nonneg_right hww h2).trans
      (mul_le_mul_of_nonneg_left h4 (hw.trans hww)))

/-- Non-vacuity: `A` was measured twice, the faster time counts; a GMRES estimate. -/
example : ∃ tm : Timings Op ℚ, tm.Nonneg ∧ tm.get .A = 2 ∧
    estimateTime .gmres (some tm) 3 1 1 = .ok (2 * 4 + 1 * (2 * 1)) := by
  refine ⟨(Timings.record (Timings.record (fun _ => none) .A 5) .A 2), ?_, ?_, ?_⟩
  · intro key d hd
    by_cases h : key = .A
    · subst h; simp [Timings.all, Timings.record] at hd; rcases hd with rfl | rfl <;> norm_num
    · simp [Timings.all, Timings.record, h] at hd
  · simp [Timings.get, Timings.record, pyMin]; norm_num
  · simp [estimateTime, Timings.getOps, operations, projOps, opCount, Timings.get, Timings.record,
      pyMin]
    norm_num

end Krypy
