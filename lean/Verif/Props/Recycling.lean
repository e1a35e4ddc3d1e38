import Verif.Model.Recycling
import Mathlib.Tactic.Common

/-! # Property C44: the recycling solver state machine -/

namespace Krypy
variable {Sol E : Type*}

/-- Spec: the solver object of the last call in a history that succeeded. -/
def lastSuccess (h : List (CallRecord Sol E)) : Option Sol :=
  (h.filterMap fun r => r.result.toOption).getLast?

/-- Spec: what a call must do, given the history of earlier calls: which deflation vectors are computed
and what is returned. -/
def CallSpec (sc : Shortcuts Sol E) (default : Option (VFactory Sol E))
    (history : List (CallRecord Sol E)) (c : Call Sol E) (r : CallRecord Sol E) : Prop :=
  match lastSuccess history, (c.factory <|> default) with
  | some s, some f => match f.getFun sc s with
    | .ok U => r.U = some U ∧ r.result = c.solver U
    | .error e => r.U = none ∧ r.result = .error e
  | _, _ => r.U = some [] ∧ r.result = c.solver []

theorem recSolve_spec (sc : Shortcuts Sol E) (default : Option (VFactory Sol E))
    (st : RecState Sol) (h : List (CallRecord Sol E)) (hst : st.lastSolver = lastSuccess h)
    (c : Call Sol E) :
    CallSpec sc default h c (recSolve sc default st c).2 ∧
    (recSolve sc default st c).1.lastSolver = lastSuccess (h ++ [(recSolve sc default st c).2]) ∧
    (recSolve sc default st c).1.nFactoryTimings = st.nFactoryTimings + 1 ∧
    (recSolve sc default st c).1.nSolveTimings =
      st.nSolveTimings + (recSolve sc default st c).2.U.isSome.toNat := by
  have hf : (c.factory <|> default) = c.effFactory default := by
    unfold Call.effFactory
    cases c.factory <;> rfl
  unfold CallSpec
  rw [hf, ← hst]
  unfold recSolve
  simp only
  generalize c.effFactory default = fac
  have key : ∀ (st' : RecState Sol) (U : List E), st'.lastSolver = lastSuccess h →
      (recRunSolver st' c U).2.U = some U ∧ (recRunSolver st' c U).2.result = c.solver U ∧
      (recRunSolver st' c U).1.lastSolver = lastSuccess (h ++ [(recRunSolver st' c U).2]) ∧
      (recRunSolver st' c U).1.nFactoryTimings = st'.nFactoryTimings ∧
      (recRunSolver st' c U).1.nSolveTimings = st'.nSolveTimings + 1 := by
    intro st' U hst'
    unfold recRunSolver
    split <;> simp_all [lastSuccess, Except.toOption]
  cases hl : st.lastSolver with
  | none =>
    obtain ⟨k1, k2, k3, k4, k5⟩ := key ⟨none, st.nFactoryTimings + 1, st.nSolveTimings⟩ []
      (by rw [← hst, hl])
    refine ⟨⟨k1, k2⟩, k3, k4, ?_⟩
    simp [k5, k1]
  | some s =>
    cases fac with
    | none =>
      obtain ⟨k1, k2, k3, k4, k5⟩ := key ⟨some s, st.nFactoryTimings + 1, st.nSolveTimings⟩ []
        (by rw [← hst, hl])
      refine ⟨⟨k1, k2⟩, k3, k4, ?_⟩
      simp [k5, k1]
    | some f =>
      simp only
      cases hg : f.getFun sc s with
      | error e =>
        simp only
        refine ⟨by simp, ?_, trivial, by simp⟩
        rw [hl] at hst
        simp [lastSuccess, Except.toOption] at hst ⊢
        simp [hst]
      | ok U =>
        obtain ⟨k1, k2, k3, k4, k5⟩ := key ⟨some s, st.nFactoryTimings + 1, st.nSolveTimings⟩ U
          (by rw [← hst, hl])
        refine ⟨⟨k1, k2⟩, k3, k4, ?_⟩
        simp [k5, k1]

theorem recRun_spec (sc : Shortcuts Sol E) (default : Option (VFactory Sol E))
    (st : RecState Sol) (h : List (CallRecord Sol E)) (hst : st.lastSolver = lastSuccess h)
    (cs : List (Call Sol E)) :
    (recRun sc default st cs).2.length = cs.length ∧
    (∀ i c r, cs[i]? = some c → (recRun sc default st cs).2[i]? = some r →
      CallSpec sc default (h ++ (recRun sc default st cs).2.take i) c r) ∧
    (recRun sc default st cs).1.lastSolver = lastSuccess (h ++ (recRun sc default st cs).2) ∧
    (recRun sc default st cs).1.nFactoryTimings = st.nFactoryTimings + cs.length ∧
    (recRun sc default st cs).1.nSolveTimings =
      st.nSolveTimings + ((recRun sc default st cs).2.countP fun r => r.U.isSome) := by
  induction cs generalizing st h with
  | nil => simp [recRun, hst]
  | cons c cs ih =>
    obtain ⟨h1, h2, h3, h4⟩ := recSolve_spec sc default st h hst c
    obtain ⟨k1, k2, k3, k4, k5⟩ := ih _ _ h2
    simp only [recRun]
    refine ⟨by simp [k1], ?_, ?_, ?_, ?_⟩
    · intro i c' r hc hr
      cases i with
      | zero => simp at hc hr; subst hc; subst hr; simpa using h1
      | succ i =>
        simp at hc hr
        have := k2 i c' r hc hr
        simpa using this
    · rw [k3]; simp
    · rw [k4, h3]; simp; omega
    · rw [k5, h4, List.countP_cons]
      cases (recSolve sc default st c).2.U <;> simp [Nat.add_assoc, Nat.add_comm]

/-- C44: for every sequence of `solve` calls with arbitrary outcomes: call number `i` uses no
deflation vectors if no earlier call succeeded or no factory is given, otherwise exactly the vectors its
factory (argument, else the constructor's) extracts from the solver of the last successful call; the
returned object is what the deflated solver returned; afterwards `last_solver` is the solver of the last
successful call. -/
theorem C44_history (sc : Shortcuts Sol E) (default : Option (VFactory Sol E))
    (cs : List (Call Sol E)) :
    let run := recRun sc default RecState.init cs
    run.2.length = cs.length ∧
    (∀ i c r, cs[i]? = some c → run.2[i]? = some r → CallSpec sc default (run.2.take i) c r) ∧
    run.1.lastSolver = lastSuccess run.2 ∧
    run.1.nFactoryTimings = cs.length ∧
    run.1.nSolveTimings = run.2.countP fun r => r.U.isSome := by
  have := recRun_spec sc default RecState.init [] rfl cs
  simpa [RecState.init] using this

/-- C44: the first call never deflates, whatever the factory is (even if it is an unusable string). -/
theorem C44_first (sc : Shortcuts Sol E) (default : Option (VFactory Sol E)) (c : Call Sol E)
    (cs : List (Call Sol E)) :
    (recRun sc default RecState.init (c :: cs)).2.head? = some ⟨some [], c.solver []⟩ := by
  simp only [recRun, List.head?_cons, Option.some.injEq]
  unfold recSolve recRunSolver
  simp only [RecState.init]
  split <;> simp_all

/-- C44: the strings which the documentation lists select the factory of that name, for the object and for a single call;
every other string is an error, raised before the solver is called. -/
theorem C44_shortcuts (sc : Shortcuts Sol E) (default : Option (VFactory Sol E)) (st : RecState Sol) (s : Sol)
    (hs : st.lastSolver = some s) (c : Call Sol E) :
    (∀ name get, (name, get) ∈ [("RitzApproxKrylov", sc.ritzApproxKrylov), ("RitzAprioriCg", sc.ritzAprioriCg),
      ("RitzAprioriMinres", sc.ritzAprioriMinres)] → ∀ U, get s = .ok U →
      (c.factory = some (.str name) ∨ (c.factory = none ∧ default = some (.str name)) →
        (recSolve sc default st c).2 = ⟨some U, c.solver U⟩)) ∧
    (∀ name, name ∉ ["RitzApproxKrylov", "RitzAprioriCg", "RitzAprioriMinres"] → c.factory = some (.str name) →
      recSolve sc default st c = ({ st with nFactoryTimings := st.nFactoryTimings + 1 }, ⟨none, .error .other⟩)) := by
  constructor
  · intro name get hm U hU hf
    have hfac : c.effFactory default = some (.str name) := by
      unfold Call.effFactory
      rcases hf with h | ⟨h, h'⟩
      · simp [h]
      · simp [h, h']
    have hget : (VFactory.str name).getFun sc s = .ok U := by
      simp only [List.mem_cons, Prod.mk.injEq, List.not_mem_nil, or_false] at hm
      rcases hm with ⟨rfl, rfl⟩ | ⟨rfl, rfl⟩ | ⟨rfl, rfl⟩ <;> exact hU
    unfold recSolve recRunSolver
    simp only [hfac, hs, hget]
    cases c.solver U <;> rfl
  · intro name hn hf
    have hfac : c.effFactory default = some (.str name) := by
      unfold Call.effFactory; simp [hf]
    have hget : (VFactory.str name).getFun sc s = .error .other := by
      simp only [List.mem_cons, List.not_mem_nil, or_false, not_or] at hn
      have : (VFactory.str name : VFactory Sol E).getFun sc = fun _ => .error .other := by
        unfold VFactory.getFun
        split <;> simp_all
      rw [this]
    unfold recSolve
    simp only [hfac, hs, hget]

/-- C44: without any factory no call ever deflates. -/
theorem C44_no_factory (sc : Shortcuts Sol E) (cs : List (Call Sol E))
    (hcs : ∀ c ∈ cs, c.factory = none) :
    ∀ r ∈ (recRun sc none RecState.init cs).2, r.U = some [] := by
  intro r hr
  obtain ⟨hlen, hspec, -⟩ := C44_history sc none cs
  obtain ⟨i, hi, hri⟩ := List.mem_iff_getElem.mp hr
  have hi' : i < cs.length := by rw [← hlen]; exact hi
  have := hspec i cs[i] r (by simp [hi']) (by rw [← hri]; simp [hi])
  unfold CallSpec at this
  rw [hcs cs[i] (List.getElem_mem hi')] at this
  have hn : ((none : Option (VFactory Sol E)) <|> none) = none := rfl
  rw [hn] at this
  cases hl : lastSuccess ((recRun sc none RecState.init cs).2.take i) <;> simp only [hl] at this <;>
    exact this.1

/-- C44: a failed call leaves `last_solver` unchanged. -/
theorem C44_failure_keeps_state (sc : Shortcuts Sol E) (default : Option (VFactory Sol E))
    (st : RecState Sol) (c : Call Sol E) (e : Err)
    (h : (recSolve sc default st c).2.result = .error e) :
    (recSolve sc default st c).1.lastSolver = st.lastSolver := by
  unfold recSolve at h ⊢
  simp only at h ⊢
  split at h
  · rfl
  · unfold recRunSolver at h ⊢
    split at h <;> simp_all

/-- Three calls: success, failure, success; the third one recycles from the first. Solvers are numbers,
the factory returns the number as the only vector. -/
example :
    let f : VFactory ℕ ℕ := .obj fun s => .ok [s]
    let sc : Shortcuts ℕ ℕ := ⟨fun _ => .ok [], fun _ => .ok [], fun _ => .ok []⟩
    (recRun sc (some f) RecState.init
      [⟨none, fun U => .ok (7 + U.length)⟩, ⟨none, fun _ => .error .other⟩,
       ⟨none, fun U => .ok (20 + U.length)⟩]).2.map (fun r => (r.U, r.result.toOption)) =
      [(some [], some 7), (some [7], none), (some [7], some 21)] := by rfl

/-- the hypothesis of `C44_failure_keeps_state` is met by a solver that raises -/
example : ((recSolve (⟨fun _ => .ok [], fun _ => .ok [], fun _ => .ok []⟩ : Shortcuts ℕ ℕ) none
    ⟨some 3, 0, 0⟩ ⟨none, fun _ => .error .other⟩).2.result) = .error .other := by rfl

end Krypy
