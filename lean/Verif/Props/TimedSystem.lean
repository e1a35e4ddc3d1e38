import Verif.Model.TimedSystem
import Verif.Props.Operators
import Verif.Props.Timings
import Mathlib.Order.Monotone.Basic

/-! # Property C63: timed operators and systems give the results of untimed ones, and what they measure -/

set_option linter.unusedSectionVars false

namespace Krypy.Timed
open Krypy.Ops Matrix
variable {𝕜 K F : Type*} [RCLike 𝕜] [DecidableEq K] [Field F] [LinearOrder F] [IsStrictOrderedRing F]

/-! ## Specification -/

/-- The operator object without keys; this is the object of the model of C01-C03, in which timing has no effect. -/
def TOp.forget : TOp 𝕜 K → Ops.Op 𝕜
  | .base A => A
  | .timed _ A => .timed A.forget
  | .sum A B => .sum A.forget B.forget
  | .prod A B => .prod A.forget B.forget
  | .scaled A α => .scaled A.forget α
  | .power A p => .power A.forget p
  | .adj A => .adj A.forget

/-- All measurements under a key. -/
def World.all (w : World K F) (key : K) : List F := (w.tm key).getD []

/-- A later world: time goes on, measurements are appended and never changed, entries do not vanish, and the new measurements are not
negative if the clock does not go back. -/
structure Later (clk : ℕ → F) (w w' : World K F) : Prop where
  now : w.now ≤ w'.now
  all : ∀ key, ∃ l, w'.all key = w.all key ++ l ∧ (Monotone clk → ∀ d ∈ l, 0 ≤ d)
  keys : ∀ key, w.tm key ≠ none → w'.tm key ≠ none

/-- The computation has the result `r` in each world, and leads to a later world. -/
def Yields {ε α : Type*} (clk : ℕ → F) (a : Act K F ε α) (r : Except ε α) : Prop :=
  ∀ w, (a w).1 = r ∧ Later clk w (a w).2

/-! ## Lemmas -/

theorem Later.refl (clk : ℕ → F) (w : World K F) : Later clk w w := ⟨le_rfl, fun _ => ⟨[], by simp⟩, fun _ h => h⟩

theorem Later.trans {clk : ℕ → F} {w1 w2 w3 : World K F} (h : Later clk w1 w2) (h' : Later clk w2 w3) : Later clk w1 w3 := by
  refine ⟨h.now.trans h'.now, fun key => ?_, fun key hk => h'.keys key (h.keys key hk)⟩
  obtain ⟨l, h1, h2⟩ := h.all key
  obtain ⟨l', h1', h2'⟩ := h'.all key
  refine ⟨l ++ l', by rw [h1', h1, List.append_assoc], fun hm d hd => ?_⟩
  rcases List.mem_append.mp hd with hd | hd
  · exact h2 hm d hd
  · exact h2' hm d hd

theorem Yields.lift {ε α : Type*} (clk : ℕ → F) (r : Except ε α) : Yields (K := K) clk (Act.lift r) r :=
  fun w => ⟨rfl, Later.refl clk w⟩

/-- Composition without effects. -/
def exBind {ε α β : Type*} (r : Except ε α) (g : α → Except ε β) : Except ε β :=
  match r with
  | .error e => .error e
  | .ok x => g x

theorem Yields.bind {ε α β : Type*} {clk : ℕ → F} {a : Act K F ε α} {r : Except ε α} (ha : Yields clk a r) {f : α → Act K F ε β}
    {g : α → Except ε β} (hf : ∀ x, Yields clk (f x) (g x)) :
    Yields clk (Act.bind a f) (exBind r g) := by
  intro w
  obtain ⟨h1, h2⟩ := ha w
  unfold Act.bind
  cases h : a w with
  | mk r' w' =>
    rw [h] at h1 h2
    dsimp only at h1 h2
    subst h1
    cases r' with
    | error e => exact ⟨rfl, h2⟩
    | ok x => exact ⟨(hf x w').1, h2.trans (hf x w').2⟩

/-- What a timed block does to the world, given the world `w'` after the block. -/
theorem timedBlock_eq {ε α : Type*} (clk : ℕ → F) (key : K) (k : F) (a : Act K F ε α) (w : World K F) :
    timedBlock clk key k a w = ((a ⟨w.now + 1, w.tm⟩).1, ⟨(a ⟨w.now + 1, w.tm⟩).2.now + 1,
      (a ⟨w.now + 1, w.tm⟩).2.tm.record key (match (a ⟨w.now + 1, w.tm⟩).1 with
        | .error _ => clk (a ⟨w.now + 1, w.tm⟩).2.now - clk w.now
        | .ok _ => (clk (a ⟨w.now + 1, w.tm⟩).2.now - clk w.now) / k)⟩) := by
  unfold timedBlock withTimer
  cases h : a ⟨w.now + 1, w.tm⟩ with
  | mk r w' =>
    cases r with
    | error e => rfl
    | ok x =>
      simp only [divLast, Timings.record, Function.update_self, List.getLast?_append, List.getLast?_singleton,
        Option.some_or, List.dropLast_concat, Function.update_idem]

theorem Yields.timedBlock {ε α : Type*} {clk : ℕ → F} (key : K) {k : F} (hk : 0 ≤ k) {a : Act K F ε α} {r : Except ε α}
    (ha : Yields clk a r) : Yields clk (timedBlock clk key k a) r := by
  intro w
  obtain ⟨h1, h2⟩ := ha ⟨w.now + 1, w.tm⟩
  rw [timedBlock_eq]
  generalize a ⟨w.now + 1, w.tm⟩ = p at h1 h2
  obtain ⟨r', w'⟩ := p
  dsimp only at h1 h2 ⊢
  have hn : w.now + 1 ≤ w'.now := h2.now
  refine ⟨h1, by dsimp only; omega, fun key' => ?_, fun key' hk' => ?_⟩
  · obtain ⟨l, h3, h4⟩ := h2.all key'
    have h3 : w'.all key' = w.all key' ++ l := h3
    by_cases hkey : key' = key
    · subst hkey
      refine ⟨l ++ [match r' with
        | .error _ => clk w'.now - clk w.now
        | .ok _ => (clk w'.now - clk w.now) / k], ?_, fun hm d hd => ?_⟩
      · simp only [World.all, Timings.record, Function.update_self, Option.getD_some] at h3 ⊢
        rw [h3, List.append_assoc]
      · rcases List.mem_append.mp hd with hd | hd
        · exact h4 hm d hd
        · obtain rfl := List.mem_singleton.mp hd
          have : 0 ≤ clk w'.now - clk w.now := sub_nonneg.mpr (hm (by omega))
          cases r' with
          | error e => exact this
          | ok x => exact div_nonneg this hk
    · refine ⟨l, ?_, h4⟩
      simp only [World.all, Timings.record, Function.update_of_ne hkey] at h3 ⊢
      exact h3
  · by_cases hkey : key' = key
    · subst hkey
      simp [Timings.record]
    · have := h2.keys key' hk'
      simpa only [Timings.record, Function.update_of_ne hkey] using this

/-- The relation of a method with effects to one without. -/
def FnRel (clk : ℕ → F) (f : TFn 𝕜 K F) (g : Fn 𝕜) : Prop := ∀ X, Yields clk (f X) (g X)

def OptRel (clk : ℕ → F) : Option (TFn 𝕜 K F) → Option (Fn 𝕜) → Prop
  | none, none => True
  | some f, some g => FnRel clk f g
  | _, _ => False

theorem FnRel.guard {clk : ℕ → F} {n : ℕ} {f : Option (TFn 𝕜 K F)} {g : Option (Fn 𝕜)} (h : OptRel clk f g) :
    FnRel clk (tguard n f) (guard n g) := by
  intro X
  unfold tguard Ops.guard
  split
  · exact Yields.lift _ _
  · cases f <;> cases g
    · exact Yields.lift _ _
    · exact h.elim
    · exact h.elim
    · dsimp only
      split
      · exact Yields.lift _ _
      · exact h X

theorem FnRel.iter {clk : ℕ → F} {f : Option (TFn 𝕜 K F)} {g : Option (Fn 𝕜)} (h : OptRel clk f g) (n : ℕ) :
    FnRel clk (titer f n) (Ops.iter g n) := by
  induction n with
  | zero => intro X; exact Yields.lift _ _
  | succ n ih =>
    intro X
    cases f <;> cases g
    · have := Yields.bind (ih X) fun Y => Yields.lift (K := K) clk (.error OpErr.type : Except OpErr (Arr 𝕜))
      unfold titer Ops.iter
      convert this using 1
      unfold exBind
      cases Ops.iter none n X <;> rfl
    · exact h.elim
    · exact h.elim
    next f g =>
      have := Yields.bind (ih X) h
      unfold titer Ops.iter
      convert this using 1
      unfold exBind
      cases Ops.iter (some g) n X <;> rfl

theorem FnRel.andThen {clk : ℕ → F} {f f' : TFn 𝕜 K F} {g g' : Fn 𝕜} (h : FnRel clk f g) (h' : FnRel clk f' g') :
    FnRel clk (tandThen f f') (Ops.andThen g g') := by
  intro X
  have := Yields.bind (h X) h'
  unfold tandThen
  convert this using 1
  unfold Ops.andThen exBind
  cases g X <;> rfl

theorem FnRel.plus {clk : ℕ → F} {f f' : TFn 𝕜 K F} {g g' : Fn 𝕜} (h : FnRel clk f g) (h' : FnRel clk f' g') :
    FnRel clk (tplus f f') (Ops.plus g g') := by
  intro X
  have := Yields.bind (h X) fun Y => Yields.bind (h' X) fun Z => Yields.lift clk (Y.add Z)
  unfold tplus
  convert this using 1
  unfold Ops.plus exBind
  cases g X <;> cases g' X <;> rfl

theorem FnRel.times {clk : ℕ → F} (α : 𝕜) {f : TFn 𝕜 K F} {g : Fn 𝕜} (h : FnRel clk f g) : FnRel clk (ttimes α f) (Ops.times α g) := by
  intro X
  have := Yields.bind (h X) fun Y => Yields.lift clk (.ok (Y.smul α))
  unfold ttimes
  convert this using 1
  unfold Ops.times exBind
  cases g X <;> rfl

structure CallsRel (clk : ℕ → F) (c : TCalls 𝕜 K F) (d : Calls 𝕜) : Prop where
  raw : OptRel clk c.rawDot d.rawDot
  rawAdj : OptRel clk c.rawAdj d.rawAdj
  dot : FnRel clk c.dot d.dot
  dotAdj : FnRel clk c.dotAdj d.dotAdj

theorem CallsRel.std {clk : ℕ → F} (shape : ℕ × ℕ) {f f' : Option (TFn 𝕜 K F)} {g g' : Option (Fn 𝕜)} (h : OptRel clk f g)
    (h' : OptRel clk f' g') : CallsRel clk (TCalls.std shape f f') (Calls.std shape g g') :=
  ⟨h, h', FnRel.guard h, FnRel.guard h'⟩

theorem shape_forget (A : TOp 𝕜 K) : A.forget.shape = A.shape := by
  induction A <;> simp_all [TOp.forget, TOp.shape, Ops.Op.shape]

theorem calls_forget (clk : ℕ → F) (A : TOp 𝕜 K) : CallsRel clk (A.calls clk) A.forget.calls := by
  have hopt : ∀ o : Option (Fn 𝕜), OptRel (K := K) clk (o.map liftFn) o := by
    intro o
    cases o with
    | none => exact trivial
    | some g => exact fun X => Yields.lift _ _
  induction A with
  | base A => exact ⟨hopt _, hopt _, fun X => Yields.lift _ _, fun X => Yields.lift _ _⟩
  | timed key A ih =>
    refine ⟨ih.dot, ih.dotAdj, fun X => ?_, fun X => ?_⟩
    · simp only [TOp.calls]
      split
      · exact ih.dot X
      · exact Yields.timedBlock key (Nat.cast_nonneg _) (ih.dot X)
    · simp only [TOp.calls, TOp.forget, Ops.Op.calls]
      split
      · exact ih.dot X
      · exact Yields.timedBlock key (Nat.cast_nonneg _) (ih.dotAdj X)
  | sum A B ihA ihB =>
    have := CallsRel.std A.shape (f := some (tplus (A.calls clk).dot (B.calls clk).dot))
      (g := some (Ops.plus A.forget.calls.dot B.forget.calls.dot)) (FnRel.plus ihA.dot ihB.dot)
      (f' := some (tplus (A.calls clk).dotAdj (B.calls clk).dotAdj))
      (g' := some (Ops.plus A.forget.calls.dotAdj B.forget.calls.dotAdj)) (FnRel.plus ihA.dotAdj ihB.dotAdj)
    simp only [TOp.calls, TOp.forget, Ops.Op.calls, shape_forget]
    exact this
  | prod A B ihA ihB =>
    have := CallsRel.std (A.shape.1, B.shape.2) (f := some (tandThen (B.calls clk).dot (A.calls clk).dot))
      (g := some (Ops.andThen B.forget.calls.dot A.forget.calls.dot)) (FnRel.andThen ihB.dot ihA.dot)
      (f' := some (tandThen (A.calls clk).dotAdj (B.calls clk).dotAdj))
      (g' := some (Ops.andThen A.forget.calls.dotAdj B.forget.calls.dotAdj)) (FnRel.andThen ihA.dotAdj ihB.dotAdj)
    simp only [TOp.calls, TOp.forget, Ops.Op.calls, shape_forget]
    exact this
  | scaled A α ih =>
    have := CallsRel.std A.shape (f := some (ttimes α (A.calls clk).dot)) (g := some (Ops.times α A.forget.calls.dot))
      (FnRel.times α ih.dot) (f' := some (ttimes (star α) (A.calls clk).dotAdj))
      (g' := some (Ops.times (star α) A.forget.calls.dotAdj)) (FnRel.times (star α) ih.dotAdj)
    simp only [TOp.calls, TOp.forget, Ops.Op.calls, shape_forget]
    exact this
  | power A p ih =>
    have := CallsRel.std A.shape (f := some (titer (some (A.calls clk).dot) p.toNat))
      (g := some (Ops.iter (some A.forget.calls.dot) p.toNat))
      (FnRel.iter (f := some (A.calls clk).dot) (g := some A.forget.calls.dot) ih.dot p.toNat)
      (f' := some (titer (A.calls clk).rawAdj p.toNat)) (g' := some (Ops.iter A.forget.calls.rawAdj p.toNat)) (FnRel.iter ih.rawAdj p.toNat)
    simp only [TOp.calls, TOp.forget, Ops.Op.calls, shape_forget]
    exact this
  | adj A ih =>
    have := CallsRel.std (A.shape.2, A.shape.1) ih.rawAdj ih.raw
    simp only [TOp.calls, TOp.forget, Ops.Op.calls, shape_forget]
    exact this

/-! ## Operators -/

/-- C63: for every operator object with any timers in it, `dot` and `dot_adj` return (or raise) the same in each world, namely what
the model of C01-C03 says; measurements are only appended, and are not negative if the clock does not go back. -/
theorem C63_operator (clk : ℕ → F) (A : TOp 𝕜 K) (X : Arr 𝕜) :
    Yields clk (A.dot clk X) (A.forget.dot X) ∧ Yields clk (A.dotAdj clk X) (A.forget.dotAdj X) :=
  ⟨(calls_forget clk A).dot X, (calls_forget clk A).dotAdj X⟩

/-- C63: a timed operator returns what the operator returns. -/
theorem C63_transparent (clk : ℕ → F) (key : K) (A : TOp 𝕜 K) (X : Arr 𝕜) (w w' : World K F) :
    ((TOp.timed key A).dot clk X w).1 = (A.dot clk X w').1 ∧
    (X.cols ≠ 0 → ((TOp.timed key A).dotAdj clk X w).1 = (A.dotAdj clk X w').1) := by
  refine ⟨?_, fun hX => ?_⟩
  · rw [((C63_operator clk (TOp.timed key A) X).1 w).1, ((C63_operator clk A X).1 w').1]
    rfl
  · rw [((C63_operator clk (TOp.timed key A) X).2 w).1, ((C63_operator clk A X).2 w').1]
    simp only [TOp.forget, Ops.Op.dotAdj, Ops.Op.calls, if_neg hX]

/-- C63: applying a timed operator to a block of `k` columns appends exactly one measurement to its timer: the time of the call divided
by `k` (all of the time if the operator raises); nothing is measured for `k = 0`.  `A` itself has no timers. -/
theorem C63_measure (clk : ℕ → F) (key : K) (A : Ops.Op 𝕜) (X : Arr 𝕜) (w : World K F) :
    (X.cols = 0 → ((TOp.timed key (.base A)).dot clk X w).2 = w) ∧
    (X.cols ≠ 0 → (∀ Y, A.dot X = .ok Y → ((TOp.timed key (.base A)).dot clk X w).2 =
        ⟨w.now + 2, w.tm.record key ((clk (w.now + 1) - clk w.now) / X.cols)⟩) ∧
      (∀ e, A.dot X = .error e → ((TOp.timed key (.base A)).dot clk X w).2 =
        ⟨w.now + 2, w.tm.record key (clk (w.now + 1) - clk w.now)⟩) ∧
      (∀ Y, A.dotAdj X = .ok Y → ((TOp.timed key (.base A)).dotAdj clk X w).2 =
        ⟨w.now + 2, w.tm.record key ((clk (w.now + 1) - clk w.now) / X.cols)⟩)) := by
  refine ⟨fun h => ?_, fun h => ⟨fun Y hY => ?_, fun e he => ?_, fun Y hY => ?_⟩⟩
  · simp only [TOp.dot, TOp.calls, if_pos h]
    rfl
  · have hY : A.calls.dot X = .ok Y := hY
    simp only [TOp.dot, TOp.calls, if_neg h, timedBlock_eq, liftFn, Act.lift, hY]
  · have he : A.calls.dot X = .error e := he
    simp only [TOp.dot, TOp.calls, if_neg h, timedBlock_eq, liftFn, Act.lift, he]
  · have hY : A.calls.dotAdj X = .ok Y := hY
    simp only [TOp.dotAdj, TOp.calls, if_neg h, timedBlock_eq, liftFn, Act.lift, hY]

/-- C63: calling the timed version of a callable inner product with blocks of `m` and `n` columns appends exactly one measurement to
the timer: the time of the call divided by `m·n`, the number of inner products (all of the time if the callable raises); nothing is
measured if one of the blocks is empty. -/
theorem C63_measure_ip (clk : ℕ → F) (key : K) (f : Arr 𝕜 → Arr 𝕜 → Except OpErr (Arr 𝕜)) (X Y : Arr 𝕜) (w : World K F) :
    (X.cols = 0 ∨ Y.cols = 0 → tinner clk (.callable (.timed key (.base f))) X Y w = (f X Y, w)) ∧
    (X.cols ≠ 0 → Y.cols ≠ 0 → (∀ Z, f X Y = .ok Z → tinner clk (.callable (.timed key (.base f))) X Y w =
        (.ok Z, ⟨w.now + 2, w.tm.record key ((clk (w.now + 1) - clk w.now) / (X.cols * Y.cols))⟩)) ∧
      (∀ e, f X Y = .error e → tinner clk (.callable (.timed key (.base f))) X Y w =
        (.error e, ⟨w.now + 2, w.tm.record key (clk (w.now + 1) - clk w.now)⟩))) := by
  refine ⟨fun h => ?_, fun hX hY => ⟨fun Z hZ => ?_, fun e he => ?_⟩⟩
  · simp only [tinner, TCallable.call, if_pos h]
    rfl
  · simp only [tinner, TCallable.call, if_neg (not_or.mpr ⟨hX, hY⟩), timedBlock_eq, Act.lift, hZ, Nat.cast_mul]
  · simp only [tinner, TCallable.call, if_neg (not_or.mpr ⟨hX, hY⟩), timedBlock_eq, Act.lift, he]

/-- C63: a timed operator of a timed operator (a converted `TimedLinearSystem`) measures in both timers; the outer measurement is not
smaller than the inner one if the clock does not go back. -/
theorem C63_nested (clk : ℕ → F) (hm : Monotone clk) (key key' : K) (A : Ops.Op 𝕜) (X : Arr 𝕜) (hX : X.cols ≠ 0)
    {Y : Arr 𝕜} (hY : A.dot X = .ok Y) (w : World K F) : ∃ d d', 0 ≤ d' ∧ d' ≤ d ∧
      ((TOp.timed key (.timed key' (.base A))).dot clk X w).2 = ⟨w.now + 4, (w.tm.record key' d').record key d⟩ := by
  have hY : A.calls.dot X = .ok Y := hY
  refine ⟨(clk (w.now + 3) - clk w.now) / X.cols, (clk (w.now + 2) - clk (w.now + 1)) / X.cols, ?_, ?_, ?_⟩
  · exact div_nonneg (sub_nonneg.mpr (hm (by omega))) (Nat.cast_nonneg _)
  · refine div_le_div_of_nonneg_right (sub_le_sub (hm (by omega)) (hm (by omega))) (Nat.cast_nonneg _)
  · simp only [TOp.dot, TOp.calls, if_neg hX, timedBlock_eq, liftFn, Act.lift, hY]

/-- Finding (C63): applications of the adjoint operator `A.adj` of a timed operator are not measured, although those of `dot_adj` are:
`_AdjointLinearOperator` calls the methods of the wrapped operator. -/
theorem C63_adj_counterexample (clk : ℕ → F) (key : K) (A : Ops.Op 𝕜) (X : Arr 𝕜) (w : World K F) :
    ((TOp.adj (.timed key (.base A))).dot clk X w).2 = w := by
  simp only [TOp.dot, TOp.calls, TCalls.std, tguard]
  split
  · rfl
  · split <;> rfl

/-! ## Systems -/

/-- Specification: the operator of a timed system which belongs to the operator `A` of the untimed one. -/
def wrap (key : K) (A : TOp 𝕜 K) : TOp 𝕜 K := if A.isIdent then A else .timed key A

/-- Specification: the same for the inner product. -/
def wrapIp (key : K) : TIpAttr 𝕜 K → TIpAttr 𝕜 K
  | .op B => .op (wrap key B)
  | .callable f => .callable (.timed key f)

theorem wrap_isIdent (key : K) (A : TOp 𝕜 K) : (wrap key A).isIdent = A.isIdent := by
  unfold wrap
  split
  · rfl
  next h => rw [Bool.not_eq_true] at h; rw [h]; rfl

theorem wrap_shape (key : K) (A : TOp 𝕜 K) : (wrap key A).shape = A.shape := by
  unfold wrap
  split <;> rfl

theorem wrap_dot (key : K) (A : TOp 𝕜 K) (X : Arr 𝕜) : (wrap key A).forget.dot X = A.forget.dot X := by
  unfold wrap
  split <;> rfl

/-- `op * X` without effects. -/
def pApply (A : TOp 𝕜 K) (X : Arr 𝕜) : Except OpErr (Arr 𝕜) := if A.isIdent then .ok X else A.forget.dot X

theorem apply_yields (clk : ℕ → F) (A : TOp 𝕜 K) (X : Arr 𝕜) : Yields clk (A.apply clk X) (pApply A X) := by
  unfold TOp.apply pApply
  split
  · exact Yields.lift _ _
  · exact (C63_operator clk A X).1

theorem pApply_wrap (key : K) (A : TOp 𝕜 K) (X : Arr 𝕜) : pApply (wrap key A) X = pApply A X := by
  unfold pApply
  rw [wrap_isIdent, wrap_dot]

/-- The user function of a callable inner product. -/
def TCallable.base' : TCallable 𝕜 K → Arr 𝕜 → Arr 𝕜 → Except OpErr (Arr 𝕜)
  | .base f => f
  | .timed _ f => f.base'

theorem call_yields (clk : ℕ → F) (f : TCallable 𝕜 K) (X Y : Arr 𝕜) : Yields clk (f.call clk X Y) (f.base' X Y) := by
  induction f with
  | base f => exact Yields.lift _ _
  | timed key f ih =>
    simp only [TCallable.call]
    split
    · exact ih
    · exact Yields.timedBlock key (Nat.cast_nonneg _) ih

/-- `inner` without effects. -/
def pInner (ip : TIpAttr 𝕜 K) (X Y : Arr 𝕜) : Except OpErr (Arr 𝕜) :=
  match ip with
  | .callable f => f.base' X Y
  | .op B =>
    if B.isIdent then X.conjT.mul Y
    else if (X.rows, X.rows) ≠ B.shape then .error .linop
    else if Y.cols < X.cols then exBind (pApply B X) fun BX => BX.conjT.mul Y
    else exBind (pApply B Y) fun BY => X.conjT.mul BY

theorem inner_yields (clk : ℕ → F) (ip : TIpAttr 𝕜 K) (X Y : Arr 𝕜) : Yields clk (tinner clk ip X Y) (pInner ip X Y) := by
  cases ip with
  | callable f => exact call_yields clk f X Y
  | op B =>
    simp only [tinner, pInner]
    split
    · exact Yields.lift _ _
    split
    · exact Yields.lift _ _
    split
    · exact Yields.bind (apply_yields clk B X) fun BX => Yields.lift _ _
    · exact Yields.bind (apply_yields clk B Y) fun BX => Yields.lift _ _

theorem pInner_wrap (key : K) (ip : TIpAttr 𝕜 K) (X Y : Arr 𝕜) : pInner (wrapIp key ip) X Y = pInner ip X Y := by
  cases ip with
  | callable f => rfl
  | op B => simp only [wrapIp, pInner, wrap_isIdent, wrap_shape, pApply_wrap]

theorem Yields.mapErr {α : Type*} {clk : ℕ → F} {a : Act K F OpErr α} {r : Except OpErr α} (h : Yields clk a r) :
    Yields clk (Act.mapErr a) (r.mapError opErr) := by
  intro w
  obtain ⟨h1, h2⟩ := h w
  unfold Act.mapErr
  cases h : a w with
  | mk r' w' =>
    rw [h] at h1 h2
    dsimp only at h1 h2
    subst h1
    cases r' <;> exact ⟨rfl, h2⟩

/-- The constructor without effects, given the operators. -/
noncomputable def pInit (a : TArgs 𝕜 K) (o : TOps 𝕜 K) : Except Err (TSys 𝕜 K) :=
  exBind ((pApply o.Ml ⟨a.N, 1, a.b⟩).mapError opErr) fun Mlb =>
  exBind ((pApply o.M Mlb).mapError opErr) fun MMlb =>
  exBind ((pInner o.ip Mlb MMlb).mapError opErr) fun z =>
  exBind (npNorm (z.get 0 0)) fun nb =>
    .ok ⟨a.N, o.A, a.b, o.M, o.Minv, o.Ml, o.Mr, o.MlAMr, o.ip, a.selfAdjoint || a.normal.getD false, a.selfAdjoint,
      a.positiveDefinite, Mlb, MMlb, nb⟩

theorem init_yields (clk : ℕ → F) (a : TArgs 𝕜 K) :
    Yields clk (lsInit clk a) (exBind ((lsOps a).mapError opErr) (pInit a)) := by
  unfold lsInit
  cases lsOps a with
  | error e => exact Yields.lift _ _
  | ok o =>
    dsimp only
    have hn : (a.selfAdjoint && !(if a.selfAdjoint = true then true else a.normal.getD false)) = false := by
      cases a.selfAdjoint <;> simp
    rw [hn]
    have hn' : (if a.selfAdjoint = true then true else a.normal.getD false) = (a.selfAdjoint || a.normal.getD false) := by
      cases a.selfAdjoint <;> simp
    rw [hn', if_neg (by simp)]
    refine Yields.bind (apply_yields clk _ _).mapErr fun Mlb => Yields.bind (apply_yields clk _ _).mapErr fun MMlb =>
      Yields.bind (inner_yields clk _ _ _).mapErr fun z => ?_
    unfold exBind
    cases npNorm (z.get 0 0) <;> exact Yields.lift _ _

theorem getOp_shape {shape : ℕ × ℕ} {a : TArg 𝕜 K} {A : TOp 𝕜 K} (h : getOp shape none a = .ok A) : A.shape = shape := by
  cases a with
  | none => obtain rfl := Except.ok.inj ((if_pos rfl).symm.trans h); rfl
  | op B =>
    by_cases hs : shape = B.shape
    · obtain rfl := Except.ok.inj ((if_pos hs).symm.trans h); exact hs.symm
    · cases (if_neg hs).symm.trans h
  | arr B =>
    by_cases hs : shape = (TOp.base (.mat B) : TOp 𝕜 K).shape
    · obtain rfl := Except.ok.inj ((if_pos hs).symm.trans h); exact hs.symm
    · cases (if_neg hs).symm.trans h
  | other => cases h

theorem getOp_op {shape : ℕ × ℕ} {A : TOp 𝕜 K} (h : A.shape = shape) : getOp shape none (.op A) = .ok A := if_pos h.symm

theorem getOp_timed (shape : ℕ × ℕ) (key : K) (a : TArg 𝕜 K) : getOp shape (some key) a = (getOp shape none a).map (wrap key) := by
  cases a with
  | none => simp [getOp, wrap, TOp.shape, Ops.Op.shape, TOp.isIdent, Except.map]
  | op A =>
    unfold getOp
    dsimp only
    cases hi : A.isIdent
    · simp only [Bool.false_eq_true, if_false]
      by_cases hs : shape = A.shape
      · rw [if_pos hs, if_pos (show shape = (TOp.timed key A).shape from hs)]
        simp [Except.map, wrap, hi]
      · rw [if_neg hs, if_neg (show ¬ shape = (TOp.timed key A).shape from hs)]
        rfl
    · by_cases hs : shape = A.shape
      · rw [if_pos rfl, if_pos hs]
        simp [Except.map, wrap, hi]
      · rw [if_pos rfl, if_neg hs]
        rfl
  | arr A =>
    unfold getOp
    dsimp only
    by_cases hs : shape = (TOp.base (.mat A) : TOp 𝕜 K).shape
    · rw [if_pos hs, if_pos (show shape = (TOp.timed key (.base (.mat A))).shape from hs)]
      simp [Except.map, wrap, TOp.isIdent]
    · rw [if_neg hs, if_neg (show ¬ shape = (TOp.timed key (.base (.mat A))).shape from hs)]
      rfl
  | other => rfl

theorem getIp_timed (shape : ℕ × ℕ) (key : K) (ip : TIp 𝕜 K) :
    getIp shape (some key) ip = (getIp shape none ip).map (wrapIp key) := by
  cases ip with
  | arg a =>
    simp only [getIp, getOp_timed]
    cases getOp shape none a <;> rfl
  | callable f => rfl

theorem getIp_asArg {shape : ℕ × ℕ} {ip : TIp 𝕜 K} {B : TIpAttr 𝕜 K} (h : getIp shape none ip = .ok B) (key : K) :
    getIp shape none (wrapIp key B).asArg = .ok (wrapIp key B) := by
  cases ip with
  | arg a =>
    simp only [getIp] at h
    cases ha : getOp shape none a with
    | error e => rw [ha] at h; cases h
    | ok A =>
      rw [ha] at h
      obtain rfl := Except.ok.inj h
      simp only [wrapIp, TIpAttr.asArg, getIp]
      rw [getOp_op (by rw [wrap_shape, getOp_shape ha])]
      rfl
  | callable f =>
    obtain rfl := Except.ok.inj h
    rfl

/-- The products of operators of a system succeed. -/
theorem mul_ok {A B : TOp 𝕜 K} {n : ℕ} (hA : A.shape = (n, n)) (hB : B.shape = (n, n)) : ∃ C, A.mul B = .ok C ∧ C.shape = (n, n) ∧
    ∀ (key' : K) (A' : TOp 𝕜 K), A'.shape = A.shape → A'.isIdent = A.isIdent → (∀ X, A'.forget.dot X = A.forget.dot X) →
      ∃ C', A'.mul (wrap key' B) = .ok C' ∧ C'.shape = C.shape ∧ C'.isIdent = C.isIdent ∧ ∀ X, C'.forget.dot X = C.forget.dot X := by
  unfold TOp.mul
  by_cases hi : B.isIdent = true
  · rw [if_pos hi]
    refine ⟨A, rfl, hA, fun key' A' h1 h2 h3 => ?_⟩
    rw [if_pos (by rw [wrap_isIdent]; exact hi)]
    exact ⟨A', rfl, h1, h2, h3⟩
  · rw [if_neg hi]
    by_cases hi' : A.isIdent = true
    · rw [if_pos hi']
      refine ⟨B, rfl, hB, fun key' A' h1 h2 h3 => ?_⟩
      rw [if_neg (by rw [wrap_isIdent]; exact hi), if_pos (by rw [h2]; exact hi')]
      exact ⟨_, rfl, wrap_shape _ _, wrap_isIdent _ _, wrap_dot _ _⟩
    · rw [if_neg hi', if_pos (by rw [hA, hB])]
      refine ⟨_, rfl, by simp [TOp.shape, hA, hB], fun key' A' h1 h2 h3 => ?_⟩
      rw [if_neg (by rw [wrap_isIdent]; exact hi), if_neg (by rw [h2]; exact hi'), if_pos (by rw [h1, hA, wrap_shape, hB])]
      refine ⟨_, rfl, by simp [TOp.shape, h1, wrap_shape], rfl, fun X => ?_⟩
      simp only [TOp.forget, Ops.Op.dot, Ops.Op.calls, Calls.std, Ops.guard]
      have e1 : (wrap key' B).forget.shape = B.forget.shape := by rw [shape_forget, shape_forget, wrap_shape]
      have e2 : Ops.andThen (wrap key' B).forget.calls.dot A'.forget.calls.dot = Ops.andThen B.forget.calls.dot A.forget.calls.dot := by
        have h4 : (wrap key' B).forget.calls.dot = B.forget.calls.dot := funext fun X => wrap_dot key' B X
        have h5 : A'.forget.calls.dot = A.forget.calls.dot := funext h3
        rw [h4, h5]
      rw [e1, e2]

/-- The operators of the timed system. -/
theorem timedOps_ok {key : Name → K} {a : TArgs 𝕜 K} {o : TOps 𝕜 K} (h : lsOps a = .ok o) : ∃ a' P, timedArgs key a = .ok a' ∧
    lsOps a' = .ok ⟨wrap (key .A) o.A, wrap (key .M) o.M, wrap (key .Minv) o.Minv, wrap (key .Ml) o.Ml, wrap (key .Mr) o.Mr, P,
      wrapIp (key .ipB) o.ip⟩ ∧ (∀ X, P.forget.dot X = o.MlAMr.forget.dot X) ∧
    a' = { a with A := a'.A, M := a'.M, Minv := a'.Minv, Ml := a'.Ml, Mr := a'.Mr, ip := a'.ip } := by
  unfold lsOps at h
  dsimp only at h
  split at h
  next A M Minv Ml Mr hA hM hMinv hMl hMr =>
    split at h
    · cases h
    next MlA h1 =>
    split at h
    · cases h
    next P h2 =>
    split at h
    · cases h
    next ip hip =>
    obtain rfl := Except.ok.inj h
    obtain ⟨C, e1, e2, e3⟩ := mul_ok (getOp_shape hMl) (getOp_shape hA)
    rw [h1] at e1
    obtain rfl := Except.ok.inj e1
    obtain ⟨D, e4, e5, e6⟩ := mul_ok e2 (getOp_shape hMr)
    rw [h2] at e4
    obtain rfl := Except.ok.inj e4
    obtain ⟨C', f1, f2, f3, f4⟩ := e3 (key .A) (wrap (key .Ml) Ml) (wrap_shape _ _) (wrap_isIdent _ _) (wrap_dot _ _)
    obtain ⟨D', g1, -, -, g4⟩ := e6 (key .Mr) C' f2 f3 f4
    refine ⟨{ a with A := .op (wrap (key .A) A), M := .op (wrap (key .M) M), Minv := .op (wrap (key .Minv) Minv), Ml := .op (wrap (key .Ml) Ml), Mr := .op (wrap (key .Mr) Mr), ip := (wrapIp (key .ipB) ip).asArg }, D', ?_, ?_, g4, rfl⟩
    · unfold timedArgs
      simp only [getIp_timed, getOp_timed, hA, hM, hMinv, hMl, hMr, hip, Except.map]
    · unfold lsOps
      dsimp only
      rw [getOp_op ((wrap_shape _ _).trans (getOp_shape hA)), getOp_op ((wrap_shape _ _).trans (getOp_shape hM)),
        getOp_op ((wrap_shape _ _).trans (getOp_shape hMinv)), getOp_op ((wrap_shape _ _).trans (getOp_shape hMl)),
        getOp_op ((wrap_shape _ _).trans (getOp_shape hMr))]
      dsimp only
      rw [f1]
      dsimp only
      rw [g1]
      dsimp only
      rw [getIp_asArg hip]
  all_goals cases h

/-- If the operators of the untimed system cannot be built, neither can those of the timed one. -/
theorem timedOps_error {key : Name → K} {a : TArgs 𝕜 K} {e : OpErr} (h : lsOps a = .error e) :
    ∃ e', timedArgs key a = .error e' := by
  cases hip : getIp (a.N, a.N) none a.ip with
  | error e => 
    refine ⟨e, ?_⟩
    unfold timedArgs
    simp only [getIp_timed, hip, Except.map]
  | ok ip =>
    unfold timedArgs
    simp only [getIp_timed, hip, Except.map, getOp_timed]
    cases hA : getOp (a.N, a.N) none a.A with
    | error e => exact ⟨_, rfl⟩
    | ok A =>
    cases hM : getOp (a.N, a.N) none a.M with
    | error e => exact ⟨_, rfl⟩
    | ok M =>
    cases hMinv : getOp (a.N, a.N) none a.Minv with
    | error e => exact ⟨_, rfl⟩
    | ok Minv =>
    cases hMl : getOp (a.N, a.N) none a.Ml with
    | error e => exact ⟨_, rfl⟩
    | ok Ml =>
    cases hMr : getOp (a.N, a.N) none a.Mr with
    | error e => exact ⟨_, rfl⟩
    | ok Mr =>
    obtain ⟨C, e1, e2, -⟩ := mul_ok (getOp_shape hMl) (getOp_shape hA)
    obtain ⟨D, e4, -⟩ := mul_ok e2 (getOp_shape hMr)
    exfalso
    unfold lsOps at h
    simp only [hA, hM, hMinv, hMl, hMr, e1, e4, hip] at h
    cases h

/-- C63: the constructor of `TimedLinearSystem` raises iff that of `LinearSystem` raises for the same arguments.  If not, then all
attributes are equal except that operators which are not the identity and the inner product are timed (which does not change their
results, `C63_transparent`), and `MlAMr` returns the same for each array. -/
theorem C63_constructor (clk : ℕ → F) (key : Name → K) (a : TArgs 𝕜 K) (w w' : World K F) :
    (∀ e, (lsInit clk a w).1 = .error e → ∃ e', (timedInit clk key a w').1 = .error e') ∧
    (∀ s, (lsInit clk a w).1 = .ok s → ∃ P, (timedInit clk key a w').1 = .ok { s with
        A := wrap (key .A) s.A, M := wrap (key .M) s.M, Minv := wrap (key .Minv) s.Minv, Ml := wrap (key .Ml) s.Ml,
        Mr := wrap (key .Mr) s.Mr, ip := wrapIp (key .ipB) s.ip, MlAMr := P } ∧
      ∀ X v v', (P.dot clk X v).1 = (s.MlAMr.dot clk X v').1) := by
  rw [(init_yields clk a w).1]
  cases ho : lsOps a with
  | error e =>
    refine ⟨fun e' _ => ?_, fun s hs => by cases hs⟩
    obtain ⟨e', h⟩ := timedOps_error (key := key) ho
    refine ⟨opErr e', ?_⟩
    unfold timedInit
    rw [h]
  | ok o =>
    obtain ⟨a', P, h1, h2, h3, h4⟩ := timedOps_ok (key := key) ho
    have hv : (timedInit clk key a w').1 = pInit a' ⟨wrap (key .A) o.A, wrap (key .M) o.M, wrap (key .Minv) o.Minv,
        wrap (key .Ml) o.Ml, wrap (key .Mr) o.Mr, P, wrapIp (key .ipB) o.ip⟩ := by
      unfold timedInit
      rw [h1]
      dsimp only
      rw [(init_yields clk a' _).1, h2]
      rfl
    rw [hv, h4]
    have hdot : ∀ X v v', (P.dot clk X v).1 = (o.MlAMr.dot clk X v').1 := fun X v v' => by
      rw [((C63_operator clk P X).1 v).1, ((C63_operator clk o.MlAMr X).1 v').1, h3]
    change (∀ e, pInit a o = .error e → _) ∧ (∀ s, pInit a o = .ok s → _)
    unfold pInit
    simp only [pApply_wrap, pInner_wrap]
    cases pApply o.Ml ⟨a.N, 1, a.b⟩ with
    | error e => exact ⟨fun e' _ => ⟨_, rfl⟩, fun s hs => by cases hs⟩
    | ok Mlb =>
    dsimp only [exBind, Except.mapError]
    cases pApply o.M Mlb with
    | error e => exact ⟨fun e' _ => ⟨_, rfl⟩, fun s hs => by cases hs⟩
    | ok MMlb =>
    dsimp only
    cases pInner o.ip Mlb MMlb with
    | error e => exact ⟨fun e' _ => ⟨_, rfl⟩, fun s hs => by cases hs⟩
    | ok z =>
    dsimp only
    cases npNorm (z.get 0 0) with
    | error e => exact ⟨fun e' _ => ⟨_, rfl⟩, fun s hs => by cases hs⟩
    | ok nb =>
      refine ⟨fun e' h => (by cases h), fun s hs => ?_⟩
      obtain rfl := Except.ok.inj hs
      exact ⟨P, rfl, hdot⟩

theorem getIp_asArg0 {shape : ℕ × ℕ} {ip : TIp 𝕜 K} {B : TIpAttr 𝕜 K} (h : getIp shape none ip = .ok B) :
    getIp shape none B.asArg = .ok B := by
  cases ip with
  | arg a =>
    simp only [getIp] at h
    cases ha : getOp shape none a with
    | error e => rw [ha] at h; cases h
    | ok A =>
      rw [ha] at h
      obtain rfl := Except.ok.inj h
      simp only [TIpAttr.asArg, getIp]
      rw [getOp_op (getOp_shape ha)]
      rfl
  | callable f =>
    obtain rfl := Except.ok.inj h
    rfl

/-- The operators of a system are accepted as arguments. -/
theorem lsOps_again {a : TArgs 𝕜 K} {o : TOps 𝕜 K} (h : lsOps a = .ok o) (normal : Option Bool) :
    lsOps ⟨a.N, .op o.A, a.b, .op o.M, .op o.Minv, .op o.Ml, .op o.Mr, o.ip.asArg, normal, a.selfAdjoint, a.positiveDefinite⟩ = .ok o := by
  unfold lsOps at h
  dsimp only at h
  split at h
  next A M Minv Ml Mr hA hM hMinv hMl hMr =>
    split at h
    · cases h
    next MlA h1 =>
    split at h
    · cases h
    next P h2 =>
    split at h
    · cases h
    next ip hip =>
    obtain rfl := Except.ok.inj h
    unfold lsOps
    dsimp only
    rw [getOp_op (getOp_shape hA), getOp_op (getOp_shape hM), getOp_op (getOp_shape hMinv), getOp_op (getOp_shape hMl),
      getOp_op (getOp_shape hMr)]
    dsimp only
    rw [h1]
    dsimp only
    rw [h2]
    dsimp only
    rw [getIp_asArg0 hip]
  all_goals cases h

theorem exBind_ok {ε α β : Type*} {r : Except ε α} {g : α → Except ε β} {y : β} : exBind r g = .ok y ↔ ∃ x, r = .ok x ∧ g x = .ok y := by
  cases r <;> simp [exBind]

theorem mapError_ok {ε ε' α : Type*} {f : ε → ε'} {r : Except ε α} {x : α} : r.mapError f = .ok x ↔ r = .ok x := by
  cases r <;> simp [Except.mapError]

theorem pInit_ok {a : TArgs 𝕜 K} {o : TOps 𝕜 K} {s : TSys 𝕜 K} : pInit a o = .ok s ↔ ∃ Mlb, pApply o.Ml ⟨a.N, 1, a.b⟩ = .ok Mlb ∧
    ∃ MMlb, pApply o.M Mlb = .ok MMlb ∧ ∃ z, pInner o.ip Mlb MMlb = .ok z ∧ ∃ nb, npNorm (z.get 0 0) = .ok nb ∧
      (⟨a.N, o.A, a.b, o.M, o.Minv, o.Ml, o.Mr, o.MlAMr, o.ip, a.selfAdjoint || a.normal.getD false, a.selfAdjoint,
        a.positiveDefinite, Mlb, MMlb, nb⟩ : TSys 𝕜 K) = s := by
  unfold pInit
  simp only [exBind_ok, mapError_ok, Except.ok.injEq]

/-- C63: `ConvertedTimedLinearSystem` of a system (timed or not) never fails, and has the attributes of that system, timed. -/
theorem C63_converted (clk : ℕ → F) (key : Name → K) {a : TArgs 𝕜 K} {w : World K F} {s : TSys 𝕜 K} (hs : (lsInit clk a w).1 = .ok s)
    (w' : World K F) : ∃ P, (convertedInit clk key s w').1 = .ok { s with
        A := wrap (key .A) s.A, M := wrap (key .M) s.M, Minv := wrap (key .Minv) s.Minv, Ml := wrap (key .Ml) s.Ml,
        Mr := wrap (key .Mr) s.Mr, ip := wrapIp (key .ipB) s.ip, MlAMr := P } ∧
      ∀ X v v', (P.dot clk X v).1 = (s.MlAMr.dot clk X v').1 := by
  have hs' : (lsInit clk s.toArgs w).1 = .ok s := by
    rw [(init_yields clk a w).1] at hs
    rw [(init_yields clk s.toArgs w).1]
    cases ho : lsOps a with
    | error e => rw [ho] at hs; cases hs
    | ok o =>
      rw [ho] at hs
      change pInit a o = .ok s at hs
      have hN := lsOps_again ho (some (a.selfAdjoint || a.normal.getD false))
      obtain ⟨Mlb, h1, MMlb, h2, z, h3, nb, h4, rfl⟩ := pInit_ok.mp hs
      dsimp only [TSys.toArgs]
      rw [hN]
      refine pInit_ok.mpr ⟨Mlb, h1, MMlb, h2, z, h3, nb, h4, ?_⟩
      cases a.selfAdjoint <;> rfl
  exact (C63_constructor clk key s.toArgs w w').2 s hs'

/-! ## Number of measurements -/

/-- Number of measurements under a key. -/
def World.count (w : World K F) (key : K) : ℕ := (w.all key).length

theorem count_record (n : ℕ) (tm : Timings K F) (key : K) (d : F) (k : K) :
    (⟨n, tm.record key d⟩ : World K F).count k = (⟨n, tm⟩ : World K F).count k + if k = key then 1 else 0 := by
  unfold World.count World.all Timings.record
  by_cases h : k = key
  · subst h; simp
  · simp [h]

/-- An operator without timers. -/
def TOp.Plain (A : TOp 𝕜 K) : Prop := ∃ B, A = .base B

/-- Applying the operator keeps the number of columns. -/
def TOp.Proper (A : TOp 𝕜 K) : Prop := ∀ X Y, pApply A X = .ok Y → Y.cols = X.cols

/-- The operator is measured. -/
def TOp.measured (A : TOp 𝕜 K) : ℕ := if A.isIdent then 0 else 1

/-- The inner product is measured. -/
def TIpAttr.measured : TIpAttr 𝕜 K → ℕ
  | .op B => B.measured
  | .callable _ => 1

theorem count_timed {ε α : Type*} (clk : ℕ → F) (key : K) (c : F) (r : Except ε α) (w : World K F) (k : K) :
    (timedBlock clk key c (Act.lift r) w).2.count k = w.count k + if k = key then 1 else 0 := by
  rw [timedBlock_eq]
  exact count_record _ _ _ _ _

theorem count_apply (clk : ℕ → F) (key : K) {A : TOp 𝕜 K} (hA : A.Plain) {X : Arr 𝕜} (hX : X.cols ≠ 0) (w : World K F) (k : K) :
    ((wrap key A).apply clk X w).2.count k = w.count k + if k = key then A.measured else 0 := by
  obtain ⟨B, rfl⟩ := hA
  unfold TOp.apply TOp.measured
  rw [wrap_isIdent]
  by_cases hi : (TOp.base B : TOp 𝕜 K).isIdent = true
  · rw [if_pos hi, if_pos hi]
    simp [Act.lift]
  · rw [if_neg hi, if_neg hi]
    have e : wrap key (.base B) = .timed key (.base B) := if_neg hi
    rw [e]
    simp only [TOp.dot, TOp.calls, if_neg hX, liftFn]
    exact count_timed clk key _ _ w k

theorem count_inner (clk : ℕ → F) (key : K) {ip : TIpAttr 𝕜 K} (hip : match ip with | .op B => B.Plain | .callable f => ∃ g, f = .base g)
    {X Y Z : Arr 𝕜} (hX : X.cols ≠ 0) (hY : Y.cols ≠ 0) (hZ : pInner ip X Y = .ok Z) (w : World K F) (k : K) :
    (tinner clk (wrapIp key ip) X Y w).2.count k = w.count k + if k = key then ip.measured else 0 := by
  have hbind : ∀ (a : Act K F OpErr (Arr 𝕜)) (g : Arr 𝕜 → Except OpErr (Arr 𝕜)), (Act.bind a (fun x => Act.lift (g x)) w).2 = (a w).2 := by
    intro a g
    unfold Act.bind
    rcases a w with ⟨r | r, w'⟩ <;> rfl
  cases ip with
  | callable f =>
    obtain ⟨g, rfl⟩ := hip
    simp only [wrapIp, tinner, TCallable.call, TIpAttr.measured]
    rw [if_neg (by push Not; exact ⟨hX, hY⟩)]
    exact count_timed clk key _ _ w k
  | op B =>
    simp only [wrapIp, tinner, TIpAttr.measured, wrap_isIdent, wrap_shape]
    simp only [pInner] at hZ
    by_cases hi : B.isIdent = true
    · rw [if_pos hi]
      simp [TOp.measured, hi, Act.lift]
    · rw [if_neg hi] at hZ ⊢
      by_cases hs : (X.rows, X.rows) ≠ B.shape
      · rw [if_pos hs] at hZ; cases hZ
      · rw [if_neg hs]
        split
        · rw [hbind]; exact count_apply clk key hip hX w k
        · rw [hbind]; exact count_apply clk key hip hY w k

/-- The counts of a sequence. -/
theorem count_bind {ε α β : Type*} (a : Act K F ε α) (f : α → Act K F ε β) (w : World K F) {x : α} (h : (a w).1 = .ok x) (k : K) :
    (Act.bind a f w).2.count k = (f x (a w).2).2.count k := by
  unfold Act.bind
  rcases ha : a w with ⟨r, w'⟩
  rw [ha] at h
  dsimp only at h
  subst h
  rfl

/-- C63: the constructor of a `TimedLinearSystem` (whose arguments have no timers) measures `Ml`, `M` and the inner product once each
if they are not the identity, and nothing else: `A`, `Minv` and `Mr` are not applied. -/
theorem C63_constructor_count (clk : ℕ → F) (key : Name → K) {a : TArgs 𝕜 K} {w0 : World K F} {s : TSys 𝕜 K}
    (hs : (lsInit clk a w0).1 = .ok s) (hMl : s.Ml.Plain ∧ s.Ml.Proper) (hM : s.M.Plain ∧ s.M.Proper)
    (hip : match s.ip with | .op B => B.Plain | .callable f => ∃ g, f = .base g) (w : World K F) (k : K) :
    (timedInit clk key a w).2.count k = w.count k + (if k = key .Ml then s.Ml.measured else 0) +
      (if k = key .M then s.M.measured else 0) + (if k = key .ipB then s.ip.measured else 0) := by
  rw [(init_yields clk a w0).1] at hs
  cases ho : lsOps a with
  | error e => rw [ho] at hs; cases hs
  | ok o =>
    rw [ho] at hs
    change pInit a o = .ok s at hs
    obtain ⟨a', P, h1, h2, h3, h4⟩ := timedOps_ok (key := key) ho
    obtain ⟨Mlb, e1, MMlb, e2, z, e3, nb, e4, rfl⟩ := pInit_ok.mp hs
    dsimp only at hMl hM hip ⊢
    have touch : ∀ (n : ℕ) (tm : Timings K F) (key k : K), (⟨n, tm.touch key⟩ : World K F).count k = (⟨n, tm⟩ : World K F).count k := by
      intro n tm key k
      unfold World.count World.all Timings.touch
      by_cases h : k = key
      · subst h; simp
      · simp [h]
    have cerr : ∀ (a : Act K F OpErr (Arr 𝕜)) (w : World K F), (Act.mapErr a w).2 = (a w).2 := by
      intro a w
      unfold Act.mapErr
      rcases a w with ⟨r | r, w'⟩ <;> rfl
    have hc1 : Mlb.cols ≠ 0 := by rw [hMl.2 _ _ e1]; simp
    have hc2 : MMlb.cols ≠ 0 := by rw [hM.2 _ _ e2]; exact hc1
    unfold timedInit
    rw [h1]
    dsimp only
    unfold lsInit
    rw [h2]
    dsimp only
    rw [if_neg (by cases a'.selfAdjoint <;> simp)]
    rw [h4]
    dsimp only
    rw [count_bind _ _ _ (x := Mlb) (by rw [((apply_yields clk _ _).mapErr _).1, pApply_wrap, e1]; rfl)]
    rw [count_bind _ _ _ (x := MMlb) (by rw [((apply_yields clk _ _).mapErr _).1, pApply_wrap, e2]; rfl)]
    rw [count_bind _ _ _ (x := z) (by rw [((inner_yields clk _ _ _).mapErr _).1, pInner_wrap, e3]; rfl)]
    rw [e4]
    simp only [Act.lift, cerr]
    rw [count_inner clk _ hip hc1 hc2 e3, count_apply clk _ hM.1 hc1, count_apply clk _ hMl.1 (by simp)]
    simp only [touch]

/-- C63: `get_residual` of a timed system returns what that of the untimed one returns, and measures `A`, `Ml` and `M` once each if
they are not the identity. -/
theorem C63_residual (clk : ℕ → F) (key : Name → K) (s : TSys 𝕜 K) (P : TOp 𝕜 K) (z : Arr 𝕜) (w w' : World K F) :
    let s' : TSys 𝕜 K := { s with
        A := wrap (key .A) s.A, M := wrap (key .M) s.M, Minv := wrap (key .Minv) s.Minv, Ml := wrap (key .Ml) s.Ml,
        Mr := wrap (key .Mr) s.Mr, ip := wrapIp (key .ipB) s.ip, MlAMr := P }
    (s'.getResidual clk z w).1 = (s.getResidual clk z w').1 ∧
    ((s.A.Plain ∧ s.A.Proper) → (s.Ml.Plain ∧ s.Ml.Proper) → s.M.Plain → z.cols = 1 → ∀ r, (s.getResidual clk z w').1 = .ok r →
      ∀ k, (s'.getResidual clk z w).2.count k = w.count k + (if k = key .A then s.A.measured else 0) +
        (if k = key .Ml then s.Ml.measured else 0) + (if k = key .M then s.M.measured else 0)) := by
  intro s'
  have hy : ∀ s : TSys 𝕜 K, Yields clk (s.getResidual clk z) (exBind (pApply s.A z) fun Az =>
      exBind ((⟨s.N, 1, s.b⟩ : Arr 𝕜).add (Az.smul (-1))) fun r => exBind (pApply s.Ml r) fun Mlr =>
      exBind (pApply s.M Mlr) fun MMlr => .ok (MMlr, Mlr)) := fun s =>
    Yields.bind (apply_yields clk _ _) fun Az => Yields.bind (Yields.lift _ _) fun r => Yields.bind (apply_yields clk _ _) fun Mlr =>
      Yields.bind (apply_yields clk _ _) fun MMlr => Yields.lift _ _
  refine ⟨?_, fun hA hMl hM hz r hr k => ?_⟩
  · rw [(hy s' w).1, (hy s w').1]
    simp only [s', pApply_wrap]
  · rw [(hy s w').1] at hr
    obtain ⟨Az, e1, hr⟩ := exBind_ok.mp hr
    obtain ⟨r', e2, hr⟩ := exBind_ok.mp hr
    obtain ⟨Mlr, e3, hr⟩ := exBind_ok.mp hr
    have h1 : Az.cols = 1 := by rw [hA.2 _ _ e1, hz]
    have h2 : r'.cols ≠ 0 := by
      unfold Arr.add bdim at e2
      split at e2
      next c _ hc =>
        obtain rfl := Except.ok.inj e2
        simp only [Arr.smul, h1, if_true] at hc
        obtain rfl := Option.some.inj hc
        simp
      · cases e2
    have h3 : Mlr.cols ≠ 0 := by rw [hMl.2 _ _ e3]; exact h2
    unfold TSys.getResidual
    rw [count_bind _ _ _ (x := Az) (by rw [(apply_yields clk _ _ _).1]; simp only [s', pApply_wrap]; exact e1)]
    rw [count_bind _ _ _ (x := r') (by simp only [s', Act.lift]; exact e2)]
    rw [count_bind _ _ _ (x := Mlr) (by rw [(apply_yields clk _ _ _).1]; simp only [s', pApply_wrap]; exact e3)]
    have hbind : ∀ (a : Act K F OpErr (Arr 𝕜)) (g : Arr 𝕜 → Except OpErr (Arr 𝕜 × Arr 𝕜)) (w : World K F),
        (Act.bind a (fun x => Act.lift (g x)) w).2 = (a w).2 := by
      intro a g w
      unfold Act.bind
      rcases a w with ⟨r | r, w'⟩ <;> rfl
    rw [hbind]
    simp only [s']
    rw [count_apply clk _ hM h3, count_apply clk _ hMl.1 h2]
    simp only [Act.lift]
    rw [count_apply clk _ hA.1 (by rw [hz]; simp)]

/-- Operators which denote a matrix keep the number of columns. -/
theorem proper_of_den {A : TOp 𝕜 K} {m n : ℕ} {M : Matrix (Fin m) (Fin n) 𝕜} (h : Den A.forget m n M) : A.Proper := by
  rintro ⟨r, k, X⟩ Y hY
  unfold pApply at hY
  split at hY
  · obtain rfl := Except.ok.inj hY; rfl
  · by_cases hr : r = n
    · subst hr
      by_cases hk : k = 0
      · subst hk
        have h0 : (⟨r, 0, X⟩ : Arr 𝕜) = Arr.zeros r 0 := by
          unfold Arr.zeros
          congr 1
          ext i j
          exact j.elim0
        rw [h0, h.dot_empty] at hY
        obtain rfl := Except.ok.inj hY; rfl
      · have := h.callsOK.dot k X hk
        rw [show A.forget.dot _ = _ from this] at hY
        obtain rfl := Except.ok.inj hY; rfl
    · rw [h.dot_mismatch ⟨r, k, X⟩ hr] at hY
      cases hY

/-! ## The hypotheses can be met -/

/-- A system with two unknowns, a preconditioner and a callable inner product. -/
noncomputable def exTimed : TArgs ℝ ℕ :=
  ⟨2, .arr ⟨2, 2, !![2, 0; 0, 4]⟩, !![1; 1], .arr ⟨2, 2, !![1, 0; 0, 3]⟩, .none, .none, .none,
    .callable (.base fun X Y => X.conjT.mul Y), none, true, true⟩

/-- Its construction succeeds, and that of the timed system measures `M` and the inner product. -/
example (clk : ℕ → ℚ) (w : World ℕ ℚ) : ∃ s, (lsInit clk exTimed w).1 = .ok s ∧ (s.M.Plain ∧ s.M.Proper) ∧ s.M.measured = 1 ∧
    (s.Ml.Plain ∧ s.Ml.Proper) ∧ s.Ml.measured = 0 ∧ s.ip.measured = 1 := by
  obtain ⟨o, hoo⟩ : ∃ o : TOps ℝ ℕ, o = ⟨.base (.mat ⟨2, 2, !![2, 0; 0, 4]⟩), .base (.mat ⟨2, 2, !![1, 0; 0, 3]⟩), .base (.ident 2 2),
      .base (.ident 2 2), .base (.ident 2 2), .base (.mat ⟨2, 2, !![2, 0; 0, 4]⟩), .callable (.base fun X Y => X.conjT.mul Y)⟩ := ⟨_, rfl⟩
  have ho : lsOps exTimed = .ok o := by rw [hoo]; rfl
  have h1 : Den (𝕜 := ℝ) (TOp.base (K := ℕ) (.mat ⟨2, 2, !![1, 0; 0, 3]⟩)).forget 2 2 !![1, 0; 0, 3] := .mat _
  rw [(init_yields clk exTimed w).1, ho]
  suffices h : ∃ s, pInit exTimed o = .ok s ∧ s.M = .base (.mat ⟨2, 2, !![1, 0; 0, 3]⟩) ∧ s.Ml = .base (.ident 2 2) ∧
      s.ip = .callable (.base fun X Y => X.conjT.mul Y) by
    obtain ⟨s, e1, e2, e3, e4⟩ := h
    refine ⟨s, e1, ?_⟩
    rw [e2, e3, e4]
    exact ⟨⟨⟨_, rfl⟩, proper_of_den h1⟩, rfl, ⟨⟨_, rfl⟩, proper_of_den (M := (1 : Matrix (Fin 2) (Fin 2) ℝ)) (.ident 2)⟩, rfl, rfl⟩
  subst hoo
  refine ⟨_, pInit_ok.mpr ⟨⟨2, 1, !![(1 : ℝ); 1]⟩, rfl, ⟨2, 1, (!![1, 0; 0, 3] : Matrix (Fin 2) (Fin 2) ℝ) * (!![1; 1] : Matrix (Fin 2) (Fin 1) ℝ)⟩, ?_,
    ⟨1, 1, (!![1; 1] : Matrix (Fin 2) (Fin 1) ℝ)ᴴ * ((!![1, 0; 0, 3] : Matrix (Fin 2) (Fin 2) ℝ) * (!![1; 1] : Matrix (Fin 2) (Fin 1) ℝ))⟩, ?_, 2, ?_, rfl⟩, rfl, rfl, rfl⟩
  · exact h1.callsOK.dot 1 _ (by simp)
  · exact Arr.mul_ok (m := 1) (n := 2) (k := 1) ((!![1; 1] : Matrix (Fin 2) (Fin 1) ℝ)ᴴ) _
  · have : (⟨1, 1, (!![1; 1] : Matrix (Fin 2) (Fin 1) ℝ)ᴴ * ((!![1, 0; 0, 3] : Matrix (Fin 2) (Fin 2) ℝ) *
        (!![1; 1] : Matrix (Fin 2) (Fin 1) ℝ))⟩ : Arr ℝ).get 0 0 = 4 := by
      simp [Arr.get, Matrix.mul_apply, Fin.sum_univ_two]; norm_num
    rw [this]
    unfold npNorm
    rw [if_neg (by simp; norm_num)]
    congr 1
    rw [show ‖(4 : ℝ)‖ = 2 ^ 2 by norm_num, Real.sqrt_sq (by norm_num)]

end Krypy.Timed
