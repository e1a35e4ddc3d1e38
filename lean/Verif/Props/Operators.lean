import Verif.Model.Operators
import Mathlib.Analysis.Complex.Basic
import Mathlib.LinearAlgebra.Matrix.Notation
import Mathlib.Tactic.NormNum

/-! # Properties C01-C03: operator algebra

The specification `Den` says which matrix an operator object denotes (ordinary matrix algebra), `Typed`
says it for source expressions.  Both are independent of the `dot` methods. -/

namespace Krypy.Ops
open Matrix
variable {𝕜 : Type*} [RCLike 𝕜]

/-- `f` multiplies every `n × k` array (`k ≥ 1`) by the `m × n` matrix `M`. -/
def Acts (f : Fn 𝕜) {m n : ℕ} (M : Matrix (Fin m) (Fin n) 𝕜) : Prop :=
  ∀ (k : ℕ) (X : Matrix (Fin n) (Fin k) 𝕜), k ≠ 0 → f ⟨n, k, X⟩ = .ok ⟨m, k, M * X⟩

/-- Specification: the matrix denoted by an operator object. -/
inductive Den : Op 𝕜 → (m n : ℕ) → Matrix (Fin m) (Fin n) 𝕜 → Prop
  | user {m n} {M : Matrix (Fin m) (Fin n) 𝕜} {f g} (hf : Acts f M) (hg : Acts g Mᴴ) :
      Den (.user m n (some f) (some g)) m n M
  | mat {m n} (M : Matrix (Fin m) (Fin n) 𝕜) : Den (.mat ⟨m, n, M⟩) m n M
  | ident (n) : Den (.ident n n) n n 1
  | zero (n) : Den (.zero n n) n n 0
  | sum {A B m n M N} : Den A m n M → Den B m n N → Den (.sum A B) m n (M + N)
  | prod {A B m l n M N} : Den A m l M → Den B l n N → Den (.prod A B) m n (M * N)
  | scaled {A m n M} (α : 𝕜) : Den A m n M → Den (.scaled A α) m n (α • M)
  | power {A n M} (p : ℕ) : Den A n n M → Den (.power A p) n n (M ^ p)
  | adj {A m n M} : Den A m n M → Den (.adj A) n m Mᴴ
  | timed {A m n M} : Den A m n M → Den (.timed A) m n M

theorem Den.shape_eq {A : Op 𝕜} {m n M} (h : Den A m n M) : A.shape = (m, n) := by
  induction h <;> simp_all [Op.shape]

theorem Arr.mul_ok {m n k : ℕ} (M : Matrix (Fin m) (Fin n) 𝕜) (X : Matrix (Fin n) (Fin k) 𝕜) :
    (⟨m, n, M⟩ : Arr 𝕜).mul ⟨n, k, X⟩ = .ok ⟨m, k, M * X⟩ := by
  unfold Arr.mul
  rw [dif_pos rfl]
  rfl

theorem Arr.add_ok {m k : ℕ} (X Y : Matrix (Fin m) (Fin k) 𝕜) :
    (⟨m, k, X⟩ : Arr 𝕜).add ⟨m, k, Y⟩ = .ok ⟨m, k, X + Y⟩ := by
  unfold Arr.add bdim
  simp only [if_true]
  congr 2
  ext i j
  have hi := i.2
  have hj := j.2
  have hi' : (if m = 1 then 0 else (i : ℕ)) = i := by split <;> omega
  have hj' : (if k = 1 then 0 else (j : ℕ)) = j := by split <;> omega
  simp [Arr.get, hi', hj']

/-- What has to be known about the four callables of an operator denoting `M`. -/
structure CallsOK (c : Calls 𝕜) {m n : ℕ} (M : Matrix (Fin m) (Fin n) 𝕜) : Prop where
  raw : ∃ f, c.rawDot = some f ∧ Acts f M
  rawAdj : ∃ f, c.rawAdj = some f ∧ Acts f Mᴴ
  dot : Acts c.dot M
  dotAdj : Acts c.dotAdj Mᴴ

theorem callsOK_std {m n : ℕ} {M : Matrix (Fin m) (Fin n) 𝕜} {f g : Fn 𝕜} (hf : Acts f M)
    (hg : Acts g Mᴴ) : CallsOK (Calls.std (m, n) (some f) (some g)) M where
  raw := ⟨f, rfl, hf⟩
  rawAdj := ⟨g, rfl, hg⟩
  dot k X hk := by simp [Calls.std, guard, hk, hf k X hk]
  dotAdj k X hk := by simp [Calls.std, guard, hk, hg k X hk]

theorem acts_iter {n : ℕ} {M : Matrix (Fin n) (Fin n) 𝕜} {f : Fn 𝕜} (hf : Acts f M) (p : ℕ) :
    Acts (iter (some f) p) (M ^ p) := by
  induction p with
  | zero => intro k X _; simp [iter]
  | succ p ih =>
    intro k X hk
    simp only [iter, ih k X hk]
    rw [hf k _ hk, pow_succ', Matrix.mul_assoc]

theorem Den.callsOK {A : Op 𝕜} {m n M} (h : Den A m n M) : CallsOK A.calls M := by
  induction h with
  | user hf hg => exact callsOK_std hf hg
  | mat M =>
    refine callsOK_std (fun k X hk => Arr.mul_ok M X) (fun k X hk => ?_)
    exact Arr.mul_ok Mᴴ X
  | ident n => exact callsOK_std (fun k X _ => by simp) (fun k X _ => by simp)
  | zero n =>
    exact callsOK_std (fun k X _ => by simp [Arr.zeros]) (fun k X _ => by simp [Arr.zeros])
  | @sum A B m n M N hA hB ihA ihB =>
    have : CallsOK (Calls.std (m, n) (some (plus A.calls.dot B.calls.dot))
        (some (plus A.calls.dotAdj B.calls.dotAdj))) (M + N) := by
      refine callsOK_std (fun k X hk => ?_) (fun k X hk => ?_)
      · simp [plus, ihA.dot k X hk, ihB.dot k X hk, Arr.add_ok, Matrix.add_mul]
      · simp [plus, ihA.dotAdj k X hk, ihB.dotAdj k X hk, Arr.add_ok, Matrix.add_mul]
    simpa only [Op.calls, hA.shape_eq] using this
  | @prod A B m l n M N hA hB ihA ihB =>
    have : CallsOK (Calls.std (m, n) (some (andThen B.calls.dot A.calls.dot))
        (some (andThen A.calls.dotAdj B.calls.dotAdj))) (M * N) := by
      refine callsOK_std (fun k X hk => ?_) (fun k X hk => ?_)
      · simp [andThen, ihB.dot k X hk, ihA.dot k _ hk, Matrix.mul_assoc]
      · simp [andThen, ihA.dotAdj k X hk, ihB.dotAdj k _ hk, Matrix.mul_assoc]
    simpa only [Op.calls, hA.shape_eq, hB.shape_eq] using this
  | @scaled A m n M α hA ihA =>
    have : CallsOK (Calls.std (m, n) (some (times α A.calls.dot))
        (some (times (star α) A.calls.dotAdj))) (α • M) := by
      refine callsOK_std (fun k X hk => ?_) (fun k X hk => ?_)
      · simp [times, ihA.dot k X hk, Arr.smul]
      · simp [times, ihA.dotAdj k X hk, Arr.smul, Matrix.conjTranspose_smul]
    simpa only [Op.calls, hA.shape_eq] using this
  | @power A n M p hA ihA =>
    obtain ⟨g, hg, hg'⟩ := ihA.rawAdj
    have : CallsOK (Calls.std (n, n) (some (iter (some A.calls.dot) p))
        (some (iter (some g) p))) (M ^ p) := by
      refine callsOK_std (acts_iter ihA.dot p) ?_
      rw [Matrix.conjTranspose_pow]
      exact acts_iter hg' p
    simpa only [Op.calls, hA.shape_eq, hg, Int.toNat_natCast] using this
  | @adj A m n M hA ihA =>
    obtain ⟨f, hf, hf'⟩ := ihA.raw
    obtain ⟨g, hg, hg'⟩ := ihA.rawAdj
    have : CallsOK (Calls.std (n, m) (some g) (some f)) Mᴴ :=
      callsOK_std hg' (by rwa [Matrix.conjTranspose_conjTranspose])
    simpa only [Op.calls, hA.shape_eq, hg, hf] using this
  | @timed A m n M hA ihA =>
    exact ⟨⟨_, rfl, ihA.dot⟩, ⟨_, rfl, ihA.dotAdj⟩, ihA.dot, fun k X hk => by
      simp [Op.calls, hk, ihA.dotAdj k X hk]⟩

/-! ## Source expressions -/

/-- Expressions a user writes. -/
inductive Expr (𝕜 : Type*)
  | leaf (A : Op 𝕜)
  | add (e f : Expr 𝕜)
  | sub (e f : Expr 𝕜)
  | neg (e : Expr 𝕜)
  | mul (e f : Expr 𝕜)
  | smul (α : 𝕜) (e : Expr 𝕜)
  | pow (e : Expr 𝕜) (p : ℕ)
  | adj (e : Expr 𝕜)

/-- Evaluation with the overloaded operators of utils.py 1404-1448. -/
def Expr.build : Expr 𝕜 → Except OpErr (Op 𝕜)
  | .leaf A => .ok A
  | .add e f => match e.build with
    | .error x => .error x
    | .ok A => match f.build with
      | .error x => .error x
      | .ok B => A.add B
  | .sub e f => match e.build with
    | .error x => .error x
    | .ok A => match f.build with
      | .error x => .error x
      | .ok B => A.sub B
  | .neg e => match e.build with
    | .error x => .error x
    | .ok A => .ok A.neg
  | .mul e f => match e.build with
    | .error x => .error x
    | .ok A => match f.build with
      | .error x => .error x
      | .ok B => A.mulOp B
  | .smul α e => match e.build with
    | .error x => .error x
    | .ok A => .ok (A.rmul α)
  | .pow e p => match e.build with
    | .error x => .error x
    | .ok A => A.pow p
  | .adj e => match e.build with
    | .error x => .error x
    | .ok A => .ok (.adj A)

/-- Specification: the matrix denoted by a well-formed source expression (ordinary matrix algebra). -/
inductive Typed : Expr 𝕜 → (m n : ℕ) → Matrix (Fin m) (Fin n) 𝕜 → Prop
  | leaf {A m n M} : Den A m n M → Typed (.leaf A) m n M
  | add {e f m n M N} : Typed e m n M → Typed f m n N → Typed (.add e f) m n (M + N)
  | sub {e f m n M N} : Typed e m n M → Typed f m n N → Typed (.sub e f) m n (M - N)
  | neg {e m n M} : Typed e m n M → Typed (.neg e) m n (-M)
  | mul {e f m l n M N} : Typed e m l M → Typed f l n N → Typed (.mul e f) m n (M * N)
  | smul {e m n M} (α : 𝕜) : Typed e m n M → Typed (.smul α e) m n (α • M)
  | pow {e n M} (p : ℕ) : Typed e n n M → Typed (.pow e p) n n (M ^ p)
  | adj {e m n M} : Typed e m n M → Typed (.adj e) n m Mᴴ

theorem mulOp_den {A B : Op 𝕜} {m l n M N} (hA : Den A m l M) (hB : Den B l n N) :
    ∃ C, A.mulOp B = .ok C ∧ Den C m n (M * N) := by
  have sA := hA.shape_eq
  have sB := hB.shape_eq
  have key : ∀ A B : Op 𝕜, Den A m l M → Den B l n N → (∀ a b, A ≠ .ident a b) →
      (∀ a b, B ≠ .ident a b) → A.mulOp B = .ok (.prod A B) := by
    intro A B hA hB h1 h2
    have sA := hA.shape_eq
    have sB := hB.shape_eq
    unfold Op.mulOp Op.mul
    cases B <;> first | exact absurd rfl (h2 _ _) | skip
    all_goals
      cases A <;> first | exact absurd rfl (h1 _ _) | skip
    all_goals simp only [sA, sB, if_true]
  by_cases h2 : ∃ a b, B = .ident a b
  · obtain ⟨a, b, rfl⟩ := h2
    refine ⟨A, by simp [Op.mulOp, Op.mul], ?_⟩
    cases hB
    simpa using hA
  by_cases h1 : ∃ a b, A = .ident a b
  · obtain ⟨a, b, rfl⟩ := h1
    refine ⟨B, ?_, ?_⟩
    · push Not at h2
      unfold Op.mulOp Op.mul
      cases B <;> first | exact absurd rfl (h2 _ _) | rfl
    · cases hA
      simpa using hB
  push Not at h1 h2
  exact ⟨_, key A B hA hB h1 h2, hA.prod hB⟩

theorem Typed.build_den {e : Expr 𝕜} {m n M} (h : Typed e m n M) :
    ∃ A, e.build = .ok A ∧ Den A m n M := by
  induction h with
  | leaf h => exact ⟨_, rfl, h⟩
  | add _ _ ih1 ih2 =>
    obtain ⟨A, hA, dA⟩ := ih1
    obtain ⟨B, hB, dB⟩ := ih2
    exact ⟨_, by simp [Expr.build, hA, hB, Op.add, dA.shape_eq, dB.shape_eq], dA.sum dB⟩
  | sub _ _ ih1 ih2 =>
    obtain ⟨A, hA, dA⟩ := ih1
    obtain ⟨B, hB, dB⟩ := ih2
    refine ⟨.sum A (.scaled B (-1)), by simp [Expr.build, hA, hB, Op.add, Op.sub, Op.neg, Op.shape,
      dA.shape_eq, dB.shape_eq], ?_⟩
    rw [sub_eq_add_neg, ← neg_one_smul 𝕜 (_ : Matrix _ _ 𝕜)]
    exact dA.sum (dB.scaled (-1))
  | neg _ ih =>
    obtain ⟨A, hA, dA⟩ := ih
    refine ⟨A.scaled (-1), by simp only [Expr.build, hA, Op.neg], ?_⟩
    rw [← neg_one_smul 𝕜 (_ : Matrix _ _ 𝕜)]
    exact dA.scaled (-1)
  | mul _ _ ih1 ih2 =>
    obtain ⟨A, hA, dA⟩ := ih1
    obtain ⟨B, hB, dB⟩ := ih2
    obtain ⟨C, hC, dC⟩ := mulOp_den dA dB
    exact ⟨C, by simp [Expr.build, hA, hB, hC], dC⟩
  | smul α _ ih =>
    obtain ⟨A, hA, dA⟩ := ih
    exact ⟨_, by simp only [Expr.build, hA, Op.rmul], dA.scaled α⟩
  | pow p _ ih =>
    obtain ⟨A, hA, dA⟩ := ih
    exact ⟨_, by simp [Expr.build, hA, Op.pow, dA.shape_eq], dA.power p⟩
  | adj _ ih =>
    obtain ⟨A, hA, dA⟩ := ih
    exact ⟨_, by simp only [Expr.build, hA], dA.adj⟩

/-- C01: every well-formed expression (any nesting) evaluates to an operator of the right shape
whose `dot` is multiplication by the matrix the expression denotes. -/
theorem C01_denotation {e : Expr 𝕜} {m n : ℕ} {M : Matrix (Fin m) (Fin n) 𝕜} (h : Typed e m n M) :
    ∃ A, e.build = .ok A ∧ A.shape = (m, n) ∧
      ∀ (k : ℕ) (X : Matrix (Fin n) (Fin k) 𝕜), k ≠ 0 →
        A.dot ⟨n, k, X⟩ = .ok ⟨m, k, M * X⟩ := by
  obtain ⟨A, hA, dA⟩ := h.build_den
  exact ⟨A, hA, dA.shape_eq, dA.callsOK.dot⟩

/-- C01: the product `op * X` with an array is the same (for a non-identity operator this is `dot`,
for an identity operator the array itself). -/
theorem C01_star {A : Op 𝕜} {m n : ℕ} {M : Matrix (Fin m) (Fin n) 𝕜} (h : Den A m n M)
    (k : ℕ) (X : Matrix (Fin n) (Fin k) 𝕜) (hk : k ≠ 0) :
    A.mul (.arr ⟨n, k, X⟩) = .ok (.arr ⟨m, k, M * X⟩) := by
  have hd : A.dot ⟨n, k, X⟩ = .ok ⟨m, k, M * X⟩ := h.callsOK.dot k X hk
  by_cases h1 : ∃ a b, A = .ident a b
  · obtain ⟨a, b, rfl⟩ := h1
    cases h
    simp [Op.mul]
  · push Not at h1
    unfold Op.mul
    cases A <;> first | exact absurd rfl (h1 _ _) | skip
    all_goals simp only [hd]

/-- C02: `dot_adj` of every well-formed expression is multiplication by the conjugate transpose, and
so is `dot` of `.adj`; `.adj.adj` acts as the operator itself. -/
theorem C02_adjoint {e : Expr 𝕜} {m n : ℕ} {M : Matrix (Fin m) (Fin n) 𝕜} (h : Typed e m n M) :
    ∃ A, e.build = .ok A ∧
      (∀ (k : ℕ) (Y : Matrix (Fin m) (Fin k) 𝕜), k ≠ 0 →
        A.dotAdj ⟨m, k, Y⟩ = .ok ⟨n, k, Mᴴ * Y⟩ ∧ (Op.adj A).dot ⟨m, k, Y⟩ = .ok ⟨n, k, Mᴴ * Y⟩) ∧
      (∀ (k : ℕ) (X : Matrix (Fin n) (Fin k) 𝕜), k ≠ 0 →
        (Op.adj (Op.adj A)).dot ⟨n, k, X⟩ = .ok ⟨m, k, M * X⟩ ∧
        (Op.adj A).dotAdj ⟨n, k, X⟩ = .ok ⟨m, k, M * X⟩) := by
  obtain ⟨A, hA, dA⟩ := h.build_den
  refine ⟨A, hA, fun k Y hk => ⟨dA.callsOK.dotAdj k Y hk, dA.adj.callsOK.dot k Y hk⟩,
    fun k X hk => ⟨?_, ?_⟩⟩
  · have := dA.adj.adj.callsOK.dot k X hk
    rwa [Matrix.conjTranspose_conjTranspose] at this
  · have := dA.adj.callsOK.dotAdj k X hk
    rwa [Matrix.conjTranspose_conjTranspose] at this

/-- C02: the adjoint of a product applies the adjoint factors in reversed order. -/
theorem C02_product {A B : Op 𝕜} {m l n : ℕ} {M : Matrix (Fin m) (Fin l) 𝕜}
    {N : Matrix (Fin l) (Fin n) 𝕜} (hA : Den A m l M) (hB : Den B l n N) (k : ℕ)
    (Y : Matrix (Fin m) (Fin k) 𝕜) (hk : k ≠ 0) :
    (Op.adj (.prod A B)).dot ⟨m, k, Y⟩ = (Op.prod (.adj B) (.adj A)).dot ⟨m, k, Y⟩ := by
  have h1 := (hA.prod hB).adj.callsOK.dot k Y hk
  have h2 := (hB.adj.prod hA.adj).callsOK.dot k Y hk
  rw [← Matrix.conjTranspose_mul] at h2
  exact h1.trans h2.symm

/-! ## C03: shapes -/

theorem Den.dot_mismatch {A : Op 𝕜} {m n M} (h : Den A m n M) (X : Arr 𝕜) (hX : X.rows ≠ n) :
    A.dot X = .error .linop := by
  induction h with
  | timed _ ih => exact ih hX
  | sum hA => simp [Op.dot, Op.calls, Calls.std, guard, hA.shape_eq, hX]
  | scaled _ hA => simp [Op.dot, Op.calls, Calls.std, guard, hA.shape_eq, hX]
  | power _ hA => simp [Op.dot, Op.calls, Calls.std, guard, hA.shape_eq, hX]
  | prod _ hB => simp [Op.dot, Op.calls, Calls.std, guard, hB.shape_eq, hX]
  | adj hA => simp [Op.dot, Op.calls, Calls.std, guard, hA.shape_eq, hX]
  | _ => simp [Op.dot, Op.calls, Calls.std, guard, hX]

theorem Den.dotAdj_mismatch {A : Op 𝕜} {m n M} (h : Den A m n M) (X : Arr 𝕜) (hX : X.rows ≠ m)
    (hk : X.cols ≠ 0) : A.dotAdj X = .error .linop := by
  induction h with
  | timed _ ih => simp only [Op.dotAdj, Op.calls, hk, if_false]; exact ih hX
  | sum hA => simp [Op.dotAdj, Op.calls, Calls.std, guard, hA.shape_eq, hX]
  | scaled _ hA => simp [Op.dotAdj, Op.calls, Calls.std, guard, hA.shape_eq, hX]
  | power _ hA => simp [Op.dotAdj, Op.calls, Calls.std, guard, hA.shape_eq, hX]
  | prod hA _ => simp [Op.dotAdj, Op.calls, Calls.std, guard, hA.shape_eq, hX]
  | adj hA => simp [Op.dotAdj, Op.calls, Calls.std, guard, hA.shape_eq, hX]
  | _ => simp [Op.dotAdj, Op.calls, Calls.std, guard, hX]

theorem Den.dot_empty {A : Op 𝕜} {m n M} (h : Den A m n M) :
    A.dot (Arr.zeros n 0) = .ok (Arr.zeros n 0) := by
  induction h with
  | timed _ ih => exact ih
  | sum hA => simp [Op.dot, Op.calls, Calls.std, guard, hA.shape_eq, Arr.zeros]
  | scaled _ hA => simp [Op.dot, Op.calls, Calls.std, guard, hA.shape_eq, Arr.zeros]
  | power _ hA => simp [Op.dot, Op.calls, Calls.std, guard, hA.shape_eq, Arr.zeros]
  | prod _ hB => simp [Op.dot, Op.calls, Calls.std, guard, hB.shape_eq, Arr.zeros]
  | @adj A m n M hA =>
    obtain ⟨f, hf, _⟩ := hA.callsOK.rawAdj
    simp [Op.dot, Op.calls, Calls.std, guard, hA.shape_eq, Arr.zeros, hf]
  | _ => simp [Op.dot, Op.calls, Calls.std, guard, Arr.zeros]

/-- C03: for every operator denoting an `m × n` matrix, `dot` returns an `(m,k)` array
when `k ≥ 1` or the operator is square, and raises `LinearOperatorError` for a wrong number of rows;
`dot_adj` likewise when `k ≥ 1`.  Excluded are `k = 0` with a non-square operator, where
it is false (`C03_empty_counterexample`), and non-square zero operators, where it is
false (`C03_zero_counterexample`). -/
theorem C03_shapes {A : Op 𝕜} {m n : ℕ} {M : Matrix (Fin m) (Fin n) 𝕜} (h : Den A m n M) :
    (∀ X : Arr 𝕜, X.rows = n → X.cols ≠ 0 ∨ m = n →
      ∃ Y, A.dot X = .ok Y ∧ Y.rows = m ∧ Y.cols = X.cols) ∧
    (∀ X : Arr 𝕜, X.rows ≠ n → A.dot X = .error .linop) ∧
    (∀ X : Arr 𝕜, X.rows = m → X.cols ≠ 0 →
      ∃ Y, A.dotAdj X = .ok Y ∧ Y.rows = n ∧ Y.cols = X.cols) ∧
    (∀ X : Arr 𝕜, X.rows ≠ m → X.cols ≠ 0 → A.dotAdj X = .error .linop) := by
  refine ⟨?_, fun X hX => h.dot_mismatch X hX, ?_, fun X hX hk => h.dotAdj_mismatch X hX hk⟩
  · rintro ⟨r, k, X⟩ rfl hk
    by_cases hk0 : k = 0
    · subst hk0
      have hmn : m = r := by simpa using hk
      subst hmn
      have e : (⟨m, 0, X⟩ : Arr 𝕜) = Arr.zeros m 0 := by
        unfold Arr.zeros; congr 1; ext i j; exact j.elim0
      rw [e]
      exact ⟨_, h.dot_empty, rfl, rfl⟩
    · exact ⟨_, h.callsOK.dot k X hk0, rfl, rfl⟩
  · rintro ⟨r, k, X⟩ rfl hk
    exact ⟨_, h.callsOK.dotAdj k X hk, rfl, rfl⟩

/-- C03, full claim refuted: any non-square operator applied to an array without columns returns an
array with the wrong number of rows. -/
theorem C03_empty_counterexample {A : Op 𝕜} {m n : ℕ} {M : Matrix (Fin m) (Fin n) 𝕜}
    (h : Den A m n M) (hmn : m ≠ n) :
    ∃ Y, A.dot (Arr.zeros n 0) = .ok Y ∧ Y.rows ≠ m :=
  ⟨_, h.dot_empty, fun e => hmn e.symm⟩

/-- C03, full claim refuted: a non-square `ZeroLinearOperator` returns an array of the wrong shape. -/
theorem C03_zero_counterexample (m n k : ℕ) (hmn : m ≠ n) (X : Matrix (Fin n) (Fin k) 𝕜) :
    ∃ Y, (Op.zero m n : Op 𝕜).dot ⟨n, k, X⟩ = .ok Y ∧ Y.rows ≠ m := by
  refine ⟨Arr.zeros n k, ?_, fun e => hmn e.symm⟩
  simp [Op.dot, Op.calls, Calls.std, guard]

/-- C03, full claim refuted: `TimedLinearOperator.dot_adj` with an array without columns calls `dot`
(line 1631), hence raises for every non-square operator. -/
theorem C03_timed_counterexample {A : Op 𝕜} {m n : ℕ} {M : Matrix (Fin m) (Fin n) 𝕜}
    (h : Den A m n M) (hmn : m ≠ n) :
    (Op.timed A).dotAdj (Arr.zeros m 0) = .error .linop := by
  have : (Op.timed A).dotAdj (Arr.zeros m 0) = A.dot (Arr.zeros m 0) := by
    simp [Op.dotAdj, Op.calls, Arr.zeros, Op.dot]
  rw [this]
  exact h.dot_mismatch _ hmn

/-- C03, full claim refuted: the product of an operator with an identity of any other shape is
accepted. -/
theorem C03_identity_counterexample (A : Op 𝕜) (m n : ℕ) :
    A.mulOp (.ident m n) = .ok A := by simp [Op.mulOp, Op.mul]

/-- C03, full claim refuted: `A * X` with the wrong number of rows does not raise: the
`LinearOperatorError` is converted into `NotImplemented` and numpy answers with an object array. -/
theorem C03_star_counterexample {m n : ℕ} (M : Matrix (Fin m) (Fin n) 𝕜) (X : Arr 𝕜)
    (hX : X.rows ≠ n) :
    (Op.mat ⟨m, n, M⟩).mul (.arr X) =
      .ok (.objArr X.rows X.cols fun i j => .scaled (.mat ⟨m, n, M⟩) (X.data i j)) := by
  unfold Op.mul
  simp only [(Den.mat M).dot_mismatch X hX]

/-- Shape mismatches of sums, products (without identities) and powers are rejected. -/
theorem C03_rejects {A B : Op 𝕜} {m n m' n' : ℕ} {M : Matrix (Fin m) (Fin n) 𝕜}
    {N : Matrix (Fin m') (Fin n') 𝕜} (hA : Den A m n M) (hB : Den B m' n' N) :
    ((m, n) ≠ (m', n') → A.add B = .error .type ∧ A.sub B = .error .type) ∧
    (n ≠ m' → (∀ a b, A ≠ .ident a b) → (∀ a b, B ≠ .ident a b) → A.mulOp B = .error .type) ∧
    (m ≠ n → ∀ p, A.pow p = .error .type) := by
  refine ⟨fun h => ?_, fun h h1 h2 => ?_, fun h p => ?_⟩
  · constructor
    · unfold Op.add; rw [if_neg (by rw [hA.shape_eq, hB.shape_eq]; exact h)]
    · unfold Op.sub Op.add
      rw [if_neg (by rw [hA.shape_eq]; simp only [Op.neg, Op.shape, hB.shape_eq]; exact h)]
  · have sA := hA.shape_eq
    have sB := hB.shape_eq
    unfold Op.mulOp Op.mul
    cases B <;> first | exact absurd rfl (h2 _ _) | skip
    all_goals
      cases A <;> first | exact absurd rfl (h1 _ _) | skip
    all_goals simp only [sA, sB, h, if_false]
  · unfold Op.pow; rw [if_neg (by rw [hA.shape_eq]; exact h)]

/-- C01, outside the documented domain: a negative power is accepted and silently acts as the
identity instead of the inverse. -/
theorem C01_negative_power_counterexample {A : Op 𝕜} {n : ℕ} {M : Matrix (Fin n) (Fin n) 𝕜}
    (hA : Den A n n M) (p : ℕ) (k : ℕ) (hk : k ≠ 0) (X : Matrix (Fin n) (Fin k) 𝕜) :
    A.pow (-(p : ℤ)) = .ok (.power A (-(p : ℤ))) ∧
    (Op.power A (-(p : ℤ))).dot ⟨n, k, X⟩ = .ok ⟨n, k, X⟩ := by
  constructor
  · unfold Op.pow; rw [if_pos (by rw [hA.shape_eq])]
  · have : (-(p : ℤ)).toNat = 0 := by omega
    simp [Op.dot, Op.calls, Calls.std, guard, hA.shape_eq, hk, this, iter]

/-- C01, outside the documented domain: an identity operator times a scalar is the scalar, not a scaled
identity. -/
theorem C01_identity_scalar_counterexample (n : ℕ) (α : 𝕜) :
    (Op.ident n n : Op 𝕜).mul (.scalar α) = .ok (.scalar α) := rfl

/-- `get_linearoperator` (utils.py 241-273): for a matrix or operator of the requested shape, with
or without timer, the result denotes the same matrix; other shapes are rejected; `None` is the identity. -/
theorem C01_get_linearoperator {A : Op 𝕜} {m n : ℕ} {M : Matrix (Fin m) (Fin n) 𝕜} (h : Den A m n M)
    (t : Bool) :
    (∃ B, getLinearoperator (m, n) t (.op A) = .ok B ∧ Den B m n M) ∧
    (∃ B, getLinearoperator (m, n) t (.arr ⟨m, n, M⟩) = .ok B ∧ Den B m n M) ∧
    (∀ s, s ≠ (m, n) → getLinearoperator s t (.op A) = .error .linop) ∧
    (∃ B : Op 𝕜, getLinearoperator (n, n) t .none = .ok B ∧ Den B n n 1) ∧
    getLinearoperator (m, n) t (.other : OpArg 𝕜) = .error .type := by
  have hs := h.shape_eq
  refine ⟨?_, ?_, ?_, ⟨_, by simp [getLinearoperator, Op.shape], .ident n⟩, rfl⟩
  · by_cases h1 : ∃ a b, A = .ident a b
    · obtain ⟨a, b, rfl⟩ := h1
      exact ⟨_, by simp [getLinearoperator, hs], h⟩
    · push Not at h1
      cases t
      · refine ⟨A, ?_, h⟩
        unfold getLinearoperator
        cases A <;> first | exact absurd rfl (h1 _ _) | skip
        all_goals simp [hs]
      · refine ⟨.timed A, ?_, h.timed⟩
        unfold getLinearoperator
        cases A <;> first | exact absurd rfl (h1 _ _) | skip
        all_goals simp [Op.shape] at hs ⊢
        all_goals simp [hs]
  · cases t
    · exact ⟨_, by simp [getLinearoperator, Op.shape], .mat M⟩
    · exact ⟨_, by simp [getLinearoperator, Op.shape], (Den.mat M).timed⟩
  · intro s hne
    unfold getLinearoperator
    cases A <;> cases t <;> simp [Op.shape] at hs ⊢ <;> simp_all

/-- Non-vacuity: a nested complex expression with a non-square factor. -/
example (A : Matrix (Fin 2) (Fin 3) ℂ) (B : Matrix (Fin 2) (Fin 2) ℂ) :
    Typed (.sub (.pow (.mul (.leaf (.mat ⟨2, 3, A⟩)) (.adj (.leaf (.timed (.mat ⟨2, 3, A⟩))))) 3)
      (.smul Complex.I (.mul (.leaf (.mat ⟨2, 2, B⟩)) (.leaf (.ident 2 2)))) : Expr ℂ) 2 2
      ((A * Aᴴ) ^ 3 - Complex.I • (B * 1)) :=
  .sub (.pow 3 (.mul (.leaf (.mat A)) (.adj (.leaf (.timed (.mat A))))))
    (.smul _ (.mul (.leaf (.mat B)) (.leaf (.ident 2))))

end Krypy.Ops
