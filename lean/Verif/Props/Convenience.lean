import Verif.Model.Convenience
import Verif.Props.Driver
import Mathlib.Order.Defs.LinearOrder

/-! # Property C50: convenience functions -/

namespace Krypy.Conv
open Krypy
variable {F O D I : Type*}

/-- C50: the options reach the solver unchanged, except `Mr`.  Excluded:
`Mr`, which is ignored (`C50_Mr_counterexample`). -/
theorem C50_options {f : Fun} {wrap : I → I} {a : Args F O D I} {c : Call F O D I}
    (h : mkCall f wrap a = .ok c) :
    c.solver = f ∧ (c.deflated = true ↔ a.U ≠ none) ∧ c.A = a.A ∧ c.b = a.b ∧ c.M = a.M ∧
    c.Minv = a.Minv ∧ c.Ml = a.Ml ∧ c.wrapped = a.innerProduct.map wrap ∧
    c.exactSolution = a.exactSolution ∧ c.tol = a.tol ∧ c.maxiter = a.maxiter ∧
    c.explicitResidual = a.useExplicitResidual ∧ c.storeArnoldi = a.storeArnoldi ∧
    (f ≠ .cg → c.ortho = some a.ortho) ∧
    (c.x0.map (·.data) = a.x0.map (·.data)) ∧ (c.U.map (·.data) = a.U.map (·.data)) ∧
    (c.selfAdjoint = true ↔ f ≠ .gmres) ∧ (c.positiveDefinite = true ↔ f = .cg) ∧ c.normal = false := by
  unfold mkCall at h
  split at h
  · split at h
    · simp only [Except.ok.injEq] at h
      subst h
      refine ⟨rfl, ?_, rfl, rfl, rfl, rfl, rfl, rfl, rfl, rfl, rfl, rfl, rfl, ?_, ?_, ?_, ?_, ?_, rfl⟩
      · cases a.U <;> simp
      · intro hf; simp [hf]
      · cases a.x0 <;> simp [reshape2]
      · cases a.U <;> simp [reshape2]
      · simp
      · simp
    · simp at h
  · simp at h

/-- C50: the call is made exactly for square `A` with matching `b`; otherwise an assertion fails. -/
theorem C50_assertions (f : Fun) (wrap : I → I) (a : Args F O D I) :
    (∃ c, mkCall f wrap a = .ok c) ↔ ∃ n, a.Ashape = [n, n] ∧ a.b.shape.head? = some n := by
  unfold mkCall
  constructor
  · rintro ⟨c, h⟩
    split at h
    · next m n hs =>
      split at h
      · next hc => exact ⟨n, by rw [hs, hc.1], hc.2⟩
      · simp at h
    · simp at h
  · rintro ⟨n, hs, hb⟩
    simp [hs, hb]

/-- C50: for a call whose solver returns `out`, the first component is `out.xk` (the same data,
reshaped to the shape of `b`) exactly when the last residual norm is below `tol`. -/
theorem C50_result [LT F] [DecidableLT F] {f : Fun} {wrap : I → I}
    {solve : Call F O D I → Outcome (Solved F D)} {a : Args F O D I}
    {x : Option (UArr D)} {out : Solved F D}
    (h : convenience f wrap solve a = .returned (x, out)) :
    ∃ c r, mkCall f wrap a = .ok c ∧ solve c = .returned out ∧ out.resnorms.getLast? = some r ∧
      (r < a.tol → ∃ y, x = some y ∧ y.data = out.xk.data ∧ y.shape = a.b.shape) ∧
      (¬ r < a.tol → x = none) := by
  unfold convenience at h
  split at h
  · simp at h
  · next c hc =>
    split at h
    · simp at h
    · simp at h
    · simp at h
    · next out' hs =>
      split at h
      · simp at h
      · next r hr =>
        simp only [Outcome.returned.injEq, Prod.mk.injEq] at h
        obtain ⟨h1, rfl⟩ := h
        refine ⟨c, r, hc, hs, hr, ?_, ?_⟩
        · intro hlt
          rw [if_pos hlt] at h1
          exact ⟨_, h1.symm, rfl, rfl⟩
        · intro hlt
          rw [if_neg hlt] at h1
          exact h1.symm

/-- C50: a `ConvergenceError` of the solver is never turned into a return value. -/
theorem C50_convergence_propagates [LT F] [DecidableLT F] {f : Fun} {wrap : I → I}
    {solve : Call F O D I → Outcome (Solved F D)} {a : Args F O D I} {c : Call F O D I}
    (hc : mkCall f wrap a = .ok c) {out : Solved F D} (hs : solve c = .convergence out) :
    convenience f wrap solve a = .convergence (none, out) := by
  simp [convenience, hc, hs]

/-- C50: with a solver that obeys C22 (`Cg` with `maxiter ≥ 1`: a returned solver has last residual not
above `tol`), over a linear order, the answer is `None` only if the last residual norm is *equal* to `tol`. -/
theorem C50_none_iff_equal [LinearOrder F] {f : Fun} {wrap : I → I}
    {solve : Call F O D I → Outcome (Solved F D)} {a : Args F O D I}
    (hsolve : ∀ c out, solve c = .returned out → ∃ r, out.resnorms.getLast? = some r ∧ ¬ c.tol < r)
    {x : Option (UArr D)} {out : Solved F D}
    (h : convenience f wrap solve a = .returned (x, out)) :
    x = none ↔ out.resnorms.getLast? = some a.tol := by
  obtain ⟨c, r, hc, hs, hr, h1, h2⟩ := C50_result h
  obtain ⟨r', hr', hle⟩ := hsolve c out hs
  have ht : c.tol = a.tol := (C50_options hc).2.2.2.2.2.2.2.2.2.1
  rw [hr] at hr'
  obtain rfl := Option.some.inj hr'
  rw [ht] at hle
  rw [hr]
  constructor
  · intro hx
    congr 1
    by_contra hne
    obtain ⟨y, hy, -⟩ := h1 (lt_of_le_of_ne (not_lt.mp hle) hne)
    simp [hx] at hy
  · intro he
    obtain rfl := Option.some.inj he
    exact h2 (lt_irrefl _)

/-- Finding (C50): the documented argument `Mr` has no effect at all. -/
theorem C50_Mr_counterexample [LT F] [DecidableLT F] (f : Fun) (wrap : I → I)
    (solve : Call F O D I → Outcome (Solved F D)) (a : Args F O D I) (Mr : O) :
    convenience f wrap solve { a with Mr := some Mr } =
      convenience f wrap solve { a with Mr := none } ∧
    ∀ c, mkCall f wrap { a with Mr := some Mr } = .ok c → c.Mr = none := by
  refine ⟨rfl, ?_⟩
  intro c h
  unfold mkCall at h
  split at h
  · split at h
    · simp only [Except.ok.injEq] at h
      subst h; rfl
    · simp at h
  · simp at h

/-- Finding (C50): a solver that returns with residual exactly `tol` (converged) yields `None`;
for instance `b = 0` with `tol = 0`. -/
theorem C50_equal_counterexample [LT F] [DecidableLT F] {f : Fun} {wrap : I → I}
    {solve : Call F O D I → Outcome (Solved F D)} {a : Args F O D I} {c : Call F O D I}
    (hirr : ¬ a.tol < a.tol) (hc : mkCall f wrap a = .ok c) {out : Solved F D}
    (hs : solve c = .returned out) (hr : out.resnorms.getLast? = some a.tol) :
    convenience f wrap solve a = .returned (none, out) := by
  simp [convenience, hc, hs, hr, hirr]

/-- C50: `wrap_inner_product` is correct for single-column arguments ... -/
theorem C50_wrap_single {V : Type*} (inner : V → V → F) (x y : V) :
    wrapInner inner [x] [y] = .ok [[inner x y]] := rfl

/-- ... Finding (C50): but for an `(N,m)` and an `(N,n)` array it returns a `1 × 1` instead of an `m × n`
array, so a user supplied inner product cannot be combined with more than one deflation vector. -/
theorem C50_wrap_counterexample {V : Type*} (inner : V → V → F) (xs ys : List V)
    (hx : 2 ≤ xs.length) (hy : ys ≠ []) :
    ∃ G, wrapInner inner xs ys = .ok G ∧ G.length ≠ xs.length := by
  match xs, ys, hx, hy with
  | x :: x' :: xs, y :: ys, _, _ => exact ⟨[[inner x y]], rfl, by simp⟩

/-- Non-vacuity: a concrete call that returns a solution. -/
example : ∃ x out, convenience (F := ℕ) (O := Unit) (D := ℕ) (I := Unit) .gmres id
    (fun _ => .returned ⟨⟨[3, 1], 7⟩, [5, 1]⟩)
    { A := (), Ashape := [3, 3], b := ⟨[3], 0⟩, M := none, Minv := none, Ml := none, Mr := none,
      innerProduct := none, exactSolution := none, ortho := "mgs", x0 := none, U := none, tol := 2,
      maxiter := none, useExplicitResidual := false, storeArnoldi := false } =
      .returned (some x, out) ∧ x.shape = [3] ∧ x.data = 7 :=
  ⟨⟨[3], 7⟩, ⟨⟨[3, 1], 7⟩, [5, 1]⟩, rfl, rfl, rfl⟩

end Krypy.Conv
