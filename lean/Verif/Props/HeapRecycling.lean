import Verif.Model.HeapRecycling
import Verif.Props.HeapDefl

/-!
# Property C93: aliasing and in-place updates in the recycling solvers

Continues `Props/HeapDefl` (C90) for recycling/linsys.py 52-103.  A recycling solver holds on to the last deflated solver, and the factory gets access to all arrays
of this solver.
-/

set_option linter.unusedSectionVars false

namespace Krypy
variable {𝕜 E : Type*} [RCLike 𝕜] [AddCommGroup E] [Module 𝕜 E] {k : ℕ}

/-! ## Solvers and factories -/

/-- The model on values which belongs to a deflated solver: the attributes, their contents and the call. -/
structure HSpecT (T : HSolverT 𝕜 E) where
  V : ℕ → Type*
  val : ∀ {k : ℕ}, HArgs → Heap E → T.S k → V k
  call : ∀ {k : ℕ}, LS 𝕜 E → Obl 𝕜 E k → SolverArgs E → Outcome (St ℝ E (V k))

/-- `DeflatedCg` on values. -/
noncomputable def hCgSpec (𝕜 E : Type*) [RCLike 𝕜] [AddCommGroup E] [Module 𝕜 E] : HSpecT (hCgT 𝕜 E) where
  V k := CgSt 𝕜 E × List ((Fin k → 𝕜) × Option (Fin k → 𝕜))
  val _ h t := (HCgSt.val h t.1, t.2.abs)
  call s o a := deflatedCg s o true a

/-- `DeflatedGmres` on values. -/
noncomputable def hGmresSpec (𝕜 E : Type*) [RCLike 𝕜] [AddCommGroup E] [Module 𝕜 E] (ortho : Ortho) : HSpecT (hGmresT 𝕜 E ortho) where
  V k := GmresSt 𝕜 E × List (Fin k → 𝕜)
  val a h t := (HGmresSt.val a.maxiter h t.1, t.2)
  call s o a := deflatedGmres s o ortho a

/-- `DeflatedMinres` on values. -/
noncomputable def hMinresSpec (𝕜 E : Type*) [RCLike 𝕜] [AddCommGroup E] [Module 𝕜 E] (ortho : Ortho) : HSpecT (hMinresT 𝕜 E ortho) where
  V k := MinresSt 𝕜 E × List (Fin k → 𝕜)
  val a h t := (HMinresSt.val a.maxiter h t.1, t.2)
  call s o a := deflatedMinres s o ortho a

variable {A M Ml Mr : E →ₗ[𝕜] E} {oA oMl oMr : OpObj E} {oM : Option (OpObj E)} {ip : E → E → 𝕜}

/-- The constructor of a deflated solver (deflation.py 93-126) as in `hDeflatedCg`. -/
noncomputable def hDeflT (T : HSolverT 𝕜 E) (y : HSys 𝕜 E) (oa : HOblArgs 𝕜 E k) (U : Fin k → ℕ) (a : HArgs) (h : Heap E) : Heap E × Except Err (HSt E (T.S k) × HEnd) :=
  match hMkObl y oa U h with
  | (h, .error e) => (h, .error e)
  | (h, .ok o) => T.run y o.proj a h

/-- What C90 says about a deflated solver. -/
structure HSpecT.Good {T : HSolverT 𝕜 E} (v : HSpecT T) : Prop where
  call : ∀ {A M Ml Mr : E →ₗ[𝕜] E} {oA oMl oMr : OpObj E} {oM : Option (OpObj E)} {ip : E → E → 𝕜} {h : Heap E} {b : ℕ} {h₁ g : Heap E} {y : HSys 𝕜 E} {a : HArgs} {k : ℕ},
    UserSysW A M Ml Mr oA oM oMl oMr h b → IsInner ip → hMkSys h oA oM oMl oMr ip b = (h₁, .ok y) → h₁.Ext g → UserArgs g a →
    ∀ (oa : HOblArgs 𝕜 E k) (U : Fin k → ℕ) (normal : Option Bool) (sa pd : Bool),
    ∃ s, mkLS ⟨A, h.mem b, M, Ml, Mr, ip, normal, sa, pd⟩ = .ok s ∧
      (∀ i < g.next, (hDeflT T y oa U a g).1.mem i = g.mem i) ∧ g.next ≤ (hDeflT T y oa U a g).1.next ∧
      (∃ same, (∀ o, (hMkObl y oa U g).2 = .ok o → same = decide (o.U = o.AU)) ∧
        hOutcome (v.val a) (hDeflT T y oa U a g).2 = deflOutcome (mkObl s (oa.val same) (g.cols U)) fun o => v.call s o (a.val g.mem)) ∧
      ∀ st e, (hDeflT T y oa U a g).2 = .ok (st, e) → st.h = (hDeflT T y oa U a g).1 ∧
        ∀ x, e = .returned ∨ e = .convergence → st.xk = some x → g.next ≤ x ∧ x < st.h.next

theorem hCgSpec_good : (hCgSpec 𝕜 E).Good := ⟨fun u hip hy e ua oa U normal sa pd => C90_cg u hip hy e ua oa U true normal sa pd⟩

theorem hGmresSpec_good (ortho : Ortho) : (hGmresSpec 𝕜 E ortho).Good := ⟨fun u hip hy e ua oa U normal sa pd => C90_gmres u hip hy e ua oa U ortho normal sa pd⟩

theorem hMinresSpec_good (ortho : Ortho) : (hMinresSpec 𝕜 E ortho).Good := ⟨fun u hip hy e ua oa U normal sa pd => C90_minres u hip hy e ua oa U ortho normal sa pd⟩

/-- **C93** (the solver classes).  The classes `DeflatedCg` (with `store_arnoldi=True`, recycling/linsys.py 98-100), `DeflatedGmres` and `DeflatedMinres` used by the recycling solvers meet the description which the other theorems assume. -/
theorem C93_solvers : (hCgSpec 𝕜 E).Good ∧ (∀ ortho, (hGmresSpec 𝕜 E ortho).Good) ∧ ∀ ortho, (hMinresSpec 𝕜 E ortho).Good :=
  ⟨hCgSpec_good, hGmresSpec_good, hMinresSpec_good⟩

/-- A factory which changes no existing array.  It may return arrays of the solver. -/
def FactoryOk {T : HSolverT 𝕜 E} (f : HFactory T) : Prop := ∀ (h : Heap E) (i : HInst T), h.Ext (f h i).1

theorem allocCols_ext (h : Heap E) (X : Fin k → E) : h.Ext (h.allocCols X).1 := by
  refine ⟨Nat.le_add_right _ _, fun i hi => ?_⟩
  simp only [Heap.allocCols]
  rw [dif_neg (by omega)]

theorem allocCols_cols (h : Heap E) (X : Fin k → E) : (h.allocCols X).1.cols (h.allocCols X).2 = X := by
  funext j
  simp only [Heap.allocCols, Heap.cols]
  rw [dif_pos ⟨Nat.le_add_right _ _, by omega⟩]
  congr 1
  ext
  simp

/-- **C93** (`Ritz.get_vectors`).  The Ritz vectors form a new array, the combinations of the contents of `V` and `projection.U`; no existing array changes. -/
theorem C93_get_vectors {n : ℕ} (V : ℕ → ℕ) (U : Fin k → ℕ) (coeffs : List ((Fin n → 𝕜) × (Fin k → 𝕜))) (h : Heap E) :
    (∀ i < h.next, (hGetVectors V U coeffs h).1.mem i = h.mem i) ∧
      (∀ j, h.next ≤ (hGetVectors V U coeffs h).2.2 j ∧ (hGetVectors V U coeffs h).2.2 j < (hGetVectors V U coeffs h).1.next) ∧
      List.ofFn ((hGetVectors V U coeffs h).1.cols (hGetVectors V U coeffs h).2.2) =
        coeffs.map fun c => ∑ j : Fin n, c.1 j • h.mem (V j) + ∑ j : Fin k, c.2 j • h.mem (U j) := by
  unfold hGetVectors
  dsimp only
  refine ⟨(allocCols_ext h _).mem, fun j => ⟨Nat.le_add_right _ _, ?_⟩, ?_⟩
  · have : (j : ℕ) < coeffs.length := j.2
    simp only [Heap.allocCols]
    omega
  · rw [allocCols_cols]
    refine List.ext_getElem (by simp) fun i h1 h2 => ?_
    rw [List.getElem_ofFn, List.getElem_map]
    rfl

theorem hGetVectors_ext {n : ℕ} (V : ℕ → ℕ) (U : Fin k → ℕ) (coeffs : List ((Fin n → 𝕜) × (Fin k → 𝕜))) (h : Heap E) : h.Ext (hGetVectors V U coeffs h).1 := by
  unfold hGetVectors
  dsimp only
  exact allocCols_ext h _

theorem hRitzFactory_ok {T : HSolverT 𝕜 E} (basis : HInst T → (ℕ → ℕ) × ℕ)
    (select : ∀ (h : Heap E) (i : HInst T), Except Err (List ((Fin (basis i).2 → 𝕜) × (Fin i.k → 𝕜)))) : FactoryOk (hRitzFactory basis select) := by
  intro h i
  unfold hRitzFactory
  split
  · exact .refl h
  · exact hGetVectors_ext _ _ _ h

theorem hUnionGet_ext {T : HSolverT 𝕜 E} (i : HInst T) : ∀ (fs : List (HFactory T)) (h : Heap E), (∀ f ∈ fs, FactoryOk f) → h.Ext (hUnionGet i fs h).1
  | [], h, _ => .refl h
  | f :: l, h, hf => by
    have e1 := hf f (by simp) h i
    unfold hUnionGet
    cases h1 : f h i with
    | mk h' r =>
    rw [h1] at e1
    cases r with
    | error e => exact e1
    | ok U =>
      have e2 := hUnionGet_ext i l h' fun f hf' => hf f (by simp [hf'])
      dsimp only
      cases h2 : hUnionGet i l h' with
      | mk h'' r =>
      rw [h2] at e2
      cases r <;> exact e1.trans e2

theorem hUnionFactory_ok {T : HSolverT 𝕜 E} {fs : List (HFactory T)} (hf : ∀ f ∈ fs, FactoryOk f) : FactoryOk (hUnionFactory fs) := by
  intro h i
  have e := hUnionGet_ext i fs h hf
  unfold hUnionFactory
  split
  · exact .refl h
  · cases h1 : hUnionGet i fs h with
    | mk h' r =>
    rw [h1] at e
    cases r with
    | error e' => exact e
    | ok L =>
      dsimp only
      exact e.trans (allocCols_ext h' _)

/-- The factories of krypy (recycling/factories.py) and unions of them, and factories which return arrays of the solver itself. -/
inductive RepoFactory {T : HSolverT 𝕜 E} : HFactory T → Prop
  | ritz (basis : HInst T → (ℕ → ℕ) × ℕ) (select : ∀ (h : Heap E) (i : HInst T), Except Err (List ((Fin (basis i).2 → 𝕜) × (Fin i.k → 𝕜)))) :
    RepoFactory (hRitzFactory basis select)
  | union {fs : List (HFactory T)} (h : ∀ f ∈ fs, RepoFactory f) : RepoFactory (hUnionFactory fs)
  | stored (get : HInst T → Except Err (Σ k, Fin k → ℕ)) : RepoFactory fun h i => (h, get i)

/-- **C93** (factories).  No existing array is changed by krypy's factories, by unions of them, and by factories which return arrays of the last solver. -/
theorem C93_factories {T : HSolverT 𝕜 E} {f : HFactory T} (r : RepoFactory f) (h : Heap E) (i : HInst T) : ∀ j < h.next, (f h i).1.mem j = h.mem j := by
  have : FactoryOk f := by
    induction r with
    | ritz basis select => exact hRitzFactory_ok basis select
    | union h ih => exact hUnionFactory_ok ih
    | stored get => exact fun h _ => .refl h
  exact (this h i).mem

/-- The factories return one after the other: the memory afterwards, and the contents of all columns at the time when they were returned. -/
inductive GetsAll {T : HSolverT 𝕜 E} (i : HInst T) : List (HFactory T) → Heap E → Heap E → List E → Prop
  | nil (h : Heap E) : GetsAll i [] h h []
  | cons {f : HFactory T} {l : List (HFactory T)} {h h₁ h₂ : Heap E} {k : ℕ} {U : Fin k → ℕ} {L : List E} (hf : f h i = (h₁, .ok ⟨k, U⟩)) (hU : ∀ j, U j < h₁.next)
    (hl : GetsAll i l h₁ h₂ L) : GetsAll i (f :: l) h h₂ (List.ofFn (h₁.cols U) ++ L)

theorem hUnionGet_eq {T : HSolverT 𝕜 E} {i : HInst T} {fs : List (HFactory T)} {h h' : Heap E} {L : List E} (g : GetsAll i fs h h' L) (hf : ∀ f ∈ fs, FactoryOk f) :
    h.Ext h' ∧ ∃ A : List ℕ, hUnionGet i fs h = (h', .ok A) ∧ A.map h'.mem = L := by
  induction g with
  | nil h => exact ⟨.refl h, [], rfl, rfl⟩
  | @cons f l h h₁ h₂ k U L hfe hU hl ih =>
    obtain ⟨e, A, hA, hL⟩ := ih fun f h => hf f (by simp [h])
    have e1 := hf f (by simp) h i
    rw [hfe] at e1
    refine ⟨e1.trans e, List.ofFn U ++ A, ?_, ?_⟩
    · simp [hUnionGet, hfe, hA]
    · rw [List.map_append, hL, List.map_ofFn]
      congr 2
      funext j
      exact e.mem _ (hU j)

/-- **C93** (`UnionFactory`).  If all factories of a nonempty list return, the union is a new array with all columns in this order; an exception of a factory is passed on. -/
theorem C93_union {T : HSolverT 𝕜 E} {i : HInst T} {fs : List (HFactory T)} {h h' : Heap E} {L : List E} (hf : ∀ f ∈ fs, FactoryOk f) (g : GetsAll i fs h h' L) :
    (fs ≠ [] → ∃ g' k, ∃ U : Fin k → ℕ, hUnionFactory fs h i = (g', .ok ⟨k, U⟩) ∧ (∀ j, h'.next ≤ U j ∧ U j < g'.next) ∧ List.ofFn (g'.cols U) = L) ∧
      ∀ f l h₂ e, f h' i = (h₂, .error e) → hUnionFactory (fs ++ f :: l) h i = (h₂, .error e) := by
  constructor
  · intro hne
    obtain ⟨-, A, hA, hL⟩ := hUnionGet_eq g hf
    refine ⟨(h'.allocCols (k := A.length) fun j => h'.mem (A.get j)).1, A.length, (h'.allocCols (k := A.length) fun j => h'.mem (A.get j)).2, ?_, fun j => ⟨?_, ?_⟩, ?_⟩
    · simp [hUnionFactory, hA, hne]
    · exact Nat.le_add_right _ _
    · have := j.2
      simp only [Heap.allocCols]
      omega
    · rw [allocCols_cols, ← hL]
      refine List.ext_getElem (by simp) fun n h1 h2 => ?_
      simp
  · intro f l h₂ e he
    have : hUnionGet i (fs ++ f :: l) h = (h₂, .error e) := by
      clear hf
      induction g with
      | nil h => simp [hUnionGet, he]
      | @cons f' l' h h₁ h₃ k U L hfe hU hl ih =>
        have := ih he
        simp only [List.cons_append, hUnionGet, hfe, this]
    simp [hUnionFactory, this]

/-- **C93** (`UnionFactory([])`).  The union of no factories cannot be formed: `numpy.block` of an empty list raises a `ValueError`, and nothing is allocated. -/
theorem C93_union_empty {T : HSolverT 𝕜 E} (h : Heap E) (i : HInst T) : hUnionFactory [] h i = (h, .error .valueError) := by
  simp [hUnionFactory]

/-! ## One call -/

section calls
variable {T : HSolverT 𝕜 E} {v : HSpecT T} {h h₁ g : Heap E} {b : ℕ} {y : HSys 𝕜 E} {a : HArgs}

theorem hRecConstruct_eq (oa : HOblArgs 𝕜 E k) (U : Fin k → ℕ) :
    (hRecConstruct (T := T) y oa U a g).1 = (hDeflT T y oa U a g).1 ∧
      (∀ er, (hRecConstruct (T := T) y oa U a g).2 = .error er ↔ (hDeflT T y oa U a g).2 = .error er) ∧
      ∀ i e, (hRecConstruct (T := T) y oa U a g).2 = .ok (i, e) → ∃ o st, i = ⟨k, o, st⟩ ∧ (hMkObl y oa U g).2 = .ok o ∧ (hDeflT T y oa U a g).2 = .ok (st, e) := by
  unfold hRecConstruct hDeflT
  cases h1 : hMkObl y oa U g with
  | mk g' r =>
  cases r with
  | error e => exact ⟨rfl, fun _ => by simp, fun i e h => by cases h⟩
  | ok o =>
    dsimp only
    cases h2 : T.run y o.proj a g' with
    | mk g'' r =>
    cases r with
    | error e => exact ⟨rfl, fun _ => by simp, fun i e h => by cases h⟩
    | ok st =>
      obtain ⟨st, e⟩ := st
      refine ⟨rfl, fun _ => by simp, fun i e' hi => ?_⟩
      simp only [Except.ok.injEq, Prod.mk.injEq] at hi
      obtain ⟨rfl, rfl⟩ := hi
      exact ⟨o, st, rfl, rfl, rfl⟩

theorem hRecVectors_ext {default : Option (HFactory T)} (hd : ∀ f, default = some f → FactoryOk f) (last : Option (HInst T)) {c : HRecCall T}
    (hc : ∀ f, c.factory = some f → FactoryOk f) : g.Ext (hRecVectors default last c g).1 := by
  unfold hRecVectors
  split
  · next l f hf =>
    rcases hcf : c.factory with _ | f'
    · rw [hcf, Option.none_or] at hf
      exact hd f hf g l
    · rw [hcf, Option.some_or] at hf
      exact hc f (hcf.trans hf) g l
  · exact .refl g

/-- A call of `solve` is valid in the memory `g`: the system was constructed before, with operators as in C90, the arrays passed exist, and the factory does not write to
existing arrays. -/
inductive RecCallOk (g : Heap E) (c : HRecCall T) : Prop
  | mk {A M Ml Mr : E →ₗ[𝕜] E} {oA oMl oMr : OpObj E} {oM : Option (OpObj E)} {ip : E → E → 𝕜} {h : Heap E} {b : ℕ} {h₁ : Heap E} (u : UserSysW A M Ml Mr oA oM oMl oMr h b)
    (hip : IsInner ip) (hy : hMkSys h oA oM oMl oMr ip b = (h₁, .ok c.y)) (e : h₁.Ext g) (ua : UserArgs g c.a) (hf : ∀ f, c.factory = some f → FactoryOk f)

theorem hRecSolve_ext (hv : v.Good) {default : Option (HFactory T)} (hd : ∀ f, default = some f → FactoryOk f) (last : Option (HInst T)) {c : HRecCall T} (hc : RecCallOk g c) :
    g.Ext (hRecSolve default last c g).1 := by
  obtain ⟨u, hip, hy, e, ua, hf⟩ := hc
  have e1 := hRecVectors_ext (g := g) hd last hf
  unfold hRecSolve
  cases h1 : hRecVectors default last c g with
  | mk g' r =>
  rw [h1] at e1
  cases r with
  | error er => exact e1
  | ok U =>
    dsimp only
    rw [(hRecConstruct_eq (c.oa U.1) U.2).1]
    have ua' : UserArgs g' c.a := ⟨fun x hx => lt_of_lt_of_le (ua.x0 x hx) e1.next, fun x hx => lt_of_lt_of_le (ua.exact x hx) e1.next⟩
    obtain ⟨s, -, h2, h3, -⟩ := hv.call u hip hy (e.trans e1) ua' (c.oa U.1) U.2 none false false
    exact e1.trans ⟨h3, h2⟩

/-- **C93** (one call).  Let `solve` be called in the memory `g` (any extension of the one in which the system was constructed) with any last solver.  (1) No array of `g` is
changed: neither the caller's arrays nor those of earlier solvers, nor the array of deflation vectors.  (2) Without a last solver or a factory there are no deflation vectors.
(3) The new solver ends as the model on values with the contents of the array returned by the factory.  (4) Its iterate is a new array.  (5) `last_solver` is the new
solver if it returned, and otherwise the old one. -/
theorem C93_solve (hv : v.Good) (u : UserSysW A M Ml Mr oA oM oMl oMr h b) (hip : IsInner ip) {c : HRecCall T} (hy : hMkSys h oA oM oMl oMr ip b = (h₁, .ok c.y))
    (e : h₁.Ext g) (ua : UserArgs g c.a) {default : Option (HFactory T)} (hd : ∀ f, default = some f → FactoryOk f) (hf : ∀ f, c.factory = some f → FactoryOk f)
    (last : Option (HInst T)) (normal : Option Bool) (sa pd : Bool) :
    (∀ i < g.next, (hRecSolve default last c g).1.mem i = g.mem i) ∧
    (last = none ∨ (c.factory = none ∧ default = none) → hRecVectors default last c g = (g, .ok ⟨0, Fin.elim0⟩)) ∧
    ∀ g' k (U : Fin k → ℕ), hRecVectors default last c g = (g', .ok ⟨k, U⟩) →
      (∀ j < g'.next, (hRecSolve default last c g).1.mem j = g'.mem j) ∧
      ∃ s same, mkLS ⟨A, h.mem b, M, Ml, Mr, ip, normal, sa, pd⟩ = .ok s ∧
        ((∃ er, (hRecSolve default last c g).2 = (last, .error er) ∧
          deflOutcome (mkObl s ((c.oa k).val same) (g'.cols U)) (fun o => v.call s o (c.a.val g.mem)) = .raised er) ∨
        ∃ o st e, (hRecSolve default last c g).2.2 = .ok (⟨k, o, st⟩, e) ∧ (e = .returned → (hRecSolve default last c g).2.1 = some ⟨k, o, st⟩) ∧
          (e ≠ .returned → (hRecSolve default last c g).2.1 = last) ∧ same = decide (o.U = o.AU) ∧
          deflOutcome (mkObl s ((c.oa k).val same) (g'.cols U)) (fun o => v.call s o (c.a.val g.mem)) = HEnd.outcome (v.val c.a) (st, e) ∧
          st.h = (hRecSolve default last c g).1 ∧
          ∀ x, e = .returned ∨ e = .convergence → st.xk = some x → g'.next ≤ x ∧ x < st.h.next) := by
  refine ⟨(hRecSolve_ext hv hd last ⟨u, hip, hy, e, ua, hf⟩).mem, fun hl => ?_, fun g' k U hU => ?_⟩
  · unfold hRecVectors
    rcases hl with rfl | ⟨h1, h2⟩
    · rfl
    · rw [h1, h2]
      cases last <;> rfl
  · have e1 := hRecVectors_ext (g := g) hd last hf
    rw [hU] at e1
    have ua' : UserArgs g' c.a := ⟨fun x hx => lt_of_lt_of_le (ua.x0 x hx) e1.next, fun x hx => lt_of_lt_of_le (ua.exact x hx) e1.next⟩
    obtain ⟨s, hs, h2, h3, ⟨same, h4, h5⟩, h6⟩ := hv.call u hip hy (e.trans e1) ua' (c.oa k) U normal sa pd
    have hval : c.a.val g'.mem = c.a.val g.mem := HArgs.val_congr ua e1.mem
    rw [hval] at h5
    obtain ⟨q1, q2, q3⟩ := hRecConstruct_eq (T := T) (y := c.y) (a := c.a) (g := g') (c.oa k) U
    have hsol : hRecSolve default last c g = ((hRecConstruct (T := T) c.y (c.oa k) U c.a g').1, hRecLast last (hRecConstruct (T := T) c.y (c.oa k) U c.a g').2,
        (hRecConstruct (T := T) c.y (c.oa k) U c.a g').2) := by
      unfold hRecSolve
      rw [hU]
    rw [hsol]
    dsimp only
    rw [q1]
    refine ⟨h2, s, same, hs, ?_⟩
    cases hr : (hRecConstruct (T := T) c.y (c.oa k) U c.a g').2 with
    | error er =>
      refine .inl ⟨er, rfl, ?_⟩
      rw [(q2 er).mp hr] at h5
      exact h5.symm
    | ok t =>
      obtain ⟨i, en⟩ := t
      obtain ⟨o, st, rfl, ho, hst⟩ := q3 i en hr
      refine .inr ⟨o, st, en, rfl, fun he => ?_, fun he => ?_, h4 o ho, ?_, (h6 st en hst).1, (h6 st en hst).2⟩
      · rw [he]
        rfl
      · cases en with
        | returned => exact absurd rfl he
        | convergence => rfl
        | raised e => rfl
        | outOfFuel => rfl
      · rw [hst] at h5
        exact h5.symm

end calls

/-! ## Sequences of calls -/

section sequences
variable {T : HSolverT 𝕜 E} {v : HSpecT T} {default : Option (HFactory T)}

/-- All calls of the sequence are valid when they are made. -/
def RecSeqOk (default : Option (HFactory T)) : Heap E × Option (HInst T) → List (HRecCall T) → Prop
  | _, [] => True
  | s, c :: l => RecCallOk s.1 c ∧ RecSeqOk default ((hRecSolve default s.2 c s.1).1, (hRecSolve default s.2 c s.1).2.1) l

theorem hRecRun_append (s : Heap E × Option (HInst T)) (l₁ l₂ : List (HRecCall T)) : hRecRun default s (l₁ ++ l₂) = hRecRun default (hRecRun default s l₁) l₂ := by
  induction l₁ generalizing s with
  | nil => rfl
  | cons c l ih => exact ih _

theorem RecSeqOk.append {s : Heap E × Option (HInst T)} {l₁ l₂ : List (HRecCall T)} (w : RecSeqOk default s (l₁ ++ l₂)) :
    RecSeqOk default s l₁ ∧ RecSeqOk default (hRecRun default s l₁) l₂ := by
  induction l₁ generalizing s with
  | nil => exact ⟨trivial, w⟩
  | cons c l ih => exact ⟨⟨w.1, (ih w.2).1⟩, (ih w.2).2⟩

theorem hRecRun_ext (hv : v.Good) (hd : ∀ f, default = some f → FactoryOk f) : ∀ (l : List (HRecCall T)) (s : Heap E × Option (HInst T)),
    RecSeqOk default s l → s.1.Ext (hRecRun default s l).1
  | [], s, _ => .refl s.1
  | _ :: l, s, w => (hRecSolve_ext hv hd s.2 w.1).trans (hRecRun_ext hv hd l _ w.2)

/-- **C93** (sequences).  Let `solve` be called any number of times on one recycling solver, with any systems, factories and options.  Every array keeps the contents it had
when it came into existence: the arrays of the caller, those of earlier solvers and the deflation vectors. -/
theorem C93_unchanged (hv : v.Good) (hd : ∀ f, default = some f → FactoryOk f) {s : Heap E × Option (HInst T)} {l₁ l₂ : List (HRecCall T)}
    (w : RecSeqOk default s (l₁ ++ l₂)) :
    (∀ i < s.1.next, (hRecRun default s l₁).1.mem i = s.1.mem i) ∧
      ∀ i < (hRecRun default s l₁).1.next, (hRecRun default s (l₁ ++ l₂)).1.mem i = (hRecRun default s l₁).1.mem i := by
  obtain ⟨w1, w2⟩ := w.append
  refine ⟨(hRecRun_ext hv hd l₁ s w1).mem, ?_⟩
  rw [hRecRun_append]
  exact (hRecRun_ext hv hd l₂ _ w2).mem

/-- **C93** (iterates).  The approximate solution of the solver of any call (returned or attached to a `ConvergenceError`) is a new array, and it has still the same
contents after all later calls. -/
theorem C93_iterate (hv : v.Good) (hd : ∀ f, default = some f → FactoryOk f) {s : Heap E × Option (HInst T)} {l₁ l₂ : List (HRecCall T)} {c : HRecCall T}
    (w : RecSeqOk default s (l₁ ++ c :: l₂)) {i : HInst T} {e : HEnd}
    (hi : (hRecSolve default (hRecRun default s l₁).2 c (hRecRun default s l₁).1).2.2 = .ok (i, e)) (he : e = .returned ∨ e = .convergence) {x : ℕ} (hx : i.st.xk = some x) :
    (hRecRun default s l₁).1.next ≤ x ∧ (hRecRun default s (l₁ ++ c :: l₂)).1.mem x = i.st.h.mem x := by
  obtain ⟨-, w2⟩ := w.append
  set t := hRecRun default s l₁ with ht
  have e2 := hRecRun_ext hv hd l₂ _ w2.2
  have hrun : hRecRun default s (l₁ ++ c :: l₂) = hRecRun default ((hRecSolve default t.2 c t.1).1, (hRecSolve default t.2 c t.1).2.1) l₂ := by
    rw [hRecRun_append]
    rfl
  obtain ⟨u, hip, hy, e0, ua, hf⟩ := w2.1
  have e1 := hRecVectors_ext (g := t.1) hd t.2 hf
  obtain ⟨-, -, h3⟩ := C93_solve hv u hip hy e0 ua hd hf t.2 none false false
  cases hU : hRecVectors default t.2 c t.1 with
  | mk g' r =>
  rw [hU] at e1
  cases r with
  | error er =>
    have : (hRecSolve default t.2 c t.1).2.2 = .error er := by
      unfold hRecSolve
      rw [hU]
    rw [this] at hi
    cases hi
  | ok U =>
    obtain ⟨-, s', same, -, h4⟩ := h3 g' U.1 U.2 hU
    rcases h4 with ⟨er, h4, -⟩ | ⟨o, st, e', h4, -, -, -, -, h5, h6⟩
    · rw [h4] at hi
      cases hi
    · rw [h4] at hi
      simp only [Except.ok.injEq, Prod.mk.injEq] at hi
      obtain ⟨rfl, rfl⟩ := hi
      obtain ⟨h7, h8⟩ := h6 x he hx
      refine ⟨e1.next.trans h7, ?_⟩
      dsimp only at h8 ⊢
      rw [hrun, h5]
      rw [h5] at h8
      exact e2.mem x h8

theorem RecCallOk.later {g g' : Heap E} {c : HRecCall T} (h : RecCallOk g c) (e : g.Ext g') : RecCallOk g' c := by
  obtain ⟨u, hip, hy, e0, ua, hf⟩ := h
  exact ⟨u, hip, hy, e0.trans e, ⟨fun x hx => lt_of_lt_of_le (ua.x0 x hx) e.next, fun x hx => lt_of_lt_of_le (ua.exact x hx) e.next⟩, hf⟩

/-- Calls with systems and arrays which exist before the first call are valid in every order. -/
theorem RecSeqOk.of_all (hv : v.Good) (hd : ∀ f, default = some f → FactoryOk f) : ∀ (l : List (HRecCall T)) (s : Heap E × Option (HInst T)),
    (∀ c ∈ l, RecCallOk s.1 c) → RecSeqOk default s l
  | [], _, _ => trivial
  | c :: l, s, h =>
    have h1 := h c (by simp)
    ⟨h1, RecSeqOk.of_all hv hd l _ fun c' hc' => (h c' (by simp [hc'])).later (hRecSolve_ext hv hd s.2 h1)⟩

/-- **C93** (`RecyclingGmres`).  The vectors which a Ritz factory makes directly after a call are combinations of what the model on values calls `V` and of the contents of
`projection.U`. -/
theorem C93_recycled {ortho : Ortho} (i : HInst (hGmresT 𝕜 E ortho)) {n : ℕ} (hn : (hGmresBasis 𝕜 E ortho i).2 ≤ n)
    (select : ∀ (h : Heap E) (i : HInst (hGmresT 𝕜 E ortho)), Except Err (List ((Fin (hGmresBasis 𝕜 E ortho i).2 → 𝕜) × (Fin i.k → 𝕜))))
    {coeffs : List ((Fin (hGmresBasis 𝕜 E ortho i).2 → 𝕜) × (Fin i.k → 𝕜))} (hs : select i.st.h i = .ok coeffs) :
    ∃ g' k, ∃ U : Fin k → ℕ, hRitzFactory (hGmresBasis 𝕜 E ortho) select i.st.h i = (g', .ok ⟨k, U⟩) ∧ (∀ j, i.st.h.next ≤ U j) ∧
      List.ofFn (g'.cols U) = coeffs.map fun c =>
        ∑ j : Fin (hGmresBasis 𝕜 E ortho i).2, c.1 j • (HGmresSt.val n i.st.h (show HGmresSt 𝕜 × List (Fin i.k → 𝕜) from i.st.s).1).arn.V j +
          ∑ j : Fin i.k, c.2 j • i.st.h.cols i.obl.U j := by
  obtain ⟨-, h2, h3⟩ := C93_get_vectors (hGmresBasis 𝕜 E ortho i).1 i.obl.U coeffs i.st.h
  refine ⟨(hGetVectors (hGmresBasis 𝕜 E ortho i).1 i.obl.U coeffs i.st.h).1, _,
    (hGetVectors (hGmresBasis 𝕜 E ortho i).1 i.obl.U coeffs i.st.h).2.2, ?_, fun j => (h2 j).1, ?_⟩
  · unfold hRitzFactory
    rw [hs]
  · rw [h3]
    refine List.map_congr_left fun c _ => ?_
    congr 1
    refine Finset.sum_congr rfl fun j _ => ?_
    have : (j : ℕ) ≤ n := j.2.le.trans hn
    simp only [HGmresSt.val, MArn.val, if_pos this]
    rfl

/-- **C93** (`RecyclingMinres`).  The same for `RecyclingMinres`. -/
theorem C93_recycled_minres {ortho : Ortho} (i : HInst (hMinresT 𝕜 E ortho)) {n : ℕ} (hn : (hMinresBasis 𝕜 E ortho i).2 ≤ n)
    (select : ∀ (h : Heap E) (i : HInst (hMinresT 𝕜 E ortho)), Except Err (List ((Fin (hMinresBasis 𝕜 E ortho i).2 → 𝕜) × (Fin i.k → 𝕜))))
    {coeffs : List ((Fin (hMinresBasis 𝕜 E ortho i).2 → 𝕜) × (Fin i.k → 𝕜))} (hs : select i.st.h i = .ok coeffs) :
    ∃ g' k, ∃ U : Fin k → ℕ, hRitzFactory (hMinresBasis 𝕜 E ortho) select i.st.h i = (g', .ok ⟨k, U⟩) ∧ (∀ j, i.st.h.next ≤ U j) ∧
      List.ofFn (g'.cols U) = coeffs.map fun c =>
        ∑ j : Fin (hMinresBasis 𝕜 E ortho i).2, c.1 j • (HMinresSt.val n i.st.h (show HMinresSt 𝕜 E × List (Fin i.k → 𝕜) from i.st.s).1).arn.V j +
          ∑ j : Fin i.k, c.2 j • i.st.h.cols i.obl.U j := by
  obtain ⟨-, h2, h3⟩ := C93_get_vectors (hMinresBasis 𝕜 E ortho i).1 i.obl.U coeffs i.st.h
  refine ⟨(hGetVectors (hMinresBasis 𝕜 E ortho i).1 i.obl.U coeffs i.st.h).1, _,
    (hGetVectors (hMinresBasis 𝕜 E ortho i).1 i.obl.U coeffs i.st.h).2.2, ?_, fun j => (h2 j).1, ?_⟩
  · unfold hRitzFactory
    rw [hs]
  · rw [h3]
    refine List.map_congr_left fun c _ => ?_
    congr 1
    refine Finset.sum_congr rfl fun j _ => ?_
    have : (j : ℕ) ≤ n := j.2.le.trans hn
    simp only [HMinresSt.val, MArn.val, if_pos this]
    rfl

/-- **C93** (which factory).  With a last solver, the factory passed to `solve` is used, and the one of the constructor otherwise; if it raises an exception, `solve` does
so and `last_solver` remains. -/
theorem C93_factory_used (default : Option (HFactory T)) (l : HInst T) (c : HRecCall T) (g : Heap E) {f : HFactory T}
    (hf : c.factory = some f ∨ (c.factory = none ∧ default = some f)) :
    hRecVectors default (some l) c g = f g l ∧ ∀ g' er, f g l = (g', .error er) → hRecSolve default (some l) c g = (g', some l, .error er) := by
  have h : hRecVectors default (some l) c g = f g l := by
    rcases hf with hf | ⟨h1, h2⟩
    · simp [hRecVectors, hf]
    · simp [hRecVectors, h1, h2]
  refine ⟨h, fun g' er he => ?_⟩
  unfold hRecSolve
  rw [h, he]

end sequences

/-! ## Examples -/

/-- A call of `RecyclingGmres` with the system `2 x = 1` whose operator keeps an array (`exUserW`), the initial guess in the array 1 and the Gram-Schmidt routine. -/
noncomputable def exRecCall (t : ℝ) (f : Option (HFactory (hGmresT ℝ ℝ .mgs))) : HRecCall (hGmresT ℝ ℝ .mgs) where
  y := ⟨memoObj (fun x : ℝ => 2 * x) 1 3, none, idObj, idObj, fun x y => x * y, 0, 0, 0, 1⟩
  oa _ := ⟨.own (fun x y => x * y) 0, .own (fun x y => x * y) 0, fun m => (1, m), true, 2⟩
  a := ⟨some 1, t, 5, true, some 0⟩
  factory := f

theorem exRecCall_ok (t : ℝ) {f : Option (HFactory (hGmresT ℝ ℝ .mgs))} (hf : ∀ g, f = some g → FactoryOk g) : RecCallOk exHeapD (exRecCall t f) :=
  .mk exUserW exInnerD exHMkD (.refl _)
    ⟨fun x hx => by obtain rfl := Option.some.inj hx; simp [exHeapD], fun x hx => by obtain rfl := Option.some.inj hx; simp [exHeapD]⟩ hf

/-- The hypotheses of `C93_solve`, `C93_unchanged` and `C93_iterate` hold for sequences of such calls with a factory which returns the array `projection.U` of the
last solver itself (so that two projections are made of the same array), and with a Ritz factory as argument of the last call. -/
example (t : ℝ) (select : ∀ (h : Heap ℝ) (i : HInst (hGmresT ℝ ℝ .mgs)), Except Err (List ((Fin (hGmresBasis ℝ ℝ .mgs i).2 → ℝ) × (Fin i.k → ℝ)))) :
    ∀ j < exHeapD.next, (hRecRun (some fun h i => (h, .ok ⟨i.k, i.obl.U⟩)) (exHeapD, none)
      [exRecCall t none, exRecCall (t / 2) none, exRecCall 0 (some (hRitzFactory (hGmresBasis ℝ ℝ .mgs) select))]).1.mem j = exHeapD.mem j := by
  have hd : ∀ f, (some fun h i => (h, .ok ⟨i.k, i.obl.U⟩) : Option (HFactory (hGmresT ℝ ℝ .mgs))) = some f → FactoryOk f := by
    intro f hf
    obtain rfl := Option.some.inj hf
    exact fun h _ => .refl h
  have w := RecSeqOk.of_all (hGmresSpec_good (𝕜 := ℝ) (E := ℝ) .mgs) hd
    [exRecCall t none, exRecCall (t / 2) none, exRecCall 0 (some (hRitzFactory (hGmresBasis ℝ ℝ .mgs) select))] (exHeapD, none) fun c hc => by
      simp only [List.mem_cons, List.not_mem_nil, or_false] at hc
      rcases hc with rfl | rfl | rfl
      · exact exRecCall_ok _ fun g hg => by cases hg
      · exact exRecCall_ok _ fun g hg => by cases hg
      · exact exRecCall_ok _ fun g hg => by
          obtain rfl := Option.some.inj hg
          exact hRitzFactory_ok _ _
  exact (C93_unchanged (l₂ := []) (hGmresSpec_good .mgs) hd (by simpa using w)).1

/-- The hypotheses of `C93_recycled` hold for a factory which takes the sum of all basis vectors and deflation vectors. -/
example (i : HInst (hGmresT ℝ ℝ .mgs)) := C93_recycled i le_rfl (fun _ _ => .ok [(fun _ => 1, fun _ => 1)]) rfl

example (i : HInst (hMinresT ℝ ℝ .lanczos)) := C93_recycled_minres i le_rfl (fun _ _ => .ok [(fun _ => 1, fun _ => 1)]) rfl

/-- The union of a factory with itself: the columns of `projection.U` twice, in a new array. -/
example {T : HSolverT ℝ ℝ} (h : Heap ℝ) (i : HInst T) (hU : ∀ j, i.obl.U j < h.next) :
    ∃ g' k, ∃ U : Fin k → ℕ, hUnionFactory [fun h i => (h, .ok ⟨i.k, i.obl.U⟩), fun h i => (h, .ok ⟨i.k, i.obl.U⟩)] h i = (g', .ok ⟨k, U⟩) ∧
      (∀ j, h.next ≤ U j ∧ U j < g'.next) ∧ List.ofFn (g'.cols U) = List.ofFn (h.cols i.obl.U) ++ (List.ofFn (h.cols i.obl.U) ++ []) :=
  (C93_union (by simp [FactoryOk, Heap.Ext.refl]) (.cons rfl hU (.cons rfl hU (.nil h)))).1 (by simp)

/-- A factory that normalises `projection.U` in place changes an array of the last solver, and thus the Ritz vectors which the caller computes afterwards. -/
example : ∃ (f : HFactory (hGmresT ℝ ℝ .mgs)), ¬ FactoryOk f :=
  ⟨fun h i => (h.write 0 (h.mem 0 + 1), .ok ⟨i.k, i.obl.U⟩), fun hf => by
    have := (hf exHeapD ⟨0, ⟨Fin.elim0, Fin.elim0, ⟨Fin.elim0, Fin.elim0, none, none, none, 1⟩⟩,
      ⟨exHeapD, (⟨⟨0, 0, 0, fun _ _ => 0, false, 0⟩, 0, fun _ => ⟨1, 0, 0⟩, fun _ _ => 0, fun _ => 0⟩, []), 0, none, [], none, 0⟩⟩).mem 0 (by simp [exHeapD])
    simp [Heap.write, exHeapD] at this⟩

end Krypy
