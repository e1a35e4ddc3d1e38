import Verif.Props.SolverCalls
import Verif.Props.LinearSystem
import Verif.Model.Repr

/-!
# Property C69: the attribute `iter` and the printed form of solver objects
-/

set_option linter.unusedSectionVars false

namespace Krypy

/-- What the attribute `iter` says: `after` tells whether `iter` is increased at the end of the loop body. -/
structure CountedCall {F X S : Type*} (after : Bool) (maxiter : ℕ) (o : Outcome (St F X S)) : Prop where
  /-- a returned object: the number of iterations, or one less (zero if there was none) -/
  returned : ∀ st, o = .returned st → st.iter = if after then st.resnorms.length - 1 else st.resnorms.length - 2
  /-- an object attached to a `ConvergenceError`: always one less than the number of iterations -/
  convergence : ∀ st, o = .convergence st → st.iter + 1 = maxiter ∧ st.iter + 2 = st.resnorms.length
  /-- there is an approximation in either case -/
  xk : ∀ st, o = .returned st ∨ o = .convergence st → ∃ x, st.xk = some x

theorem CountedCall.raised {F X S : Type*} {after : Bool} {maxiter : ℕ} (e : Err) :
    CountedCall (F := F) (X := X) (S := S) after maxiter (.raised e) := by
  constructor <;> simp

section any
variable {F X S : Type*} [LE F] [LT F] [DecidableLE F] [DecidableLT F] [Div F] [Zero F] [BEq F] [Zero X]

/-- C69 (any arithmetic, any method): the attribute `iter`.  A method which counts at the end of the loop body has `iter` equal to the
number of iterations if it returns, all others are one behind; so is every object attached to a `ConvergenceError`. -/
theorem C69_iter {cfg : Cfg F X} {m : Method F X S} (hm : LawfulMethod m cfg.maxiter)
    (x0 : X) (r0norm : F) (mkS : X → S) (xk0 : X → Except Err X) (hk0 : ∀ x, m.k (mkS x) = 0) :
    CountedCall m.countAfter cfg.maxiter (run cfg m x0 r0norm mkS xk0) := by
  constructor
  · intro st h
    obtain ⟨st1, hi, -, hf⟩ := (run_inv hm hk0).1 st h
    obtain ⟨-, e2, e3, -⟩ := finish_returned hf
    rw [e2, e3, hi.iter, hi.len]
    split <;> omega
  · intro st h
    obtain ⟨st1, hi, -, hb⟩ := (run_inv hm hk0).2 st h
    obtain ⟨s', r, x, v, h1, h2, h3, -, -, -, h7, -, -, h10, -⟩ := body_convergence hb
    rw [h7, h3]
    simp [hi.len, h10]
  · rintro st (h | h)
    · exact (C22_returned hm hk0 h).1
    · exact (C22_convergence hm hk0 h).2.2.1

end any

variable {𝕜 E : Type*} [RCLike 𝕜] [AddCommGroup E] [Module 𝕜 E]

/-- C69: the attribute `iter` of a `Gmres` object (returned or attached to a `ConvergenceError`) is one less than the number of
iterations carried out, and zero if there was none. -/
theorem C69_gmres (s : LS 𝕜 E) (hk : Hooks 𝕜 E) (ortho : Ortho) (p : SolverArgs E) :
    CountedCall false p.maxiter (gmres s hk ortho p) := by
  unfold gmres gmresRun
  dsimp only
  split
  · exact .raised _
  split
  · exact .raised _
  next arn ha =>
  exact C69_iter (m := gmresMethod _ _ _ _) (cfg := mkCfg s p) (gmresMethod_lawful _ _ _ (fun _ _ h => arnAdvance_iter h))
    _ _ _ _ (fun x => arnInit_iter ha)

/-- C69: the same for `Gmres` with `ortho="house"`. -/
theorem C69_gmres_house {N : ℕ} (s : LS 𝕜 (Fin (N + 1) → 𝕜)) (hk : Hooks 𝕜 (Fin (N + 1) → 𝕜)) (plain : Bool)
    (p : SolverArgs (Fin (N + 1) → 𝕜)) : CountedCall false p.maxiter (gmresHouse s hk plain p) := by
  unfold gmresHouse
  split
  · exact .raised _
  split
  · exact .raised _
  next h hh =>
  refine C69_iter (m := gmresMethodHouse _ _ _ _) (cfg := mkCfg s p) (gmresMethodHouse_lawful _ _ _ _) _ _ _ _ fun x => ?_
  unfold houseInit at hh
  split at hh
  · dsimp only at hh
    split at hh <;> simp at hh <;> subst hh <;> rfl
  · simp at hh

/-- C69: the same for `Minres`. -/
theorem C69_minres (s : LS 𝕜 E) (hk : Hooks 𝕜 E) (ortho : Ortho) (p : SolverArgs E) :
    CountedCall false p.maxiter (minres s hk ortho p) := by
  unfold minres minresRun
  dsimp only
  split
  · exact .raised _
  split
  · exact .raised _
  next arn ha =>
  exact C69_iter (m := minresMethod _ _ _ _) (cfg := mkCfg s p) (minresMethod_lawful _ _ _ (fun _ _ h => arnAdvance_iter h))
    _ _ _ _ (fun x => arnInit_iter ha)

/-- C69: a returned `Cg` object has `iter` equal to the number of iterations; the one attached to a `ConvergenceError` is one
behind, `iter == maxiter-1`. -/
theorem C69_cg (s : LS 𝕜 E) (hk : Hooks 𝕜 E) (store : Bool) (p : SolverArgs E) :
    CountedCall true p.maxiter (cg s hk store p) := by
  unfold cg
  split
  · exact .raised _
  · exact C69_iter (m := cgMethod _ _ _ _ _ _ _) (cfg := mkCfg s p) (cgMethod_lawful _ _ _ _ _ _ _) _ _ _ _ fun x => rfl

/-! ## Printing -/

/-- `t` is one of the printed lines. -/
def HasLine (t s : String) : Prop := ∃ pre post, s = pre ++ "\n" ++ t ++ "\n" ++ post

/-- Rows are printed for every vector: arrays of shape `(N, 1)` with `N ≥ 1`. -/
def Printer.Rows (f : Printer E) : Prop := ∀ x, f.rows x ≠ []

theorem lineEnds_ok {pre post : String} {x : List String} (hx : x ≠ []) : ∃ t, lineEnds pre x post = .ok (t ++ post) := by
  obtain ⟨a, ha⟩ : ∃ a, x.head? = some a := by cases x <;> simp_all
  obtain ⟨b, hb⟩ : ∃ b, x.getLast? = some b := by rw [← Option.isSome_iff_exists, List.getLast?_isSome]; exact hx
  unfold lineEnds
  rw [ha, hb]
  exact ⟨_, rfl⟩

/-- Where printing succeeds: the vectors have rows, there is an approximation and a residual norm. -/
structure PrintOk (p : Printable) : Prop where
  MMlr0 : p.MMlr0 ≠ []
  Mlr0 : p.Mlr0 ≠ []
  resnorms : p.resnorms ≠ []
  x0 : p.x0 ≠ []
  xk : ∃ x, p.xk = some x ∧ x ≠ []

/-- The text ends with a line break. -/
def EndsNl (s : String) : Prop := ∃ w, s = w ++ "\n"

theorem joinLines_append {s t : String} {A B : List (Except ReprErr String)} (h : joinLines s (A ++ B) = .ok t) :
    ∃ u, joinLines s A = .ok u ∧ joinLines u B = .ok t := by
  induction A generalizing s with
  | nil => exact ⟨s, rfl, h⟩
  | cons a A ih =>
    cases a with
    | error e => simp [joinLines] at h
    | ok l => exact ih (s := s ++ l) h

theorem joinLines_prefix {s t : String} {B : List (Except ReprErr String)} (h : joinLines s B = .ok t) : ∃ v, t = s ++ v := by
  induction B generalizing s with
  | nil => simp only [joinLines, Except.ok.injEq] at h; exact ⟨"", by simp [h]⟩
  | cons a B ih =>
    cases a with
    | error e => simp [joinLines] at h
    | ok l =>
      obtain ⟨v, hv⟩ := ih (s := s ++ l) h
      exact ⟨l ++ v, by rw [hv, String.append_assoc]⟩

theorem joinLines_nl {s t : String} {A : List (Except ReprErr String)} (hs : EndsNl s)
    (hA : ∀ a ∈ A, ∀ x, a = .ok x → EndsNl x) (h : joinLines s A = .ok t) : EndsNl t := by
  induction A generalizing s with
  | nil => simp only [joinLines, Except.ok.injEq] at h; exact h ▸ hs
  | cons a A ih =>
    cases a with
    | error e => simp [joinLines] at h
    | ok l =>
      obtain ⟨w, hw⟩ := hA _ (by simp) l rfl
      exact ih (s := s ++ l) ⟨s ++ w, by rw [hw, String.append_assoc]⟩ (fun a ha => hA a (by simp [ha])) h

theorem joinLines_line {s t l : String} {A B : List (Except ReprErr String)} (hs : EndsNl s)
    (hA : ∀ a ∈ A, ∀ x, a = .ok x → EndsNl x) (h : joinLines s (A ++ .ok (l ++ "\n") :: B) = .ok t) : HasLine l t := by
  obtain ⟨u, hu, hB⟩ := joinLines_append h
  obtain ⟨w, rfl⟩ := joinLines_nl hs hA hu
  obtain ⟨v, hv⟩ := joinLines_prefix (B := B) (s := w ++ "\n" ++ (l ++ "\n")) hB
  exact ⟨w, v, by rw [hv]; simp only [String.append_assoc]⟩

theorem joinLines_total {s : String} {A : List (Except ReprErr String)} (hA : ∀ a ∈ A, ∃ x, a = .ok x) :
    ∃ t, joinLines s A = .ok t := by
  induction A generalizing s with
  | nil => exact ⟨s, rfl⟩
  | cons a A ih =>
    obtain ⟨l, rfl⟩ := hA a (by simp)
    exact ih (s := s ++ l) fun a ha => hA a (by simp [ha])

theorem lineEnds_nl {pre : String} {x : List String} {t : String} (h : lineEnds pre x "\n" = .ok t) : EndsNl t := by
  unfold lineEnds at h
  split at h
  · simp only [Except.ok.injEq] at h; exact ⟨_, h.symm⟩
  · simp at h

theorem lineShape_nl {n : String} {x : Option (ℕ × ℕ)} {t : String} (h : lineShape n x = .ok t) : EndsNl t := by
  unfold lineShape at h
  split at h
  · simp at h
  · simp only [Except.ok.injEq] at h
    exact ⟨_, by rw [← h, show (" matrix\n" : String) = " matrix" ++ "\n" from rfl, ← String.append_assoc]⟩

theorem lineVal_nl {n v : String} {t : String} (h : lineVal n v = .ok t) : EndsNl t := by
  simp only [lineVal, Except.ok.injEq] at h; exact ⟨_, h.symm⟩

theorem reprStart_nl (p : Printable) : ∀ a ∈ reprStart p, ∀ x, a = .ok x → EndsNl x := by
  intro a ha x hx
  simp only [reprStart, List.mem_cons, List.not_mem_nil, or_false] at ha
  rcases ha with rfl | rfl | rfl | rfl
  · exact lineEnds_nl hx
  · simp only [Except.ok.injEq] at hx; exact ⟨_, hx.symm⟩
  · exact lineShape_nl hx
  · exact lineEnds_nl hx

/-- Everything is printed if the middle part is. -/
theorem PrintOk.repr {p : Printable} (h : PrintOk p) {head : String} (hh : EndsNl head) {mid : List (Except ReprErr String)}
    (hmid : ∀ a ∈ mid, ∃ x, a = .ok x ∧ EndsNl x) :
    ∃ t, joinLines head (reprStart p ++ mid ++ reprEnd p) = .ok t ∧ HasLine ("    tol: " ++ p.tol) t ∧
      HasLine ("    maxiter: " ++ toString p.maxiter) t ∧ HasLine ("    iter: " ++ toString p.iter) t := by
  obtain ⟨x, hx, hx'⟩ := h.xk
  obtain ⟨t, ht⟩ : ∃ t, joinLines head (reprStart p ++ mid ++ reprEnd p) = .ok t := by
    apply joinLines_total
    intro a ha
    simp only [reprStart, reprEnd, List.mem_append, List.mem_cons, List.not_mem_nil, or_false] at ha
    rcases ha with (((rfl | rfl | rfl | rfl) | ha)) | rfl | rfl | rfl | rfl | rfl | rfl | rfl
    · obtain ⟨t, ht⟩ := lineEnds_ok (pre := "    MMlr0 = ") (post := "\n") h.MMlr0; exact ⟨_, ht⟩
    · exact ⟨_, rfl⟩
    · exact ⟨_, rfl⟩
    · obtain ⟨t, ht⟩ := lineEnds_ok (pre := "    Mlr0: ") (post := "\n") h.Mlr0; exact ⟨_, ht⟩
    · obtain ⟨x, hx, -⟩ := hmid a ha; exact ⟨x, hx⟩
    · exact ⟨_, rfl⟩
    · exact ⟨_, rfl⟩
    · exact ⟨_, rfl⟩
    · exact ⟨_, rfl⟩
    · obtain ⟨t, ht⟩ := lineEnds_ok (pre := "    resnorms: ") (post := "\n") h.resnorms; exact ⟨_, ht⟩
    · obtain ⟨t, ht⟩ := lineEnds_ok (pre := "    x0: ") (post := "\n") h.x0; exact ⟨_, ht⟩
    · rw [hx]; obtain ⟨t, ht⟩ := lineEnds_ok (pre := "    xk: ") (post := "") hx'; exact ⟨_, ht⟩
  have hpre : ∀ a ∈ reprStart p ++ mid, ∀ x, a = .ok x → EndsNl x := by
    intro a ha x hx
    rcases List.mem_append.mp ha with ha | ha
    · exact reprStart_nl p a ha x hx
    · obtain ⟨y, hy, hy'⟩ := hmid a ha
      rw [hy] at hx
      exact Except.ok.inj hx ▸ hy'
  have e0 : reprEnd p = lineVal "tol" p.tol :: lineVal "maxiter" (toString p.maxiter) :: lineVal "iter" (toString p.iter) ::
      (reprEnd p).drop 3 := rfl
  refine ⟨t, ht, ?_, ?_, ?_⟩
  · rw [e0] at ht
    exact joinLines_line hh hpre ht
  · refine joinLines_line (A := reprStart p ++ mid ++ [lineVal "tol" p.tol]) (B := (reprEnd p).drop 2) hh ?_ ?_
    · intro a ha x hx
      rcases List.mem_append.mp ha with ha | ha
      · exact hpre a ha x hx
      · simp only [List.mem_cons, List.not_mem_nil, or_false] at ha; subst ha; exact lineVal_nl hx
    · rw [List.append_assoc]; exact ht
  · refine joinLines_line (A := reprStart p ++ mid ++ [lineVal "tol" p.tol, lineVal "maxiter" (toString p.maxiter)])
      (B := (reprEnd p).drop 3) hh ?_ ?_
    · intro a ha x hx
      rcases List.mem_append.mp ha with ha | ha
      · exact hpre a ha x hx
      · simp only [List.mem_cons, List.not_mem_nil, or_false] at ha
        rcases ha with rfl | rfl <;> exact lineVal_nl hx
    · rw [List.append_assoc]; exact ht

/-- A printed solver object: the text contains the lines with the tolerance, `maxiter` and the given iteration number. -/
def Prints (p : Printable) (n : ℕ) (r : Except ReprErr String) : Prop :=
  ∃ t, r = .ok t ∧ HasLine ("    tol: " ++ p.tol) t ∧ HasLine ("    maxiter: " ++ toString p.maxiter) t ∧
    HasLine ("    iter: " ++ toString n) t

theorem printable_ok {S : Type*} {f : Printer E} (hf : f.Rows) (a : SolverArgs E) (MMlr0 Mlr0 : E) (r0 : ℝ) (x0 : E)
    (R V : Option (ℕ × ℕ)) {st : St ℝ E S} (hx : ∃ x, st.xk = some x) (hr : st.resnorms ≠ []) :
    PrintOk (printable f a MMlr0 Mlr0 r0 x0 R V st) := by
  obtain ⟨x, hx⟩ := hx
  exact ⟨hf _, hf _, by simpa [printable] using hr, hf _, f.rows x, by simp [printable, hx], hf _⟩

/-- C69: a `Cg` object (returned or attached to a `ConvergenceError`) can always be printed. -/
theorem C69_repr_cg (s : LS 𝕜 E) (hk : Hooks 𝕜 E) (p : SolverArgs E) {f : Printer E} (hf : f.Rows) (MMlr0 Mlr0 : E) (r0 : ℝ)
    {st : St ℝ E (CgSt 𝕜 E)} (h : cg s hk f.storeArnoldi p = .returned st ∨ cg s hk f.storeArnoldi p = .convergence st) :
    Prints (printCg f p MMlr0 Mlr0 r0 st) st.iter (reprCg (printCg f p MMlr0 Mlr0 r0 st)) := by
  have hl := ((C22_cg s hk f.storeArnoldi p).history st h).1
  refine (printable_ok hf p MMlr0 Mlr0 r0 st.s.x0 none _ ((C69_cg s hk f.storeArnoldi p).xk st h) (by
    intro h0; rw [h0] at hl; simp at hl)).repr ⟨"krypy CG object", rfl⟩ ?_
  intro a ha
  simp only [List.mem_cons, List.not_mem_nil, or_false] at ha
  rcases ha with rfl | rfl <;> exact ⟨_, rfl, lineVal_nl rfl⟩

/-- C69: a `Minres` object can always be printed; the printed iteration number is one less than the number of iterations. -/
theorem C69_repr_minres (s : LS 𝕜 E) (hk : Hooks 𝕜 E) (ortho : Ortho) (p : SolverArgs E) {f : Printer E} (hf : f.Rows)
    (MMlr0 Mlr0 : E) (r0 : ℝ) {st : St ℝ E (MinresSt 𝕜 E)}
    (h : minres s hk ortho p = .returned st ∨ minres s hk ortho p = .convergence st) :
    Prints (printMinres f p MMlr0 Mlr0 r0 st) (st.resnorms.length - 2) (reprMinres (printMinres f p MMlr0 Mlr0 r0 st)) := by
  have hl := ((C22_minres s hk ortho p).history st h).1
  have hi : st.iter = st.resnorms.length - 2 := by
    rcases h with h | h
    · simpa using (C69_minres s hk ortho p).returned st h
    · have := (C69_minres s hk ortho p).convergence st h; omega
  rw [← hi]
  refine (printable_ok hf p MMlr0 Mlr0 r0 st.s.x0 none _ ((C69_minres s hk ortho p).xk st h) (by
    intro h0; rw [h0] at hl; simp at hl)).repr ⟨"krypy MINRES object", rfl⟩ ?_
  intro a ha
  simp only [List.mem_cons, List.not_mem_nil, or_false] at ha
  rcases ha with rfl | rfl | rfl <;> exact ⟨_, rfl, lineVal_nl rfl⟩

/-- C69: a `Gmres` object can be printed iff the Lanczos data is stored or there was at least one iteration; otherwise `repr` raises
`AttributeError` because `V` is missing. -/
theorem C69_repr_gmres (s : LS 𝕜 E) (hk : Hooks 𝕜 E) (ortho : Ortho) (p : SolverArgs E) {f : Printer E} (hf : f.Rows)
    (MMlr0 Mlr0 : E) (r0 : ℝ) {st : St ℝ E (GmresSt 𝕜 E)}
    (h : gmres s hk ortho p = .returned st ∨ gmres s hk ortho p = .convergence st) :
    (f.storeArnoldi = true ∨ 2 ≤ st.resnorms.length →
      Prints (printGmres f p MMlr0 Mlr0 r0 st) (st.resnorms.length - 2) (reprGmres (printGmres f p MMlr0 Mlr0 r0 st))) ∧
    (f.storeArnoldi = false → st.resnorms.length = 1 →
      reprGmres (printGmres f p MMlr0 Mlr0 r0 st) = .error (.attributeError "V")) := by
  have hl := ((C22_gmres s hk ortho p).history st h).1
  have hi : st.iter = st.resnorms.length - 2 := by
    rcases h with h | h
    · simpa using (C69_gmres s hk ortho p).returned st h
    · have := (C69_gmres s hk ortho p).convergence st h; omega
  have hne : st.resnorms ≠ [] := by intro h0; rw [h0] at hl; simp at hl
  have hok := printable_ok hf p MMlr0 Mlr0 r0 st.s.x0 (some (p.maxiter + 1, p.maxiter))
    (if f.storeArnoldi then some (f.N, st.s.arn.get.basis)
     else if 0 < st.s.arn.iter then some (f.N, p.maxiter + 1) else none) ((C69_gmres s hk ortho p).xk st h) hne
  constructor
  · intro hc
    rw [← hi]
    refine hok.repr ⟨"krypy GMRES object", rfl⟩ ?_
    intro a ha
    simp only [List.mem_cons, List.not_mem_nil, or_false] at ha
    rcases ha with rfl | rfl | rfl | rfl | rfl
    · exact ⟨_, rfl, lineShape_nl (n := "R") (x := some (p.maxiter + 1, p.maxiter)) rfl⟩
    · have : ∃ m n, (printGmres f p MMlr0 Mlr0 r0 st).V = some (m, n) := by
        simp only [printGmres, printable]
        split
        · exact ⟨_, _, rfl⟩
        · next h1 =>
          rw [if_pos (by rcases hc with hc | hc; exact absurd hc h1; omega)]
          exact ⟨_, _, rfl⟩
      obtain ⟨m, n, hV⟩ := this
      rw [hV]
      exact ⟨_, rfl, lineShape_nl (n := "V") (x := some (m, n)) rfl⟩
    all_goals exact ⟨_, rfl, lineVal_nl rfl⟩
  · intro hs h1
    obtain ⟨t1, h1'⟩ := lineEnds_ok (pre := "    MMlr0 = ") (post := "\n") hok.MMlr0
    obtain ⟨t2, h2'⟩ := lineEnds_ok (pre := "    Mlr0: ") (post := "\n") hok.Mlr0
    have hV : (printGmres f p MMlr0 Mlr0 r0 st).V = none := by
      simp only [printGmres, printable, hs]
      rw [if_neg (by simp), if_neg (by omega)]
    simp only [reprGmres, reprStart, hV]
    simp only [printGmres]
    simp only [h1', h2', lineShape, List.cons_append, List.nil_append, joinLines]
    simp [printable, joinLines]

/-- C69: what `repr(linear_system)` shows: the header, then one line for every attribute in the fixed order, except for `None` and
for identity operators (so an omitted preconditioner or inner product is not listed, while the three flags always are). -/
theorem C69_repr_system (a : SysArgs) : ∃ ls : List String, reprSystem a = "LinearSystem {\n" ++ String.join ls ++ "}" ∧
    ls = a.attrs.filterMap (fun x => match x.2 with
      | .shown r => some ("  " ++ x.1 ++ ": " ++ r ++ "\n")
      | _ => none) := by
  refine ⟨_, ?_, rfl⟩
  unfold reprSystem
  congr 1
  generalize "LinearSystem {\n" = s
  generalize a.attrs = l
  induction l generalizing s with
  | nil => simp
  | cons x l ih =>
    rw [List.foldl_cons, ih]
    obtain ⟨k, v⟩ := x
    cases v <;> simp [reprAttr, String.append_assoc]

/-! ## The texts -/

/-- `a` is the first and `b` the last row. -/
def RowEnds (x : List String) (a b : String) : Prop := x.head? = some a ∧ x.getLast? = some b

/-- The first lines of the printed form of a solver object, as linsys.py 576-579 formats them. -/
def startText (p : Printable) (m m' l l' : String) : List String :=
  ["    MMlr0 = [" ++ m ++ ", ..., " ++ m' ++ "]\n", "    MMlr0_norm = " ++ p.MMlr0Norm ++ "\n",
   "    MlAMr: " ++ toString p.MlAMr.1 ++ " x " ++ toString p.MlAMr.2 ++ " matrix\n", "    Mlr0: [" ++ l ++ ", ..., " ++ l' ++ "]\n"]

/-- The last lines, as linsys.py 582-590 formats them. -/
def endText (p : Printable) (r r' x x' y y' : String) : List String :=
  ["    tol: " ++ p.tol ++ "\n", "    maxiter: " ++ toString p.maxiter ++ "\n", "    iter: " ++ toString p.iter ++ "\n",
   "    explicit residual: " ++ (if p.explicitResidual then "True" else "False") ++ "\n", "    resnorms: [" ++ r ++ ", ..., " ++ r' ++ "]\n",
   "    x0: [" ++ x ++ ", ..., " ++ x' ++ "]\n", "    xk: [" ++ y ++ ", ..., " ++ y' ++ "]"]

/-- C69: the complete text of the three printed forms. -/
theorem C69_repr_text {p : Printable} {m m' l l' r r' x x' y y' : String} {xk : List String} {R V : ℕ × ℕ} (hm : RowEnds p.MMlr0 m m')
    (hl : RowEnds p.Mlr0 l l') (hr : RowEnds p.resnorms r r') (hx : RowEnds p.x0 x x') (hk : p.xk = some xk) (hy : RowEnds xk y y') :
    reprCg p = .ok (String.join (["krypy CG object\n"] ++ startText p m m' l l' ++
      ["    flat_vecs: " ++ (if p.flatVecs then "True" else "False") ++ "\n",
       "    store_arnoldi: " ++ (if p.storeArnoldi then "True" else "False") ++ "\n"] ++ endText p r r' x x' y y')) ∧
    reprMinres p = .ok (String.join (["krypy MINRES object\n"] ++ startText p m m' l l' ++
      ["    flat_vecs: " ++ (if p.flatVecs then "True" else "False") ++ "\n",
       "    store_arnoldi: " ++ (if p.storeArnoldi then "True" else "False") ++ "\n", "    ortho: " ++ p.ortho ++ "\n"] ++
      endText p r r' x x' y y')) ∧
    (p.R = some R → p.V = some V → reprGmres p = .ok (String.join (["krypy GMRES object\n"] ++ startText p m m' l l' ++
      ["    R: " ++ toString R.1 ++ " x " ++ toString R.2 ++ " matrix\n", "    V: " ++ toString V.1 ++ " x " ++ toString V.2 ++ " matrix\n",
       "    flat_vecs: " ++ (if p.flatVecs then "True" else "False") ++ "\n",
       "    store_arnoldi: " ++ (if p.storeArnoldi then "True" else "False") ++ "\n", "    ortho: " ++ p.ortho ++ "\n"] ++
      endText p r r' x x' y y'))) := by
  obtain ⟨m1, m2⟩ := hm
  obtain ⟨l1, l2⟩ := hl
  obtain ⟨r1, r2⟩ := hr
  obtain ⟨x1, x2⟩ := hx
  obtain ⟨y1, y2⟩ := hy
  refine ⟨?_, ?_, fun hR hV => ?_⟩
  · simp [reprCg, reprStart, reprEnd, joinLines, lineEnds, lineShape, lineVal, lineXk, pyBool, startText, endText, m1, m2, l1, l2, r1, r2, x1, x2, hk, y1, y2, String.append_assoc]
  · simp [reprMinres, reprStart, reprEnd, joinLines, lineEnds, lineShape, lineVal, lineXk, pyBool, startText, endText, m1, m2, l1, l2, r1, r2, x1, x2, hk, y1, y2, String.append_assoc]
  · simp [reprGmres, reprStart, reprEnd, joinLines, lineEnds, lineShape, lineVal, lineXk, pyBool, startText, endText, m1, m2, l1, l2, r1, r2, x1, x2, hk, y1, y2, hR, hV, String.append_assoc]

/-- C69: a solver object without approximation (`xk` is `None`) cannot be printed. -/
theorem C69_repr_no_xk {p : Printable} {m m' l l' r r' x x' : String} {R V : ℕ × ℕ} (hm : RowEnds p.MMlr0 m m') (hl : RowEnds p.Mlr0 l l')
    (hr : RowEnds p.resnorms r r') (hx : RowEnds p.x0 x x') (hk : p.xk = none) :
    reprCg p = .error .typeError ∧ reprMinres p = .error .typeError ∧ (p.R = some R → p.V = some V → reprGmres p = .error .typeError) := by
  obtain ⟨m1, m2⟩ := hm
  obtain ⟨l1, l2⟩ := hl
  obtain ⟨r1, r2⟩ := hr
  obtain ⟨x1, x2⟩ := hx
  refine ⟨?_, ?_, fun hR hV => ?_⟩
  · simp [reprCg, reprStart, reprEnd, joinLines, lineEnds, lineShape, lineVal, lineXk, m1, m2, l1, l2, r1, r2, x1, x2, hk]
  · simp [reprMinres, reprStart, reprEnd, joinLines, lineEnds, lineShape, lineVal, lineXk, m1, m2, l1, l2, r1, r2, x1, x2, hk]
  · simp [reprGmres, reprStart, reprEnd, joinLines, lineEnds, lineShape, lineVal, lineXk, m1, m2, l1, l2, r1, r2, x1, x2, hk, hR, hV]

/-- C69: the attributes which `repr(linear_system)` lists, in this order.  `normal` is shown as `True` iff the caller said so or the
operator is self-adjoint; an operator which was not given is shown as little as an identity operator. -/
theorem C69_repr_attrs (a : SysArgs) : ∃ op : String → SysAttr → String, (∀ k, op k .none = "" ∧ op k .identity = "") ∧
    (∀ k t, op k (.shown t) = "  " ++ k ++ ": " ++ t ++ "\n") ∧
    reprSystem a = String.join ["LinearSystem {\n", op "A" a.A, "  b: " ++ a.b ++ "\n", op "M" a.M, op "Minv" a.Minv, op "Ml" a.Ml,
      op "Mr" a.Mr, op "ip_B" a.ipB,
      "  normal: " ++ (if a.selfAdjoint = true ∨ a.normal = some true then "True" else "False") ++ "\n",
      "  self_adjoint: " ++ (if a.selfAdjoint then "True" else "False") ++ "\n",
      "  positive_definite: " ++ (if a.positiveDefinite then "True" else "False") ++ "\n",
      (a.exact.map fun t => "  exact_solution: " ++ t ++ "\n").getD "", "}"] := by
  have h : ∀ k x, reprAttr k (SysAttr.asOperator x) = reprAttr k x := by
    rintro k (_ | _ | _) <;> rfl
  refine ⟨reprAttr, fun k => ⟨rfl, rfl⟩, fun k t => rfl, ?_⟩
  obtain ⟨A, b, M, Mi, Ml, Mr, B, no, sa, pd, ex⟩ := a
  rcases no with _ | no
  · cases sa <;> cases ex <;> simp [reprSystem, SysArgs.attrs, h, pyBool, String.append_assoc] <;> simp [reprAttr, String.append_assoc]
  · cases no <;> cases sa <;> cases ex <;> simp [reprSystem, SysArgs.attrs, h, pyBool, String.append_assoc] <;> simp [reprAttr, String.append_assoc]

/-! ## Non-vacuity -/

/-- A printer which prints one row. -/
def exPrinter (N : ℕ) (store : Bool) : Printer E := ⟨N, fun _ => ["x"], fun _ => "r", true, store, "mgs"⟩

theorem exPrinter_rows (N : ℕ) (store : Bool) : (exPrinter (E := E) N store).Rows := fun _ => by simp [exPrinter]

/-- Finding: `Gmres` with an exact initial guess returns an object which cannot be printed. -/
theorem C69_repr_counterexample : ∃ s st, mkLS exSpd = .ok s ∧
    gmres s s.hooks .mgs ⟨some (1, 1 / 2), 0, 5, false, none⟩ = .returned st ∧ st.xk = some (1, 1 / 2) ∧
    ∀ MMlr0 Mlr0 r0, reprGmres (printGmres (exPrinter 2 false) ⟨some (1, 1 / 2), 0, 5, false, none⟩ MMlr0 Mlr0 r0 st) =
      .error (.attributeError "V") := by
  obtain ⟨s, hs, -⟩ := mkLS_ok exSpd_hyp.ls
  have hr : resid exSpd (1, 1 / 2) = 0 := by
    unfold resid
    rw [exSpd_hyp.ls.prec.nrm_eq_zero]
    simp [exSpd]
  obtain ⟨st, h1, h2, h3⟩ := (C25_gmres exSpd_hyp.ls hs .mgs ⟨some (1, 1 / 2), 0, 5, false, none⟩).guess
    (by simp [exSpd]) (by change resid exSpd (1, 1 / 2) ≤ 0 * _; rw [hr]; simp)
  exact ⟨s, st, hs, h1, h2, fun MMlr0 Mlr0 r0 =>
    (C69_repr_gmres s s.hooks .mgs _ (exPrinter_rows 2 false) MMlr0 Mlr0 r0 (.inl h1)).2 rfl (by rw [h3]; rfl)⟩

/-- A call with one iteration or more: the printed iteration number is smaller than the number of iterations. -/
example : ∃ s st t, mkLS exSys = .ok s ∧ gmres s s.hooks .mgs ⟨none, 1e-5, 2, false, none⟩ = .returned st ∧
    reprGmres (printGmres (exPrinter 2 false) ⟨none, 1e-5, 2, false, none⟩ 0 0 1 st) = .ok t ∧ 1 < st.resnorms.length ∧
    HasLine ("    iter: " ++ toString (st.resnorms.length - 2)) t := by
  obtain ⟨s, st, hs, h1, -, h2⟩ := exSys_gmres .mgs
  obtain ⟨t, ht, -, -, hl⟩ := (C69_repr_gmres s s.hooks .mgs _ (exPrinter_rows 2 false) 0 0 1 (.inl h1)).1 (.inr h2)
  exact ⟨s, st, t, hs, h1, ht, h2, hl⟩

example : reprSystem ⟨.shown "<2x2 MatrixLinearOperator>", "b", .none, .none, .identity, .none, .none, none, true, false, none⟩ =
    "LinearSystem {\n  A: <2x2 MatrixLinearOperator>\n  b: b\n  normal: True\n  self_adjoint: True\n  positive_definite: False\n}" := by
  rfl

/-- The hypotheses of `C69_repr_text` for a `Cg` object with three rows. -/
example := (C69_repr_text (p := ⟨["1", "2", "3"], "r", (3, 3), ["1", "2", "3"], none, none, true, false, "", "1e-05", 5, 1, false,
    ["1.0", "0.0"], ["0", "0", "0"], some ["4", "5", "6"]⟩) (R := (0, 0)) (V := (0, 0)) ⟨rfl, rfl⟩ ⟨rfl, rfl⟩ ⟨rfl, rfl⟩ ⟨rfl, rfl⟩ rfl
    ⟨rfl, rfl⟩).1

example : reprMinres ⟨["1"], "r", (1, 1), ["1"], none, none, true, false, "mgs", "t", 5, 1, false, ["1.0"], ["0"], none⟩ = .error .typeError :=
  (C69_repr_no_xk (R := (0, 0)) (V := (0, 0)) ⟨rfl, rfl⟩ ⟨rfl, rfl⟩ ⟨rfl, rfl⟩ ⟨rfl, rfl⟩ rfl).2.1

end Krypy
