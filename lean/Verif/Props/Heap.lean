import Verif.Proofs.HeapSolvers
import Verif.Props.Cg

/-!
# Property C66: aliasing and in-place updates

Arrays are objects with an address (`Model/Heap`).  An operator object may return the array it was given, a system may
hold the same array as `b`, `Mlb` and `MMlb`, and the solvers update arrays in place.  None of this is visible: the
arrays of the caller keep their contents and the results are those of the models on values.
-/

set_option linter.unusedSectionVars false

namespace Krypy
variable {𝕜 E : Type*} [RCLike 𝕜] [AddCommGroup E] [Module 𝕜 E]

/-! ## Operators -/

/-- Operator objects built by krypy: identity, matrix and function operators, and sums, products, multiples and powers of
such (utils.py 1440-1600). -/
inductive OpExpr (𝕜 E : Type*)
  | id
  | mat (f : E → E)
  | sum (A B : OpExpr 𝕜 E)
  | prod (A B : OpExpr 𝕜 E)
  | scaled (A : OpExpr 𝕜 E) (c : 𝕜)
  | pow (A : OpExpr 𝕜 E) (n : ℕ)

/-- The object. -/
def OpExpr.obj : OpExpr 𝕜 E → OpObj E
  | .id => idObj
  | .mat f => matObj f
  | .sum A B => sumObj A.obj B.obj
  | .prod A B => prodObj A.obj B.obj
  | .scaled A c => scaledObj A.obj c
  | .pow A n => powObj A.obj n

/-- The map it stands for. -/
def OpExpr.map : OpExpr 𝕜 E → E → E
  | .id, x => x
  | .mat f, x => f x
  | .sum A B, x => A.map x + B.map x
  | .prod A B, x => A.map (B.map x)
  | .scaled A c, x => c • A.map x
  | .pow A n, x => A.map^[n] x

/-- **C66** (operators).  Applying an operator which is composed of krypy's operators to an array changes no existing
array, and returns the array itself or a new one, whose contents are the image under the map. -/
theorem C66_operators : ∀ (e : OpExpr 𝕜 E) (h : Heap E) (a : ℕ), a < h.next →
    (∀ i < h.next, (e.obj h a).1.mem i = h.mem i) ∧ ((e.obj h a).2 = a ∨ h.next ≤ (e.obj h a).2) ∧
      (e.obj h a).1.mem (e.obj h a).2 = e.map (h.mem a) := by
  have key : ∀ e : OpExpr 𝕜 E, OpGood e.map e.obj := by
    intro e
    induction e with
    | id => exact OpGood.id
    | mat f => exact OpGood.mat f
    | sum A B hA hB => exact hA.sum hB
    | prod A B hA hB => exact hA.prod hB
    | scaled A c hA => exact hA.scaled c
    | pow A n hA => exact hA.pow n
  intro e h a ha
  exact ⟨((key e).ext h a ha).mem, (key e).res h a ha, (key e).val h a ha⟩

/-- The aliasing is real: `(I * I) * x` is `x` itself, `I ** 3 * x` is not. -/
example : ((OpExpr.prod .id .id : OpExpr ℝ ℝ).obj ⟨fun _ => 7, 1⟩ 0).2 = 0 ∧
    ((OpExpr.pow .id 3 : OpExpr ℝ ℝ).obj ⟨fun _ => 7, 1⟩ 0).2 = 1 := ⟨rfl, rfl⟩

/-! ## Systems -/

variable {A M Ml Mr : E →ₗ[𝕜] E} {oA oMl oMr : OpObj E} {oM : Option (OpObj E)} {ip : E → E → 𝕜}

theorem hMkSys_spec (gA : OpGood A oA) (gM : OpGood M (oM.getD idObj)) (gMl : OpGood Ml oMl) (gMr : OpGood Mr oMr) {h : Heap E} {b : ℕ}
    (hb : b < h.next) (normal : Option Bool) (sa pd : Bool) :
    h.Ext (hMkSys h oA oM oMl oMr ip b).1 ∧
      (∀ e, (hMkSys h oA oM oMl oMr ip b).2 = .error e → mkLS ⟨A, h.mem b, M, Ml, Mr, ip, normal, sa, pd⟩ = .error e) ∧
      (∀ y, (hMkSys h oA oM oMl oMr ip b).2 = .ok y → ∃ s, mkLS ⟨A, h.mem b, M, Ml, Mr, ip, normal, sa, pd⟩ = .ok s ∧
        SysRep (hMkSys h oA oM oMl oMr ip b).1.next (hMkSys h oA oM oMl oMr ip b).1.mem s y) := by
  have e1 := gMl.ext h b hb
  have v1 := gMl.val h b hb
  have l1 := gMl.lt h b hb
  have hmk : mkLS ⟨A, h.mem b, M, Ml, Mr, ip, normal, sa, pd⟩ = match npNorm (ip (Ml (h.mem b)) (M (Ml (h.mem b)))) with
      | .error e => .error e
      | .ok nb => .ok ⟨A, h.mem b, M, Ml, Mr, ip, Ml.comp (A.comp Mr), if sa then true else normal.getD false, sa, pd,
          Ml (h.mem b), M (Ml (h.mem b)), nb⟩ := by
    unfold mkLS
    cases sa <;> simp <;> cases npNorm (ip (Ml (h.mem b)) (M (Ml (h.mem b)))) <;> rfl
  rw [hmk]
  unfold hMkSys
  dsimp only
  generalize oMl h b = r at *
  have e2 := gM.ext r.1 r.2 l1
  have v2 := gM.val r.1 r.2 l1
  have l2 := gM.lt r.1 r.2 l1
  generalize (oM.getD idObj) r.1 r.2 = t at *
  have hl : t.1.mem r.2 = Ml (h.mem b) := (e2.mem _ l1).trans v1
  have hm : t.1.mem t.2 = M (Ml (h.mem b)) := by rw [v2, v1]
  rw [hl, hm]
  cases npNorm (ip (Ml (h.mem b)) (M (Ml (h.mem b)))) with
  | error e =>
    exact ⟨e1.trans e2, fun e' he => by simpa using he, fun y he => by simp at he⟩
  | ok nb =>
    refine ⟨e1.trans e2, fun e' he => by simp at he, fun y he => ?_⟩
    obtain rfl := Except.ok.inj he
    exact ⟨_, rfl, ⟨gA, gM, gMl, gMr, rfl, rfl, ⟨lt_of_lt_of_le hb (e1.trans e2).next, (e1.trans e2).mem b hb⟩,
      ⟨lt_of_lt_of_le l1 e2.next, hl⟩, ⟨l2, hm⟩, rfl, rfl⟩⟩

theorem SysRep.later {n : ℕ} {m0 : ℕ → E} {s : LS 𝕜 E} {y : HSys 𝕜 E} (r : SysRep n m0 s y) {h : Heap E} (f : Fr n m0 h) :
    SysRep h.next h.mem s y :=
  ⟨r.A, r.M, r.Ml, r.Mr, r.ip, r.op, ⟨lt_of_lt_of_le r.b.1 f.le, (f.mem _ r.b.1).trans r.b.2⟩,
    ⟨lt_of_lt_of_le r.Mlb.1 f.le, (f.mem _ r.Mlb.1).trans r.Mlb.2⟩,
    ⟨lt_of_lt_of_le r.MMlb.1 f.le, (f.mem _ r.MMlb.1).trans r.MMlb.2⟩, r.nb, r.MM⟩

/-- What the theorems assume of the user: the operators honour the contract proved for krypy's operators in
`C66_operators`, and the right hand side is an array. -/
structure UserSys (A M Ml Mr : E →ₗ[𝕜] E) (oA : OpObj E) (oM : Option (OpObj E)) (oMl oMr : OpObj E) (h : Heap E) (b : ℕ) :
    Prop where
  A : OpGood A oA
  M : OpGood M (oM.getD idObj)
  Ml : OpGood Ml oMl
  Mr : OpGood Mr oMr
  b : b < h.next

/-- The arrays passed to a solver exist. -/
structure UserArgs (h : Heap E) (a : HArgs) : Prop where
  x0 : ∀ x, a.x0 = some x → x < h.next
  exact : ∀ x, a.exact = some x → x < h.next

/-- A solver call. -/
inductive HKind
  | cg (store : Bool)
  | gmres (ortho : Ortho)
  | minres (ortho : Ortho)

/-- The memory after a solver call. -/
noncomputable def hAfter (y : HSys 𝕜 E) : HKind → HArgs → Heap E → Heap E
  | .cg store, a, h => (hCg y store a h).1
  | .gmres ortho, a, h => (hGmres y ortho a h).1
  | .minres ortho, a, h => (hMinres y ortho a h).1

/-- The memory after a sequence of solver calls with the same linear system object. -/
noncomputable def hSeq (y : HSys 𝕜 E) : List (HKind × HArgs) → Heap E → Heap E
  | [], h => h
  | (k, a) :: l, h => hSeq y l (hAfter y k a h)

/-- The arrays passed in each call exist at that time; they may be iterates of earlier calls. -/
def ValidSeq (y : HSys 𝕜 E) : List (HKind × HArgs) → Heap E → Prop
  | [], _ => True
  | (k, a) :: l, h => UserArgs h a ∧ ValidSeq y l (hAfter y k a h)

theorem hAfter_fr {n : ℕ} {m0 : ℕ → E} {s : LS 𝕜 E} {y : HSys 𝕜 E} (r : SysRep n m0 s y) {h : Heap E} (f : Fr n m0 h)
    (k : HKind) {a : HArgs} (u : UserArgs h a) : h.Ext (hAfter y k a h) := by
  have r' := r.later f
  have f' : Fr h.next h.mem h := ⟨le_rfl, fun _ _ => rfl⟩
  have key : Fr h.next h.mem (hAfter y k a h) := by
    cases k with
    | cg store => exact (hCg_spec r' u.exact u.x0 f' store).fr
    | gmres ortho => exact (hGmres_spec r' u.exact u.x0 f' ortho).fr
    | minres ortho => exact (hMinres_spec r' u.exact u.x0 f' ortho).fr
  exact ⟨key.le, key.mem⟩

theorem hSeq_ext {n : ℕ} {m0 : ℕ → E} {s : LS 𝕜 E} {y : HSys 𝕜 E} (r : SysRep n m0 s y) :
    ∀ (l : List (HKind × HArgs)) (h : Heap E), Fr n m0 h → ValidSeq y l h → h.Ext (hSeq y l h)
  | [], h, _, _ => .refl h
  | (k, a) :: l, h, f, v => by
    have e := hAfter_fr r f k v.1
    exact e.trans (hSeq_ext r l _ (f.ext e) v.2)

/-- **C66** (the caller's arrays).  Let a linear system be constructed from the array `b` and let `Cg`, `Gmres` and
`Minres` be called any number of times with it.  Every array which existed before, in particular `b`, `x0`, the exact
solution, the attributes of the linear system and the iterates of earlier calls, has the contents it had before. -/
theorem C66_unchanged {h : Heap E} {b : ℕ} (u : UserSys A M Ml Mr oA oM oMl oMr h b) {h₁ : Heap E} {y : HSys 𝕜 E}
    (hy : hMkSys h oA oM oMl oMr ip b = (h₁, .ok y)) {l₁ l₂ : List (HKind × HArgs)} (v : ValidSeq y (l₁ ++ l₂) h₁) :
    (∀ i < h.next, (hSeq y l₁ h₁).mem i = h.mem i) ∧
      (∀ i < h₁.next, (hSeq y l₁ h₁).mem i = h₁.mem i) ∧
      ∀ i < (hSeq y l₁ h₁).next, (hSeq y (l₁ ++ l₂) h₁).mem i = (hSeq y l₁ h₁).mem i := by
  obtain ⟨e, -, hok⟩ := hMkSys_spec (ip := ip) u.A u.M u.Ml u.Mr u.b none false false
  rw [hy] at e hok
  obtain ⟨s, -, r⟩ := hok y rfl
  dsimp only at e r
  have split : ∀ (l : List (HKind × HArgs)) (g : Heap E), ValidSeq y (l ++ l₂) g →
      ValidSeq y l g ∧ ValidSeq y l₂ (hSeq y l g) ∧ hSeq y (l ++ l₂) g = hSeq y l₂ (hSeq y l g) := by
    intro l
    induction l with
    | nil => exact fun g v => ⟨trivial, v, rfl⟩
    | cons p l ih =>
      intro g v
      obtain ⟨i1, i2, i3⟩ := ih _ v.2
      exact ⟨⟨v.1, i1⟩, i2, i3⟩
  obtain ⟨w1, w2, w3⟩ := split l₁ h₁ v
  have f : Fr h₁.next h₁.mem h₁ := ⟨le_rfl, fun _ _ => rfl⟩
  have e1 := hSeq_ext r l₁ h₁ f w1
  have e2 := hSeq_ext r l₂ _ (f.ext e1) w2
  refine ⟨(e.trans e1).mem, e1.mem, ?_⟩
  rw [w3]
  exact e2.mem

section calls
variable {h : Heap E} {b : ℕ} {h₁ : Heap E} {y : HSys 𝕜 E} {l : List (HKind × HArgs)} {a : HArgs}

theorem heap_setup (u : UserSys A M Ml Mr oA oM oMl oMr h b) (hy : hMkSys h oA oM oMl oMr ip b = (h₁, .ok y))
    (v : ValidSeq y l h₁) (normal : Option Bool) (sa pd : Bool) :
    ∃ s, mkLS ⟨A, h.mem b, M, Ml, Mr, ip, normal, sa, pd⟩ = .ok s ∧
      SysRep (hSeq y l h₁).next (hSeq y l h₁).mem s y := by
  obtain ⟨-, -, hok⟩ := hMkSys_spec (ip := ip) u.A u.M u.Ml u.Mr u.b normal sa pd
  rw [hy] at hok
  obtain ⟨s, hs, r⟩ := hok y rfl
  have f : Fr h₁.next h₁.mem h₁ := ⟨le_rfl, fun _ _ => rfl⟩
  exact ⟨s, hs, r.later (f.ext (hSeq_ext r l h₁ f v))⟩

/-- **C66** (`LinearSystem`).  The construction of a system changes no array and succeeds or fails as on values. -/
theorem C66_system (u : UserSys A M Ml Mr oA oM oMl oMr h b) (normal : Option Bool) (sa pd : Bool) :
    (∀ i < h.next, (hMkSys h oA oM oMl oMr ip b).1.mem i = h.mem i) ∧
      (∀ e, (hMkSys h oA oM oMl oMr ip b).2 = .error e ↔ mkLS ⟨A, h.mem b, M, Ml, Mr, ip, normal, sa, pd⟩ = .error e) ∧
      ∀ y, (hMkSys h oA oM oMl oMr ip b).2 = .ok y → ∃ s, mkLS ⟨A, h.mem b, M, Ml, Mr, ip, normal, sa, pd⟩ = .ok s ∧
        (hMkSys h oA oM oMl oMr ip b).1.mem y.b = s.b ∧ (hMkSys h oA oM oMl oMr ip b).1.mem y.Mlb = s.Mlb ∧
        (hMkSys h oA oM oMl oMr ip b).1.mem y.MMlb = s.MMlb ∧ y.nb = s.MMlbNorm := by
  obtain ⟨e, herr, hok⟩ := hMkSys_spec (ip := ip) u.A u.M u.Ml u.Mr u.b normal sa pd
  refine ⟨e.mem, fun er => ⟨herr er, fun he => ?_⟩, fun y hy => ?_⟩
  · cases hr : (hMkSys h oA oM oMl oMr ip b).2 with
    | error e' =>
      rw [herr e' hr] at he
      exact congrArg _ (Except.error.inj he)
    | ok y =>
      obtain ⟨s, hs, -⟩ := hok y hr
      rw [hs] at he
      simp at he
  · obtain ⟨s, hs, r⟩ := hok y hy
    exact ⟨s, hs, r.b.2, r.Mlb.2, r.MMlb.2, r.nb⟩

/-- **C66** (`Cg`).  After any sequence of earlier calls with the same system, `Cg` ends as the model on values does for
the present contents of `x0` and the exact solution, with the same attributes.  The iterate is a new array. -/
theorem C66_cg (u : UserSys A M Ml Mr oA oM oMl oMr h b) (hy : hMkSys h oA oM oMl oMr ip b = (h₁, .ok y))
    (v : ValidSeq y l h₁) (ua : UserArgs (hSeq y l h₁) a) (store : Bool) (normal : Option Bool) (sa pd : Bool) :
    ∃ s, mkLS ⟨A, h.mem b, M, Ml, Mr, ip, normal, sa, pd⟩ = .ok s ∧
      hOutcome HCgSt.val (hCg y store a (hSeq y l h₁)).2 = cg s s.hooks store (a.val (hSeq y l h₁).mem) ∧
      ∀ st e, (hCg y store a (hSeq y l h₁)).2 = .ok (st, e) → st.h = (hCg y store a (hSeq y l h₁)).1 ∧
        ∀ x, e = .returned ∨ e = .convergence → st.xk = some x → (hSeq y l h₁).next ≤ x ∧ x < st.h.next := by
  obtain ⟨s, hs, r⟩ := heap_setup u hy v normal sa pd
  have c := hCg_spec r ua.exact ua.x0 ⟨le_rfl, fun _ _ => rfl⟩ store
  exact ⟨s, hs, c.eq.symm, c.xk⟩

/-- **C66** (`Gmres`).  As `C66_cg`, but the iterate may be the array `x0` of the caller, see `C66_gmres_alias`. -/
theorem C66_gmres (u : UserSys A M Ml Mr oA oM oMl oMr h b) (hy : hMkSys h oA oM oMl oMr ip b = (h₁, .ok y))
    (v : ValidSeq y l h₁) (ua : UserArgs (hSeq y l h₁) a) (ortho : Ortho) (normal : Option Bool) (sa pd : Bool) :
    ∃ s, mkLS ⟨A, h.mem b, M, Ml, Mr, ip, normal, sa, pd⟩ = .ok s ∧
      hOutcome (HGmresSt.val a.maxiter) (hGmres y ortho a (hSeq y l h₁)).2 =
        gmres s s.hooks ortho (a.val (hSeq y l h₁).mem) ∧
      ∀ st e, (hGmres y ortho a (hSeq y l h₁)).2 = .ok (st, e) → st.h = (hGmres y ortho a (hSeq y l h₁)).1 ∧
        ∀ x, e = .returned ∨ e = .convergence → st.xk = some x →
          ((hSeq y l h₁).next ≤ x ∨ a.x0 = some x) ∧ x < st.h.next := by
  obtain ⟨s, hs, r⟩ := heap_setup u hy v normal sa pd
  have c := hGmres_spec r ua.exact ua.x0 ⟨le_rfl, fun _ _ => rfl⟩ ortho
  exact ⟨s, hs, c.eq.symm, c.xk⟩

/-- **C66** (`Minres`). -/
theorem C66_minres (u : UserSys A M Ml Mr oA oM oMl oMr h b) (hy : hMkSys h oA oM oMl oMr ip b = (h₁, .ok y))
    (v : ValidSeq y l h₁) (ua : UserArgs (hSeq y l h₁) a) (ortho : Ortho) (normal : Option Bool) (sa pd : Bool) :
    ∃ s, mkLS ⟨A, h.mem b, M, Ml, Mr, ip, normal, sa, pd⟩ = .ok s ∧
      hOutcome (HMinresSt.val a.maxiter) (hMinres y ortho a (hSeq y l h₁)).2 =
        minres s s.hooks ortho (a.val (hSeq y l h₁).mem) ∧
      ∀ st e, (hMinres y ortho a (hSeq y l h₁)).2 = .ok (st, e) → st.h = (hMinres y ortho a (hSeq y l h₁)).1 ∧
        ∀ x, e = .returned ∨ e = .convergence → st.xk = some x → (hSeq y l h₁).next ≤ x ∧ x < st.h.next := by
  obtain ⟨s, hs, r⟩ := heap_setup u hy v normal sa pd
  have c := hMinres_spec r ua.exact ua.x0 ⟨le_rfl, fun _ _ => rfl⟩ ortho
  exact ⟨s, hs, c.eq.symm, c.xk⟩

/-- **C66** (repetition).  Repeating a call after any other calls with the same system gives the same result: nothing is
left behind in the system or in the arrays. -/
theorem C66_repeat (u : UserSys A M Ml Mr oA oM oMl oMr h b) (hy : hMkSys h oA oM oMl oMr ip b = (h₁, .ok y))
    (v : ValidSeq y l h₁) (ua : UserArgs h₁ a) (store : Bool) (ortho : Ortho) :
    hOutcome (HCgSt.val (𝕜 := 𝕜)) (hCg y store a (hSeq y l h₁)).2 = hOutcome HCgSt.val (hCg y store a h₁).2 ∧
    hOutcome (HGmresSt.val a.maxiter) (hGmres y ortho a (hSeq y l h₁)).2 =
      hOutcome (HGmresSt.val a.maxiter) (hGmres y ortho a h₁).2 ∧
    hOutcome (HMinresSt.val a.maxiter) (hMinres y ortho a (hSeq y l h₁)).2 =
      hOutcome (HMinresSt.val a.maxiter) (hMinres y ortho a h₁).2 := by
  obtain ⟨-, -, hok⟩ := hMkSys_spec (ip := ip) u.A u.M u.Ml u.Mr u.b none false false
  rw [hy] at hok
  obtain ⟨s, -, r⟩ := hok y rfl
  have f : Fr h₁.next h₁.mem h₁ := ⟨le_rfl, fun _ _ => rfl⟩
  have f' := f.ext (hSeq_ext r l h₁ f v)
  exact ⟨(hCg_spec r ua.exact ua.x0 f' store).eq.symm.trans (hCg_spec r ua.exact ua.x0 f store).eq,
    (hGmres_spec r ua.exact ua.x0 f' ortho).eq.symm.trans (hGmres_spec r ua.exact ua.x0 f ortho).eq,
    (hMinres_spec r ua.exact ua.x0 f' ortho).eq.symm.trans (hMinres_spec r ua.exact ua.x0 f ortho).eq⟩

end calls

/-- **C66** (`Gmres`, alias).  If the initial guess already satisfies the tolerance then the attribute `xk` of `Gmres` is
the array `x0` of the caller itself: writing to `sol.xk` changes the caller's array.  `Cg` and `Minres` never return
it (`C66_cg`, `C66_minres`). -/
theorem C66_gmres_alias (y : HSys 𝕜 E) (ortho : Ortho) (a : HArgs) (h : Heap E) {x m l : ℕ} {r0 : ℝ} {h₁ : Heap E}
    (hx : a.x0 = some x) (hex : a.exact = none) (hr : hResidual y h (some x) = (h₁, .ok (m, l, r0))) (hnb : y.nb ≠ 0)
    (htol : r0 / y.nb ≤ a.tol) :
    ∃ st, (hGmres y ortho a h).2 = .ok (st, .returned) ∧ st.xk = some x := by
  have hg : hGuess y a h₁ = (h₁, x) := by
    unfold hGuess
    rw [hx]
    simp [hnb]
  have hit : ∀ g : Heap E, (hArnInit (y.arnCfg a.maxiter ortho) l m r0 g).2.iter = 0 := by
    intro g
    unfold hArnInit
    cases (y.arnCfg a.maxiter ortho).M <;> (dsimp only; split <;> rfl)
  unfold hGmres
  rw [hx, hr]
  dsimp only
  rw [hg]
  unfold hRun hInitErr
  rw [hex]
  dsimp only
  rw [if_neg hnb, if_neg hnb]
  have hc : ∀ q : HGmresSt 𝕜, ¬ ((([r0 / y.nb] : List ℝ).getLast?.any fun r => decide (a.tol < r)) &&
      (hgmresMethod y ortho a.maxiter).more q) = true := by
    intro q
    simp [not_lt.mpr htol]
  unfold hLoop
  rw [if_neg (hc _)]
  unfold hFinish hNeedXk hgmresMethod hgmresXk
  dsimp only
  rw [hit, if_neg (lt_irrefl 0)]
  exact ⟨_, rfl, rfl⟩

/-! ## Non-vacuity and counterexamples -/

theorem npNorm_real (z : ℝ) : npNorm z = .ok (Real.sqrt |z|) := by
  have : ¬ |z| * 1e-10 < 0 := not_lt.mpr (by positivity)
  simp [npNorm, this]

/-- The caller's memory of the examples: `b = 1` at address 0, `x0 = 3` at address 1. -/
def exHeap : Heap ℝ := ⟨fun i => if i = 0 then 1 else 3, 2⟩

/-- `A = 2`, no preconditioners: `b`, `Mlb` and `MMlb` are the same array. -/
theorem exUser : UserSys (𝕜 := ℝ) ((2 : ℝ) • (LinearMap.id : ℝ →ₗ[ℝ] ℝ)) .id .id .id (matObj fun x : ℝ => 2 * x) none idObj idObj
    exHeap 0 :=
  ⟨OpGood.mat _, OpGood.id, OpGood.id, OpGood.id, by simp [exHeap]⟩

theorem exHMk : hMkSys exHeap (matObj fun x : ℝ => 2 * x) none idObj idObj (fun x y : ℝ => x * y) 0 =
    (exHeap, .ok ⟨matObj fun x : ℝ => 2 * x, none, idObj, idObj, fun x y => x * y, 0, 0, 0, 1⟩) := by
  simp [hMkSys, idObj, exHeap, npNorm_real]

/-- A valid sequence of calls: `Cg` with `x0` from address 1, then `Gmres` with the default guess. -/
example (t : ℝ) : ValidSeq (⟨matObj fun x : ℝ => 2 * x, none, idObj, idObj, fun x y => x * y, 0, 0, 0, 1⟩ : HSys ℝ ℝ)
    [(.cg true, ⟨some 1, t, 5, true, some 0⟩), (.gmres .mgs, ⟨none, t, 5, false, none⟩)] exHeap := by
  refine ⟨⟨fun x hx => ?_, fun x hx => ?_⟩, ⟨fun x hx => by simp at hx, fun x hx => by simp at hx⟩, trivial⟩
  · obtain rfl := Option.some.inj hx
    simp [exHeap]
  · obtain rfl := Option.some.inj hx
    simp [exHeap]

/-- The hypotheses of `C66_cg` and `C66_repeat` hold for this system, with the exact solution in the caller's memory. -/
example (t : ℝ) (store : Bool) := C66_cg exUser exHMk (l := []) (a := ⟨some 1, t, 5, true, some 0⟩) trivial
  ⟨fun x hx => by obtain rfl := Option.some.inj hx; simp [hSeq, exHeap],
    fun x hx => by obtain rfl := Option.some.inj hx; simp [hSeq, exHeap]⟩ store none true true

/-- `C66_gmres_alias` applies: the residual of `x0 = 3` is `-5` and the tolerance is `5`. -/
example : ∃ st, (hGmres (⟨matObj fun x : ℝ => 2 * x, none, idObj, idObj, fun x y => x * y, 0, 0, 0, 1⟩ : HSys ℝ ℝ) .mgs
    ⟨some 1, 5, 5, false, none⟩ exHeap).2 = .ok (st, .returned) ∧ st.xk = some 1 := by
  refine C66_gmres_alias _ _ _ _ (m := 3) (l := 3) (r0 := 5)
    (h₁ := ((exHeap.alloc 6).1.alloc (-5)).1) rfl rfl ?_ (by norm_num) (by norm_num)
  have h25 : Real.sqrt 25 = 5 := by
    rw [show (25 : ℝ) = 5 ^ 2 by norm_num]
    exact Real.sqrt_sq (by norm_num)
  norm_num [hResidual, matObj, idObj, exHeap, Heap.alloc, npNorm_real, HSys.Mo, Function.update, h25]

/-- The wrong program which does not copy in linsys.py 603-604 (compare `hcgInit`). -/
noncomputable def hcgInitNoCopy (x0 MMlr0 Mlr0 : ℕ) (r0 : ℝ) (h : Heap ℝ) : Heap ℝ × HCgSt ℝ :=
  let y := h.alloc 0
  let p := y.1.alloc (y.1.mem MMlr0)
  (p.1, ⟨0, x0, y.2, Mlr0, MMlr0, p.2, fun j => if j = 0 then r0 ^ 2 else 0, fun _ => 0, fun _ => none, fun _ => none,
    fun _ _ => 0, 0, fun _ => 0, fun _ => p.1.mem Mlr0, fun _ => 0⟩)

/-- **C66** (the copies are needed).  Without the copy of the initial residual the first iteration of `Cg` overwrites the
right hand side: here `b = 1` becomes `0`. -/
theorem C66_copy_needed : ∃ i : Heap ℝ × HCgSt ℝ, i = hcgInitNoCopy 1 0 0 1 exHeap ∧ exHeap.mem 0 = 1 ∧
    (hcgStep (𝕜 := ℝ) (fun x y => x * y) idObj (matObj fun x : ℝ => 2 * x) false i.1 i.2).1.mem 0 = 0 := by
  refine ⟨_, rfl, by simp [exHeap], ?_⟩
  simp [hcgStep, hcgDir, hcgInitNoCopy, Heap.alloc, Heap.write, exHeap, matObj, idObj, npNorm_real, Function.update]

/-- An operator object which keeps its result in an array of its own and returns this array: the contract is violated
although the contents are right (for the vector `1`). -/
def cachedObj (c : ℕ) : OpObj ℝ := fun h _ => (h, c)

/-- **C66** (the contract is needed).  `Arnoldi.advance` orthogonalises the array returned by the operator in place, so an
operator which returns an array it keeps finds this array overwritten: here `A * 1 = 2` in address 0 becomes `0`. -/
theorem C66_contract_needed : ∃ c : HArnCfg ℝ ℝ, ∃ h : Heap ℝ, c.A = cachedObj 0 ∧ h.mem 0 = 2 ∧
    (hAdvance c (hArnInit c 1 1 1 h).1 (hArnInit c 1 1 1 h).2).1.mem 0 = 0 := by
  refine ⟨⟨cachedObj 0, none, fun x y => x * y, 1, .mgs⟩, ⟨fun i => if i = 0 then 2 else 1, 2⟩, rfl, by simp, ?_⟩
  have hI : hArnInit (⟨cachedObj 0, none, fun x y => x * y, 1, .mgs⟩ : HArnCfg ℝ ℝ) 1 1 1 ⟨fun i => if i = 0 then 2 else 1, 2⟩ =
      ((⟨fun i => if i = 0 then 2 else 1, 2⟩ : Heap ℝ).block 2 |>.1.write 2 1, ⟨0, 2, 2, fun _ _ => 0, false, 1⟩) := by
    simp [hArnInit, Heap.block]
  rw [hI]
  simp only [hAdvance, hOrthogonalise, hOrthoPasses, hOrthoPass, cachedObj, Ortho.reorthos, npNorm_real, Option.getD,
    idObj]
  norm_num [Heap.block, Heap.write, Heap.alloc, Function.update]
  split_ifs <;> norm_num [hOrthoStep, Heap.write, Function.update]

end Krypy
