import Verif.Model.Heap

/-! # Refinement: the solvers with memory compute what the value models compute -/

set_option linter.unusedSectionVars false

namespace Krypy
variable {𝕜 E : Type*} [RCLike 𝕜] [AddCommGroup E] [Module 𝕜 E]

/-- `h'` has the arrays of `h`, unchanged, and possibly more. -/
structure Heap.Ext (h h' : Heap E) : Prop where
  next : h.next ≤ h'.next
  mem : ∀ i < h.next, h'.mem i = h.mem i

theorem Heap.Ext.refl (h : Heap E) : h.Ext h := ⟨le_rfl, fun _ _ => rfl⟩

theorem Heap.Ext.trans {h h' h'' : Heap E} (a : h.Ext h') (b : h'.Ext h'') : h.Ext h'' :=
  ⟨a.next.trans b.next, fun i hi => (b.mem i (lt_of_lt_of_le hi a.next)).trans (a.mem i hi)⟩

theorem Heap.alloc_ext (h : Heap E) (x : E) : h.Ext (h.alloc x).1 :=
  ⟨Nat.le_succ _, fun i hi => by simp [Heap.alloc, Function.update_of_ne (Nat.ne_of_lt hi)]⟩

theorem Heap.alloc_mem (h : Heap E) (x : E) : (h.alloc x).1.mem (h.alloc x).2 = x := by simp [Heap.alloc]

theorem Heap.alloc_lt (h : Heap E) (x : E) : (h.alloc x).2 < (h.alloc x).1.next := by simp [Heap.alloc]

theorem Heap.alloc_ge (h : Heap E) (x : E) : h.next ≤ (h.alloc x).2 := le_rfl

theorem Heap.write_self (h : Heap E) (a : ℕ) (x : E) : (h.write a x).mem a = x := Function.update_self _ _ _

theorem Heap.write_ne (h : Heap E) {a i : ℕ} (hi : i ≠ a) (x : E) : (h.write a x).mem i = h.mem i :=
  Function.update_of_ne hi _ _

theorem Heap.block_ext (h : Heap E) (n : ℕ) : h.Ext (h.block n).1 :=
  ⟨Nat.le_add_right _ _, fun i hi => by simp [Heap.block, Nat.not_le.mpr hi]⟩

/-- What is required of an operator object: `A * x` returns an array with contents `f x`, which is `x` itself or a new
array; existing arrays are not changed. -/
structure OpGood (f : E → E) (o : OpObj E) : Prop where
  val : ∀ (h : Heap E) (a : ℕ), a < h.next → (o h a).1.mem (o h a).2 = f (h.mem a)
  ext : ∀ (h : Heap E) (a : ℕ), a < h.next → h.Ext (o h a).1
  res : ∀ (h : Heap E) (a : ℕ), a < h.next → (o h a).2 = a ∨ h.next ≤ (o h a).2
  lt : ∀ (h : Heap E) (a : ℕ), a < h.next → (o h a).2 < (o h a).1.next

theorem OpGood.id : OpGood (fun x : E => x) idObj :=
  ⟨fun _ _ _ => rfl, fun h _ _ => .refl h, fun _ _ _ => Or.inl rfl, fun _ _ h => h⟩

theorem OpGood.mat (f : E → E) : OpGood f (matObj f) :=
  ⟨fun h _ _ => h.alloc_mem _, fun h _ _ => h.alloc_ext _, fun h _ _ => Or.inr (h.alloc_ge 0), fun h _ _ => h.alloc_lt _⟩

theorem OpGood.sum {f g : E → E} {A B : OpObj E} (hA : OpGood f A) (hB : OpGood g B) : OpGood (fun x => f x + g x) (sumObj A B) := by
  have key : ∀ h a, a < h.next → a < (A h a).1.next := fun h a ha => lt_of_lt_of_le ha (hA.ext h a ha).next
  refine ⟨fun h a ha => ?_, fun h a ha => ?_, fun h a ha => Or.inr ?_, fun h a ha => ?_⟩
  · unfold sumObj
    dsimp only
    rw [Heap.alloc_mem, hB.val _ _ (key h a ha), (hB.ext _ _ (key h a ha)).mem _ (hA.lt h a ha), hA.val h a ha,
      (hA.ext h a ha).mem a ha]
  · exact ((hA.ext h a ha).trans (hB.ext _ _ (key h a ha))).trans (Heap.alloc_ext _ _)
  · exact ((hA.ext h a ha).trans (hB.ext _ _ (key h a ha))).next
  · exact Heap.alloc_lt _ _

theorem OpGood.prod {f g : E → E} {A B : OpObj E} (hA : OpGood f A) (hB : OpGood g B) : OpGood (fun x => f (g x)) (prodObj A B) := by
  refine ⟨fun h a ha => ?_, fun h a ha => ?_, fun h a ha => ?_, fun h a ha => ?_⟩
  · unfold prodObj
    dsimp only
    rw [hA.val _ _ (hB.lt h a ha), hB.val h a ha]
  · exact (hB.ext h a ha).trans (hA.ext _ _ (hB.lt h a ha))
  · unfold prodObj
    dsimp only
    rcases hA.res _ _ (hB.lt h a ha) with e | e
    · rw [e]
      exact hB.res h a ha
    · exact Or.inr ((hB.ext h a ha).next.trans e)
  · exact hA.lt _ _ (hB.lt h a ha)

theorem OpGood.scaled {f : E → E} {A : OpObj E} (hA : OpGood f A) (c : 𝕜) : OpGood (fun x => c • f x) (scaledObj A c) := by
  refine ⟨fun h a ha => ?_, fun h a ha => ?_, fun h a ha => Or.inr ?_, fun h a ha => ?_⟩
  · unfold scaledObj
    dsimp only
    rw [Heap.alloc_mem, hA.val h a ha]
  · exact (hA.ext h a ha).trans (Heap.alloc_ext _ _)
  · exact (hA.ext h a ha).next
  · exact Heap.alloc_lt _ _

theorem OpGood.powLoop {f : E → E} {A : OpObj E} (hA : OpGood f A) : ∀ n, OpGood (f^[n]) (powLoop A n)
  | 0 => OpGood.id
  | n + 1 => by
    have := (OpGood.powLoop hA n).prod hA
    exact this

theorem OpGood.pow {f : E → E} {A : OpObj E} (hA : OpGood f A) (n : ℕ) : OpGood (f^[n]) (powObj A n) := by
  have := (hA.powLoop n).prod (OpGood.mat (fun x : E => x))
  exact this

theorem OpGood.lt_ext {f : E → E} {A : OpObj E} (hA : OpGood f A) {h : Heap E} {a i : ℕ} (ha : a < h.next) (hi : i < h.next) :
    i < (A h a).1.next := lt_of_lt_of_le hi (hA.ext h a ha).next

/-- The arrays below `n` are as in `m0`. -/
structure Fr (n : ℕ) (m0 : ℕ → E) (h : Heap E) : Prop where
  le : n ≤ h.next
  mem : ∀ i < n, h.mem i = m0 i

theorem Fr.ext {n : ℕ} {m0 : ℕ → E} {h h' : Heap E} (f : Fr n m0 h) (e : h.Ext h') : Fr n m0 h' :=
  ⟨f.le.trans e.next, fun i hi => (e.mem i (lt_of_lt_of_le hi f.le)).trans (f.mem i hi)⟩

theorem Fr.write {n : ℕ} {m0 : ℕ → E} {h : Heap E} (f : Fr n m0 h) {a : ℕ} (ha : n ≤ a) (x : E) : Fr n m0 (h.write a x) :=
  ⟨f.le, fun i hi => by
    have : i ≠ a := by omega
    simp [Heap.write, Function.update_of_ne this, f.mem i hi]⟩

theorem Fr.here (h : Heap E) : Fr h.next h.mem h := ⟨le_rfl, fun _ _ => rfl⟩

theorem Fr.of {n : ℕ} {m0 : ℕ → E} {h h' : Heap E} (f : Fr n m0 h) (f' : Fr h.next h.mem h') : Fr n m0 h' :=
  f.ext ⟨f'.le, f'.mem⟩

/-- The weaker contract: `A * x` may also return an array which existed before, e.g. one which the operator remembered; and it may
rely on the contents `m0` of the arrays below `n` (among them those which it keeps). -/
structure OpOk (n : ℕ) (m0 : ℕ → E) (f : E → E) (o : OpObj E) : Prop where
  val : ∀ (h : Heap E) (a : ℕ), Fr n m0 h → a < h.next → (o h a).1.mem (o h a).2 = f (h.mem a)
  ext : ∀ (h : Heap E) (a : ℕ), Fr n m0 h → a < h.next → h.Ext (o h a).1
  lt : ∀ (h : Heap E) (a : ℕ), Fr n m0 h → a < h.next → (o h a).2 < (o h a).1.next

theorem OpGood.ok {f : E → E} {A : OpObj E} (hA : OpGood f A) {n : ℕ} {m0 : ℕ → E} : OpOk n m0 f A :=
  ⟨fun h a _ => hA.val h a, fun h a _ => hA.ext h a, fun h a _ => hA.lt h a⟩

theorem OpOk.later {f : E → E} {A : OpObj E} {n : ℕ} {m0 : ℕ → E} (hA : OpOk n m0 f A) {h : Heap E} (g : Fr n m0 h) :
    OpOk h.next h.mem f A :=
  ⟨fun h' a f' => hA.val h' a (g.of f'), fun h' a f' => hA.ext h' a (g.of f'), fun h' a f' => hA.lt h' a (g.of f')⟩

theorem OpOk.prod {f g : E → E} {A B : OpObj E} {n : ℕ} {m0 : ℕ → E} (hA : OpOk n m0 f A) (hB : OpOk n m0 g B) :
    OpOk n m0 (fun x => f (g x)) (prodObj A B) := by
  refine ⟨fun h a fr ha => ?_, fun h a fr ha => ?_, fun h a fr ha => ?_⟩
  · unfold prodObj
    dsimp only
    rw [hA.val _ _ (fr.ext (hB.ext h a fr ha)) (hB.lt h a fr ha), hB.val h a fr ha]
  · exact (hB.ext h a fr ha).trans (hA.ext _ _ (fr.ext (hB.ext h a fr ha)) (hB.lt h a fr ha))
  · exact hA.lt _ _ (fr.ext (hB.ext h a fr ha)) (hB.lt h a fr ha)

/-- The contract of `OpGood` as long as the arrays below `n` are as in `m0` (for operators which read them). -/
structure OpFr (n : ℕ) (m0 : ℕ → E) (f : E → E) (o : OpObj E) : Prop where
  val : ∀ (h : Heap E) (a : ℕ), Fr n m0 h → a < h.next → (o h a).1.mem (o h a).2 = f (h.mem a)
  ext : ∀ (h : Heap E) (a : ℕ), Fr n m0 h → a < h.next → h.Ext (o h a).1
  res : ∀ (h : Heap E) (a : ℕ), Fr n m0 h → a < h.next → (o h a).2 = a ∨ h.next ≤ (o h a).2
  lt : ∀ (h : Heap E) (a : ℕ), Fr n m0 h → a < h.next → (o h a).2 < (o h a).1.next

theorem OpGood.fr {f : E → E} {A : OpObj E} (hA : OpGood f A) (n : ℕ) (m0 : ℕ → E) : OpFr n m0 f A :=
  ⟨fun h a _ => hA.val h a, fun h a _ => hA.ext h a, fun h a _ => hA.res h a, fun h a _ => hA.lt h a⟩

/-- The system with memory represents the system `s` of the value model; its arrays are below `n`. -/
structure SysRep (n : ℕ) (m0 : ℕ → E) (s : LS 𝕜 E) (y : HSys 𝕜 E) : Prop where
  A : OpGood s.A y.A
  M : OpGood s.M y.Mo
  Ml : OpGood s.Ml y.Ml
  Mr : OpGood s.Mr y.Mr
  ip : y.ip = s.ip
  op : s.MlAMr = s.Ml.comp (s.A.comp s.Mr)
  b : y.b < n ∧ m0 y.b = s.b
  Mlb : y.Mlb < n ∧ m0 y.Mlb = s.Mlb
  MMlb : y.MMlb < n ∧ m0 y.MMlb = s.MMlb
  nb : y.nb = s.MMlbNorm
  MM : s.MMlb = s.M s.Mlb

theorem SysRep.good {n : ℕ} {m0 : ℕ → E} {s : LS 𝕜 E} {y : HSys 𝕜 E} (r : SysRep n m0 s y) : OpGood s.MlAMr y.op := by
  have h := (r.Ml.prod r.A).prod r.Mr
  rw [r.op]
  exact h

/-- The same with the weaker contract for `A`, `Ml` and `Mr`. -/
structure SysRepW (n : ℕ) (m0 : ℕ → E) (s : LS 𝕜 E) (y : HSys 𝕜 E) : Prop where
  A : OpOk n m0 s.A y.A
  M : OpGood s.M y.Mo
  Ml : OpOk n m0 s.Ml y.Ml
  Mr : OpOk n m0 s.Mr y.Mr
  ip : y.ip = s.ip
  op : s.MlAMr = s.Ml.comp (s.A.comp s.Mr)
  b : y.b < n ∧ m0 y.b = s.b
  Mlb : y.Mlb < n ∧ m0 y.Mlb = s.Mlb
  MMlb : y.MMlb < n ∧ m0 y.MMlb = s.MMlb
  nb : y.nb = s.MMlbNorm
  MM : s.MMlb = s.M s.Mlb

theorem SysRep.weak {n : ℕ} {m0 : ℕ → E} {s : LS 𝕜 E} {y : HSys 𝕜 E} (r : SysRep n m0 s y) : SysRepW n m0 s y :=
  ⟨r.A.ok, r.M, r.Ml.ok, r.Mr.ok, r.ip, r.op, r.b, r.Mlb, r.MMlb, r.nb, r.MM⟩

theorem SysRepW.good {n : ℕ} {m0 : ℕ → E} {s : LS 𝕜 E} {y : HSys 𝕜 E} (r : SysRepW n m0 s y) : OpOk n m0 s.MlAMr y.op := by
  have h := (r.Ml.prod r.A).prod r.Mr
  rw [r.op]
  exact h

/-- linsys.py 130-161. -/
theorem hResidual_spec {n : ℕ} {m0 : ℕ → E} {s : LS 𝕜 E} {y : HSys 𝕜 E} (r : SysRepW n m0 s y) {h : Heap E} (f : Fr n m0 h)
    {z : Option ℕ} (hz : ∀ a, z = some a → a < h.next) :
    h.Ext (hResidual y h z).1 ∧
      (∀ e, (hResidual y h z).2 = .error e → s.getResidualNorm (z.map h.mem) = .error e) ∧
      (∀ m l nr, (hResidual y h z).2 = .ok (m, l, nr) → m < (hResidual y h z).1.next ∧ l < (hResidual y h z).1.next ∧
        s.getResidualNorm (z.map h.mem) = .ok ((hResidual y h z).1.mem m, (hResidual y h z).1.mem l, nr)) := by
  cases z with
  | none =>
    refine ⟨.refl h, fun e he => by simp [hResidual] at he, fun m l nr he => ?_⟩
    simp only [hResidual, Except.ok.injEq, Prod.mk.injEq] at he
    obtain ⟨rfl, rfl, rfl⟩ := he
    refine ⟨lt_of_lt_of_le r.MMlb.1 f.le, lt_of_lt_of_le r.Mlb.1 f.le, ?_⟩
    simp only [hResidual, LS.getResidualNorm, Option.map_none]
    rw [f.mem _ r.MMlb.1, f.mem _ r.Mlb.1, r.MMlb.2, r.Mlb.2, r.nb]
  | some z =>
    have hz := hz z rfl
    have e1 := r.A.ext h z f hz
    have v1 := r.A.val h z f hz
    have l1 := r.A.lt h z f hz
    set az := y.A h z with haz
    have hb : az.1.mem y.b = s.b := by
      rw [e1.mem _ (lt_of_lt_of_le r.b.1 f.le), f.mem _ r.b.1, r.b.2]
    set t := az.1.alloc (az.1.mem y.b - az.1.mem az.2) with ht
    have e2 : az.1.Ext t.1 := Heap.alloc_ext _ _
    have l2 : t.2 < t.1.next := Heap.alloc_lt _ _
    have v2 : t.1.mem t.2 = s.b - s.A (h.mem z) := by rw [ht, Heap.alloc_mem, hb, v1]
    have e3 := r.Ml.ext _ _ (f.ext (e1.trans e2)) l2
    have v3 := r.Ml.val _ _ (f.ext (e1.trans e2)) l2
    have l3 := r.Ml.lt _ _ (f.ext (e1.trans e2)) l2
    set l := y.Ml t.1 t.2 with hl
    have e4 := r.M.ext _ _ l3
    have v4 := r.M.val _ _ l3
    have l4 := r.M.lt _ _ l3
    set m := y.Mo l.1 l.2 with hm
    have hdef : hResidual y h (some z) = match npNorm (y.ip (m.1.mem l.2) (m.1.mem m.2)) with
        | .error e => (m.1, .error e)
        | .ok nr => (m.1, .ok (m.2, l.2, nr)) := rfl
    have hl' : m.1.mem l.2 = s.Ml (s.b - s.A (h.mem z)) := by rw [e4.mem _ l3, v3, v2]
    have hm' : m.1.mem m.2 = s.M (s.Ml (s.b - s.A (h.mem z))) := by rw [v4, v3, v2]
    have hext : h.Ext m.1 := ((e1.trans e2).trans e3).trans e4
    have hval : s.getResidualNorm (Option.map h.mem (some z)) = match npNorm (y.ip (m.1.mem l.2) (m.1.mem m.2)) with
        | .error e => .error e
        | .ok nr => .ok (m.1.mem m.2, m.1.mem l.2, nr) := by
      rw [hl', hm', r.ip]
      rfl
    rw [hdef, hval]
    cases npNorm (y.ip (m.1.mem l.2) (m.1.mem m.2)) with
    | error e => exact ⟨hext, fun e' he => by simpa using he, fun _ _ _ he => by simp at he⟩
    | ok nr =>
      refine ⟨hext, fun e' he => by simp at he, fun m' l' nr' he => ?_⟩
      simp only [Except.ok.injEq, Prod.mk.injEq] at he
      obtain ⟨rfl, rfl, rfl⟩ := he
      exact ⟨l4, lt_of_lt_of_le l3 e4.next, rfl⟩

section driver
variable {S T : Type*}

/-- The value-level arguments. -/
def HArgs.val (m0 : ℕ → E) (a : HArgs) : SolverArgs E :=
  ⟨a.x0.map m0, a.tol, a.maxiter, a.explicitResidual, a.exact.map m0⟩

/-- The attributes of the solver object as values. -/
def HSt.abs (val : Heap E → S → T) (st : HSt E S) : St ℝ E T :=
  ⟨val st.h st.s, st.iter, st.xk.map st.h.mem, st.resnorms, st.errnorms, st.warnings⟩

/-- A method with memory refines a method on values.  `Fr n m0` says that the arrays of the caller (addresses below
`n`) have their original contents; `X` is a property of the address of the solution. -/
structure HSim (n : ℕ) (m0 : ℕ → E) (m : HMethod E S) (m₂ : Method ℝ E T) (val : Heap E → S → T)
    (Inv : Heap E → S → Prop) (X : ℕ → Prop) : Prop where
  fr : ∀ {h s}, Inv h s → Fr n m0 h
  more : ∀ {h s}, Inv h s → m₂.more (val h s) = m.more s
  k : ∀ {h s}, Inv h s → m₂.k (val h s) = m.k s
  count : m₂.countAfter = m.countAfter
  step_fr : ∀ {h s}, Inv h s → Fr n m0 (m.step h s).1
  step_err : ∀ {h s e}, Inv h s → (m.step h s).2 = .error e → m₂.step (val h s) = .error e
  step_ok : ∀ {h s s' r}, Inv h s → (m.step h s).2 = .ok (s', r) →
    m₂.step (val h s) = .ok (val (m.step h s).1 s', r) ∧ Inv (m.step h s).1 s'
  xk_ext : ∀ {h s}, Inv h s → h.Ext (m.getXk h s).1
  xk_err : ∀ {h s e}, Inv h s → (m.getXk h s).2 = .error e → m₂.getXk (val h s) = .error e
  xk_ok : ∀ {h s a}, Inv h s → (m.getXk h s).2 = .ok a → a < (m.getXk h s).1.next ∧ X a ∧
    m₂.getXk (val h s) = .ok ((m.getXk h s).1.mem a)
  inv_ext : ∀ {h h' s}, Inv h s → h.Ext h' → Inv h' s ∧ val h' s = val h s
  post : ∀ {h s} r, Inv h s → Inv h (m.post s r) ∧ val h (m.post s r) = m₂.post (val h s) r

variable {n : ℕ} {m0 : ℕ → E} {m : HMethod E S} {m₂ : Method ℝ E T} {val : Heap E → S → T} {Inv : Heap E → S → Prop}
  {X : ℕ → Prop} {s : LS 𝕜 E} {y : HSys 𝕜 E} {a : HArgs}

/-- Invariant of the loop. -/
structure StOK (Inv : Heap E → S → Prop) (X : ℕ → Prop) (st : HSt E S) : Prop where
  inv : Inv st.h st.s
  xk : ∀ x, st.xk = some x → x < st.h.next ∧ X x

theorem StOK.abs_ext (hs : HSim n m0 m m₂ val Inv X) {st : HSt E S} (ok : StOK Inv X st) {h' : Heap E} (e : st.h.Ext h') :
    StOK Inv X { st with h := h' } ∧ HSt.abs val { st with h := h' } = st.abs val := by
  obtain ⟨i1, i2⟩ := hs.inv_ext ok.inv e
  refine ⟨⟨i1, fun x hx => ⟨lt_of_lt_of_le (ok.xk x hx).1 e.next, (ok.xk x hx).2⟩⟩, ?_⟩
  unfold HSt.abs
  dsimp only
  rw [i2]
  congr 1
  cases hx : st.xk with
  | none => rfl
  | some x => simp only [Option.map_some]; rw [e.mem x (ok.xk x hx).1]

theorem hErr_spec (ip : E → E → 𝕜) (ex : ℕ) (h : Heap E) (x : ℕ) :
    h.Ext (hErr ip ex h x).1 ∧ (hErr ip ex h x).2 = npNorm (ip (h.mem ex - h.mem x) (h.mem ex - h.mem x)) := by
  unfold hErr
  dsimp only
  refine ⟨Heap.alloc_ext _ _, ?_⟩
  rw [Heap.alloc_mem]

/-- linsys.py 435-443. -/
theorem hWithErr_spec (hs : HSim n m0 m m₂ val Inv X) (r : SysRepW n m0 s y) (hex : ∀ e, a.exact = some e → e < n)
    {st : HSt E S} (ok : StOK Inv X st) :
    let o := hWithErr y a m st
    StOK Inv X o.1 ∧ st.h.Ext o.1.h ∧ o.1.s = st.s ∧ o.1.iter = st.iter ∧ o.1.resnorms = st.resnorms ∧
      o.1.warnings = st.warnings ∧
      withErr (mkCfg s (a.val m0)) (m₂.getXk (val st.h st.s)) (st.abs val) = match o.2 with
        | .error e => .error e
        | .ok () => .ok (o.1.abs val) := by
  intro o
  cases hx : a.exact with
  | none =>
    have ho : o = ({ st with xk := none }, .ok ()) := by simp only [o, hWithErr, hx]
    rw [ho]
    refine ⟨⟨ok.inv, by simp⟩, .refl _, rfl, rfl, rfl, rfl, ?_⟩
    simp only [withErr, mkCfg, HArgs.val, hx, Option.map_none]
    rfl
  | some ex =>
    have hxn := hex ex hx
    have hcfg : (mkCfg s (a.val m0)).errNorm = some fun x => npNorm (s.ip (m0 ex - x) (m0 ex - x)) := by
      simp only [mkCfg, HArgs.val, hx, Option.map_some]
    have e1 := hs.xk_ext ok.inv
    cases hg : m.getXk st.h st.s with
    | mk h1 res =>
      rw [hg] at e1
      cases res with
      | error e =>
        have ho : o = ({ st with h := h1, xk := none }, .error e) := by simp only [o, hWithErr, hx, hg]
        have hv := hs.xk_err ok.inv (by rw [hg] : (m.getXk st.h st.s).2 = .error e)
        rw [ho]
        refine ⟨⟨(hs.inv_ext ok.inv e1).1, by simp⟩, e1, rfl, rfl, rfl, rfl, ?_⟩
        unfold withErr
        rw [hcfg, hv]
      | ok x =>
        have hv := hs.xk_ok ok.inv (by rw [hg] : (m.getXk st.h st.s).2 = .ok x)
        rw [hg] at hv
        obtain ⟨hlt, hX, hv⟩ := hv
        obtain ⟨e2, v2⟩ := hErr_spec y.ip ex h1 x
        have hexv : h1.mem ex = m0 ex := ((hs.fr ok.inv).ext e1).mem ex hxn
        cases hd : hErr y.ip ex h1 x with
        | mk h2 res2 =>
          rw [hd] at e2 v2
          dsimp only at v2 e1 e2 hv hlt
          rw [hexv, r.ip] at v2
          have e12 := e1.trans e2
          have hok2 : StOK Inv X { st with h := h2, xk := some x } :=
            ⟨(hs.inv_ext ok.inv e12).1, fun z hz => by
              obtain rfl := Option.some.inj hz
              exact ⟨lt_of_lt_of_le hlt e2.next, hX⟩⟩
          cases res2 with
          | error e =>
            have ho : o = ({ st with h := h2, xk := some x }, .error e) := by simp only [o, hWithErr, hx, hg, hd]
            rw [ho]
            refine ⟨hok2, e12, rfl, rfl, rfl, rfl, ?_⟩
            unfold withErr
            rw [hcfg, hv]
            dsimp only
            rw [← v2]
          | ok e =>
            have ho : o = ({ st with h := h2, xk := some x, errnorms := st.errnorms.map (· ++ [e]) }, .ok ()) := by
              simp only [o, hWithErr, hx, hg, hd]
            rw [ho]
            refine ⟨⟨hok2.inv, hok2.xk⟩, e12, rfl, rfl, rfl, rfl, ?_⟩
            unfold withErr
            rw [hcfg, hv]
            dsimp only
            rw [← v2]
            unfold HSt.abs
            dsimp only
            rw [(hs.inv_ext ok.inv e12).2]
            simp only [Option.map_some]
            rw [e2.mem x hlt]

/-- linsys.py 455-457. -/
theorem hNeedXk_spec (hs : HSim n m0 m m₂ val Inv X) {st : HSt E S} (ok : StOK Inv X st) :
    let o := hNeedXk m st
    StOK Inv X o.1 ∧ st.h.Ext o.1.h ∧ o.1.s = st.s ∧ o.1.iter = st.iter ∧ o.1.resnorms = st.resnorms ∧
      o.1.warnings = st.warnings ∧ o.1.errnorms = st.errnorms ∧
      (match (st.abs val).xk with | some x => Except.ok x | none => m₂.getXk (val st.h st.s)) = (match o.2 with
        | .error e => .error e
        | .ok x => .ok (o.1.h.mem x)) ∧
      (∀ x, o.2 = .ok x → o.1.xk = some x) ∧ (∀ e, o.2 = .error e → st.xk = none) := by
  intro o
  cases hx : st.xk with
  | some x =>
    have ho : o = (st, .ok x) := by simp only [o, hNeedXk, hx]
    rw [ho]
    refine ⟨ok, .refl _, rfl, rfl, rfl, rfl, rfl, ?_, fun z hz => ?_, fun e he => by simp at he⟩
    · simp only [HSt.abs, hx, Option.map_some]
    · obtain rfl := Except.ok.inj hz
      exact hx
  | none =>
    have e1 := hs.xk_ext ok.inv
    cases hg : m.getXk st.h st.s with
    | mk h1 res =>
      rw [hg] at e1
      cases res with
      | error e =>
        have ho : o = ({ st with h := h1 }, .error e) := by simp only [o, hNeedXk, hx, hg]
        have hv := hs.xk_err ok.inv (by rw [hg] : (m.getXk st.h st.s).2 = .error e)
        rw [ho]
        refine ⟨(ok.abs_ext hs e1).1, e1, rfl, rfl, rfl, rfl, rfl, ?_, fun x hx => by simp at hx, fun _ _ => rfl⟩
        simp only [HSt.abs, hx, Option.map_none]
        rw [hv]
      | ok x =>
        have ho : o = ({ st with h := h1, xk := some x }, .ok x) := by simp only [o, hNeedXk, hx, hg]
        have hv := hs.xk_ok ok.inv (by rw [hg] : (m.getXk st.h st.s).2 = .ok x)
        rw [hg] at hv
        obtain ⟨hlt, hX, hv⟩ := hv
        rw [ho]
        refine ⟨⟨(hs.inv_ext ok.inv e1).1, fun z hz => ?_⟩, e1, rfl, rfl, rfl, rfl, rfl, ?_, fun z hz => ?_, fun e he => by simp at he⟩
        · obtain rfl := Option.some.inj hz
          exact ⟨hlt, hX⟩
        · simp only [HSt.abs, hx, Option.map_none]
          rw [hv]
        · obtain rfl := Except.ok.inj hz
          rfl

/-- The end of `finalizeIteration` (linsys.py 459-493). -/
noncomputable def finDone (cfg : Cfg ℝ E) (resnorm rkn : ℝ) (st : St ℝ E T) : Res3 (St ℝ E T × Option ℝ) (St ℝ E T) :=
  if cfg.tol < rkn / cfg.MMlbNorm then
    if st.iter + 1 = cfg.maxiter then .convergence st
    else if ¬ cfg.explicitResidual ∧ resnorm / cfg.MMlbNorm ≤ cfg.tol then
      .ok ({ st with warnings := st.warnings + 1 }, some rkn)
    else .ok (st, some rkn)
  else .ok (st, some rkn)

/-- The part of `finalizeIteration` which evaluates the residual. -/
noncomputable def finExpl (cfg : Cfg ℝ E) (resnorm : ℝ) (st : St ℝ E T) (rx : Except Err E) :
    Res3 (St ℝ E T × Option ℝ) (St ℝ E T) :=
  match rx with
  | .error e => .raised e
  | .ok x => match cfg.resNorm x with
    | .error e => .raised e
    | .ok rkn => finDone cfg resnorm rkn { st with xk := some x, resnorms := st.resnorms ++ [rkn / cfg.MMlbNorm] }

theorem finalizeIteration_eq (cfg : Cfg ℝ E) (g : Except Err E) (rn : ℝ) {st st1 : St ℝ E T} (h : withErr cfg g st = .ok st1) :
    finalizeIteration cfg g rn st = if wantExplicit cfg st1 rn then
        finExpl cfg rn st1 (match st1.xk with | some x => Except.ok x | none => g)
      else .ok ({ st1 with resnorms := st1.resnorms ++ [rn / cfg.MMlbNorm] }, none) := by
  unfold finalizeIteration finExpl finDone
  rw [h]
  dsimp only
  split
  · cases st1.xk with
    | none =>
      cases g with
      | error e => rfl
      | ok x => cases h : cfg.resNorm x <;> simp only [h]
    | some x => cases h : cfg.resNorm x <;> simp only [h]
  · rfl

theorem finalizeIteration_xk (cfg : Cfg ℝ E) (g : Except Err E) (rn : ℝ) (st : St ℝ E T) (x : Option E) :
    finalizeIteration cfg g rn { st with xk := x } = finalizeIteration cfg g rn st := by
  have : withErr cfg g { st with xk := x } = withErr cfg g st := by
    unfold withErr
    cases cfg.errNorm <;> rfl
  unfold finalizeIteration
  rw [this]

theorem hFinalize_xk (rn : ℝ) (st : HSt E S) (x : Option ℕ) :
    hFinalize y a m rn { st with xk := x } = hFinalize y a m rn st := by
  have : hWithErr y a m { st with xk := x } = hWithErr y a m st := by
    unfold hWithErr
    cases a.exact <;> rfl
  unfold hFinalize
  rw [this]

/-- linsys.py 430-493. -/
theorem hFinalize_spec (hs : HSim n m0 m m₂ val Inv X) (r : SysRepW n m0 s y) (hex : ∀ e, a.exact = some e → e < n)
    {st : HSt E S} (ok : StOK Inv X st) (rn : ℝ) :
    let o := hFinalize y a m rn st
    StOK Inv X o.1 ∧
      finalizeIteration (mkCfg s (a.val m0)) (m₂.getXk (val st.h st.s)) rn (st.abs val) = match o.2 with
        | .raised e => .raised e
        | .convergence => .convergence (o.1.abs val)
        | .ok rkn => .ok (o.1.abs val, rkn) := by
  intro o
  have hw := hWithErr_spec hs r hex ok
  cases hW : hWithErr y a m st with
  | mk st1 res1 =>
  rw [hW] at hw
  obtain ⟨ok1, e1, hs1, hi1, hr1, hw1, hv1⟩ := hw
  dsimp only at ok1 e1 hs1 hi1 hr1 hw1 hv1
  cases res1 with
  | error e =>
    have ho : o = (st1, .raised e) := by simp only [o, hFinalize, hW]
    rw [ho]
    refine ⟨ok1, ?_⟩
    unfold finalizeIteration
    rw [hv1]
  | ok u =>
    cases u
    dsimp only at hv1
    have hval1 : val st1.h st1.s = val st.h st.s := by rw [hs1]; exact (hs.inv_ext ok.inv e1).2
    have hwant : wantExplicit (mkCfg s (a.val m0)) (st1.abs val) rn =
        (a.explicitResidual || decide (rn / y.nb ≤ a.tol) || decide (st1.iter + 1 = a.maxiter)) := by
      rw [r.nb]; rfl
    rw [finalizeIteration_eq _ _ _ hv1, hwant]
    by_cases hc : (a.explicitResidual || decide (rn / y.nb ≤ a.tol) || decide (st1.iter + 1 = a.maxiter)) = true
    · have hn := hNeedXk_spec hs ok1
      rw [if_pos hc, ← hval1]
      cases hN : hNeedXk m st1 with
      | mk st2 res2 =>
      rw [hN] at hn
      obtain ⟨ok2, e2, hs2, hi2, hr2, hw2, hen2, hv2, hx2, -⟩ := hn
      dsimp only at ok2 e2 hs2 hi2 hr2 hw2 hen2 hv2 hx2
      have hval2 : val st2.h st2.s = val st1.h st1.s := by rw [hs2]; exact (hs.inv_ext ok1.inv e2).2
      rw [hv2]
      cases res2 with
      | error e =>
        have ho : o = (st2, .raised e) := by simp only [o, hFinalize, hW, if_pos hc, hN]
        rw [ho]
        exact ⟨ok2, rfl⟩
      | ok x =>
        have hx2 := hx2 x rfl
        obtain ⟨hxl, hX⟩ := ok2.xk x hx2
        obtain ⟨e3, herr, hok3⟩ := hResidual_spec r (hs.fr ok2.inv) (z := some x) (fun z hz => by
          obtain rfl := Option.some.inj hz
          exact hxl)
        unfold finExpl
        dsimp only
        cases hR : hResidual y st2.h (some x) with
        | mk h3 res3 =>
        rw [hR] at e3 herr hok3
        dsimp only at e3 herr hok3
        cases res3 with
        | error e =>
          have ho : o = ({ st2 with h := h3 }, .raised e) := by simp only [o, hFinalize, hW, if_pos hc, hN, hR]
          rw [ho]
          refine ⟨(ok2.abs_ext hs e3).1, ?_⟩
          have hz := herr e rfl
          simp only [Option.map_some] at hz
          have hrn : (mkCfg s (a.val m0)).resNorm (st2.h.mem x) = .error e := by simp only [mkCfg, hz]
          rw [hrn]
        | ok t =>
          obtain ⟨mm, ll, rkn⟩ := t
          obtain ⟨-, -, hz⟩ := hok3 mm ll rkn rfl
          simp only [Option.map_some] at hz
          have hrn : (mkCfg s (a.val m0)).resNorm (st2.h.mem x) = .ok rkn := by simp only [mkCfg, hz]
          have ok3 := ok2.abs_ext hs e3
          have ho : o = (if a.tol < rkn / y.nb then
              if st2.iter + 1 = a.maxiter then ({ st2 with h := h3, resnorms := st2.resnorms ++ [rkn / y.nb] }, .convergence)
              else if ¬ a.explicitResidual ∧ rn / y.nb ≤ a.tol then
                ({ st2 with h := h3, resnorms := st2.resnorms ++ [rkn / y.nb], warnings := st2.warnings + 1 }, .ok (some rkn))
              else ({ st2 with h := h3, resnorms := st2.resnorms ++ [rkn / y.nb] }, .ok (some rkn))
            else ({ st2 with h := h3, resnorms := st2.resnorms ++ [rkn / y.nb] }, .ok (some rkn))) := by
            simp only [o, hFinalize, hW, if_pos hc, hN, hR]
          have habs : ({ st1.abs val with xk := some (st2.h.mem x), resnorms := (st1.abs val).resnorms ++ [rkn / (mkCfg s (a.val m0)).MMlbNorm] } : St ℝ E T) =
              HSt.abs val { st2 with h := h3, resnorms := st2.resnorms ++ [rkn / y.nb] } := by
            unfold HSt.abs
            dsimp only
            rw [(hs.inv_ext ok2.inv e3).2, hval2, hx2, Option.map_some, e3.mem x hxl, hi2, hr2, hw2, hen2, r.nb]
            rfl
          have hsok : ∀ w, StOK Inv X ({ st2 with h := h3, resnorms := st2.resnorms ++ [rkn / y.nb], warnings := w } : HSt E S) :=
            fun w => ⟨ok3.1.inv, ok3.1.xk⟩
          rw [hrn]
          dsimp only
          rw [habs, ho]
          have c2 : (mkCfg s (a.val m0)).MMlbNorm = y.nb := r.nb.symm
          unfold finDone
          rw [c2]
          change _ ∧ (if a.tol < rkn / y.nb then if st2.iter + 1 = a.maxiter then _ else
            if ¬ a.explicitResidual ∧ rn / y.nb ≤ a.tol then _ else _ else _) = _
          split
          · split
            · exact ⟨hsok _, rfl⟩
            · split
              · exact ⟨hsok _, rfl⟩
              · exact ⟨hsok _, rfl⟩
          · exact ⟨hsok _, rfl⟩
    · have ho : o = ({ st1 with resnorms := st1.resnorms ++ [rn / y.nb] }, .ok none) := by
        simp only [o, hFinalize, hW, if_neg hc]
      rw [ho, if_neg hc]
      refine ⟨⟨ok1.inv, ok1.xk⟩, ?_⟩
      rw [r.nb]
      rfl

theorem hBody_spec (hs : HSim n m0 m m₂ val Inv X) (r : SysRepW n m0 s y) (hex : ∀ e, a.exact = some e → e < n)
    {st : HSt E S} (ok : StOK Inv X st) :
    let o := hBody y a m st
    Fr n m0 o.1.h ∧ ((∀ e, o.2 ≠ .raised e) → StOK Inv X o.1) ∧
      body (mkCfg s (a.val m0)) m₂ (st.abs val) = match o.2 with
        | .raised e => .raised e
        | .convergence => .convergence (o.1.abs val)
        | .ok _ => .ok (o.1.abs val) := by
  intro o
  have hfr := hs.step_fr ok.inv
  have herr := fun e => hs.step_err (e := e) ok.inv
  have hok := fun s' q => hs.step_ok (s' := s') (r := q) ok.inv
  have hk : m₂.k (val st.h st.s) = m.k st.s := hs.k ok.inv
  cases hS : m.step st.h st.s with
  | mk h1 res =>
  rw [hS] at hfr herr hok
  dsimp only at hfr herr hok
  cases res with
  | error e =>
    have ho : o = ({ st with h := h1, iter := m.k st.s }, .raised e) := by simp only [o, hBody, hS]
    rw [ho]
    refine ⟨hfr, fun h => absurd rfl (h e), ?_⟩
    unfold body
    have := herr e rfl
    dsimp only [HSt.abs]
    rw [this]
  | ok t =>
    obtain ⟨s', q⟩ := t
    obtain ⟨hst, hinv⟩ := hok s' q rfl
    have ok1 : StOK Inv X ({ st with h := h1, s := s', iter := m.k st.s, xk := none } : HSt E S) := ⟨hinv, by simp⟩
    obtain ⟨ok2, hf⟩ := hFinalize_spec hs r hex ok1 q
    have hx : hFinalize y a m q ({ st with h := h1, s := s', iter := m.k st.s, xk := none } : HSt E S) =
      hFinalize y a m q ({ st with h := h1, s := s', iter := m.k st.s } : HSt E S) :=
      hFinalize_xk q ({ st with h := h1, s := s', iter := m.k st.s } : HSt E S) none
    rw [hx] at ok2 hf
    have hb : body (mkCfg s (a.val m0)) m₂ (st.abs val) =
        match finalizeIteration (mkCfg s (a.val m0)) (m₂.getXk (val h1 s')) q
          (HSt.abs val ({ st with h := h1, s := s', iter := m.k st.s, xk := none } : HSt E S)) with
        | .raised e => .raised e
        | .convergence st => .convergence st
        | .ok (st, rkn) => .ok { st with s := m₂.post st.s rkn, iter := if m₂.countAfter then st.iter + 1 else st.iter } := by
      unfold body
      dsimp only [HSt.abs]
      rw [hst, hk]
      dsimp only
      rw [← finalizeIteration_xk _ _ _ _ none]
      dsimp only [Option.map_none]
      cases finalizeIteration (mkCfg s (a.val m0)) (m₂.getXk (val h1 s')) q
        ⟨val h1 s', m.k st.s, none, st.resnorms, st.errnorms, st.warnings⟩ <;> rfl
    rw [hb, hf]
    cases hF : hFinalize y a m q ({ st with h := h1, s := s', iter := m.k st.s } : HSt E S) with
    | mk st2 res2 =>
    rw [hF] at ok2
    dsimp only at ok2
    cases res2 with
    | raised e =>
      have ho : o = (st2, .raised e) := by simp only [o, hBody, hS, hF]
      rw [ho]
      exact ⟨hs.fr ok2.inv, fun h => absurd rfl (h e), rfl⟩
    | convergence =>
      have ho : o = (st2, .convergence) := by simp only [o, hBody, hS, hF]
      rw [ho]
      exact ⟨hs.fr ok2.inv, fun _ => ok2, rfl⟩
    | ok rkn =>
      have ho : o = ({ st2 with s := m.post st2.s rkn, iter := if m.countAfter then st2.iter + 1 else st2.iter }, .ok none) := by
        simp only [o, hBody, hS, hF]
      obtain ⟨hp1, hp2⟩ := hs.post rkn ok2.inv
      rw [ho]
      refine ⟨hs.fr ok2.inv, fun _ => ⟨hp1, ok2.xk⟩, ?_⟩
      dsimp only [HSt.abs]
      rw [hp2, hs.count]

/-- How a run with memory ends, as a result of the value model. -/
def HEnd.outcome (val : Heap E → S → T) (o : HSt E S × HEnd) : Outcome (St ℝ E T) :=
  match o.2 with
  | .returned => .returned (o.1.abs val)
  | .convergence => .convergence (o.1.abs val)
  | .raised e => .raised e
  | .outOfFuel => .outOfFuel

theorem hFinish_spec (hs : HSim n m0 m m₂ val Inv X) {st : HSt E S} (ok : StOK Inv X st) :
    Fr n m0 (hFinish m st).1.h ∧ (∀ x, (hFinish m st).1.xk = some x → X x ∧ x < (hFinish m st).1.h.next) ∧
      finish m₂ (st.abs val) = HEnd.outcome val (hFinish m st) := by
  have hn := hNeedXk_spec hs ok
  cases hN : hNeedXk m st with
  | mk st2 res2 =>
  rw [hN] at hn
  obtain ⟨ok2, e2, hs2, hi2, hr2, hw2, hen2, hv2, hx2, hx3⟩ := hn
  dsimp only at ok2 e2 hs2 hi2 hr2 hw2 hen2 hv2 hx2 hx3
  have hval2 : val st2.h st2.s = val st.h st.s := by rw [hs2]; exact (hs.inv_ext ok.inv e2).2
  unfold hFinish
  rw [hN]
  cases res2 with
  | error e =>
    refine ⟨hs.fr ok2.inv, fun x hx => (ok2.xk x hx).symm, ?_⟩
    have hx := hx3 e rfl
    have hxa : (st.abs val).xk = none := by simp [HSt.abs, hx]
    rw [hxa] at hv2
    dsimp only at hv2
    unfold finish
    rw [hxa]
    change (match m₂.getXk (val st.h st.s) with | .error e => _ | .ok x => _) = _
    rw [hv2]
    rfl
  | ok x =>
    refine ⟨hs.fr ok2.inv, fun x hx => (ok2.xk x hx).symm, ?_⟩
    have hx2 := hx2 x rfl
    dsimp only at hv2
    have habs : HSt.abs val st2 = { st.abs val with xk := some (st2.h.mem x) } := by
      unfold HSt.abs
      rw [hval2, hi2, hr2, hw2, hen2, hx2]
      rfl
    change _ = Outcome.returned (HSt.abs val st2)
    rw [habs]
    unfold finish
    cases hxa : (st.abs val).xk with
    | some z =>
      rw [hxa] at hv2
      dsimp only at hv2 ⊢
      rw [← Except.ok.inj hv2, ← hxa]
    | none =>
      rw [hxa] at hv2
      dsimp only at hv2 ⊢
      change (match m₂.getXk (val st.h st.s) with | .error e => _ | .ok x => _) = _
      rw [hv2]

theorem hLoop_spec (hs : HSim n m0 m m₂ val Inv X) (r : SysRepW n m0 s y) (hex : ∀ e, a.exact = some e → e < n) (fuel : ℕ) :
    ∀ {st : HSt E S}, StOK Inv X st →
    Fr n m0 (hLoop y a m fuel st).1.h ∧
      (∀ x, (hLoop y a m fuel st).2 = .returned ∨ (hLoop y a m fuel st).2 = .convergence →
        (hLoop y a m fuel st).1.xk = some x → X x ∧ x < (hLoop y a m fuel st).1.h.next) ∧
      loop (mkCfg s (a.val m0)) m₂ fuel (st.abs val) = HEnd.outcome val (hLoop y a m fuel st) := by
  induction fuel with
  | zero =>
    intro st ok
    have hg : loopGuard (mkCfg s (a.val m0)) m₂ (st.abs val) =
        ((st.resnorms.getLast?.any fun r => decide (a.tol < r)) && m.more st.s) := by
      unfold loopGuard
      rw [← hs.more ok.inv]
      rfl
    unfold hLoop loop
    rw [hg]
    split
    · exact ⟨hs.fr ok.inv, fun x h => by rcases h with h | h <;> simp at h, rfl⟩
    · obtain ⟨h1, h2, h3⟩ := hFinish_spec hs ok
      exact ⟨h1, fun x _ hx => h2 x hx, h3⟩
  | succ fuel ih =>
    intro st ok
    have hg : loopGuard (mkCfg s (a.val m0)) m₂ (st.abs val) =
        ((st.resnorms.getLast?.any fun r => decide (a.tol < r)) && m.more st.s) := by
      unfold loopGuard
      rw [← hs.more ok.inv]
      rfl
    unfold hLoop loop
    rw [hg]
    split
    · obtain ⟨b1, b2, b3⟩ := hBody_spec hs r hex ok
      dsimp only
      rw [b3]
      cases hB : hBody y a m st with
      | mk st2 res2 =>
      rw [hB] at b1 b2
      dsimp only at b1 b2
      cases res2 with
      | raised e => exact ⟨b1, fun x h => by rcases h with h | h <;> simp at h, rfl⟩
      | convergence => exact ⟨b1, fun x _ hx => ((b2 (by simp)).xk x hx).symm, rfl⟩
      | ok q => exact ih (b2 (by simp))
    · obtain ⟨h1, h2, h3⟩ := hFinish_spec hs ok
      exact ⟨h1, fun x _ hx => h2 x hx, h3⟩

/-- Result of a solver call with memory as a result of the value model. -/
def hOutcome (val : Heap E → S → T) : Except Err (HSt E S × HEnd) → Outcome (St ℝ E T)
  | .error e => .raised e
  | .ok o => HEnd.outcome val o

theorem hRun_spec (hs : HSim n m0 m m₂ val Inv X) (r : SysRepW n m0 s y) (hex : ∀ e, a.exact = some e → e < n) {h : Heap E}
    (f : Fr n m0 h) {x0 : ℕ} (hx0 : x0 < h.next) {v : E} (hv : h.mem x0 = if y.nb = 0 then 0 else v) (hX : y.nb = 0 → X x0)
    {r0 : ℝ} {init : Heap E → Heap E × Except Err S} {mkS : E → T}
    (hinit : ∀ h', h.Ext h' → ∃ s', (init h').2 = .ok s' ∧ h'.Ext (init h').1 ∧ Inv (init h').1 s' ∧
      val (init h').1 s' = mkS (h.mem x0)) :
    Fr n m0 (hRun y a m x0 r0 init h).1 ∧
      (∀ st e, (hRun y a m x0 r0 init h).2 = .ok (st, e) → st.h = (hRun y a m x0 r0 init h).1 ∧
        ∀ x, e = .returned ∨ e = .convergence → st.xk = some x → X x ∧ x < st.h.next) ∧
      run (mkCfg s (a.val m0)) m₂ v r0 mkS .ok = hOutcome val (hRun y a m x0 r0 init h).2 := by
  have hb : ((mkCfg s (a.val m0)).MMlbNorm == 0) = decide (y.nb = 0) := by
    rw [r.nb]
    rfl
  -- the initial error norm
  have hE : ∃ h1 res, hInitErr y a x0 h = (h1, res) ∧ h.Ext h1 ∧
      initErr (mkCfg s (a.val m0)) (.ok (h.mem x0)) = res := by
    unfold hInitErr
    cases hx : a.exact with
    | none =>
      refine ⟨h, .ok none, rfl, .refl h, ?_⟩
      simp only [initErr, mkCfg, HArgs.val, hx, Option.map_none]
    | some ex =>
      obtain ⟨e1, e2⟩ := hErr_spec y.ip ex h x0
      dsimp only
      rw [f.mem ex (hex ex hx)] at e2
      have hi : (mkCfg s (a.val m0)).errNorm = some fun x => npNorm (y.ip (m0 ex - x) (m0 ex - x)) := by
        simp only [mkCfg, HArgs.val, hx, Option.map_some, r.ip]
      unfold initErr
      rw [hi]
      dsimp only
      rw [← e2]
      cases hd : hErr y.ip ex h x0 with
      | mk h1 res =>
      rw [hd] at e1
      cases res with
      | error e => exact ⟨h1, _, rfl, e1, rfl⟩
      | ok e => exact ⟨h1, _, rfl, e1, rfl⟩
  obtain ⟨h1, res, hE1, e1, hE2⟩ := hE
  have hx : (if decide (y.nb = 0) = true then (0 : E) else v) = h.mem x0 := by
    rw [hv]
    by_cases h0 : y.nb = 0 <;> simp [h0]
  unfold hRun run
  dsimp only
  rw [hE1, hb, hx, hE2]
  cases res with
  | error e =>
    exact ⟨f.ext e1, fun st e' h => by simp at h, rfl⟩
  | ok en =>
    obtain ⟨s', i1, i2, i3, i4⟩ := hinit h1 e1
    cases hi : init h1 with
    | mk h2 res2 =>
    rw [hi] at i1 i2 i3 i4
    dsimp only at i1 i2 i3 i4
    subst i1
    dsimp only
    rw [hi]
    dsimp only
    have ok : StOK Inv X ⟨h2, s', 0, if y.nb = 0 then some x0 else none, if y.nb = 0 then [0] else [r0 / y.nb], en, 0⟩ := by
      refine ⟨i3, fun x hx => ?_⟩
      dsimp only at hx ⊢
      split at hx
      · obtain rfl := Option.some.inj hx
        exact ⟨lt_of_lt_of_le hx0 (e1.trans i2).next, hX ‹_›⟩
      · simp at hx
    obtain ⟨l1, l2, l3⟩ := hLoop_spec hs r hex a.maxiter ok
    refine ⟨l1, fun st e h => ?_, ?_⟩
    · have h := Except.ok.inj h
      rw [h] at l2
      refine ⟨by rw [h], fun x he hx => ?_⟩
      rw [h] at l1
      exact l2 x he hx
    · have habs : (HSt.abs val ⟨h2, s', 0, if y.nb = 0 then some x0 else none, if y.nb = 0 then [0] else [r0 / y.nb], en, 0⟩ : St ℝ E T) =
          ⟨mkS (h.mem x0), 0, if decide (y.nb = 0) = true then some 0 else none,
            if decide (y.nb = 0) = true then [0] else [r0 / (mkCfg s (a.val m0)).MMlbNorm], en, 0⟩ := by
        unfold HSt.abs
        dsimp only
        rw [i4]
        by_cases h0 : y.nb = 0
        · have : h2.mem x0 = 0 := by
            rw [(e1.trans i2).mem x0 hx0, hv, if_pos h0]
          simp [h0, this]
        · have hnb : (mkCfg s (a.val m0)).MMlbNorm = y.nb := r.nb.symm
          simp [h0, hnb]
      rw [habs] at l3
      exact l3

end driver

/-! ## `Cg` -/

/-- The arrays of `Cg._solve`: `yk` and `Mlrk` are owned by the solver and different from all others. -/
structure CgOwn (n : ℕ) (m0 : ℕ → E) (h : Heap E) (s : HCgSt E) : Prop where
  fr : Fr n m0 h
  x0 : s.x0 < h.next
  yk : n ≤ s.yk ∧ s.yk < h.next
  Mlrk : n ≤ s.Mlrk ∧ s.Mlrk < h.next
  MMlrk : s.MMlrk < h.next
  p : s.p < h.next
  yr : s.yk ≠ s.Mlrk
  yp : s.yk ≠ s.p
  rp : s.Mlrk ≠ s.p
  xy : s.x0 ≠ s.yk
  xr : s.x0 ≠ s.Mlrk

variable {n : ℕ} {m0 : ℕ → E}

theorem CgOwn.ext {h h' : Heap E} {s : HCgSt E} (o : CgOwn n m0 h s) (e : h.Ext h') :
    CgOwn n m0 h' s ∧ (HCgSt.val h' s : CgSt 𝕜 E) = HCgSt.val h s := by
  refine ⟨⟨o.fr.ext e, lt_of_lt_of_le o.x0 e.next, ⟨o.yk.1, lt_of_lt_of_le o.yk.2 e.next⟩,
    ⟨o.Mlrk.1, lt_of_lt_of_le o.Mlrk.2 e.next⟩, lt_of_lt_of_le o.MMlrk e.next, lt_of_lt_of_le o.p e.next, o.yr, o.yp,
    o.rp, o.xy, o.xr⟩, ?_⟩
  unfold HCgSt.val
  rw [e.mem _ o.x0, e.mem _ o.yk.2, e.mem _ o.Mlrk.2, e.mem _ o.MMlrk, e.mem _ o.p]

/-- linsys.py 626-628. -/
theorem hcgDir_spec {h : Heap E} {s : HCgSt E} (o : CgOwn n m0 h s) :
    h.Ext (hcgDir 𝕜 h s).1 ∧
      (∀ e, (hcgDir 𝕜 h s).2 = .error e → cgDir (HCgSt.val h s : CgSt 𝕜 E) = .error e) ∧
      (∀ p, (hcgDir 𝕜 h s).2 = .ok p → p < (hcgDir 𝕜 h s).1.next ∧ (p = s.p ∨ h.next ≤ p) ∧
        cgDir (HCgSt.val h s : CgSt 𝕜 E) = .ok ((hcgDir 𝕜 h s).1.mem p)) := by
  unfold hcgDir cgDir
  have hk : (HCgSt.val h s : CgSt 𝕜 E).k = s.k := rfl
  have hr : (HCgSt.val h s : CgSt 𝕜 E).rho = s.rho := rfl
  rw [hk, hr]
  split
  · split
    · exact ⟨.refl h, fun e he => by simpa using he, fun p hp => by simp at hp⟩
    · refine ⟨Heap.alloc_ext _ _, fun e he => by simp at he, fun p hp => ?_⟩
      obtain rfl := Except.ok.inj hp
      refine ⟨Heap.alloc_lt _ _, Or.inr le_rfl, ?_⟩
      dsimp only
      rw [Heap.alloc_mem]
      rfl
  · refine ⟨.refl h, fun e he => by simp at he, fun p hp => ?_⟩
    obtain rfl := Except.ok.inj hp
    exact ⟨o.p, Or.inl rfl, rfl⟩

theorem hcgStep_spec {ip : E → E → 𝕜} {Mf Bf : E →ₗ[𝕜] E} {M B : OpObj E} (hM : OpGood Mf M) (hB : OpFr n m0 Bf B) (store : Bool)
    {h : Heap E} {s : HCgSt E} (o : CgOwn n m0 h s) :
    Fr n m0 (hcgStep ip M B store h s).1 ∧
      (∀ e, (hcgStep ip M B store h s).2 = .error e → cgStep ip Mf Bf store (HCgSt.val h s) = .error e) ∧
      (∀ s' q, (hcgStep ip M B store h s).2 = .ok (s', q) →
        cgStep ip Mf Bf store (HCgSt.val h s) = .ok (HCgSt.val (hcgStep ip M B store h s).1 s', q) ∧
        CgOwn n m0 (hcgStep ip M B store h s).1 s') := by
  obtain ⟨e1, d2, d3⟩ := hcgDir_spec (𝕜 := 𝕜) o
  have hk : (HCgSt.val h s : CgSt 𝕜 E).k = s.k := rfl
  have hrho : (HCgSt.val h s : CgSt 𝕜 E).rho = s.rho := rfl
  unfold hcgStep cgStep
  cases hD : hcgDir 𝕜 h s with
  | mk h1 res =>
  rw [hD] at e1 d2 d3
  dsimp only at e1 d2 d3
  cases res with
  | error e =>
    rw [d2 e rfl]
    exact ⟨o.fr.ext e1, fun e' he => by simpa using he, fun s' q he => by simp at he⟩
  | ok p =>
    obtain ⟨pl, pc, pv⟩ := d3 p rfl
    rw [pv, hk, hrho]
    dsimp only
    obtain ⟨o1, v1⟩ := o.ext (𝕜 := 𝕜) e1
    have e2 := hB.ext _ _ o1.fr pl
    have bl := hB.lt _ _ o1.fr pl
    have bv := hB.val _ _ o1.fr pl
    have bc := hB.res _ _ o1.fr pl
    generalize hAp : B h1 p = Ap at *
    obtain ⟨o2, v2⟩ := o1.ext (𝕜 := 𝕜) e2
    have hp2 : Ap.1.mem p = h1.mem p := e2.mem p pl
    have hpl2 : p < Ap.1.next := lt_of_lt_of_le pl e2.next
    rw [hp2, bv]
    split
    · exact ⟨o2.fr, fun e' he => by simpa using he, fun s' q he => by simp at he⟩
    · split
      · exact ⟨o2.fr, fun e' he => by simpa using he, fun s' q he => by simp at he⟩
      · -- the two updates in place
        generalize hal : RCLike.re ((s.rho s.k : 𝕜) / ip (h1.mem p) (Bf (h1.mem p))) = alpha
        have py : p ≠ s.yk := by
          rcases pc with rfl | hc
          · exact o.yp.symm
          · have := o.yk.2; omega
        have pr : p ≠ s.Mlrk := by
          rcases pc with rfl | hc
          · exact o.rp.symm
          · have := o.Mlrk.2; omega
        have ay : Ap.2 ≠ s.yk := by
          rcases bc with hc | hc
          · rw [hc]; exact py
          · have := o1.yk.2; omega
        have ar : Ap.2 ≠ s.Mlrk := by
          rcases bc with hc | hc
          · rw [hc]; exact pr
          · have := o1.Mlrk.2; omega
        have vy : Ap.1.mem s.yk = h.mem s.yk := (e2.mem _ o1.yk.2).trans (e1.mem _ o.yk.2)
        have vr : Ap.1.mem s.Mlrk = h.mem s.Mlrk := (e2.mem _ o1.Mlrk.2).trans (e1.mem _ o.Mlrk.2)
        have vx : Ap.1.mem s.x0 = h.mem s.x0 := (e2.mem _ o1.x0).trans (e1.mem _ o.x0)
        generalize hw1 : Ap.1.write s.yk (Ap.1.mem s.yk + (alpha : 𝕜) • h1.mem p) = w1
        have f1 : Fr n m0 w1 := by rw [← hw1]; exact o2.fr.write o.yk.1 _
        have n1 : w1.next = Ap.1.next := by rw [← hw1]; rfl
        have m1 : ∀ i, i ≠ s.yk → w1.mem i = Ap.1.mem i := fun i hi => by
          rw [← hw1]; exact Function.update_of_ne hi _ _
        have m1y : w1.mem s.yk = h.mem s.yk + (alpha : 𝕜) • h1.mem p := by
          rw [← hw1, vy]; exact Function.update_self _ _ _
        generalize hw2 : w1.write s.Mlrk (w1.mem s.Mlrk - (alpha : 𝕜) • w1.mem Ap.2) = w2
        have f2 : Fr n m0 w2 := by rw [← hw2]; exact f1.write o.Mlrk.1 _
        have n2 : w2.next = Ap.1.next := by rw [← hw2]; exact n1
        have m2 : ∀ i, i ≠ s.Mlrk → w2.mem i = w1.mem i := fun i hi => by
          rw [← hw2]; exact Function.update_of_ne hi _ _
        have m2r : w2.mem s.Mlrk = h.mem s.Mlrk - (alpha : 𝕜) • Bf (h1.mem p) := by
          have : w2.mem s.Mlrk = w1.mem s.Mlrk - (alpha : 𝕜) • w1.mem Ap.2 := by
            rw [← hw2]; exact Function.update_self _ _ _
          rw [this, m1 _ o.yr.symm, m1 _ ay, vr, bv]
        have m2y : w2.mem s.yk = h.mem s.yk + (alpha : 𝕜) • h1.mem p := by rw [m2 _ o.yr, m1y]
        have m2p : w2.mem p = h1.mem p := by rw [m2 _ pr, m1 _ py, hp2]
        have m2x : w2.mem s.x0 = h.mem s.x0 := by rw [m2 _ o.xr, m1 _ o.xy, vx]
        have rl : s.Mlrk < w2.next := by rw [n2]; exact o2.Mlrk.2
        have e3 := hM.ext _ _ rl
        have ml := hM.lt _ _ rl
        have mv := hM.val _ _ rl
        have mc := hM.res _ _ rl
        generalize hm : M w2 s.Mlrk = m at *
        have hlt : ∀ i, i < Ap.1.next → i < m.1.next := fun i hi => lt_of_lt_of_le (by rw [n2]; exact hi) e3.next
        have hmem : ∀ i, i < Ap.1.next → m.1.mem i = w2.mem i := fun i hi => e3.mem i (by rw [n2]; exact hi)
        have gr : m.1.mem s.Mlrk = h.mem s.Mlrk - (alpha : 𝕜) • Bf (h1.mem p) := by rw [hmem _ o2.Mlrk.2, m2r]
        have gm : m.1.mem m.2 = Mf (h.mem s.Mlrk - (alpha : 𝕜) • Bf (h1.mem p)) := by rw [mv, m2r]
        have gy : m.1.mem s.yk = h.mem s.yk + (alpha : 𝕜) • h1.mem p := by rw [hmem _ o2.yk.2, m2y]
        have gp : m.1.mem p = h1.mem p := by rw [hmem _ hpl2, m2p]
        have gx : m.1.mem s.x0 = h.mem s.x0 := by rw [hmem _ o2.x0, m2x]
        rw [gr, gm]
        have hMl : (HCgSt.val h s : CgSt 𝕜 E).Mlrk = h.mem s.Mlrk := rfl
        rw [hMl]
        cases hn : npNorm (ip (h.mem s.Mlrk - (alpha : 𝕜) • Bf (h1.mem p)) (Mf (h.mem s.Mlrk - (alpha : 𝕜) • Bf (h1.mem p)))) with
        | error e => exact ⟨f2.ext e3, fun e' he => by simpa using he, fun s' q he => by simp at he⟩
        | ok nr =>
          refine ⟨f2.ext e3, fun e' he => by simp at he, fun s' q he => ?_⟩
          obtain ⟨rfl, rfl⟩ := Prod.mk.inj (Except.ok.inj he)
          refine ⟨?_, ⟨f2.ext e3, hlt _ o2.x0, ⟨o.yk.1, hlt _ o2.yk.2⟩, ⟨o.Mlrk.1, hlt _ o2.Mlrk.2⟩, ml, hlt _ hpl2, o.yr, py.symm,
            pr.symm, o.xy, o.xr⟩⟩
          unfold HCgSt.val
          dsimp only
          rw [gr, gm, gy, gp, gx]
          rfl

/-- linsys.py 423-428. -/
theorem hXk_spec {f : E → E} {Mr : OpObj E} (hMr : OpOk n m0 f Mr) {h : Heap E} (fr : Fr n m0 h) {x0 yk : ℕ} (hx : x0 < h.next) (hy : yk < h.next) :
    h.Ext (hXk Mr x0 yk h).1 ∧ (hXk Mr x0 yk h).2 < (hXk Mr x0 yk h).1.next ∧ h.next ≤ (hXk Mr x0 yk h).2 ∧
      (hXk Mr x0 yk h).1.mem (hXk Mr x0 yk h).2 = h.mem x0 + f (h.mem yk) := by
  have e1 := hMr.ext h yk fr hy
  unfold hXk
  dsimp only
  refine ⟨e1.trans (Heap.alloc_ext _ _), Heap.alloc_lt _ _, e1.next, ?_⟩
  rw [Heap.alloc_mem, hMr.val h yk fr hy, e1.mem x0 hx]

theorem hcg_sim {s : LS 𝕜 E} {y : HSys 𝕜 E} (r : SysRep n m0 s y) (store : Bool) (maxiter : ℕ) :
    HSim n m0 (hcgMethod y store maxiter) (cgMethod s.ip s.M s.hooks.op s.Mr s.hooks.post store maxiter)
      (fun h t => HCgSt.val h t) (CgOwn n m0) (fun x => n ≤ x) where
  fr o := o.fr
  more _ := rfl
  k _ := rfl
  count := rfl
  step_fr o := by
    have := (hcgStep_spec (ip := y.ip) r.M (r.good.fr n m0) store o).1
    exact this
  step_err o he := by
    have := (hcgStep_spec (ip := y.ip) r.M (r.good.fr n m0) store o).2.1 _ he
    rw [r.ip] at this
    exact this
  step_ok o he := by
    have := (hcgStep_spec (ip := y.ip) r.M (r.good.fr n m0) store o).2.2 _ _ he
    refine ⟨?_, this.2⟩
    have h1 := this.1
    have hip : cgStep y.ip s.M s.MlAMr store = cgStep s.ip s.M s.MlAMr store := by rw [r.ip]
    rw [hip] at h1
    exact h1
  xk_ext o := (hXk_spec (r.Mr.ok (n := n) (m0 := m0)) o.fr o.x0 o.yk.2).1
  xk_err o he := by simp [hcgMethod] at he
  xk_ok o he := by
    obtain ⟨e1, e2, e3, e4⟩ := hXk_spec (r.Mr.ok (n := n) (m0 := m0)) o.fr o.x0 o.yk.2
    obtain rfl := Except.ok.inj he
    refine ⟨e2, o.fr.le.trans e3, ?_⟩
    exact congrArg Except.ok e4.symm
  inv_ext o e := o.ext e
  post {h s'} q o := by
    cases q with
    | none => exact ⟨o, rfl⟩
    | some q => exact ⟨⟨o.fr, o.x0, o.yk, o.Mlrk, o.MMlrk, o.p, o.yr, o.yp, o.rp, o.xy, o.xr⟩, rfl⟩

end Krypy
