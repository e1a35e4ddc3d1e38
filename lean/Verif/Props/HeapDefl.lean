import Verif.Proofs.HeapDefl
import Verif.Props.Heap

/-!
# Property C90: aliasing and in-place updates in `qr`, projections and the deflated solvers

Continues C66.  `qr` orthogonalises a copy in place, `Projection` may store the very arrays of the caller, `DeflatedCg` works in
place on the columns of `C`.  The arrays of the caller keep their contents and the results are those of the models on values.  The
deflated solvers need less of the operators than the plain ones: they may return arrays which they keep.
-/

set_option linter.unusedSectionVars false

namespace Krypy
variable {𝕜 E : Type*} [RCLike 𝕜] [AddCommGroup E] [Module 𝕜 E] {k : ℕ}

/-! ## `qr` and `Projection` -/

/-- **C90** (`qr`).  `qr(X)` changes no array, fails as on values, and its `Q` is a new array with the contents of the model on
values. -/
theorem C90_qr (r : HQr 𝕜 E k) (X : Fin k → ℕ) (h : Heap E) :
    (∀ i < h.next, (hQr r X h).1.mem i = h.mem i) ∧
      (∀ e, (hQr r X h).2 = .error e → r.val (h.cols X) = .error e) ∧
      ∀ Q R, (hQr r X h).2 = .ok (Q, R) → r.val (h.cols X) = .ok ((hQr r X h).1.cols Q, R) ∧ ∀ j, h.next ≤ Q j := by
  obtain ⟨e, h1, h2⟩ := hQr_spec r (X := X) (h := h)
  exact ⟨e.mem, h1, fun Q R hQ => ⟨(h2 Q R hQ).1, fun j => ((h2 Q R hQ).2 j).1⟩⟩

/-- **C90** (`Projection`).  `Projection(X, Y)` changes no array and gives the projection of the model on values; the test `Y is X`
is the one on the addresses.  With `orthogonalize` (and `k > 0`) the attributes `V` and `W` are new arrays; without it they are the
arrays `X` and `Y` of the caller themselves, so a later change of those changes the projection. -/
theorem C90_projection (ip : E → E → 𝕜) (a : HOblArgs 𝕜 E k) {X Y : Fin k → ℕ} {h : Heap E} (hX : ∀ j, X j < h.next)
    (hY : ∀ j, Y j < h.next) :
    (∀ i < h.next, (hMkProj ip a X Y h).1.mem i = h.mem i) ∧
      (∀ e, (hMkProj ip a X Y h).2 = .error e →
        mkProj ip a.rt (h.cols X) (if Y = X then none else some (h.cols Y)) a.orthogonalize a.iterations = .error e) ∧
      ∀ p, (hMkProj ip a X Y h).2 = .ok p →
        mkProj ip a.rt (h.cols X) (if Y = X then none else some (h.cols Y)) a.orthogonalize a.iterations =
          .ok (p.val (hMkProj ip a X Y h).1) ∧
        (a.orthogonalize = true → ∀ j, h.next ≤ p.V j ∧ h.next ≤ p.W j) ∧
        (a.orthogonalize = false → p.V = X ∧ p.W = Y) := by
  obtain ⟨e, h1, h2⟩ := hMkProj_spec ip a hX hY
  refine ⟨e.mem, h1, fun p hp => ⟨(h2 p hp).1, fun ho => ?_, fun ho => ?_⟩⟩
  · unfold hMkProj at hp
    split at hp
    · simp at hp
    · split at hp
      · rename_i hk
        intro j
        exact absurd j.2 (by omega)
      · obtain ⟨q1, -, q3⟩ := hQr_spec a.qr (X := X) (h := h)
        cases hL : hQr a.qr X h with
        | mk h' res =>
        rw [hL] at hp q1 q3
        cases res with
        | error e => simp at hp
        | ok t =>
          obtain ⟨V, VR⟩ := t
          have q4 := (q3 V VR rfl).2
          dsimp only at hp
          split at hp
          · obtain rfl := Except.ok.inj hp
            exact fun j => ⟨(q4 j).1, (q4 j).1⟩
          · obtain ⟨-, -, w3⟩ := hQr_spec a.qr (X := Y) (h := h')
            cases hL2 : hQr a.qr Y h' with
            | mk h'' res2 =>
            rw [hL2] at hp w3
            cases res2 with
            | error e => simp at hp
            | ok t =>
              obtain ⟨W, WR⟩ := t
              have w4 := (w3 W WR rfl).2
              obtain rfl := Except.ok.inj hp
              exact fun j => ⟨(q4 j).1, q1.next.trans (w4 j).1⟩
  · unfold hMkProj at hp
    split at hp
    · simp at hp
    · split at hp
      · rename_i hk
        exact ⟨funext fun j => absurd j.2 (by omega), funext fun j => absurd j.2 (by omega)⟩
      · rw [if_neg (by simp [ho])] at hp
        obtain rfl := Except.ok.inj hp
        exact ⟨rfl, rfl⟩

/-! ## Systems whose operators may keep arrays -/

variable {A M Ml Mr : E →ₗ[𝕜] E} {oA oMl oMr : OpObj E} {oM : Option (OpObj E)} {ip : E → E → 𝕜}

/-- The weaker assumptions: `A`, `Ml` and `Mr` may return any array with the right contents, and may rely on the arrays which
exist when the system is constructed. -/
structure UserSysW (A M Ml Mr : E →ₗ[𝕜] E) (oA : OpObj E) (oM : Option (OpObj E)) (oMl oMr : OpObj E) (h : Heap E) (b : ℕ) :
    Prop where
  A : OpOk h.next h.mem A oA
  M : OpGood M (oM.getD idObj)
  Ml : OpOk h.next h.mem Ml oMl
  Mr : OpOk h.next h.mem Mr oMr
  b : b < h.next

theorem UserSys.weak {h : Heap E} {b : ℕ} (u : UserSys A M Ml Mr oA oM oMl oMr h b) : UserSysW A M Ml Mr oA oM oMl oMr h b :=
  ⟨u.A.ok, u.M, u.Ml.ok, u.Mr.ok, u.b⟩

theorem hMkSys_specW {h : Heap E} {b : ℕ} (u : UserSysW A M Ml Mr oA oM oMl oMr h b) (normal : Option Bool) (sa pd : Bool) :
    h.Ext (hMkSys h oA oM oMl oMr ip b).1 ∧
      (∀ e, (hMkSys h oA oM oMl oMr ip b).2 = .error e → mkLS ⟨A, h.mem b, M, Ml, Mr, ip, normal, sa, pd⟩ = .error e) ∧
      (∀ y, (hMkSys h oA oM oMl oMr ip b).2 = .ok y → ∃ s, mkLS ⟨A, h.mem b, M, Ml, Mr, ip, normal, sa, pd⟩ = .ok s ∧
        s.ip = ip ∧ SysRepW (hMkSys h oA oM oMl oMr ip b).1.next (hMkSys h oA oM oMl oMr ip b).1.mem s y) := by
  have f := Fr.here h
  have e1 := u.Ml.ext h b f u.b
  have v1 := u.Ml.val h b f u.b
  have l1 := u.Ml.lt h b f u.b
  have hmk : mkLS ⟨A, h.mem b, M, Ml, Mr, ip, normal, sa, pd⟩ = match npNorm (ip (Ml (h.mem b)) (M (Ml (h.mem b)))) with
      | .error e => .error e
      | .ok nb => .ok ⟨A, h.mem b, M, Ml, Mr, ip, Ml.comp (A.comp Mr), if sa then true else normal.getD false, sa, pd,
          Ml (h.mem b), M (Ml (h.mem b)), nb⟩ := by
    unfold mkLS
    cases sa <;> simp <;> cases npNorm (ip (Ml (h.mem b)) (M (Ml (h.mem b)))) <;> rfl
  rw [hmk]
  unfold hMkSys
  dsimp only
  generalize oMl h b = r at *
  have e2 := u.M.ext r.1 r.2 l1
  have v2 := u.M.val r.1 r.2 l1
  have l2 := u.M.lt r.1 r.2 l1
  generalize (oM.getD idObj) r.1 r.2 = t at *
  have hl : t.1.mem r.2 = Ml (h.mem b) := (e2.mem _ l1).trans v1
  have hm : t.1.mem t.2 = M (Ml (h.mem b)) := by rw [v2, v1]
  rw [hl, hm]
  have g := f.ext (e1.trans e2)
  cases npNorm (ip (Ml (h.mem b)) (M (Ml (h.mem b)))) with
  | error e =>
    exact ⟨e1.trans e2, fun e' he => by simpa using he, fun y he => by simp at he⟩
  | ok nb =>
    refine ⟨e1.trans e2, fun e' he => by simp at he, fun y he => ?_⟩
    obtain rfl := Except.ok.inj he
    exact ⟨_, rfl, rfl, ⟨u.A.later g, u.M, u.Ml.later g, u.Mr.later g, rfl, rfl,
      ⟨lt_of_lt_of_le u.b (e1.trans e2).next, (e1.trans e2).mem b u.b⟩, ⟨lt_of_lt_of_le l1 e2.next, hl⟩, ⟨l2, hm⟩, rfl, rfl⟩⟩

theorem SysRepW.later {n : ℕ} {m0 : ℕ → E} {s : LS 𝕜 E} {y : HSys 𝕜 E} (r : SysRepW n m0 s y) {h : Heap E} (f : Fr n m0 h) :
    SysRepW h.next h.mem s y :=
  ⟨r.A.later f, r.M, r.Ml.later f, r.Mr.later f, r.ip, r.op, ⟨lt_of_lt_of_le r.b.1 f.le, (f.mem _ r.b.1).trans r.b.2⟩,
    ⟨lt_of_lt_of_le r.Mlb.1 f.le, (f.mem _ r.Mlb.1).trans r.Mlb.2⟩,
    ⟨lt_of_lt_of_le r.MMlb.1 f.le, (f.mem _ r.MMlb.1).trans r.MMlb.2⟩, r.nb, r.MM⟩

section calls
variable {h : Heap E} {b : ℕ} {h₁ : Heap E} {y : HSys 𝕜 E} {g : Heap E} {a : HArgs} {oa : HOblArgs 𝕜 E k} {U : Fin k → ℕ}

theorem defl_setup (u : UserSysW A M Ml Mr oA oM oMl oMr h b) (hy : hMkSys h oA oM oMl oMr ip b = (h₁, .ok y)) (e : h₁.Ext g)
    (normal : Option Bool) (sa pd : Bool) :
    ∃ s, mkLS ⟨A, h.mem b, M, Ml, Mr, ip, normal, sa, pd⟩ = .ok s ∧ s.ip = ip ∧ SysRepW g.next g.mem s y := by
  obtain ⟨-, -, hok⟩ := hMkSys_specW (ip := ip) u normal sa pd
  rw [hy] at hok
  obtain ⟨s, hs, hip, r⟩ := hok y rfl
  exact ⟨s, hs, hip, r.later ((Fr.here h₁).ext e)⟩

/-- **C90** (`ObliqueProjection`).  The construction changes no array.  The attribute `U` is a new array, so later changes of the
array passed by the caller do not matter; `AU` has the contents `Ml A Mr U`.  The result is that of the model on values, where
`Projection` takes `Y is X` to be true exactly if the operator returned the array `U` itself. -/
theorem C90_oblique (u : UserSysW A M Ml Mr oA oM oMl oMr h b) (hy : hMkSys h oA oM oMl oMr ip b = (h₁, .ok y)) (e : h₁.Ext g)
    (oa : HOblArgs 𝕜 E k) (U : Fin k → ℕ) (normal : Option Bool) (sa pd : Bool) :
    ∃ s, mkLS ⟨A, h.mem b, M, Ml, Mr, ip, normal, sa, pd⟩ = .ok s ∧
      (∀ i < g.next, (hMkObl y oa U g).1.mem i = g.mem i) ∧
      (∀ e, (hMkObl y oa U g).2 = .error e → ∃ same, mkObl s (oa.val same) (g.cols U) = .error e) ∧
      ∀ o, (hMkObl y oa U g).2 = .ok o → (∀ j, g.next ≤ o.U j) ∧
        ∃ v, mkObl s (oa.val (decide (o.U = o.AU))) (g.cols U) = .ok v ∧
          (hMkObl y oa U g).1.cols o.U = v.U ∧ (hMkObl y oa U g).1.cols o.AU = v.AU ∧ o.proj.val (hMkObl y oa U g).1 = v.proj ∧
          ∀ j, v.AU j = Ml (A (Mr (v.U j))) := by
  obtain ⟨s, hs, -, r⟩ := defl_setup u hy e normal sa pd
  obtain ⟨e1, h1, h2⟩ := hMkObl_spec r oa (U := U) (Fr.here g)
  refine ⟨s, hs, e1.mem, h1, fun o ho => ?_⟩
  obtain ⟨v, v1, v2, v3, v4, v5⟩ := h2 o ho
  refine ⟨fun j => (v5 j).2.2, v, v1, v3, v4, v2.val, ?_⟩
  have hop : s.MlAMr = Ml.comp (A.comp Mr) := by
    unfold mkLS at hs
    dsimp only at hs
    repeat' split at hs
    all_goals first
      | (obtain rfl := Except.ok.inj hs; rfl)
      | simp at hs
  unfold mkObl at v1
  split at v1
  · simp at v1
  · dsimp only at v1
    split at v1
    · simp at v1
    · rw [← Except.ok.inj v1]
      intro j
      dsimp only
      rw [hop]
      rfl

/-- **C90** (`Y is X`).  If the operators always make new arrays then `AU` is not `U`; if all of them are identity operators then it
is (and `Projection` orthogonalises only once). -/
theorem C90_same (y : HSys 𝕜 E) (oa : HOblArgs 𝕜 E k) (U : Fin k → ℕ) (g : Heap E) (o : HObl 𝕜 k)
    (ho : (hMkObl y oa U g).2 = .ok o) :
    ((∀ h a, a < h.next → h.next ≤ (y.op h a).2 ∧ h.Ext (y.op h a).1) → 0 < k → o.U ≠ o.AU) ∧
      (y.op = idObj → o.AU = o.U) := by
  unfold hMkObl at ho
  obtain ⟨-, -, q3⟩ := hQr_spec oa.qrM (X := U) (h := g)
  cases hL : hQr oa.qrM U g with
  | mk h1 res =>
  rw [hL] at ho q3
  cases res with
  | error e => simp at ho
  | ok t =>
    obtain ⟨U', R⟩ := t
    have q4 := (q3 U' R rfl).2
    dsimp only at ho q4
    split at ho
    · simp at ho
    · obtain rfl := Except.ok.inj ho
      dsimp only
      constructor
      · intro hn hk heq
        have key : ∀ i ≤ k, h1.Ext (hOpCols y.op U' i h1).1 ∧ ∀ j < i, h1.next ≤ (hOpCols y.op U' i h1).2 j := by
          intro i
          induction i with
          | zero => exact fun _ => ⟨.refl h1, fun j hj => absurd hj (by omega)⟩
          | succ i ih =>
            intro hi
            obtain ⟨i1, i2⟩ := ih (by omega)
            unfold hOpCols
            simp only [dif_pos (show i < k by omega)]
            obtain ⟨n1, n2⟩ := hn (hOpCols y.op U' i h1).1 (U' ⟨i, by omega⟩) (lt_of_lt_of_le (q4 _).2 i1.next)
            refine ⟨i1.trans n2, fun j hj => ?_⟩
            by_cases hji : j = i
            · rw [hji, Function.update_self]
              exact i1.next.trans n1
            · rw [Function.update_of_ne hji]
              exact i2 j (by omega)
        have h1 := (key k le_rfl).2 0 hk
        have h2 := congrFun heq ⟨0, hk⟩
        have h3 := (q4 ⟨0, hk⟩).2
        dsimp only at h2
        omega
      · intro hid
        have key : ∀ i ≤ k, ∀ j : Fin k, (j : ℕ) < i → (hOpCols y.op U' i h1).2 j = U' j := by
          intro i
          induction i with
          | zero => exact fun _ j hj => absurd hj (by omega)
          | succ i ih =>
            intro hi j hj
            unfold hOpCols
            simp only [dif_pos (show i < k by omega)]
            by_cases hji : (j : ℕ) = i
            · rw [hji, Function.update_self, hid]
              exact congrArg U' (Fin.ext hji.symm)
            · rw [Function.update_of_ne hji]
              exact ih (by omega) j (by omega)
        funext j
        exact key k le_rfl j j.2

/-! ## The deflated solvers -/

/-- The value-level outcome of a constructor of a deflated solver (deflation.py 93-126). -/
def deflOutcome {T : Type*} (o : Except Err (Obl 𝕜 E k)) (f : Obl 𝕜 E k → Outcome T) : Outcome T :=
  match o with
  | .error e => .raised e
  | .ok o => f o

theorem defl_call {S T : Type*} {val : Heap E → S → T} {s : LS 𝕜 E} (r : SysRepW g.next g.mem s y)
    (H : Heap E → HProj 𝕜 k → Heap E × Except Err (HSt E S × HEnd)) (V : Obl 𝕜 E k → (ℕ → E) → Outcome (St ℝ E T))
    (hV : ∀ o m, (∀ i < g.next, m i = g.mem i) → V o m = V o g.mem)
    (hH : ∀ {h' : Heap E} {p : HProj 𝕜 k} {o : Obl 𝕜 E k}, g.Ext h' → SysRepW h'.next h'.mem s y → ProjRep h'.next h'.mem p o.proj →
      HCall h'.next h'.mem val (fun x => h'.next ≤ x) (H h' p) (V o h'.mem))
    {w : Heap E × Except Err (HSt E S × HEnd)}
    (hw : w = match hMkObl y oa U g with | (h, .error e) => (h, .error e) | (h, .ok o) => H h o.proj) :
    (∀ i < g.next, w.1.mem i = g.mem i) ∧ g.next ≤ w.1.next ∧
    (∃ same, (∀ o, (hMkObl y oa U g).2 = .ok o → same = decide (o.U = o.AU)) ∧
        hOutcome val w.2 = deflOutcome (mkObl s (oa.val same) (g.cols U)) fun o => V o g.mem) ∧
      ∀ st e, w.2 = .ok (st, e) → st.h = w.1 ∧
        ∀ x, e = .returned ∨ e = .convergence → st.xk = some x → g.next ≤ x ∧ x < st.h.next := by
  obtain ⟨e1, h1, h2⟩ := hMkObl_spec r oa (U := U) (Fr.here g)
  cases hL : hMkObl y oa U g with
  | mk h' res =>
  rw [hL] at hw e1 h1 h2
  dsimp only at e1 h1 h2
  cases res with
  | error er =>
    subst hw
    obtain ⟨same, hs⟩ := h1 er rfl
    refine ⟨e1.mem, e1.next, ⟨same, fun o ho => by simp at ho, ?_⟩, fun st e he => by simp at he⟩
    rw [hs]
    rfl
  | ok o =>
    subst hw
    obtain ⟨v, v1, v2, v3, v4, v5⟩ := h2 o rfl
    have c := hH e1 (r.later ((Fr.here g).ext e1)) v2
    refine ⟨fun i hi => ?_, e1.next.trans c.fr.le, ⟨decide (o.U = o.AU), fun o' ho => ?_, ?_⟩, fun st e he => ?_⟩
    · exact (c.fr.mem i (lt_of_lt_of_le hi e1.next)).trans (e1.mem i hi)
    · rw [← Except.ok.inj ho]
    · rw [v1]
      exact c.eq.symm.trans (hV v h'.mem e1.mem)
    · exact ⟨(c.xk st e he).1, fun x hx hx' => ⟨e1.next.trans ((c.xk st e he).2 x hx hx').1, ((c.xk st e he).2 x hx hx').2⟩⟩

theorem HArgs.val_congr (u : UserArgs g a) {m : ℕ → E} (hm : ∀ i < g.next, m i = g.mem i) : a.val m = a.val g.mem := by
  unfold HArgs.val
  have h1 : a.x0.map m = a.x0.map g.mem := by
    cases hx : a.x0 with
    | none => rfl
    | some x => simp [hm x (u.x0 x hx)]
  have h2 : a.exact.map m = a.exact.map g.mem := by
    cases hx : a.exact with
    | none => rfl
    | some x => simp [hm x (u.exact x hx)]
  rw [h1, h2]

/-- **C90** (`DeflatedCg`).  Let the memory `g` be any extension of the one in which the system was constructed (e.g. after other
calls).  `DeflatedCg` changes no array of `g` (among them `b`, `x0`, `U`, the exact solution, the attributes of the system, the
iterates of earlier solvers and arrays which the operators keep), ends as the model on values does, with the same attributes
(including `C` and `_UAps`), and the iterate is a new array. -/
theorem C90_cg (u : UserSysW A M Ml Mr oA oM oMl oMr h b) (hip : IsInner ip) (hy : hMkSys h oA oM oMl oMr ip b = (h₁, .ok y))
    (e : h₁.Ext g) (ua : UserArgs g a) (oa : HOblArgs 𝕜 E k) (U : Fin k → ℕ) (store : Bool) (normal : Option Bool) (sa pd : Bool) :
    ∃ s, mkLS ⟨A, h.mem b, M, Ml, Mr, ip, normal, sa, pd⟩ = .ok s ∧
      (∀ i < g.next, (hDeflatedCg y oa U store a g).1.mem i = g.mem i) ∧ g.next ≤ (hDeflatedCg y oa U store a g).1.next ∧
      (∃ same, (∀ o, (hMkObl y oa U g).2 = .ok o → same = decide (o.U = o.AU)) ∧
        hOutcome (fun h t => (HCgSt.val h t.1, t.2.abs)) (hDeflatedCg y oa U store a g).2 =
          deflOutcome (mkObl s (oa.val same) (g.cols U)) fun o => deflatedCg s o store (a.val g.mem)) ∧
      ∀ st e, (hDeflatedCg y oa U store a g).2 = .ok (st, e) → st.h = (hDeflatedCg y oa U store a g).1 ∧
        ∀ x, e = .returned ∨ e = .convergence → st.xk = some x → g.next ≤ x ∧ x < st.h.next := by
  obtain ⟨s, hs, hsi, r⟩ := defl_setup u hy e normal sa pd
  refine ⟨s, hs, defl_call r (fun h p => hDeflCg y p store a h) (fun o m => deflatedCg s o store (a.val m))
    (fun o m hm => by rw [HArgs.val_congr ua hm]) (fun e' r' q => ?_) rfl⟩
  exact hDeflCg_spec r' q (hsi ▸ hip) (fun x hx => lt_of_lt_of_le (ua.exact x hx) e'.next)
    (fun x hx => lt_of_lt_of_le (ua.x0 x hx) e'.next) (Fr.here _) store

/-- **C90** (`DeflatedGmres`).  As `C90_cg`.  Unlike `Gmres` (`C66_gmres_alias`) the iterate is never the array `x0`. -/
theorem C90_gmres (u : UserSysW A M Ml Mr oA oM oMl oMr h b) (hip : IsInner ip) (hy : hMkSys h oA oM oMl oMr ip b = (h₁, .ok y))
    (e : h₁.Ext g) (ua : UserArgs g a) (oa : HOblArgs 𝕜 E k) (U : Fin k → ℕ) (ortho : Ortho) (normal : Option Bool) (sa pd : Bool) :
    ∃ s, mkLS ⟨A, h.mem b, M, Ml, Mr, ip, normal, sa, pd⟩ = .ok s ∧
      (∀ i < g.next, (hDeflatedGmres y oa U ortho a g).1.mem i = g.mem i) ∧ g.next ≤ (hDeflatedGmres y oa U ortho a g).1.next ∧
      (∃ same, (∀ o, (hMkObl y oa U g).2 = .ok o → same = decide (o.U = o.AU)) ∧
        hOutcome (fun h t => (HGmresSt.val a.maxiter h t.1, t.2)) (hDeflatedGmres y oa U ortho a g).2 =
          deflOutcome (mkObl s (oa.val same) (g.cols U)) fun o => deflatedGmres s o ortho (a.val g.mem)) ∧
      ∀ st e, (hDeflatedGmres y oa U ortho a g).2 = .ok (st, e) → st.h = (hDeflatedGmres y oa U ortho a g).1 ∧
        ∀ x, e = .returned ∨ e = .convergence → st.xk = some x → g.next ≤ x ∧ x < st.h.next := by
  obtain ⟨s, hs, hsi, r⟩ := defl_setup u hy e normal sa pd
  refine ⟨s, hs, defl_call r (fun h p => hDeflGmres y p ortho a h) (fun o m => deflatedGmres s o ortho (a.val m))
    (fun o m hm => by rw [HArgs.val_congr ua hm]) (fun e' r' q => ?_) rfl⟩
  exact hDeflGmres_spec r' q (hsi ▸ hip) (fun x hx => lt_of_lt_of_le (ua.exact x hx) e'.next)
    (fun x hx => lt_of_lt_of_le (ua.x0 x hx) e'.next) (Fr.here _) ortho

/-- **C90** (`DeflatedMinres`).  As `C90_cg`. -/
theorem C90_minres (u : UserSysW A M Ml Mr oA oM oMl oMr h b) (hip : IsInner ip) (hy : hMkSys h oA oM oMl oMr ip b = (h₁, .ok y))
    (e : h₁.Ext g) (ua : UserArgs g a) (oa : HOblArgs 𝕜 E k) (U : Fin k → ℕ) (ortho : Ortho) (normal : Option Bool) (sa pd : Bool) :
    ∃ s, mkLS ⟨A, h.mem b, M, Ml, Mr, ip, normal, sa, pd⟩ = .ok s ∧
      (∀ i < g.next, (hDeflatedMinres y oa U ortho a g).1.mem i = g.mem i) ∧ g.next ≤ (hDeflatedMinres y oa U ortho a g).1.next ∧
      (∃ same, (∀ o, (hMkObl y oa U g).2 = .ok o → same = decide (o.U = o.AU)) ∧
        hOutcome (fun h t => (HMinresSt.val a.maxiter h t.1, t.2)) (hDeflatedMinres y oa U ortho a g).2 =
          deflOutcome (mkObl s (oa.val same) (g.cols U)) fun o => deflatedMinres s o ortho (a.val g.mem)) ∧
      ∀ st e, (hDeflatedMinres y oa U ortho a g).2 = .ok (st, e) → st.h = (hDeflatedMinres y oa U ortho a g).1 ∧
        ∀ x, e = .returned ∨ e = .convergence → st.xk = some x → g.next ≤ x ∧ x < st.h.next := by
  obtain ⟨s, hs, hsi, r⟩ := defl_setup u hy e normal sa pd
  refine ⟨s, hs, defl_call r (fun h p => hDeflMinres y p ortho a h) (fun o m => deflatedMinres s o ortho (a.val m))
    (fun o m hm => by rw [HArgs.val_congr ua hm]) (fun e' r' q => ?_) rfl⟩
  exact hDeflMinres_spec r' q (hsi ▸ hip) (fun x hx => lt_of_lt_of_le (ua.exact x hx) e'.next)
    (fun x hx => lt_of_lt_of_le (ua.x0 x hx) e'.next) (Fr.here _) ortho

end calls

/-! ## Sequences of calls -/

/-- A call of a plain or a deflated solver. -/
inductive HCallD (𝕜 E : Type*)
  | plain (κ : HKind) (a : HArgs)
  | deflated (k : ℕ) (oa : HOblArgs 𝕜 E k) (U : Fin k → ℕ) (κ : HKind) (a : HArgs)

/-- The arguments of the solver. -/
def HCallD.args : HCallD 𝕜 E → HArgs
  | .plain _ a => a
  | .deflated _ _ _ _ a => a

/-- The memory after a call. -/
noncomputable def hAfterD (y : HSys 𝕜 E) : HCallD 𝕜 E → Heap E → Heap E
  | .plain κ a, h => hAfter y κ a h
  | .deflated _ oa U (.cg store) a, h => (hDeflatedCg y oa U store a h).1
  | .deflated _ oa U (.gmres ortho) a, h => (hDeflatedGmres y oa U ortho a h).1
  | .deflated _ oa U (.minres ortho) a, h => (hDeflatedMinres y oa U ortho a h).1

/-- The memory after a sequence of calls with the same linear system object. -/
noncomputable def hSeqD (y : HSys 𝕜 E) : List (HCallD 𝕜 E) → Heap E → Heap E
  | [], h => h
  | c :: l, h => hSeqD y l (hAfterD y c h)

/-- The arrays passed in each call exist at that time. -/
def ValidSeqD (y : HSys 𝕜 E) : List (HCallD 𝕜 E) → Heap E → Prop
  | [], _ => True
  | c :: l, h => UserArgs h c.args ∧ ValidSeqD y l (hAfterD y c h)

theorem hSeqD_append (y : HSys 𝕜 E) (l₁ l₂ : List (HCallD 𝕜 E)) (h : Heap E) : hSeqD y (l₁ ++ l₂) h = hSeqD y l₂ (hSeqD y l₁ h) := by
  induction l₁ generalizing h with
  | nil => rfl
  | cons c l ih => exact ih _

theorem ValidSeqD.append {y : HSys 𝕜 E} {l₁ l₂ : List (HCallD 𝕜 E)} {h : Heap E} (v : ValidSeqD y (l₁ ++ l₂) h) :
    ValidSeqD y l₁ h ∧ ValidSeqD y l₂ (hSeqD y l₁ h) := by
  induction l₁ generalizing h with
  | nil => exact ⟨trivial, v⟩
  | cons c l ih => exact ⟨⟨v.1, (ih v.2).1⟩, (ih v.2).2⟩

section sequences
variable {h : Heap E} {b : ℕ} {h₁ : Heap E} {y : HSys 𝕜 E}

theorem hAfterD_ext (u : UserSys A M Ml Mr oA oM oMl oMr h b) (hip : IsInner ip) (hy : hMkSys h oA oM oMl oMr ip b = (h₁, .ok y))
    {g : Heap E} (e : h₁.Ext g) (c : HCallD 𝕜 E) (ua : UserArgs g c.args) : g.Ext (hAfterD y c g) := by
  cases c with
  | plain κ a =>
    obtain ⟨-, -, hok⟩ := hMkSys_spec (ip := ip) u.A u.M u.Ml u.Mr u.b none false false
    rw [hy] at hok
    obtain ⟨s, -, r⟩ := hok y rfl
    exact hAfter_fr r ((Fr.here h₁).ext e) κ ua
  | deflated k oa U κ a =>
    cases κ with
    | cg store =>
      obtain ⟨s, -, h1, h2, -⟩ := C90_cg u.weak hip hy e ua oa U store none false false
      exact ⟨h2, h1⟩
    | gmres ortho =>
      obtain ⟨s, -, h1, h2, -⟩ := C90_gmres u.weak hip hy e ua oa U ortho none false false
      exact ⟨h2, h1⟩
    | minres ortho =>
      obtain ⟨s, -, h1, h2, -⟩ := C90_minres u.weak hip hy e ua oa U ortho none false false
      exact ⟨h2, h1⟩

theorem hSeqD_ext (u : UserSys A M Ml Mr oA oM oMl oMr h b) (hip : IsInner ip) (hy : hMkSys h oA oM oMl oMr ip b = (h₁, .ok y)) :
    ∀ (l : List (HCallD 𝕜 E)) {g : Heap E}, h₁.Ext g → ValidSeqD y l g → g.Ext (hSeqD y l g)
  | [], g, _, _ => .refl g
  | c :: l, g, e, v =>
    have e1 := hAfterD_ext u hip hy e c v.1
    e1.trans (hSeqD_ext u hip hy l (e.trans e1) v.2)

/-- **C90** (sequences).  Let plain and deflated solvers be called in any order and number with the same system.  Every array keeps
the contents it had when it came into existence (or was passed). -/
theorem C90_unchanged (u : UserSys A M Ml Mr oA oM oMl oMr h b) (hip : IsInner ip) (hy : hMkSys h oA oM oMl oMr ip b = (h₁, .ok y))
    {l₁ l₂ : List (HCallD 𝕜 E)} (v : ValidSeqD y (l₁ ++ l₂) h₁) :
    (∀ i < h.next, (hSeqD y l₁ h₁).mem i = h.mem i) ∧
      ∀ i < (hSeqD y l₁ h₁).next, (hSeqD y (l₁ ++ l₂) h₁).mem i = (hSeqD y l₁ h₁).mem i := by
  obtain ⟨e, -, -⟩ := hMkSys_spec (ip := ip) u.A u.M u.Ml u.Mr u.b none false false
  rw [hy] at e
  obtain ⟨v1, v2⟩ := v.append
  have e1 := hSeqD_ext u hip hy l₁ (.refl h₁) v1
  have e2 := hSeqD_ext u hip hy l₂ e1 v2
  refine ⟨(e.trans e1).mem, ?_⟩
  rw [hSeqD_append]
  exact e2.mem

/-- **C90** (repetition).  A deflated solver which is called with arrays known at the time of construction of the system gives the
same result before and after any other calls, as long as the test `Y is X` has the same outcome. -/
theorem C90_repeat (u : UserSys A M Ml Mr oA oM oMl oMr h b) (hip : IsInner ip) (hy : hMkSys h oA oM oMl oMr ip b = (h₁, .ok y))
    {l : List (HCallD 𝕜 E)} (v : ValidSeqD y l h₁) {a : HArgs} (ua : UserArgs h₁ a) (oa : HOblArgs 𝕜 E k) {U : Fin k → ℕ}
    (hU : ∀ j, U j < h₁.next) (ortho : Ortho) {o o' : HObl 𝕜 k} (ho : (hMkObl y oa U h₁).2 = .ok o)
    (ho' : (hMkObl y oa U (hSeqD y l h₁)).2 = .ok o') (hs : o.U = o.AU ↔ o'.U = o'.AU) :
    hOutcome (fun h t => (HGmresSt.val a.maxiter h t.1, t.2)) (hDeflatedGmres y oa U ortho a (hSeqD y l h₁)).2 =
      hOutcome (fun h t => (HGmresSt.val a.maxiter h t.1, t.2)) (hDeflatedGmres y oa U ortho a h₁).2 := by
  have e := hSeqD_ext u hip hy l (.refl h₁) v
  have ua' : UserArgs (hSeqD y l h₁) a := ⟨fun x hx => lt_of_lt_of_le (ua.x0 x hx) e.next, fun x hx => lt_of_lt_of_le (ua.exact x hx) e.next⟩
  obtain ⟨s, s1, -, -, ⟨m1, m2, m3⟩, -⟩ := C90_gmres u.weak hip hy (.refl h₁) ua oa U ortho none false false
  obtain ⟨s', s2, -, -, ⟨n1, n2, n3⟩, -⟩ := C90_gmres u.weak hip hy e ua' oa U ortho none false false
  obtain rfl : s = s' := Except.ok.inj (s1.symm.trans s2)
  have hsame : m1 = n1 := by
    rw [m2 o ho, n2 o' ho', decide_eq_decide]
    exact hs
  have hc : (hSeqD y l h₁).cols U = h₁.cols U := funext fun j => e.mem _ (hU j)
  rw [m3, n3, hsame, hc, HArgs.val_congr ua e.mem]

end sequences

/-! ## `_UAps` -/

/-- **C90** (`_UAps`).  The in-place recurrence of `DeflatedCg` leaves the arrays in `_UAps` and the earlier columns of `C` alone: the
lists grow by the inner products just computed and by the column of the model on values. -/
theorem C90_uaps (n : ℕ) (r1 r2 r3 : ℝ) (UAp : Fin k → 𝕜) {l : UApMem 𝕜 k} (i : l.OK) :
    ∃ u c, (hUApPush n r1 r2 r3 UAp l).UAps = l.UAps ++ [u] ∧ (hUApPush n r1 r2 r3 UAp l).C = l.C ++ [c] ∧
      (hUApPush n r1 r2 r3 UAp l).h.mem u = some UAp ∧
      (∀ x ∈ l.UAps, (hUApPush n r1 r2 r3 UAp l).h.mem x = l.h.mem x) ∧
      (n = 0 → r1 ≠ 0 → c = some (((1 / Real.sqrt r1 : ℝ) : 𝕜) • UAp)) := by
  obtain ⟨ok, ha⟩ := hUApPush_spec n r1 r2 r3 UAp i
  have hU : ∃ u, (hUApPush n r1 r2 r3 UAp l).UAps = l.UAps ++ [u] := ⟨_, rfl⟩
  have hC : ∃ c, (hUApPush n r1 r2 r3 UAp l).C = l.C ++ [c] := ⟨_, rfl⟩
  obtain ⟨u, hU⟩ := hU
  obtain ⟨c, hC⟩ := hC
  refine ⟨u, c, hU, hC, ?_, fun x hx => ?_, ?_⟩
  all_goals
    unfold UApMem.abs at ha
    rw [hU, hC, List.zipWith_append i.len] at ha
    have hl := List.append_inj ha (by simp)
    simp only [List.zipWith_cons_cons, List.zipWith_nil_left, List.cons.injEq, and_true] at hl
  · have hu : (uapCol n r1 r2 r3 UAp l.abs).1 = UAp := by
      unfold uapCol
      dsimp only
      split
      · rfl
      · split
        · split <;> rfl
        · rfl
    have h2 := congrArg Prod.fst hl.2
    dsimp only at h2
    obtain ⟨w, hw⟩ := ok.some u (by rw [hU]; simp)
    rw [hw] at h2 ⊢
    exact congrArg some (h2.trans hu)
  · obtain ⟨w, hw⟩ := ok.some x (by rw [hU]; simp [hx])
    obtain ⟨w', hw'⟩ := i.some x hx
    obtain ⟨j, hj, rfl⟩ := List.getElem_of_mem hx
    have h1 := congrArg (fun t => t[j]?) hl.1
    have hjc : j < l.C.length := i.len ▸ hj
    simp only [List.getElem?_zipWith, List.getElem?_eq_getElem hj, List.getElem?_eq_getElem hjc, Option.some.injEq, Prod.mk.injEq,
      and_true] at h1
    rw [hw, hw'] at h1 ⊢
    exact congrArg some h1
  · intro hn hr
    have h2 := congrArg Prod.snd hl.2
    dsimp only at h2
    rw [h2]
    subst hn
    simp [uapCol, hr]

/-- The wrong program `c = UAp` in deflation.py 252 (no copy), in iteration 0. -/
noncomputable def hUApNoCopy (r1 : ℝ) (UAp : Fin 1 → ℝ) (l : UApMem ℝ 1) : UApMem ℝ 1 :=
  let u := l.h.alloc (some UAp)
  let h := u.1.write u.2 ((u.1.mem u.2).map fun x => (1 / Real.sqrt r1) • x)
  ⟨h, l.UAps ++ [u.2], l.C ++ [h.mem u.2]⟩

/-- **C90** (the copies are needed).  Without the copy the list `_UAps` has the wrong entry `1` instead of `2`; without
`Q = X.copy()` the Gram-Schmidt process overwrites the array of the caller: `2` becomes `1`. -/
theorem C90_copy_needed :
    (hUApNoCopy 4 (fun _ => 2) (UApMem.init ℝ 1)).h.mem 0 = some (fun _ => 1) ∧
      (hUApPush 0 4 0 0 (fun _ => 2) (UApMem.init ℝ 1)).h.mem 0 = some (fun _ => 2) ∧
      (hqrLoop (𝕜 := ℝ) (fun x y : ℝ => x * y) 0 0 1 ⟨fun _ => 2, 1⟩).1.mem 0 = 1 := by
  have h4 : Real.sqrt 4 = 2 := by
    rw [show (4 : ℝ) = 2 ^ 2 by norm_num]
    exact Real.sqrt_sq (by norm_num)
  refine ⟨?_, ?_, ?_⟩
  · simp only [hUApNoCopy, UApMem.init, Heap.alloc, Heap.write, h4, Function.update_self, Option.map_some]
    congr 1
    funext j
    norm_num
  · simp [hUApPush, UApMem.init, Heap.alloc, Heap.write]
  · have h44 : Real.sqrt |2 * 2| = 2 := by norm_num [h4]
    simp only [hqrLoop, hqrCol, hqrPasses, hqrPass, npNorm_real, h44]
    norm_num [Heap.write]

/-! ## Non-vacuity -/

open Classical in
/-- An operator which remembers the image of the vector `x` in the array at address `c` and returns this array. -/
noncomputable def memoObj (f : E → E) (x : E) (c : ℕ) : OpObj E := fun h a =>
  if h.mem a = x then (h, c) else h.alloc (f (h.mem a))

theorem memoObj_ok (f : E → E) (x : E) {n : ℕ} {m0 : ℕ → E} {c : ℕ} (hc : c < n) (hv : m0 c = f x) : OpOk n m0 f (memoObj f x c) := by
  refine ⟨fun h a fr _ => ?_, fun h a fr _ => ?_, fun h a fr _ => ?_⟩ <;> unfold memoObj
  · split
    · rename_i hx
      dsimp only
      rw [fr.mem c hc, hv, hx]
    · exact Heap.alloc_mem _ _
  · split
    · exact .refl h
    · exact Heap.alloc_ext _ _
  · split
    · exact lt_of_lt_of_le hc fr.le
    · exact Heap.alloc_lt _ _

/-- The caller's memory: `b = 1`, `x0 = 3`, `U = 1`, and `A * 1 = 2` remembered at address 3. -/
def exHeapD : Heap ℝ := ⟨fun i => if i = 0 then 1 else if i = 1 then 3 else if i = 2 then 1 else 2, 4⟩

/-- `A = 2` which remembers its value at `1`: it violates the contract of `UserSys`, but not the one of `UserSysW`. -/
theorem exUserW : UserSysW (𝕜 := ℝ) ((2 : ℝ) • (LinearMap.id : ℝ →ₗ[ℝ] ℝ)) .id .id .id (memoObj (fun x : ℝ => 2 * x) 1 3) none idObj idObj
    exHeapD 0 :=
  ⟨memoObj_ok _ _ (by simp [exHeapD]) (by simp [exHeapD]), OpGood.id, OpGood.id.ok, OpGood.id.ok, by simp [exHeapD]⟩

/-- It is not in the class of C66: the array returned for `1` is neither the argument nor new. -/
example : ¬ OpGood (fun x : ℝ => 2 * x) (memoObj (fun x : ℝ => 2 * x) 1 3) := by
  intro h
  have := h.res exHeapD 0 (by simp [exHeapD])
  simp [memoObj, exHeapD] at this

theorem exHMkD : hMkSys exHeapD (memoObj (fun x : ℝ => 2 * x) 1 3) none idObj idObj (fun x y : ℝ => x * y) 0 =
    (exHeapD, .ok ⟨memoObj (fun x : ℝ => 2 * x) 1 3, none, idObj, idObj, fun x y => x * y, 0, 0, 0, 1⟩) := by
  simp [hMkSys, idObj, exHeapD, npNorm_real]

theorem exInnerD : IsInner (𝕜 := ℝ) fun x y : ℝ => x * y :=
  ⟨fun x y z => by ring, fun x c y => by simp only [smul_eq_mul]; ring, fun x y => by simp [mul_comm], fun x hx => by
    simpa using mul_self_pos.2 hx⟩

/-- The hypotheses of `C90_gmres` hold for this system with `U` from the caller's memory and the Gram-Schmidt routine. -/
example (t : ℝ) (mq : Matrix (Fin 1) (Fin 1) ℝ → Matrix (Fin 1) (Fin 1) ℝ × Matrix (Fin 1) (Fin 1) ℝ) :=
  C90_gmres exUserW exInnerD exHMkD (.refl _) (a := ⟨some 1, t, 5, true, some 0⟩)
    ⟨fun x hx => by obtain rfl := Option.some.inj hx; simp [exHeapD], fun x hx => by obtain rfl := Option.some.inj hx; simp [exHeapD]⟩
    ⟨.own (fun x y => x * y) 0, .own (fun x y => x * y) 0, mq, true, 2⟩ (fun _ : Fin 1 => 2) .mgs none true true

/-- For it the projection is constructed, and `AU` is the remembered array. -/
example (mq : Matrix (Fin 1) (Fin 1) ℝ → Matrix (Fin 1) (Fin 1) ℝ × Matrix (Fin 1) (Fin 1) ℝ) :
    ∃ o, (hMkObl (⟨memoObj (fun x : ℝ => 2 * x) 1 3, none, idObj, idObj, fun x y => x * y, 0, 0, 0, 1⟩ : HSys ℝ ℝ)
      ⟨.own (fun x y => x * y) 0, .own (fun x y => x * y) 0, mq, false, 2⟩ (fun _ : Fin 1 => 2) exHeapD).2 = .ok o ∧ o.AU 0 = 3 ∧ o.U 0 = 4 := by
  have hQ : hQr (.own (fun x y : ℝ => x * y) 0 : HQr ℝ ℝ 1) (fun _ => 2) exHeapD =
      ((hqrLoop (𝕜 := ℝ) (fun x y : ℝ => x * y) 0 4 1 (exHeapD.allocCols (exHeapD.cols fun _ : Fin 1 => 2)).1).1,
        .ok (fun j => 4 + j, Matrix.of fun i j => if (j : ℕ) = 0 then Function.update (fun _ : ℕ => (0 : ℝ)) 0 1 i else 0)) := by
    simp [hQr, hqrLoop, hqrCol, hqrPasses, hqrPass, npNorm_real, Heap.allocCols, Heap.cols, exHeapD]
  have hM : (hqrLoop (𝕜 := ℝ) (fun x y : ℝ => x * y) 0 4 1 (exHeapD.allocCols (exHeapD.cols fun _ : Fin 1 => 2)).1).1.mem 4 = 1 := by
    norm_num [hqrLoop, hqrCol, hqrPasses, hqrPass, npNorm_real, Heap.allocCols, Heap.cols, exHeapD, Heap.write]
  unfold hMkObl
  rw [hQ]
  simp [hOpCols, HSys.op, prodObj, idObj, memoObj, hM, hMkProj]

end Krypy
