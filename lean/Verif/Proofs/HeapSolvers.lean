import Verif.Proofs.HeapArn

/-!
# `Cg`, `Gmres` and `Minres` with memory refine the models on values
-/

namespace Krypy
set_option linter.unusedSectionVars false
variable {𝕜 E : Type*} [RCLike 𝕜] [AddCommGroup E] [Module 𝕜 E]
variable {n : ℕ} {m0 : ℕ → E} {s : LS 𝕜 E} {y : HSys 𝕜 E} {a : HArgs} {h : Heap E}

/-- linsys.py 354-362, 382-389. -/
theorem hGuess_spec (y : HSys 𝕜 E) {a : HArgs} {h : Heap E} (hx : ∀ x, a.x0 = some x → x < h.next) :
    h.Ext (hGuess y a h).1 ∧ (hGuess y a h).2 < (hGuess y a h).1.next ∧
      (hGuess y a h).1.mem (hGuess y a h).2 = (if y.nb = 0 then 0 else (a.x0.map h.mem).getD 0) ∧
      (y.nb = 0 → h.next ≤ (hGuess y a h).2) ∧
      (h.next ≤ (hGuess y a h).2 ∨ a.x0 = some (hGuess y a h).2) := by
  unfold hGuess
  cases hx0 : a.x0 with
  | none =>
    dsimp only
    have e1 := Heap.alloc_ext h 0
    by_cases h0 : y.nb = 0
    · simp only [if_pos h0]
      exact ⟨e1.trans (Heap.alloc_ext _ 0), Heap.alloc_lt _ _, Heap.alloc_mem _ _, fun _ => e1.next.trans (Heap.alloc_ge _ 0),
        Or.inl (e1.next.trans (Heap.alloc_ge _ 0))⟩
    · simp only [if_neg h0]
      exact ⟨e1, Heap.alloc_lt _ _, Heap.alloc_mem _ _, fun h => absurd h h0, Or.inl (Heap.alloc_ge _ 0)⟩
  | some x =>
    dsimp only
    by_cases h0 : y.nb = 0
    · simp only [if_pos h0]
      exact ⟨Heap.alloc_ext _ 0, Heap.alloc_lt _ _, Heap.alloc_mem _ _, fun _ => Heap.alloc_ge _ 0, Or.inl (Heap.alloc_ge _ 0)⟩
    · simp only [if_neg h0]
      exact ⟨.refl h, hx x hx0, rfl, fun h => absurd h h0, Or.inr trivial⟩

/-- linsys.py 600-620. -/
theorem hcgInit_spec {n : ℕ} {m0 : ℕ → E} {h : Heap E} (f : Fr n m0 h) {x0 p q : ℕ} (hx : x0 < h.next) (hp : p < h.next)
    (hq : q < h.next) (r0 : ℝ) :
    let i := hcgInit (𝕜 := 𝕜) x0 p q r0 h
    h.Ext i.1 ∧ CgOwn n m0 i.1 i.2 ∧
      (HCgSt.val i.1 i.2 : CgSt 𝕜 E) = cgInit (h.mem p) (h.mem q) r0 (h.mem x0) := by
  intro i
  have hi : i = hcgInit (𝕜 := 𝕜) x0 p q r0 h := rfl
  unfold hcgInit at hi
  dsimp only at hi
  have e1 := Heap.alloc_ext h 0
  have l1 := Heap.alloc_lt h 0
  have g1 := Heap.alloc_ge h 0
  have v1 := Heap.alloc_mem h 0
  generalize h.alloc 0 = A at *
  have e2 := Heap.alloc_ext A.1 (A.1.mem q)
  have l2 := Heap.alloc_lt A.1 (A.1.mem q)
  have g2 := Heap.alloc_ge A.1 (A.1.mem q)
  have v2 := Heap.alloc_mem A.1 (A.1.mem q)
  generalize A.1.alloc (A.1.mem q) = B at *
  have e3 := Heap.alloc_ext B.1 (B.1.mem p)
  have l3 := Heap.alloc_lt B.1 (B.1.mem p)
  have g3 := Heap.alloc_ge B.1 (B.1.mem p)
  have v3 := Heap.alloc_mem B.1 (B.1.mem p)
  generalize B.1.alloc (B.1.mem p) = C at *
  have e4 := Heap.alloc_ext C.1 (C.1.mem C.2)
  have l4 := Heap.alloc_lt C.1 (C.1.mem C.2)
  have g4 := Heap.alloc_ge C.1 (C.1.mem C.2)
  have v4 := Heap.alloc_mem C.1 (C.1.mem C.2)
  generalize C.1.alloc (C.1.mem C.2) = D at *
  have n1 := e1.next
  have n2 := e2.next
  have n3 := e3.next
  have n4 := e4.next
  have fn := f.le
  have eD := ((e1.trans e2).trans e3).trans e4
  rw [hi]
  refine ⟨eD, ⟨f.ext eD, ?_, ?_, ?_, ?_, ?_, ?_, ?_, ?_, ?_, ?_⟩, ?_⟩
  · dsimp only; omega
  · dsimp only; omega
  · dsimp only; omega
  · dsimp only; omega
  · dsimp only; omega
  · dsimp only; omega
  · dsimp only; omega
  · dsimp only; omega
  · dsimp only; omega
  · dsimp only; omega
  · have hA : D.1.mem A.2 = 0 := by rw [e4.mem _ (by omega), e3.mem _ (by omega), e2.mem _ l1, v1]
    have hB : D.1.mem B.2 = h.mem q := by rw [e4.mem _ (by omega), e3.mem _ l2, v2, e1.mem _ hq]
    have hC : C.1.mem C.2 = h.mem p := by rw [v3, e2.mem _ (by omega), e1.mem _ hp]
    unfold HCgSt.val cgInit
    dsimp only
    rw [hA, hB, e4.mem _ l3, v4, hC, eD.mem _ hx, eD.mem _ hp, eD.mem _ hq]

/-- What a solver call with memory guarantees: the caller's arrays keep their contents, the iterate satisfies `X` and
the outcome is that of the model on values. -/
structure HCall {S T : Type*} (n : ℕ) (m0 : ℕ → E) (val : Heap E → S → T) (X : ℕ → Prop)
    (o : Heap E × Except Err (HSt E S × HEnd)) (w : Outcome (St ℝ E T)) : Prop where
  fr : Fr n m0 o.1
  xk : ∀ st e, o.2 = .ok (st, e) → st.h = o.1 ∧ ∀ x, e = .returned ∨ e = .convergence → st.xk = some x → X x ∧ x < st.h.next
  eq : w = hOutcome val o.2

theorem HCall.mono {S T : Type*} {n : ℕ} {m0 : ℕ → E} {val : Heap E → S → T} {X Y : ℕ → Prop}
    {o : Heap E × Except Err (HSt E S × HEnd)} {w : Outcome (St ℝ E T)} (c : HCall n m0 val X o w) (h : ∀ x, X x → Y x) :
    HCall n m0 val Y o w :=
  ⟨c.fr, fun st e he => ⟨(c.xk st e he).1, fun x he' hx => ⟨h x ((c.xk st e he).2 x he' hx).1, ((c.xk st e he).2 x he' hx).2⟩⟩, c.eq⟩

/-- linsys.py 342-405, 593-689. -/
theorem hCg_spec (r : SysRep n m0 s y) (hex : ∀ e, a.exact = some e → e < n) (hx : ∀ x, a.x0 = some x → x < n)
    (f : Fr n m0 h) (store : Bool) :
    HCall n m0 HCgSt.val (fun x => n ≤ x) (hCg y store a h) (cg s s.hooks store (a.val m0)) := by
  have hx' : ∀ x, a.x0 = some x → x < h.next := fun x h => lt_of_lt_of_le (hx x h) f.le
  have hm : (a.val m0).x0 = a.x0.map h.mem := by
    unfold HArgs.val
    dsimp only
    cases h0 : a.x0 with
    | none => rfl
    | some x => simp [f.mem x (hx x h0)]
  obtain ⟨e1, herr, hok⟩ := hResidual_spec r.weak f hx'
  unfold hCg cg
  have hh : s.hooks.initRes (a.val m0).x0 = s.getResidualNorm (a.x0.map h.mem) := by rw [hm]; rfl
  rw [hh]
  cases hR : hResidual y h a.x0 with
  | mk h1 res =>
  rw [hR] at e1 herr hok
  dsimp only at e1 herr hok
  cases res with
  | error e =>
    rw [herr e rfl]
    exact ⟨f.ext e1, fun st e he => by simp at he, rfl⟩
  | ok t =>
    obtain ⟨MM, Ml, r0⟩ := t
    obtain ⟨k1, k2, k3⟩ := hok MM Ml r0 rfl
    rw [k3]
    dsimp only
    obtain ⟨g1, g2, g3, g4, g5⟩ := hGuess_spec y (a := a) (h := h1) (fun x h => lt_of_lt_of_le (hx' x h) e1.next)
    have hv : (hGuess y a h1).1.mem (hGuess y a h1).2 = if y.nb = 0 then 0 else (a.val m0).x0.getD 0 := by
      rw [g3, hm]
      cases h0 : a.x0 with
      | none => rfl
      | some x => simp [e1.mem x (hx' x h0)]
    have hle : n ≤ h1.next := (f.ext e1).le
    have := hRun_spec (r0 := r0) (init := fun h => let i := hcgInit (𝕜 := 𝕜) (hGuess y a h1).2 MM Ml r0 h; (i.1, .ok i.2))
      (mkS := cgInit (h1.mem MM) (h1.mem Ml) r0) (hcg_sim r store a.maxiter) r.weak hex ((f.ext e1).ext g1) g2 hv
      (fun h0 => hle.trans (g4 h0)) (fun h' e' => by
        obtain ⟨i1, i2, i3⟩ := hcgInit_spec (𝕜 := 𝕜) (((f.ext e1).ext g1).ext e') (lt_of_lt_of_le g2 e'.next)
          (lt_of_lt_of_le k1 (g1.trans e').next) (lt_of_lt_of_le k2 (g1.trans e').next) r0
        refine ⟨_, rfl, i1, i2, ?_⟩
        rw [i3, (g1.trans e').mem _ k1, (g1.trans e').mem _ k2, e'.mem _ g2])
    exact ⟨this.1, this.2.1, this.2.2⟩

/-- The initial residual of a represented system satisfies `MMlr0 = M Mlr0`. -/
theorem resid_MM (r : SysRep n m0 s y) {z : Option E} {p q : E} {t : ℝ} (h : s.getResidualNorm z = .ok (p, q, t)) : p = s.M q := by
  cases z with
  | none =>
    simp only [LS.getResidualNorm, Except.ok.injEq, Prod.mk.injEq] at h
    rw [← h.1, ← h.2.1, r.MM]
  | some z =>
    simp only [LS.getResidualNorm] at h
    split at h
    · simp at h
    · simp only [Except.ok.injEq, Prod.mk.injEq] at h
      rw [← h.1, ← h.2.1]

/-- linsys.py 342-405, 941-1004. -/
theorem hGmres_spec (r : SysRep n m0 s y) (hex : ∀ e, a.exact = some e → e < n) (hx : ∀ x, a.x0 = some x → x < n)
    (f : Fr n m0 h) (ortho : Ortho) :
    HCall n m0 (HGmresSt.val a.maxiter) (fun x => n ≤ x ∨ a.x0 = some x) (hGmres y ortho a h)
      (gmres s s.hooks ortho (a.val m0)) := by
  have hx' : ∀ x, a.x0 = some x → x < h.next := fun x h => lt_of_lt_of_le (hx x h) f.le
  have hm : (a.val m0).x0 = a.x0.map h.mem := by
    unfold HArgs.val
    dsimp only
    cases h0 : a.x0 with
    | none => rfl
    | some x => simp [f.mem x (hx x h0)]
  obtain ⟨e1, herr, hok⟩ := hResidual_spec r.weak f hx'
  unfold hGmres gmres gmresRun
  have hh : s.hooks.initRes (a.val m0).x0 = s.getResidualNorm (a.x0.map h.mem) := by rw [hm]; rfl
  dsimp only
  rw [hh]
  cases hR : hResidual y h a.x0 with
  | mk h1 res =>
  rw [hR] at e1 herr hok
  dsimp only at e1 herr hok
  cases res with
  | error e =>
    rw [herr e rfl]
    exact ⟨f.ext e1, fun st e he => by simp at he, rfl⟩
  | ok t =>
    obtain ⟨MM, Ml, r0⟩ := t
    obtain ⟨k1, k2, k3⟩ := hok MM Ml r0 rfl
    have hMM := resid_MM r k3
    have f1 := f.ext e1
    have hA := r.arn a.maxiter ortho
    have ha := (hArnInit_spec hA (t := r0) f1 k2 k1 hMM).2.2.2.2.2
    rw [k3]
    dsimp only
    have hmx : (a.val m0).maxiter = a.maxiter := rfl
    rw [hmx, ha]
    dsimp only
    obtain ⟨g1, g2, g3, g4, g5⟩ := hGuess_spec y (a := a) (h := h1) (fun x h => lt_of_lt_of_le (hx' x h) e1.next)
    have hv : (hGuess y a h1).1.mem (hGuess y a h1).2 = if y.nb = 0 then 0 else (a.val m0).x0.getD 0 := by
      rw [g3, hm]
      cases h0 : a.x0 with
      | none => rfl
      | some x => simp [e1.mem x (hx' x h0)]
    have hle : n ≤ h1.next := f1.le
    have := hRun_spec (r0 := r0) (init := fun h =>
        let i := hArnInit (y.arnCfg a.maxiter ortho) Ml MM r0 h
        (i.1, .ok ⟨i.2, (hGuess y a h1).2, fun _ => ⟨1, 0, 0⟩, fun _ _ => 0, fun i => if i = 0 then (r0 : 𝕜) else 0⟩))
      (mkS := gmresInit (MArn.val a.maxiter (hArnInit (y.arnCfg a.maxiter ortho) Ml MM r0 h1).1
        (hArnInit (y.arnCfg a.maxiter ortho) Ml MM r0 h1).2) r0) (hgmres_sim r ortho a.maxiter (hGuess y a h1).2) r.weak hex
      (f1.ext g1) g2 hv (fun h0 => Or.inr rfl) (fun h' e' => by
        have eh := g1.trans e'
        obtain ⟨i1, i2, i3, i4, i5, i6⟩ := hArnInit_spec hA (t := r0) (f1.ext eh) (lt_of_lt_of_le k2 eh.next)
          (lt_of_lt_of_le k1 eh.next) (by rw [eh.mem _ k1, eh.mem _ k2]; exact hMM)
        have l1 : (hGuess y a h1).2 < h'.next := lt_of_lt_of_le g2 e'.next
        refine ⟨_, rfl, i1, ⟨i2, by rw [i3]; exact Nat.zero_le _, lt_of_lt_of_le l1 i1.next, ?_, rfl⟩, ?_⟩
        · unfold Outside
          dsimp only
          constructor <;> intro hcon <;> omega
        · rw [eh.mem _ k1, eh.mem _ k2, ha] at i6
          have i7 := Except.ok.inj i6
          unfold HGmresSt.val gmresInit
          dsimp only
          rw [i1.mem _ l1, e'.mem _ g2]
          rw [show MArn.val a.maxiter _ _ = _ from i7.symm]
          rfl)
    refine HCall.mono ⟨this.1, this.2.1, this.2.2⟩ fun x hxx => ?_
    rcases hxx with hxx | rfl
    · exact Or.inl hxx
    · exact g5.imp_left hle.trans

/-- linsys.py 342-405, 756-853. -/
theorem hMinres_spec (r : SysRep n m0 s y) (hex : ∀ e, a.exact = some e → e < n) (hx : ∀ x, a.x0 = some x → x < n)
    (f : Fr n m0 h) (ortho : Ortho) :
    HCall n m0 (HMinresSt.val a.maxiter) (fun x => n ≤ x) (hMinres y ortho a h)
      (minres s s.hooks ortho (a.val m0)) := by
  have hx' : ∀ x, a.x0 = some x → x < h.next := fun x h => lt_of_lt_of_le (hx x h) f.le
  have hm : (a.val m0).x0 = a.x0.map h.mem := by
    unfold HArgs.val
    dsimp only
    cases h0 : a.x0 with
    | none => rfl
    | some x => simp [f.mem x (hx x h0)]
  obtain ⟨e1, herr, hok⟩ := hResidual_spec r.weak f hx'
  unfold hMinres minres minresRun
  have hh : s.hooks.initRes (a.val m0).x0 = s.getResidualNorm (a.x0.map h.mem) := by rw [hm]; rfl
  dsimp only
  rw [hh]
  cases hR : hResidual y h a.x0 with
  | mk h1 res =>
  rw [hR] at e1 herr hok
  dsimp only at e1 herr hok
  cases res with
  | error e =>
    rw [herr e rfl]
    exact ⟨f.ext e1, fun st e he => by simp at he, rfl⟩
  | ok t =>
    obtain ⟨MM, Ml, r0⟩ := t
    obtain ⟨k1, k2, k3⟩ := hok MM Ml r0 rfl
    have hMM := resid_MM r k3
    have f1 := f.ext e1
    have hA := r.arn a.maxiter ortho
    have ha := (hArnInit_spec hA (t := r0) f1 k2 k1 hMM).2.2.2.2.2
    rw [k3]
    dsimp only
    have hmx : (a.val m0).maxiter = a.maxiter := rfl
    rw [hmx, ha]
    dsimp only
    obtain ⟨g1, g2, g3, g4, g5⟩ := hGuess_spec y (a := a) (h := h1) (fun x h => lt_of_lt_of_le (hx' x h) e1.next)
    have hv : (hGuess y a h1).1.mem (hGuess y a h1).2 = if y.nb = 0 then 0 else (a.val m0).x0.getD 0 := by
      rw [g3, hm]
      cases h0 : a.x0 with
      | none => rfl
      | some x => simp [e1.mem x (hx' x h0)]
    have hle : n ≤ h1.next := f1.le
    have := hRun_spec (r0 := r0) (init := fun h =>
        let i := hArnInit (y.arnCfg a.maxiter ortho) Ml MM r0 h
        let z := i.1.alloc 0
        (z.1, .ok ⟨i.2, (hGuess y a h1).2, none, none, 0, 0, r0, z.2⟩))
      (mkS := minresInit (MArn.val a.maxiter (hArnInit (y.arnCfg a.maxiter ortho) Ml MM r0 h1).1
        (hArnInit (y.arnCfg a.maxiter ortho) Ml MM r0 h1).2) r0) (hminres_sim r ortho a.maxiter) r.weak hex
      (f1.ext g1) g2 hv (fun h0 => hle.trans (g4 h0)) (fun h' e' => by
        have eh := g1.trans e'
        obtain ⟨i1, i2, i3, i4, i5, i6⟩ := hArnInit_spec hA (t := r0) (f1.ext eh) (lt_of_lt_of_le k2 eh.next)
          (lt_of_lt_of_le k1 eh.next) (by rw [eh.mem _ k1, eh.mem _ k2]; exact hMM)
        have l1 : (hGuess y a h1).2 < h'.next := lt_of_lt_of_le g2 e'.next
        have ez := Heap.alloc_ext (hArnInit (y.arnCfg a.maxiter ortho) Ml MM r0 h').1 0
        have lz := Heap.alloc_lt (hArnInit (y.arnCfg a.maxiter ortho) Ml MM r0 h').1 0
        have gz := Heap.alloc_ge (hArnInit (y.arnCfg a.maxiter ortho) Ml MM r0 h').1 0
        have vz := Heap.alloc_mem (hArnInit (y.arnCfg a.maxiter ortho) Ml MM r0 h').1 0
        obtain ⟨i8, i9⟩ := i2.ext (𝕜 := 𝕜) ez
        refine ⟨_, rfl, i1.trans ez, ⟨i8, by rw [i3]; exact Nat.zero_le _, lt_of_lt_of_le l1 (i1.trans ez).next, ?_, lz, ?_⟩, ?_⟩
        · unfold Outside
          dsimp only
          constructor <;> intro hcon <;> omega
        · have h1 := i2.vb.2
          have h2 := i2.pb.2
          have hmm : (y.arnCfg a.maxiter ortho).maxiter = a.maxiter := rfl
          rw [hmm] at h1 h2
          unfold Outside
          dsimp only
          constructor <;> intro hcon <;> omega
        · rw [eh.mem _ k1, eh.mem _ k2, ha] at i6
          have i7 := Except.ok.inj i6
          unfold HMinresSt.val minresInit
          dsimp only
          have i10 := i9.trans i7.symm
          rw [(i1.trans ez).mem _ l1, e'.mem _ g2, vz]
          rw [show MArn.val a.maxiter _ _ = _ from i10]
          rfl)
    exact ⟨this.1, this.2.1, this.2.2⟩

end Krypy
