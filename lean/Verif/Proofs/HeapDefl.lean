import Verif.Model.HeapDefl
import Verif.Proofs.HeapSolvers
import Verif.Props.DeflCounts

/-! # Refinement for `qr`, `Projection`, `ObliqueProjection` and the deflated solvers with memory -/

set_option linter.unusedSectionVars false

namespace Krypy
variable {𝕜 E : Type*} [RCLike 𝕜] [AddCommGroup E] [Module 𝕜 E] {k : ℕ}
open Matrix

theorem Heap.allocCols_ext (h : Heap E) (X : Fin k → E) : h.Ext (h.allocCols X).1 :=
  ⟨Nat.le_add_right _ _, fun i hi => by simp [Heap.allocCols, Nat.not_le.mpr hi]⟩

theorem Heap.allocCols_cols (h : Heap E) (X : Fin k → E) : (h.allocCols X).1.cols (h.allocCols X).2 = X := by
  funext j
  simp [Heap.allocCols, Heap.cols]

theorem Heap.allocCols_lt (h : Heap E) (X : Fin k → E) (j : Fin k) : (h.allocCols X).2 j < (h.allocCols X).1.next := by
  have := j.2
  simp only [Heap.allocCols]
  omega

theorem Heap.allocCols_ge (h : Heap E) (X : Fin k → E) (j : Fin k) : h.next ≤ (h.allocCols X).2 j := Nat.le_add_right _ _

theorem Heap.Ext.cols {h h' : Heap E} (e : h.Ext h') {X : Fin k → ℕ} (hX : ∀ j, X j < h.next) : h'.cols X = h.cols X :=
  funext fun j => e.mem _ (hX j)

/-! ## `qr` -/

/-- The value model of `qr`. -/
noncomputable def HQr.val (r : HQr 𝕜 E k) (X : Fin k → E) : Except Err ((Fin k → E) × Matrix (Fin k) (Fin k) 𝕜) :=
  match r with
  | .lapack f => f X
  | .own ip reorthos => qrResult (qrLoop ip reorthos (colSeq X) k)

/-- The columns of `Q` while column `i` is orthogonalised. -/
structure QCol (h0 : Heap E) (k i : ℕ) (w : Heap E) (Q : ℕ → E) (t : E) : Prop where
  next : w.next = h0.next + k
  old : ∀ j < h0.next, w.mem j = h0.mem j
  cols : ∀ j < k, j ≠ i → w.mem (h0.next + j) = Q j
  col : w.mem (h0.next + i) = t

/-- The columns of `Q`. -/
structure QRep (h0 : Heap E) (k : ℕ) (w : Heap E) (Q : ℕ → E) : Prop where
  next : w.next = h0.next + k
  old : ∀ j < h0.next, w.mem j = h0.mem j
  cols : ∀ j < k, w.mem (h0.next + j) = Q j

theorem QCol.write {h0 w : Heap E} {i : ℕ} {Q : ℕ → E} {t : E} (c : QCol h0 k i w Q t) (x : E) :
    QCol h0 k i (w.write (h0.next + i) x) Q x :=
  ⟨c.next, fun j hj => by rw [Heap.write_ne _ (by omega), c.old j hj],
    fun j hj hi => by rw [Heap.write_ne _ (by omega), c.cols j hj hi], Heap.write_self _ _ _⟩

theorem hqrPass_spec {ip : E → E → 𝕜} {h0 : Heap E} {i : ℕ} (hi : i < k) {Q : ℕ → E} :
    ∀ (j : ℕ), j ≤ i → ∀ (w : Heap E) (r : ℕ → 𝕜) (t : E), QCol h0 k i w Q t →
      QCol h0 k i (hqrPass ip h0.next i j (w, r)).1 Q (qrPass ip Q j (t, r)).1 ∧
        (hqrPass ip h0.next i j (w, r)).2 = (qrPass ip Q j (t, r)).2
  | 0, _, w, r, t, c => ⟨c, rfl⟩
  | j + 1, hj, w, r, t, c => by
    obtain ⟨c1, c2⟩ := hqrPass_spec (ip := ip) hi j (by omega) w r t c
    simp only [hqrPass, qrPass]
    rw [c1.cols j (by omega) (by omega), c1.col, c2]
    exact ⟨c1.write _, rfl⟩

theorem hqrPasses_spec {ip : E → E → 𝕜} {h0 : Heap E} {i : ℕ} (hi : i < k) {Q : ℕ → E} :
    ∀ (p : ℕ) (w : Heap E) (r : ℕ → 𝕜) (t : E), QCol h0 k i w Q t →
      QCol h0 k i (hqrPasses ip h0.next i p (w, r)).1 Q (qrPasses ip Q i p (t, r)).1 ∧
        (hqrPasses ip h0.next i p (w, r)).2 = (qrPasses ip Q i p (t, r)).2
  | 0, w, r, t, c => ⟨c, rfl⟩
  | p + 1, w, r, t, c => by
    obtain ⟨c1, c2⟩ := hqrPasses_spec (ip := ip) hi p w r t c
    have := hqrPass_spec (ip := ip) hi i le_rfl _ (hqrPasses ip h0.next i p (w, r)).2 _ c1
    simp only [hqrPasses, qrPasses]
    rw [c2] at this
    rw [show hqrPasses ip h0.next i p (w, r) = ((hqrPasses ip h0.next i p (w, r)).1, (qrPasses ip Q i p (t, r)).2) from
      Prod.ext rfl c2]
    exact this

theorem hqrCol_spec {ip : E → E → 𝕜} {reorthos : ℕ} {h0 : Heap E} {i : ℕ} (hi : i < k) {Q : ℕ → E} {w : Heap E} (c : QRep h0 k w Q)
    (R : ℕ → ℕ → 𝕜) :
    h0.Ext (hqrCol ip reorthos h0.next i w R).1 ∧
      (∀ e, (hqrCol ip reorthos h0.next i w R).2 = .error e → qrCol ip reorthos i Q R = .error e) ∧
      (∀ R', (hqrCol ip reorthos h0.next i w R).2 = .ok R' →
        ∃ Q', qrCol ip reorthos i Q R = .ok (Q', R') ∧ QRep h0 k (hqrCol ip reorthos h0.next i w R).1 Q') := by
  obtain ⟨c1, c2⟩ := hqrPasses_spec (ip := ip) hi (reorthos + 1) w (fun j => R j i) (Q i)
    ⟨c.next, c.old, fun j hj _ => c.cols j hj, c.cols i hi⟩
  unfold hqrCol qrCol
  dsimp only
  generalize hqrPasses ip h0.next i (reorthos + 1) (w, fun j => R j i) = s at *
  generalize qrPasses ip Q i (reorthos + 1) (Q i, fun j => R j i) = t at *
  obtain ⟨s1, s2⟩ := s
  obtain ⟨t1, t2⟩ := t
  dsimp only at c1 c2 ⊢
  subst c2
  rw [c1.col]
  cases npNorm (ip t1 t1) with
  | error e =>
    exact ⟨⟨by rw [c1.next]; omega, c1.old⟩, fun e' he => by simpa using he, fun R' he => by simp at he⟩
  | ok rii =>
    have key : ∀ x, QCol h0 k i s1 Q x → QRep h0 k s1 (Function.update Q i x) := fun x cx =>
      ⟨cx.next, cx.old, fun j hj => by
        by_cases h : j = i
        · subst h
          rw [Function.update_self, cx.col]
        · rw [Function.update_of_ne h, cx.cols j hj h]⟩
    dsimp only
    by_cases hr : (1e-15 : ℝ) ≤ rii
    · simp only [if_pos hr]
      have c3 := c1.write (((rii : 𝕜)⁻¹) • t1)
      refine ⟨⟨by rw [c3.next]; omega, c3.old⟩, fun e' he => by simp at he, fun R' he => ?_⟩
      obtain rfl := Except.ok.inj he
      refine ⟨_, rfl, c3.next, c3.old, fun j hj => ?_⟩
      by_cases h : j = i
      · subst h
        rw [Function.update_self, c3.col]
      · rw [Function.update_of_ne h, c3.cols j hj h]
    · simp only [if_neg hr]
      refine ⟨⟨by rw [c1.next]; omega, c1.old⟩, fun e' he => by simp at he, fun R' he => ?_⟩
      obtain rfl := Except.ok.inj he
      exact ⟨_, rfl, key _ c1⟩

theorem hqrLoop_spec {ip : E → E → 𝕜} {reorthos : ℕ} {h0 w : Heap E} {X : ℕ → E} (c : QRep h0 k w X) :
    ∀ i ≤ k, h0.Ext (hqrLoop ip reorthos h0.next i w).1 ∧
      (∀ e, (hqrLoop ip reorthos h0.next i w).2 = .error e → qrLoop ip reorthos X i = .error e) ∧
      (∀ R, (hqrLoop ip reorthos h0.next i w).2 = .ok R →
        ∃ Q, qrLoop ip reorthos X i = .ok (Q, R) ∧ QRep h0 k (hqrLoop ip reorthos h0.next i w).1 Q)
  | 0, _ => ⟨⟨by rw [hqrLoop, c.next]; omega, c.old⟩, fun e he => by simp [hqrLoop] at he, fun R he => by
      obtain rfl := Except.ok.inj he
      exact ⟨X, rfl, c⟩⟩
  | i + 1, hi => by
    obtain ⟨i1, i2, i3⟩ := hqrLoop_spec (ip := ip) (reorthos := reorthos) c i (by omega)
    unfold hqrLoop qrLoop
    cases hL : hqrLoop ip reorthos h0.next i w with
    | mk h1 res =>
    rw [hL] at i1 i2 i3
    cases res with
    | error e =>
      rw [i2 e rfl]
      exact ⟨i1, fun e' he => by simpa using he, fun R he => by simp at he⟩
    | ok R =>
      obtain ⟨Q, q1, q2⟩ := i3 R rfl
      rw [q1]
      exact hqrCol_spec (by omega) q2 R

/-- utils.py 680-707: `X` and all other arrays are left alone, the result is new. -/
theorem hQr_spec (r : HQr 𝕜 E k) {X : Fin k → ℕ} {h : Heap E} :
    h.Ext (hQr r X h).1 ∧
      (∀ e, (hQr r X h).2 = .error e → r.val (h.cols X) = .error e) ∧
      (∀ Q R, (hQr r X h).2 = .ok (Q, R) → r.val (h.cols X) = .ok ((hQr r X h).1.cols Q, R) ∧
        ∀ j, h.next ≤ Q j ∧ Q j < (hQr r X h).1.next) := by
  unfold hQr HQr.val
  cases r with
  | lapack f =>
    dsimp only
    cases f (h.cols X) with
    | error e => exact ⟨.refl h, fun e' he => by simpa using he, fun Q R he => by simp at he⟩
    | ok t =>
      obtain ⟨Q, R⟩ := t
      refine ⟨h.allocCols_ext Q, fun e' he => by simp at he, fun Q' R' he => ?_⟩
      obtain ⟨rfl, rfl⟩ := Prod.mk.inj (Except.ok.inj he)
      dsimp only
      exact ⟨by rw [Heap.allocCols_cols], fun j => ⟨h.allocCols_ge Q j, h.allocCols_lt Q j⟩⟩
  | own ip reorthos =>
    dsimp only
    have c : QRep h k (h.allocCols (h.cols X)).1 (colSeq (h.cols X)) := by
      refine ⟨rfl, fun j hj => (h.allocCols_ext _).mem j hj, fun j hj => ?_⟩
      have := congrFun (h.allocCols_cols (h.cols X)) ⟨j, hj⟩
      simp only [colSeq, dif_pos hj]
      exact this
    obtain ⟨i1, i2, i3⟩ := hqrLoop_spec (ip := ip) (reorthos := reorthos) c k le_rfl
    cases hL : hqrLoop ip reorthos h.next k (h.allocCols (h.cols X)).1 with
    | mk h1 res =>
    rw [hL] at i1 i2 i3
    cases res with
    | error e =>
      rw [i2 e rfl]
      exact ⟨i1, fun e' he => by simpa [qrResult] using he, fun Q R he => by simp at he⟩
    | ok R =>
      obtain ⟨Q, q1, q2⟩ := i3 R rfl
      rw [q1]
      refine ⟨i1, fun e' he => by simp at he, fun Q' R' he => ?_⟩
      obtain ⟨rfl, rfl⟩ := Prod.mk.inj (Except.ok.inj he)
      refine ⟨?_, fun j => ⟨h.allocCols_ge _ j, ?_⟩⟩
      · simp only [qrResult]
        congr 2
        funext j
        exact (q2.cols j j.2).symm
      · have := j.2
        dsimp only at q2 ⊢
        rw [q2.next]
        simp only [Heap.allocCols]
        omega

/-! ## `Projection` and `ObliqueProjection` -/

theorem hOpCols_spec {f : E → E} {A : OpObj E} {n : ℕ} {m0 : ℕ → E} (hA : OpOk n m0 f A) {U : Fin k → ℕ} {h : Heap E}
    (fr : Fr n m0 h) (hU : ∀ j, U j < h.next) :
    ∀ i ≤ k, h.Ext (hOpCols A U i h).1 ∧ ∀ j : Fin k, (j : ℕ) < i →
      (hOpCols A U i h).2 j < (hOpCols A U i h).1.next ∧ (hOpCols A U i h).1.mem ((hOpCols A U i h).2 j) = f (h.mem (U j))
  | 0, _ => ⟨.refl h, fun j hj => absurd hj (Nat.not_lt_zero _)⟩
  | i + 1, hi => by
    obtain ⟨i1, i2⟩ := hOpCols_spec hA fr hU i (by omega)
    unfold hOpCols
    simp only [dif_pos (show i < k by omega)]
    have l1 : U ⟨i, by omega⟩ < (hOpCols A U i h).1.next := lt_of_lt_of_le (hU _) i1.next
    have e2 := hA.ext _ _ (fr.ext i1) l1
    refine ⟨i1.trans e2, fun j hj => ?_⟩
    by_cases h1 : (j : ℕ) = i
    · rw [h1, Function.update_self]
      have hj' : (⟨i, by omega⟩ : Fin k) = j := Fin.ext h1.symm
      refine ⟨hA.lt _ _ (fr.ext i1) l1, ?_⟩
      rw [hA.val _ _ (fr.ext i1) l1, i1.mem _ (hU _), hj']
    · rw [Function.update_of_ne h1]
      obtain ⟨j1, j2⟩ := i2 j (by omega)
      exact ⟨lt_of_lt_of_le j1 e2.next, by rw [e2.mem _ j1, j2]⟩

/-- The value-level routines. -/
noncomputable def HOblArgs.rt (a : HOblArgs 𝕜 E k) : QrRoutines 𝕜 E k := ⟨a.qr.val, a.matQr⟩

/-- The value-level arguments, for the given outcome of the test `Y is X`. -/
noncomputable def HOblArgs.val (a : HOblArgs 𝕜 E k) (same : Bool) : OblArgs 𝕜 E k :=
  ⟨a.qrM.val, a.rt, same, a.orthogonalize, a.iterations⟩

theorem hMkProj_spec (ip : E → E → 𝕜) (a : HOblArgs 𝕜 E k) {X Y : Fin k → ℕ} {h : Heap E} (hX : ∀ j, X j < h.next)
    (hY : ∀ j, Y j < h.next) :
    let v := mkProj ip a.rt (h.cols X) (if Y = X then none else some (h.cols Y)) a.orthogonalize a.iterations
    h.Ext (hMkProj ip a X Y h).1 ∧
      (∀ e, (hMkProj ip a X Y h).2 = .error e → v = .error e) ∧
      (∀ p, (hMkProj ip a X Y h).2 = .ok p → v = .ok (p.val (hMkProj ip a X Y h).1) ∧
        ∀ j, p.V j < (hMkProj ip a X Y h).1.next ∧ p.W j < (hMkProj ip a X Y h).1.next) := by
  intro v
  have hv : v = mkProj ip a.rt (h.cols X) (if Y = X then none else some (h.cols Y)) a.orthogonalize a.iterations := rfl
  rw [hv]
  clear_value v
  clear hv v
  unfold hMkProj mkProj
  by_cases h1 : a.iterations < 1
  · simp only [if_pos h1]
    exact ⟨.refl h, fun e he => by simpa using he, fun p he => by simp at he⟩
  simp only [if_neg h1]
  by_cases h2 : k = 0
  · simp only [if_pos h2]
    refine ⟨h.allocCols_ext _, fun e he => by simp at he, fun p he => ?_⟩
    obtain rfl := Except.ok.inj he
    refine ⟨?_, fun j => ⟨h.allocCols_lt _ j, h.allocCols_lt _ j⟩⟩
    unfold HProj.val
    congr 2 <;> funext j <;> exact absurd j.2 (by omega)
  simp only [if_neg h2]
  by_cases h3 : a.orthogonalize = true
  · simp only [if_pos h3]
    obtain ⟨e1, q2, q3⟩ := hQr_spec a.qr (X := X) (h := h)
    have hq : a.rt.qr (h.cols X) = a.qr.val (h.cols X) := rfl
    rw [hq]
    cases hL : hQr a.qr X h with
    | mk h' res =>
    rw [hL] at e1 q2 q3
    cases res with
    | error e =>
      rw [q2 e rfl]
      exact ⟨e1, fun e' he => by simpa using he, fun p he => by simp at he⟩
    | ok t =>
      obtain ⟨V, VR⟩ := t
      obtain ⟨q4, q5⟩ := q3 V VR rfl
      rw [q4]
      dsimp only at e1 q5 ⊢
      by_cases h4 : Y = X
      · simp only [if_pos h4]
        refine ⟨e1, fun e he => by simp at he, fun p he => ?_⟩
        obtain rfl := Except.ok.inj he
        exact ⟨rfl, fun j => ⟨(q5 j).2, (q5 j).2⟩⟩
      · simp only [if_neg h4]
        obtain ⟨e2, w2, w3⟩ := hQr_spec a.qr (X := Y) (h := h')
        have hq2 : a.rt.qr (h.cols Y) = a.qr.val (h'.cols Y) := by rw [e1.cols hY]; rfl
        rw [hq2]
        cases hL2 : hQr a.qr Y h' with
        | mk h'' res2 =>
        rw [hL2] at e2 w2 w3
        cases res2 with
        | error e =>
          rw [w2 e rfl]
          exact ⟨e1.trans e2, fun e' he => by simpa using he, fun p he => by simp at he⟩
        | ok t =>
          obtain ⟨W, WR⟩ := t
          obtain ⟨w4, w5⟩ := w3 W WR rfl
          rw [w4]
          refine ⟨e1.trans e2, fun e he => by simp at he, fun p he => ?_⟩
          obtain rfl := Except.ok.inj he
          dsimp only at e2 w5 ⊢
          refine ⟨?_, fun j => ⟨lt_of_lt_of_le (q5 j).2 e2.next, (w5 j).2⟩⟩
          unfold HProj.val
          dsimp only
          rw [e2.cols fun j => (q5 j).2]
          rfl
  · simp only [if_neg h3]
    refine ⟨.refl h, fun e he => by simp at he, fun p he => ?_⟩
    obtain rfl := Except.ok.inj he
    refine ⟨?_, fun j => ⟨hX j, hY j⟩⟩
    have : (if Y = X then none else some (h.cols Y)).getD (h.cols X) = h.cols Y := by
      by_cases h4 : Y = X
      · rw [if_pos h4, h4]; rfl
      · rw [if_neg h4]; rfl
    rw [this]
    rfl

/-- The projection with memory represents the projection `o`; its arrays are below `n`. -/
structure ProjRep (n : ℕ) (m0 : ℕ → E) (p : HProj 𝕜 k) (v : Proj 𝕜 E k) : Prop where
  V : ∀ j, p.V j < n
  W : ∀ j, p.W j < n
  val : p.val ⟨m0, n⟩ = v

theorem ProjRep.at {n : ℕ} {m0 : ℕ → E} {p : HProj 𝕜 k} {v : Proj 𝕜 E k} (q : ProjRep n m0 p v) {h : Heap E} (f : Fr n m0 h) :
    p.val h = v := by
  rw [← q.val]
  unfold HProj.val Heap.cols
  congr 1
  · funext j; exact f.mem _ (q.V j)
  · funext j; exact f.mem _ (q.W j)

variable {n : ℕ} {m0 : ℕ → E} {s : LS 𝕜 E} {y : HSys 𝕜 E}

/-- deflation.py 33-56. -/
theorem hMkObl_spec (r : SysRepW n m0 s y) (a : HOblArgs 𝕜 E k) {U : Fin k → ℕ} {h : Heap E} (f : Fr n m0 h) :
    h.Ext (hMkObl y a U h).1 ∧
      (∀ e, (hMkObl y a U h).2 = .error e → ∃ same, mkObl s (a.val same) (h.cols U) = .error e) ∧
      (∀ o, (hMkObl y a U h).2 = .ok o →
        ∃ v, mkObl s (a.val (decide (o.U = o.AU))) (h.cols U) = .ok v ∧
          ProjRep (hMkObl y a U h).1.next (hMkObl y a U h).1.mem o.proj v.proj ∧
          (hMkObl y a U h).1.cols o.U = v.U ∧ (hMkObl y a U h).1.cols o.AU = v.AU ∧
          ∀ j, o.U j < (hMkObl y a U h).1.next ∧ o.AU j < (hMkObl y a U h).1.next ∧ h.next ≤ o.U j) := by
  obtain ⟨e1, q2, q3⟩ := hQr_spec a.qrM (X := U) (h := h)
  unfold hMkObl
  cases hL : hQr a.qrM U h with
  | mk h1 res =>
  rw [hL] at e1 q2 q3
  cases res with
  | error e =>
    refine ⟨e1, fun e' he => ⟨false, ?_⟩, fun p he => by simp at he⟩
    obtain rfl := Except.error.inj he
    unfold mkObl
    rw [show (a.val false).qrM (h.cols U) = _ from q2 e rfl]
  | ok t =>
    obtain ⟨U', R⟩ := t
    obtain ⟨q4, q5⟩ := q3 U' R rfl
    dsimp only at e1 q4 q5 ⊢
    obtain ⟨e2, c2⟩ := hOpCols_spec r.good (f.ext e1) (fun j => (q5 j).2) k le_rfl
    have c3 := fun j : Fin k => c2 j j.2
    generalize hOpCols y.op U' k h1 = AU at *
    have hU1 : ∀ j, U' j < AU.1.next := fun j => lt_of_lt_of_le (q5 j).2 e2.next
    obtain ⟨e3, p2, p3⟩ := hMkProj_spec y.ip a (X := fun j => AU.2 j) (Y := U') (h := AU.1) (fun j => (c3 j).1) hU1
    have hAU : (AU.1.cols fun j : Fin k => AU.2 j) = fun j => s.MlAMr (h1.cols U' j) := funext fun j => (c3 j).2
    have hU2 : AU.1.cols U' = h1.cols U' := e2.cols fun j => (q5 j).2
    have hmk : mkObl s (a.val (decide (U' = fun j : Fin k => AU.2 j))) (h.cols U) =
        match mkProj y.ip a.rt (AU.1.cols fun j : Fin k => AU.2 j) (if U' = (fun j : Fin k => AU.2 j) then none else some (AU.1.cols U'))
          a.orthogonalize a.iterations with
        | .error e => .error e
        | .ok p => .ok ⟨h1.cols U', fun j => s.MlAMr (h1.cols U' j), p⟩ := by
      unfold mkObl
      rw [show (a.val (decide (U' = fun j : Fin k => AU.2 j))).qrM (h.cols U) = _ from q4]
      dsimp only
      rw [hAU, hU2, r.ip]
      by_cases hs : U' = fun j : Fin k => AU.2 j
      · simp only [HOblArgs.val, if_pos hs, decide_eq_true hs]
        rfl
      · simp only [HOblArgs.val, if_neg hs, decide_eq_false hs]
        rfl
    cases hP : hMkProj y.ip a (fun j => AU.2 j) U' AU.1 with
    | mk h3 res =>
    rw [hP] at e3 p2 p3
    cases res with
    | error e =>
      refine ⟨(e1.trans e2).trans e3, fun e' he => ⟨decide (U' = fun j : Fin k => AU.2 j), ?_⟩, fun p he => by simp at he⟩
      obtain rfl := Except.error.inj he
      rw [hmk, p2 _ rfl]
    | ok p =>
      obtain ⟨p4, p5⟩ := p3 p rfl
      refine ⟨(e1.trans e2).trans e3, fun e' he => by simp at he, fun o he => ?_⟩
      obtain rfl := Except.ok.inj he
      rw [p4] at hmk
      refine ⟨⟨h1.cols U', fun j => s.MlAMr (h1.cols U' j), p.val h3⟩, hmk, ⟨fun j => (p5 j).1, fun j => (p5 j).2, rfl⟩, ?_, ?_, fun j => ⟨lt_of_lt_of_le (hU1 j) e3.next,
        lt_of_lt_of_le (c3 j).1 e3.next, (q5 j).1⟩⟩
      · exact (e3.cols hU1).trans hU2
      · exact (e3.cols fun j => (c3 j).1).trans hAU

/-! ## Application of a projection -/

variable {p : HProj 𝕜 k} {v : Proj 𝕜 E k}

theorem hApply1_spec (q : ProjRep n m0 p v) (ip : E → E → 𝕜) {h : Heap E} (f : Fr n m0 h) (a : ℕ) :
    h.Ext (hApply1 ip p h a).1 ∧
      (∀ e, (hApply1 ip p h a).2 = .error e → v.apply1 ip (h.mem a) = .error e) ∧
      (∀ x c, (hApply1 ip p h a).2 = .ok (x, c) → v.apply1 ip (h.mem a) = .ok ((hApply1 ip p h a).1.mem x, c) ∧
        h.next ≤ x ∧ x < (hApply1 ip p h a).1.next) := by
  unfold hApply1
  rw [q.at f]
  cases v.apply1 ip (h.mem a) with
  | error e => exact ⟨.refl h, fun e' he => by simpa using he, fun x c he => by simp at he⟩
  | ok t =>
    obtain ⟨x, c⟩ := t
    refine ⟨h.alloc_ext x, fun e' he => by simp at he, fun x' c' he => ?_⟩
    obtain ⟨rfl, rfl⟩ := Prod.mk.inj (Except.ok.inj he)
    exact ⟨by rw [Heap.alloc_mem], h.alloc_ge x, h.alloc_lt x⟩

theorem hRefineCompl_spec (q : ProjRep n m0 p v) (ip : E → E → 𝕜) {h : Heap E} (f : Fr n m0 h) {z : ℕ} (hz : z < h.next) {N : ℕ}
    (hN : N ≤ z) : ∀ i, h.Ext (hRefineCompl ip p i h z).1 ∧
      (∀ e, (hRefineCompl ip p i h z).2 = .error e → refineCompl (v.apply1x ip) i (h.mem z) = .error e) ∧
      (∀ x, (hRefineCompl ip p i h z).2 = .ok x →
        refineCompl (v.apply1x ip) i (h.mem z) = .ok ((hRefineCompl ip p i h z).1.mem x) ∧
        (N ≤ h.next → N ≤ x) ∧ x < (hRefineCompl ip p i h z).1.next)
  | 0 => ⟨.refl h, fun e he => by simp [hRefineCompl] at he, fun x he => by
      obtain rfl := Except.ok.inj he
      exact ⟨rfl, fun _ => hN, hz⟩⟩
  | i + 1 => by
    obtain ⟨i1, i2, i3⟩ := hRefineCompl_spec q ip f hz hN i
    unfold hRefineCompl refineCompl
    cases hL : hRefineCompl ip p i h z with
    | mk h1 res =>
    rw [hL] at i1 i2 i3
    cases res with
    | error e =>
      rw [i2 e rfl]
      exact ⟨i1, fun e' he => by simpa using he, fun x he => by simp at he⟩
    | ok x =>
      obtain ⟨x1, x2, x3⟩ := i3 x rfl
      rw [x1]
      dsimp only at i1 x1 x3 ⊢
      obtain ⟨a1, a2, a3⟩ := hApply1_spec q ip (f.ext i1) x
      unfold Proj.apply1x
      cases hA : hApply1 ip p h1 x with
      | mk h2 res2 =>
      rw [hA] at a1 a2 a3
      cases res2 with
      | error e =>
        rw [a2 e rfl]
        exact ⟨i1.trans a1, fun e' he => by simpa using he, fun x he => by simp at he⟩
      | ok t =>
        obtain ⟨w, c⟩ := t
        obtain ⟨w1, w2, w3⟩ := a3 w c rfl
        rw [w1]
        dsimp only at a1 w3 ⊢
        refine ⟨(i1.trans a1).trans (Heap.alloc_ext _ _), fun e' he => by simp at he, fun x' he => ?_⟩
        obtain rfl := Except.ok.inj he
        exact ⟨by rw [Heap.alloc_mem, a1.mem x x3], fun hh => hh.trans ((i1.trans a1).next.trans (Heap.alloc_ge _ (h2.mem x - h2.mem w))),
          Heap.alloc_lt _ _⟩

/-- utils.py 604-627: the result is always a new array. -/
theorem hApplyCompl_spec (q : ProjRep n m0 p v) (ip : E → E → 𝕜) {h : Heap E} (f : Fr n m0 h) {a : ℕ} (ha : a < h.next) :
    h.Ext (hApplyCompl ip p h a).1 ∧
      (∀ e, (hApplyCompl ip p h a).2 = .error e → v.applyCompl ip (h.mem a) = .error e) ∧
      (∀ x c, (hApplyCompl ip p h a).2 = .ok (x, c) → v.applyCompl ip (h.mem a) = .ok ((hApplyCompl ip p h a).1.mem x, c) ∧
        h.next ≤ x ∧ x < (hApplyCompl ip p h a).1.next) := by
  unfold hApplyCompl Proj.applyCompl
  by_cases hk : k = 0
  · simp only [if_pos hk]
    refine ⟨Heap.alloc_ext _ _, fun e he => by simp at he, fun x c he => ?_⟩
    obtain ⟨rfl, rfl⟩ := Prod.mk.inj (Except.ok.inj he)
    exact ⟨by rw [Heap.alloc_mem], Heap.alloc_ge _ (h.mem a), Heap.alloc_lt _ _⟩
  simp only [if_neg hk]
  obtain ⟨a1, a2, a3⟩ := hApply1_spec q ip f a
  cases hA : hApply1 ip p h a with
  | mk h1 res =>
  rw [hA] at a1 a2 a3
  cases res with
  | error e =>
    rw [a2 e rfl]
    exact ⟨a1, fun e' he => by simpa using he, fun x c he => by simp at he⟩
  | ok t =>
    obtain ⟨x, c⟩ := t
    obtain ⟨x1, x2, x3⟩ := a3 x c rfl
    rw [x1]
    dsimp only at a1 x3 ⊢
    have e2 := Heap.alloc_ext h1 (h1.mem a - h1.mem x)
    have l2 := Heap.alloc_lt h1 (h1.mem a - h1.mem x)
    have g2 := Heap.alloc_ge h1 (h1.mem a - h1.mem x)
    have v2 := Heap.alloc_mem h1 (h1.mem a - h1.mem x)
    rw [a1.mem a ha] at v2 e2 l2 g2 ⊢
    generalize h1.alloc (h.mem a - h1.mem x) = z at *
    obtain ⟨r1, r2, r3⟩ := hRefineCompl_spec q ip ((f.ext a1).ext e2) l2 g2 (p.iterations - 1)
    have hit : v.iterations = p.iterations := by rw [← q.val]; rfl
    rw [hit, ← v2]
    cases hR : hRefineCompl ip p (p.iterations - 1) z.1 z.2 with
    | mk h3 res3 =>
    rw [hR] at r1 r2 r3
    cases res3 with
    | error e =>
      rw [r2 e rfl]
      exact ⟨(a1.trans e2).trans r1, fun e' he => by simpa using he, fun x c he => by simp at he⟩
    | ok x' =>
      obtain ⟨y1, y2, y3⟩ := r3 x' rfl
      rw [y1]
      refine ⟨(a1.trans e2).trans r1, fun e' he => by simp at he, fun x'' c' he => ?_⟩
      obtain ⟨rfl, rfl⟩ := Prod.mk.inj (Except.ok.inj he)
      exact ⟨rfl, a1.next.trans (y2 e2.next), y3⟩

theorem hMlr_spec (r : SysRepW n m0 s y) {h : Heap E} (f : Fr n m0 h) {z : ℕ} (hz : z < h.next) :
    h.Ext (hMlr y h z).1 ∧ (hMlr y h z).2 < (hMlr y h z).1.next ∧
      (hMlr y h z).1.mem (hMlr y h z).2 = s.Ml (s.b - s.A (h.mem z)) := by
  have e1 := r.A.ext h z f hz
  have v1 := r.A.val h z f hz
  have l1 := r.A.lt h z f hz
  unfold hMlr
  dsimp only
  generalize y.A h z = az at *
  have hb : az.1.mem y.b = s.b := by
    rw [e1.mem _ (lt_of_lt_of_le r.b.1 f.le), f.mem _ r.b.1, r.b.2]
  rw [hb, v1]
  have e2 := Heap.alloc_ext az.1 (s.b - s.A (h.mem z))
  have l2 := Heap.alloc_lt az.1 (s.b - s.A (h.mem z))
  have v2 := Heap.alloc_mem az.1 (s.b - s.A (h.mem z))
  generalize az.1.alloc (s.b - s.A (h.mem z)) = t at *
  have e3 := r.Ml.ext _ _ (f.ext (e1.trans e2)) l2
  have v3 := r.Ml.val _ _ (f.ext (e1.trans e2)) l2
  have l3 := r.Ml.lt _ _ (f.ext (e1.trans e2)) l2
  exact ⟨(e1.trans e2).trans e3, l3, by rw [v3, v2]⟩

/-- deflation.py 58-68: the corrected approximation is always a new array. -/
theorem hCorrect_spec (r : SysRepW n m0 s y) {o : Obl 𝕜 E k} (q : ProjRep n m0 p o.proj) {h : Heap E} (f : Fr n m0 h) {z : ℕ}
    (hz : z < h.next) :
    h.Ext (hCorrect y p h z).1 ∧
      (∀ e, (hCorrect y p h z).2 = .error e → o.correct s (h.mem z) = .error e) ∧
      (∀ x, (hCorrect y p h z).2 = .ok x → o.correct s (h.mem z) = .ok ((hCorrect y p h z).1.mem x) ∧ h.next ≤ x ∧
        x < (hCorrect y p h z).1.next) := by
  obtain ⟨e1, l1, v1⟩ := hMlr_spec r f hz
  unfold hCorrect Obl.correct
  dsimp only
  generalize hMlr y h z = l at *
  have hv := q.at (f.ext e1)
  have hW : l.1.cols p.W = o.proj.W := by rw [← hv]; rfl
  have hQR : p.QR = o.proj.QR := by rw [← hv]; rfl
  rw [hW, hQR, hv, v1, r.ip, e1.mem z hz]
  cases solveQR o.proj.QR (coefs s.ip o.proj.W (s.Ml (s.b - s.A (h.mem z)))) with
  | error e => exact ⟨e1, fun e' he => by simpa using he, fun x he => by simp at he⟩
  | ok c =>
    dsimp only
    cases undoVR o.proj c with
    | error e => exact ⟨e1, fun e' he => by simpa using he, fun x he => by simp at he⟩
    | ok c =>
      refine ⟨e1.trans (Heap.alloc_ext _ _), fun e' he => by simp at he, fun x he => ?_⟩
      obtain rfl := Except.ok.inj he
      exact ⟨by rw [Heap.alloc_mem], e1.next.trans (Heap.alloc_ge _ (h.mem z + lincomb o.proj.W c)), Heap.alloc_lt _ _⟩

/-- deflation.py 145-159. -/
theorem hDeflRes_spec (r : SysRepW n m0 s y) {o : Obl 𝕜 E k} (q : ProjRep n m0 p o.proj) {h : Heap E} (f : Fr n m0 h)
    {x0 : Option ℕ} (hx : ∀ x, x0 = some x → x < h.next) :
    h.Ext (hDeflRes y p h x0).1 ∧
      (∀ e, (hDeflRes y p h x0).2 = .error e → o.initRes s (x0.map h.mem) = .error e) ∧
      (∀ m l nr, (hDeflRes y p h x0).2 = .ok (m, l, nr) → m < (hDeflRes y p h x0).1.next ∧ l < (hDeflRes y p h x0).1.next ∧
        o.initRes s (x0.map h.mem) = .ok ((hDeflRes y p h x0).1.mem m, (hDeflRes y p h x0).1.mem l, nr) ∧
        (hDeflRes y p h x0).1.mem m = s.M ((hDeflRes y p h x0).1.mem l)) := by
  -- the residual
  have hl : h.Ext (hDeflMlr y h x0).1 ∧ (hDeflMlr y h x0).2 < (hDeflMlr y h x0).1.next ∧
      o.initRes s (x0.map h.mem) = match o.proj.applyCompl s.ip ((hDeflMlr y h x0).1.mem (hDeflMlr y h x0).2) with
        | .error e => .error e
        | .ok (PMlr, _) => match npNorm (s.ip PMlr (s.M PMlr)) with
          | .error e => .error e
          | .ok nr => .ok (s.M PMlr, PMlr, nr) := by
    cases hx0 : x0 with
    | none =>
      refine ⟨.refl h, lt_of_lt_of_le r.Mlb.1 f.le, ?_⟩
      rw [show (hDeflMlr y h none).1.mem (hDeflMlr y h none).2 = s.Mlb from (f.mem _ r.Mlb.1).trans r.Mlb.2]
      rfl
    | some x =>
      obtain ⟨e1, l1, v1⟩ := hMlr_spec r f (hx x hx0)
      refine ⟨e1, l1, ?_⟩
      rw [show (hDeflMlr y h (some x)).1.mem (hDeflMlr y h (some x)).2 = _ from v1]
      rfl
  obtain ⟨e1, l1, v1⟩ := hl
  rw [v1]
  unfold hDeflRes
  dsimp only
  generalize hDeflMlr y h x0 = t at *
  obtain ⟨a1, a2, a3⟩ := hApplyCompl_spec q y.ip (f.ext e1) l1
  rw [r.ip] at a1 a2 a3 ⊢
  cases hA : hApplyCompl s.ip p t.1 t.2 with
  | mk h2 res =>
  rw [hA] at a1 a2 a3
  cases res with
  | error e =>
    rw [a2 e rfl]
    exact ⟨e1.trans a1, fun e' he => by simpa using he, fun m l nr he => by simp at he⟩
  | ok z =>
    obtain ⟨z, c⟩ := z
    obtain ⟨z1, z2, z3⟩ := a3 z c rfl
    rw [z1]
    dsimp only at a1 z3 ⊢
    have e3 := r.M.ext _ _ z3
    have v3 := r.M.val _ _ z3
    have l3 := r.M.lt _ _ z3
    generalize y.Mo h2 z = m at *
    rw [v3, e3.mem _ z3]
    cases npNorm (s.ip (h2.mem z) (s.M (h2.mem z))) with
    | error e => exact ⟨(e1.trans a1).trans e3, fun e' he => by simpa using he, fun m l nr he => by simp at he⟩
    | ok nr =>
      refine ⟨(e1.trans a1).trans e3, fun e' he => by simp at he, fun m' l' nr' he => ?_⟩
      simp only [Except.ok.injEq, Prod.mk.injEq] at he
      obtain ⟨rfl, rfl, rfl⟩ := he
      exact ⟨l3, lt_of_lt_of_le z3 e3.next, by rw [v3, e3.mem _ z3], by rw [v3, e3.mem _ z3]⟩

/-- deflation.py 127-143: `P * MlAMr` returns a new array, whatever `MlAMr` returns. -/
theorem hDeflOp_good (r : SysRepW n m0 s y) {o : Obl 𝕜 E k} (q : ProjRep n m0 p o.proj) (hip : IsInner s.ip) :
    OpFr n m0 (o.op s) (hDeflOp y p) ∧ ∀ h a, Fr n m0 h → a < h.next → h.next ≤ (hDeflOp y p h a).2 := by
  have key : ∀ h a, Fr n m0 h → a < h.next → (hDeflOp y p h a).1.mem (hDeflOp y p h a).2 = o.op s (h.mem a) ∧
      h.Ext (hDeflOp y p h a).1 ∧ h.next ≤ (hDeflOp y p h a).2 ∧ (hDeflOp y p h a).2 < (hDeflOp y p h a).1.next := by
    intro h a f ha
    have e1 := r.good.ext h a f ha
    have v1 := r.good.val h a f ha
    have l1 := r.good.lt h a f ha
    have hop : o.op s (h.mem a) = o.compl s (s.MlAMr (h.mem a)) := by
      unfold Obl.op
      rw [dif_pos (compl_isLinear hip o)]
      rfl
    unfold hDeflOp
    dsimp only
    rw [hop]
    unfold Obl.compl
    generalize y.op h a = t at *
    obtain ⟨a1, a2, a3⟩ := hApplyCompl_spec q y.ip (f.ext e1) l1
    rw [r.ip] at a1 a2 a3
    rw [v1] at a2 a3
    rw [r.ip]
    cases hA : hApplyCompl s.ip p t.1 t.2 with
    | mk h2 res =>
    rw [hA] at a1 a2 a3
    cases res with
    | error e =>
      rw [a2 e rfl]
      exact ⟨Heap.alloc_mem _ _, (e1.trans a1).trans (Heap.alloc_ext _ _), (e1.trans a1).next.trans (Heap.alloc_ge _ 0), Heap.alloc_lt _ _⟩
    | ok z =>
      obtain ⟨z, c⟩ := z
      obtain ⟨z1, z2, z3⟩ := a3 z c rfl
      rw [z1]
      exact ⟨rfl, e1.trans a1, e1.next.trans z2, z3⟩
  exact ⟨⟨fun h a f ha => (key h a f ha).1, fun h a f ha => (key h a f ha).2.1, fun h a f ha => Or.inr (key h a f ha).2.2.1,
    fun h a f ha => (key h a f ha).2.2.2⟩, fun h a f ha => (key h a f ha).2.2.1⟩

theorem hNewC_spec (r : SysRepW n m0 s y) {o : Obl 𝕜 E k} (q : ProjRep n m0 p o.proj) {h : Heap E} (f : Fr n m0 h) {a : ℕ}
    (ha : a < h.next) : hNewC y p h a = o.newC s (h.mem a) := by
  have e1 := r.good.ext h a f ha
  have v1 := r.good.val h a f ha
  have l1 := r.good.lt h a f ha
  unfold hNewC Obl.newC
  dsimp only
  generalize y.op h a = t at *
  obtain ⟨a1, a2, a3⟩ := hApplyCompl_spec q y.ip (f.ext e1) l1
  rw [v1] at a2 a3
  rw [← r.ip]
  cases hA : (hApplyCompl y.ip p t.1 t.2).2 with
  | error e => rw [a2 e hA]
  | ok z =>
    obtain ⟨z, c⟩ := z
    rw [(a3 z c hA).1]

/-! ## The driver -/

section driver
variable {S T L D : Type*} {m : HMethod E S} {m₂ : Method ℝ E T} {val : Heap E → S → T} {Inv : Heap E → S → Prop} {X : ℕ → Prop}

theorem HSim.log (hs : HSim n m0 m m₂ val Inv X) {f : Heap E → S → L → Except Err L} {f₂ : T → List D → Except Err D}
    {absL : L → List D} {InvL : L → Prop}
    (herr : ∀ {h s l e}, Inv h s → InvL l → f h s l = .error e → f₂ (val h s) (absL l) = .error e)
    (hok : ∀ {h s l l'}, Inv h s → InvL l → f h s l = .ok l' →
      ∃ d, f₂ (val h s) (absL l) = .ok d ∧ absL l' = absL l ++ [d] ∧ InvL l') :
    HSim n m0 (m.log f) (m₂.log f₂) (fun h s => (val h s.1, absL s.2)) (fun h s => Inv h s.1 ∧ InvL s.2) X where
  fr i := hs.fr i.1
  more i := hs.more i.1
  k i := hs.k i.1
  count := hs.count
  step_fr {h s} i := by
    simp only [HMethod.log]
    cases f h s.1 s.2 with
    | error e => exact hs.fr i.1
    | ok l =>
      have := hs.step_fr i.1
      dsimp only
      cases hS : m.step h s.1 with
      | mk h1 res =>
      rw [hS] at this
      cases res with
      | error e => exact this
      | ok t => exact this
  step_err {h s e} i he := by
    simp only [HMethod.log] at he
    simp only [Method.log]
    cases hf : f h s.1 s.2 with
    | error e' =>
      rw [hf] at he
      obtain rfl := Except.error.inj he
      rw [herr i.1 i.2 hf]
    | ok l =>
      rw [hf] at he
      dsimp only at he
      obtain ⟨d, d1, d2, d3⟩ := hok i.1 i.2 hf
      rw [d1]
      dsimp only
      cases hS : m.step h s.1 with
      | mk h1 res =>
      rw [hS] at he
      cases res with
      | error e' =>
        obtain rfl := Except.error.inj he
        rw [hs.step_err i.1 (by rw [hS])]
      | ok t => simp at he
  step_ok {h s s' r} i he := by
    simp only [HMethod.log] at he
    simp only [Method.log, HMethod.log]
    cases hf : f h s.1 s.2 with
    | error e' =>
      rw [hf] at he
      simp at he
    | ok l =>
      rw [hf] at he
      dsimp only at he
      obtain ⟨d, d1, d2, d3⟩ := hok i.1 i.2 hf
      rw [d1]
      dsimp only
      cases hS : m.step h s.1 with
      | mk h1 res =>
      rw [hS] at he
      cases res with
      | error e' => simp at he
      | ok t =>
        obtain ⟨t, r'⟩ := t
        obtain ⟨rfl, rfl⟩ := Prod.mk.inj (Except.ok.inj he)
        obtain ⟨k1, k2⟩ := hs.step_ok i.1 (show (m.step h s.1).2 = .ok (t, r') by rw [hS])
        rw [hS] at k1 k2
        rw [k1]
        dsimp only
        rw [d2]
        exact ⟨rfl, k2, d3⟩
  xk_ext i := hs.xk_ext i.1
  xk_err i he := hs.xk_err i.1 he
  xk_ok i he := hs.xk_ok i.1 he
  inv_ext i e := by
    obtain ⟨k1, k2⟩ := hs.inv_ext i.1 e
    exact ⟨⟨k1, i.2⟩, by rw [k2]⟩
  post r i := by
    obtain ⟨k1, k2⟩ := hs.post r i.1
    exact ⟨⟨k1, i.2⟩, by
      simp only [HMethod.log, Method.log]
      rw [k2]⟩

/-- The part of `HSim` about `_get_xk` for the mixin. -/
theorem hThen_spec (r : SysRepW n m0 s y) {o : Obl 𝕜 E k} (q : ProjRep n m0 p o.proj) {g : Heap E → S → Heap E × Except Err ℕ}
    {w w' : Except Err E} (w1 : ∀ e, w = .error e → w' = .error e) (w2 : ∀ x, w = .ok x → w' = o.correct s x)
    {h : Heap E} {t : S} (f : Fr n m0 h) (g1 : h.Ext (g h t).1) (g2 : ∀ e, (g h t).2 = .error e → w = .error e)
    (g3 : ∀ a, (g h t).2 = .ok a → a < (g h t).1.next ∧ w = .ok ((g h t).1.mem a)) :
    h.Ext (hThen y p g h t).1 ∧
      (∀ e, (hThen y p g h t).2 = .error e → w' = .error e) ∧
      (∀ a, (hThen y p g h t).2 = .ok a → a < (hThen y p g h t).1.next ∧ n ≤ a ∧ w' = .ok ((hThen y p g h t).1.mem a)) := by
  unfold hThen
  cases hg : g h t with
  | mk h1 res =>
  rw [hg] at g1 g2 g3
  cases res with
  | error e =>
    rw [w1 e (g2 e rfl)]
    exact ⟨g1, fun e' he => by simpa using he, fun a he => by simp at he⟩
  | ok x =>
    obtain ⟨x1, x2⟩ := g3 x rfl
    rw [w2 _ x2]
    dsimp only at g1 x1 ⊢
    obtain ⟨c1, c2, c3⟩ := hCorrect_spec r q (f.ext g1) x1
    refine ⟨g1.trans c1, c2, fun a he => ?_⟩
    obtain ⟨k1, k2, k3⟩ := c3 a he
    exact ⟨k3, (f.ext g1).le.trans k2, k1⟩

variable {a : HArgs}

theorem hRunC_spec (hs : HSim n m0 m m₂ val Inv X) (r : SysRepW n m0 s y) (hex : ∀ e, a.exact = some e → e < n) {h : Heap E}
    (f : Fr n m0 h) {x0 : ℕ} (hx0 : x0 < h.next) {v : E} (hv : h.mem x0 = if y.nb = 0 then 0 else v) (hX : y.nb = 0 → X x0)
    {r0 : ℝ} {xk0 : Heap E → ℕ → Heap E × Except Err ℕ} {xv : E → Except Err E}
    (h1 : h.Ext (xk0 h x0).1) (h2 : ∀ e, (xk0 h x0).2 = .error e → xv (h.mem x0) = .error e)
    (h3 : ∀ z, (xk0 h x0).2 = .ok z → z < (xk0 h x0).1.next ∧ xv (h.mem x0) = .ok ((xk0 h x0).1.mem z))
    {init : Heap E → Heap E × Except Err S} {mkS : E → T}
    (hinit : ∀ h', h.Ext h' → ∃ s', (init h').2 = .ok s' ∧ h'.Ext (init h').1 ∧ Inv (init h').1 s' ∧
      val (init h').1 s' = mkS (h.mem x0)) :
    HCall n m0 val X (hRunC y a m x0 r0 xk0 init h) (run (mkCfg s (a.val m0)) m₂ v r0 mkS xv) := by
  have hb : ((mkCfg s (a.val m0)).MMlbNorm == 0) = decide (y.nb = 0) := by
    rw [r.nb]
    rfl
  -- the initial error norm
  have hE : ∃ h1 res, hInitErrC y a xk0 x0 h = (h1, res) ∧ h.Ext h1 ∧
      initErr (mkCfg s (a.val m0)) (xv (h.mem x0)) = res := by
    unfold hInitErrC
    cases hx : a.exact with
    | none =>
      refine ⟨h, .ok none, rfl, .refl h, ?_⟩
      simp only [initErr, mkCfg, HArgs.val, hx, Option.map_none]
    | some ex =>
      have hi : (mkCfg s (a.val m0)).errNorm = some fun x => npNorm (y.ip (m0 ex - x) (m0 ex - x)) := by
        simp only [mkCfg, HArgs.val, hx, Option.map_some, r.ip]
      unfold initErr
      rw [hi]
      dsimp only
      cases hz : xk0 h x0 with
      | mk h' res =>
      rw [hz] at h1 h2 h3
      cases res with
      | error e =>
        rw [h2 e rfl]
        exact ⟨h', .error e, rfl, h1, rfl⟩
      | ok z =>
        obtain ⟨z1, z2⟩ := h3 z rfl
        rw [z2]
        dsimp only
        obtain ⟨e1, e2⟩ := hErr_spec y.ip ex h' z
        dsimp only at h1
        rw [(f.ext h1).mem ex (hex ex hx)] at e2
        rw [← e2]
        cases hd : hErr y.ip ex h' z with
        | mk h'' res =>
        rw [hd] at e1
        cases res with
        | error e => exact ⟨h'', _, rfl, h1.trans e1, rfl⟩
        | ok e => exact ⟨h'', _, rfl, h1.trans e1, rfl⟩
  obtain ⟨h1, res, hE1, e1, hE2⟩ := hE
  have hx : (if decide (y.nb = 0) = true then (0 : E) else v) = h.mem x0 := by
    rw [hv]
    by_cases h0 : y.nb = 0 <;> simp [h0]
  unfold hRunC run
  dsimp only
  rw [hE1, hb, hx, hE2]
  cases res with
  | error e =>
    exact ⟨f.ext e1, fun st e' h => by simp at h, rfl⟩
  | ok en =>
    obtain ⟨s', i1, i2, i3, i4⟩ := hinit h1 e1
    cases hi : init h1 with
    | mk h2 res2 =>
    rw [hi] at i1 i2 i3 i4
    dsimp only at i1 i2 i3 i4
    subst i1
    dsimp only
    rw [hi]
    dsimp only
    have ok : StOK Inv X ⟨h2, s', 0, if y.nb = 0 then some x0 else none, if y.nb = 0 then [0] else [r0 / y.nb], en, 0⟩ := by
      refine ⟨i3, fun x hx => ?_⟩
      dsimp only at hx ⊢
      split at hx
      · obtain rfl := Option.some.inj hx
        exact ⟨lt_of_lt_of_le hx0 (e1.trans i2).next, hX ‹_›⟩
      · simp at hx
    obtain ⟨l1, l2, l3⟩ := hLoop_spec hs r hex a.maxiter ok
    refine ⟨l1, fun st e h => ?_, ?_⟩
    · have h := Except.ok.inj h
      rw [h] at l2
      refine ⟨by rw [h], fun x he hx => ?_⟩
      rw [h] at l1
      exact l2 x he hx
    · have habs : (HSt.abs val ⟨h2, s', 0, if y.nb = 0 then some x0 else none, if y.nb = 0 then [0] else [r0 / y.nb], en, 0⟩ : St ℝ E T) =
          ⟨mkS (h.mem x0), 0, if decide (y.nb = 0) = true then some 0 else none,
            if decide (y.nb = 0) = true then [0] else [r0 / (mkCfg s (a.val m0)).MMlbNorm], en, 0⟩ := by
        unfold HSt.abs
        dsimp only
        rw [i4]
        by_cases h0 : y.nb = 0
        · have : h2.mem x0 = 0 := by
            rw [(e1.trans i2).mem x0 hx0, hv, if_pos h0]
          simp [h0, this]
        · have hnb : (mkCfg s (a.val m0)).MMlbNorm = y.nb := r.nb.symm
          simp [h0, hnb]
      rw [habs] at l3
      exact l3

end driver

/-! ## `DeflatedGmres` and `DeflatedMinres` -/

variable {o : Obl 𝕜 E k} {a : HArgs} {h : Heap E}

theorem SysRepW.deflArn (r : SysRepW n m0 s y) (q : ProjRep n m0 p o.proj) (hip : IsInner s.ip) (maxiter : ℕ) (ortho : Ortho) :
    ArnRep n m0 (y.deflArn p maxiter ortho) (s.arnCfg (o.hooks s) maxiter ortho) := by
  refine ⟨(hDeflOp_good r q hip).1, ?_, r.ip, rfl, rfl⟩
  have := r.M
  exact this

/-- The new column of `C` in the step of an Arnoldi object (utils.py 968: the operator gets a copy of the column of `V`). -/
theorem hNewC_arn (r : SysRepW n m0 s y) (q : ProjRep n m0 p o.proj) {N : ℕ} {b : Bool} {m : MArn 𝕜} (ow : ArnOwn n N m0 b h m)
    (hi : m.iter ≤ N) :
    hNewC y p (h.alloc (h.mem (m.vb + m.iter))).1 (h.alloc (h.mem (m.vb + m.iter))).2 =
      o.newC s ((MArn.val N h m : Arn 𝕜 E).V (MArn.val N h m : Arn 𝕜 E).iter) := by
  rw [hNewC_spec r q (ow.fr.ext (Heap.alloc_ext _ _)) (Heap.alloc_lt _ _), Heap.alloc_mem]
  have : (MArn.val N h m : Arn 𝕜 E).V (MArn.val N h m : Arn 𝕜 E).iter = h.mem (m.vb + m.iter) := by
    simp [MArn.val, hi]
  rw [this]

theorem gmresXk_error {f : E →ₗ[𝕜] E} {c : E → Except Err E} {t : GmresSt 𝕜 E} {e : Err} (h : gmresXk f .ok t = .error e) :
    gmresXk f c t = .error e := by
  unfold gmresXk at h ⊢
  dsimp only at h ⊢
  split at h <;> rename_i hc
  · rw [if_pos hc]
    split at h
    · exact h
    · simp at h
  · simp at h

theorem gmresXk_ok {f : E →ₗ[𝕜] E} {c : E → Except Err E} {t : GmresSt 𝕜 E} {x : E} (h : gmresXk f .ok t = .ok x) :
    gmresXk f c t = c x := by
  unfold gmresXk at h ⊢
  dsimp only at h ⊢
  split at h <;> rename_i hc
  · rw [if_pos hc]
    split at h
    · simp at h
    · obtain rfl := Except.ok.inj h
      rfl
  · rw [if_neg hc]
    obtain rfl := Except.ok.inj h
    rfl

theorem hdGmres_xk (r : SysRepW n m0 s y) (q : ProjRep n m0 p o.proj) {N : ℕ} {b : Bool} {x0 : ℕ} {t : HGmresSt 𝕜}
    (ow : GmresOwn n N m0 b x0 h t) :
    h.Ext (hThen y p (hgmresXk y.Mr) h t).1 ∧
      (∀ e, (hThen y p (hgmresXk y.Mr) h t).2 = .error e → gmresXk s.Mr (o.correct s) (HGmresSt.val N h t) = .error e) ∧
      (∀ a, (hThen y p (hgmresXk y.Mr) h t).2 = .ok a → a < (hThen y p (hgmresXk y.Mr) h t).1.next ∧ n ≤ a ∧
        gmresXk s.Mr (o.correct s) (HGmresSt.val N h t) = .ok ((hThen y p (hgmresXk y.Mr) h t).1.mem a)) := by
  obtain ⟨k1, k2, k3⟩ := hgmresXk_spec r.Mr ow
  exact hThen_spec r q (fun e he => gmresXk_error he) (fun x hx => gmresXk_ok hx) ow.arn.fr k1 k2 fun a ha => ⟨(k3 a ha).1, (k3 a ha).2.2⟩

theorem hdGmres_sim (r : SysRepW n m0 s y) (q : ProjRep n m0 p o.proj) (hip : IsInner s.ip) (ortho : Ortho) (maxiter x0 : ℕ) :
    HSim n m0 (hdGmresMethod y p ortho maxiter)
      ((gmresMethod (arnAdvance (s.arnCfg (o.hooks s) maxiter ortho)) s.Mr (o.correct s) maxiter).log
        fun st _ => o.newC s (st.arn.V st.arn.iter))
      (fun h t => (HGmresSt.val maxiter h t.1, t.2)) (fun h t => GmresOwn n maxiter m0 y.M.isSome x0 h t.1 ∧ True) (fun x => n ≤ x) := by
  refine HSim.log (absL := id) (InvL := fun _ => True) (m := hdGmresBase y p ortho maxiter) (Inv := GmresOwn n maxiter m0 y.M.isSome x0) (val := HGmresSt.val maxiter)
    (m₂ := gmresMethod (arnAdvance (s.arnCfg (o.hooks s) maxiter ortho)) s.Mr (o.correct s) maxiter)
    { fr := fun o => o.arn.fr
      more := fun _ => rfl
      k := fun _ => rfl
      count := rfl
      step_fr := fun o => (hgmresStep_spec (r.deflArn q hip maxiter ortho) o).1
      step_err := fun o he => (hgmresStep_spec (r.deflArn q hip maxiter ortho) o).2.1 _ he
      step_ok := fun o he => (hgmresStep_spec (r.deflArn q hip maxiter ortho) o).2.2 _ _ he
      xk_ext := fun o => (hdGmres_xk r q o).1
      xk_err := fun o he => (hdGmres_xk r q o).2.1 _ he
      xk_ok := fun o he => (hdGmres_xk r q o).2.2 _ he
      inv_ext := fun o e => o.ext e
      post := fun _ o => ⟨o, rfl⟩ } ?_ ?_
  · intro h t l e ow _ he
    dsimp only at he
    rw [hNewC_arn r q ow.arn ow.iter] at he
    split at he
    · rename_i hc
      obtain rfl := Except.error.inj he
      exact hc
    · simp at he
  · intro h t l l' ow _ he
    dsimp only at he
    rw [hNewC_arn r q ow.arn ow.iter] at he
    split at he
    · simp at he
    · rename_i c hc
      obtain rfl := Except.ok.inj he
      exact ⟨c, hc, rfl, trivial⟩

theorem hdMinres_xk (r : SysRepW n m0 s y) (q : ProjRep n m0 p o.proj) {S : Type*} {t : S} {x0 yk : S → ℕ} (f : Fr n m0 h)
    (hx : x0 t < h.next) (hy : yk t < h.next) :
    let g := hThen y p (fun h (s : S) => let r := hXk y.Mr (x0 s) (yk s) h; (r.1, .ok r.2)) h t
    h.Ext g.1 ∧
      (∀ e, g.2 = .error e → o.correct s (h.mem (x0 t) + s.Mr (h.mem (yk t))) = .error e) ∧
      (∀ a, g.2 = .ok a → a < g.1.next ∧ n ≤ a ∧ o.correct s (h.mem (x0 t) + s.Mr (h.mem (yk t))) = .ok (g.1.mem a)) := by
  intro g
  obtain ⟨e1, e2, e3, e4⟩ := hXk_spec r.Mr f hx hy
  refine hThen_spec r q (w := .ok (h.mem (x0 t) + s.Mr (h.mem (yk t)))) (fun e he => by simp at he)
    (fun x hx => by rw [Except.ok.inj hx]) f e1 (fun e he => by simp at he) fun a ha => ?_
  obtain rfl := Except.ok.inj ha
  exact ⟨e2, congrArg Except.ok e4.symm⟩

theorem hdMinres_sim (r : SysRepW n m0 s y) (q : ProjRep n m0 p o.proj) (hip : IsInner s.ip) (ortho : Ortho) (maxiter : ℕ) :
    HSim n m0 (hdMinresMethod y p ortho maxiter)
      ((minresMethod (arnAdvance (s.arnCfg (o.hooks s) maxiter ortho)) s.Mr (o.correct s) maxiter).log
        fun st _ => o.newC s (st.arn.V st.arn.iter))
      (fun h t => (HMinresSt.val maxiter h t.1, t.2)) (fun h t => MinresOwn n maxiter m0 y.M.isSome h t.1 ∧ True) (fun x => n ≤ x) := by
  refine HSim.log (absL := id) (InvL := fun _ => True) (m := hdMinresBase y p ortho maxiter) (Inv := MinresOwn n maxiter m0 y.M.isSome) (val := HMinresSt.val maxiter)
    (m₂ := minresMethod (arnAdvance (s.arnCfg (o.hooks s) maxiter ortho)) s.Mr (o.correct s) maxiter)
    { fr := fun o => o.arn.fr
      more := fun _ => rfl
      k := fun _ => rfl
      count := rfl
      step_fr := fun o => (hminresStep_spec (r.deflArn q hip maxiter ortho) o).1
      step_err := fun o he => (hminresStep_spec (r.deflArn q hip maxiter ortho) o).2.1 _ he
      step_ok := fun o he => (hminresStep_spec (r.deflArn q hip maxiter ortho) o).2.2 _ _ he
      xk_ext := fun {h t} o => (hdMinres_xk (t := t) (x0 := HMinresSt.x0) (yk := HMinresSt.yk) r q o.arn.fr o.x0 o.yk).1
      xk_err := fun {h t e} o he => (hdMinres_xk (t := t) (x0 := HMinresSt.x0) (yk := HMinresSt.yk) r q o.arn.fr o.x0 o.yk).2.1 _ he
      xk_ok := fun {h t a} o he => (hdMinres_xk (t := t) (x0 := HMinresSt.x0) (yk := HMinresSt.yk) r q o.arn.fr o.x0 o.yk).2.2 _ he
      inv_ext := fun o e => o.ext e
      post := fun _ o => ⟨o, rfl⟩ } ?_ ?_
  · intro h t l e ow _ he
    dsimp only at he
    rw [hNewC_arn r q ow.arn ow.iter] at he
    split at he
    · rename_i hc
      obtain rfl := Except.error.inj he
      exact hc
    · simp at he
  · intro h t l l' ow _ he
    dsimp only at he
    rw [hNewC_arn r q ow.arn ow.iter] at he
    split at he
    · simp at he
    · rename_i c hc
      obtain rfl := Except.ok.inj he
      exact ⟨c, hc, rfl, trivial⟩

/-! ## `DeflatedCg` -/

theorem fromEnd_append {T : Type*} (l : List T) (u : T) {i : ℕ} (hi : 0 < i) : fromEnd (l ++ [u]) (i + 1) = fromEnd l i := by
  unfold fromEnd
  simp only [List.length_append, List.length_cons, List.length_nil, zero_add, Nat.add_le_add_iff_right, Nat.add_sub_add_right]
  split
  · rw [List.getElem?_append_left (by omega)]
  · rfl

theorem fromEnd_zip {T U W : Type*} (f : T → U → W) {a : List T} {b : List U} (h : a.length = b.length) (i : ℕ) :
    (fromEnd a i = none ∧ fromEnd b i = none ∧ fromEnd (List.zipWith f a b) i = none) ∨
      ∃ x z, fromEnd a i = some x ∧ fromEnd b i = some z ∧ x ∈ a ∧ fromEnd (List.zipWith f a b) i = some (f x z) := by
  have hz : (List.zipWith f a b).length = a.length := by simp [h]
  unfold fromEnd
  rw [hz, ← h]
  split
  · rename_i hi
    by_cases hl : a.length - i < a.length
    · refine Or.inr ⟨a[a.length - i], b[a.length - i], List.getElem?_eq_getElem hl, List.getElem?_eq_getElem (h ▸ hl),
        List.getElem_mem _, ?_⟩
      rw [List.getElem?_eq_getElem (by rw [hz]; exact hl), List.getElem_zipWith]
    · refine Or.inl ⟨List.getElem?_eq_none (by omega), List.getElem?_eq_none (by omega), List.getElem?_eq_none (by omega)⟩
  · exact Or.inl ⟨rfl, rfl, rfl⟩

/-- The lists of `DeflatedCg` as values. -/
def UApMem.abs (l : UApMem 𝕜 k) : List ((Fin k → 𝕜) × Option (Fin k → 𝕜)) :=
  List.zipWith (fun a c => ((l.h.mem a).getD 0, c)) l.UAps l.C

/-- The arrays in `_UAps` exist and have no NaN entries. -/
structure UApMem.OK (l : UApMem 𝕜 k) : Prop where
  len : l.UAps.length = l.C.length
  lt : ∀ a ∈ l.UAps, a < l.h.next
  some : ∀ a ∈ l.UAps, ∃ u, l.h.mem a = some u

/-- `Obl.newCgC` after the application of the operator. -/
noncomputable def uapCol (n : ℕ) (r1 r2 r3 : ℝ) (UAp : Fin k → 𝕜) (l : List ((Fin k → 𝕜) × Option (Fin k → 𝕜))) :
    (Fin k → 𝕜) × Option (Fin k → 𝕜) :=
  if r1 = 0 ∨ (0 < n ∧ r2 = 0) ∨ (1 < n ∧ r3 = 0) then (UAp, none)
  else
    let c := UAp
    let c := if 0 < n then match fromEnd l 1 with
        | some (u, _) => c - ((1 + r1 / r2 : ℝ) : 𝕜) • u
        | none => c
      else c
    let c := if 1 < n then match fromEnd l 2 with
        | some (u, _) => c + ((r2 / r3 : ℝ) : 𝕜) • u
        | none => c
      else c
    let c := (((-1 : ℝ) ^ n / Real.sqrt r1 : ℝ) : 𝕜) • c
    if 0 < n then match fromEnd l 1 with
        | some (_, some w) => (UAp, some (c - ((Real.sqrt (r2 / r1) : ℝ) : 𝕜) • w))
        | some (_, none) => (UAp, none)
        | none => (UAp, some c)
    else (UAp, some c)

theorem newCgC_eq (s : LS 𝕜 E) (o : Obl 𝕜 E k) (st : CgSt 𝕜 E) (l : List ((Fin k → 𝕜) × Option (Fin k → 𝕜))) :
    o.newCgC s st l = match cgDir st with
      | .error e => .error e
      | .ok p => match o.newC s p with
        | .error e => .error e
        | .ok UAp => .ok (uapCol st.k (st.rho st.k) (st.rho (st.k - 1)) (st.rho (st.k - 2)) UAp l) := by
  unfold Obl.newCgC uapCol
  cases cgDir st with
  | error e => rfl
  | ok p =>
    dsimp only
    cases o.newC s p with
    | error e => rfl
    | ok UAp =>
      dsimp only
      split
      · rfl
      · split
        · cases fromEnd l 1 with
          | none => rfl
          | some t =>
            obtain ⟨u, w⟩ := t
            cases w with
            | none => rfl
            | some w => rfl
        · rfl

theorem ite_write {T : Type*} (h : Heap T) (p : Prop) [Decidable p] (a : ℕ) (v : T) :
    (if p then h.write a v else h) = h.write a (if p then v else h.mem a) := by
  split
  · rfl
  · simp [Heap.write]

theorem ite_write2 {T : Type*} (h : Heap T) (p : Prop) [Decidable p] (a : ℕ) (v w : T) :
    (if p then h.write a v else h.write a w) = h.write a (if p then v else w) := by
  split <;> rfl

theorem write_write {T : Type*} (h : Heap T) (a : ℕ) (v w : T) : (h.write a v).write a w = h.write a w := by
  simp [Heap.write]

theorem write_at {T : Type*} (h : Heap T) (a : ℕ) (v : T) : (h.write a v).mem a = v := by simp [Heap.write]

theorem write_other {T : Type*} (h : Heap T) {a i : ℕ} (hi : i ≠ a) (v : T) : (h.write a v).mem i = h.mem i := by simp [Heap.write, hi]

/-- deflation.py 251-262: the in-place changes of `c` affect neither the arrays in `_UAps` nor the earlier columns of `C`. -/
theorem hUApPush_spec (n : ℕ) (r1 r2 r3 : ℝ) (UAp : Fin k → 𝕜) {l : UApMem 𝕜 k} (i : l.OK) :
    (hUApPush n r1 r2 r3 UAp l).OK ∧ (hUApPush n r1 r2 r3 UAp l).abs = l.abs ++ [uapCol n r1 r2 r3 UAp l.abs] := by
  have key : hUApPush n r1 r2 r3 UAp l =
      ⟨((l.h.alloc (some UAp)).1.alloc (some UAp)).1.write (l.h.next + 1) (uapCol n r1 r2 r3 UAp l.abs).2,
        l.UAps ++ [l.h.next], l.C ++ [(uapCol n r1 r2 r3 UAp l.abs).2]⟩ := by
    unfold hUApPush
    dsimp only
    have h1 : (l.h.alloc (some UAp)).2 = l.h.next := rfl
    have h2 : (l.h.alloc (some UAp)).1.mem l.h.next = some UAp := by simp [Heap.alloc]
    rw [h1, h2]
    have h3 : ((l.h.alloc (some UAp)).1.alloc (some UAp)).2 = l.h.next + 1 := rfl
    rw [h3]
    have h4 : ((l.h.alloc (some UAp)).1.alloc (some UAp)).1.mem (l.h.next + 1) = some UAp := by simp [Heap.alloc]
    have h5 : ∀ a, a < l.h.next → ((l.h.alloc (some UAp)).1.alloc (some UAp)).1.mem a = l.h.mem a := by
      intro a ha
      have : a ≠ l.h.next + 1 := by omega
      have : a ≠ l.h.next := by omega
      simp [Heap.alloc, *]
    generalize ((l.h.alloc (some UAp)).1.alloc (some UAp)).1 = H at *
    simp only [ite_write, ite_write2, write_write, write_at]
    rw [fromEnd_append _ _ one_pos, fromEnd_append _ _ two_pos, h4]
    have hcol : ∀ v, v = (uapCol n r1 r2 r3 UAp l.abs).2 →
        (⟨H.write (l.h.next + 1) v, l.UAps ++ [l.h.next], l.C ++ [v]⟩ : UApMem 𝕜 k) =
          ⟨H.write (l.h.next + 1) (uapCol n r1 r2 r3 UAp l.abs).2, l.UAps ++ [l.h.next], l.C ++ [(uapCol n r1 r2 r3 UAp l.abs).2]⟩ := by
      rintro v rfl
      rfl
    apply hcol
    have hw : ∀ a v, a ∈ l.UAps → (H.write (l.h.next + 1) v).mem a = l.h.mem a := fun a v ha => by
      have := i.lt a ha
      rw [write_other _ (by omega), h5 a this]
    have z1 := fromEnd_zip (fun a c => ((l.h.mem a).getD 0, c)) i.len 1
    have z2 := fromEnd_zip (fun a c => ((l.h.mem a).getD 0, c)) i.len 2
    rw [show List.zipWith (fun a c => ((l.h.mem a).getD 0, c)) l.UAps l.C = l.abs from rfl] at z1 z2
    unfold uapCol
    rcases z1 with ⟨a1, a2, a3⟩ | ⟨x1, w1, a1, a2, a4, a3⟩ <;> rcases z2 with ⟨b1, b2, b3⟩ | ⟨x2, w2, b1, b2, b4, b3⟩
    all_goals rw [a1, a2, a3, b1, b3]
    all_goals dsimp only
    · by_cases c1 : r1 = 0 <;> by_cases c2 : r2 = 0 <;> by_cases c3 : r3 = 0 <;> by_cases n0 : 0 < n <;> by_cases n1 : 1 < n <;>
        simp [c1, c2, c3, n0, n1]
    · obtain ⟨u2, hu2⟩ := i.some x2 b4
      simp only [hw x2 _ b4, hu2]
      by_cases c1 : r1 = 0 <;> by_cases c2 : r2 = 0 <;> by_cases c3 : r3 = 0 <;> by_cases n0 : 0 < n <;> by_cases n1 : 1 < n <;>
        simp [c1, c2, c3, n0, n1]
    · obtain ⟨u1, hu1⟩ := i.some x1 a4
      have hx1 : H.mem x1 = some u1 := by rw [h5 x1 (i.lt x1 a4), hu1]
      simp only [hx1, hu1]
      cases w1 <;>
      by_cases c1 : r1 = 0 <;> by_cases c2 : r2 = 0 <;> by_cases c3 : r3 = 0 <;> by_cases n0 : 0 < n <;> by_cases n1 : 1 < n <;>
        simp [c1, c2, c3, n0, n1]
    · obtain ⟨u1, hu1⟩ := i.some x1 a4
      have hx1 : H.mem x1 = some u1 := by rw [h5 x1 (i.lt x1 a4), hu1]
      obtain ⟨u2, hu2⟩ := i.some x2 b4
      simp only [hw x2 _ b4, hu2, hx1, hu1]
      cases w1 <;>
      by_cases c1 : r1 = 0 <;> by_cases c2 : r2 = 0 <;> by_cases c3 : r3 = 0 <;> by_cases n0 : 0 < n <;> by_cases n1 : 1 < n <;>
        simp [c1, c2, c3, n0, n1]
  rw [key]
  generalize hc : uapCol n r1 r2 r3 UAp l.abs = c
  have hc1 : c.1 = UAp := by
    rw [← hc]
    unfold uapCol
    dsimp only
    split
    · rfl
    · split
      · split <;> rfl
      · rfl
  have h2 : (((l.h.alloc (some UAp)).1.alloc (some UAp)).1.write (l.h.next + 1) c.2).mem l.h.next = some UAp := by
    simp [Heap.alloc, Heap.write]
  have h5 : ∀ a, a < l.h.next → (((l.h.alloc (some UAp)).1.alloc (some UAp)).1.write (l.h.next + 1) c.2).mem a = l.h.mem a := by
    intro a ha
    have : a ≠ l.h.next + 1 := by omega
    have : a ≠ l.h.next := by omega
    simp [Heap.alloc, Heap.write, *]
  have hn : (((l.h.alloc (some UAp)).1.alloc (some UAp)).1.write (l.h.next + 1) c.2).next = l.h.next + 2 := rfl
  generalize ((l.h.alloc (some UAp)).1.alloc (some UAp)).1.write (l.h.next + 1) c.2 = H at *
  refine ⟨⟨by simp [i.len], fun a ha => ?_, fun a ha => ?_⟩, ?_⟩
  · rcases List.mem_append.1 ha with ha | ha
    · have := i.lt a ha
      dsimp only
      omega
    · obtain rfl := List.mem_singleton.1 ha
      dsimp only
      omega
  · rcases List.mem_append.1 ha with ha | ha
    · obtain ⟨u, hu⟩ := i.some a ha
      exact ⟨u, by rw [h5 a (i.lt a ha), hu]⟩
    · obtain rfl := List.mem_singleton.1 ha
      exact ⟨UAp, h2⟩
  · unfold UApMem.abs
    dsimp only
    rw [List.zipWith_append i.len]
    congr 1
    · have hm : ∀ (as : List ℕ) (cs : List (Option (Fin k → 𝕜))), (∀ a ∈ as, a < l.h.next) →
          List.zipWith (fun a c => ((H.mem a).getD 0, c)) as cs = List.zipWith (fun a c => ((l.h.mem a).getD 0, c)) as cs := by
        intro as
        induction as with
        | nil => intro cs _; rfl
        | cons a as ih =>
          intro cs h
          cases cs with
          | nil => rfl
          | cons c cs =>
            simp only [List.zipWith_cons_cons]
            rw [h5 a (h a (by simp)), ih cs fun b hb => h b (by simp [hb])]
      exact hm _ _ i.lt
    · simp only [List.zipWith_cons_cons, List.zipWith_nil_left, h2, Option.getD_some]
      rw [← hc1]

theorem hdCg_sim (r : SysRepW n m0 s y) (q : ProjRep n m0 p o.proj) (hip : IsInner s.ip) (store : Bool) (maxiter : ℕ) :
    HSim n m0 (hdCgMethod y p store maxiter)
      ((cgMethod s.ip s.M (o.op s) s.Mr (o.correct s) store maxiter).log (o.newCgC s))
      (fun h t => (HCgSt.val h t.1, t.2.abs)) (fun h t => CgOwn n m0 h t.1 ∧ t.2.OK) (fun x => n ≤ x) := by
  have hg := (hDeflOp_good r q hip).1
  have hcs : cgStep y.ip s.M (o.op s) store = cgStep s.ip s.M (o.op s) store := by rw [r.ip]
  refine HSim.log (absL := UApMem.abs) (InvL := UApMem.OK) (m := hdCgBase y p store maxiter) (Inv := CgOwn n m0) (val := HCgSt.val)
    (m₂ := cgMethod s.ip s.M (o.op s) s.Mr (o.correct s) store maxiter)
    { fr := fun o => o.fr
      more := fun _ => rfl
      k := fun _ => rfl
      count := rfl
      step_fr := fun o => (hcgStep_spec (ip := y.ip) r.M hg store o).1
      step_err := fun o he => by
        have := (hcgStep_spec (ip := y.ip) r.M hg store o).2.1 _ he
        rw [hcs] at this
        exact this
      step_ok := fun o he => by
        have := (hcgStep_spec (ip := y.ip) r.M hg store o).2.2 _ _ he
        rw [hcs] at this
        exact this
      xk_ext := fun {h t} o => (hdMinres_xk (t := t) (x0 := HCgSt.x0) (yk := HCgSt.yk) r q o.fr o.x0 o.yk.2).1
      xk_err := fun {h t e} o he => (hdMinres_xk (t := t) (x0 := HCgSt.x0) (yk := HCgSt.yk) r q o.fr o.x0 o.yk.2).2.1 _ he
      xk_ok := fun {h t a} o he => (hdMinres_xk (t := t) (x0 := HCgSt.x0) (yk := HCgSt.yk) r q o.fr o.x0 o.yk.2).2.2 _ he
      inv_ext := fun o e => o.ext e
      post := fun q o => by
        cases q with
        | none => exact ⟨o, rfl⟩
        | some q => exact ⟨⟨o.fr, o.x0, o.yk, o.Mlrk, o.MMlrk, o.p, o.yr, o.yp, o.rp, o.xy, o.xr⟩, rfl⟩ } ?_ ?_
  · intro h t l e ow _ he
    rw [newCgC_eq]
    obtain ⟨e1, d2, d3⟩ := hcgDir_spec (𝕜 := 𝕜) ow
    unfold hNewCgC at he
    cases hD : hcgDir 𝕜 h t with
    | mk h1 res =>
    rw [hD] at e1 d2 d3 he
    cases res with
    | error e' =>
      obtain rfl := Except.error.inj he
      rw [d2 _ rfl]
    | ok d =>
      obtain ⟨d4, d5, d6⟩ := d3 d rfl
      dsimp only at he
      rw [hNewC_spec r q (ow.fr.ext e1) d4] at he
      rw [d6]
      dsimp only
      cases hc : o.newC s (h1.mem d) with
      | error e' =>
        rw [hc] at he
        obtain rfl := Except.error.inj he
        rfl
      | ok c =>
        rw [hc] at he
        simp at he
  · intro h t l l' ow ok he
    rw [newCgC_eq]
    obtain ⟨e1, d2, d3⟩ := hcgDir_spec (𝕜 := 𝕜) ow
    unfold hNewCgC at he
    cases hD : hcgDir 𝕜 h t with
    | mk h1 res =>
    rw [hD] at e1 d2 d3 he
    cases res with
    | error e' => simp at he
    | ok d =>
      obtain ⟨d4, d5, d6⟩ := d3 d rfl
      dsimp only at he
      rw [hNewC_spec r q (ow.fr.ext e1) d4] at he
      rw [d6]
      dsimp only
      cases hc : o.newC s (h1.mem d) with
      | error e' =>
        rw [hc] at he
        simp at he
      | ok c =>
        rw [hc] at he
        obtain rfl := Except.ok.inj he
        obtain ⟨k1, k2⟩ := hUApPush_spec t.k (t.rho t.k) (t.rho (t.k - 1)) (t.rho (t.k - 2)) c ok
        exact ⟨_, rfl, k2, k1⟩

/-! ## The calls -/

/-- deflation.py 93-163, 236-263, linsys.py 342-405, 593-689. -/
theorem hDeflCg_spec (r : SysRepW n m0 s y) (q : ProjRep n m0 p o.proj) (hip : IsInner s.ip)
    (hex : ∀ e, a.exact = some e → e < n) (hx : ∀ x, a.x0 = some x → x < n) (f : Fr n m0 h) (store : Bool) :
    HCall n m0 (fun h t => (HCgSt.val h t.1, t.2.abs)) (fun x => n ≤ x) (hDeflCg y p store a h) (deflatedCg s o store (a.val m0)) := by
  have hx' : ∀ x, a.x0 = some x → x < h.next := fun x h => lt_of_lt_of_le (hx x h) f.le
  have hm : (a.val m0).x0 = a.x0.map h.mem := by
    unfold HArgs.val
    dsimp only
    cases h0 : a.x0 with
    | none => rfl
    | some x => simp [f.mem x (hx x h0)]
  obtain ⟨e1, herr, hok⟩ := hDeflRes_spec r q f hx'
  unfold hDeflCg deflatedCg
  rw [hm]
  cases hR : hDeflRes y p h a.x0 with
  | mk h1 res =>
  rw [hR] at e1 herr hok
  dsimp only at e1 herr hok
  cases res with
  | error e =>
    rw [herr e rfl]
    exact ⟨f.ext e1, fun st e he => by simp at he, rfl⟩
  | ok t =>
    obtain ⟨MM, Ml, r0⟩ := t
    obtain ⟨k1, k2, k3, hMM⟩ := hok MM Ml r0 rfl
    have f1 := f.ext e1
    rw [k3]
    dsimp only
    rw [← hm]
    obtain ⟨g1, g2, g3, g4, g5⟩ := hGuess_spec y (a := a) (h := h1) (fun x h => lt_of_lt_of_le (hx' x h) e1.next)
    have hv : (hGuess y a h1).1.mem (hGuess y a h1).2 = if y.nb = 0 then 0 else (a.val m0).x0.getD 0 := by
      rw [g3, hm]
      cases h0 : a.x0 with
      | none => rfl
      | some x => simp [e1.mem x (hx' x h0)]
    have hle : n ≤ h1.next := f1.le
    obtain ⟨c1, c2, c3⟩ := hCorrect_spec r q (f1.ext g1) g2
    exact hRunC_spec (r0 := r0) (xk0 := hCorrect y p) (xv := o.correct s)
      (init := fun h => let i := hcgInit (𝕜 := 𝕜) (hGuess y a h1).2 MM Ml r0 h; (i.1, .ok (i.2, UApMem.init 𝕜 k)))
      (mkS := fun x => (cgInit (h1.mem MM) (h1.mem Ml) r0 x, [])) (hdCg_sim r q hip store a.maxiter) r hex (f1.ext g1) g2 hv
      (fun h0 => hle.trans (g4 h0)) c1 c2 (fun z hz => ⟨(c3 z hz).2.2, (c3 z hz).1⟩) (fun h' e' => by
        obtain ⟨i1, i2, i3⟩ := hcgInit_spec (𝕜 := 𝕜) ((f1.ext g1).ext e') (lt_of_lt_of_le g2 e'.next)
          (lt_of_lt_of_le k1 (g1.trans e').next) (lt_of_lt_of_le k2 (g1.trans e').next) r0
        refine ⟨_, rfl, i1, ⟨i2, ⟨rfl, fun a ha => by simp [UApMem.init] at ha, fun a ha => by simp [UApMem.init] at ha⟩⟩, ?_⟩
        dsimp only
        rw [i3, (g1.trans e').mem _ k1, (g1.trans e').mem _ k2, e'.mem _ g2]
        rfl)

/-- deflation.py 93-163, 276-283, linsys.py 342-405, 941-1004. -/
theorem hDeflGmres_spec (r : SysRepW n m0 s y) (q : ProjRep n m0 p o.proj) (hip : IsInner s.ip)
    (hex : ∀ e, a.exact = some e → e < n) (hx : ∀ x, a.x0 = some x → x < n) (f : Fr n m0 h) (ortho : Ortho) :
    HCall n m0 (fun h t => (HGmresSt.val a.maxiter h t.1, t.2)) (fun x => n ≤ x) (hDeflGmres y p ortho a h)
      (deflatedGmres s o ortho (a.val m0)) := by
  have hx' : ∀ x, a.x0 = some x → x < h.next := fun x h => lt_of_lt_of_le (hx x h) f.le
  have hm : (a.val m0).x0 = a.x0.map h.mem := by
    unfold HArgs.val
    dsimp only
    cases h0 : a.x0 with
    | none => rfl
    | some x => simp [f.mem x (hx x h0)]
  obtain ⟨e1, herr, hok⟩ := hDeflRes_spec r q f hx'
  unfold hDeflGmres deflatedGmres
  dsimp only
  rw [hm]
  cases hR : hDeflRes y p h a.x0 with
  | mk h1 res =>
  rw [hR] at e1 herr hok
  dsimp only at e1 herr hok
  cases res with
  | error e =>
    rw [herr e rfl]
    exact ⟨f.ext e1, fun st e he => by simp at he, rfl⟩
  | ok t =>
    obtain ⟨MM, Ml, r0⟩ := t
    obtain ⟨k1, k2, k3, hMM⟩ := hok MM Ml r0 rfl
    have f1 := f.ext e1
    have hA := r.deflArn q hip a.maxiter ortho
    have ha := (hArnInit_spec hA (t := r0) f1 k2 k1 hMM).2.2.2.2.2
    rw [k3]
    dsimp only
    have hmx : (a.val m0).maxiter = a.maxiter := rfl
    rw [← hm, hmx, ha]
    dsimp only
    obtain ⟨g1, g2, g3, g4, g5⟩ := hGuess_spec y (a := a) (h := h1) (fun x h => lt_of_lt_of_le (hx' x h) e1.next)
    have hv : (hGuess y a h1).1.mem (hGuess y a h1).2 = if y.nb = 0 then 0 else (a.val m0).x0.getD 0 := by
      rw [g3, hm]
      cases h0 : a.x0 with
      | none => rfl
      | some x => simp [e1.mem x (hx' x h0)]
    have hle : n ≤ h1.next := f1.le
    obtain ⟨c1, c2, c3⟩ := hCorrect_spec r q (f1.ext g1) g2
    exact hRunC_spec (r0 := r0) (xk0 := hCorrect y p) (xv := o.correct s) (init := fun h =>
        let i := hArnInit (y.deflArn p a.maxiter ortho) Ml MM r0 h
        (i.1, .ok (⟨i.2, (hGuess y a h1).2, fun _ => ⟨1, 0, 0⟩, fun _ _ => 0, fun i => if i = 0 then (r0 : 𝕜) else 0⟩, [])))
      (mkS := fun x => (gmresInit (MArn.val a.maxiter (hArnInit (y.deflArn p a.maxiter ortho) Ml MM r0 h1).1
        (hArnInit (y.deflArn p a.maxiter ortho) Ml MM r0 h1).2) r0 x, [])) (hdGmres_sim r q hip ortho a.maxiter (hGuess y a h1).2) r hex
      (f1.ext g1) g2 hv (fun h0 => hle.trans (g4 h0)) c1 c2 (fun z hz => ⟨(c3 z hz).2.2, (c3 z hz).1⟩) (fun h' e' => by
        have eh := g1.trans e'
        obtain ⟨i1, i2, i3, i4, i5, i6⟩ := hArnInit_spec hA (t := r0) (f1.ext eh) (lt_of_lt_of_le k2 eh.next)
          (lt_of_lt_of_le k1 eh.next) (by rw [eh.mem _ k1, eh.mem _ k2]; exact hMM)
        have l1 : (hGuess y a h1).2 < h'.next := lt_of_lt_of_le g2 e'.next
        refine ⟨_, rfl, i1, ⟨⟨i2, by rw [i3]; exact Nat.zero_le _, lt_of_lt_of_le l1 i1.next, ?_, rfl⟩, trivial⟩, ?_⟩
        · unfold Outside
          dsimp only
          constructor <;> intro hcon <;> omega
        · rw [eh.mem _ k1, eh.mem _ k2, ha] at i6
          have i7 := Except.ok.inj i6
          unfold HGmresSt.val gmresInit
          dsimp only
          rw [i1.mem _ l1, e'.mem _ g2]
          rw [show MArn.val a.maxiter _ _ = _ from i7.symm]
          rfl)

/-- deflation.py 93-163, 266-273, linsys.py 342-405, 756-853. -/
theorem hDeflMinres_spec (r : SysRepW n m0 s y) (q : ProjRep n m0 p o.proj) (hip : IsInner s.ip)
    (hex : ∀ e, a.exact = some e → e < n) (hx : ∀ x, a.x0 = some x → x < n) (f : Fr n m0 h) (ortho : Ortho) :
    HCall n m0 (fun h t => (HMinresSt.val a.maxiter h t.1, t.2)) (fun x => n ≤ x) (hDeflMinres y p ortho a h)
      (deflatedMinres s o ortho (a.val m0)) := by
  have hx' : ∀ x, a.x0 = some x → x < h.next := fun x h => lt_of_lt_of_le (hx x h) f.le
  have hm : (a.val m0).x0 = a.x0.map h.mem := by
    unfold HArgs.val
    dsimp only
    cases h0 : a.x0 with
    | none => rfl
    | some x => simp [f.mem x (hx x h0)]
  obtain ⟨e1, herr, hok⟩ := hDeflRes_spec r q f hx'
  unfold hDeflMinres deflatedMinres
  dsimp only
  rw [hm]
  cases hR : hDeflRes y p h a.x0 with
  | mk h1 res =>
  rw [hR] at e1 herr hok
  dsimp only at e1 herr hok
  cases res with
  | error e =>
    rw [herr e rfl]
    exact ⟨f.ext e1, fun st e he => by simp at he, rfl⟩
  | ok t =>
    obtain ⟨MM, Ml, r0⟩ := t
    obtain ⟨k1, k2, k3, hMM⟩ := hok MM Ml r0 rfl
    have f1 := f.ext e1
    have hA := r.deflArn q hip a.maxiter ortho
    have ha := (hArnInit_spec hA (t := r0) f1 k2 k1 hMM).2.2.2.2.2
    rw [k3]
    dsimp only
    have hmx : (a.val m0).maxiter = a.maxiter := rfl
    rw [← hm, hmx, ha]
    dsimp only
    obtain ⟨g1, g2, g3, g4, g5⟩ := hGuess_spec y (a := a) (h := h1) (fun x h => lt_of_lt_of_le (hx' x h) e1.next)
    have hv : (hGuess y a h1).1.mem (hGuess y a h1).2 = if y.nb = 0 then 0 else (a.val m0).x0.getD 0 := by
      rw [g3, hm]
      cases h0 : a.x0 with
      | none => rfl
      | some x => simp [e1.mem x (hx' x h0)]
    have hle : n ≤ h1.next := f1.le
    obtain ⟨c1, c2, c3⟩ := hCorrect_spec r q (f1.ext g1) g2
    exact hRunC_spec (r0 := r0) (xk0 := hCorrect y p) (xv := o.correct s) (init := fun h =>
        let i := hArnInit (y.deflArn p a.maxiter ortho) Ml MM r0 h
        let z := i.1.alloc 0
        (z.1, .ok (⟨i.2, (hGuess y a h1).2, none, none, 0, 0, r0, z.2⟩, [])))
      (mkS := fun x => (minresInit (MArn.val a.maxiter (hArnInit (y.deflArn p a.maxiter ortho) Ml MM r0 h1).1
        (hArnInit (y.deflArn p a.maxiter ortho) Ml MM r0 h1).2) r0 x, [])) (hdMinres_sim r q hip ortho a.maxiter) r hex
      (f1.ext g1) g2 hv (fun h0 => hle.trans (g4 h0)) c1 c2 (fun z hz => ⟨(c3 z hz).2.2, (c3 z hz).1⟩) (fun h' e' => by
        have eh := g1.trans e'
        obtain ⟨i1, i2, i3, i4, i5, i6⟩ := hArnInit_spec hA (t := r0) (f1.ext eh) (lt_of_lt_of_le k2 eh.next)
          (lt_of_lt_of_le k1 eh.next) (by rw [eh.mem _ k1, eh.mem _ k2]; exact hMM)
        have l1 : (hGuess y a h1).2 < h'.next := lt_of_lt_of_le g2 e'.next
        have ez := Heap.alloc_ext (hArnInit (y.deflArn p a.maxiter ortho) Ml MM r0 h').1 0
        have lz := Heap.alloc_lt (hArnInit (y.deflArn p a.maxiter ortho) Ml MM r0 h').1 0
        have gz := Heap.alloc_ge (hArnInit (y.deflArn p a.maxiter ortho) Ml MM r0 h').1 0
        have vz := Heap.alloc_mem (hArnInit (y.deflArn p a.maxiter ortho) Ml MM r0 h').1 0
        obtain ⟨i8, i9⟩ := i2.ext (𝕜 := 𝕜) ez
        refine ⟨_, rfl, i1.trans ez, ⟨⟨i8, by rw [i3]; exact Nat.zero_le _, lt_of_lt_of_le l1 (i1.trans ez).next, ?_, lz, ?_⟩, trivial⟩, ?_⟩
        · unfold Outside
          dsimp only
          constructor <;> intro hcon <;> omega
        · have h1 := i2.vb.2
          have h2 := i2.pb.2
          have hmm : (y.deflArn p a.maxiter ortho).maxiter = a.maxiter := rfl
          rw [hmm] at h1 h2
          unfold Outside
          dsimp only
          constructor <;> intro hcon <;> omega
        · rw [eh.mem _ k1, eh.mem _ k2, ha] at i6
          have i7 := Except.ok.inj i6
          unfold HMinresSt.val minresInit
          dsimp only
          have i10 := i9.trans i7.symm
          rw [(i1.trans ez).mem _ l1, e'.mem _ g2, vz]
          rw [show MArn.val a.maxiter _ _ = _ from i10]
          rfl)

end Krypy
