import Verif.Props.OwnQr
import Verif.Props.RecyclingArn

/-!
# Property C92: the recycling solvers with the library's own `qr`

C60 and C62 demand that the factorisation routines obey their contracts for all linearly independent vectors.  The library's own
`qr` does so only if no column is closer to the span of the preceding ones than a threshold (`Apart`, C11).  Here it is shown that the
Ritz factories only return vectors for which it does, so the sequences are also solved with the own `qr`.
-/

set_option linter.unusedSectionVars false

namespace Krypy
variable {𝕜 E : Type*} [RCLike 𝕜] [AddCommGroup E] [Module 𝕜 E]
open scoped ComplexConjugate
open Matrix

/-! ## Specification -/

/-- The arguments of `ObliqueProjection` in a call of `solve` which uses the library's own `qr` (deflation.py 22-56; see
`ownOblArgs`).  `same` says whether `Ml A Mr U` is the array `U` itself. -/
structure OwnArgs (𝕜 E : Type*) [RCLike 𝕜] [AddCommGroup E] [Module 𝕜 E] where
  Minv : Option (E →ₗ[𝕜] E)
  reorthos : ℕ
  matQr : ∀ k, Matrix (Fin k) (Fin k) 𝕜 → Matrix (Fin k) (Fin k) 𝕜 × Matrix (Fin k) (Fin k) 𝕜
  same : ℕ → Bool
  orthogonalize : Bool
  iterations : ℤ

/-- The arguments as they are used in the model of `ObliqueProjection` (deflation.py 22-56). -/
noncomputable def OwnArgs.oa (w : OwnArgs 𝕜 E) (ip : E → E → 𝕜) (k : ℕ) : OblArgs 𝕜 E k :=
  (ownOblArgs ip w.Minv w.reorthos (w.matQr k) (w.same k) w.orthogonalize w.iterations).erase

/-- `Minv` is the inverse of `M`, and neither the change of the inner product nor `Ml A Mr` shrinks a vector by more than the
threshold of utils.py 705.  Nothing is assumed about `utils.qr`. -/
structure OwnOk (a : LSArgs 𝕜 E) (w : OwnArgs 𝕜 E) : Prop where
  ls : LSHyp a.ip a.M
  inv : ∀ x, a.M ((w.Minv.getD LinearMap.id) x) = x
  matQr : ∀ k M, IsMatQr M (w.matQr k M).1 (w.matQr k M).2
  same : ∀ k, w.same k = true → ∀ x, a.B x = x
  iterations : 1 ≤ w.iterations
  ipBig : ∀ x, 1e-15 * nrm (ipMinv a.ip w.Minv) x ≤ nrm a.ip x
  opBig : ∀ x, 1e-15 * nrm (ipMinv a.ip w.Minv) x ≤ nrm a.ip (a.B x)

/-! ## The own `qr` agrees with a routine which obeys the contracts -/

theorem OwnOk.inner {a : LSArgs 𝕜 E} {w : OwnArgs 𝕜 E} (h : OwnOk a w) : IsInner (ipMinv a.ip w.Minv) := by
  have e : ipMinv a.ip w.Minv = fun x y => a.ip x ((w.Minv.getD LinearMap.id) y) := by
    funext x y
    cases w.Minv <;> rfl
  have hinv := h.inv
  rw [e]
  generalize w.Minv.getD LinearMap.id = N at hinv
  refine ⟨fun x y z => by rw [map_add, h.ls.inner.add_right], fun x c y => by rw [map_smul, h.ls.inner.smul_right], fun x y => ?_,
    fun x hx => ?_⟩
  · rw [h.ls.inner.conj_symm]
    have := h.ls.symm (N y) (N x)
    rw [hinv, hinv] at this
    exact this.symm
  · have hN : N x ≠ 0 := by
      intro h0
      apply hx
      rw [← hinv x, h0, map_zero]
    have := h.ls.prec.pos _ hN
    rw [hinv] at this
    have e1 := h.ls.symm (N x) (N x)
    rw [hinv] at e1
    rw [e1]
    exact this

theorem Apart.indep {ip : E → E → 𝕜} (h : IsInner ip) {k : ℕ} {X : Fin k → E} (hX : Apart ip X) : LinearIndependent 𝕜 X := by
  classical
  refine Fintype.linearIndependent_iff.mpr fun c hc => ?_
  by_contra hne
  push Not at hne
  obtain ⟨i0, hi0⟩ := hne
  have hs : (Finset.univ.filter fun i => c i ≠ 0).Nonempty := ⟨i0, by simp [hi0]⟩
  set i := (Finset.univ.filter fun i => c i ≠ 0).max' hs with hi
  have hci : c i ≠ 0 := (Finset.mem_filter.mp (Finset.max'_mem _ hs)).2
  have hgt : ∀ j, i < j → c j = 0 := by
    intro j hj
    by_contra hcj
    exact absurd (Finset.le_max' (Finset.univ.filter fun i => c i ≠ 0) j (by simp [hcj])) (not_le.mpr hj)
  have hmem : X i ∈ Submodule.span 𝕜 (X '' Set.Iio i) := by
    have h1 : c i • X i ∈ Submodule.span 𝕜 (X '' Set.Iio i) := by
      have h2 : c i • X i = - ∑ j ∈ Finset.univ.erase i, c j • X j := by
        rw [eq_neg_iff_add_eq_zero, ← hc]
        exact Finset.add_sum_erase _ (fun j => c j • X j) (Finset.mem_univ i)
      rw [h2]
      refine Submodule.neg_mem _ (Submodule.sum_mem _ fun j hj => ?_)
      rcases lt_or_gt_of_ne (Finset.ne_of_mem_erase hj) with hlt | hlt
      · exact Submodule.smul_mem _ _ (Submodule.subset_span ⟨j, hlt, rfl⟩)
      · rw [hgt j hlt, zero_smul]; exact Submodule.zero_mem _
    have := Submodule.smul_mem _ (c i)⁻¹ h1
    rwa [smul_smul, inv_mul_cancel₀ hci, one_smul] at this
  have := hX i _ hmem
  rw [sub_self, show nrm ip (0 : E) = 0 from h.nrm_eq_zero.mpr rfl] at this
  norm_num at this

theorem mkProj_congr {k : ℕ} {ip : E → E → 𝕜} {rt rt' : QrRoutines 𝕜 E k} {X : Fin k → E} {Y : Option (Fin k → E)} (o : Bool) (n : ℤ)
    (h1 : rt.qr X = rt'.qr X) (h2 : ∀ Y', Y = some Y' → rt.qr Y' = rt'.qr Y') (h3 : rt.matQr = rt'.matQr) :
    mkProj ip rt X Y o n = mkProj ip rt' X Y o n := by
  unfold mkProj
  rw [h1, h3]
  cases Y with
  | none => rfl
  | some Y => simp only [h2 Y rfl]

/-- There are routines which obey the contracts for all linearly independent vectors and with which `ObliqueProjection` does the same
as with the own `qr`, if the columns of `U` are apart. -/
theorem OwnOk.ideal [FiniteDimensional 𝕜 E] {a : LSArgs 𝕜 E} {w : OwnArgs 𝕜 E} (h : OwnOk a w) :
    ∃ oa, CgOblOk a oa ∧ ∀ k (U : Fin k → E), Apart (ipMinv a.ip w.Minv) U → ∀ s, mkLS a = .ok s →
      mkObl s (w.oa a.ip k) U = mkObl s (oa k) U := by
  classical
  obtain ⟨oa0, h0⟩ := cgOblOk_exists (a := a) h.ls
  have hM := h.inner
  have e1 : ∀ k U, (w.oa a.ip k).qrM U = qrResult (qrLoop (ipMinv a.ip w.Minv) w.reorthos (colSeq U) k) := fun k U =>
    (ownOblArgs_erase (k := k) a.ip w.Minv w.reorthos (w.matQr k) (w.same k) w.orthogonalize w.iterations U).1
  have e2 : ∀ k, (w.oa a.ip k).rt = ownRoutines a.ip (w.matQr k) := fun k =>
    (ownOblArgs_erase (k := k) a.ip w.Minv w.reorthos (w.matQr k) (w.same k) w.orthogonalize w.iterations 0).2
  have q1 : ∀ k (U : Fin k → E), ∃ r, (Apart (ipMinv a.ip w.Minv) U → r = (w.oa a.ip k).qrM U) ∧
      (LinearIndependent 𝕜 U → ∃ V R, r = .ok (V, R) ∧ (∀ j, U j = lincomb V fun i => R i j) ∧ ∃ W : Fin k → E,
        (∀ j, V j = a.M (W j)) ∧ ∀ i j, a.ip (V i) (W j) = if i = j then 1 else 0) := by
    intro k U
    by_cases hU : Apart (ipMinv a.ip w.Minv) U
    · refine ⟨_, fun _ => rfl, fun _ => ?_⟩
      obtain ⟨V, R, hV, hq⟩ := C11_own_qr hM w.reorthos hU
      refine ⟨V, R, by rw [e1, hV], hq.fact, fun j => (w.Minv.getD LinearMap.id) (V j), fun j => (h.inv _).symm, fun i j => ?_⟩
      have h1 := congrFun (congrFun hq.orth i) j
      simp only [gram, Matrix.of_apply, Matrix.one_apply] at h1
      rw [← h1]
      cases w.Minv <;> rfl
    · exact ⟨(oa0 k).qrM U, fun h => absurd h hU, fun hi => h0.qrM k U hi⟩
  have q2 : ∀ k (X : Fin k → E), ∃ r, (Apart a.ip X → r = (w.oa a.ip k).rt.qr X) ∧
      (LinearIndependent 𝕜 X → ∃ V R, r = .ok (V, R) ∧ IsQr a.ip X V R) := by
    intro k X
    by_cases hX : Apart a.ip X
    · refine ⟨_, fun _ => rfl, fun _ => ?_⟩
      rw [e2]
      exact C11_own_qr h.ls.inner 1 hX
    · by_cases hi : LinearIndependent 𝕜 X
      · obtain ⟨V, R, hq⟩ := exists_isQr h.ls.inner hi
        exact ⟨.ok (V, R), fun h => absurd h hX, fun _ => ⟨V, R, rfl, hq⟩⟩
      · exact ⟨.error .other, fun h => absurd h hX, fun h => absurd h hi⟩
  choose f1 g1 k1 using q1
  choose f2 g2 k2 using q2
  refine ⟨fun k => ⟨f1 k, ⟨f2 k, w.matQr k⟩, w.same k, w.orthogonalize, w.iterations⟩, ⟨fun k U hU => k1 k U hU, fun k _ X hX => k2 k X hX,
    fun k M => h.matQr k M, fun k hk => h.same k hk, fun k => h.iterations⟩, fun k U hU s hs => ?_⟩
  obtain ⟨V, R, hV, hq⟩ := C11_own_qr hM w.reorthos hU
  have ok : LSOK a s := by
    obtain ⟨s', hs', h1, -⟩ := mkLS_ok h.ls
    rw [hs] at hs'
    rw [Except.ok.inj hs']; exact h1
  unfold mkObl
  dsimp only
  rw [g1 k U hU, e1, hV]
  dsimp only
  rw [show mkProj s.ip (w.oa a.ip k).rt (fun j => s.MlAMr (V j)) (if (w.oa a.ip k).same = true then none else some V)
      (w.oa a.ip k).orthogonalize (w.oa a.ip k).iterations = _ from
    mkProj_congr (rt' := ⟨f2 k, w.matQr k⟩) _ _ ?_ (fun Y' hY => ?_) (by rw [e2]; rfl)]
  · rfl
  · refine (g2 k _ ?_).symm
    have : (fun j => s.MlAMr (V j)) = fun j => a.B (V j) := by
      funext j; exact ok.MlAMr _
    rw [this]
    exact apart_of_orthonormal hM hq.orth a.B h.opBig
  · refine (g2 k _ ?_).symm
    split at hY
    · cases hY
    · obtain rfl := Option.some.inj hY
      exact apart_of_orthonormal hM hq.orth LinearMap.id h.ipBig

/-- Columns which are orthonormal for one system are apart for another one with a comparable inner product. -/
theorem apart_next {a a' : LSArgs 𝕜 E} {w w' : OwnArgs 𝕜 E} (h : OwnOk a w)
    (hc : ∀ x, 1e-15 * nrm (ipMinv a.ip w.Minv) x ≤ nrm (ipMinv a'.ip w'.Minv) x) {k : ℕ} {U : Fin k → E}
    (hU : gram (ipMinv a.ip w.Minv) U U = 1) : Apart (ipMinv a'.ip w'.Minv) U :=
  apart_of_orthonormal h.inner hU LinearMap.id hc

theorem apart_nil (ip : E → E → 𝕜) : Apart ip ([] : List E).get := fun i => absurd i.2 (by simp)

/-- Orthonormality in the sense of the results on Ritz vectors. -/
theorem OwnOk.ortho_list {a : LSArgs 𝕜 E} {w : OwnArgs 𝕜 E} (h : OwnOk a w) {ι : Type*} [DecidableEq ι] {f v : ι → E}
    (hf : ∀ i, f i = a.M (v i)) (hfv : ∀ i j, a.ip (f i) (v j) = if i = j then 1 else 0) {l : List ι} (hl : l.Nodup) :
    gram (ipMinv a.ip w.Minv) (l.map f).get (l.map f).get = 1 := by
  have hMinj : ∀ x, a.M x = 0 → x = 0 := by
    intro x hx
    refine h.ls.prec.self_eq_zero.mp ?_
    simp only [hx, h.ls.inner.zero_right]
  have hv : ∀ j, (w.Minv.getD LinearMap.id) (f j) = v j := by
    intro j
    rw [← sub_eq_zero]
    refine hMinj _ ?_
    rw [map_sub, h.inv, hf, sub_self]
  have hij : ∀ i j, ipMinv a.ip w.Minv (f i) (f j) = if i = j then 1 else 0 := by
    intro i j
    rw [← hfv, ← hv]
    cases w.Minv <;> rfl
  ext i j
  have hlen : (l.map f).length = l.length := List.length_map _
  have e : ∀ i, (l.map f).get i = f (l.get (i.cast hlen)) := fun i => by simp
  simp only [gram, Matrix.of_apply, Matrix.one_apply]
  rw [e, e, hij]
  have : (l.get (i.cast hlen) = l.get (j.cast hlen)) ↔ i = j := by
    constructor
    · intro hh
      have := (List.nodup_iff_injective_get.mp hl) hh
      ext
      simpa [Fin.ext_iff] using this
    · rintro rfl; rfl
  simp only [this]

/-! ## Sequences of calls in general -/

/-- A sequence of calls of `solve`, if every call succeeds with the vectors which the factories return. -/
theorem recRun_all {Sol F : Type*} (sc : Shortcuts Sol F) (default : Option (VFactory Sol F)) {C : Type*} (call : C → Call Sol F)
    (P : C → List F → Prop) (G : Sol → Prop) (S : C → Sol → Prop) (cs : List C) (h0 : ∀ c ∈ cs, P c [])
    (hs : ∀ c ∈ cs, ∀ U, P c U → ∃ x, (call c).solver U = .ok x ∧ G x ∧ S c x)
    (hf : ∀ c ∈ cs, ∀ f, (call c).effFactory default = some f → ∀ x, G x → ∃ U, f.getFun sc x = .ok U ∧ P c U) :
    ∀ i (hi : i < cs.length), ∃ U x, (recRun sc default RecState.init (cs.map call)).2[i]? = some ⟨some U, .ok x⟩ ∧
      P cs[i] U ∧ S cs[i] x := by
  suffices h : ∀ (cs : List C) (st : RecState Sol), (∀ c ∈ cs, P c []) →
      (∀ c ∈ cs, ∀ U, P c U → ∃ x, (call c).solver U = .ok x ∧ G x ∧ S c x) →
      (∀ c ∈ cs, ∀ f, (call c).effFactory default = some f → ∀ x, G x → ∃ U, f.getFun sc x = .ok U ∧ P c U) →
      (∀ x, st.lastSolver = some x → G x) →
      ∀ i (hi : i < cs.length), ∃ U x, (recRun sc default st (cs.map call)).2[i]? = some ⟨some U, .ok x⟩ ∧
        P cs[i] U ∧ S cs[i] x from h cs _ h0 hs hf fun x hx => by cases hx
  clear h0 hs hf cs
  intro cs
  induction cs with
  | nil => intro st _ _ _ _ i hi; simp at hi
  | cons c cs ih =>
    intro st h0 hs hf hst i hi
    obtain ⟨U, hUeq, hU⟩ : ∃ U : List F, (match st.lastSolver, (call c).effFactory default with
        | some s, some f => f.getFun sc s
        | _, _ => .ok []) = .ok U ∧ P c U := by
      cases hl : st.lastSolver with
      | none => exact ⟨[], rfl, h0 c List.mem_cons_self⟩
      | some y =>
        cases hff : (call c).effFactory default with
        | none => exact ⟨[], rfl, h0 c List.mem_cons_self⟩
        | some f => exact hf c List.mem_cons_self f hff y (hst y hl)
    obtain ⟨x, h1, h2, h3⟩ := hs c List.mem_cons_self U hU
    have hsolve : recSolve sc default st (call c) =
        (⟨some x, st.nFactoryTimings + 1, st.nSolveTimings + 1⟩, ⟨some U, .ok x⟩) := by
      have e : recSolve sc default st (call c) = recRunSolver { st with nFactoryTimings := st.nFactoryTimings + 1 } (call c) U := by
        unfold recSolve
        dsimp only
        cases hl : st.lastSolver with
        | none => rw [hl] at hUeq; obtain rfl := Except.ok.inj hUeq; rfl
        | some y =>
          rw [hl] at hUeq
          cases hff : (call c).effFactory default with
          | none => rw [hff] at hUeq; obtain rfl := Except.ok.inj hUeq; rfl
          | some f =>
            rw [hff] at hUeq
            dsimp only at hUeq ⊢
            rw [hUeq]
      rw [e]
      unfold recRunSolver
      rw [h1]
    simp only [List.map_cons, recRun, hsolve]
    cases i with
    | zero => exact ⟨U, x, rfl, hU, h3⟩
    | succ i =>
      refine ih _ (fun c hc => h0 c (List.mem_cons_of_mem _ hc)) (fun c hc => hs c (List.mem_cons_of_mem _ hc))
        (fun c hc => hf c (List.mem_cons_of_mem _ hc)) ?_ i (by simpa using hi)
      intro y hy
      obtain rfl := Option.some.inj hy
      exact h2

/-! ## `RecyclingGmres` and `RecyclingMinres` -/

/-- The arguments of one call of `solve` with the own `qr` (recycling/linsys.py 52-103). -/
structure OwnArnCall (𝕜 E : Type*) [RCLike 𝕜] [AddCommGroup E] [Module 𝕜 E] where
  a : LSArgs 𝕜 E
  w : OwnArgs 𝕜 E
  ortho : Ortho
  p : SolverArgs E
  factory : Option (VFactory (ArnSol 𝕜 E) E)

/-- The corresponding call of the model of `_RecyclingSolver` (recycling/linsys.py 52-103). -/
noncomputable def OwnArnCall.call (kind : ArnKind) (c : OwnArnCall 𝕜 E) : Call (ArnSol 𝕜 E) E :=
  ⟨c.factory, recArnSolver kind c.a (c.w.oa c.a.ip) c.ortho c.p⟩

/-- An admissible call: the system is self-adjoint, declared to be so, `0` is not in the field of values of `Ml A Mr`, there is no
right preconditioner, the tolerance is `≥ 0` and `maxiter ≥ dim`. -/
structure OwnArnOk (c : OwnArnCall 𝕜 E) : Prop where
  own : OwnOk c.a c.w
  sa : ∀ x y, c.a.ip (c.a.Ml (c.a.A (c.a.Mr x))) y = c.a.ip x (c.a.Ml (c.a.A (c.a.Mr y)))
  flag : c.a.selfAdjoint = true
  fov : FovOk c.a
  Mr : ∀ x, c.a.Mr x = x
  tol : 0 ≤ c.p.tol
  maxiter : Module.finrank 𝕜 E ≤ c.p.maxiter

/-- A factory which returns vectors that are orthonormal in the inner product `⟨x, M⁻¹ y⟩` of the last system. -/
def OrthoFactoryA (kind : ArnKind) (f : ArnSol 𝕜 E → Except Err (List E)) : Prop :=
  ∀ (c : OwnArnCall 𝕜 E) (U : List E) (x : ArnSol 𝕜 E), OwnArnOk c → Apart (ipMinv c.a.ip c.w.Minv) U.get →
    recArnSolver kind c.a (c.w.oa c.a.ip) c.ortho c.p U = .ok x →
    ∃ U', f x = .ok U' ∧ gram (ipMinv c.a.ip c.w.Minv) U'.get U'.get = 1

theorem recArnSolver_congr (kind : ArnKind) {a : LSArgs 𝕜 E} {oa oa' : ∀ k, OblArgs 𝕜 E k} (ortho : Ortho) (p : SolverArgs E) {U : List E}
    (h : ∀ s, mkLS a = .ok s → mkObl s (oa U.length) (fun j => U.get j) = mkObl s (oa' U.length) (fun j => U.get j)) :
    recArnSolver kind a oa ortho p U = recArnSolver kind a oa' ortho p U := by
  cases kind with
  | gmres =>
    unfold recArnSolver recGmresSolver
    cases hs : mkLS a with
    | error e => rfl
    | ok s => dsimp only; rw [h s hs]
  | minres =>
    unfold recArnSolver recMinresSolver
    cases hs : mkLS a with
    | error e => rfl
    | ok s => dsimp only; rw [h s hs]

theorem OwnArnOk.ideal [FiniteDimensional 𝕜 E] {c : OwnArnCall 𝕜 E} (h : OwnArnOk c) (kind : ArnKind) :
    ∃ oa, ArnCallOk kind c.a oa c.ortho c.p ∧ ∀ U : List E, Apart (ipMinv c.a.ip c.w.Minv) U.get → DeflBasis c.a U.get ∧
      recArnSolver kind c.a (c.w.oa c.a.ip) c.ortho c.p U = recArnSolver kind c.a oa c.ortho c.p U := by
  obtain ⟨oa, h1, h2⟩ := h.own.ideal
  refine ⟨oa, ⟨h.own.ls, fun _ => h.sa, fov_inj h.own.ls.inner h.fov, h.Mr, h.tol, h.maxiter, h1⟩, fun U hU =>
    ⟨fov_det h.own.ls.inner h.fov (hU.indep h.own.inner), recArnSolver_congr kind c.ortho c.p fun s hs => h2 _ _ hU s hs⟩⟩

/-- **C92** (one call).  With vectors which are not too close to being dependent an admissible call with the own `qr` succeeds. -/
theorem C92_solve [FiniteDimensional 𝕜 E] {c : OwnArnCall 𝕜 E} (h : OwnArnOk c) (kind : ArnKind) {U : List E}
    (hU : Apart (ipMinv c.a.ip c.w.Minv) U.get) :
    ∃ x, recArnSolver kind c.a (c.w.oa c.a.ip) c.ortho c.p U = .ok x ∧ ArnSolved c.a c.p x := by
  obtain ⟨oa, h1, h2⟩ := h.ideal kind
  obtain ⟨h3, h4⟩ := h2 U hU
  obtain ⟨x, h5, h6⟩ := C62_solve h1 U h3
  exact ⟨x, h4.trans h5, h6⟩

/-- **C92** (Ritz vectors).  After an admissible call with the own `qr` the vectors of `ritz.get_vectors(indices)` with distinct valid
indices are orthonormal in the inner product `⟨x, M⁻¹ y⟩`. -/
theorem C92_get_vectors [FiniteDimensional 𝕜 E] {c : OwnArnCall 𝕜 E} (h : OwnArnOk c) {kind : ArnKind} {U : List E}
    (hU : Apart (ipMinv c.a.ip c.w.Minv) U.get) {x : ArnSol 𝕜 E}
    (hx : recArnSolver kind c.a (c.w.oa c.a.ip) c.ortho c.p U = .ok x) {rt : ∀ n m, EigRoutines 𝕜 (Fin n ⊕ Fin m)} (hrt : EigTotal rt) :
    ∃ out, x.ritz rt = .ok out ∧ ∀ idx : List ℕ, idx.Nodup → (∀ i ∈ idx, i < x.arn.get.cols + x.k) →
      ∃ U', x.getVectors out idx = .ok U' ∧ U'.length = idx.length ∧ gram (ipMinv c.a.ip c.w.Minv) U'.get U'.get = 1 := by
  obtain ⟨oa, h1, h2⟩ := h.ideal kind
  obtain ⟨h3, h4⟩ := h2 U hU
  obtain ⟨out, h5, ⟨v, h6, h7⟩, -⟩ := C62_ritz_orthonormal h1 h.flag h3 (h4.symm.trans hx) hrt
  refine ⟨out, h5, fun idx hd hr => ?_⟩
  obtain ⟨l, e1, e2⟩ := mapM_ritzIdx idx hr
  have hl : l.Nodup := by
    rw [← e2] at hd
    exact hd.of_map
  refine ⟨_, by unfold ArnSol.getVectors; rw [e1], by rw [← e2]; simp, h.own.ortho_list h6 h7 hl⟩

/-- **C92** (`RitzFactorySimple`).  It returns orthonormal vectors. -/
theorem C92_simple [FiniteDimensional 𝕜 E] {kind : ArnKind} {rt : ∀ n m, EigRoutines 𝕜 (Fin n ⊕ Fin m)} (hrt : EigTotal rt)
    {argsort : List ℝ → List ℕ} (ha : IsArgsort argsort) (n : ℕ) {which : Which} (hw : which ≠ .invalid) :
    OrthoFactoryA kind (simpleGetA (𝕜 := 𝕜) (E := E) rt argsort n which) := by
  intro c U x h hU hx
  obtain ⟨out, h1, h2⟩ := C92_get_vectors h hU hx hrt
  obtain ⟨idx, h3, h4, h5⟩ := simpleIndices_ok ha (values := (sumList out.values).map fun v => toCplx (v.getD 0))
    (resnorms := (sumList out.resnorms).map fun r => r.getD 0) (N := x.arn.get.cols + x.k) (by simp [sumList]) (by simp [sumList]) n hw
  obtain ⟨U', h6, -, h7⟩ := h2 idx h4 h5
  refine ⟨U', ?_, h7⟩
  unfold simpleGetA
  rw [h1]
  dsimp only
  rw [h3]
  exact h6

/-- **C92** (`RitzFactory`).  It returns orthonormal vectors, for every evaluator which raises no exception but `AssumptionError`,
every generator of nonempty sets of remaining indices, and every order of Python sets. -/
theorem C92_ritz [FiniteDimensional 𝕜 E] {F : Type*} [LT F] [DecidableLT F] {kind : ArnKind}
    {rt : ∀ n m, EigRoutines 𝕜 (Fin n ⊕ Fin m)} (hrt : EigTotal rt)
    {f : RitzFactoryArgsA 𝕜 E F} (hgen : ∀ x out, GenOK (f.gen x out))
    (heval : ∀ x out s e, f.eval x out s = .error e → e = .assumptionError)
    (hord : ∀ s, (f.order s).Nodup ∧ ∀ i, i ∈ f.order s ↔ i ∈ s) : OrthoFactoryA kind (ritzGetA rt f) := by
  intro c U x h hU hx
  obtain ⟨out, h1, h2⟩ := C92_get_vectors h hU hx hrt
  unfold ritzGetA
  rw [h1]
  dsimp only
  rcases C41_terminates (n := x.arn.get.cols + x.k) (eval := f.eval x out) (resSum := f.resSum x out) (hgen x out) with
    ⟨e, -, h4, s, h5⟩ | ⟨sel, st, h3, h4, -⟩
  · exact absurd (heval _ _ _ _ h5) h4
  · rw [h3]
    obtain ⟨U', h6, -, h7⟩ := h2 _ (hord sel).1 fun i hi => Finset.mem_range.mp (h4 (((hord sel).2 i).mp hi))
    exact ⟨U', h6, h7⟩

/-- **C92** (`RecyclingGmres`, `RecyclingMinres`).  With the library's own `qr` every sequence of admissible systems is solved, if
the factories return orthonormal vectors and the norms `‖·‖_{M⁻¹}` of no two of the systems differ by more than the factor `1e15`. -/
theorem C92_sequence [FiniteDimensional 𝕜 E] (kind : ArnKind) (sc : Shortcuts (ArnSol 𝕜 E) E)
    (default : Option (VFactory (ArnSol 𝕜 E) E)) (cs : List (OwnArnCall 𝕜 E)) (hcs : ∀ c ∈ cs, OwnArnOk c)
    (hcmp : ∀ c ∈ cs, ∀ c' ∈ cs, ∀ x, 1e-15 * nrm (ipMinv c.a.ip c.w.Minv) x ≤ nrm (ipMinv c'.a.ip c'.w.Minv) x)
    (hdef : ∀ f, default = some f → OrthoFactoryA kind (f.getFun sc))
    (hfac : ∀ c ∈ cs, ∀ f, c.factory = some f → OrthoFactoryA kind (f.getFun sc)) :
    ∀ i (hi : i < cs.length), ∃ U x, (recRun sc default RecState.init (cs.map (OwnArnCall.call kind))).2[i]? = some ⟨some U, .ok x⟩ ∧
      Apart (ipMinv cs[i].a.ip cs[i].w.Minv) U.get ∧ ArnSolved cs[i].a cs[i].p x := by
  refine recRun_all sc default (OwnArnCall.call kind) (fun c U => Apart (ipMinv c.a.ip c.w.Minv) U.get)
    (fun x => ∃ c ∈ cs, ∃ U : List E, Apart (ipMinv c.a.ip c.w.Minv) U.get ∧
      recArnSolver kind c.a (c.w.oa c.a.ip) c.ortho c.p U = .ok x) (fun c x => ArnSolved c.a c.p x) cs (fun c _ => apart_nil _)
    (fun c hc U hU => ?_) fun c hc f hf x hx => ?_
  · obtain ⟨x, h1, h2⟩ := C92_solve (hcs c hc) kind hU
    exact ⟨x, h1, ⟨c, hc, U, hU, h1⟩, h2⟩
  · obtain ⟨c0, hc0, U, hU, hx⟩ := hx
    have hof : OrthoFactoryA kind (f.getFun sc) := by
      cases hff : c.factory with
      | none => exact hdef f (by simpa [Call.effFactory, OwnArnCall.call, hff] using hf)
      | some g =>
        obtain rfl : g = f := by simpa [Call.effFactory, OwnArnCall.call, hff] using hf
        exact hfac c hc g hff
    obtain ⟨U', h1, h2⟩ := hof c0 U x (hcs c0 hc0) hU hx
    exact ⟨U', h1, apart_next (hcs c0 hc0).own (hcmp c0 hc0 c hc) h2⟩

/-! ## `RecyclingCg` -/

/-- The arguments of one call of `solve` with the own `qr` (recycling/linsys.py 52-103). -/
structure OwnCgCall (𝕜 E : Type*) [RCLike 𝕜] [AddCommGroup E] [Module 𝕜 E] where
  a : LSArgs 𝕜 E
  w : OwnArgs 𝕜 E
  p : SolverArgs E
  factory : Option (VFactory (CgSol 𝕜 E) E)

/-- The corresponding call of the model of `_RecyclingSolver` (recycling/linsys.py 52-103). -/
noncomputable def OwnCgCall.call (c : OwnCgCall 𝕜 E) : Call (CgSol 𝕜 E) E := ⟨c.factory, recCgSolver c.a (c.w.oa c.a.ip) c.p⟩

/-- An admissible call: a self-adjoint positive definite system which is declared to be so, without right preconditioner, a
tolerance `≥ 0` and `maxiter ≥ dim`. -/
structure OwnCgOk (c : OwnCgCall 𝕜 E) : Prop where
  own : OwnOk c.a c.w
  spd : SpdHyp c.a
  flag : c.a.selfAdjoint = true
  Mr : ∀ x, c.a.Mr x = x
  tol : 0 ≤ c.p.tol
  maxiter : Module.finrank 𝕜 E ≤ c.p.maxiter

/-- A factory which returns vectors that are orthonormal in the inner product `⟨x, M⁻¹ y⟩` of the last system. -/
def OrthoFactory (f : CgSol 𝕜 E → Except Err (List E)) : Prop :=
  ∀ (c : OwnCgCall 𝕜 E) (U : List E) (x : CgSol 𝕜 E), OwnCgOk c → Apart (ipMinv c.a.ip c.w.Minv) U.get →
    recCgSolver c.a (c.w.oa c.a.ip) c.p U = .ok x →
    ∃ U', f x = .ok U' ∧ gram (ipMinv c.a.ip c.w.Minv) U'.get U'.get = 1

theorem recCgSolver_congr {a : LSArgs 𝕜 E} {oa oa' : ∀ k, OblArgs 𝕜 E k} (p : SolverArgs E) {U : List E}
    (h : ∀ s, mkLS a = .ok s → mkObl s (oa U.length) (fun j => U.get j) = mkObl s (oa' U.length) (fun j => U.get j)) :
    recCgSolver a oa p U = recCgSolver a oa' p U := by
  unfold recCgSolver
  cases hs : mkLS a with
  | error e => rfl
  | ok s => dsimp only; rw [h s hs]

theorem OwnCgOk.ideal [FiniteDimensional 𝕜 E] {c : OwnCgCall 𝕜 E} (h : OwnCgOk c) :
    ∃ oa, GoodCall c.a oa c.p ∧ ∀ U : List E, Apart (ipMinv c.a.ip c.w.Minv) U.get →
      recCgSolver c.a (c.w.oa c.a.ip) c.p U = recCgSolver c.a oa c.p U := by
  obtain ⟨oa, h1, h2⟩ := h.own.ideal
  exact ⟨oa, ⟨h.spd, h.flag, h.Mr, h.tol, h.maxiter, h1⟩, fun U hU => recCgSolver_congr c.p fun s hs => h2 _ _ hU s hs⟩

/-- **C92** (Ritz vectors after `RecyclingCg`).  They are orthonormal in the inner product `⟨x, M⁻¹ y⟩`. -/
theorem C92_cg_get_vectors [FiniteDimensional 𝕜 E] {c : OwnCgCall 𝕜 E} (h : OwnCgOk c) {U : List E}
    (hU : Apart (ipMinv c.a.ip c.w.Minv) U.get) {x : CgSol 𝕜 E}
    (hx : recCgSolver c.a (c.w.oa c.a.ip) c.p U = .ok x) {rt : ∀ n m, EigRoutines 𝕜 (Fin n ⊕ Fin m)} (hrt : EigTotal rt) :
    ∃ out, x.ritz rt = .ok out ∧ ∀ idx : List ℕ, idx.Nodup → (∀ i ∈ idx, i < x.lan.n + x.k) →
      ∃ U', x.getVectors out idx = .ok U' ∧ U'.length = idx.length ∧ gram (ipMinv c.a.ip c.w.Minv) U'.get U'.get = 1 := by
  obtain ⟨oa, h1, h2⟩ := h.ideal
  obtain ⟨out, h5, v, h6, h7⟩ := C60_ritz_orthonormal h1 (hU.indep h.own.inner) ((h2 U hU).symm.trans hx) hrt
  refine ⟨out, h5, fun idx hd hr => ?_⟩
  obtain ⟨l, e1, e2⟩ := mapM_ritzIdx idx hr
  have hl : l.Nodup := by
    rw [← e2] at hd
    exact hd.of_map
  refine ⟨_, by unfold CgSol.getVectors; rw [e1], by rw [← e2]; simp, h.own.ortho_list h6 h7 hl⟩

/-- **C92** (`RitzFactorySimple` after `RecyclingCg`). -/
theorem C92_cg_simple [FiniteDimensional 𝕜 E] {rt : ∀ n m, EigRoutines 𝕜 (Fin n ⊕ Fin m)} (hrt : EigTotal rt)
    {argsort : List ℝ → List ℕ} (ha : IsArgsort argsort) (n : ℕ) {which : Which} (hw : which ≠ .invalid) :
    OrthoFactory (simpleGet (𝕜 := 𝕜) (E := E) rt argsort n which) := by
  intro c U x h hU hx
  obtain ⟨out, h1, h2⟩ := C92_cg_get_vectors h hU hx hrt
  obtain ⟨idx, h3, h4, h5⟩ := simpleIndices_ok ha (values := (sumList out.values).map fun v => toCplx (v.getD 0))
    (resnorms := (sumList out.resnorms).map fun r => r.getD 0) (N := x.lan.n + x.k) (by simp [sumList]) (by simp [sumList]) n hw
  obtain ⟨U', h6, -, h7⟩ := h2 idx h4 h5
  refine ⟨U', ?_, h7⟩
  unfold simpleGet
  rw [h1]
  dsimp only
  rw [h3]
  exact h6

/-- **C92** (`RitzFactory` after `RecyclingCg`). -/
theorem C92_cg_ritz [FiniteDimensional 𝕜 E] {F : Type*} [LT F] [DecidableLT F]
    {rt : ∀ n m, EigRoutines 𝕜 (Fin n ⊕ Fin m)} (hrt : EigTotal rt)
    {f : RitzFactoryArgs 𝕜 E F} (hgen : ∀ x out, GenOK (f.gen x out))
    (heval : ∀ x out s e, f.eval x out s = .error e → e = .assumptionError)
    (hord : ∀ s, (f.order s).Nodup ∧ ∀ i, i ∈ f.order s ↔ i ∈ s) : OrthoFactory (ritzGet rt f) := by
  intro c U x h hU hx
  obtain ⟨out, h1, h2⟩ := C92_cg_get_vectors h hU hx hrt
  unfold ritzGet
  rw [h1]
  dsimp only
  rcases C41_terminates (n := x.lan.n + x.k) (eval := f.eval x out) (resSum := f.resSum x out) (hgen x out) with
    ⟨e, -, h4, s, h5⟩ | ⟨sel, st, h3, h4, -⟩
  · exact absurd (heval _ _ _ _ h5) h4
  · rw [h3]
    obtain ⟨U', h6, -, h7⟩ := h2 _ (hord sel).1 fun i hi => Finset.mem_range.mp (h4 (((hord sel).2 i).mp hi))
    exact ⟨U', h6, h7⟩

/-- **C92** (`RecyclingCg`).  With the library's own `qr` every sequence of admissible systems is solved to the tolerance, if the
factories return orthonormal vectors and the norms `‖·‖_{M⁻¹}` of no two of the systems differ by more than the factor `1e15`. -/
theorem C92_cg_sequence [FiniteDimensional 𝕜 E] (sc : Shortcuts (CgSol 𝕜 E) E) (default : Option (VFactory (CgSol 𝕜 E) E))
    (cs : List (OwnCgCall 𝕜 E)) (hcs : ∀ c ∈ cs, OwnCgOk c)
    (hcmp : ∀ c ∈ cs, ∀ c' ∈ cs, ∀ x, 1e-15 * nrm (ipMinv c.a.ip c.w.Minv) x ≤ nrm (ipMinv c'.a.ip c'.w.Minv) x)
    (hdef : ∀ f, default = some f → OrthoFactory (f.getFun sc))
    (hfac : ∀ c ∈ cs, ∀ f, c.factory = some f → OrthoFactory (f.getFun sc)) :
    ∀ i (hi : i < cs.length), ∃ U x, (recRun sc default RecState.init (cs.map OwnCgCall.call)).2[i]? = some ⟨some U, .ok x⟩ ∧
      Apart (ipMinv cs[i].a.ip cs[i].w.Minv) U.get ∧ ∃ z, x.st.xk = some z ∧ resid cs[i].a z ≤ cs[i].p.tol * resid cs[i].a 0 := by
  refine recRun_all sc default OwnCgCall.call (fun c U => Apart (ipMinv c.a.ip c.w.Minv) U.get)
    (fun x => ∃ c ∈ cs, ∃ U : List E, Apart (ipMinv c.a.ip c.w.Minv) U.get ∧ recCgSolver c.a (c.w.oa c.a.ip) c.p U = .ok x)
    (fun c x => ∃ z, x.st.xk = some z ∧ resid c.a z ≤ c.p.tol * resid c.a 0) cs (fun c _ => apart_nil _)
    (fun c hc U hU => ?_) fun c hc f hf x hx => ?_
  · obtain ⟨oa, h1, h2⟩ := (hcs c hc).ideal
    obtain ⟨x, z, h3, h4⟩ := C60_solve h1 U (hU.indep (hcs c hc).own.inner)
    have h5 := (h2 U hU).trans h3
    exact ⟨x, h5, ⟨c, hc, U, hU, h5⟩, z, h4⟩
  · obtain ⟨c0, hc0, U, hU, hx⟩ := hx
    have hof : OrthoFactory (f.getFun sc) := by
      cases hff : c.factory with
      | none => exact hdef f (by simpa [Call.effFactory, OwnCgCall.call, hff] using hf)
      | some g =>
        obtain rfl : g = f := by simpa [Call.effFactory, OwnCgCall.call, hff] using hf
        exact hfac c hc g hff
    obtain ⟨U', h1, h2⟩ := hof c0 U x (hcs c0 hc0) hU hx
    exact ⟨U', h1, apart_next (hcs c0 hc0).own (hcmp c0 hc0 c hc) h2⟩

/-! ## The hypotheses can be met -/

/-- The own `qr` with an arbitrary number of reorthogonalisations; some unitary-triangular factorisation for the small matrix. -/
noncomputable def exRecOwn (r : ℕ) (o : Bool) : OwnArgs ℝ (ℝ × ℝ) :=
  ⟨none, r, fun _ M => ((exists_isMatQr M).choose, (exists_isMatQr M).choose_spec.choose), fun _ => false, o, 2⟩

theorem exRecOwn_ok (r : ℕ) (o : Bool) {t : ℝ} (ht : 1 ≤ t) (b : ℝ × ℝ) : OwnOk (exDiag t b) (exRecOwn r o) := by
  refine ⟨exSpd_hyp.ls, fun x => rfl, fun k M => (exists_isMatQr M).choose_spec.choose_spec, (fun k hk => by cases hk), (by simp [exRecOwn]),
    fun x => ?_, fun x => ?_⟩
  · have := nrm_nonneg exSpd.ip x
    change 1e-15 * nrm exSpd.ip x ≤ nrm exSpd.ip x
    linarith
  · have h0 := nrm_nonneg exSpd.ip x
    change 1e-15 * nrm exSpd.ip x ≤ nrm exSpd.ip ((exDiag t b).B x)
    have h1 : nrm exSpd.ip x ≤ nrm exSpd.ip ((exDiag t b).B x) := by
      refine Real.sqrt_le_sqrt ?_
      simp [nsq, exSpd, exCfg, exDiag, LSArgs.B]
      nlinarith [mul_nonneg (mul_self_nonneg x.2) (by nlinarith : (0 : ℝ) ≤ t * t - 1)]
    linarith

theorem exRecOwn_fov {t : ℝ} (ht : 1 ≤ t) (b : ℝ × ℝ) : ∀ x, x ≠ 0 → 0 < RCLike.re ((exDiag t b).ip x
    ((exDiag t b).Ml ((exDiag t b).A ((exDiag t b).Mr x)))) := by
  intro x hx
  have hxy : x.1 ≠ 0 ∨ x.2 ≠ 0 := by
    by_contra hcon
    push Not at hcon
    exact hx (Prod.ext hcon.1 hcon.2)
  simp [exDiag, exSpd, exCfg]
  rcases hxy with h | h
  · have := mul_self_pos.mpr h; nlinarith [mul_nonneg (mul_self_nonneg x.2) (by linarith : (0 : ℝ) ≤ t)]
  · have := mul_self_pos.mpr h; nlinarith [mul_self_nonneg x.1, mul_nonneg (mul_self_nonneg x.2) (by linarith : (0 : ℝ) ≤ t - 1)]

/-- Non-vacuity of `C92_sequence`, `C92_simple`, `C92_solve` and `C92_get_vectors`: three systems with different matrices
`diag(1, t)`, which recycle the vector of the Ritz value of smallest magnitude and use the own `qr`. -/
example (kind : ArnKind) (ortho : Ortho) (r : ℕ) (o : Bool) : ∃ (f : ArnSol ℝ (ℝ × ℝ) → Except Err (List (ℝ × ℝ)))
    (p : SolverArgs (ℝ × ℝ)), let c : ℝ → ℝ × ℝ → OwnArnCall ℝ (ℝ × ℝ) := fun t b => ⟨exDiag t b, exRecOwn r o, ortho, p, none⟩
    let cs := [c 2 (1, 1), c 3 (2, 3), c 1 (0, 5)]
    ∀ i (hi : i < cs.length), ∃ U x, (recRun ⟨f, f, f⟩ (some (.obj f)) RecState.init (cs.map (OwnArnCall.call kind))).2[i]? =
      some ⟨some U, .ok x⟩ ∧ ArnSolved cs[i].a cs[i].p x := by
  obtain ⟨rt, hrt⟩ := eigTotal_exists (𝕜 := ℝ)
  obtain ⟨argsort, ha⟩ := argsort_exists
  have hf : OrthoFactoryA kind (simpleGetA (𝕜 := ℝ) (E := ℝ × ℝ) rt argsort 1 .sm) := C92_simple hrt ha 1 (by simp)
  refine ⟨simpleGetA rt argsort 1 .sm, ⟨none, 1 / 100000, 2, false, none⟩, ?_⟩
  intro c cs i hi
  have hok : ∀ t b, 1 ≤ t → OwnArnOk (c t b) := fun t b ht => ⟨exRecOwn_ok r o ht b, fun x y => by
    simp [c, exDiag, exSpd, exCfg]; ring, rfl, fun x hx h0 => by
      have := exRecOwn_fov ht b x hx
      rw [h0] at this
      simp at this, fun x => rfl, by norm_num [c], by simp [c]⟩
  obtain ⟨U, x, h1, -, h2⟩ := C92_sequence kind ⟨simpleGetA rt argsort 1 .sm, simpleGetA rt argsort 1 .sm, simpleGetA rt argsort 1 .sm⟩
    (some (.obj (simpleGetA rt argsort 1 .sm))) cs
    (fun d hd => by
      simp only [cs, List.mem_cons, List.not_mem_nil, or_false] at hd
      rcases hd with rfl | rfl | rfl <;> exact hok _ _ (by norm_num))
    (fun d hd d' hd' x => by
      have hip : ∀ e ∈ cs, ipMinv e.a.ip e.w.Minv = exSpd.ip := by
        intro e he
        simp only [cs, List.mem_cons, List.not_mem_nil, or_false] at he
        rcases he with rfl | rfl | rfl <;> rfl
      rw [hip d hd, hip d' hd']
      have := nrm_nonneg exSpd.ip x
      linarith)
    (fun f hf' => by obtain rfl := Option.some.inj hf'; exact hf)
    (fun d hd f hf' => by
      simp only [cs, List.mem_cons, List.not_mem_nil, or_false] at hd
      rcases hd with rfl | rfl | rfl <;> cases hf') i hi
  exact ⟨U, x, h1, h2⟩

/-- As `exDiag t b` with the preconditioner `M = 4`. -/
noncomputable def exDiagM (t : ℝ) (b : ℝ × ℝ) : LSArgs ℝ (ℝ × ℝ) := { exDiag t b with M := (4 : ℝ) • LinearMap.id }

/-- As `exRecOwn` with `Minv = 1/4`. -/
noncomputable def exRecOwnM (r : ℕ) (o : Bool) : OwnArgs ℝ (ℝ × ℝ) := { exRecOwn r o with Minv := some ((1 / 4 : ℝ) • LinearMap.id) }

theorem exRecOwnM_nrm (r : ℕ) (o : Bool) (x : ℝ × ℝ) : nrm (ipMinv exSpd.ip (exRecOwnM r o).Minv) x = 1 / 2 * nrm exSpd.ip x := by
  unfold nrm
  rw [show nsq (ipMinv exSpd.ip (exRecOwnM r o).Minv) x = (1 / 2) ^ 2 * nsq exSpd.ip x by
    simp [nsq, ipMinv, exRecOwnM, exSpd, exCfg]; ring, Real.sqrt_mul (by positivity), Real.sqrt_sq (by norm_num)]

theorem exRecOwnM_ok (r : ℕ) (o : Bool) {t : ℝ} (ht : 1 ≤ t) (b : ℝ × ℝ) : OwnOk (exDiagM t b) (exRecOwnM r o) := by
  have h := exRecOwn_ok r o ht b
  refine ⟨⟨exSpd_hyp.ls.inner, ⟨fun x y z => ?_, fun x c y => ?_, fun x y => ?_, fun x hx => ?_⟩⟩, fun x => ?_, h.matQr,
    (fun k hk => by cases hk), (by simp [exRecOwnM, exRecOwn]), fun x => ?_, fun x => ?_⟩
  · rw [map_add]; exact exSpd_hyp.ls.inner.add_right _ _ _
  · rw [map_smul]; exact exSpd_hyp.ls.inner.smul_right _ _ _
  · simp [exDiagM, exDiag, exSpd, exCfg]; ring
  · have := exSpd_hyp.ls.inner.pos x hx
    simp [exDiagM, exDiag, exSpd, exCfg] at this ⊢
    linarith
  · simp [exDiagM, exRecOwnM, smul_smul]
  · have h0 := nrm_nonneg exSpd.ip x
    change 1e-15 * nrm (ipMinv exSpd.ip (exRecOwnM r o).Minv) x ≤ nrm exSpd.ip x
    rw [exRecOwnM_nrm]
    linarith
  · have h0 := nrm_nonneg exSpd.ip x
    have h1 : 1e-15 * nrm exSpd.ip x ≤ nrm exSpd.ip ((exDiag t b).B x) := h.opBig x
    change 1e-15 * nrm (ipMinv exSpd.ip (exRecOwnM r o).Minv) x ≤ nrm exSpd.ip ((exDiag t b).B x)
    rw [exRecOwnM_nrm]
    linarith

/-- Non-vacuity of `C92_ritz` (and of `C92_sequence` with preconditioners, so that the inner products differ): `RitzFactory` with the
generator `RitzSmall` and an evaluator which counts the vectors. -/
example (kind : ArnKind) (ortho : Ortho) (r : ℕ) (o : Bool) : ∃ (f : ArnSol ℝ (ℝ × ℝ) → Except Err (List (ℝ × ℝ)))
    (p : SolverArgs (ℝ × ℝ)), let cs : List (OwnArnCall ℝ (ℝ × ℝ)) := [⟨exDiagM 2 (1, 1), exRecOwnM r o, ortho, p, none⟩,
      ⟨exDiag 3 (2, 3), exRecOwn r o, ortho, p, none⟩]
    ∀ i (hi : i < cs.length), ∃ U x, (recRun ⟨f, f, f⟩ (some (.obj f)) RecState.init (cs.map (OwnArnCall.call kind))).2[i]? =
      some ⟨some U, .ok x⟩ ∧ ArnSolved cs[i].a cs[i].p x := by
  obtain ⟨rt, hrt⟩ := eigTotal_exists (𝕜 := ℝ)
  obtain ⟨argsort, ha⟩ := argsort_exists
  let fa : RitzFactoryArgsA ℝ (ℝ × ℝ) ℝ := ⟨fun _ _ s => .ok (-(s.card : ℝ)),
    fun x out rem => ritzSmall argsort (x.arn.get.cols + x.k) none (fun i => |(((sumList out.values)[i]?.getD none).getD 0 : ℝ)|)
      rem.toList, fun _ _ _ => 0, Finset.toList⟩
  have hf : OrthoFactoryA kind (ritzGetA rt fa) := C92_ritz hrt
    (fun x out => (C42_gens_ok ha _ none false (fun _ => 0) _ Finset.toList (fun s i => Finset.mem_toList)).1)
    (fun x out s e he => by cases he) fun s => ⟨Finset.nodup_toList s, fun i => Finset.mem_toList⟩
  refine ⟨ritzGetA rt fa, ⟨none, 1 / 100000, 2, false, none⟩, ?_⟩
  intro cs i hi
  have hsa : ∀ (t : ℝ) (b x y : ℝ × ℝ), (exDiag t b).ip ((exDiag t b).Ml ((exDiag t b).A ((exDiag t b).Mr x))) y =
      (exDiag t b).ip x ((exDiag t b).Ml ((exDiag t b).A ((exDiag t b).Mr y))) := fun t b x y => by
    simp [exDiag, exSpd, exCfg]; ring
  have hfov : ∀ t b, 1 ≤ t → FovOk (exDiag t b) := fun t b ht x hx h0 => by
    have := exRecOwn_fov ht b x hx
    rw [h0] at this
    simp at this
  obtain ⟨U, x, h1, -, h2⟩ := C92_sequence kind ⟨ritzGetA rt fa, ritzGetA rt fa, ritzGetA rt fa⟩ (some (.obj (ritzGetA rt fa))) cs
    (fun d hd => by
      simp only [cs, List.mem_cons, List.not_mem_nil, or_false] at hd
      rcases hd with rfl | rfl
      · exact ⟨exRecOwnM_ok r o (by norm_num) _, hsa 2 (1, 1), rfl, hfov 2 (1, 1) (by norm_num), fun x => rfl, by norm_num, by simp⟩
      · exact ⟨exRecOwn_ok r o (by norm_num) _, hsa 3 (2, 3), rfl, hfov 3 (2, 3) (by norm_num), fun x => rfl, by norm_num, by simp⟩)
    (fun d hd d' hd' x => by
      have hip : ∀ e ∈ cs, nrm (ipMinv e.a.ip e.w.Minv) x = 1 / 2 * nrm exSpd.ip x ∨
          nrm (ipMinv e.a.ip e.w.Minv) x = nrm exSpd.ip x := by
        intro e he
        simp only [cs, List.mem_cons, List.not_mem_nil, or_false] at he
        rcases he with rfl | rfl
        · exact .inl (exRecOwnM_nrm r o x)
        · exact .inr rfl
      have := nrm_nonneg exSpd.ip x
      rcases hip d hd with e | e <;> rcases hip d' hd' with e' | e' <;> rw [e, e'] <;> linarith)
    (fun f hf' => by obtain rfl := Option.some.inj hf'; exact hf)
    (fun d hd f hf' => by
      simp only [cs, List.mem_cons, List.not_mem_nil, or_false] at hd
      rcases hd with rfl | rfl <;> cases hf') i hi
  exact ⟨U, x, h1, h2⟩

/-- Non-vacuity of `C92_cg_sequence`, `C92_cg_simple` and `C92_cg_get_vectors`. -/
example (r : ℕ) (o : Bool) : ∃ (f : CgSol ℝ (ℝ × ℝ) → Except Err (List (ℝ × ℝ)))
    (p : SolverArgs (ℝ × ℝ)), let c : ℝ → ℝ × ℝ → OwnCgCall ℝ (ℝ × ℝ) := fun t b => ⟨exDiag t b, exRecOwn r o, p, none⟩
    let cs := [c 2 (1, 1), c 3 (2, 3), c 1 (0, 5)]
    ∀ i (hi : i < cs.length), ∃ U x, (recRun ⟨f, f, f⟩ (some (.obj f)) RecState.init (cs.map OwnCgCall.call)).2[i]? =
      some ⟨some U, .ok x⟩ ∧ ∃ z, x.st.xk = some z ∧ resid cs[i].a z ≤ cs[i].p.tol * resid cs[i].a 0 := by
  obtain ⟨rt, hrt⟩ := eigTotal_exists (𝕜 := ℝ)
  obtain ⟨argsort, ha⟩ := argsort_exists
  have hf : OrthoFactory (simpleGet (𝕜 := ℝ) (E := ℝ × ℝ) rt argsort 1 .sm) := C92_cg_simple hrt ha 1 (by simp)
  refine ⟨simpleGet rt argsort 1 .sm, ⟨none, 1 / 100000, 2, false, none⟩, ?_⟩
  intro c cs i hi
  have hok : ∀ t b, 1 ≤ t → OwnCgOk (c t b) := fun t b ht => ⟨exRecOwn_ok r o ht b, ⟨exSpd_hyp.ls, fun x y => by
    simp [c, exDiag, exSpd, exCfg]; ring, exRecOwn_fov ht b⟩, rfl, fun x => rfl, by norm_num [c], by simp [c]⟩
  obtain ⟨U, x, h1, -, h2⟩ := C92_cg_sequence ⟨simpleGet rt argsort 1 .sm, simpleGet rt argsort 1 .sm, simpleGet rt argsort 1 .sm⟩
    (some (.obj (simpleGet rt argsort 1 .sm))) cs
    (fun d hd => by
      simp only [cs, List.mem_cons, List.not_mem_nil, or_false] at hd
      rcases hd with rfl | rfl | rfl <;> exact hok _ _ (by norm_num))
    (fun d hd d' hd' x => by
      have hip : ∀ e ∈ cs, ipMinv e.a.ip e.w.Minv = exSpd.ip := by
        intro e he
        simp only [cs, List.mem_cons, List.not_mem_nil, or_false] at he
        rcases he with rfl | rfl | rfl <;> rfl
      rw [hip d hd, hip d' hd']
      have := nrm_nonneg exSpd.ip x
      linarith)
    (fun f hf' => by obtain rfl := Option.some.inj hf'; exact hf)
    (fun d hd f hf' => by
      simp only [cs, List.mem_cons, List.not_mem_nil, or_false] at hd
      rcases hd with rfl | rfl | rfl <;> cases hf') i hi
  exact ⟨U, x, h1, h2⟩

/-- Non-vacuity of `C92_cg_ritz`: `RitzFactory` with the generator `RitzSmall` and an evaluator which counts the vectors. -/
example : ∃ (rt : ∀ n m, EigRoutines ℝ (Fin n ⊕ Fin m)) (fa : RitzFactoryArgs ℝ (ℝ × ℝ) ℝ), OrthoFactory (ritzGet rt fa) := by
  obtain ⟨rt, hrt⟩ := eigTotal_exists (𝕜 := ℝ)
  obtain ⟨argsort, ha⟩ := argsort_exists
  exact ⟨rt, ⟨fun _ _ s => .ok (-(s.card : ℝ)),
    fun x out rem => ritzSmall argsort (x.lan.n + x.k) none (fun i => |(((sumList out.values)[i]?.getD none).getD 0 : ℝ)|)
      rem.toList, fun _ _ _ => 0, Finset.toList⟩, C92_cg_ritz hrt
    (fun x out => (C42_gens_ok ha _ none false (fun _ => 0) _ Finset.toList (fun s i => Finset.mem_toList)).1)
    (fun x out s e he => by cases he) fun s => ⟨Finset.nodup_toList s, fun i => Finset.mem_toList⟩⟩

end Krypy
