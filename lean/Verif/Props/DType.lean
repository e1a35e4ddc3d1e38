import Verif.Model.DType
import Verif.Props.Cg
import Verif.Props.Gmres
import Verif.Proofs.Sim
import Verif.Props.ArnoldiHouse
import Mathlib.LinearAlgebra.Matrix.Notation
import Mathlib.LinearAlgebra.Matrix.ToLin
import Mathlib.Order.Bounds.Basic

/-! # Property C65: the types of the arrays -/

set_option linter.unusedSectionVars false

namespace Krypy

/-! ## Specification -/

/-- Numbers which can be stored in an array of kind `k`. -/
def HasKind : Kind → ℂ → Prop
  | .int, z => ∃ n : ℤ, z = n
  | .real, z => z.im = 0
  | .cplx, _ => True

/-- Vectors which can be stored in an array of kind `k`. -/
def VecKind {N : ℕ} (k : Kind) (x : Fin N → ℂ) : Prop := ∀ i, HasKind k (x i)

/-- An operator of kind `k`, e.g. a matrix with entries of kind `k`. -/
def OpKind {N : ℕ} (k : Kind) (f : (Fin N → ℂ) → Fin N → ℂ) : Prop := ∀ k' x, VecKind k' x → VecKind (max k k') (f x)

/-- An inner product of kind `k`. -/
def IpKind {N : ℕ} (k : Kind) (ip : (Fin N → ℂ) → (Fin N → ℂ) → ℂ) : Prop :=
  ∀ k' x y, VecKind k' x → VecKind k' y → HasKind (max k k') (ip x y)

/-! ## Kinds -/

theorem Kind.le_iff {a b : Kind} : a ≤ b ↔ a.rank ≤ b.rank := Iff.rfl

theorem Kind.int_le (k : Kind) : Kind.int ≤ k := by rw [Kind.le_iff]; exact Nat.zero_le _

theorem Kind.le_cplx (k : Kind) : k ≤ Kind.cplx := by rw [Kind.le_iff]; cases k <;> decide

theorem Kind.real_cases {k : Kind} (h : Kind.real ≤ k) : k = .real ∨ k = .cplx := by
  cases k
  · rw [Kind.le_iff] at h; simp [Kind.rank] at h
  · exact .inl rfl
  · exact .inr rfl

theorem HasKind.mono {a b : Kind} (h : a ≤ b) {z : ℂ} (hz : HasKind a z) : HasKind b z := by
  rw [Kind.le_iff] at h
  cases a <;> cases b <;> simp [Kind.rank] at h
  · exact hz
  · obtain ⟨n, rfl⟩ := hz; simp [HasKind]
  · trivial
  · exact hz
  · trivial
  · trivial

theorem VecKind.mono {N : ℕ} {a b : Kind} (h : a ≤ b) {x : Fin N → ℂ} (hx : VecKind a x) : VecKind b x :=
  fun i => (hx i).mono h

theorem truncZero_int (n : ℤ) : truncZero (n : ℝ) = n := by
  unfold truncZero
  split
  · exact Int.floor_intCast n
  · exact Int.ceil_intCast n

theorem HasKind.cast {k : Kind} {z : ℂ} (h : HasKind k z) : k.cast z = z := by
  cases k with
  | int =>
    obtain ⟨n, rfl⟩ := h
    change ((truncZero ((n : ℂ).re) : ℤ) : ℂ) = n
    rw [Complex.intCast_re, truncZero_int]
  | real =>
    change ((z.re : ℝ) : ℂ) = z
    exact Complex.ext (by simp) (by simpa using h.symm)
  | cplx => rfl

theorem VecKind.cast {N : ℕ} {k : Kind} {x : Fin N → ℂ} (h : VecKind k x) : k.castVec x = x := funext fun i => (h i).cast

section closed
variable {K : Kind} (hK : Kind.real ≤ K)
include hK

theorem HasKind.ofReal (r : ℝ) : HasKind K (r : ℂ) := HasKind.mono hK (show HasKind .real (r : ℂ) from Complex.ofReal_im r)

theorem HasKind.add {z w : ℂ} (hz : HasKind K z) (hw : HasKind K w) : HasKind K (z + w) := by
  rcases Kind.real_cases hK with rfl | rfl
  · change (z + w).im = 0
    have h1 : z.im = 0 := hz
    have h2 : w.im = 0 := hw
    simp [h1, h2]
  · trivial

theorem HasKind.mul {z w : ℂ} (hz : HasKind K z) (hw : HasKind K w) : HasKind K (z * w) := by
  rcases Kind.real_cases hK with rfl | rfl
  · change (z * w).im = 0
    have h1 : z.im = 0 := hz
    have h2 : w.im = 0 := hw
    simp [h1, h2]
  · trivial

theorem HasKind.neg {z : ℂ} (hz : HasKind K z) : HasKind K (-z) := by
  rcases Kind.real_cases hK with rfl | rfl
  · change (-z).im = 0
    have h1 : z.im = 0 := hz
    simp [h1]
  · trivial

theorem HasKind.inv {z : ℂ} (hz : HasKind K z) : HasKind K z⁻¹ := by
  rcases Kind.real_cases hK with rfl | rfl
  · change (z⁻¹).im = 0
    have h1 : z.im = 0 := hz
    simp [h1]
  · trivial

theorem HasKind.zero : HasKind K 0 := by simpa using HasKind.ofReal hK 0

theorem VecKind.smul {N : ℕ} {c : ℂ} {x : Fin N → ℂ} (hc : HasKind K c) (hx : VecKind K x) : VecKind K (c • x) :=
  fun i => HasKind.mul hK hc (hx i)

theorem VecKind.sub_smul {N : ℕ} {c : ℂ} {x y : Fin N → ℂ} (hc : HasKind K c) (hx : VecKind K x) (hy : VecKind K y) :
    VecKind K (x - c • y) := fun i => by
  change HasKind K (x i - c * y i)
  rw [sub_eq_add_neg]
  exact HasKind.add hK (hx i) (HasKind.neg hK (HasKind.mul hK hc (hy i)))

end closed

/-! ## `find_common_dtype` -/

theorem mem_dtypesOf {k : Kind} : ∀ {l : List DObj}, k ∈ dtypesOf l ↔ DObj.typed k ∈ l
  | [] => by simp [dtypesOf]
  | .typed k' :: l => by simp [dtypesOf, mem_dtypesOf (l := l)]
  | .other :: l => by simp [dtypesOf, mem_dtypesOf (l := l)]

theorem findCommonType_spec : ∀ l : List Kind, match findCommonType l with
    | none => l = []
    | some k => IsGreatest {k | k ∈ l} k
  | [] => rfl
  | k :: l => by
    have ih := findCommonType_spec l
    unfold findCommonType
    cases h : findCommonType l with
    | none =>
      rw [h] at ih
      dsimp only at ih ⊢
      subst ih
      exact ⟨by simp, fun x hx => by simpa using le_of_eq (by simpa using hx)⟩
    | some k' =>
      rw [h] at ih
      dsimp only at ih ⊢
      refine ⟨?_, ?_⟩
      · rcases max_choice k k' with e | e
        · rw [e]; simp
        · rw [e]; exact List.mem_cons_of_mem _ ih.1
      · intro x hx
        rcases List.mem_cons.mp hx with rfl | hx
        · exact le_max_left _ _
        · exact (ih.2 hx).trans (le_max_right _ _)

/-- C65: `find_common_dtype` returns the greatest type of its arguments that are arrays, sparse matrices or krypy operators and `None`
if there are none. -/
theorem C65_common (args : List DObj) : (findCommonDtype args = none ↔ ∀ k, DObj.typed k ∉ args) ∧
    ∀ k, findCommonDtype args = some k ↔ IsGreatest {k | DObj.typed k ∈ args} k := by
  have h := findCommonType_spec (dtypesOf args)
  have hset : {k | k ∈ dtypesOf args} = {k | DObj.typed k ∈ args} := by ext k; exact mem_dtypesOf
  rw [hset] at h
  unfold findCommonDtype
  cases hf : findCommonType (dtypesOf args) with
  | none =>
    rw [hf] at h
    dsimp only at h
    have hn : ∀ k, DObj.typed k ∉ args := fun k hk => by
      have := mem_dtypesOf.mpr hk
      rw [h] at this
      simp at this
    exact ⟨⟨fun _ => hn, fun _ => rfl⟩, fun k => ⟨fun h => by simp at h, fun h => absurd h.1 (hn k)⟩⟩
  | some k' =>
    rw [hf] at h
    dsimp only at h
    refine ⟨⟨fun h => by simp at h, fun hn => absurd h.1 (hn k')⟩, fun k => ⟨?_, ?_⟩⟩
    · intro e
      obtain rfl := Option.some.inj e
      exact h
    · intro hk
      rw [h.unique hk]

/-- C65: the result does not depend on the order of the arguments. -/
theorem C65_common_order {a b : List DObj} (h : ∀ k, DObj.typed k ∈ a ↔ DObj.typed k ∈ b) : findCommonDtype a = findCommonDtype b := by
  cases hb : findCommonDtype b with
  | none =>
    rw [(C65_common a).1]
    have := (C65_common b).1.mp hb
    exact fun k => mt (h k).mp (this k)
  | some k =>
    rw [(C65_common a).2]
    have := ((C65_common b).2 k).mp hb
    rwa [show {k | DObj.typed k ∈ a} = {k | DObj.typed k ∈ b} from Set.ext h]

/-! ## `Arnoldi` -/

section arnoldi
variable {N : ℕ} {t : TArnCfg N}

/-- The arguments have the kinds, and the arrays are wide enough. -/
structure WideEnough (t : TArnCfg N) : Prop where
  real : Kind.real ≤ t.K
  kA : t.kA ≤ t.K
  kM : t.kM ≤ t.K
  kI : t.c.ortho = .lanczos ∨ t.kI ≤ t.K
  A : OpKind t.kA t.c.A
  M : OpKind t.kM t.c.Mop
  ip : IpKind t.kI t.c.ip

/-- All numbers in the arrays have the kind of the arrays. -/
structure ArrKind (K : Kind) (s : Arn ℂ (Fin N → ℂ)) : Prop where
  V : ∀ j, VecKind K (s.V j)
  P : ∀ j, VecKind K (s.P j)
  H : ∀ i j, HasKind K (s.H i j)

theorem WideEnough.kAv (h : WideEnough t) : t.kAv = t.K := max_eq_right h.kA

theorem WideEnough.inplace (h : WideEnough t) : inplace t.kAv (max t.kAlpha t.K) = .ok () := by
  unfold Krypy.inplace
  rw [if_pos]
  rw [h.kAv]
  refine max_le ?_ le_rfl
  unfold TArnCfg.kAlpha
  dsimp only
  rw [h.kAv]
  split
  · exact (min_le_right _ _).trans h.real
  next hl => rcases h.kI with e | e
             · exact absurd e hl
             · exact max_le e (by simp)

theorem update_kind {K : Kind} {f : ℕ → ℂ} (hf : ∀ i, HasKind K (f i)) {z : ℂ} (hz : HasKind K z) (j : ℕ) :
    ∀ i, HasKind K (Function.update f j z i) := by
  intro i
  rw [Function.update_apply]
  split
  · exact hz
  · exact hf i

theorem update_vecKind {K : Kind} {f : ℕ → Fin N → ℂ} (hf : ∀ i, VecKind K (f i)) {z : Fin N → ℂ} (hz : VecKind K z) (j : ℕ) :
    ∀ i, VecKind K (Function.update f j z i) := by
  intro i
  rw [Function.update_apply]
  split
  · exact hz
  · exact hf i

theorem tOrthoStep_eq (h : WideEnough t) {V P : ℕ → Fin N → ℂ} (hV : ∀ j, VecKind t.K (V j)) (hP : ∀ j, VecKind t.K (P j))
    {st : (Fin N → ℂ) × (ℕ → ℂ)} (h1 : VecKind t.K st.1) (h2 : ∀ i, HasKind t.K (st.2 i)) (j : ℕ) :
    tOrthoStep t V P st j = .ok (orthoStep t.c V P st j) ∧ VecKind t.K (orthoStep t.c V P st j).1 ∧
      ∀ i, HasKind t.K ((orthoStep t.c V P st j).2 i) := by
  have ha : HasKind t.K (if t.c.ortho = .lanczos then ((RCLike.re (t.c.ip (V j) st.1) : ℝ) : ℂ) else t.c.ip (V j) st.1) := by
    split
    · exact HasKind.ofReal h.real _
    next hl =>
      rcases h.kI with e | e
      · exact absurd e hl
      · have := h.ip t.K _ _ (hV j) h1
        rwa [max_eq_right e] at this
  have hs := HasKind.add h.real (h2 j) ha
  refine ⟨?_, VecKind.sub_smul h.real ha h1 (hP j), update_kind h2 hs j⟩
  unfold tOrthoStep orthoStep
  dsimp only
  rw [h.inplace, hs.cast]
  rfl

theorem tOrthoLoop_eq (h : WideEnough t) {V P : ℕ → Fin N → ℂ} (hV : ∀ j, VecKind t.K (V j)) (hP : ∀ j, VecKind t.K (P j)) :
    ∀ (l : List ℕ) {st : (Fin N → ℂ) × (ℕ → ℂ)}, VecKind t.K st.1 → (∀ i, HasKind t.K (st.2 i)) →
      tOrthoLoop t V P l st = .ok (l.foldl (orthoStep t.c V P) st) ∧ VecKind t.K (l.foldl (orthoStep t.c V P) st).1 ∧
        ∀ i, HasKind t.K ((l.foldl (orthoStep t.c V P) st).2 i)
  | [], st, h1, h2 => ⟨rfl, h1, h2⟩
  | j :: l, st, h1, h2 => by
    obtain ⟨e, h3, h4⟩ := tOrthoStep_eq h hV hP h1 h2 j
    obtain ⟨e', h5⟩ := tOrthoLoop_eq h hV hP l h3 h4
    refine ⟨?_, h5⟩
    unfold tOrthoLoop
    rw [e]
    exact e'

theorem tOrthoPasses_eq (h : WideEnough t) {V P : ℕ → Fin N → ℂ} (hV : ∀ j, VecKind t.K (V j)) (hP : ∀ j, VecKind t.K (P j))
    (start k : ℕ) : ∀ (n : ℕ) {st : (Fin N → ℂ) × (ℕ → ℂ)}, VecKind t.K st.1 → (∀ i, HasKind t.K (st.2 i)) →
      tOrthoPasses t V P start k n st = .ok (orthoPasses t.c V P start k n st) ∧
        VecKind t.K (orthoPasses t.c V P start k n st).1 ∧ ∀ i, HasKind t.K ((orthoPasses t.c V P start k n st).2 i)
  | 0, st, h1, h2 => tOrthoLoop_eq h hV hP _ h1 h2
  | n + 1, st, h1, h2 => by
    obtain ⟨e, h3, h4⟩ := tOrthoLoop_eq h hV hP (List.range' start (k + 1 - start)) h1 h2
    obtain ⟨e', h5⟩ := tOrthoPasses_eq h hV hP start k n h3 h4
    refine ⟨?_, h5⟩
    unfold tOrthoPasses
    rw [e]
    exact e'

theorem tOrthogonalise_eq (h : WideEnough t) {s : Arn ℂ (Fin N → ℂ)} (hs : ArrKind t.K s) :
    tOrthogonalise t s = .ok (orthogonalise t.c s) ∧ VecKind t.K (orthogonalise t.c s).1 ∧
      ∀ i, HasKind t.K ((orthogonalise t.c s).2 i) := by
  have hA : VecKind t.K (t.c.A (s.V s.iter)) := by
    have := h.A t.K _ (hs.V s.iter)
    rwa [max_eq_right h.kA] at this
  unfold tOrthogonalise orthogonalise
  dsimp only
  split
  · split
    next hk =>
      have hi : Krypy.inplace t.kAv t.K = .ok () := by
        unfold Krypy.inplace
        rw [if_pos]; rw [h.kAv]
      rw [hi]
      exact tOrthoPasses_eq h hs.V hs.P _ _ _ (VecKind.sub_smul h.real (hs.H _ _) hA (hs.P _))
        (update_kind (fun i => hs.H i _) (hs.H _ _) _)
    next hk => exact tOrthoPasses_eq h hs.V hs.P _ _ _ hA fun i => hs.H i _
  · exact tOrthoPasses_eq h hs.V hs.P _ _ _ hA fun i => hs.H i _

theorem tarnAdvance_eq (h : WideEnough t) {s : Arn ℂ (Fin N → ℂ)} (hs : ArrKind t.K s) :
    tarnAdvance t s = arnAdvance t.c s ∧ ∀ s', arnAdvance t.c s = .ok s' → ArrKind t.K s' := by
  obtain ⟨e, h1, h2⟩ := tOrthogonalise_eq h hs
  unfold tarnAdvance arnAdvance
  rw [e]
  split
  · exact ⟨rfl, fun s' hs' => by simp at hs'⟩
  split
  · exact ⟨rfl, fun s' hs' => by simp at hs'⟩
  dsimp only
  rcases ho : orthogonalise t.c s with ⟨Av, hc⟩
  rw [ho] at h1 h2
  dsimp only at h1 h2 ⊢
  have hM : VecKind t.K (t.c.Mop Av) := by
    have := h.M t.K _ h1
    rwa [max_eq_right h.kM] at this
  cases hn : npNorm (t.c.ip Av (t.c.Mop Av)) with
  | error e => exact ⟨rfl, fun s' hs' => by simp at hs'⟩
  | ok r =>
    dsimp only
    have hr := HasKind.ofReal h.real r
    rw [hr.cast]
    have hH : ∀ i j, HasKind t.K (setCol s.H s.iter (Function.update hc (s.iter + 1) (r : ℂ)) i j) := by
      intro i j
      unfold setCol
      split
      · exact update_kind h2 hr _ i
      · exact hs.H i j
    rw [VecKind.cast (VecKind.smul h.real (HasKind.inv h.real hr) hM), VecKind.cast (VecKind.smul h.real (HasKind.inv h.real hr) h1),
      Complex.ofReal_re]
    refine ⟨rfl, fun s' hs' => ?_⟩
    split at hs'
    · simp at hs'
    split at hs'
    · obtain rfl := Except.ok.inj hs'
      exact ⟨hs.V, hs.P, hH⟩
    · obtain rfl := Except.ok.inj hs'
      exact ⟨update_vecKind hs.V (VecKind.smul h.real (HasKind.inv h.real hr) hM) _,
        update_vecKind hs.P (VecKind.smul h.real (HasKind.inv h.real hr) h1) _, hH⟩

theorem tarnLoop_eq (h : WideEnough t) : ∀ (fuel : ℕ) {s : Arn ℂ (Fin N → ℂ)}, ArrKind t.K s →
    tarnLoop t fuel s = arnLoop t.c fuel s
  | 0, s, hs => by
    unfold tarnLoop arnLoop
    rfl
  | fuel + 1, s, hs => by
    obtain ⟨e, h1⟩ := tarnAdvance_eq h hs
    unfold tarnLoop arnLoop
    rw [e]
    split
    · dsimp only
      cases ha : arnAdvance t.c s with
      | error e => rfl
      | ok s' => exact tarnLoop_eq h fuel (h1 s' ha)
    · rfl

theorem tarnInit_eq (h : WideEnough t) {v : Fin N → ℂ} (hv : VecKind t.K v) {Mv : Option (Fin N → ℂ)}
    (hMv : ∀ w, Mv = some w → VecKind t.K w) (n : Option ℝ) :
    tarnInit t v Mv n = arnInit t.c v Mv n ∧ ∀ s, arnInit t.c v Mv n = .ok s → ArrKind t.K s := by
  have hw : VecKind t.K (startV t.c v Mv) := by
    unfold startV
    split
    · exact hv
    next M hM =>
      cases Mv with
      | some w => exact hMv w rfl
      | none =>
        have := h.M t.K v hv
        rw [max_eq_right h.kM] at this
        simpa [ArnCfg.Mop, hM] using this
  have hz : ∀ j : ℕ, VecKind t.K ((0 : ℕ → Fin N → ℂ) j) := fun _ _ => HasKind.zero h.real
  unfold tarnInit arnInit
  dsimp only
  cases hn : startNorm t.c v (startV t.c v Mv) n with
  | error e => exact ⟨rfl, fun s hs => by simp at hs⟩
  | ok r =>
    dsimp only
    have hr := HasKind.inv h.real (HasKind.ofReal h.real r)
    rw [(VecKind.smul h.real hr hw).cast, (VecKind.smul h.real hr hv).cast]
    refine ⟨rfl, fun s hs => ?_⟩
    split at hs
    · obtain rfl := Except.ok.inj hs
      exact ⟨update_vecKind hz (VecKind.smul h.real hr hw) 0, update_vecKind hz (VecKind.smul h.real hr hv) 0,
        fun _ _ => HasKind.zero h.real⟩
    · obtain rfl := Except.ok.inj hs
      exact ⟨hz, hz, fun _ _ => HasKind.zero h.real⟩

/-- C65: if the arrays are at least real and as wide as the operators and (except for Lanczos) the inner product, then the types have
no influence on `arnoldi`: nothing is cast and no exception arises from types. -/
theorem C65_arnoldi (h : WideEnough t) {v : Fin N → ℂ} (hv : VecKind t.K v) {Mv : Option (Fin N → ℂ)}
    (hMv : ∀ w, Mv = some w → VecKind t.K w) (n : Option ℝ) : tarnoldi t v Mv n = arnoldi t.c v Mv n := by
  obtain ⟨e, h1⟩ := tarnInit_eq h hv hMv n
  unfold tarnoldi arnoldi
  rw [e]
  cases ha : arnInit t.c v Mv n with
  | error e => rfl
  | ok s => exact tarnLoop_eq h _ (h1 s ha)

/-- C65: the arrays are as wide as the operators, if these are matrices or krypy operators; the inner product is not taken into
account. -/
theorem C65_arnoldi_kind (kA kv kM : Kind) : arnKind (.typed kA) (.typed kv) (.typed kM) = max kA (max kv kM) ∧
    arnKind (.typed kA) (.typed kv) .other = max kA kv ∧ arnKind .other (.typed kv) .other = kv := ⟨rfl, rfl, rfl⟩

/-- C65: with real operators, a real vector and a complex inner product, `Arnoldi.advance` raises `TypeError` for `mgs` and `dmgs`,
whatever the data are. -/
theorem C65_complex_inner_product (hK : t.K = .real) (hA : t.kA ≤ .real) (hI : t.kI = .cplx) (ho : t.c.ortho ≠ .lanczos)
    {s : Arn ℂ (Fin N → ℂ)} (h1 : s.iter < t.c.maxiter) (h2 : s.invariant = false) : tarnAdvance t s = .error .typeError := by
  have hAv : t.kAv = .real := by
    unfold TArnCfg.kAv
    rw [hK]
    exact max_eq_right hA
  have hi : inplace t.kAv (max t.kAlpha t.K) = .error .typeError := by
    unfold inplace TArnCfg.kAlpha
    rw [if_neg]
    rw [hAv, hK, hI, if_neg ho]
    decide
  have hstep : ∀ V P st j, tOrthoStep t V P st j = .error .typeError := by
    intro V P st j
    unfold tOrthoStep
    dsimp only
    rw [hi]
  have hloop : ∀ V P st, tOrthoLoop t V P (List.range' 0 (s.iter + 1 - 0)) st = .error .typeError := by
    intro V P st
    rw [Nat.sub_zero, List.range'_succ]
    unfold tOrthoLoop
    rw [hstep]
  have hpass : ∀ n V P st, tOrthoPasses t V P 0 s.iter n st = .error .typeError := by
    intro n V P st
    cases n with
    | zero => exact hloop V P st
    | succ n => unfold tOrthoPasses; rw [hloop]
  unfold tarnAdvance
  rw [if_neg (by omega), if_neg (by simp [h2])]
  dsimp only
  unfold tOrthogonalise
  rw [if_neg ho, hpass]

theorem truncZero_small {x : ℝ} (h : |x| < 1) : truncZero x = 0 := by
  obtain ⟨h1, h2⟩ := abs_lt.mp h
  unfold truncZero
  split
  next h0 => exact Int.floor_eq_zero_iff.mpr ⟨h0, h2⟩
  next h0 => exact Int.ceil_eq_zero_iff.mpr ⟨h1, by linarith⟩

/-- C65: with integer arrays (integer `A`, `v` and no `M`) the first basis vector is zero, unless the vector is a multiple of a unit
vector: the normalised vector is truncated. -/
theorem C65_integer_counterexample (hK : t.K = .int) (hM : t.c.M = none) (hip : ∀ x y, t.c.ip x y = ∑ i, star (x i) * y i)
    {v : Fin N → ℂ} {i j : Fin N} (hij : i ≠ j) (hi : v i ≠ 0) (hj : v j ≠ 0) :
    ∃ s, tarnInit t v none none = .ok s ∧ 0 < s.vnorm ∧ s.invariant = false ∧ s.V 0 = 0 := by
  set S : ℝ := ∑ l, ‖v l‖ ^ 2 with hS
  have hipv : t.c.ip v v = (S : ℂ) := by
    rw [hip, hS]
    push_cast
    refine Finset.sum_congr rfl fun l _ => ?_
    rw [Complex.star_def, ← Complex.normSq_eq_conj_mul_self, Complex.normSq_eq_norm_sq]
    push_cast
    rfl
  have hlt : ∀ l, ‖v l‖ ^ 2 < S := by
    intro l
    have : ∃ m, m ≠ l ∧ v m ≠ 0 := by
      by_cases h : l = i
      · exact ⟨j, by rw [h]; exact hij.symm, hj⟩
      · exact ⟨i, fun e => h e.symm, hi⟩
    obtain ⟨m, hml, hm⟩ := this
    have h1 : ‖v l‖ ^ 2 + ‖v m‖ ^ 2 ≤ S := by
      rw [hS, ← Finset.sum_pair hml.symm (f := fun l => ‖v l‖ ^ 2)]
      exact Finset.sum_le_sum_of_subset_of_nonneg (Finset.subset_univ _) fun _ _ _ => by positivity
    have : 0 < ‖v m‖ ^ 2 := by have := norm_pos_iff.mpr hm; positivity
    linarith
  have hS0 : 0 < S := lt_of_le_of_lt (by positivity) (hlt i)
  have hnorm : npNorm (t.c.ip v v) = .ok (Real.sqrt S) := by
    unfold npNorm
    rw [hipv, if_neg]
    · rw [Complex.norm_real, Real.norm_of_nonneg hS0.le]
    · rw [not_lt]
      simp only [RCLike.im_to_complex, Complex.ofReal_im, abs_zero]
      positivity
  have hr : 0 < Real.sqrt S := Real.sqrt_pos.mpr hS0
  have hsv : startV t.c v none = v := by unfold startV; rw [hM]
  refine ⟨⟨0, Function.update 0 0 (t.K.castVec (((Real.sqrt S : ℝ) : ℂ)⁻¹ • v)),
      Function.update 0 0 (t.K.castVec (((Real.sqrt S : ℝ) : ℂ)⁻¹ • v)), fun _ _ => 0, false, Real.sqrt S⟩, ?_, ?_⟩
  · unfold tarnInit
    dsimp only
    rw [hsv]
    simp only [startNorm, hnorm]
    rw [if_pos hr]
  · refine ⟨hr, rfl, ?_⟩
    funext l
    change t.K.cast ((((Real.sqrt S : ℝ) : ℂ)⁻¹ • v) l) = 0
    rw [hK]
    change ((truncZero _ : ℤ) : ℂ) = 0
    rw [truncZero_small, Int.cast_zero]
    rw [Pi.smul_apply, smul_eq_mul]
    refine (Complex.abs_re_le_norm _).trans_lt ?_
    rw [norm_mul, norm_inv, Complex.norm_real, Real.norm_of_nonneg hr.le, inv_mul_lt_iff₀ hr, mul_one]
    exact Real.lt_sqrt_of_sq_lt (hlt l)

end arnoldi

/-! ## `Gmres` and `Minres` -/

section solvers
variable {N : ℕ}

/-- Two methods whose iterations agree on an invariant give the same runs. -/
theorem loop_congr {F X S : Type*} [LE F] [LT F] [DecidableLE F] [DecidableLT F] [Div F] (cfg : Cfg F X) {m m' : Method F X S}
    (I : S → Prop) (hs : ∀ s, I s → m'.step s = m.step s) (hI : ∀ s s' r, I s → m.step s = .ok (s', r) → I s')
    (hp : ∀ s r, I s → I (m.post s r)) (h1 : m'.more = m.more) (h2 : m'.getXk = m.getXk) (h3 : m'.k = m.k) (h4 : m'.post = m.post)
    (h5 : m'.countAfter = m.countAfter) : ∀ (fuel : ℕ) (st : St F X S), I st.s → loop cfg m' fuel st = loop cfg m fuel st := by
  have hfin : ∀ st, finish m' st = finish m st := fun st => by unfold finish; rw [h2]
  have hg : ∀ st, loopGuard cfg m' st = loopGuard cfg m st := fun st => by unfold loopGuard; rw [h1]
  intro fuel
  induction fuel with
  | zero => intro st _; unfold loop; rw [hg, hfin]
  | succ n ih =>
    intro st hst
    have hb : body cfg m' st = body cfg m st := by
      unfold body
      rw [h2, h3, h4, h5]
      dsimp only
      rw [hs _ hst]
    unfold loop
    rw [hg, hfin, hb]
    dsimp only
    split
    · cases hbo : body cfg m st with
      | raised e => rfl
      | convergence st => rfl
      | ok st' =>
        refine ih st' ?_
        unfold body at hbo
        dsimp only at hbo
        split at hbo
        · simp at hbo
        next s' r hstep =>
          split at hbo
          · simp at hbo
          · simp at hbo
          next st1 rkn hfi =>
            obtain rfl := Res3.ok.inj hbo
            have e := finalize_s (.inl hfi)
            refine hp _ _ ?_
            rw [e]
            exact hI _ _ _ hst hstep
    · rfl

theorem run_congr {F X S : Type*} [LE F] [LT F] [DecidableLE F] [DecidableLT F] [Div F] [Zero F] [BEq F] [Zero X] (cfg : Cfg F X)
    {m m' : Method F X S} (I : S → Prop) (hs : ∀ s, I s → m'.step s = m.step s)
    (hI : ∀ s s' r, I s → m.step s = .ok (s', r) → I s') (hp : ∀ s r, I s → I (m.post s r)) (h1 : m'.more = m.more)
    (h2 : m'.getXk = m.getXk) (h3 : m'.k = m.k) (h4 : m'.post = m.post) (h5 : m'.countAfter = m.countAfter) (x0 : X) (r0 : F)
    (mkS : X → S) (hmk : ∀ x, I (mkS x)) (xk0 : X → Except Err X) : run cfg m' x0 r0 mkS xk0 = run cfg m x0 r0 mkS xk0 := by
  unfold run
  dsimp only
  cases initErr cfg (xk0 (if cfg.MMlbNorm == 0 then 0 else x0)) with
  | error e => rfl
  | ok en => exact loop_congr cfg I hs hI hp h1 h2 h3 h4 h5 _ _ (hmk _)

/-- The data of the system have the kinds. -/
structure KindsOf (kd : SysKinds) (kI : Kind) (a : LSArgs ℂ (Fin N → ℂ)) (x0 : Option (Fin N → ℂ)) : Prop where
  A : OpKind kd.A a.A
  M : OpKind kd.M a.M
  Ml : OpKind kd.Ml a.Ml
  Mr : OpKind kd.Mr a.Mr
  b : VecKind kd.b a.b
  ip : IpKind kI a.ip
  none : kd.x0 = none ↔ x0 = none
  some : ∀ k x, kd.x0 = some k → x0 = some x → VecKind k x

theorem HasKind.sub' {K : Kind} {z w : ℂ} (hz : HasKind K z) (hw : HasKind K w) : HasKind K (z - w) := by
  cases K with
  | int =>
    obtain ⟨m, rfl⟩ := hz
    obtain ⟨n, rfl⟩ := hw
    exact ⟨m - n, by push_cast; rfl⟩
  | real =>
    rw [sub_eq_add_neg]
    exact HasKind.add le_rfl hz (HasKind.neg le_rfl hw)
  | cplx => trivial

variable {kd : SysKinds} {kI dM : Kind} {a : LSArgs ℂ (Fin N → ℂ)} {s : LS ℂ (Fin N → ℂ)} {ortho : Ortho}
  {p : SolverArgs (Fin N → ℂ)}

theorem OpKind.comp {k k' : Kind} {f g : (Fin N → ℂ) → Fin N → ℂ} (hf : OpKind k f) (hg : OpKind k' g) :
    OpKind (max k k') fun x => f (g x) := fun c x hx => by
  have := hf _ _ (hg c x hx)
  rwa [← max_assoc] at this

theorem KindsOf.op (h : KindsOf kd kI a p.x0) : OpKind kd.MlAMr fun x => a.Ml (a.A (a.Mr x)) := h.Ml.comp (h.A.comp h.Mr)

theorem KindsOf.res (h : KindsOf kd kI a p.x0) : VecKind kd.Mlr0 (a.Ml (a.b - a.A (p.x0.getD 0))) := by
  unfold SysKinds.Mlr0
  cases hk : kd.x0 with
  | none =>
    rw [h.none.mp hk]
    have : a.b - a.A ((Option.none : Option (Fin N → ℂ)).getD 0) = a.b := by simp
    rw [this]
    exact h.Ml _ _ h.b
  | some k =>
    dsimp only
    cases hx : p.x0 with
    | none => rw [h.none.mpr hx] at hk; simp at hk
    | some x =>
      refine h.Ml _ _ fun i => HasKind.sub' ((h.b i).mono (le_max_left _ _)) ?_
      exact (h.A _ _ (h.some k x hk hx) i).mono (le_max_right _ _)

/-- The kind of the arrays of the Arnoldi object. -/
theorem sysArn_K (n : ℕ) : (sysArn kd kI dM s ortho n).K = max kd.MlAMr (max kd.Mlr0 dM) := rfl

theorem KindsOf.wide (h : KindsOf kd kI a p.x0) (ok : LSOK a s) (hM : kd.M ≤ dM) (hr : .real ≤ max kd.MlAMr (max kd.Mlr0 dM))
    (hI : ortho = .lanczos ∨ kI ≤ max kd.MlAMr (max kd.Mlr0 dM)) (n : ℕ) : WideEnough (sysArn kd kI dM s ortho n) where
  real := hr
  kA := le_max_left _ _
  kM := (le_max_right _ _).trans (le_max_right _ _)
  kI := hI
  A := by
    change OpKind kd.MlAMr s.MlAMr
    rw [show (s.MlAMr : (Fin N → ℂ) → Fin N → ℂ) = fun x => a.Ml (a.A (a.Mr x)) from funext ok.MlAMr]
    exact h.op
  M := by
    change OpKind dM s.M
    rw [ok.M]
    exact fun k x hx => (h.M k x hx).mono (max_le_max hM le_rfl)
  ip := by
    change IpKind kI s.ip
    rw [ok.ip]
    exact h.ip

/-- The set-up of the Arnoldi object. -/
theorem sysArn_setup (h : KindsOf kd kI a p.x0) (ok : LSOK a s) (hM : kd.M ≤ dM)
    (hw : WideEnough (sysArn kd kI dM s ortho p.maxiter)) {t : TArnCfg N} (ht : t = sysArn kd kI dM s ortho p.maxiter) {w v : Fin N → ℂ}
    {n : ℝ} (hr : s.hooks.initRes p.x0 = .ok (w, v, n)) : tarnInit t v (some w) (some n) = arnInit t.c v (some w) (some n) ∧
      ∀ arn, arnInit t.c v (some w) (some n) = .ok arn → ArrKind t.K arn := by
  rw [← ht] at hw
  have e := ok.initRes p.x0
  rw [show s.getResidualNorm p.x0 = .ok (w, v, n) from hr] at e
  simp only [Except.ok.injEq, Prod.mk.injEq] at e
  obtain ⟨e1, e2, -⟩ := e
  have hv : VecKind t.K v := by
    rw [e2, ht]
    exact h.res.mono ((le_max_left _ _).trans (le_max_right _ _))
  refine tarnInit_eq hw hv (fun z hz => ?_) (some n)
  obtain rfl := Option.some.inj hz
  rw [e1, ← e2]
  have h1 := h.M _ _ hv
  have h2 : dM ≤ t.K := by
    have := hw.kM
    rw [ht] at this ⊢
    exact this
  exact h1.mono (max_le (hM.trans h2) le_rfl)

/-- C65: types do not influence GMRES if the arrays of the Arnoldi object, which have the common type of `MlAMr`, the initial residual
and `M`, are not integer and, except for Lanczos, not real with a complex inner product. -/
theorem C65_gmres (hls : LSHyp a.ip a.M) (hs : mkLS a = .ok s) (h : KindsOf kd kI a p.x0) (hM : kd.M ≤ dM)
    (hr : .real ≤ max kd.MlAMr (max kd.Mlr0 dM)) (hI : ortho = .lanczos ∨ kI ≤ max kd.MlAMr (max kd.Mlr0 dM)) :
    tgmres kd kI dM s ortho p = gmres s s.hooks ortho p := by
  obtain ⟨s', hs', ok, -⟩ := mkLS_ok hls
  obtain rfl : s = s' := Except.ok.inj (hs.symm.trans hs')
  have hw := h.wide ok hM hr hI p.maxiter
  have hset := fun w v n => sysArn_setup (w := w) (v := v) (n := n) h ok hM hw rfl
  set t := sysArn kd kI dM s ortho p.maxiter with ht
  have hc : s.arnCfg s.hooks p.maxiter ortho = t.c := rfl
  unfold tgmres gmres gmresRun
  dsimp only
  rw [← ht, hc]
  cases hr : s.hooks.initRes p.x0 with
  | error e => rfl
  | ok q =>
    obtain ⟨w, v, n⟩ := q
    dsimp only
    obtain ⟨e, hA⟩ := hset w v n hr
    rw [e]
    cases ha : arnInit t.c v (some w) (some n) with
    | error e => rfl
    | ok arn =>
      dsimp only
      refine run_congr _ (m := gmresMethod (arnAdvance t.c) s.Mr s.hooks.post p.maxiter)
        (m' := gmresMethod (tarnAdvance t) s.Mr s.hooks.post p.maxiter)
        (fun st : GmresSt ℂ (Fin N → ℂ) => ArrKind t.K st.arn) ?_ ?_ (fun _ _ h => h)
        rfl rfl rfl rfl rfl _ _ (gmresInit arn n) (fun _ => hA arn ha) _
      · intro st hst
        change gmresStep _ st = gmresStep _ st
        unfold gmresStep
        dsimp only
        rw [(tarnAdvance_eq hw hst).1]
      · intro st st' r hst hstep
        change gmresStep (arnAdvance t.c) st = _ at hstep
        unfold gmresStep at hstep
        dsimp only at hstep
        split at hstep
        · simp at hstep
        next a ha =>
          simp only [Except.ok.injEq, Prod.mk.injEq] at hstep
          obtain ⟨rfl, -⟩ := hstep
          exact (tarnAdvance_eq hw hst).2 _ ha

/-- C65: the same for MINRES. -/
theorem C65_minres (hls : LSHyp a.ip a.M) (hs : mkLS a = .ok s) (h : KindsOf kd kI a p.x0) (hM : kd.M ≤ dM)
    (hr : .real ≤ max kd.MlAMr (max kd.Mlr0 dM)) (hI : ortho = .lanczos ∨ kI ≤ max kd.MlAMr (max kd.Mlr0 dM)) :
    tminres kd kI dM s ortho p = minres s s.hooks ortho p := by
  obtain ⟨s', hs', ok, -⟩ := mkLS_ok hls
  obtain rfl : s = s' := Except.ok.inj (hs.symm.trans hs')
  have hw := h.wide ok hM hr hI p.maxiter
  have hset := fun w v n => sysArn_setup (w := w) (v := v) (n := n) h ok hM hw rfl
  set t := sysArn kd kI dM s ortho p.maxiter with ht
  have hc : s.arnCfg s.hooks p.maxiter ortho = t.c := rfl
  unfold tminres minres minresRun
  dsimp only
  rw [← ht, hc]
  cases hr : s.hooks.initRes p.x0 with
  | error e => rfl
  | ok q =>
    obtain ⟨w, v, n⟩ := q
    dsimp only
    obtain ⟨e, hA⟩ := hset w v n hr
    rw [e]
    cases ha : arnInit t.c v (some w) (some n) with
    | error e => rfl
    | ok arn =>
      dsimp only
      refine run_congr _ (m := minresMethod (arnAdvance t.c) s.Mr s.hooks.post p.maxiter)
        (m' := minresMethod (tarnAdvance t) s.Mr s.hooks.post p.maxiter)
        (fun st : MinresSt ℂ (Fin N → ℂ) => ArrKind t.K st.arn) ?_ ?_ (fun _ _ h => h)
        rfl rfl rfl rfl rfl _ _ (minresInit arn n) (fun _ => hA arn ha) _
      · intro st hst
        change minresStep _ _ st = minresStep _ _ st
        unfold minresStep
        dsimp only
        rw [(tarnAdvance_eq hw hst).1]
      · intro st st' r hst hstep
        change minresStep (arnAdvance t.c) _ st = _ at hstep
        unfold minresStep at hstep
        dsimp only at hstep
        split at hstep
        · simp at hstep
        next a ha =>
          have h3 := (tarnAdvance_eq hw hst).2 _ ha
          repeat' split at hstep
          all_goals first
            | (simp only [Except.ok.injEq, Prod.mk.injEq] at hstep; obtain ⟨rfl, -⟩ := hstep; exact h3)
            | simp at hstep

/-- An exception in the first iteration is raised by the constructor. -/
theorem run_first_error {𝕜 E S : Type*} [RCLike 𝕜] [AddCommGroup E] [Module 𝕜 E] {a : LSArgs 𝕜 E} {s : LS 𝕜 E} (ok : LSOK a s) {p : SolverArgs E}
    {m : Method ℝ E S} {mkS : E → S} {e : Err} (hb : a.Ml a.b ≠ 0) (htol : p.tol * resid a 0 < resid a (p.x0.getD 0))
    (hmax : 0 < p.maxiter) (hmore : m.more (mkS (p.x0.getD 0)) = true) (hstep : m.step (mkS (p.x0.getD 0)) = .error e)
    {r0 : ℝ} (hr0 : r0 = resid a (p.x0.getD 0)) : run (mkCfg s p) m (p.x0.getD 0) r0 mkS .ok = .raised e := by
  have hpos : 0 < resid a 0 := by
    refine lt_of_le_of_ne (nrm_nonneg _ _) fun h0 => hb ?_
    have := ok.hyp.prec.nrm_eq_zero.mp h0.symm
    simpa using this
  have hne : (mkCfg s p).MMlbNorm ≠ 0 := by rw [ok.nb p]; exact hpos.ne'
  have hbe : ((mkCfg s p).MMlbNorm == 0) = false := by simpa using hne
  obtain ⟨en, hen⟩ : ∃ en, initErr (mkCfg s p) (.ok (p.x0.getD 0)) = .ok en := by
    unfold initErr
    cases h : (mkCfg s p).errNorm with
    | none => exact ⟨_, rfl⟩
    | some f =>
      obtain ⟨y, hy⟩ := ok.errNorm p f h (p.x0.getD 0)
      exact ⟨some [y], by simp [hy]⟩
  obtain ⟨n, hn⟩ := Nat.exists_eq_succ_of_ne_zero hmax.ne'
  unfold run
  simp only [hbe, Bool.false_eq_true, if_false, hen]
  rw [show (mkCfg s p).maxiter = n + 1 from hn]
  unfold loop
  rw [if_pos]
  · dsimp only
    unfold body
    dsimp only
    rw [hstep]
  · unfold loopGuard
    simp only [List.getLast?_singleton, Option.any_some, hmore, Bool.and_true, decide_eq_true_eq]
    rw [ok.nb p, lt_div_iff₀ hpos, hr0]
    exact htol

/-- C65: GMRES (`mgs` or `dmgs`) for a real system with a complex inner product raises `TypeError` in its first iteration. -/
theorem C65_gmres_error (hls : LSHyp a.ip a.M) (hs : mkLS a = .ok s) (hk : max kd.MlAMr (max kd.Mlr0 dM) = .real)
    (ho : ortho ≠ .lanczos) (hb : a.Ml a.b ≠ 0) (htol : p.tol * resid a 0 < resid a (p.x0.getD 0)) (ht0 : 0 ≤ p.tol)
    (hmax : 0 < p.maxiter) : tgmres kd .cplx dM s ortho p = .raised .typeError := by
  obtain ⟨s', hs', ok, -⟩ := mkLS_ok hls
  obtain rfl : s = s' := Except.ok.inj (hs.symm.trans hs')
  have hpos : 0 < resid a (p.x0.getD 0) := lt_of_le_of_lt (mul_nonneg ht0 (Real.sqrt_nonneg _)) htol
  have hr : s.hooks.initRes p.x0 = _ := ok.initRes p.x0
  unfold tgmres gmresRun
  dsimp only
  rw [hr]
  dsimp only
  have hi : ∃ arn, tarnInit (sysArn kd .cplx dM s ortho p.maxiter) (a.Ml (a.b - a.A (p.x0.getD 0)))
      (some (a.M (a.Ml (a.b - a.A (p.x0.getD 0))))) (some (nrm (fun x y => a.ip x (a.M y)) (a.Ml (a.b - a.A (p.x0.getD 0))))) =
      .ok arn ∧ arn.iter = 0 ∧ arn.invariant = false := by
    unfold tarnInit
    dsimp only [startNorm]
    rw [if_pos (show 0 < nrm (fun x y => a.ip x (a.M y)) (a.Ml (a.b - a.A (p.x0.getD 0))) from hpos)]
    exact ⟨_, rfl, rfl, rfl⟩
  obtain ⟨arn, e, h0, h1⟩ := hi
  rw [e]
  dsimp only
  refine run_first_error ok hb htol hmax ?_ ?_ rfl
  · simp [gmresMethod, gmresInit, h0, h1, hmax]
  · change gmresStep _ (gmresInit arn _ _) = _
    unfold gmresStep
    dsimp only [gmresInit]
    rw [C65_complex_inner_product (t := sysArn kd .cplx dM s ortho p.maxiter) hk
      (show kd.MlAMr ≤ .real from hk ▸ le_max_left _ _) rfl ho (by rw [h0]; exact hmax) h1]

end solvers

/-! ## `Cg` -/

section cg
variable {E : Type*} [AddCommGroup E] [Module ℂ E] {kd : SysKinds} {kI dM : Kind}

/-- C65: the arrays of type `solver.dtype` are wide enough for all vectors of a CG, GMRES or MINRES run. -/
theorem C65_dtype (kd : SysKinds) {dM : Kind} (hM : kd.M ≤ dM) (kI : Kind) (k : ℕ) : kd.p k ≤ kd.dtype dM kI ∧
    .real ≤ kd.dtype dM kI ∧ kd.Mlr0 ≤ kd.dtype dM kI ∧ max kd.MlAMr (max kd.Mlr0 dM) ≤ kd.dtype dM kI := by
  set D := kd.dtype dM kI with hD
  have h1 : max kd.A (max kd.b (max dM (max kd.Ml (max kd.Mr kI)))) ≤ D := le_max_left _ _
  have h2 : max (kd.x0.getD .real) .real ≤ D := le_max_right _ _
  simp only [max_le_iff] at h1 h2
  obtain ⟨hA, hb, hdM, hMl, hMr, -⟩ := h1
  have hr : kd.Mlr0 ≤ D := by
    unfold SysKinds.Mlr0
    cases hx : kd.x0 with
    | none => exact max_le hMl hb
    | some k =>
      rw [hx] at h2
      exact max_le hMl (max_le hb (max_le hA h2.1))
  refine ⟨?_, h2.2, hr, max_le (max_le hMl (max_le hA hMr)) (max_le hr hdM)⟩
  unfold SysKinds.p
  split
  · exact max_le (hM.trans hdM) hr
  · exact max_le (max_le (hM.trans hdM) hr) h2.2

/-- What the kinds have to satisfy for CG. -/
def CgKinds (kd : SysKinds) : Prop := .real ≤ kd.Mlr0 ∧ kd.MlAMr ≤ kd.Mlr0 ∧ kd.M ≤ kd.Mlr0

theorem inplace_ok {k k' : Kind} (h : k' ≤ k) : inplace k k' = .ok () := if_pos h

theorem inplace_error {k k' : Kind} (h : ¬ k' ≤ k) : inplace k k' = .error .typeError := if_neg h

/-- C65: if the initial residual has a floating point type which is at least as wide as those of `M`, `Ml`, `A`, `Mr`, then types do
not influence CG. -/
theorem C65_cg (h : CgKinds kd) (hM : kd.M ≤ dM) (s : LS ℂ E) (store : Bool) (a : SolverArgs E) :
    tcg kd kI dM s store a = cg s s.hooks store a := by
  obtain ⟨h1, h2, h3⟩ := h
  have hp : ∀ k, kd.p k ≤ kd.Mlr0 := by
    intro k
    unfold SysKinds.p
    split
    · exact max_le h3 le_rfl
    · exact max_le (max_le h3 le_rfl) h1
  have hstep : tcgStep kd kI dM s.ip s.M s.MlAMr store = cgStep s.ip s.M s.MlAMr store := by
    funext st
    unfold tcgStep
    rw [inplace_ok (max_le (C65_dtype kd hM kI st.k).2.1 (C65_dtype kd hM kI st.k).1), inplace_ok (max_le h1 (max_le h2 (hp _)))]
    dsimp only
    unfold cgStep
    dsimp only
    cases cgDir st with
    | error e => rfl
    | ok p =>
      dsimp only
      split <;> rfl
  unfold tcg cg
  rw [hstep]
  rfl

/-- C65: otherwise the first iteration of CG raises `TypeError`. -/
theorem C65_cg_error (h : ¬ CgKinds kd) (hM : kd.M ≤ dM) {a : LSArgs ℂ E} (hsp : SpdHyp a) {s : LS ℂ E} (hs : mkLS a = .ok s)
    {p : SolverArgs E} (hb : a.Ml a.b ≠ 0) (htol : p.tol * resid a 0 < resid a (p.x0.getD 0)) (ht0 : 0 ≤ p.tol)
    (hmax : 0 < p.maxiter) (store : Bool) : tcg kd kI dM s store p = .raised .typeError := by
  obtain ⟨s', hs', ok, -⟩ := mkLS_ok hsp.ls
  obtain rfl : s = s' := Except.ok.inj (hs.symm.trans hs')
  have hpos : 0 < resid a (p.x0.getD 0) := lt_of_le_of_lt (mul_nonneg ht0 (Real.sqrt_nonneg _)) htol
  have hr0 : a.Ml (a.b - a.A (p.x0.getD 0)) ≠ 0 := by
    intro h0
    rw [resid, h0, hsp.ls.prec.nrm_eq_zero.mpr rfl] at hpos
    exact lt_irrefl _ hpos
  have hMr0 : a.M (a.Ml (a.b - a.A (p.x0.getD 0))) ≠ 0 := fun h0 => by
    have := hsp.ls.prec.pos _ hr0
    rw [h0, ← zero_smul ℂ (0 : E), hsp.ls.inner.smul_right] at this
    simp at this
  unfold tcg
  rw [ok.initRes p.x0]
  dsimp only
  refine run_first_error ok hb htol hmax ?_ ?_ rfl
  · simp [cgMethod, cgInit, hmax]
  · dsimp only
    unfold tcgStep
    have hdir : ∀ x : E, cgDir (cgInit (𝕜 := ℂ) (a.M (a.Ml (a.b - a.A (p.x0.getD 0)))) (a.Ml (a.b - a.A (p.x0.getD 0)))
        (nrm (fun x y => a.ip x (a.M y)) (a.Ml (a.b - a.A (p.x0.getD 0)))) x) = .ok (a.M (a.Ml (a.b - a.A (p.x0.getD 0)))) :=
      fun x => rfl
    rw [hdir]
    dsimp only [cgInit]
    rw [if_neg, inplace_ok (max_le (C65_dtype kd hM kI 0).2.1 (C65_dtype kd hM kI 0).1), inplace_error]
    · intro hle
      change max _ (max _ (max kd.M kd.Mlr0)) ≤ _ at hle
      simp only [max_le_iff] at hle
      exact h ⟨hle.1, hle.2.1, hle.2.2.1⟩
    · rw [ok.ip, ok.op_eq]
      intro h0
      have := hsp.pos _ hMr0
      rw [show a.ip _ (a.Ml (a.A (a.Mr _))) = 0 from h0] at this
      simp at this

/-- C65: hence CG fails for a complex `A` and a real right hand side without initial guess … -/
theorem C65_cg_complex {kd : SysKinds} (hx : kd.x0 = none) (hA : kd.A = .cplx) (hMl : kd.Ml ≤ .real) (hb : kd.b ≤ .real) :
    ¬ CgKinds kd := by
  rintro ⟨-, h, -⟩
  rw [show kd.Mlr0 = max kd.Ml kd.b by unfold SysKinds.Mlr0; rw [hx]] at h
  have h1 : kd.A ≤ .real := ((le_max_left _ _).trans (le_max_right _ _)).trans (h.trans (max_le hMl hb))
  rw [hA] at h1
  exact absurd h1 (by decide)

/-- … and for integer data (with an integer initial guess, too), … -/
theorem C65_cg_integer {kd : SysKinds} (hA : kd.A = .int) (hMl : kd.Ml = .int) (hb : kd.b = .int) (hx : kd.x0 = none ∨ kd.x0 = some .int) :
    ¬ CgKinds kd := by
  rintro ⟨h, -⟩
  have : kd.Mlr0 = .int := by unfold SysKinds.Mlr0; rcases hx with h | h <;> rw [h] <;> simp [hA, hMl, hb]
  rw [this] at h
  exact absurd h (by decide)

/-- … but succeeds if an initial guess with floating point type is given, e.g. zeros, and the preconditioners have no wider type than `A`,
`b`, `Ml` and the initial guess. -/
theorem C65_cg_guess {kd : SysKinds} {k : Kind} (hx : kd.x0 = some k) (hk : .real ≤ k) (hM : kd.M ≤ max kd.A k) (hMr : kd.Mr ≤ max kd.A k) :
    CgKinds kd := by
  have e : kd.Mlr0 = max kd.Ml (max kd.b (max kd.A k)) := by unfold SysKinds.Mlr0; rw [hx]
  have h1 : max kd.A k ≤ kd.Mlr0 := by rw [e]; exact (le_max_right _ _).trans (le_max_right _ _)
  refine ⟨(hk.trans (le_max_right _ _)).trans h1, max_le ?_ (max_le ((le_max_left _ _).trans h1) (hMr.trans h1)), hM.trans h1⟩
  rw [e]; exact le_max_left _ _

end cg

/-! ## `qr` -/

section qr
variable {N : ℕ} {ip : (Fin N → ℂ) → (Fin N → ℂ) → ℂ} {kI kX : Kind}

theorem tqrPass_eq (hX : .real ≤ kX) (hI : kI ≤ kX) (hip : IpKind kI ip) {Q : ℕ → Fin N → ℂ} (hQ : ∀ j, VecKind kX (Q j))
    {s : (Fin N → ℂ) × (ℕ → ℂ)} (h1 : VecKind kX s.1) (h2 : ∀ i, HasKind kX (s.2 i)) : ∀ j,
      tqrPass ip kI kX Q j s = .ok (qrPass ip Q j s) ∧ VecKind kX (qrPass ip Q j s).1 ∧ ∀ i, HasKind kX ((qrPass ip Q j s).2 i)
  | 0 => ⟨rfl, h1, h2⟩
  | j + 1 => by
    obtain ⟨e, h3, h4⟩ := tqrPass_eq hX hI hip hQ h1 h2 j
    have ha : HasKind kX (ip (Q j) (qrPass ip Q j s).1) := by
      have := hip kX _ _ (hQ j) h3
      rwa [max_eq_right hI] at this
    have hs := HasKind.add hX (h4 j) ha
    refine ⟨?_, VecKind.sub_smul hX ha h3 (hQ j), update_kind h4 hs j⟩
    unfold tqrPass qrPass
    rw [e]
    dsimp only
    rw [hs.cast, inplace_ok (max_le hI le_rfl)]

theorem tqrPasses_eq (hX : .real ≤ kX) (hI : kI ≤ kX) (hip : IpKind kI ip) {Q : ℕ → Fin N → ℂ} (hQ : ∀ j, VecKind kX (Q j))
    {s : (Fin N → ℂ) × (ℕ → ℂ)} (h1 : VecKind kX s.1) (h2 : ∀ i, HasKind kX (s.2 i)) (i : ℕ) : ∀ p,
      tqrPasses ip kI kX Q i p s = .ok (qrPasses ip Q i p s) ∧ VecKind kX (qrPasses ip Q i p s).1 ∧
        ∀ j, HasKind kX ((qrPasses ip Q i p s).2 j)
  | 0 => ⟨rfl, h1, h2⟩
  | p + 1 => by
    obtain ⟨e, h3, h4⟩ := tqrPasses_eq hX hI hip hQ h1 h2 i p
    obtain ⟨e', h5⟩ := tqrPass_eq hX hI hip hQ h3 h4 i
    refine ⟨?_, h5⟩
    unfold tqrPasses
    rw [e]
    exact e'

theorem tqrLoop_eq (hX : .real ≤ kX) (hI : kI ≤ kX) (hip : IpKind kI ip) {X : ℕ → Fin N → ℂ} (hQ : ∀ j, VecKind kX (X j))
    (reorthos : ℕ) : ∀ k, tqrLoop ip kI kX reorthos X k = qrLoop ip reorthos X k ∧ ∀ Q R, qrLoop ip reorthos X k = .ok (Q, R) →
      (∀ j, VecKind kX (Q j)) ∧ ∀ i j, HasKind kX (R i j)
  | 0 => ⟨rfl, fun Q R h => by
      have := Except.ok.inj h
      simp only [Prod.mk.injEq] at this
      obtain ⟨rfl, rfl⟩ := this
      exact ⟨hQ, fun _ _ => HasKind.zero hX⟩⟩
  | k + 1 => by
    obtain ⟨e, h⟩ := tqrLoop_eq hX hI hip hQ reorthos k
    unfold tqrLoop qrLoop
    rw [e]
    cases hq : qrLoop ip reorthos X k with
    | error e => exact ⟨rfl, fun Q R h => by simp at h⟩
    | ok QR =>
      obtain ⟨Q, R⟩ := QR
      obtain ⟨h1, h2⟩ := h Q R hq
      dsimp only
      obtain ⟨e', h3, h4⟩ := tqrPasses_eq hX hI hip h1 (s := (Q k, fun j => R j k)) (h1 k) (fun i => h2 i k) k (reorthos + 1)
      unfold tqrCol qrCol
      rw [e']
      rcases hqr : qrPasses ip Q k (reorthos + 1) (Q k, fun j => R j k) with ⟨q, r⟩
      rw [hqr] at h3 h4
      dsimp only at h3 h4 ⊢
      cases npNorm (ip q q) with
      | error e => exact ⟨rfl, fun Q R h => by simp at h⟩
      | ok n =>
        dsimp only
        have hn := HasKind.ofReal hX n
        rw [hn.cast, inplace_ok (max_le le_rfl hX), Complex.ofReal_re]
        have hR : ∀ a b, HasKind kX (if b = k then Function.update r k (n : ℂ) a else R a b) := by
          intro a b
          split
          · exact update_kind h4 hn k a
          · exact h2 a b
        split
        next hle =>
          refine ⟨by simp, fun Q' R' h => ?_⟩
          simp only [Except.ok.injEq, Prod.mk.injEq] at h
          obtain ⟨rfl, rfl⟩ := h
          exact ⟨update_vecKind h1 (VecKind.smul hX (HasKind.inv hX hn) h3) k, hR⟩
        next hle =>
          refine ⟨by simp, fun Q' R' h => ?_⟩
          simp only [Except.ok.injEq, Prod.mk.injEq] at h
          obtain ⟨rfl, rfl⟩ := h
          exact ⟨update_vecKind h1 h3 k, hR⟩

/-- C65: if `X` has a floating point type at least as wide as the inner product, types do not influence `qr`. -/
theorem C65_qr (hX : .real ≤ kX) (hI : kI ≤ kX) (hip : IpKind kI ip) {X : ℕ → Fin N → ℂ} (hQ : ∀ j, VecKind kX (X j))
    (reorthos k : ℕ) : tqrLoop ip kI kX reorthos X k = qrLoop ip reorthos X k := (tqrLoop_eq hX hI hip hQ reorthos k).1

/-- C65: for a wider inner product and at least two columns `qr` raises `TypeError`, unless it fails earlier. -/
theorem C65_qr_error (hI : ¬ kI ≤ kX) {X : ℕ → Fin N → ℂ} (reorthos : ℕ) (hok : ∃ QR, tqrLoop ip kI kX reorthos X 1 = .ok QR) :
    ∀ k, tqrLoop ip kI kX reorthos X (k + 2) = .error .typeError
  | 0 => by
    obtain ⟨⟨Q, R⟩, e⟩ := hok
    have h1 : ∀ s, tqrPass ip kI kX Q 1 s = .error .typeError := by
      intro s
      unfold tqrPass tqrPass
      dsimp only
      rw [inplace_error fun h => hI ((le_max_left _ _).trans h)]
    have h2 : ∀ p s, tqrPasses ip kI kX Q 1 (p + 1) s = .error .typeError := by
      intro p
      induction p with
      | zero => intro s; unfold tqrPasses tqrPasses; exact h1 s
      | succ p ih => intro s; unfold tqrPasses; rw [ih]
    unfold tqrLoop
    rw [e]
    dsimp only
    unfold tqrCol
    rw [h2]
  | k + 1 => by
    unfold tqrLoop
    rw [C65_qr_error hI reorthos hok k]

/-- C65: for integer `X` whose first column has a norm of at least 1, `qr` raises `TypeError`. -/
theorem C65_qr_integer {X : ℕ → Fin N → ℂ} (reorthos : ℕ) {r : ℝ} (hr : npNorm (ip (X 0) (X 0)) = .ok r) (h1 : 1 ≤ r) :
    ∀ k, tqrLoop ip kI .int reorthos X (k + 1) = .error .typeError
  | 0 => by
    have h2 : ∀ p s, tqrPasses ip kI .int X 0 p s = .ok s := by
      intro p
      induction p with
      | zero => intro s; rfl
      | succ p ih => intro s; unfold tqrPasses; rw [ih]; rfl
    unfold tqrLoop tqrLoop
    dsimp only
    unfold tqrCol
    rw [h2]
    dsimp only
    rw [hr]
    dsimp only
    rw [if_pos, inplace_error (by decide)]
    change 1e-15 ≤ ((truncZero ((r : ℂ).re) : ℤ) : ℂ).re
    rw [Complex.ofReal_re, Complex.intCast_re]
    have : (1 : ℤ) ≤ truncZero r := by
      unfold truncZero
      rw [if_pos (by linarith)]
      exact Int.le_floor.mpr (by exact_mod_cast h1)
    have : (1 : ℝ) ≤ (truncZero r : ℝ) := by exact_mod_cast this
    linarith [show (1e-15 : ℝ) ≤ 1 by norm_num]
  | k + 1 => by
    unfold tqrLoop
    rw [C65_qr_integer reorthos hr h1 k]

end qr

/-! ## `get_residual_norms` -/

section resnorms
variable {K : Kind}

theorem rot_kind (hK : .real ≤ K) {a b : ℂ} (ha : HasKind K a) (hb : HasKind K b) {x : ℕ → ℂ} (hx : ∀ i, HasKind K (x i)) (i : ℕ) :
    ∀ j, HasKind K (rot (mkGivens a b) i x j) := by
  rcases Kind.real_cases hK with rfl | rfl
  · have hs : HasKind .real (mkGivens a b).s := by
      have h1 : a.im = 0 := ha
      have h2 : b.im = 0 := hb
      unfold mkGivens
      simp only [RCLike.im_to_complex, h1, h2, and_self, if_true]
      exact HasKind.ofReal hK _
    have hc : HasKind .real (((mkGivens a b).c : ℝ) : ℂ) := HasKind.ofReal hK _
    have hcs : HasKind .real (-(starRingEnd ℂ) (mkGivens a b).s) := by
      have h1 : (mkGivens a b).s.im = 0 := hs
      change (-(starRingEnd ℂ) (mkGivens a b).s).im = 0
      simp [h1]
    unfold rot Givens.apply
    dsimp only
    refine update_kind (update_kind hx ?_ _) ?_ _
    · exact HasKind.add hK (HasKind.mul hK hc (hx _)) (HasKind.mul hK hs (hx _))
    · exact HasKind.add hK (HasKind.mul hK hcs (hx _)) (HasKind.mul hK hc (hx _))
  · intro j; trivial

theorem trnLoop_eq (hK : .real ≤ K) {H : ℕ → ℕ → ℂ} (hH : ∀ i j, HasKind K (H i j)) (sa : Bool) (n : ℕ) : ∀ i,
    trnLoop K sa H n i = rnLoop sa H n i ∧ ∀ st, rnLoop sa H n i = .ok st → (∀ i j, HasKind K (st.H i j)) ∧ ∀ i, HasKind K (st.y i)
  | 0 => ⟨rfl, fun st h => by
      obtain rfl := Except.ok.inj h
      refine ⟨hH, fun i => ?_⟩
      dsimp only
      split
      · simpa using HasKind.ofReal hK 1
      · exact HasKind.zero hK⟩
  | i + 1 => by
    obtain ⟨e, h⟩ := trnLoop_eq hK hH sa n i
    unfold trnLoop rnLoop
    rw [e]
    cases hr : rnLoop sa H n i with
    | error e => exact ⟨rfl, fun st h => by simp at h⟩
    | ok st =>
      obtain ⟨h1, h2⟩ := h st hr
      dsimp only
      unfold trnStep rnStep
      split
      · exact ⟨rfl, fun st h => by simp at h⟩
      · dsimp only
        have hH' : ∀ r c, HasKind K (rotRows (mkGivens (st.H i i) (st.H (i + 1) i)) i (if sa then min n (i + 3) else n) st.H r c) := by
          intro r c
          unfold rotRows
          generalize (if sa then min n (i + 3) else n) = m
          split
          · exact rot_kind hK (h1 _ _) (h1 _ _) (fun r => h1 r c) i r
          · exact h1 r c
        have hy' := rot_kind hK (h1 i i) (h1 (i + 1) i) h2 i
        have e1 := funext fun r => funext fun c => (hH' r c).cast
        have e2 := funext fun r => (hy' r).cast
        rw [e1, e2]
        refine ⟨by rw [(hy' (i + 1)).cast], fun st' h => ?_⟩
        obtain rfl := Except.ok.inj h
        exact ⟨hH', hy'⟩

/-- C65: for matrices with a floating point type, types do not influence `get_residual_norms` … -/
theorem C65_resnorms (hK : .real ≤ K) {H : ℕ → ℕ → ℂ} (hH : ∀ i j, HasKind K (H i j)) (n_ n : ℕ) (sa : Bool) :
    tgetResidualNorms K H n_ n sa = getResidualNorms H n_ n sa := by
  unfold tgetResidualNorms getResidualNorms
  rw [(trnLoop_eq hK hH sa n (n_ - 1)).1]
  cases rnLoop sa H n (n_ - 1) <;> rfl

/-- … but for every integer matrix with two nonzero entries in its first column the second residual norm is 0, whereas the correct value
is positive. -/
theorem C65_resnorms_counterexample {H : ℕ → ℕ → ℂ} (h0 : H 0 0 ≠ 0) (h1 : H 1 0 ≠ 0) (sa : Bool) :
    tgetResidualNorms .int H 2 1 sa = .ok [1, 0] ∧ ∃ r, 0 < r ∧ getResidualNorms H 2 1 sa = .ok [1, r] := by
  obtain ⟨e1, e2⟩ := mkGivens_spec (H 0 0) (H 1 0)
  set G := mkGivens (H 0 0) (H 1 0) with hG
  have hc : G.c ≠ 0 := by
    intro h
    rw [h] at e1 e2
    have hs : G.s ≠ 0 := fun h' => by rw [h'] at e1; norm_num at e1
    have : (starRingEnd ℂ) G.s * H 0 0 = 0 := by simpa using e2
    rcases mul_eq_zero.mp this with h' | h'
    · exact hs (by simpa using h')
    · exact h0 h'
  have hs : G.s ≠ 0 := by
    intro h
    rw [h] at e2
    have : ((G.c : ℝ) : ℂ) * H 1 0 = 0 := by simpa using e2
    rcases mul_eq_zero.mp this with h' | h'
    · exact hc (by exact_mod_cast h')
    · exact h1 h'
  have hs1 : ‖G.s‖ < 1 := by
    have : 0 < G.c ^ 2 := by positivity
    nlinarith [norm_nonneg G.s]
  have hy : rot G 0 (fun r => if r = 0 then (1 : ℂ) else 0) 1 = -(starRingEnd ℂ) G.s := by simp [rot, Givens.apply]
  have hcast : Kind.int.cast (-(starRingEnd ℂ) G.s) = 0 := by
    change ((truncZero _ : ℤ) : ℂ) = 0
    rw [truncZero_small, Int.cast_zero]
    refine (Complex.abs_re_le_norm _).trans_lt ?_
    simpa using hs1
  constructor
  · simp only [tgetResidualNorms, trnLoop, trnStep, Nat.add_one_sub_one, ← hG, zero_add, hy, hcast]
    simp
  · refine ⟨‖G.s‖, norm_pos_iff.mpr hs, ?_⟩
    simp only [getResidualNorms, rnLoop, rnStep, Nat.add_one_sub_one, ← hG, zero_add, hy]
    simp

end resnorms

/-! ## Examples -/

example : findCommonDtype [.typed .int, .other, .typed .cplx, .typed .real] = some .cplx ∧ findCommonDtype [.other, .other] = none :=
  ⟨rfl, rfl⟩

/-- A Hermitian positive definite matrix. -/
noncomputable def exHerm : (Fin 2 → ℂ) →ₗ[ℂ] (Fin 2 → ℂ) := Matrix.mulVecLin !![2, Complex.I; -Complex.I, 2]

theorem exHerm_apply (x : Fin 2 → ℂ) : exHerm x = ![2 * x 0 + Complex.I * x 1, -Complex.I * x 0 + 2 * x 1] := by
  funext i
  fin_cases i <;> simp [exHerm, Matrix.mulVec, dotProduct, Fin.sum_univ_two]

theorem exHerm_sa (x y : Fin 2 → ℂ) : edot (exHerm x) y = edot x (exHerm y) := by
  rw [exHerm_apply, exHerm_apply]
  have h2 : (starRingEnd ℂ) (2 : ℂ) = 2 := Complex.conj_ofNat 2
  simp [edot, Fin.sum_univ_two, h2]
  ring

theorem exHerm_pos (x : Fin 2 → ℂ) (hx : x ≠ 0) : 0 < (edot x (exHerm x)).re := by
  rw [exHerm_apply]
  simp only [edot, Fin.sum_univ_two, Matrix.cons_val_zero, Matrix.cons_val_one, Complex.add_re, Complex.mul_re, Complex.conj_re,
    Complex.conj_im, Complex.I_re, Complex.I_im, Complex.neg_re, Complex.neg_im, Complex.add_im, Complex.mul_im]
  have : 0 < (x 0).re ^ 2 + (x 0).im ^ 2 + (x 1).re ^ 2 + (x 1).im ^ 2 := by
    by_contra h
    refine hx (funext fun i => ?_)
    have h1 := sq_nonneg (x 0).re
    have h2 := sq_nonneg (x 0).im
    have h3 := sq_nonneg (x 1).re
    have h4 := sq_nonneg (x 1).im
    have e1 : (x 0).re = 0 := by nlinarith
    have e2 : (x 0).im = 0 := by nlinarith
    have e3 : (x 1).re = 0 := by nlinarith
    have e4 : (x 1).im = 0 := by nlinarith
    fin_cases i
    · exact Complex.ext e1 e2
    · exact Complex.ext e3 e4
  norm_num
  nlinarith [sq_nonneg ((x 0).re - (x 1).im), sq_nonneg ((x 0).im + (x 1).re)]

/-- The system `A x = (1, 1)` with the Hermitian matrix. -/
noncomputable def exHermSys : LSArgs ℂ (Fin 2 → ℂ) :=
  ⟨exHerm, fun _ => 1, LinearMap.id, LinearMap.id, LinearMap.id, edot, none, true, true⟩

theorem exHermSys_hyp : SpdHyp exHermSys := ⟨⟨edot_inner 1, edot_inner 1⟩, exHerm_sa, exHerm_pos⟩

theorem exHermSys_b : exHermSys.Ml exHermSys.b ≠ 0 := fun h => one_ne_zero (congrFun h 0)

theorem exHermSys_pos : 0 < resid exHermSys 0 := by
  refine lt_of_le_of_ne (nrm_nonneg _ _) fun h0 => exHermSys_b ?_
  have := exHermSys_hyp.ls.prec.nrm_eq_zero.mp h0.symm
  simpa using this

/-- CG for a complex Hermitian matrix and a real right hand side raises `TypeError`; with zeros as an explicit initial guess, it
solves the system. -/
example : ∃ s, mkLS exHermSys = .ok s ∧
    tcg ⟨.cplx, .int, .int, .int, .real, none⟩ .real .real s true ⟨none, 0, 2, false, none⟩ = .raised .typeError ∧
    ∃ st, tcg ⟨.cplx, .int, .int, .int, .real, some .real⟩ .real .real s true ⟨some 0, 0, 2, false, none⟩ = .returned st ∧
      ∃ r, st.resnorms.getLast? = some r ∧ r ≤ 0 := by
  obtain ⟨s, hs, ok, -⟩ := mkLS_ok exHermSys_hyp.ls
  refine ⟨s, hs, ?_, ?_⟩
  · refine C65_cg_error (C65_cg_complex rfl rfl (by decide) le_rfl) (by decide) exHermSys_hyp hs exHermSys_b ?_ le_rfl (by norm_num) _
    simpa using exHermSys_pos
  · rw [C65_cg (C65_cg_guess rfl le_rfl (by decide) (by decide)) (by decide)]
    have hfin : Module.finrank ℂ (Fin 2 → ℂ) = 2 := by simp
    obtain ⟨st, hst, hr, -⟩ := C32_terminates exHermSys_hyp hs true ⟨some 0, 0, 2, false, none⟩ le_rfl exHermSys_b hfin.le
    exact ⟨st, hst, hr⟩

theorem exKind_edot (k' : Kind) (x y : Fin 2 → ℂ) (hx : VecKind k' x) (hy : VecKind k' y) : HasKind (max .real k') (edot x y) := by
  have hK : Kind.real ≤ max .real k' := le_max_left _ _
  have hx := hx.mono (le_max_right Kind.real k')
  have hy := hy.mono (le_max_right Kind.real k')
  rcases Kind.real_cases hK with h | h
  · rw [h] at hx hy ⊢
    have h1 : ∀ i, (x i).im = 0 := hx
    have h2 : ∀ i, (y i).im = 0 := hy
    change (edot x y).im = 0
    simp [edot, Fin.sum_univ_two, h1, h2]
  · rw [h]; trivial

theorem exKinds : KindsOf ⟨.cplx, .int, .int, .int, .real, none⟩ .real exHermSys none where
  A := fun k x _ i => by
    rw [max_eq_left (Kind.le_cplx k)]
    trivial
  M := fun k x hx => hx.mono (le_max_right _ _)
  Ml := fun k x hx => hx.mono (le_max_right _ _)
  Mr := fun k x hx => hx.mono (le_max_right _ _)
  b := fun i => Complex.one_im
  ip := exKind_edot
  none := by simp
  some := fun k x h => by simp at h

/-- GMRES is not affected for the same system. -/
example : ∃ s, mkLS exHermSys = .ok s ∧ tgmres ⟨.cplx, .int, .int, .int, .real, none⟩ .real .real s .mgs ⟨none, 0, 2, false, none⟩ =
    gmres s s.hooks .mgs ⟨none, 0, 2, false, none⟩ := by
  obtain ⟨s, hs, ok, -⟩ := mkLS_ok exHermSys_hyp.ls
  exact ⟨s, hs, C65_gmres exHermSys_hyp.ls hs exKinds (by decide) (by decide) (.inr (by decide))⟩

example : ∃ s, mkLS exHermSys = .ok s ∧ tminres ⟨.cplx, .int, .int, .int, .real, none⟩ .real .real s .lanczos ⟨none, 0, 2, false, none⟩ =
    minres s s.hooks .lanczos ⟨none, 0, 2, false, none⟩ := by
  obtain ⟨s, hs, ok, -⟩ := mkLS_ok exHermSys_hyp.ls
  exact ⟨s, hs, C65_minres exHermSys_hyp.ls hs exKinds (by decide) (by decide) (.inl rfl)⟩

/-- The system `2 x = (1, 1)` with the inner product defined by the Hermitian matrix. -/
noncomputable def exIpSys : LSArgs ℂ (Fin 2 → ℂ) :=
  ⟨(2 : ℂ) • LinearMap.id, fun _ => 1, LinearMap.id, LinearMap.id, LinearMap.id, fun x y => edot x (exHerm y), none, true, true⟩

theorem exIp_inner : IsInner fun x y : Fin 2 → ℂ => edot x (exHerm y) where
  add_right x y z := by rw [map_add, (edot_inner 1).add_right]
  smul_right x c y := by rw [map_smul, (edot_inner 1).smul_right]
  conj_symm x y := by rw [edot_conj, exHerm_sa]
  pos := exHerm_pos

example : ∃ s, mkLS exIpSys = .ok s ∧ tgmres ⟨.real, .int, .int, .int, .real, none⟩ .cplx .real s .mgs ⟨none, 0, 2, false, none⟩ =
    .raised .typeError := by
  have hls : LSHyp exIpSys.ip exIpSys.M := ⟨exIp_inner, exIp_inner⟩
  obtain ⟨s, hs, ok, -⟩ := mkLS_ok hls
  have hb : exIpSys.Ml exIpSys.b ≠ 0 := fun h => one_ne_zero (congrFun h 0)
  refine ⟨s, hs, C65_gmres_error hls hs (by decide) (by decide) hb ?_ le_rfl (by norm_num)⟩
  have : 0 < resid exIpSys 0 := by
    refine lt_of_le_of_ne (nrm_nonneg _ _) fun h0 => hb ?_
    have := hls.prec.nrm_eq_zero.mp h0.symm
    simpa using this
  simpa using this

/-- Parameters of an Arnoldi process for an integer matrix with arrays of kind `K`. -/
noncomputable def exTArn (K : Kind) : TArnCfg 2 := ⟨⟨(2 : ℂ) • LinearMap.id, none, edot, 2, .mgs⟩, .int, .int, .real, K⟩

/-- With real arrays types have no influence; with integer ones the first vector vanishes. -/
example : tarnoldi (exTArn .real) (fun _ => 1) none none = arnoldi (exTArn .real).c (fun _ => 1) none none ∧
    ∃ s, tarnInit (exTArn .int) (fun _ => 1) none none = .ok s ∧ 0 < s.vnorm ∧ s.invariant = false ∧ s.V 0 = 0 := by
  refine ⟨C65_arnoldi (t := exTArn .real) ⟨le_rfl, by decide, by decide, .inr le_rfl, ?_, ?_, exKind_edot⟩ (fun _ => Complex.one_im)
    (fun w h => by simp at h) none, ?_⟩
  · intro k x hx i
    rw [show max (exTArn .real).kA k = k from max_eq_right (Kind.int_le k)]
    change HasKind k (2 * x i)
    have hxi := hx i
    cases k with
    | int =>
      obtain ⟨n, hn⟩ := hxi
      exact ⟨2 * n, by rw [hn]; push_cast; rfl⟩
    | real =>
      have h1 : (x i).im = 0 := hxi
      change (2 * x i).im = 0
      simp [h1]
    | cplx => trivial
  · exact fun k x hx => hx.mono (le_max_right _ _)
  · exact C65_integer_counterexample (t := exTArn .int) rfl rfl (fun x y => rfl) (i := 0) (j := 1) (by decide) one_ne_zero one_ne_zero

/-- A complex inner product is wider than the real arrays. -/
example : tarnAdvance (⟨⟨(2 : ℂ) • LinearMap.id, none, fun x y => edot x (exHerm y), 2, .mgs⟩, .real, .real, .cplx, .real⟩ : TArnCfg 2)
    ⟨0, fun _ _ => 1, fun _ _ => 1, fun _ _ => 0, false, 1⟩ = .error .typeError :=
  C65_complex_inner_product rfl le_rfl rfl (by decide) (by norm_num) rfl

/-- `qr` of the unit vectors. -/
example : (∀ k, tqrLoop (N := 2) edot .real .real 0 (fun i => Pi.single (if i = 0 then 0 else 1) 1) k =
      qrLoop edot 0 (fun i => Pi.single (if i = 0 then 0 else 1) 1) k) ∧
    ∀ k, tqrLoop (N := 2) edot .real .int 0 (fun i => Pi.single (if i = 0 then 0 else 1) 1) (k + 1) = .error .typeError := by
  refine ⟨fun k => C65_qr le_rfl le_rfl exKind_edot (fun j i => ?_) 0 k, fun k => ?_⟩
  · change ((Pi.single (if j = 0 then 0 else 1) 1 : Fin 2 → ℂ) i).im = 0
    generalize (if j = 0 then (0 : Fin 2) else 1) = m
    rw [Pi.single_apply]
    split
    · exact Complex.one_im
    · exact Complex.zero_im
  · refine C65_qr_integer (r := 1) 0 ?_ le_rfl k
    have : edot (Pi.single (0 : Fin 2) (1 : ℂ)) (Pi.single 0 1) = 1 := by simp [edot, Fin.sum_univ_two]
    rw [if_pos rfl, this]
    simp [npNorm]
    norm_num

example : ∀ k, tqrLoop (N := 2) (fun x y => edot x (exHerm y)) .cplx .real 0 (fun i => Pi.single (if i = 0 then 0 else 1) 1) (k + 2) =
    .error .typeError := by
  refine C65_qr_error (by decide) 0 ?_
  have : edot (Pi.single (0 : Fin 2) (1 : ℂ)) (exHerm (Pi.single 0 1)) = 2 := by
    rw [exHerm_apply]
    simp [edot, Fin.sum_univ_two]
  have hn : npNorm (2 : ℂ) = .ok (Real.sqrt 2) := by
    simp [npNorm]
    norm_num
  have h2 : (1 : ℝ) ≤ Real.sqrt 2 := Real.one_le_sqrt.mpr (by norm_num)
  simp only [tqrLoop, tqrCol, tqrPasses, tqrPass, if_true, this, hn]
  rw [if_pos, inplace_ok (by decide)]
  · exact ⟨_, rfl⟩
  · change (1e-15 : ℝ) ≤ ((Real.sqrt 2 : ℝ) : ℂ).re
    rw [Complex.ofReal_re]
    linarith [show (1e-15 : ℝ) ≤ 1 by norm_num]

example : tgetResidualNorms .int (fun _ _ => 1) 2 1 false = .ok [1, 0] ∧
    ∃ r, 0 < r ∧ getResidualNorms (𝕜 := ℂ) (fun _ _ => 1) 2 1 false = .ok [1, r] :=
  C65_resnorms_counterexample one_ne_zero one_ne_zero false

example : tgetResidualNorms .real (fun _ _ => 1) 2 1 false = getResidualNorms (𝕜 := ℂ) (fun _ _ => 1) 2 1 false :=
  C65_resnorms le_rfl (fun _ _ => Complex.one_im) 2 1 false

end Krypy
