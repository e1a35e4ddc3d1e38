import Verif.Model.ResNorms
import Verif.Props.Gmres

/-! # Property C48: `get_residual_norms` -/

set_option linter.unusedSectionVars false

namespace Krypy
variable {𝕜 E : Type*} [RCLike 𝕜] [AddCommGroup E] [Module 𝕜 E]
open scoped ComplexConjugate
open Finset

/-! ## Specification -/

/-- `‖e_1 - H[:m, :k] u‖₂`. -/
noncomputable def lsDist (H : ℕ → ℕ → 𝕜) (m k : ℕ) (u : ℕ → 𝕜) : ℝ :=
  Real.sqrt (∑ i ∈ range m, ‖(if i = 0 then 1 else 0) - ∑ j ∈ range k, H i j * u j‖ ^ 2)

/-- The columns of `H[:m, :k]` are linearly independent. -/
def ColsIndep (H : ℕ → ℕ → 𝕜) (m k : ℕ) : Prop :=
  ∀ u : ℕ → 𝕜, (∀ i < m, ∑ j ∈ range k, H i j * u j = 0) → ∀ j < k, u j = 0

/-- `H` is an upper Hessenberg matrix. -/
def Hessenberg (H : ℕ → ℕ → 𝕜) : Prop := ∀ i j, j + 1 < i → H i j = 0

/-! ## The loop -/

/-- State after `i` passes: the columns `c < hi i` are those of the input with the first `min i (c + 1)` rotations applied. -/
structure RnInv (H : ℕ → ℕ → 𝕜) (n i : ℕ) (G : ℕ → Givens 𝕜) (st : RnSt 𝕜) : Prop where
  cols : ∀ c < n, ∀ r, st.H r c = rots G (min i (c + 1)) (fun r => H r c) r
  y : st.y = rots G i (fun r => if r = 0 then 1 else 0)
  rotg : ∀ j < i, G j = mkGivens (rots G j (fun r => H r j) j) (rots G j (fun r => H r j) (j + 1))
  len : st.res.length = i + 1
  res : ∀ k (hk : k < st.res.length), st.res[k] = ‖rots G k (fun r => if r = 0 then (1 : 𝕜) else 0) k‖

theorem rnLoop_ok (H : ℕ → ℕ → 𝕜) (n i : ℕ) (hi : i ≤ n) :
    ∃ G st, rnLoop false H n i = .ok st ∧ RnInv H n i G st := by
  induction i with
  | zero =>
    refine ⟨fun _ => ⟨1, 0, 0⟩, _, rfl, ⟨fun c _ r => ?_, rfl, fun j hj => by omega, rfl, fun k hk => ?_⟩⟩
    · simp [rots]
    · obtain rfl : k = 0 := by simp at hk; omega
      simp [rots]
  | succ i ih =>
    obtain ⟨G, st, h, inv⟩ := ih (by omega)
    set g := mkGivens (st.H i i) (st.H (i + 1) i) with hg
    have hG : ∀ m ≤ i, ∀ x, rots (Function.update G i g) m x = rots G m x := fun m hm x =>
      rots_congr (fun j hj => Function.update_of_ne (by omega : j ≠ i) g G) x
    refine ⟨Function.update G i g, ⟨rotRows g i n st.H, rot g i st.y, st.res ++ [‖rot g i st.y (i + 1)‖]⟩, ?_, ?_⟩
    · rw [rnLoop, h]
      simp only [rnStep]
      rw [if_neg (by omega)]
      simp [← hg]
    · refine ⟨fun c hc r => ?_, ?_, fun j hj => ?_, by simp [inv.len], fun k hk => ?_⟩
      · simp only [rotRows]
        split
        · next hcc =>
          rw [show min (i + 1) (c + 1) = i + 1 by omega, rots, Function.update_self, hG i le_rfl]
          have : (fun r => st.H r c) = rots G i (fun r => H r c) := by
            funext r
            rw [inv.cols c hc, show min i (c + 1) = i by omega]
          rw [this]
        · next hcc =>
          rw [inv.cols c hc, show min (i + 1) (c + 1) = min i (c + 1) by omega, hG _ (by omega)]
      · simp only
        rw [rots, Function.update_self, hG i le_rfl, inv.y]
      · rw [hG j (by omega)]
        rcases Nat.lt_or_ge j i with h1 | h1
        · rw [Function.update_of_ne (by omega)]
          exact inv.rotg j h1
        · obtain rfl : j = i := by omega
          rw [Function.update_self, hg, inv.cols j (by omega), inv.cols j (by omega), show min j (j + 1) = j by omega]
      · rcases Nat.lt_or_ge k st.res.length with h1 | h1
        · simp only [List.getElem_append_left h1]
          rw [inv.res k h1, hG k (by have := inv.len; omega)]
        · have h2 : k = i + 1 := by
            have := inv.len
            simp only [List.length_append, List.length_singleton] at hk
            omega
          simp only [List.getElem_append_right h1, List.getElem_singleton]
          subst h2
          rw [rots, Function.update_self, hG i le_rfl, inv.y]

theorem RnInv.qr {H : ℕ → ℕ → 𝕜} {n i : ℕ} {G : ℕ → Givens 𝕜} {st : RnSt 𝕜} (inv : RnInv H n i G st)
    (hH : Hessenberg H) {k : ℕ} (hk : k ≤ i) :
    QrUpdate H G (fun r c => rots G (c + 1) (fun r => H r c) r) k := by
  refine ⟨hH, fun j hj => ?_, fun j _ r => rfl⟩
  have := mkGivens_spec (rots G j (fun r => H r j) j) (rots G j (fun r => H r j) (j + 1))
  rw [← inv.rotg j (by omega)] at this
  exact this

theorem lsDist_sq_nonneg (H : ℕ → ℕ → 𝕜) (m k : ℕ) (u : ℕ → 𝕜) :
    0 ≤ ∑ i ∈ range m, ‖(if i = 0 then 1 else 0) - ∑ j ∈ range k, H i j * u j‖ ^ 2 :=
  Finset.sum_nonneg fun _ _ => by positivity

theorem QrUpdate.le_lsDist {H : ℕ → ℕ → 𝕜} {G : ℕ → Givens 𝕜} {R : ℕ → ℕ → 𝕜} {k : ℕ} (q : QrUpdate H G R k)
    (u : ℕ → 𝕜) : ‖rots G k (fun r => if r = 0 then (1 : 𝕜) else 0) k‖ ≤ lsDist H (k + 1) k u := by
  unfold lsDist
  apply Real.le_sqrt_of_sq_le
  rw [q.functional]
  have : 0 ≤ ∑ i ∈ range k, ‖rots G k (fun r => if r = 0 then (1 : 𝕜) else 0) i - ∑ j ∈ range k, R i j * u j‖ ^ 2 :=
    Finset.sum_nonneg fun _ _ => by positivity
  linarith

theorem QrUpdate.attained {H : ℕ → ℕ → 𝕜} {G : ℕ → Givens 𝕜} {R : ℕ → ℕ → 𝕜} {k : ℕ} (q : QrUpdate H G R k)
    (hd : ∀ j < k, R j j ≠ 0) :
    ∃ u, lsDist H (k + 1) k u = ‖rots G k (fun r => if r = 0 then (1 : 𝕜) else 0) k‖ := by
  obtain ⟨u, -, hu⟩ := solveUpper_range (n := k) (R := R) (y := rots G k (fun r => if r = 0 then (1 : 𝕜) else 0))
    (fun i j hj hij => q.upper hj hij) hd
  refine ⟨u, ?_⟩
  unfold lsDist
  rw [q.functional, Finset.sum_eq_zero, zero_add, Real.sqrt_sq (norm_nonneg _)]
  intro i hi
  rw [hu i (Finset.mem_range.mp hi), sub_self, norm_zero]
  ring

theorem exists_kernel {k : ℕ} {R : ℕ → ℕ → 𝕜} (h : (Matrix.of fun i j : Fin k => R i j).det = 0) :
    ∃ u : ℕ → 𝕜, (∃ j < k, u j ≠ 0) ∧ ∀ i < k, ∑ j ∈ range k, R i j * u j = 0 := by
  obtain ⟨v, hv, hz⟩ := Matrix.exists_mulVec_eq_zero_iff.mpr h
  refine ⟨fun j => if hj : j < k then v ⟨j, hj⟩ else 0, ?_, fun i hi => ?_⟩
  · obtain ⟨j, hj⟩ := Function.ne_iff.mp hv
    exact ⟨j, j.2, by simpa using hj⟩
  · have := congrFun hz ⟨i, hi⟩
    simp only [Matrix.mulVec, dotProduct, Matrix.of_apply, Pi.zero_apply] at this
    rw [Finset.sum_range, ← this]
    exact Finset.sum_congr rfl fun j _ => by simp

theorem QrUpdate.diag_ne {H : ℕ → ℕ → 𝕜} {G : ℕ → Givens 𝕜} {R : ℕ → ℕ → 𝕜} {k : ℕ} (q : QrUpdate H G R k)
    (hc : ColsIndep H (k + 1) k) : ∀ j < k, R j j ≠ 0 := by
  intro j hj h0
  have htri : (Matrix.of fun i j : Fin k => R i j).BlockTriangular id := fun i j hij => q.upper j.2 hij
  obtain ⟨u, ⟨l, hl, hul⟩, hu⟩ := exists_kernel (k := k) (R := R) (by
    rw [Matrix.det_of_isUpperTriangular htri]
    exact Finset.prod_eq_zero (i := (⟨j, hj⟩ : Fin k)) (Finset.mem_univ _) (by simpa using h0))
  refine hul (hc u (fun i hi => ?_) l hl)
  have h1 := q.functional (fun _ => 0) u
  have hz : rots G k (fun _ => (0 : 𝕜)) = fun _ => 0 := by
    rw [← rotsL_apply]; exact map_zero (rotsL G k)
  simp only [hz, norm_zero, zero_sub, norm_neg] at h1
  rw [Finset.sum_eq_zero (s := range k)] at h1
  · have h2 := (Finset.sum_eq_zero_iff_of_nonneg (fun _ _ => by positivity)).mp (h1.trans (by norm_num)) i
      (Finset.mem_range.mpr hi)
    simpa using h2
  · intro i hi
    rw [hu i (Finset.mem_range.mp hi)]; simp

theorem QrUpdate.indep {H : ℕ → ℕ → 𝕜} {G : ℕ → Givens 𝕜} {R : ℕ → ℕ → 𝕜} {k : ℕ} (q : QrUpdate H G R k)
    (hd : ∀ j < k, R j j ≠ 0) : ColsIndep H (k + 1) k := by
  intro u hu j hj
  have htri : (Matrix.of fun i j : Fin k => R i j).BlockTriangular id := fun i j hij => q.upper j.2 hij
  have hdet : (Matrix.of fun i j : Fin k => R i j).det ≠ 0 := by
    rw [Matrix.det_of_isUpperTriangular htri, Finset.prod_ne_zero_iff]
    exact fun i _ => hd i i.2
  have h1 := q.functional (fun _ => 0) u
  have hz : rots G k (fun _ => (0 : 𝕜)) = fun _ => 0 := by
    rw [← rotsL_apply]; exact map_zero (rotsL G k)
  simp only [hz, norm_zero, zero_sub, norm_neg] at h1
  rw [Finset.sum_eq_zero (s := range (k + 1)) fun i hi => by rw [hu i (Finset.mem_range.mp hi)]; simp] at h1
  have h2 : ∀ i ∈ range k, ‖∑ j ∈ range k, R i j * u j‖ ^ 2 = 0 :=
    (Finset.sum_eq_zero_iff_of_nonneg (fun _ _ => by positivity)).mp (by linarith)
  have h3 := Matrix.eq_zero_of_mulVec_eq_zero hdet (v := fun i : Fin k => u i) (by
    funext i
    have := h2 i (Finset.mem_range.mpr i.2)
    rw [Finset.sum_range] at this
    simpa [Matrix.mulVec, dotProduct] using this)
  exact congrFun h3 ⟨j, hj⟩

/-- Conversely, non-zero subdiagonal entries are sufficient for independent columns. -/
theorem ColsIndep.of_subdiag {H : ℕ → ℕ → 𝕜} (hH : Hessenberg H) {k : ℕ} (hs : ∀ j < k, H (j + 1) j ≠ 0) :
    ColsIndep H (k + 1) k := by
  intro u hu j hj
  by_contra hne
  -- the largest index with a non-zero coefficient
  have hex : ∃ m, ∃ j < k, u j ≠ 0 ∧ k - j = m := ⟨_, j, hj, hne, rfl⟩
  classical
  obtain ⟨l, hl, hul, hlm⟩ := Nat.find_spec hex
  have hmax : ∀ i < k, l < i → u i = 0 := by
    intro i hi hli
    by_contra h0
    exact Nat.find_min hex (m := k - i) (by omega) ⟨i, hi, h0, rfl⟩
  have h1 := hu (l + 1) (by omega)
  rw [Finset.sum_eq_single l] at h1
  · exact (mul_ne_zero (hs l hl) hul) h1
  · intro b hb hbl
    rcases Nat.lt_or_ge b l with h | h
    · rw [hH (l + 1) b (by omega), zero_mul]
    · rw [hmax b (Finset.mem_range.mp hb) (by omega), mul_zero]
  · intro h; exact absurd (Finset.mem_range.mpr hl) h

/-! ## Theorems -/

/-- C48: shape of the result and the only possible exception. -/
theorem C48_shape (H : ℕ → ℕ → 𝕜) (n_ n : ℕ) (sa : Bool) :
    (n_ ≤ n + 1 → ∃ res, getResidualNorms H n_ n sa = .ok res ∧
      res.length = (n_ - 1) + 1 + if n_ = n then 1 else 0) ∧
    (n + 1 < n_ → getResidualNorms H n_ n sa = .error .valueError) := by
  have hok : ∀ i ≤ n, ∃ st, rnLoop sa H n i = .ok st ∧ st.res.length = i + 1 := by
    intro i
    induction i with
    | zero => exact fun _ => ⟨_, rfl, rfl⟩
    | succ i ih =>
      intro hi
      obtain ⟨st, h, hl⟩ := ih (by omega)
      rw [rnLoop, h]
      simp only [rnStep]
      rw [if_neg (by omega)]
      exact ⟨_, rfl, by simp [hl]⟩
  have herr : ∀ i, n < i → rnLoop sa H n i = .error .valueError := by
    intro i hi
    induction i with
    | zero => omega
    | succ i ih =>
      rw [rnLoop]
      rcases Nat.lt_or_ge n i with h | h
      · rw [ih h]
      · obtain rfl : i = n := by omega
        obtain ⟨st, h, -⟩ := hok i le_rfl
        rw [h]
        simp [rnStep]
  refine ⟨fun h => ?_, fun h => ?_⟩
  · obtain ⟨st, hst, hl⟩ := hok (n_ - 1) (by omega)
    unfold getResidualNorms
    rw [hst]
    refine ⟨_, rfl, ?_⟩
    split <;> simp [hl]
  · unfold getResidualNorms
    rw [herr _ (by omega)]

theorem getResidualNorms_inv {H : ℕ → ℕ → 𝕜} {n_ n : ℕ} {res : List ℝ}
    (h : getResidualNorms H n_ n false = .ok res) : ∃ G st, RnInv H n (n_ - 1) G st ∧
      res = if n_ = n then st.res ++ [0] else st.res := by
  have hn : n_ ≤ n + 1 := by
    by_contra hn
    rw [(C48_shape H n_ n false).2 (by omega)] at h
    simp at h
  obtain ⟨G, st, hst, inv⟩ := rnLoop_ok H n (n_ - 1) (by omega)
  refine ⟨G, st, inv, ?_⟩
  unfold getResidualNorms at h
  rw [hst] at h
  exact (Except.ok.inj h).symm

theorem getResidualNorms_get {H : ℕ → ℕ → 𝕜} (hH : Hessenberg H) {n_ n : ℕ} {res : List ℝ}
    (h : getResidualNorms H n_ n false = .ok res) {k : ℕ} (hk : k < n_) (hkr : k < res.length) :
    ∃ G R, QrUpdate H G R k ∧ res[k] = ‖rots G k (fun r => if r = 0 then (1 : 𝕜) else 0) k‖ := by
  obtain ⟨G, st, inv, rfl⟩ := getResidualNorms_inv h
  refine ⟨G, _, inv.qr hH (by omega), ?_⟩
  have hl : k < st.res.length := by rw [inv.len]; omega
  rw [← inv.res k hl]
  split
  · rw [List.getElem_append_left hl]
  · rfl

/-- C48: for every upper Hessenberg matrix `H` with shape `(n_, n)`, the entries `k < n_` are lower bounds of
`‖e_1 - H[:k+1,:k] u‖`. -/
theorem C48_lower {H : ℕ → ℕ → 𝕜} (hH : Hessenberg H) {n_ n : ℕ} {res : List ℝ}
    (h : getResidualNorms H n_ n false = .ok res) {k : ℕ} (hk : k < n_) (hkr : k < res.length) (u : ℕ → 𝕜) :
    res[k] ≤ lsDist H (k + 1) k u := by
  obtain ⟨G, R, q, e⟩ := getResidualNorms_get hH h hk hkr
  rw [e]
  exact q.le_lsDist u

/-- C48: if the columns of `H[:k+1,:k]` are linearly independent (for example if the subdiagonal has no zeros,
`ColsIndep.of_subdiag`), entry `k` is the minimum of `‖e_1 - H[:k+1,:k] u‖` over all `u`. -/
theorem C48_least {H : ℕ → ℕ → 𝕜} (hH : Hessenberg H) {n_ n : ℕ} {res : List ℝ}
    (h : getResidualNorms H n_ n false = .ok res) {k : ℕ} (hk : k < n_) (hkr : k < res.length)
    (hc : ColsIndep H (k + 1) k) : IsLeast (Set.range (lsDist H (k + 1) k)) res[k] := by
  obtain ⟨G, R, q, e⟩ := getResidualNorms_get hH h hk hkr
  rw [e]
  obtain ⟨u, hu⟩ := q.attained (q.diag_ne hc)
  refine ⟨⟨u, hu⟩, ?_⟩
  rintro _ ⟨u, rfl⟩
  exact q.le_lsDist u

/-- C48: for a square matrix the additional last entry is zero, which is the minimum of `‖e_1 - H u‖` if `H` is
nonsingular. -/
theorem C48_square {H : ℕ → ℕ → 𝕜} {n : ℕ} (hn : 0 < n) {res : List ℝ} {sa : Bool}
    (h : getResidualNorms H n n sa = .ok res) (hkr : n < res.length) :
    res[n] = 0 ∧ (ColsIndep H n n → IsLeast (Set.range (lsDist H n n)) res[n]) := by
  obtain ⟨res', h', hl⟩ := (C48_shape H n n sa).1 (by omega)
  rw [h] at h'
  obtain rfl := Except.ok.inj h'
  unfold getResidualNorms at h
  split at h
  · simp at h
  next st hst =>
  rw [if_pos rfl] at h
  obtain rfl := Except.ok.inj h
  have hl' : st.res.length = n := by simp at hl; omega
  have h0 : (st.res ++ [0])[n] = 0 := by
    rw [List.getElem_append_right (by omega)]
    simp
  refine ⟨h0, fun hc => ?_⟩
  rw [h0]
  have hdet : (Matrix.of fun i j : Fin n => H i j).det ≠ 0 := by
    intro hd
    obtain ⟨u, ⟨j, hj, hu⟩, hz⟩ := exists_kernel hd
    exact hu (hc u hz j hj)
  set T := Matrix.of fun i j : Fin n => H i j with hT
  refine ⟨⟨fun j => if hj : j < n then T⁻¹.mulVec (fun i : Fin n => if (i : ℕ) = 0 then 1 else 0) ⟨j, hj⟩ else 0, ?_⟩, ?_⟩
  · unfold lsDist
    rw [Finset.sum_eq_zero, Real.sqrt_zero]
    intro i hi
    have h1 : T.mulVec (T⁻¹.mulVec fun i : Fin n => if (i : ℕ) = 0 then 1 else 0) =
        fun i : Fin n => if (i : ℕ) = 0 then 1 else 0 := by
      rw [Matrix.mulVec_mulVec, Matrix.mul_nonsing_inv _ (isUnit_iff_ne_zero.mpr hdet), Matrix.one_mulVec]
    have h2 := congrFun h1 ⟨i, Finset.mem_range.mp hi⟩
    rw [Matrix.mulVec, dotProduct] at h2
    rw [Finset.sum_range]
    simp only [hT, Matrix.of_apply] at h2 ⊢
    simp only [Fin.is_lt, dite_true, Fin.eta]
    rw [h2]
    simp
  · rintro _ ⟨u, rfl⟩
    exact Real.sqrt_nonneg _

theorem rots_low (G : ℕ → Givens 𝕜) {i : ℕ} {x : ℕ → 𝕜} (hx : ∀ m ≤ i, x m = 0) : rots G i x = x := by
  induction i with
  | zero => rfl
  | succ i ih =>
    rw [rots, ih fun m hm => hx m (by omega)]
    exact rot_trivial _ (hx i (by omega)) (hx (i + 1) le_rfl)

/-- C48: for a tridiagonal matrix the flag `self_adjoint` does not change the result. -/
theorem C48_self_adjoint {H : ℕ → ℕ → 𝕜} (ht : ∀ i j, i + 1 < j → H i j = 0) (n_ n : ℕ) :
    getResidualNorms H n_ n true = getResidualNorms H n_ n false := by
  have key : ∀ i ≤ n, rnLoop true H n i = rnLoop false H n i := by
    intro i hi
    induction i with
    | zero => rfl
    | succ i ih =>
      obtain ⟨G, st, hst, inv⟩ := rnLoop_ok H n i (by omega)
      rw [rnLoop, rnLoop, ih (by omega), hst]
      simp only [rnStep]
      simp only [show ¬ n ≤ i by omega, Bool.false_eq_true, if_false, if_true]
      congr 2
      funext r c
      simp only [rotRows]
      by_cases h1 : i ≤ c ∧ c < n
      · rw [if_pos h1]
        by_cases h2 : c < i + 3
        · rw [if_pos (by omega)]
        · rw [if_neg (by omega)]
          have e : (fun r => st.H r c) = fun r => H r c := by
            funext r
            rw [inv.cols c h1.2, show min i (c + 1) = i by omega,
              rots_low G (x := fun r => H r c) fun m hm => ht m c (by omega)]
          rw [e, rot_trivial (x := fun r => H r c) _ (ht i c (by omega)) (ht (i + 1) c (by omega))]
          exact congrFun e r
      · rw [if_neg h1, if_neg (by omega)]
  rcases Nat.lt_or_ge (n + 1) n_ with h | h
  · rw [(C48_shape H n_ n true).2 h, (C48_shape H n_ n false).2 h]
  · unfold getResidualNorms
    rw [key _ (by omega)]

/-- C48: the norms do not increase. -/
theorem C48_antitone {H : ℕ → ℕ → 𝕜} {n_ n : ℕ} {res : List ℝ}
    (h : getResidualNorms H n_ n false = .ok res) : res.Pairwise (fun r r' => r' ≤ r) := by
  obtain ⟨G, st, inv, rfl⟩ := getResidualNorms_inv h
  have hstep : ∀ k, k + 1 < st.res.length → ∀ (h1 : k + 1 < st.res.length) (h2 : k < st.res.length),
      st.res[k + 1] ≤ st.res[k] := by
    intro k _ h1 h2
    have hl := inv.len
    rw [inv.res _ h1, inv.res _ h2, rots, rot_apply, if_pos rfl, rots_above _ (Nat.lt_succ_self k)]
    simp only [Nat.succ_ne_zero, if_false, mul_zero, add_zero]
    rw [norm_mul, norm_neg, RCLike.norm_conj]
    have hu := (mkGivens_spec (rots G k (fun r => H r k) k) (rots G k (fun r => H r k) (k + 1))).1
    rw [← inv.rotg k (by omega)] at hu
    have : ‖(G k).s‖ ≤ 1 := by
      have : ‖(G k).s‖ ^ 2 ≤ 1 := by nlinarith [sq_nonneg (G k).c]
      nlinarith [norm_nonneg (G k).s]
    exact mul_le_of_le_one_left (norm_nonneg _) this
  have hp : st.res.Pairwise (fun r r' => r' ≤ r) := by
    rw [List.pairwise_iff_getElem]
    intro i j hi hj hij
    induction j with
    | zero => omega
    | succ j ih =>
      rcases Nat.lt_or_ge i j with h1 | h1
      · exact (hstep j hj hj (by omega)).trans (ih (by omega) h1)
      · obtain rfl : i = j := by omega
        exact hstep i hj hj hi
  split
  · rw [List.pairwise_append]
    refine ⟨hp, List.pairwise_singleton _ _, fun a ha b hb => ?_⟩
    obtain rfl := List.mem_singleton.mp hb
    obtain ⟨k, hk, rfl⟩ := List.getElem_of_mem ha
    rw [inv.res k hk]
    exact norm_nonneg _
  · exact hp

/-! ## Residual norms of Krylov subspace methods -/

theorem sum_trunc {F : Type*} [AddCommGroup F] [Module 𝕜 F] {k n : ℕ} (hk : k ≤ n) (u : ℕ → 𝕜) (X : ℕ → F) :
    ∑ j ∈ range k, u j • X j = ∑ j ∈ range n, (if j < k then u j else 0) • X j := by
  rw [← Finset.sum_subset (Finset.range_mono hk)]
  · refine Finset.sum_congr rfl fun j hj => ?_
    rw [if_pos (Finset.mem_range.mp hj)]
  · intro j _ hj
    rw [if_neg (by simpa using hj), zero_smul]

theorem ArnFacts.lsDist {g : E → E → 𝕜} {A M : E →ₗ[𝕜] E} {v : E} {s : Arn 𝕜 E} (f : ArnFacts g A M v s)
    {k : ℕ} (hk : k ≤ s.iter) (u : ℕ → 𝕜) :
    nrm g (v - A (∑ j ∈ range k, ((nrm g v : ℝ) * u j : 𝕜) • s.V j)) = nrm g v * lsDist s.H (k + 1) k u := by
  set β := nrm g v with hβ
  set w : ℕ → 𝕜 := fun j => if j < k then (β : 𝕜) * u j else 0 with hw
  have hrow : ∀ i, lsRes s.vnorm s.H s.iter w i =
      (β : 𝕜) * ((if i = 0 then 1 else 0) - ∑ j ∈ range k, s.H i j * u j) := by
    intro i
    rw [lsRes, f.vnorm]
    have h1 : ∑ j ∈ range s.iter, s.H i j * w j = ∑ j ∈ range k, (β : 𝕜) * (s.H i j * u j) := by
      have := (sum_trunc hk (fun j => (β : 𝕜) * u j) (fun j => s.H i j)).symm
      simp only [smul_eq_mul] at this
      rw [hw, Finset.sum_congr rfl fun j _ => mul_comm (s.H i j) _, this]
      exact Finset.sum_congr rfl fun j _ => by ring
    rw [h1, mul_sub, Finset.mul_sum]
    congr 1
    split <;> simp [hβ]
  rw [sum_trunc hk (fun j => (β : 𝕜) * u j)]
  change nrm g (v - A (∑ j ∈ range s.iter, w j • s.V j)) = _
  have hβ0 : 0 ≤ β := nrm_nonneg g v
  have hsq : β * Krypy.lsDist s.H (k + 1) k u = Real.sqrt (β ^ 2 *
      ∑ i ∈ range (k + 1), ‖(if i = 0 then 1 else 0) - ∑ j ∈ range k, s.H i j * u j‖ ^ 2) := by
    rw [Real.sqrt_mul (sq_nonneg _), Real.sqrt_sq hβ0]
    rfl
  rw [hsq]
  unfold nrm
  congr 1
  rw [f.res w, Finset.mul_sum]
  rw [← Finset.sum_subset (Finset.range_mono (show k + 1 ≤ s.iter + 1 by omega))]
  · refine Finset.sum_congr rfl fun i _ => ?_
    rw [hrow, norm_mul, mul_pow, RCLike.norm_ofReal, sq_abs]
  · intro i _ hi
    rw [hrow, if_neg (by simp at hi; omega), Finset.sum_eq_zero]
    · simp
    · intro j hj
      rw [f.hess i j (by simp at hi hj; omega), zero_mul]

/-- C48: applied to the Hessenberg matrix of an Arnoldi object, entry `k` multiplied by the norm of the start vector is the
minimal residual norm over the `k`-th Krylov subspace. -/
theorem C48_arnoldi {g : E → E → 𝕜} {A M : E →ₗ[𝕜] E} {v : E} {s : Arn 𝕜 E} (f : ArnFacts g A M v s)
    {n_ n : ℕ} {res : List ℝ} (h : getResidualNorms s.H n_ n false = .ok res) {k : ℕ} (hk : k < n_)
    (hkr : k < res.length) (hki : k ≤ s.iter) (hc : ColsIndep s.H (k + 1) k) :
    IsLeast ((fun z => nrm g (v - A z)) '' (krylov (M ∘ₗ A) (M v) k : Set E)) (nrm g v * res[k]) := by
  obtain ⟨⟨u, hu⟩, hmin⟩ := C48_least (fun i j => f.hess i j) h hk hkr hc
  refine ⟨⟨_, ?_, f.lsDist hki u |>.trans (by rw [hu])⟩, ?_⟩
  · rw [SetLike.mem_coe, ← f.span k hki]
    exact mem_spanTo_iff.mpr ⟨_, rfl⟩
  · rintro _ ⟨z, hz, rfl⟩
    rw [SetLike.mem_coe, ← f.span k hki] at hz
    obtain ⟨w, rfl⟩ := mem_spanTo_iff.mp hz
    dsimp only
    by_cases hβ : nrm g v = 0
    · rw [hβ, zero_mul]
      exact nrm_nonneg _ _
    · have hβ' : ((nrm g v : ℝ) : 𝕜) ≠ 0 := by exact_mod_cast hβ
      have := f.lsDist hki (fun j => ((nrm g v : ℝ) : 𝕜)⁻¹ * w j)
      simp only [mul_inv_cancel_left₀ hβ'] at this
      rw [this]
      exact mul_le_mul_of_nonneg_left (hmin ⟨_, rfl⟩) (nrm_nonneg _ _)

/-- C48: after a run of `Gmres`, `get_residual_norms(H)` times the relative norm of the initial residual is the recorded
history of relative residual norms. -/
theorem C48_gmres {a : LSArgs 𝕜 E} {ortho : Ortho} (h : GmresHyp a ortho) {s : LS 𝕜 E} (hs : mkLS a = .ok s)
    (p : SolverArgs E) (htol : 0 ≤ p.tol) (hb : a.Ml a.b ≠ 0) {st : St ℝ E (GmresSt 𝕜 E)}
    (hrun : gmres s s.hooks ortho p = .returned st ∨ gmres s s.hooks ortho p = .convergence st) :
    ∃ res, getResidualNorms st.s.arn.H st.s.arn.get.rows st.s.arn.get.cols false = .ok res ∧
      ∀ k (h1 : k < st.resnorms.length) (h2 : k < res.length), k < st.s.arn.get.rows →
        st.resnorms[k] * resid a 0 = resid a (p.x0.getD 0) * res[k] := by
  obtain ⟨s', hs', ok, -⟩ := mkLS_ok h.ls
  rw [hs] at hs'
  obtain rfl := Except.ok.inj hs'
  obtain ⟨arn, hr, ha, h0⟩ := gmres_setup ok h p
  have hnb : 0 < (mkCfg s p).MMlbNorm := by
    rw [ok.nb]
    refine lt_of_le_of_ne (nrm_nonneg _ _) fun h0 => ?_
    have := h.ls.prec.nrm_eq_zero.mp h0.symm
    simp only [map_zero, sub_zero] at this
    exact hb this
  rw [hr] at hrun
  have hproc := ArnReach.proc (ok.arnHyp h p.maxiter) (a.Ml (a.b - a.A (p.x0.getD 0)))
  obtain ⟨hsp, hinv, hd, -⟩ := gmresRun_spec hproc (cfg := mkCfg s p) (Mr := s.Mr)
    (post := .ok) (x0 := p.x0.getD 0) htol hnb (ok.hres ortho p _) ha h0 hrun
  have hrows : st.s.arn.get.rows ≤ st.s.arn.get.cols + 1 := by unfold Arn.get; split <;> simp
  obtain ⟨res, hres, -⟩ := (C48_shape st.s.arn.H _ _ false).1 hrows
  refine ⟨res, hres, fun k h1 h2 h3 => ?_⟩
  have hki : k ≤ st.s.arn.iter := by have := hsp.len; omega
  have hc : ColsIndep st.s.arn.H (k + 1) k :=
    QrUpdate.indep (G := st.s.G) (R := st.s.R)
      ⟨hinv.qr.hess, fun j hj => hinv.qr.rotg j (by omega), fun j hj => hinv.qr.R j (by omega)⟩
      fun j hj => hd j (by omega)
  have hL := C48_arnoldi (hproc.facts hinv.arn) hres h3 h2 hki hc
  have := (hsp.minima k h1).unique hL
  rw [ok.nb] at this
  rw [this]
  congr 1
  have hg : (s.arnCfg s.hooks p.maxiter ortho).g = fun x y => a.ip x (a.M y) := by
    funext x y
    simp [ArnCfg.g, LS.arnCfg, ArnCfg.Mop, ok.M, ok.ip]
  rw [hg]
  rfl

/-! ## Findings and examples -/

/-- C48, finding: if columns are dependent, entries can be too small: for the zero matrix with shape (2, 1) the result is
`[1, 0]` although the minimum of `‖e_1 - H u‖` is one. -/
theorem C48_dependent_counterexample :
    getResidualNorms (fun _ _ => (0 : ℝ)) 2 1 false = .ok [1, 0] ∧
    ∀ u, lsDist (fun _ _ => (0 : ℝ)) 2 1 u = 1 := by
  constructor
  · simp [getResidualNorms, rnLoop, rnStep, rot, Givens.apply, mkGivens_zero]
  · intro u
    simp [Krypy.lsDist]

/-- C48, finding: the same for singular square matrices. -/
theorem C48_singular_counterexample :
    getResidualNorms (fun _ _ => (0 : ℝ)) 1 1 false = .ok [1, 0] ∧
    ∀ u, lsDist (fun _ _ => (0 : ℝ)) 1 1 u = 1 := by
  constructor
  · simp [getResidualNorms, rnLoop]
  · intro u
    simp [Krypy.lsDist]

/-- Example: `H = [[3], [4]]`; the result is `[1, 4/5]`. -/
example : getResidualNorms (fun i j : ℕ => if j = 0 then (if i = 0 then (3 : ℝ) else if i = 1 then 4 else 0) else 0) 2 1 false =
    .ok [1, 4 / 5] := by
  have h5 : Real.sqrt ((3 / 7 : ℝ) ^ 2 + (4 / 7) ^ 2) = 5 / 7 := by
    rw [show ((3 / 7 : ℝ) ^ 2 + (4 / 7) ^ 2) = (5 / 7) ^ 2 by norm_num]
    exact Real.sqrt_sq (by norm_num)
  have hg : (mkGivens (3 : ℝ) 4).s = 4 / 5 := by
    have : drotg 3 4 = (3 / 5, 4 / 5) := by
      unfold drotg
      simp only [show |(3 : ℝ)| + |(4 : ℝ)| = 7 by norm_num]
      rw [if_neg (by norm_num), h5]
      norm_num
    simp [mkGivens, this]
  simp [getResidualNorms, rnLoop, rnStep, rot, Givens.apply, hg]

/-- Its columns are independent. -/
example : ColsIndep (fun i j : ℕ => if j = 0 then (if i = 0 then (3 : ℝ) else if i = 1 then 4 else 0) else 0) 2 1 :=
  ColsIndep.of_subdiag (k := 1) (fun i j h => by
    split
    · rw [if_neg (by omega), if_neg (by omega)]
    · rfl) fun j hj => by
    obtain rfl : j = 0 := by omega
    simp

end Krypy
