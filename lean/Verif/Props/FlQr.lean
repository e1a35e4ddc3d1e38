import Verif.Model.FlQr
import Verif.Props.FlArnoldi
import Verif.Props.Qr

/-!
# Property C81: `qr` with rounding errors

`flQrLoop` is the loop of `utils.qr` over arbitrary operations; with exact operations it is the exact model (`C81_refines`).  If the vector operations have
small errors, then `X = Q R` up to small errors, although `Q` may have lost its orthogonality (`C81_factorisation`).  The norm is the one of the inner
product `ip_B`, and the errors of the vector operations are measured in this norm.
-/

set_option linter.unusedSectionVars false

namespace Krypy

/-! ## Refinement -/

section
variable {𝕜 E : Type*} [RCLike 𝕜] [AddCommGroup E] [Module 𝕜 E]

/-- Exact operations. -/
noncomputable def exactQr (ip : E → E → 𝕜) : FlQrOps ℝ 𝕜 E where
  sub := (· - ·)
  scale a x := a • x
  sdiv x r := ((r : 𝕜)⁻¹) • x
  ip := ip
  acc := (· + ·)
  zero := 0
  ofReal r := r
  norm x := npNorm (ip x x)
  ge r := decide ((1e-15 : ℝ) ≤ r)

theorem qrPass_fold (ip : E → E → 𝕜) (Q : ℕ → E) (i : ℕ) (s : E × (ℕ → 𝕜)) : qrPass ip Q i s = (List.range i).foldl (flQrStep (exactQr ip) Q) s := by
  induction i with
  | zero => rfl
  | succ i ih =>
    rw [List.range_succ, List.foldl_append, ← ih]
    rfl

theorem qrPasses_fold (ip : E → E → 𝕜) (Q : ℕ → E) (i p : ℕ) (s : E × (ℕ → 𝕜)) :
    qrPasses ip Q i p s = ((List.replicate p (List.range i)).flatten).foldl (flQrStep (exactQr ip) Q) s := by
  induction p with
  | zero => rfl
  | succ p ih =>
    rw [qrPasses, ih, qrPass_fold, List.replicate_succ', List.flatten_append, List.foldl_append]
    simp

theorem flQrCol_exact (ip : E → E → 𝕜) (reorthos i : ℕ) (Q : ℕ → E) (R : ℕ → ℕ → 𝕜) :
    flQrCol (exactQr ip) reorthos i Q R = qrCol ip reorthos i Q R := by
  unfold flQrCol qrCol flQrList
  rw [← qrPasses_fold]
  dsimp only
  have hn : ∀ q, (exactQr ip).norm q = npNorm (ip q q) := fun _ => rfl
  rw [hn]
  cases npNorm (ip (qrPasses ip Q i (reorthos + 1) (Q i, fun j => R j i)).1 (qrPasses ip Q i (reorthos + 1) (Q i, fun j => R j i)).1) with
  | error e => rfl
  | ok r =>
    simp only [exactQr, decide_eq_true_eq]

/-- C81: with exact operations `flQrLoop` is the exact model of `qr`. -/
theorem C81_refines (ip : E → E → 𝕜) (reorthos : ℕ) (x : ℕ → E) (k : ℕ) : flQrLoop (exactQr ip) reorthos x k = qrLoop ip reorthos x k := by
  induction k with
  | zero => rfl
  | succ i ih =>
    rw [flQrLoop, qrLoop, ih]
    cases qrLoop ip reorthos x i with
    | error e => rfl
    | ok p => exact flQrCol_exact ip reorthos i p.1 p.2

end

/-! ## Error bounds -/

section
variable {𝕜 E : Type*} [RCLike 𝕜] [NormedAddCommGroup E] [InnerProductSpace 𝕜 E] {F K X : Type*}

/-- Operations with errors.  `vec`, `num`, `val` are the vectors and numbers represented by arrays and floats, `fin`, `finK`, `finF` say that they
are finite.  Sums, differences, multiples and quotients have relative errors of at most `u`; inner products and norms have errors of at most `d` relative to the
norms of the arguments; `τ` is the floating point number `1e-15`. -/
structure FlQrAcc (o : FlQrOps F K X) (vec : X → E) (fin : X → Prop) (num : K → 𝕜) (finK : K → Prop) (val : F → ℝ) (finF : F → Prop) (u d τ : ℝ) : Prop where
  sub : ∀ {x y}, fin (o.sub x y) → fin x ∧ fin y ∧ ‖vec (o.sub x y) - (vec x - vec y)‖ ≤ u * ‖vec x - vec y‖
  scale : ∀ {c x}, fin (o.scale c x) → finK c ∧ fin x ∧ ‖vec (o.scale c x) - num c • vec x‖ ≤ u * ‖num c • vec x‖
  sdiv : ∀ {x r}, fin (o.sdiv x r) → finF r → fin x ∧ val r ≠ 0 ∧ ‖(val r : 𝕜) • vec (o.sdiv x r) - vec x‖ ≤ u * ‖vec x‖
  acc : ∀ {a b}, finK (o.acc a b) → finK a ∧ finK b ∧ ‖num (o.acc a b) - (num a + num b)‖ ≤ u * ‖num a + num b‖
  ofReal : ∀ {r}, finK (o.ofReal r) → finF r ∧ num (o.ofReal r) = (val r : 𝕜)
  zero : num o.zero = 0
  ip : ∀ {x y}, finK (o.ip x y) → ‖num (o.ip x y) - inner 𝕜 (vec x) (vec y)‖ ≤ d * (‖vec x‖ * ‖vec y‖)
  norm : ∀ {x r}, o.norm x = .ok r → finF r → fin x ∧ |val r - ‖vec x‖| ≤ d * ‖vec x‖
  ge : ∀ {r}, finF r → (o.ge r = true ↔ τ ≤ val r)

variable {o : FlQrOps F K X} {vec : X → E} {fin : X → Prop} {num : K → 𝕜} {finK : K → Prop} {val : F → ℝ} {finF : F → Prop} {u d τ : ℝ}

/-- The same operations as for `Arnoldi`, with the identity as operator. -/
def FlQrOps.arn (o : FlQrOps F K X) : FlArnOps F K X where
  A := id
  M := none
  sub := o.sub
  scale := o.scale
  sdiv := o.sdiv
  ip := o.ip
  re := id
  acc := o.acc
  zero := o.zero
  ofReal := o.ofReal
  norm x _ := o.norm x
  tiny _ _ _ _ := false
  pos _ := false

theorem FlQrAcc.toVec (h : FlQrAcc o vec fin num finK val finF u d τ) : FlArnVec o.arn vec fin num finK val finF (ContinuousLinearMap.id 𝕜 E) u 0 where
  sub := h.sub
  scale := h.scale
  sdiv := h.sdiv
  A {x} hf := ⟨hf, by simp [FlQrOps.arn]⟩
  acc := h.acc
  ofReal := h.ofReal
  zero := h.zero

theorem FlQrAcc.toIp (h : FlQrAcc o vec fin num finK val finF u d τ) : FlArnIp o.arn vec fin num finK val finF d where
  ip := h.ip
  norm hr hf := ⟨(h.norm hr hf).1, fun _ => (h.norm hr hf).2⟩

theorem flQrStep_eq (o : FlQrOps F K X) (Q : ℕ → X) : flQrStep o Q = flOrthoStep o.arn .mgs Q Q := by
  funext st j
  simp [flQrStep, flOrthoStep, FlQrOps.arn]

theorem flQrList_mem {reorthos i j : ℕ} : j ∈ flQrList reorthos i ↔ j < i := by
  unfold flQrList
  simp only [List.mem_flatten, List.mem_replicate]
  constructor
  · rintro ⟨l, ⟨-, rfl⟩, h⟩
    exact List.mem_range.mp h
  · exact fun h => ⟨_, ⟨by omega, rfl⟩, List.mem_range.mpr h⟩

theorem flQrList_length (reorthos i : ℕ) : (flQrList reorthos i).length = (reorthos + 1) * i := by
  unfold flQrList
  simp

theorem flQrList_count (reorthos i j : ℕ) : (flQrList reorthos i).count j ≤ reorthos + 1 := by
  unfold flQrList
  rw [List.count_flatten, List.map_replicate, List.sum_replicate, smul_eq_mul]
  have := List.nodup_iff_count_le_one.mp (List.nodup_range (n := i)) j
  nlinarith

/-- Growth of the vectors during the orthogonalisation of column `i`. -/
noncomputable def qrGrow (u d : ℝ) (reorthos i : ℕ) : ℝ := orthoGrow u d ^ ((reorthos + 1) * i)

/-- Bound for the error of column `i`, relative to the norm of this column. -/
noncomputable def qrBound (u d : ℝ) (reorthos i : ℕ) : ℝ :=
  ((reorthos + 1) * i : ℕ) * (3 * u * qrGrow u d reorthos i / (1 - u) ^ 2 +
    u * ((reorthos + 1 : ℕ) * ((1 + u) ^ (reorthos + 1) * (2 * (1 + d) * qrGrow u d reorthos i))) / (1 - u)) + u * qrGrow u d reorthos i

/-- The arrays contain neither infinities nor NaNs. -/
structure FlQrFin (fin : X → Prop) (finK : K → Prop) (k : ℕ) (Q : ℕ → X) (R : ℕ → ℕ → K) : Prop where
  Q : ∀ j < k, fin (Q j)
  R : ∀ i < k, ∀ j ≤ i, finK (R j i)

/-- Column `i` of the result. -/
structure FlQrColumn (vec : X → E) (num : K → 𝕜) (u d τ : ℝ) (reorthos : ℕ) (x Q : ℕ → X) (R : ℕ → ℕ → K) (i : ℕ) : Prop where
  /-- The column of `Q` is normalised, and `X = Q R` in this column up to rounding errors, if `R[i,i]` is at least `1e-15`. -/
  large : τ ≤ RCLike.re (num (R i i)) → NearUnit u d (vec (Q i)) ∧
    ‖vec (x i) - ∑ j ∈ Finset.range (i + 1), num (R j i) • vec (Q j)‖ ≤ qrBound u d reorthos i * ‖vec (x i)‖
  /-- Otherwise the column of `Q` is the remainder itself. -/
  small : RCLike.re (num (R i i)) < τ → ‖vec (Q i)‖ ≤ τ / (1 - d) ∧
    ‖vec (x i) - ∑ j ∈ Finset.range i, num (R j i) • vec (Q j) - vec (Q i)‖ ≤ qrBound u d reorthos i * ‖vec (x i)‖
  real : RCLike.im (num (R i i)) = 0
  nonneg : 0 ≤ RCLike.re (num (R i i))

/-- One column. -/
theorem flQrCol_column (h : FlQrAcc o vec fin num finK val finF u d τ) (hu0 : 0 ≤ u) (hu : u < 1) (hd0 : 0 ≤ d) (hd : d < 1)
    {reorthos i : ℕ} {x Q Q' : ℕ → X} {R R' : ℕ → ℕ → K} (hc : flQrCol o reorthos i Q R = .ok (Q', R')) (hx : Q i = x i) (hz : ∀ j, R j i = o.zero)
    (hn : ∀ j < i, ‖vec (Q j)‖ ^ 2 ≤ 2) (hf : FlQrFin fin finK (i + 1) Q' R') :
    FlQrColumn vec num u d τ reorthos x Q' R' i ∧ (∀ j, j ≠ i → Q' j = Q j) ∧ (∀ a b, b ≠ i → R' a b = R a b) ∧ ∀ a, i < a → R' a i = o.zero := by
  unfold flQrCol at hc
  dsimp only at hc
  rw [flQrStep_eq] at hc
  set js := flQrList reorthos i with hjs
  set st0 : X × (ℕ → K) := (Q i, fun j => R j i) with hst0
  set st := js.foldl (flOrthoStep o.arn .mgs Q Q) st0 with hst
  cases hr : o.norm st.1 with
  | error e => rw [hr] at hc; cases hc
  | ok r =>
    rw [hr] at hc
    dsimp only at hc
    obtain ⟨hQ', hR'⟩ := Prod.mk.inj (Except.ok.inj hc)
    have hRi : ∀ a, R' a i = Function.update st.2 i (o.ofReal r) a := fun a => by rw [← hR']; simp
    have hRii : R' i i = o.ofReal r := by rw [hRi, Function.update_self]
    have hRji : ∀ j, j ≠ i → R' j i = st.2 j := fun j hj => by rw [hRi, Function.update_of_ne hj]
    have hQj : ∀ j, j ≠ i → Q' j = Q j := fun j hj => by rw [← hQ', Function.update_of_ne hj]
    have hQi : Q' i = if o.ge r then o.sdiv st.1 r else st.1 := by rw [← hQ', Function.update_self]
    obtain ⟨hrf, hrn⟩ := h.ofReal (hRii ▸ hf.R i (by omega) i le_rfl)
    obtain ⟨hwf, hnorm⟩ := h.norm hr hrf
    have hv := h.toVec
    have hmem : ∀ j ∈ js, j < i := fun j hj => flQrList_mem.mp hj
    have hlen : js.length = (reorthos + 1) * i := flQrList_length reorthos i
    have hk : ∀ j ∈ js, finK (st.2 j) := fun j hj => by
      have hji := hmem j hj
      rw [← hRji j (by omega)]
      exact hf.R i (by omega) j hji.le
    have hz0 : ∀ j ∈ js, num (st0.2 j) = 0 := fun j _ => by
      change num (R j i) = 0
      rw [hz, h.zero]
    have hun : ∀ (l : List ℕ) (s : X × (ℕ → K)) (a : ℕ), a ∉ l → ((l.foldl (flOrthoStep o.arn .mgs Q Q) s).2 a) = s.2 a := by
      intro l
      induction l with
      | nil => exact fun _ _ _ => rfl
      | cons j l ih =>
        intro s a ha
        rw [List.mem_cons, not_or] at ha
        rw [List.foldl_cons, ih _ _ ha.2]
        change Function.update s.2 j _ a = s.2 a
        rw [Function.update_of_ne ha.1]
    have hnot : ∀ a, i ≤ a → a ∉ js := fun a ha hm => by have := hmem a hm; omega
    have hbd := flOrtho_bounds hv h.toIp hu0 hd0 (ortho := .mgs) (by decide) js st0 (fun j hj => hn j (hmem j hj)) hwf hk hz0
    set G := qrGrow u d reorthos i with hG
    have g1 := one_le_orthoGrow hu0 hd0
    have hgi : ∀ m ≤ js.length, orthoGrow u d ^ m ≤ G := fun m hm => by
      rw [hG, qrGrow, ← hlen]
      exact pow_le_pow_right₀ g1 hm
    have hG0 : 0 ≤ G := by rw [hG, qrGrow]; positivity
    set W := G * ‖vec (x i)‖ with hWd
    have hW0 : 0 ≤ W := by positivity
    have hs1 : vec st0.1 = vec (x i) := by rw [hst0, hx]
    set D := ((reorthos + 1 : ℕ) : ℝ) * ((1 + u) ^ (reorthos + 1) * (2 * (1 + d) * W)) with hDd
    have hW : ∀ m ≤ js.length, ‖vec ((js.take m).foldl (flOrthoStep o.arn .mgs Q Q) st0).1‖ ≤ W := fun m hm => by
      refine (hbd m hm).1.trans ?_
      rw [hs1]
      exact mul_le_mul_of_nonneg_right (hgi m hm) (norm_nonneg _)
    have hD : ∀ m ≤ js.length, ∀ j ∈ js, ‖num (((js.take m).foldl (flOrthoStep o.arn .mgs Q Q) st0).2 j) • vec (Q j)‖ ≤ D := fun m hm j hj => by
      rw [norm_smul]
      refine ((hbd m hm).2 j hj).trans ?_
      rw [hs1]
      have hc : (js.take m).count j ≤ reorthos + 1 := ((List.take_sublist m js).count_le j).trans (flQrList_count _ _ _)
      have h1 : orthoGrow u d ^ m * ‖vec (x i)‖ ≤ W := mul_le_mul_of_nonneg_right (hgi m hm) (norm_nonneg _)
      have h2 : (1 + u) ^ (js.take m).count j ≤ (1 + u) ^ (reorthos + 1) := pow_le_pow_right₀ (by linarith) hc
      have h3 : (((js.take m).count j : ℕ) : ℝ) ≤ ((reorthos + 1 : ℕ) : ℝ) := by exact_mod_cast hc
      rw [hDd]
      gcongr
    have hfold := orthoSum_fold hv hu0 hu js (k := i) (fun j hj => (hmem j hj).le) st0 hW hwf hk hD
    rw [← hst] at hfold
    have hos0 : orthoSum vec num Q i st0 = vec (x i) := by
      unfold orthoSum
      rw [hs1, Finset.sum_eq_zero, add_zero]
      intro j _
      change num (R j i) • _ = _
      rw [hz, h.zero, zero_smul]
    have hos : orthoSum vec num Q i st = vec st.1 + ∑ j ∈ Finset.range i, num (R' j i) • vec (Q' j) := by
      unfold orthoSum
      rw [Finset.sum_range_succ]
      have h0 : st.2 i = o.zero := by
        rw [hst, hun js st0 i (hnot i le_rfl)]
        exact hz i
      rw [h0, h.zero, zero_smul, add_zero]
      congr 1
      refine Finset.sum_congr rfl fun j hj => ?_
      rw [Finset.mem_range] at hj
      rw [hRji j (by omega), hQj j (by omega)]
    rw [hos, hos0, hlen] at hfold
    have hwW : ‖vec st.1‖ ≤ W := by
      have := hW js.length le_rfl
      rwa [List.take_length] at this
    set err := (((reorthos + 1) * i : ℕ) : ℝ) * (3 * u * W / (1 - u) ^ 2 + u * D / (1 - u)) with herr
    have hB : qrBound u d reorthos i * ‖vec (x i)‖ = err + u * W := by
      unfold qrBound
      rw [← hG, herr, hDd, hWd]
      ring
    have hmain : ‖vec (x i) - ∑ j ∈ Finset.range i, num (R' j i) • vec (Q' j) - vec st.1‖ ≤ err := by
      rw [norm_sub_rev] at hfold
      refine (le_of_eq ?_).trans hfold
      congr 1
      abel
    have hre : RCLike.re (num (R' i i)) = val r := by rw [hRii, hrn, RCLike.ofReal_re]
    rw [abs_le] at hnorm
    have hval0 : 0 ≤ val r := by nlinarith [norm_nonneg (vec st.1)]
    refine ⟨⟨?_, ?_, ?_, ?_⟩, hQj, fun a b hb => by rw [← hR']; simp [hb], fun a ha => ?_⟩
    · intro hτ
      rw [hre] at hτ
      rw [if_pos ((h.ge hrf).mpr hτ)] at hQi
      have hqf : fin (o.sdiv st.1 r) := hQi ▸ hf.Q i (by omega)
      refine ⟨?_, ?_⟩
      · rw [hQi]
        exact sdiv_nearUnit hv hu0 hu hd0 hd hqf hrf (abs_le.mpr hnorm)
      · obtain ⟨-, -, hdv⟩ := h.sdiv hqf hrf
        rw [Finset.sum_range_succ, hRii, hQi, hrn, hB]
        have key : ∀ a b c e : E, a - (b + c) = (a - b - e) - (c - e) := fun a b c e => by abel
        rw [key _ _ _ (vec st.1)]
        refine (norm_sub_le _ _).trans (add_le_add hmain (hdv.trans ?_))
        gcongr
    · intro hτ
      rw [hre] at hτ
      rw [if_neg (fun hg => absurd ((h.ge hrf).mp hg) (not_le.mpr hτ))] at hQi
      rw [hQi]
      refine ⟨?_, ?_⟩
      · rw [le_div_iff₀ (by linarith)]
        nlinarith
      · rw [hB]
        exact hmain.trans (by have := mul_nonneg hu0 hW0; linarith)
    · rw [hRii, hrn, RCLike.ofReal_im]
    · rw [hre]
      exact hval0
    · rw [hRji a (by omega), hst, hun js st0 a (hnot a ha.le)]
      exact hz a

/-- C81: `Q, R = qr(X, ip_B)` with rounding errors, for any number of reorthogonalisations, if the results are finite: `R` is upper triangular with real,
nonnegative diagonal entries; the columns of `Q` are normalised and `X = Q R` up to errors (bounded by `qrBound`, relative to the norms of the columns of `X`);
only columns with `R[i,i] < 1e-15` are not normalised. -/
theorem C81_factorisation (h : FlQrAcc o vec fin num finK val finF u d τ) (hu0 : 0 ≤ u) (hu : u < 1) (hd0 : 0 ≤ d) (hd : d < 1)
    (hud : (1 + u) ^ 2 ≤ 2 * (1 - d) ^ 2) (hτ : τ ≤ 1 - d) {reorthos k : ℕ} {x Q : ℕ → X} {R : ℕ → ℕ → K}
    (hl : flQrLoop o reorthos x k = .ok (Q, R)) (hf : FlQrFin fin finK k Q R) :
    (∀ i < k, FlQrColumn vec num u d τ reorthos x Q R i) ∧ (∀ a b, b < a → R a b = o.zero) := by
  have d0 : 0 < 1 - d := by linarith
  suffices H : (∀ i < k, FlQrColumn vec num u d τ reorthos x Q R i) ∧ (∀ a b, b < a → R a b = o.zero) ∧ (∀ a b, k ≤ b → R a b = o.zero) ∧ ∀ j, k ≤ j → Q j = x j from
    ⟨H.1, H.2.1⟩
  induction k generalizing Q R with
  | zero =>
    obtain ⟨rfl, rfl⟩ := Prod.mk.inj (Except.ok.inj hl)
    exact ⟨fun i hi => absurd hi (by omega), fun _ _ _ => rfl, fun _ _ _ => rfl, fun _ _ => rfl⟩
  | succ i ih =>
    rw [flQrLoop] at hl
    cases hp : flQrLoop o reorthos x i with
    | error e => rw [hp] at hl; cases hl
    | ok p =>
      obtain ⟨Q0, R0⟩ := p
      rw [hp] at hl
      dsimp only at hl
      -- the earlier columns are not changed
      have hold : (∀ j, j ≠ i → Q j = Q0 j) ∧ ∀ a b, b ≠ i → R a b = R0 a b := by
        unfold flQrCol at hl
        dsimp only at hl
        cases hr : o.norm ((flQrList reorthos i).foldl (flQrStep o Q0) (Q0 i, fun j => R0 j i)).1 with
        | error e => rw [hr] at hl; cases hl
        | ok r =>
          rw [hr] at hl
          obtain ⟨rfl, rfl⟩ := Prod.mk.inj (Except.ok.inj hl)
          exact ⟨fun j hj => Function.update_of_ne hj _ _, fun a b hb => if_neg hb⟩
      have hf0 : FlQrFin fin finK i Q0 R0 := by
        refine ⟨fun j hj => ?_, fun b hb a ha => ?_⟩
        · rw [← hold.1 j (by omega)]
          exact hf.Q j (by omega)
        · rw [← hold.2 a b (by omega)]
          exact hf.R b (by omega) a ha
      obtain ⟨ih1, ih2, ih3, ih4⟩ := ih hp hf0
      have hn : ∀ j < i, ‖vec (Q0 j)‖ ^ 2 ≤ 2 := by
        intro j hj
        rcases le_or_gt τ (RCLike.re (num (R0 j j))) with hc | hc
        · exact ((ih1 j hj).large hc).1.sq hu0 hd hud
        · have h1 := ((ih1 j hj).small hc).1
          have h2 : τ / (1 - d) ≤ 1 := by rw [div_le_one d0]; exact hτ
          have := norm_nonneg (vec (Q0 j))
          nlinarith
      obtain ⟨c1, c2, c3, c4⟩ := flQrCol_column h hu0 hu hd0 hd hl (ih4 i le_rfl) (fun j => ih3 j i le_rfl) hn hf
      refine ⟨fun j hj => ?_, fun a b hab => ?_, fun a b hb => ?_, fun j hj => ?_⟩
      · rcases Nat.lt_succ_iff_lt_or_eq.mp hj with hj | rfl
        · have hs : ∀ m ≤ j + 1, m ≤ i → ∑ l ∈ Finset.range m, num (R l j) • vec (Q l) = ∑ l ∈ Finset.range m, num (R0 l j) • vec (Q0 l) := fun m _ hm =>
            Finset.sum_congr rfl fun l hl => by
              rw [Finset.mem_range] at hl
              rw [c2 l (by omega), c3 l j (by omega)]
          have old := ih1 j hj
          refine ⟨?_, ?_, ?_, ?_⟩
          · rw [c3 j j (by omega), hs _ le_rfl (by omega), c2 j (by omega)]
            exact old.large
          · rw [c3 j j (by omega), hs _ (by omega) (by omega), c2 j (by omega)]
            exact old.small
          · rw [c3 j j (by omega)]
            exact old.real
          · rw [c3 j j (by omega)]
            exact old.nonneg
        · exact c1
      · by_cases hb : b = i
        · subst hb
          exact c4 a hab
        · rw [c3 a b hb]
          exact ih2 a b hab
      · rw [c3 a b (by omega)]
        exact ih3 a b (by omega)
      · rw [c2 j (by omega)]
        exact ih4 j (by omega)

/-- C81: in any case `X = Q R` up to rounding errors and `1e-15`. -/
theorem C81_product (h : FlQrAcc o vec fin num finK val finF u d τ) (hu0 : 0 ≤ u) (hu : u < 1) (hd0 : 0 ≤ d) (hd : d < 1)
    (hud : (1 + u) ^ 2 ≤ 2 * (1 - d) ^ 2) (hτ0 : 0 ≤ τ) (hτ : τ ≤ 1 - d) {reorthos k : ℕ} {x Q : ℕ → X} {R : ℕ → ℕ → K}
    (hl : flQrLoop o reorthos x k = .ok (Q, R)) (hf : FlQrFin fin finK k Q R) {i : ℕ} (hi : i < k) :
    ‖vec (x i) - ∑ j ∈ Finset.range k, num (R j i) • vec (Q j)‖ ≤ qrBound u d reorthos i * ‖vec (x i)‖ + τ / (1 - d) := by
  obtain ⟨h1, h2⟩ := C81_factorisation h hu0 hu hd0 hd hud hτ hl hf
  have d0 : 0 < 1 - d := by linarith
  have hsum : ∑ j ∈ Finset.range k, num (R j i) • vec (Q j) = ∑ j ∈ Finset.range (i + 1), num (R j i) • vec (Q j) := by
    symm
    refine Finset.sum_subset (fun j hj => ?_) fun j _ hj => ?_
    · rw [Finset.mem_range] at hj ⊢
      omega
    · rw [Finset.mem_range] at hj
      rw [h2 j i (by omega), h.zero, zero_smul]
  rw [hsum]
  have hτd : 0 ≤ τ / (1 - d) := div_nonneg hτ0 d0.le
  rcases le_or_gt τ (RCLike.re (num (R i i))) with hc | hc
  · exact ((h1 i hi).large hc).2.trans (by linarith)
  · obtain ⟨hq, hs⟩ := (h1 i hi).small hc
    have hre : num (R i i) = ((RCLike.re (num (R i i)) : ℝ) : 𝕜) := by
      conv_lhs => rw [← RCLike.re_add_im (num (R i i)), (h1 i hi).real]
      simp
    set ρ := RCLike.re (num (R i i))
    have hρ0 : 0 ≤ ρ := (h1 i hi).nonneg
    rw [Finset.sum_range_succ, hre]
    have key : vec (x i) - (∑ j ∈ Finset.range i, num (R j i) • vec (Q j) + (ρ : 𝕜) • vec (Q i)) =
        (vec (x i) - ∑ j ∈ Finset.range i, num (R j i) • vec (Q j) - vec (Q i)) + ((1 - ρ : ℝ) : 𝕜) • vec (Q i) := by
      push_cast
      module
    rw [key]
    refine (norm_add_le _ _).trans (add_le_add hs ?_)
    rw [norm_smul, RCLike.norm_ofReal, abs_of_nonneg (by linarith)]
    calc (1 - ρ) * ‖vec (Q i)‖ ≤ 1 * ‖vec (Q i)‖ := mul_le_mul_of_nonneg_right (by linarith) (norm_nonneg _)
      _ ≤ τ / (1 - d) := by rw [one_mul]; exact hq

end

/-! ## Componentwise errors, for an inner product given by a matrix -/

section
variable {𝕜 : Type*} [RCLike 𝕜] {F K X : Type*} {n : ℕ}
open Matrix

/-- `s` is a possible result of `numpy.dot(X.T.conj(), B*Y)` (utils.py 193) for single columns. -/
def FlDotB (p : FlPar) (B : Matrix (Fin n) (Fin n) 𝕜) (x y : Fin n → 𝕜) (s : 𝕜) : Prop :=
  ∃ z, (∀ i, FlDot p (B i) y (z i)) ∧ FlDot p (star x) z s

/-- Array operations of numpy with the rounding errors of `FlPar`, for `ip_B` a matrix `B`. -/
structure FlQrComp (p : FlPar) (o : FlQrOps F K X) (vec : X → Fin n → 𝕜) (fin : X → Prop) (num : K → 𝕜) (finK : K → Prop) (val : F → ℝ) (finF : F → Prop)
    (B : Matrix (Fin n) (Fin n) 𝕜) (τ : ℝ) : Prop where
  sub : ∀ {x y}, fin (o.sub x y) → fin x ∧ fin y ∧ ∀ i, ‖vec (o.sub x y) i - (vec x i - vec y i)‖ ≤ p.u * ‖vec x i - vec y i‖
  scale : ∀ {c x}, fin (o.scale c x) → finK c ∧ fin x ∧ ∀ i, ‖vec (o.scale c x) i - num c * vec x i‖ ≤ p.v * ‖num c * vec x i‖
  sdiv : ∀ {x r}, fin (o.sdiv x r) → finF r → fin x ∧ val r ≠ 0 ∧ ∀ i, ‖vec (o.sdiv x r) i - vec x i / (val r : 𝕜)‖ ≤ p.u * ‖vec x i / (val r : 𝕜)‖
  acc : ∀ {a b}, finK (o.acc a b) → finK a ∧ finK b ∧ ‖num (o.acc a b) - (num a + num b)‖ ≤ p.u * ‖num a + num b‖
  ofReal : ∀ {r}, finK (o.ofReal r) → finF r ∧ num (o.ofReal r) = (val r : 𝕜)
  zero : num o.zero = 0
  ip : ∀ {x y}, finK (o.ip x y) → FlDotB p B (vec x) (vec y) (num (o.ip x y))
  norm : ∀ {x r}, o.norm x = .ok r → finF r → fin x ∧ ∃ q, FlDotB p B (vec x) (vec x) q ∧ |val r - Real.sqrt ‖q‖| ≤ p.w * Real.sqrt ‖q‖
  ge : ∀ {r}, finF r → (o.ge r = true ↔ τ ≤ val r)

/-- Error of a product with a matrix. -/
theorem flMulVec_err {p : FlPar} (hp : p.Nonneg) (hη : p.η = 0) {B : Matrix (Fin n) (Fin n) 𝕜} {y z : Fin n → 𝕜} (h : ∀ i, FlDot p (B i) y (z i)) :
    vecNorm (z - B *ᵥ y) ≤ p.gam n * frob B * vecNorm y := by
  have g0 := hp.gam_nonneg n
  have h3 : ∀ i, ‖(z - B *ᵥ y) i‖ ≤ p.gam n * (Real.sqrt (∑ j, ‖B i j‖ ^ 2) * vecNorm y) := by
    intro i
    have h4 := C77_dot hp (h i)
    rw [FlPar.und, hη, mul_zero, add_zero] at h4
    refine (show ‖z i - B i ⬝ᵥ y‖ ≤ _ from h4).trans (mul_le_mul_of_nonneg_left ?_ g0)
    exact Real.sum_mul_le_sqrt_mul_sqrt Finset.univ (fun j => ‖B i j‖) (fun j => ‖y j‖)
  refine Real.sqrt_le_iff.mpr ⟨mul_nonneg (mul_nonneg g0 (Real.sqrt_nonneg _)) (vecNorm_nonneg y), ?_⟩
  refine (Finset.sum_le_sum fun i _ => pow_le_pow_left₀ (norm_nonneg _) (h3 i) 2).trans (le_of_eq ?_)
  have h5 : frob B ^ 2 = ∑ i, ∑ j, ‖B i j‖ ^ 2 := Real.sq_sqrt (Finset.sum_nonneg fun i _ => Finset.sum_nonneg fun j _ => sq_nonneg _)
  rw [mul_pow, mul_pow, h5, Finset.mul_sum, Finset.sum_mul]
  refine Finset.sum_congr rfl fun i _ => ?_
  rw [mul_pow, mul_pow, Real.sq_sqrt (Finset.sum_nonneg fun j _ => sq_nonneg _)]
  ring

theorem vecNorm_mulVec_le_qr (B : Matrix (Fin n) (Fin n) 𝕜) (y : Fin n → 𝕜) : vecNorm (B *ᵥ y) ≤ frob B * vecNorm y := by
  refine Real.sqrt_le_iff.mpr ⟨mul_nonneg (Real.sqrt_nonneg _) (vecNorm_nonneg y), ?_⟩
  have h5 : frob B ^ 2 = ∑ i, ∑ j, ‖B i j‖ ^ 2 := Real.sq_sqrt (Finset.sum_nonneg fun i _ => Finset.sum_nonneg fun j _ => sq_nonneg _)
  rw [mul_pow, h5, Finset.sum_mul]
  refine Finset.sum_le_sum fun i _ => ?_
  have h6 : ‖(B *ᵥ y) i‖ ≤ Real.sqrt (∑ j, ‖B i j‖ ^ 2) * vecNorm y := by
    refine (norm_sum_le Finset.univ fun j => B i j * y j).trans ?_
    simp only [norm_mul]
    exact Real.sum_mul_le_sqrt_mul_sqrt Finset.univ (fun j => ‖B i j‖) (fun j => ‖y j‖)
  refine (pow_le_pow_left₀ (norm_nonneg _) h6 2).trans (le_of_eq ?_)
  rw [mul_pow, Real.sq_sqrt (Finset.sum_nonneg fun j _ => sq_nonneg _)]

theorem norm_dot_le (x y : Fin n → 𝕜) : ‖star x ⬝ᵥ y‖ ≤ vecNorm x * vecNorm y := by
  refine (norm_sum_le Finset.univ fun i => star x i * y i).trans ?_
  simp only [norm_mul, Pi.star_apply, norm_star]
  exact Real.sum_mul_le_sqrt_mul_sqrt Finset.univ (fun i => ‖x i‖) (fun i => ‖y i‖)

/-- Error of an inner product with a matrix. -/
theorem FlDotB.err {p : FlPar} (hp : p.Nonneg) (hη : p.η = 0) {B : Matrix (Fin n) (Fin n) 𝕜} {x y : Fin n → 𝕜} {s : 𝕜} (h : FlDotB p B x y s) :
    ‖s - star x ⬝ᵥ B *ᵥ y‖ ≤ p.gam n * (2 + p.gam n) * frob B * (vecNorm x * vecNorm y) := by
  obtain ⟨z, hz, hs⟩ := h
  have g0 := hp.gam_nonneg n
  have h1 := flMulVec_err hp hη hz
  have h2 := C77_dot hp hs
  rw [FlPar.und, hη, mul_zero, add_zero] at h2
  have h3 : ∑ i, ‖star x i‖ * ‖z i‖ ≤ vecNorm x * vecNorm z := by
    have := Real.sum_mul_le_sqrt_mul_sqrt Finset.univ (fun i => ‖x i‖) (fun i => ‖z i‖)
    simpa [vecNorm] using this
  have h4 : vecNorm z ≤ (1 + p.gam n) * frob B * vecNorm y := by
    have h5 := vecNorm_add_le' (z - B *ᵥ y) (B *ᵥ y)
    rw [sub_add_cancel] at h5
    have := vecNorm_mulVec_le_qr B y
    linarith
  have h6 : star x ⬝ᵥ z - star x ⬝ᵥ B *ᵥ y = star x ⬝ᵥ (z - B *ᵥ y) := by rw [dotProduct_sub]
  have h7 := norm_dot_le x (z - B *ᵥ y)
  have h8 := norm_sub_le_norm_sub_add_norm_sub s (star x ⬝ᵥ z) (star x ⬝ᵥ B *ᵥ y)
  rw [h6] at h8
  have hx := vecNorm_nonneg x
  calc ‖s - star x ⬝ᵥ B *ᵥ y‖ ≤ ‖s - star x ⬝ᵥ z‖ + ‖star x ⬝ᵥ (z - B *ᵥ y)‖ := h8
    _ ≤ p.gam n * (vecNorm x * ((1 + p.gam n) * frob B * vecNorm y)) + vecNorm x * (p.gam n * frob B * vecNorm y) := by
      refine add_le_add (h2.trans (mul_le_mul_of_nonneg_left (h3.trans ?_) g0)) (h7.trans (mul_le_mul_of_nonneg_left h1 hx))
      exact mul_le_mul_of_nonneg_left h4 hx
    _ = p.gam n * (2 + p.gam n) * frob B * (vecNorm x * vecNorm y) := by ring

/-- C81: componentwise rounding errors (without underflow) give the assumptions of the theorems above for the inner product `⟨x, y⟩ = x^* B y`, where
`B = S^* S`: the norm of the space is `‖S x‖`; `κ` bounds `‖S‖ ‖S⁻¹‖` (the root of the condition number of `B`) and `β` bounds `‖B‖_F ‖S⁻¹‖²`. -/
theorem C81_componentwise {p : FlPar} (hp : p.Nonneg) (hη : p.η = 0) {o : FlQrOps F K X} {vec : X → Fin n → 𝕜} {fin : X → Prop} {num : K → 𝕜} {finK : K → Prop}
    {val : F → ℝ} {finF : F → Prop} {B : Matrix (Fin n) (Fin n) 𝕜} {τ : ℝ} (h : FlQrComp p o vec fin num finK val finF B τ)
    {S S' : EuclideanSpace 𝕜 (Fin n) →L[𝕜] EuclideanSpace 𝕜 (Fin n)} (hS : ∀ x, S' (S x) = x)
    (hB : ∀ x y : Fin n → 𝕜, inner 𝕜 (S (WithLp.toLp 2 x)) (S (WithLp.toLp 2 y)) = star x ⬝ᵥ B *ᵥ y) {κ β : ℝ} (hκ1 : 1 ≤ κ) (hκ : ‖S‖ * ‖S'‖ ≤ κ)
    (hβ : frob B * ‖S'‖ ^ 2 ≤ β) :
    FlQrAcc o (fun x => S (WithLp.toLp 2 (vec x))) fin num finK val finF (max p.u p.v * κ)
      (p.gam n * (2 + p.gam n) * β + p.w * (1 + p.gam n * (2 + p.gam n) * β)) τ := by
  have hm : 0 ≤ max p.u p.v := hp.u.trans (le_max_left _ _)
  have g0 := hp.gam_nonneg n
  have hF : 0 ≤ frob B := Real.sqrt_nonneg _
  have hβ0 : 0 ≤ β := le_trans (by positivity) hβ
  set δ := p.gam n * (2 + p.gam n) * β with hδ
  have hδ0 : 0 ≤ δ := by positivity
  have hmκ : max p.u p.v ≤ max p.u p.v * κ := le_mul_of_one_le_right hm hκ1
  -- relative errors in the weighted norm
  have hrel : ∀ x y : Fin n → 𝕜, ‖(WithLp.toLp 2 x : EuclideanSpace 𝕜 (Fin n))‖ ≤ max p.u p.v * ‖(WithLp.toLp 2 y : EuclideanSpace 𝕜 (Fin n))‖ →
      ‖S (WithLp.toLp 2 x)‖ ≤ max p.u p.v * κ * ‖S (WithLp.toLp 2 y)‖ := by
    intro x y hxy
    have h1 : ‖(WithLp.toLp 2 y : EuclideanSpace 𝕜 (Fin n))‖ ≤ ‖S'‖ * ‖S (WithLp.toLp 2 y)‖ := by
      conv_lhs => rw [← hS (WithLp.toLp 2 y)]
      exact S'.le_opNorm _
    calc ‖S (WithLp.toLp 2 x)‖ ≤ ‖S‖ * ‖(WithLp.toLp 2 x : EuclideanSpace 𝕜 (Fin n))‖ := S.le_opNorm _
      _ ≤ ‖S‖ * (max p.u p.v * (‖S'‖ * ‖S (WithLp.toLp 2 y)‖)) := by gcongr; exact hxy.trans (by gcongr)
      _ = max p.u p.v * (‖S‖ * ‖S'‖) * ‖S (WithLp.toLp 2 y)‖ := by ring
      _ ≤ max p.u p.v * κ * ‖S (WithLp.toLp 2 y)‖ := by gcongr
  have hlow : ∀ x : Fin n → 𝕜, vecNorm x ≤ ‖S'‖ * ‖S (WithLp.toLp 2 x)‖ := by
    intro x
    rw [vecNorm_toLp]
    conv_lhs => rw [← hS (WithLp.toLp 2 x)]
    exact S'.le_opNorm _
  have hip : ∀ {x y : Fin n → 𝕜} {s : 𝕜}, FlDotB p B x y s →
      ‖s - inner 𝕜 (S (WithLp.toLp 2 x)) (S (WithLp.toLp 2 y))‖ ≤ δ * (‖S (WithLp.toLp 2 x)‖ * ‖S (WithLp.toLp 2 y)‖) := by
    intro x y s hs
    rw [hB]
    have hx0 := vecNorm_nonneg x
    have hy0 := vecNorm_nonneg y
    calc ‖s - star x ⬝ᵥ B *ᵥ y‖ ≤ p.gam n * (2 + p.gam n) * frob B * (vecNorm x * vecNorm y) := hs.err hp hη
      _ ≤ p.gam n * (2 + p.gam n) * frob B * ((‖S'‖ * ‖S (WithLp.toLp 2 x)‖) * (‖S'‖ * ‖S (WithLp.toLp 2 y)‖)) := by
        gcongr
        · exact hlow x
        · exact hlow y
      _ = p.gam n * (2 + p.gam n) * (frob B * ‖S'‖ ^ 2) * (‖S (WithLp.toLp 2 x)‖ * ‖S (WithLp.toLp 2 y)‖) := by ring
      _ ≤ δ * (‖S (WithLp.toLp 2 x)‖ * ‖S (WithLp.toLp 2 y)‖) := by rw [hδ]; gcongr
  refine ⟨fun {x y} hz => ?_, fun {c x} hz => ?_, fun {x r} hz hr => ?_, fun {a b} hz => ?_, h.ofReal, h.zero, fun {x y} hz => ?_, fun {x r} hn hr => ?_, h.ge⟩
  · obtain ⟨h1, h2, h3⟩ := h.sub hz
    refine ⟨h1, h2, ?_⟩
    rw [← map_sub, ← map_sub, ← WithLp.toLp_sub, ← WithLp.toLp_sub]
    exact hrel _ _ (norm_toLp_le hm fun i => (h3 i).trans (mul_le_mul_of_nonneg_right (le_max_left _ _) (norm_nonneg _)))
  · obtain ⟨h1, h2, h3⟩ := h.scale hz
    refine ⟨h1, h2, ?_⟩
    rw [← map_smul, ← map_sub, ← WithLp.toLp_smul, ← WithLp.toLp_sub]
    exact hrel _ _ (norm_toLp_le hm fun i => (h3 i).trans (mul_le_mul_of_nonneg_right (le_max_right _ _) (norm_nonneg _)))
  · obtain ⟨h1, h2, h3⟩ := h.sdiv hz hr
    refine ⟨h1, h2, ?_⟩
    rw [← map_smul, ← map_sub, ← WithLp.toLp_smul, ← WithLp.toLp_sub]
    have hr0 : (val r : 𝕜) ≠ 0 := by simpa using h2
    refine hrel _ _ (norm_toLp_le hm fun i => ?_)
    have h4 := mul_le_mul_of_nonneg_left (h3 i) (norm_nonneg (val r : 𝕜))
    rw [← norm_mul, mul_left_comm, ← norm_mul, mul_sub, mul_div_cancel₀ _ hr0] at h4
    exact h4.trans (mul_le_mul_of_nonneg_right (le_max_left _ _) (norm_nonneg _))
  · obtain ⟨h1, h2, h3⟩ := h.acc hz
    exact ⟨h1, h2, h3.trans (mul_le_mul_of_nonneg_right ((le_max_left _ _).trans hmκ) (norm_nonneg _))⟩
  · refine (hip (h.ip hz)).trans (mul_le_mul_of_nonneg_right ?_ (by positivity))
    have := mul_nonneg hp.w (show 0 ≤ 1 + δ by linarith)
    linarith
  · obtain ⟨h1, q, hq, hN⟩ := h.norm hn hr
    refine ⟨h1, ?_⟩
    have h3 := hip hq
    set Y := ‖S (WithLp.toLp 2 (vec x))‖ with hY
    have hY0 : 0 ≤ Y := norm_nonneg _
    set Z := Real.sqrt ‖q‖ with hZ
    have hZ0 : 0 ≤ Z := Real.sqrt_nonneg _
    have hZ2 : Z ^ 2 = ‖q‖ := Real.sq_sqrt (norm_nonneg q)
    have h4 : |Z ^ 2 - Y ^ 2| ≤ δ * Y ^ 2 := by
      have h5 : ‖(inner 𝕜 (S (WithLp.toLp 2 (vec x))) (S (WithLp.toLp 2 (vec x))) : 𝕜)‖ = Y ^ 2 := by
        rw [inner_self_eq_norm_sq_to_K, norm_pow, RCLike.norm_ofReal, abs_of_nonneg (norm_nonneg _)]
      rw [hZ2, ← h5]
      refine (abs_norm_sub_norm_le _ _).trans (h3.trans (le_of_eq ?_))
      rw [h5]
      ring
    have h6 : |Z - Y| ≤ δ * Y := by
      have h7 : |Z ^ 2 - Y ^ 2| = |Z - Y| * (Z + Y) := by
        rw [show Z ^ 2 - Y ^ 2 = (Z - Y) * (Z + Y) by ring, abs_mul, abs_of_nonneg (show 0 ≤ Z + Y by positivity)]
      rw [h7] at h4
      rcases hY0.eq_or_lt with h0 | h0
      · have hZz : Z ^ 2 ≤ 0 := by
          rw [← h0, sub_zero, add_zero, abs_of_nonneg hZ0] at h4
          nlinarith
        have : Z = 0 := by nlinarith
        rw [this, ← h0]
        simp
      · have h8 : |Z - Y| * Y ≤ δ * Y * Y := by
          have : |Z - Y| * Y ≤ |Z - Y| * (Z + Y) := mul_le_mul_of_nonneg_left (by linarith) (abs_nonneg _)
          nlinarith
        exact le_of_mul_le_mul_right h8 h0
    have h7 : Z ≤ (1 + δ) * Y := by
      have := (abs_le.mp h6).2
      linarith
    have h8 := abs_sub_le (val r) Z Y
    have h9 : p.w * Z ≤ p.w * ((1 + δ) * Y) := mul_le_mul_of_nonneg_left h7 hp.w
    calc |val r - Y| ≤ |val r - Z| + |Z - Y| := h8
      _ ≤ p.w * ((1 + δ) * Y) + δ * Y := add_le_add (hN.trans h9) h6
      _ = (δ + p.w * (1 + δ)) * Y := by ring

end

/-! ## Double precision -/

theorem pow_le_of_small {g ε : ℝ} (h1 : 0 ≤ g) (hg : g ≤ 1 + ε) (hε : 0 ≤ ε) (hε1 : ε ≤ 1) {m : ℕ} {c : ℝ} (hm : m * ε ≤ c) (hc : c < 1) : g ^ m ≤ 1 / (1 - c) := by
  have b1 : 1 + (m : ℝ) * (-ε) ≤ (1 + -ε) ^ m := one_add_mul_le_pow (by linarith) m
  have b2 : (1 + ε) ^ m * (1 + -ε) ^ m ≤ 1 := by
    rw [← mul_pow]
    exact pow_le_one₀ (by nlinarith) (by nlinarith)
  have b3 : g ^ m ≤ (1 + ε) ^ m := pow_le_pow_left₀ h1 hg m
  rw [le_div_iff₀ (by linarith)]
  have b4 : 0 ≤ g ^ m := pow_nonneg h1 m
  have b5 : (0 : ℝ) ≤ (1 + -ε) ^ m := pow_nonneg (by linarith) m
  calc g ^ m * (1 - c) ≤ g ^ m * (1 + -ε) ^ m := mul_le_mul_of_nonneg_left (by linarith) b4
    _ ≤ (1 + ε) ^ m * (1 + -ε) ^ m := mul_le_mul_of_nonneg_right b3 b5
    _ ≤ 1 := b2

/-- The bound of `C81_factorisation` in numbers. -/
theorem qrBound_le {u d : ℝ} (hu0 : 0 ≤ u) (hu : u ≤ 1.2 / 10 ^ 10) (hd0 : 0 ≤ d) (hd : d ≤ 2.3 / 10 ^ 5) {reorthos i : ℕ} (hr : reorthos ≤ 1) (hi : i < 1000) :
    qrBound u d reorthos i ≤ 15700 * u := by
  have hm : (reorthos + 1) * i ≤ 2000 := by
    calc (reorthos + 1) * i ≤ 2 * 1000 := Nat.mul_le_mul (by omega) (by omega)
      _ = 2000 := rfl
  have hm' : (((reorthos + 1) * i : ℕ) : ℝ) ≤ 2000 := by exact_mod_cast hm
  have hg : orthoGrow u d ≤ 1 + 4.7 / 10 ^ 5 := by
    unfold orthoGrow
    have h1 : (1 + u) * (1 + 2 * d + 2 * u * (1 + d)) ≤ (1 + 1.2 / 10 ^ 10) * (1 + 2 * (2.3 / 10 ^ 5) + 2 * (1.2 / 10 ^ 10) * (1 + 2.3 / 10 ^ 5)) := by gcongr
    exact h1.trans (by norm_num)
  have hG : qrGrow u d reorthos i ≤ 1.105 := by
    unfold qrGrow
    refine (pow_le_of_small (c := 0.094) (by linarith [one_le_orthoGrow hu0 hd0]) hg (by norm_num) (by norm_num) ?_ (by norm_num)).trans (by norm_num)
    nlinarith
  have hG0 : 0 ≤ qrGrow u d reorthos i := by
    unfold qrGrow
    exact pow_nonneg (by linarith [one_le_orthoGrow hu0 hd0]) _
  unfold qrBound
  set G := qrGrow u d reorthos i
  have hu1 : 0 < 1 - u := by linarith
  have hi1 : 1 / (1 - u) ≤ 1.0001 := by
    rw [div_le_iff₀ hu1]
    linarith
  have hi2 : 1 / (1 - u) ^ 2 ≤ 1.001 := by
    have h1 : 1 / (1 - u) ^ 2 = (1 / (1 - u)) ^ 2 := by rw [div_pow, one_pow]
    rw [h1]
    calc (1 / (1 - u)) ^ 2 ≤ 1.0001 ^ 2 := pow_le_pow_left₀ (by positivity) hi1 2
      _ ≤ 1.001 := by norm_num
  have hr1 : ((reorthos + 1 : ℕ) : ℝ) ≤ 2 := by exact_mod_cast (by omega : reorthos + 1 ≤ 2)
  have hp : (1 + u) ^ (reorthos + 1) ≤ 1.001 := by
    calc (1 + u) ^ (reorthos + 1) ≤ (1 + u) ^ 2 := pow_le_pow_right₀ (by linarith) (by omega)
      _ ≤ (1 + 1.2 / 10 ^ 10) ^ 2 := by gcongr
      _ ≤ 1.001 := by norm_num
  have t1 : 3 * u * G / (1 - u) ^ 2 ≤ 3.32 * u := by
    calc 3 * u * G / (1 - u) ^ 2 = 3 * u * G * (1 / (1 - u) ^ 2) := by ring
      _ ≤ 3 * u * 1.105 * 1.001 := by gcongr
      _ ≤ 3.32 * u := by nlinarith
  have t2 : u * ((reorthos + 1 : ℕ) * ((1 + u) ^ (reorthos + 1) * (2 * (1 + d) * G))) / (1 - u) ≤ 4.43 * u := by
    calc u * ((reorthos + 1 : ℕ) * ((1 + u) ^ (reorthos + 1) * (2 * (1 + d) * G))) / (1 - u) =
        u * ((reorthos + 1 : ℕ) * ((1 + u) ^ (reorthos + 1) * (2 * (1 + d) * G))) * (1 / (1 - u)) := by ring
      _ ≤ u * (2 * (1.001 * (2 * (1 + 2.3 / 10 ^ 5) * 1.105))) * 1.0001 := by gcongr
      _ ≤ 4.43 * u := by nlinarith
  have t3 : 0 ≤ 3 * u * G / (1 - u) ^ 2 + u * ((reorthos + 1 : ℕ) * ((1 + u) ^ (reorthos + 1) * (2 * (1 + d) * G))) / (1 - u) := by positivity
  have t4 : (((reorthos + 1) * i : ℕ) : ℝ) * (3 * u * G / (1 - u) ^ 2 + u * ((reorthos + 1 : ℕ) * ((1 + u) ^ (reorthos + 1) * (2 * (1 + d) * G))) / (1 - u)) ≤
      2000 * (3.32 * u + 4.43 * u) := mul_le_mul hm' (add_le_add t1 t2) t3 (by norm_num)
  have t5 : u * G ≤ u * 1.105 := mul_le_mul_of_nonneg_left hG hu0
  linarith

open Matrix in
/-- C81 in real double precision without underflow, for at most 1000 columns with at most a million rows and at most one reorthogonalisation; `ip_B` is a matrix
`B = S^T S` whose condition number is at most `κ² ≤ 10^12`: the columns of `X - Q R` have `B`-norms of at most `1.75e-12 κ` times those of `X`, plus `1e-15`. -/
theorem C81_double {N : ℕ} (h1 : 1 ≤ N) (hN : N ≤ 1000000) {F K X : Type*} {o : FlQrOps F K X} {vec : X → Fin N → ℝ} {fin : X → Prop} {num : K → ℝ}
    {finK : K → Prop} {val : F → ℝ} {finF : F → Prop} {B : Matrix (Fin N) (Fin N) ℝ} {τ : ℝ} (hc : FlQrComp flDouble o vec fin num finK val finF B τ)
    (hτ0 : 0 ≤ τ) (hτ : τ ≤ 1.0001 / 10 ^ 15) {S S' : EuclideanSpace ℝ (Fin N) →L[ℝ] EuclideanSpace ℝ (Fin N)} (hS : ∀ x, S' (S x) = x)
    (hB : ∀ x y : Fin N → ℝ, inner ℝ (S (WithLp.toLp 2 x)) (S (WithLp.toLp 2 y)) = x ⬝ᵥ B *ᵥ y) {κ : ℝ} (hκ1 : 1 ≤ κ) (hκ : ‖S‖ * ‖S'‖ ≤ κ)
    (hκ2 : κ ≤ 10 ^ 6) (hβ : frob B * ‖S'‖ ^ 2 ≤ 10 ^ 5) {reorthos k : ℕ} (hr : reorthos ≤ 1) (hk : k ≤ 1000) {x Q : ℕ → X} {R : ℕ → ℕ → K}
    (hl : flQrLoop o reorthos x k = .ok (Q, R)) (hf : FlQrFin fin finK k Q R) {i : ℕ} (hi : i < k) :
    ‖S (WithLp.toLp 2 (vec (x i))) - ∑ j ∈ Finset.range k, num (R j i) • S (WithLp.toLp 2 (vec (Q j)))‖ ≤
      1.75 / 10 ^ 12 * κ * ‖S (WithLp.toLp 2 (vec (x i)))‖ + 1.001 / 10 ^ 15 := by
  have hg := flDouble_gam h1 hN
  have g0 := flDouble_nonneg.gam_nonneg N
  have hu : max flDouble.u flDouble.v = 2⁻¹ ^ 53 := by simp [flDouble]
  have hw : flDouble.w = 2⁻¹ ^ 50 := rfl
  have acc := C81_componentwise flDouble_nonneg rfl hc hS (fun x y => by rw [hB]; rfl) hκ1 hκ hβ
  rw [hu, hw] at acc
  set γ := flDouble.gam N
  set d := γ * (2 + γ) * 10 ^ 5 + 2⁻¹ ^ 50 * (1 + γ * (2 + γ) * 10 ^ 5) with hd
  have hd0 : 0 ≤ d := by rw [hd]; positivity
  have hd1 : d ≤ 2.3 / 10 ^ 5 := by
    rw [hd]
    calc γ * (2 + γ) * 10 ^ 5 + 2⁻¹ ^ 50 * (1 + γ * (2 + γ) * 10 ^ 5) ≤
        1.1103 / 10 ^ 10 * (2 + 1.1103 / 10 ^ 10) * 10 ^ 5 + 2⁻¹ ^ 50 * (1 + 1.1103 / 10 ^ 10 * (2 + 1.1103 / 10 ^ 10) * 10 ^ 5) := by gcongr
      _ ≤ 2.3 / 10 ^ 5 := by norm_num
  have hu0 : 0 ≤ (2⁻¹ : ℝ) ^ 53 * κ := by positivity
  have hu1 : (2⁻¹ : ℝ) ^ 53 * κ ≤ 1.2 / 10 ^ 10 := by
    calc (2⁻¹ : ℝ) ^ 53 * κ ≤ 2⁻¹ ^ 53 * 10 ^ 6 := by gcongr
      _ ≤ 1.2 / 10 ^ 10 := by norm_num
  have hud : (1 + (2⁻¹ : ℝ) ^ 53 * κ) ^ 2 ≤ 2 * (1 - d) ^ 2 := by
    have h2 : (1 - 2.3 / 10 ^ 5 : ℝ) ^ 2 ≤ (1 - d) ^ 2 := pow_le_pow_left₀ (by norm_num) (by linarith) 2
    have h3 : (1 + (2⁻¹ : ℝ) ^ 53 * κ) ^ 2 ≤ (1 + 1.2 / 10 ^ 10) ^ 2 := by gcongr
    have h4 : (1 + 1.2 / 10 ^ 10 : ℝ) ^ 2 ≤ 2 * (1 - 2.3 / 10 ^ 5 : ℝ) ^ 2 := by norm_num
    linarith
  have hu2 : (2⁻¹ : ℝ) ^ 53 * κ < 1 := hu1.trans_lt (by norm_num)
  have hd2 : d < 1 := hd1.trans_lt (by norm_num)
  have hτ2 : τ ≤ 1 - d := by
    have h2 : (1.0001 / 10 ^ 15 : ℝ) ≤ 1 - 2.3 / 10 ^ 5 := by norm_num
    linarith
  have hmain := C81_product acc hu0 hu2 hd0 hd2 hud hτ0 hτ2 hl hf hi
  have hb := qrBound_le hu0 hu1 hd0 hd1 hr (i := i) (by omega)
  refine hmain.trans (add_le_add (mul_le_mul_of_nonneg_right (hb.trans ?_) (norm_nonneg _)) ?_)
  · rw [← mul_assoc]
    refine mul_le_mul_of_nonneg_right ?_ (by linarith)
    norm_num
  · rw [div_le_iff₀ (by linarith)]
    have h2 : (1.0001 / 10 ^ 15 : ℝ) ≤ 1.001 / 10 ^ 15 * (1 - 2.3 / 10 ^ 5) := by norm_num
    nlinarith

/-! ## The hypotheses can be met -/

/-- An arithmetic on `ℂ`, as a real vector space of dimension two, whose multiplications with numbers have a relative error of one percent; `none` is NaN. -/
noncomputable def roundQr : FlQrOps ℝ ℝ (Option ℂ) where
  sub := roundArn.sub
  scale := roundArn.scale
  sdiv := roundArn.sdiv
  ip := roundArn.ip
  acc := roundArn.acc
  zero := 0
  ofReal := id
  norm x := roundArn.norm x none
  ge r := decide ((1e-15 : ℝ) ≤ r)

theorem roundQr_acc : FlQrAcc (𝕜 := ℝ) roundQr (fun x => x.getD 0) (fun x => x.isSome = true) id (fun _ => True) id (fun _ => True) (1 / 100) 0 1e-15 where
  sub := roundArn_vec.sub
  scale := roundArn_vec.scale
  sdiv := roundArn_vec.sdiv
  acc := roundArn_vec.acc
  ofReal := roundArn_vec.ofReal
  zero := rfl
  ip := roundArn_ip.ip
  norm h hf := ⟨(roundArn_ip.norm (y := none) h hf).1, (roundArn_ip.norm (y := none) h hf).2 rfl⟩
  ge _ := by simp [roundQr]

/-- The columns `1` and `1 + i`. -/
noncomputable def roundX : ℕ → Option ℂ := fun j => if j = 0 then some 1 else some ((1 + Complex.I) * 1)

/-- The result of `qr`. -/
noncomputable def roundQ : ℕ → Option ℂ := Function.update (Function.update roundX 0 (some 1)) 1 (some ((‖roundW‖⁻¹ : ℝ) • roundW))

/-- The result of `qr`. -/
noncomputable def roundR : ℕ → ℕ → ℝ := fun a b =>
  if b = 1 then Function.update (Function.update (fun _ => (0 : ℝ)) 0 1) 1 ‖roundW‖ a else if b = 0 then Function.update (fun _ => (0 : ℝ)) 0 1 a else 0

/-- The hypotheses of `C81_factorisation` hold in this arithmetic for two columns; the result is finite, and the columns of `Q` are not orthogonal. -/
example : flQrLoop roundQr 0 roundX 2 = .ok (roundQ, roundR) ∧ FlQrFin (fun x => x.isSome = true) (fun _ : ℝ => True) 2 roundQ roundR ∧
    (1 + (1 / 100 : ℝ)) ^ 2 ≤ 2 * (1 - 0) ^ 2 ∧ inner ℝ ((roundQ 0).getD 0) ((roundQ 1).getD 0) ≠ 0 := by
  have hw0 : 1 ≤ ‖roundW‖ := by
    have := Complex.abs_im_le_norm roundW
    simpa [roundW] using this
  have hn := roundW_ne
  have h0 : flQrCol roundQr 0 0 roundX (fun _ _ => 0) = .ok (Function.update roundX 0 (some 1), fun a b => if b = 0 then Function.update (fun _ => (0 : ℝ)) 0 1 a else 0) := by
    unfold flQrCol
    have hl : flQrList 0 0 = [] := by decide
    rw [hl]
    have hx : roundX 0 = some 1 := rfl
    have hge : (1e-15 : ℝ) ≤ 1 := by norm_num
    simp [hx, roundQr, roundArn, hge]
  have hx1 : roundX 1 = some ((1 + Complex.I) * 1) := rfl
  have hip : roundQr.ip (some 1) (some ((1 + Complex.I) * 1)) = 1 := by
    simp [roundQr, roundArn, Complex.inner]
  have h1 : flQrCol roundQr 0 1 (Function.update roundX 0 (some 1)) (fun a b => if b = 0 then Function.update (fun _ => (0 : ℝ)) 0 1 a else 0) = .ok (roundQ, roundR) := by
    unfold flQrCol
    have hl : flQrList 0 1 = [0] := by decide
    rw [hl, List.foldl_cons, List.foldl_nil]
    have hst : flQrStep roundQr (Function.update roundX 0 (some 1)) (Function.update roundX 0 (some 1) 1,
        fun j => if (1 : ℕ) = 0 then Function.update (fun _ => (0 : ℝ)) 0 1 j else 0) 0 = (some roundW, Function.update (fun _ => (0 : ℝ)) 0 1) := by
      unfold flQrStep
      rw [Function.update_of_ne (show (1 : ℕ) ≠ 0 by decide), Function.update_self, hx1]
      dsimp only
      rw [hip]
      simp [roundQr, roundArn, roundW]
    dsimp only
    rw [hst]
    have hge : (1e-15 : ℝ) ≤ ‖roundW‖ := le_trans (by norm_num) hw0
    have hnorm : roundQr.norm (some roundW) = .ok ‖roundW‖ := rfl
    have hdiv : roundQr.sdiv (some roundW) ‖roundW‖ = some ((‖roundW‖⁻¹ : ℝ) • roundW) := by simp [roundQr, roundArn, hn]
    have hgeb : roundQr.ge ‖roundW‖ = true := by simp only [roundQr, decide_eq_true_eq]; exact hge
    dsimp only
    rw [hnorm]
    dsimp only
    rw [hgeb, if_pos rfl, hdiv]
    rfl
  refine ⟨?_, ⟨fun j hj => ?_, fun _ _ _ _ => trivial⟩, by norm_num, ?_⟩
  · rw [flQrLoop, flQrLoop, flQrLoop]
    dsimp only
    have hz : (fun _ _ => roundQr.zero : ℕ → ℕ → ℝ) = fun _ _ => 0 := rfl
    rw [hz, h0]
    exact h1
  · have : j = 0 ∨ j = 1 := by omega
    rcases this with rfl | rfl <;> simp [roundQ]
  · have := roundArn1_oblique
    simpa [roundArn1, roundQ] using this

open Matrix in
/-- Real arithmetic with `NaN` (`none`) whose multiplications with numbers are wrong by a factor `1 + 2^-53`. -/
noncomputable def doubleQr {N : ℕ} (B : Matrix (Fin N) (Fin N) ℝ) : FlQrOps ℝ ℝ (Option (Fin N → ℝ)) where
  sub x y := x.bind fun a => y.map fun b => a - b
  scale c x := x.map fun a => ((1 + 2⁻¹ ^ 53) * c) • a
  sdiv x r := if r = 0 then none else x.map fun a => r⁻¹ • a
  ip x y := star (x.getD 0) ⬝ᵥ B *ᵥ (y.getD 0)
  acc := (· + ·)
  zero := 0
  ofReal := id
  norm x := match x with
    | none => .error .nonFinite
    | some a => .ok (Real.sqrt |star a ⬝ᵥ B *ᵥ a|)
  ge r := decide ((1e-15 : ℝ) ≤ r)

open Matrix in
theorem doubleQr_comp {N : ℕ} (B : Matrix (Fin N) (Fin N) ℝ) :
    FlQrComp (𝕜 := ℝ) flDouble (doubleQr B) (fun x => x.getD 0) (fun x => x.isSome = true) id (fun _ => True) id (fun _ => True) B 1e-15 where
  sub {x y} h := by
    cases x <;> cases y <;> simp [doubleQr] at h ⊢
    exact fun i => mul_nonneg flDouble_nonneg.u (abs_nonneg _)
  scale {c x} h := by
    cases x with
    | none => simp [doubleQr] at h
    | some a =>
      refine ⟨trivial, rfl, fun i => ?_⟩
      simp only [doubleQr, Option.map_some, Option.getD_some, id, Pi.smul_apply, smul_eq_mul]
      rw [show (1 + 2⁻¹ ^ 53) * c * a i - c * a i = 2⁻¹ ^ 53 * (c * a i) by ring, norm_mul]
      simp [flDouble]
  sdiv {x r} h _ := by
    by_cases hr : r = 0
    · simp [doubleQr, hr] at h
    · cases x with
      | none => simp [doubleQr, hr] at h
      | some a =>
        refine ⟨rfl, hr, fun i => ?_⟩
        have : (doubleQr B).sdiv (some a) r = some (r⁻¹ • a) := by simp [doubleQr, hr]
        rw [this]
        simp only [Option.getD_some, Pi.smul_apply, smul_eq_mul, id, div_eq_inv_mul, RCLike.ofReal_real_eq_id, sub_self, norm_zero]
        exact mul_nonneg flDouble_nonneg.u (norm_nonneg _)
  acc _ := ⟨trivial, trivial, by
    simp only [doubleQr, id, sub_self, norm_zero]
    exact mul_nonneg flDouble_nonneg.u (norm_nonneg _)⟩
  ofReal _ := ⟨trivial, rfl⟩
  zero := rfl
  ip _ := ⟨_, fun _ => FlDot.exact flDouble_nonneg _ _, FlDot.exact flDouble_nonneg _ _⟩
  norm {x r} h _ := by
    cases x with
    | none => cases h
    | some a =>
      obtain rfl := Except.ok.inj h
      refine ⟨rfl, _, ⟨_, fun _ => FlDot.exact flDouble_nonneg _ _, FlDot.exact flDouble_nonneg _ _⟩, ?_⟩
      have : |id (Real.sqrt |star a ⬝ᵥ B *ᵥ a|) - Real.sqrt ‖star a ⬝ᵥ B *ᵥ a‖| = 0 := by simp
      refine (le_of_eq this).trans (mul_nonneg flDouble_nonneg.w (Real.sqrt_nonneg _))
  ge _ := by simp [doubleQr]

open Matrix in
/-- The hypotheses of `C81_double` can be met: `B = 4 I`, `S = 2 I`, one column. -/
example : ∃ (S S' : EuclideanSpace ℝ (Fin 2) →L[ℝ] EuclideanSpace ℝ (Fin 2)) (Q : ℕ → Option (Fin 2 → ℝ)) (R : ℕ → ℕ → ℝ),
    (∀ x, S' (S x) = x) ∧ (∀ x y : Fin 2 → ℝ, inner ℝ (S (WithLp.toLp 2 x)) (S (WithLp.toLp 2 y)) = x ⬝ᵥ ((4 : ℝ) • (1 : Matrix (Fin 2) (Fin 2) ℝ)) *ᵥ y) ∧
    ‖S‖ * ‖S'‖ ≤ 1 ∧ frob ((4 : ℝ) • (1 : Matrix (Fin 2) (Fin 2) ℝ)) * ‖S'‖ ^ 2 ≤ 10 ^ 5 ∧
    flQrLoop (doubleQr ((4 : ℝ) • (1 : Matrix (Fin 2) (Fin 2) ℝ))) 1 (fun _ => some ![1, 0]) 1 = .ok (Q, R) ∧
    FlQrFin (fun x => x.isSome = true) (fun _ : ℝ => True) 1 Q R := by
  have hid : ‖ContinuousLinearMap.id ℝ (EuclideanSpace ℝ (Fin 2))‖ = 1 := ContinuousLinearMap.norm_id
  have h1 : ‖(2 : ℝ) • ContinuousLinearMap.id ℝ (EuclideanSpace ℝ (Fin 2))‖ = 2 := by rw [norm_smul, hid]; norm_num
  have h2 : ‖(2⁻¹ : ℝ) • ContinuousLinearMap.id ℝ (EuclideanSpace ℝ (Fin 2))‖ = 2⁻¹ := by rw [norm_smul, hid]; norm_num
  have hn : (doubleQr ((4 : ℝ) • (1 : Matrix (Fin 2) (Fin 2) ℝ))).norm (some ![1, 0]) = .ok 2 := by
    have : star ![(1 : ℝ), 0] ⬝ᵥ ((4 : ℝ) • (1 : Matrix (Fin 2) (Fin 2) ℝ)) *ᵥ ![1, 0] = 2 ^ 2 := by
      rw [smul_mulVec, one_mulVec]
      simp [dotProduct, Fin.sum_univ_two]
      norm_num
    simp only [doubleQr, this, abs_of_nonneg (show (0 : ℝ) ≤ 2 ^ 2 by norm_num)]
    rw [Real.sqrt_sq (by norm_num)]
  have hge : (doubleQr ((4 : ℝ) • (1 : Matrix (Fin 2) (Fin 2) ℝ))).ge 2 = true := by
    simp only [doubleQr, decide_eq_true_eq]
    norm_num
  refine ⟨(2 : ℝ) • ContinuousLinearMap.id ℝ _, (2⁻¹ : ℝ) • ContinuousLinearMap.id ℝ _, Function.update (fun _ => some ![1, 0]) 0 (some ((2 : ℝ)⁻¹ • ![1, 0])),
    fun a b => if b = 0 then Function.update (fun _ => (0 : ℝ)) 0 2 a else 0, fun x => ?_, fun x y => ?_, ?_, ?_, ?_, ⟨fun j hj => ?_, fun _ _ _ _ => trivial⟩⟩
  · simp
  · rw [smul_mulVec, one_mulVec]
    simp only [_root_.smul_apply, ContinuousLinearMap.id_apply, inner_smul_left, inner_smul_right, EuclideanSpace.inner_toLp_toLp]
    rw [dotProduct_comm]
    simp [dotProduct, Fin.sum_univ_two]
    ring
  · rw [h1, h2]
    norm_num
  · rw [h2]
    have : frob ((4 : ℝ) • (1 : Matrix (Fin 2) (Fin 2) ℝ)) ≤ 6 := by
      unfold frob
      rw [Real.sqrt_le_left (by norm_num)]
      simp [Matrix.one_apply]
      norm_num
    nlinarith
  · rw [flQrLoop, flQrLoop]
    dsimp only
    unfold flQrCol
    have hl : flQrList 1 0 = [] := by decide
    rw [hl, List.foldl_nil]
    dsimp only
    rw [hn]
    dsimp only
    rw [hge, if_pos rfl]
    have : (doubleQr ((4 : ℝ) • (1 : Matrix (Fin 2) (Fin 2) ℝ))).sdiv (some ![1, 0]) 2 = some ((2 : ℝ)⁻¹ • ![1, 0]) := by simp [doubleQr]
    rw [this]
    rfl
  · have : j = 0 := by omega
    subst this
    simp

end Krypy
