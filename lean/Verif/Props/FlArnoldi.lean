import Verif.Model.FlArnoldi
import Verif.Props.FlCg
import Verif.Props.Arnoldi
import Mathlib.Analysis.InnerProductSpace.Basic
import Mathlib.Algebra.Order.Chebyshev
import Mathlib.Analysis.Complex.Basic

/-!
# Property C79: the Arnoldi relation with rounding errors

`flArnoldi` is `utils.arnoldi` over arbitrary operations; with exact operations it is the exact model (`C79_refines`).  If the vector operations have
small errors, then the Arnoldi relation `A V_n = V_{n+1} H_n` holds up to small errors although the basis may have lost its orthogonality completely
(`C79_column` for all variants and with `M`, `C79_relation` with an a priori bound for `mgs`, `dmgs`, Euclidean inner product).
-/

set_option linter.unusedSectionVars false

namespace Krypy

/-! ## Refinement -/

section
variable {𝕜 E : Type*} [RCLike 𝕜] [AddCommGroup E] [Module 𝕜 E]

/-- Exact operations. -/
noncomputable def exactArn (c : ArnCfg 𝕜 E) : FlArnOps ℝ 𝕜 E where
  A := c.A
  M := c.M.map fun M => M
  sub := (· - ·)
  scale a x := a • x
  sdiv x r := ((r : 𝕜)⁻¹) • x
  ip := c.ip
  re a := ((RCLike.re a : ℝ) : 𝕜)
  acc := (· + ·)
  zero := 0
  ofReal r := r
  norm x y := npNorm (c.ip x (y.getD x))
  tiny H m n r := decide (r / specNorm H m n ≤ 1e-14)
  pos r := decide (0 < r)

/-- The same attributes. -/
def Arn.toFl (s : Arn 𝕜 E) : FlArn ℝ 𝕜 E := ⟨s.iter, s.V, s.P, s.H, s.invariant, s.vnorm⟩

theorem orthoPasses_eq (c : ArnCfg 𝕜 E) (V P : ℕ → E) (start k n : ℕ) (st : E × (ℕ → 𝕜)) :
    orthoPasses c V P start k n st = ((List.replicate (n + 1) (List.range' start (k + 1 - start))).flatten).foldl (orthoStep c V P) st := by
  induction n generalizing st with
  | zero => simp [orthoPasses, orthoPass]
  | succ n ih =>
    rw [orthoPasses, ih, List.replicate_succ (n := n + 1), List.flatten_cons, List.foldl_append]
    rfl

theorem flOrthogonalise_exact (c : ArnCfg 𝕜 E) (s : Arn 𝕜 E) :
    (flOrthoList c.ortho s.iter).foldl (flOrthoStep (exactArn c) c.ortho s.V s.P) (flOrthoStart (exactArn c) c.ortho s.toFl) = orthogonalise c s := by
  have hst : flOrthoStep (exactArn c) c.ortho s.V s.P = orthoStep c s.V s.P := rfl
  rw [hst]
  unfold orthogonalise flOrthoStart flOrthoList
  by_cases h : c.ortho = .lanczos
  · by_cases h0 : 0 < s.iter
    · simp only [h, if_true, true_and, h0, orthoPasses_eq, Arn.toFl]
      rfl
    · simp only [h, if_true, true_and, h0, if_false, orthoPasses_eq, Arn.toFl]
      rfl
  · simp only [h, if_false, false_and, orthoPasses_eq, Arn.toFl]
    rfl

theorem flArnAdvance_exact {c : ArnCfg 𝕜 E} {s s' : Arn 𝕜 E} (h : arnAdvance c s = .ok s') :
    flArnAdvance (exactArn c) c.ortho c.maxiter s.toFl = .ok s'.toFl := by
  unfold arnAdvance at h
  unfold flArnAdvance
  have e := flOrthogonalise_exact c s
  dsimp only at h ⊢
  have e1 : s.toFl.iter = s.iter := rfl
  have e2 : s.toFl.V = s.V := rfl
  have e3 : s.toFl.P = s.P := rfl
  have e4 : s.toFl.invariant = s.invariant := rfl
  rw [e1, e2, e3, e4, e]
  have hM : ((exactArn c).M.map fun M => M (orthogonalise c s).1).getD (orthogonalise c s).1 = c.Mop (orthogonalise c s).1 := by
    unfold ArnCfg.Mop exactArn
    cases c.M <;> rfl
  have hn : (exactArn c).norm (orthogonalise c s).1 ((exactArn c).M.map fun M => M (orthogonalise c s).1) =
      npNorm (c.ip (orthogonalise c s).1 (c.Mop (orthogonalise c s).1)) := by
    rw [← hM]; rfl
  rw [hn]
  rcases ite_eq_iff.mp h with ⟨-, h⟩ | ⟨g1, h⟩
  · cases h
  rw [if_neg g1]
  rcases ite_eq_iff.mp h with ⟨-, h⟩ | ⟨g2, h⟩
  · cases h
  rw [if_neg g2]
  cases hr : npNorm (c.ip (orthogonalise c s).1 (c.Mop (orthogonalise c s).1)) with
  | error e => rw [hr] at h; cases h
  | ok r =>
    rw [hr] at h
    dsimp only at h ⊢
    rcases ite_eq_iff.mp h with ⟨-, h⟩ | ⟨-, h⟩
    · cases h
    rw [hM]
    rcases ite_eq_iff.mp h with ⟨g3, h⟩ | ⟨g3, h⟩
    · obtain rfl := Except.ok.inj h
      exact if_pos (decide_eq_true g3)
    · obtain rfl := Except.ok.inj h
      exact if_neg fun g => g3 (of_decide_eq_true g)

theorem flArnInit_exact {c : ArnCfg 𝕜 E} {v : E} {Mv : Option E} {MvNorm : Option ℝ} {s : Arn 𝕜 E} (hs : arnInit c v Mv MvNorm = .ok s) :
    flArnInit (exactArn c) v Mv MvNorm = .ok s.toFl := by
  unfold arnInit at hs
  unfold flArnInit
  dsimp only at hs ⊢
  have hw : flStartV (exactArn c) v Mv = startV c v Mv := by
    unfold flStartV startV exactArn
    cases c.M <;> rfl
  rw [hw]
  have hn : flStartNorm (exactArn c) v (startV c v Mv) MvNorm = startNorm c v (startV c v Mv) MvNorm := by
    cases MvNorm with
    | some r => rfl
    | none =>
      unfold flStartNorm startNorm startV exactArn
      cases c.M <;> rfl
  rw [hn]
  cases hr : startNorm c v (startV c v Mv) MvNorm with
  | error e => rw [hr] at hs; cases hs
  | ok r =>
    rw [hr] at hs
    dsimp only at hs ⊢
    rcases ite_eq_iff.mp hs with ⟨g, hs⟩ | ⟨g, hs⟩
    · obtain rfl := Except.ok.inj hs
      exact if_pos (decide_eq_true g)
    · obtain rfl := Except.ok.inj hs
      exact if_neg fun g' => g (of_decide_eq_true g')

/-- C79: with exact operations `flArnoldi` is the exact model of `arnoldi`. -/
theorem C79_refines {c : ArnCfg 𝕜 E} {v : E} {Mv : Option E} {MvNorm : Option ℝ} {s : Arn 𝕜 E} (h : arnoldi c v Mv MvNorm = .ok s) :
    flArnoldi (exactArn c) c.ortho c.maxiter v Mv MvNorm = .ok s.toFl := by
  have hloop : ∀ n (s s' : Arn 𝕜 E), arnLoop c n s = .ok s' → flArnLoop (exactArn c) c.ortho c.maxiter n s.toFl = .ok s'.toFl := by
    intro n
    induction n with
    | zero =>
      intro s s' h
      unfold arnLoop at h
      unfold flArnLoop
      rcases ite_eq_iff.mp h with ⟨-, h⟩ | ⟨g, h⟩
      · cases h
      · rw [if_neg (show ¬ (s.toFl.iter < c.maxiter ∧ s.toFl.invariant = false) from g), Except.ok.inj h]
    | succ n ih =>
      intro s s' h
      unfold arnLoop at h
      unfold flArnLoop
      rcases ite_eq_iff.mp h with ⟨g, h⟩ | ⟨g, h⟩
      · rw [if_pos (show s.toFl.iter < c.maxiter ∧ s.toFl.invariant = false from g)]
        dsimp only at h ⊢
        cases ha : arnAdvance c s with
        | error e => rw [ha] at h; cases h
        | ok s1 =>
          rw [ha] at h
          rw [flArnAdvance_exact ha]
          exact ih s1 s' h
      · rw [if_neg (show ¬ (s.toFl.iter < c.maxiter ∧ s.toFl.invariant = false) from g), Except.ok.inj h]
  unfold arnoldi at h
  unfold flArnoldi
  cases hi : arnInit c v Mv MvNorm with
  | error e => rw [hi] at h; cases h
  | ok s1 =>
    rw [hi] at h
    rw [flArnInit_exact hi]
    exact hloop _ _ _ h

end

/-! ## Error bounds -/

section
variable {𝕜 E : Type*} [RCLike 𝕜] [NormedAddCommGroup E] [NormedSpace 𝕜 E] {F K X : Type*}

/-- Vector operations with errors.  `vec`, `num`, `val` are the vectors and numbers represented by arrays and floats, `fin`, `finK`, `finF` say that they
are finite.  Sums, differences, multiples and quotients have relative errors of at most `u`, products with the operator of at most `e‖x‖`. -/
structure FlArnVec (o : FlArnOps F K X) (vec : X → E) (fin : X → Prop) (num : K → 𝕜) (finK : K → Prop) (val : F → ℝ) (finF : F → Prop)
    (B : E →L[𝕜] E) (u e : ℝ) : Prop where
  sub : ∀ {x y}, fin (o.sub x y) → fin x ∧ fin y ∧ ‖vec (o.sub x y) - (vec x - vec y)‖ ≤ u * ‖vec x - vec y‖
  scale : ∀ {c x}, fin (o.scale c x) → finK c ∧ fin x ∧ ‖vec (o.scale c x) - num c • vec x‖ ≤ u * ‖num c • vec x‖
  sdiv : ∀ {x r}, fin (o.sdiv x r) → finF r → fin x ∧ val r ≠ 0 ∧ ‖(val r : 𝕜) • vec (o.sdiv x r) - vec x‖ ≤ u * ‖vec x‖
  A : ∀ {x}, fin (o.A x) → fin x ∧ ‖vec (o.A x) - B (vec x)‖ ≤ e * ‖vec x‖
  acc : ∀ {a b}, finK (o.acc a b) → finK a ∧ finK b ∧ ‖num (o.acc a b) - (num a + num b)‖ ≤ u * ‖num a + num b‖
  ofReal : ∀ {r}, finK (o.ofReal r) → finF r ∧ num (o.ofReal r) = (val r : 𝕜)
  zero : num o.zero = 0

variable {o : FlArnOps F K X} {vec : X → E} {fin : X → Prop} {num : K → 𝕜} {finK : K → Prop} {val : F → ℝ} {finF : F → Prop} {B : E →L[𝕜] E} {u e : ℝ}

/-- `w - a p` with errors. -/
theorem sub_scale_err (hv : FlArnVec o vec fin num finK val finF B u e) (hu0 : 0 ≤ u) (hu : u < 1) {w p : X} {c : K} (h : fin (o.sub w (o.scale c p))) {W : ℝ}
    (h1 : ‖vec w‖ ≤ W) (h2 : ‖vec (o.sub w (o.scale c p))‖ ≤ W) :
    ‖vec (o.sub w (o.scale c p)) - (vec w - num c • vec p)‖ ≤ 3 * u * W / (1 - u) ^ 2 := by
  obtain ⟨-, f2, b1⟩ := hv.sub h
  obtain ⟨-, -, b2⟩ := hv.scale f2
  have d0 : 0 < 1 - u := by linarith
  have W0 : 0 ≤ W := (norm_nonneg _).trans h1
  obtain ⟨a1, a2⟩ := rel_back hu0 hu b1
  obtain ⟨-, a4⟩ := rel_back hu0 hu b2
  have WW : W ≤ W / (1 - u) := by rw [le_div_iff₀ d0]; nlinarith
  have rd : ‖vec w - vec (o.scale c p)‖ ≤ W / (1 - u) := a1.trans (by gcongr)
  have t1 : ‖vec (o.scale c p)‖ ≤ 2 * (W / (1 - u)) := by
    have := norm_sub_le (vec w) (vec w - vec (o.scale c p))
    rw [sub_sub_cancel] at this
    linarith
  have e1 : ‖vec (o.sub w (o.scale c p)) - (vec w - vec (o.scale c p))‖ ≤ u * (W / (1 - u)) :=
    a2.trans (le_trans (mul_le_mul_of_nonneg_left h2 (div_nonneg hu0 d0.le)) (le_of_eq (by ring)))
  have e2 : ‖vec (o.scale c p) - num c • vec p‖ ≤ 2 * (u * (W / (1 - u)) / (1 - u)) :=
    a4.trans (le_trans (mul_le_mul_of_nonneg_left t1 (div_nonneg hu0 d0.le)) (le_of_eq (by ring)))
  have key : vec (o.sub w (o.scale c p)) - (vec w - num c • vec p) =
      (vec (o.sub w (o.scale c p)) - (vec w - vec (o.scale c p))) - (vec (o.scale c p) - num c • vec p) := by abel
  rw [key]
  refine (norm_sub_le _ _).trans ?_
  have g : u * (W / (1 - u)) ≤ u * (W / (1 - u)) / (1 - u) := by
    rw [le_div_iff₀ d0]
    have : 0 ≤ u * (W / (1 - u)) := by positivity
    nlinarith
  have fin : 3 * u * W / (1 - u) ^ 2 = 3 * (u * (W / (1 - u)) / (1 - u)) := by
    field_simp
  rw [fin]
  linarith

/-- The quantity which the orthogonalisation leaves unchanged in exact arithmetic: `Av + Σ_j H[j,k] p_j`. -/
def orthoSum (vec : X → E) (num : K → 𝕜) (P : ℕ → X) (k : ℕ) (st : X × (ℕ → K)) : E :=
  vec st.1 + ∑ j ∈ Finset.range (k + 1), num (st.2 j) • vec (P j)

/-- One step of the inner loop. -/
theorem orthoSum_step (hv : FlArnVec o vec fin num finK val finF B u e) (hu0 : 0 ≤ u) (hu : u < 1) {ortho : Ortho} {V P : ℕ → X} {st : X × (ℕ → K)} {j k : ℕ}
    (hj : j ≤ k) {W D : ℝ} (h1 : ‖vec st.1‖ ≤ W) (h2 : fin (flOrthoStep o ortho V P st j).1) (h3 : ‖vec (flOrthoStep o ortho V P st j).1‖ ≤ W)
    (h4 : finK ((flOrthoStep o ortho V P st j).2 j)) (h5 : ‖num ((flOrthoStep o ortho V P st j).2 j) • vec (P j)‖ ≤ D) :
    ‖orthoSum vec num P k (flOrthoStep o ortho V P st j) - orthoSum vec num P k st‖ ≤ 3 * u * W / (1 - u) ^ 2 + u * D / (1 - u) := by
  set alpha : K := if ortho = .lanczos then o.re (o.ip (V j) st.1) else o.ip (V j) st.1 with ha
  have hs : flOrthoStep o ortho V P st j = (o.sub st.1 (o.scale alpha (P j)), Function.update st.2 j (o.acc (st.2 j) alpha)) := rfl
  rw [hs] at h2 h3 h4 h5 ⊢
  simp only [Function.update_self] at h4 h5
  have e1 := sub_scale_err hv hu0 hu h2 h1 h3
  obtain ⟨-, -, b⟩ := hv.acc h4
  have d0 : 0 < 1 - u := by linarith
  have e2 : ‖(num (o.acc (st.2 j) alpha) - (num (st.2 j) + num alpha)) • vec (P j)‖ ≤ u * D / (1 - u) := by
    obtain ⟨-, b2⟩ := rel_back hu0 hu b
    rw [norm_smul]
    refine (mul_le_mul_of_nonneg_right b2 (norm_nonneg _)).trans ?_
    rw [norm_smul] at h5
    have := mul_le_mul_of_nonneg_left h5 (div_nonneg hu0 d0.le)
    rw [mul_assoc, mul_div_right_comm]
    exact this
  have key : orthoSum vec num P k (o.sub st.1 (o.scale alpha (P j)), Function.update st.2 j (o.acc (st.2 j) alpha)) - orthoSum vec num P k st =
      (vec (o.sub st.1 (o.scale alpha (P j))) - (vec st.1 - num alpha • vec (P j))) +
        (num (o.acc (st.2 j) alpha) - (num (st.2 j) + num alpha)) • vec (P j) := by
    unfold orthoSum
    have hsum : ∑ i ∈ Finset.range (k + 1), num (Function.update st.2 j (o.acc (st.2 j) alpha) i) • vec (P i) =
        (∑ i ∈ Finset.range (k + 1), num (st.2 i) • vec (P i)) + (num (o.acc (st.2 j) alpha) - num (st.2 j)) • vec (P j) := by
      have hm : j ∈ Finset.range (k + 1) := Finset.mem_range.mpr (by omega)
      rw [← Finset.add_sum_erase _ _ hm, ← Finset.add_sum_erase (a := j) _ (fun i => num (st.2 i) • vec (P i)) hm, Function.update_self]
      have : ∀ i ∈ (Finset.range (k + 1)).erase j, num (Function.update st.2 j (o.acc (st.2 j) alpha) i) • vec (P i) = num (st.2 i) • vec (P i) :=
        fun i hi => by rw [Function.update_of_ne (Finset.ne_of_mem_erase hi)]
      rw [Finset.sum_congr rfl this]
      module
    dsimp only
    rw [hsum]
    module
  rw [key]
  exact (norm_add_le _ _).trans (add_le_add e1 e2)

/-- The loops over a list of indices; `W` bounds the intermediate vectors and `D` the intermediate terms. -/
theorem orthoSum_fold (hv : FlArnVec o vec fin num finK val finF B u e) (hu0 : 0 ≤ u) (hu : u < 1) {ortho : Ortho} {V P : ℕ → X} {k : ℕ} {W D : ℝ}
    (js : List ℕ) (hjs : ∀ j ∈ js, j ≤ k) (st : X × (ℕ → K))
    (h1 : ∀ i ≤ js.length, ‖vec ((js.take i).foldl (flOrthoStep o ortho V P) st).1‖ ≤ W) (h2 : fin (js.foldl (flOrthoStep o ortho V P) st).1)
    (h3 : ∀ j ∈ js, finK ((js.foldl (flOrthoStep o ortho V P) st).2 j))
    (h4 : ∀ i ≤ js.length, ∀ j ∈ js, ‖num (((js.take i).foldl (flOrthoStep o ortho V P) st).2 j) • vec (P j)‖ ≤ D) :
    ‖orthoSum vec num P k (js.foldl (flOrthoStep o ortho V P) st) - orthoSum vec num P k st‖ ≤
      js.length * (3 * u * W / (1 - u) ^ 2 + u * D / (1 - u)) := by
  induction js using List.reverseRecOn with
  | nil => simp
  | append_singleton js j ih =>
    rw [List.foldl_append, List.foldl_cons, List.foldl_nil] at h2 h3 ⊢
    have hj : j ≤ k := hjs j (by simp)
    have ht : ∀ i ≤ js.length, (js ++ [j]).take i = js.take i := fun i hi => List.take_append_of_le_length hi
    have hlast : (js ++ [j]).take (js.length + 1) = js ++ [j] := by
      rw [List.take_of_length_le (by simp)]
    have hW := h1 js.length (by simp)
    rw [ht _ le_rfl, List.take_length] at hW
    have hW' := h1 (js.length + 1) (by simp)
    rw [hlast, List.foldl_append, List.foldl_cons, List.foldl_nil] at hW'
    have hD' := h4 (js.length + 1) (by simp) j (by simp)
    rw [hlast, List.foldl_append, List.foldl_cons, List.foldl_nil] at hD'
    have step := orthoSum_step hv hu0 hu hj hW h2 hW' (h3 j (by simp)) hD'
    have hf : fin (js.foldl (flOrthoStep o ortho V P) st).1 := (hv.sub h2).1
    have hfk : ∀ i ∈ js, finK ((js.foldl (flOrthoStep o ortho V P) st).2 i) := by
      intro i hi
      have := h3 i (by simp [hi])
      by_cases hij : i = j
      · subst hij
        change finK (Function.update (js.foldl (flOrthoStep o ortho V P) st).2 i _ i) at this
        rw [Function.update_self] at this
        exact (hv.acc this).1
      · change finK (Function.update (js.foldl (flOrthoStep o ortho V P) st).2 j _ i) at this
        rwa [Function.update_of_ne hij] at this
    have := ih (fun i hi => hjs i (by simp [hi])) (fun i hi => by
        have := h1 i (by simp; omega)
        rwa [ht i hi] at this) hf hfk (fun i hi l hl => by
        have := h4 i (by simp; omega) l (by simp [hl])
        rwa [ht i hi] at this)
    have key : ∀ a b c : E, a - c = (a - b) + (b - c) := fun a b c => by abel
    rw [key _ (orthoSum vec num P k (js.foldl (flOrthoStep o ortho V P) st))]
    refine (norm_add_le _ _).trans ((add_le_add step this).trans (le_of_eq ?_))
    rw [List.length_append, List.length_singleton]
    push_cast
    ring

/-- The first vector of the fold. -/
theorem orthoSum_start (hv : FlArnVec o vec fin num finK val finF B u e) (hu0 : 0 ≤ u) (hu : u < 1) {ortho : Ortho} {s : FlArn F K X}
    (hz : ∀ j ≤ s.iter, num (s.H j s.iter) = 0) (hf : fin (flOrthoStart o ortho s).1) {W : ℝ} (h1 : ‖vec (o.A (s.V s.iter))‖ ≤ W)
    (h2 : ‖vec (flOrthoStart o ortho s).1‖ ≤ W) :
    ‖orthoSum vec num s.P s.iter (flOrthoStart o ortho s) - vec (o.A (s.V s.iter))‖ ≤ 3 * u * W / (1 - u) ^ 2 ∧ fin (o.A (s.V s.iter)) := by
  unfold flOrthoStart at hf h2 ⊢
  dsimp only at hf h2 ⊢
  have W0 : 0 ≤ W := (norm_nonneg _).trans h1
  split_ifs at hf h2 ⊢ with hl
  · refine ⟨?_, (hv.sub hf).1⟩
    have := sub_scale_err hv hu0 hu hf h1 h2
    have hs : orthoSum vec num s.P s.iter (o.sub (o.A (s.V s.iter)) (o.scale (s.H s.iter (s.iter - 1)) (s.P (s.iter - 1))),
        Function.update (fun i => s.H i s.iter) (s.iter - 1) (s.H s.iter (s.iter - 1))) - vec (o.A (s.V s.iter)) =
        vec (o.sub (o.A (s.V s.iter)) (o.scale (s.H s.iter (s.iter - 1)) (s.P (s.iter - 1)))) -
          (vec (o.A (s.V s.iter)) - num (s.H s.iter (s.iter - 1)) • vec (s.P (s.iter - 1))) := by
      unfold orthoSum
      rw [Finset.sum_eq_single (s.iter - 1)]
      · dsimp only
        rw [Function.update_self]
        module
      · intro j hj hne
        rw [Finset.mem_range] at hj
        dsimp only
        rw [Function.update_of_ne hne, hz j (by omega), zero_smul]
      · intro h
        exact absurd (Finset.mem_range.mpr (by omega)) h
    rw [hs]
    exact this
  · refine ⟨?_, hf⟩
    have hs : orthoSum vec num s.P s.iter (o.A (s.V s.iter), fun i => s.H i s.iter) = vec (o.A (s.V s.iter)) := by
      unfold orthoSum
      rw [Finset.sum_eq_zero, add_zero]
      intro j hj
      rw [Finset.mem_range] at hj
      change num (s.H j s.iter) • _ = _
      rw [hz j (by omega), zero_smul]
    rw [hs, sub_self, norm_zero]
    have : 0 < 1 - u := by linarith
    positivity

theorem flOrthoList_mem (ortho : Ortho) (k : ℕ) : ∀ j ∈ flOrthoList ortho k, j ≤ k := by
  intro j hj
  unfold flOrthoList at hj
  simp only [List.mem_flatten, List.mem_replicate, ne_eq] at hj
  obtain ⟨l, ⟨-, rfl⟩, hj⟩ := hj
  rw [List.mem_range'_1] at hj
  omega

/-- C79: one call of `advance()` for every `ortho` in `mgs`, `dmgs`, `lanczos` and with or without `M`: the new column satisfies
`A v_k = Σ_{j≤k+1} H[j,k] p_j` up to the local errors (without the last term and up to the remainder `w` if the space is found to be invariant).
`W` bounds the intermediate vectors, `D` the intermediate terms `H[j,k] p_j`. -/
theorem C79_column (hv : FlArnVec o vec fin num finK val finF B u e) (hu0 : 0 ≤ u) (hu : u < 1) {ortho : Ortho} {maxiter : ℕ} {s s' : FlArn F K X}
    (h : flArnAdvance o ortho maxiter s = .ok s') (hz : ∀ j ≤ s.iter, num (s.H j s.iter) = 0) {W D : ℝ} (hA : ‖vec (o.A (s.V s.iter))‖ ≤ W)
    (hW : ∀ i ≤ (flOrthoList ortho s.iter).length,
      ‖vec (((flOrthoList ortho s.iter).take i).foldl (flOrthoStep o ortho s.V s.P) (flOrthoStart o ortho s)).1‖ ≤ W)
    (hD : ∀ i ≤ (flOrthoList ortho s.iter).length, ∀ j ∈ flOrthoList ortho s.iter,
      ‖num ((((flOrthoList ortho s.iter).take i).foldl (flOrthoStep o ortho s.V s.P) (flOrthoStart o ortho s)).2 j) • vec (s.P j)‖ ≤ D)
    (hH : ∀ j ≤ s.iter + 1, finK (s'.H j s.iter)) (hN : ∀ {x y r}, o.norm x y = .ok r → finF r → fin x) (hV : s'.invariant = false → fin (s'.P (s.iter + 1))) :
    ∃ w r, fin w ∧ ‖vec w‖ ≤ W ∧ o.norm w (o.M.map fun M => M w) = .ok r ∧ s'.H (s.iter + 1) s.iter = o.ofReal r ∧
      ‖B (vec (s.V s.iter)) - ∑ j ∈ Finset.range (s.iter + 1), num (s'.H j s.iter) • vec (s.P j) - vec w‖ ≤
        e * ‖vec (s.V s.iter)‖ + 3 * u * W / (1 - u) ^ 2 + (flOrthoList ortho s.iter).length * (3 * u * W / (1 - u) ^ 2 + u * D / (1 - u)) ∧
      (s'.invariant = false → s'.P (s.iter + 1) = o.sdiv w r ∧
        ‖B (vec (s.V s.iter)) - ∑ j ∈ Finset.range (s.iter + 2), num (s'.H j s.iter) • vec (s'.P j)‖ ≤
          e * ‖vec (s.V s.iter)‖ + 3 * u * W / (1 - u) ^ 2 + (flOrthoList ortho s.iter).length * (3 * u * W / (1 - u) ^ 2 + u * D / (1 - u)) + u * W) := by
  have hmem : ∀ j ∈ flOrthoList ortho s.iter, j ≤ s.iter := flOrthoList_mem ortho s.iter
  set js := flOrthoList ortho s.iter with hjs
  unfold flArnAdvance at h
  dsimp only at h
  rw [← hjs] at h
  rcases ite_eq_iff.mp h with ⟨-, h⟩ | ⟨-, h⟩
  · cases h
  rcases ite_eq_iff.mp h with ⟨-, h⟩ | ⟨-, h⟩
  · cases h
  set st0 := flOrthoStart o ortho s with hst0
  set st := js.foldl (flOrthoStep o ortho s.V s.P) st0 with hst
  cases hr : o.norm st.1 (o.M.map fun M => M st.1) with
  | error e => rw [hr] at h; cases h
  | ok r =>
    rw [hr] at h
    dsimp only at h
    have hHs : s'.H = (fun i j => if j = s.iter then Function.update st.2 (s.iter + 1) (o.ofReal r) i else s.H i j) := by
      rcases ite_eq_iff.mp h with ⟨-, h⟩ | ⟨-, h⟩ <;> rw [← Except.ok.inj h]
    have hlast : s'.H (s.iter + 1) s.iter = o.ofReal r := by
      rw [hHs]
      simp
    have hcol : ∀ j ≤ s.iter, s'.H j s.iter = st.2 j := by
      intro j hj
      rw [hHs]
      simp only [if_true]
      rw [Function.update_of_ne (by omega)]
    obtain ⟨hrf, hrn⟩ := hv.ofReal (hlast ▸ hH _ le_rfl)
    have hwf : fin st.1 := hN hr hrf
    have hwW : ‖vec st.1‖ ≤ W := by
      have := hW js.length le_rfl
      rwa [List.take_length] at this
    have W0 : 0 ≤ W := (norm_nonneg _).trans hA
    have hback : ∀ l : List ℕ, fin (l.foldl (flOrthoStep o ortho s.V s.P) st0).1 → fin st0.1 := by
      intro l
      induction l using List.reverseRecOn with
      | nil => exact id
      | append_singleton l j ih =>
        rw [List.foldl_append, List.foldl_cons, List.foldl_nil]
        exact fun h => ih (hv.sub h).1
    have hstart := orthoSum_start hv hu0 hu (ortho := ortho) hz (hback js hwf) hA (hW 0 (Nat.zero_le _))
    have hfold := orthoSum_fold hv hu0 hu js hmem st0 hW hwf (fun j hj => by
      rw [← hst, ← hcol j (hmem j hj)]
      exact hH j (by have := hmem j hj; omega)) hD
    rw [← hst0] at hstart
    rw [← hst] at hfold
    obtain ⟨-, hop⟩ := hv.A hstart.2
    have hmain : ‖B (vec (s.V s.iter)) - ∑ j ∈ Finset.range (s.iter + 1), num (s'.H j s.iter) • vec (s.P j) - vec st.1‖ ≤
        e * ‖vec (s.V s.iter)‖ + 3 * u * W / (1 - u) ^ 2 + js.length * (3 * u * W / (1 - u) ^ 2 + u * D / (1 - u)) := by
      have hs : B (vec (s.V s.iter)) - ∑ j ∈ Finset.range (s.iter + 1), num (s'.H j s.iter) • vec (s.P j) - vec st.1 =
          -((vec (o.A (s.V s.iter)) - B (vec (s.V s.iter))) + (orthoSum vec num s.P s.iter st0 - vec (o.A (s.V s.iter))) +
            (orthoSum vec num s.P s.iter st - orthoSum vec num s.P s.iter st0)) := by
        have : orthoSum vec num s.P s.iter st = vec st.1 + ∑ j ∈ Finset.range (s.iter + 1), num (s'.H j s.iter) • vec (s.P j) := by
          unfold orthoSum
          congr 1
          refine Finset.sum_congr rfl fun j hj => ?_
          rw [hcol j (by rw [Finset.mem_range] at hj; omega)]
        rw [this]
        abel
      rw [hs, norm_neg]
      exact (norm_add_le _ _).trans (add_le_add ((norm_add_le _ _).trans (add_le_add hop hstart.1)) hfold)
    refine ⟨st.1, r, hwf, hwW, hr, hlast, hmain, fun hni => ?_⟩
    rcases ite_eq_iff.mp h with ⟨-, h⟩ | ⟨-, h⟩
    · rw [← Except.ok.inj h] at hni
      cases hni
    have hP : s'.P = Function.update s.P (s.iter + 1) (o.sdiv st.1 r) := by rw [← Except.ok.inj h]
    have hP1 : s'.P (s.iter + 1) = o.sdiv st.1 r := by rw [hP, Function.update_self]
    refine ⟨hP1, ?_⟩
    obtain ⟨-, -, hd⟩ := hv.sdiv (hP1 ▸ hV hni) hrf
    rw [Finset.sum_range_succ, hlast, hP1, hrn]
    have hsum : ∑ j ∈ Finset.range (s.iter + 1), num (s'.H j s.iter) • vec (s'.P j) =
        ∑ j ∈ Finset.range (s.iter + 1), num (s'.H j s.iter) • vec (s.P j) := by
      refine Finset.sum_congr rfl fun j hj => ?_
      rw [hP, Function.update_of_ne (by rw [Finset.mem_range] at hj; omega)]
    rw [hsum]
    have key : ∀ a b c d : E, a - (b + c) = (a - b - d) - (c - d) := fun a b c d => by abel
    rw [key _ _ _ (vec st.1)]
    refine (norm_sub_le _ _).trans (add_le_add hmain (hd.trans ?_))
    gcongr

end

/-! ## A priori bounds for the Euclidean inner product -/

section
variable {𝕜 E : Type*} [RCLike 𝕜] [NormedAddCommGroup E] [InnerProductSpace 𝕜 E] {F K X : Type*}

/-- Inner products and norms with errors of at most `d` relative to the norms of the arguments. -/
structure FlArnIp (o : FlArnOps F K X) (vec : X → E) (fin : X → Prop) (num : K → 𝕜) (finK : K → Prop) (val : F → ℝ) (finF : F → Prop) (d : ℝ) : Prop where
  ip : ∀ {x y}, finK (o.ip x y) → ‖num (o.ip x y) - inner 𝕜 (vec x) (vec y)‖ ≤ d * (‖vec x‖ * ‖vec y‖)
  norm : ∀ {x y r}, o.norm x y = .ok r → finF r → fin x ∧ (y = none → |val r - ‖vec x‖| ≤ d * ‖vec x‖)

variable {o : FlArnOps F K X} {vec : X → E} {fin : X → Prop} {num : K → 𝕜} {finK : K → Prop} {val : F → ℝ} {finF : F → Prop} {B : E →L[𝕜] E} {u e d : ℝ}

/-- Growth of the norm in one step of the inner loop. -/
def orthoGrow (u d : ℝ) : ℝ := (1 + u) * (1 + 2 * d + 2 * u * (1 + d))

theorem one_le_orthoGrow (hu0 : 0 ≤ u) (hd0 : 0 ≤ d) : 1 ≤ orthoGrow u d := by
  unfold orthoGrow
  have h1 : 1 ≤ 1 + u := by linarith
  have h2 : 1 ≤ 1 + 2 * d + 2 * u * (1 + d) := by
    have : 0 ≤ 2 * u * (1 + d) := by positivity
    linarith
  nlinarith

/-- Subtracting the component along `v` does not make a vector longer if `‖v‖² ≤ 2`. -/
theorem norm_sub_proj_le {v w : E} (hv : ‖v‖ ^ 2 ≤ 2) : ‖w - inner 𝕜 v w • v‖ ≤ ‖w‖ := by
  have h : ‖w - inner 𝕜 v w • v‖ ^ 2 = ‖w‖ ^ 2 - 2 * ‖inner 𝕜 v w‖ ^ 2 + ‖inner 𝕜 v w‖ ^ 2 * ‖v‖ ^ 2 := by
    rw [@norm_sub_sq 𝕜, norm_smul, mul_pow, inner_smul_right]
    have : (inner 𝕜 v w : 𝕜) * inner 𝕜 w v = ((‖inner 𝕜 v w‖ ^ 2 : ℝ) : 𝕜) := by
      rw [← inner_conj_symm w v, RCLike.mul_conj]
      push_cast
      rfl
    rw [this, RCLike.ofReal_re]
  have h2 : ‖w - inner 𝕜 v w • v‖ ^ 2 ≤ ‖w‖ ^ 2 := by
    rw [h]
    nlinarith [sq_nonneg ‖inner 𝕜 v w‖]
  exact le_of_sq_le_sq h2 (norm_nonneg _)

theorem alpha_bound (hi : FlArnIp o vec fin num finK val finF d) {x y : X} (hf : finK (o.ip x y)) (hx : ‖vec x‖ ^ 2 ≤ 2) (hd0 : 0 ≤ d) :
    ‖num (o.ip x y)‖ * ‖vec x‖ ≤ 2 * (1 + d) * ‖vec y‖ := by
  have h1 := hi.ip hf
  have h2 : ‖num (o.ip x y)‖ ≤ (1 + d) * (‖vec x‖ * ‖vec y‖) := by
    have := norm_le_norm_add_norm_sub' (num (o.ip x y)) (inner 𝕜 (vec x) (vec y))
    have h3 := norm_inner_le_norm (𝕜 := 𝕜) (vec x) (vec y)
    linarith
  have h3 : ‖num (o.ip x y)‖ * ‖vec x‖ ≤ (1 + d) * (‖vec x‖ * ‖vec y‖) * ‖vec x‖ := mul_le_mul_of_nonneg_right h2 (norm_nonneg _)
  have h4 : (1 + d) * (‖vec x‖ * ‖vec y‖) * ‖vec x‖ = (1 + d) * ‖vec y‖ * ‖vec x‖ ^ 2 := by ring
  rw [h4] at h3
  have h5 : (1 + d) * ‖vec y‖ * ‖vec x‖ ^ 2 ≤ (1 + d) * ‖vec y‖ * 2 := mul_le_mul_of_nonneg_left hx (by positivity)
  linarith

theorem flOrthoStep_grow (hv : FlArnVec o vec fin num finK val finF B u e) (hi : FlArnIp o vec fin num finK val finF d) (hu0 : 0 ≤ u) (hd0 : 0 ≤ d)
    {ortho : Ortho} (ho : ortho ≠ .lanczos) {V : ℕ → X} {st : X × (ℕ → K)} {j : ℕ} (hf : fin (flOrthoStep o ortho V V st j).1) (hn : ‖vec (V j)‖ ^ 2 ≤ 2) :
    ‖vec (flOrthoStep o ortho V V st j).1‖ ≤ orthoGrow u d * ‖vec st.1‖ := by
  have hs : (flOrthoStep o ortho V V st j).1 = o.sub st.1 (o.scale (o.ip (V j) st.1) (V j)) := by
    unfold flOrthoStep
    simp [ho]
  rw [hs] at hf ⊢
  obtain ⟨-, f2, b1⟩ := hv.sub hf
  obtain ⟨f3, -, b2⟩ := hv.scale f2
  have ha := alpha_bound hi f3 hn hd0
  have hip := hi.ip f3
  have hp := norm_sub_proj_le (𝕜 := 𝕜) (w := vec st.1) hn
  set w := vec st.1
  set v := vec (V j)
  set a := num (o.ip (V j) st.1)
  set t := vec (o.scale (o.ip (V j) st.1) (V j))
  have e1 : ‖(a - inner 𝕜 v w) • v‖ ≤ 2 * d * ‖w‖ := by
    rw [norm_smul]
    have h1 := mul_le_mul_of_nonneg_right hip (norm_nonneg v)
    have h2 : d * (‖v‖ * ‖w‖) * ‖v‖ = d * ‖w‖ * ‖v‖ ^ 2 := by ring
    rw [h2] at h1
    have h3 := mul_le_mul_of_nonneg_left hn (show 0 ≤ d * ‖w‖ by positivity)
    linarith
  have e2 : ‖t - a • v‖ ≤ 2 * u * (1 + d) * ‖w‖ := by
    refine b2.trans ?_
    rw [norm_smul]
    have := mul_le_mul_of_nonneg_left ha hu0
    linarith
  have e3 : ‖w - t‖ ≤ (1 + 2 * d + 2 * u * (1 + d)) * ‖w‖ := by
    have key : w - t = (w - inner 𝕜 v w • v) - (a - inner 𝕜 v w) • v - (t - a • v) := by module
    rw [key]
    have h1 := norm_sub_le ((w - inner 𝕜 v w • v) - (a - inner 𝕜 v w) • v) (t - a • v)
    have h2 := norm_sub_le (w - inner 𝕜 v w • v) ((a - inner 𝕜 v w) • v)
    linarith
  have h1 := norm_le_norm_add_norm_sub' (vec (o.sub st.1 (o.scale (o.ip (V j) st.1) (V j)))) (w - t)
  have h2 : (1 + u) * ‖w - t‖ ≤ (1 + u) * ((1 + 2 * d + 2 * u * (1 + d)) * ‖w‖) := mul_le_mul_of_nonneg_left e3 (by linarith)
  unfold orthoGrow
  rw [mul_assoc]
  linarith

theorem fin_take (hv : FlArnVec o vec fin num finK val finF B u e) {ortho : Ortho} {V P : ℕ → X} (js : List ℕ) (st : X × (ℕ → K))
    (h : fin (js.foldl (flOrthoStep o ortho V P) st).1) (i : ℕ) : fin ((js.take i).foldl (flOrthoStep o ortho V P) st).1 := by
  have hb : ∀ (l : List ℕ) (st : X × (ℕ → K)), fin (l.foldl (flOrthoStep o ortho V P) st).1 → fin st.1 := by
    intro l
    induction l with
    | nil => exact fun st => id
    | cons j l ih => exact fun st h => (hv.sub (ih _ h)).1
  rw [← List.take_append_drop i js, List.foldl_append] at h
  exact hb _ _ h

theorem finK_take (hv : FlArnVec o vec fin num finK val finF B u e) {ortho : Ortho} {V P : ℕ → X} (js : List ℕ) (st : X × (ℕ → K)) {l : ℕ}
    (h : finK ((js.foldl (flOrthoStep o ortho V P) st).2 l)) (i : ℕ) : finK (((js.take i).foldl (flOrthoStep o ortho V P) st).2 l) := by
  have h1 : ∀ (st : X × (ℕ → K)) j, finK ((flOrthoStep o ortho V P st j).2 l) → finK (st.2 l) := by
    intro st j h
    by_cases hl : l = j
    · subst hl
      change finK (Function.update st.2 l _ l) at h
      rw [Function.update_self] at h
      exact (hv.acc h).1
    · change finK (Function.update st.2 j _ l) at h
      rwa [Function.update_of_ne hl] at h
  have hb : ∀ (js : List ℕ) (st : X × (ℕ → K)), finK ((js.foldl (flOrthoStep o ortho V P) st).2 l) → finK (st.2 l) := by
    intro js
    induction js with
    | nil => exact fun st => id
    | cons j js ih => exact fun st h => h1 _ _ (ih _ h)
  rw [← List.take_append_drop i js, List.foldl_append] at h
  exact hb _ _ h

/-- The intermediate vectors and coefficients. -/
theorem flOrtho_bounds (hv : FlArnVec o vec fin num finK val finF B u e) (hi : FlArnIp o vec fin num finK val finF d) (hu0 : 0 ≤ u) (hd0 : 0 ≤ d)
    {ortho : Ortho} (ho : ortho ≠ .lanczos) {V : ℕ → X} (js : List ℕ) (st : X × (ℕ → K)) (hn : ∀ j ∈ js, ‖vec (V j)‖ ^ 2 ≤ 2)
    (hf : fin (js.foldl (flOrthoStep o ortho V V) st).1) (hk : ∀ j ∈ js, finK ((js.foldl (flOrthoStep o ortho V V) st).2 j)) (hz : ∀ j ∈ js, num (st.2 j) = 0)
    (i : ℕ) (hil : i ≤ js.length) :
    ‖vec ((js.take i).foldl (flOrthoStep o ortho V V) st).1‖ ≤ orthoGrow u d ^ i * ‖vec st.1‖ ∧
    ∀ j ∈ js, ‖num (((js.take i).foldl (flOrthoStep o ortho V V) st).2 j)‖ * ‖vec (V j)‖ ≤
      (js.take i).count j * ((1 + u) ^ (js.take i).count j * (2 * (1 + d) * (orthoGrow u d ^ i * ‖vec st.1‖))) := by
  induction i with
  | zero =>
    refine ⟨by simp, fun j hj => ?_⟩
    simp [hz j hj]
  | succ i ih =>
    obtain ⟨ih1, ih2⟩ := ih (by omega)
    have hlt : i < js.length := by omega
    have htake : js.take (i + 1) = js.take i ++ [js[i]] := List.take_succ_eq_append_getElem hlt
    have hfi := fin_take hv js st hf (i + 1)
    have hki : ∀ j ∈ js, finK (((js.take (i + 1)).foldl (flOrthoStep o ortho V V) st).2 j) := fun j hj => finK_take hv js st (hk j hj) (i + 1)
    rw [htake, List.foldl_append, List.foldl_cons, List.foldl_nil] at hfi hki ⊢
    set S := (js.take i).foldl (flOrthoStep o ortho V V) st with hS
    have hm : js[i] ∈ js := List.getElem_mem hlt
    have hg := flOrthoStep_grow hv hi hu0 hd0 ho hfi (hn _ hm)
    have g1 := one_le_orthoGrow hu0 hd0
    have hgrow : orthoGrow u d ^ i * ‖vec st.1‖ ≤ orthoGrow u d ^ (i + 1) * ‖vec st.1‖ :=
      mul_le_mul_of_nonneg_right (pow_le_pow_right₀ g1 (by omega)) (norm_nonneg _)
    refine ⟨?_, fun j hj => ?_⟩
    · refine hg.trans ?_
      rw [pow_succ', mul_assoc]
      exact mul_le_mul_of_nonneg_left ih1 (by linarith)
    · have hW0 : 0 ≤ orthoGrow u d ^ i * ‖vec st.1‖ := (norm_nonneg _).trans ih1
      by_cases hji : j = js[i]
      · have hcnt : (js.take i ++ [js[i]]).count j = (js.take i).count j + 1 := by
          rw [List.count_append, hji]
          simp
        rw [hcnt]
        set n := (js.take i).count j
        have hst : (flOrthoStep o ortho V V S js[i]).2 j = o.acc (S.2 j) (o.ip (V j) S.1) := by
          unfold flOrthoStep
          simp [ho, hji]
        have hkj := hki j hj
        rw [hst] at hkj ⊢
        obtain ⟨-, fk, b⟩ := hv.acc hkj
        have ha := alpha_bound hi fk (hn j hj) hd0
        have hb := ih2 j hj
        have h1 : ‖num (o.acc (S.2 j) (o.ip (V j) S.1))‖ ≤ (1 + u) * (‖num (S.2 j)‖ + ‖num (o.ip (V j) S.1)‖) := by
          have h2 := norm_le_norm_add_norm_sub' (num (o.acc (S.2 j) (o.ip (V j) S.1))) (num (S.2 j) + num (o.ip (V j) S.1))
          have h3 := norm_add_le (num (S.2 j)) (num (o.ip (V j) S.1))
          nlinarith
        have h2 := mul_le_mul_of_nonneg_right h1 (norm_nonneg (vec (V j)))
        refine h2.trans ?_
        set Q := 2 * (1 + d) * (orthoGrow u d ^ i * ‖vec st.1‖) with hQ
        have hQ0 : 0 ≤ Q := by positivity
        have hQ' : Q ≤ 2 * (1 + d) * (orthoGrow u d ^ (i + 1) * ‖vec st.1‖) := mul_le_mul_of_nonneg_left hgrow (by positivity)
        have hα : ‖num (o.ip (V j) S.1)‖ * ‖vec (V j)‖ ≤ Q := ha.trans (mul_le_mul_of_nonneg_left ih1 (by positivity))
        have hp : (1 : ℝ) ≤ (1 + u) ^ n := one_le_pow₀ (by linarith)
        have h3 : (1 + u) * (‖num (S.2 j)‖ + ‖num (o.ip (V j) S.1)‖) * ‖vec (V j)‖ ≤ (1 + u) * (n * ((1 + u) ^ n * Q) + (1 + u) ^ n * Q) := by
          rw [show (1 + u) * (‖num (S.2 j)‖ + ‖num (o.ip (V j) S.1)‖) * ‖vec (V j)‖ =
            (1 + u) * (‖num (S.2 j)‖ * ‖vec (V j)‖ + ‖num (o.ip (V j) S.1)‖ * ‖vec (V j)‖) by ring]
          refine mul_le_mul_of_nonneg_left (add_le_add hb (hα.trans ?_)) (by linarith)
          nlinarith
        refine h3.trans ?_
        have h4 : (1 + u) * (n * ((1 + u) ^ n * Q) + (1 + u) ^ n * Q) = ((n + 1 : ℕ) : ℝ) * ((1 + u) ^ (n + 1) * Q) := by
          push_cast
          ring
        rw [h4]
        gcongr
      · have hst : (flOrthoStep o ortho V V S js[i]).2 j = S.2 j := by
          unfold flOrthoStep
          simp [Function.update_of_ne hji]
        have hcnt : (js.take i ++ [js[i]]).count j = (js.take i).count j := by
          rw [List.count_append, List.count_eq_zero_of_not_mem (l := [js[i]]) (by simpa using hji), add_zero]
        rw [hst, hcnt]
        refine (ih2 j hj).trans ?_
        gcongr

/-- What `advance()` does. -/
theorem flArnAdvance_cases {ortho : Ortho} {maxiter : ℕ} {s s' : FlArn F K X} (h : flArnAdvance o ortho maxiter s = .ok s') :
    s.invariant = false ∧ s'.iter = s.iter + 1 ∧ s'.vnorm = s.vnorm ∧ ∃ w h r, (flOrthoList ortho s.iter).foldl (flOrthoStep o ortho s.V s.P) (flOrthoStart o ortho s) = (w, h) ∧
      o.norm w (o.M.map fun M => M w) = .ok r ∧
      s'.H = (fun i j => if j = s.iter then Function.update h (s.iter + 1) (o.ofReal r) i else s.H i j) ∧
      ((s'.invariant = true ∧ s'.V = s.V ∧ s'.P = s.P) ∨
        (s'.invariant = false ∧ s'.V = Function.update s.V (s.iter + 1) (o.sdiv ((o.M.map fun M => M w).getD w) r) ∧
          s'.P = Function.update s.P (s.iter + 1) (o.sdiv w r))) := by
  unfold flArnAdvance at h
  dsimp only at h
  rcases ite_eq_iff.mp h with ⟨-, h⟩ | ⟨-, h⟩
  · cases h
  rcases ite_eq_iff.mp h with ⟨-, h⟩ | ⟨hi, h⟩
  · cases h
  set st := (flOrthoList ortho s.iter).foldl (flOrthoStep o ortho s.V s.P) (flOrthoStart o ortho s) with hst
  cases hr : o.norm st.1 (o.M.map fun M => M st.1) with
  | error e => rw [hr] at h; cases h
  | ok r =>
    rw [hr] at h
    dsimp only at h
    rcases ite_eq_iff.mp h with ⟨-, h⟩ | ⟨-, h⟩
    · obtain rfl := Except.ok.inj h
      exact ⟨by simpa using hi, rfl, rfl, st.1, st.2, r, rfl, hr, rfl, .inl ⟨rfl, rfl, rfl⟩⟩
    · obtain rfl := Except.ok.inj h
      exact ⟨by simpa using hi, rfl, rfl, st.1, st.2, r, rfl, hr, rfl, .inr ⟨rfl, rfl, rfl⟩⟩

/-- The arrays computed so far contain neither infinities nor NaNs. -/
structure FlArnFin (fin : X → Prop) (finK : K → Prop) (finF : F → Prop) (s : FlArn F K X) : Prop where
  vnorm : finF s.vnorm
  V : ∀ j, j < s.iter ∨ (j = s.iter ∧ s.invariant = false) → fin (s.V j)
  H : ∀ n < s.iter, ∀ j ≤ n + 1, finK (s.H j n)

/-- Number of orthogonalisation steps for column `n`. -/
def arnSteps (ortho : Ortho) (n : ℕ) : ℕ := (ortho.reorthos + 1) * (n + 1)

/-- Bound for the vectors during the orthogonalisation of column `n`; `nB` is the norm of the operator. -/
noncomputable def arnW (u e d nB : ℝ) (ortho : Ortho) (n : ℕ) : ℝ := orthoGrow u d ^ arnSteps ortho n * (√2 * (nB + e))

/-- Bound for the terms `H[j,n] v_j`. -/
noncomputable def arnD (u e d nB : ℝ) (ortho : Ortho) (n : ℕ) : ℝ :=
  (ortho.reorthos + 1 : ℕ) * ((1 + u) ^ (ortho.reorthos + 1) * (2 * (1 + d) * arnW u e d nB ortho n))

/-- Bound for the error of column `n`. -/
noncomputable def arnBound (u e d nB : ℝ) (ortho : Ortho) (n : ℕ) : ℝ :=
  e * √2 + 3 * u * arnW u e d nB ortho n / (1 - u) ^ 2 +
    arnSteps ortho n * (3 * u * arnW u e d nB ortho n / (1 - u) ^ 2 + u * arnD u e d nB ortho n / (1 - u)) + u * arnW u e d nB ortho n

/-- Normalised up to rounding errors. -/
def NearUnit (u d : ℝ) (x : E) : Prop := (1 - u) / (1 + d) ≤ ‖x‖ ∧ ‖x‖ ≤ (1 + u) / (1 - d)

theorem NearUnit.sq {x : E} (h : NearUnit u d x) (hu0 : 0 ≤ u) (hd : d < 1) (hud : (1 + u) ^ 2 ≤ 2 * (1 - d) ^ 2) : ‖x‖ ^ 2 ≤ 2 := by
  have d0 : 0 < 1 - d := by linarith
  calc ‖x‖ ^ 2 ≤ ((1 + u) / (1 - d)) ^ 2 := pow_le_pow_left₀ (norm_nonneg _) h.2 2
    _ ≤ 2 := by
      rw [div_pow, div_le_iff₀ (by positivity)]
      exact hud

theorem sdiv_nearUnit (hv : FlArnVec o vec fin num finK val finF B u e) (hu0 : 0 ≤ u) (hu : u < 1) (hd0 : 0 ≤ d) (hd : d < 1) {w : X} {r : F}
    (hf : fin (o.sdiv w r)) (hrf : finF r) (hn : |val r - ‖vec w‖| ≤ d * ‖vec w‖) : NearUnit u d (vec (o.sdiv w r)) := by
  obtain ⟨-, h0, hs⟩ := hv.sdiv hf hrf
  rw [abs_le] at hn
  have hw : 0 < ‖vec w‖ := by
    rcases (norm_nonneg (vec w)).eq_or_lt with h | h
    · rw [← h] at hn
      exact absurd (by linarith) h0
    · exact h
  have hr : 0 < val r := by nlinarith
  have hsm : ‖(val r : 𝕜) • vec (o.sdiv w r)‖ = val r * ‖vec (o.sdiv w r)‖ := by
    rw [norm_smul, RCLike.norm_ofReal, abs_of_pos hr]
  have h1 := norm_le_norm_add_norm_sub' ((val r : 𝕜) • vec (o.sdiv w r)) (vec w)
  have h2 := norm_le_norm_add_norm_sub (vec w) ((val r : 𝕜) • vec (o.sdiv w r))
  rw [hsm] at h1 h2
  have h2' : ‖vec w‖ ≤ val r * ‖vec (o.sdiv w r)‖ + u * ‖vec w‖ := by
    rw [norm_sub_rev] at hs
    have := norm_le_norm_add_norm_sub' (vec w) ((val r : 𝕜) • vec (o.sdiv w r))
    rw [hsm] at this
    linarith
  set z := ‖vec (o.sdiv w r)‖
  have hz : 0 ≤ z := norm_nonneg _
  refine ⟨?_, ?_⟩
  · rw [div_le_iff₀ (by linarith)]
    have h3 : val r * z ≤ (1 + d) * ‖vec w‖ * z := mul_le_mul_of_nonneg_right (by linarith) hz
    have h4 : (1 - u) * ‖vec w‖ ≤ (z * (1 + d)) * ‖vec w‖ := by nlinarith
    exact le_of_mul_le_mul_right h4 hw
  · rw [le_div_iff₀ (by linarith)]
    have h3 : (1 - d) * ‖vec w‖ * z ≤ val r * z := mul_le_mul_of_nonneg_right (by linarith) hz
    have h4 : (z * (1 - d)) * ‖vec w‖ ≤ (1 + u) * ‖vec w‖ := by nlinarith
    exact le_of_mul_le_mul_right h4 hw

theorem flOrthoList_length {ortho : Ortho} (ho : ortho ≠ .lanczos) (k : ℕ) : (flOrthoList ortho k).length = arnSteps ortho k := by
  unfold flOrthoList arnSteps
  simp [ho]

theorem flOrthoList_count {ortho : Ortho} (k j : ℕ) : (flOrthoList ortho k).count j ≤ ortho.reorthos + 1 := by
  unfold flOrthoList
  dsimp only
  generalize (if ortho = .lanczos then k else 0) = a
  rw [List.count_flatten, List.map_replicate, List.sum_replicate, smul_eq_mul]
  have := List.nodup_iff_count_le_one.mp (List.nodup_range' (s := a) (n := k + 1 - a)) j
  nlinarith

/-- The invariant of the loop. -/
structure FlArnInv (vec : X → E) (fin : X → Prop) (num : K → 𝕜) (finK : K → Prop) (finF : F → Prop) (o : FlArnOps F K X) (B : E →L[𝕜] E) (u e d : ℝ)
    (ortho : Ortho) (v : X) (s : FlArn F K X) : Prop where
  P : s.P = s.V
  first : 0 < s.iter ∨ s.invariant = false → s.V 0 = o.sdiv v s.vnorm
  hess : ∀ n i, n + 1 < i → s.H i n = o.zero
  zero : ∀ n, s.iter ≤ n → ∀ j, s.H j n = o.zero
  unit : FlArnFin fin finK finF s → ∀ j, j < s.iter ∨ (j = s.iter ∧ s.invariant = false) → NearUnit u d (vec (s.V j))
  rel : FlArnFin fin finK finF s → ∀ n, n + 1 < s.iter ∨ (n + 1 = s.iter ∧ s.invariant = false) →
    ‖B (vec (s.V n)) - ∑ j ∈ Finset.range (n + 2), num (s.H j n) • vec (s.V j)‖ ≤ arnBound u e d ‖B‖ ortho n
  last : FlArnFin fin finK finF s → ∀ n, n + 1 = s.iter → s.invariant = true →
    ‖B (vec (s.V n)) - ∑ j ∈ Finset.range (n + 1), num (s.H j n) • vec (s.V j)‖ ≤ arnBound u e d ‖B‖ ortho n + ‖num (s.H (n + 1) n)‖ / (1 - d)
  size : FlArnFin fin finK finF s → ∀ n < s.iter, ∀ j ≤ n + 1, ‖num (s.H j n)‖ ≤ (1 + d) / (1 - u) * arnD u e d ‖B‖ ortho n

theorem flOrthoList_mem' {ortho : Ortho} (ho : ortho ≠ .lanczos) {k j : ℕ} (h : j ≤ k) : j ∈ flOrthoList ortho k := by
  unfold flOrthoList
  simp only [ho, if_false, List.mem_flatten, List.mem_replicate]
  exact ⟨_, ⟨by omega, rfl⟩, by rw [List.mem_range'_1]; omega⟩

theorem FlArnInv.step (hv : FlArnVec o vec fin num finK val finF B u e) (hi : FlArnIp o vec fin num finK val finF d) (hu0 : 0 ≤ u) (hu : u < 1)
    (hd0 : 0 ≤ d) (hd : d < 1) (he0 : 0 ≤ e) (hud : (1 + u) ^ 2 ≤ 2 * (1 - d) ^ 2) (hM : o.M = none) {ortho : Ortho} (ho : ortho ≠ .lanczos)
    {maxiter : ℕ} {s s' : FlArn F K X} {v : X} (h : flArnAdvance o ortho maxiter s = .ok s') (hs : FlArnInv vec fin num finK finF o B u e d ortho v s) :
    FlArnInv vec fin num finK finF o B u e d ortho v s' := by
  obtain ⟨hinv, hiter, hvn, w, hh, r, hfold, hnorm, hH, hVP⟩ := flArnAdvance_cases h
  rw [hM, Option.map_none, Option.getD_none] at hVP
  have hVlt : ∀ j ≤ s.iter, s'.V j = s.V j := by
    intro j hj
    rcases hVP with ⟨-, h1, -⟩ | ⟨-, h1, -⟩
    · rw [h1]
    · rw [h1, Function.update_of_ne (by omega)]
  have hP' : s'.P = s'.V := by
    rcases hVP with ⟨-, h1, h2⟩ | ⟨-, h1, h2⟩ <;> rw [h1, h2, hs.P]
  have hHlt : ∀ n, n ≠ s.iter → ∀ j, s'.H j n = s.H j n := by
    intro n hn j
    rw [hH]
    simp [hn]
  have hzero : ∀ n, s'.iter ≤ n → ∀ j, s'.H j n = o.zero := by
    intro n hn j
    rw [hHlt n (by omega), hs.zero n (by omega)]
  have hfin : FlArnFin fin finK finF s' → FlArnFin fin finK finF s := by
    intro hf
    refine ⟨hvn ▸ hf.vnorm, fun j hj => ?_, fun n hn j hj => ?_⟩
    · rw [← hVlt j (by omega)]
      exact hf.V j (.inl (by omega))
    · rw [← hHlt n (by omega)]
      exact hf.H n (by omega) j hj
  have hlast : s'.H (s.iter + 1) s.iter = o.ofReal r := by
    rw [hH]
    simp
  have hcol : ∀ j ≤ s.iter, s'.H j s.iter = hh j := by
    intro j hj
    rw [hH]
    simp only [if_true]
    rw [Function.update_of_ne (by omega)]
  have hfirst : 0 < s'.iter ∨ s'.invariant = false → s'.V 0 = o.sdiv v s'.vnorm := by
    intro _
    rw [hVlt 0 (Nat.zero_le _), hvn]
    exact hs.first (.inr hinv)
  have hhess : ∀ n i, n + 1 < i → s'.H i n = o.zero := by
    intro n i hni
    by_cases hnk : n = s.iter
    · subst hnk
      rw [hH]
      simp only [if_true]
      rw [Function.update_of_ne (by omega)]
      have hkeep : ∀ (l : List ℕ) (st : X × (ℕ → K)), (∀ j ∈ l, j ≤ s.iter) → (l.foldl (flOrthoStep o ortho s.V s.P) st).2 i = st.2 i := by
        intro l
        induction l with
        | nil => exact fun _ _ => rfl
        | cons j l ih =>
          intro st hl
          rw [List.foldl_cons, ih _ (fun j' hj' => hl j' (by simp [hj']))]
          change Function.update st.2 j _ i = _
          rw [Function.update_of_ne (by have := hl j (by simp); omega)]
      have := hkeep (flOrthoList ortho s.iter) (flOrthoStart o ortho s) (flOrthoList_mem ortho s.iter)
      rw [hfold] at this
      dsimp only at this
      rw [this]
      unfold flOrthoStart
      simp only [ho, false_and, if_false]
      exact hs.zero _ le_rfl i
    · rw [hHlt n hnk]
      exact hs.hess n i hni
  -- facts for a finite state
  have facts : FlArnFin fin finK finF s' → finF r ∧ fin w ∧ |val r - ‖vec w‖| ≤ d * ‖vec w‖ := by
    intro hf
    have hrf := (hv.ofReal (hlast ▸ hf.H s.iter (by omega) _ le_rfl)).1
    obtain ⟨h1, h2⟩ := hi.norm hnorm hrf
    exact ⟨hrf, h1, h2 (by rw [hM]; rfl)⟩
  have hunit : FlArnFin fin finK finF s' → ∀ j, j < s'.iter ∨ (j = s'.iter ∧ s'.invariant = false) → NearUnit u d (vec (s'.V j)) := by
    intro hf j hj
    by_cases hjk : j ≤ s.iter
    · rw [hVlt j hjk]
      exact hs.unit (hfin hf) j (by rcases hjk.lt_or_eq with h | h; exacts [.inl h, .inr ⟨h, hinv⟩])
    · have hjk' : j = s.iter + 1 := by omega
      rcases hVP with ⟨h1, -, -⟩ | ⟨-, h1, -⟩
      · rcases hj with hj | ⟨-, hj⟩
        · omega
        · rw [h1] at hj
          cases hj
      · obtain ⟨hrf, hwf, hwn⟩ := facts hf
        have hfv := hf.V j hj
        rw [h1, hjk', Function.update_self] at hfv ⊢
        exact sdiv_nearUnit hv hu0 hu hd0 hd hfv hrf hwn
  -- the new column
  have hnew : FlArnFin fin finK finF s' → ∃ w r, fin w ∧ ‖vec w‖ ≤ arnW u e d ‖B‖ ortho s.iter ∧ o.norm w (o.M.map fun M => M w) = .ok r ∧
      s'.H (s.iter + 1) s.iter = o.ofReal r ∧
      ‖B (vec (s.V s.iter)) - ∑ j ∈ Finset.range (s.iter + 1), num (s'.H j s.iter) • vec (s.P j) - vec w‖ ≤ arnBound u e d ‖B‖ ortho s.iter ∧
      (s'.invariant = false →
        ‖B (vec (s.V s.iter)) - ∑ j ∈ Finset.range (s.iter + 2), num (s'.H j s.iter) • vec (s'.P j)‖ ≤ arnBound u e d ‖B‖ ortho s.iter) ∧
      ∀ j ≤ s.iter, ‖num (s'.H j s.iter)‖ * ‖vec (s.V j)‖ ≤ arnD u e d ‖B‖ ortho s.iter := by
    intro hf
    obtain ⟨hrf, hwf, hwn⟩ := facts hf
    have hsf := hfin hf
    have hsq : ∀ j ≤ s.iter, ‖vec (s.V j)‖ ^ 2 ≤ 2 := by
      intro j hj
      have := hs.unit hsf j (by rcases hj.lt_or_eq with h | h; exacts [.inl h, .inr ⟨h, hinv⟩])
      exact this.sq hu0 hd hud
    have hmem : ∀ j ∈ flOrthoList ortho s.iter, j ≤ s.iter := flOrthoList_mem ortho s.iter
    have hstart : flOrthoStart o ortho s = (o.A (s.V s.iter), fun i => s.H i s.iter) := by
      unfold flOrthoStart
      simp [ho]
    have hz : ∀ j, num (s.H j s.iter) = 0 := fun j => by rw [hs.zero _ le_rfl, hv.zero]
    have hfold' : (flOrthoList ortho s.iter).foldl (flOrthoStep o ortho s.V s.V) (flOrthoStart o ortho s) = (w, hh) := by
      rw [hs.P] at hfold
      exact hfold
    have hfin1 : fin ((flOrthoList ortho s.iter).foldl (flOrthoStep o ortho s.V s.V) (flOrthoStart o ortho s)).1 := by
      rw [hfold']
      exact hwf
    have hfink : ∀ j ∈ flOrthoList ortho s.iter, finK (((flOrthoList ortho s.iter).foldl (flOrthoStep o ortho s.V s.V) (flOrthoStart o ortho s)).2 j) := by
      intro j hj
      have hj' := hmem j hj
      rw [hfold']
      dsimp only
      rw [← hcol j hj']
      exact hf.H s.iter (by omega) j (by omega)
    have hbounds := flOrtho_bounds hv hi hu0 hd0 ho (flOrthoList ortho s.iter) (flOrthoStart o ortho s) (fun j hj => hsq j (hmem j hj)) hfin1 hfink
      (fun j _ => by rw [hstart]; exact hz j)
    have hfA : fin (o.A (s.V s.iter)) := by
      have := fin_take hv _ _ hfin1 0
      rw [hstart] at this
      exact this
    have hs2 : ‖vec (s.V s.iter)‖ ≤ √2 := Real.le_sqrt_of_sq_le (hsq s.iter le_rfl)
    have hA0 : ‖vec (o.A (s.V s.iter))‖ ≤ √2 * (‖B‖ + e) := by
      have h1 := norm_le_norm_add_norm_sub' (vec (o.A (s.V s.iter))) (B (vec (s.V s.iter)))
      have h2 := (hv.A hfA).2
      have h3 := B.le_opNorm (vec (s.V s.iter))
      have h4 : (‖B‖ + e) * ‖vec (s.V s.iter)‖ ≤ (‖B‖ + e) * √2 := mul_le_mul_of_nonneg_left hs2 (by positivity)
      linarith
    have g1 := one_le_orthoGrow hu0 hd0
    have hWi : ∀ i ≤ (flOrthoList ortho s.iter).length, orthoGrow u d ^ i * ‖vec (o.A (s.V s.iter))‖ ≤ arnW u e d ‖B‖ ortho s.iter := by
      intro i hi
      rw [flOrthoList_length ho] at hi
      exact mul_le_mul (pow_le_pow_right₀ g1 hi) hA0 (norm_nonneg _) (by positivity)
    have hst1 : vec (flOrthoStart o ortho s).1 = vec (o.A (s.V s.iter)) := by rw [hstart]
    have hW0 : 0 ≤ arnW u e d ‖B‖ ortho s.iter := by
      unfold arnW
      positivity
    have hDb : ∀ i ≤ (flOrthoList ortho s.iter).length, ∀ j ∈ flOrthoList ortho s.iter,
        ‖num ((((flOrthoList ortho s.iter).take i).foldl (flOrthoStep o ortho s.V s.V) (flOrthoStart o ortho s)).2 j)‖ * ‖vec (s.V j)‖ ≤
          arnD u e d ‖B‖ ortho s.iter := by
      intro i hi j hj
      have := (hbounds i hi).2 j hj
      rw [hst1] at this
      refine this.trans ?_
      have hc : ((flOrthoList ortho s.iter).take i).count j ≤ ortho.reorthos + 1 :=
        ((List.take_sublist i _).count_le j).trans (flOrthoList_count s.iter j)
      unfold arnD
      have hp : (1 + u) ^ ((flOrthoList ortho s.iter).take i).count j ≤ (1 + u) ^ (ortho.reorthos + 1) := pow_le_pow_right₀ (by linarith) hc
      have hc' : (((flOrthoList ortho s.iter).take i).count j : ℝ) ≤ ((ortho.reorthos + 1 : ℕ) : ℝ) := by exact_mod_cast hc
      have hq : 2 * (1 + d) * (orthoGrow u d ^ i * ‖vec (o.A (s.V s.iter))‖) ≤ 2 * (1 + d) * arnW u e d ‖B‖ ortho s.iter :=
        mul_le_mul_of_nonneg_left (hWi i hi) (by positivity)
      have hg0 : 0 ≤ orthoGrow u d := by linarith
      exact mul_le_mul hc' (mul_le_mul hp hq (by positivity) (by positivity)) (by positivity) (by positivity)
    obtain ⟨w', r', c1, c2, c3, c4, c5, c6⟩ := C79_column hv hu0 hu h (fun j _ => hz j) (W := arnW u e d ‖B‖ ortho s.iter) (D := arnD u e d ‖B‖ ortho s.iter)
      (by simpa using hWi 0 (Nat.zero_le _))
      (fun i hi => by
        have := (hbounds i hi).1
        rw [hst1] at this
        rw [hs.P]
        exact this.trans (hWi i hi))
      (fun i hi j hj => by
        rw [hs.P, norm_smul]
        exact hDb i hi j hj)
      (fun j hj => hf.H s.iter (by omega) j hj) (fun hn hr => (hi.norm hn hr).1)
      (fun hni => by rw [hP']; exact hf.V _ (.inr ⟨hiter.symm, hni⟩))
    rw [flOrthoList_length ho] at c5 c6
    have he : e * ‖vec (s.V s.iter)‖ ≤ e * √2 := mul_le_mul_of_nonneg_left hs2 he0
    have huW : 0 ≤ u * arnW u e d ‖B‖ ortho s.iter := mul_nonneg hu0 hW0
    refine ⟨w', r', c1, c2, c3, c4, c5.trans ?_, fun hni => (c6 hni).2.trans ?_, fun j hj => ?_⟩
    · unfold arnBound
      linarith
    · unfold arnBound
      linarith
    · have := hDb _ le_rfl j (flOrthoList_mem' ho hj)
      rw [List.take_length, hfold'] at this
      rw [hcol j hj]
      exact this
  refine ⟨hP', hfirst, hhess, hzero, hunit, ?_, ?_, ?_⟩
  · intro hf n hn
    by_cases hnk : n = s.iter
    · subst hnk
      obtain ⟨-, -, -, -, -, -, -, h6, -⟩ := hnew hf
      have := h6 (by rcases hn with hn | hn; exacts [absurd hn (by omega), hn.2])
      rwa [hP', ← hVlt _ le_rfl] at this
    · have hn' : n + 1 ≤ s.iter := by omega
      have := hs.rel (hfin hf) n (by rcases hn'.lt_or_eq with h | h; exacts [.inl h, .inr ⟨h, hinv⟩])
      rw [hVlt n (by omega)]
      rw [Finset.sum_congr rfl (g := fun j => num (s.H j n) • vec (s.V j))]
      · exact this
      · intro j hj
        rw [Finset.mem_range] at hj
        rw [hHlt n hnk, hVlt j (by omega)]
  · intro hf n hn hni
    have hnk : n = s.iter := by omega
    subst hnk
    obtain ⟨w', r', c1, -, c3, c4, c5, -⟩ := hnew hf
    have hsum : ∑ j ∈ Finset.range (s.iter + 1), num (s'.H j s.iter) • vec (s'.V j) = ∑ j ∈ Finset.range (s.iter + 1), num (s'.H j s.iter) • vec (s.P j) := by
      refine Finset.sum_congr rfl fun j hj => ?_
      rw [Finset.mem_range] at hj
      rw [hVlt j (by omega), hs.P]
    rw [hsum, hVlt _ le_rfl]
    obtain ⟨hrf, hrn⟩ := hv.ofReal (c4 ▸ hf.H s.iter (by omega) _ le_rfl)
    have hwn := (hi.norm c3 hrf).2 (by rw [hM]; rfl)
    rw [abs_le] at hwn
    have hw' : ‖vec w'‖ ≤ ‖num (s'.H (s.iter + 1) s.iter)‖ / (1 - d) := by
      rw [c4, hrn, RCLike.norm_ofReal, le_div_iff₀ (by linarith)]
      have := le_abs_self (val r')
      linarith
    have := norm_add_le (B (vec (s.V s.iter)) - ∑ j ∈ Finset.range (s.iter + 1), num (s'.H j s.iter) • vec (s.P j) - vec w') (vec w')
    rw [sub_add_cancel] at this
    linarith
  · intro hf n hn j hj
    by_cases hnk : n = s.iter
    · subst hnk
      obtain ⟨w', r', c1, c2, c3, c4, -, -, c7⟩ := hnew hf
      have hW0 : 0 ≤ arnW u e d ‖B‖ ortho s.iter := (norm_nonneg _).trans c2
      have hD0 : arnW u e d ‖B‖ ortho s.iter ≤ arnD u e d ‖B‖ ortho s.iter := by
        unfold arnD
        have h1 : (1 : ℝ) ≤ ((ortho.reorthos + 1 : ℕ) : ℝ) := by exact_mod_cast Nat.succ_le_succ (Nat.zero_le _)
        have h2 : (1 : ℝ) ≤ (1 + u) ^ (ortho.reorthos + 1) := one_le_pow₀ (by linarith)
        have h3 : arnW u e d ‖B‖ ortho s.iter ≤ 2 * (1 + d) * arnW u e d ‖B‖ ortho s.iter := by nlinarith
        have h4 : 0 ≤ 2 * (1 + d) * arnW u e d ‖B‖ ortho s.iter := by positivity
        nlinarith [mul_le_mul h1 (mul_le_mul h2 h3 hW0 (by positivity)) (by positivity) (by positivity)]
      have hu1 : 0 < 1 - u := by linarith
      have hq : 1 + d ≤ (1 + d) / (1 - u) := by
        rw [le_div_iff₀ hu1]
        nlinarith
      have hDn : 0 ≤ arnD u e d ‖B‖ ortho s.iter := hW0.trans hD0
      rcases hj.lt_or_eq with hj | rfl
      · have hj : j ≤ s.iter := by omega
        have h1 := c7 j hj
        have h2 := (hs.unit (hfin hf) j (by rcases hj.lt_or_eq with h | h; exacts [.inl h, .inr ⟨h, hinv⟩])).1
        have h3 : ‖num (s'.H j s.iter)‖ * ((1 - u) / (1 + d)) ≤ arnD u e d ‖B‖ ortho s.iter :=
          (mul_le_mul_of_nonneg_left h2 (norm_nonneg _)).trans h1
        have h4 : 0 < (1 - u) / (1 + d) := by positivity
        rw [← le_div_iff₀ h4] at h3
        refine h3.trans (le_of_eq ?_)
        field_simp
      · obtain ⟨hrf, hrn⟩ := hv.ofReal (c4 ▸ hf.H s.iter (by omega) _ le_rfl)
        have hwn := (hi.norm c3 hrf).2 (by rw [hM]; rfl)
        rw [abs_le] at hwn
        rw [c4, hrn, RCLike.norm_ofReal]
        have h1 : |val r'| ≤ (1 + d) * ‖vec w'‖ := by
          rw [abs_le]
          constructor <;> nlinarith [norm_nonneg (vec w')]
        exact h1.trans (mul_le_mul hq (c2.trans hD0) (norm_nonneg _) (by positivity))
    · rw [hHlt n hnk]
      exact hs.size (hfin hf) n (by omega) j hj

theorem FlArnInv.init [Zero X] (hv : FlArnVec o vec fin num finK val finF B u e) (hi : FlArnIp o vec fin num finK val finF d) (hu0 : 0 ≤ u) (hu : u < 1)
    (hd0 : 0 ≤ d) (hd : d < 1) (hM : o.M = none) {ortho : Ortho} {v : X} {Mv : Option X} {MvNorm : Option F}
    (hMv : ∀ r, MvNorm = some r → finF r → |val r - ‖vec v‖| ≤ d * ‖vec v‖) {s : FlArn F K X} (hs : flArnInit o v Mv MvNorm = .ok s) :
    FlArnInv vec fin num finK finF o B u e d ortho v s := by
  unfold flArnInit at hs
  dsimp only at hs
  have hw : flStartV o v Mv = v := by
    unfold flStartV
    rw [hM]
  rw [hw] at hs
  cases hr : flStartNorm o v v MvNorm with
  | error e => rw [hr] at hs; cases hs
  | ok r =>
    rw [hr] at hs
    dsimp only at hs
    have hn : finF r → |val r - ‖vec v‖| ≤ d * ‖vec v‖ := by
      intro hrf
      unfold flStartNorm at hr
      cases hMN : MvNorm with
      | some r' =>
        rw [hMN] at hr
        have := hMv r' hMN
        rw [Except.ok.inj hr] at this
        exact this hrf
      | none =>
        rw [hMN, hM] at hr
        exact (hi.norm hr hrf).2 rfl
    rcases ite_eq_iff.mp hs with ⟨-, hs⟩ | ⟨-, hs⟩
    · obtain rfl := Except.ok.inj hs
      refine ⟨rfl, fun _ => by simp, fun _ _ _ => rfl, fun _ _ _ => rfl, fun hf j hj => ?_, fun _ n hn => ?_, fun _ n hn => ?_, fun _ n hn => ?_⟩
      · have hj0 : j = 0 := by
          rcases hj with hj | ⟨hj, -⟩
          · exact absurd hj (Nat.not_lt_zero _)
          · exact hj
        subst hj0
        have hfv := hf.V 0 (.inr ⟨rfl, rfl⟩)
        simp only [Function.update_self] at hfv ⊢
        exact sdiv_nearUnit hv hu0 hu hd0 hd hfv hf.vnorm (hn hf.vnorm)
      · simp at hn
      · simp at hn
      · simp at hn
    · obtain rfl := Except.ok.inj hs
      refine ⟨rfl, fun h => by simp at h, fun _ _ _ => rfl, fun _ _ _ => rfl, fun hf j hj => ?_, fun _ n hn => ?_, fun _ n hn => ?_, fun _ n hn => ?_⟩
      · simp at hj
      · simp at hn
      · simp at hn
      · simp at hn


theorem flArnoldi_inv [Zero X] (hv : FlArnVec o vec fin num finK val finF B u e) (hi : FlArnIp o vec fin num finK val finF d) (hu0 : 0 ≤ u) (hu : u < 1)
    (hd0 : 0 ≤ d) (hd : d < 1) (he0 : 0 ≤ e) (hud : (1 + u) ^ 2 ≤ 2 * (1 - d) ^ 2) (hM : o.M = none) {ortho : Ortho} (ho : ortho ≠ .lanczos)
    {maxiter : ℕ} {v : X} {Mv : Option X} {MvNorm : Option F} (hMv : ∀ r, MvNorm = some r → |val r - ‖vec v‖| ≤ d * ‖vec v‖) {s : FlArn F K X}
    (h : flArnoldi o ortho maxiter v Mv MvNorm = .ok s) :
    FlArnInv vec fin num finK finF o B u e d ortho v s := by
  have hloop : ∀ k (s s' : FlArn F K X), FlArnInv vec fin num finK finF o B u e d ortho v s → flArnLoop o ortho maxiter k s = .ok s' →
      FlArnInv vec fin num finK finF o B u e d ortho v s' := by
    intro k
    induction k with
    | zero =>
      intro s s' hs h
      unfold flArnLoop at h
      rcases ite_eq_iff.mp h with ⟨-, h⟩ | ⟨-, h⟩
      · cases h
      · rwa [← Except.ok.inj h]
    | succ k ih =>
      intro s s' hs h
      unfold flArnLoop at h
      rcases ite_eq_iff.mp h with ⟨-, h⟩ | ⟨-, h⟩
      · dsimp only at h
        cases ha : flArnAdvance o ortho maxiter s with
        | error e => rw [ha] at h; cases h
        | ok s1 =>
          rw [ha] at h
          exact ih s1 s' (hs.step hv hi hu0 hu hd0 hd he0 hud hM ho ha) h
      · rwa [← Except.ok.inj h]
  unfold flArnoldi at h
  cases hi0 : flArnInit o v Mv MvNorm with
  | error e => rw [hi0] at h; cases h
  | ok s0 =>
    rw [hi0] at h
    exact hloop _ _ _ (FlArnInv.init hv hi hu0 hu hd0 hd hM (fun r hr _ => hMv r hr) hi0) h

/-- C79: `utils.arnoldi` with `ortho` `mgs` or `dmgs`, `M=None`, the Euclidean inner product and errors.  If no entry of the results is infinite or NaN then
the basis vectors are normalised up to errors and the Arnoldi relation holds up to errors in every column — with bounds which do not depend on
how orthogonal the basis vectors are. -/
theorem C79_relation [Zero X] (hv : FlArnVec o vec fin num finK val finF B u e) (hi : FlArnIp o vec fin num finK val finF d) (hu0 : 0 ≤ u) (hu : u < 1)
    (hd0 : 0 ≤ d) (hd : d < 1) (he0 : 0 ≤ e) (hud : (1 + u) ^ 2 ≤ 2 * (1 - d) ^ 2) (hM : o.M = none) {ortho : Ortho} (ho : ortho ≠ .lanczos)
    {maxiter : ℕ} {v : X} {Mv : Option X} {MvNorm : Option F} (hMv : ∀ r, MvNorm = some r → |val r - ‖vec v‖| ≤ d * ‖vec v‖) {s : FlArn F K X}
    (h : flArnoldi o ortho maxiter v Mv MvNorm = .ok s) (hf : FlArnFin fin finK finF s) :
    (∀ j, j < s.iter ∨ (j = s.iter ∧ s.invariant = false) → NearUnit u d (vec (s.V j))) ∧
    (∀ n, n + 1 < s.iter ∨ (n + 1 = s.iter ∧ s.invariant = false) →
      ‖B (vec (s.V n)) - ∑ j ∈ Finset.range (n + 2), num (s.H j n) • vec (s.V j)‖ ≤ arnBound u e d ‖B‖ ortho n) ∧
    (∀ n, n + 1 = s.iter → s.invariant = true →
      ‖B (vec (s.V n)) - ∑ j ∈ Finset.range (n + 1), num (s.H j n) • vec (s.V j)‖ ≤ arnBound u e d ‖B‖ ortho n + ‖num (s.H (n + 1) n)‖ / (1 - d)) := by
  have := flArnoldi_inv hv hi hu0 hu hd0 hd he0 hud hM ho hMv h
  exact ⟨this.unit hf, this.rel hf, this.last hf⟩

theorem sum_norm_le_vecNorm {n : ℕ} (z : Fin n → 𝕜) : ∑ i, ‖z i‖ ≤ √n * vecNorm z := by
  have h1 : (∑ i, ‖z i‖) ^ 2 ≤ n * ∑ i, ‖z i‖ ^ 2 := by
    have := sq_sum_le_card_mul_sum_sq (s := (Finset.univ : Finset (Fin n))) (f := fun i => ‖z i‖)
    simpa using this
  have h2 : vecNorm z ^ 2 = ∑ i, ‖z i‖ ^ 2 := vecNorm_sq z
  refine le_of_sq_le_sq ?_ (mul_nonneg (Real.sqrt_nonneg _) (vecNorm_nonneg z))
  rw [mul_pow, Real.sq_sqrt (Nat.cast_nonneg n), h2]
  exact h1

/-- Bound for the error of column `j` including the remainder which is neglected if the space was found to be invariant in this step. -/
noncomputable def arnDefect (u e d nB : ℝ) (ortho : Ortho) (num : K → 𝕜) (s : FlArn F K X) (j : ℕ) : ℝ :=
  arnBound u e d nB ortho j + if s.invariant = true ∧ j + 1 = s.iter then ‖num (s.H (j + 1) j)‖ / (1 - d) else 0

/-- The basis vectors; zero for the one which is not computed if the space is found to be invariant. -/
def flBasis (vec : X → E) (s : FlArn F K X) (i : ℕ) : E := if s.invariant = true ∧ i = s.iter then 0 else vec (s.V i)

/-- The residual of a combination of basis vectors and the combination of the basis vectors with the residual of the small system. -/
theorem FlArnInv.defect (hv : FlArnVec o vec fin num finK val finF B u e) {ortho : Ortho}
    {v : X} {s : FlArn F K X} (inv : FlArnInv vec fin num finK finF o B u e d ortho v s) (hf : FlArnFin fin finK finF s)
    (h0 : 0 < s.iter ∨ s.invariant = false) {n : ℕ} (hn : n ≤ s.iter) (y : Fin n → 𝕜) :
    ‖(vec v - B (∑ j, y j • vec (s.V j))) -
        ∑ i : Fin (n + 1), ((if (i : ℕ) = 0 then (val s.vnorm : 𝕜) else 0) - ∑ j : Fin n, num (s.H i j) * y j) • flBasis vec s i‖ ≤
      ∑ j : Fin n, ‖y j‖ * arnDefect u e d ‖B‖ ortho num s j + u * ‖vec v‖ := by
  set z : Fin (n + 1) → 𝕜 := fun i => (if (i : ℕ) = 0 then (val s.vnorm : 𝕜) else 0) - ∑ j : Fin n, num (s.H i j) * y j with hz
  -- the basis vectors; zero for the one which was not computed
  set b : ℕ → E := flBasis vec s with hb
  have hbV : ∀ i < s.iter, b i = vec (s.V i) := fun i hi => by
    rw [hb, flBasis]
    exact if_neg fun h => by omega
  have hbV' : s.invariant = false → ∀ i, b i = vec (s.V i) := fun hni i => by
    rw [hb, flBasis]
    exact if_neg fun h => by rw [hni] at h; exact absurd h.1 (by decide)
  set D : Fin n → E := fun j => B (vec (s.V j)) - ∑ i ∈ Finset.range (n + 1), num (s.H i j) • b i with hDdef
  have hD : ∀ j, ‖D j‖ ≤ arnDefect u e d ‖B‖ ortho num s j := by
    intro j
    have hj := j.2
    rw [hDdef]
    dsimp only
    have hsum : ∑ i ∈ Finset.range (n + 1), num (s.H i j) • b i = ∑ i ∈ Finset.range ((j : ℕ) + 2), num (s.H i j) • b i := by
      symm
      refine Finset.sum_subset (fun i hi => ?_) (fun i _ hi => ?_)
      · rw [Finset.mem_range] at hi ⊢
        omega
      · rw [Finset.mem_range] at hi
        rw [inv.hess j i (by omega), hv.zero, zero_smul]
    rw [hsum]
    unfold arnDefect
    by_cases hl : s.invariant = true ∧ (j : ℕ) + 1 = s.iter
    · rw [if_pos hl]
      have := inv.last hf j hl.2 hl.1
      rw [Finset.sum_range_succ]
      have hb0 : b ((j : ℕ) + 1) = 0 := by
        rw [hb, flBasis]
        exact if_pos ⟨hl.1, hl.2⟩
      rw [hb0, smul_zero, add_zero]
      rw [Finset.sum_congr rfl (g := fun i => num (s.H i j) • vec (s.V i))]
      · exact this
      · intro i hi
        rw [Finset.mem_range] at hi
        rw [hbV i (by omega)]
    · rw [if_neg hl, add_zero]
      rw [Finset.sum_congr rfl (g := fun i => num (s.H i j) • vec (s.V i))]
      · refine inv.rel hf j ?_
        rcases Nat.lt_or_ge (j + 1) s.iter with h | h
        · exact .inl h
        · exact .inr ⟨by omega, by
            by_contra hc
            exact hl ⟨by simpa using hc, by omega⟩⟩
      · intro i hi
        rw [Finset.mem_range] at hi
        by_cases hi' : i < s.iter
        · rw [hbV i hi']
        · rw [hb, flBasis]
          rw [if_neg]
          rintro ⟨h1, h2⟩
          exact hl ⟨h1, by omega⟩
  have hV0 := inv.first h0
  have hb0 : b 0 = vec (s.V 0) := by
    rcases h0 with h0 | h0
    · exact hbV 0 h0
    · exact hbV' h0 0
  have hfirst : ‖(val s.vnorm : 𝕜) • b 0 - vec v‖ ≤ u * ‖vec v‖ := by
    have hfv := hf.V 0 (by rcases h0 with h0 | h0; exacts [.inl h0, by rcases Nat.eq_zero_or_pos s.iter with h | h; exacts [.inr ⟨h.symm, h0⟩, .inl h]])
    rw [hb0]
    rw [hV0] at hfv ⊢
    exact (hv.sdiv hfv hf.vnorm).2.2
  have key : vec v - B (∑ j, y j • vec (s.V j)) = (∑ i : Fin (n + 1), z i • b i) - (∑ j, y j • D j) - ((val s.vnorm : 𝕜) • b 0 - vec v) := by
    have h1 : B (∑ j, y j • vec (s.V j)) = (∑ j, y j • D j) + ∑ j : Fin n, y j • ∑ i : Fin (n + 1), num (s.H i j) • b i := by
      rw [map_sum, ← Finset.sum_add_distrib]
      refine Finset.sum_congr rfl fun j _ => ?_
      rw [map_smul, hDdef]
      dsimp only
      rw [Finset.sum_range, ← smul_add, sub_add_cancel]
    have h2 : ∑ i : Fin (n + 1), z i • b i = (val s.vnorm : 𝕜) • b 0 - ∑ j : Fin n, y j • ∑ i : Fin (n + 1), num (s.H i j) • b i := by
      simp only [hz, sub_smul, Finset.sum_sub_distrib]
      congr 1
      · rw [Fin.sum_univ_succ]
        simp
      · simp only [Finset.sum_smul, Finset.smul_sum]
        rw [Finset.sum_comm]
        refine Finset.sum_congr rfl fun j _ => Finset.sum_congr rfl fun i _ => ?_
        rw [smul_smul, mul_comm]
    rw [h1, h2]
    abel
  have n2 : ‖∑ j, y j • D j‖ ≤ ∑ j : Fin n, ‖y j‖ * arnDefect u e d ‖B‖ ortho num s j := by
    refine (norm_sum_le _ _).trans (Finset.sum_le_sum fun j _ => ?_)
    rw [norm_smul]
    exact mul_le_mul_of_nonneg_left (hD j) (norm_nonneg _)
  change ‖_ - ∑ i : Fin (n + 1), z i • b i‖ ≤ _
  have e : vec v - B (∑ j, y j • vec (s.V j)) - ∑ i : Fin (n + 1), z i • b i = -((∑ j, y j • D j) + ((val s.vnorm : 𝕜) • b 0 - vec v)) := by
    rw [key]
    abel
  rw [e, norm_neg]
  exact (norm_add_le _ _).trans (add_le_add n2 hfirst)

theorem FlArnInv.residual (hv : FlArnVec o vec fin num finK val finF B u e) (hu0 : 0 ≤ u) (hd : d < 1) (hud : (1 + u) ^ 2 ≤ 2 * (1 - d) ^ 2) {ortho : Ortho}
    {v : X} {s : FlArn F K X} (inv : FlArnInv vec fin num finK finF o B u e d ortho v s) (hf : FlArnFin fin finK finF s)
    (h0 : 0 < s.iter ∨ s.invariant = false) {n : ℕ} (hn : n ≤ s.iter) (y : Fin n → 𝕜) :
    ‖vec v - B (∑ j, y j • vec (s.V j))‖ ≤
      √2 * (√(n + 1 : ℕ) * vecNorm fun i : Fin (n + 1) => (if (i : ℕ) = 0 then (val s.vnorm : 𝕜) else 0) - ∑ j : Fin n, num (s.H i j) * y j) +
        ∑ j : Fin n, ‖y j‖ * arnDefect u e d ‖B‖ ortho num s j + u * ‖vec v‖ := by
  have hdef := inv.defect hv hf h0 hn y
  set z : Fin (n + 1) → 𝕜 := fun i => (if (i : ℕ) = 0 then (val s.vnorm : 𝕜) else 0) - ∑ j : Fin n, num (s.H i j) * y j with hz
  set b : ℕ → E := flBasis vec s with hb
  have hunit : ∀ i : Fin (n + 1), ‖b i‖ ≤ √2 := by
    intro i
    have hi2 := i.2
    rw [hb, flBasis]
    split_ifs with hc
    · rw [norm_zero]
      exact Real.sqrt_nonneg _
    refine Real.le_sqrt_of_sq_le ((inv.unit hf i ?_).sq hu0 hd hud)
    rcases Nat.lt_or_ge i s.iter with h | h
    · exact .inl h
    · exact .inr ⟨by omega, by
        by_contra hc'
        exact hc ⟨by simpa using hc', by omega⟩⟩
  have n1 : ‖∑ i : Fin (n + 1), z i • b i‖ ≤ √2 * (√(n + 1 : ℕ) * vecNorm z) := by
    refine (norm_sum_le _ _).trans ?_
    calc ∑ i, ‖z i • b i‖ ≤ ∑ i, ‖z i‖ * √2 := Finset.sum_le_sum fun i _ => by
          rw [norm_smul]
          exact mul_le_mul_of_nonneg_left (hunit i) (norm_nonneg _)
      _ = √2 * ∑ i, ‖z i‖ := by rw [← Finset.sum_mul, mul_comm]
      _ ≤ _ := mul_le_mul_of_nonneg_left (sum_norm_le_vecNorm z) (Real.sqrt_nonneg _)
  have t1 := norm_add_le ((vec v - B (∑ j, y j • vec (s.V j))) - ∑ i : Fin (n + 1), z i • b i) (∑ i : Fin (n + 1), z i • b i)
  rw [sub_add_cancel] at t1
  have hdef' : ‖(vec v - B (∑ j, y j • vec (s.V j))) - ∑ i : Fin (n + 1), z i • b i‖ ≤ _ := hdef
  linarith

/-- C79: the consequence for GMRES-like methods: whatever coefficients `y` are chosen, the norm of the residual `v - A V y` of the combination is at most `√(2(n+1))` times
the norm of the residual `‖v‖ e₁ - H y` of the small system plus errors of the columns used, however little orthogonal the basis vectors are. -/
theorem C79_residual [Zero X] (hv : FlArnVec o vec fin num finK val finF B u e) (hi : FlArnIp o vec fin num finK val finF d) (hu0 : 0 ≤ u) (hu : u < 1)
    (hd0 : 0 ≤ d) (hd : d < 1) (he0 : 0 ≤ e) (hud : (1 + u) ^ 2 ≤ 2 * (1 - d) ^ 2) (hM : o.M = none) {ortho : Ortho} (ho : ortho ≠ .lanczos)
    {maxiter : ℕ} {v : X} {Mv : Option X} {MvNorm : Option F} (hMv : ∀ r, MvNorm = some r → |val r - ‖vec v‖| ≤ d * ‖vec v‖) {s : FlArn F K X}
    (h : flArnoldi o ortho maxiter v Mv MvNorm = .ok s) (hf : FlArnFin fin finK finF s) (h0 : 0 < s.iter ∨ s.invariant = false) {n : ℕ} (hn : n ≤ s.iter)
    (y : Fin n → 𝕜) :
    ‖vec v - B (∑ j, y j • vec (s.V j))‖ ≤
      √2 * (√(n + 1 : ℕ) * vecNorm fun i : Fin (n + 1) => (if (i : ℕ) = 0 then (val s.vnorm : 𝕜) else 0) - ∑ j : Fin n, num (s.H i j) * y j) +
        ∑ j : Fin n, ‖y j‖ * arnDefect u e d ‖B‖ ortho num s j + u * ‖vec v‖ :=
  (flArnoldi_inv hv hi hu0 hu hd0 hd he0 hud hM ho hMv h).residual hv hu0 hd hud hf h0 hn y

end

/-! ## Componentwise rounding errors -/

section
variable {𝕜 : Type*} [RCLike 𝕜] {F K X : Type*} {n : ℕ}
open Matrix

/-- Array operations of numpy with the rounding errors of `FlPar` for a matrix `A`, `M=None` and the Euclidean inner product. -/
structure FlArnComp (p : FlPar) (o : FlArnOps F K X) (vec : X → Fin n → 𝕜) (fin : X → Prop) (num : K → 𝕜) (finK : K → Prop) (val : F → ℝ) (finF : F → Prop)
    (A : Matrix (Fin n) (Fin n) 𝕜) : Prop where
  sub : ∀ {x y}, fin (o.sub x y) → fin x ∧ fin y ∧ ∀ i, ‖vec (o.sub x y) i - (vec x i - vec y i)‖ ≤ p.u * ‖vec x i - vec y i‖
  scale : ∀ {c x}, fin (o.scale c x) → finK c ∧ fin x ∧ ∀ i, ‖vec (o.scale c x) i - num c * vec x i‖ ≤ p.v * ‖num c * vec x i‖
  sdiv : ∀ {x r}, fin (o.sdiv x r) → finF r → fin x ∧ val r ≠ 0 ∧ ∀ i, ‖vec (o.sdiv x r) i - vec x i / (val r : 𝕜)‖ ≤ p.u * ‖vec x i / (val r : 𝕜)‖
  A : ∀ {x}, fin (o.A x) → fin x ∧ ∀ i, FlDot p (A i) (vec x) (vec (o.A x) i)
  acc : ∀ {a b}, finK (o.acc a b) → finK a ∧ finK b ∧ ‖num (o.acc a b) - (num a + num b)‖ ≤ p.u * ‖num a + num b‖
  ofReal : ∀ {r}, finK (o.ofReal r) → finF r ∧ num (o.ofReal r) = (val r : 𝕜)
  zero : num o.zero = 0
  ip : ∀ {x y}, finK (o.ip x y) → FlDot p (star (vec x)) (vec y) (num (o.ip x y))
  norm : ∀ {x y r}, o.norm x y = .ok r → finF r → fin x ∧ (y = none → FlNorm p (vec x) (val r))

/-- Relative error of a norm. -/
theorem flNorm_err {p : FlPar} (hp : p.Nonneg) (hη : p.η = 0) {x : Fin n → 𝕜} {N : ℝ} (h : FlNorm p x N) :
    |N - ‖(WithLp.toLp 2 x : EuclideanSpace 𝕜 (Fin n))‖| ≤ (p.gam n + p.w * (1 + p.gam n)) * ‖(WithLp.toLp 2 x : EuclideanSpace 𝕜 (Fin n))‖ := by
  have g0 := hp.gam_nonneg n
  obtain ⟨q, hq, hN⟩ := h
  have h3 := hq.self hp
  rw [FlPar.und, hη, mul_zero, add_zero] at h3
  rw [← vecNorm_toLp]
  set X := vecNorm (x) with hX
  have hX0 : 0 ≤ X := vecNorm_nonneg _
  set Q := Real.sqrt ‖q‖ with hQ
  have hQ0 : 0 ≤ Q := Real.sqrt_nonneg _
  have hQ2 : Q ^ 2 = ‖q‖ := Real.sq_sqrt (norm_nonneg q)
  rw [← hQ2] at h3
  have h4 : |Q - X| ≤ p.gam n * X := by
    have h5 : |Q ^ 2 - X ^ 2| = |Q - X| * (Q + X) := by
      rw [show Q ^ 2 - X ^ 2 = (Q - X) * (Q + X) by ring, abs_mul, abs_of_nonneg (show 0 ≤ Q + X by positivity)]
    rw [h5] at h3
    rcases hX0.eq_or_lt with h0 | h0
    · have hQz : Q ^ 2 = 0 := by
        have : |Q - X| * (Q + X) ≤ 0 := by rw [← h0] at h3 ⊢; simpa using h3
        rw [← h0, sub_zero, add_zero, abs_of_nonneg hQ0] at this
        nlinarith
      have : Q = 0 := by simpa using hQz
      rw [this, ← h0]
      simp
    · have h6 : |Q - X| * X ≤ p.gam n * X * X := by
        have : |Q - X| * X ≤ |Q - X| * (Q + X) := mul_le_mul_of_nonneg_left (by linarith) (abs_nonneg _)
        nlinarith
      exact le_of_mul_le_mul_right h6 h0
  have h7 : Q ≤ (1 + p.gam n) * X := by
    have := (abs_le.mp h4).2
    linarith
  have h8 := abs_sub_le (N) Q X
  have h9 : p.w * Q ≤ p.w * ((1 + p.gam n) * X) := mul_le_mul_of_nonneg_left h7 hp.w
  calc |N - X| ≤ |N - Q| + |Q - X| := h8
    _ ≤ p.w * ((1 + p.gam n) * X) + p.gam n * X := add_le_add (hN.trans h9) h4
    _ = (p.gam n + p.w * (1 + p.gam n)) * X := by ring

/-- C79: componentwise rounding errors (without underflow) give the assumptions of the theorems above. -/
theorem C79_componentwise {p : FlPar} (hp : p.Nonneg) (hη : p.η = 0) {o : FlArnOps F K X} {vec : X → Fin n → 𝕜} {fin : X → Prop} {num : K → 𝕜} {finK : K → Prop}
    {val : F → ℝ} {finF : F → Prop} {A : Matrix (Fin n) (Fin n) 𝕜} (h : FlArnComp p o vec fin num finK val finF A) :
    FlArnVec o (fun x => (WithLp.toLp 2 (vec x) : EuclideanSpace 𝕜 (Fin n))) fin num finK val finF (Matrix.toEuclideanCLM (n := Fin n) (𝕜 := 𝕜) A)
      (max p.u p.v) (p.gam n * frob A) ∧
    FlArnIp o (fun x => (WithLp.toLp 2 (vec x) : EuclideanSpace 𝕜 (Fin n))) fin num finK val finF (p.gam n + p.w * (1 + p.gam n)) := by
  have hm : 0 ≤ max p.u p.v := hp.u.trans (le_max_left _ _)
  have g0 := hp.gam_nonneg n
  refine ⟨⟨fun {x y} hz => ?_, fun {c x} hz => ?_, fun {x r} hz hr => ?_, fun {x} hz => ?_, fun {a b} hz => ?_, h.ofReal, h.zero⟩, ⟨fun {x y} hz => ?_, fun {x y r} hn hr => ?_⟩⟩
  · obtain ⟨h1, h2, h3⟩ := h.sub hz
    refine ⟨h1, h2, ?_⟩
    rw [← WithLp.toLp_sub, ← WithLp.toLp_sub]
    exact norm_toLp_le hm fun i => (h3 i).trans (mul_le_mul_of_nonneg_right (le_max_left _ _) (norm_nonneg _))
  · obtain ⟨h1, h2, h3⟩ := h.scale hz
    refine ⟨h1, h2, ?_⟩
    rw [← WithLp.toLp_smul, ← WithLp.toLp_sub]
    exact norm_toLp_le hm fun i => (h3 i).trans (mul_le_mul_of_nonneg_right (le_max_right _ _) (norm_nonneg _))
  · obtain ⟨h1, h2, h3⟩ := h.sdiv hz hr
    refine ⟨h1, h2, ?_⟩
    rw [← WithLp.toLp_smul, ← WithLp.toLp_sub]
    have hr0 : (val r : 𝕜) ≠ 0 := by simpa using h2
    refine norm_toLp_le hm fun i => ?_
    have h4 := mul_le_mul_of_nonneg_left (h3 i) (norm_nonneg (val r : 𝕜))
    rw [← norm_mul, mul_left_comm, ← norm_mul, mul_sub, mul_div_cancel₀ _ hr0] at h4
    exact h4.trans (mul_le_mul_of_nonneg_right (le_max_left _ _) (norm_nonneg _))
  · obtain ⟨h1, h2⟩ := h.A hz
    refine ⟨h1, ?_⟩
    rw [Matrix.toEuclideanCLM_toLp, ← WithLp.toLp_sub, ← vecNorm_toLp, ← vecNorm_toLp]
    set a := vec x
    set w := vec (o.A x)
    have h3 : ∀ i, ‖(w - Matrix.toLin' A a) i‖ ≤ p.gam n * (Real.sqrt (∑ j, ‖A i j‖ ^ 2) * vecNorm a) := by
      intro i
      have h4 := C77_dot hp (h2 i)
      rw [FlPar.und, hη, mul_zero, add_zero] at h4
      refine (show ‖w i - A i ⬝ᵥ a‖ ≤ _ from h4).trans (mul_le_mul_of_nonneg_left ?_ g0)
      exact Real.sum_mul_le_sqrt_mul_sqrt Finset.univ (fun j => ‖A i j‖) (fun j => ‖a j‖)
    refine Real.sqrt_le_iff.mpr ⟨mul_nonneg (mul_nonneg g0 (Real.sqrt_nonneg _)) (vecNorm_nonneg a), ?_⟩
    refine (Finset.sum_le_sum fun i _ => pow_le_pow_left₀ (norm_nonneg _) (h3 i) 2).trans (le_of_eq ?_)
    have h5 : frob A ^ 2 = ∑ i, ∑ j, ‖A i j‖ ^ 2 := Real.sq_sqrt (Finset.sum_nonneg fun i _ => Finset.sum_nonneg fun j _ => sq_nonneg _)
    rw [mul_pow, mul_pow, h5, Finset.mul_sum, Finset.sum_mul]
    refine Finset.sum_congr rfl fun i _ => ?_
    rw [mul_pow, mul_pow, Real.sq_sqrt (Finset.sum_nonneg fun j _ => sq_nonneg _)]
    ring
  · obtain ⟨h1, h2, h3⟩ := h.acc hz
    exact ⟨h1, h2, h3.trans (mul_le_mul_of_nonneg_right (le_max_left _ _) (norm_nonneg _))⟩
  · have h1 := C77_dot hp (h.ip hz)
    rw [FlPar.und, hη, mul_zero, add_zero] at h1
    have h2 : inner 𝕜 (WithLp.toLp 2 (vec x) : EuclideanSpace 𝕜 (Fin n)) (WithLp.toLp 2 (vec y)) = star (vec x) ⬝ᵥ vec y := by
      rw [EuclideanSpace.inner_toLp_toLp, dotProduct_comm]
    rw [h2, ← vecNorm_toLp, ← vecNorm_toLp]
    have h3 : ∑ i, ‖star (vec x) i‖ * ‖vec y i‖ ≤ vecNorm (vec x) * vecNorm (vec y) := by
      have := Real.sum_mul_le_sqrt_mul_sqrt Finset.univ (fun i => ‖vec x i‖) (fun i => ‖vec y i‖)
      simpa [vecNorm] using this
    refine h1.trans ((mul_le_mul_of_nonneg_left h3 g0).trans (mul_le_mul_of_nonneg_right ?_ (mul_nonneg (vecNorm_nonneg _) (vecNorm_nonneg _))))
    have := mul_nonneg hp.w (show 0 ≤ 1 + p.gam n by linarith)
    linarith
  · obtain ⟨h1, h2⟩ := h.norm hn hr
    refine ⟨h1, fun hy => ?_⟩
    exact flNorm_err hp hη (h2 hy)

end

/-! ## Double precision -/

theorem orthoGrow_pow_le {u d : ℝ} (hu0 : 0 ≤ u) (hu : u ≤ 2⁻¹ ^ 53) (hd0 : 0 ≤ d) (hd : d ≤ 1.2 / 10 ^ 10) {m : ℕ} (hm : m ≤ 2000) :
    orthoGrow u d ^ m ≤ 1 + 1 / 10 ^ 6 := by
  have hg : orthoGrow u d ≤ 1 + 3 / 10 ^ 10 := by
    unfold orthoGrow
    have h1 : (1 + u) * (1 + 2 * d + 2 * u * (1 + d)) ≤ (1 + 2⁻¹ ^ 53) * (1 + 2 * (1.2 / 10 ^ 10) + 2 * 2⁻¹ ^ 53 * (1 + 1.2 / 10 ^ 10)) := by gcongr
    refine h1.trans ?_
    norm_num
  have hg0 : 0 ≤ orthoGrow u d := by linarith [one_le_orthoGrow hu0 hd0]
  have h1 : orthoGrow u d ^ m ≤ (1 + 3 / 10 ^ 10 : ℝ) ^ m := pow_le_pow_left₀ hg0 hg m
  have hmr : (m : ℝ) ≤ 2000 := by exact_mod_cast hm
  have b1 : 1 + (m : ℝ) * (-(3 / 10 ^ 10)) ≤ (1 + -(3 / 10 ^ 10 : ℝ)) ^ m := one_add_mul_le_pow (by norm_num) m
  have b2 : (1 + 3 / 10 ^ 10 : ℝ) ^ m * (1 + -(3 / 10 ^ 10)) ^ m ≤ 1 := by
    rw [← mul_pow]
    exact pow_le_one₀ (by norm_num) (by norm_num)
  have b4 : (1 : ℝ) ≤ (1 + 3 / 10 ^ 10 : ℝ) ^ m := one_le_pow₀ (by norm_num)
  refine h1.trans ?_
  set G := (1 + 3 / 10 ^ 10 : ℝ) ^ m
  have b5 : (1 : ℝ) - 2000 * (3 / 10 ^ 10) ≤ (1 + -(3 / 10 ^ 10 : ℝ)) ^ m := by
    refine le_trans ?_ b1
    nlinarith
  have b6 : G * (1 - 2000 * (3 / 10 ^ 10)) ≤ 1 := (mul_le_mul_of_nonneg_left b5 (by linarith)).trans b2
  norm_num at b6 ⊢
  linarith

theorem arnBound_double {u e d nB : ℝ} (hu0 : 0 ≤ u) (hu : u ≤ 2⁻¹ ^ 53) (hd0 : 0 ≤ d) (hd : d ≤ 1.2 / 10 ^ 10) (he : 0 ≤ e) (hB : 0 ≤ nB) {ortho : Ortho} {n : ℕ}
    (hn : n < 1000) : arnBound u e d nB ortho n ≤ 1.42 * e + 3 / 10 ^ 12 * (nB + e) := by
  have hr : ortho.reorthos + 1 ≤ 2 := by cases ortho <;> decide
  have hm : arnSteps ortho n ≤ 2000 := by
    unfold arnSteps
    calc (ortho.reorthos + 1) * (n + 1) ≤ 2 * 1000 := Nat.mul_le_mul hr (by omega)
      _ = 2000 := rfl
  have hs2 : √2 ≤ 1.4143 := by
    rw [Real.sqrt_le_left (by norm_num)]
    norm_num
  have hW : arnW u e d nB ortho n ≤ 1.415 * (nB + e) := by
    unfold arnW
    have h1 := orthoGrow_pow_le hu0 hu hd0 hd hm
    calc orthoGrow u d ^ arnSteps ortho n * (√2 * (nB + e)) ≤ (1 + 1 / 10 ^ 6) * (1.4143 * (nB + e)) := by gcongr
      _ ≤ 1.415 * (nB + e) := by nlinarith
  have hg0 : 0 ≤ orthoGrow u d := by linarith [one_le_orthoGrow hu0 hd0]
  have hW0 : 0 ≤ arnW u e d nB ortho n := by
    unfold arnW
    positivity
  set W := arnW u e d nB ortho n with hWd
  have hD : arnD u e d nB ortho n ≤ 4.01 * W := by
    unfold arnD
    rw [← hWd]
    have hp : (1 + u) ^ (ortho.reorthos + 1) ≤ (1 + 2⁻¹ ^ 53 : ℝ) ^ 2 :=
      (pow_le_pow_left₀ (by linarith) (by linarith) _).trans (pow_le_pow_right₀ (by norm_num) hr)
    have hr' : ((ortho.reorthos + 1 : ℕ) : ℝ) ≤ 2 := by exact_mod_cast hr
    calc ((ortho.reorthos + 1 : ℕ) : ℝ) * ((1 + u) ^ (ortho.reorthos + 1) * (2 * (1 + d) * W)) ≤
        2 * ((1 + 2⁻¹ ^ 53) ^ 2 * (2 * (1 + 1.2 / 10 ^ 10) * W)) := by gcongr
      _ = (4 * (1 + 2⁻¹ ^ 53) ^ 2 * (1 + 1.2 / 10 ^ 10)) * W := by ring
      _ ≤ 4.01 * W := mul_le_mul_of_nonneg_right (by norm_num) hW0
  have hD0 : 0 ≤ arnD u e d nB ortho n := by
    unfold arnD
    positivity
  set D := arnD u e d nB ortho n with hDd
  have hm' : (arnSteps ortho n : ℝ) ≤ 2000 := by exact_mod_cast hm
  have hu1 : 0 < 1 - u := by
    have : (2⁻¹ : ℝ) ^ 53 < 1 := by norm_num
    linarith
  have hi : 1 / (1 - u) ≤ 1.001 := by
    rw [div_le_iff₀ hu1]
    have : (2⁻¹ : ℝ) ^ 53 ≤ 1 / 10 ^ 6 := by norm_num
    linarith
  have hi2 : 1 / (1 - u) ^ 2 ≤ 1.01 := by
    have h1 : 1 / (1 - u) ^ 2 = (1 / (1 - u)) ^ 2 := by rw [div_pow, one_pow]
    rw [h1]
    calc (1 / (1 - u)) ^ 2 ≤ 1.001 ^ 2 := pow_le_pow_left₀ (by positivity) hi 2
      _ ≤ 1.01 := by norm_num
  have c0 : (0 : ℝ) ≤ 2⁻¹ ^ 53 := by norm_num
  have t1 : 3 * u * W / (1 - u) ^ 2 ≤ 3.1 * 2⁻¹ ^ 53 * W := by
    calc 3 * u * W / (1 - u) ^ 2 = 3 * u * W * (1 / (1 - u) ^ 2) := by ring
      _ ≤ 3 * 2⁻¹ ^ 53 * W * 1.01 := by gcongr
      _ ≤ 3.1 * 2⁻¹ ^ 53 * W := by nlinarith
  have t2 : u * D / (1 - u) ≤ 4.02 * 2⁻¹ ^ 53 * W := by
    calc u * D / (1 - u) = u * D * (1 / (1 - u)) := by ring
      _ ≤ 2⁻¹ ^ 53 * (4.01 * W) * 1.001 :=
          mul_le_mul (mul_le_mul hu hD hD0 c0) hi (by positivity) (mul_nonneg c0 (mul_nonneg (by norm_num) hW0))
      _ ≤ 4.02 * 2⁻¹ ^ 53 * W := by nlinarith
  have t3 : (arnSteps ortho n : ℝ) * (3 * u * W / (1 - u) ^ 2 + u * D / (1 - u)) ≤ 2000 * (3.1 * 2⁻¹ ^ 53 * W + 4.02 * 2⁻¹ ^ 53 * W) := by
    have h0 : 0 ≤ 3 * u * W / (1 - u) ^ 2 + u * D / (1 - u) := by positivity
    gcongr
  have t4 : u * W ≤ 2⁻¹ ^ 53 * W := by gcongr
  have t5 : e * √2 ≤ 1.42 * e := by nlinarith
  unfold arnBound
  rw [← hWd, ← hDd]
  have t6 : 3.1 * 2⁻¹ ^ 53 * W + 2000 * (3.1 * 2⁻¹ ^ 53 * W + 4.02 * 2⁻¹ ^ 53 * W) + 2⁻¹ ^ 53 * W ≤ 3 / 10 ^ 12 * (nB + e) := by
    have : 3.1 * 2⁻¹ ^ 53 * W + 2000 * (3.1 * 2⁻¹ ^ 53 * W + 4.02 * 2⁻¹ ^ 53 * W) + 2⁻¹ ^ 53 * W = (3.1 + 2000 * 7.12 + 1) * 2⁻¹ ^ 53 * W := by ring
    rw [this]
    calc (3.1 + 2000 * 7.12 + 1 : ℝ) * 2⁻¹ ^ 53 * W ≤ (3.1 + 2000 * 7.12 + 1) * 2⁻¹ ^ 53 * (1.415 * (nB + e)) := by gcongr
      _ = ((3.1 + 2000 * 7.12 + 1) * 2⁻¹ ^ 53 * 1.415) * (nB + e) := by ring
      _ ≤ 3 / 10 ^ 12 * (nB + e) := mul_le_mul_of_nonneg_right (by norm_num) (by positivity)
  linarith

open Matrix in
/-- C79 in real double precision without underflow, for a matrix with at most a million rows and at most 1000 steps of `mgs` or `dmgs`: the columns of `A V - V H` have norm at most
`1.6e-10 ‖A‖_F + 3e-12 ‖A‖`. -/
theorem C79_double {N : ℕ} (h1 : 1 ≤ N) (hN : N ≤ 1000000) {F K X : Type*} [Zero X] {o : FlArnOps F K X} {vec : X → Fin N → ℝ} {fin : X → Prop} {num : K → ℝ}
    {finK : K → Prop} {val : F → ℝ} {finF : F → Prop} {A : Matrix (Fin N) (Fin N) ℝ} (hc : FlArnComp flDouble o vec fin num finK val finF A) (hM : o.M = none)
    {ortho : Ortho} (ho : ortho ≠ .lanczos) {maxiter : ℕ} {v : X} {Mv : Option X} {s : FlArn F K X}
    (h : flArnoldi o ortho maxiter v Mv none = .ok s) (hf : FlArnFin fin finK finF s) {n : ℕ} (hn : n < 1000)
    (hns : n + 1 < s.iter ∨ (n + 1 = s.iter ∧ s.invariant = false)) :
    vecNorm (A *ᵥ vec (s.V n) - ∑ j ∈ Finset.range (n + 2), num (s.H j n) • vec (s.V j)) ≤
      1.6 / 10 ^ 10 * frob A + 3 / 10 ^ 12 * ‖Matrix.toEuclideanCLM (n := Fin N) (𝕜 := ℝ) A‖ := by
  obtain ⟨hv, hi⟩ := C79_componentwise flDouble_nonneg rfl hc
  have hg := flDouble_gam h1 hN
  have g0 := flDouble_nonneg.gam_nonneg N
  have hu : max flDouble.u flDouble.v = 2⁻¹ ^ 53 := by simp [flDouble]
  have hw : flDouble.w = 2⁻¹ ^ 50 := rfl
  set d := flDouble.gam N + flDouble.w * (1 + flDouble.gam N) with hd
  have hd0 : 0 ≤ d := by
    rw [hd, hw]
    positivity
  have hd1 : d ≤ 1.2 / 10 ^ 10 := by
    rw [hd, hw]
    calc flDouble.gam N + 2⁻¹ ^ 50 * (1 + flDouble.gam N) ≤ 1.1103 / 10 ^ 10 + 2⁻¹ ^ 50 * (1 + 1.1103 / 10 ^ 10) := by gcongr
      _ ≤ 1.2 / 10 ^ 10 := by norm_num
  have hF : 0 ≤ frob A := Real.sqrt_nonneg _
  have he0 : 0 ≤ flDouble.gam N * frob A := mul_nonneg g0 hF
  rw [hu] at hv
  have hud : (1 + (2⁻¹ : ℝ) ^ 53) ^ 2 ≤ 2 * (1 - d) ^ 2 := by
    have h2 : (1 - 1.2 / 10 ^ 10 : ℝ) ^ 2 ≤ (1 - d) ^ 2 := pow_le_pow_left₀ (by norm_num) (by linarith) 2
    have h3 : (1 + (2⁻¹ : ℝ) ^ 53) ^ 2 ≤ 2 * (1 - 1.2 / 10 ^ 10 : ℝ) ^ 2 := by norm_num
    linarith
  have hrel := (C79_relation hv hi (by positivity) (by norm_num) hd0 (hd1.trans_lt (by norm_num)) he0 hud hM ho (fun r hr => by cases hr) h hf).2.1 n hns
  have hb := arnBound_double (u := 2⁻¹ ^ 53) (by positivity) le_rfl hd0 hd1 he0
    (norm_nonneg (Matrix.toEuclideanCLM (n := Fin N) (𝕜 := ℝ) A)) (ortho := ortho) hn
  have he : flDouble.gam N * frob A ≤ 1.1103 / 10 ^ 10 * frob A := mul_le_mul_of_nonneg_right hg hF
  have hlhs : vecNorm (A *ᵥ vec (s.V n) - ∑ j ∈ Finset.range (n + 2), num (s.H j n) • vec (s.V j)) =
      ‖Matrix.toEuclideanCLM (n := Fin N) (𝕜 := ℝ) A (WithLp.toLp 2 (vec (s.V n))) -
        ∑ j ∈ Finset.range (n + 2), num (s.H j n) • (WithLp.toLp 2 (vec (s.V j)) : EuclideanSpace ℝ (Fin N))‖ := by
    rw [vecNorm_toLp, WithLp.toLp_sub, Matrix.toEuclideanCLM_toLp, WithLp.toLp_sum]
    rfl
  rw [hlhs]
  refine hrel.trans (hb.trans ?_)
  have := norm_nonneg (Matrix.toEuclideanCLM (n := Fin N) (𝕜 := ℝ) A)
  nlinarith

/-! ## The hypotheses can be met -/

/-- An arithmetic on `ℂ`, as a real vector space of dimension two, whose multiplications with numbers have a relative error of one percent; `none` is NaN. -/
noncomputable def roundArn : FlArnOps ℝ ℝ (Option ℂ) where
  A x := x.map fun a => (1 + Complex.I) * a
  M := none
  sub x y := x.bind fun a => y.map fun b => a - b
  scale c x := x.map fun a => (1.01 * c : ℝ) • a
  sdiv x r := if r = 0 then none else x.map fun a => (r⁻¹ : ℝ) • a
  ip x y := inner ℝ (x.getD 0) (y.getD 0)
  re := id
  acc := (· + ·)
  zero := 0
  ofReal := id
  norm x _ := match x with
    | none => .error .nonFinite
    | some a => .ok ‖a‖
  tiny _ _ _ _ := false
  pos r := decide (0 < r)

theorem roundArn_vec : FlArnVec (𝕜 := ℝ) roundArn (fun x => x.getD 0) (fun x => x.isSome = true) id (fun _ => True) id (fun _ => True)
    (ContinuousLinearMap.mul ℝ ℂ (1 + Complex.I)) (1 / 100) 0 where
  sub {x y} h := by
    cases x <;> cases y <;> simp [roundArn] at h ⊢
  scale {c x} h := by
    cases x with
    | none => simp [roundArn] at h
    | some a =>
      refine ⟨trivial, rfl, ?_⟩
      simp only [roundArn, Option.map_some, Option.getD_some, id]
      rw [← sub_smul, norm_smul, norm_smul, ← mul_assoc]
      refine mul_le_mul_of_nonneg_right ?_ (norm_nonneg _)
      rw [Real.norm_eq_abs, Real.norm_eq_abs, show (1.01 * c - c : ℝ) = 1 / 100 * c by ring, abs_mul]
      norm_num
  sdiv {x r} h _ := by
    by_cases hr : r = 0
    · simp [roundArn, hr] at h
    · cases x with
      | none => simp [roundArn, hr] at h
      | some a =>
        refine ⟨rfl, hr, ?_⟩
        simp [roundArn, hr]
  A {x} h := by
    cases x with
    | none => simp [roundArn] at h
    | some a =>
      refine ⟨rfl, ?_⟩
      simp [roundArn]
      ring
  acc _ := ⟨trivial, trivial, by simp [roundArn]⟩
  ofReal _ := ⟨trivial, rfl⟩
  zero := rfl

theorem roundArn_ip : FlArnIp (𝕜 := ℝ) roundArn (fun x => x.getD 0) (fun x => x.isSome = true) id (fun _ => True) id (fun _ => True) 0 where
  ip _ := by simp [roundArn]
  norm {x y r} h _ := by
    cases x with
    | none => cases h
    | some a =>
      obtain rfl := Except.ok.inj h
      exact ⟨rfl, fun _ => by simp⟩

/-- The zero array. -/
@[reducible] def zeroOptC : Zero (Option ℂ) := ⟨some 0⟩

attribute [local instance] zeroOptC

/-- The vector which is normalised in the first step. -/
noncomputable def roundW : ℂ := (1 + Complex.I) * 1 - ((1.01 * 1 : ℝ) • (1 : ℂ))

theorem roundW_ne : ‖roundW‖ ≠ 0 := by
  rw [norm_ne_zero_iff]
  intro h
  have := congrArg Complex.im h
  simp [roundW] at this

/-- The state before and after the first step. -/
noncomputable def roundArn0 : FlArn ℝ ℝ (Option ℂ) := ⟨0, Function.update 0 0 (some 1), Function.update 0 0 (some 1), fun _ _ => 0, false, 1⟩

noncomputable def roundArn1 : FlArn ℝ ℝ (Option ℂ) :=
  ⟨1, Function.update (Function.update 0 0 (some 1)) 1 (some ((‖roundW‖⁻¹ : ℝ) • roundW)), Function.update (Function.update 0 0 (some 1)) 1 (some ((‖roundW‖⁻¹ : ℝ) • roundW)),
    fun i j => if j = 0 then Function.update (Function.update (fun _ => (0 : ℝ)) 0 1) 1 ‖roundW‖ i else 0, false, 1⟩

theorem roundArn_advance : flArnAdvance roundArn .mgs 1 roundArn0 = .ok roundArn1 := by
  have hip : roundArn.ip (some 1) (some ((1 + Complex.I) * 1)) = 1 := by
    simp [roundArn, Complex.inner]
  have hn := roundW_ne
  have hfold : (flOrthoList .mgs 0).foldl (flOrthoStep roundArn .mgs (Function.update 0 0 (some 1)) (Function.update 0 0 (some 1)))
      (flOrthoStart roundArn .mgs roundArn0) = (some roundW, Function.update (fun _ => (0 : ℝ)) 0 1) := by
    have hl : flOrthoList .mgs 0 = [0] := by decide
    rw [hl, List.foldl_cons, List.foldl_nil]
    have hs : flOrthoStart roundArn .mgs roundArn0 = (some ((1 + Complex.I) * 1), fun _ => 0) := by
      unfold flOrthoStart
      simp [roundArn, roundArn0]
    rw [hs]
    unfold flOrthoStep
    simp only [Function.update_self, hip, reduceCtorEq, if_false]
    simp [roundArn, roundW]
  unfold roundArn0 at hfold ⊢
  unfold flArnAdvance
  simp only [hfold]
  simp [roundArn, roundArn1, hn]

theorem roundArn1_fin : FlArnFin (fun x => x.isSome = true) (fun _ : ℝ => True) (fun _ : ℝ => True) roundArn1 := by
  refine ⟨trivial, ?_, fun _ _ _ _ => trivial⟩
  intro j hj
  have : j = 0 ∨ j = 1 := by simp [roundArn1] at hj; omega
  rcases this with rfl | rfl <;> simp [roundArn1]

theorem roundArn1_oblique : inner ℝ ((roundArn1.V 0).getD 0) ((roundArn1.V 1).getD 0) ≠ 0 := by
  have hwr : roundW.re = -0.01 := by
    simp [roundW]
    norm_num
  simp [roundArn1, Complex.inner, hwr, norm_ne_zero_iff.mp roundW_ne]
  norm_num

/-- The hypotheses of `C79_relation` and `C79_residual` hold in this arithmetic: one step with `A = 1 + i` gives finite arrays, and the new vector is not
orthogonal to the first. -/
example : ∃ s, flArnoldi roundArn .mgs 1 (some 1) none none = .ok s ∧ FlArnFin (fun x => x.isSome = true) (fun _ => True) (fun _ => True) s ∧ s.iter = 1 ∧
    s.invariant = false ∧ (1 + (1 / 100 : ℝ)) ^ 2 ≤ 2 * (1 - 0) ^ 2 ∧ inner ℝ ((s.V 0).getD 0) ((s.V 1).getD 0) ≠ 0 := by
  have hinit : flArnInit roundArn (some 1) none none = .ok roundArn0 := by
    unfold flArnInit flStartV flStartNorm roundArn0
    simp [roundArn]
  refine ⟨roundArn1, ?_, roundArn1_fin, rfl, rfl, by norm_num, roundArn1_oblique⟩
  unfold flArnoldi
  rw [hinit]
  dsimp only
  unfold flArnLoop
  rw [if_pos ⟨by decide, rfl⟩]
  rw [roundArn_advance]
  dsimp only
  unfold flArnLoop
  simp [roundArn1]

end Krypy
