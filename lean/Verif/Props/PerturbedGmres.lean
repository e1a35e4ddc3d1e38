import Verif.Model.PerturbedGmres
import Verif.Proofs.Resolvent
import Verif.Props.SolverTotal
import Mathlib.Analysis.InnerProductSpace.Basic
import Mathlib.Analysis.Normed.Operator.NormedSpace

/-! # Property C64: the perturbation bound for GMRES (`utils.bound_perturbed_gmres`) -/

set_option linter.unusedSectionVars false

namespace Krypy
open Polynomial
open scoped Real

/-! ## Specification -/

/-- Outside of the disc of radius `R` around `c`, `z - a` is invertible and the norm of the inverse is at most `1/delta`: the
`delta`-pseudospectrum of `a` lies in the disc. -/
def PseudoIn {𝒜 : Type*} [NormedRing 𝒜] [NormedAlgebra ℂ 𝒜] (a : 𝒜) (delta : ℝ) (c : ℂ) (R : ℝ) : Prop :=
  ∀ z : ℂ, R ≤ ‖z - c‖ → ∃ r : 𝒜, (z • 1 - a) * r = 1 ∧ r * (z • 1 - a) = 1 ∧ ‖r‖ ≤ 1 / delta

/-- The system `A x = b` in a Hilbert space, without preconditioners. -/
noncomputable def plainSys {E : Type*} [NormedAddCommGroup E] [InnerProductSpace ℂ E] (A : E →L[ℂ] E) (b : E) : LSArgs ℂ E :=
  ⟨A, b, LinearMap.id, LinearMap.id, LinearMap.id, fun x y => inner ℂ x y, none, false, false⟩

/-! ## Values -/

theorem npMax_greatest (t : ℝ) (l : List ℝ) : IsGreatest {x | x ∈ t :: l} (npMax t l) := by
  induction l generalizing t with
  | nil => exact ⟨by simp [npMax], fun x hx => le_of_eq (by simpa [npMax] using hx)⟩
  | cons a l ih =>
    have h := ih (max t a)
    refine ⟨?_, ?_⟩
    · have := h.1
      simp only [Set.mem_ofPred_eq, List.mem_cons] at this ⊢
      rcases this with h1 | h1
      · rcases max_choice t a with h2 | h2
        · left; rw [npMax, h1, h2]
        · right; left; rw [npMax, h1, h2]
      · exact Or.inr (Or.inr h1)
    · intro x hx
      simp only [Set.mem_ofPred_eq, List.mem_cons] at hx
      have hm : max t a ≤ npMax (max t a) l := h.2 (by simp)
      rcases hx with rfl | rfl | hx
      · exact (le_max_left _ _).trans hm
      · exact (le_max_right _ _).trans hm
      · exact h.2 (by simp [hx])

variable {paths : ℝ → Except Err (List ℂ × ℝ)} {p : ℂ → ℂ} {eps : ℝ}

theorem perturbedEntry_ok {delta v : ℝ} (h : perturbedEntry paths p eps delta = .ok v) :
    ∃ V L M, paths delta = .ok (V, L) ∧ IsGreatest {x | ∃ z ∈ V, x = ‖p z‖} M ∧ delta ≠ 0 ∧
      v = eps / (delta - eps) * L / (2 * π * delta) * M := by
  unfold perturbedEntry at h
  split at h
  · simp at h
  next V L hp =>
    split at h
    · simp at h
    next a l hv =>
      dsimp only at h
      split at h
      · simp at h
      next hne =>
        refine ⟨V, L, npMax a l, hp, ?_, fun h0 => hne (by simp [h0]), (Except.ok.inj h).symm⟩
        have : {x | ∃ z ∈ V, x = ‖p z‖} = {x | x ∈ a :: l} := by
          ext x
          simp only [Set.mem_ofPred_eq, ← hv, List.mem_map]
          exact ⟨fun ⟨z, hz, e⟩ => ⟨z, hz, e.symm⟩, fun ⟨z, hz, e⟩ => ⟨z, hz, e.symm⟩⟩
        rw [this]
        exact npMax_greatest a l

theorem perturbedEntry_total {delta : ℝ} {V : List ℂ} {L : ℝ} (hp : paths delta = .ok (V, L)) (hV : V ≠ []) (hd : delta ≠ 0) :
    ∃ v, perturbedEntry paths p eps delta = .ok v := by
  unfold perturbedEntry
  rw [hp]
  cases V with
  | nil => exact absurd rfl hV
  | cons z V => exact ⟨_, if_neg (by have := Real.pi_ne_zero; simp [hd])⟩

theorem perturbedLoop_ok : ∀ {deltas l : List ℝ}, perturbedLoop paths p eps deltas = .ok l →
    List.Forall₂ (fun d v => perturbedEntry paths p eps d = .ok v) deltas l
  | [], l, h => by
    obtain rfl := Except.ok.inj h
    exact .nil
  | d :: ds, l, h => by
    unfold perturbedLoop at h
    split at h
    · simp at h
    next v hv =>
      split at h
      · simp at h
      next l' hl =>
        obtain rfl := Except.ok.inj h
        exact .cons hv (perturbedLoop_ok hl)

theorem perturbedLoop_error : ∀ {deltas : List ℝ} {e : Err}, perturbedLoop paths p eps deltas = .error e →
    ∃ d ∈ deltas, perturbedEntry paths p eps d = .error e
  | [], e, h => by simp [perturbedLoop] at h
  | d :: ds, e, h => by
    unfold perturbedLoop at h
    split at h
    next e' he => exact ⟨d, by simp, by rw [he, Except.error.inj h]⟩
    next v hv =>
      split at h
      next e' he =>
        obtain ⟨d', hd, h'⟩ := perturbedLoop_error he
        exact ⟨d', by simp [hd], by rw [h', Except.error.inj h]⟩
      next => simp at h

/-- C64: the function raises `ArgumentError` if one of the numbers `delta` is not greater than `epsilon`, whatever the contours are;
conversely such an exception means this, or comes from the computation of a contour. -/
theorem C64_rejects (deltas : List ℝ) : ((∃ d ∈ deltas, d ≤ eps) → boundPerturbedGmres paths p eps deltas = .error .argumentError) ∧
    (boundPerturbedGmres paths p eps deltas = .error .argumentError →
      (∃ d ∈ deltas, d ≤ eps) ∨ ∃ d ∈ deltas, paths d = .error .argumentError) := by
  constructor
  · rintro ⟨d, hd, hle⟩
    exact if_pos fun h => absurd (h d hd) (not_lt.mpr hle)
  · intro h
    unfold boundPerturbedGmres at h
    split at h
    next hn =>
      push Not at hn
      exact .inl hn
    next =>
      obtain ⟨d, hd, he⟩ := perturbedLoop_error h
      refine .inr ⟨d, hd, ?_⟩
      unfold perturbedEntry at he
      split at he
      next e hp => rw [hp, Except.error.inj he]
      next =>
        split at he
        · simp at he
        · dsimp only at he
          split at he <;> simp at he

/-- C64: if every `delta` is greater than `epsilon` and nonzero and has a contour with at least one vertex, then the function returns. -/
theorem C64_total {deltas : List ℝ} (h : ∀ d ∈ deltas, eps < d ∧ d ≠ 0 ∧ ∃ V L, paths d = .ok (V, L) ∧ V ≠ []) :
    ∃ l, boundPerturbedGmres paths p eps deltas = .ok l := by
  unfold boundPerturbedGmres
  rw [if_neg (not_not.mpr fun d hd => (h d hd).1)]
  cases hl : perturbedLoop paths p eps deltas with
  | ok l => exact ⟨l, rfl⟩
  | error e =>
    obtain ⟨d, hd, he⟩ := perturbedLoop_error hl
    obtain ⟨-, h0, V, L, hp, hV⟩ := h d hd
    obtain ⟨v, hv⟩ := perturbedEntry_total (p := p) (eps := eps) hp hV h0
    rw [hv] at he
    simp at he

/-- C64: every returned list has one entry per `delta`, in the same order: `epsilon/(delta - epsilon)` times the length of the contour
over `2 pi delta` times the largest modulus of the polynomial at the vertices.  It is nonnegative if `epsilon` and the length are. -/
theorem C64_values {deltas l : List ℝ} (h : boundPerturbedGmres paths p eps deltas = .ok l) :
    l.length = deltas.length ∧ ∀ i (h1 : i < deltas.length) (h2 : i < l.length), eps < deltas[i] ∧
      ∃ V L M, paths deltas[i] = .ok (V, L) ∧ IsGreatest {x | ∃ z ∈ V, x = ‖p z‖} M ∧ deltas[i] ≠ 0 ∧
        l[i] = eps / (deltas[i] - eps) * L / (2 * π * deltas[i]) * M ∧ (0 ≤ eps → 0 ≤ L → 0 ≤ l[i]) := by
  unfold boundPerturbedGmres at h
  split at h
  · simp at h
  next hall =>
    rw [not_not] at hall
    have hf := perturbedLoop_ok h
    refine ⟨hf.length_eq.symm, fun i h1 h2 => ?_⟩
    have hlt := hall _ (List.getElem_mem h1)
    obtain ⟨V, L, M, hp, hM, h0, hv⟩ := perturbedEntry_ok (hf.get h1 h2)
    refine ⟨hlt, V, L, M, hp, hM, h0, hv, fun he hL => ?_⟩
    have hv' : l[i] = eps / (deltas[i] - eps) * L / (2 * π * deltas[i]) * M := hv
    obtain ⟨z, -, rfl⟩ := hM.1
    have : 0 < deltas[i] - eps := by linarith
    have : 0 < deltas[i] := by linarith
    have := Real.pi_pos
    rw [hv']
    positivity

/-! ## The bound -/

section banach
variable {𝒜 : Type*} [NormedRing 𝒜] [NormedAlgebra ℂ 𝒜] [CompleteSpace 𝒜]

theorem PseudoIn.resolvent {a : 𝒜} {delta : ℝ} {c : ℂ} {R : ℝ} (h : PseudoIn a delta c R) (z : ℂ) (hz : R ≤ ‖z - c‖) :
    z ∈ resolventSet ℂ a ∧ ‖resolvent a z‖ ≤ 1 / delta := by
  obtain ⟨r, h1, h2, h3⟩ := h z hz
  have e : algebraMap ℂ 𝒜 z - a = z • 1 - a := by rw [Algebra.algebraMap_eq_smul_one]
  let u : 𝒜ˣ := ⟨z • 1 - a, r, h1, h2⟩
  refine ⟨spectrum.mem_resolventSet_iff.mpr ?_, ?_⟩
  · rw [e]; exact u.isUnit
  · have : _root_.resolvent a z = r := by
      unfold _root_.resolvent
      rw [e]
      exact Ring.inverse_unit u
    rw [this]; exact h3

/-- C64: in a Banach algebra (e.g. matrices with a norm induced by a vector norm), let the `delta`-pseudospectrum of `a` lie in a
disc, let the contour be at least as long as the boundary circle of the disc and let the polynomial attain its maximum over this
circle at a vertex (or be still larger at one).  Then the entry for `delta` bounds the change of `p(a)` caused by every perturbation
of `a` of norm at most `epsilon`. -/
theorem C64_bound {a e : 𝒜} (he : ‖e‖ ≤ eps) {q : ℂ[X]} {deltas l : List ℝ}
    (h : boundPerturbedGmres paths (fun z => q.eval z) eps deltas = .ok l) {i : ℕ} (h1 : i < deltas.length) (h2 : i < l.length)
    {c : ℂ} {R : ℝ} (hR : 0 < R) (hin : PseudoIn a deltas[i] c R) {V : List ℂ} {L : ℝ} (hp : paths deltas[i] = .ok (V, L))
    (hL : 2 * π * R ≤ L) (hV : ∀ z, ‖z - c‖ = R → ∃ v ∈ V, ‖q.eval z‖ ≤ ‖q.eval v‖) :
    ‖aeval (a + e) q - aeval a q‖ ≤ l[i] := by
  obtain ⟨hlt, V', L', M, hp', hM, h0, hv, -⟩ := (C64_values h).2 i h1 h2
  obtain ⟨rfl, rfl⟩ : V' = V ∧ L' = L := by
    rw [hp] at hp'
    have := Except.ok.inj hp'
    simp only [Prod.mk.injEq] at this
    exact ⟨this.1.symm, this.2.symm⟩
  have heps : 0 ≤ eps := (norm_nonneg _).trans he
  have hd : 0 < deltas[i] := by linarith
  have hpos : 0 < deltas[i] - eps := by linarith
  have hM0 : 0 ≤ M := by obtain ⟨z, -, rfl⟩ := hM.1; exact norm_nonneg _
  refine (poly_perturb (S := M) hR hd he hlt hin.resolvent q fun z hz => ?_).trans ?_
  · obtain ⟨v, hv1, hv2⟩ := hV z hz
    exact hv2.trans (hM.2 ⟨v, hv1, rfl⟩)
  · rw [hv]
    have := Real.pi_pos
    gcongr

end banach

/-! ## Consequence for GMRES -/

section gmres
variable {E : Type*} [NormedAddCommGroup E] [InnerProductSpace ℂ E]

theorem plainSys_hyp (A : E →L[ℂ] E) (b : E) {o : Ortho} (ho : o ≠ .lanczos) : GmresHyp (plainSys A b) o := by
  have : IsInner (fun x y : E => inner ℂ x y) :=
    { add_right := fun x y z => inner_add_right x y z
      smul_right := fun x c y => inner_smul_right x y c
      conj_symm := fun x y => inner_conj_symm y x
      pos := fun x hx => by
        have := inner_self_eq_norm_sq (𝕜 := ℂ) x
        rw [this]
        positivity }
  exact ⟨⟨this, this⟩, fun h => absurd h ho⟩

theorem plainSys_resid (A : E →L[ℂ] E) (b x : E) : resid (plainSys A b) x = ‖b - A x‖ := by
  rw [norm_eq_sqrt_re_inner (𝕜 := ℂ)]
  rfl

theorem aeval_apply (B : E →L[ℂ] E) (q : ℂ[X]) (x : E) : aeval B q x = ∑ j ∈ Finset.range (q.natDegree + 1), q.coeff j • (B ^ j) x := by
  rw [aeval_eq_sum_range]
  simp

theorem pow_coe (B : E →L[ℂ] E) (j : ℕ) (x : E) : ((B : E →ₗ[ℂ] E) ^ j) x = (B ^ j) x := by
  induction j with
  | zero => rfl
  | succ j ih => rw [pow_succ', pow_succ', Module.End.mul_apply, ih]; rfl

/-- Polynomials with `q(0) = 1` are the residual polynomials of the search spaces. -/
theorem residual_mem (B : E →L[ℂ] E) (b : E) {q : ℂ[X]} {n : ℕ} (hd : q.natDegree ≤ n) (h0 : q.eval 0 = 1) :
    ∃ x ∈ searchSpace (plainSys B b) 0 n, b - B x = aeval B q b := by
  refine ⟨- ∑ j ∈ Finset.range q.natDegree, q.coeff (j + 1) • (B ^ j) b, ⟨_, ?_, (zero_add _).symm⟩, ?_⟩
  · refine Submodule.neg_mem _ (Submodule.sum_mem _ fun j hj => Submodule.smul_mem _ _ (Submodule.subset_span ?_))
    refine ⟨j, lt_of_lt_of_le (Finset.mem_range.mp hj) hd, ?_⟩
    change _ = ((B : E →ₗ[ℂ] E) ^ j) (b - B 0)
    rw [map_zero, sub_zero, pow_coe]
  · rw [aeval_apply, Finset.sum_range_succ', map_neg, sub_neg_eq_add, map_sum, add_comm, coeff_zero_eq_eval_zero, h0]
    simp only [map_smul, pow_zero, one_smul]
    congr 1
    refine Finset.sum_congr rfl fun j _ => ?_
    rw [pow_succ']; rfl

/-- Conversely. -/
theorem mem_residual (B : E →L[ℂ] E) (b : E) {n : ℕ} {x : E} (hx : x ∈ searchSpace (plainSys B b) 0 n) :
    ∃ q : ℂ[X], q.natDegree ≤ n ∧ q.eval 0 = 1 ∧ b - B x = aeval B q b := by
  obtain ⟨z, hz, rfl⟩ := hx
  have hz' : z ∈ krylov (B : E →ₗ[ℂ] E) b n := by
    have : (plainSys B b).M ((plainSys B b).Ml ((plainSys B b).b - (plainSys B b).A 0)) = b := by simp [plainSys]
    rw [this] at hz
    exact hz
  have key : ∀ z ∈ krylov (B : E →ₗ[ℂ] E) b n, ∃ s : ℂ[X], s.degree < n ∧ z = aeval B s b := by
    intro z hz
    unfold krylov at hz
    induction hz using Submodule.span_induction with
    | mem z hz =>
      obtain ⟨j, hj, rfl⟩ := hz
      refine ⟨X ^ j, ?_, ?_⟩
      · rw [degree_X_pow]; exact_mod_cast hj
      · rw [map_pow, aeval_X, pow_coe]
    | zero => exact ⟨0, by simp, by simp⟩
    | add z w _ _ hz hw =>
      obtain ⟨s, hs, rfl⟩ := hz
      obtain ⟨t, ht, rfl⟩ := hw
      exact ⟨s + t, (degree_add_le _ _).trans_lt (max_lt hs ht), by rw [map_add]; rfl⟩
    | smul c z _ hz =>
      obtain ⟨s, hs, rfl⟩ := hz
      exact ⟨c • s, (degree_smul_le _ _).trans_lt hs, by rw [map_smul]; rfl⟩
  obtain ⟨s, hs, rfl⟩ := key z hz'
  refine ⟨1 - X * s, ?_, by simp, ?_⟩
  · refine natDegree_le_of_degree_le ((degree_sub_le _ _).trans (max_le ?_ ?_))
    · rw [degree_one]; exact_mod_cast Nat.zero_le n
    · by_cases h0 : s = 0
      · simp [h0]
      rw [degree_mul, degree_X, degree_eq_natDegree h0]
      rw [degree_eq_natDegree h0] at hs
      have : s.natDegree < n := by exact_mod_cast hs
      have : 1 + s.natDegree ≤ n := by omega
      exact_mod_cast this
  · simp [plainSys, map_sub, map_mul]

/-- C64: the recorded residual norms of a run of `Gmres` without preconditioners and initial guess are the norms of `q(A) b`, relative
to `b`, of polynomials `q` with `q(0) = 1` of degree at most the number of the step. -/
theorem C64_residual_polynomial {A : E →L[ℂ] E} {b : E} (hb : b ≠ 0) {o : Ortho} (ho : o ≠ .lanczos) {s : LS ℂ E}
    (hs : mkLS (plainSys A b) = .ok s) {g : SolverArgs E} (htol : 0 ≤ g.tol) (hx0 : g.x0 = none) {st : St ℝ E (GmresSt ℂ E)}
    (hrun : gmres s s.hooks o g = .returned st ∨ gmres s s.hooks o g = .convergence st) {n : ℕ} (hn : n < st.resnorms.length) :
    ∃ q : ℂ[X], q.natDegree ≤ n ∧ q.eval 0 = 1 ∧ ‖aeval A q b‖ = st.resnorms[n] * ‖b‖ := by
  obtain ⟨x, -, hm, -⟩ := C26_optimal (plainSys_hyp A b ho) hs g htol hb hrun
  obtain ⟨y, hy, e⟩ := (hm.minima n hn).1
  rw [hx0] at hy
  obtain ⟨q, h1, h2, h3⟩ := mem_residual A b hy
  refine ⟨q, h1, h2, ?_⟩
  rw [← h3, ← plainSys_resid, e, plainSys_resid, map_zero, sub_zero]

/-- C64: let `q` be a residual polynomial of the `n`-th step of a run of `Gmres` for `A x = b`, and let the hypotheses of `C64_bound`
hold.  Then the relative residual norm of `Gmres` for `(A + F) x = b` after `n` steps exceeds the one for `A x = b` at most by the
entry of the returned list. -/
theorem C64_gmres [CompleteSpace E] {A F : E →L[ℂ] E} (hF : ‖F‖ ≤ eps) {b : E} (hb : b ≠ 0) {o : Ortho} (ho : o ≠ .lanczos)
    {s : LS ℂ E} (hs : mkLS (plainSys (A + F) b) = .ok s) {g : SolverArgs E} (htol : 0 ≤ g.tol) (hx0 : g.x0 = none)
    {st : St ℝ E (GmresSt ℂ E)} (hrun : gmres s s.hooks o g = .returned st ∨ gmres s s.hooks o g = .convergence st)
    {n : ℕ} (hn : n < st.resnorms.length) {q : ℂ[X]} (hd : q.natDegree ≤ n) (h0 : q.eval 0 = 1) {ρ : ℝ}
    (hρ : ‖aeval A q b‖ = ρ * ‖b‖) {deltas l : List ℝ}
    (h : boundPerturbedGmres paths (fun z => q.eval z) eps deltas = .ok l) {i : ℕ} (h1 : i < deltas.length) (h2 : i < l.length)
    {c : ℂ} {R : ℝ} (hR : 0 < R) (hin : PseudoIn A deltas[i] c R) {V : List ℂ} {L : ℝ} (hp : paths deltas[i] = .ok (V, L))
    (hL : 2 * π * R ≤ L) (hV : ∀ z, ‖z - c‖ = R → ∃ v ∈ V, ‖q.eval z‖ ≤ ‖q.eval v‖) :
    st.resnorms[n] ≤ ρ + l[i] := by
  have hbound := C64_bound (e := F) hF h h1 h2 hR hin hp hL hV
  obtain ⟨x, -, hm, -⟩ := C26_optimal (plainSys_hyp (A + F) b ho) hs g htol hb hrun
  obtain ⟨y, hy, e⟩ := residual_mem (A + F) b hd h0
  have hle := (hm.minima n hn).2 ⟨y, by rw [hx0]; exact hy, rfl⟩
  rw [plainSys_resid, plainSys_resid, e, map_zero, sub_zero] at hle
  have hb0 : 0 < ‖b‖ := norm_pos_iff.mpr hb
  have h3 : ‖aeval (A + F) q b‖ ≤ (ρ + l[i]) * ‖b‖ := by
    have : aeval (A + F) q b = aeval A q b + (aeval (A + F) q - aeval A q) b := by simp
    rw [this, add_mul, ← hρ]
    refine (norm_add_le _ _).trans (add_le_add_right ?_ _)
    exact ((aeval (A + F) q - aeval A q).le_opNorm b).trans (mul_le_mul_of_nonneg_right hbound (norm_nonneg _))
  exact le_of_mul_le_mul_right (hle.trans h3) hb0

end gmres

/-! ## The maximum over the vertices is not enough -/

/-- `n` equidistant points on the circle of radius `delta` around zero, starting with `delta`. -/
noncomputable def circlePts (n : ℕ) (delta : ℝ) : List ℂ :=
  (List.range n).map fun k : ℕ => (delta : ℂ) * Complex.exp (2 * π * Complex.I * (k / n))

theorem pseudoIn_zero {delta : ℝ} (hd : 0 < delta) : PseudoIn (0 : ℂ) delta 0 delta := by
  intro z hz
  rw [sub_zero] at hz
  have hz0 : z ≠ 0 := by rintro rfl; rw [norm_zero] at hz; linarith
  refine ⟨z⁻¹, by simp [hz0], by simp [hz0], ?_⟩
  rw [norm_inv, one_div]
  exact inv_anti₀ hd hz

/-- C64: the bound uses the vertices of the contour only and is not a bound in general, however many equidistant vertices there are on
the boundary of the pseudospectrum: for the zero operator on the complex numbers and `q(z) = 1 - (z/delta)^n` (so `q(0) = 1`) the
function returns zero, but `q` changes under the perturbation `epsilon`. -/
theorem C64_vertices_counterexample {n : ℕ} (hn : 1 ≤ n) {eps delta : ℝ} (he : 0 < eps) (hd : eps < delta) :
    PseudoIn (0 : ℂ) delta 0 delta ∧ (∀ z ∈ circlePts n delta, ‖z‖ = delta) ∧
    ∃ q : ℂ[X], q.eval 0 = 1 ∧
      boundPerturbedGmres (fun d => .ok (circlePts n d, 2 * π * d)) (fun z => q.eval z) eps [delta] = .ok [0] ∧
      0 < ‖aeval (0 + (eps : ℂ)) q - aeval (0 : ℂ) q‖ := by
  have hd0 : 0 < delta := by linarith
  have hdc : (delta : ℂ) ≠ 0 := by exact_mod_cast hd0.ne'
  have hnc : (n : ℂ) ≠ 0 := by exact_mod_cast (by omega : n ≠ 0)
  have hpts : ∀ z ∈ circlePts n delta, (z / delta) ^ n = 1 ∧ ‖z‖ = delta := by
    intro z hz
    unfold circlePts at hz
    rw [List.mem_map] at hz
    obtain ⟨k, -, rfl⟩ := hz
    constructor
    · rw [mul_div_cancel_left₀ _ hdc, ← Complex.exp_nat_mul]
      rw [show (n : ℂ) * (2 * π * Complex.I * (k / n)) = k * (2 * π * Complex.I) by field_simp]
      exact Complex.exp_nat_mul_two_pi_mul_I k
    · rw [norm_mul, Complex.norm_real, Real.norm_of_nonneg hd0.le]
      have : (2 * π * Complex.I * (k / n) : ℂ) = ((2 * π * (k / n) : ℝ) : ℂ) * Complex.I := by push_cast; ring
      rw [this, Complex.norm_exp_ofReal_mul_I, mul_one]
  refine ⟨pseudoIn_zero hd0, fun z hz => (hpts z hz).2, 1 - (C (delta : ℂ)⁻¹ * X) ^ n, ?_, ?_, ?_⟩
  · simp [show n ≠ 0 by omega]
  · have hq : ∀ z ∈ circlePts n delta, ‖(1 - (C (delta : ℂ)⁻¹ * X) ^ n : ℂ[X]).eval z‖ = 0 := by
      intro z hz
      have := (hpts z hz).1
      rw [div_eq_inv_mul] at this
      simp [this]
    obtain ⟨l, hl⟩ := C64_total (paths := fun d => .ok (circlePts n d, 2 * π * d))
      (p := fun z => (1 - (C (delta : ℂ)⁻¹ * X) ^ n : ℂ[X]).eval z) (eps := eps) (deltas := [delta]) (by
        intro d hd'
        obtain rfl := List.mem_singleton.mp hd'
        refine ⟨hd, hd0.ne', _, _, rfl, ?_⟩
        simp [circlePts]; omega)
    rw [hl]
    obtain ⟨hlen, hv⟩ := C64_values hl
    obtain ⟨v, rfl⟩ := List.length_eq_one_iff.mp hlen
    obtain ⟨-, V, L, M, hp, hM, -, hv, -⟩ := hv 0 (by simp) (by simp)
    simp only [List.getElem_cons_zero] at hp hv
    have hp' := Except.ok.inj hp
    simp only [Prod.mk.injEq] at hp'
    obtain ⟨z, hz, hM'⟩ := hM.1
    rw [← hp'.1] at hz
    rw [hq z hz] at hM'
    rw [hv, hM', mul_zero]
  · have h1 : aeval (0 + (eps : ℂ)) (1 - (C (delta : ℂ)⁻¹ * X) ^ n : ℂ[X]) - aeval (0 : ℂ) (1 - (C (delta : ℂ)⁻¹ * X) ^ n : ℂ[X])
        = -((delta : ℂ)⁻¹ * eps) ^ n := by
      simp [show n ≠ 0 by omega]
    rw [h1, norm_neg, norm_pow]
    have : ((delta : ℂ)⁻¹ * eps) ≠ 0 := mul_ne_zero (inv_ne_zero hdc) (by exact_mod_cast he.ne')
    positivity

/-! ## Examples -/

/-- The hypotheses of `C64_bound` and `C64_gmres` are met by `A = 2`, `F = 1/10`, `q(z) = 1 - z/2` on the complex numbers, where the
contour is the circle of radius one around `2` with the single vertex `3`. -/
example : ∃ l, boundPerturbedGmres (fun _ => .ok ([3], 2 * π)) (fun z => (1 - C (1 / 2) * X : ℂ[X]).eval z) (1 / 2) [1] = .ok l ∧
    PseudoIn (2 • ContinuousLinearMap.id ℂ ℂ) 1 2 1 ∧ (∀ z : ℂ, ‖z - 2‖ = 1 → ∃ v ∈ [(3 : ℂ)],
      ‖(1 - C (1 / 2) * X : ℂ[X]).eval z‖ ≤ ‖(1 - C (1 / 2) * X : ℂ[X]).eval v‖) ∧
    ‖(1 / 10 : ℂ) • ContinuousLinearMap.id ℂ ℂ‖ ≤ 1 / 2 := by
  obtain ⟨l, hl⟩ := C64_total (paths := fun _ => .ok ([3], 2 * π))
    (p := fun z => (1 - C (1 / 2) * X : ℂ[X]).eval z) (eps := 1 / 2) (deltas := [1]) (by
      intro d hd
      obtain rfl := List.mem_singleton.mp hd
      exact ⟨by norm_num, by norm_num, _, _, rfl, by simp⟩)
  refine ⟨l, hl, ?_, ?_, ?_⟩
  · intro z hz
    have hz0 : z - 2 ≠ 0 := by intro h; rw [h, norm_zero] at hz; linarith
    have e : z • (1 : ℂ →L[ℂ] ℂ) - 2 • ContinuousLinearMap.id ℂ ℂ = (z - 2) • (1 : ℂ →L[ℂ] ℂ) := by
      ext; simp
    refine ⟨(z - 2)⁻¹ • 1, ?_, ?_, ?_⟩
    · rw [e]; ext; simp [hz0]
    · rw [e]; ext; simp [hz0]
    · rw [norm_smul, norm_inv, norm_one, mul_one, div_one]
      exact inv_le_one_of_one_le₀ hz
  · intro z hz
    refine ⟨3, by simp, ?_⟩
    have e1 : (1 - C (1 / 2) * X : ℂ[X]).eval z = -(1 / 2) * (z - 2) := by simp; ring
    have e2 : (1 - C (1 / 2) * X : ℂ[X]).eval 3 = -(1 / 2) * (1 : ℂ) := by simp; norm_num
    rw [e1, e2, norm_mul, norm_mul, hz, norm_one]
  · rw [norm_smul, ContinuousLinearMap.norm_id]
    norm_num

end Krypy
