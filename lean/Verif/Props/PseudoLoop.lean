import Verif.Props.BoundPseudo

set_option linter.unusedSectionVars false

/-!
# C58, second part: the loop of `bound_pseudo` (deflation.py 575-734)
-/

namespace Krypy
variable {𝕜 E : Type*} [RCLike 𝕜] [AddCommGroup E] [Module 𝕜 E] {n_ n d k p : ℕ}
open scoped ComplexConjugate
open Matrix Finset

/-- What is assumed about `scipy.optimize.minimize_scalar(f, bounds=(a, b), method='bounded')`: it returns a value of `f` in the interval
which is not larger than the value at the first point, the golden section `a + (3 - √5)/2 (b - a)`; exceptions of `f` are passed on. -/
structure IsMinimize (minimize : (ℝ → Except Err ℝ) → ℝ → ℝ → Except Err ℝ) : Prop where
  val : ∀ f a b m, a ≤ b → minimize f a b = .ok m → ∃ x, a ≤ x ∧ x ≤ b ∧ f x = .ok m
  first : ∀ f a b m v, a ≤ b → minimize f a b = .ok m → f (a + (3 - √5) / 2 * (b - a)) = .ok v → m ≤ v
  total : ∀ f a b, a ≤ b → (∀ x, a ≤ x → x ≤ b → ∃ v, f x = .ok v) → ∃ m, minimize f a b = .ok m

/-- What is assumed about the routines for the computation with intervals. -/
structure PseudoHyp (rt : PseudoRoutines 𝕜 k p) : Prop where
  svdmin : ∀ M, 0 < k → IsSvdMin M (rt.svdmin M)
  eig : ∀ M, ((rt.eig M : List 𝕜) : Multiset 𝕜) = M.charpoly.roots
  qr : ∀ i ≤ p + 1, ∀ X, X = (rt.qr i X).1 * (rt.qr i X).2 ∧ (rt.qr i X).1ᴴ * (rt.qr i X).1 = 1
  geig : ∀ i A B, B.det ≠ 0 → ((rt.geig i A B : List 𝕜) : Multiset 𝕜) = (B⁻¹ * A).charpoly.roots
  argsort : IsArgsort rt.argsort
  cand : ∀ roots : List ℝ, IsMinmaxCandidates (roots.map ((↑) : ℝ → ℂ)) ((rt.cand roots).map ((↑) : ℝ → ℂ))
  build : IsBuild rt.build
  path : ∀ roots delta lm, rt.path roots delta = .ok lm → 0 ≤ lm.1 ∧ 0 ≤ lm.2
  minimize : IsMinimize rt.minimize

theorem polyMax_nonneg {argsort : List ℝ → List ℕ} {roots cand : List ℝ} {ivs : IvSet ℝ} {m : ℝ}
    (h : polyMax argsort roots ivs cand = .ok m) : 0 ≤ m := by
  unfold polyMax at h
  split at h
  · cases h
  next vals _ =>
    split at h
    · cases h
    next m' hm =>
      obtain rfl := Except.ok.inj h
      have := List.max?_mem hm
      obtain ⟨v, -, rfl⟩ := List.mem_map.mp this
      exact abs_nonneg v

/-- The loop. -/
theorem pseudoLoop_spec {least : ℕ → Except Err (Option ℝ)} (hl : ∀ i m, least i = .ok (some m) → 0 ≤ m) (tf : ℝ) :
    ∀ (as : List ℝ) (i : ℕ) (last : ℝ) (bs : List ℝ), pseudoLoop least tf i last as = .ok bs →
      bs.length ≤ as.length ∧ (last :: bs).Pairwise (fun x y => y ≤ x) ∧
      ((last :: as).Pairwise (fun x y => y ≤ x) → ∀ j (h1 : j < bs.length) (h2 : j < as.length), as[j] ≤ bs[j]) ∧
      ∀ b ∈ bs, b ≤ last := by
  intro as
  induction as with
  | nil =>
    intro i last bs h
    rw [pseudoLoop] at h
    obtain rfl := Except.ok.inj h
    simp
  | cons a as ih =>
    intro i last bs h
    rw [pseudoLoop] at h
    split at h
    · cases h
    · obtain rfl := Except.ok.inj h
      simp
    next m hm =>
      have hm0 := hl i m hm
      dsimp only at h
      by_cases hP : 1 < i ∧ if last = 0 then 0 < a + m else tf < (a + m) / last
      · rw [if_pos hP] at h
        obtain rfl := Except.ok.inj h
        simp
      · rw [if_neg hP] at h
        split at h
        · cases h
        next l hrec =>
          obtain rfl := Except.ok.inj h
          obtain ⟨h1, h2, h3, h4⟩ := ih _ _ _ hrec
          refine ⟨by simpa using h1, ?_, fun has => ?_, ?_⟩
          · rw [List.pairwise_cons]
            refine ⟨fun b hb => ?_, h2⟩
            rcases List.mem_cons.mp hb with rfl | hb
            · exact min_le_right _ _
            · exact (h4 b hb).trans (min_le_right _ _)
          · obtain ⟨h5, h6⟩ := List.pairwise_cons.mp has
            obtain ⟨h7, h8⟩ := List.pairwise_cons.mp h6
            have hal : a ≤ min (a + m) last := le_min (by linarith) (h5 a (by simp))
            intro j hj1 hj2
            rcases j with _ | j
            · exact hal
            · simp only [List.length_cons, Nat.add_lt_add_iff_right] at hj1 hj2
              simp only [List.getElem_cons_succ]
              refine h3 ?_ j hj1 hj2
              rw [List.pairwise_cons]
              exact ⟨fun b hb => (h7 b hb).trans hal, h8⟩
          · intro b hb
            rcases List.mem_cons.mp hb with rfl | hb
            · exact min_le_right _ _
            · exact (h4 b hb).trans (min_le_right _ _)

theorem pseudoEps_pos {pwaw eta Hn G rh : ℝ} (h1 : 0 ≤ pwaw) (h2 : 0 ≤ eta) (h3 : 0 ≤ Hn) (h4 : 0 ≤ G) (h5 : 0 ≤ rh) :
    0 < pseudoEps pwaw eta Hn G rh := by
  unfold pseudoEps
  dsimp only
  split
  · norm_num
  next h0 => exact lt_of_le_of_ne (by positivity) (Ne.symm h0)

theorem rhNorm_nonneg {l : ℕ} {Rh : Matrix (Fin (n_ - n) ⊕ Fin l) (Fin (p + 1)) 𝕜} {i : ℕ} {r : ℝ} (h : rhNorm Rh i = .ok r) : 0 ≤ r := by
  unfold rhNorm at h
  split at h
  · cases h
  · rw [← Except.ok.inj h]; exact matNorm2_nonneg _

/-- The values of `compute_pseudo` for `delta > epsilon` are nonnegative. -/
theorem computePseudo_nonneg {rt : PseudoRoutines 𝕜 k p} (hrt : PseudoHyp rt) {c : PseudoCtx 𝕜} (hq : 0 ≤ c.q) (hb : 0 ≤ c.beta)
    {roots : List 𝕜} {eps x m : ℝ} (he : 0 < eps) (hx : eps < 10 ^ x) (h : computePseudo rt c roots eps x = .ok m) : 0 ≤ m := by
  unfold computePseudo at h
  dsimp only at h
  have hd : (0 : ℝ) < 10 ^ x := by positivity
  have key : ∀ l p : ℝ, 0 ≤ l → 0 ≤ p →
      0 ≤ l / (2 * Real.pi * 10 ^ x) * (eps / (10 ^ x - eps) * (c.q + c.beta) + c.beta) * p := by
    intro l p hl hp
    have : 0 < (10 : ℝ) ^ x - eps := sub_pos.mpr hx
    have := Real.pi_pos
    positivity
  split at h
  · cases h
  next lm hlm =>
    obtain rfl := Except.ok.inj h
    split at hlm
    · split at hlm
      · cases hlm
      · split at hlm
        · cases hlm
        next m' hm' =>
          obtain rfl := Except.ok.inj hlm
          exact key _ _ (by positivity) (polyMax_nonneg hm')
    · obtain ⟨h1, h2⟩ := hrt.path _ _ _ hlm
      exact key _ _ h1 h2

/-- The point `10^x` lies to the right of `1.01 epsilon` on the range of the minimisation. -/
theorem pseudoRange_gt {eps dmax x : ℝ} {deltaN : ℕ} (he : 0 < eps) (hx : (pseudoRange eps dmax deltaN).1 ≤ x) : eps < 10 ^ x := by
  have h1 : (10 : ℝ) ^ (Real.logb 10 (101 / 100 * eps)) = 101 / 100 * eps :=
    Real.rpow_logb (by norm_num) (by norm_num) (by linarith)
  have h2 : (10 : ℝ) ^ (Real.logb 10 (101 / 100 * eps)) ≤ 10 ^ x := Real.rpow_le_rpow_of_exponent_le (by norm_num) hx
  rw [h1] at h2
  linarith

theorem pseudoLeast_nonneg {l : ℕ} {rt : PseudoRoutines 𝕜 k p} (hrt : PseudoHyp rt) {sol : PseudoSolver} {c : PseudoCtx 𝕜} (hq : 0 ≤ c.q)
    (hb : 0 ≤ c.beta) {out : ArnfOut 𝕜 E n_ n l p} {eta G dmax : ℝ} (hp : 0 ≤ out.pwawNorm) (heta : 0 ≤ eta) (hG : 0 ≤ G)
    {ptype : PseudoType} {deltaN i : ℕ} {m : ℝ} (h : pseudoLeast rt sol c out eta G dmax ptype deltaN i = .ok (some m)) : 0 ≤ m := by
  unfold pseudoLeast at h
  split at h
  · cases h
  next rh hrh =>
    dsimp only at h
    split at h
    · cases h
    split at h
    · cases h
    split at h
    · cases h
    next hab =>
      split at h
      · cases h
      next m' hm' =>
        obtain rfl : m' = m := by simpa using h
        obtain ⟨x, hx1, -, hx⟩ := hrt.minimize.val _ _ _ _ (not_lt.mp hab) hm'
        have he := pseudoEps_pos hp heta (matNorm2_nonneg out.Hh) hG (rhNorm_nonneg hrh)
        exact computePseudo_nonneg hrt hq hb he (pseudoRange_gt he hx1) hx

section loop
open DeflRitzRel
variable {g eip : E → E → 𝕜} {T : E →ₗ[𝕜] E} {V : ℕ → E} {U : Fin d → E} {H : ℕ → ℕ → 𝕜}
  {Em F : Matrix (Fin d) (Fin d) 𝕜} {C B_ : List (Fin d → 𝕜)} {rt : ArnfRoutines 𝕜 E d} {a : Arnf 𝕜 E n_ n d}
  (h : DeflRitzRel g T V U H n_ n Em F C B_) (hr : ArnfHyp g eip rt)
  (ha : mkArnf rt H Em C B_ V U (fun j => T (U j)) = .ok a)
  {grt : ArnfGetRoutines 𝕜 n_ n d k (n + d - k - 1)} (hg : ArnfGetHyp grt) {Wt : Matrix (Fin n ⊕ Fin d) (Fin k) 𝕜}
  (hdet : (gram g (arnfW V U Wt) fun j => T (arnfW V U Wt j)).det ≠ 0) (hk : k < n + d) (hn0 : 0 < n_)
  (r0 : ℝ) (UMlr : Fin d → 𝕜)
  (hD : ∀ j, arnfDefect a V U (fun j => T (U j)) Em B_ j = 0)
  {prt : PseudoRoutines 𝕜 k (n + d - k - 1)} (hp : PseudoHyp prt) {sa : Bool} {bNorm : ℝ} {nb : PseudoNorms}
  (hg0 : 0 ≤ nb.g) (hG0 : 0 ≤ nb.G) (hGW0 : 0 ≤ nb.GW) {deltaN : ℕ} {tf : ℝ}
include h hr ha hg hdet hk hn0 hD hp hg0 hG0 hGW0

/-- C58: the bounds with pseudospectra.  They begin with the same number as the numbers of `omit`, do not increase, are at most as many, and
each of them is at least the number of `omit` with the same index. -/
theorem C58_pseudo (hsa : sa = true → ∀ x y, g (T x) y = g x (T y)) {ptype : PseudoType} {res res0 : List ℝ}
    (hrun0 : boundPseudo a grt g Em B_ V U r0 UMlr h.le Wt prt .minRes sa bNorm nb .omit deltaN tf = .ok res0)
    (hrun : boundPseudo a grt g Em B_ V U r0 UMlr h.le Wt prt .minRes sa bNorm nb ptype deltaN tf = .ok res) :
    res ≠ [] ∧ res.head? = res0.head? ∧ res.length ≤ res0.length ∧ res.Pairwise (fun x y => y ≤ x) ∧
    ∀ i (h1 : i < res.length) (h2 : i < res0.length), res0[i] ≤ res[i] := by
  obtain ⟨out, ho⟩ := C56_total h hr ha hg hdet hk hn0 r0 UMlr
  obtain ⟨⟨hpw0, -⟩, -⟩ := C56_projection_norm h hr ha hg hdet hk hn0 r0 UMlr ho hD
  obtain ⟨Wq, S, Pm, G⟩ := arnf_got h hr ha hg hdet hk hn0 r0 UMlr ho
  obtain ⟨l, hl, hlen⟩ := (C48_shape (natMat out.Hh) (n + d - k - 1 + 1) (n + d - k - 1 + 1) sa).1 (by omega)
  have hl' : getResidualNorms (natMat out.Hh) (n + d - k - 1 + 1) (n + d - k - 1 + 1) false = .ok l := by
    cases sa with
    | false => exact hl
    | true =>
      rw [← C48_self_adjoint fun i j hij => arnf_tridiag h hr ha hg hdet hk hn0 r0 UMlr ho (hsa rfl) i j hij]
      exact hl
  have hmono := C48_antitone hl'
  have hq := G.qNorm
  have hvd : 0 ≤ out.vdiffNorm := by
    obtain ⟨al, z, -, -, -, -, hz⟩ := C56_initial h hr ha hg hdet hk hn0 r0 UMlr ho rfl hD
    rw [← hz]
    exact nrm_nonneg _ _
  simp only [boundPseudo, ho] at hrun hrun0
  cases he : pseudoEta prt.svdmin (Wtᴴ * (a.J * (a.L * Wt))) nb with
  | error e => rw [he] at hrun; cases hrun
  | ok eta =>
    have heta : 0 ≤ eta := by
      unfold pseudoEta at he
      split at he
      · split at he
        · cases he
        next hlt =>
          rw [← Except.ok.inj he]
          exact div_nonneg hGW0 (sub_nonneg.mpr (not_le.mp hlt).le)
      · rw [← Except.ok.inj he]
    simp only [he] at hrun hrun0
    by_cases hb : bNorm ≤ nb.g
    · simp only [pseudoCore, if_pos hb] at hrun
      cases hrun
    have hpos : 0 < bNorm - nb.g := sub_pos.mpr (not_le.mp hb)
    simp only [pseudoCore, if_neg hb, pseudoAres, hl, if_true] at hrun0 hrun
    obtain rfl := Except.ok.inj hrun0
    obtain ⟨a0, as, hla⟩ : ∃ a0 as, l = a0 :: as := by
      cases l with
      | nil => simp at hlen
      | cons x y => exact ⟨x, y, rfl⟩
    have hares : ((a0 :: as).map (· * out.qNorm)).Pairwise (fun x y => y ≤ x) := by
      rw [List.pairwise_map, ← hla]
      exact hmono.imp fun {x y} hxy => by gcongr
    by_cases hty : ptype = .omit
    · rw [if_pos hty] at hrun
      obtain rfl := Except.ok.inj hrun
      refine ⟨by rw [hla]; simp, rfl, le_rfl, ?_, fun i _ _ => le_rfl⟩
      rw [List.pairwise_map, hla]
      exact hares.imp fun {x y} hxy => by gcongr
    · rw [if_neg hty, hla] at hrun
      split at hrun
      · cases hrun
      simp only [List.map_cons] at hrun
      split at hrun
      · cases hrun
      next bs hloop =>
        obtain rfl := Except.ok.inj hrun
        have hbeta : 0 ≤ out.pwawNorm * (eta * (bNorm + nb.g) + nb.g) + out.vdiffNorm := by
          have : 0 ≤ bNorm + nb.g := by linarith
          positivity
        obtain ⟨h1, h2, h3, -⟩ := pseudoLoop_spec (fun i m hm => pseudoLeast_nonneg hp hq hbeta hpw0 heta hG0 hm) tf _ _ _ _ hloop
        · refine ⟨by simp, by rw [hla]; simp, by rw [hla]; simpa using h1, ?_, fun i hi1 hi2 => ?_⟩
          · rw [← List.map_cons (f := fun x => x / (bNorm - nb.g)), List.pairwise_map]
            exact h2.imp fun {x y} hxy => by gcongr
          · simp only [← List.map_cons (f := fun x => x / (bNorm - nb.g))] at hi1 ⊢
            rw [List.length_map] at hi1 hi2
            have h4 : (List.map (· * out.qNorm) l)[i] ≤ ((a0 * out.qNorm) :: bs)[i] := by
              subst hla
              rcases i with _ | i
              · exact le_rfl
              · simp only [List.map_cons, List.length_cons, Nat.add_lt_add_iff_right] at hi1 hi2
                simp only [List.map_cons, List.getElem_cons_succ]
                exact h3 hares i hi1 hi2
            rw [List.getElem_map]
            rw [List.getElem_map (fun x => x / (bNorm - nb.g))]
            exact div_le_div_of_nonneg_right h4 hpos.le

end loop

/-! ## The argument `pseudo_type` -/

section ptype
variable (a : Arnf 𝕜 E n_ n d) (grt : ArnfGetRoutines 𝕜 n_ n d k (n + d - k - 1)) (ipM : E → E → 𝕜)
    (Em : Matrix (Fin d) (Fin d) 𝕜) (B_ : List (Fin d → 𝕜)) (V : ℕ → E) (U : Fin d → E) (r0 : ℝ) (UMlr : Fin d → 𝕜)
    (hn : n ≤ n_) (Wt : Matrix (Fin n ⊕ Fin d) (Fin k) 𝕜) (rt : PseudoRoutines 𝕜 k (n + d - k - 1)) (sol : PseudoSolver) (sa : Bool)
    (bNorm : ℝ) (nb : PseudoNorms) (deltaN : ℕ) (tf : ℝ)

/-- C58 (finding): apart from `omit` and `contain` the argument `pseudo_type` has no effect: `'auto'`, the documented values `'nonnormal'`,
`'normal'` and `'hermitian'`, and any other string give the same result. -/
theorem C58_pseudo_type : boundPseudo a grt ipM Em B_ V U r0 UMlr hn Wt rt sol sa bNorm nb .auto deltaN tf =
    boundPseudo a grt ipM Em B_ V U r0 UMlr hn Wt rt sol sa bNorm nb .other deltaN tf := by
  have hleast : ∀ {l : ℕ} (c : PseudoCtx 𝕜) (out : ArnfOut 𝕜 E n_ n l (n + d - k - 1)) (eta G dmax : ℝ),
      pseudoLeast rt sol c out eta G dmax .auto deltaN = pseudoLeast rt sol c out eta G dmax .other deltaN := by
    intro l c out eta G dmax
    funext i
    unfold pseudoLeast
    cases rhNorm out.Rh i with
    | error e => rfl
    | ok rh => simp
  unfold boundPseudo
  cases a.get grt ipM Em B_ V U r0 UMlr hn Wt with
  | error e => rfl
  | ok out =>
    dsimp only
    cases pseudoEta rt.svdmin (Wtᴴ * (a.J * (a.L * Wt))) nb with
    | error e => rfl
    | ok eta =>
      dsimp only
      unfold pseudoCore
      simp only [hleast, reduceCtorEq, if_false]

/-- C58: the value `'contain'` always leads to an exception unless `Hh` has no columns, which `Arnoldifyer.get` excludes. -/
theorem C58_contain (res : List ℝ) : boundPseudo a grt ipM Em B_ V U r0 UMlr hn Wt rt .minRes sa bNorm nb .contain deltaN tf ≠ .ok res := by
  intro hrun
  unfold boundPseudo at hrun
  split at hrun
  · cases hrun
  next out _ =>
    split at hrun
    · cases hrun
    next eta _ =>
      unfold pseudoCore at hrun
      dsimp only at hrun
      split at hrun
      · cases hrun
      obtain ⟨l, hl, hlen⟩ := (C48_shape (natMat out.Hh) (n + d - k - 1 + 1) (n + d - k - 1 + 1) sa).1 (by omega)
      simp only [pseudoAres, hl, reduceCtorEq, if_false] at hrun
      split at hrun
      · cases hrun
      rcases l with _ | ⟨x, _ | ⟨y, l⟩⟩
      · simp at hlen
      · simp at hlen
      · simp only [List.map_cons, pseudoLoop, pseudoLeast] at hrun
        cases hrh : rhNorm out.Rh 1 with
        | error e => simp [hrh] at hrun
        | ok r => simp [hrh] at hrun

/-- C58 (finding): if there are as many rows as columns in the Hessenberg matrix of the deflated solver (an invariant subspace was found) and the
residuals of the deflation vectors vanish then `Rh` has no rows, and the bounds with pseudospectra raise a `ValueError` where
`omit` returns. -/
theorem C58_no_rows {out : ArnfOut 𝕜 E n_ n a.l (n + d - k - 1)} (ho : a.get grt ipM Em B_ V U r0 UMlr hn Wt = .ok out)
    (hl : n_ - n + a.l = 0) {res : List ℝ}
    (hrun : boundPseudo a grt ipM Em B_ V U r0 UMlr hn Wt rt sol sa bNorm nb .omit deltaN tf = .ok res) {ptype : PseudoType}
    (hty : ptype ≠ .omit) :
    boundPseudo a grt ipM Em B_ V U r0 UMlr hn Wt rt sol sa bNorm nb ptype deltaN tf = .error .valueError := by
  simp only [boundPseudo, ho] at hrun ⊢
  cases he : pseudoEta rt.svdmin (Wtᴴ * (a.J * (a.L * Wt))) nb with
  | error e => rw [he] at hrun; cases hrun
  | ok eta =>
    simp only [he] at hrun ⊢
    unfold pseudoCore at hrun ⊢
    dsimp only at hrun ⊢
    split at hrun
    · cases hrun
    next hb =>
      rw [if_neg hb]
      cases hares : pseudoAres sol sa out.Hh out.qNorm with
      | error e => simp [hares] at hrun
      | ok ares =>
        dsimp only
        rw [if_neg hty]
        simp [rhNorm, hl]

end ptype

end Krypy
