import Verif.Props.Gmres
import Verif.Props.Restarted

/-! # Property C35: restarted GMRES in exact arithmetic -/

set_option linter.unusedSectionVars false

namespace Krypy
variable {𝕜 E : Type*} [RCLike 𝕜] [AddCommGroup E] [Module 𝕜 E]

/-- Joining non-increasing histories whose seams fit gives a non-increasing history. -/
theorem seamJoin_antitone (L : List (List ℝ)) (hne : ∀ l ∈ L, l ≠ [])
    (hp : ∀ l ∈ L, l.Pairwise (fun r r' => r' ≤ r))
    (hs : ∀ i l l', L[i]? = some l → L[i + 1]? = some l' → l'.head? = l.getLast?) :
    (seamJoin L).Pairwise (fun r r' => r' ≤ r) ∧ (seamJoin L).getLast? = L.getLast?.bind List.getLast? := by
  induction L using List.reverseRecOn with
  | nil => simp [seamJoin]
  | append_singleton L x ih =>
    by_cases hL : L = []
    · subst hL
      simp [seamJoin, hp x]
    · obtain ⟨L', y, rfl⟩ : ∃ L' y, L = L' ++ [y] := by
        rcases List.eq_nil_or_concat L with h' | ⟨l', a, h'⟩
        · exact absurd h' hL
        · exact ⟨l', a, by simpa using h'⟩
      obtain ⟨ih1, ih2⟩ := ih (fun l hl => hne l (by simp at hl ⊢; tauto))
        (fun l hl => hp l (by simp at hl ⊢; tauto)) (fun i l l' h1 h2 => by
          have hi : i + 1 < (L' ++ [y]).length := (List.getElem?_eq_some_iff.mp h2).1
          refine hs i l l' ?_ ?_
          · rw [List.getElem?_append_left (by omega)]; exact h1
          · rw [List.getElem?_append_left hi]; exact h2)
      have hy : y ≠ [] := hne y (by simp)
      have hx : x ≠ [] := hne x (by simp)
      rw [← seamJoin_append _ hL (by simpa using hy)]
      have hseam : x.head? = y.getLast? := by
        refine hs L'.length y x (by simp) ?_
        rw [List.getElem?_append_right (by simp)]
        simp
      constructor
      · rw [List.pairwise_append]
        refine ⟨ih1.sublist (List.dropLast_sublist _), hp x (by simp), fun a ha b hb => ?_⟩
        obtain ⟨h, t, rfl⟩ : ∃ h t, x = h :: t := List.exists_cons_of_ne_nil hx
        have hbh : b ≤ h := by
          rcases List.mem_cons.mp hb with rfl | hb
          · exact le_rfl
          · exact (List.pairwise_cons.mp (hp (h :: t) (by simp))).1 b hb
        have hlast : (seamJoin (L' ++ [y])).getLast? = some h := by
          rw [ih2]
          simpa using hseam.symm
        have hah : h ≤ a := by
          have hne' : seamJoin (L' ++ [y]) ≠ [] := by
            intro h0
            rw [h0] at hlast
            simp at hlast
          have hdec := List.dropLast_append_getLast hne'
          have hgl : (seamJoin (L' ++ [y])).getLast hne' = h := by
            rw [List.getLast?_eq_getLast_of_ne_nil hne'] at hlast
            exact Option.some.inj hlast
          rw [hgl] at hdec
          rw [← hdec] at ih1
          exact (List.pairwise_append.mp ih1).2.2 a ha h (by simp)
        linarith
      · rw [List.getLast?_append_of_ne_nil _ hx]
        simp

/-- C35: the history of restarted GMRES is non-increasing, also across restarts; the entries removed at the seams
equal those which replace them; the returned approximation has the last recorded residual norm. -/
theorem C35_monotone {a : LSArgs 𝕜 E} {ortho : Ortho} (h : GmresHyp a ortho) {s : LS 𝕜 E} (hs : mkLS a = .ok s)
    (p : SolverArgs E) (htol : 0 ≤ p.tol) (hb : a.Ml a.b ≠ 0) (inf : ℝ) (maxRestarts : ℤ)
    {st : RSt ℝ E} (hrun : restartedGmres s ortho p inf maxRestarts = .returned st ∨
      restartedGmres s ortho p inf maxRestarts = .convergence st) :
    st.resnorms.Pairwise (fun r r' => r' ≤ r) ∧
    (∀ i c c', st.sols[i]? = some c → st.sols[i + 1]? = some c' → c'.resnorms.head? = c.resnorms.getLast?) ∧
    ∃ x r, st.xk = some x ∧ st.resnorms.getLast? = some r ∧ resid a x = r * resid a 0 := by
  have h0 : 0 < resid a 0 := by
    refine lt_of_le_of_ne (nrm_nonneg _ _) fun h0 => hb ?_
    have := h.ls.prec.nrm_eq_zero.mp h0.symm
    simpa using this
  set solve : Option E → Except Err (RSol ℝ E) := fun x =>
    rsolOf (p.restart x) (gmres s s.hooks ortho (p.restart x)) with hsolve
  have hcyc : ∀ x c, solve x = .ok c →
      MinRes a ((x.or p.x0).getD 0) c.resnorms c.xk ∧ c.errnorms ≠ [] := by
    intro x c hc
    have key : ∀ q : SolverArgs E, q.tol = p.tol → rsolOf q (gmres s s.hooks ortho q) = .ok c →
        MinRes a (q.x0.getD 0) c.resnorms c.xk ∧ c.errnorms ≠ [] := by
      intro q hq hc
      have herr : ∀ st', gmres s s.hooks ortho q = .returned st' ∨ gmres s s.hooks ortho q = .convergence st' →
          st'.errnorms.getD [0] ≠ [] := by
        intro st' hst'
        obtain ⟨s', hs', ok, -⟩ := mkLS_ok h.ls
        rw [hs] at hs'
        obtain rfl := Except.ok.inj hs'
        obtain ⟨arn, hr, ha, hi0⟩ := gmres_setup ok h q
        rw [hr] at hst'
        have hlaw : LawfulMethod (gmresMethod (arnAdvance (s.arnCfg s.hooks q.maxiter ortho)) s.Mr .ok q.maxiter)
            (mkCfg s q).maxiter := gmresMethod_lawful _ _ _ (fun _ _ h => arnAdvance_iter h)
        have := C24_history hlaw (fun _ => by exact hi0) hst'
        cases hex : (mkCfg s q).errNorm with
        | none => rw [this.2.2.1 hex]; simp
        | some en =>
          obtain ⟨l, hl, hl'⟩ := this.2.2.2 (by rw [hex]; simp)
          rw [hl]
          intro h0
          simp at h0
          rw [h0] at hl'
          have := this.1
          simp at hl'
          omega
      unfold rsolOf at hc
      split at hc
      · next st' heq =>
        obtain ⟨x, hx, hmin, -⟩ := C26_optimal h hs q (by rw [hq]; exact htol) hb (Or.inl heq)
        rw [hx] at hc
        obtain rfl := Except.ok.inj hc
        exact ⟨hmin, herr _ (Or.inl heq)⟩
      · next st' heq =>
        obtain ⟨x, hx, hmin, -⟩ := C26_optimal h hs q (by rw [hq]; exact htol) hb (Or.inr heq)
        rw [hx] at hc
        obtain rfl := Except.ok.inj hc
        exact ⟨hmin, herr _ (Or.inr heq)⟩
      · simp at hc
      · simp at hc
    cases x with
    | none => exact key p rfl hc
    | some x => exact key { p with x0 := some x } rfl hc
  have hC := C34_restarted inf maxRestarts solve
    (fun x c hc => ⟨(hcyc x c hc).1.nonempty, (hcyc x c hc).2⟩)
  change restarted inf maxRestarts solve = .returned st ∨ restarted inf maxRestarts solve = .convergence st at hrun
  rcases hC with ⟨e, x, he, -⟩ | ⟨st1, sol, r, hor, hlen, -, hch, hlast, hxk, hres, -, hr⟩
  · rcases hrun with h1 | h1 <;> simp [he] at h1
  obtain rfl : st1 = st := by
    rcases hor with ⟨h1, -⟩ | ⟨h1, -⟩ <;> rcases hrun with h2 | h2 <;> simp [h1] at h2 <;> exact h2
  have hmem : ∀ (i : ℕ) (c : RSol ℝ E), st1.sols[i]? = some c → ∃ x0, MinRes a x0 c.resnorms c.xk := fun i c hc =>
    ⟨_, (hcyc _ c (hch i c hc)).1⟩
  have hseam : ∀ i c c', st1.sols[i]? = some c → st1.sols[i + 1]? = some c' →
      c'.resnorms.head? = c.resnorms.getLast? := by
    intro i c c' h1 h2
    have h3 := hch (i + 1) c' h2
    rw [if_neg (by omega), Nat.add_sub_cancel, h1] at h3
    have m' := (hcyc _ c' h3).1
    obtain ⟨x0, m⟩ := hmem i c h1
    simp only [Option.map_some, Option.some_or, Option.getD_some] at m'
    obtain ⟨r, hr⟩ : ∃ r, c.resnorms.getLast? = some r :=
      ⟨_, List.getLast?_eq_getLast_of_ne_nil m.nonempty⟩
    have hpos : 0 < c'.resnorms.length := List.length_pos_of_ne_nil m'.nonempty
    have e1 := m.attains r hr
    obtain ⟨x, ⟨z, hz, hx⟩, hxe⟩ := (m'.minima 0 hpos).1
    rw [krylov_eq_spanTo, spanTo_zero] at hz
    obtain rfl : z = 0 := by simpa using hz
    rw [map_zero, add_zero] at hx
    rw [hx, e1] at hxe
    have e2 := mul_right_cancel₀ h0.ne' hxe
    rw [hr, List.head?_eq_getElem?, List.getElem?_eq_getElem hpos, ← e2]
  refine ⟨?_, hseam, sol.xk, r, hxk, hr, ?_⟩
  · rw [hres]
    refine (seamJoin_antitone _ ?_ ?_ ?_).1
    · intro l hl
      obtain ⟨c, hc, rfl⟩ := List.mem_map.mp hl
      obtain ⟨i, hi⟩ := List.mem_iff_getElem?.mp hc
      obtain ⟨x0, m⟩ := hmem i c hi
      exact m.nonempty
    · intro l hl
      obtain ⟨c, hc, rfl⟩ := List.mem_map.mp hl
      obtain ⟨i, hi⟩ := List.mem_iff_getElem?.mp hc
      obtain ⟨x0, m⟩ := hmem i c hi
      exact m.antitone h0
    · intro i l l' h1 h2
      rw [List.getElem?_map] at h1 h2
      obtain ⟨c, hc, rfl⟩ := Option.map_eq_some_iff.mp h1
      obtain ⟨c', hc', rfl⟩ := Option.map_eq_some_iff.mp h2
      exact hseam i c c' hc hc'
  · have hl : st1.sols[st1.sols.length - 1]? = some sol := by rw [← List.getLast?_eq_getElem?]; exact hlast
    obtain ⟨x0, m⟩ := hmem _ sol hl
    refine m.attains r ?_
    have hns : st1.sols ≠ [] := by
      intro h0
      rw [h0] at hlast
      simp at hlast
    rw [hres, seamJoin, List.getLast?_append_of_ne_nil] at hr
    · rw [List.getLast?_map, hlast] at hr
      simpa using hr
    · rw [List.getLast?_map, hlast]
      simpa using m.nonempty

/-- Non-vacuity: on the two-dimensional example restarted GMRES (at most two iterations per cycle) finishes. -/
example (o : Ortho) : ∃ s, mkLS exSys = .ok s ∧ ∃ st,
    restartedGmres s o ⟨none, 1e-5, 2, false, none⟩ 0 3 = .returned st ∨
    restartedGmres s o ⟨none, 1e-5, 2, false, none⟩ 0 3 = .convergence st := by
  obtain ⟨s, hs, ok, -⟩ := mkLS_ok (exSys_hyp o).ls
  refine ⟨s, hs, ?_⟩
  have hb : exSys.Ml exSys.b ≠ 0 := by simp [exSys]
  have hfin : Module.finrank ℝ (ℝ × ℝ) = 2 := by simp
  have hgm : ∀ x : Option (ℝ × ℝ), ∃ st, gmres s s.hooks o ⟨x, 1e-5, 2, false, none⟩ = .returned st ∧
      ∃ y, st.xk = some y ∧ st.resnorms ≠ [] ∧ st.errnorms = none := by
    intro x
    obtain ⟨st, hst, -⟩ := C28_terminates (exSys_hyp o) hs ⟨x, 1e-5, 2, false, none⟩ (by norm_num) hb
      (fun x hx => by
        have h1 : x.2 = 0 := congrArg Prod.fst hx
        have h2 : x.1 = 0 := congrArg Prod.snd hx
        exact Prod.ext h2 h1) hfin.le
    obtain ⟨y, hy, hmin, -⟩ := C26_optimal (exSys_hyp o) hs ⟨x, 1e-5, 2, false, none⟩ (by norm_num) hb
      (Or.inl hst)
    refine ⟨st, hst, y, hy, hmin.nonempty, ?_⟩
    obtain ⟨arn, hr, ha, hi0⟩ := gmres_setup ok (exSys_hyp o) ⟨x, 1e-5, 2, false, none⟩
    rw [hr] at hst
    exact (C24_history (gmresMethod_lawful _ _ _ (fun _ _ h => arnAdvance_iter h))
      (fun _ => by exact hi0) (Or.inl hst)).2.2.1 rfl
  rcases C34_restarted (0 : ℝ) 3 (fun x => rsolOf
      ((⟨none, 1e-5, 2, false, none⟩ : SolverArgs (ℝ × ℝ)).restart x)
      (gmres s s.hooks o ((⟨none, 1e-5, 2, false, none⟩ : SolverArgs (ℝ × ℝ)).restart x)))
      (by
        intro x c hc
        cases x with
        | none =>
          obtain ⟨st, hst, y, hy, h1, h2⟩ := hgm none
          simp only [SolverArgs.restart, hst, rsolOf, hy] at hc
          obtain rfl := Except.ok.inj hc
          exact ⟨h1, by simp [h2]⟩
        | some x =>
          obtain ⟨st, hst, y, hy, h1, h2⟩ := hgm (some x)
          simp only [SolverArgs.restart, hst, rsolOf, hy] at hc
          obtain rfl := Except.ok.inj hc
          exact ⟨h1, by simp [h2]⟩) with ⟨e, x, -, he⟩ | ⟨st, -, -, ⟨h, -⟩ | ⟨h, -⟩, -⟩
  · exfalso
    cases x with
    | none =>
      obtain ⟨st, hst, y, hy, -⟩ := hgm none
      simp [SolverArgs.restart, hst, rsolOf, hy] at he
    | some x =>
      obtain ⟨st, hst, y, hy, -⟩ := hgm (some x)
      simp [SolverArgs.restart, hst, rsolOf, hy] at he
  · exact ⟨st, Or.inl h⟩
  · exact ⟨st, Or.inr h⟩

end Krypy
