import Verif.Proofs.Deflation
import Verif.Proofs.CgRun
import Verif.Props.Minres
import Verif.Props.Cg

/-! # Runs of deflated solvers -/

set_option linter.unusedSectionVars false

namespace Krypy
open scoped ComplexConjugate
open Matrix

section log
variable {F X S T : Type*} [LE F] [LT F] [DecidableLE F] [DecidableLT F] [Div F]
  {m : Method F X S} {f : S → List T → Except Err T} {P : S → List T → Prop}
  (hstep : ∀ {s l s' r c}, P s l → f s l = .ok c → m.step s = .ok (s', r) → P s' (l ++ [c]))
  (hpost : ∀ {s l rkn}, P s l → P (m.post s rkn) l)
include hstep hpost

theorem log_sim : Sim (m.log f) m (fun a b => a.1 = b ∧ P a.1 a.2) where
  more h := by rw [← h.1]; rfl
  k h := by rw [← h.1]; rfl
  step {a b a' r} h hs := by
    obtain ⟨rfl, hP⟩ := h
    simp only [Method.log] at hs
    split at hs
    · simp at hs
    next c hc =>
    split at hs
    · simp at hs
    next s' r' hs' =>
    simp only [Except.ok.injEq, Prod.mk.injEq] at hs
    obtain ⟨rfl, rfl⟩ := hs
    exact ⟨s', hs', rfl, hstep hP hc hs'⟩
  getXk h hx := by rw [← h.1]; exact hx
  post {a b rkn} h := ⟨by rw [← h.1]; rfl, hpost h.2⟩
  count := rfl

theorem log_sim_inv (htot : ∀ {s l s' r}, P s l → m.step s = .ok (s', r) → ∃ c, f s l = .ok c) :
    Sim m (m.log f) (fun a b => a = b.1 ∧ P b.1 b.2) where
  more h := by rw [h.1]; rfl
  k h := by rw [h.1]; rfl
  step {a b a' r} h hs := by
    obtain ⟨rfl, hP⟩ := h
    obtain ⟨c, hc⟩ := htot hP hs
    refine ⟨(a', b.2 ++ [c]), ?_, rfl, hstep hP hc hs⟩
    simp only [Method.log, hc, hs]
  getXk h hx := by obtain ⟨rfl, -⟩ := h; exact hx
  post {a b rkn} h := ⟨by rw [h.1]; rfl, hpost h.2⟩
  count := rfl

end log

variable {𝕜 E : Type*} [RCLike 𝕜] [AddCommGroup E] [Module 𝕜 E] {k : ℕ}

section setup
variable {a : LSArgs 𝕜 E} {s : LS 𝕜 E} {U : Fin k → E} {o : Obl 𝕜 E k}

/-- The columns of `C` recorded so far. -/
def LogOK (a : LSArgs 𝕜 E) (o : Obl 𝕜 E k) (arn : Arn 𝕜 E) (l : List (Fin k → 𝕜)) : Prop :=
  l = (List.range arn.iter).map fun j => coefs a.ip o.U (a.B (arn.V j))

theorem LogOK.step {arn arn' : Arn 𝕜 E} {l : List (Fin k → 𝕜)} (h : LogOK a o arn l)
    (hit : arn'.iter = arn.iter + 1) (hV : ∀ j ≤ arn.iter, arn'.V j = arn.V j) :
    LogOK a o arn' (l ++ [coefs a.ip o.U (a.B (arn.V arn.iter))]) := by
  unfold LogOK at *
  rw [hit, List.range_succ, List.map_append, h]
  congr 1
  · refine List.map_congr_left fun j hj => ?_
    rw [hV j (List.mem_range.mp hj).le]
  · simp [hV _ le_rfl]

variable (ok : LSOK a s) (hob : OblOK a s U o)

theorem gmres_log {g : E → E → 𝕜} {A M Mr : E →ₗ[𝕜] E} {maxiter : ℕ} {v : E} {post : E → Except Err E}
    {adv : Arn 𝕜 E → Except Err (Arn 𝕜 E)} {Inv : Arn 𝕜 E → Prop} (hp : ArnProc g A M maxiter v adv Inv)
    (ok : LSOK a s) (hob : OblOK a s U o) :
    Sim ((gmresMethod adv Mr post maxiter).log fun st _ => o.newC s (st.arn.V st.arn.iter))
      (gmresMethod adv Mr post maxiter) (fun x y => x.1 = y ∧ Inv x.1.arn ∧ LogOK a o x.1.arn x.2) ∧
    Sim (gmresMethod adv Mr post maxiter)
      ((gmresMethod adv Mr post maxiter).log fun st _ => o.newC s (st.arn.V st.arn.iter))
      (fun x y => x = y.1 ∧ Inv y.1.arn ∧ LogOK a o y.1.arn y.2) := by
  have hstep : ∀ {s' : GmresSt 𝕜 E} {l : List (Fin k → 𝕜)} {s'' : GmresSt 𝕜 E} {r : ℝ} {c : Fin k → 𝕜},
      Inv s'.arn ∧ LogOK a o s'.arn l → o.newC s (s'.arn.V s'.arn.iter) = .ok c →
      (gmresMethod adv Mr post maxiter).step s' = .ok (s'', r) → Inv s''.arn ∧ LogOK a o s''.arn (l ++ [c]) := by
    intro s' l s'' r c hP hc hs
    rw [hob.newC ok] at hc
    obtain rfl := Except.ok.inj hc
    have ha : adv s'.arn = .ok s''.arn := by
      change gmresStep adv s' = _ at hs
      unfold gmresStep at hs
      dsimp only at hs
      split at hs
      · simp at hs
      next arn harn =>
      simp only [Except.ok.injEq, Prod.mk.injEq] at hs
      obtain ⟨rfl, -⟩ := hs
      exact harn
    obtain ⟨h1, h2, -, -, -, h3⟩ := hp.step hP.1 ha
    exact ⟨h1, hP.2.step h2 h3⟩
  exact ⟨log_sim (P := fun (s : GmresSt 𝕜 E) l => Inv s.arn ∧ LogOK a o s.arn l) @hstep fun h => h,
    log_sim_inv (P := fun (s : GmresSt 𝕜 E) l => Inv s.arn ∧ LogOK a o s.arn l) @hstep (fun h => h)
      fun _ _ => ⟨_, hob.newC ok _⟩⟩

theorem minres_log {g : E → E → 𝕜} {A M Mr : E →ₗ[𝕜] E} {maxiter : ℕ} {v : E} {post : E → Except Err E}
    {adv : Arn 𝕜 E → Except Err (Arn 𝕜 E)} {Inv : Arn 𝕜 E → Prop} (hp : ArnProc g A M maxiter v adv Inv)
    (ok : LSOK a s) (hob : OblOK a s U o) :
    Sim ((minresMethod adv Mr post maxiter).log fun st _ => o.newC s (st.arn.V st.arn.iter))
      (minresMethod adv Mr post maxiter) (fun x y => x.1 = y ∧ Inv x.1.arn ∧ LogOK a o x.1.arn x.2) ∧
    Sim (minresMethod adv Mr post maxiter)
      ((minresMethod adv Mr post maxiter).log fun st _ => o.newC s (st.arn.V st.arn.iter))
      (fun x y => x = y.1 ∧ Inv y.1.arn ∧ LogOK a o y.1.arn y.2) := by
  have hstep : ∀ {s' : MinresSt 𝕜 E} {l : List (Fin k → 𝕜)} {s'' : MinresSt 𝕜 E} {r : ℝ} {c : Fin k → 𝕜},
      Inv s'.arn ∧ LogOK a o s'.arn l → o.newC s (s'.arn.V s'.arn.iter) = .ok c →
      (minresMethod adv Mr post maxiter).step s' = .ok (s'', r) → Inv s''.arn ∧ LogOK a o s''.arn (l ++ [c]) := by
    intro s' l s'' r c hP hc hs
    rw [hob.newC ok] at hc
    obtain rfl := Except.ok.inj hc
    have ha : adv s'.arn = .ok s''.arn := by
      change minresStep adv maxiter s' = _ at hs
      unfold minresStep at hs
      dsimp only at hs
      split at hs
      · simp at hs
      next arn harn =>
      split_ifs at hs
      all_goals
        simp only [Except.ok.injEq, Prod.mk.injEq] at hs
        obtain ⟨rfl, -⟩ := hs
        exact harn
    obtain ⟨h1, h2, -, -, -, h3⟩ := hp.step hP.1 ha
    exact ⟨h1, hP.2.step h2 h3⟩
  exact ⟨log_sim (P := fun (s : MinresSt 𝕜 E) l => Inv s.arn ∧ LogOK a o s.arn l) @hstep fun h => h,
    log_sim_inv (P := fun (s : MinresSt 𝕜 E) l => Inv s.arn ∧ LogOK a o s.arn l) @hstep (fun h => h)
      fun _ _ => ⟨_, hob.newC ok _⟩⟩

include ok hob

theorem OblOK.arnHyp {ortho : Ortho} (h : GmresHyp a ortho) (maxiter : ℕ) :
    ArnHyp (s.arnCfg (o.hooks s) maxiter ortho) := by
  refine ⟨?_, fun ho x y => ?_⟩
  · simp only [LS.arnCfg, ArnCfg.Mop, Option.getD_some, ok.M, ok.ip]
    exact h.ls
  · simp only [LS.arnCfg, Obl.hooks, ok.ip, hob.op_eq ok, LinearMap.comp_apply]
    exact complLin_selfadj hob.inner hob.nonsing (h.sa ho) x y

theorem OblOK.cfg_eq (ortho : Ortho) (maxiter : ℕ) :
    (s.arnCfg (o.hooks s) maxiter ortho).g = (fun x y => a.ip x (a.M y)) ∧
    (s.arnCfg (o.hooks s) maxiter ortho).Mop = a.M ∧
    (s.arnCfg (o.hooks s) maxiter ortho).A = complLin hob.inner a.B U ∘ₗ a.B ∧
    (s.arnCfg (o.hooks s) maxiter ortho).ip = a.ip := by
  refine ⟨?_, ?_, ?_, ?_⟩
  · funext x y
    simp [ArnCfg.g, LS.arnCfg, ArnCfg.Mop, ok.M, ok.ip]
  · simp [LS.arnCfg, ArnCfg.Mop, ok.M]
  · simp [LS.arnCfg, Obl.hooks, hob.op_eq ok]
  · simp [LS.arnCfg, ok.ip]

/-- The runs of the deflated residual minimising solvers in terms of the driver. -/
theorem OblOK.setup {ortho : Ortho} (h : GmresHyp a ortho) (p : SolverArgs E) :
    ∃ (adv : Arn 𝕜 E → Except Err (Arn 𝕜 E)) (Inv : Arn 𝕜 E → Prop) (arn : Arn 𝕜 E) (β : ℝ) (v : E),
    v = complLin hob.inner a.B U (a.Ml (a.b - a.A (p.x0.getD 0))) ∧
    β = nrm (fun x y => a.ip x (a.M y)) v ∧
    deflatedGmres s o ortho p = run (mkCfg s p) ((gmresMethod adv a.Mr (o.correct s) p.maxiter).log
      fun st _ => o.newC s (st.arn.V st.arn.iter)) (p.x0.getD 0) β (fun x => (gmresInit arn β x, [])) (o.correct s) ∧
    deflatedMinres s o ortho p = run (mkCfg s p) ((minresMethod adv a.Mr (o.correct s) p.maxiter).log
      fun st _ => o.newC s (st.arn.V st.arn.iter)) (p.x0.getD 0) β (fun x => (minresInit arn β x, [])) (o.correct s) ∧
    ArnProc (fun x y => a.ip x (a.M y)) (complLin hob.inner a.B U ∘ₗ a.B) a.M p.maxiter v adv Inv ∧
    Inv arn ∧ arn.iter = 0 ∧ arn.vnorm = β ∧ (∀ s s', adv s = .ok s' → s'.iter = s.iter + 1) ∧
    ((∀ x y, a.ip (a.B x) y = a.ip x (a.B y)) → ∀ {s}, Inv s → TriReal s) := by
  set c := s.arnCfg (o.hooks s) p.maxiter ortho with hc
  obtain ⟨hg, hM, hA, hip⟩ := hob.cfg_eq ok ortho p.maxiter
  rw [← hc] at hg hM hA hip
  set v := complLin hob.inner a.B U (a.Ml (a.b - a.A (p.x0.getD 0))) with hv
  have h1 : ∀ w, (some (a.M v) : Option E) = some w → w = c.Mop v := by
    intro w hw; rw [hM]; exact (Option.some.inj hw).symm
  have h2 : ∀ r, (some (nrm (fun x y => a.ip x (a.M y)) v) : Option ℝ) = some r → r = nrm c.g v := by
    intro r hr; rw [hg]; exact (Option.some.inj hr).symm
  have hah : ArnHyp c := hob.arnHyp ok h p.maxiter
  obtain ⟨arn, harn, hinv, hit, -⟩ := arnInit_inv hah v h1 h2
  have hr := hob.initRes ok p.x0
  have hproc := ArnReach.proc hah v
  rw [hg, hM, hA] at hproc
  refine ⟨arnAdvance c, ArnReach c v, arn, nrm (fun x y => a.ip x (a.M y)) v, v, rfl, rfl, ?_, ?_, hproc,
    .init h1 h2 harn, hit, by rw [hinv.vnorm, hg], fun _ _ h => arnAdvance_iter h, fun hsa _ hr =>
    hr.triReal hah (fun x y => ?_)⟩
  · unfold deflatedGmres
    dsimp only
    rw [hr]
    dsimp only
    rw [← hc, ← hv, harn, ok.Mr]
  · unfold deflatedMinres
    dsimp only
    rw [hr]
    dsimp only
    rw [← hc, ← hv, harn, ok.Mr]
  · rw [hA, hip]
    simp only [LinearMap.comp_apply]
    exact complLin_selfadj hob.inner hob.nonsing hsa x y

end setup

/-! ## CG -/

section cg
variable {a : LSArgs 𝕜 E} {s : LS 𝕜 E} {U : Fin k → E} {o : Obl 𝕜 E k}

theorem cgStep_parts {ip : E → E → 𝕜} {M B : E →ₗ[𝕜] E} {store : Bool} {t t' : CgSt 𝕜 E} {r : ℝ}
    (h : cgStep ip M B store t = .ok (t', r)) : ∃ p, cgDir t = .ok p ∧ t'.k = t.k + 1 ∧
      t'.ps = Function.update t.ps t.k p ∧ ∃ q, t'.rho = Function.update t.rho (t.k + 1) q := by
  unfold cgStep at h
  dsimp only at h
  split at h
  · simp at h
  next p hp =>
  split at h
  · simp at h
  split at h
  · simp at h
  split at h
  · simp at h
  simp only [Except.ok.injEq, Prod.mk.injEq] at h
  obtain ⟨rfl, -⟩ := h
  exact ⟨p, hp, rfl, rfl, _, rfl⟩

/-- Column `j` of `C` in terms of the search directions. -/
noncomputable def cgC (a : LSArgs 𝕜 E) (o : Obl 𝕜 E k) (t : CgSt 𝕜 E) (j : ℕ) : Fin k → 𝕜 :=
  (((-1 : ℝ) ^ j / Real.sqrt (t.rho j) : ℝ) : 𝕜) •
    (coefs a.ip o.U (a.B (t.ps j)) - if j = 0 then 0 else
      ((t.rho j / t.rho (j - 1) : ℝ) : 𝕜) • coefs a.ip o.U (a.B (t.ps (j - 1))))

/-- What is known about the lists `_UAps` and `C` of `DeflatedCg`. -/
structure CgLogOK (a : LSArgs 𝕜 E) (o : Obl 𝕜 E k) (t : CgSt 𝕜 E)
    (l : List ((Fin k → 𝕜) × Option (Fin k → 𝕜))) : Prop where
  len : l.length = t.k
  uap : ∀ j (hj : j < l.length), l[j].1 = coefs a.ip o.U (a.B (t.ps j))
  col : ∀ j (hj : j < l.length), (∀ i ≤ j, 0 < t.rho i) → l[j].2 = some (cgC a o t j)

theorem cgC_step {c0 c1 c2 : Fin k → 𝕜} {j : ℕ} {r1 r2 t : ℝ} (h1 : 0 < r1) (h2 : 0 < r2) :
    (((-1 : ℝ) ^ (j + 1) / Real.sqrt r1 : ℝ) : 𝕜) • ((c0 - ((1 + r1 / r2 : ℝ) : 𝕜) • c1) + (t : 𝕜) • c2) -
      ((Real.sqrt (r2 / r1) : ℝ) : 𝕜) • ((((-1 : ℝ) ^ j / Real.sqrt r2 : ℝ) : 𝕜) • (c1 - (t : 𝕜) • c2)) =
    (((-1 : ℝ) ^ (j + 1) / Real.sqrt r1 : ℝ) : 𝕜) • (c0 - ((r1 / r2 : ℝ) : 𝕜) • c1) := by
  have e : Real.sqrt (r2 / r1) * ((-1 : ℝ) ^ j / Real.sqrt r2) = -((-1 : ℝ) ^ (j + 1) / Real.sqrt r1) := by
    rw [Real.sqrt_div h2.le]
    have := (Real.sqrt_pos.mpr h1).ne'
    have := (Real.sqrt_pos.mpr h2).ne'
    field_simp
    ring
  rw [smul_smul, ← RCLike.ofReal_mul, e]
  push_cast
  module

theorem newCgC_ok (ok : LSOK a s) (hob : OblOK a s U o) {t : CgSt 𝕜 E}
    {l : List ((Fin k → 𝕜) × Option (Fin k → 𝕜))} {p : E} (hp : cgDir t = .ok p) :
    ∃ w, o.newCgC s t l = .ok (coefs a.ip o.U (a.B p), w) := by
  unfold Obl.newCgC
  simp only [hp, hob.newC ok]
  split_ifs
  · exact ⟨_, rfl⟩
  all_goals first | exact ⟨_, rfl⟩ | (split <;> exact ⟨_, rfl⟩)

theorem CgLogOK.step (ok : LSOK a s) (hob : OblOK a s U o) {ip : E → E → 𝕜} {M B : E →ₗ[𝕜] E} {store : Bool}
    {t t' : CgSt 𝕜 E} {r : ℝ} {l : List ((Fin k → 𝕜) × Option (Fin k → 𝕜))} {c : (Fin k → 𝕜) × Option (Fin k → 𝕜)}
    (h : CgLogOK a o t l) (hc : o.newCgC s t l = .ok c) (hs : cgStep ip M B store t = .ok (t', r)) :
    CgLogOK a o t' (l ++ [c]) := by
  obtain ⟨p, hp, hk, hps, q, hrho⟩ := cgStep_parts hs
  have hlen := h.len
  have hrho' : ∀ j ≤ t.k, t'.rho j = t.rho j := fun j hj => by
    rw [hrho, Function.update_of_ne (by omega)]
  have hps' : ∀ j < t.k, t'.ps j = t.ps j := fun j hj => by rw [hps, Function.update_of_ne (by omega)]
  have hpsk : t'.ps t.k = p := by rw [hps, Function.update_self]
  obtain ⟨w, hw⟩ := newCgC_ok ok hob (l := l) hp
  have hc1 : c.1 = coefs a.ip o.U (a.B p) := by
    rw [hw] at hc; obtain rfl := Except.ok.inj hc; rfl
  refine ⟨by simp [hk, hlen], fun j hj => ?_, fun j hj hpos => ?_⟩
  · rcases Nat.lt_or_ge j l.length with h1 | h1
    · rw [List.getElem_append_left h1, h.uap j h1, hps' j (by omega)]
    · obtain rfl : j = l.length := by simp at hj; omega
      rw [List.getElem_append_right le_rfl]
      simp [hc1, hlen, hpsk]
  · rcases Nat.lt_or_ge j l.length with h1 | h1
    · rw [List.getElem_append_left h1, h.col j h1 fun i hi => by rw [← hrho' i (by omega)]; exact hpos i hi]
      unfold cgC
      rw [hrho' j (by omega), hrho' (j - 1) (by omega), hps' j (by omega)]
      split_ifs
      · rfl
      · rw [hps' (j - 1) (by omega)]
    · obtain rfl : j = l.length := by simp at hj; omega
      rw [List.getElem_append_right le_rfl]
      simp only [Nat.sub_self, List.getElem_cons_zero]
      have hpos' : ∀ i ≤ t.k, 0 < t.rho i := fun i hi => by
        rw [← hrho' i hi]; exact hpos i (by omega)
      have hn : ¬ (t.rho t.k = 0 ∨ (0 < t.k ∧ t.rho (t.k - 1) = 0) ∨ (1 < t.k ∧ t.rho (t.k - 2) = 0)) := by
        rintro (h0 | ⟨-, h0⟩ | ⟨-, h0⟩)
        · exact (hpos' _ le_rfl).ne' h0
        · exact (hpos' _ (by omega)).ne' h0
        · exact (hpos' _ (by omega)).ne' h0
      unfold Obl.newCgC at hc
      simp only [hp, hob.newC ok, if_neg hn] at hc
      unfold cgC
      rw [hlen, hrho' _ le_rfl, hrho' (t.k - 1) (by omega), hpsk]
      by_cases h0 : t.k = 0
      · have h0' : ¬ 0 < t.k := by omega
        have h0'' : ¬ 1 < t.k := by omega
        simp only [h0', h0'', if_false, Except.ok.injEq] at hc
        rw [← hc]
        simp [h0]
      · obtain ⟨j, hj1⟩ := Nat.exists_eq_succ_of_ne_zero h0
        have hjl : j < l.length := by omega
        have hlast : fromEnd l 1 = some l[j] := by
          unfold fromEnd
          rw [if_pos (by omega), List.getElem?_eq_getElem (by omega)]
          congr 2
          omega
        have hcolj := h.col j hjl fun i hi => hpos' i (by omega)
        have huj := h.uap j hjl
        have h0' : 0 < t.k := by omega
        rw [hps' (t.k - 1) (by omega)]
        rcases Nat.lt_or_ge 1 t.k with h2 | h2
        · have hlast2 : fromEnd l 2 = some (l[j - 1]'(by omega)) := by
            unfold fromEnd
            rw [if_pos (by omega), List.getElem?_eq_getElem (by omega)]
            congr 2
            omega
          have huj2 := h.uap (j - 1) (by omega)
          rw [hlast, hlast2] at hc
          generalize hlj : l[j] = lj at *
          obtain ⟨lj1, lj2⟩ := lj
          dsimp only at hcolj huj hc
          subst hcolj huj
          simp only [h0', h2, if_true, Except.ok.injEq] at hc
          rw [← hc]
          simp only [h0, if_false, Option.some.injEq]
          rw [huj2]
          unfold cgC
          have hjne : j ≠ 0 := by omega
          simp only [hjne, if_false]
          have := cgC_step (𝕜 := 𝕜) (c0 := coefs a.ip o.U (a.B p)) (c1 := coefs a.ip o.U (a.B (t.ps j)))
            (c2 := coefs a.ip o.U (a.B (t.ps (j - 1)))) (j := j) (t := t.rho j / t.rho (j - 1))
            (hpos' (j + 1) (by omega)) (hpos' j (by omega))
          rw [hj1]
          simp only [Nat.succ_eq_add_one, Nat.add_sub_cancel] at this ⊢
          rw [show j + 1 - 2 = j - 1 by omega]
          exact this
        · obtain rfl : j = 0 := by omega
          rw [hlast] at hc
          generalize hlj : l[0] = lj at *
          obtain ⟨lj1, lj2⟩ := lj
          dsimp only at hcolj huj hc
          subst hcolj huj
          have h2' : ¬ 1 < t.k := by omega
          simp only [h0', h2', if_true, if_false, Except.ok.injEq] at hc
          rw [← hc]
          simp only [h0, if_false, Option.some.injEq]
          unfold cgC
          have := cgC_step (𝕜 := 𝕜) (c0 := coefs a.ip o.U (a.B p)) (c1 := coefs a.ip o.U (a.B (t.ps 0)))
            (c2 := 0) (j := 0) (t := 0) (hpos' 1 (by omega)) (hpos' 0 (by omega))
          rw [hj1]
          simpa using this

theorem CgLogOK.post {t : CgSt 𝕜 E} {l : List ((Fin k → 𝕜) × Option (Fin k → 𝕜))} (h : CgLogOK a o t l)
    (rkn : Option ℝ) : CgLogOK a o (cgPost t rkn) l := by
  cases rkn with
  | none => exact h
  | some r =>
    have hrho : ∀ j < t.k, (cgPost t (some r)).rho j = t.rho j := fun j hj => by
      simp only [cgPost]; rw [Function.update_of_ne (by omega)]
    refine ⟨h.len, h.uap, fun j hj hpos => ?_⟩
    have hj' : j < t.k := by rw [← h.len]; exact hj
    rw [h.col j hj fun i hi => by rw [← hrho i (by omega)]; exact hpos i hi]
    unfold cgC
    rw [hrho j hj', hrho (j - 1) (by omega)]
    rfl

theorem cg_log {ip : E → E → 𝕜} {M B Mr : E →ₗ[𝕜] E} {post : E → Except Err E} {store : Bool} {maxiter : ℕ}
    (ok : LSOK a s) (hob : OblOK a s U o) :
    Sim ((cgMethod ip M B Mr post store maxiter).log (o.newCgC s)) (cgMethod ip M B Mr post store maxiter)
      (fun x y => x.1 = y ∧ CgLogOK a o x.1 x.2) ∧
    Sim (cgMethod ip M B Mr post store maxiter) ((cgMethod ip M B Mr post store maxiter).log (o.newCgC s))
      (fun x y => x = y.1 ∧ CgLogOK a o y.1 y.2) := by
  have hstep : ∀ {t : CgSt 𝕜 E} {l : List ((Fin k → 𝕜) × Option (Fin k → 𝕜))} {t' : CgSt 𝕜 E} {r : ℝ}
      {c : (Fin k → 𝕜) × Option (Fin k → 𝕜)}, CgLogOK a o t l → o.newCgC s t l = .ok c →
      (cgMethod ip M B Mr post store maxiter).step t = .ok (t', r) → CgLogOK a o t' (l ++ [c]) :=
    fun h hc hs => h.step ok hob hc hs
  refine ⟨log_sim (P := CgLogOK a o) @hstep fun h => h.post _, log_sim_inv (P := CgLogOK a o) @hstep (fun h => h.post _)
    fun _ hs => ?_⟩
  obtain ⟨p, hp, -⟩ := cgStep_parts hs
  obtain ⟨w, hw⟩ := newCgC_ok ok hob hp
  exact ⟨_, hw⟩

end cg
end Krypy
