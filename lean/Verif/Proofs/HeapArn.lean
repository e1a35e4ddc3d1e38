import Verif.Proofs.GmresTotal
import Verif.Proofs.Heap

/-! # Refinement for `Arnoldi`, `Gmres` and `Minres` with memory -/

set_option linter.unusedSectionVars false

namespace Krypy
variable {𝕜 E : Type*} [RCLike 𝕜] [AddCommGroup E] [Module 𝕜 E]
variable {n : ℕ} {m0 : ℕ → E}

/-- `Model/Heap`'s parameters represent those of `Model/Arnoldi`. -/
structure ArnRep (n : ℕ) (m0 : ℕ → E) (c : HArnCfg 𝕜 E) (v : ArnCfg 𝕜 E) : Prop where
  A : OpFr n m0 v.A c.A
  M : OpGood v.Mop (c.M.getD idObj)
  ip : c.ip = v.ip
  maxiter : c.maxiter = v.maxiter
  ortho : c.ortho = v.ortho

/-- The columns of `V` and `P` are owned by the Arnoldi object. -/
structure ArnOwn (n N : ℕ) (m0 : ℕ → E) (hasM : Bool) (h : Heap E) (s : MArn 𝕜) : Prop where
  fr : Fr n m0 h
  vb : n ≤ s.vb ∧ s.vb + N < h.next
  pb : n ≤ s.pb ∧ s.pb + N < h.next
  none : hasM = false → s.pb = s.vb
  some : hasM = true → s.vb + N < s.pb

/-- An address which belongs neither to `V` nor to `P`. -/
def Outside (N : ℕ) (s : MArn 𝕜) (i : ℕ) : Prop := ¬ (s.vb ≤ i ∧ i ≤ s.vb + N) ∧ ¬ (s.pb ≤ i ∧ i ≤ s.pb + N)

theorem ArnOwn.ext {N : ℕ} {b : Bool} {h h' : Heap E} {s : MArn 𝕜} (o : ArnOwn n N m0 b h s) (e : h.Ext h') :
    ArnOwn n N m0 b h' s ∧ (MArn.val N h' s : Arn 𝕜 E) = MArn.val N h s := by
  refine ⟨⟨o.fr.ext e, ⟨o.vb.1, lt_of_lt_of_le o.vb.2 e.next⟩, ⟨o.pb.1, lt_of_lt_of_le o.pb.2 e.next⟩, o.none, o.some⟩, ?_⟩
  unfold MArn.val
  congr 1
  · funext j
    split
    · have := o.vb.2
      rw [e.mem _ (by omega)]
    · rfl
  · funext j
    split
    · have := o.pb.2
      rw [e.mem _ (by omega)]
    · rfl

/-- The memory `w` differs from `h` only in the array `Av`, which contains `t`. -/
structure OnlyAv (h : Heap E) (Av : ℕ) (w : Heap E) (t : E) : Prop where
  next : w.next = h.next
  mem : ∀ i, i ≠ Av → w.mem i = h.mem i
  av : w.mem Av = t

variable {c : HArnCfg 𝕜 E} {v : ArnCfg 𝕜 E} {N : ℕ} {hasM : Bool} {h : Heap E} {s : MArn 𝕜}

theorem hOrthoStep_spec (r : ArnRep n m0 c v) {Av : ℕ} {w : Heap E} {hc : ℕ → 𝕜} {t : E} (q : OnlyAv h Av w t) {j : ℕ} (hj : j ≤ N)
    (hv : s.vb + j ≠ Av) (hp : s.pb + j ≠ Av) :
    OnlyAv h Av (hOrthoStep c s Av (w, hc) j).1 (orthoStep v (MArn.val N h s).V (MArn.val N h s).P (t, hc) j).1 ∧
      (hOrthoStep c s Av (w, hc) j).2 = (orthoStep v (MArn.val N h s).V (MArn.val N h s).P (t, hc) j).2 := by
  have h1 : (MArn.val N h s : Arn 𝕜 E).V j = h.mem (s.vb + j) := by simp [MArn.val, hj]
  have h2 : (MArn.val N h s : Arn 𝕜 E).P j = h.mem (s.pb + j) := by simp [MArn.val, hj]
  unfold hOrthoStep orthoStep
  dsimp only
  rw [h1, h2, q.av, q.mem _ hv, q.mem _ hp, r.ip, r.ortho]
  refine ⟨⟨q.next, fun i hi => ?_, ?_⟩, rfl⟩
  · rw [← q.mem i hi]
    exact Function.update_of_ne hi _ _
  · exact Function.update_self _ _ _

theorem hOrthoFold_spec (r : ArnRep n m0 c v) {Av : ℕ} (hv : ∀ j, j ≤ N → s.vb + j ≠ Av) (hp : ∀ j, j ≤ N → s.pb + j ≠ Av) :
    ∀ (l : List ℕ), (∀ j ∈ l, j ≤ N) → ∀ {w : Heap E} {hc : ℕ → 𝕜} {t : E}, OnlyAv h Av w t →
    OnlyAv h Av (l.foldl (hOrthoStep c s Av) (w, hc)).1
      (l.foldl (orthoStep v (MArn.val N h s).V (MArn.val N h s).P) (t, hc)).1 ∧
    (l.foldl (hOrthoStep c s Av) (w, hc)).2 = (l.foldl (orthoStep v (MArn.val N h s).V (MArn.val N h s).P) (t, hc)).2 := by
  intro l
  induction l with
  | nil => intro _ w hc t q; exact ⟨q, rfl⟩
  | cons j l ih =>
    intro hl w hc t q
    obtain ⟨q1, q2⟩ := hOrthoStep_spec (hc := hc) r q (hl j (by simp)) (hv j (hl j (by simp))) (hp j (hl j (by simp)))
    rw [List.foldl_cons, List.foldl_cons]
    have e1 : hOrthoStep c s Av (w, hc) j = ((hOrthoStep c s Av (w, hc) j).1, (hOrthoStep c s Av (w, hc) j).2) := rfl
    have e2 : orthoStep v (MArn.val N h s).V (MArn.val N h s).P (t, hc) j =
      ((orthoStep v (MArn.val N h s).V (MArn.val N h s).P (t, hc) j).1, (hOrthoStep c s Av (w, hc) j).2) := by rw [q2]
    rw [e1, e2]
    exact ih (fun i hi => hl i (by simp [hi])) q1

theorem hOrthoPass_spec (r : ArnRep n m0 c v) {Av : ℕ} (hv : ∀ j, j ≤ N → s.vb + j ≠ Av) (hp : ∀ j, j ≤ N → s.pb + j ≠ Av)
    {start k : ℕ} (hk : k ≤ N) {w : Heap E} {hc : ℕ → 𝕜} {t : E} (q : OnlyAv h Av w t) :
    OnlyAv h Av (hOrthoPass c s Av start k (w, hc)).1 (orthoPass v (MArn.val N h s).V (MArn.val N h s).P start k (t, hc)).1 ∧
      (hOrthoPass c s Av start k (w, hc)).2 = (orthoPass v (MArn.val N h s).V (MArn.val N h s).P start k (t, hc)).2 := by
  unfold hOrthoPass orthoPass
  refine hOrthoFold_spec r hv hp _ (fun j hj => ?_) q
  rw [List.mem_range'] at hj
  obtain ⟨i, hi, rfl⟩ := hj
  omega

theorem hOrthoPasses_spec (r : ArnRep n m0 c v) {Av : ℕ} (hv : ∀ j, j ≤ N → s.vb + j ≠ Av) (hp : ∀ j, j ≤ N → s.pb + j ≠ Av)
    {start k : ℕ} (hk : k ≤ N) : ∀ (m : ℕ) {w : Heap E} {hc : ℕ → 𝕜} {t : E}, OnlyAv h Av w t →
    OnlyAv h Av (hOrthoPasses c s Av start k m (w, hc)).1
      (orthoPasses v (MArn.val N h s).V (MArn.val N h s).P start k m (t, hc)).1 ∧
    (hOrthoPasses c s Av start k m (w, hc)).2 = (orthoPasses v (MArn.val N h s).V (MArn.val N h s).P start k m (t, hc)).2 := by
  intro m
  induction m with
  | zero => intro w hc t q; exact hOrthoPass_spec r hv hp hk q
  | succ m ih =>
    intro w hc t q
    obtain ⟨q1, q2⟩ := hOrthoPass_spec (start := start) (hc := hc) r hv hp hk q
    unfold hOrthoPasses orthoPasses
    have e1 : hOrthoPass c s Av start k (w, hc) = ((hOrthoPass c s Av start k (w, hc)).1, (hOrthoPass c s Av start k (w, hc)).2) := rfl
    have e2 : orthoPass v (MArn.val N h s).V (MArn.val N h s).P start k (t, hc) =
      ((orthoPass v (MArn.val N h s).V (MArn.val N h s).P start k (t, hc)).1, (hOrthoPass c s Av start k (w, hc)).2) := by rw [q2]
    rw [e1, e2]
    exact ih q1

/-- utils.py 968, 997-1029. -/
theorem hOrthogonalise_spec (r : ArnRep n m0 c v) (o : ArnOwn n N m0 hasM h s) (hk : s.iter ≤ N) :
    ∃ w : Heap E, h.Ext w ∧ h.next ≤ (hOrthogonalise c s h).1 ∧ (hOrthogonalise c s h).1 < w.next ∧
      OnlyAv w (hOrthogonalise c s h).1 (hOrthogonalise c s h).2.1 (orthogonalise v (MArn.val N h s)).1 ∧
      (hOrthogonalise c s h).2.2 = (orthogonalise v (MArn.val N h s)).2 := by
  unfold hOrthogonalise orthogonalise
  dsimp only
  have e1 := Heap.alloc_ext h (h.mem (s.vb + s.iter))
  have l1 := Heap.alloc_lt h (h.mem (s.vb + s.iter))
  have v1 := Heap.alloc_mem h (h.mem (s.vb + s.iter))
  have g1 := Heap.alloc_ge h (h.mem (s.vb + s.iter))
  generalize h.alloc (h.mem (s.vb + s.iter)) = col at *
  have e2 := r.A.ext _ _ (o.fr.ext e1) l1
  have l2 := r.A.lt _ _ (o.fr.ext e1) l1
  have v2 := r.A.val _ _ (o.fr.ext e1) l1
  have c2 := r.A.res _ _ (o.fr.ext e1) l1
  generalize c.A col.1 col.2 = Av at *
  have g2 : h.next ≤ Av.2 := by
    rcases c2 with hc | hc
    · rw [hc]; exact g1
    · exact e1.next.trans hc
  obtain ⟨o2, hval⟩ := o.ext (𝕜 := 𝕜) (e1.trans e2)
  have hv : ∀ j, j ≤ N → s.vb + j ≠ Av.2 := fun j hj => by have := o.vb.2; omega
  have hp : ∀ j, j ≤ N → s.pb + j ≠ Av.2 := fun j hj => by have := o.pb.2; omega
  have hVk : (MArn.val N h s : Arn 𝕜 E).V s.iter = h.mem (s.vb + s.iter) := by simp [MArn.val, hk]
  have q0 : OnlyAv Av.1 Av.2 Av.1 (v.A ((MArn.val N h s : Arn 𝕜 E).V s.iter)) :=
    ⟨rfl, fun _ _ => rfl, by rw [hVk, v2, v1]⟩
  have hit : (MArn.val N h s : Arn 𝕜 E).iter = s.iter := rfl
  have hH : (MArn.val N h s : Arn 𝕜 E).H = s.H := rfl
  rw [hit, hH, r.ortho]
  rw [← hval] at q0 ⊢
  split
  · by_cases hk0 : 0 < s.iter
    · rw [if_pos hk0, if_pos hk0]
      have hP : (MArn.val N Av.1 s : Arn 𝕜 E).P (s.iter - 1) = Av.1.mem (s.pb + (s.iter - 1)) := by
        have : s.iter - 1 ≤ N := by omega
        simp [MArn.val, this]
      have q1 : OnlyAv Av.1 Av.2 (Av.1.write Av.2 (Av.1.mem Av.2 - s.H s.iter (s.iter - 1) • Av.1.mem (s.pb + (s.iter - 1))))
          (v.A ((MArn.val N Av.1 s : Arn 𝕜 E).V s.iter) - s.H s.iter (s.iter - 1) • (MArn.val N Av.1 s : Arn 𝕜 E).P (s.iter - 1)) := by
        refine ⟨rfl, fun i hi => Function.update_of_ne hi _ _, ?_⟩
        rw [hP, ← q0.av]
        exact Function.update_self _ _ _
      obtain ⟨p1, p2⟩ := hOrthoPasses_spec (start := s.iter)
        (hc := Function.update (fun i => s.H i s.iter) (s.iter - 1) (s.H s.iter (s.iter - 1))) r hv hp hk v.ortho.reorthos q1
      exact ⟨Av.1, e1.trans e2, g2, l2, p1, p2⟩
    · rw [if_neg hk0, if_neg hk0]
      obtain ⟨p1, p2⟩ := hOrthoPasses_spec (start := s.iter) (hc := fun i => s.H i s.iter) r hv hp hk v.ortho.reorthos q0
      exact ⟨Av.1, e1.trans e2, g2, l2, p1, p2⟩
  · obtain ⟨p1, p2⟩ := hOrthoPasses_spec (start := 0) (hc := fun i => s.H i s.iter) r hv hp hk v.ortho.reorthos q0
    exact ⟨Av.1, e1.trans e2, g2, l2, p1, p2⟩

/-- Arrays other than the columns of `V` and `P` are unchanged. -/
structure Keep (N : ℕ) (s : MArn 𝕜) (h h' : Heap E) : Prop where
  next : h.next ≤ h'.next
  mem : ∀ i < h.next, Outside N s i → h'.mem i = h.mem i

theorem Keep.ofExt {h h' : Heap E} (e : h.Ext h') : Keep N s h h' := ⟨e.next, fun i hi _ => e.mem i hi⟩

/-- utils.py 954-1048. -/
theorem hAdvance_spec (r : ArnRep n m0 c v) (o : ArnOwn n c.maxiter m0 c.M.isSome h s) :
    Fr n m0 (hAdvance c h s).1 ∧ Keep c.maxiter s h (hAdvance c h s).1 ∧
      (∀ e, (hAdvance c h s).2 = .error e → arnAdvance v (MArn.val c.maxiter h s) = .error e) ∧
      (∀ s', (hAdvance c h s).2 = .ok s' →
        arnAdvance v (MArn.val c.maxiter h s) = .ok (MArn.val c.maxiter (hAdvance c h s).1 s') ∧
        s'.vb = s.vb ∧ s'.pb = s.pb ∧ s'.iter ≤ c.maxiter ∧ ArnOwn n c.maxiter m0 c.M.isSome (hAdvance c h s).1 s') := by
  have hit : (MArn.val c.maxiter h s : Arn 𝕜 E).iter = s.iter := rfl
  have hH : (MArn.val c.maxiter h s : Arn 𝕜 E).H = s.H := rfl
  have hinv : (MArn.val c.maxiter h s : Arn 𝕜 E).invariant = s.invariant := rfl
  have hvn : (MArn.val c.maxiter h s : Arn 𝕜 E).vnorm = s.vnorm := rfl
  unfold hAdvance arnAdvance
  rw [hit, hinv, ← r.maxiter, hvn, hH]
  split
  · exact ⟨o.fr, .ofExt (.refl h), fun e he => by simpa using he, fun s' he => by simp at he⟩
  · rename_i hk
    have hkN : s.iter ≤ c.maxiter := by omega
    split
    · exact ⟨o.fr, .ofExt (.refl h), fun e he => by simpa using he, fun s' he => by simp at he⟩
    · obtain ⟨w, e1, ga, la, q, qc⟩ := hOrthogonalise_spec (N := c.maxiter) r o hkN
      dsimp only
      rw [← qc]
      have hq : orthogonalise v (MArn.val c.maxiter h s) = ((orthogonalise v (MArn.val c.maxiter h s)).1, (hOrthogonalise c s h).2.2) := by
        rw [qc]
      generalize (orthogonalise v (MArn.val c.maxiter h s)).1 = av at *
      generalize hOrthogonalise c s h = O at *
      obtain ⟨Av, w1, hc⟩ := O
      dsimp only at *
      -- the memory after the orthogonalisation is an extension of h
      have e2 : h.Ext w1 := by
        refine ⟨e1.next.trans q.next.ge, fun i hi => ?_⟩
        rw [q.mem i (by omega), e1.mem i hi]
      have la1 : Av < w1.next := by rw [q.next]; exact la
      have e3 := r.M.ext _ _ la1
      have v3 := r.M.val _ _ la1
      have c3 := r.M.res _ _ la1
      have l3 := r.M.lt _ _ la1
      have hnone : c.M = none → (c.M.getD idObj) w1 Av = (w1, Av) := fun h0 => by rw [h0]; rfl
      generalize (c.M.getD idObj) w1 Av = m at *
      have e13 := e2.trans e3
      have vA : m.1.mem Av = av := by rw [e3.mem _ la1, q.av]
      have vM : m.1.mem m.2 = v.Mop av := by rw [v3, q.av]
      have gm : h.next ≤ m.2 := by
        rcases c3 with hh | hh
        · rw [hh]; exact ga
        · exact e2.next.trans hh
      obtain ⟨o3, hval3⟩ := o.ext (𝕜 := 𝕜) e13
      have hV3 : (MArn.val c.maxiter m.1 s : Arn 𝕜 E).V = (MArn.val c.maxiter h s : Arn 𝕜 E).V := by rw [hval3]
      have hP3 : (MArn.val c.maxiter m.1 s : Arn 𝕜 E).P = (MArn.val c.maxiter h s : Arn 𝕜 E).P := by rw [hval3]
      rw [vA, vM, r.ip]
      cases hn : npNorm (v.ip av (v.Mop av)) with
      | error e => exact ⟨o3.fr, .ofExt e13, fun e' he => by simpa using he, fun s' he => by simp at he⟩
      | ok t =>
        dsimp only
        split
        · exact ⟨o3.fr, .ofExt e13, fun e' he => by simpa using he, fun s' he => by simp at he⟩
        · split
          · refine ⟨o3.fr, .ofExt e13, fun e' he => by simp at he, fun s' he => ?_⟩
            obtain rfl := Except.ok.inj he
            refine ⟨?_, rfl, rfl, by dsimp only; omega, ⟨o3.fr, o3.vb, o3.pb, o3.none, o3.some⟩⟩
            rw [← hV3, ← hP3]
            rfl
          · have hk1 : s.iter + 1 ≤ c.maxiter := by omega
            cases hM : c.M with
            | none =>
              have hpb := o.none (by rw [hM]; rfl)
              have hm := hnone hM
              subst hm
              dsimp only at *
              have hMop : v.Mop av = av := by rw [← vM, vA]
              refine ⟨o3.fr.write (by have := o.vb.1; omega) _, ⟨e13.next, fun i hi ho => ?_⟩, fun e' he => by simp at he, fun s' he => ?_⟩
              · have : i ≠ s.vb + (s.iter + 1) := fun h0 => ho.1 ⟨by omega, by omega⟩
                rw [← e13.mem i hi]
                exact Function.update_of_ne this _ _
              · obtain rfl := Except.ok.inj he
                refine ⟨?_, rfl, rfl, by dsimp only; omega, ⟨o3.fr.write (by have := o.vb.1; omega) _, o3.vb, o3.pb, fun _ => hpb, fun h0 => by
                  simp at h0⟩⟩
                rw [hMop, ← hV3, ← hP3]
                unfold MArn.val
                dsimp only
                rw [hpb]
                have key : Function.update (fun j => if j ≤ c.maxiter then w1.mem (s.vb + j) else 0) (s.iter + 1) ((t : 𝕜)⁻¹ • av) =
                    fun j => if j ≤ c.maxiter then (w1.write (s.vb + (s.iter + 1)) ((t : 𝕜)⁻¹ • av)).mem (s.vb + j) else 0 := by
                  funext j
                  by_cases hj : j = s.iter + 1
                  · subst hj
                    rw [Function.update_self, if_pos hk1]
                    exact (Heap.write_self _ _ _).symm
                  · rw [Function.update_of_ne hj]
                    split
                    · have : s.vb + j ≠ s.vb + (s.iter + 1) := by omega
                      exact (Heap.write_ne _ this _).symm
                    · rfl
                rw [key]
            | some Mo =>
              have hpb := o.some (by rw [hM]; rfl)
              dsimp only
              generalize hw2 : m.1.write (s.pb + (s.iter + 1)) ((t : 𝕜)⁻¹ • av) = w2
              have hm2 : w2.mem m.2 = v.Mop av := by
                have := o.pb.2
                rw [← vM, ← hw2]
                exact Function.update_of_ne (by omega) _ _
              have f2 : Fr n m0 w2 := by
                rw [← hw2]
                exact o3.fr.write (by have := o.pb.1; omega) _
              have n2 : w2.next = m.1.next := by rw [← hw2]; rfl
              rw [hm2]
              refine ⟨f2.write (by have := o.vb.1; omega) _, ⟨by rw [show (w2.write _ _).next = w2.next from rfl, n2]; exact e13.next, fun i hi ho => ?_⟩,
                fun e' he => by simp at he, fun s' he => ?_⟩
              · have h1 : i ≠ s.vb + (s.iter + 1) := fun h0 => ho.1 ⟨by omega, by omega⟩
                have h2 : i ≠ s.pb + (s.iter + 1) := fun h0 => ho.2 ⟨by omega, by omega⟩
                rw [← e13.mem i hi]
                have : w2.mem i = m.1.mem i := by
                  rw [← hw2]
                  exact Function.update_of_ne h2 _ _
                rw [← this]
                exact Function.update_of_ne h1 _ _
              · obtain rfl := Except.ok.inj he
                refine ⟨?_, rfl, rfl, by dsimp only; omega, ⟨f2.write (by have := o.vb.1; omega) _, ⟨o3.vb.1, by
                  rw [show (w2.write _ _).next = w2.next from rfl, n2]; exact o3.vb.2⟩, ⟨o3.pb.1, by
                  rw [show (w2.write _ _).next = w2.next from rfl, n2]; exact o3.pb.2⟩, fun h0 => by simp at h0, fun _ => hpb⟩⟩
                rw [← hV3, ← hP3]
                unfold MArn.val
                dsimp only
                have keyV : Function.update (fun j => if j ≤ c.maxiter then m.1.mem (s.vb + j) else 0) (s.iter + 1) ((t : 𝕜)⁻¹ • v.Mop av) =
                    fun j => if j ≤ c.maxiter then (w2.write (s.vb + (s.iter + 1)) ((t : 𝕜)⁻¹ • v.Mop av)).mem (s.vb + j) else 0 := by
                  funext j
                  by_cases hj : j = s.iter + 1
                  · subst hj
                    rw [Function.update_self, if_pos hk1]
                    exact (Heap.write_self _ _ _).symm
                  · rw [Function.update_of_ne hj]
                    split
                    · have h1 : s.vb + j ≠ s.vb + (s.iter + 1) := by omega
                      have h2 : s.vb + j ≠ s.pb + (s.iter + 1) := by omega
                      have : w2.mem (s.vb + j) = m.1.mem (s.vb + j) := by
                        rw [← hw2]
                        exact Function.update_of_ne h2 _ _
                      rw [← this]
                      exact (Heap.write_ne _ h1 _).symm
                    · rfl
                have keyP : Function.update (fun j => if j ≤ c.maxiter then m.1.mem (s.pb + j) else 0) (s.iter + 1) ((t : 𝕜)⁻¹ • av) =
                    fun j => if j ≤ c.maxiter then (w2.write (s.vb + (s.iter + 1)) ((t : 𝕜)⁻¹ • v.Mop av)).mem (s.pb + j) else 0 := by
                  funext j
                  have hne : s.pb + j ≠ s.vb + (s.iter + 1) := by omega
                  have hw : (w2.write (s.vb + (s.iter + 1)) ((t : 𝕜)⁻¹ • v.Mop av)).mem (s.pb + j) = w2.mem (s.pb + j) :=
                    Function.update_of_ne hne _ _
                  rw [hw]
                  by_cases hj : j = s.iter + 1
                  · subst hj
                    rw [Function.update_self, if_pos hk1, ← hw2]
                    exact (Heap.write_self _ _ _).symm
                  · rw [Function.update_of_ne hj]
                    split
                    · have h1 : s.pb + j ≠ s.pb + (s.iter + 1) := by omega
                      rw [← hw2]
                      exact (Heap.write_ne _ h1 _).symm
                    · rfl
                rw [keyV, keyP]

theorem Heap.block_mem (h : Heap E) {m j : ℕ} (hj : j < m) : (h.block m).1.mem ((h.block m).2 + j) = 0 := by
  simp [Heap.block, hj]

/-- utils.py 891-952. -/
theorem hArnInit_spec (r : ArnRep n m0 c v) {p Mv : ℕ} {t : ℝ} (f : Fr n m0 h) (hp : p < h.next) (hM : Mv < h.next)
    (hMv : h.mem Mv = v.Mop (h.mem p)) :
    let i := hArnInit c p Mv t h
    h.Ext i.1 ∧ ArnOwn n c.maxiter m0 c.M.isSome i.1 i.2 ∧ i.2.iter = 0 ∧ h.next ≤ i.2.vb ∧ h.next ≤ i.2.pb ∧
      arnInit v (h.mem p) (some (h.mem Mv)) (some t) = .ok (MArn.val c.maxiter i.1 i.2) := by
  intro i
  have hsv : startV v (h.mem p) (some (h.mem Mv)) = h.mem Mv := by
    unfold startV
    cases hv : v.M with
    | none => rw [hMv]; simp [ArnCfg.Mop, hv]
    | some M => rfl
  have e1 := Heap.block_ext h (c.maxiter + 1)
  have z1 : ∀ j, j ≤ c.maxiter → (h.block (c.maxiter + 1)).1.mem ((h.block (c.maxiter + 1)).2 + j) = 0 :=
    fun j hj => h.block_mem (by omega)
  have b1 : (h.block (c.maxiter + 1)).2 = h.next := rfl
  have n1 : (h.block (c.maxiter + 1)).1.next = h.next + (c.maxiter + 1) := rfl
  have hi : i = hArnInit c p Mv t h := rfl
  unfold hArnInit at hi
  have hai : arnInit v (h.mem p) (some (h.mem Mv)) (some t) = if 0 < t then
      .ok ⟨0, Function.update 0 0 (((t : 𝕜)⁻¹) • h.mem Mv), Function.update 0 0 (((t : 𝕜)⁻¹) • h.mem p), fun _ _ => 0, false, t⟩
    else .ok ⟨0, 0, 0, fun _ _ => 0, true, t⟩ := by
    unfold arnInit
    rw [hsv]
    rfl
  rw [hai]
  generalize h.block (c.maxiter + 1) = V at *
  have fn := f.le
  cases hcM : c.M with
  | none =>
    rw [hcM] at hi
    dsimp only at hi
    have hid : v.Mop (h.mem p) = h.mem p := by
      have := r.M.val h p hp
      rw [hcM] at this
      exact this.symm
    by_cases ht : 0 < t
    · rw [if_pos ht] at hi ⊢
      rw [hi]
      have hpv : V.1.mem p = h.mem p := e1.mem p hp
      refine ⟨⟨e1.next, fun j hj => ?_⟩, ⟨(f.ext e1).write (by omega) _, ⟨?_, ?_⟩, ⟨?_, ?_⟩, fun _ => rfl, fun h0 => by simp at h0⟩,
        rfl, by dsimp only; omega, by dsimp only; omega, ?_⟩
      · rw [Heap.write_ne _ (by omega), e1.mem j hj]
      · dsimp only; omega
      · change V.2 + c.maxiter < V.1.next
        omega
      · dsimp only; omega
      · change V.2 + c.maxiter < V.1.next
        omega
      · have key : Function.update (0 : ℕ → E) 0 ((t : 𝕜)⁻¹ • h.mem p) =
            fun j => if j ≤ c.maxiter then (V.1.write V.2 ((t : 𝕜)⁻¹ • V.1.mem p)).mem (V.2 + j) else 0 := by
          funext j
          by_cases hj : j = 0
          · subst hj
            rw [Function.update_self, if_pos (Nat.zero_le _), Nat.add_zero, hpv]
            exact (Heap.write_self _ _ _).symm
          · rw [Function.update_of_ne hj]
            split
            · rename_i hjm
              rw [Heap.write_ne _ (by omega), z1 j hjm]
              rfl
            · rfl
        unfold MArn.val
        dsimp only
        rw [hMv, hid, ← key]
    · rw [if_neg ht] at hi ⊢
      rw [hi]
      refine ⟨e1, ⟨f.ext e1, ⟨by dsimp only; omega, by dsimp only; omega⟩, ⟨by dsimp only; omega, by dsimp only; omega⟩, fun _ => rfl, fun h0 => by simp at h0⟩,
        rfl, by dsimp only; omega, by dsimp only; omega, ?_⟩
      unfold MArn.val
      dsimp only
      congr 2
      all_goals
        funext j
        split
        · rename_i hjm
          rw [z1 j hjm]
          rfl
        · rfl
  | some Mo =>
    rw [hcM] at hi
    dsimp only at hi
    have e2 := Heap.block_ext V.1 (c.maxiter + 1)
    have z2 : ∀ j, j ≤ c.maxiter → (V.1.block (c.maxiter + 1)).1.mem ((V.1.block (c.maxiter + 1)).2 + j) = 0 :=
      fun j hj => V.1.block_mem (by omega)
    have b2 : (V.1.block (c.maxiter + 1)).2 = V.1.next := rfl
    have n2 : (V.1.block (c.maxiter + 1)).1.next = V.1.next + (c.maxiter + 1) := rfl
    generalize V.1.block (c.maxiter + 1) = P at *
    have z3 : ∀ j, j ≤ c.maxiter → P.1.mem (V.2 + j) = 0 := fun j hj => by rw [e2.mem _ (by omega), z1 j hj]
    have hpv : P.1.mem p = h.mem p := (e1.trans e2).mem p hp
    have hMv' : P.1.mem Mv = h.mem Mv := (e1.trans e2).mem Mv hM
    by_cases ht : 0 < t
    · rw [if_pos ht] at hi ⊢
      rw [hi, Heap.write_ne _ (by omega : Mv ≠ P.2), hpv, hMv']
      refine ⟨⟨(e1.trans e2).next, fun j hj => ?_⟩, ⟨((f.ext (e1.trans e2)).write (by omega) _).write (by omega) _, ⟨?_, ?_⟩, ⟨?_, ?_⟩,
        fun h0 => by simp at h0, fun _ => ?_⟩, rfl, by dsimp only; omega, by dsimp only; omega, ?_⟩
      · rw [Heap.write_ne _ (by omega), Heap.write_ne _ (by omega), (e1.trans e2).mem j hj]
      · dsimp only; omega
      · change V.2 + c.maxiter < P.1.next
        omega
      · dsimp only; omega
      · change P.2 + c.maxiter < P.1.next
        omega
      · dsimp only; omega
      · have keyV : Function.update (0 : ℕ → E) 0 ((t : 𝕜)⁻¹ • h.mem Mv) =
            fun j => if j ≤ c.maxiter then ((P.1.write P.2 ((t : 𝕜)⁻¹ • h.mem p)).write V.2 ((t : 𝕜)⁻¹ • h.mem Mv)).mem (V.2 + j) else 0 := by
          funext j
          by_cases hj : j = 0
          · subst hj
            rw [Function.update_self, if_pos (Nat.zero_le _), Nat.add_zero]
            exact (Heap.write_self _ _ _).symm
          · rw [Function.update_of_ne hj]
            split
            · rename_i hjm
              rw [Heap.write_ne _ (by omega), Heap.write_ne _ (by omega), z3 j hjm]
              rfl
            · rfl
        have keyP : Function.update (0 : ℕ → E) 0 ((t : 𝕜)⁻¹ • h.mem p) =
            fun j => if j ≤ c.maxiter then ((P.1.write P.2 ((t : 𝕜)⁻¹ • h.mem p)).write V.2 ((t : 𝕜)⁻¹ • h.mem Mv)).mem (P.2 + j) else 0 := by
          funext j
          rw [Heap.write_ne _ (by omega)]
          by_cases hj : j = 0
          · subst hj
            rw [Function.update_self, if_pos (Nat.zero_le _), Nat.add_zero]
            exact (Heap.write_self _ _ _).symm
          · rw [Function.update_of_ne hj]
            split
            · rename_i hjm
              rw [Heap.write_ne _ (by omega), z2 j hjm]
              rfl
            · rfl
        unfold MArn.val
        dsimp only
        rw [keyV, keyP]
    · rw [if_neg ht] at hi ⊢
      rw [hi]
      refine ⟨e1.trans e2, ⟨f.ext (e1.trans e2), ⟨by dsimp only; omega, by dsimp only; omega⟩, ⟨by dsimp only; omega, by dsimp only; omega⟩,
        fun h0 => by simp at h0, fun _ => by dsimp only; omega⟩, rfl, by dsimp only; omega, by dsimp only; omega, ?_⟩
      unfold MArn.val
      dsimp only
      congr 2
      · funext j
        split
        · rename_i hjm
          rw [z3 j hjm]
          rfl
        · rfl
      · funext j
        split
        · rename_i hjm
          rw [z2 j hjm]
          rfl
        · rfl

/-! ## `Gmres` -/

/-- The arrays of `Gmres._solve`. -/
structure GmresOwn (n N : ℕ) (m0 : ℕ → E) (b : Bool) (g : ℕ) (h : Heap E) (s : HGmresSt 𝕜) : Prop where
  arn : ArnOwn n N m0 b h s.arn
  iter : s.arn.iter ≤ N
  x0 : s.x0 < h.next
  out : Outside N s.arn s.x0
  same : s.x0 = g

theorem GmresOwn.ext {N : ℕ} {b : Bool} {x0 : ℕ} {h h' : Heap E} {s : HGmresSt 𝕜} (o : GmresOwn n N m0 b x0 h s) (e : h.Ext h') :
    GmresOwn n N m0 b x0 h' s ∧ (HGmresSt.val N h' s : GmresSt 𝕜 E) = HGmresSt.val N h s := by
  obtain ⟨o1, o2⟩ := o.arn.ext (𝕜 := 𝕜) e
  refine ⟨⟨o1, o.iter, lt_of_lt_of_le o.x0 e.next, o.out, o.same⟩, ?_⟩
  unfold HGmresSt.val
  rw [o2, e.mem _ o.x0]

theorem hgmresStep_spec (r : ArnRep n m0 c v) {x0 : ℕ} {s : HGmresSt 𝕜} (o : GmresOwn n c.maxiter m0 c.M.isSome x0 h s) :
    Fr n m0 (hgmresStep c h s).1 ∧
      (∀ e, (hgmresStep c h s).2 = .error e → gmresStep (arnAdvance v) (HGmresSt.val c.maxiter h s) = .error e) ∧
      (∀ s' q, (hgmresStep c h s).2 = .ok (s', q) →
        gmresStep (arnAdvance v) (HGmresSt.val c.maxiter h s) = .ok (HGmresSt.val c.maxiter (hgmresStep c h s).1 s', q) ∧
        GmresOwn n c.maxiter m0 c.M.isSome x0 (hgmresStep c h s).1 s') := by
  obtain ⟨a1, a2, a3, a4⟩ := hAdvance_spec r o.arn
  have harn : (HGmresSt.val c.maxiter h s : GmresSt 𝕜 E).arn = MArn.val c.maxiter h s.arn := rfl
  have hit : (MArn.val c.maxiter h s.arn : Arn 𝕜 E).iter = s.arn.iter := rfl
  unfold hgmresStep gmresStep
  rw [harn, hit]
  cases hA : hAdvance c h s.arn with
  | mk h1 res =>
  rw [hA] at a1 a2 a3 a4
  dsimp only at a1 a2 a3 a4
  cases res with
  | error e =>
    rw [a3 e rfl]
    exact ⟨a1, fun e' he => by simpa using he, fun s' q he => by simp at he⟩
  | ok t =>
    obtain ⟨b1, b2, b3, b4, b5⟩ := a4 t rfl
    rw [b1]
    refine ⟨a1, fun e' he => by simp at he, fun s' q he => ?_⟩
    obtain ⟨rfl, rfl⟩ := Prod.mk.inj (Except.ok.inj he)
    refine ⟨?_, ⟨b5, b4, lt_of_lt_of_le o.x0 a2.next, ?_, o.same⟩⟩
    · unfold HGmresSt.val
      dsimp only
      rw [a2.mem _ o.x0 o.out]
      rfl
    · have := o.out
      unfold Outside at this ⊢
      dsimp only
      rw [b2, b3]
      exact this

theorem hgmresXk_spec {x0 N : ℕ} {b : Bool} {f : E →ₗ[𝕜] E} {Mr : OpObj E} (hMr : OpOk n m0 f Mr) {s : HGmresSt 𝕜}
    (o : GmresOwn n N m0 b x0 h s) :
    h.Ext (hgmresXk Mr h s).1 ∧
      (∀ e, (hgmresXk Mr h s).2 = .error e → gmresXk f .ok (HGmresSt.val N h s) = .error e) ∧
      (∀ a, (hgmresXk Mr h s).2 = .ok a → a < (hgmresXk Mr h s).1.next ∧ (n ≤ a ∨ a = x0) ∧
        gmresXk f .ok (HGmresSt.val N h s) = .ok ((hgmresXk Mr h s).1.mem a)) := by
  have harn : (HGmresSt.val N h s : GmresSt 𝕜 E).arn = MArn.val N h s.arn := rfl
  have hit : (MArn.val N h s.arn : Arn 𝕜 E).iter = s.arn.iter := rfl
  have hR : (HGmresSt.val N h s : GmresSt 𝕜 E).R = s.R := rfl
  have hy : (HGmresSt.val N h s : GmresSt 𝕜 E).y = s.y := rfl
  have hx : (HGmresSt.val N h s : GmresSt 𝕜 E).x0 = h.mem s.x0 := rfl
  unfold hgmresXk gmresXk
  rw [harn, hit, hR, hy, hx]
  dsimp only
  split
  · cases solveUpper (Matrix.of fun i j : Fin s.arn.iter => s.R i j) (fun i : Fin s.arn.iter => s.y i) with
    | error e => exact ⟨.refl h, fun e' he => by simpa using he, fun a he => by simp at he⟩
    | ok yy =>
      dsimp only
      have hV : (fun i : Fin s.arn.iter => (MArn.val N h s.arn : Arn 𝕜 E).V i) = fun i : Fin s.arn.iter => h.mem (s.arn.vb + i) := by
        funext i
        have : (i : ℕ) ≤ N := i.2.le.trans o.iter
        simp [MArn.val, this]
      rw [hV]
      generalize lincomb (fun i : Fin s.arn.iter => h.mem (s.arn.vb + i)) yy = z
      have e1 := Heap.alloc_ext h z
      obtain ⟨k1, k2, k3, k4⟩ := hXk_spec hMr (o.arn.fr.ext e1) (lt_of_lt_of_le o.x0 e1.next) (Heap.alloc_lt h z)
      refine ⟨e1.trans k1, fun e' he => by simp at he, fun a he => ?_⟩
      obtain rfl := Except.ok.inj he
      refine ⟨k2, Or.inl (o.arn.fr.le.trans (e1.next.trans k3)), ?_⟩
      rw [k4, Heap.alloc_mem, e1.mem _ o.x0]
  · refine ⟨.refl h, fun e' he => by simp at he, fun a he => ?_⟩
    obtain rfl := Except.ok.inj he
    exact ⟨o.x0, Or.inr o.same, rfl⟩

/-- The Arnoldi object of a represented system. -/
theorem SysRep.arn {s : LS 𝕜 E} {y : HSys 𝕜 E} (r : SysRep n m0 s y) (maxiter : ℕ) (ortho : Ortho) :
    ArnRep n m0 (y.arnCfg maxiter ortho) (s.arnCfg s.hooks maxiter ortho) := by
  refine ⟨r.good.fr n m0, ?_, r.ip, rfl, rfl⟩
  have := r.M
  exact this

theorem hgmres_sim {s : LS 𝕜 E} {y : HSys 𝕜 E} (r : SysRep n m0 s y) (ortho : Ortho) (maxiter x0 : ℕ) :
    HSim n m0 (hgmresMethod y ortho maxiter)
      (gmresMethod (arnAdvance (s.arnCfg s.hooks maxiter ortho)) s.Mr s.hooks.post maxiter)
      (HGmresSt.val maxiter) (GmresOwn n maxiter m0 y.M.isSome x0) (fun x => n ≤ x ∨ x = x0) where
  fr o := o.arn.fr
  more _ := rfl
  k _ := rfl
  count := rfl
  step_fr o := (hgmresStep_spec (r.arn maxiter ortho) o).1
  step_err o he := (hgmresStep_spec (r.arn maxiter ortho) o).2.1 _ he
  step_ok o he := (hgmresStep_spec (r.arn maxiter ortho) o).2.2 _ _ he
  xk_ext o := (hgmresXk_spec r.Mr.ok o).1
  xk_err o he := (hgmresXk_spec r.Mr.ok o).2.1 _ he
  xk_ok o he := (hgmresXk_spec r.Mr.ok o).2.2 _ he
  inv_ext o e := o.ext e
  post _ o := ⟨o, rfl⟩

/-! ## `Minres` -/

/-- The arrays of `Minres._solve`. -/
structure MinresOwn (n N : ℕ) (m0 : ℕ → E) (b : Bool) (h : Heap E) (s : HMinresSt 𝕜 E) : Prop where
  arn : ArnOwn n N m0 b h s.arn
  iter : s.arn.iter ≤ N
  x0 : s.x0 < h.next
  out : Outside N s.arn s.x0
  yk : s.yk < h.next
  outy : Outside N s.arn s.yk

theorem MinresOwn.ext {N : ℕ} {b : Bool} {h h' : Heap E} {s : HMinresSt 𝕜 E} (o : MinresOwn n N m0 b h s) (e : h.Ext h') :
    MinresOwn n N m0 b h' s ∧ (HMinresSt.val N h' s : MinresSt 𝕜 E) = HMinresSt.val N h s := by
  obtain ⟨o1, o2⟩ := o.arn.ext (𝕜 := 𝕜) e
  refine ⟨⟨o1, o.iter, lt_of_lt_of_le o.x0 e.next, o.out, lt_of_lt_of_le o.yk e.next, o.outy⟩, ?_⟩
  unfold HMinresSt.val
  rw [o2, e.mem _ o.x0, e.mem _ o.yk]

theorem hminresStep_spec (r : ArnRep n m0 c v) {s : HMinresSt 𝕜 E} (o : MinresOwn n c.maxiter m0 c.M.isSome h s) :
    Fr n m0 (hminresStep c c.maxiter h s).1 ∧
      (∀ e, (hminresStep c c.maxiter h s).2 = .error e →
        minresStep (arnAdvance v) c.maxiter (HMinresSt.val c.maxiter h s) = .error e) ∧
      (∀ s' q, (hminresStep c c.maxiter h s).2 = .ok (s', q) →
        minresStep (arnAdvance v) c.maxiter (HMinresSt.val c.maxiter h s) =
          .ok (HMinresSt.val c.maxiter (hminresStep c c.maxiter h s).1 s', q) ∧
        MinresOwn n c.maxiter m0 c.M.isSome (hminresStep c c.maxiter h s).1 s') := by
  obtain ⟨a1, a2, a3, a4⟩ := hAdvance_spec r o.arn
  have harn : (HMinresSt.val c.maxiter h s : MinresSt 𝕜 E).arn = MArn.val c.maxiter h s.arn := rfl
  have hit : (MArn.val c.maxiter h s.arn : Arn 𝕜 E).iter = s.arn.iter := rfl
  have hG1 : (HMinresSt.val c.maxiter h s : MinresSt 𝕜 E).G1 = s.G1 := rfl
  have hG2 : (HMinresSt.val c.maxiter h s : MinresSt 𝕜 E).G2 = s.G2 := rfl
  have hy : (HMinresSt.val c.maxiter h s : MinresSt 𝕜 E).y = s.y := rfl
  unfold hminresStep minresStep
  rw [harn, hit, hG1, hG2, hy]
  cases hA : hAdvance c h s.arn with
  | mk h1 res =>
  rw [hA] at a1 a2 a3 a4
  dsimp only at a1 a2 a3 a4
  cases res with
  | error e =>
    rw [a3 e rfl]
    exact ⟨a1, fun e' he => by simpa using he, fun s' q he => by simp at he⟩
  | ok t =>
    obtain ⟨b1, b2, b3, b4, b5⟩ := a4 t rfl
    rw [b1]
    dsimp only
    have hH : (MArn.val c.maxiter h1 t : Arn 𝕜 E).H = t.H := rfl
    rw [hH]
    generalize optApply s.G1 (0, RCLike.re (t.H (if s.arn.iter = 0 then c.maxiter else s.arn.iter - 1) s.arn.iter)) = r01
    generalize optApply s.G2 (r01.2, RCLike.re (t.H s.arn.iter s.arn.iter)) = r12
    generalize mkGivens r12.2 (RCLike.re (t.H (s.arn.iter + 1) s.arn.iter)) = g
    split
    · exact ⟨a1, fun e' he => by simpa using he, fun s' q he => by simp at he⟩
    · have hlt : s.arn.iter ≤ c.maxiter := by
        have h3 : t.iter = s.arn.iter + 1 := arnAdvance_iter b1
        omega
      have hV : (MArn.val c.maxiter h1 t : Arn 𝕜 E).V s.arn.iter = h1.mem (t.vb + s.arn.iter) := by
        simp [MArn.val, hlt]
      have hW0 : (HMinresSt.val c.maxiter h s : MinresSt 𝕜 E).W0 = s.W0 := rfl
      have hW1 : (HMinresSt.val c.maxiter h s : MinresSt 𝕜 E).W1 = s.W1 := rfl
      rw [hV, hW0, hW1]
      generalize ((g.r : 𝕜)⁻¹) • (h1.mem (t.vb + s.arn.iter) - (r01.1 : 𝕜) • s.W0 - (r12.1 : 𝕜) • s.W1) = z
      have hyk : h1.mem s.yk = h.mem s.yk := a2.mem _ o.yk o.outy
      rw [hyk]
      have e2 := Heap.alloc_ext h1 (h.mem s.yk + (((g.apply (s.y, 0)).1 : ℝ) : 𝕜) • z)
      have l2 := Heap.alloc_lt h1 (h.mem s.yk + (((g.apply (s.y, 0)).1 : ℝ) : 𝕜) • z)
      have v2 := Heap.alloc_mem h1 (h.mem s.yk + (((g.apply (s.y, 0)).1 : ℝ) : 𝕜) • z)
      have g2 := Heap.alloc_ge h1 (h.mem s.yk + (((g.apply (s.y, 0)).1 : ℝ) : 𝕜) • z)
      refine ⟨a1.ext e2, fun e' he => by simp at he, fun s' q he => ?_⟩
      obtain ⟨rfl, rfl⟩ := Prod.mk.inj (Except.ok.inj he)
      obtain ⟨b6, b7⟩ := b5.ext (𝕜 := 𝕜) e2
      refine ⟨?_, ⟨b6, b4, lt_of_lt_of_le o.x0 (a2.next.trans e2.next), ?_, l2, ?_⟩⟩
      · unfold HMinresSt.val
        dsimp only
        rw [v2, b7, e2.mem _ (lt_of_lt_of_le o.x0 a2.next), a2.mem _ o.x0 o.out]
      · have := o.out
        unfold Outside at this ⊢
        dsimp only
        rw [b2, b3]
        exact this
      · have h1 := b5.vb.2
        have h2 := b5.pb.2
        unfold Outside
        dsimp only
        constructor <;> intro hcon <;> omega

theorem hminres_sim {s : LS 𝕜 E} {y : HSys 𝕜 E} (r : SysRep n m0 s y) (ortho : Ortho) (maxiter : ℕ) :
    HSim n m0 (hminresMethod y ortho maxiter)
      (minresMethod (arnAdvance (s.arnCfg s.hooks maxiter ortho)) s.Mr s.hooks.post maxiter)
      (HMinresSt.val maxiter) (MinresOwn n maxiter m0 y.M.isSome) (fun x => n ≤ x) where
  fr o := o.arn.fr
  more _ := rfl
  k _ := rfl
  count := rfl
  step_fr o := (hminresStep_spec (r.arn maxiter ortho) o).1
  step_err o he := (hminresStep_spec (r.arn maxiter ortho) o).2.1 _ he
  step_ok o he := (hminresStep_spec (r.arn maxiter ortho) o).2.2 _ _ he
  xk_ext o := (hXk_spec (r.Mr.ok (n := n) (m0 := m0)) o.arn.fr o.x0 o.yk).1
  xk_err o he := by simp [hminresMethod] at he
  xk_ok o he := by
    obtain ⟨e1, e2, e3, e4⟩ := hXk_spec (r.Mr.ok (n := n) (m0 := m0)) o.arn.fr o.x0 o.yk
    obtain rfl := Except.ok.inj he
    exact ⟨e2, o.arn.fr.le.trans e3, congrArg Except.ok e4.symm⟩
  inv_ext o e := o.ext e
  post _ o := ⟨o, rfl⟩

end Krypy
