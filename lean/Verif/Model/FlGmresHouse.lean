import Verif.Model.FlGmres
import Verif.Model.FlHouse

/-!
# `Gmres` with `ortho="house"` (linsys.py 877-1018) in an arbitrary arithmetic

The loop of `Model/FlGmres` with the Householder branch of `Arnoldi` (`Model/FlHouse`).  `p` are the scalar operations of `House` and of the Householder branch,
`o` the remaining operations of `Gmres`; the product with the operator is `o.A`.  `M` is the identity and `ip_B=None` (otherwise `ArgumentError`,
utils.py 911-920).
-/

namespace Krypy

variable {F K Q : Type*} {N : ℕ}

/-- The object of class `Arnoldi` as seen by `Gmres` (utils.py 899-908); without `M` there is no array `P`. -/
def FlHArn.toFl (s : FlHArn F K N) : FlArn F K (Fin (N + 1) → K) := ⟨s.iter, s.V, s.V, s.H, s.invariant, s.vnorm⟩

/-- The same object together with the list `houses` (utils.py 921). -/
def FlArn.withHouses (a : FlArn F K (Fin (N + 1) → K)) (hs : FlHouses F K N) : FlHArn F K N := ⟨a.iter, a.V, a.H, a.invariant, a.vnorm, hs⟩

/-- linsys.py 976-993: one iteration. -/
def flGmresHStep (p : FlHouseOps F K) (o : FlGmresOps F K (Fin (N + 1) → K) Q) (maxiter : ℕ) (s : FlGmresSt F K (Fin (N + 1) → K) Q × FlHouses F K N) :
    Except Err ((FlGmresSt F K (Fin (N + 1) → K) Q × FlHouses F K N) × F) :=
  let k := s.1.arn.iter
  match flHouseAdvance p o.A maxiter (s.1.arn.withHouses s.2) with
  | .error e => .error e
  | .ok a =>
    let col : ℕ → K := fun i => if i < k + 2 then a.H i k else s.1.R i k
    let col := flRots o s.1.G k col
    let g := o.rotg (col k) (col (k + 1))
    let R : ℕ → ℕ → K := fun i j => if j = k then flRot o g k col i else s.1.R i j
    let y := flRot o g k s.1.y
    .ok ((⟨a.toFl, s.1.x0, Function.update s.1.G k g, R, y⟩, a.houses), o.absK (y (k + 1)))

/-- The GMRES loop (linsys.py 971-993) as a method of the driver. -/
def flGmresHMethod (p : FlHouseOps F K) (o : FlGmresOps F K (Fin (N + 1) → K) Q) (post : (Fin (N + 1) → K) → Except Err (Fin (N + 1) → K)) (maxiter : ℕ) :
    Method F (Fin (N + 1) → K) (FlGmresSt F K (Fin (N + 1) → K) Q × FlHouses F K N) where
  more s := decide (s.1.arn.iter < maxiter) && !s.1.arn.invariant
  step := flGmresHStep p o maxiter
  getXk s := flGmresXk o post s.1
  k s := s.1.arn.iter
  post s _ := s
  countAfter := false

/-- `Gmres(..., ortho="house")` with the given initial residual (linsys.py 342-405, 941-1004).  `Mv` and `Mv_norm` are not used by the constructor of
`Arnoldi` in this case (utils.py 909-922, 949-952). -/
def flGmresHouse [LE F] [LT F] [DecidableLE F] [DecidableLT F] [Div F] [Zero F] [BEq F] [Zero K] (cfg : Cfg F (Fin (N + 1) → K)) (p : FlHouseOps F K)
    (o : FlGmresOps F K (Fin (N + 1) → K) Q) (g0 : Q) (post : (Fin (N + 1) → K) → Except Err (Fin (N + 1) → K)) (x0 Mlr0 : Fin (N + 1) → K) (r0 : F) :
    Outcome (St F (Fin (N + 1) → K) (FlGmresSt F K (Fin (N + 1) → K) Q × FlHouses F K N)) :=
  let h := flHouseInit p Mlr0
  run cfg (flGmresHMethod p o post cfg.maxiter) x0 r0 (fun x => (flGmresInit o g0 h.toFl r0 x, h.houses)) post

end Krypy
