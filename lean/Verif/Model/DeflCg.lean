import Verif.Model.DeflRitz

/-!
# `B_` and `Ritz` for `DeflatedCg` (deflation.py 165-190, 236-263, 737-834)

`Cg` keeps Lanczos vectors with NaN entries (`none`) in `V`, see `Verif.Model.Cg`; therefore the entries of `C` and `B_` are
optional here.  `H` has the shape `(n+1, n)`.
-/

namespace Krypy
variable {𝕜 E : Type*} [RCLike 𝕜] [AddCommGroup E] [Module 𝕜 E] {m : ℕ}
open scoped ComplexConjugate

/-- deflation.py 165-190 for `H` of the shape `(n+1, n)` (linsys.py 691-696): the rows of `B_`; a row with NaN entries is
`none`. -/
noncomputable def Obl.cgB_ (s : LS 𝕜 E) (o : Obl 𝕜 E m) (n : ℕ) (V : ℕ → Option E) (C : List (Option (Fin m → 𝕜))) :
    List (Option (Fin m → 𝕜)) :=
  if s.selfAdjoint then
    C.map (Option.map fun c j => conj (c j)) ++ [(V n).map fun v j => s.ip v (o.AU j)]
  else (List.range (n + 1)).map fun i => (V i).map fun v j => s.ip v (o.AU j)

/-- An array given by its rows (or columns) of length `m`, if it has no NaN entry (an array with `m = 0` has no entries) (the array `C` of deflation.py 114, 258-262, where NaN comes from divisions by zero). -/
def finRows (l : List (Option (Fin m → 𝕜))) : Option (List (Fin m → 𝕜)) :=
  if m = 0 then some (l.map fun r => r.getD 0) else l.mapM id

/-- `Ritz(deflated_cg, mode)` (deflation.py 738-834).  If the last row of `B_` is NaN, `M` (782, with `B = B_[:n]`) is finite, but
all `resnorms` (830-832, with `S`) are NaN, and scipy raises `ValueError` for the matrix with `K` of the mode `harmonic` (801-812).
Simplification: other NaN in `C` or `B_` (they do not occur, see C38) are `Err.nonFinite`. -/
noncomputable def Obl.cgRitz (s : LS 𝕜 E) (o : Obl 𝕜 E m) {n : ℕ} (rt : EigRoutines 𝕜 (Fin n ⊕ Fin m)) (H : ℕ → ℕ → ℝ)
    (V : ℕ → Option E) (C : List (Option (Fin m → 𝕜))) (mode : RitzMode) : Except Err (DeflRitzOut 𝕜 n m) :=
  match finRows C with
  | none => .error .nonFinite
  | some C' => match finRows (o.cgB_ s n V C) with
    | some B' => deflRitz rt (fun i j => (H i j : 𝕜)) (n + 1) o.Emat C' B' (gram s.ip o.AU fun j => s.M (o.AU j))
        s.selfAdjoint mode
    | none => match finRows ((o.cgB_ s n V C).take n) with
      | none => .error .nonFinite
      | some B' => match mode with
        | .harmonic => match solveE o.Emat (colsMat C' n) with
          | .error e => .error e
          | .ok _ => .error .valueError
        | mode => match deflRitz rt (fun i j => (H i j : 𝕜)) (n + 1) o.Emat C' (B' ++ [0])
            (gram s.ip o.AU fun j => s.M (o.AU j)) s.selfAdjoint mode with
          | .error e => .error e
          | .ok out => .ok { out with resnorms := fun _ => none }

end Krypy
