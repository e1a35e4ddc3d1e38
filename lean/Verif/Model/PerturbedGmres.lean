import Verif.Model.Driver
import Mathlib.Analysis.Real.Pi.Bounds
import Mathlib.Analysis.Complex.Basic

/-!
# Model of `bound_perturbed_gmres` (utils.py 2006-2033)

Exact arithmetic.  `paths delta` stands for `pseudo.contour_paths(delta)` of the package pseudopy: the vertices of the contour and
its length, or an exception.
-/

namespace Krypy

/-- utils.py 2022: `numpy.max` of a nonempty list. -/
noncomputable def npMax (t : ℝ) : List ℝ → ℝ
  | [] => t
  | a :: l => npMax (max t a) l

/-- utils.py 2016-2032: one pass of the loop. -/
noncomputable def perturbedEntry (paths : ℝ → Except Err (List ℂ × ℝ)) (p : ℂ → ℂ) (eps delta : ℝ) : Except Err ℝ :=
  match paths delta with
  | .error e => .error e
  | .ok (vertices, length) =>
    match vertices.map fun z => ‖p z‖ with
    -- `numpy.max` of an empty array
    | [] => .error .valueError
    | a :: l =>
      let supremum := npMax a l
      -- 2026-2031
      if 2 * Real.pi * delta = 0 then .error .nonFinite
      else .ok (eps / (delta - eps) * length / (2 * Real.pi * delta) * supremum)

/-- utils.py 2015-2033: the loop. -/
noncomputable def perturbedLoop (paths : ℝ → Except Err (List ℂ × ℝ)) (p : ℂ → ℂ) (eps : ℝ) : List ℝ → Except Err (List ℝ)
  | [] => .ok []
  | delta :: deltas => match perturbedEntry paths p eps delta with
    | .error e => .error e
    | .ok v => match perturbedLoop paths p eps deltas with
      | .error e => .error e
      | .ok l => .ok (v :: l)

open Classical in
/-- utils.py 2006-2033: `bound_perturbed_gmres(pseudo, p, epsilon, deltas)`. -/
noncomputable def boundPerturbedGmres (paths : ℝ → Except Err (List ℂ × ℝ)) (p : ℂ → ℂ) (eps : ℝ) (deltas : List ℝ) :
    Except Err (List ℝ) :=
  -- 2011-2012
  if ¬ ∀ d ∈ deltas, eps < d then .error .argumentError
  else perturbedLoop paths p eps deltas

end Krypy
