import Verif.Model.QuadObject

/-! # Model of `Varf.solve` -/

namespace Hermipy

variable {F : Type} [DecidableEq F]

/-- `Series.__float__`. series.py:175-178. -/
def series_float {Φ : Type} (f : HSeries Φ) : Out ℝ := if f.position.dim ≠ 0 then .throws else pyget f.coeffs 0

/-- What the library routines return for a matrix and a vector: `spla.spsolve` (if the flag is set) or `la.solve`. -/
abbrev Solver := Bool → List (List ℝ) → List ℝ → Out (List ℝ)

/-- What `solve` is asked to remove: nothing; a vector (`remove_vec`); the eigenvector which `self.eigs(k=1, which='SM')` has returned
(`remove0`), if it is real. -/
inductive Removal (Φ : Type) where
  | nothing
  | vec (v : HSeries Φ)
  | eig (s : HSeries Φ)

/-- The coefficients of the row and column to append. varf.py:183-193. The number `e` is only printed, but computing it may raise. For the
vector zero, numpy divides by zero and goes on with `nan`; here, the norm is not zero. -/
noncomputable def removalCoeffs (A : HVarf (SFn F)) : Removal (SFn F) → Out (Option (List ℝ))
  | .nothing => .ok none
  | .eig s => .ok (some s.coeffs)
  | .vec v => do
    let vv ← series_tensorize [v, v]
    let n2 ← series_float vv
    let w ← series_div v (√n2)
    let Aw ← varf_call A w
    let wAw ← series_tensorize [w, Aw]
    let _ ← series_float wAw
    .ok (some w.coeffs)

/-- The matrix with the row and column appended. varf.py:197-198. `vstack` and `hstack` raise if the sizes do not fit. -/
def border (M : List (List ℝ)) (w : List ℝ) : Out (List (List ℝ)) :=
  if (∃ r ∈ M, r.length ≠ w.length) ∨ M.length ≠ w.length then .throws
  else .ok (List.zipWith (fun r c => r ++ [c]) (M ++ [w]) (w ++ [0]))

/-- The call of the library: it raises unless the matrix is square and the vector has its size. -/
def linsolve (solver : Solver) (sparse : Bool) (M : List (List ℝ)) (b : List ℝ) : Out (List ℝ) :=
  if (∃ r ∈ M, r.length ≠ M.length) ∨ b.length ≠ M.length then .throws else solver sparse M b

/-- The matrix and the vector of the system. varf.py:197-206. -/
def systemOf (M : List (List ℝ)) (b : List ℝ) : Option (List ℝ) → Out (List (List ℝ) × List ℝ)
  | none => .ok (M, b)
  | some w => do
    let matrix ← border M w
    .ok (matrix, b ++ [0])

/-- The call of the solver. varf.py:208-219. With `use_gmres`, the name `M` is unbound unless `preconditioner == 'ilu'` (the flag `ilu`), so
the call raises; with it, `gmres` is what the iterative solver returns. -/
def runSolver (solver : Solver) (gmres : List (List ℝ) → List ℝ → Out (List ℝ)) (use_gmres ilu sparse : Bool) (M : List (List ℝ))
    (b : List ℝ) : Out (List ℝ) :=
  if use_gmres then (if ilu then linsolve (fun _ => gmres) sparse M b else .throws) else linsolve solver sparse M b

/-- The last entry is dropped if something is removed; a series is true in `if remove0 or remove_vec`. varf.py:221-222. -/
def dropMultiplier (solution : List ℝ) : Option (List ℝ) → List ℝ
  | none => solution
  | some _ => solution.dropLast

open scoped Classical in
/-- `Varf.solve`. varf.py:170-225. The calls go through the cache, which is taken to return what the call returns (see C47). -/
noncomputable def varf_solve (solver : Solver) (gmres : List (List ℝ) → List ℝ → Out (List ℝ)) (use_gmres ilu : Bool) (A : HVarf (SFn F))
    (removal : Removal (SFn F)) (f : HSeries (SFn F)) : Out (HSeries (SFn F)) :=
  if ¬ pos_eq A.position f.position ∨ ¬ A.index_set = f.index_set then .throws
  else do
    let w ← removalCoeffs A removal
    let mv ← systemOf A.matrix f.coeffs w
    let solution ← runSolver solver gmres use_gmres ilu A.is_sparse mv.1 mv.2
    mkSeries (dropMultiplier solution w) A.position A.factor A.index_set

end Hermipy
