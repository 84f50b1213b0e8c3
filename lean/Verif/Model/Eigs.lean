import Verif.Model.Solve
import Verif.Model.CacheError
import Mathlib.Data.Complex.Basic

/-! # Model of `Varf.eigs` -/

namespace Hermipy

/-- What `spla.eigs(self.matrix, **kwargs)` returns: the eigenvalues, and the eigenvectors, which are the columns of its second result. -/
abbrev EigSolver := List (List ℝ) → Out (List ℂ × List (List ℂ))

/-- A series with real coefficients, or a series with complex coefficients, given by its real and imaginary parts. -/
inductive EigSeries (Φ : Type) where
  | real (s : HSeries Φ)
  | complex (re im : HSeries Φ)

open scoped Classical in
/-- The series of an eigenvector. varf.py:233-236. The constructor of the class `Series` treats complex coefficients as it treats their real and
imaginary parts: it only looks at their number. -/
noncomputable def eigSeries {Φ : Type} (A : HVarf Φ) (v : List ℂ) : Out (EigSeries Φ) :=
  if Cache.vecNorm (v.map Complex.im) > 1 / 10 ^ 15 then do
    let re ← mkSeries (v.map Complex.re) A.position A.factor A.index_set
    let im ← mkSeries (v.map Complex.im) A.position A.factor A.index_set
    .ok (.complex re im)
  else do
    let re ← mkSeries (v.map Complex.re) A.position A.factor A.index_set
    .ok (.real re)

/-- `Varf.eigs`. varf.py:227-237. The call of the library goes through the cache, see `Hermipy.Cache.wrapper`. -/
noncomputable def varf_eigs {Φ : Type} (eigs : EigSolver) (A : HVarf Φ) : Out (List ℂ × List (EigSeries Φ)) := do
  let (vals, vecs) ← eigs A.matrix
  let result ← vecs.mapM (eigSeries A)
  .ok (vals, result)

/-- What the library routines return for a complex matrix and a complex vector, see `Solver`. -/
abbrev SolverC := Bool → List (List ℂ) → List ℂ → Out (List ℂ)

/-- The matrix with the row and column appended, see `border`: the column is transposed and not conjugated. varf.py:197-198. -/
noncomputable def borderC (M : List (List ℝ)) (w : List ℂ) : Out (List (List ℂ)) :=
  if (∃ r ∈ M, r.length ≠ w.length) ∨ M.length ≠ w.length then .throws
  else .ok (List.zipWith (fun r c => r ++ [c]) (M.map (fun r => r.map Complex.ofReal) ++ [w]) (w ++ [0]))

/-- The call of the library, see `linsolve`. -/
def linsolveC (solver : SolverC) (sparse : Bool) (M : List (List ℂ)) (b : List ℂ) : Out (List ℂ) :=
  if (∃ r ∈ M, r.length ≠ M.length) ∨ b.length ≠ M.length then .throws else solver sparse M b

/-- The call of the solver, see `runSolver`. varf.py:208-219. -/
def runSolverC (solver : SolverC) (gmres : List (List ℂ) → List ℂ → Out (List ℂ)) (use_gmres ilu sparse : Bool) (M : List (List ℂ))
    (b : List ℂ) : Out (List ℂ) :=
  if use_gmres then (if ilu then linsolveC (fun _ => gmres) sparse M b else .throws) else linsolveC solver sparse M b

/-- The rest of `Varf.solve` after `remove_vec = s`, if `s` has complex coefficients. varf.py:197-225. The series which is returned has complex
coefficients, too. -/
noncomputable def solveComplex {Φ : Type} (solver : SolverC) (gmres : List (List ℂ) → List ℂ → Out (List ℂ)) (use_gmres ilu : Bool)
    (A : HVarf Φ) (re im f : HSeries Φ) : Out (EigSeries Φ) := do
  let matrix ← borderC A.matrix (List.zipWith (fun a b => (⟨a, b⟩ : ℂ)) re.coeffs im.coeffs)
  let solution ← runSolverC solver gmres use_gmres ilu A.is_sparse matrix (f.coeffs.map Complex.ofReal ++ [0])
  let re ← mkSeries (solution.dropLast.map Complex.re) A.position A.factor A.index_set
  let im ← mkSeries (solution.dropLast.map Complex.im) A.position A.factor A.index_set
  .ok (.complex re im)

/-- `Varf.solve(series, remove0=True)`. varf.py:170-225. The test of the positions comes first; unpacking raises unless there is one eigenvalue
and one eigenvector. -/
noncomputable def varf_solve_remove0 {F : Type} [DecidableEq F] (eigs : EigSolver) (solver : Solver)
    (gmres : List (List ℝ) → List ℝ → Out (List ℝ)) (solverC : SolverC) (gmresC : List (List ℂ) → List ℂ → Out (List ℂ))
    (use_gmres ilu : Bool) (A : HVarf (SFn F)) (f : HSeries (SFn F)) : Out (EigSeries (SFn F)) :=
  open scoped Classical in
  if ¬ pos_eq A.position f.position ∨ ¬ A.index_set = f.index_set then .throws
  else do
    let es ← varf_eigs eigs A
    match es with
    | ([_], [.real s]) => do
      let u ← varf_solve solver gmres use_gmres ilu A (.eig s) f
      .ok (.real u)
    | ([_], [.complex re im]) => solveComplex solverC gmresC use_gmres ilu A re im f
    | _ => .throws

end Hermipy
