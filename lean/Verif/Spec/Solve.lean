import Verif.Model.Solve
import Verif.Spec.Series
import Verif.Spec.Quad

/-! # Linear systems -/

namespace Hermipy.Spec
open Hermipy

/-- The scalar product. -/
def dot (a b : List ℝ) : ℝ := (List.zipWith (· * ·) a b).sum

/-- The product of a matrix (a list of rows) and a vector. -/
def mulVec (M : List (List ℝ)) (x : List ℝ) : List ℝ := M.map fun r => dot r x

/-- The matrix with `w` appended as a row and as a column, and zero in the corner. -/
def bordered (M : List (List ℝ)) (w : List ℝ) : List (List ℝ) := List.zipWith (fun r c => r ++ [c]) M w ++ [w ++ [0]]

/-- As many columns as rows. -/
def Square (M : List (List ℝ)) : Prop := ∀ r ∈ M, r.length = M.length

/-- Only the vector zero is mapped to zero. -/
def Nonsingular (M : List (List ℝ)) : Prop := ∀ x : List ℝ, x.length = M.length → (∀ r ∈ M, dot r x = 0) → ∀ c ∈ x, c = 0

/-- The routine solves systems with a square, nonsingular matrix exactly. -/
def ExactSolver (solve : List (List ℝ) → List ℝ → Out (List ℝ)) : Prop :=
  ∀ M b, Square M → b.length = M.length → Nonsingular M → ∃ x, solve M b = .ok x ∧ x.length = M.length ∧ mulVec M x = b

/-- The routine that `solve` calls is exact: the direct one, or the iterative one, which needs its preconditioner. -/
def Solves (solver : Solver) (gmres : List (List ℝ) → List ℝ → Out (List ℝ)) (use_gmres ilu sparse : Bool) : Prop :=
  (use_gmres = false ∧ ExactSolver (solver sparse)) ∨ (use_gmres = true ∧ ilu = true ∧ ExactSolver gmres)

/-- A series to which the form applies. -/
structure FitsForm {Φ : Type} (A : HVarf Φ) (f : HSeries Φ) : Prop where
  ok : SeriesOk f
  position : pos_eq A.position f.position
  index_set : A.index_set = f.index_set
  degree : A.degree = f.degree

/-- A series with the position, factor, index set and degree of the form. -/
structure Own {Φ : Type} (A : HVarf Φ) (f : HSeries Φ) : Prop where
  ok : SeriesOk f
  position : f.position = A.position
  factor : f.factor = A.factor
  index_set : f.index_set = A.index_set
  degree : f.degree = A.degree

/-- The covariance matrix of the form is diagonal, and its factor is a product of functions of its directions, which are sorted. -/
structure ProductFactor {F : Type} (A : HVarf (SFn F)) : Prop where
  diag : Diagonal A.position
  fac : SFnOk A.factor
  dirs : A.factor.dirs = A.position.dirs
  terms : ∃ p, A.factor.terms = {p}

/-- The vectors which the matrix maps to zero are multiples of `v`. -/
def KernelIn (M : List (List ℝ)) (v : List ℝ) : Prop :=
  ∀ x : List ℝ, x.length = M.length → (∀ r ∈ M, dot r x = 0) → ∃ t, x = v.map (t * ·)

/-- The vector is orthogonal to what the matrix maps to. -/
def Annihilates (p : List ℝ) (M : List (List ℝ)) : Prop := ∀ x : List ℝ, x.length = M.length → dot p (mulVec M x) = 0

/-- The series have the same coefficients. -/
def SameCoefs {Φ : Type} (f g : HSeries Φ) : Prop := ∀ I c, Coef f I c ↔ Coef g I c

end Hermipy.Spec
