import Verif.Model.Eigs
import Verif.Spec.Solve

/-! # Eigenvectors -/

namespace Hermipy.Spec
open Hermipy

/-- The product of a real matrix and a complex vector. -/
noncomputable def mulVecC (M : List (List ℝ)) (v : List ℂ) : List ℂ := M.map fun r => (List.zipWith (fun (a : ℝ) (z : ℂ) => (a : ℂ) * z) r v).sum

/-- The library routine returns as many values as vectors, which are exact eigenvectors of length one. -/
def ExactEigs (eigs : EigSolver) : Prop :=
  ∀ (M : List (List ℝ)) (vals : List ℂ) (vecs : List (List ℂ)), Square M → eigs M = .ok (vals, vecs) → vals.length = vecs.length ∧
    ∀ (k : ℕ) (l : ℂ) (v : List ℂ), vals[k]? = some l → vecs[k]? = some v →
      v.length = M.length ∧ mulVecC M v = v.map (l * ·) ∧ (v.map Complex.normSq).sum = 1

/-- The Euclidean distance of two vectors. -/
noncomputable def distance (a b : List ℝ) : ℝ := √(List.zipWith (fun x y => (x - y) ^ 2) a b).sum

/-- A series of the space of the form which is an eigenfunction for `l`. For a series with real coefficients: up to `δ |Im l|`, and its norm
lies between `1 - δ²` and 1 when squared. -/
def Eigenfunction {Φ : Type} (A : HVarf Φ) (δ : ℝ) (l : ℂ) : EigSeries Φ → Prop
  | .real s => Own A s ∧ 1 - δ ^ 2 ≤ dot s.coeffs s.coeffs ∧ dot s.coeffs s.coeffs ≤ 1 ∧
      ∃ h, varf_call A s = .ok h ∧ Own A h ∧ distance h.coeffs (s.coeffs.map (l.re * ·)) ≤ δ * |l.im|
  | .complex r i => Own A r ∧ Own A i ∧ dot r.coeffs r.coeffs + dot i.coeffs i.coeffs = 1 ∧
      ∃ hr hi, varf_call A r = .ok hr ∧ varf_call A i = .ok hi ∧ Own A hr ∧ Own A hi ∧
        hr.coeffs = List.zipWith (fun a b => l.re * a - l.im * b) r.coeffs i.coeffs ∧
        hi.coeffs = List.zipWith (fun a b => l.re * b + l.im * a) r.coeffs i.coeffs

/-- The Euclidean norm of all entries of a matrix. -/
noncomputable def entriesNorm (M : List (List ℝ)) : ℝ := √(M.map fun r => dot r r).sum

/-! ## Complex linear systems -/

/-- The sum of the products, without conjugation. -/
noncomputable def dotC (a b : List ℂ) : ℂ := (List.zipWith (· * ·) a b).sum

/-- Only the vector zero is mapped to zero. -/
def NonsingularC (M : List (List ℂ)) : Prop := ∀ x : List ℂ, x.length = M.length → (∀ r ∈ M, dotC r x = 0) → ∀ c ∈ x, c = 0

/-- The routine solves systems with a square, nonsingular matrix exactly. -/
def ExactSolverC (solve : List (List ℂ) → List ℂ → Out (List ℂ)) : Prop :=
  ∀ M b, (∀ r ∈ M, r.length = M.length) → b.length = M.length → NonsingularC M →
    ∃ x, solve M b = .ok x ∧ x.length = M.length ∧ M.map (dotC · x) = b

/-- The routine that `solve` calls is exact for complex systems, see `Solves`. -/
def SolvesC (solver : SolverC) (gmres : List (List ℂ) → List ℂ → Out (List ℂ)) (use_gmres ilu sparse : Bool) : Prop :=
  (use_gmres = false ∧ ExactSolverC (solver sparse)) ∨ (use_gmres = true ∧ ilu = true ∧ ExactSolverC gmres)

/-- The series is `u`, possibly with complex coefficients whose imaginary parts are zero. -/
def IsReal {Φ : Type} (r : EigSeries Φ) (u : HSeries Φ) : Prop := r = .real u ∨ ∃ i, r = .complex u i ∧ ∀ c ∈ i.coeffs, c = 0

end Hermipy.Spec
