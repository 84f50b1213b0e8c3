import Verif.Spec.Rules
import Verif.Spec.LinearDrift
import Verif.Spec.Basis

/-! # Normal distributions with correlated coordinates -/

namespace Hermipy.Spec
open Hermipy Matrix

variable {F : Type}

/-- The square matrix with the given rows. -/
def squareOf (n : ℕ) (rows : List (List ℝ)) : Matrix (Fin n) (Fin n) ℝ := Matrix.of fun i j => entryOf rows i j

/-- What `numpy.linalg.eig` promises for a real matrix with real eigenvalues and a basis of eigenvectors: the columns of `V` are independent
eigenvectors of length one, with eigenvalues `l`. (It does not promise that they are orthogonal.) -/
structure EigenBasis {n : ℕ} (A : Matrix (Fin n) (Fin n) ℝ) (l : Fin n → ℝ) (V : Matrix (Fin n) (Fin n) ℝ) : Prop where
  eigen : ∀ j, A *ᵥ V.col j = l j • V.col j
  unit : ∀ j, V.col j ⬝ᵥ V.col j = 1
  independent : V.det ≠ 0

/-- The lists are those of the eigenvalues and of the matrix of eigenvectors. -/
structure EigReturns (n : ℕ) (out : List ℝ × List (List ℝ)) (l : Fin n → ℝ) (V : Matrix (Fin n) (Fin n) ℝ) : Prop where
  length : out.1.length = n
  values : ∀ i : Fin n, out.1.getD i 0 = l i
  vectors : squareOf n out.2 = V

/-- A quadrature whose attributes fit together; its covariance may be any square matrix. -/
structure CorrQuadOk (q : HQuad F) : Prop where
  pos : PosOk q.position
  dim : q.nodes.length = q.position.dim
  grid : Grid q.nodes q.do_fourier
  weights : q.weights.map List.length = q.nodes.map List.length
  uniform : uniform q.nodes
  factor : SFnOk q.factor
  factorDirs : q.factor.dirs = q.position.dirs

/-- The mean of a position. -/
def meanOf (p : Position) : Fin p.dirs.length → ℝ := fun i => p.mean.getD i 0

/-- The covariance matrix of a position. -/
def covOf (p : Position) : Matrix (Fin p.dirs.length) (Fin p.dirs.length) ℝ := squareOf p.dirs.length p.cov

/-- The point at the distance `z k` standard deviations along the `k`-th eigenvector, for all `k`. -/
noncomputable def eigenPoint {n : ℕ} (m : Fin n → ℝ) (l : Fin n → ℝ) (V : Matrix (Fin n) (Fin n) ℝ) (z : Fin n → ℝ) : Fin n → ℝ :=
  m + ∑ k, (√(l k) * z k) • V.col k

/-- The first coordinates of a node. -/
def node (n : ℕ) (p : List ℝ) : Fin n → ℝ := fun k => p.getD k 0

/-- The density of the normal distribution with the given mean and covariance matrix. -/
noncomputable def normalDensityOf {n : ℕ} (m : Fin n → ℝ) (C : Matrix (Fin n) (Fin n) ℝ) (x : Fin n → ℝ) : ℝ :=
  Real.exp (-((x - m) ⬝ᵥ C⁻¹ *ᵥ (x - m) / 2)) / √((2 * Real.pi) ^ n * C.det)

/-- The function is a polynomial of total degree less than `n` in the directions. -/
def TotalBelow (n : ℕ) (dirs : List ℕ) (g : (ℕ → ℝ) → ℝ) : Prop :=
  ∃ P : MvPolynomial (Fin dirs.length) ℝ, P.totalDegree < n ∧ ∀ x, g x = MvPolynomial.eval (fun i => x (dirs.get i)) P

end Hermipy.Spec
