import Mathlib.Data.Matrix.Mul
import Mathlib.LinearAlgebra.Matrix.Symmetric
import Mathlib.LinearAlgebra.Matrix.Trace
import Mathlib.Data.Real.Basic

/-! # Vocabulary for Gaussian solutions -/

namespace Hermipy.Spec
open Matrix

variable {n : ℕ}

/-- A symmetric, positive definite matrix. -/
structure PosDefinite (A : Matrix (Fin n) (Fin n) ℝ) : Prop where
  symm : A.IsSymm
  pos : ∀ x, x ≠ 0 → 0 < x ⬝ᵥ A *ᵥ x

/-- The linear equation `x' = -B x` is stable: it has a quadratic Lyapunov function. -/
def Stable (B : Matrix (Fin n) (Fin n) ℝ) : Prop := ∃ P, PosDefinite P ∧ ∀ x, x ≠ 0 → 0 < x ⬝ᵥ (P * B) *ᵥ x

/-- The conditions for `exp(-x·Cx/2)` to be stationary for the process with drift `-B x` and diffusion `A`. -/
structure Stationary (B A C : Matrix (Fin n) (Fin n) ℝ) : Prop where
  trace : (A * C).trace = B.trace
  quadratic : C * A * C + C * A * C = C * B + Bᵀ * C

/-- The noise with covariance `A` reaches, through the drift `-B x`, all directions. -/
def Reaches (B A : Matrix (Fin n) (Fin n) ℝ) : Prop := ∀ x, (∀ k : ℕ, A *ᵥ ((Bᵀ ^ k) *ᵥ x) = 0) → x = 0

end Hermipy.Spec
