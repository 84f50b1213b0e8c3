import Verif.Spec.Smooth
import Verif.Spec.Gaussian
import Mathlib.LinearAlgebra.Matrix.Determinant.Basic
import Mathlib.Analysis.SpecialFunctions.Trigonometric.Basic
import Mathlib.Analysis.SpecialFunctions.Sqrt

/-! # Processes with linear drift -/

namespace Hermipy.Spec
open Hermipy Matrix

variable {n : ℕ}

/-- The coordinate functions. -/
def coord (i : Fin n) : Smooth n := ⟨fun x => x i, Smooth.mem_iff.2 (contDiff_apply ℝ ℝ i)⟩

/-- The forward operator of the process with drift `g - B x` and constant diffusion `A`: `-Σ ∂ᵢ ((gᵢ - (Bx)ᵢ) u) + Σ Aᵢⱼ ∂ᵢ ∂ⱼ u`. -/
noncomputable def linearForward (B A : Matrix (Fin n) (Fin n) ℝ) (g : Fin n → ℝ) (u : Smooth n) : Smooth n :=
  -∑ i, Smooth.diff i ((Smooth.const (g i) - ∑ j, Smooth.const (B i j) * coord j) * u) +
    ∑ i, ∑ j, Smooth.const (A i j) * Smooth.diff i (Smooth.diff j u)

/-- The generator of the process with drift `-B x` and constant diffusion `A`: `-Σ (Bx)ᵢ ∂ᵢ v + Σ Aᵢⱼ ∂ᵢ ∂ⱼ v`. -/
noncomputable def linearBackward (B A : Matrix (Fin n) (Fin n) ℝ) (v : Smooth n) : Smooth n :=
  -∑ i, (∑ j, Smooth.const (B i j) * coord j) * Smooth.diff i v + ∑ i, ∑ j, Smooth.const (A i j) * Smooth.diff i (Smooth.diff j v)

/-- The operator with the given terms, applied to a function of one, two or three variables. -/
noncomputable def actOn : (n : ℕ) → List (OpTerm (Smooth n)) → Smooth n → Smooth n
  | 3, T, u => acts (Smooth.D [0, 1, 2]) [0, 1, 2] T u
  | 2, T, u => acts (Smooth.D [0, 1]) [0, 1] T u
  | 1, T, u => acts (Smooth.D [0]) [0] T u
  | _, _, _ => 0

/-- The density of the centred normal distribution with inverse covariance `C`. -/
noncomputable def centredNormal (C : Matrix (Fin n) (Fin n) ℝ) (x : Fin n → ℝ) : ℝ :=
  √(C.det / (2 * Real.pi) ^ n) * Real.exp (-(x ⬝ᵥ C *ᵥ x / 2))

end Hermipy.Spec
