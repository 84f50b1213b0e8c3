import Mathlib.MeasureTheory.Integral.Bochner.Basic
import Mathlib.MeasureTheory.Measure.Lebesgue.Basic
import Mathlib.Analysis.SpecialFunctions.Trigonometric.Basic

/-! # Mean with respect to the standard Gaussian -/

namespace Hermipy.Spec

/-- The mean of `g` with respect to the standard Gaussian density. -/
noncomputable def gaussMean (g : ℝ → ℝ) : ℝ := ∫ x, g x * (Real.exp (-(x ^ 2) / 2) / √(2 * Real.pi))

end Hermipy.Spec
