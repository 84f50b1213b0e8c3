import Mathlib.Analysis.SpecialFunctions.Trigonometric.Basic

/-! # Model of the rules built in `hermipy/quad.py` -/

namespace Hermipy

/-- Nodes of one direction of `Quad.fourier`. quad.py:141. -/
noncomputable def fourierNodes (n : Nat) : List ℝ := (List.range n).map fun (j : Nat) => -Real.pi + 2 * Real.pi * (j : ℝ) / (n : ℝ)

/-- Weights of one direction of `Quad.fourier`. quad.py:142. -/
noncomputable def fourierWeights (n : Nat) : List ℝ := List.replicate n (2 * Real.pi / (n : ℝ))

end Hermipy
