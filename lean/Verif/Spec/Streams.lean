import Verif.Spec.Plot
import Mathlib.Algebra.BigOperators.Group.Finset.Basic

/-! # Stream functions -/

namespace Hermipy.Spec
open Hermipy

/-- The list of rows of a table with `n` rows and `m` columns. -/
def gridTable (n m : ℕ) (f : ℕ → ℕ → ℝ) : List (List ℝ) := (List.range n).map fun j => (List.range m).map fun i => f j i

/-- The line integral of `u dy - v dx` on the grid from the first node, first along the first row, then along the column; each step takes
the value of the field at its end. -/
noncomputable def lineIntegral (X Y : ℕ → ℝ) (U V : ℕ → ℕ → ℝ) (j i : ℕ) : ℝ :=
  ∑ l ∈ Finset.range j, U (l + 1) i * (Y (l + 1) - Y l) - ∑ l ∈ Finset.range i, V 0 (l + 1) * (X (l + 1) - X l)

end Hermipy.Spec
