import Verif.Model.Plot
import Verif.Spec.Rules

/-! # What a plot shows -/

namespace Hermipy.Spec
open Hermipy

/-- The point with coordinate `x` in direction `d`. -/
def at1 (d : ℕ) (x : ℝ) (k : ℕ) : ℝ := if k = d then x else 0

/-- The point with coordinates `x`, `y` in the directions `d`, `e`. -/
def at2 (d e : ℕ) (x y : ℝ) (k : ℕ) : ℝ := if k = d then x else if k = e then y else 0

/-- The coordinates of the nodes in the `i`-th direction. -/
noncomputable def axis {F : Type} (q : HQuad F) (i : ℕ) : List ℝ :=
  (q.nodes.getD i []).map fun t => q.position.mean.getD i 0 + √(entryOf q.position.cov i i) * t

/-- The least and the greatest of the values. -/
structure Extremes (low high : ℝ) (values : List ℝ) : Prop where
  low_mem : low ∈ values
  high_mem : high ∈ values
  between : ∀ v ∈ values, low ≤ v ∧ v ≤ high

/-- The normalised Hermite function of degree `n` in one standardised variable, with the square root of the weight as factor. -/
noncomputable def hermiteFunction (n : ℕ) (x : ℝ) : ℝ := herm n x * Real.exp (-x ^ 2 / 4)

/-- The two lines for degree `n` in the `i`-th direction: the mean plus and minus `√(4n + 2)` standard deviations. -/
noncomputable def turning (p : Position) (i n : ℕ) : List ℝ :=
  [p.mean.getD i 0 - √(4 * n + 2) * √(entryOf p.cov i i), p.mean.getD i 0 + √(4 * n + 2) * √(entryOf p.cov i i)]

/-- The argument `factor` of a plot can be used: it is absent, or an expression or a function of the directions. -/
def PlotFactorOk {F : Type} (dirs : List ℕ) : PlotFactor F → Prop
  | .none => True
  | .expr g => FactorOk dirs g
  | .array _ => False

/-- The value of the argument `factor` at a point; 1 if it is absent. -/
noncomputable def plotFactorValue {F : Type} [Interp F] (factor : PlotFactor F) (x : ℕ → ℝ) : ℝ :=
  match factor with
  | .expr g => ((factorTerms g).map fun p => productValue p x).sum
  | _ => 1

/-- A series which a quadrature can evaluate: diagonal covariance with positive variances, the directions and types of the quadrature, a
factor of these directions, and a degree that the transforms accept. -/
structure Evaluable {F : Type} (slack : ℕ) (q : HQuad F) (f : HSeries (SFn F)) : Prop where
  ok : SeriesOk f
  diag : Diagonal f.position
  dirs : f.position.dirs = q.position.dirs
  types : f.position.types = q.position.types
  variances : ∀ i < f.position.dim, 0 < entryOf f.position.cov i i
  factor : SFnOk f.factor
  factorDirs : f.factor.dirs = q.position.dirs
  degree : DegreeOk slack f.index_set f.degree q.do_fourier

end Hermipy.Spec
