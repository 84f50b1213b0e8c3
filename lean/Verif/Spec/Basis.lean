import Mathlib.RingTheory.Polynomial.Hermite.Basic
import Mathlib.Algebra.Polynomial.AlgebraMap
import Mathlib.Analysis.Real.Sqrt
import Mathlib.Analysis.SpecialFunctions.Trigonometric.Basic
import Mathlib.Algebra.BigOperators.Group.Finset.Basic
import Verif.Model.Iterators

/-!
# Basis functions and tensor grids

The functions a series is expanded in, and the points and weights of a tensor-product quadrature, in closed form.
-/

namespace Hermipy.Spec

open Polynomial

/-- Hermite polynomial (probabilists') of degree `n`, normalised for the standard Gaussian. -/
noncomputable def herm (n : Nat) (x : ℝ) : ℝ := aeval x (hermite n) / √(n.factorial : ℝ)

/-- Trigonometric functions in the order `1, sin x, cos x, sin 2x, cos 2x, ...`, normalised on an interval of length `2π`. -/
noncomputable def trig (n : Nat) (x : ℝ) : ℝ :=
  if n = 0 then 1 / √(2 * Real.pi)
  else if n % 2 = 0 then Real.cos ((n / 2 : Nat) * x) / √Real.pi
  else Real.sin (((n + 1) / 2 : Nat) * x) / √Real.pi

/-- Basis function of one direction: trigonometric if the flag is 1, Hermite otherwise. -/
noncomputable def phi (fourier n : Nat) (x : ℝ) : ℝ := if fourier = 1 then trig n x else herm n x

/-- Product basis function of the multi-index `m` at the point `p`. -/
noncomputable def basis (dim : Nat) (fourier m : List Nat) (p : List ℝ) : ℝ :=
  ∏ k ∈ Finset.range dim, phi (fourier.getD k 0) (m.getD k 0) (p.getD k 0)

/-- Cartesian product of lists, last factor running fastest. -/
def cartesian {β : Type} : List (List β) → List (List β)
  | [] => [[]]
  | l :: ls => l.flatMap fun x => (cartesian ls).map fun p => x :: p

/-- Points of the tensor grid, in the order of the vectors of function values. -/
def gridPoints (nodes : List (List ℝ)) : List (List ℝ) := cartesian nodes

/-- Weights of the tensor grid. -/
def gridWeights (weights : List (List ℝ)) : List ℝ := (cartesian weights).map List.prod

/-- Quadrature: the sum over the grid of weight times the value of `g` at index and point. -/
noncomputable def quadrature (nodes weights : List (List ℝ)) (g : Nat → List ℝ → ℝ) : ℝ :=
  ∑ i ∈ Finset.range (gridPoints nodes).length, (gridWeights weights).getD i 0 * g i ((gridPoints nodes).getD i [])

/-- The series with coefficients `c` for the listing `L`, evaluated at the point `p`. -/
noncomputable def series (dim : Nat) (fourier : List Nat) (L : List (List Nat)) (c : List ℝ) (p : List ℝ) : ℝ :=
  ∑ j ∈ Finset.range L.length, c.getD j 0 * basis dim fourier (L.getD j []) p

/-- The entries of `l` at the positions `dirs`. -/
def sub {β : Type} (d : β) (dirs : List Nat) (l : List β) : List β := dirs.map fun k => l.getD k d

/-- The rule with the given nodes and weights integrates products of basis functions of degree up to `degree` exactly. -/
def Orthonormal (degree fourier : Nat) (nodes weights : List ℝ) : Prop :=
  ∀ i j, i ≤ degree → j ≤ degree →
    ∑ t ∈ Finset.range nodes.length, weights.getD t 0 * (phi fourier i (nodes.getD t 0) * phi fourier j (nodes.getD t 0)) =
      if i = j then 1 else 0

/-- A tensor grid: at least one direction, at least one node per direction, one flag per direction, and a number of points
below 2^32. -/
structure Grid (nodes : List (List ℝ)) (fourier : List Nat) : Prop where
  dim_pos : nodes ≠ []
  nodes_pos : ∀ n ∈ nodes, n ≠ []
  flags : fourier.length = nodes.length ∧ ∀ f ∈ fourier, f = 0 ∨ f = 1
  small : (gridPoints nodes).length < 2 ^ 32

/-- Conditions on the degree: even when there is a Fourier direction; at least 1 when there is a Hermite direction (unless there
is unused memory behind the buffers, see `wrPad`) and for the crosses. -/
structure DegreeOk (slack : Nat) (s : IndexSet) (degree : Nat) (fourier : List Nat) : Prop where
  even : 1 ∈ fourier → degree % 2 = 0
  hermite : 0 ∈ fourier → 1 ≤ degree ∨ 1 ≤ slack
  cross : s = .cross ∨ s = .cross_nc → 1 ≤ degree

end Hermipy.Spec
