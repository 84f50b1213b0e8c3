import Verif.Spec.Basis
import Verif.Spec.Gauss
import Verif.Spec.Coef
import Mathlib.MeasureTheory.Integral.IntervalIntegral.Basic

/-! # Triple products of basis functions -/

namespace Hermipy.Spec

/-- The mean of the product of three basis functions of one direction: with respect to the standard Gaussian for Hermite, over an
interval of length `2π` for Fourier. -/
noncomputable def triple (fourier k i j : Nat) : ℝ :=
  if fourier = 1 then ∫ x in (-Real.pi)..Real.pi, trig k x * (trig i x * trig j x)
  else gaussMean fun x => herm k x * (herm i x * herm j x)

/-- The mean of the product of three product basis functions. -/
noncomputable def tripleProd (dim : Nat) (fourier m I J : List Nat) : ℝ :=
  ∏ d ∈ Finset.range dim, triple (fourier.getD d 0) (m.getD d 0) (I.getD d 0) (J.getD d 0)

/-- The quadrature of the function with values `f` against the basis function of `m`. -/
noncomputable def fcoef (nodes weights : List (List ℝ)) (fourier : List Nat) (f : List ℝ) (m : List Nat) : ℝ :=
  quadrature nodes weights fun i p => f.getD i 0 * basis nodes.length fourier m p

/-- Coefficients smaller than this are dropped: `10⁻¹²` times the Euclidean norm of the coefficients, or `10⁻¹²` if the norm is
smaller than 1. -/
noncomputable def dropTol (L : List (List Nat)) (c : List Nat → ℝ) : ℝ :=
  1 / 10 ^ 12 * max 1 (√(∑ i ∈ Finset.range L.length, c (L.getD i []) ^ 2))

/-- The coefficient that is used in place of `x`. -/
noncomputable def kept (tol x : ℝ) : ℝ := if |x| < tol then 0 else x

/-- No coefficient other than zero is dropped. -/
def NoDrop (L : List (List Nat)) (c : List Nat → ℝ) : Prop := ∀ m ∈ L, c m = 0 ∨ dropTol L c ≤ |c m|

/-- The basis functions that occur in products of two basis functions of the set for `degree` are in the set for
`2 * degree`. -/
def Closed (s : IndexSet) (dim degree : Nat) (fourier : List Nat) : Prop :=
  ∀ I J m, InSet s dim degree I → InSet s dim degree J → m.length = dim → tripleProd dim fourier m I J ≠ 0 →
    InSet s dim (2 * degree) m

/-- What is asked of the arguments of a variational form: the sets for `degree` and `2 * degree` and the sets in smaller dimensions
are of manageable size, and grid, weights and degree are as for the transforms. -/
structure FormOk (slack : Nat) (s : IndexSet) (degree : Nat) (nodes weights : List (List ℝ)) (fourier : List Nat) : Prop where
  sized : Sized s nodes.length degree
  sized2 : Sized s nodes.length (2 * degree)
  usable : ∀ k, 1 ≤ k → k < nodes.length → Usable s k degree
  grid : Grid nodes fourier
  degree : DegreeOk slack s degree fourier
  weights : weights.map List.length = nodes.map List.length

end Hermipy.Spec
