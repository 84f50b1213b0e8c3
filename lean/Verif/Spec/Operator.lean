import Mathlib.Algebra.BigOperators.Group.List.Basic
import Mathlib.Algebra.Ring.Defs

/-! # Linear differential operators as lists of terms -/

namespace Hermipy.Spec

/-- A term: a coefficient and the orders of differentiation in the variables. -/
structure OpTerm (K : Type) where
  coeff : K
  index : List ℕ

variable {K : Type} [CommRing K]

/-- The coefficient of the derivative of orders `a`: the sum of the coefficients of the terms with these orders. -/
def coeffAt (L : List (OpTerm K)) (a : List ℕ) : K := ((L.filter fun t => t.index = a).map fun t => t.coeff).sum

/-- The operator applied to a function whose derivatives are given by `d`. -/
def apply (L : List (OpTerm K)) (d : List ℕ → K) : K := (L.map fun t => t.coeff * d t.index).sum

/-- The operator that a dictionary stands for, applied to a function whose derivatives are given by `d`. -/
def applyDict (D : List (List ℕ × K)) (d : List ℕ → K) : K := (D.map fun e => e.2 * d e.1).sum

end Hermipy.Spec
