import Verif.Spec.Operator
import Mathlib.Algebra.Ring.Defs
import Mathlib.Logic.Function.Iterate
import Mathlib.Data.Nat.Choose.Basic
import Mathlib.Data.Nat.Cast.Defs

/-! # What linear differential operators do -/

namespace Hermipy.Spec
variable {K : Type} [CommRing K]

/-- `D d` is the partial derivative with respect to the coordinate `d`: it is additive, obeys the product rule, and partial derivatives
commute. -/
structure Partials (D : ℕ → K → K) : Prop where
  add : ∀ d u v, D d (u + v) = D d u + D d v
  mul : ∀ d u v, D d (u * v) = D d u * v + u * D d v
  comm : ∀ d e u, D d (D e u) = D e (D d u)

/-- The derivative of `u` with the given orders in the given directions. -/
def partials (D : ℕ → K → K) : List ℕ → List ℕ → K → K
  | d :: dirs, a :: index, u => (D d)^[a] (partials D dirs index u)
  | _, _, u => u

/-- The operator with the given terms, applied to `u`. -/
def acts (D : ℕ → K → K) (dirs : List ℕ) (T : List (OpTerm K)) (u : K) : K := apply T fun a => partials D dirs a u

/-- `u` depends on the coordinates in `dirs` only. -/
def DependsOn (D : ℕ → K → K) (dirs : List ℕ) (u : K) : Prop := ∀ d, d ∉ dirs → D d u = 0

/-- The coefficient of the derivative of orders `m` of `u` in the derivative of orders `a` of `g u` (the rule of Leibniz). -/
def leibniz (D : ℕ → K → K) (g : K) : List ℕ → List ℕ → List ℕ → K
  | d :: dirs, a :: as, m :: ms => (a.choose m : K) * (D d)^[a - m] (leibniz D g dirs as ms)
  | _, _, _ => g

/-- The coefficient of the derivative of orders `m` of `u` in `L (g u)`, where `L` is the operator with the given terms. -/
def productCoeff (D : ℕ → K → K) (dirs : List ℕ) (T : List (OpTerm K)) (g : K) (m : List ℕ) : K :=
  (T.map fun t => t.coeff * leibniz D g dirs t.index m).sum

/-- An operator in normal form: the terms have an order for each direction, distinct orders, and no coefficient is zero. -/
structure Normal (dirs : List ℕ) (T : List (OpTerm K)) : Prop where
  wide : ∀ t ∈ T, t.index.length = dirs.length
  nonzero : ∀ t ∈ T, t.coeff ≠ 0
  distinct : (T.map OpTerm.index).Nodup

end Hermipy.Spec
