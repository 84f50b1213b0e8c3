import Verif.Spec.Quad
import Verif.Model.QuadNorm

/-! # Integrals without weight -/

namespace Hermipy.Spec
open Hermipy
variable {F : Type}

/-- The weight of a position: the product of the normal densities of the Hermite directions. -/
noncomputable def density (p : Position) (x : ℕ → ℝ) : ℝ := ∏ i ∈ Finset.range p.dim, weight1D p x i

/-- The factor by which flat integrals are too large if Hermite and other directions are mixed. -/
noncomputable def surplus (p : Position) : ℝ := if hermiteDirs p = 0 then 1 else √((2 * Real.pi) ^ otherDirs p)

/-- An integrand that is an expression in the directions of the quadrature, and the function it stands for. -/
def StandsFor [Interp F] (dirs : List ℕ) : Integrand F → ((ℕ → ℝ) → ℝ) → Prop
  | .fn f, g => SFnOk f ∧ f.dirs = dirs ∧ ∀ x, f.value x = g x
  | .expr terms, g => (∀ p ∈ terms, ∀ a ∈ p, ∀ d ∈ a.1, d ∈ dirs) ∧ ∀ x, (terms.map fun p => productValue p x).sum = g x
  | .text terms, g => (∀ p ∈ terms, ∀ a ∈ p, ∀ d ∈ a.1, d ∈ dirs) ∧ ∀ x, (terms.map fun p => productValue p x).sum = g x
  | _, _ => False

/-- The direction is a Hermite direction. -/
def IsHermite (p : Position) (d : ℕ) : Prop := p.types.getD (p.dirs.idxOf d) "" = "hermite"

instance (p : Position) (d : ℕ) : Decidable (IsHermite p d) := by unfold IsHermite; infer_instance

/-- No factor of the product depends on both Hermite and other directions. -/
def Unmixed (p : Position) (t : Product F) : Prop := ∀ a ∈ t, ∀ d ∈ a.1, ∀ d' ∈ a.1, IsHermite p d → IsHermite p d'

/-- sympy's absolute value: it has the same variables. -/
structure AbsOk [Interp F] (absE : Multiset (Product F) → Multiset (Product F)) : Prop where
  vars : ∀ terms, ∀ p ∈ absE terms, ∀ a ∈ p, ∀ d ∈ a.1, ∃ p' ∈ terms, ∃ a' ∈ p', d ∈ a'.1
  value : ∀ terms x, ((absE terms).map fun p => productValue p x).sum = |(terms.map fun p => productValue p x).sum|

/-- The weights are not negative. -/
def WeightsNonneg (q : HQuad F) : Prop := ∀ r ∈ q.weights, ∀ w ∈ r, 0 ≤ w

/-- What is integrated: the values, divided by the weight if `flat`. -/
noncomputable def integralOf (q : HQuad F) (flat : Bool) (v : ℕ → List ℝ → ℝ) : ℝ :=
  if flat then surplus q.position * quadrature q.nodes q.weights fun i p => v i p / density q.position (gridPoint q.position p)
  else quadrature q.nodes q.weights v

end Hermipy.Spec
