import Verif.Spec.Quad
import Verif.Model.QuadConstructors
import Mathlib.Probability.Distributions.Gaussian.Real
import Mathlib.MeasureTheory.Constructions.Pi
import Mathlib.MeasureTheory.Integral.IntervalIntegral.TrapezoidalRule
import Mathlib.Algebra.MvPolynomial.Degrees

/-! # What the rules integrate -/

namespace Hermipy.Spec
open Hermipy MeasureTheory

/-- The point with the coordinates `x` in the directions `dirs`. -/
def place (dirs : List ℕ) (x : Fin dirs.length → ℝ) (d : ℕ) : ℝ := if h : dirs.idxOf d < dirs.length then x ⟨dirs.idxOf d, h⟩ else 0

/-- The Gauss rule with `n` nodes for the weight `e^(-x²/2)`: exact for polynomials of degree less than `2n`. -/
structure GaussRule (n : ℕ) (rule : List ℝ × List ℝ) : Prop where
  nodes : rule.1.length = n
  weights : rule.2.length = n
  exact : ∀ P : Polynomial ℝ, P.natDegree < 2 * n →
    ∑ t ∈ Finset.range n, rule.2.getD t 0 * P.eval (rule.1.getD t 0) = ∫ x : ℝ, P.eval x * Real.exp (-(x ^ 2) / 2)

/-- The normal distribution with independent coordinates whose means and variances are those of the position. -/
noncomputable def normal (p : Position) : Measure (Fin p.dirs.length → ℝ) :=
  Measure.pi fun i => ProbabilityTheory.gaussianReal (p.mean.getD i 0) (Real.toNNReal (entryOf p.cov i i))

/-- The function is a polynomial of degree less than `n` in each of the directions. -/
def PolyBelow (n : ℕ) (dirs : List ℕ) (g : (ℕ → ℝ) → ℝ) : Prop :=
  ∃ P : MvPolynomial (Fin dirs.length) ℝ, (∀ i, P.degreeOf i < n) ∧ ∀ x, g x = MvPolynomial.eval (fun i => x (dirs.get i)) P

/-- The function is a sum of products of waves, each with less than `n` full periods between the bounds of its direction. -/
def TrigBelow (n : ℕ) (dirs : List ℕ) (bounds : List (ℝ × ℝ)) (g : (ℕ → ℝ) → ℝ) : Prop :=
  ∃ (m : ℕ) (a : ℕ → ℝ) (k : ℕ → ℕ → ℕ) (θ : ℕ → ℕ → ℝ), (∀ t i, k t i < n) ∧ ∀ x, g x = ∑ t ∈ Finset.range m, a t *
    ∏ i : Fin dirs.length, Real.cos (k t i * (2 * Real.pi / ((bounds.getD i 0).2 - (bounds.getD i 0).1)) * x (dirs.get i) + θ t i)

/-- The uniform measure on the box with the given bounds. -/
noncomputable def box (d : ℕ) (bounds : List (ℝ × ℝ)) : Measure (Fin d → ℝ) :=
  Measure.pi fun i => volume.restrict (Set.Icc (bounds.getD i 0).1 (bounds.getD i 0).2)

/-- The function is a sum of products of functions of one direction. -/
def Separated (m : ℕ) (dirs : List ℕ) (a : ℕ → ℝ) (u : ℕ → ℕ → ℝ → ℝ) (g : (ℕ → ℝ) → ℝ) : Prop :=
  ∀ x, g x = ∑ t ∈ Finset.range m, a t * ∏ i : Fin dirs.length, u t i (x (dirs.get i))

/-- The factor can be used with the directions: an expression in their variables, or a function of them. -/
def FactorOk {F : Type} (dirs : List ℕ) : FactorArg F → Prop
  | .expr terms => ∀ p ∈ terms, ∀ a ∈ p, ∀ d ∈ a.1, d ∈ dirs
  | .fn f => SFnOk f ∧ f.dirs = dirs

/-- The terms of the factor. -/
def factorTerms {F : Type} : FactorArg F → Multiset (Product F)
  | .expr terms => terms
  | .fn f => f.terms

/-- Increasing directions among the five that have symbols. -/
structure DirsOk (dirs : List ℕ) : Prop where
  sorted : dirs.Pairwise (· < ·)
  symbols : ∀ d ∈ dirs, d < 5
  ne : dirs ≠ []

end Hermipy.Spec
