import Verif.Model.RoundedVarf
import Verif.Spec.Rounding
import Verif.Spec.Triple

/-! # Floating-point arithmetic of variational forms -/

namespace Hermipy.Spec

open Polynomial

/-- The standard model of `Accurate`, and: signs and comparisons are exact, the threshold is `10⁻¹²` up to rounding. -/
structure AccurateD (α : Type) [Doubles α] (val : α → ℝ) (u : ℝ) : Prop extends Accurate α val u where
  neg : ∀ x, val (-x) = -val x
  abs : ∀ x, val (Doubles.abs x) = |val x|
  lt : ∀ x y, Doubles.lt x y = true ↔ val x < val y
  threshold : |val (Doubles.threshold : α) - 1 / 10 ^ 12| ≤ u * (1 / 10 ^ 12)

/-- The normalised Hermite polynomial of degree `n` with the absolute values of its coefficients. -/
noncomputable def hermPlus (n : ℕ) (x : ℝ) : ℝ :=
  (∑ j ∈ Finset.range (n + 1), |((hermite n).coeff j : ℝ)| * x ^ j) / √(n.factorial : ℝ)

/-- The triple product of three basis functions, where for Hermite polynomials the coefficients of the second one of lower degree are replaced by
their absolute values: the size of the terms of which the triple product is the sum. -/
noncomputable def tripleAbs (fourier k i j : ℕ) : ℝ :=
  if fourier = 1 then |triple 1 k i j|
  else gaussMean fun x => herm k x * (hermPlus (min i j) x * herm (max i j) x)

/-- The operations which an entry of the tables takes. -/
def tableOps (fourier i j : ℕ) : ℕ := if fourier = 1 then 16 else 19 * min i j

/-- The product over the directions. -/
noncomputable def tripleProdAbs (dim : ℕ) (fourier m I J : List ℕ) : ℝ :=
  ∏ d ∈ Finset.range dim, tripleAbs (fourier.getD d 0) (m.getD d 0) (I.getD d 0) (J.getD d 0)

/-- The sum of the absolute values of the terms of a coefficient. -/
noncomputable def fcoefAbs (nodes weights : List (List ℝ)) (fourier : List ℕ) (f : List ℝ) (m : List ℕ) : ℝ :=
  ∑ i ∈ Finset.range f.length, |(gridWeights weights).getD i 0| * (|f.getD i 0| * basisAbs nodes.length fourier m ((gridPoints nodes).getD i []))

/-- The operations which a coefficient of a function with `n` values takes. -/
def coefOps (dim degree n : ℕ) : ℕ := dim + 2 + dim * (16 * degree + 6) + n

/-- The tolerance below which coefficients are dropped, in the presence of rounding: `K` operations for the coefficients, and a few for the
norm. -/
noncomputable def dropTolAbs (u : ℝ) (K : ℕ) (L : List (List ℕ)) (c S : List ℕ → ℝ) : ℝ :=
  (1 + u) ^ (L.length + 4) * (1 / 10 ^ 12 *
    max 1 (√(∑ t ∈ Finset.range L.length, c (L.getD t []) ^ 2) + err u K * √(∑ t ∈ Finset.range L.length, S (L.getD t []) ^ 2)))

end Hermipy.Spec
