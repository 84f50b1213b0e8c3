import Verif.Model.Rounded
import Verif.Spec.Basis
import Verif.Spec.Coef

/-! # Floating-point arithmetic -/

namespace Hermipy.Spec

open Polynomial

/-- The standard model of floating-point arithmetic with unit roundoff `u`: `val` is the number that a float stands for, and each operation is
correct up to the relative error `u`, as it is without overflow and underflow. Small integers are exact, and the library functions sine and
cosine are correct up to the absolute error `u`. -/
structure Accurate (α : Type) [Floats α] (val : α → ℝ) (u : ℝ) : Prop where
  nonneg : 0 ≤ u
  small : u ≤ 1 / 2
  zero : val 0 = 0
  one : val 1 = 1
  ofNat : ∀ n < 2 ^ 32, val (Floats.ofNat n) = n
  add : ∀ x y, |val (x + y) - (val x + val y)| ≤ u * |val x + val y|
  sub : ∀ x y, |val (x - y) - (val x - val y)| ≤ u * |val x - val y|
  mul : ∀ x y, |val (x * y) - val x * val y| ≤ u * |val x * val y|
  div : ∀ x y, val y ≠ 0 → |val (x / y) - val x / val y| ≤ u * |val x / val y|
  sqrt : ∀ x, 0 ≤ val x → |val (Floats.sqrt x) - √(val x)| ≤ u * √(val x)
  sin : ∀ x, |val (Floats.sin x) - Real.sin (val x)| ≤ u
  cos : ∀ x, |val (Floats.cos x) - Real.cos (val x)| ≤ u
  pi : |val (Floats.pi : α) - Real.pi| ≤ u * Real.pi

/-- The error after `n` operations, `(1 + u)^n - 1`, which is about `n * u`. -/
noncomputable def err (u : ℝ) (n : ℕ) : ℝ := (1 + u) ^ n - 1

/-- The sum of the absolute values of the terms of the normalised Hermite polynomial of degree `n` at `x`. -/
noncomputable def hermAbs (n : ℕ) (x : ℝ) : ℝ :=
  (∑ j ∈ Finset.range (n + 1), |((hermite n).coeff j : ℝ)| * |x| ^ j) / √(n.factorial : ℝ)

/-- For the trigonometric functions: a bound of the function, and of its change when the argument changes by a relative amount. -/
noncomputable def trigAbs (n : ℕ) (x : ℝ) : ℝ :=
  if n = 0 then 1 / √(2 * Real.pi) else (1 + ((n + 1) / 2 : ℕ) * |x|) / √Real.pi

/-- One of the two. -/
noncomputable def phiAbs (fourier n : ℕ) (x : ℝ) : ℝ := if fourier = 1 then trigAbs n x else hermAbs n x

/-- The product over the directions. -/
noncomputable def basisAbs (dim : ℕ) (fourier m : List ℕ) (p : List ℝ) : ℝ :=
  ∏ k ∈ Finset.range dim, phiAbs (fourier.getD k 0) (m.getD k 0) (p.getD k 0)

/-- The operations which the value of a basis function of one direction takes. -/
def ops (fourier n : ℕ) : ℕ := if fourier = 1 then 5 else 8 * n

/-- Those for a product. -/
def basisOps (dim : ℕ) (fourier m : List ℕ) : ℕ := ∑ k ∈ Finset.range dim, (ops (fourier.getD k 0) (m.getD k 0) + 1)

/-- The real numbers which the entries of a table stand for. -/
def reals {α : Type} (val : α → ℝ) (ls : List (List α)) : List (List ℝ) := ls.map (List.map val)

/-- A block of real numbers. -/
def Block.real {α : Type} (val : α → ℝ) (b : Block α) : Block ℝ := ⟨b.dirs, b.list, b.vec.map val⟩

end Hermipy.Spec
