import Verif.Spec.Basis
import Mathlib.Algebra.Polynomial.Derivative
import Mathlib.Tactic.FieldSimp
import Mathlib.Tactic.Ring
import Mathlib.Tactic.LinearCombination
import Mathlib.Tactic.Positivity

/-! # Hermite polynomials: derivative and three-term recurrence -/

namespace Hermipy

open Polynomial Spec

theorem derivative_hermite : ∀ n : ℕ, derivative (hermite (n + 1)) = (n + 1 : ℤ[X]) * hermite n
  | 0 => by simp
  | n + 1 => by
    have ih := derivative_hermite n
    have e : derivative (hermite (n + 2)) = hermite (n + 1) + X * derivative (hermite (n + 1)) -
        derivative (derivative (hermite (n + 1))) := by
      rw [hermite_succ (n + 1)]
      simp
    rw [e, ih]
    have d : derivative ((n + 1 : ℤ[X]) * hermite n) = (n + 1 : ℤ[X]) * derivative (hermite n) := by
      simp
    rw [d]
    have h := hermite_succ n
    have : derivative (hermite n) = X * hermite n - hermite (n + 1) := by rw [h]; ring
    rw [this]
    push_cast
    ring

theorem hermite_rec (n : ℕ) : hermite (n + 2) = X * hermite (n + 1) - (n + 1 : ℤ[X]) * hermite n := by
  rw [hermite_succ (n + 1), derivative_hermite]

theorem herm_zero (x : ℝ) : herm 0 x = 1 := by simp [herm]

theorem herm_one (x : ℝ) : herm 1 x = x := by simp [herm]

theorem herm_rec (n : ℕ) (x : ℝ) :
    herm (n + 2) x = 1 / √((n : ℝ) + 2) * x * herm (n + 1) x - √((n : ℝ) + 1) / √((n : ℝ) + 2) * herm n x := by
  have h := congrArg (fun p => aeval x p) (hermite_rec n)
  simp only [map_sub, map_mul, aeval_X, map_add, map_natCast, map_one] at h
  have hs : √(((n + 2).factorial : ℕ) : ℝ) = √((n : ℝ) + 2) * (√((n : ℝ) + 1) * √((n.factorial : ℕ) : ℝ)) := by
    rw [← Real.sqrt_mul (by positivity), ← Real.sqrt_mul (by positivity)]
    congr 1
    rw [Nat.factorial_succ, Nat.factorial_succ]
    push_cast
    ring
  have hs1 : √(((n + 1).factorial : ℕ) : ℝ) = √((n : ℝ) + 1) * √((n.factorial : ℕ) : ℝ) := by
    rw [← Real.sqrt_mul (by positivity)]
    congr 1
    rw [Nat.factorial_succ]
    push_cast
    ring
  have p0 : √((n.factorial : ℕ) : ℝ) ≠ 0 := by positivity
  have p1 : √((n : ℝ) + 1) ≠ 0 := by positivity
  have p2 : √((n : ℝ) + 2) ≠ 0 := by positivity
  have hq : (n : ℝ) + 1 = √((n : ℝ) + 1) * √((n : ℝ) + 1) := (Real.mul_self_sqrt (by positivity)).symm
  simp only [herm]
  rw [hs, hs1, h]
  field_simp
  linear_combination (-(aeval x (hermite n))) * hq

end Hermipy
