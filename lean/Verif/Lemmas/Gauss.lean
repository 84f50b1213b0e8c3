import Verif.Lemmas.HermitePoly
import Verif.Spec.Gauss
import Mathlib.Analysis.SpecialFunctions.Gaussian.GaussianIntegral
import Mathlib.MeasureTheory.Integral.IntegralEqImproper
import Mathlib.Algebra.Polynomial.Derivative
import Mathlib.Analysis.Calculus.Deriv.Polynomial
import Mathlib.Tactic.FieldSimp
import Mathlib.Tactic.LinearCombination

/-! # Orthonormality of the Hermite polynomials -/

namespace Hermipy

open Spec Polynomial MeasureTheory

/-- The density. -/
noncomputable def gw (x : ℝ) : ℝ := Real.exp (-(x ^ 2) / 2) / √(2 * Real.pi)

theorem gw_integrable (q : ℝ[X]) : Integrable fun x => q.eval x * gw x := by
  induction q using Polynomial.induction_on' with
  | add p q hp hq =>
    simp only [eval_add, add_mul]
    exact hp.add hq
  | monomial n a =>
    have h := (integrable_rpow_mul_exp_neg_mul_sq (b := 1 / 2) (by norm_num) (s := n)
      (lt_of_lt_of_le (by norm_num) (Nat.cast_nonneg n))).const_mul (a / √(2 * Real.pi))
    refine h.congr (Filter.Eventually.of_forall fun x => ?_)
    simp only [eval_monomial, gw, Real.rpow_natCast]
    rw [show -(x ^ 2) / 2 = -(1 / 2) * x ^ 2 by ring]
    ring

/-- The mean of a polynomial. -/
noncomputable def gE (q : ℝ[X]) : ℝ := ∫ x, q.eval x * gw x

theorem gE_add (p q : ℝ[X]) : gE (p + q) = gE p + gE q := by
  simp only [gE, eval_add, add_mul]
  exact integral_add (gw_integrable p) (gw_integrable q)

theorem gE_C_mul (a : ℝ) (q : ℝ[X]) : gE (C a * q) = a * gE q := by
  simp only [gE, eval_mul, eval_C, mul_assoc]
  exact integral_const_mul a _

theorem gE_sub (p q : ℝ[X]) : gE (p - q) = gE p - gE q := by
  have := gE_add (p - q) q
  rw [sub_add_cancel] at this
  linarith

theorem gE_one : gE 1 = 1 := by
  have h := integral_gaussian (1 / 2)
  have e : ∀ x : ℝ, (1 : ℝ[X]).eval x * gw x = Real.exp (-(1 / 2) * x ^ 2) / √(2 * Real.pi) := by
    intro x
    rw [eval_one, one_mul, gw, show -(x ^ 2) / 2 = -(1 / 2) * x ^ 2 by ring]
  simp only [gE, e]
  rw [integral_div, h, show Real.pi / (1 / 2) = 2 * Real.pi by ring]
  exact div_self (Real.sqrt_pos.2 (by positivity)).ne'

theorem gw_deriv (x : ℝ) : HasDerivAt gw (-x * gw x) x := by
  have h1 : HasDerivAt (fun x : ℝ => -(x ^ 2) / 2) (-x) x := by
    have := ((hasDerivAt_pow 2 x).neg).div_const 2
    exact this.congr_deriv (by simp; ring)
  have := (h1.exp).div_const (√(2 * Real.pi))
  exact this.congr_deriv (by rw [gw]; ring)

/-- Integration by parts. -/
theorem gE_stein (q : ℝ[X]) : gE (X * q) = gE (derivative q) := by
  have hd : ∀ x, HasDerivAt (fun x => q.eval x * gw x) ((derivative q - X * q).eval x * gw x) x := by
    intro x
    have := (q.hasDerivAt x).mul (gw_deriv x)
    exact this.congr_deriv (by simp only [eval_sub, eval_mul, eval_X]; ring)
  have h := integral_eq_zero_of_hasDerivAt_of_integrable hd (gw_integrable _) (gw_integrable q)
  have h2 := gE_sub (derivative q) (X * q)
  rw [gE, h] at h2
  linarith

/-- Hermite polynomials with real coefficients. -/
noncomputable def He (n : ℕ) : ℝ[X] := (hermite n).map (Int.castRingHom ℝ)

theorem He_zero : He 0 = 1 := by simp [He]

theorem He_succ (n : ℕ) : He (n + 1) = X * He n - derivative (He n) := by
  simp [He, hermite_succ, derivative_map]

theorem derivative_He (n : ℕ) : derivative (He (n + 1)) = C ((n : ℝ) + 1) * He n := by
  rw [He, derivative_map, derivative_hermite]
  simp [He]

theorem herm_eq (n : ℕ) (x : ℝ) : herm n x = (He n).eval x / √(n.factorial : ℝ) := by
  rw [herm, He, eval_map, aeval_def]
  rfl

theorem gE_He_mul (n : ℕ) (q : ℝ[X]) : gE (He (n + 1) * q) = gE (He n * derivative q) := by
  have h := gE_stein (He n * q)
  rw [derivative_mul, gE_add] at h
  rw [He_succ, sub_mul, gE_sub, mul_assoc, h]
  ring

theorem gE_He_ne {i j : ℕ} (h : j < i) : gE (He i * He j) = 0 := by
  induction i generalizing j with
  | zero => omega
  | succ i ih =>
    rw [gE_He_mul]
    cases j with
    | zero => rw [He_zero]; simp [gE]
    | succ j =>
      rw [derivative_He, show He i * (C ((j : ℝ) + 1) * He j) = C ((j : ℝ) + 1) * (He i * He j) by ring, gE_C_mul,
        ih (by omega), mul_zero]

theorem gE_He_self (i : ℕ) : gE (He i * He i) = (i.factorial : ℝ) := by
  induction i with
  | zero => simp [He_zero, gE_one]
  | succ i ih =>
    rw [gE_He_mul, derivative_He, show He i * (C ((i : ℝ) + 1) * He i) = C ((i : ℝ) + 1) * (He i * He i) by ring, gE_C_mul, ih,
      Nat.factorial_succ]
    push_cast
    ring

theorem gaussMean_herm (i j : ℕ) : gaussMean (fun x => herm i x * herm j x) = if i = j then 1 else 0 := by
  have e : gaussMean (fun x => herm i x * herm j x) = gE (He i * He j) / (√(i.factorial : ℝ) * √(j.factorial : ℝ)) := by
    rw [gaussMean, gE, ← integral_div]
    congr 1
    funext x
    rw [herm_eq, herm_eq, eval_mul, gw]
    field_simp
  rw [e]
  rcases Nat.lt_trichotomy i j with h | rfl | h
  · rw [if_neg (by omega), mul_comm (He i), gE_He_ne h, zero_div]
  · rw [if_pos rfl, gE_He_self, Real.mul_self_sqrt (by positivity)]
    exact div_self (by positivity)
  · rw [if_neg (by omega), gE_He_ne h, zero_div]

theorem natDegree_He (n : ℕ) : (He n).natDegree = n := by
  rw [He, natDegree_map_eq_of_injective (RingHom.injective_int _), natDegree_hermite]

/-- A rule that integrates polynomials of degree up to `2 * degree` exactly is discretely orthonormal. -/
theorem exact_rule {degree : ℕ} {nodes weights : List ℝ} (h : ∀ q : ℝ[X], q.natDegree ≤ 2 * degree →
    ∑ t ∈ Finset.range nodes.length, weights.getD t 0 * q.eval (nodes.getD t 0) = gaussMean fun x => q.eval x) :
    Orthonormal degree 0 nodes weights := by
  intro i j hi hj
  rw [← gaussMean_herm]
  have hq := h (C (1 / (√(i.factorial : ℝ) * √(j.factorial : ℝ))) * (He i * He j)) (by
    refine (natDegree_C_mul_le _ _).trans (natDegree_mul_le.trans ?_)
    rw [natDegree_He, natDegree_He]
    omega)
  have e : ∀ x, (C (1 / (√(i.factorial : ℝ) * √(j.factorial : ℝ))) * (He i * He j)).eval x = herm i x * herm j x := by
    intro x
    rw [herm_eq, herm_eq, eval_mul, eval_C, eval_mul]
    field_simp
  simp only [e] at hq
  exact hq

end Hermipy
