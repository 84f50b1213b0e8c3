import Verif.Lemmas.Rounding
import Verif.Lemmas.HermitePoly

/-! # The sum of the absolute values of the terms of a Hermite polynomial -/

namespace Hermipy

open Polynomial Spec

/-- Coefficients next to each other in the table have opposite signs. -/
theorem hermite_signs (n j : ℕ) : (hermite (n + 1)).coeff j * (hermite n).coeff (j + 1) ≤ 0 := by
  by_cases ho : Odd (n + 1 + j)
  · rw [coeff_hermite_of_odd_add ho, zero_mul]
  · have he : Even (n + 1 + j) := Nat.not_odd_iff_even.1 ho
    by_cases hj : n < j + 1
    · rw [coeff_hermite_of_lt hj, mul_zero]
    · obtain ⟨a, ha⟩ : ∃ a, n + 1 = 2 * (a + 1) + j := by
        obtain ⟨b, hb⟩ := he
        exact ⟨b - j - 1, by omega⟩
      have h1 := coeff_hermite_explicit (a + 1) j
      have h2 := coeff_hermite_explicit a (j + 1)
      rw [← ha] at h1
      rw [show 2 * a + (j + 1) = n by omega] at h2
      rw [h1, h2, pow_succ]
      have : 0 ≤ ((-1 : ℤ) ^ a * (-1) ^ a) := by rw [← mul_pow]; simp
      have h3 : (0 : ℤ) ≤ ((2 * (a + 1) - 1).doubleFactorial * (n + 1).choose j : ℕ) := by positivity
      have h4 : (0 : ℤ) ≤ ((2 * a - 1).doubleFactorial * n.choose (j + 1) : ℕ) := by positivity
      push_cast at h3 h4 ⊢
      nlinarith [mul_nonneg this (mul_nonneg h3 h4)]

theorem abs_sub_of_mul_nonpos {a b : ℝ} (h : a * b ≤ 0) : |a - b| = |a| + |b| := by
  rcases mul_nonpos_iff.1 h with ⟨ha, hb⟩ | ⟨ha, hb⟩
  · rw [abs_of_nonneg ha, abs_of_nonpos hb, abs_of_nonneg (by linarith)]; ring
  · rw [abs_of_nonpos ha, abs_of_nonneg hb, abs_of_nonpos (by linarith)]; ring

theorem hermite_coeff_zero (n : ℕ) :
    |((hermite (n + 2)).coeff 0 : ℝ)| = (n + 1) * |((hermite n).coeff 0 : ℝ)| := by
  rw [hermite_rec]
  have : (((n : ℤ[X]) + 1) * hermite n).coeff 0 = (n + 1) * (hermite n).coeff 0 := by
    rw [show ((n : ℤ[X]) + 1) = C ((n : ℤ) + 1) by simp, coeff_C_mul]
  rw [coeff_sub, this, mul_coeff_zero, coeff_X_zero, zero_mul, zero_sub]
  push_cast
  rw [abs_neg, abs_mul, abs_of_nonneg (by positivity : (0 : ℝ) ≤ n + 1)]

theorem hermite_coeff_succ (n j : ℕ) :
    |((hermite (n + 2)).coeff (j + 1) : ℝ)| =
      |((hermite (n + 1)).coeff j : ℝ)| + (n + 1) * |((hermite n).coeff (j + 1) : ℝ)| := by
  rw [hermite_rec]
  have : (((n : ℤ[X]) + 1) * hermite n).coeff (j + 1) = (n + 1) * (hermite n).coeff (j + 1) := by
    rw [show ((n : ℤ[X]) + 1) = C ((n : ℤ) + 1) by simp, coeff_C_mul]
  rw [coeff_sub, this, coeff_X_mul]
  push_cast
  have hs : (((hermite (n + 1)).coeff j : ℤ) : ℝ) * ((hermite n).coeff (j + 1) : ℤ) ≤ 0 := by
    exact_mod_cast hermite_signs n j
  rw [abs_sub_of_mul_nonpos (by nlinarith [show (0 : ℝ) ≤ n + 1 by positivity]), abs_mul,
    abs_of_nonneg (by positivity : (0 : ℝ) ≤ n + 1)]

theorem hermAbs_zero (x : ℝ) : hermAbs 0 x = 1 := by simp [hermAbs]

theorem hermAbs_one (x : ℝ) : hermAbs 1 x = |x| := by
  simp [hermAbs, Finset.sum_range_succ]

theorem hermAbs_rec (n : ℕ) (x : ℝ) :
    hermAbs (n + 2) x = 1 / √((n : ℝ) + 2) * |x| * hermAbs (n + 1) x + √((n : ℝ) + 1) / √((n : ℝ) + 2) * hermAbs n x := by
  have h : ∑ j ∈ Finset.range (n + 2 + 1), |((hermite (n + 2)).coeff j : ℝ)| * |x| ^ j =
      |x| * ∑ j ∈ Finset.range (n + 1 + 1), |((hermite (n + 1)).coeff j : ℝ)| * |x| ^ j +
        (n + 1) * ∑ j ∈ Finset.range (n + 1), |((hermite n).coeff j : ℝ)| * |x| ^ j := by
    rw [Finset.sum_range_succ', hermite_coeff_zero]
    have h1 : ∀ j ∈ Finset.range (n + 2), |((hermite (n + 2)).coeff (j + 1) : ℝ)| * |x| ^ (j + 1) =
        |x| * (|((hermite (n + 1)).coeff j : ℝ)| * |x| ^ j) +
          (n + 1) * (|((hermite n).coeff (j + 1) : ℝ)| * |x| ^ (j + 1)) := by
      intro j _
      rw [hermite_coeff_succ]; ring
    have h2 : ∑ j ∈ Finset.range (n + 1), |((hermite n).coeff j : ℝ)| * |x| ^ j =
        ∑ j ∈ Finset.range (n + 2), |((hermite n).coeff (j + 1) : ℝ)| * |x| ^ (j + 1) + |((hermite n).coeff 0 : ℝ)| * |x| ^ 0 := by
      rw [← Finset.sum_range_succ' (fun j => |((hermite n).coeff j : ℝ)| * |x| ^ j), Finset.sum_range_succ _ (n + 2),
        Finset.sum_range_succ _ (n + 1), coeff_hermite_of_lt (by omega), coeff_hermite_of_lt (by omega)]
      simp
    rw [Finset.sum_congr rfl h1, Finset.sum_add_distrib, ← Finset.mul_sum, ← Finset.mul_sum, h2]
    ring
  have hs : √(((n + 2).factorial : ℕ) : ℝ) = √((n : ℝ) + 2) * (√((n : ℝ) + 1) * √((n.factorial : ℕ) : ℝ)) := by
    rw [← Real.sqrt_mul (by positivity), ← Real.sqrt_mul (by positivity)]
    congr 1
    rw [Nat.factorial_succ, Nat.factorial_succ]
    push_cast
    ring
  have hs1 : √(((n + 1).factorial : ℕ) : ℝ) = √((n : ℝ) + 1) * √((n.factorial : ℕ) : ℝ) := by
    rw [← Real.sqrt_mul (by positivity)]
    congr 1
    rw [Nat.factorial_succ]
    push_cast
    ring
  have p0 : √((n.factorial : ℕ) : ℝ) ≠ 0 := by positivity
  have p1 : √((n : ℝ) + 1) ≠ 0 := by positivity
  have p2 : √((n : ℝ) + 2) ≠ 0 := by positivity
  have hq : (n : ℝ) + 1 = √((n : ℝ) + 1) * √((n : ℝ) + 1) := (Real.mul_self_sqrt (by positivity)).symm
  simp only [hermAbs]
  rw [hs, hs1, h]
  set P := ∑ j ∈ Finset.range (n + 1), |((hermite n).coeff j : ℝ)| * |x| ^ j
  field_simp
  linear_combination P * hq

theorem hermAbs_nonneg (n : ℕ) (x : ℝ) : 0 ≤ hermAbs n x := by
  rw [hermAbs]
  exact div_nonneg (Finset.sum_nonneg fun j _ => by positivity) (by positivity)

theorem herm_le_hermAbs (n : ℕ) (x : ℝ) : |herm n x| ≤ hermAbs n x := by
  rw [herm, hermAbs, abs_div, abs_of_nonneg (Real.sqrt_nonneg _)]
  gcongr
  rw [aeval_eq_sum_range, natDegree_hermite]
  refine (Finset.abs_sum_le_sum_abs _ _).trans (Finset.sum_le_sum fun j _ => ?_)
  rw [zsmul_eq_mul, abs_mul, abs_pow]

end Hermipy
