import Verif.Spec.Binary
import Verif.Spec.Rounding
import Mathlib.Tactic.Linarith

/-! # The errors of rounding to 53 binary digits -/

namespace Hermipy

open Spec

theorem rnd_err (x : ℝ) : |(rnd x).val - x| ≤ 2 ^ (-53 : ℤ) * |x| := by
  rw [rnd]
  split
  · rw [sub_self, abs_zero]
    positivity
  · rename_i h
    have hx : x ≠ 0 := by
      rintro rfl
      exact h ⟨0, 0, by norm_num, by simp⟩
    have h2 : (0 : ℝ) < 2 ^ lastDigit x := by positivity
    have h3 := abs_sub_round (x / (2 : ℝ) ^ lastDigit x)
    have e : mantissa x * (2 : ℝ) ^ lastDigit x - x = -(x / (2 : ℝ) ^ lastDigit x - round (x / (2 : ℝ) ^ lastDigit x)) * 2 ^ lastDigit x := by
      rw [mantissa]
      field_simp
      ring
    change |mantissa x * (2 : ℝ) ^ lastDigit x - x| ≤ _
    rw [e, abs_mul, abs_neg, abs_of_pos h2]
    have h4 := Int.zpow_log_le_self (b := 2) (by norm_num) (abs_pos.2 hx)
    calc _ ≤ 1 / 2 * (2 : ℝ) ^ lastDigit x := mul_le_mul_of_nonneg_right h3 h2.le
      _ = 2 ^ (-53 : ℤ) * 2 ^ Int.log 2 |x| := by
        rw [lastDigit, ← zpow_add₀ (by norm_num), show (1 / 2 : ℝ) = 2 ^ (-1 : ℤ) by norm_num, ← zpow_add₀ (by norm_num)]
        congr 1
        ring
      _ ≤ _ := by
        refine mul_le_mul_of_nonneg_left ?_ (by positivity)
        rwa [Nat.cast_ofNat] at h4

theorem binary_accurate : Accurate Binary Binary.val (2 ^ (-53 : ℤ)) where
  nonneg := by positivity
  small := by
    rw [show (1 / 2 : ℝ) = 2 ^ (-1 : ℤ) by norm_num]
    exact zpow_le_zpow_right₀ (by norm_num) (by norm_num)
  zero := rnd_binary ⟨0, 0, by norm_num, by simp⟩
  one := rnd_binary isBinary_one
  ofNat n hn := by
    refine rnd_binary ⟨n, 0, ?_, by simp⟩
    rw [abs_of_nonneg (by positivity)]
    exact_mod_cast (hn.trans (by norm_num)).le
  add x y := rnd_err _
  sub x y := rnd_err _
  mul x y := rnd_err _
  div x y _ := rnd_err _
  sqrt x _ := by
    have := rnd_err √x.val
    rwa [abs_of_nonneg (Real.sqrt_nonneg _)] at this
  sin x := (rnd_err _).trans (by
    have := Real.abs_sin_le_one x.val
    have h : (0 : ℝ) < 2 ^ (-53 : ℤ) := by positivity
    nlinarith)
  cos x := (rnd_err _).trans (by
    have := Real.abs_cos_le_one x.val
    have h : (0 : ℝ) < 2 ^ (-53 : ℤ) := by positivity
    nlinarith)
  pi := by
    have := rnd_err Real.pi
    rwa [abs_of_pos Real.pi_pos] at this

/-- Rounding is to a nearest number. -/
theorem rnd_nearest (x : ℝ) (y : Binary) : |(rnd x).val - x| ≤ |y.val - x| := by
  rw [rnd]
  split
  · rw [sub_self, abs_zero]
    exact abs_nonneg _
  · rename_i h
    have hx : x ≠ 0 := by
      rintro rfl
      exact h ⟨0, 0, by norm_num, by simp⟩
    have h2 : (0 : ℝ) < 2 ^ lastDigit x := by positivity
    change |mantissa x * (2 : ℝ) ^ lastDigit x - x| ≤ _
    -- multiples of the last digit
    have key : ∀ k : ℤ, |mantissa x * (2 : ℝ) ^ lastDigit x - x| ≤ |k * (2 : ℝ) ^ lastDigit x - x| := by
      intro k
      have e : ∀ k : ℤ, |k * (2 : ℝ) ^ lastDigit x - x| = |x / (2 : ℝ) ^ lastDigit x - k| * 2 ^ lastDigit x := by
        intro k
        rw [← abs_of_pos h2, ← abs_mul, abs_of_pos h2, abs_sub_comm]
        congr 1
        field_simp
      rw [e, e]
      exact mul_le_mul_of_nonneg_right (round_le _ k) h2.le
    obtain ⟨m, e, hm, hy⟩ := y.digits
    by_cases he : lastDigit x ≤ e
    · obtain ⟨t, ht⟩ := Int.eq_ofNat_of_zero_le (sub_nonneg.2 he)
      have := key (m * 2 ^ t)
      have e2 : ((m * 2 ^ t : ℤ) : ℝ) * (2 : ℝ) ^ lastDigit x = y.val := by
        rw [hy, show e = (t : ℤ) + lastDigit x by omega, zpow_add₀ (by norm_num)]
        push_cast
        rw [zpow_natCast]
        ring
      rwa [e2] at this
    · have hlog := Int.zpow_log_le_self (b := 2) (by norm_num) (abs_pos.2 hx)
      rw [Nat.cast_ofNat] at hlog
      have hp : (2 : ℝ) ^ Int.log 2 |x| = 2 ^ 52 * 2 ^ lastDigit x := by
        rw [lastDigit, ← zpow_natCast, ← zpow_add₀ (by norm_num)]
        congr 1
        push_cast
        ring
      have hyb : |y.val| ≤ 2 ^ Int.log 2 |x| := by
        have hm' : |(m : ℝ)| ≤ 2 ^ 53 := by exact_mod_cast hm
        have he' : (2 : ℝ) ^ e ≤ 2 ^ (lastDigit x - 1) := zpow_le_zpow_right₀ (by norm_num) (by omega)
        have hpos : (0 : ℝ) < 2 ^ e := by positivity
        rw [hy, abs_mul, abs_of_pos hpos]
        calc _ ≤ 2 ^ 53 * (2 : ℝ) ^ (lastDigit x - 1) := mul_le_mul hm' he' hpos.le (by positivity)
          _ = _ := by
            rw [hp, zpow_sub₀ (by norm_num), zpow_one]
            ring
      have hfar : |x| - |y.val| ≤ |y.val - x| := by
        rw [abs_sub_comm]
        exact abs_sub_abs_le_abs_sub _ _
      rcases lt_or_gt_of_ne hx with hneg | hpos
      · refine (key (-2 ^ 52)).trans ?_
        have e3 : ((-2 ^ 52 : ℤ) : ℝ) * (2 : ℝ) ^ lastDigit x = -2 ^ Int.log 2 |x| := by rw [hp]; push_cast; ring
        rw [e3]
        rw [abs_of_neg hneg] at hlog hyb hfar ⊢
        rw [abs_of_nonneg (by linarith)]
        linarith
      · refine (key (2 ^ 52)).trans ?_
        have e3 : ((2 ^ 52 : ℤ) : ℝ) * (2 : ℝ) ^ lastDigit x = 2 ^ Int.log 2 |x| := by rw [hp]; push_cast; ring
        rw [e3]
        rw [abs_of_pos hpos] at hlog hyb hfar ⊢
        rw [abs_of_nonpos (by linarith)]
        linarith

end Hermipy
