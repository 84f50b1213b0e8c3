import Verif.Model.Rounded
import Mathlib.Data.Int.Log
import Mathlib.Algebra.Order.Round
import Mathlib.Data.Real.Archimedean
import Mathlib.Analysis.Real.Sqrt
import Mathlib.Analysis.SpecialFunctions.Trigonometric.Basic

/-!
# Binary floating-point numbers

Numbers with 53 binary digits, rounded to a nearest one, as `double` is, but with exponents of any size and without infinities and NaN. -/

namespace Hermipy.Spec

/-- The number has at most 53 binary digits. -/
def IsBinary (x : ℝ) : Prop := ∃ m e : ℤ, |m| ≤ 2 ^ 53 ∧ x = m * (2 : ℝ) ^ e

/-- The numbers with 53 binary digits. -/
structure Binary where
  val : ℝ
  digits : IsBinary val

/-- The exponent of the last of the 53 digits of `x`. -/
noncomputable def lastDigit (x : ℝ) : ℤ := Int.log 2 |x| - 52

/-- The mantissa of 53 digits. -/
noncomputable def mantissa (x : ℝ) : ℤ := round (x / (2 : ℝ) ^ lastDigit x)

theorem mantissa_le (x : ℝ) : |mantissa x| ≤ 2 ^ 53 := by
  have h2 : (0 : ℝ) < 2 ^ lastDigit x := by positivity
  have h1 : |x / (2 : ℝ) ^ lastDigit x| < 2 ^ 53 := by
    rw [abs_div, abs_of_pos h2, div_lt_iff₀ h2, lastDigit]
    have := Int.lt_zpow_succ_log_self (b := 2) (by norm_num) |x|
    refine this.trans_le (le_of_eq ?_)
    rw [Nat.cast_ofNat, ← zpow_natCast, ← zpow_add₀ (by norm_num)]
    congr 1
    push_cast
    ring
  have h3 := abs_sub_round (x / (2 : ℝ) ^ lastDigit x)
  have h4 : |((mantissa x : ℤ) : ℝ)| < 2 ^ 53 + 1 := by
    have := abs_sub_abs_le_abs_sub ((mantissa x : ℤ) : ℝ) (x / (2 : ℝ) ^ lastDigit x)
    rw [abs_sub_comm] at this
    rw [mantissa] at this ⊢
    linarith
  have h5 : |mantissa x| < 2 ^ 53 + 1 := by exact_mod_cast h4
  omega

open scoped Classical in
/-- Rounding to 53 digits. -/
noncomputable def rnd (x : ℝ) : Binary :=
  if h : IsBinary x then ⟨x, h⟩ else ⟨mantissa x * (2 : ℝ) ^ lastDigit x, mantissa x, lastDigit x, mantissa_le x, rfl⟩

theorem rnd_val (x : Binary) : rnd x.val = x := by rw [rnd, dif_pos x.digits]

theorem rnd_binary {x : ℝ} (h : IsBinary x) : (rnd x).val = x := by rw [rnd, dif_pos h]

theorem isBinary_one : IsBinary 1 := ⟨1, 0, by norm_num, by simp⟩

/-- The operations, each rounded. -/
noncomputable instance : Floats Binary where
  one := rnd 1
  zero := rnd 0
  mul x y := rnd (x.val * y.val)
  add x y := rnd (x.val + y.val)
  sub x y := rnd (x.val - y.val)
  div x y := rnd (x.val / y.val)
  one_mul x := by
    change rnd ((rnd 1).val * x.val) = x
    rw [rnd_binary isBinary_one, one_mul, rnd_val]
  mul_one x := by
    change rnd (x.val * (rnd 1).val) = x
    rw [rnd_binary isBinary_one, mul_one, rnd_val]
  ofNat n := rnd n
  sqrt x := rnd √x.val
  sin x := rnd (Real.sin x.val)
  cos x := rnd (Real.cos x.val)
  pi := rnd Real.pi

end Hermipy.Spec
