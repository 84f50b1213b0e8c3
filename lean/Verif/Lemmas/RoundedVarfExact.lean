import Verif.Lemmas.RoundedExact
import Verif.Lemmas.Binary
import Verif.Spec.RoundedVarf

/-! # Variational forms over the real numbers and over binary numbers -/

namespace Hermipy

open Spec

open Classical in
/-- The operations of the real numbers. -/
@[reducible] noncomputable def realDoubles : Doubles ℝ where
  toFloats := realFloats
  abs x := |x|
  lt x y := decide (x < y)
  threshold := THRESHOLD
  add_zero := add_zero
  zero_mul := zero_mul
  mul_zero := mul_zero

theorem realDoubles_accurate : @AccurateD ℝ realDoubles id 0 :=
  letI := realDoubles
  { realFloats_accurate with
    neg := fun _ => rfl
    abs := fun _ => rfl
    lt := fun x y => by simp [Doubles.lt]
    threshold := by simp [Doubles.threshold, THRESHOLD] }

theorem cmpSignF_real (p q : ℕ) : @cmpSignF ℝ realDoubles p q = cmpSign p q := by
  unfold cmpSignF cmpSign
  by_cases h : p > q
  · rw [if_pos h, if_pos h, if_neg (by omega), sub_zero]
  · rw [if_neg h, if_neg h]
    by_cases h' : q > p
    · rw [if_pos h', if_pos h', zero_sub]
    · rw [if_neg h', if_neg h', sub_zero]

theorem triple_products_1dF_real : @triple_products_1dF ℝ realDoubles = triple_products_1d := by
  funext n
  have ha : @recA ℝ realFloats = REC_A := funext recA_real
  have hb : @recB ℝ realFloats = REC_B := funext recB_real
  unfold triple_products_1dF triple_products_1d
  rw [ha, hb]

theorem triple_products_fourierF_real : @triple_products_fourierF ℝ realDoubles = triple_products_fourier := by
  funext n
  unfold triple_products_fourierF triple_products_fourier
  simp only [cmpSignF_real, real_ofNat, real_sqrt, real_pi, Nat.cast_ofNat]

theorem varfNormF_real : @varfNormF ℝ realDoubles = varfNorm := by
  funext l
  unfold varfNormF varfNorm
  simp [Doubles.lt, Doubles.abs, real_sqrt]

theorem varfF_real {T : Type} [MatOps T ℝ] [MatArith T ℝ] [Convert (SpMat ℝ) T] : @varfF ℝ realDoubles T _ _ _ = varf (T := T) := by
  funext slack s degree input nodes weights fourier
  unfold varfF varf
  simp only [transformF_real, triple_products_1dF_real, triple_products_fourierF_real, varfNormF_real, Doubles.lt, Doubles.abs, Doubles.threshold,
    decide_eq_true_eq]

theorem isBinary_neg {x : ℝ} (h : IsBinary x) : IsBinary (-x) := by
  obtain ⟨m, e, hm, rfl⟩ := h
  exact ⟨-m, e, by rwa [abs_neg], by push_cast; ring⟩

theorem isBinary_abs {x : ℝ} (h : IsBinary x) : IsBinary |x| := by
  rcases abs_choice x with e | e <;> rw [e]
  · exact h
  · exact isBinary_neg h

theorem isBinary_zero : IsBinary 0 := ⟨0, 0, by norm_num, by simp⟩

open Classical in
/-- The binary numbers, with exact signs and comparisons. -/
noncomputable instance : Doubles Binary where
  neg x := rnd (-x.val)
  abs x := rnd |x.val|
  lt x y := decide (x.val < y.val)
  threshold := rnd (1 / 10 ^ 12)
  add_zero x := by
    change rnd (x.val + (rnd 0).val) = x
    rw [rnd_binary isBinary_zero, add_zero, rnd_val]
  zero_mul x := by
    change rnd ((rnd 0).val * x.val) = rnd 0
    rw [rnd_binary isBinary_zero, zero_mul]
  mul_zero x := by
    change rnd (x.val * (rnd 0).val) = rnd 0
    rw [rnd_binary isBinary_zero, mul_zero]

theorem binary_accurateD : AccurateD Binary Binary.val (2 ^ (-53 : ℤ)) where
  toAccurate := binary_accurate
  neg x := rnd_binary (isBinary_neg x.digits)
  abs x := rnd_binary (isBinary_abs x.digits)
  lt x y := by simp [Doubles.lt]
  threshold := (rnd_err _).trans_eq (by rw [abs_of_pos (by norm_num)])

end Hermipy
