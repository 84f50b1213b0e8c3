import Verif.Lemmas.HermiteEval
import Verif.Model.Quad
import Mathlib.Algebra.Field.GeomSum
import Mathlib.Analysis.SpecialFunctions.Complex.Log
import Mathlib.Algebra.BigOperators.Field
import Mathlib.Tactic.FieldSimp
import Mathlib.Tactic.Ring
import Mathlib.Tactic.LinearCombination

/-! # The equispaced rule -/

namespace Hermipy

open Spec

/-- Node `t` of the rule. -/
noncomputable def fnode (n t : Nat) : ℝ := -Real.pi + 2 * Real.pi * (t : ℝ) / (n : ℝ)

theorem sum_exp {n : Nat} {k : ℤ} (hn : 0 < n) (h0 : k ≠ 0) (hk : |k| < n) :
    ∑ t ∈ Finset.range n, Complex.exp (Complex.I * ((k : ℂ) * (fnode n t : ℝ))) = 0 := by
  have hn0 : (n : ℂ) ≠ 0 := by exact_mod_cast hn.ne'
  obtain ⟨q, hq⟩ : ∃ q, q = Complex.exp (2 * Real.pi * Complex.I * (k / n)) := ⟨_, rfl⟩
  have hq1 : q ≠ 1 := by
    intro h
    rw [hq, Complex.exp_eq_one_iff] at h
    obtain ⟨m, hm⟩ := h
    have hpi : (2 * Real.pi * Complex.I : ℂ) ≠ 0 := by simp [Real.pi_ne_zero]
    have h2 : (k : ℂ) / n = m := by
      apply mul_left_cancel₀ hpi
      rw [hm]; ring
    rw [div_eq_iff hn0] at h2
    have h3 : k = m * n := by exact_mod_cast h2
    have : m ≠ 0 := by rintro rfl; simp at h3; exact h0 h3
    have h4 : |k| = |m| * n := by rw [h3, abs_mul]; simp
    have h5 : 1 ≤ |m| := Int.one_le_abs this
    nlinarith
  have hqn : q ^ n = 1 := by
    rw [hq, ← Complex.exp_nat_mul, Complex.exp_eq_one_iff]
    refine ⟨k, ?_⟩
    field_simp
  have hgeom : ∑ t ∈ Finset.range n, q ^ t = 0 := by
    have h := geom_sum_mul q n
    rw [hqn, sub_self] at h
    rcases mul_eq_zero.1 h with h | h
    · exact h
    · exact absurd (sub_eq_zero.1 h) hq1
  have e : ∀ t ∈ Finset.range n, Complex.exp (Complex.I * ((k : ℂ) * (fnode n t : ℝ))) =
      Complex.exp (-(Complex.I * (k * Real.pi))) * q ^ t := by
    intro t _
    rw [hq, ← Complex.exp_nat_mul, ← Complex.exp_add]
    congr 1
    rw [fnode]
    push_cast
    field_simp
  rw [Finset.sum_congr rfl e, ← Finset.mul_sum, hgeom, mul_zero]

theorem sum_cos {n : Nat} {k : ℤ} (hn : 0 < n) (hk : |k| < n) :
    ∑ t ∈ Finset.range n, Real.cos (k * fnode n t) = if k = 0 then (n : ℝ) else 0 := by
  by_cases h0 : k = 0
  · subst h0; simp
  · rw [if_neg h0]
    have h := congrArg Complex.re (sum_exp hn h0 hk)
    rw [Complex.re_sum] at h
    rw [Complex.zero_re] at h
    rw [← h]
    apply Finset.sum_congr rfl
    intro t _
    rw [show Complex.I * ((k : ℂ) * (fnode n t : ℝ)) = ((k * fnode n t : ℝ) : ℂ) * Complex.I by push_cast; ring,
      Complex.exp_ofReal_mul_I_re]

theorem sum_sin {n : Nat} {k : ℤ} (hn : 0 < n) (hk : |k| < n) : ∑ t ∈ Finset.range n, Real.sin (k * fnode n t) = 0 := by
  by_cases h0 : k = 0
  · subst h0; simp
  · have h := congrArg Complex.im (sum_exp hn h0 hk)
    rw [Complex.im_sum] at h
    rw [Complex.zero_im] at h
    rw [← h]
    apply Finset.sum_congr rfl
    intro t _
    rw [show Complex.I * ((k : ℂ) * (fnode n t : ℝ)) = ((k * fnode n t : ℝ) : ℂ) * Complex.I by push_cast; ring,
      Complex.exp_ofReal_mul_I_im]

/-- The three kinds of trigonometric basis functions. -/
theorem trig_cases (i : Nat) : i = 0 ∨ (∃ k, 1 ≤ k ∧ i = 2 * k) ∨ ∃ k, 1 ≤ k ∧ i = 2 * k - 1 := by
  rcases Nat.even_or_odd' i with ⟨k, h | h⟩
  · by_cases hk : k = 0
    · left; omega
    · right; left; exact ⟨k, by omega, h⟩
  · right; right; exact ⟨k + 1, by omega, by omega⟩

theorem sum_cos_cos {n a b : Nat} (hn : 0 < n) (h : a + b < n) : ∑ t ∈ Finset.range n, Real.cos (a * fnode n t) * Real.cos (b * fnode n t) =
    ((if a = b then (n : ℝ) else 0) + if a + b = 0 then (n : ℝ) else 0) / 2 := by
  have e : ∀ t ∈ Finset.range n, Real.cos (a * fnode n t) * Real.cos (b * fnode n t) =
      (Real.cos (((a - b : ℤ) : ℝ) * fnode n t) + Real.cos (((a + b : ℤ) : ℝ) * fnode n t)) / 2 := by
    intro t _
    push_cast
    rw [sub_mul, add_mul, Real.cos_sub, Real.cos_add]
    ring
  rw [Finset.sum_congr rfl e, ← Finset.sum_div, Finset.sum_add_distrib, sum_cos hn (by rw [abs_lt]; omega),
    sum_cos hn (by rw [abs_lt]; omega)]
  congr 3
  · simp only [eq_iff_iff]; omega
  · simp only [eq_iff_iff]; omega

theorem sum_sin_sin {n a b : Nat} (hn : 0 < n) (h : a + b < n) : ∑ t ∈ Finset.range n, Real.sin (a * fnode n t) * Real.sin (b * fnode n t) =
    ((if a = b then (n : ℝ) else 0) - if a + b = 0 then (n : ℝ) else 0) / 2 := by
  have e : ∀ t ∈ Finset.range n, Real.sin (a * fnode n t) * Real.sin (b * fnode n t) =
      (Real.cos (((a - b : ℤ) : ℝ) * fnode n t) - Real.cos (((a + b : ℤ) : ℝ) * fnode n t)) / 2 := by
    intro t _
    push_cast
    rw [sub_mul, add_mul, Real.cos_sub, Real.cos_add]
    ring
  rw [Finset.sum_congr rfl e, ← Finset.sum_div, Finset.sum_sub_distrib, sum_cos hn (by rw [abs_lt]; omega),
    sum_cos hn (by rw [abs_lt]; omega)]
  congr 3
  · simp only [eq_iff_iff]; omega
  · simp only [eq_iff_iff]; omega

theorem sum_sin_cos {n a b : Nat} (hn : 0 < n) (h : a + b < n) : ∑ t ∈ Finset.range n, Real.sin (a * fnode n t) * Real.cos (b * fnode n t) = 0 := by
  have e : ∀ t ∈ Finset.range n, Real.sin (a * fnode n t) * Real.cos (b * fnode n t) =
      (Real.sin (((a - b : ℤ) : ℝ) * fnode n t) + Real.sin (((a + b : ℤ) : ℝ) * fnode n t)) / 2 := by
    intro t _
    push_cast
    rw [sub_mul, add_mul, Real.sin_sub, Real.sin_add]
    ring
  rw [Finset.sum_congr rfl e, ← Finset.sum_div, Finset.sum_add_distrib, sum_sin hn (by rw [abs_lt]; omega),
    sum_sin hn (by rw [abs_lt]; omega)]
  simp

/-- Two trigonometric functions whose wave numbers add up to less than the number of points. -/
theorem fourier_pair {n i j : Nat} (hn : (i + 1) / 2 + (j + 1) / 2 < n) :
    ∑ t ∈ Finset.range (fourierNodes n).length, (fourierWeights n).getD t 0 *
      (phi 1 i ((fourierNodes n).getD t 0) * phi 1 j ((fourierNodes n).getD t 0)) = if i = j then 1 else 0 := by
  have hn0 : 0 < n := by omega
  have hnr : (n : ℝ) ≠ 0 := by exact_mod_cast hn0.ne'
  have hpi := Real.pi_pos
  have e : ∑ t ∈ Finset.range (fourierNodes n).length, (fourierWeights n).getD t 0 *
      (phi 1 i ((fourierNodes n).getD t 0) * phi 1 j ((fourierNodes n).getD t 0)) =
      2 * Real.pi / n * ∑ t ∈ Finset.range n, trig i (fnode n t) * trig j (fnode n t) := by
    rw [Finset.mul_sum]
    have hl : (fourierNodes n).length = n := by simp [fourierNodes]
    rw [hl]
    apply Finset.sum_congr rfl
    intro t ht
    have ht := Finset.mem_range.1 ht
    have e1 : (fourierNodes n).getD t 0 = fnode n t := by simp [fourierNodes, fnode, ht]
    have e2 : (fourierWeights n).getD t 0 = 2 * Real.pi / n := by simp [fourierWeights, ht]
    rw [e1, e2, phi, phi, if_pos rfl, if_pos rfl]
  rw [e]
  have c1 := fun a (h : a < n) => sum_cos_cos (n := n) (a := a) (b := 0) hn0 (by omega)
  have s1 := fun a (h : a < n) => sum_sin_cos (n := n) (a := a) (b := 0) hn0 (by omega)
  simp only [Nat.cast_zero, zero_mul, Real.cos_zero, mul_one, Nat.add_zero] at c1 s1
  have hs2 : √(2 * Real.pi) * √(2 * Real.pi) = 2 * Real.pi := Real.mul_self_sqrt (by positivity)
  have hs1 : √Real.pi * √Real.pi = Real.pi := Real.mul_self_sqrt hpi.le
  have hz2 : √(2 * Real.pi) ≠ 0 := (Real.sqrt_pos.2 (by positivity)).ne'
  have hz1 : √Real.pi ≠ 0 := (Real.sqrt_pos.2 hpi).ne'
  rcases trig_cases i with rfl | ⟨a, ha, rfl⟩ | ⟨a, ha, rfl⟩ <;> rcases trig_cases j with rfl | ⟨b, hb, rfl⟩ | ⟨b, hb, rfl⟩
  · simp only [trig_zero, if_true, Finset.sum_const, Finset.card_range, nsmul_eq_mul]
    rw [div_mul_div_comm, hs2]
    field_simp
  · rw [if_neg (by omega)]
    simp only [trig_zero, trig_cos hb]
    have := c1 b (by omega)
    rw [if_neg (by omega), add_zero, zero_div] at this
    rw [Finset.sum_congr rfl fun t _ => show 1 / √(2 * Real.pi) * (Real.cos (b * fnode n t) / √Real.pi) =
      1 / (√(2 * Real.pi) * √Real.pi) * Real.cos (b * fnode n t) by field_simp, ← Finset.mul_sum, this]
    ring
  · rw [if_neg (by omega)]
    simp only [trig_zero, trig_sin hb]
    rw [Finset.sum_congr rfl fun t _ => show 1 / √(2 * Real.pi) * (Real.sin (b * fnode n t) / √Real.pi) =
      1 / (√(2 * Real.pi) * √Real.pi) * Real.sin (b * fnode n t) by field_simp, ← Finset.mul_sum, s1 b (by omega)]
    ring
  · rw [if_neg (by omega)]
    simp only [trig_zero, trig_cos ha]
    have := c1 a (by omega)
    rw [if_neg (by omega), add_zero, zero_div] at this
    rw [Finset.sum_congr rfl fun t _ => show Real.cos (a * fnode n t) / √Real.pi * (1 / √(2 * Real.pi)) =
      1 / (√(2 * Real.pi) * √Real.pi) * Real.cos (a * fnode n t) by field_simp, ← Finset.mul_sum, this]
    ring
  · simp only [trig_cos ha, trig_cos hb]
    rw [Finset.sum_congr rfl fun t _ => show Real.cos (a * fnode n t) / √Real.pi * (Real.cos (b * fnode n t) / √Real.pi) =
      1 / (√Real.pi * √Real.pi) * (Real.cos (a * fnode n t) * Real.cos (b * fnode n t)) by field_simp, ← Finset.mul_sum,
      sum_cos_cos hn0 (by omega), hs1, if_neg (show ¬ a + b = 0 by omega)]
    by_cases h : a = b
    · subst h; rw [if_pos rfl, if_pos rfl]; field_simp; ring
    · rw [if_neg h, if_neg (by omega)]; ring
  · rw [if_neg (by omega)]
    simp only [trig_cos ha, trig_sin hb]
    rw [Finset.sum_congr rfl fun t _ => show Real.cos (a * fnode n t) / √Real.pi * (Real.sin (b * fnode n t) / √Real.pi) =
      1 / (√Real.pi * √Real.pi) * (Real.sin (b * fnode n t) * Real.cos (a * fnode n t)) by field_simp, ← Finset.mul_sum,
      sum_sin_cos hn0 (by omega)]
    ring
  · rw [if_neg (by omega)]
    simp only [trig_zero, trig_sin ha]
    rw [Finset.sum_congr rfl fun t _ => show Real.sin (a * fnode n t) / √Real.pi * (1 / √(2 * Real.pi)) =
      1 / (√(2 * Real.pi) * √Real.pi) * Real.sin (a * fnode n t) by field_simp, ← Finset.mul_sum, s1 a (by omega)]
    ring
  · rw [if_neg (by omega)]
    simp only [trig_sin ha, trig_cos hb]
    rw [Finset.sum_congr rfl fun t _ => show Real.sin (a * fnode n t) / √Real.pi * (Real.cos (b * fnode n t) / √Real.pi) =
      1 / (√Real.pi * √Real.pi) * (Real.sin (a * fnode n t) * Real.cos (b * fnode n t)) by field_simp, ← Finset.mul_sum,
      sum_sin_cos hn0 (by omega)]
    ring
  · simp only [trig_sin ha, trig_sin hb]
    rw [Finset.sum_congr rfl fun t _ => show Real.sin (a * fnode n t) / √Real.pi * (Real.sin (b * fnode n t) / √Real.pi) =
      1 / (√Real.pi * √Real.pi) * (Real.sin (a * fnode n t) * Real.sin (b * fnode n t)) by field_simp, ← Finset.mul_sum,
      sum_sin_sin hn0 (by omega), hs1, if_neg (show ¬ a + b = 0 by omega)]
    by_cases h : a = b
    · subst h; rw [if_pos rfl, if_pos rfl]; field_simp; ring
    · rw [if_neg h, if_neg (by omega)]; ring

theorem fourier_rule {n degree : Nat} (hev : degree % 2 = 0) (hn : degree < n) :
    Orthonormal degree 1 (fourierNodes n) (fourierWeights n) := fun i j hi hj => fourier_pair (by omega)

end Hermipy
