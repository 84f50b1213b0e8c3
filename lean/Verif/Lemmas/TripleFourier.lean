import Verif.Lemmas.FourierRule
import Verif.Spec.Triple
import Mathlib.Analysis.SpecialFunctions.Integrals.Basic

/-! # Triple products of trigonometric functions -/

namespace Hermipy

open Spec

/-- Product of cosines of wave numbers `a`, `b`: coefficients. -/
noncomputable def fcc (a b k : Nat) : ℝ := (if k = 2 * (a + b) then 1 / (2 * √Real.pi) else 0) +
  (if a = b then (if k = 0 then 1 / √(2 * Real.pi) else 0) else if k = 2 * (a - b + (b - a)) then 1 / (2 * √Real.pi) else 0)

/-- Product of sines of wave numbers `a`, `b`: coefficients. -/
noncomputable def fss (a b k : Nat) : ℝ := (if k = 2 * (a + b) then -(1 / (2 * √Real.pi)) else 0) +
  (if a = b then (if k = 0 then 1 / √(2 * Real.pi) else 0) else if k = 2 * (a - b + (b - a)) then 1 / (2 * √Real.pi) else 0)

/-- Product of a cosine of wave number `a` and a sine of wave number `b`: coefficients. -/
noncomputable def fcs (a b k : Nat) : ℝ := (if k = 2 * (a + b) - 1 then 1 / (2 * √Real.pi) else 0) +
  (if a < b then (if k = 2 * (b - a) - 1 then 1 / (2 * √Real.pi) else 0)
   else if b < a then (if k = 2 * (a - b) - 1 then -(1 / (2 * √Real.pi)) else 0) else 0)

/-- Coefficients of products of trigonometric functions. -/
noncomputable def four (k i j : Nat) : ℝ :=
  if i = 0 then (if k = j then 1 / √(2 * Real.pi) else 0)
  else if j = 0 then (if k = i then 1 / √(2 * Real.pi) else 0)
  else if i % 2 = 0 then (if j % 2 = 0 then fcc (i / 2) (j / 2) k else fcs (i / 2) ((j + 1) / 2) k)
  else (if j % 2 = 0 then fcs (j / 2) ((i + 1) / 2) k else fss ((i + 1) / 2) ((j + 1) / 2) k)

theorem four_zero_left (k j : Nat) : four k 0 j = if k = j then 1 / √(2 * Real.pi) else 0 := by simp [four]

theorem four_zero_right (k i : Nat) : four k i 0 = if k = i then 1 / √(2 * Real.pi) else 0 := by
  rw [four]
  by_cases h : i = 0
  · rw [if_pos h, h]
  · rw [if_neg h, if_pos rfl]

theorem four_cc {a b : Nat} (ha : 1 ≤ a) (hb : 1 ≤ b) (k : Nat) : four k (2 * a) (2 * b) = fcc a b k := by
  rw [four, if_neg (by omega), if_neg (by omega), if_pos (by omega), if_pos (by omega), Nat.mul_div_cancel_left _ (by omega),
    Nat.mul_div_cancel_left _ (by omega)]

theorem four_ss {a b : Nat} (ha : 1 ≤ a) (hb : 1 ≤ b) (k : Nat) : four k (2 * a - 1) (2 * b - 1) = fss a b k := by
  rw [four, if_neg (by omega), if_neg (by omega), if_neg (by omega), if_neg (by omega),
    show (2 * a - 1 + 1) / 2 = a by omega, show (2 * b - 1 + 1) / 2 = b by omega]

theorem four_cs {a b : Nat} (ha : 1 ≤ a) (hb : 1 ≤ b) (k : Nat) : four k (2 * a) (2 * b - 1) = fcs a b k := by
  rw [four, if_neg (by omega), if_neg (by omega), if_pos (by omega), if_neg (by omega),
    show (2 * a) / 2 = a by omega, show (2 * b - 1 + 1) / 2 = b by omega]

theorem four_sc {a b : Nat} (ha : 1 ≤ a) (hb : 1 ≤ b) (k : Nat) : four k (2 * a - 1) (2 * b) = fcs b a k := by
  rw [four, if_neg (by omega), if_neg (by omega), if_neg (by omega), if_pos (by omega),
    show (2 * b) / 2 = b by omega, show (2 * a - 1 + 1) / 2 = a by omega]

/-- A sum with one term. -/
theorem sum_one {N p : Nat} (h : p < N) (A : ℝ) (g : Nat → ℝ) :
    ∑ k ∈ Finset.range N, (if k = p then A else 0) * g k = A * g p := by
  rw [Finset.sum_eq_single p]
  · rw [if_pos rfl]
  · intro k _ hk; rw [if_neg hk, zero_mul]
  · intro hp; exact absurd (Finset.mem_range.2 h) hp

theorem sqrt_two_pi : √(2 * Real.pi) * √(2 * Real.pi) = 2 * (√Real.pi * √Real.pi) := by
  rw [Real.mul_self_sqrt (by positivity), Real.mul_self_sqrt (by positivity)]

theorem sqrt_two_pi_inv : 1 / √(2 * Real.pi) * (1 / √(2 * Real.pi)) = 1 / (2 * √Real.pi) * (1 / √Real.pi) := by
  have := sqrt_two_pi
  have p1 : √(2 * Real.pi) ≠ 0 := by positivity
  have p2 : √Real.pi ≠ 0 := by positivity
  rw [div_mul_div_comm, div_mul_div_comm, this]
  ring

theorem trig_mul_cc {a b N : Nat} (ha : 1 ≤ a) (hb : 1 ≤ b) (hN : 2 * (a + b) < N) (x : ℝ) :
    trig (2 * a) x * trig (2 * b) x = ∑ k ∈ Finset.range N, fcc a b k * trig k x := by
  simp only [fcc, add_mul, Finset.sum_add_distrib]
  rw [sum_one hN, trig_cos ha, trig_cos hb, trig_cos (by omega : 1 ≤ a + b)]
  have p2 : √Real.pi ≠ 0 := by positivity
  push_cast
  rcases Nat.lt_trichotomy a b with h | rfl | h
  · simp only [if_neg (show a ≠ b by omega)]
    rw [sum_one (by omega), show a - b + (b - a) = b - a by omega, trig_cos (by omega), Nat.cast_sub h.le,
      show (((b : ℝ) - a) * x) = b * x - a * x by ring, add_mul, Real.cos_add, Real.cos_sub]
    field_simp
    ring
  · simp only [if_true]
    rw [sum_one (by omega), trig_zero, sqrt_two_pi_inv, add_mul, Real.cos_add]
    have := Real.sin_sq_add_cos_sq (a * x)
    field_simp
    linear_combination (1 : ℝ) * this
  · simp only [if_neg (show a ≠ b by omega)]
    rw [sum_one (by omega), show a - b + (b - a) = a - b by omega, trig_cos (by omega), Nat.cast_sub h.le,
      show (((a : ℝ) - b) * x) = a * x - b * x by ring, add_mul, Real.cos_add, Real.cos_sub]
    field_simp
    ring

theorem trig_mul_ss {a b N : Nat} (ha : 1 ≤ a) (hb : 1 ≤ b) (hN : 2 * (a + b) < N) (x : ℝ) :
    trig (2 * a - 1) x * trig (2 * b - 1) x = ∑ k ∈ Finset.range N, fss a b k * trig k x := by
  simp only [fss, add_mul, Finset.sum_add_distrib]
  rw [sum_one hN, trig_sin ha, trig_sin hb, trig_cos (by omega : 1 ≤ a + b)]
  have p2 : √Real.pi ≠ 0 := by positivity
  push_cast
  rcases Nat.lt_trichotomy a b with h | rfl | h
  · simp only [if_neg (show a ≠ b by omega)]
    rw [sum_one (by omega), show a - b + (b - a) = b - a by omega, trig_cos (by omega), Nat.cast_sub h.le,
      show (((b : ℝ) - a) * x) = b * x - a * x by ring, add_mul, Real.cos_add, Real.cos_sub]
    field_simp
    ring
  · simp only [if_true]
    rw [sum_one (by omega), trig_zero, sqrt_two_pi_inv, add_mul, Real.cos_add]
    have := Real.sin_sq_add_cos_sq (a * x)
    field_simp
    linear_combination (1 : ℝ) * this
  · simp only [if_neg (show a ≠ b by omega)]
    rw [sum_one (by omega), show a - b + (b - a) = a - b by omega, trig_cos (by omega), Nat.cast_sub h.le,
      show (((a : ℝ) - b) * x) = a * x - b * x by ring, add_mul, Real.cos_add, Real.cos_sub]
    field_simp
    ring

theorem trig_mul_cs {a b N : Nat} (ha : 1 ≤ a) (hb : 1 ≤ b) (hN : 2 * (a + b) < N) (x : ℝ) :
    trig (2 * a) x * trig (2 * b - 1) x = ∑ k ∈ Finset.range N, fcs a b k * trig k x := by
  simp only [fcs, add_mul, Finset.sum_add_distrib]
  rw [sum_one (by omega), trig_cos ha, trig_sin hb, trig_sin (by omega : 1 ≤ a + b)]
  have p2 : √Real.pi ≠ 0 := by positivity
  push_cast
  rcases Nat.lt_trichotomy a b with h | rfl | h
  · simp only [if_pos h]
    rw [sum_one (by omega), trig_sin (by omega), Nat.cast_sub h.le,
      show (((b : ℝ) - a) * x) = b * x - a * x by ring, add_mul, Real.sin_add, Real.sin_sub]
    field_simp
    ring
  · simp only [lt_irrefl, if_false, zero_mul, Finset.sum_const_zero]
    rw [add_mul, Real.sin_add]
    field_simp
    ring
  · simp only [if_neg (show ¬ a < b by omega), if_pos h]
    rw [sum_one (by omega), trig_sin (by omega), Nat.cast_sub h.le,
      show (((a : ℝ) - b) * x) = a * x - b * x by ring, add_mul, Real.sin_add, Real.sin_sub]
    field_simp
    ring

/-- A product of two trigonometric functions as a combination of trigonometric functions. -/
theorem trig_mul {i j N : Nat} (hN : i + j + 2 < N) (x : ℝ) :
    trig i x * trig j x = ∑ k ∈ Finset.range N, four k i j * trig k x := by
  rcases trig_cases i with rfl | ⟨a, ha, rfl⟩ | ⟨a, ha, rfl⟩
  · simp only [four_zero_left]
    rw [sum_one (by omega), trig_zero]
  · rcases trig_cases j with rfl | ⟨b, hb, rfl⟩ | ⟨b, hb, rfl⟩
    · simp only [four_zero_right]
      rw [sum_one (by omega), trig_zero, mul_comm]
    · simp only [four_cc ha hb]
      exact trig_mul_cc ha hb (by omega) x
    · simp only [four_cs ha hb]
      exact trig_mul_cs ha hb (by omega) x
  · rcases trig_cases j with rfl | ⟨b, hb, rfl⟩ | ⟨b, hb, rfl⟩
    · simp only [four_zero_right]
      rw [sum_one (by omega), trig_zero, mul_comm]
    · simp only [four_sc ha hb]
      rw [mul_comm]
      exact trig_mul_cs hb ha (by omega) x
    · simp only [four_ss ha hb]
      exact trig_mul_ss ha hb (by omega) x

theorem trig_continuous (i : Nat) : Continuous (trig i) := by
  rcases trig_cases i with rfl | ⟨a, ha, rfl⟩ | ⟨a, ha, rfl⟩
  · rw [show trig 0 = fun _ => 1 / √(2 * Real.pi) from funext trig_zero]
    exact continuous_const
  · rw [show trig (2 * a) = fun x => Real.cos (a * x) / √Real.pi from funext (trig_cos ha)]
    fun_prop
  · rw [show trig (2 * a - 1) = fun x => Real.sin (a * x) / √Real.pi from funext (trig_sin ha)]
    fun_prop

theorem integral_trig (i : Nat) : ∫ x in (-Real.pi)..Real.pi, trig i x = if i = 0 then √(2 * Real.pi) else 0 := by
  rcases trig_cases i with rfl | ⟨a, ha, rfl⟩ | ⟨a, ha, rfl⟩
  · simp only [trig_zero]
    rw [intervalIntegral.integral_const, if_pos trivial, smul_eq_mul, show Real.pi - -Real.pi = 2 * Real.pi by ring]
    rw [mul_one_div, Real.div_sqrt]
  · simp only [trig_cos ha]
    have ha' : (a : ℝ) ≠ 0 := by positivity
    rw [if_neg (by omega), intervalIntegral.integral_div, intervalIntegral.integral_comp_mul_left (fun x => Real.cos x) ha',
      integral_cos, mul_neg, Real.sin_neg, Real.sin_nat_mul_pi]
    simp
  · simp only [trig_sin ha]
    have ha' : (a : ℝ) ≠ 0 := by positivity
    rw [if_neg (by omega), intervalIntegral.integral_div, intervalIntegral.integral_comp_mul_left (fun x => Real.sin x) ha',
      integral_sin, mul_neg, Real.cos_neg]
    simp

theorem integral_sum_trig (N : Nat) (c : Nat → ℝ) (g : ℝ → ℝ) (hg : Continuous g) :
    ∫ x in (-Real.pi)..Real.pi, g x * ∑ k ∈ Finset.range N, c k * trig k x =
      ∑ k ∈ Finset.range N, c k * ∫ x in (-Real.pi)..Real.pi, g x * trig k x := by
  simp only [Finset.mul_sum]
  rw [intervalIntegral.integral_finsetSum]
  · refine Finset.sum_congr rfl fun k _ => ?_
    rw [← intervalIntegral.integral_const_mul]
    congr 1
    funext x
    ring
  · intro k _
    exact (hg.mul (continuous_const.mul (trig_continuous k))).intervalIntegrable _ _

theorem four_at_zero (i j : Nat) : four 0 i j = if i = j then 1 / √(2 * Real.pi) else 0 := by
  rcases trig_cases i with rfl | ⟨a, ha, rfl⟩ | ⟨a, ha, rfl⟩
  · rw [four_zero_left]
  · rcases trig_cases j with rfl | ⟨b, hb, rfl⟩ | ⟨b, hb, rfl⟩
    · rw [four_zero_right, if_neg (by omega), if_neg (by omega)]
    · rw [four_cc ha hb, fcc, if_neg (by omega), zero_add]
      by_cases h : a = b
      · rw [if_pos h, if_pos rfl, if_pos (by omega)]
      · rw [if_neg h, if_neg (by omega), if_neg (by omega)]
    · rw [four_cs ha hb, fcs, if_neg (by omega), if_neg (by omega : ¬ 2 * a = 2 * b - 1)]
      rcases Nat.lt_trichotomy a b with h | rfl | h
      · rw [if_pos h, if_neg (by omega), zero_add]
      · rw [if_neg (by omega), if_neg (by omega), zero_add]
      · rw [if_neg (by omega), if_pos h, if_neg (by omega), zero_add]
  · rcases trig_cases j with rfl | ⟨b, hb, rfl⟩ | ⟨b, hb, rfl⟩
    · rw [four_zero_right, if_neg (by omega), if_neg (by omega)]
    · rw [four_sc ha hb, fcs, if_neg (by omega), if_neg (by omega : ¬ 2 * a - 1 = 2 * b)]
      rcases Nat.lt_trichotomy b a with h | rfl | h
      · rw [if_pos h, if_neg (by omega), zero_add]
      · rw [if_neg (by omega), if_neg (by omega), zero_add]
      · rw [if_neg (by omega), if_pos h, if_neg (by omega), zero_add]
    · rw [four_ss ha hb, fss, if_neg (by omega), zero_add]
      by_cases h : a = b
      · rw [if_pos h, if_pos rfl, if_pos (by omega)]
      · rw [if_neg h, if_neg (by omega), if_neg (by omega)]

theorem integral_trig_mul (i j : Nat) : ∫ x in (-Real.pi)..Real.pi, trig i x * trig j x = if i = j then 1 else 0 := by
  have h := integral_sum_trig (i + j + 3) (fun k => four k i j) (fun _ => 1) continuous_const
  simp only [one_mul, ← trig_mul (show i + j + 2 < i + j + 3 by omega), integral_trig] at h
  rw [h, Finset.sum_eq_single 0]
  · rw [if_pos rfl, four_at_zero]
    by_cases h : i = j
    · rw [if_pos h, if_pos h, one_div, inv_mul_cancel₀ (by positivity)]
    · rw [if_neg h, if_neg h, zero_mul]
  · intro k _ hk
    rw [if_neg hk, mul_zero]
  · intro h0
    simp at h0

theorem triple_four (k i j : Nat) : triple 1 k i j = four k i j := by
  rw [triple, if_pos rfl]
  simp only [trig_mul (show i + j + 2 < i + j + 3 + k by omega)]
  rw [integral_sum_trig _ _ _ (trig_continuous k)]
  simp only [integral_trig_mul]
  rw [Finset.sum_eq_single k]
  · rw [if_pos rfl, mul_one]
  · intro l _ hl
    rw [if_neg (Ne.symm hl), mul_zero]
  · intro h0
    simp only [Finset.mem_range] at h0
    omega

end Hermipy
