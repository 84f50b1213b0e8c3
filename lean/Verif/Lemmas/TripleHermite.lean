import Verif.Lemmas.Gauss
import Verif.Spec.Triple

/-! # Triple products of Hermite polynomials -/

namespace Hermipy

open Spec Polynomial

/-- Normalised Hermite polynomial. -/
noncomputable def hp (n : ℕ) : ℝ[X] := C (1 / √(n.factorial : ℝ)) * He n

theorem hp_eval (n : ℕ) (x : ℝ) : (hp n).eval x = herm n x := by
  rw [hp, eval_mul, eval_C, herm_eq]
  field_simp

theorem hp_zero : hp 0 = 1 := by simp [hp, He_zero]

theorem gE_hp (i j : ℕ) : gE (hp i * hp j) = if i = j then 1 else 0 := by
  rw [← gaussMean_herm, gE, gaussMean]
  congr 1
  funext x
  rw [eval_mul, hp_eval, hp_eval, gw]

theorem triple_herm (f k i j : ℕ) (hf : f ≠ 1) : triple f k i j = gE (hp k * (hp i * hp j)) := by
  rw [triple, if_neg hf, gE, gaussMean]
  congr 1
  funext x
  rw [eval_mul, eval_mul, hp_eval, hp_eval, hp_eval, gw]

theorem x_hp (k : ℕ) : X * hp k = C (√((k : ℝ) + 1)) * hp (k + 1) + C (√(k : ℝ)) * hp (k - 1) := by
  apply Polynomial.funext
  intro x
  rw [eval_add, eval_mul, eval_mul, eval_mul, eval_X, eval_C, eval_C, hp_eval, hp_eval, hp_eval]
  cases k with
  | zero => rw [herm_zero, herm_one]; simp
  | succ k =>
    rw [herm_rec, Nat.add_sub_cancel]
    push_cast
    rw [show (k : ℝ) + 1 + 1 = k + 2 by ring]
    have p2 : √((k : ℝ) + 2) ≠ 0 := by positivity
    field_simp
    ring

theorem gE_He_low : ∀ (n : ℕ) (q : ℝ[X]), q.natDegree < n → gE (He n * q) = 0
  | 0, q, h => by omega
  | n + 1, q, h => by
    rw [gE_He_mul]
    by_cases h0 : q.natDegree = 0
    · rw [derivative_of_natDegree_zero h0]
      simp [gE]
    · exact gE_He_low n _ (by have := natDegree_derivative_lt h0; omega)

theorem gE_hp_low {n : ℕ} {q : ℝ[X]} (h : q.natDegree < n) : gE (hp n * q) = 0 := by
  rw [hp, mul_assoc, gE_C_mul, gE_He_low n q h, mul_zero]

theorem natDegree_hp (n : ℕ) : (hp n).natDegree ≤ n := by
  rw [hp]
  refine (natDegree_C_mul_le _ _).trans ?_
  rw [natDegree_He]

/-- Selection rule. -/
theorem gE3_zero {k i j : ℕ} (h : i + j < k ∨ k + i < j ∨ k + j < i) : gE (hp k * (hp i * hp j)) = 0 := by
  rcases h with h | h | h
  · refine gE_hp_low (lt_of_le_of_lt natDegree_mul_le ?_)
    have := natDegree_hp i; have := natDegree_hp j; omega
  · rw [show hp k * (hp i * hp j) = hp j * (hp k * hp i) by ring]
    refine gE_hp_low (lt_of_le_of_lt natDegree_mul_le ?_)
    have := natDegree_hp i; have := natDegree_hp k; omega
  · rw [show hp k * (hp i * hp j) = hp i * (hp k * hp j) by ring]
    refine gE_hp_low (lt_of_le_of_lt natDegree_mul_le ?_)
    have := natDegree_hp j; have := natDegree_hp k; omega

/-- Recurrence in the second index. -/
theorem gE3_rec (k i j : ℕ) : √((i : ℝ) + 1) * gE (hp k * (hp (i + 1) * hp j)) =
    √((k : ℝ) + 1) * gE (hp (k + 1) * (hp i * hp j)) + √(k : ℝ) * gE (hp (k - 1) * (hp i * hp j)) -
      √(i : ℝ) * gE (hp k * (hp (i - 1) * hp j)) := by
  have h1 : gE (X * hp k * (hp i * hp j)) =
      √((k : ℝ) + 1) * gE (hp (k + 1) * (hp i * hp j)) + √(k : ℝ) * gE (hp (k - 1) * (hp i * hp j)) := by
    rw [x_hp, add_mul, gE_add, mul_assoc, mul_assoc, gE_C_mul, gE_C_mul]
  have h2 : gE (X * hp k * (hp i * hp j)) =
      √((i : ℝ) + 1) * gE (hp k * (hp (i + 1) * hp j)) + √(i : ℝ) * gE (hp k * (hp (i - 1) * hp j)) := by
    rw [show X * hp k * (hp i * hp j) = (X * hp i) * (hp k * hp j) by ring, x_hp, add_mul, gE_add, mul_assoc, mul_assoc,
      gE_C_mul, gE_C_mul, show hp (i + 1) * (hp k * hp j) = hp k * (hp (i + 1) * hp j) by ring,
      show hp (i - 1) * (hp k * hp j) = hp k * (hp (i - 1) * hp j) by ring]
  linarith

theorem coeff_He_self (n : ℕ) : (He n).coeff n = 1 := by
  rw [He, coeff_map, coeff_hermite_self]
  simp

theorem hp_expand : ∀ (N : ℕ) (q : ℝ[X]), (∀ m, N ≤ m → q.coeff m = 0) → q = ∑ k ∈ Finset.range N, C (gE (hp k * q)) * hp k
  | 0, q, h => by
    rw [Finset.range_zero, Finset.sum_empty]
    ext m
    rw [h m (Nat.zero_le _), coeff_zero]
  | N + 1, q, h => by
    set l := q.coeff N * √(N.factorial : ℝ) with hl
    set q' := q - C l * hp N with hq'
    have p0 : √(N.factorial : ℝ) ≠ 0 := by positivity
    have h' : ∀ m, N ≤ m → q'.coeff m = 0 := by
      intro m hm
      rw [hq', coeff_sub, coeff_C_mul, hp, coeff_C_mul]
      rcases Nat.eq_or_lt_of_le hm with rfl | hm
      · rw [coeff_He_self, hl]
        field_simp
        ring
      · rw [h m (by omega), coeff_eq_zero_of_natDegree_lt (by rw [natDegree_He]; omega)]
        ring
    have ih := hp_expand N q' h'
    have hg : ∀ k, gE (hp k * q) = gE (hp k * q') + l * (if k = N then 1 else 0) := by
      intro k
      rw [show hp k * q = hp k * q' + C l * (hp k * hp N) by rw [hq']; ring, gE_add, gE_C_mul, gE_hp]
    rw [Finset.sum_range_succ, hg N, if_pos rfl, mul_one]
    have hz : gE (hp N * q') = 0 := by
      rcases Nat.eq_zero_or_pos N with rfl | hN
      · have : q' = 0 := by ext m; rw [h' m (Nat.zero_le _), coeff_zero]
        rw [this]; simp [gE]
      · refine gE_hp_low ?_
        by_contra hn
        have h0 : q' = 0 := leadingCoeff_eq_zero.1 (h' _ (by omega))
        rw [h0, natDegree_zero] at hn
        exact hn hN
    rw [hz, zero_add]
    have e : ∑ k ∈ Finset.range N, C (gE (hp k * q)) * hp k = q' := by
      conv_rhs => rw [ih]
      refine Finset.sum_congr rfl fun k hk => ?_
      rw [hg k, if_neg (by have := Finset.mem_range.1 hk; omega), mul_zero, add_zero]
    rw [e, hq']
    ring

/-- A product of two Hermite polynomials as a combination of Hermite polynomials. -/
theorem herm_mul {i j N : ℕ} (h : i + j < N) (f : ℕ) (hf : f ≠ 1) (x : ℝ) :
    herm i x * herm j x = ∑ k ∈ Finset.range N, triple f k i j * herm k x := by
  have := congrArg (fun q => q.eval x) (hp_expand N (hp i * hp j) (fun m hm => by
    refine coeff_eq_zero_of_natDegree_lt (lt_of_le_of_lt natDegree_mul_le ?_)
    have := natDegree_hp i; have := natDegree_hp j; omega))
  simp only [eval_mul, hp_eval, eval_finsetSum, eval_C] at this
  rw [this]
  refine Finset.sum_congr rfl fun k _ => ?_
  rw [triple_herm f k i j hf]

end Hermipy
