import Verif.Lemmas.HermiteAbs
import Verif.Lemmas.TripleTable
import Verif.Spec.RoundedVarf
import Mathlib.Algebra.Polynomial.Roots

/-! # Triple products of Hermite polynomials with absolute values of the coefficients -/

namespace Hermipy

open Polynomial Spec

/-- The normalised Hermite polynomial with the absolute values of its coefficients. -/
noncomputable def hpp (n : ℕ) : ℝ[X] :=
  C (1 / √(n.factorial : ℝ)) * ∑ j ∈ Finset.range (n + 1), C |((hermite n).coeff j : ℝ)| * X ^ j

theorem hpp_eval (n : ℕ) (x : ℝ) : (hpp n).eval x = hermPlus n x := by
  rw [hpp, eval_mul, eval_C, eval_finset_sum, hermPlus, one_div, inv_mul_eq_div]
  congr 1
  exact Finset.sum_congr rfl fun j _ => by simp

theorem hermPlus_nonneg_eq {n : ℕ} {x : ℝ} (hx : 0 ≤ x) : hermPlus n x = hermAbs n x := by
  rw [hermPlus, hermAbs, abs_of_nonneg hx]

theorem hpp_zero : hpp 0 = 1 := by simp [hpp]

theorem eq_of_eval_nonneg {p q : ℝ[X]} (h : ∀ x, 0 ≤ x → p.eval x = q.eval x) : p = q :=
  eq_of_infinite_eval_eq p q ((Set.Ici_infinite (0 : ℝ)).mono fun x hx => h x hx)

theorem hpp_rec (i : ℕ) : hpp (i + 1) = C (REC_A i) * (X * hpp i) + C (REC_B i) * hpp (i - 1) := by
  refine eq_of_eval_nonneg fun x hx => ?_
  rw [eval_add, eval_mul, eval_mul, eval_mul, eval_C, eval_C, eval_X, hpp_eval, hpp_eval, hpp_eval, hermPlus_nonneg_eq hx,
    hermPlus_nonneg_eq hx, hermPlus_nonneg_eq hx, REC_A, REC_B]
  match i with
  | 0 => simp [hermAbs_zero, hermAbs_one, abs_of_nonneg hx]
  | i + 1 =>
    rw [hermAbs_rec, abs_of_nonneg hx, Nat.add_sub_cancel]
    push_cast
    rw [show (i : ℝ) + 1 + 1 = i + 2 by ring]
    ring

/-- The size of the terms of `tau`. -/
noncomputable def gP (k i j : ℕ) : ℝ := gE (hp k * (hpp i * hp j))

theorem gP_first (k j : ℕ) : gP k 0 j = if k = j then 1 else 0 := by
  rw [gP, hpp_zero, one_mul, gE_hp]

theorem gP_rec (k i j : ℕ) : gP k (i + 1) j =
    REC_A i / REC_A k * gP (k + 1) i j + REC_B i * gP k (i - 1) j + REC_A i / REC_A k * REC_B k * gP (k - 1) i j := by
  have h : gP k (i + 1) j = REC_A i * gE (X * hp k * (hpp i * hp j)) + REC_B i * gP k (i - 1) j := by
    rw [gP, hpp_rec, show hp k * ((C (REC_A i) * (X * hpp i) + C (REC_B i) * hpp (i - 1)) * hp j) =
      C (REC_A i) * (X * hp k * (hpp i * hp j)) + C (REC_B i) * (hp k * (hpp (i - 1) * hp j)) by ring, gE_add, gE_C_mul, gE_C_mul, gP]
  have h1 : gE (X * hp k * (hpp i * hp j)) = √((k : ℝ) + 1) * gP (k + 1) i j + √(k : ℝ) * gP (k - 1) i j := by
    rw [x_hp, add_mul, gE_add, mul_assoc, mul_assoc, gE_C_mul, gE_C_mul, gP, gP]
  have p : √((i : ℝ) + 1) ≠ 0 := by positivity
  have p' : √((k : ℝ) + 1) ≠ 0 := by positivity
  rw [h, h1, REC_A_div, REC_A, REC_B, REC_B]
  field_simp
  ring

theorem REC_B_nonneg (i : ℕ) : 0 ≤ REC_B i := by rw [REC_B]; positivity

theorem gP_nonneg : ∀ (i k j : ℕ), 0 ≤ gP k i j
  | 0, k, j => by rw [gP_first]; split <;> norm_num
  | i + 1, k, j => by
    have h1 := gP_nonneg i (k + 1) j
    have h2 := gP_nonneg (i - 1) k j
    have h3 := gP_nonneg i (k - 1) j
    have ha := REC_A_pos i
    have hk := REC_A_pos k
    have hb := REC_B_nonneg i
    have hb' := REC_B_nonneg k
    rw [gP_rec]
    positivity
  termination_by i => i

theorem tripleAbs_herm {f : ℕ} (hf : f ≠ 1) (k i j : ℕ) : tripleAbs f k i j = gP k (min i j) (max i j) := by
  rw [tripleAbs, if_neg hf, gP, gE, gaussMean]
  congr 1
  funext x
  rw [eval_mul, eval_mul, hp_eval, hpp_eval, hp_eval, gw]

end Hermipy
