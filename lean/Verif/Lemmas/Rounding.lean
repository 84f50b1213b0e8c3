import Verif.Spec.Rounding
import Mathlib.Tactic.Linarith
import Mathlib.Tactic.Positivity
import Mathlib.Tactic.Ring
import Mathlib.Tactic.GCongr
import Mathlib.Algebra.Order.BigOperators.Ring.Finset

/-! # Propagation of rounding errors -/

namespace Hermipy

open Spec

/-- The computed number `c` stands for `x` after `k` operations, where `M` is the sum of the absolute values of the terms of `x`. -/
structure Approx (u : ℝ) (k : ℕ) (c x M : ℝ) : Prop where
  le : |x| ≤ M
  err : |c - x| ≤ Spec.err u k * M

variable {u : ℝ} {k k' : ℕ} {c c' x x' M M' p y d : ℝ}

theorem Approx.nonneg (h : Approx u k c x M) : 0 ≤ M := (abs_nonneg _).trans h.le

theorem err_mono (hu : 0 ≤ u) (h : k ≤ k') : err u k ≤ err u k' := by
  have := pow_le_pow_right₀ (show 1 ≤ 1 + u by linarith) h
  simp only [err]; linarith

theorem err_nonneg (hu : 0 ≤ u) (k : ℕ) : 0 ≤ err u k := by
  have := one_le_pow₀ (show 1 ≤ 1 + u by linarith) (n := k)
  simp only [err]; linarith

theorem Approx.mono (hu : 0 ≤ u) (h : Approx u k c x M) (hk : k ≤ k') : Approx u k' c x M :=
  ⟨h.le, h.err.trans (mul_le_mul_of_nonneg_right (err_mono hu hk) h.nonneg)⟩

theorem Approx.exact (hu : 0 ≤ u) (k : ℕ) (x : ℝ) : Approx u k x x |x| :=
  ⟨le_rfl, by rw [sub_self, abs_zero]; exact mul_nonneg (err_nonneg hu k) (abs_nonneg x)⟩

theorem Approx.abs_le (h : Approx u k c x M) : |c| ≤ (1 + u) ^ k * M := by
  have h1 := h.err
  have h2 := h.le
  have h3 := abs_sub_abs_le_abs_sub c x
  simp only [Spec.err] at h1
  linarith

theorem Approx.mul (hu : 0 ≤ u) (h : Approx u k c x M) (h' : Approx u k' c' x' M') (hp : |p - c * c'| ≤ u * |c * c'|) :
    Approx u (k + k' + 1) p (x * x') (M * M') := by
  have ha := h.abs_le
  have ha' := h'.abs_le
  have e := h.err
  have e' := h'.err
  have hM := h.nonneg
  have hM' := h'.nonneg
  refine ⟨by rw [abs_mul]; exact mul_le_mul h.le h'.le (abs_nonneg _) hM, ?_⟩
  have hcc : |c * c'| ≤ (1 + u) ^ k * M * ((1 + u) ^ k' * M') := by
    rw [abs_mul]
    exact mul_le_mul ha ha' (abs_nonneg _) (by positivity)
  have h1 : |c * c' - x * x'| ≤ (1 + u) ^ k * M * (Spec.err u k' * M') + Spec.err u k * M * M' := by
    calc |c * c' - x * x'| = |c * (c' - x') + (c - x) * x'| := by ring_nf
      _ ≤ |c * (c' - x')| + |(c - x) * x'| := abs_add_le _ _
      _ = |c| * |c' - x'| + |c - x| * |x'| := by rw [abs_mul, abs_mul]
      _ ≤ _ := by
        refine add_le_add (mul_le_mul ha e' (abs_nonneg _) (by positivity)) ?_
        exact mul_le_mul e h'.le (abs_nonneg _) (mul_nonneg (err_nonneg hu k) hM)
  calc |p - x * x'| = |(p - c * c') + (c * c' - x * x')| := by ring_nf
    _ ≤ |p - c * c'| + |c * c' - x * x'| := abs_add_le _ _
    _ ≤ u * ((1 + u) ^ k * M * ((1 + u) ^ k' * M')) + ((1 + u) ^ k * M * (Spec.err u k' * M') + Spec.err u k * M * M') :=
      add_le_add (hp.trans (mul_le_mul_of_nonneg_left hcc hu)) h1
    _ = Spec.err u (k + k' + 1) * (M * M') := by
      simp only [Spec.err, pow_add, pow_one]; ring

theorem Approx.add (hu : 0 ≤ u) (h : Approx u k c x M) (h' : Approx u k c' x' M') (hp : |p - (c + c')| ≤ u * |c + c'|) :
    Approx u (k + 1) p (x + x') (M + M') := by
  refine ⟨(abs_add_le _ _).trans (add_le_add h.le h'.le), ?_⟩
  have ha := h.abs_le
  have ha' := h'.abs_le
  have e := h.err
  have e' := h'.err
  have hcc : |c + c'| ≤ (1 + u) ^ k * M + (1 + u) ^ k * M' := (abs_add_le _ _).trans (add_le_add ha ha')
  calc |p - (x + x')| = |(p - (c + c')) + ((c - x) + (c' - x'))| := by ring_nf
    _ ≤ |p - (c + c')| + (|c - x| + |c' - x'|) := (abs_add_le _ _).trans (by gcongr; exact abs_add_le _ _)
    _ ≤ u * ((1 + u) ^ k * M + (1 + u) ^ k * M') + (Spec.err u k * M + Spec.err u k * M') :=
      add_le_add (hp.trans (mul_le_mul_of_nonneg_left hcc hu)) (add_le_add e e')
    _ = Spec.err u (k + 1) * (M + M') := by
      simp only [Spec.err, pow_add, pow_one]; ring

theorem Approx.neg (h : Approx u k c x M) : Approx u k (-c) (-x) M :=
  ⟨by rw [abs_neg]; exact h.le, by rw [← neg_sub', abs_neg]; exact h.err⟩

theorem Approx.sub (hu : 0 ≤ u) (h : Approx u k c x M) (h' : Approx u k c' x' M') (hp : |p - (c - c')| ≤ u * |c - c'|) :
    Approx u (k + 1) p (x - x') (M + M') := by
  have := h.add hu h'.neg (p := p) (by rwa [← sub_eq_add_neg])
  rwa [← sub_eq_add_neg] at this

/-- The computed number `c` stands for the positive number `x` with a relative error. -/
structure Rel (u : ℝ) (k : ℕ) (c x : ℝ) : Prop where
  pos : 0 < x
  pos' : 0 < c
  lower : x ≤ c * (1 + u) ^ k
  upper : c ≤ x * (1 + u) ^ k

theorem Rel.refl (hx : 0 < x) : Rel u 0 x x := ⟨hx, hx, by simp, by simp⟩

/-- A positive number and its rounded value. -/
theorem Rel.round (hu : 0 ≤ u) (hu' : u ≤ 1 / 2) (h : Rel u k c x) (hp : |p - c| ≤ u * c) : Rel u (k + 2) p x := by
  have hc := h.pos'
  obtain ⟨h1, h2⟩ := abs_le.1 hp
  have hpos : 0 < p := by nlinarith
  have hk : 0 ≤ (1 + u) ^ k := by positivity
  refine ⟨h.pos, hpos, ?_, ?_⟩
  · refine h.lower.trans ?_
    have h3 : c ≤ p * (1 + u) ^ 2 := by
      have h4 : (1 - u) * c ≤ p := by linarith
      have h5 : 1 ≤ (1 - u) * (1 + u) ^ 2 := by nlinarith [mul_nonneg hu hu]
      nlinarith [mul_le_mul_of_nonneg_right h4 (sq_nonneg (1 + u))]
    calc c * (1 + u) ^ k ≤ p * (1 + u) ^ 2 * (1 + u) ^ k := mul_le_mul_of_nonneg_right h3 hk
      _ = p * (1 + u) ^ (k + 2) := by ring
  · have h3 : p ≤ (1 + u) ^ 2 * c := by nlinarith [mul_nonneg hu hc.le, mul_nonneg (mul_nonneg hu hu) hc.le]
    calc p ≤ (1 + u) ^ 2 * c := h3
      _ ≤ (1 + u) ^ 2 * (x * (1 + u) ^ k) := mul_le_mul_of_nonneg_left h.upper (by positivity)
      _ = x * (1 + u) ^ (k + 2) := by ring

theorem Rel.inv (hu : 0 ≤ u) (h : Rel u k c x) : Rel u k c⁻¹ x⁻¹ := by
  have hx := h.pos
  have hc := h.pos'
  have hk : 0 < (1 + u) ^ k := by positivity
  refine ⟨inv_pos.2 hx, inv_pos.2 hc, ?_, ?_⟩
  · rw [inv_mul_eq_div, le_div_iff₀ hc, inv_mul_eq_div, div_le_iff₀ hx]
    linarith [h.upper]
  · rw [inv_mul_eq_div, le_div_iff₀ hx, inv_mul_eq_div, div_le_iff₀ hc]
    linarith [h.lower]

theorem Rel.mul (hu : 0 ≤ u) (h : Rel u k c x) (h' : Rel u k' c' x') : Rel u (k + k') (c * c') (x * x') := by
  have hx := h.pos
  have hc := h.pos'
  have hx' := h'.pos
  have hc' := h'.pos'
  refine ⟨mul_pos hx hx', mul_pos hc hc', ?_, ?_⟩
  · calc x * x' ≤ (c * (1 + u) ^ k) * (c' * (1 + u) ^ k') := mul_le_mul h.lower h'.lower hx'.le (by positivity)
      _ = _ := by rw [pow_add]; ring
  · calc c * c' ≤ (x * (1 + u) ^ k) * (x' * (1 + u) ^ k') := mul_le_mul h.upper h'.upper hc'.le (by positivity)
      _ = _ := by rw [pow_add]; ring

theorem Rel.sqrt (hu : 0 ≤ u) (h : Rel u (2 * k) c x) : Rel u k √c √x := by
  have hp : √((1 + u) ^ (2 * k)) = (1 + u) ^ k := by
    rw [mul_comm, pow_mul, Real.sqrt_sq (by positivity)]
  refine ⟨Real.sqrt_pos.2 h.pos, Real.sqrt_pos.2 h.pos', ?_, ?_⟩
  · rw [← hp, ← Real.sqrt_mul h.pos'.le]
    exact Real.sqrt_le_sqrt h.lower
  · rw [← hp, ← Real.sqrt_mul h.pos.le]
    exact Real.sqrt_le_sqrt h.upper

theorem Rel.approx (hu : 0 ≤ u) (h : Rel u k c x) : Approx u k c x x := by
  have hx := h.pos
  refine ⟨(abs_of_pos hx).le, abs_le.2 ⟨?_, ?_⟩⟩
  · have h1 := h.lower
    have h2 : 1 ≤ (1 + u) ^ k := one_le_pow₀ (by linarith)
    have h3 : x - c ≤ ((1 + u) ^ k - 1) * c := by linarith
    by_cases hc : c ≤ x
    · have := mul_le_mul_of_nonneg_left hc (show 0 ≤ (1 + u) ^ k - 1 by linarith)
      simp only [err]; linarith
    · have : 0 ≤ err u k * x := mul_nonneg (err_nonneg hu k) hx.le
      linarith
  · have := h.upper
    simp only [err]; linarith

theorem Approx.div (hu : 0 ≤ u) (h : Approx u k c x M) (h' : Rel u k' d y) (hp : |p - c / d| ≤ u * |c / d|) :
    Approx u (k + k' + 1) p (x / y) (M / y) := by
  rw [div_eq_mul_inv] at hp
  rw [div_eq_mul_inv, div_eq_mul_inv]
  exact h.mul hu ((h'.inv hu).approx hu) hp

end Hermipy
