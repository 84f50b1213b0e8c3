import Verif.Spec.LinearDrift
import Verif.Lemmas.Gaussian

/-! # Gaussians under operators with linear drift -/

namespace Hermipy
open Hermipy.Spec Matrix

variable {n : ℕ}

namespace Smooth

theorem const_add (a b : ℝ) : (const (a + b) : Smooth n) = const a + const b := rfl
theorem const_mul (a b : ℝ) : (const (a * b) : Smooth n) = const a * const b := rfl
theorem const_neg (a : ℝ) : (const (-a) : Smooth n) = -const a := rfl
theorem const_sub (a b : ℝ) : (const (a - b) : Smooth n) = const a - const b := rfl
theorem const_zero : (const 0 : Smooth n) = 0 := rfl
theorem const_one : (const 1 : Smooth n) = 1 := rfl
theorem const_pow (a : ℝ) (k : ℕ) : (const (a ^ k) : Smooth n) = const a ^ k := rfl

theorem diff_const (i : Fin n) (c : ℝ) : diff i (const c : Smooth n) = 0 := by
  ext x
  change fderiv ℝ (fun _ => c) x _ = 0
  simp

theorem diff_zero (i : Fin n) : diff i (0 : Smooth n) = 0 := diff_const i 0

theorem diff_neg (i : Fin n) (f : Smooth n) : diff i (-f) = -diff i f := by
  have := diff_add i f (-f)
  rw [add_neg_cancel, diff_zero] at this
  exact (neg_eq_of_add_eq_zero_right this.symm).symm

theorem diff_sub (i : Fin n) (f g : Smooth n) : diff i (f - g) = diff i f - diff i g := by
  rw [sub_eq_add_neg, diff_add, diff_neg, ← sub_eq_add_neg]

theorem diff_sum {ι : Type} (i : Fin n) (s : Finset ι) (f : ι → Smooth n) : diff i (∑ k ∈ s, f k) = ∑ k ∈ s, diff i (f k) :=
  map_sum (AddMonoidHom.mk' (diff i) (diff_add i)) f s

theorem diff_coord (i j : Fin n) : diff i (coord j : Smooth n) = const (if i = j then 1 else 0) := by
  ext x
  change fderiv ℝ (fun x : Fin n → ℝ => x j) x (Pi.single i 1) = _
  rw [show fderiv ℝ (fun x : Fin n → ℝ => x j) x = ContinuousLinearMap.proj j from
    (ContinuousLinearMap.proj (R := ℝ) (φ := fun _ : Fin n => ℝ) j).fderiv]
  by_cases h : i = j
  · subst h
    simp [const]
  · simp [const, h, Pi.single_apply, Ne.symm h]

theorem diff_exp (i : Fin n) (f : Smooth n) : diff i (exp f) = diff i f * exp f := by
  ext x
  change fderiv ℝ (fun x => Real.exp ((f : (Fin n → ℝ) → ℝ) x)) x _ = fderiv ℝ (f : (Fin n → ℝ) → ℝ) x _ * Real.exp ((f : (Fin n → ℝ) → ℝ) x)
  rw [fderiv_exp ((smooth f).differentiable (by simp) x), _root_.smul_apply, smul_eq_mul, mul_comm]

end Smooth

open Smooth

/-- `w · x`. -/
noncomputable def lin (w : Fin n → ℝ) : Smooth n := ∑ j, const (w j) * coord j

/-- `x · C x`. -/
noncomputable def quadForm (C : Matrix (Fin n) (Fin n) ℝ) : Smooth n := ∑ i, coord i * lin (C i)

/-- `exp(-x·Cx/2)`. -/
noncomputable def gauss (C : Matrix (Fin n) (Fin n) ℝ) : Smooth n := exp (const (-(1 / 2)) * quadForm C)

theorem sum_val {ι : Type} (s : Finset ι) (f : ι → Smooth n) (x : Fin n → ℝ) :
    ((∑ k ∈ s, f k : Smooth n) : (Fin n → ℝ) → ℝ) x = ∑ k ∈ s, (f k : (Fin n → ℝ) → ℝ) x := by
  rw [AddSubmonoidClass.coe_finsetSum, Finset.sum_apply]

theorem lin_val (w x : Fin n → ℝ) : (lin w : (Fin n → ℝ) → ℝ) x = w ⬝ᵥ x := by
  rw [lin, sum_val]
  rfl

theorem quadForm_val (C : Matrix (Fin n) (Fin n) ℝ) (x : Fin n → ℝ) : (quadForm C : (Fin n → ℝ) → ℝ) x = x ⬝ᵥ C *ᵥ x := by
  rw [quadForm, sum_val]
  refine Finset.sum_congr rfl fun i _ => ?_
  change x i * (lin (C i) : (Fin n → ℝ) → ℝ) x = _
  rw [lin_val]
  rfl

theorem gauss_val (C : Matrix (Fin n) (Fin n) ℝ) (x : Fin n → ℝ) : (gauss C : (Fin n → ℝ) → ℝ) x = Real.exp (-(x ⬝ᵥ C *ᵥ x / 2)) := by
  change Real.exp (-(1 / 2) * (quadForm C : (Fin n → ℝ) → ℝ) x) = _
  rw [quadForm_val]
  congr 1
  ring

theorem diff_lin (i : Fin n) (w : Fin n → ℝ) : diff i (lin w) = const (w i) := by
  rw [lin, diff_sum]
  simp only [diff_mul, diff_const, diff_coord, zero_mul, zero_add]
  rw [Finset.sum_eq_single i]
  · rw [if_pos rfl, const_one, mul_one]
  · intro j _ hj
    rw [if_neg (Ne.symm hj), const_zero, mul_zero]
  · simp

theorem diff_quad {C : Matrix (Fin n) (Fin n) ℝ} (hC : C.IsSymm) (i : Fin n) : diff i (quadForm C) = const 2 * lin (C i) := by
  rw [quadForm, diff_sum]
  simp only [diff_mul, diff_coord, diff_lin]
  rw [Finset.sum_add_distrib]
  have h1 : ∑ k, const (if i = k then 1 else 0) * lin (C k) = lin (C i) := by
    rw [Finset.sum_eq_single i]
    · rw [if_pos rfl, const_one, one_mul]
    · intro j _ hj
      rw [if_neg (Ne.symm hj), const_zero, zero_mul]
    · simp
  have h2 : ∑ k, coord k * const (C k i) = lin (C i) := by
    rw [lin]
    refine Finset.sum_congr rfl fun k _ => ?_
    rw [hC.apply i k, mul_comm]
  rw [h1, h2, show (2 : ℝ) = 1 + 1 by norm_num, const_add, const_one]
  ring

theorem diff_gauss {C : Matrix (Fin n) (Fin n) ℝ} (hC : C.IsSymm) (i : Fin n) : diff i (gauss C) = -lin (C i) * gauss C := by
  have e : (const (-(1 / 2)) : Smooth n) * const 2 = -1 := by
    rw [← const_mul, ← const_one, ← const_neg]
    congr 1
    norm_num
  rw [gauss, diff_exp, diff_mul, diff_const, diff_quad hC]
  linear_combination (lin (C i) * exp (const (-(1 / 2)) * quadForm C)) * e

theorem diff_diff_gauss {C : Matrix (Fin n) (Fin n) ℝ} (hC : C.IsSymm) (i j : Fin n) :
    diff i (diff j (gauss C)) = (lin (C i) * lin (C j) - const (C j i)) * gauss C := by
  rw [diff_gauss hC j, diff_mul, diff_gauss hC i, diff_neg, diff_lin]
  ring

theorem val_second (A C : Matrix (Fin n) (Fin n) ℝ) (hC : C.IsSymm) (x : Fin n → ℝ) :
    ((∑ i, ∑ j, const (A i j) * diff i (diff j (gauss C)) : Smooth n) : (Fin n → ℝ) → ℝ) x =
      ((C *ᵥ x) ⬝ᵥ A *ᵥ (C *ᵥ x) - (A * C).trace) * (gauss C : (Fin n → ℝ) → ℝ) x := by
  simp only [diff_diff_gauss hC]
  rw [sum_val, sub_mul, dotProduct, Finset.sum_mul, Matrix.trace, Finset.sum_mul, ← Finset.sum_sub_distrib]
  refine Finset.sum_congr rfl fun i _ => ?_
  rw [sum_val, show (A *ᵥ C *ᵥ x) i = ∑ j, A i j * (C *ᵥ x) j from rfl, Finset.mul_sum, Finset.sum_mul, diag_apply, Matrix.mul_apply, Finset.sum_mul, ← Finset.sum_sub_distrib]
  refine Finset.sum_congr rfl fun j _ => ?_
  change A i j * (((lin (C i) : (Fin n → ℝ) → ℝ) x * (lin (C j) : (Fin n → ℝ) → ℝ) x - C j i) * (gauss C : (Fin n → ℝ) → ℝ) x) = _
  rw [lin_val, lin_val]
  change A i j * (((C *ᵥ x) i * (C *ᵥ x) j - C j i) * _) = _
  ring

theorem linearForward_gauss (B A C : Matrix (Fin n) (Fin n) ℝ) (g : Fin n → ℝ) (hC : C.IsSymm) (x : Fin n → ℝ) :
    (linearForward B A g (gauss C) : (Fin n → ℝ) → ℝ) x = (B.trace - (A * C).trace + g ⬝ᵥ C *ᵥ x - (B *ᵥ x) ⬝ᵥ (C *ᵥ x) +
      (C *ᵥ x) ⬝ᵥ A *ᵥ (C *ᵥ x)) * (gauss C : (Fin n → ℝ) → ℝ) x := by
  change -((∑ i, diff i ((const (g i) - lin (B i)) * gauss C) : Smooth n) : (Fin n → ℝ) → ℝ) x + _ = _
  rw [val_second A C hC]
  have e : ((∑ i, diff i ((const (g i) - lin (B i)) * gauss C) : Smooth n) : (Fin n → ℝ) → ℝ) x =
      (-B.trace - g ⬝ᵥ C *ᵥ x + (B *ᵥ x) ⬝ᵥ (C *ᵥ x)) * (gauss C : (Fin n → ℝ) → ℝ) x := by
    rw [sum_val, Matrix.trace, dotProduct, dotProduct, ← Finset.sum_neg_distrib, ← Finset.sum_sub_distrib, ← Finset.sum_add_distrib, Finset.sum_mul]
    refine Finset.sum_congr rfl fun i _ => ?_
    rw [diff_mul, diff_sub, diff_const, diff_lin, diff_gauss hC]
    change (0 - B i i) * (gauss C : (Fin n → ℝ) → ℝ) x + (g i - (lin (B i) : (Fin n → ℝ) → ℝ) x) *
      (-(lin (C i) : (Fin n → ℝ) → ℝ) x * (gauss C : (Fin n → ℝ) → ℝ) x) = _
    rw [lin_val, lin_val, diag_apply]
    change (0 - B i i) * (gauss C : (Fin n → ℝ) → ℝ) x + (g i - (B *ᵥ x) i) * (-(C *ᵥ x) i * (gauss C : (Fin n → ℝ) → ℝ) x) = _
    ring
  rw [e]
  ring

theorem linearBackward_gauss (B A C : Matrix (Fin n) (Fin n) ℝ) (hC : C.IsSymm) (x : Fin n → ℝ) :
    (linearBackward B A (gauss C) : (Fin n → ℝ) → ℝ) x = ((B *ᵥ x) ⬝ᵥ (C *ᵥ x) - (A * C).trace + (C *ᵥ x) ⬝ᵥ A *ᵥ (C *ᵥ x)) *
      (gauss C : (Fin n → ℝ) → ℝ) x := by
  change -((∑ i, lin (B i) * diff i (gauss C) : Smooth n) : (Fin n → ℝ) → ℝ) x + _ = _
  rw [val_second A C hC]
  have e : ((∑ i, lin (B i) * diff i (gauss C) : Smooth n) : (Fin n → ℝ) → ℝ) x =
      -((B *ᵥ x) ⬝ᵥ (C *ᵥ x)) * (gauss C : (Fin n → ℝ) → ℝ) x := by
    rw [sum_val, dotProduct, ← Finset.sum_neg_distrib, Finset.sum_mul]
    refine Finset.sum_congr rfl fun i _ => ?_
    rw [diff_gauss hC]
    change (lin (B i) : (Fin n → ℝ) → ℝ) x * (-(lin (C i) : (Fin n → ℝ) → ℝ) x * (gauss C : (Fin n → ℝ) → ℝ) x) = _
    rw [lin_val, lin_val]
    change (B *ᵥ x) i * (-(C *ᵥ x) i * (gauss C : (Fin n → ℝ) → ℝ) x) = _
    ring
  rw [e]
  ring

theorem gauss_ne (C : Matrix (Fin n) (Fin n) ℝ) (x : Fin n → ℝ) : (gauss C : (Fin n → ℝ) → ℝ) x ≠ 0 := by
  rw [gauss_val]
  exact (Real.exp_pos _).ne'

/-- A quadratic form which vanishes everywhere is antisymmetric. -/
theorem form_zero {M : Matrix (Fin n) (Fin n) ℝ} (h : ∀ x, x ⬝ᵥ M *ᵥ x = 0) : M + Mᵀ = 0 := by
  ext i j
  have h1 := h (Pi.single i 1 + Pi.single j 1)
  have h2 := h (Pi.single i 1)
  have h3 := h (Pi.single j 1)
  simp only [mulVec_add, add_dotProduct, dotProduct_add, h2, h3] at h1
  simp only [mulVec_single_one, single_dotProduct, one_mul, col_apply] at h1
  rw [Matrix.add_apply, transpose_apply, Matrix.zero_apply]
  linarith

/-- A polynomial of degree two which vanishes everywhere. -/
theorem poly_zero {c : ℝ} {w : Fin n → ℝ} {M : Matrix (Fin n) (Fin n) ℝ} (h : ∀ x, c + w ⬝ᵥ x + x ⬝ᵥ M *ᵥ x = 0) :
    c = 0 ∧ w = 0 ∧ M + Mᵀ = 0 := by
  have c0 : c = 0 := by simpa using h 0
  have w0 : ∀ x, w ⬝ᵥ x = 0 := by
    intro x
    have a := h x
    have b := h (-x)
    simp only [mulVec_neg, neg_dotProduct, dotProduct_neg] at b
    linarith
  refine ⟨c0, ?_, form_zero fun x => ?_⟩
  · funext i
    have := w0 (Pi.single i 1)
    simpa using this
  · have := h x
    rw [c0, w0] at this
    linarith

/-- A Gaussian in the kernel of the forward operator. -/
theorem forward_iff {B A C : Matrix (Fin n) (Fin n) ℝ} {g : Fin n → ℝ} (hA : A.IsSymm) (hC : C.IsSymm) :
    linearForward B A g (gauss C) = 0 ↔ Stationary B A C ∧ C *ᵥ g = 0 := by
  have e1 : ∀ x, g ⬝ᵥ C *ᵥ x = (C *ᵥ g) ⬝ᵥ x := fun x => by rw [dotProduct_mulVec, ← mulVec_transpose, hC.eq]
  have e2 : ∀ x, (B *ᵥ x) ⬝ᵥ (C *ᵥ x) = x ⬝ᵥ (Bᵀ * C) *ᵥ x := fun x => by
    rw [← mulVec_mulVec, dotProduct_mulVec x Bᵀ, vecMul_transpose]
  have e3 : ∀ x, (C *ᵥ x) ⬝ᵥ A *ᵥ (C *ᵥ x) = x ⬝ᵥ (C * A * C) *ᵥ x := fun x => by
    have := form_conj C A x
    rw [hC.eq] at this
    exact this.symm
  have t : (C * A * C - Bᵀ * C)ᵀ = C * A * C - C * B := by
    rw [transpose_sub, transpose_mul, transpose_mul, transpose_mul, transpose_transpose, hC.eq, hA.eq, Matrix.mul_assoc]
  have key : ∀ x, (linearForward B A g (gauss C) : (Fin n → ℝ) → ℝ) x = ((B.trace - (A * C).trace) + (C *ᵥ g) ⬝ᵥ x +
      x ⬝ᵥ (C * A * C - Bᵀ * C) *ᵥ x) * (gauss C : (Fin n → ℝ) → ℝ) x := by
    intro x
    rw [linearForward_gauss B A C g hC, e1, e2, e3, sub_mulVec, dotProduct_sub]
    ring
  constructor
  · intro h
    have h0 : ∀ x, (B.trace - (A * C).trace) + (C *ᵥ g) ⬝ᵥ x + x ⬝ᵥ (C * A * C - Bᵀ * C) *ᵥ x = 0 := by
      intro x
      have := key x
      rw [h] at this
      exact (mul_eq_zero.1 this.symm).resolve_right (gauss_ne C x)
    obtain ⟨a, b, c⟩ := poly_zero h0
    refine ⟨⟨by linarith, ?_⟩, b⟩
    rw [t] at c
    rw [← sub_eq_zero, ← c]
    noncomm_ring
  · rintro ⟨⟨h1, h2⟩, h3⟩
    ext x
    rw [key x, h1, h3, sub_self, zero_dotProduct]
    have : x ⬝ᵥ (C * A * C - Bᵀ * C) *ᵥ x = 0 := by
      have s : x ⬝ᵥ (C * A * C - Bᵀ * C)ᵀ *ᵥ x = x ⬝ᵥ (C * A * C - Bᵀ * C) *ᵥ x := by
        rw [mulVec_transpose, dotProduct_mulVec, dotProduct_comm]
      have z : x ⬝ᵥ ((C * A * C - Bᵀ * C) + (C * A * C - Bᵀ * C)ᵀ) *ᵥ x = 0 := by
        have : (C * A * C - Bᵀ * C) + (C * A * C - Bᵀ * C)ᵀ = 0 := by
          rw [t, show C * A * C - Bᵀ * C + (C * A * C - C * B) = (C * A * C + C * A * C) - (C * B + Bᵀ * C) by noncomm_ring, h2, sub_self]
        rw [this, zero_mulVec, dotProduct_zero]
      rw [add_mulVec, dotProduct_add, s] at z
      linarith
    rw [this]
    simp

/-- A Gaussian in the kernel of the generator is constant. -/
theorem backward_gauss_zero {B A C : Matrix (Fin n) (Fin n) ℝ} (hB : Stable B) (hA : A.IsSymm) (hC : C.IsSymm)
    (h : linearBackward B A (gauss C) = 0) : C = 0 := by
  have e2 : ∀ x, (B *ᵥ x) ⬝ᵥ (C *ᵥ x) = x ⬝ᵥ (Bᵀ * C) *ᵥ x := fun x => by
    rw [← mulVec_mulVec, dotProduct_mulVec x Bᵀ, vecMul_transpose]
  have e3 : ∀ x, (C *ᵥ x) ⬝ᵥ A *ᵥ (C *ᵥ x) = x ⬝ᵥ (C * A * C) *ᵥ x := fun x => by
    have := form_conj C A x
    rw [hC.eq] at this
    exact this.symm
  have h0 : ∀ x, -(A * C).trace + (0 : Fin n → ℝ) ⬝ᵥ x + x ⬝ᵥ (C * A * C + Bᵀ * C) *ᵥ x = 0 := by
    intro x
    have k := linearBackward_gauss B A C hC x
    rw [h, e2, e3] at k
    have := (mul_eq_zero.1 k.symm).resolve_right (gauss_ne C x)
    rw [zero_dotProduct, add_mulVec, dotProduct_add]
    linarith
  obtain ⟨a, _, c⟩ := poly_zero h0
  refine backward_zero hB hC (by linarith) ?_
  rw [← c, transpose_add, transpose_mul, transpose_mul, transpose_mul, transpose_transpose, hC.eq, hA.eq]
  noncomm_ring

end Hermipy
