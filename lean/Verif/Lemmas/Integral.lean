import Verif.Spec.Equations

/-! # Integrals of derivatives -/

namespace Hermipy
open Hermipy.Spec MeasureTheory
open scoped ContDiff

namespace Spec.Compact
variable {n : ℕ} {f g : Smooth n}

theorem add (hf : Compact f) (hg : Compact g) : Compact (f + g) := ⟨HasCompactSupport.add hf.1 hg.1⟩
theorem neg (hf : Compact f) : Compact (-f) := ⟨HasCompactSupport.neg hf.1⟩
theorem sub (hf : Compact f) (hg : Compact g) : Compact (f - g) := by rw [sub_eq_add_neg]; exact hf.add hg.neg
theorem mul_left (hf : Compact f) : Compact (g * f) := ⟨HasCompactSupport.mul_left hf.1⟩
theorem mul_right (hf : Compact f) : Compact (f * g) := ⟨HasCompactSupport.mul_right hf.1⟩
theorem zero : Compact (0 : Smooth n) := ⟨HasCompactSupport.zero⟩

theorem D {dirs : List ℕ} {d : ℕ} {f : Smooth dirs.length} (hf : Compact f) : Compact (Smooth.D dirs d f) := by
  rw [Smooth.D]
  split
  · exact ⟨HasCompactSupport.fderiv_apply ℝ hf.1 _⟩
  · exact zero

theorem integrable (hf : Compact f) : Integrable (f : (Fin n → ℝ) → ℝ) := (Smooth.smooth f).continuous.integrable_of_hasCompactSupport hf.1

end Spec.Compact

variable {n : ℕ}

theorem integral_add {f g : Smooth n} (hf : Compact f) (hg : Compact g) : Spec.integral (f + g) = Spec.integral f + Spec.integral g :=
  MeasureTheory.integral_add hf.integrable hg.integrable

theorem integral_sub {f g : Smooth n} (hf : Compact f) (hg : Compact g) : Spec.integral (f - g) = Spec.integral f - Spec.integral g :=
  MeasureTheory.integral_sub hf.integrable hg.integrable

theorem integral_D {dirs : List ℕ} {d : ℕ} {f : Smooth dirs.length} (hf : Compact f) : Spec.integral (Smooth.D dirs d f) = 0 := by
  have hc : Compact (Smooth.D dirs d f) := hf.D
  rw [Smooth.D] at hc ⊢
  split at hc
  · rename_i h
    rw [dif_pos h]
    have e := integral_mul_fderiv_eq_neg_fderiv_mul_of_integrable (μ := volume) (f := fun _ : Fin dirs.length → ℝ => (1 : ℝ))
      (g := (f : (Fin dirs.length → ℝ) → ℝ)) (v := Pi.single ⟨dirs.idxOf d, h⟩ 1) (by simp)
      (by simp only [one_mul]; exact hc.integrable) (by simpa using hf.integrable) (by simp) (fun x _ => (Smooth.smooth f).differentiable (by simp) x)
    simp only [one_mul, fderiv_fun_const, Pi.zero_apply, zero_apply, zero_mul, MeasureTheory.integral_zero, neg_zero] at e
    exact e
  · rename_i h
    rw [dif_neg h]
    exact MeasureTheory.integral_zero _ _

end Hermipy
