import Verif.Model.Rounded
import Verif.Spec.Rounding

/-! # The loops over the real numbers -/

namespace Hermipy

open Spec

/-- The operations of the real numbers. -/
@[reducible] noncomputable def realFloats : Floats ℝ where
  ofNat n := n
  sqrt := Real.sqrt
  sin := Real.sin
  cos := Real.cos
  pi := Real.pi

theorem real_ofNat (n : ℕ) : @Floats.ofNat ℝ realFloats n = n := rfl
theorem real_sqrt (x : ℝ) : @Floats.sqrt ℝ realFloats x = √x := rfl
theorem real_sin (x : ℝ) : @Floats.sin ℝ realFloats x = Real.sin x := rfl
theorem real_cos (x : ℝ) : @Floats.cos ℝ realFloats x = Real.cos x := rfl
theorem real_pi : @Floats.pi ℝ realFloats = Real.pi := rfl

theorem realFloats_accurate : @Accurate ℝ realFloats id 0 := by
  letI := realFloats
  constructor <;> intros <;> simp [real_ofNat, real_sqrt, real_sin, real_cos, real_pi, this] <;> norm_num

theorem recA_real (i : ℕ) : @recA ℝ realFloats i = REC_A i := by
  change 1 / √((i + 1 : ℕ) : ℝ) = _
  rw [REC_A, Nat.cast_succ]

theorem recB_real (i : ℕ) : @recB ℝ realFloats i = REC_B i := by
  change √(i : ℝ) / √((i + 1 : ℕ) : ℝ) = _
  rw [REC_B, Nat.cast_succ]

theorem hermite_evalF_real : @hermite_evalF ℝ realFloats = hermite_eval := by
  funext slack x degree values
  unfold hermite_evalF hermite_eval
  simp only [recA_real, recB_real]

theorem basisRowF_real : @basisRowF ℝ realFloats = basisRow := by
  funext slack degree fourier x
  unfold basisRowF basisRow
  rw [hermite_evalF_real]
  simp only [real_ofNat, real_sqrt, real_sin, real_cos, real_pi, Nat.cast_ofNat]

theorem basisMatF_real (slack degree fourier : ℕ) : ∀ l, @basisMatF ℝ realFloats slack degree fourier l = basisMat slack degree fourier l
  | [] => rfl
  | x :: xs => by
    rw [@basisMatF.eq_def ℝ realFloats, basisMat.eq_def]
    simp only [basisRowF_real, basisMatF_real slack degree fourier xs]

theorem basisCubeF_real (slack degree : ℕ) : ∀ l f, @basisCubeF ℝ realFloats slack degree l f = basisCube slack degree l f
  | [], _ => rfl
  | [] :: ns, [] => by
    rw [@basisCubeF.eq_def ℝ realFloats, basisCube.eq_def]
    simp only [basisCubeF_real slack degree ns]
  | (_ :: _) :: _, [] => rfl
  | [] :: ns, f :: fs => by
    rw [@basisCubeF.eq_def ℝ realFloats, basisCube.eq_def]
    simp only [basisMatF_real, basisCubeF_real slack degree ns]
  | (_ :: _) :: ns, f :: fs => by
    rw [@basisCubeF.eq_def ℝ realFloats, basisCube.eq_def]
    simp only [basisMatF_real, basisCubeF_real slack degree ns]

theorem transformF_real : @transformF ℝ realFloats = transform := by
  funext slack s degree input nodes weights fourier forward
  unfold transformF transform
  simp only [basisCubeF_real]
  rfl

theorem integrateF_real : @integrateF ℝ realFloats = integrate := by
  funext slack f nodes weights fourier
  unfold integrateF integrate
  rw [transformF_real]
  simp only [real_ofNat, real_sqrt, real_pi, Nat.cast_ofNat]

end Hermipy
