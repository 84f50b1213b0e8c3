import Verif.Spec.Gaussian
import Mathlib.Analysis.Matrix.Spectrum
import Mathlib.MeasureTheory.Measure.Lebesgue.Basic
import Mathlib.MeasureTheory.Integral.Pi
import Mathlib.Analysis.SpecialFunctions.Gaussian.GaussianIntegral
import Mathlib.Tactic.LinearCombination
import Mathlib.Tactic.NoncommRing

/-! # Gaussian densities and linear drift -/

namespace Hermipy
open Hermipy.Spec Matrix MeasureTheory

variable {n : ℕ}

theorem symm_diag {A : Matrix (Fin n) (Fin n) ℝ} (h : A.IsSymm) : ∃ (U : Matrix (Fin n) (Fin n) ℝ) (l : Fin n → ℝ),
    Uᵀ * U = 1 ∧ U * Uᵀ = 1 ∧ Uᵀ * A * U = diagonal l := by
  have hA : A.IsHermitian := by
    unfold Matrix.IsHermitian
    rw [conjTranspose_eq_transpose_of_trivial]
    exact h
  have hs : star (hA.eigenvectorUnitary : Matrix (Fin n) (Fin n) ℝ) = (hA.eigenvectorUnitary : Matrix (Fin n) (Fin n) ℝ)ᵀ := by
    rw [star_eq_conjTranspose, conjTranspose_eq_transpose_of_trivial]
  refine ⟨hA.eigenvectorUnitary, hA.eigenvalues, ?_, ?_, ?_⟩
  · rw [← hs]; exact Unitary.coe_star_mul_self _
  · rw [← hs]; exact Unitary.coe_mul_star_self _
  · have := hA.conjStarAlgAut_star_eigenvectorUnitary
    rw [Unitary.conjStarAlgAut_star_apply] at this
    rw [← hs]
    exact this

/-- The diagonal entries of `UᵀMU`. -/
theorem conj_diag (U M : Matrix (Fin n) (Fin n) ℝ) (i : Fin n) :
    (Uᵀ * M * U) i i = (fun k => U k i) ⬝ᵥ M *ᵥ (fun k => U k i) := by
  rw [Matrix.mul_assoc, Matrix.mul_apply]
  rfl

theorem col_ne_zero {U : Matrix (Fin n) (Fin n) ℝ} (h : Uᵀ * U = 1) (i : Fin n) : (fun k => U k i) ≠ 0 := by
  intro h0
  have : (Uᵀ * U) i i = 0 := by
    rw [Matrix.mul_apply]
    exact Finset.sum_eq_zero fun k _ => by
      have : U k i = 0 := congrFun h0 k
      rw [this, mul_zero]
  rw [h, one_apply_eq] at this
  exact one_ne_zero this

theorem form_conj (U M : Matrix (Fin n) (Fin n) ℝ) (x : Fin n → ℝ) : x ⬝ᵥ (Uᵀ * M * U) *ᵥ x = (U *ᵥ x) ⬝ᵥ M *ᵥ (U *ᵥ x) := by
  rw [← mulVec_mulVec, ← mulVec_mulVec, dotProduct_mulVec, vecMul_transpose]

theorem mulVec_ne {U V : Matrix (Fin n) (Fin n) ℝ} (h : V * U = 1) {x : Fin n → ℝ} (hx : x ≠ 0) : U *ᵥ x ≠ 0 := by
  intro h0
  apply hx
  have : V *ᵥ (U *ᵥ x) = x := by rw [mulVec_mulVec, h, one_mulVec]
  rw [← this, h0, mulVec_zero]

/-- A symmetric matrix whose diagonal form has positive entries is positive definite. -/
theorem posDefinite_of_diag {A U : Matrix (Fin n) (Fin n) ℝ} {l : Fin n → ℝ} (hA : A.IsSymm) (h1 : U * Uᵀ = 1) (hd : Uᵀ * A * U = diagonal l)
    (hl : ∀ i, 0 < l i) : PosDefinite A := by
  refine ⟨hA, fun x hx => ?_⟩
  have hy : Uᵀ *ᵥ x ≠ 0 := mulVec_ne h1 hx
  have e : x ⬝ᵥ A *ᵥ x = (Uᵀ *ᵥ x) ⬝ᵥ (diagonal l) *ᵥ (Uᵀ *ᵥ x) := by
    rw [← hd, form_conj, mulVec_mulVec, h1, one_mulVec]
  rw [e]
  simp only [dotProduct, mulVec_diagonal]
  obtain ⟨i, hi⟩ := Function.ne_iff.1 hy
  refine Finset.sum_pos' (fun j _ => ?_) ⟨i, Finset.mem_univ i, ?_⟩
  · have := mul_nonneg (hl j).le (mul_self_nonneg ((Uᵀ *ᵥ x) j))
    linarith
  · have := mul_pos (hl i) (mul_self_pos.2 hi)
    linarith

theorem posDefinite_factor {A : Matrix (Fin n) (Fin n) ℝ} (h : PosDefinite A) : ∃ R S : Matrix (Fin n) (Fin n) ℝ,
    R * S = 1 ∧ S * R = 1 ∧ A = Rᵀ * R := by
  obtain ⟨U, l, h1, h2, h3⟩ := symm_diag h.symm
  have hl : ∀ i, 0 < l i := by
    intro i
    have e := congrFun (congrFun h3 i) i
    rw [conj_diag, diagonal_apply_eq] at e
    rw [← e]
    exact h.pos _ (col_ne_zero h1 i)
  have hs : ∀ i, 0 < √(l i) := fun i => Real.sqrt_pos.2 (hl i)
  have d1 : diagonal (fun i => √(l i)) * diagonal (fun i => (√(l i))⁻¹) = (1 : Matrix (Fin n) (Fin n) ℝ) := by
    rw [diagonal_mul_diagonal, ← diagonal_one]
    congr 1
    funext i
    exact mul_inv_cancel₀ (hs i).ne'
  have d2 : diagonal (fun i => (√(l i))⁻¹) * diagonal (fun i => √(l i)) = (1 : Matrix (Fin n) (Fin n) ℝ) := by
    rw [diagonal_mul_diagonal, ← diagonal_one]
    congr 1
    funext i
    exact inv_mul_cancel₀ (hs i).ne'
  have d3 : diagonal (fun i => √(l i)) * diagonal (fun i => √(l i)) = diagonal l := by
    rw [diagonal_mul_diagonal]
    congr 1
    funext i
    exact Real.mul_self_sqrt (hl i).le
  refine ⟨diagonal (fun i => √(l i)) * Uᵀ, U * diagonal (fun i => (√(l i))⁻¹), ?_, ?_, ?_⟩
  · rw [Matrix.mul_assoc, ← Matrix.mul_assoc Uᵀ, h1, Matrix.one_mul, d1]
  · rw [Matrix.mul_assoc, ← Matrix.mul_assoc (diagonal _) (diagonal _), d2, Matrix.one_mul, h2]
  · rw [transpose_mul, transpose_transpose, diagonal_transpose, Matrix.mul_assoc, ← Matrix.mul_assoc (diagonal _) (diagonal _), d3, ← h3]
    have : U * (Uᵀ * A * U * Uᵀ) = (U * Uᵀ) * A * (U * Uᵀ) := by noncomm_ring
    rw [this, h2, Matrix.one_mul, Matrix.mul_one]

/-- With a coercive drift, stationary forms are positive definite. -/
theorem stationary_coercive {B A C : Matrix (Fin n) (Fin n) ℝ} (hB : ∀ x, x ≠ 0 → 0 < x ⬝ᵥ B *ᵥ x) (hA : ∀ x, 0 ≤ x ⬝ᵥ A *ᵥ x)
    (hC : C.IsSymm) (h : Stationary B A C) : PosDefinite C := by
  obtain ⟨U, l, h1, h2, h3⟩ := symm_diag hC
  have hb : ∀ i, 0 < (Uᵀ * B * U) i i := fun i => by rw [conj_diag]; exact hB _ (col_ne_zero h1 i)
  have ha : ∀ i, 0 ≤ (Uᵀ * A * U) i i := fun i => by rw [conj_diag]; exact hA _
  have cq : ∀ M N : Matrix (Fin n) (Fin n) ℝ, Uᵀ * (M * N) * U = (Uᵀ * M * U) * (Uᵀ * N * U) := by
    intro M N
    have : (Uᵀ * M * U) * (Uᵀ * N * U) = Uᵀ * M * (U * Uᵀ) * N * U := by noncomm_ring
    rw [this, h2]
    noncomm_ring
  have q := congrArg (fun M => Uᵀ * M * U) h.quadratic
  simp only [Matrix.mul_add, Matrix.add_mul, cq, h3] at q
  have qi : ∀ i, 2 * (l i * ((Uᵀ * A * U) i i * l i)) = 2 * (l i * (Uᵀ * B * U) i i) := by
    intro i
    have e := congrFun (congrFun q i) i
    have t : (Uᵀ * Bᵀ * U) i i = (Uᵀ * B * U) i i := by
      have : Uᵀ * Bᵀ * U = (Uᵀ * B * U)ᵀ := by
        rw [transpose_mul, transpose_mul, transpose_transpose, Matrix.mul_assoc]
      rw [this, transpose_apply]
    simp only [Matrix.add_apply, diagonal_mul, mul_diagonal, t] at e
    linarith
  have tr : ∑ i, (Uᵀ * A * U) i i * l i = ∑ i, (Uᵀ * B * U) i i := by
    have ct : ∀ M : Matrix (Fin n) (Fin n) ℝ, (Uᵀ * M * U).trace = M.trace := by
      intro M
      rw [trace_mul_comm, ← Matrix.mul_assoc, h2, Matrix.one_mul]
    have e : (Uᵀ * (A * C) * U).trace = (Uᵀ * B * U).trace := by rw [ct, ct, h.trace]
    rw [cq, h3] at e
    simpa [Matrix.trace, mul_diagonal] using e
  have hz : ∀ i, l i ≠ 0 → (Uᵀ * A * U) i i * l i = (Uᵀ * B * U) i i := by
    intro i hi
    have := qi i
    exact mul_left_cancel₀ hi (by linarith)
  have hn : ∀ i, l i ≠ 0 := by
    intro i hi
    have lt : ∑ i, (Uᵀ * A * U) i i * l i < ∑ i, (Uᵀ * B * U) i i := by
      refine Finset.sum_lt_sum (fun j _ => ?_) ⟨i, Finset.mem_univ i, ?_⟩
      · by_cases hj : l j = 0
        · rw [hj, mul_zero]; exact (hb j).le
        · exact (hz j hj).le
      · rw [hi, mul_zero]; exact hb i
    linarith
  refine posDefinite_of_diag hC h2 h3 fun i => ?_
  have e := hz i (hn i)
  by_contra hc
  have : (Uᵀ * A * U) i i * l i ≤ 0 := mul_nonpos_of_nonneg_of_nonpos (ha i) (not_lt.1 hc)
  have := hb i
  linarith

/-- The coercive drift in the coordinates of a Lyapunov function. -/
theorem stable_coercive {B P R S : Matrix (Fin n) (Fin n) ℝ} (hPB : ∀ x, x ≠ 0 → 0 < x ⬝ᵥ (P * B) *ᵥ x) (h1 : R * S = 1)
    (hP : P = Rᵀ * R) (x : Fin n → ℝ) (hx : x ≠ 0) : 0 < x ⬝ᵥ (R * B * S) *ᵥ x := by
  have hS : S *ᵥ x ≠ 0 := mulVec_ne h1 hx
  have e : (S *ᵥ x) ⬝ᵥ (P * B) *ᵥ (S *ᵥ x) = x ⬝ᵥ (R * B * S) *ᵥ x := by
    rw [← form_conj, hP]
    have : Sᵀ * (Rᵀ * R * B) * S = (R * S)ᵀ * (R * B * S) := by
      rw [transpose_mul]
      noncomm_ring
    rw [this, h1, transpose_one, Matrix.one_mul]
  rw [← e]
  exact hPB _ hS

theorem stationary_posDefinite {B A C : Matrix (Fin n) (Fin n) ℝ} (hB : Stable B) (hA : ∀ x, 0 ≤ x ⬝ᵥ A *ᵥ x)
    (hC : C.IsSymm) (h : Stationary B A C) : PosDefinite C := by
  obtain ⟨P, hP, hPB⟩ := hB
  obtain ⟨R, S, h1, h2, h3⟩ := posDefinite_factor hP
  have t2 : Rᵀ * Sᵀ = 1 := by rw [← transpose_mul, h2, transpose_one]
  have key : PosDefinite (Sᵀ * C * S) := by
    refine stationary_coercive (B := R * B * S) (A := R * A * Rᵀ) (stable_coercive hPB h1 h3) (fun x => ?_) ?_ ⟨?_, ?_⟩
    · have e := form_conj Rᵀ A x
      rw [transpose_transpose] at e
      rw [e]
      exact hA _
    · unfold Matrix.IsSymm
      rw [transpose_mul, transpose_mul, transpose_transpose, hC.eq, Matrix.mul_assoc]
    · have e : R * A * Rᵀ * (Sᵀ * C * S) = R * (A * C) * S := by
        calc R * A * Rᵀ * (Sᵀ * C * S) = R * A * (Rᵀ * Sᵀ) * C * S := by noncomm_ring
          _ = _ := by rw [t2]; noncomm_ring
      rw [e, trace_mul_comm, ← Matrix.mul_assoc, h2, Matrix.one_mul, h.trace, trace_mul_comm (R * B), ← Matrix.mul_assoc, h2, Matrix.one_mul]
    · have e1 : Sᵀ * C * S * (R * A * Rᵀ) * (Sᵀ * C * S) = Sᵀ * (C * A * C) * S := by
        calc Sᵀ * C * S * (R * A * Rᵀ) * (Sᵀ * C * S) = Sᵀ * C * (S * R) * A * (Rᵀ * Sᵀ) * C * S := by noncomm_ring
          _ = _ := by rw [t2, h2]; noncomm_ring
      have e2 : Sᵀ * C * S * (R * B * S) = Sᵀ * (C * B) * S := by
        calc Sᵀ * C * S * (R * B * S) = Sᵀ * C * (S * R) * B * S := by noncomm_ring
          _ = _ := by rw [h2]; noncomm_ring
      have e3 : (R * B * S)ᵀ * (Sᵀ * C * S) = Sᵀ * (Bᵀ * C) * S := by
        calc (R * B * S)ᵀ * (Sᵀ * C * S) = Sᵀ * Bᵀ * (Rᵀ * Sᵀ) * C * S := by
              rw [transpose_mul, transpose_mul]
              noncomm_ring
          _ = _ := by rw [t2]; noncomm_ring
      rw [e1, e2, e3, ← Matrix.add_mul, ← Matrix.mul_add, h.quadratic, Matrix.mul_add, Matrix.add_mul]
  refine ⟨hC, fun x hx => ?_⟩
  have e : x ⬝ᵥ C *ᵥ x = (R *ᵥ x) ⬝ᵥ (Sᵀ * C * S) *ᵥ (R *ᵥ x) := by
    rw [form_conj, mulVec_mulVec, h2, one_mulVec]
  rw [e]
  exact key.pos _ (mulVec_ne h2 hx)

/-- The equation of Lyapunov has at most one solution. -/
theorem lyapunov_zero {B X : Matrix (Fin n) (Fin n) ℝ} (hB : Stable B) (hX : X.IsSymm) (h : B * X + X * Bᵀ = 0) : X = 0 := by
  obtain ⟨P, hP, hPB⟩ := hB
  obtain ⟨R, S, h1, h2, h3⟩ := posDefinite_factor hP
  have t1 : Sᵀ * Rᵀ = 1 := by rw [← transpose_mul, h1, transpose_one]
  have t2 : Rᵀ * Sᵀ = 1 := by rw [← transpose_mul, h2, transpose_one]
  have hY : (R * X * Rᵀ).IsSymm := by
    unfold Matrix.IsSymm
    rw [transpose_mul, transpose_mul, transpose_transpose, hX.eq, Matrix.mul_assoc]
  have hE : R * B * S * (R * X * Rᵀ) + R * X * Rᵀ * (R * B * S)ᵀ = 0 := by
    calc R * B * S * (R * X * Rᵀ) + R * X * Rᵀ * (R * B * S)ᵀ
        = R * B * (S * R) * X * Rᵀ + R * X * (Rᵀ * Sᵀ) * Bᵀ * Rᵀ := by
          rw [transpose_mul, transpose_mul]
          noncomm_ring
      _ = R * (B * X + X * Bᵀ) * Rᵀ := by rw [h2, t2]; noncomm_ring
      _ = 0 := by rw [h]; noncomm_ring
  obtain ⟨U, l, u1, u2, u3⟩ := symm_diag hY
  have hl : ∀ i, l i = 0 := by
    intro i
    have q := congrArg (fun M => Uᵀ * M * U) hE
    have cq : ∀ M N : Matrix (Fin n) (Fin n) ℝ, Uᵀ * (M * N) * U = (Uᵀ * M * U) * (Uᵀ * N * U) := by
      intro M N
      have : (Uᵀ * M * U) * (Uᵀ * N * U) = Uᵀ * M * (U * Uᵀ) * N * U := by noncomm_ring
      rw [this, u2]
      noncomm_ring
    have t : (Uᵀ * (R * B * S)ᵀ * U) i i = (Uᵀ * (R * B * S) * U) i i := by
      have : Uᵀ * (R * B * S)ᵀ * U = (Uᵀ * (R * B * S) * U)ᵀ := by
        rw [transpose_mul _ U, transpose_mul Uᵀ, transpose_transpose, Matrix.mul_assoc]
      rw [this, transpose_apply]
    have b : 0 < (Uᵀ * (R * B * S) * U) i i := by
      rw [conj_diag]
      exact stable_coercive hPB h1 h3 _ (col_ne_zero u1 i)
    simp only [Matrix.mul_add, Matrix.add_mul, cq (R * B * S) (R * X * Rᵀ), cq (R * X * Rᵀ) (R * B * S)ᵀ, u3, Matrix.mul_zero, Matrix.zero_mul] at q
    have q := congrFun (congrFun q i) i
    simp only [Matrix.add_apply, diagonal_mul, mul_diagonal, t, Matrix.zero_apply] at q
    have : l i * (Uᵀ * (R * B * S) * U) i i = 0 := by linarith
    exact (mul_eq_zero.1 this).resolve_right b.ne'
  have hY0 : R * X * Rᵀ = 0 := by
    have : U * (Uᵀ * (R * X * Rᵀ) * U) * Uᵀ = R * X * Rᵀ := by
      calc U * (Uᵀ * (R * X * Rᵀ) * U) * Uᵀ = (U * Uᵀ) * (R * X * Rᵀ) * (U * Uᵀ) := by noncomm_ring
        _ = _ := by rw [u2]; noncomm_ring
    rw [← this, u3]
    have : diagonal l = 0 := by
      rw [← diagonal_zero]
      congr 1
      funext i
      exact hl i
    rw [this]
    noncomm_ring
  calc X = (S * R) * X * (Rᵀ * Sᵀ) := by rw [h2, t2]; noncomm_ring
    _ = S * (R * X * Rᵀ) * Sᵀ := by noncomm_ring
    _ = 0 := by rw [hY0]; noncomm_ring

/-- Stationary forms are unique. -/
theorem stationary_unique {B A C C' : Matrix (Fin n) (Fin n) ℝ} (hB : Stable B) (hA : ∀ x, 0 ≤ x ⬝ᵥ A *ᵥ x) (hC : C.IsSymm) (hC' : C'.IsSymm)
    (h : Stationary B A C) (h' : Stationary B A C') : C = C' := by
  have inv : ∀ {C : Matrix (Fin n) (Fin n) ℝ}, C.IsSymm → Stationary B A C → ∃ G : Matrix (Fin n) (Fin n) ℝ,
      G.IsSymm ∧ G * C = 1 ∧ C * G = 1 ∧ B * G + G * Bᵀ = A + A := by
    intro C hC h
    obtain ⟨R, S, h1, h2, h3⟩ := posDefinite_factor (stationary_posDefinite hB hA hC h)
    have t1 : Sᵀ * Rᵀ = 1 := by rw [← transpose_mul, h1, transpose_one]
    have t2 : Rᵀ * Sᵀ = 1 := by rw [← transpose_mul, h2, transpose_one]
    have g1 : S * Sᵀ * C = 1 := by
      rw [h3]
      calc S * Sᵀ * (Rᵀ * R) = S * (Sᵀ * Rᵀ) * R := by noncomm_ring
        _ = 1 := by rw [t1, Matrix.mul_one, h2]
    have g2 : C * (S * Sᵀ) = 1 := by
      rw [h3]
      calc Rᵀ * R * (S * Sᵀ) = Rᵀ * (R * S) * Sᵀ := by noncomm_ring
        _ = 1 := by rw [h1, Matrix.mul_one, t2]
    refine ⟨S * Sᵀ, ?_, g1, g2, ?_⟩
    · unfold Matrix.IsSymm
      rw [transpose_mul, transpose_transpose]
    · have q := congrArg (fun M => (S * Sᵀ) * M * (S * Sᵀ)) h.quadratic
      calc B * (S * Sᵀ) + S * Sᵀ * Bᵀ = (S * Sᵀ * C) * B * (S * Sᵀ) + S * Sᵀ * Bᵀ * (C * (S * Sᵀ)) := by
            rw [g1, g2, Matrix.one_mul, Matrix.mul_one]
        _ = S * Sᵀ * (C * B + Bᵀ * C) * (S * Sᵀ) := by noncomm_ring
        _ = S * Sᵀ * (C * A * C + C * A * C) * (S * Sᵀ) := q.symm
        _ = (S * Sᵀ * C) * A * (C * (S * Sᵀ)) + (S * Sᵀ * C) * A * (C * (S * Sᵀ)) := by noncomm_ring
        _ = A + A := by rw [g1, g2, Matrix.one_mul, Matrix.mul_one]
  obtain ⟨G, s1, a1, b1, e1⟩ := inv hC h
  obtain ⟨G', s2, a2, b2, e2⟩ := inv hC' h'
  have : G - G' = 0 := lyapunov_zero hB (s1.sub s2) (by
    calc B * (G - G') + (G - G') * Bᵀ = (B * G + G * Bᵀ) - (B * G' + G' * Bᵀ) := by noncomm_ring
      _ = 0 := by rw [e1, e2, sub_self])
  have hG : G = G' := sub_eq_zero.1 this
  calc C = C * (G' * C') := by rw [a2, Matrix.mul_one]
    _ = C * G * C' := by rw [hG, Matrix.mul_assoc]
    _ = C' := by rw [b1, Matrix.one_mul]

/-- The equation of Lyapunov has a solution. -/
theorem lyapunov_exists {B A : Matrix (Fin n) (Fin n) ℝ} (hB : Stable B) (hA : A.IsSymm) : ∃ G : Matrix (Fin n) (Fin n) ℝ,
    G.IsSymm ∧ B * G + G * Bᵀ = A := by
  let V : Submodule ℝ (Matrix (Fin n) (Fin n) ℝ) :=
    { carrier := {X | Xᵀ = X}
      add_mem' := fun {a b} ha hb => by
        rw [Set.mem_ofPred_eq] at *
        rw [transpose_add, ha, hb]
      zero_mem' := by
        rw [Set.mem_ofPred_eq]
        exact transpose_zero
      smul_mem' := fun c a ha => by
        rw [Set.mem_ofPred_eq] at *
        rw [transpose_smul, ha] }
  have hV : ∀ X, X ∈ V ↔ Xᵀ = X := fun X => Iff.rfl
  let L : V →ₗ[ℝ] V :=
    { toFun := fun X => ⟨B * X.1 + X.1 * Bᵀ, by
        have : X.1ᵀ = X.1 := (hV _).1 X.2
        rw [hV, transpose_add, transpose_mul, transpose_mul, transpose_transpose, this, add_comm]⟩
      map_add' := fun X Y => by
        apply Subtype.ext
        change B * (X.1 + Y.1) + (X.1 + Y.1) * Bᵀ = (B * X.1 + X.1 * Bᵀ) + (B * Y.1 + Y.1 * Bᵀ)
        noncomm_ring
      map_smul' := fun c X => by
        apply Subtype.ext
        change B * (c • X.1) + (c • X.1) * Bᵀ = c • (B * X.1 + X.1 * Bᵀ)
        rw [Matrix.mul_smul, Matrix.smul_mul, smul_add] }
  have hL : Function.Injective L := by
    rw [← LinearMap.ker_eq_bot, LinearMap.ker_eq_bot']
    intro X hX
    apply Subtype.ext
    exact lyapunov_zero hB ((hV _).1 X.2) (congrArg Subtype.val hX)
  obtain ⟨G, hG⟩ := LinearMap.injective_iff_surjective.1 hL ⟨A, hA⟩
  exact ⟨G.1, (hV _).1 G.2, congrArg Subtype.val hG⟩

theorem psd_zero {A : Matrix (Fin n) (Fin n) ℝ} (hs : A.IsSymm) (hA : ∀ x, 0 ≤ x ⬝ᵥ A *ᵥ x) {x : Fin n → ℝ} (hx : x ⬝ᵥ A *ᵥ x = 0) :
    A *ᵥ x = 0 := by
  have key : ∀ t : ℝ, 0 ≤ 2 * t * ((A *ᵥ x) ⬝ᵥ (A *ᵥ x)) + t ^ 2 * ((A *ᵥ x) ⬝ᵥ A *ᵥ (A *ᵥ x)) := by
    intro t
    have := hA (x + t • (A *ᵥ x))
    have c : x ⬝ᵥ A *ᵥ (A *ᵥ x) = (A *ᵥ x) ⬝ᵥ (A *ᵥ x) := by
      rw [dotProduct_mulVec, ← mulVec_transpose, hs.eq]
    simp only [mulVec_add, mulVec_smul, add_dotProduct, dotProduct_add, smul_dotProduct, dotProduct_smul, smul_eq_mul, hx, c] at this
    linarith
  by_contra hne
  have p : 0 < (A *ᵥ x) ⬝ᵥ (A *ᵥ x) := by
    obtain ⟨i, hi⟩ := Function.ne_iff.1 hne
    exact Finset.sum_pos' (fun j _ => mul_self_nonneg _) ⟨i, Finset.mem_univ i, mul_self_pos.2 hi⟩
  set a := (A *ᵥ x) ⬝ᵥ (A *ᵥ x)
  set b := (A *ᵥ x) ⬝ᵥ A *ᵥ (A *ᵥ x)
  have hb : 0 ≤ b := hA _
  have := key (-(a / (b + 1)))
  have hb1 : 0 < b + 1 := by linarith
  have e : 2 * -(a / (b + 1)) * a + (-(a / (b + 1))) ^ 2 * b = -(a ^ 2 * (b + 2) / (b + 1) ^ 2) := by
    field_simp
    ring
  rw [e] at this
  have : 0 < a ^ 2 * (b + 2) / (b + 1) ^ 2 := by positivity
  linarith

/-- A stationary form exists if the noise reaches all directions. -/
theorem stationary_exists {B A : Matrix (Fin n) (Fin n) ℝ} (hB : Stable B) (hs : A.IsSymm) (hA : ∀ x, 0 ≤ x ⬝ᵥ A *ᵥ x) (hc : Reaches B A) :
    ∃ C : Matrix (Fin n) (Fin n) ℝ, C.IsSymm ∧ Stationary B A C := by
  obtain ⟨G, hG, hE⟩ := lyapunov_exists hB (hs.add hs)
  -- the covariance is nonnegative
  have hG0 : ∀ x, 0 ≤ x ⬝ᵥ G *ᵥ x := by
    obtain ⟨P, hP, hPB⟩ := hB
    obtain ⟨R, S, h1, h2, h3⟩ := posDefinite_factor hP
    have t2 : Rᵀ * Sᵀ = 1 := by rw [← transpose_mul, h2, transpose_one]
    have hY : (R * G * Rᵀ).IsSymm := by
      unfold Matrix.IsSymm
      rw [transpose_mul, transpose_mul, transpose_transpose, hG.eq, Matrix.mul_assoc]
    obtain ⟨U, l, u1, u2, u3⟩ := symm_diag hY
    have cq : ∀ M N : Matrix (Fin n) (Fin n) ℝ, Uᵀ * (M * N) * U = (Uᵀ * M * U) * (Uᵀ * N * U) := by
      intro M N
      have : (Uᵀ * M * U) * (Uᵀ * N * U) = Uᵀ * M * (U * Uᵀ) * N * U := by noncomm_ring
      rw [this, u2]
      noncomm_ring
    have hE' : R * B * S * (R * G * Rᵀ) + R * G * Rᵀ * (R * B * S)ᵀ = R * (A + A) * Rᵀ := by
      calc R * B * S * (R * G * Rᵀ) + R * G * Rᵀ * (R * B * S)ᵀ
          = R * B * (S * R) * G * Rᵀ + R * G * (Rᵀ * Sᵀ) * Bᵀ * Rᵀ := by
            rw [transpose_mul, transpose_mul]
            noncomm_ring
        _ = R * (B * G + G * Bᵀ) * Rᵀ := by rw [h2, t2]; noncomm_ring
        _ = _ := by rw [hE]
    have hl : ∀ i, 0 ≤ l i := by
      intro i
      have q := congrArg (fun M => Uᵀ * M * U) hE'
      have t : (Uᵀ * (R * B * S)ᵀ * U) i i = (Uᵀ * (R * B * S) * U) i i := by
        have : Uᵀ * (R * B * S)ᵀ * U = (Uᵀ * (R * B * S) * U)ᵀ := by
          rw [transpose_mul _ U, transpose_mul Uᵀ, transpose_transpose, Matrix.mul_assoc]
        rw [this, transpose_apply]
      have b : 0 < (Uᵀ * (R * B * S) * U) i i := by
        rw [conj_diag]
        exact stable_coercive hPB h1 h3 _ (col_ne_zero u1 i)
      have a : 0 ≤ (Uᵀ * (R * (A + A) * Rᵀ) * U) i i := by
        rw [conj_diag]
        have e := form_conj Rᵀ (A + A) (fun k => U k i)
        rw [transpose_transpose] at e
        rw [e, add_mulVec, dotProduct_add]
        have := hA (Rᵀ *ᵥ fun k => U k i)
        linarith
      have q1 : Uᵀ * (R * B * S * (R * G * Rᵀ)) * U + Uᵀ * (R * G * Rᵀ * (R * B * S)ᵀ) * U = Uᵀ * (R * (A + A) * Rᵀ) * U := by
        rw [← q]
        noncomm_ring
      rw [cq (R * B * S) (R * G * Rᵀ), cq (R * G * Rᵀ) (R * B * S)ᵀ, u3] at q1
      have q2 := congrFun (congrFun q1 i) i
      rw [Matrix.add_apply, mul_diagonal, diagonal_mul, t] at q2
      by_contra hn
      have := mul_neg_of_pos_of_neg b (not_le.1 hn)
      linarith
    intro x
    have e : G = (S * U) * diagonal l * (S * U)ᵀ := by
      rw [← u3, transpose_mul]
      calc G = (S * R) * G * (Rᵀ * Sᵀ) := by rw [h2, t2]; noncomm_ring
        _ = S * (1 : Matrix (Fin n) (Fin n) ℝ) * (R * G * Rᵀ) * 1 * Sᵀ := by noncomm_ring
        _ = S * (U * Uᵀ) * (R * G * Rᵀ) * (U * Uᵀ) * Sᵀ := by rw [u2]
        _ = _ := by noncomm_ring
    have f := form_conj (S * U)ᵀ (diagonal l) x
    rw [transpose_transpose, ← e] at f
    rw [f]
    simp only [dotProduct, mulVec_diagonal]
    exact Finset.sum_nonneg fun i _ => by
      have := mul_nonneg (hl i) (mul_self_nonneg (((S * U)ᵀ *ᵥ x) i))
      linarith
  -- and has no kernel
  have step : ∀ x, G *ᵥ x = 0 → A *ᵥ x = 0 ∧ G *ᵥ (Bᵀ *ᵥ x) = 0 := by
    intro x hx
    have e : B *ᵥ (G *ᵥ x) + G *ᵥ (Bᵀ *ᵥ x) = A *ᵥ x + A *ᵥ x := by
      rw [mulVec_mulVec, mulVec_mulVec, ← add_mulVec, hE, add_mulVec]
    rw [hx, mulVec_zero, zero_add] at e
    have z : x ⬝ᵥ A *ᵥ x = 0 := by
      have : x ⬝ᵥ G *ᵥ (Bᵀ *ᵥ x) = 0 := by
        rw [dotProduct_mulVec, ← mulVec_transpose, hG.eq, hx, zero_dotProduct]
      rw [e, dotProduct_add] at this
      linarith
    have a0 := psd_zero hs hA z
    exact ⟨a0, by rw [e, a0, add_zero]⟩
  have hker : ∀ x, G *ᵥ x = 0 → x = 0 := by
    intro x hx
    apply hc
    have : ∀ k : ℕ, G *ᵥ ((Bᵀ ^ k) *ᵥ x) = 0 := by
      intro k
      induction k with
      | zero => simpa using hx
      | succ k ih =>
        rw [pow_succ', ← mulVec_mulVec]
        exact (step _ ih).2
    exact fun k => (step _ (this k)).1
  have hGp : PosDefinite G := by
    refine ⟨hG, fun x hx => lt_of_le_of_ne (hG0 x) fun h0 => hx (hker x (psd_zero hG hG0 h0.symm))⟩
  obtain ⟨R, S, h1, h2, h3⟩ := posDefinite_factor hGp
  have t1 : Sᵀ * Rᵀ = 1 := by rw [← transpose_mul, h1, transpose_one]
  have t2 : Rᵀ * Sᵀ = 1 := by rw [← transpose_mul, h2, transpose_one]
  have g1 : S * Sᵀ * G = 1 := by
    rw [h3]
    calc S * Sᵀ * (Rᵀ * R) = S * (Sᵀ * Rᵀ) * R := by noncomm_ring
      _ = 1 := by rw [t1, Matrix.mul_one, h2]
  have g2 : G * (S * Sᵀ) = 1 := by
    rw [h3]
    calc Rᵀ * R * (S * Sᵀ) = Rᵀ * (R * S) * Sᵀ := by noncomm_ring
      _ = 1 := by rw [h1, Matrix.mul_one, t2]
  have hC : (S * Sᵀ).IsSymm := by
    unfold Matrix.IsSymm
    rw [transpose_mul, transpose_transpose]
  refine ⟨S * Sᵀ, hC, ?_, ?_⟩
  · have q : ((A + A) * (S * Sᵀ)).trace = B.trace + B.trace := by
      rw [← hE, Matrix.add_mul, trace_add, Matrix.mul_assoc, g2, Matrix.mul_one, Matrix.mul_assoc, trace_mul_comm, Matrix.mul_assoc, g1,
        Matrix.mul_one, trace_transpose]
    rw [Matrix.add_mul, trace_add] at q
    linarith
  · calc S * Sᵀ * A * (S * Sᵀ) + S * Sᵀ * A * (S * Sᵀ) = S * Sᵀ * (A + A) * (S * Sᵀ) := by noncomm_ring
      _ = S * Sᵀ * (B * G + G * Bᵀ) * (S * Sᵀ) := by rw [hE]
      _ = S * Sᵀ * B * (G * (S * Sᵀ)) + (S * Sᵀ * G) * Bᵀ * (S * Sᵀ) := by noncomm_ring
      _ = S * Sᵀ * B + Bᵀ * (S * Sᵀ) := by rw [g1, g2, Matrix.mul_one, Matrix.one_mul]

/-- The generator of a stable equation has no Gaussian in its kernel but the constants. -/
theorem backward_zero {B A C : Matrix (Fin n) (Fin n) ℝ} (hB : Stable B) (hC : C.IsSymm)
    (ht : (A * C).trace = 0) (hq : C * A * C + C * A * C + (C * B + Bᵀ * C) = 0) : C = 0 := by
  obtain ⟨P, hP, hPB⟩ := hB
  obtain ⟨R, S, h1, h2, h3⟩ := posDefinite_factor hP
  have t1 : Sᵀ * Rᵀ = 1 := by rw [← transpose_mul, h1, transpose_one]
  have t2 : Rᵀ * Sᵀ = 1 := by rw [← transpose_mul, h2, transpose_one]
  have hY : (Sᵀ * C * S).IsSymm := by
    unfold Matrix.IsSymm
    rw [transpose_mul, transpose_mul, transpose_transpose, hC.eq, Matrix.mul_assoc]
  obtain ⟨U, l, u1, u2, u3⟩ := symm_diag hY
  have cq : ∀ M N : Matrix (Fin n) (Fin n) ℝ, Uᵀ * (M * N) * U = (Uᵀ * M * U) * (Uᵀ * N * U) := by
    intro M N
    have : (Uᵀ * M * U) * (Uᵀ * N * U) = Uᵀ * M * (U * Uᵀ) * N * U := by noncomm_ring
    rw [this, u2]
    noncomm_ring
  have hq' : Sᵀ * C * S * ((R * A * Rᵀ) * (Sᵀ * C * S)) + Sᵀ * C * S * ((R * A * Rᵀ) * (Sᵀ * C * S)) +
      (Sᵀ * C * S * (R * B * S) + (R * B * S)ᵀ * (Sᵀ * C * S)) = 0 := by
    have e1 : Sᵀ * C * S * ((R * A * Rᵀ) * (Sᵀ * C * S)) = Sᵀ * (C * A * C) * S := by
      calc Sᵀ * C * S * ((R * A * Rᵀ) * (Sᵀ * C * S)) = Sᵀ * C * (S * R) * A * (Rᵀ * Sᵀ) * C * S := by noncomm_ring
        _ = _ := by rw [t2, h2]; noncomm_ring
    have e2 : Sᵀ * C * S * (R * B * S) = Sᵀ * (C * B) * S := by
      calc Sᵀ * C * S * (R * B * S) = Sᵀ * C * (S * R) * B * S := by noncomm_ring
        _ = _ := by rw [h2]; noncomm_ring
    have e3 : (R * B * S)ᵀ * (Sᵀ * C * S) = Sᵀ * (Bᵀ * C) * S := by
      calc (R * B * S)ᵀ * (Sᵀ * C * S) = Sᵀ * Bᵀ * (Rᵀ * Sᵀ) * C * S := by
            rw [transpose_mul, transpose_mul]
            noncomm_ring
        _ = _ := by rw [t2]; noncomm_ring
    rw [e1, e2, e3]
    calc _ = Sᵀ * (C * A * C + C * A * C + (C * B + Bᵀ * C)) * S := by noncomm_ring
      _ = 0 := by rw [hq]; noncomm_ring
  have hb : ∀ i, 0 < (Uᵀ * (R * B * S) * U) i i := fun i => by
    rw [conj_diag]
    exact stable_coercive hPB h1 h3 _ (col_ne_zero u1 i)
  have qi : ∀ i, l i * ((Uᵀ * (R * A * Rᵀ) * U) i i * l i) + l i * (Uᵀ * (R * B * S) * U) i i = 0 := by
    intro i
    have q := congrArg (fun M => Uᵀ * M * U) hq'
    have q1 : Uᵀ * (Sᵀ * C * S * ((R * A * Rᵀ) * (Sᵀ * C * S))) * U + Uᵀ * (Sᵀ * C * S * ((R * A * Rᵀ) * (Sᵀ * C * S))) * U +
        (Uᵀ * (Sᵀ * C * S * (R * B * S)) * U + Uᵀ * ((R * B * S)ᵀ * (Sᵀ * C * S)) * U) = 0 := by
      calc _ = Uᵀ * (Sᵀ * C * S * ((R * A * Rᵀ) * (Sᵀ * C * S)) + Sᵀ * C * S * ((R * A * Rᵀ) * (Sᵀ * C * S)) +
              (Sᵀ * C * S * (R * B * S) + (R * B * S)ᵀ * (Sᵀ * C * S))) * U := by noncomm_ring
        _ = 0 := by rw [hq']; noncomm_ring
    have t : (Uᵀ * (R * B * S)ᵀ * U) i i = (Uᵀ * (R * B * S) * U) i i := by
      have : Uᵀ * (R * B * S)ᵀ * U = (Uᵀ * (R * B * S) * U)ᵀ := by
        rw [transpose_mul _ U, transpose_mul Uᵀ, transpose_transpose, Matrix.mul_assoc]
      rw [this, transpose_apply]
    rw [cq (Sᵀ * C * S) (R * A * Rᵀ * (Sᵀ * C * S)), cq (R * A * Rᵀ) (Sᵀ * C * S), cq (Sᵀ * C * S) (R * B * S),
      cq (R * B * S)ᵀ (Sᵀ * C * S), u3] at q1
    have q2 := congrFun (congrFun q1 i) i
    simp only [Matrix.add_apply, mul_diagonal, diagonal_mul, t, Matrix.zero_apply] at q2
    linarith
  have tr : ∑ i, (Uᵀ * (R * A * Rᵀ) * U) i i * l i = 0 := by
    have e : (Uᵀ * ((R * A * Rᵀ) * (Sᵀ * C * S)) * U).trace = 0 := by
      rw [trace_mul_comm, ← Matrix.mul_assoc, u2, Matrix.one_mul]
      have e : R * A * Rᵀ * (Sᵀ * C * S) = R * (A * C) * S := by
        calc R * A * Rᵀ * (Sᵀ * C * S) = R * A * (Rᵀ * Sᵀ) * C * S := by noncomm_ring
          _ = _ := by rw [t2]; noncomm_ring
      rw [e, trace_mul_comm, ← Matrix.mul_assoc, h2, Matrix.one_mul, ht]
    rw [cq (R * A * Rᵀ) (Sᵀ * C * S), u3] at e
    simpa [Matrix.trace, mul_diagonal] using e
  have hz : ∀ i, l i = 0 := by
    have hn : ∀ i, l i ≠ 0 → (Uᵀ * (R * A * Rᵀ) * U) i i * l i < 0 := by
      intro i hi
      have : (Uᵀ * (R * A * Rᵀ) * U) i i * l i = -(Uᵀ * (R * B * S) * U) i i := mul_left_cancel₀ hi (by linarith [qi i])
      linarith [hb i]
    have hle : ∀ i, (Uᵀ * (R * A * Rᵀ) * U) i i * l i ≤ 0 := by
      intro i
      by_cases hi : l i = 0
      · rw [hi, mul_zero]
      · exact (hn i hi).le
    intro i
    by_contra hi
    have : ∑ i, (Uᵀ * (R * A * Rᵀ) * U) i i * l i < 0 := Finset.sum_neg' (fun j _ => hle j) ⟨i, Finset.mem_univ i, hn i hi⟩
    linarith
  have hd : diagonal l = (0 : Matrix (Fin n) (Fin n) ℝ) := by
    rw [← diagonal_zero]
    congr 1
    funext i
    exact hz i
  calc C = (Rᵀ * Sᵀ) * C * (S * R) := by rw [h2, t2]; noncomm_ring
    _ = Rᵀ * (1 : Matrix (Fin n) (Fin n) ℝ) * (Sᵀ * C * S) * 1 * R := by noncomm_ring
    _ = Rᵀ * (U * Uᵀ) * (Sᵀ * C * S) * (U * Uᵀ) * R := by rw [u2]
    _ = Rᵀ * U * (Uᵀ * (Sᵀ * C * S) * U) * Uᵀ * R := by noncomm_ring
    _ = 0 := by rw [u3, hd]; noncomm_ring

/-- The integral of `exp(-x·Cx/2)`. -/
theorem gaussian_integral {C : Matrix (Fin n) (Fin n) ℝ} (hC : PosDefinite C) :
    0 < C.det ∧ ∫ x : Fin n → ℝ, Real.exp (-(x ⬝ᵥ C *ᵥ x / 2)) = √((2 * Real.pi) ^ n / C.det) := by
  obtain ⟨R, S, h1, h2, h3⟩ := posDefinite_factor hC
  have hd : R.det * S.det = 1 := by rw [← det_mul, h1, det_one]
  have hR : R.det ≠ 0 := left_ne_zero_of_mul_eq_one hd
  have hdet : C.det = R.det ^ 2 := by rw [h3, det_mul, det_transpose, sq]
  have hpos : 0 < C.det := by rw [hdet]; positivity
  refine ⟨hpos, ?_⟩
  have e : ∀ x : Fin n → ℝ, x ⬝ᵥ C *ᵥ x = ∑ i, (R *ᵥ x) i ^ 2 := by
    intro x
    have := form_conj R 1 x
    rw [Matrix.mul_one, one_mulVec] at this
    rw [h3, this, dotProduct]
    exact Finset.sum_congr rfl fun i _ => (sq _).symm
  have one : ∫ y : Fin n → ℝ, Real.exp (-((∑ i, y i ^ 2) / 2)) = √((2 * Real.pi) ^ n) := by
    have : ∀ y : Fin n → ℝ, Real.exp (-((∑ i, y i ^ 2) / 2)) = ∏ i, Real.exp (-(1 / 2) * y i ^ 2) := by
      intro y
      rw [← Real.exp_sum]
      congr 1
      rw [← Finset.mul_sum]
      ring
    simp only [this]
    rw [integral_fintype_prod_volume_eq_prod (fun _ : Fin n => fun t : ℝ => Real.exp (-(1 / 2) * t ^ 2)), integral_gaussian, Finset.prod_const,
      Finset.card_univ, Fintype.card_fin]
    rw [show Real.pi / (1 / 2) = 2 * Real.pi by ring, Real.sqrt_eq_rpow, Real.sqrt_eq_rpow, ← Real.rpow_natCast, ← Real.rpow_natCast,
      ← Real.rpow_mul (by positivity), ← Real.rpow_mul (by positivity), mul_comm (1 / 2 : ℝ)]
  have m := Real.map_matrix_volume_pi_eq_smul_volume_pi hR
  have c : ∫ x : Fin n → ℝ, Real.exp (-((∑ i, (R *ᵥ x) i ^ 2) / 2)) = |R.det|⁻¹ * √((2 * Real.pi) ^ n) := by
    rw [← one]
    have hm : Measurable (toLin' R) := (LinearMap.continuous_on_pi _).measurable
    have := integral_map (μ := volume) hm.aemeasurable (f := fun y : Fin n → ℝ => Real.exp (-((∑ i, y i ^ 2) / 2)))
      (by
        apply Continuous.aestronglyMeasurable
        fun_prop)
    rw [m] at this
    rw [show (fun x : Fin n → ℝ => Real.exp (-((∑ i, (R *ᵥ x) i ^ 2) / 2))) = fun x => Real.exp (-((∑ i, (toLin' R x) i ^ 2) / 2)) from rfl, ← this,
      integral_smul_measure, ENNReal.toReal_ofReal (abs_nonneg _), abs_inv]
    rfl
  simp only [e]
  rw [c, hdet, Real.sqrt_div' _ (sq_nonneg _), Real.sqrt_sq_eq_abs]
  field_simp

end Hermipy
