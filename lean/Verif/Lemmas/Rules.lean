import Verif.Spec.Rules
import Verif.Lemmas.Gauss
import Verif.Lemmas.FourierRule
import Verif.Lemmas.GridBlocks
import Verif.Lemmas.TransformLaws
import Verif.Model.QuadConstructors
import Mathlib.MeasureTheory.Integral.Pi
import Mathlib.Algebra.MvPolynomial.Eval
import Mathlib.Analysis.SpecialFunctions.Integrals.Basic

/-! # Quadrature and integration of sums of products -/

namespace Hermipy
open Spec MeasureTheory

/-! ## Sums of products -/

theorem gridPoint_get {pos : Position} (hn : pos.dirs.Nodup) (p : List ℝ) (i : Fin pos.dirs.length) :
    gridPoint pos p (pos.dirs.get i) = pos.mean.getD i 0 + √(entryOf pos.cov i i) * p.getD i 0 := by
  simp [gridPoint, hn.idxOf_getElem]

theorem quadrature_separated {nodes weights : List (List ℝ)} (hw : weights.map List.length = nodes.map List.length) {pos : Position}
    (hn : pos.dirs.Nodup) (hl : pos.dirs.length = nodes.length) {m : ℕ} {a : ℕ → ℝ} {u : ℕ → ℕ → ℝ → ℝ} {g : (ℕ → ℝ) → ℝ}
    (hg : Separated m pos.dirs a u g) :
    quadrature nodes weights (fun _ p => g (gridPoint pos p)) = ∑ t ∈ Finset.range m, a t * ∏ i : Fin pos.dirs.length,
      ∑ j ∈ Finset.range (nodes.getD i []).length,
        (weights.getD i []).getD j 0 * u t i (pos.mean.getD i 0 + √(entryOf pos.cov i i) * (nodes.getD i []).getD j 0) := by
  have e : (fun (_ : ℕ) (p : List ℝ) => g (gridPoint pos p)) = fun k p => ∑ t ∈ Finset.range m,
      (fun t (_ : ℕ) (p : List ℝ) => a t * ∏ k ∈ Finset.range nodes.length,
        (fun k y => u t k (pos.mean.getD k 0 + √(entryOf pos.cov k k) * y)) k (p.getD k 0)) t k p := by
    funext k p
    rw [hg]
    refine Finset.sum_congr rfl fun t _ => ?_
    congr 1
    rw [← hl, Finset.prod_range]
    refine Finset.prod_congr rfl fun i _ => ?_
    rw [gridPoint_get hn]
  rw [e, quadrature_sum]
  refine Finset.sum_congr rfl fun t _ => ?_
  rw [quadrature_smul, quadrature_prod hw (fun k y => u t k (pos.mean.getD k 0 + √(entryOf pos.cov k k) * y)), ← hl, Finset.prod_range]

theorem place_get {dirs : List ℕ} (hn : dirs.Nodup) (x : Fin dirs.length → ℝ) (i : Fin dirs.length) : place dirs x (dirs.get i) = x i := by
  simp [place, hn.idxOf_getElem]

theorem integral_separated {dirs : List ℕ} (hn : dirs.Nodup) (μ : Fin dirs.length → Measure ℝ) [∀ i, SigmaFinite (μ i)] {m : ℕ} {a : ℕ → ℝ}
    {u : ℕ → ℕ → ℝ → ℝ} {g : (ℕ → ℝ) → ℝ} (hg : Separated m dirs a u g) (hi : ∀ t, ∀ i : Fin dirs.length, Integrable (u t i) (μ i)) :
    ∫ x, g (place dirs x) ∂(Measure.pi μ) = ∑ t ∈ Finset.range m, a t * ∏ i : Fin dirs.length, ∫ y, u t i y ∂(μ i) := by
  have e : (fun x => g (place dirs x)) = fun x => ∑ t ∈ Finset.range m, a t * ∏ i : Fin dirs.length, u t i (x i) := by
    funext x
    rw [hg]
    refine Finset.sum_congr rfl fun t _ => ?_
    congr 1
    refine Finset.prod_congr rfl fun i _ => ?_
    rw [place_get hn]
  rw [e, integral_finsetSum]
  · refine Finset.sum_congr rfl fun t _ => ?_
    rw [integral_const_mul]
    congr 1
    exact integral_fintype_prod_eq_prod (fun i : Fin dirs.length => u t i)
  · intro t _
    exact (Integrable.fintype_prod (f := fun i : Fin dirs.length => u t i) (hi t)).const_mul _

/-- If the rule of each direction integrates the factors exactly, up to the constants `c`, then the product rule integrates the function
exactly, up to their product. -/
theorem quadrature_integral {nodes weights : List (List ℝ)} (hw : weights.map List.length = nodes.map List.length) {pos : Position}
    (hn : pos.dirs.Nodup) (hl : pos.dirs.length = nodes.length) (μ : Fin pos.dirs.length → Measure ℝ) [∀ i, SigmaFinite (μ i)] {m : ℕ}
    {a : ℕ → ℝ} {u : ℕ → ℕ → ℝ → ℝ} {g : (ℕ → ℝ) → ℝ} (hg : Separated m pos.dirs a u g) (c : Fin pos.dirs.length → ℝ)
    (hi : ∀ t, ∀ i : Fin pos.dirs.length, Integrable (u t i) (μ i))
    (he : ∀ t, ∀ i : Fin pos.dirs.length, ∑ j ∈ Finset.range (nodes.getD i []).length,
      (weights.getD i []).getD j 0 * u t i (pos.mean.getD i 0 + √(entryOf pos.cov i i) * (nodes.getD i []).getD j 0) =
        c i * ∫ y, u t i y ∂(μ i)) :
    quadrature nodes weights (fun _ p => g (gridPoint pos p)) = (∏ i, c i) * ∫ x, g (place pos.dirs x) ∂(Measure.pi μ) := by
  rw [quadrature_separated hw hn hl hg, integral_separated hn μ hg hi, Finset.mul_sum]
  refine Finset.sum_congr rfl fun t _ => ?_
  rw [Finset.prod_congr rfl fun i _ => he t i, Finset.prod_mul_distrib]
  ring

/-! ## One direction of the Gauss rule -/

open ProbabilityTheory in
theorem gaussianReal_one (P : Polynomial ℝ) : ∫ x, P.eval x ∂(gaussianReal 0 1) = gE P := by
  rw [integral_gaussianReal_eq_integral_smul one_ne_zero, gE]
  congr 1
  funext x
  rw [gaussianPDFReal, gw, smul_eq_mul]
  simp only [NNReal.coe_one, mul_one, sub_zero]
  ring

open ProbabilityTheory in
theorem integrable_one (P : Polynomial ℝ) : Integrable (fun x => P.eval x) (gaussianReal 0 1) := by
  rw [gaussianReal_of_var_ne_zero _ one_ne_zero, integrable_withDensity_iff (measurable_gaussianPDF _ _)
    (Filter.Eventually.of_forall fun _ => gaussianPDF_lt_top)]
  refine (gw_integrable P).congr (Filter.Eventually.of_forall fun x => ?_)
  simp only [toReal_gaussianPDF, gaussianPDFReal, gw, NNReal.coe_one, mul_one, sub_zero]
  rw [div_eq_inv_mul]

open ProbabilityTheory in
theorem gaussianReal_affine (m : ℝ) {v : ℝ} (hv : 0 ≤ v) :
    gaussianReal m (Real.toNNReal v) = (gaussianReal 0 1).map fun y => m + √v * y := by
  have e : (fun y : ℝ => m + √v * y) = (fun y => m + y) ∘ fun y => √v * y := rfl
  rw [e, ← Measure.map_map (by fun_prop) (by fun_prop), gaussianReal_map_const_mul, gaussianReal_map_const_add]
  congr 1
  · ring
  · ext
    simp [Real.sq_sqrt hv, hv]

open ProbabilityTheory in
theorem integrable_pow (m : ℝ) {v : ℝ} (hv : 0 ≤ v) (e : ℕ) : Integrable (fun y : ℝ => y ^ e) (gaussianReal m (Real.toNNReal v)) := by
  rw [gaussianReal_affine m hv, integrable_map_measure (by fun_prop) (by fun_prop)]
  refine (integrable_one ((Polynomial.C m + Polynomial.C (√v) * Polynomial.X) ^ e)).congr (Filter.Eventually.of_forall fun y => ?_)
  simp

open ProbabilityTheory in
theorem gauss_pow {n : ℕ} {rule : List ℝ × List ℝ} (hr : GaussRule n rule) (m : ℝ) {v : ℝ} (hv : 0 ≤ v) {e : ℕ} (he : e < 2 * n) :
    ∑ j ∈ Finset.range n, (rule.2.map fun w => w / √(2 * Real.pi)).getD j 0 * (m + √v * rule.1.getD j 0) ^ e =
      ∫ y, y ^ e ∂(gaussianReal m (Real.toNNReal v)) := by
  obtain ⟨P, hP⟩ : ∃ P, P = (Polynomial.C m + Polynomial.C (√v) * Polynomial.X) ^ e := ⟨_, rfl⟩
  have hd : P.natDegree < 2 * n := by
    rw [hP]
    refine lt_of_le_of_lt Polynomial.natDegree_pow_le ?_
    have : (Polynomial.C m + Polynomial.C (√v) * Polynomial.X).natDegree ≤ 1 := by
      rw [add_comm]
      exact Polynomial.natDegree_linear_le
    nlinarith
  have hev : ∀ y, P.eval y = (m + √v * y) ^ e := by intro y; simp [hP]
  rw [gaussianReal_affine m hv, integral_map (by fun_prop) (by fun_prop)]
  have h1 := gaussianReal_one P
  simp only [hev] at h1
  rw [h1, gE]
  have h2 := hr.exact P hd
  have h3 : ∫ x, P.eval x * gw x = (∫ x, P.eval x * Real.exp (-(x ^ 2) / 2)) / √(2 * Real.pi) := by
    rw [← integral_div]
    congr 1
    funext x
    rw [gw]
    ring
  rw [h3, ← h2, Finset.sum_div]
  refine Finset.sum_congr rfl fun j hj => ?_
  have hj : j < rule.2.length := by rw [hr.weights]; exact Finset.mem_range.1 hj
  rw [hev]
  simp [hj]
  ring

/-! ## One direction of the Fourier rule -/

theorem fourier_wave {n : ℕ} (hn : 0 < n) {k : ℕ} (hk : k < n) (θ : ℝ) :
    ∑ j ∈ Finset.range n, (fourierWeights n).getD j 0 * Real.cos (k * (fourierNodes n).getD j 0 + θ) =
      if k = 0 then 2 * Real.pi * Real.cos θ else 0 := by
  have hnr : (n : ℝ) ≠ 0 := by exact_mod_cast hn.ne'
  have e : ∀ j ∈ Finset.range n, (fourierWeights n).getD j 0 * Real.cos (k * (fourierNodes n).getD j 0 + θ) =
      2 * Real.pi / n * (Real.cos (((k : ℤ) : ℝ) * fnode n j) * Real.cos θ - Real.sin (((k : ℤ) : ℝ) * fnode n j) * Real.sin θ) := by
    intro j hj
    have hj := Finset.mem_range.1 hj
    have e1 : (fourierNodes n).getD j 0 = fnode n j := by simp [fourierNodes, fnode, hj]
    have e2 : (fourierWeights n).getD j 0 = 2 * Real.pi / n := by simp [fourierWeights, hj]
    rw [e1, e2, Real.cos_add]
    push_cast
    ring
  have hk' : |(k : ℤ)| < n := by simpa using hk
  rw [Finset.sum_congr rfl e, ← Finset.mul_sum, Finset.sum_sub_distrib, ← Finset.sum_mul, ← Finset.sum_mul, sum_cos hn hk', sum_sin hn hk']
  by_cases h0 : k = 0
  · simp [h0]
    field_simp
  · simp [h0]

theorem integral_wave {l r : ℝ} (h : l < r) (k : ℕ) (θ : ℝ) :
    ∫ x in Set.Icc l r, Real.cos (k * (2 * Real.pi / (r - l)) * x + θ) = if k = 0 then (r - l) * Real.cos θ else 0 := by
  rw [integral_Icc_eq_integral_Ioc, ← intervalIntegral.integral_of_le h.le]
  have hrl : r - l ≠ 0 := by linarith
  by_cases h0 : k = 0
  · simp [h0]
  · have hk : (k : ℝ) ≠ 0 := by exact_mod_cast h0
    have hc : (k : ℝ) * (2 * Real.pi / (r - l)) ≠ 0 := by
      have := Real.pi_pos
      positivity
    rw [intervalIntegral.integral_comp_mul_add (fun x => Real.cos x) hc, integral_cos, if_neg h0]
    have e : (k : ℝ) * (2 * Real.pi / (r - l)) * r + θ = (k : ℝ) * (2 * Real.pi / (r - l)) * l + θ + k * (2 * Real.pi) := by
      field_simp
      ring
    rw [e, Real.sin_add_nat_mul_two_pi, sub_self, smul_zero]

theorem fourier_direction {n : ℕ} (hn : 0 < n) {k : ℕ} (hk : k < n) (θ : ℝ) {l r : ℝ} (h : l < r) :
    ∑ j ∈ Finset.range n, (fourierWeights n).getD j 0 *
        Real.cos (k * (2 * Real.pi / (r - l)) * (l / 2 + r / 2 + √(((r - l) / (2 * Real.pi)) ^ 2) * (fourierNodes n).getD j 0) + θ) =
      2 * Real.pi / (r - l) * ∫ x in Set.Icc l r, Real.cos (k * (2 * Real.pi / (r - l)) * x + θ) := by
  have hrl : 0 < r - l := by linarith
  have hpi := Real.pi_pos
  rw [Real.sqrt_sq (by positivity), integral_wave h]
  have e : ∀ j ∈ Finset.range n, (fourierWeights n).getD j 0 *
        Real.cos (k * (2 * Real.pi / (r - l)) * (l / 2 + r / 2 + (r - l) / (2 * Real.pi) * (fourierNodes n).getD j 0) + θ) =
      (fourierWeights n).getD j 0 * Real.cos (k * (fourierNodes n).getD j 0 + (k * (2 * Real.pi / (r - l)) * (l / 2 + r / 2) + θ)) := by
    intro j _
    congr 2
    field_simp
    ring
  rw [Finset.sum_congr rfl e, fourier_wave hn hk]
  by_cases h0 : k = 0
  · simp [h0]
    field_simp
  · simp [h0]

/-! ## One direction of the trapezoidal rule -/

/-- The weights and nodes of one direction are those of the trapezoidal rule for the function times the standard normal density. -/
theorem trapezoid_direction {n : ℕ} (hn : 2 ≤ n) (e : ℝ) (u : ℝ → ℝ) :
    ∑ j ∈ Finset.range n, (trapezoidWeights e n).getD j 0 * u ((linspace e n).getD j 0) =
      trapezoidal_integral (fun y => u y * normalDensity 0 1 y) (n - 1) (-e) e := by
  obtain ⟨N, rfl⟩ : ∃ N, n = N + 2 := ⟨n - 2, by omega⟩
  have hN : ((N : ℝ) + 1) ≠ 0 := by positivity
  have hx : ∀ j < N + 2, (linspace e (N + 2)).getD j 0 = -e + j * (2 * e / (N + 1)) := by
    intro j hj
    simp [linspace, hj]
    left
    congr 1
    ring
  have hw : ∀ j < N + 2, (trapezoidWeights e (N + 2)).getD j 0 * u ((linspace e (N + 2)).getD j 0) =
      (if j = 0 ∨ j = N + 1 then 1 / 2 else 1) * (2 * e / (N + 1)) *
        (u (-e + j * (2 * e / (N + 1))) * normalDensity 0 1 (-e + j * (2 * e / (N + 1)))) := by
    intro j hj
    have : (trapezoidWeights e (N + 2)).getD j 0 = (if j = 0 ∨ j = N + 1 then 1 / 2 else 1) *
      (1 / √(2 * Real.pi) * Real.exp (-((linspace e (N + 2)).getD j 0) ^ 2 / 2)) * (2 * e / (((N + 2 : ℕ) : ℝ) - 1)) := by
      simp [trapezoidWeights, hj]
    rw [this, hx j hj, normalDensity]
    have e1 : (((N + 2 : ℕ) : ℝ) - 1) = N + 1 := by push_cast; ring
    rw [e1, mul_one, sub_zero, mul_one, neg_div]
    ring
  rw [Finset.sum_congr rfl fun j hj => hw j (Finset.mem_range.1 hj), Finset.sum_range_succ, Finset.sum_range_succ', trapezoidal_integral]
  rw [show N + 2 - 1 = N + 1 by omega, show N + 1 - 1 = N by omega]
  have e2 : ∀ k ∈ Finset.range N, (if k + 1 = 0 ∨ k + 1 = N + 1 then (1 : ℝ) / 2 else 1) * (2 * e / (N + 1)) *
        (u (-e + (k + 1 : ℕ) * (2 * e / (N + 1))) * normalDensity 0 1 (-e + (k + 1 : ℕ) * (2 * e / (N + 1)))) =
      2 * e / (N + 1) * (u (-e + (k + 1) * (e - -e) / ((N + 1 : ℕ) : ℝ)) * normalDensity 0 1 (-e + (k + 1) * (e - -e) / ((N + 1 : ℕ) : ℝ))) := by
    intro k hk
    have := Finset.mem_range.1 hk
    rw [if_neg (by omega)]
    have e3 : -e + (k + 1 : ℕ) * (2 * e / (N + 1)) = -e + (k + 1) * (e - -e) / ((N + 1 : ℕ) : ℝ) := by
      push_cast
      field_simp
      ring
    rw [e3]
    ring
  rw [Finset.sum_congr rfl e2, ← Finset.mul_sum]
  have e4 : -e + ((N + 1 : ℕ) : ℝ) * (2 * e / (N + 1)) = e := by
    push_cast
    field_simp
    ring
  rw [e4]
  simp only [true_or, or_true, if_true, Nat.cast_zero, zero_mul, add_zero]
  push_cast
  rw [show (e - -e) = 2 * e by ring]
  ring

end Hermipy
