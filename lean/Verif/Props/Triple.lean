import Verif.Lemmas.TripleSupport
import Verif.Lemmas.TransformEdge

/-!
# Properties C33, C34: tables of triple products

`Spec.triple` is the mean (Gaussian for Hermite, integral over a period for Fourier) of a product of three basis functions.
-/

namespace Hermipy.Props

open Hermipy.Spec

/-- C33. For every degree the computation stays in bounds and returns the table of the Gaussian means of `h_k h_i h_j` for `k` up
to `2 * n` and `i`, `j` up to `n`. -/
theorem C33_hermite_table (n : Nat) : triple_products_1d n = .ok ((List.range (2 * n + 1)).map fun k =>
    (List.range (n + 1)).map fun i => (List.range (n + 1)).map fun j => gaussMean fun x => herm k x * (herm i x * herm j x)) := by
  rw [triple_products_1d_ok, cubeOf]
  simp only [triple, if_neg (show ¬(0 = 1) by omega)]

/-- C33. The table holds the coefficients of the products of Hermite polynomials. -/
theorem C33_hermite_linearise (n : Nat) (T : List (List (List ℝ))) (hT : triple_products_1d n = .ok T) (i j : Nat) (hi : i ≤ n)
    (hj : j ≤ n) (x : ℝ) :
    herm i x * herm j x = ∑ k ∈ Finset.range (2 * n + 1), ((T.getD k []).getD i []).getD j 0 * herm k x := by
  rw [triple_products_1d_ok] at hT
  obtain rfl : cubeOf (2 * n + 1) (n + 1) (triple 0) = T := by simpa using hT
  rw [herm_mul (N := 2 * n + 1) (by omega) 0 (by omega) x]
  apply Finset.sum_congr rfl
  intro k hk
  have hk := Finset.mem_range.1 hk
  congr 1
  simp [cubeOf, hk, show i < n + 1 by omega, show j < n + 1 by omega]

example : ∃ T, triple_products_1d 3 = .ok T := ⟨_, C33_hermite_table 3⟩

/-- C34. For every even degree the computation stays in bounds and returns the table of the integrals of `φ_k φ_i φ_j` over a
period, for `k` up to `2 * n` and `i`, `j` up to `n`. -/
theorem C34_fourier_table (n : Nat) (hn : n % 2 = 0) : triple_products_fourier n = .ok ((List.range (2 * n + 1)).map fun k =>
    (List.range (n + 1)).map fun i => (List.range (n + 1)).map fun j =>
      ∫ x in (-Real.pi)..Real.pi, trig k x * (trig i x * trig j x)) := by
  rw [triple_products_fourier_ok hn, cubeOf]
  simp only [triple, if_true]

/-- C34. The table holds the coefficients of the products of trigonometric functions. -/
theorem C34_fourier_linearise (n : Nat) (hn : n % 2 = 0) (T : List (List (List ℝ))) (hT : triple_products_fourier n = .ok T)
    (i j : Nat) (hi : i ≤ n) (hj : j ≤ n) (x : ℝ) :
    trig i x * trig j x = ∑ k ∈ Finset.range (2 * n + 1), ((T.getD k []).getD i []).getD j 0 * trig k x := by
  rw [triple_products_fourier_ok hn] at hT
  obtain rfl : cubeOf (2 * n + 1) (n + 1) (triple 1) = T := by simpa using hT
  rw [trig_mul (N := 2 * n + 3) (by omega) x, Finset.sum_range_succ, Finset.sum_range_succ]
  have h0 : ∀ k, 2 * n < k → four k i j = 0 := by
    intro k hk
    by_contra h
    have := four_support h
    omega
  rw [h0 _ (by omega), h0 _ (by omega), zero_mul, zero_mul, add_zero, add_zero]
  apply Finset.sum_congr rfl
  intro k hk
  have hk := Finset.mem_range.1 hk
  congr 1
  simp [cubeOf, hk, show i < n + 1 by omega, show j < n + 1 by omega, triple_four]

example : ∃ T, triple_products_fourier 4 = .ok T := ⟨_, C34_fourier_table 4 rfl⟩

/-- C32 for the triple products: an odd degree ends the process. -/
theorem C32_triple_odd (n : Nat) (hn : n % 2 = 1) : triple_products_fourier n = .exit 1 := triple_products_fourier_odd hn

example : (5 : Nat) % 2 = 1 := by norm_num

/-- C32 for the variational forms: with a Fourier flag and an odd degree no value is returned, whatever the input. -/
theorem C32_varf_odd {T : Type} [MatOps T ℝ] [MatArith T ℝ] [Convert (SpMat ℝ) T] (slack : Nat) (s : IndexSet) (degree : Nat)
    (h : degree % 2 = 1) (input : List ℝ) (nodes weights : List (List ℝ)) (fourier : List Nat) (hf : 1 ∈ fourier) (r : T) :
    varf slack s degree input nodes weights fourier ≠ .ok r := by
  intro e
  rw [varf] at e
  obtain ⟨_, -, e⟩ := Out.bind_ok e
  obtain ⟨_, -, e⟩ := Out.bind_ok e
  obtain ⟨_, -, e⟩ := Out.bind_ok e
  obtain ⟨_, -, e⟩ := Out.bind_ok e
  dsimp only at e
  rw [if_pos hf, triple_products_fourier_odd h] at e
  simp at e

example : (7 : Nat) % 2 = 1 ∧ 1 ∈ [0, 1] := by simp

/-- C32 fails when the Fourier direction has no node: the check sits in the loop over the nodes, and zeros are returned. -/
theorem C32_empty_direction (slack : Nat) : transform slack .triangle 1 [] [[]] [[]] [1] true = .ok [0, 0] := by
  have hz := (usable_small .triangle (dim := 1) (degree := 1) (by omega) (by omega) (by omega)).toSized
  obtain ⟨L, hL⟩ := iterOk_exists hz.fits'
  have hlen : L.length = 2 := by
    have h1 := hL.size hz.dim_pos (by rw [hL.length]; exact hz.card_lt)
    have h2 : IndexSet.triangle.s_size 1 1 = .ok 2 := by decide
    rw [h2] at h1
    simpa using h1.symm
  have hsize := hL.size hz.dim_pos (by rw [hL.length]; exact hz.card_lt)
  rw [transform]
  simp only [List.length_cons, List.length_nil, Nat.zero_add, hsize, hL.iter, Out.ok_bind, basisCube, basisMat, hlen]
  simp [wrap32, gridLoop, forRange]

end Hermipy.Props
