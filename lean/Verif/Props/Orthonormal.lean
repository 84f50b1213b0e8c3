import Verif.Lemmas.Gauss
import Verif.Lemmas.FourierRule
import Verif.Props.Transform

/-! # Properties C25, C30: orthonormality of the bases -/

namespace Hermipy.Props

open Hermipy.Spec Polynomial

/-- C25. The values computed by the recursion are those of functions orthonormal for the standard Gaussian. -/
theorem C25_orthonormal (i j : Nat) : gaussMean (fun x => herm i x * herm j x) = if i = j then 1 else 0 := gaussMean_herm i j

/-- C25 in terms of the evaluation code: the mean of the product of entries `i` and `j` of the computed rows. -/
theorem C25_computed (degree : Nat) (hd : 1 ≤ degree) (row : ℝ → List ℝ)
    (h : ∀ x, hermite_eval 0 x degree (List.replicate (degree + 1) 0) = .ok (row x)) (i j : Nat) (hi : i ≤ degree)
    (hj : j ≤ degree) : gaussMean (fun x => (row x).getD i 0 * (row x).getD j 0) = if i = j then 1 else 0 := by
  rw [← C25_orthonormal]
  congr 1
  funext x
  have e := C24_hermite_eval_partial x degree hd (List.replicate (degree + 1) 0) (by simp)
  rw [h x] at e
  simp only [Out.ok.injEq] at e
  rw [e]
  simp [Nat.lt_succ_of_le hi, Nat.lt_succ_of_le hj]

example : ∃ row : ℝ → List ℝ, ∀ x, hermite_eval 0 x 3 (List.replicate (3 + 1) 0) = .ok (row x) :=
  ⟨_, fun x => C24_hermite_eval_partial x 3 (by omega) _ (by simp)⟩

/-- A rule that is exact for polynomials of degree up to `2 * degree` satisfies the hypothesis of C28. -/
theorem C28_exact_rule (degree : Nat) (nodes weights : List ℝ) (h : ∀ q : ℝ[X], q.natDegree ≤ 2 * degree →
    ∑ t ∈ Finset.range nodes.length, weights.getD t 0 * q.eval (nodes.getD t 0) = gaussMean fun x => q.eval x) :
    Orthonormal degree 0 nodes weights := exact_rule h

/-- C30. The rule of `Quad.fourier` is discretely orthonormal for every even degree below the number of points. -/
theorem C30_fourier_rule (degree n : Nat) (hev : degree % 2 = 0) (hn : degree < n) :
    Orthonormal degree 1 (fourierNodes n) (fourierWeights n) := fourier_rule hev hn

example : (6 : Nat) % 2 = 0 ∧ 6 < 7 := by omega

/-- C30. Transforms on the grids of `Quad.fourier` are exact. -/
theorem C30_transform_exact (s : IndexSet) (degree : Nat) (n_points : List Nat) (hev : degree % 2 = 0)
    (hn : ∀ n ∈ n_points, degree < n) (hx : s = .cross ∨ s = .cross_nc → 1 ≤ degree) (hz : Sized s n_points.length degree)
    (hN : n_points.prod < 2 ^ 32) (n : Nat) (hsz : s.s_size n_points.length degree = .ok n) (c : List ℝ) (hc : c.length = n) :
    ∃ f, transform 0 s degree c (n_points.map fourierNodes) (n_points.map fourierWeights) (n_points.map fun _ => 1) false =
        .ok f ∧
      transform 0 s degree f (n_points.map fourierNodes) (n_points.map fourierWeights) (n_points.map fun _ => 1) true =
        .ok c := by
  have hl : (n_points.map fourierNodes).length = n_points.length := by simp
  have hlens : (n_points.map fourierNodes).map List.length = n_points := by
    rw [List.map_map]
    conv_rhs => rw [← List.map_id n_points]
    apply List.map_congr_left
    intro n _
    simp [fourierNodes]
  refine C28_round_trip 0 s degree _ _ _ (by rw [hl]; exact hz) ⟨?_, ?_, ⟨by simp, by simp⟩, ?_⟩ ⟨fun _ => hev, by simp, hx⟩ ?_ ?_
    n (by rw [hl]; exact hsz) c hc
  · have := hz.dim_pos
    intro h
    rw [h] at hl
    simp at hl
    omega
  · intro v hv
    obtain ⟨n, hnm, rfl⟩ := List.mem_map.1 hv
    have := hn n hnm
    rw [ne_eq, ← List.length_eq_zero_iff]
    simp [fourierNodes]
    omega
  · rw [gridPoints, length_cartesian, hlens]
    exact hN
  · rw [hlens, List.map_map]
    conv_rhs => rw [← List.map_id n_points]
    apply List.map_congr_left
    intro n _
    simp [fourierWeights]
  · intro k hk
    rw [hl] at hk
    have e1 : (n_points.map fun _ => 1).getD k 0 = 1 := by simp [hk]
    have e2 : (n_points.map fourierNodes).getD k [] = fourierNodes n_points[k] := by simp [hk]
    have e3 : (n_points.map fourierWeights).getD k [] = fourierWeights n_points[k] := by simp [hk]
    rw [e1, e2, e3]
    exact fourier_rule hev (hn _ (List.getElem_mem hk))

example : (∀ n ∈ [5, 9, 6], 4 < n) ∧ Sized .cube [5, 9, 6].length 4 ∧ [5, 9, 6].prod < 2 ^ 32 :=
  ⟨by decide, (usable_small _ (by simp) (by simp) (by omega)).toSized, by decide⟩

/-- C30 is sharp: with as many points as the degree the rule is not orthonormal. -/
theorem C30_sharp : ¬ Orthonormal 2 1 (fourierNodes 2) (fourierWeights 2) := by
  intro h
  have := h 1 1 (by omega) (by omega)
  have e := trig_sin (k := 1) (le_refl _)
  simp [Finset.sum_range_succ, fourierNodes, fourierWeights, phi] at this
  simp [e, List.range_succ] at this

end Hermipy.Props
