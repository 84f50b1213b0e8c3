import Verif.Lemmas.Series
import Verif.Lemmas.Loop
import Verif.Lemmas.Converters
import Verif.Lemmas.HermitePoly
import Mathlib.Algebra.BigOperators.Group.Finset.Basic

namespace Hermipy
open Spec
variable {Φ : Type}

/-- The recurrence of `to_function` produces the normalised Hermite polynomials. -/
theorem hermiteDir_fold (y : ℝ) (n : ℕ) :
    (List.range' 1 n).foldl (fun (hs : List ℝ) (j : ℕ) =>
      hs ++ [hs.getD (hs.length - 1) 0 * hs.getD 1 0 * (1 / √((j : ℝ) + 1)) + hs.getD (hs.length - 2) 0 * -(√(j : ℝ) / √((j : ℝ) + 1))])
      [1, y] = (List.range (n + 2)).map fun j => herm j y := by
  induction n with
  | zero => simp [List.range_succ, herm_zero, herm_one]
  | succ n ih =>
    rw [List.range'_concat, List.foldl_append, ih, List.foldl_cons, List.foldl_nil]
    rw [List.range_succ (n := n + 2), List.map_append]
    congr 1
    simp only [List.length_map, List.length_range, List.map_cons, List.map_nil]
    have g : ∀ j < n + 2, ((List.range (n + 2)).map fun j => herm j y).getD j 0 = herm j y := by
      intro j hj
      simp [hj]
    rw [g _ (by omega), g 1 (by omega), g _ (by omega), herm_one]
    have h := herm_rec n y
    rw [show n + 2 - 1 = n + 1 by omega, show n + 2 - 2 = n by omega, h]
    congr 1
    push_cast
    rw [show (1 : ℝ) + 1 * n = n + 1 by ring, show (n : ℝ) + 1 + 1 = n + 2 by ring]
    ring

theorem hermiteDir_get {degree : ℕ} (y : ℝ) {j : ℕ} (hj : j ≤ max 1 degree) : (hermiteDir degree y)[j]? = some (herm j y) := by
  rw [hermiteDir, hermiteDir_fold, List.getElem?_map, List.getElem?_range (by omega)]
  rfl

/-- No component of a multi-index exceeds the degree, or 1. -/
theorem inSet_entry_le {s : IndexSet} {dim d : ℕ} {m : List ℕ} (h : InSet s dim d m) : ∀ x ∈ m, x ≤ max 1 d := by
  intro x hx
  cases s with
  | triangle => have := h.2; have := List.single_le_sum (by simp) x hx; omega
  | cube => have := h.2 x hx; omega
  | rectangle =>
    obtain ⟨i, hi, rfl⟩ := List.getElem_of_mem hx
    have := h.2 i hi
    split at this <;> omega
  | cross =>
    have h1 := h.2
    have := List.single_le_prod (l := m.map (max 1)) (by simp) (max 1 x) (List.mem_map.2 ⟨x, hx, rfl⟩)
    omega
  | cross_nc =>
    have h1 := h.2
    have := List.single_le_prod (l := m.map (max 1)) (by simp) (max 1 x) (List.mem_map.2 ⟨x, hx, rfl⟩)
    omega

theorem foldlM_range_sum {n : ℕ} {body : ℝ → ℕ → Out ℝ} {g : ℕ → ℝ} (h : ∀ k < n, ∀ v, body v k = .ok (v + g k)) :
    (List.range n).foldlM body 0 = .ok (∑ k ∈ Finset.range n, g k) := by
  obtain ⟨v, e, hv⟩ := foldlM_inv (f := body) (fun i v => v = ∑ k ∈ Finset.range i, g k) (List.range n) 0 (by simp) (by
    intro i x a hx ha
    obtain ⟨hi, e⟩ := List.getElem?_eq_some_iff.1 hx
    simp at hi e
    subst e
    exact ⟨_, h i hi a, by rw [Finset.sum_range_succ, ha]⟩)
  rw [e, hv, List.length_range]

theorem foldlM_range_prod {n : ℕ} {body : ℝ → ℕ → Out ℝ} {g : ℕ → ℝ} (c : ℝ) (h : ∀ k < n, ∀ v, body v k = .ok (v * g k)) :
    (List.range n).foldlM body c = .ok (c * ∏ k ∈ Finset.range n, g k) := by
  obtain ⟨v, e, hv⟩ := foldlM_inv (f := body) (fun i v => v = c * ∏ k ∈ Finset.range i, g k) (List.range n) c (by simp) (by
    intro i x a hx ha
    obtain ⟨hi, e⟩ := List.getElem?_eq_some_iff.1 hx
    simp at hi e
    subst e
    exact ⟨_, h i hi a, by rw [Finset.prod_range_succ, ha, mul_assoc]⟩)
  rw [e, hv, List.length_range]

end Hermipy
