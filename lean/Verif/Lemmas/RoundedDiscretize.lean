import Verif.Lemmas.Discretize
import Verif.Lemmas.TransformRounded
import Verif.Spec.RoundedVarfd

/-! # Discretisation in floating-point arithmetic -/

namespace Hermipy

open Spec

variable {α : Type} [Floats α] {val : α → ℝ} {u : ℝ}

theorem mapRow_approx (A : Accurate α val u) (t : α) (row p : List α) (k : ℕ) :
    Approx u (k + 1) (val (mapRow t row p k)) (val t + ∑ j ∈ Finset.range k, val (row.getD j 0) * val (p.getD j 0))
      (|val t| + ∑ j ∈ Finset.range k, |val (row.getD j 0)| * |val (p.getD j 0)|) := by
  induction k with
  | zero => simpa [mapRow] using Approx.exact A.nonneg 1 (val t)
  | succ k ih =>
    have h1 := (Approx.exact A.nonneg 0 (val (row.getD k 0))).mul A.nonneg (Approx.exact A.nonneg 0 (val (p.getD k 0))) (A.mul _ _)
    rw [mapRow_succ, Finset.sum_range_succ, Finset.sum_range_succ, ← add_assoc, ← add_assoc]
    exact ih.add A.nonneg (h1.mono A.nonneg (by omega)) (A.add _ _)

theorem affineF_approx (A : Accurate α val u) (t : List α) (D : List (List α)) (p : List α) {i : ℕ} (hi : i < p.length) :
    Approx u (p.length + 1) (val ((affineF t D p).getD i 0)) ((affine (t.map val) (reals val D) (p.map val)).getD i 0)
      (affineAbs (t.map val) (reals val D) (p.map val) i) := by
  have e1 : (affineF t D p).getD i 0 = mapRow (t.getD i 0) (D.getD i []) p p.length := by
    simp [affineF, hi]
  have e2 : (affine (t.map val) (reals val D) (p.map val)).getD i 0 = val (t.getD i 0) +
      ∑ j ∈ Finset.range p.length, val ((D.getD i []).getD j 0) * val (p.getD j 0) := by
    have h : ∀ j, val ((D.getD i []).getD j 0) = ((reals val D).getD i []).getD j 0 := fun j => (reals_getD A D i j).symm
    simp only [h, ← getD_map_val A]
    simp [affine, hi]
  have e3 : affineAbs (t.map val) (reals val D) (p.map val) i = |val (t.getD i 0)| +
      ∑ j ∈ Finset.range p.length, |val ((D.getD i []).getD j 0)| * |val (p.getD j 0)| := by
    have h : ∀ j, val ((D.getD i []).getD j 0) = ((reals val D).getD i []).getD j 0 := fun j => (reals_getD A D i j).symm
    simp only [h, ← getD_map_val A]
    simp [affineAbs]
  rw [e1, e2, e3]
  exact mapRow_approx A _ _ _ _

end Hermipy
