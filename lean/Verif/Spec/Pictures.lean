import Verif.Spec.Series
import Verif.Model.Pictures

/-! # Specification of the pictures of series and forms -/

namespace Hermipy.Spec

/-- `v` is the entry in row `i` and column `j`. -/
def EntryIs (matrix : List (List ℝ)) (i j : ℕ) (v : ℝ) : Prop := ∃ r, matrix[i]? = some r ∧ r[j]? = some v

/-- The points show the entries of the matrix which are not tiny, once each, at abscissa `i` and ordinate `j` for row `i` and column `j`, with the
absolute value as colour. -/
def Shows (points : List (ℕ × ℕ × ℝ)) (matrix : List (List ℝ)) : Prop :=
  points.Nodup ∧ ∀ i j c, (i, j, c) ∈ points ↔ ∃ v, EntryIs matrix i j v ∧ 1 / 10 ^ 9 < |v| ∧ c = |v|

/-- The stored entries represent the matrix: no place twice, and every entry that is not zero is stored (zeros may be stored). -/
structure Stores (coo : List (ℕ × ℕ × ℝ)) (matrix : List (List ℝ)) : Prop where
  once : (coo.map fun e => (e.1, e.2.1)).Nodup
  entry : ∀ i j v, (i, j, v) ∈ coo → EntryIs matrix i j v
  all : ∀ i j v, EntryIs matrix i j v → v ≠ 0 → (i, j, v) ∈ coo

/-- The number of multi-indices of a given degree. -/
noncomputable def setSize (s : IndexSet) (dim d : ℕ) : ℕ := {m : List ℕ | InSet s dim d m}.ncard

/-- The number of lines before the `k`-th row or column. -/
def linesBefore (lines : List ℕ) (k : ℕ) : ℕ := (lines.filter fun x => x ≤ k).length

end Hermipy.Spec
