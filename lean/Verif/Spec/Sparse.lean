import Mathlib.Algebra.BigOperators.Group.List.Basic
import Verif.Model.Sparse

/-! # What a matrix in compressed row format means -/

namespace Hermipy.Spec

variable {α : Type}

/-- A consistent matrix in compressed row format. -/
structure CsrOk (A : Csr α) : Prop where
  indptr_length : A.indptr.length = A.size1 + 1
  mono : ∀ i, i < A.size1 → A.indptr.getD i 0 ≤ A.indptr.getD (i + 1) 0
  bound : A.indptr.getD A.size1 0 ≤ A.data.length
  indices_length : A.indices.length = A.data.length
  cols : ∀ c ∈ A.indices, c < A.size2

/-- The positions of the data that belong to entry `(i, j)`, in order. -/
def csrPositions (A : Csr α) (i j : Nat) : List Nat :=
  (List.range A.data.length).filter fun k =>
    decide (A.indptr.getD i 0 ≤ k ∧ k < A.indptr.getD (i + 1) 0 ∧ A.indices.getD k 0 = j)

/-- The entry at `(i, j)`: repeated entries are summed. -/
def csrEntry [Zero α] [Add α] (A : Csr α) (i j : Nat) : α := ((csrPositions A i j).map fun k => A.data.getD k 0).sum

/-- No entry is stored more than once. -/
def CsrCanonical (A : Csr α) : Prop := ∀ i j, i < A.size1 → (csrPositions A i j).length ≤ 1

end Hermipy.Spec
