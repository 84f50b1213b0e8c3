import Verif.Model.Matrix

/-!
# What a stored matrix means

`IsMat M n1 n2 f`: the object `M` is a well-formed `n1 × n2` matrix whose entry at `(i, j)` is `f i j`.
-/

namespace Hermipy.Spec

class Meaning (M : Type) (α : outParam Type) where
  IsMat : M → Nat → Nat → (Nat → Nat → α) → Prop

export Meaning (IsMat)

/-- Dense: `n1` rows of length `n2`. -/
instance {α : Type} : Meaning (DMat α) α where
  IsMat M n1 n2 f := M.length = n1 ∧ (∀ r ∈ M, r.length = n2) ∧
    ∀ i j r x, M[i]? = some r → r[j]? = some x → x = f i j

/-- Sparse: stored positions in range, in row-major order without repetition; positions that are not stored are zero. -/
instance {α : Type} [Zero α] : Meaning (SpMat α) α where
  IsMat M n1 n2 f := M.size1 = n1 ∧ M.size2 = n2 ∧ M.elems.Pairwise (fun a b => posLt a.1 b.1) ∧
    (∀ e ∈ M.elems, e.1.1 < n1 ∧ e.1.2 < n2 ∧ e.2 = f e.1.1 e.1.2) ∧
    ∀ i j, i < n1 → j < n2 → (∀ e ∈ M.elems, e.1 ≠ (i, j)) → f i j = 0

end Hermipy.Spec
