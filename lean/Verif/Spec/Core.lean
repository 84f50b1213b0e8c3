import Verif.Model.Core
import Verif.Spec.Matrix
import Verif.Spec.Sparse

/-! # Names of index sets; what Python values mean -/

namespace Hermipy.Spec

/-- The name of an index set. -/
def setName : IndexSet → String
  | .triangle => "triangle"
  | .cube => "cube"
  | .cross => "cross"
  | .cross_nc => "cross_nc"
  | .rectangle => "rectangle"

/-- The value is an `n1 × n2` matrix with entries `f`, dense or sparse. -/
def IsArr (v : Core.PyVal) (n1 n2 : ℕ) (f : ℕ → ℕ → ℝ) : Prop :=
  match v with
  | .mat m => IsMat m n1 n2 f
  | .csr A => CsrOk A ∧ A.size1 = n1 ∧ A.size2 = n2 ∧ ∀ i j, i < n1 → j < n2 → csrEntry A i j = f i j
  | _ => False

/-- The value is sparse. -/
def IsCsr (v : Core.PyVal) : Prop := ∃ A, v = .csr A

/-- No entry of a sparse matrix is stored more than once. -/
def Canonical (v : Core.PyVal) : Prop := ∀ A, v = .csr A → CsrCanonical A

end Hermipy.Spec
