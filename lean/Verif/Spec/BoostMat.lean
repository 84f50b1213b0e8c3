import Verif.Spec.Matrix
import Verif.Model.BoostMat

/-! # What a stored dense ublas matrix means -/

namespace Hermipy.Spec

/-- Row-major data of the right length. -/
instance {α : Type} : Meaning (BMat α) α where
  IsMat M n1 n2 f := M.size1 = n1 ∧ M.size2 = n2 ∧ M.data.length = n1 * n2 ∧
    ∀ i j, i < n1 → j < n2 → M.data[i * n2 + j]? = some (f i j)

end Hermipy.Spec
