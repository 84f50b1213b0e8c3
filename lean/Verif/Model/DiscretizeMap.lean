import Verif.Model.OperatorAlgebra
import Verif.Model.VarfObject

/-! # Model of `Quad.discretize_op` with the factor (`hermipy/quad.py`) -/

namespace Hermipy

variable {F : Type} [DecidableEq F] {K : Type} [CommRing K] [Algebra ℚ K] [DecidableEq K]

/-- The summands of an operator, as `split` sees them. operator.py:122, 132-135. -/
noncomputable def opArgs (vars : List K) (A : HOp K) : List (OpArg K) := A.terms.map fun t => linearArg vars t.coeff t.index

/-- `op.map(self.factor)` unless the factor is 1. quad.py:372-373. `g` is the expression of the factor. -/
def mapFactor (D : ℕ → K → K) (inv : K → K) (free : K → Finset ℕ) (q : HQuad F) (g : K) (A : HOp K) : Out (HOp K) :=
  if ¬ (q.factor.dirs = q.position.dirs ∧ g = 1) then op_map D inv free A (.fn ⟨g, q.factor.dirs⟩) else .ok A

/-- `Quad.discretize_op`. quad.py:366-390. What does not depend on the factor is in `discretize_op`. -/
noncomputable def quad_discretize_op (D : ℕ → K → K) (inv : K → K) (free : K → Finset ℕ) (vars : List K)
    (varf : SFn F → Out (HVarf (SFn F))) (varfd : SFn F → List ℕ → Out (HVarf (SFn F))) (fn : K → SFn F) (q : HQuad F) (g : K) (b : HArg K) :
    Out (HVarf (SFn F)) :=
  toOp q.position.dirs b >>= fun A => mapFactor D inv free q g A >>= fun B => discretize_op varf varfd fn q B.dirs (opArgs vars B)

end Hermipy
