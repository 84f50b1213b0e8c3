import Verif.Model.QuadObject
import Verif.Spec.Series
import Verif.Spec.Discretize

/-! # Quadratures: what the nodes stand for -/

namespace Hermipy.Spec
open Hermipy
variable {F : Type}

/-- On diagonal matrices, `la.eig` returns the diagonal and the unit vectors. -/
def EigDiag (eig : Eig) : Prop := ∀ v : List ℝ, eig (diagMat v) = (v, diagMat (List.replicate v.length 1))

/-- The directions of a function are increasing and include its variables. -/
structure SFnOk (f : SFn F) : Prop where
  sorted : f.dirs.Pairwise (· < ·)
  vars : ∀ p ∈ f.terms, ∀ a ∈ p, ∀ d ∈ a.1, d ∈ f.dirs

/-- A quadrature with diagonal covariance whose attributes fit together. -/
structure QuadOk (q : HQuad F) : Prop where
  pos : PosOk q.position
  diag : Diagonal q.position
  dim : q.nodes.length = q.position.dim
  grid : Grid q.nodes q.do_fourier
  weights : q.weights.map List.length = q.nodes.map List.length
  uniform : uniform q.nodes
  factor : SFnOk q.factor
  factorDirs : q.factor.dirs = q.position.dirs

/-- The coordinates of the point that the node `p` stands for: mean plus standard deviation times the node, in each direction. -/
noncomputable def gridPoint (pos : Position) (p : List ℝ) (d : ℕ) : ℝ :=
  pos.mean.getD (pos.dirs.idxOf d) 0 + √(entryOf pos.cov (pos.dirs.idxOf d) (pos.dirs.idxOf d)) * p.getD (pos.dirs.idxOf d) 0

end Hermipy.Spec
