import Verif.Spec.Quad

/-! # The one-dimensional rules of a quadrature -/

namespace Hermipy.Spec
open Hermipy
variable {F : Type}

/-- The nodes of the quadrature in the direction `d`. -/
def nodesIn (q : HQuad F) (d : ℕ) : List ℝ := q.nodes.getD (q.position.dirs.idxOf d) []

/-- The weights of the quadrature in the direction `d`. -/
def weightsIn (q : HQuad F) (d : ℕ) : List ℝ := q.weights.getD (q.position.dirs.idxOf d) []

/-- Quadratures which can be multiplied: their directions together are `D`, without repetitions, and they all have `n` nodes in each
direction. -/
structure Multipliable (args : List (HQuad F)) (D : List ℕ) (n : ℕ) : Prop where
  ne : args ≠ []
  ok : ∀ a ∈ args, QuadOk a
  sorted : D.Pairwise (· < ·)
  perm : (args.map fun a => a.position.dirs).flatten.Perm D
  points : ∀ a ∈ args, ∀ r ∈ a.nodes, r.length = n
  small : n ^ D.length < 2 ^ 32

end Hermipy.Spec
