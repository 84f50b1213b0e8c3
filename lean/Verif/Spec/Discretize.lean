import Verif.Spec.Basis
import Verif.Model.Discretize

/-! # Affine maps of points; histories of discretisations -/

namespace Hermipy.Spec

/-- The point `t + D p`. -/
noncomputable def affine (t : List ℝ) (D : List (List ℝ)) (p : List ℝ) : List ℝ :=
  (List.range p.length).map fun i => t.getD i 0 + ∑ j ∈ Finset.range p.length, (D.getD i []).getD j 0 * p.getD j 0

/-- The directory after a history of discretisations of the given bodies, starting with an empty one. -/
def filesAfter {F : Type} (hash : String → Nat) (compile : String → Option F) (history : List String) : SoFiles F :=
  history.foldl (intern_function hash compile) fun _ => none

end Hermipy.Spec
