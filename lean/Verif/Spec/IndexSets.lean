import Mathlib.Algebra.BigOperators.Group.List.Basic
import Mathlib.Algebra.Order.BigOperators.Group.List
import Verif.Model.Iterators

/-!
# Specification of the index sets

Plain descriptions of the sets of multi-indices a user asks for, independent of any enumeration.
-/

namespace Hermipy.Spec

/-- Simplex: total degree at most `degree`. -/
def InTriangle (dim degree : Nat) (m : List Nat) : Prop := m.length = dim ∧ m.sum ≤ degree

/-- Cube: every entry at most `degree`. -/
def InCube (dim degree : Nat) (m : List Nat) : Prop := m.length = dim ∧ ∀ x ∈ m, x ≤ degree

/-- Hyperbolic cross: the product of `max 1 mᵢ` is at most `degree`. -/
def InCross (dim degree : Nat) (m : List Nat) : Prop := m.length = dim ∧ (m.map (max 1)).prod ≤ degree

/-- Anisotropic box: first entry at most `degree`, the others at most `degree / 2`. -/
def InRectangle (dim degree : Nat) (m : List Nat) : Prop :=
  m.length = dim ∧ ∀ i (h : i < m.length), m[i] ≤ if i = 0 then degree else degree / 2

/-- The set of multi-indices denoted by an index-set name. The crosses treat degree 0 like degree 1. -/
def InSet : IndexSet → Nat → Nat → List Nat → Prop
  | .triangle => InTriangle
  | .cube => InCube
  | .rectangle => InRectangle
  | .cross => fun dim degree => InCross dim (max 1 degree)
  | .cross_nc => fun dim degree => InCross dim (max 1 degree)

/-- `L` lists exactly the elements of `P`, each once. -/
def Lists (L : List (List Nat)) (P : List Nat → Prop) : Prop := L.Nodup ∧ ∀ m, m ∈ L ↔ P m

end Hermipy.Spec
